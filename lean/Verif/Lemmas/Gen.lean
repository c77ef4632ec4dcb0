import Verif.Spec.Gen
import Verif.Lemmas.Dyn
import Mathlib.RingTheory.MvPolynomial.Basic
import Mathlib.Algebra.MvPolynomial.Funext
import Mathlib.Algebra.MvPolynomial.Degrees
import Mathlib.MeasureTheory.Integral.IntervalIntegral.FundThmCalculus
import Mathlib.Data.Finsupp.Weight

/-! The generator of a jump-diffusion as an operator on polynomials. -/

namespace Ajd.Gen
open MvPolynomial MeasureTheory Dyn

variable {σ : Type} [Fintype σ]

/-- all moments of the jumps are finite -/
def Mom (ν : Measure (σ → ℝ)) : Prop := ∀ f : MvPolynomial σ ℝ, Integrable (fun y => eval y f) ν

theorem lf_of_mono (A : MvPolynomial σ ℝ →ₗ[ℝ] MvPolynomial σ ℝ)
    (h : ∀ m : σ →₀ ℕ, (A (monomial m 1)).totalDegree ≤ m.degree) : LF A := by
  intro f
  refine ⟨restrictTotalDegree σ ℝ f.totalDegree, inferInstance, (mem_restrictTotalDegree _ _ _).2 le_rfl,
    fun g hg => ?_⟩
  rw [mem_restrictTotalDegree] at hg ⊢
  rw [g.as_sum, map_sum]
  refine totalDegree_finsetSum_le fun m hm => ?_
  have : monomial m (coeff m g) = coeff m g • monomial m (1 : ℝ) := by simp [smul_monomial]
  rw [this, map_smul]
  refine (totalDegree_smul_le _ _).trans ((h m).trans ?_)
  refine le_trans ?_ hg
  have := le_totalDegree hm
  exact this

theorem pderiv_mono_deg (m : σ →₀ ℕ) (i : σ) (c : ℝ) : ∃ m' : σ →₀ ℕ, ∃ c' : ℝ,
    pderiv i (monomial m c) = monomial m' c' ∧ (c' = 0 ∨ m'.degree + 1 = m.degree) := by
  classical
  refine ⟨_, _, pderiv_monomial, ?_⟩
  by_cases h : m i = 0
  · left; simp [h]
  · right
    have : m = (m - Finsupp.single i 1) + Finsupp.single i 1 := by
      ext j
      by_cases hj : j = i
      · subst hj; simp; omega
      · simp [Finsupp.single_apply, Ne.symm hj]
    conv_rhs => rw [this]
    rw [map_add, Finsupp.degree_single]

/-- `(x_i + y_i)` expanded -/
theorem shift_exists (ν : Measure (σ → ℝ)) (hν : Mom ν) (n : ℕ) : ∀ (m : σ →₀ ℕ), m.degree = n →
    ∀ h : MvPolynomial σ ℝ, ∃ g : MvPolynomial σ ℝ, g.totalDegree ≤ n ∧
      ∀ x, Integrable (fun y => eval (x + y) (monomial m 1) * eval y h) ν ∧
        eval x g = ∫ y, eval (x + y) (monomial m 1) * eval y h ∂ν := by
  classical
  induction n with
  | zero =>
    intro m hm h
    rw [Finsupp.degree_eq_zero_iff] at hm
    subst hm
    refine ⟨C (∫ y, eval y h ∂ν), by simp, fun x => ?_⟩
    simpa using hν h
  | succ n ih =>
    intro m hm h
    obtain ⟨i, hi⟩ : ∃ i, m i ≠ 0 := by
      by_contra hc
      push Not at hc
      have : m = 0 := by ext i; simpa using hc i
      subst this
      simp at hm
    have e : m = (m - Finsupp.single i 1) + Finsupp.single i 1 := by
      ext j
      by_cases hj : j = i
      · subst hj; simp; omega
      · simp [Finsupp.single_apply, Ne.symm hj]
    generalize m - Finsupp.single i 1 = m' at e
    subst e
    have hm' : m'.degree = n := by
      rw [map_add, Finsupp.degree_single] at hm; omega
    obtain ⟨g1, d1, h1⟩ := ih m' hm' h
    obtain ⟨g2, d2, h2⟩ := ih m' hm' (X i * h)
    refine ⟨X i * g1 + g2, ?_, fun x => ?_⟩
    · refine (totalDegree_add _ _).trans (max_le ?_ (by omega))
      refine (totalDegree_mul _ _).trans ?_
      rw [totalDegree_X]; omega
    · have hf : (fun y => eval (x + y) (monomial (m' + Finsupp.single i 1) (1 : ℝ)) * eval y h) =
          fun y => x i * (eval (x + y) (monomial m' 1) * eval y h) +
            eval (x + y) (monomial m' 1) * eval y (X i * h) := by
        funext y
        rw [← one_mul (1 : ℝ), ← monomial_mul, one_mul, ← X, map_mul, map_mul, eval_X, eval_X, Pi.add_apply]
        ring
      have i1 := ((h1 x).1.const_mul (x i))
      refine ⟨by rw [hf]; exact i1.add (h2 x).1, ?_⟩
      rw [hf, integral_add i1 (h2 x).1, integral_const_mul, ← (h1 x).2, ← (h2 x).2, map_add, map_mul, eval_X]

/-- `f ↦ E[f(x + J)]` -/
theorem jump_exists (ν : Measure (σ → ℝ)) (hν : Mom ν) :
    ∃ J : MvPolynomial σ ℝ →ₗ[ℝ] MvPolynomial σ ℝ,
      (∀ m : σ →₀ ℕ, (J (monomial m 1)).totalDegree ≤ m.degree) ∧
      ∀ f x, Integrable (fun y => eval (x + y) f) ν ∧ eval x (J f) = ∫ y, eval (x + y) f ∂ν := by
  choose g hd hg using fun m : σ →₀ ℕ => shift_exists ν hν m.degree m rfl 1
  have hJ : ∀ m, (basisMonomials σ ℝ).constr ℝ g (monomial m 1) = g m := by
    intro m
    have := (basisMonomials σ ℝ).constr_basis ℝ g m
    rwa [coe_basisMonomials] at this
  refine ⟨(basisMonomials σ ℝ).constr ℝ g, fun m => by rw [hJ]; exact hd m, fun f x => ?_⟩
  have hm : ∀ m : σ →₀ ℕ, Integrable (fun y => eval (x + y) (monomial m 1)) ν ∧
      eval x (g m) = ∫ y, eval (x + y) (monomial m 1) ∂ν := by
    intro m
    simpa using hg m x
  have e : ∀ y : σ → ℝ, eval (x + y) f = ∑ m ∈ f.support, coeff m f * eval (x + y) (monomial m 1) := by
    intro y
    conv_lhs => rw [f.as_sum, map_sum]
    refine Finset.sum_congr rfl fun m _ => ?_
    rw [show monomial m (coeff m f) = coeff m f • monomial m (1 : ℝ) by simp [smul_monomial], smul_eval]
  have hi : ∀ m ∈ f.support, Integrable (fun y => coeff m f * eval (x + y) (monomial m (1 : ℝ))) ν :=
    fun m _ => (hm m).1.const_mul _
  refine ⟨by simp only [e]; exact integrable_finsetSum _ hi, ?_⟩
  simp only [e]
  rw [integral_finsetSum _ hi]
  conv_lhs => rw [f.as_sum, map_sum, map_sum]
  refine Finset.sum_congr rfl fun m _ => ?_
  rw [show monomial m (coeff m f) = coeff m f • monomial m (1 : ℝ) by simp [smul_monomial], map_smul, smul_eval,
    hJ, (hm m).2, integral_const_mul]

/-- `f ↦ E[f(x + J)]` -/
noncomputable def jump (ν : Measure (σ → ℝ)) (hν : Mom ν) : MvPolynomial σ ℝ →ₗ[ℝ] MvPolynomial σ ℝ :=
  (jump_exists ν hν).choose

theorem jump_deg (ν : Measure (σ → ℝ)) (hν : Mom ν) (m : σ →₀ ℕ) :
    (jump ν hν (monomial m 1)).totalDegree ≤ m.degree := (jump_exists ν hν).choose_spec.1 m

theorem jump_int (ν : Measure (σ → ℝ)) (hν : Mom ν) (f : MvPolynomial σ ℝ) (x : σ → ℝ) :
    Integrable (fun y => eval (x + y) f) ν := ((jump_exists ν hν).choose_spec.2 f x).1

theorem eval_jump (ν : Measure (σ → ℝ)) (hν : Mom ν) (f : MvPolynomial σ ℝ) (x : σ → ℝ) :
    eval x (jump ν hν f) = ∫ y, eval (x + y) f ∂ν := ((jump_exists ν hν).choose_spec.2 f x).2

/-- the generator, with polynomial coefficients -/
noncomputable def op (b : σ → MvPolynomial σ ℝ) (a : σ → σ → MvPolynomial σ ℝ) (lam : ℝ) (ν : Measure (σ → ℝ))
    (hν : Mom ν) : MvPolynomial σ ℝ →ₗ[ℝ] MvPolynomial σ ℝ :=
  ∑ i, LinearMap.mulLeft ℝ (b i) ∘ₗ (pderiv i).toLinearMap +
    (1 / 2 : ℝ) • ∑ i, ∑ j, LinearMap.mulLeft ℝ (a i j) ∘ₗ (pderiv i).toLinearMap ∘ₗ (pderiv j).toLinearMap +
    lam • (jump ν hν - LinearMap.id)

theorem op_apply (b : σ → MvPolynomial σ ℝ) (a : σ → σ → MvPolynomial σ ℝ) (lam : ℝ) (ν : Measure (σ → ℝ))
    (hν : Mom ν) (f : MvPolynomial σ ℝ) : op b a lam ν hν f = ∑ i, b i * pderiv i f +
      (1 / 2 : ℝ) • ∑ i, ∑ j, a i j * pderiv i (pderiv j f) + lam • (jump ν hν f - f) := by
  simp [op, LinearMap.sum_apply]

theorem op_lf (b : σ → MvPolynomial σ ℝ) (a : σ → σ → MvPolynomial σ ℝ) (lam : ℝ) (ν : Measure (σ → ℝ))
    (hν : Mom ν) (hb : ∀ i, (b i).totalDegree ≤ 1) (ha : ∀ i j, (a i j).totalDegree ≤ 2) :
    LF (op b a lam ν hν) := by
  apply lf_of_mono
  intro m
  rw [op_apply]
  refine (totalDegree_add _ _).trans (max_le ((totalDegree_add _ _).trans (max_le ?_ ?_)) ?_)
  · refine totalDegree_finsetSum_le fun i _ => ?_
    obtain ⟨m', c', e, h⟩ := pderiv_mono_deg m i 1
    rw [e]
    rcases h with rfl | h
    · simp
    · refine (totalDegree_mul _ _).trans ?_
      have := totalDegree_monomial_le m' c'
      have := hb i
      have h2 : (m'.sum fun _ => id) = m'.degree := rfl
      omega
  · refine (totalDegree_smul_le _ _).trans ?_
    refine totalDegree_finsetSum_le fun i _ => totalDegree_finsetSum_le fun j _ => ?_
    obtain ⟨m', c', e, h⟩ := pderiv_mono_deg m j 1
    obtain ⟨m'', c'', e', h'⟩ := pderiv_mono_deg m' i c'
    rw [e, e']
    rcases h' with rfl | h'
    · simp
    rcases h with rfl | h
    · have : (0 : MvPolynomial σ ℝ) = monomial m'' c'' := by rw [← e']; simp
      rw [← this]; simp
    · refine (totalDegree_mul _ _).trans ?_
      have := totalDegree_monomial_le m'' c''
      have := ha i j
      have h2 : (m''.sum fun _ => id) = m''.degree := rfl
      omega
  · refine (totalDegree_smul_le _ _).trans ((totalDegree_sub _ _).trans (max_le (jump_deg ν hν m) ?_))
    exact totalDegree_monomial_le _ _

/-- the coefficients of `c` are the polynomials `b`, `a` -/
structure PolyCoef (c : JumpDiff σ) (b : σ → MvPolynomial σ ℝ) (a : σ → σ → MvPolynomial σ ℝ) : Prop where
  prob : IsProbabilityMeasure c.ν
  hb : ∀ x i, eval x (b i) = c.b x i
  ha : ∀ x i j, eval x (a i j) = c.a x i j
  db : ∀ i, (b i).totalDegree ≤ 1
  da : ∀ i j, (a i j).totalDegree ≤ 2

theorem isGen_op {c : JumpDiff σ} {b : σ → MvPolynomial σ ℝ} {a : σ → σ → MvPolynomial σ ℝ} (h : PolyCoef c b a)
    (hν : Mom c.ν) (f : MvPolynomial σ ℝ) : c.IsGen f (op b a c.lam c.ν hν f) := by
  intro x
  have := h.prob
  rw [op_apply, map_add, map_add, smul_eval, smul_eval, map_sum, map_sum, map_sub, eval_jump,
    integral_sub (jump_int _ hν f x) (integrable_const _), integral_const]
  simp [h.hb, h.ha]

theorem isGen_unique {c : JumpDiff σ} {f g g' : MvPolynomial σ ℝ} (h : c.IsGen f g) (h' : c.IsGen f g') : g = g' :=
  MvPolynomial.funext fun x => (h x).trans (h' x).symm

theorem dynkin_sol {c : JumpDiff σ} {b : σ → MvPolynomial σ ℝ} {a : σ → σ → MvPolynomial σ ℝ} (h : PolyCoef c b a)
    (hν : Mom c.ν) {E0 : MvPolynomial σ ℝ →ₗ[ℝ] ℝ} {E : ℝ → MvPolynomial σ ℝ →ₗ[ℝ] ℝ} (hE : c.Dynkin E0 E) :
    Sol (op b a c.lam c.ν hν) E ∧ E 0 = E0 := by
  constructor
  · intro f t ht
    have hf := hE.formula f _ (isGen_op h hν f)
    generalize op b a c.lam c.ν hν f = g at hf ⊢
    have hc : Continuous fun s => E (max s 0) g :=
      (hE.cont g).comp_continuous (continuous_id.max continuous_const) fun s => Set.mem_Ici.2 (le_max_right _ _)
    have hd := (hc.integral_hasStrictDerivAt 0 t).hasDerivAt.const_add (E0 f)
    rw [max_eq_left ht] at hd
    refine hd.hasDerivWithinAt.congr (fun s hs => ?_) ?_
    · rw [hf s hs]
      congr 1
      apply intervalIntegral.integral_congr
      intro u hu
      rw [Set.uIcc_of_le hs] at hu
      simp only [max_eq_left hu.1]
    · rw [hf t ht]
      congr 1
      apply intervalIntegral.integral_congr
      intro u hu
      rw [Set.uIcc_of_le ht] at hu
      simp only [max_eq_left hu.1]
  · refine LinearMap.ext fun f => ?_
    have hf := hE.formula f _ (isGen_op h hν f) 0 le_rfl
    simpa using hf

theorem dynkin_of_sol {c : JumpDiff σ} {b : σ → MvPolynomial σ ℝ} {a : σ → σ → MvPolynomial σ ℝ}
    (h : PolyCoef c b a) (hν : Mom c.ν) {E : ℝ → MvPolynomial σ ℝ →ₗ[ℝ] ℝ}
    (hE : Sol (op b a c.lam c.ν hν) E) : c.Dynkin (E 0) E := by
  refine ⟨fun f => hE.cont f, fun f g hg t ht => ?_⟩
  obtain rfl := isGen_unique hg (isGen_op h hν f)
  have hcont := (hE.cont (op b a c.lam c.ν hν f)).mono (Set.Icc_subset_Ici_self : Set.Icc 0 t ⊆ _)
  have := intervalIntegral.integral_eq_sub_of_hasDeriv_right_of_le ht
    ((hE.cont f).mono (Set.Icc_subset_Ici_self : Set.Icc 0 t ⊆ _))
    (fun s hs => (hE f s hs.1.le).mono (fun u hu => le_of_lt (lt_trans hs.1 hu)))
    (by rw [← Set.uIcc_of_le ht] at hcont; exact hcont.intervalIntegrable)
  rw [this]; ring

/-- the moments are determined by the coefficients and the initial law -/
theorem dynkin_unique {c : JumpDiff σ} {b : σ → MvPolynomial σ ℝ} {a : σ → σ → MvPolynomial σ ℝ}
    (h : PolyCoef c b a) (hν : Mom c.ν) {E0 : MvPolynomial σ ℝ →ₗ[ℝ] ℝ} {E E' : ℝ → MvPolynomial σ ℝ →ₗ[ℝ] ℝ}
    (hE : c.Dynkin E0 E) (hE' : c.Dynkin E0 E') (t : ℝ) (ht : 0 ≤ t) : E t = E' t := by
  obtain ⟨s, i⟩ := dynkin_sol h hν hE
  obtain ⟨s', i'⟩ := dynkin_sol h hν hE'
  exact sol_unique (op_lf b a _ _ hν h.db h.da) s s' (i.trans i'.symm) t ht

/-- and they exist; the moments for an initial point are polynomials in it -/
theorem dynkin_exists {c : JumpDiff σ} {b : σ → MvPolynomial σ ℝ} {a : σ → σ → MvPolynomial σ ℝ}
    (h : PolyCoef c b a) (hν : Mom c.ν) : ∃ Q : ℝ → MvPolynomial σ ℝ →ₗ[ℝ] MvPolynomial σ ℝ,
      ∀ E0 : MvPolynomial σ ℝ →ₗ[ℝ] ℝ, c.Dynkin E0 fun t => E0 ∘ₗ Q t := by
  obtain ⟨Q, h0, hQ⟩ := exists_semigroup (op_lf b a c.lam c.ν hν h.db h.da)
  refine ⟨Q, fun E0 => ?_⟩
  have := dynkin_of_sol h hν (hQ E0)
  rwa [h0, LinearMap.comp_id] at this

end Ajd.Gen
