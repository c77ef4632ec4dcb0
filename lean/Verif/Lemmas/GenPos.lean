import Verif.Lemmas.Gen
import Mathlib.Analysis.Calculus.DerivativeTest
import Mathlib.Analysis.Calculus.MeanValue
import Mathlib.Topology.Algebra.MvPolynomial

/-!
A jump-diffusion that stays in a closed set: the expectation of a polynomial that is not negative on the set is not
negative. The proof is the maximum principle for the backward equation.
-/

namespace Ajd.Dyn
open NormedSpace

variable {P : Type} [AddCommGroup P] [Module ℝ P]

/-- a solution of the backward equation `du/dt = A u` in coordinates, `u_t = ∑ q_j(t) e_j` -/
structure Back (A : P →ₗ[ℝ] P) (f : P) (n : ℕ) (e : Fin n → P) (q q' : ℝ → Fin n → ℝ) : Prop where
  init : ∑ j, q 0 j • e j = f
  deriv : ∀ t j, HasDerivAt (fun t => q t j) (q' t j) t
  eqn : ∀ t, A (∑ j, q t j • e j) = ∑ j, q' t j • e j

theorem back_exists {A : P →ₗ[ℝ] P} (hA : LF A) (f : P) : ∃ n e q q', Back A f n e q q' := by
  obtain ⟨W, hW, hf, hinv⟩ := hA f
  let b := Module.finBasis ℝ W
  let V := Fin (Module.finrank ℝ W) → ℝ
  let e : W ≃ₗ[ℝ] V := b.equivFun
  let B : W →ₗ[ℝ] W := A.restrict hinv
  let M : V →L[ℝ] V := LinearMap.toContinuousLinearMap (e.toLinearMap ∘ₗ B ∘ₗ e.symm.toLinearMap)
  have hs : ∀ v : V, ∑ j, v j • (b j : P) = (e.symm v : W) := by
    intro v
    rw [Module.Basis.equivFun_symm_apply]
    simp
  refine ⟨_, fun j => (b j : P), fun t => exp (t • M) (e ⟨f, hf⟩), fun t => M (exp (t • M) (e ⟨f, hf⟩)), ?_, ?_, ?_⟩
  · have := hs (exp ((0 : ℝ) • M) (e ⟨f, hf⟩))
    rw [this, zero_smul, exp_zero]
    simp
  · intro t j
    have h1 := hasDerivAt_exp_smul_const' (𝕂 := ℝ) M t
    have h2 := (ContinuousLinearMap.apply ℝ V (e ⟨f, hf⟩)).hasFDerivAt.comp_hasDerivAt t h1
    exact (hasDerivAt_pi.1 h2) j
  · intro t
    have h1 := hs (exp (t • M) (e ⟨f, hf⟩))
    have h2 := hs (M (exp (t • M) (e ⟨f, hf⟩)))
    rw [h1, h2]
    simp [M, B]

/-- the forward and the backward equation are dual -/
theorem back_dual {A : P →ₗ[ℝ] P} {f : P} {n : ℕ} {e : Fin n → P} {q q' : ℝ → Fin n → ℝ} (h : Back A f n e q q')
    {L : ℝ → P →ₗ[ℝ] ℝ} (hL : Sol A L) (t : ℝ) (ht : 0 ≤ t) : L t f = L 0 (∑ j, q t j • e j) := by
  have hd : ∀ s ∈ Set.Ico 0 t, HasDerivWithinAt (fun s => ∑ j, q (t - s) j * L s (e j)) 0 (Set.Ici s) s := by
    intro s hs
    have h1 : ∀ j, HasDerivWithinAt (fun s => q (t - s) j * L s (e j))
        (-q' (t - s) j * L s (e j) + q (t - s) j * L s (A (e j))) (Set.Ici s) s := by
      intro j
      have a := (h.deriv (t - s) j).comp_const_sub t s
      exact a.hasDerivWithinAt.mul ((hL (e j) s hs.1).mono (Set.Ici_subset_Ici.2 hs.1))
    have h2 := HasDerivWithinAt.fun_sum fun j (_ : j ∈ Finset.univ) => h1 j
    refine h2.congr_deriv ?_
    have h3 := congrArg (L s) (h.eqn (t - s))
    simp only [map_sum, map_smul, smul_eq_mul] at h3
    rw [Finset.sum_add_distrib, h3]
    simp
  have hc : ContinuousOn (fun s => ∑ j, q (t - s) j * L s (e j)) (Set.Icc 0 t) := by
    refine continuousOn_finset_sum _ fun j _ => ContinuousOn.mul ?_ ((hL.cont (e j)).mono fun _ hx => hx.1)
    have : Continuous fun s => q s j := continuous_iff_continuousAt.2 fun s => (h.deriv s j).continuousAt
    exact (this.comp (continuous_const.sub continuous_id)).continuousOn
  have := constant_of_has_deriv_right_zero hc hd t ⟨ht, le_rfl⟩
  simp only [sub_self, sub_zero] at this
  rw [← h.init, map_sum, map_sum]
  simpa using this

end Ajd.Dyn

namespace Ajd.Gen
open MvPolynomial MeasureTheory Finset Dyn Filter Topology

variable {σ : Type} [Fintype σ]

/-- the derivative along a line -/
theorem line_deriv (f : MvPolynomial σ ℝ) (x v : σ → ℝ) (s : ℝ) :
    HasDerivAt (fun s : ℝ => eval (x + s • v) f) (∑ i, v i * eval (x + s • v) (pderiv i f)) s := by
  classical
  induction f using MvPolynomial.induction_on with
  | C a => simpa using hasDerivAt_const s a
  | add f g hf hg =>
    simp only [map_add, mul_add, sum_add_distrib]
    exact hf.add hg
  | mul_X f j hf =>
    have hj : HasDerivAt (fun s : ℝ => x j + s * v j) (v j) s := by
      simpa using ((hasDerivAt_id s).mul_const (v j)).const_add (x j)
    have h := hf.mul hj
    have e1 : (fun s : ℝ => eval (x + s • v) (f * X j)) = fun s => eval (x + s • v) f * (x j + s * v j) := by
      funext s; simp
    rw [e1]
    refine h.congr_deriv ?_
    simp only [Derivation.leibniz, smul_eq_mul, map_add, map_mul, eval_X, pderiv_X, mul_add, sum_add_distrib,
      Pi.add_apply, Pi.smul_apply]
    rw [add_comm, ← mul_add, sum_mul]
    congr 1
    · rw [Finset.sum_eq_single j]
      · simp; ring
      · intro i _ hi; simp [Pi.single_apply, Ne.symm hi]
      · simp
    · exact sum_congr rfl fun i _ => by ring

theorem line_deriv2 (f : MvPolynomial σ ℝ) (x v : σ → ℝ) (s : ℝ) :
    HasDerivAt (fun s : ℝ => ∑ i, v i * eval (x + s • v) (pderiv i f))
      (∑ i, ∑ j, v i * v j * eval (x + s • v) (pderiv i (pderiv j f))) s := by
  have := HasDerivAt.fun_sum fun i (_ : i ∈ Finset.univ) => (line_deriv (pderiv i f) x v s).const_mul (v i)
  refine this.congr_deriv ?_
  rw [sum_comm]
  refine sum_congr rfl fun i _ => ?_
  rw [mul_sum]
  exact sum_congr rfl fun j _ => by ring

theorem right_min {h : ℝ → ℝ} {h' δ : ℝ} (hd : HasDerivAt h h' 0) (hδ : 0 < δ)
    (hm : ∀ s, 0 ≤ s → s ≤ δ → h 0 ≤ h s) : 0 ≤ h' := by
  have := (hasDerivWithinAt_iff_tendsto_slope' (s := Set.Ioi 0) (by simp)).1 (hd.hasDerivWithinAt (s := Set.Ioi 0))
  refine ge_of_tendsto this ?_
  filter_upwards [Ioc_mem_nhdsGT hδ] with s hs
  rw [slope_def_field]
  exact div_nonneg (by linarith [hm s hs.1.le hs.2]) (by linarith [hs.1])

theorem second_min {h h1 : ℝ → ℝ} {h2 δ : ℝ} (hd : ∀ s, HasDerivAt h (h1 s) s) (hd2 : HasDerivAt h1 h2 0) (hδ : 0 < δ)
    (hm : ∀ s, |s| ≤ δ → h 0 ≤ h s) : 0 ≤ h2 := by
  have he : deriv h = h1 := funext fun s => (hd s).deriv
  have hmin : IsLocalMin h 0 := by
    filter_upwards [Metric.closedBall_mem_nhds (0 : ℝ) hδ] with s hs
    exact hm s (by simpa using hs)
  by_contra hneg
  have hmax : IsLocalMax h 0 := isLocalMax_of_deriv_deriv_neg (by rw [he, hd2.deriv]; exact not_le.1 hneg)
    hmin.deriv_eq_zero (hd 0).continuousAt
  have hc : h =ᶠ[𝓝 0] fun _ => h 0 := by
    filter_upwards [hmin, hmax] with s a b
    exact le_antisymm b a
  have h0 : h1 =ᶠ[𝓝 0] fun _ => 0 := by
    have := hc.deriv
    rw [he] at this
    simpa using this
  have := hd2.congr_of_eventuallyEq h0.symm
  have := this.unique (hasDerivAt_const 0 0)
  exact hneg this.ge

/-- the process does not leave `D` -/
structure Viable (c : JumpDiff σ) (D : Set (σ → ℝ)) : Prop where
  closed : IsClosed D
  drift : ∀ x ∈ D, ∃ δ : ℝ, 0 < δ ∧ ∀ s : ℝ, 0 ≤ s → s ≤ δ → x + s • c.b x ∈ D
  diff : ∀ x ∈ D, ∃ (n : ℕ) (w : Fin n → ℝ) (v : Fin n → σ → ℝ), (∀ i j, c.a x i j = ∑ r, w r * (v r i * v r j)) ∧
    ∀ r, w r = 0 ∨ (0 ≤ w r ∧ ∃ δ : ℝ, 0 < δ ∧ ∀ s : ℝ, |s| ≤ δ → x + s • v r ∈ D)
  lam : 0 ≤ c.lam
  jump : ∀ᵐ y ∂c.ν, ∀ x ∈ D, x + y ∈ D

/-- the generator is not negative at a minimum -/
theorem max_principle {c : JumpDiff σ} {D : Set (σ → ℝ)} (h : Viable c D) {g Ag : MvPolynomial σ ℝ} (hg : c.IsGen g Ag)
    {x : σ → ℝ} (hx : x ∈ D) (hm : ∀ y ∈ D, eval x g ≤ eval y g) : 0 ≤ eval x Ag := by
  rw [hg x]
  refine add_nonneg (add_nonneg ?_ ?_) ?_
  · obtain ⟨δ, hδ, hd⟩ := h.drift x hx
    have := line_deriv g x (c.b x) 0
    rw [zero_smul, add_zero] at this
    refine right_min this hδ fun s h0 h1 => ?_
    simpa using hm _ (hd s h0 h1)
  · obtain ⟨n, w, v, ha, hv⟩ := h.diff x hx
    have e : ∑ i, ∑ j, c.a x i j * eval x (pderiv i (pderiv j g)) =
        ∑ r, w r * ∑ i, ∑ j, v r i * v r j * eval x (pderiv i (pderiv j g)) := by
      simp only [ha, sum_mul, mul_sum]
      rw [sum_congr rfl fun i _ => sum_comm, sum_comm]
      exact sum_congr rfl fun r _ => sum_congr rfl fun i _ => sum_congr rfl fun j _ => by ring
    rw [e]
    refine mul_nonneg (by norm_num) (sum_nonneg fun r _ => ?_)
    rcases hv r with h0 | ⟨h0, δ, hδ, hd⟩
    · rw [h0, zero_mul]
    · refine mul_nonneg h0 ?_
      have h2 := line_deriv2 g x (v r) 0
      rw [zero_smul, add_zero] at h2
      refine second_min (line_deriv g x (v r)) h2 hδ fun s hs => ?_
      simpa using hm _ (hd s hs)
  · refine mul_nonneg h.lam (integral_nonneg_of_ae ?_)
    filter_upwards [h.jump] with y hy
    exact sub_nonneg.2 (hm _ (hy x hx))

/-- `1 + |x|^2` -/
noncomputable def N2 : MvPolynomial σ ℝ := 1 + ∑ i, X i ^ 2

theorem eval_N2 (x : σ → ℝ) : eval x N2 = 1 + ∑ i, x i ^ 2 := by simp [N2]

theorem one_le_N2 (x : σ → ℝ) : 1 ≤ eval x N2 := by
  rw [eval_N2]
  have : 0 ≤ ∑ i, x i ^ 2 := sum_nonneg fun i _ => sq_nonneg _
  linarith

theorem sq_le_N2 (x : σ → ℝ) (i : σ) : x i ^ 2 ≤ eval x N2 := by
  rw [eval_N2]
  have := single_le_sum (f := fun i => x i ^ 2) (fun i _ => sq_nonneg _) (mem_univ i)
  linarith

theorem N2_deg (M : ℕ) : (N2 ^ M : MvPolynomial σ ℝ).totalDegree ≤ 2 * M := by
  refine (totalDegree_pow _ _).trans ?_
  rw [mul_comm]
  refine Nat.mul_le_mul_right _ ((totalDegree_add _ _).trans (max_le (by simp) ?_))
  refine totalDegree_finsetSum_le fun i _ => ?_
  refine (totalDegree_pow _ _).trans ?_
  rw [totalDegree_X]

theorem mono_bound (m : σ →₀ ℕ) (M : ℕ) (hm : m.degree ≤ 2 * M) (x : σ → ℝ) :
    |∏ i, x i ^ m i| ≤ eval x N2 ^ M := by
  have h1 := one_le_N2 x
  set r := √(eval x N2) with hr
  have hr1 : 1 ≤ r := by rw [hr]; exact Real.one_le_sqrt.2 h1
  have hrr : r ^ 2 = eval x N2 := Real.sq_sqrt (by linarith)
  have hx : ∀ i, |x i| ≤ r := fun i => Real.abs_le_sqrt (sq_le_N2 x i)
  calc |∏ i, x i ^ m i| = ∏ i, |x i| ^ m i := by simp [abs_prod, abs_pow]
    _ ≤ ∏ i, r ^ m i := prod_le_prod (fun i _ => by positivity) fun i _ => pow_le_pow_left₀ (abs_nonneg _) (hx i) _
    _ = r ^ ∑ i, m i := prod_pow_eq_pow_sum _ _ _
    _ ≤ r ^ (2 * M) := pow_le_pow_right₀ hr1 (by rwa [← Finsupp.degree_eq_sum])
    _ = _ := by rw [pow_mul, hrr]

/-- polynomials grow no faster than their degree -/
theorem poly_bound (f : MvPolynomial σ ℝ) (M : ℕ) (hf : f.totalDegree ≤ 2 * M) :
    ∃ K : ℝ, 0 ≤ K ∧ ∀ x, |eval x f| ≤ K * eval x N2 ^ M := by
  refine ⟨∑ m ∈ f.support, |coeff m f|, sum_nonneg fun _ _ => abs_nonneg _, fun x => ?_⟩
  rw [eval_eq', sum_mul]
  refine (abs_sum_le_sum_abs _ _).trans (sum_le_sum fun m hm => ?_)
  rw [abs_mul]
  refine mul_le_mul_of_nonneg_left (mono_bound m M ?_ x) (abs_nonneg _)
  exact (le_totalDegree hm).trans hf

/-- the generator does not raise the degree -/
theorem op_mono (b : σ → MvPolynomial σ ℝ) (a : σ → σ → MvPolynomial σ ℝ) (lam : ℝ) (ν : Measure (σ → ℝ))
    (hν : Mom ν) (hb : ∀ i, (b i).totalDegree ≤ 1) (ha : ∀ i j, (a i j).totalDegree ≤ 2) (m : σ →₀ ℕ) :
    (op b a lam ν hν (monomial m 1)).totalDegree ≤ m.degree := by
  rw [op_apply]
  refine (totalDegree_add _ _).trans (max_le ((totalDegree_add _ _).trans (max_le ?_ ?_)) ?_)
  · refine totalDegree_finsetSum_le fun i _ => ?_
    obtain ⟨m', c', e, h⟩ := pderiv_mono_deg m i 1
    rw [e]
    rcases h with rfl | h
    · simp
    · refine (totalDegree_mul _ _).trans ?_
      have := totalDegree_monomial_le m' c'
      have := hb i
      have h2 : (m'.sum fun _ => id) = m'.degree := rfl
      omega
  · refine (totalDegree_smul_le _ _).trans ?_
    refine totalDegree_finsetSum_le fun i _ => totalDegree_finsetSum_le fun j _ => ?_
    obtain ⟨m', c', e, h⟩ := pderiv_mono_deg m j 1
    obtain ⟨m'', c'', e', h'⟩ := pderiv_mono_deg m' i c'
    rw [e, e']
    rcases h' with rfl | h'
    · simp
    rcases h with rfl | h
    · have : (0 : MvPolynomial σ ℝ) = monomial m'' c'' := by rw [← e']; simp
      rw [← this]; simp
    · refine (totalDegree_mul _ _).trans ?_
      have := totalDegree_monomial_le m'' c''
      have := ha i j
      have h2 : (m''.sum fun _ => id) = m''.degree := rfl
      omega
  · refine (totalDegree_smul_le _ _).trans ((totalDegree_sub _ _).trans (max_le (jump_deg ν hν m) ?_))
    exact totalDegree_monomial_le _ _

theorem op_deg {c : JumpDiff σ} {b : σ → MvPolynomial σ ℝ} {a : σ → σ → MvPolynomial σ ℝ} (h : PolyCoef c b a)
    (hν : Mom c.ν) (f : MvPolynomial σ ℝ) : (op b a c.lam c.ν hν f).totalDegree ≤ f.totalDegree := by
  rw [f.as_sum, map_sum]
  refine totalDegree_finsetSum_le fun m hm => ?_
  rw [show monomial m (coeff m f) = coeff m f • monomial m (1 : ℝ) by simp [smul_monomial], map_smul, ← f.as_sum]
  refine (totalDegree_smul_le _ _).trans ((op_mono b a c.lam c.ν hν h.db h.da m).trans (le_totalDegree hm))

/-- where a function that is negative somewhere, but not at time 0 and not far away, takes its minimum -/
theorem barrier {D : Set (σ → ℝ)} (hD : IsClosed D) {w : ℝ → (σ → ℝ) → ℝ}
    (hwc : Continuous fun z : ℝ × (σ → ℝ) => w z.1 z.2) {t1 : ℝ} (ht1 : 0 ≤ t1) {x1 : σ → ℝ} (hx1 : x1 ∈ D)
    (hneg : w t1 x1 < 0) {K : ℝ} (hw : ∀ t ∈ Set.Icc 0 t1, ∀ x, K < eval x N2 → 0 < w t x)
    (hw0 : ∀ x ∈ D, 0 ≤ w 0 x) :
    ∃ t0 x0, 0 < t0 ∧ x0 ∈ D ∧ (∀ x ∈ D, w t0 x0 ≤ w t0 x) ∧ ∀ s, 0 ≤ s → s ≤ t0 → w t0 x0 ≤ w (t0 - s) x0 := by
  set R := max K (eval x1 N2) with hR
  have hcs : IsCompact (D ∩ {x | eval x N2 ≤ R}) := by
    refine (isCompact_Icc (a := fun _ : σ => -R) (b := fun _ => R)).of_isClosed_subset ?_ ?_
    · exact hD.inter (isClosed_le (MvPolynomial.continuous_eval _) continuous_const)
    · rintro x ⟨-, hx⟩
      have hx : eval x N2 ≤ R := hx
      have hR1 : 1 ≤ R := (one_le_N2 x).trans hx
      have : ∀ i, |x i| ≤ R := fun i => by
        have h1 := (sq_le_N2 x i).trans hx
        have h2 : |x i| ^ 2 ≤ R ^ 2 := by rw [sq_abs]; nlinarith
        exact (pow_le_pow_iff_left₀ (abs_nonneg _) (by linarith) two_ne_zero).1 h2
      exact ⟨fun i => (abs_le.1 (this i)).1, fun i => (abs_le.1 (this i)).2⟩
  obtain ⟨⟨t0, x0⟩, ⟨ht0, hx0⟩, hmin⟩ := ((isCompact_Icc (a := (0 : ℝ)) (b := t1)).prod hcs).exists_isMinOn
    ⟨(t1, x1), ⟨ht1, le_rfl⟩, hx1, (le_max_right _ _ : eval x1 N2 ≤ R)⟩ hwc.continuousOn
  simp only at ht0 hx0
  have hmin' : ∀ t ∈ Set.Icc 0 t1, ∀ x ∈ D, eval x N2 ≤ R → w t0 x0 ≤ w t x := fun t ht x hx hn =>
    hmin (show (t, x) ∈ Set.Icc 0 t1 ×ˢ (D ∩ {x | eval x N2 ≤ R}) from ⟨ht, hx, hn⟩)
  have hm0 : w t0 x0 < 0 := (hmin' t1 ⟨ht1, le_rfl⟩ x1 hx1 (le_max_right _ _)).trans_lt hneg
  have ht0p : 0 < t0 := by
    rcases ht0.1.eq_or_lt with h0 | h0
    · have := hw0 x0 hx0.1
      rw [← h0] at hm0
      exact absurd hm0 (not_lt.2 this)
    · exact h0
  refine ⟨t0, x0, ht0p, hx0.1, fun x hx => ?_, fun s h0 hs => ?_⟩
  · by_cases hn : eval x N2 ≤ R
    · exact hmin' t0 ht0 x hx hn
    · exact hm0.le.trans (hw t0 ht0 x ((le_max_left _ _).trans_lt (not_le.1 hn))).le
  · exact hmin' (t0 - s) ⟨by linarith, by linarith [ht0.2]⟩ x0 hx0.1 hx0.2

/-- a solution of the backward equation grows no faster than a power of `1 + |x|^2` -/
theorem back_bound {n : ℕ} (e : Fin n → MvPolynomial σ ℝ) {q : ℝ → Fin n → ℝ} (hq : ∀ j, Continuous fun t => q t j)
    (t1 : ℝ) : ∃ (M : ℕ) (K : ℝ), ∀ t ∈ Set.Icc 0 t1, ∀ x, |eval x (∑ j, q t j • e j)| ≤ K * eval x N2 ^ M := by
  have hdeg : ∀ j, (e j).totalDegree ≤ 2 * ∑ j, (e j).totalDegree := fun j => by
    have := single_le_sum (f := fun j => (e j).totalDegree) (fun _ _ => Nat.zero_le _) (mem_univ j)
    omega
  choose Kj hKj0 hKj using fun j => poly_bound (e j) _ (hdeg j)
  choose B hB using fun j => (isCompact_Icc (a := (0 : ℝ)) (b := t1)).exists_bound_of_continuousOn (hq j).continuousOn
  refine ⟨∑ j, (e j).totalDegree, ∑ j, B j * Kj j, fun t ht x => ?_⟩
  rw [map_sum, sum_mul]
  refine (abs_sum_le_sum_abs _ _).trans (sum_le_sum fun j _ => ?_)
  rw [smul_eval, abs_mul, mul_assoc]
  have := hB j t ht
  rw [Real.norm_eq_abs] at this
  exact mul_le_mul this (hKj j x) (abs_nonneg _) ((abs_nonneg _).trans this)

/-- a solution of the backward equation stays non-negative on `D` -/
theorem back_pos {c : JumpDiff σ} {b : σ → MvPolynomial σ ℝ} {a : σ → σ → MvPolynomial σ ℝ} (h : PolyCoef c b a)
    (hν : Mom c.ν) {D : Set (σ → ℝ)} (hD : Viable c D) {f : MvPolynomial σ ℝ} (hf : ∀ x ∈ D, 0 ≤ eval x f)
    {n : ℕ} {e : Fin n → MvPolynomial σ ℝ} {q q' : ℝ → Fin n → ℝ} (hb : Back (op b a c.lam c.ν hν) f n e q q')
    {t1 : ℝ} (ht1 : 0 ≤ t1) {x1 : σ → ℝ} (hx1 : x1 ∈ D) : 0 ≤ eval x1 (∑ j, q t1 j • e j) := by
  by_contra hneg
  rw [not_le] at hneg
  have hq : ∀ j, Continuous fun t => q t j := fun j =>
    continuous_iff_continuousAt.2 fun s => (hb.deriv s j).continuousAt
  obtain ⟨M, K, hu⟩ := back_bound e hq t1
  obtain ⟨φ, hφ⟩ : ∃ φ : MvPolynomial σ ℝ, φ = N2 ^ (M + 1) := ⟨_, rfl⟩
  have hφe : ∀ x, eval x φ = eval x N2 ^ M * eval x N2 := fun x => by rw [hφ, map_pow, pow_succ]
  have hφ1 : ∀ x, 0 < eval x φ := fun x => by
    have := one_le_N2 x
    rw [hφe]
    positivity
  obtain ⟨C0, hC0, hC⟩ := poly_bound (op b a c.lam c.ν hν φ) (M + 1)
    ((op_deg h hν φ).trans (by rw [hφ]; exact N2_deg _))
  have hC : ∀ x, eval x (op b a c.lam c.ν hν φ) ≤ C0 * eval x φ := fun x => by
    have := (abs_le.1 (hC x)).2
    rwa [pow_succ, ← hφe] at this
  obtain ⟨ε, hε, hε1⟩ : ∃ ε > 0, eval x1 (∑ j, q t1 j • e j) + ε * Real.exp ((C0 + 1) * t1) * eval x1 φ < 0 := by
    have hp : 0 < Real.exp ((C0 + 1) * t1) * eval x1 φ := mul_pos (Real.exp_pos _) (hφ1 x1)
    refine ⟨-eval x1 (∑ j, q t1 j • e j) / (2 * (Real.exp ((C0 + 1) * t1) * eval x1 φ)), div_pos (by linarith) (by linarith), ?_⟩
    rw [mul_assoc, div_mul_eq_mul_div, mul_div_mul_right _ _ hp.ne']
    linarith
  obtain ⟨t0, x0, ht0, hx0, hminD, hminT⟩ := barrier (K := K / ε) hD.closed
    (w := fun t x => eval x (∑ j, q t j • e j) + ε * Real.exp ((C0 + 1) * t) * eval x φ)
    (by
      simp only [map_sum, smul_eval]
      refine Continuous.add (continuous_finset_sum _ fun j _ => ?_) (Continuous.mul (by fun_prop) ?_)
      · exact ((hq j).comp continuous_fst).mul ((MvPolynomial.continuous_eval _).comp continuous_snd)
      · exact (MvPolynomial.continuous_eval _).comp continuous_snd) ht1 hx1 hε1
    (by
      intro t ht x hx
      have h1 := (abs_le.1 (hu t ht x)).1
      have h2 := one_le_N2 x
      have h3 : 1 ≤ Real.exp ((C0 + 1) * t) := Real.one_le_exp (mul_nonneg (by linarith) ht.1)
      have h4 : ε * eval x φ ≤ ε * Real.exp ((C0 + 1) * t) * eval x φ := by
        have := mul_le_mul_of_nonneg_left h3 (mul_pos hε (hφ1 x)).le
        linarith
      have h5 : 0 < (ε * eval x N2 - K) * eval x N2 ^ M := by
        refine mul_pos ?_ (by positivity)
        rw [div_lt_iff₀ hε] at hx
        linarith
      have h6 := hφe x
      have h7 : ε * eval x φ = ε * eval x N2 * eval x N2 ^ M := by rw [h6]; ring
      linarith)
    (by
      intro x hx
      have h1 := hf x hx
      have h2 := mul_pos hε (hφ1 x)
      simp only [hb.init, mul_zero, Real.exp_zero, mul_one]
      linarith)
  -- in space
  obtain ⟨E, hE⟩ : ∃ E, E = ε * Real.exp ((C0 + 1) * t0) := ⟨_, rfl⟩
  have hEp : 0 < E := by rw [hE]; exact mul_pos hε (Real.exp_pos _)
  have hsp := max_principle hD (isGen_op h hν (∑ j, q t0 j • e j + E • φ)) hx0 (fun y hy => by
    have := hminD y hy
    rw [map_add, map_add, smul_eval, smul_eval, hE]
    exact this)
  rw [map_add, hb.eqn, map_smul, map_add, smul_eval] at hsp
  -- in time
  have htd : HasDerivAt (fun t => eval x0 (∑ j, q t j • e j) + ε * Real.exp ((C0 + 1) * t) * eval x0 φ)
      (eval x0 (∑ j, q' t0 j • e j) + E * (C0 + 1) * eval x0 φ) t0 := by
    simp only [map_sum, smul_eval]
    have h1 := HasDerivAt.fun_sum fun j (_ : j ∈ Finset.univ) => (hb.deriv t0 j).mul_const (eval x0 (e j))
    have h2 : HasDerivAt (fun t : ℝ => Real.exp ((C0 + 1) * t)) (Real.exp ((C0 + 1) * t0) * (C0 + 1)) t0 := by
      have : HasDerivAt (fun t : ℝ => (C0 + 1) * t) (C0 + 1) t0 := by
        simpa using (hasDerivAt_id t0).const_mul (C0 + 1)
      exact this.exp
    refine (h1.add ((h2.const_mul ε).mul_const (eval x0 φ))).congr_deriv ?_
    rw [hE]
    ring
  have htl : 0 ≤ -(eval x0 (∑ j, q' t0 j • e j) + E * (C0 + 1) * eval x0 φ) := by
    have h1 := HasDerivAt.comp_const_sub t0 0 (by rw [sub_zero]; exact htd)
    refine right_min h1 ht0 fun s h0 hs => ?_
    rw [sub_zero]
    exact hminT s h0 hs
  have hA := mul_le_mul_of_nonneg_left (hC x0) hEp.le
  have hB := mul_pos hEp (hφ1 x0)
  have e1 : E * (C0 + 1) * eval x0 φ = E * (C0 * eval x0 φ) + E * eval x0 φ := by ring
  rw [e1] at htl
  linarith

/-- the expectation of a polynomial that is not negative on `D` is not negative -/
theorem dynkin_pos {c : JumpDiff σ} {b : σ → MvPolynomial σ ℝ} {a : σ → σ → MvPolynomial σ ℝ} (h : PolyCoef c b a)
    (hν : Mom c.ν) {D : Set (σ → ℝ)} (hD : Viable c D) {E0 : MvPolynomial σ ℝ →ₗ[ℝ] ℝ}
    {E : ℝ → MvPolynomial σ ℝ →ₗ[ℝ] ℝ} (hE : c.Dynkin E0 E) (h0 : ∀ f, (∀ x ∈ D, 0 ≤ eval x f) → 0 ≤ E0 f) (t : ℝ)
    (ht : 0 ≤ t) (f : MvPolynomial σ ℝ) (hf : ∀ x ∈ D, 0 ≤ eval x f) : 0 ≤ E t f := by
  obtain ⟨hs, hi⟩ := dynkin_sol h hν hE
  obtain ⟨n, e, q, q', hb⟩ := back_exists (op_lf b a c.lam c.ν hν h.db h.da) f
  rw [back_dual hb hs t ht, hi]
  exact h0 _ fun x hx => back_pos h hν hD hf hb ht hx

end Ajd.Gen
