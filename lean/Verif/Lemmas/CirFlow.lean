import Verif.Spec.Ncx2
import Verif.Lemmas.SvLaw
import Verif.Lemmas.GenAt
import Verif.Lemmas.CondDrv
import Verif.Spec.ItoSde

section -- Ncx2

/-! The moments of the non-central chi-square law. -/

namespace Ajd
open MeasureTheory ProbabilityTheory
open scoped ENNReal NNReal Nat

/-- the moments of the variance after a step: `u` is the scale, `w` the discounted variance, `a` the shape -/
def cirM {R : Type} [CommRing R] : ℕ → R → R → R → R
  | 0, _, _, _ => 1
  | n + 1, a, u, w => a * u * cirM n (a + 1) u w + w * cirM n (a + 2) u w

theorem cirM_nonneg (n : ℕ) (a u w : ℝ) (ha : 0 ≤ a) (hu : 0 ≤ u) (hw : 0 ≤ w) : 0 ≤ cirM n a u w := by
  induction n generalizing a with
  | zero => simp [cirM]
  | succ n ih =>
    have h1 := ih (a + 1) (by linarith)
    have h2 := ih (a + 2) (by linarith)
    rw [cirM]
    positivity

theorem map_cirM {R S : Type} [CommRing R] [CommRing S] (g : R →+* S) (n : ℕ) (a u w : R) :
    g (cirM n a u w) = cirM n (g a) (g u) (g w) := by
  induction n generalizing a with
  | zero => simp [cirM]
  | succ n ih =>
    have : g 2 = 2 := map_ofNat g 2
    simp [cirM, ih, this]

theorem cirM_smul (n : ℕ) (c a u w : ℝ) : c ^ n * cirM n a u w = cirM n a (c * u) (c * w) := by
  induction n generalizing a with
  | zero => simp [cirM]
  | succ n ih => rw [cirM, cirM, ← ih, ← ih]; ring

/-- two relations between neighbouring shapes -/
theorem cirM_rel {R : Type} [CommRing R] (n : ℕ) (a u w : R) :
    cirM n (a + 1) u w = cirM n a u w + n * u * cirM (n - 1) (a + 1) u w ∧
      a * cirM n (a + 1) u w + n * w * cirM (n - 1) (a + 2) u w = (a + n) * cirM n a u w := by
  induction n generalizing a with
  | zero => simp [cirM]
  | succ n ih =>
    have h1 := (ih (a + 2)).1
    have h2 := (ih (a + 1)).2
    have e1 : a + 1 + 1 = a + 2 := by ring
    have e2 : a + 1 + 2 = a + 3 := by ring
    have e3 : a + 2 + 1 = a + 3 := by ring
    rw [e1, e2] at h2
    rw [e3] at h1
    simp only [Nat.add_sub_cancel, cirM, e1, e2, Nat.cast_add, Nat.cast_one]
    constructor
    · linear_combination w * h1 + u * h2
    · linear_combination a * w * h1 + a * u * h2

theorem poisson_stein (m : ℝ≥0) (g : ℕ → ℝ≥0∞) :
    ∫⁻ n, (n : ℝ≥0∞) * g n ∂poissonMeasure m = m * ∫⁻ n, g (n + 1) ∂poissonMeasure m := by
  have h : ∀ f : ℕ → ℝ≥0∞, ∫⁻ n, f n ∂poissonMeasure m = ∑' n, ENNReal.ofReal (Real.exp (-m) * m ^ n / n !) * f n := by
    intro f
    rw [poissonMeasure, lintegral_sum_measure]
    refine tsum_congr fun n => ?_
    rw [lintegral_smul_measure, lintegral_dirac]
    rfl
  rw [h, h, tsum_eq_zero_add' ENNReal.summable, ← ENNReal.tsum_mul_left]
  simp only [Nat.cast_zero, zero_mul, mul_zero, zero_add]
  refine tsum_congr fun n => ?_
  rw [← mul_assoc, ← mul_assoc]
  congr 1
  have e1 : ((n + 1 : ℕ) : ℝ≥0∞) = ENNReal.ofReal ((n : ℝ) + 1) := by
    rw [← ENNReal.ofReal_natCast]; push_cast; rfl
  have e2 : (m : ℝ≥0∞) = ENNReal.ofReal (m : ℝ) := (ENNReal.ofReal_coe_nnreal).symm
  rw [e1, e2, ← ENNReal.ofReal_mul (by positivity), ← ENNReal.ofReal_mul (by positivity)]
  congr 1
  rw [Nat.factorial_succ]
  push_cast
  field_simp
  ring

theorem poisson_rise (n : ℕ) (a : ℝ) (ha : 0 ≤ a) (m : ℝ≥0) :
    ∫⁻ k : ℕ, ENNReal.ofReal (∏ j ∈ Finset.range n, ((a + k + j) * 2)) ∂poissonMeasure m =
      ENNReal.ofReal (cirM n a 2 (2 * m)) := by
  induction n generalizing a with
  | zero => simp [cirM]
  | succ n ih =>
    have h1 := ih (a + 1) (by linarith)
    have h2 := ih (a + 2) (by linarith)
    have e : ∀ k : ℕ, ENNReal.ofReal (∏ j ∈ Finset.range (n + 1), ((a + k + j) * 2)) =
        ENNReal.ofReal (a * 2) * ENNReal.ofReal (∏ j ∈ Finset.range n, ((a + 1 + k + j) * 2)) +
        2 * ((k : ℝ≥0∞) * ENNReal.ofReal (∏ j ∈ Finset.range n, ((a + 1 + k + j) * 2))) := by
      intro k
      have h0 : 0 ≤ ∏ j ∈ Finset.range n, ((a + 1 + k + j) * 2) := Finset.prod_nonneg fun j _ => by positivity
      have e1 : (k : ℝ≥0∞) = ENNReal.ofReal (k : ℝ) := (ENNReal.ofReal_natCast k).symm
      have e2 : (2 : ℝ≥0∞) = ENNReal.ofReal 2 := by simp
      rw [e1, e2, ← ENNReal.ofReal_mul (by positivity), ← ENNReal.ofReal_mul (by positivity),
        ← ENNReal.ofReal_mul (by positivity), ← ENNReal.ofReal_add (by positivity) (by positivity),
        Finset.prod_range_succ']
      congr 1
      have : ∏ j ∈ Finset.range n, ((a + k + ((j + 1 : ℕ) : ℝ)) * 2) = ∏ j ∈ Finset.range n, ((a + 1 + k + j) * 2) :=
        Finset.prod_congr rfl fun j _ => by push_cast; ring
      rw [this]
      push_cast
      ring
    rw [lintegral_congr e, lintegral_add_left .of_discrete, lintegral_const_mul _ .of_discrete,
      lintegral_const_mul _ .of_discrete, poisson_stein, h1]
    have h3 : ∫⁻ k : ℕ, ENNReal.ofReal (∏ j ∈ Finset.range n, ((a + 1 + ((k + 1 : ℕ) : ℝ) + j) * 2)) ∂poissonMeasure m =
        ENNReal.ofReal (cirM n (a + 2) 2 (2 * m)) := by
      rw [← h2]
      refine lintegral_congr fun k => ?_
      congr 1
      exact Finset.prod_congr rfl fun j _ => by push_cast; ring
    have n1 := cirM_nonneg n (a + 1) 2 (2 * m) (by linarith) (by norm_num) (by positivity)
    have n2 := cirM_nonneg n (a + 2) 2 (2 * m) (by linarith) (by norm_num) (by positivity)
    have e2 : (m : ℝ≥0∞) = ENNReal.ofReal (m : ℝ) := (ENNReal.ofReal_coe_nnreal).symm
    have e3 : (2 : ℝ≥0∞) = ENNReal.ofReal 2 := by simp
    rw [h3, e2, e3, ← ENNReal.ofReal_mul (by positivity), ← ENNReal.ofReal_mul (by positivity),
      ← ENNReal.ofReal_mul (by positivity), ← ENNReal.ofReal_add (by positivity) (by positivity), cirM]
    congr 1
    ring

theorem ncx2_prob (d l : ℝ) (hd : 0 < d) : IsProbabilityMeasure (ncx2 d l) := by
  constructor
  rw [ncx2, Measure.bind_apply .univ (Measurable.of_discrete).aemeasurable]
  have : ∀ n : ℕ, gammaMeasure ((d + 2 * n) / 2) (1 / 2) Set.univ = 1 := fun n =>
    (isProbabilityMeasure_gammaMeasure (by positivity) (by norm_num)).measure_univ
  rw [lintegral_congr this]
  simp

theorem ncx2_ae (d l : ℝ) : ∀ᵐ x ∂ncx2 d l, 0 ≤ x := by
  have hm : MeasurableSet {x : ℝ | ¬0 ≤ x} := (measurableSet_Ici (a := (0 : ℝ))).compl
  rw [ae_iff, ncx2, Measure.bind_apply hm (Measurable.of_discrete).aemeasurable]
  have : ∀ n : ℕ, gammaMeasure ((d + 2 * n) / 2) (1 / 2) {x | ¬0 ≤ x} = 0 := fun n => by
    rw [← ae_iff]
    exact Sv.gamma_nonneg _ _
  rw [lintegral_congr this]
  simp

theorem ncx2_lint (d l : ℝ) (hd : 0 < d) (hl : 0 ≤ l) (n : ℕ) :
    ∫⁻ x, ENNReal.ofReal (x ^ n) ∂ncx2 d l = ENNReal.ofReal (cirM n (d / 2) 2 l) := by
  rw [ncx2, Measure.lintegral_bind (Measurable.of_discrete).aemeasurable (by fun_prop)]
  have : ∀ k : ℕ, ∫⁻ x, ENNReal.ofReal (x ^ n) ∂gammaMeasure ((d + 2 * k) / 2) (1 / 2) =
      ENNReal.ofReal (∏ j ∈ Finset.range n, ((d / 2 + k + j) * 2)) := by
    intro k
    rw [← ofReal_integral_eq_lintegral_ofReal (Fsv1.gamma_integrable _ _ (by positivity) (by norm_num) n)
      ((Sv.gamma_nonneg _ _).mono fun x hx => by positivity), Ito.gamma_moment _ _ (by positivity) (by norm_num)]
    congr 1
    refine Finset.prod_congr rfl fun j _ => ?_
    ring
  rw [lintegral_congr this, poisson_rise n _ (by positivity), Real.coe_toNNReal _ (by positivity)]
  congr 2
  ring

theorem ncx2_integrable (d l : ℝ) (hd : 0 < d) (hl : 0 ≤ l) (n : ℕ) : Integrable (fun x => x ^ n) (ncx2 d l) := by
  refine ⟨by fun_prop, ?_⟩
  rw [HasFiniteIntegral]
  have : ∫⁻ x, ‖x ^ n‖ₑ ∂ncx2 d l = ∫⁻ x, ENNReal.ofReal (x ^ n) ∂ncx2 d l :=
    lintegral_congr_ae ((ncx2_ae d l).mono fun x hx => Real.enorm_of_nonneg (by positivity))
  rw [this, ncx2_lint d l hd hl]
  exact ENNReal.ofReal_lt_top

theorem ncx2_moment (d l : ℝ) (hd : 0 < d) (hl : 0 ≤ l) (n : ℕ) :
    ∫ x, x ^ n ∂ncx2 d l = cirM n (d / 2) 2 l := by
  rw [integral_eq_lintegral_of_nonneg_ae ((ncx2_ae d l).mono fun x hx => by positivity) (by fun_prop), ncx2_lint d l hd hl,
    ENNReal.toReal_ofReal (cirM_nonneg _ _ _ _ (by positivity) (by norm_num) hl)]

end Ajd

end -- Ncx2

section -- CirFlow

/-! The moments of the square-root diffusion, between given jumps. -/

namespace Ajd.SrjdJ
open MvPolynomial MeasureTheory Gen Filter Topology JumpDiff Dyn

abbrev Pol := MvPolynomial (Fin 1) ℝ

noncomputable def b1 (k θ : ℝ) : Fin 1 → Pol := ![C k * (C θ - X 0)]
noncomputable def a1 (σ : ℝ) : Fin 1 → Fin 1 → Pol := ![![C (σ ^ 2) * X 0]]

theorem sd_coef (k θ σ : ℝ) : PolyCoef (Ito.cir k θ σ) (b1 k θ) (a1 σ) where
  prob := by unfold Ito.cir; infer_instance
  hb x i := by fin_cases i; simp [b1, Ito.cir]
  ha x i j := by fin_cases i; fin_cases j; simp [a1, Ito.cir]
  db i := by
    fin_cases i
    simp only [b1, Fin.zero_eta, Matrix.cons_val_zero]
    refine (totalDegree_mul _ _).trans ?_
    rw [totalDegree_C, zero_add]
    refine (totalDegree_sub _ _).trans ?_
    simp
  da i j := by
    fin_cases i; fin_cases j
    simp only [a1, Fin.zero_eta, Matrix.cons_val_zero]
    refine (totalDegree_mul _ _).trans ?_
    rw [totalDegree_C, zero_add]
    simp

theorem sd_mom (k θ σ : ℝ) : Mom (Ito.cir k θ σ).ν := CondJ.mom_dirac 0

/-- the generator -/
noncomputable def gen1 (k θ σ : ℝ) : Pol →ₗ[ℝ] Pol := op (b1 k θ) (a1 σ) 0 (Measure.dirac 0) (CondJ.mom_dirac 0)

theorem gen1_pow (k θ σ : ℝ) (n : ℕ) : gen1 k θ σ (X 0 ^ n) =
    C (n * (k * θ + (n - 1) * σ ^ 2 / 2)) * X 0 ^ (n - 1) - C (n * k) * X 0 ^ n := by
  rw [gen1, op_apply, zero_smul, add_zero]
  simp only [Finset.univ_unique, Fin.default_eq_zero, Finset.sum_singleton, b1, a1, Matrix.cons_val_zero, Derivation.leibniz_pow, pderiv_X_self,
    smul_eq_mul, mul_one, nsmul_eq_mul]
  refine MvPolynomial.funext fun x => ?_
  rcases n with _ | _ | n
  · simp
  · simp; ring
  · simp [smul_eval, Derivation.leibniz, pderiv_X_self]
    ring

/-- the moments after the time `t`, as polynomials in the variance at the beginning -/
noncomputable def mo (k σ : ℝ) (n : ℕ) (a t : ℝ) : Pol :=
  cirM n (C a) (C (σ ^ 2 * (1 - Real.exp (-k * t)) / (2 * k))) (C (Real.exp (-k * t)) * X 0)

theorem mo_succ (k σ : ℝ) (n : ℕ) (a t : ℝ) : mo k σ (n + 1) a t =
    C (a * (σ ^ 2 * (1 - Real.exp (-k * t)) / (2 * k))) * mo k σ n (a + 1) t +
      C (Real.exp (-k * t)) * (X 0 * mo k σ n (a + 2) t) := by
  rw [mo, cirM, mo, mo]
  simp only [C_mul, C_add, map_ofNat, C_1]
  ring

theorem mo_rel (k σ : ℝ) (n : ℕ) (a t : ℝ) :
    C a * mo k σ n (a + 1) t + C (n * Real.exp (-k * t)) * (X 0 * mo k σ (n - 1) (a + 2) t) =
      C (a + n) * mo k σ n a t := by
  have := (cirM_rel n (C a) (C (σ ^ 2 * (1 - Real.exp (-k * t)) / (2 * k))) (C (Real.exp (-k * t)) * (X 0 : Pol))).2
  rw [mo, mo, mo]
  simp only [C_add, map_ofNat, C_1, C_mul, map_natCast] at this ⊢
  rw [← this]
  ring

theorem mo_zero (k σ : ℝ) (n : ℕ) (a : ℝ) : mo k σ n a 0 = X 0 ^ n := by
  induction n generalizing a with
  | zero => simp [mo, cirM]
  | succ n ih => rw [mo_succ, ih, ih]; simp [pow_succ']

theorem ell (ℓ : Pol →ₗ[ℝ] ℝ) (c : ℝ) (f : Pol) : ℓ (C c * f) = c * ℓ f := by
  rw [C_mul', map_smul, smul_eq_mul]

theorem mo_deriv {k : ℝ} (hk : k ≠ 0) (σ : ℝ) (n : ℕ) (a t : ℝ) (ℓ : Pol →ₗ[ℝ] ℝ) :
    HasDerivAt (fun t => ℓ (mo k σ n a t))
      (ℓ (C (n * (a + n - 1) * (σ ^ 2 / 2)) * mo k σ (n - 1) a t - C (n * k) * mo k σ n a t)) t := by
  induction n generalizing a ℓ with
  | zero =>
    simp only [mo, cirM]
    refine (hasDerivAt_const t _).congr_deriv ?_
    simp
  | succ n ih =>
    have hq : HasDerivAt (fun t => Real.exp (-k * t)) (-k * Real.exp (-k * t)) t := by
      have := ((hasDerivAt_id t).const_mul (-k)).exp
      refine this.congr_deriv ?_
      simp; ring
    have hu : HasDerivAt (fun t => a * (σ ^ 2 * (1 - Real.exp (-k * t)) / (2 * k))) (a * (σ ^ 2 / 2 * Real.exp (-k * t))) t := by
      have := (((hq.const_sub 1).const_mul (σ ^ 2)).div_const (2 * k)).const_mul a
      refine this.congr_deriv ?_
      field_simp
    have h1 := hu.mul (ih (a + 1) ℓ)
    have h2 := hq.mul (ih (a + 2) (ℓ ∘ₗ LinearMap.mulLeft ℝ (X 0)))
    have h := h1.add h2
    have e : (fun t => ℓ (mo k σ (n + 1) a t)) = ((fun t => a * (σ ^ 2 * (1 - Real.exp (-k * t)) / (2 * k))) * fun t => ℓ (mo k σ n (a + 1) t)) +
        (fun t => Real.exp (-k * t)) * fun t => (ℓ ∘ₗ LinearMap.mulLeft ℝ (X 0)) (mo k σ n (a + 2) t) := by
      funext t
      rw [mo_succ, map_add, ell, ell]
      rfl
    rw [e]
    refine h.congr_deriv ?_
    simp only [LinearMap.comp_apply, LinearMap.mulLeft_apply]
    rw [← ell, ← ell, ← ell, ← ell, ← map_add, ← map_add, ← map_add]
    congr 1
    rw [Nat.add_sub_cancel]
    have r := mo_rel k σ n a t
    refine MvPolynomial.funext fun x => ?_
    have r' := congrArg (eval x) r
    have m1 := congrArg (eval x) (mo_succ k σ n a t)
    have hku : k * (σ ^ 2 * (1 - Real.exp (-k * t)) / (2 * k)) = σ ^ 2 / 2 * (1 - Real.exp (-k * t)) := by field_simp
    clear e h h1 h2 hu hq ih r
    rcases n with _ | n
    · simp only [mo, cirM] at *
      simp only [map_add, map_sub, map_mul, eval_C, eval_X, map_one, map_zero, mul_one] at *
      push_cast at *
      linear_combination a * hku + k * m1
    · have m0 := congrArg (eval x) (mo_succ k σ n a t)
      simp only [Nat.add_sub_cancel] at r' ⊢
      simp only [map_add, map_sub, map_mul, eval_C, eval_X] at *
      push_cast at *
      linear_combination (a * eval x (mo k σ (n + 1) (a + 1) t)) * hku + σ ^ 2 / 2 * r' - (n + 1) * (a + n + 1) * σ ^ 2 / 2 * m0 +
        (n + 2) * k * m1

/-- the expectation of a polynomial after the time `t`, as a polynomial in the variance at the beginning -/
noncomputable def fl (k θ σ t : ℝ) : Pol →ₗ[ℝ] Pol :=
  (basisMonomials (Fin 1) ℝ).constr ℝ fun s => mo k σ (s 0) (2 * θ * k / σ ^ 2) t

theorem mono1 (s : Fin 1 →₀ ℕ) : (monomial s (1 : ℝ) : Pol) = X 0 ^ s 0 := by
  have : s = Finsupp.single 0 (s 0) := by
    refine Finsupp.ext fun i => ?_
    fin_cases i
    simp
  rw [X_pow_eq_monomial, ← this]

theorem fl_pow (k θ σ t : ℝ) (n : ℕ) : fl k θ σ t (X 0 ^ n) = mo k σ n (2 * θ * k / σ ^ 2) t := by
  have h := (basisMonomials (Fin 1) ℝ).constr_basis ℝ (fun s => mo k σ (s 0) (2 * θ * k / σ ^ 2) t) (Finsupp.single 0 n)
  rw [coe_basisMonomials] at h
  simp only [mono1, Finsupp.single_eq_same] at h
  exact h

/-- polynomials are combinations of powers -/
theorem pow_ind {p : Pol → Prop} (h1 : ∀ n, p (X 0 ^ n)) (h2 : ∀ f g, p f → p g → p (f + g)) (h3 : ∀ (c : ℝ) f, p f → p (c • f))
    (f : Pol) : p f := by
  induction f using MvPolynomial.induction_on' with
  | monomial s c =>
    have : (monomial s c : Pol) = c • X 0 ^ s 0 := by rw [← mono1, smul_monomial, smul_eq_mul, mul_one]
    rw [this]
    exact h3 _ _ (h1 _)
  | add f g hf hg => exact h2 _ _ hf hg

theorem fl_zero (k θ σ : ℝ) (f : Pol) : fl k θ σ 0 f = f := by
  induction f using pow_ind with
  | h1 n => rw [fl_pow, mo_zero]
  | h2 f g hf hg => rw [map_add, hf, hg]
  | h3 c f hf => rw [map_smul, hf]

theorem fl_deriv {k : ℝ} (hk : k ≠ 0) (θ : ℝ) {σ : ℝ} (hσ : σ ≠ 0) (ℓ : Pol →ₗ[ℝ] ℝ) (f : Pol) (t : ℝ) :
    HasDerivAt (fun t => ℓ (fl k θ σ t f)) (ℓ (fl k θ σ t (gen1 k θ σ f))) t := by
  induction f using pow_ind with
  | h1 n =>
    simp only [fl_pow]
    refine (mo_deriv hk σ n _ t ℓ).congr_deriv ?_
    rw [gen1_pow]
    simp only [map_sub, C_mul', map_smul, fl_pow]
    congr 2
    field_simp
    ring
  | h2 f g hf hg =>
    simp only [map_add]
    exact hf.add hg
  | h3 c f hf =>
    simp only [map_smul, smul_eq_mul]
    exact hf.const_mul c

section
variable {k θ σ : ℝ} {N : ℕ} {s J : Fin N → ℝ} {E0 : Pol →ₗ[ℝ] ℝ} {E : ℝ → Pol →ₗ[ℝ] ℝ}

theorem gen1_lf (k θ σ : ℝ) : LF (gen1 k θ σ) :=
  op_lf _ _ _ _ _ (sd_coef k θ σ).db (sd_coef k θ σ).da

/-- between the jumps -/
theorem fl_quiet (hk : k ≠ 0) (hσ : σ ≠ 0) (hs : Times s)
    (hE : (Ito.cir k θ σ).DynkinAt s (fun i => Measure.dirac ![J i]) E0 E) {a b : ℝ} (ha : 0 ≤ a) (hab : a ≤ b)
    (hq : Quiet s a b) (f : Pol) : E b f = E a (fl k θ σ (b - a) f) := by
  have hsol := dynkinAt_sol (sd_coef k θ σ) (sd_mom k θ σ) hs (fun i => CondJ.mom_dirac ![J i]) hE
  have hz := zero_on (gen1_lf k θ σ) (L := fun t => E t - E a ∘ₗ fl k θ σ (t - a)) hab (fun f => ?_) (fun f t ht => ?_) ?_
  · have := LinearMap.congr_fun hz f
    simpa [sub_eq_zero] using this
  · refine (hE.cont f a b ha hq).sub fun t _ => ?_
    have := (fl_deriv hk θ hσ (E a) f (t - a)).comp t ((hasDerivAt_id t).sub_const a)
    exact this.continuousAt.continuousWithinAt
  · have h1 := hsol.deriv f t (ha.trans ht.1)
    have h2 := (fl_deriv hk θ hσ (E a) f (t - a)).comp t ((hasDerivAt_id t).sub_const a)
    rw [mul_one] at h2
    exact h1.sub h2.hasDerivWithinAt
  · refine LinearMap.ext fun f => ?_
    simp [fl_zero]

/-- the jump of the variance -/
noncomputable def sh (J : ℝ) : Pol →ₗ[ℝ] Pol := (aeval fun _ => X 0 + C J : Pol →ₐ[ℝ] Pol).toLinearMap

theorem eval_sh (J : ℝ) (f : Pol) (x : Fin 1 → ℝ) : eval x (sh J f) = eval (fun _ => x 0 + J) f := by
  rw [sh, AlgHom.toLinearMap_apply, eval_aeval]
  simp

/-- the expectation at the time `T` as a polynomial in the variance at the time `a`, when the jumps after `a` are `l` -/
noncomputable def back (k θ σ T : ℝ) (f : Pol) : List (ℝ × ℝ) → ℝ → Pol
  | [], a => fl k θ σ (T - a) f
  | (τ, J) :: l, a => fl k θ σ (τ - a) (sh J (back k θ σ T f l τ))

theorem back_spec (hk : k ≠ 0) (hσ : σ ≠ 0) (hs : Times s)
    (hE : (Ito.cir k θ σ).DynkinAt s (fun i => Measure.dirac ![J i]) E0 E) {T : ℝ} (f : Pol) (l : List (ℝ × ℝ)) (a : ℝ)
    (ha : 0 ≤ a) (hT : a ≤ T) (hl : ∀ q ∈ l, q.1 ≤ T ∧ ∃ i, s i = q.1 ∧ J i = q.2) (hc : ∀ i, a < s i → ∃ q ∈ l, q.1 = s i)
    (ho : (a :: l.map Prod.fst).Pairwise (· < ·)) : E T f = E a (back k θ σ T f l a) := by
  induction l generalizing a with
  | nil =>
    refine fl_quiet hk hσ hs hE ha hT (fun i hi => ?_) f
    obtain ⟨q, hq, -⟩ := hc i hi.1
    simp at hq
  | cons q l ih =>
    obtain ⟨τ, j⟩ := q
    obtain ⟨hτ, i, hi, hj⟩ := hl (τ, j) (by simp)
    simp only at hτ hi hj
    rw [List.map_cons, List.pairwise_cons, List.pairwise_cons] at ho
    have haτ : a < τ := ho.1 τ (by simp)
    rw [ih τ (ha.trans haτ.le) hτ (fun q hq => hl q (by simp [hq])) (fun m hm => ?_) (by
      rw [List.pairwise_cons]; exact ho.2)]
    swap
    · obtain ⟨q, hq, e⟩ := hc m (haτ.trans hm)
      rcases List.mem_cons.1 hq with rfl | hq
      · exact absurd e hm.ne
      · exact ⟨q, hq, e⟩
    rw [back]
    obtain ⟨L, hL, hg⟩ := hE.jump i
    rw [hi] at hL hg
    rw [hg _ (sh j (back k θ σ T f l τ)) fun x => ?_]
    · refine tendsto_nhds_unique (hL _) ?_
      have hc2 : Tendsto (fun t => E a (fl k θ σ (t - a) (sh j (back k θ σ T f l τ)))) (𝓝[<] τ)
          (𝓝 (E a (fl k θ σ (τ - a) (sh j (back k θ σ T f l τ))))) := by
        have := (fl_deriv hk θ hσ (E a) (sh j (back k θ σ T f l τ)) (τ - a)).comp τ ((hasDerivAt_id τ).sub_const a)
        exact (this.continuousAt.tendsto).mono_left nhdsWithin_le_nhds
      refine hc2.congr' ?_
      filter_upwards [Ioo_mem_nhdsLT haτ] with t ht
      refine (fl_quiet hk hσ hs hE ha ht.1.le (fun m hm => ?_) _).symm
      obtain ⟨q, hq, e⟩ := hc m hm.1
      rcases List.mem_cons.1 hq with rfl | hq
      · rw [← e] at hm
        exact absurd ht.2 (not_lt.2 hm.2)
      · have := ho.2.1 q.1 (List.mem_map_of_mem hq)
        rw [e] at this
        linarith [hm.2, ht.2]
    · rw [eval_sh, integral_dirac, hj]
      refine congrArg (fun y => eval y _) (_root_.funext fun m => ?_)
      fin_cases m
      simp

end

end Ajd.SrjdJ

end -- CirFlow
