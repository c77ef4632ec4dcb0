import Verif.Lemmas.Heston2
import Mathlib.Algebra.MvPolynomial.PDeriv

/-! Stationarity of the variance of the Heston model, and two returns in a row. -/

namespace Ajd.Sv
open MvPolynomial Finset MeasureTheory SvcjI Ieziziz

/-- the generator on the powers of the variance -/
theorem gen_v (mu k θ σ ρ : ℝ) (n : ℕ) : (heston mu k θ σ ρ).IsGen (X 0 ^ n)
    (C (n * (k * θ + (n - 1) * σ ^ 2 / 2)) * X 0 ^ (n - 1) - C (n * k) * X 0 ^ n) := by
  intro x
  rcases n with _ | _ | n
  · simp [heston, Fin.sum_univ_two]
  · simp [heston, Fin.sum_univ_two, pderiv_X]
    ring
  · have h0 : pderiv (R := ℝ) (0 : Fin 2) (X 0 ^ (n + 1 + 1)) = C ((n : ℝ) + 2) * X 0 ^ (n + 1) := by
      rw [pderiv_pow, pderiv_X_self, mul_one, Nat.add_sub_cancel, ← map_natCast (C : ℝ →+* _)]; push_cast; ring_nf
    have h1 : pderiv (R := ℝ) (1 : Fin 2) (X 0 ^ (n + 1 + 1)) = 0 := by
      rw [pderiv_pow]; simp [pderiv_X]
    have h00 : pderiv (R := ℝ) (0 : Fin 2) (X 0 ^ (n + 1)) = C ((n : ℝ) + 1) * X 0 ^ n := by
      rw [pderiv_pow]; simp
    have h10 : pderiv (R := ℝ) (1 : Fin 2) (X 0 ^ (n + 1)) = 0 := by
      rw [pderiv_pow]; simp [pderiv_X]
    simp only [Fin.sum_univ_two, h0, h1, pderiv_C_mul, h00, h10]
    simp [heston]
    ring

theorem deriv_of_gen {mu k θ σ ρ : ℝ} {E0 : MvPolynomial (Fin 2) ℝ →ₗ[ℝ] ℝ} {E : ℝ → MvPolynomial (Fin 2) ℝ →ₗ[ℝ] ℝ}
    (hE : (heston mu k θ σ ρ).Dynkin E0 E) {f g : MvPolynomial (Fin 2) ℝ} (hg : (heston mu k θ σ ρ).IsGen f g)
    (t : ℝ) (ht : 0 ≤ t) : HasDerivWithinAt (fun t => E t f) (E t g) (Set.Ici 0) t := by
  have hE' := (dynkin_iff _ _ _ _ _ _ _).1 hE
  have h1 := (Gen.dynkin_sol (coef mu k θ σ ρ) mom hE').1 f t ht
  rwa [Gen.isGen_unique (Gen.isGen_op (coef mu k θ σ ρ) mom f) ((isGen_iff _ _ _ _ _ _ _).1 hg)] at h1

theorem at_zero {mu k θ σ ρ : ℝ} {E0 : MvPolynomial (Fin 2) ℝ →ₗ[ℝ] ℝ} {E : ℝ → MvPolynomial (Fin 2) ℝ →ₗ[ℝ] ℝ}
    (hE : (heston mu k θ σ ρ).Dynkin E0 E) : E 0 = E0 :=
  (Gen.dynkin_sol (coef mu k θ σ ρ) mom ((dynkin_iff _ _ _ _ _ _ _).1 hE)).2

theorem vMoment_succ (k θ σ : ℝ) (n : ℕ) : Ito.vMoment k θ σ (n + 1) =
    Ito.vMoment k θ σ n * (θ + n * σ ^ 2 / (2 * k)) := Finset.prod_range_succ _ _

theorem E_Cmul (L : MvPolynomial (Fin 2) ℝ →ₗ[ℝ] ℝ) (c : ℝ) (f : MvPolynomial (Fin 2) ℝ) : L (C c * f) = c * L f := by
  rw [← smul_eq_C_mul, map_smul, smul_eq_mul]

/-- the moments of the variance do not change when they start from `moment-v` -/
theorem stationary {mu k θ σ ρ : ℝ} (hk : k ≠ 0) {E0 : MvPolynomial (Fin 2) ℝ →ₗ[ℝ] ℝ}
    {E : ℝ → MvPolynomial (Fin 2) ℝ →ₗ[ℝ] ℝ} (hE : (heston mu k θ σ ρ).Dynkin E0 E)
    (h0 : ∀ n, E0 (X 0 ^ n) = Ito.vMoment k θ σ n) (n : ℕ) : ∀ t, 0 ≤ t → E t (X 0 ^ n) = Ito.vMoment k θ σ n := by
  induction n with
  | zero =>
    intro t ht
    have hg : (heston mu k θ σ ρ).IsGen (X 0 ^ 0) 0 := by simpa using gen_v mu k θ σ ρ 0
    rw [hE.formula _ _ hg t ht, h0]
    simp
  | succ n ih =>
    intro t ht
    have hz := Srjd.linear_zero (-((n + 1 : ℕ) * k)) (fun t => E t (X 0 ^ (n + 1)) - Ito.vMoment k θ σ (n + 1))
      (by rw [at_zero hE, h0, sub_self]) ((hE.cont _).sub continuousOn_const) (fun u hu => by
        have h1 := ((deriv_of_gen hE (gen_v mu k θ σ ρ (n + 1)) u hu.le).hasDerivAt (Ici_mem_nhds hu)).sub_const
          (Ito.vMoment k θ σ (n + 1))
        refine h1.congr_deriv ?_
        rw [map_sub, E_Cmul, E_Cmul, Nat.add_sub_cancel, ih u hu.le, vMoment_succ]
        push_cast
        field_simp
        ring) t ht
    exact sub_eq_zero.1 hz

/-- and only then -/
theorem stationary_unique {mu k θ σ ρ : ℝ} (hk : k ≠ 0) {E0 : MvPolynomial (Fin 2) ℝ →ₗ[ℝ] ℝ} (h1 : E0 1 = 1)
    {E : ℝ → MvPolynomial (Fin 2) ℝ →ₗ[ℝ] ℝ} (hE : (heston mu k θ σ ρ).Dynkin E0 E)
    (hs : ∀ n t, 0 ≤ t → E t (X 0 ^ n) = E0 (X 0 ^ n)) (n : ℕ) : E0 (X 0 ^ n) = Ito.vMoment k θ σ n := by
  induction n with
  | zero => rw [pow_zero, h1]; simp [Ito.vMoment]
  | succ n ih =>
    have hd := deriv_of_gen hE (gen_v mu k θ σ ρ (n + 1)) 0 le_rfl
    have hd' : HasDerivWithinAt (fun t => E t (X 0 ^ (n + 1))) 0 (Set.Ici 0) 0 :=
      (hasDerivWithinAt_const (0 : ℝ) (Set.Ici 0) (E0 (X 0 ^ (n + 1)))).congr (fun t ht => hs _ t ht) (hs _ 0 le_rfl)
    have := (uniqueDiffWithinAt_Ici (0 : ℝ)).eq_deriv _ hd hd'
    rw [at_zero hE, map_sub, E_Cmul, E_Cmul, Nat.add_sub_cancel, ih] at this
    rw [vMoment_succ]
    have hn : ((n + 1 : ℕ) : ℝ) ≠ 0 := by positivity
    have h2 : ((n + 1 : ℕ) : ℝ) * ((k * θ + (((n + 1 : ℕ) : ℝ) - 1) * σ ^ 2 / 2) * Ito.vMoment k θ σ n -
        k * E0 (X 0 ^ (n + 1))) = 0 := by linarith
    have h3 := (mul_eq_zero.1 h2).resolve_left hn
    push_cast at h3
    field_simp
    linear_combination (-2) * h3

/-! ### two returns -/

noncomputable def b3 (k θ mu : ℝ) : Fin 3 → MvPolynomial (Fin 3) ℝ := ![C k * (C θ - X 0), 0, C mu - C (1 / 2) * X 0]

noncomputable def a3 (σ ρ : ℝ) : Fin 3 → Fin 3 → MvPolynomial (Fin 3) ℝ :=
  ![![C (σ ^ 2) * X 0, 0, C (ρ * σ) * X 0], ![0, 0, 0], ![C (ρ * σ) * X 0, 0, X 0]]

theorem mom3 : Gen.Mom (Measure.dirac (0 : Fin 3 → ℝ)) := fun f => integrable_dirac (by simp)

theorem deg_lin (c : ℝ) (i : Fin 3) : (C c * X i : MvPolynomial (Fin 3) ℝ).totalDegree ≤ 1 :=
  (totalDegree_mul _ _).trans (by simp)

theorem coef3 (mu k θ σ ρ : ℝ) : Gen.PolyCoef (heston2 mu k θ σ ρ) (b3 k θ mu) (a3 σ ρ) where
  prob := by
    show IsProbabilityMeasure (Measure.dirac _)
    infer_instance
  hb x i := by
    fin_cases i
    · simp [b3, heston2]
    · simp [b3, heston2]
    · simp [b3, heston2]; ring
  ha x i j := by fin_cases i <;> fin_cases j <;> simp [a3, heston2]
  db i := by
    fin_cases i
    · refine (totalDegree_mul _ _).trans ?_
      rw [totalDegree_C, zero_add]
      refine (totalDegree_sub _ _).trans (max_le ?_ ?_)
      · rw [totalDegree_C]; omega
      · rw [totalDegree_X]
    · show (0 : MvPolynomial (Fin 3) ℝ).totalDegree ≤ 1
      rw [totalDegree_zero]; omega
    · refine (totalDegree_sub _ _).trans (max_le ?_ (deg_lin _ _))
      rw [totalDegree_C]; omega
  da i j := by
    have h : ∀ c : ℝ, (C c * X 0 : MvPolynomial (Fin 3) ℝ).totalDegree ≤ 2 := fun c => (deg_lin c 0).trans (by norm_num)
    have hz : (0 : MvPolynomial (Fin 3) ℝ).totalDegree ≤ 2 := by rw [totalDegree_zero]; omega
    fin_cases i <;> fin_cases j
    · exact h _
    · exact hz
    · exact h _
    · exact hz
    · exact hz
    · exact hz
    · exact h _
    · exact hz
    · show (X 0 : MvPolynomial (Fin 3) ℝ).totalDegree ≤ 2
      rw [totalDegree_X]; omega

/-- `y_1` is a constant of the second interval -/
theorem gen_second (mu k θ σ ρ : ℝ) (a : ℕ) {f g : MvPolynomial (Fin 2) ℝ} (h : (heston mu k θ σ ρ).IsGen f g) :
    (heston2 mu k θ σ ρ).IsGen (X 1 ^ a * rename ![0, 2] f) (X 1 ^ a * rename ![0, 2] g) := by
  have hinj : Function.Injective (![0, 2] : Fin 2 → Fin 3) := by decide
  have d0 : ∀ f : MvPolynomial (Fin 2) ℝ, pderiv 0 (X 1 ^ a * rename ![0, 2] f) =
      X 1 ^ a * rename (![0, 2] : Fin 2 → Fin 3) (pderiv 0 f) := fun f => by
    have := pderiv_rename hinj 0 f
    simp only [Matrix.cons_val] at this
    rw [pderiv_mul, this, pderiv_pow, pderiv_X_of_ne (by decide)]
    simp
  have d2 : ∀ f : MvPolynomial (Fin 2) ℝ, pderiv 2 (X 1 ^ a * rename ![0, 2] f) =
      X 1 ^ a * rename (![0, 2] : Fin 2 → Fin 3) (pderiv 1 f) := fun f => by
    have := pderiv_rename hinj 1 f
    simp only [Matrix.cons_val] at this
    rw [pderiv_mul, this, pderiv_pow, pderiv_X_of_ne (by decide)]
    simp
  intro x
  have hx := h (x ∘ ![0, 2])
  simp only [heston, heston2, Fin.sum_univ_two, Fin.sum_univ_three, Matrix.cons_val, d0, d2, map_mul, map_pow,
    eval_rename, eval_X, Function.comp_apply, zero_mul, add_zero, zero_add] at hx ⊢
  rw [hx]
  ring

theorem second {mu k θ σ ρ : ℝ} {Q : ℝ → MvPolynomial (Fin 2) ℝ →ₗ[ℝ] MvPolynomial (Fin 2) ℝ}
    (hQ : ∀ E0, (heston mu k θ σ ρ).Dynkin E0 fun t => E0 ∘ₗ Q t)
    {E0 : MvPolynomial (Fin 3) ℝ →ₗ[ℝ] ℝ} {E : ℝ → MvPolynomial (Fin 3) ℝ →ₗ[ℝ] ℝ}
    (hE : (heston2 mu k θ σ ρ).Dynkin E0 E) (a : ℕ) (f : MvPolynomial (Fin 2) ℝ) (t : ℝ) (ht : 0 ≤ t) :
    E t (X 1 ^ a * rename ![0, 2] f) = E0 (X 1 ^ a * rename ![0, 2] (Q t f)) := by
  let M : MvPolynomial (Fin 2) ℝ →ₗ[ℝ] MvPolynomial (Fin 3) ℝ :=
    LinearMap.mulLeft ℝ (X 1 ^ a) ∘ₗ (rename ![0, 2]).toLinearMap
  have hd : (heston mu k θ σ ρ).Dynkin (E0 ∘ₗ M) fun t => E t ∘ₗ M :=
    ⟨fun f => hE.cont (M f), fun f g hg t ht => hE.formula _ _ (gen_second mu k θ σ ρ a hg) t ht⟩
  have hu := Gen.dynkin_unique (coef mu k θ σ ρ) mom ((dynkin_iff _ _ _ _ _ _ _).1 hd)
    ((dynkin_iff _ _ _ _ _ _ _).1 (hQ (E0 ∘ₗ M))) t ht
  exact congrArg (fun L : MvPolynomial (Fin 2) ℝ →ₗ[ℝ] ℝ => L f) hu

/-- the second interval starts with `y_2 = 0` -/
theorem Second.eq {E : MvPolynomial (Fin 2) ℝ →ₗ[ℝ] ℝ} {E0 : MvPolynomial (Fin 3) ℝ →ₗ[ℝ] ℝ} (h : Second E E0) (a : ℕ)
    (f : MvPolynomial (Fin 2) ℝ) : E0 (X 1 ^ a * rename ![0, 2] f) = E (X 1 ^ a * aeval ![X 0, 0] f) := by
  induction f using MvPolynomial.induction_on' with
  | add p q hp hq => rw [map_add, mul_add, map_add, hp, hq, map_add, mul_add, map_add]
  | monomial s c =>
    have hm : monomial s c = C c * (X 0 ^ s 0 * X 1 ^ s 1 : MvPolynomial (Fin 2) ℝ) := by
      rw [monomial_eq, Finsupp.prod_fintype _ _ (by simp), Fin.prod_univ_two]
    rw [hm]
    simp only [map_mul, map_pow, rename_C, rename_X, algHom_C, MvPolynomial.algebraMap_eq, aeval_X, Matrix.cons_val]
    cases s 1 with
    | zero =>
      have := h.2 (X 1 ^ a * (C c * X 0 ^ s 0))
      simp only [map_mul, map_pow, rename_C, rename_X, Matrix.cons_val] at this
      simpa using this
    | succ n =>
      have := h.1 (X 1 ^ a * (C c * (X 0 ^ s 0 * X 2 ^ n)))
      rw [zero_pow (n := n + 1) (by omega), mul_zero, mul_zero, mul_zero, map_zero E, ← this]
      refine congrArg E0 ?_
      ring

end Ajd.Sv
