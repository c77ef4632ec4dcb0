import Verif.Lemmas.Sv2Repr
import Verif.Lemmas.Heston3
import Verif.Lemmas.GenJump
import Verif.Spec.Fsv2j
import Verif.Lemmas.Fsv2Inst

section -- Sv2Two

/-! Stationarity of the variances of the two-factor model, two returns in a row, and jumps in the price. -/

namespace Ajd.Sv2
open MvPolynomial Finset MeasureTheory SvcjI

/-! ### stationarity -/

/-- the generator on the monomials of the variances -/
theorem gen_v (mu k1 k2 θ1 σ1 θ2 σ2 : ℝ) (m n : ℕ) : (sv2 mu k1 k2 θ1 σ1 θ2 σ2).IsGen (X 0 ^ m * X 1 ^ n)
    (C (m * (k1 * θ1 + (m - 1) * σ1 ^ 2 / 2)) * (X 0 ^ (m - 1) * X 1 ^ n) +
      C (n * (k2 * θ2 + (n - 1) * σ2 ^ 2 / 2)) * (X 0 ^ m * X 1 ^ (n - 1)) -
      C (m * k1 + n * k2) * (X 0 ^ m * X 1 ^ n)) := by
  intro x
  have d0 : ∀ m n : ℕ, pderiv (R := ℝ) (0 : Fin 3) (X 0 ^ m * X 1 ^ n) = C (m : ℝ) * (X 0 ^ (m - 1) * X 1 ^ n) := by
    intro m n
    rw [Derivation.leibniz, pderiv_pow, pderiv_pow, pderiv_X_self, pderiv_X_of_ne (by decide), map_natCast]
    simp only [smul_eq_mul]
    ring
  have d1 : ∀ m n : ℕ, pderiv (R := ℝ) (1 : Fin 3) (X 0 ^ m * X 1 ^ n) = C (n : ℝ) * (X 0 ^ m * X 1 ^ (n - 1)) := by
    intro m n
    rw [Derivation.leibniz, pderiv_pow, pderiv_pow, pderiv_X_self, pderiv_X_of_ne (by decide), map_natCast]
    simp only [smul_eq_mul]
    ring
  have d2 : ∀ m n : ℕ, pderiv (R := ℝ) (2 : Fin 3) (X 0 ^ m * X 1 ^ n) = 0 := by
    intro m n
    rw [Derivation.leibniz, pderiv_pow, pderiv_pow, pderiv_X_of_ne (by decide), pderiv_X_of_ne (by decide)]
    simp
  have e1 : ∀ (m : ℕ) (y : ℝ), (m : ℝ) * (y * y ^ (m - 1)) = m * y ^ m := by
    intro m y
    rcases m with _ | m
    · simp
    · rw [Nat.add_sub_cancel, pow_succ]; ring
  have e2 : ∀ (m : ℕ) (y : ℝ), (m : ℝ) * (((m - 1 : ℕ) : ℝ) * (y * y ^ (m - 1 - 1))) = m * (m - 1) * y ^ (m - 1) := by
    intro m y
    rw [e1]
    rcases m with _ | m
    · simp
    · push_cast; ring
  simp only [Fin.sum_univ_three, d0, d1, d2, map_zero, pderiv_C_mul, sv2, Matrix.cons_val, mul_zero, add_zero, zero_mul,
    map_mul, map_pow, eval_C, eval_X, map_add, map_sub, zero_add, zero_smul]
  linear_combination (k1 * x 1 ^ n) * e1 m (x 0) + (k2 * x 0 ^ m) * e1 n (x 1) -
    (σ1 ^ 2 / 2 * x 1 ^ n) * e2 m (x 0) - (σ2 ^ 2 / 2 * x 0 ^ m) * e2 n (x 1)

theorem deriv_of_gen {mu k1 k2 θ1 σ1 θ2 σ2 : ℝ} {E0 : MvPolynomial (Fin 3) ℝ →ₗ[ℝ] ℝ}
    {E : ℝ → MvPolynomial (Fin 3) ℝ →ₗ[ℝ] ℝ} (hE : (sv2 mu k1 k2 θ1 σ1 θ2 σ2).Dynkin E0 E)
    {f g : MvPolynomial (Fin 3) ℝ} (hg : (sv2 mu k1 k2 θ1 σ1 θ2 σ2).IsGen f g)
    (t : ℝ) (ht : 0 ≤ t) : HasDerivWithinAt (fun t => E t f) (E t g) (Set.Ici 0) t := by
  have h1 := (Gen.dynkin_sol (coefY mu k1 k2 θ1 σ1 θ2 σ2) momY hE).1 f t ht
  rwa [Gen.isGen_unique (Gen.isGen_op (coefY mu k1 k2 θ1 σ1 θ2 σ2) momY f) hg] at h1

theorem bal (k θ σ : ℝ) (hk : k ≠ 0) (m : ℕ) : (m : ℝ) * (k * θ + (m - 1) * σ ^ 2 / 2) * Ito.vMoment k θ σ (m - 1) =
    m * k * Ito.vMoment k θ σ m := by
  rcases m with _ | m
  · simp
  · rw [Nat.add_sub_cancel, Sv.vMoment_succ]
    push_cast
    field_simp
    ring

/-- the moments of the variances do not change when they start from `moment-v` -/
theorem stationary {mu k1 k2 θ1 σ1 θ2 σ2 : ℝ} (h1 : k1 ≠ 0) (h2 : k2 ≠ 0) {E0 : MvPolynomial (Fin 3) ℝ →ₗ[ℝ] ℝ}
    {E : ℝ → MvPolynomial (Fin 3) ℝ →ₗ[ℝ] ℝ} (hE : (sv2 mu k1 k2 θ1 σ1 θ2 σ2).Dynkin E0 E)
    (h0 : ∀ m n, E0 (X 0 ^ m * X 1 ^ n) = Ito.vMoment k1 θ1 σ1 m * Ito.vMoment k2 θ2 σ2 n) (N : ℕ) :
    ∀ m n, m + n = N → ∀ t, 0 ≤ t → E t (X 0 ^ m * X 1 ^ n) = Ito.vMoment k1 θ1 σ1 m * Ito.vMoment k2 θ2 σ2 n := by
  induction N with
  | zero =>
    intro m n hmn t ht
    obtain ⟨rfl, rfl⟩ : m = 0 ∧ n = 0 := by omega
    have hg := gen_v mu k1 k2 θ1 σ1 θ2 σ2 0 0
    rw [hE.formula _ _ hg t ht, h0]
    simp
  | succ N ih =>
    intro m n hmn t ht
    have hz := Srjd.linear_zero (-(m * k1 + n * k2)) (fun t => E t (X 0 ^ m * X 1 ^ n) -
      Ito.vMoment k1 θ1 σ1 m * Ito.vMoment k2 θ2 σ2 n)
      (by
        have he : E 0 = E0 := (Gen.dynkin_sol (coefY mu k1 k2 θ1 σ1 θ2 σ2) momY hE).2
        rw [he, h0, sub_self]) ((hE.cont _).sub continuousOn_const) (fun u hu => by
        have hd := ((deriv_of_gen hE (gen_v mu k1 k2 θ1 σ1 θ2 σ2 m n) u hu.le).hasDerivAt (Ici_mem_nhds hu)).sub_const
          (Ito.vMoment k1 θ1 σ1 m * Ito.vMoment k2 θ2 σ2 n)
        refine hd.congr_deriv ?_
        rw [map_sub, map_add, L_C, L_C, L_C]
        have i1 : (m : ℝ) * (k1 * θ1 + (m - 1) * σ1 ^ 2 / 2) * E u (X 0 ^ (m - 1) * X 1 ^ n) =
            m * k1 * Ito.vMoment k1 θ1 σ1 m * Ito.vMoment k2 θ2 σ2 n := by
          rcases Nat.eq_zero_or_pos m with h | h
          · subst h; simp
          · rw [ih (m - 1) n (by omega) u hu.le, ← mul_assoc, bal k1 θ1 σ1 h1]
        have i2 : (n : ℝ) * (k2 * θ2 + (n - 1) * σ2 ^ 2 / 2) * E u (X 0 ^ m * X 1 ^ (n - 1)) =
            n * k2 * Ito.vMoment k1 θ1 σ1 m * Ito.vMoment k2 θ2 σ2 n := by
          rcases Nat.eq_zero_or_pos n with h | h
          · subst h; simp
          · rw [ih m (n - 1) (by omega) u hu.le]
            linear_combination Ito.vMoment k1 θ1 σ1 m * bal k2 θ2 σ2 h2 n
        rw [i1, i2]
        ring) t ht
    exact sub_eq_zero.1 hz

/-! ### two returns -/

noncomputable def b4 (mu k1 k2 θ1 θ2 : ℝ) : Fin 4 → MvPolynomial (Fin 4) ℝ :=
  ![C k1 * (C θ1 - X 0), C k2 * (C θ2 - X 1), 0, C mu - C (1 / 2) * (X 0 + X 1)]

noncomputable def a4 (σ1 σ2 : ℝ) : Fin 4 → Fin 4 → MvPolynomial (Fin 4) ℝ :=
  ![![C (σ1 ^ 2) * X 0, 0, 0, 0], ![0, C (σ2 ^ 2) * X 1, 0, 0], ![0, 0, 0, 0], ![0, 0, 0, X 0 + X 1]]

theorem mom4 : Gen.Mom (Measure.dirac (0 : Fin 4 → ℝ)) := fun f => integrable_dirac (by simp)

theorem coef4 (mu k1 k2 θ1 σ1 θ2 σ2 : ℝ) :
    Gen.PolyCoef (sv2two mu k1 k2 θ1 σ1 θ2 σ2) (b4 mu k1 k2 θ1 θ2) (a4 σ1 σ2) where
  prob := by
    show IsProbabilityMeasure (Measure.dirac _)
    infer_instance
  hb x i := by
    fin_cases i
    · simp [b4, sv2two]
    · simp [b4, sv2two]
    · simp [b4, sv2two]
    · simp [b4, sv2two]; ring
  ha x i j := by fin_cases i <;> fin_cases j <;> simp [a4, sv2two]
  db i := by
    fin_cases i
    · exact deg_rev _ _ _
    · exact deg_rev _ _ _
    · show (0 : MvPolynomial (Fin 4) ℝ).totalDegree ≤ 1
      rw [totalDegree_zero]; omega
    · exact deg_ret _ _ _
  da i j := by
    have h : ∀ (c : ℝ) (i : Fin 4), (C c * X i : MvPolynomial (Fin 4) ℝ).totalDegree ≤ 2 :=
      fun c i => (deg_lin c i).trans (by norm_num)
    have hz : (0 : MvPolynomial (Fin 4) ℝ).totalDegree ≤ 2 := by rw [totalDegree_zero]; omega
    have hs : (X 0 + X 1 : MvPolynomial (Fin 4) ℝ).totalDegree ≤ 2 := (deg_sum 0 1).trans (by norm_num)
    fin_cases i <;> fin_cases j
    · exact h _ _
    · exact hz
    · exact hz
    · exact hz
    · exact hz
    · exact h _ _
    · exact hz
    · exact hz
    · exact hz
    · exact hz
    · exact hz
    · exact hz
    · exact hz
    · exact hz
    · exact hz
    · exact hs

/-- `y_1` is a constant of the second interval -/
theorem gen_second (mu k1 k2 θ1 σ1 θ2 σ2 : ℝ) (a : ℕ) {f g : MvPolynomial (Fin 3) ℝ}
    (h : (sv2 mu k1 k2 θ1 σ1 θ2 σ2).IsGen f g) :
    (sv2two mu k1 k2 θ1 σ1 θ2 σ2).IsGen (X 2 ^ a * rename ![0, 1, 3] f) (X 2 ^ a * rename ![0, 1, 3] g) := by
  have hinj : Function.Injective (![0, 1, 3] : Fin 3 → Fin 4) := by decide
  have d0 : ∀ f : MvPolynomial (Fin 3) ℝ, pderiv 0 (X 2 ^ a * rename ![0, 1, 3] f) =
      X 2 ^ a * rename (![0, 1, 3] : Fin 3 → Fin 4) (pderiv 0 f) := fun f => by
    have := pderiv_rename hinj 0 f
    simp only [Matrix.cons_val] at this
    rw [pderiv_mul, this, pderiv_pow, pderiv_X_of_ne (by decide)]
    simp
  have d1 : ∀ f : MvPolynomial (Fin 3) ℝ, pderiv 1 (X 2 ^ a * rename ![0, 1, 3] f) =
      X 2 ^ a * rename (![0, 1, 3] : Fin 3 → Fin 4) (pderiv 1 f) := fun f => by
    have := pderiv_rename hinj 1 f
    simp only [Matrix.cons_val] at this
    rw [pderiv_mul, this, pderiv_pow, pderiv_X_of_ne (by decide)]
    simp
  have d3 : ∀ f : MvPolynomial (Fin 3) ℝ, pderiv 3 (X 2 ^ a * rename ![0, 1, 3] f) =
      X 2 ^ a * rename (![0, 1, 3] : Fin 3 → Fin 4) (pderiv 2 f) := fun f => by
    have := pderiv_rename hinj 2 f
    simp only [Matrix.cons_val] at this
    rw [pderiv_mul, this, pderiv_pow, pderiv_X_of_ne (by decide)]
    simp
  intro x
  have hx := h (x ∘ ![0, 1, 3])
  simp only [sv2, sv2two, Fin.sum_univ_four, Fin.sum_univ_three, Matrix.cons_val, d0, d1, d3, map_mul, map_pow,
    eval_rename, eval_X, Function.comp_apply, zero_mul, add_zero, zero_add] at hx ⊢
  rw [hx]
  ring

theorem second {mu k1 k2 θ1 σ1 θ2 σ2 : ℝ} {Q : ℝ → MvPolynomial (Fin 3) ℝ →ₗ[ℝ] MvPolynomial (Fin 3) ℝ}
    (hQ : ∀ E0, (sv2 mu k1 k2 θ1 σ1 θ2 σ2).Dynkin E0 fun t => E0 ∘ₗ Q t)
    {E0 : MvPolynomial (Fin 4) ℝ →ₗ[ℝ] ℝ} {E : ℝ → MvPolynomial (Fin 4) ℝ →ₗ[ℝ] ℝ}
    (hE : (sv2two mu k1 k2 θ1 σ1 θ2 σ2).Dynkin E0 E) (a : ℕ) (f : MvPolynomial (Fin 3) ℝ) (t : ℝ) (ht : 0 ≤ t) :
    E t (X 2 ^ a * rename ![0, 1, 3] f) = E0 (X 2 ^ a * rename ![0, 1, 3] (Q t f)) := by
  let M : MvPolynomial (Fin 3) ℝ →ₗ[ℝ] MvPolynomial (Fin 4) ℝ :=
    LinearMap.mulLeft ℝ (X 2 ^ a) ∘ₗ (rename ![0, 1, 3]).toLinearMap
  have hd : (sv2 mu k1 k2 θ1 σ1 θ2 σ2).Dynkin (E0 ∘ₗ M) fun t => E t ∘ₗ M :=
    ⟨fun f => hE.cont (M f), fun f g hg t ht => hE.formula _ _ (gen_second mu k1 k2 θ1 σ1 θ2 σ2 a hg) t ht⟩
  have hu := Gen.dynkin_unique (coefY mu k1 k2 θ1 σ1 θ2 σ2) momY hd (hQ (E0 ∘ₗ M)) t ht
  exact congrArg (fun L : MvPolynomial (Fin 3) ℝ →ₗ[ℝ] ℝ => L f) hu

/-- the second interval starts with `y_2 = 0` -/
theorem Second.eq {E : MvPolynomial (Fin 3) ℝ →ₗ[ℝ] ℝ} {E0 : MvPolynomial (Fin 4) ℝ →ₗ[ℝ] ℝ} (h : Second E E0) (a : ℕ)
    (f : MvPolynomial (Fin 3) ℝ) : E0 (X 2 ^ a * rename ![0, 1, 3] f) = E (X 2 ^ a * aeval ![X 0, X 1, 0] f) := by
  induction f using MvPolynomial.induction_on' with
  | add p q hp hq => rw [map_add, mul_add, map_add, hp, hq, map_add, mul_add, map_add]
  | monomial s c =>
    have hm : monomial s c = C c * (X 0 ^ s 0 * X 1 ^ s 1 * X 2 ^ s 2 : MvPolynomial (Fin 3) ℝ) := by
      rw [monomial_eq, Finsupp.prod_fintype _ _ (by simp), Fin.prod_univ_three]
    rw [hm]
    simp only [map_mul, map_pow, rename_C, rename_X, algHom_C, MvPolynomial.algebraMap_eq, aeval_X, Matrix.cons_val]
    cases s 2 with
    | zero =>
      have := h.2 (X 2 ^ a * (C c * (X 0 ^ s 0 * X 1 ^ s 1)))
      simp only [map_mul, map_pow, rename_C, rename_X, Matrix.cons_val] at this
      simpa using this
    | succ n =>
      have := h.1 (X 2 ^ a * (C c * (X 0 ^ s 0 * X 1 ^ s 1 * X 3 ^ n)))
      rw [zero_pow (n := n + 1) (by omega), mul_zero, mul_zero, mul_zero, map_zero E, ← this]
      refine congrArg E0 ?_
      ring

/-- a polynomial in the variances only -/
noncomputable def atV : MvPolynomial (Fin 3) ℝ →ₐ[ℝ] Fsv2.Pol := aeval ![X 0, X 1, 0]

theorem eval_atV (x : ℝ × ℝ) (f : MvPolynomial (Fin 3) ℝ) :
    eval (Fsv2.two x.1 x.2) (atV f) = aeval ![x.1, x.2, 0] f := by
  rw [atV, Gen.eval_aeval, aeval_eq_eval]
  refine congrArg (fun y => eval y f) (funext fun k => ?_)
  fin_cases k <;> simp [Fsv2.two]

theorem aeval_atV (V1 V2 Y : Fsv2.Rv) (f : MvPolynomial (Fin 3) ℝ) :
    aeval ![V1, V2, Y] ((aeval ![X 0, X 1, 0] : MvPolynomial (Fin 3) ℝ →ₐ[ℝ] MvPolynomial (Fin 3) ℝ) f) =
      aeval (Fsv2.two V1 V2) (atV f) := by
  induction f using MvPolynomial.induction_on with
  | C a => simp [atV, algebraMap_eq]
  | add p q hp hq => simp only [map_add, hp, hq]
  | mul_X p i hp =>
    simp only [map_mul, hp]
    congr 1
    fin_cases i <;> simp [atV, Fsv2.two]

/-! ### jumps -/

theorem sv2j_eq (mu k1 k2 θ1 σ1 θ2 σ2 lam mj sj : ℝ) : sv2j mu k1 k2 θ1 σ1 θ2 σ2 lam mj sj =
    Gen.jmp (sv2 mu k1 k2 θ1 σ1 θ2 σ2) 2 lam mj (sj ^ 2).toNNReal := by
  rw [sv2j, Gen.jmp]
  have : (fun y : ℝ => ![0, 0, y]) = fun y => Pi.single (M := fun _ : Fin 3 => ℝ) 2 y := by
    funext y i
    fin_cases i <;> simp
  rw [this]

theorem sv2jtwo_eq (mu k1 k2 θ1 σ1 θ2 σ2 lam mj sj : ℝ) : sv2jtwo mu k1 k2 θ1 σ1 θ2 σ2 lam mj sj =
    Gen.jmp (sv2two mu k1 k2 θ1 σ1 θ2 σ2) 3 lam mj (sj ^ 2).toNNReal := by
  rw [sv2jtwo, Gen.jmp]
  have : (fun y : ℝ => ![0, 0, 0, y]) = fun y => Pi.single (M := fun _ : Fin 4 => ℝ) 3 y := by
    funext y i
    fin_cases i <;> simp
  rw [this]

/-- given the jumps, the return is shifted by their sum -/
theorem sv2j_repr (p : Fsv2j.Par) (hl : 0 ≤ p.lam) (hh : 0 ≤ p.h) {E0 : MvPolynomial (Fin 3) ℝ →ₗ[ℝ] ℝ}
    {E F : ℝ → MvPolynomial (Fin 3) ℝ →ₗ[ℝ] ℝ} (hE : (sv2 p.μ p.k1 p.k2 p.θ1 p.σ1 p.θ2 p.σ2).Dynkin E0 E)
    (hF : (sv2j p.μ p.k1 p.k2 p.θ1 p.σ1 p.θ2 p.σ2 p.lam p.μj p.σj).Dynkin E0 F) (f : MvPolynomial (Fin 3) ℝ) :
    F p.h f = ∫ z, E p.h (aeval ![X 0, X 1, X 2 + C z] f) ∂(Fsv2j.jumpLaw p) := by
  rw [sv2j_eq] at hF
  have := Gen.jmp_repr _ 2 p.lam p.μj (p.σj ^ 2).toNNReal (coefY p.μ p.k1 p.k2 p.θ1 p.σ1 p.θ2 p.σ2) momY rfl
    (fun k => by fin_cases k <;> simp [bY, Gen.gJ])
    (fun k l => by fin_cases k <;> fin_cases l <;> simp [aY, Gen.gJ]) hl hE hF p.h hh f
  rw [this, Fsv2j.jumpLaw]
  refine integral_congr_ae (Filter.Eventually.of_forall fun z => ?_)
  dsimp only
  refine congrArg (fun g : Fin 3 → MvPolynomial (Fin 3) ℝ => E p.h (aeval g f)) (funext fun k => ?_)
  fin_cases k <;> simp

theorem sv2jtwo_repr (p : Fsv2j.Par) (hl : 0 ≤ p.lam) (hh : 0 ≤ p.h) {E0 : MvPolynomial (Fin 4) ℝ →ₗ[ℝ] ℝ}
    {E F : ℝ → MvPolynomial (Fin 4) ℝ →ₗ[ℝ] ℝ} (hE : (sv2two p.μ p.k1 p.k2 p.θ1 p.σ1 p.θ2 p.σ2).Dynkin E0 E)
    (hF : (sv2jtwo p.μ p.k1 p.k2 p.θ1 p.σ1 p.θ2 p.σ2 p.lam p.μj p.σj).Dynkin E0 F) (f : MvPolynomial (Fin 4) ℝ) :
    F p.h f = ∫ z, E p.h (aeval ![X 0, X 1, X 2, X 3 + C z] f) ∂(Fsv2j.jumpLaw p) := by
  rw [sv2jtwo_eq] at hF
  have := Gen.jmp_repr _ 3 p.lam p.μj (p.σj ^ 2).toNNReal (coef4 p.μ p.k1 p.k2 p.θ1 p.σ1 p.θ2 p.σ2) mom4 rfl
    (fun k => by fin_cases k <;> simp [b4, Gen.gJ])
    (fun k l => by fin_cases k <;> fin_cases l <;> simp [a4, Gen.gJ]) hl hE hF p.h hh f
  rw [this, Fsv2j.jumpLaw]
  refine integral_congr_ae (Filter.Eventually.of_forall fun z => ?_)
  dsimp only
  refine congrArg (fun g : Fin 4 → MvPolynomial (Fin 4) ℝ => E p.h (aeval g f)) (funext fun k => ?_)
  fin_cases k <;> simp

end Ajd.Sv2

end -- Sv2Two

section -- Sv2Law

/-! The laws of one return and of two returns in a row, by the Itô moment equation. -/

namespace Ajd.Sv2
open MvPolynomial MeasureTheory

/-- the stationary start -/
abbrev StartV (p : Fsv2.Par) (E0 : MvPolynomial (Fin 3) ℝ →ₗ[ℝ] ℝ) : Prop :=
  Start E0 (Ito.vMoment p.k1 p.θ1 p.σ1) (Ito.vMoment p.k2 p.θ2 p.σ2)

/-- everything the theorems need about one return and two returns in a row -/
structure Law (p : Fsv2.Par) (Ex : ℝ → ℝ × ℝ → Fsv2.Rv →ₗ[ℝ] ℝ) (γ : Measure (ℝ × ℝ))
    (Q : ℝ → MvPolynomial (Fin 3) ℝ →ₗ[ℝ] MvPolynomial (Fin 3) ℝ) : Prop where
  semi : ∀ E0, (sv2 p.μ p.k1 p.k2 p.θ1 p.σ1 p.θ2 p.σ2).Dynkin E0 fun t => E0 ∘ₗ Q t
  cond : ∀ t0 x, Fsv2.CondLaw p t0 x (Ex t0 x)
  stat : Fsv2.StatLaw p γ
  law : ∀ E0, StartV p E0 → ∀ E, (sv2 p.μ p.k1 p.k2 p.θ1 p.σ1 p.θ2 p.σ2).Dynkin E0 E → ∀ t0 f, E p.h f =
    Fsv2.expect γ (Ex t0) fun x => aeval ![Fsv2.vNext1 p t0 x.1, Fsv2.vNext2 p t0 x.2, Fsv2.ret p t0 x] f
  next : ∀ t1 z f, eval (Fsv2.two z.1 z.2) (atV (Q p.h f)) =
    Ex t1 z (aeval ![Fsv2.vNext1 p t1 z.1, Fsv2.vNext2 p t1 z.2, Fsv2.ret p t1 z] f)

theorem exists_law (p : Fsv2.Par) (k1 : 0 < p.k1) (k2 : 0 < p.k2) (θ1 : 0 < p.θ1) (σ1 : 0 < p.σ1) (θ2 : 0 < p.θ2)
    (σ2 : 0 < p.σ2) (hh : 0 ≤ p.h) : ∃ Ex γ Q, Law p Ex γ Q := by
  obtain ⟨Ex, hc, hx⟩ := sv2_repr p k1.ne' k2.ne' hh
  obtain ⟨Q, hQ, -⟩ := sv2_semi p.μ p.k1 p.k2 p.θ1 p.σ1 p.θ2 p.σ2
  have hγ := Fsv2.statLaw_gammas p k1 k2 θ1 σ1 θ2 σ2
  refine ⟨Ex, _, Q, hQ, hc, hγ, fun E0 h0 E hE t0 f => sv2_stat p hh hx t0 _ hγ h0 hE f, fun t1 z f => ?_⟩
  rw [eval_atV, ← hx z _ (hQ _) t1]
  rfl

/-! ### the starts exist -/

/-- two independent laws with given moments, and `y = 0` -/
noncomputable def startL (M1 M2 : ℕ → ℝ) : MvPolynomial (Fin 3) ℝ →ₗ[ℝ] ℝ :=
  (basisMonomials (Fin 2) ℝ).constr ℝ (fun s => M1 (s 0) * M2 (s 1)) ∘ₗ
    (aeval ![X 0, X 1, 0] : MvPolynomial (Fin 3) ℝ →ₐ[ℝ] MvPolynomial (Fin 2) ℝ).toLinearMap

theorem start_startL (M1 M2 : ℕ → ℝ) : Start (startL M1 M2) M1 M2 where
  y f := by simp [startL]
  v m n := by
    have h : (X 0 ^ m * X 1 ^ n : MvPolynomial (Fin 2) ℝ) =
        basisMonomials (Fin 2) ℝ (Finsupp.single 0 m + Finsupp.single 1 n) := by
      rw [coe_basisMonomials]
      simp only [X_pow_eq_monomial, monomial_mul, one_mul]
    rw [startL, LinearMap.comp_apply, AlgHom.toLinearMap_apply]
    simp only [map_mul, map_pow, aeval_X, Matrix.cons_val]
    rw [h, Module.Basis.constr_basis]
    simp [Finsupp.single_apply]

theorem second_start (E : MvPolynomial (Fin 3) ℝ →ₗ[ℝ] ℝ) :
    Second E (E ∘ₗ (aeval (![X 0, X 1, X 2, 0] : Fin 4 → MvPolynomial (Fin 3) ℝ)).toLinearMap) := by
  refine ⟨fun f => ?_, fun f => ?_⟩
  · simp
  · rw [LinearMap.comp_apply, AlgHom.toLinearMap_apply, aeval_rename]
    refine congrArg _ ?_
    have : (![X 0, X 1, X 2, 0] : Fin 4 → MvPolynomial (Fin 3) ℝ) ∘ ![0, 1, 2] = X := by
      funext i
      fin_cases i <;> rfl
    rw [this, aeval_X_left]
    rfl

variable {p : Fsv2.Par} {Ex : ℝ → ℝ × ℝ → Fsv2.Rv →ₗ[ℝ] ℝ} {γ : Measure (ℝ × ℝ)}
  {Q : ℝ → MvPolynomial (Fin 3) ℝ →ₗ[ℝ] MvPolynomial (Fin 3) ℝ}

theorem Law.truePoly (h : Law p Ex γ Q) (t1 : ℝ) (l : ℕ) : Fsv2.TruePoly p t1 l (atV (Q p.h (X 2 ^ l))) := by
  refine ⟨Ex t1, Set.univ, Set.univ, Set.infinite_univ, Set.infinite_univ, fun z _ => h.cond t1 z, fun z _ => ?_⟩
  rw [h.next t1]
  simp

theorem Law.ret (h : Law p Ex γ Q) {E0 : MvPolynomial (Fin 3) ℝ →ₗ[ℝ] ℝ} (h0 : StartV p E0)
    {E : ℝ → MvPolynomial (Fin 3) ℝ →ₗ[ℝ] ℝ} (hE : (sv2 p.μ p.k1 p.k2 p.θ1 p.σ1 p.θ2 p.σ2).Dynkin E0 E) (t0 c : ℝ)
    (l : ℕ) : E p.h ((X 2 - C c) ^ l) = Fsv2.expect γ (Ex t0) fun x => (Fsv2.ret p t0 x - C c) ^ l := by
  rw [h.law E0 h0 E hE t0]
  simp [algebraMap_eq]

theorem Law.two (h : Law p Ex γ Q) (h1 : p.k1 ≠ 0) (h2 : p.k2 ≠ 0) (hh : 0 ≤ p.h)
    {E0 : MvPolynomial (Fin 3) ℝ →ₗ[ℝ] ℝ} (h0 : StartV p E0)
    {E : ℝ → MvPolynomial (Fin 3) ℝ →ₗ[ℝ] ℝ} (hE : (sv2 p.μ p.k1 p.k2 p.θ1 p.σ1 p.θ2 p.σ2).Dynkin E0 E)
    {E0' : MvPolynomial (Fin 4) ℝ →ₗ[ℝ] ℝ} (h0' : Second (E p.h) E0')
    {E' : ℝ → MvPolynomial (Fin 4) ℝ →ₗ[ℝ] ℝ} (hE' : (sv2two p.μ p.k1 p.k2 p.θ1 p.σ1 p.θ2 p.σ2).Dynkin E0' E')
    (t0 : ℝ) (a b : ℕ) :
    E' p.h (X 2 ^ a * X 3 ^ b) = (Fsv2.expect γ (Ex t0) fun x => Fsv2.ret p t0 x ^ a *
      aeval (Fsv2.two (Fsv2.vNext1 p t0 x.1) (Fsv2.vNext2 p t0 x.2)) (atV (Q p.h (X 2 ^ b)))) ∧
    E' p.h (X 2 ^ a) = (Fsv2.expect γ (Ex t0) fun x => Fsv2.ret p t0 x ^ a) ∧
    E' p.h (X 3 ^ b) = Fsv2.expect γ (Ex t0) fun x => Fsv2.ret p t0 x ^ b := by
  refine ⟨?_, ?_, ?_⟩
  · have e := second h.semi hE' a (X 2 ^ b) p.h hh
    rw [map_pow, rename_X, h0'.eq, h.law E0 h0 E hE t0] at e
    refine e.trans ?_
    congr 1
    funext x
    rw [map_mul, aeval_atV]
    simp
  · have hg : (sv2 p.μ p.k1 p.k2 p.θ1 p.σ1 p.θ2 p.σ2).IsGen 1 0 := by
      simpa using gen_v p.μ p.k1 p.k2 p.θ1 p.σ1 p.θ2 p.σ2 0 0
    have e := hE'.formula _ _ (gen_second p.μ p.k1 p.k2 p.θ1 p.σ1 p.θ2 p.σ2 a hg) p.h hh
    rw [h0'.eq] at e
    simp only [map_one, mul_one, map_zero, mul_zero, intervalIntegral.integral_zero, add_zero] at e
    rw [e, h.law E0 h0 E hE t0]
    simp
  · have e := second h.semi hE' 0 (X 2 ^ b) p.h hh
    rw [h0'.eq, map_pow, rename_X, pow_zero, pow_zero, one_mul, one_mul] at e
    have hs : StartV p (E p.h ∘ₗ (aeval ![X 0, X 1, 0] : MvPolynomial (Fin 3) ℝ →ₐ[ℝ]
        MvPolynomial (Fin 3) ℝ).toLinearMap) := by
      refine ⟨fun f => ?_, fun m n => ?_⟩
      · simp
      · simp only [LinearMap.comp_apply, AlgHom.toLinearMap_apply, map_mul, map_pow, aeval_X, Matrix.cons_val]
        exact stationary h1 h2 hE h0.v _ m n rfl p.h hh
    have h3 := h.law _ hs _ (h.semi _) t0 (X 2 ^ b)
    refine (e.trans h3).trans ?_
    simp

end Ajd.Sv2

end -- Sv2Law
