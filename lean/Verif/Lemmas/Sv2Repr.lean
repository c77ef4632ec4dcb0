import Verif.Lemmas.Sv2Ito

/-! The variances and the return of the two-factor model, by the five integrals. -/

namespace Ajd.Sv2
open MvPolynomial Finset MeasureTheory SvcjI

/-! ### the system -/

noncomputable def bY (mu k1 k2 θ1 θ2 : ℝ) : Fin 3 → MvPolynomial (Fin 3) ℝ :=
  ![C k1 * (C θ1 - X 0), C k2 * (C θ2 - X 1), C mu - C (1 / 2) * (X 0 + X 1)]

noncomputable def aY (σ1 σ2 : ℝ) : Fin 3 → Fin 3 → MvPolynomial (Fin 3) ℝ :=
  ![![C (σ1 ^ 2) * X 0, 0, 0], ![0, C (σ2 ^ 2) * X 1, 0], ![0, 0, X 0 + X 1]]

theorem momY : Gen.Mom (Measure.dirac (0 : Fin 3 → ℝ)) := fun f => integrable_dirac (by simp)

theorem deg_lin {n : ℕ} (c : ℝ) (i : Fin n) : (C c * X i : MvPolynomial (Fin n) ℝ).totalDegree ≤ 1 :=
  (totalDegree_mul _ _).trans (by simp)

theorem deg_sum {n : ℕ} (i j : Fin n) : (X i + X j : MvPolynomial (Fin n) ℝ).totalDegree ≤ 1 :=
  (totalDegree_add _ _).trans (by simp)

theorem deg_rev {n : ℕ} (k θ : ℝ) (i : Fin n) : (C k * (C θ - X i) : MvPolynomial (Fin n) ℝ).totalDegree ≤ 1 := by
  refine (totalDegree_mul _ _).trans ?_
  rw [totalDegree_C, zero_add]
  refine (totalDegree_sub _ _).trans (max_le ?_ ?_)
  · rw [totalDegree_C]; omega
  · rw [totalDegree_X]

theorem deg_ret {n : ℕ} (mu : ℝ) (i j : Fin n) :
    (C mu - C (1 / 2) * (X i + X j) : MvPolynomial (Fin n) ℝ).totalDegree ≤ 1 := by
  refine (totalDegree_sub _ _).trans (max_le ?_ ?_)
  · rw [totalDegree_C]; omega
  · refine (totalDegree_mul _ _).trans ?_
    rw [totalDegree_C, zero_add]
    exact deg_sum i j

theorem coefY (mu k1 k2 θ1 σ1 θ2 σ2 : ℝ) :
    Gen.PolyCoef (sv2 mu k1 k2 θ1 σ1 θ2 σ2) (bY mu k1 k2 θ1 θ2) (aY σ1 σ2) where
  prob := by
    show IsProbabilityMeasure (Measure.dirac _)
    infer_instance
  hb x i := by
    fin_cases i
    · simp [bY, sv2]
    · simp [bY, sv2]
    · simp [bY, sv2]; ring
  ha x i j := by fin_cases i <;> fin_cases j <;> simp [aY, sv2]
  db i := by
    fin_cases i
    · exact deg_rev _ _ _
    · exact deg_rev _ _ _
    · exact deg_ret _ _ _
  da i j := by
    have h : ∀ (c : ℝ) (i : Fin 3), (C c * X i : MvPolynomial (Fin 3) ℝ).totalDegree ≤ 2 :=
      fun c i => (deg_lin c i).trans (by norm_num)
    have hz : (0 : MvPolynomial (Fin 3) ℝ).totalDegree ≤ 2 := by rw [totalDegree_zero]; omega
    fin_cases i <;> fin_cases j
    · exact h _ _
    · exact hz
    · exact hz
    · exact hz
    · exact h _ _
    · exact hz
    · exact hz
    · exact hz
    · exact (deg_sum 0 1).trans (by norm_num)

theorem momS (mu k1 k2 θ1 σ1 θ2 σ2 : ℝ) : Gen.Mom (sv2 mu k1 k2 θ1 σ1 θ2 σ2).ν := momY

/-! ### the return -/

/-- variances and return from the eight processes -/
noncomputable def gI (mu k1 k2 θ1 σ1 θ2 σ2 x1 x2 : ℝ) : Fin 3 → M8 :=
  ![V1 θ1 σ1, V2 θ2 σ2,
    C mu * X 7 - C (1 / 2) * ((C θ1 * X 7 - C (1 / k1) * (V1 θ1 σ1 - C x1) + C (σ1 / k1) * X 1) +
      (C θ2 * X 7 - C (1 / k2) * (V2 θ2 σ2 - C x2) + C (σ2 / k2) * X 3)) + X 4]

noncomputable def cI (mu k1 k2 θ1 σ1 θ2 σ2 : ℝ) : Fin 3 → Fin 8 → ℝ :=
  ![![σ1, 0, 0, 0, 0, 1, 0, 0], ![0, 0, σ2, 0, 0, 0, 1, 0],
    ![σ1 / k1 / 2, -(σ1 / k1) / 2, σ2 / k2 / 2, -(σ2 / k2) / 2, 1, 1 / k1 / 2, 1 / k2 / 2, mu - (θ1 + θ2) / 2]]

theorem image (mu k1 k2 θ1 σ1 θ2 σ2 x1 x2 : ℝ) (h1 : k1 ≠ 0) (h2 : k2 ≠ 0) :
    Gen.Image (gI mu k1 k2 θ1 σ1 θ2 σ2 x1 x2) (cI mu k1 k2 θ1 σ1 θ2 σ2) (bD k1 k2) (aD θ1 σ1 θ2 σ2)
      (drv k1 k2 θ1 σ1 θ2 σ2).ν (bY mu k1 k2 θ1 θ2) (aY σ1 σ2) (sv2 mu k1 k2 θ1 σ1 θ2 σ2).ν where
  lin k i := by
    refine MvPolynomial.funext fun y => ?_
    fin_cases k <;> fin_cases i <;> simp [gI, cI, V1, V2, pderiv_X, Derivation.leibniz] <;> ring
  shift k x y := by
    fin_cases k <;> simp [gI, cI, V1, V2, Fin.sum_univ_eight] <;> ring
  drift k := by
    refine MvPolynomial.funext fun y => ?_
    fin_cases k <;> simp [gI, cI, V1, V2, bD, bY, Fin.sum_univ_eight, algebraMap_eq] <;> field_simp <;> ring
  diff k l := by
    refine MvPolynomial.funext fun y => ?_
    fin_cases k <;> fin_cases l <;>
      simp [gI, cI, V1, V2, aD, a1, a2, a3, aY, Fin.sum_univ_eight, algebraMap_eq] <;> ring
  jump := by
    show Measure.dirac 0 = (Measure.dirac 0).map _
    have hm : Measurable fun (y : Fin 8 → ℝ) (k : Fin 3) => ∑ i, cI mu k1 k2 θ1 σ1 θ2 σ2 k i * y i := by fun_prop
    rw [Measure.map_dirac' hm]
    congr 1
    funext k
    simp

/-! ### the conditional law -/

/-- from the eight processes to the five integrals, for an interval from `t0` -/
noncomputable def chi (p : Fsv2.Par) (t0 : ℝ) (x : ℝ × ℝ) : M8 →ₐ[ℝ] Fsv2.Rv :=
  aeval ![C (Real.exp (-(p.k1 * (t0 + p.h)))) * X 0, X 1, C (Real.exp (-(p.k2 * (t0 + p.h)))) * X 2, X 3, X 4,
    C (Real.exp (-p.k1 * p.h) * (x.1 - p.θ1)), C (Real.exp (-p.k2 * p.h) * (x.2 - p.θ2)), C p.h]

/-- the expectation for the five integrals -/
noncomputable def Ec (p : Fsv2.Par) (t0 : ℝ) (D : M8 →ₗ[ℝ] ℝ) : Fsv2.Rv →ₗ[ℝ] ℝ :=
  D ∘ₗ (aeval ![C (Real.exp (p.k1 * (t0 + p.h))) * X 0, X 1, C (Real.exp (p.k2 * (t0 + p.h))) * X 2, X 3,
    X 4]).toLinearMap

theorem Ec_mon (p : Fsv2.Par) (t0 : ℝ) (D : M8 →ₗ[ℝ] ℝ) (a b c d e : ℕ) :
    Ec p t0 D (X 0 ^ a * X 1 ^ b * X 2 ^ c * X 3 ^ d * X 4 ^ e) =
      Real.exp ((a * p.k1 + c * p.k2) * (t0 + p.h)) * D (fn a b c d e) := by
  rw [Ec, LinearMap.comp_apply, AlgHom.toLinearMap_apply]
  simp only [map_mul, map_pow, aeval_X, Matrix.cons_val]
  rw [show (a * p.k1 + c * p.k2) * (t0 + p.h) = a * (p.k1 * (t0 + p.h)) + c * (p.k2 * (t0 + p.h)) by ring,
    Real.exp_add, Real.exp_nat_mul, Real.exp_nat_mul, ← L_C]
  refine congrArg D ?_
  simp only [fn, mul_pow, map_pow, map_mul]
  ring

theorem condLaw (p : Fsv2.Par) (hh : 0 ≤ p.h) (t0 : ℝ) (x : ℝ × ℝ) {D : ℝ → M8 →ₗ[ℝ] ℝ}
    (hD : (drv p.k1 p.k2 p.θ1 p.σ1 p.θ2 p.σ2).Dynkin (E0D x.1 x.2 p.θ1 p.θ2) D) :
    Fsv2.CondLaw p t0 x (Ec p t0 (D p.h)) := by
  refine ⟨_, itoRec2 hD t0, fun a b c d e => ?_⟩
  rw [Ec_mon, famM, add_sub_cancel_left]

theorem D_chi (p : Fsv2.Par) (hh : 0 ≤ p.h) (t0 : ℝ) (x : ℝ × ℝ) {D : ℝ → M8 →ₗ[ℝ] ℝ}
    (hD : (drv p.k1 p.k2 p.θ1 p.σ1 p.θ2 p.σ2).Dynkin (E0D x.1 x.2 p.θ1 p.θ2) D) (F : M8) :
    D p.h F = Ec p t0 (D p.h) (chi p t0 x F) := by
  suffices hs : D p.h = Ec p t0 (D p.h) ∘ₗ (chi p t0 x).toLinearMap by
    conv_lhs => rw [hs]
    rfl
  refine (basisMonomials (Fin 8) ℝ).ext fun s => ?_
  have hm : basisMonomials (Fin 8) ℝ s =
      X 5 ^ s 5 * (X 6 ^ s 6 * (X 7 ^ s 7 * fn (s 0) (s 1) (s 2) (s 3) (s 4))) := by
    rw [coe_basisMonomials]
    show monomial s 1 = _
    rw [monomial_eq, C_1, one_mul, Finsupp.prod_fintype _ _ (by simp), Fin.prod_univ_eight]
    unfold fn
    ring
  have hp : ∀ (i : Fin 8) (c : ℝ), (∀ f, D p.h (X i * f) = c * D p.h f) → ∀ (n : ℕ) (f : M8),
      D p.h (X i ^ n * f) = c ^ n * D p.h f := by
    intro i c h n
    induction n with
    | zero => simp
    | succ n ih => intro f; rw [pow_succ, mul_assoc, ih, h, pow_succ]; ring
  rw [hm, LinearMap.comp_apply, AlgHom.toLinearMap_apply, hp 5 _ (E_X5 hD p.h hh), hp 6 _ (E_X6 hD p.h hh),
    hp 7 _ (E_X7 hD p.h hh)]
  have h7 : chi p t0 x (X 5 ^ s 5 * (X 6 ^ s 6 * (X 7 ^ s 7 * fn (s 0) (s 1) (s 2) (s 3) (s 4)))) =
      C ((Real.exp (-p.k1 * p.h) * (x.1 - p.θ1)) ^ s 5 * ((Real.exp (-p.k2 * p.h) * (x.2 - p.θ2)) ^ s 6 * (p.h ^ s 7 *
        (Real.exp (-(p.k1 * (t0 + p.h))) ^ s 0 * Real.exp (-(p.k2 * (t0 + p.h))) ^ s 2)))) *
        (X 0 ^ s 0 * X 1 ^ s 1 * X 2 ^ s 2 * X 3 ^ s 3 * X 4 ^ s 4) := by
    simp only [chi, fn, map_mul, map_pow, aeval_X, Matrix.cons_val]
    ring
  rw [h7, L_C, Ec_mon, ← Real.exp_nat_mul, ← Real.exp_nat_mul]
  have : Real.exp (s 0 * -(p.k1 * (t0 + p.h))) * Real.exp (s 2 * -(p.k2 * (t0 + p.h))) *
      Real.exp ((s 0 * p.k1 + s 2 * p.k2) * (t0 + p.h)) = 1 := by
    rw [← Real.exp_add, ← Real.exp_add, ← Real.exp_zero]
    congr 1
    ring
  linear_combination (-((Real.exp (-p.k1 * p.h) * (x.1 - p.θ1)) ^ s 5 * ((Real.exp (-p.k2 * p.h) * (x.2 - p.θ2)) ^ s 6 *
    (p.h ^ s 7 * D p.h (fn (s 0) (s 1) (s 2) (s 3) (s 4)))))) * this

/-- The law at the end of an interval that starts from `t0` with the variances `x`, by the integrals. -/
theorem sv2_repr (p : Fsv2.Par) (h1 : p.k1 ≠ 0) (h2 : p.k2 ≠ 0) (hh : 0 ≤ p.h) :
    ∃ Ex : ℝ → ℝ × ℝ → Fsv2.Rv →ₗ[ℝ] ℝ, (∀ t0 x, Fsv2.CondLaw p t0 x (Ex t0 x)) ∧
      ∀ (x : ℝ × ℝ) (E : ℝ → MvPolynomial (Fin 3) ℝ →ₗ[ℝ] ℝ),
        (sv2 p.μ p.k1 p.k2 p.θ1 p.σ1 p.θ2 p.σ2).Dynkin (aeval ![x.1, x.2, 0]).toLinearMap E → ∀ t0 f, E p.h f =
          Ex t0 x (aeval ![Fsv2.vNext1 p t0 x.1, Fsv2.vNext2 p t0 x.2, Fsv2.ret p t0 x] f) := by
  obtain ⟨Q, hQ⟩ := Gen.dynkin_exists (drv_coef p.k1 p.k2 p.θ1 p.σ1 p.θ2 p.σ2) momD
  refine ⟨fun t0 x => Ec p t0 (E0D x.1 x.2 p.θ1 p.θ2 ∘ₗ Q p.h), fun t0 x => ?_, fun x E hE t0 f => ?_⟩
  · exact condLaw p hh t0 x (hQ (E0D x.1 x.2 p.θ1 p.θ2))
  · have hD := hQ (E0D x.1 x.2 p.θ1 p.θ2)
    have hi := Gen.dynkin_image (image p.μ p.k1 p.k2 p.θ1 p.σ1 p.θ2 p.σ2 x.1 x.2 h1 h2) (drv_coef _ _ _ _ _ _)
      (coefY p.μ p.k1 p.k2 p.θ1 p.σ1 p.θ2 p.σ2) rfl momD (momS _ _ _ _ _ _ _) hD
    have h0 : E0D x.1 x.2 p.θ1 p.θ2 ∘ₗ (aeval (gI p.μ p.k1 p.k2 p.θ1 p.σ1 p.θ2 p.σ2 x.1 x.2)).toLinearMap =
        (aeval ![x.1, x.2, 0]).toLinearMap := by
      refine LinearMap.ext fun f => ?_
      rw [LinearMap.comp_apply, E0D_apply, AlgHom.toLinearMap_apply, Gen.eval_aeval, AlgHom.toLinearMap_apply,
        aeval_eq_eval]
      refine congrArg (fun y => eval y f) (funext fun k => ?_)
      fin_cases k <;> simp [gI, V1, V2, start]
    rw [h0] at hi
    rw [Gen.dynkin_unique (coefY _ _ _ _ _ _ _) (momS _ _ _ _ _ _ _) hE hi p.h hh, LinearMap.comp_apply,
      AlgHom.toLinearMap_apply, D_chi p hh t0 x hD]
    refine congrArg _ ?_
    have : (chi p t0 x).comp (aeval (gI p.μ p.k1 p.k2 p.θ1 p.σ1 p.θ2 p.σ2 x.1 x.2)) =
        aeval ![Fsv2.vNext1 p t0 x.1, Fsv2.vNext2 p t0 x.2, Fsv2.ret p t0 x] := by
      refine algHom_ext fun i => ?_
      rw [AlgHom.comp_apply, aeval_X, aeval_X]
      refine MvPolynomial.funext fun y => ?_
      fin_cases i
      · simp [gI, V1, chi, Fsv2.vNext1]
        ring
      · simp [gI, V2, chi, Fsv2.vNext2]
        ring
      · simp [gI, V1, V2, chi, Fsv2.ret, Fsv2.intVar1, Fsv2.intVar2, Fsv2.vNext1, Fsv2.vNext2]
        field_simp
        ring
    exact congrArg (fun g : MvPolynomial (Fin 3) ℝ →ₐ[ℝ] Fsv2.Rv => g f) this

theorem sv2_semi (mu k1 k2 θ1 σ1 θ2 σ2 : ℝ) : ∃ Q : ℝ → MvPolynomial (Fin 3) ℝ →ₗ[ℝ] MvPolynomial (Fin 3) ℝ,
    (∀ E0, (sv2 mu k1 k2 θ1 σ1 θ2 σ2).Dynkin E0 fun t => E0 ∘ₗ Q t) ∧
    ∀ E0 E, (sv2 mu k1 k2 θ1 σ1 θ2 σ2).Dynkin E0 E → ∀ t, 0 ≤ t → E t = E0 ∘ₗ Q t := by
  obtain ⟨Q, hQ⟩ := Gen.dynkin_exists (coefY mu k1 k2 θ1 σ1 θ2 σ2) momY
  exact ⟨Q, hQ, fun E0 E hE t ht => Gen.dynkin_unique (coefY mu k1 k2 θ1 σ1 θ2 σ2) momY hE (hQ E0) t ht⟩

/-- the start, as an integral -/
theorem Start.eq {p : Fsv2.Par} {γ : Measure (ℝ × ℝ)} (hγ : Fsv2.StatLaw p γ) {E0 : MvPolynomial (Fin 3) ℝ →ₗ[ℝ] ℝ}
    (h0 : Start E0 (Ito.vMoment p.k1 p.θ1 p.σ1) (Ito.vMoment p.k2 p.θ2 p.σ2)) (f : MvPolynomial (Fin 3) ℝ) :
    Integrable (fun x : ℝ × ℝ => aeval ![x.1, x.2, 0] f) γ ∧ E0 f = ∫ x, aeval ![x.1, x.2, 0] f ∂γ := by
  induction f using MvPolynomial.induction_on' with
  | add p q hp hq =>
    simp only [map_add]
    refine ⟨hp.1.add hq.1, ?_⟩
    rw [integral_add hp.1 hq.1, hp.2, hq.2]
  | monomial s c =>
    have hm : monomial s c = C c * (X 0 ^ s 0 * X 1 ^ s 1 * X 2 ^ s 2 : MvPolynomial (Fin 3) ℝ) := by
      rw [monomial_eq, Finsupp.prod_fintype _ _ (by simp), Fin.prod_univ_three]
    rw [hm]
    simp only [map_mul, map_pow, aeval_X, Matrix.cons_val, algHom_C, Algebra.algebraMap_self, RingHom.id_apply]
    cases s 2 with
    | zero =>
      simp only [pow_zero, mul_one]
      refine ⟨(hγ.integrable _ _).const_mul c, ?_⟩
      rw [integral_const_mul, hγ.moment, L_C, h0.v]
    | succ n =>
      rw [zero_pow (by omega)]
      simp only [mul_zero, integral_zero]
      refine ⟨integrable_zero _ _ _, ?_⟩
      rw [← h0.y (C c * (X 0 ^ s 0 * X 1 ^ s 1 * X 2 ^ n))]
      refine congrArg E0 ?_
      ring

/-- The law of a return, over the stationary law of the variances at its start. -/
theorem sv2_stat (p : Fsv2.Par) (hh : 0 ≤ p.h) {Ex : ℝ → ℝ × ℝ → Fsv2.Rv →ₗ[ℝ] ℝ}
    (hx : ∀ (x : ℝ × ℝ) (E : ℝ → MvPolynomial (Fin 3) ℝ →ₗ[ℝ] ℝ),
        (sv2 p.μ p.k1 p.k2 p.θ1 p.σ1 p.θ2 p.σ2).Dynkin (aeval ![x.1, x.2, 0]).toLinearMap E → ∀ t0 f, E p.h f =
          Ex t0 x (aeval ![Fsv2.vNext1 p t0 x.1, Fsv2.vNext2 p t0 x.2, Fsv2.ret p t0 x] f)) (t0 : ℝ)
    (γ : Measure (ℝ × ℝ)) (hγ : Fsv2.StatLaw p γ) {E0 : MvPolynomial (Fin 3) ℝ →ₗ[ℝ] ℝ}
    (h0 : Start E0 (Ito.vMoment p.k1 p.θ1 p.σ1) (Ito.vMoment p.k2 p.θ2 p.σ2))
    {E : ℝ → MvPolynomial (Fin 3) ℝ →ₗ[ℝ] ℝ}
    (hE : (sv2 p.μ p.k1 p.k2 p.θ1 p.σ1 p.θ2 p.σ2).Dynkin E0 E) (f : MvPolynomial (Fin 3) ℝ) :
    E p.h f = Fsv2.expect γ (Ex t0) fun x =>
      aeval ![Fsv2.vNext1 p t0 x.1, Fsv2.vNext2 p t0 x.2, Fsv2.ret p t0 x] f := by
  obtain ⟨Q, hQ, hu⟩ := sv2_semi p.μ p.k1 p.k2 p.θ1 p.σ1 p.θ2 p.σ2
  rw [hu E0 E hE p.h hh, LinearMap.comp_apply, (h0.eq hγ _).2, Fsv2.expect]
  refine integral_congr_ae (Filter.Eventually.of_forall fun x => ?_)
  dsimp only
  rw [← hx x _ (hQ (aeval ![x.1, x.2, 0]).toLinearMap) t0]
  rfl

end Ajd.Sv2
