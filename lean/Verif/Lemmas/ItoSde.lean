import Verif.Spec.ItoSde
import Verif.Spec.SrjdJump
import Verif.Lemmas.CondRepr
import Verif.Lemmas.SrjdJump3

/-! The Itô integrals and the variance, given the jumps: from the equations to the recursion of the moments. -/

namespace Ajd.ItoCond
open MvPolynomial Finset MeasureTheory SvcjI Gen Dyn CondJ

noncomputable def b4 (k θ : ℝ) : Fin 4 → MvPolynomial (Fin 4) ℝ := ![C k * (C θ - X 0), C (-k) * X 1, 0, 0]

def m4 (σ : ℝ) : Fin 4 → Fin 4 → ℝ := ![![σ ^ 2, σ, σ, 0], ![σ, 1, 1, 0], ![σ, 1, 1, 0], ![0, 0, 0, 1]]

noncomputable def a4 (σ : ℝ) : Fin 4 → Fin 4 → MvPolynomial (Fin 4) ℝ := fun i j => C (m4 σ i j) * X 0

theorem deg_lin {n : ℕ} (c : ℝ) (i : Fin n) : (C c * X i : MvPolynomial (Fin n) ℝ).totalDegree ≤ 1 :=
  (totalDegree_mul _ _).trans (by simp)

theorem deg_rev {n : ℕ} (k θ : ℝ) (i : Fin n) : (C k * (C θ - X i) : MvPolynomial (Fin n) ℝ).totalDegree ≤ 1 := by
  refine (totalDegree_mul _ _).trans ?_
  rw [totalDegree_C, zero_add]
  exact (totalDegree_sub _ _).trans (by simp)

theorem coef4 (k θ σ : ℝ) : PolyCoef (Ito.ints k θ σ) (b4 k θ) (a4 σ) where
  prob := by
    show IsProbabilityMeasure (Measure.dirac _)
    infer_instance
  hb x i := by fin_cases i <;> simp [b4, Ito.ints]
  ha x i j := by fin_cases i <;> fin_cases j <;> simp [a4, m4, Ito.ints]
  db i := by
    fin_cases i
    · exact deg_rev _ _ _
    · exact deg_lin _ _
    · simp [b4]
    · simp [b4]
  da _ _ := (deg_lin _ _).trans one_le_two

noncomputable def g4 (θ σ : ℝ) : Fin 4 → M8 := ![Vp θ σ, X 0, X 1, X 2]

def c4 (σ : ℝ) : Fin 4 → Fin 8 → ℝ :=
  ![![σ, 0, 0, 1, 0, 0, 1, 0], ![1, 0, 0, 0, 0, 0, 0, 0], ![0, 1, 0, 0, 0, 0, 0, 0], ![0, 0, 1, 0, 0, 0, 0, 0]]

theorem image4 (k θ σ : ℝ) :
    Image (g4 θ σ) (c4 σ) (bD k) (aD θ σ) (drv0 k θ σ).ν (b4 k θ) (a4 σ) (Ito.ints k θ σ).ν where
  lin k i := by
    fin_cases k <;> fin_cases i <;> simp [g4, c4, Vp, Derivation.leibniz, pderiv_X, Pi.single_apply]
  shift k x y := by
    rw [Fin.sum_univ_eight]
    fin_cases k <;> simp [g4, c4, Vp]
    ring
  drift k := by
    rw [Fin.sum_univ_eight]
    refine MvPolynomial.funext fun x => ?_
    fin_cases k <;> simp [bD, c4, b4, g4, Vp]
    ring
  diff k l := by
    refine MvPolynomial.funext fun x => ?_
    simp only [Fin.sum_univ_eight]
    fin_cases k <;> fin_cases l <;> simp [aD, aM, c4, a4, m4, g4] <;> ring
  jump := by
    show Measure.dirac 0 = (Measure.dirac 0).map _
    rw [Measure.map_dirac' (by fun_prop)]
    simp
    rfl

theorem mom4 (k θ σ : ℝ) : Mom (Ito.ints k θ σ).ν := mom_dirac 0

/-- the moments of the integrals solve the recursion -/
theorem given_rec (x : Par) (hs : Times x.s) {E : ℝ → MvPolynomial (Fin 4) ℝ →ₗ[ℝ] ℝ} (hE : Given x E) :
    ∃ M, ItoRecZ x M ∧ ∀ a b c : ℕ, ∀ t, 0 ≤ t →
      M a b c t = Real.exp (a * x.k * t) * E t (X 1 ^ a * X 2 ^ b * X 3 ^ c) := by
  obtain ⟨D, hD⟩ := dynkinAt_exists (drv0_coef x.k x.θ x.σ) hs (kap_mom x) (drv0_mom x.k x.θ x.σ) (E0D x.v x.θ)
  have hκ : ∀ i : Fin x.N, Mom (Measure.dirac ![x.J i, (0 : ℝ), 0, 0]) := fun i => mom_dirac _
  have him := dynkinAt_image (image4 x.k x.θ x.σ) (drv0_coef x.k x.θ x.σ) (coef4 x.k x.θ x.σ) rfl
    (drv0_mom x.k x.θ x.σ) (mom4 x.k x.θ x.σ) hs (kap_mom x) hκ
    (fun i => by
      rw [kap, Measure.map_dirac' (by fun_prop)]
      refine congrArg _ (funext fun l => ?_)
      rw [Fin.sum_univ_eight]
      fin_cases l <;> simp [c4, vec]) hD
  have h0 : E0D x.v x.θ ∘ₗ (aeval (g4 x.θ x.σ)).toLinearMap = (aeval ![x.v, 0, 0, 0]).toLinearMap := by
    refine LinearMap.ext fun f => ?_
    rw [LinearMap.comp_apply, E0D_apply, AlgHom.toLinearMap_apply, AlgHom.toLinearMap_apply, Gen.eval_aeval,
      aeval_eq_eval]
    congr 1
    congr 1
    funext i
    fin_cases i <;> simp [g4, Vp, start]
  rw [h0] at him
  refine ⟨fam x D, itoRecZ hs hD, fun a b c t ht => ?_⟩
  rw [dynkinAt_unique (coef4 x.k x.θ x.σ) hs hκ (mom4 _ _ _) hE him t ht, fam]
  refine congrArg (fun z => Real.exp (a * x.k * t) * D t z) ?_
  simp [g4, fn]

theorem given_exists (x : Par) (hs : Times x.s) : ∃ E, Given x E :=
  dynkinAt_exists (coef4 x.k x.θ x.σ) hs (fun _ => mom_dirac _) (mom4 _ _ _) _

noncomputable def b1 (k θ : ℝ) : Fin 1 → MvPolynomial (Fin 1) ℝ := ![C k * (C θ - X 0)]

noncomputable def a1 (σ : ℝ) : Fin 1 → Fin 1 → MvPolynomial (Fin 1) ℝ := ![![C (σ ^ 2) * X 0]]

theorem coef1 (k θ σ : ℝ) : PolyCoef (Ito.cir k θ σ) (b1 k θ) (a1 σ) where
  prob := by
    show IsProbabilityMeasure (Measure.dirac _)
    infer_instance
  hb x i := by fin_cases i; simp [b1, Ito.cir]
  ha x i j := by fin_cases i; fin_cases j; simp [a1, Ito.cir]
  db i := by fin_cases i; exact deg_rev _ _ _
  da i j := by fin_cases i; fin_cases j; exact (deg_lin _ _).trans one_le_two

noncomputable def g1 (θ σ : ℝ) : Fin 1 → M8 := ![Vp θ σ]

def c1 (σ : ℝ) : Fin 1 → Fin 8 → ℝ := ![![σ, 0, 0, 1, 0, 0, 1, 0]]

theorem image1 (k θ σ : ℝ) :
    Image (g1 θ σ) (c1 σ) (bD k) (aD θ σ) (drv0 k θ σ).ν (b1 k θ) (a1 σ) (Ito.cir k θ σ).ν where
  lin k i := by
    fin_cases k
    fin_cases i <;> simp [g1, c1, Vp, Derivation.leibniz, pderiv_X, Pi.single_apply]
  shift k x y := by
    rw [Fin.sum_univ_eight]
    fin_cases k; simp [g1, c1, Vp]
    ring
  drift k := by
    rw [Fin.sum_univ_eight]
    refine MvPolynomial.funext fun x => ?_
    fin_cases k; simp [bD, c1, b1, g1, Vp]
    ring
  diff k l := by
    refine MvPolynomial.funext fun x => ?_
    simp only [Fin.sum_univ_eight]
    fin_cases k; fin_cases l; simp [aD, aM, c1, a1, g1]; ring
  jump := by
    show Measure.dirac 0 = (Measure.dirac 0).map _
    rw [Measure.map_dirac' (by fun_prop)]
    simp
    rfl

theorem mom1 (k θ σ : ℝ) : Mom (Ito.cir k θ σ).ν := mom_dirac 0

/-- from polynomials of `IE` to polynomials of the three integrals -/
noncomputable def oneI (E : Fsv1.Rv →ₗ[ℝ] ℝ) : Polynomial ℝ →ₗ[ℝ] ℝ :=
  E ∘ₗ (Polynomial.aeval (X 0 : Fsv1.Rv)).toLinearMap

/-- the variance by the integral `IE` -/
theorem givenV_repr (x : Par) (hs : Times x.s) {E : ℝ → MvPolynomial (Fin 1) ℝ →ₗ[ℝ] ℝ} (hE : GivenV x E) (t : ℝ)
    (ht : 0 ≤ t) : ∃ E', SrjdJ.Law x t E' ∧ ∀ f, E t f = E' (aeval (fun _ => SrjdJ.vAt x t) f) := by
  obtain ⟨D, hD⟩ := dynkinAt_exists (drv0_coef x.k x.θ x.σ) hs (kap_mom x) (drv0_mom x.k x.θ x.σ) (E0D x.v x.θ)
  have hκ : ∀ i : Fin x.N, Mom (Measure.dirac ![x.J i]) := fun i => mom_dirac _
  have him := dynkinAt_image (image1 x.k x.θ x.σ) (drv0_coef x.k x.θ x.σ) (coef1 x.k x.θ x.σ) rfl
    (drv0_mom x.k x.θ x.σ) (mom1 x.k x.θ x.σ) hs (kap_mom x) hκ
    (fun i => by
      rw [kap, Measure.map_dirac' (by fun_prop)]
      refine congrArg _ (funext fun l => ?_)
      rw [Fin.sum_univ_eight]
      fin_cases l; simp [c1, vec]) hD
  have h0 : E0D x.v x.θ ∘ₗ (aeval (g1 x.θ x.σ)).toLinearMap = (aeval ![x.v]).toLinearMap := by
    refine LinearMap.ext fun f => ?_
    rw [LinearMap.comp_apply, E0D_apply, AlgHom.toLinearMap_apply, AlgHom.toLinearMap_apply, Gen.eval_aeval,
      aeval_eq_eval]
    congr 1
    congr 1
    funext i
    fin_cases i; simp [g1, Vp, start]
  rw [h0] at him
  refine ⟨oneI (Sv.Ec x.k t (D t)), ⟨_, SrjdJ.IERec.of_joint (itoRecZ hs hD), fun i => ?_⟩, fun f => ?_⟩
  · rw [oneI, LinearMap.comp_apply, AlgHom.toLinearMap_apply, map_pow, Polynomial.aeval_X]
    have := Sv.Ec_mon x.k t (D t) i 0 0
    rw [pow_zero, pow_zero, mul_one, mul_one] at this
    rw [this]
    rfl
  · rw [dynkinAt_unique (coef1 x.k x.θ x.σ) hs hκ (mom1 _ _ _) hE him t ht]
    show D t (aeval (g1 x.θ x.σ) f) = _
    rw [Svvj.D_chiZ hs hD t ht, oneI, LinearMap.comp_apply, AlgHom.toLinearMap_apply]
    refine congrArg _ ?_
    have : (Svvj.chiZ x t).comp (aeval (g1 x.θ x.σ)) = ((Polynomial.aeval (X 0 : Fsv1.Rv)).comp
        (aeval (fun _ : Fin 1 => SrjdJ.vAt x t))) := by
      refine algHom_ext fun i => ?_
      rw [AlgHom.comp_apply, AlgHom.comp_apply, aeval_X, aeval_X, Svvj.chiZ]
      refine MvPolynomial.funext fun y => ?_
      fin_cases i
      simp [g1, Vp, SrjdJ.vAt, algebraMap_eq]
      ring
    exact DFunLike.congr_fun this f

theorem givenV_exists (x : Par) (hs : Times x.s) : ∃ E, GivenV x E :=
  dynkinAt_exists (coef1 x.k x.θ x.σ) hs (fun _ => mom_dirac _) (mom1 _ _ _) _

end Ajd.ItoCond
