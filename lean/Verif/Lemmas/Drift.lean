import Verif.Lemmas.Units

/-! A constant drift. -/

namespace Ajd.Gen
open MvPolynomial MeasureTheory Dyn

variable {σ : Type} [Fintype σ]

/-- the shift by `s w` -/
noncomputable def sh (w : σ → ℝ) (s : ℝ) (i : σ) : MvPolynomial σ ℝ := X i + C (s * w i)

theorem sh_image [DecidableEq σ] {b : σ → MvPolynomial σ ℝ} {a : σ → σ → MvPolynomial σ ℝ} {w : σ → ℝ} {s : ℝ}
    (ν : Measure (σ → ℝ)) (hb : ∀ i, aeval (sh w s) (b i) = b i) (ha : ∀ i j, aeval (sh w s) (a i j) = a i j) :
    Image (sh w s) (fun i => Pi.single i 1) b a ν b a ν where
  lin k i := by
    rw [sh, map_add, pderiv_C, add_zero, pderiv_X]
    by_cases h : k = i
    · subst h; simp
    · simp [Pi.single_apply, h, Ne.symm h]
  shift k x y := by simp [sh, Pi.single_apply]; ring
  drift k := by simp [Pi.single_apply, apply_ite C, hb]
  diff k l := by simp [Pi.single_apply, apply_ite C, ha]
  jump := by simp [Pi.single_apply]

/-- the shift as a polynomial in time -/
noncomputable def shP (w : σ → ℝ) : MvPolynomial σ ℝ →ₐ[ℝ] Polynomial (MvPolynomial σ ℝ) :=
  aeval fun i => Polynomial.C (X i) + Polynomial.C (C (w i)) * Polynomial.X

theorem shP_eval (w : σ → ℝ) (s : ℝ) (f : MvPolynomial σ ℝ) : (shP w f).eval (C s) = aeval (sh w s) f := by
  induction f using MvPolynomial.induction_on with
  | C a =>
    rw [shP, aeval_C, aeval_C, Polynomial.algebraMap_apply, Polynomial.eval_C]
  | add p q hp hq => simp only [map_add, Polynomial.eval_add, hp, hq]
  | mul_X p k hp =>
    rw [map_mul, Polynomial.eval_mul, hp, map_mul]
    have : (shP w (X k)).eval (C s) = aeval (sh w s) (X k : MvPolynomial σ ℝ) := by
      rw [shP, aeval_X, aeval_X, sh, Polynomial.eval_add, Polynomial.eval_mul, Polynomial.eval_C, Polynomial.eval_C,
        Polynomial.eval_X, C_mul, mul_comm]
    rw [this]

theorem shP_deriv (w : σ → ℝ) (f : MvPolynomial σ ℝ) :
    (shP w f).derivative = shP w (∑ i, C (w i) * pderiv i f) := by
  classical
  induction f using MvPolynomial.induction_on with
  | C a => simp [shP, Polynomial.algebraMap_apply]
  | add p q hp hq => simp only [map_add, hp, hq, mul_add, Finset.sum_add_distrib]
  | mul_X p k hp =>
    rw [map_mul, Polynomial.derivative_mul, hp]
    have e : (shP w (X k)).derivative = Polynomial.C (C (w k)) := by simp [shP]
    have e' : shP w (C (w k)) = Polynomial.C (C (w k)) := by simp [shP, Polynomial.algebraMap_apply]
    have : ∑ i, C (w i) * pderiv i (p * X k) = (∑ i, C (w i) * pderiv i p) * X k + p * C (w k) := by
      simp only [Derivation.leibniz, smul_eq_mul, pderiv_X, Pi.single_apply, mul_add, Finset.sum_add_distrib, mul_ite,
        mul_one, mul_zero, Finset.sum_ite_eq', Finset.sum_ite_eq, Finset.mem_univ, if_true, Finset.sum_mul]
      rw [add_comm]
      congr 1
      · exact Finset.sum_congr rfl fun i _ => by ring
      · ring
    rw [e, this, map_add, map_mul, map_mul, e']

theorem sh_sum (w : σ → ℝ) (s : ℝ) (f : MvPolynomial σ ℝ) :
    aeval (sh w s) f = ∑ j ∈ Finset.range ((shP w f).natDegree + 1), (s ^ j) • (shP w f).coeff j := by
  rw [← shP_eval, Polynomial.eval_eq_sum_range]
  refine Finset.sum_congr rfl fun j _ => ?_
  rw [smul_eq_C_mul, C_pow, mul_comm]

theorem sh_sum_deriv (w : σ → ℝ) (s : ℝ) (f : MvPolynomial σ ℝ) : aeval (sh w s) (∑ i, C (w i) * pderiv i f) =
    ∑ j ∈ Finset.range ((shP w f).natDegree + 1), (j * s ^ (j - 1)) • (shP w f).coeff j := by
  rw [← shP_eval, ← shP_deriv, Polynomial.derivative_eval, Polynomial.sum_over_range _ (by simp)]
  refine Finset.sum_congr rfl fun j _ => ?_
  rw [smul_eq_C_mul, map_mul, C_pow, map_natCast]
  ring

theorem dynkin_drift {c c' : JumpDiff σ} {b : σ → MvPolynomial σ ℝ} {a : σ → σ → MvPolynomial σ ℝ} (h : PolyCoef c b a)
    (hν : Mom c.ν) {w : σ → ℝ} (h' : PolyCoef c' (fun i => b i + C (w i)) a) (hl : c'.lam = c.lam) (hn : c'.ν = c.ν)
    (hb : ∀ s i, aeval (sh w s) (b i) = b i) (ha : ∀ s i j, aeval (sh w s) (a i j) = a i j)
    {E0 : MvPolynomial σ ℝ →ₗ[ℝ] ℝ} {E : ℝ → MvPolynomial σ ℝ →ₗ[ℝ] ℝ} (hE : c.Dynkin E0 E) :
    c'.Dynkin E0 fun t => E t ∘ₗ (aeval (sh w t)).toLinearMap := by
  classical
  obtain ⟨hs, h0⟩ := dynkin_sol h hν hE
  obtain ⟨b', a', lam', ν'⟩ := c'
  dsimp only at hl hn
  subst hl hn
  have hz : E 0 ∘ₗ (aeval (sh w 0)).toLinearMap = E0 := by
    rw [h0]
    refine LinearMap.ext fun f => ?_
    have : sh w 0 = X := by funext i; simp [sh]
    rw [LinearMap.comp_apply, AlgHom.toLinearMap_apply, this, aeval_X_left, AlgHom.id_apply]
  rw [← hz]
  refine dynkin_of_sol h' hν (E := fun t => E t ∘ₗ (aeval (sh w t)).toLinearMap) fun f t ht => ?_
  have e1 : op (fun i => b i + C (w i)) a c.lam c.ν hν f = op b a c.lam c.ν hν f + ∑ i, C (w i) * pderiv i f := by
    rw [op_apply, op_apply]
    simp only [add_mul, Finset.sum_add_distrib]
    ring
  dsimp only
  simp only [LinearMap.comp_apply, AlgHom.toLinearMap_apply]
  rw [e1, map_add, map_add, ← op_image (sh_image c.ν (hb t) (ha t)) c.lam hν hν, sh_sum_deriv]
  simp only [sh_sum w _ f]
  simp only [map_sum, map_smul, smul_eq_mul]
  rw [← Finset.sum_add_distrib]
  refine HasDerivWithinAt.fun_sum fun j _ => ?_
  have := ((hasDerivAt_pow j t).hasDerivWithinAt (s := Set.Ici 0)).mul (hs ((shP w f).coeff j) t ht)
  refine this.congr_deriv ?_
  ring

end Ajd.Gen
