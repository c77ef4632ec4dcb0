import Verif.Lemmas.Sv2Law

/-! The same with jumps in the price. -/

namespace Ajd.Sv2
open MvPolynomial MeasureTheory

variable {p : Fsv2j.Par} {Ex : ℝ → ℝ × ℝ → Fsv2.Rv →ₗ[ℝ] ℝ} {γ : Measure (ℝ × ℝ)}
  {Q : ℝ → MvPolynomial (Fin 3) ℝ →ₗ[ℝ] MvPolynomial (Fin 3) ℝ}

theorem jlaw (h : Law p.toPar Ex γ Q) (hl : 0 ≤ p.lam) (hh : 0 ≤ p.h) {E0 : MvPolynomial (Fin 3) ℝ →ₗ[ℝ] ℝ}
    (h0 : StartV p.toPar E0) {F : ℝ → MvPolynomial (Fin 3) ℝ →ₗ[ℝ] ℝ}
    (hF : (sv2j p.μ p.k1 p.k2 p.θ1 p.σ1 p.θ2 p.σ2 p.lam p.μj p.σj).Dynkin E0 F) (t0 : ℝ)
    (f : MvPolynomial (Fin 3) ℝ) : F p.h f = Fsv2j.expect p γ (Ex t0) fun z x =>
      aeval ![Fsv2.vNext1 p.toPar t0 x.1, Fsv2.vNext2 p.toPar t0 x.2, Fsv2j.ret p t0 z x] f := by
  rw [sv2j_repr p hl hh (h.semi E0) hF, Fsv2j.expect]
  refine integral_congr_ae (Filter.Eventually.of_forall fun z => ?_)
  dsimp only
  refine (h.law E0 h0 _ (h.semi E0) t0 _).trans ?_
  congr 1
  funext x
  rw [← AlgHom.comp_apply]
  refine congrArg (fun g : MvPolynomial (Fin 3) ℝ →ₐ[ℝ] Fsv2.Rv => g f) (MvPolynomial.algHom_ext fun k => ?_)
  fin_cases k <;> simp [Fsv2j.ret, algebraMap_eq]

theorem jtruePoly (h : Law p.toPar Ex γ Q) (t1 : ℝ) (l : ℕ) :
    Fsv2j.TruePoly p t1 l fun z => atV (Q p.h ((X 2 + C z) ^ l)) := by
  refine ⟨Ex t1, Set.univ, Set.univ, Set.infinite_univ, Set.infinite_univ, fun v _ => h.cond t1 v, fun z v _ => ?_⟩
  rw [h.next t1]
  simp [Fsv2j.ret, algebraMap_eq]

theorem jret (h : Law p.toPar Ex γ Q) (hl : 0 ≤ p.lam) (hh : 0 ≤ p.h) {E0 : MvPolynomial (Fin 3) ℝ →ₗ[ℝ] ℝ}
    (h0 : StartV p.toPar E0) {F : ℝ → MvPolynomial (Fin 3) ℝ →ₗ[ℝ] ℝ}
    (hF : (sv2j p.μ p.k1 p.k2 p.θ1 p.σ1 p.θ2 p.σ2 p.lam p.μj p.σj).Dynkin E0 F) (t0 c : ℝ) (l : ℕ) :
    F p.h ((X 2 - C c) ^ l) = Fsv2j.expect p γ (Ex t0) fun z x => (Fsv2j.ret p t0 z x - C c) ^ l := by
  rw [jlaw h hl hh h0 hF t0]
  simp [algebraMap_eq]

theorem jtwo (h : Law p.toPar Ex γ Q) (h1 : p.k1 ≠ 0) (h2 : p.k2 ≠ 0) (hl : 0 ≤ p.lam) (hh : 0 ≤ p.h)
    {E0 : MvPolynomial (Fin 3) ℝ →ₗ[ℝ] ℝ} (h0 : StartV p.toPar E0)
    {F : ℝ → MvPolynomial (Fin 3) ℝ →ₗ[ℝ] ℝ}
    (hF : (sv2j p.μ p.k1 p.k2 p.θ1 p.σ1 p.θ2 p.σ2 p.lam p.μj p.σj).Dynkin E0 F)
    {E0' : MvPolynomial (Fin 4) ℝ →ₗ[ℝ] ℝ} (h0' : Second (F p.h) E0')
    {F' : ℝ → MvPolynomial (Fin 4) ℝ →ₗ[ℝ] ℝ}
    (hF' : (sv2jtwo p.μ p.k1 p.k2 p.θ1 p.σ1 p.θ2 p.σ2 p.lam p.μj p.σj).Dynkin E0' F') (t0 : ℝ) (a b : ℕ) :
    F' p.h (X 2 ^ a * X 3 ^ b) = (∫ z', Fsv2j.expect p γ (Ex t0) (fun z x => Fsv2j.ret p t0 z x ^ a *
      aeval (Fsv2.two (Fsv2.vNext1 p.toPar t0 x.1) (Fsv2.vNext2 p.toPar t0 x.2)) (atV (Q p.h ((X 2 + C z') ^ b))))
        ∂(Fsv2j.jumpLaw p)) ∧
    F' p.h (X 2 ^ a) = (Fsv2j.expect p γ (Ex t0) fun z x => Fsv2j.ret p t0 z x ^ a) ∧
    F' p.h (X 3 ^ b) = Fsv2j.expect p γ (Ex t0) fun z x => Fsv2j.ret p t0 z x ^ b := by
  obtain ⟨Q2, hQ2⟩ := Gen.dynkin_exists (coef4 p.μ p.k1 p.k2 p.θ1 p.σ1 p.θ2 p.σ2) mom4
  have hpr : IsProbabilityMeasure (Fsv2j.jumpLaw p) := by unfold Fsv2j.jumpLaw; infer_instance
  have key : ∀ a b, F' p.h (X 2 ^ a * X 3 ^ b) =
      ∫ z', F p.h (X 2 ^ a * aeval ![X 0, X 1, 0] (Q p.h ((X 2 + C z') ^ b))) ∂(Fsv2j.jumpLaw p) := by
    intro a b
    rw [sv2jtwo_repr p hl hh (hQ2 E0') hF']
    refine integral_congr_ae (Filter.Eventually.of_forall fun z => ?_)
    dsimp only
    have e := second h.semi (hQ2 E0') a ((X 2 + C z) ^ b) p.h hh
    rw [h0'.eq] at e
    refine Eq.trans ?_ e
    refine congrArg _ ?_
    simp [algebraMap_eq]
  refine ⟨?_, ?_, ?_⟩
  · rw [key]
    refine integral_congr_ae (Filter.Eventually.of_forall fun z' => ?_)
    dsimp only
    rw [jlaw h hl hh h0 hF t0]
    congr 1
    funext z x
    rw [map_mul, aeval_atV]
    simp
  · have hg : (sv2 p.μ p.k1 p.k2 p.θ1 p.σ1 p.θ2 p.σ2).IsGen 1 0 := by
      simpa using gen_v p.μ p.k1 p.k2 p.θ1 p.σ1 p.θ2 p.σ2 0 0
    have e := (hQ2 E0').formula _ _ (gen_second p.μ p.k1 p.k2 p.θ1 p.σ1 p.θ2 p.σ2 a hg) p.h hh
    rw [h0'.eq] at e
    simp only [map_one, mul_one, map_zero, mul_zero, intervalIntegral.integral_zero, add_zero] at e
    rw [sv2jtwo_repr p hl hh (hQ2 E0') hF']
    simp only [map_pow, aeval_X, Matrix.cons_val, integral_const, probReal_univ, one_smul]
    rw [e, jlaw h hl hh h0 hF t0]
    simp
  · have e := key 0 b
    simp only [pow_zero, one_mul] at e
    have hs : StartV p.toPar (F p.h ∘ₗ (aeval ![X 0, X 1, 0] : MvPolynomial (Fin 3) ℝ →ₐ[ℝ]
        MvPolynomial (Fin 3) ℝ).toLinearMap) := by
      refine ⟨fun f => ?_, fun m n => ?_⟩
      · simp
      · simp only [LinearMap.comp_apply, AlgHom.toLinearMap_apply, map_mul, map_pow, aeval_X, Matrix.cons_val]
        rw [sv2j_repr p hl hh (h.semi E0) hF]
        simp only [map_mul, map_pow, aeval_X, Matrix.cons_val, integral_const, probReal_univ, one_smul]
        exact stationary h1 h2 (h.semi E0) h0.v _ m n rfl p.h hh
    rw [e, Fsv2j.expect]
    refine integral_congr_ae (Filter.Eventually.of_forall fun z => ?_)
    dsimp only
    refine (h.law _ hs _ (h.semi _) t0 ((X 2 + C z) ^ b)).trans ?_
    simp [Fsv2j.ret, algebraMap_eq]

end Ajd.Sv2
