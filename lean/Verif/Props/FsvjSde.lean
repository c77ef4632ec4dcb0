import Verif.Lemmas.Svj
import Verif.Props.Fsv1j

namespace Ajd.Sv
open MvPolynomial MeasureTheory Poly

/-! ### C30 from the stochastic differential equations -/

/-- `m(l, par)` of `mdl_1fsvj/mom.py` is the `l`-th moment of the return over `h`, when the variance starts from its
stationary law. -/
theorem C30_m_sde (p : Fsv1j.Par) (hk : 0 < p.k) (hθ : 0 < p.θ) (hσ : 0 < p.σ) (hh : 0 ≤ p.h) (hρ : 0 ≤ 1 - p.ρ ^ 2)
    (hl : 0 ≤ p.lam) (E0 : MvPolynomial (Fin 2) ℝ →ₗ[ℝ] ℝ) (h0 : Start E0 (Ito.vMoment p.k p.θ p.σ))
    (E : ℝ → MvPolynomial (Fin 2) ℝ →ₗ[ℝ] ℝ) (hE : (svj p.μ p.k p.θ p.σ p.ρ p.lam p.μj p.σj).Dynkin E0 E) (l : ℕ) :
    Fsv1j.m l p = .ok (E p.h (X 1 ^ l)) := by
  have hγ := Fsv1.statLaw_gamma p.toPar hk hθ hσ
  rw [Fsv1j.C30_m p hk.ne' hh hρ hl 0 (Fsv1.condE p.toPar 0) _ hγ
    (Filter.Eventually.of_forall fun x => Fsv1.condLaw_condE p.toPar 0 x) l, svj_stat p hk.ne' hh hρ hl 0 _ hγ h0 hE]
  simp

/-- `cm(l, par)` of `mdl_1fsvj/cmom.py` is the `l`-th central moment of the return over `h`, when the variance starts
from its stationary law. -/
theorem C30_cm_sde (p : Fsv1j.Par) (hk : 0 < p.k) (hθ : 0 < p.θ) (hσ : 0 < p.σ) (hh : 0 ≤ p.h) (hρ : 0 ≤ 1 - p.ρ ^ 2)
    (hl : 0 ≤ p.lam) (E0 : MvPolynomial (Fin 2) ℝ →ₗ[ℝ] ℝ) (h0 : Start E0 (Ito.vMoment p.k p.θ p.σ))
    (E : ℝ → MvPolynomial (Fin 2) ℝ →ₗ[ℝ] ℝ) (hE : (svj p.μ p.k p.θ p.σ p.ρ p.lam p.μj p.σj).Dynkin E0 E) (l : ℕ) :
    Fsv1j.cm l p = .ok (E p.h ((X 1 - C (E p.h (X 1))) ^ l)) := by
  have hγ := Fsv1.statLaw_gamma p.toPar hk hθ hσ
  rw [Fsv1j.C30_cm p hk.ne' hh hρ hl 0 (Fsv1.condE p.toPar 0) _ hγ
    (Filter.Eventually.of_forall fun x => Fsv1.condLaw_condE p.toPar 0 x) l, svj_stat p hk.ne' hh hρ hl 0 _ hγ h0 hE,
    svj_stat p hk.ne' hh hρ hl 0 _ hγ h0 hE]
  simp

/-- `cov(l1, l2, par)` of `mdl_1fsvj/cov.py` is the covariance of `y_1^{l1}` and `y_2^{l2}`, where `y_1` and `y_2` are
the returns over two intervals of length `h` in a row, when the variance starts from its stationary law. -/
theorem C30_cov_sde (p : Fsv1j.Par) (hk : 0 < p.k) (hθ : 0 < p.θ) (hσ : 0 < p.σ) (hh : 0 ≤ p.h)
    (hρ : 0 ≤ 1 - p.ρ ^ 2) (hl : 0 ≤ p.lam)
    (E0 : MvPolynomial (Fin 2) ℝ →ₗ[ℝ] ℝ) (h0 : Start E0 (Ito.vMoment p.k p.θ p.σ))
    (E : ℝ → MvPolynomial (Fin 2) ℝ →ₗ[ℝ] ℝ) (hE : (svj p.μ p.k p.θ p.σ p.ρ p.lam p.μj p.σj).Dynkin E0 E)
    (E0' : MvPolynomial (Fin 3) ℝ →ₗ[ℝ] ℝ) (h0' : Second (E p.h) E0')
    (E' : ℝ → MvPolynomial (Fin 3) ℝ →ₗ[ℝ] ℝ) (hE' : (svj2 p.μ p.k p.θ p.σ p.ρ p.lam p.μj p.σj).Dynkin E0' E')
    (l1 l2 : ℕ) :
    Fsv1j.cov l1 l2 p = .ok (E' p.h (X 1 ^ l1 * X 2 ^ l2) - E' p.h (X 1 ^ l1) * E' p.h (X 2 ^ l2)) := by
  obtain ⟨γ, hγ⟩ : ∃ γ, Fsv1.StatLaw p.toPar γ := ⟨_, Fsv1.statLaw_gamma p.toPar hk hθ hσ⟩
  obtain ⟨Q, hQ, -⟩ := heston_semi p.μ p.k p.θ p.σ p.ρ
  obtain ⟨Q2, hQ2⟩ := Gen.dynkin_exists (coef3 p.μ p.k p.θ p.σ p.ρ) mom3
  have hpr : IsProbabilityMeasure (Fsv1j.jumpLaw p) := by unfold Fsv1j.jumpLaw; infer_instance
  have hev : ∀ z v l, (SvcjI.atV (Q p.h ((X 1 + C z) ^ l))).eval v =
      Fsv1.condE p.toPar (0 + p.h) v (Fsv1j.ret p (0 + p.h) z v ^ l) := by
    intro z v l
    have := heston_condE p.toPar hk.ne' hh hρ (0 + p.h) v (hQ (aeval ![v, 0]).toLinearMap) ((X 1 + C z) ^ l)
    rw [SvcjI.eval_atV]
    refine this.trans ?_
    simp [Fsv1j.ret, algebraMap_eq]
  have key : ∀ a b, E' p.h (X 1 ^ a * X 2 ^ b) = ∫ z', E p.h (X 1 ^ a * aeval ![X 0, 0] (Q p.h ((X 1 + C z') ^ b)))
      ∂(Fsv1j.jumpLaw p) := by
    intro a b
    rw [svj2_repr p hl hh (hQ2 E0') hE']
    refine integral_congr_ae (Filter.Eventually.of_forall fun z => ?_)
    dsimp only
    have h2 := second hQ (hQ2 E0') a ((X 1 + C z) ^ b) p.h hh
    rw [h0'.eq] at h2
    refine Eq.trans ?_ h2
    refine congrArg _ ?_
    simp [algebraMap_eq]
  have hone : ∀ a, E' p.h (X 1 ^ a) = Fsv1j.expect p γ (Fsv1.condE p.toPar 0) fun z x => Fsv1j.ret p 0 z x ^ a := by
    intro a
    have hg : (heston p.μ p.k p.θ p.σ p.ρ).IsGen 1 0 := by simpa using gen_v p.μ p.k p.θ p.σ p.ρ 0
    have h2 := (hQ2 E0').formula _ _ (gen_second p.μ p.k p.θ p.σ p.ρ a hg) p.h hh
    rw [h0'.eq] at h2
    simp only [map_one, mul_one, map_zero, mul_zero, intervalIntegral.integral_zero, add_zero] at h2
    rw [svj2_repr p hl hh (hQ2 E0') hE']
    simp only [map_pow, aeval_X, Matrix.cons_val, integral_const, probReal_univ, one_smul]
    rw [h2, svj_stat p hk.ne' hh hρ hl 0 _ hγ h0 hE]
    simp
  have htwo : ∀ b, E' p.h (X 2 ^ b) = Fsv1j.expect p γ (Fsv1.condE p.toPar 0) fun z x => Fsv1j.ret p 0 z x ^ b := by
    intro b
    have h2 := key 0 b
    simp only [pow_zero, one_mul] at h2
    have hs : Start (E p.h ∘ₗ (aeval ![X 0, 0] : MvPolynomial (Fin 2) ℝ →ₐ[ℝ] MvPolynomial (Fin 2) ℝ).toLinearMap)
        (Ito.vMoment p.k p.θ p.σ) := by
      refine ⟨fun f => ?_, fun n => ?_⟩
      · simp
      · simp only [LinearMap.comp_apply, AlgHom.toLinearMap_apply, map_pow, aeval_X, Matrix.cons_val]
        rw [svj_repr p hl hh (hQ E0) hE]
        simp only [map_pow, aeval_X, Matrix.cons_val, integral_const, probReal_univ, one_smul]
        exact stationary hk.ne' (hQ E0) h0.v n p.h hh
    rw [h2, Fsv1j.expect]
    refine integral_congr_ae (Filter.Eventually.of_forall fun z => ?_)
    dsimp only
    refine (heston_stat p.toPar hk.ne' hh hρ 0 _ hγ hs (hQ _) ((X 1 + C z) ^ b)).trans ?_
    simp [Fsv1j.ret, algebraMap_eq]
  rw [Fsv1j.C30_cov p hk.ne' hh hρ hl 0 (Fsv1.condE p.toPar 0) (Fsv1.condE p.toPar (0 + p.h)) _ hγ
    (Filter.Eventually.of_forall fun x => Fsv1.condLaw_condE p.toPar 0 x) Set.univ Set.infinite_univ
    (fun z _ => Fsv1.condLaw_condE p.toPar _ z) l1 l2 (fun z => SvcjI.atV (Q p.h ((X 1 + C z) ^ l2)))
    (fun z v _ => hev z v l2), key, hone, htwo]
  congr 2
  refine integral_congr_ae (Filter.Eventually.of_forall fun z' => ?_)
  dsimp only
  rw [svj_stat p hk.ne' hh hρ hl 0 _ hγ h0 hE]
  congr 1
  funext z x
  rw [map_mul, aeval_atV]
  congr 1
  rw [map_pow, aeval_X]
  rfl

/-- There are such expectations. -/
theorem svj_exists (p : Fsv1j.Par) (M : ℕ → ℝ) : ∃ E0 E E0' E', Start E0 M ∧
    (svj p.μ p.k p.θ p.σ p.ρ p.lam p.μj p.σj).Dynkin E0 E ∧ Second (E p.h) E0' ∧
    (svj2 p.μ p.k p.θ p.σ p.ρ p.lam p.μj p.σj).Dynkin E0' E' := by
  obtain ⟨Q, hQ⟩ := Gen.dynkin_exists (Gen.jmp_coef 1 p.lam p.μj (p.σj ^ 2).toNNReal (hcoef p.μ p.k p.θ p.σ p.ρ))
    (Gen.jmp_mom _ 1 p.lam p.μj (p.σj ^ 2).toNNReal)
  obtain ⟨Q', hQ'⟩ := Gen.dynkin_exists (Gen.jmp_coef 2 p.lam p.μj (p.σj ^ 2).toNNReal (coef3 p.μ p.k p.θ p.σ p.ρ))
    (Gen.jmp_mom _ 2 p.lam p.μj (p.σj ^ 2).toNNReal)
  rw [← svj_eq] at hQ
  rw [← svj2_eq] at hQ'
  refine ⟨Srjd.Lp M ∘ₗ SvcjI.atV.toLinearMap, _, _, _, ⟨fun f => ?_, fun n => ?_⟩, hQ _,
    ⟨fun f => ?_, fun f => ?_⟩, hQ' (((Srjd.Lp M ∘ₗ SvcjI.atV.toLinearMap) ∘ₗ Q p.h) ∘ₗ
      (aeval (![X 0, X 1, 0] : Fin 3 → MvPolynomial (Fin 2) ℝ)).toLinearMap)⟩
  · simp [SvcjI.atV]
  · have := Srjd.Lp_X M 1 n
    rw [map_one, one_mul, one_mul] at this
    simpa [SvcjI.atV] using this
  · simp
  · rw [LinearMap.comp_apply, AlgHom.toLinearMap_apply, aeval_rename]
    refine congrArg _ ?_
    have : (![X 0, X 1, 0] : Fin 3 → MvPolynomial (Fin 2) ℝ) ∘ ![0, 1] = X := by
      funext i
      fin_cases i <;> rfl
    rw [this, aeval_X_left]
    rfl

/-- `C30_m_sde`, `C30_cm_sde`, `C30_cov_sde` -/
example : ∃ (p : Fsv1j.Par) (E0 : MvPolynomial (Fin 2) ℝ →ₗ[ℝ] ℝ) (E : ℝ → MvPolynomial (Fin 2) ℝ →ₗ[ℝ] ℝ)
    (E0' : MvPolynomial (Fin 3) ℝ →ₗ[ℝ] ℝ) (E' : ℝ → MvPolynomial (Fin 3) ℝ →ₗ[ℝ] ℝ),
    0 < p.k ∧ 0 < p.θ ∧ 0 < p.σ ∧ 0 < p.h ∧ 0 < 1 - p.ρ ^ 2 ∧ p.ρ ≠ 0 ∧ 0 < p.lam ∧ p.μj ≠ 0 ∧ 0 < p.σj ∧
    Start E0 (Ito.vMoment p.k p.θ p.σ) ∧ (svj p.μ p.k p.θ p.σ p.ρ p.lam p.μj p.σj).Dynkin E0 E ∧
    Second (E p.h) E0' ∧ (svj2 p.μ p.k p.θ p.σ p.ρ p.lam p.μj p.σj).Dynkin E0' E' := by
  obtain ⟨E0, E, E0', E', h1, h2, h3, h4⟩ := svj_exists ⟨⟨1 / 10, 1 / 4, 1 / 10, -7 / 10, 1 / 8, 1⟩, 2, 1 / 3, 1 / 5⟩
    (Ito.vMoment (1 / 10) (1 / 4) (1 / 10))
  refine ⟨_, E0, E, E0', E', ?_, ?_, ?_, ?_, ?_, ?_, ?_, ?_, ?_, h1, h2, h3, h4⟩ <;> norm_num

end Ajd.Sv
