import Verif.Lemmas.Heston3
import Verif.Props.Fsv1
import Verif.Props.Fsv1c

namespace Ajd.Sv
open MvPolynomial MeasureTheory Poly

/-! ### C18, C26, C27, C29 from the stochastic differential equations -/

/-- `moment_v(n)` is the `n`-th moment of the variance exactly when its law is stationary: the moments of the
variance do not change with time if and only if they are the values of `moment_v`. -/
theorem C18_stationary (mu k theta sigma rho : ℝ) (hk : k ≠ 0) (E0 : MvPolynomial (Fin 2) ℝ →ₗ[ℝ] ℝ) (h1 : E0 1 = 1)
    (E : ℝ → MvPolynomial (Fin 2) ℝ →ₗ[ℝ] ℝ) (hE : (heston mu k theta sigma rho).Dynkin E0 E) :
    (∀ n t, 0 ≤ t → E t (X 0 ^ n) = E0 (X 0 ^ n)) ↔
      ∀ n : ℕ, ∃ P, Ito.momentVPy n = .ok P ∧ ev (Ito.vVal k theta sigma) P = E0 (X 0 ^ n) := by
  constructor
  · intro h n
    obtain ⟨P, e, -, -, -, v⟩ := C18_moment_v n
    exact ⟨P, e, by rw [v, stationary_unique hk h1 hE h n]⟩
  · intro h n t ht
    have h0 : ∀ n, E0 (X 0 ^ n) = Ito.vMoment k theta sigma n := fun n => by
      obtain ⟨P, e, v⟩ := h n
      obtain ⟨P', e', -, -, -, v'⟩ := C18_moment_v n
      rw [e] at e'
      obtain rfl : P = P' := by injection e'
      rw [← v, v']
    rw [stationary hk hE h0 n t ht, h0]

/-- `m(l, par)` of `mdl_1fsv/mom.py` is the `l`-th moment of the return over `h`, when the variance starts from its
stationary law. -/
theorem C26_m_sde (p : Fsv1.Par) (hk : 0 < p.k) (hθ : 0 < p.θ) (hσ : 0 < p.σ) (hh : 0 ≤ p.h) (hρ : 0 ≤ 1 - p.ρ ^ 2)
    (E0 : MvPolynomial (Fin 2) ℝ →ₗ[ℝ] ℝ) (h0 : Start E0 (Ito.vMoment p.k p.θ p.σ))
    (E : ℝ → MvPolynomial (Fin 2) ℝ →ₗ[ℝ] ℝ) (hE : (heston p.μ p.k p.θ p.σ p.ρ).Dynkin E0 E) (l : ℕ) :
    Fsv1.m l p = .ok (E p.h (X 1 ^ l)) := by
  have hγ := Fsv1.statLaw_gamma p hk hθ hσ
  rw [Fsv1.C26_m p hk.ne' hh hρ 0 (Fsv1.condE p 0) _ hγ (Filter.Eventually.of_forall fun x => Fsv1.condLaw_condE p 0 x) l,
    heston_stat p hk.ne' hh hρ 0 _ hγ h0 hE]
  simp

/-- `cm(l, par)` of `mdl_1fsv/cmom.py` is the `l`-th central moment of the return over `h`, when the variance starts
from its stationary law. -/
theorem C26_cm_sde (p : Fsv1.Par) (hk : 0 < p.k) (hθ : 0 < p.θ) (hσ : 0 < p.σ) (hh : 0 ≤ p.h) (hρ : 0 ≤ 1 - p.ρ ^ 2)
    (E0 : MvPolynomial (Fin 2) ℝ →ₗ[ℝ] ℝ) (h0 : Start E0 (Ito.vMoment p.k p.θ p.σ))
    (E : ℝ → MvPolynomial (Fin 2) ℝ →ₗ[ℝ] ℝ) (hE : (heston p.μ p.k p.θ p.σ p.ρ).Dynkin E0 E) (l : ℕ) :
    Fsv1.cm l p = .ok (E p.h ((X 1 - C (E p.h (X 1))) ^ l)) := by
  have hγ := Fsv1.statLaw_gamma p hk hθ hσ
  rw [Fsv1.C26_cm p hk.ne' hh hρ 0 (Fsv1.condE p 0) _ hγ (Filter.Eventually.of_forall fun x => Fsv1.condLaw_condE p 0 x) l,
    heston_stat p hk.ne' hh hρ 0 _ hγ h0 hE, heston_stat p hk.ne' hh hρ 0 _ hγ h0 hE]
  simp

/-- `cov(l1, l2, par)` of `mdl_1fsv/cov.py` is the covariance of `y_1^{l1}` and `y_2^{l2}`, where `y_1` and `y_2` are
the returns over two intervals of length `h` in a row, when the variance starts from its stationary law. -/
theorem C27_cov_sde (p : Fsv1.Par) (hk : 0 < p.k) (hθ : 0 < p.θ) (hσ : 0 < p.σ) (hh : 0 ≤ p.h) (hρ : 0 ≤ 1 - p.ρ ^ 2)
    (E0 : MvPolynomial (Fin 2) ℝ →ₗ[ℝ] ℝ) (h0 : Start E0 (Ito.vMoment p.k p.θ p.σ))
    (E : ℝ → MvPolynomial (Fin 2) ℝ →ₗ[ℝ] ℝ) (hE : (heston p.μ p.k p.θ p.σ p.ρ).Dynkin E0 E)
    (E0' : MvPolynomial (Fin 3) ℝ →ₗ[ℝ] ℝ) (h0' : Second (E p.h) E0')
    (E' : ℝ → MvPolynomial (Fin 3) ℝ →ₗ[ℝ] ℝ) (hE' : (heston2 p.μ p.k p.θ p.σ p.ρ).Dynkin E0' E') (l1 l2 : ℕ) :
    Fsv1.cov l1 l2 p = .ok (E' p.h (X 1 ^ l1 * X 2 ^ l2) - E' p.h (X 1 ^ l1) * E' p.h (X 2 ^ l2)) := by
  obtain ⟨γ, hγ⟩ : ∃ γ, Fsv1.StatLaw p γ := ⟨_, Fsv1.statLaw_gamma p hk hθ hσ⟩
  obtain ⟨Q, hQ, -⟩ := heston_semi p.μ p.k p.θ p.σ p.ρ
  have hev : ∀ z l, (SvcjI.atV (Q p.h (X 1 ^ l))).eval z = Fsv1.condE p (0 + p.h) z (Fsv1.ret p (0 + p.h) z ^ l) := by
    intro z l
    have := heston_condE p hk.ne' hh hρ (0 + p.h) z (hQ (aeval ![z, 0]).toLinearMap) (X 1 ^ l)
    rw [SvcjI.eval_atV]
    refine this.trans ?_
    simp
  have key : ∀ a b, E' p.h (X 1 ^ a * X 2 ^ b) = Fsv1.expect γ (Fsv1.condE p 0) fun x => Fsv1.ret p 0 x ^ a *
      Polynomial.aeval (Fsv1.vNext p 0 x) (SvcjI.atV (Q p.h (X 1 ^ b))) := by
    intro a b
    have h2 := second hQ hE' a (X 1 ^ b) p.h hh
    rw [map_pow, rename_X, h0'.eq, heston_stat p hk.ne' hh hρ 0 _ hγ h0 hE] at h2
    refine h2.trans ?_
    congr 1
    funext x
    rw [map_mul, map_pow, aeval_X]
    congr 1
    have : ∀ f, aeval ![Fsv1.vNext p 0 x, Fsv1.ret p 0 x] ((aeval ![X 0, 0] : MvPolynomial (Fin 2) ℝ →ₐ[ℝ]
        MvPolynomial (Fin 2) ℝ) f) = Polynomial.aeval (Fsv1.vNext p 0 x) (SvcjI.atV f) := by
      intro f
      induction f using MvPolynomial.induction_on with
      | C a => simp [SvcjI.atV]
      | add p q hp hq => simp only [map_add, hp, hq]
      | mul_X p i hp =>
        simp only [map_mul, hp]
        congr 1
        fin_cases i <;> simp [SvcjI.atV]
    exact this _
  have hone : ∀ a, E' p.h (X 1 ^ a) = Fsv1.expect γ (Fsv1.condE p 0) fun x => Fsv1.ret p 0 x ^ a := by
    intro a
    have hg : (heston p.μ p.k p.θ p.σ p.ρ).IsGen 1 0 := by simpa using gen_v p.μ p.k p.θ p.σ p.ρ 0
    have h2 := hE'.formula _ _ (gen_second p.μ p.k p.θ p.σ p.ρ a hg) p.h hh
    rw [h0'.eq] at h2
    simp only [map_one, mul_one, map_zero, mul_zero, intervalIntegral.integral_zero, add_zero] at h2
    rw [h2, heston_stat p hk.ne' hh hρ 0 _ hγ h0 hE]
    simp
  have htwo : ∀ b, E' p.h (X 2 ^ b) = Fsv1.expect γ (Fsv1.condE p 0) fun x => Fsv1.ret p 0 x ^ b := by
    intro b
    have h2 := second hQ hE' 0 (X 1 ^ b) p.h hh
    rw [h0'.eq, map_pow, rename_X, pow_zero, pow_zero, one_mul, one_mul] at h2
    have hs : Start (E p.h ∘ₗ (aeval ![X 0, 0] : MvPolynomial (Fin 2) ℝ →ₐ[ℝ] MvPolynomial (Fin 2) ℝ).toLinearMap)
        (Ito.vMoment p.k p.θ p.σ) := by
      refine ⟨fun f => ?_, fun n => ?_⟩
      · simp
      · simp only [LinearMap.comp_apply, AlgHom.toLinearMap_apply, map_pow, aeval_X, Matrix.cons_val]
        exact stationary hk.ne' hE h0.v n p.h hh
    have h3 := heston_stat p hk.ne' hh hρ 0 _ hγ hs (hQ _) (X 1 ^ b)
    refine (h2.trans h3).trans ?_
    simp
  rw [Fsv1.C27_cov p hk.ne' hh hρ 0 (Fsv1.condE p 0) (Fsv1.condE p (0 + p.h)) _ hγ
    (Filter.Eventually.of_forall fun x => Fsv1.condLaw_condE p 0 x) Set.univ Set.infinite_univ
    (fun z _ => Fsv1.condLaw_condE p _ z) l1 l2 (SvcjI.atV (Q p.h (X 1 ^ l2))) (fun z _ => hev z l2), key, hone, htwo]

/-- `cond_cm(l, par)` of `mdl_1fsv/cond_cmom.py` is the `l`-th central moment of the return over `h`, when the
variance starts from `x`. -/
theorem C29_cond_cm_sde (p : Fsv1.Par) (hk : p.k ≠ 0) (hh : 0 ≤ p.h) (hρ : 0 ≤ 1 - p.ρ ^ 2) (x : ℝ)
    (E : ℝ → MvPolynomial (Fin 2) ℝ →ₗ[ℝ] ℝ)
    (hE : (heston p.μ p.k p.θ p.σ p.ρ).Dynkin (aeval ![x, 0]).toLinearMap E) (l : ℕ) (hl : 1 ≤ l) :
    Fsv1c.condCm l p x = .ok (E p.h ((X 1 - C (E p.h (X 1))) ^ l)) := by
  rw [Fsv1c.C29_cond_cm l hl p hk hh hρ 0 x _ (Fsv1.condLaw_condE p 0 x), heston_condE p hk hh hρ 0 x hE,
    heston_condE p hk hh hρ 0 x hE]
  simp

/-- There are such expectations. -/
theorem sde_exists (p : Fsv1.Par) (M : ℕ → ℝ) : ∃ E0 E E0' E', Start E0 M ∧
    (heston p.μ p.k p.θ p.σ p.ρ).Dynkin E0 E ∧ Second (E p.h) E0' ∧
    (heston2 p.μ p.k p.θ p.σ p.ρ).Dynkin E0' E' := by
  obtain ⟨Q, hQ, -⟩ := heston_semi p.μ p.k p.θ p.σ p.ρ
  obtain ⟨Q', hQ'⟩ := Gen.dynkin_exists (coef3 p.μ p.k p.θ p.σ p.ρ) mom3
  refine ⟨Srjd.Lp M ∘ₗ SvcjI.atV.toLinearMap, _, _, _, ⟨fun f => ?_, fun n => ?_⟩, hQ _,
    ⟨fun f => ?_, fun f => ?_⟩, hQ' (((Srjd.Lp M ∘ₗ SvcjI.atV.toLinearMap) ∘ₗ Q p.h) ∘ₗ
      (aeval (![X 0, X 1, 0] : Fin 3 → MvPolynomial (Fin 2) ℝ)).toLinearMap)⟩
  · simp [SvcjI.atV]
  · have := Srjd.Lp_X M 1 n
    rw [map_one, one_mul, one_mul] at this
    simpa [SvcjI.atV] using this
  · simp
  · rw [LinearMap.comp_apply, AlgHom.toLinearMap_apply, aeval_rename]
    refine congrArg _ ?_
    have : (![X 0, X 1, 0] : Fin 3 → MvPolynomial (Fin 2) ℝ) ∘ ![0, 1] = X := by
      funext i
      fin_cases i <;> rfl
    rw [this, aeval_X_left]
    rfl

/-- `C18_stationary`, `C26_m_sde`, `C26_cm_sde`, `C27_cov_sde` -/
example : ∃ (p : Fsv1.Par) (E0 : MvPolynomial (Fin 2) ℝ →ₗ[ℝ] ℝ) (E : ℝ → MvPolynomial (Fin 2) ℝ →ₗ[ℝ] ℝ)
    (E0' : MvPolynomial (Fin 3) ℝ →ₗ[ℝ] ℝ) (E' : ℝ → MvPolynomial (Fin 3) ℝ →ₗ[ℝ] ℝ),
    0 < p.k ∧ 0 < p.θ ∧ 0 < p.σ ∧ 0 < p.h ∧ 0 < 1 - p.ρ ^ 2 ∧ p.ρ ≠ 0 ∧ E0 1 = 1 ∧
    Start E0 (Ito.vMoment p.k p.θ p.σ) ∧ (heston p.μ p.k p.θ p.σ p.ρ).Dynkin E0 E ∧ Second (E p.h) E0' ∧
    (heston2 p.μ p.k p.θ p.σ p.ρ).Dynkin E0' E' := by
  obtain ⟨E0, E, E0', E', h1, h2, h3, h4⟩ := sde_exists ⟨1 / 10, 1 / 4, 1 / 10, -7 / 10, 1 / 8, 1⟩
    (Ito.vMoment (1 / 10) (1 / 4) (1 / 10))
  refine ⟨_, E0, E, E0', E', ?_, ?_, ?_, ?_, ?_, ?_, ?_, h1, h2, h3, h4⟩ <;> norm_num
  have := h1.v 0
  simpa [Ito.vMoment] using this

/-- `C29_cond_cm_sde` -/
example : ∃ (p : Fsv1.Par) (x : ℝ) (E : ℝ → MvPolynomial (Fin 2) ℝ →ₗ[ℝ] ℝ), p.k ≠ 0 ∧ 0 < p.h ∧ 0 < 1 - p.ρ ^ 2 ∧
    0 < x ∧ (heston p.μ p.k p.θ p.σ p.ρ).Dynkin (aeval ![x, 0]).toLinearMap E := by
  obtain ⟨Q, hQ, -⟩ := heston_semi (1 / 8) (1 / 10) (1 / 4) (1 / 10) (-7 / 10)
  refine ⟨⟨1 / 10, 1 / 4, 1 / 10, -7 / 10, 1 / 8, 1⟩, 1 / 4, _, ?_, ?_, ?_, ?_, hQ _⟩ <;> norm_num

end Ajd.Sv
