import Mathlib.Algebra.MvPolynomial.PDeriv
import Mathlib.MeasureTheory.Integral.IntervalIntegral.Basic

/-!
The moments of a jump-diffusion `dx = b(x) dt + s(x) dw + dz`, where `z` is a compound Poisson process, in terms
of its stochastic differential equation: Dynkin's formula for polynomials.
-/

namespace Ajd
open MvPolynomial MeasureTheory

/-- the coefficients of `dx = b(x) dt + s(x) dw + dz` -/
structure JumpDiff (σ : Type) where
  /-- the drift -/
  b : (σ → ℝ) → σ → ℝ
  /-- `a = s sᵀ`: the covariance of `s(x) dw` is `a(x) dt` -/
  a : (σ → ℝ) → σ → σ → ℝ
  /-- intensity of the jumps -/
  lam : ℝ
  /-- law of a jump -/
  ν : Measure (σ → ℝ)

namespace JumpDiff
variable {σ : Type} [Fintype σ]

/-- `g` is the polynomial `A f`, where `A` is the generator
`(A f)(x) = ∑ b_i ∂_i f + 1/2 ∑ a_ij ∂_i ∂_j f + lam E[f(x + J) - f(x)]` -/
def IsGen (c : JumpDiff σ) (f g : MvPolynomial σ ℝ) : Prop :=
  ∀ x : σ → ℝ, eval x g = ∑ i, c.b x i * eval x (pderiv i f) +
    1 / 2 * ∑ i, ∑ j, c.a x i j * eval x (pderiv i (pderiv j f)) +
    c.lam * ∫ y, (eval (x + y) f - eval x f) ∂c.ν

/-- `E t f` is the expectation of `f(x_t)` for every polynomial `f`, when `E0 f` is the expectation of `f(x_0)`:
Dynkin's formula `E[f(x_t)] = E[f(x_0)] + ∫_0^t E[(A f)(x_s)] ds` -/
structure Dynkin (c : JumpDiff σ) (E0 : MvPolynomial σ ℝ →ₗ[ℝ] ℝ) (E : ℝ → MvPolynomial σ ℝ →ₗ[ℝ] ℝ) : Prop where
  cont : ∀ f, ContinuousOn (fun t => E t f) (Set.Ici 0)
  formula : ∀ f g, c.IsGen f g → ∀ t, 0 ≤ t → E t f = E0 f + ∫ s in (0 : ℝ)..t, E s g

end JumpDiff
end Ajd
