import Verif.Spec.Gen
import Mathlib.Topology.Order.Basic

/-!
The moments of a jump-diffusion that, besides the jumps at random times, jumps at fixed times: this is the law of
the model given the times of the jumps of the variance.
-/

namespace Ajd.JumpDiff
open MvPolynomial MeasureTheory Filter Topology

variable {σ : Type} [Fintype σ]

/-- no jump in `(a, b]` -/
def Quiet {N : ℕ} (s : Fin N → ℝ) (a b : ℝ) : Prop := ∀ i, ¬(a < s i ∧ s i ≤ b)

/-- `E t f` is the expectation of `f(x_t)` for every polynomial `f`, when `E0 f` is the expectation of `f(x_0)`, the
process follows the equations `c` between the times `s i` and jumps at the time `s i` by an independent variable
with the law `κ i`. Between the jumps there is Dynkin's formula; at a jump `E[f(x_s)] = E[g(x_{s-})]`, where `g(x)`
is the mean of `f(x + y)` over the jump `y`, and the law of `x_{s-}` is the limit from the left. -/
structure DynkinAt (c : JumpDiff σ) {N : ℕ} (s : Fin N → ℝ) (κ : Fin N → Measure (σ → ℝ))
    (E0 : MvPolynomial σ ℝ →ₗ[ℝ] ℝ) (E : ℝ → MvPolynomial σ ℝ →ₗ[ℝ] ℝ) : Prop where
  start : E 0 = E0
  cont : ∀ f a b, 0 ≤ a → Quiet s a b → ContinuousOn (fun t => E t f) (Set.Icc a b)
  formula : ∀ f g, c.IsGen f g → ∀ a b, 0 ≤ a → a ≤ b → Quiet s a b → E b f = E a f + ∫ u in a..b, E u g
  jump : ∀ i, ∃ L : MvPolynomial σ ℝ →ₗ[ℝ] ℝ, (∀ f, Tendsto (fun t => E t f) (𝓝[<] s i) (𝓝 (L f))) ∧
    ∀ f g, (∀ x, eval x g = ∫ y, eval (x + y) f ∂κ i) → E (s i) f = L g

end Ajd.JumpDiff
