import Mathlib.Probability.Distributions.Exponential
import Mathlib.Analysis.Calculus.Deriv.Polynomial
import Mathlib.Algebra.Polynomial.AlgebraMap

/-! Specification for the moments of the square-root jump-diffusion
`dv = k (θ - v) dt + σ √v dw + dz`: what the generator of the process says about them. -/

namespace Ajd.Srjd
open MeasureTheory ProbabilityTheory

/-- the generator: drift `k (θ - v)`, variance `σ² v`, jumps at rate `lam` of exponential size with
mean `μ` (docs/source/srjd.rst) -/
noncomputable def gen (k θ σ lam μ : ℝ) (f : ℝ → ℝ) (v : ℝ) : ℝ :=
  k * (θ - v) * deriv f v + σ ^ 2 * v / 2 * deriv (deriv f) v +
    lam * ∫ y, (f (v + y) - f v) ∂(expMeasure (1 / μ))

/-- `V n t` are the moments `E[v_t^n | v_0 = x]`: Dynkin's formula
`d/dt E[f(v_t)] = E[(gen f)(v_t)]` for the monomials `f`. The generator maps `v^n` to a polynomial `q` in
`v`, whose expectation is `∑ q_i V i t`. -/
structure Dynkin (k θ σ lam μ x : ℝ) (V : ℕ → ℝ → ℝ) : Prop where
  init : ∀ n, V n 0 = x ^ n
  cont : ∀ n, ContinuousOn (V n) (Set.Ici 0)
  deriv : ∀ n t, 0 < t → ∀ q : Polynomial ℝ, (∀ v, q.eval v = gen k θ σ lam μ (fun y => y ^ n) v) →
    HasDerivAt (V n) (q.sum fun i c => c * V i t) t

/-- `M n` are the moments of a stationary law: the generator of every monomial has expectation `0`. -/
structure Stationary (k θ σ lam μ : ℝ) (M : ℕ → ℝ) : Prop where
  zero : M 0 = 1
  gen : ∀ n, ∀ q : Polynomial ℝ, (∀ v, q.eval v = gen k θ σ lam μ (fun y => y ^ n) v) →
    (q.sum fun i c => c * M i) = 0

end Ajd.Srjd
