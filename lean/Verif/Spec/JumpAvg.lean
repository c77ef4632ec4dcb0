import Mathlib.Probability.Distributions.Exponential
import Mathlib.MeasureTheory.Integral.IntervalIntegral.Basic

/-! The mean over the jumps of a compound Poisson process. -/

namespace Ajd
open MeasureTheory ProbabilityTheory

/-- The part with exactly `n` jumps of the mean of `F`, a function of the list of the jumps (time, size) in `(a, T]` in
the order of their times. The process has the rate `lam` and exponential jumps of mean `μ`: the first jump after `a` is
at the time `τ` with density `lam e^{-lam (τ - a)}`, its size is independent of that, and the process starts anew at
`τ`; with probability `e^{-lam (T - a)}` there is no jump. -/
noncomputable def jumpAvg (lam μ T : ℝ) : ℕ → ℝ → (List (ℝ × ℝ) → ℝ) → ℝ
  | 0, a, F => Real.exp (-(lam * (T - a))) * F []
  | n + 1, a, F => ∫ τ in a..T, lam * Real.exp (-(lam * (τ - a))) *
      ∫ y, jumpAvg lam μ T n τ (fun l => F ((τ, y) :: l)) ∂(expMeasure (1 / μ))

/-- the times of a list of jumps increase and are in `(a, T]` -/
def JumpsIn (a T : ℝ) (l : List (ℝ × ℝ)) : Prop :=
  (a :: l.map Prod.fst).Pairwise (· < ·) ∧ ∀ q ∈ l, q.1 ≤ T

end Ajd
