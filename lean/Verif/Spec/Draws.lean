import Mathlib.Probability.Independence.Basic
import Mathlib.Probability.Distributions.Gaussian.Real

/-! The random draws of the Euler generators. -/

namespace Ajd
open MeasureTheory ProbabilityTheory

variable {Ω α κ : Type} [MeasurableSpace Ω] [MeasurableSpace α]

/-- The draws `D i j k` (of the `i`-th sample, the `j`-th segment and the `k`-th noise) are independent standard normal
variables. -/
structure Normals (P : Measure Ω) (D : ℕ → ℕ → κ → Ω → ℝ) : Prop where
  meas : ∀ i j k, Measurable (D i j k)
  law : ∀ i j k, P.map (D i j k) = gaussianReal 0 1
  indep : iIndepFun (fun q : ℕ × ℕ × κ => D q.1 q.2.1 q.2.2) P

/-- The draws are standard normal, and they and the starting value `V` are independent. -/
structure Draws (P : Measure Ω) (V : Ω → α) (D : ℕ → ℕ → κ → Ω → ℝ) : Prop where
  measV : Measurable V
  meas : ∀ i j k, Measurable (D i j k)
  law : ∀ i j k, P.map (D i j k) = gaussianReal 0 1
  indep : iIndep (fun o : Option (ℕ × ℕ × κ) => o.elim (MeasurableSpace.comap V inferInstance) fun q =>
    MeasurableSpace.comap (D q.1 q.2.1 q.2.2) inferInstance) P

end Ajd
