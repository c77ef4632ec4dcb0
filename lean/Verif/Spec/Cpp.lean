import Mathlib.Probability.Distributions.Gaussian.Real
import Mathlib.Probability.Distributions.Poisson.Basic
import Mathlib.MeasureTheory.Group.Convolution

/-! Specification for `cpp_mom.py`: the law of a compound Poisson variable. -/

namespace Ajd.Cpp
open MeasureTheory ProbabilityTheory
open scoped NNReal

/-- law of `J_1 + ... + J_N` for independent jumps with law `ν` -/
noncomputable def sumLaw {M : Type} [AddMonoid M] [MeasurableSpace M] (ν : Measure M) : ℕ → Measure M
  | 0 => Measure.dirac 0
  | N + 1 => Measure.conv (sumLaw ν N) ν

/-- law of `J_1 + ... + J_N` with `N` Poisson distributed with mean `Λ` (`lambda * h`), independent of
the independent jumps, which have law `ν` -/
noncomputable def cppLaw {M : Type} [AddMonoid M] [MeasurableSpace M] (Λ : ℝ≥0) (ν : Measure M) : Measure M :=
  (poissonMeasure Λ).bind (sumLaw ν)

end Ajd.Cpp
