import Verif.Spec.Draws
import Mathlib.Probability.Distributions.Poisson.Basic

/-! The random draws of the Euler generators with jumps. -/

namespace Ajd
open MeasureTheory ProbabilityTheory
open scoped NNReal

variable {Ω α κ : Type} [MeasurableSpace Ω] [MeasurableSpace α]

/-- what is learned from each draw: the starting value `V`, the normal draws `D` of the segments, the number `M i` of
jumps of the `i`-th sample and the normal draws `G i l` for their sizes -/
def drawn (V : Ω → α) (D : ℕ → ℕ → κ → Ω → ℝ) (M : ℕ → Ω → ℕ) (G : ℕ → ℕ → Ω → ℝ) :
    Option (ℕ × ℕ × κ) ⊕ ℕ × Option ℕ → MeasurableSpace Ω :=
  Sum.elim (fun o => o.elim (MeasurableSpace.comap V inferInstance) fun q => MeasurableSpace.comap (D q.1 q.2.1 q.2.2) inferInstance)
    fun q => q.2.elim (MeasurableSpace.comap (M q.1) inferInstance) fun l => MeasurableSpace.comap (G q.1 l) inferInstance

/-- The numbers of jumps have the Poisson law with mean `Λ`, all other draws are standard normal, and they and the starting
value are independent. -/
structure DrawsJ (P : Measure Ω) (V : Ω → α) (D : ℕ → ℕ → κ → Ω → ℝ) (M : ℕ → Ω → ℕ) (G : ℕ → ℕ → Ω → ℝ) (Λ : ℝ≥0) :
    Prop where
  draws : Draws P V D
  measM : ∀ i, Measurable (M i)
  lawM : ∀ i, P.map (M i) = poissonMeasure Λ
  measG : ∀ i l, Measurable (G i l)
  lawG : ∀ i l, P.map (G i l) = gaussianReal 0 1
  indep : iIndep (drawn V D M G) P

end Ajd
