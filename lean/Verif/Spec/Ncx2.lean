import Mathlib.Probability.Independence.Basic
import Mathlib.Probability.IdentDistrib
import Mathlib.Probability.Distributions.Gamma
import Mathlib.Probability.Distributions.Poisson.Basic
import Mathlib.MeasureTheory.Measure.GiryMonad

/-! The random draws of `numpy.random.noncentral_chisquare`. -/

namespace Ajd
open MeasureTheory ProbabilityTheory

/-- The non-central chi-square law with `d` degrees of freedom and non-centrality `l` (the documentation of
`noncentral_chisquare` in numpy): the chi-square law with `d + 2 N` degrees of freedom, where `N` has the Poisson law with
mean `l / 2`. -/
noncomputable def ncx2 (d l : ℝ) : Measure ℝ :=
  (poissonMeasure (l / 2).toNNReal).bind fun n => gammaMeasure ((d + 2 * n) / 2) (1 / 2)

/-- `U i j` is what the random number generator consumes for the `j`-th draw of the `i`-th sample: these variables are
independent and have the same law. `F d l` turns it into the draw with `d` degrees of freedom and non-centrality `l`. The
draws are nonnegative. -/
structure Ncx2Draws {Ω S : Type} [MeasurableSpace Ω] [MeasurableSpace S] (P : Measure Ω) (U : ℕ → ℕ → Ω → S)
    (F : ℝ → ℝ → S → ℝ) : Prop where
  meas : ∀ i j, Measurable (U i j)
  ident : ∀ i j, IdentDistrib (U i j) (U 0 0) P P
  indep : iIndepFun (fun q : ℕ × ℕ => U q.1 q.2) P
  measF : ∀ d, Measurable fun z : ℝ × S => F d z.1 z.2
  nonneg : ∀ d l s, 0 ≤ F d l s
  law : ∀ d l, 0 < d → 0 ≤ l → P.map (fun ω => F d l (U 0 0 ω)) = ncx2 d l

end Ajd
