import Verif.Model.Poly
import Mathlib.MeasureTheory.Integral.Bochner.Basic

/-! Specification for "the values are the moments of a distribution". -/

namespace Ajd
open MeasureTheory

/-- `m` and `cm` return the moments and the central moments of `P` -/
structure IsLaw (P : Measure ℝ) (m cm : ℕ → Except PyErr ℝ) : Prop where
  prob : IsProbabilityMeasure P
  int : ∀ a : ℕ, Integrable (fun y => y ^ a) P
  m : ∀ l, m l = .ok (∫ y, y ^ l ∂P)
  cm : ∀ l, cm l = .ok (∫ y, (y - ∫ z, z ∂P) ^ l ∂P)

/-- `P` is a law of two returns in a row: `m` and `cm` return the moments and the central moments of both of them and
`cov` the covariances of their powers -/
structure IsPairLaw (P : Measure (ℝ × ℝ)) (m cm : ℕ → Except PyErr ℝ) (cov : ℕ → ℕ → Except PyErr ℝ) : Prop where
  prob : IsProbabilityMeasure P
  int : ∀ a b : ℕ, Integrable (fun y => y.1 ^ a * y.2 ^ b) P
  fst : IsLaw (P.map Prod.fst) m cm
  snd : IsLaw (P.map Prod.snd) m cm
  cov : ∀ l1 l2, cov l1 l2 = .ok (∫ y, y.1 ^ l1 * y.2 ^ l2 ∂P - (∫ y, y.1 ^ l1 ∂P) * ∫ y, y.2 ^ l2 ∂P)

end Ajd
