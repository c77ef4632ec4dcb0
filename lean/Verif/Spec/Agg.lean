import Verif.Model.Poly
import Mathlib.Data.Real.Basic
import Mathlib.Algebra.BigOperators.Group.Finset.Basic
import Mathlib.Data.Nat.Choose.Basic

/-! Specification for "the moments over an interval twice as long". -/

namespace Ajd

/-- `m2` returns the moments of the sum of two variables whose moments `m` returns, and the covariances of whose powers
`cov` returns: the `n`-th moment is `∑ C(n, i) E[y_1^i y_2^(n-i)]` -/
def SumMoments (m : ℕ → Except PyErr ℝ) (cov : ℕ → ℕ → Except PyErr ℝ) (m2 : ℕ → Except PyErr ℝ) : Prop :=
  ∃ (M : ℕ → ℝ) (K : ℕ → ℕ → ℝ), (∀ l, m l = .ok (M l)) ∧ (∀ l1 l2, cov l1 l2 = .ok (K l1 l2)) ∧
    ∀ n, m2 n = .ok (∑ i ∈ Finset.range (n + 1), n.choose i * (K i (n - i) + M i * M (n - i)))

end Ajd
