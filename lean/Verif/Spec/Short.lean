import Verif.Model.Poly
import Mathlib.Analysis.Calculus.Deriv.Basic

/-! Short intervals. -/

namespace Ajd
open Filter Topology

/-- `f h`, a moment over an interval of length `h`, starts from `x0` and changes at the rate `d`: it returns a value for
every `h > 0`, and `(f h - x0) / h` tends to `d`. -/
def Rate (f : ℝ → Except PyErr ℝ) (x0 d : ℝ) : Prop :=
  ∃ a : ℝ → ℝ, (∀ h, 0 < h → f h = .ok (a h)) ∧ Tendsto (fun h => (a h - x0) / h) (𝓝[>] 0) (𝓝 d)

/-- the rate of the moment of order `n` of a return with drift `b`, variance `a` and jumps whose moments are `j`, that come
at rate `lam` -/
def levy (b a lam : ℝ) (j : ℕ → ℝ) (n : ℕ) : ℝ := (if n = 1 then b else 0) + (if n = 2 then a else 0) + lam * j n

end Ajd
