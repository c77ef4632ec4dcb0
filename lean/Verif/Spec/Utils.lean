import Verif.Spec.Poly
import Mathlib.Analysis.SpecialFunctions.Exp
import Mathlib.Data.Finset.Lattice.Fold
import Mathlib.Order.Interval.Finset.Fin

/-! Specifications for `utils.py`. -/

namespace Ajd.Utils

/-- The running maximum `s_{j_1} ∨ ... ∨ s_{j_i}` of the jump times chosen up to level `i`. -/
noncomputable def runMax {n N : ℕ} (s : Fin N → ℝ) (j : Fin n → Fin N) (i : Fin n) : ℝ :=
  (Finset.Iic i).sup' ⟨i, by simp⟩ fun a => s (j a)

/-- `f_{Z_t}(l, o, p, q)`: the sum over all `n`-tuples of jumps, docs/source/srjd.rst equation
`fZ_IE` and the docstrings of `utils.fZ`, with level `i` (from 0) contributing
`e^{l_i k s_{j_i}} J_{j_i} s_{j_i}^{o_i}` and, from the second level on,
`e^{p_i k M_i} M_i^{q_i}` where `M_i` is the running maximum. -/
noncomputable def fZSpec (n : ℕ) {N : ℕ} (l o p q : ℕ → ℤ) (k : ℝ) (s J : Fin N → ℝ) : ℝ :=
  ∑ j : Fin n → Fin N,
    (∏ i : Fin n, (Real.exp (l i * k * s (j i)) * J (j i) * s (j i) ^ o i)) *
    ∏ i : Fin n, if (i : ℕ) = 0 then 1 else
      Real.exp (p (i - 1) * k * runMax s j i) * runMax s j i ^ q (i - 1)

/-- drop the variable at position `n` of an assignment -/
def dropVar (n : ℕ) (x : ℕ → ℝ) (i : ℕ) : ℝ := if i < n then x i else x (i + 1)

/-- what `simplify_rho(poly, n)` can reduce: the power of 'sqrt(1-rho^2)' (position `n`) is even and
non-negative, the power of 'rho' (position `n - 1`) is non-negative -/
def RhoKey (n : ℕ) (k : List ℤ) : Prop :=
  n < k.length ∧ 0 ≤ k.getD (n - 1) 0 ∧ 0 ≤ k.getD n 0 ∧ k.getD n 0 % 2 = 0

end Ajd.Utils
