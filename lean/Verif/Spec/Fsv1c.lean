import Verif.Spec.Fsv1
import Verif.Model.Fsv1c

/-! Meaning of the keys of `mdl_1fsv/cond_cmom.py`; `x` is the initial variance, `p.h` the time. -/

namespace Ajd.Fsv1c

/-- value of a key of the conditional central moments -/
noncomputable def v9 (p : Fsv1.Par) (x : ℝ) (k : List ℤ) : ℝ :=
  Real.exp (ix k 0 * p.k * p.h) * p.h ^ ix k 1 * p.k ^ (-ix k 2) * (x - p.θ) ^ ix k 3 *
    p.θ ^ ix k 4 * p.σ ^ ix k 5 * (p.σ / (2 * p.k)) ^ ix k 6 * (p.ρ - p.σ / (2 * p.k)) ^ ix k 7 *
    Real.sqrt (1 - p.ρ ^ 2) ^ ix k 8

/-- a key of the conditional central moments: the powers of everything but `e^{kt}` and `k` are not
negative -/
def K9 (k : List ℤ) : Prop :=
  k.length = 9 ∧ 0 ≤ ix k 1 ∧ 0 ≤ ix k 3 ∧ 0 ≤ ix k 4 ∧ 0 ≤ ix k 5 ∧ 0 ≤ ix k 6 ∧ 0 ≤ ix k 7 ∧
    0 ≤ ix k 8

/-- value of a key after `simplify(poly, 1)` -/
noncomputable def v9' (p : Fsv1.Par) (x : ℝ) (k : List ℤ) : ℝ :=
  Real.exp (-(ix k 0) * p.k * p.h) * p.h ^ ix k 1 * p.k ^ (-ix k 2) * (x - p.θ) ^ ix k 3 *
    p.θ ^ ix k 4 * p.σ ^ ix k 5 * (p.σ / (2 * p.k)) ^ ix k 6 * (p.ρ - p.σ / (2 * p.k)) ^ ix k 7 *
    Real.sqrt (1 - p.ρ ^ 2) ^ ix k 8

/-- value of a key after `simplify(poly, 2)` -/
noncomputable def v7 (p : Fsv1.Par) (x : ℝ) (k : List ℤ) : ℝ :=
  Real.exp (-(ix k 0) * p.k * p.h) * p.h ^ ix k 1 * p.k ^ (-ix k 2) * (x - p.θ) ^ ix k 3 *
    p.θ ^ ix k 4 * p.σ ^ ix k 5 * p.ρ ^ ix k 6

/-- value of a key after `simplify(poly, 3)` -/
noncomputable def v7v (p : Fsv1.Par) (x : ℝ) (k : List ℤ) : ℝ :=
  Real.exp (-(ix k 0) * p.k * p.h) * p.h ^ ix k 1 * p.k ^ (-ix k 2) * x ^ ix k 3 *
    p.θ ^ ix k 4 * p.σ ^ ix k 5 * p.ρ ^ ix k 6

end Ajd.Fsv1c
