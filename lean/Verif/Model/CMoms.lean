import Verif.Model.Ito
import Verif.Model.Utils

/-! The loop of `cmoments_y_to(l)`, the same in mdl_1fsv/cond_cmom.py (lines 253-290) and
mdl_svvj/cond2_cmom.py (lines 138-175): all conditional central moments of orders 0 to `l` from one
table of joint moments. -/

namespace Ajd
open Ito Utils

/-- A table of joint moments with keys of type `K`. -/
abbrev TabK (K : Type) := List (Idx × Poly K)

/-- The joint moment of one combination: in the table for `n < 3`, else `recursive_IEII`.
mdl_1fsv/cond_cmom.py lines 262-265, mdl_svvj/cond2_cmom.py lines 147-150. -/
def jointMom {K : Type} (rec : Idx → TabK K → Except PyErr (Poly K)) (n : ℤ) (T : TabK K)
    (i : Idx) : Except PyErr (Poly K) :=
  if n < 3 then lookup T i else rec i T

/-- The loop body for one combination `(i, j, n-i-j)`; the state is the table and the n-th central
moment so far. `rec` is `recursive_IEII`, `key` enlarges a key by the last components.
mdl_1fsv/cond_cmom.py lines 260-280, mdl_svvj/cond2_cmom.py lines 146-165. -/
def cmomBody {K K' : Type} [DecidableEq K'] (rec : Idx → TabK K → Except PyErr (Poly K))
    (key : Idx → K → K') (l n : ℤ) (st : TabK K × Poly K') (i : Idx) :
    Except PyErr (TabK K × Poly K') := do
  let c ← comb n [i.1, i.2.1, i.2.2]
  let poln ← jointMom rec n st.1 i
  let poly := st.2.addTerms (poln.items.map fun e => (key i e.1, (c : ℚ) * e.2))
  pure (if 3 ≤ n ∧ n < l then dset st.1 i poln else st.1, poly)

/-- One order `n`, mdl_1fsv/cond_cmom.py lines 254-289, mdl_svvj/cond2_cmom.py lines 139-174. When
`n = l` the table is deleted and not used any more; here it stays. -/
def cmomLevel {K K' : Type} [DecidableEq K'] (rec : Idx → TabK K → Except PyErr (Poly K))
    (key : Idx → K → K') (kf : List String) (l : ℤ) (st : TabK K × List (Poly K')) (n : ℤ) :
    Except PyErr (TabK K × List (Poly K')) := do
  let r ← (idxs n).foldlM (cmomBody rec key l n) (st.1, (⟨kf, []⟩ : Poly K'))
  let T := if n = l then r.1 else r.1.filter fun e => !(e.1.1 + e.1.2.1 + e.1.2.2 == n - 2)
  pure (T, st.2 ++ [r.2.removeZero])

/-- `cmoments_y_to(l)` after the table `T0` and the special moments `first` (orders 0 and 1) are set
up, mdl_1fsv/cond_cmom.py lines 253-290, mdl_svvj/cond2_cmom.py lines 138-175. -/
def cmomsTo {K K' : Type} [DecidableEq K'] (rec : Idx → TabK K → Except PyErr (Poly K))
    (key : Idx → K → K') (kf : List String) (T0 : TabK K) (first : List (Poly K')) (l : ℤ) :
    Except PyErr (List (Poly K')) := do
  let r ← (pyRange 2 (l + 1)).foldlM (cmomLevel rec key kf l) (T0, first)
  pure r.2

/-- `cmoments[-1]`: the last element, `IndexError` for an empty list. -/
def pyLast {α : Type} (L : List α) : Except PyErr α :=
  match L.getLast? with
  | some a => .ok a
  | none => .error .indexError

end Ajd
