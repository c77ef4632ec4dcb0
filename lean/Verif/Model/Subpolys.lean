import Verif.Model.Svvj
import Verif.Model.Writer

/-! Model of `write_to_subpolys`, `/repo/src/ajdmom/mdl_svvj/cond2_cmom.py` lines 225-242: the files that are
written, in the order in which they are written. The messages printed are left out. -/

namespace Ajd.Subpolys
open Svvj ItoCond Writer

/-- the key of a sub-Poly as a python tuple: the integers, and, if there is a summation, the four tuples between
them, mdl_svvj/cond2_cmom.py lines 156-159 and 220. -/
def toKey : CKey → List Val
  | .inl k => k.map .int
  | .inr k => k.b.map .int ++ [.tup (k.z.l.map .int), .tup (k.z.o.map .int), .tup (k.z.p.map .int),
      .tup (k.z.q.map .int)] ++ k.c.map .int

/-- a sub-Poly with its keys as python tuples -/
def toV (p : Poly CKey) : VPoly := ⟨p.keyfor, p.items.map fun e => (toKey e.1, e.2)⟩

/-- `f"svvj-cond-cmoment-{nth}-formula-{n}.txt"`, mdl_svvj/cond2_cmom.py line 241. -/
def fname (nth : ℤ) (n : ℕ) : Text :=
  "svvj-cond-cmoment-".toList ++ dec nth ++ "-formula-".toList ++ dec n ++ ".txt".toList

/-- the loop, mdl_svvj/cond2_cmom.py lines 239-242, for the sub-Polys from number `n` on. -/
def writeFrom (nth : ℤ) : ℕ → List (Poly CKey) → List (Text × Text)
  | _, [] => []
  | n, p :: ps => writeTxt (toV p) (fname nth n) :: writeFrom nth (n + 1) ps

/-- `write_to_subpolys(poly, nth)`, mdl_svvj/cond2_cmom.py lines 225-242. -/
def writeSubpolys (poly : JPoly) (nth : ℤ) : Except PyErr (List (Text × Text)) := do
  let poly ← simplify poly 0
  let subpolys ← classify poly
  pure (writeFrom nth 0 subpolys)

end Ajd.Subpolys
