import Verif.Model.Table
import Verif.Model.Utils

/-! Loop shapes shared by the model files of ajdmom. -/

namespace Ajd

/-- `for n1 in range(l, -1, -1): for n2 in range(l - n1, -1, -1): ...` with `p` nested loops and the
rest of `l` as the last component; the combinations `[n1, n2, ...]` in loop order, for `l >= 0`
(for example mdl_1fsv/cmom.py lines 121-125). -/
def combsDown : ℕ → ℕ → List (List ℕ)
  | 0, l => [[l]]
  | p + 1, l => (List.range (l + 1)).reverse.flatMap fun i => (combsDown p (l - i)).map (i :: ·)

/-- component `i` of a combination -/
def nat (ns : List ℕ) (i : ℕ) : ℕ := ns.getD i 0

/-- `for a in L: poly.merge(f(a))`. -/
def mergeLoop {α K : Type} [DecidableEq K] (f : α → Except PyErr (Poly K)) (L : List α)
    (poly : Poly K) : Except PyErr (Poly K) :=
  L.foldlM (fun acc a => do let q ← f a; acc.merge q) poly

/-- `for e in poly: for kv in terms(e): poln.add_keyval(*kv)` into a fresh Poly. -/
def subst {K L : Type} [DecidableEq K] (kf : List String)
    (terms : L × ℚ → Except PyErr (List (K × ℚ))) (poly : Poly L) : Except PyErr (Poly K) := do
  let ts ← poly.items.mapM terms
  pure (Poly.ofTerms kf ts.flatten)

end Ajd
