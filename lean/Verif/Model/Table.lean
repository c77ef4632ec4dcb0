import Verif.Model.Poly

/-!
The bottom-up moment tables used all over ajdmom: a dict from an index tuple to a Poly, filled
order by order, old orders being deleted (for example ito_mom.py lines 431-439).
-/

namespace Ajd

/-- `d[i]`, `KeyError` when absent. -/
def lookup {I V : Type} [DecidableEq I] (T : List (I × V)) (i : I) : Except PyErr V :=
  match dget T i with
  | some v => .ok v
  | none => .error .keyError

/-- `for i in idxs: T[i] = step(i, T)`. -/
def fillTable {I V : Type} [DecidableEq I] (step : I → List (I × V) → Except PyErr V)
    (idxs : List I) (T : List (I × V)) : Except PyErr (List (I × V)) :=
  idxs.foldlM (fun T i => do let v ← step i T; pure (dset T i v)) T

/-- `for n in ns: fill the entries idxs(n); delete the keys selected by del(n)`. -/
def fillLevels {I V : Type} [DecidableEq I] (step : I → List (I × V) → Except PyErr V)
    (idxs : ℤ → List I) (del : ℤ → I → Bool) (ns : List ℤ) (T : List (I × V)) :
    Except PyErr (List (I × V)) :=
  ns.foldlM (fun T n => do
    let T ← fillTable step (idxs n) T
    pure (T.filter fun e => !(del n e.1))) T

/-- Python `range(a, b)` on ints. -/
def pyRange (a b : ℤ) : List ℤ := (List.range (b - a).toNat).map fun i : ℕ => a + (i : ℤ)

/-- Python `range(n, -1, -1)`: `n, n-1, ..., 0`. -/
def pyRangeDown (n : ℤ) : List ℤ := (List.range (n + 1).toNat).map fun i : ℕ => n - (i : ℤ)

/-- component `i` of a flat key; see DESIGN.md on `IndexError` -/
def ix (k : List ℤ) (i : ℕ) : ℤ := k.getD i 0

end Ajd
