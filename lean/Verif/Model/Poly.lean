import Mathlib.Data.Rat.Defs
import Mathlib.Algebra.Field.Rat
import Mathlib.Data.List.Basic

/-!
Model of `/repo/src/ajdmom/poly.py` (class `Poly`, lines 58-246 and `is_exact_type` 248-264).

A Python dict is an association list in insertion order.
-/

namespace Ajd

/-- Python exceptions that the modelled code can raise, as values. -/
inductive PyErr
  | notImplemented | valueError | keyError | indexError | typeError | nameError | exception | zeroDivision
  deriving DecidableEq, Repr

/-- `d.get(k)` on an insertion-ordered dict. -/
def dget {K V : Type} [DecidableEq K] : List (K × V) → K → Option V
  | [], _ => none
  | (k', v') :: t, k => if k' = k then some v' else dget t k

/-- `d[k] = v`: overwrite in place if present, else append. -/
def dset {K V : Type} [DecidableEq K] : List (K × V) → K → V → List (K × V)
  | [], k, v => [(k, v)]
  | (k', v') :: t, k, v => if k' = k then (k', v) :: t else (k', v') :: dset t k v

/-- Class `Poly(UserDict)`, poly.py lines 75-79: a dict with the attribute `keyfor`
(default `()`). Values are `Fraction`s, modelled by `ℚ`. -/
structure Poly (K : Type) where
  keyfor : List String := []
  items : List (K × ℚ) := []
  deriving DecidableEq

namespace Poly
variable {K : Type} [DecidableEq K]

/-- `is_exact_type`, poly.py lines 248-264, for an argument that is a `Poly`
(the `isinstance` branch for foreign objects is not modelled). The loop compares position by
position after the length check. -/
def isExactType {L : Type} (p : Poly K) (q : Poly L) : Bool :=
  if p.keyfor.length ≠ q.keyfor.length then false
  else (List.range p.keyfor.length).all fun i => p.keyfor.getD i "" == q.keyfor.getD i ""

/-- `add_keyval`, poly.py lines 191-200. -/
def addKeyval (p : Poly K) (k : K) (v : ℚ) : Poly K :=
  match dget p.items k with
  | some w => { p with items := dset p.items k (w + v) }
  | none => { p with items := dset p.items k v }

/-- `for k, v in terms: poly.add_keyval(k, v)`. -/
def addTerms (p : Poly K) (terms : List (K × ℚ)) : Poly K :=
  terms.foldl (fun acc kv => acc.addKeyval kv.1 kv.2) p

/-- A fresh `Poly` with `set_keyfor(kf)` filled by `add_keyval` calls in the given order. -/
def ofTerms (kf : List String) (terms : List (K × ℚ)) : Poly K :=
  addTerms { keyfor := kf, items := [] } terms

/-- `remove_zero`, poly.py lines 202-207 (collect the keys with value 0, then delete them). -/
def removeZero (p : Poly K) : Poly K :=
  { p with items := p.items.filter fun kv => kv.2 ≠ 0 }

/-- `set_keyfor`, poly.py lines 209-216. -/
def setKeyfor (p : Poly K) (kf : List String) : Poly K := { p with keyfor := kf }

/-- `__add__`, poly.py lines 81-97. -/
def add (p q : Poly K) : Except PyErr (Poly K) :=
  if p.isExactType q then .ok (addTerms p q.items).removeZero
  else .error .notImplemented

/-- `merge`, poly.py lines 99-115; the receiver after the call. -/
def merge (p q : Poly K) : Except PyErr (Poly K) :=
  if p.isExactType q then .ok (addTerms p q.items).removeZero
  else .error .notImplemented

/-- one iteration of the loop of `__sub__`, poly.py lines 129-133; `s` is `self`. -/
def subStep (s acc : Poly K) (k : K) (v : ℚ) : Poly K :=
  if (dget s.items k).isSome then
    { acc with items := dset acc.items k ((dget acc.items k).getD 0 - v) }
  else { acc with items := dset acc.items k (-v) }

/-- `__sub__`, poly.py lines 117-136. -/
def sub (p q : Poly K) : Except PyErr (Poly K) :=
  if p.isExactType q then
    .ok (q.items.foldl (fun acc kv => subStep p acc kv.1 kv.2) p).removeZero
  else .error .notImplemented

/-- `__rmul__`, poly.py lines 159-174 (`c * poly`). -/
def rmul (c : ℚ) (p : Poly K) : Poly K :=
  (ofTerms p.keyfor (p.items.map fun kv => (kv.1, kv.2 * c))).removeZero

end Poly

/-- Polys with flat integer tuples as keys. -/
abbrev IPoly := Poly (List ℤ)

/-- `tuple(k1[i] + k2[i] for i in range(len(k1)))`, poly.py line 152.
`none` is the `IndexError` raised when `k2` is shorter than `k1`. -/
def keyAdd (k1 k2 : List ℤ) : Option (List ℤ) :=
  if k1.length ≤ k2.length then some (List.zipWith (· + ·) k1 k2) else none

/-- `kv(i, key)`, poly.py lines 61-72. -/
def kv (i : ℤ) (key : List ℤ) : ℤ :=
  if 0 ≤ i ∧ i < key.length then key.getD i.toNat 0 else 0

namespace Poly

/-- The pairs `(k1, k2)` in the order of the double loop. -/
def pairs {K L : Type} (p : List (K × ℚ)) (q : List (L × ℚ)) : List ((K × L) × ℚ) :=
  p.flatMap fun a => q.map fun b => ((a.1, b.1), a.2 * b.2)

/-- `__mul__`, poly.py lines 138-157. -/
def mul (p q : IPoly) : Except PyErr IPoly :=
  if p.isExactType q then
    match (pairs p.items q.items).mapM fun t => (keyAdd t.1.1 t.1.2).map fun k => (k, t.2) with
    | some terms => .ok (ofTerms p.keyfor terms).removeZero
    | none => .error .indexError
  else .error .notImplemented

/-- the loop of `__pow__`, poly.py lines 187-188. -/
def powLoop (p : IPoly) : ℕ → IPoly → Except PyErr IPoly
  | 0, acc => .ok acc
  | n + 1, acc => do let a ← mul acc p; powLoop p n a

/-- `__pow__`, poly.py lines 176-189. -/
def pow (p : IPoly) (n : ℤ) : Except PyErr IPoly :=
  if n ≤ 0 then .error .notImplemented
  else powLoop p (n - 1).toNat p

/-- `mul_poly`, poly.py lines 218-246. `idx1`, `idx2` are the two lists of `keyIndexes`;
`idx2[i]` raises `IndexError` when `idx2` is shorter than `idx1`, but only if the loop body runs. -/
def mulPoly (p q : IPoly) (idx1 idx2 : List ℤ) (kf : List String) : Except PyErr IPoly :=
  if idx1.length ≤ idx2.length ∨ p.items = [] ∨ q.items = [] then
    .ok (ofTerms kf ((pairs p.items q.items).map fun t =>
      (List.zipWith (fun i j => kv i t.1.1 + kv j t.1.2) idx1 idx2, t.2))).removeZero
  else .error .indexError

end Poly
end Ajd
