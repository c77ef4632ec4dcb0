import Verif.Model.Table

/-! Model of `/repo/src/ajdmom/ito_mom.py`. -/

namespace Ajd.Ito

/-- `c_nmi(n, m, i)`, ito_mom.py lines 197-211 (for `0 <= i <= m`). -/
def c_nmi (n : ℤ) (m i : ℕ) : ℚ :=
  (-1) ^ i * ((((List.range i).map fun j => ((m - i + 1 + j : ℕ) : ℚ)).prod) / (n : ℚ) ^ (i + 1))

/-- keyfor of `int_et`, ito_mom.py line 228. -/
def kfEt : List String := ["e^{k[t-(n-1)h]}", "[t-(n-1)h]", "k^{-}"]

/-- one iteration of the loop in `int_et`, ito_mom.py lines 237-241. -/
def intEtStep (n : ℤ) (m : ℕ) (items : List (List ℤ × ℚ)) (i : ℕ) : List (List ℤ × ℚ) :=
  let c := c_nmi n m i
  let items := dset items [n, (m : ℤ) - i, (i : ℤ) + 1] c
  if i = m then dset items [0, 0, (i : ℤ) + 1] (-c) else items

/-- `int_et(n, m)` for `m >= 0`, ito_mom.py lines 227-242. -/
def intEtNat (n : ℤ) (m : ℕ) : IPoly :=
  if n = 0 then ⟨kfEt, dset [] [0, (m : ℤ) + 1, 0] (1 / ((m : ℚ) + 1))⟩
  else if m = 0 then
    ⟨kfEt, dset (dset [] [n, 0, 1] (1 / (n : ℚ))) [0, 0, 1] (-(1 / (n : ℚ)))⟩
  else
    ⟨kfEt, ((List.range m).map (· + 1)).foldl (intEtStep n m) (dset [] [n, (m : ℤ), 1] (1 / (n : ℚ)))⟩

/-- `int_et(n, m)`, ito_mom.py lines 214-242. -/
def intEt (n m : ℤ) : Except PyErr IPoly :=
  if m < 0 then .error .valueError else .ok (intEtNat n m.toNat)

/-- The key and value added for one pair of entries in `int_e_poly`, ito_mom.py lines 281-299. -/
def intEPolyTerm (c : ℚ) (tp : ℕ) (m : ℤ) (k1 : List ℤ) (v1 : ℚ) (k2 : List ℤ) (v2 : ℚ) :
    List ℤ × ℚ :=
  let val := c * v1 * v2
  let a0 := ix k1 0 + m
  let a3 := ix k1 3
  let a4 := ix k1 4 + ix k2 2
  let a5 := ix k1 5
  let a6 := ix k1 6
  if tp = 1 then ([a0 + 1, ix k2 0, ix k2 1, a3 + 1, a4, a5, a6], val)
  else if tp = 2 then ([a0 + 1, ix k2 0, ix k2 1, a3, a4, a5 + 1, a6], -val)
  else if tp = 3 then ([a0, ix k2 0, ix k2 1, a3, a4, a5 + 1, a6], val)
  else ([a0, ix k2 0, ix k2 1, a3, a4, a5, a6 + 1], val)

/-- `int_e_poly(c, tp, m, poly)`, ito_mom.py lines 245-300. -/
def intEPoly (c : ℚ) (tp : ℕ) (m : ℤ) (poly : IPoly) : Except PyErr IPoly := do
  let terms ← poly.items.mapM fun e1 => do
    let sub ← intEt (m + ix e1.1 1) (ix e1.1 2)
    pure (sub.items.map fun e2 => intEPolyTerm c tp m e1.1 e1.2 e2.1 e2.2)
  pure (Poly.ofTerms poly.keyfor terms.flatten)

/-- keyfor of the moments, ito_mom.py lines 319-320. -/
def kf : List String :=
  ["e^{k(n-1)h}", "e^{k[t-(n-1)h]}", "[t-(n-1)h]", "v_{n-1}", "k^{-}", "theta", "sigma_v"]

abbrev Idx := ℤ × ℤ × ℤ
abbrev Tab := List (Idx × IPoly)

/-- `poly.merge(int_e_poly(c, tp, m, IEII[i]))`. -/
def mstep (c : ℚ) (tp : ℕ) (m : ℤ) (T : Tab) (i : Idx) (poly : IPoly) : Except PyErr IPoly := do
  let p ← lookup T i
  let q ← intEPoly c tp m p
  poly.merge q

/-- one of the four `if cond: c = ...; poly.merge(...) x4` blocks of `recursive_IEII`, ito_mom.py
lines 317-322, 324-329, 331-336 and 338-343: type 1 and 2 with `e^{m1 k s}`, type 3 with
`e^{m2 k s}`, all on entry `i1`, and type 4 with `e^{m3 k s}` on entry `i2`. -/
def mblock (cond : Prop) [Decidable cond] (c : ℚ) (m1 m2 m3 : ℤ) (T : Tab) (i1 i2 : Idx)
    (poly : IPoly) : Except PyErr IPoly :=
  if cond then do
    let p ← mstep c 1 m1 T i1 poly
    let p ← mstep c 2 m1 T i1 p
    let p ← mstep c 3 m2 T i1 p
    mstep c 4 m3 T i2 p
  else pure poly

/-- `recursive_IEII(n3, n4, n5, IEII)`, ito_mom.py lines 303-347. -/
def recursiveIEII (n3 n4 n5 : ℤ) (T : Tab) : Except PyErr IPoly := do
  let p ← mblock (n3 ≥ 2 ∧ n4 ≥ 0 ∧ n5 ≥ 0) ((n3 * (n3 - 1) : ℤ) / 2) 1 2 1 T
    (n3 - 2, n4, n5) (n3 - 1, n4, n5) ⟨kf, []⟩
  let p ← mblock (n3 ≥ 0 ∧ n4 ≥ 2 ∧ n5 ≥ 0) ((n4 * (n4 - 1) : ℤ) / 2) (-1) 0 (-1) T
    (n3, n4 - 2, n5) (n3 + 1, n4 - 2, n5) p
  let p ← mblock (n3 ≥ 1 ∧ n4 ≥ 1 ∧ n5 ≥ 0) ((n3 * n4 : ℤ)) 0 1 0 T
    (n3 - 1, n4 - 1, n5) (n3, n4 - 1, n5) p
  mblock (n3 ≥ 0 ∧ n4 ≥ 0 ∧ n5 ≥ 2) ((n5 * (n5 - 1) : ℤ) / 2) (-1) 0 (-1) T
    (n3, n4, n5 - 2) (n3 + 1, n4, n5 - 2) p

/-- ito_mom.py lines 376-377: an 8-component key although keyfor has 7 names. -/
def P0 : IPoly := ⟨kf, [([0, 0, 0, 0, 0, 0, 0, 0], 0)]⟩
/-- ito_mom.py lines 378-379. -/
def P1 : IPoly := ⟨kf, [([0, 0, 0, 0, 0, 0, 0, 0], 1)]⟩
/-- ito_mom.py lines 393-400. -/
def P200 : IPoly := ⟨kf, [([2, 2, 0, 0, 1, 1, 0], 1 / 2), ([2, 1, 0, 1, 1, 0, 0], 1),
  ([2, 1, 0, 0, 1, 1, 0], -1), ([2, 0, 0, 1, 1, 0, 0], -1), ([2, 0, 0, 0, 1, 1, 0], 1 / 2)]⟩
/-- ito_mom.py lines 401-407. -/
def P110 : IPoly := ⟨kf, [([1, 1, 0, 0, 1, 1, 0], 1), ([1, 0, 1, 1, 0, 0, 0], 1),
  ([1, 0, 1, 0, 0, 1, 0], -1), ([1, 0, 0, 0, 1, 1, 0], -1)]⟩
/-- ito_mom.py lines 408-415. -/
def P020 : IPoly := ⟨kf, [([0, -1, 0, 1, 1, 0, 0], -1), ([0, -1, 0, 0, 1, 1, 0], 1),
  ([0, 0, 1, 0, 0, 1, 0], 1), ([0, 0, 0, 1, 1, 0, 0], 1), ([0, 0, 0, 0, 1, 1, 0], -1)]⟩

/-- the initial table, ito_mom.py lines 383-422. -/
def T0 : Tab := [((0, 0, 0), P1), ((1, 0, 0), P0), ((0, 1, 0), P0), ((0, 0, 1), P0),
  ((2, 0, 0), P200), ((1, 1, 0), P110), ((1, 0, 1), P0), ((0, 2, 0), P020), ((0, 1, 1), P0),
  ((0, 0, 2), P020)]

/-- the index triples of order `n` in loop order, ito_mom.py lines 432-433. -/
def idxs (n : ℤ) : List Idx :=
  (pyRangeDown n).flatMap fun i => (pyRangeDown (n - i)).map fun j => (i, j, n - i - j)

/-- `poly = recursive_IEII(...); poly.remove_zero()`, ito_mom.py lines 434-435. -/
def stepT (i : Idx) (T : Tab) : Except PyErr IPoly := do
  let p ← recursiveIEII i.1 i.2.1 i.2.2 T
  pure p.removeZero

/-- the table for all lower orders when the total order is `N`, ito_mom.py lines 429-439. -/
def table (N : ℤ) : Except PyErr Tab :=
  if N > 3 then
    fillLevels stepT idxs (fun n i => i.1 + i.2.1 + i.2.2 == n - 2) (pyRange 3 N) T0
  else pure T0

/-- `moment_IEII(n3, n4, n5)`, ito_mom.py lines 350-443. -/
def momentIEII (n3 n4 n5 : ℤ) : Except PyErr IPoly :=
  if n3 + n4 + n5 < 0 then .error .valueError
  else if n3 + n4 + n5 ≤ 2 then lookup T0 (n3, n4, n5)
  else do
    let T ← table (n3 + n4 + n5)
    stepT (n3, n4, n5) T

/-- one iteration of the loop in `moment_v`, ito_mom.py lines 467-473. -/
def momentVStep (i : ℕ) (poly : IPoly) : IPoly :=
  Poly.ofTerms ["theta", "sigma_v^2/k"] (poly.items.flatMap fun e =>
    [([ix e.1 0 + 1, ix e.1 1], e.2), ([ix e.1 0, ix e.1 1 + 1], e.2 * (((i : ℚ) - 1) / 2))])

/-- `moment_v(n)`, ito_mom.py lines 446-475, for `n >= 0`. -/
def momentV : ℕ → IPoly
  | 0 => ⟨["theta", "sigma_v^2/k"], [([0, 0], 1)]⟩
  | 1 => ⟨["theta", "sigma_v^2/k"], [([1, 0], 1)]⟩
  | n + 2 => momentVStep (n + 2) (momentV (n + 1))

/-- `moment_v(n)`, ito_mom.py lines 446-475, for every int: the loop body does not run for a
negative `n` and `return poln` raises `UnboundLocalError`, a subclass of `NameError`. -/
def momentVPy (n : ℤ) : Except PyErr IPoly :=
  if n < 0 then .error .nameError else .ok (momentV n.toNat)

end Ajd.Ito
