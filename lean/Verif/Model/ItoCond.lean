import Verif.Model.CMoms
import Verif.Model.Loop

/-! Model of `/repo/src/ajdmom/ito_cond_mom.py`: joint moments given the initial variance and the
jumps of the variance. -/

namespace Ajd.ItoCond
open Ito

/-- The four exponent tuples `(l_{1:n}, o_{1:n}, p_{2:n}, q_{2:n})` of a key, ito_cond_mom.py lines
489-490. -/
structure Tup where
  l : List ℤ
  o : List ℤ
  p : List ℤ
  q : List ℤ
  deriving DecidableEq, Repr

/-- A key: `b` are the six leading integers, `z` the four tuples, `c` the integers after the tuples
(none in ito_cond_mom.py; mdl_svvj and others append some). -/
structure JKey where
  b : List ℤ
  z : Tup
  c : List ℤ := []
  deriving DecidableEq, Repr

abbrev JPoly := Poly JKey

/-- keyfor of `int_et_fZ`, ito_cond_mom.py line 338. -/
def kfFZ : List String := ["e^{kt}", "t", "k^{-}", "e^{k(s_i1 v...v s_in)}", "(s_i1 v...v s_in)"]

/-- one iteration of the loop, ito_cond_mom.py lines 348-352. -/
def etStep0 (n : ℤ) (m : ℕ) (items : List (List ℤ × ℚ)) (i : ℕ) : List (List ℤ × ℚ) :=
  let c := c_nmi n m i
  let items := dset items [n, (m : ℤ) - i, (i : ℤ) + 1, 0, 0] c
  if i = m then dset items [0, 0, (i : ℤ) + 1, 0, 0] (-c) else items

/-- one iteration of the loop, ito_cond_mom.py lines 363-366. -/
def etStep1 (n : ℤ) (m : ℕ) (items : List (List ℤ × ℚ)) (i : ℕ) : List (List ℤ × ℚ) :=
  let c := c_nmi n m i
  let items := dset items [n, (m : ℤ) - i, (i : ℤ) + 1, 0, 0] c
  dset items [0, 0, (i : ℤ) + 1, n, (m : ℤ) - i] (-c)

/-- `int_et_fZ(n, m, N_sum)` for `m >= 0`, ito_cond_mom.py lines 336-367. -/
def intEtFZNat (n : ℤ) (m : ℕ) (N : ℕ) : IPoly :=
  if N = 0 then
    if n = 0 then ⟨kfFZ, dset [] [0, (m : ℤ) + 1, 0, 0, 0] (1 / ((m : ℚ) + 1))⟩
    else if m = 0 then
      ⟨kfFZ, dset (dset [] [n, 0, 1, 0, 0] (1 / (n : ℚ))) [0, 0, 1, 0, 0] (-(1 / (n : ℚ)))⟩
    else
      ⟨kfFZ, ((List.range m).map (· + 1)).foldl (etStep0 n m)
        (dset [] [n, (m : ℤ), 1, 0, 0] (1 / (n : ℚ)))⟩
  else
    if n = 0 then
      ⟨kfFZ, dset (dset [] [0, (m : ℤ) + 1, 0, 0, 0] (1 / ((m : ℚ) + 1)))
        [0, 0, 0, 0, (m : ℤ) + 1] (-(1 / ((m : ℚ) + 1)))⟩
    else if m = 0 then
      ⟨kfFZ, dset (dset [] [n, 0, 1, 0, 0] (1 / (n : ℚ))) [0, 0, 1, n, 0] (-(1 / (n : ℚ)))⟩
    else
      ⟨kfFZ, ((List.range m).map (· + 1)).foldl (etStep1 n m)
        (dset (dset [] [n, (m : ℤ), 1, 0, 0] (1 / (n : ℚ))) [0, 0, 1, n, (m : ℤ)] (-(1 / (n : ℚ))))⟩

/-- `int_et_fZ(n, m, N_sum)`, ito_cond_mom.py lines 316-367. -/
def intEtFZ (n m : ℤ) (N : ℕ) : Except PyErr IPoly :=
  if m < 0 then .error .valueError else .ok (intEtFZNat n m.toNat N)

/-- `(x[0] + a,)`, `IndexError` for an empty tuple. -/
def addFirst (x : List ℤ) (a : ℤ) : Except PyErr (List ℤ) :=
  match x with
  | [] => .error .indexError
  | y :: _ => .ok [y + a]

/-- `x[-1] += a`, `IndexError` for an empty tuple. -/
def addLast (x : List ℤ) (a : ℤ) : Except PyErr (List ℤ) :=
  match x.getLast? with
  | none => .error .indexError
  | some y => .ok (x.dropLast ++ [y + a])

/-- multiply by `e^{a k s} s^b` at the last running maximum: the two branches with at least one
summation, ito_cond_mom.py lines 411-422 and 457-468. -/
def addMax1 (z : Tup) (a b : ℤ) : Except PyErr Tup :=
  if z.l.length = 1 then do
    let l ← addFirst z.l a
    let o ← addFirst z.o b
    pure ⟨l, o, [], []⟩
  else do
    let p ← addLast z.p a
    let q ← addLast z.q b
    pure ⟨z.l, z.o, p, q⟩

/-- `key2` in `int_e_poly`, ito_cond_mom.py lines 409-422. -/
def addMax (z : Tup) (a b : ℤ) : Except PyErr Tup :=
  if z.l.length = 0 then .ok ⟨[], [], [], []⟩ else addMax1 z a b

/-- `key1` in `int_e_poly`, ito_cond_mom.py lines 402-407; the `k[2], ..., k[5]` are `ix`. -/
def key1 (tp : ℕ) (k kk : List ℤ) : List ℤ :=
  if tp = 1 then [ix kk 0, ix kk 1, ix kk 2 + ix k 2, ix k 3 + 1, ix k 4, ix k 5]
  else if tp = 2 then [ix kk 0, ix kk 1, ix kk 2 + ix k 2, ix k 3, ix k 4 + 1, ix k 5]
  else [ix kk 0, ix kk 1, ix kk 2 + ix k 2, ix k 3, ix k 4, ix k 5 + 1]

/-- `int_e_poly(coef, tp, m, poly)`, ito_cond_mom.py lines 370-424. -/
def intEPoly (coef : ℚ) (tp : ℕ) (m : ℤ) (poly : JPoly) : Except PyErr JPoly :=
  subst poly.keyfor (fun e => do
    let sub ← intEtFZ (m + ix e.1.b 0) (ix e.1.b 1) e.1.z.l.length
    sub.items.mapM fun e2 => do
      let z ← addMax e.1.z (ix e2.1 3) (ix e2.1 4)
      pure (({ b := key1 tp e.1.b e2.1, z := z } : JKey), coef * e.2 * e2.2)) poly

/-- the exponent tuples of `IEZ_s` times a key, ito_cond_mom.py lines 445-449; the two last tuples
are unbound and not used when there is one summation only. -/
def snoc (z : Tup) : Tup :=
  if 2 ≤ z.l.length + 1 then ⟨z.l ++ [1], z.o ++ [0], z.p ++ [0], z.q ++ [0]⟩
  else ⟨z.l ++ [1], z.o ++ [0], [], []⟩

/-- the key without the tuples in `int_e_IEZ_poly`, ito_cond_mom.py line 456. -/
def key1Z (k kk : List ℤ) : List ℤ :=
  [ix kk 0, ix kk 1, ix kk 2 + ix k 2, ix k 3, ix k 4, ix k 5]

/-- the inner loop of `int_e_IEZ_poly`, ito_cond_mom.py lines 454-469: the tuples `z` updated in one
round are the ones the next round starts from. -/
def iezLoop (coef : ℚ) (e : JKey × ℚ) : Tup → List (List ℤ × ℚ) → Except PyErr (List (JKey × ℚ))
  | _, [] => .ok []
  | z, e2 :: rest => do
    let z ← addMax1 z (ix e2.1 3) (ix e2.1 4)
    let ts ← iezLoop coef e z rest
    pure ((({ b := key1Z e.1.b e2.1, z := z } : JKey), coef * e.2 * e2.2) :: ts)

/-- `int_e_IEZ_poly(coef, m, poly)`, ito_cond_mom.py lines 427-470. -/
def intEIEZ (coef : ℚ) (m : ℤ) (poly : JPoly) : Except PyErr JPoly :=
  subst poly.keyfor (fun e => do
    let sub ← intEtFZ (m + ix e.1.b 0) (ix e.1.b 1) (e.1.z.l.length + 1)
    iezLoop coef e (snoc e.1.z) sub.items) poly

/-- NOT the code: `int_e_IEZ_poly` with the tuples computed afresh in each round of the inner loop, as
`int_e_poly` does. Used to locate the error of `int_e_IEZ_poly`. -/
def intEIEZFixed (coef : ℚ) (m : ℤ) (poly : JPoly) : Except PyErr JPoly :=
  subst poly.keyfor (fun e => do
    let sub ← intEtFZ (m + ix e.1.b 0) (ix e.1.b 1) (e.1.z.l.length + 1)
    sub.items.mapM fun e2 => do
      let z ← addMax1 (snoc e.1.z) (ix e2.1 3) (ix e2.1 4)
      pure (({ b := key1Z e.1.b e2.1, z := z } : JKey), coef * e.2 * e2.2)) poly

/-- keyfor of the joint moments, ito_cond_mom.py lines 489-490 and 538-539. -/
def kf : List String := ["e^{kt}", "t", "k^{-}", "v0-theta", "theta", "sigma", "l_{1:n}", "o_{1:n}",
  "p_{2:n}", "q_{2:n}"]

/-- one `poly.merge(int_e_poly(c, tp, m, IEII[idx]))`, or for `tp = 4` one
`poly.merge(int_e_IEZ_poly(c, m, IEII[idx]))` -/
structure Call where
  c : ℚ
  tp : ℕ
  m : ℤ
  idx : Idx

/-- the calls of `recursive_IEII(n1, n2, n3, IEII)` in order, ito_cond_mom.py lines 494-515. -/
def calls (i : Idx) : List Call :=
  let (n1, n2, n3) := i
  (if 2 ≤ n1 ∧ 0 ≤ n2 ∧ 0 ≤ n3 then
    let c : ℚ := (n1 * (n1 - 1) : ℤ) / 2
    [⟨c, 1, 1, (n1 - 2, n2, n3)⟩, ⟨c, 2, 2, (n1 - 2, n2, n3)⟩, ⟨c, 3, 1, (n1 - 1, n2, n3)⟩,
      ⟨c, 4, 1, (n1 - 2, n2, n3)⟩]
  else []) ++
  ((if 0 ≤ n1 ∧ 2 ≤ n2 ∧ 0 ≤ n3 then
    let c : ℚ := (n2 * (n2 - 1) : ℤ) / 2
    [⟨c, 1, -1, (n1, n2 - 2, n3)⟩, ⟨c, 2, 0, (n1, n2 - 2, n3)⟩, ⟨c, 3, -1, (n1 + 1, n2 - 2, n3)⟩,
      ⟨c, 4, -1, (n1, n2 - 2, n3)⟩]
  else []) ++
  ((if 1 ≤ n1 ∧ 1 ≤ n2 ∧ 0 ≤ n3 then
    let c : ℚ := (n1 * n2 : ℤ)
    [⟨c, 1, 0, (n1 - 1, n2 - 1, n3)⟩, ⟨c, 2, 1, (n1 - 1, n2 - 1, n3)⟩, ⟨c, 3, 0, (n1, n2 - 1, n3)⟩,
      ⟨c, 4, 0, (n1 - 1, n2 - 1, n3)⟩]
  else []) ++
  (if 0 ≤ n1 ∧ 0 ≤ n2 ∧ 2 ≤ n3 then
    let c : ℚ := (n3 * (n3 - 1) : ℤ) / 2
    [⟨c, 1, -1, (n1, n2, n3 - 2)⟩, ⟨c, 2, 0, (n1, n2, n3 - 2)⟩, ⟨c, 3, -1, (n1 + 1, n2, n3 - 2)⟩,
      ⟨c, 4, -1, (n1, n2, n3 - 2)⟩]
  else [])))

/-- `recursive_IEII(n1, n2, n3, IEII)`, ito_cond_mom.py lines 473-516, with the function called for
`int_e_IEZ_poly` as a parameter. -/
def recursiveWith (iez : ℚ → ℤ → JPoly → Except PyErr JPoly) (i : Idx) (T : TabK JKey) :
    Except PyErr JPoly :=
  mergeLoop (fun q : Call => do
    let p ← lookup T q.idx
    if q.tp = 4 then iez q.c q.m p else intEPoly q.c q.tp q.m p) (calls i) ⟨kf, []⟩

/-- `recursive_IEII(n1, n2, n3, IEII)`, ito_cond_mom.py lines 473-516. -/
def recursiveIEII (i : Idx) (T : TabK JKey) : Except PyErr JPoly := recursiveWith intEIEZ i T

/-- ito_cond_mom.py line 543. -/
def P0 : JPoly := ⟨kf, [(⟨[0, 0, 0, 0, 0, 0], ⟨[], [], [], []⟩, []⟩, 0)]⟩
/-- ito_cond_mom.py line 545. -/
def P1 : JPoly := ⟨kf, [(⟨[0, 0, 0, 0, 0, 0], ⟨[], [], [], []⟩, []⟩, 1)]⟩
/-- ito_cond_mom.py lines 560-567. -/
def P200 : JPoly := ⟨kf, [
  (⟨[1, 0, 1, 1, 0, 0], ⟨[], [], [], []⟩, []⟩, 1),
  (⟨[0, 0, 1, 1, 0, 0], ⟨[], [], [], []⟩, []⟩, -1),
  (⟨[2, 0, 1, 0, 1, 0], ⟨[], [], [], []⟩, []⟩, 1 / 2),
  (⟨[0, 0, 1, 0, 1, 0], ⟨[], [], [], []⟩, []⟩, -(1 / 2)),
  (⟨[1, 0, 1, 0, 0, 0], ⟨[1], [0], [], []⟩, []⟩, 1),
  (⟨[0, 0, 1, 0, 0, 0], ⟨[2], [0], [], []⟩, []⟩, -1)]⟩
/-- ito_cond_mom.py lines 569-575. -/
def P110 : JPoly := ⟨kf, [
  (⟨[0, 1, 0, 1, 0, 0], ⟨[], [], [], []⟩, []⟩, 1),
  (⟨[1, 0, 1, 0, 1, 0], ⟨[], [], [], []⟩, []⟩, 1),
  (⟨[0, 0, 1, 0, 1, 0], ⟨[], [], [], []⟩, []⟩, -1),
  (⟨[0, 1, 0, 0, 0, 0], ⟨[1], [0], [], []⟩, []⟩, 1),
  (⟨[0, 0, 0, 0, 0, 0], ⟨[1], [1], [], []⟩, []⟩, -1)]⟩
/-- ito_cond_mom.py lines 577-583. -/
def P020 : JPoly := ⟨kf, [
  (⟨[-1, 0, 1, 1, 0, 0], ⟨[], [], [], []⟩, []⟩, -1),
  (⟨[0, 0, 1, 1, 0, 0], ⟨[], [], [], []⟩, []⟩, 1),
  (⟨[0, 1, 0, 0, 1, 0], ⟨[], [], [], []⟩, []⟩, 1),
  (⟨[-1, 0, 1, 0, 0, 0], ⟨[1], [0], [], []⟩, []⟩, -1),
  (⟨[0, 0, 1, 0, 0, 0], ⟨[0], [0], [], []⟩, []⟩, 1)]⟩

/-- the initial table, ito_cond_mom.py lines 550-590. -/
def T0 : TabK JKey := [((0, 0, 0), P1), ((1, 0, 0), P0), ((0, 1, 0), P0), ((0, 0, 1), P0),
  ((2, 0, 0), P200), ((1, 1, 0), P110), ((1, 0, 1), P0), ((0, 2, 0), P020), ((0, 1, 1), P0),
  ((0, 0, 2), P020)]

/-- `poly = recursive_IEII(...); poly.remove_zero()`, ito_cond_mom.py lines 600-601, 608-609. -/
def stepWith (iez : ℚ → ℤ → JPoly → Except PyErr JPoly) (i : Idx) (T : TabK JKey) :
    Except PyErr JPoly := do
  let p ← recursiveWith iez i T
  pure p.removeZero

/-- the table for all lower orders when the total order is `N`, ito_cond_mom.py lines 595-605. -/
def tableWith (iez : ℚ → ℤ → JPoly → Except PyErr JPoly) (N : ℤ) : Except PyErr (TabK JKey) :=
  if N > 3 then
    fillLevels (stepWith iez) idxs (fun n i => i.1 + i.2.1 + i.2.2 == n - 2) (pyRange 3 N) T0
  else pure T0

/-- `moment_IEII(n1, n2, n3)`, ito_cond_mom.py lines 519-610, with the function called for
`int_e_IEZ_poly` as a parameter. -/
def momentWith (iez : ℚ → ℤ → JPoly → Except PyErr JPoly) (n1 n2 n3 : ℤ) : Except PyErr JPoly :=
  if n1 + n2 + n3 < 0 then .error .valueError
  else if n1 + n2 + n3 ≤ 2 then lookup T0 (n1, n2, n3)
  else do
    let T ← tableWith iez (n1 + n2 + n3)
    stepWith iez (n1, n2, n3) T

/-- `moment_IEII(n1, n2, n3)`, ito_cond_mom.py lines 519-610. -/
def momentIEII (n1 n2 n3 : ℤ) : Except PyErr JPoly := momentWith intEIEZ n1 n2 n3

end Ajd.ItoCond
