import Verif.Model.Fsv1
import Verif.Model.CMoms

/-! Model of `/repo/src/ajdmom/mdl_1fsv/cond_cmom.py`: conditional central moments of the return
given the initial variance. Floats are real numbers. -/

namespace Ajd.Fsv1c
open Ito Utils

/-- keyfor of the joint moments, mdl_1fsv/cond_cmom.py lines 107 and 203. -/
def kf6 : List String := ["e^{kt}", "t", "k^{-}", "v_0-theta", "theta", "sigma"]

/-- the key added for one pair of keys in `int_mIEII`, mdl_1fsv/cond_cmom.py lines 79-85. -/
def intKey (tp : ℕ) (k1 k2 : List ℤ) : List ℤ :=
  [ix k2 0, ix k2 1, ix k2 2 + ix k1 2, ix k1 3 + (if tp = 1 then 1 else 0),
    ix k1 4 + (if tp = 2 then 1 else 0), ix k1 5 + (if tp = 1 ∨ tp = 2 then 0 else 1)]

/-- `int_mIEII(c, tp, m, poly)`, mdl_1fsv/cond_cmom.py lines 51-88. -/
def intMIEII (c : ℚ) (tp : ℕ) (m : ℤ) (poly : IPoly) : Except PyErr IPoly :=
  subst poly.keyfor (fun e => do
    let sub ← intEt (m + ix e.1 0) (ix e.1 1)
    pure (sub.items.map fun e2 => (intKey tp e.1 e2.1, c * e.2 * e2.2))) poly

/-- one `poly.merge(int_mIEII(c, tp, m, IEII[idx]))` -/
structure Call where
  c : ℚ
  tp : ℕ
  m : ℤ
  idx : Idx

/-- the calls of `recursive_IEII(n3, n4, n5, IEII)` in order, mdl_1fsv/cond_cmom.py lines 111-128. -/
def calls (i : Idx) : List Call :=
  let (n3, n4, n5) := i
  (if 2 ≤ n3 ∧ 0 ≤ n4 ∧ 0 ≤ n5 then
    let c : ℚ := (n3 * (n3 - 1) : ℤ) / 2
    [⟨c, 1, 1, (n3 - 2, n4, n5)⟩, ⟨c, 2, 2, (n3 - 2, n4, n5)⟩, ⟨c, 3, 1, (n3 - 1, n4, n5)⟩]
  else []) ++
  ((if 0 ≤ n3 ∧ 2 ≤ n4 ∧ 0 ≤ n5 then
    let c : ℚ := (n4 * (n4 - 1) : ℤ) / 2
    [⟨c, 1, -1, (n3, n4 - 2, n5)⟩, ⟨c, 2, 0, (n3, n4 - 2, n5)⟩, ⟨c, 3, -1, (n3 + 1, n4 - 2, n5)⟩]
  else []) ++
  ((if 1 ≤ n3 ∧ 1 ≤ n4 ∧ 0 ≤ n5 then
    let c : ℚ := (n3 * n4 : ℤ)
    [⟨c, 1, 0, (n3 - 1, n4 - 1, n5)⟩, ⟨c, 2, 1, (n3 - 1, n4 - 1, n5)⟩, ⟨c, 3, 0, (n3, n4 - 1, n5)⟩]
  else []) ++
  (if 0 ≤ n3 ∧ 0 ≤ n4 ∧ 2 ≤ n5 then
    let c : ℚ := (n5 * (n5 - 1) : ℤ) / 2
    [⟨c, 1, -1, (n3, n4, n5 - 2)⟩, ⟨c, 2, 0, (n3, n4, n5 - 2)⟩, ⟨c, 3, -1, (n3 + 1, n4, n5 - 2)⟩]
  else [])))

/-- `recursive_IEII(n3, n4, n5, IEII)`, mdl_1fsv/cond_cmom.py lines 91-129. -/
def recursiveIEII (i : Idx) (T : TabK (List ℤ)) : Except PyErr IPoly :=
  mergeLoop (fun q => do
    let p ← lookup T q.idx
    intMIEII q.c q.tp q.m p) (calls i) ⟨kf6, []⟩

/-- mdl_1fsv/cond_cmom.py lines 205-206. -/
def P1 : IPoly := ⟨kf6, [([0, 0, 0, 0, 0, 0], 1)]⟩
/-- mdl_1fsv/cond_cmom.py lines 207-208. -/
def P0 : IPoly := ⟨kf6, [([0, 0, 0, 0, 0, 0], 0)]⟩
/-- mdl_1fsv/cond_cmom.py lines 217-222. -/
def P200 : IPoly := ⟨kf6, [([1, 0, 1, 1, 0, 0], 1), ([0, 0, 1, 1, 0, 0], -1),
  ([2, 0, 1, 0, 1, 0], 1 / 2), ([0, 0, 1, 0, 1, 0], -(1 / 2))]⟩
/-- mdl_1fsv/cond_cmom.py lines 223-227. -/
def P110 : IPoly := ⟨kf6, [([0, 1, 0, 1, 0, 0], 1), ([1, 0, 1, 0, 1, 0], 1),
  ([0, 0, 1, 0, 1, 0], -1)]⟩
/-- mdl_1fsv/cond_cmom.py lines 229-233. -/
def P020 : IPoly := ⟨kf6, [([-1, 0, 1, 1, 0, 0], -1), ([0, 0, 1, 1, 0, 0], 1),
  ([0, 1, 0, 0, 1, 0], 1)]⟩

/-- the initial table, mdl_1fsv/cond_cmom.py lines 211-235. -/
def T0 : TabK (List ℤ) := [((0, 0, 0), P1), ((1, 0, 0), P0), ((0, 1, 0), P0), ((0, 0, 1), P0),
  ((2, 0, 0), P200), ((1, 1, 0), P110), ((1, 0, 1), P0), ((0, 2, 0), P020), ((0, 1, 1), P0),
  ((0, 0, 2), P020)]

/-- keyfor of the central moments, mdl_1fsv/cond_cmom.py line 237. -/
def kf9 : List String := kf6 ++ ["sigma/2k", "rho-sigma/2k", "sqrt(1-rho^2)"]

/-- `(k[0]-i,) + k[1:] + (i, j, n - i - j)`, mdl_1fsv/cond_cmom.py line 273. -/
def key9 (i : Idx) (k : List ℤ) : List ℤ :=
  (ix k 0 - i.1) :: k.drop 1 ++ [i.1, i.2.1, i.2.2]

/-- the moments of orders 0 and 1, mdl_1fsv/cond_cmom.py lines 243-251. -/
def first : List IPoly :=
  [⟨kf9, [([0, 0, 0, 0, 0, 0, 0, 0, 0], 1)]⟩, ⟨kf9, [([0, 0, 0, 0, 0, 0, 0, 0, 0], 0)]⟩]

/-- `cmoments_y_to(l)`, mdl_1fsv/cond_cmom.py lines 188-290. -/
def cmomentsYTo (l : ℤ) : Except PyErr (List IPoly) := cmomsTo recursiveIEII key9 kf9 T0 first l

/-- keyfor for `tp >= 2` before `simplify_rho`, mdl_1fsv/cond_cmom.py lines 161-162. -/
def kf8 : List String :=
  ["e^{-kt}", "t", "k^{-}", "v_0-theta", "theta", "sigma", "rho", "sqrt(1-rho^2)"]

/-- the terms for one entry, mdl_1fsv/cond_cmom.py lines 165-169, for `k[6] >= 0` (the exponent `p`
is then a natural number) and `k[7] >= -1` (`math.comb` is not called for a negative `k[7]`). -/
def rhoExpand (e : List ℤ × ℚ) : List (List ℤ × ℚ) :=
  (List.range (ix e.1 7 + 1).toNat).map fun i : ℕ =>
    let p : ℤ := ix e.1 6 + i
    ([-ix e.1 0, ix e.1 1, ix e.1 2 + p, ix e.1 3, ix e.1 4, ix e.1 5 + p, ix e.1 7 - i, ix e.1 8],
      ((ix e.1 7).toNat.choose i : ℚ) * (-1) ^ i * (1 / 2 ^ p) * e.2)

/-- the terms for one entry, mdl_1fsv/cond_cmom.py lines 181-184. -/
def vExpand (e : List ℤ × ℚ) : List (List ℤ × ℚ) :=
  (List.range (ix e.1 3 + 1).toNat).map fun i : ℕ =>
    ([ix e.1 0, ix e.1 1, ix e.1 2, ix e.1 3 - i, ix e.1 4 + i, ix e.1 5, ix e.1 6],
      e.2 * ((ix e.1 3).toNat.choose i : ℚ) * (-1) ^ i)

/-- keyfor for `tp = 3`, mdl_1fsv/cond_cmom.py line 177. -/
def kf7v : List String := ["e^{-kt}", "t", "k^{-}", "v_0", "theta", "sigma", "rho"]

/-- `simplify(poly, 1)`, mdl_1fsv/cond_cmom.py lines 150-157. -/
def simplify1 (poly : IPoly) : IPoly :=
  Poly.ofTerms ("e^{-kt}" :: poly.keyfor.drop 1)
    (poly.items.map fun e => ((-ix e.1 0) :: e.1.drop 1, e.2))

/-- `simplify(poly, 2)`, mdl_1fsv/cond_cmom.py lines 160-171. -/
def simplify2 (poly : IPoly) : Except PyErr IPoly :=
  simplifyRho (Poly.ofTerms kf8 (poly.items.flatMap rhoExpand)).removeZero 7

/-- `simplify(poly, tp)`, mdl_1fsv/cond_cmom.py lines 132-185. -/
def simplify (poly : IPoly) (tp : ℤ) : Except PyErr IPoly :=
  if tp = 1 then .ok (simplify1 poly)
  else if tp = 2 then simplify2 poly
  else if tp = 3 then do
    let poln ← simplify2 poly
    pure (Poly.ofTerms kf7v (poln.items.flatMap vExpand))
  else .error .exception

/-- `poly2num(poly, par)`, mdl_1fsv/cond_cmom.py lines 293-315; `v0` is `par['v0']`. -/
noncomputable def poly2num (poly : IPoly) (par : Fsv1.Par) (v0 : ℝ) : ℝ :=
  (poly.items.map fun e => (e.2 : ℝ) * Real.exp (-(ix e.1 0) * par.k * par.h) * par.h ^ ix e.1 1 *
    par.k ^ (-ix e.1 2) * ((v0 - par.θ) ^ ix e.1 3 * par.θ ^ ix e.1 4 * par.σ ^ ix e.1 5) *
    par.ρ ^ ix e.1 6).sum

/-- `cond_cm(l, par)`, mdl_1fsv/cond_cmom.py lines 317-331. -/
noncomputable def condCm (l : ℤ) (par : Fsv1.Par) (v0 : ℝ) : Except PyErr ℝ := do
  let ms ← cmomentsYTo l
  let c ← pyLast ms
  let c ← simplify c 2
  pure (poly2num c par v0)

end Ajd.Fsv1c
