import Verif.Model.Ieziziz
import Verif.Model.SrjdCmom
import Verif.Model.Ito

/-! Model of `/repo/src/ajdmom/mdl_svcj/cond_ieii_ieziziz_mom.py`, `cond_mom.py`, `cond_cmom.py`, `mom.py` and
`cmom.py`: moments of the return of the SVCJ model, given the initial variance and unconditional. -/

namespace Ajd.SvcjI
open Ieziziz

/-! ### cond_ieii_ieziziz_mom.py -/

/-- keyfor, cond_ieii_ieziziz_mom.py lines 165-166, 191-192, 216-217, 236-237 and 307-308. -/
def kfI : List String :=
  ["e^{kt}", "t", "k^{-}", "v0-theta", "theta", "sigma", "lmbd", "mu_v", "mu_s", "sigma_s"]

/-- `ieziziz_to_ieii_ieziziz(poly)`, cond_ieii_ieziziz_mom.py lines 162-172. -/
def toI (poly : IPoly) : IPoly :=
  Poly.ofTerms kfI (poly.items.map fun e =>
    ([ix e.1 0, ix e.1 2, ix e.1 3, 0, 0, 0, ix e.1 4, ix e.1 5, ix e.1 6, ix e.1 7], e.2))

/-- keyfor, cond_ieii_ieziziz_mom.py line 179. -/
def kfX : List String := ["e^{kt}", "t", "e^{ks}", "s", "k^{-}", "lmbd", "mu_v", "mu_s", "sigma_s"]

/-- the entries added for one key, cond_ieii_ieziziz_mom.py lines 181-186. -/
def expandTerms (e : List ℤ × ℚ) : List (List ℤ × ℚ) :=
  (List.range (ix e.1 2 + 1).toNat).map fun i : ℕ =>
    ([ix e.1 0, (i : ℤ), ix e.1 1, ix e.1 2 - i] ++ e.1.drop 3,
      ((ix e.1 2).toNat.choose i : ℚ) * (-1) ^ (ix e.1 2 - i).toNat * e.2)

/-- `expand_ieziziz(poly)`, cond_ieii_ieziziz_mom.py lines 175-187. -/
def expandZ (poly : IPoly) : IPoly := Poly.ofTerms kfX (poly.items.flatMap expandTerms)

/-- the entries added for one key, cond_ieii_ieziziz_mom.py lines 196-207. -/
def intESTerms (c : ℚ) (tp : ℕ) (m1 m2 : ℤ) (e : List ℤ × ℚ) : Except PyErr (List (List ℤ × ℚ)) := do
  let pol1 ← Ito.intEt (ix e.1 0 + m1) (ix e.1 1 + m2)
  pure (pol1.items.map fun f =>
    let key := f.1.modify 2 (· + ix e.1 2) ++ e.1.drop 3
    (if tp = 1 ∨ tp = 2 ∨ tp = 3 then key.modify (tp + 2) (· + 1) else key, c * e.2 * f.2))

/-- `int_e_s_poly(c, tp, m1, m2, poly)`, cond_ieii_ieziziz_mom.py lines 190-208. -/
def intES (c : ℚ) (tp : ℕ) (m1 m2 : ℤ) (poly : IPoly) : Except PyErr IPoly :=
  subst kfI (intESTerms c tp m1 m2) poly

/-- `key_times_poly(k, poly)`, cond_ieii_ieziziz_mom.py lines 211-232. -/
def keyTimes (k : List ℤ) (poly : IPoly) : IPoly :=
  Poly.ofTerms kfI (poly.items.map fun e =>
    ([ix e.1 0 + ix k 0, ix e.1 1 + ix k 1, ix e.1 2 + ix k 4, ix e.1 3, ix e.1 4, ix e.1 5, ix e.1 6 + ix k 5,
      ix e.1 7 + ix k 6, ix e.1 8 + ix k 7, ix e.1 9 + ix k 8], e.2))

/-- the dict of moments; the keys are tuples of length 6 -/
abbrev Tab := List (List ℤ × IPoly)

/-- the four lines that build `pol2`, cond_ieii_ieziziz_mom.py lines 258-261, 265-268, 272-275 and 279-282; the
third argument of `int_e_s_poly` is `m` in the first, third and fourth of them, and `m + 1` in the second. -/
def four (c : ℚ) (m s : ℤ) (I1 I2 I3 : List ℤ) (T : Tab) : Except PyErr IPoly := do
  let t1 ← lookup T I1
  let p1 ← intES c 1 m s t1
  let p2 ← intES c 2 (m + 1) s t1
  let p ← p1.add p2
  let t3 ← lookup T I2
  let p3 ← intES c 3 m s t3
  let p ← p.add p3
  let t4 ← lookup T I3
  let p4 ← intES c 4 m s t4
  p.add p4

/-- one branch, e.g. cond_ieii_ieziziz_mom.py lines 256-262. -/
def branch (b : Prop) [Decidable b] (k : List ℤ) (q : Except PyErr IPoly) (poly : IPoly) : Except PyErr IPoly :=
  if b then do
    let pol2 ← q
    poly.merge (keyTimes k pol2)
  else .ok poly

/-- one round of the loop over `pol1`, cond_ieii_ieziziz_mom.py lines 255-283; `bino` as in lines 247-250. -/
def recEntry (n1 n2 n3 i1 i2 i3 : ℤ) (bino : ℚ) (T : Tab) (poly : IPoly) (e : List ℤ × ℚ) :
    Except PyErr IPoly := do
  let k := e.1
  let v := e.2
  let poly ← branch (2 ≤ n1 ∧ 0 ≤ n2 ∧ 0 ≤ n3) k
    (four (bino * ((n1 * (n1 - 1) : ℤ) / 2 : ℚ) * v) (ix k 2 + 1) (ix k 3) [n1 - 2, n2, n3, i1, i2, i3]
      [n1 - 1, n2, n3, i1, i2, i3] [n1 - 2, n2, n3, i1 + 1, i2, i3] T) poly
  let poly ← branch (0 ≤ n1 ∧ 2 ≤ n2 ∧ 0 ≤ n3) k
    (four (bino * ((n2 * (n2 - 1) : ℤ) / 2 : ℚ) * v) (ix k 2 - 1) (ix k 3) [n1, n2 - 2, n3, i1, i2, i3]
      [n1 + 1, n2 - 2, n3, i1, i2, i3] [n1, n2 - 2, n3, i1 + 1, i2, i3] T) poly
  let poly ← branch (1 ≤ n1 ∧ 1 ≤ n2 ∧ 0 ≤ n3) k
    (four (bino * n1 * n2 * v) (ix k 2 + 0) (ix k 3) [n1 - 1, n2 - 1, n3, i1, i2, i3]
      [n1 + 0, n2 - 1, n3, i1, i2, i3] [n1 - 1, n2 - 1, n3, i1 + 1, i2, i3] T) poly
  branch (0 ≤ n1 ∧ 0 ≤ n2 ∧ 2 ≤ n3) k
    (four (bino * ((n3 * (n3 - 1) : ℤ) / 2 : ℚ) * v) (ix k 2 - 1) (ix k 3) [n1, n2, n3 - 2, i1, i2, i3]
      [n1 + 1, n2, n3 - 2, i1, i2, i3] [n1, n2, n3 - 2, i1 + 1, i2, i3] T) poly

/-- one round of the loops over `i1, i2, i3`, cond_ieii_ieziziz_mom.py lines 247-283. -/
def recRound (n1 n2 n3 n4 n5 n6 : ℤ) (T : Tab) (poly : IPoly) (i : ℤ × ℤ × ℤ) : Except PyErr IPoly := do
  let m ← Ieziziz.moment (n4 - i.1) (n5 - i.2.1) (n6 - i.2.2)
  let pol1 := expandZ m
  if pol1.items.length = 0 then .error .exception
  else pol1.items.foldlM (recEntry n1 n2 n3 i.1 i.2.1 i.2.2
    ((n4.toNat.choose i.1.toNat * n5.toNat.choose i.2.1.toNat * n6.toNat.choose i.2.2.toNat : ℕ) : ℚ) T) poly

/-- the indices of the loops, cond_ieii_ieziziz_mom.py lines 244-246. -/
def recIdx (n4 n5 n6 : ℤ) : List (ℤ × ℤ × ℤ) :=
  (pyRange 0 (n4 + 1)).flatMap fun i1 => (pyRange 0 (n5 + 1)).flatMap fun i2 =>
    (pyRange 0 (n6 + 1)).map fun i3 => (i1, i2, i3)

/-- `recursive_ieii_ieziziz(n1, n2, n3, n4, n5, n6, ieii_ieziziz)`, cond_ieii_ieziziz_mom.py lines 235-284; the
orders are `n`. -/
def recI (n : List ℤ) (T : Tab) : Except PyErr IPoly :=
  if ix n 0 = 0 ∧ ix n 1 = 0 ∧ ix n 2 = 0 then do
    let m ← Ieziziz.moment (ix n 3) (ix n 4) (ix n 5)
    pure (toI m)
  else (recIdx (ix n 3) (ix n 4) (ix n 5)).foldlM
    (recRound (ix n 0) (ix n 1) (ix n 2) (ix n 3) (ix n 4) (ix n 5) T) ⟨kfI, []⟩

/-- the dict before the loops, cond_ieii_ieziziz_mom.py lines 305-329. -/
def tabI : Except PyErr Tab := do
  let P0 : IPoly := ⟨kfI, [([0, 0, 0, 0, 0, 0, 0, 0, 0, 0], 0)]⟩
  let P1 : IPoly := ⟨kfI, [([0, 0, 0, 0, 0, 0, 0, 0, 0, 0], 1)]⟩
  let m1 ← Ieziziz.moment 1 0 0
  let m2 ← Ieziziz.moment 0 1 0
  let m3 ← Ieziziz.moment 0 0 1
  pure [([0, 0, 0, 0, 0, 0], P1), ([1, 0, 0, 0, 0, 0], P0), ([0, 1, 0, 0, 0, 0], P0), ([0, 0, 1, 0, 0, 0], P0),
    ([0, 0, 0, 1, 0, 0], toI m1), ([0, 0, 0, 0, 1, 0], toI m2), ([0, 0, 0, 0, 0, 1], toI m3)]

/-- the indices of the loops for one `n`, cond_ieii_ieziziz_mom.py lines 334-339. -/
def idxI (n : ℤ) : List (List ℤ) :=
  (pyRange 0 (n + 1)).flatMap fun i1 => (pyRange 0 (n - i1 + 1)).flatMap fun i2 =>
    (pyRange 0 (n - i1 - i2 + 1)).flatMap fun i3 => (pyRange 0 (n - i1 - i2 - i3 + 1)).flatMap fun i4 =>
      (pyRange 0 (n - i1 - i2 - i3 - i4 + 1)).map fun i5 => [i1, i2, i3, i4, i5, n - i1 - i2 - i3 - i4 - i5]

/-- `moment_ieii_ieziziz(n1, ..., n6)`, cond_ieii_ieziziz_mom.py lines 287-346. -/
def momentI (n1 n2 n3 n4 n5 n6 : ℤ) : Except PyErr IPoly :=
  if n1 < 0 ∨ n2 < 0 ∨ n3 < 0 ∨ n4 < 0 ∨ n5 < 0 ∨ n6 < 0 then .error .valueError
  else do
    let T0 ← tabI
    let T ← fillLevels recI idxI (fun _ _ => false) (pyRange 2 (n1 + n2 + n3 + n4 + n5 + n6)) T0
    recI [n1, n2, n3, n4, n5, n6] T

/-- `par`; `par['sigma']` is the volatility of the variance. -/
structure SPar extends Ieziziz.Par where
  v0 : ℝ
  mu : ℝ
  theta : ℝ
  sigma : ℝ
  rho : ℝ
  rhoJ : ℝ
  h : ℝ

/-- the body of the loop of `poly2num`, cond_ieii_ieziziz_mom.py lines 357-360. -/
noncomputable def numI (p : SPar) (K : List ℤ) : ℝ :=
  Real.exp (ix K 0 * p.k * p.h) * p.h ^ ix K 1 / p.k ^ ix K 2 *
    ((p.v0 - p.theta) ^ ix K 3 * p.theta ^ ix K 4 * p.sigma ^ ix K 5) *
    (p.lmbd ^ ix K 6 * p.mu_v ^ ix K 7) * (p.mu_s ^ ix K 8 * p.sigma_s ^ ix K 9)

/-- `poly2num(poly, par)`, cond_ieii_ieziziz_mom.py lines 349-362, in real numbers and for `k != 0`. -/
noncomputable def poly2numI (poly : IPoly) (p : SPar) : ℝ :=
  poly.items.foldl (fun f e => f + numI p e.1 * e.2) 0

/-- `m_ieii_ieziziz(order, par)`, cond_ieii_ieziziz_mom.py lines 365-369. -/
noncomputable def mI (n1 n2 n3 n4 n5 n6 : ℤ) (p : SPar) : Except PyErr ℝ := do
  let m ← momentI n1 n2 n3 n4 n5 n6
  pure (poly2numI m p)

/-! ### cond_mom.py -/

/-- keyfor, cond_mom.py lines 13-15 and 98. -/
def kfB : List String :=
  ["e^{kt}", "t", "k^{-}", "mu", "v0-theta", "theta", "sigma", "rho", "sqrt(1-rho^2)", "lmbd", "mu_v", "rhoJ",
    "mu_s", "sigma_s"]

/-- `b_n(n1, ..., n8)`, cond_mom.py lines 12-34. -/
def bN (n1 n2 n3 n4 n5 n7 n8 : ℕ) : IPoly :=
  Poly.ofTerms kfB ((List.range (n2 + 1)).flatMap fun i1 : ℕ => (List.range (n5 + 1)).flatMap fun i2 : ℕ =>
    (List.range (n7 + 1)).flatMap fun i3 : ℕ => (List.range (n8 + 1)).map fun i4 : ℕ =>
      ([-((n1 : ℤ) + n4 + n8 - i4), (n7 : ℤ), (n1 : ℤ) + n4 + i1 + i2 + n8, (n7 : ℤ) - i3, (n8 : ℤ), (i3 : ℤ),
          (n1 : ℤ) + i1, (n2 : ℤ) - i1, (n3 : ℤ), 0, 0, (n5 : ℤ) - i2, 0, 0],
        (-1) ^ (i1 + i2 + i3 + i4) *
          (((n2.choose i1 * n5.choose i2 * n7.choose i3 * n8.choose i4 : ℕ) : ℚ) /
            2 ^ (n1 + n4 + i1 + i2 + i3 + n8))))

/-- `new_keyfor.index(k)`; `ValueError` when absent, cond_mom.py line 42. -/
def indexOf (l : List String) (s : String) : Except PyErr ℕ :=
  if s ∈ l then .ok (l.idxOf s) else .error .valueError

/-- `enlarge(poly, new_keyfor)`, cond_mom.py lines 37-51. -/
def enlarge (poly : IPoly) (kf : List String) : Except PyErr IPoly := do
  let index ← poly.keyfor.mapM (indexOf kf)
  pure (Poly.ofTerms kf (poly.items.map fun e =>
    ((List.range poly.keyfor.length).foldl (fun (key : List ℤ) (i : ℕ) => key.set (index.getD i 0) (ix e.1 i))
      (List.replicate kf.length 0), e.2)))

/-- keyfor, cond_mom.py lines 59-61 and 87-89. -/
def kfY : List String :=
  ["e^{kt}", "t", "k^{-}", "mu", "v0-theta", "theta", "sigma", "rho", "lmbd", "mu_v", "rhoJ", "mu_s", "sigma_s"]

/-- the entries added for one key, cond_mom.py lines 65-74; the exponent is not negative. -/
def sqrtTerms (e : List ℤ × ℚ) : Except PyErr (List (List ℤ × ℚ)) :=
  if ix e.1 8 % 2 ≠ 0 then .error .exception
  else .ok ((List.range (ix e.1 8 / 2 + 1).toNat).map fun i : ℕ =>
    ((e.1.modify 7 (· + 2 * (i : ℤ))).eraseIdx 8, (-1) ^ i * ((ix e.1 8 / 2).toNat.choose i : ℚ) * e.2))

/-- `expand_sqrt(poly)`, cond_mom.py lines 54-75. -/
def expandSqrt (poly : IPoly) : Except PyErr IPoly := subst kfY sqrtTerms poly

/-- `for n1 in range(l + 1): for n2 in range(l - n1 + 1): ...` with `p` nested loops and the rest of `l` as the
last component, for `l >= 0`; cond_mom.py lines 101-108. -/
def combsUp : ℕ → ℕ → List (List ℕ)
  | 0, l => [[l]]
  | p + 1, l => (List.range (l + 1)).flatMap fun i => (combsUp p (l - i)).map (i :: ·)

/-- the Poly merged in one round of the loops, cond_mom.py lines 108-122. -/
def yTerm (n : ℕ) (ns : List ℕ) : Except PyErr IPoly := do
  let c ← Utils.comb n (ns.map Int.ofNat)
  let pol1 := bN (nat ns 0) (nat ns 1) (nat ns 2) (nat ns 3) (nat ns 4) (nat ns 6) (nat ns 7)
  let pol2 ← momentI (nat ns 0) (nat ns 1) (nat ns 2) (nat ns 3) (nat ns 4) (nat ns 5)
  let pol2 ← enlarge pol2 pol1.keyfor
  let q ← pol1.mul pol2
  pure (Poly.rmul c q)

/-- `p1`, cond_mom.py lines 92-93, cond_cmom.py lines 27-28. -/
def one13 (kf : List String) : IPoly := ⟨kf, [([0, 0, 0, 0, 0, 0, 0, 0, 0, 0, 0, 0, 0], 1)]⟩

/-- `moment_y(n)`, cond_mom.py lines 78-123. -/
def condY (n : ℤ) : Except PyErr IPoly :=
  if n < 0 then .error .valueError
  else if n = 0 then .ok (one13 kfY)
  else do
    let poly ← mergeLoop (yTerm n.toNat) (combsUp 7 n.toNat) ⟨kfB, []⟩
    expandSqrt poly

/-- the body of the loop of `poly2num`, cond_mom.py lines 137-141; `x` is `v0 - theta` there. -/
noncomputable def numY (p : SPar) (x : ℝ) (K : List ℤ) : ℝ :=
  Real.exp (ix K 0 * p.k * p.h) * p.h ^ ix K 1 / p.k ^ ix K 2 *
    (p.mu ^ ix K 3 * x ^ ix K 4 * p.theta ^ ix K 5) * (p.sigma ^ ix K 6 * p.rho ^ ix K 7) *
    (p.lmbd ^ ix K 8 * p.mu_v ^ ix K 9 * p.rhoJ ^ ix K 10) * (p.mu_s ^ ix K 11 * p.sigma_s ^ ix K 12)

/-- `poly2num(poly, par)`, cond_mom.py lines 126-143, in real numbers and for `k != 0`. -/
noncomputable def poly2numC (poly : IPoly) (p : SPar) : ℝ :=
  poly.items.foldl (fun f e => f + numY p (p.v0 - p.theta) e.1 * e.2) 0

/-- `m_y(n, par)`, cond_mom.py lines 146-149. -/
noncomputable def mY (n : ℤ) (p : SPar) : Except PyErr ℝ := do
  let m ← condY n
  pure (poly2numC m p)

/-! ### cond_cmom.py -/

/-- one round of the loop, cond_cmom.py lines 33-37 and cmom.py lines 40-44; `mom` is `moment_y`. -/
def cTerm (mom : ℤ → Except PyErr IPoly) (kf : List String) (mean : IPoly) (n : ℤ) (i : ℤ) : Except PyErr IPoly := do
  let pol1 ← if i = 0 then .ok (one13 kf) else mean.pow i
  let m ← mom (n - i)
  let q ← pol1.mul m
  pure (Poly.rmul ((n.toNat.choose i.toNat : ℚ) * (-1) ^ i.toNat) q)

/-- `cmoment_y(n)`, cond_cmom.py lines 10-39. -/
def condC (n : ℤ) : Except PyErr IPoly := do
  let mean ← condY 1
  if n < 0 then .error .valueError
  else if n = 0 then .ok (one13 kfY)
  else mergeLoop (cTerm condY kfY mean n) (pyRange 0 (n + 1)) ⟨kfY, []⟩

/-- `cm_y(n, par)`, cond_cmom.py lines 41-44. -/
noncomputable def cmYc (n : ℤ) (p : SPar) : Except PyErr ℝ := do
  let m ← condC n
  pure (poly2numC m p)

/-! ### mom.py -/

/-- the entries added in one round of the loop, mom.py lines 26-35; `d` bounds the depth of the recursion in
`cmoment_v`, see `Srjd.ucmomentV`. -/
def vThetaTerms (d : ℕ) (n i : ℤ) : Except PyErr (List (List ℤ × ℚ)) := do
  let q ← Srjd.ucmomentV d (n - i)
  pure (q.items.map fun e =>
    ([ix e.1 0 + i, ix e.1 1, ix e.1 2, ix e.1 3 + i, ix e.1 4 + i], e.2 * (n.toNat.choose i.toNat : ℚ)))

/-- `moment_v_theta(n)`, mom.py lines 11-36. -/
def vTheta (d : ℕ) (n : ℤ) : Except PyErr IPoly :=
  Srjd.addLoop ["k^{-}", "E[v]", "sigma", "lmbd", "mu_v"] (vThetaTerms d n) (pyRange 0 (n + 1))

/-- keyfor, mom.py lines 46-48 and 82-84. -/
def kfU : List String :=
  ["e^{kt}", "t", "k^{-}", "mu", "E[v]", "theta", "sigma", "rho", "lmbd", "mu_v", "rhoJ", "mu_s", "sigma_s"]

/-- `key_times_poly(coef, k, poly)`, mom.py lines 38-67. -/
def keyTimesU (coef : ℚ) (k : List ℤ) (poly : IPoly) : IPoly :=
  Poly.ofTerms kfU (poly.items.map fun e =>
    ([ix k 0, ix k 1, ix k 2 + ix e.1 0, ix k 3, ix e.1 1, ix k 5, ix k 6 + ix e.1 2, ix k 7, ix k 8 + ix e.1 3,
      ix k 9 + ix e.1 4, ix k 10, ix k 11, ix k 12], coef * e.2))

/-- `moment_y(n)`, mom.py lines 69-92. -/
def uncY (d : ℕ) (n : ℤ) : Except PyErr IPoly := do
  let poly ← condY n
  mergeLoop (fun e : List ℤ × ℚ => do
    let pol1 ← vTheta d (ix e.1 4)
    pure (keyTimesU e.2 e.1 pol1)) poly.items ⟨kfU, []⟩

/-- `poly2num(poly, par)`, mom.py lines 94-113, in real numbers and for `k != 0`. -/
noncomputable def poly2numU (poly : IPoly) (p : SPar) : ℝ :=
  poly.items.foldl (fun f e => f + numY p (p.theta + p.lmbd * p.mu_v / p.k) e.1 * e.2) 0

/-- `unm_y(n, par)`, mom.py lines 115-118. -/
noncomputable def unmY (d : ℕ) (n : ℤ) (p : SPar) : Except PyErr ℝ := do
  let m ← uncY d n
  pure (poly2numU m p)

/-! ### cmom.py -/

/-- `cmoment_y(n)`, cmom.py lines 10-46. -/
def uncC (d : ℕ) (n : ℤ) : Except PyErr IPoly :=
  if n < 0 then .error .valueError
  else do
    let mean ← uncY d 1
    if n = 0 then .ok (one13 kfU)
    else if n = 1 then .ok ⟨kfU, [([0, 0, 0, 0, 0, 0, 0, 0, 0, 0, 0, 0, 0], 0)]⟩
    else mergeLoop (cTerm (uncY d) kfU mean n) (pyRange 0 (n + 1)) ⟨kfU, []⟩

/-- `cm_y(n, par)`, cmom.py lines 48-51. -/
noncomputable def cmY (d : ℕ) (n : ℤ) (p : SPar) : Except PyErr ℝ := do
  let m ← uncC d n
  pure (poly2numU m p)

/-- `remove_mu_column(poly)`, cmom.py lines 53-68; returns the new Poly. -/
def removeMu (poly : IPoly) : Except PyErr IPoly :=
  subst ["e^{-kt}", "t", "k^{-}", "E[v]", "theta", "sigma", "rho", "lmbd", "mu_v", "rhoJ", "mu_s", "sigma_s"]
    (fun e : List ℤ × ℚ => if ix e.1 3 = 0 then
      .ok [([-ix e.1 0, ix e.1 1, ix e.1 2] ++ e.1.drop 4, e.2)] else .error .exception) poly.removeZero

end Ajd.SvcjI
