import Verif.Model.Cpp
import Verif.Model.Loop
import Mathlib.Analysis.SpecialFunctions.Exp

/-! Model of `/repo/src/ajdmom/mdl_svcj/ieziziz_mom.py`. -/

namespace Ajd.Ieziziz
open Utils

/-- keyfor, ieziziz_mom.py lines 225 with 246, 319 and 350. -/
def kf0 : List String := ["e^{kt}", "e^{ks}", "t-s", "k^{-}", "lmbd", "mu_v", "mu_s", "sigma_s"]

/-- the entries of the first Poly of `moment_ejjj`, ieziziz_mom.py lines 227-244; the four conditions
exclude one another. -/
def ejTerms (n1 n2 : ℤ) : List (List ℤ × ℚ) :=
  if 1 ≤ n1 ∧ n2 = 0 then
    [([n1, 0, -1, 1, 0, n1], ((n1 - 1).toNat.factorial : ℚ)),
      ([0, n1, -1, 1, 0, n1], -((n1 - 1).toNat.factorial : ℚ))]
  else if 1 ≤ n1 ∧ 1 ≤ n2 then
    [([n1, 0, -1, 1, 0, n1 + n2], ((n1 + n2).toNat.factorial : ℚ) / n1),
      ([0, n1, -1, 1, 0, n1 + n2], -(((n1 + n2).toNat.factorial : ℚ) / n1))]
  else if n1 = 0 ∧ 1 ≤ n2 then [([0, 0, 0, 0, 0, n2], (n2.toNat.factorial : ℚ))]
  else if n1 = 0 ∧ n2 = 0 then [([0, 0, 0, 0, 0, 0], 1)]
  else []

/-- `moment_ejjj(n1, n2, n3)`, ieziziz_mom.py lines 221-253. -/
def momentEjjj (n1 n2 n3 : ℤ) : Except PyErr IPoly :=
  if n1 < 0 ∨ n2 < 0 ∨ n3 < 0 then .error .valueError
  else do
    let pol1 ← Cpp.mnorm n3
    .ok (Poly.ofTerms kf0 ((Poly.ofTerms [] (ejTerms n1 n2)).items.flatMap fun e =>
      pol1.items.map fun E => (e.1 ++ [ix E.1 0, 2 * ix E.1 1], e.2 * E.2)))

/-- A component `(n1, n2, n3, m)` of a key. -/
abbrev Quad := (ℤ × ℤ × ℤ) × ℤ

/-- A key `(i, (n11, n21, n31, m1), ..., (n1l, n2l, n3l, ml))`. -/
abbrev Key := ℤ × List Quad

/-- the search loops of ieziziz_mom.py lines 268-273 and 294-299: add 1 to the multiplicity of the first
component with the orders `n`; `none` if there is none (`found` stays `False`). -/
def bump (n : ℤ × ℤ × ℤ) : List Quad → Option (List Quad)
  | [] => none
  | q :: t => if q.1 = n then some ((n, q.2 + 1) :: t) else (bump n t).map (q :: ·)

/-- `n1n2n3`, ieziziz_mom.py lines 261-266. -/
def unit (wrt : ℤ) : ℤ × ℤ × ℤ :=
  if wrt = 1 then (1, 0, 0) else if wrt = 2 then (0, 1, 0) else (0, 0, 1)

/-- `d1_times_key(key, wrt)`, ieziziz_mom.py lines 255-276. -/
def d1TimesKey (key : Key) (wrt : ℤ) : Key :=
  (key.1 + 1, match bump (unit wrt) key.2 with
    | some l => l
    | none => (unit wrt, 1) :: key.2)

/-- the orders after differentiation, ieziziz_mom.py lines 288-293. -/
def raise (n : ℤ × ℤ × ℤ) (wrt : ℤ) : ℤ × ℤ × ℤ :=
  if wrt = 1 then (n.1 + 1, n.2.1, n.2.2)
  else if wrt = 2 then (n.1, n.2.1 + 1, n.2.2) else (n.1, n.2.1, n.2.2 + 1)

/-- ieziziz_mom.py lines 294-301. -/
def bumpOrAppend (n : ℤ × ℤ × ℤ) (knw : List Quad) : List Quad :=
  match bump n knw with
  | some l => l
  | none => knw ++ [(n, 1)]

/-- the new key of one round of `dterm`, ieziziz_mom.py lines 282-302; `j` counts the components from 0
(python's `j - 1`) and `q` is component `j`. -/
def dtermKey (ps : List Quad) (j : ℕ) (q : Quad) (wrt : ℤ) : List Quad :=
  let knw := bumpOrAppend (raise q.1 wrt) (ps.set j (q.1, q.2 - 1))
  match knw[j]? with
  | some r => if r.2 = 0 then knw.eraseIdx j else knw
  | none => knw

/-- `dterm(key, coef, wrt)`, ieziziz_mom.py lines 278-304. -/
def dterm (key : Key) (coef : ℚ) (wrt : ℤ) : Poly Key :=
  Poly.ofTerms [] ((List.range key.2.length).map fun j : ℕ =>
    let q := key.2.getD j ((0, 0, 0), 0)
    ((key.1, dtermKey key.2 j q wrt), coef * (q.2 : ℚ)))

/-- `dmgf_ieziziz(poly, wrt)`, ieziziz_mom.py lines 306-315. -/
def dmgf (poly : Poly Key) (wrt : ℤ) : Except PyErr (Poly Key) :=
  mergeLoop (fun e : Key × ℚ => .ok (dterm e.1 e.2 wrt)) poly.items
    (Poly.ofTerms [] (poly.items.map fun e => (d1TimesKey e.1 wrt, e.2)))

/-- the inner loop of `decode`, ieziziz_mom.py lines 326-328. -/
def decodeLoop (acc : IPoly) : List Quad → Except PyErr IPoly
  | [] => .ok acc
  | ((n1, n2, n3), m) :: t => do
    let q ← momentEjjj n1 n2 n3
    let pw ← q.pow m
    let a ← acc.mul pw
    decodeLoop a t

/-- the terms contributed by one entry in `decode`, ieziziz_mom.py lines 323-334. -/
def decodeTerms (e : Key × ℚ) : Except PyErr (List (List ℤ × ℚ)) := do
  let pol1 ← decodeLoop ⟨kf0, [([0, 0, 0, 0, 0, 0, 0, 0], 1)]⟩ e.1.2
  .ok (pol1.items.map fun t => ((t.1.modify 2 (· + e.1.1)).modify 4 (· + e.1.1), e.2 * t.2))

/-- `decode(poly)`, ieziziz_mom.py lines 317-336. -/
def decode (poly : Poly Key) : Except PyErr IPoly := do
  let q ← subst kf0 decodeTerms poly
  .ok q.removeZero

/-- keyfor, ieziziz_mom.py line 352. -/
def kfK : List String := ["(i, (n11, n21, n31, m1), ..., (n1l, n2l, n3l, ml))"]

/-- the dict `M` before the loops, ieziziz_mom.py lines 351-373. -/
def tab0 : List ((ℤ × ℤ × ℤ) × Poly Key) :=
  [((0, 0, 0), ⟨kfK, [((0, []), 1)]⟩), ((1, 0, 0), ⟨kfK, [((1, [((1, 0, 0), 1)]), 1)]⟩),
    ((0, 1, 0), ⟨kfK, [((1, [((0, 1, 0), 1)]), 1)]⟩), ((0, 0, 1), ⟨kfK, [((1, [((0, 0, 1), 1)]), 1)]⟩)]

/-- one entry of `M`, ieziziz_mom.py lines 395-402, and the last one, lines 403-410. -/
def step (I : ℤ × ℤ × ℤ) (M : List ((ℤ × ℤ × ℤ) × Poly Key)) : Except PyErr (Poly Key) :=
  if 0 < I.1 ∧ I.2.1 = 0 then do let p ← lookup M (I.1 - 1, I.2.1, I.2.2); dmgf p 1
  else if I.1 = 0 ∧ 0 < I.2.1 then do let p ← lookup M (I.1, I.2.1 - 1, I.2.2); dmgf p 2
  else if I.1 = 0 ∧ I.2.1 = 0 then do let p ← lookup M (I.1, I.2.1, I.2.2 - 1); dmgf p 3
  else do let p ← lookup M (I.1, I.2.1 - 1, I.2.2); dmgf p 2

/-- the indices of the loops over `i` and `j`, ieziziz_mom.py lines 392-394. -/
def idxs (n : ℤ) : List (ℤ × ℤ × ℤ) :=
  (pyRange 0 (n + 1)).flatMap fun i => (pyRange 0 (n - i + 1)).map fun j => (i, j, n - i - j)

/-- `moment_ieziziz(n1, n2, n3)`, ieziziz_mom.py lines 338-411. -/
def moment (n1 n2 n3 : ℤ) : Except PyErr IPoly :=
  if n1 < 0 ∨ n2 < 0 ∨ n3 < 0 then .error .valueError
  else if n1 = 0 ∧ n2 = 0 ∧ n3 = 0 then .ok ⟨kf0, [([0, 0, 0, 0, 0, 0, 0, 0], 1)]⟩
  else if n1 = 1 ∧ n2 = 0 ∧ n3 = 0 then
    .ok ⟨kf0, [([1, 0, 0, 1, 1, 1, 0, 0], 1), ([0, 1, 0, 1, 1, 1, 0, 0], -1)]⟩
  else if n1 = 0 ∧ n2 = 1 ∧ n3 = 0 then .ok ⟨kf0, [([0, 0, 1, 0, 1, 1, 0, 0], 1)]⟩
  else if n1 = 0 ∧ n2 = 0 ∧ n3 = 1 then .ok ⟨kf0, [([0, 0, 1, 0, 1, 0, 1, 0], 1)]⟩
  else do
    let M ← fillLevels step idxs (fun _ _ => false) (pyRange 2 (n1 + n2 + n3)) tab0
    let poln ← step (n1, n2, n3) M
    decode poln

/-- the parameters of a value of the Poly. -/
structure Par where
  k : ℝ
  lmbd : ℝ
  mu_v : ℝ
  mu_s : ℝ
  sigma_s : ℝ

/-- The value of a key for the interval `(s, t]`, as its keyfor (ieziziz_mom.py lines 344-345) reads it. -/
noncomputable def wZ (p : Par) (s t : ℝ) (K : List ℤ) : ℝ :=
  Real.exp (ix K 0 * p.k * t) * Real.exp (ix K 1 * p.k * s) * (t - s) ^ ix K 2 *
    p.k ^ (-ix K 3) * (p.lmbd ^ ix K 4 * p.mu_v ^ ix K 5 * (p.mu_s ^ ix K 6 * p.sigma_s ^ ix K 7))

/-- the body of the loop of `poly2num`, ieziziz_mom.py lines 421-423. -/
noncomputable def wNum (p : Par) (h : ℝ) (K : List ℤ) : ℝ :=
  Real.exp (ix K 0 * p.k * h) * h ^ ix K 2 / p.k ^ ix K 3 *
    (p.lmbd ^ ix K 4 * p.mu_v ^ ix K 5 * p.mu_s ^ ix K 6) * p.sigma_s ^ ix K 7

/-- `poly2num(poly, par)`, ieziziz_mom.py lines 413-425, in real numbers and for `k != 0`; `h` is `par['h']`. -/
noncomputable def poly2num (poly : IPoly) (p : Par) (h : ℝ) : ℝ :=
  poly.items.foldl (fun f e => f + wNum p h e.1 * e.2) 0

/-- `m_ieziziz(order, par)`, ieziziz_mom.py lines 427-431. -/
noncomputable def mIeziziz (n1 n2 n3 : ℤ) (p : Par) (h : ℝ) : Except PyErr ℝ := do
  let m ← moment n1 n2 n3
  pure (poly2num m p h)

end Ajd.Ieziziz
