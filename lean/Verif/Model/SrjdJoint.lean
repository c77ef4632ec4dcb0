import Verif.Model.SrjdIez

/-! Model of `/repo/src/ajdmom/mdl_srjd/cond_ie_iez_mom.py` and `cond_ie_iez_cmom.py`. The second file is
the first with another keyfor, `cmoment_IEZ` for `moment_IEZ` and another constant `P2`; `Cfg` collects
these differences. Line numbers are those of the first file; DESIGN.md lists those of the second. -/

namespace Ajd.Srjd

/-- what differs between cond_ie_iez_mom.py and cond_ie_iez_cmom.py -/
structure Cfg where
  /-- keyfor, lines 15, 25, 47, 72, 130, 141, 179 -/
  kf : List String
  /-- `moment_IEZ` or `cmoment_IEZ`, line 8 -/
  iez : ℤ → Except PyErr IPoly
  /-- the entries of `P2`, lines 89-97 -/
  p2 : List (List ℤ × ℚ)

/-- cond_ie_iez_mom.py lines 8, 15 and 89-97. -/
def rawCfg : Cfg where
  kf := ["e^{kt}", "k^{-}", "v0-theta", "theta", "sigma", "lmbd", "mu_v"]
  iez := momentIEZ
  p2 := [([1, 1, 1, 0, 0, 0, 0], 1), ([0, 1, 1, 0, 0, 0, 0], -1), ([2, 1, 0, 1, 0, 0, 0], 1 / 2),
    ([0, 1, 0, 1, 0, 0, 0], -1 / 2), ([2, 2, 0, 0, 0, 1, 1], 1 / 2), ([1, 2, 0, 0, 0, 1, 1], -1),
    ([0, 2, 0, 0, 0, 1, 1], 1 / 2)]

/-- cond_ie_iez_cmom.py lines 8, 15 and 89-94. -/
def centralCfg : Cfg where
  kf := ["e^{kt}", "k^{-}", "v0-E[v]", "E[v]", "sigma", "lmbd", "mu_v"]
  iez := cmomentIEZ
  p2 := [([1, 1, 1, 0, 0, 0, 0], 1), ([0, 1, 1, 0, 0, 0, 0], -1), ([2, 1, 0, 1, 0, 0, 0], 1 / 2),
    ([0, 1, 0, 1, 0, 0, 0], -1 / 2)]

variable (c : Cfg)

/-- `iez_to_ie_iez(poly)`, cond_ie_iez_mom.py lines 11-21. -/
def toIe (poly : IPoly) : IPoly :=
  Poly.ofTerms c.kf (poly.items.map fun e =>
    ([ix e.1 0, ix e.1 2, 0, 0, 0, ix e.1 3, ix e.1 4], e.2))

/-- the new key, cond_ie_iez_mom.py lines 30-34 (`n0 = n`) and 37-41 (`n0 = 0`). -/
def intEKey (tp n0 : ℤ) (K : List ℤ) : List ℤ :=
  [n0, ix K 1 + 1, if tp = 1 then ix K 2 + 1 else ix K 2, if tp = 2 then ix K 3 + 1 else ix K 3,
    if tp = 3 then ix K 4 + 1 else ix K 4, ix K 5, ix K 6]

/-- one round of the loop of `int_e_poly`, cond_ie_iez_mom.py lines 27-42. -/
def intETerms (coef : ℚ) (tp m : ℤ) (e : List ℤ × ℚ) : Except PyErr (List (List ℤ × ℚ)) :=
  let n := ix e.1 0 + m
  if n = 0 then .error .valueError
  else .ok [(intEKey tp n e.1, coef * e.2 * (1 / n)), (intEKey tp 0 e.1, coef * e.2 * (-1 / n))]

/-- `int_e_poly(c, tp, m, poly)`, cond_ie_iez_mom.py lines 23-43. -/
def intE (coef : ℚ) (tp m : ℤ) (poly : IPoly) : Except PyErr IPoly :=
  subst c.kf (intETerms coef tp m) poly

/-- a dict of Polys -/
abbrev Tab (I : Type) := List (I × IPoly)

/-- `del d[i]` -/
def delKey {I V : Type} [DecidableEq I] (T : List (I × V)) (i : I) : Except PyErr (List (I × V)) := do
  let _ ← lookup T i
  pure (T.filter fun e => !decide (e.1 = i))

/-- `recursive_ie(n, IE, IE_IEZ)`, cond_ie_iez_mom.py lines 45-54. -/
def recursiveIe (n : ℤ) (IE : Tab ℤ) (T : Tab (ℤ × ℤ)) : Except PyErr IPoly :=
  if 2 ≤ n then do
    let cf : ℚ := n * (n - 1) / 2
    let a ← lookup IE (n - 2)
    let q1 ← intE c cf 1 1 a
    let poly ← Poly.merge ⟨c.kf, []⟩ q1
    let q2 ← intE c cf 2 2 a
    let poly ← poly.merge q2
    let b ← lookup IE (n - 1)
    let q3 ← intE c cf 3 1 b
    let poly ← poly.merge q3
    let d ← lookup T (n - 2, 1)
    let q4 ← intE c cf 4 1 d
    poly.merge q4
  else .ok ⟨c.kf, []⟩

/-- `P0`, cond_ie_iez_mom.py lines 76-77. -/
def P0 : IPoly := ⟨c.kf, [([0, 0, 0, 0, 0, 0, 0], 0)]⟩

/-- `P1`, cond_ie_iez_mom.py lines 78-79. -/
def P1 : IPoly := ⟨c.kf, [([0, 0, 0, 0, 0, 0, 0], 1)]⟩

/-- `P2`, cond_ie_iez_mom.py lines 89-97; its keyfor is never set. -/
def P2 : IPoly := ⟨[], c.p2⟩

/-- lines 115 and 123 of cond_ie_iez_mom.py: `if i > 3: IE_IEZ[(i - 2, 1)] = moment_ie_iez(i - 2, 1)`;
`joint` is `moment_ie_iez`. -/
def needIez (joint : ℤ → ℤ → Except PyErr IPoly) (i : ℤ) (T : Tab (ℤ × ℤ)) :
    Except PyErr (Tab (ℤ × ℤ)) :=
  if 3 < i then do let q ← joint (i - 2) 1; pure (dset T (i - 2, 1) q) else .ok T

/-- the body of the loop of `moment_ie`, cond_ie_iez_mom.py lines 115-121. -/
def ieStep (joint : ℤ → ℤ → Except PyErr IPoly) (S : Tab ℤ × Tab (ℤ × ℤ)) (i : ℤ) :
    Except PyErr (Tab ℤ × Tab (ℤ × ℤ)) := do
  let T ← needIez joint i S.2
  let poly ← recursiveIe c i S.1 T
  let IE ← delKey (dset S.1 i poly.removeZero) (i - 2)
  let T ← delKey T (i - 2, 1)
  pure (IE, T)

/-- `moment_ie(n)`, cond_ie_iez_mom.py lines 56-126, with `joint` for `moment_ie_iez`. -/
def momentIeWith (joint : ℤ → ℤ → Except PyErr IPoly) (n : ℤ) : Except PyErr IPoly :=
  if n < 0 then .error .valueError
  else if n ≤ 2 then lookup [(0, P1 c), (1, P0 c), (2, P2 c)] n
  else do
    let z ← c.iez 1
    let S ← (pyRange 3 n).foldlM (ieStep c joint)
      ([(0, P1 c), (1, P0 c), (2, P2 c)], [((0, 1), toIe c z), ((1, 1), P0 c)])
    let T ← needIez joint n S.2
    let poly ← recursiveIe c n S.1 T
    pure poly.removeZero

/-- `key_times_poly(k, poly)`, cond_ie_iez_mom.py lines 128-137. -/
def keyTimes (K : List ℤ) (poly : IPoly) : IPoly :=
  Poly.ofTerms c.kf (poly.items.map fun e =>
    ([ix K 0 + ix e.1 0, ix K 2 + ix e.1 1, ix e.1 2, ix e.1 3, ix e.1 4, ix K 3 + ix e.1 5,
      ix K 4 + ix e.1 6], e.2))

/-- the body of the inner loop of `recursive_ie_iez`, cond_ie_iez_mom.py lines 147-152. -/
def jointTerm (n1 n2 i : ℤ) (T : Tab (ℤ × ℤ)) (e : List ℤ × ℚ) : Except PyErr IPoly := do
  let cf : ℚ := (n2.toNat.choose i.toNat : ℚ) * (n1 * (n1 - 1) / 2) * e.2
  let a ← lookup T (n1 - 2, i)
  let q1 ← intE c cf 1 (1 + ix e.1 1) a
  let q2 ← intE c cf 2 (2 + ix e.1 1) a
  let pol2 ← q1.add q2
  let b ← lookup T (n1 - 1, i)
  let q3 ← intE c cf 3 (1 + ix e.1 1) b
  let pol2 ← pol2.add q3
  let d ← lookup T (n1 - 2, i + 1)
  let q4 ← intE c cf 4 (1 + ix e.1 1) d
  let pol2 ← pol2.add q4
  pure (keyTimes c e.1 pol2)

/-- the outer loop of `recursive_ie_iez`, cond_ie_iez_mom.py lines 143-152. -/
def jointLoop (n1 n2 : ℤ) (T : Tab (ℤ × ℤ)) : Except PyErr IPoly :=
  (pyRange 0 (n2 + 1)).foldlM (fun (poly : IPoly) (i : ℤ) => do
    let pol1 ← c.iez (n2 - i)
    mergeLoop (jointTerm c n1 n2 i T) pol1.items poly) ⟨c.kf, []⟩

/-- `recursive_ie_iez(n1, n2, IE_IEZ)`, cond_ie_iez_mom.py lines 139-160; the four `if`s exclude one
another. `ie` is `moment_ie`. -/
def recursiveJoint (ie : ℤ → Except PyErr IPoly) (n1 n2 : ℤ) (T : Tab (ℤ × ℤ)) : Except PyErr IPoly :=
  if 2 ≤ n1 ∧ 1 ≤ n2 then jointLoop c n1 n2 T
  else if 2 ≤ n1 ∧ n2 = 0 then ie n1
  else if n1 = 1 then .ok (Poly.ofTerms c.kf [([0, 0, 0, 0, 0, 0, 0], 0)])
  else if n1 = 0 then do let z ← c.iez n2; pure (toIe c z)
  else .ok ⟨c.kf, []⟩

/-- one table entry, cond_ie_iez_mom.py lines 210-212. -/
def jointStep (ie : ℤ → Except PyErr IPoly) (I : ℤ × ℤ) (T : Tab (ℤ × ℤ)) : Except PyErr IPoly := do
  let poly ← recursiveJoint c ie I.1 I.2 T
  pure poly.removeZero

/-- `moment_ie_iez(n1, n2)`, cond_ie_iez_mom.py lines 162-219, with `ie` for `moment_ie`. -/
def momentJointWith (ie : ℤ → Except PyErr IPoly) (n1 n2 : ℤ) : Except PyErr IPoly :=
  if ¬ (0 ≤ n1 ∧ 0 ≤ n2) then .error .valueError
  else do
    let z1 ← c.iez 1
    let q ← ie 2
    let z2 ← c.iez 2
    let T := [((0, 0), P1 c), ((1, 0), P0 c), ((0, 1), toIe c z1), ((2, 0), q), ((1, 1), P0 c),
      ((0, 2), toIe c z2)]
    if n1 + n2 ≤ 2 then lookup T (n1, n2)
    else do
      let T ← fillLevels (jointStep c ie) (fun n => (pyRange 0 (n + 1)).map fun i => (i, n - i))
        (fun _ _ => false) (pyRange 3 (n1 + n2)) T
      jointStep c ie (n1, n2) T

/-- `moment_ie(n)` with at most `depth` nested calls of `moment_ie`; deeper ones raise an exception
(python's RecursionError). -/
def momentIe : ℕ → ℤ → Except PyErr IPoly
  | 0, _ => .error .exception
  | d + 1, n => momentIeWith c (momentJointWith c (momentIe d)) n

/-- `moment_ie_iez(n1, n2)` (or `cmoment_ie_iez`) with at most `depth` nested calls of `moment_ie`. -/
def momentJoint (depth : ℕ) (n1 n2 : ℤ) : Except PyErr IPoly :=
  momentJointWith c (momentIe c depth) n1 n2

/-- the parameters `par`, cond_ie_iez_mom.py lines 223-224 -/
structure Par where
  v0 : ℝ
  k : ℝ
  theta : ℝ
  sigma : ℝ
  lmbd : ℝ
  mu_v : ℝ
  h : ℝ

/-- value of a key for `a` in place of `v0-theta` (or `v0-E[v]`) and `b` in place of `theta` (or
`E[v]`) at time `t`; cond_ie_iez_mom.py lines 227-229. -/
noncomputable def vIat (p : Par) (a b t : ℝ) (K : List ℤ) : ℝ :=
  Real.exp (ix K 0 * p.k * t) * p.k ^ (-ix K 1) * (a ^ ix K 2 * b ^ ix K 3 * p.sigma ^ ix K 4) *
    (p.lmbd ^ ix K 5 * p.mu_v ^ ix K 6)

/-- `poly2num(poly, par)`, cond_ie_iez_mom.py lines 221-231 (same in cond_mom.py lines 63-74), in real
numbers. -/
noncomputable def poly2numI (poly : IPoly) (p : Par) : ℝ :=
  poly.items.foldl (fun f e => f + vIat p (p.v0 - p.theta) p.theta p.h e.1 * e.2) 0

/-- `meanv`, cond_ie_iez_cmom.py line 221. -/
noncomputable def meanv (p : Par) : ℝ := p.theta + p.lmbd * p.mu_v / p.k

/-- `poly2num(poly, par)`, cond_ie_iez_cmom.py lines 216-229, in real numbers. -/
noncomputable def poly2numIc (poly : IPoly) (p : Par) : ℝ :=
  poly.items.foldl (fun f e => f + vIat p (p.v0 - meanv p) (meanv p) p.h e.1 * e.2) 0

end Ajd.Srjd
