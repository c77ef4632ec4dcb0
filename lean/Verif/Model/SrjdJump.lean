import Verif.Model.ItoCond
import Verif.Model.SrjdCond

/-! Model of `/repo/src/ajdmom/mdl_srjd/cond2_mom.py` and `cond2_cmom.py`: moments of the SRJD variance
given the initial variance and the jumps. -/

namespace Ajd.SrjdJ
open Utils

/-- A key: the five leading integers and the tuples `l_{1:n}`, `o_{2:n}`, cond2_mom.py line 23. -/
structure SKey where
  b : List ℤ
  l : List ℤ
  o : List ℤ
  deriving DecidableEq, Repr

abbrev SPoly := Poly SKey

/-- keyfor, cond2_mom.py lines 23, 82, 127, 165, 191 and 239, cond2_cmom.py line 21 (there a tuple). -/
def kf : List String := ["v_0", "k^{-}", "theta", "sigma", "e^{kt}", "l_{1:n}", "o_{2:n}"]

/-- the tuples of the second key in `int_e_poly`, cond2_mom.py lines 32-52: `e^{nks}` at the last running
maximum. -/
def atMax (l o : List ℤ) (n : ℤ) : Except PyErr (List ℤ × List ℤ) :=
  if l.length = 0 then .ok (l, o)
  else if l.length = 1 then do
    let l' ← ItoCond.addFirst l n
    pure (l', o)
  else do
    let o' ← ItoCond.addLast o n
    pure (l, o')

/-- one round of the loop of `int_e_poly`, cond2_mom.py lines 27-54; `Frac(1, 0)` is a
`ZeroDivisionError`. -/
def intTerms (i : ℤ) (e : SKey × ℚ) : Except PyErr (List (SKey × ℚ)) :=
  if ix e.1.b 4 + i = 0 then .error .zeroDivision
  else do
    let val := e.2 * (1 / ((ix e.1.b 4 + i : ℤ) : ℚ))
    let lo ← atMax e.1.l e.1.o (ix e.1.b 4 + i)
    pure [(⟨[ix e.1.b 0, ix e.1.b 1 + 1, ix e.1.b 2, ix e.1.b 3, ix e.1.b 4 + i], e.1.l, e.1.o⟩, val),
      (⟨[ix e.1.b 0, ix e.1.b 1 + 1, ix e.1.b 2, ix e.1.b 3, 0], lo.1, lo.2⟩, -val)]

/-- `int_e_poly(i, poly)`, cond2_mom.py lines 13-55. -/
def intEPoly (i : ℤ) (poly : SPoly) : Except PyErr SPoly := subst kf (intTerms i) poly

abbrev Tab := List (ℤ × SPoly)

/-- `int_e_IE(i, m, IE)`, cond2_mom.py lines 58-68. -/
def intEIE (i m : ℤ) (IE : Tab) : Except PyErr SPoly := do
  let p ← lookup IE m
  intEPoly i p

/-- the key of `IEZ` times a key, cond2_mom.py lines 88-93. -/
def timesIEZ (k : SKey) : SKey := ⟨k.b, k.l ++ [1], if k.l.length = 0 then [] else k.o ++ [0]⟩

/-- `int_e_IEZ_IE(m, IE)`, cond2_mom.py lines 71-98. -/
def intEIEZ (m : ℤ) (IE : Tab) : Except PyErr SPoly := do
  let b ← lookup IE m
  intEPoly 1 (Poly.ofTerms kf (b.items.map fun e => (timesIEZ e.1, e.2)))

/-- one round of the loops of `coef_poly`, cond2_mom.py lines 130-150. -/
def coefTerms (coef : ℚ) (tp : ℕ) (e : SKey × ℚ) : List (SKey × ℚ) :=
  let k := e.1.b
  if tp = 1 then
    [(⟨[ix k 0 + 1, ix k 1, ix k 2, ix k 3, ix k 4], e.1.l, e.1.o⟩, coef * e.2),
      (⟨[ix k 0, ix k 1, ix k 2 + 1, ix k 3, ix k 4], e.1.l, e.1.o⟩, -(coef * e.2))]
  else if tp = 2 then [(⟨[ix k 0, ix k 1, ix k 2 + 1, ix k 3, ix k 4], e.1.l, e.1.o⟩, coef * e.2)]
  else if tp = 3 then [(e.1, coef * e.2)]
  else if tp = 4 then [(⟨[ix k 0, ix k 1, ix k 2, ix k 3 + 1, ix k 4], e.1.l, e.1.o⟩, coef * e.2)]
  else []

/-- `coef_poly(coef, poly, tp)`, cond2_mom.py lines 101-151. -/
def coefPoly (coef : ℚ) (poly : SPoly) (tp : ℕ) : SPoly :=
  Poly.ofTerms kf (poly.items.flatMap (coefTerms coef tp))

/-- `recursive_IE(m, IE)`, cond2_mom.py lines 154-173. -/
def recursiveIE (m : ℤ) (IE : Tab) : Except PyErr SPoly := do
  let c : ℚ := ((m * (m - 1) : ℤ) : ℚ) / 2
  let poly : SPoly := ⟨kf, []⟩
  let q ← intEIE 1 (m - 2) IE
  let poly ← poly.merge (coefPoly c q 1)
  let q ← intEIE 2 (m - 2) IE
  let poly ← poly.merge (coefPoly c q 2)
  let q ← intEIEZ (m - 2) IE
  let poly ← poly.merge (coefPoly c q 3)
  let q ← intEIE 1 (m - 1) IE
  poly.merge (coefPoly c q 4)

/-- `P1`, cond2_mom.py line 193. -/
def P1 : SPoly := ⟨kf, [(⟨[0, 0, 0, 0, 0], [], []⟩, 1)]⟩

/-- `P0`, cond2_mom.py line 195. -/
def P0 : SPoly := ⟨kf, [(⟨[0, 0, 0, 0, 0], [], []⟩, 0)]⟩

/-- `IE[2]`, cond2_mom.py lines 203-213. -/
def P2 : SPoly := ⟨kf, [
  (⟨[0, 1, 1, 0, 2], [], []⟩, 1 / 2),
  (⟨[1, 1, 0, 0, 1], [], []⟩, 1),
  (⟨[0, 1, 1, 0, 1], [], []⟩, -1),
  (⟨[0, 1, 1, 0, 0], [], []⟩, 1 / 2),
  (⟨[1, 1, 0, 0, 0], [], []⟩, -1),
  (⟨[0, 1, 0, 0, 1], [1], []⟩, 1),
  (⟨[0, 1, 0, 0, 0], [2], []⟩, -1)]⟩

/-- the table before the loop, cond2_mom.py lines 189-213. -/
def tab0 : Tab := [(0, P1), (1, P0), (2, P2)]

/-- one round of the loop of `moment_IE`, cond2_mom.py lines 220-225. -/
def ieStep (IE : Tab) (n : ℤ) : Except PyErr Tab := do
  let poly ← recursiveIE n IE
  pure ((dset IE n poly.removeZero).filter fun e => e.1 ≠ n - 2)

/-- the table when the last moment is computed, cond2_mom.py lines 217-225. -/
def ieTable (m : ℤ) : Except PyErr Tab :=
  if 3 < m then (pyRange 3 m).foldlM ieStep tab0 else .ok tab0

/-- `moment_IE(m)`, cond2_mom.py lines 176-229. -/
def momentIE (m : ℤ) : Except PyErr SPoly :=
  if m ≤ 2 then lookup tab0 m
  else do
    let IE ← ieTable m
    let poly ← recursiveIE m IE
    pure poly.removeZero

/-- one entry of `pol1`, cond2_mom.py lines 261-273; `ns = [j1, j2, j3, j4]`. The tuples of ones and
zeros are empty when `j4 == 0`. -/
def pol1Term (m j : ℕ) (ns : List ℕ) : SKey × ℚ :=
  (⟨[(nat ns 0 : ℤ), 0, (nat ns 1 : ℤ) + nat ns 2, (m : ℤ) - j, (nat ns 2 : ℤ) - m],
      List.replicate (nat ns 3) 1, List.replicate (nat ns 3 - 1) 0⟩,
    (m.choose j : ℚ) * ((j.choose (nat ns 0) : ℚ) * ((j - nat ns 0).choose (nat ns 1) : ℚ) *
      ((j - nat ns 0 - nat ns 1).choose (nat ns 2) : ℚ)) * (-1) ^ nat ns 1)

/-- `pol1`, cond2_mom.py lines 256-273. -/
def pol1 (m j : ℕ) : SPoly := Poly.ofTerms kf ((combsDown 3 j).map (pol1Term m j))

/-- the key of a product, cond2_mom.py lines 279-286. -/
def mulKey (k1 k2 : SKey) : SKey :=
  ⟨[ix k2.b 0 + ix k1.b 0, ix k2.b 1 + ix k1.b 1, ix k2.b 2 + ix k1.b 2, ix k2.b 3 + ix k1.b 3,
      ix k2.b 4 + ix k1.b 4],
    k2.l ++ k1.l,
    if k2.l.length = 0 then List.replicate (k1.l.length - 1) 0
    else k2.o ++ List.replicate k1.l.length 0⟩

/-- one round of the outer loop of `moment_v`, cond2_mom.py lines 253-288; `m >= j >= 0`. -/
def momentVTerms (m j : ℤ) : Except PyErr (List (SKey × ℚ)) := do
  let pol2 ← momentIE (m - j)
  pure ((Poly.pairs (pol1 m.toNat j.toNat).items pol2.items).map fun t => (mulKey t.1.1 t.1.2, t.2))

/-- `moment_v(m)`, cond2_mom.py lines 231-290. -/
def momentV (m : ℤ) : Except PyErr SPoly :=
  if m = 0 then .ok (Poly.addKeyval ⟨kf, []⟩ ⟨[0, 0, 0, 0, 0], [], []⟩ 1)
  else if m = 1 then .ok (Poly.ofTerms kf [(⟨[1, 0, 0, 0, -1], [], []⟩, 1),
    (⟨[0, 0, 1, 0, -1], [], []⟩, -1), (⟨[0, 0, 1, 0, 0], [], []⟩, 1), (⟨[0, 0, 0, 0, -1], [1], []⟩, 1)])
  else do
    let poly ← Srjd.addLoop kf (momentVTerms m) (pyRange 0 (m + 1))
    pure poly.removeZero

/-- `cmoment_v(m)`, cond2_cmom.py lines 11-33. -/
def cmomentV (m : ℤ) : Except PyErr SPoly := do
  let poln ← momentIE m
  pure (Poly.ofTerms kf (poln.items.map fun e =>
    (⟨[ix e.1.b 0, ix e.1.b 1, ix e.1.b 2, ix e.1.b 3 + m, ix e.1.b 4 - m], e.1.l, e.1.o⟩, e.2)))

/-- one iteration of the inner loop of `fZ`, cond2_mom.py lines 330-336: state `(f, s_max)`. Floats are
real numbers. -/
noncomputable def fZInner (l o : List ℤ) (k : ℝ) (s J : List ℝ) (index : List ℕ)
    (st : ℝ × ℝ) (i : ℕ) : Except PyErr (ℝ × ℝ) := do
  let j ← pyGet index i
  let sj ← pyGet s j
  let li ← pyGet l i
  let Jj ← pyGet J j
  let f := st.1 * (Real.exp (li * k * sj) * Jj)
  if 0 < i then do
    let smax := if st.2 > sj then st.2 else sj
    let oi ← pyGet o (i - 1)
    .ok (f * Real.exp (oi * k * smax), smax)
  else .ok (f, st.2)

/-- the value of one tuple of jumps, cond2_mom.py lines 328-336. -/
noncomputable def fZIndex (l o : List ℤ) (k : ℝ) (s J : List ℝ) (index : List ℕ) : Except PyErr ℝ := do
  let i0 ← pyGet index 0
  let s0 ← pyGet s i0
  let r ← (List.range index.length).foldlM (fZInner l o k s J index) ((1, s0) : ℝ × ℝ)
  .ok r.1

/-- `fZ(l, o, k, s, J)`, cond2_mom.py lines 296-356; the `while` loop is the one of `utils.fZ`. -/
noncomputable def fZ (fuel : ℕ) (l o : List ℤ) (k : ℝ) (s J : List ℝ) : Option (Except PyErr ℝ) :=
  if l.length = 0 then some (.ok 1)
  else if J.length = 0 then some (.ok 0)
  else odoRun l.length J.length
    (fun val index => do let f ← fZIndex l o k s J index; .ok (val + f)) fuel ⟨[], true, 0⟩

/-- the entries of the dictionary `par`, cond2_mom.py lines 369-375. -/
structure Par where
  v0 : ℝ
  k : ℝ
  theta : ℝ
  sigma : ℝ
  h : ℝ
  jumpsize : List ℝ
  jumptime : List ℝ

/-- the loop of `poly2num`, cond2_mom.py lines 377-385; `none`: `fZ` did not end within `fuel` rounds.
Python raises `ZeroDivisionError` for `0 ** negative`, not modelled. -/
noncomputable def evalLoop (fuel : ℕ) (par : Par) : ℝ → List (SKey × ℚ) → Option (Except PyErr ℝ)
  | f, [] => some (.ok f)
  | f, e :: rest =>
    match fZ fuel e.1.l e.1.o par.k par.jumptime par.jumpsize with
    | none => none
    | some (.error er) => some (.error er)
    | some (.ok z) =>
      evalLoop fuel par (f + par.v0 ^ ix e.1.b 0 * par.k ^ (-ix e.1.b 1) * par.theta ^ ix e.1.b 2 *
        par.sigma ^ ix e.1.b 3 * Real.exp (ix e.1.b 4 * par.k * par.h) * z * e.2) rest

/-- `poly2num(poly, par)`, cond2_mom.py lines 359-386. -/
noncomputable def poly2num (fuel : ℕ) (poly : SPoly) (par : Par) : Option (Except PyErr ℝ) :=
  evalLoop fuel par 0 poly.items

/-- `m(l, par)`, cond2_mom.py lines 389-400. -/
noncomputable def mV (fuel : ℕ) (l : ℤ) (par : Par) : Option (Except PyErr ℝ) :=
  match momentV l with
  | .error e => some (.error e)
  | .ok moment => poly2num fuel moment par

/-- `cm(l, par)`, cond2_cmom.py lines 39-50. -/
noncomputable def cmV (fuel : ℕ) (l : ℤ) (par : Par) : Option (Except PyErr ℝ) :=
  match cmomentV l with
  | .error e => some (.error e)
  | .ok cmoment => poly2num fuel cmoment par

end Ajd.SrjdJ
