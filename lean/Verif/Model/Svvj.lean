import Verif.Model.ItoCond
import Verif.Model.Loop
import Verif.Model.Utils
import Mathlib.Analysis.SpecialFunctions.Pow.Real

/-! Model of `/repo/src/ajdmom/mdl_svvj/cond2_cmom.py` and `cond2_mom.py`: moments of the return given
the initial variance and the jumps of the variance. Floats are real numbers. Writing files
(`write_to_subpolys`, cond2_cmom.py lines 225-242) is in `Model/Subpolys.lean`. -/

namespace Ajd.Svvj
open Ito Utils ItoCond

/-! ### cond2_cmom.py -/

/-- keyfor of the central moments, mdl_svvj/cond2_cmom.py lines 74-75 and 122. -/
def kfC : List String := ItoCond.kf ++ ["sigma/2k", "rho-sigma/2k", "sqrt(1-rho^2)"]

/-- the key of a central moment, mdl_svvj/cond2_cmom.py lines 155-159. -/
def keyC (i : Idx) (k : JKey) : JKey :=
  ⟨(ix k.b 0 - i.1) :: k.b.drop 1, k.z, k.c ++ [i.1, i.2.1, i.2.2]⟩

/-- the key of the constants 1 and 0, mdl_svvj/cond2_cmom.py lines 128 and 134. -/
def keyC0 : JKey := ⟨[0, 0, 0, 0, 0, 0], ⟨[], [], [], []⟩, [0, 0, 0]⟩

/-- the moments of orders 0 and 1, mdl_svvj/cond2_cmom.py lines 124-136. -/
def first : List JPoly := [⟨kfC, [(keyC0, 1)]⟩, ⟨kfC, [(keyC0, 0)]⟩]

/-- `cmoments_y_to(l)`, mdl_svvj/cond2_cmom.py lines 61-175, with the function called for
`int_e_IEZ_poly` as a parameter; the initial table, lines 73-120, is that of ito_cond_mom.py. -/
def cmomentsWith (iez : ℚ → ℤ → JPoly → Except PyErr JPoly) (l : ℤ) : Except PyErr (List JPoly) :=
  cmomsTo (recursiveWith iez) keyC kfC T0 first l

/-- `cmoments_y_to(l)`, mdl_svvj/cond2_cmom.py lines 61-175. -/
def cmomentsYTo (l : ℤ) : Except PyErr (List JPoly) := cmomentsWith intEIEZ l

/-- `cmoment_y(l)`, mdl_svvj/cond2_cmom.py lines 178-189. -/
def cmomentY (l : ℤ) : Except PyErr JPoly := do
  let ms ← cmomentsYTo l
  pyLast ms

/-- the terms for one entry, mdl_svvj/cond2_cmom.py lines 49-55, for `k[10] >= 0` and `k[11] >= -1`;
`k[10], k[11], k[12]` are the components of `c`. -/
def rhoExpand (e : JKey × ℚ) : List (JKey × ℚ) :=
  (List.range (ix e.1.c 1 + 1).toNat).map fun i : ℕ =>
    let p : ℤ := ix e.1.c 0 + i
    (⟨[-ix e.1.b 0, ix e.1.b 1, ix e.1.b 2 + p, ix e.1.b 3, ix e.1.b 4, ix e.1.b 5 + p], e.1.z,
        [ix e.1.c 1 - i, ix e.1.c 2]⟩,
      ((ix e.1.c 1).toNat.choose i : ℚ) * (-1) ^ i * (1 / 2 ^ p) * e.2)

/-- `simplify_rho(poly, 11)`, utils.py lines 252-282, for keys with four tuples at the positions 6 to
9: the positions 10 and 11 are the components 0 and 1 of `c`. -/
def simplifyRhoJ (poly : JPoly) : Except PyErr JPoly := do
  let terms ← poly.items.mapM fun e => do
    let ts ← rhoTerms 1 (e.1.c, e.2)
    pure (ts.map fun t => ((⟨e.1.b, e.1.z, t.1⟩ : JKey), t.2))
  pure (Poly.ofTerms (poly.keyfor.take 11 ++ poly.keyfor.drop 12) terms.flatten).removeZero

/-- `simplify(poly, tp)`, mdl_svvj/cond2_cmom.py lines 16-58. -/
def simplify (poly : JPoly) (tp : ℤ) : Except PyErr JPoly :=
  let keyfor := "e^{-kt}" :: poly.keyfor.drop 1
  if tp = 0 then
    .ok (Poly.ofTerms keyfor (poly.items.map fun e =>
      ((⟨(-ix e.1.b 0) :: e.1.b.drop 1, e.1.z, e.1.c⟩ : JKey), e.2)))
  else
    simplifyRhoJ (Poly.ofTerms (keyfor.take 10 ++ ["rho"] ++ keyfor.drop 12)
      (poly.items.flatMap rhoExpand))

/-! ### classify -/

/-- a key of a sub-Poly: a tuple of integers when there is no summation, else the key itself -/
abbrev CKey := List ℤ ⊕ JKey

/-- the levels of summation in order of appearance, then sorted, mdl_svvj/cond2_cmom.py lines
203-207. -/
def levels (poly : JPoly) : List ℕ :=
  (poly.items.foldl (fun (acc : List ℕ) e =>
    if e.1.z.l.length ∈ acc then acc else acc ++ [e.1.z.l.length]) []).mergeSort (· ≤ ·)

/-- `k[0:6] + k[10:] if len(k[6]) == 0 else k`, mdl_svvj/cond2_cmom.py line 220. -/
def classKey (k : JKey) : CKey := if k.z.l.length = 0 then .inl (k.b ++ k.c) else .inr k

/-- one round of the loop, mdl_svvj/cond2_cmom.py lines 218-220. -/
def classStep (subs : List (Poly CKey)) (e : JKey × ℚ) : Except PyErr (List (Poly CKey)) :=
  match subs[e.1.z.l.length]? with
  | none => .error .indexError
  | some p => .ok (subs.set e.1.z.l.length ⟨p.keyfor, dset p.items (classKey e.1) e.2⟩)

/-- `classify(poly)`, mdl_svvj/cond2_cmom.py lines 192-222. -/
def classify (poly : JPoly) : Except PyErr (List (Poly CKey)) :=
  let N := levels poly
  let kf0 := poly.keyfor.take 6 ++ poly.keyfor.drop 10
  match N with
  | [] => .error .indexError
  | n0 :: rest =>
    poly.items.foldlM classStep ((⟨if n0 = 0 then kf0 else poly.keyfor, []⟩ : Poly CKey) ::
      rest.map fun _ => ⟨poly.keyfor, []⟩)

/-! ### evaluation -/

/-- the entries of `par` used by `poly2num`; `jumpsize` and `jumptime` are those of the variance. -/
structure Par where
  v0 : ℝ
  μ : ℝ
  k : ℝ
  θ : ℝ
  σ : ℝ
  ρ : ℝ
  h : ℝ
  jumpsize : List ℝ
  jumptime : List ℝ

/-- the loop of `poly2num`: `w` are the factors of a key other than `fZ`. `none`: `fZ` did not end
within `fuel` rounds (see `Model/Utils.lean`). mdl_svvj/cond2_cmom.py lines 268-281. -/
noncomputable def evalLoop (fuel : ℕ) (k : ℝ) (s J : List ℝ) (w : JKey → ℝ) :
    ℝ → List (JKey × ℚ) → Option (Except PyErr ℝ)
  | f, [] => some (.ok f)
  | f, e :: rest =>
    match fZ fuel e.1.z.l e.1.z.o e.1.z.p e.1.z.q k s J with
    | none => none
    | some (.error er) => some (.error er)
    | some (.ok z) => evalLoop fuel k s J w (f + w e.1 * z * e.2) rest

/-- the factors of a key but `fZ`, mdl_svvj/cond2_cmom.py lines 270-279. -/
noncomputable def wC (par : Par) (K : JKey) : ℝ :=
  Real.exp (ix K.b 0 * par.k * par.h) * par.h ^ ix K.b 1 * par.k ^ (-ix K.b 2) *
    ((par.v0 - par.θ) ^ ix K.b 3 * par.θ ^ ix K.b 4 * par.σ ^ ix K.b 5) *
    (par.σ / (2 * par.k)) ^ ix K.c 0 * (par.ρ - par.σ / (2 * par.k)) ^ ix K.c 1 *
    (1 - par.ρ ^ 2) ^ ((ix K.c 2 : ℝ) / 2)

/-- `poly2num(poly, par)`, mdl_svvj/cond2_cmom.py lines 248-282. -/
noncomputable def poly2numC (fuel : ℕ) (poly : JPoly) (par : Par) : Option (Except PyErr ℝ) :=
  evalLoop fuel par.k par.jumptime par.jumpsize (wC par) 0 poly.items

/-- `cm(l, par)`, mdl_svvj/cond2_cmom.py lines 285-297. -/
noncomputable def cm (fuel : ℕ) (l : ℤ) (par : Par) : Option (Except PyErr ℝ) :=
  match cmomentY l with
  | .error e => some (.error e)
  | .ok c => poly2numC fuel c par

/-! ### cond2_mom.py -/

/-- keyfor of the moments, mdl_svvj/cond2_mom.py lines 28 and 75. -/
def kfM : List String := kfC.take 3 ++ ["beta_t", "mu-theta/2"] ++ kfC.drop 3

/-- the key of a moment, mdl_svvj/cond2_mom.py lines 40-57. -/
def keyM (n1 n2 n3 n4 : ℕ) (k : JKey) : JKey :=
  let nx := if k.z.l.length = 0 then n3 + n4 - 1 else n3 + n4
  ⟨[ix k.b 0 - n3, ix k.b 1 + n1, ix k.b 2 + n3 + n4, n2, n1, ix k.b 3 + n2, ix k.b 4, ix k.b 5],
    ⟨k.z.l ++ List.replicate n3 1 ++ List.replicate n4 0, k.z.o ++ List.replicate (n3 + n4) 0,
      k.z.p ++ List.replicate nx 0, k.z.q ++ List.replicate nx 0⟩, k.c⟩

/-- `moment_comb(n, n1, n2, n3, n4, PY)`, mdl_svvj/cond2_mom.py lines 13-59. -/
def momentComb (n n1 n2 n3 n4 : ℕ) (PY : JPoly) : Except PyErr JPoly := do
  let c ← comb n [(n1 : ℤ), (n2 : ℤ), (n3 : ℤ), (n4 : ℤ), (n : ℤ) - n1 - n2 - n3 - n4]
  let c : ℚ := c * ((-1) ^ (n2 + n4) * (1 / 2 ^ (n3 + n4)))
  pure (Poly.ofTerms (PY.keyfor.take 3 ++ ["beta_t", "mu-theta/2"] ++ PY.keyfor.drop 3)
    (PY.items.map fun e => (keyM n1 n2 n3 n4 e.1, c * e.2)))

/-- the moment of order 0, mdl_svvj/cond2_mom.py lines 79-80. -/
def firstM : JPoly := ⟨kfM, [(⟨[0, 0, 0, 0, 0, 0, 0, 0], ⟨[], [], [], []⟩, [0, 0, 0]⟩, 1)]⟩

/-- the moment of order `n >= 1`, mdl_svvj/cond2_mom.py lines 86-95. -/
def momentLevel (cmoms : List JPoly) (n : ℕ) : Except PyErr JPoly := do
  let p ← mergeLoop (fun ns => do
    let py ← pyGet cmoms (nat ns 4)
    momentComb n (nat ns 0) (nat ns 1) (nat ns 2) (nat ns 3) py) (combsDown 4 n) (⟨kfM, []⟩ : JPoly)
  pure p.removeZero

/-- `moments_y_to(l)`, mdl_svvj/cond2_mom.py lines 62-96. -/
def momentsWith (iez : ℚ → ℤ → JPoly → Except PyErr JPoly) (l : ℤ) : Except PyErr (List JPoly) := do
  let cmoms ← cmomentsWith iez l
  let ms ← ((List.range l.toNat).map (· + 1)).mapM (momentLevel cmoms)
  pure (firstM :: ms)

/-- `moments_y_to(l)`, mdl_svvj/cond2_mom.py lines 62-96. -/
def momentsYTo (l : ℤ) : Except PyErr (List JPoly) := momentsWith intEIEZ l

/-- `moment_y(l)`, mdl_svvj/cond2_mom.py lines 99-101. -/
def momentY (l : ℤ) : Except PyErr JPoly := do
  let ms ← momentsYTo l
  pyLast ms

/-- the factors of a key but `fZ`, mdl_svvj/cond2_mom.py lines 130-143. -/
noncomputable def wM (par : Par) (K : JKey) : ℝ :=
  Real.exp (ix K.b 0 * par.k * par.h) * par.h ^ ix K.b 1 * par.k ^ (-ix K.b 2) *
    (((1 - Real.exp (-par.k * par.h)) / (2 * par.k)) ^ ix K.b 3 * (par.μ - par.θ / 2) ^ ix K.b 4 *
    (par.v0 - par.θ) ^ ix K.b 5) * (par.θ ^ ix K.b 6 * par.σ ^ ix K.b 7) *
    ((par.σ / (2 * par.k)) ^ ix K.c 0 * (par.ρ - par.σ / (2 * par.k)) ^ ix K.c 1) *
    (1 - par.ρ ^ 2) ^ ((ix K.c 2 : ℝ) / 2)

/-- `poly2num(poly, par)`, mdl_svvj/cond2_mom.py lines 108-146. -/
noncomputable def poly2numM (fuel : ℕ) (poly : JPoly) (par : Par) : Option (Except PyErr ℝ) :=
  evalLoop fuel par.k par.jumptime par.jumpsize (wM par) 0 poly.items

/-- `m(l, par)`, mdl_svvj/cond2_mom.py lines 149-161. -/
noncomputable def m (fuel : ℕ) (l : ℤ) (par : Par) : Option (Except PyErr ℝ) :=
  match momentY l with
  | .error e => some (.error e)
  | .ok c => poly2numM fuel c par

end Ajd.Svvj
