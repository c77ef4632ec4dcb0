import Verif.Model.Itos
import Verif.Model.Fsv1
import Mathlib.Analysis.SpecialFunctions.Exp

/-! Model of `/repo/src/ajdmom/mdl_2fsv/cmom.py`, `mom.py` and `cov.py`. Orders are non-negative, as
the docstrings require; floats are real numbers. The parameter `g` selects the version of `itos_mom.py`
that is called (`Itos.code` is the one in the repository). -/

namespace Ajd.Fsv2
open Ito Utils Itos

/-- the entries of `par` used by `poly2num`. -/
structure Par where
  k1 : ℝ
  k2 : ℝ
  h : ℝ
  μ : ℝ
  θ1 : ℝ
  σ1 : ℝ
  θ2 : ℝ
  σ2 : ℝ

/-- a key: `d` is `key[0]`, the denominators, `e` is `key[1]`, the pair in `e^{-(n1*k1+n2*k2)h}`, and `c`
the powers `key[2:]`. In cov.py some keys start with the powers of `e^{-k1*nh}eI_{1,n}` and
`e^{-k2*nh}eI_{2,n}`; these are at the front of `c`. -/
structure TKey where
  d : List Den
  e : ℤ × ℤ
  c : List ℤ
deriving DecidableEq

abbrev TPoly := Poly TKey

/-- the name of the first component of the keys -/
def sD : String := "(n_1m*k1+n_2m*k2)^{-i_m},...,(n_11*k1+n_21*k2)^{-i_1}"
/-- the name of the second component of the keys -/
def sE : String := "e^{-(n1*k1+n2*k2)h}"

/-! ### cmom.py -/

/-- keyfor of `b_n`, mdl_2fsv/cmom.py lines 29-30. -/
def kfBc : List String := ["e^{-k1h}", "k1^{-}", "theta1", "sigma_v1", "e^{-k2h}", "k2^{-}", "theta2",
  "sigma_v2"]

/-- one entry of `b_n`, mdl_2fsv/cmom.py lines 36-48; `is = [i1, i2, i3, i4]`. -/
def bNcTerm (n1 n2 n3 n4 n5 n6 n7 : ℕ) (x : List ℕ × ℕ × ℕ) : List ℤ × ℚ :=
  let i1 := nat x.1 0; let i2 := nat x.1 1; let i3 := nat x.1 2; let i4 := nat x.1 3
  let j := x.2.1; let q := x.2.2
  ([(i2 : ℤ) + j, (i1 : ℤ) + i2 + n2 + n4 + n5, (i1 : ℤ) + i2, (n4 : ℤ) + n5,
      (i4 : ℤ) + q, (i3 : ℤ) + i4 + n3 + n6 + n7, (i3 : ℤ) + i4, (n6 : ℤ) + n7],
    ((n1.choose i1 : ℚ) * ((n1 - i1).choose i2 : ℚ) * ((n1 - i1 - i2).choose i3 : ℚ) *
      (n2.choose j : ℚ) * (n3.choose q : ℚ) *
      (-1) ^ (i2 + i4 + (n2 + j) + (n3 + q) + n5 + n7)) / 2 ^ (n1 + n2 + n3 + n4 + n5 + n6 + n7))

/-- the combinations of the loops of `b_n`: `p` loops for `n1`, then `j` and `q`,
mdl_2fsv/cmom.py lines 33-38 and mom.py lines 37-45. -/
def bLoops (p n1 n2 n3 : ℕ) : List (List ℕ × ℕ × ℕ) :=
  (combsDown p n1).flatMap fun is => (List.range (n2 + 1)).flatMap fun j : ℕ =>
    (List.range (n3 + 1)).map fun q : ℕ => (is, j, q)

/-- `b_n(n1, ..., n7)`, mdl_2fsv/cmom.py lines 13-49. -/
def bNc (n1 n2 n3 n4 n5 n6 n7 : ℕ) : IPoly :=
  Poly.ofTerms kfBc ((bLoops 3 n1 n2 n3).map (bNcTerm n1 n2 n3 n4 n5 n6 n7))

/-- keyfor of `vvee_IEI_IEII` and of `moment_comb`, mdl_2fsv/cmom.py lines 77-80 and 120-122. -/
def kfV : List String := [sD, sE, "h", "v_{1,n-1}", "theta1", "sigma_v1", "v_{2,n-1}", "theta2", "sigma_v2"]

/-- `vvee_IEI_IEII(n2, ..., n8)`, mdl_2fsv/cmom.py lines 52-92. -/
def vvee (g : Cfg) (n2 n3 n4 n5 n6 n7 n8 : ℕ) : Except PyErr TPoly := do
  let poly ← moment g ((n4 : ℤ), (n5 : ℤ), (n6 : ℤ), (n7 : ℤ), (n8 : ℤ))
  pure (Poly.ofTerms kfV (poly.items.map fun e =>
    (⟨e.1.d, ((n4 : ℤ) - e.1.e.1, (n6 : ℤ) - e.1.e.2),
      [ix e.1.c 0, ix e.1.c 1 + n2, ix e.1.c 2, ix e.1.c 3, ix e.1.c 4 + n3, ix e.1.c 5, ix e.1.c 6]⟩, e.2)))

/-- the double loop that multiplies by `b_n`, mdl_2fsv/cmom.py lines 127-139; `cf` forms the powers of
the key. -/
def mulB (kf : List String) (cf : List ℤ → List ℤ → List ℤ) (poly : TPoly) (b : IPoly) :
    Except PyErr TPoly :=
  subst kf (fun e => b.items.mapM fun m => do
    let t0 ← tMulT0 (1, 0, ix m.1 1) e.1.d
    let t0 ← tMulT0 (0, 1, ix m.1 5) t0
    pure (⟨t0, (e.1.e.1 + ix m.1 0, e.1.e.2 + ix m.1 4), cf e.1.c m.1⟩, e.2 * m.2)) poly

/-- the powers of the key, mdl_2fsv/cmom.py lines 136-137. -/
def cfC (c m : List ℤ) : List ℤ :=
  [ix c 0, ix c 1, ix c 2 + ix m 2, ix c 3 + ix m 3, ix c 4, ix c 5 + ix m 6, ix c 6 + ix m 7]

/-- `comb(n, [n1, ..., n8])` -/
def comb8 (n : ℕ) (ns : List ℕ) : Except PyErr ℤ :=
  comb n [(nat ns 0 : ℤ), (nat ns 1 : ℤ), (nat ns 2 : ℤ), (nat ns 3 : ℤ), (nat ns 4 : ℤ), (nat ns 5 : ℤ),
    (nat ns 6 : ℤ), (nat ns 7 : ℤ)]

/-- `moment_comb(n, n1, ..., n8)`, mdl_2fsv/cmom.py lines 95-142; `ns = [n1, ..., n8]`. -/
def momentCombC (g : Cfg) (n : ℕ) (ns : List ℕ) : Except PyErr TPoly := do
  let poly ← vvee g (nat ns 1) (nat ns 2) (nat ns 3) (nat ns 4) (nat ns 5) (nat ns 6) (nat ns 7)
  let b := bNc (nat ns 0) (nat ns 1) (nat ns 2) (nat ns 3) (nat ns 4) (nat ns 5) (nat ns 6)
  let poln ← mulB kfV cfC poly b
  let c ← comb8 n ns
  pure (Poly.rmul c poln)

/-- keyfor of `sub_v` and `cmoment_y`, mdl_2fsv/cmom.py lines 158-159. -/
def kfC : List String := [sD, sE, "h", "theta1", "sigma_v1", "theta2", "sigma_v2"]

/-- one of the two loops of `sub_v`, mdl_2fsv/cmom.py lines 163-172 and 173-182: the power at `j` is
replaced by the moment of that order, `cf` forms the powers of the key and `s` is `(1, 0)` or `(0, 1)`. -/
def subLoop (kf : List String) (s : ℤ × ℤ) (j : ℕ) (cf : List ℤ → List ℤ → List ℤ) (poly : TPoly) :
    Except PyErr TPoly :=
  subst kf (fun e => do
    let pol ← momentVPy (ix e.1.c j)
    pol.items.mapM fun m => do
      let t0 ← tMulT0 (s.1, s.2, ix m.1 1) e.1.d
      pure (⟨t0, e.1.e, cf e.1.c m.1⟩, e.2 * m.2)) poly

/-- `sub_v(poly)`, mdl_2fsv/cmom.py lines 145-183; the intermediate Poly has no keyfor. -/
def subVC (poly : TPoly) : Except PyErr TPoly := do
  let poln ← subLoop [] (1, 0) 1 (fun c m =>
    [ix c 0, ix c 2 + ix m 0, ix c 3 + 2 * ix m 1, ix c 4, ix c 5, ix c 6]) poly
  subLoop kfC (0, 1) 3 (fun c m =>
    [ix c 0, ix c 1, ix c 2, ix c 4 + ix m 0, ix c 5 + 2 * ix m 1]) poln

/-- `cmoment_y(l)`, mdl_2fsv/cmom.py lines 186-212. -/
def cmomentY (g : Cfg) (l : ℕ) : Except PyErr TPoly := do
  let poly ← mergeLoop (momentCombC g l) (combsDown 7 l) ⟨kfV, []⟩
  let s ← subVC poly
  pure s.removeZero

/-- `dt0(t0, wrt)` for `wrt` 'k1' (`s = false`) and 'k2' (`s = true`), mdl_2fsv/cmom.py lines 219-251; the ValueError for any
other `wrt` is not reached from `dpoly`. -/
def dt0 (t0 : List Den) (s : Bool) : List (List Den × ℚ) :=
  (List.range t0.length).flatMap fun i : ℕ =>
    let k := t0.getD i (0, 0, 0)
    let n := if s then k.2.1 else k.1
    if k.2.2 ≠ 0 ∧ n ≠ 0 then [(t0.set i (k.1, k.2.1, k.2.2 + 1), ((-k.2.2 * n : ℤ) : ℚ))] else []

/-- the branch of `dpoly` for 'k1' and 'k2', mdl_2fsv/cmom.py lines 274-295; the test `len(t0) != 0`
only skips an empty loop. -/
def dRate (kf : List String) (poly : TPoly) (s : Bool) : TPoly :=
  Poly.ofTerms kf
    ((poly.items.flatMap fun e => (dt0 e.1.d s).map fun t => ({ e.1 with d := t.1 }, t.2 * e.2)) ++
    poly.items.flatMap fun e =>
      let n := if s then e.1.e.2 else e.1.e.1
      if n ≠ 0 then [({ e.1 with c := e.1.c.modify 0 (· + 1) }, ((-n : ℤ) : ℚ) * e.2)] else [])

/-- the branch of `dpoly` for a plain power, at position `i` of `key[2:]`, mdl_2fsv/cmom.py lines
297-307. -/
def dPow (kf : List String) (poly : TPoly) (i : ℕ) : TPoly :=
  Poly.ofTerms kf (poly.items.flatMap fun e =>
    if ix e.1.c i ≠ 0 then [({ e.1 with c := e.1.c.modify i (· - 1) }, (ix e.1.c i : ℚ) * e.2)] else [])

/-- `dpoly(poly, wrt)`, mdl_2fsv/cmom.py lines 254-311. -/
def dpolyC (poly : TPoly) (wrt : String) : Except PyErr TPoly :=
  if wrt = "mu" then pure ⟨kfC, []⟩
  else if wrt = "k1" then pure (dRate kfC poly false)
  else if wrt = "k2" then pure (dRate kfC poly true)
  else if wrt = "theta1" then pure (dPow kfC poly 1)
  else if wrt = "sigma_v1" then pure (dPow kfC poly 2)
  else if wrt = "theta2" then pure (dPow kfC poly 3)
  else if wrt = "sigma_v2" then pure (dPow kfC poly 4)
  else .error .valueError

/-- some `(t[0]*k1 + t[1]*k2) ** (-t[2])` is a negative power of 0 -/
def ZeroDiv (poly : TPoly) (par : Par) : Prop :=
  ∃ e ∈ poly.items, ∃ t ∈ e.1.d, (t.1 : ℝ) * par.k1 + t.2.1 * par.k2 = 0 ∧ 0 < t.2.2

open Classical in
/-- `poly2num(poly, par)`, mdl_2fsv/cmom.py lines 314-346. The other powers are never negative in the
Polys it is applied to. -/
noncomputable def poly2numC (poly : TPoly) (par : Par) : Except PyErr ℝ :=
  if ZeroDiv poly par then .error .zeroDivision else .ok (poly.items.map fun e => (e.2 : ℝ) *
    (e.1.d.map fun t => ((t.1 : ℝ) * par.k1 + t.2.1 * par.k2) ^ (-t.2.2)).prod *
    Real.exp (-(e.1.e.1 * par.k1 + e.1.e.2 * par.k2) * par.h) * par.h ^ ix e.1.c 0 *
    par.θ1 ^ ix e.1.c 1 * par.σ1 ^ ix e.1.c 2 * par.θ2 ^ ix e.1.c 3 * par.σ2 ^ ix e.1.c 4).sum

/-- `cm(l, par)`, mdl_2fsv/cmom.py lines 349-359. -/
noncomputable def cm (g : Cfg) (l : ℕ) (par : Par) : Except PyErr ℝ := do
  let c ← cmomentY g l
  poly2numC c par

/-- `dcm(l, par, wrt)`, mdl_2fsv/cmom.py lines 362-374. -/
noncomputable def dcm (g : Cfg) (l : ℕ) (par : Par) (wrt : String) : Except PyErr ℝ := do
  let c ← cmomentY g l
  let d ← dpolyC c wrt
  poly2numC d par

/-! ### mom.py -/

/-- keyfor of `b_n`, mdl_2fsv/mom.py lines 33-34. -/
def kfB : List String := kfBc ++ ["h", "mu"]

/-- one entry of `b_n`, mdl_2fsv/mom.py lines 43-55; `is = [i1, ..., i7]`. -/
def bNTerm (n1 n2 n3 n4 n5 n6 n7 : ℕ) (x : List ℕ × ℕ × ℕ) : Except PyErr (List ℤ × ℚ) := do
  let i1 := nat x.1 0; let i2 := nat x.1 1; let i3 := nat x.1 2; let i4 := nat x.1 3
  let i5 := nat x.1 4; let i6 := nat x.1 5; let i7 := nat x.1 6
  let j := x.2.1; let q := x.2.2
  let num ← comb n1 [(i1 : ℤ), (i2 : ℤ), (i3 : ℤ), (i4 : ℤ), (i5 : ℤ), (i6 : ℤ), (i7 : ℤ)]
  pure ([(i2 : ℤ) + j, (i1 : ℤ) + i2 + n2 + n4 + n5, (i1 : ℤ) + i2 + i5, (n4 : ℤ) + n5,
      (i4 : ℤ) + q, (i3 : ℤ) + i4 + n3 + n6 + n7, (i3 : ℤ) + i4 + i6, (n6 : ℤ) + n7,
      (i5 : ℤ) + i6 + i7, (i7 : ℤ)],
    ((num : ℚ) * (n2.choose j : ℚ) * (n3.choose q : ℚ) *
      (-1) ^ (i2 + i4 + i5 + i6 + (n2 + j) + (n3 + q) + n5 + n7)) /
        2 ^ (n1 - i7 + n2 + n3 + n4 + n5 + n6 + n7))

/-- `b_n(n1, ..., n7)`, mdl_2fsv/mom.py lines 17-56. -/
def bN (n1 n2 n3 n4 n5 n6 n7 : ℕ) : Except PyErr IPoly := do
  let ts ← (bLoops 6 n1 n2 n3).mapM (bNTerm n1 n2 n3 n4 n5 n6 n7)
  pure (Poly.ofTerms kfB ts)

/-- keyfor of `moment_comb`, mdl_2fsv/mom.py lines 84-86. -/
def kfMv : List String :=
  [sD, sE, "h", "mu", "v_{1,n-1}", "theta1", "sigma_v1", "v_{2,n-1}", "theta2", "sigma_v2"]

/-- the powers of the key, mdl_2fsv/mom.py lines 100-102. -/
def cfM (c m : List ℤ) : List ℤ :=
  [ix c 0 + ix m 8, ix m 9, ix c 1, ix c 2 + ix m 2, ix c 3 + ix m 3, ix c 4, ix c 5 + ix m 6,
    ix c 6 + ix m 7]

/-- `moment_comb(n, n1, ..., n8)`, mdl_2fsv/mom.py lines 59-106. -/
def momentComb (g : Cfg) (n : ℕ) (ns : List ℕ) : Except PyErr TPoly := do
  let poly ← vvee g (nat ns 1) (nat ns 2) (nat ns 3) (nat ns 4) (nat ns 5) (nat ns 6) (nat ns 7)
  let b ← bN (nat ns 0) (nat ns 1) (nat ns 2) (nat ns 3) (nat ns 4) (nat ns 5) (nat ns 6)
  let poln ← mulB kfMv cfM poly b
  let c ← comb8 n ns
  pure (Poly.rmul c poln)

/-- keyfor of `sub_v` and `moment_y`, mdl_2fsv/mom.py lines 122-123. -/
def kfM : List String := [sD, sE, "h", "mu", "theta1", "sigma_v1", "theta2", "sigma_v2"]

/-- `sub_v(poly)`, mdl_2fsv/mom.py lines 109-147. -/
def subV (poly : TPoly) : Except PyErr TPoly := do
  let poln ← subLoop [] (1, 0) 2 (fun c m =>
    [ix c 0, ix c 1, ix c 3 + ix m 0, ix c 4 + 2 * ix m 1, ix c 5, ix c 6, ix c 7]) poly
  subLoop kfM (0, 1) 4 (fun c m =>
    [ix c 0, ix c 1, ix c 2, ix c 3, ix c 5 + ix m 0, ix c 6 + 2 * ix m 1]) poln

/-- `moment_y(l)`, mdl_2fsv/mom.py lines 150-176. -/
def momentY (g : Cfg) (l : ℕ) : Except PyErr TPoly := do
  let poly ← mergeLoop (momentComb g l) (combsDown 7 l) ⟨kfMv, []⟩
  let s ← subV poly
  pure s.removeZero

/-- `dpoly(poly, wrt)`, mdl_2fsv/mom.py lines 183-239. -/
def dpoly (poly : TPoly) (wrt : String) : Except PyErr TPoly :=
  if wrt = "k1" then pure (dRate kfM poly false)
  else if wrt = "k2" then pure (dRate kfM poly true)
  else if wrt = "mu" then pure (dPow kfM poly 1)
  else if wrt = "theta1" then pure (dPow kfM poly 2)
  else if wrt = "sigma_v1" then pure (dPow kfM poly 3)
  else if wrt = "theta2" then pure (dPow kfM poly 4)
  else if wrt = "sigma_v2" then pure (dPow kfM poly 5)
  else .error .valueError

open Classical in
/-- `poly2num(poly, par)`, mdl_2fsv/mom.py lines 242-276. -/
noncomputable def poly2num (poly : TPoly) (par : Par) : Except PyErr ℝ :=
  if ZeroDiv poly par then .error .zeroDivision else .ok (poly.items.map fun e => (e.2 : ℝ) *
    (e.1.d.map fun t => ((t.1 : ℝ) * par.k1 + t.2.1 * par.k2) ^ (-t.2.2)).prod *
    Real.exp (-(e.1.e.1 * par.k1 + e.1.e.2 * par.k2) * par.h) * par.h ^ ix e.1.c 0 *
    par.μ ^ ix e.1.c 1 * par.θ1 ^ ix e.1.c 2 * par.σ1 ^ ix e.1.c 3 * par.θ2 ^ ix e.1.c 4 *
    par.σ2 ^ ix e.1.c 5).sum

/-- `m(l, par)`, mdl_2fsv/mom.py lines 279-289. -/
noncomputable def m (g : Cfg) (l : ℕ) (par : Par) : Except PyErr ℝ := do
  let c ← momentY g l
  poly2num c par

/-- `dm(l, par, wrt)`, mdl_2fsv/mom.py lines 292-304. -/
noncomputable def dm (g : Cfg) (l : ℕ) (par : Par) (wrt : String) : Except PyErr ℝ := do
  let c ← momentY g l
  let d ← dpoly c wrt
  poly2num d par

/-! ### cov.py -/

/-- keyfor of `vvee_IEI_IEII_vnvn`, mdl_2fsv/cov.py lines 49-52. -/
def kfEIv : List String := ["e^{-k1*nh}eI_{1,n}", "e^{-k2*nh}eI_{2,n}", sD, sE, "h", "v_{1,n-1}",
  "theta1", "sigma_v1", "v_{2,n-1}", "theta2", "sigma_v2"]

/-- the first loop of `vvee_IEI_IEII_vnvn`, mdl_2fsv/cov.py lines 55-71; in the result `c` is
`[key[0], key[1]] + key[4:]`. -/
def expV1 (poly : TPoly) : Except PyErr TPoly :=
  subst [] (fun e => do
    let polv ← Fsv1.expVnPy (ix e.1.c 1)
    pure (polv.items.map fun m =>
      (⟨e.1.d, (e.1.e.1 + ix m.1 1, e.1.e.2), [ix m.1 0, 0, ix e.1.c 0, 0 + ix m.1 2,
        ix e.1.c 2 + ix m.1 3, ix e.1.c 3 + ix m.1 4, ix e.1.c 4, ix e.1.c 5, ix e.1.c 6]⟩, e.2 * m.2))) poly

/-- the second loop of `vvee_IEI_IEII_vnvn`, mdl_2fsv/cov.py lines 73-88. -/
def expV2 (poln : TPoly) : Except PyErr TPoly :=
  subst kfEIv (fun e => do
    let polv ← Fsv1.expVnPy (ix e.1.c 6)
    pure (polv.items.map fun m =>
      (⟨e.1.d, (e.1.e.1, e.1.e.2 + ix m.1 1), [ix e.1.c 0, ix m.1 0, ix e.1.c 2, ix e.1.c 3, ix e.1.c 4,
        ix e.1.c 5, 0 + ix m.1 2, ix e.1.c 7 + ix m.1 3, ix e.1.c 8 + ix m.1 4]⟩, e.2 * m.2))) poln

/-- `vvee_IEI_IEII_vnvn(n2, ..., n8)`, mdl_2fsv/cov.py lines 19-89. -/
def vveeVn (g : Cfg) (n2 n3 n4 n5 n6 n7 n8 : ℕ) : Except PyErr TPoly := do
  let poly ← vvee g n2 n3 n4 n5 n6 n7 n8
  let poln ← expV1 poly
  expV2 poln

/-- `t0 = a; for t in b: t0 = t_mul_t0(t, t0)`, mdl_2fsv/cov.py lines 136-137 and 291-292. -/
def mulT0s (a b : List Den) : Except PyErr (List Den) := b.foldlM (fun t0 t => tMulT0 t t0) a

/-- the first double loop of `moment_inner_comb`, mdl_2fsv/cov.py lines 133-146; `ms = [m1, ..., m8]`.
`m2 + k1[5]`, `m3 + k1[8]`, `m4 + k1[0]` and `m6 + k1[1]` are non-negative for the Polys it is applied
to; a negative value would be cut off at 0 here. -/
def innerPoly (g : Cfg) (ms : List ℕ) (polyEIv : TPoly) : Except PyErr TPoly :=
  subst kfMv (fun e => do
    let poln ← vvee g (nat ms 1 + ix e.1.c 3).toNat (nat ms 2 + ix e.1.c 6).toNat
      (nat ms 3 + ix e.1.c 0).toNat (nat ms 4) (nat ms 5 + ix e.1.c 1).toNat (nat ms 6) (nat ms 7)
    poln.items.mapM fun m => do
      let t0 ← mulT0s e.1.d m.1.d
      pure (⟨t0, (e.1.e.1 + m.1.e.1, e.1.e.2 + m.1.e.2), [ix m.1.c 0 + ix e.1.c 2, 0, ix m.1.c 1,
        ix m.1.c 2 + ix e.1.c 4, ix m.1.c 3 + ix e.1.c 5, ix m.1.c 4, ix m.1.c 5 + ix e.1.c 7,
        ix m.1.c 6 + ix e.1.c 8]⟩, e.2 * m.2)) polyEIv

/-- the powers of the key, mdl_2fsv/cov.py lines 164-168 and 228-232. -/
def cfY (c m : List ℤ) : List ℤ :=
  [ix c 0 + ix m 8, ix c 1 + ix m 9, ix c 2, ix c 3 + ix m 2, ix c 4 + ix m 3, ix c 5, ix c 6 + ix m 6,
    ix c 7 + ix m 7]

/-- multiplication by `b_n` and `comb`, mdl_2fsv/cov.py lines 150-173 and 214-237. -/
def timesB (n : ℕ) (ns : List ℕ) (poly : TPoly) : Except PyErr TPoly := do
  let b ← bN (nat ns 0) (nat ns 1) (nat ns 2) (nat ns 3) (nat ns 4) (nat ns 5) (nat ns 6)
  let poln ← mulB kfMv cfY poly b
  let c ← comb8 n ns
  pure (Poly.rmul c poln)

/-- `moment_inner_comb(l1, m1, ..., m8, poly_eIv)`, mdl_2fsv/cov.py lines 92-173. -/
def momentInnerComb (g : Cfg) (l1 : ℕ) (polyEIv : TPoly) (ms : List ℕ) : Except PyErr TPoly := do
  let poly ← innerPoly g ms polyEIv
  timesB l1 ms poly

/-- `moment_outer_comb(l2, n1, ..., n8, l1)`, mdl_2fsv/cov.py lines 176-237. -/
def momentOuterComb (g : Cfg) (l1 l2 : ℕ) (ns : List ℕ) : Except PyErr TPoly := do
  let polyEIv ← vveeVn g (nat ns 1) (nat ns 2) (nat ns 3) (nat ns 4) (nat ns 5) (nat ns 6) (nat ns 7)
  let poly ← mergeLoop (momentInnerComb g l1 polyEIv) (combsDown 7 l1) ⟨kfMv, []⟩
  timesB l2 ns poly

/-- `moment_yy(l1, l2)`, mdl_2fsv/cov.py lines 240-268. -/
def momentYY (g : Cfg) (l1 l2 : ℕ) : Except PyErr TPoly := do
  let poly ← mergeLoop (momentOuterComb g l1 l2) (combsDown 7 l2) ⟨kfMv, []⟩
  let s ← subV poly
  pure s.removeZero

/-- the double loop of `cov_yy`, mdl_2fsv/cov.py lines 289-297; `n` is the number of powers in a key. -/
def mulT (kf : List String) (n : ℕ) (p q : TPoly) : Except PyErr TPoly :=
  subst kf (fun e => q.items.mapM fun m => do
    let t0 ← mulT0s e.1.d m.1.d
    pure (⟨t0, (e.1.e.1 + m.1.e.1, e.1.e.2 + m.1.e.2),
      (List.range n).map fun i : ℕ => ix e.1.c i + ix m.1.c i⟩, e.2 * m.2)) p

/-- `cov_yy(l1, l2)`, mdl_2fsv/cov.py lines 271-301. -/
def covYY (g : Cfg) (l1 l2 : ℕ) : Except PyErr TPoly := do
  let pol1 ← momentY g l1
  let pol2 ← momentY g l2
  let poln ← mulT kfM 6 pol1 pol2
  let a ← momentYY g l1 l2
  let r ← a.sub poln
  pure r.removeZero

/-- `cov(l1, l2, par)`, mdl_2fsv/cov.py lines 308-319. -/
noncomputable def cov (g : Cfg) (l1 l2 : ℕ) (par : Par) : Except PyErr ℝ := do
  let c ← covYY g l1 l2
  poly2num c par

/-- `dcov(l1, l2, par, wrt)`, mdl_2fsv/cov.py lines 322-335. -/
noncomputable def dcov (g : Cfg) (l1 l2 : ℕ) (par : Par) (wrt : String) : Except PyErr ℝ := do
  let c ← covYY g l1 l2
  let d ← dpoly c wrt
  poly2num d par

end Ajd.Fsv2
