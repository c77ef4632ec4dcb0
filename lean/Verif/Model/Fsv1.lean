import Verif.Model.Ito
import Verif.Model.Utils
import Verif.Model.Loop
import Mathlib.Analysis.SpecialFunctions.Pow.Real

/-! Model of `/repo/src/ajdmom/mdl_1fsv/cmom.py`, `mom.py` and `cov.py`. Orders are non-negative, as
the docstrings require; floats are real numbers. -/

namespace Ajd.Fsv1
open Ito Utils

/-- the entries of `par` used by `poly2num`. -/
structure Par where
  k : ℝ
  θ : ℝ
  σ : ℝ
  ρ : ℝ
  μ : ℝ
  h : ℝ

/-! ### cmom.py -/

/-- `b_n(n1, ..., n5)`, mdl_1fsv/cmom.py lines 13-33. -/
def bNc (n1 n2 n3 n4 n5 : ℕ) : IPoly :=
  Poly.ofTerms ["e^{-kh}", "k^{-}", "theta", "sigma_v", "rho", "sqrt(1-rho^2)"]
    ((List.range (n1 + n2 + 1)).flatMap fun i : ℕ => (List.range (n4 + 1)).map fun j : ℕ =>
      ([(i : ℤ), (n1 : ℤ) + n2 + n3 + j, (n1 : ℤ), (n3 : ℤ) + j, (n4 : ℤ) - j, (n5 : ℤ)],
        (((n1 + n2).choose i : ℚ) * (n4.choose j : ℚ) * (-1) ^ (n2 + i + j)) /
          2 ^ (n1 + n2 + n3 + j)))

/-- keyfor of `ve_IEII`, mdl_1fsv/cmom.py line 49. -/
def kfVe : List String := ["e^{-kh}", "h", "v_{n-1}", "k^{-}", "theta", "sigma_v"]

/-- `ve_IEII(n2, n3, n4, n5)`, mdl_1fsv/cmom.py lines 36-59. -/
def veIEII (n2 n3 n4 n5 : ℕ) : Except PyErr IPoly := do
  let poly ← momentIEII n3 n4 n5
  pure (Poly.ofTerms kfVe (poly.items.map fun e =>
    ([(n3 : ℤ) - ix e.1 1, ix e.1 2, (n2 : ℤ) + ix e.1 3, ix e.1 4, ix e.1 5, ix e.1 6], e.2)))

/-- keyfor before `sub_v`, mdl_1fsv/cmom.py lines 79-80 and 119. -/
def kfCv : List String :=
  ["e^{-kh}", "h", "v_{n-1}", "k^{-}", "theta", "sigma_v", "rho", "sqrt(1-rho^2)"]

/-- `moment_comb(n, n1, ..., n5)`, mdl_1fsv/cmom.py lines 62-85. -/
def momentCombC (n n1 n2 n3 n4 n5 : ℕ) : Except PyErr IPoly := do
  let poly ← veIEII n2 n3 n4 n5
  let poly ← poly.mulPoly (bNc n1 n2 n3 n4 n5) [0, 1, 2, 3, 4, 5, -1, -1] [0, -1, -1, 1, 2, 3, 4, 5]
    kfCv
  let c ← comb n [(n1 : ℤ), (n2 : ℤ), (n3 : ℤ), (n4 : ℤ), (n5 : ℤ)]
  pure (Poly.rmul c poly)

/-- keyfor of `cmoment_y`, mdl_1fsv/cmom.py line 98. -/
def kfC : List String :=
  ["e^{-kh}", "h", "k^{-}", "theta", "sigma_v", "rho", "sqrt(1-rho^2)"]

/-- `sub_v(poly)`, mdl_1fsv/cmom.py lines 88-107. -/
def subVC (poly : IPoly) : Except PyErr IPoly :=
  subst kfC (fun e => do
    let poln ← momentVPy (ix e.1 2)
    pure (poln.items.map fun m =>
      ([ix e.1 0, ix e.1 1, ix e.1 3 + ix m.1 1, ix e.1 4 + ix m.1 0, ix e.1 5 + 2 * ix m.1 1,
        ix e.1 6, ix e.1 7], m.2 * e.2))) poly

/-- `cmoment_y(l)`, mdl_1fsv/cmom.py lines 110-129. -/
def cmomentY (l : ℕ) : Except PyErr IPoly := do
  let poly ← mergeLoop (fun ns => momentCombC l (nat ns 0) (nat ns 1) (nat ns 2) (nat ns 3)
    (nat ns 4)) (combsDown 4 l) ⟨kfCv, []⟩
  let s ← subVC poly
  pure s.removeZero

/-- `poly2num(poly, par)`, mdl_1fsv/cmom.py lines 197-219. -/
noncomputable def poly2numC (poly : IPoly) (par : Par) : ℝ :=
  (poly.items.map fun e => (e.2 : ℝ) * Real.exp (-(ix e.1 0) * par.k * par.h) * par.h ^ ix e.1 1 *
    par.k ^ (-ix e.1 2) * (par.θ ^ ix e.1 3 * par.σ ^ ix e.1 4 * par.ρ ^ ix e.1 5) *
    (1 - par.ρ ^ 2) ^ ((ix e.1 6 : ℝ) / 2)).sum

/-- `cm(l, par)`, mdl_1fsv/cmom.py lines 222-232. -/
noncomputable def cm (l : ℕ) (par : Par) : Except PyErr ℝ := do
  let c ← cmomentY l
  pure (poly2numC c par)

/-- The terms added by `dpoly` for one entry when differentiating a plain power at position `i`,
mdl_1fsv/cmom.py lines 170-175. -/
def dPow (i : ℕ) (e : List ℤ × ℚ) : List (List ℤ × ℚ) :=
  if ix e.1 i ≠ 0 then [(e.1.modify i (· - 1), (ix e.1 i : ℚ) * e.2)] else []

/-- The terms added by `dpoly` for one entry when differentiating with respect to `k`
('e^{-kh}', 'h', 'k^{-}' at positions 0, 1, 2), mdl_1fsv/cmom.py lines 154-165. -/
def dK (e : List ℤ × ℚ) : List (List ℤ × ℚ) :=
  (if ix e.1 0 ≠ 0 then [(e.1.modify 1 (· + 1), (-(ix e.1 0) : ℚ) * e.2)] else []) ++
    (if ix e.1 2 ≠ 0 then [(e.1.modify 2 (· + 1), (-(ix e.1 2) : ℚ) * e.2)] else [])

/-- The terms added by `dpoly` for one entry when differentiating with respect to `rho` at position
`i`, with 'sqrt(1-rho^2)' at `i + 1`, mdl_1fsv/cmom.py lines 179-191. -/
def dRho (i : ℕ) (e : List ℤ × ℚ) : List (List ℤ × ℚ) :=
  dPow i e ++ (if ix e.1 (i + 1) ≠ 0 then
    [((e.1.modify i (· + 1)).modify (i + 1) (· - 2), (-(ix e.1 (i + 1)) : ℚ) * e.2)] else [])

/-- `dpoly(poly, wrt)`, mdl_1fsv/cmom.py lines 135-194. -/
def dpolyC (poly : IPoly) (wrt : String) : Except PyErr IPoly :=
  if wrt = "mu" then pure ⟨kfC, []⟩
  else if wrt = "k" then pure (Poly.ofTerms kfC (poly.items.flatMap dK))
  else if wrt = "theta" then pure (Poly.ofTerms kfC (poly.items.flatMap (dPow 3)))
  else if wrt = "sigma_v" then pure (Poly.ofTerms kfC (poly.items.flatMap (dPow 4)))
  else if wrt = "rho" then pure (Poly.ofTerms kfC (poly.items.flatMap (dRho 5)))
  else .error .valueError

/-- `dcm(l, par, wrt)`, mdl_1fsv/cmom.py lines 235-247. -/
noncomputable def dcm (l : ℕ) (par : Par) (wrt : String) : Except PyErr ℝ := do
  let c ← cmomentY l
  let d ← dpolyC c wrt
  pure (poly2numC d par)

/-! ### mom.py -/

/-- keyfor of `b_n` and `moment_y`, mdl_1fsv/mom.py lines 26 and 87. -/
def kfM : List String :=
  ["e^{-kh}", "h", "k^{-}", "mu", "theta", "sigma_v", "rho", "sqrt(1-rho^2)"]

/-- one entry of `b_n`, mdl_1fsv/mom.py lines 35-42; `is = [i1, i2, i3, i4]`. -/
def bNTerm (n1 n2 n3 n4 n5 : ℕ) (is : List ℕ) (i j : ℕ) : Except PyErr (List ℤ × ℚ) := do
  let num ← comb n1 [(nat is 0 : ℤ), (nat is 1 : ℤ), (nat is 2 : ℤ), (nat is 3 : ℤ)]
  pure ([(nat is 3 : ℤ) + i, (nat is 0 : ℤ) + nat is 1, (nat is 2 : ℤ) + nat is 3 + n2 + n3 + j,
      (nat is 0 : ℤ), (n1 : ℤ) - nat is 0, (n3 : ℤ) + j, (n4 : ℤ) - j, (n5 : ℤ)],
    ((num : ℚ) * (n2.choose i : ℚ) * (n4.choose j : ℚ) *
      (-1) ^ (nat is 1 + nat is 3 + n2 + i + j)) / 2 ^ (n1 - nat is 0 + n2 + n3 + j))

/-- `b_n(n1, ..., n5)`, mdl_1fsv/mom.py lines 13-43. -/
def bN (n1 n2 n3 n4 n5 : ℕ) : Except PyErr IPoly := do
  let ts ← ((combsDown 3 n1).flatMap fun is => (List.range (n2 + 1)).flatMap fun i =>
    (List.range (n4 + 1)).map fun j => (is, i, j)).mapM fun x => bNTerm n1 n2 n3 n4 n5 x.1 x.2.1 x.2.2
  pure (Poly.ofTerms kfM ts)

/-- keyfor before `sub_v`, mdl_1fsv/mom.py lines 65-66. -/
def kfMv : List String :=
  ["e^{-kh}", "h", "v_{n-1}", "k^{-}", "mu", "theta", "sigma_v", "rho", "sqrt(1-rho^2)"]

/-- the last lines of `moment_comb`, mdl_1fsv/mom.py lines 62-73, shared with
`moment_inner_comb`, mdl_1fsv/cov.py lines 97-106: multiply by `b_n` and by `comb`. -/
def timesB (n n1 n2 n3 n4 n5 : ℕ) (poly : IPoly) : Except PyErr IPoly := do
  let b ← bN n1 n2 n3 n4 n5
  let poly ← poly.mulPoly b [0, 1, 2, 3, -1, 4, 5, -1, -1] [0, 1, -1, 2, 3, 4, 5, 6, 7] kfMv
  let c ← comb n [(n1 : ℤ), (n2 : ℤ), (n3 : ℤ), (n4 : ℤ), (n5 : ℤ)]
  pure (Poly.rmul c poly)

/-- `moment_comb(n, n1, ..., n5)`, mdl_1fsv/mom.py lines 46-73. -/
def momentComb (n n1 n2 n3 n4 n5 : ℕ) : Except PyErr IPoly := do
  let poly ← veIEII n2 n3 n4 n5
  timesB n n1 n2 n3 n4 n5 poly

/-- `sub_v(poly)`, mdl_1fsv/mom.py lines 76-97. -/
def subV (poly : IPoly) : Except PyErr IPoly :=
  subst kfM (fun e => do
    let poln ← momentVPy (ix e.1 2)
    pure (poln.items.map fun m =>
      ([ix e.1 0, ix e.1 1, ix e.1 3 + ix m.1 1, ix e.1 4, ix e.1 5 + ix m.1 0,
        ix e.1 6 + 2 * ix m.1 1, ix e.1 7, ix e.1 8], m.2 * e.2))) poly

/-- `moment_y(l)`, mdl_1fsv/mom.py lines 100-120. -/
def momentY (l : ℕ) : Except PyErr IPoly := do
  let poly ← mergeLoop (fun ns => momentComb l (nat ns 0) (nat ns 1) (nat ns 2) (nat ns 3)
    (nat ns 4)) (combsDown 4 l) ⟨kfMv, []⟩
  let s ← subV poly
  pure s.removeZero

/-- `poly2num(poly, par)`, mdl_1fsv/mom.py lines 184-207. -/
noncomputable def poly2num (poly : IPoly) (par : Par) : ℝ :=
  (poly.items.map fun e => (e.2 : ℝ) * Real.exp (-(ix e.1 0) * par.k * par.h) * par.h ^ ix e.1 1 *
    par.k ^ (-ix e.1 2) * par.μ ^ ix e.1 3 * (par.θ ^ ix e.1 4 * par.σ ^ ix e.1 5 *
    par.ρ ^ ix e.1 6) * (1 - par.ρ ^ 2) ^ ((ix e.1 7 : ℝ) / 2)).sum

/-- `m(l, par)`, mdl_1fsv/mom.py lines 210-220. -/
noncomputable def m (l : ℕ) (par : Par) : Except PyErr ℝ := do
  let c ← momentY l
  pure (poly2num c par)

/-- `dpoly(poly, wrt)`, mdl_1fsv/mom.py lines 126-181. -/
def dpoly (poly : IPoly) (wrt : String) : Except PyErr IPoly :=
  if wrt = "k" then pure (Poly.ofTerms kfM (poly.items.flatMap dK))
  else if wrt = "mu" then pure (Poly.ofTerms kfM (poly.items.flatMap (dPow 3)))
  else if wrt = "theta" then pure (Poly.ofTerms kfM (poly.items.flatMap (dPow 4)))
  else if wrt = "sigma_v" then pure (Poly.ofTerms kfM (poly.items.flatMap (dPow 5)))
  else if wrt = "rho" then pure (Poly.ofTerms kfM (poly.items.flatMap (dRho 6)))
  else .error .valueError

/-- `dm(l, par, wrt)`, mdl_1fsv/mom.py lines 223-235. -/
noncomputable def dm (l : ℕ) (par : Par) (wrt : String) : Except PyErr ℝ := do
  let c ← momentY l
  let d ← dpoly c wrt
  pure (poly2num d par)

/-! ### cov.py -/

/-- keyfor of `exp_vn`, mdl_1fsv/cov.py line 25. -/
def kfVn : List String := ["e^{-knh}eI_n", "e^{-kh}", "v_{n-1}", "theta", "sigma_v"]

/-- `exp_vn(l)`, mdl_1fsv/cov.py lines 16-34. -/
def expVn (l : ℕ) : Except PyErr IPoly := do
  let ts ← (combsDown 3 l).mapM fun is => do
    let c ← comb l [(nat is 0 : ℤ), (nat is 1 : ℤ), (nat is 2 : ℤ), (nat is 3 : ℤ)]
    pure ([(nat is 3 : ℤ), (nat is 0 : ℤ) + nat is 2, (nat is 0 : ℤ), (nat is 1 : ℤ) + nat is 2,
      (nat is 3 : ℤ)], (c : ℚ) * (-1) ^ nat is 2)
  pure (Poly.ofTerms kfVn ts)

/-- `exp_vn(l)` for every int: the loops do not run for a negative `l`. -/
def expVnPy (l : ℤ) : Except PyErr IPoly :=
  if l < 0 then pure ⟨kfVn, []⟩ else expVn l.toNat

/-- keyfor of `ve_IEII_vn`, mdl_1fsv/cov.py line 54. -/
def kfEIv : List String :=
  ["e^{-knh}eI_n", "e^{-kh}", "h", "v_{n-1}", "k^{-}", "theta", "sigma_v"]

/-- `ve_IEII_vn(n2, n3, n4, n5)`, mdl_1fsv/cov.py lines 37-64. -/
def veIEIIvn (n2 n3 n4 n5 : ℕ) : Except PyErr IPoly := do
  let poly ← veIEII n2 n3 n4 n5
  subst kfEIv (fun e => do
    let polv ← expVnPy (ix e.1 2)
    pure (polv.items.map fun m =>
      ([ix m.1 0, ix e.1 0 + ix m.1 1, ix e.1 1, ix m.1 2, ix e.1 3, ix e.1 4 + ix m.1 3,
        ix e.1 5 + ix m.1 4], e.2 * m.2))) poly

/-- the double loop of `moment_inner_comb`, mdl_1fsv/cov.py lines 83-95. `m2 + k1[3]` and
`m3 + k1[0]` are non-negative for the Polys it is applied to; a negative value would be cut off at 0
here. -/
def innerPoly (m2 m3 m4 m5 : ℕ) (polyEIv : IPoly) : Except PyErr IPoly :=
  subst kfVe (fun e => do
    let poln ← veIEII (m2 + ix e.1 3).toNat (m3 + ix e.1 0).toNat m4 m5
    pure (poln.items.map fun m =>
      ([ix e.1 1 + ix m.1 0, ix e.1 2 + ix m.1 1, ix m.1 2, ix e.1 4 + ix m.1 3,
        ix e.1 5 + ix m.1 4, ix e.1 6 + ix m.1 5], e.2 * m.2))) polyEIv

/-- `moment_inner_comb(l1, m1, ..., m5, poly_eIv)`, mdl_1fsv/cov.py lines 67-106. -/
def momentInnerComb (l1 m1 m2 m3 m4 m5 : ℕ) (polyEIv : IPoly) : Except PyErr IPoly := do
  let poly ← innerPoly m2 m3 m4 m5 polyEIv
  timesB l1 m1 m2 m3 m4 m5 poly

/-- `moment_outer_comb(l2, n1, ..., n5, l1)`, mdl_1fsv/cov.py lines 109-145. -/
def momentOuterComb (l2 n1 n2 n3 n4 n5 l1 : ℕ) : Except PyErr IPoly := do
  let c ← comb l2 [(n1 : ℤ), (n2 : ℤ), (n3 : ℤ), (n4 : ℤ), (n5 : ℤ)]
  let b ← bN n1 n2 n3 n4 n5
  let polyEIv ← veIEIIvn n2 n3 n4 n5
  let poly ← mergeLoop (fun ms => momentInnerComb l1 (nat ms 0) (nat ms 1) (nat ms 2) (nat ms 3)
    (nat ms 4) polyEIv) (combsDown 4 l1) ⟨kfMv, []⟩
  let poly ← poly.mulPoly b [0, 1, 2, 3, 4, 5, 6, 7, 8] [0, 1, -1, 2, 3, 4, 5, 6, 7] kfMv
  pure (Poly.rmul c poly)

/-- `moment_yy(l1, l2)`, mdl_1fsv/cov.py lines 148-170. -/
def momentYY (l1 l2 : ℕ) : Except PyErr IPoly := do
  let poly ← mergeLoop (fun ns => momentOuterComb l2 (nat ns 0) (nat ns 1) (nat ns 2) (nat ns 3)
    (nat ns 4) l1) (combsDown 4 l2) ⟨kfMv, []⟩
  let s ← subV poly
  pure s.removeZero

/-- `cov_yy(l1, l2)`, mdl_1fsv/cov.py lines 173-187. -/
def covYY (l1 l2 : ℕ) : Except PyErr IPoly := do
  let a ← momentYY l1 l2
  let b ← momentY l1
  let c ← momentY l2
  let bc ← b.mul c
  let r ← a.sub bc
  pure r.removeZero

/-- `cov(l1, l2, par)`, mdl_1fsv/cov.py lines 194-205. -/
noncomputable def cov (l1 l2 : ℕ) (par : Par) : Except PyErr ℝ := do
  let c ← covYY l1 l2
  pure (poly2num c par)

/-- `dcov(l1, l2, par, wrt)`, mdl_1fsv/cov.py lines 208-220. -/
noncomputable def dcov (l1 l2 : ℕ) (par : Par) (wrt : String) : Except PyErr ℝ := do
  let c ← covYY l1 l2
  let d ← dpoly c wrt
  pure (poly2num d par)

end Ajd.Fsv1
