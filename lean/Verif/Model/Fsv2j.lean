import Verif.Model.Fsv2
import Verif.Model.Cpp
import Verif.Model.SrjdCond

/-! Model of `/repo/src/ajdmom/mdl_2fsvj/mom.py`, `cmom.py` and `cov.py`, with the same conventions as for
`mdl_2fsv`. -/

namespace Ajd.Fsv2j
open Cpp Itos
open Fsv2 (TKey TPoly sD sE)

/-- the entries of `par` used by `poly2num`; `lam` is `par['lambda']`. -/
structure Par extends Fsv2.Par where
  lam : ℝ
  μj : ℝ
  σj : ℝ

/-- the double loop over the keys of the diffusion part and of the jump part, e.g. mdl_2fsvj/mom.py lines
36-41; `cf` forms the powers of the key. -/
def jumpTerms (cf : List ℤ → List ℤ → List ℤ) (c : ℚ) (pol1 : TPoly) (pol2 : IPoly) : List (TKey × ℚ) :=
  pol1.items.flatMap fun a => pol2.items.map fun b => (⟨a.1.d, a.1.e, cf a.1.c b.1⟩, c * a.2 * b.2)

/-! ### mom.py -/

/-- keyfor of `moment_y`, mdl_2fsvj/mom.py lines 23-25. -/
def kfM : List String :=
  [sD, sE, "h", "mu", "theta1", "sigma_v1", "theta2", "sigma_v2", "lambda", "mu_j", "sigma_j"]

/-- the powers of the key, mdl_2fsvj/mom.py lines 38-39. -/
def cfM (c z : List ℤ) : List ℤ :=
  [ix c 0 + ix z 0, ix c 1, ix c 2, ix c 3, ix c 4, ix c 5, ix z 0, ix z 1, ix z 2]

/-- one iteration of the loop of `moment_y`, mdl_2fsvj/mom.py lines 29-41. -/
def momentYTerms (g : Cfg) (l i : ℕ) : Except PyErr (List (TKey × ℚ)) := do
  let pol1 ← Fsv2.momentY g i
  let pol2 ← mcpp ((l : ℤ) - i)
  pure (jumpTerms cfM (l.choose i : ℚ) pol1 pol2)

/-- `moment_y(l)`, mdl_2fsvj/mom.py lines 12-43. -/
def momentY (g : Cfg) (l : ℕ) : Except PyErr TPoly := do
  let poly ← Srjd.addLoop kfM (momentYTerms g l) (List.range (l + 1)).reverse
  pure poly.removeZero

/-- `dpoly(poly, wrt)`, mdl_2fsvj/mom.py lines 50-114. -/
def dpoly (poly : TPoly) (wrt : String) : Except PyErr TPoly :=
  if wrt = "k1" then pure (Fsv2.dRate kfM poly false)
  else if wrt = "k2" then pure (Fsv2.dRate kfM poly true)
  else if wrt = "mu" then pure (Fsv2.dPow kfM poly 1)
  else if wrt = "theta1" then pure (Fsv2.dPow kfM poly 2)
  else if wrt = "sigma_v1" then pure (Fsv2.dPow kfM poly 3)
  else if wrt = "theta2" then pure (Fsv2.dPow kfM poly 4)
  else if wrt = "sigma_v2" then pure (Fsv2.dPow kfM poly 5)
  else if wrt = "lambda" then pure (Fsv2.dPow kfM poly 6)
  else if wrt = "mu_j" then pure (Fsv2.dPow kfM poly 7)
  else if wrt = "sigma_j" then pure (Fsv2.dPow kfM poly 8)
  else .error .valueError

open Classical in
/-- `poly2num(poly, par)`, mdl_2fsvj/mom.py lines 117-158. -/
noncomputable def poly2num (poly : TPoly) (par : Par) : Except PyErr ℝ :=
  if Fsv2.ZeroDiv poly par.toPar then .error .zeroDivision else .ok (poly.items.map fun e => (e.2 : ℝ) *
    (e.1.d.map fun t => ((t.1 : ℝ) * par.k1 + t.2.1 * par.k2) ^ (-t.2.2)).prod *
    Real.exp (-(e.1.e.1 * par.k1 + e.1.e.2 * par.k2) * par.h) * par.h ^ ix e.1.c 0 *
    par.μ ^ ix e.1.c 1 * par.θ1 ^ ix e.1.c 2 * par.σ1 ^ ix e.1.c 3 * par.θ2 ^ ix e.1.c 4 *
    par.σ2 ^ ix e.1.c 5 * par.lam ^ ix e.1.c 6 * par.μj ^ ix e.1.c 7 * par.σj ^ ix e.1.c 8).sum

/-- `m(l, par)`, mdl_2fsvj/mom.py lines 161-171. -/
noncomputable def m (g : Cfg) (l : ℕ) (par : Par) : Except PyErr ℝ := do
  let c ← momentY g l
  poly2num c par

/-- `dm(l, par, wrt)`, mdl_2fsvj/mom.py lines 174-186. -/
noncomputable def dm (g : Cfg) (l : ℕ) (par : Par) (wrt : String) : Except PyErr ℝ := do
  let c ← momentY g l
  let d ← dpoly c wrt
  poly2num d par

/-! ### cmom.py -/

/-- keyfor of `cmoment_y`, mdl_2fsvj/cmom.py lines 23-25. -/
def kfC : List String :=
  [sD, sE, "h", "theta1", "sigma_v1", "theta2", "sigma_v2", "lambda", "mu_j", "sigma_j"]

/-- the powers of the key, mdl_2fsvj/cmom.py lines 36-37. -/
def cfC (c z : List ℤ) : List ℤ :=
  [ix c 0 + ix z 0, ix c 1, ix c 2, ix c 3, ix c 4, ix z 0, ix z 1, ix z 2]

/-- one iteration of the loop of `cmoment_y`, mdl_2fsvj/cmom.py lines 28-39. -/
def cmomentYTerms (g : Cfg) (l i : ℕ) : Except PyErr (List (TKey × ℚ)) := do
  let pol1 ← Fsv2.cmomentY g i
  let pol2 ← cmcpp ((l : ℤ) - i)
  pure (jumpTerms cfC (l.choose i : ℚ) pol1 pol2)

/-- `cmoment_y(l)`, mdl_2fsvj/cmom.py lines 12-41. -/
def cmomentY (g : Cfg) (l : ℕ) : Except PyErr TPoly := do
  let poly ← Srjd.addLoop kfC (cmomentYTerms g l) (List.range (l + 1)).reverse
  pure poly.removeZero

/-- `dpoly(poly, wrt)`, mdl_2fsvj/cmom.py lines 48-113. -/
def dpolyC (poly : TPoly) (wrt : String) : Except PyErr TPoly :=
  if wrt = "mu" then pure ⟨kfC, []⟩
  else if wrt = "k1" then pure (Fsv2.dRate kfC poly false)
  else if wrt = "k2" then pure (Fsv2.dRate kfC poly true)
  else if wrt = "theta1" then pure (Fsv2.dPow kfC poly 1)
  else if wrt = "sigma_v1" then pure (Fsv2.dPow kfC poly 2)
  else if wrt = "theta2" then pure (Fsv2.dPow kfC poly 3)
  else if wrt = "sigma_v2" then pure (Fsv2.dPow kfC poly 4)
  else if wrt = "lambda" then pure (Fsv2.dPow kfC poly 5)
  else if wrt = "mu_j" then pure (Fsv2.dPow kfC poly 6)
  else if wrt = "sigma_j" then pure (Fsv2.dPow kfC poly 7)
  else .error .valueError

open Classical in
/-- `poly2num(poly, par)`, mdl_2fsvj/cmom.py lines 116-155. -/
noncomputable def poly2numC (poly : TPoly) (par : Par) : Except PyErr ℝ :=
  if Fsv2.ZeroDiv poly par.toPar then .error .zeroDivision else .ok (poly.items.map fun e => (e.2 : ℝ) *
    (e.1.d.map fun t => ((t.1 : ℝ) * par.k1 + t.2.1 * par.k2) ^ (-t.2.2)).prod *
    Real.exp (-(e.1.e.1 * par.k1 + e.1.e.2 * par.k2) * par.h) * par.h ^ ix e.1.c 0 *
    par.θ1 ^ ix e.1.c 1 * par.σ1 ^ ix e.1.c 2 * par.θ2 ^ ix e.1.c 3 * par.σ2 ^ ix e.1.c 4 *
    par.lam ^ ix e.1.c 5 * par.μj ^ ix e.1.c 6 * par.σj ^ ix e.1.c 7).sum

/-- `cm(l, par)`, mdl_2fsvj/cmom.py lines 158-168. -/
noncomputable def cm (g : Cfg) (l : ℕ) (par : Par) : Except PyErr ℝ := do
  let c ← cmomentY g l
  poly2numC c par

/-- `dcm(l, par, wrt)`, mdl_2fsvj/cmom.py lines 171-183. -/
noncomputable def dcm (g : Cfg) (l : ℕ) (par : Par) (wrt : String) : Except PyErr ℝ := do
  let c ← cmomentY g l
  let d ← dpolyC c wrt
  poly2numC d par

/-! ### cov.py -/

/-- one iteration of the double loop of `moment_yy`, mdl_2fsvj/cov.py lines 35-49. -/
def momentYYTerms (g : Cfg) (l1 l2 : ℕ) (ij : ℕ × ℕ) : Except PyErr (List (TKey × ℚ)) := do
  let pol1 ← Fsv2.momentYY g ij.1 ij.2
  let pol2 ← mcpp ((l1 : ℤ) - ij.1)
  let pol3 ← mcpp ((l2 : ℤ) - ij.2)
  let poln ← pol2.mul pol3
  pure (jumpTerms cfM ((l1.choose ij.1 : ℚ) * (l2.choose ij.2 : ℚ)) pol1 poln)

/-- `moment_yy(l1, l2)`, mdl_2fsvj/cov.py lines 17-51. -/
def momentYY (g : Cfg) (l1 l2 : ℕ) : Except PyErr TPoly := do
  let poly ← Srjd.addLoop kfM (momentYYTerms g l1 l2)
    ((List.range (l1 + 1)).reverse.flatMap fun i : ℕ => (List.range (l2 + 1)).reverse.map fun j : ℕ => (i, j))
  pure poly.removeZero

/-- `cov_yy(l1, l2)`, mdl_2fsvj/cov.py lines 54-85. -/
def covYY (g : Cfg) (l1 l2 : ℕ) : Except PyErr TPoly := do
  let pol1 ← momentY g l1
  let pol2 ← momentY g l2
  let poln ← Fsv2.mulT kfM 9 pol1 pol2
  let a ← momentYY g l1 l2
  let r ← a.sub poln
  pure r.removeZero

/-- `cov(l1, l2, par)`, mdl_2fsvj/cov.py lines 92-103. -/
noncomputable def cov (g : Cfg) (l1 l2 : ℕ) (par : Par) : Except PyErr ℝ := do
  let c ← covYY g l1 l2
  poly2num c par

/-- `dcov(l1, l2, par, wrt)`, mdl_2fsvj/cov.py lines 106-119. -/
noncomputable def dcov (g : Cfg) (l1 l2 : ℕ) (par : Par) (wrt : String) : Except PyErr ℝ := do
  let c ← covYY g l1 l2
  let d ← dpoly c wrt
  poly2num d par

end Ajd.Fsv2j
