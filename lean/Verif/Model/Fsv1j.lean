import Verif.Model.Fsv1
import Verif.Model.Cpp

/-! Model of `/repo/src/ajdmom/mdl_1fsvj/mom.py`, `cmom.py` and `cov.py`, with the same conventions
as for `mdl_1fsv`. -/

namespace Ajd.Fsv1j
open Cpp

/-- the entries of `par` used by `poly2num`; `lam` is `par['lambda']`. -/
structure Par extends Fsv1.Par where
  lam : ℝ
  μj : ℝ
  σj : ℝ

/-! ### mom.py -/

/-- keyfor of `moment_y`, mdl_1fsvj/mom.py lines 24-25. -/
def kfM : List String :=
  ["e^{-kh}", "h", "k^{-}", "mu", "theta", "sigma_v", "rho", "sqrt(1-rho^2)", "lambda", "mu_j",
    "sigma_j"]

/-- one iteration of the loop of `moment_y`, mdl_1fsvj/mom.py lines 29-35; the summand merged. -/
def momentYTerm (l i : ℕ) : Except PyErr IPoly := do
  let pol1 ← Fsv1.momentY i
  let pol2 ← mcpp ((l : ℤ) - i)
  let poln ← pol1.mulPoly pol2 [0, 1, 2, 3, 4, 5, 6, 7, -1, -1, -1]
    [-1, 0, -1, -1, -1, -1, -1, -1, 0, 1, 2] kfM
  pure (Poly.rmul (l.choose i : ℚ) poln)

/-- `moment_y(l)`, mdl_1fsvj/mom.py lines 14-37. -/
def momentY (l : ℕ) : Except PyErr IPoly :=
  mergeLoop (momentYTerm l) (List.range (l + 1)) ⟨kfM, []⟩

/-- `dpoly(poly, wrt)`, mdl_1fsvj/mom.py lines 44-104. -/
def dpoly (poly : IPoly) (wrt : String) : Except PyErr IPoly :=
  if wrt = "k" then pure (Poly.ofTerms kfM (poly.items.flatMap Fsv1.dK))
  else if wrt = "rho" then pure (Poly.ofTerms kfM (poly.items.flatMap (Fsv1.dRho 6)))
  else if wrt = "mu" then pure (Poly.ofTerms kfM (poly.items.flatMap (Fsv1.dPow 3)))
  else if wrt = "theta" then pure (Poly.ofTerms kfM (poly.items.flatMap (Fsv1.dPow 4)))
  else if wrt = "sigma_v" then pure (Poly.ofTerms kfM (poly.items.flatMap (Fsv1.dPow 5)))
  else if wrt = "lambda" then pure (Poly.ofTerms kfM (poly.items.flatMap (Fsv1.dPow 8)))
  else if wrt = "mu_j" then pure (Poly.ofTerms kfM (poly.items.flatMap (Fsv1.dPow 9)))
  else if wrt = "sigma_j" then pure (Poly.ofTerms kfM (poly.items.flatMap (Fsv1.dPow 10)))
  else .error .valueError

/-- `poly2num(poly, par)`, mdl_1fsvj/mom.py lines 107-135. -/
noncomputable def poly2num (poly : IPoly) (par : Par) : ℝ :=
  (poly.items.map fun e => (e.2 : ℝ) * Real.exp (-(ix e.1 0) * par.k * par.h) * par.h ^ ix e.1 1 *
    par.k ^ (-ix e.1 2) * par.μ ^ ix e.1 3 * (par.θ ^ ix e.1 4 * par.σ ^ ix e.1 5 *
    par.ρ ^ ix e.1 6) * (1 - par.ρ ^ 2) ^ ((ix e.1 7 : ℝ) / 2) * (par.lam ^ ix e.1 8 *
    par.μj ^ ix e.1 9 * par.σj ^ ix e.1 10)).sum

/-- `m(l, par)`, mdl_1fsvj/mom.py lines 138-148. -/
noncomputable def m (l : ℕ) (par : Par) : Except PyErr ℝ := do
  let c ← momentY l
  pure (poly2num c par)

/-- `dm(l, par, wrt)`, mdl_1fsvj/mom.py lines 151-163. -/
noncomputable def dm (l : ℕ) (par : Par) (wrt : String) : Except PyErr ℝ := do
  let c ← momentY l
  let d ← dpoly c wrt
  pure (poly2num d par)

/-! ### cmom.py -/

/-- keyfor of `cmoment_y`, mdl_1fsvj/cmom.py lines 24-25. -/
def kfC : List String :=
  ["e^{-kh}", "h", "k^{-}", "theta", "sigma_v", "rho", "sqrt(1-rho^2)", "lambda", "mu_j", "sigma_j"]

/-- one iteration of the loop of `cmoment_y`, mdl_1fsvj/cmom.py lines 31-37. -/
def cmomentYTerm (l i : ℕ) : Except PyErr IPoly := do
  let pol1 ← Fsv1.cmomentY i
  let pol2 ← cmcpp ((l : ℤ) - i)
  let poln ← pol1.mulPoly pol2 [0, 1, 2, 3, 4, 5, 6, -1, -1, -1] [-1, 0, -1, -1, -1, -1, -1, 0, 1, 2]
    kfC
  pure (Poly.rmul (l.choose i : ℚ) poln)

/-- `cmoment_y(l)`, mdl_1fsvj/cmom.py lines 14-39. -/
def cmomentY (l : ℕ) : Except PyErr IPoly :=
  mergeLoop (cmomentYTerm l) (List.range (l + 1)) ⟨kfC, []⟩

/-- `dpoly(poly, wrt)`, mdl_1fsvj/cmom.py lines 46-114. -/
def dpolyC (poly : IPoly) (wrt : String) : Except PyErr IPoly :=
  if wrt = "mu" then pure ⟨kfC, []⟩
  else if wrt = "k" then pure (Poly.ofTerms kfC (poly.items.flatMap Fsv1.dK))
  else if wrt = "theta" then pure (Poly.ofTerms kfC (poly.items.flatMap (Fsv1.dPow 3)))
  else if wrt = "sigma_v" then pure (Poly.ofTerms kfC (poly.items.flatMap (Fsv1.dPow 4)))
  else if wrt = "lambda" then pure (Poly.ofTerms kfC (poly.items.flatMap (Fsv1.dPow 7)))
  else if wrt = "mu_j" then pure (Poly.ofTerms kfC (poly.items.flatMap (Fsv1.dPow 8)))
  else if wrt = "sigma_j" then pure (Poly.ofTerms kfC (poly.items.flatMap (Fsv1.dPow 9)))
  else if wrt = "rho" then pure (Poly.ofTerms kfC (poly.items.flatMap (Fsv1.dRho 5)))
  else .error .valueError

/-- `poly2num(poly, par)`, mdl_1fsvj/cmom.py lines 117-143. -/
noncomputable def poly2numC (poly : IPoly) (par : Par) : ℝ :=
  (poly.items.map fun e => (e.2 : ℝ) * Real.exp (-(ix e.1 0) * par.k * par.h) * par.h ^ ix e.1 1 *
    par.k ^ (-ix e.1 2) * (par.θ ^ ix e.1 3 * par.σ ^ ix e.1 4 * par.ρ ^ ix e.1 5) *
    (1 - par.ρ ^ 2) ^ ((ix e.1 6 : ℝ) / 2) * (par.lam ^ ix e.1 7 * par.μj ^ ix e.1 8 *
    par.σj ^ ix e.1 9)).sum

/-- `cm(l, par)`, mdl_1fsvj/cmom.py lines 146-156. -/
noncomputable def cm (l : ℕ) (par : Par) : Except PyErr ℝ := do
  let c ← cmomentY l
  pure (poly2numC c par)

/-- `dcm(l, par, wrt)`, mdl_1fsvj/cmom.py lines 159-171. -/
noncomputable def dcm (l : ℕ) (par : Par) (wrt : String) : Except PyErr ℝ := do
  let c ← cmomentY l
  let d ← dpolyC c wrt
  pure (poly2numC d par)

/-! ### cov.py -/

/-- one iteration of the double loop of `moment_yy`, mdl_1fsvj/cov.py lines 34-41. -/
def momentYYTerm (l1 l2 : ℕ) (ij : ℕ × ℕ) : Except PyErr IPoly := do
  let pol1 ← Fsv1.momentYY ij.2 ij.1
  let pol2 ← mcpp ((l2 : ℤ) - ij.1)
  let pol3 ← mcpp ((l1 : ℤ) - ij.2)
  let pol23 ← pol2.mul pol3
  let poln ← pol1.mulPoly pol23 [0, 1, 2, 3, 4, 5, 6, 7, -1, -1, -1]
    [-1, 0, -1, -1, -1, -1, -1, -1, 0, 1, 2] kfM
  pure (Poly.rmul ((l2.choose ij.1 : ℚ) * (l1.choose ij.2 : ℚ)) poln)

/-- `moment_yy(l1, l2)`, mdl_1fsvj/cov.py lines 17-42. -/
def momentYY (l1 l2 : ℕ) : Except PyErr IPoly :=
  mergeLoop (momentYYTerm l1 l2)
    ((List.range (l2 + 1)).flatMap fun i => (List.range (l1 + 1)).map fun j => (i, j)) ⟨kfM, []⟩

/-- `cov_yy(l1, l2)`, mdl_1fsvj/cov.py lines 45-57. -/
def covYY (l1 l2 : ℕ) : Except PyErr IPoly := do
  let a ← momentYY l1 l2
  let b ← momentY l1
  let c ← momentY l2
  let bc ← b.mul c
  let r ← a.sub bc
  pure r.removeZero

/-- `cov(l1, l2, par)`, mdl_1fsvj/cov.py lines 64-75. -/
noncomputable def cov (l1 l2 : ℕ) (par : Par) : Except PyErr ℝ := do
  let c ← covYY l1 l2
  pure (poly2num c par)

/-- `dcov(l1, l2, par, wrt)`, mdl_1fsvj/cov.py lines 78-91. -/
noncomputable def dcov (l1 l2 : ℕ) (par : Par) (wrt : String) : Except PyErr ℝ := do
  let c ← covYY l1 l2
  let d ← dpoly c wrt
  pure (poly2num d par)

end Ajd.Fsv1j
