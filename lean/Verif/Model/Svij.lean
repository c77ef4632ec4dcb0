import Verif.Model.Svvj
import Verif.Model.Cpp

/-! Model of `/repo/src/ajdmom/mdl_svij/cond2_cmom.py` and `cond2_mom.py`: moments of the return given
the initial variance and the jumps of the variance, with further, independent jumps of the price.
Floats are real numbers. -/

namespace Ajd.Svij
open Ito Utils ItoCond Cpp

/-- `kf = ... + ('lmbd_s', 'mu_s', 'sigma_s')`, mdl_svij/cond2_cmom.py line 28, cond2_mom.py line 28. -/
def kfJ (kf : List String) : List String := kf ++ ["lmbd_s", "mu_s", "sigma_s"]

/-- the key of a product, mdl_svij/cond2_cmom.py line 53, cond2_mom.py line 47. -/
def convKey (k1 : JKey) (k2 : List ℤ) : JKey :=
  ⟨ix k1.b 0 :: (ix k1.b 1 + ix k2 0) :: k1.b.drop 2, k1.z, k1.c ++ k2⟩

/-- the terms added for `n1`, mdl_svij/cond2_cmom.py lines 48-54, cond2_mom.py lines 42-48, where `ms`
are the moments of SVVJ and `cpp` is `cmcpp` or `mcpp`. -/
def convTerms (ms : List JPoly) (cpp : ℤ → Except PyErr IPoly) (n n1 : ℕ) :
    Except PyErr (List (JKey × ℚ)) := do
  let pol1 ← pyGet ms n1
  let pol2 ← cpp ((n : ℤ) - n1)
  pure (pol1.items.flatMap fun e1 => pol2.items.map fun e2 =>
    (convKey e1.1 e2.1, (n.choose n1 : ℚ) * e1.2 * e2.2))

/-- one round of the loop over `n`, mdl_svij/cond2_cmom.py lines 45-55, cond2_mom.py lines 39-49. -/
def convLevel (ms : List JPoly) (cpp : ℤ → Except PyErr IPoly) (kf : List String) (n : ℕ) :
    Except PyErr JPoly := do
  let terms ← (List.range (n + 1)).reverse.mapM (convTerms ms cpp n)
  pure (Poly.ofTerms kf terms.flatten).removeZero

/-- `cmoms_svvj[0].keyfor`, mdl_svij/cond2_cmom.py line 28, cond2_mom.py line 28. -/
def firstKf (ms : List JPoly) : Except PyErr (List String) := do
  let p ← pyGet ms 0
  pure p.keyfor

/-- the key of the constants, mdl_svij/cond2_cmom.py lines 32 and 38. -/
def keyC0 : JKey := ⟨[0, 0, 0, 0, 0, 0], ⟨[], [], [], []⟩, [0, 0, 0, 0, 0, 0]⟩

/-- `cmoments_y_to(l)`, mdl_svij/cond2_cmom.py lines 14-57, with the function called for
`int_e_IEZ_poly` as a parameter. -/
def cmomentsWith (iez : ℚ → ℤ → JPoly → Except PyErr JPoly) (l : ℤ) : Except PyErr (List JPoly) := do
  let cs ← Svvj.cmomentsWith iez l
  let kf ← firstKf cs
  let ms ← ((List.range (l - 1).toNat).map (· + 2)).mapM (convLevel cs cmcpp (kfJ kf))
  pure (⟨kfJ kf, [(keyC0, 1)]⟩ :: ⟨kfJ kf, [(keyC0, 0)]⟩ :: ms)

/-- `cmoments_y_to(l)`, mdl_svij/cond2_cmom.py lines 14-57. -/
def cmomentsYTo (l : ℤ) : Except PyErr (List JPoly) := cmomentsWith intEIEZ l

/-- `cmoment_y(l)`, mdl_svij/cond2_cmom.py lines 60-62. -/
def cmomentY (l : ℤ) : Except PyErr JPoly := do
  let ms ← cmomentsYTo l
  pyLast ms

/-- the key of the constant 1, mdl_svij/cond2_mom.py line 32. -/
def keyM0 : JKey := ⟨[0, 0, 0, 0, 0, 0, 0, 0], ⟨[], [], [], []⟩, [0, 0, 0, 0, 0, 0]⟩

/-- `moments_y_to(l)`, mdl_svij/cond2_mom.py lines 14-51, with the function called for
`int_e_IEZ_poly` as a parameter. -/
def momentsWith (iez : ℚ → ℤ → JPoly → Except PyErr JPoly) (l : ℤ) : Except PyErr (List JPoly) := do
  let cs ← Svvj.momentsWith iez l
  let kf ← firstKf cs
  let ms ← ((List.range l.toNat).map (· + 1)).mapM (convLevel cs mcpp (kfJ kf))
  pure (⟨kfJ kf, [(keyM0, 1)]⟩ :: ms)

/-- `moments_y_to(l)`, mdl_svij/cond2_mom.py lines 14-51. -/
def momentsYTo (l : ℤ) : Except PyErr (List JPoly) := momentsWith intEIEZ l

/-- `moment_y(l)`, mdl_svij/cond2_mom.py lines 54-56. -/
def momentY (l : ℤ) : Except PyErr JPoly := do
  let ms ← momentsYTo l
  pyLast ms

/-- the entries of `par` used by `poly2num`. -/
structure Par extends Svvj.Par where
  lam : ℝ
  μs : ℝ
  σs : ℝ

/-- the factors of the jumps of the price, mdl_svij/cond2_cmom.py line 105, cond2_mom.py line 105. -/
noncomputable def wJ (par : Par) (K : JKey) : ℝ :=
  par.lam ^ ix K.c 3 * par.μs ^ ix K.c 4 * par.σs ^ ix K.c 5

/-- `poly2num(poly, par)`, mdl_svij/cond2_cmom.py lines 68-108: the lines 95-103 are those of
mdl_svvj/cond2_cmom.py. -/
noncomputable def poly2numC (fuel : ℕ) (poly : JPoly) (par : Par) : Option (Except PyErr ℝ) :=
  Svvj.evalLoop fuel par.k par.jumptime par.jumpsize (fun K => Svvj.wC par.toPar K * wJ par K) 0
    poly.items

/-- `cm(l, par)`, mdl_svij/cond2_cmom.py lines 111-122. -/
noncomputable def cm (fuel : ℕ) (l : ℤ) (par : Par) : Option (Except PyErr ℝ) :=
  match cmomentY l with
  | .error e => some (.error e)
  | .ok c => poly2numC fuel c par

/-- `poly2num(poly, par)`, mdl_svij/cond2_mom.py lines 63-108: the lines 92-103 are those of
mdl_svvj/cond2_mom.py. -/
noncomputable def poly2numM (fuel : ℕ) (poly : JPoly) (par : Par) : Option (Except PyErr ℝ) :=
  Svvj.evalLoop fuel par.k par.jumptime par.jumpsize (fun K => Svvj.wM par.toPar K * wJ par K) 0
    poly.items

/-- `m(l, par)`, mdl_svij/cond2_mom.py lines 111-122. -/
noncomputable def m (fuel : ℕ) (l : ℤ) (par : Par) : Option (Except PyErr ℝ) :=
  match momentY l with
  | .error e => some (.error e)
  | .ok c => poly2numM fuel c par

end Ajd.Svij
