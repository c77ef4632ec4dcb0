import Verif.Model.Cpp
import Verif.Model.Loop
import Mathlib.Analysis.SpecialFunctions.Exp

/-! Model of `/repo/src/ajdmom/mdl_srjd/iez_mom.py` and `iez_cmom.py`. -/

namespace Ajd.Srjd
open Utils

/-- keyfor, mdl_srjd/iez_mom.py lines 12 and 38. -/
def kfEJ : List String := ["e^{kt}", "e^{ks}", "t-s", "k^{-}", "mu_v"]

/-- keyfor, mdl_srjd/iez_mom.py line 50. -/
def kfIEZ : List String := ["e^{kt}", "e^{ks}", "k^{-}", "lmbd", "mu_v"]

/-- `moment_EJ(n)`, mdl_srjd/iez_mom.py lines 10-29. -/
def momentEJ (n : ℤ) : Except PyErr IPoly :=
  if n < 0 then .error .valueError
  else if n = 0 then .ok (Poly.ofTerms kfEJ [([0, 0, 0, 0, 0], 1)])
  else .ok (Poly.ofTerms kfEJ [([n, 0, -1, 1, n], ((n - 1).toNat.factorial : ℚ)),
    ([0, n, -1, 1, n], -((n - 1).toNat.factorial : ℚ))])

/-- the inner loop of `decode`, mdl_srjd/iez_mom.py lines 39-41. -/
def decodeLoop (acc : IPoly) : List (ℤ × ℤ) → Except PyErr IPoly
  | [] => .ok acc
  | (nj, mj) :: t => do
    let m ← momentEJ nj
    let pw ← m.pow mj
    let a ← acc.mul pw
    decodeLoop a t

/-- the terms contributed by one entry in `decode`, mdl_srjd/iez_mom.py lines 35-46. -/
def decodeTerms (e : Cpp.Key × ℚ) : Except PyErr (List (List ℤ × ℚ)) := do
  let pol1 ← decodeLoop ⟨kfEJ, [([0, 0, 0, 0, 0], 1)]⟩ e.1.2
  .ok (pol1.items.map fun t =>
    ([ix t.1 0, ix t.1 1, ix t.1 2 + e.1.1, ix t.1 3, e.1.1, ix t.1 4], e.2 * t.2))

/-- the second half of `decode`, mdl_srjd/iez_mom.py lines 49-57. -/
def dropTs (poln : IPoly) : Except PyErr IPoly :=
  if poln.items.any fun e => ix e.1 2 != 0 then .error .valueError
  else .ok (Poly.ofTerms kfIEZ (poln.items.map fun e => (e.1.take 2 ++ e.1.drop 3, e.2)))

/-- `decode(poly)`, mdl_srjd/iez_mom.py lines 31-57. -/
def decode (poly : Poly Cpp.Key) : Except PyErr IPoly := do
  let terms ← poly.items.mapM decodeTerms
  dropTs (Poly.ofTerms ["e^{kt}", "e^{ks}", "t-s", "k^{-}", "lmbd", "mu_v"] terms.flatten).removeZero

/-- the list `M` of `moment_IEZ`, mdl_srjd/iez_mom.py lines 69-95, from its second element on. -/
def iezDeriv : ℕ → Except PyErr (Poly Cpp.Key)
  | 0 => .ok ⟨["[lmbd(t-s)]^{i} M^{(n_1)m_1}(s) ... M^{(n_l)m_l}(s)"], [((1, [(1, 1)]), 1)]⟩
  | n + 1 => do let p ← iezDeriv n; Cpp.dmgfCpp p

/-- `moment_IEZ(n)`, mdl_srjd/iez_mom.py lines 59-96. -/
def momentIEZ (n : ℤ) : Except PyErr IPoly :=
  if n < 0 then .error .valueError
  else if n = 0 then .ok ⟨kfIEZ, [([0, 0, 0, 0, 0], 1)]⟩
  else if n = 1 then .ok ⟨kfIEZ, [([1, 0, 1, 1, 1], 1), ([0, 1, 1, 1, 1], -1)]⟩
  else do let p ← iezDeriv (n - 1).toNat; decode p

/-- the parameters `par` of mdl_srjd/iez_mom.py lines 100-101; `s` is `lb` and `t` is `ub`. -/
structure ZPar where
  k : ℝ
  lmbd : ℝ
  mu_v : ℝ
  s : ℝ
  t : ℝ

/-- the body of the loop of `poly2num`, mdl_srjd/iez_mom.py lines 104-105. -/
noncomputable def wZ (par : ZPar) (K : List ℤ) : ℝ :=
  Real.exp (ix K 0 * par.k * par.t) * Real.exp (ix K 1 * par.k * par.s) *
    (par.k ^ (-ix K 2) * par.lmbd ^ ix K 3 * par.mu_v ^ ix K 4)

/-- `poly2num(poly, par)`, mdl_srjd/iez_mom.py lines 98-107, in real numbers and for `k != 0`. -/
noncomputable def poly2num (poly : IPoly) (par : ZPar) : ℝ :=
  poly.items.foldl (fun f e => f + wZ par e.1 * e.2) 0

/-- `m(n, par)`, mdl_srjd/iez_mom.py lines 109-112. -/
noncomputable def mIEZ (n : ℤ) (par : ZPar) : Except PyErr ℝ := do
  let moment ← momentIEZ n
  pure (poly2num moment par)

/-- `p1 if i == 0 else mean ** i`, mdl_srjd/iez_cmom.py line 35. -/
def meanPow (mean : IPoly) (i : ℕ) : Except PyErr IPoly :=
  if i = 0 then .ok ⟨kfIEZ, [([0, 0, 0, 0, 0], 1)]⟩ else mean.pow i

/-- one round of the loop of `cmoment_IEZ`, mdl_srjd/iez_cmom.py lines 33-36. -/
def cmomentTerm (n : ℕ) (mean : IPoly) (i : ℕ) : Except PyErr IPoly := do
  let pol1 ← meanPow mean i
  let mom ← momentIEZ ((n : ℤ) - i)
  let prod ← pol1.mul mom
  pure (Poly.rmul ((-1) ^ i * (n.choose i : ℚ)) prod)

/-- `cmoment_IEZ(n)`, mdl_srjd/iez_cmom.py lines 10-38. -/
def cmomentIEZ (n : ℤ) : Except PyErr IPoly :=
  if n < 0 then .error .valueError
  else if n = 0 then .ok ⟨kfIEZ, [([0, 0, 0, 0, 0], 1)]⟩
  else if n = 1 then .ok ⟨kfIEZ, [([0, 0, 0, 0, 0], 0)]⟩
  else do
    let mean ← momentIEZ 1
    mergeLoop (cmomentTerm n.toNat mean) (List.range (n.toNat + 1)) ⟨kfIEZ, []⟩

/-- `cm(n, par)`, mdl_srjd/iez_cmom.py lines 41-44: line 43 calls `poly2num`, which takes two arguments,
with one. -/
noncomputable def cmIEZ (n : ℤ) (_par : ZPar) : Except PyErr ℝ := do
  let _ ← cmomentIEZ n
  .error .typeError

end Ajd.Srjd
