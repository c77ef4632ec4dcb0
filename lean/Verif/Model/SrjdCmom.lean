import Verif.Model.SrjdCond
import Verif.Model.Utils

/-! Model of `/repo/src/ajdmom/mdl_srjd/cmom.py` and `mom.py`. -/

namespace Ajd.Srjd

/-- keyfor, cmom.py line 23. -/
def kfC : List String := ["e^{kt}", "k^{-}", "v0-E[v]", "E[v]", "sigma", "lmbd", "mu_v"]

/-- keyfor, cmom.py lines 79 and 97. -/
def kfL : List String := ["e^{kt}", "k^{-}", "E[v]", "sigma", "lmbd", "mu_v"]

/-- keyfor, cmom.py lines 114 and 178. -/
def kfS : List String := ["k^{-}", "E[v]", "sigma", "lmbd", "mu_v"]

variable (d : ℕ)

/-- the entries added in one round of the loops of `cond_cmoment_v`, cmom.py lines 37-46; `d` bounds the
depth of the recursion in `cmoment_ie_iez`. -/
def condTerms (n : ℤ) (ij : ℤ × ℤ) : Except PyErr (List (List ℤ × ℚ)) := do
  let poln ← momentJoint centralCfg d ij.1 ij.2
  pure (poln.items.map fun e =>
    ([ix e.1 0 - n, ix e.1 1, ix e.1 2 + (n - ij.1 - ij.2), ix e.1 3, ix e.1 4 + ij.1, ix e.1 5, ix e.1 6],
      e.2 * (combZ n ij.1 * combZ (n - ij.1) ij.2)))

/-- `cond_cmoment_v(n)`, cmom.py lines 12-47. -/
def condCmomentV (n : ℤ) : Except PyErr IPoly :=
  if n = 0 then .ok ⟨kfC, [([0, 0, 0, 0, 0, 0, 0], 1)]⟩
  else if n = 1 then .ok (Poly.addKeyval ⟨kfC, []⟩ [-1, 0, 1, 0, 0, 0, 0] 1)
  else addLoop kfC (condTerms d n) (idx2 n)

/-- `find_same_order(poly, n)`, cmom.py lines 49-69; `and` only looks the key up when the count is 1. -/
def findSameOrder (poly : IPoly) (n : ℤ) : Except PyErr Bool :=
  if (poly.items.filter fun e => decide (ix e.1 2 = n)).length = 1 then do
    let v ← lookup poly.items [-n, 0, n, 0, 0, 0, 0]
    if v = 1 then pure true else .error .exception
  else .error .exception

/-- `key_times_poly(coef, k, poly)`, cmom.py lines 71-90. -/
def keyTimesC (coef : ℚ) (k : List ℤ) (poly : IPoly) : IPoly :=
  Poly.ofTerms kfL (poly.items.map fun e =>
    ([ix k 0, ix k 1 + ix e.1 0, ix k 3 + ix e.1 1, ix k 4 + ix e.1 2, ix k 5 + ix e.1 3,
      ix k 6 + ix e.1 4], coef * e.2))

/-- one round of the loop of `last_expectation`, cmom.py lines 101-108. -/
def lastStep (cm : List IPoly) (poln : IPoly) (e : List ℤ × ℚ) : Except PyErr IPoly :=
  if ix e.1 2 = 0 then .ok (poln.addKeyval (e.1.take 2 ++ e.1.drop 3) e.2)
  else if 1 < ix e.1 2 then do
    let q ← Utils.pyGet cm (ix e.1 2).toNat
    poln.merge (keyTimesC e.2 e.1 q)
  else .ok poln

/-- `last_expectation(poly, uncond_cm)`, cmom.py lines 92-109. -/
def lastExpectation (poly : IPoly) (cm : List IPoly) : Except PyErr IPoly :=
  poly.items.foldlM (lastStep cm) ⟨kfL, []⟩

/-- one round of the first loop of `divide`, cmom.py lines 121-129. -/
def divStep (n : ℤ) (S : IPoly × IPoly) (e : List ℤ × ℚ) : Except PyErr (IPoly × IPoly) :=
  if e.2 = 0 then .ok S
  else if ix e.1 0 = 0 then .ok (S.1.addKeyval e.1.tail e.2, S.2)
  else if ix e.1 0 = -n then .ok (S.1, S.2.addKeyval e.1.tail e.2)
  else .error .valueError

/-- `for k in p: if p[k] != -q[k]: raise ValueError`, cmom.py lines 134-136 and 138-140. -/
def checkNeg (p q : IPoly) : Except PyErr Unit :=
  p.items.foldlM (fun (_ : Unit) (e : List ℤ × ℚ) => do
    let a ← lookup p.items e.1
    let b ← lookup q.items e.1
    if a ≠ -b then .error .valueError else pure ()) ()

/-- `divide(n, poly)`, cmom.py lines 111-142. -/
def divide (n : ℤ) (poly : IPoly) : Except PyErr IPoly := do
  let S ← poly.items.foldlM (divStep n) (⟨kfS, []⟩, ⟨kfS, []⟩)
  if S.1.items.length ≠ S.2.items.length then .error .valueError
  else do
    checkNeg S.1 S.2
    checkNeg S.2 S.1
    pure S.1

/-- `solve_polynomial(n, uncond_cm)`, cmom.py lines 144-165. -/
def solvePolynomial (n : ℤ) (cm : List IPoly) : Except PyErr IPoly := do
  let cond ← condCmomentV d n
  let found ← findSameOrder cond n
  if found then do
    let items ← delKey cond.items [-n, 0, n, 0, 0, 0, 0]
    let left ← lastExpectation ⟨cond.keyfor, items⟩ cm
    divide n left
  else .error .exception

/-- `cmoment_v(n)`, cmom.py lines 167-195. -/
def ucmomentV (n : ℤ) : Except PyErr IPoly :=
  if n < 0 then .error .valueError
  else
    let cm : List IPoly := [⟨kfS, [([0, 0, 0, 0, 0], 1)]⟩, ⟨kfS, [([0, 0, 0, 0, 0], 0)]⟩]
    if n < 2 then Utils.pyGet cm n.toNat
    else do
      let cm ← (pyRange 2 n).foldlM (fun (cm : List IPoly) (i : ℤ) => do
        let poly ← solvePolynomial d i cm
        pure (cm ++ [poly])) cm
      solvePolynomial d n cm

/-- the entries added in one round of the loop of `expand`, mom.py lines 26-35. -/
def expandTerms (e : List ℤ × ℚ) : List (List ℤ × ℚ) :=
  if ix e.1 1 = 0 then [e]
  else (pyRange 0 (ix e.1 1 + 1)).map fun i =>
    ([ix e.1 0 + i, ix e.1 1 - i, ix e.1 2, ix e.1 3 + i, ix e.1 4 + i], combZ (ix e.1 1) i * e.2)

/-- `expand(poly)`, mom.py lines 13-36. -/
def expandE (poly : IPoly) : IPoly :=
  Poly.ofTerms ["k^{-}", "theta", "sigma", "lmbd", "mu_v"] (poly.items.flatMap expandTerms)

/-- the entries added in one round of the loop of `moment_v`, mom.py lines 64-71. -/
def umomentTerms (n i : ℤ) : Except PyErr (List (List ℤ × ℚ)) := do
  let poln ← ucmomentV d i
  pure (poln.items.map fun e =>
    ([ix e.1 0, ix e.1 1 + (n - i), ix e.1 2, ix e.1 3, ix e.1 4], combZ n i * e.2))

/-- the polynomial before the optional `expand`, mom.py lines 55-71. -/
def umomentE (n : ℤ) : Except PyErr IPoly :=
  if n = 0 then .ok (Poly.addKeyval ⟨kfS, []⟩ [0, 0, 0, 0, 0] 1)
  else if n = 1 then .ok (Poly.addKeyval ⟨kfS, []⟩ [0, 1, 0, 0, 0] 1)
  else addLoop kfS (umomentTerms d n) (pyRange 0 (n + 1))

/-- `moment_v(n, simplify)`, mom.py lines 38-72. -/
def umomentV (n : ℤ) (simplify : Bool) : Except PyErr IPoly :=
  if n < 0 then .error .valueError
  else do
    let poly ← umomentE d n
    pure (if simplify then expandE poly else poly)

end Ajd.Srjd
