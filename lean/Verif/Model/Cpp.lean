import Verif.Model.Utils

/-! Model of `/repo/src/ajdmom/cpp_mom.py`. -/

namespace Ajd.Cpp
open Utils

/-- the terms added for one entry by `dmgf`, cpp_mom.py lines 142-149. -/
def dmgfTerms (e : List ℤ × ℚ) : List (List ℤ × ℚ) :=
  ([ix e.1 0 + 1, ix e.1 1], e.2) ::
    (if ix e.1 0 > 0 then [([ix e.1 0 - 1, ix e.1 1 + 1], e.2 * (ix e.1 0 : ℚ))] else [])

/-- `dmgf(poly)`, cpp_mom.py lines 133-150. -/
def dmgf (poly : IPoly) : IPoly :=
  Poly.ofTerms ["mu", "sigma^2"] (poly.items.flatMap dmgfTerms)

/-- `mnorm(n)` for `n >= 0`, cpp_mom.py lines 163-184. -/
def mnormNat : ℕ → IPoly
  | 0 => ⟨["mu", "sigma^2"], [([0, 0], 1)]⟩
  | 1 => ⟨["mu", "sigma^2"], [([1, 0], 1)]⟩
  | n + 2 => dmgf (mnormNat (n + 1))

/-- `mnorm(n)`, cpp_mom.py lines 153-184. -/
def mnorm (n : ℤ) : Except PyErr IPoly :=
  if n < 0 then .error .valueError else .ok (mnormNat n.toNat)

/-- A key `(i, (n1, m1), ..., (nl, ml))`. -/
abbrev Key := ℤ × List (ℤ × ℤ)

/-- `d1_times_key(key)`, cpp_mom.py lines 191-207. -/
def d1TimesKey (key : Key) : Except PyErr Key :=
  match key.2 with
  | [] => .error .indexError
  | (n1, m1) :: t =>
    if n1 = 1 then .ok (key.1 + 1, (1, m1 + 1) :: t) else .ok (key.1 + 1, (1, 1) :: (n1, m1) :: t)

/-- the new key computed in one iteration of `dterm`, cpp_mom.py lines 223-237; `j` counts the pairs
from 0 (Python's `j - 1`). -/
def dtermKey (ps : List (ℤ × ℤ)) (j : ℕ) (nj mj : ℤ) : List (ℤ × ℤ) :=
  let knw := ps.set j (nj, mj - 1)
  let knw := if j + 1 < ps.length then
      match ps[j + 1]? with
      | some (nn, mn) => if nn = nj + 1 then knw.set (j + 1) (nn, mn + 1)
        else knw.insertIdx (j + 1) (nj + 1, 1)
      | none => knw
    else knw ++ [(nj + 1, 1)]
  match knw[j]? with
  | some (_, m) => if m = 0 then knw.eraseIdx j else knw
  | none => knw

/-- `dterm(key, coef)`, cpp_mom.py lines 210-239. -/
def dterm (key : Key) (coef : ℚ) : Poly Key :=
  Poly.ofTerms [] ((List.range key.2.length).map fun j =>
    let p := key.2.getD j (0, 0)
    ((key.1, dtermKey key.2 j p.1 p.2), coef * (p.2 : ℚ)))

/-- the second loop of `dmgf_cpp`, cpp_mom.py lines 256-258. -/
def mergeTerms (acc : Poly Key) : List (Key × ℚ) → Except PyErr (Poly Key)
  | [] => .ok acc
  | e :: t => do let a ← acc.merge (dterm e.1 e.2); mergeTerms a t

/-- `dmgf_cpp(poly)`, cpp_mom.py lines 242-259. -/
def dmgfCpp (poly : Poly Key) : Except PyErr (Poly Key) := do
  let terms ← poly.items.mapM fun e => do let k ← d1TimesKey e.1; pure (k, e.2)
  mergeTerms (Poly.ofTerms [] terms) poly.items

/-- the inner loop of `decode`, cpp_mom.py lines 278-280. -/
def decodeLoop (acc : IPoly) : List (ℤ × ℤ) → Except PyErr IPoly
  | [] => .ok acc
  | (nj, mj) :: t => do
    let m ← mnorm nj
    let pw ← m.pow mj
    let a ← acc.mul pw
    decodeLoop a t

/-- the terms contributed by one entry in `decode`, cpp_mom.py lines 273-285. -/
def decodeTerms (e : Key × ℚ) : Except PyErr (List (List ℤ × ℚ)) := do
  let pol1 ← decodeLoop ⟨["mu", "sigma^2"], [([0, 0], 1)]⟩ e.1.2
  .ok (pol1.items.map fun t => ([e.1.1, ix t.1 0, ix t.1 1], e.2 * t.2))

/-- `decode(poly)`, cpp_mom.py lines 262-287. -/
def decode (poly : Poly Key) : Except PyErr IPoly := do
  let terms ← poly.items.mapM decodeTerms
  .ok (Poly.ofTerms ["lambda*h", "mu", "sigma^2"] terms.flatten).removeZero

/-- the list `M` of `mcpp_original`, cpp_mom.py lines 301-321: the `(n+1)`-th derivative. -/
def cppDeriv : ℕ → Except PyErr (Poly Key)
  | 0 => .ok ⟨["(lambda h)^{i} M^{(n_1)m_1}(s) ... M^{(n_l)m_l}(s)"], [((1, [(1, 1)]), 1)]⟩
  | n + 1 => do let p ← cppDeriv n; dmgfCpp p

/-- `mcpp_original(n)`, cpp_mom.py lines 290-322. -/
def mcppOriginal (n : ℤ) : Except PyErr IPoly :=
  if n < 0 then .error .valueError
  else if n = 0 then .ok ⟨["lambda*h", "mu", "sigma^2"], [([0, 0, 0], 1)]⟩
  else if n = 1 then .ok ⟨["lambda*h", "mu", "sigma^2"], [([1, 1, 0], 1)]⟩
  else do let p ← cppDeriv (n - 1).toNat; decode p

/-- `mcpp(n)`, cpp_mom.py lines 325-339. -/
def mcpp (n : ℤ) : Except PyErr IPoly := do
  let poly ← mcppOriginal n
  .ok (Poly.ofTerms ["lambda*h", "mu", "sigma"]
    (poly.items.map fun e => ([ix e.1 0, ix e.1 1, 2 * ix e.1 2], e.2)))

/-- the terms added for `i` in `cmcpp`, cpp_mom.py lines 354-360. -/
def cmcppTerms (n i : ℕ) : Except PyErr (List (List ℤ × ℚ)) := do
  let poln ← mcpp i
  .ok (poln.items.map fun e =>
    ([ix e.1 0 + n - i, ix e.1 1 + n - i, ix e.1 2], e.2 * ((n.choose i : ℚ) * (-1) ^ (n - i))))

/-- `cmcpp(n)`, cpp_mom.py lines 342-362. -/
def cmcpp (n : ℤ) : Except PyErr IPoly :=
  if n < 0 then .error .valueError
  else do
    let terms ← (List.range (n.toNat + 1)).mapM (cmcppTerms n.toNat)
    .ok (Poly.ofTerms ["lambda*h", "mu", "sigma"] terms.flatten).removeZero

end Ajd.Cpp
