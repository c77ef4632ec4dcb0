import Verif.Model.Table
import Mathlib.Data.Nat.Choose.Basic
import Mathlib.Analysis.SpecialFunctions.Exp

/-! Model of `/repo/src/ajdmom/utils.py`. -/

namespace Ajd.Utils

/-- `math.comb(n, k)`: `ValueError` on a negative argument. -/
def pyComb (n k : ℤ) : Except PyErr ℕ :=
  if n < 0 ∨ k < 0 then .error .valueError else .ok (n.toNat.choose k.toNat)

/-- the loop of `comb`, utils.py lines 18-22: state `(f, n)`. -/
def combLoop (f n : ℤ) : List ℤ → Except PyErr ℤ
  | [] => .ok f
  | k :: ks => do let c ← pyComb n k; combLoop (f * c) (n - k) ks

/-- `comb(n, ns)`, utils.py lines 10-22. -/
def comb (n : ℤ) (ns : List ℤ) : Except PyErr ℤ := combLoop 1 n ns

/-- state of the odometer loops: the stack (bottom first), `nextstep == "forward"`, and what has
been accumulated. -/
structure Odo (A : Type) where
  stack : List ℕ
  fwd : Bool
  acc : A

/-- One iteration of the `while` loop shared by `multilevel_index` (utils.py lines 38-62) and `fZ`
(lines 213-248); `emit` is what is done with each innermost index. `Sum.inr` is a `break`. -/
def odoStep {A : Type} (n m : ℕ) (emit : A → List ℕ → Except PyErr A) (s : Odo A) :
    Except PyErr (Odo A ⊕ A) :=
  if s.fwd then
    if s.stack.length + 1 < n then .ok (.inl ⟨s.stack ++ [0], true, s.acc⟩)
    else do
      let acc ← ((List.range m).map fun i => s.stack ++ [i]).foldlM emit s.acc
      if (s.stack.take (n - 1)).all fun x => x + 1 == m then .ok (.inr acc)
      else .ok (.inl ⟨s.stack, false, acc⟩)
  else
    match s.stack.getLast? with
    | none => .error .indexError
    | some i =>
      if i + 1 = m then .ok (.inl ⟨s.stack.dropLast, false, s.acc⟩)
      else .ok (.inl ⟨s.stack.dropLast ++ [i + 1], true, s.acc⟩)

/-- `while len(stack) < n: ...` with fuel; `none` means the fuel ran out. -/
def odoRun {A : Type} (n m : ℕ) (emit : A → List ℕ → Except PyErr A) :
    ℕ → Odo A → Option (Except PyErr A)
  | 0, _ => none
  | f + 1, s =>
    if s.stack.length < n then
      match odoStep n m emit s with
      | .error e => some (.error e)
      | .ok (.inr a) => some (.ok a)
      | .ok (.inl s') => odoRun n m emit f s'
    else some (.ok s.acc)

/-- `multilevel_index(n, m)`, utils.py lines 25-63, for `n, m >= 0`; `show` only prints. -/
def multilevelIndex (fuel n m : ℕ) : Option (Except PyErr (List (List ℕ))) :=
  odoRun n m (fun a l => .ok (a ++ [l])) fuel ⟨[], true, []⟩

/-- One iteration of the `while` loop of `multilevel_comb`, utils.py lines 84-110; `emit` is what is done
with each innermost index (the same loop is in mdl_svcj/cond2_mom.py lines 117-145 and cond2_cmom.py
lines 56-88). -/
def combStep {A : Type} (n m : ℕ) (emit : A → List ℕ → Except PyErr A) (s : Odo A) :
    Except PyErr (Odo A ⊕ A) :=
  if s.fwd then
    if s.stack.length + 2 < n then .ok (.inl ⟨s.stack ++ [0], true, s.acc⟩)
    else
      let left : ℤ := (m : ℤ) - s.stack.sum
      match ((List.range (left + 1).toNat).map fun i : ℕ =>
        s.stack ++ [i, (left - i).toNat]).foldlM emit s.acc with
      | .error e => .error e
      | .ok acc =>
        match s.stack.head? with
        | none => .error .indexError
        | some a => if a = m then .ok (.inr acc) else .ok (.inl ⟨s.stack, false, acc⟩)
  else
    let left : ℤ := (m : ℤ) - s.stack.sum
    match s.stack.getLast? with
    | none => .error .indexError
    | some i =>
      if left = 0 then .ok (.inl ⟨s.stack.dropLast, false, s.acc⟩)
      else .ok (.inl ⟨s.stack.dropLast ++ [i + 1], true, s.acc⟩)

/-- the `while` loop of `multilevel_comb` with fuel. -/
def combRun {A : Type} (n m : ℕ) (emit : A → List ℕ → Except PyErr A) :
    ℕ → Odo A → Option (Except PyErr A)
  | 0, _ => none
  | f + 1, s =>
    if s.stack.length < n then
      match combStep n m emit s with
      | .error e => some (.error e)
      | .ok (.inr a) => some (.ok a)
      | .ok (.inl s') => combRun n m emit f s'
    else some (.ok s.acc)

/-- `multilevel_comb(n, m)`, utils.py lines 66-111, for `n, m >= 0`. `Sum.inl` is the bare integer
`m` returned for `n = 1` (line 76). -/
def multilevelComb (fuel n m : ℕ) : Option (Except PyErr (ℕ ⊕ List (List ℕ))) :=
  if n = 1 then some (.ok (.inl m))
  else if n = 2 then some (.ok (.inr ((List.range (m + 1)).map fun i => [i, m - i])))
  else (combRun n m (fun a l => .ok (a ++ [l])) fuel ⟨[], true, []⟩).map fun r => r.map Sum.inr

/-- the loop `while n > 2: n -= 2; f *= n` of `dbfactorial`, utils.py lines 129-131. -/
def dbLoop (f n : ℕ) : ℕ :=
  if 2 < n then dbLoop (f * (n - 2)) (n - 2) else f
termination_by n

/-- `dbfactorial(n)`, utils.py lines 115-132, for `n >= 0`. -/
def dbfactorial (n : ℕ) : ℕ :=
  if n = 0 ∨ n = 1 then 1 else if n = 2 then 2 else dbLoop n n

/-- `cmnorm(n)`, utils.py lines 135-155, for `n >= 0`. -/
def cmnorm (n : ℕ) : IPoly :=
  if n = 0 then ⟨["sigma"], [([0], 1)]⟩
  else if n % 2 ≠ 0 then Poly.addKeyval ⟨["sigma"], []⟩ [0] 0
  else Poly.addKeyval ⟨["sigma"], []⟩ [(n : ℤ)] (dbfactorial (n - 1))

/-- `x[i]` on a Python tuple, for `i >= 0`. -/
def pyGet {α : Type} (x : List α) (i : ℕ) : Except PyErr α :=
  match x[i]? with
  | some a => .ok a
  | none => .error .indexError

/-- one iteration of the inner loop of `fZ`, utils.py lines 230-236 (the same as
`fZ_each_index`, lines 176-182): state `(f, s_max)`. Floats are real numbers; `x ** o` is `zpow`
(Python raises `ZeroDivisionError` for `0 ** negative`, not modelled). -/
noncomputable def fZInner (l o p q : List ℤ) (k : ℝ) (s J : List ℝ) (index : List ℕ)
    (st : ℝ × ℝ) (i : ℕ) : Except PyErr (ℝ × ℝ) := do
  let j ← pyGet index i
  let sj ← pyGet s j
  let li ← pyGet l i
  let Jj ← pyGet J j
  let oi ← pyGet o i
  let f := st.1 * (Real.exp (li * k * sj) * Jj * sj ^ oi)
  if 0 < i then do
    let smax := if st.2 > sj then st.2 else sj
    let pi ← pyGet p (i - 1)
    let qi ← pyGet q (i - 1)
    .ok (f * (Real.exp (pi * k * smax) * smax ^ qi), smax)
  else .ok (f, st.2)

/-- `fZ_each_index(l, o, p, q, k, s, J, index)`, utils.py lines 159-183. -/
noncomputable def fZEachIndex (l o p q : List ℤ) (k : ℝ) (s J : List ℝ) (index : List ℕ) :
    Except PyErr ℝ := do
  let i0 ← pyGet index 0
  let s0 ← pyGet s i0
  let r ← (List.range index.length).foldlM (fZInner l o p q k s J index) ((1, s0) : ℝ × ℝ)
  .ok r.1

/-- `fZ(l, o, p, q, k, s, J)`, utils.py lines 186-249. -/
noncomputable def fZ (fuel : ℕ) (l o p q : List ℤ) (k : ℝ) (s J : List ℝ) :
    Option (Except PyErr ℝ) :=
  if l.length = 0 then some (.ok 1)
  else if J.length = 0 then some (.ok 0)
  else odoRun l.length J.length
    (fun val index => do let f ← fZEachIndex l o p q k s J index; .ok (val + f)) fuel ⟨[], true, 0⟩

/-- the terms added for one entry of `simplify_rho`, utils.py lines 267-280. `n` is a position
`>= 1`, as the docstring requires ('sqrt(1-rho^2)' follows 'rho'); for `n = 0` Python would wrap
to `key[-1]`. -/
def rhoTerms (n : ℕ) (e : List ℤ × ℚ) : Except PyErr (List (List ℤ × ℚ)) := do
  let kn ← pyGet e.1 n
  let key := e.1.take n ++ e.1.drop (n + 1)
  if kn = 0 then .ok [(key, e.2)]
  else if kn % 2 = 0 then
    let p := kn / 2
    .ok ((List.range (p + 1).toNat).map fun i : ℕ =>
      (key.modify (n - 1) (· + 2 * (i : ℤ)), e.2 * (p.toNat.choose i : ℚ) * (-1) ^ i))
  else .error .exception

/-- `simplify_rho(poly, n)`, utils.py lines 252-282. -/
def simplifyRho (poly : IPoly) (n : ℕ) : Except PyErr IPoly := do
  let terms ← poly.items.mapM (rhoTerms n)
  .ok (Poly.ofTerms (poly.keyfor.take n ++ poly.keyfor.drop (n + 1)) terms.flatten).removeZero

end Ajd.Utils
