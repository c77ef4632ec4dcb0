import Verif.Model.Table
import Verif.Model.Loop

/-! Model of `/repo/src/ajdmom/itos_mom.py`.

The two tests in which the code departs from its documentation are parameters (`Cfg`), so that the
program as written (`code`) and the program with both tests repaired (`fixed`) are instances of one
definition. -/

namespace Ajd.Itos

/-- the two tests: `all` whether `recursive_IEI_IEII` adds the terms of every applicable case or, as in
an `if`/`elif` chain, those of the first one; `zero n1 n2` when `int_et` takes `n1*k1 + n2*k2` to be 0;
every version does so for `n1 = n2 = 0` -/
structure Cfg where
  all : Bool
  zero : ℤ → ℤ → Bool
  zero0 : zero 0 0 = true

/-- the code: `elif`, and `n1 + n2 == 0` -/
def code : Cfg := ⟨false, fun n1 n2 => n1 + n2 == 0, rfl⟩

/-- both tests as documented -/
def fixed : Cfg := ⟨true, fun n1 n2 => n1 == 0 && n2 == 0, rfl⟩

/-- `(n1, n2, i)` for `(n1*k1 + n2*k2)^{-i}` -/
abbrev Den := ℤ × ℤ × ℤ

/-- key of `int_et` -/
structure EKey where
  d : Den
  e : ℤ × ℤ
  p : ℤ
deriving DecidableEq

/-- key of a moment: `d` is `key[0]`, `a` is `key[1]`, `e` is `key[2]`, `c` is `key[3:10]` -/
structure DKey where
  d : List Den
  a : ℤ × ℤ
  e : ℤ × ℤ
  c : List ℤ
deriving DecidableEq

abbrev DPoly := Poly DKey

/-- `c(n1, n2, m, i)`, itos_mom.py lines 265-281, for `0 <= i <= m`. -/
def cC (n1 n2 : ℤ) (m i : ℕ) : Den × ℚ :=
  ((n1, n2, (i : ℤ) + 1), (-1) ^ i * ((List.range i).map fun j => ((m - i + 1 + j : ℕ) : ℚ)).prod)

/-- keyfor of `int_et`, itos_mom.py line 299. -/
def kfEt : List String := ["(n1*k1+n2*k2)^{-}", "e^{(n1*k1+n2*k2)[t-(n-1)h]}", "[t-(n-1)h]"]

/-- the entries added in one round of the loop of `int_et`, itos_mom.py lines 322-327. -/
def etTerms (n1 n2 : ℤ) (m i : ℕ) : List (EKey × ℚ) :=
  let c := cC n1 n2 m i
  (⟨c.1, (n1, n2), (m : ℤ) - i⟩, c.2) :: (if i = m then [(⟨c.1, (0, 0), 0⟩, -c.2)] else [])

/-- `int_et(n1, n2, m)` for `m >= 0`, itos_mom.py lines 298-328. -/
def intEtNat (g : Cfg) (n1 n2 : ℤ) (m : ℕ) : Poly EKey :=
  if g.zero n1 n2 ∧ m = 0 then Poly.ofTerms kfEt [(⟨(0, 0, 0), (0, 0), 1⟩, 1)]
  else if g.zero n1 n2 then Poly.ofTerms kfEt [(⟨(0, 0, 0), (0, 0), (m : ℤ) + 1⟩, 1 / ((m : ℚ) + 1))]
  else if m = 0 then
    Poly.ofTerms kfEt [(⟨(n1, n2, 1), (n1, n2), 0⟩, 1), (⟨(n1, n2, 1), (0, 0), 0⟩, -1)]
  else Poly.ofTerms kfEt ((⟨(n1, n2, 1), (n1, n2), m⟩, 1) ::
    ((List.range m).map fun j : ℕ => j + 1).flatMap (etTerms n1 n2 m))

/-- `int_et(n1, n2, m)`, itos_mom.py lines 284-328. -/
def intEt (g : Cfg) (n1 n2 m : ℤ) : Except PyErr (Poly EKey) :=
  if m < 0 then .error .valueError else .ok (intEtNat g n1 n2 m.toNat)

/-- the loop of `t_mul_t0`: the list with the exponent of the first matching denominator increased, if
there is one; itos_mom.py lines 345-349. -/
def bump (t : Den) : List Den → Option (List Den)
  | [] => none
  | s :: l => if t.1 = s.1 ∧ t.2.1 = s.2.1 then some ((t.1, t.2.1, t.2.2 + s.2.2) :: l)
    else (bump t l).map (s :: ·)

/-- `t_mul_t0(t, t0)`, itos_mom.py lines 331-355; `l0[0]` fails when `t0` is empty. -/
def tMulT0 (t : Den) (t0 : List Den) : Except PyErr (List Den) :=
  if t.2.2 = 0 then .ok t0
  else match bump t t0 with
    | some l => .ok l
    | none => match t0 with
      | [] => .error .indexError
      | s :: l => if s.2.2 ≠ 0 then .ok (t :: s :: l) else .ok (t :: l)

/-- keyfor of the moments, itos_mom.py lines 379-381. -/
def kf : List String := ["(n_1m*k1+n_2m*k2)^{-i_m},...,(n_11*k1+n_21*k2)^{-i_1}",
  "e^{(m_4*k1+m_6*k2)(n-1)h}", "e^{(j_1*k1+j_2*k2)[t-(n-1)h]}", "[t-(n-1)h]",
  "v_{1,n-1}", "theta1", "sigma_v1", "v_{2,n-1}", "theta2", "sigma_v2"]

/-- a pair with `m` added to the component of factor `i`, itos_mom.py lines 385-391 and 398-401. -/
def shift (i : ℕ) (m : ℤ) (p : ℤ × ℤ) : ℤ × ℤ := if i = 1 then (p.1 + m, p.2) else (p.1, p.2 + m)

/-- the entries added for one entry of `b` in `int_mIEI_IEII`, itos_mom.py lines 384-407. -/
def intMTerms (g : Cfg) (i : ℕ) (m : ℤ) (e : DKey × ℚ) : Except PyErr (List (DKey × ℚ)) := do
  let n := shift i m e.1.e
  let c ← intEt g n.1 n.2 (ix e.1.c 0)
  c.items.mapM fun k2 => do
    let t0 ← tMulT0 k2.1.d e.1.d
    pure (⟨t0, shift i m e.1.a, k2.1.e,
      [k2.1.p, ix e.1.c 1, ix e.1.c 2, ix e.1.c 3, ix e.1.c 4, ix e.1.c 5, ix e.1.c 6]⟩, e.2 * k2.2)

/-- `int_mIEI_IEII(i, m, ..)` on the table entry `b`, itos_mom.py lines 376-408. -/
def intM (g : Cfg) (i : ℕ) (m : ℤ) (b : DPoly) : Except PyErr DPoly := subst kf (intMTerms g i m) b

/-- the power `j` of `key[3:10]` increased by 1 -/
def inc (c : List ℤ) (j : ℕ) : List ℤ :=
  (List.range 7).map fun l : ℕ => if l = j then ix c l + 1 else ix c l

/-- the entry added for one entry in `coef_poly`, itos_mom.py lines 439-486. -/
def coefTerm (coef : ℚ) (tp : ℕ) (e : DKey × ℚ) : DKey × ℚ :=
  if tp = 1 then ({ e.1 with a := shift 1 1 e.1.a, c := inc e.1.c 1 }, coef * e.2)
  else if tp = 2 then ({ e.1 with a := shift 1 1 e.1.a, c := inc e.1.c 2 }, (-coef) * e.2)
  else if tp = 3 then ({ e.1 with c := inc e.1.c 2 }, coef * e.2)
  else if tp = 4 then ({ e.1 with c := inc e.1.c 3 }, coef * e.2)
  else if tp = 5 then ({ e.1 with a := shift 2 1 e.1.a, c := inc e.1.c 4 }, coef * e.2)
  else if tp = 6 then ({ e.1 with a := shift 2 1 e.1.a, c := inc e.1.c 5 }, (-coef) * e.2)
  else if tp = 7 then ({ e.1 with c := inc e.1.c 5 }, coef * e.2)
  else ({ e.1 with c := inc e.1.c 6 }, coef * e.2)

/-- `coef_poly(coef, poly, tp)`, itos_mom.py lines 411-487, for `tp` in 1, ..., 8. -/
def coefPoly (coef : ℚ) (poly : DPoly) (tp : ℕ) : DPoly :=
  Poly.ofTerms kf (poly.items.map (coefTerm coef tp))

abbrev Idx := ℤ × ℤ × ℤ × ℤ × ℤ

/-- one call `poly.merge(coef_poly(c, int_mIEI_IEII(i, m, idx, ..), tp))` -/
structure Call where
  c : ℚ
  i : ℕ
  m : ℤ
  idx : Idx
  tp : ℕ

/-- the cases of `recursive_IEI_IEII` with their calls, in order, itos_mom.py lines 513-560. -/
def cases : Idx → List (Bool × List Call)
  | (n4, n5, n6, n7, n8) =>
  let c4 : ℚ := (n4 * (n4 - 1) : ℤ) / 2
  let c5 : ℚ := (n5 * (n5 - 1) : ℤ) / 2
  let c45 : ℚ := (n4 * n5 : ℤ)
  let c6 : ℚ := (n6 * (n6 - 1) : ℤ) / 2
  let c7 : ℚ := (n7 * (n7 - 1) : ℤ) / 2
  let c67 : ℚ := (n6 * n7 : ℤ)
  let c8 : ℚ := (n8 * (n8 - 1) : ℤ) / 2
  [(n4 ≥ 2 ∧ n5 ≥ 0 ∧ n6 ≥ 0 ∧ n7 ≥ 0 ∧ n8 ≥ 0,
    [⟨c4, 1, 1, (n4 - 2, n5, n6, n7, n8), 1⟩, ⟨c4, 1, 1, (n4 - 2, n5, n6, n7, n8), 2⟩,
     ⟨c4, 1, 2, (n4 - 2, n5, n6, n7, n8), 3⟩, ⟨c4, 1, 1, (n4 - 1, n5, n6, n7, n8), 4⟩]),
   (n4 ≥ 0 ∧ n5 ≥ 2 ∧ n6 ≥ 0 ∧ n7 ≥ 0 ∧ n8 ≥ 0,
    [⟨c5, 1, -1, (n4, n5 - 2, n6, n7, n8), 1⟩, ⟨c5, 1, -1, (n4, n5 - 2, n6, n7, n8), 2⟩,
     ⟨c5, 1, 0, (n4, n5 - 2, n6, n7, n8), 3⟩, ⟨c5, 1, -1, (n4 + 1, n5 - 2, n6, n7, n8), 4⟩]),
   (n4 ≥ 1 ∧ n5 ≥ 1 ∧ n6 ≥ 0 ∧ n7 ≥ 0 ∧ n8 ≥ 0,
    [⟨c45, 1, 0, (n4 - 1, n5 - 1, n6, n7, n8), 1⟩, ⟨c45, 1, 0, (n4 - 1, n5 - 1, n6, n7, n8), 2⟩,
     ⟨c45, 1, 1, (n4 - 1, n5 - 1, n6, n7, n8), 3⟩, ⟨c45, 1, 0, (n4, n5 - 1, n6, n7, n8), 4⟩]),
   (n4 ≥ 0 ∧ n5 ≥ 0 ∧ n6 ≥ 2 ∧ n7 ≥ 0 ∧ n8 ≥ 0,
    [⟨c6, 2, 1, (n4, n5, n6 - 2, n7, n8), 5⟩, ⟨c6, 2, 1, (n4, n5, n6 - 2, n7, n8), 6⟩,
     ⟨c6, 2, 2, (n4, n5, n6 - 2, n7, n8), 7⟩, ⟨c6, 2, 1, (n4, n5, n6 - 1, n7, n8), 8⟩]),
   (n4 ≥ 0 ∧ n5 ≥ 0 ∧ n6 ≥ 0 ∧ n7 ≥ 2 ∧ n8 ≥ 0,
    [⟨c7, 2, -1, (n4, n5, n6, n7 - 2, n8), 5⟩, ⟨c7, 2, -1, (n4, n5, n6, n7 - 2, n8), 6⟩,
     ⟨c7, 2, 0, (n4, n5, n6, n7 - 2, n8), 7⟩, ⟨c7, 2, -1, (n4, n5, n6 + 1, n7 - 2, n8), 8⟩]),
   (n4 ≥ 0 ∧ n5 ≥ 0 ∧ n6 ≥ 1 ∧ n7 ≥ 1 ∧ n8 ≥ 0,
    [⟨c67, 2, 0, (n4, n5, n6 - 1, n7 - 1, n8), 5⟩, ⟨c67, 2, 0, (n4, n5, n6 - 1, n7 - 1, n8), 6⟩,
     ⟨c67, 2, 1, (n4, n5, n6 - 1, n7 - 1, n8), 7⟩, ⟨c67, 2, 0, (n4, n5, n6, n7 - 1, n8), 8⟩]),
   (n4 ≥ 0 ∧ n5 ≥ 0 ∧ n6 ≥ 0 ∧ n7 ≥ 0 ∧ n8 ≥ 2,
    [⟨c8, 1, -1, (n4, n5, n6, n7, n8 - 2), 1⟩, ⟨c8, 1, -1, (n4, n5, n6, n7, n8 - 2), 2⟩,
     ⟨c8, 1, 0, (n4, n5, n6, n7, n8 - 2), 3⟩, ⟨c8, 1, -1, (n4 + 1, n5, n6, n7, n8 - 2), 4⟩,
     ⟨c8, 2, -1, (n4, n5, n6, n7, n8 - 2), 5⟩, ⟨c8, 2, -1, (n4, n5, n6, n7, n8 - 2), 6⟩,
     ⟨c8, 2, 0, (n4, n5, n6, n7, n8 - 2), 7⟩, ⟨c8, 2, -1, (n4, n5, n6 + 1, n7, n8 - 2), 8⟩])]

/-- the calls made: those of the first applicable case, or of all of them -/
def calls (g : Cfg) (i : Idx) : List Call :=
  if g.all then (cases i).flatMap fun b => if b.1 then b.2 else []
  else match (cases i).find? fun b => b.1 with
    | some b => b.2
    | none => []

/-- `recursive_IEI_IEII(n4, n5, n6, n7, n8, IEI_IEII)`, itos_mom.py lines 490-561. -/
def recursive (g : Cfg) (i : Idx) (T : List (Idx × DPoly)) : Except PyErr DPoly :=
  mergeLoop (fun q : Call => do
    let b ← lookup T q.idx
    let p ← intM g q.i q.m b
    pure (coefPoly q.c p q.tp)) (calls g i) ⟨kf, []⟩

/-- itos_mom.py line 597. -/
def P1 : DPoly := ⟨kf, [(⟨[(0, 0, 0)], (0, 0), (0, 0), [0, 0, 0, 0, 0, 0, 0]⟩, 1)]⟩
/-- itos_mom.py line 601. -/
def P0 : DPoly := ⟨kf, []⟩
/-- itos_mom.py lines 610-616. -/
def P20 : DPoly := ⟨kf, [
  (⟨[(2, 0, 1)], (2, 0), (2, 0), [0, 0, 1, 0, 0, 0, 0]⟩, 1),
  (⟨[(1, 0, 1)], (2, 0), (1, 0), [0, 1, 0, 0, 0, 0, 0]⟩, 1),
  (⟨[(1, 0, 1)], (2, 0), (1, 0), [0, 0, 1, 0, 0, 0, 0]⟩, -1),
  (⟨[(1, 0, 1)], (2, 0), (0, 0), [0, 1, 0, 0, 0, 0, 0]⟩, -1),
  (⟨[(2, 0, 1)], (2, 0), (0, 0), [0, 0, 1, 0, 0, 0, 0]⟩, 1)]⟩
/-- itos_mom.py lines 620-625. -/
def P11 : DPoly := ⟨kf, [
  (⟨[(1, 0, 1)], (1, 0), (1, 0), [0, 0, 1, 0, 0, 0, 0]⟩, 1),
  (⟨[(0, 0, 0)], (1, 0), (0, 0), [1, 1, 0, 0, 0, 0, 0]⟩, 1),
  (⟨[(0, 0, 0)], (1, 0), (0, 0), [1, 0, 1, 0, 0, 0, 0]⟩, -1),
  (⟨[(1, 0, 1)], (1, 0), (0, 0), [0, 0, 1, 0, 0, 0, 0]⟩, -1)]⟩
/-- itos_mom.py lines 629-635. -/
def P02 : DPoly := ⟨kf, [
  (⟨[(1, 0, 1)], (0, 0), (-1, 0), [0, 1, 0, 0, 0, 0, 0]⟩, -1),
  (⟨[(1, 0, 1)], (0, 0), (-1, 0), [0, 0, 1, 0, 0, 0, 0]⟩, 1),
  (⟨[(0, 0, 0)], (0, 0), (0, 0), [1, 0, 1, 0, 0, 0, 0]⟩, 1),
  (⟨[(1, 0, 1)], (0, 0), (0, 0), [0, 1, 0, 0, 0, 0, 0]⟩, 1),
  (⟨[(1, 0, 1)], (0, 0), (0, 0), [0, 0, 1, 0, 0, 0, 0]⟩, -1)]⟩
/-- itos_mom.py lines 649-655. -/
def Q20 : DPoly := ⟨kf, [
  (⟨[(0, 2, 1)], (0, 2), (0, 2), [0, 0, 0, 0, 0, 1, 0]⟩, 1),
  (⟨[(0, 1, 1)], (0, 2), (0, 1), [0, 0, 0, 0, 1, 0, 0]⟩, 1),
  (⟨[(0, 1, 1)], (0, 2), (0, 1), [0, 0, 0, 0, 0, 1, 0]⟩, -1),
  (⟨[(0, 1, 1)], (0, 2), (0, 0), [0, 0, 0, 0, 1, 0, 0]⟩, -1),
  (⟨[(0, 2, 1)], (0, 2), (0, 0), [0, 0, 0, 0, 0, 1, 0]⟩, 1)]⟩
/-- itos_mom.py lines 659-664. -/
def Q11 : DPoly := ⟨kf, [
  (⟨[(0, 1, 1)], (0, 1), (0, 1), [0, 0, 0, 0, 0, 1, 0]⟩, 1),
  (⟨[(0, 0, 0)], (0, 1), (0, 0), [1, 0, 0, 0, 1, 0, 0]⟩, 1),
  (⟨[(0, 0, 0)], (0, 1), (0, 0), [1, 0, 0, 0, 0, 1, 0]⟩, -1),
  (⟨[(0, 1, 1)], (0, 1), (0, 0), [0, 0, 0, 0, 0, 1, 0]⟩, -1)]⟩
/-- itos_mom.py lines 668-674. -/
def Q02 : DPoly := ⟨kf, [
  (⟨[(0, 1, 1)], (0, 0), (0, -1), [0, 0, 0, 0, 1, 0, 0]⟩, -1),
  (⟨[(0, 1, 1)], (0, 0), (0, -1), [0, 0, 0, 0, 0, 1, 0]⟩, 1),
  (⟨[(0, 0, 0)], (0, 0), (0, 0), [1, 0, 0, 0, 0, 1, 0]⟩, 1),
  (⟨[(0, 1, 1)], (0, 0), (0, 0), [0, 0, 0, 0, 1, 0, 0]⟩, 1),
  (⟨[(0, 1, 1)], (0, 0), (0, 0), [0, 0, 0, 0, 0, 1, 0]⟩, -1)]⟩

/-- the table for orders 0 to 2, itos_mom.py lines 596-687. -/
def table2 : Except PyErr (List (Idx × DPoly)) := do
  let p ← P02.merge Q02
  pure [((0, 0, 0, 0, 0), P1), ((1, 0, 0, 0, 0), P0), ((0, 1, 0, 0, 0), P0), ((0, 0, 1, 0, 0), P0),
    ((0, 0, 0, 1, 0), P0), ((0, 0, 0, 0, 1), P0), ((2, 0, 0, 0, 0), P20), ((1, 1, 0, 0, 0), P11),
    ((0, 2, 0, 0, 0), P02), ((1, 0, 1, 0, 0), P0), ((1, 0, 0, 1, 0), P0), ((1, 0, 0, 0, 1), P0),
    ((0, 1, 1, 0, 0), P0), ((0, 1, 0, 1, 0), P0), ((0, 1, 0, 0, 1), P0), ((0, 0, 2, 0, 0), Q20),
    ((0, 0, 1, 1, 0), Q11), ((0, 0, 0, 2, 0), Q02), ((0, 0, 1, 0, 1), P0), ((0, 0, 0, 1, 1), P0),
    ((0, 0, 0, 0, 2), p)]

/-- `poly = recursive_IEI_IEII(...); poly.remove_zero()`, itos_mom.py lines 698-699 and 702-703. -/
def step (g : Cfg) (i : Idx) (T : List (Idx × DPoly)) : Except PyErr DPoly := do
  let p ← recursive g i T
  pure p.removeZero

/-- the indices of total `n` in the order of the loops, itos_mom.py lines 693-697. -/
def idxs (n : ℤ) : List Idx :=
  (pyRangeDown n).flatMap fun i4 => (pyRangeDown (n - i4)).flatMap fun i5 =>
    (pyRangeDown (n - i4 - i5)).flatMap fun i6 => (pyRangeDown (n - i4 - i5 - i6)).map fun i7 =>
      (i4, i5, i6, i7, n - i4 - i5 - i6 - i7)

/-- sum of the orders -/
def lev (i : Idx) : ℤ := i.1 + i.2.1 + i.2.2.1 + i.2.2.2.1 + i.2.2.2.2

/-- `moment_IEI_IEII(n4, n5, n6, n7, n8, return_all=True)`, itos_mom.py lines 564-705. The message of the
`ValueError` for a negative total refers to unbound names, so a `NameError` is what is raised. -/
def momentAll (g : Cfg) (i : Idx) : Except PyErr (List (Idx × DPoly)) :=
  if lev i < 0 then .error .nameError
  else do
    let T ← table2
    if lev i ≤ 2 then pure T
    else do
      let T ← if lev i > 3 then fillLevels (step g) idxs (fun _ _ => false) (pyRange 3 (lev i)) T
        else pure T
      let p ← step g i T
      pure (dset T i p)

/-- `moment_IEI_IEII(n4, n5, n6, n7, n8)`, itos_mom.py lines 564-705. -/
def moment (g : Cfg) (i : Idx) : Except PyErr DPoly := do
  let T ← momentAll g i
  lookup T i

end Ajd.Itos
