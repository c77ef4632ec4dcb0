import Verif.Spec.SrjdJump
import Verif.Lemmas.ItoCondInt
import Verif.Lemmas.JumpEval
import Verif.Lemmas.IntEv
import Verif.Lemmas.SrjdCond
import Verif.Lemmas.Table
import Mathlib.Algebra.Polynomial.Eval.Defs
import Mathlib.LinearAlgebra.Finsupp.LinearCombination

section -- SrjdJump

/-! Lemmas about the moments of the SRJD variance given the jumps: integration and recursion. -/

namespace Ajd.SrjdJ
open Poly Utils ItoCond MeasureTheory

/-- the tuples as those of `ito_cond_mom.py`, without powers of times -/
def emb (l o : List ℤ) : Tup := ⟨l, List.replicate l.length 0, o, List.replicate o.length 0⟩

theorem emb_ok (l o : List ℤ) (h : o.length = l.length - 1) : ZOK (emb l o) := by
  refine ⟨by simp [emb], by simp [emb, h], by simp [emb, h], ?_, ?_⟩ <;>
  · intro a ha
    simp only [emb, List.mem_replicate] at ha
    exact ha.2.ge

theorem getD_replicate (n i : ℕ) : (List.replicate n (0 : ℤ)).getD i 0 = 0 := by
  by_cases hi : i < n
  · rw [List.getD_eq_getElem _ _ (by simpa using hi)]; simp
  · rw [List.getD_eq_default _ _ (by simpa using hi)]

theorem fZSpec_emb (l o : List ℤ) (k : ℝ) {N : ℕ} (s J : Fin N → ℝ) :
    fZSpec (emb l o).l.length (fun i => (emb l o).l.getD i 0) (fun i => (emb l o).o.getD i 0)
      (fun i => (emb l o).p.getD i 0) (fun i => (emb l o).q.getD i 0) k s J =
    ∑ j : Fin l.length → Fin N, (∏ i : Fin l.length, (Real.exp (l.getD i 0 * k * s (j i)) * J (j i))) *
      ∏ i : Fin l.length, if (i : ℕ) = 0 then 1 else
        Real.exp (o.getD (i - 1) 0 * k * Utils.runMax s j i) := by
  simp only [fZSpec, emb, getD_replicate, zpow_zero, mul_one]
  rfl

theorem zv_emb (x : ItoCond.Par) (t : ℝ) (l o : List ℤ) : zv x t l o = zval x t (emb l o) := by
  rw [zval, fZSpec_emb, zv]

theorem zv_nil (x : ItoCond.Par) (t : ℝ) (o : List ℤ) : zv x t [] o = 1 := by simp [zv]

theorem snoc_emb (l o : List ℤ) (h : o.length = l.length - 1) :
    snoc (emb l o) = emb (l ++ [1]) (if l.length = 0 then [] else o ++ [0]) := by
  have e : ∀ n : ℕ, List.replicate n (0 : ℤ) ++ [0] = List.replicate (n + 1) 0 := fun n => by
    rw [List.replicate_succ']
  unfold snoc emb
  dsimp only
  by_cases h0 : l.length = 0
  · rw [if_neg (by omega)]
    simp [h0]
  · rw [if_pos (by omega), if_neg h0, List.length_append, List.length_append, e, e]
    rfl

theorem atMax_spec (l o : List ℤ) (h : o.length = l.length - 1) (n : ℤ) :
    ∃ lo, atMax l o n = .ok lo ∧ lo.1.length = l.length ∧ lo.2.length = o.length ∧
      ∀ x : ItoCond.Par, (∀ i, 0 ≤ x.s i) → ∀ t, 0 ≤ t → 
        zv x t lo.1 lo.2 = if l.length = 0 then 1 else zvalMul x t (emb l o) n 0 := by
  unfold atMax
  by_cases h0 : l.length = 0
  · rw [if_pos h0]
    refine ⟨_, rfl, rfl, rfl, fun x _ t _ => ?_⟩
    rw [if_pos h0, List.length_eq_zero_iff.1 h0, zv_nil]
  · rw [if_neg h0]
    obtain ⟨z', e, -, -, v⟩ := addMax1_zval (emb l o) (emb_ok l o h) (by simp [emb]; omega) n 0 le_rfl
    by_cases h1 : l.length = 1
    · rw [if_pos h1]
      obtain ⟨a, rfl⟩ := List.length_eq_one_iff.1 h1
      have ho : o = [] := List.length_eq_zero_iff.1 (by simpa using h)
      subst ho
      refine ⟨_, rfl, rfl, rfl, fun x hs t ht => ?_⟩
      rw [if_neg h0, ← v x hs t ht, zv_emb]
      have : addMax1 (emb [a] []) n 0 = .ok (emb [a + n] []) := rfl
      rw [this] at e
      cases e; rfl
    · rw [if_neg h1]
      have ho : o ≠ [] := fun h' => by subst h'; simp at h; omega
      have hq : (List.replicate o.length (0 : ℤ)).getLast? = some 0 := by
        rw [List.getLast?_replicate, if_neg (by simpa using ho)]
      have e1 : addLast o n = .ok (o.dropLast ++ [o.getLast ho + n]) := by
        rw [addLast, List.getLast?_eq_getLast_of_ne_nil ho]
      have e2 : addLast (List.replicate o.length (0 : ℤ)) 0 = .ok (List.replicate o.length 0) := by
        rw [addLast, hq]
        dsimp only
        rw [List.dropLast_replicate, add_zero, ← List.replicate_succ', Nat.sub_add_cancel]
        exact List.length_pos_iff.2 ho
      have hl : (o.dropLast ++ [o.getLast ho + n]).length = o.length := by
        rw [List.length_append, List.length_dropLast, List.length_singleton, Nat.sub_add_cancel]
        exact List.length_pos_iff.2 ho
      rw [e1]
      refine ⟨_, rfl, rfl, hl, fun x hs t ht => ?_⟩
      rw [if_neg h0, ← v x hs t ht, zv_emb]
      have : addMax1 (emb l o) n 0 = .ok (emb l (o.dropLast ++ [o.getLast ho + n])) := by
        rw [addMax1, if_neg (by simpa [emb] using h1)]
        change (addLast o n >>= _) = _
        rw [e1, ok_bind]
        change (addLast (List.replicate o.length (0 : ℤ)) 0 >>= _) = _
        rw [e2, ok_bind]
        conv_rhs => rw [emb, hl]
        rfl
      rw [this] at e
      cases e; rfl

theorem zvalMul_zero (x : ItoCond.Par) (t : ℝ) (z : Tup) : zvalMul x t z 0 0 = zval x t z := by
  simp [zvalMul, zval, fZSpec]

theorem zval_exp (x : ItoCond.Par) (hs : ∀ i, 0 ≤ x.s i) (hk : x.k ≠ 0) (t : ℝ) (ht : 0 ≤ t)
    (l o : List ℤ) (n : ℤ) (hn : n ≠ 0) :
    IntervalIntegrable (fun u => Real.exp (n * x.k * u) * zv x u l o) volume 0 t ∧
    ∫ u in (0 : ℝ)..t, Real.exp (n * x.k * u) * zv x u l o = 1 / n * x.k⁻¹ *
      (Real.exp (n * x.k * t) * zv x t l o -
        if l.length = 0 then 1 else zvalMul x t (emb l o) n 0) := by
  have h := zval_integral x hs hk t ht (emb l o) n 0
  simp only [pow_zero, mul_one, ← zv_emb] at h
  refine ⟨h.1, ?_⟩
  rw [h.2, intEtFZNat]
  have hne : ([n, 0, 1, 0, 0] : List ℤ) ≠ [0, 0, 1, 0, 0] := by simp [hn]
  have hne' : ([n, 0, 1, 0, 0] : List ℤ) ≠ [0, 0, 1, n, 0] := by simp [hn]
  by_cases h0 : l.length = 0
  · rw [if_pos (by simpa [emb] using h0), if_neg hn, if_pos rfl, if_pos h0]
    have hl : l = [] := List.length_eq_zero_iff.1 h0
    subst hl
    simp only [Poly.ev, dset, hne, if_false, List.map_cons, List.map_nil, List.sum_cons, List.sum_nil,
      ix, List.getD_cons_zero, List.getD_cons_succ, zvalMul_zero, ← zv_emb, zv_nil, Ito.etVal,
      Rat.smul_def]
    push_cast
    simp
    ring
  · rw [if_neg (by simpa [emb] using h0), if_neg hn, if_pos rfl, if_neg h0]
    simp only [Poly.ev, dset, hne', if_false, List.map_cons, List.map_nil, List.sum_cons, List.sum_nil,
      ix, List.getD_cons_zero, List.getD_cons_succ, zvalMul_zero, ← zv_emb, Ito.etVal,
      Rat.smul_def]
    push_cast
    simp
    ring

/-- keys of the moments of `IE`: also no negative power of `e^{kt}` -/
def IOK (key : SKey) : Prop := SOK key ∧ 0 ≤ ix key.b 4

/-- parameters and a time -/
structure Pt where
  x : ItoCond.Par
  t : ℝ
  ok : Adm x t

theorem intEPoly_spec (i : ℤ) (hi : 1 ≤ i) (poly : SPoly) (hp : poly.Keys IOK) :
    ∃ r, intEPoly i poly = .ok r ∧ r.keyfor = kf ∧ r.WF ∧ r.Keys IOK ∧
      ∀ a : Pt, ev (sval a.x a.t) r =
        ∫ u in (0 : ℝ)..a.t, Real.exp (i * a.x.k * u) * ev (sval a.x u) poly := by
  obtain ⟨r, e, k, w, c, v⟩ := subst_spec kf (intTerms i) poly IOK (fun a : Pt => sval a.x a.t)
    (fun a κ => ∫ u in (0 : ℝ)..a.t, Real.exp (i * a.x.k * u) * sval a.x u κ) (by
    rintro ⟨⟨b, l, o⟩, q⟩ he
    obtain ⟨⟨h1, h2, h3, h4, h5⟩, h6⟩ := hp _ he
    dsimp only at h1 h2 h3 h4 h5 h6
    obtain ⟨lo, el, l1, l2, hv⟩ := atMax_spec l o h5 (ix b 4 + i)
    have hn : ix b 4 + i ≠ 0 := by omega
    refine ⟨_, by rw [intTerms, if_neg hn, el]; rfl, ?_, ?_⟩
    · intro y hy
      simp only [List.mem_cons, List.not_mem_nil, or_false] at hy
      rcases hy with rfl | rfl
      · exact ⟨⟨rfl, h2, h3, h4, h5⟩, by change 0 ≤ ix b 4 + i; omega⟩
      · exact ⟨⟨rfl, h2, h3, h4, by dsimp only; rw [l1, l2, h5]⟩, le_rfl⟩
    · rintro ⟨x, t, hk, hs, ht⟩
      obtain ⟨-, hint⟩ := zval_exp x hs hk t ht l o (ix b 4 + i) hn
      have e1 : ∀ u, Real.exp (i * x.k * u) * sval x u ⟨b, l, o⟩ =
          x.v ^ ix b 0 * x.k ^ (-ix b 1) * x.θ ^ ix b 2 * x.σ ^ ix b 3 *
            (Real.exp ((ix b 4 + i : ℤ) * x.k * u) * zv x u l o) := by
        intro u
        rw [show ((ix b 4 + i : ℤ) : ℝ) * x.k * u = i * x.k * u + ix b 4 * x.k * u by
          push_cast; ring, Real.exp_add, sval]
        ring
      dsimp only
      simp only [e1]
      rw [intervalIntegral.integral_const_mul, hint, ← hv x hs t ht]
      simp only [List.map_cons, List.map_nil, List.sum_cons, List.sum_nil, sval, ix,
        List.getD_cons_zero, List.getD_cons_succ, Rat.smul_def]
      have e2 : x.k ^ (-(b.getD 1 0 + 1)) = x.k ^ (-b.getD 1 0) * x.k⁻¹ := by
        rw [neg_add, zpow_add₀ hk, zpow_neg_one]
      rw [e2]
      push_cast
      simp
      ring)
  refine ⟨r, e, k, w, c, fun a => ?_⟩
  rw [v a]
  obtain ⟨x, t, hk, hs, ht⟩ := a
  symm
  refine (intervalIntegral_ev (fun u => Real.exp (i * x.k * u)) (sval x) poly 0 t ?_).2
  rintro ⟨⟨b, l, o⟩, q⟩ he
  obtain ⟨⟨h1, h2, h3, h4, h5⟩, h6⟩ := hp _ he
  dsimp only at h1 h2 h3 h4 h5 h6
  obtain ⟨hint, -⟩ := zval_exp x hs hk t ht l o (ix b 4 + i) (by omega)
  refine (hint.const_mul (x.v ^ ix b 0 * x.k ^ (-ix b 1) * x.θ ^ ix b 2 * x.σ ^ ix b 3)).congr ?_
  intro u _
  dsimp only
  rw [show ((ix b 4 + i : ℤ) : ℝ) * x.k * u = i * x.k * u + ix b 4 * x.k * u by
    push_cast; ring, Real.exp_add, sval]
  ring

/-- what the table holds: the moment of order `m` -/
def Good (m : ℕ) (p : SPoly) : Prop :=
  p.keyfor = kf ∧ p.WF ∧ p.Keys IOK ∧
    ∀ (a : Pt) (M : ℕ → ℝ → ℝ), IERec a.x M → ev (sval a.x a.t) p = M m a.t

theorem Good.int {m : ℕ} {p : SPoly} (h : Good m p) (i : ℤ) (hi : 1 ≤ i) :
    ∃ r, intEPoly i p = .ok r ∧ r.keyfor = kf ∧ r.WF ∧ r.Keys IOK ∧
      ∀ (a : Pt) (M : ℕ → ℝ → ℝ), IERec a.x M → ev (sval a.x a.t) r =
        ∫ u in (0 : ℝ)..a.t, Real.exp (i * a.x.k * u) * M m u := by
  obtain ⟨-, -, hk, hv⟩ := h
  obtain ⟨r, e, k, w, c, v⟩ := intEPoly_spec i hi p hk
  refine ⟨r, e, k, w, c, fun a M hM => ?_⟩
  rw [v]
  apply Srjd.int_congr _ a.ok.2.2
  intro u hu _
  rw [← hv ⟨a.x, u, a.ok.1, a.ok.2.1, hu⟩ M hM]

theorem timesIEZ_spec (p : SPoly) (hp : p.Keys IOK) :
    (ofTerms kf (p.items.map fun e => (timesIEZ e.1, e.2))).Keys IOK ∧
    ∀ a : Pt, ev (sval a.x a.t) (ofTerms kf (p.items.map fun e => (timesIEZ e.1, e.2))) =
      a.x.IEZ a.t * ev (sval a.x a.t) p := by
  constructor
  · apply ofTerms_Keys
    intro y hy
    obtain ⟨⟨⟨b, l, o⟩, q⟩, he, rfl⟩ := List.mem_map.1 hy
    obtain ⟨⟨h1, h2, h3, h4, h5⟩, h6⟩ := hp _ he
    dsimp only at h1 h2 h3 h4 h5 h6
    refine ⟨⟨h1, h2, h3, h4, ?_⟩, h6⟩
    simp only [timesIEZ, List.length_append, List.length_singleton]
    split_ifs with h
    · simp [h]
    · simp; omega
  · rintro ⟨x, t, hk, hs, ht⟩
    rw [ev_ofTerms_map (sval x t) (fun κ => x.IEZ t * sval x t κ)]
    · exact ev_mul_const ..
    rintro ⟨⟨b, l, o⟩, q⟩ he
    obtain ⟨⟨h1, h2, h3, h4, h5⟩, h6⟩ := hp _ he
    dsimp only at h1 h2 h3 h4 h5 h6
    dsimp only
    congr 1
    rw [sval, sval, timesIEZ, zv_emb, zv_emb, ← snoc_emb l o h5, ← zval_snoc x hs t ht _ (emb_ok l o h5)]
    ring

theorem Good.intZ {m : ℕ} {p : SPoly} (h : Good m p) :
    ∃ r, intEPoly 1 (ofTerms kf (p.items.map fun e => (timesIEZ e.1, e.2))) = .ok r ∧
      r.keyfor = kf ∧ r.WF ∧ r.Keys IOK ∧
      ∀ (a : Pt) (M : ℕ → ℝ → ℝ), IERec a.x M → ev (sval a.x a.t) r =
        ∫ u in (0 : ℝ)..a.t, Real.exp (a.x.k * u) * (a.x.IEZ u * M m u) := by
  obtain ⟨-, -, hk, hv⟩ := h
  obtain ⟨c1, v1⟩ := timesIEZ_spec p hk
  obtain ⟨r, e, k, w, c, v⟩ := intEPoly_spec 1 le_rfl _ c1
  refine ⟨r, e, k, w, c, fun a M hM => ?_⟩
  rw [v]
  apply Srjd.int_congr _ a.ok.2.2
  intro u hu _
  rw [v1 ⟨a.x, u, a.ok.1, a.ok.2.1, hu⟩, ← hv ⟨a.x, u, a.ok.1, a.ok.2.1, hu⟩ M hM]
  simp

/-- the factor selected by `tp` -/
noncomputable def fac (x : ItoCond.Par) (tp : ℕ) : ℝ :=
  if tp = 1 then x.v - x.θ else if tp = 2 then x.θ else if tp = 3 then 1 else if tp = 4 then x.σ else 0

theorem coefPoly_spec (c : ℚ) (p : SPoly) (hp : p.Keys IOK) (tp : ℕ) :
    (coefPoly c p tp).keyfor = kf ∧ (coefPoly c p tp).Keys IOK ∧
    ∀ a : Pt, ev (sval a.x a.t) (coefPoly c p tp) = c * fac a.x tp * ev (sval a.x a.t) p := by
  have key : ∀ e ∈ p.items, (∀ y ∈ coefTerms c tp e, IOK y.1) ∧ ∀ a : Pt,
      ((coefTerms c tp e).map fun y => y.2 • sval a.x a.t y.1).sum =
        e.2 • (c * fac a.x tp * sval a.x a.t e.1) := by
    rintro ⟨⟨b, l, o⟩, q⟩ he
    obtain ⟨⟨h1, h2, h3, h4, h5⟩, h6⟩ := hp _ he
    dsimp only at h1 h2 h3 h4 h5 h6
    unfold coefTerms fac
    dsimp only
    split_ifs with t1 t2 t3 t4
    · refine ⟨?_, fun a => ?_⟩
      · intro y hy
        simp only [List.mem_cons, List.not_mem_nil, or_false] at hy
        rcases hy with rfl | rfl
        · exact ⟨⟨rfl, by change 0 ≤ ix b 0 + 1; omega, h3, h4, h5⟩, h6⟩
        · exact ⟨⟨rfl, h2, by change 0 ≤ ix b 2 + 1; omega, h4, h5⟩, h6⟩
      · simp only [List.map_cons, List.map_nil, List.sum_cons, List.sum_nil, sval, ix,
          List.getD_cons_zero, List.getD_cons_succ, Rat.smul_def] at h2 h3 ⊢
        rw [zpow_add_nn _ _ 1 h2 (by omega), zpow_add_nn _ _ 1 h3 (by omega), zpow_one, zpow_one]
        push_cast
        ring
    · refine ⟨?_, fun a => ?_⟩
      · intro y hy
        simp only [List.mem_cons, List.not_mem_nil, or_false] at hy
        rcases hy with rfl
        exact ⟨⟨rfl, h2, by change 0 ≤ ix b 2 + 1; omega, h4, h5⟩, h6⟩
      · simp only [List.map_cons, List.map_nil, List.sum_cons, List.sum_nil, sval, ix,
          List.getD_cons_zero, List.getD_cons_succ, Rat.smul_def] at h2 h3 ⊢
        rw [zpow_add_nn _ _ 1 h3 (by omega), zpow_one]
        push_cast
        ring
    · refine ⟨?_, fun a => ?_⟩
      · intro y hy
        simp only [List.mem_cons, List.not_mem_nil, or_false] at hy
        rcases hy with rfl
        exact ⟨⟨h1, h2, h3, h4, h5⟩, h6⟩
      · simp only [List.map_cons, List.map_nil, List.sum_cons, List.sum_nil, Rat.smul_def]
        push_cast
        ring
    · refine ⟨?_, fun a => ?_⟩
      · intro y hy
        simp only [List.mem_cons, List.not_mem_nil, or_false] at hy
        rcases hy with rfl
        exact ⟨⟨rfl, h2, h3, by change 0 ≤ ix b 3 + 1; omega, h5⟩, h6⟩
      · simp only [List.map_cons, List.map_nil, List.sum_cons, List.sum_nil, sval, ix,
          List.getD_cons_zero, List.getD_cons_succ, Rat.smul_def] at h4 ⊢
        rw [zpow_add_nn _ _ 1 h4 (by omega), zpow_one]
        push_cast
        ring
    · exact ⟨by simp, fun a => by simp⟩
  refine ⟨by simp [coefPoly], ?_, fun a => ?_⟩
  · apply ofTerms_Keys
    intro y hy
    obtain ⟨e, he, hy⟩ := List.mem_flatMap.1 hy
    exact (key e he).1 y hy
  · rw [coefPoly, ev_ofTerms_flatMap _ (fun κ => c * fac a.x tp * sval a.x a.t κ) _ _ _
      fun e he => (key e he).2 a]
    exact ev_mul_const ..

theorem recursiveIE_spec (m : ℕ) (IE : Tab) (p q : SPoly) (h0 : dget IE (m : ℤ) = some p)
    (h1 : dget IE ((m : ℤ) + 1) = some q) (gp : Good m p) (gq : Good (m + 1) q) :
    ∃ r, recursiveIE ((m : ℤ) + 2) IE = .ok r ∧ Good (m + 2) r ∧ r.NoZero := by
  obtain ⟨r1, e1, k1, w1, c1, v1⟩ := gp.int 1 le_rfl
  obtain ⟨r2, e2, k2, w2, c2, v2⟩ := gp.int 2 (by norm_num)
  obtain ⟨r3, e3, k3, w3, c3, v3⟩ := gp.intZ
  obtain ⟨r4, e4, k4, w4, c4, v4⟩ := gq.int 1 le_rfl
  generalize hc : ((((m : ℤ) + 2) * ((m : ℤ) + 2 - 1) : ℤ) : ℚ) / 2 = c
  obtain ⟨f1, g1, u1⟩ := coefPoly_spec c r1 c1 1
  obtain ⟨f2, g2, u2⟩ := coefPoly_spec c r2 c2 2
  obtain ⟨f3, g3, u3⟩ := coefPoly_spec c r3 c3 3
  obtain ⟨f4, g4, u4⟩ := coefPoly_spec c r4 c4 4
  have hK : (⟨kf, []⟩ : SPoly).Keys IOK := by intro y hy; simp at hy
  obtain ⟨s1, E1, K1, W1, -, C1, V1⟩ := merge_spec (⟨kf, []⟩ : SPoly) (coefPoly c r1 1) f1.symm
  obtain ⟨s2, E2, K2, W2, -, C2, V2⟩ := merge_spec s1 (coefPoly c r2 2) (K1.trans f2.symm)
  obtain ⟨s3, E3, K3, W3, -, C3, V3⟩ := merge_spec s2 (coefPoly c r3 3) ((K2.trans K1).trans f3.symm)
  obtain ⟨s4, E4, K4, W4, Z4, C4, V4⟩ := merge_spec s3 (coefPoly c r4 4)
    (((K3.trans K2).trans K1).trans f4.symm)
  refine ⟨s4, ?_, ⟨((K4.trans K3).trans K2).trans K1, W4 (W3 (W2 (W1 (by simp [Poly.WF])))),
    C4 _ (C3 _ (C2 _ (C1 _ hK g1) g2) g3) g4, fun a M hM => ?_⟩, Z4⟩
  · have a0 : (m : ℤ) + 2 - 2 = m := by ring
    have a1 : (m : ℤ) + 2 - 1 = m + 1 := by ring
    rw [recursiveIE]
    simp only [intEIE, intEIEZ, a0]
    rw [hc]
    simp only [a1, Srjd.lookup_ok h0, Srjd.lookup_ok h1, ok_bind, e1, e2, e3, e4, E1, E2, E3, E4]
  · rw [V4, V3, V2, V1, u1, u2, u3, u4, v1 a M hM, v2 a M hM, v3 a M hM, v4 a M hM,
      hM.step m a.t a.ok.2.2, ← hc]
    simp only [Poly.ev, fac, List.map_nil, List.sum_nil]
    push_cast
    simp only [one_mul]
    norm_num
    ring

theorem good0 : Good 0 P1 := by
  refine ⟨rfl, by simp [Poly.WF, P1, P0], ?_, fun a M hM => ?_⟩
  · intro y hy
    simp only [P1, List.mem_cons, List.not_mem_nil, or_false] at hy
    subst hy; exact ⟨by simp [SOK, ix], by simp [ix]⟩
  · rw [hM.zero _ a.ok.2.2]
    simp [Poly.ev, P1, sval, ix, zv_nil]

theorem good1 : Good 1 P0 := by
  refine ⟨rfl, by simp [Poly.WF, P1, P0], ?_, fun a M hM => ?_⟩
  · intro y hy
    simp only [P0, List.mem_cons, List.not_mem_nil, or_false] at hy
    subst hy; exact ⟨by simp [SOK, ix], by simp [ix]⟩
  · rw [hM.one _ a.ok.2.2]
    simp [Poly.ev, P0]

end Ajd.SrjdJ

end -- SrjdJump

section -- SrjdJump2

/-! Lemmas about the moments of the SRJD variance given the jumps: table, moments, numbers. -/

namespace Ajd.SrjdJ
open Poly Utils ItoCond MeasureTheory Polynomial

def r2 : SPoly := ⟨kf, [
  (⟨[1, 1, 0, 0, 1], [], []⟩, 1),
  (⟨[0, 1, 1, 0, 1], [], []⟩, -1),
  (⟨[1, 1, 0, 0, 0], [], []⟩, -1),
  (⟨[0, 1, 1, 0, 0], [], []⟩, 1 / 2),
  (⟨[0, 1, 1, 0, 2], [], []⟩, 1 / 2),
  (⟨[0, 1, 0, 0, 1], [1], []⟩, 1),
  (⟨[0, 1, 0, 0, 0], [2], []⟩, -1)]⟩

theorem r2_eq : recursiveIE 2 tab0 = .ok r2 := by decide +kernel

theorem good2 : Good 2 P2 := by
  obtain ⟨r, e, ⟨-, -, -, v⟩, -⟩ := recursiveIE_spec 0 tab0 P1 P0 rfl rfl good0 good1
  have : r = r2 := by
    have h : Except.ok r = Except.ok (ε := PyErr) r2 := by rw [← e, ← r2_eq]; rfl
    cases h; rfl
  subst this
  refine ⟨rfl, by simp [Poly.WF, P2], ?_, fun a M hM => ?_⟩
  · intro y hy
    simp only [P2, List.mem_cons, List.not_mem_nil, or_false] at hy
    rcases hy with rfl | rfl | rfl | rfl | rfl | rfl | rfl <;>
      exact ⟨by simp [SOK, ix], by simp [ix]⟩
  · rw [← v a M hM]
    simp only [Poly.ev, P2, r2, List.map_cons, List.map_nil, List.sum_cons, List.sum_nil]
    abel

theorem ieLoop_spec (N : ℕ) : ∃ T p q, ((List.range N).map fun i : ℕ => (3 : ℤ) + i).foldlM ieStep tab0 =
    .ok T ∧ dget T ((N : ℤ) + 1) = some p ∧ dget T ((N : ℤ) + 2) = some q ∧ Good (N + 1) p ∧
      Good (N + 2) q := by
  induction N with
  | zero => exact ⟨tab0, P0, P2, rfl, rfl, rfl, good1, good2⟩
  | succ N ih =>
    obtain ⟨T, p, q, e, dp, dq, gp, gq⟩ := ih
    obtain ⟨r, er, gr, -⟩ := recursiveIE_spec (N + 1) T p q (by push_cast; exact dp)
      (by push_cast; rw [add_assoc]; exact dq) gp gq
    have hr : Good (N + 3) r.removeZero := by
      obtain ⟨h1, h2, h3, h4⟩ := gr
      exact ⟨by simp [h1], removeZero_WF _ h2, removeZero_Keys _ _ h3, fun a M hM => by
        rw [ev_removeZero]; exact h4 a M hM⟩
    refine ⟨(dset T (3 + N) r.removeZero).filter fun e => e.1 ≠ (3 + N : ℤ) - 2, q, r.removeZero, ?_, ?_,
      ?_, gq, hr⟩
    · rw [List.range_succ, List.map_append, List.foldlM_append, e, ok_bind]
      have : ((N + 1 : ℕ) : ℤ) + 2 = 3 + N := by push_cast; ring
      rw [this] at er
      simp only [List.map_cons, List.map_nil, List.foldlM_cons, List.foldlM_nil, ieStep, er, ok_bind]
      rfl
    · rw [dget_filter (dset T (3 + N) r.removeZero) (fun i => decide (i ≠ (3 + N : ℤ) - 2)) _
        (by simp; omega), dget_dset]
      push_cast
      rw [if_neg (by omega), ← dq]
      congr 1
    · rw [dget_filter (dset T (3 + N) r.removeZero) (fun i => decide (i ≠ (3 + N : ℤ) - 2)) _
        (by simp; omega), dget_dset]
      push_cast
      rw [if_pos (by omega)]

theorem momentIE_spec (m : ℕ) : ∃ r, momentIE m = .ok r ∧ Good m r := by
  match m with
  | 0 => exact ⟨P1, rfl, good0⟩
  | 1 => exact ⟨P0, rfl, good1⟩
  | 2 => exact ⟨P2, rfl, good2⟩
  | N + 3 =>
    obtain ⟨T, p, q, e, dp, dq, gp, gq⟩ := ieLoop_spec N
    obtain ⟨r, er, gr, -⟩ := recursiveIE_spec (N + 1) T p q (by push_cast; exact dp)
      (by push_cast; rw [add_assoc]; exact dq) gp gq
    obtain ⟨h1, h2, h3, h4⟩ := gr
    have eT : ieTable ((N + 3 : ℕ) : ℤ) = .ok T := by
      rw [ieTable]
      split_ifs with h
      · rw [pyRange, show (((N + 3 : ℕ) : ℤ) - 3).toNat = N by omega]
        exact e
      · have : N = 0 := by omega
        subst this
        exact e
    refine ⟨r.removeZero, ?_, by simp [h1], removeZero_WF _ h2, removeZero_Keys _ _ h3, fun a M hM => by
        rw [ev_removeZero]; exact h4 a M hM⟩
    rw [momentIE, if_neg (by omega), eT, ok_bind]
    have : ((N + 1 : ℕ) : ℤ) + 2 = ((N + 3 : ℕ) : ℤ) := by push_cast; ring
    rw [← this, er]
    rfl

/-! ### moments of the variance -/

/-- keys of `pol1`: all the summations are of `IEZ` -/
def OneKey (key : SKey) : Prop :=
  key.b.length = 5 ∧ 0 ≤ ix key.b 0 ∧ 0 ≤ ix key.b 2 ∧ 0 ≤ ix key.b 3 ∧ ∃ n, key.l = List.replicate n 1

/-- value of a key of `pol1` -/
noncomputable def oval (x : ItoCond.Par) (t : ℝ) (key : SKey) : ℝ :=
  x.v ^ ix key.b 0 * x.k ^ (-ix key.b 1) * x.θ ^ ix key.b 2 * x.σ ^ ix key.b 3 *
    Real.exp (ix key.b 4 * x.k * t) * x.IEZ t ^ key.l.length

theorem S1_IEZ (x : ItoCond.Par) (t : ℝ) : S1 x t 1 = x.IEZ t := by simp [S1, ItoCond.Par.IEZ]

theorem mulKey_spec (k1 k2 : SKey) (h1 : OneKey k1) (h2 : SOK k2) : SOK (mulKey k1 k2) ∧
    ∀ a : Pt, sval a.x a.t (mulKey k1 k2) = oval a.x a.t k1 * sval a.x a.t k2 := by
  obtain ⟨b1, l1, o1⟩ := k1
  obtain ⟨b2, l2, o2⟩ := k2
  obtain ⟨p1, p2, p3, p4, n, p5⟩ := h1
  obtain ⟨q1, q2, q3, q4, q5⟩ := h2
  dsimp only at p1 p2 p3 p4 p5 q1 q2 q3 q4 q5
  subst p5
  refine ⟨⟨rfl, ?_, ?_, ?_, ?_⟩, ?_⟩
  · change 0 ≤ ix b2 0 + ix b1 0; omega
  · change 0 ≤ ix b2 2 + ix b1 2; omega
  · change 0 ≤ ix b2 3 + ix b1 3; omega
  · simp only [mulKey]
    split_ifs with h
    · simp [h]
    · simp; omega
  · rintro ⟨x, t, hk, hs, ht⟩
    dsimp only
    have hz : emb (mulKey ⟨b1, List.replicate n 1, o1⟩ ⟨b2, l2, o2⟩).l
        (mulKey ⟨b1, List.replicate n 1, o1⟩ ⟨b2, l2, o2⟩).o =
        appTup (emb l2 o2) (List.replicate n 1) (if l2.length = 0 then n - 1 else n) := by
      simp only [mulKey, emb, appTup, List.length_append, List.length_replicate]
      split_ifs with h
      · have : o2 = [] := List.length_eq_zero_iff.1 (by omega)
        simp [this, h]
      · simp
    rw [sval, zv_emb, hz, zval_app x hs t ht _ (emb_ok _ _ q5), sval, oval, zv_emb]
    simp only [mulKey, ix, List.getD_cons_zero, List.getD_cons_succ, List.map_replicate,
      List.prod_replicate, S1_IEZ, List.length_replicate] at p2 p3 p4 q2 q3 q4 ⊢
    rw [zpow_add_nn _ _ _ q2 p2, zpow_add_nn _ _ _ q3 p3, zpow_add_nn _ _ _ q4 p4, neg_add,
      zpow_add₀ hk, show (((b2.getD 4 0 + b1.getD 4 0 : ℤ)) : ℝ) * x.k * t =
        b2.getD 4 0 * x.k * t + b1.getD 4 0 * x.k * t by push_cast; ring, Real.exp_add]
    ring

theorem pol1_spec (m j : ℕ) (hj : j ≤ m) : (pol1 m j).Keys OneKey ∧ ∀ a : Pt,
    ev (oval a.x a.t) (pol1 m j) = m.choose j * a.x.σ ^ (m - j) * Real.exp (-(a.x.k * a.t)) ^ m *
      (a.x.v - a.x.θ + a.x.θ * Real.exp (a.x.k * a.t) + a.x.IEZ a.t) ^ j := by
  constructor
  · apply ofTerms_Keys
    intro y hy
    obtain ⟨ns, hns, rfl⟩ := List.mem_map.1 hy
    refine ⟨rfl, ?_, ?_, ?_, _, rfl⟩ <;> simp [pol1Term, ix] <;> omega
  · rintro ⟨x, t, hk, hs, ht⟩
    dsimp only
    have hm := combs_multinomial 3 [x.v, -x.θ, x.θ * Real.exp (x.k * t), x.IEZ t] rfl j
    have hsum : [x.v, -x.θ, x.θ * Real.exp (x.k * t), x.IEZ t].sum =
        x.v - x.θ + x.θ * Real.exp (x.k * t) + x.IEZ t := by simp; ring
    rw [hsum] at hm
    rw [← hm, pol1, ev_ofTerms, List.map_map, ← List.sum_map_mul_left]
    congr 1
    apply List.map_congr_left
    intro ns hns
    obtain ⟨h1, h2⟩ := combs_mem _ _ _ hns
    obtain ⟨n1, n2, n3, n4, rfl⟩ := len4 ns h1
    simp only [List.sum_cons, List.sum_nil, add_zero] at h2
    have e4 : (j - n1 - n2 - n3).choose n4 = 1 := by
      rw [show j - n1 - n2 - n3 = n4 by omega, Nat.choose_self]
    have e5 : Real.exp (((n3 : ℤ) - m : ℤ) * x.k * t) =
        Real.exp (-(x.k * t)) ^ m * Real.exp (x.k * t) ^ n3 := by
      rw [← Real.exp_nat_mul, ← Real.exp_nat_mul, ← Real.exp_add]
      congr 1
      push_cast
      ring
    have e6 : x.σ ^ ((m : ℤ) - j) = x.σ ^ (m - j) := by
      rw [← Nat.cast_sub hj, zpow_natCast]
    have e7 : x.θ ^ ((n2 : ℤ) + n3) = x.θ ^ n2 * x.θ ^ n3 := by
      rw [← Nat.cast_add, zpow_natCast, pow_add]
    simp only [Function.comp, pol1Term, oval, nat, ix, List.getD_cons_zero, List.getD_cons_succ,
      Rat.smul_def, combN, List.zipWith_cons_cons, List.zipWith_nil_right, List.prod_cons, List.prod_nil,
      List.length_replicate, e4, e5, e6, e7, zpow_natCast, neg_zero, zpow_zero]
    push_cast
    rw [neg_pow x.θ n2, mul_pow]
    ring

theorem E_expand (E : ℝ[X] →ₗ[ℝ] ℝ) (c d : ℝ) (m : ℕ) : E ((C c + C d * X) ^ m) =
    ∑ j ∈ Finset.range (m + 1), (m.choose j : ℝ) * c ^ j * d ^ (m - j) * E (X ^ (m - j)) := by
  rw [add_pow, map_sum]
  apply Finset.sum_congr rfl
  intro j _
  have : C c ^ j * (C d * X) ^ (m - j) * ((m.choose j : ℕ) : ℝ[X]) =
      ((m.choose j : ℝ) * c ^ j * d ^ (m - j)) • X ^ (m - j) := by
    rw [mul_pow, Polynomial.smul_eq_C_mul, map_mul, map_mul, map_pow, map_pow, map_natCast]
    ring
  rw [this, map_smul, smul_eq_mul]

/-- a point with a conditional law -/
structure PtE where
  a : Pt
  E : ℝ[X] →ₗ[ℝ] ℝ
  law : Law a.x a.t E

theorem momentV_two (m : ℕ) (hm : 2 ≤ m) : ∃ r, momentV m = .ok r ∧ r.keyfor = kf ∧ r.WF ∧ r.NoZero ∧
    r.Keys SOK ∧ ∀ i : PtE, ev (sval i.a.x i.a.t) r = i.E (vAt i.a.x i.a.t ^ m) := by
  obtain ⟨r, e, k, w, c, v⟩ := addLoop_spec kf (momentVTerms m) (pyRange 0 ((m : ℤ) + 1)) SOK
    (fun i : PtE => sval i.a.x i.a.t)
    (fun i j => (m.choose j.toNat * i.a.x.σ ^ (m - j.toNat) * Real.exp (-(i.a.x.k * i.a.t)) ^ m *
      (i.a.x.v - i.a.x.θ + i.a.x.θ * Real.exp (i.a.x.k * i.a.t) + i.a.x.IEZ i.a.t) ^ j.toNat) *
        i.E (X ^ (m - j.toNat))) (by
    intro j hj
    rw [mem_pyRange] at hj
    obtain ⟨j, rfl⟩ : ∃ x : ℕ, j = x := ⟨j.toNat, by omega⟩
    have hjm : j ≤ m := by omega
    obtain ⟨q, eq, -, -, qk, qv⟩ := momentIE_spec (m - j)
    rw [Nat.cast_sub hjm] at eq
    obtain ⟨pk, pv⟩ := pol1_spec m j hjm
    have hpair : ∀ s ∈ pairs (pol1 m j).items q.items, SOK (mulKey s.1.1 s.1.2) ∧
        ∀ a : Pt, sval a.x a.t (mulKey s.1.1 s.1.2) = oval a.x a.t s.1.1 * sval a.x a.t s.1.2 := by
      intro s hs
      obtain ⟨a, ha, b, hb, rfl⟩ := (mem_pairs _ _ _).1 hs
      exact mulKey_spec _ _ (pk _ ha) (qk _ hb).1
    refine ⟨_, by rw [momentVTerms, eq]; rfl, ?_, fun i => ?_⟩
    · intro y hy
      obtain ⟨s, hs, rfl⟩ := List.mem_map.1 hy
      exact (hpair s hs).1
    · obtain ⟨a, E, M, hM, hE⟩ := i
      dsimp only
      simp only [Int.toNat_natCast]
      rw [← pv a, hE, ← qv a M hM, List.map_map]
      unfold ev
      rw [← sum_pairs (oval a.x a.t) (sval a.x a.t)]
      congr 1
      apply List.map_congr_left
      intro s hs
      simp only [Function.comp, Int.toNat_natCast] at hs ⊢
      rw [(hpair s hs).2 a])
  refine ⟨r.removeZero, ?_, by simp [k], removeZero_WF _ w, removeZero_NoZero _, removeZero_Keys _ _ c, 
    fun i => ?_⟩
  · rw [momentV, if_neg (by omega), if_neg (by omega), e]; rfl
  · rw [ev_removeZero, v, Srjd.sum_pyRange, vAt, E_expand]
    apply Finset.sum_congr rfl
    intro j hj
    rw [Finset.mem_range] at hj
    rw [Int.toNat_natCast]
    obtain ⟨n, rfl⟩ : ∃ n, m = j + n := ⟨m - j, by omega⟩
    rw [Nat.add_sub_cancel_left]
    have e0 : Real.exp (-(i.a.x.k * i.a.t)) * (i.a.x.v - i.a.x.θ) + i.a.x.θ +
        Real.exp (-(i.a.x.k * i.a.t)) * i.a.x.IEZ i.a.t = Real.exp (-(i.a.x.k * i.a.t)) *
        (i.a.x.v - i.a.x.θ + i.a.x.θ * Real.exp (i.a.x.k * i.a.t) + i.a.x.IEZ i.a.t) := by
      have : Real.exp (-(i.a.x.k * i.a.t)) * Real.exp (i.a.x.k * i.a.t) = 1 := by
        rw [← Real.exp_add]; simp
      linear_combination (-i.a.x.θ) * this
    rw [e0, mul_pow, mul_pow, pow_add]
    ring

theorem E_one (i : PtE) : i.E 1 = 1 := by
  obtain ⟨a, E, M, hM, hE⟩ := i
  have := hE 0
  rw [pow_zero, hM.zero _ a.ok.2.2] at this
  exact this

theorem E_X (i : PtE) : i.E X = 0 := by
  obtain ⟨a, E, M, hM, hE⟩ := i
  have := hE 1
  rw [pow_one, hM.one _ a.ok.2.2] at this
  exact this

theorem E_vAt (i : PtE) : i.E (vAt i.a.x i.a.t) = Real.exp (-(i.a.x.k * i.a.t)) * (i.a.x.v - i.a.x.θ) +
    i.a.x.θ + Real.exp (-(i.a.x.k * i.a.t)) * i.a.x.IEZ i.a.t := by
  have := E_expand i.E (Real.exp (-(i.a.x.k * i.a.t)) * (i.a.x.v - i.a.x.θ) +
    i.a.x.θ + Real.exp (-(i.a.x.k * i.a.t)) * i.a.x.IEZ i.a.t)
    (i.a.x.σ * Real.exp (-(i.a.x.k * i.a.t))) 1
  rw [pow_one] at this
  rw [vAt, this]
  simp [Finset.sum_range_succ, E_one, E_X]

theorem zv_one (a : Pt) (l : ℤ) (hl : l = 1) : zv a.x a.t [l] [] = a.x.IEZ a.t := by
  subst hl
  obtain ⟨x, t, hk, hs, ht⟩ := a
  dsimp only
  have := zval_snoc x hs t ht (emb [] []) (emb_ok [] [] rfl)
  rw [snoc_emb [] [] rfl, ← zv_emb, zv_nil, mul_one] at this
  rw [zv_emb]
  exact this.symm

theorem momentV_spec (m : ℕ) : ∃ r, momentV m = .ok r ∧ r.keyfor = kf ∧ r.WF ∧ r.NoZero ∧
    r.Keys SOK ∧ ∀ i : PtE, ev (sval i.a.x i.a.t) r = i.E (vAt i.a.x i.a.t ^ m) := by
  match m with
  | 0 =>
    refine ⟨⟨kf, [(⟨[0, 0, 0, 0, 0], [], []⟩, 1)]⟩, by decide +kernel, rfl, by simp [Poly.WF],
      by simp [Poly.NoZero], ?_, fun i => ?_⟩
    · intro y hy
      simp only [List.mem_cons, List.not_mem_nil, or_false] at hy
      subst hy; simp [SOK, ix]
    · rw [pow_zero, E_one]
      simp [Poly.ev, sval, ix, zv_nil]
  | 1 =>
    refine ⟨⟨kf, [(⟨[1, 0, 0, 0, -1], [], []⟩, 1),
      (⟨[0, 0, 1, 0, -1], [], []⟩, -1), (⟨[0, 0, 1, 0, 0], [], []⟩, 1),
      (⟨[0, 0, 0, 0, -1], [1], []⟩, 1)]⟩, by decide +kernel, rfl, by simp [Poly.WF],
      by simp [Poly.NoZero], ?_, fun i => ?_⟩
    · intro y hy
      simp only [List.mem_cons, List.not_mem_nil, or_false] at hy
      rcases hy with rfl | rfl | rfl | rfl <;> simp [SOK, ix]
    · rw [pow_one, E_vAt]
      simp [Poly.ev, sval, ix, zv_nil, zv_one]
      ring
  | m + 2 => exact momentV_two (m + 2) (by omega)

theorem cmomentV_spec (m : ℕ) : ∃ r, cmomentV m = .ok r ∧ r.keyfor = kf ∧ r.WF ∧ r.Keys SOK ∧
    ∀ i : PtE, ev (sval i.a.x i.a.t) r =
      i.E ((vAt i.a.x i.a.t - C (i.E (vAt i.a.x i.a.t))) ^ m) := by
  obtain ⟨q, eq, -, -, qk, qv⟩ := momentIE_spec m
  refine ⟨_, by rw [cmomentV, eq]; rfl, by simp, ofTerms_WF _ _, ?_, fun i => ?_⟩
  · apply ofTerms_Keys
    intro y hy
    obtain ⟨⟨⟨b, l, o⟩, p⟩, he, rfl⟩ := List.mem_map.1 hy
    obtain ⟨⟨h1, h2, h3, h4, h5⟩, h6⟩ := qk _ he
    dsimp only at h1 h2 h3 h4 h5 h6
    exact ⟨rfl, h2, h3, by change 0 ≤ ix b 3 + m; omega, h5⟩
  · rw [ev_ofTerms_map _ (fun κ => (i.a.x.σ * Real.exp (-(i.a.x.k * i.a.t))) ^ m * sval i.a.x i.a.t κ)]
    · rw [ev_mul_const]
      have : vAt i.a.x i.a.t - C (i.E (vAt i.a.x i.a.t)) =
          C (i.a.x.σ * Real.exp (-(i.a.x.k * i.a.t))) * X := by
        rw [E_vAt, vAt]; ring
      rw [this, mul_pow (C _), ← C_pow, ← Polynomial.smul_eq_C_mul, map_smul, smul_eq_mul]
      obtain ⟨a, E, M, hM, hE⟩ := i
      dsimp only
      rw [hE, qv a M hM]
    · rintro ⟨⟨b, l, o⟩, p⟩ he
      obtain ⟨⟨h1, h2, h3, h4, h5⟩, h6⟩ := qk _ he
      dsimp only at h1 h2 h3 h4 h5 h6
      dsimp only
      congr 1
      simp only [sval, ix, List.getD_cons_zero, List.getD_cons_succ] at h4 ⊢
      rw [zpow_add_nn _ _ _ h4 (by omega), zpow_natCast,
        show (((b.getD 4 0 - m : ℤ)) : ℝ) * i.a.x.k * i.a.t =
          b.getD 4 0 * i.a.x.k * i.a.t + m * (-(i.a.x.k * i.a.t)) by push_cast; ring, Real.exp_add,
        Real.exp_nat_mul, mul_pow]
      ring

end Ajd.SrjdJ

end -- SrjdJump2

section -- SrjdJump3

/-! Lemmas about the moments of the SRJD variance given the jumps: `fZ`, `poly2num`, solutions of the
moment equation. -/

namespace Ajd.SrjdJ
open Poly Utils ItoCond MeasureTheory Polynomial

theorem pyGet_zeros (n i : ℕ) : pyGet (List.replicate n (0 : ℤ)) i =
    if i < n then .ok 0 else .error .indexError := by
  rw [pyGet, List.getElem?_replicate]
  split_ifs <;> rfl

theorem fZInner_eq (l o : List ℤ) (k : ℝ) (s J : List ℝ) (index : List ℕ) (st : ℝ × ℝ) (i : ℕ) :
    fZInner l o k s J index st i = Utils.fZInner l (List.replicate l.length 0) o
      (List.replicate o.length 0) k s J index st i := by
  unfold fZInner Utils.fZInner
  cases h1 : pyGet index i with
  | error e => rfl
  | ok j =>
    simp only [ok_bind]
    cases h2 : pyGet s j with
    | error e => rfl
    | ok sj =>
      simp only [ok_bind]
      cases h3 : pyGet l i with
      | error e => rfl
      | ok li =>
        simp only [ok_bind]
        cases h4 : pyGet J j with
        | error e => rfl
        | ok Jj =>
          have hi : i < l.length := by
            by_contra h
            rw [pyGet, List.getElem?_eq_none (by omega)] at h3
            cases h3
          simp only [ok_bind, pyGet_zeros, if_pos hi, zpow_zero, mul_one]
          split_ifs with h5 h6 h7
          · cases h8 : pyGet o (i - 1) with
            | error e => rfl
            | ok oi => simp only [ok_bind, zpow_zero, mul_one]
          · have : pyGet o (i - 1) = .error .indexError := by
              rw [pyGet, List.getElem?_eq_none (by omega)]
            rw [this]; rfl
          · cases h8 : pyGet o (i - 1) with
            | error e => rfl
            | ok oi => simp only [ok_bind, zpow_zero, mul_one]
          · have : pyGet o (i - 1) = .error .indexError := by
              rw [pyGet, List.getElem?_eq_none (by omega)]
            rw [this]; rfl
          · rfl

theorem fZ_eq (fuel : ℕ) (l o : List ℤ) (k : ℝ) (s J : List ℝ) : fZ fuel l o k s J =
    Utils.fZ fuel l (List.replicate l.length 0) o (List.replicate o.length 0) k s J := by
  have : fZInner l o k s J = Utils.fZInner l (List.replicate l.length 0) o
      (List.replicate o.length 0) k s J := by
    funext index st i
    exact fZInner_eq ..
  unfold fZ Utils.fZ fZIndex fZEachIndex
  rw [this]

/-- the sum over all tuples of jumps in the lists `s`, `J` -/
noncomputable def fSum (l o : List ℤ) (k : ℝ) (s J : List ℝ) : ℝ :=
  ∑ j : Fin l.length → Fin J.length,
    (∏ i : Fin l.length, (Real.exp (l.getD i 0 * k * s.getD (j i) 0) * J.getD (j i) 0)) *
    ∏ i : Fin l.length, if (i : ℕ) = 0 then 1 else
      Real.exp (o.getD (i - 1) 0 * k * runMax (fun a : Fin J.length => s.getD a 0) j i)

theorem fZ_spec (l o : List ℤ) (k : ℝ) (s J : List ℝ) (ho : o.length = l.length - 1)
    (hs : J.length ≤ s.length) : ∃ c, ∀ fuel, c ≤ fuel → fZ fuel l o k s J =
      some (.ok (fSum l o k s J)) := by
  obtain ⟨c, h⟩ := fZ_total l (List.replicate l.length 0) o (List.replicate o.length 0) k s J
    (by simp) (by omega) (by simp; omega) hs
  refine ⟨c, fun fuel hf => ?_⟩
  rw [fZ_eq, h fuel hf]
  congr 2
  exact fZSpec_emb l o k (fun j : Fin J.length => s.getD j 0) (fun j => J.getD j 0)

theorem Par.OK.nonneg {p : Par} (hp : p.OK) (i : Fin p.cir.N) : 0 ≤ p.cir.s i := by
  have hi : (i : ℕ) < p.jumptime.length := hp.len ▸ i.2
  change 0 ≤ p.jumptime.getD i 0
  rw [List.getD_eq_getElem _ _ hi]
  exact (hp.time _ (List.getElem_mem hi)).1

theorem Par.OK.le {p : Par} (hp : p.OK) (i : Fin p.cir.N) : p.cir.s i ≤ p.h := by
  have hi : (i : ℕ) < p.jumptime.length := hp.len ▸ i.2
  change p.jumptime.getD i 0 ≤ _
  rw [List.getD_eq_getElem _ _ hi]
  exact (hp.time _ (List.getElem_mem hi)).2

theorem zv_fSum {p : Par} (hp : p.OK) (l o : List ℤ) :
    zv p.cir p.h l o = fSum l o p.k p.jumptime p.jumpsize := by
  unfold zv fSum
  apply Finset.sum_congr rfl
  intro j _
  congr 1
  apply Finset.prod_congr rfl
  intro i _
  rw [ItoCond.Par.upTo, if_pos (hp.le _)]
  rfl

theorem evalLoop_spec {p : Par} (hp : p.OK) (L : List (SKey × ℚ)) (hL : ∀ e ∈ L, SOK e.1) :
    ∃ c, ∀ fuel, c ≤ fuel → ∀ f, evalLoop fuel p f L =
      some (.ok (f + (L.map fun e => e.2 • sval p.cir p.h e.1).sum)) := by
  induction L with
  | nil => exact ⟨0, fun fuel _ f => by simp [evalLoop]⟩
  | cons e L ih =>
    obtain ⟨c1, h1⟩ := ih fun e he => hL e (by simp [he])
    obtain ⟨c2, h2⟩ := fZ_spec e.1.l e.1.o p.k p.jumptime p.jumpsize (hL e (by simp)).2.2.2.2 hp.len.ge
    refine ⟨max c1 c2, fun fuel hf f => ?_⟩
    rw [evalLoop, h2 fuel (le_trans (le_max_right _ _) hf)]
    simp only
    rw [h1 fuel (le_trans (le_max_left _ _) hf), List.map_cons, List.sum_cons, ← add_assoc,
      Rat.smul_def, sval, zv_fSum hp]
    congr 4
    change _ = _ * (p.v0 ^ _ * p.k ^ _ * p.theta ^ _ * p.sigma ^ _ * _ * _)
    simp only [Par.cir]
    ring

theorem poly2num_spec {p : Par} (hp : p.OK) (P : SPoly) (hP : P.Keys SOK) :
    ∃ c, ∀ fuel, c ≤ fuel → poly2num fuel P p = some (.ok (ev (sval p.cir p.h) P)) := by
  obtain ⟨c, h⟩ := evalLoop_spec hp P.items hP
  exact ⟨c, fun fuel hf => by rw [poly2num, h fuel hf, zero_add]; rfl⟩

/-! ### the moment equation has exactly one solution -/

/-- the solution of the moment equation -/
noncomputable def ieSol (x : ItoCond.Par) : ℕ → ℝ → ℝ
  | 0, _ => 1
  | 1, _ => 0
  | m + 2, t => ((m : ℝ) + 2) * (m + 1) / 2 *
    ((x.v - x.θ) * (∫ s in (0 : ℝ)..t, Real.exp (x.k * s) * ieSol x m s) +
      x.θ * (∫ s in (0 : ℝ)..t, Real.exp (2 * x.k * s) * ieSol x m s) +
      (∫ s in (0 : ℝ)..t, Real.exp (x.k * s) * (x.IEZ s * ieSol x m s)) +
      x.σ * ∫ s in (0 : ℝ)..t, Real.exp (x.k * s) * ieSol x (m + 1) s)

theorem ieSol_rec (x : ItoCond.Par) : IERec x (ieSol x) :=
  ⟨fun t _ => by rw [ieSol], fun t _ => by rw [ieSol], fun m t _ => by rw [ieSol]⟩

theorem IERec.unique {x : ItoCond.Par} {M : ℕ → ℝ → ℝ} (h : IERec x M) (m : ℕ) (t : ℝ) (ht : 0 ≤ t) :
    M m t = ieSol x m t := by
  induction m using Nat.strong_induction_on generalizing t with
  | _ m ih =>
    match m with
    | 0 => rw [h.zero t ht, ieSol]
    | 1 => rw [h.one t ht, ieSol]
    | m + 2 =>
      rw [h.step m t ht, ieSol]
      congr 1
      have e1 : ∀ s, 0 ≤ s → M m s = ieSol x m s := fun s hs => ih m (by omega) s hs
      have e2 : ∀ s, 0 ≤ s → M (m + 1) s = ieSol x (m + 1) s := fun s hs => ih (m + 1) (by omega) s hs
      rw [Srjd.int_congr t ht _ _ fun u hu _ => by rw [e1 u hu],
        Srjd.int_congr t ht (fun s => Real.exp (2 * x.k * s) * M m s) _ fun u hu _ => by rw [e1 u hu],
        Srjd.int_congr t ht (fun s => Real.exp (x.k * s) * (x.IEZ s * M m s)) _
          fun u hu _ => by rw [e1 u hu],
        Srjd.int_congr t ht (fun s => Real.exp (x.k * s) * M (m + 1) s) _ fun u hu _ => by rw [e2 u hu]]

/-- the linear functional with given moments -/
noncomputable def momE (M : ℕ → ℝ) : ℝ[X] →ₗ[ℝ] ℝ where
  toFun q := q.sum fun i c => c * M i
  map_add' p q := by
    rw [Polynomial.sum_add_index] <;> intros <;> ring
  map_smul' c q := by
    rw [Polynomial.sum_smul_index _ _ _ (fun i => by ring), RingHom.id_apply, smul_eq_mul,
      Polynomial.sum, Polynomial.sum, Finset.mul_sum]
    exact Finset.sum_congr rfl fun i _ => by ring

theorem momE_X (M : ℕ → ℝ) (i : ℕ) : momE M (X ^ i) = M i := by
  change (X ^ i : ℝ[X]).sum (fun i c => c * M i) = _
  rw [← Polynomial.monomial_one_right_eq_X_pow, Polynomial.sum_monomial_index _ _ (by simp), one_mul]

/-- the recursion is the case `n2 = n3 = 0` of the recursion for the joint moments -/
theorem IERec.of_joint {x : ItoCond.Par} {M : ℕ → ℕ → ℕ → ℝ → ℝ} (h : ItoRecZ x M) :
    IERec x fun m => M m 0 0 := by
  refine ⟨h.zero, fun t ht => ?_, fun m t ht => ?_⟩
  · rw [h.step 1 0 0 (by omega) t ht]; simp
  · rw [h.step (m + 2) 0 0 (by omega) t ht, quad]
    simp only [Nat.add_sub_cancel, show m + 2 - 1 = m + 1 by omega]
    push_cast
    norm_num
    ring

end Ajd.SrjdJ

end -- SrjdJump3
