import Verif.Lemmas.ItosInst

/-! The moments of `itos_mom.py` in another unit of time. -/

namespace Ajd.Itos
open Poly

/-- the sum of the exponents of the denominators -/
def dsum (d : List Den) : ℤ := (d.map fun t => t.2.2).sum

/-- the power of the unit of time in a key -/
def wt (k : DKey) : ℤ :=
  ix k.c 1 + ix k.c 2 + ix k.c 3 + ix k.c 4 + ix k.c 5 + ix k.c 6 - dsum k.d - ix k.c 0

theorem intEtNat_wt (g : Cfg) (n1 n2 : ℤ) (m : ℕ) : (intEtNat g n1 n2 m).Keys fun k => k.d.2.2 + k.p = (m : ℤ) + 1 := by
  unfold intEtNat
  split_ifs with h1 h2 h3
  · apply ofTerms_Keys
    intro x hx
    simp at hx; subst hx
    simp [h1.2]
  · apply ofTerms_Keys
    intro x hx
    simp at hx; subst hx
    simp
  · apply ofTerms_Keys
    intro x hx
    simp at hx
    rcases hx with rfl | rfl <;> simp [h3]
  · apply ofTerms_Keys
    intro x hx
    rcases List.mem_cons.1 hx with rfl | hx
    · dsimp only; omega
    · obtain ⟨i, hi, hx⟩ := List.mem_flatMap.1 hx
      obtain ⟨j, hj, rfl⟩ := List.mem_map.1 hi
      unfold etTerms at hx
      rcases List.mem_cons.1 hx with rfl | hx
      · simp only [cC]; omega
      · split_ifs at hx with h
        · simp at hx; subst hx
          simp only [cC]; omega
        · simp at hx

theorem bump_dsum (t : Den) (t0 l : List Den) (h : bump t t0 = some l) : dsum l = t.2.2 + dsum t0 := by
  induction t0 generalizing l with
  | nil => simp [bump] at h
  | cons s r ih =>
    unfold bump at h
    split_ifs at h with hs
    · cases h
      simp only [dsum, List.map_cons, List.sum_cons]
      ring
    · cases hb : bump t r with
      | none => rw [hb] at h; simp at h
      | some l' =>
        rw [hb] at h
        simp at h
        subst h
        have := ih l' hb
        simp only [dsum, List.map_cons, List.sum_cons] at this ⊢
        omega

theorem tMulT0_dsum (t : Den) (t0 l : List Den) (h : tMulT0 t t0 = .ok l) : dsum l = t.2.2 + dsum t0 := by
  unfold tMulT0 at h
  split_ifs at h with hi
  · cases h
    omega
  · cases hb : bump t t0 with
    | some l' =>
      rw [hb] at h
      cases h
      exact bump_dsum t t0 _ hb
    | none =>
      rw [hb] at h
      cases t0 with
      | nil => cases h
      | cons s r =>
        dsimp only at h
        split_ifs at h with hs
        · cases h
          simp [dsum]
        · cases h
          rw [not_not] at hs
          simp [dsum, hs]

theorem mapM_mem {α β : Type} (f : α → Except PyErr β) (l : List α) (r : List β) (h : l.mapM f = .ok r) (y : β) (hy : y ∈ r) :
    ∃ a ∈ l, f a = .ok y := by
  induction l generalizing r with
  | nil =>
    rw [List.mapM_nil] at h
    cases h
    simp at hy
  | cons a l ih =>
    rw [List.mapM_cons] at h
    cases hf : f a with
    | error e => rw [hf] at h; cases h
    | ok b =>
      rw [hf] at h
      cases hl : l.mapM f with
      | error e => rw [hl] at h; cases h
      | ok t =>
        rw [hl] at h
        cases h
        rcases List.mem_cons.1 hy with rfl | hy
        · exact ⟨a, by simp, hf⟩
        · obtain ⟨c, hc, e⟩ := ih t hl hy
          exact ⟨c, by simp [hc], e⟩

theorem intMTerms_wt (g : Cfg) (i : ℕ) (m : ℤ) (e : DKey × ℚ) (he : KOK e.1) (ts : List (DKey × ℚ))
    (h : intMTerms g i m e = .ok ts) (y : DKey × ℚ) (hy : y ∈ ts) : wt y.1 = wt e.1 - 1 := by
  have h0 := he.2.2 0
  unfold intMTerms at h
  dsimp only at h
  rw [intEt, if_neg (by omega), ok_bind] at h
  obtain ⟨k2, hk2, e2⟩ := mapM_mem _ _ _ h y hy
  have hw := intEtNat_wt g _ _ _ k2 hk2
  cases ht : tMulT0 k2.1.d e.1.d with
  | error e => rw [ht] at e2; cases e2
  | ok t0 =>
    rw [ht] at e2
    cases e2
    have := tMulT0_dsum _ _ _ ht
    simp only [wt, ix_cons_zero, ix_cons_succ]
    omega

theorem intM_wt (g : Cfg) (i : ℕ) (m : ℤ) (P : DPoly) (hP : P.Keys KOK) (w : ℤ) (hw : P.Keys fun k => wt k = w) (Q : DPoly)
    (hQ : intM g i m P = .ok Q) : Q.Keys fun k => wt k = w - 1 := by
  obtain ⟨Q', e, -, -, hK, -⟩ := subst_spec (ι := Empty) (M := ℚ) kf (intMTerms g i m) P (fun k => wt k = w - 1)
    (fun y => y.elim) (fun y => y.elim) (by
      intro e he
      obtain ⟨ts, e1, -, -⟩ := intMTerms_spec g i m e (hP e he)
      exact ⟨ts, e1, fun y hy => by rw [intMTerms_wt g i m e (hP e he) ts e1 y hy, hw e he], fun y => y.elim⟩)
  rw [show intM g i m P = subst kf (intMTerms g i m) P from rfl, e] at hQ
  cases hQ
  exact hK

theorem coefPoly_wt (coef : ℚ) (P : DPoly) (tp : ℕ) (w : ℤ) (hw : P.Keys fun k => wt k = w) :
    (coefPoly coef P tp).Keys fun k => wt k = w + 1 := by
  apply ofTerms_Keys
  intro y hy
  obtain ⟨e, he, rfl⟩ := List.mem_map.1 hy
  have := hw e he
  dsimp only at this
  rw [← this]
  unfold coefTerm
  split_ifs <;>
    simp only [wt, inc, List.range_succ, List.range_zero, List.nil_append, List.cons_append, List.map_cons, List.map_nil,
      ix_cons_zero, ix_cons_succ] <;> norm_num <;> ring

/-- a moment does not depend on the unit of time -/
structure Bal (P : DPoly) : Prop where
  kf : P.keyfor = kf
  keys : P.Keys KOK
  wt : P.Keys fun k => wt k = 0

theorem T2_wt : (T2.all fun e => e.2.items.all fun k => decide (wt k.1 = 0)) = true := by
  decide +kernel

theorem T2_bal : TabGood (fun _ => Bal) (fun j => Valid j ∧ lev j < 3) T2 := by
  intro i hi
  obtain ⟨P, e, h⟩ := T2_good (OK := fun _ _ => False) (G := fun _ _ => True) (fun _ _ h => h.elim)
    (fun _ _ _ _ _ => trivial) i hi
  refine ⟨P, e, h.kf, h.keys, fun k hk => ?_⟩
  have := List.all_eq_true.1 (List.all_eq_true.1 T2_wt (i, P) (mem_of_dget _ _ _ e)) k hk
  simpa using this

theorem step_bal (g : Cfg) (i : Idx) (hi : Valid i) (T : List (Idx × DPoly))
    (hT : TabGood (fun _ => Bal) (fun j => Valid j ∧ lev j < lev i) T) : ∃ v, step g i T = .ok v ∧ Bal v := by
  obtain ⟨r, e, rk, -, -, rK, -⟩ := mergeLoop_spec (ι := Empty) (M := ℚ)
    (fun q : Call => do
      let b ← lookup T q.idx
      let p ← intM g q.i q.m b
      pure (coefPoly q.c p q.tp)) (calls g i) (⟨kf, []⟩ : DPoly)
    (fun k => KOK k ∧ wt k = 0) (fun y => y.elim) (fun y => y.elim) (fun x hx => by simp at hx) (by
    intro q hq
    have hidx := calls_idx g i hi q hq
    obtain ⟨P, eP, gP⟩ := hT q.idx ⟨hidx.1, by omega⟩
    obtain ⟨Q, eQ, qk, -, qK, -⟩ := intM_spec g q.i q.m P gP.keys
    have qw := intM_wt g q.i q.m P gP.keys 0 gP.wt Q eQ
    have cw := coefPoly_wt q.c Q q.tp _ qw
    refine ⟨coefPoly q.c Q q.tp, by rw [lookup, eP]; dsimp only; rw [ok_bind, eQ]; rfl, ofTerms_keyfor _ _, ?_,
      fun y => y.elim⟩
    intro y hy
    refine ⟨?_, by simpa using cw y hy⟩
    have : (coefPoly q.c Q q.tp).Keys KOK := by
      apply ofTerms_Keys
      intro y hy
      obtain ⟨e, he, rfl⟩ := List.mem_map.1 hy
      exact (coefTerm_spec ⟨0, 0, 0, 0, 0, 0, 0, 0, 0⟩ 0 q.c q.tp e (qK e he).1).1
    exact this y hy)
  exact ⟨r.removeZero, by rw [step, recursive, e]; rfl, rk, removeZero_Keys _ _ fun k hk => (rK k hk).1,
    removeZero_Keys _ _ fun k hk => (rK k hk).2⟩

theorem moment_bal (g : Cfg) (i : Idx) (hv : Valid i) : ∃ P, moment g i = .ok P ∧ Bal P := by
  have hb := T2_bal
  have hl0 : 0 ≤ lev i := by
    obtain ⟨h1, h2, h3, h4, h5⟩ := hv
    simp only [lev]; omega
  unfold moment momentAll
  rw [if_neg (by omega), table2_eq, ok_bind]
  by_cases hl : lev i ≤ 2
  · rw [if_pos hl]
    obtain ⟨P, e, h⟩ := hb i ⟨hv, by omega⟩
    exact ⟨P, by rw [pure_bind, lookup, e], h⟩
  · rw [if_neg hl]
    have : ∃ T, (if lev i > 3 then fillLevels (step g) idxs (fun _ _ => false) (pyRange 3 (lev i)) T2
        else pure T2 : Except PyErr _) = .ok T ∧
        TabGood (fun _ => Bal) (fun j => Valid j ∧ lev j < lev i) T := by
      split_ifs with h3
      · exact fillLevels_all (fun _ => Bal) Valid lev (step g) idxs 3 (lev i) (by omega)
          (fun n _ _ j => mem_idxs n j) (fun j hj h1 _ T hT => step_bal g j hj T hT) T2 hb
      · exact ⟨T2, rfl, fun j hj => hb j ⟨hj.1, by omega⟩⟩
    obtain ⟨T, e, hT⟩ := this
    obtain ⟨P, e', gP⟩ := step_bal g i hv T hT
    refine ⟨P, ?_, gP⟩
    have e2 : lookup (dset T i P) i = .ok P := by rw [lookup, dget_dset, if_pos rfl]
    dsimp only
    split_ifs at e ⊢ with h3
    · rw [e, ok_bind, e', ok_bind, pure_bind, e2]
    · cases e; simp only [pure_bind, e', ok_bind, e2]

/-- the parameters in another unit of time -/
noncomputable def Par.unit (r : ℝ) (x : Par) : Par :=
  ⟨r * x.k1, r * x.k2, x.u / r, r * x.v1, r * x.θ1, r * x.σ1, r * x.v2, r * x.θ2, r * x.σ2⟩

theorem den_unit {r : ℝ} (hr : r ≠ 0) (x : Par) (d : Den) : den (x.unit r) d = r ^ (-d.2.2) * den x d := by
  rw [den, den, ← mul_zpow]
  congr 1
  simp only [Par.rate, Par.unit]
  ring

theorem dens_unit {r : ℝ} (hr : r ≠ 0) (x : Par) (d : List Den) :
    (d.map (den (x.unit r))).prod = r ^ (-dsum d) * (d.map (den x)).prod := by
  induction d with
  | nil => simp [dsum]
  | cons a d ih =>
    simp only [List.map_cons, List.prod_cons, ih, den_unit hr, dsum, List.sum_cons, neg_add, zpow_add₀ hr]
    ring

theorem dval_unit {r : ℝ} (hr : r ≠ 0) (x : Par) (t : ℝ) (k : DKey) :
    dval (x.unit r) (t / r) k = r ^ wt k * dval x t k := by
  have e1 : ∀ p, (x.unit r).rate p * (x.unit r).u = x.rate p * x.u := fun p => by
    simp only [Par.rate, Par.unit]; field_simp
  have e2 : ∀ p, (x.unit r).rate p * (t / r - (x.unit r).u) = x.rate p * (t - x.u) := fun p => by
    simp only [Par.rate, Par.unit]; field_simp
  have e3 : t / r - (x.unit r).u = r⁻¹ * (t - x.u) := by simp only [Par.unit]; field_simp
  rw [dval, dval, dens_unit hr, e1, e2, e3]
  simp only [Par.unit, mul_zpow, wt, inv_zpow', sub_eq_add_neg, zpow_add₀ hr]
  ring

theorem moment_unit {r : ℝ} (hr : r ≠ 0) (g : Cfg) (i : Idx) (hv : Valid i) (P : DPoly) (hP : moment g i = .ok P) (x : Par)
    (t : ℝ) : ev (dval (x.unit r) (t / r)) P = ev (dval x t) P := by
  obtain ⟨P', e, h⟩ := moment_bal g i hv
  rw [hP] at e
  cases e
  refine ev_congr _ _ _ fun k hk => ?_
  have := h.wt k hk
  dsimp only at this
  rw [dval_unit hr, this, zpow_zero, one_mul]

end Ajd.Itos
