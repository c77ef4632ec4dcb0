import Verif.Lemmas.ItosMom
import Mathlib.MeasureTheory.Integral.IntervalIntegral.Basic

/-! The program as written and the repaired one. -/

namespace Ajd.Itos
open MeasureTheory Poly

/-! ### the repaired program -/

theorem fixed_moment (i : Idx) (hv : Valid i) : ∃ P, moment fixed i = .ok P ∧
    Good (fun _ x => x.Generic) (fun _ _ => True) i P ∧ (3 ≤ lev i → P.NoZero) := by
  apply moment_spec _ _ _ _ i hv
  · intro _ x hx
    exact ⟨by simpa [Par.rate] using hx (1, 0) (by simp), by simpa [Par.rate] using hx (0, 1) (by simp)⟩
  · intro _ _ _ _ _; trivial
  · intros; trivial
  · intro i _ _ x hx
    refine ⟨Or.inl rfl, fun q _ => Or.inl ⟨hx, fun e _ => ?_⟩⟩
    unfold Sep
    by_cases h : shift q.i q.m e = (0, 0)
    · left; rw [h]; exact ⟨rfl, rfl⟩
    · right
      refine ⟨?_, hx _ h⟩
      generalize shift q.i q.m e = n at h
      obtain ⟨a, b⟩ := n
      simp only [Prod.mk.injEq, not_and] at h
      simp only [fixed, Bool.and_eq_false_iff, beq_eq_false_iff_ne]
      by_cases ha : a = 0
      · exact Or.inr (h ha)
      · exact Or.inl ha

/-! ### the code -/

/-- orders of one factor in which only `IE` occurs with a power of 2 or more -/
def R1 (i : Idx) : Prop := i.2.1 = 0 ∧ i.2.2.1 + i.2.2.2.1 + i.2.2.2.2 ≤ 1
/-- the same for the second factor -/
def R2 (i : Idx) : Prop := i.2.2.2.1 = 0 ∧ i.1 + i.2.1 + i.2.2.2.2 ≤ 1

/-- the orders of total 3 that the code gets wrong -/
def wrong3 : List Idx := [(2, 1, 0, 0, 0), (1, 2, 0, 0, 0), (0, 0, 2, 1, 0), (0, 0, 1, 2, 0)]

/-- orders for which the code is right -/
def Right (i : Idx) : Prop := lev i ≤ 2 ∨ (lev i = 3 ∧ i ∉ wrong3) ∨ R1 i ∨ R2 i

/-- what is known of the exponents -/
def GC (i : Idx) (e : ℤ × ℤ) : Prop := lev i ≠ 1 ∧
  (lev i = 2 → (1 ≤ i.1 → e.2 = 0) ∧ (1 ≤ i.2.2.1 → e.1 = 0)) ∧
  (R1 i → e.2 = 0 ∧ 0 ≤ e.1) ∧ (R2 i → e.1 = 0 ∧ 0 ≤ e.2)

instance (i : Idx) (e : ℤ × ℤ) : Decidable (GC i e) := by unfold GC R1 R2; infer_instance
instance (i : Idx) : Decidable (Single i) := by unfold Single; infer_instance

theorem T2_GC : (T2.all fun e => e.2.items.all fun k => decide (GC e.1 k.1.e)) = true := by
  decide +kernel

theorem code_G0 (i : Idx) (P : DPoly) (h : dget T2 i = some P) : P.Keys fun k => GC i k.e := by
  intro k hk
  have := List.all_eq_true.1 (List.all_eq_true.1 T2_GC (i, P) (mem_of_dget _ _ _ h)) k hk
  simpa using this

theorem code_G (i : Idx) (hi : Valid i) (hl : 3 ≤ lev i) (q : Call) (hq : q ∈ calls code i)
    (e e' : ℤ × ℤ) (h : GC q.idx e) (h' : e' = (0, 0) ∨ e' = shift q.i q.m e) : GC i e' := by
  obtain ⟨b, hb, hb1, hq'⟩ := mem_calls code i q hq
  clear hq
  refine ⟨by omega, by omega, ?_, ?_⟩ <;>
  · intro hr
    rcases h' with rfl | rfl
    · simp
    obtain ⟨_, _, h1, h2⟩ := h
    obtain ⟨n4, n5, n6, n7, n8⟩ := i
    obtain ⟨h4, h5, h6, h7, h8⟩ := hi
    simp only [lev, R1, R2] at h4 h5 h6 h7 h8 hl hr
    simp only [cases, List.mem_cons, List.not_mem_nil, or_false] at hb
    rcases hb with rfl | rfl | rfl | rfl | rfl | rfl | rfl <;>
      simp only [decide_eq_true_eq, List.mem_cons, List.not_mem_nil, or_false] at hb1 hq' <;>
      try (exfalso; omega)
    rcases hq' with rfl | rfl | rfl | rfl <;> simp only [R1, R2, shift] at h1 h2 ⊢ <;> norm_num <;> omega

theorem single3 (i : Idx) (hi : Valid i) (hl : lev i = 3) (h : i ∉ wrong3) : Single i := by
  obtain ⟨a, b, c, d, e⟩ := i
  obtain ⟨h1, h2, h3, h4, h5⟩ := hi
  simp only [lev] at h1 h2 h3 h4 h5 hl
  have : (a = 0 ∨ a = 1 ∨ a = 2 ∨ a = 3) ∧ (b = 0 ∨ b = 1 ∨ b = 2 ∨ b = 3) ∧
    (c = 0 ∨ c = 1 ∨ c = 2 ∨ c = 3) ∧ (d = 0 ∨ d = 1 ∨ d = 2 ∨ d = 3) := by omega
  obtain ⟨ha, hb, hc, hd⟩ := this
  obtain rfl : e = 3 - a - b - c - d := by omega
  clear h5 hl
  revert h
  rcases ha with rfl | rfl | rfl | rfl <;> rcases hb with rfl | rfl | rfl | rfl <;> try (exfalso; omega)
  all_goals rcases hc with rfl | rfl | rfl | rfl <;> try (exfalso; omega)
  all_goals rcases hd with rfl | rfl | rfl | rfl <;> try (exfalso; omega)
  all_goals decide +kernel

theorem singleR (i : Idx) (hi : Valid i) (h : R1 i ∨ R2 i) : Single i := by
  obtain ⟨n4, n5, n6, n7, n8⟩ := i
  obtain ⟨h4, h5, h6, h7, h8⟩ := hi
  simp only [R1, R2] at h4 h5 h6 h7 h8 h
  unfold Single cases
  dsimp only
  rcases h with h | h
  · rw [decide_eq_false (show ¬ (n4 ≥ 0 ∧ n5 ≥ 2 ∧ n6 ≥ 0 ∧ n7 ≥ 0 ∧ n8 ≥ 0) by omega),
      decide_eq_false (show ¬ (n4 ≥ 1 ∧ n5 ≥ 1 ∧ n6 ≥ 0 ∧ n7 ≥ 0 ∧ n8 ≥ 0) by omega),
      decide_eq_false (show ¬ (n4 ≥ 0 ∧ n5 ≥ 0 ∧ n6 ≥ 2 ∧ n7 ≥ 0 ∧ n8 ≥ 0) by omega),
      decide_eq_false (show ¬ (n4 ≥ 0 ∧ n5 ≥ 0 ∧ n6 ≥ 0 ∧ n7 ≥ 2 ∧ n8 ≥ 0) by omega),
      decide_eq_false (show ¬ (n4 ≥ 0 ∧ n5 ≥ 0 ∧ n6 ≥ 1 ∧ n7 ≥ 1 ∧ n8 ≥ 0) by omega),
      decide_eq_false (show ¬ (n4 ≥ 0 ∧ n5 ≥ 0 ∧ n6 ≥ 0 ∧ n7 ≥ 0 ∧ n8 ≥ 2) by omega)]
    simp only [List.filter_cons]
    split_ifs <;> first | contradiction | simp
  · rw [decide_eq_false (show ¬ (n4 ≥ 0 ∧ n5 ≥ 2 ∧ n6 ≥ 0 ∧ n7 ≥ 0 ∧ n8 ≥ 0) by omega),
      decide_eq_false (show ¬ (n4 ≥ 1 ∧ n5 ≥ 1 ∧ n6 ≥ 0 ∧ n7 ≥ 0 ∧ n8 ≥ 0) by omega),
      decide_eq_false (show ¬ (n4 ≥ 2 ∧ n5 ≥ 0 ∧ n6 ≥ 0 ∧ n7 ≥ 0 ∧ n8 ≥ 0) by omega),
      decide_eq_false (show ¬ (n4 ≥ 0 ∧ n5 ≥ 0 ∧ n6 ≥ 0 ∧ n7 ≥ 2 ∧ n8 ≥ 0) by omega),
      decide_eq_false (show ¬ (n4 ≥ 0 ∧ n5 ≥ 0 ∧ n6 ≥ 1 ∧ n7 ≥ 1 ∧ n8 ≥ 0) by omega),
      decide_eq_false (show ¬ (n4 ≥ 0 ∧ n5 ≥ 0 ∧ n6 ≥ 0 ∧ n7 ≥ 0 ∧ n8 ≥ 2) by omega)]
    simp only [List.filter_cons]
    split_ifs <;> first | contradiction | simp

theorem sep1 (x : Par) (h : x.k1 ≠ 0) (a : ℤ) : Sep code x (a, 0) := by
  unfold Sep
  by_cases ha : a = 0
  · left; subst ha; exact ⟨rfl, rfl⟩
  · right; simp [code, ha, Par.rate, h]

theorem sep2 (x : Par) (h : x.k2 ≠ 0) (a : ℤ) : Sep code x (0, a) := by
  unfold Sep
  by_cases ha : a = 0
  · left; subst ha; exact ⟨rfl, rfl⟩
  · right; simp [code, ha, Par.rate, h]

theorem code_sub (i : Idx) (hi : Valid i) (hl : 3 ≤ lev i) (x : Par) (hk : x.k1 ≠ 0 ∧ x.k2 ≠ 0)
    (hR : lev i = 3 ∨ R1 i ∨ R2 i) (q : Call) (hq : q ∈ calls code i) :
    Right q.idx ∧ ∀ e, GC q.idx e → Sep code x (shift q.i q.m e) := by
  have hx := calls_idx code i hi q hq
  obtain ⟨b, hb, hb1, hq'⟩ := mem_calls code i q hq
  clear hq
  have s1 : ∀ e : ℤ × ℤ, ∀ m, e.2 = 0 → Sep code x (shift 1 m e) := by
    intro e m he
    simp only [shift, if_pos, he]
    exact sep1 x hk.1 _
  have s2 : ∀ e : ℤ × ℤ, ∀ m, e.1 = 0 → Sep code x (shift 2 m e) := by
    intro e m he
    rw [shift, if_neg (by norm_num), he]
    exact sep2 x hk.2 _
  have hc : (q.i = 1 ∧ (lev q.idx = lev i - 2 ∨ 1 ≤ q.idx.1)) ∨
      (q.i = 2 ∧ (lev q.idx = lev i - 2 ∨ 1 ≤ q.idx.2.2.1)) := by
    obtain ⟨n4, n5, n6, n7, n8⟩ := i
    obtain ⟨h4, h5, h6, h7, h8⟩ := hi
    simp only at h4 h5 h6 h7 h8
    simp only [cases, List.mem_cons, List.not_mem_nil, or_false] at hb
    simp only [lev]
    rcases hb with rfl | rfl | rfl | rfl | rfl | rfl | rfl <;>
      simp only [decide_eq_true_eq, List.mem_cons, List.not_mem_nil, or_false] at hb1 hq'
    iterate 6
      · rcases hq' with rfl | rfl | rfl | rfl <;> dsimp only <;> omega
    · rcases hq' with rfl | rfl | rfl | rfl | rfl | rfl | rfl | rfl <;> dsimp only <;> omega
  rcases hR with h3 | hR
  · refine ⟨Or.inl (by omega), fun e he => ?_⟩
    obtain ⟨h1, h2, _⟩ := he
    have h2 := h2 (by omega)
    rcases hc with ⟨hi', h⟩ | ⟨hi', h⟩
    · rw [hi']; exact s1 e _ (h2.1 (by omega))
    · rw [hi']; exact s2 e _ (h2.2 (by omega))
  · have : (q.i = 1 ∧ R1 q.idx) ∨ (q.i = 2 ∧ R2 q.idx) := by
      obtain ⟨n4, n5, n6, n7, n8⟩ := i
      obtain ⟨h4, h5, h6, h7, h8⟩ := hi
      simp only [lev, R1, R2] at h4 h5 h6 h7 h8 hl hR
      simp only [cases, List.mem_cons, List.not_mem_nil, or_false] at hb
      simp only [R1, R2]
      rcases hb with rfl | rfl | rfl | rfl | rfl | rfl | rfl <;>
        simp only [decide_eq_true_eq, List.mem_cons, List.not_mem_nil, or_false] at hb1 hq'
      iterate 6
        · rcases hq' with rfl | rfl | rfl | rfl <;> dsimp only <;> omega
      · omega
    rcases this with ⟨hi', h⟩ | ⟨hi', h⟩
    · exact ⟨Or.inr (Or.inr (Or.inl h)), fun e he => by rw [hi']; exact s1 e _ (he.2.2.1 h).1⟩
    · exact ⟨Or.inr (Or.inr (Or.inr h)), fun e he => by rw [hi']; exact s2 e _ (he.2.2.2 h).1⟩

/-- the code is right for these orders and rates -/
def OKC (i : Idx) (x : Par) : Prop := Right i ∧ x.k1 ≠ 0 ∧ x.k2 ≠ 0

theorem code_OK (i : Idx) (hi : Valid i) (hl : 3 ≤ lev i) (x : Par) (h : OKC i x) :
    (code.all = true ∨ Single i) ∧
      ∀ q ∈ calls code i, Fine code OKC GC x q := by
  obtain ⟨hR, hk⟩ := h
  rcases hR with h | h | h
  · omega
  · refine ⟨Or.inr (single3 i hi h.1 h.2), fun q hq => ?_⟩
    obtain ⟨a, b⟩ := code_sub i hi hl x hk (Or.inl h.1) q hq
    exact Or.inl ⟨⟨a, hk⟩, b⟩
  · refine ⟨Or.inr (singleR i hi h), fun q hq => ?_⟩
    obtain ⟨a, b⟩ := code_sub i hi hl x hk (Or.inr h) q hq
    exact Or.inl ⟨⟨a, hk⟩, b⟩

theorem code_moment (i : Idx) (hv : Valid i) : ∃ P, moment code i = .ok P ∧ Good OKC GC i P ∧
    (3 ≤ lev i → P.NoZero) :=
  moment_spec (fun _ _ h => h.2) code_G0 code_G code_OK i hv

/-- order 3: the value is that of the first applicable case -/
theorem code_moment3 (i : Idx) (hv : Valid i) (hl : lev i = 3) : ∃ P, moment code i = .ok P ∧
    ∀ y : Env, y.x.k1 ≠ 0 → y.x.k2 ≠ 0 →
      ev (dval y.x y.t) P = ((calls code i).map (callVal y.x y.M y.t)).sum := by
  have hb : TabGood (Good OKC GC) (fun j => Valid j ∧ lev j < lev i) T2 := by
    rw [hl]
    exact T2_good (fun _ _ h => h.2) code_G0
  obtain ⟨v, e, _, _, _, _, h⟩ := recursive_val code_G i hv (by omega) T2 hb
  refine ⟨v.removeZero, ?_, fun y h1 h2 => ?_⟩
  · rw [moment, momentAll, if_neg (by omega), table2_eq, ok_bind, if_neg (by omega)]
    dsimp only
    rw [if_neg (by omega), pure_bind, step, e, ok_bind]
    simp only [pure_bind, lookup]
    rw [dget_dset, if_pos rfl]
  · rw [ev_removeZero]
    apply h y
    intro q hq
    obtain ⟨a, b⟩ := code_sub i hv (by omega) y.x ⟨h1, h2⟩ (Or.inl hl) q hq
    exact Or.inl ⟨⟨a, h1, h2⟩, b⟩

end Ajd.Itos
