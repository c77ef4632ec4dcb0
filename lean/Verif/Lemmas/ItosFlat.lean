import Verif.Lemmas.ItosInst

/-! The moments of `I*` that the code computes, if the volatilities of the two variances are 0. -/

namespace Ajd.Itos
open MeasureTheory Poly

/-- only `I*` occurs -/
def Star (i : Idx) : Prop := i.1 = 0 ∧ i.2.1 = 0 ∧ i.2.2.1 = 0 ∧ i.2.2.2.1 = 0

/-- what is known of the exponents -/
def GS (i : Idx) (e : ℤ × ℤ) : Prop := e.1 ≤ i.1 ∧ e.2 ≤ i.2.2.1

instance (i : Idx) (e : ℤ × ℤ) : Decidable (GS i e) := by unfold GS; infer_instance

theorem T2_GS : (T2.all fun e => e.2.items.all fun k => decide (GS e.1 k.1.e)) = true := by
  decide +kernel

theorem flat_G0 (i : Idx) (P : DPoly) (h : dget T2 i = some P) : P.Keys fun k => GS i k.e := by
  intro k hk
  have := List.all_eq_true.1 (List.all_eq_true.1 T2_GS (i, P) (mem_of_dget _ _ _ h)) k hk
  simpa using this

theorem flat_G (i : Idx) (hi : Valid i) (_ : 3 ≤ lev i) (q : Call) (hq : q ∈ calls code i)
    (e e' : ℤ × ℤ) (h : GS q.idx e) (h' : e' = (0, 0) ∨ e' = shift q.i q.m e) : GS i e' := by
  obtain ⟨b, hb, hb1, hq'⟩ := mem_calls code i q hq
  clear hq
  obtain ⟨n4, n5, n6, n7, n8⟩ := i
  obtain ⟨h4, h5, h6, h7, h8⟩ := hi
  rcases h' with rfl | rfl
  · exact ⟨h4, h6⟩
  simp only [GS] at h h4 h5 h6 h7 h8 ⊢
  simp only [cases, List.mem_cons, List.not_mem_nil, or_false] at hb
  rcases hb with rfl | rfl | rfl | rfl | rfl | rfl | rfl <;>
    simp only [decide_eq_true_eq, List.mem_cons, List.not_mem_nil, or_false] at hb1 hq'
  iterate 6
    · rcases hq' with rfl | rfl | rfl | rfl <;> simp only [shift] at h ⊢ <;> norm_num <;> omega
  · rcases hq' with rfl | rfl | rfl | rfl | rfl | rfl | rfl | rfl <;> simp only [shift] at h ⊢ <;> norm_num <;> omega

/-- the code is right for these orders and parameters -/
def OKS (i : Idx) (x : Par) : Prop := Star i ∧ 0 < x.k1 ∧ 0 < x.k2 ∧ x.σ1 = 0 ∧ x.σ2 = 0

theorem sepS (x : Par) (h1 : 0 < x.k1) (h2 : 0 < x.k2) (e : ℤ × ℤ) (he : e.1 ≤ 0 ∧ e.2 ≤ 0) : Sep code x e := by
  obtain ⟨a, b⟩ := e
  simp only at he
  unfold Sep
  by_cases h : a = 0 ∧ b = 0
  · left; obtain ⟨rfl, rfl⟩ := h; exact ⟨rfl, rfl⟩
  · right
    refine ⟨by simp only [code, beq_eq_false_iff_ne]; omega, ?_⟩
    simp only [Par.rate]
    have ha : (a : ℝ) ≤ 0 := by exact_mod_cast he.1
    have hb : (b : ℝ) ≤ 0 := by exact_mod_cast he.2
    rcases (show a < 0 ∨ b < 0 by omega) with h | h
    · have : (a : ℝ) < 0 := by exact_mod_cast h
      nlinarith [mul_neg_of_neg_of_pos this h1, mul_nonpos_of_nonpos_of_nonneg hb h2.le]
    · have : (b : ℝ) < 0 := by exact_mod_cast h
      nlinarith [mul_neg_of_neg_of_pos this h2, mul_nonpos_of_nonpos_of_nonneg ha h1.le]

theorem singleS (i : Idx) (h : Star i) : Single i := by
  obtain ⟨n4, n5, n6, n7, n8⟩ := i
  simp only [Star] at h
  obtain ⟨rfl, rfl, rfl, rfl⟩ := h
  unfold Single cases
  simp only [List.filter_cons]
  norm_num
  split_ifs <;> simp

theorem flat_OK (i : Idx) (_ : Valid i) (_ : 3 ≤ lev i) (x : Par) (h : OKS i x) :
    (code.all = true ∨ Single i) ∧ ∀ q ∈ calls code i, Fine code OKS GS x q := by
  obtain ⟨hs, h1, h2, s1, s2⟩ := h
  refine ⟨Or.inr (singleS i hs), fun q hq => ?_⟩
  obtain ⟨b, hb, hb1, hq'⟩ := mem_calls code i q hq
  clear hq
  obtain ⟨n4, n5, n6, n7, n8⟩ := i
  simp only [Star] at hs
  obtain ⟨rfl, rfl, rfl, rfl⟩ := hs
  simp only [cases, List.mem_cons, List.not_mem_nil, or_false] at hb
  rcases hb with rfl | rfl | rfl | rfl | rfl | rfl | rfl <;>
    simp only [decide_eq_true_eq, List.mem_cons, List.not_mem_nil, or_false] at hb1 hq' <;> try (exfalso; omega)
  rcases hq' with rfl | rfl | rfl | rfl | rfl | rfl | rfl | rfl
  all_goals first
    | (right; simp [fac, s1, s2]; done)
    | (left
       refine ⟨⟨⟨rfl, rfl, rfl, rfl⟩, h1, h2, s1, s2⟩, fun e he => sepS x h1 h2 _ ?_⟩
       simp only [GS] at he
       simp only [shift]
       norm_num
       omega)

theorem flat_moment (n : ℕ) : ∃ P, moment code (0, 0, 0, 0, n) = .ok P ∧ ∀ (x : Par) (M : Fam), ItoRec2 x M → 0 < x.k1 →
    0 < x.k2 → x.σ1 = 0 → x.σ2 = 0 → ∀ t, x.u ≤ t → ev (dval x t) P = M 0 0 0 0 n t := by
  obtain ⟨P, e, g, -⟩ := moment_spec (fun _ _ h => ⟨h.2.1.ne', h.2.2.1.ne'⟩) flat_G0 flat_G flat_OK (0, 0, 0, 0, (n : ℤ))
    ⟨le_rfl, le_rfl, le_rfl, le_rfl, by simp⟩
  refine ⟨P, e, fun x M hM h1 h2 s1 s2 t ht => ?_⟩
  have := g.val ⟨x, M, t, ht, hM⟩ ⟨⟨rfl, rfl, rfl, rfl⟩, h1, h2, s1, s2⟩
  simpa [Fam.at] using this

end Ajd.Itos
