import Verif.Model.Svvj
import Verif.Spec.Svvj
import Verif.Lemmas.Poly
import Mathlib.Data.List.Sort
import Mathlib.Data.List.Nodup

/-! Lemmas for `classify`. -/

namespace Ajd.Svvj
open Poly ItoCond

/-- depth of a key -/
def depth (e : JKey × ℚ) : ℕ := e.1.z.l.length

theorem dset_fresh {K V : Type} [DecidableEq K] (l : List (K × V)) (k : K) (v : V)
    (h : k ∉ l.map Prod.fst) : dset l k v = l ++ [(k, v)] := by
  induction l with
  | nil => rfl
  | cons a t ih =>
    obtain ⟨a, b⟩ := a
    simp only [List.map_cons, List.mem_cons, not_or] at h
    rw [dset, if_neg (Ne.symm h.1), ih h.2]
    rfl

theorem foldl_dset_fresh {A K V : Type} [DecidableEq K] (f : A → K × V) (es : List A)
    (l : List (K × V)) (h : (l.map Prod.fst ++ es.map fun e => (f e).1).Nodup) :
    es.foldl (fun l e => dset l (f e).1 (f e).2) l = l ++ es.map f := by
  induction es generalizing l with
  | nil => simp
  | cons a t ih =>
    rw [List.foldl_cons, dset_fresh, ih]
    · simp
    · simpa [List.nodup_append] using h
    · intro hm
      simp only [List.map_cons, List.nodup_append, List.mem_cons, forall_eq_or_imp] at h
      exact (h.2.2 _ hm).1 rfl

/-- the levels found so far -/
theorem levels_fold (es : List (JKey × ℚ)) (acc : List ℕ) (h : acc.Nodup) :
    (es.foldl (fun (acc : List ℕ) e =>
      if e.1.z.l.length ∈ acc then acc else acc ++ [e.1.z.l.length]) acc).Nodup ∧
    ∀ d, d ∈ es.foldl (fun (acc : List ℕ) e =>
      if e.1.z.l.length ∈ acc then acc else acc ++ [e.1.z.l.length]) acc ↔
        d ∈ acc ∨ ∃ e ∈ es, depth e = d := by
  induction es generalizing acc with
  | nil => simpa using h
  | cons a t ih =>
    rw [List.foldl_cons]
    by_cases hm : a.1.z.l.length ∈ acc
    · rw [if_pos hm]
      refine ⟨(ih acc h).1, fun d => ?_⟩
      rw [(ih acc h).2]
      simp only [List.mem_cons, exists_eq_or_imp]
      constructor
      · rintro (h1 | h1) <;> tauto
      · rintro (h1 | h1 | h1)
        · exact Or.inl h1
        · left; rw [← h1]; exact hm
        · exact Or.inr h1
    · rw [if_neg hm]
      have h' : (acc ++ [a.1.z.l.length]).Nodup := by
        rw [List.nodup_append]
        refine ⟨h, by simp, ?_⟩
        intro b hb c hc
        rw [List.mem_singleton.1 hc]
        rintro rfl
        exact hm hb
      refine ⟨(ih _ h').1, fun d => ?_⟩
      rw [(ih _ h').2]
      simp only [List.mem_cons, exists_eq_or_imp, List.mem_append, List.not_mem_nil, or_false, depth]
      tauto

theorem levels_nodup (P : JPoly) : (levels P).Nodup :=
  (List.mergeSort_perm _ _).nodup_iff.2 (levels_fold P.items [] List.nodup_nil).1

theorem mem_levels (P : JPoly) (d : ℕ) : d ∈ levels P ↔ ∃ e ∈ P.items, depth e = d := by
  rw [levels, (List.mergeSort_perm _ _).mem_iff, (levels_fold P.items [] List.nodup_nil).2]
  simp

theorem levels_sorted (P : JPoly) : (levels P).Pairwise (· ≤ ·) := by
  have := List.pairwise_mergeSort (le := fun a b : ℕ => decide (a ≤ b)) (by
    intro a b c; simp only [decide_eq_true_eq]; exact le_trans) (by
    intro a b; simp only [Bool.or_eq_true, decide_eq_true_eq]; exact le_total a b)
    (P.items.foldl (fun (acc : List ℕ) e =>
      if e.1.z.l.length ∈ acc then acc else acc ++ [e.1.z.l.length]) [])
  simpa [levels] using this

/-- the depths are `0, ..., m - 1` -/
def Depths (P : JPoly) (m : ℕ) : Prop := ∀ d, (∃ e ∈ P.items, depth e = d) ↔ d < m

theorem levels_range (P : JPoly) (m : ℕ) (h : Depths P m) : levels P = List.range m := by
  have hp : (levels P).Perm (List.range m) := by
    rw [List.perm_ext_iff_of_nodup (levels_nodup P) List.nodup_range]
    intro d
    rw [mem_levels, h, List.mem_range]
  exact hp.eq_of_pairwise (fun a b _ _ => le_antisymm) (levels_sorted P)
    (List.pairwise_le_range)

/-- if all depths are below the number of different depths, the depths are `0, ..., m - 1` -/
theorem depths_of_lt (P : JPoly) (h : ∀ e ∈ P.items, depth e < (levels P).length) :
    Depths P (levels P).length := by
  have hs : (levels P).toFinset = Finset.range (levels P).length := by
    apply Finset.eq_of_subset_of_card_le
    · intro d hd
      rw [List.mem_toFinset, mem_levels] at hd
      obtain ⟨e, he, rfl⟩ := hd
      exact Finset.mem_range.2 (h e he)
    · rw [List.toFinset_card_of_nodup (levels_nodup P), Finset.card_range]
  intro d
  rw [← mem_levels, ← List.mem_toFinset, hs, Finset.mem_range]

theorem classStep_fold (es : List (JKey × ℚ)) (subs : List (Poly CKey))
    (h : ∀ e ∈ es, depth e < subs.length) :
    ∃ r, es.foldlM classStep subs = .ok r ∧ r.length = subs.length ∧
      ∀ d (hd : d < subs.length), r[d]? = some ⟨subs[d].keyfor,
        (es.filter fun e => depth e = d).foldl (fun l e => dset l (classKey e.1) e.2)
          subs[d].items⟩ := by
  induction es generalizing subs with
  | nil =>
    refine ⟨subs, rfl, rfl, fun d hd => ?_⟩
    rw [List.getElem?_eq_getElem hd]
    rfl
  | cons a t ih =>
    have ha : depth a < subs.length := h a (by simp)
    have hs : classStep subs a = .ok (subs.set (depth a) ⟨subs[depth a].keyfor,
        dset subs[depth a].items (classKey a.1) a.2⟩) := by
      have hg : subs[a.1.z.l.length]? = some (subs[depth a]) := List.getElem?_eq_getElem ha
      rw [classStep, hg]
      rfl
    obtain ⟨r, e, hl, hr⟩ := ih (subs.set (depth a) ⟨subs[depth a].keyfor,
        dset subs[depth a].items (classKey a.1) a.2⟩) (by
      intro e he
      simpa using h e (by simp [he]))
    refine ⟨r, by rw [List.foldlM_cons, hs]; exact e, by simpa using hl, fun d hd => ?_⟩
    rw [hr d (by simpa using hd)]
    by_cases hda : depth a = d
    · subst hda
      simp
    · simp [hda]

theorem classStep_fold_err (es : List (JKey × ℚ)) (subs : List (Poly CKey))
    (h : ∃ e ∈ es, subs.length ≤ depth e) : es.foldlM classStep subs = .error .indexError := by
  induction es generalizing subs with
  | nil => simp at h
  | cons a t ih =>
    rw [List.foldlM_cons]
    by_cases ha : subs.length ≤ depth a
    · have hg : subs[a.1.z.l.length]? = none := List.getElem?_eq_none ha
      rw [classStep, hg]
      rfl
    · have ha' : depth a < subs.length := by omega
      have hs : classStep subs a = .ok (subs.set (depth a) ⟨subs[depth a].keyfor,
          dset subs[depth a].items (classKey a.1) a.2⟩) := by
        have hg : subs[a.1.z.l.length]? = some (subs[depth a]) := List.getElem?_eq_getElem ha'
        rw [classStep, hg]
        rfl
      rw [hs]
      apply ih
      obtain ⟨e, he, hd⟩ := h
      rcases List.mem_cons.1 he with rfl | he
      · omega
      · exact ⟨e, he, by simpa using hd⟩

/-- keys of the same depth stay apart -/
theorem classKey_inj (a b : JKey) (ha : a.b.length = 6 ∧ ZOK a.z) (hb : b.b.length = 6 ∧ ZOK b.z)
    (h : classKey a = classKey b) : a = b := by
  obtain ⟨ab, az, ac⟩ := a
  obtain ⟨bb, bz, bc⟩ := b
  obtain ⟨ha, hza⟩ := ha
  obtain ⟨hb, hzb⟩ := hb
  simp only [classKey] at h ha hb hza hzb
  have hnil : ∀ z : Tup, ZOK z → z.l.length = 0 → z = ⟨[], [], [], []⟩ := by
    rintro ⟨l, o, p, q⟩ ⟨h1, h2, h3, _⟩ h0
    simp only at h0 h1 h2 h3
    rw [h0] at h1 h2 h3
    rw [List.length_eq_zero_iff.1 h0, List.length_eq_zero_iff.1 h1, List.length_eq_zero_iff.1 h2,
      List.length_eq_zero_iff.1 h3]
  split_ifs at h with h1 h2 h2
  · have := List.append_inj (Sum.inl_injective h) (by rw [ha, hb])
    rw [hnil _ hza h1, hnil _ hzb h2, this.1, this.2]
  · exact Sum.inr_injective h

/-- the sub-Polys -/
theorem classify_ok (P : JPoly) (m : ℕ) (hm : 0 < m) (hd : Depths P m) (hw : P.WF)
    (hP : P.Keys fun K => K.b.length = 6 ∧ ZOK K.z) :
    ∃ subs, classify P = .ok subs ∧ subs.length = m ∧ ∀ d < m, subs[d]? = some
      ⟨if d = 0 then P.keyfor.take 6 ++ P.keyfor.drop 10 else P.keyfor,
        (P.items.filter fun e => depth e = d).map fun e => (classKey e.1, e.2)⟩ := by
  obtain ⟨j, rfl⟩ : ∃ j, m = j + 1 := ⟨m - 1, by omega⟩
  have hlev := levels_range P _ hd
  rw [List.range_succ_eq_map] at hlev
  obtain ⟨r, e, hl, hr⟩ := classStep_fold P.items ((⟨P.keyfor.take 6 ++ P.keyfor.drop 10, []⟩ :
    Poly CKey) :: ((List.range j).map Nat.succ).map fun _ => ⟨P.keyfor, []⟩) (by
    intro e he
    simpa using (hd (depth e)).1 ⟨e, he, rfl⟩)
  refine ⟨r, ?_, by simpa using hl, fun d hd' => ?_⟩
  · rw [classify, hlev]
    exact e
  · rw [hr d (by simpa using hd')]
    have hn : ((P.items.filter fun e => depth e = d).map fun e => classKey e.1).Nodup := by
      have h1 : ((P.items.filter fun e => depth e = d).map fun e => e.1).Nodup :=
        List.Nodup.sublist (List.Sublist.map _ List.filter_sublist) hw
      rw [show (fun e : JKey × ℚ => classKey e.1) = classKey ∘ fun e => e.1 from rfl, ← List.map_map]
      apply List.Nodup.map_on _ h1
      intro a ha b hb hab
      obtain ⟨x, hx, rfl⟩ := List.mem_map.1 ha
      obtain ⟨y, hy, rfl⟩ := List.mem_map.1 hb
      exact classKey_inj _ _ (hP _ (List.mem_filter.1 hx).1) (hP _ (List.mem_filter.1 hy).1) hab
    cases d with
    | zero =>
      congr 2
      exact foldl_dset_fresh (fun e : JKey × ℚ => (classKey e.1, e.2)) _ [] (by simpa using hn)
    | succ d =>
      simp only [List.getElem_cons_succ, List.getElem_map]
      rw [if_neg (by omega)]
      congr 2
      exact foldl_dset_fresh (fun e : JKey × ℚ => (classKey e.1, e.2)) _ [] (by simpa using hn)

theorem classify_err (P : JPoly) (h : ¬ ∃ m, 0 < m ∧ Depths P m) :
    classify P = .error .indexError := by
  cases hl : levels P with
  | nil => rw [classify, hl]
  | cons n0 rest =>
    rw [classify, hl]
    apply classStep_fold_err
    by_contra hc
    apply h
    refine ⟨(levels P).length, by simp [hl], depths_of_lt P ?_⟩
    intro e he
    by_contra hlt
    exact hc ⟨e, he, by simpa [hl] using hlt⟩

end Ajd.Svvj
