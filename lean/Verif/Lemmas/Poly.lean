import Verif.Model.Poly
import Verif.Spec.Poly
import Mathlib.Algebra.Module.Defs
import Mathlib.Algebra.Algebra.Rat
import Mathlib.Algebra.BigOperators.Group.List.Basic
import Mathlib.Algebra.BigOperators.Group.List.Lemmas
import Mathlib.Tactic.Abel
import Mathlib.Tactic.Ring
import Mathlib.Tactic.NoncommRing
import Mathlib.Tactic.Module

/-! Helper lemmas about the dict model and `Poly`. -/

namespace Ajd

section dict
variable {K V : Type} [DecidableEq K]

@[simp] theorem dget_nil (k : K) : dget ([] : List (K × V)) k = none := rfl

theorem dget_cons (k' : K) (v' : V) (t : List (K × V)) (k : K) :
    dget ((k', v') :: t) k = if k' = k then some v' else dget t k := rfl

theorem dget_dset (l : List (K × V)) (k k' : K) (v : V) :
    dget (dset l k v) k' = if k = k' then some v else dget l k' := by
  induction l with
  | nil => simp [dset, dget]
  | cons a t ih =>
    obtain ⟨a, b⟩ := a
    by_cases h : a = k
    · subst h; by_cases h2 : a = k' <;> simp [dset, dget, h2]
    · by_cases h2 : a = k'
      · subst h2; simp [dset, dget, h, Ne.symm h]
      · simp [dset, dget, h, h2, ih]

theorem dget_isSome (l : List (K × V)) (k : K) :
    (dget l k).isSome = true ↔ k ∈ l.map Prod.fst := by
  induction l with
  | nil => simp
  | cons a t ih =>
    obtain ⟨a, b⟩ := a
    by_cases h : a = k
    · simp [dget, h]
    · simp [dget, h, ih, Ne.symm h]

theorem dget_none (l : List (K × V)) (k : K) :
    dget l k = none ↔ k ∉ l.map Prod.fst := by
  rw [← dget_isSome]; cases dget l k <;> simp

theorem dset_keys (l : List (K × V)) (k : K) (v : V) :
    (dset l k v).map Prod.fst =
      if k ∈ l.map Prod.fst then l.map Prod.fst else l.map Prod.fst ++ [k] := by
  induction l with
  | nil => simp [dset]
  | cons a t ih =>
    obtain ⟨a, b⟩ := a
    by_cases h : a = k
    · simp [dset, h]
    · simp only [dset, h, if_false, List.map_cons, ih]
      by_cases h2 : k ∈ t.map Prod.fst
      · simp only [List.mem_cons, h2, or_true, if_true]
      · simp only [List.mem_cons, h2, Ne.symm h, or_self, if_false, List.cons_append]

theorem dset_nodup (l : List (K × V)) (k : K) (v : V) (h : (l.map Prod.fst).Nodup) :
    ((dset l k v).map Prod.fst).Nodup := by
  rw [dset_keys]
  split
  · exact h
  · rename_i h2
    rw [List.nodup_append]
    refine ⟨h, by simp, ?_⟩
    intro a ha b hb
    simp only [List.mem_singleton] at hb
    subst hb; intro e; subst e; exact h2 ha

theorem mem_dset (l : List (K × V)) (k : K) (v : V) (x : K × V) (h : x ∈ dset l k v) :
    x = (k, v) ∨ x ∈ l := by
  induction l with
  | nil => simpa [dset] using h
  | cons a t ih =>
    obtain ⟨a, b⟩ := a
    by_cases h2 : a = k
    · subst h2; simp [dset] at h; rcases h with h | h <;> simp [h]
    · simp [dset, h2] at h
      rcases h with h | h
      · simp [h]
      · rcases ih h with h | h <;> simp [h]

theorem dget_eq_some_of_mem (l : List (K × V)) (h : (l.map Prod.fst).Nodup) (k : K) (v : V)
    (hm : (k, v) ∈ l) : dget l k = some v := by
  induction l with
  | nil => simp at hm
  | cons a t ih =>
    obtain ⟨a, b⟩ := a
    simp only [List.map_cons, List.nodup_cons] at h
    by_cases h2 : a = k
    · subst h2
      simp only [List.mem_cons, Prod.mk.injEq, true_and] at hm
      rcases hm with hm | hm
      · simp [dget, hm]
      · exact absurd (List.mem_map_of_mem (f := Prod.fst) hm) h.1
    · simp only [List.mem_cons, Prod.mk.injEq] at hm
      rcases hm with hm | hm
      · exact absurd hm.1.symm h2
      · simp [dget, h2, ih h.2 hm]

theorem mem_of_dget (l : List (K × V)) (k : K) (v : V) (h : dget l k = some v) : (k, v) ∈ l := by
  induction l with
  | nil => simp at h
  | cons a t ih =>
    obtain ⟨a, b⟩ := a
    by_cases h2 : a = k
    · simp [dget, h2] at h; simp [h2, h]
    · simp [dget, h2] at h; simp [ih h]

end dict

namespace Poly
variable {K : Type} [DecidableEq K]

section ev
variable {M : Type*} [AddCommMonoid M] [Module ℚ M] (f : K → M)

omit [DecidableEq K] in
@[simp] theorem ev_nil (kf : List String) : ev f ({ keyfor := kf, items := [] } : Poly K) = 0 := rfl

omit [DecidableEq K] in
theorem ev_cons (kf : List String) (k : K) (v : ℚ) (t : List (K × ℚ)) :
    ev f ({ keyfor := kf, items := (k, v) :: t } : Poly K) =
      v • f k + ev f ({ keyfor := kf, items := t } : Poly K) := by
  simp [ev]

theorem sum_dset_of_some (l : List (K × ℚ)) (k : K) (v w : ℚ) (h : dget l k = some w) :
    ((dset l k (w + v)).map fun kv => kv.2 • f kv.1).sum =
      (l.map fun kv => kv.2 • f kv.1).sum + v • f k := by
  induction l with
  | nil => simp at h
  | cons a t ih =>
    obtain ⟨a, b⟩ := a
    by_cases h2 : a = k
    · subst h2
      simp only [dget_cons, if_true, Option.some.injEq] at h
      subst h
      simp only [dset, if_true, List.map_cons, List.sum_cons, add_smul]
      abel
    · simp only [dget_cons, h2, if_false] at h
      simp only [dset, h2, if_false, List.map_cons, List.sum_cons, ih h]
      abel

theorem sum_dset_of_none (l : List (K × ℚ)) (k : K) (v : ℚ) (h : dget l k = none) :
    ((dset l k v).map fun kv => kv.2 • f kv.1).sum =
      (l.map fun kv => kv.2 • f kv.1).sum + v • f k := by
  induction l with
  | nil => simp [dset]
  | cons a t ih =>
    obtain ⟨a, b⟩ := a
    by_cases h2 : a = k
    · simp [dget_cons, h2] at h
    · simp only [dget_cons, h2, if_false] at h
      simp only [dset, h2, if_false, List.map_cons, List.sum_cons, ih h]
      abel

theorem ev_addKeyval (p : Poly K) (k : K) (v : ℚ) :
    ev f (p.addKeyval k v) = ev f p + v • f k := by
  unfold addKeyval ev
  cases h : dget p.items k with
  | some w => exact sum_dset_of_some f p.items k v w h
  | none => exact sum_dset_of_none f p.items k v h

theorem ev_addTerms (p : Poly K) (ts : List (K × ℚ)) :
    ev f (p.addTerms ts) = ev f p + (ts.map fun kv => kv.2 • f kv.1).sum := by
  induction ts generalizing p with
  | nil => simp [addTerms]
  | cons a t ih =>
    have := ih (p.addKeyval a.1 a.2)
    simp only [addTerms, List.foldl_cons] at this ⊢
    rw [this, ev_addKeyval]
    simp [add_assoc]

theorem ev_ofTerms (kf : List String) (ts : List (K × ℚ)) :
    ev f (ofTerms kf ts) = (ts.map fun kv => kv.2 • f kv.1).sum := by
  unfold ofTerms
  rw [ev_addTerms]; simp

omit [DecidableEq K] in
theorem ev_removeZero (p : Poly K) : ev f p.removeZero = ev f p := by
  unfold ev removeZero
  induction p.items with
  | nil => rfl
  | cons a t ih =>
    by_cases h : a.2 = 0
    · simpa [h] using ih
    · simp only [List.filter_cons, ne_eq, h, not_false_eq_true, decide_true, if_true,
        List.map_cons, List.sum_cons]
      rw [← ih]

end ev

@[simp] theorem addKeyval_keyfor (p : Poly K) (k : K) (v : ℚ) :
    (p.addKeyval k v).keyfor = p.keyfor := by
  unfold addKeyval; split <;> rfl

@[simp] theorem addTerms_keyfor (p : Poly K) (ts : List (K × ℚ)) :
    (p.addTerms ts).keyfor = p.keyfor := by
  induction ts generalizing p with
  | nil => rfl
  | cons a t ih =>
    have := ih (p.addKeyval a.1 a.2)
    simpa [addTerms] using this

@[simp] theorem ofTerms_keyfor (kf : List String) (ts : List (K × ℚ)) :
    (ofTerms kf ts).keyfor = kf := by simp [ofTerms]

omit [DecidableEq K] in
@[simp] theorem removeZero_keyfor (p : Poly K) : p.removeZero.keyfor = p.keyfor := rfl

theorem addKeyval_WF (p : Poly K) (k : K) (v : ℚ) (h : p.WF) : (p.addKeyval k v).WF := by
  unfold addKeyval; split <;> exact dset_nodup _ _ _ h

theorem addTerms_WF (p : Poly K) (ts : List (K × ℚ)) (h : p.WF) : (p.addTerms ts).WF := by
  induction ts generalizing p with
  | nil => exact h
  | cons a t ih => exact ih _ (addKeyval_WF p a.1 a.2 h)

theorem ofTerms_WF (kf : List String) (ts : List (K × ℚ)) : (ofTerms kf ts).WF :=
  addTerms_WF _ _ (by simp [WF])

omit [DecidableEq K] in
theorem removeZero_WF (p : Poly K) (h : p.WF) : p.removeZero.WF := by
  unfold WF removeZero at *
  exact h.sublist (List.filter_sublist.map _)

omit [DecidableEq K] in
theorem removeZero_NoZero (p : Poly K) : p.removeZero.NoZero := by
  intro x hx
  simp [removeZero] at hx
  exact hx.2

/-- every entry with a non-zero value has a key with `Q` -/
def NZKeys (Q : K → Prop) (p : Poly K) : Prop := ∀ x ∈ p.items, x.2 ≠ 0 → Q x.1

theorem addKeyval_NZKeys (Q : K → Prop) (p : Poly K) (k : K) (v : ℚ) (h : p.NZKeys Q)
    (hk : v ≠ 0 → Q k) : (p.addKeyval k v).NZKeys Q := by
  intro x hx hne
  unfold addKeyval at hx
  split at hx
  · rename_i w hw
    rcases mem_dset _ _ _ _ hx with rfl | hx
    · by_cases hv : v = 0
      · subst hv
        exact h (k, w) (mem_of_dget _ _ w hw) (by simpa using hne)
      · exact hk hv
    · exact h _ hx hne
  · rcases mem_dset _ _ _ _ hx with rfl | hx
    · exact hk hne
    · exact h _ hx hne

theorem addTerms_NZKeys (Q : K → Prop) (p : Poly K) (ts : List (K × ℚ)) (h : p.NZKeys Q)
    (ht : ∀ x ∈ ts, x.2 ≠ 0 → Q x.1) : (p.addTerms ts).NZKeys Q := by
  induction ts generalizing p with
  | nil => exact h
  | cons a t ih =>
    exact ih _ (addKeyval_NZKeys Q p a.1 a.2 h (ht a (by simp))) fun x hx => ht x (by simp [hx])

theorem ofTerms_NZKeys (Q : K → Prop) (kf : List String) (ts : List (K × ℚ))
    (ht : ∀ x ∈ ts, x.2 ≠ 0 → Q x.1) : (ofTerms kf ts).NZKeys Q :=
  addTerms_NZKeys Q _ _ (fun x hx => by simp at hx) ht

omit [DecidableEq K] in
theorem removeZero_NZKeys (Q : K → Prop) (p : Poly K) (h : p.NZKeys Q) : p.removeZero.NZKeys Q := by
  intro x hx
  exact h x (List.mem_of_mem_filter hx)

theorem merge_NZKeys (Q : K → Prop) (p q r : Poly K) (hp : p.NZKeys Q) (hq : q.NZKeys Q)
    (e : p.merge q = .ok r) : r.NZKeys Q := by
  unfold merge at e
  split at e
  · cases e; exact removeZero_NZKeys Q _ (addTerms_NZKeys Q _ _ hp hq)
  · cases e

theorem addKeyval_Keys (P : K → Prop) (p : Poly K) (k : K) (v : ℚ) (h : p.Keys P) (hk : P k) :
    (p.addKeyval k v).Keys P := by
  intro x hx
  unfold addKeyval at hx
  split at hx
  all_goals
    rcases mem_dset _ _ _ _ hx with rfl | hx
    · exact hk
    · exact h _ hx

theorem addTerms_Keys (P : K → Prop) (p : Poly K) (ts : List (K × ℚ)) (h : p.Keys P)
    (ht : ∀ x ∈ ts, P x.1) : (p.addTerms ts).Keys P := by
  induction ts generalizing p with
  | nil => exact h
  | cons a t ih =>
    exact ih _ (addKeyval_Keys P p a.1 a.2 h (ht a (by simp)))
      (fun x hx => ht x (by simp [hx]))

theorem ofTerms_Keys (P : K → Prop) (kf : List String) (ts : List (K × ℚ))
    (ht : ∀ x ∈ ts, P x.1) : (ofTerms kf ts).Keys P :=
  addTerms_Keys P _ ts (by intro x hx; simp at hx) ht

omit [DecidableEq K] in
theorem removeZero_Keys (P : K → Prop) (p : Poly K) (h : p.Keys P) : p.removeZero.Keys P := by
  intro x hx
  simp [removeZero] at hx
  exact h _ hx.1

theorem coeff_eq_ev (p : Poly K) (h : p.WF) (k : K) :
    p.coeff k = ev (fun k' => if k' = k then (1 : ℚ) else 0) p := by
  unfold coeff ev
  unfold WF at h
  induction hp : p.items generalizing p with
  | nil => simp
  | cons a t ih =>
    obtain ⟨a, b⟩ := a
    rw [hp] at h
    simp only [List.map_cons, List.nodup_cons] at h
    have := ih { p with items := t } h.2 rfl
    simp only at this
    by_cases h2 : a = k
    · subst h2
      have hn : dget t a = none := (dget_none t a).2 h.1
      rw [hn] at this
      simp only [dget_cons, List.map_cons, List.sum_cons, if_true, ← this]
      simp
    · simp only [dget_cons, List.map_cons, List.sum_cons, h2, if_false, this]
      simp

theorem dget_of_coeff (p : Poly K) (h : p.NoZero) (k : K) :
    dget p.items k = if p.coeff k = 0 then none else some (p.coeff k) := by
  unfold coeff
  cases hk : dget p.items k with
  | none => simp
  | some v =>
    have := h _ (mem_of_dget _ _ _ hk)
    simp at this
    simp [this]

theorem dictEq_of_coeff (p q : Poly K) (hp : p.NoZero) (hq : q.NoZero)
    (h : ∀ k, p.coeff k = q.coeff k) : DictEq p q := by
  intro k; rw [dget_of_coeff p hp, dget_of_coeff q hq, h]

omit [DecidableEq K] in
theorem isExactType_iff {L : Type} (p : Poly K) (q : Poly L) :
    p.isExactType q = true ↔ p.keyfor = q.keyfor := by
  unfold isExactType
  constructor
  · intro h
    split at h
    · simp at h
    · rename_i hl
      simp only [ne_eq, not_not] at hl
      apply List.ext_getElem hl
      intro i h1 h2
      simp only [List.all_eq_true, List.mem_range, beq_iff_eq] at h
      have := h i h1
      simpa [List.getD_eq_getElem?_getD, List.getElem?_eq_getElem, h1, h2] using this
  · intro h
    simp [h]

theorem merge_eq (p q : Poly K) (h : p.keyfor = q.keyfor) :
    p.merge q = .ok (addTerms p q.items).removeZero := by
  unfold merge; rw [if_pos ((isExactType_iff p q).2 h)]

theorem ev_addTerms_items {M : Type*} [AddCommMonoid M] [Module ℚ M] (f : K → M) (p q : Poly K) :
    ev f (p.addTerms q.items).removeZero = ev f p + ev f q := by
  rw [ev_removeZero, ev_addTerms]; rfl

theorem ev_rmul {M : Type*} [AddCommMonoid M] [Module ℚ M] (f : K → M) (c : ℚ) (p : Poly K) :
    ev f (rmul c p) = c • ev f p := by
  unfold rmul
  rw [ev_removeZero, ev_ofTerms]
  unfold ev
  rw [List.smul_sum]
  simp [List.map_map, Function.comp_def, smul_smul, mul_comm]

@[simp] theorem rmul_keyfor (c : ℚ) (p : Poly K) : (rmul c p).keyfor = p.keyfor := by
  simp [rmul]

/-! ### subtraction -/

theorem sub_fold_aux (s : Poly K) (ts : List (K × ℚ)) (hts : (ts.map Prod.fst).Nodup)
    (acc : Poly K)
    (hacc : ∀ k ∈ ts.map Prod.fst, dget acc.items k = dget s.items k) :
    ts.foldl (fun acc kv => subStep s acc kv.1 kv.2) acc =
      acc.addTerms (ts.map fun kv => (kv.1, -kv.2)) := by
  induction ts generalizing acc with
  | nil => rfl
  | cons a t ih =>
    obtain ⟨k, v⟩ := a
    simp only [List.map_cons, List.nodup_cons] at hts
    have hk : dget acc.items k = dget s.items k := hacc k (by simp)
    have hstep : subStep s acc k v = acc.addKeyval k (-v) := by
      unfold subStep addKeyval
      rw [← hk]
      cases dget acc.items k with
      | none => simp
      | some w => simp [sub_eq_add_neg]
    simp only [List.foldl_cons, List.map_cons, addTerms, hstep]
    refine ih hts.2 _ ?_
    intro k' hk'
    have hne : k ≠ k' := fun e => hts.1 (e ▸ hk')
    have h1 := hacc k' (List.mem_cons_of_mem _ hk')
    unfold addKeyval
    split <;> simp [dget_dset, hne, h1]

theorem sub_eq (p q : Poly K) (h : p.keyfor = q.keyfor) (hq : q.WF) :
    p.sub q = .ok (p.addTerms (q.items.map fun kv => (kv.1, -kv.2))).removeZero := by
  unfold sub
  rw [if_pos ((isExactType_iff p q).2 h), sub_fold_aux p q.items hq p (fun _ _ => rfl)]

theorem ev_neg_terms {M : Type*} [AddCommGroup M] [Module ℚ M] (f : K → M) (p q : Poly K) :
    ev f (p.addTerms (q.items.map fun kv => (kv.1, -kv.2))).removeZero = ev f p - ev f q := by
  rw [ev_removeZero, ev_addTerms, sub_eq_add_neg]
  congr 1
  unfold ev
  rw [List.map_map]
  induction q.items with
  | nil => simp
  | cons a t ih =>
    simp only [List.map_cons, List.sum_cons, Function.comp, neg_smul, neg_add] at ih ⊢
    rw [ih]

end Poly

/-! ### multiplication -/

namespace Poly

theorem sum_pairs {R : Type*} [CommRing R] [Algebra ℚ R] {K L : Type} (f : K → R) (g : L → R)
    (p : List (K × ℚ)) (q : List (L × ℚ)) :
    ((pairs p q).map fun t => t.2 • (f t.1.1 * g t.1.2)).sum =
      (p.map fun a => a.2 • f a.1).sum * (q.map fun b => b.2 • g b.1).sum := by
  unfold pairs
  induction p with
  | nil => simp
  | cons a t ih =>
    simp only [List.flatMap_cons, List.map_append, List.sum_append, ih, List.map_cons,
      List.sum_cons, add_mul]
    congr 1
    rw [← List.sum_map_mul_left]
    simp only [List.map_map, Function.comp_def, smul_mul_smul_comm]

theorem mem_pairs {K L : Type} (p : List (K × ℚ)) (q : List (L × ℚ)) (t : (K × L) × ℚ) :
    t ∈ pairs p q ↔ ∃ a ∈ p, ∃ b ∈ q, t = ((a.1, b.1), a.2 * b.2) := by
  simp only [pairs, List.mem_flatMap, List.mem_map]
  constructor
  · rintro ⟨a, ha, b, hb, rfl⟩; exact ⟨a, ha, b, hb, rfl⟩
  · rintro ⟨a, ha, b, hb, rfl⟩; exact ⟨a, ha, b, hb, rfl⟩

theorem mapM_keyAdd (l : List ((List ℤ × List ℤ) × ℚ))
    (h : ∀ t ∈ l, t.1.1.length ≤ t.1.2.length) :
    (l.mapM fun t => (keyAdd t.1.1 t.1.2).map fun k => (k, t.2)) =
      some (l.map fun t => (List.zipWith (· + ·) t.1.1 t.1.2, t.2)) := by
  induction l with
  | nil => rfl
  | cons a t ih =>
    rw [List.mapM_cons, ih (fun x hx => h x (by simp [hx]))]
    simp [keyAdd, h a (by simp)]

theorem mul_eq (p q : IPoly) (h : p.keyfor = q.keyfor) (n : ℕ) (hp : p.Len n) (hq : q.Len n) :
    p.mul q = .ok (ofTerms p.keyfor ((pairs p.items q.items).map fun t =>
      (List.zipWith (· + ·) t.1.1 t.1.2, t.2))).removeZero := by
  unfold mul
  rw [if_pos ((isExactType_iff p q).2 h), mapM_keyAdd]
  intro t ht
  obtain ⟨a, ha, b, hb, rfl⟩ := (mem_pairs _ _ _).1 ht
  simp only
  rw [hp a ha, hq b hb]

theorem mul_len (p q : IPoly) (n : ℕ) (hp : p.Len n) (hq : q.Len n) :
    Len n ((ofTerms p.keyfor ((pairs p.items q.items).map fun t =>
      (List.zipWith (· + ·) t.1.1 t.1.2, t.2))).removeZero) := by
  apply removeZero_Keys
  apply ofTerms_Keys
  intro x hx
  obtain ⟨t, ht, rfl⟩ := List.mem_map.1 hx
  obtain ⟨a, ha, b, hb, rfl⟩ := (mem_pairs _ _ _).1 ht
  have h1 := hp a ha
  have h2 := hq b hb
  simp only at h1 h2
  simp [h1, h2]

theorem ev_mul_aux {R : Type*} [CommRing R] [Algebra ℚ R] (f : List ℤ → R) (n : ℕ)
    (hf : IsMul n f) (p q : IPoly) (hp : p.Len n) (hq : q.Len n) :
    ev f (ofTerms p.keyfor ((pairs p.items q.items).map fun t =>
      (List.zipWith (· + ·) t.1.1 t.1.2, t.2))).removeZero = ev f p * ev f q := by
  rw [ev_removeZero, ev_ofTerms]
  unfold ev
  rw [← sum_pairs f f, List.map_map]
  congr 1
  apply List.map_congr_left
  intro t ht
  obtain ⟨a, ha, b, hb, rfl⟩ := (mem_pairs _ _ _).1 ht
  simp only [Function.comp]
  rw [hf _ _ (hp a ha) (hq b hb)]

end Poly
end Ajd
