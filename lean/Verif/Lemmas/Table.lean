import Verif.Model.Table
import Verif.Lemmas.Poly

namespace Ajd

@[simp] theorem ok_bind {ε α β : Type} (a : α) (f : α → Except ε β) :
    ((Except.ok a : Except ε α) >>= f) = f a := rfl
@[simp] theorem error_bind {ε α β : Type} (e : ε) (f : α → Except ε β) :
    ((Except.error e : Except ε α) >>= f) = .error e := rfl

@[simp] theorem ix_cons_zero (a : ℤ) (l : List ℤ) : ix (a :: l) 0 = a := rfl
@[simp] theorem ix_cons_succ (a : ℤ) (l : List ℤ) (n : ℕ) : ix (a :: l) (n + 1) = ix l n := rfl
@[simp] theorem ix_nil (n : ℕ) : ix [] n = 0 := rfl

theorem mem_pyRange (a b x : ℤ) : x ∈ pyRange a b ↔ a ≤ x ∧ x < b := by
  simp only [pyRange, List.mem_map, List.mem_range]
  constructor
  · rintro ⟨i, hi, rfl⟩; omega
  · rintro ⟨h1, h2⟩; exact ⟨(x - a).toNat, by omega, by omega⟩

theorem mem_pyRangeDown (n x : ℤ) : x ∈ pyRangeDown n ↔ 0 ≤ x ∧ x ≤ n := by
  simp only [pyRangeDown, List.mem_map, List.mem_range]
  constructor
  · rintro ⟨i, hi, rfl⟩; omega
  · rintro ⟨h1, h2⟩; exact ⟨(n - x).toNat, by omega, by omega⟩

theorem mapM_ok {α β ε : Type} (f : α → Except ε β) (g : α → β) (l : List α)
    (h : ∀ x ∈ l, f x = .ok (g x)) : l.mapM f = .ok (l.map g) := by
  induction l with
  | nil => rfl
  | cons a t ih =>
    rw [List.mapM_cons, h a (by simp), ih (fun x hx => h x (by simp [hx]))]
    rfl

theorem mapM_mem {α β ε : Type} (f : α → Except ε β) (l : List α) (ys : List β)
    (h : l.mapM f = .ok ys) : ∀ y ∈ ys, ∃ x ∈ l, f x = .ok y := by
  induction l generalizing ys with
  | nil => cases h; simp
  | cons a t ih =>
    rw [List.mapM_cons] at h
    cases ha : f a with
    | error e => rw [ha] at h; cases h
    | ok b =>
      cases ht : t.mapM f with
      | error e => rw [ha, ht] at h; cases h
      | ok bs =>
        rw [ha, ht] at h
        cases h
        intro y hy
        rcases List.mem_cons.1 hy with rfl | hy
        · exact ⟨a, by simp, ha⟩
        · obtain ⟨x, hx, e⟩ := ih bs ht y hy
          exact ⟨x, by simp [hx], e⟩

theorem dget_filter {K V : Type} [DecidableEq K] (l : List (K × V)) (q : K → Bool) (k : K)
    (hk : q k = true) : dget (l.filter fun e => q e.1) k = dget l k := by
  induction l with
  | nil => rfl
  | cons a t ih =>
    obtain ⟨a, b⟩ := a
    by_cases h : a = k
    · subst h; simp [hk, dget]
    · by_cases h2 : q a = true
      · simp [h2, dget, h, ih]
      · simp [h2, dget, h, ih]

/-- every index in `D` has an entry in `T` related to it by `good` -/
def TabGood {I V : Type} [DecidableEq I] (good : I → V → Prop) (D : I → Prop) (T : List (I × V)) :
    Prop := ∀ i, D i → ∃ v, dget T i = some v ∧ good i v

theorem fillTable_spec {I V : Type} [DecidableEq I] (good : I → V → Prop)
    (step : I → List (I × V) → Except PyErr V) (D : I → Prop) (idxs : List I)
    (hdis : ∀ i ∈ idxs, ¬ D i)
    (hstep : ∀ i ∈ idxs, ∀ T, TabGood good D T → ∃ v, step i T = .ok v ∧ good i v)
    (T : List (I × V)) (hT : TabGood good D T) :
    ∃ T', fillTable step idxs T = .ok T' ∧ TabGood good (fun i => D i ∨ i ∈ idxs) T' := by
  suffices H : ∀ (done : I → Prop) (T : List (I × V)), TabGood good D T → TabGood good done T →
      ∃ T', fillTable step idxs T = .ok T' ∧
        TabGood good (fun i => D i ∨ done i ∨ i ∈ idxs) T' by
    obtain ⟨T', h1, h2⟩ := H (fun _ => False) T hT (fun i h => h.elim)
    exact ⟨T', h1, fun i hi => h2 i (by tauto)⟩
  clear hT T
  induction idxs with
  | nil =>
    intro done T h1 h2
    refine ⟨T, rfl, ?_⟩
    rintro i (h | h | h)
    · exact h1 i h
    · exact h2 i h
    · simp at h
  | cons a t ih =>
    intro done T h1 h2
    obtain ⟨v, hv, gv⟩ := hstep a (by simp) T h1
    have hD : TabGood good D (dset T a v) := by
      intro i hi
      obtain ⟨w, hw, gw⟩ := h1 i hi
      have hne : a ≠ i := fun e => hdis a (by simp) (e ▸ hi)
      exact ⟨w, by rw [dget_dset, if_neg hne, hw], gw⟩
    have hdone : TabGood good (fun i => done i ∨ i = a) (dset T a v) := by
      intro i hi
      by_cases e : a = i
      · subst e; exact ⟨v, by rw [dget_dset, if_pos rfl], gv⟩
      · rcases hi with hi | hi
        · obtain ⟨w, hw, gw⟩ := h2 i hi
          exact ⟨w, by rw [dget_dset, if_neg e, hw], gw⟩
        · exact absurd hi.symm e
    obtain ⟨T', e, g⟩ := ih (fun i hi => hdis i (by simp [hi]))
      (fun i hi => hstep i (by simp [hi])) (fun i => done i ∨ i = a) (dset T a v) hD hdone
    refine ⟨T', ?_, ?_⟩
    · simp only [fillTable, List.foldlM_cons, hv]; exact e
    · rintro i (h | h | h)
      · exact g i (Or.inl h)
      · exact g i (Or.inr (Or.inl (Or.inl h)))
      · rcases List.mem_cons.1 h with h | h
        · exact g i (Or.inr (Or.inl (Or.inr h)))
        · exact g i (Or.inr (Or.inr h))

/-- Filling levels `a, a+1, ..., b-1`, each needing the two previous levels, the level two below
being deleted after use. -/
theorem fillLevels_spec {I V : Type} [DecidableEq I] (good : I → V → Prop) (valid : I → Prop)
    (lev : I → ℤ) (step : I → List (I × V) → Except PyErr V) (idxs : ℤ → List I)
    (del : ℤ → I → Bool) (a b : ℤ) (hab : a ≤ b)
    (hidx : ∀ n, a ≤ n → n < b → ∀ i, i ∈ idxs n ↔ valid i ∧ lev i = n)
    (hdel : ∀ n i, del n i = true → lev i = n - 2)
    (hstep : ∀ i, valid i → a ≤ lev i → lev i < b → ∀ T,
      TabGood good (fun j => valid j ∧ (lev j = lev i - 2 ∨ lev j = lev i - 1)) T →
      ∃ v, step i T = .ok v ∧ good i v)
    (T : List (I × V))
    (hT : TabGood good (fun j => valid j ∧ (lev j = a - 2 ∨ lev j = a - 1)) T) :
    ∃ T', fillLevels step idxs del (pyRange a b) T = .ok T' ∧
      TabGood good (fun j => valid j ∧ (lev j = b - 2 ∨ lev j = b - 1)) T' := by
  suffices H : ∀ (m : ℕ) (a' : ℤ) (T : List (I × V)), a ≤ a' → a' + m = b →
      TabGood good (fun j => valid j ∧ (lev j = a' - 2 ∨ lev j = a' - 1)) T →
      ∃ T', fillLevels step idxs del ((List.range m).map fun i : ℕ => a' + (i : ℤ)) T = .ok T' ∧
        TabGood good (fun j => valid j ∧ (lev j = b - 2 ∨ lev j = b - 1)) T' by
    exact H (b - a).toNat a T le_rfl (by omega) hT
  intro m
  induction m with
  | zero =>
    intro a' T h1 h2 hT
    refine ⟨T, rfl, ?_⟩
    have : a' = b := by push_cast at h2; omega
    subst this; exact hT
  | succ m ih =>
    intro a' T h1 h2 hT
    obtain ⟨T1, e1, g1⟩ := fillTable_spec good step
      (fun j => valid j ∧ (lev j = a' - 2 ∨ lev j = a' - 1)) (idxs a')
      (by
        intro i hi hD
        have := ((hidx a' h1 (by push_cast at h2; omega) i).1 hi).2
        omega)
      (by
        intro i hi T hT
        obtain ⟨hv, hl⟩ := (hidx a' h1 (by push_cast at h2; omega) i).1 hi
        exact hstep i hv (by omega) (by push_cast at h2; omega) T (by rw [hl]; exact hT))
      T hT
    have hT2 : TabGood good (fun j => valid j ∧ (lev j = (a' + 1) - 2 ∨ lev j = (a' + 1) - 1))
        (T1.filter fun e => !(del a' e.1)) := by
      rintro i ⟨hv, hl⟩
      have hq : (!(del a' i)) = true := by
        cases hd : del a' i with
        | false => rfl
        | true => have := hdel a' i hd; omega
      rw [dget_filter T1 (fun k => !(del a' k)) i hq]
      apply g1
      rcases hl with hl | hl
      · left; exact ⟨hv, by omega⟩
      · right; exact (hidx a' h1 (by push_cast at h2; omega) i).2 ⟨hv, by omega⟩
    obtain ⟨T', e', g'⟩ := ih (a' + 1) _ (by omega) (by push_cast at h2 ⊢; omega) hT2
    refine ⟨T', ?_, g'⟩
    rw [List.range_succ_eq_map, List.map_cons, List.map_map]
    have e0 : a' + ((0 : ℕ) : ℤ) = a' := by simp
    rw [e0]
    have e2 : ((fun i : ℕ => a' + (i : ℤ)) ∘ Nat.succ) = fun i : ℕ => (a' + 1) + (i : ℤ) := by
      funext i; simp; omega
    rw [e2]
    simp only [fillLevels, List.foldlM_cons, e1] at e' ⊢
    exact e'

end Ajd
