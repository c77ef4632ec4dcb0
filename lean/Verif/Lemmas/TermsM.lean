import Verif.Lemmas.Loop

namespace Ajd
open Poly Utils

/-- a loop that adds, for every `a`, the terms `f a` -/
theorem termsM_spec {α ι K M : Type} [DecidableEq K] [AddCommMonoid M] [Module ℚ M]
    (f : α → Except PyErr (List (K × ℚ))) (A : List α) (P : K → Prop) (φ : ι → K → M)
    (F : ι → α → M)
    (h : ∀ a ∈ A, ∃ ts, f a = .ok ts ∧ (∀ x ∈ ts, P x.1) ∧
      ∀ i, (ts.map fun x => x.2 • φ i x.1).sum = F i a) :
    ∃ tss, A.mapM f = .ok tss ∧ (∀ x ∈ tss.flatten, P x.1) ∧
      ∀ i, (tss.flatten.map fun x => x.2 • φ i x.1).sum = (A.map (F i)).sum := by
  induction A with
  | nil => exact ⟨[], rfl, by simp, by simp⟩
  | cons a t ih =>
    obtain ⟨ts, e, hP, hv⟩ := h a (by simp)
    obtain ⟨tss, e', hP', hv'⟩ := ih fun b hb => h b (by simp [hb])
    refine ⟨ts :: tss, by rw [List.mapM_cons, e, ok_bind, e']; rfl, ?_, fun i => ?_⟩
    · intro x hx
      rw [List.flatten_cons, List.mem_append] at hx
      exact hx.elim (hP x) (hP' x)
    · rw [List.flatten_cons, List.map_append, List.sum_append, hv, hv', List.map_cons, List.sum_cons]

/-- the same in any monad, for a body that only returns -/
theorem termsPure_spec {m : Type → Type} [Monad m] [LawfulMonad m] {α ι K M : Type} [DecidableEq K]
    [AddCommMonoid M] [Module ℚ M] (f : α → m (List (K × ℚ))) (A : List α) (P : K → Prop)
    (φ : ι → K → M) (F : ι → α → M)
    (h : ∀ a ∈ A, ∃ ts, f a = pure ts ∧ (∀ x ∈ ts, P x.1) ∧
      ∀ i, (ts.map fun x => x.2 • φ i x.1).sum = F i a) :
    ∃ tss, A.mapM f = pure tss ∧ (∀ x ∈ tss.flatten, P x.1) ∧
      ∀ i, (tss.flatten.map fun x => x.2 • φ i x.1).sum = (A.map (F i)).sum := by
  induction A with
  | nil => exact ⟨[], by simp, by simp, by simp⟩
  | cons a t ih =>
    obtain ⟨ts, e, hP, hv⟩ := h a (by simp)
    obtain ⟨tss, e', hP', hv'⟩ := ih fun b hb => h b (by simp [hb])
    refine ⟨ts :: tss, by rw [List.mapM_cons, e, pure_bind, e', pure_bind], ?_, fun i => ?_⟩
    · intro x hx
      rw [List.flatten_cons, List.mem_append] at hx
      exact hx.elim (hP x) (hP' x)
    · rw [List.flatten_cons, List.map_append, List.sum_append, hv, hv', List.map_cons, List.sum_cons]

theorem mapM_pure_rel {m : Type → Type} [Monad m] [LawfulMonad m] {α β : Type} (f : α → m β)
    (R : α → β → Prop) (l : List α) (h : ∀ x ∈ l, ∃ y, f x = pure y ∧ R x y) :
    ∃ ys, l.mapM f = pure ys ∧ List.Forall₂ R l ys := by
  induction l with
  | nil => exact ⟨[], by simp, .nil⟩
  | cons a t ih =>
    obtain ⟨y, hy, hr⟩ := h a (by simp)
    obtain ⟨ys, hys, hrs⟩ := ih fun x hx => h x (by simp [hx])
    exact ⟨y :: ys, by rw [List.mapM_cons, hy, pure_bind, hys, pure_bind], .cons hr hrs⟩

end Ajd
