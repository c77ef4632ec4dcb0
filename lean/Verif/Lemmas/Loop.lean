import Verif.Model.Loop
import Verif.Lemmas.PolyOn
import Verif.Lemmas.Utils
import Verif.Lemmas.Cpp
import Mathlib.MeasureTheory.Integral.Bochner.Basic

/-! Lemmas about the loop shapes of the model files. -/

namespace Ajd
open Poly Utils

/-! ### combinations -/

theorem combs_mem (p l : ℕ) (ns : List ℕ) (h : ns ∈ combsDown p l) :
    ns.length = p + 1 ∧ ns.sum = l := by
  induction p generalizing l ns with
  | zero => simp [combsDown] at h; subst h; simp
  | succ p ih =>
    simp only [combsDown, List.mem_flatMap, List.mem_reverse, List.mem_range, List.mem_map] at h
    obtain ⟨i, hi, t, ht, rfl⟩ := h
    have := ih _ _ ht
    simp only [List.length_cons, List.sum_cons]
    omega

theorem sum_flatMap {α β R : Type*} [AddCommMonoid R] (l : List α) (f : α → List β) (g : β → R) :
    ((l.flatMap f).map g).sum = (l.map fun a => ((f a).map g).sum).sum := by
  induction l with
  | nil => rfl
  | cons a t ih => simp [ih]

theorem combs_multinomial {R : Type*} [CommSemiring R] (p : ℕ) (xs : List R)
    (hx : xs.length = p + 1) (l : ℕ) :
    ((combsDown p l).map fun ns => (combN l ns : R) * (List.zipWith (· ^ ·) xs ns).prod).sum =
      xs.sum ^ l := by
  induction p generalizing xs l with
  | zero =>
    obtain ⟨x, rfl⟩ := List.length_eq_one_iff.1 hx
    simp [combsDown, combN]
  | succ p ih =>
    cases xs with
    | nil => simp at hx
    | cons x t =>
      simp only [combsDown, List.sum_cons]
      rw [add_pow, sum_flatMap]
      have : ∀ i, ((((combsDown p (l - i)).map (i :: ·)).map fun ns =>
          (combN l ns : R) * (List.zipWith (· ^ ·) (x :: t) ns).prod)).sum =
          x ^ i * t.sum ^ (l - i) * (l.choose i : R) := by
        intro i
        rw [← ih t (by simpa using hx) (l - i), List.map_map, ← List.sum_map_mul_left,
          ← List.sum_map_mul_right]
        congr 1
        apply List.map_congr_left
        intro ns _
        simp only [Function.comp, combN, List.zipWith_cons_cons, List.prod_cons]
        push_cast
        ring
      simp only [this]
      rw [← list_range_sum', List.map_reverse, List.sum_reverse]

theorem len4 {α : Type*} (l : List α) (h : l.length = 4) : ∃ a b c d, l = [a, b, c, d] := by
  match l, h with
  | [a, b, c, d], _ => exact ⟨a, b, c, d, rfl⟩

theorem len5 {α : Type*} (l : List α) (h : l.length = 5) : ∃ a b c d e, l = [a, b, c, d, e] := by
  match l, h with
  | [a, b, c, d, e], _ => exact ⟨a, b, c, d, e, rfl⟩

/-! ### merge loops and substitutions -/

section
variable {α ι K L : Type} [DecidableEq K]

theorem mergeLoop_spec {M : Type} [AddCommMonoid M] [Module ℚ M]
    (f : α → Except PyErr (Poly K)) (A : List α) (acc : Poly K) (P : K → Prop)
    (φ : ι → K → M) (F : ι → α → M) (hacc : acc.Keys P)
    (h : ∀ a ∈ A, ∃ q, f a = .ok q ∧ q.keyfor = acc.keyfor ∧ q.Keys P ∧
      ∀ i, ev (φ i) q = F i a) :
    ∃ r, mergeLoop f A acc = .ok r ∧ r.keyfor = acc.keyfor ∧ (acc.WF → r.WF) ∧
      (acc.NoZero → r.NoZero) ∧ r.Keys P ∧
      ∀ i, ev (φ i) r = ev (φ i) acc + (A.map (F i)).sum := by
  induction A generalizing acc with
  | nil => exact ⟨acc, rfl, rfl, id, id, hacc, fun i => by simp⟩
  | cons a t ih =>
    obtain ⟨q, hq, qk, qP, qv⟩ := h a (by simp)
    obtain ⟨r1, e1, k1, w1, z1, c1, v1⟩ := merge_spec acc q qk.symm
    obtain ⟨r, e, k, w, z, c, v⟩ := ih r1 (c1 P hacc qP) fun b hb => by
      rw [k1]; exact h b (by simp [hb])
    refine ⟨r, ?_, k.trans k1, fun hw => w (w1 hw), fun _ => z z1, c, fun i => ?_⟩
    · unfold mergeLoop
      rw [List.foldlM_cons, hq]
      change (acc.merge q >>= _) = _
      rw [e1]
      exact e
    · rw [v, v1, qv, List.map_cons, List.sum_cons, add_assoc]

theorem flatten_sum {β : Type*} {M : Type*} [AddCommMonoid M] (ls : List (List β)) (g : β → M) :
    (ls.flatten.map g).sum = (ls.map fun l => (l.map g).sum).sum := by
  induction ls with
  | nil => rfl
  | cons a t ih => rw [List.flatten_cons, List.map_append, List.sum_append, ih, List.map_cons,
      List.sum_cons]

theorem subst_spec {M : Type} [AddCommMonoid M] [Module ℚ M] (kf : List String)
    (terms : L × ℚ → Except PyErr (List (K × ℚ))) (poly : Poly L) (P : K → Prop)
    (φ : ι → K → M) (ψ : ι → L → M)
    (h : ∀ e ∈ poly.items, ∃ ts, terms e = .ok ts ∧ (∀ x ∈ ts, P x.1) ∧
      ∀ i, (ts.map fun x => x.2 • φ i x.1).sum = e.2 • ψ i e.1) :
    ∃ r, subst kf terms poly = .ok r ∧ r.keyfor = kf ∧ r.WF ∧ r.Keys P ∧
      ∀ i, ev (φ i) r = ev (ψ i) poly := by
  obtain ⟨tss, e, hrel⟩ := mapM_ok_rel terms (fun e ts => (∀ x ∈ ts, P x.1) ∧
      ∀ i, (ts.map fun x => x.2 • φ i x.1).sum = e.2 • ψ i e.1) poly.items h
  refine ⟨ofTerms kf tss.flatten, ?_, ofTerms_keyfor _ _, ofTerms_WF _ _, ?_, fun i => ?_⟩
  · rw [subst, e]; rfl
  · apply ofTerms_Keys
    intro x hx
    obtain ⟨l, hl, hx'⟩ := List.mem_flatten.1 hx
    clear e h hx
    generalize poly.items = l' at hrel
    induction hrel with
    | nil => simp at hl
    | cons hd _ ih =>
      rcases List.mem_cons.1 hl with rfl | hl
      · exact hd.1 x hx'
      · exact ih hl
  · rw [ev_ofTerms, flatten_sum]
    unfold ev
    clear e h
    generalize poly.items = l at hrel ⊢
    induction hrel with
    | nil => rfl
    | cons hd _ ih => rw [List.map_cons, List.sum_cons, List.map_cons, List.sum_cons, ih, hd.2 i]

theorem mulPoly_on {R : Type} [CommRing R] [Algebra ℚ R] (p q : IPoly) (idx1 idx2 : List ℤ)
    (kf : List String) (hl : idx1.length ≤ idx2.length) (P Q S : List ℤ → Prop)
    (f g h : ι → List ℤ → R) (hp : p.Keys P) (hq : q.Keys Q)
    (hS : ∀ k1 k2, P k1 → Q k2 → S (List.zipWith (fun i j => kv i k1 + kv j k2) idx1 idx2))
    (hf : ∀ i k1 k2, P k1 → Q k2 →
      f i (List.zipWith (fun i j => kv i k1 + kv j k2) idx1 idx2) = g i k1 * h i k2) :
    ∃ r, mulPoly p q idx1 idx2 kf = .ok r ∧ r.keyfor = kf ∧ r.WF ∧ r.NoZero ∧ r.Keys S ∧
      ∀ i, ev (f i) r = ev (g i) p * ev (h i) q := by
  refine ⟨_, by rw [mulPoly, if_pos (Or.inl hl)], by simp, removeZero_WF _ (ofTerms_WF _ _),
    removeZero_NoZero _, ?_, fun i => ?_⟩
  · apply removeZero_Keys
    apply ofTerms_Keys
    intro x hx
    obtain ⟨t, ht, rfl⟩ := List.mem_map.1 hx
    obtain ⟨a, ha, b, hb, rfl⟩ := (mem_pairs _ _ _).1 ht
    exact hS _ _ (hp a ha) (hq b hb)
  · rw [ev_removeZero, ev_ofTerms]
    unfold ev
    rw [← sum_pairs (g i) (h i), List.map_map]
    congr 1
    apply List.map_congr_left
    intro t ht
    obtain ⟨a, ha, b, hb, rfl⟩ := (mem_pairs _ _ _).1 ht
    simp only [Function.comp]
    rw [hf _ _ _ (hp a ha) (hq b hb)]

theorem rmul_spec (c : ℚ) (p : Poly K) (P : K → Prop) (hp : p.Keys P) :
    (rmul c p).keyfor = p.keyfor ∧ (rmul c p).WF ∧ (rmul c p).NoZero ∧ (rmul c p).Keys P := by
  refine ⟨by simp [rmul], removeZero_WF _ (ofTerms_WF _ _), removeZero_NoZero _, ?_⟩
  apply removeZero_Keys
  apply ofTerms_Keys
  intro x hx
  obtain ⟨t, ht, rfl⟩ := List.mem_map.1 hx
  exact hp t ht

end

@[simp] theorem kv_neg_one (k : List ℤ) : kv (-1) k = 0 := by simp [kv]

theorem kv_nonneg (i : ℤ) (hi : 0 ≤ i) (k : List ℤ) : kv i k = ix k i.toNat := by
  unfold kv ix
  split_ifs with h
  · rfl
  · rw [List.getD_eq_getElem?_getD, List.getElem?_eq_none (by omega)]; rfl

@[simp] theorem kv_zero (k : List ℤ) : kv 0 k = ix k 0 := kv_nonneg _ (by norm_num) _
@[simp] theorem kv_one (k : List ℤ) : kv 1 k = ix k 1 := kv_nonneg _ (by norm_num) _
@[simp] theorem kv_ofNat (n : ℕ) [n.AtLeastTwo] (k : List ℤ) :
    kv (ofNat(n) : ℤ) k = ix k ofNat(n) := kv_nonneg _ (Int.natCast_nonneg n) _

theorem zpow_add_nn (x : ℝ) (a b : ℤ) (ha : 0 ≤ a) (hb : 0 ≤ b) : x ^ (a + b) = x ^ a * x ^ b :=
  zpow_add_ok x a b (fun _ => ha) (fun _ => hb)

section
open MeasureTheory
variable {K : Type} {X : Type} [MeasurableSpace X]

theorem integral_ev (γ : Measure X) (f : X → K → ℝ) (p : Poly K)
    (h : ∀ e ∈ p.items, Integrable (fun x => f x e.1) γ) :
    Integrable (fun x => ev (f x) p) γ ∧
      ∫ x, ev (f x) p ∂γ = ev (fun k => ∫ x, f x k ∂γ) p := by
  unfold ev
  generalize p.items = l at h ⊢
  induction l with
  | nil => simp
  | cons a l ih =>
    obtain ⟨h1, h2⟩ := ih fun e he => h e (by simp [he])
    have h3 : Integrable (fun x => a.2 • f x a.1) γ := by
      simp only [Rat.smul_def]; exact (h a (by simp)).const_mul _
    constructor
    · simp only [List.map_cons, List.sum_cons]
      exact h3.add h1
    · simp only [List.map_cons, List.sum_cons]
      rw [integral_add h3 h1, h2]
      congr 1
      simp only [Rat.smul_def]
      exact integral_const_mul _ _

end
end Ajd
