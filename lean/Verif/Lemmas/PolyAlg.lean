import Verif.Lemmas.Poly
import Mathlib.Algebra.MonoidAlgebra.Basic
import Mathlib.Algebra.MonoidAlgebra.Defs
import Mathlib.Data.List.OfFn
import Mathlib.Algebra.GroupWithZero.Basic
import Mathlib.Algebra.BigOperators.Ring.Finset

/-! The universal interpretation of flat keys in a group algebra; monomials. -/

namespace Ajd
namespace Poly

/-- the exponent vector of a key -/
def vec (n : ℕ) (k : List ℤ) : Fin n → ℤ := fun i => k.getD i 0

noncomputable def univ (n : ℕ) (k : List ℤ) : AddMonoidAlgebra ℚ (Fin n → ℤ) :=
  AddMonoidAlgebra.single (vec n k) 1

theorem vec_inj (n : ℕ) (k l : List ℤ) (hk : k.length = n) (hl : l.length = n)
    (h : vec n k = vec n l) : k = l := by
  apply List.ext_getElem (by omega)
  intro i h1 h2
  have := congrFun h ⟨i, by omega⟩
  simpa [vec, List.getD_eq_getElem?_getD, List.getElem?_eq_getElem, h1, h2] using this

theorem univ_isMul (n : ℕ) : IsMul n (univ n) := by
  intro k1 k2 h1 h2
  unfold univ
  rw [AddMonoidAlgebra.single_mul_single]
  congr 1
  · funext i
    have hi := i.2
    simp only [vec, Pi.add_apply, List.getD_eq_getElem?_getD]
    rw [List.getElem?_eq_getElem (by simp; omega), List.getElem?_eq_getElem (by omega),
      List.getElem?_eq_getElem (by omega)]
    simp
  · simp

theorem coeff_univ (n : ℕ) (p : IPoly) (hw : p.WF) (hp : p.Len n) (k : List ℤ)
    (hk : k.length = n) : p.coeff k = (ev (univ n) p).coeff (vec n k) := by
  rw [coeff_eq_ev p hw]
  unfold ev
  have hp' : ∀ x ∈ p.items, x.1.length = n := hp
  generalize p.items = l at hp' ⊢
  induction l with
  | nil => simp
  | cons a t ih =>
    simp only [List.map_cons, List.sum_cons]
    rw [ih (fun x hx => hp' x (by simp [hx]))]
    rw [AddMonoidAlgebra.coeff_add, Finsupp.add_apply]
    congr 1
    unfold univ
    rw [AddMonoidAlgebra.coeff_smul, Finsupp.smul_apply, AddMonoidAlgebra.coeff_single,
      Finsupp.single_apply]
    have ha := hp' a (by simp)
    by_cases h : a.1 = k
    · simp [h]
    · have : vec n a.1 ≠ vec n k := fun e => h (vec_inj n _ _ ha hk e)
      simp [h, this]

theorem coeff_of_len (n : ℕ) (p : IPoly) (hp : p.Len n) (k : List ℤ) (hk : k.length ≠ n) :
    p.coeff k = 0 := by
  unfold coeff
  cases h : dget p.items k with
  | none => rfl
  | some v => exact absurd (hp _ (mem_of_dget _ _ _ h)) hk

theorem dictEq_of_univ (n : ℕ) (p q : IPoly) (hp : p.WF) (hq : q.WF) (zp : p.NoZero)
    (zq : q.NoZero) (lp : p.Len n) (lq : q.Len n) (h : ev (univ n) p = ev (univ n) q) :
    DictEq p q := by
  apply dictEq_of_coeff p q zp zq
  intro k
  by_cases hk : k.length = n
  · rw [coeff_univ n p hp lp k hk, coeff_univ n q hq lq k hk, h]
  · rw [coeff_of_len n p lp k hk, coeff_of_len n q lq k hk]

/-- everything known about a product -/
theorem mul_spec (p q : IPoly) (h : p.keyfor = q.keyfor) (n : ℕ) (hp : p.Len n) (hq : q.Len n) :
    ∃ r, p.mul q = .ok r ∧ r.keyfor = p.keyfor ∧ r.WF ∧ r.NoZero ∧ r.Len n ∧
      ∀ {R : Type} [CommRing R] [Algebra ℚ R] (f : List ℤ → R), IsMul n f →
        ev f r = ev f p * ev f q :=
  ⟨_, mul_eq p q h n hp hq, by simp, removeZero_WF _ (ofTerms_WF _ _), removeZero_NoZero _,
    mul_len p q n hp hq, fun f hf => ev_mul_aux f n hf p q hp hq⟩

theorem add_spec {K : Type} [DecidableEq K] (p q : Poly K) (h : p.keyfor = q.keyfor) :
    ∃ r, p.add q = .ok r ∧ r.keyfor = p.keyfor ∧ (p.WF → r.WF) ∧ r.NoZero ∧
      (∀ P, p.Keys P → q.Keys P → r.Keys P) ∧
      ∀ {M : Type} [AddCommMonoid M] [Module ℚ M] (f : K → M), ev f r = ev f p + ev f q := by
  refine ⟨(addTerms p q.items).removeZero, ?_, by simp, ?_, removeZero_NoZero _, ?_, ?_⟩
  · unfold add; rw [if_pos ((isExactType_iff p q).2 h)]
  · intro hw; exact removeZero_WF _ (addTerms_WF _ _ hw)
  · intro P hp hq; exact removeZero_Keys _ _ (addTerms_Keys _ _ _ hp hq)
  · intro M _ _ f; exact ev_addTerms_items f p q

theorem merge_spec {K : Type} [DecidableEq K] (p q : Poly K) (h : p.keyfor = q.keyfor) :
    ∃ r, p.merge q = .ok r ∧ r.keyfor = p.keyfor ∧ (p.WF → r.WF) ∧ r.NoZero ∧
      (∀ P, p.Keys P → q.Keys P → r.Keys P) ∧
      ∀ {M : Type} [AddCommMonoid M] [Module ℚ M] (f : K → M), ev f r = ev f p + ev f q := by
  refine ⟨(addTerms p q.items).removeZero, ?_, by simp, ?_, removeZero_NoZero _, ?_, ?_⟩
  · unfold merge; rw [if_pos ((isExactType_iff p q).2 h)]
  · intro hw; exact removeZero_WF _ (addTerms_WF _ _ hw)
  · intro P hp hq; exact removeZero_Keys _ _ (addTerms_Keys _ _ _ hp hq)
  · intro M _ _ f; exact ev_addTerms_items f p q

theorem sub_spec {K : Type} [DecidableEq K] (p q : Poly K) (h : p.keyfor = q.keyfor)
    (hq : q.WF) :
    ∃ r, p.sub q = .ok r ∧ r.keyfor = p.keyfor ∧ (p.WF → r.WF) ∧ r.NoZero ∧
      (∀ P, p.Keys P → q.Keys P → r.Keys P) ∧
      ∀ {M : Type} [AddCommGroup M] [Module ℚ M] (f : K → M), ev f r = ev f p - ev f q := by
  refine ⟨_, sub_eq p q h hq, by simp, ?_, removeZero_NoZero _, ?_, ?_⟩
  · intro hw; exact removeZero_WF _ (addTerms_WF _ _ hw)
  · intro P hp hq
    refine removeZero_Keys _ _ (addTerms_Keys _ _ _ hp ?_)
    intro x hx
    obtain ⟨y, hy, rfl⟩ := List.mem_map.1 hx
    exact hq y hy
  · intro M _ _ f; exact ev_neg_terms f p q

theorem powLoop_spec (p : IPoly) (n : ℕ) (hp : p.Len n) (m : ℕ) (acc : IPoly)
    (hk : acc.keyfor = p.keyfor) (ha : acc.Len n) :
    ∃ r, powLoop p m acc = .ok r ∧ r.keyfor = p.keyfor ∧ (acc.WF → r.WF) ∧
      (acc.NoZero → r.NoZero) ∧ r.Len n ∧
      ∀ {R : Type} [CommRing R] [Algebra ℚ R] (f : List ℤ → R), IsMul n f →
        ev f r = ev f acc * ev f p ^ m := by
  induction m generalizing acc with
  | zero => exact ⟨acc, rfl, hk, id, id, ha, by intros; simp⟩
  | succ m ih =>
    obtain ⟨r1, e1, k1, w1, z1, l1, v1⟩ := mul_spec acc p hk n ha hp
    obtain ⟨r, e, k, w, z, l, v⟩ := ih r1 (k1.trans hk) l1
    refine ⟨r, ?_, k, fun _ => w w1, fun _ => z z1, l, ?_⟩
    · simp only [powLoop, e1]; exact e
    · intro R _ _ f hf
      rw [v f hf, v1 f hf, pow_succ]; ring

/-! ### monomials -/

theorem mono_add (x : ℕ → ℝ) (hx : ∀ i, x i ≠ 0) (k1 k2 : List ℤ) (h : k1.length = k2.length) :
    mono x (List.zipWith (· + ·) k1 k2) = mono x k1 * mono x k2 := by
  unfold mono
  have hl : (List.zipWith (· + ·) k1 k2).length = k1.length := by simp [h]
  rw [hl, ← h, ← Finset.prod_mul_distrib]
  apply Finset.prod_congr rfl
  intro i hi
  rw [Finset.mem_range] at hi
  rw [← zpow_add₀ (hx i)]
  congr 1
  simp only [List.getD_eq_getElem?_getD]
  rw [List.getElem?_eq_getElem (by omega), List.getElem?_eq_getElem (by omega),
    List.getElem?_eq_getElem (by omega)]
  simp

theorem mono_isMul (x : ℕ → ℝ) (hx : ∀ i, x i ≠ 0) (n : ℕ) : IsMul n (mono x) := by
  intro k1 k2 h1 h2; exact mono_add x hx k1 k2 (by omega)

/-- Output positions `idx` carry each of the `n` components of a key exactly once. -/
theorem prod_kv (n : ℕ) (idx : List ℤ) (x y : ℕ → ℝ) (k : List ℤ) (hk : k.length = n)
    (huniq : ∀ j < n, ∃! i, i < idx.length ∧ idx.getD i (-1) = (j : ℤ))
    (hval : ∀ i < idx.length, ∀ j < n, idx.getD i (-1) = (j : ℤ) → y i = x j) :
    ∏ i ∈ Finset.range idx.length, y i ^ kv (idx.getD i (-1)) k = mono x k := by
  unfold mono
  rw [hk]
  symm
  choose! g hg hg' using huniq
  have hinj : Set.InjOn g (Finset.range n : Set ℕ) := by
    intro a ha b hb hab
    simp only [Finset.coe_range, Set.mem_Iio] at ha hb
    have h1 := (hg a ha).2
    have h2 := (hg b hb).2
    rw [hab, h2] at h1
    exact_mod_cast h1.symm
  have himg : Finset.image g (Finset.range n) ⊆ Finset.range idx.length := by
    intro i hi
    obtain ⟨j, hj, rfl⟩ := Finset.mem_image.1 hi
    exact Finset.mem_range.2 (hg j (Finset.mem_range.1 hj)).1
  rw [← Finset.prod_subset himg, Finset.prod_image hinj]
  · apply Finset.prod_congr rfl
    intro j hj
    rw [Finset.mem_range] at hj
    obtain ⟨h1, h2⟩ := hg j hj
    rw [hval _ h1 j hj h2, h2]
    congr 1
    unfold kv
    simp [hk, hj]
  · intro i hi hni
    rw [Finset.mem_range] at hi
    have : kv (idx.getD i (-1)) k = 0 := by
      unfold kv
      split
      · rename_i h
        exfalso
        apply hni
        rw [Finset.mem_image]
        refine ⟨(idx.getD i (-1)).toNat, Finset.mem_range.2 (by omega), ?_⟩
        exact (hg' _ (by omega) i ⟨hi, by omega⟩).symm
      · rfl
    rw [this, zpow_zero]

theorem mono_zipWith_kv (n1 n2 : ℕ) (idx1 idx2 : List ℤ) (hl : idx1.length = idx2.length)
    (x1 x2 y : ℕ → ℝ) (hy : ∀ i, y i ≠ 0) (k1 k2 : List ℤ)
    (hk1 : k1.length = n1) (hk2 : k2.length = n2)
    (hu1 : ∀ j < n1, ∃! i, i < idx1.length ∧ idx1.getD i (-1) = (j : ℤ))
    (hv1 : ∀ i < idx1.length, ∀ j < n1, idx1.getD i (-1) = (j : ℤ) → y i = x1 j)
    (hu2 : ∀ j < n2, ∃! i, i < idx2.length ∧ idx2.getD i (-1) = (j : ℤ))
    (hv2 : ∀ i < idx2.length, ∀ j < n2, idx2.getD i (-1) = (j : ℤ) → y i = x2 j) :
    mono y (List.zipWith (fun i j => kv i k1 + kv j k2) idx1 idx2) = mono x1 k1 * mono x2 k2 := by
  rw [← prod_kv n1 idx1 x1 y k1 hk1 hu1 hv1, ← prod_kv n2 idx2 x2 y k2 hk2 hu2 hv2, ← hl,
    ← Finset.prod_mul_distrib]
  unfold mono
  have hlen : (List.zipWith (fun i j => kv i k1 + kv j k2) idx1 idx2).length = idx1.length := by
    simp [hl]
  rw [hlen]
  apply Finset.prod_congr rfl
  intro i hi
  rw [Finset.mem_range] at hi
  rw [← zpow_add₀ (hy i)]
  congr 1
  simp only [List.getD_eq_getElem?_getD]
  rw [List.getElem?_eq_getElem (by omega), List.getElem?_eq_getElem (by omega),
    List.getElem?_eq_getElem (by omega)]
  simp

/-! ### merging a sequence -/

/-- `for q in qs: p.merge(q)` -/
def mergeAll {K : Type} [DecidableEq K] (p : Poly K) (qs : List (Poly K)) :
    Except PyErr (Poly K) := qs.foldlM (fun acc q => acc.merge q) p

theorem mergeAll_spec {K : Type} [DecidableEq K] (p : Poly K) (qs : List (Poly K))
    (h : ∀ q ∈ qs, q.keyfor = p.keyfor) :
    ∃ r, mergeAll p qs = .ok r ∧ r.keyfor = p.keyfor ∧ (p.WF → r.WF) ∧
      (p.NoZero → r.NoZero) ∧
      ∀ {M : Type} [AddCommMonoid M] [Module ℚ M] (f : K → M),
        ev f r = ev f p + (qs.map (ev f)).sum := by
  induction qs generalizing p with
  | nil => exact ⟨p, rfl, rfl, id, id, by intros; simp⟩
  | cons q t ih =>
    obtain ⟨r1, e1, k1, w1, z1, _, v1⟩ := merge_spec p q (h q (by simp)).symm
    obtain ⟨r, e, k, w, z, v⟩ := ih r1 (fun q' hq' => (h q' (by simp [hq'])).trans k1.symm)
    refine ⟨r, ?_, k.trans k1, fun hp => w (w1 hp), fun _ => z z1, ?_⟩
    · simp only [mergeAll, List.foldlM_cons, e1]; exact e
    · intro M _ _ f
      rw [v f, v1 f]; simp [add_assoc]

end Poly
end Ajd
