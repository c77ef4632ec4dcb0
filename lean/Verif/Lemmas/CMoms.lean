import Verif.Model.CMoms
import Verif.Lemmas.Loop
import Verif.Lemmas.Ito

namespace Ajd
open Ito Utils Poly

section
variable {K K' : Type} [DecidableEq K]

theorem mergeLoop_NZ {α : Type} (f : α → Except PyErr (Poly K)) (A : List α) (acc r : Poly K)
    (Q : K → Prop) (hacc : acc.NZKeys Q) (h : ∀ a ∈ A, ∀ q, f a = .ok q → q.NZKeys Q)
    (e : mergeLoop f A acc = .ok r) : r.NZKeys Q := by
  induction A generalizing acc with
  | nil => cases e; exact hacc
  | cons a t ih =>
    unfold mergeLoop at e
    rw [List.foldlM_cons] at e
    cases hq : f a with
    | error _ => rw [hq] at e; cases e
    | ok q =>
      rw [hq] at e
      cases hm : acc.merge q with
      | error _ =>
        have : (do let q ← (Except.ok q : Except PyErr (Poly K)); acc.merge q) = acc.merge q := rfl
        rw [this, hm] at e; cases e
      | ok s =>
        have : (do let q ← (Except.ok q : Except PyErr (Poly K)); acc.merge q) = acc.merge q := rfl
        rw [this, hm] at e
        exact ih s (merge_NZKeys Q _ _ _ hacc (h a (by simp) q hq) hm)
          (fun b hb => h b (by simp [hb])) e

theorem addTerms_append (p : Poly K) (a b : List (K × ℚ)) :
    (p.addTerms a).addTerms b = p.addTerms (a ++ b) := by
  simp [addTerms]

theorem pyRangeDown_nat (n : ℕ) :
    pyRangeDown n = (List.range (n + 1)).reverse.map fun i : ℕ => (i : ℤ) := by
  unfold pyRangeDown
  have h : ((n : ℤ) + 1).toNat = n + 1 := by omega
  rw [h]
  apply List.ext_getElem
  · simp
  · intro i h1 h2
    simp at h1 h2
    simp
    omega

theorem idxs_combs (n : ℕ) : idxs n = (combsDown 2 n).map fun ns =>
    (((nat ns 0 : ℕ) : ℤ), ((nat ns 1 : ℕ) : ℤ), ((nat ns 2 : ℕ) : ℤ)) := by
  unfold idxs
  rw [pyRangeDown_nat, List.flatMap_map, combsDown, List.map_flatMap]
  apply List.flatMap_congr
  intro i hi
  simp at hi
  have : (n : ℤ) - i = ((n - i : ℕ) : ℤ) := by omega
  rw [this, pyRangeDown_nat, combsDown, List.map_map, List.map_flatMap, List.map_flatMap]
  rw [List.flatMap_def]
  have h2 : ∀ j ∈ (List.range (n - i + 1)).reverse,
      List.map (fun ns => (((nat ns 0 : ℕ) : ℤ), ((nat ns 1 : ℕ) : ℤ), ((nat ns 2 : ℕ) : ℤ)))
        (List.map (i :: ·) (List.map (j :: ·) (combsDown 0 (n - i - j)))) =
      [((i : ℤ), (j : ℤ), ((n - i : ℕ) : ℤ) - j)] := by
    intro j hj
    simp at hj
    simp [combsDown, nat]
    omega
  rw [List.map_congr_left h2]
  induction (List.range (n - i + 1)).reverse with
  | nil => rfl
  | cons a t ih => simp [ih]

theorem idxs_nodup (n : ℤ) : (idxs n).Nodup := by
  unfold idxs
  rw [List.nodup_flatMap]
  have hr : ∀ m : ℤ, (pyRangeDown m).Nodup := fun m =>
    List.Nodup.map (fun a b h => by simpa using h) List.nodup_range
  refine ⟨fun i _ => (hr _).map fun a b h => by simpa using (Prod.mk.inj (Prod.mk.inj h).2).1, ?_⟩
  refine (hr n).imp fun {a b} hab => ?_
  simp only [Function.onFun, List.disjoint_left, List.mem_map]
  rintro x ⟨y, _, rfl⟩ ⟨z, _, h⟩
  exact hab (Prod.mk.inj h).1.symm

/-- multiplicity of a combination -/
def cN (n : ℤ) (i : Idx) : ℚ :=
  (combN n.toNat [i.1.toNat, i.2.1.toNat, i.2.2.toNat] : ℕ)

theorem comb_idx (n : ℤ) (i : Idx) (hi : i ∈ idxs n) :
    comb n [i.1, i.2.1, i.2.2] = .ok (combN n.toNat [i.1.toNat, i.2.1.toNat, i.2.2.toNat] : ℕ) := by
  obtain ⟨⟨h1, h2, h3⟩, h4⟩ := (mem_idxs n i).1 hi
  obtain ⟨a, b, c⟩ := i
  simp only [lev] at h1 h2 h3 h4
  lift a to ℕ using h1
  lift b to ℕ using h2
  lift c to ℕ using h3
  subst h4
  have := comb_eq [a, b, c] (a + b + c) (by simp; omega)
  have h : ((a : ℤ) + b + c).toNat = a + b + c := by omega
  simp only [h, Int.toNat_natCast]
  simpa using this

/-- the terms the loop adds for order `n` when the joint moments are `P` -/
def levelTerms (key : Idx → K → K') (n : ℤ) (P : Idx → Poly K) : List (K' × ℚ) :=
  (idxs n).flatMap fun i => (P i).items.map fun e => (key i e.1, cN n i * e.2)

variable [DecidableEq K']

theorem cmomLevel_spec (good : Idx → Poly K → Prop)
    (rec : Idx → TabK K → Except PyErr (Poly K)) (key : Idx → K → K') (kf : List String)
    (l n : ℤ) (hn : 2 ≤ n) (hnl : n ≤ l)
    (hrec : ∀ i, Valid i → 3 ≤ lev i → ∀ T,
      TabGood good (fun j => Valid j ∧ (lev j = lev i - 2 ∨ lev j = lev i - 1)) T →
      ∃ v, rec i T = .ok v ∧ good i v)
    (T : TabK K) (ms : List (Poly K'))
    (hT : TabGood good (fun j => Valid j ∧ n - 2 ≤ lev j ∧ lev j ≤ max (n - 1) 2) T) :
    ∃ T' P, cmomLevel rec key kf l (T, ms) n =
        .ok (T', ms ++ [(ofTerms kf (levelTerms key n P)).removeZero]) ∧
      (∀ i, Valid i → lev i = n → good i (P i)) ∧
      (n < l → TabGood good (fun j => Valid j ∧ n - 1 ≤ lev j ∧ lev j ≤ max n 2) T') := by
  -- the inner loop over a suffix of the indices
  have H : ∀ (L : List Idx) (done : Idx → Prop) (T : TabK K) (acc : Poly K'),
      (∀ i ∈ L, i ∈ idxs n) → L.Nodup → (∀ i, done i → i ∉ L) → (∀ i, done i → i ∈ idxs n) →
      TabGood good (fun j => Valid j ∧ n - 2 ≤ lev j ∧ lev j ≤ max (n - 1) 2) T →
      (3 ≤ n → n < l → TabGood good done T) →
      ∃ (T' : TabK K) (P : Idx → Poly K), L.foldlM (cmomBody rec key l n) (T, acc) =
          .ok (T', acc.addTerms (L.flatMap fun i =>
            (P i).items.map fun e => (key i e.1, cN n i * e.2))) ∧
        (∀ i ∈ L, good i (P i)) ∧
        TabGood good (fun j => Valid j ∧ n - 2 ≤ lev j ∧ lev j ≤ max (n - 1) 2) T' ∧
        (3 ≤ n → n < l → TabGood good (fun i => done i ∨ i ∈ L) T') := by
    intro L
    induction L with
    | nil =>
      intro done T acc _ _ _ _ h1 h2
      refine ⟨T, fun _ => ⟨[], []⟩, rfl, by simp, h1, fun a b i hi => h2 a b i ?_⟩
      simpa using hi
    | cons a t ih =>
      intro done T acc hL hnd hdone hd h1 h2
      have ha := hL a (by simp)
      obtain ⟨hv, hl⟩ := (mem_idxs n a).1 ha
      have hstep : ∃ p, jointMom rec n T a = .ok p ∧ good a p := by
        by_cases h3 : n < 3
        · obtain ⟨v, e, g⟩ := h1 a ⟨hv, by omega, by omega⟩
          exact ⟨v, by rw [jointMom, if_pos h3, lookup, e], g⟩
        · obtain ⟨v, e, g⟩ := hrec a hv (by omega) T (fun j hj => h1 j ⟨hj.1, by omega, by omega⟩)
          exact ⟨v, by rw [jointMom, if_neg h3, e], g⟩
      obtain ⟨p, ep, gp⟩ := hstep
      have hbody : cmomBody rec key l n (T, acc) a = .ok
          (if 3 ≤ n ∧ n < l then dset T a p else T,
            acc.addTerms (p.items.map fun e => (key a e.1, cN n a * e.2))) := by
        simp only [cmomBody]
        rw [comb_idx n a ha, ok_bind, ep, ok_bind]
        simp only [cN]
        rfl
      have hT1 : TabGood good (fun j => Valid j ∧ n - 2 ≤ lev j ∧ lev j ≤ max (n - 1) 2)
          (if 3 ≤ n ∧ n < l then dset T a p else T) := by
        split_ifs with hc
        · intro i hi
          obtain ⟨w, hw, gw⟩ := h1 i hi
          have : a ≠ i := by rintro rfl; have := hi.2.2; omega
          exact ⟨w, by rw [dget_dset, if_neg this, hw], gw⟩
        · exact h1
      have hT2 : 3 ≤ n → n < l → TabGood good (fun i => done i ∨ i = a)
          (if 3 ≤ n ∧ n < l then dset T a p else T) := by
        intro c1 c2
        rw [if_pos ⟨c1, c2⟩]
        intro i hi
        by_cases e : a = i
        · subst e; exact ⟨p, by rw [dget_dset, if_pos rfl], gp⟩
        · rcases hi with hi | hi
          · obtain ⟨w, hw, gw⟩ := h2 c1 c2 i hi
            exact ⟨w, by rw [dget_dset, if_neg e, hw], gw⟩
          · exact absurd hi.symm e
      obtain ⟨T', P, e, g, t1, t2⟩ := ih (fun i => done i ∨ i = a) _
        (acc.addTerms (p.items.map fun e => (key a e.1, cN n a * e.2)))
        (fun i hi => hL i (by simp [hi])) (List.nodup_cons.1 hnd).2
        (by
          rintro i (h | rfl)
          · intro hi; exact hdone i h (by simp [hi])
          · exact (List.nodup_cons.1 hnd).1)
        (by
          rintro i (h | rfl)
          · exact hd i h
          · exact ha) hT1 hT2
      have hat := (List.nodup_cons.1 hnd).1
      refine ⟨T', fun i => if i = a then p else P i, ?_, ?_, t1, ?_⟩
      · rw [List.foldlM_cons, hbody]
        change List.foldlM (cmomBody rec key l n) _ t = _
        rw [e, addTerms_append, List.flatMap_cons]
        simp only [if_true]
        congr 4
        have : ∀ i ∈ t, (if i = a then p else P i) = P i := fun i hi =>
          if_neg (by rintro rfl; exact hat hi)
        rw [List.flatMap_def, List.flatMap_def]
        congr 1
        apply List.map_congr_left
        intro i hi
        rw [this i hi]
      · intro i hi
        rcases List.mem_cons.1 hi with rfl | hi'
        · simp only [if_true]; exact gp
        · have hne : i ≠ a := by rintro rfl; exact hat hi'
          simp only [hne, if_false]; exact g i hi'
      · intro c1 c2 i hi
        apply t2 c1 c2 i
        rcases hi with hi | hi
        · exact Or.inl (Or.inl hi)
        · rcases List.mem_cons.1 hi with rfl | hi
          · exact Or.inl (Or.inr rfl)
          · exact Or.inr hi
  obtain ⟨T', P, e, g, t1, t2⟩ := H (idxs n) (fun _ => False) T ⟨kf, []⟩ (fun i hi => hi)
    (idxs_nodup n) (fun i h => h.elim) (fun i h => h.elim) hT (fun _ _ i h => h.elim)
  refine ⟨if n = l then T' else T'.filter fun e => !(e.1.1 + e.1.2.1 + e.1.2.2 == n - 2), P, ?_,
    fun i hv hl => g i ((mem_idxs n i).2 ⟨hv, hl⟩), ?_⟩
  · rw [cmomLevel, e]
    rfl
  · intro hlt
    rw [if_neg (by omega)]
    rintro i ⟨hv, h1, h2⟩
    have hq : (!(i.1 + i.2.1 + i.2.2 == n - 2)) = true := by
      have : i.1 + i.2.1 + i.2.2 = lev i := rfl
      simp only [this, Bool.not_eq_true', beq_eq_false_iff_ne]
      omega
    rw [dget_filter T' (fun k => !(k.1 + k.2.1 + k.2.2 == n - 2)) i hq]
    by_cases hc : lev i = n ∧ 3 ≤ n
    · exact t2 hc.2 hlt i (Or.inr ((mem_idxs n i).2 ⟨hv, hc.1⟩))
    · exact t1 i ⟨hv, by omega, by omega⟩

theorem cmomsTo_spec (good : Idx → Poly K → Prop)
    (rec : Idx → TabK K → Except PyErr (Poly K)) (key : Idx → K → K') (kf : List String)
    (hrec : ∀ i, Valid i → 3 ≤ lev i → ∀ T,
      TabGood good (fun j => Valid j ∧ (lev j = lev i - 2 ∨ lev j = lev i - 1)) T →
      ∃ v, rec i T = .ok v ∧ good i v)
    (T0 : TabK K) (hT : TabGood good (fun j => Valid j ∧ lev j ≤ 2) T0) (first : List (Poly K'))
    (l : ℕ) :
    ∃ ms, cmomsTo rec key kf T0 first l = .ok (first ++ ms) ∧ ms.length = l - 1 ∧
      ∀ (j : ℕ) r, ms[j]? = some r → ∃ P, (∀ i, Valid i → lev i = (j : ℤ) + 2 → good i (P i)) ∧
        r = (ofTerms kf (levelTerms key ((j : ℤ) + 2) P)).removeZero := by
  have H : ∀ (m : ℕ) (a : ℕ) (T : TabK K) (ms : List (Poly K')), 2 ≤ a → a + m = l + 1 →
      (m ≠ 0 → TabGood good (fun j => Valid j ∧ (a : ℤ) - 2 ≤ lev j ∧ lev j ≤ max ((a : ℤ) - 1) 2) T) →
      ∃ T' ms', ((List.range m).map fun i : ℕ => (a : ℤ) + i).foldlM (cmomLevel rec key kf l) (T, ms) =
          .ok (T', ms ++ ms') ∧ ms'.length = m ∧
        ∀ (j : ℕ) r, ms'[j]? = some r → ∃ P, (∀ i, Valid i → lev i = (j : ℤ) + a → good i (P i)) ∧
          r = (ofTerms kf (levelTerms key ((j : ℤ) + a) P)).removeZero := by
    intro m
    induction m with
    | zero =>
      intro a T ms _ _ _
      exact ⟨T, [], by simp; rfl, rfl, by simp⟩
    | succ m ih =>
      intro a T ms ha hl hT
      obtain ⟨T1, P, e1, g1, t1⟩ := cmomLevel_spec good rec key kf l a (by omega) (by omega) hrec T ms
        (hT (by omega))
      obtain ⟨T', ms', e', hlen, hj⟩ := ih (a + 1) T1
        (ms ++ [(ofTerms kf (levelTerms key (a : ℤ) P)).removeZero]) (by omega) (by omega) (by
          intro hm i hi
          exact t1 (by omega) i ⟨hi.1, by have := hi.2.1; push_cast at this; omega,
            by have := hi.2.2; push_cast at this; omega⟩)
      refine ⟨T', (ofTerms kf (levelTerms key (a : ℤ) P)).removeZero :: ms', ?_, by simp [hlen], ?_⟩
      · rw [List.range_succ_eq_map, List.map_cons, List.map_map, List.foldlM_cons]
        have e0 : (a : ℤ) + ((0 : ℕ) : ℤ) = a := by simp
        have e2 : ((fun i : ℕ => (a : ℤ) + (i : ℤ)) ∘ Nat.succ) =
            fun i : ℕ => ((a + 1 : ℕ) : ℤ) + (i : ℤ) := by
          funext i; simp; omega
        rw [e0, e1, ok_bind, e2, e', List.append_assoc]
        rfl
      · intro j r hr
        cases j with
        | zero =>
          simp at hr
          exact ⟨P, fun i hv hl => g1 i hv (by simpa using hl), by rw [← hr]; simp⟩
        | succ j =>
          obtain ⟨P', g', r'⟩ := hj j r (by simpa using hr)
          have : ((j + 1 : ℕ) : ℤ) + a = (j : ℤ) + ((a + 1 : ℕ) : ℤ) := by push_cast; ring
          rw [this]
          exact ⟨P', g', r'⟩
  have hr : pyRange 2 ((l : ℤ) + 1) = (List.range (l - 1)).map fun i : ℕ => ((2 : ℕ) : ℤ) + i := by
    rw [pyRange]
    congr 2
    omega
  by_cases hl : l = 0
  · subst hl
    refine ⟨[], ?_, rfl, by simp⟩
    rw [cmomsTo, hr]
    simp only [Nat.zero_sub, List.range_zero, List.map_nil, List.foldlM_nil, List.append_nil]
    rfl
  · obtain ⟨T', ms', e, hlen, hj⟩ := H (l - 1) 2 T0 first le_rfl (by omega)
      (fun _ i hi => hT i ⟨hi.1, by have := hi.2.2; simp at this; omega⟩)
    exact ⟨ms', by rw [cmomsTo, hr, e]; rfl, hlen, hj⟩

end
end Ajd
