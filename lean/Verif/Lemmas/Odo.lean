import Verif.Model.Utils
import Verif.Lemmas.Table
import Mathlib.Data.List.Lex
import Mathlib.Data.List.Range
import Mathlib.Algebra.Order.BigOperators.Group.List

/-! The odometer loops of `multilevel_index`, `fZ` and `multilevel_comb`. -/

namespace Ajd.Utils

/-- all `n`-tuples below `m`, lexicographically -/
def tuples (m : ℕ) : ℕ → List (List ℕ)
  | 0 => [[]]
  | n + 1 => (List.range m).flatMap fun i => (tuples m n).map (i :: ·)

theorem mem_tuples (m n : ℕ) (l : List ℕ) : l ∈ tuples m n ↔ l.length = n ∧ ∀ x ∈ l, x < m := by
  induction n generalizing l with
  | zero => simp [tuples, List.length_eq_zero_iff]; rintro rfl; simp
  | succ n ih =>
    simp only [tuples, List.mem_flatMap, List.mem_range, List.mem_map]
    constructor
    · rintro ⟨i, hi, t, ht, rfl⟩
      have := (ih t).1 ht
      simp [hi, this.1]; exact this.2
    · rintro ⟨h1, h2⟩
      cases l with
      | nil => simp at h1
      | cons a t =>
        refine ⟨a, h2 a (by simp), t, (ih t).2 ⟨by simpa using h1, fun x hx => h2 x (by simp [hx])⟩, rfl⟩

theorem length_tuples (m n : ℕ) : (tuples m n).length = m ^ n := by
  induction n with
  | zero => simp [tuples]
  | succ n ih => simp [tuples, List.length_flatMap, ih, pow_succ, mul_comm]

theorem tuples_sorted (m n : ℕ) : (tuples m n).Pairwise (List.Lex (· < ·)) := by
  induction n with
  | zero => simp [tuples]
  | succ n ih =>
    rw [tuples, List.pairwise_flatMap]
    constructor
    · intro i _
      rw [List.pairwise_map]
      exact ih.imp fun h => List.Lex.cons h
    · apply List.pairwise_lt_range.imp
      intro a b hab x hx y hy
      simp only [List.mem_map] at hx hy
      obtain ⟨x', _, rfl⟩ := hx
      obtain ⟨y', _, rfl⟩ := hy
      exact List.Lex.rel hab

theorem tuples_nodup (m n : ℕ) : (tuples m n).Nodup := by
  have := tuples_sorted m n
  apply this.imp
  rintro a b h rfl
  exact (lt_irrefl a (by simpa [List.lt_iff_lex_lt] using h))

section odo
variable {A : Type} {n m : ℕ} {emit : A → List ℕ → Except PyErr A} {g : A → List ℕ → A}

theorem foldlM_ok (l : List (List ℕ)) (a : A)
    (h : ∀ x ∈ l, ∀ a, emit a x = .ok (g a x)) : l.foldlM emit a = .ok (l.foldl g a) := by
  induction l generalizing a with
  | nil => rfl
  | cons x t ih =>
    rw [List.foldlM_cons, h x (by simp)]
    exact ih _ fun y hy => h y (by simp [hy])

theorem odo_forward (hm : 0 < m)
    (hemit : ∀ l, l.length = n → (∀ x ∈ l, x < m) → ∀ a, emit a l = .ok (g a l)) (r : ℕ) :
    ∀ (p : List ℕ) (acc : A), p.length + r + 1 = n → (∀ x ∈ p, x < m) →
      ∃ c, ∀ f, odoRun n m emit (f + c) ⟨p, true, acc⟩ =
        if p.all (fun x => x + 1 == m) then
          some (.ok (((tuples m (r + 1)).map (p ++ ·)).foldl g acc))
        else odoRun n m emit f ⟨p, false, ((tuples m (r + 1)).map (p ++ ·)).foldl g acc⟩ := by
  induction r with
  | zero =>
    intro p acc hp hx
    refine ⟨1, fun f => ?_⟩
    rw [odoRun]
    have h1 : p.length < n := by omega
    have h2 : ¬ (p.length + 1 < n) := by omega
    have ht : (tuples m (0 + 1)).map (p ++ ·) = (List.range m).map fun i => p ++ [i] := by
      simp only [tuples, zero_add, List.map_cons, List.map_nil]
      induction (List.range m) with
      | nil => rfl
      | cons a t ih => simp [ih]
    have hf : ((List.range m).map fun i => p ++ [i]).foldlM emit acc =
        .ok (((List.range m).map fun i => p ++ [i]).foldl g acc) := by
      apply foldlM_ok
      intro x hx'
      simp only [List.mem_map, List.mem_range] at hx'
      obtain ⟨i, hi, rfl⟩ := hx'
      apply hemit
      · simp; omega
      · intro y hy
        simp at hy
        rcases hy with hy | rfl
        · exact hx y hy
        · exact hi
    have htake : p.take (n - 1) = p := List.take_of_length_le (by omega)
    simp only [h1, if_true, odoStep, h2, if_false, hf, htake, ht]
    by_cases hall : p.all (fun x => x + 1 == m) = true
    · simp only [hall]; rfl
    · simp only [hall]; rfl
  | succ r ih =>
    intro p acc hp hx
    -- the sub-loop over the values of the next level
    have sub : ∀ (d i : ℕ) (acc : A), i + d + 1 = m → ∃ c, ∀ f,
        odoRun n m emit (f + c) ⟨p ++ [i], true, acc⟩ =
          if p.all (fun x => x + 1 == m) then
            some (.ok (((List.range' i (d + 1)).flatMap fun i' =>
              (tuples m (r + 1)).map (p ++ [i'] ++ ·)).foldl g acc))
          else odoRun n m emit f ⟨p, false, (((List.range' i (d + 1)).flatMap fun i' =>
              (tuples m (r + 1)).map (p ++ [i'] ++ ·)).foldl g acc)⟩ := by
      intro d
      induction d with
      | zero =>
        intro i acc hi
        obtain ⟨c, hc⟩ := ih (p ++ [i]) acc (by simp; omega) (by
          intro x hx'
          simp at hx'
          rcases hx' with h | rfl
          · exact hx x h
          · omega)
        refine ⟨1 + c, fun f => ?_⟩
        rw [← add_assoc, hc]
        have hi' : i + 1 = m := by omega
        simp only [List.all_append, List.all_cons, List.all_nil, hi', beq_self_eq_true,
          Bool.and_true, List.range'_one, zero_add, List.flatMap_cons, List.flatMap_nil,
          List.append_nil]
        by_cases hall : p.all (fun x => x + 1 == m) = true
        · rw [if_pos hall, if_pos hall]
        · rw [if_neg hall, if_neg hall, odoRun]
          have h1 : (p ++ [i]).length < n := by simp; omega
          simp only [h1, if_true, odoStep, List.getLast?_concat, List.dropLast_concat, hi']
          rfl
      | succ d ihd =>
        intro i acc hi
        obtain ⟨c, hc⟩ := ih (p ++ [i]) acc (by simp; omega) (by
          intro x hx'
          simp at hx'
          rcases hx' with h | rfl
          · exact hx x h
          · omega)
        obtain ⟨c', hc'⟩ := ihd (i + 1) (((tuples m (r + 1)).map (p ++ [i] ++ ·)).foldl g acc)
          (by omega)
        refine ⟨c' + 1 + c, fun f => ?_⟩
        rw [← add_assoc, hc]
        have hi' : ¬ (i + 1 = m) := by omega
        have hall : (p ++ [i]).all (fun x => x + 1 == m) = false := by
          simp [hi']
        rw [hall, if_neg (by simp), ← add_assoc, odoRun]
        have h1 : (p ++ [i]).length < n := by simp; omega
        simp only [h1, if_true, odoStep, List.getLast?_concat, List.dropLast_concat, hi',
          if_false]
        rw [if_neg (by simp)]
        simp only
        rw [hc' f]
        rw [List.range'_succ (s := i), List.flatMap_cons, List.foldl_append]
    obtain ⟨c, hc⟩ := sub (m - 1) 0 acc (by omega)
    refine ⟨c + 1, fun f => ?_⟩
    rw [← add_assoc, odoRun]
    have h1 : p.length < n := by omega
    have h2 : p.length + 1 < n := by omega
    simp only [h1, if_true, odoStep, h2]
    rw [hc f]
    have e : ((List.range' 0 (m - 1 + 1)).flatMap fun i' =>
        (tuples m (r + 1)).map (p ++ [i'] ++ ·)) = (tuples m (r + 1 + 1)).map (p ++ ·) := by
      rw [show m - 1 + 1 = m by omega, ← List.range_eq_range']
      conv_rhs => rw [tuples, List.map_flatMap]
      congr 1
      funext i
      rw [List.map_map]
      congr 1
      funext x
      simp
    rw [e]

theorem odo_total (hn : 0 < n) (hm : 0 < m)
    (hemit : ∀ l, l.length = n → (∀ x ∈ l, x < m) → ∀ a, emit a l = .ok (g a l)) (acc : A) :
    ∃ c, ∀ f, c ≤ f → odoRun n m emit f ⟨[], true, acc⟩ =
      some (.ok ((tuples m n).foldl g acc)) := by
  obtain ⟨c, hc⟩ := odo_forward hm hemit (n - 1) [] acc (by simp; omega) (by simp)
  refine ⟨c, fun f hf => ?_⟩
  have := hc (f - c)
  rw [show f - c + c = f by omega] at this
  rw [this]
  have e : n - 1 + 1 = n := by omega
  simp [e]

end odo

/-! ### multilevel_comb -/

/-- all `n`-tuples with sum `m`, first component smallest first -/
def comps : ℕ → ℕ → List (List ℕ)
  | 0, m => if m = 0 then [[]] else []
  | n + 1, m => (List.range (m + 1)).flatMap fun i => (comps n (m - i)).map (i :: ·)

theorem mem_comps (n m : ℕ) (l : List ℕ) : l ∈ comps n m ↔ l.length = n ∧ l.sum = m := by
  induction n generalizing l m with
  | zero =>
    unfold comps
    split
    · rename_i h; subst h
      simp [List.length_eq_zero_iff]; rintro rfl; simp
    · rename_i h
      simp [List.length_eq_zero_iff]; rintro rfl; simp; omega
  | succ n ih =>
    simp only [comps, List.mem_flatMap, List.mem_range, List.mem_map]
    constructor
    · rintro ⟨i, hi, t, ht, rfl⟩
      have := (ih _ t).1 ht
      simp [this.1, this.2]; omega
    · rintro ⟨h1, h2⟩
      cases l with
      | nil => simp at h1
      | cons a t =>
        simp at h1 h2
        exact ⟨a, by omega, t, (ih _ t).2 ⟨h1, by omega⟩, rfl⟩

theorem comps_sorted (n m : ℕ) : (comps n m).Pairwise (List.Lex (· < ·)) := by
  induction n generalizing m with
  | zero => unfold comps; split <;> simp
  | succ n ih =>
    rw [comps, List.pairwise_flatMap]
    constructor
    · intro i _
      rw [List.pairwise_map]
      exact (ih _).imp fun h => List.Lex.cons h
    · apply List.pairwise_lt_range.imp
      intro a b hab x hx y hy
      simp only [List.mem_map] at hx hy
      obtain ⟨x', _, rfl⟩ := hx
      obtain ⟨y', _, rfl⟩ := hy
      exact List.Lex.rel hab

theorem comps_nodup (n m : ℕ) : (comps n m).Nodup := by
  apply (comps_sorted n m).imp
  rintro a b h rfl
  exact (lt_irrefl a (by simpa [List.lt_iff_lex_lt] using h))

theorem comps_one (m : ℕ) : comps 1 m = [[m]] := by
  simp only [comps]
  rw [List.range_succ, List.flatMap_append]
  have : ((List.range m).flatMap fun i => (if m - i = 0 then [[]] else ([] : List (List ℕ))).map (i :: ·)) = [] := by
    rw [List.flatMap_eq_nil_iff]
    intro i hi
    simp at hi
    rw [if_neg (by omega)]; rfl
  rw [this]; simp

theorem comps_two (m : ℕ) : comps 2 m = (List.range (m + 1)).map fun i => [i, m - i] := by
  rw [comps]
  simp only [comps_one, List.map_cons, List.map_nil]
  induction (List.range (m + 1)) with
  | nil => rfl
  | cons a t ih => simp [ih]

section comb
variable {A : Type} {n m : ℕ} {emit : A → List ℕ → Except PyErr A}

/-- what happens after the indexes below the stack `p` have been handled -/
def combNext (n m : ℕ) (emit : A → List ℕ → Except PyErr A) (f : ℕ) (p : List ℕ) :
    Except PyErr A → Option (Except PyErr A)
  | .error e => some (.error e)
  | .ok a => if p.head? = some m then some (.ok a) else combRun n m emit f ⟨p, false, a⟩

theorem foldlM_append' (a b : List (List ℕ)) (x : A) :
    (a ++ b).foldlM emit x = (a.foldlM emit x).bind fun y => b.foldlM emit y := by
  rw [List.foldlM_append]; rfl

theorem comb_forward (r : ℕ) :
    ∀ (p : List ℕ) (acc : A), p ≠ [] → p.length + r + 2 = n → p.sum ≤ m →
      ∃ c, ∀ f, combRun n m emit (f + c) ⟨p, true, acc⟩ =
        combNext n m emit f p (((comps (r + 2) (m - p.sum)).map (p ++ ·)).foldlM emit acc) := by
  induction r with
  | zero =>
    intro p acc hp hl hs
    refine ⟨1, fun f => ?_⟩
    rw [combRun]
    have h1 : p.length < n := by omega
    have h2 : ¬ (p.length + 2 < n) := by omega
    have e1 : ((m : ℤ) - p.sum + 1).toNat = m - p.sum + 1 := by omega
    have e2 : ((List.range (m - p.sum + 1)).map fun i : ℕ =>
        p ++ [i, ((m : ℤ) - p.sum - i).toNat]) = (comps (0 + 2) (m - p.sum)).map (p ++ ·) := by
      rw [comps_two, List.map_map]
      apply List.map_congr_left
      intro i hi
      have : ((m : ℤ) - (p.sum : ℕ) - i).toNat = m - p.sum - i := by omega
      simp only [Function.comp, this]
    simp only [h1, if_true, combStep, h2, if_false, e1, e2]
    obtain ⟨a, t, rfl⟩ := List.exists_cons_of_ne_nil hp
    cases ((comps (0 + 2) (m - (a :: t).sum)).map (a :: t ++ ·)).foldlM emit acc with
    | error e => rfl
    | ok x =>
      simp only [List.head?_cons, Option.some.injEq, combNext]
      by_cases ha : a = m
      · simp [ha]
      · simp [ha]
  | succ r ih =>
    intro p acc hp hl hs
    have hhead : ∀ i, (p ++ [i]).head? = p.head? := by
      intro i
      obtain ⟨a, t, rfl⟩ := List.exists_cons_of_ne_nil hp
      rfl
    have sub : ∀ (d i : ℕ) (acc : A), i + d = m - p.sum → ∃ c, ∀ f,
        combRun n m emit (f + c) ⟨p ++ [i], true, acc⟩ =
          combNext n m emit f p (((List.range' i (d + 1)).flatMap fun i' =>
              (comps (r + 2) (m - p.sum - i')).map (p ++ [i'] ++ ·)).foldlM emit acc) := by
      intro d
      induction d with
      | zero =>
        intro i acc hi
        obtain ⟨c, hc⟩ := ih (p ++ [i]) acc (by simp) (by simp; omega) (by simp; omega)
        refine ⟨1 + c, fun f => ?_⟩
        have e : m - (p ++ [i]).sum = m - p.sum - i := by simp; omega
        rw [← add_assoc, hc, e]
        simp only [List.range'_one, zero_add, List.flatMap_cons, List.flatMap_nil,
          List.append_nil]
        cases ((comps (r + 2) (m - p.sum - i)).map (p ++ [i] ++ ·)).foldlM emit acc with
        | error e => rfl
        | ok x =>
          simp only [combNext, hhead]
          split
          · rfl
          · rw [combRun]
            have h1 : (p ++ [i]).length < n := by simp; omega
            have h0 : (m : ℤ) - ((p ++ [i]).sum : ℕ) = 0 := by
              rw [List.sum_append, List.sum_singleton]; omega
            simp only [h1, if_true, combStep, List.getLast?_concat, List.dropLast_concat, h0]
            rfl
      | succ d ihd =>
        intro i acc hi
        obtain ⟨c, hc⟩ := ih (p ++ [i]) acc (by simp) (by simp; omega) (by simp; omega)
        have e : m - (p ++ [i]).sum = m - p.sum - i := by simp; omega
        have hne : ¬ (p.head? = some m) := by
          obtain ⟨a, t, rfl⟩ := List.exists_cons_of_ne_nil hp
          simp at hs hi ⊢; omega
        rw [e] at hc
        rw [List.range'_succ (s := i), List.flatMap_cons, foldlM_append']
        cases hx : ((comps (r + 2) (m - p.sum - i)).map (p ++ [i] ++ ·)).foldlM emit acc with
        | error e => exact ⟨c, fun f => by rw [hc f, hx]; rfl⟩
        | ok x =>
          obtain ⟨c', hc'⟩ := ihd (i + 1) x (by omega)
          refine ⟨c' + 1 + c, fun f => ?_⟩
          rw [← add_assoc, hc, hx]
          have hN : ∀ F, combNext n m emit F (p ++ [i]) (.ok x) =
              combRun n m emit F ⟨p ++ [i], false, x⟩ := fun F => by
            rw [combNext, hhead, if_neg hne]
          rw [hN, ← add_assoc, combRun]
          have h1 : (p ++ [i]).length < n := by simp; omega
          have h0 : ¬ ((m : ℤ) - ((p ++ [i]).sum : ℕ) = 0) := by
            rw [List.sum_append, List.sum_singleton]; omega
          simp only [h1, if_true, combStep, List.getLast?_concat, List.dropLast_concat, h0,
            if_false]
          rw [if_neg (by simp)]
          simp only
          rw [hc' f]
          rfl
    obtain ⟨c, hc⟩ := sub (m - p.sum) 0 acc (by omega)
    refine ⟨c + 1, fun f => ?_⟩
    rw [← add_assoc, combRun]
    have h1 : p.length < n := by omega
    have h2 : p.length + 2 < n := by omega
    simp only [h1, if_true, combStep, h2]
    rw [hc f]
    have e : ((List.range' 0 (m - p.sum + 1)).flatMap fun i' =>
        (comps (r + 2) (m - p.sum - i')).map (p ++ [i'] ++ ·)) =
        (comps (r + 1 + 2) (m - p.sum)).map (p ++ ·) := by
      rw [← List.range_eq_range', comps, List.map_flatMap]
      congr 1
      funext i
      rw [List.map_map]
      congr 1
      funext x
      simp
    rw [e]

theorem combRun_foldlM (n m : ℕ) (hn : 2 < n) (acc : A) :
    ∃ c, ∀ f, c ≤ f → combRun n m emit f ⟨[], true, acc⟩ = some ((comps n m).foldlM emit acc) := by
  have sub : ∀ (d i : ℕ) (acc : A), i + d = m → ∃ c, ∀ f,
      combRun n m emit (f + c) ⟨[i], true, acc⟩ =
        some (((List.range' i (d + 1)).flatMap fun i' =>
          (comps (n - 3 + 2) (m - i')).map (i' :: ·)).foldlM emit acc) := by
    intro d
    induction d with
    | zero =>
      intro i acc hi
      obtain ⟨c, hc⟩ := comb_forward (n := n) (m := m) (emit := emit) (n - 3) [i] acc (by simp)
        (by simp; omega) (by simp; omega)
      refine ⟨c, fun f => ?_⟩
      have : i = m := by omega
      subst this
      rw [hc]
      simp only [zero_add, List.range'_one, List.flatMap_cons, List.flatMap_nil, List.append_nil,
        List.sum_singleton, List.cons_append, List.nil_append]
      cases ((comps (n - 3 + 2) (i - i)).map (i :: ·)).foldlM emit acc with
      | error e => rfl
      | ok x => simp [combNext]
    | succ d ihd =>
      intro i acc hi
      obtain ⟨c, hc⟩ := comb_forward (n := n) (m := m) (emit := emit) (n - 3) [i] acc (by simp)
        (by simp; omega) (by simp; omega)
      rw [List.range'_succ (s := i), List.flatMap_cons, foldlM_append']
      simp only [List.sum_singleton, List.cons_append, List.nil_append] at hc
      cases hx : ((comps (n - 3 + 2) (m - i)).map (i :: ·)).foldlM emit acc with
      | error e => exact ⟨c, fun f => by rw [hc f, hx]; rfl⟩
      | ok x =>
        obtain ⟨c', hc'⟩ := ihd (i + 1) x (by omega)
        refine ⟨c' + 1 + c, fun f => ?_⟩
        have hne : ¬ ([i].head? = some m) := by simp; omega
        rw [← add_assoc, hc, hx]
        simp only [combNext, if_neg hne]
        rw [← add_assoc, combRun]
        have h1 : [i].length < n := by simp; omega
        have h0 : ¬ ((m : ℤ) - (([i] : List ℕ).sum : ℕ) = 0) := by simp; omega
        simp only [h1, if_true, combStep, h0, if_false]
        rw [if_neg (by simp)]
        have := hc' f
        simp only [List.getLast?_singleton, List.dropLast_singleton, List.nil_append] at this ⊢
        rw [this]
        rfl
  obtain ⟨c, hc⟩ := sub m 0 acc (by omega)
  refine ⟨c + 1, fun f hf => ?_⟩
  have := hc (f - (c + 1))
  rw [show f = f - (c + 1) + c + 1 by omega, combRun]
  have h1 : ([] : List ℕ).length < n := by simp; omega
  have h2 : ([] : List ℕ).length + 2 < n := by simp; omega
  simp only [h1, if_true, combStep, h2, List.nil_append]
  rw [this]
  have e : comps n m = comps (n - 3 + 2 + 1) m := by congr 1; omega
  rw [e, comps, ← List.range_eq_range']

end comb

theorem combRun_total (n m : ℕ) (hn : 2 < n) :
    ∃ c, ∀ f, c ≤ f → combRun n m (fun a l => .ok (a ++ [l])) f ⟨[], true, []⟩ =
      some (.ok (comps n m)) := by
  obtain ⟨c, hc⟩ := combRun_foldlM (emit := fun (a : List (List ℕ)) l => .ok (a ++ [l])) n m hn []
  refine ⟨c, fun f hf => ?_⟩
  rw [hc f hf]
  have : ∀ (l acc : List (List ℕ)), l.foldlM (fun (a : List (List ℕ)) l =>
      (.ok (a ++ [l]) : Except PyErr _)) acc = .ok (acc ++ l) := by
    intro l
    induction l with
    | nil => intro acc; simp; rfl
    | cons x t ih => intro acc; rw [List.foldlM_cons]; exact (ih _).trans (by simp)
  rw [this]; rfl

end Ajd.Utils
