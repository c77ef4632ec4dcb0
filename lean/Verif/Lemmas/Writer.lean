import Verif.Spec.Writer
import Verif.Lemmas.Table
import Mathlib.Data.List.Basic
import Mathlib.Tactic.Ring

/-! Texts of integers and tuples, and the tables of csv files. -/

namespace Ajd.Writer

/-! ### integers -/

/-- characters of an integer -/
def isNum (c : Char) : Bool := c.isDigit || c == '-'

theorem dec_nat (n : ℕ) : dec n = Nat.toDigits 10 n := by
  show (Nat.repr n).toList = _
  rw [Nat.toList_repr]

theorem dec_neg (n : ℕ) : dec (Int.negSucc n) = '-' :: Nat.toDigits 10 (n + 1) := by
  show ("-" ++ Nat.repr (n + 1)).toList = _
  rw [String.toList_append, Nat.toList_repr]
  rfl

theorem dec_isNum (n : ℤ) : ∀ c ∈ dec n, isNum c = true := by
  have h : ∀ m : ℕ, ∀ c ∈ Nat.toDigits 10 m, isNum c = true := fun m c hc => by
    simp [isNum, Nat.isDigit_of_mem_toDigits (by decide) (by decide) hc]
  cases n with
  | ofNat m => rw [show Int.ofNat m = ((m : ℕ) : ℤ) from rfl, dec_nat]; exact h m
  | negSucc m =>
    rw [dec_neg]
    intro c hc
    rcases List.mem_cons.1 hc with rfl | hc
    · rfl
    · exact h _ c hc

theorem dec_ne (n : ℤ) : dec n ≠ [] := by
  cases n with
  | ofNat m => rw [show Int.ofNat m = ((m : ℕ) : ℤ) from rfl, dec_nat]; exact Nat.toDigits_ne_nil
  | negSucc m => rw [dec_neg]; simp

theorem dec_inj (m n : ℤ) (h : dec m = dec n) : m = n := by
  have hd : ∀ a b : ℕ, Nat.toDigits 10 a = '-' :: Nat.toDigits 10 b → False := fun a b h => by
    have : '-' ∈ Nat.toDigits 10 a := by rw [h]; exact List.mem_cons_self
    have := Nat.isDigit_of_mem_toDigits (by decide) (by decide) this
    exact absurd this (by decide)
  have hi : ∀ a b : ℕ, Nat.toDigits 10 a = Nat.toDigits 10 b → a = b := fun a b h => by
    rw [← Nat.ofDigitChars_ten_toDigits (n := a), h, Nat.ofDigitChars_ten_toDigits]
  cases m with
  | ofNat a =>
    cases n with
    | ofNat b =>
      rw [show Int.ofNat a = ((a : ℕ) : ℤ) from rfl, show Int.ofNat b = ((b : ℕ) : ℤ) from rfl, dec_nat, dec_nat] at h
      rw [hi a b h]
    | negSucc b =>
      rw [show Int.ofNat a = ((a : ℕ) : ℤ) from rfl, dec_nat, dec_neg] at h
      exact (hd _ _ h).elim
  | negSucc a =>
    cases n with
    | ofNat b =>
      rw [show Int.ofNat b = ((b : ℕ) : ℤ) from rfl, dec_nat, dec_neg] at h
      exact (hd _ _ h.symm).elim
    | negSucc b =>
      rw [dec_neg, dec_neg] at h
      have := hi _ _ (List.cons.inj h).2
      rw [show a = b by omega]

/-- what follows does not continue an integer -/
def Nd (s : Text) : Prop := ∀ c t, s = c :: t → isNum c = false

theorem takeWhile_dec (n : ℤ) (s : Text) (hs : Nd s) : (dec n ++ s).takeWhile isNum = dec n := by
  rw [List.takeWhile_append_of_pos (dec_isNum n)]
  cases s with
  | nil => simp
  | cons c t => simp [hs c t rfl]

theorem dec_split (m n : ℤ) (s t : Text) (hs : Nd s) (ht : Nd t) (h : dec m ++ s = dec n ++ t) : m = n ∧ s = t := by
  have h1 : dec m = dec n := by rw [← takeWhile_dec m s hs, h, takeWhile_dec n t ht]
  refine ⟨dec_inj m n h1, ?_⟩
  rw [h1] at h
  exact List.append_cancel_left h

theorem Nd_cons (c : Char) (t : Text) (h : isNum c = false) : Nd (c :: t) := by
  intro c' t' e
  rw [← (List.cons.inj e).1]
  exact h

/-! ### tuples -/

theorem strs_map (l : List Val) : strs l = l.map str := by
  induction l with
  | nil => rfl
  | cons a l ih => rw [strs, ih, List.map_cons]

/-- the text determines the value and what follows -/
def Uniq {α : Type} (st : α → Text) (x : α) : Prop :=
  ∀ y s t, Nd s → Nd t → st x ++ s = st y ++ t → x = y ∧ s = t

theorem brackets_head (l : List Text) : ∃ s, brackets l = '(' :: s := by
  match l with
  | [] => exact ⟨_, rfl⟩
  | [a] => exact ⟨_, rfl⟩
  | a :: b :: l => exact ⟨_, rfl⟩

theorem str_head (x : Val) (s : Text) : ∃ c t, str x ++ s = c :: t ∧ c ≠ ')' := by
  cases x with
  | int n =>
    obtain ⟨c, t, h⟩ := List.exists_cons_of_ne_nil (dec_ne n)
    refine ⟨c, t ++ s, by rw [str, h]; rfl, ?_⟩
    rintro rfl
    have := dec_isNum n ')' (by rw [h]; exact List.mem_cons_self)
    exact absurd this (by decide)
  | tup l =>
    obtain ⟨t, h⟩ := brackets_head (strs l)
    exact ⟨'(', t ++ s, by rw [str, h]; rfl, by decide⟩

theorem join_split {α : Type} (st : α → Text) (l : List α) : ∀ (a : α) (_ : ∀ x ∈ a :: l, Uniq st x) (b : α) (l' : List α)
    (s t : Text),
    join [',', ' '] ((a :: l).map st) ++ ')' :: s = join [',', ' '] ((b :: l').map st) ++ ')' :: t →
    a :: l = b :: l' ∧ s = t := by
  induction l with
  | nil =>
    intro a ha b l' s t h
    cases l' with
    | nil =>
      obtain ⟨rfl, h2⟩ := ha a List.mem_cons_self b _ _ (Nd_cons _ _ rfl) (Nd_cons _ _ rfl) h
      exact ⟨rfl, (List.cons.inj h2).2⟩
    | cons c l' =>
      have h' : st a ++ ')' :: s = st b ++ ',' :: (' ' :: join [',', ' '] ((c :: l').map st) ++ ')' :: t) := by
        rw [show [a].map st = [st a] from rfl, show join [',', ' '] [st a] = st a from rfl] at h
        rw [h]
        simp [join]
      have := (ha a List.mem_cons_self b _ _ (Nd_cons _ _ rfl) (Nd_cons _ _ rfl) h').2
      simp at this
  | cons c l ih =>
    intro a ha b l' s t h
    have e : ∀ (u : α) (v : α) (w : List α) (r : Text), join [',', ' '] ((u :: v :: w).map st) ++ ')' :: r =
        st u ++ ',' :: (' ' :: join [',', ' '] ((v :: w).map st) ++ ')' :: r) := by
      intro u v w r
      simp [join]
    rw [e] at h
    cases l' with
    | nil =>
      rw [show [b].map st = [st b] from rfl, show join [',', ' '] [st b] = st b from rfl] at h
      have := (ha a List.mem_cons_self b _ _ (Nd_cons _ _ rfl) (Nd_cons _ _ rfl) h).2
      simp at this
    | cons d l' =>
      rw [e] at h
      obtain ⟨rfl, h2⟩ := ha a List.mem_cons_self b _ _ (Nd_cons _ _ rfl) (Nd_cons _ _ rfl) h
      have h3 := (List.cons.inj h2).2
      obtain ⟨h4, h5⟩ := ih c (fun x hx => ha x (List.mem_cons_of_mem _ hx)) d l' s t (by
        simpa using h3)
      exact ⟨by rw [h4], h5⟩

theorem brackets_split {α : Type} (st : α → Text) (hst : ∀ x s, ∃ c t, st x ++ s = c :: t ∧ c ≠ ')') (l : List α)
    (hl : ∀ x ∈ l, Uniq st x) (l' : List α) (s t : Text) (h : brackets (l.map st) ++ s = brackets (l'.map st) ++ t) : l = l' ∧ s = t := by
  have e0 : ∀ r : Text, brackets (([] : List α).map st) ++ r = '(' :: ')' :: r := fun r => rfl
  have e1 : ∀ (a : α) (r : Text), brackets ([a].map st) ++ r = '(' :: (st a ++ ',' :: ')' :: r) := fun a r => by
    simp [brackets]
  have e2 : ∀ (a b : α) (l : List α) (r : Text), brackets ((a :: b :: l).map st) ++ r =
      '(' :: (st a ++ ',' :: (' ' :: join [',', ' '] ((b :: l).map st) ++ ')' :: r)) := fun a b l r => by
    simp [brackets, join]
  match l, l' with
  | [], [] =>
    rw [e0, e0] at h
    exact ⟨rfl, (List.cons.inj (List.cons.inj h).2).2⟩
  | [], [b] =>
    rw [e0, e1] at h
    obtain ⟨c, u, hc, hn⟩ := hst b (',' :: ')' :: t)
    rw [hc] at h
    exact absurd (List.cons.inj (List.cons.inj h).2).1.symm hn
  | [], b :: c :: l' =>
    rw [e0, e2] at h
    obtain ⟨d, u, hc, hn⟩ := hst b (',' :: (' ' :: join [',', ' '] ((c :: l').map st) ++ ')' :: t))
    rw [hc] at h
    exact absurd (List.cons.inj (List.cons.inj h).2).1.symm hn
  | [a], [] =>
    rw [e0, e1] at h
    obtain ⟨c, u, hc, hn⟩ := hst a (',' :: ')' :: s)
    rw [hc] at h
    exact absurd (List.cons.inj (List.cons.inj h).2).1 hn
  | a :: c :: l, [] =>
    rw [e0, e2] at h
    obtain ⟨d, u, hc, hn⟩ := hst a (',' :: (' ' :: join [',', ' '] ((c :: l).map st) ++ ')' :: s))
    rw [hc] at h
    exact absurd (List.cons.inj (List.cons.inj h).2).1 hn
  | [a], [b] =>
    rw [e1, e1] at h
    obtain ⟨rfl, h2⟩ := hl a List.mem_cons_self b _ _ (Nd_cons _ _ rfl) (Nd_cons _ _ rfl) (List.cons.inj h).2
    exact ⟨rfl, (List.cons.inj (List.cons.inj h2).2).2⟩
  | [a], b :: c :: l' =>
    rw [e1, e2] at h
    have := (hl a List.mem_cons_self b _ _ (Nd_cons _ _ rfl) (Nd_cons _ _ rfl) (List.cons.inj h).2).2
    simp at this
  | a :: c :: l, [b] =>
    rw [e1, e2] at h
    have := (hl a List.mem_cons_self b _ _ (Nd_cons _ _ rfl) (Nd_cons _ _ rfl) (List.cons.inj h).2).2
    simp at this
  | a :: c :: l, b :: d :: l' =>
    rw [e2, e2] at h
    obtain ⟨rfl, h2⟩ := hl a List.mem_cons_self b _ _ (Nd_cons _ _ rfl) (Nd_cons _ _ rfl) (List.cons.inj h).2
    obtain ⟨h3, h4⟩ := join_split st l c (fun x hx => hl x (List.mem_cons_of_mem _ hx)) d l' s t (by
      simpa using h2)
    exact ⟨by rw [h3], h4⟩

theorem str_uniq (x : Val) : Uniq str x := by
  refine Val.rec (motive_1 := Uniq str) (motive_2 := fun l => ∀ x ∈ l, Uniq str x) ?_ ?_ ?_ ?_ x
  · intro n y s t hs ht h
    cases y with
    | int m =>
      obtain ⟨rfl, h2⟩ := dec_split n m s t hs ht h
      exact ⟨rfl, h2⟩
    | tup l =>
      obtain ⟨u, hu⟩ := brackets_head (strs l)
      rw [str, str, hu] at h
      obtain ⟨c, v, hc⟩ := List.exists_cons_of_ne_nil (dec_ne n)
      have h1 := dec_isNum n c (by rw [hc]; exact List.mem_cons_self)
      rw [hc] at h
      rw [(List.cons.inj h).1] at h1
      exact absurd h1 (by decide)
  · intro l hl y s t hs ht h
    cases y with
    | int m =>
      obtain ⟨u, hu⟩ := brackets_head (strs l)
      rw [str, str, hu] at h
      obtain ⟨c, v, hc⟩ := List.exists_cons_of_ne_nil (dec_ne m)
      have h1 := dec_isNum m c (by rw [hc]; exact List.mem_cons_self)
      rw [hc] at h
      rw [← (List.cons.inj h).1] at h1
      exact absurd h1 (by decide)
    | tup l' =>
      obtain ⟨rfl, h2⟩ := brackets_split str str_head l hl l' s t (by
        rw [str, str, strs_map, strs_map] at h
        exact h)
      exact ⟨rfl, h2⟩
  · simp
  · intro a l ha hl x hx
    rcases List.mem_cons.1 hx with rfl | hx
    · exact ha
    · exact hl x hx

/-! ### lines -/

theorem join_mem (sep : Text) (l : List Text) (c : Char) (h : c ∈ join sep l) : c ∈ sep ∨ ∃ t ∈ l, c ∈ t := by
  induction l with
  | nil => simp [join] at h
  | cons a l ih =>
    cases l with
    | nil => exact Or.inr ⟨a, by simp, h⟩
    | cons b l =>
      rw [join, List.mem_append, List.mem_append] at h
      rcases h with (h | h) | h
      · exact Or.inr ⟨a, by simp, h⟩
      · exact Or.inl h
      · rcases ih h with h | ⟨t, ht, hc⟩
        · exact Or.inl h
        · exact Or.inr ⟨t, List.mem_cons_of_mem _ ht, hc⟩

theorem brackets_mem (l : List Text) (c : Char) (h : c ∈ brackets l) : c ∈ ['(', ')', ',', ' '] ∨ ∃ t ∈ l, c ∈ t := by
  match l, h with
  | [], h => left; simp [brackets] at h ⊢; tauto
  | [a], h =>
    simp only [brackets, List.mem_append, List.mem_cons, List.cons_append] at h
    simp only [List.mem_cons, List.not_mem_nil, or_false, exists_eq_left]
    tauto
  | a :: b :: l, h =>
    simp only [brackets, List.mem_append, List.mem_cons, List.cons_append] at h
    rcases h with h | h | h
    · left; simp [h]
    · rcases join_mem _ _ _ h with h | h
      · left; simp at h ⊢; tauto
      · exact Or.inr h
    · left; simp at h ⊢; tauto

theorem dec_nl (n : ℤ) : '\n' ∉ dec n := fun h => absurd (dec_isNum n _ h) (by decide)
theorem dec_comma (n : ℤ) : ',' ∉ dec n := fun h => absurd (dec_isNum n _ h) (by decide)

theorem str_nl (x : Val) : '\n' ∉ str x := by
  refine Val.rec (motive_1 := fun x => '\n' ∉ str x) (motive_2 := fun l => ∀ t ∈ strs l, '\n' ∉ t) ?_ ?_ ?_ ?_ x
  · exact fun n => dec_nl n
  · intro l hl h
    rw [str] at h
    rcases brackets_mem _ _ h with h | ⟨t, ht, hc⟩
    · simp at h
    · exact hl t ht hc
  · simp [strs]
  · intro a l ha hl t ht
    rw [strs] at ht
    rcases List.mem_cons.1 ht with rfl | ht
    · exact ha
    · exact hl t ht

theorem splitOn_cons_sep (c : Char) (a b : Text) (h : c ∉ a) : (a ++ c :: b).splitOn c = a :: b.splitOn c := by
  rw [List.splitOn_eq_splitOnP, List.splitOnP_append_cons_of_forall_mem (fun x hx => by
    rw [beq_eq_false_iff_ne]; rintro rfl; exact h hx) c (by simp), List.splitOn_eq_splitOnP]

theorem splitOn_none (c : Char) (a : Text) (h : c ∉ a) : a.splitOn c = [a] := by
  rw [List.splitOn_eq_splitOnP, List.splitOnP_eq_singleton fun x hx => by
    rw [beq_eq_false_iff_ne]; rintro rfl; exact h hx]

theorem splitOn_append (c : Char) (a b : Text) : (a ++ c :: b).splitOn c = a.splitOn c ++ b.splitOn c := by
  rw [List.splitOn_eq_splitOnP, List.splitOnP_append_cons _ _ (by simp), List.splitOn_eq_splitOnP,
    List.splitOn_eq_splitOnP]

theorem table_lines (rows : List Text) (h : ∀ r ∈ rows, '\n' ∉ r) :
    table (rows.flatMap fun r => r ++ ['\n']) = rows.map (·.splitOn ',') := by
  unfold table
  suffices h : (rows.flatMap fun r => r ++ ['\n']).splitOn '\n' = rows ++ [[]] by
    rw [h, List.dropLast_concat]
  induction rows with
  | nil => rfl
  | cons r rows ih =>
    rw [List.flatMap_cons, List.append_assoc, List.singleton_append, splitOn_cons_sep _ _ _ (h r (by simp)),
      ih fun r hr => h r (List.mem_cons_of_mem _ hr), List.cons_append]

/-- a list without items is one blank column -/
def orBlank (l : List Text) : List Text := if l = [] then [[]] else l

theorem splitOn_join (l : List Text) (h : ∀ t ∈ l, ',' ∉ t) : (join [','] l).splitOn ',' = orBlank l := by
  induction l with
  | nil => rfl
  | cons a l ih =>
    cases l with
    | nil => exact splitOn_none _ _ (h a (by simp))
    | cons b l =>
      rw [join, List.append_assoc, List.singleton_append, splitOn_cons_sep _ _ _ (h a (by simp)),
        ih fun t ht => h t (List.mem_cons_of_mem _ ht)]
      simp [orBlank]

theorem splitOn_join' (l : List Text) (hl : l ≠ []) :
    (join [','] l).splitOn ',' = l.flatMap (·.splitOn ',') := by
  induction l with
  | nil => exact absurd rfl hl
  | cons a l ih =>
    cases l with
    | nil => simp [join]
    | cons b l =>
      rw [join, List.append_assoc, List.singleton_append, splitOn_append, ih (by simp)]
      simp

/-! ### number of columns -/

theorem length_splitOn (c : Char) (a : Text) : (a.splitOn c).length = a.count c + 1 := by
  induction a with
  | nil => rfl
  | cons x a ih =>
    by_cases h : x = c
    · subst h
      have := splitOn_cons_sep x [] a (by simp)
      rw [List.nil_append] at this
      rw [this, List.length_cons, ih, List.count_cons_self]
    · rw [List.splitOn_eq_splitOnP, List.splitOnP_cons_eq_if_modifyHead, if_neg (by simpa using h),
        List.length_modifyHead, ← List.splitOn_eq_splitOnP, ih, List.count_cons_of_ne h]

theorem count_join (l : List Text) (hl : l ≠ []) :
    (join [',', ' '] l).count ',' + 1 = (l.map (·.count ',')).sum + l.length := by
  induction l with
  | nil => exact absurd rfl hl
  | cons a l ih =>
    cases l with
    | nil => simp [join]
    | cons b l =>
      have := ih (by simp)
      rw [join, List.count_append, List.count_append, List.map_cons, List.sum_cons, List.length_cons]
      have e : List.count ',' [',', ' '] = 1 := by decide
      omega

theorem count_dec (n : ℤ) : (dec n).count ',' = 0 := List.count_eq_zero.2 (dec_comma n)

theorem count_brackets (l : List Text) : (brackets l).count ',' =
    (l.map (·.count ',')).sum + if l.length = 1 then 1 else l.length - 1 := by
  match l with
  | [] => decide
  | [a] => simp [brackets, List.count_cons, List.count_append]
  | a :: b :: l =>
    have := count_join (a :: b :: l) (by simp)
    have e1 : (brackets (a :: b :: l)).count ',' = (join [',', ' '] (a :: b :: l)).count ',' := by
      simp [brackets, List.count_cons, List.count_append]
    rw [e1, if_neg (by simp)]
    generalize (join [',', ' '] (a :: b :: l)).count ',' = x at this ⊢
    generalize ((a :: b :: l).map (·.count ',')).sum = y at this ⊢
    rw [List.length_cons, List.length_cons] at this ⊢
    omega

/-! ### rows -/

theorem csvRow_line (k : List Val) (v : ℚ) :
    csvRow k v = (join [','] (strs k) ++ ',' :: (dec v.num ++ ',' :: dec v.den)) ++ ['\n'] := by
  simp [csvRow]

theorem strs_flat (k : List ℤ) : strs (flat k) = k.map dec := by
  rw [strs_map, flat, List.map_map]
  rfl

theorem line_nl (k : List Val) (v : ℚ) : '\n' ∉ join [','] (strs k) ++ ',' :: (dec v.num ++ ',' :: dec v.den) := by
  intro h
  simp only [List.mem_append, List.mem_cons] at h
  rcases h with h | h | h | h | h
  · rcases join_mem _ _ _ h with h | ⟨t, ht, hc⟩
    · simp at h
    · rw [strs_map] at ht
      obtain ⟨x, -, rfl⟩ := List.mem_map.1 ht
      exact str_nl x hc
  · exact absurd h (by decide)
  · exact dec_nl _ h
  · exact absurd h (by decide)
  · exact dec_nl _ h

theorem line_cols (k : List Val) (v : ℚ) : (join [','] (strs k) ++ ',' :: (dec v.num ++ ',' :: dec v.den)).splitOn ',' =
    (join [','] (strs k)).splitOn ',' ++ [dec v.num, dec v.den] := by
  rw [splitOn_append, splitOn_cons_sep _ _ _ (dec_comma _), splitOn_none _ _ (dec_comma _)]

theorem line_flat (k : List ℤ) (hk : k ≠ []) (v : ℚ) :
    (join [','] (strs (flat k)) ++ ',' :: (dec v.num ++ ',' :: dec v.den)).splitOn ',' = rowOf k v := by
  rw [line_cols, strs_flat, splitOn_join _ (by
    intro t ht
    obtain ⟨n, -, rfl⟩ := List.mem_map.1 ht
    exact dec_comma n), orBlank, if_neg (by simpa using hk)]
  rfl

theorem names_nl (kf : List String) (h : PlainNames kf) : '\n' ∉ joinNames kf := by
  intro hc
  rcases join_mem _ _ _ hc with hc | ⟨t, ht, hc⟩
  · simp at hc
  · obtain ⟨s, hs, rfl⟩ := List.mem_map.1 ht
    exact (h s hs).2 hc

theorem names_cols (kf : List String) (h : PlainNames kf) :
    (joinNames kf).splitOn ',' = orBlank (kf.map String.toList) :=
  splitOn_join _ fun t ht => by
    obtain ⟨s, hs, rfl⟩ := List.mem_map.1 ht
    exact (h s hs).1

/-- the end of the title -/
theorem title_end : ",num,den\n".toList = ',' :: ("num".toList ++ ',' :: "den".toList) ++ ['\n'] := by decide +kernel

theorem end_cols : ("num".toList ++ ',' :: "den".toList).splitOn ',' = numDen := by decide +kernel

theorem end_nl : '\n' ∉ "num".toList ++ ',' :: "den".toList := by decide +kernel

/-- a file made of a title and rows -/
theorem table_file (title : Text) (ht : '\n' ∉ title) {α : Type} (L : List α) (f : α → List Val × ℚ) :
    table (title ++ ",num,den\n".toList ++ L.flatMap fun e => csvRow (f e).1 (f e).2) =
      (title.splitOn ',' ++ numDen) :: L.map fun e =>
        ((join [','] (strs (f e).1)).splitOn ',' ++ [dec (f e).2.num, dec (f e).2.den]) := by
  have h := table_lines ((title ++ ',' :: ("num".toList ++ ',' :: "den".toList)) ::
    L.map fun e => join [','] (strs (f e).1) ++ ',' :: (dec (f e).2.num ++ ',' :: dec (f e).2.den)) (by
      intro r hr
      rcases List.mem_cons.1 hr with rfl | hr
      · intro h
        simp only [List.mem_append (s := title), List.mem_cons (b := ',')] at h
        rcases h with h | h | h
        · exact ht h
        · exact absurd h (by decide)
        · exact end_nl h
      · obtain ⟨e, -, rfl⟩ := List.mem_map.1 hr
        exact line_nl _ _)
  rw [List.flatMap_cons, List.map_cons, List.map_map, splitOn_append, end_cols, List.flatMap_map] at h
  rw [title_end]
  simp only [csvRow_line]
  rw [← List.append_assoc title, h]
  refine congrArg _ (List.map_congr_left fun e _ => ?_)
  exact line_cols _ _

/-! ### keys with tuples -/

theorem item_at (a : List Val) (x : Val) (b : List Val) (j : ℕ) (hj : a.length = j) : item (a ++ x :: b) j = .ok x := by
  unfold item
  rw [← hj, List.getElem?_append_right (le_refl _), Nat.sub_self]
  rfl

theorem mids (a : List Val) (z : List (List Val)) (b : List Val) :
    (List.range z.length).mapM (fun j : ℕ => do
      let x ← item (a ++ z.map Val.tup ++ b) (a.length + j)
      items x) = .ok z := by
  have : ∀ (y : List (List Val)) (z : List (List Val)), (List.range' y.length z.length).mapM (fun j : ℕ => do
      let x ← item (a ++ (y ++ z).map Val.tup ++ b) (a.length + j)
      items x) = .ok z := by
    intro y z
    induction z generalizing y with
    | nil => rfl
    | cons l z ih =>
      rw [List.length_cons, List.range'_succ, List.mapM_cons]
      have e : item (a ++ (y ++ l :: z).map Val.tup ++ b) (a.length + y.length) = .ok (.tup l) := by
        have := item_at (a ++ y.map Val.tup) (.tup l) (z.map Val.tup ++ b) (a.length + y.length) (by simp)
        simpa using this
      have h := ih (y ++ [l])
      rw [List.length_append, List.length_singleton, List.append_assoc y, List.singleton_append] at h
      rw [e, ok_bind, show items (.tup l) = .ok l from rfl, ok_bind, h, ok_bind]
      rfl
  have h := this [] z
  rwa [List.length_nil, ← List.range_eq_range', List.nil_append] at h

theorem splice_ok (a : List Val) (z : List (List Val)) (b : List Val) :
    splice a.length z.length (a ++ z.map Val.tup ++ b) = .ok (a ++ z.flatten ++ b) := by
  unfold splice
  rw [mids, ok_bind]
  have h1 : (a ++ z.map Val.tup ++ b).take a.length = a := by
    rw [List.append_assoc, List.take_left]
  have h2 : (a ++ z.map Val.tup ++ b).drop (a.length + z.length) = b := by
    rw [show a.length + z.length = (a ++ z.map Val.tup).length by simp, List.drop_left]
  rw [h1, h2]
  rfl

theorem subLen_ok (a : List Val) (l : List Val) (b : List Val) (i : ℕ) (h : a.length = i) :
    subLen i (a ++ .tup l :: b) = .ok l.length := by
  unfold subLen
  rw [item_at _ _ _ _ h, ok_bind]
  rfl

end Ajd.Writer
