import Verif.Lemmas.Writer
import Verif.Model.SrjdJump
import Verif.Model.Fsv2

/-! C44: the files written by `write_to_csv` and `write_to_txt`. -/

namespace Ajd.Writer

/-! ### keys of integers -/

/-- C44, part. Full statement: every row of the csv file has the columns of the title. It holds when the keys are
tuples of integers as long as `keyfor`: the file is the table with the names in `keyfor`, `num` and `den`, and one row
for each entry. -/
theorem C44_csv_flat_partial (kf : List String) (hk : PlainNames kf) (h0 : kf ≠ []) (hl : "l_{1:n}" ∉ kf)
    (L : List (List ℤ × ℚ)) (hL : ∀ e ∈ L, e.1.length = kf.length) (name : Text) : ∃ f t,
    writeCsv ⟨kf, L.map fun e => (flat e.1, e.2)⟩ name = .ok (f, t) ∧
      table t = (kf.map String.toList ++ numDen) :: L.map fun e => rowOf e.1 e.2 := by
  unfold writeCsv
  rw [if_pos hl]
  refine ⟨_, _, rfl, ?_⟩
  dsimp only
  rw [List.flatMap_map, table_file _ (names_nl kf hk) L (fun e => (flat e.1, e.2)), names_cols kf hk, orBlank,
    if_neg (by simpa using h0)]
  refine congrArg _ (List.map_congr_left fun e he => ?_)
  dsimp only
  rw [← line_cols, line_flat]
  have := hL e he
  intro h
  rw [h, List.length_nil] at this
  exact h0 (List.length_eq_zero_iff.1 this.symm)

theorem row_inj (k k' : List ℤ) (v v' : ℚ) (h : rowOf k v = rowOf k' v') : k = k' ∧ v = v' := by
  unfold rowOf at h
  have hl : (k.map dec).length = (k'.map dec).length := by
    have := congrArg List.length h
    simpa using this
  obtain ⟨h1, h2⟩ := List.append_inj h hl
  refine ⟨List.map_injective_iff.2 (fun m n => dec_inj m n) h1, ?_⟩
  simp only [List.cons.injEq, and_true] at h2
  exact Rat.ext (dec_inj _ _ h2.1) (by exact_mod_cast dec_inj _ _ h2.2)

/-- The csv file determines `keyfor`, the keys, their order and the values. -/
theorem C44_csv_flat_injective (kf kf' : List String) (hk : PlainNames kf) (hk' : PlainNames kf') (h0 : kf ≠ [])
    (h0' : kf' ≠ []) (hl : "l_{1:n}" ∉ kf) (hl' : "l_{1:n}" ∉ kf') (L L' : List (List ℤ × ℚ))
    (hL : ∀ e ∈ L, e.1.length = kf.length) (hL' : ∀ e ∈ L', e.1.length = kf'.length) (name : Text)
    (h : writeCsv ⟨kf, L.map fun e => (flat e.1, e.2)⟩ name = writeCsv ⟨kf', L'.map fun e => (flat e.1, e.2)⟩ name) :
    kf = kf' ∧ L = L' := by
  obtain ⟨f, t, e, ht⟩ := C44_csv_flat_partial kf hk h0 hl L hL name
  obtain ⟨f', t', e', ht'⟩ := C44_csv_flat_partial kf' hk' h0' hl' L' hL' name
  rw [e, e'] at h
  simp only [Except.ok.injEq, Prod.mk.injEq] at h
  rw [h.2, ht'] at ht
  obtain ⟨h1, h2⟩ := List.cons.inj ht
  refine ⟨?_, ?_⟩
  · exact (List.map_injective_iff.2 (fun a b h => String.toList_inj.1 h) (List.append_cancel_right h1)).symm
  · refine (List.map_injective_iff.2 (fun a b h => ?_) h2).symm
    obtain ⟨h3, h4⟩ := row_inj _ _ _ _ h
    exact Prod.ext h3 h4

example : PlainNames ["e^{-kh}", "h", "k^{-}"] ∧ ["e^{-kh}", "h", "k^{-}"] ≠ [] ∧
    "l_{1:n}" ∉ ["e^{-kh}", "h", "k^{-}"] ∧
    ∀ e ∈ [([1, -2, 30], (-3 / 7 : ℚ)), ([0, 0, 1], 2)], e.1.length = ["e^{-kh}", "h", "k^{-}"].length := by
  unfold PlainNames
  decide +kernel

/-- the text of an example -/
example : writeCsv ⟨["a", "b"], [(flat [1, -20], -3 / 7)]⟩ "x".toList =
    .ok ("x.csv".toList, "a,b,num,den\n1,-20,-3,7\n".toList) := by decide +kernel

/-! ### keys with tuples -/

theorem subNames_cols (c : Char) (a n : ℕ) : subNames c a n = cols c a (n + 1 - a) := by
  unfold subNames cols
  rw [List.range'_eq_map_range, List.map_map]
  rfl

theorem cols_comma (c : Char) (hc : c ≠ ',') (a n : ℕ) : ∀ t ∈ cols c a n, ',' ∉ t := by
  intro t ht
  obtain ⟨j, -, rfl⟩ := List.mem_map.1 ht
  simp only [List.mem_cons, not_or]
  exact ⟨hc.symm, dec_comma _⟩

theorem cols_nl (c : Char) (hc : c ≠ '\n') (a n : ℕ) : ∀ t ∈ cols c a n, '\n' ∉ t := by
  intro t ht
  obtain ⟨j, -, rfl⟩ := List.mem_map.1 ht
  simp only [List.mem_cons, not_or]
  exact ⟨hc.symm, dec_nl _⟩

theorem nested_eq (a : List ℤ) (z : List (List ℤ)) (b : List ℤ) :
    nested a z b = flat a ++ (z.map flat).map Val.tup ++ flat b := by
  unfold nested
  rw [List.map_map]
  rfl

theorem nested_splice (a : List ℤ) (z : List (List ℤ)) (b : List ℤ) :
    splice a.length z.length (nested a z b) = .ok (flat (a ++ z.flatten ++ b)) := by
  have := splice_ok (flat a) (z.map flat) (flat b)
  rw [show (flat a).length = a.length by simp [flat], List.length_map] at this
  rw [nested_eq, this]
  congr 1
  simp [flat, List.map_flatten]
  rfl

/-- the entries: the integers, the tuples, the integers and the value -/
abbrev Ent := (List ℤ × List (List ℤ) × List ℤ) × ℚ

/-- the Poly with these entries -/
def ofEnt (kf : List String) (L : List Ent) : VPoly := ⟨kf, L.map fun e => (nested e.1.1 e.1.2.1 e.1.2.2, e.2)⟩

/-- the integers in the key -/
def ints (e : Ent) : List ℤ := e.1.1 ++ e.1.2.1.flatten ++ e.1.2.2

theorem checkLen_ok (i n : ℕ) (L : List Ent) (h : ∀ e ∈ L, e.1.1.length = i ∧ ∃ l z, e.1.2.1 = l :: z ∧ l.length = n) :
    checkLen i n (L.map fun e => (nested e.1.1 e.1.2.1 e.1.2.2, e.2)) = .ok () := by
  induction L with
  | nil => rfl
  | cons e L ih =>
    obtain ⟨h1, l, z, h2, h3⟩ := h e (by simp)
    have hs : subLen i (nested e.1.1 e.1.2.1 e.1.2.2) = .ok n := by
      rw [nested_eq, h2, List.map_cons, List.map_cons, List.append_assoc, List.cons_append,
        subLen_ok _ _ _ _ (by simpa [flat] using h1)]
      simp [flat, h3]
    rw [List.map_cons, checkLen, hs, ok_bind, if_neg (by simp)]
    exact ih fun e he => h e (List.mem_cons_of_mem _ he)

theorem csvRows_ok (i c : ℕ) (L : List Ent) (h : ∀ e ∈ L, e.1.1.length = i ∧ e.1.2.1.length = c) :
    csvRows i c (L.map fun e => (nested e.1.1 e.1.2.1 e.1.2.2, e.2)) =
      .ok (L.flatMap fun e => csvRow (flat (ints e)) e.2) := by
  unfold csvRows
  have : (L.map fun e => (nested e.1.1 e.1.2.1 e.1.2.2, e.2)).mapM (fun e => do
      let k ← splice i c e.1
      pure (csvRow k e.2)) = Except.ok (L.map fun e => csvRow (flat (ints e)) e.2) := by
    induction L with
    | nil => rfl
    | cons e L ih =>
      obtain ⟨rfl, rfl⟩ := h e (by simp)
      rw [List.map_cons, List.mapM_cons]
      dsimp only
      rw [nested_splice, ok_bind, ih fun e he => h e (List.mem_cons_of_mem _ he)]
      rfl
  rw [this, ok_bind]
  rfl

theorem table_nested (A B : List String) (hA : PlainNames A) (hB : PlainNames B) (N : List String) (sub : List Text)
    (hc : ∀ t ∈ sub, ',' ∉ t ∧ '\n' ∉ t) (L : List Ent) :
    table (csvTitle (A ++ N ++ B) A.length N.length sub ++ L.flatMap fun e => csvRow (flat (ints e)) e.2) =
      (orBlank (A.map String.toList) ++ orBlank sub ++ orBlank (B.map String.toList) ++ numDen) ::
        L.map fun e => orBlank ((ints e).map dec) ++ [dec e.2.num, dec e.2.den] := by
  unfold csvTitle
  have h1 : (A ++ N ++ B).take A.length = A := by rw [List.append_assoc, List.take_left]
  have h2 : (A ++ N ++ B).drop (A.length + N.length) = B := by
    rw [show A.length + N.length = (A ++ N).length by simp, List.drop_left]
  rw [h1, h2]
  have hn : '\n' ∉ joinNames A ++ ',' :: (join [','] sub ++ ',' :: joinNames B) := by
    intro h
    rcases List.mem_append.1 h with h | h
    · exact names_nl A hA h
    rcases List.mem_cons.1 h with h | h
    · exact absurd h (by decide)
    rcases List.mem_append.1 h with h | h
    · rcases join_mem _ _ _ h with h | ⟨t, ht, h⟩
      · simp at h
      · exact (hc t ht).2 h
    rcases List.mem_cons.1 h with h | h
    · exact absurd h (by decide)
    · exact names_nl B hB h
  have := table_file _ hn L fun e => (flat (ints e), e.2)
  rw [splitOn_append, splitOn_append, names_cols A hA, names_cols B hB, splitOn_join _ fun t ht => (hc t ht).1] at this
  simp only [List.append_assoc, List.cons_append] at this ⊢
  rw [this]
  refine congrArg _ (List.map_congr_left fun e _ => ?_)
  rw [strs_flat, splitOn_join _ (by
    intro t ht
    obtain ⟨n, -, rfl⟩ := List.mem_map.1 ht
    exact dec_comma n)]

theorem idx_l (A N B : List String) (h : "l_{1:n}" ∉ A) : (A ++ "l_{1:n}" :: N ++ B).idxOf "l_{1:n}" = A.length := by
  rw [List.append_assoc, List.idxOf_append_of_notMem h]
  simp

/-- the file for a Poly with the tuples `l_{1:n}`, `o_{2:n}` -/
theorem csv_two (A B : List String) (hA : PlainNames A) (hB : PlainNames B) (hl : "l_{1:n}" ∉ A)
    (hp : "p_{2:n}" ∉ A ++ B) (m : ℕ) (L : List Ent) (h0 : L ≠ [])
    (hL : ∀ e ∈ L, e.1.1.length = A.length ∧ ∃ l o, e.1.2.1 = [l, o] ∧ l.length = m) (name : Text) :
    ∃ f t, writeCsv (ofEnt (A ++ ["l_{1:n}", "o_{2:n}"] ++ B) L) name = .ok (f, t) ∧
      table t = (orBlank (A.map String.toList) ++ orBlank (cols 'l' 1 m ++ cols 'o' 2 (m - 1)) ++
        orBlank (B.map String.toList) ++ numDen) ::
        L.map fun e => orBlank ((ints e).map dec) ++ [dec e.2.num, dec e.2.den] := by
  obtain ⟨e, L', rfl⟩ := List.exists_cons_of_ne_nil h0
  have hi := idx_l A ["o_{2:n}"] B hl
  have h1 := checkLen_ok A.length m (e :: L') fun x hx => by
    obtain ⟨h, l, o, h2, h3⟩ := hL x hx
    exact ⟨h, l, [o], h2, h3⟩
  have h2 := csvRows_ok A.length 2 (e :: L') fun x hx => by
    obtain ⟨h, l, o, h2, h3⟩ := hL x hx
    exact ⟨h, by rw [h2]; rfl⟩
  obtain ⟨ha, l, o, hz, hm⟩ := hL e (by simp)
  have h3 : item (nested e.1.1 e.1.2.1 e.1.2.2) A.length = .ok (.tup (flat l)) := by
    rw [nested_eq, hz]
    have := item_at (flat e.1.1) (.tup (flat l)) (.tup (flat o) :: flat e.1.2.2) A.length (by simpa [flat] using ha)
    simpa using this
  have hp' : "p_{2:n}" ∉ A ++ ["l_{1:n}", "o_{2:n}"] ++ B := by
    simp only [List.mem_append, List.mem_cons, not_or, List.not_mem_nil] at hp ⊢
    exact ⟨⟨hp.1, by decide, by decide, id⟩, hp.2⟩
  have hml : (flat l).length = m := by simpa [flat] using hm
  unfold writeCsv ofEnt
  dsimp only
  rw [if_neg (by simp), hi]
  rw [List.map_cons] at h1 h2 ⊢
  dsimp only
  rw [h3, ok_bind, show items (.tup (flat l)) = .ok (flat l) from rfl, ok_bind, hml, h1, ok_bind, if_pos hp', h2, ok_bind]
  refine ⟨_, _, rfl, ?_⟩
  rw [subNames_cols, subNames_cols, show m + 1 - 1 = m by omega, show m + 1 - 2 = m - 1 by omega]
  exact table_nested A B hA hB ["l_{1:n}", "o_{2:n}"] _ (by
    intro t ht
    rcases List.mem_append.1 ht with ht | ht
    · exact ⟨cols_comma _ (by decide) _ _ t ht, cols_nl _ (by decide) _ _ t ht⟩
    · exact ⟨cols_comma _ (by decide) _ _ t ht, cols_nl _ (by decide) _ _ t ht⟩) _

/-- the file for a Poly with the tuples `l_{1:n}`, `o_{1:n}`, `p_{2:n}`, `q_{2:n}` -/
theorem csv_four (A B : List String) (hA : PlainNames A) (hB : PlainNames B) (hl : "l_{1:n}" ∉ A)
    (m : ℕ) (L : List Ent) (h0 : L ≠ [])
    (hL : ∀ e ∈ L, e.1.1.length = A.length ∧ ∃ l o p q, e.1.2.1 = [l, o, p, q] ∧ l.length = m) (name : Text) :
    ∃ f t, writeCsv (ofEnt (A ++ ["l_{1:n}", "o_{1:n}", "p_{2:n}", "q_{2:n}"] ++ B) L) name = .ok (f, t) ∧
      table t = (orBlank (A.map String.toList) ++
        orBlank (cols 'l' 1 m ++ cols 'o' 1 m ++ cols 'p' 2 (m - 1) ++ cols 'q' 2 (m - 1)) ++
        orBlank (B.map String.toList) ++ numDen) ::
        L.map fun e => orBlank ((ints e).map dec) ++ [dec e.2.num, dec e.2.den] := by
  obtain ⟨e, L', rfl⟩ := List.exists_cons_of_ne_nil h0
  have hi := idx_l A ["o_{1:n}", "p_{2:n}", "q_{2:n}"] B hl
  have h1 := checkLen_ok A.length m (e :: L') fun x hx => by
    obtain ⟨h, l, o, p, q, h2, h3⟩ := hL x hx
    exact ⟨h, l, [o, p, q], h2, h3⟩
  have h2 := csvRows_ok A.length 4 (e :: L') fun x hx => by
    obtain ⟨h, l, o, p, q, h2, h3⟩ := hL x hx
    exact ⟨h, by rw [h2]; rfl⟩
  obtain ⟨ha, l, o, p, q, hz, hm⟩ := hL e (by simp)
  have h3 : item (nested e.1.1 e.1.2.1 e.1.2.2) A.length = .ok (.tup (flat l)) := by
    rw [nested_eq, hz]
    have := item_at (flat e.1.1) (.tup (flat l)) (.tup (flat o) :: .tup (flat p) :: .tup (flat q) :: flat e.1.2.2)
      A.length (by simpa [flat] using ha)
    simpa using this
  have hml : (flat l).length = m := by simpa [flat] using hm
  unfold writeCsv ofEnt
  dsimp only
  rw [if_neg (by simp), hi]
  rw [List.map_cons] at h1 h2 ⊢
  dsimp only
  rw [h3, ok_bind, show items (.tup (flat l)) = .ok (flat l) from rfl, ok_bind, hml, h1, ok_bind, if_neg (by simp), h2,
    ok_bind]
  refine ⟨_, _, rfl, ?_⟩
  rw [subNames_cols, subNames_cols, subNames_cols, subNames_cols, show m + 1 - 1 = m by omega,
    show m + 1 - 2 = m - 1 by omega]
  exact table_nested A B hA hB ["l_{1:n}", "o_{1:n}", "p_{2:n}", "q_{2:n}"] _ (by
    intro t ht
    simp only [List.mem_append] at ht
    rcases ht with ((ht | ht) | ht) | ht
    all_goals exact ⟨cols_comma _ (by decide) _ _ t ht, cols_nl _ (by decide) _ _ t ht⟩) _

/-- C44, part: for the layout of SVVJ, SVIJ and SVCJ with the same number `m > 0` of jump indices in all keys, and with
names before and after the tuples, the title names every column of every row. -/
theorem C44_csv_svvj_partial (A B : List String) (hA : PlainNames A) (hB : PlainNames B) (hA0 : A ≠ []) (hB0 : B ≠ [])
    (hl : "l_{1:n}" ∉ A) (m : ℕ) (hm : 0 < m) (L : List Ent) (h0 : L ≠ [])
    (hL : ∀ e ∈ L, e.1.1.length = A.length ∧ e.1.2.2.length = B.length ∧
      ∃ l o p q, e.1.2.1 = [l, o, p, q] ∧ l.length = m ∧ o.length = m ∧ p.length = m - 1 ∧ q.length = m - 1)
    (name : Text) :
    ∃ f t, writeCsv (ofEnt (A ++ ["l_{1:n}", "o_{1:n}", "p_{2:n}", "q_{2:n}"] ++ B) L) name = .ok (f, t) ∧
      table t = (A.map String.toList ++ (cols 'l' 1 m ++ cols 'o' 1 m ++ cols 'p' 2 (m - 1) ++ cols 'q' 2 (m - 1)) ++
        B.map String.toList ++ numDen) :: L.map (fun e => rowOf (e.1.1 ++ e.1.2.1.flatten ++ e.1.2.2) e.2) ∧
      Aligned (table t) := by
  obtain ⟨f, t, e, ht⟩ := csv_four A B hA hB hl m L h0 (fun e he => by
    obtain ⟨h1, -, l, o, p, q, h2, h3, -⟩ := hL e he
    exact ⟨h1, l, o, p, q, h2, h3⟩) name
  have hc : cols 'l' 1 m ++ cols 'o' 1 m ++ cols 'p' 2 (m - 1) ++ cols 'q' 2 (m - 1) ≠ [] := by
    intro h
    have := congrArg List.length h
    simp [cols] at this
    omega
  have ht' : table t = (A.map String.toList ++ (cols 'l' 1 m ++ cols 'o' 1 m ++ cols 'p' 2 (m - 1) ++
      cols 'q' 2 (m - 1)) ++ B.map String.toList ++ numDen) ::
        L.map (fun e => rowOf (e.1.1 ++ e.1.2.1.flatten ++ e.1.2.2) e.2) := by
    rw [ht, orBlank, if_neg (by simpa using hA0), orBlank, if_neg hc, orBlank, if_neg (by simpa using hB0)]
    refine congrArg _ (List.map_congr_left fun e he => ?_)
    rw [orBlank, if_neg]
    · rfl
    · intro h
      have h1 := (hL e he).1
      have := congrArg List.length h
      simp only [ints, List.length_map, List.length_append, List.length_nil] at this
      exact hA0 (List.length_eq_zero_iff.1 (by omega))
  refine ⟨f, t, e, ht', ?_⟩
  rw [ht']
  refine ⟨by simpa using h0, fun r hr => ?_⟩
  obtain ⟨e, he, rfl⟩ := List.mem_map.1 hr
  obtain ⟨h1, h2, l, o, p, q, h3, h4, h5, h6, h7⟩ := hL e he
  simp [rowOf, cols, numDen, h1, h2, h3, h4, h5, h6, h7]

example : ∃ (A B : List String) (m : ℕ) (L : List Ent), PlainNames A ∧ PlainNames B ∧ A ≠ [] ∧ B ≠ [] ∧ "l_{1:n}" ∉ A ∧
    0 < m ∧ L ≠ [] ∧ ∀ e ∈ L, e.1.1.length = A.length ∧ e.1.2.2.length = B.length ∧
      ∃ l o p q, e.1.2.1 = [l, o, p, q] ∧ l.length = m ∧ o.length = m ∧ p.length = m - 1 ∧ q.length = m - 1 :=
  ⟨["e^{-kt}", "t", "k^{-}", "v0-theta", "theta", "sigma"], ["rho"], 2,
    [(([-1, 0, 1, 0, 1, 2], [[1, 1], [0, 0], [2], [0]], [1]), 1 / 2)], by unfold PlainNames; decide +kernel,
    by unfold PlainNames; decide +kernel, by simp, by simp, by decide +kernel, by decide, by simp, by simp⟩

/-- C44 is violated when no jump index is left: the title then has a blank column more than every row. -/
theorem C44_csv_level0_wrong (A B : List String) (hA : PlainNames A) (hB : PlainNames B) (hA0 : A ≠ []) (hB0 : B ≠ [])
    (hl : "l_{1:n}" ∉ A) (L : List Ent) (h0 : L ≠ [])
    (hL : ∀ e ∈ L, e.1.1.length = A.length ∧ e.1.2.2.length = B.length ∧ e.1.2.1 = [[], [], [], []]) (name : Text) :
    ∃ f t title rows, writeCsv (ofEnt (A ++ ["l_{1:n}", "o_{1:n}", "p_{2:n}", "q_{2:n}"] ++ B) L) name = .ok (f, t) ∧
      table t = title :: rows ∧ rows.length = L.length ∧ ∀ r ∈ rows, title.length = r.length + 1 := by
  obtain ⟨f, t, e, ht⟩ := csv_four A B hA hB hl 0 L h0 (fun e he => by
    obtain ⟨h1, -, h2⟩ := hL e he
    exact ⟨h1, _, _, _, _, h2, rfl⟩) name
  refine ⟨f, t, _, _, e, ht, by simp, fun r hr => ?_⟩
  obtain ⟨e, he, rfl⟩ := List.mem_map.1 hr
  obtain ⟨h1, h2, h3⟩ := hL e he
  rw [orBlank, if_neg (by simpa using hA0), orBlank, if_pos (by rfl), orBlank, if_neg (by simpa using hB0), orBlank,
    if_neg]
  · simp [numDen, ints, h1, h2, h3]
    omega
  · intro h
    have := congrArg List.length h
    simp only [ints, List.length_map, List.length_append, List.length_nil] at this
    exact hA0 (List.length_eq_zero_iff.1 (by omega))

example : ∃ (A B : List String) (L : List Ent), PlainNames A ∧ PlainNames B ∧ A ≠ [] ∧ B ≠ [] ∧ "l_{1:n}" ∉ A ∧ L ≠ [] ∧
    ∀ e ∈ L, e.1.1.length = A.length ∧ e.1.2.2.length = B.length ∧ e.1.2.1 = [[], [], [], []] :=
  ⟨["e^{-kt}", "t"], ["rho"], [(([-1, 0], [[], [], [], []], [1]), 1 / 2)], by unfold PlainNames; decide +kernel,
    by unfold PlainNames; decide +kernel, by simp, by simp, by decide +kernel, by simp, by simp⟩

/-- a key of a Poly of mdl_srjd as a tuple -/
def srjdKey (k : SrjdJ.SKey) : List Val := flat k.b ++ [.tup (flat k.l), .tup (flat k.o)]

/-- C44 is violated for every Poly of mdl_srjd with jumps: the tuples are at the end of `keyfor`, so that the title has
more columns than every row, and `num` is not above the numerators. -/
theorem C44_csv_srjd_wrong (P : SrjdJ.SPoly) (hk : P.keyfor = SrjdJ.kf) (h0 : P.items ≠ []) (m : ℕ)
    (hP : ∀ e ∈ P.items, e.1.b.length = 5 ∧ e.1.l.length = m ∧ e.1.o.length = m - 1) (name : Text) :
    ∃ f t title rows, writeCsv ⟨P.keyfor, P.items.map fun e => (srjdKey e.1, e.2)⟩ name = .ok (f, t) ∧
      table t = title :: rows ∧ rows.length = P.items.length ∧
      ∀ r ∈ rows, title.length = r.length + if m = 0 then 2 else 1 := by
  have hA : PlainNames ["v_0", "k^{-}", "theta", "sigma", "e^{kt}"] := by unfold PlainNames; decide +kernel
  have hw : (⟨P.keyfor, P.items.map fun e => (srjdKey e.1, e.2)⟩ : VPoly) =
      ofEnt (["v_0", "k^{-}", "theta", "sigma", "e^{kt}"] ++ ["l_{1:n}", "o_{2:n}"] ++ [])
        (P.items.map fun e => ((e.1.b, [e.1.l, e.1.o], []), e.2)) := by
    unfold ofEnt
    rw [hk, List.map_map]
    congr 1
    refine List.map_congr_left fun e _ => ?_
    simp [srjdKey, nested, flat]
  obtain ⟨f, t, e, ht⟩ := csv_two ["v_0", "k^{-}", "theta", "sigma", "e^{kt}"] [] hA (by unfold PlainNames; simp)
    (by decide +kernel) (by decide +kernel) m (P.items.map fun e => ((e.1.b, [e.1.l, e.1.o], []), e.2)) (by simpa using h0)
    (fun e he => by
      obtain ⟨x, hx, rfl⟩ := List.mem_map.1 he
      exact ⟨(hP x hx).1, _, _, rfl, (hP x hx).2.1⟩) name
  refine ⟨f, t, _, _, by rw [hw, e], ht, by simp, fun r hr => ?_⟩
  obtain ⟨e, he, rfl⟩ := List.mem_map.1 hr
  obtain ⟨x, hx, rfl⟩ := List.mem_map.1 he
  obtain ⟨h1, h2, h3⟩ := hP x hx
  have hb : (orBlank ((ints ((x.1.b, [x.1.l, x.1.o], []), x.2)).map dec)).length = 5 + m + (m - 1) := by
    rw [orBlank, if_neg]
    · simp [ints, h1, h2, h3]
      omega
    · intro h
      have := congrArg List.length h
      simp [ints, h1] at this
  rw [List.length_append (as := orBlank ((ints ((x.1.b, [x.1.l, x.1.o], []), x.2)).map dec)), hb]
  by_cases hm : m = 0
  · subst hm
    rw [if_pos rfl]
    rfl
  · rw [if_neg hm]
    have hc : cols 'l' 1 m ++ cols 'o' 2 (m - 1) ≠ [] := by
      intro h
      have := congrArg List.length h
      simp [cols] at this
      omega
    rw [orBlank, if_neg (by simp), orBlank, if_neg hc, orBlank, if_pos (by rfl)]
    simp [cols, numDen]
    omega

example : ∃ P : SrjdJ.SPoly, P.keyfor = SrjdJ.kf ∧ P.items ≠ [] ∧ ∀ e ∈ P.items, e.1.b.length = 5 ∧ e.1.l.length = 2 ∧
    e.1.o.length = 2 - 1 :=
  ⟨⟨SrjdJ.kf, [(⟨[1, 0, 0, 0, -1], [1, 1], [0]⟩, 1)]⟩, rfl, by simp, by simp⟩

/-- what a user sees: the title of an SRJD table and its row -/
example : writeCsv ⟨SrjdJ.kf, [(srjdKey ⟨[1, 0, 0, 0, -1], [1, 1], [0]⟩, 3 / 2)]⟩ "x.csv".toList =
    .ok ("x.csv".toList, "v_0,k^{-},theta,sigma,e^{kt},l1,l2,o2,,num,den\n1,0,0,0,-1,1,1,0,3,2\n".toList) := by
  decide +kernel

/-! ### errors -/

/-- Keys with different numbers of jump indices are refused. -/
theorem C44_csv_mixed (kf : List String) (hl : "l_{1:n}" ∈ kf) (L : List Ent)
    (hL : ∀ e ∈ L, e.1.1.length = kf.idxOf "l_{1:n}" ∧ e.1.2.1 ≠ [])
    (hd : ∃ e ∈ L, ∃ e' ∈ L, (e.1.2.1.headD []).length ≠ (e'.1.2.1.headD []).length) (name : Text) :
    writeCsv (ofEnt kf L) name = .error .exception := by
  have hs : ∀ e ∈ L, subLen (kf.idxOf "l_{1:n}") (nested e.1.1 e.1.2.1 e.1.2.2) = .ok (e.1.2.1.headD []).length := by
    intro e he
    obtain ⟨h1, h2⟩ := hL e he
    obtain ⟨l, z, hz⟩ := List.exists_cons_of_ne_nil h2
    rw [nested_eq, hz, List.map_cons, List.map_cons, List.append_assoc, List.cons_append,
      subLen_ok _ _ _ _ (by simpa [flat] using h1)]
    simp [flat]
  have hck : ∀ (n : ℕ) (K : List Ent), (∀ e ∈ K, e ∈ L) → (∃ e ∈ K, (e.1.2.1.headD []).length ≠ n) →
      checkLen (kf.idxOf "l_{1:n}") n (K.map fun e => (nested e.1.1 e.1.2.1 e.1.2.2, e.2)) = .error .exception := by
    intro n K hK
    induction K with
    | nil => simp
    | cons x K ih =>
      rintro ⟨e, he, hn⟩
      rw [List.map_cons, checkLen]
      dsimp only
      rw [hs x (hK x (by simp)), ok_bind]
      by_cases hx : (x.1.2.1.headD []).length = n
      · rw [if_neg (by simpa using hx)]
        refine ih (fun e he => hK e (List.mem_cons_of_mem _ he)) ⟨e, ?_, hn⟩
        rcases List.mem_cons.1 he with rfl | he
        · exact absurd hx hn
        · exact he
      · rw [if_pos hx]
  obtain ⟨e, he, e', he', hne⟩ := hd
  cases L with
  | nil => simp at he
  | cons x K =>
    obtain ⟨h1, h2⟩ := hL x (by simp)
    obtain ⟨l, z, hz⟩ := List.exists_cons_of_ne_nil h2
    have h3 : item (nested x.1.1 x.1.2.1 x.1.2.2) (kf.idxOf "l_{1:n}") = .ok (.tup (flat l)) := by
      rw [nested_eq, hz]
      have := item_at (flat x.1.1) (.tup (flat l)) (z.map (Val.tup ∘ flat) ++ flat x.1.2.2)
        (kf.idxOf "l_{1:n}") (by simpa [flat] using h1)
      simpa using this
    have hlen : (flat l).length = (x.1.2.1.headD []).length := by rw [hz]; simp [flat]
    have hex : ∃ e ∈ x :: K, (e.1.2.1.headD []).length ≠ (x.1.2.1.headD []).length := by
      by_contra hc
      push Not at hc
      exact hne ((hc e he).trans (hc e' he').symm)
    have := hck _ (x :: K) (fun _ h => h) hex
    unfold writeCsv ofEnt
    dsimp only
    rw [if_neg (by simpa using hl)]
    rw [List.map_cons] at this ⊢
    dsimp only
    rw [h3, ok_bind, show items (.tup (flat l)) = .ok (flat l) from rfl, ok_bind, hlen, this]
    rfl

/-- A Poly without entries and with `l_{1:n}` in `keyfor` raises `UnboundLocalError`. -/
theorem C44_csv_empty (kf : List String) (hl : "l_{1:n}" ∈ kf) (name : Text) :
    writeCsv ⟨kf, []⟩ name = .error .nameError := by
  unfold writeCsv
  rw [if_neg (by simpa using hl)]

example : "l_{1:n}" ∈ ["a", "l_{1:n}", "o_{2:n}"] ∧ ∃ L : List Ent,
    (∀ e ∈ L, e.1.1.length = ["a", "l_{1:n}", "o_{2:n}"].idxOf "l_{1:n}" ∧ e.1.2.1 ≠ []) ∧
    ∃ e ∈ L, ∃ e' ∈ L, (e.1.2.1.headD []).length ≠ (e'.1.2.1.headD []).length :=
  ⟨by decide +kernel, [(([1], [[], []], []), 1), (([1], [[1], []], []), 1)], by decide +kernel, by
    refine ⟨_, List.mem_cons_self, _, List.mem_cons_of_mem _ List.mem_cons_self, by decide⟩⟩

/-! ### mdl_2fsv -/

/-- a key of a Poly of mdl_2fsv as a tuple -/
def fsv2Key (k : Fsv2.TKey) : List Val :=
  .tup (k.d.map fun x => .tup [.int x.1, .int x.2.1, .int x.2.2]) :: .tup [.int k.e.1, .int k.e.2] :: flat k.c

/-- C44 is violated for every Poly of mdl_2fsv, although the code names this model among those it covers: no row has as
many columns as the title, because a tuple inside a key is written with commas. -/
theorem C44_csv_2fsv_wrong (rest : List String) (hr : PlainNames rest) (hl : "l_{1:n}" ∉ rest) (P : Fsv2.TPoly)
    (hk : P.keyfor = Fsv2.sD :: Fsv2.sE :: rest) (hP : ∀ e ∈ P.items, e.1.c.length = rest.length) (name : Text) :
    ∃ f t title rows, writeCsv ⟨P.keyfor, P.items.map fun e => (fsv2Key e.1, e.2)⟩ name = .ok (f, t) ∧
      table t = title :: rows ∧ rows.length = P.items.length ∧ ∀ r ∈ rows, title.length ≠ r.length := by
  have hl' : "l_{1:n}" ∉ P.keyfor := by
    rw [hk]
    simp only [List.mem_cons, not_or]
    exact ⟨by decide +kernel, by decide +kernel, hl⟩
  have hD : '\n' ∉ Fsv2.sD.toList := by decide +kernel
  have hE : '\n' ∉ Fsv2.sE.toList := by decide +kernel
  have hn : '\n' ∉ joinNames P.keyfor := by
    rw [hk]
    intro hc
    rcases join_mem _ _ _ hc with hc | ⟨t, ht, hc⟩
    · simp at hc
    · obtain ⟨s, hs, rfl⟩ := List.mem_map.1 ht
      rcases List.mem_cons.1 hs with rfl | hs
      · exact hD hc
      rcases List.mem_cons.1 hs with rfl | hs
      · exact hE hc
      · exact (hr s hs).2 hc
  have hone : ∀ L : List Text, (∀ t ∈ L, ',' ∉ t) → (L.flatMap (·.splitOn ',')).length = L.length := by
    intro L
    induction L with
    | nil => simp
    | cons a L ih =>
      intro h
      rw [List.flatMap_cons, List.length_append, splitOn_none _ _ (h a (by simp)),
        ih fun t ht => h t (List.mem_cons_of_mem _ ht)]
      simp
      omega
  have htitle : ((joinNames P.keyfor).splitOn ',').length = 4 + rest.length := by
    unfold joinNames
    rw [splitOn_join' _ (by rw [hk]; simp), hk, List.map_cons, List.map_cons, List.flatMap_cons, List.flatMap_cons,
      List.length_append, List.length_append, length_splitOn, length_splitOn, hone _ (by
        intro t ht
        obtain ⟨s, hs, rfl⟩ := List.mem_map.1 ht
        exact (hr s hs).1), show Fsv2.sD.toList.count ',' = 2 by decide +kernel,
      show Fsv2.sE.toList.count ',' = 0 by decide +kernel, List.length_map]
    omega
  unfold writeCsv
  rw [if_pos hl']
  refine ⟨_, _, _, _, rfl, by
    dsimp only
    rw [List.flatMap_map]
    exact table_file _ hn P.items fun e => (fsv2Key e.1, e.2), by simp, fun r hr => ?_⟩
  obtain ⟨e, he, rfl⟩ := List.mem_map.1 hr
  have hc := hP e he
  rw [List.length_append, List.length_append, htitle]
  dsimp only
  have htri : ∀ x : Itos.Den, (str (.tup [.int x.1, .int x.2.1, .int x.2.2])).count ',' = 2 := fun x => by
    rw [str, count_brackets]
    simp [strs, str, count_dec]
  have hpair : (str (.tup [.int e.1.e.1, .int e.1.e.2])).count ',' = 1 := by
    rw [str, count_brackets]
    simp [strs, str, count_dec]
  have hden : (str (.tup (e.1.d.map fun x => .tup [.int x.1, .int x.2.1, .int x.2.2]))).count ',' ≠ 1 := by
    rw [str, count_brackets, strs_map]
    have : ((((e.1.d.map fun x => Val.tup [.int x.1, .int x.2.1, .int x.2.2]).map str).map (·.count ',')).sum) =
        2 * e.1.d.length := by
      rw [List.map_map, List.map_map, List.map_congr_left (g := fun _ => 2) (fun x (_ : x ∈ e.1.d) => by exact htri x)]
      simp [mul_comm]
    rw [this]
    simp only [List.length_map]
    split_ifs <;> omega
  unfold fsv2Key
  rw [strs, strs, strs_flat, splitOn_join' _ (by simp), List.flatMap_cons, List.flatMap_cons, List.length_append,
    List.length_append, length_splitOn, length_splitOn, hpair, hone _ (by
      intro t ht
      obtain ⟨n, -, rfl⟩ := List.mem_map.1 ht
      exact dec_comma n), List.length_map, hc]
  simp only [numDen, List.length_cons, List.length_nil]
  omega

example : ∃ (rest : List String) (P : Fsv2.TPoly), PlainNames rest ∧ "l_{1:n}" ∉ rest ∧
    P.keyfor = Fsv2.sD :: Fsv2.sE :: rest ∧ P.items ≠ [] ∧ ∀ e ∈ P.items, e.1.c.length = rest.length :=
  ⟨["h", "theta1", "sigma_v1", "theta2", "sigma_v2"], ⟨Fsv2.kfC, [(⟨[(1, 0, 2)], (1, 0), [0, 1, 2, 0, 0]⟩, 1)]⟩,
    by unfold PlainNames; decide +kernel, by decide +kernel, rfl, by simp, by simp⟩

/-! ### txt files -/

/-- names without quotes and newlines -/
def QuietNames (kf : List String) : Prop := ∀ s ∈ kf, '\'' ∉ s.toList ∧ '\n' ∉ s.toList

theorem strNames_inj (kf kf' : List String) (h : QuietNames kf) (h' : QuietNames kf') (s t : Text)
    (he : strNames kf ++ s = strNames kf' ++ t) : kf = kf' := by
  unfold strNames at he
  let α := {s : String // '\'' ∉ s.toList}
  let st : α → Text := fun x => reprStr x.1
  have hu : ∀ x : α, Uniq st x := by
    intro x y u v _ _ h
    have h1 : x.1.toList ++ '\'' :: u = y.1.toList ++ '\'' :: v := by
      simpa [st, reprStr] using h
    have h2 := congrArg (List.splitOn '\'') h1
    rw [splitOn_cons_sep _ _ _ x.2, splitOn_cons_sep _ _ _ y.2] at h2
    have h3 := (List.cons.inj h2).1
    rw [h3] at h1
    exact ⟨Subtype.ext (String.toList_inj.1 h3), (List.cons.inj (List.append_cancel_left h1)).2⟩
  have hst : ∀ (x : α) (s : Text), ∃ c t, st x ++ s = c :: t ∧ c ≠ ')' := fun x s =>
    ⟨'\'', _, rfl, by decide⟩
  have hl : ∀ (kf : List String) (h : QuietNames kf), (kf.pmap (fun s hs => (⟨s, hs⟩ : α)) fun s hs => (h s hs).1).map st =
      kf.map reprStr := by
    intro kf h
    rw [List.map_pmap]
    exact List.pmap_eq_map (f := reprStr) _
  rw [← hl kf h, ← hl kf' h'] at he
  have := (brackets_split st hst _ (fun x _ => hu x) _ _ _ he).1
  have h3 := congrArg (List.map Subtype.val) this
  rw [List.map_pmap, List.map_pmap] at h3
  simpa using h3

theorem txtRow_line (k : List Val) (v : ℚ) : txtRow k v =
    (str (.tup k) ++ ':' :: (' ' :: '(' :: (dec v.num ++ ',' :: (dec v.den ++ [')'])))) ++ ['\n'] := by
  simp [txtRow]

theorem txt_lines (rows : List Text) (h : ∀ r ∈ rows, '\n' ∉ r) :
    ((rows.flatMap fun r => r ++ ['\n']).splitOn '\n') = rows ++ [[]] := by
  induction rows with
  | nil => rfl
  | cons r rows ih =>
    rw [List.flatMap_cons, List.append_assoc, List.singleton_append, splitOn_cons_sep _ _ _ (h r (by simp)),
      ih fun r hr => h r (List.mem_cons_of_mem _ hr), List.cons_append]

theorem title_txt : ": value(in fraction)\n".toList = ": value(in fraction)".toList ++ ['\n'] := by decide +kernel

theorem txt_split (p : VPoly) (h : QuietNames p.keyfor) (name : Text) : (writeTxt p name).2.splitOn '\n' =
    ((strNames p.keyfor ++ ": value(in fraction)".toList) :: p.items.map fun e =>
      str (.tup e.1) ++ ':' :: (' ' :: '(' :: (dec e.2.num ++ ',' :: (dec e.2.den ++ [')'])))) ++ [[]] := by
  rw [← txt_lines]
  · unfold writeTxt
    dsimp only
    rw [title_txt, List.flatMap_cons, List.flatMap_map]
    simp only [txtRow_line, List.append_assoc]
  · intro r hr
    rcases List.mem_cons.1 hr with rfl | hr
    · intro hc
      rcases List.mem_append.1 hc with hc | hc
      · rcases brackets_mem _ _ hc with hc | ⟨t, ht, hc⟩
        · simp at hc
        · obtain ⟨s, hs, rfl⟩ := List.mem_map.1 ht
          simp only [reprStr, List.mem_append, List.mem_cons, List.cons_append, List.not_mem_nil, or_false] at hc
          rcases hc with hc | hc | hc
          · exact absurd hc (by decide)
          · exact (h s hs).2 hc
          · exact absurd hc (by decide)
      · exact absurd hc (by decide +kernel)
    · obtain ⟨e, -, rfl⟩ := List.mem_map.1 hr
      intro hc
      simp only [List.mem_append, List.mem_cons, List.not_mem_nil, or_false] at hc
      rcases hc with hc | hc | hc | hc | hc | hc | hc | hc
      · exact str_nl _ hc
      · exact absurd hc (by decide)
      · exact absurd hc (by decide)
      · exact absurd hc (by decide)
      · exact dec_nl _ hc
      · exact absurd hc (by decide)
      · exact dec_nl _ hc
      · exact absurd hc (by decide)

/-- The txt file determines `keyfor`, the keys (with all their tuples), their order and the values. -/
theorem C44_txt_injective (p q : VPoly) (hp : QuietNames p.keyfor) (hq : QuietNames q.keyfor) (name : Text)
    (h : writeTxt p name = writeTxt q name) : p = q := by
  have h1 := congrArg (fun x => x.2.splitOn '\n') h
  simp only [txt_split p hp, txt_split q hq] at h1
  obtain ⟨h2, h3⟩ := List.cons.inj (List.append_cancel_right h1)
  have hkf := strNames_inj _ _ hp hq _ _ h2
  have hit : p.items = q.items := by
    refine List.map_injective_iff.2 (fun a b hab => ?_) h3
    obtain ⟨h4, h5⟩ := str_uniq _ _ _ _ (Nd_cons _ _ rfl) (Nd_cons _ _ rfl) hab
    simp only [List.cons.injEq, true_and] at h5
    obtain ⟨h6, h7⟩ := dec_split _ _ _ _ (Nd_cons _ _ rfl) (Nd_cons _ _ rfl) h5
    obtain ⟨h8, -⟩ := dec_split _ _ _ _ (Nd_cons _ _ rfl) (Nd_cons _ _ rfl) (List.cons.inj h7).2
    exact Prod.ext (Val.tup.inj h4) (Rat.ext h6 (by exact_mod_cast h8))
  cases p
  cases q
  simp only at hkf hit
  rw [hkf, hit]

example : QuietNames Fsv2.kfC ∧ QuietNames SrjdJ.kf := by
  unfold QuietNames
  decide +kernel

/-- The names of the files end in the extension, and a name that does is kept. -/
theorem C44_filename (p : VPoly) (name : Text) : ".txt".toList <:+ (writeTxt p name).1 ∧
    (".txt".toList <:+ name → (writeTxt p name).1 = name) ∧
    ∀ f t, writeCsv p name = .ok (f, t) → ".csv".toList <:+ f ∧ (".csv".toList <:+ name → f = name) := by
  have hw : ∀ ext : Text, ext <:+ withExt ext name ∧ (ext <:+ name → withExt ext name = name) := by
    intro ext
    unfold withExt
    by_cases h : ext <:+ name
    · rw [if_pos (List.isSuffixOf_iff_suffix.2 h)]
      exact ⟨h, fun _ => rfl⟩
    · rw [if_neg (fun h' => h (List.isSuffixOf_iff_suffix.1 h'))]
      exact ⟨List.suffix_append _ _, fun h' => absurd h' h⟩
  refine ⟨(hw _).1, (hw _).2, fun f t h => ?_⟩
  have : f = withExt ".csv".toList name := by
    unfold writeCsv at h
    by_cases h1 : "l_{1:n}" ∈ p.keyfor
    · rw [if_neg (by simpa using h1)] at h
      dsimp only at h
      cases he : p.items with
      | nil =>
        rw [he] at h
        cases h
      | cons e es =>
        rw [he] at h
        dsimp only at h
        cases h2 : item e.1 (p.keyfor.idxOf "l_{1:n}") with
        | error x =>
          rw [h2] at h
          cases h
        | ok x =>
          rw [h2, ok_bind] at h
          cases h3 : items x with
          | error x =>
            rw [h3] at h
            cases h
          | ok l =>
            rw [h3, ok_bind] at h
            cases h4 : checkLen (p.keyfor.idxOf "l_{1:n}") l.length (e :: es) with
            | error x =>
              rw [h4] at h
              cases h
            | ok u =>
              rw [h4, ok_bind] at h
              have hrows : ∀ (c : ℕ) (g : Text → Text), (do
                  let rows ← csvRows (p.keyfor.idxOf "l_{1:n}") c (e :: es)
                  pure (withExt ".csv".toList name, g rows) : Except PyErr (Text × Text)) = .ok (f, t) →
                  f = withExt ".csv".toList name := by
                intro c g hh
                cases h5 : csvRows (p.keyfor.idxOf "l_{1:n}") c (e :: es) with
                | error x =>
                  rw [h5] at hh
                  cases hh
                | ok r =>
                  rw [h5, ok_bind] at hh
                  cases hh
                  rfl
              split_ifs at h with h6
              · exact hrows _ _ h
              · exact hrows _ _ h
    · rw [if_pos h1, Except.ok.injEq, Prod.mk.injEq] at h
      exact h.1.symm
  rw [this]
  exact hw _

end Ajd.Writer
