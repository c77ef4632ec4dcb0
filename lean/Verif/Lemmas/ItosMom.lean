import Verif.Lemmas.Itos
import Verif.Lemmas.SrjdJoint

section -- ItosRec

/-! The recursion and the table of `itos_mom.py`. -/

namespace Ajd.Itos
open MeasureTheory Poly

theorem coefPoly_spec (coef : ℚ) (P : DPoly) (tp : ℕ) (hP : P.Keys KOK) (A : ℤ × ℤ) (G : ℤ × ℤ → Prop)
    (hG : P.Keys fun k => aShift tp k.a = A ∧ G k.e) :
    (coefPoly coef P tp).keyfor = kf ∧ (coefPoly coef P tp).WF ∧
      ((coefPoly coef P tp).Keys fun k => KOK k ∧ k.a = A ∧ G k.e) ∧
      ∀ (x : Par) (t : ℝ), ev (dval x t) (coefPoly coef P tp) = coef * fac x tp * ev (dval x t) P := by
  unfold coefPoly
  refine ⟨ofTerms_keyfor _ _, ofTerms_WF _ _, ?_, ?_⟩
  · apply ofTerms_Keys
    intro y hy
    obtain ⟨e, he, rfl⟩ := List.mem_map.1 hy
    obtain ⟨h1, h2, h3, _⟩ := coefTerm_spec ⟨0, 0, 0, 0, 0, 0, 0, 0, 0⟩ 0 coef tp e (hP e he)
    exact ⟨h1, by rw [h3]; exact (hG e he).1, by rw [h2]; exact (hG e he).2⟩
  · intro x t
    rw [ev_ofTerms_map (dval x t) (fun k => coef * fac x tp * dval x t k) kf P (coefTerm coef tp)
      fun e he => (coefTerm_spec x t coef tp e (hP e he)).2.2.2]
    exact ev_mul_const _ _ _

/-- a solution of the moment equation and a time -/
structure Env where
  x : Par
  M : Fam
  t : ℝ
  ht : x.u ≤ t
  hM : ItoRec2 x M

/-- the value added by one call -/
noncomputable def callVal (x : Par) (M : Fam) (t : ℝ) (q : Call) : ℝ :=
  q.c * fac x q.tp * ∫ s in x.u..t, Real.exp (q.m * x.k q.i * s) * M.at q.idx s

/-- the terms of the moment equation, in the order of the cases -/
noncomputable def terms (x : Par) (M : Fam) (n4 n5 n6 n7 n8 : ℕ) (t : ℝ) : List ℝ :=
  [term4 x M n4 n5 n6 n7 n8 t, term5 x M n4 n5 n6 n7 n8 t, term45 x M n4 n5 n6 n7 n8 t,
    term6 x M n4 n5 n6 n7 n8 t, term7 x M n4 n5 n6 n7 n8 t, term67 x M n4 n5 n6 n7 n8 t,
    term8 x M n4 n5 n6 n7 n8 t]

/-- a case contributes its terms, and has no terms when it does not apply -/
def CaseOK (x : Par) (M : Fam) (t : ℝ) (b : Bool × List Call) (r : ℝ) : Prop :=
  (b.1 = true → (b.2.map (callVal x M t)).sum = r) ∧ (b.1 = false → r = 0)

theorem choose2 (n : ℕ) (h : ¬ 2 ≤ n) : (n : ℝ) * (n - 1) / 2 = 0 := by
  have : n = 0 ∨ n = 1 := by omega
  rcases this with rfl | rfl <;> simp

theorem cases_terms (x : Par) (M : Fam) (t : ℝ) (n4 n5 n6 n7 n8 : ℕ) :
    List.Forall₂ (CaseOK x M t) (cases (n4, n5, n6, n7, n8)) (terms x M n4 n5 n6 n7 n8 t) := by
  unfold cases terms
  dsimp only
  refine .cons ⟨?_, ?_⟩ (.cons ⟨?_, ?_⟩ (.cons ⟨?_, ?_⟩ (.cons ⟨?_, ?_⟩ (.cons ⟨?_, ?_⟩
    (.cons ⟨?_, ?_⟩ (.cons ⟨?_, ?_⟩ .nil)))))) <;> intro h <;>
    simp only [decide_eq_true_eq, decide_eq_false_iff_not] at h
  · simp only [List.map_cons, List.map_nil, List.sum_cons, List.sum_nil, callVal, fac, term4, quad1,
      Fam.at, Par.k, Int.toNat_natCast, show ((n4 : ℤ) - 2).toNat = n4 - 2 by omega,
      show ((n4 : ℤ) - 1).toNat = n4 - 1 by omega]
    norm_num
    ring
  · rw [term4, choose2 n4 (by omega), zero_mul]
  · simp only [List.map_cons, List.map_nil, List.sum_cons, List.sum_nil, callVal, fac, term5, quad1,
      Fam.at, Par.k, Int.toNat_natCast, show ((n5 : ℤ) - 2).toNat = n5 - 2 by omega,
      show ((n4 : ℤ) + 1).toNat = n4 + 1 by omega]
    norm_num
    ring
  · rw [term5, choose2 n5 (by omega), zero_mul]
  · simp only [List.map_cons, List.map_nil, List.sum_cons, List.sum_nil, callVal, fac, term45, quad1,
      Fam.at, Par.k, Int.toNat_natCast, show ((n5 : ℤ) - 1).toNat = n5 - 1 by omega,
      show ((n4 : ℤ) - 1).toNat = n4 - 1 by omega]
    norm_num
    ring
  · have : n4 = 0 ∨ n5 = 0 := by omega
    rcases this with rfl | rfl <;> simp [term45]
  · simp only [List.map_cons, List.map_nil, List.sum_cons, List.sum_nil, callVal, fac, term6, quad2,
      Fam.at, Par.k, Int.toNat_natCast, show ((n6 : ℤ) - 2).toNat = n6 - 2 by omega,
      show ((n6 : ℤ) - 1).toNat = n6 - 1 by omega]
    norm_num
    ring
  · rw [term6, choose2 n6 (by omega), zero_mul]
  · simp only [List.map_cons, List.map_nil, List.sum_cons, List.sum_nil, callVal, fac, term7, quad2,
      Fam.at, Par.k, Int.toNat_natCast, show ((n7 : ℤ) - 2).toNat = n7 - 2 by omega,
      show ((n6 : ℤ) + 1).toNat = n6 + 1 by omega]
    norm_num
    ring
  · rw [term7, choose2 n7 (by omega), zero_mul]
  · simp only [List.map_cons, List.map_nil, List.sum_cons, List.sum_nil, callVal, fac, term67, quad2,
      Fam.at, Par.k, Int.toNat_natCast, show ((n7 : ℤ) - 1).toNat = n7 - 1 by omega,
      show ((n6 : ℤ) - 1).toNat = n6 - 1 by omega]
    norm_num
    ring
  · have : n6 = 0 ∨ n7 = 0 := by omega
    rcases this with rfl | rfl <;> simp [term67]
  · simp only [List.map_cons, List.map_nil, List.sum_cons, List.sum_nil, callVal, fac, term8, quad1, quad2,
      Fam.at, Par.k, Int.toNat_natCast, show ((n8 : ℤ) - 2).toNat = n8 - 2 by omega,
      show ((n4 : ℤ) + 1).toNat = n4 + 1 by omega, show ((n6 : ℤ) + 1).toNat = n6 + 1 by omega]
    norm_num
    ring
  · rw [term8, choose2 n8 (by omega), zero_mul]

/-- all applicable cases together -/
theorem all_sum (x : Par) (M : Fam) (t : ℝ) (L : List (Bool × List Call)) (R : List ℝ)
    (h : List.Forall₂ (CaseOK x M t) L R) :
    ((L.flatMap fun b => if b.1 then b.2 else []).map (callVal x M t)).sum = R.sum := by
  induction h with
  | nil => simp
  | cons h _ ih =>
    rename_i b r _ _ _
    rw [List.flatMap_cons, List.map_append, List.sum_append, ih, List.sum_cons]
    congr 1
    cases hb : b.1 with
    | true => simpa [hb] using h.1 hb
    | false => simp [h.2 hb]

/-- the first applicable case, when no other applies -/
theorem first_sum (x : Par) (M : Fam) (t : ℝ) (L : List (Bool × List Call)) (R : List ℝ)
    (h : List.Forall₂ (CaseOK x M t) L R) (h1 : (L.filter fun b => b.1).length ≤ 1) :
    ((match L.find? fun b : Bool × List Call => b.1 with | some b => b.2 | none => []).map (callVal x M t)).sum = R.sum := by
  induction h with
  | nil => simp
  | cons h hr ih =>
    rename_i b r L' R' 
    cases hb : b.1 with
    | true =>
      rw [List.filter_cons_of_pos (by simpa using hb), List.length_cons] at h1
      have h0 : (L'.filter fun b => b.1) = [] := List.length_eq_zero_iff.1 (by omega)
      have hz : R'.sum = 0 := by
        clear ih h1 h
        induction hr with
        | nil => rfl
        | cons h' _ ih =>
          rename_i b' r' _ _ _
          have hb' : b'.1 = false := by
            cases e : b'.1 with
            | false => rfl
            | true => rw [List.filter_cons_of_pos (by simpa using e)] at h0; simp at h0
          rw [List.filter_cons_of_neg (by simp [hb'])] at h0
          rw [List.sum_cons, h'.2 hb', ih h0, add_zero]
      rw [List.find?_cons_of_pos (by simpa using hb), List.sum_cons, hz, add_zero]
      exact h.1 hb
    | false =>
      rw [List.filter_cons_of_neg (by simp [hb])] at h1
      rw [List.find?_cons_of_neg (by simp [hb]), List.sum_cons, h.2 hb, zero_add]
      exact ih h1

/-- at most one case applies -/
def Single (i : Idx) : Prop := ((cases i).filter fun b => b.1).length ≤ 1

theorem calls_sum (g : Cfg) (y : Env) (i : Idx) (hi : Valid i) (hl : 0 < lev i)
    (hg : g.all = true ∨ Single i) : ((calls g i).map (callVal y.x y.M y.t)).sum = y.M.at i y.t := by
  obtain ⟨n4, n5, n6, n7, n8⟩ := i
  obtain ⟨h4, h5, h6, h7, h8⟩ := hi
  simp only [lev] at h4 h5 h6 h7 h8 hl
  lift n4 to ℕ using h4
  lift n5 to ℕ using h5
  lift n6 to ℕ using h6
  lift n7 to ℕ using h7
  lift n8 to ℕ using h8
  have hc := cases_terms y.x y.M y.t n4 n5 n6 n7 n8
  have hr : (terms y.x y.M n4 n5 n6 n7 n8 y.t).sum = y.M.at (n4, n5, n6, n7, n8) y.t := by
    simp only [Fam.at, Int.toNat_natCast]
    rw [y.hM.step n4 n5 n6 n7 n8 (by omega) y.t y.ht]
    simp [terms]
    ring
  rw [← hr]
  unfold calls
  cases ha : g.all with
  | true => rw [if_pos rfl]; exact all_sum _ _ _ _ _ hc
  | false =>
    rw [if_neg (by simp)]
    exact first_sum _ _ _ _ _ hc (hg.resolve_left (by simp [ha]))

theorem mem_calls (g : Cfg) (i : Idx) (q : Call) (hq : q ∈ calls g i) :
    ∃ b ∈ cases i, b.1 = true ∧ q ∈ b.2 := by
  unfold calls at hq
  split_ifs at hq
  · obtain ⟨b, hb, hq⟩ := List.mem_flatMap.1 hq
    cases h : b.1 with
    | true => rw [h] at hq; exact ⟨b, hb, h, hq⟩
    | false => rw [h] at hq; simp at hq
  · cases h : (cases i).find? fun b => b.1 with
    | none => rw [h] at hq; simp at hq
    | some b =>
      rw [h] at hq
      exact ⟨b, List.mem_of_find?_eq_some h, by simpa using List.find?_some h, hq⟩

theorem calls_idx (g : Cfg) (i : Idx) (hi : Valid i) (q : Call) (hq : q ∈ calls g i) :
    Valid q.idx ∧ (lev q.idx = lev i - 2 ∨ lev q.idx = lev i - 1) := by
  obtain ⟨b, hb, h, hq'⟩ := mem_calls g i q hq
  clear hq
  obtain ⟨n4, n5, n6, n7, n8⟩ := i
  obtain ⟨h4, h5, h6, h7, h8⟩ := hi
  simp only at h4 h5 h6 h7 h8
  simp only [cases, List.mem_cons, List.not_mem_nil, or_false] at hb
  simp only [Valid, lev]
  rcases hb with rfl | rfl | rfl | rfl | rfl | rfl | rfl <;>
    simp only [decide_eq_true_eq, List.mem_cons, List.not_mem_nil, or_false] at h hq'
  iterate 6
    · rcases hq' with rfl | rfl | rfl | rfl <;> dsimp only <;> omega
  · rcases hq' with rfl | rfl | rfl | rfl | rfl | rfl | rfl | rfl <;> dsimp only <;> omega

/-- `key[1]` of a moment -/
def aOf (i : Idx) : ℤ × ℤ := (i.1, i.2.2.1)

theorem calls_a (g : Cfg) (i : Idx) (q : Call) (hq : q ∈ calls g i) :
    aShift q.tp (shift q.i q.m (aOf q.idx)) = aOf i := by
  obtain ⟨b, hb, h, hq'⟩ := mem_calls g i q hq
  clear hq
  obtain ⟨n4, n5, n6, n7, n8⟩ := i
  simp only [cases, List.mem_cons, List.not_mem_nil, or_false] at hb
  rcases hb with rfl | rfl | rfl | rfl | rfl | rfl | rfl <;>
    simp only [decide_eq_true_eq, List.mem_cons, List.not_mem_nil, or_false] at h hq'
  iterate 6
    · rcases hq' with rfl | rfl | rfl | rfl <;> simp [aShift, shift, aOf] <;> omega
  · rcases hq' with rfl | rfl | rfl | rfl | rfl | rfl | rfl | rfl <;> simp [aShift, shift, aOf]

/-- `OK i x` where the moment `i` is claimed to be right, `G i` what is known of the exponents -/
structure Good (OK : Idx → Par → Prop) (G : Idx → ℤ × ℤ → Prop) (i : Idx) (P : DPoly) : Prop where
  kf : P.keyfor = kf
  keys : P.Keys KOK
  a : P.Keys fun k => k.a = aOf i
  G : P.Keys fun k => G i k.e
  wf : P.WF
  val : ∀ y : Env, OK i y.x → ev (dval y.x y.t) P = y.M.at i y.t

section
variable {g : Cfg} {OK : Idx → Par → Prop} {G : Idx → ℤ × ℤ → Prop}

/-- the call finds the right moment, or its value does not matter -/
def Fine (g : Cfg) (OK : Idx → Par → Prop) (G : Idx → ℤ × ℤ → Prop) (x : Par) (q : Call) : Prop :=
  (OK q.idx x ∧ ∀ e, G q.idx e → Sep g x (shift q.i q.m e)) ∨ fac x q.tp = 0

/-- the value of `recursive_IEI_IEII`, wherever the calls find the right moments -/
theorem recursive_val
    (hG : ∀ i, Valid i → 3 ≤ lev i → ∀ q ∈ calls g i, ∀ e e', G q.idx e →
      (e' = (0, 0) ∨ e' = shift q.i q.m e) → G i e')
    (i : Idx) (hi : Valid i) (hl : 3 ≤ lev i) (T : List (Idx × DPoly))
    (hT : TabGood (Good OK G) (fun j => Valid j ∧ lev j < lev i) T) :
    ∃ v, recursive g i T = .ok v ∧ v.keyfor = kf ∧ v.Keys KOK ∧ (v.Keys fun k => k.a = aOf i ∧ G i k.e) ∧ v.WF ∧
      ∀ y : Env, (∀ q ∈ calls g i, Fine g OK G y.x q) →
        ev (dval y.x y.t) v = ((calls g i).map (callVal y.x y.M y.t)).sum := by
  obtain ⟨r, e, rk, rw', _, rK, rv⟩ := mergeLoop_spec
    (ι := {y : Env // ∀ q ∈ calls g i, Fine g OK G y.x q})
    (fun q : Call => do
      let b ← lookup T q.idx
      let p ← intM g q.i q.m b
      pure (coefPoly q.c p q.tp)) (calls g i) (⟨kf, []⟩ : DPoly)
    (fun k => KOK k ∧ k.a = aOf i ∧ G i k.e) (fun y => dval y.1.x y.1.t)
    (fun y => callVal y.1.x y.1.M y.1.t) (fun x hx => by simp at hx) (by
    intro q hq
    have hidx := calls_idx g i hi q hq
    obtain ⟨P, eP, gP⟩ := hT q.idx ⟨hidx.1, by omega⟩
    obtain ⟨Q, eQ, qk, _, qK, qv⟩ := intM_spec g q.i q.m P gP.keys
    obtain ⟨c1, _, c3, c4⟩ := coefPoly_spec q.c Q q.tp (fun k hk => (qK k hk).1) (aOf i) (G i) (by
      intro k hk
      obtain ⟨_, e, he, ha, h⟩ := qK k hk
      refine ⟨by rw [ha, gP.a e he]; exact calls_a g i q hq, ?_⟩
      exact hG i hi hl q hq e.1.e k.1.e (gP.G e he) h)
    refine ⟨coefPoly q.c Q q.tp, by rw [lookup, eP]; dsimp only; rw [ok_bind, eQ]; rfl, c1, c3, ?_⟩
    rintro ⟨y, hy⟩
    dsimp only
    obtain ⟨h1, h2⟩ | h0 := hy q hq
    swap
    · rw [c4, callVal, h0]; simp
    rw [c4, qv y.x (fun e he => h2 _ (gP.G e he)), callVal]
    congr 1
    apply intervalIntegral.integral_congr
    intro s hs
    rw [Set.uIcc_of_le y.ht] at hs
    dsimp only
    rw [gP.val ⟨y.x, y.M, s, hs.1, y.hM⟩ h1])
  refine ⟨r, e, rk, fun k hk => (rK k hk).1, fun k hk => (rK k hk).2, rw' (by simp [WF]), ?_⟩
  intro y hy
  rw [rv ⟨y, hy⟩]
  simp [ev]

theorem step_spec
    (hG : ∀ i, Valid i → 3 ≤ lev i → ∀ q ∈ calls g i, ∀ e e', G q.idx e →
      (e' = (0, 0) ∨ e' = shift q.i q.m e) → G i e')
    (hOK : ∀ i, Valid i → 3 ≤ lev i → ∀ x, OK i x → (g.all = true ∨ Single i) ∧
      ∀ q ∈ calls g i, Fine g OK G x q)
    (i : Idx) (hi : Valid i) (hl : 3 ≤ lev i) (T : List (Idx × DPoly))
    (hT : TabGood (Good OK G) (fun j => Valid j ∧ lev j < lev i) T) :
    ∃ v, step g i T = .ok v ∧ Good OK G i v ∧ v.NoZero := by
  obtain ⟨v, e, h1, h2, h3, h4, h5⟩ := recursive_val hG i hi hl T hT
  refine ⟨v.removeZero, by rw [step, e]; rfl, ⟨h1, removeZero_Keys _ _ h2,
    removeZero_Keys _ _ fun k hk => (h3 k hk).1, removeZero_Keys _ _ fun k hk => (h3 k hk).2,
    removeZero_WF _ h4, fun y hy => ?_⟩, removeZero_NoZero _⟩
  obtain ⟨a, b⟩ := hOK i hi hl y.x hy
  rw [ev_removeZero, h5 y b, calls_sum g y i hi (by omega) a]

end

end Ajd.Itos

end -- ItosRec

section -- ItosMom

/-! The initial table and `moment_IEI_IEII` of `itos_mom.py`. -/

namespace Ajd.Itos
open MeasureTheory Poly

/-- the entry for `(0, 0, 0, 0, 2)` -/
def P8 : DPoly := ⟨kf, P02.items ++ Q02.items⟩

/-- the table for orders 0 to 2 -/
def T2 : List (Idx × DPoly) := [((0, 0, 0, 0, 0), P1), ((1, 0, 0, 0, 0), P0), ((0, 1, 0, 0, 0), P0),
    ((0, 0, 1, 0, 0), P0),
    ((0, 0, 0, 1, 0), P0), ((0, 0, 0, 0, 1), P0), ((2, 0, 0, 0, 0), P20), ((1, 1, 0, 0, 0), P11),
    ((0, 2, 0, 0, 0), P02), ((1, 0, 1, 0, 0), P0), ((1, 0, 0, 1, 0), P0), ((1, 0, 0, 0, 1), P0),
    ((0, 1, 1, 0, 0), P0), ((0, 1, 0, 1, 0), P0), ((0, 1, 0, 0, 1), P0), ((0, 0, 2, 0, 0), Q20),
    ((0, 0, 1, 1, 0), Q11), ((0, 0, 0, 2, 0), Q02), ((0, 0, 1, 0, 1), P0), ((0, 0, 0, 1, 1), P0),
    ((0, 0, 0, 0, 2), P8)]

theorem table2_eq : table2 = .ok T2 := rfl

section
variable {x : Par} {M : Fam} (hM : ItoRec2 x M)
include hM

/-- moments to which no case applies -/
theorem M_zero {n4 n5 n6 n7 n8 : ℕ} (h : 0 < n4 + n5 + n6 + n7 + n8)
    (h' : n4 ≤ 1 ∧ n5 ≤ 1 ∧ n6 ≤ 1 ∧ n7 ≤ 1 ∧ n8 ≤ 1 ∧ n4 + n5 ≤ 1 ∧ n6 + n7 ≤ 1) {t : ℝ}
    (ht : x.u ≤ t) : M n4 n5 n6 n7 n8 t = 0 := by
  rw [hM.step n4 n5 n6 n7 n8 h t ht, term4, term5, term45, term6, term7, term67, term8,
    choose2 n4 (by omega), choose2 n5 (by omega), choose2 n6 (by omega), choose2 n7 (by omega),
    choose2 n8 (by omega)]
  have h1 : n4 = 0 ∨ n5 = 0 := by omega
  have h2 : n6 = 0 ∨ n7 = 0 := by omega
  rcases h1 with rfl | rfl <;> rcases h2 with rfl | rfl <;> simp

theorem int_first (w : ℝ → ℝ) {n4 n5 n6 n7 n8 : ℕ} (h : n4 + n5 + n6 + n7 + n8 = 1) {t : ℝ}
    (ht : x.u ≤ t) : ∫ s in x.u..t, w s * M n4 n5 n6 n7 n8 s = 0 := by
  rw [intervalIntegral.integral_congr (g := fun _ => (0 : ℝ))]
  · simp
  · intro s hs
    rw [Set.uIcc_of_le ht] at hs
    simp [M_zero hM (show 0 < n4 + n5 + n6 + n7 + n8 by omega) (by omega) hs.1]

theorem int_zero (w : ℝ → ℝ) {t : ℝ} (ht : x.u ≤ t) :
    ∫ s in x.u..t, w s * M 0 0 0 0 0 s = ∫ s in x.u..t, w s := by
  apply intervalIntegral.integral_congr
  intro s hs
  rw [Set.uIcc_of_le ht] at hs
  simp [hM.zero s hs.1]

end

section
variable {OK : Idx → Par → Prop} {G : Idx → ℤ × ℤ → Prop}

theorem keys_lit (P : DPoly) (h : (P.items.all fun e => decide (e.1.d ≠ []) && (e.1.d.all fun t => decide (DOK t)) &&
    e.1.c.all fun a => decide (0 ≤ a)) = true) : P.Keys KOK := by
  intro e he
  have := List.all_eq_true.1 h e he
  simp only [Bool.and_eq_true, decide_eq_true_eq, List.all_eq_true] at this
  refine ⟨this.1.1, this.1.2, fun j => ?_⟩
  unfold ix
  rw [List.getD_eq_getElem?_getD]
  cases hj : e.1.c[j]? with
  | none => simp
  | some a => exact this.2 a (List.mem_of_getElem? hj)

theorem a_lit (i : Idx) (P : DPoly) (h : (P.items.all fun e => decide (e.1.a = aOf i)) = true) :
    P.Keys fun k => k.a = aOf i := by
  intro e he
  simpa using List.all_eq_true.1 h e he

theorem good_P1 (hG : P1.Keys fun k => G (0, 0, 0, 0, 0) k.e) : Good OK G (0, 0, 0, 0, 0) P1 := by
  refine ⟨rfl, keys_lit _ (by decide), a_lit _ _ (by decide), hG, by simp [WF, P1], ?_⟩
  · intro y _
    have : y.M.at (0, 0, 0, 0, 0) y.t = 1 := y.hM.zero y.t y.ht
    rw [this]
    simp [P1, ev, dval, den, Par.rate]

theorem good_P0 (i : Idx) (h : ∀ y : Env, y.M.at i y.t = 0) : Good OK G i P0 := by
  refine ⟨rfl, by intro x hx; simp [P0] at hx, by intro x hx; simp [P0] at hx, by intro x hx; simp [P0] at hx, by simp [WF, P0], ?_⟩
  intro y _
  rw [h y]; simp [P0, ev]

theorem shift_exp (a t u : ℝ) : Real.exp (a * t) = Real.exp (a * u) * Real.exp (a * (t - u)) := by
  rw [← Real.exp_add]; ring_nf

variable (hk : ∀ i x, OK i x → x.k1 ≠ 0 ∧ x.k2 ≠ 0)
include hk

theorem good_P20 (hG : P20.Keys fun k => G (2, 0, 0, 0, 0) k.e) : Good OK G (2, 0, 0, 0, 0) P20 := by
  refine ⟨rfl, keys_lit _ (by decide), a_lit _ _ (by decide), hG, by simp [WF, P20], ?_⟩
  rintro ⟨x, M, t, ht, hM⟩ hx
  obtain ⟨k1, k2⟩ := hk _ _ hx
  dsimp only at k1 k2
  change _ = M 2 0 0 0 0 t
  rw [hM.step 2 0 0 0 0 (by norm_num) t ht]
  simp only [term4, term5, term45, term6, term7, term67, term8, quad1,
    show 2 - 2 = 0 from rfl, show 2 - 1 = 1 from rfl, int_zero hM _ ht,
    int_first hM _ (show 1 + 0 + 0 + 0 + 0 = 1 from rfl) ht,
    Ito.integral_exp _ _ _ (show ((1 : ℤ) : ℝ) * x.k1 ≠ 0 by simpa using k1),
    Ito.integral_exp _ _ _ (show ((1 + 1 : ℤ) : ℝ) * x.k1 ≠ 0 by simpa using k1)]
  rw [shift_exp _ t x.u, shift_exp _ t x.u]
  simp [P20, ev, dval, den, Par.rate, Rat.smul_def]
  have e2 : Real.exp (2 * x.k1 * x.u) = Real.exp (x.k1 * x.u) * Real.exp (x.k1 * x.u) := by
    rw [← Real.exp_add]; ring_nf
  norm_num
  rw [e2]
  field_simp
  ring

theorem good_P11 (hG : P11.Keys fun k => G (1, 1, 0, 0, 0) k.e) : Good OK G (1, 1, 0, 0, 0) P11 := by
  refine ⟨rfl, keys_lit _ (by decide), a_lit _ _ (by decide), hG, by simp [WF, P11], ?_⟩
  rintro ⟨x, M, t, ht, hM⟩ hx
  obtain ⟨k1, k2⟩ := hk _ _ hx
  dsimp only at k1 k2
  change _ = M 1 1 0 0 0 t
  rw [hM.step 1 1 0 0 0 (by norm_num) t ht]
  simp only [term4, term5, term45, term6, term7, term67, term8, quad1,
    show 1 - 1 = 0 from rfl, int_zero hM _ ht,
    int_first hM _ (show 1 + 0 + 0 + 0 + 0 = 1 from rfl) ht,
    Ito.integral_exp _ _ _ (show ((0 + 1 : ℤ) : ℝ) * x.k1 ≠ 0 by simpa using k1)]
  rw [shift_exp _ t x.u]
  simp [P11, ev, dval, den, Par.rate, Rat.smul_def]
  field_simp
  ring

theorem aux_P02 (x : Par) (h1 : x.k1 ≠ 0) (t : ℝ) (ht : x.u ≤ t) (M : Fam) (hM : ItoRec2 x M) :
    ev (dval x t) P02 = quad1 x (-1) (M 0 0 0 0 0) (M 1 0 0 0 0) t := by
  simp only [quad1, int_zero hM _ ht, int_first hM _ (show 1 + 0 + 0 + 0 + 0 = 1 from rfl) ht,
    Ito.integral_exp _ _ _ (show ((-1 : ℤ) : ℝ) * x.k1 ≠ 0 by simpa using h1)]
  rw [shift_exp _ t x.u]
  simp [P02, ev, dval, den, Par.rate, Rat.smul_def]
  have : Real.exp (x.k1 * x.u) * Real.exp (-(x.k1 * x.u)) = 1 := by rw [← Real.exp_add]; simp
  field_simp
  linear_combination (x.v1 - x.θ1) * (1 - Real.exp (-(x.k1 * (t - x.u)))) * (-this)

theorem aux_Q02 (x : Par) (h1 : x.k2 ≠ 0) (t : ℝ) (ht : x.u ≤ t) (M : Fam) (hM : ItoRec2 x M) :
    ev (dval x t) Q02 = quad2 x (-1) (M 0 0 0 0 0) (M 0 0 1 0 0) t := by
  simp only [quad2, int_zero hM _ ht, int_first hM _ (show 0 + 0 + 1 + 0 + 0 = 1 from rfl) ht,
    Ito.integral_exp _ _ _ (show ((-1 : ℤ) : ℝ) * x.k2 ≠ 0 by simpa using h1)]
  rw [shift_exp _ t x.u]
  simp [Q02, ev, dval, den, Par.rate, Rat.smul_def]
  have : Real.exp (x.k2 * x.u) * Real.exp (-(x.k2 * x.u)) = 1 := by rw [← Real.exp_add]; simp
  field_simp
  linear_combination (x.v2 - x.θ2) * (1 - Real.exp (-(x.k2 * (t - x.u)))) * (-this)

theorem good_P02 (hG : P02.Keys fun k => G (0, 2, 0, 0, 0) k.e) : Good OK G (0, 2, 0, 0, 0) P02 := by
  refine ⟨rfl, keys_lit _ (by decide), a_lit _ _ (by decide), hG, by simp [WF, P02], ?_⟩
  rintro ⟨x, M, t, ht, hM⟩ hx
  obtain ⟨k1, k2⟩ := hk _ _ hx
  dsimp only at k1 k2
  change _ = M 0 2 0 0 0 t
  rw [hM.step 0 2 0 0 0 (by norm_num) t ht, aux_P02 hk x k1 t ht M hM]
  simp [term4, term5, term45, term6, term7, term67, term8]
  norm_num

theorem good_Q20 (hG : Q20.Keys fun k => G (0, 0, 2, 0, 0) k.e) : Good OK G (0, 0, 2, 0, 0) Q20 := by
  refine ⟨rfl, keys_lit _ (by decide), a_lit _ _ (by decide), hG, by simp [WF, Q20], ?_⟩
  rintro ⟨x, M, t, ht, hM⟩ hx
  obtain ⟨k1, k2⟩ := hk _ _ hx
  dsimp only at k1 k2
  change _ = M 0 0 2 0 0 t
  rw [hM.step 0 0 2 0 0 (by norm_num) t ht]
  simp only [term4, term5, term45, term6, term7, term67, term8, quad2,
    show 2 - 2 = 0 from rfl, show 2 - 1 = 1 from rfl, int_zero hM _ ht,
    int_first hM _ (show 0 + 0 + 1 + 0 + 0 = 1 from rfl) ht,
    Ito.integral_exp _ _ _ (show ((1 : ℤ) : ℝ) * x.k2 ≠ 0 by simpa using k2),
    Ito.integral_exp _ _ _ (show ((1 + 1 : ℤ) : ℝ) * x.k2 ≠ 0 by simpa using k2)]
  rw [shift_exp _ t x.u, shift_exp _ t x.u]
  simp [Q20, ev, dval, den, Par.rate, Rat.smul_def]
  have e2 : Real.exp (2 * x.k2 * x.u) = Real.exp (x.k2 * x.u) * Real.exp (x.k2 * x.u) := by
    rw [← Real.exp_add]; ring_nf
  norm_num
  rw [e2]
  field_simp
  ring

theorem good_Q11 (hG : Q11.Keys fun k => G (0, 0, 1, 1, 0) k.e) : Good OK G (0, 0, 1, 1, 0) Q11 := by
  refine ⟨rfl, keys_lit _ (by decide), a_lit _ _ (by decide), hG, by simp [WF, Q11], ?_⟩
  rintro ⟨x, M, t, ht, hM⟩ hx
  obtain ⟨k1, k2⟩ := hk _ _ hx
  dsimp only at k1 k2
  change _ = M 0 0 1 1 0 t
  rw [hM.step 0 0 1 1 0 (by norm_num) t ht]
  simp only [term4, term5, term45, term6, term7, term67, term8, quad2,
    show 1 - 1 = 0 from rfl, int_zero hM _ ht,
    int_first hM _ (show 0 + 0 + 1 + 0 + 0 = 1 from rfl) ht,
    Ito.integral_exp _ _ _ (show ((0 + 1 : ℤ) : ℝ) * x.k2 ≠ 0 by simpa using k2)]
  rw [shift_exp _ t x.u]
  simp [Q11, ev, dval, den, Par.rate, Rat.smul_def]
  field_simp
  ring

theorem good_Q02 (hG : Q02.Keys fun k => G (0, 0, 0, 2, 0) k.e) : Good OK G (0, 0, 0, 2, 0) Q02 := by
  refine ⟨rfl, keys_lit _ (by decide), a_lit _ _ (by decide), hG, by simp [WF, Q02], ?_⟩
  rintro ⟨x, M, t, ht, hM⟩ hx
  obtain ⟨k1, k2⟩ := hk _ _ hx
  dsimp only at k1 k2
  change _ = M 0 0 0 2 0 t
  rw [hM.step 0 0 0 2 0 (by norm_num) t ht, aux_Q02 hk x k2 t ht M hM]
  simp [term4, term5, term45, term6, term7, term67, term8]
  norm_num

theorem good_P8 (hG : P8.Keys fun k => G (0, 0, 0, 0, 2) k.e) : Good OK G (0, 0, 0, 0, 2) P8 := by
  refine ⟨rfl, keys_lit _ (by decide), a_lit _ _ (by decide), hG, by simp [WF, P8, P02, Q02], ?_⟩
  rintro ⟨x, M, t, ht, hM⟩ hx
  obtain ⟨k1, k2⟩ := hk _ _ hx
  dsimp only at k1 k2
  change _ = M 0 0 0 0 2 t
  have : ev (dval x t) P8 = ev (dval x t) P02 + ev (dval x t) Q02 := by
    simp only [ev, P8, List.map_append, List.sum_append]
  rw [hM.step 0 0 0 0 2 (by norm_num) t ht, this, aux_P02 hk x k1 t ht M hM, aux_Q02 hk x k2 t ht M hM]
  simp [term4, term5, term45, term6, term7, term67, term8]
  norm_num

theorem T2_good (hG : ∀ i P, dget T2 i = some P → P.Keys fun k => G i k.e) :
    TabGood (Good OK G) (fun j => Valid j ∧ lev j < 3) T2 := by
  rintro ⟨a, b, c, d, e⟩ ⟨⟨h1, h2, h3, h4, h5⟩, h6⟩
  simp only [lev] at h1 h2 h3 h4 h5 h6
  have : (a = 0 ∨ a = 1 ∨ a = 2) ∧ (b = 0 ∨ b = 1 ∨ b = 2) ∧ (c = 0 ∨ c = 1 ∨ c = 2) ∧
    (d = 0 ∨ d = 1 ∨ d = 2) ∧ (e = 0 ∨ e = 1 ∨ e = 2) := by omega
  obtain ⟨ha, hb, hc, hd, he⟩ := this
  rcases ha with rfl | rfl | rfl <;> rcases hb with rfl | rfl | rfl <;> try (exfalso; omega)
  all_goals rcases hc with rfl | rfl | rfl <;> try (exfalso; omega)
  all_goals rcases hd with rfl | rfl | rfl <;> try (exfalso; omega)
  all_goals rcases he with rfl | rfl | rfl <;> try (exfalso; omega)
  all_goals first
    | exact ⟨P1, rfl, good_P1 (hG _ _ rfl)⟩
    | exact ⟨P20, rfl, good_P20 hk (hG _ _ rfl)⟩
    | exact ⟨P11, rfl, good_P11 hk (hG _ _ rfl)⟩
    | exact ⟨P02, rfl, good_P02 hk (hG _ _ rfl)⟩
    | exact ⟨Q20, rfl, good_Q20 hk (hG _ _ rfl)⟩
    | exact ⟨Q11, rfl, good_Q11 hk (hG _ _ rfl)⟩
    | exact ⟨Q02, rfl, good_Q02 hk (hG _ _ rfl)⟩
    | exact ⟨P8, rfl, good_P8 hk (hG _ _ rfl)⟩
    | exact ⟨P0, rfl, good_P0 _ fun y => M_zero y.hM (by decide) (by decide) y.ht⟩

end

theorem mem_idxs (n : ℤ) (i : Idx) : i ∈ idxs n ↔ Valid i ∧ lev i = n := by
  obtain ⟨a, b, c, d, e⟩ := i
  simp only [idxs, List.mem_flatMap, List.mem_map, mem_pyRangeDown, Valid, lev, Prod.mk.injEq]
  constructor
  · rintro ⟨i4, h4, i5, h5, i6, h6, i7, h7, rfl, rfl, rfl, rfl, rfl⟩
    omega
  · rintro ⟨⟨h1, h2, h3, h4, h5⟩, h6⟩
    exact ⟨a, by omega, b, by omega, c, by omega, d, by omega, rfl, rfl, rfl, rfl, by omega⟩

section
variable {g : Cfg} {OK : Idx → Par → Prop} {G : Idx → ℤ × ℤ → Prop}
  (hk : ∀ i x, OK i x → x.k1 ≠ 0 ∧ x.k2 ≠ 0)
  (hG0 : ∀ i P, dget T2 i = some P → P.Keys fun k => G i k.e)
  (hG : ∀ i, Valid i → 3 ≤ lev i → ∀ q ∈ calls g i, ∀ e e', G q.idx e →
      (e' = (0, 0) ∨ e' = shift q.i q.m e) → G i e')
  (hOK : ∀ i, Valid i → 3 ≤ lev i → ∀ x, OK i x → (g.all = true ∨ Single i) ∧
      ∀ q ∈ calls g i, Fine g OK G x q)
include hk hG0 hG hOK

/-- `moment_IEI_IEII` is right wherever the recursion is -/
theorem momentAll_spec (i : Idx) (hv : Valid i) : ∃ T, momentAll g i = .ok T ∧
    TabGood (Good OK G) (fun j => Valid j ∧ (lev j ≤ 2 ∨ lev j < lev i ∨ j = i)) T ∧
    (3 ≤ lev i → ∃ P, dget T i = some P ∧ P.NoZero) := by
  have hb := T2_good hk hG0
  have hl0 : 0 ≤ lev i := by
    obtain ⟨h1, h2, h3, h4, h5⟩ := hv
    simp only [lev]; omega
  unfold momentAll
  rw [if_neg (by omega), table2_eq, ok_bind]
  by_cases hl : lev i ≤ 2
  · rw [if_pos hl]
    refine ⟨T2, rfl, fun j hj => hb j ⟨hj.1, ?_⟩, by omega⟩
    rcases hj.2 with h | h | h
    · omega
    · omega
    · rw [h]; omega
  · rw [if_neg hl]
    have : ∃ T, (if lev i > 3 then fillLevels (step g) idxs (fun _ _ => false) (pyRange 3 (lev i)) T2
        else pure T2 : Except PyErr _) = .ok T ∧
        TabGood (Good OK G) (fun j => Valid j ∧ lev j < lev i) T := by
      split_ifs with h3
      · exact fillLevels_all (Good OK G) Valid lev (step g) idxs 3 (lev i) (by omega)
          (fun n _ _ j => mem_idxs n j) (fun j hj h1 _ T hT => by
            obtain ⟨v, e, gv, _⟩ := step_spec hG hOK j hj h1 T hT
            exact ⟨v, e, gv⟩) T2 hb
      · exact ⟨T2, rfl, fun j hj => hb j ⟨hj.1, by omega⟩⟩
    obtain ⟨T, e, hT⟩ := this
    obtain ⟨P, e', gP, hz⟩ := step_spec hG hOK i hv (by omega) T hT
    refine ⟨dset T i P, by
      dsimp only
      split_ifs at e ⊢ with h3
      · rw [e, ok_bind, e']; rfl
      · cases e; simp only [pure_bind, e']; rfl, ?_, fun _ => ⟨P, by rw [dget_dset, if_pos rfl], hz⟩⟩
    rintro j ⟨hj, h⟩
    by_cases hji : i = j
    · subst hji
      exact ⟨P, by rw [dget_dset, if_pos rfl], gP⟩
    · rw [dget_dset, if_neg hji]
      apply hT
      refine ⟨hj, ?_⟩
      rcases h with h | h | h
      · omega
      · exact h
      · exact absurd h.symm hji

theorem moment_spec (i : Idx) (hv : Valid i) : ∃ P, moment g i = .ok P ∧ Good OK G i P ∧
    (3 ≤ lev i → P.NoZero) := by
  obtain ⟨T, e, hT, hz⟩ := momentAll_spec hk hG0 hG hOK i hv
  obtain ⟨P, eP, gP⟩ := hT i ⟨hv, Or.inr (Or.inr rfl)⟩
  refine ⟨P, by rw [moment, e, ok_bind, lookup, eP], gP, fun h => ?_⟩
  obtain ⟨Q, eQ, hQ⟩ := hz h
  rw [eP] at eQ
  cases eQ
  exact hQ

end

/-! ### existence -/

/-- A family satisfying the moment equation. -/
noncomputable def itoSol (x : Par) (n4 n5 n6 n7 n8 : ℕ) (t : ℝ) : ℝ :=
  if n4 + n5 + n6 + n7 + n8 = 0 then 1 else
    (if _h : 2 ≤ n4 then (n4 : ℝ) * (n4 - 1) / 2 * quad1 x 1 (fun s => itoSol x (n4 - 2) n5 n6 n7 n8 s)
      (fun s => itoSol x (n4 - 1) n5 n6 n7 n8 s) t else 0) +
    (if _h : 2 ≤ n5 then (n5 : ℝ) * (n5 - 1) / 2 * quad1 x (-1) (fun s => itoSol x n4 (n5 - 2) n6 n7 n8 s)
      (fun s => itoSol x (n4 + 1) (n5 - 2) n6 n7 n8 s) t else 0) +
    (if _h : 1 ≤ n4 ∧ 1 ≤ n5 then (n4 : ℝ) * n5 * quad1 x 0
      (fun s => itoSol x (n4 - 1) (n5 - 1) n6 n7 n8 s) (fun s => itoSol x n4 (n5 - 1) n6 n7 n8 s) t else 0) +
    (if _h : 2 ≤ n6 then (n6 : ℝ) * (n6 - 1) / 2 * quad2 x 1 (fun s => itoSol x n4 n5 (n6 - 2) n7 n8 s)
      (fun s => itoSol x n4 n5 (n6 - 1) n7 n8 s) t else 0) +
    (if _h : 2 ≤ n7 then (n7 : ℝ) * (n7 - 1) / 2 * quad2 x (-1) (fun s => itoSol x n4 n5 n6 (n7 - 2) n8 s)
      (fun s => itoSol x n4 n5 (n6 + 1) (n7 - 2) n8 s) t else 0) +
    (if _h : 1 ≤ n6 ∧ 1 ≤ n7 then (n6 : ℝ) * n7 * quad2 x 0
      (fun s => itoSol x n4 n5 (n6 - 1) (n7 - 1) n8 s) (fun s => itoSol x n4 n5 n6 (n7 - 1) n8 s) t else 0) +
    (if _h : 2 ≤ n8 then (n8 : ℝ) * (n8 - 1) / 2 *
      (quad1 x (-1) (fun s => itoSol x n4 n5 n6 n7 (n8 - 2) s)
        (fun s => itoSol x (n4 + 1) n5 n6 n7 (n8 - 2) s) t +
      quad2 x (-1) (fun s => itoSol x n4 n5 n6 n7 (n8 - 2) s)
        (fun s => itoSol x n4 n5 (n6 + 1) n7 (n8 - 2) s) t) else 0)
termination_by n4 + n5 + n6 + n7 + n8

theorem itoSol_rec (x : Par) : ItoRec2 x (itoSol x) where
  zero t _ := by rw [itoSol]; simp
  step n4 n5 n6 n7 n8 hn t _ := by
    have hp : ∀ (a b : ℕ) (r : ℝ), (if _h : 1 ≤ a ∧ 1 ≤ b then (a : ℝ) * b * r else 0) = (a : ℝ) * b * r := by
      intro a b r
      split_ifs with h
      · rfl
      · have : a = 0 ∨ b = 0 := by omega
        rcases this with rfl | rfl <;> simp
    have hc : ∀ (a : ℕ) (r : ℝ), (if _h : 2 ≤ a then (a : ℝ) * (a - 1) / 2 * r else 0) =
        (a : ℝ) * (a - 1) / 2 * r := by
      intro a r
      split_ifs with h
      · rfl
      · rw [choose2 a h, zero_mul]
    rw [itoSol, if_neg (by omega), hc, hc, hp, hc, hc, hp, hc]
    rfl

end Ajd.Itos

end -- ItosMom
