import Verif.Model.Ieziziz
import Verif.Lemmas.IezizizAlg
import Verif.Lemmas.SrjdJoint2

/-! The code of `ieziziz_mom.py`: differentiation of the MGF. -/

namespace Ajd.Ieziziz
open Poly MvPolynomial

def toN (n : ℤ × ℤ × ℤ) : N3 := (n.1.toNat, n.2.1.toNat, n.2.2.toNat)

/-- non-negative orders, not all zero -/
def OOK (n : ℤ × ℤ × ℤ) : Prop := 0 ≤ n.1 ∧ 0 ≤ n.2.1 ∧ 0 ≤ n.2.2

def QOK (q : Quad) : Prop := OOK q.1 ∧ 1 ≤ q.2

def QsOK (ps : List Quad) : Prop := ∀ q ∈ ps, QOK q

/-- the orders of differentiation, for `wrt = 1, 2, 3` -/
def eo (wrt : ℤ) : N3 := toN (unit wrt)

/-- `∏ X_n^m` -/
noncomputable def pvM (ps : List Quad) : R3 := (ps.map fun q => (X (toN q.1) : R3) ^ q.2.toNat).prod

@[simp] theorem pvM_nil : pvM [] = 1 := rfl
@[simp] theorem pvM_cons (q : Quad) (ps : List Quad) :
    pvM (q :: ps) = X (toN q.1) ^ q.2.toNat * pvM ps := rfl
@[simp] theorem pvM_append (a b : List Quad) : pvM (a ++ b) = pvM a * pvM b := by simp [pvM]

/-- number of factors -/
def msum (ps : List Quad) : ℤ := (ps.map Prod.snd).sum

@[simp] theorem msum_nil : msum [] = 0 := rfl
@[simp] theorem msum_cons (q : Quad) (ps : List Quad) : msum (q :: ps) = q.2 + msum ps := by simp [msum]
@[simp] theorem msum_append (a b : List Quad) : msum (a ++ b) = msum a + msum b := by simp [msum]

theorem msum_nonneg (ps : List Quad) (h : QsOK ps) : 0 ≤ msum ps := by
  induction ps with
  | nil => simp
  | cons q t ih =>
    have := (h q (by simp)).2
    have := ih fun q hq => h q (by simp [hq])
    rw [msum_cons]; omega

theorem QsOK_append {a b : List Quad} (ha : QsOK a) (hb : QsOK b) : QsOK (a ++ b) := by
  intro q hq
  rcases List.mem_append.1 hq with h | h
  · exact ha q h
  · exact hb q h

theorem bump_spec (n : ℤ × ℤ × ℤ) (hn : OOK n) (ps : List Quad) (h : QsOK ps) :
    match bump n ps with
    | some l => QsOK l ∧ msum l = msum ps + 1 ∧ pvM l = X (toN n) * pvM ps
    | none => True := by
  induction ps with
  | nil => simp [bump]
  | cons q t ih =>
    have ih := ih fun q hq => h q (by simp [hq])
    have hq := h q (by simp)
    rw [bump]
    by_cases hqn : q.1 = n
    · rw [if_pos hqn]
      have : (q.2 + 1).toNat = q.2.toNat + 1 := by have := hq.2; omega
      refine ⟨?_, by simp; ring, ?_⟩
      · intro x hx
        rcases List.mem_cons.1 hx with rfl | hx
        · exact ⟨hn, by have := hq.2; dsimp only; omega⟩
        · exact h x (by simp [hx])
      · simp only [pvM_cons, this, hqn, pow_succ]; ring
    · rw [if_neg hqn]
      cases hb : bump n t with
      | none => simp
      | some l =>
        rw [hb] at ih
        simp only [Option.map_some]
        refine ⟨?_, by simp [ih.2.1]; ring, ?_⟩
        · intro x hx
          rcases List.mem_cons.1 hx with rfl | hx
          · exact hq
          · exact ih.1 x hx
        · rw [pvM_cons, pvM_cons, ih.2.2]; ring

theorem bump_append (n : ℤ × ℤ × ℤ) (pre t : List Quad) (x : Quad) (hx : x.1 ≠ n) :
    bump n (pre ++ x :: t) = match bump n pre with
      | some l => some (l ++ x :: t)
      | none => (bump n t).map fun l => pre ++ x :: l := by
  induction pre with
  | nil => simp [bump, hx]
  | cons q s ih =>
    rw [List.cons_append, bump, bump, ih]
    by_cases hq : q.1 = n
    · simp [hq]
    · rw [if_neg hq, if_neg hq]
      cases bump n s with
      | some l => simp
      | none => simp [Function.comp_def]

theorem raise_ne (n : ℤ × ℤ × ℤ) (wrt : ℤ) : n ≠ raise n wrt := by
  obtain ⟨a, b, c⟩ := n
  unfold raise
  split
  · simp
  · split <;> simp

theorem raise_ok (n : ℤ × ℤ × ℤ) (wrt : ℤ) (h : OOK n) : OOK (raise n wrt) ∧ toN (raise n wrt) = toN n + eo wrt := by
  obtain ⟨a, b, c⟩ := n
  obtain ⟨h0, h1, h2⟩ := h
  simp only at h0 h1 h2
  unfold raise eo unit toN OOK
  split
  · refine ⟨⟨by dsimp only; omega, h1, h2⟩, ?_⟩
    simp only [Prod.mk_add_mk]; refine Prod.ext ?_ (Prod.ext ?_ ?_) <;> simp <;> omega
  · split
    · refine ⟨⟨h0, by dsimp only; omega, h2⟩, ?_⟩
      simp only [Prod.mk_add_mk]; refine Prod.ext ?_ (Prod.ext ?_ ?_) <;> simp <;> omega
    · refine ⟨⟨h0, h1, by dsimp only; omega⟩, ?_⟩
      simp only [Prod.mk_add_mk]; refine Prod.ext ?_ (Prod.ext ?_ ?_) <;> simp <;> omega

theorem unit_ok (wrt : ℤ) : OOK (unit wrt) := by
  unfold unit OOK
  split
  · simp
  · split <;> simp

/-- the key computed by `dterm`: the parts before and after position `j` -/
theorem dtermKey_spec (pre t : List Quad) (q : Quad) (wrt : ℤ) (h : QsOK (pre ++ q :: t)) :
    QsOK (dtermKey (pre ++ q :: t) pre.length q wrt) ∧
    msum (dtermKey (pre ++ q :: t) pre.length q wrt) = msum (pre ++ q :: t) ∧
    pvM (dtermKey (pre ++ q :: t) pre.length q wrt) =
      pvM pre * (X (toN q.1) ^ (q.2.toNat - 1) * X (toN q.1 + eo wrt) * pvM t) := by
  have hq := h q (by simp)
  have hpre : QsOK pre := fun x hx => h x (by simp [hx])
  have ht : QsOK t := fun x hx => h x (by simp [hx])
  obtain ⟨ro, rv⟩ := raise_ok q.1 wrt hq.1
  have hset : (pre ++ q :: t).set pre.length (q.1, q.2 - 1) = pre ++ (q.1, q.2 - 1) :: t := by
    rw [List.set_append_right _ _ le_rfl]; simp
  -- what the search does
  have key : ∃ pre' t' : List Quad, bumpOrAppend (raise q.1 wrt) (pre ++ (q.1, q.2 - 1) :: t) = pre' ++ (q.1, q.2 - 1) :: t' ∧
      pre'.length = pre.length ∧ QsOK pre' ∧ QsOK t' ∧ msum pre' + msum t' = msum pre + msum t + 1 ∧
      pvM pre' * pvM t' = X (toN (raise q.1 wrt)) * (pvM pre * pvM t) := by
    rw [bumpOrAppend, bump_append _ _ _ (q.1, q.2 - 1) (raise_ne q.1 wrt)]
    have hlen : ∀ (n : ℤ × ℤ × ℤ) (ps l : List Quad), bump n ps = some l → l.length = ps.length := by
      intro n ps
      induction ps with
      | nil => intro l hl; simp [bump] at hl
      | cons a s ih =>
        intro l hl
        rw [bump] at hl
        split at hl
        · cases hl; simp
        · cases hs : bump n s with
          | none => rw [hs] at hl; simp at hl
          | some l' =>
            rw [hs] at hl
            simp only [Option.map_some, Option.some.injEq] at hl
            subst hl
            simp [ih l' hs]
    cases hb : bump (raise q.1 wrt) pre with
    | some l =>
      have := bump_spec _ ro pre hpre
      rw [hb] at this
      refine ⟨l, t, rfl, hlen _ _ _ hb, this.1, ht, by rw [this.2.1]; ring, by rw [this.2.2]; ring⟩
    | none =>
      cases hb2 : bump (raise q.1 wrt) t with
      | some l =>
        have := bump_spec _ ro t ht
        rw [hb2] at this
        refine ⟨pre, l, rfl, rfl, hpre, this.1, by rw [this.2.1]; ring, by rw [this.2.2]; ring⟩
      | none =>
        refine ⟨pre, t ++ [(raise q.1 wrt, 1)], by simp, rfl, hpre, QsOK_append ht ?_, by simp; ring, by
          simp; ring⟩
        intro x hx
        simp only [List.mem_singleton] at hx
        subst hx
        exact ⟨ro, le_rfl⟩
  obtain ⟨pre', t', e, hl, o1, o2, s, v⟩ := key
  have main : dtermKey (pre ++ q :: t) pre.length q wrt =
      pre' ++ (if q.2 - 1 = 0 then [] else [(q.1, q.2 - 1)]) ++ t' := by
    unfold dtermKey
    simp only [hset, e]
    have : (pre' ++ (q.1, q.2 - 1) :: t')[pre.length]? = some (q.1, q.2 - 1) := by
      rw [← hl]; simp
    rw [this]
    simp only
    split
    · rw [← hl, List.eraseIdx_append_of_length_le le_rfl]; simp
    · simp
  have h1 := hq.2
  rw [main]
  refine ⟨QsOK_append (QsOK_append o1 ?_) o2, ?_, ?_⟩
  · split
    · intro x hx; simp at hx
    · intro x hx
      simp only [List.mem_singleton] at hx
      subst hx
      exact ⟨hq.1, by dsimp only; omega⟩
  · have : msum (if q.2 - 1 = 0 then [] else [(q.1, q.2 - 1)]) = q.2 - 1 := by
      split
      · simp; omega
      · simp
    simp only [msum_append, this, msum_cons]
    omega
  · have : pvM (if q.2 - 1 = 0 then [] else [(q.1, q.2 - 1)]) = X (toN q.1) ^ (q.2.toNat - 1) := by
      have h2 : (q.2 - 1).toNat = q.2.toNat - 1 := by omega
      split
      · rw [← h2]; rename_i h; rw [h]; simp
      · simp [h2]
    simp only [pvM_append, this]
    rw [← rv]
    linear_combination (X (toN q.1) ^ (q.2.toNat - 1)) * v

theorem dterm_sum (wrt : ℤ) (pre suf : List Quad) (h : QsOK (pre ++ suf)) :
    ((List.range suf.length).map fun j =>
      (((pre ++ suf).getD (pre.length + j) ((0, 0, 0), 0)).2 : ℚ) •
        pvM (dtermKey (pre ++ suf) (pre.length + j) ((pre ++ suf).getD (pre.length + j) ((0, 0, 0), 0)) wrt)).sum =
      pvM pre * D (eo wrt) (pvM suf) := by
  induction suf generalizing pre with
  | nil => simp
  | cons q t ih =>
    have := ih (pre ++ [q]) (by simpa using h)
    rw [List.length_cons, List.range_succ_eq_map, List.map_cons, List.sum_cons, List.map_map]
    have e : pre ++ [q] ++ t = pre ++ q :: t := by simp
    rw [e] at this
    have e2 : ((fun j : ℕ => (((pre ++ q :: t).getD (pre.length + j) ((0, 0, 0), 0)).2 : ℚ) •
        pvM (dtermKey (pre ++ q :: t) (pre.length + j)
          ((pre ++ q :: t).getD (pre.length + j) ((0, 0, 0), 0)) wrt)) ∘ Nat.succ) =
        fun j : ℕ => (((pre ++ q :: t).getD ((pre ++ [q]).length + j) ((0, 0, 0), 0)).2 : ℚ) •
        pvM (dtermKey (pre ++ q :: t) ((pre ++ [q]).length + j)
          ((pre ++ q :: t).getD ((pre ++ [q]).length + j) ((0, 0, 0), 0)) wrt) := by
      funext j
      have : pre.length + j.succ = (pre ++ [q]).length + j := by simp; omega
      simp only [Function.comp]
      rw [this]
    rw [e2, this]
    have e3 : (pre ++ q :: t).getD (pre.length + 0) ((0, 0, 0), 0) = q := by
      simp [List.getD_eq_getElem?_getD]
    rw [e3]
    simp only [Nat.add_zero]
    rw [(dtermKey_spec pre t q wrt h).2.2]
    have hm : 1 ≤ q.2 := (h q (by simp)).2
    have hm' : (q.2 : ℚ) = (q.2.toNat : ℚ) := by
      have : (q.2.toNat : ℤ) = q.2 := by omega
      exact_mod_cast this.symm
    rw [hm', pvM_append, pvM_cons, pvM_cons, pvM_nil, Derivation.leibniz, Derivation.leibniz_pow, D_X,
      Nat.cast_smul_eq_nsmul]
    simp only [smul_eq_mul, nsmul_eq_mul]
    ring

def KOK (k : Key) : Prop := QsOK k.2 ∧ k.1 = msum k.2

noncomputable def pvK (k : Key) : R3 := pvM k.2

theorem dterm_spec (k : Key) (c : ℚ) (wrt : ℤ) (h : KOK k) : (dterm k c wrt).keyfor = [] ∧
    (dterm k c wrt).Keys KOK ∧ ev pvK (dterm k c wrt) = c • D (eo wrt) (pvK k) := by
  refine ⟨by simp [dterm], ofTerms_Keys _ _ _ ?_, ?_⟩
  · intro x hx
    obtain ⟨j, hj, rfl⟩ := List.mem_map.1 hx
    rw [List.mem_range] at hj
    have hsplit : k.2 = k.2.take j ++ k.2[j] :: k.2.drop (j + 1) := by
      rw [List.getElem_cons_drop, List.take_append_drop]
    have hg : k.2.getD j ((0, 0, 0), 0) = k.2[j] := by
      simp [List.getD_eq_getElem?_getD, List.getElem?_eq_getElem hj]
    have hlen : (k.2.take j).length = j := by simp; omega
    have h1 := dtermKey_spec (k.2.take j) (k.2.drop (j + 1)) k.2[j] wrt (by rw [← hsplit]; exact h.1)
    rw [← hsplit, hlen] at h1
    simp only [hg, KOK]
    exact ⟨h1.1, by rw [h1.2.1]; exact h.2⟩
  · have h1 := dterm_sum wrt [] k.2 h.1
    simp only [List.nil_append, List.length_nil, zero_add, pvM_nil, one_mul] at h1
    rw [dterm, ev_ofTerms, List.map_map, pvK, ← h1, List.smul_sum, List.map_map]
    congr 1
    apply List.map_congr_left
    intro j _
    simp only [Function.comp, pvK, smul_smul]

theorem d1_spec (k : Key) (wrt : ℤ) (h : KOK k) : KOK (d1TimesKey k wrt) ∧
    pvK (d1TimesKey k wrt) = X (eo wrt) * pvK k := by
  have hb := bump_spec (unit wrt) (unit_ok wrt) k.2 h.1
  unfold d1TimesKey KOK pvK
  cases he : bump (unit wrt) k.2 with
  | some l =>
    rw [he] at hb
    exact ⟨⟨hb.1, by dsimp only; rw [hb.2.1, ← h.2]⟩, hb.2.2⟩
  | none =>
    refine ⟨⟨?_, by simp; rw [← h.2]; ring⟩, by simp [eo]⟩
    intro x hx
    rcases List.mem_cons.1 hx with rfl | hx
    · exact ⟨unit_ok wrt, le_rfl⟩
    · exact h.1 x hx

theorem dmgf_spec (p : Poly Key) (wrt : ℤ) (hp : p.Keys KOK) : ∃ r, dmgf p wrt = .ok r ∧ r.Keys KOK ∧
    ev pvK r = T (eo wrt) (ev pvK p) := by
  obtain ⟨r, e, -, -, -, c, v⟩ := mergeLoop_spec (fun e : Key × ℚ => .ok (dterm e.1 e.2 wrt)) p.items
    (Poly.ofTerms [] (p.items.map fun e => (d1TimesKey e.1 wrt, e.2))) KOK
    (fun _ : Unit => pvK) (fun _ e => e.2 • D (eo wrt) (pvK e.1))
    (by
      apply ofTerms_Keys
      intro x hx
      obtain ⟨y, hy, rfl⟩ := List.mem_map.1 hx
      exact (d1_spec y.1 wrt (hp y hy)).1)
    (fun y hy => ⟨_, rfl, by rw [(dterm_spec y.1 y.2 wrt (hp y hy)).1]; simp,
      (dterm_spec y.1 y.2 wrt (hp y hy)).2.1, fun _ => (dterm_spec y.1 y.2 wrt (hp y hy)).2.2⟩)
  refine ⟨r, e, c, ?_⟩
  rw [v (), T_apply]
  congr 1
  · rw [ev_ofTerms_map pvK (fun k => X (eo wrt) * pvK k) [] p _ fun y hy => by
      dsimp only; rw [(d1_spec y.1 wrt (hp y hy)).2]]
    unfold ev
    rw [← List.sum_map_mul_left]
    congr 1
    apply List.map_congr_left
    intro y _
    rw [mul_smul_comm]
  · unfold ev
    rw [map_list_sum, List.map_map]
    congr 1
    apply List.map_congr_left
    intro y _
    simp

/-- an entry of `M` -/
def Good (I : ℤ × ℤ × ℤ) (p : Poly Key) : Prop :=
  p.Keys KOK ∧ ev pvK p = G I.1.toNat I.2.1.toNat I.2.2.toNat

theorem step_spec (I : ℤ × ℤ × ℤ) (hI : OOK I) (hl : 2 ≤ I.1 + I.2.1 + I.2.2) (M : List ((ℤ × ℤ × ℤ) × Poly Key))
    (hM : TabGood Good (fun J => OOK J ∧ J.1 + J.2.1 + J.2.2 < I.1 + I.2.1 + I.2.2) M) :
    ∃ r, step I M = .ok r ∧ Good I r := by
  obtain ⟨a, b, c⟩ := I
  obtain ⟨h0, h1, h2⟩ := hI
  simp only at h0 h1 h2 hl
  obtain ⟨a, rfl⟩ := Int.eq_ofNat_of_zero_le h0
  obtain ⟨b, rfl⟩ := Int.eq_ofNat_of_zero_le h1
  obtain ⟨c, rfl⟩ := Int.eq_ofNat_of_zero_le h2
  have two : 0 < b → ∃ r, (do let p ← lookup M ((a : ℤ), (b : ℤ) - 1, (c : ℤ)); dmgf p 2) = .ok r ∧
      Good ((a : ℤ), (b : ℤ), (c : ℤ)) r := by
    intro hb
    obtain ⟨q, e, g1, g2⟩ := hM ((a : ℤ), (b : ℤ) - 1, (c : ℤ))
      ⟨⟨by dsimp only; omega, by dsimp only; omega, by dsimp only; omega⟩, by dsimp only; omega⟩
    obtain ⟨r, e', c', v'⟩ := dmgf_spec q 2 g1
    refine ⟨r, by rw [Srjd.lookup_ok e, ok_bind, e'], c', ?_⟩
    have : ((b : ℤ) - 1).toNat = b - 1 := by omega
    rw [v', g2]
    simp only [Int.toNat_natCast, this]
    rw [show eo 2 = e2 from rfl, G_two, Nat.sub_add_cancel hb]
  unfold step
  dsimp only
  by_cases hc1 : 0 < (a : ℤ) ∧ (b : ℤ) = 0
  · rw [if_pos hc1]
    obtain ⟨q, e, g1, g2⟩ := hM ((a : ℤ) - 1, (b : ℤ), (c : ℤ))
      ⟨⟨by dsimp only; omega, by dsimp only; omega, by dsimp only; omega⟩, by dsimp only; omega⟩
    obtain ⟨r, e', c', v'⟩ := dmgf_spec q 1 g1
    refine ⟨r, by rw [Srjd.lookup_ok e, ok_bind, e'], c', ?_⟩
    have : ((a : ℤ) - 1).toNat = a - 1 := by omega
    rw [v', g2]
    simp only [Int.toNat_natCast, this]
    rw [show eo 1 = e1 from rfl, G_one, Nat.sub_add_cancel (by omega)]
  rw [if_neg hc1]
  by_cases hc2 : (a : ℤ) = 0 ∧ 0 < (b : ℤ)
  · rw [if_pos hc2]; exact two (by omega)
  rw [if_neg hc2]
  by_cases hc3 : (a : ℤ) = 0 ∧ (b : ℤ) = 0
  · rw [if_pos hc3]
    obtain ⟨q, e, g1, g2⟩ := hM ((a : ℤ), (b : ℤ), (c : ℤ) - 1)
      ⟨⟨by dsimp only; omega, by dsimp only; omega, by dsimp only; omega⟩, by dsimp only; omega⟩
    obtain ⟨r, e', c', v'⟩ := dmgf_spec q 3 g1
    refine ⟨r, by rw [Srjd.lookup_ok e, ok_bind, e'], c', ?_⟩
    have : ((c : ℤ) - 1).toNat = c - 1 := by omega
    rw [v', g2]
    simp only [Int.toNat_natCast, this]
    rw [show eo 3 = e3 from rfl, G_three, Nat.sub_add_cancel (by omega)]
  rw [if_neg hc3]
  exact two (by omega)

theorem good_unit (kf : List String) (I : ℤ × ℤ × ℤ) (hI : OOK I)
    (h : G I.1.toNat I.2.1.toNat I.2.2.toNat = X (toN I)) :
    Good I (⟨kf, [((1, [(I, 1)]), 1)]⟩ : Poly Key) := by
  refine ⟨?_, ?_⟩
  · intro x hx
    simp only [List.mem_singleton] at hx
    subst hx
    refine ⟨?_, by simp⟩
    intro q hq
    simp only [List.mem_singleton] at hq
    subst hq
    exact ⟨hI, le_rfl⟩
  · rw [h]; simp [ev, pvK]

theorem tab0_good : TabGood Good (fun J => OOK J ∧ J.1 + J.2.1 + J.2.2 < 2) tab0 := by
  have hu : ∀ e : N3, T e (G 0 0 0) = X e := fun e => by rw [G_zero, T_one, mul_one]
  rintro ⟨a, b, c⟩ ⟨⟨h0, h1, h2⟩, h3⟩
  simp only at h0 h1 h2 h3
  have : (a = 0 ∧ b = 0 ∧ c = 0) ∨ (a = 1 ∧ b = 0 ∧ c = 0) ∨ (a = 0 ∧ b = 1 ∧ c = 0) ∨
    (a = 0 ∧ b = 0 ∧ c = 1) := by omega
  rcases this with ⟨rfl, rfl, rfl⟩ | ⟨rfl, rfl, rfl⟩ | ⟨rfl, rfl, rfl⟩ | ⟨rfl, rfl, rfl⟩
  · refine ⟨_, rfl, ?_, ?_⟩
    · intro x hx
      simp only [List.mem_singleton] at hx
      subst hx
      exact ⟨by intro q hq; simp at hq, rfl⟩
    · show _ = G 0 0 0
      rw [G_zero]; simp [ev, pvK]
  · exact ⟨_, rfl, good_unit _ (1, 0, 0) (unit_ok 1) ((G_one 0 0 0).symm.trans (hu _))⟩
  · exact ⟨_, rfl, good_unit _ (0, 1, 0) (unit_ok 2) ((G_two 0 0 0).symm.trans (hu _))⟩
  · exact ⟨_, rfl, good_unit _ (0, 0, 1) (unit_ok 3) ((G_three 0 0 0).symm.trans (hu _))⟩

theorem fill_spec (a b c : ℕ) (h : 2 ≤ a + b + c) : ∃ M r,
    fillLevels step idxs (fun _ _ => false) (pyRange 2 ((a : ℤ) + b + c)) tab0 = .ok M ∧
    step ((a : ℤ), (b : ℤ), (c : ℤ)) M = .ok r ∧ r.Keys KOK ∧ ev pvK r = G a b c := by
  obtain ⟨M, e, g⟩ := fillLevels_all Good OOK (fun I => I.1 + I.2.1 + I.2.2) step idxs 2
    ((a : ℤ) + b + c) (by omega)
    (by
      intro n _ _ I
      simp only [idxs, List.mem_flatMap, List.mem_map, mem_pyRange]
      constructor
      · rintro ⟨i, hi, j, hj, rfl⟩
        exact ⟨⟨by dsimp only; omega, by dsimp only; omega, by dsimp only; omega⟩, by dsimp only; omega⟩
      · rintro ⟨⟨h0, h1, h2⟩, h3⟩
        exact ⟨I.1, by omega, I.2.1, by omega, Prod.ext rfl (Prod.ext rfl (by dsimp only; omega))⟩)
    (fun I hI h1 _ T hT => step_spec I hI h1 T hT) tab0 tab0_good
  obtain ⟨r, e', c', v'⟩ := step_spec ((a : ℤ), (b : ℤ), (c : ℤ))
    ⟨by dsimp only; omega, by dsimp only; omega, by dsimp only; omega⟩ (by dsimp only; omega) M g
  exact ⟨M, r, e, e', c', by simpa using v'⟩

end Ajd.Ieziziz
