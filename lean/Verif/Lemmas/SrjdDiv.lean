import Verif.Lemmas.SrjdCmom

/-! `divide` never raises. -/

namespace Ajd

theorem dset_new {K V : Type} [DecidableEq K] (l : List (K × V)) (k : K) (v : V) (h : k ∉ l.map Prod.fst) :
    dset l k v = l ++ [(k, v)] := by
  induction l with
  | nil => rfl
  | cons a t ih =>
    obtain ⟨k', v'⟩ := a
    simp only [List.map_cons, List.mem_cons, not_or] at h
    rw [dset, if_neg (fun h' => h.1 h'.symm), ih h.2, List.cons_append]

theorem Poly.addKeyval_new {K : Type} [DecidableEq K] (p : Poly K) (k : K) (v : ℚ)
    (h : k ∉ p.items.map Prod.fst) : p.addKeyval k v = ⟨p.keyfor, p.items ++ [(k, v)]⟩ := by
  rw [Poly.addKeyval, (dget_none _ _).2 h]
  simp only [dset_new _ _ _ h]

namespace Srjd
open Poly

/-- nonzero entries with first exponent `j`, without it -/
def partQ (j : ℤ) (L : List (List ℤ × ℚ)) : List (List ℤ × ℚ) :=
  (L.filter fun e => decide (e.2 ≠ 0) && decide (ix e.1 0 = j)).map fun e => (e.1.tail, e.2)

/-- real coefficients -/
noncomputable def toR (L : List (List ℤ × ℚ)) : List (List ℤ × ℝ) := L.map fun e => (e.1, (e.2 : ℝ))

theorem ev_toR (f : List ℤ → ℝ) (kf : List String) (L : List (List ℤ × ℚ)) :
    ev f (⟨kf, L⟩ : IPoly) = lsum f (toR L) := by
  simp [ev, lsum, toR, Rat.smul_def, Function.comp_def]

theorem lsum_partQ (f : List ℤ → ℝ) (j : ℤ) (L : List (List ℤ × ℚ)) :
    lsum f (toR (partQ j L)) = lsum f (part j (toR L)) := by
  induction L with
  | nil => rfl
  | cons e L ih =>
    by_cases h0 : e.2 = 0
    · have e1 : partQ j (e :: L) = partQ j L := by simp [partQ, h0]
      rw [e1, ih]
      by_cases hj : ix e.1 0 = j
      · simp [lsum, part, toR, h0, hj]
      · simp [lsum, part, toR, hj]
    · by_cases hj : ix e.1 0 = j
      · have e1 : partQ j (e :: L) = (e.1.tail, e.2) :: partQ j L := by simp [partQ, h0, hj]
        have e2 : part j (toR (e :: L)) = (e.1.tail, (e.2 : ℝ)) :: part j (toR L) := by
          simp [part, toR, hj]
        rw [e1, e2]
        simp only [toR, List.map_cons, lsum, List.sum_cons]
        congr 1
      · have e1 : partQ j (e :: L) = partQ j L := by simp [partQ, hj]
        have e2 : part j (toR (e :: L)) = part j (toR L) := by simp [part, toR, hj]
        rw [e1, e2, ih]

theorem toR_fst (L : List (List ℤ × ℚ)) : (toR L).map Prod.fst = L.map Prod.fst := by
  rw [toR, List.map_map]; rfl

theorem part_fst_sub (j : ℤ) (L : List (List ℤ × ℚ)) :
    ((partQ j L).map Prod.fst).Sublist ((part j (toR L)).map Prod.fst) := by
  rw [partQ, part, toR, List.map_map, List.map_map, List.filter_map, List.map_map]
  refine List.Sublist.map _ ?_
  induction L with
  | nil => exact List.Sublist.refl _
  | cons e L ih =>
    by_cases hj : ix e.1 0 = j
    · by_cases h0 : e.2 = 0
      · rw [List.filter_cons_of_neg (by simp [h0]), List.filter_cons_of_pos (by simpa using hj)]
        exact ih.cons _
      · rw [List.filter_cons_of_pos (by simp [h0, hj]), List.filter_cons_of_pos (by simpa using hj)]
        exact ih.cons_cons _
    · rw [List.filter_cons_of_neg (by simp [hj]), List.filter_cons_of_neg (by simpa using hj)]
      exact ih

theorem partQ_nodup (j : ℤ) (L : List (List ℤ × ℚ)) (hL : ∀ e ∈ L, e.1 ≠ []) (h : (L.map Prod.fst).Nodup) :
    ((partQ j L).map Prod.fst).Nodup :=
  (part_nodup j (toR L) (by
    intro e he
    obtain ⟨y, hy, rfl⟩ := List.mem_map.1 he
    exact hL y hy) (by rw [toR_fst]; exact h)).sublist (part_fst_sub j L)

theorem partQ_cons (j : ℤ) (e : List ℤ × ℚ) (L : List (List ℤ × ℚ)) : partQ j (e :: L) =
    if e.2 ≠ 0 ∧ ix e.1 0 = j then (e.1.tail, e.2) :: partQ j L else partQ j L := by
  by_cases h0 : e.2 = 0
  · simp [partQ, h0]
  · by_cases hj : ix e.1 0 = j
    · simp [partQ, h0, hj]
    · simp [partQ, hj]

theorem divLoop (n : ℕ) (hn : 1 ≤ n) (L : List (List ℤ × ℚ))
    (h0 : ∀ e ∈ L, e.2 ≠ 0 → ix e.1 0 = 0 ∨ ix e.1 0 = -n) (A B : List (List ℤ × ℚ))
    (hA : ((A ++ partQ 0 L).map Prod.fst).Nodup) (hB : ((B ++ partQ (-n) L).map Prod.fst).Nodup) :
    L.foldlM (divStep n) ((⟨kfS, A⟩ : IPoly), (⟨kfS, B⟩ : IPoly)) =
      .ok (⟨kfS, A ++ partQ 0 L⟩, ⟨kfS, B ++ partQ (-n) L⟩) := by
  induction L generalizing A B with
  | nil => simp [partQ]; rfl
  | cons e L ih =>
    have ih := ih fun e he => h0 e (by simp [he])
    rw [List.foldlM_cons]
    rw [partQ_cons] at hA hB ⊢
    rw [partQ_cons]
    by_cases hz : e.2 = 0
    · rw [if_neg (by simp [hz])] at hA hB ⊢
      rw [if_neg (by simp [hz])]
      rw [divStep, if_pos hz, ok_bind]
      exact ih A B hA hB
    · rcases h0 e (by simp) hz with h | h
      · rw [if_pos ⟨hz, h⟩] at hA ⊢
        rw [if_neg (by omega)] at hB ⊢
        have hnew : e.1.tail ∉ A.map Prod.fst := by
          intro hm
          rw [List.map_append, List.map_cons, List.nodup_append] at hA
          exact hA.2.2 _ hm _ (by simp) rfl
        rw [divStep, if_neg hz, if_pos h, ok_bind, addKeyval_new _ _ _ hnew]
        have := ih (A ++ [(e.1.tail, e.2)]) B (by simpa using hA) hB
        rw [this]
        simp
      · rw [if_neg (by omega)] at hA ⊢
        rw [if_pos ⟨hz, h⟩] at hB ⊢
        have hnew : e.1.tail ∉ B.map Prod.fst := by
          intro hm
          rw [List.map_append, List.map_cons, List.nodup_append] at hB
          exact hB.2.2 _ hm _ (by simp) rfl
        rw [divStep, if_neg hz, if_neg (by omega), if_pos h, ok_bind, addKeyval_new _ _ _ hnew]
        have := ih A (B ++ [(e.1.tail, e.2)]) hA (by simpa using hB)
        rw [this]
        simp

theorem checkNeg_ok (p q : IPoly) (hp : p.WF) (h : ∀ e ∈ p.items, dget q.items e.1 = some (-e.2)) :
    checkNeg p q = .ok () := by
  rw [checkNeg]
  have h1 : ∀ e ∈ p.items, dget p.items e.1 = some e.2 := fun e he =>
    dget_eq_some_of_mem p.items hp e.1 e.2 he
  have : ∀ L : List (List ℤ × ℚ), (∀ e ∈ L, e ∈ p.items) →
      L.foldlM (fun (_ : Unit) (e : List ℤ × ℚ) => do
        let a ← lookup p.items e.1
        let b ← lookup q.items e.1
        if a ≠ -b then Except.error PyErr.valueError else pure ()) () = .ok () := by
    intro L
    induction L with
    | nil => intro _; rfl
    | cons e L ih =>
      intro hL
      have he := hL e (by simp)
      rw [List.foldlM_cons, lookup_ok (h1 e he), ok_bind, lookup_ok (h e he), ok_bind, if_neg (by simp)]
      exact ih fun x hx => hL x (by simp [hx])
  exact this p.items fun _ h => h

/-- parameters with given values -/
noncomputable def parOf (x1 x3 x4 x5 : ℝ) : Par := ⟨0, 1 / x1, 0, x3, x4, x5, 0⟩

theorem parOf_ok {x1 x3 x4 x5 : ℝ} (h1 : 1 < x1) (h4 : 1 < x4) (h5 : 1 < x5) : (parOf x1 x3 x4 x5).OK :=
  ⟨by have : x1 ≠ 0 := by positivity
      simpa [parOf] using this, by show 0 ≤ x4; linarith, by show 0 < x5; linarith⟩

theorem vL_lval (x0 x1 x2 x3 x4 x5 : ℝ) (h0 : 1 < x0) (h1 : 1 < x1) (K : List ℤ) (hK : K.length = 6) :
    vL (parOf x1 x3 x4 x5) x2 (Real.log x0 * x1) K = lval [x0, x1, x2, x3, x4, x5] K := by
  have hx1 : x1 ≠ 0 := by positivity
  have hx0 : 0 < x0 := by positivity
  match K, hK with
  | [a, b, c, d, e, f], _ =>
    simp only [vL, lval, ix_cons_zero, ix_cons_succ, parOf]
    have e1 : (a : ℝ) * (1 / x1) * (Real.log x0 * x1) = a * Real.log x0 := by field_simp
    rw [e1, mul_comm (a : ℝ), Real.exp_mul, Real.exp_log hx0, Real.rpow_intCast, one_div, inv_zpow, zpow_neg,
      inv_inv]
    ring

theorem vS_lval (x1 x2 x3 x4 x5 : ℝ) (K : List ℤ) (hK : K.length = 5) :
    vS (parOf x1 x3 x4 x5).k x2 x3 x4 x5 K = lval [x1, x2, x3, x4, x5] K := by
  match K, hK with
  | [a, b, c, d, e], _ =>
    simp only [vS, lval, ix_cons_zero, ix_cons_succ, parOf]
    rw [one_div, inv_zpow, zpow_neg, inv_inv]
    ring

theorem ev_split (n : ℕ) (hn : 1 ≤ n) (p : Par) (b t : ℝ) (L : List (List ℤ × ℚ))
    (hl : ∀ e ∈ L, e.1.length = 6) (h0 : ∀ e ∈ L, e.2 ≠ 0 → ix e.1 0 = 0 ∨ ix e.1 0 = -n) {kf kf' : List String} :
    ev (vL p b t) (⟨kf, L⟩ : IPoly) = ev (vS p.k b p.sigma p.lmbd p.mu_v) (⟨kf', partQ 0 L⟩ : IPoly) +
      Real.exp (-(n * p.k * t)) * ev (vS p.k b p.sigma p.lmbd p.mu_v) (⟨kf', partQ (-n) L⟩ : IPoly) := by
  simp only [ev_toR]
  induction L with
  | nil => simp [partQ, toR, lsum]
  | cons e L ih =>
    have ih := ih (fun e he => hl e (by simp [he])) fun e he => h0 e (by simp [he])
    have hv : vL p b t e.1 = Real.exp (ix e.1 0 * p.k * t) * vS p.k b p.sigma p.lmbd p.mu_v e.1.tail := by
      have := hl e (by simp)
      match e.1, this with
      | [a, b, c, d, e, f], _ =>
        simp only [vL, vS, List.tail_cons, ix_cons_zero, ix_cons_succ]
        ring
    have hcons : ∀ (f : List ℤ → ℝ) (y : List ℤ × ℚ) (L : List (List ℤ × ℚ)),
        lsum f (toR (y :: L)) = y.2 * f y.1 + lsum f (toR L) := by
      intro f y L
      simp [lsum, toR]
    rw [hcons, ih, partQ_cons, partQ_cons]
    by_cases hz : e.2 = 0
    · rw [if_neg (by simp [hz]), if_neg (by simp [hz]), hz]; simp
    · rcases h0 e (by simp) hz with h | h
      · rw [if_pos ⟨hz, h⟩, if_neg (by omega), hcons, hv, h]
        simp only [Int.cast_zero, zero_mul, Real.exp_zero, one_mul]
        ring
      · rw [if_neg (by omega), if_pos ⟨hz, h⟩, hcons, hv, h]
        have : ((-(n : ℤ) : ℤ) : ℝ) * p.k * t = -(n * p.k * t) := by push_cast; ring
        rw [this]
        ring

theorem divide_spec (n : ℕ) (hn : 1 ≤ n) (poly : IPoly) (hw : poly.WF) (hk : poly.Keys KL)
    (m : ℝ → ℝ → ℝ → ℝ → ℝ → ℝ)
    (hm : ∀ i : At, ev (vL i.p i.b i.t) poly =
      (1 - Real.exp (-(n * i.p.k * i.t))) * m i.p.k i.b i.p.sigma i.p.lmbd i.p.mu_v) :
    ∃ r, divide n poly = .ok r ∧ r.keyfor = kfS ∧ r.WF ∧ r.Keys (NN 5) ∧
      ∀ p : Par, p.OK → ∀ b, ev (vS p.k b p.sigma p.lmbd p.mu_v) r = m p.k b p.sigma p.lmbd p.mu_v := by
  have hne : ∀ e ∈ poly.items, e.1 ≠ [] := fun e he h => by
    have := (hk e he).1; rw [h] at this; simp at this
  have hne' : ∀ e ∈ toR poly.items, e.1 ≠ [] := by
    intro e he
    obtain ⟨y, hy, rfl⟩ := List.mem_map.1 he
    exact hne y hy
  -- coefficients of the powers of `e^{kt}`
  have hcoef : ∀ x1 x2 x3 x4 x5 : ℝ, 1 < x1 → 1 < x4 → 1 < x5 → ∀ j : ℤ,
      lsum (lval [x1, x2, x3, x4, x5]) (part j (toR poly.items)) =
        if j = 0 then m (1 / x1) x2 x3 x4 x5 else if j = -n then -m (1 / x1) x2 x3 x4 x5 else 0 := by
    intro x1 x2 x3 x4 x5 h1 h4 h5 j
    set M := m (1 / x1) x2 x3 x4 x5
    set S : Finset ℤ := insert j (insert 0 (insert (-n : ℤ) (poly.items.map fun e => ix e.1 0).toFinset)) with hS
    have key := laurent_zero S (fun j => lsum (lval [x1, x2, x3, x4, x5]) (part j (toR poly.items)) -
      (if j = 0 then M else if j = -n then -M else 0)) (by
      intro x hx
      have hx0 : x ≠ 0 := by positivity
      simp only [sub_mul, Finset.sum_sub_distrib]
      rw [← lsum_part x _ _ hne' S (by
        intro e he
        obtain ⟨y, hy, rfl⟩ := List.mem_map.1 he
        rw [hS]
        simp only [Finset.mem_insert, List.mem_toFinset, List.mem_map]
        exact Or.inr (Or.inr (Or.inr ⟨y, hy, rfl⟩)))]
      have hi := hm ⟨parOf x1 x3 x4 x5, 0, x2, Real.log x * x1, parOf_ok h1 h4 h5,
        mul_nonneg (Real.log_nonneg hx.le) (by linarith)⟩
      have hv : ev (vL (parOf x1 x3 x4 x5) x2 (Real.log x * x1)) poly =
          lsum (lval [x, x1, x2, x3, x4, x5]) (toR poly.items) := by
        rw [← ev_toR _ poly.keyfor]
        exact ev_congr _ _ _ fun e he => vL_lval _ _ _ _ _ _ hx h1 _ (hk e he).1
      dsimp only at hi
      rw [hv] at hi
      rw [hi]
      have he : Real.exp (-(n * (parOf x1 x3 x4 x5).k * (Real.log x * x1))) = x ^ (-n : ℤ) := by
        have hx1 : x1 ≠ 0 := by positivity
        have : -((n : ℝ) * (parOf x1 x3 x4 x5).k * (Real.log x * x1)) = Real.log x * ((-n : ℤ) : ℝ) := by
          simp only [parOf]; push_cast; field_simp
        rw [this, Real.exp_mul, Real.exp_log (by linarith), Real.rpow_intCast]
      rw [he]
      have hsum : ∑ j ∈ S, (if j = 0 then M else if j = -n then -M else 0) * x ^ j = M - x ^ (-n : ℤ) * M := by
        have : ∀ j : ℤ, (if j = 0 then M else if j = -n then -M else 0) * x ^ j =
            (if j = 0 then M else 0) + (if j = -n then -M * x ^ (-n : ℤ) else 0) := by
          intro j
          by_cases a : j = 0
          · subst a
            rw [if_pos rfl, if_pos rfl, if_neg (by omega)]; simp
          · by_cases b : j = -n
            · rw [if_neg a, if_pos b, if_neg a, if_pos b, b]; ring
            · rw [if_neg a, if_neg b, if_neg a, if_neg b]; simp
        simp only [this, Finset.sum_add_distrib]
        rw [Finset.sum_ite_eq', Finset.sum_ite_eq', if_pos (by simp [hS]), if_pos (by simp [hS])]
        ring
      rw [hsum]
      show (1 - x ^ (-n : ℤ)) * M - (M - x ^ (-n : ℤ) * M) = 0
      ring) j (by simp [hS])
    linarith [key]
  have hlen : ∀ j, ∀ e ∈ part j (toR poly.items), e.1.length = 5 := by
    intro j e he
    simp only [part, toR, List.mem_map, List.mem_filter] at he
    obtain ⟨y, ⟨⟨z, hz, rfl⟩, -⟩, rfl⟩ := he
    simp [(hk z hz).1]
  have hlenQ : ∀ j, ∀ e ∈ partQ j poly.items, NN 5 e.1 := by
    intro j e he
    simp only [partQ, List.mem_map, List.mem_filter] at he
    obtain ⟨z, ⟨hz, -⟩, rfl⟩ := he
    obtain ⟨h1, h2⟩ := hk z hz
    refine ⟨by simp [h1], fun i => ?_⟩
    have : ix z.1.tail i = ix z.1 (i + 1) := by
      match z.1, h1 with
      | [a, b, c, d, e, f], _ => simp [ix]
    show 0 ≤ ix z.1.tail i
    rw [this]
    exact h2 _ (by omega)
  -- no other powers
  have hother : ∀ e ∈ poly.items, e.2 ≠ 0 → ix e.1 0 = 0 ∨ ix e.1 0 = -n := by
    intro e he h0
    by_contra hcon
    rw [not_or] at hcon
    have := laurent_zero_list 5 (part (ix e.1 0) (toR poly.items)) (part_nodup _ _ hne' (by
      rw [toR_fst]; exact hw)) (hlen _) (by
      intro xs hl hx
      match xs, hl with
      | [x1, x2, x3, x4, x5], _ =>
        simp only [List.mem_cons, List.not_mem_nil, or_false, forall_eq_or_imp, forall_eq] at hx
        rw [hcoef x1 x2 x3 x4 x5 hx.1 hx.2.2.2.1 hx.2.2.2.2, if_neg hcon.1, if_neg hcon.2])
      (e.1.tail, (e.2 : ℝ)) (List.mem_map.2 ⟨(e.1, (e.2 : ℝ)), List.mem_filter.2
        ⟨List.mem_map.2 ⟨e, he, rfl⟩, by simp⟩, rfl⟩)
    dsimp only at this
    exact h0 (by exact_mod_cast this)
  set P1 : IPoly := ⟨kfS, partQ 0 poly.items⟩ with hP1
  set P2 : IPoly := ⟨kfS, partQ (-n) poly.items⟩ with hP2
  have w1 : P1.WF := partQ_nodup _ _ hne hw
  have w2 : P2.WF := partQ_nodup _ _ hne hw
  have z1 : P1.NoZero := by
    intro e he
    simp only [hP1, partQ, List.mem_map, List.mem_filter] at he
    obtain ⟨z, ⟨-, hz⟩, rfl⟩ := he
    simp at hz; exact hz.1
  have z2 : P2.NoZero := by
    intro e he
    simp only [hP2, partQ, List.mem_map, List.mem_filter] at he
    obtain ⟨z, ⟨-, hz⟩, rfl⟩ := he
    simp at hz; exact hz.1
  have v1 : ∀ x1 x2 x3 x4 x5 : ℝ, 1 < x1 → 1 < x4 → 1 < x5 →
      ev (lval [x1, x2, x3, x4, x5]) P1 = m (1 / x1) x2 x3 x4 x5 := by
    intro x1 x2 x3 x4 x5 h1 h4 h5
    rw [hP1, ev_toR, lsum_partQ, hcoef x1 x2 x3 x4 x5 h1 h4 h5, if_pos rfl]
  have v2 : ∀ x1 x2 x3 x4 x5 : ℝ, 1 < x1 → 1 < x4 → 1 < x5 →
      ev (lval [x1, x2, x3, x4, x5]) P2 = -m (1 / x1) x2 x3 x4 x5 := by
    intro x1 x2 x3 x4 x5 h1 h4 h5
    rw [hP2, ev_toR, lsum_partQ, hcoef x1 x2 x3 x4 x5 h1 h4 h5, if_neg (by omega), if_pos rfl]
  obtain ⟨s, e1, -, ws, zs, ks, vs⟩ := add_spec P1 P2 rfl
  have hs0 : ∀ e ∈ s.items, e.2 = 0 := by
    intro e he
    have := laurent_zero_list 5 (toR s.items) (by rw [toR_fst]; exact ws w1) (by
      intro y hy
      obtain ⟨z, hz, rfl⟩ := List.mem_map.1 hy
      exact (ks (NN 5) (hlenQ _) (hlenQ _) z hz).1) (by
      intro xs hl hx
      match xs, hl with
      | [x1, x2, x3, x4, x5], _ =>
        simp only [List.mem_cons, List.not_mem_nil, or_false, forall_eq_or_imp, forall_eq] at hx
        rw [← ev_toR _ s.keyfor]
        refine (vs _).trans ?_
        rw [v1 _ _ _ _ _ hx.1 hx.2.2.2.1 hx.2.2.2.2, v2 _ _ _ _ _ hx.1 hx.2.2.2.1 hx.2.2.2.2,
          add_neg_cancel]) (e.1, (e.2 : ℝ)) (List.mem_map.2 ⟨e, he, rfl⟩)
    dsimp only at this
    exact_mod_cast this
  have hco : ∀ k, P1.coeff k = -P2.coeff k := by
    intro k
    have h : s.coeff k = P1.coeff k + P2.coeff k := by
      rw [coeff_eq_ev s (ws w1), vs, coeff_eq_ev P1 w1, coeff_eq_ev P2 w2]
    have h' : s.coeff k = 0 := by
      rw [Poly.coeff]
      cases hd : dget s.items k with
      | none => rfl
      | some x => exact hs0 _ (mem_of_dget _ _ _ hd)
    linarith
  have g1 : ∀ e ∈ P1.items, dget P2.items e.1 = some (-e.2) := by
    intro e he
    have hd := dget_eq_some_of_mem P1.items w1 e.1 e.2 he
    have h1 : P1.coeff e.1 = e.2 := by rw [Poly.coeff, hd]; rfl
    have h2 : P2.coeff e.1 = -e.2 := by rw [← h1, hco, neg_neg]
    rw [dget_of_coeff P2 z2, h2, if_neg (by simpa using z1 e he)]
  have g2 : ∀ e ∈ P2.items, dget P1.items e.1 = some (-e.2) := by
    intro e he
    have hd := dget_eq_some_of_mem P2.items w2 e.1 e.2 he
    have h1 : P2.coeff e.1 = e.2 := by rw [Poly.coeff, hd]; rfl
    have h2 : P1.coeff e.1 = -e.2 := by rw [← h1, hco]
    rw [dget_of_coeff P1 z1, h2, if_neg (by simpa using z2 e he)]
  have hlen12 : P1.items.length = P2.items.length := by
    have : (P1.items.map Prod.fst).Perm (P2.items.map Prod.fst) := by
      refine (List.perm_ext_iff_of_nodup w1 w2).2 fun k => ?_
      constructor
      · intro hm
        obtain ⟨e, he, rfl⟩ := List.mem_map.1 hm
        exact List.mem_map.2 ⟨_, mem_of_dget _ _ _ (g1 e he), rfl⟩
      · intro hm
        obtain ⟨e, he, rfl⟩ := List.mem_map.1 hm
        exact List.mem_map.2 ⟨_, mem_of_dget _ _ _ (g2 e he), rfl⟩
    have := this.length_eq
    simpa using this
  refine ⟨P1, ?_, rfl, w1, hlenQ _, ?_⟩
  · have := divLoop n hn poly.items hother [] [] w1 w2
    rw [divide, this, ok_bind]
    simp only [List.nil_append]
    rw [if_neg (by simpa using hlen12), checkNeg_ok P1 P2 w1 g1, ok_bind, checkNeg_ok P2 P1 w2 g2]
    rfl
  · intro p hp b
    set g := vS p.k b p.sigma p.lmbd p.mu_v
    have h12 : ev g P2 = -ev g P1 := by
      have h : ev g s = 0 := by
        rw [ev]
        refine List.sum_eq_zero fun y hy => ?_
        obtain ⟨e, he, rfl⟩ := List.mem_map.1 hy
        rw [hs0 e he, zero_smul]
      rw [vs] at h
      linarith
    have h1 := hm ⟨p, 0, b, 1, hp, zero_le_one⟩
    dsimp only at h1
    have hsp := ev_split n hn p b 1 poly.items (fun e he => (hk e he).1) hother (kf := poly.keyfor) (kf' := kfS)
    have hsp' : ev (vL p b 1) poly = ev g P1 + Real.exp (-(n * p.k * 1)) * ev g P2 := hsp
    rw [hsp', h12] at h1
    have hne1 : (1 : ℝ) - Real.exp (-(n * p.k * 1)) ≠ 0 := by
      intro h
      have h2 : Real.exp (-(n * p.k * 1)) = 1 := by linarith
      rw [Real.exp_eq_one_iff] at h2
      have : (n : ℝ) ≠ 0 := by exact_mod_cast (by omega : n ≠ 0)
      have h3 := hp.1
      simp only [mul_one, neg_eq_zero, mul_eq_zero] at h2
      tauto
    apply mul_left_cancel₀ hne1
    linarith

end Srjd
end Ajd
