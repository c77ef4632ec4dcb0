import Verif.Spec.Itos
import Verif.Lemmas.Ito
import Verif.Lemmas.IntEv
import Verif.Lemmas.ItoCond

/-! `int_et`, `t_mul_t0`, `int_mIEI_IEII` and `coef_poly` of `itos_mom.py`. -/

namespace Ajd.Itos
open MeasureTheory Poly

/-- the test in `int_et` decides correctly whether the rate of `n` vanishes -/
def Sep (g : Cfg) (x : Par) (n : ℤ × ℤ) : Prop :=
  (g.zero n.1 n.2 = true ∧ n = (0, 0)) ∨ (g.zero n.1 n.2 = false ∧ x.rate n ≠ 0)

theorem cC_val (n1 n2 : ℤ) (m i : ℕ) (h : i ≤ m) :
    (cC n1 n2 m i).2 = (-1) ^ i * ((m.descFactorial i : ℕ) : ℚ) := by
  unfold cC
  dsimp only
  rw [list_range_prod]
  congr 1
  rw [Nat.descFactorial_eq_prod_range, ← Finset.prod_range_reflect]
  push_cast
  apply Finset.prod_congr rfl
  intro j hj
  rw [Finset.mem_range] at hj
  rw [← Nat.cast_one, ← Nat.cast_add, ← Nat.cast_add]
  congr 1
  omega

theorem etTerms_sum (n1 n2 : ℤ) (m q : ℕ) (f : EKey → ℝ) (hq : q ≤ m) :
    ((((List.range q).map fun j : ℕ => j + 1).flatMap (etTerms n1 n2 m)).map
      fun kv => kv.2 • f kv.1).sum =
    ∑ j ∈ Finset.range q, (cC n1 n2 m (j + 1)).2 • f ⟨(n1, n2, (j : ℤ) + 1 + 1), (n1, n2), (m : ℤ) - (j + 1)⟩ -
      (if 0 < q ∧ q = m then (cC n1 n2 m m).2 • f ⟨(n1, n2, (m : ℤ) + 1), (0, 0), 0⟩ else 0) := by
  induction q with
  | zero => simp
  | succ q ih =>
    rw [List.range_succ, List.map_append, List.flatMap_append, List.map_append, List.sum_append,
      ih (by omega), if_neg (by omega), Finset.sum_range_succ, sub_zero, add_sub_assoc]
    congr 1
    simp only [List.map_cons, List.map_nil, List.flatMap_cons, List.flatMap_nil, List.append_nil,
      etTerms, List.sum_cons]
    by_cases h : q + 1 = m
    · rw [if_pos h, if_pos ⟨by omega, h⟩]
      subst h
      simp only [List.map_cons, List.map_nil, List.sum_cons, List.sum_nil, add_zero, neg_smul]
      push_cast
      rw [sub_eq_add_neg]
      rfl
    · rw [if_neg h, if_neg (by omega)]
      simp only [List.map_nil, List.sum_nil, add_zero, sub_zero]
      push_cast
      rfl

/-- what the keys of `int_et` look like -/
def EOK (g : Cfg) (n : ℤ × ℤ) (key : EKey) : Prop :=
  0 ≤ key.p ∧ ((g.zero n.1 n.2 = true ∧ key.d = (0, 0, 0)) ∨
    (g.zero n.1 n.2 = false ∧ (key.d.1, key.d.2.1) = n ∧ 0 ≤ key.d.2.2)) ∧ (key.e = (0, 0) ∨ key.e = n)

theorem intEtNat_keys (g : Cfg) (n1 n2 : ℤ) (m : ℕ) : (intEtNat g n1 n2 m).Keys (EOK g (n1, n2)) := by
  unfold intEtNat
  split_ifs with h1 h2 h3
  · apply ofTerms_Keys
    intro x hx
    simp at hx; subst hx
    exact ⟨by simp, Or.inl ⟨h1.1, rfl⟩, Or.inl rfl⟩
  · apply ofTerms_Keys
    intro x hx
    simp at hx; subst hx
    exact ⟨by dsimp only; omega, Or.inl ⟨h2, rfl⟩, Or.inl rfl⟩
  · have h2' : g.zero n1 n2 = false := by simpa using h2
    apply ofTerms_Keys
    intro x hx
    simp at hx
    rcases hx with rfl | rfl
    · exact ⟨by simp, Or.inr ⟨h2', rfl, by simp [cC]; try omega⟩, Or.inr rfl⟩
    · exact ⟨by simp, Or.inr ⟨h2', rfl, by simp [cC]; try omega⟩, Or.inl rfl⟩
  · have h2' : g.zero n1 n2 = false := by simpa using h2
    apply ofTerms_Keys
    intro x hx
    rcases List.mem_cons.1 hx with rfl | hx
    · exact ⟨by simp, Or.inr ⟨h2', rfl, by simp [cC]; try omega⟩, Or.inr rfl⟩
    · obtain ⟨i, hi, hx⟩ := List.mem_flatMap.1 hx
      obtain ⟨j, hj, rfl⟩ := List.mem_map.1 hi
      rw [List.mem_range] at hj
      unfold etTerms at hx
      rcases List.mem_cons.1 hx with rfl | hx
      · exact ⟨by dsimp only; omega, Or.inr ⟨h2', rfl, by simp [cC]; try omega⟩, Or.inr rfl⟩
      · split_ifs at hx
        · simp at hx; subst hx
          exact ⟨by simp, Or.inr ⟨h2', rfl, by simp [cC]; try omega⟩, Or.inl rfl⟩
        · simp at hx

theorem ev_intEtNat (g : Cfg) (x : Par) (n1 n2 : ℤ) (h : Sep g x (n1, n2)) (m : ℕ) (s : ℝ) :
    ev (eval x s) (intEtNat g n1 n2 m) =
      ∫ r in (0 : ℝ)..s, Real.exp (x.rate (n1, n2) * r) * r ^ m := by
  unfold intEtNat
  rcases h with ⟨h, h0⟩ | ⟨h, ha⟩
  · have hr : x.rate (n1, n2) = 0 := by rw [h0]; simp [Par.rate]
    simp only at h
    have hd : den x (0, 0, 0) = 1 := by simp [den]
    have hr0 : x.rate (0, 0) = 0 := by simp [Par.rate]
    by_cases hm : m = 0
    · subst hm
      rw [if_pos ⟨h, rfl⟩, ev_ofTerms]
      simp [hr, eval, hd, hr0]
    · rw [if_neg (fun h' => hm h'.2), if_pos h, ev_ofTerms]
      simp only [hr, eval, hd, hr0, zero_mul, Real.exp_zero, one_mul, integral_pow, List.map_cons,
        List.map_nil, List.sum_cons, List.sum_nil, add_zero, Rat.smul_def]
      have : s ^ ((m : ℤ) + 1) = s ^ (m + 1) := by rw [← zpow_natCast]; norm_cast
      rw [this]
      simp
      ring
  · simp only at h
    have hne : ¬ (g.zero n1 n2 = true ∧ m = 0) := by simp [h]
    rw [if_neg hne, if_neg (by simp [h]), integral_exp_pow _ ha]
    have hr0 : x.rate (0, 0) = 0 := by simp [Par.rate]
    have hden : ∀ i : ℕ, den x (n1, n2, (i : ℤ) + 1) = 1 / x.rate (n1, n2) ^ (i + 1) := by
      intro i
      rw [den, zpow_neg, one_div]; norm_cast
    by_cases hm : m = 0
    · subst hm
      rw [if_pos rfl, ev_ofTerms]
      have := hden 0
      simp only [Nat.cast_zero, zero_add] at this
      simp [eval, this, hr0, expF]
      ring
    · rw [if_neg hm, ev_ofTerms, List.map_cons, List.sum_cons, etTerms_sum _ _ _ _ _ le_rfl,
        if_pos ⟨by omega, rfl⟩, ← add_sub_assoc]
      congr 1
      · unfold expF
        rw [Finset.sum_range_succ', add_comm]
        congr 1
        · apply Finset.sum_congr rfl
          intro i hi
          rw [Finset.mem_range] at hi
          rw [cC_val _ _ _ _ (by omega), Rat.smul_def, eval]
          have e1 : s ^ ((m : ℤ) - (i + 1)) = s ^ (m - (i + 1)) := by
            rw [← zpow_natCast, Nat.cast_sub (by omega)]; push_cast; rfl
          have e2 := hden (i + 1)
          push_cast at e2
          dsimp only
          rw [e1, e2]
          push_cast
          ring
        · have e2 := hden 0
          simp only [Nat.cast_zero, zero_add] at e2
          simp [eval, e2]
      · rw [cC_val _ _ _ _ le_rfl, Rat.smul_def, eval, Nat.descFactorial_self]
        dsimp only
        rw [hden m]
        push_cast
        simp [hr0]
        ring

/-! ### `t_mul_t0` -/

theorem den_add (x : Par) (n1 n2 i j : ℤ) (hi : 0 ≤ i) (hj : 0 ≤ j) :
    den x (n1, n2, i + j) = den x (n1, n2, i) * den x (n1, n2, j) := by
  unfold den
  dsimp only
  by_cases hr : x.rate (n1, n2) = 0
  · rw [hr]
    obtain ⟨a, rfl⟩ := Int.eq_ofNat_of_zero_le hi
    obtain ⟨b, rfl⟩ := Int.eq_ofNat_of_zero_le hj
    rw [zpow_neg, zpow_neg, zpow_neg, ← mul_inv, ← Int.natCast_add, zpow_natCast, zpow_natCast,
      zpow_natCast, pow_add]
  · rw [neg_add, zpow_add₀ hr]

theorem bump_spec (t : Den) (ht : DOK t) (t0 l : List Den) (h0 : ∀ s ∈ t0, DOK s)
    (h : bump t t0 = some l) : (∀ s ∈ l, DOK s) ∧
      ∀ x, (l.map (den x)).prod = den x t * (t0.map (den x)).prod := by
  induction t0 generalizing l with
  | nil => simp [bump] at h
  | cons s r ih =>
    unfold bump at h
    have hs0 := h0 s (by simp)
    split_ifs at h with hs
    · cases h
      obtain ⟨t1, t2, i⟩ := t
      obtain ⟨s1, s2, j⟩ := s
      obtain ⟨rfl, rfl⟩ := hs
      constructor
      · intro s hs
        rcases List.mem_cons.1 hs with rfl | hs
        · unfold DOK at *
          dsimp only at *
          refine ⟨by omega, fun h1 h2 => ?_⟩
          rw [ht.2 h1 h2, hs0.2 h1 h2]; rfl
        · exact h0 s (by simp [hs])
      · intro x
        simp only [List.map_cons, List.prod_cons]
        rw [den_add x t1 t2 i j ht.1 hs0.1]
        ring
    · cases hb : bump t r with
      | none => rw [hb] at h; simp at h
      | some l' =>
        rw [hb] at h
        simp at h
        subst h
        obtain ⟨h1, h2⟩ := ih l' (fun s hs => h0 s (by simp [hs])) hb
        constructor
        · intro y hy
          rcases List.mem_cons.1 hy with rfl | hy
          · exact hs0
          · exact h1 y hy
        · intro x
          rw [List.map_cons, List.prod_cons, h2 x, List.map_cons, List.prod_cons]
          ring

theorem bump_ne (t : Den) (t0 l : List Den) (h : bump t t0 = some l) : l ≠ [] := by
  cases t0 with
  | nil => simp [bump] at h
  | cons s r =>
    unfold bump at h
    split_ifs at h with hs
    · cases h; simp
    · cases hb : bump t r with
      | none => rw [hb] at h; simp at h
      | some l' => rw [hb] at h; simp at h; subst h; simp

theorem tMulT0_spec (t : Den) (t0 : List Den) (ht : DOK t) (h0 : t0 ≠ []) (hd : ∀ s ∈ t0, DOK s) :
    ∃ l, tMulT0 t t0 = .ok l ∧ l ≠ [] ∧ (∀ s ∈ l, DOK s) ∧ ∀ x : Par,
      (l.map (den x)).prod = den x t * (t0.map (den x)).prod := by
  unfold tMulT0
  by_cases hi : t.2.2 = 0
  · rw [if_pos hi]
    exact ⟨t0, rfl, h0, hd, fun x => by simp [den, hi]⟩
  · rw [if_neg hi]
    cases hb : bump t t0 with
    | some l =>
      exact ⟨l, rfl, bump_ne t t0 l hb, bump_spec t ht t0 l hd hb⟩
    | none =>
      cases t0 with
      | nil => exact absurd rfl h0
      | cons s r =>
        dsimp only
        by_cases hs : s.2.2 = 0
        · rw [if_neg (by simp [hs])]
          refine ⟨t :: r, rfl, by simp, ?_, fun x => ?_⟩
          · intro y hy
            rcases List.mem_cons.1 hy with rfl | hy
            · exact ht
            · exact hd y (by simp [hy])
          · simp [den, hs]
        · rw [if_pos hs]
          refine ⟨t :: s :: r, rfl, by simp, ?_, fun x => by simp⟩
          intro y hy
          rcases List.mem_cons.1 hy with rfl | hy
          · exact ht
          · exact hd y hy

/-! ### `int_mIEI_IEII` -/

/-- the rate of factor `i` -/
def Par.k (x : Par) (i : ℕ) : ℝ := if i = 1 then x.k1 else x.k2

theorem rate_shift (x : Par) (i : ℕ) (m : ℤ) (p : ℤ × ℤ) :
    x.rate (shift i m p) = x.rate p + m * x.k i := by
  unfold shift Par.k Par.rate
  split_ifs <;> push_cast <;> ring

/-- the part of the value of a key that does not depend on the time -/
noncomputable def cst (x : Par) (c : List ℤ) : ℝ :=
  x.v1 ^ ix c 1 * x.θ1 ^ ix c 2 * x.σ1 ^ ix c 3 * (x.v2 ^ ix c 4 * x.θ2 ^ ix c 5 * x.σ2 ^ ix c 6)

theorem dval_eq (x : Par) (t : ℝ) (key : DKey) : dval x t key =
    (key.d.map (den x)).prod * Real.exp (x.rate key.a * x.u) *
    (Real.exp (x.rate key.e * (t - x.u)) * (t - x.u) ^ ix key.c 0) * cst x key.c := rfl

theorem dval_cont (x : Par) (key : DKey) (h : 0 ≤ ix key.c 0) : Continuous fun t => dval x t key := by
  obtain ⟨n, hn⟩ := Int.eq_ofNat_of_zero_le h
  simp only [dval, hn, Int.ofNat_eq_natCast, zpow_natCast]
  fun_prop

theorem dval_int (x : Par) (t : ℝ) (i : ℕ) (m : ℤ) (key : DKey) (h : 0 ≤ ix key.c 0) :
    ∫ s in x.u..t, Real.exp (m * x.k i * s) * dval x s key =
      (key.d.map (den x)).prod * Real.exp (x.rate (shift i m key.a) * x.u) * cst x key.c *
        ∫ r in (0 : ℝ)..(t - x.u), Real.exp (x.rate (shift i m key.e) * r) * r ^ (ix key.c 0).toNat := by
  obtain ⟨n, hn⟩ := Int.eq_ofNat_of_zero_le h
  have e : ∀ s, Real.exp (m * x.k i * s) * dval x s key =
      (fun r => (key.d.map (den x)).prod * Real.exp (x.rate (shift i m key.a) * x.u) * cst x key.c *
        (Real.exp (x.rate (shift i m key.e) * r) * r ^ n)) (s - x.u) := by
    intro s
    dsimp only
    rw [dval_eq, hn, rate_shift, rate_shift]
    have e1 : Real.exp (m * x.k i * s) = Real.exp (m * x.k i * x.u) * Real.exp (m * x.k i * (s - x.u)) := by
      rw [← Real.exp_add]; ring_nf
    rw [e1, add_mul, Real.exp_add, add_mul, Real.exp_add]
    simp only [Int.ofNat_eq_natCast, zpow_natCast]
    ring
  simp only [e]
  rw [intervalIntegral.integral_comp_sub_right (fun r => (key.d.map (den x)).prod *
    Real.exp (x.rate (shift i m key.a) * x.u) * cst x key.c *
        (Real.exp (x.rate (shift i m key.e) * r) * r ^ n)) x.u, sub_self,
    intervalIntegral.integral_const_mul]
  simp [hn]

theorem intMTerms_spec (g : Cfg) (i : ℕ) (m : ℤ) (e : DKey × ℚ) (he : KOK e.1) :
    ∃ ts, intMTerms g i m e = .ok ts ∧
      (∀ y ∈ ts, KOK y.1 ∧ y.1.a = shift i m e.1.a ∧ (y.1.e = (0, 0) ∨ y.1.e = shift i m e.1.e)) ∧
      ∀ x : Par, Sep g x (shift i m e.1.e) → ∀ t, (ts.map fun y => y.2 • dval x t y.1).sum =
        e.2 • ∫ s in x.u..t, Real.exp (m * x.k i * s) * dval x s e.1 := by
  obtain ⟨key, v⟩ := e
  have h0 := he.2.2 0
  unfold intMTerms
  dsimp only at he h0 ⊢
  rw [intEt, if_neg (by omega), ok_bind]
  have hk := intEtNat_keys g (shift i m key.e).1 (shift i m key.e).2 (ix key.c 0).toNat
  have hev := fun x h => ev_intEtNat g x (shift i m key.e).1 (shift i m key.e).2 h (ix key.c 0).toNat
  generalize intEtNat g (shift i m key.e).1 (shift i m key.e).2 (ix key.c 0).toNat = P at hk hev ⊢
  have main : ∀ l : List (EKey × ℚ), (∀ e ∈ l, EOK g (shift i m key.e) e.1) → ∃ ts, (l.mapM fun k2 => do
      let t0 ← tMulT0 k2.1.d key.d
      pure ((⟨t0, shift i m key.a, k2.1.e, [k2.1.p, ix key.c 1, ix key.c 2, ix key.c 3, ix key.c 4,
        ix key.c 5, ix key.c 6]⟩ : DKey), v * k2.2) : Except PyErr (List (DKey × ℚ))) = .ok ts ∧
      (∀ y ∈ ts, KOK y.1 ∧ y.1.a = shift i m key.a ∧ (y.1.e = (0, 0) ∨ y.1.e = shift i m key.e)) ∧
      ∀ x : Par, Sep g x (shift i m key.e) → ∀ t, (ts.map fun y => y.2 • dval x t y.1).sum =
        v • ((key.d.map (den x)).prod * Real.exp (x.rate (shift i m key.a) * x.u) * cst x key.c *
          (l.map fun y => y.2 • eval x (t - x.u) y.1).sum) := by
    intro l
    induction l with
    | nil => intro _; exact ⟨[], rfl, by simp, by simp⟩
    | cons a l ih =>
      intro hl
      obtain ⟨ts, e1, h1, h2⟩ := ih fun e he => hl e (by simp [he])
      obtain ⟨p0, pd, pe⟩ := hl a (by simp)
      have hda : DOK a.1.d := by
        rcases pd with ⟨_, pd⟩ | ⟨pz, pd, pi⟩
        · rw [pd]; exact ⟨le_rfl, fun _ _ => rfl⟩
        · refine ⟨pi, fun q1 q2 => ?_⟩
          rw [← pd] at pz
          simp only [q1, q2, g.zero0] at pz
          cases pz
      obtain ⟨t0, et, ht0, hdo, hv⟩ := tMulT0_spec a.1.d key.d hda he.1 he.2.1
      refine ⟨_ :: ts, by rw [List.mapM_cons, et, ok_bind, pure_bind, e1]; rfl, ?_, ?_⟩
      · intro y hy
        rcases List.mem_cons.1 hy with rfl | hy
        · refine ⟨⟨ht0, hdo, ?_⟩, rfl, pe⟩
          intro j
          rcases j with _ | _ | _ | _ | _ | _ | _ | j
          · exact p0
          · exact he.2.2 1
          · exact he.2.2 2
          · exact he.2.2 3
          · exact he.2.2 4
          · exact he.2.2 5
          · exact he.2.2 6
          · simp [ix]
        · exact h1 y hy
      · intro x hx t
        have hd : (t0.map (den x)).prod = den x a.1.d * (key.d.map (den x)).prod := by
          exact hv x
        rw [List.map_cons, List.sum_cons, h2 x hx t, List.map_cons, List.sum_cons, dval_eq]
        dsimp only
        rw [hd]
        have : cst x [a.1.p, ix key.c 1, ix key.c 2, ix key.c 3, ix key.c 4, ix key.c 5, ix key.c 6] =
          cst x key.c := rfl
        rw [this, eval]
        simp only [ix_cons_zero, Rat.smul_def]
        push_cast
        ring
  obtain ⟨ts, e1, h1, h2⟩ := main P.items (fun e he => hk e he)
  refine ⟨ts, e1, h1, fun x hx t => ?_⟩
  rw [h2 x hx t, dval_int x t i m key h0, ← hev x hx (t - x.u)]
  rfl

theorem intM_spec (g : Cfg) (i : ℕ) (m : ℤ) (P : DPoly) (hP : P.Keys KOK) :
    ∃ Q, intM g i m P = .ok Q ∧ Q.keyfor = kf ∧ Q.WF ∧
      (Q.Keys fun k => KOK k ∧ ∃ e ∈ P.items, k.a = shift i m e.1.a ∧ (k.e = (0, 0) ∨ k.e = shift i m e.1.e)) ∧
      ∀ x : Par, (∀ e ∈ P.items, Sep g x (shift i m e.1.e)) → ∀ t, ev (dval x t) Q =
        ∫ s in x.u..t, Real.exp (m * x.k i * s) * ev (dval x s) P := by
  obtain ⟨Q, e, hkf, hwf, hK, hv⟩ := subst_spec
    (ι := {y : Par × ℝ // ∀ e ∈ P.items, Sep g y.1 (shift i m e.1.e)}) kf (intMTerms g i m) P
    (fun k => KOK k ∧ ∃ e ∈ P.items, k.a = shift i m e.1.a ∧ (k.e = (0, 0) ∨ k.e = shift i m e.1.e))
    (fun y k => dval y.1.1 y.1.2 k)
    (fun y k => ∫ s in y.1.1.u..y.1.2, Real.exp (m * y.1.1.k i * s) * dval y.1.1 s k) (by
      intro e he
      obtain ⟨ts, e1, h1, h2⟩ := intMTerms_spec g i m e (hP e he)
      exact ⟨ts, e1, fun y hy => ⟨(h1 y hy).1, e, he, (h1 y hy).2⟩, fun y => h2 y.1.1 (y.2 e he) y.1.2⟩)
  refine ⟨Q, e, hkf, hwf, hK, fun x hx t => ?_⟩
  rw [hv ⟨(x, t), hx⟩]
  refine ((intervalIntegral_ev _ _ P x.u t ?_).2).symm
  intro e he
  apply Continuous.intervalIntegrable
  exact (by fun_prop : Continuous fun s => Real.exp (m * x.k i * s)).mul (dval_cont x e.1 ((hP e he).2.2 0))

/-! ### `coef_poly` -/

/-- what `coef_poly` multiplies with -/
noncomputable def fac (x : Par) (tp : ℕ) : ℝ :=
  if tp = 1 then Real.exp (x.k1 * x.u) * x.v1
  else if tp = 2 then -(Real.exp (x.k1 * x.u) * x.θ1)
  else if tp = 3 then x.θ1
  else if tp = 4 then x.σ1
  else if tp = 5 then Real.exp (x.k2 * x.u) * x.v2
  else if tp = 6 then -(Real.exp (x.k2 * x.u) * x.θ2)
  else if tp = 7 then x.θ2
  else x.σ2

/-- what `coef_poly` does to `key[1]` -/
def aShift (tp : ℕ) (a : ℤ × ℤ) : ℤ × ℤ :=
  if tp = 1 then shift 1 1 a else if tp = 2 then shift 1 1 a
  else if tp = 3 then a else if tp = 4 then a
  else if tp = 5 then shift 2 1 a else if tp = 6 then shift 2 1 a else a

theorem coefTerm_spec (x : Par) (t : ℝ) (coef : ℚ) (tp : ℕ) (e : DKey × ℚ) (he : KOK e.1) :
    KOK (coefTerm coef tp e).1 ∧ (coefTerm coef tp e).1.e = e.1.e ∧
    (coefTerm coef tp e).1.a = aShift tp e.1.a ∧
    (coefTerm coef tp e).2 • dval x t (coefTerm coef tp e).1 = e.2 • (coef * fac x tp * dval x t e.1) := by
  obtain ⟨⟨d, a, e0, c⟩, v⟩ := e
  obtain ⟨hd, hdo, hc⟩ := he
  dsimp only at hd hdo hc
  have hinc : ∀ j l, 0 ≤ ix (inc c j) l := by
    intro j l
    unfold inc
    rcases l with _ | _ | _ | _ | _ | _ | _ | l
    any_goals simp [List.range_succ, ix_cons_zero, ix_cons_succ]
    any_goals split_ifs
    any_goals (have := hc 0; have := hc 1; have := hc 2; have := hc 3; have := hc 4; have := hc 5; have := hc 6)
    all_goals first | omega | simp [ix]
  have hs := fun (y : ℝ) j => Ito.zpow_succ_nonneg y (ix c j) (hc j)
  unfold coefTerm fac aShift
  split_ifs <;> refine ⟨⟨hd, hdo, hinc _⟩, rfl, rfl, ?_⟩ <;>
    simp only [dval, inc, List.range_succ, List.range_zero, List.nil_append, List.cons_append, List.map_cons, List.map_nil,
      ix_cons_zero, ix_cons_succ, Rat.smul_def, shift, Par.rate] <;> norm_num <;>
    simp only [hs, add_mul, one_mul, Real.exp_add] <;> ring

end Ajd.Itos
