import Verif.Lemmas.Ieziziz
import Verif.Lemmas.IezizizLaw
import Mathlib.Topology.MetricSpace.Basic

/-! `decode` and `moment_ieziziz`. -/

namespace Ajd.Ieziziz
open Poly MvPolynomial MeasureTheory ProbabilityTheory
open scoped NNReal

/-- keys while decoding: the power of `t-s` is at least `-c` -/
def EG (c : ℤ) (K : List ℤ) : Prop :=
  K.length = 8 ∧ 0 ≤ ix K 0 ∧ 0 ≤ ix K 1 ∧ 0 ≤ ix K 2 + c ∧ 0 ≤ ix K 3 ∧ 0 ≤ ix K 4 ∧ 0 ≤ ix K 5 ∧
    0 ≤ ix K 6 ∧ 0 ≤ ix K 7

theorem EG_add : GAdd EG := by
  intro a b k1 k2 h1 h2
  have hl : k1.length = k2.length := by rw [h1.1, h2.1]
  obtain ⟨_, a0, a1, a2, a3, a4, a5, a6, a7⟩ := h1
  obtain ⟨_, b0, b1, b2, b3, b4, b5, b6, b7⟩ := h2
  refine ⟨by simp [*], ?_, ?_, ?_, ?_, ?_, ?_, ?_, ?_⟩ <;> rw [ix_zipWith _ _ hl] <;> omega

theorem EG_len (a : ℤ) (k : List ℤ) (h : EG a k) : k.length = 8 := h.1

theorem wZ_mul (p : Par) (s t : ℝ) (hst : t - s ≠ 0) : GMul EG (wZ p s t) := by
  intro a b k1 k2 h1 h2
  have hl : k1.length = k2.length := by rw [h1.1, h2.1]
  obtain ⟨_, a0, a1, a2, a3, a4, a5, a6, a7⟩ := h1
  obtain ⟨_, b0, b1, b2, b3, b4, b5, b6, b7⟩ := h2
  unfold wZ
  simp only [ix_zipWith _ _ hl]
  rw [Srjd.zpow_neg_add _ _ _ a3 b3, zpow_add_nn _ _ _ a4 b4, zpow_add_nn _ _ _ a5 b5,
    zpow_add_nn _ _ _ a6 b6, zpow_add_nn _ _ _ a7 b7, zpow_add₀ hst]
  push_cast
  rw [add_mul, add_mul, add_mul, add_mul, Real.exp_add, Real.exp_add]
  ring

/-- a moment of a jump -/
noncomputable def gJ (p : Par) (s t : ℝ) (n : N3) : ℝ :=
  intE p.k s t n.1 / (t - s) * ((n.1 + n.2.1).factorial * p.mu_v ^ (n.1 + n.2.1)) *
    gaussMom p.mu_s (p.sigma_s ^ 2).toNNReal n.2.2

/-- `λ (t-s)` times a moment of a jump -/
noncomputable def kapZ (p : Par) (s t : ℝ) (n : N3) : ℝ :=
  p.lmbd * intE p.k s t n.1 * ((n.1 + n.2.1).factorial * p.mu_v ^ (n.1 + n.2.1)) *
    gaussMom p.mu_s (p.sigma_s ^ 2).toNNReal n.2.2

/-- value of the first six components -/
noncomputable def w6 (p : Par) (s t : ℝ) (K : List ℤ) : ℝ :=
  Real.exp (ix K 0 * p.k * t) * Real.exp (ix K 1 * p.k * s) * (t - s) ^ ix K 2 *
    p.k ^ (-ix K 3) * (p.lmbd ^ ix K 4 * p.mu_v ^ ix K 5)

theorem ej_spec (a b : ℕ) : (Poly.ofTerms [] (ejTerms a b)).Keys (fun K => K.length = 6 ∧ 0 ≤ ix K 0 ∧
      0 ≤ ix K 1 ∧ 0 ≤ ix K 2 + 1 ∧ 0 ≤ ix K 3 ∧ 0 ≤ ix K 4 ∧ 0 ≤ ix K 5) ∧
    ∀ (p : Par) (s t : ℝ), t - s ≠ 0 → ev (w6 p s t) (Poly.ofTerms [] (ejTerms a b)) =
      intE p.k s t a / (t - s) * ((a + b).factorial * p.mu_v ^ (a + b)) := by
  constructor
  · apply ofTerms_Keys
    intro x hx
    unfold ejTerms at hx
    split at hx
    · simp only [List.mem_cons, List.not_mem_nil, or_false] at hx
      rcases hx with rfl | rfl <;> refine ⟨rfl, ?_, ?_, ?_, ?_, ?_, ?_⟩ <;> simp
    · split at hx
      · simp only [List.mem_cons, List.not_mem_nil, or_false] at hx
        rcases hx with rfl | rfl <;> refine ⟨rfl, ?_, ?_, ?_, ?_, ?_, ?_⟩ <;> simp <;> omega
      · split at hx
        · simp only [List.mem_cons, List.not_mem_nil, or_false] at hx
          subst hx
          refine ⟨rfl, ?_, ?_, ?_, ?_, ?_, ?_⟩ <;> simp
        · split at hx
          · simp only [List.mem_cons, List.not_mem_nil, or_false] at hx
            subst hx
            refine ⟨rfl, ?_, ?_, ?_, ?_, ?_, ?_⟩ <;> simp
          · simp at hx
  · intro p s t hst
    rw [ev_ofTerms]
    have hz : ∀ n : ℕ, p.mu_v ^ (n : ℤ) = p.mu_v ^ n := fun n => zpow_natCast _ _
    have hz2 : p.mu_v ^ ((a : ℤ) + b) = p.mu_v ^ (a + b) := by
      rw [← zpow_natCast]; push_cast; rfl
    unfold ejTerms intE
    by_cases h1 : (1 : ℤ) ≤ a ∧ (b : ℤ) = 0
    · rw [if_pos h1, if_neg (by omega)]
      obtain ⟨h1, h2⟩ := h1
      have hb : b = 0 := by omega
      subst hb
      have e : ((a : ℤ) - 1).toNat = a - 1 := by omega
      have ha : (a : ℝ) ≠ 0 := by norm_cast; omega
      have hf : (a.factorial : ℝ) = a * (a - 1).factorial := by
        rw [← Nat.mul_factorial_pred (show a ≠ 0 by omega)]; push_cast; ring
      simp only [List.map_cons, List.map_nil, List.sum_cons, List.sum_nil, w6, ix_cons_zero, ix_cons_succ,
        Rat.smul_def, e, hz, zpow_neg, zpow_one, Int.cast_natCast, Int.cast_zero, zero_mul, Real.exp_zero,
        zpow_zero, add_zero, hf, mul_one, one_mul]
      push_cast
      field_simp
      ring
    rw [if_neg h1]
    by_cases h2 : (1 : ℤ) ≤ a ∧ (1 : ℤ) ≤ b
    · rw [if_pos h2, if_neg (by omega)]
      have ha : (a : ℝ) ≠ 0 := by norm_cast; omega
      have e : ((a : ℤ) + b).toNat = a + b := by omega
      simp only [List.map_cons, List.map_nil, List.sum_cons, List.sum_nil, w6, ix_cons_zero, ix_cons_succ,
        Rat.smul_def, e, hz2, zpow_neg, zpow_one, Int.cast_natCast, Int.cast_zero, zero_mul, Real.exp_zero,
        zpow_zero, add_zero, mul_one, one_mul]
      push_cast
      field_simp
      ring
    rw [if_neg h2]
    by_cases h3 : (a : ℤ) = 0 ∧ (1 : ℤ) ≤ b
    · rw [if_pos h3, if_pos (by omega)]
      have ha : a = 0 := by omega
      subst ha
      simp only [List.map_cons, List.map_nil, List.sum_cons, List.sum_nil, w6, ix_cons_zero, ix_cons_succ,
        Rat.smul_def, hz, zpow_neg, zpow_one, Int.cast_natCast, Int.cast_zero, zero_mul, Real.exp_zero,
        zpow_zero, add_zero, mul_one, one_mul, zero_add, Int.toNat_natCast, div_self hst, neg_zero]
      push_cast
      ring
    rw [if_neg h3, if_pos (by omega)]
    have ha : a = 0 := by omega
    have hb : b = 0 := by omega
    subst ha hb
    simp [w6, div_self hst]

theorem mnorm_val (c : ℕ) (p : Par) :
    ev (fun E : List ℤ => p.mu_s ^ ix E 0 * p.sigma_s ^ (2 * ix E 1)) (Cpp.mnormNat c) =
      gaussMom p.mu_s (p.sigma_s ^ 2).toNNReal c := by
  have h := Cpp.ev_mnormNat (fun i => if i = 0 then p.mu_s else p.sigma_s ^ 2) c
  simp only [if_true, one_ne_zero, if_false] at h
  have h2 := gaussMom_eq_iter p.mu_s (p.sigma_s ^ 2).toNNReal c
  rw [Real.coe_toNNReal _ (sq_nonneg _)] at h2
  rw [h2]
  refine Eq.trans ?_ h
  apply ev_congr
  intro e he
  have hk := Cpp.mnormNat_keys c e he
  rw [Cpp.mono_two _ _ hk, if_pos rfl, if_neg one_ne_zero, zpow_mul, ← zpow_natCast, ← zpow_natCast,
    Int.toNat_of_nonneg (hk.2 0), Int.toNat_of_nonneg (hk.2 1)]
  rfl

theorem momentEjjj_spec (n : ℤ × ℤ × ℤ) (hn : OOK n) : ∃ r, momentEjjj n.1 n.2.1 n.2.2 = .ok r ∧
    r.keyfor = kf0 ∧ r.Keys (EG 1) ∧
    ∀ (p : Par) (s t : ℝ), t - s ≠ 0 → ev (wZ p s t) r = gJ p s t (toN n) := by
  obtain ⟨a, b, c⟩ := n
  obtain ⟨h0, h1, h2⟩ := hn
  simp only at h0 h1 h2
  obtain ⟨a, rfl⟩ := Int.eq_ofNat_of_zero_le h0
  obtain ⟨b, rfl⟩ := Int.eq_ofNat_of_zero_le h1
  obtain ⟨c, rfl⟩ := Int.eq_ofNat_of_zero_le h2
  obtain ⟨hk, hv⟩ := ej_spec a b
  refine ⟨_, by
    dsimp only
    rw [momentEjjj, if_neg (by omega), Cpp.mnorm, if_neg (by omega), ok_bind], by simp,
    ofTerms_Keys _ _ _ ?_, fun p s t hst => ?_⟩
  · intro x hx
    obtain ⟨e, he, hx⟩ := List.mem_flatMap.1 hx
    obtain ⟨E, hE, rfl⟩ := List.mem_map.1 hx
    have hE' := Cpp.mnormNat_keys c E (by simpa using hE)
    have g0 := hE'.2 0
    have g1 := hE'.2 1
    obtain ⟨k, v⟩ := e
    obtain ⟨hl, a0, a1, a2, a3, a4, a5⟩ := hk _ he
    simp only at hl a0 a1 a2 a3 a4 a5 ⊢
    match k, hl with
    | [k0, k1, k2, k3, k4, k5], _ =>
      exact ⟨rfl, a0, a1, a2, a3, a4, a5, g0, by
        show 0 ≤ 2 * ix E.1 1
        omega⟩
  · rw [ev_ofTerms_flatMap (wZ p s t)
      (fun K => w6 p s t K * gaussMom p.mu_s (p.sigma_s ^ 2).toNNReal c) kf0 _ _ ?_]
    · have : (fun K => w6 p s t K * gaussMom p.mu_s (p.sigma_s ^ 2).toNNReal c) =
          fun K => gaussMom p.mu_s (p.sigma_s ^ 2).toNNReal c * w6 p s t K := by
        funext K; ring
      rw [this, ev_mul_const, hv p s t hst]
      simp only [gJ, toN, Int.toNat_natCast]
      ring
    · intro e he
      obtain ⟨k, v⟩ := e
      have hl := (hk _ he).1
      rw [List.map_map, ← mnorm_val, ← ev_mul_const, ev, List.smul_sum, List.map_map, Int.toNat_natCast]
      congr 1
      apply List.map_congr_left
      intro E _
      simp only at hl
      match k, hl with
      | [k0, k1, k2, k3, k4, k5], _ =>
        simp only [Function.comp, Rat.smul_def, wZ, w6, List.cons_append, List.nil_append, ix_cons_zero,
          ix_cons_succ]
        push_cast
        ring

/-- `∏ g_n^m` -/
noncomputable def gv (g : N3 → ℝ) (ps : List Quad) : ℝ := (ps.map fun q => g (toN q.1) ^ q.2.toNat).prod

theorem gv_eq (g : N3 → ℝ) (ps : List Quad) : gv g ps = aeval g (pvM ps) := by
  induction ps with
  | nil => simp [gv]
  | cons q t ih =>
    rw [pvM_cons, map_mul, map_pow, aeval_X, ← ih]
    simp [gv]

theorem gv_cons (g : N3 → ℝ) (q : Quad) (ps : List Quad) :
    gv g (q :: ps) = g (toN q.1) ^ q.2.toNat * gv g ps := rfl

theorem decodeLoop_spec (ps : List Quad) (h : QsOK ps) (acc : IPoly)
    (hk : acc.keyfor = kf0) (c : ℤ) (ha : acc.Keys (EG c)) :
    ∃ r, decodeLoop acc ps = .ok r ∧ r.Keys (EG (c + msum ps)) ∧
      ∀ (p : Par) (s t : ℝ), t - s ≠ 0 → ev (wZ p s t) r = ev (wZ p s t) acc * gv (gJ p s t) ps := by
  induction ps generalizing acc c with
  | nil => exact ⟨acc, rfl, by simpa using ha, by simp [gv]⟩
  | cons x t ih =>
    obtain ⟨⟨n1, n2, n3⟩, m⟩ := x
    have hnm := h ((n1, n2, n3), m) (by simp)
    obtain ⟨q, e0, k0, c0, v0⟩ := momentEjjj_spec (n1, n2, n3) hnm.1
    obtain ⟨pw, e1, k1, c1, v1⟩ := gpow_on EG_add EG_len q 1 c0 m hnm.2
    obtain ⟨a, e2, k2, _, _, c2, v2⟩ := gmul_on EG_add EG_len acc pw (by rw [k1, hk, k0]) _ _ ha c1
    obtain ⟨r, e3, c3, v3⟩ := ih (fun p hp => h p (by simp [hp])) a (k2.trans hk) _ c2
    dsimp only at e0
    refine ⟨r, by rw [decodeLoop, e0, ok_bind, e1, ok_bind, e2, ok_bind, e3], ?_, ?_⟩
    · rw [mul_one, add_assoc] at c3
      simpa using c3
    · intro p s t' hst
      rw [v3 p s t' hst, v2 _ (wZ_mul p s t' hst), v1 _ (wZ_mul p s t' hst), v0 p s t' hst, gv_cons]
      ring

theorem gv_kap (p : Par) (s t : ℝ) (hst : t - s ≠ 0) (ps : List Quad) (h : QsOK ps) :
    (t - s) ^ msum ps * p.lmbd ^ msum ps * gv (gJ p s t) ps = gv (kapZ p s t) ps := by
  induction ps with
  | nil => simp [gv]
  | cons q l ih =>
    have hl : QsOK l := fun p hp => h p (by simp [hp])
    have h0 := msum_nonneg l hl
    have hq : 1 ≤ q.2 := (h q (by simp)).2
    rw [gv_cons, gv_cons, ← ih hl, msum_cons, zpow_add_nn _ _ _ (by omega) h0, zpow_add_nn _ _ _ (by omega) h0]
    have : kapZ p s t (toN q.1) = (t - s) * p.lmbd * gJ p s t (toN q.1) := by
      unfold kapZ gJ; field_simp
    obtain ⟨m, hm⟩ := Int.eq_ofNat_of_zero_le (show 0 ≤ q.2 by omega)
    rw [this, hm, Int.toNat_natCast, mul_pow, mul_pow, zpow_natCast, zpow_natCast]
    ring

theorem NN8_of (K : List ℤ) (h : EG 0 K) : NN 8 K := by
  obtain ⟨hl, a0, a1, a2, a3, a4, a5, a6, a7⟩ := h
  refine ⟨hl, fun i => ?_⟩
  match i with
  | 0 => exact a0
  | 1 => exact a1
  | 2 => omega
  | 3 => exact a3
  | 4 => exact a4
  | 5 => exact a5
  | 6 => exact a6
  | 7 => exact a7
  | n + 8 => unfold ix; simp [List.getD_eq_getElem?_getD, List.getElem?_eq_none (show K.length ≤ n + 8 by omega)]

theorem decodeTerms_spec (e : Key × ℚ) (h : KOK e.1) :
    ∃ ts, decodeTerms e = .ok ts ∧ (∀ x ∈ ts, NN 8 x.1) ∧
      ∀ i : {i : Par × ℝ × ℝ // i.2.2 - i.2.1 ≠ 0},
        (ts.map fun x => x.2 • wZ i.1.1 i.1.2.1 i.1.2.2 x.1).sum =
          e.2 • aeval (kapZ i.1.1 i.1.2.1 i.1.2.2) (pvK e.1) := by
  obtain ⟨r, e1, c1, v1⟩ := decodeLoop_spec e.1.2 h.1 ⟨kf0, [([0, 0, 0, 0, 0, 0, 0, 0], 1)]⟩ rfl 0
    (by intro x hx; simp at hx; subst hx; simp [EG])
  rw [zero_add, ← h.2] at c1
  have hi : 0 ≤ e.1.1 := by rw [h.2]; exact msum_nonneg _ h.1
  refine ⟨_, by rw [decodeTerms, e1, ok_bind], ?_, ?_⟩
  · intro x hx
    obtain ⟨y, hy, rfl⟩ := List.mem_map.1 hx
    obtain ⟨k, v⟩ := y
    obtain ⟨hl, a0, a1, a2, a3, a4, a5, a6, a7⟩ := c1 _ hy
    simp only at hl a0 a1 a2 a3 a4 a5 a6 a7 ⊢
    apply NN8_of
    match k, hl with
    | [k0, k1, k2, k3, k4, k5, k6, k7], _ =>
      simp only [ix_cons_zero, ix_cons_succ] at *
      refine ⟨rfl, a0, a1, ?_, a3, ?_, a5, a6, a7⟩
      · show 0 ≤ k2 + e.1.1 + 0
        omega
      · show 0 ≤ k4 + e.1.1
        omega
  · rintro ⟨⟨p, s, t⟩, hst⟩
    dsimp only at hst ⊢
    have hv := v1 p s t hst
    have h0 : ev (wZ p s t) (⟨kf0, [([0, 0, 0, 0, 0, 0, 0, 0], 1)]⟩ : IPoly) = 1 := by
      simp [ev, wZ]
    rw [h0, one_mul] at hv
    rw [pvK, ← gv_eq, ← gv_kap p s t hst _ h.1, ← hv, ← h.2, List.map_map, ← ev_mul_const, ev, List.smul_sum,
      List.map_map]
    congr 1
    apply List.map_congr_left
    intro y hy
    obtain ⟨k, v⟩ := y
    obtain ⟨hl, a0, a1, a2, a3, a4, a5, a6, a7⟩ := c1 _ hy
    simp only at hl a0 a1 a2 a3 a4 a5 a6 a7 ⊢
    match k, hl with
    | [k0, k1, k2, k3, k4, k5, k6, k7], _ =>
      simp only [ix_cons_zero, ix_cons_succ] at *
      have hm : (([k0, k1, k2, k3, k4, k5, k6, k7] : List ℤ).modify 2 (· + e.1.1)).modify 4 (· + e.1.1) =
          [k0, k1, k2 + e.1.1, k3, k4 + e.1.1, k5, k6, k7] := rfl
      simp only [Function.comp, hm, wZ, ix_cons_zero, ix_cons_succ, Rat.smul_def]
      rw [zpow_add₀ hst, zpow_add_nn _ _ _ a4 hi]
      push_cast
      ring

theorem wZ_cont (p : Par) (s : ℝ) (K : List ℤ) (hK : NN 8 K) : Continuous fun t => wZ p s t K := by
  obtain ⟨m, hm⟩ := Int.eq_ofNat_of_zero_le (hK.2 2)
  unfold wZ
  simp only [hm, zpow_natCast]
  fun_prop

theorem kapZ_cont (p : Par) (s : ℝ) (n : N3) : Continuous fun t => kapZ p s t n := by
  unfold kapZ intE
  split <;> fun_prop

theorem aeval_cont (κ : ℝ → N3 → ℝ) (h : ∀ n, Continuous fun t => κ t n) (P : R3) :
    Continuous fun t => aeval (κ t) P := by
  induction P using MvPolynomial.induction_on with
  | C a => simpa using continuous_const
  | add p q hp hq => simp only [map_add]; exact hp.add hq
  | mul_X p n hp => simp only [map_mul, aeval_X]; exact hp.mul (h n)

theorem decode_spec (q : Poly Key) (hq : q.Keys KOK) : ∃ r, decode q = .ok r ∧ r.keyfor = kf0 ∧ r.WF ∧
    r.NoZero ∧ r.Keys (NN 8) ∧ ∀ (p : Par) (s t : ℝ), ev (wZ p s t) r = aeval (kapZ p s t) (ev pvK q) := by
  obtain ⟨r, e, k, w, c, v⟩ := subst_spec kf0 decodeTerms q (NN 8)
    (fun (i : {i : Par × ℝ × ℝ // i.2.2 - i.2.1 ≠ 0}) K => wZ i.1.1 i.1.2.1 i.1.2.2 K)
    (fun i K => aeval (kapZ i.1.1 i.1.2.1 i.1.2.2) (pvK K)) (fun e he => decodeTerms_spec e (hq e he))
  refine ⟨r.removeZero, by rw [decode, e, ok_bind], by simpa using k, removeZero_WF _ w, removeZero_NoZero _,
    removeZero_Keys _ _ c, fun p s => ?_⟩
  have hev : ∀ t, ev (fun K => aeval (kapZ p s t) (pvK K)) q = aeval (kapZ p s t) (ev pvK q) := by
    intro t
    unfold ev
    rw [map_list_sum, List.map_map]
    congr 1
    apply List.map_congr_left
    intro y _
    simp
  have c1 : Continuous fun t => ev (wZ p s t) r.removeZero := by
    simp only [ev_removeZero]
    unfold ev
    have : ∀ l : List (List ℤ × ℚ), (∀ x ∈ l, NN 8 x.1) →
        Continuous fun t => (l.map fun e => e.2 • wZ p s t e.1).sum := by
      intro l
      induction l with
      | nil => intro _; simpa using continuous_const
      | cons x l ih =>
        intro hx
        simp only [List.map_cons, List.sum_cons, Rat.smul_def]
        have := ih fun y hy => hx y (by simp [hy])
        simp only [Rat.smul_def] at this
        exact (continuous_const.mul (wZ_cont p s _ (hx x (by simp)))).add this
    exact this r.items c
  have c2 := aeval_cont (fun t => kapZ p s t) (fun n => kapZ_cont p s n) (ev pvK q)
  have := Continuous.ext_on (dense_compl_singleton s) c1 c2 (fun t ht => by
    have hts : t - s ≠ 0 := sub_ne_zero.2 (by simpa using ht)
    rw [ev_removeZero, ← hev t]
    exact v ⟨(p, s, t), hts⟩)
  exact fun t => congrFun this t

theorem aeval_units (κ : N3 → ℝ) : aeval κ (G 1 0 0) = κ (1, 0, 0) ∧ aeval κ (G 0 1 0) = κ (0, 1, 0) ∧
    aeval κ (G 0 0 1) = κ (0, 0, 1) := by
  have hu : ∀ e : N3, T e (G 0 0 0) = X e := fun e => by rw [G_zero, T_one, mul_one]
  refine ⟨?_, ?_, ?_⟩
  · rw [← G_one, hu, aeval_X]; rfl
  · rw [← G_two, hu, aeval_X]; rfl
  · rw [← G_three, hu, aeval_X]; rfl

theorem moment_spec (a b c : ℕ) : ∃ r, moment a b c = .ok r ∧ r.keyfor = kf0 ∧ r.WF ∧
    r.NoZero ∧ r.Keys (NN 8) ∧ ∀ (p : Par) (s t : ℝ), ev (wZ p s t) r = aeval (kapZ p s t) (G a b c) := by
  have hlit : ∀ k : List ℤ, k.length = 8 → (∀ x ∈ k, 0 ≤ x) → NN 8 k := by
    intro k hl hx
    refine ⟨hl, fun i => ?_⟩
    unfold ix
    by_cases hi : i < k.length
    · rw [List.getD_eq_getElem?_getD, List.getElem?_eq_getElem hi]; exact hx _ (List.getElem_mem hi)
    · rw [List.getD_eq_getElem?_getD, List.getElem?_eq_none (by omega)]; rfl
  unfold moment
  rw [if_neg (by omega)]
  by_cases h0 : (a : ℤ) = 0 ∧ (b : ℤ) = 0 ∧ (c : ℤ) = 0
  · rw [if_pos h0]
    obtain ⟨rfl, rfl, rfl⟩ : a = 0 ∧ b = 0 ∧ c = 0 := by omega
    refine ⟨_, rfl, rfl, by simp [WF], by simp [NoZero], ?_, fun p s t => ?_⟩
    · intro x hx; simp only [List.mem_singleton] at hx; subst hx; exact hlit _ rfl (by simp)
    · rw [G_zero, map_one]; simp [ev, wZ]
  rw [if_neg h0]
  by_cases h1 : (a : ℤ) = 1 ∧ (b : ℤ) = 0 ∧ (c : ℤ) = 0
  · rw [if_pos h1]
    obtain ⟨rfl, rfl, rfl⟩ : a = 1 ∧ b = 0 ∧ c = 0 := by omega
    refine ⟨_, rfl, rfl, by simp [WF], by simp [NoZero], ?_, fun p s t => ?_⟩
    · intro x hx
      simp only [List.mem_cons, List.not_mem_nil, or_false] at hx
      rcases hx with rfl | rfl <;> exact hlit _ rfl (by simp)
    · rw [(aeval_units _).1]
      simp [ev, wZ, kapZ, intE, gaussMom_zero]
      ring
  rw [if_neg h1]
  by_cases h2 : (a : ℤ) = 0 ∧ (b : ℤ) = 1 ∧ (c : ℤ) = 0
  · rw [if_pos h2]
    obtain ⟨rfl, rfl, rfl⟩ : a = 0 ∧ b = 1 ∧ c = 0 := by omega
    refine ⟨_, rfl, rfl, by simp [WF], by simp [NoZero], ?_, fun p s t => ?_⟩
    · intro x hx; simp only [List.mem_singleton] at hx; subst hx; exact hlit _ rfl (by simp)
    · rw [(aeval_units _).2.1]
      simp [ev, wZ, kapZ, intE, gaussMom_zero]
      ring
  rw [if_neg h2]
  by_cases h3 : (a : ℤ) = 0 ∧ (b : ℤ) = 0 ∧ (c : ℤ) = 1
  · rw [if_pos h3]
    obtain ⟨rfl, rfl, rfl⟩ : a = 0 ∧ b = 0 ∧ c = 1 := by omega
    refine ⟨_, rfl, rfl, by simp [WF], by simp [NoZero], ?_, fun p s t => ?_⟩
    · intro x hx; simp only [List.mem_singleton] at hx; subst hx; exact hlit _ rfl (by simp)
    · rw [(aeval_units _).2.2]
      simp [ev, wZ, kapZ, intE, gaussMom_one]
      ring
  rw [if_neg h3]
  obtain ⟨M, q, e1, e2, c1, v1⟩ := fill_spec a b c (by omega)
  obtain ⟨r, e3, k, w, z, c3, v3⟩ := decode_spec q c1
  exact ⟨r, by rw [e1, ok_bind, e2, ok_bind, e3], k, w, z, c3, fun p s t => by rw [v3, v1]⟩

/-- parameters for which the law is defined -/
structure Par.OK (p : Par) : Prop where
  k : p.k ≠ 0
  lmbd : 0 ≤ p.lmbd
  mu : 0 < p.mu_v

/-- the law with the parameters `p` -/
noncomputable abbrev Par.law (p : Par) (s t : ℝ) : Measure (ℝ × ℝ × ℝ) :=
  Ieziziz.law p.k p.lmbd p.mu_v p.mu_s p.sigma_s s t

theorem aeval_law {p : Par} (hp : p.OK) {s t : ℝ} (hst : s ≤ t) (a b c : ℕ) :
    aeval (kapZ p s t) (G a b c) = ∫ x, mon a b c x ∂(p.law s t) := by
  rcases hst.lt_or_eq with h | h
  · have hpr := jumpLaw_prob (k := p.k) (mu_s := p.mu_s) (sigma_s := p.sigma_s) hp.mu h
    have hE := jumpLaw_expMom (k := p.k) (mu_s := p.mu_s) (sigma_s := p.sigma_s) hp.mu h
    have hts : t - s ≠ 0 := by linarith
    refine G_unique _ (fun a b c => ∫ x, mon a b c x ∂(p.law s t)) (cmomZ_zero _) ?_ a b c
    intro a b c x y z h1
    have key := cmomZ_rec hE (p.lmbd * (t - s)).toNNReal a b c x y z h1
    have hk : ∀ i j l, kap (p.lmbd * (t - s)).toNNReal (jumpLaw p.k p.mu_v p.mu_s p.sigma_s s t) i j l =
        kapZ p s t (i, j, l) := by
      intro i j l
      rw [kap, jumpLaw_moment hp.mu h hp.k, Real.coe_toNNReal _ (mul_nonneg hp.lmbd (by linarith)), kapZ]
      field_simp
    simp only [hk] at key
    exact key
  · subst h
    rw [Par.law, law_diag, integral_dirac' _ _ (mon_meas a b c).stronglyMeasurable]
    by_cases h0 : a + b + c = 0
    · obtain ⟨rfl, rfl, rfl⟩ : a = 0 ∧ b = 0 ∧ c = 0 := by omega
      rw [G_zero, map_one]; simp [mon]
    · have hz : kapZ p s s = fun _ => 0 := by
        funext n; unfold kapZ intE; split <;> simp
      rw [hz, G_diag a b c h0]
      simp only [mon, Prod.fst_zero, Prod.snd_zero]
      rcases Nat.eq_zero_or_pos a with ha | ha
      · rcases Nat.eq_zero_or_pos b with hb | hb
        · rw [zero_pow (show c ≠ 0 by omega), mul_zero]
        · rw [zero_pow (show b ≠ 0 by omega), mul_zero, zero_mul]
      · rw [zero_pow (show a ≠ 0 by omega), zero_mul, zero_mul]

theorem law_prob {p : Par} (hp : p.OK) {s t : ℝ} (hst : s ≤ t) : IsProbabilityMeasure (p.law s t) := by
  rcases hst.lt_or_eq with h | h
  · have := jumpLaw_prob (k := p.k) (mu_s := p.mu_s) (sigma_s := p.sigma_s) hp.mu h
    exact Mecke.cppLaw_prob _
  · rw [Par.law, h, law_diag]; infer_instance

theorem law_int {p : Par} (hp : p.OK) {s t : ℝ} (hst : s ≤ t) (a b c : ℕ) :
    Integrable (mon a b c) (p.law s t) := by
  rcases hst.lt_or_eq with h | h
  · have hpr := jumpLaw_prob (k := p.k) (mu_s := p.mu_s) (sigma_s := p.sigma_s) hp.mu h
    exact mon_int_cpp (jumpLaw_expMom hp.mu h) _ _ _ _
  · rw [Par.law, h, law_diag]
    exact integrable_dirac' (mon_meas a b c).stronglyMeasurable (by simp)

theorem poly2num_eq (q : IPoly) (p : Par) (h : ℝ) : poly2num q p h = ev (wZ p 0 h) q := by
  unfold poly2num ev
  rw [List.sum_eq_foldl, List.foldl_map]
  congr 1
  funext f e
  rw [Rat.smul_def, wNum, wZ, zpow_neg]
  simp only [mul_zero, Real.exp_zero, sub_zero]
  ring

end Ajd.Ieziziz
