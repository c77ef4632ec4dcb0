import Verif.Model.SrjdIez
import Verif.Lemmas.SrjdLaw
import Verif.Lemmas.Graded

/-! `moment_IEZ` and `cmoment_IEZ`. -/

namespace Ajd.Srjd
open Poly Cpp MeasureTheory ProbabilityTheory
open scoped NNReal

theorem NN_five (a b c d e : ℤ) (h0 : 0 ≤ a) (h1 : 0 ≤ b) (h2 : 0 ≤ c) (h3 : 0 ≤ d) (h4 : 0 ≤ e) :
    NN 5 [a, b, c, d, e] := by
  refine ⟨rfl, fun i => ?_⟩
  match i with
  | 0 => exact h0
  | 1 => exact h1
  | 2 => exact h2
  | 3 => exact h3
  | 4 => exact h4
  | n + 5 => simp

/-- keys while decoding: the power of `t-s` is `-c` -/
def EG (c : ℤ) (K : List ℤ) : Prop :=
  K.length = 5 ∧ 0 ≤ ix K 0 ∧ 0 ≤ ix K 1 ∧ ix K 2 = -c ∧ 0 ≤ ix K 3 ∧ 0 ≤ ix K 4

theorem EG_add : GAdd EG := by
  intro a b k1 k2 h1 h2
  have hl : k1.length = k2.length := by rw [h1.1, h2.1]
  refine ⟨by simp [h1.1, h2.1], ?_, ?_, ?_, ?_, ?_⟩ <;> rw [ix_zipWith _ _ hl]
  · have := h1.2.1; have := h2.2.1; omega
  · have := h1.2.2.1; have := h2.2.2.1; omega
  · have := h1.2.2.2.1; have := h2.2.2.2.1; omega
  · have := h1.2.2.2.2.1; have := h2.2.2.2.2.1; omega
  · have := h1.2.2.2.2.2; have := h2.2.2.2.2.2; omega

theorem EG_len (a : ℤ) (k : List ℤ) (h : EG a k) : k.length = 5 := h.1

theorem zpow_neg_add (x : ℝ) (a b : ℤ) (ha : 0 ≤ a) (hb : 0 ≤ b) :
    x ^ (-(a + b)) = x ^ (-a) * x ^ (-b) := by
  rw [zpow_neg, zpow_neg, zpow_neg, zpow_add_nn x a b ha hb, mul_inv]

/-- value of a key while decoding, with `t-s` replaced by 1 -/
noncomputable def vEJ (p : ZPar) (K : List ℤ) : ℝ :=
  Real.exp (ix K 0 * p.k * p.t) * Real.exp (ix K 1 * p.k * p.s) *
    (p.k ^ (-ix K 3) * p.mu_v ^ ix K 4)

theorem vEJ_mul (p : ZPar) : GMul EG (vEJ p) := by
  intro a b k1 k2 h1 h2
  have hl : k1.length = k2.length := by rw [h1.1, h2.1]
  unfold vEJ
  simp only [ix_zipWith _ _ hl]
  rw [zpow_neg_add _ _ _ h1.2.2.2.2.1 h2.2.2.2.2.1, zpow_add_nn _ _ _ h1.2.2.2.2.2 h2.2.2.2.2.2]
  push_cast
  rw [add_mul, add_mul, add_mul, add_mul, Real.exp_add, Real.exp_add]
  ring

/-- `(t-s)` times a moment of a jump -/
noncomputable def gEJ (p : ZPar) (n : ℕ) : ℝ :=
  (n - 1).factorial * p.mu_v ^ n * (Real.exp (n * p.k * p.t) - Real.exp (n * p.k * p.s)) / p.k

theorem momentEJ_spec (n : ℤ) (hn : 1 ≤ n) : ∃ r, momentEJ n = .ok r ∧ r.keyfor = kfEJ ∧
    r.Keys (EG 1) ∧ ∀ p, ev (vEJ p) r = gEJ p n.toNat := by
  refine ⟨_, by rw [momentEJ, if_neg (by omega), if_neg (by omega)], by simp, ofTerms_Keys _ _ _ ?_,
    fun p => ?_⟩
  · intro x hx
    simp only [List.mem_cons, List.not_mem_nil, or_false] at hx
    rcases hx with rfl | rfl
    · exact ⟨rfl, by simp; omega, by simp, by simp, by simp, by simp; omega⟩
    · exact ⟨rfl, by simp, by simp; omega, by simp, by simp, by simp; omega⟩
  · obtain ⟨m, rfl⟩ := Int.eq_ofNat_of_zero_le (show 0 ≤ n by omega)
    rw [ev_ofTerms]
    have : ((m : ℤ) - 1).toNat = m - 1 := by omega
    simp only [List.map_cons, List.map_nil, List.sum_cons, List.sum_nil, vEJ, ix_cons_zero, gEJ,
      ix_cons_succ, Rat.smul_def, Int.toNat_natCast, this, zpow_natCast, zpow_neg, zpow_one,
      Int.cast_natCast, Int.cast_zero, zero_mul, Real.exp_zero]
    push_cast
    ring

theorem decodeLoop_spec (ps : List (ℤ × ℤ)) (h : PairsOK ps) (acc : IPoly)
    (hk : acc.keyfor = kfEJ) (c : ℤ) (ha : acc.Keys (EG c)) :
    ∃ r, decodeLoop acc ps = .ok r ∧ r.Keys (EG (c + (ps.map Prod.snd).sum)) ∧
      ∀ p, ev (vEJ p) r = ev (vEJ p) acc * pv (gEJ p) ps := by
  induction ps generalizing acc c with
  | nil => exact ⟨acc, rfl, by simpa using ha, by simp⟩
  | cons x t ih =>
    obtain ⟨n, m⟩ := x
    have hnm := h (n, m) (by simp)
    simp only at hnm
    obtain ⟨q, e0, k0, c0, v0⟩ := momentEJ_spec n hnm.1
    obtain ⟨pw, e1, k1, c1, v1⟩ := gpow_on EG_add EG_len q 1 c0 m hnm.2
    obtain ⟨a, e2, k2, _, _, c2, v2⟩ := gmul_on EG_add EG_len acc pw (by rw [k1, hk, k0]) _ _ ha c1
    obtain ⟨r, e3, c3, v3⟩ := ih (fun p hp => h p (by simp [hp])) a (k2.trans hk) _ c2
    refine ⟨r, by rw [decodeLoop, e0, ok_bind, e1, ok_bind, e2, ok_bind, e3], ?_, ?_⟩
    · rw [mul_one, add_assoc] at c3
      simpa using c3
    · intro p
      rw [v3, v2 _ (vEJ_mul p), v1 _ (vEJ_mul p), v0, pv_cons]
      ring

/-- keys before `t-s` is dropped -/
def K6 (K : List ℤ) : Prop :=
  K.length = 6 ∧ 0 ≤ ix K 0 ∧ 0 ≤ ix K 1 ∧ ix K 2 = 0 ∧ 0 ≤ ix K 3 ∧ 0 ≤ ix K 4 ∧ 0 ≤ ix K 5

noncomputable def v6 (p : ZPar) (K : List ℤ) : ℝ :=
  Real.exp (ix K 0 * p.k * p.t) * Real.exp (ix K 1 * p.k * p.s) *
    (p.k ^ (-ix K 3) * p.lmbd ^ ix K 4 * p.mu_v ^ ix K 5)

theorem decodeTerms_spec (e : Cpp.Key × ℚ) (h : CKey e.1) (hb : Bal e.1) :
    ∃ ts, decodeTerms e = .ok ts ∧ (∀ t ∈ ts, K6 t.1) ∧ ∀ p : ZPar,
      (ts.map fun kv => kv.2 • v6 p kv.1).sum = e.2 • cI p.lmbd (gEJ p) e.1 := by
  obtain ⟨r, e1, c1, v1⟩ := decodeLoop_spec e.1.2 h.2.2 ⟨kfEJ, [([0, 0, 0, 0, 0], 1)]⟩ rfl 0
    (by intro x hx; simp at hx; subst hx; simp [EG])
  rw [zero_add, ← hb] at c1
  refine ⟨_, by rw [decodeTerms, e1, ok_bind], ?_, ?_⟩
  · intro t ht
    obtain ⟨y, hy, rfl⟩ := List.mem_map.1 ht
    have := c1 y hy
    exact ⟨rfl, this.2.1, this.2.2.1, by simp [this.2.2.2.1], this.2.2.2.2.1, h.1, this.2.2.2.2.2⟩
  · intro p
    have hv := v1 p
    have h0 : ev (vEJ p) (⟨kfEJ, [([0, 0, 0, 0, 0], 1)]⟩ : IPoly) = 1 := by
      simp [ev, vEJ]
    rw [h0, one_mul] at hv
    simp only [cI]
    rw [← hv, List.map_map, ← ev_mul_const, ev, Rat.smul_def, ← List.sum_map_mul_left]
    congr 1
    apply List.map_congr_left
    intro y hy
    simp only [Function.comp, Rat.smul_def, v6, vEJ, ix_cons_zero, ix_cons_succ]
    rw [← zpow_natCast, Int.toNat_of_nonneg h.1]
    push_cast
    ring

theorem dropTs_spec (q : IPoly) (hq : q.Keys K6) : ∃ r, dropTs q = .ok r ∧ r.keyfor = kfIEZ ∧ r.WF ∧
    r.Keys (NN 5) ∧ ∀ p, ev (wZ p) r = ev (v6 p) q := by
  refine ⟨_, by
    rw [dropTs, if_neg]
    simp only [List.any_eq_true, bne_iff_ne, ne_eq, not_exists, not_and, not_not]
    exact fun x hx => (hq x hx).2.2.2.1, by simp, ofTerms_WF _ _, ofTerms_Keys _ _ _ ?_, fun p => ?_⟩
  · intro x hx
    obtain ⟨y, hy, rfl⟩ := List.mem_map.1 hx
    obtain ⟨h, h0, h1, _, h3, h4, h5⟩ := hq y hy
    obtain ⟨k, v⟩ := y
    simp only at h h0 h1 h3 h4 h5 ⊢
    match k, h with
    | [a, b, c, d, e, f], _ => exact NN_five _ _ _ _ _ h0 h1 h3 h4 h5
  · refine ev_ofTerms_map _ _ _ _ _ fun y hy => ?_
    have h := (hq y hy).1
    obtain ⟨k, v⟩ := y
    simp only at h ⊢
    match k, h with
    | [a, b, c, d, e, f], _ => rfl

theorem decode_spec (q : Poly Cpp.Key) (hq : q.Keys CKey) (hb : q.Keys Bal) :
    ∃ r, decode q = .ok r ∧ r.keyfor = kfIEZ ∧ r.WF ∧ r.Keys (NN 5) ∧
      ∀ p, ev (wZ p) r = ev (cI p.lmbd (gEJ p)) q := by
  obtain ⟨tss, e1, hts⟩ := Utils.mapM_ok_rel decodeTerms
    (fun e ts => (∀ t ∈ ts, K6 t.1) ∧ ∀ p : ZPar, (ts.map fun kv => kv.2 • v6 p kv.1).sum =
        e.2 • cI p.lmbd (gEJ p) e.1) q.items
    (fun e he => decodeTerms_spec e (hq e he) (hb e he))
  obtain ⟨r, e2, k2, w2, c2, v2⟩ := dropTs_spec
    (Poly.ofTerms ["e^{kt}", "e^{ks}", "t-s", "k^{-}", "lmbd", "mu_v"] tss.flatten).removeZero (by
      refine removeZero_Keys _ _ (ofTerms_Keys _ _ _ ?_)
      intro t ht
      obtain ⟨ts, hm, ht⟩ := List.mem_flatten.1 ht
      obtain ⟨i, hi, rfl⟩ := List.getElem_of_mem hm
      exact (hts.get (i := i) (by rw [hts.length_eq]; exact hi) hi).1 t ht)
  refine ⟨r, by rw [decode, e1, ok_bind, e2], k2, w2, c2, fun p => ?_⟩
  rw [v2, ev_removeZero, ev_ofTerms]
  unfold ev
  clear e1 e2 v2 hq hb
  generalize q.items = l at hts
  induction hts with
  | nil => rfl
  | cons h _ ih =>
    rw [List.flatten_cons, List.map_append, List.sum_append, ih, h.2 p, List.map_cons,
      List.sum_cons]

theorem iezDeriv_eq (n : ℕ) : iezDeriv (n + 1) = cppDeriv (n + 1) := by
  induction n with
  | zero => rfl
  | succ n ih => rw [iezDeriv, cppDeriv, ih]

/-- parameters for which the law is defined -/
structure ZPar.OK (p : ZPar) : Prop where
  k : p.k ≠ 0
  lmbd : 0 ≤ p.lmbd
  mu : 0 < p.mu_v
  st : p.s ≤ p.t

/-- the law with the parameters `p` -/
noncomputable abbrev ZPar.law (p : ZPar) : Measure ℝ := iezLaw p.k p.lmbd p.mu_v p.s p.t

theorem law_prob {p : ZPar} (hp : p.OK) : IsProbabilityMeasure p.law := by
  rcases hp.st.lt_or_eq with h | h
  · have := jumpLaw_prob (k := p.k) hp.mu h
    exact cppLaw_prob _ _
  · rw [ZPar.law, h, iezLaw_diag]; infer_instance

theorem law_int {p : ZPar} (hp : p.OK) (n : ℕ) : Integrable (fun x : ℝ => x ^ n) p.law := by
  rcases hp.st.lt_or_eq with h | h
  · have := jumpLaw_prob (k := p.k) hp.mu h
    exact integrable_pow_of_mem_interior_integrableExpSet (X := fun x : ℝ => x)
      (expSet_cpp _ _ (jumpLaw_exp hp.mu h)) n
  · rw [ZPar.law, h, iezLaw_diag]; exact integrable_dirac (by simp)

theorem pv_congr (D D' : ℕ → ℝ) (ps : List (ℤ × ℤ)) (h : PairsOK ps)
    (hD : ∀ n, n ≠ 0 → D n = D' n) : pv D ps = pv D' ps := by
  unfold pv
  congr 1
  apply List.map_congr_left
  intro x hx
  rw [hD _ (by have := (h x hx).1; omega)]

theorem pv_div (D : ℕ → ℝ) (y : ℝ) (ps : List (ℤ × ℤ)) (h : PairsOK ps) :
    pv (fun n => D n / y) ps = pv D ps / y ^ ((ps.map Prod.snd).sum).toNat ∧
      0 ≤ (ps.map Prod.snd).sum := by
  induction ps with
  | nil => simp
  | cons x t ih =>
    obtain ⟨ih, h0⟩ := ih fun p hp => h p (by simp [hp])
    have := (h x (by simp)).2
    rw [List.map_cons, List.sum_cons, Int.toNat_add (by omega) h0, pv_cons, pv_cons, ih, pow_add, div_pow]
    exact ⟨by rw [div_mul_div_comm], by omega⟩

theorem cI_bal (p : ZPar) (x : ℝ) (hx : x ≠ 0) (k : Cpp.Key) (h : CKey k) (hb : Bal k) (D : ℕ → ℝ)
    (hD : ∀ n, n ≠ 0 → D n = gEJ p n / x) : cI (p.lmbd * x) D k = cI p.lmbd (gEJ p) k := by
  unfold cI
  rw [pv_congr _ _ _ h.2.2 hD, (pv_div (gEJ p) x k.2 h.2.2).1, ← hb, mul_pow]
  field_simp

theorem pv_zero (D : ℕ → ℝ) (ps : List (ℤ × ℤ)) (h : PairsOK ps) (hn : ps ≠ [])
    (hD : ∀ n, D n = 0) : pv D ps = 0 := by
  match ps, hn with
  | x :: t, _ =>
    have := (h x (by simp)).2
    rw [pv_cons, hD, zero_pow (by omega), zero_mul]

theorem decode_value (n : ℕ) : ∃ q r, cppDeriv n = .ok q ∧ decode q = .ok r ∧ r.keyfor = kfIEZ ∧ r.WF ∧
    r.Keys (NN 5) ∧ ∀ p : ZPar, p.OK → ev (wZ p) r = ∫ x, x ^ (n + 1) ∂p.law := by
  obtain ⟨q, e, c, b, v⟩ := cppDeriv_moment n
  obtain ⟨r, e1, k1, w1, c1, v1⟩ := decode_spec q c b
  refine ⟨q, r, e, e1, k1, w1, c1, fun p hp => ?_⟩
  rw [v1]
  rcases hp.st.lt_or_eq with h | h
  · have hx : p.t - p.s ≠ 0 := by linarith
    have := jumpLaw_prob (k := p.k) hp.mu h
    rw [ZPar.law, iezLaw, v _ _ (jumpLaw_exp hp.mu h),
      Real.coe_toNNReal _ (mul_nonneg hp.lmbd (by linarith))]
    refine ev_congr _ _ _ fun e he => ?_
    refine (cI_bal p _ hx e.1 (c e he) (b e he) _ fun m hm => ?_).symm
    exact jumpLaw_moment hp.mu h hp.k m hm
  · rw [ZPar.law, ← h, iezLaw_diag, integral_dirac, zero_pow (by omega)]
    have h0 : ∀ n, gEJ p n = 0 := by intro n; rw [gEJ, h]; simp
    unfold ev
    apply List.sum_eq_zero
    intro y hy
    obtain ⟨e, he, rfl⟩ := List.mem_map.1 hy
    rw [cI, pv_zero _ _ (c e he).2.2 (c e he).2.1 h0]
    simp

theorem momentIEZ_spec (n : ℕ) : ∃ r, momentIEZ n = .ok r ∧ r.keyfor = kfIEZ ∧ r.WF ∧
    r.Keys (NN 5) ∧ ∀ p : ZPar, p.OK → ev (wZ p) r = ∫ x, x ^ n ∂p.law := by
  match n with
  | 0 =>
    refine ⟨_, rfl, rfl, by simp [WF], ?_, fun p hp => ?_⟩
    · intro y hy; simp at hy; subst hy; exact NN_five _ _ _ _ _ le_rfl le_rfl le_rfl le_rfl le_rfl
    · have := law_prob hp
      simp [ev, wZ]
  | 1 =>
    obtain ⟨q, r, e1, e2, -, -, -, v⟩ := decode_value 0
    refine ⟨_, rfl, rfl, by simp [WF], ?_, fun p hp => ?_⟩
    · intro y hy
      simp only [List.mem_cons, List.not_mem_nil, or_false] at hy
      rcases hy with rfl | rfl
      · exact NN_five _ _ _ _ _ zero_le_one le_rfl zero_le_one zero_le_one zero_le_one
      · exact NN_five _ _ _ _ _ le_rfl zero_le_one zero_le_one zero_le_one zero_le_one
    · rw [← v p hp]
      have hd : decode ⟨["(lambda h)^{i} M^{(n_1)m_1}(s) ... M^{(n_l)m_l}(s)"], [((1, [(1, 1)]), 1)]⟩ =
        .ok ⟨kfIEZ, [([1, 0, 1, 1, 1], 1), ([0, 1, 1, 1, 1], -1)]⟩ := by decide +kernel
      cases e1
      rw [hd] at e2
      cases e2
      rfl
  | n + 2 =>
    obtain ⟨q, r, e1, e2, k, w, c, v⟩ := decode_value (n + 1)
    refine ⟨r, ?_, k, w, c, v⟩
    rw [momentIEZ, if_neg (by omega), if_neg (by omega), if_neg (by omega)]
    have : (((n + 2 : ℕ) : ℤ) - 1).toNat = n + 1 := by omega
    rw [this, iezDeriv_eq, e1, ok_bind, e2]

theorem wZ_mul (p : ZPar) : MulOn (NN 5) (wZ p) := by
  intro k1 k2 h1 h2
  have hl : k1.length = k2.length := by rw [h1.1, h2.1]
  unfold wZ
  simp only [ix_zipWith _ _ hl]
  rw [zpow_neg_add _ _ _ (h1.2 2) (h2.2 2), zpow_add_nn _ _ _ (h1.2 3) (h2.2 3),
    zpow_add_nn _ _ _ (h1.2 4) (h2.2 4)]
  push_cast
  rw [add_mul, add_mul, add_mul, add_mul, Real.exp_add, Real.exp_add]
  ring

theorem one_spec : (⟨kfIEZ, [([0, 0, 0, 0, 0], 1)]⟩ : IPoly).Keys (NN 5) ∧
    ∀ p, ev (wZ p) (⟨kfIEZ, [([0, 0, 0, 0, 0], 1)]⟩ : IPoly) = 1 := by
  refine ⟨?_, fun p => by simp [ev, wZ]⟩
  intro y hy
  simp at hy
  subst hy
  exact NN_five _ _ _ _ _ le_rfl le_rfl le_rfl le_rfl le_rfl

theorem cmomentTerm_spec (n i : ℕ) (hi : i ≤ n) (mean : IPoly) (hm : momentIEZ 1 = .ok mean) :
    ∃ r, cmomentTerm n mean i = .ok r ∧ r.keyfor = kfIEZ ∧ r.Keys (NN 5) ∧
    ∀ p : {p : ZPar // p.OK}, ev (wZ p.1) r =
      (-1) ^ i * n.choose i * ((∫ x, x ∂p.1.law) ^ i * ∫ x, x ^ (n - i) ∂p.1.law) := by
  obtain ⟨m1, e1, k1, -, c1, v1⟩ := momentIEZ_spec 1
  rw [Nat.cast_one, hm] at e1
  cases e1
  obtain ⟨q, e2, k2, -, c2, v2⟩ := momentIEZ_spec (n - i)
  rw [Nat.cast_sub hi] at e2
  have hpow : ∃ r, meanPow mean i = .ok r ∧ r.keyfor = kfIEZ ∧ r.Keys (NN 5) ∧
      ∀ p : ZPar, p.OK → ev (wZ p) r = (∫ x, x ∂p.law) ^ i := by
    by_cases h0 : i = 0
    · subst h0
      exact ⟨_, rfl, rfl, one_spec.1, fun p _ => by rw [one_spec.2, pow_zero]⟩
    · obtain ⟨r, e, k, c, v⟩ := pow_on mean 5 (NN 5) (addClosed_NN 5) (fun _ h => h.1) c1 i (by omega)
      refine ⟨r, by rw [meanPow, if_neg h0, e], k.trans k1, c, fun p hp => ?_⟩
      rw [v _ (wZ_mul p), v1 p hp]
      simp
  obtain ⟨r1, e3, k3, c3, v3⟩ := hpow
  obtain ⟨r, e, k, _, _, c, v⟩ := mul_on r1 q (by rw [k3, k2]) 5 (NN 5) (addClosed_NN 5)
    (fun _ h => h.1) c3 c2
  refine ⟨_, by rw [cmomentTerm, e3, ok_bind, e2, ok_bind, e, ok_bind]; rfl, by rw [rmul_keyfor, k, k3],
    (rmul_spec _ r _ c).2.2.2, fun p => ?_⟩
  rw [ev_rmul, v _ (wZ_mul p.1), v3 _ p.2, v2 _ p.2, Rat.smul_def]
  push_cast
  ring

theorem central_expand {p : ZPar} (hp : p.OK) (n : ℕ) (m : ℝ) :
    ∫ x, (x - m) ^ n ∂p.law =
      ∑ i ∈ Finset.range (n + 1), (-1) ^ i * n.choose i * (m ^ i * ∫ x, x ^ (n - i) ∂p.law) := by
  have : ∀ x : ℝ, (x - m) ^ n =
      ∑ i ∈ Finset.range (n + 1), (-1) ^ i * n.choose i * (m ^ i * x ^ (n - i)) := by
    intro x
    rw [show x - m = -m + x by ring, add_pow]
    refine Finset.sum_congr rfl fun i _ => ?_
    rw [neg_pow]; ring
  simp_rw [this]
  rw [integral_finsetSum _ fun i _ => ((law_int hp _).const_mul _).const_mul _]
  refine Finset.sum_congr rfl fun i _ => ?_
  rw [integral_const_mul, integral_const_mul]

theorem cmomentIEZ_spec (n : ℕ) : ∃ r, cmomentIEZ n = .ok r ∧ r.keyfor = kfIEZ ∧ r.WF ∧
    r.Keys (NN 5) ∧ ∀ p : ZPar, p.OK →
      ev (wZ p) r = ∫ x, (x - ∫ y, y ∂p.law) ^ n ∂p.law := by
  match n with
  | 0 =>
    refine ⟨_, rfl, rfl, by simp [WF], one_spec.1, fun p hp => ?_⟩
    have := law_prob hp
    rw [one_spec.2]; simp
  | 1 =>
    refine ⟨_, rfl, rfl, by simp [WF], ?_, fun p hp => ?_⟩
    · intro y hy
      simp at hy
      subst hy
      exact NN_five _ _ _ _ _ le_rfl le_rfl le_rfl le_rfl le_rfl
    · have := law_prob hp
      have hi := law_int hp 1
      simp only [pow_one] at hi
      simp only [pow_one]
      rw [integral_sub hi (integrable_const _), integral_const]
      simp [ev]
  | n + 2 =>
    obtain ⟨mean, e1, k1, -, c1, v1⟩ := momentIEZ_spec 1
    rw [Nat.cast_one] at e1
    obtain ⟨r, e, k, w, -, c, v⟩ := mergeLoop_spec (cmomentTerm (n + 2) mean)
      (List.range (n + 2 + 1)) ⟨kfIEZ, []⟩ (NN 5) (fun p : {p : ZPar // p.OK} => wZ p.1)
      (fun p i => (-1) ^ i * (n + 2).choose i *
        ((∫ x, x ∂p.1.law) ^ i * ∫ x, x ^ (n + 2 - i) ∂p.1.law))
      (by intro y hy; simp at hy)
      (fun i hi => cmomentTerm_spec (n + 2) i (by rw [List.mem_range] at hi; omega) mean e1)
    refine ⟨r, ?_, k, w (by simp [WF]), c, fun p hp => ?_⟩
    · rw [cmomentIEZ, if_neg (by omega), if_neg (by omega), if_neg (by omega), e1, ok_bind,
        Int.toNat_natCast, e]
    · rw [v ⟨p, hp⟩, list_range_sum', central_expand hp]
      simp [ev]

theorem poly2num_eq (q : IPoly) (p : ZPar) : poly2num q p = ev (wZ p) q := by
  unfold poly2num ev
  rw [List.sum_eq_foldl, List.foldl_map]
  congr 1
  funext f e
  rw [Rat.smul_def, mul_comm]

end Ajd.Srjd
