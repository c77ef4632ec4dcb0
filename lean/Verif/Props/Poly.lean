import Verif.Lemmas.PolyAlg
import Mathlib.Tactic.IntervalCases

/-! Properties C01-C07: the algebra of `Poly`. -/

namespace Ajd
open Poly

variable {K : Type} [DecidableEq K]

/-- concrete Polys used as witnesses -/
def exP : IPoly := { keyfor := ["e", "h"], items := [([1, 0], 1), ([0, 1], 1 / 2)] }
def exQ : IPoly := { keyfor := ["e", "h"], items := [([1, 0], -1), ([0, 2], 3)] }

/-! ### C01 addition -/

theorem C01_add (p q : Poly K) (hp : p.WF) (hq : q.WF) (hk : p.keyfor = q.keyfor) :
    ∃ r, p.add q = .ok r ∧ r.keyfor = p.keyfor ∧ r.WF ∧ r.NoZero ∧
      (∀ k, r.coeff k = p.coeff k + q.coeff k) ∧
      ∀ f : K → ℝ, ev f r = ev f p + ev f q := by
  obtain ⟨r, e, k, w, z, _, v⟩ := add_spec p q hk
  refine ⟨r, e, k, w hp, z, ?_, fun f => v f⟩
  intro k
  rw [coeff_eq_ev r (w hp), coeff_eq_ev p hp, coeff_eq_ev q hq, v]

/-- `p + q == q + p` as dicts. -/
theorem C01_add_comm (p q : Poly K) (hp : p.WF) (hq : q.WF) (hk : p.keyfor = q.keyfor) :
    ∃ r s, p.add q = .ok r ∧ q.add p = .ok s ∧ DictEq r s ∧ r.keyfor = s.keyfor := by
  obtain ⟨r, e, k, w, z, c, _⟩ := C01_add p q hp hq hk
  obtain ⟨s, e', k', w', z', c', _⟩ := C01_add q p hq hp hk.symm
  refine ⟨r, s, e, e', dictEq_of_coeff r s z z' ?_, by rw [k, k', hk]⟩
  intro k; rw [c, c', add_comm]

/-- `(p + q) + s == p + (q + s)` as dicts. -/
theorem C01_add_assoc (p q s : Poly K) (hp : p.WF) (hq : q.WF) (hs : s.WF)
    (hk : p.keyfor = q.keyfor) (hk' : q.keyfor = s.keyfor) :
    ∃ a b c d, p.add q = .ok a ∧ a.add s = .ok b ∧ q.add s = .ok c ∧ p.add c = .ok d ∧
      DictEq b d := by
  obtain ⟨a, ea, ka, wa, za, ca, _⟩ := C01_add p q hp hq hk
  obtain ⟨b, eb, kb, wb, zb, cb, _⟩ := C01_add a s wa hs (by rw [ka, hk, hk'])
  obtain ⟨c, ec, kc, wc, zc, cc, _⟩ := C01_add q s hq hs hk'
  obtain ⟨d, ed, kd, wd, zd, cd, _⟩ := C01_add p c hp wc (by rw [kc, hk])
  refine ⟨a, b, c, d, ea, eb, ec, ed, dictEq_of_coeff b d zb zd ?_⟩
  intro k; rw [cb, ca, cd, cc, add_assoc]

example : exP.WF ∧ exQ.WF ∧ exP.keyfor = exQ.keyfor ∧
    exP.add exQ = .ok ⟨["e", "h"],
      [([0, 1], 1 / 2), ([0, 2], 3)]⟩ := by
  refine ⟨by unfold WF; decide, by unfold WF; decide, rfl, by decide +kernel⟩

/-! ### C02 subtraction -/

theorem C02_sub (p q : Poly K) (hp : p.WF) (hq : q.WF) (hk : p.keyfor = q.keyfor) :
    ∃ r, p.sub q = .ok r ∧ r.keyfor = p.keyfor ∧ r.WF ∧ r.NoZero ∧
      (∀ k, r.coeff k = p.coeff k - q.coeff k) ∧
      ∀ f : K → ℝ, ev f r = ev f p - ev f q := by
  obtain ⟨r, e, k, w, z, _, v⟩ := sub_spec p q hk hq
  refine ⟨r, e, k, w hp, z, ?_, fun f => v f⟩
  intro k
  rw [coeff_eq_ev r (w hp), coeff_eq_ev p hp, coeff_eq_ev q hq, v]

/-- `p - p` is the empty Poly. -/
theorem C02_sub_self (p : Poly K) (hp : p.WF) :
    p.sub p = .ok { keyfor := p.keyfor, items := [] } := by
  obtain ⟨r, e, k, w, z, c, _⟩ := C02_sub p p hp hp rfl
  rw [e]
  have : r.items = [] := by
    cases hr : r.items with
    | nil => rfl
    | cons a t =>
      exfalso
      have h1 := dget_of_coeff r z a.1
      rw [c, sub_self, if_pos rfl, hr] at h1
      simp [dget] at h1
  cases r; simp_all

/-- `(p - q) + q == p` as dicts when `p` has no explicit zero entries. -/
theorem C02_sub_add_cancel (p q : Poly K) (hp : p.WF) (hq : q.WF) (hz : p.NoZero)
    (hk : p.keyfor = q.keyfor) :
    ∃ r s, p.sub q = .ok r ∧ r.add q = .ok s ∧ DictEq s p := by
  obtain ⟨r, e, k, w, z, c, _⟩ := C02_sub p q hp hq hk
  obtain ⟨s, e', k', w', z', c', _⟩ := C01_add r q w hq (k.trans hk)
  refine ⟨r, s, e, e', dictEq_of_coeff s p z' hz ?_⟩
  intro k; rw [c', c]; ring

example : exP.WF ∧ exQ.WF ∧ exP.NoZero ∧ exP.sub exQ = .ok ⟨["e", "h"],
      [([1, 0], 2), ([0, 1], 1 / 2), ([0, 2], -3)]⟩ := by
  refine ⟨by unfold WF; decide, by unfold WF; decide, by unfold NoZero; decide +kernel,
    by decide +kernel⟩

/-! ### C03 multiplication -/

/-- The product evaluates to the product, for every assignment of non-zero reals to the variables. -/
theorem C03_mul (p q : IPoly) (n : ℕ) (hk : p.keyfor = q.keyfor) (hp : p.Len n) (hq : q.Len n) :
    ∃ r, p.mul q = .ok r ∧ r.keyfor = p.keyfor ∧ r.WF ∧ r.NoZero ∧ r.Len n ∧
      ∀ x : ℕ → ℝ, (∀ i, x i ≠ 0) → ev (mono x) r = ev (mono x) p * ev (mono x) q := by
  obtain ⟨r, e, k, w, z, l, v⟩ := mul_spec p q hk n hp hq
  exact ⟨r, e, k, w, z, l, fun x hx => v _ (mono_isMul x hx n)⟩

/-- Coefficients of the product are the convolution of the coefficients. -/
theorem C03_mul_coeff (p q : IPoly) (n : ℕ) (hk : p.keyfor = q.keyfor) (hp : p.Len n)
    (hq : q.Len n) :
    ∃ r, p.mul q = .ok r ∧ ∀ k, r.coeff k =
      (p.items.map fun a => (q.items.map fun b =>
        if List.zipWith (· + ·) a.1 b.1 = k then a.2 * b.2 else 0).sum).sum := by
  refine ⟨_, mul_eq p q hk n hp hq, ?_⟩
  intro k
  rw [coeff_eq_ev _ (removeZero_WF _ (ofTerms_WF _ _)), ev_removeZero, ev_ofTerms, List.map_map]
  unfold pairs
  induction p.items with
  | nil => simp
  | cons a t ih =>
    simp only [List.flatMap_cons, List.map_append, List.sum_append, List.map_cons, List.sum_cons]
    rw [ih]
    congr 1
    rw [List.map_map]
    congr 1
    apply List.map_congr_left
    intro b _
    simp

theorem C03_mul_comm (p q : IPoly) (n : ℕ) (hk : p.keyfor = q.keyfor) (hp : p.Len n)
    (hq : q.Len n) : ∃ r s, p.mul q = .ok r ∧ q.mul p = .ok s ∧ DictEq r s := by
  obtain ⟨r, e, k, w, z, l, v⟩ := mul_spec p q hk n hp hq
  obtain ⟨s, e', k', w', z', l', v'⟩ := mul_spec q p hk.symm n hq hp
  refine ⟨r, s, e, e', dictEq_of_univ n r s w w' z z' l l' ?_⟩
  rw [v _ (univ_isMul n), v' _ (univ_isMul n), mul_comm]

theorem C03_mul_assoc (p q s : IPoly) (n : ℕ) (hk : p.keyfor = q.keyfor)
    (hk' : q.keyfor = s.keyfor) (hp : p.Len n) (hq : q.Len n) (hs : s.Len n) :
    ∃ a b c d, p.mul q = .ok a ∧ a.mul s = .ok b ∧ q.mul s = .ok c ∧ p.mul c = .ok d ∧
      DictEq b d := by
  obtain ⟨a, ea, ka, wa, za, la, va⟩ := mul_spec p q hk n hp hq
  obtain ⟨b, eb, kb, wb, zb, lb, vb⟩ := mul_spec a s (by rw [ka, hk, hk']) n la hs
  obtain ⟨c, ec, kc, wc, zc, lc, vc⟩ := mul_spec q s hk' n hq hs
  obtain ⟨d, ed, kd, wd, zd, ld, vd⟩ := mul_spec p c (by rw [kc, hk]) n hp lc
  refine ⟨a, b, c, d, ea, eb, ec, ed, dictEq_of_univ n b d wb wd zb zd lb ld ?_⟩
  rw [vb _ (univ_isMul n), va _ (univ_isMul n), vd _ (univ_isMul n), vc _ (univ_isMul n), mul_assoc]

theorem C03_mul_add (p q s : IPoly) (n : ℕ) (hk : p.keyfor = q.keyfor)
    (hk' : q.keyfor = s.keyfor) (hp : p.Len n) (hq : q.Len n) (hs : s.Len n) :
    ∃ a b c d e, q.add s = .ok a ∧ p.mul a = .ok b ∧ p.mul q = .ok c ∧ p.mul s = .ok d ∧
      c.add d = .ok e ∧ DictEq b e := by
  obtain ⟨a, ea, ka, wa, za, la, va⟩ := add_spec q s hk'
  obtain ⟨b, eb, kb, wb, zb, lb, vb⟩ := mul_spec p a (by rw [ka, hk]) n hp (la _ hq hs)
  obtain ⟨c, ec, kc, wc, zc, lc, vc⟩ := mul_spec p q hk n hp hq
  obtain ⟨d, ed, kd, wd, zd, ld, vd⟩ := mul_spec p s (hk.trans hk') n hp hs
  obtain ⟨e, ee, ke, we, ze, le, ve⟩ := add_spec c d (by rw [kc, kd])
  refine ⟨a, b, c, d, e, ea, eb, ec, ed, ee,
    dictEq_of_univ n b e wb (we wc) zb ze lb (le _ lc ld) ?_⟩
  rw [vb _ (univ_isMul n), va, ve, vc _ (univ_isMul n), vd _ (univ_isMul n), mul_add]

example : exP.Len 2 ∧ exQ.Len 2 ∧ exP.mul exQ = .ok ⟨["e", "h"],
      [([2, 0], -1), ([1, 2], 3), ([1, 1], -1 / 2), ([0, 3], 3 / 2)]⟩ := by
  refine ⟨?_, ?_, by decide +kernel⟩ <;> unfold Len Keys <;> decide

/-- A second operand with too short keys makes `*` raise `IndexError`, not return a wrong result. -/
theorem C03_mul_short (p q : IPoly) (hk : p.keyfor = q.keyfor) (a b : List ℤ × ℚ)
    (ha : a ∈ p.items) (hb : b ∈ q.items) (hab : b.1.length < a.1.length) :
    p.mul q = .error .indexError := by
  unfold mul
  rw [if_pos ((isExactType_iff p q).2 hk)]
  have : ((pairs p.items q.items).mapM fun t =>
      (keyAdd t.1.1 t.1.2).map fun k => (k, t.2)) = none := by
    have hm : ((a.1, b.1), a.2 * b.2) ∈ pairs p.items q.items :=
      (mem_pairs _ _ _).2 ⟨a, ha, b, hb, rfl⟩
    generalize pairs p.items q.items = l at hm
    induction l with
    | nil => simp at hm
    | cons c t ih =>
      rw [List.mapM_cons]
      rcases List.mem_cons.1 hm with h | h
      · subst h
        simp [keyAdd, hab]
      · rw [ih h]
        cases (keyAdd c.1.1 c.1.2) <;> simp
  rw [this]

example : exP.mul { keyfor := ["e", "h"], items := [([1], 1)] } = .error .indexError := by
  decide +kernel

/-! ### C04 scalar multiple and power -/

theorem C04_rmul (c : ℚ) (p : Poly K) (hp : p.WF) :
    (rmul c p).keyfor = p.keyfor ∧ (rmul c p).WF ∧ (rmul c p).NoZero ∧
      (∀ k, (rmul c p).coeff k = c * p.coeff k) ∧
      ∀ f : K → ℝ, ev f (rmul c p) = c * ev f p := by
  have w : (rmul c p).WF := removeZero_WF _ (ofTerms_WF _ _)
  refine ⟨by simp, w, removeZero_NoZero _, ?_, ?_⟩
  · intro k; rw [coeff_eq_ev _ w, coeff_eq_ev p hp, ev_rmul]; rfl
  · intro f; rw [ev_rmul, Algebra.smul_def]; rfl

theorem C04_rmul_zero (p : Poly K) : rmul 0 p = { keyfor := p.keyfor, items := [] } := by
  have h : ∀ x ∈ (ofTerms p.keyfor (p.items.map fun kv => (kv.1, kv.2 * 0))).items, x.2 = 0 := by
    have : ∀ (l : List (K × ℚ)) (acc : Poly K), (∀ x ∈ acc.items, x.2 = 0) →
        ∀ x ∈ (acc.addTerms (l.map fun kv => (kv.1, kv.2 * 0))).items, x.2 = 0 := by
      intro l
      induction l with
      | nil => intro acc h; exact h
      | cons a t ih =>
        intro acc h
        apply ih
        intro x hx
        simp only [addKeyval] at hx
        split at hx
        · rename_i w hw
          rcases mem_dset _ _ _ _ hx with rfl | hx
          · have := h _ (mem_of_dget _ _ _ hw); simp_all
          · exact h _ hx
        · rcases mem_dset _ _ _ _ hx with rfl | hx
          · simp
          · exact h _ hx
    exact this p.items _ (by simp)
  unfold rmul removeZero
  simp only [ofTerms_keyfor]
  congr 1
  rw [List.filter_eq_nil_iff]
  intro x hx
  simp [h x hx]

theorem C04_pow (p : IPoly) (n : ℕ) (hp : p.Len n) (m : ℕ) (hm : 1 ≤ m) :
    ∃ r, p.pow m = .ok r ∧ r.keyfor = p.keyfor ∧ (p.WF → r.WF) ∧ (2 ≤ m → r.NoZero) ∧ r.Len n ∧
      ∀ x : ℕ → ℝ, (∀ i, x i ≠ 0) → ev (mono x) r = ev (mono x) p ^ m := by
  have hm' : ¬ ((m : ℤ) ≤ 0) := by omega
  have e0 : p.pow m = powLoop p ((m : ℤ) - 1).toNat p := by unfold pow; rw [if_neg hm']
  obtain ⟨j, rfl⟩ : ∃ j, m = j + 1 := ⟨m - 1, by omega⟩
  have e1 : (((j + 1 : ℕ) : ℤ) - 1).toNat = j := by omega
  rw [e0, e1]
  obtain ⟨r, e, k, w, z, l, v⟩ := powLoop_spec p n hp j p rfl hp
  refine ⟨r, e, k, w, ?_, l, ?_⟩
  · intro h2
    obtain ⟨i, rfl⟩ : ∃ i, j = i + 1 := ⟨j - 1, by omega⟩
    obtain ⟨r1, e1, k1, w1, z1, l1, v1⟩ := mul_spec p p rfl n hp hp
    obtain ⟨r2, e2, k2, w2, z2, l2, v2⟩ := powLoop_spec p n hp i r1 k1 l1
    have : powLoop p (i + 1) p = .ok r2 := by simp only [powLoop, e1]; exact e2
    rw [this] at e
    injection e with e
    subst e
    exact z2 z1
  · intro x hx
    rw [v _ (mono_isMul x hx n), pow_succ]; ring

theorem C04_pow_nonpos (p : IPoly) (m : ℤ) (hm : m ≤ 0) : p.pow m = .error .notImplemented := by
  unfold pow; rw [if_pos hm]

example : exP.pow 2 = .ok ⟨["e", "h"],
      [([2, 0], 1), ([1, 1], 1), ([0, 2], 1 / 4)]⟩ := by decide +kernel

/-! ### C05 merge -/

theorem C05_merge_eq_add (p q : Poly K) : p.merge q = p.add q := rfl

/-- Merging a sequence gives the sum; the order of the sequence is irrelevant up to dict equality. -/
theorem C05_merge_seq (p : Poly K) (qs qs' : List (Poly K)) (hp : p.WF) (hz : p.NoZero)
    (hk : ∀ q ∈ qs, q.keyfor = p.keyfor) (hperm : qs.Perm qs') :
    ∃ r r', qs.foldlM (fun acc q => acc.merge q) p = .ok r ∧
      qs'.foldlM (fun acc q => acc.merge q) p = .ok r' ∧
      r.keyfor = p.keyfor ∧ r.WF ∧ r.NoZero ∧ DictEq r r' ∧
      ∀ f : K → ℝ, ev f r = ev f p + (qs.map (ev f)).sum := by
  obtain ⟨r, e, k, w, z, v⟩ := mergeAll_spec p qs hk
  obtain ⟨r', e', k', w', z', v'⟩ :=
    mergeAll_spec p qs' (fun q hq => hk q (hperm.mem_iff.2 hq))
  refine ⟨r, r', e, e', k, w hp, z hz, dictEq_of_coeff r r' (z hz) (z' hz) ?_, fun f => v f⟩
  intro k
  rw [coeff_eq_ev r (w hp), coeff_eq_ev r' (w' hp), v, v', (hperm.map _).sum_eq]

/-- Merging a Poly into itself doubles every coefficient. -/
theorem C05_merge_self (p : Poly K) (hp : p.WF) :
    ∃ r, p.merge p = .ok r ∧ ∀ k, r.coeff k = 2 * p.coeff k := by
  obtain ⟨r, e, k, w, z, _, v⟩ := merge_spec p p rfl
  refine ⟨r, e, ?_⟩
  intro k
  rw [coeff_eq_ev r (w hp), coeff_eq_ev p hp, v]; ring

example : exP.WF ∧ exP.NoZero ∧ (∀ q ∈ [exQ, exP], q.keyfor = exP.keyfor) ∧
    [exQ, exP].Perm [exP, exQ] := by
  refine ⟨by unfold WF; decide, by unfold NoZero; decide +kernel, by decide, List.Perm.swap _ _ _⟩

/-! ### C06 mul_poly -/

theorem C06_mulPoly (p q : IPoly) (n1 n2 : ℕ) (idx1 idx2 : List ℤ) (kf : List String)
    (hp : p.Len n1) (hq : q.Len n2) (hl : idx1.length = idx2.length) (x1 x2 y : ℕ → ℝ)
    (hy : ∀ i, y i ≠ 0)
    (hu1 : ∀ j < n1, ∃! i, i < idx1.length ∧ idx1.getD i (-1) = (j : ℤ))
    (hv1 : ∀ i < idx1.length, ∀ j < n1, idx1.getD i (-1) = (j : ℤ) → y i = x1 j)
    (hu2 : ∀ j < n2, ∃! i, i < idx2.length ∧ idx2.getD i (-1) = (j : ℤ))
    (hv2 : ∀ i < idx2.length, ∀ j < n2, idx2.getD i (-1) = (j : ℤ) → y i = x2 j) :
    ∃ r, p.mulPoly q idx1 idx2 kf = .ok r ∧ r.keyfor = kf ∧ r.WF ∧ r.NoZero ∧
      r.Len idx1.length ∧ ev (mono y) r = ev (mono x1) p * ev (mono x2) q := by
  refine ⟨_, if_pos (Or.inl hl.le), by simp, removeZero_WF _ (ofTerms_WF _ _),
    removeZero_NoZero _, ?_, ?_⟩
  · apply removeZero_Keys
    apply ofTerms_Keys
    intro x hx
    obtain ⟨t, _, rfl⟩ := List.mem_map.1 hx
    simp [hl]
  · rw [ev_removeZero, ev_ofTerms]
    unfold ev
    rw [← sum_pairs (mono x1) (mono x2), List.map_map]
    congr 1
    apply List.map_congr_left
    intro t ht
    obtain ⟨a, ha, b, hb, rfl⟩ := (mem_pairs _ _ _).1 ht
    simp only [Function.comp]
    rw [mono_zipWith_kv n1 n2 idx1 idx2 hl x1 x2 y hy a.1 b.1 (hp a ha) (hq b hb) hu1 hv1 hu2 hv2]

/-- The layout hypotheses are met, e.g. by two two-variable Polys sharing one variable. -/
example : exP.mulPoly exQ [0, 1, -1] [0, -1, 1] ["e", "h", "g"] = .ok ⟨["e", "h", "g"],
      [([2, 0, 0], -1), ([1, 0, 2], 3), ([1, 1, 0], -1 / 2), ([0, 1, 2], 3 / 2)]⟩ ∧
    (∀ j : ℕ, j < 2 → ∃! i, i < ([0, 1, -1] : List ℤ).length ∧ ([0, 1, -1] : List ℤ).getD i (-1) = (j : ℤ)) ∧
    (∀ j : ℕ, j < 2 → ∃! i, i < ([0, -1, 1] : List ℤ).length ∧
      ([0, -1, 1] : List ℤ).getD i (-1) = (j : ℤ)) := by
  refine ⟨by decide +kernel, ?_, ?_⟩
  · intro j hj
    interval_cases j
    · exact ⟨0, by simp, by rintro (_ | _ | _ | i) ⟨h1, h2⟩ <;> first | (simp at h1; omega) | simp_all⟩
    · exact ⟨1, by simp, by rintro (_ | _ | _ | i) ⟨h1, h2⟩ <;> first | (simp at h1; omega) | simp_all⟩
  · intro j hj
    interval_cases j
    · exact ⟨0, by simp, by rintro (_ | _ | _ | i) ⟨h1, h2⟩ <;> first | (simp at h1; omega) | simp_all⟩
    · exact ⟨2, by simp, by rintro (_ | _ | _ | i) ⟨h1, h2⟩ <;> first | (simp at h1; omega) | simp_all⟩

/-! ### C07 guards -/

theorem C07_add_guard (p q : Poly K) : p.add q = .error .notImplemented ↔ p.keyfor ≠ q.keyfor := by
  rw [← not_iff_not, not_not, ← isExactType_iff]
  unfold add
  split <;> simp_all

theorem C07_merge_guard (p q : Poly K) :
    p.merge q = .error .notImplemented ↔ p.keyfor ≠ q.keyfor := by
  rw [← not_iff_not, not_not, ← isExactType_iff]
  unfold merge
  split <;> simp_all

theorem C07_sub_guard (p q : Poly K) : p.sub q = .error .notImplemented ↔ p.keyfor ≠ q.keyfor := by
  rw [← not_iff_not, not_not, ← isExactType_iff]
  unfold sub
  split <;> simp_all

theorem C07_mul_guard (p q : IPoly) : p.mul q = .error .notImplemented ↔ p.keyfor ≠ q.keyfor := by
  rw [← not_iff_not, not_not, ← isExactType_iff]
  unfold mul
  split
  · split <;> simp_all
  · simp_all

example : exP.add { keyfor := ["e"], items := [] } = .error .notImplemented ∧
    exP.add { keyfor := ["e", "k"], items := [] } = .error .notImplemented := by decide +kernel

end Ajd
