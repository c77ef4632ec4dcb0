import Verif.Model.SrjdCond
import Verif.Lemmas.SrjdFun

/-! `moment_x`, `moment_v`, `cmoment_x`, `cmoment_v`. -/

namespace Ajd
open Poly

theorem Poly.addLoop_spec {K α ι : Type} [DecidableEq K] {M : Type} [AddCommMonoid M] [Module ℚ M]
    (kf : List String) (f : α → Except PyErr (List (K × ℚ))) (L : List α) (P : K → Prop)
    (φ : ι → K → M) (F : ι → α → M)
    (h : ∀ a ∈ L, ∃ ts, f a = .ok ts ∧ (∀ x ∈ ts, P x.1) ∧
      ∀ i, (ts.map fun x => x.2 • φ i x.1).sum = F i a) :
    ∃ r, Srjd.addLoop kf f L = .ok r ∧ r.keyfor = kf ∧ r.WF ∧ r.Keys P ∧
      ∀ i, ev (φ i) r = (L.map (F i)).sum := by
  obtain ⟨tss, e, hrel⟩ := Utils.mapM_ok_rel f (fun a ts => (∀ x ∈ ts, P x.1) ∧
      ∀ i, (ts.map fun x => x.2 • φ i x.1).sum = F i a) L h
  refine ⟨ofTerms kf tss.flatten, ?_, ofTerms_keyfor _ _, ofTerms_WF _ _, ?_, fun i => ?_⟩
  · rw [Srjd.addLoop, e]; rfl
  · apply ofTerms_Keys
    intro x hx
    obtain ⟨l, hl, hx'⟩ := List.mem_flatten.1 hx
    clear e h hx
    induction hrel with
    | nil => simp at hl
    | cons hd _ ih =>
      rcases List.mem_cons.1 hl with rfl | hl
      · exact hd.1 x hx'
      · exact ih hl
  · rw [ev_ofTerms, flatten_sum]
    clear e h
    induction hrel with
    | nil => rfl
    | cons hd _ ih => rw [List.map_cons, List.sum_cons, List.map_cons, List.sum_cons, ih, hd.2 i]

namespace Srjd
open MvPolynomial

theorem sum_pyRange {M : Type} [AddCommMonoid M] (n : ℕ) (F : ℤ → M) :
    ((pyRange 0 ((n : ℤ) + 1)).map F).sum = ∑ i ∈ Finset.range (n + 1), F i := by
  rw [pyRange, List.map_map, show ((n : ℤ) + 1 - 0).toNat = n + 1 by omega, ← list_range_sum']
  simp [Function.comp_def]

theorem sum_idx2 {M : Type} [AddCommMonoid M] (n : ℕ) (F : ℤ × ℤ → M) : ((idx2 n).map F).sum =
    ∑ i ∈ Finset.range (n + 1), ∑ j ∈ Finset.range (n - i + 1), F (i, j) := by
  have h : ((idx2 n).map F).sum =
      ((pyRange 0 ((n : ℤ) + 1)).map fun i => ((pyRange 0 (n - i + 1)).map fun j => F (i, j)).sum).sum := by
    rw [idx2, sum_flatMap]
    simp only [List.map_map, Function.comp_def]
  rw [h, sum_pyRange]
  refine Finset.sum_congr rfl fun i hi => ?_
  rw [Finset.mem_range] at hi
  rw [← Nat.cast_sub (by omega), sum_pyRange (n - i) fun j => F (i, j)]

theorem mem_idx2 (n : ℕ) (ij : ℤ × ℤ) (h : ij ∈ idx2 n) :
    ∃ i j : ℕ, ij = ((i : ℤ), (j : ℤ)) ∧ i + j ≤ n := by
  simp only [idx2, List.mem_flatMap, List.mem_map, mem_pyRange] at h
  obtain ⟨a, ha, b, hb, rfl⟩ := h
  exact ⟨a.toNat, b.toNat, by ext <;> simp <;> omega, by omega⟩

theorem combZ_eq (n i : ℕ) : combZ n i = (n.choose i : ℚ) := by simp [combZ]

/-- seven components, all but the first non-negative -/
def K7 (K : List ℤ) : Prop := K.length = 7 ∧ ∀ i, 1 ≤ i → 0 ≤ ix K i

theorem K7_of {K : List ℤ} (h : NN 7 K) : K7 K := ⟨h.1, fun i _ => h.2 i⟩

theorem K7_mk (a b c d e f g : ℤ) (h1 : 0 ≤ b) (h2 : 0 ≤ c) (h3 : 0 ≤ d) (h4 : 0 ≤ e) (h5 : 0 ≤ f)
    (h6 : 0 ≤ g) : K7 [a, b, c, d, e, f, g] := by
  refine ⟨rfl, fun i hi => ?_⟩
  match i with
  | 1 => exact h1
  | 2 => exact h2
  | 3 => exact h3
  | 4 => exact h4
  | 5 => exact h5
  | 6 => exact h6
  | n + 7 => simp [ix]

theorem vIat_shift (p : Par) (hk : p.k ≠ 0) (a b t : ℝ) (K : List ℤ) (hK : K7 K)
    (s0 s1 s2 s3 s4 s5 s6 : ℤ) (h2 : 0 ≤ s2) (h3 : 0 ≤ s3) (h4 : 0 ≤ s4) (h5 : 0 ≤ s5) (h6 : 0 ≤ s6) :
    vIat p a b t [ix K 0 + s0, ix K 1 + s1, ix K 2 + s2, ix K 3 + s3, ix K 4 + s4, ix K 5 + s5, ix K 6 + s6] =
      vIat p a b t K * vIat p a b t [s0, s1, s2, s3, s4, s5, s6] := by
  simp only [vIat, ix_cons_zero, ix_cons_succ]
  rw [zpow_add_nn _ _ _ (hK.2 2 (by norm_num)) h2, zpow_add_nn _ _ _ (hK.2 3 (by norm_num)) h3,
    zpow_add_nn _ _ _ (hK.2 4 (by norm_num)) h4, zpow_add_nn _ _ _ (hK.2 5 (by norm_num)) h5,
    zpow_add_nn _ _ _ (hK.2 6 (by norm_num)) h6, neg_add, zpow_add₀ hk]
  push_cast
  rw [add_mul, add_mul, Real.exp_add]
  ring

/-- the expectation at `i` -/
noncomputable abbrev At.E (Z : ZFun) (i : At) : P2v →ₗ[ℝ] ℝ := Ex fun m n => jm Z i.p i.a i.b m n i.t

/-- entries shifted and scaled -/
theorem shift_terms (q : IPoly) (hq : q.Keys K7) (c : ℚ) (s0 s1 s2 s3 s4 s5 s6 : ℤ) (h1 : 0 ≤ s1)
    (h2 : 0 ≤ s2) (h3 : 0 ≤ s3) (h4 : 0 ≤ s4) (h5 : 0 ≤ s5) (h6 : 0 ≤ s6)
    (g : List ℤ × ℚ → List ℤ × ℚ) (hg : ∀ e, g e = ([ix e.1 0 + s0, ix e.1 1 + s1, ix e.1 2 + s2,
      ix e.1 3 + s3, ix e.1 4 + s4, ix e.1 5 + s5, ix e.1 6 + s6], c * e.2)) :
    (∀ x ∈ q.items.map g, K7 x.1) ∧ ∀ i : At, ((q.items.map g).map fun x => x.2 • i.v x.1).sum =
      c * vIat i.p i.a i.b i.t [s0, s1, s2, s3, s4, s5, s6] * ev i.v q := by
  constructor
  · intro x hx
    obtain ⟨e, he, rfl⟩ := List.mem_map.1 hx
    rw [hg]
    have := (hq e he).2
    exact K7_mk _ _ _ _ _ _ _ (add_nonneg (this 1 (by norm_num)) h1) (add_nonneg (this 2 (by norm_num)) h2)
      (add_nonneg (this 3 (by norm_num)) h3) (add_nonneg (this 4 (by norm_num)) h4)
      (add_nonneg (this 5 (by norm_num)) h5) (add_nonneg (this 6 (by norm_num)) h6)
  · intro i
    rw [ev, ← List.sum_map_mul_left, List.map_map]
    congr 1
    refine List.map_congr_left fun e he => ?_
    rw [Function.comp, hg, At.v, vIat_shift i.p i.hp.k _ _ _ _ (hq e he) _ _ _ _ _ _ _ h2 h3 h4 h5 h6,
      Rat.smul_def, Rat.smul_def]
    push_cast
    ring

/-! ### the four functions -/

theorem E_pow_xi (Z : ZFun) (i : At) (n : ℕ) : i.E Z (xi i.p ^ n) =
    ∑ m ∈ Finset.range (n + 1), n.choose m * i.p.sigma ^ m * jm Z i.p i.a i.b m (n - m) i.t := by
  rw [xi, add_pow, map_sum]
  refine Finset.sum_congr rfl fun m _ => ?_
  have : ((C i.p.sigma * X 0) ^ m * X 1 ^ (n - m) * (n.choose m : P2v) : P2v) =
      C (n.choose m * i.p.sigma ^ m) * (X 0 ^ m * X 1 ^ (n - m)) := by
    simp only [map_mul, map_pow, map_natCast]; ring
  rw [this, Ex_C_mul, Ex_xz]

theorem momentX_spec (d n : ℕ) (hd : n ≤ d) (h2 : 2 ≤ d) : ∃ r, momentX d n = .ok r ∧ r.keyfor = kfV ∧
    r.WF ∧ r.Keys (NN 7) ∧ ∀ i : At, ev i.v r = i.E rawZ (xi i.p ^ n) := by
  obtain ⟨r, e, k, w, c, v⟩ := addLoop_spec kfV (momentXTerms d n) (pyRange 0 ((n : ℤ) + 1)) (NN 7)
    (fun i : At => i.v) (fun i m => n.choose m.toNat * i.p.sigma ^ m.toNat *
      jm rawZ i.p i.a i.b m.toNat (n - m.toNat) i.t) (by
    intro m hm
    rw [mem_pyRange] at hm
    obtain ⟨m, rfl⟩ : ∃ x : ℕ, m = x := ⟨m.toNat, by omega⟩
    obtain ⟨q, e, -, g1, g2', g3⟩ := momentJoint_spec rawCfg_ok d m (n - m) (by omega) h2
    have g2 : q.Keys (NN 7) := fun x hx => (g2' x hx).1
    obtain ⟨-, v⟩ := shift_terms q (fun e he => K7_of (g2 e he)) (combZ n m) 0 0 0 0 m 0 0 le_rfl le_rfl le_rfl
      (by omega) le_rfl le_rfl (fun e => ([ix e.1 0, ix e.1 1, ix e.1 2, ix e.1 3, ix e.1 4 + m,
        ix e.1 5, ix e.1 6], combZ n m * e.2)) (fun e => by simp)
    refine ⟨_, by rw [momentXTerms, ← Nat.cast_sub (by omega), e]; rfl, ?_, fun i => ?_⟩
    · intro x hx
      obtain ⟨e, he, rfl⟩ := List.mem_map.1 hx
      have := (g2 e he).2
      exact NN_seven _ _ _ _ _ _ _ (this 0) (this 1) (this 2) (this 3)
        (add_nonneg (this 4) (by omega)) (this 5) (this 6)
    · rw [v i, g3 i.p i.hp _ _ _ i.ht, combZ_eq, Int.toNat_natCast]
      simp [vIat])
  refine ⟨r.removeZero, by rw [momentX, e]; rfl, by rw [removeZero_keyfor, k], removeZero_WF _ w,
    removeZero_Keys _ _ c, fun i => ?_⟩
  rw [ev_removeZero, v i, sum_pyRange, E_pow_xi]
  simp

/-- `(a + b + c)^n` -/
theorem trinom {R : Type} [CommRing R] (a b c : R) (n : ℕ) : (a + (b + c)) ^ n =
    ∑ i ∈ Finset.range (n + 1), ∑ j ∈ Finset.range (n - i + 1),
      (n.choose i : R) * ((n - i).choose j : R) * (a ^ i * b ^ j * c ^ (n - i - j)) := by
  rw [add_pow]
  refine Finset.sum_congr rfl fun i _ => ?_
  rw [add_pow, Finset.mul_sum, Finset.sum_mul]
  refine Finset.sum_congr rfl fun j _ => ?_
  ring

theorem momentV_spec (d n : ℕ) (hd : n ≤ d) (h2 : 2 ≤ d) : ∃ r, momentV d n = .ok r ∧ r.keyfor = kfV ∧
    r.WF ∧ r.Keys K7 ∧ ∀ i : At, ev i.v r = U rawZ i.p i.a i.b i.b n i.t := by
  obtain ⟨r, e, k, w, c, v⟩ := addLoop_spec kfV (momentVTerms d n) (idx2 n) K7
    (fun i : At => i.v) (fun i m => n.choose m.1.toNat * (n - m.1.toNat).choose m.2.toNat *
      vIat i.p i.a i.b i.t [-(n - m.2), 0, m.1, m.2, 0, 0, 0] *
        i.E rawZ (xi i.p ^ (n - m.1.toNat - m.2.toNat))) (by
    intro m hm
    obtain ⟨x, y, rfl, hxy⟩ := mem_idx2 n m hm
    obtain ⟨q, e, -, -, g2, g3⟩ := momentX_spec d (n - x - y) (by omega) h2
    obtain ⟨c, v⟩ := shift_terms q (fun e he => K7_of (g2 e he)) (combZ n x * combZ (n - x) y)
      (-(n - y)) 0 x y 0 0 0 le_rfl (by omega) (by omega)
      le_rfl le_rfl le_rfl (fun e => ([ix e.1 0 - (n - y), ix e.1 1, ix e.1 2 + x, ix e.1 3 + y, ix e.1 4,
        ix e.1 5, ix e.1 6], combZ n x * combZ (n - x) y * e.2)) (fun e => by simp; ring)
    refine ⟨_, by
      rw [momentVTerms]
      dsimp only
      rw [← Nat.cast_sub (by omega), ← Nat.cast_sub (by omega), e]; rfl, ?_, fun i => ?_⟩
    · rw [Nat.cast_sub (by omega)]; exact c
    · rw [Nat.cast_sub (by omega)]
      refine (v i).trans ?_
      rw [← Nat.cast_sub (by omega), combZ_eq, combZ_eq, g3 i, Int.toNat_natCast, Int.toNat_natCast]
      push_cast
      rfl)
  refine ⟨r.removeZero, by rw [momentV, e]; rfl, by rw [removeZero_keyfor, k], removeZero_WF _ w,
    removeZero_Keys _ _ c, fun i => ?_⟩
  rw [ev_removeZero, v i, sum_idx2, U, Wt]
  have hW : (C (i.b + i.a * Real.exp (-(i.p.k * i.t))) + C (Real.exp (-(i.p.k * i.t))) * xi i.p : P2v) =
      C (i.a * Real.exp (-(i.p.k * i.t))) + (C i.b + C (Real.exp (-(i.p.k * i.t))) * xi i.p) := by
    rw [map_add]; ring
  rw [hW, trinom, map_sum]
  refine Finset.sum_congr rfl fun x hx => ?_
  rw [map_sum]
  refine Finset.sum_congr rfl fun y hy => ?_
  rw [Finset.mem_range] at hx hy
  set E := Real.exp (-(i.p.k * i.t)) with hE
  have h1 : ((n.choose x : P2v) * ((n - x).choose y : P2v) * (C (i.a * E) ^ x * C i.b ^ y *
      (C E * xi i.p) ^ (n - x - y)) : P2v) = C ((n.choose x * (n - x).choose y : ℝ) *
        (i.a ^ x * i.b ^ y * E ^ (n - y))) * xi i.p ^ (n - x - y) := by
    rw [show n - y = x + (n - x - y) by omega, pow_add]
    simp only [map_mul, map_pow, map_natCast]; ring
  rw [h1, Ex_C_mul]
  simp only [Int.toNat_natCast, vIat, ix_cons_zero, ix_cons_succ, neg_zero, zpow_zero, mul_one,
    zpow_natCast]
  have h3 : Real.exp (((-((n : ℤ) - (y : ℤ)) : ℤ) : ℝ) * i.p.k * i.t) = E ^ (n - y) := by
    rw [hE, ← Real.exp_nat_mul, Nat.cast_sub (by omega)]
    congr 1; push_cast; ring
  rw [h3]
  ring

/-- the mean of `σ IE_t + IEZ_t` -/
noncomputable def mx (p : Par) (t : ℝ) : ℝ := p.lmbd * p.mu_v * (Real.exp (p.k * t) - 1) * p.k⁻¹

theorem cmomentX_spec (d n : ℕ) (hd : n ≤ d) (h2 : 2 ≤ d) : ∃ r, cmomentX d n = .ok r ∧
    r.keyfor = kfV ∧ r.WF ∧ r.Keys K7 ∧
    ∀ i : At, ev i.v r = i.E rawZ ((xi i.p - C (mx i.p i.t)) ^ n) := by
  obtain ⟨r, e, k, w, c, v⟩ := addLoop_spec kfV (cmomentXTerms d n) (idx2 n) K7
    (fun i : At => i.v) (fun i m => n.choose m.1.toNat * (n - m.1.toNat).choose m.2.toNat *
      (-1) ^ m.2.toNat * vIat i.p i.a i.b i.t [m.2, n - m.1, 0, 0, 0, n - m.1, n - m.1] *
        i.E rawZ (xi i.p ^ m.1.toNat)) (by
    intro m hm
    obtain ⟨x, y, rfl, hxy⟩ := mem_idx2 n m hm
    obtain ⟨q, e, -, -, g2, g3⟩ := momentX_spec d x (by omega) h2
    obtain ⟨c, v⟩ := shift_terms q (fun e he => K7_of (g2 e he)) (combZ n x * combZ (n - x) y * (-1) ^ (y : ℤ))
      y (n - x) 0 0 0 (n - x) (n - x) (by omega) le_rfl le_rfl le_rfl (by omega) (by omega)
      (fun e => ([ix e.1 0 + y, ix e.1 1 + (n - x), ix e.1 2, ix e.1 3, ix e.1 4,
        ix e.1 5 + (n - x), ix e.1 6 + (n - x)], combZ n x * combZ (n - x) y * e.2 * (-1) ^ (y : ℤ)))
      (fun e => by simp; ring)
    refine ⟨_, by
      rw [cmomentXTerms]
      dsimp only
      rw [e]; rfl, c, fun i => ?_⟩
    refine (v i).trans ?_
    rw [← Nat.cast_sub (by omega), combZ_eq, combZ_eq, g3 i, Int.toNat_natCast, Int.toNat_natCast,
      zpow_natCast]
    push_cast [show x ≤ n by omega]
    rfl)
  refine ⟨r.removeZero, by rw [cmomentX, e]; rfl, by rw [removeZero_keyfor, k], removeZero_WF _ w,
    removeZero_Keys _ _ c, fun i => ?_⟩
  rw [ev_removeZero, v i, sum_idx2]
  set E := Real.exp (i.p.k * i.t) with hE
  set g := i.p.lmbd * i.p.mu_v * i.p.k⁻¹ with hg
  have hW : (xi i.p - C (mx i.p i.t) : P2v) = xi i.p + (C (-(E * g)) + C g) := by
    rw [← map_add, sub_eq_add_neg, ← map_neg, mx]
    congr 2
    rw [hg, hE]; ring
  rw [hW, trinom, map_sum]
  refine Finset.sum_congr rfl fun x hx => ?_
  rw [map_sum]
  refine Finset.sum_congr rfl fun y hy => ?_
  rw [Finset.mem_range] at hx hy
  have h1 : ((n.choose x : P2v) * ((n - x).choose y : P2v) * (xi i.p ^ x * C (-(E * g)) ^ y *
      C g ^ (n - x - y)) : P2v) = C ((n.choose x * (n - x).choose y : ℝ) *
        ((-1) ^ y * E ^ y * g ^ (n - x))) * xi i.p ^ x := by
    rw [show n - x = y + (n - x - y) by omega, pow_add, neg_eq_neg_one_mul, Nat.add_sub_cancel_left]
    simp only [map_mul, map_pow, map_natCast]; ring
  rw [h1, Ex_C_mul]
  simp only [Int.toNat_natCast, vIat, ix_cons_zero, ix_cons_succ, zpow_zero, mul_one]
  rw [← Nat.cast_sub (by omega : x ≤ n), zpow_neg, zpow_natCast, zpow_natCast, zpow_natCast]
  have h3 : Real.exp ((((y : ℤ)) : ℝ) * i.p.k * i.t) = E ^ y := by
    rw [hE, ← Real.exp_nat_mul]
    congr 1; push_cast; ring
  rw [h3, hg, mul_pow, mul_pow, inv_pow]
  ring

theorem cmomentV_spec (d n : ℕ) (hd : n ≤ d) (h2 : 2 ≤ d) : ∃ r, cmomentV d n = .ok r ∧
    r.keyfor = kfV ∧ r.WF ∧ r.Keys K7 ∧ ∀ i : At, ev i.v r =
      i.E rawZ ((C (Real.exp (-(i.p.k * i.t))) * (xi i.p - C (mx i.p i.t))) ^ n) := by
  obtain ⟨r, e, k, w, c, v⟩ := addLoop_spec kfV (cmomentVTerms d n) (idx2 n) K7
    (fun i : At => i.v) (fun i m => n.choose m.1.toNat * (n - m.1.toNat).choose m.2.toNat *
      (-1) ^ (n - m.1.toNat - m.2.toNat) *
        vIat i.p i.a i.b i.t [-(m.1 + m.2), n - m.1, 0, 0, 0, n - m.1, n - m.1] *
        i.E rawZ (xi i.p ^ m.1.toNat)) (by
    intro m hm
    obtain ⟨x, y, rfl, hxy⟩ := mem_idx2 n m hm
    obtain ⟨q, e, -, -, g2, g3⟩ := momentX_spec d x (by omega) h2
    obtain ⟨c, v⟩ := shift_terms q (fun e he => K7_of (g2 e he))
      (combZ n x * combZ (n - x) y * (-1) ^ ((n : ℤ) - x - y))
      (-(x + y)) (n - x) 0 0 0 (n - x) (n - x) (by omega) le_rfl le_rfl le_rfl (by omega) (by omega)
      (fun e => ([ix e.1 0 - (x + y), ix e.1 1 + (n - x), ix e.1 2, ix e.1 3, ix e.1 4,
        ix e.1 5 + (n - x), ix e.1 6 + (n - x)],
        combZ n x * combZ (n - x) y * (-1) ^ ((n : ℤ) - x - y) * e.2))
      (fun e => by simp; ring)
    refine ⟨_, by
      rw [cmomentVTerms]
      dsimp only
      rw [e]; rfl, c, fun i => ?_⟩
    refine (v i).trans ?_
    rw [← Nat.cast_sub (by omega), ← Nat.cast_sub (by omega), combZ_eq, combZ_eq, g3 i, Int.toNat_natCast,
      Int.toNat_natCast, zpow_natCast]
    push_cast [show x ≤ n by omega]
    rfl)
  refine ⟨r.removeZero, by rw [cmomentV, e]; rfl, by rw [removeZero_keyfor, k], removeZero_WF _ w,
    removeZero_Keys _ _ c, fun i => ?_⟩
  rw [ev_removeZero, v i, sum_idx2]
  set E := Real.exp (-(i.p.k * i.t)) with hE
  set g := i.p.lmbd * i.p.mu_v * i.p.k⁻¹ with hg
  have hee : E * Real.exp (i.p.k * i.t) = 1 := by rw [hE, ← Real.exp_add, neg_add_cancel, Real.exp_zero]
  have hW : (C E * (xi i.p - C (mx i.p i.t)) : P2v) = C E * xi i.p + (C (E * g) + C (-g)) := by
    rw [← map_add, mul_sub, ← map_mul, sub_eq_add_neg, ← map_neg, mx]
    congr 2
    rw [hg]
    linear_combination (-(i.p.lmbd * i.p.mu_v * i.p.k⁻¹)) * hee
  rw [hW, trinom, map_sum]
  refine Finset.sum_congr rfl fun x hx => ?_
  rw [map_sum]
  refine Finset.sum_congr rfl fun y hy => ?_
  rw [Finset.mem_range] at hx hy
  have h1 : ((n.choose x : P2v) * ((n - x).choose y : P2v) * ((C E * xi i.p) ^ x * C (E * g) ^ y *
      C (-g) ^ (n - x - y)) : P2v) = C ((n.choose x * (n - x).choose y : ℝ) *
        ((-1) ^ (n - x - y) * E ^ (x + y) * g ^ (n - x))) * xi i.p ^ x := by
    conv_rhs => rw [show n - x = y + (n - x - y) by omega]
    rw [pow_add, neg_eq_neg_one_mul, Nat.add_sub_cancel_left, pow_add g]
    rw [show y + (n - x - y) = n - x by omega]
    simp only [map_mul, map_pow, map_natCast]; ring
  rw [h1, Ex_C_mul]
  simp only [Int.toNat_natCast, vIat, ix_cons_zero, ix_cons_succ, zpow_zero, mul_one]
  rw [← Nat.cast_sub (by omega : x ≤ n), zpow_neg, zpow_natCast, zpow_natCast, zpow_natCast]
  have h3 : Real.exp (((-((x : ℤ) + (y : ℤ)) : ℤ) : ℝ) * i.p.k * i.t) = E ^ (x + y) := by
    rw [hE, ← Real.exp_nat_mul]
    congr 1; push_cast; ring
  rw [h3, hg, mul_pow, mul_pow, inv_pow]
  ring

end Srjd
end Ajd
