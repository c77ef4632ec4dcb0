import Verif.Lemmas.SrjdDiv
import Mathlib.Algebra.Polynomial.Derivative

/-! Stationary moments: the loop of `cmoment_v`, `moment_v`, and the stationary law. -/

namespace Ajd.Srjd
open Poly

theorem solvePolynomial_spec (d n : ℕ) (hn : 2 ≤ n) (hd : n ≤ d) (cm : List IPoly)
    (hcm : ∀ j, 2 ≤ j → j < n → ∃ q, cm[j]? = some q ∧ CMGood j q) :
    ∃ r, solvePolynomial d n cm = .ok r ∧ CMGood n r := by
  obtain ⟨c, e1, k1, w1, g1, t1, v1⟩ := condCmomentV_spec d n hn hd
  obtain ⟨l, e2, k2, w2, g2, v2⟩ := lastExpectation_spec n cm hcm
    (⟨kfC, c.items.filter fun e => !decide (e.1 = target n)⟩ : IPoly) (by
      intro e he
      simp only [List.mem_filter, Bool.not_eq_true', decide_eq_false_iff_not] at he
      have h := g1 e he.1
      exact ⟨h.1, lt_of_le_of_ne h.2.1 fun h' => he.2 (h.2.2 h')⟩)
  obtain ⟨r, e3, k3, w3, g3, v3⟩ := divide_spec n (by omega) l w2 g2
    (fun k b σ lam μ => cmS k b σ lam μ n) (fun i => by
      rw [v2, left_value n c w1 g1 t1 v1 i])
  refine ⟨r, ?_, k3, w3, g3, v3⟩
  have hdel : delKey c.items [-(n : ℤ), 0, n, 0, 0, 0, 0] =
      .ok (c.items.filter fun e => !decide (e.1 = target n)) := by
    rw [delKey, lookup_ok (show dget c.items [-(n : ℤ), 0, n, 0, 0, 0, 0] = some 1 from t1)]; rfl
  rw [solvePolynomial, e1, ok_bind, findSameOrder_spec n c w1 g1 t1, ok_bind, if_pos rfl, hdel, ok_bind,
    k1, e2, ok_bind, e3]

theorem NN5 (a b c d e : ℤ) (h0 : 0 ≤ a) (h1 : 0 ≤ b) (h2 : 0 ≤ c) (h3 : 0 ≤ d) (h4 : 0 ≤ e) :
    NN 5 [a, b, c, d, e] := by
  refine ⟨rfl, fun i => ?_⟩
  match i with
  | 0 => exact h0
  | 1 => exact h1
  | 2 => exact h2
  | 3 => exact h3
  | 4 => exact h4
  | _ + 5 => simp [ix]

theorem good0 : CMGood 0 ⟨kfS, [([0, 0, 0, 0, 0], 1)]⟩ := by
  refine ⟨rfl, by simp [WF], ?_, ?_⟩
  · intro e he
    simp only [List.mem_singleton] at he
    subst he
    exact NN5 _ _ _ _ _ le_rfl le_rfl le_rfl le_rfl le_rfl
  · intro p _ b
    simp [ev, vS, ix, cmS]

theorem good1 : CMGood 1 ⟨kfS, [([0, 0, 0, 0, 0], 0)]⟩ := by
  refine ⟨rfl, by simp [WF], ?_, ?_⟩
  · intro e he
    simp only [List.mem_singleton] at he
    subst he
    exact NN5 _ _ _ _ _ le_rfl le_rfl le_rfl le_rfl le_rfl
  · intro p _ b
    simp [ev, cmS_one]

theorem loop_spec (d m : ℕ) (hd : m + 2 ≤ d) : ∃ cm, ((List.range m).map fun i : ℕ => 2 + (i : ℤ)).foldlM
      (fun (cm : List IPoly) (i : ℤ) => do
        let poly ← solvePolynomial d i cm
        pure (cm ++ [poly]))
      [⟨kfS, [([0, 0, 0, 0, 0], 1)]⟩, ⟨kfS, [([0, 0, 0, 0, 0], 0)]⟩] = Except.ok cm ∧
    cm.length = m + 2 ∧ ∀ j, j < m + 2 → ∃ q, cm[j]? = some q ∧ CMGood j q := by
  induction m with
  | zero =>
    refine ⟨_, rfl, rfl, fun j hj => ?_⟩
    match j, hj with
    | 0, _ => exact ⟨_, rfl, good0⟩
    | 1, _ => exact ⟨_, rfl, good1⟩
  | succ m ih =>
    obtain ⟨cm, e, l, h⟩ := ih (by omega)
    obtain ⟨r, e1, h1⟩ := solvePolynomial_spec d (m + 2) (by omega) (by omega) cm fun j _ hj => h j hj
    refine ⟨cm ++ [r], ?_, by simp [l], fun j hj => ?_⟩
    · rw [List.range_succ, List.map_append, List.foldlM_append, e, ok_bind]
      simp only [List.map_cons, List.map_nil, List.foldlM_cons, List.foldlM_nil]
      have : (2 : ℤ) + (m : ℕ) = ((m + 2 : ℕ) : ℤ) := by push_cast; ring
      rw [this, e1]
      rfl
    · rcases Nat.lt_or_ge j (m + 2) with hj' | hj'
      · obtain ⟨q, hq, hg⟩ := h j hj'
        exact ⟨q, by rw [List.getElem?_append_left (by omega)]; exact hq, hg⟩
      · have : j = m + 2 := by omega
        subst this
        exact ⟨r, by rw [List.getElem?_append_right (by omega), l]; simp, h1⟩

theorem ucmomentV_spec (d n : ℕ) (hd : n ≤ d) : ∃ r, ucmomentV d n = .ok r ∧ CMGood n r := by
  rw [ucmomentV, if_neg (by omega)]
  dsimp only
  rcases Nat.lt_or_ge n 2 with hn | hn
  · rw [if_pos (by omega)]
    match n, hn with
    | 0, _ => exact ⟨_, rfl, good0⟩
    | 1, _ => exact ⟨_, rfl, good1⟩
  · rw [if_neg (by omega)]
    obtain ⟨m, rfl⟩ : ∃ m, n = m + 2 := ⟨n - 2, by omega⟩
    obtain ⟨cm, e, l, h⟩ := loop_spec d m hd
    obtain ⟨r, e1, h1⟩ := solvePolynomial_spec d (m + 2) (by omega) hd cm fun j _ hj => h j hj
    refine ⟨r, ?_, h1⟩
    rw [pyRange, show (((m + 2 : ℕ) : ℤ) - 2).toNat = m by omega, e, ok_bind, e1]

/-- moments with mean `b` -/
noncomputable def rmS (k b σ lam μ : ℝ) (n : ℕ) : ℝ :=
  ∑ i ∈ Finset.range (n + 1), n.choose i * b ^ (n - i) * cmS k b σ lam μ i

theorem expandE_spec (k θ σ lam μ : ℝ) (hk : k ≠ 0) (poly : IPoly) (hp : poly.Keys (NN 5)) :
    (expandE poly).Keys (NN 5) ∧
      ev (vS k θ σ lam μ) (expandE poly) = ev (vS k (θ + lam * μ / k) σ lam μ) poly := by
  have hn : ∀ e ∈ poly.items, ∃ a b c d f : ℕ, e.1 = [(a : ℤ), (b : ℤ), (c : ℤ), (d : ℤ), (f : ℤ)] := by
    intro e he
    obtain ⟨h1, h2⟩ := hp e he
    match e.1, h1, h2 with
    | [a, b, c, d, f], _, h2 =>
      have h0 := h2 0; have h1 := h2 1; have h3 := h2 2; have h4 := h2 3; have h5 := h2 4
      simp only [ix_cons_zero, ix_cons_succ] at h0 h1 h3 h4 h5
      exact ⟨a.toNat, b.toNat, c.toNat, d.toNat, f.toNat, by
        rw [Int.toNat_of_nonneg h0, Int.toNat_of_nonneg h1, Int.toNat_of_nonneg h3, Int.toNat_of_nonneg h4,
          Int.toNat_of_nonneg h5]⟩
  refine ⟨ofTerms_Keys _ _ _ ?_, ?_⟩
  · intro x hx
    obtain ⟨e, he, hx⟩ := List.mem_flatMap.1 hx
    obtain ⟨a, b, c, d, f, hk⟩ := hn e he
    rw [expandTerms] at hx
    split_ifs at hx with h
    · simp only [List.mem_singleton] at hx
      rw [hx]; exact hp e he
    · obtain ⟨i, hi, rfl⟩ := List.mem_map.1 hx
      rw [mem_pyRange] at hi
      rw [hk] at hi ⊢
      simp only [ix_cons_zero, ix_cons_succ] at hi ⊢
      exact NN5 _ _ _ _ _ (by omega) (by omega) (by omega) (by omega) (by omega)
  · rw [expandE]
    refine ev_ofTerms_flatMap _ _ _ _ _ fun e he => ?_
    obtain ⟨a, b, c, d, f, hK⟩ := hn e he
    rw [expandTerms, hK]
    split_ifs with h <;> simp only [ix_cons_zero, ix_cons_succ] at h ⊢
    · have : b = 0 := by omega
      subst this
      simp [hK, vS, ix]
    · rw [List.map_map, sum_pyRange]
      simp only [Function.comp_def, vS, ix_cons_zero, ix_cons_succ, combZ_eq, Rat.smul_def]
      have hb : (θ + lam * μ / k) ^ (b : ℤ) =
          ∑ i ∈ Finset.range (b + 1), (lam * μ / k) ^ i * θ ^ (b - i) * b.choose i := by
        rw [zpow_natCast, add_comm, add_pow]
      rw [hb]
      simp only [Finset.mul_sum, Finset.sum_mul]
      refine Finset.sum_congr rfl fun i hi => ?_
      rw [Finset.mem_range] at hi
      have e1 : ((b : ℤ) - (i : ℤ)) = ((b - i : ℕ) : ℤ) := by omega
      rw [e1, show (d : ℤ) + (i : ℤ) = ((d + i : ℕ) : ℤ) by push_cast; rfl,
        show (f : ℤ) + (i : ℤ) = ((f + i : ℕ) : ℤ) by push_cast; rfl,
        show -((a : ℤ) + (i : ℤ)) = -(a : ℤ) + -(i : ℤ) by ring, zpow_add₀ hk, zpow_natCast, zpow_natCast,
        zpow_natCast, zpow_natCast, zpow_natCast, zpow_natCast, zpow_neg k (i : ℤ), zpow_natCast, pow_add, pow_add,
        div_pow, mul_pow]
      push_cast
      field_simp

theorem vS_shift (k b σ lam μ : ℝ) (K : List ℤ) (hK : NN 5 K) (j : ℕ) :
    vS k b σ lam μ [ix K 0, ix K 1 + j, ix K 2, ix K 3, ix K 4] = b ^ j * vS k b σ lam μ K := by
  obtain ⟨m, hm⟩ := Int.eq_ofNat_of_zero_le (hK.2 1)
  simp only [vS, ix_cons_zero, ix_cons_succ]
  have : ix K 1 = (m : ℤ) := hm
  rw [this, show (m : ℤ) + (j : ℤ) = ((m + j : ℕ) : ℤ) by push_cast; rfl, zpow_natCast, zpow_natCast, pow_add]
  ring

/-- `moment_v` in powers of `E[v]` -/
theorem umomentE_spec (d n : ℕ) (hd : n ≤ d) : ∃ r : IPoly,
    umomentE d n = .ok r ∧
    r.keyfor = kfS ∧ r.WF ∧ r.Keys (NN 5) ∧ ∀ p : Par, p.OK → ∀ b,
      ev (vS p.k b p.sigma p.lmbd p.mu_v) r = rmS p.k b p.sigma p.lmbd p.mu_v n := by
  rcases n with _ | _ | n
  · refine ⟨⟨kfS, [([0, 0, 0, 0, 0], 1)]⟩, rfl, rfl, by simp [WF], good0.2.2.1, fun p hp b => ?_⟩
    rw [good0.2.2.2 p hp b]
    simp [rmS]
  · refine ⟨⟨kfS, [([0, 1, 0, 0, 0], 1)]⟩, rfl, rfl, by simp [WF], ?_, fun p hp b => ?_⟩
    · intro e he
      simp only [List.mem_singleton] at he
      subst he
      exact NN5 _ _ _ _ _ le_rfl zero_le_one le_rfl le_rfl le_rfl
    · simp [rmS, Finset.sum_range_succ, cmS_one, ev, vS, ix, cmS]
  · rw [umomentE, if_neg (by omega), if_neg (by omega)]
    set n := n + 1 + 1
    obtain ⟨r, e, k, w, c, v⟩ := addLoop_spec kfS (umomentTerms d n) (pyRange 0 ((n : ℤ) + 1)) (NN 5)
      (fun i : {x : Par × ℝ // x.1.OK} => vS i.1.1.k i.1.2 i.1.1.sigma i.1.1.lmbd i.1.1.mu_v)
      (fun i j => n.choose j.toNat * i.1.2 ^ (n - j.toNat) *
        cmS i.1.1.k i.1.2 i.1.1.sigma i.1.1.lmbd i.1.1.mu_v j.toNat) (by
        intro j hj
        rw [mem_pyRange] at hj
        obtain ⟨j, rfl⟩ := Int.eq_ofNat_of_zero_le hj.1
        obtain ⟨q, e, -, -, hk, hv⟩ := ucmomentV_spec d j (by omega)
        refine ⟨_, by rw [umomentTerms]; rw [e, ok_bind]; rfl, ?_, ?_⟩
        · intro x hx
          obtain ⟨y, hy, rfl⟩ := List.mem_map.1 hx
          have h := (hk y hy).2
          have h1 := h 1
          exact NN5 _ _ _ _ _ (h 0) (by have : 0 ≤ ix y.1 1 := h1; omega) (h 2) (h 3) (h 4)
        · rintro ⟨⟨p, b⟩, hp⟩
          dsimp only at hp ⊢
          rw [List.map_map, Int.toNat_natCast, ← hv p hp b, ev, ← List.sum_map_mul_left]
          congr 1
          refine List.map_congr_left fun y hy => ?_
          simp only [Function.comp_def]
          rw [show ((n : ℕ) : ℤ) - (j : ℤ) = ((n - j : ℕ) : ℤ) by omega, vS_shift _ _ _ _ _ _ (hk y hy), combZ_eq,
            Rat.smul_def, Rat.smul_def]
          push_cast
          ring)
    refine ⟨r, e, k, w, c, fun p hp b => ?_⟩
    have := v ⟨(p, b), hp⟩
    dsimp only at this
    rw [this, sum_pyRange, rmS]
    rfl

/-! ### the stationary law -/

open Polynomial in
/-- jumps: `∑ μ^{j+1} D^{j+1}` up to order `N` -/
noncomputable def jumpOp (μ : ℝ) (N : ℕ) (p : ℝ[X]) : ℝ[X] :=
  ∑ j ∈ Finset.range N, C (μ ^ (j + 1)) * derivative^[j + 1] p

open Polynomial in
/-- the generator on polynomials of degree at most `N` -/
noncomputable def genOp (k θ σ lam μ : ℝ) (N : ℕ) (p : ℝ[X]) : ℝ[X] :=
  C k * (C θ - X) * derivative p + C (σ ^ 2 / 2) * X * derivative (derivative p) + C lam * jumpOp μ N p

open Polynomial in
/-- the generator in the distance from `E` -/
noncomputable def cenOp (k E σ lam μ : ℝ) (N : ℕ) (p : ℝ[X]) : ℝ[X] :=
  (-(C k * X) - C (lam * μ)) * derivative p + C (σ ^ 2 / 2) * (X + C E) * derivative (derivative p) +
    C lam * jumpOp μ N p

open Polynomial in
theorem jump_X (μ : ℝ) (N n : ℕ) (h : n ≤ N) : jumpOp μ N (X ^ n) =
    ∑ j ∈ Finset.range n, C (n.choose (j + 1) * ((j + 1).factorial * μ ^ (j + 1))) * X ^ (n - (j + 1)) := by
  rw [jumpOp, ← Finset.sum_subset (Finset.range_mono h)]
  · refine Finset.sum_congr rfl fun j _ => ?_
    rw [iterate_derivative_X_pow_eq_C_mul, Nat.descFactorial_eq_factorial_mul_choose, ← mul_assoc, ← C_mul]
    congr 2
    push_cast; ring
  · intro j _ hj
    rw [Finset.mem_range, not_lt] at hj
    rw [iterate_derivative_X_pow_eq_C_mul, Nat.descFactorial_eq_zero_iff_lt.2 (by omega)]
    simp

open Polynomial in
theorem genOp_X (k θ σ lam μ : ℝ) (N n : ℕ) (h : n ≤ N) : genOp k θ σ lam μ N (X ^ n) = genPoly k θ σ lam μ n := by
  rw [genOp, jump_X μ N n h, genPoly, Finset.mul_sum]
  congr 1
  · rcases n with _ | _ | n
    · simp
    · simp; ring
    · have hc : C (k * θ * ((n + 1 + 1 : ℕ) : ℝ) + ((n + 1 + 1 : ℕ) : ℝ) * ((n + 1 + 1 - 1 : ℕ) : ℝ) * σ ^ 2 / 2) =
          C k * C θ * C ((n + 1 + 1 : ℕ) : ℝ) + C ((n + 1 + 1 : ℕ) : ℝ) * C ((n + 1 : ℕ) : ℝ) * C (σ ^ 2 / 2) := by
        simp only [← C_mul, ← C_add, Nat.add_sub_cancel]
        congr 1; ring
      rw [hc]
      simp only [derivative_X_pow, derivative_mul, derivative_C, Nat.add_sub_cancel, map_mul, map_neg]
      ring
  · exact Finset.sum_congr rfl fun j _ => by rw [← mul_assoc, ← C_mul]

open Polynomial in
theorem iter_comp (p : ℝ[X]) (E : ℝ) (j : ℕ) :
    derivative^[j] (p.comp (X + C E)) = (derivative^[j] p).comp (X + C E) := by
  induction j generalizing p with
  | zero => rfl
  | succ j ih => rw [Function.iterate_succ_apply, Function.iterate_succ_apply, derivative_comp, ← ih]; simp

open Polynomial in
theorem gen_comp (k θ E σ lam μ : ℝ) (hE : k * E = k * θ + lam * μ) (N : ℕ) (p : ℝ[X]) :
    (genOp k θ σ lam μ N p).comp (X + C E) = cenOp k E σ lam μ N (p.comp (X + C E)) := by
  have h1 := iter_comp p E 1
  have h2 := iter_comp p E 2
  simp only [Function.iterate_succ_apply, Function.iterate_zero_apply] at h1 h2
  have h3 : (jumpOp μ N p).comp (X + C E) = jumpOp μ N (p.comp (X + C E)) := by
    rw [jumpOp, jumpOp, Polynomial.sum_comp]
    refine Finset.sum_congr rfl fun j _ => ?_
    rw [mul_comp, C_comp, iter_comp]
  have h4 : C k * C E = C k * C θ + C (lam * μ) := by rw [← C_mul, hE, C_add, C_mul]
  rw [genOp, cenOp, h2, h1, ← h3]
  simp only [add_comp, mul_comp, sub_comp, C_comp, X_comp]
  linear_combination (derivative p).comp (X + C E) * (-h4)

open Polynomial in
theorem Lp_cen (k E σ lam μ : ℝ) (hk : k ≠ 0) (N n : ℕ) (h : n ≤ N) :
    Lp (cmS k E σ lam μ) (cenOp k E σ lam μ N (X ^ n)) = 0 := by
  have e := cmS_rec k E σ lam μ hk n
  set m := cmS k E σ lam μ with hm
  have hop : cenOp k E σ lam μ N (X ^ n) = C (-(n * k)) * X ^ n + C (n * (n - 1 : ℕ) * σ ^ 2 / 2) * X ^ (n - 1) +
      C (n * (n - 1 : ℕ) * σ ^ 2 / 2 * E) * X ^ (n - 2) +
      ∑ j ∈ Finset.range n, C (lam * ((if j + 1 = 1 then 0 else 1) *
        (n.choose (j + 1) * ((j + 1).factorial * μ ^ (j + 1))))) * X ^ (n - (j + 1)) := by
    rw [cenOp, jump_X μ N n h]
    rcases n with _ | _ | n
    · simp
    · simp
    · rw [Finset.sum_range_succ', Finset.sum_range_succ' (n := n + 1)]
      have h1 : ∑ j ∈ Finset.range (n + 1), C (lam * ((if j + 1 + 1 = 1 then 0 else 1) *
          ((n + 1 + 1).choose (j + 1 + 1) * ((j + 1 + 1).factorial * μ ^ (j + 1 + 1))))) *
            (X : ℝ[X]) ^ (n + 1 + 1 - (j + 1 + 1)) = C lam * ∑ j ∈ Finset.range (n + 1),
          C ((n + 1 + 1).choose (j + 1 + 1) * ((j + 1 + 1).factorial * μ ^ (j + 1 + 1))) *
            X ^ (n + 1 + 1 - (j + 1 + 1)) := by
        rw [Finset.mul_sum]
        refine Finset.sum_congr rfl fun j _ => ?_
        rw [if_neg (by omega), one_mul, C_mul, mul_assoc]
      rw [h1]
      have h2 : C (((n + 1 + 1 : ℕ) : ℝ) * ((n + 1 + 1 - 1 : ℕ) : ℝ) * σ ^ 2 / 2) =
          C ((n + 1 + 1 : ℕ) : ℝ) * C ((n + 1 : ℕ) : ℝ) * C (σ ^ 2 / 2) := by
        simp only [← C_mul, Nat.add_sub_cancel]
        congr 1; ring
      have h3 : C ((((n + 1 + 1).choose (0 + 1) : ℕ) : ℝ) * (((0 + 1).factorial : ℕ) * μ ^ (0 + 1))) =
          C ((n + 1 + 1 : ℕ) : ℝ) * C μ := by
        rw [← C_mul]; simp
      rw [C_mul (a := _ * _ / _) (b := E), h2, h3]
      simp only [derivative_X_pow, derivative_mul, derivative_C, Nat.add_sub_cancel, map_mul, map_neg,
        zero_add, if_true, zero_mul, mul_zero, map_zero, show n + 1 + 1 - 2 = n by omega]
      ring
  rw [hop]
  simp only [map_add, map_sum, Lp_X]
  rw [Finset.mul_sum] at e
  have hs : ∑ j ∈ Finset.range n, lam * ((if j + 1 = 1 then 0 else 1) *
        (n.choose (j + 1) * ((j + 1).factorial * μ ^ (j + 1)))) * m (n - (j + 1)) =
      ∑ j ∈ Finset.range n, lam * ((if j + 1 = 1 then 0 else 1) *
        (n.choose (j + 1) * ((j + 1).factorial * μ ^ (j + 1))) * m (n - (j + 1))) :=
    Finset.sum_congr rfl fun j _ => by ring
  rw [hs]
  linear_combination -e

open Polynomial in
/-- translation of the functional -/
theorem Lp_shift (k E σ lam μ : ℝ) (q : ℝ[X]) :
    Lp (rmS k E σ lam μ) q = Lp (cmS k E σ lam μ) (q.comp (X + C E)) := by
  have h : ∀ n, rmS k E σ lam μ n = Lp (cmS k E σ lam μ) ((X + C E) ^ n) := by
    intro n
    rw [rmS, add_pow, map_sum]
    refine Finset.sum_congr rfl fun i _ => ?_
    have : (X : ℝ[X]) ^ i * C E ^ (n - i) * (n.choose i : ℝ[X]) = C (n.choose i * E ^ (n - i)) * X ^ i := by
      rw [C_mul, C_pow, map_natCast]; ring
    rw [this, Lp_X]
  induction q using Polynomial.induction_on' with
  | add p q hp hq => rw [map_add, hp, hq, add_comp, map_add]
  | monomial n a =>
    rw [← C_mul_X_pow_eq_monomial, Lp_X, h, mul_comp, C_comp, pow_comp, X_comp, ← smul_eq_C_mul, map_smul, smul_eq_mul]

open Polynomial in
theorem cenOp_lin (k E σ lam μ : ℝ) (N : ℕ) : ∃ A : ℝ[X] →ₗ[ℝ] ℝ[X], ∀ p, A p = cenOp k E σ lam μ N p := by
  refine ⟨⟨⟨cenOp k E σ lam μ N, fun p q => ?_⟩, fun c p => ?_⟩, fun p => rfl⟩
  · simp only [cenOp, jumpOp, map_add, iterate_map_add, mul_add, Finset.sum_add_distrib]
    ring
  · simp only [cenOp, jumpOp, derivative_smul, iterate_derivative_smul, mul_smul_comm, RingHom.id_apply, smul_add,
      Finset.smul_sum, Finset.mul_sum]

open Polynomial in
theorem stat_rmS (k θ σ lam μ : ℝ) (hk : k ≠ 0) (hμ : 0 < μ) :
    Stationary k θ σ lam μ (rmS k (θ + lam * μ / k) σ lam μ) := by
  refine ⟨by simp [rmS, cmS], fun n q hq => ?_⟩
  have hq' : q = genPoly k θ σ lam μ n := Polynomial.funext fun v => by rw [hq, gen_pow k θ σ lam hμ]
  rw [← Lp_eq, hq', Lp_shift, ← genOp_X k θ σ lam μ n n le_rfl,
    gen_comp k θ _ σ lam μ (by field_simp) n, pow_comp, X_comp, add_pow]
  obtain ⟨A, hA⟩ := cenOp_lin k (θ + lam * μ / k) σ lam μ n
  rw [← hA, map_sum, map_sum]
  refine Finset.sum_eq_zero fun i hi => ?_
  rw [Finset.mem_range] at hi
  have : (X : ℝ[X]) ^ i * C (θ + lam * μ / k) ^ (n - i) * (n.choose i : ℝ[X]) =
      (n.choose i * (θ + lam * μ / k) ^ (n - i)) • X ^ i := by
    rw [smul_eq_C_mul, C_mul, C_pow, map_natCast]; ring
  rw [this, map_smul, map_smul, hA, Lp_cen _ _ _ _ _ hk _ _ (by omega), smul_zero]

theorem stat_unique {k θ σ lam μ : ℝ} (hk : k ≠ 0) (hμ : 0 < μ) {M M' : ℕ → ℝ} (h : Stationary k θ σ lam μ M)
    (h' : Stationary k θ σ lam μ M') (n : ℕ) : M n = M' n := by
  induction n using Nat.strong_induction_on with
  | _ n ih =>
    rcases n with _ | n
    · rw [h.zero, h'.zero]
    · have e := h.gen (n + 1) _ (gen_pow k θ σ lam hμ (n + 1))
      have e' := h'.gen (n + 1) _ (gen_pow k θ σ lam hμ (n + 1))
      rw [← Lp_eq, Lp_genPoly] at e e'
      rw [Nat.add_sub_cancel, ih n (by omega)] at e
      rw [Nat.add_sub_cancel] at e'
      have hs : ∀ j ∈ Finset.range (n + 1), ((n + 1).choose (j + 1) : ℝ) * ((j + 1).factorial * μ ^ (j + 1)) *
          M (n + 1 - (j + 1)) = (n + 1).choose (j + 1) * ((j + 1).factorial * μ ^ (j + 1)) *
          M' (n + 1 - (j + 1)) := fun j _ => by rw [ih _ (by omega)]
      rw [Finset.sum_congr rfl hs] at e
      have hn : ((n + 1 : ℕ) : ℝ) * k ≠ 0 := mul_ne_zero (by positivity) hk
      apply mul_left_cancel₀ hn
      linarith

open Polynomial in
/-- central moments from moments -/
theorem cmS_of_rmS (k E σ lam μ : ℝ) (n : ℕ) : cmS k E σ lam μ n =
    ∑ i ∈ Finset.range (n + 1), n.choose i * (-E) ^ (n - i) * rmS k E σ lam μ i := by
  have h : Lp (rmS k E σ lam μ) ((X - C E) ^ n) = cmS k E σ lam μ n := by
    rw [Lp_shift]
    have := Lp_X (cmS k E σ lam μ) 1 n
    simp only [map_one, one_mul] at this
    rw [← this]
    simp
  rw [← h, sub_eq_add_neg, ← C_neg, add_pow, map_sum]
  refine Finset.sum_congr rfl fun i _ => ?_
  have : (X : ℝ[X]) ^ i * C (-E) ^ (n - i) * (n.choose i : ℝ[X]) = C (n.choose i * (-E) ^ (n - i)) * X ^ i := by
    rw [C_mul, C_pow, map_natCast]; ring
  rw [this, Lp_X]

theorem rmS_one (k E σ lam μ : ℝ) : rmS k E σ lam μ 1 = E := by
  simp [rmS, Finset.sum_range_succ, cmS_one, cmS]

end Ajd.Srjd
