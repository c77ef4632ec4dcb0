import Verif.Props.Srjd4

/-! C80: cumulants of the stationary law of the square-root jump-diffusion. -/

namespace Ajd.Srjd
open Poly

/-- `κ` are the cumulants of the law with the moments `M` -/
def Cumulants (M κ : ℕ → ℝ) : Prop :=
  ∀ n, M (n + 1) = ∑ i ∈ Finset.range (n + 1), n.choose i * κ (i + 1) * M (n - i)

/-- the cumulants, for `n ≥ 1`: `(n-1)! (θ β^(n-1) + (λ/k) ∑_{j=1}^n μ^j β^(n-j))`, with `β = σ² / (2k)` -/
noncomputable def statCum (k θ σ lam μ : ℝ) (n : ℕ) : ℝ :=
  (n - 1).factorial * (θ * (σ ^ 2 / (2 * k)) ^ (n - 1) +
    lam / k * ∑ j ∈ Finset.range n, μ ^ (j + 1) * (σ ^ 2 / (2 * k)) ^ (n - 1 - j))

/-- `statCum (i + 1) / i!` -/
noncomputable def statCumE (β θ c μ : ℝ) : ℕ → ℝ
  | 0 => θ + c * μ
  | i + 1 => β * statCumE β θ c μ i + c * μ ^ (i + 2)

theorem statCumE_eq (β θ c μ : ℝ) (i : ℕ) : statCumE β θ c μ i =
    θ * β ^ i + c * ∑ j ∈ Finset.range (i + 1), μ ^ (j + 1) * β ^ (i - j) := by
  induction i with
  | zero => simp [statCumE]
  | succ i ih =>
    rw [statCumE, ih, Finset.sum_range_succ _ (i + 1), Nat.sub_self, pow_zero, mul_one]
    have : ∑ j ∈ Finset.range (i + 1), μ ^ (j + 1) * β ^ (i + 1 - j) =
        β * ∑ j ∈ Finset.range (i + 1), μ ^ (j + 1) * β ^ (i - j) := by
      rw [Finset.mul_sum]
      refine Finset.sum_congr rfl fun j hj => ?_
      rw [Finset.mem_range] at hj
      rw [show i + 1 - j = i - j + 1 by omega, pow_succ]; ring
    rw [this]; ring

theorem statCum_eq (k θ σ lam μ : ℝ) (i : ℕ) :
    statCum k θ σ lam μ (i + 1) = i.factorial * statCumE (σ ^ 2 / (2 * k)) θ (lam / k) μ i := by
  rw [statCumE_eq, statCum]; rfl

theorem conv (β θ c μ : ℝ) (m g : ℕ → ℝ) (h0 : g 0 = (θ + c * μ) * m 0)
    (hs : ∀ n, g (n + 1) = θ * m (n + 1) + β * g n +
      c * ∑ i ∈ Finset.range (n + 2), μ ^ (i + 1) * m (n + 1 - i)) (n : ℕ) :
    g n = ∑ i ∈ Finset.range (n + 1), statCumE β θ c μ i * m (n - i) := by
  induction n with
  | zero => simp [h0, statCumE]
  | succ n ih =>
    rw [hs, ih, Finset.sum_range_succ' _ (n + 1), Finset.sum_range_succ' _ (n + 1), Finset.mul_sum]
    have : ∑ i ∈ Finset.range (n + 1), statCumE β θ c μ (i + 1) * m (n + 1 - (i + 1)) =
        ∑ i ∈ Finset.range (n + 1), β * (statCumE β θ c μ i * m (n - i)) +
          c * ∑ i ∈ Finset.range (n + 1), μ ^ (i + 1 + 1) * m (n + 1 - (i + 1)) := by
      rw [Finset.mul_sum, ← Finset.sum_add_distrib]
      refine Finset.sum_congr rfl fun i _ => ?_
      rw [statCumE, Nat.add_sub_add_right]; ring
    rw [this, statCumE, Nat.sub_zero]; ring

theorem fac_ne (n : ℕ) : ((n.factorial : ℕ) : ℝ) ≠ 0 := Nat.cast_ne_zero.2 n.factorial_ne_zero

/-- the terms of the jumps, divided by `(n+1)!` -/
theorem choose_fac (n j : ℕ) (hj : j ≤ n) (a x : ℝ) : ((n + 1).choose (j + 1) : ℝ) * ((j + 1).factorial * a) * x =
    (n + 1).factorial * (a * (x / (n - j).factorial)) := by
  have h := Nat.choose_mul_factorial_mul_factorial (Nat.succ_le_succ hj)
  rw [Nat.succ_eq_add_one, Nat.succ_eq_add_one, Nat.add_sub_add_right] at h
  rw [← h]
  push_cast
  field_simp [fac_ne (n - j)]

theorem choose_fac' (n j : ℕ) (hj : j ≤ n) (a x : ℝ) : (n.choose j : ℝ) * (j.factorial * a) * x =
    n.factorial * (a * (x / (n - j).factorial)) := by
  rw [← Nat.choose_mul_factorial_mul_factorial hj]
  push_cast
  field_simp [fac_ne (n - j)]

/-- moments with the right normalised recursion -/
theorem cum_of (k θ σ lam μ : ℝ) (M : ℕ → ℝ) (G : ℕ → ℝ) (h0 : G 0 = (θ + lam / k * μ) * M 0)
    (hs : ∀ n, G (n + 1) / (n + 1).factorial = θ * (M (n + 1) / (n + 1).factorial) +
      σ ^ 2 / (2 * k) * (G n / n.factorial) +
      lam / k * ∑ i ∈ Finset.range (n + 2), μ ^ (i + 1) * (M (n + 1 - i) / (n + 1 - i).factorial)) (n : ℕ) :
    G n = ∑ i ∈ Finset.range (n + 1), n.choose i * statCum k θ σ lam μ (i + 1) * M (n - i) := by
  have h := conv (σ ^ 2 / (2 * k)) θ (lam / k) μ (fun n => M n / n.factorial) (fun n => G n / n.factorial)
    (by simp [h0]) hs n
  have : G n = n.factorial * (G n / n.factorial) := by field_simp [fac_ne n]
  rw [this, h, Finset.mul_sum]
  refine Finset.sum_congr rfl fun i hi => ?_
  rw [Finset.mem_range] at hi
  rw [statCum_eq, choose_fac' n i (by omega)]

theorem stat_cum {k θ σ lam μ : ℝ} (hk : k ≠ 0) (hμ : 0 < μ) {M : ℕ → ℝ} (h : Stationary k θ σ lam μ M) :
    Cumulants M (statCum k θ σ lam μ) := by
  have hrec : ∀ n : ℕ, M (n + 1) / n.factorial = θ * (M n / n.factorial) +
      σ ^ 2 / (2 * k) * (n * (M n / n.factorial)) +
      lam / k * ∑ j ∈ Finset.range (n + 1), μ ^ (j + 1) * (M (n - j) / (n - j).factorial) := by
    intro n
    have e := h.gen (n + 1) _ (gen_pow k θ σ lam hμ (n + 1))
    rw [← Lp_eq, Lp_genPoly, Nat.add_sub_cancel] at e
    have hs : ∑ j ∈ Finset.range (n + 1), ((n + 1).choose (j + 1) : ℝ) * ((j + 1).factorial * μ ^ (j + 1)) *
        M (n + 1 - (j + 1)) = (n + 1).factorial *
          ∑ j ∈ Finset.range (n + 1), μ ^ (j + 1) * (M (n - j) / (n - j).factorial) := by
      rw [Finset.mul_sum]
      refine Finset.sum_congr rfl fun j hj => ?_
      rw [Finset.mem_range] at hj
      rw [choose_fac n j (by omega), Nat.add_sub_add_right]
    rw [hs, Nat.factorial_succ] at e
    have hn : ((n : ℝ) + 1) ≠ 0 := by positivity
    have hf := fac_ne n
    generalize (∑ j ∈ Finset.range (n + 1), μ ^ (j + 1) * (M (n - j) / (n - j).factorial)) = S at e ⊢
    push_cast at e
    have e' : ((n : ℝ) + 1) * (-k * (M (n + 1) - θ * M n) + n * σ ^ 2 / 2 * M n + lam * (n.factorial * S)) = 0 := by
      linear_combination e
    have e2 := (mul_eq_zero.1 e').resolve_left hn
    field_simp
    linear_combination (-2) * e2
  refine cum_of k θ σ lam μ M (fun n => M (n + 1)) ?_ fun n => ?_
  · have := hrec 0
    simp at this
    rw [this]; ring
  · have := hrec (n + 1)
    rw [this]
    congr 3
    rw [Nat.factorial_succ]
    push_cast
    have hn : ((n : ℝ) + 1) ≠ 0 := by positivity
    field_simp [fac_ne n]

/-- the central moments: the same cumulants but the first -/
theorem cen_cum {k θ σ lam μ : ℝ} (hk : k ≠ 0) (n : ℕ) : cmS k (θ + lam * μ / k) σ lam μ (n + 1) =
    ∑ i ∈ Finset.range (n + 1), n.choose i * (if i = 0 then 0 else statCum k θ σ lam μ (i + 1)) *
      cmS k (θ + lam * μ / k) σ lam μ (n - i) := by
  obtain ⟨b, hb⟩ : ∃ b, b = θ + lam * μ / k := ⟨_, rfl⟩
  rw [← hb]
  have hb' : b = θ + lam / k * μ := by rw [hb]; ring
  obtain ⟨C, hC⟩ : ∃ C, C = cmS k b σ lam μ := ⟨_, rfl⟩
  have hrec : ∀ n : ℕ, C (n + 1) / n.factorial =
      σ ^ 2 / (2 * k) * (n * ((C n + b * C (n - 1)) / n.factorial)) +
      lam / k * ∑ j ∈ Finset.range n, μ ^ (j + 2) * (C (n - (j + 1)) / (n - (j + 1)).factorial) := by
    intro n
    have e := cmS_rec k b σ lam μ hk (n + 1)
    rw [← hC, Finset.sum_range_succ', if_pos rfl, zero_mul, zero_mul, add_zero, Nat.add_sub_cancel] at e
    have hs : ∑ j ∈ Finset.range n, (if j + 1 + 1 = 1 then (0 : ℝ) else 1) * (((n + 1).choose (j + 1 + 1) : ℝ) *
        ((j + 1 + 1).factorial * μ ^ (j + 1 + 1))) * C (n + 1 - (j + 1 + 1)) = (n + 1).factorial *
          ∑ j ∈ Finset.range n, μ ^ (j + 2) * (C (n - (j + 1)) / (n - (j + 1)).factorial) := by
      rw [Finset.mul_sum]
      refine Finset.sum_congr rfl fun j hj => ?_
      rw [Finset.mem_range] at hj
      rw [if_neg (by omega), one_mul, choose_fac n (j + 1) (by omega), Nat.add_sub_add_right]
    rw [hs, Nat.factorial_succ, show n + 1 - 2 = n - 1 by omega] at e
    have hn : ((n : ℝ) + 1) ≠ 0 := by positivity
    have hf := fac_ne n
    generalize (∑ j ∈ Finset.range n, μ ^ (j + 2) * (C (n - (j + 1)) / (n - (j + 1)).factorial)) = S at e ⊢
    push_cast at e
    have e' : ((n : ℝ) + 1) * (-k * C (n + 1) + n * σ ^ 2 / 2 * (C n + b * C (n - 1)) + lam * (n.factorial * S)) = 0 := by
      linear_combination -e
    have e2 := (mul_eq_zero.1 e').resolve_left hn
    field_simp
    linear_combination (-2) * e2
  have h := cum_of k θ σ lam μ C (fun n => C (n + 1) + b * C n) ?_ (fun n => ?_) n
  · rw [← hC]
    rw [Finset.sum_range_succ'] at h ⊢
    simp only [Nat.add_one_ne_zero, if_false, if_true, mul_zero, zero_mul, add_zero]
    have h1 : statCum k θ σ lam μ (0 + 1) = b := by rw [statCum_eq, statCumE, hb']; simp
    rw [h1] at h
    simp only [Nat.choose_zero_right, Nat.cast_one, one_mul, Nat.sub_zero] at h
    linarith
  · have := hrec 0
    simp at this
    rw [zero_add, this, hb']; ring
  · have e := hrec (n + 1)
    rw [add_div, e, Finset.sum_range_succ' _ (n + 1)]
    simp only [Nat.add_sub_cancel, Nat.sub_zero]
    rw [hb', Nat.factorial_succ]
    push_cast
    have hn : ((n : ℝ) + 1) ≠ 0 := by positivity
    have hf := fac_ne n
    generalize (∑ j ∈ Finset.range (n + 1), μ ^ (j + 2) * (C (n + 1 - (j + 1)) / (n + 1 - (j + 1)).factorial)) = S
    field_simp
    ring

theorem cen_val (d n : ℕ) (hd : n ≤ d) : ∃ r, ucmomentV d n = .ok r ∧ ∀ k θ σ lam μ : ℝ, k ≠ 0 → 0 ≤ lam → 0 < μ →
    ev (statVal k (θ + lam * μ / k) σ lam μ) r = cmS k (θ + lam * μ / k) σ lam μ n := by
  obtain ⟨r, e, -, -, -, v⟩ := ucmomentV_spec d n hd
  refine ⟨r, e, fun k θ σ lam μ hk hl hμ => ?_⟩
  rw [statVal_eq]
  exact v ⟨0, k, θ, σ, lam, μ, 0⟩ ⟨hk, hl, hμ⟩ (θ + lam * μ / k)

theorem statCumE_pos {β θ c μ : ℝ} (hβ : 0 ≤ β) (hθ : 0 ≤ θ) (hc : 0 ≤ c) (hμ : 0 < μ) (i : ℕ) :
    0 ≤ statCumE β θ c μ i ∧ (0 < c ∨ 0 < θ ∧ 0 < β → 0 < statCumE β θ c μ i) := by
  rw [statCumE_eq]
  have h1 : 0 < ∑ j ∈ Finset.range (i + 1), μ ^ (j + 1) * β ^ (i - j) := by
    rw [Finset.sum_range_succ, Nat.sub_self, pow_zero, mul_one]
    have : 0 ≤ ∑ j ∈ Finset.range i, μ ^ (j + 1) * β ^ (i - j) := Finset.sum_nonneg fun j _ => by positivity
    have := pow_pos hμ (i + 1)
    linarith
  refine ⟨by positivity, ?_⟩
  rintro (h | ⟨h, h'⟩)
  · have : 0 ≤ θ * β ^ i := by positivity
    have := mul_pos h h1
    linarith
  · have : 0 < θ * β ^ i := by positivity
    have := mul_nonneg hc h1.le
    linarith

theorem statCum_pos {k θ σ lam μ : ℝ} (hk : 0 < k) (hθ : 0 ≤ θ) (hl : 0 ≤ lam) (hμ : 0 < μ) (i : ℕ) :
    0 ≤ statCum k θ σ lam μ (i + 1) ∧ (0 < lam ∨ 0 < θ ∧ σ ≠ 0 → 0 < statCum k θ σ lam μ (i + 1)) := by
  rw [statCum_eq]
  have h := statCumE_pos (β := σ ^ 2 / (2 * k)) (c := lam / k) (by positivity) hθ (by positivity) hμ i
  have hf : (0 : ℝ) < i.factorial := by exact_mod_cast i.factorial_pos
  refine ⟨mul_nonneg hf.le h.1, fun hh => mul_pos hf (h.2 ?_)⟩
  rcases hh with hh | ⟨h1, h2⟩
  · exact .inl (by positivity)
  · exact .inr ⟨h1, by positivity⟩

theorem cmS_nonneg {k θ σ lam μ : ℝ} (hk : 0 < k) (hθ : 0 ≤ θ) (hl : 0 ≤ lam) (hμ : 0 < μ) (n : ℕ) :
    0 ≤ cmS k (θ + lam * μ / k) σ lam μ n := by
  induction n using Nat.strong_induction_on with
  | _ n ih =>
    rcases n with _ | n
    · rw [cmS]; exact zero_le_one
    · rw [cen_cum hk.ne']
      refine Finset.sum_nonneg fun i _ => mul_nonneg (mul_nonneg (Nat.cast_nonneg _) ?_) (ih _ (by omega))
      split_ifs
      · exact le_rfl
      · exact (statCum_pos hk hθ hl hμ i).1

/-- C80. The cumulants of the stationary law, of every order `n ≥ 1`, are
`(n-1)! (θ β^(n-1) + (λ/k) ∑_{j=1}^n μ^j β^(n-j))` with `β = σ² / (2k)`. -/
theorem C80_cumulants (k θ σ lam μ : ℝ) (hk : k ≠ 0) (hμ : 0 < μ) (M : ℕ → ℝ) (h : Stationary k θ σ lam μ M) :
    Cumulants M (statCum k θ σ lam μ) := stat_cum hk hμ h

/-- C80. Moments determine the cumulants, so there are no others. -/
theorem C80_unique (M κ κ' : ℕ → ℝ) (h0 : M 0 = 1) (h : Cumulants M κ) (h' : Cumulants M κ') (n : ℕ) :
    κ (n + 1) = κ' (n + 1) := by
  induction n using Nat.strong_induction_on with
  | _ n ih =>
    have e := (h n).symm.trans (h' n)
    rw [Finset.sum_range_succ, Finset.sum_range_succ, Nat.sub_self, h0, Nat.choose_self, Nat.cast_one, one_mul, one_mul,
      mul_one, mul_one, Finset.sum_congr rfl fun i hi => by rw [ih i (Finset.mem_range.1 hi)]] at e
    exact add_left_cancel e

/-- C80. The polynomials of `moment_v` of mom.py, for the orders `0, ..., n + 1`, evaluate to the moments with
these cumulants. -/
theorem C80_moment_v (d n : ℕ) (hd : n < d) (simplify : Bool) : ∃ r : ℕ → IPoly,
    (∀ i ≤ n + 1, umomentV d i simplify = .ok (r i)) ∧
    ∀ k θ σ lam μ : ℝ, k ≠ 0 → 0 ≤ lam → 0 < μ →
      let val i := ev (statVal k (if simplify then θ else θ + lam * μ / k) σ lam μ) (r i)
      val (n + 1) = ∑ i ∈ Finset.range (n + 1), n.choose i * statCum k θ σ lam μ (i + 1) * val (n - i) := by
  have H : ∀ i, ∃ r, i ≤ n + 1 → umomentV d i simplify = .ok r ∧
      ∀ k θ σ lam μ : ℝ, k ≠ 0 → 0 ≤ lam → 0 < μ → ∀ M, Stationary k θ σ lam μ M →
        ev (statVal k (if simplify then θ else θ + lam * μ / k) σ lam μ) r = M i := by
    intro i
    by_cases hi : i ≤ n + 1
    · obtain ⟨r, e, -, -, v⟩ := C51_moment_v d i (by omega) simplify
      exact ⟨r, fun _ => ⟨e, v⟩⟩
    · exact ⟨⟨[], []⟩, fun h => absurd h hi⟩
  choose r hr using H
  refine ⟨r, fun i hi => (hr i hi).1, fun k θ σ lam μ hk hl hμ => ?_⟩
  obtain ⟨M, hM, -⟩ := C51_stationary k θ σ lam μ hk hμ
  have hv : ∀ i ≤ n + 1, _ := fun i hi => (hr i hi).2 k θ σ lam μ hk hl hμ M hM
  intro val
  rw [show val (n + 1) = M (n + 1) from hv _ le_rfl, stat_cum hk hμ hM n]
  exact Finset.sum_congr rfl fun i _ => by rw [show val (n - i) = M (n - i) from hv _ (by omega)]

/-- C80. `cmoment_v(2)`, `cmoment_v(3)` and `cmoment_v(4)` of cmom.py evaluate to `κ₂`, `κ₃` and `κ₄ + 3 κ₂²`. -/
theorem C80_central (d : ℕ) (hd : 4 ≤ d) : ∃ r2 r3 r4 : IPoly,
    ucmomentV d 2 = .ok r2 ∧ ucmomentV d 3 = .ok r3 ∧ ucmomentV d 4 = .ok r4 ∧
    ∀ k θ σ lam μ : ℝ, k ≠ 0 → 0 ≤ lam → 0 < μ →
      ev (statVal k (θ + lam * μ / k) σ lam μ) r2 = statCum k θ σ lam μ 2 ∧
      ev (statVal k (θ + lam * μ / k) σ lam μ) r3 = statCum k θ σ lam μ 3 ∧
      ev (statVal k (θ + lam * μ / k) σ lam μ) r4 = statCum k θ σ lam μ 4 + 3 * statCum k θ σ lam μ 2 ^ 2 := by
  obtain ⟨r2, e2, v2⟩ := cen_val d 2 (by omega)
  obtain ⟨r3, e3, v3⟩ := cen_val d 3 (by omega)
  obtain ⟨r4, e4, v4⟩ := cen_val d 4 (by omega)
  refine ⟨r2, r3, r4, e2, e3, e4, fun k θ σ lam μ hk hl hμ => ?_⟩
  rw [v2 _ _ _ _ _ hk hl hμ, v3 _ _ _ _ _ hk hl hμ, v4 _ _ _ _ _ hk hl hμ]
  have c0 : cmS k (θ + lam * μ / k) σ lam μ 0 = 1 := by rw [cmS]
  have c1 := cen_cum (θ := θ) (σ := σ) (lam := lam) (μ := μ) hk 0
  have c2 := cen_cum (θ := θ) (σ := σ) (lam := lam) (μ := μ) hk 1
  have c3 := cen_cum (θ := θ) (σ := σ) (lam := lam) (μ := μ) hk 2
  have c4 := cen_cum (θ := θ) (σ := σ) (lam := lam) (μ := μ) hk 3
  simp [Finset.sum_range_succ, c0] at c1 c2
  simp [Finset.sum_range_succ, c0, c1] at c3
  simp [Finset.sum_range_succ, c0, c1, c2, Nat.choose] at c4
  refine ⟨c2, c3, ?_⟩
  rw [c4]; ring

/-- C80. Every central moment of the stationary law is nonnegative, also those of odd order. -/
theorem C80_nonneg (d n : ℕ) (hd : n ≤ d) : ∃ r, ucmomentV d n = .ok r ∧
    ∀ k θ σ lam μ : ℝ, 0 < k → 0 ≤ θ → 0 ≤ lam → 0 < μ →
      0 ≤ ev (statVal k (θ + lam * μ / k) σ lam μ) r := by
  obtain ⟨r, e, v⟩ := cen_val d n hd
  refine ⟨r, e, fun k θ σ lam μ hk hθ hl hμ => ?_⟩
  rw [v _ _ _ _ _ hk.ne' hl hμ]
  exact cmS_nonneg hk hθ hl hμ n

/-- C80. The stationary law is skewed to the right and has fatter tails than the normal law, unless it is
degenerate. -/
theorem C80_shape (d : ℕ) (hd : 4 ≤ d) : ∃ r2 r3 r4 : IPoly,
    ucmomentV d 2 = .ok r2 ∧ ucmomentV d 3 = .ok r3 ∧ ucmomentV d 4 = .ok r4 ∧
    ∀ k θ σ lam μ : ℝ, 0 < k → 0 ≤ θ → 0 ≤ lam → 0 < μ → 0 < lam ∨ 0 < θ ∧ σ ≠ 0 →
      0 < ev (statVal k (θ + lam * μ / k) σ lam μ) r3 ∧
      3 * ev (statVal k (θ + lam * μ / k) σ lam μ) r2 ^ 2 < ev (statVal k (θ + lam * μ / k) σ lam μ) r4 := by
  obtain ⟨r2, r3, r4, e2, e3, e4, v⟩ := C80_central d hd
  refine ⟨r2, r3, r4, e2, e3, e4, fun k θ σ lam μ hk hθ hl hμ h => ?_⟩
  obtain ⟨v2, v3, v4⟩ := v k θ σ lam μ hk.ne' hl hμ
  rw [v2, v3, v4]
  have h3 := (statCum_pos (σ := σ) hk hθ hl hμ 2).2 h
  have h4 := (statCum_pos (σ := σ) hk hθ hl hμ 3).2 h
  exact ⟨h3, by linarith⟩

/-! ### the hypotheses are met, and the values -/

/-- without jumps: the third cumulant `2 θ β²` of the Gamma law -/
example : statCum 2 3 1 0 1 3 = 2 * (3 * (1 / 4) ^ 2) := by
  norm_num [statCum, Nat.factorial]

/-- without diffusion: the cumulants of the shot noise, `(λ/k) (n-1)! μ^n` above the first -/
example : statCum 2 3 0 5 (1 / 2) 4 = 6 * (5 / 2 * (1 / 2) ^ 4) := by
  norm_num [statCum, Nat.factorial, Finset.sum_range_succ]

example : ∃! M, Stationary 2 3 1 5 (1 / 2) M := C51_stationary 2 3 1 5 (1 / 2) (by norm_num) (by norm_num)

end Ajd.Srjd
