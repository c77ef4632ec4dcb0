import Verif.Lemmas.SrjdCmom2

/-! C51: moments of the stationary law of the square-root jump-diffusion. -/

namespace Ajd.Srjd
open Poly

/-- value of a key `('k^{-}', 'E[v]' or 'theta', 'sigma', 'lmbd', 'mu_v')`; `b` is the value of the second -/
noncomputable def statVal (k b σ lam μ : ℝ) (K : List ℤ) : ℝ :=
  k ^ (-ix K 0) * b ^ ix K 1 * σ ^ ix K 2 * lam ^ ix K 3 * μ ^ ix K 4

theorem statVal_eq : statVal = vS := by
  funext k b σ lam μ K
  rw [statVal, vS]; ring

/-- C51. A stationary family of moments exists and is unique. -/
theorem C51_stationary (k θ σ lam μ : ℝ) (hk : k ≠ 0) (hμ : 0 < μ) : ∃! M, Stationary k θ σ lam μ M :=
  ⟨_, stat_rmS k θ σ lam μ hk hμ, fun _ h => funext fun n => stat_unique hk hμ h (stat_rmS k θ σ lam μ hk hμ) n⟩

/-- C51. The mean of the stationary law is `θ + λ μ / k`, which the code calls `E[v]`. -/
theorem C51_mean (k θ σ lam μ : ℝ) (hk : k ≠ 0) (hμ : 0 < μ) (M : ℕ → ℝ) (h : Stationary k θ σ lam μ M) :
    M 1 = θ + lam * μ / k := by
  rw [stat_unique hk hμ h (stat_rmS k θ σ lam μ hk hμ), rmS_one]

/-- C51. `cmoment_v(n)` of cmom.py raises nothing, for every `n`, and evaluates to the `n`-th central moment
of the stationary law. -/
theorem C51_cmoment_v (d n : ℕ) (hd : n ≤ d) : ∃ r, ucmomentV d n = .ok r ∧
    r.keyfor = ["k^{-}", "E[v]", "sigma", "lmbd", "mu_v"] ∧ r.WF ∧
    ∀ k θ σ lam μ : ℝ, k ≠ 0 → 0 ≤ lam → 0 < μ → ∀ M, Stationary k θ σ lam μ M →
      ev (statVal k (θ + lam * μ / k) σ lam μ) r =
        ∑ i ∈ Finset.range (n + 1), n.choose i * (-M 1) ^ (n - i) * M i := by
  obtain ⟨r, e, k, w, -, v⟩ := ucmomentV_spec d n hd
  refine ⟨r, e, k, w, fun k θ σ lam μ hk hl hμ M hM => ?_⟩
  rw [C51_mean k θ σ lam μ hk hμ M hM]
  have h := v ⟨0, k, θ, σ, lam, μ, 0⟩ ⟨hk, hl, hμ⟩ (θ + lam * μ / k)
  rw [statVal_eq]
  refine h.trans ?_
  rw [cmS_of_rmS]
  exact Finset.sum_congr rfl fun i _ => by rw [stat_unique hk hμ hM (stat_rmS k θ σ lam μ hk hμ)]

/-- C51. `moment_v(n, simplify)` of mom.py raises nothing and evaluates to the `n`-th moment of the
stationary law, in powers of `E[v]` or expanded in powers of `theta`. -/
theorem C51_moment_v (d n : ℕ) (hd : n ≤ d) (simplify : Bool) : ∃ r, umomentV d n simplify = .ok r ∧
    r.keyfor = ["k^{-}", if simplify then "theta" else "E[v]", "sigma", "lmbd", "mu_v"] ∧ r.WF ∧
    ∀ k θ σ lam μ : ℝ, k ≠ 0 → 0 ≤ lam → 0 < μ → ∀ M, Stationary k θ σ lam μ M →
      ev (statVal k (if simplify then θ else θ + lam * μ / k) σ lam μ) r = M n := by
  obtain ⟨r, e, kf, w, c, v⟩ := umomentE_spec d n hd
  have hv : ∀ k θ σ lam μ : ℝ, k ≠ 0 → 0 ≤ lam → 0 < μ → ∀ M, Stationary k θ σ lam μ M →
      ev (statVal k (θ + lam * μ / k) σ lam μ) r = M n := fun k θ σ lam μ hk hl hμ M hM => by
    rw [statVal_eq]
    refine (v ⟨0, k, θ, σ, lam, μ, 0⟩ ⟨hk, hl, hμ⟩ (θ + lam * μ / k)).trans ?_
    rw [stat_unique hk hμ hM (stat_rmS k θ σ lam μ hk hμ)]
  rw [umomentV, if_neg (by omega), e]
  cases simplify with
  | false => exact ⟨r, rfl, kf, w, hv⟩
  | true =>
    refine ⟨expandE r, rfl, by simp [expandE], ofTerms_WF _ _, fun k θ σ lam μ hk hl hμ M hM => ?_⟩
    rw [← hv k θ σ lam μ hk hl hμ M hM, statVal_eq]
    exact (expandE_spec k θ σ lam μ hk r c).2

/-- C51. Negative orders raise `ValueError`. -/
theorem C51_negative (d : ℕ) (n : ℤ) (hn : n < 0) (simplify : Bool) :
    ucmomentV d n = .error .valueError ∧ umomentV d n simplify = .error .valueError := by
  rw [ucmomentV, umomentV, if_pos hn, if_pos hn]
  exact ⟨rfl, rfl⟩

/-! ### the hypotheses are met, and the values -/

/-- docs/source/srjd.rst: the stationary variance `σ² E[v] / (2k) + λ μ² / k` -/
example : ucmomentV 4 2 = .ok ⟨["k^{-}", "E[v]", "sigma", "lmbd", "mu_v"],
    [([1, 0, 0, 1, 2], 1), ([1, 1, 2, 0, 0], 1 / 2)]⟩ := by decide +kernel

/-- the square-root process without jumps: the variance of the Gamma law -/
example (M : ℕ → ℝ) (h : Stationary 2 3 1 0 1 M) : M 2 - M 1 ^ 2 = 3 / 4 := by
  obtain ⟨r, e, -, -, v⟩ := C51_cmoment_v 4 2 (by norm_num)
  have e' : ucmomentV 4 2 = .ok ⟨["k^{-}", "E[v]", "sigma", "lmbd", "mu_v"],
    [([1, 0, 0, 1, 2], 1), ([1, 1, 2, 0, 0], 1 / 2)]⟩ := by decide +kernel
  obtain rfl := Except.ok.inj (e.symm.trans e')
  have hv := v 2 3 1 0 1 (by norm_num) le_rfl one_pos M h
  have h0 := h.zero
  simp [ev, statVal, ix, Finset.sum_range_succ, Rat.smul_def] at hv
  rw [h0] at hv
  norm_num at hv
  linarith

example : umomentV 4 (-1) true = .error .valueError := (C51_negative 4 (-1) (by norm_num) true).2

end Ajd.Srjd
