import Verif.Props.Srjd3
import Verif.Props.Srjd4

/-! C67: over a long interval the conditional moments of `mdl_srjd` forget the initial variance. -/

namespace Ajd

open Filter Topology

/-- the value `f h` is a number for all `h ≥ 0`, and it tends to `c` as `h → ∞` -/
def LongRun (f : ℝ → Except PyErr ℝ) (c : ℝ) : Prop :=
  ∃ a : ℝ → ℝ, (∀ h, 0 ≤ h → f h = .ok (a h)) ∧ Tendsto a atTop (𝓝 c)

theorem decay_le {f g : ℝ → ℝ} {a : ℝ} (ha : 0 < a) (hf : ∀ t, 0 < t → HasDerivAt f (-(a * f t) + g t) t)
    (hg : Tendsto g atTop (𝓝 0)) {ε : ℝ} (hε : 0 < ε) : ∀ᶠ t in atTop, f t < ε := by
  have h1 : ∀ᶠ t in atTop, g t < a * (ε / 2) := hg.eventually_lt_const (by positivity)
  obtain ⟨T, hT⟩ := (h1.and (eventually_gt_atTop 0)).exists_forall_of_atTop
  set F : ℝ → ℝ := fun t => Real.exp (a * t) * (f t - ε / 2) with hF
  have hd : ∀ t, 0 < t → HasDerivAt F (Real.exp (a * t) * (g t - a * (ε / 2))) t := fun t ht => by
    have e : HasDerivAt (fun t => Real.exp (a * t)) (Real.exp (a * t) * a) t := by
      simpa using ((hasDerivAt_id t).const_mul a).exp
    exact (e.mul ((hf t ht).sub_const (ε / 2))).congr_deriv (by ring)
  have hanti : AntitoneOn F (Set.Ici T) := by
    refine antitoneOn_of_deriv_nonpos (convex_Ici T)
      (fun t ht => (hd t (hT t ht).2).continuousAt.continuousWithinAt)
      (fun t ht => ?_) fun t ht => ?_
    · exact (hd t (hT t (interior_subset ht)).2).differentiableAt.differentiableWithinAt
    · rw [(hd t (hT t (interior_subset ht)).2).deriv]
      exact mul_nonpos_of_nonneg_of_nonpos (Real.exp_pos _).le (by linarith [(hT t (interior_subset ht)).1])
  have hz : Tendsto (fun t => F T * Real.exp (-(a * t))) atTop (𝓝 0) := by
    have : Tendsto (fun t => a * t) atTop atTop := tendsto_id.const_mul_atTop ha
    simpa using (Real.tendsto_exp_neg_atTop_nhds_zero.comp this).const_mul (F T)
  filter_upwards [hz.eventually_lt_const (show 0 < ε / 2 by positivity), eventually_ge_atTop T] with t h1 h2
  have h3 : F t ≤ F T := hanti Set.self_mem_Ici h2 h2
  have h4 : f t - ε / 2 = F t * Real.exp (-(a * t)) := by
    simp only [hF]
    rw [mul_comm, ← mul_assoc, ← Real.exp_add]
    simp
  have h5 : F t * Real.exp (-(a * t)) ≤ F T * Real.exp (-(a * t)) :=
    mul_le_mul_of_nonneg_right h3 (Real.exp_pos _).le
  linarith

/-- a linear equation that is stable and whose inhomogeneity vanishes at infinity -/
theorem decay {f g : ℝ → ℝ} {a : ℝ} (ha : 0 < a) (hf : ∀ t, 0 < t → HasDerivAt f (-(a * f t) + g t) t)
    (hg : Tendsto g atTop (𝓝 0)) : Tendsto f atTop (𝓝 0) := by
  rw [Metric.tendsto_nhds]
  intro ε hε
  have hf' : ∀ t, 0 < t → HasDerivAt (fun t => -f t) (-(a * -f t) + -g t) t := fun t ht =>
    (hf t ht).neg.congr_deriv (by ring)
  filter_upwards [decay_le ha hf hg hε, decay_le ha hf' (by simpa using hg.neg) hε] with t h1 h2
  rw [Real.dist_eq, sub_zero, abs_lt]
  constructor <;> linarith

namespace Srjd

theorem dynkin_long {k θ σ lam μ x : ℝ} (hk : 0 < k) (hμ : 0 < μ) {V : ℕ → ℝ → ℝ} (hV : Dynkin k θ σ lam μ x V)
    {M : ℕ → ℝ} (hM : Stationary k θ σ lam μ M) (n : ℕ) : Tendsto (V n) atTop (𝓝 (M n)) := by
  obtain ⟨-, -, hd⟩ := (dynkin_iff k θ σ lam μ x hμ V).1 hV
  suffices h : ∀ n, Tendsto (fun t => V n t - M n) atTop (𝓝 0) by
    simpa using (h n).add_const (M n)
  intro n
  induction n using Nat.strong_induction_on with
  | _ n ih =>
    rcases n with _ | n
    · have h1 : ∀ t, 0 < t → V 0 t = 1 := fun t ht => by
        have hc : ∀ t, 0 < t → HasDerivAt (fun t => V 0 t - 1) (0 * (V 0 t - 1)) t := fun t ht =>
          ((hd 0 t ht).sub_const 1).congr_deriv (by simp)
        have := linear_zero 0 (fun t => V 0 t - 1) (by simp [hV.init]) ((hV.cont 0).sub continuousOn_const) hc t ht.le
        linarith
      refine tendsto_const_nhds.congr' ?_
      filter_upwards [eventually_gt_atTop 0] with t ht
      rw [h1 t ht, hM.zero, sub_self]
    · have e := hM.gen (n + 1) _ (gen_pow k θ σ lam hμ (n + 1))
      rw [← Lp_eq, Lp_genPoly, Nat.add_sub_cancel] at e
      have ha : 0 < ((n + 1 : ℕ) : ℝ) * k := by positivity
      refine decay (g := fun t => ((n + 1 : ℕ) * k * θ + (n + 1 : ℕ) * n * σ ^ 2 / 2) * (V n t - M n) +
        lam * ∑ j ∈ Finset.range (n + 1), (n + 1).choose (j + 1) * ((j + 1).factorial * μ ^ (j + 1)) *
          (V (n + 1 - (j + 1)) t - M (n + 1 - (j + 1)))) ha (fun t ht => ?_) ?_
      · have hs := hd (n + 1) t ht
        rw [Nat.add_sub_cancel] at hs
        refine (hs.sub_const (M (n + 1))).congr_deriv ?_
        simp only [mul_sub, Finset.sum_sub_distrib] at e ⊢
        linear_combination e
      · have h1 := (ih n (by omega)).const_mul (((n + 1 : ℕ) : ℝ) * k * θ + (n + 1 : ℕ) * n * σ ^ 2 / 2)
        have h2 : Tendsto (fun t => ∑ j ∈ Finset.range (n + 1), ((n + 1).choose (j + 1) : ℝ) *
            ((j + 1).factorial * μ ^ (j + 1)) * (V (n + 1 - (j + 1)) t - M (n + 1 - (j + 1)))) atTop
            (𝓝 (∑ j ∈ Finset.range (n + 1), ((n + 1).choose (j + 1) : ℝ) * ((j + 1).factorial * μ ^ (j + 1)) * 0)) :=
          tendsto_finset_sum _ fun j _ => (ih _ (by omega)).const_mul _
        simpa using h1.add (h2.const_mul lam)

/-- C67. `m(n, par)` of `mdl_srjd/cond_mom.py` tends, as `par['h']` grows, to the value of `moment_v(n)` of
`mdl_srjd/mom.py`, whatever the initial variance. -/
theorem C67_moment (p : Par) (hk : 0 < p.k) (hl : 0 ≤ p.lmbd) (hm : 0 < p.mu_v) (d d' n : ℕ) (hd : n ≤ d) (h2 : 2 ≤ d)
    (hd' : n ≤ d') : ∃ r, umomentV d' n false = .ok r ∧
      LongRun (fun h => mV d n { p with h := h })
        (Poly.ev (statVal p.k (p.theta + p.lmbd * p.mu_v / p.k) p.sigma p.lmbd p.mu_v) r) := by
  obtain ⟨M, hM, -⟩ := C51_stationary p.k p.theta p.sigma p.lmbd p.mu_v hk.ne' hm
  obtain ⟨V, hV, e⟩ := C50_dynkin p hk.ne' hl hm
  obtain ⟨r, er, -, -, v⟩ := C51_moment_v d' n hd' false
  refine ⟨r, er, V n, fun h hh => e d n h hd h2 hh, ?_⟩
  have := v p.k p.theta p.sigma p.lmbd p.mu_v hk.ne' hl hm M hM
  rw [if_neg (by simp)] at this
  rw [this]
  exact dynkin_long hk hm hV hM n

/-- C67. `cm(n, par)` of `mdl_srjd/cond_cmom.py` tends to the value of `cmoment_v(n)` of `mdl_srjd/cmom.py`. -/
theorem C67_cmoment (p : Par) (hk : 0 < p.k) (hl : 0 ≤ p.lmbd) (hm : 0 < p.mu_v) (d d' n : ℕ) (hd : n ≤ d) (h2 : 2 ≤ d)
    (hd' : n ≤ d') : ∃ r, ucmomentV d' n = .ok r ∧
      LongRun (fun h => cmV d n { p with h := h })
        (Poly.ev (statVal p.k (p.theta + p.lmbd * p.mu_v / p.k) p.sigma p.lmbd p.mu_v) r) := by
  obtain ⟨M, hM, -⟩ := C51_stationary p.k p.theta p.sigma p.lmbd p.mu_v hk.ne' hm
  obtain ⟨V, hV, e⟩ := C50_dynkin p hk.ne' hl hm
  obtain ⟨r, er, -, -, v⟩ := C51_cmoment_v d' n hd'
  obtain ⟨r', er', -, -, v'⟩ := C36_cmoment_v d n hd h2
  refine ⟨r, er, fun h => ∑ i ∈ Finset.range (n + 1), n.choose i * (-V 1 h) ^ (n - i) * V i h, fun h hh => ?_, ?_⟩
  · beta_reduce
    rw [cmV, er', ok_bind, v' { p with h := h } hk.ne' hl hm hh V hV]
    rfl
  · rw [v p.k p.theta p.sigma p.lmbd p.mu_v hk.ne' hl hm M hM]
    refine tendsto_finset_sum _ fun i _ => ?_
    exact (((dynkin_long hk hm hV hM 1).neg.pow _).const_mul _).mul (dynkin_long hk hm hV hM i)

/-- the hypotheses are met: from `v_0 = 7` the mean tends to `θ + λ μ / k = 1 + 4 * 1 / 2` -/
example : LongRun (fun h => mV 2 1 { (⟨7, 2, 1, 1, 4, 1, 0⟩ : Par) with h := h }) 3 := by
  obtain ⟨r, e, h⟩ := C67_moment ⟨7, 2, 1, 1, 4, 1, 0⟩ (by norm_num) (by norm_num) (by norm_num) 2 2 1 (by norm_num)
    (by norm_num) (by norm_num)
  have e' : umomentV 2 1 false = .ok ⟨["k^{-}", "E[v]", "sigma", "lmbd", "mu_v"], [([0, 1, 0, 0, 0], 1)]⟩ := by
    decide +kernel
  rw [Nat.cast_one, e'] at e
  obtain rfl := Except.ok.inj e
  have e3 : Poly.ev (statVal 2 (1 + 4 * 1 / 2) 1 4 1) (⟨["k^{-}", "E[v]", "sigma", "lmbd", "mu_v"],
      [([0, 1, 0, 0, 0], 1)]⟩ : IPoly) = 3 := by
    simp [Poly.ev, statVal, ix, Rat.smul_def]
    norm_num
  rw [← e3]
  exact h

end Srjd
end Ajd
