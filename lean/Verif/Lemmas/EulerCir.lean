import Verif.Lemmas.EulerMain
import Mathlib.Analysis.SpecialFunctions.Pow.Asymptotics

/-! The replacement of negative variances in an Euler scheme is negligible. -/

namespace Ajd.Scheme
open MvPolynomial MeasureTheory ProbabilityTheory Filter Topology

variable {σ κ : Type} [Fintype σ] [Fintype κ] (S : Sch σ κ)

/-- coordinate `c` is a square-root process with its own noise -/
structure Cir (c : σ) where
  /-- speed of mean reversion -/
  k : ℝ
  /-- level -/
  theta : ℝ
  /-- volatility -/
  vol : ℝ
  /-- the noise -/
  ix : κ
  hk : 0 < k
  ht : 0 < theta
  hT : S.T c = true
  hb : ∀ s, eval s (S.b c) = k * (theta - s c)
  hx : ∀ s z, S.xi s z c = vol * (√(s c) * z ix)

theorem eval_pres (k : κ) : MeasurePreserving (fun z : κ → ℝ => z k) (N κ) (gaussianReal 0 1) :=
  measurePreserving_eval (fun _ : κ => gaussianReal 0 1) k

theorem int_exp (k : κ) (a t : ℝ) : Integrable (fun z : κ → ℝ => Real.exp (a + t * z k)) (N κ) ∧
    ∫ z : κ → ℝ, Real.exp (a + t * z k) ∂(N κ) = Real.exp (a + t ^ 2 / 2) := by
  have h1 : Integrable (fun z : κ → ℝ => Real.exp (t * z k)) (N κ) :=
    (eval_pres k).integrable_comp_of_integrable (g := fun x => Real.exp (t * x)) (integrable_exp_mul_gaussianReal t)
  have h2 : ∫ z : κ → ℝ, Real.exp (t * z k) ∂(N κ) = Real.exp (t ^ 2 / 2) := by
    have h := mgf_gaussianReal (p := N κ) (X := fun z : κ → ℝ => z k) (μ := 0) (v := 1) (eval_pres k).map_eq t
    rw [mgf] at h
    simpa using h
  simp only [Real.exp_add]
  exact ⟨h1.const_mul _, by rw [integral_const_mul, h2]⟩

variable {S} {c : σ} (hc : Cir S c)

include hc in
theorem step_c (e : ℝ) (s : σ → ℝ) (z : κ → ℝ) : S.step e s z c = max (S.pre e s z c) 0 := by
  rw [Sch.step, Sch.trunc, if_pos hc.hT]

theorem pre_c (e : ℝ) (s : σ → ℝ) (z : κ → ℝ) :
    S.pre e s z c = s c + e ^ 2 * (hc.k * (hc.theta - s c)) + e * (hc.vol * (√(s c) * z hc.ix)) := by
  rw [Sch.pre, hc.hb, hc.hx]

/-! ### how often the variance is small -/

/-- Laplace transform of the coordinate -/
noncomputable def lap (c : σ) (μ : Measure (σ → ℝ)) (l : ℝ) : ℝ := ∫ s, Real.exp (-(l * s c)) ∂μ

include hc in
theorem lap_int {μ : Measure (σ → ℝ)} (hμ : Good S μ) (l : ℝ) (hl : 0 ≤ l) : Integrable (fun s => Real.exp (-(l * s c))) μ := by
  have := hμ.prob
  refine Integrable.of_bound (Measurable.aestronglyMeasurable (by fun_prop)) 1 ?_
  filter_upwards [hμ.pos] with s hs
  have := hs c hc.hT
  rw [Real.norm_eq_abs, abs_of_pos (Real.exp_pos _), Real.exp_le_one_iff]
  nlinarith

include hc in
theorem lap_le_one {μ : Measure (σ → ℝ)} (hμ : Good S μ) (l : ℝ) (hl : 0 ≤ l) : lap c μ l ≤ 1 := by
  have := hμ.prob
  have h : ∫ _s : σ → ℝ, (1 : ℝ) ∂μ = 1 := by simp
  rw [lap, ← h]
  refine integral_mono_ae (lap_int hc hμ l hl) (integrable_const 1) ?_
  filter_upwards [hμ.pos] with s hs
  have := hs c hc.hT
  rw [Real.exp_le_one_iff]
  nlinarith

theorem lap_step {μ : Measure (σ → ℝ)} (hμ : Good S μ) (e : ℝ) (B : ℝ) (hB : hc.vol ^ 2 / 2 ≤ B) (l : ℝ) (hl : 0 ≤ l)
    (h : hc.k * e ^ 2 + l * B * e ^ 2 ≤ 1) (j : ℕ) : lap c (S.law e μ (j + 1)) l ≤
      Real.exp (-(l * hc.k * hc.theta * e ^ 2)) * lap c (S.law e μ j) (l * (1 - hc.k * e ^ 2 - l * B * e ^ 2)) := by
  have hg := good_law S e hμ j
  have := hg.prob
  have hm := (S.cont_step e).measurable
  have hl' : 0 ≤ l * (1 - hc.k * e ^ 2 - l * B * e ^ 2) := mul_nonneg hl (by linarith)
  rw [lap, Sch.law, integral_map hm.aemeasurable (Measurable.aestronglyMeasurable (by fun_prop))]
  have hi : Integrable (fun q : (σ → ℝ) × (κ → ℝ) => Real.exp (-(l * S.step e q.1 q.2 c))) ((S.law e μ j).prod (N κ)) := by
    refine Integrable.of_bound (Measurable.aestronglyMeasurable (by fun_prop)) 1 (Filter.Eventually.of_forall fun q => ?_)
    have : 0 ≤ S.step e q.1 q.2 c := S.pos_trunc _ c hc.hT
    rw [Real.norm_eq_abs, abs_of_pos (Real.exp_pos _), Real.exp_le_one_iff]
    nlinarith
  rw [integral_prod _ hi, lap, ← integral_const_mul]
  refine integral_mono_ae hi.integral_prod_left ((lap_int hc hg _ hl').const_mul _) ?_
  filter_upwards [hg.pos] with s hs
  have hs0 := hs c hc.hT
  have hx := int_exp hc.ix (-(l * (s c + e ^ 2 * (hc.k * (hc.theta - s c))))) (-(l * (e * (hc.vol * √(s c)))))
  have e1 : ∀ z : κ → ℝ, Real.exp (-(l * (s c + e ^ 2 * (hc.k * (hc.theta - s c)))) + -(l * (e * (hc.vol * √(s c)))) * z hc.ix) =
      Real.exp (-(l * S.pre e s z c)) := fun z => by rw [pre_c hc]; congr 1; ring
  simp only [e1] at hx
  refine (integral_mono_of_nonneg (Filter.Eventually.of_forall fun z => (Real.exp_pos _).le) hx.1
    (Filter.Eventually.of_forall fun z => ?_)).trans ?_
  · simp only [Real.exp_le_exp]
    have := le_max_left (S.pre e s z c) 0
    rw [step_c hc]
    nlinarith
  · rw [hx.2, ← Real.exp_add, Real.exp_le_exp]
    have h2 : (-(l * (e * (hc.vol * √(s c))))) ^ 2 = l ^ 2 * e ^ 2 * hc.vol ^ 2 * s c := by
      have := Real.mul_self_sqrt hs0
      linear_combination (l ^ 2 * e ^ 2 * hc.vol ^ 2) * this
    rw [h2]
    have h3 : l ^ 2 * e ^ 2 * s c * (hc.vol ^ 2 / 2) ≤ l ^ 2 * e ^ 2 * s c * B :=
      mul_le_mul_of_nonneg_left hB (by positivity)
    nlinarith

theorem lap_bound {μ : Measure (σ → ℝ)} (hμ : Good S μ) (e : ℝ) (he : 0 ≤ e) (B : ℝ) (hB : hc.vol ^ 2 / 2 ≤ B) (hB0 : 0 < B)
    (T : ℝ) (hT : 0 ≤ T) (j : ℕ) : j * e ^ 2 ≤ T → ∀ l, 0 ≤ l → hc.k * e ^ 2 + l * B * e ^ 2 ≤ 1 / 2 →
      lap c (S.law e μ j) l ≤ (1 + B * l * (j * e ^ 2)) ^ (-(hc.k * hc.theta / (2 * B * (1 + hc.k * T)))) := by
  have hk := hc.hk
  have ht := hc.ht
  set a := hc.k * hc.theta / (2 * B * (1 + hc.k * T)) with ha
  have ha0 : 0 < a := by positivity
  induction j with
  | zero =>
    intro _ l hl _
    have := lap_le_one hc hμ l hl
    simpa [Sch.law] using this
  | succ j ih =>
    intro hj l hl h
    have hj' : j * e ^ 2 ≤ T := le_trans (by push_cast; nlinarith [sq_nonneg e]) hj
    have hlam : 1 / 2 ≤ 1 - hc.k * e ^ 2 - l * B * e ^ 2 := by linarith
    have hkd : 0 ≤ hc.k * e ^ 2 + l * B * e ^ 2 := by positivity
    set l' := l * (1 - hc.k * e ^ 2 - l * B * e ^ 2) with hl'
    have hl0 : 0 ≤ l' := mul_nonneg hl (by linarith)
    have hll : l' ≤ l := by nlinarith
    have h1 := lap_step hc hμ e B hB l hl (by linarith) j
    have h2 := ih hj' l' hl0 (by nlinarith [mul_le_mul_of_nonneg_right hll (by positivity : 0 ≤ B * e ^ 2)])
    refine h1.trans ((mul_le_mul_of_nonneg_left h2 (Real.exp_nonneg _)).trans ?_)
    have hp : 0 < 1 + B * l' * (j * e ^ 2) := by positivity
    have h3 : Real.exp (-(l * hc.k * hc.theta * e ^ 2)) = Real.exp (l * (2 * B * (1 + hc.k * T)) * e ^ 2) ^ (-a) := by
      rw [← Real.exp_mul, ha]
      congr 1
      field_simp
    rw [h3, ← Real.mul_rpow (Real.exp_nonneg _) hp.le]
    refine Real.rpow_le_rpow_of_nonpos (by positivity) ?_ (by linarith)
    have h4 := Real.add_one_le_exp (l * (2 * B * (1 + hc.k * T)) * e ^ 2)
    refine le_trans ?_ (mul_le_mul_of_nonneg_right h4 hp.le)
    set t := j * e ^ 2 with htt
    have ht0 : 0 ≤ t := by positivity
    rw [show ((j + 1 : ℕ) : ℝ) * e ^ 2 = t + e ^ 2 by push_cast; ring]
    have hle : 0 ≤ l * e ^ 2 := by positivity
    have key : 0 ≤ l * e ^ 2 * (2 * B * (1 + hc.k * T) * (1 + B * l' * t) - B * t * (hc.k + l * B) - B) := by
      refine mul_nonneg hle ?_
      have k1 : 2 * B * (1 + hc.k * T) * (B * l' * t) ≥ B * l * B * t := by
        have : l ≤ 2 * l' := by nlinarith
        have h5 : 1 ≤ 1 + hc.k * T := by nlinarith
        calc B * l * B * t ≤ B * (2 * l') * B * t := by gcongr
          _ = 2 * B * 1 * (B * l' * t) := by ring
          _ ≤ _ := by gcongr
      have k2 : B * t * hc.k ≤ B * T * hc.k := by gcongr
      have k3 : 0 ≤ B * T * hc.k := by positivity
      nlinarith
    have e2 : (l * (2 * B * (1 + hc.k * T)) * e ^ 2 + 1) * (1 + B * l' * t) - (1 + B * l * (t + e ^ 2)) =
        l * e ^ 2 * (2 * B * (1 + hc.k * T) * (1 + B * l' * t) - B * t * (hc.k + l * B) - B) := by
      rw [hl']
      ring
    linarith

/-! ### the size of the replaced values -/

theorem neg_part {x m y : ℝ} (hm : 0 < m) (hx : x = m + y) : (max x 0 - x) ^ 2 * m ^ 4 ≤ y ^ 6 := by
  rcases le_total 0 x with h | h
  · rw [max_eq_left h, sub_self, zero_pow two_ne_zero, zero_mul]
    positivity
  · rw [max_eq_right h]
    have h1 : m ≤ -y := by linarith
    have h2 : (0 - x) ^ 2 ≤ y ^ 2 := by
      rw [← neg_sq y]
      exact pow_le_pow_left₀ (by linarith) (by linarith) 2
    have h3 : m ^ 4 ≤ y ^ 4 := by
      rw [← Even.neg_pow (by decide : Even 4) y]
      exact pow_le_pow_left₀ hm.le h1 4
    calc _ ≤ y ^ 2 * y ^ 4 := mul_le_mul h2 h3 (by positivity) (by positivity)
      _ = y ^ 6 := by ring

/-- the sixth moment -/
noncomputable def m6 (κ : Type) [Fintype κ] (k : κ) : ℝ := ∫ z : κ → ℝ, z k ^ 6 ∂(N κ)

theorem m6_int (k : κ) : Integrable (fun z : κ → ℝ => z k ^ 6) (N κ) := by
  have h := momN (κ := κ) (X k ^ 6)
  simp only [eval_pow, eval_X] at h
  exact h

theorem m6_nonneg (k : κ) : 0 ≤ m6 κ k := integral_nonneg fun z => by simp only [Pi.zero_apply]; positivity

theorem gap_c (e : ℝ) (hk : hc.k * e ^ 2 ≤ 1 / 2) (he : 0 < e) (s : σ → ℝ) (hs : S.Pos s) (l : ℝ) (hl : 0 < l) :
    ∫ z, (S.step e s z c - S.pre e s z c) ^ 2 ∂(N κ) ≤
      8 * hc.vol ^ 6 * m6 κ hc.ix * (e ^ 2) ^ 2 * (2 * e ^ 2 * l + Real.exp 1 / (hc.k * hc.theta) * Real.exp (-(l * s c))) := by
  have hs0 := hs c hc.hT
  have hk0 := hc.hk
  have ht0 := hc.ht
  have hm6 := m6_nonneg (κ := κ) hc.ix
  set v := s c
  set m := v + e ^ 2 * (hc.k * (hc.theta - v)) with hm
  have hkt : 0 < hc.k * hc.theta * e ^ 2 := by positivity
  have hm1 : v / 2 + hc.k * hc.theta * e ^ 2 ≤ m := by rw [hm]; nlinarith
  have hm0 : 0 < m := by linarith
  have hpt : ∀ z, (S.step e s z c - S.pre e s z c) ^ 2 ≤ (e * (hc.vol * √v)) ^ 6 / m ^ 4 * z hc.ix ^ 6 := by
    intro z
    rw [step_c hc, div_mul_eq_mul_div, le_div_iff₀ (by positivity), ← mul_pow]
    exact neg_part hm0 (by rw [pre_c hc]; ring)
  refine (integral_mono_of_nonneg (Filter.Eventually.of_forall fun z => sq_nonneg _) ((m6_int hc.ix).const_mul _)
    (Filter.Eventually.of_forall hpt)).trans ?_
  rw [integral_const_mul]
  change _ * m6 κ hc.ix ≤ _
  have e1 : (e * (hc.vol * √v)) ^ 6 = hc.vol ^ 6 * (e ^ 2) ^ 3 * v ^ 3 := by
    have : √v ^ 6 = v ^ 3 := by rw [show √v ^ 6 = (√v ^ 2) ^ 3 by ring, Real.sq_sqrt hs0]
    rw [mul_pow, mul_pow, this]
    ring
  rw [e1]
  have h1 : v ^ 3 / m ^ 4 ≤ 8 / m := by
    rw [div_le_div_iff₀ (by positivity) hm0]
    have : v ≤ 2 * m := by linarith
    have := pow_le_pow_left₀ hs0 this 3
    nlinarith
  have h2 : e ^ 2 / m ≤ 2 * e ^ 2 * l + Real.exp 1 / (hc.k * hc.theta) * Real.exp (-(l * v)) := by
    rcases le_total 1 (l * v) with h | h
    · have hv : 0 < v := by
        by_contra h0
        have : v = 0 := le_antisymm (not_lt.1 h0) hs0
        rw [this, mul_zero] at h
        linarith
      have : e ^ 2 / m ≤ 2 * e ^ 2 * l := by
        rw [div_le_iff₀ hm0]
        have h5 : 1 ≤ 2 * l * m := by nlinarith
        nlinarith [mul_le_mul_of_nonneg_left h5 (sq_nonneg e)]
      have h6 : 0 ≤ Real.exp 1 / (hc.k * hc.theta) * Real.exp (-(l * v)) := by positivity
      linarith
    · have h5 : e ^ 2 / m ≤ 1 / (hc.k * hc.theta) := by
        rw [div_le_div_iff₀ hm0 (by positivity)]
        nlinarith
      have h6 : 1 / (hc.k * hc.theta) ≤ Real.exp 1 / (hc.k * hc.theta) * Real.exp (-(l * v)) := by
        rw [div_mul_eq_mul_div, ← Real.exp_add]
        exact div_le_div_of_nonneg_right (Real.one_le_exp (by linarith)) (by positivity)
      have h7 : 0 ≤ 2 * e ^ 2 * l := by positivity
      linarith
  have h8 : hc.vol ^ 6 * (e ^ 2) ^ 3 * v ^ 3 / m ^ 4 * m6 κ hc.ix =
      hc.vol ^ 6 * m6 κ hc.ix * (e ^ 2) ^ 3 * (v ^ 3 / m ^ 4) := by ring
  rw [h8]
  have hp : 0 ≤ hc.vol ^ 6 * m6 κ hc.ix := mul_nonneg (by positivity) hm6
  calc hc.vol ^ 6 * m6 κ hc.ix * (e ^ 2) ^ 3 * (v ^ 3 / m ^ 4) ≤ hc.vol ^ 6 * m6 κ hc.ix * (e ^ 2) ^ 3 * (8 / m) :=
        mul_le_mul_of_nonneg_left h1 (mul_nonneg hp (by positivity))
    _ = 8 * hc.vol ^ 6 * m6 κ hc.ix * (e ^ 2) ^ 2 * (e ^ 2 / m) := by ring
    _ ≤ _ := mul_le_mul_of_nonneg_left h2 (by rw [mul_assoc 8]; positivity)

include hc in
theorem gapc_int (e : ℝ) {μ : Measure (σ → ℝ)} (hμ : Good S μ) :
    Integrable (fun q => (S.step e q.1 q.2 c - S.pre e q.1 q.2 c) ^ 2) (μ.prod (N κ)) := by
  have h1 := (S.cont_step e).measurable
  have h2 := (S.cont_pre e).measurable
  refine int_gr S hμ (Gr.pow one_le_VS ?_ 2) (by fun_prop)
  have h := Gr.add one_le_VS (gr_step S e c) (Gr.mul one_le_VS (Gr.const one_le_VS (-1)) (gr_pre S e c))
  refine h.mono fun q => ?_
  rw [neg_one_mul, ← sub_eq_add_neg]

theorem gap_law (e : ℝ) (hk : hc.k * e ^ 2 ≤ 1 / 2) (he : 0 < e) {μ : Measure (σ → ℝ)} (hμ : Good S μ) (l : ℝ) (hl : 0 < l) :
    ∫ q, (S.step e q.1 q.2 c - S.pre e q.1 q.2 c) ^ 2 ∂(μ.prod (N κ)) ≤
      8 * hc.vol ^ 6 * m6 κ hc.ix * (e ^ 2) ^ 2 * (2 * e ^ 2 * l + Real.exp 1 / (hc.k * hc.theta) * lap c μ l) := by
  have := hμ.prob
  have hi := gapc_int hc e hμ
  have hL := (lap_int hc hμ l hl.le).const_mul (Real.exp 1 / (hc.k * hc.theta))
  rw [integral_prod _ hi]
  refine (integral_mono_ae hi.integral_prod_left (((integrable_const (2 * e ^ 2 * l)).add hL).const_mul
    (8 * hc.vol ^ 6 * m6 κ hc.ix * (e ^ 2) ^ 2)) ?_).trans (le_of_eq ?_)
  · filter_upwards [hμ.pos] with s hs
    exact gap_c hc e hk he s hs l hl
  · rw [integral_const_mul]
    congr 1
    simp only [Pi.add_apply]
    rw [integral_add (integrable_const _) hL]
    simp only [lap, integral_const_mul]
    simp

/-! ### the sum over the steps -/

/-- `n^(1/4)` -/
noncomputable def rr (n : ℕ) : ℝ := √(√n)

theorem rr_sq (n : ℕ) : rr n ^ 2 = √n := Real.sq_sqrt (Real.sqrt_nonneg _)

theorem rr_tendsto : Tendsto rr atTop atTop :=
  Real.tendsto_sqrt_atTop.comp (Real.tendsto_sqrt_atTop.comp tendsto_natCast_atTop_atTop)

theorem sum_split (n : ℕ) (r g : ℝ) (φ : ℕ → ℝ) (h1 : ∀ j, φ j ≤ 1) (hg : 0 ≤ g) (hr : 0 < r)
    (h2 : ∀ j, j < n → n / r ≤ j → φ j ≤ g) : ∑ j ∈ Finset.range n, φ j ≤ n / r + 1 + n * g := by
  have h3 : ∀ j ∈ Finset.range n, φ j ≤ (if (j : ℝ) < n / r then 1 else 0) + g := by
    intro j hj
    split_ifs with h
    · linarith [h1 j]
    · linarith [h2 j (Finset.mem_range.1 hj) (not_lt.1 h)]
  refine (Finset.sum_le_sum h3).trans ?_
  rw [Finset.sum_add_distrib, Finset.sum_const, Finset.card_range, nsmul_eq_mul]
  refine add_le_add ?_ le_rfl
  rw [Finset.sum_ite, Finset.sum_const, Finset.sum_const_zero, add_zero, nsmul_eq_mul, mul_one]
  have hsub : Finset.filter (fun j : ℕ => (j : ℝ) < n / r) (Finset.range n) ⊆ Finset.range ⌈n / r⌉₊ := by
    intro j hj
    rw [Finset.mem_filter] at hj
    exact Finset.mem_range.2 (Nat.lt_ceil.2 hj.2)
  have hcard := Finset.card_le_card hsub
  rw [Finset.card_range] at hcard
  have h0 : (0 : ℝ) ≤ n / r := by positivity
  calc _ ≤ ((⌈n / r⌉₊ : ℕ) : ℝ) := by exact_mod_cast hcard
    _ ≤ n / r + 1 := (Nat.ceil_lt_add_one h0).le

include hc in
theorem cir_gap (T : ℝ) (hT : 0 < T) (μ : ℕ → Measure (σ → ℝ)) (hμ : ∀ n, Good S (μ n)) :
    Tendsto (fun n : ℕ => n * ∑ j ∈ Finset.range n, ∫ q, (S.step (rt T n) q.1 q.2 c - S.pre (rt T n) q.1 q.2 c) ^ 2
      ∂((S.law (rt T n) (μ n) j).prod (N κ))) atTop (𝓝 0) := by
  have hk := hc.hk
  have ht := hc.ht
  set B := hc.vol ^ 2 / 2 + 1 with hB
  have hB0 : 0 < B := by positivity
  have hB1 : hc.vol ^ 2 / 2 ≤ B := by linarith
  set a := hc.k * hc.theta / (2 * B * (1 + hc.k * T)) with ha
  have ha0 : 0 < a := by positivity
  set C := 8 * hc.vol ^ 6 * m6 κ hc.ix with hC
  have hC0 : 0 ≤ C := mul_nonneg (by positivity) (m6_nonneg _)
  set D := Real.exp 1 / (hc.k * hc.theta) with hD
  have hD0 : 0 ≤ D := by positivity
  let g : ℕ → ℝ := fun n => (1 + B * T * rr n) ^ (-a)
  have hg : Tendsto g atTop (𝓝 0) := by
    have h1 : Tendsto (fun n => 1 + B * T * rr n) atTop atTop :=
      tendsto_atTop_add_const_left _ _ (rr_tendsto.const_mul_atTop (by positivity))
    exact (tendsto_rpow_neg_atTop ha0).comp h1
  -- the length of a step times the root of the number of steps
  have hde : ∀ n : ℕ, 0 < n → T / n * √n = T / √n := by
    intro n hn
    have h0 : (0 : ℝ) < n := Nat.cast_pos.2 hn
    have h1 : 0 < √(n : ℝ) := Real.sqrt_pos.2 h0
    rw [div_mul_eq_mul_div, div_eq_div_iff h0.ne' h1.ne', mul_assoc, Real.mul_self_sqrt h0.le]
  have hsq : Tendsto (fun n : ℕ => T / √(n : ℝ)) atTop (𝓝 0) :=
    (Real.tendsto_sqrt_atTop.comp tendsto_natCast_atTop_atTop).const_div_atTop T
  have hrr : Tendsto (fun n : ℕ => 1 / rr n) atTop (𝓝 0) := rr_tendsto.const_div_atTop 1
  have hub : ∀ᶠ n : ℕ in atTop, n * ∑ j ∈ Finset.range n, ∫ q, (S.step (rt T n) q.1 q.2 c - S.pre (rt T n) q.1 q.2 c) ^ 2
      ∂((S.law (rt T n) (μ n) j).prod (N κ)) ≤ C * T ^ 2 * (2 * (T / √n) + D * (1 / rr n + 1 / n + g n)) := by
    have hev : Tendsto (fun n : ℕ => hc.k * (T / n) + B * (T / √n)) atTop (𝓝 0) := by
      have := ((tendsto_const_div_atTop_nhds_zero_nat T).const_mul hc.k).add (hsq.const_mul B)
      simpa using this
    filter_upwards [eventually_gt_atTop 0, hev.eventually (gt_mem_nhds (by norm_num : (0 : ℝ) < 1 / 2))] with n hn hsm
    have hn0 : (0 : ℝ) < n := Nat.cast_pos.2 hn
    have hsn : 0 < √(n : ℝ) := Real.sqrt_pos.2 hn0
    have hr0 : 0 < rr n := Real.sqrt_pos.2 hsn
    have he0 : 0 < rt T n := Real.sqrt_pos.2 (by positivity)
    have he2 := rt_sq T hT.le n
    have hTs : 0 < T / √(n : ℝ) := by positivity
    have hTn : 0 < T / (n : ℝ) := by positivity
    have hkn : hc.k * rt T n ^ 2 ≤ 1 / 2 := by rw [he2]; nlinarith
    have hcond : hc.k * rt T n ^ 2 + √n * B * rt T n ^ 2 ≤ 1 / 2 := by
      rw [he2, show √(n : ℝ) * B * (T / n) = B * (T / n * √n) by ring, hde n hn]
      exact hsm.le
    have h1 : ∀ j, ∫ q, (S.step (rt T n) q.1 q.2 c - S.pre (rt T n) q.1 q.2 c) ^ 2
        ∂((S.law (rt T n) (μ n) j).prod (N κ)) ≤
        C * (T / n) ^ 2 * (2 * (T / √n) + D * lap c (S.law (rt T n) (μ n) j) (√n)) := by
      intro j
      have h := gap_law hc (rt T n) hkn he0 (good_law S (rt T n) (hμ n) j) (√n) hsn
      rw [he2, mul_assoc 2, hde n hn] at h
      exact h
    have h2 : ∑ j ∈ Finset.range n, lap c (S.law (rt T n) (μ n) j) (√n) ≤ n / rr n + 1 + n * g n := by
      refine sum_split n (rr n) (g n) _ (fun j => lap_le_one hc (good_law S _ (hμ n) j) _ hsn.le) (by positivity) hr0 ?_
      intro j hj hjn
      have hjT : (j : ℝ) * rt T n ^ 2 ≤ T := by
        rw [he2, mul_div_assoc', div_le_iff₀ hn0, mul_comm]
        exact mul_le_mul_of_nonneg_left (Nat.cast_le.2 hj.le) hT.le
      refine (lap_bound hc (hμ n) (rt T n) he0.le B hB1 hB0 T hT.le j hjT (√n) hsn.le hcond).trans ?_
      refine Real.rpow_le_rpow_of_nonpos (by positivity) ?_ (by linarith)
      rw [he2]
      refine add_le_add le_rfl ?_
      have h5 : rr n ≤ √n * (j / n) := by
        rw [← rr_sq n]
        have : 1 / rr n ≤ j / n := by
          rw [div_le_div_iff₀ hr0 hn0, one_mul]
          rwa [div_le_iff₀ hr0] at hjn
        calc rr n = rr n ^ 2 * (1 / rr n) := by field_simp
          _ ≤ _ := mul_le_mul_of_nonneg_left this (by positivity)
      calc B * T * rr n ≤ B * T * (√n * (j / n)) := mul_le_mul_of_nonneg_left h5 (by positivity)
        _ = _ := by ring
    calc (n : ℝ) * ∑ j ∈ Finset.range n, ∫ q, (S.step (rt T n) q.1 q.2 c - S.pre (rt T n) q.1 q.2 c) ^ 2
          ∂((S.law (rt T n) (μ n) j).prod (N κ))
        ≤ n * ∑ j ∈ Finset.range n, C * (T / n) ^ 2 * (2 * (T / √n) + D * lap c (S.law (rt T n) (μ n) j) (√n)) :=
          mul_le_mul_of_nonneg_left (Finset.sum_le_sum fun j _ => h1 j) hn0.le
      _ = n * (C * (T / n) ^ 2 * (n * (2 * (T / √n)) + D * ∑ j ∈ Finset.range n, lap c (S.law (rt T n) (μ n) j) (√n))) := by
          rw [← Finset.mul_sum, Finset.sum_add_distrib, Finset.sum_const, Finset.card_range, nsmul_eq_mul, ← Finset.mul_sum]
      _ ≤ n * (C * (T / n) ^ 2 * (n * (2 * (T / √n)) + D * (n / rr n + 1 + n * g n))) := by gcongr
      _ = _ := by field_simp
  have hlim : Tendsto (fun n : ℕ => C * T ^ 2 * (2 * (T / √(n : ℝ)) + D * (1 / rr n + 1 / n + g n))) atTop (𝓝 0) := by
    have h := ((hsq.const_mul 2).add (((hrr.add (tendsto_const_div_atTop_nhds_zero_nat (1 : ℝ))).add hg).const_mul D)).const_mul (C * T ^ 2)
    simpa using h
  refine tendsto_of_tendsto_of_tendsto_of_le_of_le' tendsto_const_nhds hlim (Filter.Eventually.of_forall fun n => ?_) hub
  exact mul_nonneg (Nat.cast_nonneg n) (Finset.sum_nonneg fun j _ => integral_nonneg fun q => sq_nonneg _)

/-- the replacements are negligible when every replaced coordinate is a square-root process -/
theorem cir_gaps (S : Sch σ κ) (h : ∀ i, S.T i = true → Nonempty (Cir S i)) (T : ℝ) (hT : 0 < T) (μ : ℕ → Measure (σ → ℝ))
    (hμ : ∀ n, Good S (μ n)) : Tendsto (fun n : ℕ => n * ∑ j ∈ Finset.range n, S.gaps T μ n j) atTop (𝓝 0) := by
  classical
  let G : σ → ℕ → ℝ := fun i n => n * ∑ j ∈ Finset.range n, ∫ q, (S.step (rt T n) q.1 q.2 i - S.pre (rt T n) q.1 q.2 i) ^ 2
      ∂((S.law (rt T n) (μ n) j).prod (N κ))
  have hz : ∀ i, S.T i ≠ true → ∀ e s z, S.step e s z i - S.pre e s z i = 0 := by
    intro i hi e s z
    rw [Sch.step, Sch.trunc, if_neg hi, sub_self]
  have hG : ∀ i, Tendsto (G i) atTop (𝓝 0) := by
    intro i
    by_cases hi : S.T i = true
    · exact cir_gap (h i hi).some T hT μ hμ
    · simp only [G, hz i hi]
      simp
  have hint : ∀ i n j, Integrable (fun q => (S.step (rt T n) q.1 q.2 i - S.pre (rt T n) q.1 q.2 i) ^ 2)
      ((S.law (rt T n) (μ n) j).prod (N κ)) := by
    intro i n j
    by_cases hi : S.T i = true
    · exact gapc_int (h i hi).some _ (good_law S _ (hμ n) j)
    · simp only [hz i hi]
      simp
  have hlim : Tendsto (fun n => (Fintype.card σ : ℝ) * ∑ i, G i n) atTop (𝓝 0) := by
    have := (tendsto_finsetSum Finset.univ fun i _ => hG i).const_mul (Fintype.card σ : ℝ)
    simpa using this
  refine tendsto_of_tendsto_of_tendsto_of_le_of_le tendsto_const_nhds hlim (fun n => ?_) fun n => ?_
  · exact mul_nonneg (Nat.cast_nonneg n) (Finset.sum_nonneg fun j _ => gaps_nonneg S T μ n j)
  · simp only [G]
    rw [← Finset.mul_sum, Finset.sum_comm, mul_left_comm, Finset.mul_sum _ _ (Fintype.card σ : ℝ)]
    refine mul_le_mul_of_nonneg_left (Finset.sum_le_sum fun j _ => ?_) (Nat.cast_nonneg n)
    rw [← integral_finsetSum _ fun i _ => hint i n j, ← integral_const_mul]
    refine MeasureTheory.integral_mono (gap_int S _ (good_law S _ (hμ n) j))
      ((integrable_finsetSum _ fun i _ => hint i n j).const_mul _) fun q => ?_
    have h1 := sq_sum_le_card_mul_sum_sq (s := Finset.univ) (f := fun i => |S.step (rt T n) q.1 q.2 i - S.pre (rt T n) q.1 q.2 i|)
    simp only [sq_abs, Finset.card_univ] at h1
    exact h1

end Ajd.Scheme
