import Verif.Lemmas.EulerLaw
import Mathlib.Algebra.Order.Chebyshev

/-! Convergence of the moments of an Euler scheme. -/

namespace Ajd.Scheme
open MvPolynomial MeasureTheory ProbabilityTheory Filter Topology

variable {σ κ : Type} [Fintype σ] [Fintype κ] (S : Sch σ κ) (hS : S.Ok)

/-! ### bounds for the moments -/

theorem bernoulli (e y : ℝ) (he : 0 ≤ e) (he1 : e ≤ 1) : ∀ M : ℕ,
    |(1 + e * y) ^ M - 1 - M * (e * y)| ≤ e ^ 2 * (M ^ 2 * (1 + |y|) ^ (M + 1))
  | 0 => by simp
  | M + 1 => by
    have ih := bernoulli e y he he1 M
    have h1 : |1 + e * y| ≤ 1 + |y| := by
      refine (abs_add_le _ _).trans ?_
      rw [abs_one, abs_mul, abs_of_nonneg he]
      nlinarith [abs_nonneg y]
    have h2 : 1 ≤ 1 + |y| := by linarith [abs_nonneg y]
    have h3 : y ^ 2 ≤ (1 + |y|) ^ (M + 2) := by
      calc y ^ 2 = |y| ^ 2 := (sq_abs y).symm
        _ ≤ (1 + |y|) ^ 2 := pow_le_pow_left₀ (abs_nonneg _) (by linarith) 2
        _ ≤ _ := pow_le_pow_right₀ h2 (by omega)
    have e1 : (1 + e * y) ^ (M + 1) - 1 - (M + 1 : ℕ) * (e * y) =
        (1 + e * y) * ((1 + e * y) ^ M - 1 - M * (e * y)) + M * (e ^ 2 * y ^ 2) := by
      push_cast
      ring
    rw [e1]
    refine (abs_add_le _ _).trans ?_
    rw [abs_mul, abs_of_nonneg (by positivity : 0 ≤ (M : ℝ) * (e ^ 2 * y ^ 2))]
    have h4 := mul_le_mul h1 ih (abs_nonneg _) (by positivity)
    have h5 : (M : ℝ) * (e ^ 2 * y ^ 2) ≤ M * (e ^ 2 * (1 + |y|) ^ (M + 2)) := by gcongr
    refine (add_le_add h4 h5).trans ?_
    have h6 : 0 ≤ e ^ 2 * (1 + |y|) ^ (M + 2) := by positivity
    have e2 : (1 + |y|) * (e ^ 2 * ((M : ℝ) ^ 2 * (1 + |y|) ^ (M + 1))) + M * (e ^ 2 * (1 + |y|) ^ (M + 2)) =
        (M ^ 2 + M) * (e ^ 2 * (1 + |y|) ^ (M + 2)) := by ring
    rw [e2, show e ^ 2 * (((M + 1 : ℕ) : ℝ) ^ 2 * (1 + |y|) ^ (M + 1 + 1)) =
      ((M + 1 : ℕ) : ℝ) ^ 2 * (e ^ 2 * (1 + |y|) ^ (M + 2)) by ring]
    refine mul_le_mul_of_nonneg_right ?_ h6
    push_cast
    nlinarith [Nat.cast_nonneg (α := ℝ) M]

include hS in
theorem xi_sq : ∃ K, 0 ≤ K ∧ ∀ s, S.Pos s → ∀ z i, S.xi s z i ^ 2 ≤ K * (U s * U z) := by
  obtain ⟨K, hK, hw⟩ := hS.w
  refine ⟨(∑ i, ∑ k, S.r i k ^ 2) * K, by positivity, fun s hs z i => ?_⟩
  have hz : ∑ k, z k ^ 2 ≤ U z := by rw [U]; linarith
  have hs0 : 0 ≤ U s := zero_le_one.trans (one_le_U s)
  rw [xi_eq]
  refine (Finset.sum_mul_sq_le_sq_mul_sq _ _ _).trans ?_
  have h1 : ∑ k, (S.r i k * √(eval s (S.w k))) ^ 2 ≤ (∑ i, ∑ k, S.r i k ^ 2) * K * U s := by
    calc ∑ k, (S.r i k * √(eval s (S.w k))) ^ 2 ≤ ∑ k, S.r i k ^ 2 * (K * U s) := by
          refine Finset.sum_le_sum fun k _ => ?_
          rw [mul_pow, Real.sq_sqrt (hS.pos s hs k)]
          exact mul_le_mul_of_nonneg_left (hw s k) (sq_nonneg _)
      _ = (∑ k, S.r i k ^ 2) * (K * U s) := by rw [Finset.sum_mul]
      _ ≤ (∑ i, ∑ k, S.r i k ^ 2) * (K * U s) := by
          refine mul_le_mul_of_nonneg_right ?_ (by positivity)
          exact Finset.single_le_sum (f := fun i => ∑ k, S.r i k ^ 2)
            (fun _ _ => Finset.sum_nonneg fun _ _ => sq_nonneg _) (Finset.mem_univ i)
      _ = _ := by ring
  calc _ ≤ ((∑ i, ∑ k, S.r i k ^ 2) * K * U s) * U z :=
        mul_le_mul h1 hz (Finset.sum_nonneg fun _ _ => sq_nonneg _) (by positivity)
    _ = _ := by ring

include hS in
theorem mom_step (M : ℕ) : ∃ C, 0 ≤ C ∧ ∀ e, 0 ≤ e → e ≤ 1 → ∀ s, S.Pos s →
    ∫ z, U (S.pre e s z) ^ M ∂(N κ) ≤ (1 + C * e ^ 2) * U s ^ M := by
  obtain ⟨K, hK, hx⟩ := xi_sq S hS
  obtain ⟨L, hL, hb⟩ := hS.b
  set d : ℝ := (Fintype.card σ : ℝ) with hd
  have hd0 : 0 ≤ d := by positivity
  set K2 : ℝ := d * (2 + 3 * L + 2 * K) with hK2
  have hK20 : 0 ≤ K2 := by positivity
  let W : (κ → ℝ) → ℝ := fun z => M * (K2 * U z) + M ^ 2 * (1 + 2 * K2 * U z) ^ (M + 1)
  have hz0 : ∀ s : κ → ℝ, 1 ≤ U s := one_le_U
  have hWi : Integrable W (N κ) := by
    have h := momN (κ := κ) (C (M * K2) * Upol κ 1 + C ((M : ℝ) ^ 2) * (C 1 + C (2 * K2) * Upol κ 1) ^ (M + 1))
    simp only [map_add, map_mul, map_pow, eval_C, eval_Upol, pow_one] at h
    refine h.congr (Filter.Eventually.of_forall fun z => ?_)
    simp only [W]
    ring
  have hW0 : 0 ≤ ∫ z, W z ∂(N κ) := integral_nonneg fun z => by
    have := hz0 z
    simp only [W, Pi.zero_apply]
    positivity
  refine ⟨∫ z, W z ∂(N κ), hW0, fun e he he1 s hs => ?_⟩
  have hs1 := one_le_U s
  have hs0 : 0 < U s := by linarith
  have he2 : e ^ 2 ≤ 1 := pow_le_one₀ he he1
  let A : (κ → ℝ) → ℝ := fun z => ∑ i, 2 * (s i * S.xi s z i)
  let B : (κ → ℝ) → ℝ := fun z => ∑ i, (2 * (s i * eval s (S.b i)) + S.xi s z i ^ 2 + 2 * e * (eval s (S.b i) * S.xi s z i) +
    e ^ 2 * eval s (S.b i) ^ 2)
  have hpre : ∀ z, U (S.pre e s z) = U s + e * (A z + e * B z) := by
    intro z
    simp only [U, Sch.pre, A, B, Finset.mul_sum, mul_add, ← Finset.sum_add_distrib, add_assoc]
    congr 1
    exact Finset.sum_congr rfl fun i _ => by ring
  have hsz : ∀ z : κ → ℝ, U s ≤ U s * U z := fun z => le_mul_of_one_le_right hs0.le (hz0 z)
  have hA : ∀ z, |A z| ≤ K2 * (U s * U z) := by
    intro z
    refine (Finset.abs_sum_le_sum_abs _ _).trans ((Finset.sum_le_card_nsmul _ _ ((1 + K) * (U s * U z)) fun i _ => ?_).trans ?_)
    · have h1 := sq_le_U s i
      have h2 := hx s hs z i
      have h3 := hsz z
      refine abs_le.2 ⟨?_, ?_⟩ <;> nlinarith [sq_nonneg (s i - S.xi s z i), sq_nonneg (s i + S.xi s z i)]
    · rw [nsmul_eq_mul, Finset.card_univ, ← hd, hK2, ← mul_assoc]
      refine mul_le_mul_of_nonneg_right (mul_le_mul_of_nonneg_left (by linarith) hd0) (hs0.le.trans (hsz z))
  have hB : ∀ z, |B z| ≤ K2 * (U s * U z) := by
    intro z
    refine (Finset.abs_sum_le_sum_abs _ _).trans
      ((Finset.sum_le_card_nsmul _ _ ((2 + 3 * L + 2 * K) * (U s * U z)) fun i _ => ?_).trans ?_)
    · have h1 := sq_le_U s i
      have h2 := hx s hs z i
      have h3 := hsz z
      have h4 := hb s i
      have h5 : L * U s ≤ L * (U s * U z) := mul_le_mul_of_nonneg_left h3 hL
      have e1 : |2 * (s i * eval s (S.b i))| ≤ s i ^ 2 + eval s (S.b i) ^ 2 := by
        refine abs_le.2 ⟨?_, ?_⟩ <;> nlinarith [sq_nonneg (s i - eval s (S.b i)), sq_nonneg (s i + eval s (S.b i))]
      have e2 : |2 * e * (eval s (S.b i) * S.xi s z i)| ≤ eval s (S.b i) ^ 2 + S.xi s z i ^ 2 := by
        rw [abs_mul, abs_of_nonneg (by positivity : 0 ≤ 2 * e)]
        have h6 : 2 * |eval s (S.b i) * S.xi s z i| ≤ eval s (S.b i) ^ 2 + S.xi s z i ^ 2 := by
          rw [abs_mul]
          nlinarith [sq_nonneg (|eval s (S.b i)| - |S.xi s z i|), sq_abs (eval s (S.b i)), sq_abs (S.xi s z i)]
        nlinarith [abs_nonneg (eval s (S.b i) * S.xi s z i)]
      have e3 : e ^ 2 * eval s (S.b i) ^ 2 ≤ eval s (S.b i) ^ 2 := by nlinarith [sq_nonneg (eval s (S.b i))]
      have e4 : 0 ≤ e ^ 2 * eval s (S.b i) ^ 2 := by positivity
      have e5 := sq_nonneg (S.xi s z i)
      refine abs_le.2 ⟨?_, ?_⟩
      · have := (abs_le.1 e1).1
        have := (abs_le.1 e2).1
        nlinarith
      · have := (abs_le.1 e1).2
        have := (abs_le.1 e2).2
        nlinarith
    · rw [nsmul_eq_mul, Finset.card_univ, ← hd, hK2, ← mul_assoc]
  have hAi : Integrable A (N κ) := integrable_finsetSum _ fun i _ => ((integral_xi S s i).1.const_mul _).const_mul _
  have hA0 : ∫ z, A z ∂(N κ) = 0 := by
    simp only [A]
    rw [integral_finsetSum _ fun i _ => ((integral_xi S s i).1.const_mul _).const_mul _]
    exact Finset.sum_eq_zero fun i _ => by rw [integral_const_mul, integral_const_mul, (integral_xi S s i).2]; ring
  have hpt : ∀ z, U (S.pre e s z) ^ M ≤ U s ^ M * (1 + M * e / U s * A z + e ^ 2 * W z) := by
    intro z
    have hz := hz0 z
    set y := (A z + e * B z) / U s with hy
    have h1 : U (S.pre e s z) = U s * (1 + e * y) := by rw [hpre, hy]; field_simp
    have h2 : |y| ≤ 2 * K2 * U z := by
      rw [hy, abs_div, abs_of_pos hs0, div_le_iff₀ hs0]
      refine (abs_add_le _ _).trans ?_
      rw [abs_mul, abs_of_nonneg he]
      have := mul_le_of_le_one_left (abs_nonneg (B z)) he1
      have := hA z
      have := hB z
      linarith
    have h3 := (abs_le.1 (bernoulli e y he he1 M)).2
    have h4 : (1 + |y|) ^ (M + 1) ≤ (1 + 2 * K2 * U z) ^ (M + 1) :=
      pow_le_pow_left₀ (by positivity) (by linarith) _
    have h5 : B z / U s ≤ K2 * U z := by
      rw [div_le_iff₀ hs0]
      have := (abs_le.1 (hB z)).2
      linarith
    rw [h1, mul_pow]
    refine mul_le_mul_of_nonneg_left ?_ (by positivity)
    have h6 : (M : ℝ) * (e * y) = M * e / U s * A z + e ^ 2 * (M * (B z / U s)) := by rw [hy]; field_simp
    have h7 : e ^ 2 * (M * (B z / U s)) ≤ e ^ 2 * (M * (K2 * U z)) := by gcongr
    have h8 : e ^ 2 * ((M : ℝ) ^ 2 * (1 + |y|) ^ (M + 1)) ≤ e ^ 2 * (M ^ 2 * (1 + 2 * K2 * U z) ^ (M + 1)) := by gcongr
    have h9 : e ^ 2 * W z = e ^ 2 * (M * (K2 * U z)) + e ^ 2 * (M ^ 2 * (1 + 2 * K2 * U z) ^ (M + 1)) := by
      simp only [W]; ring
    rw [h9]
    linarith
  have hint : Integrable (fun z => U s ^ M * (1 + M * e / U s * A z + e ^ 2 * W z)) (N κ) :=
    (((integrable_const _).add (hAi.const_mul _)).add (hWi.const_mul _)).const_mul _
  refine (integral_mono_of_nonneg (Filter.Eventually.of_forall fun z => by
    have := one_le_U (S.pre e s z)
    simp only [Pi.zero_apply]
    positivity) hint (Filter.Eventually.of_forall hpt)).trans (le_of_eq ?_)
  have j1 : Integrable (fun z => 1 + M * e / U s * A z) (N κ) := (integrable_const _).add (hAi.const_mul _)
  rw [integral_const_mul, integral_add j1 (hWi.const_mul _), integral_add (integrable_const _) (hAi.const_mul _),
    integral_const_mul, integral_const_mul, hA0]
  simp
  ring

theorem integral_pre {μ : Measure (σ → ℝ)} (hμ : Good S μ) (e : ℝ) (f : MvPolynomial σ ℝ) :
    ∫ q, eval (S.pre e q.1 q.2) f ∂(μ.prod (N κ)) = ∫ s, ∫ z, eval (S.pre e s z) f ∂(N κ) ∂μ := by
  have := hμ.prob
  exact integral_prod _ (int_gr S hμ (gr_eval_pre S e f) (meas_eval_pre S e f))

include hS in
theorem mom_pre (M : ℕ) : ∃ C, 0 ≤ C ∧ ∀ e, 0 ≤ e → e ≤ 1 → ∀ μ : Measure (σ → ℝ), Good S μ →
    ∫ q, U (S.pre e q.1 q.2) ^ M ∂(μ.prod (N κ)) ≤ (1 + C * e ^ 2) * ∫ s, U s ^ M ∂μ := by
  obtain ⟨C, hC, h⟩ := mom_step S hS M
  refine ⟨C, hC, fun e he he1 μ hμ => ?_⟩
  have h1 := integral_pre S hμ e (Upol σ M)
  simp only [eval_Upol] at h1
  rw [h1, ← integral_const_mul]
  refine integral_mono_of_nonneg (Filter.Eventually.of_forall fun s => integral_nonneg fun z => ?_) ((hμ.int M).const_mul _) ?_
  · have := one_le_U (S.pre e s z)
    simp only [Pi.zero_apply]
    positivity
  · filter_upwards [hμ.pos] with s hs
    exact h e he he1 s hs

include hS in
theorem mom_law (M : ℕ) : ∃ C, 0 ≤ C ∧ ∀ e, 0 ≤ e → e ≤ 1 → ∀ μ : Measure (σ → ℝ), Good S μ → ∀ j,
    ∫ s, U s ^ M ∂(S.law e μ j) ≤ Real.exp (C * e ^ 2 * j) * ∫ s, U s ^ M ∂μ := by
  obtain ⟨C, hC, h⟩ := mom_pre S hS M
  refine ⟨C, hC, fun e he he1 μ hμ j => ?_⟩
  induction j with
  | zero => simp [Sch.law]
  | succ j ih =>
    have hg := good_law S e hμ j
    have h1 := integral_law S e μ j (Upol σ M)
    simp only [eval_Upol] at h1
    have i1 := int_gr S hg (gr_eval_step S e (Upol σ M)) (meas_eval_step S e _)
    have i2 := int_gr S hg (gr_eval_pre S e (Upol σ M)) (meas_eval_pre S e _)
    simp only [eval_Upol] at i1 i2
    rw [h1]
    refine (MeasureTheory.integral_mono i1 i2 fun q => ?_).trans ((h e he he1 _ hg).trans ?_)
    · exact pow_le_pow_left₀ (zero_le_one.trans (one_le_U _)) (S.U_trunc _) M
    · refine (mul_le_mul_of_nonneg_left ih (by positivity)).trans ?_
      rw [← mul_assoc]
      refine mul_le_mul_of_nonneg_right ?_ (integral_nonneg fun s => by
        have := one_le_U s
        simp only [Pi.zero_apply]
        positivity)
      rw [show C * e ^ 2 * ((j + 1 : ℕ) : ℝ) = C * e ^ 2 + C * e ^ 2 * j by push_cast; ring, Real.exp_add]
      exact mul_le_mul_of_nonneg_right (by linarith [Real.add_one_le_exp (C * e ^ 2)]) (Real.exp_nonneg _)

/-! ### the error of replacing negative coordinates -/

/-- by how much the coordinates are changed -/
noncomputable def Sch.gap (e : ℝ) (q : (σ → ℝ) × (κ → ℝ)) : ℝ := ∑ i, |S.step e q.1 q.2 i - S.pre e q.1 q.2 i|

theorem gap_nonneg (e : ℝ) (q : (σ → ℝ) × (κ → ℝ)) : 0 ≤ S.gap e q := Finset.sum_nonneg fun _ _ => abs_nonneg _

theorem meas_gap (e : ℝ) : Measurable (S.gap e) := by
  unfold Sch.gap
  have h1 := (S.cont_step e).measurable
  have h2 := (S.cont_pre e).measurable
  fun_prop

theorem gr_step (e : ℝ) (i : σ) : Gr (VS (σ := σ) (κ := κ)) fun q => S.step e q.1 q.2 i :=
  (gr_pre S e i).mono fun q => S.abs_trunc _ i

theorem gr_gap (e : ℝ) : Gr VS (S.gap e) := by
  refine Gr.sum one_le_VS _ fun i _ => ?_
  have h := Gr.add one_le_VS (gr_step S e i) (Gr.mul one_le_VS (Gr.const one_le_VS (-1)) (gr_pre S e i))
  refine h.mono fun q => ?_
  rw [abs_abs, neg_one_mul, ← sub_eq_add_neg]

theorem gap_int (e : ℝ) {μ : Measure (σ → ℝ)} (hμ : Good S μ) : Integrable (fun q => S.gap e q ^ 2) (μ.prod (N κ)) :=
  int_gr S hμ (Gr.pow one_le_VS (gr_gap S e) 2) ((meas_gap S e).pow_const 2)

include hS in
/-- one step of the scheme -/
theorem one_step (f : MvPolynomial σ ℝ) : ∃ C, ∃ m : ℕ, 0 ≤ C ∧ ∀ e, 0 ≤ e → e ≤ 1 → ∀ c, 0 < c → ∀ μ : Measure (σ → ℝ),
    Good S μ → |∫ q, eval (S.step e q.1 q.2) f ∂(μ.prod (N κ)) - ∫ s, eval s f ∂μ - e ^ 2 * ∫ s, eval s (S.gen f) ∂μ| ≤
      C * (e ^ 3 * (∫ s, U s ^ m ∂μ) + c * (∫ s, U s ^ m ∂μ) + (∫ q, S.gap e q ^ 2 ∂(μ.prod (N κ))) / c) := by
  obtain ⟨C1, m1, hC1, h1⟩ := step_exp S hS f
  obtain ⟨C2, m2, hC2, h2⟩ := eval_lip f
  obtain ⟨C3, hC3, h3⟩ := mom_pre S hS (4 * m2)
  refine ⟨C1 + C2 * (1 + C3), m1 + 4 * m2, by positivity, fun e he he1 c hc μ hμ => ?_⟩
  have := hμ.prob
  have i1 := int_gr S hμ (gr_eval_step S e f) (meas_eval_step S e f)
  have i2 := int_gr S hμ (gr_eval_pre S e f) (meas_eval_pre S e f)
  have i3 := int_gr S hμ (gr_eval_pre S e (Upol σ (4 * m2))) (meas_eval_pre S e _)
  simp only [eval_Upol] at i3
  have i4 := gap_int S e hμ
  have mono : ∀ k, k ≤ m1 + 4 * m2 → ∫ s, U s ^ k ∂μ ≤ ∫ s, U s ^ (m1 + 4 * m2) ∂μ := fun k hk =>
    MeasureTheory.integral_mono (hμ.int _) (hμ.int _) fun s => pow_le_pow_right₀ (one_le_U s) hk
  set J := ∫ s, U s ^ (m1 + 4 * m2) ∂μ
  set G := ∫ q, S.gap e q ^ 2 ∂(μ.prod (N κ))
  have hG : 0 ≤ G := integral_nonneg fun q => sq_nonneg _
  have hJ : 0 ≤ J := integral_nonneg fun s => by
    have := one_le_U s
    simp only [Pi.zero_apply]
    positivity
  -- replacement
  have e1 : |∫ q, eval (S.step e q.1 q.2) f ∂(μ.prod (N κ)) - ∫ q, eval (S.pre e q.1 q.2) f ∂(μ.prod (N κ))| ≤
      C2 * (1 + C3) * (c * J + G / c) := by
    rw [← integral_sub i1 i2, ← Real.norm_eq_abs]
    refine (norm_integral_le_of_norm_le (g := fun q => C2 * (c * U (S.pre e q.1 q.2) ^ (4 * m2) + S.gap e q ^ 2 / c))
      (((i3.const_mul c).add (i4.div_const c)).const_mul C2) (Filter.Eventually.of_forall fun q => ?_)).trans ?_
    · have h := h2 (S.pre e q.1 q.2) (S.step e q.1 q.2)
      refine h.trans ?_
      rw [mul_assoc]
      refine mul_le_mul_of_nonneg_left ?_ hC2
      have hU : (U (S.pre e q.1 q.2) * U (S.step e q.1 q.2)) ^ m2 ≤ U (S.pre e q.1 q.2) ^ (2 * m2) := by
        rw [pow_mul (U (S.pre e q.1 q.2)) 2 m2]
        refine pow_le_pow_left₀ (by have := one_le_U (S.pre e q.1 q.2); have := one_le_U (S.step e q.1 q.2); positivity) ?_ _
        rw [pow_two]
        exact mul_le_mul_of_nonneg_left (S.U_trunc _) (zero_le_one.trans (one_le_U _))
      refine (mul_le_mul_of_nonneg_right hU (gap_nonneg S e q)).trans ?_
      rw [show 4 * m2 = 2 * m2 * 2 by ring, pow_mul (U (S.pre e q.1 q.2)) (2 * m2) 2]
      generalize U (S.pre e q.1 q.2) ^ (2 * m2) = x
      change x * S.gap e q ≤ _
      generalize S.gap e q = g
      have : c * x ^ 2 + g ^ 2 / c = ((c * x) ^ 2 + g ^ 2) / c := by field_simp
      rw [this, le_div_iff₀ hc]
      nlinarith [sq_nonneg (c * x - g), sq_nonneg (c * x), sq_nonneg g]
    · rw [integral_const_mul, integral_add (i3.const_mul c) (i4.div_const c), integral_const_mul, integral_div]
      have h5 : ∫ q, U (S.pre e q.1 q.2) ^ (4 * m2) ∂(μ.prod (N κ)) ≤ (1 + C3) * J := by
        refine (h3 e he he1 μ hμ).trans ?_
        refine mul_le_mul ?_ (mono _ (by omega)) (integral_nonneg fun s => by
          have := one_le_U s
          simp only [Pi.zero_apply]
          positivity) (by positivity)
        have : e ^ 2 ≤ 1 := pow_le_one₀ he he1
        nlinarith
      rw [mul_assoc]
      refine mul_le_mul_of_nonneg_left ?_ hC2
      have h6 := mul_le_mul_of_nonneg_left h5 hc.le
      have h7 : G / c ≤ (1 + C3) * (G / c) := le_mul_of_one_le_left (by positivity) (by linarith)
      change c * _ + G / c ≤ _
      linarith
  -- expansion
  have e2 : |∫ q, eval (S.pre e q.1 q.2) f ∂(μ.prod (N κ)) - ∫ s, eval s f ∂μ - e ^ 2 * ∫ s, eval s (S.gen f) ∂μ| ≤
      C1 * (e ^ 3 * J) := by
    have j0 := i2.integral_prod_left
    simp only at j0
    have j1 : Integrable (fun s => ∫ z, eval (S.pre e s z) f ∂(N κ) - eval s f) μ := j0.sub (hμ.mom S f)
    rw [integral_pre S hμ, ← integral_const_mul, ← integral_sub j0 (hμ.mom S f),
      ← integral_sub j1 ((hμ.mom S _).const_mul _), ← Real.norm_eq_abs]
    refine (norm_integral_le_of_norm_le (g := fun s => C1 * e ^ 3 * U s ^ m1) ((hμ.int m1).const_mul _) ?_).trans ?_
    · filter_upwards [hμ.pos] with s hs
      exact h1 e he he1 s hs
    · rw [integral_const_mul, mul_assoc]
      exact mul_le_mul_of_nonneg_left (mul_le_mul_of_nonneg_left (mono _ (by omega)) (by positivity)) hC1
  have e3 : ∫ q, eval (S.step e q.1 q.2) f ∂(μ.prod (N κ)) - ∫ s, eval s f ∂μ - e ^ 2 * ∫ s, eval s (S.gen f) ∂μ =
      (∫ q, eval (S.step e q.1 q.2) f ∂(μ.prod (N κ)) - ∫ q, eval (S.pre e q.1 q.2) f ∂(μ.prod (N κ))) +
      (∫ q, eval (S.pre e q.1 q.2) f ∂(μ.prod (N κ)) - ∫ s, eval s f ∂μ - e ^ 2 * ∫ s, eval s (S.gen f) ∂μ) := by ring
  rw [e3]
  refine (abs_add_le _ _).trans ((add_le_add e1 e2).trans ?_)
  have h8 : 0 ≤ e ^ 3 * J := by positivity
  have h9 : 0 ≤ c * J + G / c := by positivity
  have h10 : 0 ≤ C2 * (1 + C3) := by positivity
  nlinarith

/-! ### convergence -/

/-- the expectation of polynomials -/
noncomputable def ex (μ : Measure (σ → ℝ)) (hμ : Good S μ) : MvPolynomial σ ℝ →ₗ[ℝ] ℝ where
  toFun f := ∫ s, eval s f ∂μ
  map_add' f g := by
    simp only [map_add]
    exact integral_add (hμ.mom S f) (hμ.mom S g)
  map_smul' c f := by simp [integral_const_mul]

/-- moments that stay bounded along a sequence of laws -/
def Bdd (μ : ℕ → Measure (σ → ℝ)) : Prop := ∀ m : ℕ, ∃ C, ∀ᶠ n in atTop, ∫ s, U s ^ m ∂(μ n) ≤ C

/-- the root of the length of a step -/
noncomputable def rt (T : ℝ) (n : ℕ) : ℝ := √(T / n)

theorem rt_nonneg (T : ℝ) (n : ℕ) : 0 ≤ rt T n := Real.sqrt_nonneg _

theorem rt_sq (T : ℝ) (hT : 0 ≤ T) (n : ℕ) : rt T n ^ 2 = T / n := Real.sq_sqrt (by positivity)

theorem rt_tendsto (T : ℝ) : Tendsto (rt T) atTop (𝓝 0) := by
  have h := (tendsto_const_div_atTop_nhds_zero_nat T).sqrt
  rwa [Real.sqrt_zero] at h

theorem rt_le (T : ℝ) : ∀ᶠ n in atTop, rt T n ≤ 1 :=
  ((rt_tendsto T).eventually (gt_mem_nhds one_pos)).mono fun _ h => h.le

include hS in
theorem mom_all (T : ℝ) (hT : 0 ≤ T) (μ : ℕ → Measure (σ → ℝ)) (hμ : ∀ n, Good S (μ n)) (hB : Bdd μ) (m : ℕ) :
    ∃ C, 0 ≤ C ∧ ∀ᶠ n in atTop, ∀ j ≤ n, ∫ s, U s ^ m ∂(S.law (rt T n) (μ n) j) ≤ C := by
  obtain ⟨B, hB⟩ := hB m
  obtain ⟨C, hC, h⟩ := mom_law S hS m
  refine ⟨Real.exp (C * T) * |B|, by positivity, ?_⟩
  filter_upwards [hB, rt_le T, eventually_gt_atTop 0] with n h1 h2 h3 j hj
  refine (h _ (rt_nonneg T n) h2 _ (hμ n) j).trans ?_
  refine mul_le_mul ?_ (h1.trans (le_abs_self B)) (integral_nonneg fun s => by
      have := one_le_U s
      simp only [Pi.zero_apply]
      positivity) (Real.exp_nonneg _)
  rw [Real.exp_le_exp, mul_assoc, rt_sq T hT]
  refine mul_le_mul_of_nonneg_left ?_ hC
  have h4 : (0 : ℝ) < n := Nat.cast_pos.2 h3
  rw [div_mul_eq_mul_div, div_le_iff₀ h4]
  exact mul_le_mul_of_nonneg_left (Nat.cast_le.2 hj) hT

include hS in
theorem bdd_law (T : ℝ) (hT : 0 ≤ T) (μ : ℕ → Measure (σ → ℝ)) (hμ : ∀ n, Good S (μ n)) (hB : Bdd μ) :
    Bdd fun n => S.law (rt T n) (μ n) n := by
  intro m
  obtain ⟨C, _, h⟩ := mom_all S hS T hT μ hμ hB m
  exact ⟨C, h.mono fun n hn => hn n le_rfl⟩

/-- the second moment of the changes made during a step -/
noncomputable def Sch.gaps (T : ℝ) (μ : ℕ → Measure (σ → ℝ)) (n j : ℕ) : ℝ :=
  ∫ q, S.gap (rt T n) q ^ 2 ∂((S.law (rt T n) (μ n) j).prod (N κ))

theorem gaps_nonneg (T : ℝ) (μ : ℕ → Measure (σ → ℝ)) (n j : ℕ) : 0 ≤ S.gaps T μ n j := integral_nonneg fun _ => sq_nonneg _

include hS in
/-- the moments of the scheme converge to those of the diffusion -/
theorem scheme_conv (T : ℝ) (hT : 0 ≤ T) (μ : ℕ → Measure (σ → ℝ)) (hμ : ∀ n, Good S (μ n)) (hB : Bdd μ)
    (hg : Tendsto (fun n : ℕ => n * ∑ j ∈ Finset.range n, S.gaps T μ n j) atTop (𝓝 0))
    {A : MvPolynomial σ ℝ →ₗ[ℝ] MvPolynomial σ ℝ} (hA : Dyn.LF A) (hgen : ∀ f, A f = S.gen f)
    {E : ℝ → MvPolynomial σ ℝ →ₗ[ℝ] ℝ} (hE : Dyn.Sol A E)
    (h0 : ∀ f, Tendsto (fun n => ∫ s, eval s f ∂(μ n)) atTop (𝓝 (E 0 f))) (f : MvPolynomial σ ℝ) :
    Tendsto (fun n => ∫ s, eval s f ∂(S.law (rt T n) (μ n) n)) atTop (𝓝 (E T f)) := by
  choose C m hC hone using one_step S hS
  choose B hB0 hBm using mom_all S hS T hT μ hμ hB
  let q : ℕ → ℝ := fun n => n * ∑ j ∈ Finset.range n, S.gaps T μ n j
  have hq : ∀ n, 0 ≤ q n := fun n => mul_nonneg (Nat.cast_nonneg n) (Finset.sum_nonneg fun j _ => gaps_nonneg S T μ n j)
  let ρ : ℕ → ℝ := fun n => √(q n) + 1 / n
  have hρ : Tendsto ρ atTop (𝓝 0) := by
    have h1 := hg.sqrt
    rw [Real.sqrt_zero] at h1
    have h2 := h1.add (tendsto_const_div_atTop_nhds_zero_nat (1 : ℝ))
    rwa [add_zero] at h2
  have hρ0 : ∀ n, 0 ≤ ρ n := fun n => by positivity
  refine Dyn.conv_sol hA hE T hT (fun n j => ex S _ (good_law S (rt T n) (hμ n) j)) h0
    (fun f n j => C f * (rt T n ^ 3 * B (m f) + ρ n / n * B (m f) + S.gaps T μ n j / (ρ n / n))) ?_ ?_ ?_ f
  · intro f n j
    have h1 := gaps_nonneg S T μ n j
    have h2 := rt_nonneg T n
    have h3 := hρ0 n
    have h4 := hC f
    have h5 := hB0 (m f)
    positivity
  · intro f
    filter_upwards [hBm (m f), rt_le T, eventually_gt_atTop 0] with n h1 h2 h3 j hj
    have hn : (0 : ℝ) < n := Nat.cast_pos.2 h3
    have hρn : 0 < ρ n / n := by positivity
    have h4 := hone f _ (rt_nonneg T n) h2 _ hρn _ (good_law S (rt T n) (hμ n) j)
    simp only [ex, LinearMap.coe_mk, AddHom.coe_mk, integral_law]
    rw [rt_sq T hT] at h4
    rw [hgen]
    refine h4.trans (mul_le_mul_of_nonneg_left ?_ (hC f))
    have h5 := h1 j hj.le
    have h6 := mul_le_mul_of_nonneg_left h5 (pow_nonneg (rt_nonneg T n) 3)
    have h7 := mul_le_mul_of_nonneg_left h5 hρn.le
    exact add_le_add (add_le_add h6 h7) le_rfl
  · intro f
    have hub : ∀ᶠ n in atTop, ∑ j ∈ Finset.range n,
        C f * (rt T n ^ 3 * B (m f) + ρ n / n * B (m f) + S.gaps T μ n j / (ρ n / n)) ≤
        C f * (T * rt T n * B (m f) + ρ n * B (m f) + √(q n)) := by
      filter_upwards [eventually_gt_atTop 0] with n h3
      have hn : (0 : ℝ) < n := Nat.cast_pos.2 h3
      have hρn : 0 < ρ n := by positivity
      rw [← Finset.mul_sum]
      refine mul_le_mul_of_nonneg_left ?_ (hC f)
      rw [Finset.sum_add_distrib, Finset.sum_const, Finset.card_range, nsmul_eq_mul, ← Finset.sum_div]
      have e1 : (∑ j ∈ Finset.range n, S.gaps T μ n j) / (ρ n / n) = q n / ρ n := by
        simp only [q]
        field_simp
      have e2 : (n : ℝ) * (rt T n ^ 3 * B (m f) + ρ n / n * B (m f)) = T * rt T n * B (m f) + ρ n * B (m f) := by
        rw [pow_succ, rt_sq T hT]
        field_simp
      rw [e1, e2]
      refine add_le_add le_rfl ?_
      rw [div_le_iff₀ hρn]
      have h4 := Real.mul_self_sqrt (hq n)
      have h5 : 0 ≤ √(q n) * (1 / n) := by positivity
      simp only [ρ]
      nlinarith
    have hlim : Tendsto (fun n => C f * (T * rt T n * B (m f) + ρ n * B (m f) + √(q n))) atTop (𝓝 0) := by
      have h1 : Tendsto (fun n => √(q n)) atTop (𝓝 √0) := hg.sqrt
      rw [Real.sqrt_zero] at h1
      have h2 := ((((rt_tendsto T).const_mul T).mul_const (B (m f))).add (hρ.mul_const (B (m f)))).add h1
      simpa using h2.const_mul (C f)
    refine tendsto_of_tendsto_of_tendsto_of_le_of_le' tendsto_const_nhds hlim (Filter.Eventually.of_forall fun n => ?_) hub
    refine Finset.sum_nonneg fun j _ => ?_
    have h1 := gaps_nonneg S T μ n j
    have h2 := rt_nonneg T n
    have h3 := hρ0 n
    have h4 := hC f
    have h5 := hB0 (m f)
    positivity

end Ajd.Scheme
