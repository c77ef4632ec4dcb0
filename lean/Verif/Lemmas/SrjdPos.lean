import Verif.Lemmas.SvLaw
import Verif.Lemmas.SrjdCmom2
import Mathlib.Analysis.Polynomial.Basic
import Mathlib.MeasureTheory.Integral.Prod

/-! Expectations of the square-root jump-diffusion, also under its stationary law, are not negative for polynomials
that are not negative on `[0, ∞)`. -/

namespace Ajd.Srjd
open Polynomial Filter

/-- the linear map with given values of the powers -/
noncomputable def Lp' (G : ℕ → ℝ[X]) : ℝ[X] →ₗ[ℝ] ℝ[X] := Polynomial.lsum fun n => LinearMap.toSpanSingleton ℝ ℝ[X] (G n)

theorem Lp'_one (G : ℕ → ℝ[X]) (n : ℕ) : Lp' G (monomial n 1) = G n := by
  rw [Lp', lsum_apply, sum_monomial_index _ _ (by simp)]
  simp

theorem genPoly_zero (k θ σ lam μ : ℝ) : genPoly k θ σ lam μ 0 = 0 := by
  simp [genPoly]

/-- the generator of `v^n` is `-n k v^n` and lower powers -/
theorem genPoly_low (k θ σ lam μ : ℝ) (n : ℕ) (hn : 1 ≤ n) :
    (genPoly k θ σ lam μ n + C (n * k) * X ^ n).degree < (n : WithBot ℕ) := by
  have e : genPoly k θ σ lam μ n + C (n * k) * X ^ n = C (k * θ * n + n * (n - 1 : ℕ) * σ ^ 2 / 2) * X ^ (n - 1) +
      ∑ j ∈ Finset.range n, C (lam * (n.choose (j + 1) * ((j + 1).factorial * μ ^ (j + 1)))) * X ^ (n - (j + 1)) := by
    rw [genPoly, C_neg]
    ring
  rw [e]
  have h : ∀ (c : ℝ) (i : ℕ), i < n → C c * X ^ i ∈ degreeLT ℝ n := fun c i hi => by
    rw [mem_degreeLT]
    exact (degree_C_mul_X_pow_le i c).trans_lt (by exact_mod_cast hi)
  rw [← mem_degreeLT]
  exact Submodule.add_mem _ (h _ _ (by omega)) (Submodule.sum_mem _ fun j _ => h _ _ (by omega))

theorem natDegree_lt_of_degree_lt {q : ℝ[X]} {n : ℕ} (hn : 1 ≤ n) (h : q.degree < (n : WithBot ℕ)) : q.natDegree < n := by
  by_cases h0 : q = 0
  · rw [h0, natDegree_zero]; exact hn
  · exact (natDegree_lt_iff_degree_lt h0).2 h

/-- every polynomial is a constant and the generator of a polynomial -/
theorem poisson {k : ℝ} (hk : k ≠ 0) (θ σ lam μ : ℝ) (q : ℝ[X]) :
    ∃ (g : ℝ[X]) (c : ℝ), q = Lp' (genPoly k θ σ lam μ) g + C c := by
  let W : Submodule ℝ ℝ[X] := LinearMap.range (Lp' (genPoly k θ σ lam μ)) ⊔ Submodule.span ℝ {1}
  suffices h : q ∈ W by
    obtain ⟨_, ⟨g, rfl⟩, z, hz, rfl⟩ := Submodule.mem_sup.1 h
    obtain ⟨c, rfl⟩ := Submodule.mem_span_singleton.1 hz
    exact ⟨g, c, by rw [smul_eq_C_mul, mul_one]⟩
  have hX : ∀ n : ℕ, (X ^ n : ℝ[X]) ∈ W := by
    intro n
    induction n using Nat.strong_induction_on with
    | _ n ih =>
      rcases Nat.eq_zero_or_pos n with rfl | hn
      · rw [pow_zero]
        exact Submodule.mem_sup_right (Submodule.mem_span_singleton_self _)
      · have h1 : genPoly k θ σ lam μ n + C (n * k) * X ^ n ∈ W := by
          have hd := genPoly_low k θ σ lam μ n hn
          rw [as_sum_range' (genPoly k θ σ lam μ n + C (n * k) * X ^ n) n (natDegree_lt_of_degree_lt hn hd)]
          refine Submodule.sum_mem _ fun i hi => ?_
          rw [← C_mul_X_pow_eq_monomial, ← smul_eq_C_mul]
          exact Submodule.smul_mem _ _ (ih i (Finset.mem_range.1 hi))
        have h2 : genPoly k θ σ lam μ n ∈ W :=
          Submodule.mem_sup_left ⟨monomial n 1, Lp'_one _ _⟩
        have h3 := Submodule.smul_mem W ((n * k : ℝ)⁻¹) (Submodule.sub_mem W h1 h2)
        have hnk : (n * k : ℝ) ≠ 0 := mul_ne_zero (by exact_mod_cast hn.ne') hk
        rw [add_sub_cancel_left, smul_eq_C_mul, ← mul_assoc, ← C_mul, inv_mul_cancel₀ hnk, C_1, one_mul] at h3
        exact h3
  rw [as_sum_range_C_mul_X_pow q]
  refine Submodule.sum_mem _ fun i _ => ?_
  rw [← smul_eq_C_mul]
  exact Submodule.smul_mem _ _ (hX i)

/-- a polynomial with positive leading coefficient has a minimum on `[0, ∞)` -/
theorem min_exists {c : ℝ} (hc : 0 < c) {n : ℕ} (hn : 1 ≤ n) {r : ℝ[X]} (hr : r.degree < (n : WithBot ℕ)) :
    ∃ x : ℝ, 0 ≤ x ∧ ∀ y : ℝ, 0 ≤ y → (C c * X ^ n + r).eval x ≤ (C c * X ^ n + r).eval y := by
  have hd : (C c * X ^ n : ℝ[X]).degree = n := degree_C_mul_X_pow n hc.ne'
  have hl : r.degree < (C c * X ^ n : ℝ[X]).degree := by rw [hd]; exact hr
  have ht : Tendsto (fun x => (C c * X ^ n + r).eval x) atTop atTop := by
    refine tendsto_atTop_of_leadingCoeff_nonneg _ ?_ ?_
    · rw [degree_add_eq_left_of_degree_lt hl, hd]; exact_mod_cast hn
    · rw [leadingCoeff_add_of_degree_lt' hl, leadingCoeff_C_mul_X_pow]; exact hc.le
  obtain ⟨R, hR⟩ := eventually_atTop.1 (ht.eventually_ge_atTop ((C c * X ^ n + r).eval 0))
  obtain ⟨x, hx, hm⟩ := (isCompact_Icc (a := (0 : ℝ)) (b := max R 0)).exists_isMinOn
    ⟨0, Set.left_mem_Icc.2 (le_max_right _ _)⟩ (C c * X ^ n + r).continuous.continuousOn
  refine ⟨x, hx.1, fun y hy => ?_⟩
  rcases le_total y (max R 0) with h | h
  · exact hm ⟨hy, h⟩
  · exact (hm (Set.left_mem_Icc.2 (le_max_right _ _))).trans (hR y ((le_max_left _ _).trans h))

end Ajd.Srjd

namespace Ajd.SvcjI
open MvPolynomial MeasureTheory ProbabilityTheory Gen Ieziziz Filter

/-- polynomials in the variance -/
noncomputable def inV : Polynomial ℝ →ₐ[ℝ] MvPolynomial (Fin 2) ℝ := Polynomial.aeval (X 0)

theorem eval_inV (q : Polynomial ℝ) (x : Fin 2 → ℝ) : eval x (inV q) = q.eval (x 0) := by
  rw [inV, ← coe_aeval_eq_eval, RingHom.coe_coe, ← Polynomial.aeval_algHom_apply, aeval_X, Polynomial.coe_aeval_eq_eval]

theorem jump_fst (p : Par) (hm : 0 < p.mu_v) (rhoJ : ℝ) : (jumpLaw2 p.mu_v rhoJ p.mu_s p.sigma_s).map (fun y => y 0) =
    expMeasure (1 / p.mu_v) := by
  have := isProbabilityMeasure_expMeasure (show 0 < 1 / p.mu_v by positivity)
  have hG : Measurable fun y : ℝ × ℝ => (![y.1, rhoJ * y.1 + y.2] : Fin 2 → ℝ) := by
    refine measurable_pi_lambda _ fun i => ?_
    fin_cases i <;> simp <;> fun_prop
  rw [jumpLaw2_eq p hm, Measure.map_map (by fun_prop) hG, jl]
  exact Measure.map_fst_prod.trans (by simp)

theorem exp_nonneg (r : ℝ) : ∀ᵐ x ∂(expMeasure r), 0 ≤ x := Sv.gamma_nonneg 1 r

/-- the variance does not become negative -/
theorem svcj_viable (p : Par) (hm : 0 < p.mu_v) {mu θ σ ρ rhoJ : ℝ} (hk : 0 ≤ p.k * θ) (hρ : 0 ≤ 1 - ρ ^ 2)
    (hl : 0 ≤ p.lmbd) : Viable (svcj mu p.k θ σ ρ p.lmbd p.mu_v rhoJ p.mu_s p.sigma_s) (orth {0}) := by
  refine viable_orth ?_ ?_ hl ?_
  · rintro x hx i rfl h0
    simp only [svcj, Matrix.cons_val_zero, h0, sub_zero]
    exact hk
  · intro x hx
    refine ⟨2, ![x 0, x 0], ![![σ, ρ], ![0, √(1 - ρ ^ 2)]], fun i j => ?_, fun r => ?_⟩
    · have := Sv.sq_rho hρ
      fin_cases i <;> fin_cases j <;> simp [svcj, Fin.sum_univ_two]
      · ring
      · ring
      · ring
      · rw [this]; ring
    · have h := hx 0 rfl
      rcases h.eq_or_lt with h0 | h0
      · left; fin_cases r <;> simp [← h0]
      · right
        refine ⟨by fin_cases r <;> simpa using h, ?_⟩
        rintro i rfl hi
        exact absurd hi h0.ne'
  · have h := exp_nonneg (1 / p.mu_v)
    rw [← jump_fst p hm rhoJ] at h
    have h := ae_of_ae_map (measurable_pi_apply 0).aemeasurable h
    filter_upwards [h] with y hy
    rintro i rfl
    exact hy

/-- the generator on powers of the variance -/
theorem svcj_gen_pow (p : Par) (hm : 0 < p.mu_v) (mu θ σ ρ rhoJ : ℝ) (n : ℕ) :
    (svcj mu p.k θ σ ρ p.lmbd p.mu_v rhoJ p.mu_s p.sigma_s).IsGen (X 0 ^ n)
      (inV (Srjd.genPoly p.k θ σ p.lmbd p.mu_v n)) := by
  intro x
  have hj : ∫ y, (eval (x + y) (X 0 ^ n) - eval x (X 0 ^ n)) ∂(jumpLaw2 p.mu_v rhoJ p.mu_s p.sigma_s) =
      ∫ y, ((x 0 + y) ^ n - x 0 ^ n) ∂(expMeasure (1 / p.mu_v)) := by
    rw [← jump_fst p hm rhoJ, integral_map (measurable_pi_apply 0).aemeasurable (by fun_prop)]
    simp
  have h1 : deriv (fun y : ℝ => y ^ n) = fun y : ℝ => (n : ℝ) * y ^ (n - 1) := by
    funext y; simp
  have h2 : deriv (fun y : ℝ => (n : ℝ) * y ^ (n - 1)) (x 0) = n * ((n - 1 : ℕ) * x 0 ^ (n - 2)) := by
    have := ((hasDerivAt_pow (n - 1) (x 0)).const_mul (n : ℝ)).deriv
    rw [this]
    congr 2
  rw [eval_inV, Srjd.gen_pow _ _ _ _ hm, Srjd.gen, h1, h2]
  show _ = _ + p.lmbd * ∫ y, (eval (x + y) (X 0 ^ n) - eval x (X 0 ^ n)) ∂(jumpLaw2 p.mu_v rhoJ p.mu_s p.sigma_s)
  rw [hj]
  congr 1
  simp [svcj, Fin.sum_univ_two, pderiv_X, Pi.single_apply, Derivation.leibniz_pow, mul_comm, mul_left_comm]
  left; left
  rw [Nat.sub_sub]
  ring

/-- the generator on polynomials of the variance -/
theorem svcj_gen (p : Par) (hm : 0 < p.mu_v) (mu θ σ ρ rhoJ : ℝ) (q : Polynomial ℝ) :
    (svcj mu p.k θ σ ρ p.lmbd p.mu_v rhoJ p.mu_s p.sigma_s).IsGen (inV q)
      (inV (Srjd.Lp' (Srjd.genPoly p.k θ σ p.lmbd p.mu_v) q)) := by
  have hc := sY_coef p hm mu θ σ ρ rhoJ
  have hν : Mom (svcj mu p.k θ σ ρ p.lmbd p.mu_v rhoJ p.mu_s p.sigma_s).ν := momY p hm rhoJ
  suffices h : op (bY p.k θ mu) (aY σ ρ) _ _ hν ∘ₗ inV.toLinearMap =
      inV.toLinearMap ∘ₗ Srjd.Lp' (Srjd.genPoly p.k θ σ p.lmbd p.mu_v) by
    have := LinearMap.congr_fun h q
    simp only [LinearMap.comp_apply, AlgHom.toLinearMap_apply] at this
    rw [← this]
    exact isGen_op hc hν _
  refine Polynomial.lhom_ext' fun n => LinearMap.ext_ring ?_
  simp only [LinearMap.comp_apply, AlgHom.toLinearMap_apply]
  rw [Srjd.Lp'_one]
  refine isGen_unique (isGen_op hc hν _) ?_
  have : inV (Polynomial.monomial n 1) = X 0 ^ n := by
    rw [← Polynomial.X_pow_eq_monomial, map_pow, inV, Polynomial.aeval_X]
  rw [this]
  exact svcj_gen_pow p hm mu θ σ ρ rhoJ n

/-- the stationary law is not negative on polynomials that are not negative on `[0, ∞)` -/
theorem stat_pos {k θ σ lam μ : ℝ} (hk : 0 < k) (hθ : 0 ≤ θ) (hl : 0 ≤ lam) (hμ : 0 < μ) {M : ℕ → ℝ}
    (hM : Srjd.Stationary k θ σ lam μ M) (q : Polynomial ℝ) (hq : ∀ x : ℝ, 0 ≤ x → 0 ≤ q.eval x) :
    0 ≤ Srjd.Lp M q := by
  obtain ⟨g, c, hg⟩ := Srjd.poisson hk.ne' θ σ lam μ q
  have h0 : Srjd.Lp M ∘ₗ Srjd.Lp' (Srjd.genPoly k θ σ lam μ) = 0 := by
    refine Polynomial.lhom_ext' fun n => LinearMap.ext_ring ?_
    simp only [LinearMap.comp_apply, LinearMap.zero_apply]
    rw [Srjd.Lp'_one, Srjd.Lp_eq]
    exact hM.gen n _ (Srjd.gen_pow k θ σ lam hμ n)
  have hc : Srjd.Lp M q = c := by
    have h1 := LinearMap.congr_fun h0 g
    rw [LinearMap.comp_apply, LinearMap.zero_apply] at h1
    have h2 := Srjd.Lp_X M c 0
    rw [pow_zero, mul_one, hM.zero, mul_one] at h2
    rw [hg, map_add, h1, h2, zero_add]
  rw [hc]
  by_contra hn
  rw [not_le] at hn
  obtain ⟨N, hN⟩ : ∃ N, N = g.natDegree + 1 := ⟨_, rfl⟩
  have hNk : 0 < (N : ℝ) * k := mul_pos (by rw [hN]; positivity) hk
  obtain ⟨x1, -, hx1⟩ := Srjd.min_exists hNk (show 1 ≤ N by omega)
    (r := -(Srjd.genPoly k θ σ lam μ N + Polynomial.C (N * k) * Polynomial.X ^ N))
    (by rw [Polynomial.degree_neg]; exact Srjd.genPoly_low k θ σ lam μ N (by omega))
  obtain ⟨B, hB⟩ : ∃ B, B = (Srjd.genPoly k θ σ lam μ N).eval x1 := ⟨_, rfl⟩
  have hb : ∀ y : ℝ, 0 ≤ y → (Srjd.genPoly k θ σ lam μ N).eval y ≤ B := by
    intro y hy
    have := hx1 y hy
    simp only [Polynomial.eval_add, Polynomial.eval_neg] at this
    rw [hB]
    linarith
  obtain ⟨ε, hε⟩ : ∃ ε, ε = -c / (2 * (|B| + 1)) := ⟨_, rfl⟩
  have hB1 : 0 < |B| + 1 := by positivity
  have hεp : 0 < ε := by rw [hε]; exact div_pos (by linarith) (by linarith)
  have hεB : ε * B < -c := by
    have h1 : ε * (2 * (|B| + 1)) = -c := by rw [hε]; field_simp
    have h2 : ε * B ≤ ε * |B| := mul_le_mul_of_nonneg_left (le_abs_self B) hεp.le
    nlinarith [mul_nonneg hεp.le (abs_nonneg B)]
  obtain ⟨x0, hx0, hm⟩ := Srjd.min_exists hεp (show 1 ≤ N by omega) (r := -g) (by
    rw [Polynomial.degree_neg, hN]
    exact Polynomial.degree_le_natDegree.trans_lt (by exact_mod_cast Nat.lt_succ_self _))
  obtain ⟨w, hw⟩ : ∃ w, w = Polynomial.C ε * Polynomial.X ^ N + -g := ⟨_, rfl⟩
  rw [← hw] at hm
  let p : Par := ⟨k, lam, μ, 0, 0⟩
  have hmp := max_principle (svcj_viable p hμ (mu := 0) (θ := θ) (σ := σ) (ρ := 0) (rhoJ := 0)
    (mul_nonneg hk.le hθ) (by norm_num) hl) (svcj_gen p hμ 0 θ σ 0 0 w) (x := ![x0, 0])
    (by rintro i rfl; simpa using hx0) fun y hy => by
      rw [eval_inV, eval_inV]
      exact hm (y 0) (hy 0 rfl)
  rw [eval_inV, hw, map_add, map_neg] at hmp
  have hA : Srjd.Lp' (Srjd.genPoly k θ σ lam μ) (Polynomial.C ε * Polynomial.X ^ N) =
      Polynomial.C ε * Srjd.genPoly k θ σ lam μ N := by
    rw [← Polynomial.smul_eq_C_mul, map_smul, Polynomial.X_pow_eq_monomial, Srjd.Lp'_one, Polynomial.smul_eq_C_mul]
  have hG : Srjd.Lp' (Srjd.genPoly k θ σ lam μ) g = q - Polynomial.C c := by rw [hg]; ring
  change 0 ≤ Polynomial.eval x0 (Srjd.Lp' (Srjd.genPoly k θ σ lam μ) (Polynomial.C ε * Polynomial.X ^ N) +
    -Srjd.Lp' (Srjd.genPoly k θ σ lam μ) g) at hmp
  rw [hA, hG] at hmp
  simp only [Polynomial.eval_add, Polynomial.eval_neg, Polynomial.eval_sub, Polynomial.eval_mul, Polynomial.eval_C] at hmp
  have h1 := hq x0 hx0
  have h2 := mul_le_mul_of_nonneg_left (hb x0 hx0) hεp.le
  linarith

theorem start_pos {k θ σ lam μ : ℝ} (hk : 0 < k) (hθ : 0 ≤ θ) (hl : 0 ≤ lam) (hμ : 0 < μ) {M : ℕ → ℝ}
    (hM : Srjd.Stationary k θ σ lam μ M) {E0 : MvPolynomial (Fin 2) ℝ →ₗ[ℝ] ℝ} (h0 : Start E0 M)
    (f : MvPolynomial (Fin 2) ℝ) (hf : ∀ x ∈ orth {0}, 0 ≤ eval x f) : 0 ≤ E0 f := by
  rw [h0.eq]
  refine stat_pos hk hθ hl hμ hM _ fun x hx => ?_
  rw [eval_atV, aeval_eq_eval]
  exact hf _ (by rintro i rfl; simpa using hx)

end Ajd.SvcjI
