import Verif.Lemmas.Ito
import Mathlib.Probability.Distributions.Gamma

/-! Existence of a solution of the Itô moment equation; the stationary variance moments. -/

namespace Ajd.Ito
open Poly MeasureTheory ProbabilityTheory

/-- A family satisfying the recursive equation (so the equation is not contradictory). -/
noncomputable def itoSol (p : Par) (n3 n4 n5 : ℕ) (t : ℝ) : ℝ :=
  if n3 + n4 + n5 = 0 then 1 else
    (if h : 2 ≤ n3 then (n3 : ℝ) * (n3 - 1) / 2 * (
      Real.exp (p.k * p.t0) * (p.v - p.θ) *
        (∫ s in p.t0..t, Real.exp (p.k * s) * itoSol p (n3 - 2) n4 n5 s) +
      p.θ * (∫ s in p.t0..t, Real.exp (2 * p.k * s) * itoSol p (n3 - 2) n4 n5 s) +
      p.σ * (∫ s in p.t0..t, Real.exp (p.k * s) * itoSol p (n3 - 1) n4 n5 s)) else 0) +
    (if _h : 2 ≤ n4 then (n4 : ℝ) * (n4 - 1) / 2 * (
      Real.exp (p.k * p.t0) * (p.v - p.θ) *
        (∫ s in p.t0..t, Real.exp (-p.k * s) * itoSol p n3 (n4 - 2) n5 s) +
      p.θ * (∫ s in p.t0..t, itoSol p n3 (n4 - 2) n5 s) +
      p.σ * (∫ s in p.t0..t, Real.exp (-p.k * s) * itoSol p (n3 + 1) (n4 - 2) n5 s)) else 0) +
    (if _h : 1 ≤ n3 ∧ 1 ≤ n4 then (n3 : ℝ) * n4 * (
      Real.exp (p.k * p.t0) * (p.v - p.θ) * (∫ s in p.t0..t, itoSol p (n3 - 1) (n4 - 1) n5 s) +
      p.θ * (∫ s in p.t0..t, Real.exp (p.k * s) * itoSol p (n3 - 1) (n4 - 1) n5 s) +
      p.σ * (∫ s in p.t0..t, itoSol p n3 (n4 - 1) n5 s)) else 0) +
    (if h : 2 ≤ n5 then (n5 : ℝ) * (n5 - 1) / 2 * (
      Real.exp (p.k * p.t0) * (p.v - p.θ) *
        (∫ s in p.t0..t, Real.exp (-p.k * s) * itoSol p n3 n4 (n5 - 2) s) +
      p.θ * (∫ s in p.t0..t, itoSol p n3 n4 (n5 - 2) s) +
      p.σ * (∫ s in p.t0..t, Real.exp (-p.k * s) * itoSol p (n3 + 1) n4 (n5 - 2) s)) else 0)
termination_by n3 + n4 + n5

theorem itoSol_rec (p : Par) : ItoRec p (itoSol p) where
  zero t _ := by rw [itoSol]; simp
  step n3 n4 n5 hn t _ := by
    rw [itoSol, if_neg (by omega)]
    congr 1
    · congr 1
      · congr 1
        · split_ifs with h
          · rfl
          · have : n3 = 0 ∨ n3 = 1 := by omega
            rcases this with rfl | rfl <;> simp
        · split_ifs with h
          · rfl
          · have : n4 = 0 ∨ n4 = 1 := by omega
            rcases this with rfl | rfl <;> simp
      · split_ifs with h
        · rfl
        · have : n3 = 0 ∨ n4 = 0 := by omega
          rcases this with rfl | rfl <;> simp
    · split_ifs with h
      · rfl
      · have : n5 = 0 ∨ n5 = 1 := by omega
        rcases this with rfl | rfl <;> simp

/-! ### moment_v -/

theorem momentV_keys (n : ℕ) : (momentV n).Keys (fun k => 0 ≤ ix k 0 ∧ 0 ≤ ix k 1 ∧ k.length = 2) ∧
    (momentV n).keyfor = ["theta", "sigma_v^2/k"] ∧ (momentV n).WF := by
  induction n with
  | zero => exact ⟨by intro x hx; simp [momentV] at hx; subst hx; simp, rfl, by simp [momentV, WF]⟩
  | succ n ih =>
    cases n with
    | zero => exact ⟨by intro x hx; simp [momentV] at hx; subst hx; simp, rfl, by simp [momentV, WF]⟩
    | succ n =>
      refine ⟨?_, ?_, ?_⟩
      · apply ofTerms_Keys
        intro x hx
        simp only [List.mem_flatMap] at hx
        obtain ⟨y, hy, hx⟩ := hx
        have := ih.1 y hy
        simp at hx
        rcases hx with rfl | rfl <;> simp <;> omega
      · rw [momentV, momentVStep, ofTerms_keyfor]
      · exact ofTerms_WF _ _

theorem ev_momentV (k θ σ : ℝ) (n : ℕ) : ev (vVal k θ σ) (momentV n) = vMoment k θ σ n := by
  induction n with
  | zero => simp [momentV, ev, vVal, vMoment]
  | succ n ih =>
    cases n with
    | zero => simp [momentV, ev, vVal, vMoment]
    | succ n =>
      rw [vMoment, Finset.prod_range_succ]
      change _ = vMoment k θ σ (n + 1) * _
      rw [← ih]
      have hk := (momentV_keys (n + 1)).1
      simp only [momentV] at *
      rw [momentVStep, ev_ofTerms]
      generalize momentV (n + 1) = P at *
      simp only [ev]
      obtain ⟨kf, l⟩ := P
      simp only [Keys] at hk ⊢
      clear ih
      induction l with
      | nil => simp
      | cons a t iht =>
        have ih2 := iht (fun x hx => hk x (by simp [hx]))
        obtain ⟨h0, h1, _⟩ := hk a (by simp)
        simp only [List.flatMap_cons, List.map_append, List.sum_append, List.map_cons,
          List.sum_cons, List.map_nil, List.sum_nil, ih2, add_mul]
        congr 1
        simp only [Rat.smul_def, vVal, ix_cons_zero, ix_cons_succ]
        rw [zpow_succ_nonneg _ _ h0, zpow_succ_nonneg _ _ h1]
        push_cast
        ring

theorem gamma_moment (a b : ℝ) (ha : 0 < a) (hb : 0 < b) (n : ℕ) :
    ∫ x, x ^ n ∂(gammaMeasure a b) = ∏ j ∈ Finset.range n, ((a + j) / b) := by
  have hG : Real.Gamma (a + n) = (∏ j ∈ Finset.range n, (a + j)) * Real.Gamma a := by
    induction n with
    | zero => simp
    | succ n ih =>
      rw [Finset.prod_range_succ, Nat.cast_succ, ← add_assoc, Real.Gamma_add_one (by positivity), ih]
      ring
  rw [gammaMeasure, integral_withDensity_eq_integral_toReal_smul]
  · have h1 : (fun x => (gammaPDF a b x).toReal • x ^ n) =
        Set.indicator (Set.Ici 0) fun x => b ^ a / Real.Gamma a *
          (x ^ (a - 1) * x ^ n * Real.exp (-(b * x))) := by
      funext x
      rw [gammaPDF, ENNReal.toReal_ofReal (gammaPDFReal_nonneg ha hb x)]
      by_cases hx : 0 ≤ x
      · rw [Set.indicator_of_mem (by simpa using hx), gammaPDFReal, if_pos hx, smul_eq_mul]; ring
      · rw [Set.indicator_of_notMem (by simpa using hx), gammaPDFReal, if_neg hx]; simp
    rw [h1, integral_indicator measurableSet_Ici, integral_Ici_eq_integral_Ioi,
      integral_const_mul]
    have h2 : ∫ x in Set.Ioi (0:ℝ), x ^ (a - 1) * x ^ n * Real.exp (-(b * x)) =
        ∫ x in Set.Ioi (0:ℝ), x ^ (a + n - 1) * Real.exp (-(b * x)) := by
      apply setIntegral_congr_fun measurableSet_Ioi
      intro x hx
      simp only
      rw [show a + n - 1 = (a - 1) + n by ring, Real.rpow_add_natCast (ne_of_gt hx)]
    rw [h2, Real.integral_rpow_mul_exp_neg_mul_Ioi (by positivity) hb, hG,
      Finset.prod_div_distrib, Finset.prod_const, Finset.card_range,
      Real.div_rpow zero_le_one hb.le, Real.one_rpow, Real.rpow_add_natCast hb.ne']
    have := (Real.Gamma_pos_of_pos ha).ne'
    have := (Real.rpow_pos_of_pos hb a).ne'
    field_simp
  · exact (measurable_gammaPDFReal a b).ennreal_ofReal
  · exact ae_of_all _ fun x => by simp [gammaPDF]
end Ajd.Ito
