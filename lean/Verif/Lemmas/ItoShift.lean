import Verif.Lemmas.Ito

/-! The Itô moment equation started at time 0. -/

namespace Ajd.Ito
open MeasureTheory

theorem int_shift (a t0 u : ℝ) (f : ℝ → ℝ) :
    ∫ s in t0..t0 + u, Real.exp (a * s) * f s =
      Real.exp (a * t0) * ∫ s in (0 : ℝ)..u, Real.exp (a * s) * f (t0 + s) := by
  have := intervalIntegral.integral_comp_add_left (a := 0) (b := u)
    (fun s => Real.exp (a * s) * f s) t0
  rw [add_zero] at this
  rw [← this, ← intervalIntegral.integral_const_mul]
  congr 1
  funext s
  rw [mul_add, Real.exp_add]
  ring

theorem int_shift0 (t0 u : ℝ) (f : ℝ → ℝ) :
    ∫ s in t0..t0 + u, f s = ∫ s in (0 : ℝ)..u, f (t0 + s) := by
  have := int_shift 0 t0 u f
  simpa using this

/-- Starting the clock at `t0`: `N a b c u = e^{-a k t0} M a b c (t0 + u)`. -/
theorem ItoRec.shift {p : Par} {M : ℕ → ℕ → ℕ → ℝ → ℝ} (hM : ItoRec p M) :
    ItoRec { p with t0 := 0 } fun a b c u =>
      Real.exp (-(p.k * p.t0)) ^ a * M a b c (p.t0 + u) := by
  constructor
  · intro t ht
    simp only at ht
    simp [hM.zero (p.t0 + t) (by linarith)]
  · intro n3 n4 n5 hn t ht
    simp only at ht
    simp only [mul_zero, Real.exp_zero, one_mul]
    rw [hM.step n3 n4 n5 hn (p.t0 + t) (by linarith)]
    simp only [int_shift]
    simp only [int_shift0]
    have hc : ∀ (w : ℝ → ℝ) (a b c : ℕ) (x : ℝ), ∫ s in (0 : ℝ)..t, w s * (x ^ a *
        M a b c (p.t0 + s)) = x ^ a * ∫ s in (0 : ℝ)..t, w s * M a b c (p.t0 + s) := by
      intro w a b c x
      rw [← intervalIntegral.integral_const_mul]
      congr 1; funext s; ring
    simp only [hc, intervalIntegral.integral_const_mul]
    have e1 : Real.exp (2 * p.k * p.t0) = Real.exp (p.k * p.t0) ^ 2 := by
      rw [← Real.exp_nat_mul]; ring_nf
    have e2 : Real.exp (-p.k * p.t0) = Real.exp (-(p.k * p.t0)) := by ring_nf
    have e3 : Real.exp (p.k * p.t0) * Real.exp (-(p.k * p.t0)) = 1 := by
      rw [← Real.exp_add]; simp
    rw [e1, e2]
    generalize Real.exp (p.k * p.t0) = X at e3 ⊢
    generalize Real.exp (-(p.k * p.t0)) = Y at e3 ⊢
    rw [mul_add, mul_add, mul_add]
    congr 1
    · congr 1
      · congr 1
        · rcases n3 with _ | _ | m
          · simp
          · simp
          · simp only [show m + 2 - 2 = m by omega, show m + 2 - 1 = m + 1 by omega]
            linear_combination ((↑(m + 2) : ℝ) * (↑(m + 2) - 1) / 2 * Y ^ m * ((X * Y + 1) *
              (p.v - p.θ) * (∫ s in (0 : ℝ)..t, Real.exp (p.k * s) * M m n4 n5 (p.t0 + s)) +
              p.θ * (X * Y + 1) * (∫ s in (0 : ℝ)..t, Real.exp (2 * p.k * s) * M m n4 n5 (p.t0 + s))
              + p.σ * Y * (∫ s in (0 : ℝ)..t, Real.exp (p.k * s) * M (m + 1) n4 n5 (p.t0 + s)))) * e3
        · linear_combination ((↑n4 : ℝ) * (↑n4 - 1) / 2 * Y ^ n3 *
              (p.v - p.θ) * (∫ s in (0 : ℝ)..t, Real.exp (-p.k * s) * M n3 (n4 - 2) n5 (p.t0 + s))) *
              e3
      · rcases n3 with _ | m
        · simp
        · simp only [show m + 1 - 1 = m by omega]
          linear_combination ((↑(m + 1) : ℝ) * n4 * Y ^ m * (
              (p.v - p.θ) * (∫ s in (0 : ℝ)..t, M m (n4 - 1) n5 (p.t0 + s)) +
              p.θ * (∫ s in (0 : ℝ)..t, Real.exp (p.k * s) * M m (n4 - 1) n5 (p.t0 + s)))) * e3
    · linear_combination ((↑n5 : ℝ) * (↑n5 - 1) / 2 * Y ^ n3 *
              (p.v - p.θ) * (∫ s in (0 : ℝ)..t, Real.exp (-p.k * s) * M n3 n4 (n5 - 2) (p.t0 + s))) *
              e3

end Ajd.Ito
