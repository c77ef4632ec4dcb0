import Mathlib.Probability.Distributions.Gaussian.Real
import Mathlib.Probability.Moments.MGFAnalytic
import Mathlib.Analysis.Calculus.IteratedDeriv.Lemmas
import Mathlib.Data.Nat.Factorial.DoubleFactorial

/-! Moments of the normal distribution from its moment generating function. -/

namespace Ajd
open MeasureTheory ProbabilityTheory Real
open scoped NNReal

/-- raw moments of the normal law -/
noncomputable def gaussMom (μ : ℝ) (v : ℝ≥0) (n : ℕ) : ℝ := ∫ x, x ^ n ∂(gaussianReal μ v)

theorem gauss_iter (μ : ℝ) (v : ℝ) (n : ℕ) :
    iteratedDeriv (n + 1) (fun t => exp (μ * t + v * t ^ 2 / 2)) =
      fun t => (μ + v * t) * iteratedDeriv n (fun t => exp (μ * t + v * t ^ 2 / 2)) t +
        n * v * iteratedDeriv (n - 1) (fun t => exp (μ * t + v * t ^ 2 / 2)) t := by
  have hf : ContDiff ℝ ⊤ (fun t => exp (μ * t + v * t ^ 2 / 2)) := by fun_prop
  have hd : ∀ n t, HasDerivAt (iteratedDeriv n (fun t => exp (μ * t + v * t ^ 2 / 2)))
      (iteratedDeriv (n + 1) (fun t => exp (μ * t + v * t ^ 2 / 2)) t) t := by
    intro n t
    rw [iteratedDeriv_succ]
    exact ((hf.differentiable_iteratedDeriv n (by exact_mod_cast WithTop.coe_lt_top _)) t).hasDerivAt
  induction n with
  | zero =>
    funext t
    simp only [zero_add, iteratedDeriv_one, iteratedDeriv_zero, Nat.cast_zero, zero_mul, add_zero]
    have : HasDerivAt (fun t => exp (μ * t + v * t ^ 2 / 2))
        (exp (μ * t + v * t ^ 2 / 2) * (μ + v * t)) t := by
      apply HasDerivAt.exp
      have := ((hasDerivAt_id t).const_mul μ).add
        ((((hasDerivAt_id t).pow 2).const_mul v).div_const 2)
      have this' : HasDerivAt (fun t : ℝ => μ * t + v * t ^ 2 / 2)
          (μ * 1 + v * ((2 : ℕ) * t ^ (2 - 1) * 1) / 2) t := this
      exact this'.congr_deriv (by norm_num; ring)
    rw [this.deriv, mul_comm]
  | succ n ih =>
    rw [iteratedDeriv_succ, ih]
    funext t
    have h1 : HasDerivAt (fun t : ℝ => μ + v * t) v t := by
      have := ((hasDerivAt_id t).const_mul v).const_add μ
      simpa using this
    have h := (h1.mul (hd n t)).add ((hd (n - 1) t).const_mul (n * v))
    refine HasDerivAt.deriv (h.congr_deriv ?_)
    simp only [Nat.add_sub_cancel]
    rw [← congrFun ih t]
    cases n with
    | zero => simp; ring
    | succ n => simp; ring

theorem gaussMom_eq_iter (μ : ℝ) (v : ℝ≥0) (n : ℕ) :
    gaussMom μ v n = iteratedDeriv n (fun t => exp (μ * t + (v : ℝ) * t ^ 2 / 2)) 0 := by
  have h := iteratedDeriv_mgf_zero (X := fun x : ℝ => x) (μ := gaussianReal μ v) (by simp) n
  rw [mgf_fun_id_gaussianReal] at h
  rw [h, gaussMom]
  rfl

theorem gaussMom_zero (μ : ℝ) (v : ℝ≥0) : gaussMom μ v 0 = 1 := by
  simp [gaussMom]

theorem gaussMom_one (μ : ℝ) (v : ℝ≥0) : gaussMom μ v 1 = μ := by
  rw [gaussMom_eq_iter, gauss_iter]; simp

theorem gaussMom_rec (μ : ℝ) (v : ℝ≥0) (n : ℕ) :
    gaussMom μ v (n + 2) = μ * gaussMom μ v (n + 1) + (n + 1) * v * gaussMom μ v n := by
  simp only [gaussMom_eq_iter]
  rw [gauss_iter μ v (n + 1)]
  simp

/-- central moments: `0` for odd order, `σ^n (n-1)!!` for even order -/
theorem gauss_central (μ : ℝ) (v : ℝ≥0) (n : ℕ) :
    ∫ x, (x - μ) ^ n ∂(gaussianReal μ v) = gaussMom 0 v n := by
  have : gaussianReal 0 v = (gaussianReal μ v).map (fun x => x - μ) := by
    rw [gaussianReal_map_sub_const, sub_self]
  rw [gaussMom, this, integral_map (by fun_prop) (by fun_prop)]

theorem gaussMom_odd (v : ℝ≥0) (n : ℕ) : gaussMom 0 v (2 * n + 1) = 0 := by
  induction n with
  | zero => simp [gaussMom_one]
  | succ n ih =>
    rw [show 2 * (n + 1) + 1 = (2 * n + 1) + 2 by ring, gaussMom_rec, ih]; simp

theorem gaussMom_even (v : ℝ≥0) (n : ℕ) :
    gaussMom 0 v (2 * n) = (v : ℝ) ^ n * ((2 * n - 1).doubleFactorial : ℕ) := by
  induction n with
  | zero => simp [gaussMom_zero]
  | succ n ih =>
    rw [show 2 * (n + 1) = 2 * n + 2 by ring, gaussMom_rec, ih]
    cases n with
    | zero => simp
    | succ n =>
      rw [show 2 * (n + 1) + 2 - 1 = (2 * n + 1) + 2 by omega, Nat.doubleFactorial,
        show 2 * (n + 1) - 1 = 2 * n + 1 by omega]
      push_cast
      ring

end Ajd
