import Verif.Spec.Cpp
import Mathlib.Probability.Kernel.Composition.IntegralCompProd
import Mathlib.Probability.Moments.MGFAnalytic
import Mathlib.Probability.Moments.IntegrableExpMul

/-! The compound Poisson law with normal jumps and its moment generating function. -/

namespace Ajd.Cpp
open MeasureTheory ProbabilityTheory Real
open scoped NNReal

theorem sumLaw_gauss (μ : ℝ) (v : ℝ≥0) (N : ℕ) :
    sumLaw (gaussianReal μ v) N = gaussianReal (N * μ) (N * v) := by
  induction N with
  | zero => simp [sumLaw]
  | succ N ih =>
    rw [sumLaw, ih, gaussianReal_conv_gaussianReal]
    congr 1 <;> (push_cast; ring)

noncomputable def sumKernel (μ : ℝ) (v : ℝ≥0) : Kernel ℕ ℝ :=
  Kernel.ofFunOfCountable (sumLaw (gaussianReal μ v))

theorem sumKernel_apply (μ : ℝ) (v : ℝ≥0) (N : ℕ) :
    sumKernel μ v N = gaussianReal (N * μ) (N * v) := sumLaw_gauss μ v N

instance (μ : ℝ) (v : ℝ≥0) : IsMarkovKernel (sumKernel μ v) :=
  ⟨fun N => by rw [sumKernel_apply]; infer_instance⟩

theorem cppLaw_eq (Λ : ℝ≥0) (μ : ℝ) (v : ℝ≥0) :
    cppLaw Λ (gaussianReal μ v) = (poissonMeasure Λ).bind (sumKernel μ v) := rfl

instance (Λ : ℝ≥0) (μ : ℝ) (v : ℝ≥0) : IsProbabilityMeasure (cppLaw Λ (gaussianReal μ v)) := by
  rw [cppLaw_eq]; infer_instance

theorem mgf_sum (μ : ℝ) (v : ℝ≥0) (N : ℕ) (t : ℝ) :
    ∫ x, exp (t * x) ∂(sumKernel μ v N) = exp (μ * t + v * t ^ 2 / 2) ^ N := by
  rw [sumKernel_apply]
  have := congrFun (mgf_fun_id_gaussianReal (μ := N * μ) (v := N * v)) t
  simp only [mgf] at this
  rw [this, ← exp_nat_mul]
  congr 1; push_cast; ring

theorem integrable_exp_cpp (Λ : ℝ≥0) (μ : ℝ) (v : ℝ≥0) (t : ℝ) :
    Integrable (fun x => exp (t * x)) (cppLaw Λ (gaussianReal μ v)) := by
  rw [cppLaw_eq, Measure.integrable_comp_iff (by fun_prop)]
  refine ⟨Filter.Eventually.of_forall fun N => ?_, ?_⟩
  · rw [sumKernel_apply]; exact integrable_exp_mul_gaussianReal t
  · simp only [Real.norm_eq_abs, abs_exp, mgf_sum]
    rw [integrable_poissonMeasure_iff]
    simp only [norm_pow, Real.norm_eq_abs, abs_exp]
    have := (Real.summable_pow_div_factorial ((Λ : ℝ) * exp (μ * t + v * t ^ 2 / 2))).mul_left
      (exp (-Λ))
    refine this.congr fun n => ?_
    rw [mul_pow]; ring

theorem mgf_cpp (Λ : ℝ≥0) (μ : ℝ) (v : ℝ≥0) :
    mgf (fun x => x) (cppLaw Λ (gaussianReal μ v)) =
      fun t => exp (Λ * (exp (μ * t + v * t ^ 2 / 2) - 1)) := by
  funext t
  have hi := integrable_exp_cpp Λ μ v t
  rw [cppLaw_eq, Measure.comp_eq_comp_const_apply] at hi
  rw [mgf, cppLaw_eq, Measure.comp_eq_comp_const_apply, Kernel.integral_comp hi]
  simp only [mgf_sum, Kernel.const_apply]
  rw [integral_poissonMeasure]
  have h := (NormedSpace.expSeries_div_hasSum_exp
    ((Λ : ℝ) * exp (μ * t + v * t ^ 2 / 2))).mul_left (exp (-Λ))
  rw [← Real.exp_eq_exp_ℝ, ← exp_add] at h
  have e : (fun n : ℕ => (exp (-(Λ : ℝ)) * Λ ^ n / n.factorial) • exp (μ * t + v * t ^ 2 / 2) ^ n) =
      fun n : ℕ => exp (-(Λ : ℝ)) * ((Λ * exp (μ * t + v * t ^ 2 / 2)) ^ n / n.factorial) := by
    funext n; rw [smul_eq_mul, mul_pow]; ring
  rw [e, h.tsum_eq]
  congr 1; ring

theorem integrableExpSet_cpp (Λ : ℝ≥0) (μ : ℝ) (v : ℝ≥0) :
    integrableExpSet (fun x => x) (cppLaw Λ (gaussianReal μ v)) = Set.univ := by
  ext t; simpa [integrableExpSet] using integrable_exp_cpp Λ μ v t

theorem cpp_moment (Λ : ℝ≥0) (μ : ℝ) (v : ℝ≥0) (n : ℕ) :
    ∫ x, x ^ n ∂(cppLaw Λ (gaussianReal μ v)) =
      iteratedDeriv n (fun t => exp (Λ * (exp (μ * t + v * t ^ 2 / 2) - 1))) 0 := by
  have h := iteratedDeriv_mgf_zero (X := fun x : ℝ => x) (μ := cppLaw Λ (gaussianReal μ v))
    (by rw [integrableExpSet_cpp]; simp) n
  rw [mgf_cpp] at h
  rw [h]; rfl

theorem cpp_integrable_pow (Λ : ℝ≥0) (μ : ℝ) (v : ℝ≥0) (n : ℕ) :
    Integrable (fun x => x ^ n) (cppLaw Λ (gaussianReal μ v)) := by
  have := integrable_pow_of_mem_interior_integrableExpSet (X := fun x : ℝ => x)
    (μ := cppLaw Λ (gaussianReal μ v)) (by rw [integrableExpSet_cpp]; simp) n
  exact this

end Ajd.Cpp
