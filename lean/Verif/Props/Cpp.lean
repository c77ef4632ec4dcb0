import Verif.Lemmas.Cpp
import Verif.Lemmas.CppLaw

/-! C23-C25: `cpp_mom.py`. -/

namespace Ajd
open Poly Cpp MeasureTheory ProbabilityTheory
open scoped NNReal

/-- C23. `mnorm(n)` is, for every mean and variance, the `n`-th moment of the normal distribution. -/
theorem C23_mnorm (n : ℕ) : ∃ r, mnorm n = .ok r ∧ r.keyfor = ["mu", "sigma^2"] ∧ r.WF ∧
    r.Keys (fun k => k.length = 2 ∧ ∀ i, 0 ≤ k.getD i 0) ∧
    ∀ (μ : ℝ) (v : ℝ≥0), ev (mono fun i => if i = 0 then μ else (v : ℝ)) r =
      ∫ x, x ^ n ∂(gaussianReal μ v) := by
  refine ⟨mnormNat n, by rw [mnorm, if_neg (by omega), Int.toNat_natCast], mnormNat_keyfor n,
    mnormNat_WF n, mnormNat_keys n, fun μ v => ?_⟩
  rw [ev_mnormNat]
  exact (gaussMom_eq_iter μ v n).symm

/-- C23. A negative order raises `ValueError`. -/
theorem C23_mnorm_negative (n : ℤ) (h : n < 0) : mnorm n = .error .valueError := by
  rw [mnorm, if_pos h]

example : (-3 : ℤ) < 0 := by norm_num
example : mnorm 3 = .ok ⟨["mu", "sigma^2"], [([3, 0], 1), ([1, 1], 3)]⟩ := by decide +kernel

/-- C24. `mcpp(n)` is, for every `Λ = λ h >= 0`, mean and standard deviation, the `n`-th moment of
the compound Poisson variable with normal jumps. -/
theorem C24_mcpp (n : ℕ) : ∃ r, mcpp n = .ok r ∧ r.keyfor = ["lambda*h", "mu", "sigma"] ∧ r.WF ∧
    r.Keys (fun k => k.length = 3 ∧ ∀ i, 0 ≤ k.getD i 0) ∧
    ∀ (Λ : ℝ≥0) (μ σ : ℝ),
      ev (mono fun i => if i = 0 then (Λ : ℝ) else if i = 1 then μ else σ) r =
        ∫ x, x ^ n ∂(cppLaw Λ (gaussianReal μ (σ ^ 2).toNNReal)) := by
  obtain ⟨r, e, k, w, c, v⟩ := mcpp_spec n
  refine ⟨r, e, k, w, c, fun Λ μ σ => ?_⟩
  rw [v, cpp_moment, Real.coe_toNNReal _ (sq_nonneg σ)]
  rfl

/-- C24. `mcpp_original(n)`, the same with the variance as third variable; no zero entry. -/
theorem C24_mcpp_original (n : ℕ) : ∃ r, mcppOriginal n = .ok r ∧
    r.keyfor = ["lambda*h", "mu", "sigma^2"] ∧ r.WF ∧ r.NoZero ∧
    r.Keys (fun k => k.length = 3 ∧ ∀ i, 0 ≤ k.getD i 0) ∧
    ∀ (Λ : ℝ≥0) (μ : ℝ) (v : ℝ≥0),
      ev (mono fun i => if i = 0 then (Λ : ℝ) else if i = 1 then μ else (v : ℝ)) r =
        ∫ x, x ^ n ∂(cppLaw Λ (gaussianReal μ v)) := by
  obtain ⟨r, e, k, w, z, c, v⟩ := mcppOriginal_spec n
  refine ⟨r, e, k, w, z, c, fun Λ μ v' => ?_⟩
  rw [v, cpp_moment]
  rfl

/-- C24. A negative order raises `ValueError`. -/
theorem C24_mcpp_negative (n : ℤ) (h : n < 0) : mcpp n = .error .valueError := by
  rw [mcpp, mcppOriginal, if_pos h]; rfl

example : mcpp 2 = .ok ⟨["lambda*h", "mu", "sigma"],
    [([2, 2, 0], 1), ([1, 2, 0], 1), ([1, 0, 2], 1)]⟩ := by decide +kernel

/-- C25. `cmcpp(n)` is the `n`-th central moment of the compound Poisson variable. -/
theorem C25_cmcpp (n : ℕ) : ∃ r, cmcpp n = .ok r ∧ r.keyfor = ["lambda*h", "mu", "sigma"] ∧ r.WF ∧
    r.NoZero ∧ r.Keys (fun k => k.length = 3 ∧ ∀ i, 0 ≤ k.getD i 0) ∧
    ∀ (Λ : ℝ≥0) (μ σ : ℝ),
      ev (mono fun i => if i = 0 then (Λ : ℝ) else if i = 1 then μ else σ) r =
        ∫ x, (x - ∫ y, y ∂(cppLaw Λ (gaussianReal μ (σ ^ 2).toNNReal))) ^ n
          ∂(cppLaw Λ (gaussianReal μ (σ ^ 2).toNNReal)) := by
  obtain ⟨r, e, k, w, z, c, v⟩ := cmcpp_spec n
  refine ⟨r, e, k, w, z, c, fun Λ μ σ => ?_⟩
  rw [v]
  set ν := cppLaw Λ (gaussianReal μ (σ ^ 2).toNNReal) with hν
  have hm : ∀ i, iteratedDeriv i (cF Λ μ (σ ^ 2)) 0 = ∫ x, x ^ i ∂ν := by
    intro i
    rw [hν, cpp_moment, Real.coe_toNNReal _ (sq_nonneg σ)]; rfl
  have h1 : ∫ y, y ∂ν = Λ * μ := by
    have := hm 1
    simp only [pow_one] at this
    rw [← this, iteratedDeriv_one, (cF_hasDerivAt _ _ _ _).deriv, nD_eq]
    simp [ev, cF, nM, mnormNat, nI]
  rw [h1]
  have hexp : ∀ x : ℝ, (x - Λ * μ) ^ n =
      ∑ i ∈ Finset.range (n + 1), n.choose i * (-(Λ * μ)) ^ (n - i) * x ^ i := by
    intro x
    rw [sub_eq_add_neg, add_pow]
    exact Finset.sum_congr rfl fun i _ => by ring
  simp only [hexp]
  rw [integral_finsetSum _ fun i _ => (cpp_integrable_pow Λ μ _ i).const_mul _]
  refine Finset.sum_congr rfl fun i _ => ?_
  rw [integral_const_mul, hm]

/-- C25. A negative order raises `ValueError`. -/
theorem C25_cmcpp_negative (n : ℤ) (h : n < 0) : cmcpp n = .error .valueError := by
  rw [cmcpp, if_pos h]

example : cmcpp 2 = .ok ⟨["lambda*h", "mu", "sigma"],
    [([1, 2, 0], 1), ([1, 0, 2], 1)]⟩ := by decide +kernel

end Ajd
