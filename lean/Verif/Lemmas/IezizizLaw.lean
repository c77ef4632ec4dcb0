import Verif.Spec.Cpp
import Mathlib.MeasureTheory.Group.Convolution
import Mathlib.MeasureTheory.Group.IntegralConvolution
import Mathlib.Analysis.SpecialFunctions.Exp
import Mathlib.Probability.Kernel.Composition.IntegralCompProd
import Mathlib.Probability.Kernel.Composition.MeasureComp
import Verif.Spec.Ieziziz
import Verif.Lemmas.SrjdLaw
import Verif.Lemmas.Gauss

section -- Mecke

/-! Expectations under compound Poisson laws on a group: `E[φ(X) f(X)] = Λ E[φ(J) f(X + J)]`. -/

namespace Ajd.Mecke
open MeasureTheory ProbabilityTheory Cpp
open scoped NNReal

variable {M : Type} [AddCommGroup M] [MeasurableSpace M] [MeasurableAdd₂ M]

/-- a bound for everything that is integrated: `h` is submultiplicative and `h ^ 2` integrable -/
structure Bd (h : M → ℝ) (ν : Measure M) : Prop where
  meas : Measurable h
  one : ∀ x, 1 ≤ h x
  add : ∀ x y, h (x + y) ≤ h x * h y
  int : Integrable (fun x => h x ^ 2) ν

variable {ν : Measure M} [hν : IsProbabilityMeasure ν] {h : M → ℝ}

instance sumLaw_prob (N : ℕ) : IsProbabilityMeasure (sumLaw ν N) := by
  induction N with
  | zero => rw [sumLaw]; infer_instance
  | succ N ih => rw [sumLaw]; infer_instance

noncomputable def sumK (ν : Measure M) : Kernel ℕ M := Kernel.ofFunOfCountable (sumLaw ν)

theorem sumK_apply (N : ℕ) : sumK ν N = sumLaw ν N := rfl

instance : IsMarkovKernel (sumK ν) := ⟨fun N => by rw [sumK_apply]; infer_instance⟩

theorem cppLaw_bind (Λ : ℝ≥0) : cppLaw Λ ν = (poissonMeasure Λ).bind (sumK ν) := rfl

instance cppLaw_prob (Λ : ℝ≥0) : IsProbabilityMeasure (cppLaw Λ ν) := by
  rw [cppLaw_bind]; infer_instance

omit [MeasurableAdd₂ M] in
theorem sq_add (hb : Bd h ν) (x y : M) : h (x + y) ^ 2 ≤ h x ^ 2 * h y ^ 2 := by
  rw [← mul_pow]
  exact pow_le_pow_left₀ (by linarith [hb.one (x + y)]) (hb.add x y) 2

theorem sum_int (hb : Bd h ν) (N : ℕ) : Integrable (fun x => h x ^ 2) (sumLaw ν N) ∧
    ∫ x, h x ^ 2 ∂(sumLaw ν N) ≤ h 0 ^ 2 * (∫ x, h x ^ 2 ∂ν) ^ N := by
  have hm := hb.meas
  induction N with
  | zero => exact ⟨by rw [sumLaw]; exact integrable_dirac' (by fun_prop) (by simp), by
      rw [sumLaw, integral_dirac' _ _ (by fun_prop), pow_zero, mul_one]⟩
  | succ N ih =>
    have hp := ih.1.mul_prod hb.int
    have hi : Integrable (fun x : M × M => h (x.1 + x.2) ^ 2) ((sumLaw ν N).prod ν) :=
      hp.mono' (show Measurable fun x : M × M => h (x.1 + x.2) ^ 2 by fun_prop).aestronglyMeasurable (Filter.Eventually.of_forall fun x => by
        rw [Real.norm_eq_abs, abs_of_nonneg (by positivity)]; exact sq_add hb _ _)
    rw [sumLaw, Measure.conv]
    constructor
    · rw [integrable_map_measure (by fun_prop) (by fun_prop)]
      exact hi
    · rw [integral_map (by fun_prop) (by fun_prop)]
      refine (integral_mono hi hp fun x => sq_add hb _ _).trans ?_
      rw [integral_prod_mul (fun x => h x ^ 2) fun x => h x ^ 2, pow_succ _ N, ← mul_assoc]
      exact mul_le_mul_of_nonneg_right ih.2 (integral_nonneg fun x => by positivity)

theorem cpp_int (hb : Bd h ν) (Λ : ℝ≥0) : Integrable (fun x => h x ^ 2) (cppLaw Λ ν) := by
  have hm := hb.meas
  rw [cppLaw_bind, Measure.integrable_comp_iff (by fun_prop)]
  refine ⟨Filter.Eventually.of_forall fun N => (sum_int hb N).1, ?_⟩
  rw [integrable_poissonMeasure_iff]
  set m := ∫ x, h x ^ 2 ∂ν
  have := ((Real.summable_pow_div_factorial ((Λ : ℝ) * m)).mul_left (Real.exp (-Λ) * h 0 ^ 2))
  refine Summable.of_nonneg_of_le (fun n => by positivity) (fun n => ?_) this
  have h0 : 0 ≤ ∫ x, ‖h x ^ 2‖ ∂(sumK ν n) := integral_nonneg fun x => norm_nonneg _
  have h1 : ∫ x, ‖h x ^ 2‖ ∂(sumK ν n) ≤ h 0 ^ 2 * m ^ n := by
    simp only [norm_pow, Real.norm_eq_abs, sq_abs]
    exact (sum_int hb n).2
  rw [Real.norm_eq_abs, abs_of_nonneg h0]
  calc _ ≤ Real.exp (-Λ) * Λ ^ n / n.factorial * (h 0 ^ 2 * m ^ n) :=
        mul_le_mul_of_nonneg_left h1 (by positivity)
    _ = _ := by rw [mul_pow]; ring

/-- `f` is bounded by a multiple of `h` -/
structure Nice (h : M → ℝ) (f : M → ℝ) : Prop where
  meas : Measurable f
  bd : ∃ C, ∀ x, |f x| ≤ C * h x

omit [AddCommGroup M] [MeasurableAdd₂ M] hν in
theorem int_of {μ : Measure M} {g : M → ℝ} (hm : Measurable h) (h1 : ∀ x, 1 ≤ h x)
    (hi : Integrable (fun x => h x ^ 2) μ) (hg : Measurable g) (C : ℝ) (hC : ∀ x, |g x| ≤ C * h x ^ 2) :
    Integrable g μ :=
  (hi.const_mul C).mono' (by fun_prop) (Filter.Eventually.of_forall fun x => hC x)

omit [AddCommGroup M] [MeasurableAdd₂ M] in
theorem Nice.bd' {f : M → ℝ} (h1 : ∀ x, 1 ≤ h x) (hf : Nice h f) :
    ∃ C, 0 ≤ C ∧ ∀ x, |f x| ≤ C * h x := by
  obtain ⟨C, hC⟩ := hf.bd
  refine ⟨|C|, abs_nonneg C, fun x => (hC x).trans ?_⟩
  exact mul_le_mul_of_nonneg_right (le_abs_self C) (by linarith [h1 x])

omit [AddCommGroup M] [MeasurableAdd₂ M] hν in
theorem Nice.int {μ : Measure M} {f : M → ℝ} (hm : Measurable h) (h1 : ∀ x, 1 ≤ h x)
    (hi : Integrable (fun x => h x ^ 2) μ) (hf : Nice h f) : Integrable f μ := by
  obtain ⟨C, h0, hC⟩ := hf.bd' h1
  refine int_of hm h1 hi hf.meas C fun x => (hC x).trans ?_
  have := h1 x
  exact mul_le_mul_of_nonneg_left (by nlinarith) h0

/-- the mean of `φ(J) f(w + J)` over one jump `J` -/
noncomputable def shift (ν : Measure M) (φ f : M → ℝ) (w : M) : ℝ := ∫ z, φ z * f (w + z) ∂ν

variable {φ f : M → ℝ} (hφa : ∀ x y, φ (x + y) = φ x + φ y) (hφ : Nice h φ)

include hφ in
theorem prod_bd (hb : Bd h ν) (hf : Nice h f) : ∃ C, 0 ≤ C ∧
    ∀ x y, |φ y * f (x + y)| ≤ C * (h x * h y ^ 2) := by
  obtain ⟨A, hA0, hA⟩ := hφ.bd' hb.one
  obtain ⟨B, hB0, hB⟩ := hf.bd' hb.one
  refine ⟨A * B, by positivity, fun x y => ?_⟩
  have hx := hb.one x
  have hy := hb.one y
  rw [abs_mul]
  calc _ ≤ (A * h y) * (B * (h x * h y)) := by
        refine mul_le_mul (hA y) ((hB _).trans (mul_le_mul_of_nonneg_left (hb.add x y) hB0)) (abs_nonneg _)
          (by positivity)
    _ = _ := by ring

include hφ in
theorem shift_nice (hb : Bd h ν) (hf : Nice h f) : Nice h (shift ν φ f) := by
  have := hφ.meas
  have := hf.meas
  refine ⟨?_, ?_⟩
  · have hm : StronglyMeasurable fun p : M × M => φ p.2 * f (p.1 + p.2) :=
      (show Measurable fun p : M × M => φ p.2 * f (p.1 + p.2) by fun_prop).stronglyMeasurable
    exact hm.integral_prod_right.measurable
  · obtain ⟨C, h0, hC⟩ := prod_bd hφ hb hf
    refine ⟨C * ∫ y, h y ^ 2 ∂ν, fun x => ?_⟩
    calc |shift ν φ f x| ≤ ∫ z, |φ z * f (x + z)| ∂ν := abs_integral_le_integral_abs
      _ ≤ ∫ z, C * (h x * h z ^ 2) ∂ν := by
        refine integral_mono_of_nonneg (Filter.Eventually.of_forall fun z => abs_nonneg _)
          ((hb.int.const_mul _).const_mul _) (Filter.Eventually.of_forall fun z => hC x z)
      _ = _ := by rw [integral_const_mul, integral_const_mul]; ring

omit [MeasurableAdd₂ M] hν in
theorem Nice.comp_add [MeasurableAdd₂ M] (hb : Bd h ν) (hf : Nice h f) (y : M) :
    Nice h fun x => f (x + y) := by
  have := hf.meas
  refine ⟨by fun_prop, ?_⟩
  obtain ⟨C, h0, hC⟩ := hf.bd' hb.one
  refine ⟨C * h y, fun x => (hC _).trans ?_⟩
  rw [mul_assoc, mul_comm (h y)]
  exact mul_le_mul_of_nonneg_left (hb.add x y) h0

include hφa hφ in
theorem conv_split (hb : Bd h ν) (hf : Nice h f) (N : ℕ) : ∫ x, φ x * f x ∂(sumLaw ν (N + 1)) =
    ∫ w, shift ν φ f w ∂(sumLaw ν N) + ∫ y, ∫ x, φ x * f (x + y) ∂(sumLaw ν N) ∂ν := by
  have hm := hb.meas
  have := hφ.meas
  have := hf.meas
  obtain ⟨C, h0, hC⟩ := prod_bd hφ hb hf
  have hN := (sum_int hb N).1
  have hg : Integrable (fun p : M × M => h p.1 ^ 2 * h p.2 ^ 2) ((sumLaw ν N).prod ν) := hN.mul_prod hb.int
  have i1 : Integrable (fun p : M × M => φ p.2 * f (p.1 + p.2)) ((sumLaw ν N).prod ν) := by
    refine (hg.const_mul C).mono' (by fun_prop) (Filter.Eventually.of_forall fun p => (hC _ _).trans ?_)
    have := hb.one p.1
    exact mul_le_mul_of_nonneg_left (mul_le_mul_of_nonneg_right (by nlinarith) (sq_nonneg _)) h0
  have i2 : Integrable (fun p : M × M => φ p.1 * f (p.1 + p.2)) ((sumLaw ν N).prod ν) := by
    refine (hg.const_mul C).mono' (by fun_prop) (Filter.Eventually.of_forall fun p => ?_)
    have := hb.one p.2
    rw [add_comm]
    refine (hC p.2 p.1).trans ?_
    rw [mul_comm (h p.2)]
    exact mul_le_mul_of_nonneg_left (mul_le_mul_of_nonneg_left (by nlinarith) (sq_nonneg _)) h0
  rw [sumLaw, Measure.conv, integral_map (by fun_prop) (by fun_prop)]
  have e : (fun p : M × M => φ (p.1 + p.2) * f (p.1 + p.2)) =
      fun p => φ p.2 * f (p.1 + p.2) + φ p.1 * f (p.1 + p.2) := by
    funext p; rw [hφa]; ring
  rw [e, integral_add i1 i2, integral_prod _ i1, integral_prod_symm _ i2]
  rfl

include hφa hφ in
theorem sum_mecke (hb : Bd h ν) (N : ℕ) (f : M → ℝ) (hf : Nice h f) :
    ∫ x, φ x * f x ∂(sumLaw ν (N + 1)) = (N + 1) * ∫ w, shift ν φ f w ∂(sumLaw ν N) := by
  have hm := hb.meas
  have := hφ.meas
  have hφ0 : φ 0 = 0 := by have := hφa 0 0; rw [add_zero] at this; linarith
  induction N generalizing f with
  | zero =>
    have := hf.meas
    rw [conv_split hφa hφ hb hf]
    have : ∀ y, ∫ x, φ x * f (x + y) ∂(sumLaw ν 0) = 0 := by
      intro y
      rw [sumLaw, integral_dirac' _ _ (by
        exact (show Measurable fun x => φ x * f (x + y) by fun_prop).stronglyMeasurable), hφ0, zero_mul]
    simp only [this]
    simp
  | succ N ih =>
    have hs := shift_nice hφ hb hf
    have hsm := hs.meas
    rw [conv_split hφa hφ hb hf]
    have e1 : ∀ y, ∫ x, φ x * f (x + y) ∂(sumLaw ν (N + 1)) =
        (N + 1) * ∫ w, shift ν φ f (w + y) ∂(sumLaw ν N) := by
      intro y
      rw [ih _ (hf.comp_add hb y)]
      congr 2
      funext w
      unfold shift
      congr 1
      funext z
      rw [add_right_comm]
    simp only [e1]
    have e2 : ∫ w, shift ν φ f w ∂(sumLaw ν (N + 1)) =
        ∫ y, ∫ w, shift ν φ f (w + y) ∂(sumLaw ν N) ∂ν := by
      have hi : Integrable (fun p : M × M => shift ν φ f (p.1 + p.2)) ((sumLaw ν N).prod ν) := by
        have h2 := hs.int hm hb.one (sum_int hb (N + 1)).1
        rw [sumLaw, Measure.conv, integrable_map_measure (by fun_prop) (by fun_prop)] at h2
        exact h2
      rw [sumLaw, Measure.conv, integral_map (by fun_prop) (by fun_prop), integral_prod_symm _ hi]
    rw [integral_const_mul, ← e2]
    push_cast
    ring

omit [MeasurableAdd₂ M] in
theorem cpp_integral [MeasurableAdd₂ M] (Λ : ℝ≥0) (g : M → ℝ) (hi : Integrable g (cppLaw Λ ν)) :
    HasSum (fun n : ℕ => Real.exp (-Λ) * Λ ^ n / n.factorial * ∫ x, g x ∂(sumLaw ν n))
      (∫ x, g x ∂(cppLaw Λ ν)) := by
  have hi' := hi
  rw [cppLaw_bind, Measure.comp_eq_comp_const_apply] at hi
  have hs := hi'.1
  rw [cppLaw_bind] at hi' hs
  have h2 := ((Measure.integrable_comp_iff hs).1 hi').2
  rw [integrable_poissonMeasure_iff] at h2
  have e : ∫ x, g x ∂(cppLaw Λ ν) =
      ∑' n : ℕ, Real.exp (-Λ) * Λ ^ n / n.factorial * ∫ x, g x ∂(sumLaw ν n) := by
    rw [cppLaw_bind, Measure.comp_eq_comp_const_apply, Kernel.integral_comp hi]
    simp only [sumK_apply, Kernel.const_apply]
    rw [integral_poissonMeasure]
    rfl
  rw [e]
  apply Summable.hasSum
  refine Summable.of_norm_bounded h2 fun n => ?_
  rw [norm_mul, Real.norm_eq_abs, abs_of_nonneg (by positivity)]
  refine mul_le_mul_of_nonneg_left ?_ (by positivity)
  refine (norm_integral_le_integral_norm _).trans ?_
  rw [Real.norm_eq_abs]
  exact le_abs_self _

include hφa hφ in
/-- `E[φ(X) f(X)] = Λ E[φ(J) f(X + J)]` -/
theorem cpp_mecke (hb : Bd h ν) (Λ : ℝ≥0) (hf : Nice h f) :
    ∫ x, φ x * f x ∂(cppLaw Λ ν) = Λ * ∫ w, shift ν φ f w ∂(cppLaw Λ ν) := by
  have hm := hb.meas
  have := hφ.meas
  have := hf.meas
  have hφ0 : φ 0 = 0 := by have := hφa 0 0; rw [add_zero] at this; linarith
  obtain ⟨A, hA0, hA⟩ := hφ.bd' hb.one
  obtain ⟨B, hB0, hB⟩ := hf.bd' hb.one
  have i1 : Integrable (fun x => φ x * f x) (cppLaw Λ ν) := by
    refine int_of hm hb.one (cpp_int hb Λ) (by fun_prop) (A * B) fun x => ?_
    have := hb.one x
    rw [abs_mul]
    calc _ ≤ (A * h x) * (B * h x) := mul_le_mul (hA x) (hB x) (abs_nonneg _) (by positivity)
      _ = _ := by ring
  have i2 := (shift_nice hφ hb hf).int hm hb.one (cpp_int hb Λ)
  have s1 := cpp_integral Λ _ i1
  have s2 := (cpp_integral Λ _ i2).mul_left (Λ : ℝ)
  refine s1.unique ?_
  rw [← hasSum_nat_add_iff' 1]
  have e0 : ∫ x, φ x * f x ∂(sumLaw ν 0) = 0 := by
    rw [sumLaw, integral_dirac' _ _ (by
        exact (show Measurable fun x => φ x * f x by fun_prop).stronglyMeasurable), hφ0, zero_mul]
  rw [Finset.sum_range_one, e0, mul_zero, sub_zero]
  have e1 : (fun n : ℕ => Real.exp (-Λ) * (Λ : ℝ) ^ (n + 1) / (n + 1).factorial *
      ∫ x, φ x * f x ∂(sumLaw ν (n + 1))) = fun n : ℕ =>
      (Λ : ℝ) * (Real.exp (-Λ) * Λ ^ n / n.factorial * ∫ x, shift ν φ f x ∂(sumLaw ν n)) := by
    funext n
    rw [sum_mecke hφa hφ hb n f hf, Nat.factorial_succ]
    push_cast
    have : (n : ℝ) + 1 ≠ 0 := by positivity
    field_simp
    ring
  rw [e1]
  exact s2

end Ajd.Mecke

end -- Mecke

section -- IezizizLaw

/-! The joint moments of `(IEZ, IZ, IZ*)`. -/

namespace Ajd.Ieziziz
open MeasureTheory ProbabilityTheory Real Cpp Mecke
open scoped NNReal

/-- `x_1^a x_2^b x_3^c` -/
def mon (a b c : ℕ) (x : ℝ × ℝ × ℝ) : ℝ := x.1 ^ a * x.2.1 ^ b * x.2.2 ^ c

theorem mon_meas (a b c : ℕ) : Measurable (mon a b c) := by unfold mon; fun_prop

/-- `e^{δ (|x_1| + |x_2| + |x_3|)}` -/
noncomputable def hE (δ : ℝ) (x : ℝ × ℝ × ℝ) : ℝ := exp (δ * (|x.1| + |x.2.1| + |x.2.2|))

theorem pow_le_hE {δ : ℝ} (hδ : 0 < δ) (y : ℝ) (n : ℕ) : |y| ^ n ≤ n.factorial / δ ^ n * exp (δ * |y|) := by
  have h := pow_div_factorial_le_exp (δ * |y|) (by positivity) n
  rw [div_le_iff₀ (by positivity), mul_pow] at h
  rw [div_mul_eq_mul_div, le_div_iff₀ (by positivity)]
  linarith

theorem mon_nice {δ : ℝ} (hδ : 0 < δ) (a b c : ℕ) : Nice (hE δ) (mon a b c) := by
  refine ⟨mon_meas a b c, a.factorial / δ ^ a * (b.factorial / δ ^ b) * (c.factorial / δ ^ c), fun x => ?_⟩
  rw [mon, abs_mul, abs_mul, abs_pow, abs_pow, abs_pow, hE, mul_add, mul_add, exp_add, exp_add]
  calc _ ≤ (a.factorial / δ ^ a * exp (δ * |x.1|)) * (b.factorial / δ ^ b * exp (δ * |x.2.1|)) *
        (c.factorial / δ ^ c * exp (δ * |x.2.2|)) := by
        have h1 := pow_le_hE hδ x.1 a
        have h2 := pow_le_hE hδ x.2.1 b
        have h3 := pow_le_hE hδ x.2.2 c
        gcongr
    _ = _ := by ring

/-- the jumps have some exponential moment -/
def ExpMom (ν : Measure (ℝ × ℝ × ℝ)) : Prop := ∃ δ, 0 < δ ∧ Bd (hE δ) ν

theorem bd_of {ν : Measure (ℝ × ℝ × ℝ)} {δ : ℝ} (hδ : 0 < δ)
    (hi : Integrable (fun x : ℝ × ℝ × ℝ => exp (2 * δ * (|x.1| + |x.2.1| + |x.2.2|))) ν) : Bd (hE δ) ν := by
  refine ⟨by unfold hE; fun_prop, fun x => one_le_exp (by positivity), fun x y => ?_, ?_⟩
  · rw [hE, hE, hE, ← exp_add, ← mul_add]
    apply exp_le_exp.2
    have h1 := abs_add_le x.1 y.1
    have h2 := abs_add_le x.2.1 y.2.1
    have h3 := abs_add_le x.2.2 y.2.2
    refine mul_le_mul_of_nonneg_left ?_ hδ.le
    simp only [Prod.fst_add, Prod.snd_add]
    linarith
  · refine hi.congr (Filter.Eventually.of_forall fun x => ?_)
    simp only [hE]
    rw [← exp_nat_mul]
    congr 1; push_cast; ring

/-- the moments of the compound Poisson law -/
noncomputable def cmomZ (Λ : ℝ≥0) (ν : Measure (ℝ × ℝ × ℝ)) (a b c : ℕ) : ℝ :=
  ∫ x, mon a b c x ∂(cppLaw Λ ν)

/-- `Λ` times the moments of a jump -/
noncomputable def kap (Λ : ℝ≥0) (ν : Measure (ℝ × ℝ × ℝ)) (a b c : ℕ) : ℝ := Λ * ∫ x, mon a b c x ∂ν

theorem mon_add (a b c : ℕ) (w z : ℝ × ℝ × ℝ) : mon a b c (w + z) =
    ∑ i ∈ Finset.range (a + 1), ∑ j ∈ Finset.range (b + 1), ∑ l ∈ Finset.range (c + 1),
      (a.choose i * b.choose j * c.choose l : ℝ) * (mon i j l z * mon (a - i) (b - j) (c - l) w) := by
  rw [mon, Prod.fst_add, Prod.snd_add, Prod.fst_add, Prod.snd_add, add_comm w.1, add_comm w.2.1,
    add_comm w.2.2, add_pow, add_pow, add_pow, Finset.sum_mul_sum, Finset.sum_mul]
  refine Finset.sum_congr rfl fun i _ => ?_
  rw [Finset.sum_mul]
  refine Finset.sum_congr rfl fun j _ => ?_
  rw [Finset.mul_sum]
  refine Finset.sum_congr rfl fun l _ => ?_
  simp only [mon]
  ring

section
variable {ν : Measure (ℝ × ℝ × ℝ)} [IsProbabilityMeasure ν] (hν : ExpMom ν)
include hν

theorem mon_int_jump (a b c : ℕ) : Integrable (mon a b c) ν := by
  obtain ⟨δ, hδ, hb⟩ := hν
  exact (mon_nice hδ a b c).int hb.meas hb.one hb.int

theorem mon_int_cpp (Λ : ℝ≥0) (a b c : ℕ) : Integrable (mon a b c) (cppLaw Λ ν) := by
  obtain ⟨δ, hδ, hb⟩ := hν
  exact (mon_nice hδ a b c).int hb.meas hb.one (cpp_int hb Λ)

theorem cmomZ_rec (Λ : ℝ≥0) (a b c p q r : ℕ) (h : p + q + r = 1) :
    cmomZ Λ ν (a + p) (b + q) (c + r) =
      ∑ i ∈ Finset.range (a + 1), ∑ j ∈ Finset.range (b + 1), ∑ l ∈ Finset.range (c + 1),
        (a.choose i * b.choose j * c.choose l : ℝ) *
          (kap Λ ν (i + p) (j + q) (l + r) * cmomZ Λ ν (a - i) (b - j) (c - l)) := by
  obtain ⟨δ, hδ, hb⟩ := id hν
  have hadd : ∀ x y, mon p q r (x + y) = mon p q r x + mon p q r y := by
    intro x y
    have : (p = 1 ∧ q = 0 ∧ r = 0) ∨ (p = 0 ∧ q = 1 ∧ r = 0) ∨ (p = 0 ∧ q = 0 ∧ r = 1) := by omega
    rcases this with ⟨rfl, rfl, rfl⟩ | ⟨rfl, rfl, rfl⟩ | ⟨rfl, rfl, rfl⟩ <;> simp [mon]
  have hm : ∀ (a b c a' b' c' : ℕ) x, mon a b c x * mon a' b' c' x = mon (a' + a) (b' + b) (c' + c) x := by
    intro a b c a' b' c' x
    simp only [mon, pow_add]; ring
  have key := cpp_mecke hadd (mon_nice hδ p q r) hb Λ (mon_nice hδ a b c)
  simp only [hm] at key
  rw [cmomZ, key]
  have hs : ∀ w, shift ν (mon p q r) (mon a b c) w =
      ∑ i ∈ Finset.range (a + 1), ∑ j ∈ Finset.range (b + 1), ∑ l ∈ Finset.range (c + 1),
        ((a.choose i * b.choose j * c.choose l : ℝ) * ∫ z, mon (i + p) (j + q) (l + r) z ∂ν) *
          mon (a - i) (b - j) (c - l) w := by
    intro w
    have e : ∀ z, mon p q r z * mon a b c (w + z) =
        ∑ i ∈ Finset.range (a + 1), ∑ j ∈ Finset.range (b + 1), ∑ l ∈ Finset.range (c + 1),
        ((a.choose i * b.choose j * c.choose l : ℝ) * mon (a - i) (b - j) (c - l) w) *
          mon (i + p) (j + q) (l + r) z := by
      intro z
      rw [mon_add, Finset.mul_sum]
      refine Finset.sum_congr rfl fun i _ => ?_
      rw [Finset.mul_sum]
      refine Finset.sum_congr rfl fun j _ => ?_
      rw [Finset.mul_sum]
      refine Finset.sum_congr rfl fun l _ => ?_
      rw [← hm p q r i j l]; ring
    have hi := mon_int_jump hν
    simp only [shift, e]
    rw [integral_finsetSum _ fun i _ => integrable_finsetSum _ fun j _ => integrable_finsetSum _ fun l _ =>
      (hi _ _ _).const_mul _]
    refine Finset.sum_congr rfl fun i _ => ?_
    rw [integral_finsetSum _ fun j _ => integrable_finsetSum _ fun l _ => (hi _ _ _).const_mul _]
    refine Finset.sum_congr rfl fun j _ => ?_
    rw [integral_finsetSum _ fun l _ => (hi _ _ _).const_mul _]
    refine Finset.sum_congr rfl fun l _ => ?_
    rw [integral_const_mul]; ring
  have hi := mon_int_cpp hν Λ
  simp only [hs]
  rw [integral_finsetSum _ fun i _ => integrable_finsetSum _ fun j _ => integrable_finsetSum _ fun l _ =>
      (hi _ _ _).const_mul _, Finset.mul_sum]
  refine Finset.sum_congr rfl fun i _ => ?_
  rw [integral_finsetSum _ fun j _ => integrable_finsetSum _ fun l _ => (hi _ _ _).const_mul _, Finset.mul_sum]
  refine Finset.sum_congr rfl fun j _ => ?_
  rw [integral_finsetSum _ fun l _ => (hi _ _ _).const_mul _, Finset.mul_sum]
  refine Finset.sum_congr rfl fun l _ => ?_
  rw [integral_const_mul, kap, cmomZ]; ring

omit hν in
theorem cmomZ_zero (Λ : ℝ≥0) : cmomZ Λ ν 0 0 0 = 1 := by simp [cmomZ, mon]

end

/-! ### the jumps -/

theorem gauss_abs_exp (μ : ℝ) (v : ℝ≥0) (x : ℝ) : Integrable (fun y => exp (x * |y|)) (gaussianReal μ v) := by
  have h1 := integrable_exp_mul_gaussianReal (μ := μ) (v := v) x
  have h2 := integrable_exp_mul_gaussianReal (μ := μ) (v := v) (-x)
  refine (h1.add h2).mono' (by fun_prop) (Filter.Eventually.of_forall fun y => ?_)
  rw [norm_eq_abs, abs_exp]
  simp only [Pi.add_apply]
  rcases abs_choice y with h | h <;> rw [h]
  · have := exp_pos (-x * y); linarith
  · have := exp_pos (x * y); rw [mul_neg, ← neg_mul]; linarith

theorem exp_abs_exp {r x : ℝ} (hr : 0 < r) (hx : x < r) :
    Integrable (fun y => exp (x * |y|)) (expMeasure r) := by
  refine (Srjd.exp_expMeasure hr hx).congr ?_
  filter_upwards [Srjd.exp_nonneg_ae hr] with y hy
  rw [abs_of_nonneg hy]

section
variable {k mu_v mu_s sigma_s s t : ℝ}

theorem jumpLaw_prob (hμ : 0 < mu_v) (hst : s < t) :
    IsProbabilityMeasure (jumpLaw k mu_v mu_s sigma_s s t) := by
  have := Srjd.unif_prob hst
  have := isProbabilityMeasure_expMeasure (show 0 < 1 / mu_v by positivity)
  exact Measure.isProbabilityMeasure_map (by fun_prop)

theorem jumpLaw_expMom (hμ : 0 < mu_v) (hst : s < t) : ExpMom (jumpLaw k mu_v mu_s sigma_s s t) := by
  have h1 := Srjd.unif_prob hst
  have h2 := isProbabilityMeasure_expMeasure (show 0 < 1 / mu_v by positivity)
  set C : ℝ := exp (|k| * max |s| |t|) with hC
  have hCp : 0 < C := exp_pos _
  set δ : ℝ := 1 / mu_v / (4 * (C + 1)) with hδ
  have hδp : 0 < δ := by positivity
  refine ⟨δ, hδp, bd_of hδp ?_⟩
  have hx : 2 * δ * (C + 1) < 1 / mu_v := by
    have h : 2 * δ * (C + 1) = 1 / mu_v / 2 := by
      rw [hδ]; field_simp; norm_num
    rw [h]
    have : 0 < 1 / mu_v := by positivity
    linarith
  rw [jumpLaw, integrable_map_measure (by fun_prop) (by fun_prop)]
  have hi : Integrable (fun z : ℝ × ℝ × ℝ => exp (2 * δ * (C + 1) * |z.2.1|) * exp (2 * δ * |z.2.2|))
      ((ProbabilityTheory.cond volume (Set.Ioc s t)).prod
    ((expMeasure (1 / mu_v)).prod (gaussianReal mu_s (sigma_s ^ 2).toNNReal))) :=
    Integrable.comp_snd (f := fun z : ℝ × ℝ => exp (2 * δ * (C + 1) * |z.1|) * exp (2 * δ * |z.2|))
      ((exp_abs_exp (by positivity) hx).mul_prod (gauss_abs_exp _ _ _)) _
  refine hi.mono' (by fun_prop) ?_
  have a1 : ∀ᵐ z ∂((ProbabilityTheory.cond volume (Set.Ioc s t)).prod
    ((expMeasure (1 / mu_v)).prod (gaussianReal mu_s (sigma_s ^ 2).toNNReal))), z.1 ∈ Set.Ioc s t := by
    have : ∀ᵐ u ∂(ProbabilityTheory.cond volume (Set.Ioc s t)), u ∈ Set.Ioc s t := by
      rw [ProbabilityTheory.cond]
      exact Measure.ae_smul_measure (ae_restrict_mem measurableSet_Ioc) _
    exact Measure.quasiMeasurePreserving_fst.ae this
  filter_upwards [a1] with z hz1
  simp only [Function.comp, norm_eq_abs, abs_exp]
  rw [← exp_add]
  apply exp_le_exp.2
  have hk : exp (k * z.1) ≤ C := by
    apply exp_le_exp.2
    have h3 : |z.1| ≤ max |s| |t| := abs_le_max_abs_abs hz1.1.le hz1.2
    calc k * z.1 ≤ |k * z.1| := le_abs_self _
      _ = |k| * |z.1| := abs_mul _ _
      _ ≤ _ := mul_le_mul_of_nonneg_left h3 (abs_nonneg _)
  have h4 : |exp (k * z.1) * z.2.1| ≤ C * |z.2.1| := by
    rw [abs_mul, abs_exp]
    exact mul_le_mul_of_nonneg_right hk (abs_nonneg _)
  calc _ ≤ 2 * δ * (C * |z.2.1| + |z.2.1| + |z.2.2|) := by gcongr
    _ = _ := by ring

/-- `∫_s^t e^{a k u} du` -/
noncomputable def intE (k s t : ℝ) (a : ℕ) : ℝ :=
  if a = 0 then t - s else (exp (a * k * t) - exp (a * k * s)) / (a * k)

theorem jumpLaw_moment (hμ : 0 < mu_v) (hst : s < t) (hk : k ≠ 0) (a b c : ℕ) :
    ∫ x, mon a b c x ∂(jumpLaw k mu_v mu_s sigma_s s t) =
      intE k s t a / (t - s) * ((a + b).factorial * mu_v ^ (a + b)) *
        gaussMom mu_s (sigma_s ^ 2).toNNReal c := by
  have h1 := Srjd.unif_prob hst
  have h2 := isProbabilityMeasure_expMeasure (show 0 < 1 / mu_v by positivity)
  have hm := mon_meas a b c
  rw [jumpLaw, integral_map (by fun_prop) (by fun_prop)]
  have e : ∀ x : ℝ × ℝ × ℝ, mon a b c (exp (k * x.1) * x.2.1, x.2.1, x.2.2) =
      exp (a * k * x.1) * (x.2.1 ^ (a + b) * x.2.2 ^ c) := by
    intro x
    rw [mon, mul_pow, ← exp_nat_mul, pow_add]
    rw [show (a : ℝ) * (k * x.1) = a * k * x.1 by ring]
    ring
  simp only [e]
  rw [integral_prod_mul (fun u : ℝ => exp (a * k * u)) fun y : ℝ × ℝ => y.1 ^ (a + b) * y.2 ^ c,
    integral_prod_mul (fun u : ℝ => u ^ (a + b)) fun y : ℝ => y ^ c, Srjd.exp_moment hμ,
    ProbabilityTheory.cond, integral_smul_measure, ← intervalIntegral.integral_of_le hst.le]
  have hts : 0 < t - s := by linarith
  have hI : ∫ u in s..t, exp (a * k * u) = intE k s t a := by
    unfold intE
    split
    · rename_i h; subst h; simp
    · rename_i h
      have hn : (a : ℝ) ≠ 0 := by exact_mod_cast h
      rw [intervalIntegral.integral_comp_mul_left (fun x => exp x) (mul_ne_zero hn hk), integral_exp,
        smul_eq_mul]
      field_simp
  rw [hI, Real.volume_Ioc, ENNReal.toReal_inv, ENNReal.toReal_ofReal hts.le, smul_eq_mul, gaussMom]
  field_simp

theorem law_diag (lam : ℝ) : law k lam mu_v mu_s sigma_s t t = Measure.dirac 0 := by
  have h : poissonMeasure 0 = Measure.dirac 0 := by
    refine Measure.ext_of_singleton fun n => ?_
    rw [poissonMeasure_singleton, Measure.dirac_apply' _ (by measurability)]
    by_cases hn : n = 0
    · subst hn; simp
    · rw [Set.indicator_of_notMem (by simpa using fun h => hn h.symm)]; simp [hn]
  rw [law, sub_self, mul_zero, Real.toNNReal_zero, Cpp.cppLaw, h, Measure.dirac_bind (by measurability)]
  rfl

end

end Ajd.Ieziziz

end -- IezizizLaw
