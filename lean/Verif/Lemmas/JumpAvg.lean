import Verif.Lemmas.CirFlow
import Verif.Lemmas.SrjdDynkin
import Verif.Lemmas.CondPrice
import Verif.Lemmas.GenPos
import Verif.Spec.JumpAvg
import Mathlib.Analysis.SpecialFunctions.Exponential
import Mathlib.MeasureTheory.Integral.IntervalIntegral.FundThmCalculus
import Mathlib.Topology.Algebra.Module.FiniteDimension
import Mathlib.LinearAlgebra.Dual.Lemmas
import Mathlib.Probability.Kernel.Composition.IntegralCompProd

/-! The mean over the jumps of the moments given the jumps. -/

namespace Ajd.Dyson
open MeasureTheory NormedSpace Filter Topology

section
variable {W : Type} [NormedAddCommGroup W] [NormedSpace ℝ W] [CompleteSpace W]

/-- the terms of the series that solves `C' = -M C`, `C(T) = c` -/
noncomputable def pic (M : ℝ → W →L[ℝ] W) (T : ℝ) (c : W) : ℕ → ℝ → W
  | 0, _ => c
  | n + 1, a => ∫ τ in a..T, M τ (pic M T c n τ)

variable {M : ℝ → W →L[ℝ] W} {T : ℝ} {c : W}

theorem cont_step (hM : Continuous M) {g : ℝ → W} (hg : Continuous g) :
    Continuous fun a => ∫ τ in a..T, M τ (g τ) := by
  have h : Continuous fun τ => M τ (g τ) := hM.clm_apply hg
  have : (fun a => ∫ τ in a..T, M τ (g τ)) = fun a => -∫ τ in T..a, M τ (g τ) := by
    funext a; rw [intervalIntegral.integral_symm]
  rw [this]
  exact (intervalIntegral.continuous_primitive (fun a b => h.intervalIntegrable a b) T).neg

theorem pic_cont (hM : Continuous M) (n : ℕ) : Continuous (pic M T c n) := by
  induction n with
  | zero => exact continuous_const
  | succ n ih => exact cont_step hM ih

theorem bound_of {g : ℕ → ℝ → W} (hg : ∀ n, Continuous (g n)) (hM : Continuous M) {a : ℝ}
    (hs : ∀ n b, g (n + 1) b = ∫ τ in b..T, M τ (g n τ)) {m R : ℝ} (hm : ∀ b ∈ Set.Icc a T, ‖M b‖ ≤ m)
    (hR : ∀ b ∈ Set.Icc a T, ‖g 0 b‖ ≤ R) (n : ℕ) : ∀ b ∈ Set.Icc a T, ‖g n b‖ ≤ R * (m ^ n * (T - b) ^ n / n.factorial) := by
  induction n with
  | zero => intro b hb; simpa using hR b hb
  | succ n ih =>
    intro b hb
    have hm0 : 0 ≤ m := (norm_nonneg _).trans (hm b hb)
    rw [hs]
    have hi : ∫ τ in b..T, R * m ^ (n + 1) / n.factorial * (T - τ) ^ n =
        R * (m ^ (n + 1) * (T - b) ^ (n + 1) / (n + 1).factorial) := by
      rw [intervalIntegral.integral_const_mul, intervalIntegral.integral_comp_sub_left (fun x => x ^ n) T, sub_self,
        integral_pow, Nat.factorial_succ]
      push_cast
      have : (n.factorial : ℝ) ≠ 0 := by positivity
      field_simp
      simp
    rw [← hi]
    refine intervalIntegral.norm_integral_le_of_norm_le hb.2 ?_ ?_
    · refine Filter.Eventually.of_forall fun τ hτ => ?_
      have hτ' : τ ∈ Set.Icc a T := ⟨hb.1.trans hτ.1.le, hτ.2⟩
      refine ((M τ).le_opNorm _).trans ?_
      refine (mul_le_mul (hm τ hτ') (ih τ hτ') (norm_nonneg _) hm0).trans (le_of_eq ?_)
      ring
    · exact (by fun_prop : Continuous fun τ => R * m ^ (n + 1) / n.factorial * (T - τ) ^ n).intervalIntegrable _ _

/-- the series converges to the solution -/
theorem pic_sum (hM : Continuous M) {C : ℝ → W} (hC : ∀ b, HasDerivAt C (-(M b (C b))) b) (hT : C T = c) {a : ℝ}
    (ha : a ≤ T) : HasSum (fun n => pic M T c n a) (C a) := by
  have hCc : Continuous C := continuous_iff_continuousAt.2 fun b => (hC b).continuousAt
  obtain ⟨m, hm⟩ := isCompact_Icc.exists_bound_of_continuousOn (hM.continuousOn (s := Set.Icc a T))
  obtain ⟨R, hR⟩ := isCompact_Icc.exists_bound_of_continuousOn (hCc.continuousOn (s := Set.Icc a T))
  have haI : a ∈ Set.Icc a T := ⟨le_rfl, ha⟩
  have h1 := bound_of (g := pic M T c) (pic_cont hM) hM (a := a) (fun n b => rfl) hm (R := ‖c‖) fun b _ => le_rfl
  have hsum : Summable fun n => pic M T c n a := by
    refine Summable.of_norm_bounded (g := fun n : ℕ => ‖c‖ * ((m * (T - a)) ^ n / n.factorial)) ?_ fun n => ?_
    · exact (Real.summable_pow_div_factorial _).mul_left _
    · refine (h1 n a haI).trans (le_of_eq ?_)
      rw [mul_pow]
  let r : ℕ → ℝ → W := fun n b => C b - ∑ i ∈ Finset.range n, pic M T c i b
  have hr : ∀ n, Continuous (r n) := fun n => hCc.sub (continuous_finsetSum _ fun i _ => pic_cont hM i)
  have hC0 : ∀ b, C b - c = ∫ τ in b..T, M τ (C τ) := by
    intro b
    have := intervalIntegral.integral_eq_sub_of_hasDerivAt (f := C) (a := b) (b := T) (fun x _ => hC x)
      ((hM.clm_apply hCc).neg.intervalIntegrable _ _)
    rw [intervalIntegral.integral_neg, hT] at this
    rw [← neg_sub, ← this, neg_neg]
  have hstep : ∀ n b, r (n + 1) b = ∫ τ in b..T, M τ (r n τ) := by
    intro n b
    have e : ∀ τ, M τ (r n τ) = M τ (C τ) - ∑ i ∈ Finset.range n, M τ (pic M T c i τ) := by
      intro τ; simp only [r, map_sub, map_sum]
    simp_rw [e]
    rw [intervalIntegral.integral_sub ((hM.clm_apply hCc).intervalIntegrable _ _)
      ((continuous_finsetSum _ fun i _ => hM.clm_apply (pic_cont hM i)).intervalIntegrable _ _),
      intervalIntegral.integral_finsetSum fun i _ => (hM.clm_apply (pic_cont hM i)).intervalIntegrable _ _, ← hC0]
    simp only [r]
    rw [Finset.sum_range_succ']
    simp only [pic]
    abel
  have h2 := bound_of hr hM hstep hm (R := R) fun b hb => by simpa [r] using hR b hb
  rw [hsum.hasSum_iff_tendsto_nat, tendsto_iff_norm_sub_tendsto_zero]
  have hlim : Tendsto (fun n : ℕ => R * ((m * (T - a)) ^ n / n.factorial)) atTop (𝓝 0) := by
    simpa using (Real.summable_pow_div_factorial (m * (T - a))).tendsto_atTop_zero.const_mul R
  refine squeeze_zero (fun n => norm_nonneg _) (fun n => ?_) hlim
  have := h2 n a haI
  rw [norm_sub_rev]
  refine this.trans (le_of_eq ?_)
  rw [mul_pow]

open ProbabilityTheory

/-- the value at `a` when the jumps after `a` are `l`: it flows with `A` and changes by `S y` at a jump of size `y` -/
noncomputable def bk (A S : ℝ → W →L[ℝ] W) (T : ℝ) (f : W) : List (ℝ × ℝ) → ℝ → W
  | [], a => A (T - a) f
  | (τ, y) :: l, a => A (τ - a) (S y (bk A S T f l τ))

theorem exp_add_smul (Q : W →L[ℝ] W) (s t : ℝ) : exp ((s + t) • Q) = exp (s • Q) * exp (t • Q) := by
  rw [add_smul]
  exact exp_add_of_commute_of_mem_ball (𝕂 := ℝ) (((Commute.refl Q).smul_left s).smul_right t)
    ((expSeries_radius_eq_top ℝ (W →L[ℝ] W)).symm ▸ edist_lt_top _ _)
    ((expSeries_radius_eq_top ℝ (W →L[ℝ] W)).symm ▸ edist_lt_top _ _)

theorem exp_cancel (Q : W →L[ℝ] W) (t : ℝ) : exp ((-t) • Q) * exp (t • Q) = 1 := by
  rw [← exp_add_smul]; simp

theorem exp_cont (Q : W →L[ℝ] W) : Continuous fun t : ℝ => exp (t • Q) :=
  continuous_iff_continuousAt.2 fun t => (hasDerivAt_exp_smul_const (𝕂 := ℝ) Q t).continuousAt

variable {A S : ℝ → W →L[ℝ] W} {Q K : W →L[ℝ] W} {lam μ : ℝ} {f : W}

/-- the part with `n` jumps -/
theorem avg_eq (hA : ∀ t, A t = Real.exp (lam * t) • exp (t • Q))
    (hS : ∀ (ℓ : W →L[ℝ] ℝ) w, ∫ y, ℓ (S y w) ∂(expMeasure (1 / μ)) = ℓ (K w)) (n : ℕ) (a : ℝ) (ℓ : W →L[ℝ] ℝ) :
    jumpAvg lam μ T n a (fun l => ℓ (bk A S T f l a)) =
      ℓ (exp ((-a) • Q) (pic (fun τ => lam • (exp (τ • Q) * K * exp ((-τ) • Q))) T (exp (T • Q) f) n a)) := by
  have hM : Continuous fun τ : ℝ => lam • (exp (τ • Q) * K * exp ((-τ) • Q)) :=
    (((exp_cont Q).mul continuous_const).mul ((exp_cont Q).comp continuous_neg)).const_smul lam
  induction n generalizing a ℓ with
  | zero =>
    rw [jumpAvg, bk, hA, pic, ContinuousLinearMap.smul_apply, map_smul, smul_eq_mul, ← mul_assoc, ← Real.exp_add,
      neg_add_cancel, Real.exp_zero, one_mul, sub_eq_neg_add, exp_add_smul]
    rfl
  | succ n ih =>
    rw [jumpAvg, pic, ← ContinuousLinearMap.comp_apply,
      ← ContinuousLinearMap.intervalIntegral_comp_comm _ ((hM.clm_apply (pic_cont hM n)).intervalIntegrable _ _)]
    refine intervalIntegral.integral_congr fun τ _ => ?_
    have : ∀ y, jumpAvg lam μ T n τ (fun l => ℓ (bk A S T f ((τ, y) :: l) a)) = (ℓ ∘L A (τ - a)) (S y
        (exp ((-τ) • Q) (pic (fun τ => lam • (exp (τ • Q) * K * exp ((-τ) • Q))) T (exp (T • Q) f) n τ))) := by
      intro y
      exact ih τ (ℓ ∘L A (τ - a) ∘L S y)
    simp only [this, hS]
    rw [ContinuousLinearMap.comp_apply, hA, ContinuousLinearMap.smul_apply, map_smul, smul_eq_mul, mul_assoc,
      ← mul_assoc (Real.exp _), ← Real.exp_add, neg_add_cancel, Real.exp_zero, one_mul, sub_eq_neg_add, exp_add_smul]
    simp

/-- the mean over the jumps -/
theorem avg_sum (hA : ∀ t, A t = Real.exp (lam * t) • exp (t • Q))
    (hS : ∀ (ℓ : W →L[ℝ] ℝ) w, ∫ y, ℓ (S y w) ∂(expMeasure (1 / μ)) = ℓ (K w)) {a : ℝ} (ha : a ≤ T) (ℓ : W →L[ℝ] ℝ) :
    HasSum (fun n => jumpAvg lam μ T n a (fun l => ℓ (bk A S T f l a))) (ℓ (exp ((T - a) • (Q + lam • K)) f)) := by
  have hM : Continuous fun τ : ℝ => lam • (exp (τ • Q) * K * exp ((-τ) • Q)) :=
    (((exp_cont Q).mul continuous_const).mul ((exp_cont Q).comp continuous_neg)).const_smul lam
  have hC : ∀ b, HasDerivAt (fun b : ℝ => (exp (b • Q) * exp ((T - b) • (Q + lam • K))) f)
      (-((lam • (exp (b • Q) * K * exp ((-b) • Q))) ((exp (b • Q) * exp ((T - b) • (Q + lam • K))) f))) b := by
    intro b
    have h1 := hasDerivAt_exp_smul_const (𝕂 := ℝ) Q b
    have h2 := (hasDerivAt_exp_smul_const' (𝕂 := ℝ) (Q + lam • K) (T - b)).scomp b ((hasDerivAt_id b).const_sub T)
    have h3 := ((h1.mul h2).clm_apply (hasDerivAt_const b f))
    refine h3.congr_deriv ?_
    have e : exp ((-b) • Q) * exp (b • Q) = 1 := exp_cancel Q b
    rw [← ContinuousLinearMap.mul_apply, ← ContinuousLinearMap.neg_apply]
    simp only [map_zero, add_zero]
    refine congrArg (fun B : W →L[ℝ] W => B f) ?_
    have e2 : (lam • (exp (b • Q) * K * exp ((-b) • Q))) * (exp (b • Q) * exp ((T - b) • (Q + lam • K))) =
        lam • (exp (b • Q) * K * exp ((T - b) • (Q + lam • K))) := by
      rw [smul_mul_assoc, mul_assoc (exp (b • Q) * K), ← mul_assoc (exp ((-b) • Q)), e, one_mul]
    rw [e2]
    simp only [Function.comp, neg_smul, one_smul, mul_neg, add_mul, mul_add, smul_mul_assoc, mul_smul_comm, mul_assoc]
    abel
  have h := pic_sum hM hC (c := exp (T • Q) f) (T := T) (by simp) ha
  have h2 := h.mapL (ℓ ∘L exp ((-a) • Q))
  simp only [avg_eq hA hS]
  rw [ContinuousLinearMap.comp_apply, ← ContinuousLinearMap.mul_apply, ← mul_assoc, exp_cancel, one_mul] at h2
  exact h2

/-- the flow is the exponential of its generator -/
theorem flow_exp {A : ℝ → W →L[ℝ] W} {L : W →L[ℝ] W} (hA : ∀ t, HasDerivAt A (A t * L) t) (h0 : A 0 = 1) (lam t : ℝ) :
    A t = Real.exp (lam * t) • exp (t • (L - lam • (1 : W →L[ℝ] W))) := by
  set Q : W →L[ℝ] W := L - lam • (1 : W →L[ℝ] W) with hQ
  have h : ∀ t, HasDerivAt (fun t => A t * (Real.exp (-(lam * t)) • exp ((-t) • Q))) 0 t := by
    intro t
    have h2 := (hasDerivAt_exp_smul_const' (𝕂 := ℝ) Q (-t)).scomp t (hasDerivAt_neg t)
    have h3 : HasDerivAt (fun t => Real.exp (-(lam * t))) (-lam * Real.exp (-(lam * t))) t := by
      have := (((hasDerivAt_id t).const_mul lam).neg).exp
      refine this.congr_deriv ?_
      simp; ring
    refine ((hA t).mul (h3.smul h2)).congr_deriv ?_
    change A t * L * (Real.exp (-(lam * t)) • exp ((-t) • Q)) + A t * (Real.exp (-(lam * t)) • (-1 : ℝ) • (Q * exp ((-t) • Q)) +
      (-lam * Real.exp (-(lam * t))) • exp ((-t) • Q)) = 0
    have e : L = Q + lam • 1 := by rw [hQ]; abel
    rw [e]
    simp only [mul_add, add_mul, mul_assoc, smul_mul_assoc, mul_smul_comm, one_mul, mul_neg, neg_smul, one_smul, smul_neg, neg_mul,
      smul_smul, smul_add, mul_comm lam (Real.exp _)]
    abel
  have hc := is_const_of_deriv_eq_zero (fun t => (h t).differentiableAt) (fun t => (h t).deriv) t 0
  simp only [h0, mul_zero, neg_zero, Real.exp_zero, zero_smul, exp_zero, one_smul, mul_one] at hc
  have h4 : (Real.exp (-(lam * t)) • exp ((-t) • Q)) * (Real.exp (lam * t) • exp (t • Q)) = 1 := by
    rw [smul_mul_smul_comm, exp_cancel, ← Real.exp_add, neg_add_cancel, Real.exp_zero, one_smul]
  calc _ = A t * ((Real.exp (-(lam * t)) • exp ((-t) • Q)) * (Real.exp (lam * t) • exp (t • Q))) := by
        rw [h4, mul_one]
    _ = _ := by rw [← mul_assoc, hc, one_mul]

/-- functionals that follow the generator -/
theorem dual_exp {φ : ℝ → W →L[ℝ] ℝ} {G : W →L[ℝ] W} {a b : ℝ} (hab : a ≤ b) (hc : ContinuousOn φ (Set.Icc a b))
    (hd : ∀ t ∈ Set.Ioo a b, HasDerivWithinAt φ (φ t ∘L G) (Set.Ioi t) t) (w : W) : φ b w = φ a (exp ((b - a) • G) w) := by
  have he : ∀ t, HasDerivAt (fun t : ℝ => exp ((b - t) • G) w) (-(G (exp ((b - t) • G) w))) t := by
    intro t
    have h2 := (hasDerivAt_exp_smul_const' (𝕂 := ℝ) G (b - t)).scomp t ((hasDerivAt_id t).const_sub b)
    refine (h2.clm_apply (hasDerivAt_const t w)).congr_deriv ?_
    simp
  have h := intervalIntegral.integral_eq_sub_of_hasDeriv_right_of_le (f := fun t => φ t (exp ((b - t) • G) w)) (f' := fun _ => 0) hab
    (hc.clm_apply fun t _ => (he t).continuousAt.continuousWithinAt) (fun t ht => by
      refine ((hd t ht).clm_apply (he t).hasDerivWithinAt).congr_deriv ?_
      simp) (by simp)
  simp at h
  linarith

end

/-- only the values on lists of jumps in `(a, T]` matter -/
theorem avg_congr {lam μ T : ℝ} (n : ℕ) {a : ℝ} (ha : a ≤ T) {F G : List (ℝ × ℝ) → ℝ} (h : ∀ l, JumpsIn a T l → F l = G l) :
    jumpAvg lam μ T n a F = jumpAvg lam μ T n a G := by
  induction n generalizing a F G with
  | zero => rw [jumpAvg, jumpAvg, h [] ⟨by simp, by simp⟩]
  | succ n ih =>
    rw [jumpAvg, jumpAvg]
    refine intervalIntegral.integral_congr_ae (Filter.Eventually.of_forall fun τ hτ => ?_)
    rw [Set.uIoc_of_le ha] at hτ
    refine congrArg _ (integral_congr_ae (Filter.Eventually.of_forall fun y => ih hτ.2 fun l hl => h _ ⟨?_, ?_⟩))
    · rw [List.map_cons, List.pairwise_cons]
      refine ⟨fun b hb => ?_, hl.1⟩
      rcases List.mem_cons.1 hb with rfl | hb
      · exact hτ.1
      · exact hτ.1.trans ((List.pairwise_cons.1 hl.1).1 b hb)
    · intro q hq
      rcases List.mem_cons.1 hq with rfl | hq
      · exact hτ.2
      · exact hl.2 q hq

end Ajd.Dyson

namespace Ajd.Gen
open MvPolynomial MeasureTheory NormedSpace Filter Topology Dyson ProbabilityTheory JumpDiff

section
variable {σ : Type} [Fintype σ]

/-- the polynomials of degree at most `d` -/
noncomputable abbrev Low (σ : Type) (d : ℕ) : Submodule ℝ (MvPolynomial σ ℝ) := restrictTotalDegree σ ℝ d

theorem low_of {A : MvPolynomial σ ℝ →ₗ[ℝ] MvPolynomial σ ℝ} (h : ∀ m : σ →₀ ℕ, (A (monomial m 1)).totalDegree ≤ m.degree) (d : ℕ) :
    ∀ g ∈ Low σ d, A g ∈ Low σ d := by
  intro g hg
  rw [mem_restrictTotalDegree] at hg ⊢
  rw [g.as_sum, map_sum]
  refine totalDegree_finsetSum_le fun m hm => ?_
  have : monomial m (coeff m g) = coeff m g • monomial m (1 : ℝ) := by simp [smul_monomial]
  rw [this, map_smul]
  exact (totalDegree_smul_le _ _).trans ((h m).trans ((le_totalDegree hm).trans hg))

variable (d : ℕ)

/-- the coordinates of a polynomial of degree at most `d` -/
abbrev Vec (σ : Type) [Fintype σ] (d : ℕ) := Fin (Module.finrank ℝ (Low σ d)) → ℝ

noncomputable def co (σ : Type) [Fintype σ] (d : ℕ) : Low σ d ≃ₗ[ℝ] Vec σ d := (Module.finBasis ℝ (Low σ d)).equivFun

variable {d}

/-- the polynomial with given coordinates -/
noncomputable def toP : Vec σ d →ₗ[ℝ] MvPolynomial σ ℝ := (Low σ d).subtype ∘ₗ (co σ d).symm.toLinearMap

noncomputable def mat (A : MvPolynomial σ ℝ →ₗ[ℝ] MvPolynomial σ ℝ) (h : ∀ g ∈ Low σ d, A g ∈ Low σ d) : Vec σ d →L[ℝ] Vec σ d :=
  LinearMap.toContinuousLinearMap ((co σ d).toLinearMap ∘ₗ A.restrict h ∘ₗ (co σ d).symm.toLinearMap)

theorem toP_mat (A : MvPolynomial σ ℝ →ₗ[ℝ] MvPolynomial σ ℝ) (h : ∀ g ∈ Low σ d, A g ∈ Low σ d) (w : Vec σ d) :
    toP (mat A h w) = A (toP w) := by
  simp [toP, mat]

theorem toP_inj {w w' : Vec σ d} (h : toP w = toP w') : w = w' := by
  simp only [toP, LinearMap.comp_apply, Submodule.subtype_apply, LinearEquiv.coe_coe] at h
  exact (co σ d).symm.injective (Subtype.ext h)

theorem toP_co (f : MvPolynomial σ ℝ) (h : f ∈ Low σ d) : toP (co σ d ⟨f, h⟩) = f := by simp [toP]

/-- a functional in coordinates -/
noncomputable def fn (L : MvPolynomial σ ℝ →ₗ[ℝ] ℝ) : Vec σ d →L[ℝ] ℝ :=
  ∑ i, L (toP (Pi.single i 1 : Vec σ d)) • ContinuousLinearMap.proj i

theorem fn_apply (L : MvPolynomial σ ℝ →ₗ[ℝ] ℝ) (w : Vec σ d) : fn L w = L (toP w) := by
  conv_rhs => rw [pi_eq_sum_univ' w]
  simp [fn, ContinuousLinearMap.sum_apply, map_sum, mul_comm]

/-- functionals that follow the generator -/
theorem fn_exp {L : ℝ → MvPolynomial σ ℝ →ₗ[ℝ] ℝ} {A : MvPolynomial σ ℝ →ₗ[ℝ] MvPolynomial σ ℝ} (hA : ∀ g ∈ Low σ d, A g ∈ Low σ d)
    {a b : ℝ} (hab : a ≤ b) (hc : ∀ f, ContinuousOn (fun t => L t f) (Set.Icc a b))
    (hd : ∀ f, ∀ t ∈ Set.Ioo a b, HasDerivWithinAt (fun t => L t f) (L t (A f)) (Set.Ioi t) t) (w : Vec σ d) :
    L b (toP w) = L a (toP (exp ((b - a) • mat A hA) w)) := by
  rw [← fn_apply, ← fn_apply]
  refine dual_exp (φ := fun t => fn (L t)) hab ?_ (fun t ht => ?_) w
  · exact continuousOn_finsetSum _ fun i _ => (hc _).smul continuousOn_const
  · have h1 : HasDerivWithinAt (fun t => fn (d := d) (L t)) (∑ i, L t (A (toP (Pi.single i 1 : Vec σ d))) •
        (ContinuousLinearMap.proj i : Vec σ d →L[ℝ] ℝ)) (Set.Ioi t) t := by
      refine HasDerivWithinAt.fun_sum fun i _ => ?_
      exact HasDerivWithinAt.smul_const (hd _ t ht) (ContinuousLinearMap.proj i : Vec σ d →L[ℝ] ℝ)
    refine h1.congr_deriv (ContinuousLinearMap.ext fun w => ?_)
    rw [ContinuousLinearMap.comp_apply, fn_apply, toP_mat]
    conv_rhs => rw [pi_eq_sum_univ' w]
    simp [ContinuousLinearMap.sum_apply, map_sum, mul_comm]

/-- the values determine a polynomial, so the functionals on polynomials of bounded degree are combinations of values -/
theorem span_eval (ℓ : Module.Dual ℝ (Low σ d)) :
    ℓ ∈ Submodule.span ℝ (Set.range fun x : σ → ℝ => ((aeval x : MvPolynomial σ ℝ →ₐ[ℝ] ℝ).toLinearMap ∘ₗ (Low σ d).subtype)) := by
  set S := Submodule.span ℝ (Set.range fun x : σ → ℝ => ((aeval x : MvPolynomial σ ℝ →ₐ[ℝ] ℝ).toLinearMap ∘ₗ (Low σ d).subtype))
  have h0 : S.dualCoannihilator = ⊥ := by
    rw [eq_bot_iff]
    intro f hf
    rw [Submodule.mem_dualCoannihilator] at hf
    rw [Submodule.mem_bot]
    refine Subtype.ext (MvPolynomial.funext fun x => ?_)
    have := hf _ (Submodule.subset_span ⟨x, rfl⟩)
    simpa [aeval_eq_eval] using this
  have h1 : S.dualCoannihilator.dualAnnihilator = S := Subspace.dualCoannihilator_dualAnnihilator_eq
  rw [← h1, h0]
  simp

variable {κ : ℝ → Measure (σ → ℝ)} (hκ : ∀ y, Mom (κ y)) {ρ : Measure (σ → ℝ)} (hρ : Mom ρ) {μ : ℝ}

/-- the mean of the jump operators -/
theorem jump_mean (hm : ∀ f x, Integrable (fun y => ∫ z, eval (x + z) f ∂κ y) (expMeasure (1 / μ)) ∧
      ∫ y, ∫ z, eval (x + z) f ∂κ y ∂(expMeasure (1 / μ)) = ∫ z, eval (x + z) f ∂ρ) (ℓ : Vec σ d →L[ℝ] ℝ) (w : Vec σ d) :
    ∫ y, ℓ (mat (jump (κ y) (hκ y)) (low_of (jump_deg _ _) d) w) ∂(expMeasure (1 / μ)) =
      ℓ (mat (jump ρ hρ) (low_of (jump_deg _ _) d) w) := by
  have h : ∀ ℓ' : Module.Dual ℝ (Low σ d),
      Integrable (fun y => ℓ' ⟨jump (κ y) (hκ y) (toP w), low_of (jump_deg _ _) d _ ((co σ d).symm w).2⟩) (expMeasure (1 / μ)) ∧
      ∫ y, ℓ' ⟨jump (κ y) (hκ y) (toP w), low_of (jump_deg _ _) d _ ((co σ d).symm w).2⟩ ∂(expMeasure (1 / μ)) =
        ℓ' ⟨jump ρ hρ (toP w), low_of (jump_deg _ _) d _ ((co σ d).symm w).2⟩ := by
    intro ℓ'
    induction span_eval ℓ' using Submodule.span_induction with
    | mem ℓ' h =>
      obtain ⟨x, rfl⟩ := h
      have := hm (toP w) x
      simp only [LinearMap.comp_apply, Submodule.subtype_apply, AlgHom.toLinearMap_apply, aeval_eq_eval, RingHom.coe_coe, eval_jump]
      exact this
    | zero => simp
    | add f g _ _ hf hg =>
      simp only [LinearMap.add_apply]
      exact ⟨hf.1.add hg.1, by rw [integral_add hf.1 hg.1, hf.2, hg.2]⟩
    | smul c f _ hf =>
      simp only [LinearMap.smul_apply, smul_eq_mul]
      exact ⟨hf.1.const_mul c, by rw [integral_const_mul, hf.2]⟩
  exact (h (ℓ.toLinearMap ∘ₗ (co σ d).toLinearMap)).2

section
variable {c : JumpDiff σ} {b : σ → MvPolynomial σ ℝ} {a : σ → σ → MvPolynomial σ ℝ} (h : PolyCoef c b a) (hν : Mom c.ν)

/-- the expectation at the time `T` when the jumps after the time `t` are `l` -/
theorem bk_spec {N : ℕ} {s : Fin N → ℝ} (hs : Times s) {κ' : Fin N → Measure (σ → ℝ)} (hκ' : ∀ i, Mom (κ' i))
    {E0 : MvPolynomial σ ℝ →ₗ[ℝ] ℝ} {E : ℝ → MvPolynomial σ ℝ →ₗ[ℝ] ℝ}
    (hE : c.DynkinAt s κ' E0 E) {T : ℝ} (f : Vec σ d) (l : List (ℝ × ℝ)) (t : ℝ)
    (ht : 0 ≤ t) (hT : t ≤ T) (hl : ∀ q ∈ l, q.1 ≤ T ∧ ∃ i, s i = q.1 ∧ κ' i = κ q.2) (hc : ∀ i, t < s i → ∃ q ∈ l, q.1 = s i)
    (ho : (t :: l.map Prod.fst).Pairwise (· < ·)) :
    E T (toP f) = E t (toP (bk (fun t => exp (t • mat (op b a c.lam c.ν hν) (low_of (op_mono b a _ _ hν h.db h.da) d)))
      (fun y => mat (jump (κ y) (hκ y)) (low_of (jump_deg _ _) d)) T f l t)) := by
  have hsol := dynkinAt_sol h hν hs hκ' hE
  have quiet : ∀ u v, 0 ≤ u → u ≤ v → Quiet s u v → ∀ w : Vec σ d, E v (toP w) =
      E u (toP (exp ((v - u) • mat (op b a c.lam c.ν hν) (low_of (op_mono b a _ _ hν h.db h.da) d)) w)) := by
    intro u v hu huv hq w
    refine fn_exp (L := E) _ huv (fun f => hE.cont f u v hu hq) (fun f t ht => ?_) w
    exact (hsol.deriv f t (hu.trans ht.1.le)).mono Set.Ioi_subset_Ici_self
  induction l generalizing t with
  | nil =>
    refine quiet t T ht hT (fun i hi => ?_) f
    obtain ⟨q, hq, -⟩ := hc i hi.1
    simp at hq
  | cons q l ih =>
    obtain ⟨τ, j⟩ := q
    obtain ⟨hτ, i, hi, hj⟩ := hl (τ, j) (by simp)
    simp only at hτ hi hj
    rw [List.map_cons, List.pairwise_cons, List.pairwise_cons] at ho
    have haτ : t < τ := ho.1 τ (by simp)
    rw [ih τ (ht.trans haτ.le) hτ (fun q hq => hl q (by simp [hq])) (fun m hm => ?_) (by
      rw [List.pairwise_cons]; exact ho.2)]
    swap
    · obtain ⟨q, hq, e⟩ := hc m (haτ.trans hm)
      rcases List.mem_cons.1 hq with rfl | hq
      · exact absurd e hm.ne
      · exact ⟨q, hq, e⟩
    rw [bk]
    set w := bk (fun t => exp (t • mat (op b a c.lam c.ν hν) (low_of (op_mono b a _ _ hν h.db h.da) d)))
      (fun y => mat (jump (κ y) (hκ y)) (low_of (jump_deg _ _) d)) T f l τ
    obtain ⟨L, hL, hg⟩ := hE.jump i
    rw [hi] at hL hg
    rw [hg _ (jump (κ j) (hκ j) (toP w)) fun x => by rw [eval_jump, hj], ← toP_mat _ (low_of (jump_deg _ _) d)]
    refine tendsto_nhds_unique (hL _) ?_
    have hc2 : Continuous fun u : ℝ => E t (toP (exp ((u - t) • mat (op b a c.lam c.ν hν) (low_of (op_mono b a _ _ hν h.db h.da) d))
        (mat (jump (κ j) (hκ j)) (low_of (jump_deg _ _) d) w))) := by
      simp only [← fn_apply]
      exact (fn (E t)).continuous.comp (((exp_cont _).comp (continuous_id.sub continuous_const)).clm_apply continuous_const)
    refine ((hc2.tendsto τ).mono_left nhdsWithin_le_nhds).congr' ?_
    filter_upwards [Ioo_mem_nhdsLT haτ] with u hu
    refine (quiet t u ht hu.1.le (fun m hm => ?_) _).symm
    obtain ⟨q, hq, e⟩ := hc m hm.1
    rcases List.mem_cons.1 hq with rfl | hq
    · rw [← e] at hm
      exact absurd hu.2 (not_lt.2 hm.2)
    · have := ho.2.1 q.1 (List.mem_map_of_mem hq)
      rw [e] at this
      linarith [hm.2, hu.2]

/-- `F` is the expectation of `f` at the time `T` as a function of the jumps up to `T`: the process follows `c` between the
jumps, and a jump of size `y` moves it by a variable with the law `κ y` -/
def IsGiven (c : JumpDiff σ) (κ : ℝ → Measure (σ → ℝ)) (E0 : MvPolynomial σ ℝ →ₗ[ℝ] ℝ) (T : ℝ) (f : MvPolynomial σ ℝ)
    (F : List (ℝ × ℝ) → ℝ) : Prop :=
  ∀ l, JumpsIn 0 T l → ∃ (N : ℕ) (s : Fin N → ℝ) (κ' : Fin N → Measure (σ → ℝ)) (E : _), Times s ∧ c.DynkinAt s κ' E0 E ∧
    (∀ q ∈ l, ∃ i, s i = q.1 ∧ κ' i = κ q.2) ∧ (∀ i, ∃ q ∈ l, q.1 = s i ∧ κ' i = κ q.2) ∧ F l = E T f

include hκ h in
/-- the mean over the jumps is the expectation for the process that jumps at random times -/
theorem avg_dynkin {c' : JumpDiff σ} {b' : σ → MvPolynomial σ ℝ} {a' : σ → σ → MvPolynomial σ ℝ} (h' : PolyCoef c' b' a')
    (hν' : Mom c'.ν) {lam : ℝ} (hop : ∀ f, op b' a' c'.lam c'.ν hν' f = op b a c.lam c.ν hν f + lam • (jump ρ hρ f - f))
    (hm : ∀ f x, Integrable (fun y => ∫ z, eval (x + z) f ∂κ y) (expMeasure (1 / μ)) ∧
      ∫ y, ∫ z, eval (x + z) f ∂κ y ∂(expMeasure (1 / μ)) = ∫ z, eval (x + z) f ∂ρ)
    {E0 : MvPolynomial σ ℝ →ₗ[ℝ] ℝ} {E' : ℝ → MvPolynomial σ ℝ →ₗ[ℝ] ℝ} (hE' : c'.Dynkin E0 E') {T : ℝ} (hT : 0 ≤ T)
    {f : MvPolynomial σ ℝ} {F : List (ℝ × ℝ) → ℝ} (hF : IsGiven c κ E0 T f F) :
    HasSum (fun N => jumpAvg lam μ T N 0 F) (E' T f) := by
  set d := f.totalDegree
  have hf : f ∈ Low σ d := (mem_restrictTotalDegree _ _ _).2 le_rfl
  set w : Vec σ d := co σ d ⟨f, hf⟩
  have hw : toP w = f := toP_co f hf
  set L := mat (op b a c.lam c.ν hν) (low_of (op_mono b a _ _ hν h.db h.da) d)
  set K := mat (jump ρ hρ) (low_of (jump_deg _ _) d)
  have hA : ∀ t : ℝ, exp (t • L) = Real.exp (lam * t) • exp (t • (L - lam • (1 : Vec σ d →L[ℝ] Vec σ d))) :=
    flow_exp (fun t => hasDerivAt_exp_smul_const (𝕂 := ℝ) L t) (by simp) lam
  have hsum := avg_sum (f := w) (T := T) (a := 0) hA (jump_mean hκ hρ hm (d := d)) hT (fn E0)
  have hG : L - lam • (1 : Vec σ d →L[ℝ] Vec σ d) + lam • K = mat (op b' a' c'.lam c'.ν hν') (low_of (op_mono b' a' _ _ hν' h'.db h'.da) d) := by
    refine ContinuousLinearMap.ext fun w => toP_inj ?_
    rw [toP_mat, hop]
    simp only [ContinuousLinearMap.add_apply, ContinuousLinearMap.sub_apply, ContinuousLinearMap.smul_apply,
      ContinuousLinearMap.one_apply, map_add, map_sub, map_smul, L, K, toP_mat, smul_sub]
    abel
  obtain ⟨hs, h0⟩ := dynkin_sol h' hν' hE'
  have he := fn_exp (d := d) (L := E') (low_of (op_mono b' a' _ _ hν' h'.db h'.da) d) hT
    (fun f => (hs.cont f).mono Set.Icc_subset_Ici_self) (fun f t ht => (hs f t ht.1.le).mono fun u hu => ht.1.le.trans (le_of_lt hu)) w
  rw [hw, h0] at he
  rw [he, ← hG, ← fn_apply]
  convert hsum using 2 with n
  refine avg_congr n hT fun l hl => ?_
  obtain ⟨N, s, κ', E, ht, hE, h1, h2, e⟩ := hF l hl
  have hκ' : ∀ i, Mom (κ' i) := fun i => by
    obtain ⟨q, -, -, e⟩ := h2 i
    rw [e]
    exact hκ _
  rw [e, ← hw, bk_spec hκ h hν ht hκ' hE w l 0 le_rfl hT (fun q hq => ⟨hl.2 q hq, h1 q hq⟩)
    (fun i _ => by obtain ⟨q, hq, e, -⟩ := h2 i; exact ⟨q, hq, e⟩) hl.1, hE.start, ← fn_apply]

end

theorem op_split (b : σ → MvPolynomial σ ℝ) (a : σ → σ → MvPolynomial σ ℝ) (lam : ℝ) (ν ν0 : Measure (σ → ℝ)) (hν : Mom ν)
    (hν0 : Mom ν0) (f : MvPolynomial σ ℝ) : op b a lam ν hν f = op b a 0 ν0 hν0 f + lam • (jump ν hν f - f) := by
  simp [op_apply]

theorem mean_bind {m : Measure ℝ} {κ : ℝ → Measure (σ → ℝ)} (hm : Measurable κ) (hb : Mom (m.bind κ)) (f : MvPolynomial σ ℝ) (x : σ → ℝ) :
    Integrable (fun y => ∫ z, eval (x + z) f ∂κ y) m ∧ ∫ y, ∫ z, eval (x + z) f ∂κ y ∂m = ∫ z, eval (x + z) f ∂(m.bind κ) := by
  let K : Kernel ℝ (σ → ℝ) := ⟨κ, hm⟩
  have e : m.bind κ = (K ∘ₖ Kernel.const Unit m) () := Measure.comp_eq_comp_const_apply (κ := K)
  have hi := jump_int _ hb f x
  rw [e] at hi ⊢
  exact ⟨hi.integral_comp, (Kernel.integral_comp hi).symm⟩

/-- the times and the sizes of a list of jumps -/
theorem lists_times {T : ℝ} {l : List (ℝ × ℝ)} (hl : JumpsIn 0 T l) :
    Times fun i : Fin (l.map Prod.snd).length => (l.map Prod.fst).getD i 0 := by
  have hb : ∀ i : Fin (l.map Prod.snd).length, (i : ℕ) < (l.map Prod.fst).length := fun i => by simpa using i.2
  constructor
  · intro i j e
    simp only at e
    rw [List.getD_eq_getElem _ _ (hb i), List.getD_eq_getElem _ _ (hb j)] at e
    have hn : (l.map Prod.fst).Nodup := (List.pairwise_cons.1 hl.1).2.imp fun h => h.ne
    exact Fin.ext ((hn.getElem_inj_iff (hi := hb i) (hj := hb j)).1 e)
  · intro i
    rw [List.getD_eq_getElem _ _ (hb i)]
    exact (List.pairwise_cons.1 hl.1).1 _ (List.getElem_mem _)

theorem jump_one {ν : Measure (σ → ℝ)} (hν : Mom ν) (hp : IsProbabilityMeasure ν) : jump ν hν 1 = 1 :=
  MvPolynomial.funext fun x => by simp [eval_jump]

/-- a law has mass 1 -/
theorem dynkinAt_one {c : JumpDiff σ} {b : σ → MvPolynomial σ ℝ} {a : σ → σ → MvPolynomial σ ℝ} (h : PolyCoef c b a) (hν : Mom c.ν)
    {N : ℕ} {s : Fin N → ℝ} (hs : Times s) {κ : Fin N → Measure (σ → ℝ)} (hκ : ∀ i, Mom (κ i)) (hp : ∀ i, IsProbabilityMeasure (κ i))
    {E0 : MvPolynomial σ ℝ →ₗ[ℝ] ℝ} {E : ℝ → MvPolynomial σ ℝ →ₗ[ℝ] ℝ} (hE : c.DynkinAt s κ E0 E) {T : ℝ} (hT : 0 ≤ T) :
    E T 1 = E0 1 := by
  have hsol := dynkinAt_sol h hν hs hκ hE
  have hc := hsol.contOn 1 0 T le_rfl fun t _ _ L' => by
    by_cases hi : ∃ i, s i = t
    · obtain ⟨i, rfl⟩ := hi
      rw [jat_at hs, jump_one _ (hp i)]
    · rw [jat_ne _ _ hi, LinearMap.id_apply]
  have h0 : op b a c.lam c.ν hν 1 = 0 := by
    rw [op_apply, jump_one _ h.prob]
    simp
  have := intervalIntegral.integral_eq_sub_of_hasDeriv_right_of_le (f' := fun _ => 0) hT hc (fun t ht => by
    have := hsol.deriv 1 t ht.1.le
    rw [h0, map_zero] at this
    exact this.mono Set.Ioi_subset_Ici_self) (by simp)
  rw [intervalIntegral.integral_zero, hE.start] at this
  linarith

theorem var_eq (L : MvPolynomial σ ℝ →ₗ[ℝ] ℝ) (h : L 1 = 1) (i : σ) : L ((X i - C (L (X i))) ^ 2) + L (X i) ^ 2 = L (X i ^ 2) := by
  have e : (X i - C (L (X i))) ^ 2 = X i ^ 2 - (2 * L (X i)) • X i + (L (X i) ^ 2) • (1 : MvPolynomial σ ℝ) := by
    simp only [smul_eq_C_mul, C_mul, C_pow, mul_one]
    rw [show (C 2 : MvPolynomial σ ℝ) = 2 from map_ofNat C 2]
    ring
  rw [e, map_add, map_sub, map_smul, map_smul, h, smul_eq_mul, smul_eq_mul]
  ring

/-- the law of the jumps has mass 1 -/
theorem avg_one {lam μ T : ℝ} (hμ : 0 < μ) (hT : 0 ≤ T) : HasSum (fun N => jumpAvg lam μ T N 0 fun _ => 1) 1 := by
  have := isProbabilityMeasure_expMeasure (show 0 < 1 / μ by positivity)
  have hA := flow_exp (A := fun _ => (1 : ℝ →L[ℝ] ℝ)) (L := 0) (fun t => by simpa using hasDerivAt_const t (1 : ℝ →L[ℝ] ℝ)) rfl lam
  have hs := avg_sum (μ := μ) (S := fun _ => 1) (K := 1) (f := (1 : ℝ)) hA (fun ℓ w => by rw [integral_const, probReal_univ, one_smul]) hT (ContinuousLinearMap.id ℝ ℝ)
  have hb : ∀ (l : List (ℝ × ℝ)) (t : ℝ), bk (fun _ => (1 : ℝ →L[ℝ] ℝ)) (fun _ => 1) T (1 : ℝ) l t = 1 := by
    intro l
    induction l with
    | nil => intro t; simp [bk]
    | cons q l ih => intro t; obtain ⟨τ, y⟩ := q; simp [bk, ih]
  simpa [hb] using hs

/-- the form in which the modules get the jumps -/
theorem isGiven_of {c : JumpDiff σ} {κ : ℝ → Measure (σ → ℝ)} {E0 : MvPolynomial σ ℝ →ₗ[ℝ] ℝ} {T : ℝ} {f : MvPolynomial σ ℝ}
    {F : List (ℝ × ℝ) → ℝ} (h : ∀ l, JumpsIn 0 T l → ∃ E, c.DynkinAt (fun i : Fin (l.map Prod.snd).length => (l.map Prod.fst).getD i 0)
      (fun i => κ ((l.map Prod.snd).getD i 0)) E0 E ∧ F l = E T f) : IsGiven c κ E0 T f F := by
  intro l hl
  obtain ⟨E, hE, e⟩ := h l hl
  have hb : ∀ i : Fin (l.map Prod.snd).length, (i : ℕ) < l.length := fun i => by simpa using i.2
  refine ⟨_, _, _, E, lists_times hl, hE, fun q hq => ?_, fun i => ?_, e⟩
  · obtain ⟨i, hi, e⟩ := List.getElem_of_mem hq
    refine ⟨⟨i, by simpa using hi⟩, ?_, ?_⟩
    · simp only
      rw [List.getD_eq_getElem _ _ (by simpa using hi), List.getElem_map, e]
    · simp only
      rw [List.getD_eq_getElem _ _ (by simpa using hi), List.getElem_map, e]
  · refine ⟨l[i]'(hb i), List.getElem_mem _, ?_, ?_⟩
    · rw [List.getD_eq_getElem _ _ (by simpa using hb i), List.getElem_map]; rfl
    · rw [List.getD_eq_getElem _ _ (by simpa using hb i), List.getElem_map]; rfl

end

end Ajd.Gen

namespace Ajd.SrjdJ
open MvPolynomial MeasureTheory ProbabilityTheory Gen

/-- the square-root jump-diffusion -/
noncomputable def sys (k θ σ lam μ : ℝ) : JumpDiff (Fin 1) where
  b := (Ito.cir k θ σ).b
  a := (Ito.cir k θ σ).a
  lam := lam
  ν := (expMeasure (1 / μ)).bind fun y => Measure.dirac ![y]

theorem meas1 : Measurable fun y : ℝ => (![y] : Fin 1 → ℝ) := by
  refine measurable_pi_lambda _ fun i => ?_
  fin_cases i
  exact measurable_id

theorem sys_nu (k θ σ lam μ : ℝ) : (sys k θ σ lam μ).ν = (expMeasure (1 / μ)).map fun y => ![y] :=
  Measure.bind_dirac_eq_map _ meas1

theorem sys_coef (k θ σ lam : ℝ) {μ : ℝ} (hμ : 0 < μ) : PolyCoef (sys k θ σ lam μ) (b1 k θ) (a1 σ) where
  prob := by
    have := isProbabilityMeasure_expMeasure (show 0 < 1 / μ by positivity)
    rw [sys_nu]
    exact Measure.isProbabilityMeasure_map meas1.aemeasurable
  hb := (sd_coef k θ σ).hb
  ha := (sd_coef k θ σ).ha
  db := (sd_coef k θ σ).db
  da := (sd_coef k θ σ).da

theorem sys_mom (k θ σ lam : ℝ) {μ : ℝ} (hμ : 0 < μ) : Mom (sys k θ σ lam μ).ν := by
  intro f
  rw [sys_nu, integrable_map_measure (MvPolynomial.continuous_eval f).measurable.aestronglyMeasurable meas1.aemeasurable]
  induction f using MvPolynomial.induction_on' with
  | monomial s r =>
    refine ((Srjd.exp_int_pow hμ (s 0)).const_mul r).congr (ae_of_all _ fun y => ?_)
    simp [eval_monomial, Finsupp.prod_fintype]
  | add p q hp hq =>
    refine (hp.add hq).congr (ae_of_all _ fun y => ?_)
    simp

/-- the expectations of the powers -/
theorem sys_dynkin {k θ σ lam μ v : ℝ} (hμ : 0 < μ) {E : ℝ → Pol →ₗ[ℝ] ℝ}
    (hE : (sys k θ σ lam μ).Dynkin (aeval ![v]).toLinearMap E) : Srjd.Dynkin k θ σ lam μ v fun n t => E t (X 0 ^ n) := by
  obtain ⟨hs, h0⟩ := dynkin_sol (sys_coef k θ σ lam hμ) (sys_mom k θ σ lam hμ) hE
  refine ⟨fun n => by simp [h0], fun n => hE.cont _, fun n t ht q hq => ?_⟩
  have hg : (sys k θ σ lam μ).IsGen (X 0 ^ n) (Polynomial.aeval (X 0) q) := by
    intro x
    have e1 : eval x (Polynomial.aeval (X 0 : Pol) q) = q.eval (x 0) := by
      have := Polynomial.hom_eval₂ q (algebraMap ℝ Pol) (eval x) (X 0)
      rw [Polynomial.aeval_def, this, eval_X, Polynomial.eval]
      congr 1
      ext r
      simp [algebraMap_eq]
    rw [e1, hq, Srjd.gen, sys_nu, integral_map meas1.aemeasurable (by
      refine Continuous.aestronglyMeasurable ?_
      exact ((MvPolynomial.continuous_eval _).comp (continuous_const.add continuous_id)).sub continuous_const)]
    have d1 : deriv (fun y : ℝ => y ^ n) = fun y : ℝ => (n : ℝ) * y ^ (n - 1) := by funext y; simp
    have d2 : deriv (fun y : ℝ => (n : ℝ) * y ^ (n - 1)) = fun y : ℝ => (n : ℝ) * (((n - 1 : ℕ) : ℝ) * y ^ (n - 1 - 1)) := by
      funext y
      rw [deriv_const_mul _ (by fun_prop)]
      simp
    rw [d1, d2]
    simp [sys, Ito.cir, pderiv_X, Derivation.leibniz_pow, Derivation.leibniz, Matrix.vecHead]
    ring
  have := (hs (X 0 ^ n) t ht.le).hasDerivAt (Ici_mem_nhds ht)
  rw [isGen_unique (isGen_op (sys_coef k θ σ lam hμ) (sys_mom k θ σ lam hμ) _) hg] at this
  refine this.congr_deriv ?_
  rw [Polynomial.aeval_def, Polynomial.eval₂_eq_sum, Polynomial.sum, Polynomial.sum, map_sum]
  refine Finset.sum_congr rfl fun i _ => ?_
  rw [algebraMap_eq, ell]

/-- the mean over the jumps -/
theorem srjd_avg {k θ σ lam μ v T : ℝ} (hμ : 0 < μ) (hT : 0 ≤ T) {V : ℕ → ℝ → ℝ} (hV : Srjd.Dynkin k θ σ lam μ v V) (n : ℕ)
    {F : List (ℝ × ℝ) → ℝ} (hF : IsGiven (Ito.cir k θ σ) (fun y => Measure.dirac ![y]) (aeval ![v]).toLinearMap T (X 0 ^ n) F) :
    HasSum (fun N => jumpAvg lam μ T N 0 F) (V n T) := by
  obtain ⟨Q, hQ⟩ := dynkin_exists (sys_coef k θ σ lam hμ) (sys_mom k θ σ lam hμ)
  have hE := hQ (aeval ![v]).toLinearMap
  rw [Srjd.dynkin_unique hμ hV (sys_dynkin hμ hE) n T hT]
  exact avg_dynkin (fun y => CondJ.mom_dirac _) (sys_mom k θ σ lam hμ) (sd_coef k θ σ) (sd_mom k θ σ) (sys_coef k θ σ lam hμ)
    (sys_mom k θ σ lam hμ) (fun f => op_split _ _ _ _ _ _ _ f)
    (mean_bind (Measure.measurable_dirac.comp meas1) (sys_mom k θ σ lam hμ)) hE hT hF

end Ajd.SrjdJ

namespace Ajd.Svcj
open MvPolynomial MeasureTheory ProbabilityTheory Gen

/-- the law of the jump of the pair given the jump of the variance -/
noncomputable def kap (μs ρJ σs y : ℝ) : Measure (Fin 2 → ℝ) :=
  (gaussianReal (μs + ρJ * y) (σs ^ 2).toNNReal).map fun z => ![y, z]

theorem kap_meas (μs ρJ σs : ℝ) : Measurable (kap μs ρJ σs) := by
  have hG : Measurable fun y : ℝ × ℝ => (![y.1, ρJ * y.1 + y.2] : Fin 2 → ℝ) := by
    refine measurable_pi_lambda _ fun i => ?_
    fin_cases i <;> simp <;> fun_prop
  have : kap μs ρJ σs = fun jv => ((gaussianReal μs (σs ^ 2).toNNReal).map (Prod.mk jv)).map
        fun y : ℝ × ℝ => (![y.1, ρJ * y.1 + y.2] : Fin 2 → ℝ) := by
    funext jv
    have h2 : Measurable fun js : ℝ => (![jv, js] : Fin 2 → ℝ) := by
      refine measurable_pi_lambda _ fun i => ?_
      fin_cases i <;> simp <;> fun_prop
    rw [kap, ← gaussianReal_map_const_add, Measure.map_map h2 (by fun_prop), Measure.map_map hG (by fun_prop)]
    rfl
  rw [this]
  exact (Measure.measurable_map _ hG).comp Measurable.map_prodMk_left

/-- the mean over the jumps -/
theorem svcj_avg (p : SvcjI.SPar) (hm : 0 < p.mu_v) (hT : 0 ≤ T) {E : ℝ → MvPolynomial (Fin 2) ℝ →ₗ[ℝ] ℝ}
    (hE : p.sde.Dynkin (aeval ![p.v0, 0]).toLinearMap E) {f : MvPolynomial (Fin 2) ℝ} {F : List (ℝ × ℝ) → ℝ}
    (hF : IsGiven (Sv.heston p.mu p.k p.theta p.sigma p.rho) (kap p.mu_s p.rhoJ p.sigma_s) (aeval ![p.v0, 0]).toLinearMap T f F) :
    HasSum (fun N => jumpAvg p.lmbd p.mu_v T N 0 F) (E T f) :=
  avg_dynkin (fun y => price_mom _ _ _) (SvcjI.momY p.toPar hm p.rhoJ) (Sv.hcoef _ _ _ _ _) (Sv.hmom _ _ _ _ _)
    (SvcjI.sY_coef p.toPar hm _ _ _ _ _) (SvcjI.momY p.toPar hm p.rhoJ) (fun f => op_split _ _ _ _ _ _ _ f)
    (mean_bind (kap_meas _ _ _) (SvcjI.momY p.toPar hm p.rhoJ)) hE hT hF

end Ajd.Svcj
