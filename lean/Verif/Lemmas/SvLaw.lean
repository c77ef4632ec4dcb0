import Verif.Lemmas.GenPos
import Mathlib.Analysis.Convex.Cone.Extension
import Mathlib.MeasureTheory.Integral.RieszMarkovKakutani.Real
import Mathlib.Data.Fin.VecNotation
import Verif.Lemmas.GenMap
import Verif.Lemmas.Svj
import Verif.Lemmas.Fsv1Inst
import Verif.Spec.Law

section -- Haviland

/-!
A linear functional on polynomials that is not negative on the polynomials that are not negative on a closed set is
the integral with respect to a measure on the set (Haviland's theorem).
-/

namespace Ajd.Gen
open MvPolynomial MeasureTheory Finset Filter Topology CompactlySupported

variable {σ : Type} [Fintype σ]

/-- functions that a polynomial dominates on `D` -/
noncomputable def Dom (D : Set (σ → ℝ)) : Submodule ℝ ((σ → ℝ) → ℝ) where
  carrier := {g | ∃ p : MvPolynomial σ ℝ, ∀ x ∈ D, |g x| ≤ eval x p}
  zero_mem' := ⟨0, fun x _ => by simp⟩
  add_mem' := by
    rintro g h ⟨p, hp⟩ ⟨q, hq⟩
    refine ⟨p + q, fun x hx => ?_⟩
    rw [map_add]
    exact (abs_add_le _ _).trans (add_le_add (hp x hx) (hq x hx))
  smul_mem' := by
    rintro c g ⟨p, hp⟩
    refine ⟨|c| • p, fun x hx => ?_⟩
    rw [smul_eval, Pi.smul_apply, smul_eq_mul, abs_mul]
    exact mul_le_mul_of_nonneg_left (hp x hx) (abs_nonneg _)

theorem eval_mem_dom (D : Set (σ → ℝ)) (p : MvPolynomial σ ℝ) : (fun x => eval x p) ∈ Dom D := by
  refine ⟨1 + p ^ 2, fun x _ => ?_⟩
  simp only [map_add, map_one, map_pow]
  rw [abs_le]
  constructor <;> nlinarith [sq_nonneg (eval x p - 1), sq_nonneg (eval x p + 1)]

theorem bdd_mem_dom (D : Set (σ → ℝ)) {g : (σ → ℝ) → ℝ} {B : ℝ} (hg : ∀ x, |g x| ≤ B) : g ∈ Dom D :=
  ⟨C B, fun x _ => by simpa using hg x⟩

noncomputable def polyDom (D : Set (σ → ℝ)) : MvPolynomial σ ℝ →ₗ[ℝ] Dom D where
  toFun p := ⟨fun x => eval x p, eval_mem_dom D p⟩
  map_add' p q := by ext x; simp
  map_smul' c p := by ext x; simp [smul_eval]

theorem polyDom_inj (D : Set (σ → ℝ)) : Function.Injective (polyDom D) := fun p q h =>
  MvPolynomial.funext fun x => congrFun (congrArg Subtype.val h) x

/-- functions that are not negative on `D` -/
noncomputable def posDom (D : Set (σ → ℝ)) : PointedCone ℝ (Dom D) where
  carrier := {g | ∀ x ∈ D, 0 ≤ g.1 x}
  zero_mem' := fun x _ => le_rfl
  add_mem' := fun ha hb x hx => add_nonneg (ha x hx) (hb x hx)
  smul_mem' := fun c g hg x hx => mul_nonneg c.2 (hg x hx)

theorem extend {D : Set (σ → ℝ)} {L : MvPolynomial σ ℝ →ₗ[ℝ] ℝ} (hL : ∀ f, (∀ x ∈ D, 0 ≤ eval x f) → 0 ≤ L f) :
    ∃ g : Dom D →ₗ[ℝ] ℝ, (∀ p, g (polyDom D p) = L p) ∧ ∀ f : Dom D, (∀ x ∈ D, 0 ≤ f.1 x) → 0 ≤ g f := by
  let e := LinearEquiv.ofInjective (polyDom D) (polyDom_inj D)
  obtain ⟨g, h1, h2⟩ := riesz_extension (posDom D) ⟨LinearMap.range (polyDom D), L ∘ₗ e.symm.toLinearMap⟩ (by
    rintro ⟨_, p, rfl⟩ hp
    have : e.symm ⟨polyDom D p, p, rfl⟩ = p := e.symm_apply_apply p
    change 0 ≤ L (e.symm ⟨polyDom D p, p, rfl⟩)
    rw [this]
    exact hL p hp) (by
    rintro ⟨f, p, hp⟩
    refine ⟨⟨polyDom D p, p, rfl⟩, fun x hx => ?_⟩
    have := (abs_le.1 (hp x hx)).1
    change 0 ≤ eval x p + f x
    linarith)
  refine ⟨g, fun p => ?_, h2⟩
  have := h1 ⟨polyDom D p, p, rfl⟩
  rw [this]
  exact congrArg L (e.symm_apply_apply p)

/-- a continuous cut-off: `1` where `N2 ≤ n + 1`, `0` where `N2 ≥ n + 2` -/
noncomputable def cut (n : ℕ) (x : σ → ℝ) : ℝ := max 0 (min 1 (n + 2 - eval x N2))

theorem cut_cont (n : ℕ) : Continuous (cut (σ := σ) n) :=
  continuous_const.max (continuous_const.min (continuous_const.sub (MvPolynomial.continuous_eval _)))

theorem cut_nonneg (n : ℕ) (x : σ → ℝ) : 0 ≤ cut n x := le_max_left _ _

theorem cut_le (n : ℕ) (x : σ → ℝ) : cut n x ≤ 1 := max_le zero_le_one (min_le_left _ _)

theorem cut_far (n : ℕ) (x : σ → ℝ) : (n + 1) * (1 - cut n x) ≤ eval x N2 := by
  have h1 := one_le_N2 x
  have h2 := cut_nonneg n x
  by_cases h : eval x N2 ≤ n + 1
  · have : cut n x = 1 := by
      rw [cut, min_eq_left (by linarith), max_eq_right zero_le_one]
    rw [this]
    linarith
  · have : (0 : ℝ) ≤ n := n.cast_nonneg
    nlinarith

theorem cut_mono (x : σ → ℝ) : Monotone fun n => cut n x := fun a b h =>
  max_le_max le_rfl (min_le_min le_rfl (by have : (a : ℝ) ≤ b := by exact_mod_cast h
                                           linarith))

theorem cut_tendsto (x : σ → ℝ) : Tendsto (fun n => cut n x) atTop (𝓝 1) := by
  obtain ⟨m, hm⟩ := exists_nat_gt (eval x N2)
  refine tendsto_const_nhds.congr' ?_
  filter_upwards [eventually_ge_atTop m] with n hn
  have : (m : ℝ) ≤ n := by exact_mod_cast hn
  rw [cut, min_eq_left (by linarith), max_eq_right zero_le_one]

theorem cut_supp (n : ℕ) : HasCompactSupport (cut (σ := σ) n) := by
  refine HasCompactSupport.intro (isCompact_Icc (a := fun _ : σ => -(n + 2 : ℝ)) (b := fun _ => (n + 2 : ℝ))) ?_
  intro x hx
  have h0 : (0 : ℝ) ≤ n := n.cast_nonneg
  rw [cut, max_eq_left]
  refine (min_le_right _ _).trans ?_
  by_contra hc
  refine hx ?_
  have hN : eval x N2 ≤ n + 2 := by linarith
  have : ∀ i, |x i| ≤ n + 2 := fun i => by
    have h1 := (sq_le_N2 x i).trans hN
    have h2 : |x i| ^ 2 ≤ ((n : ℝ) + 2) ^ 2 := by rw [sq_abs]; nlinarith
    exact (pow_le_pow_iff_left₀ (abs_nonneg _) (by linarith) two_ne_zero).1 h2
  exact ⟨fun i => (abs_le.1 (this i)).1, fun i => (abs_le.1 (this i)).2⟩

/-- a continuous function, cut off -/
noncomputable def cutC (n : ℕ) (f : (σ → ℝ) → ℝ) (hf : Continuous f) : C_c(σ → ℝ, ℝ) where
  toFun x := f x * cut n x
  continuous_toFun := hf.mul (cut_cont n)
  hasCompactSupport' := (cut_supp n).mul_left

theorem cc_mem (D : Set (σ → ℝ)) (f : C_c(σ → ℝ, ℝ)) : (f : (σ → ℝ) → ℝ) ∈ Dom D := by
  obtain ⟨B, hB⟩ := f.hasCompactSupport.exists_bound_of_continuous f.continuous
  exact bdd_mem_dom D fun x => by simpa using hB x

noncomputable def ccDom (D : Set (σ → ℝ)) : C_c(σ → ℝ, ℝ) →ₗ[ℝ] Dom D where
  toFun f := ⟨f, cc_mem D f⟩
  map_add' p q := by ext x; simp
  map_smul' c p := by ext x; simp

theorem haviland {D : Set (σ → ℝ)} (hc : IsClosed D) (hne : D.Nonempty) {L : MvPolynomial σ ℝ →ₗ[ℝ] ℝ}
    (hL : ∀ f, (∀ x ∈ D, 0 ≤ eval x f) → 0 ≤ L f) :
    ∃ μ : Measure (σ → ℝ), (∀ᵐ x ∂μ, x ∈ D) ∧ ∀ f, Integrable (fun x => eval x f) μ ∧ L f = ∫ x, eval x f ∂μ := by
  obtain ⟨g, hg, hp⟩ := extend hL
  let Λ : C_c(σ → ℝ, ℝ) →ₚ[ℝ] ℝ := PositiveLinearMap.mk₀ (g ∘ₗ ccDom D) fun f hf => hp _ fun x _ => hf x
  have hint : ∀ f : C_c(σ → ℝ, ℝ), ∫ x, f x ∂(RealRMK.rieszMeasure Λ) = g (ccDom D f) := fun f =>
    RealRMK.integral_rieszMeasure Λ f
  have hfin : IsFiniteMeasureOnCompacts (RealRMK.rieszMeasure Λ) := by
    unfold RealRMK.rieszMeasure
    infer_instance
  generalize RealRMK.rieszMeasure Λ = μ at hint hfin
  have hgmono : ∀ f h : Dom D, (∀ x ∈ D, f.1 x ≤ h.1 x) → g f ≤ g h := fun f h hfh => by
    have := hp (h - f) fun x hx => sub_nonneg.2 (hfh x hx)
    rw [map_sub] at this
    linarith
  have hcc : ∀ f : C_c(σ → ℝ, ℝ), Integrable f μ := fun f => f.continuous.integrable_of_hasCompactSupport f.hasCompactSupport
  -- powers of `N2`
  have hN : ∀ M : ℕ, Integrable (fun x => eval x N2 ^ M) μ := by
    intro M
    have hcont : Continuous fun x : σ → ℝ => eval x N2 ^ M := (MvPolynomial.continuous_eval _).pow M
    have hpos : ∀ x : σ → ℝ, 0 ≤ eval x N2 ^ M := fun x => pow_nonneg (zero_le_one.trans (one_le_N2 x)) _
    have hle : ∀ n, ∫⁻ x, ENNReal.ofReal (cutC n _ hcont x) ∂μ ≤ ENNReal.ofReal (L (N2 ^ M)) := by
      intro n
      rw [← ofReal_integral_eq_lintegral_ofReal (hcc _) (Eventually.of_forall fun x => mul_nonneg (hpos x) (cut_nonneg n x)), hint]
      refine ENNReal.ofReal_le_ofReal ?_
      rw [← hg]
      refine hgmono _ _ fun x _ => ?_
      change eval x N2 ^ M * cut n x ≤ eval x (N2 ^ M)
      rw [map_pow]
      exact mul_le_of_le_one_right (hpos x) (cut_le n x)
    have hlim := lintegral_tendsto_of_tendsto_of_monotone (μ := μ)
      (f := fun n x => ENNReal.ofReal (cutC n _ hcont x)) (F := fun x => ENNReal.ofReal (eval x N2 ^ M))
      (fun n => (cutC n _ hcont).continuous.measurable.ennreal_ofReal.aemeasurable)
      (Eventually.of_forall fun x a b hab => ENNReal.ofReal_le_ofReal (mul_le_mul_of_nonneg_left (cut_mono x hab) (hpos x)))
      (Eventually.of_forall fun x => by
        refine (ENNReal.continuous_ofReal.tendsto _).comp ?_
        have := (cut_tendsto x).const_mul (eval x N2 ^ M)
        rw [mul_one] at this
        exact this)
    have hb := le_of_tendsto' hlim hle
    refine ⟨hcont.aestronglyMeasurable, ?_⟩
    rw [hasFiniteIntegral_iff_ofReal (Eventually.of_forall hpos)]
    exact hb.trans_lt ENNReal.ofReal_lt_top
  have hpoly : ∀ f : MvPolynomial σ ℝ, ∃ (M : ℕ) (K : ℝ), 0 ≤ K ∧ ∀ x, |eval x f| ≤ K * eval x N2 ^ M := fun f => by
    obtain ⟨K, h0, h⟩ := poly_bound f f.totalDegree (by omega)
    exact ⟨_, K, h0, h⟩
  have hI : ∀ f : MvPolynomial σ ℝ, Integrable (fun x => eval x f) μ := fun f => by
    obtain ⟨M, K, -, h⟩ := hpoly f
    exact ((hN M).const_mul K).mono' (MvPolynomial.continuous_eval _).aestronglyMeasurable
      (Eventually.of_forall fun x => h x)
  refine ⟨μ, ?_, fun f => ⟨hI f, ?_⟩⟩
  · -- the support
    have hd : Continuous fun x : σ → ℝ => Metric.infDist x D := Metric.continuous_infDist_pt D
    have h0 : ∀ n, ∀ᵐ x ∂μ, Metric.infDist x D * cut n x = 0 := by
      intro n
      have hz : ∫ x, cutC n _ hd x ∂μ = 0 := by
        rw [hint]
        refine le_antisymm ?_ (hp _ fun x hx => mul_nonneg Metric.infDist_nonneg (cut_nonneg n x))
        have := hgmono (ccDom D (cutC n _ hd)) 0 fun x hx => by
          change Metric.infDist x D * cut n x ≤ 0
          rw [Metric.infDist_zero_of_mem hx, zero_mul]
        rwa [map_zero] at this
      exact (integral_eq_zero_iff_of_nonneg (fun x => mul_nonneg Metric.infDist_nonneg (cut_nonneg n x))
        (hcc (cutC n _ hd))).1 hz
    filter_upwards [ae_all_iff.2 h0] with x hx
    have := (cut_tendsto x).const_mul (Metric.infDist x D)
    simp only [hx, mul_one] at this
    have h2 := tendsto_nhds_unique this tendsto_const_nhds
    exact (hc.mem_iff_infDist_zero hne).2 h2
  · obtain ⟨M, K, hK, h⟩ := hpoly f
    have hcont : Continuous fun x : σ → ℝ => eval x f := MvPolynomial.continuous_eval _
    have h1 : Tendsto (fun n => ∫ x, cutC n _ hcont x ∂μ) atTop (𝓝 (∫ x, eval x f ∂μ)) := by
      refine tendsto_integral_of_dominated_convergence (fun x => |eval x f|) (fun n => (hcc _).1) (hI f).abs
        (fun n => Eventually.of_forall fun x => ?_) (Eventually.of_forall fun x => ?_)
      · change ‖eval x f * cut n x‖ ≤ |eval x f|
        rw [norm_mul, Real.norm_eq_abs, Real.norm_eq_abs, abs_of_nonneg (cut_nonneg n x)]
        exact mul_le_of_le_one_right (abs_nonneg _) (cut_le n x)
      · have := (cut_tendsto x).const_mul (eval x f)
        rw [mul_one] at this
        exact this
    have h2 : Tendsto (fun n => ∫ x, cutC n _ hcont x ∂μ) atTop (𝓝 (L f)) := by
      rw [tendsto_iff_norm_sub_tendsto_zero]
      have hz : Tendsto (fun n : ℕ => K * L (N2 ^ (M + 1)) * (1 / ((n : ℝ) + 1))) atTop (𝓝 0) := by
        have := tendsto_one_div_add_atTop_nhds_zero_nat (𝕜 := ℝ) |>.const_mul (K * L (N2 ^ (M + 1)))
        rwa [mul_zero] at this
      refine squeeze_zero (fun n => norm_nonneg _) (fun n => ?_) hz
      have hn : (0 : ℝ) < n + 1 := by positivity
      rw [hint, ← hg f, ← map_sub, Real.norm_eq_abs, mul_one_div, mul_div_right_comm, ← hg]
      have e : K / (n + 1) * g (polyDom D (N2 ^ (M + 1))) = g ((K / (n + 1)) • polyDom D (N2 ^ (M + 1))) := by
        rw [map_smul, smul_eq_mul]
      have key : ∀ x, |eval x f * cut n x - eval x f| ≤ K / (n + 1) * eval x (N2 ^ (M + 1)) := by
        intro x
        have h3 : |eval x f * cut n x - eval x f| = |eval x f| * (1 - cut n x) := by
          rw [← abs_of_nonneg (sub_nonneg.2 (cut_le n x)), ← abs_mul, ← abs_neg]
          congr 1
          ring
        rw [h3, map_pow, pow_succ]
        have h4 : 1 - cut n x ≤ eval x N2 / (n + 1) := by
          rw [le_div_iff₀ hn]
          linarith [cut_far n x]
        have h5 : 0 ≤ eval x N2 ^ M := pow_nonneg (zero_le_one.trans (one_le_N2 x)) _
        calc |eval x f| * (1 - cut n x) ≤ K * eval x N2 ^ M * (eval x N2 / (n + 1)) :=
              mul_le_mul (h x) h4 (sub_nonneg.2 (cut_le n x)) (mul_nonneg hK h5)
          _ = _ := by ring
      rw [e, abs_le, ← map_neg]
      constructor
      · exact hgmono _ _ fun x _ => (abs_le.1 (key x)).1
      · exact hgmono _ _ fun x _ => (abs_le.1 (key x)).2
    exact tendsto_nhds_unique h2 h1

end Ajd.Gen

end -- Haviland

section -- Law

/-! Expectations of a jump-diffusion that stays in an orthant are integrals. -/

namespace Ajd.Gen
open MvPolynomial MeasureTheory Filter Topology

variable {σ : Type} [Fintype σ]

/-- points whose coordinates in `I` are not negative -/
def orth (I : Set σ) : Set (σ → ℝ) := {x | ∀ i ∈ I, 0 ≤ x i}

theorem orth_closed (I : Set σ) : IsClosed (orth I) := by
  have : orth I = ⋂ i ∈ I, {x | 0 ≤ x i} := by ext x; simp [orth]
  rw [this]
  exact isClosed_biInter fun i _ => isClosed_le continuous_const (continuous_apply i)

/-- one coordinate for a short time -/
theorem small (a b : ℝ) (ha : 0 ≤ a) (hb : a = 0 → 0 ≤ b) : ∀ᶠ s in 𝓝 (0 : ℝ), 0 ≤ s → 0 ≤ a + s * b := by
  rcases ha.eq_or_lt with h | h
  · exact Eventually.of_forall fun s hs => by
      rw [← h, zero_add]
      exact mul_nonneg hs (hb h.symm)
  · have : Tendsto (fun s : ℝ => a + s * b) (𝓝 0) (𝓝 a) := by
      have : Continuous fun s : ℝ => a + s * b := by fun_prop
      simpa using this.tendsto 0
    filter_upwards [this.eventually (lt_mem_nhds h)] with s hs _
    exact hs.le

theorem step {I : Set σ} {x v : σ → ℝ} (hx : x ∈ orth I) (hv : ∀ i ∈ I, x i = 0 → 0 ≤ v i) :
    ∃ δ : ℝ, 0 < δ ∧ ∀ s : ℝ, 0 ≤ s → s ≤ δ → x + s • v ∈ orth I := by
  have h : ∀ᶠ s in 𝓝 (0 : ℝ), ∀ i, i ∈ I → 0 ≤ s → 0 ≤ x i + s * v i := by
    rw [eventually_all]
    intro i
    by_cases hi : i ∈ I
    · filter_upwards [small (x i) (v i) (hx i hi) (hv i hi)] with s hs _
      exact hs
    · exact Eventually.of_forall fun s h => absurd h hi
  obtain ⟨δ, hδ, hs⟩ := Metric.eventually_nhds_iff.1 h
  refine ⟨δ / 2, by linarith, fun s h0 h1 i hi => ?_⟩
  refine hs ?_ i hi h0
  rw [Real.dist_eq, sub_zero, abs_of_nonneg h0]
  linarith

theorem step2 {I : Set σ} {x v : σ → ℝ} (hx : x ∈ orth I) (hv : ∀ i ∈ I, x i = 0 → v i = 0) :
    ∃ δ : ℝ, 0 < δ ∧ ∀ s : ℝ, |s| ≤ δ → x + s • v ∈ orth I := by
  obtain ⟨δ1, h1, s1⟩ := step hx (v := v) fun i hi h => (hv i hi h).ge
  obtain ⟨δ2, h2, s2⟩ := step hx (v := -v) fun i hi h => by simp [hv i hi h]
  refine ⟨min δ1 δ2, lt_min h1 h2, fun s hs => ?_⟩
  rcases le_total 0 s with h | h
  · rw [abs_of_nonneg h] at hs
    exact s1 s h (hs.trans (min_le_left _ _))
  · rw [abs_of_nonpos h] at hs
    have := s2 (-s) (by linarith) (hs.trans (min_le_right _ _))
    rwa [smul_neg, neg_smul, neg_neg] at this

/-- the process does not leave the orthant: where a coordinate is `0` its drift is not negative and it has no noise,
and its jumps are not negative -/
theorem viable_orth {c : JumpDiff σ} {I : Set σ} (hd : ∀ x ∈ orth I, ∀ i ∈ I, x i = 0 → 0 ≤ c.b x i)
    (ha : ∀ x ∈ orth I, ∃ (n : ℕ) (w : Fin n → ℝ) (v : Fin n → σ → ℝ),
      (∀ i j, c.a x i j = ∑ r, w r * (v r i * v r j)) ∧
        ∀ r, w r = 0 ∨ (0 ≤ w r ∧ ∀ i ∈ I, x i = 0 → v r i = 0))
    (hl : 0 ≤ c.lam) (hj : ∀ᵐ y ∂c.ν, y ∈ orth I) : Viable c (orth I) where
  closed := orth_closed I
  drift x hx := step hx (hd x hx)
  diff x hx := by
    obtain ⟨n, w, v, e, h⟩ := ha x hx
    refine ⟨n, w, v, e, fun r => (h r).imp_right fun ⟨h0, h1⟩ => ⟨h0, step2 hx h1⟩⟩
  lam := hl
  jump := by
    filter_upwards [hj] with y hy x hx i hi
    exact add_nonneg (hx i hi) (hy i hi)

/-- the expectation of `1` does not change -/
theorem dynkin_one {c : JumpDiff σ} {E0 : MvPolynomial σ ℝ →ₗ[ℝ] ℝ} {E : ℝ → MvPolynomial σ ℝ →ₗ[ℝ] ℝ}
    (hE : c.Dynkin E0 E) (t : ℝ) (ht : 0 ≤ t) : E t 1 = E0 1 := by
  have hg : c.IsGen 1 0 := fun x => by simp
  have := hE.formula 1 0 hg t ht
  simpa using this

theorem prob_of {P : Measure (σ → ℝ)} {L : MvPolynomial σ ℝ →ₗ[ℝ] ℝ}
    (hf : ∀ f, Integrable (fun x => eval x f) P ∧ L f = ∫ x, eval x f ∂P) (h1 : L 1 = 1) : IsProbabilityMeasure P := by
  constructor
  obtain ⟨hi, he⟩ := hf 1
  rw [h1] at he
  simp only [map_one, integral_const, smul_eq_mul, mul_one] at he
  have hfin : IsFiniteMeasure P := by
    simp only [map_one] at hi
    exact (integrable_const_iff.1 hi).resolve_left one_ne_zero
  rw [measureReal_def] at he
  rw [← ENNReal.ofReal_toReal (measure_ne_top P Set.univ), ← he, ENNReal.ofReal_one]

/-- the expectations at time `t` are integrals -/
theorem exists_law {c : JumpDiff σ} {b : σ → MvPolynomial σ ℝ} {a : σ → σ → MvPolynomial σ ℝ} (h : PolyCoef c b a)
    (hν : Mom c.ν) {D : Set (σ → ℝ)} (hD : Viable c D) (hne : D.Nonempty) {E0 : MvPolynomial σ ℝ →ₗ[ℝ] ℝ}
    {E : ℝ → MvPolynomial σ ℝ →ₗ[ℝ] ℝ} (hE : c.Dynkin E0 E) (h0 : ∀ f, (∀ x ∈ D, 0 ≤ eval x f) → 0 ≤ E0 f)
    (h1 : E0 1 = 1) (t : ℝ) (ht : 0 ≤ t) : ∃ P : Measure (σ → ℝ), IsProbabilityMeasure P ∧ (∀ᵐ x ∂P, x ∈ D) ∧
      ∀ f, Integrable (fun x => eval x f) P ∧ E t f = ∫ x, eval x f ∂P := by
  obtain ⟨P, hs, hf⟩ := haviland hD.closed hne (L := E t) fun f hf => dynkin_pos h hν hD hE h0 t ht f hf
  exact ⟨P, prob_of hf ((dynkin_one hE t ht).trans h1), hs, hf⟩

/-- processes with the same generator have the same expectations -/
theorem dynkin_congr {c c' : JumpDiff σ} (h : ∀ f g, c'.IsGen f g → c.IsGen f g) {E0 : MvPolynomial σ ℝ →ₗ[ℝ] ℝ}
    {E : ℝ → MvPolynomial σ ℝ →ₗ[ℝ] ℝ} (hE : c.Dynkin E0 E) : c'.Dynkin E0 E :=
  ⟨hE.cont, fun f g hg => hE.formula f g (h f g hg)⟩

end Ajd.Gen

end -- Law

section -- SvLaw

/-! The law of the returns of the Heston model. -/

namespace Ajd.Sv
open MvPolynomial MeasureTheory ProbabilityTheory SvcjI Gen

theorem svj_coef (mu k θ σ ρ lam mj sj : ℝ) : PolyCoef (svj mu k θ σ ρ lam mj sj) (bY k θ mu) (aY σ ρ) := by
  rw [svj_eq]
  exact jmp_coef 1 lam mj _ (hcoef mu k θ σ ρ)

theorem svj_mom (mu k θ σ ρ lam mj sj : ℝ) : Mom (svj mu k θ σ ρ lam mj sj).ν := by
  rw [svj_eq]
  exact jmp_mom _ 1 lam mj _

theorem svj2_coef (mu k θ σ ρ lam mj sj : ℝ) : PolyCoef (svj2 mu k θ σ ρ lam mj sj) (b3 k θ mu) (a3 σ ρ) := by
  rw [svj2_eq]
  exact jmp_coef 2 lam mj _ (coef3 mu k θ σ ρ)

theorem svj2_mom (mu k θ σ ρ lam mj sj : ℝ) : Mom (svj2 mu k θ σ ρ lam mj sj).ν := by
  rw [svj2_eq]
  exact jmp_mom _ 2 lam mj _

theorem sq_rho {ρ : ℝ} (hρ : 0 ≤ 1 - ρ ^ 2) : √(1 - ρ ^ 2) * √(1 - ρ ^ 2) = 1 - ρ ^ 2 := Real.mul_self_sqrt hρ

/-- the variance does not become negative -/
theorem svj_viable {mu k θ σ ρ lam mj sj : ℝ} (hk : 0 ≤ k * θ) (hρ : 0 ≤ 1 - ρ ^ 2) (hl : 0 ≤ lam) :
    Viable (svj mu k θ σ ρ lam mj sj) (orth {0}) := by
  refine viable_orth ?_ ?_ hl ?_
  · rintro x hx i rfl h0
    simp only [svj, heston, Matrix.cons_val_zero, h0, sub_zero]
    exact hk
  · intro x hx
    refine ⟨2, ![x 0, x 0], ![![σ, ρ], ![0, √(1 - ρ ^ 2)]], fun i j => ?_, fun r => ?_⟩
    · have := sq_rho hρ
      fin_cases i <;> fin_cases j <;> simp [svj, heston, Fin.sum_univ_two]
      · ring
      · ring
      · ring
      · rw [this]; ring
    · have h := hx 0 rfl
      rcases h.eq_or_lt with h0 | h0
      · left; fin_cases r <;> simp [← h0]
      · right
        refine ⟨by fin_cases r <;> simpa using h, ?_⟩
        rintro i rfl hi
        exact absurd hi h0.ne'
  · simp only [svj]
    refine (ae_map_iff (by fun_prop) (orth_closed _).measurableSet).2 (Filter.Eventually.of_forall fun y => ?_)
    rintro i rfl
    simp

theorem svj2_viable {mu k θ σ ρ lam mj sj : ℝ} (hk : 0 ≤ k * θ) (hρ : 0 ≤ 1 - ρ ^ 2) (hl : 0 ≤ lam) :
    Viable (svj2 mu k θ σ ρ lam mj sj) (orth {0}) := by
  refine viable_orth ?_ ?_ hl ?_
  · rintro x hx i rfl h0
    simp only [svj2, heston2, Matrix.cons_val_zero, h0, sub_zero]
    exact hk
  · intro x hx
    refine ⟨2, ![x 0, x 0], ![![σ, 0, ρ], ![0, 0, √(1 - ρ ^ 2)]], fun i j => ?_, fun r => ?_⟩
    · have := sq_rho hρ
      fin_cases i <;> fin_cases j <;> simp [svj2, heston2, Fin.sum_univ_two]
      · ring
      · ring
      · ring
      · rw [this]; ring
    · have h := hx 0 rfl
      rcases h.eq_or_lt with h0 | h0
      · left; fin_cases r <;> simp [← h0]
      · right
        refine ⟨by fin_cases r <;> simpa using h, ?_⟩
        rintro i rfl hi
        exact absurd hi h0.ne'
  · simp only [svj2]
    refine (ae_map_iff (by fun_prop) (orth_closed _).measurableSet).2 (Filter.Eventually.of_forall fun y => ?_)
    rintro i rfl
    simp

/-- the second return alone -/
theorem svj2_image (mu k θ σ ρ lam mj sj : ℝ) : Image ![X 0, X 2] ![![1, 0, 0], ![0, 0, 1]] (b3 k θ mu) (a3 σ ρ)
    (svj2 mu k θ σ ρ lam mj sj).ν (bY k θ mu) (aY σ ρ) (svj mu k θ σ ρ lam mj sj).ν where
  lin k i := by fin_cases k <;> fin_cases i <;> simp [pderiv_X, Pi.single_apply]
  shift k x y := by fin_cases k <;> simp [Fin.sum_univ_three]
  drift k := by fin_cases k <;> simp [b3, bY, Fin.sum_univ_three, algebraMap_eq]
  diff k l := by fin_cases k <;> fin_cases l <;> simp [a3, aY, Fin.sum_univ_three, algebraMap_eq]
  jump := by
    simp only [svj2, svj]
    rw [Measure.map_map (by fun_prop) (by fun_prop)]
    congr 1
    funext y i
    fin_cases i <;> simp [Fin.sum_univ_three]

/-- the law of the variance is stationary, with jumps in the price -/
theorem svj_stationary {mu k θ σ ρ lam mj sj : ℝ} (hk : k ≠ 0) (hl : 0 ≤ lam) {E0 : MvPolynomial (Fin 2) ℝ →ₗ[ℝ] ℝ}
    {E : ℝ → MvPolynomial (Fin 2) ℝ →ₗ[ℝ] ℝ} (hE : (svj mu k θ σ ρ lam mj sj).Dynkin E0 E)
    (h0 : ∀ n, E0 (X 0 ^ n) = Ito.vMoment k θ σ n) (n : ℕ) (t : ℝ) (ht : 0 ≤ t) :
    E t (X 0 ^ n) = Ito.vMoment k θ σ n := by
  obtain ⟨Q, hQ, -⟩ := heston_semi mu k θ σ ρ
  let p : Fsv1j.Par := ⟨⟨k, θ, σ, ρ, mu, t⟩, lam, mj, sj⟩
  have hpr : IsProbabilityMeasure (Fsv1j.jumpLaw p) := by unfold Fsv1j.jumpLaw; infer_instance
  have := svj_repr p hl ht (hQ E0) hE (X 0 ^ n)
  refine this.trans ?_
  simp only [map_pow, aeval_X, Matrix.cons_val, integral_const, probReal_univ, one_smul]
  exact stationary hk (hQ E0) h0 n t ht

theorem gamma_nonneg (a r : ℝ) : ∀ᵐ x ∂(gammaMeasure a r), 0 ≤ x := by
  rw [gammaMeasure, ae_withDensity_iff (by unfold gammaPDF; exact (measurable_gammaPDFReal a r).ennreal_ofReal)]
  refine Filter.Eventually.of_forall fun x hx => ?_
  by_contra h
  exact hx (gammaPDF_of_neg (not_le.1 h))

/-- a polynomial of the variance and the return under the start -/
theorem start_pos {p : Fsv1.Par} (hk : 0 < p.k) (hθ : 0 < p.θ) (hσ : 0 < p.σ) {E0 : MvPolynomial (Fin 2) ℝ →ₗ[ℝ] ℝ}
    (h0 : Start E0 (Ito.vMoment p.k p.θ p.σ)) (f : MvPolynomial (Fin 2) ℝ) (hf : ∀ x ∈ orth {0}, 0 ≤ eval x f) :
    0 ≤ E0 f := by
  rw [h0.svcj.eq, Lp_int p _ (Fsv1.statLaw_gamma p hk hθ hσ)]
  refine integral_nonneg_of_ae ?_
  filter_upwards [gamma_nonneg _ _] with x hx
  rw [eval_atV, aeval_eq_eval]
  exact hf ![x, 0] (by rintro i rfl; simpa using hx)

theorem point_pos {x : ℝ} (hx : 0 ≤ x) (f : MvPolynomial (Fin 2) ℝ) (hf : ∀ x ∈ orth {0}, 0 ≤ eval x f) :
    0 ≤ (aeval ![x, 0]).toLinearMap f := by
  rw [AlgHom.toLinearMap_apply, aeval_eq_eval]
  exact hf ![x, 0] (by rintro i rfl; simpa using hx)

theorem Second.all {E : MvPolynomial (Fin 2) ℝ →ₗ[ℝ] ℝ} {E0 : MvPolynomial (Fin 3) ℝ →ₗ[ℝ] ℝ} (h : Second E E0)
    (f : MvPolynomial (Fin 3) ℝ) : E0 f = E (aeval ![X 0, X 1, 0] f) := by
  induction f using MvPolynomial.induction_on' with
  | add p q hp hq => rw [map_add, hp, hq, map_add, map_add]
  | monomial s c =>
    have hm : monomial s c = C c * (X 0 ^ s 0 * X 1 ^ s 1 * X 2 ^ s 2 : MvPolynomial (Fin 3) ℝ) := by
      rw [monomial_eq, Finsupp.prod_fintype _ _ (by simp), Fin.prod_univ_three]
    rw [hm]
    simp only [map_mul, map_pow, algHom_C, MvPolynomial.algebraMap_eq, aeval_X, Matrix.cons_val]
    cases s 2 with
    | zero =>
      have := h.2 (C c * (X 0 ^ s 0 * X 1 ^ s 1))
      simp only [map_mul, map_pow, rename_C, rename_X, Matrix.cons_val] at this
      simpa using this
    | succ n =>
      have := h.1 (C c * (X 0 ^ s 0 * X 1 ^ s 1 * X 2 ^ n))
      rw [zero_pow (n := n + 1) (by omega), mul_zero, mul_zero, map_zero E, ← this]
      refine congrArg E0 ?_
      ring

theorem second_pos {E : MvPolynomial (Fin 2) ℝ →ₗ[ℝ] ℝ} {E0 : MvPolynomial (Fin 3) ℝ →ₗ[ℝ] ℝ} (h : Second E E0)
    (hp : ∀ f, (∀ x ∈ orth {0}, 0 ≤ eval x f) → 0 ≤ E f) (f : MvPolynomial (Fin 3) ℝ)
    (hf : ∀ x ∈ orth {0}, 0 ≤ eval x f) : 0 ≤ E0 f := by
  rw [h.all]
  refine hp _ fun x hx => ?_
  rw [eval_aeval]
  refine hf _ ?_
  rintro i rfl
  simpa using hx 0 rfl

/-- the first return does not change in the second interval -/
theorem svj2_first {mu k θ σ ρ lam mj sj : ℝ} {E : MvPolynomial (Fin 2) ℝ →ₗ[ℝ] ℝ}
    {E0' : MvPolynomial (Fin 3) ℝ →ₗ[ℝ] ℝ} (h : Second E E0') {E' : ℝ → MvPolynomial (Fin 3) ℝ →ₗ[ℝ] ℝ}
    (hE : (svj2 mu k θ σ ρ lam mj sj).Dynkin E0' E') (c : ℝ) (l : ℕ) (t : ℝ) (ht : 0 ≤ t) :
    E' t ((X 1 - C c) ^ l) = E ((X 1 - C c) ^ l) := by
  have hg : (svj2 mu k θ σ ρ lam mj sj).IsGen ((X 1 - C c) ^ l) 0 := by
    intro x
    have hj : ∫ y, (eval (x + y) ((X 1 - C c) ^ l) - eval x ((X 1 - C c) ^ l)) ∂(svj2 mu k θ σ ρ lam mj sj).ν = 0 := by
      refine integral_eq_zero_of_ae ?_
      simp only [svj2]
      refine (ae_map_iff (by fun_prop) ?_).2 (Filter.Eventually.of_forall fun y => ?_)
      · exact measurableSet_eq_fun (by simp; fun_prop) measurable_const
      · simp
        exact sub_self _
    rw [hj]
    simp [svj2, heston2, Fin.sum_univ_three, Derivation.leibniz_pow, pderiv_X, Pi.single_apply]
  have := hE.formula _ _ hg t ht
  simp only [map_zero, intervalIntegral.integral_zero, add_zero] at this
  rw [this, h.all]
  simp [algebraMap_eq]

/-- the second return, with the variance -/
theorem svj2_second {mu k θ σ ρ lam mj sj : ℝ} (hk : k ≠ 0) (hl : 0 ≤ lam) {E0 : MvPolynomial (Fin 2) ℝ →ₗ[ℝ] ℝ}
    (h0 : Start E0 (Ito.vMoment k θ σ)) {E : ℝ → MvPolynomial (Fin 2) ℝ →ₗ[ℝ] ℝ}
    (hE : (svj mu k θ σ ρ lam mj sj).Dynkin E0 E) {t : ℝ} (ht : 0 ≤ t) {E0' : MvPolynomial (Fin 3) ℝ →ₗ[ℝ] ℝ}
    (h : Second (E t) E0') {E' : ℝ → MvPolynomial (Fin 3) ℝ →ₗ[ℝ] ℝ} (hE' : (svj2 mu k θ σ ρ lam mj sj).Dynkin E0' E') :
    Start (E0' ∘ₗ (aeval ![X 0, X 2]).toLinearMap) (Ito.vMoment k θ σ) ∧
    (svj mu k θ σ ρ lam mj sj).Dynkin (E0' ∘ₗ (aeval ![X 0, X 2]).toLinearMap) fun t => E' t ∘ₗ (aeval ![X 0, X 2]).toLinearMap := by
  refine ⟨⟨fun f => ?_, fun n => ?_⟩, dynkin_image (svj2_image mu k θ σ ρ lam mj sj) (svj2_coef _ _ _ _ _ _ _ _)
    (svj_coef _ _ _ _ _ _ _ _) rfl (svj2_mom _ _ _ _ _ _ _ _) (svj_mom _ _ _ _ _ _ _ _) hE'⟩
  · simp [h.all]
  · simp only [LinearMap.comp_apply, AlgHom.toLinearMap_apply, map_pow, aeval_X, Matrix.cons_val, h.all]
    exact svj_stationary hk hl hE h0.v n t ht

theorem law_fst {τ : Type} [Fintype τ] {P : Measure (τ → ℝ)} [IsProbabilityMeasure P] {E : MvPolynomial τ ℝ →ₗ[ℝ] ℝ}
    (hP : ∀ f, Integrable (fun x => eval x f) P ∧ E f = ∫ x, eval x f ∂P) (i : τ) {m cm : ℕ → Except PyErr ℝ}
    (hm : ∀ l, m l = .ok (E (X i ^ l))) (hc : ∀ l, cm l = .ok (E ((X i - C (E (X i))) ^ l))) :
    IsLaw (P.map fun x => x i) m cm := by
  have hi : AEMeasurable (fun x : τ → ℝ => x i) P := (measurable_pi_apply i).aemeasurable
  have e1 : ∫ z, z ∂(P.map fun x => x i) = E (X i) := by
    rw [integral_map hi (by fun_prop), (hP _).2]
    simp
  refine ⟨Measure.isProbabilityMeasure_map hi, fun a => ?_, fun l => ?_, fun l => ?_⟩
  · rw [integrable_map_measure (by fun_prop) hi]
    have := (hP (X i ^ a)).1
    simpa [Function.comp_def] using this
  · rw [integral_map hi (by fun_prop), hm, (hP _).2]
    simp
  · rw [e1, integral_map hi (by fun_prop), hc, (hP ((X i - C (E (X i))) ^ l)).2]
    simp

theorem pair_law {P : Measure (Fin 3 → ℝ)} [IsProbabilityMeasure P] {E : MvPolynomial (Fin 3) ℝ →ₗ[ℝ] ℝ}
    (hP : ∀ f, Integrable (fun x => eval x f) P ∧ E f = ∫ x, eval x f ∂P) {m cm : ℕ → Except PyErr ℝ}
    {cov : ℕ → ℕ → Except PyErr ℝ}
    (hm : ∀ i : Fin 3, i ≠ 0 → ∀ l, m l = .ok (E (X i ^ l)))
    (hc : ∀ i : Fin 3, i ≠ 0 → ∀ l, cm l = .ok (E ((X i - C (E (X i))) ^ l)))
    (hv : ∀ l1 l2, cov l1 l2 = .ok (E (X 1 ^ l1 * X 2 ^ l2) - E (X 1 ^ l1) * E (X 2 ^ l2))) :
    IsPairLaw (P.map fun x => (x 1, x 2)) m cm cov := by
  refine ⟨Measure.isProbabilityMeasure_map (by fun_prop), fun a b => ?_, ?_, ?_, fun l1 l2 => ?_⟩
  · rw [integrable_map_measure (by fun_prop) (by fun_prop)]
    have := (hP (X 1 ^ a * X 2 ^ b)).1
    simpa [Function.comp_def] using this
  · rw [Measure.map_map (by fun_prop) (by fun_prop)]
    exact law_fst hP 1 (hm 1 (by decide)) (hc 1 (by decide))
  · rw [Measure.map_map (by fun_prop) (by fun_prop)]
    exact law_fst hP 2 (hm 2 (by decide)) (hc 2 (by decide))
  · rw [integral_map (by fun_prop) (by fun_prop), integral_map (by fun_prop) (by fun_prop),
      integral_map (by fun_prop) (by fun_prop), hv, (hP _).2, (hP _).2, (hP _).2]
    simp

end Ajd.Sv

end -- SvLaw
