import Verif.Lemmas.Cpp
import Verif.Lemmas.CppLaw
import Mathlib.MeasureTheory.Group.IntegralConvolution
import Verif.Spec.Srjd
import Verif.Lemmas.ItoSol
import Mathlib.Analysis.SpecialFunctions.Integrals.Basic

section -- CppGen

/-! Compound Poisson laws with arbitrary jumps that have exponential moments, and `dmgf_cpp` for them. -/

namespace Ajd.Cpp
open MeasureTheory ProbabilityTheory Real Poly Topology
open scoped NNReal

/-! ### the law -/

section law
variable (Λ : ℝ≥0) (ν : Measure ℝ) [hν : IsProbabilityMeasure ν]

instance sumLaw_prob (N : ℕ) : IsProbabilityMeasure (sumLaw ν N) := by
  induction N with
  | zero => rw [sumLaw]; infer_instance
  | succ N ih => rw [sumLaw]; infer_instance

noncomputable def sumK : Kernel ℕ ℝ := Kernel.ofFunOfCountable (sumLaw ν)

theorem sumK_apply (N : ℕ) : sumK ν N = sumLaw ν N := rfl

instance : IsMarkovKernel (sumK ν) := ⟨fun N => by rw [sumK_apply]; infer_instance⟩

theorem cppLaw_bind : cppLaw Λ ν = (poissonMeasure Λ).bind (sumK ν) := rfl

instance cppLaw_prob : IsProbabilityMeasure (cppLaw Λ ν) := by rw [cppLaw_bind]; infer_instance

variable {t : ℝ} (ht : Integrable (fun x => exp (t * x)) ν)
include ht

theorem exp_sum (N : ℕ) : Integrable (fun x => exp (t * x)) (sumLaw ν N) ∧
    ∫ x, exp (t * x) ∂(sumLaw ν N) = mgf (fun x => x) ν t ^ N := by
  induction N with
  | zero => exact ⟨by rw [sumLaw]; exact integrable_dirac (by simp), by simp [sumLaw]⟩
  | succ N ih =>
    have hp := ih.1.mul_prod ht
    have e : (fun x : ℝ × ℝ => exp (t * (x.1 + x.2))) = fun x => exp (t * x.1) * exp (t * x.2) := by
      funext x; rw [mul_add, exp_add]
    rw [sumLaw, Measure.conv]
    constructor
    · rw [integrable_map_measure (by fun_prop) (by fun_prop)]
      exact (show (fun x => exp (t * x)) ∘ (fun x : ℝ × ℝ => x.1 + x.2) = _ from e) ▸ hp
    · rw [integral_map (by fun_prop) (by fun_prop), e,
        integral_prod_mul (fun x : ℝ => exp (t * x)) fun x => exp (t * x), ih.2, pow_succ]
      rfl

theorem exp_cpp : Integrable (fun x => exp (t * x)) (cppLaw Λ ν) := by
  rw [cppLaw_bind, Measure.integrable_comp_iff (by fun_prop)]
  refine ⟨Filter.Eventually.of_forall fun N => (exp_sum ν ht N).1, ?_⟩
  simp only [Real.norm_eq_abs, abs_exp, sumK_apply, (exp_sum ν ht _).2]
  rw [integrable_poissonMeasure_iff]
  have h0 : 0 ≤ mgf (fun x => x) ν t := mgf_nonneg
  simp only [norm_pow, Real.norm_eq_abs, abs_of_nonneg h0]
  have := (Real.summable_pow_div_factorial ((Λ : ℝ) * mgf (fun x => x) ν t)).mul_left (exp (-Λ))
  refine this.congr fun n => ?_
  rw [mul_pow]; ring

theorem mgf_cppLaw : mgf (fun x => x) (cppLaw Λ ν) t = exp (Λ * (mgf (fun x => x) ν t - 1)) := by
  have hi := exp_cpp Λ ν ht
  rw [cppLaw_bind, Measure.comp_eq_comp_const_apply] at hi
  rw [mgf, cppLaw_bind, Measure.comp_eq_comp_const_apply, Kernel.integral_comp hi]
  simp only [sumK_apply, (exp_sum ν ht _).2, Kernel.const_apply]
  rw [integral_poissonMeasure]
  have h := (NormedSpace.expSeries_div_hasSum_exp
    ((Λ : ℝ) * mgf (fun x => x) ν t)).mul_left (exp (-Λ))
  rw [← Real.exp_eq_exp_ℝ, ← exp_add] at h
  have e : (fun n : ℕ => (exp (-(Λ : ℝ)) * Λ ^ n / n.factorial) • mgf (fun x => x) ν t ^ n) =
      fun n : ℕ => exp (-(Λ : ℝ)) * ((Λ * mgf (fun x => x) ν t) ^ n / n.factorial) := by
    funext n; rw [smul_eq_mul, mul_pow]; ring
  rw [e, h.tsum_eq]
  congr 1; ring

end law

theorem expSet_cpp (Λ : ℝ≥0) (ν : Measure ℝ) [IsProbabilityMeasure ν] :
    interior (integrableExpSet (fun x => x) ν) ⊆
      interior (integrableExpSet (fun x => x) (cppLaw Λ ν)) :=
  interior_mono fun _ ht => exp_cpp Λ ν ht

/-! ### the code -/

/-- the power of `lambda` is the number of factors -/
def Bal (k : Key) : Prop := k.1 = (k.2.map Prod.snd).sum

theorem d1TimesKey_bal (k k' : Key) (h : Bal k) (e : d1TimesKey k = .ok k') : Bal k' := by
  obtain ⟨i, ps⟩ := k
  match ps, e, h with
  | [], e, _ => exact absurd e (by simp [d1TimesKey])
  | (n1, m1) :: t, e, h =>
    simp only [Bal, List.map_cons, List.sum_cons] at h
    simp only [d1TimesKey] at e
    split at e <;> cases e <;> simp only [Bal, List.map_cons, List.sum_cons] <;> omega

theorem tailKey_sum (n : ℤ) (t : List (ℤ × ℤ)) :
    ((tailKey n t).map Prod.snd).sum = (t.map Prod.snd).sum + 1 := by
  match t with
  | [] => simp [tailKey]
  | (nn, mn) :: t' => rw [tailKey]; split <;> simp <;> ring

theorem dterm_bal (k : Key) (c : ℚ) (h : Bal k) : (dterm k c).Keys Bal := by
  apply ofTerms_Keys
  intro x hx
  obtain ⟨j, hj, rfl⟩ := List.mem_map.1 hx
  rw [List.mem_range] at hj
  have hsplit : k.2 = k.2.take j ++ k.2[j] :: k.2.drop (j + 1) := by
    rw [List.getElem_cons_drop, List.take_append_drop]
  have hg : k.2.getD j (0, 0) = k.2[j] := by
    simp [List.getD_eq_getElem?_getD, List.getElem?_eq_getElem hj]
  have hlen : (k.2.take j).length = j := by simp; omega
  have h1 := dtermKey_eq (k.2.take j) (k.2.drop (j + 1)) k.2[j].1 k.2[j].2
  rw [Prod.mk.eta, ← hsplit, hlen] at h1
  simp only [hg, Bal] at h ⊢
  rw [h1, h]
  conv_lhs => rw [hsplit]
  simp only [List.map_append, List.sum_append, List.map_cons, List.sum_cons, tailKey_sum]
  split
  · simp; omega
  · simp; ring

theorem mergeTerms_bal (l : List (Key × ℚ)) (hl : ∀ e ∈ l, Bal e.1) (acc r : Poly Key)
    (hk : acc.keyfor = []) (ha : acc.Keys Bal) (e : mergeTerms acc l = .ok r) : r.Keys Bal := by
  induction l generalizing acc with
  | nil => cases e; exact ha
  | cons a t ih =>
    obtain ⟨r1, e1, k1, _, _, c1, _⟩ := merge_spec acc (dterm a.1 a.2) (by simp [dterm, hk])
    rw [mergeTerms, e1, ok_bind] at e
    exact ih (fun e he => hl e (by simp [he])) r1 (k1.trans hk)
      (c1 _ ha (dterm_bal _ _ (hl a (by simp)))) e

theorem dmgfCpp_bal (p r : Poly Key) (h : p.Keys Bal) (e : dmgfCpp p = .ok r) : r.Keys Bal := by
  rw [dmgfCpp] at e
  cases h1 : p.items.mapM (m := Except PyErr) fun e : Key × ℚ => do
      let k ← d1TimesKey e.1; pure (k, e.2) with
  | error er => rw [h1] at e; cases e
  | ok ts =>
    rw [h1, ok_bind] at e
    refine mergeTerms_bal _ (fun e he => h e he) _ r (by simp) (ofTerms_Keys _ _ _ ?_) e
    intro t ht
    obtain ⟨a, ha, hb⟩ := mapM_mem _ _ _ h1 t ht
    cases h2 : d1TimesKey a.1 with
    | error er => rw [h2] at hb; cases hb
    | ok k => rw [h2] at hb; cases hb; exact d1TimesKey_bal _ _ (h a ha) h2

theorem pv_hasDerivAt' (D : ℕ → ℝ → ℝ) (s : ℝ) (hD : ∀ n, HasDerivAt (D n) (D (n + 1) s) s)
    (ps : List (ℤ × ℤ)) :
    HasDerivAt (fun s => pv (fun n => D n s) ps) (pd (fun n => D n s) ps) s := by
  induction ps with
  | nil => simpa [pd] using hasDerivAt_const s (1 : ℝ)
  | cons p t ih =>
    obtain ⟨n, m⟩ := p
    simp only [pv_cons, pd]
    exact ((hD n.toNat).pow m.toNat).mul ih

/-- The `n`-th element of the list `M` represents the derivative of order `n + 1` of every `F` with
`F' = Λ D_1 F`, on an open set. -/
theorem cppDeriv_gen (n : ℕ) : ∃ r, cppDeriv n = .ok r ∧ r.Keys CKey ∧ r.Keys Bal ∧
    ∀ (Λ : ℝ) (D : ℕ → ℝ → ℝ) (F : ℝ → ℝ) (U : Set ℝ), IsOpen U →
      (∀ s ∈ U, ∀ n, HasDerivAt (D n) (D (n + 1) s) s) →
      (∀ s ∈ U, HasDerivAt F (F s * (Λ * D 1 s)) s) →
      ∀ s ∈ U, iteratedDeriv (n + 1) F s = F s * ev (cI Λ fun j => D j s) r := by
  induction n with
  | zero =>
    refine ⟨_, rfl, ?_, ?_, ?_⟩
    · intro x hx
      simp only [List.mem_singleton] at hx
      subst hx
      refine ⟨by norm_num, by simp, ?_⟩
      intro p hp
      simp only [List.mem_singleton] at hp
      subst hp; norm_num
    · intro x hx
      simp only [List.mem_singleton] at hx
      subst hx
      simp [Bal]
    · intro Λ D F U hU hD hF s hs
      rw [zero_add, iteratedDeriv_one, (hF s hs).deriv]
      simp [ev, cI]
  | succ n ih =>
    obtain ⟨p, e1, k1, b1, v1⟩ := ih
    have hs : ∀ (Λ : ℝ) (D : ℕ → ℝ), ∃ r, dmgfCpp p = .ok r ∧ r.keyfor = [] ∧ r.Keys CKey ∧
      ev (cI Λ D) r = Λ * D 1 * ev (cI Λ D) p +
        ev (fun k : Key => Λ ^ k.1.toNat * pd D k.2) p :=
      fun Λ D => dmgfCpp_spec Λ D p k1
    obtain ⟨r, e2, _, c2, _⟩ := hs 0 0
    refine ⟨r, by rw [cppDeriv, e1, ok_bind, e2], c2, dmgfCpp_bal p r b1 e2, ?_⟩
    intro Λ D F U hU hD hF s hsU
    obtain ⟨r', e3, _, _, v3⟩ := hs Λ fun j => D j s
    rw [e2] at e3
    cases e3
    have heq : iteratedDeriv (n + 1) F =ᶠ[𝓝 s] fun s => F s * ev (cI Λ fun j => D j s) p := by
      filter_upwards [hU.mem_nhds hsU] with x hx using v1 Λ D F U hU hD hF x hx
    have h2 := (hF s hsU).mul
      (hasDerivAt_ev (fun s => cI Λ fun j => D j s)
        (fun k => Λ ^ k.1.toNat * pd (fun j => D j s) k.2) p s fun e _ =>
        (pv_hasDerivAt' D s (hD s hsU) e.1.2).const_mul _)
    rw [iteratedDeriv_succ, heq.deriv_eq]
    rw [show deriv (fun s => F s * ev (cI Λ fun j => D j s) p) s = _ from h2.deriv, v3]
    ring

/-- `M[n+1]` of `mcpp` is the moment of the compound Poisson law, in terms of the moments of the jumps,
for all jumps with exponential moments. -/
theorem cppDeriv_moment (n : ℕ) : ∃ r, cppDeriv n = .ok r ∧ r.Keys CKey ∧ r.Keys Bal ∧
    ∀ (Λ : ℝ≥0) (ν : Measure ℝ) [IsProbabilityMeasure ν],
      0 ∈ interior (integrableExpSet (fun x => x) ν) →
      ∫ x, x ^ (n + 1) ∂(cppLaw Λ ν) = ev (cI Λ fun j => ∫ x, x ^ j ∂ν) r := by
  obtain ⟨r, e, c, b, v⟩ := cppDeriv_gen n
  refine ⟨r, e, c, b, fun Λ ν _ h0 => ?_⟩
  have hi : ∀ s ∈ interior (integrableExpSet (fun x : ℝ => x) ν),
      Integrable (fun x => exp (s * x)) ν := fun s hs => by
    have h : s ∈ integrableExpSet (fun x : ℝ => x) ν := interior_subset hs
    exact h
  have hU : IsOpen (interior (integrableExpSet (fun x : ℝ => x) ν)) := isOpen_interior
  have key := v Λ (fun j => iteratedDeriv j (mgf (fun x => x) ν)) (mgf (fun x => x) (cppLaw Λ ν)) _ hU
    (fun s hs n => by
      have := (differentiableAt_iteratedDeriv_mgf hs n).hasDerivAt
      rwa [← iteratedDeriv_succ] at this)
    (fun s hs => by
      have h1 : HasDerivAt (fun t => exp (Λ * (mgf (fun x => x) ν t - 1)))
          (exp (Λ * (mgf (fun x => x) ν s - 1)) * (Λ * iteratedDeriv 1 (mgf (fun x => x) ν) s)) s := by
        rw [iteratedDeriv_one]
        exact ((((differentiableAt_mgf hs).hasDerivAt).sub_const 1).const_mul (Λ : ℝ)).exp
      rw [mgf_cppLaw Λ ν (hi s hs)]
      refine h1.congr_of_eventuallyEq ?_
      filter_upwards [hU.mem_nhds hs] with x hx using mgf_cppLaw Λ ν (hi x hx)) 0 h0
  have hm := iteratedDeriv_mgf_zero (expSet_cpp Λ ν h0) (n + 1)
  rw [show (∫ x, x ^ (n + 1) ∂(cppLaw Λ ν)) = iteratedDeriv (n + 1) (mgf (fun x => x) (cppLaw Λ ν)) 0
    from hm.symm, key, mgf_zero, one_mul]
  congr 1
  funext k
  congr 1
  funext j
  exact iteratedDeriv_mgf_zero h0 j

end Ajd.Cpp

end -- CppGen

section -- SrjdLaw

/-! The law of `IEZ_{s,t}`. -/

namespace Ajd.Srjd
open MeasureTheory ProbabilityTheory Real
open scoped NNReal ENNReal

theorem exp_expMeasure {r x : ℝ} (hr : 0 < r) (hx : x < r) :
    Integrable (fun y => exp (x * y)) (expMeasure r) := by
  have hd : ∀ᵐ y ∂(volume : Measure ℝ), gammaPDF 1 r y < ∞ :=
    Filter.Eventually.of_forall fun y => by simp [gammaPDF]
  have hm : Measurable (gammaPDF 1 r) := (measurable_gammaPDFReal 1 r).ennreal_ofReal
  rw [expMeasure, gammaMeasure, integrable_withDensity_iff_integrable_smul' hm hd]
  have e : (fun y => (gammaPDF 1 r y).toReal • exp (x * y)) =
      Set.indicator (Set.Ici 0) fun y => r * exp (-(r - x) * y) := by
    funext y
    have h0 : gammaPDF 1 r y = ENNReal.ofReal (if 0 ≤ y then r * exp (-(r * y)) else 0) :=
      exponentialPDF_eq r y
    rw [h0]
    by_cases hy : 0 ≤ y
    · rw [Set.indicator_of_mem (by exact hy), if_pos hy, ENNReal.toReal_ofReal (by positivity),
        smul_eq_mul, mul_assoc, ← exp_add]
      congr 2; ring
    · rw [Set.indicator_of_notMem (by exact hy), if_neg hy]; simp
  rw [e, integrable_indicator_iff measurableSet_Ici, integrableOn_Ici_iff_integrableOn_Ioi]
  exact (exp_neg_integrableOn_Ioi 0 (by linarith)).const_mul r

theorem exp_moment {μ : ℝ} (hμ : 0 < μ) (n : ℕ) :
    ∫ x, x ^ n ∂(expMeasure (1 / μ)) = n.factorial * μ ^ n := by
  rw [expMeasure, Ito.gamma_moment 1 (1 / μ) one_pos (by positivity)]
  induction n with
  | zero => simp
  | succ n ih =>
    rw [Finset.prod_range_succ, ih, Nat.factorial_succ]
    push_cast
    field_simp
    ring

theorem exp_nonneg_ae {r : ℝ} (hr : 0 < r) : ∀ᵐ y ∂(expMeasure r), 0 ≤ y := by
  rw [ae_iff, expMeasure, gammaMeasure]
  have : {a : ℝ | ¬0 ≤ a} = Set.Iio 0 := by ext; simp
  rw [this, withDensity_apply _ measurableSet_Iio]
  exact lintegral_gammaPDF_of_nonpos le_rfl

section
variable {k μ s t : ℝ} (hμ : 0 < μ) (hst : s < t)

theorem unif_prob (hst : s < t) : IsProbabilityMeasure (cond volume (Set.Ioc s t)) :=
  cond_isProbabilityMeasure_of_finite (by simp [hst]) (by simp)

include hμ hst

theorem jumpLaw_prob : IsProbabilityMeasure (jumpLaw k μ s t) := by
  have := unif_prob hst
  have := isProbabilityMeasure_expMeasure (show 0 < 1 / μ by positivity)
  exact Measure.isProbabilityMeasure_map (by fun_prop)

theorem jumpLaw_exp : 0 ∈ interior (integrableExpSet (fun x => x) (jumpLaw k μ s t)) := by
  have h1 := unif_prob hst
  have h2 := isProbabilityMeasure_expMeasure (show 0 < 1 / μ by positivity)
  set C : ℝ := exp (|k| * max |s| |t|) with hC
  have hCp : 0 < C := exp_pos _
  rw [mem_interior]
  refine ⟨Set.Ioo (-(1 / μ / C)) (1 / μ / C), ?_, isOpen_Ioo, by constructor <;> simp <;> positivity⟩
  intro x hx
  have hx' : |x| * C < 1 / μ := by
    have : |x| < 1 / μ / C := abs_lt.2 hx
    rwa [lt_div_iff₀ hCp] at this
  show Integrable (fun y => exp (x * y)) (jumpLaw k μ s t)
  rw [jumpLaw, integrable_map_measure (by fun_prop) (by fun_prop)]
  have hi : Integrable (fun z : ℝ × ℝ => exp (|x| * C * z.2))
      ((cond volume (Set.Ioc s t)).prod (expMeasure (1 / μ))) :=
    (exp_expMeasure (by positivity) hx').comp_snd _
  refine hi.mono' (by fun_prop) ?_
  have a1 : ∀ᵐ z ∂((cond volume (Set.Ioc s t)).prod (expMeasure (1 / μ))), z.1 ∈ Set.Ioc s t := by
    have : ∀ᵐ u ∂(cond volume (Set.Ioc s t)), u ∈ Set.Ioc s t := by
      rw [ProbabilityTheory.cond]
      exact Measure.ae_smul_measure (ae_restrict_mem measurableSet_Ioc) _
    exact Measure.quasiMeasurePreserving_fst.ae this
  have a2 : ∀ᵐ z ∂((cond volume (Set.Ioc s t)).prod (expMeasure (1 / μ))), 0 ≤ z.2 :=
    Measure.quasiMeasurePreserving_snd.ae (exp_nonneg_ae (by positivity))
  filter_upwards [a1, a2] with z hz1 hz2
  simp only [Function.comp, norm_eq_abs, abs_exp]
  apply exp_le_exp.2
  have hk : exp (k * z.1) ≤ C := by
    apply exp_le_exp.2
    have h3 : |z.1| ≤ max |s| |t| := abs_le_max_abs_abs hz1.1.le hz1.2
    calc k * z.1 ≤ |k * z.1| := le_abs_self _
      _ = |k| * |z.1| := abs_mul _ _
      _ ≤ _ := mul_le_mul_of_nonneg_left h3 (abs_nonneg _)
  have h4 : exp (k * z.1) * z.2 ≤ C * z.2 := mul_le_mul_of_nonneg_right hk hz2
  have h5 : 0 ≤ exp (k * z.1) * z.2 := mul_nonneg (exp_pos _).le hz2
  calc x * (exp (k * z.1) * z.2) ≤ |x| * (exp (k * z.1) * z.2) :=
        mul_le_mul_of_nonneg_right (le_abs_self x) h5
    _ ≤ |x| * (C * z.2) := mul_le_mul_of_nonneg_left h4 (abs_nonneg _)
    _ = _ := by ring

theorem jumpLaw_moment (hk : k ≠ 0) (n : ℕ) (hn : n ≠ 0) : ∫ x, x ^ n ∂(jumpLaw k μ s t) =
    ((n - 1).factorial * μ ^ n * (exp (n * k * t) - exp (n * k * s)) / k) / (t - s) := by
  have h1 := unif_prob hst
  have h2 := isProbabilityMeasure_expMeasure (show 0 < 1 / μ by positivity)
  rw [jumpLaw, integral_map (by fun_prop) (by fun_prop)]
  simp only [mul_pow]
  rw [integral_prod_mul (fun u : ℝ => exp (k * u) ^ n) fun x => x ^ n, exp_moment hμ, ProbabilityTheory.cond,
    integral_smul_measure, ← intervalIntegral.integral_of_le hst.le]
  have hts : 0 < t - s := by linarith
  have hn' : (n : ℝ) ≠ 0 := by exact_mod_cast hn
  have e : ∀ u : ℝ, exp (k * u) ^ n = exp (n * k * u) := fun u => by rw [← exp_nat_mul]; congr 1; ring
  simp only [e]
  rw [intervalIntegral.integral_comp_mul_left (fun x => exp x) (mul_ne_zero hn' hk), integral_exp, Real.volume_Ioc,
    ENNReal.toReal_inv, ENNReal.toReal_ofReal hts.le]
  have hf : (n.factorial : ℝ) = n * (n - 1).factorial := by
    rw [← Nat.mul_factorial_pred hn]; push_cast; ring
  rw [hf, smul_eq_mul, smul_eq_mul]
  field_simp

end

theorem cppLaw_zero (ν : Measure ℝ) : Cpp.cppLaw 0 ν = Measure.dirac 0 := by
  have h : poissonMeasure 0 = Measure.dirac 0 := by
    refine Measure.ext_of_singleton fun n => ?_
    rw [poissonMeasure_singleton, Measure.dirac_apply' _ (by measurability)]
    by_cases hn : n = 0
    · subst hn; simp
    · rw [Set.indicator_of_notMem (by simpa using fun h => hn h.symm)]; simp [hn]
  rw [Cpp.cppLaw, h, Measure.dirac_bind (by measurability)]
  rfl

theorem iezLaw_diag (k lam μ t : ℝ) : iezLaw k lam μ t t = Measure.dirac 0 := by
  rw [iezLaw, sub_self, mul_zero, Real.toNNReal_zero, cppLaw_zero]

end Ajd.Srjd

end -- SrjdLaw
