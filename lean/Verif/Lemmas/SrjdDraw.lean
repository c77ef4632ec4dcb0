import Verif.Lemmas.CirFlow
import Verif.Spec.Euler
import Mathlib.Probability.Independence.Integration
import Mathlib.Probability.Independence.InfinitePi
import Mathlib.Probability.StrongLaw

/-! The law of the samples of the SRJD variance. -/

namespace Ajd.SrjdJ
open MvPolynomial MeasureTheory ProbabilityTheory Euler.Spec

variable {Ω S : Type} [MeasurableSpace Ω] [MeasurableSpace S] {P : Measure Ω} [IsProbabilityMeasure P] {U : ℕ → ℕ → Ω → S}
  {F : ℝ → ℝ → S → ℝ}

theorem cir_meas {A : Type} [MeasurableSpace A] (hF : ∀ d, Measurable fun z : ℝ × S => F d z.1 z.2) (k θ σ τ : ℝ) {V : A → ℝ}
    (hV : Measurable V) {u : A → S} (hu : Measurable u) : Measurable fun ω => cir k θ σ (V ω) τ fun d l => F d l (u ω) := by
  unfold cir
  exact ((hF _).comp (((hV.mul_const _).div_const _).prodMk hu)).const_mul _

theorem srjd_meas {A : Type} [MeasurableSpace A] (hF : ∀ d, Measurable fun z : ℝ × S => F d z.1 z.2) (k θ σ T : ℝ)
    {u : ℕ → A → S} (hu : ∀ j, Measurable (u j)) (l : List (ℝ × ℝ)) (j : ℕ) (a : ℝ) {V : A → ℝ} (hV : Measurable V) :
    Measurable fun ω => srjd k θ σ T (fun j d l => F d l (u j ω)) l j a (V ω) := by
  induction l generalizing j a V with
  | nil =>
    simp only [srjd]
    split_ifs
    · exact cir_meas hF k θ σ (T - a) hV (hu j)
    · exact hV
  | cons q l ih =>
    obtain ⟨τ, J⟩ := q
    simp only [srjd]
    exact ih (j + 1) τ ((cir_meas hF k θ σ (τ - a) hV (hu j)).add_const J)

omit [IsProbabilityMeasure P] in
theorem draw_law (h : Ncx2Draws P U F) (i j : ℕ) (d l : ℝ) (hd : 0 < d) (hl : 0 ≤ l) :
    (P.map (U i j)).map (fun s => F d l s) = ncx2 d l := by
  have hm : Measurable fun s => F d l s := (h.measF d).comp (measurable_const.prodMk measurable_id)
  rw [(h.ident i j).map_eq, Measure.map_map hm (h.meas 0 0)]
  exact h.law d l hd hl

/-- the moments of one step from a known variance -/
theorem cir_step (h : Ncx2Draws P U F) (i j : ℕ) {k θ σ : ℝ} (hk : 0 < k) (hθ : 0 < θ) (hσ : 0 < σ) {v τ : ℝ} (hv : 0 ≤ v)
    (hτ : 0 < τ) (n : ℕ) :
    Integrable (fun s => cir k θ σ v τ (fun d l => F d l s) ^ n) (P.map (U i j)) ∧
      ∫ s, cir k θ σ v τ (fun d l => F d l s) ^ n ∂(P.map (U i j)) = eval (fun _ => v) (mo k σ n (2 * θ * k / σ ^ 2) τ) := by
  have he : Real.exp (-k * τ) < 1 := by
    rw [Real.exp_lt_one_iff]
    nlinarith
  have hc : 0 < σ ^ 2 * (1 - Real.exp (-k * τ)) / (4 * k) := by
    have : 0 < 1 - Real.exp (-k * τ) := by linarith
    positivity
  have hd : 0 < 4 * θ * k / σ ^ 2 := by positivity
  have hl : 0 ≤ v * Real.exp (-k * τ) / (σ ^ 2 * (1 - Real.exp (-k * τ)) / (4 * k)) := by positivity
  have hlaw := draw_law h i j _ _ hd hl
  have hm : Measurable fun s => F (4 * θ * k / σ ^ 2) (v * Real.exp (-k * τ) / (σ ^ 2 * (1 - Real.exp (-k * τ)) / (4 * k))) s :=
    (h.measF _).comp (measurable_const.prodMk measurable_id)
  have hi := ncx2_integrable _ _ hd hl n
  have hv2 := ncx2_moment _ _ hd hl n
  rw [← hlaw] at hi hv2
  rw [integrable_map_measure (g := fun x : ℝ => x ^ n) (by fun_prop) hm.aemeasurable] at hi
  rw [integral_map hm.aemeasurable (by fun_prop)] at hv2
  constructor
  · refine (hi.const_mul ((σ ^ 2 * (1 - Real.exp (-k * τ)) / (4 * k)) ^ n)).congr (Filter.Eventually.of_forall fun s => ?_)
    simp [cir, mul_pow]
  · simp only [cir, mul_pow]
    rw [integral_const_mul, hv2, cirM_smul, mo, map_cirM]
    simp only [eval_C, map_mul, eval_X]
    congr 1
    · ring
    · ring
    · have hc' := hc.ne'
      generalize σ ^ 2 * (1 - Real.exp (-k * τ)) / (4 * k) = c at hc'
      field_simp

/-- what is known before the `j`-th draw of the `i`-th sample -/
def past (U : ℕ → ℕ → Ω → S) (i j : ℕ) : MeasurableSpace Ω :=
  ⨆ q ∈ {q : ℕ × ℕ | q.1 = i ∧ q.2 < j}, MeasurableSpace.comap (U q.1 q.2) inferInstance

theorem past_mono (U : ℕ → ℕ → Ω → S) (i j : ℕ) : past U i j ≤ past U i (j + 1) :=
  iSup₂_le fun q hq => le_iSup₂_of_le q ⟨hq.1, hq.2.trans (Nat.lt_succ_self j)⟩ le_rfl

theorem past_new (U : ℕ → ℕ → Ω → S) (i j : ℕ) : Measurable[past U i (j + 1)] (U i j) := by
  rw [measurable_iff_comap_le]
  exact le_iSup₂_of_le (f := fun (q : ℕ × ℕ) (_ : q ∈ {q : ℕ × ℕ | q.1 = i ∧ q.2 < j + 1}) =>
    MeasurableSpace.comap (U q.1 q.2) inferInstance) (i, j) ⟨rfl, Nat.lt_succ_self j⟩ le_rfl

omit [IsProbabilityMeasure P] in
theorem past_le (h : Ncx2Draws P U F) (i j : ℕ) : past U i j ≤ (inferInstance : MeasurableSpace Ω) :=
  iSup₂_le fun q _ => (h.meas q.1 q.2).comap_le

omit [IsProbabilityMeasure P] in
theorem past_indep (h : Ncx2Draws P U F) (i j : ℕ) {V : Ω → ℝ} (hV : Measurable[past U i j] V) : IndepFun V (U i j) P := by
  have := indep_iSup_of_disjoint (fun q : ℕ × ℕ => (h.meas q.1 q.2).comap_le) h.indep.iIndep
    (S := {q : ℕ × ℕ | q.1 = i ∧ q.2 < j}) (T := {(i, j)}) (by simp)
  rw [iSup_singleton] at this
  rw [IndepFun_iff_Indep]
  exact indep_of_indep_of_le_left this (measurable_iff_comap_le.1 hV)

/-- one step from a random variance -/
theorem rand_step (h : Ncx2Draws P U F) (i j : ℕ) {k θ σ : ℝ} (hk : 0 < k) (hθ : 0 < θ) (hσ : 0 < σ) {τ : ℝ} (hτ : 0 < τ)
    {V : Ω → ℝ} (hV : Measurable[past U i j] V) (hp : ∀ ω, 0 ≤ V ω) (hi : ∀ g : Pol, Integrable (fun ω => eval (fun _ => V ω) g) P)
    (f : Pol) :
    Integrable (fun ω => eval (fun _ => cir k θ σ (V ω) τ fun d l => F d l (U i j ω)) f) P ∧
      ∫ ω, eval (fun _ => cir k θ σ (V ω) τ fun d l => F d l (U i j ω)) f ∂P = ∫ ω, eval (fun _ => V ω) (fl k θ σ τ f) ∂P := by
  induction f using pow_ind with
  | h2 f g hf hg =>
    simp only [map_add]
    exact ⟨hf.1.add hg.1, by rw [integral_add hf.1 hg.1, hf.2, hg.2, ← integral_add (hi _) (hi _)]⟩
  | h3 c f hf =>
    simp only [map_smul, smul_eval]
    exact ⟨hf.1.const_mul c, by rw [integral_const_mul, integral_const_mul, hf.2]⟩
  | h1 n =>
    simp only [map_pow, eval_X, fl_pow]
    have hV' : Measurable V := hV.mono (past_le h i j) le_rfl
    have hprod := (past_indep h i j hV).map_prod_eq_prod_map_map hV'.aemeasurable (h.meas i j).aemeasurable
    have hg : Measurable fun z : ℝ × S => cir k θ σ z.1 τ (fun d l => F d l z.2) ^ n :=
      (cir_meas h.measF k θ σ τ measurable_fst measurable_snd).pow_const n
    have hpos : ∀ z : ℝ × S, 0 ≤ cir k θ σ z.1 τ (fun d l => F d l z.2) := by
      intro z
      have he : Real.exp (-k * τ) < 1 := by
        rw [Real.exp_lt_one_iff]
        nlinarith
      have hc : 0 < σ ^ 2 * (1 - Real.exp (-k * τ)) / (4 * k) := by
        have : 0 < 1 - Real.exp (-k * τ) := by linarith
        positivity
      exact mul_nonneg hc.le (h.nonneg _ _ _)
    haveI := Measure.isProbabilityMeasure_map (μ := P) hV'.aemeasurable
    haveI := Measure.isProbabilityMeasure_map (μ := P) (h.meas i j).aemeasurable
    have hae : ∀ᵐ v ∂P.map V, 0 ≤ v := by
      rw [ae_map_iff hV'.aemeasurable measurableSet_Ici]
      exact Filter.Eventually.of_forall hp
    have hm : Integrable (fun v : ℝ => eval (fun _ => v) (mo k σ n (2 * θ * k / σ ^ 2) τ)) (P.map V) := by
      rw [integrable_map_measure _ hV'.aemeasurable]
      · exact hi _
      · refine Continuous.aestronglyMeasurable ?_
        exact (MvPolynomial.continuous_eval _).comp (by fun_prop)
    have hint : Integrable (fun z : ℝ × S => cir k θ σ z.1 τ (fun d l => F d l z.2) ^ n) ((P.map V).prod (P.map (U i j))) := by
      rw [integrable_prod_iff hg.aestronglyMeasurable]
      refine ⟨hae.mono fun v hv => (cir_step h i j hk hθ hσ hv hτ n).1, hm.congr (hae.mono fun v hv => ?_)⟩
      dsimp only
      rw [← (cir_step h i j hk hθ hσ hv hτ n).2]
      refine integral_congr_ae (Filter.Eventually.of_forall fun s => ?_)
      exact (Real.norm_of_nonneg (pow_nonneg (hpos (v, s)) n)).symm
    have hVU : AEMeasurable (fun ω => (V ω, U i j ω)) P := (hV'.prodMk (h.meas i j)).aemeasurable
    rw [← hprod] at hint
    refine ⟨((integrable_map_measure hg.aestronglyMeasurable hVU).1 hint), ?_⟩
    have e1 := integral_map hVU (f := fun z : ℝ × S => cir k θ σ z.1 τ (fun d l => F d l z.2) ^ n) hg.aestronglyMeasurable
    rw [hprod] at hint e1
    rw [← e1, integral_prod _ hint]
    have e2 := integral_map hV'.aemeasurable (f := fun v : ℝ => eval (fun _ => v) (mo k σ n (2 * θ * k / σ ^ 2) τ)) hm.aestronglyMeasurable
    rw [← e2]
    exact integral_congr_ae (hae.mono fun v hv => (cir_step h i j hk hθ hσ hv hτ n).2)

/-- all steps -/
theorem srjd_moment (h : Ncx2Draws P U F) (i : ℕ) {k θ σ : ℝ} (hk : 0 < k) (hθ : 0 < θ) (hσ : 0 < σ) {T : ℝ} (f : Pol)
    (l : List (ℝ × ℝ)) (j : ℕ) (a : ℝ) {V : Ω → ℝ} (hV : Measurable[past U i j] V) (hp : ∀ ω, 0 ≤ V ω)
    (hi : ∀ g : Pol, Integrable (fun ω => eval (fun _ => V ω) g) P) (hT : a ≤ T) (hl : ∀ q ∈ l, q.1 ≤ T ∧ 0 ≤ q.2)
    (ho : (a :: l.map Prod.fst).Pairwise (· < ·)) :
    Integrable (fun ω => eval (fun _ => srjd k θ σ T (fun j d l => F d l (U i j ω)) l j a (V ω)) f) P ∧
      ∫ ω, eval (fun _ => srjd k θ σ T (fun j d l => F d l (U i j ω)) l j a (V ω)) f ∂P =
        ∫ ω, eval (fun _ => V ω) (back k θ σ T f l a) ∂P := by
  induction l generalizing j a V with
  | nil =>
    simp only [srjd, back]
    split_ifs with ha
    · exact rand_step h i j hk hθ hσ (sub_pos.2 ha) hV hp hi f
    · have : a = T := le_antisymm hT (not_lt.1 ha)
      rw [this, sub_self, fl_zero]
      exact ⟨hi f, rfl⟩
  | cons q l ih =>
    obtain ⟨τ, J⟩ := q
    rw [List.map_cons, List.pairwise_cons, List.pairwise_cons] at ho
    have haτ : a < τ := ho.1 τ (by simp)
    obtain ⟨hτ, hJ⟩ := hl (τ, J) (by simp)
    have st := rand_step h i j hk hθ hσ (sub_pos.2 haτ) hV hp hi
    simp only [srjd, back]
    have hpos : ∀ ω, 0 ≤ cir k θ σ (V ω) (τ - a) fun d l => F d l (U i j ω) := by
      intro ω
      have he : Real.exp (-k * (τ - a)) < 1 := by
        rw [Real.exp_lt_one_iff]
        nlinarith
      have hc : 0 < σ ^ 2 * (1 - Real.exp (-k * (τ - a))) / (4 * k) := by
        have : 0 < 1 - Real.exp (-k * (τ - a)) := by linarith
        positivity
      exact mul_nonneg hc.le (h.nonneg _ _ _)
    have hnew : Measurable[past U i (j + 1)] fun ω => (cir k θ σ (V ω) (τ - a) fun d l => F d l (U i j ω)) + J :=
      Measurable.add_const (@cir_meas S _ F Ω (past U i (j + 1)) h.measF k θ σ (τ - a) V (hV.mono (past_mono U i j) le_rfl)
        (U i j) (past_new U i j)) J
    have hsh : ∀ g : Pol, ∀ ω, eval (fun _ : Fin 1 => (cir k θ σ (V ω) (τ - a) fun d l => F d l (U i j ω)) + J) g =
        eval (fun _ => cir k θ σ (V ω) (τ - a) fun d l => F d l (U i j ω)) (sh J g) := fun g ω => by rw [eval_sh]
    obtain ⟨r1, r2⟩ := ih (j + 1) τ hnew (fun ω => add_nonneg (hpos ω) hJ) (fun g => by
      simp only [hsh]
      exact (st _).1) hτ (fun q hq => hl q (by simp [hq])) (by rw [List.pairwise_cons]; exact ho.2)
    refine ⟨r1, r2.trans ?_⟩
    simp only [hsh]
    exact (st _).2

end Ajd.SrjdJ
