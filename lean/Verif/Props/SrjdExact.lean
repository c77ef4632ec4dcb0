import Verif.Lemmas.SrjdDraw
import Verif.Props.ItoSde
import Verif.Props.Euler
import Mathlib.Probability.Kernel.Representation

/-! C73: the samples of `rSRJD` have the moments of `cond2_mom.py` and
`cond2_cmom.py`, and the sample moments converge to them. -/

namespace Ajd.SrjdJ
open MvPolynomial MeasureTheory ProbabilityTheory Euler.Spec Filter Topology

/-- the arguments of `rSRJD`: positive parameters, jumps of nonnegative size at increasing positive times up to `h` -/
structure Par.Good (p : Par) : Prop where
  k : 0 < p.k
  θ : 0 < p.theta
  σ : 0 < p.sigma
  v0 : 0 ≤ p.v0
  h : 0 < p.h
  len : p.jumpsize.length = p.jumptime.length
  time : (0 :: p.jumptime).Pairwise (· < ·)
  le : ∀ s ∈ p.jumptime, s ≤ p.h
  size : ∀ J ∈ p.jumpsize, 0 ≤ J

theorem Par.Good.ok {p : Par} (hp : p.Good) : p.OK :=
  ⟨hp.k.ne', hp.h.le, hp.len.symm, fun s hs => ⟨((List.pairwise_cons.1 hp.time).1 s hs).le, hp.le s hs⟩⟩

theorem Par.Good.nodup {p : Par} (hp : p.Good) : p.jumptime.Nodup := (List.pairwise_cons.1 hp.time).2.imp fun h => h.ne

theorem Par.Good.pos {p : Par} (hp : p.Good) : ∀ s ∈ p.jumptime, 0 < s := fun s hs => (List.pairwise_cons.1 hp.time).1 s hs

theorem Par.Good.times {p : Par} (hp : p.Good) : Gen.Times p.cir.s := by
  have hl : ∀ i : Fin p.jumpsize.length, (i : ℕ) < p.jumptime.length := fun i => i.2.trans_eq hp.len
  constructor
  · intro i j e
    change p.jumptime.getD i 0 = p.jumptime.getD j 0 at e
    rw [List.getD_eq_getElem _ _ (hl i), List.getD_eq_getElem _ _ (hl j)] at e
    exact Fin.ext ((hp.nodup.getElem_inj_iff (hi := hl i) (hj := hl j)).1 e)
  · intro i
    change 0 < p.jumptime.getD i 0
    rw [List.getD_eq_getElem _ _ (hl i)]
    exact hp.pos _ (List.getElem_mem _)

/-- the samples that `rSRJD` returns for the draws `F d l (U i j)` -/
def Samples {Ω S : Type} (p : Par) (U : ℕ → ℕ → Ω → S) (F : ℝ → ℝ → S → ℝ) (L : ℕ → Ω → List ℝ) : Prop :=
  ∀ N ω, Euler.rSRJD p.v0 p.k p.theta p.sigma p.h p.jumpsize p.jumptime N (fun i j d l => F d l (U i j ω)) = .ok (L N ω)

section
variable {Ω S : Type} [MeasurableSpace Ω] [MeasurableSpace S] {P : Measure Ω} [IsProbabilityMeasure P] {U : ℕ → ℕ → Ω → S}
  {F : ℝ → ℝ → S → ℝ}

/-- the `i`-th sample -/
noncomputable def smp (p : Par) (U : ℕ → ℕ → Ω → S) (F : ℝ → ℝ → S → ℝ) (i : ℕ) (ω : Ω) : ℝ :=
  srjd p.k p.theta p.sigma p.h (fun j d l => F d l (U i j ω)) (p.jumptime.zip p.jumpsize) 0 0 p.v0

omit [IsProbabilityMeasure P] in
theorem samples_eq {p : Par} (hp : p.Good) (hd : Ncx2Draws P U F) (N : ℕ) (ω : Ω) :
    Euler.rSRJD p.v0 p.k p.theta p.sigma p.h p.jumpsize p.jumptime N (fun i j d l => F d l (U i j ω)) =
      .ok ((List.range N).map fun i => smp p U F i ω) :=
  Euler.C45_srjd_partial _ _ _ _ _ _ _ N _ hp.k hp.θ hp.σ hp.v0 hp.h hp.len hp.time hp.size
    fun i j d l => hd.nonneg _ _ _

theorem zip_fst {p : Par} (hp : p.Good) : (p.jumptime.zip p.jumpsize).map Prod.fst = p.jumptime :=
  List.map_fst_zip hp.len.ge

theorem zip_mem {p : Par} (hp : p.Good) {q : ℝ × ℝ} (hq : q ∈ p.jumptime.zip p.jumpsize) :
    q.1 ∈ p.jumptime ∧ q.2 ∈ p.jumpsize ∧
      ∃ i : Fin p.jumpsize.length, p.jumptime.getD i 0 = q.1 ∧ p.jumpsize.getD i 0 = q.2 := by
  obtain ⟨i, hi, e⟩ := List.getElem_of_mem hq
  have h1 : i < p.jumptime.length := by simp at hi; omega
  have h2 : i < p.jumpsize.length := by simp at hi; omega
  rw [List.getElem_zip] at e
  subst e
  exact ⟨List.getElem_mem h1, List.getElem_mem h2, ⟨i, h2⟩, List.getD_eq_getElem _ _ h1, List.getD_eq_getElem _ _ h2⟩

/-- the law of a sample -/
theorem smp_law {p : Par} (hp : p.Good) (hd : Ncx2Draws P U F) (i : ℕ) {E : ℝ → Pol →ₗ[ℝ] ℝ} (hE : ItoCond.GivenV p.cir E) (f : Pol) :
    Integrable (fun ω => eval (fun _ => smp p U F i ω) f) P ∧ ∫ ω, eval (fun _ => smp p U F i ω) f ∂P = E p.h f := by
  have hz := zip_fst hp
  obtain ⟨h1, h2⟩ := srjd_moment hd i hp.k hp.θ hp.σ f (p.jumptime.zip p.jumpsize) 0 0 (V := fun _ => p.v0)
    (@measurable_const _ _ _ (past U i 0) _) (fun _ => hp.v0) (fun g => integrable_const _) hp.h.le
    (fun q hq => ⟨hp.le _ (zip_mem hp hq).1, hp.size _ (zip_mem hp hq).2.1⟩) (by rw [hz]; exact hp.time)
  refine ⟨h1, h2.trans ?_⟩
  have h3 := back_spec hp.k.ne' hp.σ.ne' hp.times hE f (p.jumptime.zip p.jumpsize) 0 le_rfl hp.h.le
    (fun q hq => ⟨hp.le _ (zip_mem hp hq).1, (zip_mem hp hq).2.2⟩) (fun m _ => by
      have hm : (m : ℕ) < p.jumptime.length := m.2.trans_eq hp.len
      have : p.jumptime.getD m 0 ∈ (p.jumptime.zip p.jumpsize).map Prod.fst := by
        rw [hz, List.getD_eq_getElem _ _ hm]
        exact List.getElem_mem hm
      obtain ⟨q, hq, e⟩ := List.mem_map.1 this
      exact ⟨q, hq, e⟩) (by rw [hz]; exact hp.time)
  rw [h3, hE.start, AlgHom.toLinearMap_apply, aeval_eq_eval]
  simp only [integral_const, probReal_univ, one_smul]
  refine congrArg (fun x => eval x _) (_root_.funext fun i => ?_)
  fin_cases i
  rfl

/-- C73. `rSRJD` returns, and every sample it returns has exactly the moments and central moments which `m(l, par)` and
`cm(l, par)` of `mdl_srjd` give for the same initial variance and the same jumps. -/
theorem C73_moments (m : ℕ) (p : Par) (hp : p.Good) : ∃ c, ∀ fuel, c ≤ fuel →
    ∀ {Ω S : Type} [MeasurableSpace Ω] [MeasurableSpace S] (P : Measure Ω) [IsProbabilityMeasure P] (U : ℕ → ℕ → Ω → S)
      (F : ℝ → ℝ → S → ℝ), Ncx2Draws P U F → ∃ L, Samples p U F L ∧ ∀ N, (∀ ω, (L N ω).length = N) ∧ ∀ i < N,
        Integrable (fun ω => (L N ω).getD i 0 ^ m) P ∧
        mV fuel m p = some (.ok (∫ ω, (L N ω).getD i 0 ^ m ∂P)) ∧
        cmV fuel m p = some (.ok (∫ ω, ((L N ω).getD i 0 - ∫ ω, (L N ω).getD i 0 ∂P) ^ m ∂P)) := by
  obtain ⟨c, hc⟩ := C37_sde m p hp.ok hp.nodup hp.pos
  obtain ⟨E, hE⟩ := ItoCond.givenV_exists p.cir hp.times
  refine ⟨c, fun fuel hf Ω S _ _ P _ U F hd => ⟨_, fun N ω => samples_eq hp hd N ω, fun N => ⟨fun ω => by simp, fun i hi => ?_⟩⟩⟩
  have hg : ∀ ω, ((List.range N).map fun i => smp p U F i ω).getD i 0 = smp p U F i ω := by
    intro ω
    rw [List.getD_eq_getElem _ _ (by simpa using hi)]
    simp
  simp only [hg]
  have q := smp_law hp hd i hE (X 0 ^ m)
  have q1 := smp_law hp hd i hE (X 0)
  have q2 := smp_law hp hd i hE ((X 0 - C (E p.h (X 0))) ^ m)
  simp only [map_pow, map_sub, eval_X, eval_C] at q q1 q2
  rw [(hc fuel hf E hE).1, (hc fuel hf E hE).2, q.2, q1.2, q2.2]
  exact ⟨q.1, rfl, rfl⟩

/-! ### averages over the samples -/

theorem smp_meas (p : Par) (hd : Ncx2Draws P U F) (i : ℕ) : Measurable (smp p U F i) :=
  srjd_meas hd.measF _ _ _ _ (fun j => hd.meas i j) _ 0 0 measurable_const

theorem smp_indep (p : Par) (hd : Ncx2Draws P U F) : Pairwise fun i j => IndepFun (smp p U F i) (smp p U F j) P := by
  intro i j hij
  have := indep_iSup_of_disjoint (fun q : ℕ × ℕ => (hd.meas q.1 q.2).comap_le) hd.indep.iIndep
    (S := {q : ℕ × ℕ | q.1 = i}) (T := {q : ℕ × ℕ | q.1 = j}) (by
      rw [Set.disjoint_left]
      rintro q rfl h
      exact hij h)
  have hm : ∀ i, Measurable[⨆ q ∈ {q : ℕ × ℕ | q.1 = i}, MeasurableSpace.comap (U q.1 q.2) inferInstance] (smp p U F i) :=
    fun i => @srjd_meas S _ F Ω (⨆ q ∈ {q : ℕ × ℕ | q.1 = i}, MeasurableSpace.comap (U q.1 q.2) inferInstance) hd.measF _ _ _ _
      (fun j => U i j) (fun j => by
        rw [measurable_iff_comap_le]
        exact le_iSup₂_of_le (f := fun (q : ℕ × ℕ) (_ : q ∈ {q : ℕ × ℕ | q.1 = i}) =>
          MeasurableSpace.comap (U q.1 q.2) inferInstance) (i, j) rfl le_rfl) _ 0 0 _ (@measurable_const _ _ _ (_) _)
  rw [IndepFun_iff_Indep]
  exact indep_of_indep_of_le_right (indep_of_indep_of_le_left this (measurable_iff_comap_le.1 (hm i)))
    (measurable_iff_comap_le.1 (hm j))

theorem smp_ident (p : Par) (hd : Ncx2Draws P U F) (i : ℕ) : IdentDistrib (smp p U F i) (smp p U F 0) P P := by
  have hlaw : ∀ i, P.map (fun ω j => U i j ω) = Measure.infinitePi fun _ : ℕ => P.map (U 0 0) := by
    intro i
    have h : iIndepFun (fun j => U i j) P := hd.indep.precomp (g := fun j : ℕ => (i, j)) (fun a b e => by simpa using e)
    rw [h.map_fun_eq_infinitePi_map₀ (measurable_pi_lambda _ fun j => hd.meas i j).aemeasurable]
    congr 1
    funext j
    exact (hd.ident i j).map_eq
  have hid : IdentDistrib (fun ω j => U i j ω) (fun ω j => U 0 j ω) P P :=
    ⟨(measurable_pi_lambda _ fun j => hd.meas i j).aemeasurable, (measurable_pi_lambda _ fun j => hd.meas 0 j).aemeasurable,
      by rw [hlaw, hlaw]⟩
  exact hid.comp (srjd_meas (A := ℕ → S) (u := fun j s => s j) hd.measF p.k p.theta p.sigma p.h (fun j => measurable_pi_apply j)
    (p.jumptime.zip p.jumpsize) 0 0 (V := fun _ => p.v0) measurable_const)

/-- the mean of the `m`-th powers of a list -/
noncomputable def avg (m : ℕ) (l : List ℝ) : ℝ := (l.map fun y => y ^ m).sum / l.length

/-- the `m`-th central moment of a list -/
noncomputable def cavg (m : ℕ) (l : List ℝ) : ℝ := (l.map fun y => (y - l.sum / l.length) ^ m).sum / l.length

/-- C73. With probability one, the sample moments and the sample central moments of what `rSRJD` returns converge to `m(l, par)`
and `cm(l, par)` when the number of samples grows. -/
theorem C73_averages (m : ℕ) (p : Par) (hp : p.Good) : ∃ c x y, ∀ fuel, c ≤ fuel →
    mV fuel m p = some (.ok x) ∧ cmV fuel m p = some (.ok y) ∧
    ∀ {Ω S : Type} [MeasurableSpace Ω] [MeasurableSpace S] (P : Measure Ω) [IsProbabilityMeasure P] (U : ℕ → ℕ → Ω → S)
      (F : ℝ → ℝ → S → ℝ), Ncx2Draws P U F → ∃ L, Samples p U F L ∧
        ∀ᵐ ω ∂P, Tendsto (fun N => avg m (L N ω)) atTop (𝓝 x) ∧ Tendsto (fun N => cavg m (L N ω)) atTop (𝓝 y) := by
  obtain ⟨c, hc⟩ := C37_sde m p hp.ok hp.nodup hp.pos
  obtain ⟨E, hE⟩ := ItoCond.givenV_exists p.cir hp.times
  refine ⟨c, _, _, fun fuel hf => ⟨(hc fuel hf E hE).1, (hc fuel hf E hE).2,
    fun {Ω S} _ _ P _ U F hd => ⟨_, fun N ω => samples_eq hp hd N ω, ?_⟩⟩⟩
  have hpow : ∀ n : ℕ, ∀ᵐ ω ∂P, Tendsto (fun N : ℕ => (∑ i ∈ Finset.range N, smp p U F i ω ^ n) / N) atTop
      (𝓝 (E p.h (X 0 ^ n))) := by
    intro n
    have q := smp_law hp hd 0 hE (X 0 ^ n)
    simp only [map_pow, eval_X] at q
    rw [← q.2]
    exact strong_law_ae_real (fun i ω => smp p U F i ω ^ n) q.1
      (fun i j hij => (smp_indep p hd hij).comp (measurable_id.pow_const n) (measurable_id.pow_const n))
      fun i => (smp_ident p hd i).comp (measurable_id.pow_const n)
  rw [← ae_all_iff] at hpow
  refine hpow.mono fun ω hω => ?_
  have hsum : ∀ (N : ℕ) (g : ℝ → ℝ), (((List.range N).map fun i => smp p U F i ω).map g).sum = ∑ i ∈ Finset.range N, g (smp p U F i ω) := by
    intro N g
    rw [List.map_map]
    rfl
  constructor
  · refine (hω m).congr fun N => ?_
    rw [avg, hsum]
    simp
  · have h1 := hω 1
    simp only [pow_one] at h1
    have hl : Tendsto (fun N : ℕ => ∑ j ∈ Finset.range (m + 1), (∑ i ∈ Finset.range N, smp p U F i ω ^ j) / N *
        (-((∑ i ∈ Finset.range N, smp p U F i ω) / N)) ^ (m - j) * (m.choose j)) atTop
        (𝓝 (∑ j ∈ Finset.range (m + 1), E p.h (X 0 ^ j) * (-(E p.h (X 0))) ^ (m - j) * (m.choose j))) :=
      tendsto_finsetSum _ fun j _ => ((hω j).mul (h1.neg.pow (m - j))).mul_const _
    have e : E p.h ((X 0 - C (E p.h (X 0))) ^ m) =
        ∑ j ∈ Finset.range (m + 1), E p.h (X 0 ^ j) * (-(E p.h (X 0))) ^ (m - j) * (m.choose j) := by
      rw [sub_eq_add_neg, ← C_neg, add_pow, map_sum]
      refine Finset.sum_congr rfl fun j _ => ?_
      rw [← C_pow, mul_assoc, mul_comm (X 0 ^ j), ← map_natCast C, ← C_mul, ell]
      ring
    rw [e]
    refine hl.congr fun N => ?_
    have hs := hsum N id
    rw [List.map_id] at hs
    rw [cavg, hsum, hs]
    simp only [id_eq, List.length_map, List.length_range]
    generalize (∑ i ∈ Finset.range N, smp p U F i ω) / N = M
    have hb : ∀ i, (smp p U F i ω - M) ^ m =
        ∑ j ∈ Finset.range (m + 1), smp p U F i ω ^ j * (-M) ^ (m - j) * (m.choose j) := fun i => by
      rw [sub_eq_add_neg, add_pow]
    rw [Finset.sum_congr rfl fun i _ => hb i, Finset.sum_comm, Finset.sum_div]
    refine Finset.sum_congr rfl fun j _ => ?_
    rw [← Finset.sum_mul, ← Finset.sum_mul]
    ring

end

/-! ### the hypotheses are met -/

theorem ncx2_kernel (d : ℝ) : Measurable fun l : ℝ => ncx2 d l := by
  refine Measure.measurable_of_measurable_coe _ fun s hs => ?_
  have : (fun l : ℝ => ncx2 d l s) = fun l : ℝ => ∑' n : ℕ,
      ENNReal.ofReal (Real.exp (-(l / 2).toNNReal) * (l / 2).toNNReal ^ n / n.factorial) * gammaMeasure ((d + 2 * n) / 2) (1 / 2) s := by
    funext l
    rw [ncx2, Measure.bind_apply hs (Measurable.of_discrete).aemeasurable, poissonMeasure, lintegral_sum_measure]
    refine tsum_congr fun n => ?_
    rw [lintegral_smul_measure, lintegral_dirac]
    rfl
  rw [this]
  refine Measurable.ennreal_tsum fun n => ?_
  fun_prop

/-- Beside C73: such draws exist. -/
theorem draws_exist : ∃ (P : Measure (ℕ × ℕ → unitInterval)) (_ : IsProbabilityMeasure P)
    (U : ℕ → ℕ → (ℕ × ℕ → unitInterval) → unitInterval) (F : ℝ → ℝ → unitInterval → ℝ), Ncx2Draws P U F := by
  have h : ∀ d : ℝ, 0 < d → ∃ f : ℝ → unitInterval → ℝ, Measurable (Function.uncurry f) ∧ ∀ l, volume.map (f l) = ncx2 d l := by
    intro d hd
    let κ : Kernel ℝ ℝ := ⟨fun l => ncx2 d l, ncx2_kernel d⟩
    haveI : IsMarkovKernel κ := ⟨fun l => ncx2_prob d l hd⟩
    obtain ⟨f, h1, h2⟩ := Kernel.exists_measurable_map_eq_unitInterval κ
    exact ⟨f, h1, fun l => h2 l⟩
  choose! f h1 h2 using h
  refine ⟨Measure.infinitePi fun _ => volume, inferInstance, fun i j ω => ω (i, j),
    fun d l s => if 0 < d then max 0 (f d l s) else 0, ⟨fun i j => measurable_pi_apply _, fun i j => ?_, ?_, fun d => ?_,
      fun d l s => ?_, fun d l hd hl => ?_⟩⟩
  · exact ⟨(measurable_pi_apply _).aemeasurable, (measurable_pi_apply _).aemeasurable, by
      rw [Measure.infinitePi_map_eval, Measure.infinitePi_map_eval]⟩
  · exact iIndepFun_infinitePi (P := fun _ : ℕ × ℕ => (volume : Measure unitInterval)) (X := fun _ x => x) fun _ => measurable_id
  · by_cases hd : 0 < d
    · simp only [if_pos hd]
      exact measurable_const.max (h1 d hd)
    · simp only [if_neg hd]
      exact measurable_const
  · split_ifs
    · exact le_max_left _ _
    · exact le_rfl
  · simp only [if_pos hd]
    have hm : Measurable fun s => f d l s := (h1 d hd).comp (measurable_const.prodMk measurable_id)
    have e : (fun ω : ℕ × ℕ → unitInterval => max 0 (f d l (ω (0, 0)))) = (max 0) ∘ (f d l) ∘ fun ω => ω (0, 0) := rfl
    have hev : Measurable fun ω : ℕ × ℕ → unitInterval => ω (0, 0) := measurable_pi_apply _
    have hmx : Measurable (max (0 : ℝ)) := by fun_prop
    have e1 := Measure.map_map (μ := Measure.infinitePi fun _ : ℕ × ℕ => (volume : Measure unitInterval)) hmx (hm.comp hev)
    have e2 := Measure.map_map (μ := Measure.infinitePi fun _ : ℕ × ℕ => (volume : Measure unitInterval)) hm hev
    have e3 := Measure.infinitePi_map_eval (fun _ : ℕ × ℕ => (volume : Measure unitInterval)) (0, 0)
    rw [e]
    refine e1.symm.trans ?_
    rw [← e2]
    refine (congrArg (fun μ => ((μ.map fun s => f d l s).map (max 0))) e3).trans ?_
    rw [h2 d hd]
    have h2 : (ncx2 d l).map (max 0) = (ncx2 d l).map id :=
      Measure.map_congr ((ncx2_ae d l).mono fun x hx => max_eq_right hx)
    rw [h2, Measure.map_id]

/-- two jumps, the second one at the end -/
noncomputable def exGood : Par := ⟨1 / 100, 1, 1 / 50, 1 / 5, 2, [1 / 10, 1 / 20], [1 / 2, 2]⟩

theorem exGood_good : exGood.Good := by
  refine ⟨?_, ?_, ?_, ?_, ?_, rfl, ?_, ?_, ?_⟩ <;> norm_num [exGood]

/-- Beside `C73_moments` and `C73_averages`. -/
example : ∃ (P : Measure (ℕ × ℕ → unitInterval)) (_ : IsProbabilityMeasure P)
    (U : ℕ → ℕ → (ℕ × ℕ → unitInterval) → unitInterval) (F : ℝ → ℝ → unitInterval → ℝ) (L : _),
    Ncx2Draws P U F ∧ Samples exGood U F L ∧
      ∃ c, ∀ fuel, c ≤ fuel → mV fuel 3 exGood = some (.ok (∫ ω, (L 5 ω).getD 2 0 ^ 3 ∂P)) := by
  obtain ⟨P, hP, U, F, hd⟩ := draws_exist
  obtain ⟨c, h⟩ := C73_moments 3 exGood exGood_good
  obtain ⟨L, hL, -⟩ := h c le_rfl P U F hd
  refine ⟨P, hP, U, F, L, hd, hL, c, fun fuel hf => ?_⟩
  obtain ⟨L', hL', hm⟩ := h fuel hf P U F hd
  have : L' = L := by
    funext N ω
    exact Except.ok.inj ((hL' N ω).symm.trans (hL N ω))
  subst this
  exact ((hm 5).2 2 (by norm_num)).2.1

end Ajd.SrjdJ
