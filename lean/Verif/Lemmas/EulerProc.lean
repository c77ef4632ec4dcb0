import Verif.Lemmas.EulerCir
import Verif.Spec.Draws
import Mathlib.Probability.Independence.Basic

/-! Euler schemes driven by random draws. -/

namespace Ajd.Scheme
open MvPolynomial MeasureTheory ProbabilityTheory Filter Topology

variable {σ κ : Type} [Fintype σ] [Fintype κ] (S : Sch σ κ)

/-- the states of the scheme for given draws -/
noncomputable def Sch.traj (e : ℝ) (s : σ → ℝ) (z : ℕ → κ → ℝ) : ℕ → σ → ℝ
  | 0 => s
  | j + 1 => S.step e (Sch.traj e s z j) (z j)

variable {Ω : Type} [mΩ : MeasurableSpace Ω] {P : Measure Ω} [IsProbabilityMeasure P]

theorem traj_law (e : ℝ) (F : ℕ → MeasurableSpace Ω) (hF : ∀ j, F j ≤ mΩ) (hmono : ∀ j, F j ≤ F (j + 1)) {X0 : Ω → σ → ℝ}
    (hX : Measurable[F 0] X0) {Z : ℕ → Ω → κ → ℝ} (hZ : ∀ j, Measurable[F (j + 1)] (Z j))
    (hind : ∀ j, Indep (F j) (MeasurableSpace.comap (Z j) inferInstance) P) (hlaw : ∀ j, P.map (Z j) = N κ) (j : ℕ) :
    Measurable[F j] (fun ω => S.traj e (X0 ω) (fun i => Z i ω) j) ∧
      P.map (fun ω => S.traj e (X0 ω) (fun i => Z i ω) j) = S.law e (P.map X0) j := by
  induction j with
  | zero => exact ⟨hX, rfl⟩
  | succ j ih =>
    obtain ⟨h1, h2⟩ := ih
    have hm := (S.cont_step e).measurable
    have m1 : Measurable (fun ω => S.traj e (X0 ω) (fun i => Z i ω) j) := h1.mono (hF j) le_rfl
    have m2 : Measurable (Z j) := (hZ j).mono (hF (j + 1)) le_rfl
    constructor
    · have h3 : Measurable[F (j + 1)] (fun ω => S.traj e (X0 ω) (fun i => Z i ω) j) := h1.mono (hmono j) le_rfl
      exact hm.comp (h3.prodMk (hZ j))
    · have hi : IndepFun (fun ω => S.traj e (X0 ω) (fun i => Z i ω) j) (Z j) P := by
        rw [IndepFun_iff_Indep]
        exact indep_of_indep_of_le_left (hind j) h1.comap_le
      have hp := hi.map_prod_eq_prod_map_map m1.aemeasurable m2.aemeasurable
      rw [Sch.law, ← h2, ← hlaw j, ← hp, Measure.map_map hm (m1.prodMk m2)]
      rfl

/-- the law of independent standard normal variables -/
theorem normal_law {D : κ → Ω → ℝ} (hm : ∀ k, Measurable (D k)) (hl : ∀ k, P.map (D k) = gaussianReal 0 1)
    (hi : iIndepFun D P) : P.map (fun ω k => D k ω) = N κ := by
  rw [(iIndepFun_iff_map_fun_eq_pi_map fun k => (hm k).aemeasurable).1 hi, N]
  simp only [hl]

/-! ### filtrations -/

section
variable {ι : Type} (m : ι → MeasurableSpace Ω)

/-- what is known from the members of `A` -/
def fil (A : Set ι) : MeasurableSpace Ω := ⨆ i ∈ A, m i

omit mΩ in
theorem fil_mono {A B : Set ι} (h : A ⊆ B) : fil m A ≤ fil m B := biSup_mono h

theorem fil_le (hm : ∀ i, m i ≤ mΩ) (A : Set ι) : fil m A ≤ mΩ := iSup₂_le fun i _ => hm i

omit mΩ in
theorem le_fil {A : Set ι} {i : ι} (h : i ∈ A) : m i ≤ fil m A := le_iSup₂_of_le i h le_rfl

end

/-- the noises of a segment -/
def zz (D : ℕ → ℕ → κ → Ω → ℝ) (i j : ℕ) (ω : Ω) (k : κ) : ℝ := D i j k ω

theorem _root_.Ajd.Draws.normals {α : Type} [MeasurableSpace α] {V : Ω → α} {D : ℕ → ℕ → κ → Ω → ℝ} (h : Draws P V D) :
    Normals P D := ⟨h.meas, h.law, h.indep.precomp (g := some) (Option.some_injective _)⟩

theorem zz_law {D : ℕ → ℕ → κ → Ω → ℝ} (h : Normals P D) (i j : ℕ) : P.map (zz D i j) = N κ :=
  normal_law (h.meas i j) (h.law i j) (h.indep.precomp (g := fun k => (i, j, k)) fun a b e => by simpa using e)

/-- a trajectory of one sample from a fixed state -/
theorem traj_iid {D : ℕ → ℕ → κ → Ω → ℝ} (h : Normals P D) (e : ℝ) (s : σ → ℝ) (i n : ℕ) :
    P.map (fun ω => S.traj e s (fun j => zz D i j ω) n) = S.law e (Measure.dirac s) n := by
  let m : ℕ × ℕ × κ → MeasurableSpace Ω := fun q => MeasurableSpace.comap (D q.1 q.2.1 q.2.2) inferInstance
  have hm : ∀ q, m q ≤ mΩ := fun q => (h.meas _ _ _).comap_le
  have hz : ∀ j, MeasurableSpace.comap (zz D i j) inferInstance ≤ fil m {q | q.1 = i ∧ q.2.1 = j} := fun j => by
    rw [← measurable_iff_comap_le, @measurable_pi_iff]
    intro k
    exact (comap_measurable (D i j k)).mono (le_fil m (i := (i, j, k)) ⟨rfl, rfl⟩) le_rfl
  have := (traj_law S e (P := P) (fun j => fil m {q | q.1 = i ∧ q.2.1 < j}) (fun j => fil_le m hm _)
    (fun j => fil_mono m fun q hq => ⟨hq.1, Nat.lt_succ_of_lt hq.2⟩) (X0 := fun _ => s) measurable_const
    (Z := fun j => zz D i j) (fun j => measurable_iff_comap_le.2 ((hz j).trans (fil_mono m fun q hq =>
      ⟨hq.1, by rw [hq.2]; exact Nat.lt_succ_self _⟩)))
    (fun j => indep_of_indep_of_le_right (indep_iSup_of_disjoint hm h.indep (Set.disjoint_left.2 fun q hq hq' =>
      absurd hq.2 (by rw [hq'.2]; exact lt_irrefl _))) (hz j)) (fun j => zz_law h i j) n).2
  rw [this, Measure.map_const]
  simp

/-- what is known before segment `j` of sample `i` -/
def past {α : Type} [MeasurableSpace α] (V : Ω → α) (D : ℕ → ℕ → κ → Ω → ℝ) (i j : ℕ) : MeasurableSpace Ω :=
  fil (fun o : Option (ℕ × ℕ × κ) => o.elim (MeasurableSpace.comap V inferInstance) fun q =>
    MeasurableSpace.comap (D q.1 q.2.1 q.2.2) inferInstance) {o | ∀ q, o = some q → q.1 < i ∨ q.1 = i ∧ q.2.1 < j}

section
variable {α : Type} [MeasurableSpace α] {V : Ω → α} {D : ℕ → ℕ → κ → Ω → ℝ}

theorem past_le (h : Draws P V D) (i j : ℕ) : past V D i j ≤ mΩ := by
  refine fil_le _ (fun o => ?_) _
  cases o with
  | none => exact h.measV.comap_le
  | some q => exact (h.meas _ _ _).comap_le

omit [Fintype κ] mΩ in
theorem past_next (i n : ℕ) : past V D i n ≤ past V D (i + 1) 0 := by
  refine fil_mono _ fun o ho q hq => ?_
  rcases ho q hq with h | h
  · exact Or.inl (by omega)
  · exact Or.inl (by omega)

omit [Fintype κ] mΩ in
theorem past_V : Measurable[past V D 0 0] V := by
  rw [measurable_iff_comap_le]
  exact le_fil (fun o : Option (ℕ × ℕ × κ) => o.elim (MeasurableSpace.comap V inferInstance) fun q =>
    MeasurableSpace.comap (D q.1 q.2.1 q.2.2) inferInstance) (i := none) (by intro q hq; simp at hq)

/-- a trajectory of one sample from a state that is known before -/
theorem traj_draws (h : Draws P V D) (e : ℝ) (i : ℕ) {X0 : Ω → σ → ℝ} (hX : Measurable[past V D i 0] X0) (n : ℕ) :
    Measurable[past V D i n] (fun ω => S.traj e (X0 ω) (fun j => zz D i j ω) n) ∧
    P.map (fun ω => S.traj e (X0 ω) (fun j => zz D i j ω) n) = S.law e (P.map X0) n := by
  let m : Option (ℕ × ℕ × κ) → MeasurableSpace Ω := fun o => o.elim (MeasurableSpace.comap V inferInstance) fun q =>
    MeasurableSpace.comap (D q.1 q.2.1 q.2.2) inferInstance
  have hm : ∀ q, m q ≤ mΩ := fun o => by
    cases o with
    | none => exact h.measV.comap_le
    | some q => exact (h.meas _ _ _).comap_le
  have hz : ∀ j, MeasurableSpace.comap (zz D i j) inferInstance ≤ fil m {o | ∃ k, o = some (i, j, k)} := fun j => by
    rw [← measurable_iff_comap_le, @measurable_pi_iff]
    intro k
    exact (comap_measurable (D i j k)).mono (le_fil m (i := some (i, j, k)) ⟨k, rfl⟩) le_rfl
  refine traj_law S e (P := P) (past V D i) (past_le h i) (fun j => fil_mono m fun o ho q hq => ?_) hX
    (Z := fun j => zz D i j) (fun j => measurable_iff_comap_le.2 ((hz j).trans (fil_mono m ?_)))
    (fun j => indep_of_indep_of_le_right (indep_iSup_of_disjoint hm h.indep (Set.disjoint_left.2 ?_)) (hz j))
    (fun j => zz_law h.normals i j) n
  · rcases ho q hq with h | h
    · exact Or.inl h
    · exact Or.inr ⟨h.1, by omega⟩
  · rintro o ⟨k, rfl⟩ q hq
    obtain rfl : (i, j, k) = q := by simpa using hq
    exact Or.inr ⟨rfl, Nat.lt_succ_self j⟩
  · rintro o ho ⟨k, rfl⟩
    rcases ho _ rfl with h | h
    · exact lt_irrefl _ h
    · exact lt_irrefl _ h.2

end

/-! ### convergence, from the stochastic differential equation -/

variable {S} (hS : S.Ok) (hC : ∀ i, S.T i = true → Nonempty (Cir S i))

include hS hC in
theorem stage {c : JumpDiff σ} (hb : ∀ x i, eval x (S.b i) = c.b x i) (ha : ∀ x i j, eval x (S.a i j) = c.a x i j)
    (hl : c.lam = 0) (hν : c.ν = Measure.dirac 0) {E0 : MvPolynomial σ ℝ →ₗ[ℝ] ℝ} {E : ℝ → MvPolynomial σ ℝ →ₗ[ℝ] ℝ}
    (hE : c.Dynkin E0 E) (T : ℝ) (hT : 0 < T) (μ : ℕ → Measure (σ → ℝ)) (hμ : ∀ n, Good S (μ n)) (hB : Bdd μ)
    (h0 : ∀ f, Tendsto (fun n => ∫ s, eval s f ∂(μ n)) atTop (𝓝 (E0 f))) (f : MvPolynomial σ ℝ) :
    Tendsto (fun n => ∫ s, eval s f ∂(S.law (rt T n) (μ n) n)) atTop (𝓝 (E T f)) := by
  have hm : Gen.Mom c.ν := by
    rw [hν]
    exact fun f => integrable_dirac (by simp)
  have hda : ∀ i j, (S.a i j).totalDegree ≤ 2 := by
    intro i j
    refine totalDegree_finsetSum_le fun k _ => (totalDegree_mul _ _).trans ?_
    rw [totalDegree_C]
    have := hS.dw k
    omega
  have hp : Gen.PolyCoef c S.b S.a := ⟨by rw [hν]; infer_instance, hb, ha, hS.db, hda⟩
  obtain ⟨s1, s2⟩ := Gen.dynkin_sol hp hm hE
  refine scheme_conv S hS T hT.le μ hμ hB (cir_gaps S hC T hT μ hμ) (Gen.op_lf _ _ _ _ hm hS.db hda) (fun f => ?_) s1
    (by rw [s2]; exact h0) f
  rw [Gen.op_apply, hl, zero_smul, add_zero]
  rfl

/-! ### laws on the states -/

theorem good_dirac (s : σ → ℝ) (hs : S.Pos s) : Good S (Measure.dirac s) where
  prob := inferInstance
  int m := integrable_dirac (by simp)
  pos := by
    rw [ae_dirac_iff]
    · exact hs
    · have : {s | S.Pos s} = ⋂ i, {s : σ → ℝ | S.T i = true → 0 ≤ s i} := by ext s; simp [Sch.Pos]
      rw [this]
      refine MeasurableSet.iInter fun i => ?_
      by_cases h : S.T i = true
      · simp only [h, forall_const]
        exact measurableSet_le measurable_const (measurable_pi_apply i)
      · simp [h]

/-- the image of a law under a map that does not increase the norm -/
theorem good_map {τ κ' : Type} [Fintype τ] [Fintype κ'] {S' : Sch τ κ'} {μ : Measure (σ → ℝ)} (hμ : Good S μ)
    {g : (σ → ℝ) → τ → ℝ} (hg : Measurable g) (hU : ∀ s, U (g s) ≤ U s) (hp : ∀ s, S.Pos s → S'.Pos (g s)) :
    Good S' (μ.map g) ∧ ∀ m : ℕ, ∫ s, U s ^ m ∂(μ.map g) ≤ ∫ s, U s ^ m ∂μ := by
  have := hμ.prob
  have hi : ∀ m : ℕ, Integrable (fun s => U (g s) ^ m) μ := fun m => by
    refine Integrable.mono' (hμ.int m) ((meas_U m).comp hg).aestronglyMeasurable (Filter.Eventually.of_forall fun s => ?_)
    have := one_le_U (g s)
    rw [Real.norm_eq_abs, abs_of_nonneg (by positivity)]
    exact pow_le_pow_left₀ (by positivity) (hU s) m
  refine ⟨⟨Measure.isProbabilityMeasure_map hg.aemeasurable, fun m => ?_, ?_⟩, fun m => ?_⟩
  · rw [integrable_map_measure (meas_U m).aestronglyMeasurable hg.aemeasurable]
    exact hi m
  · have hset : MeasurableSet {s | S'.Pos s} := by
      have : {s | S'.Pos s} = ⋂ i, {s : τ → ℝ | S'.T i = true → 0 ≤ s i} := by ext s; simp [Sch.Pos]
      rw [this]
      refine MeasurableSet.iInter fun i => ?_
      by_cases h : S'.T i = true
      · simp only [h, forall_const]
        exact measurableSet_le measurable_const (measurable_pi_apply i)
      · simp [h]
    rw [ae_map_iff hg.aemeasurable hset]
    filter_upwards [hμ.pos] with s hs
    exact hp s hs
  · rw [integral_map hg.aemeasurable (meas_U m).aestronglyMeasurable]
    exact MeasureTheory.integral_mono (hi m) (hμ.int m) fun s =>
      pow_le_pow_left₀ (zero_le_one.trans (one_le_U _)) (hU s) m

theorem bdd_map {τ κ' : Type} [Fintype τ] [Fintype κ'] {S' : Sch τ κ'} {μ : ℕ → Measure (σ → ℝ)} (hμ : ∀ n, Good S (μ n))
    (hB : Bdd μ) {g : (σ → ℝ) → τ → ℝ} (hg : Measurable g) (hU : ∀ s, U (g s) ≤ U s) (hp : ∀ s, S.Pos s → S'.Pos (g s)) :
    Bdd fun n => (μ n).map g := by
  intro m
  obtain ⟨C, hC⟩ := hB m
  exact ⟨C, hC.mono fun n hn => ((good_map (S' := S') (hμ n) hg hU hp).2 m).trans hn⟩

theorem meas_poly {τ : Type} {G : τ → MvPolynomial σ ℝ} {g : (σ → ℝ) → τ → ℝ} (hg : ∀ s i, g s i = eval s (G i)) :
    Measurable g := by
  rw [measurable_pi_iff]
  intro i
  simp only [hg]
  exact (MvPolynomial.continuous_eval _).measurable

theorem eval_poly {τ : Type} {G : τ → MvPolynomial σ ℝ} {g : (σ → ℝ) → τ → ℝ} (hg : ∀ s i, g s i = eval s (G i))
    (f : MvPolynomial τ ℝ) (s : σ → ℝ) : eval (g s) f = eval s (aeval G f) := by
  have : g s = fun i => eval s (G i) := funext (hg s)
  rw [this]
  induction f using MvPolynomial.induction_on with
  | C a => simp
  | add p q hp hq => simp only [map_add, hp, hq]
  | mul_X p i hp => simp only [map_mul, hp]; simp

theorem integral_poly {τ : Type} [Fintype τ] {G : τ → MvPolynomial σ ℝ} {g : (σ → ℝ) → τ → ℝ}
    (hg : ∀ s i, g s i = eval s (G i)) (μ : Measure (σ → ℝ)) (f : MvPolynomial τ ℝ) :
    ∫ s, eval s f ∂(μ.map g) = ∫ s, eval s (aeval G f) ∂μ := by
  rw [integral_map (meas_poly hg).aemeasurable (MvPolynomial.continuous_eval f).measurable.aestronglyMeasurable]
  simp only [eval_poly hg]

/-! ### samples in a row -/

/-- the moments of the states at the start of the samples: a sample of length `T` and a change of the state -/
noncomputable def Lq {τ : Type} (L0 : MvPolynomial τ ℝ →ₗ[ℝ] ℝ) (Q : MvPolynomial τ ℝ →ₗ[ℝ] MvPolynomial τ ℝ)
    (G : τ → MvPolynomial τ ℝ) : ℕ → MvPolynomial τ ℝ →ₗ[ℝ] ℝ
  | 0 => L0
  | i + 1 => (Lq L0 Q G i ∘ₗ Q) ∘ₗ (aeval G).toLinearMap

include hS hC in
theorem chain {c : JumpDiff σ} (hb : ∀ x i, eval x (S.b i) = c.b x i) (ha : ∀ x i j, eval x (S.a i j) = c.a x i j)
    (hl : c.lam = 0) (hν : c.ν = Measure.dirac 0) {Q : ℝ → MvPolynomial σ ℝ →ₗ[ℝ] MvPolynomial σ ℝ}
    (hQ : ∀ E0, c.Dynkin E0 fun t => E0 ∘ₗ Q t) (T : ℝ) (hT : 0 < T) {G : σ → MvPolynomial σ ℝ} {g : (σ → ℝ) → σ → ℝ}
    (hg : ∀ s i, g s i = eval s (G i)) (hU : ∀ s, U (g s) ≤ U s) (hp : ∀ s, S.Pos s → S.Pos (g s))
    {α : Type} [MeasurableSpace α] {V : Ω → α} {D : ℕ → ℕ → ℕ → κ → Ω → ℝ} (hD : ∀ n, Draws P V (D n))
    {X : ℕ → ℕ → Ω → σ → ℝ} {X0 : α → σ → ℝ} (hX0 : Measurable X0) (h0 : ∀ n ω, X n 0 ω = X0 (V ω))
    (hs : ∀ n i ω, X n (i + 1) ω = g (S.traj (rt T n) (X n i ω) (fun j => zz (D n) i j ω) n))
    (hG : Good S (P.map fun ω => X0 (V ω))) (i : ℕ) :
    (∀ n, Measurable[past V (D n) i 0] (X n i)) ∧ (∀ n, Good S (P.map (X n i))) ∧ (Bdd fun n => P.map (X n i)) ∧
      ∀ f, Tendsto (fun n => ∫ s, eval s f ∂(P.map (X n i))) atTop (𝓝 (Lq (ex S _ hG) (Q T) G i f)) := by
  induction i with
  | zero =>
    have e : ∀ n, X n 0 = fun ω => X0 (V ω) := fun n => funext (h0 n)
    simp only [e]
    refine ⟨fun n => hX0.comp past_V, fun n => hG, fun m => ⟨_, Filter.Eventually.of_forall fun n => le_rfl⟩, fun f => ?_⟩
    exact tendsto_const_nhds
  | succ i ih =>
    obtain ⟨h1, h2, h3, h4⟩ := ih
    have hgm := meas_poly hg
    have e : ∀ n, X n (i + 1) = g ∘ fun ω => S.traj (rt T n) (X n i ω) (fun j => zz (D n) i j ω) n := fun n => funext (hs n i)
    have ht := fun n => traj_draws S (hD n) (rt T n) i (h1 n) n
    have em : ∀ n, P.map (X n (i + 1)) = (S.law (rt T n) (P.map (X n i)) n).map g := fun n => by
      rw [e, ← (ht n).2, Measure.map_map hgm ((ht n).1.mono (past_le (hD n) _ _) le_rfl)]
    have hgood := fun n => good_law S (rt T n) (h2 n) n
    refine ⟨fun n => ?_, fun n => ?_, ?_, fun f => ?_⟩
    · rw [e]
      exact hgm.comp ((ht n).1.mono (past_next i n) le_rfl)
    · rw [em]
      exact (good_map (hgood n) hgm hU hp).1
    · simp only [em]
      exact bdd_map (S' := S) hgood (bdd_law S hS T hT.le _ h2 h3) hgm hU hp
    · simp only [em, integral_poly hg]
      exact stage hS hC hb ha hl hν (hQ _) T hT _ h2 h3 h4 _

/-- central moments -/
theorem central {x : ℕ → Ω → ℝ} (hx : ∀ᶠ n in atTop, ∀ l : ℕ, Integrable (fun ω => x n ω ^ l) P) {M : Polynomial ℝ →ₗ[ℝ] ℝ}
    (h : ∀ l : ℕ, Tendsto (fun n => ∫ ω, x n ω ^ l ∂P) atTop (𝓝 (M (Polynomial.X ^ l)))) (l : ℕ) :
    Tendsto (fun n => ∫ ω, (x n ω - ∫ ω', x n ω' ∂P) ^ l ∂P) atTop
      (𝓝 (M ((Polynomial.X - Polynomial.C (M Polynomial.X)) ^ l))) := by
  have e1 : M ((Polynomial.X - Polynomial.C (M Polynomial.X)) ^ l) =
      ∑ m ∈ Finset.range (l + 1), M (Polynomial.X ^ m) * (-(M Polynomial.X)) ^ (l - m) * (l.choose m) := by
    rw [sub_eq_add_neg, add_pow, map_sum]
    refine Finset.sum_congr rfl fun m _ => ?_
    have : (Polynomial.X ^ m * (-Polynomial.C (M Polynomial.X)) ^ (l - m) * (l.choose m : Polynomial ℝ)) =
        ((-(M Polynomial.X)) ^ (l - m) * (l.choose m : ℝ)) • (Polynomial.X ^ m : Polynomial ℝ) := by
      rw [Polynomial.smul_eq_C_mul]
      simp
      ring
    rw [this, map_smul, smul_eq_mul]
    ring
  rw [e1]
  have hm : Tendsto (fun n => ∫ ω, x n ω ∂P) atTop (𝓝 (M Polynomial.X)) := by simpa using h 1
  have e2 : ∀ᶠ n in atTop, ∑ m ∈ Finset.range (l + 1), (∫ ω, x n ω ^ m ∂P) * (-(∫ ω, x n ω ∂P)) ^ (l - m) * (l.choose m) =
      ∫ ω, (x n ω - ∫ ω', x n ω' ∂P) ^ l ∂P := by
    filter_upwards [hx] with n hn
    have e3 : ∀ ω, (x n ω - ∫ ω', x n ω' ∂P) ^ l =
        ∑ m ∈ Finset.range (l + 1), x n ω ^ m * ((-(∫ ω, x n ω ∂P)) ^ (l - m) * (l.choose m)) := fun ω => by
      rw [sub_eq_add_neg, add_pow]
      exact Finset.sum_congr rfl fun m _ => by ring
    simp only [e3]
    rw [integral_finsetSum _ fun m _ => (hn m).mul_const _]
    exact Finset.sum_congr rfl fun m _ => by rw [integral_mul_const]; ring
  refine Tendsto.congr' e2 ?_
  exact tendsto_finsetSum _ fun m _ => ((h m).mul (hm.neg.pow _)).mul_const _

end Ajd.Scheme
