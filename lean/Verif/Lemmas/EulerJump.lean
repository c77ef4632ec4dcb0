import Verif.Lemmas.EulerProc
import Verif.Spec.DrawsJ
import Verif.Spec.Euler
import Verif.Props.Conv

/-! The jumps of the Euler generators. -/

namespace Ajd.Euler
open MeasureTheory ProbabilityTheory Filter Topology Scheme Spec
open scoped NNReal

variable {Ω : Type} [mΩ : MeasurableSpace Ω] {P : Measure Ω} [IsProbabilityMeasure P]

/-! ### sums of independent variables -/

section
variable {Y J : Ω → ℝ}

omit [IsProbabilityMeasure P] in
theorem sum_pow_int (h : IndepFun Y J P) (hY : ∀ l : ℕ, Integrable (fun ω => Y ω ^ l) P)
    (hJ : ∀ l : ℕ, Integrable (fun ω => J ω ^ l) P) (l : ℕ) : Integrable (fun ω => (Y ω + J ω) ^ l) P ∧
    ∫ ω, (Y ω + J ω) ^ l ∂P = conv (fun i => ∫ ω, Y ω ^ i ∂P) (fun i => ∫ ω, J ω ^ i ∂P) l := by
  have hi : ∀ a b : ℕ, IndepFun (fun ω => Y ω ^ a) (fun ω => J ω ^ b) P := fun a b =>
    h.comp (φ := fun x => x ^ a) (ψ := fun x => x ^ b) (by fun_prop) (by fun_prop)
  have hI : ∀ a b : ℕ, Integrable (fun ω => Y ω ^ a * J ω ^ b) P := fun a b => (hi a b).integrable_mul (hY a) (hJ b)
  have hE : ∀ a b : ℕ, ∫ ω, Y ω ^ a * J ω ^ b ∂P = (∫ ω, Y ω ^ a ∂P) * ∫ ω, J ω ^ b ∂P := fun a b =>
    (hi a b).integral_fun_mul_eq_mul_integral (hY a).aestronglyMeasurable (hJ b).aestronglyMeasurable
  simp only [add_pow]
  refine ⟨integrable_finsetSum _ fun i _ => (hI _ _).mul_const _, ?_⟩
  rw [integral_finsetSum _ fun i _ => (hI _ _).mul_const _, conv]
  refine Finset.sum_congr rfl fun i _ => ?_
  rw [integral_mul_const, hE]
  ring

theorem int_shift (hY : ∀ l : ℕ, Integrable (fun ω => Y ω ^ l) P) (c : ℝ) (l : ℕ) : Integrable (fun ω => (Y ω - c) ^ l) P := by
  simp only [sub_eq_add_neg, add_pow]
  exact integrable_finsetSum _ fun i _ => ((hY _).mul_const _).mul_const _

theorem sum_cpow_int (h : IndepFun Y J P) (hY : ∀ l : ℕ, Integrable (fun ω => Y ω ^ l) P)
    (hJ : ∀ l : ℕ, Integrable (fun ω => J ω ^ l) P) (l : ℕ) :
    ∫ ω, (Y ω + J ω - ∫ ω', (Y ω' + J ω') ∂P) ^ l ∂P =
      conv (fun i => ∫ ω, (Y ω - ∫ ω', Y ω' ∂P) ^ i ∂P) (fun i => ∫ ω, (J ω - ∫ ω', J ω' ∂P) ^ i ∂P) l := by
  have h1 : IndepFun (fun ω => Y ω - ∫ ω', Y ω' ∂P) (fun ω => J ω - ∫ ω', J ω' ∂P) P :=
    h.comp (φ := fun x => x - ∫ ω', Y ω' ∂P) (ψ := fun x => x - ∫ ω', J ω' ∂P) (by fun_prop) (by fun_prop)
  rw [← (sum_pow_int h1 (int_shift hY _) (int_shift hJ _) l).2]
  have y1 : Integrable (fun ω => Y ω) P := by simpa using hY 1
  have j1 : Integrable (fun ω => J ω) P := by simpa using hJ 1
  rw [integral_add y1 j1]
  refine integral_congr_ae (Filter.Eventually.of_forall fun ω => ?_)
  dsimp only
  congr 1
  ring

omit [IsProbabilityMeasure P] in
theorem int_mul_pow {Z : Ω → ℝ} (hY : ∀ l : ℕ, Integrable (fun ω => Y ω ^ l) P) (hZ : ∀ l : ℕ, Integrable (fun ω => Z ω ^ l) P)
    (a b : ℕ) : Integrable (fun ω => Y ω ^ a * Z ω ^ b) P := by
  refine Integrable.mono' ((hY (a * 2)).add (hZ (b * 2)))
    ((hY a).aestronglyMeasurable.mul (hZ b).aestronglyMeasurable) (Filter.Eventually.of_forall fun ω => ?_)
  simp only [Real.norm_eq_abs, Pi.add_apply, pow_mul]
  rw [abs_le]
  constructor <;> nlinarith [sq_nonneg (Y ω ^ a - Z ω ^ b), sq_nonneg (Y ω ^ a + Z ω ^ b), sq_nonneg (Y ω ^ a), sq_nonneg (Z ω ^ b)]

/-- two sums -/
theorem sum2_int {Y1 Y2 J1 J2 : Ω → ℝ} (h1 : IndepFun (fun ω => (Y1 ω, Y2 ω)) J1 P)
    (h2 : IndepFun (fun ω => ((Y1 ω, Y2 ω), J1 ω)) J2 P)
    (hY1 : ∀ l : ℕ, Integrable (fun ω => Y1 ω ^ l) P) (hY2 : ∀ l : ℕ, Integrable (fun ω => Y2 ω ^ l) P)
    (hJ1 : ∀ l : ℕ, Integrable (fun ω => J1 ω ^ l) P) (hJ2 : ∀ l : ℕ, Integrable (fun ω => J2 ω ^ l) P) {z : ℕ → ℝ}
    (z1 : ∀ l : ℕ, ∫ ω, J1 ω ^ l ∂P = z l) (z2 : ∀ l : ℕ, ∫ ω, J2 ω ^ l ∂P = z l) (a b : ℕ) :
    ∫ ω, (Y1 ω + J1 ω) ^ a * (Y2 ω + J2 ω) ^ b ∂P = conv2 (fun i j => ∫ ω, Y1 ω ^ i * Y2 ω ^ j ∂P) z a b := by
  have i1 : ∀ i j k : ℕ, IndepFun (fun ω => Y1 ω ^ i * Y2 ω ^ j) (fun ω => J1 ω ^ k) P := fun i j k =>
    h1.comp (φ := fun x : ℝ × ℝ => x.1 ^ i * x.2 ^ j) (ψ := fun x => x ^ k) (by fun_prop) (by fun_prop)
  have i2 : ∀ i j k l : ℕ, IndepFun (fun ω => Y1 ω ^ i * Y2 ω ^ j * J1 ω ^ k) (fun ω => J2 ω ^ l) P := fun i j k l =>
    h2.comp (φ := fun x : (ℝ × ℝ) × ℝ => x.1.1 ^ i * x.1.2 ^ j * x.2 ^ k) (ψ := fun x => x ^ l) (by fun_prop) (by fun_prop)
  have g1 : ∀ i j k : ℕ, Integrable (fun ω => Y1 ω ^ i * Y2 ω ^ j * J1 ω ^ k) P := fun i j k =>
    (i1 i j k).integrable_mul (int_mul_pow hY1 hY2 i j) (hJ1 k)
  have g2 : ∀ i j k l : ℕ, Integrable (fun ω => Y1 ω ^ i * Y2 ω ^ j * J1 ω ^ k * J2 ω ^ l) P := fun i j k l =>
    (i2 i j k l).integrable_mul (g1 i j k) (hJ2 l)
  have e : ∀ i j k l : ℕ, ∫ ω, Y1 ω ^ i * Y2 ω ^ j * J1 ω ^ k * J2 ω ^ l ∂P = (∫ ω, Y1 ω ^ i * Y2 ω ^ j ∂P) * z k * z l :=
    fun i j k l => by
      have s1 := (i2 i j k l).integral_fun_mul_eq_mul_integral (g1 i j k).aestronglyMeasurable (hJ2 l).aestronglyMeasurable
      have s2 := (i1 i j k).integral_fun_mul_eq_mul_integral (int_mul_pow hY1 hY2 i j).aestronglyMeasurable
        (hJ1 k).aestronglyMeasurable
      rw [s1, s2, z1, z2]
  have ex : ∀ ω, (Y1 ω + J1 ω) ^ a * (Y2 ω + J2 ω) ^ b = ∑ i ∈ Finset.range (a + 1), ∑ j ∈ Finset.range (b + 1),
      Y1 ω ^ i * Y2 ω ^ j * J1 ω ^ (a - i) * J2 ω ^ (b - j) * ((a.choose i : ℝ) * (b.choose j : ℝ)) := fun ω => by
    rw [add_pow, add_pow, Finset.sum_mul_sum]
    exact Finset.sum_congr rfl fun i _ => Finset.sum_congr rfl fun j _ => by ring
  simp only [ex]
  rw [integral_finsetSum _ fun i _ => integrable_finsetSum _ fun j _ => (g2 _ _ _ _).mul_const _, conv2, conv]
  refine Finset.sum_congr rfl fun i _ => ?_
  rw [integral_finsetSum _ fun j _ => (g2 _ _ _ _).mul_const _, conv, Finset.sum_mul, Finset.mul_sum]
  refine Finset.sum_congr rfl fun j _ => ?_
  rw [integral_mul_const, e]
  ring

end

/-! ### the law of the jumps -/

section
variable {α κ : Type} [MeasurableSpace α] {V : Ω → α} {D : ℕ → ℕ → κ → Ω → ℝ} {M : ℕ → Ω → ℕ} {G : ℕ → ℕ → Ω → ℝ}
  {Λ : ℝ≥0} (h : DrawsJ P V D M G Λ)

include h in
theorem drawn_le (o) : drawn V D M G o ≤ mΩ := by
  rcases o with (_ | q) | ⟨i, _ | l⟩
  · exact h.draws.measV.comap_le
  · exact (h.draws.meas _ _ _).comap_le
  · exact (h.measM i).comap_le
  · exact (h.measG i l).comap_le

/-- what is known from everything but the jumps -/
def base (V : Ω → α) (D : ℕ → ℕ → κ → Ω → ℝ) (M : ℕ → Ω → ℕ) (G : ℕ → ℕ → Ω → ℝ) : MeasurableSpace Ω :=
  fil (drawn V D M G) (Set.range Sum.inl)

/-- what is known from the jumps of sample `i` -/
def jump (V : Ω → α) (D : ℕ → ℕ → κ → Ω → ℝ) (M : ℕ → Ω → ℕ) (G : ℕ → ℕ → Ω → ℝ) (i : ℕ) : MeasurableSpace Ω :=
  fil (drawn V D M G) {o | ∃ x, o = Sum.inr (i, x)}

omit mΩ in
theorem past_base (i j : ℕ) : past V D i j ≤ base V D M G :=
  iSup₂_le fun o _ => le_fil (drawn V D M G) (i := Sum.inl o) ⟨o, rfl⟩

include h in
theorem base_le : base V D M G ≤ mΩ := fil_le _ (drawn_le h) _

include h in
theorem jump_le (i : ℕ) : jump V D M G i ≤ mΩ := fil_le _ (drawn_le h) _

include h in
theorem indep_jump (i : ℕ) : Indep (base V D M G) (jump V D M G i) P := by
  refine indep_iSup_of_disjoint (drawn_le h) h.indep (Set.disjoint_left.2 ?_)
  rintro _ ⟨o, rfl⟩ ⟨x, hx⟩
  cases hx

include h in
theorem indep_jump2 (i j : ℕ) (hij : i ≠ j) : Indep (base V D M G ⊔ jump V D M G i) (jump V D M G j) P := by
  have e : base V D M G ⊔ jump V D M G i = fil (drawn V D M G) (Set.range Sum.inl ∪ {o | ∃ x, o = Sum.inr (i, x)}) := by
    rw [base, jump, fil, fil, fil, iSup_union]
  rw [e]
  refine indep_iSup_of_disjoint (drawn_le h) h.indep (Set.disjoint_left.2 ?_)
  rintro _ (⟨o, rfl⟩ | ⟨x, rfl⟩) ⟨y, hy⟩
  · cases hy
  · cases hy
    exact hij rfl

/-- the sum of the jumps of sample `i` -/
noncomputable def js (M : ℕ → Ω → ℕ) (G : ℕ → ℕ → Ω → ℝ) (μj σj : ℝ) (i : ℕ) (ω : Ω) : ℝ :=
  jumps (M i ω) μj σj fun l => G i l ω

theorem meas_jumps (μj σj : ℝ) : Measurable fun q : ℕ × (ℕ → ℝ) => jumps q.1 μj σj q.2 := by
  refine measurable_from_prod_countable_right fun n => ?_
  unfold jumps
  dsimp only
  exact Measurable.const_add (Measurable.const_mul (Finset.measurable_fun_sum _ fun l _ => measurable_pi_apply l) _) _

omit mΩ in
theorem js_meas (μj σj : ℝ) (i : ℕ) : Measurable[jump V D M G i] (js M G μj σj i) := by
  have m1 : Measurable[jump V D M G i] (M i) :=
    (comap_measurable (M i)).mono (le_fil (drawn V D M G) (i := Sum.inr (i, none)) ⟨none, rfl⟩) le_rfl
  have m2 : Measurable[jump V D M G i] fun ω l => G i l ω := by
    rw [@measurable_pi_iff]
    intro l
    exact (comap_measurable (G i l)).mono (le_fil (drawn V D M G) (i := Sum.inr (i, some l)) ⟨some l, rfl⟩) le_rfl
  exact (meas_jumps μj σj).comp (m1.prodMk m2)

theorem normal_shift (μj σj : ℝ) : (gaussianReal 0 1).map (fun x => μj + σj * x) = gaussianReal μj (σj ^ 2).toNNReal := by
  have e : (fun x => μj + σj * x) = (fun x => μj + x) ∘ fun x => σj * x := rfl
  rw [e, ← Measure.map_map (by fun_prop) (by fun_prop), gaussianReal_map_const_mul, gaussianReal_map_const_add]
  congr 1
  · ring
  · rw [mul_one]
    ext
    simp [sq_nonneg]

include h in
/-- the law of the sum of `n` jumps -/
theorem sum_law (μj σj : ℝ) (i n : ℕ) : P.map (fun ω => jumps n μj σj fun l => G i l ω) =
    Cpp.sumLaw (gaussianReal μj (σj ^ 2).toNNReal) n := by
  induction n with
  | zero =>
    simp [jumps, Cpp.sumLaw, Measure.map_const]
  | succ n ih =>
    have m1 : Measurable[fil (drawn V D M G) {o | ∃ l, l < n ∧ o = Sum.inr (i, some l)}]
        fun ω => jumps n μj σj fun l => G i l ω := by
      unfold jumps
      refine Measurable.const_add (Measurable.const_mul (Finset.measurable_fun_sum _ fun l hl => ?_) _) _
      exact (comap_measurable (G i l)).mono (le_fil (drawn V D M G) (i := Sum.inr (i, some l))
        ⟨l, Finset.mem_range.1 hl, rfl⟩) le_rfl
    have m2 : Measurable[fil (drawn V D M G) {o | o = Sum.inr (i, some n)}] fun ω => μj + σj * G i n ω := by
      refine Measurable.const_add (Measurable.const_mul ?_ _) _
      exact (comap_measurable (G i n)).mono (le_fil (drawn V D M G) (i := Sum.inr (i, some n)) rfl) le_rfl
    have hi : IndepFun (fun ω => jumps n μj σj fun l => G i l ω) (fun ω => μj + σj * G i n ω) P := by
      rw [IndepFun_iff_Indep]
      refine indep_of_indep_of_le_left (indep_of_indep_of_le_right
        (indep_iSup_of_disjoint (drawn_le h) h.indep (Set.disjoint_left.2 ?_)) m2.comap_le) m1.comap_le
      rintro o ⟨l, hl, rfl⟩ ho
      have : l = n := by simpa using ho
      omega
    have k1 := m1.mono (fil_le _ (drawn_le h) _) le_rfl
    have k2 := m2.mono (fil_le _ (drawn_le h) _) le_rfl
    have e : (fun ω => jumps (n + 1) μj σj fun l => G i l ω) =
        (fun ω => jumps n μj σj fun l => G i l ω) + fun ω => μj + σj * G i n ω := by
      funext ω
      simp only [jumps, Finset.sum_range_succ, Pi.add_apply, Nat.cast_succ]
      ring
    have l2 : P.map (fun ω => μj + σj * G i n ω) = gaussianReal μj (σj ^ 2).toNNReal := by
      rw [← normal_shift, ← h.lawG i n, Measure.map_map (by fun_prop) (h.measG i n)]
      rfl
    rw [e, hi.map_add_eq_map_conv_map k1 k2, ih, l2, Cpp.sumLaw]

include h in
/-- the sum of the jumps is a compound Poisson variable -/
theorem js_law (μj σj : ℝ) (i : ℕ) :
    P.map (js M G μj σj i) = Cpp.cppLaw Λ (gaussianReal μj (σj ^ 2).toNNReal) := by
  have mG : Measurable fun ω l => G i l ω := measurable_pi_iff.2 (h.measG i)
  have m2 : Measurable[fil (drawn V D M G) {o | ∃ l, o = Sum.inr (i, some l)}] fun ω l => G i l ω := by
    rw [@measurable_pi_iff]
    intro l
    exact (comap_measurable (G i l)).mono (le_fil (drawn V D M G) (i := Sum.inr (i, some l)) ⟨l, rfl⟩) le_rfl
  have m1 : Measurable[fil (drawn V D M G) {o | o = Sum.inr (i, none)}] (M i) :=
    (comap_measurable (M i)).mono (le_fil (drawn V D M G) (i := Sum.inr (i, none)) rfl) le_rfl
  have hi : IndepFun (M i) (fun ω l => G i l ω) P := by
    rw [IndepFun_iff_Indep]
    refine indep_of_indep_of_le_left (indep_of_indep_of_le_right
      (indep_iSup_of_disjoint (drawn_le h) h.indep (Set.disjoint_left.2 ?_)) m2.comap_le) m1.comap_le
    rintro o ho ⟨l, rfl⟩
    simp at ho
  have hp := hi.map_prod_eq_prod_map_map (h.measM i).aemeasurable mG.aemeasurable
  have e : js M G μj σj i = (fun q : ℕ × (ℕ → ℝ) => jumps q.1 μj σj q.2) ∘ fun ω => (M i ω, fun l => G i l ω) := rfl
  rw [e, ← Measure.map_map (meas_jumps μj σj) ((h.measM i).prodMk mG), hp, h.lawM]
  have : IsProbabilityMeasure (P.map fun ω l => G i l ω) := Measure.isProbabilityMeasure_map mG.aemeasurable
  ext A hA
  rw [Measure.map_apply (meas_jumps μj σj) hA, Measure.prod_apply (meas_jumps μj σj hA), Cpp.cppLaw,
    Measure.bind_apply hA (measurable_of_countable _).aemeasurable]
  refine lintegral_congr fun n => ?_
  have k : Measurable fun ω => jumps n μj σj fun l => G i l ω :=
    (meas_jumps μj σj).comp ((measurable_const (a := n)).prodMk mG)
  have k2 : MeasurableSet (Prod.mk n ⁻¹' ((fun q : ℕ × (ℕ → ℝ) => jumps q.1 μj σj q.2) ⁻¹' A)) :=
    measurable_prodMk_left (meas_jumps μj σj hA)
  rw [← sum_law h μj σj i n, Measure.map_apply k hA, Measure.map_apply mG k2]
  rfl

/-! ### the returns with jumps -/

include h in
theorem indep_y {Y : Ω → ℝ} (hY : Measurable[base V D M G] Y) (μj σj : ℝ) (i : ℕ) : IndepFun Y (js M G μj σj i) P := by
  rw [IndepFun_iff_Indep]
  exact indep_of_indep_of_le_left (indep_of_indep_of_le_right (indep_jump h i) (js_meas μj σj i).comap_le) hY.comap_le

include h in
theorem indep_yy {Y Z : Ω → ℝ} (hY : Measurable[base V D M G] Y) (hZ : Measurable[base V D M G] Z) (μj σj : ℝ) (i : ℕ) :
    IndepFun (fun ω => (Y ω, Z ω)) (js M G μj σj i) P := by
  rw [IndepFun_iff_Indep]
  exact indep_of_indep_of_le_left (indep_of_indep_of_le_right (indep_jump h i) (js_meas μj σj i).comap_le)
    (hY.prodMk hZ).comap_le

include h in
theorem indep_yyj {Y Z : Ω → ℝ} (hY : Measurable[base V D M G] Y) (hZ : Measurable[base V D M G] Z) (μj σj : ℝ)
    (i j : ℕ) (hij : i ≠ j) : IndepFun (fun ω => ((Y ω, Z ω), js M G μj σj i ω)) (js M G μj σj j) P := by
  rw [IndepFun_iff_Indep]
  refine indep_of_indep_of_le_left (indep_of_indep_of_le_right (indep_jump2 h i j hij) (js_meas μj σj j).comap_le) ?_
  have a1 : Measurable[base V D M G ⊔ jump V D M G i] Y := hY.mono le_sup_left le_rfl
  have a2 : Measurable[base V D M G ⊔ jump V D M G i] Z := hZ.mono le_sup_left le_rfl
  have a3 : Measurable[base V D M G ⊔ jump V D M G i] (js M G μj σj i) := (js_meas μj σj i).mono le_sup_right le_rfl
  exact ((a1.prodMk a2).prodMk a3).comap_le

include h in
theorem js_measurable (μj σj : ℝ) (i : ℕ) : Measurable (js M G μj σj i) := (js_meas μj σj i).mono (jump_le h i) le_rfl

include h in
theorem js_integrable (μj σj : ℝ) (i l : ℕ) : Integrable (fun ω => js M G μj σj i ω ^ l) P := by
  have k : Integrable (fun x : ℝ => x ^ l) _ := Cpp.cpp_integrable_pow Λ μj (σj ^ 2).toNNReal l
  rw [← js_law h μj σj i] at k
  exact (integrable_map_measure (g := fun x : ℝ => x ^ l) (Measurable.aestronglyMeasurable (by fun_prop)) (js_measurable h μj σj i).aemeasurable).1 k

include h in
theorem js_integral (μj σj : ℝ) (i : ℕ) (f : ℝ → ℝ) (hf : Measurable f) :
    ∫ ω, f (js M G μj σj i ω) ∂P = ∫ z, f z ∂Cpp.cppLaw Λ (gaussianReal μj (σj ^ 2).toNNReal) := by
  rw [← js_law h μj σj i, integral_map (js_measurable h μj σj i).aemeasurable hf.aestronglyMeasurable]

end

theorem tendsto_conv {a : ℕ → ℕ → ℝ} {b z : ℕ → ℝ} (l : ℕ) (h : ∀ i ≤ l, Tendsto (fun n => a n i) atTop (𝓝 (b i))) :
    Tendsto (fun n => conv (a n) z l) atTop (𝓝 (conv b z l)) :=
  tendsto_finsetSum _ fun i hi => ((h i (by have := Finset.mem_range.1 hi; omega)).mul_const _).const_mul _

theorem tendsto_conv2 {a : ℕ → ℕ → ℕ → ℝ} {b : ℕ → ℕ → ℝ} {z : ℕ → ℝ} (l1 l2 : ℕ)
    (h : ∀ i j, Tendsto (fun n => a n i j) atTop (𝓝 (b i j))) :
    Tendsto (fun n => conv2 (a n) z l1 l2) atTop (𝓝 (conv2 b z l1 l2)) :=
  tendsto_conv (a := fun n i => conv (a n i) z l2) l1 fun i _ => tendsto_conv l2 fun j _ => h i j

theorem conv2_cov (d : ℕ → ℕ → ℝ) (x y z : ℕ → ℝ) (a b : ℕ) :
    conv2 d z a b - conv x z a * conv y z b = conv2 (fun i j => d i j - x i * y j) z a b := by
  simp only [conv2, conv_sub, conv_const_mul, conv_mul]

section
variable {α κ : Type} [MeasurableSpace α] {V : Ω → α} {D : ℕ → ℕ → ℕ → κ → Ω → ℝ} {M : ℕ → ℕ → Ω → ℕ}
  {G : ℕ → ℕ → ℕ → Ω → ℝ} {Λ : ℝ≥0} (hD : ∀ n, DrawsJ P V (D n) (M n) (G n) Λ)

include hD in
/-- the moments and the central moments of the returns with jumps -/
theorem jump_limits (μj σj : ℝ) (i : ℕ) {Y X : ℕ → Ω → ℝ}
    (hm : ∀ n, 0 < n → Measurable[base V (D n) (M n) (G n)] (Y n))
    (hi : ∀ l n, 0 < n → Integrable (fun ω => Y n ω ^ l) P)
    (hX : ∀ n, 0 < n → ∀ ω, X n ω = Y n ω + js (M n) (G n) μj σj i ω) {a b : ℕ → ℝ}
    (ha : ∀ l, Tendsto (fun n => ∫ ω, Y n ω ^ l ∂P) atTop (𝓝 (a l)))
    (hb : ∀ l, Tendsto (fun n => ∫ ω, (Y n ω - ∫ ω', Y n ω' ∂P) ^ l ∂P) atTop (𝓝 (b l))) (l : ℕ) :
    (∀ n, 0 < n → Integrable (fun ω => X n ω ^ l) P) ∧
    Tendsto (fun n => ∫ ω, X n ω ^ l ∂P) atTop
      (𝓝 (conv a (fun k => ∫ z, z ^ k ∂Cpp.cppLaw Λ (gaussianReal μj (σj ^ 2).toNNReal)) l)) ∧
    Tendsto (fun n => ∫ ω, (X n ω - ∫ ω', X n ω' ∂P) ^ l ∂P) atTop
      (𝓝 (conv b (fun k => ∫ z, (z - ∫ z', z' ∂Cpp.cppLaw Λ (gaussianReal μj (σj ^ 2).toNNReal)) ^ k
        ∂Cpp.cppLaw Λ (gaussianReal μj (σj ^ 2).toNNReal)) l)) := by
  have e : ∀ n, 0 < n → X n = fun ω => Y n ω + js (M n) (G n) μj σj i ω := fun n hn => funext (hX n hn)
  have s := fun n hn => sum_pow_int (indep_y (hD n) (hm n hn) μj σj i) (fun l => hi l n hn)
    (fun l => js_integrable (hD n) μj σj i l)
  refine ⟨fun n hn => ?_, ?_, ?_⟩
  · rw [e n hn]
    exact (s n hn l).1
  · refine (tendsto_conv l fun i _ => ha i).congr' ?_
    filter_upwards [eventually_gt_atTop 0] with n hn
    rw [e n hn, (s n hn l).2]
    refine congrArg (fun z => conv _ z l) (funext fun k => ?_)
    exact (js_integral (hD n) μj σj i (fun x => x ^ k) (by fun_prop)).symm
  · refine (tendsto_conv l fun i _ => hb i).congr' ?_
    filter_upwards [eventually_gt_atTop 0] with n hn
    rw [e n hn, sum_cpow_int (indep_y (hD n) (hm n hn) μj σj i) (fun l => hi l n hn)
      (fun l => js_integrable (hD n) μj σj i l)]
    refine congrArg (fun z => conv _ z l) (funext fun k => ?_)
    have h1 := js_integral (hD n) μj σj i (fun x => x) (by fun_prop)
    rw [h1]
    exact (js_integral (hD n) μj σj i (fun x => (x - _) ^ k) (by fun_prop)).symm

include hD in
/-- the covariances of the returns with jumps -/
theorem jump_limits_cov (μj σj : ℝ) (i j : ℕ) (hij : i ≠ j) {Y X Y' X' : ℕ → Ω → ℝ}
    (hm : ∀ n, 0 < n → Measurable[base V (D n) (M n) (G n)] (Y n))
    (hm' : ∀ n, 0 < n → Measurable[base V (D n) (M n) (G n)] (Y' n))
    (hi : ∀ l n, 0 < n → Integrable (fun ω => Y n ω ^ l) P) (hi' : ∀ l n, 0 < n → Integrable (fun ω => Y' n ω ^ l) P)
    (hX : ∀ n, 0 < n → ∀ ω, X n ω = Y n ω + js (M n) (G n) μj σj i ω)
    (hX' : ∀ n, 0 < n → ∀ ω, X' n ω = Y' n ω + js (M n) (G n) μj σj j ω) {c : ℕ → ℕ → ℝ}
    (hc : ∀ a b, Tendsto (fun n => (∫ ω, Y n ω ^ a * Y' n ω ^ b ∂P) - (∫ ω, Y n ω ^ a ∂P) * ∫ ω, Y' n ω ^ b ∂P) atTop
      (𝓝 (c a b))) (l1 l2 : ℕ) :
    Tendsto (fun n => (∫ ω, X n ω ^ l1 * X' n ω ^ l2 ∂P) - (∫ ω, X n ω ^ l1 ∂P) * ∫ ω, X' n ω ^ l2 ∂P) atTop
      (𝓝 (conv2 c (fun k => ∫ z, z ^ k ∂Cpp.cppLaw Λ (gaussianReal μj (σj ^ 2).toNNReal)) l1 l2)) := by
  refine (tendsto_conv2 l1 l2 hc).congr' ?_
  filter_upwards [eventually_gt_atTop 0] with n hn
  have e : X n = fun ω => Y n ω + js (M n) (G n) μj σj i ω := funext (hX n hn)
  have e' : X' n = fun ω => Y' n ω + js (M n) (G n) μj σj j ω := funext (hX' n hn)
  have z1 := fun j k => js_integral (hD n) μj σj j (fun x => x ^ k) (by fun_prop)
  rw [← conv2_cov]
  rw [e, e', (sum_pow_int (indep_y (hD n) (hm n hn) μj σj i) (fun l => hi l n hn)
      (fun l => js_integrable (hD n) μj σj i l) l1).2, (sum_pow_int (indep_y (hD n) (hm' n hn) μj σj j) (fun l => hi' l n hn)
      (fun l => js_integrable (hD n) μj σj j l) l2).2,
    sum2_int (indep_yy (hD n) (hm n hn) (hm' n hn) μj σj i) (indep_yyj (hD n) (hm n hn) (hm' n hn) μj σj i j hij)
      (fun l => hi l n hn) (fun l => hi' l n hn) (fun l => js_integrable (hD n) μj σj i l)
      (fun l => js_integrable (hD n) μj σj j l) (z1 i) (z1 j) l1 l2]
  simp only [z1]

end

end Ajd.Euler
