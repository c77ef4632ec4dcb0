import Verif.Props.CondSde
import Verif.Props.JumpAvg
import Verif.Props.Law

/-! C78: the moments given the jumps are the moments of a probability distribution. -/

namespace Ajd.Gen
open MvPolynomial MeasureTheory Filter Topology Dyn

variable {σ : Type} [Fintype σ] {N : ℕ} {s : Fin N → ℝ} {κ : Fin N → Measure (σ → ℝ)}

/-- A closed set that the process and its jumps do not leave: the expectation of a polynomial that is not negative there
is not negative. -/
theorem dynkinAt_pos {c : JumpDiff σ} {b : σ → MvPolynomial σ ℝ} {a : σ → σ → MvPolynomial σ ℝ} (h : PolyCoef c b a)
    (hν : Mom c.ν) (hs : Times s) (hκ : ∀ i, Mom (κ i)) {D : Set (σ → ℝ)} (hD : Viable c D)
    (hj : ∀ i, ∀ᵐ y ∂κ i, ∀ x ∈ D, x + y ∈ D) {E0 : MvPolynomial σ ℝ →ₗ[ℝ] ℝ}
    {E : ℝ → MvPolynomial σ ℝ →ₗ[ℝ] ℝ} (hE : c.DynkinAt s κ E0 E) (h0 : ∀ f, (∀ x ∈ D, 0 ≤ eval x f) → 0 ≤ E0 f) (t : ℝ)
    (ht : 0 ≤ t) (f : MvPolynomial σ ℝ) (hf : ∀ x ∈ D, 0 ≤ eval x f) : 0 ≤ E t f := by
  have hsol := dynkinAt_sol h hν hs hκ hE
  have between : ∀ u t, 0 ≤ u → u ≤ t → JumpDiff.Quiet s u t → (∀ f, (∀ x ∈ D, 0 ≤ eval x f) → 0 ≤ E u f) →
      ∀ f, (∀ x ∈ D, 0 ≤ eval x f) → 0 ≤ E t f := by
    intro u t hu hut hq hp f hf
    obtain ⟨Q, hQ⟩ := dynkin_exists h hν
    have hF := hQ (E u)
    obtain ⟨hFs, hF0⟩ := dynkin_sol h hν hF
    have e : E t - (E u ∘ₗ Q (t - u)) = 0 := by
      refine zero_on (op_lf b a c.lam c.ν hν h.db h.da) (L := fun t => E t - (E u ∘ₗ Q (t - u))) hut (fun g => ?_) (fun g r hr => ?_) ?_
      · refine (hE.cont g u t hu hq).sub ?_
        intro r hr
        have h1 : ContinuousOn (fun t => (E u ∘ₗ Q t) g) (Set.Ici 0) := fun x hx => (hFs g x hx).continuousWithinAt
        have h2 := h1.comp (f := fun r => r - u) (s := Set.Icc u t) (by fun_prop) fun x hx => sub_nonneg.2 hx.1
        exact h2 r hr
      · refine (hsol.deriv g r (hu.trans hr.1)).sub ?_
        have h1 := (hFs g (r - u) (sub_nonneg.2 hr.1)).mono (Set.Ici_subset_Ici.2 (sub_nonneg.2 hr.1))
        have h2 := h1.scomp r ((hasDerivAt_id r).sub_const u).hasDerivWithinAt (s := Set.Ici r) fun x hx =>
          sub_le_sub_right hx u
        simpa [Function.comp_def] using h2
      · simp only [sub_self, hF0]
    rw [sub_eq_zero] at e
    rw [e]
    exact dynkin_pos h hν hD hF hp (t - u) (sub_nonneg.2 hut) f hf
  obtain ⟨n, hn⟩ : ∃ n, n = (Finset.univ.filter fun i => s i ≤ t).card := ⟨_, rfl⟩
  induction n using Nat.strong_induction_on generalizing t f with
  | _ n ih =>
    by_cases he : (Finset.univ.filter fun i => s i ≤ t).Nonempty
    · obtain ⟨m, hm, hmax⟩ := Finset.exists_max_image _ s he
      rw [Finset.mem_filter] at hm
      have hm0 := hs.pos m
      refine between (s m) t hm0.le hm.2 (fun i hc => ?_) (fun g hg => ?_) f hf
      · have := hmax i (Finset.mem_filter.2 ⟨Finset.mem_univ _, hc.2⟩)
        linarith [hc.1]
      · obtain ⟨M, hM, e⟩ := hsol.left (s m) hm0
        rw [e, jat_at hs, LinearMap.comp_apply]
        refine ge_of_tendsto (hM _) ?_
        filter_upwards [Ioo_mem_nhdsLT hm0] with u hu
        refine ih _ ?_ u hu.1.le _ (fun x hx => ?_) rfl
        · rw [hn]
          refine Finset.card_lt_card ⟨fun x hx => ?_, fun hs' => ?_⟩
          · rw [Finset.mem_filter] at hx ⊢
            exact ⟨hx.1, hx.2.trans (hu.2.le.trans hm.2)⟩
          · have := hs' (Finset.mem_filter.2 ⟨Finset.mem_univ _, hm.2⟩)
            rw [Finset.mem_filter] at this
            linarith [this.2, hu.2]
        · rw [eval_jump]
          refine integral_nonneg_of_ae ?_
          filter_upwards [hj m] with y hy
          exact hg _ (hy x hx)
    · exact between 0 t le_rfl ht (fun i hc => he ⟨i, Finset.mem_filter.2 ⟨Finset.mem_univ _, hc.2⟩⟩)
        (by rw [hE.start]; exact h0) f hf

/-- the law of the process given the jumps -/
theorem exists_lawAt {c : JumpDiff σ} {b : σ → MvPolynomial σ ℝ} {a : σ → σ → MvPolynomial σ ℝ} (h : PolyCoef c b a)
    (hν : Mom c.ν) (hs : Times s) (hκ : ∀ i, Mom (κ i)) (hp : ∀ i, IsProbabilityMeasure (κ i)) {D : Set (σ → ℝ)}
    (hD : Viable c D) (hne : D.Nonempty)
    (hj : ∀ i, ∀ᵐ y ∂κ i, ∀ x ∈ D, x + y ∈ D) {E0 : MvPolynomial σ ℝ →ₗ[ℝ] ℝ}
    {E : ℝ → MvPolynomial σ ℝ →ₗ[ℝ] ℝ} (hE : c.DynkinAt s κ E0 E) (h0 : ∀ f, (∀ x ∈ D, 0 ≤ eval x f) → 0 ≤ E0 f)
    (h1 : E0 1 = 1) (t : ℝ) (ht : 0 ≤ t) : ∃ P : Measure (σ → ℝ), IsProbabilityMeasure P ∧ (∀ᵐ x ∂P, x ∈ D) ∧
      ∀ f, Integrable (fun x => eval x f) P ∧ E t f = ∫ x, eval x f ∂P := by
  obtain ⟨P, hs', hf⟩ := haviland hD.closed hne (L := E t) fun f hf => dynkinAt_pos h hν hs hκ hD hj hE h0 t ht f hf
  exact ⟨P, prob_of hf ((dynkinAt_one h hν hs hκ hp hE ht).trans h1), hs', hf⟩

end Ajd.Gen

namespace Ajd
open MvPolynomial MeasureTheory Gen

namespace SrjdJ
open ItoCond

theorem cir_viable {k θ σ : ℝ} (hk : 0 ≤ k * θ) : Viable (Ito.cir k θ σ) (orth {0}) := by
  refine viable_orth ?_ ?_ le_rfl ?_
  · rintro x hx i rfl h0
    simp only [Ito.cir, Matrix.cons_val_zero, h0, sub_zero]
    exact hk
  · intro x hx
    refine ⟨1, ![σ ^ 2 * x 0], ![![1]], fun i j => ?_, fun r => ?_⟩
    · fin_cases i; fin_cases j; simp [Ito.cir]
    · have hx0 : 0 ≤ x 0 := hx 0 rfl
      fin_cases r
      by_cases h : x 0 = 0
      · left; simp [h]
      · right
        refine ⟨by simp; positivity, fun i hi h' => ?_⟩
        obtain rfl := hi
        exact absurd h' h
  · exact (ae_dirac_iff (orth_closed _).measurableSet).2 fun i _ => le_rfl

/-- C78. SRJD: the moments and central moments of the variance given the jumps are those of a probability distribution on
the non-negative numbers. -/
theorem C78_srjd (p : Par) (hp : p.OK) (hd : p.jumptime.Nodup) (ht : ∀ s ∈ p.jumptime, 0 < s) (hθ : 0 ≤ p.k * p.theta)
    (hv : 0 ≤ p.v0) (hJ : ∀ x ∈ p.jumpsize, 0 ≤ x) :
    ∃ P : Measure ℝ, IsProbabilityMeasure P ∧ (∀ᵐ v ∂P, 0 ≤ v) ∧ (∀ n : ℕ, Integrable (fun v => v ^ n) P) ∧
      ∀ n : ℕ, ∃ c, ∀ fuel, c ≤ fuel → mV fuel n p = some (.ok (∫ v, v ^ n ∂P)) ∧
        cmV fuel n p = some (.ok (∫ v, (v - ∫ z, z ∂P) ^ n ∂P)) := by
  have hl : ∀ i : Fin p.jumpsize.length, (i : ℕ) < p.jumptime.length := fun i => i.2.trans_eq hp.len.symm
  have hs : Times p.cir.s := by
    constructor
    · intro i j e
      change p.jumptime.getD i 0 = p.jumptime.getD j 0 at e
      rw [List.getD_eq_getElem _ _ (hl i), List.getD_eq_getElem _ _ (hl j)] at e
      exact Fin.ext ((hd.getElem_inj_iff (hi := hl i) (hj := hl j)).1 e)
    · intro i
      change 0 < p.jumptime.getD i 0
      rw [List.getD_eq_getElem _ _ (hl i)]
      exact ht _ (List.getElem_mem _)
  obtain ⟨E, hE, -⟩ := C37_law p.cir hs.pos hs.inj
  obtain ⟨P, hP, hpos, hf⟩ := exists_lawAt (coef1 p.k p.theta p.sigma) (mom1 _ _ _) hs (fun _ => CondJ.mom_dirac _)
    (fun _ => inferInstance) (cir_viable hθ) ⟨0, fun i _ => le_rfl⟩ (fun i => by
      have hm : ![p.cir.J i] ∈ orth {(0 : Fin 1)} := by
        rintro j rfl
        change 0 ≤ p.jumpsize.getD i 0
        rw [List.getD_eq_getElem _ _ i.2]
        exact hJ _ (List.getElem_mem _)
      have : ∀ᵐ y ∂Measure.dirac ![p.cir.J i], y ∈ orth {(0 : Fin 1)} :=
        (ae_dirac_iff (orth_closed _).measurableSet).2 hm
      filter_upwards [this] with y hy x hx j hj
      exact add_nonneg (hx j hj) (hy j hj)) hE (fun f hf => by
      rw [AlgHom.toLinearMap_apply, aeval_eq_eval]
      exact hf _ (by rintro i rfl; exact hv)) (by simp) p.h hp.h
  have L := Sv.law_fst hf 0 (m := fun l => .ok (E p.h (X 0 ^ l))) (cm := fun l => .ok (E p.h ((X 0 - C (E p.h (X 0))) ^ l)))
    (fun _ => rfl) fun _ => rfl
  refine ⟨_, L.prob, ?_, L.int, fun n => ?_⟩
  · refine (ae_map_iff (f := fun x : Fin 1 → ℝ => x 0) (p := fun v : ℝ => 0 ≤ v) (measurable_pi_apply 0).aemeasurable
      measurableSet_Ici).2 ?_
    filter_upwards [hpos] with x hx
    exact hx 0 rfl
  · obtain ⟨c, hc⟩ := C37_sde n p hp hd ht
    refine ⟨c, fun fuel hfu => ?_⟩
    rw [← L.m n, ← L.cm n]
    exact hc fuel hfu E hE

/-- C78. SRJD: the inequality of Cauchy and Schwarz for the moments given the jumps. -/
theorem C78_srjd_ineq (p : Par) (hp : p.OK) (hd : p.jumptime.Nodup) (ht : ∀ s ∈ p.jumptime, 0 < s) (hθ : 0 ≤ p.k * p.theta)
    (hv : 0 ≤ p.v0) (hJ : ∀ x ∈ p.jumpsize, 0 ≤ x) (a b : ℕ) :
    ∃ x y z w, (∃ c, ∀ fuel, c ≤ fuel → mV fuel (2 * a : ℕ) p = some (.ok x) ∧ mV fuel (2 * b : ℕ) p = some (.ok y) ∧
      mV fuel (a + b : ℕ) p = some (.ok z) ∧ cmV fuel (2 * a : ℕ) p = some (.ok w)) ∧ z ^ 2 ≤ x * y ∧ 0 ≤ x ∧ 0 ≤ z ∧ 0 ≤ w := by
  obtain ⟨P, hP, hpos, hi, hm⟩ := C78_srjd p hp hd ht hθ hv hJ
  obtain ⟨c1, h1⟩ := hm (2 * a)
  obtain ⟨c2, h2⟩ := hm (2 * b)
  obtain ⟨c3, h3⟩ := hm (a + b)
  refine ⟨∫ v, v ^ (2 * a) ∂P, ∫ v, v ^ (2 * b) ∂P, ∫ v, v ^ (a + b) ∂P, ∫ v, (v - ∫ z, z ∂P) ^ (2 * a) ∂P,
    ⟨max c1 (max c2 c3), fun fuel hfu => ?_⟩, ?_, ?_, ?_, ?_⟩
  · exact ⟨(h1 fuel (by omega)).1, (h2 fuel (by omega)).1, (h3 fuel (by omega)).1, (h1 fuel (by omega)).2⟩
  · have q : ∀ r : ℝ, 0 ≤ (∫ v, v ^ (2 * a) ∂P) * (r * r) + (-2 * ∫ v, v ^ (a + b) ∂P) * r + ∫ v, v ^ (2 * b) ∂P := by
      intro r
      have e : (∫ v, v ^ (2 * a) ∂P) * (r * r) + (-2 * ∫ v, v ^ (a + b) ∂P) * r + ∫ v, v ^ (2 * b) ∂P =
          ∫ v, (r * v ^ a - v ^ b) ^ 2 ∂P := by
        have i1 := (hi (2 * a)).const_mul (r * r)
        have i2 := (hi (a + b)).const_mul (-2 * r)
        have i12 : Integrable (fun v : ℝ => r * r * v ^ (2 * a) + -2 * r * v ^ (a + b)) P := i1.add i2
        have : ∀ v : ℝ, (r * v ^ a - v ^ b) ^ 2 = r * r * v ^ (2 * a) + -2 * r * v ^ (a + b) + v ^ (2 * b) := fun v => by ring
        simp only [this]
        rw [integral_add i12 (hi _), integral_add i1 i2, integral_const_mul, integral_const_mul]
        ring
      rw [e]
      exact integral_nonneg fun v => sq_nonneg _
    have := discrim_le_zero q
    rw [discrim] at this
    nlinarith
  · exact integral_nonneg fun v => by rw [pow_mul]; positivity
  · refine integral_nonneg_of_ae ?_
    filter_upwards [hpos] with v hv
    exact pow_nonneg hv _
  · exact integral_nonneg fun v => by simp only [pow_mul]; positivity

/-- two jumps, and all the hypotheses -/
example : ∃ p : Par, p.OK ∧ p.jumptime.Nodup ∧ (∀ s ∈ p.jumptime, 0 < s) ∧ 0 ≤ p.k * p.theta ∧ 0 ≤ p.v0 ∧
    (∀ x ∈ p.jumpsize, 0 ≤ x) ∧ p.jumpsize.length = 2 := by
  refine ⟨{ v0 := 1, k := 1, theta := 1, sigma := 1, h := 3, jumpsize := [1, 5], jumptime := [1, 2] },
    ⟨by norm_num, by norm_num, rfl, ?_⟩, by simp, ?_, by norm_num, by norm_num, ?_, rfl⟩ <;>
  · intro s hs; simp at hs; rcases hs with rfl | rfl <;> norm_num

end SrjdJ

theorem Sv.heston_viable {mu k θ σ ρ : ℝ} (hk : 0 ≤ k * θ) (hρ : 0 ≤ 1 - ρ ^ 2) :
    Viable (Sv.heston mu k θ σ ρ) (orth {0}) := by
  refine viable_orth ?_ ?_ le_rfl ?_
  · rintro x hx i rfl h0
    simp only [Sv.heston, Matrix.cons_val_zero, h0, sub_zero]
    exact hk
  · intro x hx
    refine ⟨2, ![x 0, x 0], ![![σ, ρ], ![0, √(1 - ρ ^ 2)]], fun i j => ?_, fun r => ?_⟩
    · have := Sv.sq_rho hρ
      fin_cases i <;> fin_cases j <;> simp [Sv.heston, Fin.sum_univ_two]
      · ring
      · ring
      · ring
      · rw [this]; ring
    · have h := hx 0 rfl
      rcases h.eq_or_lt with h0 | h0
      · left; fin_cases r <;> simp [← h0]
      · right
        refine ⟨by fin_cases r <;> simpa using h, ?_⟩
        rintro i rfl hi
        exact absurd hi h0.ne'
  · exact (ae_dirac_iff (orth_closed _).measurableSet).2 fun i _ => le_rfl

/-- `P` is the law of the return at the time `t` under the expectation `E` -/
structure PriceLaw (E : ℝ → MvPolynomial (Fin 2) ℝ →ₗ[ℝ] ℝ) (t : ℝ) (P : Measure ℝ) : Prop where
  prob : IsProbabilityMeasure P
  int : ∀ n : ℕ, Integrable (fun y => y ^ n) P
  m : ∀ n : ℕ, E t (X 1 ^ n) = ∫ y, y ^ n ∂P
  cm : ∀ n, cmAt E t n = ∫ y, (y - ∫ z, z ∂P) ^ n ∂P

theorem price_law {N : ℕ} {s : Fin N → ℝ} {κ : Fin N → Measure (Fin 2 → ℝ)} {c : JumpDiff (Fin 2)}
    {b : Fin 2 → MvPolynomial (Fin 2) ℝ} {a : Fin 2 → Fin 2 → MvPolynomial (Fin 2) ℝ} (h : PolyCoef c b a)
    (hν : Mom c.ν) (hs : Times s) (hκ : ∀ i, Mom (κ i)) (hp : ∀ i, IsProbabilityMeasure (κ i))
    (hD : Viable c (orth {0})) (hj : ∀ i, ∀ᵐ y ∂κ i, 0 ≤ y 0) {v : ℝ} (hv : 0 ≤ v)
    {E : ℝ → MvPolynomial (Fin 2) ℝ →ₗ[ℝ] ℝ} (hE : c.DynkinAt s κ (aeval ![v, 0]).toLinearMap E) {t : ℝ} (ht : 0 ≤ t) :
    ∃ P, PriceLaw E t P := by
  obtain ⟨P, hP, -, hf⟩ := exists_lawAt h hν hs hκ hp hD ⟨0, fun i _ => le_rfl⟩ (fun i => by
      filter_upwards [hj i] with y hy x hx j hj
      obtain rfl := hj
      exact add_nonneg (hx 0 rfl) hy) hE (Sv.point_pos hv) (by simp) t ht
  have L := Sv.law_fst hf 1 (m := fun l => .ok (E t (X 1 ^ l))) (cm := fun l => .ok (cmAt E t l)) (fun _ => rfl) fun _ => rfl
  exact ⟨_, L.prob, L.int, fun n => Except.ok.inj (L.m n), fun n => Except.ok.inj (L.cm n)⟩

theorem PriceLaw.var {E : ℝ → MvPolynomial (Fin 2) ℝ →ₗ[ℝ] ℝ} {t : ℝ} {P : Measure ℝ} (h : PriceLaw E t P) (a : ℕ) :
    0 ≤ cmAt E t (2 * a) := by
  rw [h.cm]
  exact integral_nonneg fun v => by simp only [pow_mul]; positivity

theorem getD_nonneg {l : List ℝ} (h : ∀ x ∈ l, 0 ≤ x) (i : ℕ) : 0 ≤ l.getD i 0 := by
  rcases lt_or_ge i l.length with hi | hi
  · rw [List.getD_eq_getElem _ _ hi]
    exact h _ (List.getElem_mem _)
  · rw [List.getD_eq_default _ _ hi]

theorem ae_jump {x : ℝ} (hx : 0 ≤ x) : ∀ᵐ y ∂Measure.dirac (![x, 0] : Fin 2 → ℝ), 0 ≤ y 0 :=
  (ae_dirac_iff (measurableSet_le measurable_const (measurable_pi_apply 0))).2 hx

namespace Svvj

/-- what the variance needs to stay non-negative -/
structure Par.Pos (p : Par) : Prop where
  θ : 0 ≤ p.k * p.θ
  v : 0 ≤ p.v0
  J : ∀ x ∈ p.jumpsize, 0 ≤ x

theorem law (p : Par) (hp : p.OK) (hj : p.Simple) (hpos : p.Pos) : ∃ E P, Given p E ∧ PriceLaw E p.h P := by
  obtain ⟨E, hE⟩ := given_exists p hp.len hj
  obtain ⟨P, hP⟩ := price_law (Sv.hcoef p.μ p.k p.θ p.σ p.ρ) (Sv.hmom _ _ _ _ _) (hj.times hp.len)
    (fun _ => CondJ.mom_dirac _) (fun _ => inferInstance) (Sv.heston_viable hpos.θ hp.ρ)
    (fun i => ae_jump (getD_nonneg hpos.J i)) hpos.v hE hp.h
  exact ⟨E, P, hE, hP⟩

/-- C78, part. SVVJ: full statement: the values of `m(l, par)` and `cm(l, par)` are the moments and the central moments of
one probability distribution. Proved up to order 3, and for all orders if there is no jump. Missing: orders from 4 on with
jumps, where the values are wrong (`C38_cm_sde_wrong`). -/
theorem C78_svvj_partial (p : Par) (hp : p.OK) (hj : p.Simple) (hpos : p.Pos) :
    ∃ P : Measure ℝ, IsProbabilityMeasure P ∧ (∀ n : ℕ, Integrable (fun y => y ^ n) P) ∧
      ∀ l : ℕ, p.jumpsize = [] ∨ l ≤ 3 → ∃ c, ∀ fuel, c ≤ fuel → m fuel l p = some (.ok (∫ y, y ^ l ∂P)) ∧
        (1 ≤ l → cm fuel l p = some (.ok (∫ y, (y - ∫ z, z ∂P) ^ l ∂P))) := by
  obtain ⟨E, P, hE, hP⟩ := law p hp hj hpos
  refine ⟨P, hP.prob, hP.int, fun l hl => ?_⟩
  obtain ⟨x, ⟨c, hc⟩, hx⟩ := C38_m_sde_partial l p hp hj
  rw [hx E hE hl, hP.m] at hc
  rcases Nat.eq_zero_or_pos l with h0 | h1
  · exact ⟨c, fun fuel hfu => ⟨hc fuel hfu, fun h => absurd h (by omega)⟩⟩
  · obtain ⟨y, ⟨d, hd⟩, hy⟩ := C38_cm_sde_partial l h1 p hp hj
    rw [hy E hE hl, hP.cm] at hd
    exact ⟨max c d, fun fuel hfu => ⟨hc fuel (by omega), fun _ => hd fuel (by omega)⟩⟩

/-- C78. SVVJ: the variance given the jumps is not negative. -/
theorem C78_svvj_var (p : Par) (hp : p.OK) (hj : p.Simple) (hpos : p.Pos) :
    ∃ x, (∃ c, ∀ fuel, c ≤ fuel → cm fuel 2 p = some (.ok x)) ∧ 0 ≤ x := by
  obtain ⟨E, P, hE, hP⟩ := law p hp hj hpos
  obtain ⟨x, hc, hx⟩ := C38_cm_sde_partial 2 one_le_two p hp hj
  exact ⟨x, hc, (hx E hE (.inr (by norm_num))).symm ▸ hP.var 1⟩

/-- C78. SVVJ: with `int_e_IEZ_poly` repaired the moments and central moments of all orders are those of one probability
distribution. -/
theorem C78_svvj_repaired (p : Par) (hp : p.OK) (hj : p.Simple) (hpos : p.Pos) :
    ∃ P : Measure ℝ, IsProbabilityMeasure P ∧ (∀ n : ℕ, Integrable (fun y => y ^ n) P) ∧ ∀ l : ℕ,
      (∃ ms, cmomentsWith ItoCond.intEIEZFixed l = .ok ms ∧ ms.length = max l 1 + 1 ∧
        ∀ (n : ℕ) r, ms[n]? = some r → Poly.ev (vC p) r = ∫ y, (y - ∫ z, z ∂P) ^ n ∂P) ∧
      (∃ ms, momentsWith ItoCond.intEIEZFixed l = .ok ms ∧ ms.length = l + 1 ∧
        ∀ (n : ℕ) r, ms[n]? = some r → Poly.ev (vM p) r = ∫ y, y ^ n ∂P) := by
  obtain ⟨E, P, hE, hP⟩ := law p hp hj hpos
  refine ⟨P, hP.prob, hP.int, fun l => ?_⟩
  obtain ⟨⟨cs, e1, l1, h1⟩, ⟨ms, e2, l2, h2⟩⟩ := C38_sde_repaired l
  exact ⟨⟨cs, e1, l1, fun n r hn => (h1 n r hn p hp hj E hE).trans (hP.cm n)⟩,
    ⟨ms, e2, l2, fun n r hn => (h2 n r hn p hp hj E hE).trans (hP.m n)⟩⟩

theorem par1_pos : par1.Pos := ⟨by norm_num [par1], by norm_num [par1], by simp [par1]⟩

example : par1.OK ∧ par1.Simple ∧ par1.Pos ∧ par1.jumpsize ≠ [] := ⟨par1_ok, par1_simple, par1_pos, by simp [par1]⟩

end Svvj

namespace Svij

theorem law (p : Par) (hp : p.toPar.OK) (hj : p.toPar.Simple) (hlam : 0 ≤ p.lam) (hpos : p.toPar.Pos) :
    ∃ E P, Given p E ∧ PriceLaw E p.h P := by
  obtain ⟨E, hE⟩ := given_exists p hp hj
  have h := hE
  rw [Given, Sv.svj_eq] at h
  have hV := Sv.svj_viable (mu := p.μ) (σ := p.σ) (mj := p.μs) (sj := p.σs) hpos.θ hp.ρ hlam
  rw [Sv.svj_eq] at hV
  obtain ⟨P, hP⟩ := price_law (Gen.jmp_coef 1 _ _ _ (Sv.hcoef p.μ p.k p.θ p.σ p.ρ)) (Gen.jmp_mom _ _ _ _ _)
    (hj.times hp.len) (fun _ => CondJ.mom_dirac _) (fun _ => inferInstance) hV
    (fun i => ae_jump (getD_nonneg hpos.J i)) hpos.v h hp.h
  exact ⟨E, P, hE, hP⟩

/-- C78, part. SVIJ, as `Svvj.C78_svvj_partial`. Missing: orders from 4 on with jumps of the variance
(`C48_cm_sde_wrong`). -/
theorem C78_svij_partial (p : Par) (hp : p.toPar.OK) (hj : p.toPar.Simple) (hlam : 0 ≤ p.lam) (hpos : p.toPar.Pos) :
    ∃ P : Measure ℝ, IsProbabilityMeasure P ∧ (∀ n : ℕ, Integrable (fun y => y ^ n) P) ∧
      ∀ l : ℕ, p.jumpsize = [] ∨ l ≤ 3 → ∃ c, ∀ fuel, c ≤ fuel → m fuel l p = some (.ok (∫ y, y ^ l ∂P)) ∧
        (1 ≤ l → cm fuel l p = some (.ok (∫ y, (y - ∫ z, z ∂P) ^ l ∂P))) := by
  obtain ⟨E, P, hE, hP⟩ := law p hp hj hlam hpos
  refine ⟨P, hP.prob, hP.int, fun l hl => ?_⟩
  obtain ⟨x, ⟨c, hc⟩, hx⟩ := C48_m_sde_partial l p hp hj hlam
  rw [hx E hE hl, hP.m] at hc
  rcases Nat.eq_zero_or_pos l with h0 | h1
  · exact ⟨c, fun fuel hfu => ⟨hc fuel hfu, fun h => absurd h (by omega)⟩⟩
  · obtain ⟨y, ⟨d, hd⟩, hy⟩ := C48_cm_sde_partial l h1 p hp hj hlam
    rw [hy E hE hl, hP.cm] at hd
    exact ⟨max c d, fun fuel hfu => ⟨hc fuel (by omega), fun _ => hd fuel (by omega)⟩⟩

/-- C78. SVIJ: the variance given the jumps is not negative. -/
theorem C78_svij_var (p : Par) (hp : p.toPar.OK) (hj : p.toPar.Simple) (hlam : 0 ≤ p.lam) (hpos : p.toPar.Pos) :
    ∃ x, (∃ c, ∀ fuel, c ≤ fuel → cm fuel 2 p = some (.ok x)) ∧ 0 ≤ x := by
  obtain ⟨E, P, hE, hP⟩ := law p hp hj hlam hpos
  obtain ⟨x, hc, hx⟩ := C48_cm_sde_partial 2 one_le_two p hp hj hlam
  exact ⟨x, hc, (hx E hE (.inr (by norm_num))).symm ▸ hP.var 1⟩

/-- C78. SVIJ: all orders, with `int_e_IEZ_poly` repaired. -/
theorem C78_svij_repaired (p : Par) (hp : p.toPar.OK) (hj : p.toPar.Simple) (hlam : 0 ≤ p.lam) (hpos : p.toPar.Pos) :
    ∃ P : Measure ℝ, IsProbabilityMeasure P ∧ (∀ n : ℕ, Integrable (fun y => y ^ n) P) ∧ ∀ l : ℕ,
      (∃ ms, cmomentsWith ItoCond.intEIEZFixed l = .ok ms ∧ ms.length = max l 1 + 1 ∧
        ∀ (n : ℕ) r, ms[n]? = some r → Poly.ev (vC p) r = ∫ y, (y - ∫ z, z ∂P) ^ n ∂P) ∧
      (∃ ms, momentsWith ItoCond.intEIEZFixed l = .ok ms ∧ ms.length = l + 1 ∧
        ∀ (n : ℕ) r, ms[n]? = some r → Poly.ev (vM p) r = ∫ y, y ^ n ∂P) := by
  obtain ⟨E, P, hE, hP⟩ := law p hp hj hlam hpos
  refine ⟨P, hP.prob, hP.int, fun l => ?_⟩
  obtain ⟨⟨cs, e1, l1, h1⟩, ⟨ms, e2, l2, h2⟩⟩ := C48_sde_repaired l
  exact ⟨⟨cs, e1, l1, fun n r hn => (h1 n r hn p hp hj hlam E hE).trans (hP.cm n)⟩,
    ⟨ms, e2, l2, fun n r hn => (h2 n r hn p hp hj hlam E hE).trans (hP.m n)⟩⟩

example : ∃ p : Par, p.toPar.OK ∧ p.toPar.Simple ∧ 0 < p.lam ∧ p.toPar.Pos ∧ p.jumpsize ≠ [] :=
  ⟨⟨Svvj.par1, 1, 0, 1⟩, Svvj.par1_ok, Svvj.par1_simple, one_pos, Svvj.par1_pos, by simp [Svvj.par1]⟩

end Svij

namespace Svcj

theorem law (p : Par) (hp : p.toPar.OK) (hj : p.toPar.Simple) (hpos : p.toPar.Pos) : ∃ E P, Given p E ∧ PriceLaw E p.h P := by
  obtain ⟨E, hE⟩ := given_exists p hp hj
  have hm : ∀ J : ℝ, AEMeasurable (fun y : ℝ => ![J, y]) (ProbabilityTheory.gaussianReal (p.μs + p.ρJ * J) (p.σs ^ 2).toNNReal) :=
    fun J => by fun_prop
  obtain ⟨P, hP⟩ := price_law (Sv.hcoef p.μ p.k p.θ p.σ p.ρ) (Sv.hmom _ _ _ _ _) (hj.times hp.len)
    (fun i => price_mom (p.jumpsize.getD i 0) (p.μs + p.ρJ * p.jumpsize.getD i 0) (p.σs ^ 2).toNNReal)
    (fun i => Measure.isProbabilityMeasure_map (hm _)) (Sv.heston_viable hpos.θ hp.ρ)
    (fun i => (ae_map_iff (hm _) (measurableSet_le measurable_const (measurable_pi_apply 0))).2
      (Filter.Eventually.of_forall fun y => getD_nonneg hpos.J i)) hpos.v hE hp.h
  exact ⟨E, P, hE, hP⟩

/-- C78, part. SVCJ, as `Svvj.C78_svvj_partial`. Missing: orders from 4 on with jumps (`C49_cm_sde_wrong`). -/
theorem C78_svcj_partial (p : Par) (hp : p.toPar.OK) (hj : p.toPar.Simple) (hpos : p.toPar.Pos) :
    ∃ P : Measure ℝ, IsProbabilityMeasure P ∧ (∀ n : ℕ, Integrable (fun y => y ^ n) P) ∧
      ∀ l : ℕ, 1 ≤ l → p.jumpsize = [] ∨ l ≤ 3 → ∃ c, ∀ fuel, c ≤ fuel →
        (m fuel l p).run = some (.ok (∫ y, y ^ l ∂P)) ∧
        (cm fuel l p).run = some (.ok (∫ y, (y - ∫ z, z ∂P) ^ l ∂P)) := by
  obtain ⟨E, P, hE, hP⟩ := law p hp hj hpos
  refine ⟨P, hP.prob, hP.int, fun l h1 hl => ?_⟩
  obtain ⟨x, ⟨c, hc⟩, hx⟩ := C49_m_sde_partial l h1 p hp hj
  rw [hx E hE hl, hP.m] at hc
  obtain ⟨y, ⟨d, hd⟩, hy⟩ := C49_cm_sde_partial l h1 p hp hj
  rw [hy E hE hl, hP.cm] at hd
  exact ⟨max c d, fun fuel hfu => ⟨hc fuel (by omega), hd fuel (by omega)⟩⟩

/-- C78. SVCJ: the variance given the jumps is not negative. -/
theorem C78_svcj_var (p : Par) (hp : p.toPar.OK) (hj : p.toPar.Simple) (hpos : p.toPar.Pos) :
    ∃ x, (∃ c, ∀ fuel, c ≤ fuel → (cm fuel 2 p).run = some (.ok x)) ∧ 0 ≤ x := by
  obtain ⟨E, P, hE, hP⟩ := law p hp hj hpos
  obtain ⟨x, hc, hx⟩ := C49_cm_sde_partial 2 one_le_two p hp hj
  exact ⟨x, hc, (hx E hE (.inr (by norm_num))).symm ▸ hP.var 1⟩

/-- C78. SVCJ: all orders, with `int_e_IEZ_poly` repaired. -/
theorem C78_svcj_repaired (p : Par) (hp : p.toPar.OK) (hj : p.toPar.Simple) (hpos : p.toPar.Pos) :
    ∃ P : Measure ℝ, IsProbabilityMeasure P ∧ (∀ n : ℕ, Integrable (fun y => y ^ n) P) ∧ ∀ l : ℕ,
      (∃ c ms, (∀ fuel, c ≤ fuel → (cmomentsWith ItoCond.intEIEZFixed fuel l p.jumpsize.length).run = some (.ok ms)) ∧
        ms.length = max l 1 + 1 ∧ ∀ (n : ℕ) r, ms[n]? = some r → Poly.ev (vC p) r = ∫ y, (y - ∫ z, z ∂P) ^ n ∂P) ∧
      (∃ c m0 ms, (∀ fuel, c ≤ fuel → (momentsWith ItoCond.intEIEZFixed fuel l p.jumpsize.length).run = some (.ok (m0 :: ms))) ∧
        ms.length = l ∧ ∀ (n : ℕ) r, ms[n]? = some r → Poly.ev (vM p) r = ∫ y, y ^ (n + 1) ∂P) := by
  obtain ⟨E, P, hE, hP⟩ := law p hp hj hpos
  refine ⟨P, hP.prob, hP.int, fun l => ?_⟩
  obtain ⟨⟨c, cs, e1, l1, h1⟩, ⟨c', m0, ms, e2, l2, h2⟩⟩ := C49_sde_repaired l p.jumpsize.length
  exact ⟨⟨c, cs, e1, l1, fun n r hn => (h1 n r hn p hp hj rfl E hE).trans (hP.cm n)⟩,
    ⟨c', m0, ms, e2, l2, fun n r hn => (h2 n r hn p hp hj rfl E hE).trans (hP.m (n + 1))⟩⟩

example : ∃ p : Par, p.toPar.OK ∧ p.toPar.Simple ∧ p.toPar.Pos ∧ p.jumpsize ≠ [] ∧ p.ρJ ≠ 0 :=
  ⟨parJ, Svvj.par1_ok, Svvj.par1_simple, Svvj.par1_pos, by simp [parJ, Svvj.par1], one_ne_zero⟩

end Svcj

end Ajd
