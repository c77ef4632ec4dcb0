import Verif.Lemmas.Agg
import Verif.Lemmas.Tower

/-! Another unit of time. -/

namespace Ajd.Gen
open MvPolynomial MeasureTheory

variable {σ : Type} [Fintype σ]

/-- the process in a unit of time `c` times as long -/
noncomputable def scale (r : ℝ) (c : JumpDiff σ) : JumpDiff σ :=
  ⟨fun x i => r * c.b x i, fun x i j => r * c.a x i j, r * c.lam, c.ν⟩

theorem dynkin_scale {c : JumpDiff σ} {E0 : MvPolynomial σ ℝ →ₗ[ℝ] ℝ} {E : ℝ → MvPolynomial σ ℝ →ₗ[ℝ] ℝ}
    (hE : c.Dynkin E0 E) {r : ℝ} (hr : 0 < r) : (scale r c).Dynkin E0 fun t => E (r * t) := by
  refine ⟨fun f => (hE.cont f).comp (by fun_prop) fun t (ht : 0 ≤ t) => mul_nonneg hr.le ht, fun f g hg t ht => ?_⟩
  have h1 : c.IsGen f (r⁻¹ • g) := by
    intro x
    rw [smul_eval, hg x]
    simp only [scale, mul_assoc, ← Finset.mul_sum]
    field_simp
  rw [hE.formula f _ h1 (r * t) (mul_nonneg hr.le ht)]
  have := intervalIntegral.smul_integral_comp_mul_left (fun s => E s g) r (a := 0) (b := t)
  rw [mul_zero] at this
  simp only [map_smul, intervalIntegral.integral_smul]
  rw [← this, smul_smul, inv_mul_cancel₀ hr.ne', one_smul]

theorem coef_scale {c : JumpDiff σ} {b : σ → MvPolynomial σ ℝ} {a : σ → σ → MvPolynomial σ ℝ} (h : PolyCoef c b a) (r : ℝ) :
    PolyCoef (scale r c) (fun i => r • b i) (fun i j => r • a i j) where
  prob := h.prob
  hb x i := by rw [smul_eval, h.hb]; rfl
  ha x i j := by rw [smul_eval, h.ha]; rfl
  db i := (totalDegree_smul_le _ _).trans (h.db i)
  da i j := (totalDegree_smul_le _ _).trans (h.da i j)

end Ajd.Gen

namespace Ajd.Sv
open MvPolynomial MeasureTheory Gen SvcjI

theorem vMoment_scale {k r : ℝ} (θ σ : ℝ) (hk : k ≠ 0) (hr : r ≠ 0) (n : ℕ) :
    Ito.vMoment (r * k) (r * θ) (r * σ) n = r ^ n * Ito.vMoment k θ σ n := by
  induction n with
  | zero => simp [Ito.vMoment]
  | succ n ih =>
    simp only [Ito.vMoment] at ih ⊢
    rw [Finset.prod_range_succ, Finset.prod_range_succ, ih]
    generalize ∏ j ∈ Finset.range n, (θ + j * σ ^ 2 / (2 * k)) = P
    field_simp
    ring

theorem svj_unit (mu k θ σ ρ lam mj sj r : ℝ) : Image ![C r * X 0, X 1] ![![r, 0], ![0, 1]] (fun i => r • bY k θ mu i)
    (fun i j => r • aY σ ρ i j) (svj mu k θ σ ρ lam mj sj).ν (bY (r * k) (r * θ) (r * mu)) (aY (r * σ) ρ)
    (svj (r * mu) (r * k) (r * θ) (r * σ) ρ (r * lam) mj sj).ν where
  lin k i := by fin_cases k <;> fin_cases i <;> simp [pderiv_X, Pi.single_apply]
  shift k x y := by fin_cases k <;> simp [Fin.sum_univ_two]; ring
  drift k := by fin_cases k <;> simp [bY, Fin.sum_univ_two, algebraMap_eq, smul_eq_C_mul] <;> ring
  diff k l := by fin_cases k <;> fin_cases l <;> simp [aY, Fin.sum_univ_two, algebraMap_eq, smul_eq_C_mul] <;> ring
  jump := by
    simp only [svj]
    rw [Measure.map_map (by fun_prop) (by fun_prop)]
    congr 1
    funext y i
    fin_cases i <;> simp [Fin.sum_univ_two]

theorem svj2_unit (mu k θ σ ρ lam mj sj r : ℝ) : Image ![C r * X 0, X 1, X 2] ![![r, 0, 0], ![0, 1, 0], ![0, 0, 1]]
    (fun i => r • b3 k θ mu i) (fun i j => r • a3 σ ρ i j) (svj2 mu k θ σ ρ lam mj sj).ν (b3 (r * k) (r * θ) (r * mu))
    (a3 (r * σ) ρ) (svj2 (r * mu) (r * k) (r * θ) (r * σ) ρ (r * lam) mj sj).ν where
  lin k i := by fin_cases k <;> fin_cases i <;> simp [pderiv_X, Pi.single_apply]
  shift k x y := by fin_cases k <;> simp [Fin.sum_univ_three]; ring
  drift k := by fin_cases k <;> simp [b3, Fin.sum_univ_three, algebraMap_eq, smul_eq_C_mul] <;> ring
  diff k l := by fin_cases k <;> fin_cases l <;> simp [a3, Fin.sum_univ_three, algebraMap_eq, smul_eq_C_mul] <;> ring
  jump := by
    simp only [svj2]
    rw [Measure.map_map (by fun_prop) (by fun_prop)]
    congr 1
    funext y i
    fin_cases i <;> simp [Fin.sum_univ_three]

theorem svj_dynkin_unit {mu k θ σ ρ lam mj sj : ℝ} {E0 : MvPolynomial (Fin 2) ℝ →ₗ[ℝ] ℝ}
    {E : ℝ → MvPolynomial (Fin 2) ℝ →ₗ[ℝ] ℝ} (hE : (svj mu k θ σ ρ lam mj sj).Dynkin E0 E) {r : ℝ} (hr : 0 < r) :
    (svj (r * mu) (r * k) (r * θ) (r * σ) ρ (r * lam) mj sj).Dynkin (E0 ∘ₗ (aeval ![C r * X 0, X 1]).toLinearMap)
      fun t => E (r * t) ∘ₗ (aeval ![C r * X 0, X 1]).toLinearMap :=
  dynkin_image (S := scale r (svj mu k θ σ ρ lam mj sj)) (svj_unit mu k θ σ ρ lam mj sj r)
    (coef_scale (svj_coef _ _ _ _ _ _ _ _) r) (svj_coef _ _ _ _ _ _ _ _) rfl (svj_mom mu k θ σ ρ lam mj sj)
    (svj_mom (r * mu) (r * k) (r * θ) (r * σ) ρ (r * lam) mj sj) (dynkin_scale hE hr)

theorem svj2_dynkin_unit {mu k θ σ ρ lam mj sj : ℝ} {E0 : MvPolynomial (Fin 3) ℝ →ₗ[ℝ] ℝ}
    {E : ℝ → MvPolynomial (Fin 3) ℝ →ₗ[ℝ] ℝ} (hE : (svj2 mu k θ σ ρ lam mj sj).Dynkin E0 E) {r : ℝ} (hr : 0 < r) :
    (svj2 (r * mu) (r * k) (r * θ) (r * σ) ρ (r * lam) mj sj).Dynkin (E0 ∘ₗ (aeval ![C r * X 0, X 1, X 2]).toLinearMap)
      fun t => E (r * t) ∘ₗ (aeval ![C r * X 0, X 1, X 2]).toLinearMap :=
  dynkin_image (S := scale r (svj2 mu k θ σ ρ lam mj sj)) (svj2_unit mu k θ σ ρ lam mj sj r)
    (coef_scale (svj2_coef _ _ _ _ _ _ _ _) r) (svj2_coef _ _ _ _ _ _ _ _) rfl (svj2_mom mu k θ σ ρ lam mj sj)
    (svj2_mom (r * mu) (r * k) (r * θ) (r * σ) ρ (r * lam) mj sj) (dynkin_scale hE hr)

theorem Start.unit {k θ σ r : ℝ} (hk : k ≠ 0) (hr : r ≠ 0) {E0 : MvPolynomial (Fin 2) ℝ →ₗ[ℝ] ℝ} (h : Start E0 (Ito.vMoment k θ σ)) :
    Start (E0 ∘ₗ (aeval ![C r * X 0, X 1]).toLinearMap) (Ito.vMoment (r * k) (r * θ) (r * σ)) where
  y f := by simp [h.y]
  v n := by
    rw [vMoment_scale _ _ hk hr, ← h.v]
    simp only [LinearMap.comp_apply, AlgHom.toLinearMap_apply, map_pow, aeval_X, Matrix.cons_val_zero, mul_pow]
    rw [← C_pow, ← smul_eq_C_mul, map_smul, smul_eq_mul]

theorem Second.unit {E : MvPolynomial (Fin 2) ℝ →ₗ[ℝ] ℝ} {E0 : MvPolynomial (Fin 3) ℝ →ₗ[ℝ] ℝ} (h : Second E E0) (r : ℝ) :
    Second (E ∘ₗ (aeval ![C r * X 0, X 1]).toLinearMap) (E0 ∘ₗ (aeval ![C r * X 0, X 1, X 2]).toLinearMap) := by
  refine ⟨fun f => by simp [h.1], fun f => ?_⟩
  simp only [LinearMap.comp_apply, AlgHom.toLinearMap_apply]
  rw [h.all, aeval_rename]
  refine congrArg E (MvPolynomial.funext fun x => ?_)
  simp only [eval_aeval]
  refine congrArg (fun y => eval y f) ?_
  funext i
  fin_cases i <;> simp

end Ajd.Sv

namespace Ajd.SvcjI
open MvPolynomial MeasureTheory Gen ProbabilityTheory

theorem exp_scale {m r : ℝ} (hm : 0 < m) (hr : 0 < r) :
    (expMeasure (1 / m)).map (fun y => r * y) = expMeasure (1 / (r * m)) := by
  have := isProbabilityMeasure_expMeasure (one_div_pos.2 hm)
  have := isProbabilityMeasure_expMeasure (one_div_pos.2 (mul_pos hr hm))
  have hf : Measurable fun y : ℝ => r * y := by fun_prop
  have := Measure.isProbabilityMeasure_map (μ := expMeasure (1 / m)) hf.aemeasurable
  refine Measure.eq_of_cdf _ _ ?_
  ext x
  have h1 : cdf ((expMeasure (1 / m)).map fun y => r * y) x = cdf (expMeasure (1 / m)) (x / r) := by
    rw [cdf_eq_real, cdf_eq_real, Measure.real, Measure.real, Measure.map_apply hf measurableSet_Iic]
    congr 2
    ext y
    simp only [Set.mem_preimage, Set.mem_Iic]
    rw [le_div_iff₀ hr, mul_comm]
  rw [h1, cdf_expMeasure_eq (one_div_pos.2 hm), cdf_expMeasure_eq (one_div_pos.2 (mul_pos hr hm))]
  have e : (0 ≤ x / r) = (0 ≤ x) := by
    rw [eq_iff_iff, le_div_iff₀ hr, zero_mul]
  simp only [e]
  congr 4
  field_simp

/-- the parameters in another unit of time -/
noncomputable def SPar.unit (r : ℝ) (p : SPar) : SPar :=
  ⟨⟨r * p.k, r * p.lmbd, r * p.mu_v, p.mu_s, p.sigma_s⟩, r * p.v0, r * p.mu, r * p.theta, r * p.sigma, p.rho,
    p.rhoJ / r, p.h / r⟩

theorem SPar.unit_ok {r : ℝ} (hr : 0 < r) {p : SPar} (h : Ok p) : Ok (p.unit r) :=
  ⟨mul_ne_zero hr.ne' h.k, h.rho, mul_pos hr h.mu_v, div_nonneg h.h hr.le⟩

theorem svcj_unit (p : SPar) (hm : 0 < p.mu_v) {r : ℝ} (hr : 0 < r) : Image ![C r * X 0, X 1] ![![r, 0], ![0, 1]]
    (fun i => r • bY p.k p.theta p.mu i) (fun i j => r • aY p.sigma p.rho i j) p.sde.ν
    (bY (r * p.k) (r * p.theta) (r * p.mu)) (aY (r * p.sigma) p.rho) (p.unit r).sde.ν where
  lin k i := by fin_cases k <;> fin_cases i <;> simp [pderiv_X, Pi.single_apply]
  shift k x y := by fin_cases k <;> simp [Fin.sum_univ_two]; ring
  drift k := by fin_cases k <;> simp [bY, Fin.sum_univ_two, algebraMap_eq, smul_eq_C_mul] <;> ring
  diff k l := by fin_cases k <;> fin_cases l <;> simp [aY, Fin.sum_univ_two, algebraMap_eq, smul_eq_C_mul] <;> ring
  jump := by
    have hG : ∀ a : ℝ, Measurable fun y : ℝ × ℝ => (![y.1, a * y.1 + y.2] : Fin 2 → ℝ) := fun a => by
      refine measurable_pi_lambda _ fun i => ?_
      fin_cases i <;> simp <;> fun_prop
    have hm' : 0 < (p.unit r).mu_v := mul_pos hr hm
    have := isProbabilityMeasure_expMeasure (one_div_pos.2 hm)
    show _ = Measure.map _ (jumpLaw2 p.mu_v p.rhoJ p.mu_s p.sigma_s)
    show jumpLaw2 (p.unit r).mu_v (p.unit r).rhoJ (p.unit r).mu_s (p.unit r).sigma_s = _
    rw [jumpLaw2_eq p.toPar hm, jumpLaw2_eq (p.unit r).toPar hm', Measure.map_map (by fun_prop) (hG _)]
    have e : jl (p.unit r).toPar = (jl p.toPar).map (Prod.map (fun y => r * y) id) := by
      rw [jl, jl, ← Measure.map_prod_map _ _ (by fun_prop) measurable_id, Measure.map_id, exp_scale hm hr]
      rfl
    rw [e, Measure.map_map (hG _) (by fun_prop)]
    congr 1
    funext y i
    fin_cases i
    · simp [Fin.sum_univ_two]
    · simp only [SPar.unit, Function.comp, Prod.map, Fin.sum_univ_two, id]
      simp
      field_simp

theorem svcj_dynkin_unit (p : SPar) (hm : 0 < p.mu_v) {E0 : MvPolynomial (Fin 2) ℝ →ₗ[ℝ] ℝ}
    {E : ℝ → MvPolynomial (Fin 2) ℝ →ₗ[ℝ] ℝ} (hE : p.sde.Dynkin E0 E) {r : ℝ} (hr : 0 < r) :
    (p.unit r).sde.Dynkin (E0 ∘ₗ (aeval ![C r * X 0, X 1]).toLinearMap)
      fun t => E (r * t) ∘ₗ (aeval ![C r * X 0, X 1]).toLinearMap :=
  dynkin_image (S := scale r p.sde) (svcj_unit p hm hr)
    (coef_scale (sY_coef p.toPar hm p.mu p.theta p.sigma p.rho p.rhoJ) r)
    (sY_coef (p.unit r).toPar (mul_pos hr hm) _ _ _ _ _) rfl (momY p.toPar hm p.rhoJ)
    (momY (p.unit r).toPar (mul_pos hr hm) _) (dynkin_scale hE hr)

end Ajd.SvcjI

namespace Ajd.Srjd

theorem stationary_unit {k θ σ lam μ : ℝ} {M : ℕ → ℝ} (hμ : 0 < μ) (h : Stationary k θ σ lam μ M) {r : ℝ} (hr : 0 < r) :
    Stationary (r * k) (r * θ) (r * σ) (r * lam) (r * μ) fun n => r ^ n * M n := by
  refine ⟨by simp [h.zero], fun n q hq => ?_⟩
  have e : q = genPoly (r * k) (r * θ) (r * σ) (r * lam) (r * μ) n :=
    Polynomial.funext fun v => by rw [hq, gen_pow _ _ _ _ (mul_pos hr hμ)]
  have h1 := h.gen n _ (gen_pow k θ σ lam hμ n)
  rw [← Lp_eq, genPoly, map_add, map_add, map_sum, Lp_X, Lp_X] at h1
  rw [e, ← Lp_eq, genPoly, map_add, map_add, map_sum, Lp_X, Lp_X]
  simp only [Lp_X] at h1 ⊢
  refine Eq.trans ?_ ((congrArg (r ^ (n + 1) * ·) h1).trans (mul_zero _))
  simp only [mul_add, Finset.mul_sum]
  refine congrArg₂ _ (congrArg₂ _ ?_ ?_) (Finset.sum_congr rfl fun j hj => ?_)
  · cases n with
    | zero => simp
    | succ n => simp; ring
  · ring
  · have := Finset.mem_range.1 hj
    have e : r ^ (n + 1) = r * (r ^ (j + 1) * r ^ (n - (j + 1))) := by
      rw [← pow_add, ← pow_succ']
      congr 1
      omega
    rw [e]
    ring

end Ajd.Srjd

namespace Ajd.Sv2
open MvPolynomial MeasureTheory Gen

theorem sv2j_unit (mu k1 k2 θ1 σ1 θ2 σ2 lam mj sj r : ℝ) :
    Image ![C r * X 0, C r * X 1, X 2] ![![r, 0, 0], ![0, r, 0], ![0, 0, 1]] (fun i => r • bY mu k1 k2 θ1 θ2 i)
    (fun i j => r • aY σ1 σ2 i j) (sv2j mu k1 k2 θ1 σ1 θ2 σ2 lam mj sj).ν
    (bY (r * mu) (r * k1) (r * k2) (r * θ1) (r * θ2)) (aY (r * σ1) (r * σ2))
    (sv2j (r * mu) (r * k1) (r * k2) (r * θ1) (r * σ1) (r * θ2) (r * σ2) (r * lam) mj sj).ν where
  lin k i := by fin_cases k <;> fin_cases i <;> simp [pderiv_X, Pi.single_apply]
  shift k x y := by fin_cases k <;> simp [Fin.sum_univ_three] <;> ring
  drift k := by fin_cases k <;> simp [bY, Fin.sum_univ_three, algebraMap_eq, smul_eq_C_mul] <;> ring
  diff k l := by fin_cases k <;> fin_cases l <;> simp [aY, Fin.sum_univ_three, algebraMap_eq, smul_eq_C_mul] <;> ring
  jump := by
    simp only [sv2j]
    rw [Measure.map_map (by fun_prop) (by fun_prop)]
    congr 1
    funext y i
    fin_cases i <;> simp [Fin.sum_univ_three]

theorem sv2jtwo_unit (mu k1 k2 θ1 σ1 θ2 σ2 lam mj sj r : ℝ) :
    Image ![C r * X 0, C r * X 1, X 2, X 3] ![![r, 0, 0, 0], ![0, r, 0, 0], ![0, 0, 1, 0], ![0, 0, 0, 1]]
    (fun i => r • b4 mu k1 k2 θ1 θ2 i) (fun i j => r • a4 σ1 σ2 i j) (sv2jtwo mu k1 k2 θ1 σ1 θ2 σ2 lam mj sj).ν
    (b4 (r * mu) (r * k1) (r * k2) (r * θ1) (r * θ2)) (a4 (r * σ1) (r * σ2))
    (sv2jtwo (r * mu) (r * k1) (r * k2) (r * θ1) (r * σ1) (r * θ2) (r * σ2) (r * lam) mj sj).ν where
  lin k i := by fin_cases k <;> fin_cases i <;> simp [pderiv_X, Pi.single_apply]
  shift k x y := by fin_cases k <;> simp [Fin.sum_univ_four] <;> ring
  drift k := by fin_cases k <;> simp [b4, Fin.sum_univ_four, algebraMap_eq, smul_eq_C_mul] <;> ring
  diff k l := by fin_cases k <;> fin_cases l <;> simp [a4, Fin.sum_univ_four, algebraMap_eq, smul_eq_C_mul] <;> ring
  jump := by
    simp only [sv2jtwo]
    rw [Measure.map_map (by fun_prop) (by fun_prop)]
    congr 1
    funext y i
    fin_cases i <;> simp [Fin.sum_univ_four]

theorem sv2j_dynkin_unit {mu k1 k2 θ1 σ1 θ2 σ2 lam mj sj : ℝ} {E0 : MvPolynomial (Fin 3) ℝ →ₗ[ℝ] ℝ}
    {E : ℝ → MvPolynomial (Fin 3) ℝ →ₗ[ℝ] ℝ} (hE : (sv2j mu k1 k2 θ1 σ1 θ2 σ2 lam mj sj).Dynkin E0 E) {r : ℝ}
    (hr : 0 < r) : (sv2j (r * mu) (r * k1) (r * k2) (r * θ1) (r * σ1) (r * θ2) (r * σ2) (r * lam) mj sj).Dynkin
      (E0 ∘ₗ (aeval ![C r * X 0, C r * X 1, X 2]).toLinearMap)
      fun t => E (r * t) ∘ₗ (aeval ![C r * X 0, C r * X 1, X 2]).toLinearMap :=
  dynkin_image (S := scale r (sv2j mu k1 k2 θ1 σ1 θ2 σ2 lam mj sj)) (sv2j_unit mu k1 k2 θ1 σ1 θ2 σ2 lam mj sj r)
    (coef_scale (sv2j_coef _ _ _ _ _ _ _ _ _ _) r) (sv2j_coef _ _ _ _ _ _ _ _ _ _) rfl
    (sv2j_mom mu k1 k2 θ1 σ1 θ2 σ2 lam mj sj)
    (sv2j_mom (r * mu) (r * k1) (r * k2) (r * θ1) (r * σ1) (r * θ2) (r * σ2) (r * lam) mj sj) (dynkin_scale hE hr)

theorem sv2jtwo_dynkin_unit {mu k1 k2 θ1 σ1 θ2 σ2 lam mj sj : ℝ} {E0 : MvPolynomial (Fin 4) ℝ →ₗ[ℝ] ℝ}
    {E : ℝ → MvPolynomial (Fin 4) ℝ →ₗ[ℝ] ℝ} (hE : (sv2jtwo mu k1 k2 θ1 σ1 θ2 σ2 lam mj sj).Dynkin E0 E) {r : ℝ}
    (hr : 0 < r) : (sv2jtwo (r * mu) (r * k1) (r * k2) (r * θ1) (r * σ1) (r * θ2) (r * σ2) (r * lam) mj sj).Dynkin
      (E0 ∘ₗ (aeval ![C r * X 0, C r * X 1, X 2, X 3]).toLinearMap)
      fun t => E (r * t) ∘ₗ (aeval ![C r * X 0, C r * X 1, X 2, X 3]).toLinearMap :=
  dynkin_image (S := scale r (sv2jtwo mu k1 k2 θ1 σ1 θ2 σ2 lam mj sj)) (sv2jtwo_unit mu k1 k2 θ1 σ1 θ2 σ2 lam mj sj r)
    (coef_scale (sv2jtwo_coef _ _ _ _ _ _ _ _ _ _) r) (sv2jtwo_coef _ _ _ _ _ _ _ _ _ _) rfl
    (sv2jtwo_mom mu k1 k2 θ1 σ1 θ2 σ2 lam mj sj)
    (sv2jtwo_mom (r * mu) (r * k1) (r * k2) (r * θ1) (r * σ1) (r * θ2) (r * σ2) (r * lam) mj sj) (dynkin_scale hE hr)

theorem Start.unit {k1 k2 θ1 σ1 θ2 σ2 r : ℝ} (hk1 : k1 ≠ 0) (hk2 : k2 ≠ 0) (hr : r ≠ 0)
    {E0 : MvPolynomial (Fin 3) ℝ →ₗ[ℝ] ℝ} (h : Start E0 (Ito.vMoment k1 θ1 σ1) (Ito.vMoment k2 θ2 σ2)) :
    Start (E0 ∘ₗ (aeval ![C r * X 0, C r * X 1, X 2]).toLinearMap) (Ito.vMoment (r * k1) (r * θ1) (r * σ1))
      (Ito.vMoment (r * k2) (r * θ2) (r * σ2)) where
  y f := by simp [h.y]
  v m n := by
    rw [Sv.vMoment_scale _ _ hk1 hr, Sv.vMoment_scale _ _ hk2 hr, mul_mul_mul_comm, ← h.v]
    simp only [LinearMap.comp_apply, AlgHom.toLinearMap_apply, map_pow, map_mul, aeval_X, Matrix.cons_val_zero,
      Matrix.cons_val_one, mul_pow]
    rw [← C_pow, ← C_pow, mul_mul_mul_comm, ← C_mul, ← smul_eq_C_mul, map_smul, smul_eq_mul]

theorem Second.unit {E : MvPolynomial (Fin 3) ℝ →ₗ[ℝ] ℝ} {E0 : MvPolynomial (Fin 4) ℝ →ₗ[ℝ] ℝ} (h : Second E E0) (r : ℝ) :
    Second (E ∘ₗ (aeval ![C r * X 0, C r * X 1, X 2]).toLinearMap)
      (E0 ∘ₗ (aeval ![C r * X 0, C r * X 1, X 2, X 3]).toLinearMap) := by
  refine ⟨fun f => by simp [h.1], fun f => ?_⟩
  simp only [LinearMap.comp_apply, AlgHom.toLinearMap_apply]
  rw [h.all, aeval_rename]
  refine congrArg E (MvPolynomial.funext fun x => ?_)
  simp only [eval_aeval]
  refine congrArg (fun y => eval y f) ?_
  funext i
  fin_cases i <;> simp

end Ajd.Sv2
