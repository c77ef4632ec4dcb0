import Verif.Lemmas.Units
import Verif.Lemmas.ItosUnit
import Verif.Props.Nest
import Mathlib.MeasureTheory.Group.MeasurableEquiv

/-! C61: the moments do not depend on the unit of time. -/

namespace Ajd.Sv
open MvPolynomial MeasureTheory Gen

/-- the parameters of `mdl_1fsvj` in a unit of time `r` times as long -/
noncomputable def unitJ (r : ℝ) (p : Fsv1j.Par) : Fsv1j.Par :=
  ⟨⟨r * p.k, r * p.θ, r * p.σ, p.ρ, r * p.μ, p.h / r⟩, r * p.lam, p.μj, p.σj⟩

/-- the parameters of `mdl_1fsv` in a unit of time `r` times as long -/
noncomputable def unit1 (r : ℝ) (p : Fsv1.Par) : Fsv1.Par :=
  ⟨r * p.k, r * p.θ, r * p.σ, p.ρ, r * p.μ, p.h / r⟩

/-- `m`, `cm` and `cov` of `mdl_1fsvj` return the same in another unit of time. -/
theorem C61_fsv1j (p : Fsv1j.Par) (hk : 0 < p.k) (hθ : 0 < p.θ) (hσ : 0 < p.σ) (hh : 0 ≤ p.h) (hρ : 0 ≤ 1 - p.ρ ^ 2)
    (hl : 0 ≤ p.lam) (r : ℝ) (hr : 0 < r) :
    (∀ l : ℕ, Fsv1j.m l (unitJ r p) = Fsv1j.m l p ∧ Fsv1j.cm l (unitJ r p) = Fsv1j.cm l p) ∧
      ∀ l1 l2 : ℕ, Fsv1j.cov l1 l2 (unitJ r p) = Fsv1j.cov l1 l2 p := by
  obtain ⟨E0, E, E0', E', h0, hE, h0', hE'⟩ := svj_exists p (Ito.vMoment p.k p.θ p.σ)
  have e : r * (unitJ r p).h = p.h := by
    rw [unitJ]
    field_simp
  have u0 := Start.unit hk.ne' hr.ne' h0
  have uE := svj_dynkin_unit hE hr
  have u0' := Second.unit h0' r
  have uE' := svj2_dynkin_unit hE' hr
  rw [← e] at u0'
  have a1 := mul_pos hr hk
  have a2 := mul_pos hr hθ
  have a3 := mul_pos hr hσ
  have a4 := div_nonneg hh hr.le
  have a5 := mul_nonneg hr.le hl
  refine ⟨fun l => ⟨?_, ?_⟩, fun l1 l2 => ?_⟩
  · rw [C30_m_sde p hk hθ hσ hh hρ hl E0 h0 E hE, C30_m_sde (unitJ r p) a1 a2 a3 a4 hρ a5 _ u0 _ uE, e]
    simp
  · rw [C30_cm_sde p hk hθ hσ hh hρ hl E0 h0 E hE, C30_cm_sde (unitJ r p) a1 a2 a3 a4 hρ a5 _ u0 _ uE, e]
    simp
  · rw [C30_cov_sde p hk hθ hσ hh hρ hl E0 h0 E hE E0' h0' E' hE',
      C30_cov_sde (unitJ r p) a1 a2 a3 a4 hρ a5 _ u0 _ uE _ u0' _ uE', e]
    simp

/-- `m`, `cm` and `cov` of `mdl_1fsv` return the same in another unit of time. -/
theorem C61_fsv1 (p : Fsv1.Par) (hk : 0 < p.k) (hθ : 0 < p.θ) (hσ : 0 < p.σ) (hh : 0 ≤ p.h) (hρ : 0 ≤ 1 - p.ρ ^ 2)
    (r : ℝ) (hr : 0 < r) :
    (∀ l : ℕ, Fsv1.m l (unit1 r p) = Fsv1.m l p ∧ Fsv1.cm l (unit1 r p) = Fsv1.cm l p) ∧
      ∀ l1 l2 : ℕ, Fsv1.cov l1 l2 (unit1 r p) = Fsv1.cov l1 l2 p := by
  have h := C61_fsv1j ⟨p, 0, 0, 0⟩ hk hθ hσ hh hρ le_rfl r hr
  have a := C59_fsv1j ⟨p, 0, 0, 0⟩ hk hθ hσ hh hρ rfl
  have b := C59_fsv1j (unitJ r ⟨p, 0, 0, 0⟩) (mul_pos hr hk) (mul_pos hr hθ) (mul_pos hr hσ) (div_nonneg hh hr.le) hρ
    (mul_zero r)
  refine ⟨fun l => ⟨?_, ?_⟩, fun l1 l2 => ?_⟩
  · exact (b.1 l).1.symm.trans ((h.1 l).1.trans (a.1 l).1)
  · exact (b.1 l).2.symm.trans ((h.1 l).2.trans (a.1 l).2)
  · exact (b.2 l1 l2).symm.trans ((h.2 l1 l2).trans (a.2 l1 l2))

/-- The central moment of `mdl_1fsv` given the initial variance is the same in another unit of time. -/
theorem C61_cond (p : Fsv1.Par) (hk : p.k ≠ 0) (hh : 0 ≤ p.h) (hρ : 0 ≤ 1 - p.ρ ^ 2) (x : ℝ) (r : ℝ) (hr : 0 < r) (l : ℕ)
    (hl : 1 ≤ l) : Fsv1c.condCm l (unit1 r p) (r * x) = Fsv1c.condCm l p x := by
  obtain ⟨Q, hQ, -⟩ := heston_semi p.μ p.k p.θ p.σ p.ρ
  have hE := hQ (aeval ![x, 0]).toLinearMap
  have hJ := dynkin_congr (fun f g => (gen_nojump p.μ p.k p.θ p.σ p.ρ f g).1) hE
  have uE := svj_dynkin_unit hJ hr
  have e0 : (aeval ![x, 0]).toLinearMap ∘ₗ (aeval ![C r * X 0, X 1]).toLinearMap =
      (aeval ![r * x, 0] : MvPolynomial (Fin 2) ℝ →ₐ[ℝ] ℝ).toLinearMap := by
    refine LinearMap.ext fun f => ?_
    simp only [LinearMap.comp_apply, AlgHom.toLinearMap_apply, aeval_eq_eval]
    rw [eval_aeval]
    refine congrArg (fun y => eval y f) ?_
    funext i
    fin_cases i <;> simp
  rw [e0] at uE
  rw [mul_zero] at uE
  have uE := dynkin_congr (fun f g => (gen_nojump _ _ _ _ _ f g).2) uE
  have e : r * (unit1 r p).h = p.h := by
    rw [unit1]
    field_simp
  rw [C29_cond_cm_sde p hk hh hρ x _ hE l hl, C29_cond_cm_sde (unit1 r p) (mul_ne_zero hr.ne' hk) (div_nonneg hh hr.le) hρ
    (r * x) _ uE l hl, e]
  simp

/-- The unit of time matters for what is passed: with the day, `h` is 1, with the year `1 / 252`. -/
example : unit1 252 ⟨1 / 84, 1 / 1008, 1 / 2520, -1 / 2, 1 / 2016, 1⟩ = ⟨3, 1 / 4, 1 / 10, -1 / 2, 1 / 8, 1 / 252⟩ := by
  norm_num [unit1]

example : ∃ p : Fsv1j.Par, 0 < p.k ∧ 0 < p.θ ∧ 0 < p.σ ∧ 0 < p.h ∧ 0 < 1 - p.ρ ^ 2 ∧ 0 < p.lam :=
  ⟨⟨⟨1, 1, 1, -1 / 2, 1, 1⟩, 1, 1, 1⟩, by norm_num⟩

end Ajd.Sv

namespace Ajd.SvcjI
open MvPolynomial MeasureTheory Gen

/-- `m_y` and `cm_y` of mdl_svcj/cond_mom.py and cond_cmom.py return the same in another unit of time. -/
theorem C61_svcj_cond (n : ℕ) (p : SPar) (hp : Ok p) (r : ℝ) (hr : 0 < r) :
    mY n (p.unit r) = mY n p ∧ cmYc n (p.unit r) = cmYc n p := by
  obtain ⟨E, hE⟩ := (C43_expectation p hp (aeval ![p.v0, 0]).toLinearMap).1
  have uE := svcj_dynkin_unit p hp.mu_v hE hr
  have e0 : (aeval ![p.v0, 0]).toLinearMap ∘ₗ (aeval ![C r * X 0, X 1]).toLinearMap =
      (aeval ![(p.unit r).v0, 0] : MvPolynomial (Fin 2) ℝ →ₐ[ℝ] ℝ).toLinearMap := by
    refine LinearMap.ext fun f => ?_
    simp only [LinearMap.comp_apply, AlgHom.toLinearMap_apply, aeval_eq_eval]
    rw [eval_aeval]
    refine congrArg (fun y => eval y f) ?_
    funext i
    fin_cases i <;> simp [SPar.unit]
  rw [e0] at uE
  have e : r * (p.unit r).h = p.h := by
    rw [SPar.unit]
    field_simp
  constructor
  · rw [C43_m_y n p hp E hE, C43_m_y n (p.unit r) (SPar.unit_ok hr hp) _ uE, e]
    simp
  · rw [C43_cm_y_cond n p hp E hE, C43_cm_y_cond n (p.unit r) (SPar.unit_ok hr hp) _ uE, e]
    simp

/-- `unm_y` and `cm_y` of mdl_svcj/mom.py and cmom.py return the same in another unit of time. -/
theorem C61_svcj (n : ℕ) : ∃ d0, ∀ d, d0 ≤ d → ∀ p : SPar, Ok p → 0 ≤ p.lmbd → ∀ r : ℝ, 0 < r →
    unmY d n (p.unit r) = unmY d n p ∧ cmY d n (p.unit r) = cmY d n p := by
  obtain ⟨d1, h1⟩ := C43_unm_y n
  obtain ⟨d2, h2⟩ := C43_cm_y n
  refine ⟨max d1 d2, fun d hd p hp hl r hr => ?_⟩
  obtain ⟨E0, M, h0, hM, E, hE⟩ := start_exists p hp
  have uE := svcj_dynkin_unit p hp.mu_v hE hr
  have uM := Srjd.stationary_unit hp.mu_v hM hr
  have u0 : Start (E0 ∘ₗ (aeval ![C r * X 0, X 1]).toLinearMap) fun n => r ^ n * M n := ⟨fun f => by simp [h0.y], fun n => by
    rw [← h0.v]
    simp only [LinearMap.comp_apply, AlgHom.toLinearMap_apply, map_pow, aeval_X, Matrix.cons_val_zero, mul_pow]
    rw [← C_pow, ← smul_eq_C_mul, map_smul, smul_eq_mul]⟩
  have e : r * (p.unit r).h = p.h := by
    rw [SPar.unit]
    field_simp
  constructor
  · have hd := (le_max_left _ _).trans hd
    rw [h1 d hd p hp hl E0 M h0 hM E hE, h1 d hd (p.unit r) (SPar.unit_ok hr hp) (mul_nonneg hr.le hl) _ _ u0 uM _ uE, e]
    simp
  · have hd := (le_max_right _ _).trans hd
    rw [h2 d hd p hp hl E0 M h0 hM E hE, h2 d hd (p.unit r) (SPar.unit_ok hr hp) (mul_nonneg hr.le hl) _ _ u0 uM _ uE, e]
    simp

example : Ok par0 ∧ 0 < par0.lmbd := ⟨par0_ok, by norm_num [par0]⟩

end Ajd.SvcjI

namespace Ajd.Srjd
open MvPolynomial MeasureTheory Gen SvcjI

/-- the parameters of `mdl_srjd` in a unit of time `r` times as long -/
noncomputable def unit (r : ℝ) (p : Par) : Par :=
  ⟨r * p.v0, r * p.k, r * p.theta, r * p.sigma, r * p.lmbd, r * p.mu_v, p.h / r⟩

/-- The variance is per unit of time, so its `n`-th moment given the value at the start (`m` of mdl_srjd/cond_mom.py) is
multiplied with `r ^ n`, and so is its stationary moment (`moment_v` of mom.py). -/
theorem C61_srjd (p : Par) (hk : p.k ≠ 0) (hl : 0 ≤ p.lmbd) (hm : 0 < p.mu_v) (hh : 0 ≤ p.h) (r : ℝ) (hr : 0 < r) (d n : ℕ)
    (hd : n ≤ d) : (2 ≤ d → ∃ x, mV d n p = .ok x ∧ mV d n (unit r p) = .ok (r ^ n * x)) ∧
      ∀ b : Bool, ∃ x, (umomentV d n b).map (Poly.ev (statVal p.k (if b then p.theta else p.theta + p.lmbd * p.mu_v / p.k)
        p.sigma p.lmbd p.mu_v)) = .ok x ∧
      (umomentV d n b).map (Poly.ev (statVal (unit r p).k (if b then (unit r p).theta else
        (unit r p).theta + (unit r p).lmbd * (unit r p).mu_v / (unit r p).k)
        (unit r p).sigma (unit r p).lmbd (unit r p).mu_v)) = .ok (r ^ n * x) := by
  constructor
  · intro h2
    let q : SPar := ⟨⟨p.k, p.lmbd, p.mu_v, 0, 0⟩, p.v0, 0, p.theta, p.sigma, 0, 0, p.h⟩
    obtain ⟨E, hE⟩ := (C43_expectation q ⟨hk, by norm_num [q], hm, hh⟩ (aeval ![p.v0, 0]).toLinearMap).1
    have uE := svcj_dynkin_unit q hm hE hr
    have e0 : (aeval ![p.v0, 0]).toLinearMap ∘ₗ (aeval ![C r * X 0, X 1]).toLinearMap =
        (aeval ![r * p.v0, 0] : MvPolynomial (Fin 2) ℝ →ₐ[ℝ] ℝ).toLinearMap := by
      refine LinearMap.ext fun f => ?_
      simp only [LinearMap.comp_apply, AlgHom.toLinearMap_apply, aeval_eq_eval]
      rw [eval_aeval]
      refine congrArg (fun y => eval y f) ?_
      funext i
      fin_cases i <;> simp
    rw [e0] at uE
    have v1 := dynkin_var' q.toPar hm hE
    have v2 := dynkin_var' (q.unit r).toPar (mul_pos hr hm) uE
    refine ⟨_, C50_unique p hk hl hm hh _ v1 d n hd h2, ?_⟩
    rw [C50_unique (unit r p) (mul_ne_zero hr.ne' hk) (mul_nonneg hr.le hl) (mul_pos hr hm) (div_nonneg hh hr.le) _ v2 d n hd h2]
    have e : r * (unit r p).h = p.h := by
      rw [unit]
      field_simp
    rw [e]
    simp only [LinearMap.comp_apply, AlgHom.toLinearMap_apply, map_pow, aeval_X, Matrix.cons_val_zero, mul_pow]
    rw [← C_pow, ← smul_eq_C_mul, map_smul, smul_eq_mul]
  · intro b
    obtain ⟨M, hM, -⟩ := C51_stationary p.k p.theta p.sigma p.lmbd p.mu_v hk hm
    obtain ⟨q, e, -, -, v⟩ := C51_moment_v d n hd b
    refine ⟨M n, ?_, ?_⟩
    · rw [e, ← v p.k p.theta p.sigma p.lmbd p.mu_v hk hl hm M hM]
      rfl
    · rw [e, ← v _ _ _ _ _ (mul_ne_zero hr.ne' hk) (mul_nonneg hr.le hl) (mul_pos hr hm) _ (stationary_unit hm hM hr)]
      rfl

example : ∃ p : Par, 0 < p.k ∧ 0 < p.lmbd ∧ 0 < p.mu_v ∧ 0 < p.h :=
  ⟨⟨1, 1, 1, 1, 1, 1, 1⟩, by norm_num⟩

end Ajd.Srjd

namespace Ajd.Sv2
open MvPolynomial MeasureTheory Gen Fsv2

/-- the parameters of `mdl_2fsv` in a unit of time `r` times as long -/
noncomputable def unit2 (r : ℝ) (p : Fsv2.Par) : Fsv2.Par :=
  ⟨r * p.k1, r * p.k2, p.h / r, r * p.μ, r * p.θ1, r * p.σ1, r * p.θ2, r * p.σ2⟩

/-- the parameters of `mdl_2fsvj` in a unit of time `r` times as long -/
noncomputable def unit2j (r : ℝ) (p : Fsv2j.Par) : Fsv2j.Par := ⟨unit2 r p.toPar, r * p.lam, p.μj, p.σj⟩

theorem unit2_pos {p : Fsv2.Par} (hp : Pos p) {r : ℝ} (hr : 0 < r) : Pos (unit2 r p) :=
  ⟨mul_pos hr hp.k1, mul_pos hr hp.k2, mul_pos hr hp.θ1, mul_pos hr hp.σ1, mul_pos hr hp.θ2, mul_pos hr hp.σ2,
    div_pos hp.h hr⟩

theorem unit2_generic {p : Fsv2.Par} (hp : p.Generic) {r : ℝ} (hr : 0 < r) : (unit2 r p).Generic := fun a b h =>
  hp a b (by
    simp only [unit2] at h
    exact (mul_eq_zero.1 (show r * (a * p.k1 + b * p.k2) = 0 by linarith)).resolve_left hr.ne')

theorem compLaw_unit {g : Itos.Cfg} {N : ℕ∞} {p : Fsv2.Par} {t0 : ℝ} {x : ℝ × ℝ} {E : Rv →ₗ[ℝ] ℝ}
    (h : CompLaw g N p t0 x E) {r : ℝ} (hr : r ≠ 0) : CompLaw g N (unit2 r p) (t0 / r) (r • x) E := by
  intro a b c d e hN
  obtain ⟨P, eP, v⟩ := h a b c d e hN
  refine ⟨P, eP, ?_⟩
  have e1 : (unit2 r p).it (t0 / r) (r • x) = (p.it t0 x).unit r := rfl
  have e2 : t0 / r + (unit2 r p).h = (t0 + p.h) / r := by simp only [unit2]; ring
  rw [v, e1, e2, Itos.moment_unit hr g _ ⟨by simp, by simp, by simp, by simp, by simp⟩ P eP]

theorem vNext1_unit (p : Fsv2.Par) (t0 x : ℝ) {r : ℝ} (hr : r ≠ 0) :
    vNext1 (unit2 r p) (t0 / r) (r * x) = C r * vNext1 p t0 x := by
  have e : r * p.k1 * (p.h / r) = p.k1 * p.h := by field_simp
  have e' : r * p.k1 * (t0 / r + p.h / r) = p.k1 * (t0 + p.h) := by field_simp
  simp only [vNext1, unit2, e, e', map_add, map_mul, map_sub, map_one]
  ring

theorem vNext2_unit (p : Fsv2.Par) (t0 x : ℝ) {r : ℝ} (hr : r ≠ 0) :
    vNext2 (unit2 r p) (t0 / r) (r * x) = C r * vNext2 p t0 x := by
  have e : r * p.k2 * (p.h / r) = p.k2 * p.h := by field_simp
  have e' : r * p.k2 * (t0 / r + p.h / r) = p.k2 * (t0 + p.h) := by field_simp
  simp only [vNext2, unit2, e, e', map_add, map_mul, map_sub, map_one]
  ring

theorem ret_unit (p : Fsv2.Par) (t0 : ℝ) (x : ℝ × ℝ) {r : ℝ} (hr : r ≠ 0) :
    Fsv2.ret (unit2 r p) (t0 / r) (r • x) = Fsv2.ret p t0 x := by
  have c : (C r : Rv) * C (r⁻¹) = 1 := by rw [← C_mul, mul_inv_cancel₀ hr, C_1]
  have m : ∀ a : ℝ, r * a * (p.h / r) = a * p.h := fun a => by field_simp
  have d : ∀ a b : ℝ, r * a / (r * b) = a / b := fun a b => by field_simp
  have i1 : intVar1 (unit2 r p) (t0 / r) (r * x.1) = intVar1 p t0 x.1 := by
    rw [intVar1, vNext1_unit p t0 _ hr, intVar1]
    simp only [unit2, m, d, one_div, mul_inv, map_mul]
    linear_combination (-(C p.k1⁻¹ * (vNext1 p t0 x.1 - C x.1))) * c
  have i2 : intVar2 (unit2 r p) (t0 / r) (r * x.2) = intVar2 p t0 x.2 := by
    rw [intVar2, vNext2_unit p t0 _ hr, intVar2]
    simp only [unit2, m, d, one_div, mul_inv, map_mul]
    linear_combination (-(C p.k2⁻¹ * (vNext2 p t0 x.2 - C x.2))) * c
  simp only [Fsv2.ret, Prod.smul_fst, Prod.smul_snd, smul_eq_mul, i1, i2]
  simp only [unit2, m]

theorem retj_unit (p : Fsv2j.Par) (t0 z : ℝ) (x : ℝ × ℝ) {r : ℝ} (hr : r ≠ 0) :
    Fsv2j.ret (unit2j r p) (t0 / r) z (r • x) = Fsv2j.ret p t0 z x := by
  rw [Fsv2j.ret, Fsv2j.ret, unit2j, ret_unit _ _ _ hr]

theorem jumpLaw_unit (p : Fsv2j.Par) {r : ℝ} (hr : r ≠ 0) : Fsv2j.jumpLaw (unit2j r p) = Fsv2j.jumpLaw p := by
  have : r * p.lam * (p.h / r) = p.lam * p.h := by field_simp
  simp only [Fsv2j.jumpLaw, unit2j, unit2, this]

theorem map_unit (γ : Measure (ℝ × ℝ)) {r : ℝ} (hr : r ≠ 0) (f : ℝ × ℝ → ℝ) :
    ∫ x, f x ∂(γ.map (r • ·)) = ∫ x, f (r • x) ∂γ :=
  (MeasurableEquiv.smul₀ r hr).measurableEmbedding.integral_map f

theorem statLaw_unit {p : Fsv2.Par} {γ : Measure (ℝ × ℝ)} (h : StatLaw p γ) (hp : Pos p) {r : ℝ} (hr : r ≠ 0) :
    StatLaw (unit2 r p) (γ.map (r • ·)) := by
  have e : ∀ (a b : ℕ) (x : ℝ × ℝ), (r • x).1 ^ a * (r • x).2 ^ b = r ^ a * r ^ b * (x.1 ^ a * x.2 ^ b) := fun a b x => by
    simp only [Prod.smul_fst, Prod.smul_snd, smul_eq_mul, mul_pow]
    ring
  refine ⟨fun a b => ?_, fun a b => ?_⟩
  · refine ((MeasurableEquiv.smul₀ r hr).measurableEmbedding.integrable_map_iff).2 ?_
    exact ((h.integrable a b).const_mul (r ^ a * r ^ b)).congr (Filter.Eventually.of_forall fun x => (e a b x).symm)
  · rw [map_unit γ hr]
    simp only [e]
    rw [integral_const_mul, h.moment]
    simp only [unit2, Sv.vMoment_scale _ _ hp.k1.ne' hr, Sv.vMoment_scale _ _ hp.k2.ne' hr]
    ring

/-- `m`, `cm` and `cov` of `mdl_2fsvj` return the same in another unit of time, for all orders. -/
theorem C61_fsv2j (p : Fsv2j.Par) (hp : Pos p.toPar) (hg : p.toPar.Generic) (hl : 0 ≤ p.lam) (r : ℝ) (hr : 0 < r) :
    (∀ l : ℕ, Fsv2j.m Itos.code l (unit2j r p) = Fsv2j.m Itos.code l p ∧
      Fsv2j.cm Itos.code l (unit2j r p) = Fsv2j.cm Itos.code l p) ∧
      ∀ l1 l2 : ℕ, Fsv2j.cov Itos.code l1 l2 (unit2j r p) = Fsv2j.cov Itos.code l1 l2 p := by
  have hr' := hr.ne'
  have hp' := unit2_pos hp hr
  have hg' := unit2_generic hg hr
  have h0 : 0 ≤ p.lam * p.h := mul_nonneg hl hp.h.le
  have h0' : 0 ≤ (unit2j r p).lam * (unit2j r p).h := mul_nonneg (mul_nonneg hr.le hl) hp'.h.le
  obtain ⟨γ, hγ⟩ : ∃ γ, StatLaw p.toPar γ := ⟨_, statLaw_gammas p.toPar hp.k1 hp.k2 hp.θ1 hp.σ1 hp.θ2 hp.σ2⟩
  have hγ' := statLaw_unit hγ hp hr'
  have hE : ∀ (t : ℝ) (N : ℕ∞), ∀ᵐ x ∂γ, CompLaw Itos.code N p.toPar t x (compE Itos.code p.toPar t x) := fun t N =>
    Filter.Eventually.of_forall fun x => compLaw_compE _ _ _ _ _
  have hs : ∀ x : ℝ × ℝ, r • r⁻¹ • x = x := fun x => smul_inv_smul₀ hr' x
  have hs' : ∀ x : ℝ × ℝ, r⁻¹ • r • x = x := fun x => inv_smul_smul₀ hr' x
  have hc : ∀ (t : ℝ) (N : ℕ∞) (x : ℝ × ℝ), CompLaw Itos.code N (unit2 r p.toPar) (t / r) x
      (compE Itos.code p.toPar t (r⁻¹ • x)) := fun t N x => by
    have := compLaw_unit (compLaw_compE Itos.code N p.toPar t (r⁻¹ • x)) hr'
    rwa [hs] at this
  have hE' : ∀ (N : ℕ∞), ∀ᵐ x ∂(γ.map (r • ·)), CompLaw Itos.code N (unit2j r p).toPar (0 / r) x
      (compE Itos.code p.toPar 0 (r⁻¹ • x)) := fun N => Filter.Eventually.of_forall fun x => hc 0 N x
  have hx : ∀ f : ℝ → ℝ × ℝ → Rv, Fsv2j.expect (unit2j r p) (γ.map (r • ·)) (fun x => compE Itos.code p.toPar 0 (r⁻¹ • x)) f =
      Fsv2j.expect p γ (compE Itos.code p.toPar 0) (fun z x => f z (r • x)) := fun f => by
    simp only [Fsv2j.expect, Fsv2.expect, jumpLaw_unit p hr', map_unit γ hr', hs']
  have hn : Fsv2.mean (unit2 r p.toPar) = Fsv2.mean p.toPar := by
    simp only [Fsv2.mean, unit2]
    field_simp
  refine ⟨fun l => ⟨?_, ?_⟩, fun l1 l2 => ?_⟩
  · rw [(Fsv2j.C33_m p hp.k1.ne' hp.k2.ne' h0 0 _ γ hγ l (hE 0 _)).resolve_right fun h => h.2 hg,
      (Fsv2j.C33_m (unit2j r p) hp'.k1.ne' hp'.k2.ne' h0' (0 / r) _ _ hγ' l (hE' _)).resolve_right fun h => h.2 hg']
    simp only [hx, retj_unit p _ _ _ hr']
  · rw [(Fsv2j.C33_cm p hp.k1.ne' hp.k2.ne' h0 0 _ γ hγ l (hE 0 _)).resolve_right fun h => h.2 hg,
      (Fsv2j.C33_cm (unit2j r p) hp'.k1.ne' hp'.k2.ne' h0' (0 / r) _ _ hγ' l (hE' _)).resolve_right fun h => h.2 hg']
    simp only [hx, retj_unit p _ _ _ hr']
  · obtain ⟨Q, hQ, e⟩ := Fsv2j.C33_condPoly p hp.k1.ne' hp.k2.ne' (0 + p.h) l2
    have ht : 0 / r + (unit2j r p).h = (0 + p.h) / r := by simp only [unit2j, unit2]; ring
    have hQ' : Fsv2j.CondPoly Itos.code (unit2j r p) (0 / r + (unit2j r p).h) l2
        (fun z => aeval (two (C r⁻¹ * X 0) (C r⁻¹ * X 1)) (Q z)) := by
      refine ⟨fun x => compE Itos.code p.toPar (0 + p.h) (r⁻¹ • x), Set.univ, Set.univ, Set.infinite_univ, Set.infinite_univ,
        fun x _ => ?_, fun z x _ => ?_⟩
      · rw [ht]
        exact hc _ _ _
      · have := retj_unit p (0 + p.h) z (r⁻¹ • x) hr'
        rw [hs] at this
        rw [ht, this, ← e z (r⁻¹ • x) _ (compLaw_compE _ _ _ _ _), eval_aeval]
        refine congrArg (fun y => eval y (Q z)) ?_
        funext i
        fin_cases i <;> simp [two]
    have hv : ∀ (x : ℝ × ℝ) (z : ℝ), aeval (two (vNext1 (unit2 r p.toPar) (0 / r) (r • x).1)
        (vNext2 (unit2 r p.toPar) (0 / r) (r • x).2)) (aeval (two (C r⁻¹ * X 0) (C r⁻¹ * X 1)) (Q z) : Pol) =
        aeval (two (vNext1 p.toPar 0 x.1) (vNext2 p.toPar 0 x.2)) (Q z) := fun x z => by
      have c : (C r⁻¹ : Rv) * C r = 1 := by rw [← C_mul, inv_mul_cancel₀ hr', C_1]
      simp only [Prod.smul_fst, Prod.smul_snd, smul_eq_mul, vNext1_unit p.toPar 0 _ hr', vNext2_unit p.toPar 0 _ hr']
      rw [← AlgHom.comp_apply]
      refine congrArg (fun φ : Pol →ₐ[ℝ] Rv => φ (Q z)) (MvPolynomial.algHom_ext fun i => ?_)
      fin_cases i
      · simp only [two, AlgHom.comp_apply, aeval_X, Fin.zero_eta, Matrix.cons_val_zero, map_mul, algHom_C, algebraMap_eq]
        rw [← mul_assoc, c, one_mul]
      · simp only [two, AlgHom.comp_apply, aeval_X, Fin.mk_one, Matrix.cons_val_one, Matrix.cons_val_zero, map_mul, algHom_C, algebraMap_eq]
        rw [← mul_assoc, c, one_mul]
    rw [(Fsv2j.C33_cov p hp.k1.ne' hp.k2.ne' h0 0 _ γ hγ (hE 0 _) l1 l2 Q hQ).resolve_right fun h => h.2 hg,
      (Fsv2j.C33_cov (unit2j r p) hp'.k1.ne' hp'.k2.ne' h0' (0 / r) _ _ hγ' (hE' _) l1 l2 _ hQ').resolve_right
        fun h => h.2 hg']
    simp only [hx, retj_unit p _ _ _ hr', jumpLaw_unit p hr']
    simp only [unit2j, hv]

/-- `m`, `cm` and `cov` of `mdl_2fsv` return the same in another unit of time, for all orders. -/
theorem C61_fsv2 (p : Fsv2.Par) (hp : Pos p) (hg : p.Generic) (r : ℝ) (hr : 0 < r) :
    (∀ l : ℕ, Fsv2.m Itos.code l (unit2 r p) = Fsv2.m Itos.code l p ∧
      Fsv2.cm Itos.code l (unit2 r p) = Fsv2.cm Itos.code l p) ∧
      ∀ l1 l2 : ℕ, Fsv2.cov Itos.code l1 l2 (unit2 r p) = Fsv2.cov Itos.code l1 l2 p := by
  have h := C61_fsv2j ⟨p, 0, 0, 0⟩ hp hg le_rfl r hr
  have a := C59_fsv2j ⟨p, 0, 0, 0⟩ hp hg rfl
  have b := C59_fsv2j (unit2j r ⟨p, 0, 0, 0⟩) (unit2_pos hp hr) (unit2_generic hg hr) (mul_zero r)
  refine ⟨fun l => ⟨?_, ?_⟩, fun l1 l2 => ?_⟩
  · exact (b.1 l).1.symm.trans ((h.1 l).1.trans (a.1 l).1)
  · exact (b.1 l).2.symm.trans ((h.1 l).2.trans (a.1 l).2)
  · exact (b.2 l1 l2).symm.trans ((h.2 l1 l2).trans (a.2 l1 l2))

example : ∃ p : Fsv2j.Par, Pos p.toPar ∧ p.toPar.Generic ∧ 0 < p.lam ∧ 0 < p.σj := by
  have hp : Pos Fsv2.exPar := by
    refine ⟨?_, ?_, ?_, ?_, ?_, ?_, ?_⟩ <;> norm_num [Fsv2.exPar]
  exact ⟨⟨Fsv2.exPar, 1, 0, 1⟩, hp, Fsv2.generic_of_irrational _ rfl irrational_sqrt_two, one_pos, one_pos⟩

end Ajd.Sv2
