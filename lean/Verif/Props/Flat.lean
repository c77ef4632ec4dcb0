import Verif.Lemmas.Flat
import Verif.Props.FsvSde
import Verif.Props.Conv
import Verif.Props.Srjd3
import Verif.Props.Nest

/-! C68: constant volatility. -/

namespace Ajd.Sv
open MvPolynomial MeasureTheory ProbabilityTheory Real

theorem statLaw_dirac (p : Fsv1.Par) (hσ : p.σ = 0) : Fsv1.StatLaw p (Measure.dirac p.θ) where
  integrable n := integrable_dirac (by simp)
  moment n := by simp [Ito.vMoment, hσ]

/-- with `sigma_v = 0` the expectations given the stationary variance -/
theorem stat_flat (p : Fsv1.Par) (hk : p.k ≠ 0) (hσ : p.σ = 0) (hh : 0 ≤ p.h) (hρ : 0 ≤ 1 - p.ρ ^ 2) (t0 x : ℝ)
    (f : MvPolynomial (Fin 2) ℝ) :
    Fsv1.condE p t0 x (aeval ![Fsv1.vNext p t0 x, Fsv1.ret p t0 x] f) = Flat.L 1 ![vDet p.k p.θ x p.h, 0]
      (p.μ * p.h - vInt p.k p.θ x p.h / 2) (vInt p.k p.θ x p.h) f := by
  obtain ⟨Q, hQ, -⟩ := heston_semi p.μ p.k p.θ p.σ p.ρ
  have hE := hQ (aeval ![x, 0]).toLinearMap
  rw [← heston_condE p hk hh hρ t0 x hE]
  rw [hσ] at hE
  exact congrArg (fun L => L f) (heston_flat p.μ p.k p.θ p.ρ x hk hE p.h hh)

theorem vInt_stat (k θ t : ℝ) : vInt k θ θ t = θ * t := by simp [vInt]

theorem vDet_stat (k θ t : ℝ) : vDet k θ θ t = θ := by simp [vDet]

theorem ret_flat (p : Fsv1.Par) (hk : p.k ≠ 0) (hσ : p.σ = 0) (hh : 0 ≤ p.h) (hρ : 0 ≤ 1 - p.ρ ^ 2) (t0 x : ℝ)
    (q : Polynomial ℝ) : Fsv1.condE p t0 x (Polynomial.aeval (Fsv1.ret p t0 x) q) =
      Srjd.Lp (Flat.M (p.μ * p.h - vInt p.k p.θ x p.h / 2) (vInt p.k p.θ x p.h)) q := by
  have h := stat_flat p hk hσ hh hρ t0 x (Polynomial.aeval (X 1) q)
  have e1 := Polynomial.aeval_algHom_apply (aeval ![Fsv1.vNext p t0 x, Fsv1.ret p t0 x] :
    MvPolynomial (Fin 2) ℝ →ₐ[ℝ] Fsv1.Rv) (X 1) q
  have e2 := Polynomial.aeval_algHom_apply (Flat.sub 1 ![vDet p.k p.θ x p.h, 0] :
    MvPolynomial (Fin 2) ℝ →ₐ[ℝ] Polynomial ℝ) (X 1) q
  rw [aeval_X] at e1
  rw [Flat.sub, aeval_X, if_pos rfl, Polynomial.aeval_X_left_apply, ← Flat.sub] at e2
  rw [Flat.L, LinearMap.comp_apply, AlgHom.toLinearMap_apply, ← e1, ← e2] at h
  exact h

/-- If `sigma_v = 0`, `m(l, par)` of `mdl_1fsv` is the `l`-th moment of the normal law with mean `(mu - theta/2) h` and
variance `theta h`, that is of the return of a geometric Brownian motion with the volatility `√theta`; `cm(l, par)` is its
central moment, and `cov(l1, l2, par)` is 0. -/
theorem C68_fsv1 (p : Fsv1.Par) (hk : p.k ≠ 0) (hθ : 0 ≤ p.θ) (hσ : p.σ = 0) (hh : 0 ≤ p.h) (hρ : 0 ≤ 1 - p.ρ ^ 2) :
    (∀ l : ℕ, Fsv1.m l p = .ok (∫ y, y ^ l ∂gaussianReal ((p.μ - p.θ / 2) * p.h) (p.θ * p.h).toNNReal) ∧
      Fsv1.cm l p = .ok (∫ y, y ^ l ∂gaussianReal 0 (p.θ * p.h).toNNReal)) ∧
    ∀ l1 l2 : ℕ, Fsv1.cov l1 l2 p = .ok 0 := by
  have hγ := statLaw_dirac p hσ
  have hE : ∀ᵐ x ∂Measure.dirac p.θ, Fsv1.CondLaw p 0 x (Fsv1.condE p 0 x) :=
    Filter.Eventually.of_forall fun x => Fsv1.condLaw_condE p 0 x
  have hb : 0 ≤ p.θ * p.h := mul_nonneg hθ hh
  have ha : p.μ * p.h - p.θ * p.h / 2 = (p.μ - p.θ / 2) * p.h := by ring
  have hr : ∀ q : Polynomial ℝ, Fsv1.expect (Measure.dirac p.θ) (Fsv1.condE p 0) (fun x =>
      Polynomial.aeval (Fsv1.ret p 0 x) q) = Srjd.Lp (Flat.M ((p.μ - p.θ / 2) * p.h) (p.θ * p.h)) q := by
    intro q
    rw [Fsv1.expect, integral_dirac, ret_flat p hk hσ hh hρ, vInt_stat, ha]
  have hmom : ∀ l : ℕ, (Fsv1.expect (Measure.dirac p.θ) (Fsv1.condE p 0) fun x => Fsv1.ret p 0 x ^ l) =
      Flat.M ((p.μ - p.θ / 2) * p.h) (p.θ * p.h) l := by
    intro l
    have h := hr (Polynomial.X ^ l)
    have h2 := Srjd.Lp_X (Flat.M ((p.μ - p.θ / 2) * p.h) (p.θ * p.h)) 1 l
    simp only [map_pow, Polynomial.aeval_X, map_one, one_mul] at h h2
    rw [h, h2]
  refine ⟨fun l => ⟨?_, ?_⟩, fun l1 l2 => ?_⟩
  · rw [Fsv1.C26_m p hk hh hρ 0 _ _ hγ hE l, hmom, Flat.M_int _ _ hb]
  · rw [Fsv1.C26_cm p hk hh hρ 0 _ _ hγ hE l]
    have h1 : Fsv1.expect (Measure.dirac p.θ) (Fsv1.condE p 0) (Fsv1.ret p 0) = (p.μ - p.θ / 2) * p.h := by
      have := hmom 1
      simpa [Flat.M] using this
    have h := hr ((Polynomial.X - Polynomial.C ((p.μ - p.θ / 2) * p.h)) ^ l)
    rw [Flat.M_shift _ _ hb] at h
    simp only [map_pow, map_sub, Polynomial.aeval_X, Polynomial.aeval_C, algebraMap_eq] at h
    rw [h1, h]
  · obtain ⟨Q, hQ⟩ := Fsv1.condPoly p hk hh hρ (0 + p.h) l2
    have hQ' := fun z (_ : z ∈ Set.univ) => hQ z _ (Fsv1.condLaw_condE p (0 + p.h) z)
    rw [Fsv1.C27_cov p hk hh hρ 0 _ _ _ hγ hE Set.univ Set.infinite_univ (fun z _ => Fsv1.condLaw_condE p (0 + p.h) z) l1 l2 Q hQ',
      hmom, hmom]
    have hz : Q.eval p.θ = Flat.M ((p.μ - p.θ / 2) * p.h) (p.θ * p.h) l2 := by
      have h := ret_flat p hk hσ hh hρ (0 + p.h) p.θ (Polynomial.X ^ l2)
      have h2 := Srjd.Lp_X (Flat.M ((p.μ - p.θ / 2) * p.h) (p.θ * p.h)) 1 l2
      simp only [map_pow, Polynomial.aeval_X, map_one, one_mul] at h h2
      rw [hQ' p.θ trivial, h, vInt_stat, ha, h2]
    have hm : (Fsv1.expect (Measure.dirac p.θ) (Fsv1.condE p 0) fun x => Fsv1.ret p 0 x ^ l1 *
        Polynomial.aeval (Fsv1.vNext p 0 x) Q) = Flat.M ((p.μ - p.θ / 2) * p.h) (p.θ * p.h) l1 * Q.eval p.θ := by
      have h := stat_flat p hk hσ hh hρ 0 p.θ (X 1 ^ l1 * Polynomial.aeval (X 0) Q)
      rw [vInt_stat, vDet_stat, ha, Flat.L_congr (g := Q.eval p.θ • X 1 ^ l1), map_smul, Flat.L_y, smul_eq_mul] at h
      · rw [mul_comm (Flat.M _ _ _), ← h, Fsv1.expect, integral_dirac]
        refine congrArg _ ?_
        rw [map_mul, map_pow, ← Polynomial.aeval_algHom_apply]
        simp
      · intro z
        have : ∀ w : Fin 2 → ℝ, eval w (Polynomial.aeval (X 0 : MvPolynomial (Fin 2) ℝ) Q) = Q.eval (w 0) := by
          intro w
          have := Polynomial.aeval_algHom_apply (aeval w : MvPolynomial (Fin 2) ℝ →ₐ[ℝ] ℝ) (X 0) Q
          simpa using this.symm
        rw [map_mul, smul_eval, this, mul_comm]
        simp
    rw [hm, hz, sub_self]

/-- If `sigma_v = 0`, `cond_cm(l, par)` of `mdl_1fsv` is the `l`-th central moment of a normal law, whose variance is the
integral of the variance `theta + (v0 - theta) e^{-ks}` over the interval. -/
theorem C68_fsv1_cond (p : Fsv1.Par) (hk : 0 < p.k) (hθ : 0 ≤ p.θ) (hσ : p.σ = 0) (hh : 0 ≤ p.h) (hρ : 0 ≤ 1 - p.ρ ^ 2)
    (v0 : ℝ) (hv : 0 ≤ v0) (l : ℕ) (hl : 1 ≤ l) : Fsv1c.condCm l p v0 = .ok (∫ y, y ^ l ∂gaussianReal 0
      (∫ s in (0 : ℝ)..p.h, (p.θ + (v0 - p.θ) * exp (-p.k * s))).toNNReal) := by
  have hi : ∫ s in (0 : ℝ)..p.h, (p.θ + (v0 - p.θ) * exp (-p.k * s)) = vInt p.k p.θ v0 p.h := by
    rw [intervalIntegral.integral_eq_sub_of_hasDerivAt (f := vInt p.k p.θ v0)
      (f' := fun s => p.θ + (v0 - p.θ) * exp (-p.k * s)) (fun t _ => vInt_deriv p.k p.θ v0 t hk.ne')
      (Continuous.intervalIntegrable (by fun_prop) _ _)]
    simp [vInt]
  have hV := vInt_nonneg hk hθ hv hh
  rw [hi, Fsv1c.C29_cond_cm l hl p hk.ne' hh hρ 0 v0 _ (Fsv1.condLaw_condE p 0 v0)]
  have h1 : Fsv1.condE p 0 v0 (Fsv1.ret p 0 v0) = p.μ * p.h - vInt p.k p.θ v0 p.h / 2 := by
    have h := ret_flat p hk.ne' hσ hh hρ 0 v0 Polynomial.X
    have h2 := Srjd.Lp_X (Flat.M (p.μ * p.h - vInt p.k p.θ v0 p.h / 2) (vInt p.k p.θ v0 p.h)) 1 1
    simp only [Polynomial.aeval_X, map_one, one_mul, pow_one] at h h2
    rw [h, h2]
    rfl
  have h := ret_flat p hk.ne' hσ hh hρ 0 v0
    ((Polynomial.X - Polynomial.C (p.μ * p.h - vInt p.k p.θ v0 p.h / 2)) ^ l)
  rw [Flat.M_shift _ _ hV] at h
  simp only [map_pow, map_sub, Polynomial.aeval_X, Polynomial.aeval_C, algebraMap_eq] at h
  rw [h1, map_sub C, h]

example : ∃ p : Fsv1j.Par, 0 < p.k ∧ 0 < p.θ ∧ p.σ = 0 ∧ 0 < p.h ∧ 0 < 1 - p.ρ ^ 2 ∧ 0 < p.lam ∧ p.ρ ≠ 0 :=
  ⟨⟨⟨1, 1, 0, -1 / 2, 1, 1⟩, 1, 1, 1⟩, by norm_num⟩

end Ajd.Sv

namespace Ajd
open MvPolynomial MeasureTheory ProbabilityTheory Real

/-- the sum of the jumps, less its mean -/
noncomputable def jumpCen (p : Fsv1j.Par) : Measure ℝ :=
  (Fsv1j.jumpLaw p).map fun z => z - ∫ z', z' ∂(Fsv1j.jumpLaw p)

instance (p : Fsv1j.Par) : IsProbabilityMeasure (Fsv1j.jumpLaw p) := by unfold Fsv1j.jumpLaw; infer_instance

instance (p : Fsv1j.Par) : IsProbabilityMeasure (jumpCen p) := Measure.isProbabilityMeasure_map (by fun_prop)

theorem conv_jump (p : Fsv1j.Par) (a : ℕ → ℝ) (c : ℝ) (v : NNReal) (ha : ∀ i : ℕ, a i = ∫ y, y ^ i ∂gaussianReal c v) (l : ℕ) :
    conv a (fun n => ∫ z, z ^ n ∂(Fsv1j.jumpLaw p)) l = ∫ y, y ^ l ∂(gaussianReal c v).conv (Fsv1j.jumpLaw p) := by
  rw [conv, Svcj.conv_moment _ _ (CppDyn.gauss_pow _ _) (Fsv1j.jump_integrable p)]
  refine Finset.sum_congr rfl fun i _ => ?_
  rw [ha, mul_assoc]

theorem conv_jumpCen (p : Fsv1j.Par) (a : ℕ → ℝ) (c : ℝ) (v : NNReal) (ha : ∀ i : ℕ, a i = ∫ y, y ^ i ∂gaussianReal c v)
    (l : ℕ) : conv a (fun n => ∫ z, (z - ∫ z', z' ∂(Fsv1j.jumpLaw p)) ^ n ∂(Fsv1j.jumpLaw p)) l =
      ∫ y, y ^ l ∂(gaussianReal c v).conv (jumpCen p) := by
  have hc : ∀ n : ℕ, ∫ y, y ^ n ∂(jumpCen p) = ∫ z, (z - ∫ z', z' ∂(Fsv1j.jumpLaw p)) ^ n ∂(Fsv1j.jumpLaw p) := fun n => by
    rw [jumpCen, integral_map (by fun_prop) (Measurable.aestronglyMeasurable (by fun_prop))]
  rw [conv, Svcj.conv_moment _ _ (CppDyn.gauss_pow _ _)]
  · refine Finset.sum_congr rfl fun i _ => ?_
    rw [ha, hc, mul_assoc]
  · intro n
    rw [jumpCen, integrable_map_measure (Measurable.aestronglyMeasurable (by fun_prop)) (by fun_prop)]
    have : ((fun z : ℝ => z ^ n) ∘ fun z => z - ∫ z', z' ∂(Fsv1j.jumpLaw p)) = fun z => ∑ j ∈ Finset.range (n + 1),
        (n.choose j * (-∫ z', z' ∂(Fsv1j.jumpLaw p)) ^ (n - j)) * z ^ j := by
      funext z
      rw [Function.comp_apply, sub_eq_add_neg, add_pow]
      exact Finset.sum_congr rfl fun i _ => by ring
    rw [this]
    exact integrable_finsetSum _ fun j _ => (Fsv1j.jump_integrable p j).const_mul _

/-- If `sigma_v = 0`, `mdl_1fsvj` is Merton's jump diffusion: `m(l, par)` is the `l`-th moment of the sum of a normal variable
with mean `(mu - theta/2) h` and variance `theta h` and an independent compound Poisson variable; `cm(l, par)` is its central
moment, and `cov(l1, l2, par)` is 0. -/
theorem C68_fsv1j (p : Fsv1j.Par) (hk : p.k ≠ 0) (hθ : 0 ≤ p.θ) (hσ : p.σ = 0) (hh : 0 ≤ p.h) (hρ : 0 ≤ 1 - p.ρ ^ 2)
    (hl : 0 ≤ p.lam) :
    (∀ l : ℕ, Fsv1j.m l p = .ok (∫ y, y ^ l
        ∂(gaussianReal ((p.μ - p.θ / 2) * p.h) (p.θ * p.h).toNNReal).conv (Fsv1j.jumpLaw p)) ∧
      Fsv1j.cm l p = .ok (∫ y, y ^ l ∂(gaussianReal 0 (p.θ * p.h).toNNReal).conv (jumpCen p))) ∧
    ∀ l1 l2 : ℕ, Fsv1j.cov l1 l2 p = .ok 0 := by
  obtain ⟨h1, h2⟩ := Sv.C68_fsv1 p.toPar hk hθ hσ hh hρ
  obtain ⟨a, b, c, g1, g2⟩ := conv_fsv1j p hk ⟨_, Sv.statLaw_dirac p.toPar hσ⟩ hh hρ hl
  refine ⟨fun l => ⟨?_, ?_⟩, fun l1 l2 => ?_⟩
  · rw [(g1 l).2.1, conv_jump p a _ _ fun i => Except.ok.inj ((g1 i).1.symm.trans (h1 i).1)]
  · rw [(g1 l).2.2.2, conv_jumpCen p b _ _ fun i => Except.ok.inj ((g1 i).2.2.1.symm.trans (h1 i).2)]
  · have h0 : ∀ i j, c i j = 0 := fun i j => Except.ok.inj ((g2 i j).1.symm.trans (h2 i j))
    rw [(g2 l1 l2).2]
    simp [conv2, conv, h0]

end Ajd

namespace Ajd.Srjd
open Real

/-- If there are no jumps and `sigma = 0`, `m(n, par)` of `mdl_srjd/cond_mom.py` is the `n`-th power of
`theta + (v0 - theta) e^{-kh}`, and the central moments of `cond_cmom.py` are 0. -/
theorem C68_srjd (p : Par) (hk : p.k ≠ 0) (hσ : p.sigma = 0) (hl : p.lmbd = 0) (hm : 0 < p.mu_v) (hh : 0 ≤ p.h) (d n : ℕ)
    (hd : n ≤ d) (h2 : 2 ≤ d) :
    mV d n p = .ok ((p.theta + (p.v0 - p.theta) * exp (-p.k * p.h)) ^ n) ∧ (1 ≤ n → cmV d n p = .ok 0) := by
  have hV : Dynkin p.k p.theta p.sigma p.lmbd p.mu_v p.v0 fun n t => Sv.vDet p.k p.theta p.v0 t ^ n := by
    have hc := fun t => Sv.vDet_deriv p.k p.theta p.v0 t
    refine (dynkin_iff _ _ _ _ _ _ hm _).2 ⟨fun n => by simp [Sv.vDet], fun n t _ =>
      ((hc t).pow n).continuousAt.continuousWithinAt, fun n t _ => ?_⟩
    refine ((hc t).pow n).congr_deriv ?_
    rw [hσ, hl]
    cases n with
    | zero => simp
    | succ n =>
      simp only [Nat.add_sub_cancel]
      ring
  refine ⟨C50_unique p hk hl.ge hm hh _ hV d n hd h2, fun hn => ?_⟩
  obtain ⟨r, er, -, -, v⟩ := C36_cmoment_v d n hd h2
  rw [cmV, er, ok_bind, v p hk hl.ge hm hh _ hV]
  refine congrArg Except.ok ?_
  have h := add_pow (Sv.vDet p.k p.theta p.v0 p.h) (-Sv.vDet p.k p.theta p.v0 p.h) n
  rw [add_neg_cancel, zero_pow (by omega)] at h
  rw [pow_one]
  exact (h.trans (Finset.sum_congr rfl fun i _ => by ring)).symm

example : ∃ p : Par, p.k ≠ 0 ∧ p.sigma = 0 ∧ p.lmbd = 0 ∧ 0 < p.mu_v ∧ 0 < p.h ∧ p.v0 ≠ p.theta :=
  ⟨⟨2, 1, 1, 0, 0, 1, 1⟩, by norm_num⟩

end Ajd.Srjd

namespace Ajd.SvcjI
open MvPolynomial MeasureTheory ProbabilityTheory Gen

/-- If there are no jumps and `sigma = 0`, `unm_y(n)` of mdl_svcj/mom.py and `cm_y(n)` of cmom.py are the moments of the same
normal law. -/
theorem C68_svcj (n : ℕ) : ∃ d0, ∀ d, d0 ≤ d → ∀ p : SPar, Ok p → 0 ≤ p.theta → p.sigma = 0 → p.lmbd = 0 →
    unmY d n p = .ok (∫ y, y ^ n ∂gaussianReal ((p.mu - p.theta / 2) * p.h) (p.theta * p.h).toNNReal) ∧
    cmY d n p = .ok (∫ y, y ^ n ∂gaussianReal 0 (p.theta * p.h).toNNReal) := by
  obtain ⟨d1, h1⟩ := C43_unm_y n
  obtain ⟨d2, h2⟩ := C43_cm_y n
  refine ⟨max d1 d2, fun d hd p hp hθ hσ hl => ?_⟩
  obtain ⟨E0, E, -, -, h0, hE, -⟩ := Sv.sde_exists p.fsv (Ito.vMoment p.k p.theta p.sigma)
  have hJ := dynkin_congr (fun f g => (gen_zero p hl f g).1) hE
  have hM := Srjd.stationary_gamma p.k p.theta p.sigma hp.k hp.mu_v
  rw [← hl] at hM
  have hγ := Sv.statLaw_dirac p.fsv hσ
  have hc : ∀ᵐ x ∂Measure.dirac p.fsv.θ, Fsv1.CondLaw p.fsv 0 x (Fsv1.condE p.fsv 0 x) :=
    Filter.Eventually.of_forall fun x => Fsv1.condLaw_condE p.fsv 0 x
  obtain ⟨f1, f2⟩ := (Sv.C68_fsv1 p.fsv hp.k hθ hσ hp.h hp.rho).1 n
  have hs := Sv.heston_stat p.fsv hp.k hp.h hp.rho 0 _ hγ h0 hE
  constructor
  · rw [h1 d ((le_max_left _ _).trans hd) p hp hl.ge E0 _ ⟨h0.y, h0.v⟩ hM E hJ]
    rw [Fsv1.C26_m p.fsv hp.k hp.h hp.rho 0 _ _ hγ hc n] at f1
    refine Eq.trans ?_ f1
    refine congrArg Except.ok ((hs _).trans ?_)
    simp
  · rw [h2 d ((le_max_right _ _).trans hd) p hp hl.ge E0 _ ⟨h0.y, h0.v⟩ hM E hJ]
    rw [Fsv1.C26_cm p.fsv hp.k hp.h hp.rho 0 _ _ hγ hc n] at f2
    refine Eq.trans ?_ f2
    have e1 : E p.h (X 1) = Fsv1.expect (Measure.dirac p.fsv.θ) (Fsv1.condE p.fsv 0) (Fsv1.ret p.fsv 0) := by
      refine (hs (X 1)).trans ?_
      simp
    rw [e1]
    refine congrArg Except.ok ((hs _).trans ?_)
    simp

example : ∃ p : SPar, Ok p ∧ 0 < p.theta ∧ p.sigma = 0 ∧ p.lmbd = 0 ∧ 0 < p.h ∧ p.rho ≠ 0 := by
  refine ⟨⟨⟨1, 0, 1, 1, 1⟩, 1, 1, 1, 0, 1 / 2, 1, 1⟩, ⟨?_, ?_, ?_, ?_⟩, ?_⟩ <;> norm_num

end Ajd.SvcjI
