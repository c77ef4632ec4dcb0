import Verif.Lemmas.Short
import Verif.Props.Nest
import Verif.Props.Conv
import Verif.Props.Fsv2Sde
import Verif.Props.Fsv2jSde
import Verif.Lemmas.Agg
import Verif.Props.Srjd3
import Mathlib.Analysis.Calculus.FDeriv.Extend

/-! C65: short intervals. -/

namespace Ajd
open MvPolynomial MeasureTheory ProbabilityTheory Gen

/-- the moments of a normal law -/
noncomputable def normalMom (m s : ℝ) (n : ℕ) : ℝ := ∫ y, y ^ n ∂gaussianReal m (s ^ 2).toNNReal

theorem levy_zero (b a : ℝ) (j j' : ℕ → ℝ) : levy b a 0 j = levy b a 0 j' := by
  funext n
  simp [levy]

namespace Sv
open SvcjI (bY aY)

theorem svj_jump (mu k θ σ ρ lam mj sj : ℝ) :
    (fun n => ∫ y, y 1 ^ n ∂(svj mu k θ σ ρ lam mj sj).ν) = normalMom mj sj := by
  funext n
  simp only [svj, normalMom]
  rw [integral_map (Measurable.aemeasurable (by fun_prop)) (Measurable.aestronglyMeasurable (by fun_prop))]
  simp

/-- `mdl_1fsvj`: over a short interval the moments of the return are those of a Brownian motion with drift `μ - θ/2` and
variance `θ` and jumps at rate `lam`, and so are the central moments. -/
theorem C65_fsv1j (p : Fsv1j.Par) (hk : 0 < p.k) (hθ : 0 < p.θ) (hσ : 0 < p.σ) (hρ : 0 ≤ 1 - p.ρ ^ 2)
    (hl : 0 ≤ p.lam) (n : ℕ) :
    (1 ≤ n → Rate (fun h => Fsv1j.m n { p with h := h }) 0 (levy (p.μ - p.θ / 2) p.θ p.lam (normalMom p.μj p.σj) n)) ∧
    (2 ≤ n → Rate (fun h => Fsv1j.cm n { p with h := h }) 0 (levy (p.μ - p.θ / 2) p.θ p.lam (normalMom p.μj p.σj) n)) := by
  obtain ⟨E0, E, -, -, h0, hE, -, -⟩ := svj_exists p (Ito.vMoment p.k p.θ p.σ)
  have h1 : E0 1 = 1 := by
    rw [← pow_zero (X 0), h0.v]
    simp [Ito.vMoment]
  have hv : E0 (X 0) = p.θ := by
    rw [← pow_one (X 0), h0.v]
    simp [Ito.vMoment]
  have hb : E0 (bY p.k p.θ p.μ 1) = p.μ - p.θ / 2 := by
    have e : bY p.k p.θ p.μ 1 = p.μ • 1 - (1 / 2 : ℝ) • X 0 := by simp [bY, smul_eq_C_mul]
    rw [e, map_sub, map_smul, map_smul, h1, hv, smul_eq_mul, smul_eq_mul]
    ring
  have ha : E0 (aY p.σ p.ρ 1 1) = p.θ := hv
  have hc := svj_coef p.μ p.k p.θ p.σ p.ρ p.lam p.μj p.σj
  have hm := svj_mom p.μ p.k p.θ p.σ p.ρ p.lam p.μj p.σj
  refine ⟨fun hn => ?_, fun hn => ?_⟩
  · obtain ⟨a, b⟩ := short_mom hc hm hE h1 h0.y n hn
    rw [hb, ha, svj_jump] at b
    have := rate_of_deriv (f := fun h => Fsv1j.m n { p with h := h })
      (fun h hh => C30_m_sde { p with h := h } hk hθ hσ hh.le hρ hl E0 h0 E hE n) b
    rwa [a] at this
  · obtain ⟨a, b⟩ := short_cm hc hm hE h1 h0.y n hn
    rw [hb, ha, svj_jump] at b
    have := rate_of_deriv (f := fun h => Fsv1j.cm n { p with h := h })
      (fun h hh => C30_cm_sde { p with h := h } hk hθ hσ hh.le hρ hl E0 h0 E hE n) b
    rwa [a] at this

/-- The same for `mdl_1fsv`, which has no jumps. -/
theorem C65_fsv1 (p : Fsv1.Par) (hk : 0 < p.k) (hθ : 0 < p.θ) (hσ : 0 < p.σ) (hρ : 0 ≤ 1 - p.ρ ^ 2) (n : ℕ) :
    (1 ≤ n → Rate (fun h => Fsv1.m n { p with h := h }) 0 (levy (p.μ - p.θ / 2) p.θ 0 0 n)) ∧
    (2 ≤ n → Rate (fun h => Fsv1.cm n { p with h := h }) 0 (levy (p.μ - p.θ / 2) p.θ 0 0 n)) := by
  have h := C65_fsv1j ⟨p, 0, 0, 0⟩ hk hθ hσ hρ le_rfl n
  have e := fun h hh => (C59_fsv1j ⟨{ p with h := h }, 0, 0, 0⟩ hk hθ hσ hh hρ rfl).1 n
  rw [levy_zero _ _ _ 0] at h
  refine ⟨fun hn => ?_, fun hn => ?_⟩
  · obtain ⟨a, b, c⟩ := h.1 hn
    exact ⟨a, fun t ht => (e t ht.le).1.symm.trans (b t ht), c⟩
  · obtain ⟨a, b, c⟩ := h.2 hn
    exact ⟨a, fun t ht => (e t ht.le).2.symm.trans (b t ht), c⟩

/-- The central moments of the return of `mdl_1fsv` given that the variance starts from `x`. -/
theorem C65_fsv1_cond (p : Fsv1.Par) (hk : p.k ≠ 0) (hρ : 0 ≤ 1 - p.ρ ^ 2) (x : ℝ) (n : ℕ) (hn : 2 ≤ n) :
    Rate (fun h => Fsv1c.condCm n { p with h := h } x) 0 (levy (p.μ - x / 2) x 0 0 n) := by
  obtain ⟨Q, hQ, -⟩ := heston_semi p.μ p.k p.θ p.σ p.ρ
  have hE := hQ (aeval ![x, 0]).toLinearMap
  obtain ⟨a, b⟩ := short_cm (r := 1) (hcoef p.μ p.k p.θ p.σ p.ρ) (hmom _ _ _ _ _) hE (by simp) (by simp) n hn
  rw [show (heston p.μ p.k p.θ p.σ p.ρ).lam = 0 from rfl, levy_zero _ _ _ 0] at b
  have := rate_of_deriv (f := fun h => Fsv1c.condCm n { p with h := h } x)
    (fun h hh => C29_cond_cm_sde { p with h := h } hk hh.le hρ x _ hE n (by omega)) b
  rw [a] at this
  convert this using 2
  · simp [bY]
    ring
  · simp [aY]

end Sv

namespace SvcjI

theorem short_svcj (p : SPar) (hp : Ok p) {E0 : MvPolynomial (Fin 2) ℝ →ₗ[ℝ] ℝ}
    {E : ℝ → MvPolynomial (Fin 2) ℝ →ₗ[ℝ] ℝ} (hE : p.sde.Dynkin E0 E) (h1 : E0 1 = 1) (hy : ∀ f, E0 (X 1 * f) = 0) {v : ℝ}
    (hv : E0 (X 0) = v) (n : ℕ) :
    let d := levy (p.mu - v / 2) v p.lmbd (fun n => ∫ y, y 1 ^ n ∂jumpLaw2 p.mu_v p.rhoJ p.mu_s p.sigma_s) n
    (1 ≤ n → E 0 (X 1 ^ n) = 0 ∧ HasDerivWithinAt (fun t => E t (X 1 ^ n)) d (Set.Ici 0) 0) ∧
    (2 ≤ n → E 0 ((X 1 - C (E 0 (X 1))) ^ n) = 0 ∧
      HasDerivWithinAt (fun t => E t ((X 1 - C (E t (X 1))) ^ n)) d (Set.Ici 0) 0) := by
  have hb : E0 (bY p.k p.theta p.mu 1) = p.mu - v / 2 := by
    have e : bY p.k p.theta p.mu 1 = p.mu • 1 - (1 / 2 : ℝ) • X 0 := by simp [bY, smul_eq_C_mul]
    rw [e, map_sub, map_smul, map_smul, h1, hv, smul_eq_mul, smul_eq_mul]
    ring
  have ha : E0 (aY p.sigma p.rho 1 1) = v := hv
  have hc := sY_coef p.toPar hp.mu_v p.mu p.theta p.sigma p.rho p.rhoJ
  refine ⟨fun hn => ?_, fun hn => ?_⟩
  · have := short_mom hc (momY p.toPar hp.mu_v p.rhoJ) hE h1 hy n hn
    rwa [hb, ha] at this
  · have := short_cm hc (momY p.toPar hp.mu_v p.rhoJ) hE h1 hy n hn
    rwa [hb, ha] at this

/-- `m_y` and `cm_y` of `mdl_svcj`, given `v_0`: over a short interval the moments of the return are those of a Brownian
motion with drift `μ - v_0/2` and variance `v_0` and of the jumps in the price. -/
theorem C65_svcj_cond (p : SPar) (hp : Ok p) (n : ℕ) :
    let d := levy (p.mu - p.v0 / 2) p.v0 p.lmbd (fun n => ∫ y, y 1 ^ n ∂jumpLaw2 p.mu_v p.rhoJ p.mu_s p.sigma_s) n
    (1 ≤ n → Rate (fun h => mY n { p with h := h }) 0 d) ∧ (2 ≤ n → Rate (fun h => cmYc n { p with h := h }) 0 d) := by
  obtain ⟨E, hE⟩ := (C43_expectation _ hp (aeval ![p.v0, 0]).toLinearMap).1
  have hp' : ∀ h, 0 < h → Ok { p with h := h } := fun h hh => ⟨hp.k, hp.rho, hp.mu_v, hh.le⟩
  obtain ⟨a, b⟩ := short_svcj p hp hE (by simp) (by simp) (v := p.v0) (by simp) n
  refine ⟨fun hn => ?_, fun hn => ?_⟩
  · have := rate_of_deriv (f := fun h => mY n { p with h := h }) (fun h hh => C43_m_y n { p with h := h } (hp' h hh) E hE)
      (a hn).2
    rwa [(a hn).1] at this
  · have := rate_of_deriv (f := fun h => cmYc n { p with h := h })
      (fun h hh => C43_cm_y_cond n { p with h := h } (hp' h hh) E hE) (b hn).2
    rwa [(b hn).1] at this

/-- The same for `unm_y` and `cm_y` of `mdl_svcj`, when the variance starts from its stationary law, with mean
`θ + lam μ_v / k`. -/
theorem C65_svcj (n : ℕ) : ∃ d0, ∀ d, d0 ≤ d → ∀ p : SPar, Ok p → 0 ≤ p.lmbd →
    let v := p.theta + p.lmbd * p.mu_v / p.k
    let r := levy (p.mu - v / 2) v p.lmbd (fun n => ∫ y, y 1 ^ n ∂jumpLaw2 p.mu_v p.rhoJ p.mu_s p.sigma_s) n
    (1 ≤ n → Rate (fun h => unmY d n { p with h := h }) 0 r) ∧ (2 ≤ n → Rate (fun h => cmY d n { p with h := h }) 0 r) := by
  obtain ⟨d1, e1⟩ := C43_unm_y n
  obtain ⟨d2, e2⟩ := C43_cm_y n
  refine ⟨max d1 d2, fun d hd p hp hl => ?_⟩
  obtain ⟨E0, M, h0, hM, E, hE⟩ := start_exists p hp
  have hp' : ∀ h, 0 < h → Ok { p with h := h } := fun h hh => ⟨hp.k, hp.rho, hp.mu_v, hh.le⟩
  have h1 : E0 1 = 1 := by
    rw [← pow_zero (X 0), h0.v, hM.zero]
  have hv : E0 (X 0) = p.theta + p.lmbd * p.mu_v / p.k := by
    rw [← pow_one (X 0), h0.v, Srjd.C51_mean _ _ _ _ _ hp.k hp.mu_v M hM]
  obtain ⟨a, b⟩ := short_svcj p hp hE h1 h0.y hv n
  refine ⟨fun hn => ?_, fun hn => ?_⟩
  · have := rate_of_deriv (f := fun h => unmY d n { p with h := h })
      (fun h hh => e1 d (le_of_max_le_left hd) { p with h := h } (hp' h hh) hl E0 M h0 hM E hE) (a hn).2
    rwa [(a hn).1] at this
  · have := rate_of_deriv (f := fun h => cmY d n { p with h := h })
      (fun h hh => e2 d (le_of_max_le_right hd) { p with h := h } (hp' h hh) hl E0 M h0 hM E hE) (b hn).2
    rwa [(b hn).1] at this

end SvcjI

namespace Srjd
open Filter Topology

/-- `m(n, par)` of `mdl_srjd/cond_mom.py`: over a short interval the moment of order `n` starts from `v_0^n` and changes at the
rate that the generator of the process gives. -/
theorem C65_srjd (p : Par) (hk : p.k ≠ 0) (hl : 0 ≤ p.lmbd) (hm : 0 < p.mu_v) (d n : ℕ) (hd : n ≤ d) (h2 : 2 ≤ d) :
    Rate (fun h => mV d n { p with h := h }) (p.v0 ^ n)
      (gen p.k p.theta p.sigma p.lmbd p.mu_v (fun y => y ^ n) p.v0) := by
  obtain ⟨V, hV, e⟩ := C50_dynkin p hk hl hm
  rw [← hV.init n]
  refine rate_of_deriv (fun h hh => e d n h hd h2 hh.le) ?_
  have hq := gen_pow p.k p.theta p.sigma p.lmbd hm n
  have hd := fun t ht => hV.deriv n t ht _ hq
  refine hasDerivWithinAt_Ici_of_tendsto_deriv (s := Set.Ioi 0) (fun t ht => (hd t ht).differentiableAt.differentiableWithinAt)
    ((hV.cont n 0 Set.self_mem_Ici).mono Set.Ioi_subset_Ici_self) self_mem_nhdsWithin ?_
  have : Tendsto (fun t => (genPoly p.k p.theta p.sigma p.lmbd p.mu_v n).sum fun i c => c * V i t) (𝓝[>] 0)
      (𝓝 (gen p.k p.theta p.sigma p.lmbd p.mu_v (fun y => y ^ n) p.v0)) := by
    rw [← hq, Polynomial.eval_eq_sum]
    simp only [Polynomial.sum]
    refine tendsto_finset_sum _ fun i _ => ?_
    rw [← hV.init i]
    exact (((hV.cont i 0 Set.self_mem_Ici).mono Set.Ioi_subset_Ici_self)).const_mul _
  refine this.congr' ?_
  filter_upwards [self_mem_nhdsWithin] with t ht
  exact ((hd t ht).deriv).symm

end Srjd

namespace Sv2
open Itos (code fixed)

theorem sv2j_jump (mu k1 k2 θ1 σ1 θ2 σ2 lam mj sj : ℝ) :
    (fun n => ∫ y, y 2 ^ n ∂(sv2j mu k1 k2 θ1 σ1 θ2 σ2 lam mj sj).ν) = normalMom mj sj := by
  funext n
  simp only [sv2j, normalMom]
  rw [integral_map (Measurable.aemeasurable (by fun_prop)) (Measurable.aestronglyMeasurable (by fun_prop))]
  simp

theorem short_sv2 {p : Fsv2.Par} {c : JumpDiff (Fin 3)} {E0 : MvPolynomial (Fin 3) ℝ →ₗ[ℝ] ℝ}
    {E : ℝ → MvPolynomial (Fin 3) ℝ →ₗ[ℝ] ℝ}
    (h0 : Start E0 (Ito.vMoment p.k1 p.θ1 p.σ1) (Ito.vMoment p.k2 p.θ2 p.σ2))
    (hc : PolyCoef c (bY p.μ p.k1 p.k2 p.θ1 p.θ2) (aY p.σ1 p.σ2)) (hm : Mom c.ν) (hE : c.Dynkin E0 E) (n : ℕ) :
    let d := levy (p.μ - (p.θ1 + p.θ2) / 2) (p.θ1 + p.θ2) c.lam (fun n => ∫ y, y 2 ^ n ∂c.ν) n
    (1 ≤ n → E 0 (X 2 ^ n) = 0 ∧ HasDerivWithinAt (fun t => E t (X 2 ^ n)) d (Set.Ici 0) 0) ∧
    (2 ≤ n → E 0 ((X 2 - C (E 0 (X 2))) ^ n) = 0 ∧
      HasDerivWithinAt (fun t => E t ((X 2 - C (E t (X 2))) ^ n)) d (Set.Ici 0) 0) := by
  have h1 : E0 1 = 1 := by
    have := h0.v 0 0
    simpa [Ito.vMoment] using this
  have v1 : E0 (X 0) = p.θ1 := by
    have := h0.v 1 0
    simpa [Ito.vMoment] using this
  have v2 : E0 (X 1) = p.θ2 := by
    have := h0.v 0 1
    simpa [Ito.vMoment] using this
  have hb : E0 (bY p.μ p.k1 p.k2 p.θ1 p.θ2 2) = p.μ - (p.θ1 + p.θ2) / 2 := by
    have e : bY p.μ p.k1 p.k2 p.θ1 p.θ2 2 = p.μ • 1 - (1 / 2 : ℝ) • (X 0 + X 1) := by simp [bY, smul_eq_C_mul, mul_add]
    rw [e, map_sub, map_smul, map_smul, map_add, h1, v1, v2, smul_eq_mul, smul_eq_mul]
    ring
  have ha : E0 (aY p.σ1 p.σ2 2 2) = p.θ1 + p.θ2 := by
    rw [show aY p.σ1 p.σ2 2 2 = X 0 + X 1 from rfl, map_add, v1, v2]
  refine ⟨fun hn => ?_, fun hn => ?_⟩
  · have := short_mom hc hm hE h1 h0.y n hn
    rwa [hb, ha] at this
  · have := short_cm hc hm hE h1 h0.y n hn
    rwa [hb, ha] at this

/-- the values of `f` over intervals of length `h > 0` are the moments of order `n`, and those of `g` the central moments -/
theorem rates {f g : ℝ → Except PyErr ℝ} {E : ℝ → MvPolynomial (Fin 3) ℝ →ₗ[ℝ] ℝ} {n : ℕ} {d : ℝ}
    (h : (1 ≤ n → E 0 (X 2 ^ n) = 0 ∧ HasDerivWithinAt (fun t => E t (X 2 ^ n)) d (Set.Ici 0) 0) ∧
      (2 ≤ n → E 0 ((X 2 - C (E 0 (X 2))) ^ n) = 0 ∧
        HasDerivWithinAt (fun t => E t ((X 2 - C (E t (X 2))) ^ n)) d (Set.Ici 0) 0))
    (hf : ∀ h, 0 < h → f h = .ok (E h (X 2 ^ n)) ∧ g h = .ok (E h ((X 2 - C (E h (X 2))) ^ n))) :
    (1 ≤ n → Rate f 0 d) ∧ (2 ≤ n → Rate g 0 d) := by
  refine ⟨fun hn => ?_, fun hn => ?_⟩
  · have := rate_of_deriv (fun h hh => (hf h hh).1) (h.1 hn).2
    rwa [(h.1 hn).1] at this
  · have := rate_of_deriv (fun h hh => (hf h hh).2) (h.2 hn).2
    rwa [(h.2 hn).1] at this

theorem pos_h {p : Fsv2.Par} (hp : Pos p) {h : ℝ} (hh : 0 < h) : Pos { p with h := h } :=
  ⟨hp.k1, hp.k2, hp.θ1, hp.σ1, hp.θ2, hp.σ2, hh⟩

/-- `mdl_2fsvj`: drift `μ - (θ1 + θ2)/2`, variance `θ1 + θ2` and jumps at rate `lam`. Missing: orders above 2, where the code
is wrong (C53); for them see `C65_corrected`. -/
theorem C65_fsv2j_partial (p : Fsv2j.Par) (hp : Pos p.toPar) (hl : 0 ≤ p.lam) (n : ℕ) (hn : n ≤ 2) :
    let d := levy (p.μ - (p.θ1 + p.θ2) / 2) (p.θ1 + p.θ2) p.lam (normalMom p.μj p.σj) n
    (1 ≤ n → Rate (fun h => Fsv2j.m code n { p with h := h }) 0 d) ∧
    (2 ≤ n → Rate (fun h => Fsv2j.cm code n { p with h := h }) 0 d) := by
  obtain ⟨E0, E, -, -, h0, hE, -, -⟩ := sv2j_exists p
  have := short_sv2 h0 (sv2j_coef _ _ _ _ _ _ _ _ _ _) (sv2j_mom _ _ _ _ _ _ _ _ _ _) hE n
  rw [sv2j_jump] at this
  exact rates this fun h hh => C53_moments_sde_partial { p with h := h } (pos_h hp hh) hl E0 h0 E hE n hn

/-- The same for `mdl_2fsv`, which has no jumps. -/
theorem C65_fsv2_partial (p : Fsv2.Par) (hp : Pos p) (n : ℕ) (hn : n ≤ 2) :
    let d := levy (p.μ - (p.θ1 + p.θ2) / 2) (p.θ1 + p.θ2) 0 0 n
    (1 ≤ n → Rate (fun h => Fsv2.m code n { p with h := h }) 0 d) ∧
    (2 ≤ n → Rate (fun h => Fsv2.cm code n { p with h := h }) 0 d) := by
  obtain ⟨E0, E, -, -, h0, hE, -, -⟩ := sv2_exists p
  have := short_sv2 h0 (coefY _ _ _ _ _ _ _) momY hE n
  rw [show (sv2 p.μ p.k1 p.k2 p.θ1 p.σ1 p.θ2 p.σ2).lam = 0 from rfl, levy_zero _ _ _ 0] at this
  exact rates this fun h hh => C52_moments_sde_partial { p with h := h } (pos_h hp hh) E0 h0 E hE n hn

/-- With the two corrections of `itos_mom` the same holds for all orders. -/
theorem C65_corrected (p : Fsv2j.Par) (hp : Pos p.toPar) (hg : p.toPar.Generic) (hl : 0 ≤ p.lam) (n : ℕ) :
    let d := fun lam => levy (p.μ - (p.θ1 + p.θ2) / 2) (p.θ1 + p.θ2) lam (normalMom p.μj p.σj) n
    ((1 ≤ n → Rate (fun h => Fsv2.m fixed n { p.toPar with h := h }) 0 (d 0)) ∧
      (2 ≤ n → Rate (fun h => Fsv2.cm fixed n { p.toPar with h := h }) 0 (d 0))) ∧
    (1 ≤ n → Rate (fun h => Fsv2j.m fixed n { p with h := h }) 0 (d p.lam)) ∧
    (2 ≤ n → Rate (fun h => Fsv2j.cm fixed n { p with h := h }) 0 (d p.lam)) := by
  refine ⟨?_, ?_⟩
  · obtain ⟨E0, E, -, -, h0, hE, -, -⟩ := sv2_exists p.toPar
    have := short_sv2 h0 (coefY _ _ _ _ _ _ _) momY hE n
    rw [show (sv2 p.μ p.k1 p.k2 p.θ1 p.σ1 p.θ2 p.σ2).lam = 0 from rfl, levy_zero _ _ _ (normalMom p.μj p.σj)] at this
    obtain ⟨Q, hQ⟩ := dynkin_exists (coef4 p.μ p.k1 p.k2 p.θ1 p.σ1 p.θ2 p.σ2) mom4
    refine rates this fun h hh => ?_
    obtain ⟨a, b, -⟩ := C52_corrected_sde { p.toPar with h := h } (pos_h hp hh) hg E0 h0 E hE _ (second_start _) _ (hQ _)
    exact ⟨a n, b n⟩
  · obtain ⟨E0, E, -, -, h0, hE, -, -⟩ := sv2j_exists p
    have := short_sv2 h0 (sv2j_coef _ _ _ _ _ _ _ _ _ _) (sv2j_mom _ _ _ _ _ _ _ _ _ _) hE n
    rw [sv2j_jump] at this
    obtain ⟨Q, hQ⟩ := dynkin_exists (sv2jtwo_coef p.μ p.k1 p.k2 p.θ1 p.σ1 p.θ2 p.σ2 p.lam p.μj p.σj) (sv2jtwo_mom _ _ _ _ _ _ _ _ _ _)
    refine rates this fun h hh => ?_
    obtain ⟨a, b, -⟩ := C53_corrected_sde { p with h := h } (pos_h hp hh) hg hl E0 h0 E hE _ (second_start _) _ (hQ _)
    exact ⟨a n, b n⟩

/-- the hypotheses are met -/
example : ∃ p : Fsv2j.Par, Pos p.toPar ∧ p.toPar.Generic ∧ 0 < p.lam := by
  have hp : Sv2.Pos Fsv2.exPar := by
    refine ⟨?_, ?_, ?_, ?_, ?_, ?_, ?_⟩ <;> norm_num [Fsv2.exPar]
  exact ⟨⟨Fsv2.exPar, 1, 0, 1⟩, hp, Fsv2.generic_of_irrational _ rfl irrational_sqrt_two, one_pos⟩

end Sv2

/-- the hypotheses of the other theorems are met -/
example : ∃ (p : Fsv1j.Par) (q : SvcjI.SPar) (r : Srjd.Par), (0 < p.k ∧ 0 < p.θ ∧ 0 < p.σ ∧ 0 ≤ 1 - p.ρ ^ 2 ∧ 0 < p.lam) ∧
    (SvcjI.Ok q ∧ 0 < q.lmbd) ∧ r.k ≠ 0 ∧ 0 < r.lmbd ∧ 0 < r.mu_v :=
  ⟨⟨⟨1, 1, 1, 0, 0, 1⟩, 1, 0, 1⟩, SvcjI.par0, ⟨1, 1, 1, 1, 1, 1, 1⟩, by norm_num, ⟨SvcjI.par0_ok, by norm_num [SvcjI.par0]⟩, by norm_num⟩

/-- the variance of the return grows at the rate `θ + lam E[J²]`, for jumps of mean 0 -/
example (s : ℝ) : levy (-1) 4 3 (normalMom 0 s) 2 = 4 + 3 * s ^ 2 := by
  have h := variance_of_integral_eq_zero (μ := gaussianReal 0 (s ^ 2).toNNReal) (X := id) (by fun_prop) (by simp)
  rw [variance_id_gaussianReal] at h
  rw [levy, normalMom, if_neg (by norm_num), if_pos rfl, zero_add]
  simp only [id] at h
  rw [← h, Real.coe_toNNReal _ (sq_nonneg s)]

end Ajd
