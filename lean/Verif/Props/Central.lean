import Verif.Props.Drift
import Verif.Props.Srjd4
import Verif.Props.Fsv2Sde

/-! C66: moments and central moments belong together. -/

namespace Ajd
open MvPolynomial

/-- `cm n` is the central moment of order `n` of a variable whose moments are `m` -/
def Central (m cm : ℕ → Except PyErr ℝ) : Prop :=
  ∃ a : ℕ → ℝ, ∀ n, m n = .ok (a n) ∧
    cm n = .ok (∑ i ∈ Finset.range (n + 1), n.choose i * (-(a 1)) ^ (n - i) * a i)

theorem map_central {σ : Type} (E : MvPolynomial σ ℝ →ₗ[ℝ] ℝ) (f : MvPolynomial σ ℝ) (n : ℕ) :
    E ((f - C (E f)) ^ n) = ∑ i ∈ Finset.range (n + 1), n.choose i * (-E (f ^ 1)) ^ (n - i) * E (f ^ i) := by
  have := map_shift_pow E f 1 (-E f) n
  simp only [mul_one, C_neg, ← sub_eq_add_neg] at this
  rw [this, shifted, pow_one]

namespace Sv

/-- `m` and `cm` of `mdl_1fsvj` -/
theorem C66_fsv1j (p : Fsv1j.Par) (hk : 0 < p.k) (hθ : 0 < p.θ) (hσ : 0 < p.σ) (hh : 0 ≤ p.h) (hρ : 0 ≤ 1 - p.ρ ^ 2)
    (hl : 0 ≤ p.lam) : Central (fun n => Fsv1j.m n p) fun n => Fsv1j.cm n p := by
  obtain ⟨E0, E, -, -, h0, hE, -, -⟩ := svj_exists p (Ito.vMoment p.k p.θ p.σ)
  refine ⟨fun l => E p.h (X 1 ^ l), fun n => ⟨C30_m_sde p hk hθ hσ hh hρ hl E0 h0 E hE n, ?_⟩⟩
  beta_reduce
  rw [C30_cm_sde p hk hθ hσ hh hρ hl E0 h0 E hE n, map_central]

/-- `m` and `cm` of `mdl_1fsv` -/
theorem C66_fsv1 (p : Fsv1.Par) (hk : 0 < p.k) (hθ : 0 < p.θ) (hσ : 0 < p.σ) (hh : 0 ≤ p.h) (hρ : 0 ≤ 1 - p.ρ ^ 2) :
    Central (fun n => Fsv1.m n p) fun n => Fsv1.cm n p := by
  obtain ⟨a, h⟩ := C66_fsv1j ⟨p, 0, 0, 0⟩ hk hθ hσ hh hρ le_rfl
  have n := (C59_fsv1j ⟨p, 0, 0, 0⟩ hk hθ hσ hh hρ rfl).1
  exact ⟨a, fun l => ⟨(n l).1.symm.trans (h l).1, (n l).2.symm.trans (h l).2⟩⟩

end Sv

namespace SvcjI

/-- `m_y` and `cm_y` of `mdl_svcj` given `v_0` -/
theorem C66_svcj_cond (p : SPar) (hp : Ok p) : Central (fun n => mY n p) fun n => cmYc n p := by
  obtain ⟨E, hE⟩ := (C43_expectation p hp (aeval ![p.v0, 0]).toLinearMap).1
  refine ⟨fun n => E p.h (X 1 ^ n), fun n => ⟨C43_m_y n p hp E hE, ?_⟩⟩
  beta_reduce
  rw [C43_cm_y_cond n p hp E hE, map_central]

/-- `unm_y` and `cm_y` of `mdl_svcj`, for a depth that suffices for the order -/
theorem C66_svcj : ∃ d0 : ℕ → ℕ, ∀ p : SPar, Ok p → 0 ≤ p.lmbd → ∀ d : ℕ → ℕ, (∀ n, d0 n ≤ d n) →
    Central (fun n => unmY (d n) n p) fun n => cmY (d n) n p := by
  choose d1 h1 using C43_unm_y
  choose d2 h2 using C43_cm_y
  refine ⟨fun n => max (d1 n) (d2 n), fun p hp hl d hd => ?_⟩
  obtain ⟨E0, M, h0, hM, E, hE⟩ := start_exists p hp
  refine ⟨fun n => E p.h (X 1 ^ n), fun n => ⟨h1 n (d n) ((le_max_left _ _).trans (hd n)) p hp hl E0 M h0 hM E hE, ?_⟩⟩
  beta_reduce
  rw [h2 n (d n) ((le_max_right _ _).trans (hd n)) p hp hl E0 M h0 hM E hE, map_central]

end SvcjI

namespace Srjd

/-- `m` and `cm` of `mdl_srjd` given `v_0` -/
theorem C66_srjd_cond (p : Par) (hk : p.k ≠ 0) (hl : 0 ≤ p.lmbd) (hm : 0 < p.mu_v) (hh : 0 ≤ p.h) (d : ℕ → ℕ)
    (hd : ∀ n, max n 2 ≤ d n) : Central (fun n => mV (d n) n p) fun n => cmV (d n) n p := by
  obtain ⟨V, hV, e⟩ := C50_dynkin p hk hl hm
  have hd1 : ∀ n, n ≤ d n := fun n => (le_max_left _ _).trans (hd n)
  have hd2 : ∀ n, 2 ≤ d n := fun n => (le_max_right _ _).trans (hd n)
  refine ⟨fun n => V n p.h, fun n => ⟨e (d n) n p.h (hd1 n) (hd2 n) hh, ?_⟩⟩
  obtain ⟨r, er, -, -, v⟩ := C36_cmoment_v (d n) n (hd1 n) (hd2 n)
  beta_reduce
  rw [cmV, er, ok_bind, v p hk hl hm hh V hV]
  rfl

/-- `moment_v` and `cmoment_v` of `mdl_srjd/mom.py` and `cmom.py`, at the mean of the stationary law -/
theorem C66_srjd (k θ σ lam μ : ℝ) (hk : k ≠ 0) (hl : 0 ≤ lam) (hμ : 0 < μ) (d : ℕ → ℕ) (hd : ∀ n, n ≤ d n) :
    Central (fun n => (umomentV (d n) n false).map (Poly.ev (statVal k (θ + lam * μ / k) σ lam μ)))
      fun n => (ucmomentV (d n) n).map (Poly.ev (statVal k (θ + lam * μ / k) σ lam μ)) := by
  obtain ⟨M, hM, -⟩ := C51_stationary k θ σ lam μ hk hμ
  refine ⟨M, fun n => ?_⟩
  obtain ⟨r, e, -, -, v⟩ := C51_moment_v (d n) n (hd n) false
  obtain ⟨r', e', -, -, v'⟩ := C51_cmoment_v (d n) n (hd n)
  beta_reduce
  rw [e, e', ← v' k θ σ lam μ hk hl hμ M hM]
  have := v k θ σ lam μ hk hl hμ M hM
  rw [if_neg (by simp)] at this
  rw [← this]
  exact ⟨rfl, rfl⟩

end Srjd

theorem conv_pow (d e : ℝ) : conv (fun n => d ^ n) (fun n => e ^ n) = fun n => (d + e) ^ n := by
  funext n
  rw [add_pow]
  exact Finset.sum_congr rfl fun i _ => by ring

/-- shifts of two independent variables shift their sum -/
theorem conv_shifted (a b : ℕ → ℝ) (d e : ℝ) : conv (shifted d a) (shifted e b) = shifted (d + e) (conv a b) := by
  rw [shifted_eq, shifted_eq, shifted_eq, ← conv_pow]
  exact egf_inj (by simp only [egf_conv]; ring)

namespace Fsv2
open MeasureTheory
open Itos (code)
open Sv2 (Pos)

/-- `m` and `cm` of `mdl_2fsv`, for all orders -/
theorem C66_fsv2 (p : Par) (hp : Pos p) (hg : p.Generic) : Central (fun n => m code n p) fun n => cm code n p := by
  obtain ⟨a, -, h, -⟩ := Sv2.C62_fsv2 p hp hg
  obtain ⟨γ, hγ⟩ : ∃ γ, StatLaw p γ := ⟨_, statLaw_gammas p hp.k1 hp.k2 hp.θ1 hp.σ1 hp.θ2 hp.σ2⟩
  set δ : ℝ := p.θ1 / 2 + p.θ2 / 2 - p.μ with hδ
  have hE : ∀ N : ℕ∞, ∀ᵐ x ∂γ, CompLaw code N { p with μ := p.μ + δ } 0 x (compE code { p with μ := p.μ + δ } 0 x) := fun N =>
    Filter.Eventually.of_forall fun x => compLaw_compE _ _ _ _ _
  have hγ' : StatLaw { p with μ := p.μ + δ } γ := ⟨hγ.1, hγ.2⟩
  have hg' : Par.Generic { p with μ := p.μ + δ } := hg
  have hc : ∀ l : ℕ, cm code l { p with μ := p.μ + δ } = m code l { p with μ := p.μ + δ } := fun l => by
    obtain ⟨r, e, -, -, -, k, v⟩ := momentY_spec code { p with μ := p.μ + δ } hp.k1.ne' hp.k2.ne' 0 _ _ hγ' l (hE l)
    obtain ⟨r', e', -, -, -, k', v'⟩ := cmomentY_spec code { p with μ := p.μ + δ } hp.k1.ne' hp.k2.ne' 0 _ _ hγ' l (hE l)
    rw [m, e, ok_bind, poly2num_eq _ _ (not_zeroDiv _ 6 k _ hg'), cm, e', ok_bind,
      poly2numC_eq _ _ (not_zeroDiv _ 5 k' _ hg'), v, v']
    have hm : mean { p with μ := p.μ + δ } = 0 := by
      simp only [mean, hδ]
      ring
    simp only [hm, map_zero, sub_zero]
  have hmean : a 1 = mean p := by
    have hE : ∀ N : ℕ∞, ∀ᵐ x ∂γ, CompLaw code N p 0 x (compE code p 0 x) := fun N =>
      Filter.Eventually.of_forall fun x => compLaw_compE _ _ _ _ _
    obtain ⟨r, e, -, -, -, k, v⟩ := momentY_spec code p hp.k1.ne' hp.k2.ne' 0 _ _ hγ 1 (hE 1)
    have := (h 1).1
    rw [m, e, ok_bind, poly2num_eq _ _ (not_zeroDiv _ 6 k _ hg), v] at this
    simp only [pow_one] at this
    rw [mean_ret code p hp.k1.ne' hp.k2.ne' 0 _ _ hγ (hE 1)] at this
    exact (Except.ok.inj this).symm
  refine ⟨a, fun n => ⟨(h n).1, ?_⟩⟩
  beta_reduce
  rw [← ((h n).2 δ).2, hc, ((h n).2 δ).1, shifted, hmean]
  have : δ * p.h = -mean p := by
    simp only [mean, hδ]
    ring
  rw [this]

end Fsv2

namespace Fsv2j
open MeasureTheory
open Itos (code)
open Sv2 (Pos)

/-- `m` and `cm` of `mdl_2fsvj`, for all orders -/
theorem C66_fsv2j (p : Par) (hp : Pos p.toPar) (hg : p.toPar.Generic) (hl : 0 ≤ p.lam) :
    Central (fun n => m code n p) fun n => cm code n p := by
  obtain ⟨a, b, -, h, -⟩ := C63_fsv2j p hp hg hl
  obtain ⟨a', h'⟩ := Fsv2.C66_fsv2 p.toPar hp hg
  have ea : a' = a := funext fun n => by simpa using (h' n).1.symm.trans (h n).1
  subst ea
  have eb : b = shifted (-(a' 1)) a' := funext fun n => by
    have := (h n).2.2.1.symm.trans (h' n).2
    rw [shifted]
    exact Except.ok.inj this
  set z : ℕ → ℝ := fun n => ∫ x, x ^ n ∂(jumpLaw p) with hz
  have hc : (fun n => ∫ x, (x - ∫ x', x' ∂(jumpLaw p)) ^ n ∂(jumpLaw p)) = shifted (-(z 1)) z := by
    funext n
    have e : (∫ x', x' ∂(jumpLaw p)) = z 1 := by simp [hz]
    rw [e, shifted]
    simp only [sub_eq_add_neg, add_pow]
    rw [integral_finset_sum _ fun i _ => ?_]
    · refine Finset.sum_congr rfl fun i _ => ?_
      rw [integral_mul_const, integral_mul_const, hz]
      ring
    · exact ((Fsv1j.jump_integrable (jp p) i).mul_const _).mul_const _
  have a0 : a' 0 = 1 := by
    obtain ⟨E0, E, -, -, h0, hE, -, -⟩ := Sv2.sv2_exists p.toPar
    have := (h 0).1.symm.trans (Sv2.C52_moments_sde_partial p.toPar hp E0 h0 E hE 0 (by omega)).1
    rw [Except.ok.inj this, pow_zero, Gen.dynkin_one hE p.h hp.h.le]
    have := h0.v 0 0
    simpa [Ito.vMoment] using this
  have z0 : z 0 = 1 := by
    have : IsProbabilityMeasure (jumpLaw p) := by unfold jumpLaw; infer_instance
    simp [hz]
  refine ⟨conv a' z, fun n => ⟨(h n).2.1, ?_⟩⟩
  beta_reduce
  rw [(h n).2.2.2, hc, eb, conv_shifted]
  have : conv a' z 1 = a' 1 + z 1 := by
    simp [conv, Finset.sum_range_succ, a0, z0]
    ring
  rw [this, neg_add]
  rfl

end Fsv2j

/-- the hypotheses are met -/
example : ∃ (p : Fsv1j.Par) (q : SvcjI.SPar) (r : Srjd.Par) (s : Fsv2j.Par),
    (0 < p.k ∧ 0 < p.θ ∧ 0 < p.σ ∧ 0 < p.h ∧ 0 ≤ 1 - p.ρ ^ 2 ∧ 0 < p.lam) ∧ (SvcjI.Ok q ∧ 0 < q.lmbd) ∧
    (r.k ≠ 0 ∧ 0 < r.lmbd ∧ 0 < r.mu_v ∧ 0 < r.h) ∧ Sv2.Pos s.toPar ∧ s.toPar.Generic ∧ 0 < s.lam := by
  have hp : Sv2.Pos Fsv2.exPar := by
    refine ⟨?_, ?_, ?_, ?_, ?_, ?_, ?_⟩ <;> norm_num [Fsv2.exPar]
  exact ⟨⟨⟨1, 1, 1, 0, 0, 1⟩, 1, 0, 1⟩, SvcjI.par0, ⟨1, 1, 1, 1, 1, 1, 1⟩, ⟨Fsv2.exPar, 1, 0, 1⟩, by norm_num,
    ⟨SvcjI.par0_ok, by norm_num [SvcjI.par0]⟩, by norm_num, hp, Fsv2.generic_of_irrational _ rfl irrational_sqrt_two, one_pos⟩

/-- two functions that `Central` tells apart: the variance of a variable with moments 1, 1, 2 is 1, not 2 -/
example (m cm : ℕ → Except PyErr ℝ) (h0 : m 0 = .ok 1) (h1 : m 1 = .ok 1) (h2 : m 2 = .ok 2) (h : Central m cm) : cm 2 = .ok 1 := by
  obtain ⟨a, ha⟩ := h
  have a0 := Except.ok.inj ((ha 0).1.symm.trans h0)
  have a1 := Except.ok.inj ((ha 1).1.symm.trans h1)
  have a2 := Except.ok.inj ((ha 2).1.symm.trans h2)
  rw [(ha 2).2]
  norm_num [Finset.sum_range_succ, a0, a1, a2]

end Ajd
