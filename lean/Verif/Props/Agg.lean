import Verif.Lemmas.Agg
import Verif.Spec.Agg
import Verif.Props.Law
import Verif.Props.Law3

/-! C58: two intervals in a row are one interval. -/

namespace Ajd
open MvPolynomial

theorem sum_pow {τ : Type} (E : MvPolynomial τ ℝ →ₗ[ℝ] ℝ) (i j : τ) {M : ℕ → ℝ} (hi : ∀ l, E (X i ^ l) = M l)
    (hj : ∀ l, E (X j ^ l) = M l) (n : ℕ) : E ((X i + X j) ^ n) = ∑ a ∈ Finset.range (n + 1),
      n.choose a * (E (X i ^ a * X j ^ (n - a)) - E (X i ^ a) * E (X j ^ (n - a)) + M a * M (n - a)) := by
  rw [add_pow, map_sum]
  refine Finset.sum_congr rfl fun a _ => ?_
  have e : (X i ^ a * X j ^ (n - a) * (n.choose a : MvPolynomial τ ℝ)) = (n.choose a : ℝ) • (X i ^ a * X j ^ (n - a)) := by
    rw [smul_eq_C_mul, mul_comm]
    simp
  rw [e, map_smul, smul_eq_mul, hi, hj, sub_add_cancel]

namespace Sv
open Gen

/-- The moments that `m` of `mdl_1fsvj/mom.py` returns for an interval twice as long are those of the sum of two
returns in a row, whose moments and covariances `m` and `cov` return. -/
theorem C58_fsv1j (p : Fsv1j.Par) (hk : 0 < p.k) (hθ : 0 < p.θ) (hσ : 0 < p.σ) (hh : 0 ≤ p.h) (hρ : 0 ≤ 1 - p.ρ ^ 2)
    (hl : 0 ≤ p.lam) : SumMoments (fun l => Fsv1j.m l p) (fun l1 l2 => Fsv1j.cov l1 l2 p)
      fun n => Fsv1j.m n { p with h := 2 * p.h } := by
  obtain ⟨E0, E, E0', E', h0, hE, h0', hE'⟩ := svj_exists p (Ito.vMoment p.k p.θ p.σ)
  obtain ⟨s0, sE⟩ := svj2_second hk.ne' hl h0 hE hh h0' hE'
  have m1 := C30_m_sde p hk hθ hσ hh hρ hl E0 h0 E hE
  have m2 := C30_m_sde p hk hθ hσ hh hρ hl _ s0 _ sE
  refine ⟨_, _, m1, C30_cov_sde p hk hθ hσ hh hρ hl E0 h0 E hE E0' h0' E' hE', fun n => ?_⟩
  refine (C30_m_sde { p with h := 2 * p.h } hk hθ hσ (mul_nonneg zero_le_two hh) hρ hl E0 h0 E hE n).trans ?_
  simp only [two_mul]
  rw [svj2_agg hE hh h0' hE' p.h hh n, sum_pow (M := fun l => E p.h (X 1 ^ l)) (E' p.h) 1 2
    (fun l => by simpa using svj2_first h0' hE' 0 l p.h hh) fun l => ?_]
  have := (m2 l).symm.trans (m1 l)
  simpa using this

/-- The same for `mdl_1fsv`. -/
theorem C58_fsv1 (p : Fsv1.Par) (hk : 0 < p.k) (hθ : 0 < p.θ) (hσ : 0 < p.σ) (hh : 0 ≤ p.h) (hρ : 0 ≤ 1 - p.ρ ^ 2) :
    SumMoments (fun l => Fsv1.m l p) (fun l1 l2 => Fsv1.cov l1 l2 p) fun n => Fsv1.m n { p with h := 2 * p.h } := by
  obtain ⟨E0, E, E0', E', h0, hE, h0', hE'⟩ := sde_exists p (Ito.vMoment p.k p.θ p.σ)
  have hJ := dynkin_congr (fun f g => (gen_nojump p.μ p.k p.θ p.σ p.ρ f g).1) hE
  have hJ' := dynkin_congr (fun f g => (gen2_nojump p.μ p.k p.θ p.σ p.ρ f g).1) hE'
  obtain ⟨s0, sE⟩ := svj2_second hk.ne' le_rfl h0 hJ hh h0' hJ'
  have sE := dynkin_congr (fun f g => (gen_nojump p.μ p.k p.θ p.σ p.ρ f g).2) sE
  have m1 := C26_m_sde p hk hθ hσ hh hρ E0 h0 E hE
  have m2 := C26_m_sde p hk hθ hσ hh hρ _ s0 _ sE
  refine ⟨_, _, m1, C27_cov_sde p hk hθ hσ hh hρ E0 h0 E hE E0' h0' E' hE', fun n => ?_⟩
  refine (C26_m_sde { p with h := 2 * p.h } hk hθ hσ (mul_nonneg zero_le_two hh) hρ E0 h0 E hE n).trans ?_
  simp only [two_mul]
  rw [svj2_agg hJ hh h0' hJ' p.h hh n, sum_pow (M := fun l => E p.h (X 1 ^ l)) (E' p.h) 1 2
    (fun l => by simpa using svj2_first h0' hJ' 0 l p.h hh) fun l => ?_]
  have := (m2 l).symm.trans (m1 l)
  simpa using this

/-- The hypotheses of the theorems above are met. -/
example : ∃ p : Fsv1j.Par, 0 < p.k ∧ 0 < p.θ ∧ 0 < p.σ ∧ 0 < p.h ∧ 0 < 1 - p.ρ ^ 2 ∧ 0 < p.lam :=
  ⟨⟨⟨1, 1, 1, -1 / 2, 1, 1⟩, 1, 1, 1⟩, by norm_num⟩

end Sv

namespace Sv2
open Gen Itos

theorem sum_two {τ : Type} (E : MvPolynomial τ ℝ →ₗ[ℝ] ℝ) (i j : τ) {m1 m2 : ℝ} (h1 : E (X i) = m1) (h1' : E (X j) = m1)
    (h2 : E (X i ^ 2) = m2) (h2' : E (X j ^ 2) = m2) : E ((X i + X j) ^ 1) = 2 * m1 ∧
    E ((X i + X j) ^ 2) = 2 * m2 + 2 * (E (X i * X j) - E (X i) * E (X j) + m1 ^ 2) := by
  have e : (X i + X j : MvPolynomial τ ℝ) ^ 2 = X i ^ 2 + (2 : ℝ) • (X i * X j) + X j ^ 2 := by
    rw [smul_eq_C_mul, map_ofNat]
    ring
  rw [pow_one, e, map_add, map_add, map_add, map_smul, smul_eq_mul, h1, h1', h2, h2']
  exact ⟨by ring, by ring⟩

/-- The mean and the second moment that `m` of `mdl_2fsvj/mom.py` returns for an interval twice as long are those of the
sum of two returns in a row. Missing: the other orders, for which the code is wrong (`C53_order3_sde`). -/
theorem C58_fsv2j_partial (p : Fsv2j.Par) (hp : Pos p.toPar) (hl : 0 ≤ p.lam) : ∃ m1 m2 c,
    Fsv2j.m code 1 p = .ok m1 ∧ Fsv2j.m code 2 p = .ok m2 ∧ Fsv2j.cov code 1 1 p = .ok c ∧
    Fsv2j.m code 1 { p with h := 2 * p.h } = .ok (2 * m1) ∧
    Fsv2j.m code 2 { p with h := 2 * p.h } = .ok (2 * m2 + 2 * (c + m1 ^ 2)) := by
  obtain ⟨E0, E, E0', E', h0, hE, h0', hE'⟩ := sv2j_exists p
  obtain ⟨-, e⟩ := two_law p hp hl h0 hE h0' hE'
  have hm := fun l hl2 => (C53_moments_sde_partial p hp hl E0 h0 E hE l hl2).1
  have hm2 := fun l hl2 => (C53_moments_sde_partial { p with h := 2 * p.h }
    ⟨hp.k1, hp.k2, hp.θ1, hp.σ1, hp.θ2, hp.σ2, mul_pos two_pos hp.h⟩ hl E0 h0 E hE l hl2).1
  have s := sv2j_agg hE hp.h.le h0' hE' p.h hp.h.le
  obtain ⟨a, b⟩ := sum_two (E' p.h) 2 3 (by simpa using (e 1).1) (by simpa using (e 1).2) (e 2).1 (e 2).2
  rw [← s] at a b
  simp only [two_mul p.h] at hm2
  refine ⟨_, _, _, by simpa using hm 1 one_le_two, hm 2 le_rfl, C53_cov_sde_partial p hp hl E0 h0 E hE E0' h0' E' hE',
    ?_, ?_⟩
  · simp only [two_mul p.h]
    exact (hm2 1 one_le_two).trans (congrArg _ a)
  · simp only [two_mul p.h]
    exact (hm2 2 le_rfl).trans (congrArg _ b)

/-- The same for the 2FSV model. -/
theorem C58_fsv2_partial (p : Fsv2.Par) (hp : Pos p) : ∃ m1 m2 c,
    Fsv2.m code 1 p = .ok m1 ∧ Fsv2.m code 2 p = .ok m2 ∧ Fsv2.cov code 1 1 p = .ok c ∧
    Fsv2.m code 1 { p with h := 2 * p.h } = .ok (2 * m1) ∧
    Fsv2.m code 2 { p with h := 2 * p.h } = .ok (2 * m2 + 2 * (c + m1 ^ 2)) := by
  obtain ⟨E0, E, E0', E', h0, hE, h0', hE'⟩ := sv2_exists p
  have hJ := dynkin_congr (fun f g => (gen_nojump p.μ p.k1 p.k2 p.θ1 p.σ1 p.θ2 p.σ2 f g).1) hE
  have hJ' := dynkin_congr (fun f g => (gen2_nojump p.μ p.k1 p.k2 p.θ1 p.σ1 p.θ2 p.σ2 f g).1) hE'
  obtain ⟨-, e⟩ := two_law ⟨p, 0, 0, 0⟩ hp le_rfl h0 hJ h0' hJ'
  have hm := fun l hl2 => (C52_moments_sde_partial p hp E0 h0 E hE l hl2).1
  have hm2 := fun l hl2 => (C52_moments_sde_partial { p with h := 2 * p.h }
    ⟨hp.k1, hp.k2, hp.θ1, hp.σ1, hp.θ2, hp.σ2, mul_pos two_pos hp.h⟩ E0 h0 E hE l hl2).1
  have s := sv2j_agg hJ hp.h.le h0' hJ' p.h hp.h.le
  obtain ⟨a, b⟩ := sum_two (E' p.h) 2 3 (by simpa using (e 1).1) (by simpa using (e 1).2) (e 2).1 (e 2).2
  rw [← s] at a b
  simp only [two_mul p.h] at hm2
  refine ⟨_, _, _, by simpa using hm 1 one_le_two, hm 2 le_rfl, C52_cov_sde_partial p hp E0 h0 E hE E0' h0' E' hE',
    ?_, ?_⟩
  · simp only [two_mul p.h]
    exact (hm2 1 one_le_two).trans (congrArg _ a)
  · simp only [two_mul p.h]
    exact (hm2 2 le_rfl).trans (congrArg _ b)

/-- With the correction, all orders of the 2FSVJ model. -/
theorem C58_fsv2j_corrected (p : Fsv2j.Par) (hp : Pos p.toPar) (hg : p.toPar.Generic) (hl : 0 ≤ p.lam) :
    SumMoments (fun l => Fsv2j.m fixed l p) (fun l1 l2 => Fsv2j.cov fixed l1 l2 p)
      fun n => Fsv2j.m fixed n { p with h := 2 * p.h } := by
  obtain ⟨E0, E, E0', E', h0, hE, h0', hE'⟩ := sv2j_exists p
  obtain ⟨-, e⟩ := two_law p hp hl h0 hE h0' hE'
  have hp2 : Pos { p.toPar with h := 2 * p.h } :=
    ⟨hp.k1, hp.k2, hp.θ1, hp.σ1, hp.θ2, hp.σ2, mul_pos two_pos hp.h⟩
  obtain ⟨Q', hQ'⟩ := Gen.dynkin_exists (sv2jtwo_coef p.μ p.k1 p.k2 p.θ1 p.σ1 p.θ2 p.σ2 p.lam p.μj p.σj)
    (sv2jtwo_mom _ _ _ _ _ _ _ _ _ _)
  obtain ⟨a, -, c⟩ := C53_corrected_sde p hp hg hl E0 h0 E hE E0' h0' E' hE'
  obtain ⟨a2, -, -⟩ := C53_corrected_sde { p with h := 2 * p.h } hp2 hg hl E0 h0 E hE _ (second_start _) _ (hQ' _)
  refine ⟨_, _, a, c, fun n => (a2 n).trans ?_⟩
  simp only [two_mul]
  rw [sv2j_agg hE hp.h.le h0' hE' p.h hp.h.le n, sum_pow (M := fun l => E p.h (X 2 ^ l)) (E' p.h) 2 3 (fun l => (e l).1)
    (fun l => (e l).2) n]

/-- With the correction, all orders of the 2FSV model. -/
theorem C58_fsv2_corrected (p : Fsv2.Par) (hp : Pos p) (hg : p.Generic) :
    SumMoments (fun l => Fsv2.m fixed l p) (fun l1 l2 => Fsv2.cov fixed l1 l2 p)
      fun n => Fsv2.m fixed n { p with h := 2 * p.h } := by
  obtain ⟨E0, E, E0', E', h0, hE, h0', hE'⟩ := sv2_exists p
  have hJ := dynkin_congr (fun f g => (gen_nojump p.μ p.k1 p.k2 p.θ1 p.σ1 p.θ2 p.σ2 f g).1) hE
  have hJ' := dynkin_congr (fun f g => (gen2_nojump p.μ p.k1 p.k2 p.θ1 p.σ1 p.θ2 p.σ2 f g).1) hE'
  obtain ⟨-, e⟩ := two_law ⟨p, 0, 0, 0⟩ hp le_rfl h0 hJ h0' hJ'
  have hp2 : Pos { p with h := 2 * p.h } :=
    ⟨hp.k1, hp.k2, hp.θ1, hp.σ1, hp.θ2, hp.σ2, mul_pos two_pos hp.h⟩
  obtain ⟨Q', hQ'⟩ := Gen.dynkin_exists (coef4 p.μ p.k1 p.k2 p.θ1 p.σ1 p.θ2 p.σ2) mom4
  obtain ⟨a, -, c⟩ := C52_corrected_sde p hp hg E0 h0 E hE E0' h0' E' hE'
  obtain ⟨a2, -, -⟩ := C52_corrected_sde { p with h := 2 * p.h } hp2 hg E0 h0 E hE _ (second_start _) _ (hQ' _)
  refine ⟨_, _, a, c, fun n => (a2 n).trans ?_⟩
  simp only [two_mul]
  rw [sv2j_agg hJ hp.h.le h0' hJ' p.h hp.h.le n, sum_pow (M := fun l => E p.h (X 2 ^ l)) (E' p.h) 2 3 (fun l => (e l).1)
    (fun l => (e l).2) n]

/-- The hypotheses of the theorems above are met. -/
example : ∃ p : Fsv2j.Par, Pos p.toPar ∧ p.toPar.Generic ∧ 0 < p.lam := by
  have hp : Pos Fsv2.exPar := by
    refine ⟨?_, ?_, ?_, ?_, ?_, ?_, ?_⟩ <;> norm_num [Fsv2.exPar]
  exact ⟨⟨Fsv2.exPar, 1, 0, 1⟩, hp, Fsv2.generic_of_irrational _ rfl irrational_sqrt_two, one_pos⟩

end Sv2
end Ajd
