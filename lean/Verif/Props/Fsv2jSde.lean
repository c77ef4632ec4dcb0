import Verif.Lemmas.Sv2jLaw
import Verif.Props.Fsv2j

namespace Ajd.Sv2
open MvPolynomial MeasureTheory Itos

/-! ### C53 from the stochastic differential equations -/

/-- `m(l, par)` and `cm(l, par)` of `mdl_2fsvj` are the `l`-th moment and central moment of the return over `h`, when
the variances start from their stationary law, for `l ≤ 2`. Missing: higher orders, where the claim is false. -/
theorem C53_moments_sde_partial (p : Fsv2j.Par) (hp : Pos p.toPar) (hlam : 0 ≤ p.lam)
    (E0 : MvPolynomial (Fin 3) ℝ →ₗ[ℝ] ℝ) (h0 : Start E0 (Ito.vMoment p.k1 p.θ1 p.σ1) (Ito.vMoment p.k2 p.θ2 p.σ2))
    (E : ℝ → MvPolynomial (Fin 3) ℝ →ₗ[ℝ] ℝ)
    (hE : (sv2j p.μ p.k1 p.k2 p.θ1 p.σ1 p.θ2 p.σ2 p.lam p.μj p.σj).Dynkin E0 E) (l : ℕ) (hl : l ≤ 2) :
    Fsv2j.m code l p = .ok (E p.h (X 2 ^ l)) ∧ Fsv2j.cm code l p = .ok (E p.h ((X 2 - C (E p.h (X 2))) ^ l)) := by
  obtain ⟨Ex, γ, Q, L⟩ := exists_law p.toPar hp.k1 hp.k2 hp.θ1 hp.σ1 hp.θ2 hp.σ2 hp.h.le
  obtain ⟨a, b⟩ := Fsv2j.C53_moments_partial p hp.k1.ne' hp.k2.ne' hp.h.le hlam 0 (Ex 0) γ L.stat
    (Filter.Eventually.of_forall fun x => L.cond 0 x) l hl
  have e1 := jret L hlam hp.h.le h0 hE 0 0 1
  have el := jret L hlam hp.h.le h0 hE 0 0 l
  simp only [map_zero, sub_zero, pow_one] at e1 el
  rw [jret L hlam hp.h.le h0 hE 0, el, e1]
  exact ⟨a, b⟩

/-- `cov(1, 1, par)` of `mdl_2fsvj` is the covariance of two returns in a row, when the variances start from their
stationary law. Missing: higher orders. -/
theorem C53_cov_sde_partial (p : Fsv2j.Par) (hp : Pos p.toPar) (hlam : 0 ≤ p.lam)
    (E0 : MvPolynomial (Fin 3) ℝ →ₗ[ℝ] ℝ) (h0 : Start E0 (Ito.vMoment p.k1 p.θ1 p.σ1) (Ito.vMoment p.k2 p.θ2 p.σ2))
    (E : ℝ → MvPolynomial (Fin 3) ℝ →ₗ[ℝ] ℝ)
    (hE : (sv2j p.μ p.k1 p.k2 p.θ1 p.σ1 p.θ2 p.σ2 p.lam p.μj p.σj).Dynkin E0 E)
    (E0' : MvPolynomial (Fin 4) ℝ →ₗ[ℝ] ℝ) (h0' : Second (E p.h) E0')
    (E' : ℝ → MvPolynomial (Fin 4) ℝ →ₗ[ℝ] ℝ)
    (hE' : (sv2jtwo p.μ p.k1 p.k2 p.θ1 p.σ1 p.θ2 p.σ2 p.lam p.μj p.σj).Dynkin E0' E') :
    Fsv2j.cov code 1 1 p = .ok (E' p.h (X 2 * X 3) - E' p.h (X 2) * E' p.h (X 3)) := by
  obtain ⟨Ex, γ, Q, L⟩ := exists_law p.toPar hp.k1 hp.k2 hp.θ1 hp.σ1 hp.θ2 hp.σ2 hp.h.le
  obtain ⟨a, b, c⟩ := jtwo L hp.k1.ne' hp.k2.ne' hlam hp.h.le h0 hE h0' hE' 0 1 1
  simp only [pow_one] at a b c
  rw [Fsv2j.C53_cov_partial p hp.k1.ne' hp.k2.ne' hp.h.le hlam 0 (Ex 0) γ L.stat
    (Filter.Eventually.of_forall fun x => L.cond 0 x) (fun z => atV (Q p.h (X 2 + C z)))
    (by simpa only [pow_one] using jtruePoly L (0 + p.h) 1), a, b, c]

/-- `m(3, par)` and `cm(3, par)` of `mdl_2fsvj` are too small by the same amount. -/
theorem C53_order3_sde (p : Fsv2j.Par) (hp : Pos p.toPar) (hg : p.toPar.Generic) (hlam : 0 ≤ p.lam)
    (E0 : MvPolynomial (Fin 3) ℝ →ₗ[ℝ] ℝ) (h0 : Start E0 (Ito.vMoment p.k1 p.θ1 p.σ1) (Ito.vMoment p.k2 p.θ2 p.σ2))
    (E : ℝ → MvPolynomial (Fin 3) ℝ →ₗ[ℝ] ℝ)
    (hE : (sv2j p.μ p.k1 p.k2 p.θ1 p.σ1 p.θ2 p.σ2 p.lam p.μj p.σj).Dynkin E0 E) :
    ∃ gap, 0 < gap ∧ gap = Fsv2.gap3 p.k1 p.θ1 p.σ1 p.h + Fsv2.gap3 p.k2 p.θ2 p.σ2 p.h ∧
      Fsv2j.m code 3 p = .ok (E p.h (X 2 ^ 3) - gap) ∧
      Fsv2j.cm code 3 p = .ok (E p.h ((X 2 - C (E p.h (X 2))) ^ 3) - gap) := by
  obtain ⟨Ex, γ, Q, L⟩ := exists_law p.toPar hp.k1 hp.k2 hp.θ1 hp.σ1 hp.θ2 hp.σ2 hp.h.le
  obtain ⟨a, b⟩ := Fsv2j.C53_order3 p hg hp.h.le hlam 0 (Ex 0) γ L.stat
    (Filter.Eventually.of_forall fun x => L.cond 0 x)
  have g1 := Fsv2.gap3_pos p.k1 p.θ1 p.σ1 p.h hp.k1 hp.θ1 hp.σ1.ne' hp.h
  have g2 := Fsv2.gap3_pos p.k2 p.θ2 p.σ2 p.h hp.k2 hp.θ2 hp.σ2.ne' hp.h
  refine ⟨_, add_pos g1 g2, rfl, ?_⟩
  have e1 := jret L hlam hp.h.le h0 hE 0 0 1
  have el := jret L hlam hp.h.le h0 hE 0 0 3
  simp only [map_zero, sub_zero, pow_one] at e1 el
  rw [jret L hlam hp.h.le h0 hE 0, el, e1]
  exact ⟨a, b⟩

/-- With the two corrections of `itos_mom`, `m`, `cm` and `cov` of `mdl_2fsvj` are the moments, central moments and
covariances of the returns, of all orders, when the variances start from their stationary law. -/
theorem C53_corrected_sde (p : Fsv2j.Par) (hp : Pos p.toPar) (hg : p.toPar.Generic) (hlam : 0 ≤ p.lam)
    (E0 : MvPolynomial (Fin 3) ℝ →ₗ[ℝ] ℝ) (h0 : Start E0 (Ito.vMoment p.k1 p.θ1 p.σ1) (Ito.vMoment p.k2 p.θ2 p.σ2))
    (E : ℝ → MvPolynomial (Fin 3) ℝ →ₗ[ℝ] ℝ)
    (hE : (sv2j p.μ p.k1 p.k2 p.θ1 p.σ1 p.θ2 p.σ2 p.lam p.μj p.σj).Dynkin E0 E)
    (E0' : MvPolynomial (Fin 4) ℝ →ₗ[ℝ] ℝ) (h0' : Second (E p.h) E0')
    (E' : ℝ → MvPolynomial (Fin 4) ℝ →ₗ[ℝ] ℝ)
    (hE' : (sv2jtwo p.μ p.k1 p.k2 p.θ1 p.σ1 p.θ2 p.σ2 p.lam p.μj p.σj).Dynkin E0' E') :
    (∀ l, Fsv2j.m fixed l p = .ok (E p.h (X 2 ^ l))) ∧
    (∀ l, Fsv2j.cm fixed l p = .ok (E p.h ((X 2 - C (E p.h (X 2))) ^ l))) ∧
    ∀ l1 l2, Fsv2j.cov fixed l1 l2 p =
      .ok (E' p.h (X 2 ^ l1 * X 3 ^ l2) - E' p.h (X 2 ^ l1) * E' p.h (X 3 ^ l2)) := by
  obtain ⟨Ex, γ, Q, L⟩ := exists_law p.toPar hp.k1 hp.k2 hp.θ1 hp.σ1 hp.θ2 hp.σ2 hp.h.le
  obtain ⟨a, b, c⟩ := Fsv2j.C53_corrected p hg hp.h.le hlam 0 (Ex 0) γ L.stat
    (Filter.Eventually.of_forall fun x => L.cond 0 x)
  have e1 := jret L hlam hp.h.le h0 hE 0 0 1
  simp only [map_zero, sub_zero, pow_one] at e1
  refine ⟨fun l => ?_, fun l => ?_, fun l1 l2 => ?_⟩
  · have el := jret L hlam hp.h.le h0 hE 0 0 l
    simp only [map_zero, sub_zero] at el
    rw [el, a]
  · rw [jret L hlam hp.h.le h0 hE 0, e1, b]
  · obtain ⟨x, y, z⟩ := jtwo L hp.k1.ne' hp.k2.ne' hlam hp.h.le h0 hE h0' hE' 0 l1 l2
    rw [x, y, z]
    exact c l1 l2 _ (jtruePoly L (0 + p.h) l2)

/-- There are such expectations. -/
theorem sv2j_exists (p : Fsv2j.Par) : ∃ E0 E E0' E',
    Start E0 (Ito.vMoment p.k1 p.θ1 p.σ1) (Ito.vMoment p.k2 p.θ2 p.σ2) ∧
    (sv2j p.μ p.k1 p.k2 p.θ1 p.σ1 p.θ2 p.σ2 p.lam p.μj p.σj).Dynkin E0 E ∧ Second (E p.h) E0' ∧
    (sv2jtwo p.μ p.k1 p.k2 p.θ1 p.σ1 p.θ2 p.σ2 p.lam p.μj p.σj).Dynkin E0' E' := by
  obtain ⟨Q, hQ⟩ := Gen.dynkin_exists (Gen.jmp_coef 2 p.lam p.μj (p.σj ^ 2).toNNReal
    (coefY p.μ p.k1 p.k2 p.θ1 p.σ1 p.θ2 p.σ2)) (Gen.jmp_mom _ 2 p.lam p.μj (p.σj ^ 2).toNNReal)
  obtain ⟨Q', hQ'⟩ := Gen.dynkin_exists (Gen.jmp_coef 3 p.lam p.μj (p.σj ^ 2).toNNReal
    (coef4 p.μ p.k1 p.k2 p.θ1 p.σ1 p.θ2 p.σ2)) (Gen.jmp_mom _ 3 p.lam p.μj (p.σj ^ 2).toNNReal)
  rw [← sv2j_eq] at hQ
  rw [← sv2jtwo_eq] at hQ'
  exact ⟨startL _ _, _, _, _, start_startL _ _, hQ _, second_start _, hQ' _⟩

/-- The hypotheses of the theorems above are met by parameters whose rates have no integer relation. -/
example : ∃ p : Fsv2j.Par, Pos p.toPar ∧ p.toPar.Generic ∧ 0 < p.lam ∧ p.μj ≠ 0 ∧ 0 < p.σj ∧ ∃ E0 E E0' E',
    Start E0 (Ito.vMoment p.k1 p.θ1 p.σ1) (Ito.vMoment p.k2 p.θ2 p.σ2) ∧
    (sv2j p.μ p.k1 p.k2 p.θ1 p.σ1 p.θ2 p.σ2 p.lam p.μj p.σj).Dynkin E0 E ∧ Second (E p.h) E0' ∧
    (sv2jtwo p.μ p.k1 p.k2 p.θ1 p.σ1 p.θ2 p.σ2 p.lam p.μj p.σj).Dynkin E0' E' := by
  have hp : Pos Fsv2j.exPar.toPar := by
    refine ⟨?_, ?_, ?_, ?_, ?_, ?_, ?_⟩ <;> norm_num [Fsv2j.exPar, Fsv2.exPar]
  exact ⟨Fsv2j.exPar, hp, Fsv2.generic_of_irrational _ rfl irrational_sqrt_two, by norm_num [Fsv2j.exPar],
    by norm_num [Fsv2j.exPar], by norm_num [Fsv2j.exPar], sv2j_exists _⟩

end Ajd.Sv2
