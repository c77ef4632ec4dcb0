import Verif.Lemmas.Sv2Pos
import Verif.Lemmas.LawIneq
import Verif.Props.Fsv2Sde
import Verif.Props.Fsv2jSde

/-! C57: as C56, for the two-factor models. The code returns wrong values from order 3 on (C52, C53), so the theorems are about
the orders up to 2, and about the code with the correction in `Fsv2.Cfg`. -/

namespace Ajd.Sv2
open MvPolynomial MeasureTheory Gen Itos

theorem gen_nojump (mu k1 k2 θ1 σ1 θ2 σ2 : ℝ) (f g : MvPolynomial (Fin 3) ℝ) :
    (sv2j mu k1 k2 θ1 σ1 θ2 σ2 0 0 0).IsGen f g ↔ (sv2 mu k1 k2 θ1 σ1 θ2 σ2).IsGen f g := by
  simp [JumpDiff.IsGen, sv2j, sv2]

theorem gen2_nojump (mu k1 k2 θ1 σ1 θ2 σ2 : ℝ) (f g : MvPolynomial (Fin 4) ℝ) :
    (sv2jtwo mu k1 k2 θ1 σ1 θ2 σ2 0 0 0).IsGen f g ↔ (sv2two mu k1 k2 θ1 σ1 θ2 σ2).IsGen f g := by
  simp [JumpDiff.IsGen, sv2jtwo, sv2two]

/-- For every admissible parameter of the 2FSVJ model there is a probability distribution of two returns in a row such
that `m` and `cm` return the moments and central moments of each up to order 2 and `cov` their covariance.
Missing: the other orders, for which the code is wrong (`C53_order3_sde`). -/
theorem C57_fsv2j_partial (p : Fsv2j.Par) (hp : Pos p.toPar) (hl : 0 ≤ p.lam) : ∃ P m cm cov, IsPairLaw P m cm cov ∧
    (∀ l ≤ 2, Fsv2j.m code l p = m l ∧ Fsv2j.cm code l p = cm l) ∧ Fsv2j.cov code 1 1 p = cov 1 1 := by
  obtain ⟨E0, E, E0', E', h0, hE, h0', hE'⟩ := sv2j_exists p
  obtain ⟨⟨P, hP, hf⟩, e⟩ := two_law p hp hl h0 hE h0' hE'
  have e1 : E' p.h (X 2) = E p.h (X 2) := by simpa using (e 1).1
  refine ⟨_, _, _, _, pair_law hf 2 3 (fun l => rfl) (fun l => (e l).2.trans (e l).1.symm) (fun l => rfl)
    fun l1 l2 => rfl, fun l hl2 => ?_, ?_⟩
  · obtain ⟨a, b⟩ := C53_moments_sde_partial p hp hl E0 h0 E hE l hl2
    refine ⟨by rw [a, (e l).1], ?_⟩
    rw [b, central_sum, central_sum, e1]
    simp only [(e _).1]
  · simp only [pow_one]
    exact C53_cov_sde_partial p hp hl E0 h0 E hE E0' h0' E' hE'

/-- The same for the 2FSV model. -/
theorem C57_fsv2_partial (p : Fsv2.Par) (hp : Pos p) : ∃ P m cm cov, IsPairLaw P m cm cov ∧
    (∀ l ≤ 2, Fsv2.m code l p = m l ∧ Fsv2.cm code l p = cm l) ∧ Fsv2.cov code 1 1 p = cov 1 1 := by
  obtain ⟨E0, E, E0', E', h0, hE, h0', hE'⟩ := sv2_exists p
  obtain ⟨⟨P, hP, hf⟩, e⟩ := two_law ⟨p, 0, 0, 0⟩ hp le_rfl h0
    (dynkin_congr (fun f g => (gen_nojump p.μ p.k1 p.k2 p.θ1 p.σ1 p.θ2 p.σ2 f g).1) hE) h0'
    (dynkin_congr (fun f g => (gen2_nojump p.μ p.k1 p.k2 p.θ1 p.σ1 p.θ2 p.σ2 f g).1) hE')
  have e1 : E' p.h (X 2) = E p.h (X 2) := by simpa using (e 1).1
  refine ⟨_, _, _, _, pair_law hf 2 3 (fun l => rfl) (fun l => (e l).2.trans (e l).1.symm) (fun l => rfl)
    fun l1 l2 => rfl, fun l hl2 => ?_, ?_⟩
  · obtain ⟨a, b⟩ := C52_moments_sde_partial p hp E0 h0 E hE l hl2
    refine ⟨by rw [a, (e l).1], ?_⟩
    rw [b, central_sum, central_sum, e1]
    simp only [(e _).1]
  · simp only [pow_one]
    exact C52_cov_sde_partial p hp E0 h0 E hE E0' h0' E' hE'

/-- With the correction, all orders of the 2FSVJ model. -/
theorem C57_fsv2j_corrected (p : Fsv2j.Par) (hp : Pos p.toPar) (hg : p.toPar.Generic) (hl : 0 ≤ p.lam) :
    ∃ P, IsPairLaw P (fun l => Fsv2j.m fixed l p) (fun l => Fsv2j.cm fixed l p) fun l1 l2 => Fsv2j.cov fixed l1 l2 p := by
  obtain ⟨E0, E, E0', E', h0, hE, h0', hE'⟩ := sv2j_exists p
  obtain ⟨⟨P, hP, hf⟩, e⟩ := two_law p hp hl h0 hE h0' hE'
  have e1 : E' p.h (X 2) = E p.h (X 2) := by simpa using (e 1).1
  obtain ⟨a, b, c⟩ := C53_corrected_sde p hp hg hl E0 h0 E hE E0' h0' E' hE'
  refine ⟨_, pair_law hf 2 3 (fun l => by rw [a, (e l).1]) (fun l => (e l).2.trans (e l).1.symm) (fun l => ?_) c⟩
  rw [b, central_sum, central_sum, e1]
  simp only [(e _).1]

/-- With the correction, all orders of the 2FSV model. -/
theorem C57_fsv2_corrected (p : Fsv2.Par) (hp : Pos p) (hg : p.Generic) :
    ∃ P, IsPairLaw P (fun l => Fsv2.m fixed l p) (fun l => Fsv2.cm fixed l p) fun l1 l2 => Fsv2.cov fixed l1 l2 p := by
  obtain ⟨E0, E, E0', E', h0, hE, h0', hE'⟩ := sv2_exists p
  obtain ⟨⟨P, hP, hf⟩, e⟩ := two_law ⟨p, 0, 0, 0⟩ hp le_rfl h0
    (dynkin_congr (fun f g => (gen_nojump p.μ p.k1 p.k2 p.θ1 p.σ1 p.θ2 p.σ2 f g).1) hE) h0'
    (dynkin_congr (fun f g => (gen2_nojump p.μ p.k1 p.k2 p.θ1 p.σ1 p.θ2 p.σ2 f g).1) hE')
  have e1 : E' p.h (X 2) = E p.h (X 2) := by simpa using (e 1).1
  obtain ⟨a, b, c⟩ := C52_corrected_sde p hp hg E0 h0 E hE E0' h0' E' hE'
  refine ⟨_, pair_law hf 2 3 (fun l => by rw [a, (e l).1]) (fun l => (e l).2.trans (e l).1.symm) (fun l => ?_) c⟩
  rw [b, central_sum, central_sum, e1]
  simp only [(e _).1]

/-- The variance of the 2FSV model as returned is not negative and the covariance is not larger. -/
theorem C57_fsv2_ineq (p : Fsv2.Par) (hp : Pos p) : ∃ c2 c, Fsv2.cm code 2 p = .ok c2 ∧ Fsv2.cov code 1 1 p = .ok c ∧
    0 ≤ c2 ∧ |c| ≤ c2 := by
  obtain ⟨P, m, cm, cov, h, hm, hc⟩ := C57_fsv2_partial p hp
  rw [(hm 2 le_rfl).2, hc]
  exact h.cov_le

/-- The same for the 2FSVJ model. -/
theorem C57_fsv2j_ineq (p : Fsv2j.Par) (hp : Pos p.toPar) (hl : 0 ≤ p.lam) : ∃ c2 c, Fsv2j.cm code 2 p = .ok c2 ∧
    Fsv2j.cov code 1 1 p = .ok c ∧ 0 ≤ c2 ∧ |c| ≤ c2 := by
  obtain ⟨P, m, cm, cov, h, hm, hc⟩ := C57_fsv2j_partial p hp hl
  rw [(hm 2 le_rfl).2, hc]
  exact h.cov_le

/-- The hypotheses of the theorems above are met. -/
example : ∃ p : Fsv2j.Par, Pos p.toPar ∧ p.toPar.Generic ∧ 0 < p.lam := by
  have hp : Pos Fsv2.exPar := by
    refine ⟨?_, ?_, ?_, ?_, ?_, ?_, ?_⟩ <;> norm_num [Fsv2.exPar]
  exact ⟨⟨Fsv2.exPar, 1, 0, 1⟩, hp, Fsv2.generic_of_irrational _ rfl irrational_sqrt_two, one_pos⟩

end Ajd.Sv2
