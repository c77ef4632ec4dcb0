import Verif.Lemmas.SvLaw
import Verif.Lemmas.LawIneq
import Verif.Props.FsvSde
import Verif.Props.FsvjSde

namespace Ajd.Sv
open MvPolynomial MeasureTheory Gen

/-! ### C56: the values returned for an admissible parameter are the moments of a distribution -/

theorem one_start {k θ σ : ℝ} {E0 : MvPolynomial (Fin 2) ℝ →ₗ[ℝ] ℝ} (h0 : Start E0 (Ito.vMoment k θ σ)) : E0 1 = 1 := by
  have := h0.v 0
  simpa [Ito.vMoment] using this

/-- For every admissible parameter of the 1FSVJ model there is a probability distribution of two returns in a row
such that `m` and `cm` return the moments and central moments of each and `cov` the covariances of their powers, for
all orders. -/
theorem C56_fsv1j (p : Fsv1j.Par) (hk : 0 < p.k) (hθ : 0 < p.θ) (hσ : 0 < p.σ) (hh : 0 ≤ p.h) (hρ : 0 ≤ 1 - p.ρ ^ 2)
    (hl : 0 ≤ p.lam) : ∃ P, IsPairLaw P (fun l => Fsv1j.m l p) (fun l => Fsv1j.cm l p) fun l1 l2 => Fsv1j.cov l1 l2 p := by
  obtain ⟨E0, E, E0', E', h0, hE, h0', hE'⟩ := svj_exists p (Ito.vMoment p.k p.θ p.σ)
  have hkθ : 0 ≤ p.k * p.θ := (mul_pos hk hθ).le
  have hp1 : ∀ f, (∀ x ∈ orth {0}, 0 ≤ eval x f) → 0 ≤ E p.h f := dynkin_pos (svj_coef _ _ _ _ _ _ _ _)
    (svj_mom _ _ _ _ _ _ _ _) (svj_viable hkθ hρ hl) hE (start_pos (p := p.toPar) hk hθ hσ h0) p.h hh
  have h1 : E0' 1 = 1 := by
    rw [h0'.all, map_one, dynkin_one hE p.h hh, one_start h0]
  obtain ⟨P, hP, -, hf⟩ := exists_law (svj2_coef _ _ _ _ _ _ _ _) (svj2_mom _ _ _ _ _ _ _ _) (svj2_viable hkθ hρ hl)
    ⟨0, fun i _ => le_rfl⟩ hE' (second_pos h0' hp1) h1 p.h hh
  obtain ⟨s0, sE⟩ := svj2_second hk.ne' hl h0 hE hh h0' hE'
  have ef := svj2_first h0' hE'
  have ef0 : ∀ l, E' p.h (X 1 ^ l) = E p.h (X 1 ^ l) := fun l => by simpa using ef 0 l p.h hh
  have ef1 : E' p.h (X 1) = E p.h (X 1) := by simpa using ef0 1
  refine ⟨_, pair_law hf (fun i hi l => ?_) (fun i hi l => ?_) (C30_cov_sde p hk hθ hσ hh hρ hl E0 h0 E hE E0' h0' E' hE')⟩
  · obtain rfl | rfl : i = 1 ∨ i = 2 := by omega
    · rw [C30_m_sde p hk hθ hσ hh hρ hl E0 h0 E hE, ef0]
    · rw [C30_m_sde p hk hθ hσ hh hρ hl _ s0 _ sE]
      simp
  · obtain rfl | rfl : i = 1 ∨ i = 2 := by omega
    · rw [C30_cm_sde p hk hθ hσ hh hρ hl E0 h0 E hE, ef1, ef _ _ _ hh]
    · rw [C30_cm_sde p hk hθ hσ hh hρ hl _ s0 _ sE]
      simp [algebraMap_eq]

theorem gen_nojump (mu k θ σ ρ : ℝ) (f g : MvPolynomial (Fin 2) ℝ) :
    (svj mu k θ σ ρ 0 0 0).IsGen f g ↔ (heston mu k θ σ ρ).IsGen f g := by
  simp [JumpDiff.IsGen, svj, heston]

theorem gen2_nojump (mu k θ σ ρ : ℝ) (f g : MvPolynomial (Fin 3) ℝ) :
    (svj2 mu k θ σ ρ 0 0 0).IsGen f g ↔ (heston2 mu k θ σ ρ).IsGen f g := by
  simp [JumpDiff.IsGen, svj2, heston2]

/-- For every admissible parameter of the 1FSV model there is a probability distribution of two returns in a row
such that `m` and `cm` return the moments and central moments of each and `cov` the covariances of their powers, for
all orders. -/
theorem C56_fsv1 (p : Fsv1.Par) (hk : 0 < p.k) (hθ : 0 < p.θ) (hσ : 0 < p.σ) (hh : 0 ≤ p.h) (hρ : 0 ≤ 1 - p.ρ ^ 2) :
    ∃ P, IsPairLaw P (fun l => Fsv1.m l p) (fun l => Fsv1.cm l p) fun l1 l2 => Fsv1.cov l1 l2 p := by
  obtain ⟨E0, E, E0', E', h0, hE, h0', hE'⟩ := sde_exists p (Ito.vMoment p.k p.θ p.σ)
  have hJ := dynkin_congr (fun f g => (gen_nojump p.μ p.k p.θ p.σ p.ρ f g).1) hE
  have hJ' := dynkin_congr (fun f g => (gen2_nojump p.μ p.k p.θ p.σ p.ρ f g).1) hE'
  have hkθ : 0 ≤ p.k * p.θ := (mul_pos hk hθ).le
  have hp1 : ∀ f, (∀ x ∈ orth {0}, 0 ≤ eval x f) → 0 ≤ E p.h f := dynkin_pos (svj_coef _ _ _ _ _ _ _ _)
    (svj_mom _ _ _ _ _ _ _ _) (svj_viable hkθ hρ le_rfl) hJ (start_pos hk hθ hσ h0) p.h hh
  have h1 : E0' 1 = 1 := by
    rw [h0'.all, map_one, dynkin_one hE p.h hh, one_start h0]
  obtain ⟨P, hP, -, hf⟩ := exists_law (svj2_coef _ _ _ _ _ _ _ _) (svj2_mom _ _ _ _ _ _ _ _)
    (svj2_viable hkθ hρ le_rfl) ⟨0, fun i _ => le_rfl⟩ hJ' (second_pos h0' hp1) h1 p.h hh
  obtain ⟨s0, sE⟩ := svj2_second hk.ne' le_rfl h0 hJ hh h0' hJ'
  have sE := dynkin_congr (fun f g => (gen_nojump p.μ p.k p.θ p.σ p.ρ f g).2) sE
  have ef := svj2_first h0' hJ'
  have ef0 : ∀ l, E' p.h (X 1 ^ l) = E p.h (X 1 ^ l) := fun l => by simpa using ef 0 l p.h hh
  have ef1 : E' p.h (X 1) = E p.h (X 1) := by simpa using ef0 1
  refine ⟨_, pair_law hf (fun i hi l => ?_) (fun i hi l => ?_) (C27_cov_sde p hk hθ hσ hh hρ E0 h0 E hE E0' h0' E' hE')⟩
  · obtain rfl | rfl : i = 1 ∨ i = 2 := by omega
    · rw [C26_m_sde p hk hθ hσ hh hρ E0 h0 E hE, ef0]
    · rw [C26_m_sde p hk hθ hσ hh hρ _ s0 _ sE]
      simp
  · obtain rfl | rfl : i = 1 ∨ i = 2 := by omega
    · rw [C26_cm_sde p hk hθ hσ hh hρ E0 h0 E hE, ef1, ef _ _ _ hh]
    · rw [C26_cm_sde p hk hθ hσ hh hρ _ s0 _ sE]
      simp [algebraMap_eq]

/-- For every admissible parameter of the 1FSV model and every initial variance that is not negative there is a
probability distribution of the return such that `cond_cm` returns its central moments, for all orders. -/
theorem C56_fsv1_cond (p : Fsv1.Par) (hk : 0 < p.k) (hθ : 0 ≤ p.θ) (hh : 0 ≤ p.h) (hρ : 0 ≤ 1 - p.ρ ^ 2) (x : ℝ)
    (hx : 0 ≤ x) : ∃ P : Measure ℝ, IsProbabilityMeasure P ∧ (∀ l : ℕ, Integrable (fun y => y ^ l) P) ∧
      ∀ l : ℕ, 1 ≤ l → Fsv1c.condCm l p x = .ok (∫ y, (y - ∫ z, z ∂P) ^ l ∂P) := by
  obtain ⟨Q, hQ, -⟩ := heston_semi p.μ p.k p.θ p.σ p.ρ
  have hE := hQ (aeval ![x, 0]).toLinearMap
  have hJ := dynkin_congr (fun f g => (gen_nojump p.μ p.k p.θ p.σ p.ρ f g).1) hE
  obtain ⟨P, hP, -, hf⟩ := exists_law (svj_coef _ _ _ _ _ _ _ _) (svj_mom _ _ _ _ _ _ _ _)
    (svj_viable (mul_nonneg hk.le hθ) hρ le_rfl) ⟨0, fun i _ => le_rfl⟩ hJ (point_pos hx) (by simp) p.h hh
  have hL := law_fst hf 1 (fun l => rfl) fun l => rfl
  refine ⟨_, hL.prob, hL.int, fun l hl => ?_⟩
  rw [← hL.cm, C29_cond_cm_sde p hk.ne' hh hρ x _ hE l hl]

/-- Inequalities that the values of `m`, `cm` and `cov` of the 1FSV model meet for every admissible parameter:
the Hankel forms of the moments are not negative; the central moments of even order are not negative; the kurtosis is
at least `1 + skewness^2`; the covariance is at most the product of the standard deviations. -/
theorem C56_fsv1_ineq (p : Fsv1.Par) (hk : 0 < p.k) (hθ : 0 < p.θ) (hσ : 0 < p.σ) (hh : 0 ≤ p.h) (hρ : 0 ≤ 1 - p.ρ ^ 2) :
    (∀ (n : ℕ) (a : ℕ → ℝ), ∃ M : ℕ → ℝ, (∀ l, Fsv1.m l p = .ok (M l)) ∧
      0 ≤ ∑ i ∈ Finset.range n, ∑ j ∈ Finset.range n, a i * a j * M (i + j)) ∧
    (∀ l, ∃ c, Fsv1.cm (2 * l) p = .ok c ∧ 0 ≤ c) ∧
    (∃ c2 c3 c4, Fsv1.cm 2 p = .ok c2 ∧ Fsv1.cm 3 p = .ok c3 ∧ Fsv1.cm 4 p = .ok c4 ∧ c3 ^ 2 + c2 ^ 3 ≤ c2 * c4) ∧
    ∀ l1 l2, ∃ c m1 m2 s1 s2, Fsv1.cov l1 l2 p = .ok c ∧ Fsv1.m l1 p = .ok m1 ∧ Fsv1.m l2 p = .ok m2 ∧
      Fsv1.m (2 * l1) p = .ok s1 ∧ Fsv1.m (2 * l2) p = .ok s2 ∧ c ^ 2 ≤ (s1 - m1 ^ 2) * (s2 - m2 ^ 2) := by
  obtain ⟨P, hP⟩ := C56_fsv1 p hk hθ hσ hh hρ
  refine ⟨hP.fst.hankel, hP.fst.even, ?_, hP.cauchy⟩
  obtain ⟨c2, c3, c4, h2, h3, h4, -, -, h⟩ := hP.fst.kurt
  exact ⟨c2, c3, c4, h2, h3, h4, h⟩

/-- The same inequalities for the 1FSVJ model. -/
theorem C56_fsv1j_ineq (p : Fsv1j.Par) (hk : 0 < p.k) (hθ : 0 < p.θ) (hσ : 0 < p.σ) (hh : 0 ≤ p.h)
    (hρ : 0 ≤ 1 - p.ρ ^ 2) (hl : 0 ≤ p.lam) :
    (∀ (n : ℕ) (a : ℕ → ℝ), ∃ M : ℕ → ℝ, (∀ l, Fsv1j.m l p = .ok (M l)) ∧
      0 ≤ ∑ i ∈ Finset.range n, ∑ j ∈ Finset.range n, a i * a j * M (i + j)) ∧
    (∀ l, ∃ c, Fsv1j.cm (2 * l) p = .ok c ∧ 0 ≤ c) ∧
    (∃ c2 c3 c4, Fsv1j.cm 2 p = .ok c2 ∧ Fsv1j.cm 3 p = .ok c3 ∧ Fsv1j.cm 4 p = .ok c4 ∧ c3 ^ 2 + c2 ^ 3 ≤ c2 * c4) ∧
    ∀ l1 l2, ∃ c m1 m2 s1 s2, Fsv1j.cov l1 l2 p = .ok c ∧ Fsv1j.m l1 p = .ok m1 ∧ Fsv1j.m l2 p = .ok m2 ∧
      Fsv1j.m (2 * l1) p = .ok s1 ∧ Fsv1j.m (2 * l2) p = .ok s2 ∧ c ^ 2 ≤ (s1 - m1 ^ 2) * (s2 - m2 ^ 2) := by
  obtain ⟨P, hP⟩ := C56_fsv1j p hk hθ hσ hh hρ hl
  refine ⟨hP.fst.hankel, hP.fst.even, ?_, hP.cauchy⟩
  obtain ⟨c2, c3, c4, h2, h3, h4, -, -, h⟩ := hP.fst.kurt
  exact ⟨c2, c3, c4, h2, h3, h4, h⟩

/-- `C56_fsv1`, `C56_fsv1_cond`, `C56_fsv1_ineq`, `C56_fsv1j`, `C56_fsv1j_ineq` -/
example : ∃ (p : Fsv1j.Par) (x : ℝ), 0 < p.k ∧ 0 < p.θ ∧ 0 < p.σ ∧ 0 < p.h ∧ 0 < 1 - p.ρ ^ 2 ∧ p.ρ ≠ 0 ∧ 0 < p.lam ∧
    0 < x := by
  refine ⟨⟨⟨1 / 10, 1 / 4, 1 / 10, -7 / 10, 1 / 8, 1⟩, 1 / 100, 0, 1 / 20⟩, 1 / 4, ?_⟩
  norm_num

end Ajd.Sv
