import Verif.Lemmas.Drift
import Verif.Props.Conv

/-! C62: the drift. -/

namespace Ajd
open MvPolynomial

/-- the moments `a` of a variable after `e` is added to it -/
def shifted (e : ℝ) (a : ℕ → ℝ) (n : ℕ) : ℝ := ∑ i ∈ Finset.range (n + 1), n.choose i * e ^ (n - i) * a i

theorem map_shift_pow {σ : Type} (E : MvPolynomial σ ℝ →ₗ[ℝ] ℝ) (f g : MvPolynomial σ ℝ) (e : ℝ) (n : ℕ) :
    E ((f + C e) ^ n * g) = shifted e (fun i => E (f ^ i * g)) n := by
  rw [shifted, add_pow, Finset.sum_mul, map_sum]
  refine Finset.sum_congr rfl fun i _ => ?_
  rw [← smul_eq_mul (_ * _) (E _), ← map_smul, smul_eq_C_mul]
  refine congrArg E ?_
  simp only [map_mul, map_pow, map_natCast]
  ring

theorem shifted_sub (e : ℝ) (a b : ℕ → ℝ) (n : ℕ) : shifted e (fun i => a i - b i) n = shifted e a n - shifted e b n := by
  simp only [shifted, mul_sub, Finset.sum_sub_distrib]

theorem shifted_mul (e : ℝ) (a : ℕ → ℝ) (c : ℝ) (n : ℕ) : shifted e (fun i => a i * c) n = shifted e a n * c := by
  simp only [shifted, ← mul_assoc, Finset.sum_mul]

theorem shifted_const_mul (e : ℝ) (a : ℕ → ℝ) (c : ℝ) (n : ℕ) : shifted e (fun i => c * a i) n = c * shifted e a n := by
  simp only [shifted, Finset.mul_sum]
  exact Finset.sum_congr rfl fun i _ => by ring

theorem shifted_comm (e d : ℝ) (a : ℕ → ℕ → ℝ) (m n : ℕ) :
    shifted e (fun i => shifted d (a i) n) m = shifted d (fun j => shifted e (fun i => a i j) m) n := by
  simp only [shifted, Finset.mul_sum]
  rw [Finset.sum_comm]
  exact Finset.sum_congr rfl fun i _ => Finset.sum_congr rfl fun j _ => by ring

namespace Sv
open MeasureTheory Gen SvcjI

theorem svj_drift {mu k θ σ ρ lam mj sj : ℝ} {E0 : MvPolynomial (Fin 2) ℝ →ₗ[ℝ] ℝ}
    {E : ℝ → MvPolynomial (Fin 2) ℝ →ₗ[ℝ] ℝ} (hE : (svj mu k θ σ ρ lam mj sj).Dynkin E0 E) (δ : ℝ) :
    (svj (mu + δ) k θ σ ρ lam mj sj).Dynkin E0 fun t => E t ∘ₗ (aeval (sh ![0, δ] t)).toLinearMap := by
  refine dynkin_drift (svj_coef _ _ _ _ _ _ _ _) (svj_mom mu k θ σ ρ lam mj sj) (c' := svj (mu + δ) k θ σ ρ lam mj sj)
    (w := ![0, δ]) ?_ rfl rfl (fun s i => ?_) (fun s i j => ?_) hE
  · have : (fun i => bY k θ mu i + C (![0, δ] i)) = bY k θ (mu + δ) := by
      funext i
      fin_cases i <;> simp [bY]
      ring
    rw [this]
    exact svj_coef _ _ _ _ _ _ _ _
  · fin_cases i <;> simp [bY, sh, algebraMap_eq]
  · fin_cases i <;> fin_cases j <;> simp [aY, sh, algebraMap_eq]

theorem svj2_drift {mu k θ σ ρ lam mj sj : ℝ} {E0 : MvPolynomial (Fin 3) ℝ →ₗ[ℝ] ℝ}
    {E : ℝ → MvPolynomial (Fin 3) ℝ →ₗ[ℝ] ℝ} (hE : (svj2 mu k θ σ ρ lam mj sj).Dynkin E0 E) (δ : ℝ) :
    (svj2 (mu + δ) k θ σ ρ lam mj sj).Dynkin E0 fun t => E t ∘ₗ (aeval (sh ![0, 0, δ] t)).toLinearMap := by
  refine dynkin_drift (svj2_coef _ _ _ _ _ _ _ _) (svj2_mom mu k θ σ ρ lam mj sj) (c' := svj2 (mu + δ) k θ σ ρ lam mj sj)
    (w := ![0, 0, δ]) ?_ rfl rfl (fun s i => ?_) (fun s i j => ?_) hE
  · have : (fun i => b3 k θ mu i + C (![0, 0, δ] i)) = b3 k θ (mu + δ) := by
      funext i
      fin_cases i <;> simp [b3]
      ring
    rw [this]
    exact svj2_coef _ _ _ _ _ _ _ _
  · fin_cases i <;> simp [b3, sh, algebraMap_eq]
  · fin_cases i <;> fin_cases j <;> simp [a3, sh, algebraMap_eq]

/-- a shift of the first return -/
theorem svj2_shift1 {mu k θ σ ρ lam mj sj : ℝ} {E0 : MvPolynomial (Fin 3) ℝ →ₗ[ℝ] ℝ}
    {E : ℝ → MvPolynomial (Fin 3) ℝ →ₗ[ℝ] ℝ} (hE : (svj2 mu k θ σ ρ lam mj sj).Dynkin E0 E) (e : ℝ) :
    (svj2 mu k θ σ ρ lam mj sj).Dynkin (E0 ∘ₗ (aeval (sh ![0, 1, 0] e)).toLinearMap)
      fun t => E t ∘ₗ (aeval (sh ![0, 1, 0] e)).toLinearMap := by
  refine dynkin_image (S := svj2 mu k θ σ ρ lam mj sj) (sh_image _ (fun i => ?_) (fun i j => ?_)) (svj2_coef _ _ _ _ _ _ _ _)
    (svj2_coef _ _ _ _ _ _ _ _) rfl (svj2_mom mu k θ σ ρ lam mj sj) (svj2_mom mu k θ σ ρ lam mj sj) hE
  · fin_cases i <;> simp [b3, sh, algebraMap_eq]
  · fin_cases i <;> fin_cases j <;> simp [a3, sh, algebraMap_eq]

/-- The drift adds a constant to the return: it does not change the central moments, and the moments and covariances
change as those of a shifted variable. -/
theorem C62_fsv1j (p : Fsv1j.Par) (hk : 0 < p.k) (hθ : 0 < p.θ) (hσ : 0 < p.σ) (hh : 0 ≤ p.h) (hρ : 0 ≤ 1 - p.ρ ^ 2)
    (hl : 0 ≤ p.lam) : ∃ (a : ℕ → ℝ) (c : ℕ → ℕ → ℝ),
    (∀ l : ℕ, Fsv1j.m l p = .ok (a l) ∧ ∀ δ, Fsv1j.m l { p with μ := p.μ + δ } = .ok (shifted (δ * p.h) a l) ∧
      Fsv1j.cm l { p with μ := p.μ + δ } = Fsv1j.cm l p) ∧
    ∀ l1 l2 : ℕ, Fsv1j.cov l1 l2 p = .ok (c l1 l2) ∧ ∀ δ, Fsv1j.cov l1 l2 { p with μ := p.μ + δ } =
      .ok (shifted (δ * p.h) (fun i => shifted (δ * p.h) (c i) l2) l1) := by
  obtain ⟨E0, E, E0', E', h0, hE, h0', hE'⟩ := svj_exists p (Ito.vMoment p.k p.θ p.σ)
  have hc := C30_cov_sde p hk hθ hσ hh hρ hl E0 h0 E hE E0' h0' E' hE'
  have h1 : E p.h 1 = 1 := by
    rw [dynkin_one hE p.h hh, ← pow_zero (X 0), h0.v]
    simp [Ito.vMoment]
  refine ⟨fun l => E p.h (X 1 ^ l), fun i j => E' p.h (X 1 ^ i * X 2 ^ j) - E' p.h (X 1 ^ i) * E' p.h (X 2 ^ j),
    fun l => ⟨C30_m_sde p hk hθ hσ hh hρ hl E0 h0 E hE l, fun δ => ⟨?_, ?_⟩⟩, fun l1 l2 => ⟨hc l1 l2, fun δ => ?_⟩⟩
  · rw [C30_m_sde { p with μ := p.μ + δ } hk hθ hσ hh hρ hl E0 h0 _ (svj_drift hE δ)]
    have := map_shift_pow (E p.h) (X 1) 1 (δ * p.h) l
    simp only [mul_one] at this
    rw [← this]
    simp [sh, mul_comm]
  · rw [C30_cm_sde { p with μ := p.μ + δ } hk hθ hσ hh hρ hl E0 h0 _ (svj_drift hE δ),
      C30_cm_sde p hk hθ hσ hh hρ hl E0 h0 E hE]
    simp only [LinearMap.comp_apply, AlgHom.toLinearMap_apply, map_pow, map_sub, aeval_X, algHom_C, algebraMap_eq]
    have e : sh ![0, δ] p.h 1 = X 1 + C (p.h * δ) := rfl
    have e' : E p.h (C (p.h * δ)) = p.h * δ := by
      rw [← mul_one (C _), ← smul_eq_C_mul, map_smul, h1, smul_eq_mul, mul_one]
    rw [e, map_add, e', C_add, add_sub_add_right_eq_sub]
  · have hE1 := svj2_drift (svj2_shift1 hE' (δ * p.h)) δ
    have h2 : Second ((fun t => E t ∘ₗ (aeval (sh ![0, δ] t)).toLinearMap) p.h)
        (E0' ∘ₗ (aeval (sh ![0, 1, 0] (δ * p.h))).toLinearMap) := by
      refine ⟨fun f => by simp [sh, h0'.1], fun f => ?_⟩
      simp only [LinearMap.comp_apply, AlgHom.toLinearMap_apply]
      rw [h0'.all, aeval_rename]
      refine congrArg (E p.h) (MvPolynomial.funext fun x => ?_)
      simp only [eval_aeval]
      refine congrArg (fun y => eval y f) ?_
      funext i
      fin_cases i <;> simp [sh, mul_comm]
    rw [C30_cov_sde { p with μ := p.μ + δ } hk hθ hσ hh hρ hl E0 h0 _ (svj_drift hE δ) _ h2 _ hE1]
    simp only [LinearMap.comp_apply, AlgHom.toLinearMap_apply, map_pow, map_mul, aeval_X]
    have e1 : aeval (sh ![0, 1, 0] (δ * p.h)) (sh ![0, 0, δ] p.h 1) = (X 1 + C (δ * p.h) : MvPolynomial (Fin 3) ℝ) := by
      simp [sh]
    have e2 : aeval (sh ![0, 1, 0] (δ * p.h)) (sh ![0, 0, δ] p.h 2) = (X 2 + C (δ * p.h) : MvPolynomial (Fin 3) ℝ) := by
      simp [sh, mul_comm]
    rw [e1, e2, map_shift_pow]
    have s1 := map_shift_pow (E' p.h) (X 1) 1 (δ * p.h) l1
    have s2 := map_shift_pow (E' p.h) (X 2) 1 (δ * p.h) l2
    simp only [mul_one] at s1 s2
    rw [s1, s2]
    simp only [shifted_sub, shifted_const_mul, shifted_mul]
    congr 2
    refine congrArg (fun a => shifted (δ * p.h) a l1) (funext fun i => ?_)
    rw [mul_comm, map_shift_pow]
    simp only [mul_comm]

/-- The same for `mdl_1fsv`. -/
theorem C62_fsv1 (p : Fsv1.Par) (hk : 0 < p.k) (hθ : 0 < p.θ) (hσ : 0 < p.σ) (hh : 0 ≤ p.h) (hρ : 0 ≤ 1 - p.ρ ^ 2) :
    ∃ (a : ℕ → ℝ) (c : ℕ → ℕ → ℝ),
    (∀ l : ℕ, Fsv1.m l p = .ok (a l) ∧ ∀ δ, Fsv1.m l { p with μ := p.μ + δ } = .ok (shifted (δ * p.h) a l) ∧
      Fsv1.cm l { p with μ := p.μ + δ } = Fsv1.cm l p) ∧
    ∀ l1 l2 : ℕ, Fsv1.cov l1 l2 p = .ok (c l1 l2) ∧ ∀ δ, Fsv1.cov l1 l2 { p with μ := p.μ + δ } =
      .ok (shifted (δ * p.h) (fun i => shifted (δ * p.h) (c i) l2) l1) := by
  obtain ⟨a, c, h, hc⟩ := C62_fsv1j ⟨p, 0, 0, 0⟩ hk hθ hσ hh hρ le_rfl
  have n := C59_fsv1j ⟨p, 0, 0, 0⟩ hk hθ hσ hh hρ rfl
  have n' := fun δ => C59_fsv1j ⟨{ p with μ := p.μ + δ }, 0, 0, 0⟩ hk hθ hσ hh hρ rfl
  refine ⟨a, c, fun l => ⟨(n.1 l).1.symm.trans (h l).1, fun δ => ⟨?_, ?_⟩⟩, fun l1 l2 =>
    ⟨(n.2 l1 l2).symm.trans (hc l1 l2).1, fun δ => ?_⟩⟩
  · exact ((n' δ).1 l).1.symm.trans ((h l).2 δ).1
  · exact ((n' δ).1 l).2.symm.trans (((h l).2 δ).2.trans (n.1 l).2)
  · exact ((n' δ).2 l1 l2).symm.trans ((hc l1 l2).2 δ)

/-- The central moments given the initial variance do not depend on the drift. -/
theorem C62_cond (p : Fsv1.Par) (hk : p.k ≠ 0) (hh : 0 ≤ p.h) (hρ : 0 ≤ 1 - p.ρ ^ 2) (x : ℝ) (l : ℕ) (hl : 1 ≤ l) (δ : ℝ) :
    Fsv1c.condCm l { p with μ := p.μ + δ } x = Fsv1c.condCm l p x := by
  obtain ⟨Q, hQ, -⟩ := heston_semi p.μ p.k p.θ p.σ p.ρ
  have hE := hQ (aeval ![x, 0]).toLinearMap
  have hJ := dynkin_congr (fun f g => (gen_nojump p.μ p.k p.θ p.σ p.ρ f g).1) hE
  have hJ' := dynkin_congr (fun f g => (gen_nojump _ _ _ _ _ f g).2) (svj_drift hJ δ)
  rw [C29_cond_cm_sde p hk hh hρ x _ hE l hl, C29_cond_cm_sde { p with μ := p.μ + δ } hk hh hρ x _ hJ' l hl]
  have h1 := dynkin_one hE p.h hh
  generalize (aeval ![x, 0]).toLinearMap ∘ₗ Q p.h = E at *
  have h1 : E 1 = 1 := h1.trans (by simp)
  simp only [LinearMap.comp_apply, AlgHom.toLinearMap_apply, map_pow, map_sub, aeval_X, algHom_C, algebraMap_eq]
  have e : sh ![0, δ] p.h 1 = X 1 + C (p.h * δ) := rfl
  have e' : E (C (p.h * δ)) = p.h * δ := by
    rw [← mul_one (C _), ← smul_eq_C_mul, map_smul, h1, smul_eq_mul, mul_one]
  rw [e, map_add, e', C_add, add_sub_add_right_eq_sub]

end Sv

namespace SvcjI
open MeasureTheory Gen

theorem svcj_drift (p : SPar) (hm : 0 < p.mu_v) {E0 : MvPolynomial (Fin 2) ℝ →ₗ[ℝ] ℝ}
    {E : ℝ → MvPolynomial (Fin 2) ℝ →ₗ[ℝ] ℝ} (hE : p.sde.Dynkin E0 E) (δ : ℝ) :
    SPar.sde { p with mu := p.mu + δ } |>.Dynkin E0 fun t => E t ∘ₗ (aeval (sh ![0, δ] t)).toLinearMap := by
  refine dynkin_drift (sY_coef p.toPar hm p.mu p.theta p.sigma p.rho p.rhoJ) (momY p.toPar hm p.rhoJ)
    (c' := SPar.sde { p with mu := p.mu + δ })
    (w := ![0, δ]) ?_ rfl rfl (fun s i => ?_) (fun s i j => ?_) hE
  · have : (fun i => bY p.k p.theta p.mu i + C (![0, δ] i)) = bY p.k p.theta (p.mu + δ) := by
      funext i
      fin_cases i <;> simp [bY]
      ring
    rw [this]
    exact sY_coef p.toPar hm (p.mu + δ) p.theta p.sigma p.rho p.rhoJ
  · fin_cases i <;> simp [bY, sh, algebraMap_eq]
  · fin_cases i <;> fin_cases j <;> simp [aY, sh, algebraMap_eq]

theorem shift_mean {E : MvPolynomial (Fin 2) ℝ →ₗ[ℝ] ℝ} (h1 : E 1 = 1) (h δ : ℝ) (l : ℕ) :
    (E ∘ₗ (aeval (sh ![0, δ] h)).toLinearMap) ((X 1 - C ((E ∘ₗ (aeval (sh ![0, δ] h)).toLinearMap) (X 1))) ^ l) =
      E ((X 1 - C (E (X 1))) ^ l) := by
  simp only [LinearMap.comp_apply, AlgHom.toLinearMap_apply, map_pow, map_sub, aeval_X, algHom_C, algebraMap_eq]
  have e : sh ![0, δ] h 1 = X 1 + C (h * δ) := rfl
  have e' : E (C (h * δ)) = h * δ := by
    rw [← mul_one (C _), ← smul_eq_C_mul, map_smul, h1, smul_eq_mul, mul_one]
  rw [e, map_add, e', C_add, add_sub_add_right_eq_sub]

theorem shift_mom (E : MvPolynomial (Fin 2) ℝ →ₗ[ℝ] ℝ) (h δ : ℝ) (l : ℕ) :
    (E ∘ₗ (aeval (sh ![0, δ] h)).toLinearMap) (X 1 ^ l) = shifted (δ * h) (fun i => E (X 1 ^ i)) l := by
  have := map_shift_pow E (X 1) 1 (δ * h) l
  simp only [mul_one] at this
  rw [← this]
  simp [sh, mul_comm]

/-- `m_y` and `cm_y` of mdl_svcj/cond_mom.py and cond_cmom.py -/
theorem C62_svcj_cond (p : SPar) (hp : Ok p) : ∃ a : ℕ → ℝ, ∀ n : ℕ, mY n p = .ok (a n) ∧ ∀ δ,
    mY n { p with mu := p.mu + δ } = .ok (shifted (δ * p.h) a n) ∧ cmYc n { p with mu := p.mu + δ } = cmYc n p := by
  obtain ⟨E, hE⟩ := (C43_expectation p hp (aeval ![p.v0, 0]).toLinearMap).1
  have h1 : E p.h 1 = 1 := (dynkin_one hE p.h hp.h).trans (by simp)
  refine ⟨fun n => E p.h (X 1 ^ n), fun n => ⟨C43_m_y n p hp E hE, fun δ => ⟨?_, ?_⟩⟩⟩
  · rw [C43_m_y n { p with mu := p.mu + δ } ⟨hp.k, hp.rho, hp.mu_v, hp.h⟩ _ (svcj_drift p hp.mu_v hE δ)]
    exact congrArg _ (shift_mom _ _ _ _)
  · rw [C43_cm_y_cond n { p with mu := p.mu + δ } ⟨hp.k, hp.rho, hp.mu_v, hp.h⟩ _ (svcj_drift p hp.mu_v hE δ),
      C43_cm_y_cond n p hp E hE]
    exact congrArg _ (shift_mean h1 _ _ _)

/-- `unm_y` and `cm_y` of mdl_svcj/mom.py and cmom.py -/
theorem C62_svcj : ∃ d0 : ℕ → ℕ, ∀ p : SPar, Ok p → 0 ≤ p.lmbd → ∃ a : ℕ → ℝ, ∀ n d, d0 n ≤ d →
    unmY d n p = .ok (a n) ∧ ∀ δ, unmY d n { p with mu := p.mu + δ } = .ok (shifted (δ * p.h) a n) ∧
      cmY d n { p with mu := p.mu + δ } = cmY d n p := by
  choose d1 h1 using C43_unm_y
  choose d2 h2 using C43_cm_y
  refine ⟨fun n => max (d1 n) (d2 n), fun p hp hl => ?_⟩
  obtain ⟨E0, M, h0, hM, E, hE⟩ := start_exists p hp
  have e1 : E p.h 1 = 1 := (dynkin_one hE p.h hp.h).trans (by rw [← pow_zero (X 0), h0.v, hM.zero])
  refine ⟨fun n => E p.h (X 1 ^ n), fun n d hd => ⟨h1 n d ((le_max_left _ _).trans hd) p hp hl E0 M h0 hM E hE, fun δ =>
    ⟨?_, ?_⟩⟩⟩
  · rw [h1 n d ((le_max_left _ _).trans hd) { p with mu := p.mu + δ } ⟨hp.k, hp.rho, hp.mu_v, hp.h⟩ hl E0 M h0 hM _
      (svcj_drift p hp.mu_v hE δ)]
    exact congrArg _ (shift_mom _ _ _ _)
  · rw [h2 n d ((le_max_right _ _).trans hd) { p with mu := p.mu + δ } ⟨hp.k, hp.rho, hp.mu_v, hp.h⟩ hl E0 M h0 hM _
      (svcj_drift p hp.mu_v hE δ), h2 n d ((le_max_right _ _).trans hd) p hp hl E0 M h0 hM E hE]
    exact congrArg _ (shift_mean e1 _ _ _)

end SvcjI

theorem shifted_eq (e : ℝ) (a : ℕ → ℝ) : shifted e a = conv a fun n => e ^ n := by
  funext n
  exact Finset.sum_congr rfl fun i _ => by ring

theorem shifted_conv (e : ℝ) (a z : ℕ → ℝ) : shifted e (conv a z) = conv (shifted e a) z := by
  rw [shifted_eq, shifted_eq, conv_right_comm]

theorem shifted_conv_comm (e : ℝ) (a : ℕ → ℕ → ℝ) (z : ℕ → ℝ) (m n : ℕ) :
    shifted e (fun j => conv (fun i => a i j) z m) n = conv (fun i => shifted e (a i) n) z m := by
  simp only [shifted, conv, Finset.mul_sum, Finset.sum_mul]
  rw [Finset.sum_comm]
  exact Finset.sum_congr rfl fun i _ => Finset.sum_congr rfl fun j _ => by ring

theorem conv2_shifted (e : ℝ) (c : ℕ → ℕ → ℝ) (z : ℕ → ℝ) (m n : ℕ) :
    conv2 (fun m n => shifted e (fun i => shifted e (c i) n) m) z m n =
      shifted e (fun i => shifted e (conv2 c z i) n) m := by
  have h1 : ∀ i, conv (fun j => shifted e (fun i' => shifted e (c i') j) i) z n =
      shifted e (fun i' => shifted e (conv (c i') z) n) i := fun i => by
    rw [← shifted_conv_comm]
    simp only [shifted_conv]
  have h2 : ∀ i, conv (fun i' => shifted e (conv (c i') z) n) z i = shifted e (conv2 c z i) n := fun i =>
    (shifted_conv_comm e (fun i' => conv (c i') z) z i n).symm
  simp only [conv2, h1]
  change conv (shifted e fun i' => shifted e (conv (c i') z) n) z m = _
  rw [← shifted_conv]
  exact congrArg (fun a => shifted e a m) (funext h2)

namespace Sv2
open MeasureTheory Fsv2

theorem expect_shift (γ : Measure (ℝ × ℝ)) (E : ℝ × ℝ → Rv →ₗ[ℝ] ℝ) (y w : ℝ × ℝ → Rv) (e : ℝ) (n : ℕ)
    (hi : ∀ i, Integrable (fun x => E x (y x ^ i * w x)) γ) :
    expect γ E (fun x => (y x + C e) ^ n * w x) = shifted e (fun i => expect γ E fun x => y x ^ i * w x) n := by
  simp only [expect, map_shift_pow, shifted]
  rw [integral_finsetSum _ fun i _ => (hi i).const_mul _]
  simp only [integral_const_mul]

/-- `mdl_2fsv`, for all orders -/
theorem C62_fsv2 (p : Fsv2.Par) (hp : Pos p) (hg : p.Generic) : ∃ (a : ℕ → ℝ) (c : ℕ → ℕ → ℝ),
    (∀ l : ℕ, Fsv2.m Itos.code l p = .ok (a l) ∧ ∀ δ,
      Fsv2.m Itos.code l { p with μ := p.μ + δ } = .ok (shifted (δ * p.h) a l) ∧
      Fsv2.cm Itos.code l { p with μ := p.μ + δ } = Fsv2.cm Itos.code l p) ∧
    ∀ l1 l2 : ℕ, Fsv2.cov Itos.code l1 l2 p = .ok (c l1 l2) ∧ ∀ δ, Fsv2.cov Itos.code l1 l2 { p with μ := p.μ + δ } =
      .ok (shifted (δ * p.h) (fun i => shifted (δ * p.h) (c i) l2) l1) := by
  obtain ⟨γ, hγ⟩ : ∃ γ, StatLaw p γ := ⟨_, statLaw_gammas p hp.k1 hp.k2 hp.θ1 hp.σ1 hp.θ2 hp.σ2⟩
  have h1 := hp.k1.ne'
  have h2 := hp.k2.ne'
  have hg' : ∀ δ, Par.Generic { p with μ := p.μ + δ } := fun _ => hg
  have hE : ∀ N : ℕ∞, ∀ᵐ x ∂γ, CompLaw Itos.code N p 0 x (compE Itos.code p 0 x) := fun N =>
    Filter.Eventually.of_forall fun x => compLaw_compE _ _ _ _ _
  choose Q hQ using fun l => condPoly Itos.code p h1 h2 (0 + p.h) l
  have hc : ∀ l, CondPoly Itos.code p (0 + p.h) l (Q l) := fun l =>
    ⟨compE Itos.code p (0 + p.h), Set.univ, Set.univ, Set.infinite_univ, Set.infinite_univ,
      fun z _ => compLaw_compE _ _ _ _ _, fun z _ => hQ l z _ (compLaw_compE _ _ _ _ _)⟩
  have er : ∀ δ t x, ret { p with μ := p.μ + δ } t x = ret p t x + C (δ * p.h) := by
    intro δ t x
    simp only [ret, add_mul, C_add]
    change _ - C (1 / 2) * (intVar1 p t x.1 + intVar2 p t x.2) + _ = _
    ring
  have hM := fun q (hq : q = p ∨ ∃ δ, q = { p with μ := p.μ + δ }) (l : ℕ) => momentY_spec Itos.code q
    (by rcases hq with rfl | ⟨δ, rfl⟩ <;> exact h1) (by rcases hq with rfl | ⟨δ, rfl⟩ <;> exact h2) 0
    (compE Itos.code p 0) γ (by rcases hq with rfl | ⟨δ, rfl⟩ <;> exact ⟨hγ.1, hγ.2⟩) l
    (by rcases hq with rfl | ⟨δ, rfl⟩ <;> exact hE l)
  have hC := fun q (hq : q = p ∨ ∃ δ, q = { p with μ := p.μ + δ }) (l : ℕ) => cmomentY_spec Itos.code q
    (by rcases hq with rfl | ⟨δ, rfl⟩ <;> exact h1) (by rcases hq with rfl | ⟨δ, rfl⟩ <;> exact h2) 0
    (compE Itos.code p 0) γ (by rcases hq with rfl | ⟨δ, rfl⟩ <;> exact ⟨hγ.1, hγ.2⟩) l
    (by rcases hq with rfl | ⟨δ, rfl⟩ <;> exact hE l)
  have i1 : ∀ i, Integrable (fun x => compE Itos.code p 0 x (ret p 0 x ^ i)) γ := fun i =>
    ret_integrable Itos.code p h1 h2 0 _ γ hγ i (hE i)
  have i2 : ∀ i j, Integrable (fun x => compE Itos.code p 0 x (ret p 0 x ^ i *
      aeval (two (vNext1 p 0 x.1) (vNext2 p 0 x.2)) (Q j))) γ := fun i j =>
    yy_integrable Itos.code p h1 h2 0 _ γ hγ (hE ⊤) i j (Q j)
      fun z => hQ j z _ (compLaw_compE _ _ _ _ _)
  have hm : ∀ l δ, expect γ (compE Itos.code p 0) (fun x => ret { p with μ := p.μ + δ } 0 x ^ l) =
      shifted (δ * p.h) (fun l => expect γ (compE Itos.code p 0) fun x => ret p 0 x ^ l) l := by
    intro l δ
    have := expect_shift γ (compE Itos.code p 0) (ret p 0) (fun _ => 1) (δ * p.h) l (fun i => by simpa using i1 i)
    simp only [mul_one] at this
    rw [← this]
    simp only [er]
  refine ⟨fun l => expect γ (compE Itos.code p 0) fun x => ret p 0 x ^ l, fun l1 l2 =>
    (expect γ (compE Itos.code p 0) fun x => ret p 0 x ^ l1 *
          aeval (two (vNext1 p 0 x.1) (vNext2 p 0 x.2)) (Q l2)) -
        (expect γ (compE Itos.code p 0) fun x => ret p 0 x ^ l1) *
          (expect γ (compE Itos.code p 0) fun x => ret p 0 x ^ l2), fun l => ⟨?_, fun δ => ⟨?_, ?_⟩⟩,
    fun l1 l2 => ⟨?_, fun δ => ?_⟩⟩
  · obtain ⟨r, e, _, _, _, ks, v⟩ := hM p (.inl rfl) l
    rw [Fsv2.m, e, ok_bind, poly2num_eq _ _ (not_zeroDiv _ 6 ks p hg), v]
  · obtain ⟨r, e, _, _, _, ks, v⟩ := hM _ (.inr ⟨δ, rfl⟩) l
    rw [Fsv2.m, e, ok_bind, poly2num_eq _ _ (not_zeroDiv _ 6 ks _ (hg' δ)), v, hm]
  · obtain ⟨r, e, _, _, _, ks, v⟩ := hC p (.inl rfl) l
    obtain ⟨r', e', _, _, _, _, v'⟩ := hC _ (.inr ⟨δ, rfl⟩) l
    rw [e] at e'
    cases e'
    rw [Fsv2.cm, e, ok_bind, Fsv2.cm, e, ok_bind, poly2numC_eq _ _ (not_zeroDiv _ 5 ks _ (hg' δ)),
      poly2numC_eq _ _ (not_zeroDiv _ 5 ks p hg), v, v']
    refine congrArg (fun f => Except.ok (expect γ (compE Itos.code p 0) f)) (funext fun x => ?_)
    rw [er]
    refine congrArg (fun y => y ^ l) ?_
    simp only [mean, add_mul, sub_mul, C_add, C_sub]
    ring
  · obtain ⟨r, e, _, _, _, ks, v⟩ := covYY_spec Itos.code p h1 h2 0 _ _ hγ (hE ⊤) l1 l2 _ (hc l2)
    rw [Fsv2.cov, e, ok_bind, poly2num_eq _ _ (not_zeroDiv _ 6 ks p hg), v]
  · have hc' : CondPoly Itos.code { p with μ := p.μ + δ } (0 + p.h) l2
        (∑ j ∈ Finset.range (l2 + 1), C (l2.choose j * (δ * p.h) ^ (l2 - j)) * Q j) := by
      refine ⟨compE Itos.code p (0 + p.h), Set.univ, Set.univ, Set.infinite_univ, Set.infinite_univ,
        fun z _ => compLaw_compE _ _ p _ _, fun z _ => ?_⟩
      have := map_shift_pow (compE Itos.code p (0 + p.h) z) (ret p (0 + p.h) z) 1 (δ * p.h) l2
      simp only [mul_one] at this
      rw [er, this, map_sum]
      exact Finset.sum_congr rfl fun j _ => by rw [map_mul, eval_C, hQ j z _ (compLaw_compE _ _ _ _ _)]
    obtain ⟨r, e, _, _, _, ks, v⟩ := covYY_spec Itos.code { p with μ := p.μ + δ } h1 h2 0 (compE Itos.code p 0) γ
      ⟨hγ.1, hγ.2⟩ (hE ⊤) l1 l2 _ hc'
    rw [Fsv2.cov, e, ok_bind, poly2num_eq _ _ (not_zeroDiv _ 6 ks _ (hg' δ)), v, hm, hm]
    simp only [shifted_sub, shifted_const_mul, shifted_mul]
    refine congrArg (fun x => Except.ok (x - _)) ?_
    simp only [er]
    have hs : ∀ i x, compE Itos.code p 0 x (ret p 0 x ^ i * aeval (two (vNext1 p 0 x.1) (vNext2 p 0 x.2))
        (∑ j ∈ Finset.range (l2 + 1), C (l2.choose j * (δ * p.h) ^ (l2 - j)) * Q j)) =
        ∑ j ∈ Finset.range (l2 + 1), l2.choose j * (δ * p.h) ^ (l2 - j) * compE Itos.code p 0 x (ret p 0 x ^ i *
          aeval (two (vNext1 p 0 x.1) (vNext2 p 0 x.2)) (Q j)) := by
      intro i x
      rw [map_sum, Finset.mul_sum, map_sum]
      refine Finset.sum_congr rfl fun j _ => ?_
      rw [← smul_eq_mul (_ * _) (compE Itos.code p 0 x _), ← map_smul, smul_eq_C_mul, map_mul (aeval _), algHom_C, algebraMap_eq]
      exact congrArg _ (by ring)
    change expect γ _ (fun x => (ret p 0 x + C (δ * p.h)) ^ l1 * aeval (two (vNext1 p 0 x.1) (vNext2 p 0 x.2)) _) = _
    rw [expect_shift γ _ (ret p 0)]
    · refine congrArg (fun a => shifted (δ * p.h) a l1) (funext fun i => ?_)
      simp only [expect, shifted, hs]
      rw [integral_finsetSum _ fun j _ => (i2 i j).const_mul _]
      simp only [integral_const_mul]
    · intro i
      simp only [hs]
      exact integrable_finsetSum _ fun j _ => (i2 i j).const_mul _

/-- `mdl_2fsvj`, for all orders -/
theorem C62_fsv2j (p : Fsv2j.Par) (hp : Pos p.toPar) (hg : p.toPar.Generic) (hl : 0 ≤ p.lam) :
    ∃ (a : ℕ → ℝ) (c : ℕ → ℕ → ℝ),
    (∀ l : ℕ, Fsv2j.m Itos.code l p = .ok (a l) ∧ ∀ δ,
      Fsv2j.m Itos.code l { p with μ := p.μ + δ } = .ok (shifted (δ * p.h) a l) ∧
      Fsv2j.cm Itos.code l { p with μ := p.μ + δ } = Fsv2j.cm Itos.code l p) ∧
    ∀ l1 l2 : ℕ, Fsv2j.cov Itos.code l1 l2 p = .ok (c l1 l2) ∧ ∀ δ,
      Fsv2j.cov Itos.code l1 l2 { p with μ := p.μ + δ } =
        .ok (shifted (δ * p.h) (fun i => shifted (δ * p.h) (c i) l2) l1) := by
  obtain ⟨a, c, h, h'⟩ := C62_fsv2 p.toPar hp hg
  obtain ⟨a1, b1, c1, g, g'⟩ := C63_fsv2j p hp hg hl
  have ea : a1 = a := funext fun l => by simpa using (g l).1.symm.trans (h l).1
  have ec : c1 = c := funext fun i => funext fun j => by simpa using (g' i j).1.symm.trans (h' i j).1
  subst ea ec
  refine ⟨_, _, fun l => ⟨(g l).2.1, fun δ => ?_⟩, fun l1 l2 => ⟨(g' l1 l2).2, fun δ => ?_⟩⟩
  · obtain ⟨a2, b2, c2, k, k'⟩ := C63_fsv2j { p with μ := p.μ + δ } ⟨hp.1, hp.2, hp.3, hp.4, hp.5, hp.6, hp.7⟩ hg hl
    have ea : a2 = shifted (δ * p.h) a1 := funext fun l => by simpa using (k l).1.symm.trans ((h l).2 δ).1
    have eb : b2 = b1 := funext fun l => by
      simpa using (k l).2.2.1.symm.trans (((h l).2 δ).2.trans (g l).2.2.1)
    subst eb
    refine ⟨?_, (k l).2.2.2.trans (g l).2.2.2.symm⟩
    rw [(k l).2.1, ea, shifted_conv]
    rfl
  · obtain ⟨a2, b2, c2, k, k'⟩ := C63_fsv2j { p with μ := p.μ + δ } ⟨hp.1, hp.2, hp.3, hp.4, hp.5, hp.6, hp.7⟩ hg hl
    have ec : c2 = fun l1 l2 => shifted (δ * p.h) (fun i => shifted (δ * p.h) (c1 i) l2) l1 :=
      funext fun i => funext fun j => by simpa using (k' i j).1.symm.trans ((h' i j).2 δ)
    rw [(k' l1 l2).2, ec]
    refine congrArg _ ?_
    exact conv2_shifted _ _ _ _ _

end Sv2

example : ∃ p : Fsv1j.Par, 0 < p.k ∧ 0 < p.θ ∧ 0 < p.σ ∧ 0 < p.h ∧ 0 < 1 - p.ρ ^ 2 ∧ 0 < p.lam :=
  ⟨⟨⟨1, 1, 1, -1 / 2, 1, 1⟩, 1, 1, 1⟩, by norm_num⟩

example : ∃ p : SvcjI.SPar, SvcjI.Ok p ∧ 0 < p.lmbd ∧ 0 < p.h :=
  ⟨⟨⟨1, 1, 1, 1, 1⟩, 1, 1, 1, 1, -1 / 2, 1, 1⟩, ⟨by norm_num, by norm_num, by norm_num, by norm_num⟩, by norm_num⟩

example : ∃ p : Fsv2j.Par, Sv2.Pos p.toPar ∧ p.toPar.Generic ∧ 0 < p.lam := by
  have hp : Sv2.Pos Fsv2.exPar := by
    refine ⟨?_, ?_, ?_, ?_, ?_, ?_, ?_⟩ <;> norm_num [Fsv2.exPar]
  exact ⟨⟨Fsv2.exPar, 1, 0, 1⟩, hp, Fsv2.generic_of_irrational _ rfl irrational_sqrt_two, one_pos⟩

/-- the second moment of a shifted variable -/
example (e : ℝ) (a : ℕ → ℝ) : shifted e a 2 = e ^ 2 * a 0 + 2 * e * a 1 + a 2 := by
  simp [shifted, Finset.sum_range_succ]

end Ajd
