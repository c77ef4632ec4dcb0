import Verif.Lemmas.SvLaw
import Verif.Lemmas.Sv2Pos

/-! Two intervals in a row are one interval. -/

namespace Ajd.Gen
open MvPolynomial MeasureTheory

variable {σ : Type} [Fintype σ]

/-- the process restarted at time `s` -/
theorem dynkin_shift {c : JumpDiff σ} {E0 : MvPolynomial σ ℝ →ₗ[ℝ] ℝ} {E : ℝ → MvPolynomial σ ℝ →ₗ[ℝ] ℝ}
    (hE : c.Dynkin E0 E) {s : ℝ} (hs : 0 ≤ s) : c.Dynkin (E s) fun t => E (s + t) := by
  refine ⟨fun f => (hE.cont f).comp (by fun_prop) fun t (ht : 0 ≤ t) => add_nonneg hs ht, fun f g hg t ht => ?_⟩
  have hi : ∀ u v : ℝ, 0 ≤ u → 0 ≤ v → IntervalIntegrable (fun r => E r g) volume u v := fun u v hu hv =>
    ((hE.cont g).mono (fun r hr => (le_inf hu hv).trans hr.1)).intervalIntegrable
  rw [hE.formula f g hg (s + t) (add_nonneg hs ht), hE.formula f g hg s hs, add_assoc,
    intervalIntegral.integral_comp_add_left (fun r => E r g) s, add_zero,
    intervalIntegral.integral_add_adjacent_intervals (hi _ _ le_rfl hs) (hi _ _ hs (add_nonneg hs ht))]

end Ajd.Gen

namespace Ajd.Sv
open MvPolynomial MeasureTheory Gen SvcjI

theorem svj2_sum (mu k θ σ ρ lam mj sj : ℝ) : Image ![X 0, X 1 + X 2] ![![1, 0, 0], ![0, 1, 1]] (b3 k θ mu) (a3 σ ρ)
    (svj2 mu k θ σ ρ lam mj sj).ν (bY k θ mu) (aY σ ρ) (svj mu k θ σ ρ lam mj sj).ν where
  lin k i := by fin_cases k <;> fin_cases i <;> simp [pderiv_X, Pi.single_apply]
  shift k x y := by fin_cases k <;> simp [Fin.sum_univ_three]; ring
  drift k := by fin_cases k <;> simp [b3, bY, Fin.sum_univ_three, algebraMap_eq]
  diff k l := by fin_cases k <;> fin_cases l <;> simp [a3, aY, Fin.sum_univ_three, algebraMap_eq]
  jump := by
    simp only [svj2, svj]
    rw [Measure.map_map (by fun_prop) (by fun_prop)]
    congr 1
    funext y i
    fin_cases i <;> simp [Fin.sum_univ_three]

/-- the return over two intervals is the sum of the returns -/
theorem svj2_agg {mu k θ σ ρ lam mj sj : ℝ} {E0 : MvPolynomial (Fin 2) ℝ →ₗ[ℝ] ℝ}
    {E : ℝ → MvPolynomial (Fin 2) ℝ →ₗ[ℝ] ℝ} (hE : (svj mu k θ σ ρ lam mj sj).Dynkin E0 E) {s : ℝ} (hs : 0 ≤ s)
    {E0' : MvPolynomial (Fin 3) ℝ →ₗ[ℝ] ℝ} (h : Second (E s) E0') {E' : ℝ → MvPolynomial (Fin 3) ℝ →ₗ[ℝ] ℝ}
    (hE' : (svj2 mu k θ σ ρ lam mj sj).Dynkin E0' E') (t : ℝ) (ht : 0 ≤ t) (n : ℕ) :
    E (s + t) (X 1 ^ n) = E' t ((X 1 + X 2) ^ n) := by
  have h1 := dynkin_image (svj2_sum mu k θ σ ρ lam mj sj) (svj2_coef _ _ _ _ _ _ _ _) (svj_coef _ _ _ _ _ _ _ _) rfl
    (svj2_mom _ _ _ _ _ _ _ _) (svj_mom _ _ _ _ _ _ _ _) hE'
  have e : E0' ∘ₗ (aeval ![X 0, X 1 + X 2]).toLinearMap = E s := by
    refine LinearMap.ext fun f => ?_
    rw [LinearMap.comp_apply, AlgHom.toLinearMap_apply, h.all]
    refine congrArg (E s) (MvPolynomial.funext fun x => ?_)
    rw [eval_aeval, eval_aeval]
    refine congrArg (fun y => eval y f) ?_
    funext i
    fin_cases i <;> simp
  rw [e] at h1
  have := dynkin_unique (svj_coef _ _ _ _ _ _ _ _) (svj_mom _ _ _ _ _ _ _ _) (dynkin_shift hE hs) h1 t ht
  have := LinearMap.congr_fun this (X 1 ^ n)
  simpa using this

end Ajd.Sv

namespace Ajd.Sv2
open MvPolynomial MeasureTheory Gen

theorem sv2jtwo_sum (mu k1 k2 θ1 σ1 θ2 σ2 lam mj sj : ℝ) :
    Image ![X 0, X 1, X 2 + X 3] ![![1, 0, 0, 0], ![0, 1, 0, 0], ![0, 0, 1, 1]] (b4 mu k1 k2 θ1 θ2) (a4 σ1 σ2)
    (sv2jtwo mu k1 k2 θ1 σ1 θ2 σ2 lam mj sj).ν (bY mu k1 k2 θ1 θ2) (aY σ1 σ2)
    (sv2j mu k1 k2 θ1 σ1 θ2 σ2 lam mj sj).ν where
  lin k i := by fin_cases k <;> fin_cases i <;> simp [pderiv_X, Pi.single_apply]
  shift k x y := by fin_cases k <;> simp [Fin.sum_univ_four]; ring
  drift k := by fin_cases k <;> simp [b4, bY, Fin.sum_univ_four, algebraMap_eq]
  diff k l := by fin_cases k <;> fin_cases l <;> simp [a4, aY, Fin.sum_univ_four, algebraMap_eq]
  jump := by
    simp only [sv2jtwo, sv2j]
    rw [Measure.map_map (by fun_prop) (by fun_prop)]
    congr 1
    funext y i
    fin_cases i <;> simp [Fin.sum_univ_four]

theorem sv2j_coef (mu k1 k2 θ1 σ1 θ2 σ2 lam mj sj : ℝ) :
    PolyCoef (sv2j mu k1 k2 θ1 σ1 θ2 σ2 lam mj sj) (bY mu k1 k2 θ1 θ2) (aY σ1 σ2) := by
  rw [sv2j_eq]
  exact jmp_coef 2 lam mj _ (coefY mu k1 k2 θ1 σ1 θ2 σ2)

theorem sv2jtwo_coef (mu k1 k2 θ1 σ1 θ2 σ2 lam mj sj : ℝ) :
    PolyCoef (sv2jtwo mu k1 k2 θ1 σ1 θ2 σ2 lam mj sj) (b4 mu k1 k2 θ1 θ2) (a4 σ1 σ2) := by
  rw [sv2jtwo_eq]
  exact jmp_coef 3 lam mj _ (coef4 mu k1 k2 θ1 σ1 θ2 σ2)

theorem sv2j_mom (mu k1 k2 θ1 σ1 θ2 σ2 lam mj sj : ℝ) : Mom (sv2j mu k1 k2 θ1 σ1 θ2 σ2 lam mj sj).ν := by
  rw [sv2j_eq]
  exact jmp_mom _ 2 lam mj _

theorem sv2jtwo_mom (mu k1 k2 θ1 σ1 θ2 σ2 lam mj sj : ℝ) : Mom (sv2jtwo mu k1 k2 θ1 σ1 θ2 σ2 lam mj sj).ν := by
  rw [sv2jtwo_eq]
  exact jmp_mom _ 3 lam mj _

/-- the return over two intervals is the sum of the returns -/
theorem sv2j_agg {mu k1 k2 θ1 σ1 θ2 σ2 lam mj sj : ℝ} {E0 : MvPolynomial (Fin 3) ℝ →ₗ[ℝ] ℝ}
    {E : ℝ → MvPolynomial (Fin 3) ℝ →ₗ[ℝ] ℝ} (hE : (sv2j mu k1 k2 θ1 σ1 θ2 σ2 lam mj sj).Dynkin E0 E) {s : ℝ}
    (hs : 0 ≤ s) {E0' : MvPolynomial (Fin 4) ℝ →ₗ[ℝ] ℝ} (h : Second (E s) E0')
    {E' : ℝ → MvPolynomial (Fin 4) ℝ →ₗ[ℝ] ℝ} (hE' : (sv2jtwo mu k1 k2 θ1 σ1 θ2 σ2 lam mj sj).Dynkin E0' E') (t : ℝ)
    (ht : 0 ≤ t) (n : ℕ) : E (s + t) (X 2 ^ n) = E' t ((X 2 + X 3) ^ n) := by
  have h1 := dynkin_image (sv2jtwo_sum mu k1 k2 θ1 σ1 θ2 σ2 lam mj sj) (sv2jtwo_coef _ _ _ _ _ _ _ _ _ _)
    (sv2j_coef _ _ _ _ _ _ _ _ _ _) rfl (sv2jtwo_mom _ _ _ _ _ _ _ _ _ _) (sv2j_mom _ _ _ _ _ _ _ _ _ _) hE'
  have e : E0' ∘ₗ (aeval ![X 0, X 1, X 2 + X 3]).toLinearMap = E s := by
    refine LinearMap.ext fun f => ?_
    rw [LinearMap.comp_apply, AlgHom.toLinearMap_apply, h.all]
    refine congrArg (E s) (MvPolynomial.funext fun x => ?_)
    rw [eval_aeval, eval_aeval]
    refine congrArg (fun y => eval y f) ?_
    funext i
    fin_cases i <;> simp
  rw [e] at h1
  have := dynkin_unique (sv2j_coef _ _ _ _ _ _ _ _ _ _) (sv2j_mom _ _ _ _ _ _ _ _ _ _) (dynkin_shift hE hs) h1 t ht
  have := LinearMap.congr_fun this (X 2 ^ n)
  simpa using this

end Ajd.Sv2
