import Verif.Lemmas.Fsv1Cov
import Verif.Lemmas.ItoSol
import Mathlib.RingTheory.MvPolynomial.Basic

namespace Ajd.Fsv1
open Poly Ito MvPolynomial MeasureTheory ProbabilityTheory

/-! ### the laws the theorems speak about exist -/

theorem gamma_integrable (a b : ℝ) (ha : 0 < a) (hb : 0 < b) (n : ℕ) :
    Integrable (fun x : ℝ => x ^ n) (gammaMeasure a b) := by
  by_contra h
  have h1 := gamma_moment a b ha hb n
  rw [integral_undef h] at h1
  have : 0 < ∏ j ∈ Finset.range n, ((a + j) / b) :=
    Finset.prod_pos fun j _ => by positivity
  linarith

/-- the stationary gamma law -/
theorem statLaw_gamma (p : Par) (hk : 0 < p.k) (hθ : 0 < p.θ) (hσ : 0 < p.σ) :
    StatLaw p (gammaMeasure (2 * p.k * p.θ / p.σ ^ 2) (2 * p.k / p.σ ^ 2)) where
  integrable n := gamma_integrable _ _ (by positivity) (by positivity) n
  moment n := by
    rw [gamma_moment _ _ (by positivity) (by positivity), vMoment]
    apply Finset.prod_congr rfl
    intro j _
    field_simp

/-- the functional with the moments of `itoSol` -/
noncomputable def condE (p : Par) (t0 x : ℝ) : Rv →ₗ[ℝ] ℝ :=
  (basisMonomials (Fin 3) ℝ).constr ℝ fun s =>
    itoSol ⟨p.k, p.θ, p.σ, x, t0⟩ (s 0) (s 1) (s 2) (t0 + p.h)

theorem condLaw_condE (p : Par) (t0 x : ℝ) : CondLaw p t0 x (condE p t0 x) := by
  refine ⟨_, itoSol_rec _, fun a b c => ?_⟩
  have h : (X 0 ^ a * X 1 ^ b * X 2 ^ c : Rv) = basisMonomials (Fin 3) ℝ
      (Finsupp.single 0 a + Finsupp.single 1 b + Finsupp.single 2 c) := by
    rw [coe_basisMonomials, X_pow_eq_monomial, X_pow_eq_monomial, X_pow_eq_monomial, monomial_mul,
      monomial_mul, one_mul, one_mul]
  rw [h, condE, Module.Basis.constr_basis]
  simp [Finsupp.single_apply]

/-- the keys of the moments, whatever the parameters -/
theorem momentY_keys (l : ℕ) : ∃ r, momentY l = .ok r ∧ r.keyfor = kfM ∧ r.WF ∧ r.NoZero ∧
    r.Keys M8 := by
  obtain ⟨r, e, k, w, z, ks, _⟩ := momentY_spec ⟨1, 1, 1, 0, 0, 1⟩ (by norm_num) (by norm_num)
    (by norm_num) 0 (condE _ 0) _ (statLaw_gamma _ (by norm_num) (by norm_num) (by norm_num))
    (Filter.Eventually.of_forall fun x => condLaw_condE _ _ _) l
  exact ⟨r, e, k, w, z, ks⟩

theorem cmomentY_keys (l : ℕ) : ∃ r, cmomentY l = .ok r ∧ r.keyfor = kfC ∧ r.WF ∧ r.NoZero ∧
    r.Keys C7 := by
  obtain ⟨r, e, k, w, z, ks, _⟩ := cmomentY_spec ⟨1, 1, 1, 0, 0, 1⟩ (by norm_num) (by norm_num)
    (by norm_num) 0 (condE _ 0) _ (statLaw_gamma _ (by norm_num) (by norm_num) (by norm_num))
    (Filter.Eventually.of_forall fun x => condLaw_condE _ _ _) l
  exact ⟨r, e, k, w, z, ks⟩

/-- the conditional moment of the next return as a polynomial in the variance -/
theorem condPoly (p : Par) (hk : p.k ≠ 0) (hh : 0 ≤ p.h) (hρ : 0 ≤ 1 - p.ρ ^ 2) (t0 : ℝ) (l : ℕ) :
    ∃ Q : Polynomial ℝ, ∀ z E, CondLaw p t0 z E → Q.eval z = E (ret p t0 z ^ l) := by
  obtain ⟨r, Q, _, _, _, h⟩ := polyYY_spec p hk hh hρ (t0 - p.h) (condE p (t0 - p.h)) 0 l
  rw [sub_add_cancel] at h
  exact ⟨Q, h⟩

theorem covYY_keys (l1 l2 : ℕ) : ∃ r, covYY l1 l2 = .ok r ∧ r.keyfor = kfM ∧ r.WF ∧ r.NoZero ∧
    r.Keys M8 := by
  obtain ⟨Q, hQ⟩ := condPoly ⟨1, 1, 1, 0, 0, 1⟩ (by norm_num) (by norm_num)
    (by norm_num) (0 + 1) l2
  obtain ⟨r, e, k, w, z, ks, _⟩ := covYY_spec ⟨1, 1, 1, 0, 0, 1⟩ (by norm_num) (by norm_num)
    (by norm_num) 0 (condE _ 0) _ (statLaw_gamma _ (by norm_num) (by norm_num) (by norm_num))
    (Filter.Eventually.of_forall fun x => condLaw_condE _ _ _) l1 l2 (condE _ (0 + 1)) Set.univ
    Set.infinite_univ (fun z _ => condLaw_condE _ _ _) Q
    (fun z _ => hQ z _ (condLaw_condE _ _ _))
  exact ⟨r, e, k, w, z, ks⟩

end Ajd.Fsv1
