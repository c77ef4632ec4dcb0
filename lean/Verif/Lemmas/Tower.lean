import Verif.Lemmas.Agg
import Verif.Props.Law2

/-! Conditioning on the middle of an interval. -/

namespace Ajd.Srjd
open MvPolynomial MeasureTheory Gen SvcjI

/-- the variance of the SVCJ model, from any return -/
theorem dynkin_var' (p : Ieziziz.Par) (hm : 0 < p.mu_v) {mu θ σ ρ rhoJ x y : ℝ}
    {E : ℝ → MvPolynomial (Fin 2) ℝ →ₗ[ℝ] ℝ}
    (hE : (svcj mu p.k θ σ ρ p.lmbd p.mu_v rhoJ p.mu_s p.sigma_s).Dynkin (aeval ![x, y]).toLinearMap E) :
    Dynkin p.k θ σ p.lmbd p.mu_v x fun n t => E t (X 0 ^ n) := by
  obtain ⟨hs, h0⟩ := dynkin_sol (sY_coef p hm mu θ σ ρ rhoJ) (momY p hm rhoJ) hE
  refine ⟨fun n => by rw [h0]; simp, fun n => hE.cont _, fun n t ht q hq => ?_⟩
  have e : q = genPoly p.k θ σ p.lmbd p.mu_v n := Polynomial.funext fun v => by rw [hq, gen_pow _ _ _ _ hm]
  have hd := (hs (X 0 ^ n) t ht.le).hasDerivAt (Ici_mem_nhds ht)
  rw [isGen_unique (isGen_op (sY_coef p hm mu θ σ ρ rhoJ) (momY p hm rhoJ) _) (svcj_gen_pow p hm mu θ σ ρ rhoJ n), E_inV,
    ← e] at hd
  exact hd

theorem genPoly_degree (k θ σ lam μ : ℝ) (n : ℕ) : genPoly k θ σ lam μ n ∈ Polynomial.degreeLT ℝ (n + 1) := by
  have hx : ∀ (c : ℝ) (i : ℕ), i ≤ n → Polynomial.C c * Polynomial.X ^ i ∈ Polynomial.degreeLT ℝ (n + 1) := by
    intro c i hi
    rw [Polynomial.mem_degreeLT]
    exact (Polynomial.degree_C_mul_X_pow_le i c).trans_lt (by exact_mod_cast Nat.lt_succ_of_le hi)
  rw [genPoly]
  exact add_mem (add_mem (hx _ _ (Nat.sub_le _ _)) (hx _ _ le_rfl)) (sum_mem fun j _ => hx _ _ (Nat.sub_le _ _))

theorem gen_lf (k θ σ lam μ : ℝ) : Dyn.LF (Lp' (genPoly k θ σ lam μ)) := by
  intro f
  refine ⟨Polynomial.degreeLT ℝ (f.natDegree + 1), ?_, ?_, fun g hg => ?_⟩
  · exact Module.Finite.equiv (Polynomial.degreeLTEquiv ℝ (f.natDegree + 1)).symm
  · rw [Polynomial.mem_degreeLT]
    exact Polynomial.degree_le_natDegree.trans_lt (by exact_mod_cast Nat.lt_succ_self _)
  · rw [Lp', Polynomial.lsum_apply, Polynomial.sum]
    refine sum_mem fun i hi => ?_
    rw [LinearMap.toSpanSingleton_apply]
    refine Submodule.smul_mem _ _ (Polynomial.degreeLT_mono ?_ (genPoly_degree k θ σ lam μ i))
    have h1 := Polynomial.le_degree_of_mem_supp i hi
    rw [Polynomial.mem_degreeLT] at hg
    have := h1.trans_lt hg
    exact_mod_cast this

/-- the law of the variance does not change -/
theorem var_stationary (p : Ieziziz.Par) (hm : 0 < p.mu_v) {mu θ σ ρ rhoJ : ℝ} {E0 : MvPolynomial (Fin 2) ℝ →ₗ[ℝ] ℝ}
    {M : ℕ → ℝ} (h0 : ∀ n, E0 (X 0 ^ n) = M n) (hM : Stationary p.k θ σ p.lmbd p.mu_v M)
    {E : ℝ → MvPolynomial (Fin 2) ℝ →ₗ[ℝ] ℝ}
    (hE : (svcj mu p.k θ σ ρ p.lmbd p.mu_v rhoJ p.mu_s p.sigma_s).Dynkin E0 E) (n : ℕ) (t : ℝ) (ht : 0 ≤ t) :
    E t (X 0 ^ n) = M n := by
  obtain ⟨hs, e0⟩ := dynkin_sol (sY_coef p hm mu θ σ ρ rhoJ) (momY p hm rhoJ) hE
  have hz : Lp M ∘ₗ Lp' (genPoly p.k θ σ p.lmbd p.mu_v) = 0 := by
    refine Polynomial.lhom_ext' fun n => LinearMap.ext_ring ?_
    simp only [LinearMap.comp_apply, LinearMap.zero_apply]
    rw [Lp'_one, Lp_eq]
    exact hM.gen n _ (gen_pow p.k θ σ p.lmbd hm n)
  have h1 : Dyn.Sol (Lp' (genPoly p.k θ σ p.lmbd p.mu_v)) fun t => E t ∘ₗ inV.toLinearMap := by
    intro f t ht
    have := hs (inV f) t ht
    rw [isGen_unique (isGen_op (sY_coef p hm mu θ σ ρ rhoJ) (momY p hm rhoJ) _) (svcj_gen p hm mu θ σ ρ rhoJ f)] at this
    exact this
  have h2 : Dyn.Sol (Lp' (genPoly p.k θ σ p.lmbd p.mu_v)) fun _ => Lp M := by
    intro f t ht
    have := LinearMap.congr_fun hz f
    rw [LinearMap.comp_apply, LinearMap.zero_apply] at this
    rw [this]
    exact hasDerivWithinAt_const _ _ _
  have hi : E 0 ∘ₗ inV.toLinearMap = Lp M := by
    refine LinearMap.ext fun q => ?_
    rw [LinearMap.comp_apply, AlgHom.toLinearMap_apply, E_inV, Lp_eq, e0]
    simp only [h0]
  have := LinearMap.congr_fun (Dyn.sol_unique (gen_lf _ _ _ _ _) h1 h2 hi t ht) (Polynomial.X ^ n)
  rw [LinearMap.comp_apply, AlgHom.toLinearMap_apply, map_pow, inV, Polynomial.aeval_X] at this
  rw [this]
  have := Lp_X M 1 n
  rwa [map_one, one_mul, one_mul] at this

/-- the moment after the time `s` is a polynomial of the variance -/
theorem var_poly (p : Ieziziz.Par) (hm : 0 < p.mu_v) (mu θ σ ρ rhoJ : ℝ) {Q : ℝ → MvPolynomial (Fin 2) ℝ →ₗ[ℝ] MvPolynomial (Fin 2) ℝ}
    (hQ : ∀ E0, (svcj mu p.k θ σ ρ p.lmbd p.mu_v rhoJ p.mu_s p.sigma_s).Dynkin E0 fun t => E0 ∘ₗ Q t) (n : ℕ) (s : ℝ)
    (hs : 0 ≤ s) : Q s (X 0 ^ n) = inV (atV (Q s (X 0 ^ n))) := by
  refine MvPolynomial.funext fun y => ?_
  have h := dynkin_unique hm (dynkin_var' p hm (x := y 0) (y := y 1) (hQ _)) (dynkin_var' p hm (x := y 0) (y := 0) (hQ _)) n s hs
  rw [eval_inV, eval_atV]
  simp only [LinearMap.comp_apply, AlgHom.toLinearMap_apply] at h
  have hy : (![y 0, y 1] : Fin 2 → ℝ) = y := by
    funext i
    fin_cases i <;> rfl
  rw [hy, aeval_eq_eval] at h
  exact h

end Ajd.Srjd
