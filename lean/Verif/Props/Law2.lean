import Verif.Lemmas.SrjdPos
import Verif.Lemmas.LawIneq
import Verif.Props.SvcjI
import Verif.Props.Srjd3
import Verif.Props.Srjd4

/-! C56 for the models with jumps in the variance. -/

namespace Ajd.SvcjI
open MvPolynomial MeasureTheory Gen

/-- For every admissible parameter of the SVCJ model and every initial variance that is not negative there is a
probability distribution of the return such that `m_y` of cond_mom.py returns its moments and `cm_y` of cond_cmom.py
its central moments, for all orders. -/
theorem C56_svcj_cond (p : SPar) (hp : Ok p) (hk : 0 ≤ p.k * p.theta) (hl : 0 ≤ p.lmbd) (hv : 0 ≤ p.v0) :
    ∃ P, IsLaw P (fun n => mY n p) fun n => cmYc n p := by
  obtain ⟨E, hE⟩ := (C43_expectation p hp (aeval ![p.v0, 0]).toLinearMap).1
  obtain ⟨P, hP, -, hf⟩ := exists_law (sY_coef p.toPar hp.mu_v p.mu p.theta p.sigma p.rho p.rhoJ)
    (momY p.toPar hp.mu_v p.rhoJ) (svcj_viable p.toPar hp.mu_v hk hp.rho hl) ⟨0, fun i _ => le_rfl⟩ hE
    (Sv.point_pos hv) (by simp) p.h hp.h
  exact ⟨_, Sv.law_fst hf 1 (fun n => C43_m_y n p hp E hE) fun n => C43_cm_y_cond n p hp E hE⟩

/-- The same for the return when the variance starts from its stationary law: `unm_y` of mom.py and `cm_y` of
cmom.py. The depths `D` of the recursion have to be large enough. -/
theorem C56_svcj : ∃ d0 : ℕ → ℕ, ∀ p, Ok p → 0 < p.k → 0 ≤ p.theta → 0 ≤ p.lmbd → ∃ P, ∀ D, d0 ≤ D →
    IsLaw P (fun n => unmY (D n) n p) fun n => cmY (D n) n p := by
  choose d1 h1 using C43_unm_y
  choose d2 h2 using C43_cm_y
  refine ⟨fun n => max (d1 n) (d2 n), fun p hp hk hθ hl => ?_⟩
  obtain ⟨E0, M, h0, hM, E, hE⟩ := start_exists p hp
  have h01 : E0 1 = 1 := by simpa [hM.zero] using h0.v 0
  obtain ⟨P, hP, -, hf⟩ := exists_law (sY_coef p.toPar hp.mu_v p.mu p.theta p.sigma p.rho p.rhoJ)
    (momY p.toPar hp.mu_v p.rhoJ) (svcj_viable p.toPar hp.mu_v (mul_nonneg hk.le hθ) hp.rho hl)
    ⟨0, fun i _ => le_rfl⟩ hE (start_pos hk hθ hl hp.mu_v hM h0) h01 p.h hp.h
  exact ⟨_, fun D hD => Sv.law_fst hf 1
    (fun n => h1 n (D n) ((le_max_left _ _).trans (hD n)) p hp hl E0 M h0 hM E hE)
    fun n => h2 n (D n) ((le_max_right _ _).trans (hD n)) p hp hl E0 M h0 hM E hE⟩

/-- Inequalities that the values of `unm_y` and `cm_y` meet for every admissible parameter: the Hankel forms of the
moments are not negative, the central moments of even order are not negative, the kurtosis is at least
`1 + skewness^2`. -/
theorem C56_svcj_ineq : ∃ d0 : ℕ → ℕ, ∀ p, Ok p → 0 < p.k → 0 ≤ p.theta → 0 ≤ p.lmbd → ∀ D, d0 ≤ D →
    (∀ (n : ℕ) (a : ℕ → ℝ), ∃ M : ℕ → ℝ, (∀ l, unmY (D l) l p = .ok (M l)) ∧
      0 ≤ ∑ i ∈ Finset.range n, ∑ j ∈ Finset.range n, a i * a j * M (i + j)) ∧
    (∀ l : ℕ, ∃ c, cmY (D (2 * l)) (2 * l : ℕ) p = .ok c ∧ 0 ≤ c) ∧
    ∃ c2 c3 c4, cmY (D 2) 2 p = .ok c2 ∧ cmY (D 3) 3 p = .ok c3 ∧ cmY (D 4) 4 p = .ok c4 ∧
      c3 ^ 2 + c2 ^ 3 ≤ c2 * c4 := by
  obtain ⟨d0, h⟩ := C56_svcj
  refine ⟨d0, fun p hp hk hθ hl D hD => ?_⟩
  obtain ⟨P, hP⟩ := h p hp hk hθ hl
  have hP := hP D hD
  refine ⟨hP.hankel, hP.even, ?_⟩
  obtain ⟨c2, c3, c4, h2, h3, h4, -, -, h⟩ := hP.kurt
  exact ⟨c2, c3, c4, h2, h3, h4, h⟩

/-- `C56_svcj_cond`, `C56_svcj`, `C56_svcj_ineq` -/
example : Ok par0 ∧ 0 < par0.k ∧ 0 < par0.theta ∧ 0 < par0.lmbd ∧ 0 < par0.v0 :=
  ⟨par0_ok, by norm_num [par0], by norm_num [par0], by norm_num [par0], by norm_num [par0]⟩

end Ajd.SvcjI

namespace Ajd.Srjd
open MvPolynomial MeasureTheory Gen SvcjI

theorem central_sum (E : MvPolynomial (Fin 2) ℝ →ₗ[ℝ] ℝ) (c : ℝ) (n : ℕ) :
    E ((X 0 - C c) ^ n) = ∑ i ∈ Finset.range (n + 1), n.choose i * (-c) ^ (n - i) * E (X 0 ^ i) := by
  rw [sub_eq_add_neg, add_pow, map_sum]
  refine Finset.sum_congr rfl fun i _ => ?_
  rw [← C_neg, ← C_pow, mul_assoc, show (n.choose i : MvPolynomial (Fin 2) ℝ) = C (n.choose i : ℝ) by simp, ← C_mul,
    mul_comm, ← smul_eq_C_mul, map_smul, smul_eq_mul]
  ring

theorem E_inV (E : MvPolynomial (Fin 2) ℝ →ₗ[ℝ] ℝ) (q : Polynomial ℝ) : E (inV q) = q.sum fun i c => c * E (X 0 ^ i) := by
  rw [← Lp_eq]
  suffices h : E ∘ₗ inV.toLinearMap = Lp fun i => E (X 0 ^ i) from LinearMap.congr_fun h q
  refine Polynomial.lhom_ext' fun n => LinearMap.ext_ring ?_
  simp only [LinearMap.comp_apply, AlgHom.toLinearMap_apply]
  have := Lp_X (fun i => E (X 0 ^ i)) 1 n
  rw [map_one, one_mul, one_mul] at this
  rw [← Polynomial.X_pow_eq_monomial, this, map_pow, inV, Polynomial.aeval_X]

/-- the variance of the SVCJ model -/
theorem dynkin_var (p : Ieziziz.Par) (hm : 0 < p.mu_v) {mu θ σ ρ rhoJ x : ℝ} {E : ℝ → MvPolynomial (Fin 2) ℝ →ₗ[ℝ] ℝ}
    (hE : (svcj mu p.k θ σ ρ p.lmbd p.mu_v rhoJ p.mu_s p.sigma_s).Dynkin (aeval ![x, 0]).toLinearMap E) :
    Dynkin p.k θ σ p.lmbd p.mu_v x fun n t => E t (X 0 ^ n) := by
  obtain ⟨hs, h0⟩ := dynkin_sol (sY_coef p hm mu θ σ ρ rhoJ) (momY p hm rhoJ) hE
  refine ⟨fun n => by rw [h0]; simp, fun n => hE.cont _, fun n t ht q hq => ?_⟩
  have e : q = genPoly p.k θ σ p.lmbd p.mu_v n := Polynomial.funext fun v => by rw [hq, gen_pow _ _ _ _ hm]
  have hd := (hs (X 0 ^ n) t ht.le).hasDerivAt (Ici_mem_nhds ht)
  rw [isGen_unique (isGen_op (sY_coef p hm mu θ σ ρ rhoJ) (momY p hm rhoJ) _) (svcj_gen_pow p hm mu θ σ ρ rhoJ n), E_inV,
    ← e] at hd
  exact hd

/-- For every admissible parameter of the square-root jump-diffusion and every initial value that is not negative
there is a probability distribution on `[0, ∞)` such that `m` of cond_mom.py returns its moments and `cm` of
cond_cmom.py its central moments, for all orders. -/
theorem C56_srjd_cond (p : Par) (hk : p.k ≠ 0) (hθ : 0 ≤ p.k * p.theta) (hl : 0 ≤ p.lmbd) (hm : 0 < p.mu_v)
    (hh : 0 ≤ p.h) (hv : 0 ≤ p.v0) : ∃ P, (∀ᵐ v ∂P, (0 : ℝ) ≤ v) ∧ ∀ D : ℕ → ℕ, (∀ n, n ≤ D n ∧ 2 ≤ D n) →
      IsLaw P (fun n => mV (D n) n p) fun n => cmV (D n) n p := by
  let s : SPar := ⟨⟨p.k, p.lmbd, p.mu_v, 0, 0⟩, p.v0, 0, p.theta, p.sigma, 0, 0, p.h⟩
  have hs : Ok s := ⟨hk, by norm_num [s], hm, hh⟩
  obtain ⟨E, hE⟩ := (C43_expectation s hs (aeval ![s.v0, 0]).toLinearMap).1
  obtain ⟨P, hP, hpos, hf⟩ := exists_law (sY_coef s.toPar hm s.mu s.theta s.sigma s.rho s.rhoJ)
    (momY s.toPar hm s.rhoJ) (svcj_viable s.toPar hm hθ hs.rho hl) ⟨0, fun i _ => le_rfl⟩ hE
    (Sv.point_pos hv) (by simp) p.h hh
  have hV := dynkin_var s.toPar hm hE
  refine ⟨P.map fun x => x 0, ?_, fun D hD => Sv.law_fst hf 0 (fun n => ?_) fun n => ?_⟩
  · refine (ae_map_iff (measurable_pi_apply 0).aemeasurable measurableSet_Ici).2 ?_
    filter_upwards [hpos] with x hx
    exact hx 0 rfl
  · exact C50_unique p hk hl hm hh _ hV (D n) n (hD n).1 (hD n).2
  · obtain ⟨r, e, -, -, v⟩ := C36_cmoment_v (D n) n (hD n).1 (hD n).2
    rw [cmV, e, ok_bind, v p hk hl hm hh _ hV, central_sum]
    simp only [pow_one]
    rfl

/-- For every admissible parameter of the square-root jump-diffusion there is a probability distribution on `[0, ∞)`
such that `moment_v` of mom.py gives its moments and `cmoment_v` of cmom.py its central moments, for all orders. -/
theorem C56_srjd (k θ σ lam μ : ℝ) (hk : 0 < k) (hθ : 0 ≤ θ) (hl : 0 ≤ lam) (hμ : 0 < μ) :
    ∃ P, (∀ᵐ v ∂P, (0 : ℝ) ≤ v) ∧ ∀ (D : ℕ → ℕ) (s : Bool), (∀ n, n ≤ D n) →
      IsLaw P (fun n => (umomentV (D n) n s).map (Poly.ev (statVal k (if s then θ else θ + lam * μ / k) σ lam μ)))
        fun n => (ucmomentV (D n) n).map (Poly.ev (statVal k (θ + lam * μ / k) σ lam μ)) := by
  let p : SPar := ⟨⟨k, lam, μ, 0, 0⟩, 0, 0, θ, σ, 0, 0, 0⟩
  obtain ⟨E0, M, h0, hM, -⟩ := start_exists p ⟨hk.ne', by norm_num [p], hμ, le_rfl⟩
  obtain ⟨P, hpos, hf⟩ := haviland (orth_closed {0}) ⟨0, fun i _ => le_rfl⟩ (L := E0) (start_pos hk hθ hl hμ hM h0)
  have hP : IsProbabilityMeasure P := prob_of hf (by simpa [hM.zero] using h0.v 0)
  have hm1 : E0 (X 0) = M 1 := by simpa using h0.v 1
  refine ⟨P.map fun x => x 0, ?_, fun D s hD => Sv.law_fst hf 0 (fun n => ?_) fun n => ?_⟩
  · refine (ae_map_iff (measurable_pi_apply 0).aemeasurable measurableSet_Ici).2 ?_
    filter_upwards [hpos] with x hx
    exact hx 0 rfl
  · obtain ⟨r, e, -, -, v⟩ := C51_moment_v (D n) n (hD n) s
    rw [e, h0.v, ← v k θ σ lam μ hk.ne' hl hμ M hM]
    rfl
  · obtain ⟨r, e, -, -, v⟩ := C51_cmoment_v (D n) n (hD n)
    rw [e, central_sum]
    simp only [h0.v, hm1]
    rw [← v k θ σ lam μ hk.ne' hl hμ M hM]
    rfl

/-- `C56_srjd_cond`, `C56_srjd` -/
example : ∃ p : Par, 0 < p.k ∧ 0 < p.theta ∧ 0 < p.lmbd ∧ 0 < p.mu_v ∧ 0 < p.h ∧ 0 < p.v0 := by
  refine ⟨⟨7569 / 1000000, 346 / 100, 8 / 1000, 14 / 100, 47 / 100, 5 / 100, 1⟩, ?_⟩
  norm_num

end Ajd.Srjd
