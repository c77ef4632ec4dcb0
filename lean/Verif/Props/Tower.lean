import Verif.Lemmas.Tower

/-! C60: the law of total expectation. The moments given the value at the start of an interval, averaged over the law of
that value, are the moments. -/

namespace Ajd.Srjd
open MvPolynomial MeasureTheory Gen SvcjI

/-- The `n`-th moment of the square-root jump-diffusion after the time `s` given the value at the start is a polynomial
`q` of that value (`m` of cond_mom.py). Averaged over the value after the time `t`, given the value `v0` at time 0, it
is the moment after the time `t + s`; averaged over the stationary law (`moment_v` of mom.py) it is the stationary
moment. -/
theorem C60_srjd (p : Par) (hk : p.k ≠ 0) (hl : 0 ≤ p.lmbd) (hm : 0 < p.mu_v) (s : ℝ) (hs : 0 ≤ s) (n : ℕ) :
    ∃ q : Polynomial ℝ,
      (∀ (d : ℕ) (x : ℝ), n ≤ d → 2 ≤ d → mV d n { p with v0 := x, h := s } = .ok (q.eval x)) ∧
      (∀ (x t : ℝ), 0 ≤ t → ∃ M : ℕ → ℝ, (∀ d i : ℕ, i ≤ d → 2 ≤ d → mV d i { p with v0 := x, h := t } = .ok (M i)) ∧
        ∀ d : ℕ, n ≤ d → 2 ≤ d → mV d n { p with v0 := x, h := t + s } = .ok (q.sum fun i c => c * M i)) ∧
      ∃ M : ℕ → ℝ, (∀ (d i : ℕ) (b : Bool), i ≤ d → (umomentV d i b).map (Poly.ev (statVal p.k
          (if b then p.theta else p.theta + p.lmbd * p.mu_v / p.k) p.sigma p.lmbd p.mu_v)) = .ok (M i)) ∧
        M n = q.sum fun i c => c * M i := by
  let j : Ieziziz.Par := ⟨p.k, p.lmbd, p.mu_v, 0, 0⟩
  obtain ⟨Q, hQ⟩ := Gen.dynkin_exists (sY_coef j hm 0 p.theta p.sigma 0 0) (momY j hm 0)
  have hv := fun (x : ℝ) => dynkin_var' j hm (x := x) (y := 0) (hQ _)
  have key := fun (x t : ℝ) (ht : 0 ≤ t) (d i : ℕ) (hd : i ≤ d) (h2 : 2 ≤ d) =>
    C50_unique { p with v0 := x, h := t } hk hl hm ht _ (hv x) d i hd h2
  refine ⟨atV (Q s (X 0 ^ n)), fun d x hd h2 => ?_, fun x t ht => ⟨_, key x t ht, fun d hd h2 => ?_⟩, ?_⟩
  · rw [key x s hs d n hd h2, eval_atV]
    rfl
  · rw [key x (t + s) (add_nonneg ht hs) d n hd h2, ← E_inV, ← var_poly j hm 0 p.theta p.sigma 0 0 hQ n s hs]
    have h1 := dynkin_shift (hQ (aeval ![x, 0]).toLinearMap) ht
    have := Gen.dynkin_unique (sY_coef j hm 0 p.theta p.sigma 0 0) (momY j hm 0) h1 (hQ _) s hs
    exact congrArg _ (LinearMap.congr_fun this (X 0 ^ n))
  · obtain ⟨M, hM, -⟩ := C51_stationary p.k p.theta p.sigma p.lmbd p.mu_v hk hm
    refine ⟨M, fun d i b hd => ?_, ?_⟩
    · obtain ⟨r, e, -, -, v⟩ := C51_moment_v d i hd b
      rw [e, ← v p.k p.theta p.sigma p.lmbd p.mu_v hk hl hm M hM]
      rfl
    · have hX : ∀ i, (Lp M ∘ₗ atV.toLinearMap) (X 0 ^ i) = M i := fun i => by
        rw [LinearMap.comp_apply, AlgHom.toLinearMap_apply, map_pow, atV, aeval_X]
        have := Lp_X M 1 i
        rw [map_one, one_mul, one_mul] at this
        exact this
      have h1 := var_stationary j hm hX hM (hQ _) n s hs
      rw [← h1, LinearMap.comp_apply, var_poly j hm 0 p.theta p.sigma 0 0 hQ n s hs, E_inV]
      simp only [hX]
      congr 2
      exact var_poly j hm 0 p.theta p.sigma 0 0 hQ n s hs

/-- `C60_srjd` -/
example : ∃ p : Par, 0 < p.k ∧ 0 < p.theta ∧ 0 < p.lmbd ∧ 0 < p.mu_v := by
  refine ⟨⟨7569 / 1000000, 346 / 100, 8 / 1000, 14 / 100, 47 / 100, 5 / 100, 1⟩, ?_⟩
  norm_num

end Ajd.Srjd

namespace Ajd.SvcjI
open MvPolynomial MeasureTheory Gen

/-- The `n`-th moment of the SVCJ return given the initial variance (`m_y` of cond_mom.py) is a polynomial `q` of that
variance. Averaged over the stationary law of the variance (`moment_v` of mdl_srjd/mom.py) it is what `unm_y` of mom.py
returns. -/
theorem C60_svcj (n : ℕ) : ∃ d0, ∀ d, d0 ≤ d → ∀ p : SPar, Ok p → 0 ≤ p.lmbd → ∃ (q : Polynomial ℝ) (M : ℕ → ℝ),
    (∀ x, mY n { p with v0 := x } = .ok (q.eval x)) ∧
    (∀ (d i : ℕ) (b : Bool), i ≤ d → (Srjd.umomentV d i b).map (Poly.ev (Srjd.statVal p.k
      (if b then p.theta else p.theta + p.lmbd * p.mu_v / p.k) p.sigma p.lmbd p.mu_v)) = .ok (M i)) ∧
    unmY d n p = .ok (q.sum fun i c => c * M i) := by
  obtain ⟨d0, h⟩ := C43_unm_y n
  refine ⟨d0, fun d hd p hp hl => ?_⟩
  obtain ⟨Q, hQ⟩ := Gen.dynkin_exists (sY_coef p.toPar hp.mu_v p.mu p.theta p.sigma p.rho p.rhoJ)
    (momY p.toPar hp.mu_v p.rhoJ)
  obtain ⟨E0, M, h0, hM, -⟩ := start_exists p hp
  refine ⟨atV (Q p.h (X 1 ^ n)), M, fun x => ?_, fun d i b hd => ?_, ?_⟩
  · rw [C43_m_y n { p with v0 := x } ⟨hp.k, hp.rho, hp.mu_v, hp.h⟩ _ (hQ _), eval_atV]
    rfl
  · obtain ⟨r, e, -, -, v⟩ := Srjd.C51_moment_v d i hd b
    rw [e, ← v p.k p.theta p.sigma p.lmbd p.mu_v hp.k hl hp.mu_v M hM]
    rfl
  · rw [h d hd p hp hl E0 M h0 hM _ (hQ _), ← Srjd.Lp_eq, LinearMap.comp_apply, h0.eq]

/-- `C60_svcj` -/
example : Ok par0 ∧ 0 < par0.lmbd := ⟨par0_ok, by norm_num [par0]⟩

end Ajd.SvcjI
