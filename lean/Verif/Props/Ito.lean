import Verif.Lemmas.ItoSol

/-! C14-C18: the Itô moments of `ito_mom.py`. -/

namespace Ajd
open Poly Ito MeasureTheory ProbabilityTheory

/-- C14. `int_et(n, m)` is `∫_{t0}^t e^{nk[s-t0]} [s-t0]^m ds` written in the elapsed time `t - t0`. -/
theorem C14_int_et (n : ℤ) (m : ℕ) : ∃ P, intEt n m = .ok P ∧ P.keyfor = kfEt ∧ P.Len 3 ∧
    ∀ k t0 t : ℝ, k ≠ 0 → ev (etVal k (t - t0)) P =
      ∫ s in t0..t, Real.exp (n * k * (s - t0)) * (s - t0) ^ m := by
  refine ⟨intEtNat n m, ?_, ?_, fun x hx => (intEtNat_keys n m x hx).1, ?_⟩
  · rw [intEt, if_neg (by omega), Int.toNat_natCast]
  · unfold intEtNat; split_ifs <;> rfl
  · intro k t0 t hk
    rw [ev_intEtNat k _ hk]
    have := intervalIntegral.integral_comp_sub_right (a := t0) (b := t)
      (fun s => Real.exp (n * k * s) * s ^ m) t0
    rw [sub_self] at this
    exact this.symm

/-- C14. a negative power of the elapsed time is rejected -/
theorem C14_int_et_guard (n m : ℤ) : (∃ e, intEt n m = .error e) ↔ m < 0 := by
  unfold intEt; split_ifs with h <;> simp [h]

example : ∃ P, intEt 2 3 = .ok P ∧ P.items.length = 5 := ⟨_, rfl, by decide +kernel⟩
example : ∃ e, intEt 2 (-1) = .error e := (C14_int_et_guard 2 (-1)).2 (by norm_num)

/-- C15. `int_e_poly(c, tp, m, poly)` is `c * factor(tp) * ∫ e^{mks} poly(s) ds`. -/
theorem C15_int_e_poly (c : ℚ) (tp : ℕ) (m : ℤ) (P : IPoly) (hP : P.Keys KeyOK) :
    ∃ Q, intEPoly c tp m P = .ok Q ∧ Q.keyfor = P.keyfor ∧ Q.WF ∧ Q.Len 7 ∧
      ∀ (p : Par) (t : ℝ), p.k ≠ 0 → ev (momVal p t) Q =
        c * fac p tp * ∫ s in p.t0..t, Real.exp (m * p.k * s) * ev (momVal p s) P := by
  obtain ⟨Q, h1, h2, h3, h4, h5⟩ := intEPoly_spec c tp m P hP
  exact ⟨Q, h1, h2, h3, fun x hx => (h4 x hx).2, h5⟩

example : P200.Keys KeyOK := good_P200.2.1

/-- C16. every solution of the documented recursive equation is what `moment_IEII` returns -/
theorem C16_moment_IEII (n3 n4 n5 : ℕ) : ∃ P, momentIEII n3 n4 n5 = .ok P ∧
    P.keyfor = kf ∧ P.WF ∧ ∀ (p : Par) (M : ℕ → ℕ → ℕ → ℝ → ℝ), p.k ≠ 0 → ItoRec p M →
      ∀ t, p.t0 ≤ t → ev (momVal p t) P = M n3 n4 n5 t := by
  obtain ⟨P, h, g, _⟩ := momentIEII_spec (n3, n4, n5) ⟨by simp, by simp, by simp⟩
  exact ⟨P, h, g.1, g.2.2.1, g.2.2.2.1⟩

/-- C16. the documented equation has a solution, and only one (for `t >= t0`) -/
theorem C16_unique (p : Par) (hk : p.k ≠ 0) : (∃ M, ItoRec p M) ∧ ∀ M M', ItoRec p M → ItoRec p M' →
    ∀ n3 n4 n5 t, p.t0 ≤ t → M n3 n4 n5 t = M' n3 n4 n5 t := by
  refine ⟨⟨_, itoSol_rec p⟩, ?_⟩
  intro M M' h h' n3 n4 n5 t ht
  obtain ⟨P, _, _, _, hP⟩ := C16_moment_IEII n3 n4 n5
  rw [← hP p M hk h t ht, hP p M' hk h' t ht]

/-- C16. hence the evaluated outputs themselves solve the documented equation. -/
theorem C16_outputs_solve (p : Par) (hk : p.k ≠ 0) :
    ∃ M, ItoRec p M ∧ ∀ n3 n4 n5 : ℕ, ∃ P, momentIEII n3 n4 n5 = .ok P ∧
      ∀ t, p.t0 ≤ t → M n3 n4 n5 t = ev (momVal p t) P := by
  refine ⟨itoSol p, itoSol_rec p, fun n3 n4 n5 => ?_⟩
  obtain ⟨P, h, _, _, hP⟩ := C16_moment_IEII n3 n4 n5
  exact ⟨P, h, fun t ht => (hP p _ hk (itoSol_rec p) t ht).symm⟩

example : ItoRec ⟨1, 2, 3, 4, 5⟩ (itoSol ⟨1, 2, 3, 4, 5⟩) := itoSol_rec _

/-- C17. no exception for non-negative orders; `ValueError` for a negative total order -/
theorem C17_no_error (n3 n4 n5 : ℕ) : ∀ e, momentIEII n3 n4 n5 ≠ .error e := by
  obtain ⟨P, h, _⟩ := C16_moment_IEII n3 n4 n5
  intro e he; rw [h] at he; cases he

theorem C17_negative (n3 n4 n5 : ℤ) (h : n3 + n4 + n5 < 0) :
    momentIEII n3 n4 n5 = .error .valueError := by
  rw [momentIEII, if_pos h]

example : (-3 : ℤ) + 1 + 1 < 0 := by norm_num

/-- C17. a non-negative total order with a negative component is not rejected by the guard: for
order 1 it raises `KeyError` and for order 3 it silently returns the zero Poly. -/
theorem C17_negative_component :
    momentIEII (-1) 2 0 = .error .keyError ∧ momentIEII (-1) 4 0 = .ok ⟨kf, []⟩ := by
  constructor
  · rfl
  · decide +kernel

/-- C46. for total order at least 3 every key has the 7 components that `keyfor` names and no entry
is zero. Missing for the full claim (every order): see `C46_keylen_violated`. -/
theorem C46_keys_partial (n3 n4 n5 : ℕ) (h : 3 ≤ n3 + n4 + n5) :
    ∃ P, momentIEII n3 n4 n5 = .ok P ∧ P.Len P.keyfor.length ∧ P.NoZero := by
  obtain ⟨P, e, g, hk⟩ := momentIEII_spec (n3, n4, n5) ⟨by simp, by simp, by simp⟩
  have := hk (by simp [lev]; omega)
  refine ⟨P, e, ?_, this.1⟩
  rw [g.1]; exact this.2

example : 3 ≤ 1 + 1 + 1 := by norm_num

/-- C46. at orders (0,0,0), (1,0,0), (1,0,1) the returned keys have 8 components although `keyfor`
names 7, and orders (1,0,0), (1,0,1) carry an explicit zero entry. -/
theorem C46_keylen_violated :
    (∃ P, momentIEII 0 0 0 = .ok P ∧ ¬ P.Len P.keyfor.length) ∧
    (∃ P, momentIEII 1 0 0 = .ok P ∧ ¬ P.Len P.keyfor.length ∧ ¬ P.NoZero) ∧
    (∃ P, momentIEII 1 0 1 = .ok P ∧ ¬ P.Len P.keyfor.length ∧ ¬ P.NoZero) := by
  refine ⟨⟨P1, rfl, ?_⟩, ⟨P0, rfl, ?_, ?_⟩, ⟨P0, rfl, ?_, ?_⟩⟩ <;>
    simp [P1, P0, Len, Keys, NoZero, kf]

/-- C18. `moment_v(n)` is the product formula of equation `moment-v`. -/
theorem C18_moment_v (n : ℕ) : ∃ P, momentVPy n = .ok P ∧ P.Len 2 ∧ P.WF ∧
    P.keyfor = ["theta", "sigma_v^2/k"] ∧
    ∀ k θ σ : ℝ, ev (vVal k θ σ) P = vMoment k θ σ n := by
  refine ⟨momentV n, ?_, fun x hx => ((momentV_keys n).1 x hx).2.2, (momentV_keys n).2.2,
    (momentV_keys n).2.1, fun k θ σ => ev_momentV k θ σ n⟩
  rw [momentVPy, if_neg (by omega), Int.toNat_natCast]

/-- C18. It is the `n`-th moment of the Gamma law with shape `2kθ/σ²` and rate `2k/σ²`, the
stationary law of the square-root diffusion. -/
theorem C18_moment_v_gamma (n : ℕ) (k θ σ : ℝ) (hk : 0 < k) (hθ : 0 < θ) (hσ : 0 < σ) :
    ∃ P, momentVPy n = .ok P ∧ ev (vVal k θ σ) P =
      ∫ x, x ^ n ∂(gammaMeasure (2 * k * θ / σ ^ 2) (2 * k / σ ^ 2)) := by
  obtain ⟨P, h, _, _, _, hv⟩ := C18_moment_v n
  refine ⟨P, h, ?_⟩
  rw [hv, gamma_moment _ _ (by positivity) (by positivity), vMoment]
  apply Finset.prod_congr rfl
  intro j _
  field_simp

theorem C18_moment_v_negative (n : ℤ) (h : n < 0) : momentVPy n = .error .nameError := by
  rw [momentVPy, if_pos h]

example : (0 : ℝ) < 1 ∧ (0 : ℝ) < 2 := by norm_num
example : (momentV 3).items.length = 3 := by decide +kernel

end Ajd
