import Verif.Spec.Short
import Verif.Lemmas.Gen
import Verif.Lemmas.GenMap
import Mathlib.Analysis.Calculus.Deriv.Slope
import Mathlib.Analysis.Calculus.Deriv.Mul
import Mathlib.Analysis.Calculus.Deriv.Pow

/-! The moments of a jump-diffusion over a short interval. -/

namespace Ajd.Gen
open MvPolynomial MeasureTheory Filter Topology
variable {σ : Type} [Fintype σ] [DecidableEq σ]

theorem rate_of_deriv {f : ℝ → Except PyErr ℝ} {a : ℝ → ℝ} {d : ℝ} (ha : ∀ h, 0 < h → f h = .ok (a h))
    (hd : HasDerivWithinAt a d (Set.Ici 0) 0) : Rate f (a 0) d := by
  refine ⟨a, ha, ?_⟩
  have := (hasDerivWithinAt_iff_tendsto_slope' (by simp)).1 (hasDerivWithinAt_Ioi_iff_Ici.2 hd)
  refine this.congr fun h => ?_
  rw [slope_def_field, sub_zero]

/-- set the variable `r` to `0` -/
noncomputable def kill (r : σ) : MvPolynomial σ ℝ →ₐ[ℝ] MvPolynomial σ ℝ := aeval fun i => if i = r then 0 else X i

theorem kill_sub (r : σ) (f : MvPolynomial σ ℝ) : ∃ g, f - kill r f = X r * g := by
  induction f using MvPolynomial.induction_on with
  | C a => exact ⟨0, by simp [kill, algebraMap_eq]⟩
  | add p q hp hq =>
    obtain ⟨g, hg⟩ := hp
    obtain ⟨g', hg'⟩ := hq
    refine ⟨g + g', ?_⟩
    rw [map_add, mul_add, ← hg, ← hg']
    ring
  | mul_X p i hp =>
    obtain ⟨g, hg⟩ := hp
    by_cases hi : i = r
    · subst hi
      exact ⟨p, by simp [kill, mul_comm]⟩
    · refine ⟨g * X i, ?_⟩
      rw [map_mul, ← mul_assoc, ← hg, sub_mul]
      simp [kill, hi]

theorem kill_eq {E0 : MvPolynomial σ ℝ →ₗ[ℝ] ℝ} {r : σ} (h0 : ∀ f, E0 (X r * f) = 0) (f : MvPolynomial σ ℝ) :
    E0 (kill r f) = E0 f := by
  obtain ⟨g, hg⟩ := kill_sub r f
  have := congrArg E0 hg
  rw [map_sub, h0] at this
  linarith

theorem short_gen {c : JumpDiff σ} {b : σ → MvPolynomial σ ℝ} {a : σ → σ → MvPolynomial σ ℝ} (h : PolyCoef c b a)
    (hν : Mom c.ν) {E0 : MvPolynomial σ ℝ →ₗ[ℝ] ℝ} (h1 : E0 1 = 1) {r : σ} (h0 : ∀ f, E0 (X r * f) = 0) (n : ℕ)
    (hn : 1 ≤ n) : E0 (op b a c.lam c.ν hν (X r ^ n)) =
      levy (E0 (b r)) (E0 (a r r)) c.lam (fun n => ∫ y, y r ^ n ∂c.ν) n := by
  have hk : kill r (op b a c.lam c.ν hν (X r ^ n)) = kill r ((if n = 1 then b r else 0) + (if n = 2 then a r r else 0) +
      C (c.lam * ∫ y, y r ^ n ∂c.ν)) := by
    refine MvPolynomial.funext fun x => ?_
    rw [kill, eval_aeval, eval_aeval]
    set z : σ → ℝ := fun k => eval x (if k = r then 0 else X k) with hz
    have hr : z r = 0 := by simp [hz]
    rw [isGen_op h hν (X r ^ n) z]
    have p1 : ∀ i, pderiv i (X r ^ n : MvPolynomial σ ℝ) = if i = r then C (n : ℝ) * X r ^ (n - 1) else 0 := by
      intro i
      rw [Derivation.leibniz_pow, pderiv_X]
      by_cases hi : i = r
      · subst hi
        simp [nsmul_eq_mul]
      · simp [hi, Pi.single_apply, Ne.symm hi]
    have p2 : ∀ i j, pderiv i (pderiv j (X r ^ n : MvPolynomial σ ℝ)) =
        if j = r then (if i = r then C ((n * (n - 1 : ℕ) : ℝ)) * X r ^ (n - 1 - 1) else 0) else 0 := by
      intro i j
      rw [p1]
      by_cases hj : j = r
      · rw [if_pos hj, if_pos hj, Derivation.leibniz, Derivation.leibniz_pow, pderiv_C, pderiv_X]
        by_cases hi : i = r
        · subst hi
          simp [nsmul_eq_mul, mul_assoc]
        · simp [hi, Pi.single_apply, Ne.symm hi]
      · rw [if_neg hj, if_neg hj, map_zero]
    have s1 : ∑ i, c.b z i * eval z (pderiv i (X r ^ n)) = if n = 1 then c.b z r else 0 := by
      rw [Finset.sum_eq_single r (fun i _ hi => by rw [p1, if_neg hi, map_zero, mul_zero]) (by simp), p1, if_pos rfl]
      by_cases h1 : n = 1
      · subst h1
        simp
      · simp [hr, h1, show n - 1 ≠ 0 by omega]
    have s2 : ∑ i, ∑ j, c.a z i j * eval z (pderiv i (pderiv j (X r ^ n))) = if n = 2 then 2 * c.a z r r else 0 := by
      rw [Finset.sum_eq_single r (fun i _ hi => Finset.sum_eq_zero fun j _ => by rw [p2, if_neg hi, ite_self, map_zero, mul_zero])
        (by simp), Finset.sum_eq_single r (fun j _ hj => by rw [p2, if_neg hj, map_zero, mul_zero]) (by simp), p2,
        if_pos rfl, if_pos rfl]
      by_cases h2 : n = 2
      · subst h2
        simp
        ring
      · rcases eq_or_ne n 1 with rfl | h1
        · simp
        · simp [hr, h2, show n - 1 - 1 ≠ 0 by omega]
    rw [s1, s2]
    have hn0 : n ≠ 0 := by omega
    simp only [map_add, map_pow, eval_X, Pi.add_apply, hr, zero_add, eval_C, zero_pow hn0, sub_zero]
    congr 2
    · split_ifs <;> simp [h.hb]
    · split_ifs <;> simp [h.ha]
  rw [← kill_eq h0, hk, kill_eq h0, map_add, map_add, levy]
  have : E0 (C (c.lam * ∫ y, y r ^ n ∂c.ν)) = c.lam * ∫ y, y r ^ n ∂c.ν := by
    rw [← mul_one (C _), ← smul_eq_C_mul, map_smul, h1, smul_eq_mul, mul_one]
  rw [this]
  split_ifs <;> simp

/-- The moments of a coordinate that starts from 0. -/
theorem short_mom {c : JumpDiff σ} {b : σ → MvPolynomial σ ℝ} {a : σ → σ → MvPolynomial σ ℝ} (h : PolyCoef c b a)
    (hν : Mom c.ν) {E0 : MvPolynomial σ ℝ →ₗ[ℝ] ℝ} {E : ℝ → MvPolynomial σ ℝ →ₗ[ℝ] ℝ} (hE : c.Dynkin E0 E) (h1 : E0 1 = 1)
    {r : σ} (h0 : ∀ f, E0 (X r * f) = 0) (n : ℕ) (hn : 1 ≤ n) : E 0 (X r ^ n) = 0 ∧
    HasDerivWithinAt (fun t => E t (X r ^ n)) (levy (E0 (b r)) (E0 (a r r)) c.lam (fun n => ∫ y, y r ^ n ∂c.ν) n)
      (Set.Ici 0) 0 := by
  obtain ⟨s, i⟩ := dynkin_sol h hν hE
  refine ⟨?_, ?_⟩
  · obtain ⟨m, rfl⟩ := Nat.exists_eq_add_of_le hn
    rw [i, pow_add, pow_one, h0]
  · have := s (X r ^ n) 0 le_rfl
    rwa [i, short_gen h hν h1 h0 n hn] at this

/-- The central moments of a coordinate that starts from 0. -/
theorem short_cm {c : JumpDiff σ} {b : σ → MvPolynomial σ ℝ} {a : σ → σ → MvPolynomial σ ℝ} (h : PolyCoef c b a)
    (hν : Mom c.ν) {E0 : MvPolynomial σ ℝ →ₗ[ℝ] ℝ} {E : ℝ → MvPolynomial σ ℝ →ₗ[ℝ] ℝ} (hE : c.Dynkin E0 E) (h1 : E0 1 = 1)
    {r : σ} (h0 : ∀ f, E0 (X r * f) = 0) (n : ℕ) (hn : 2 ≤ n) : E 0 ((X r - C (E 0 (X r))) ^ n) = 0 ∧
    HasDerivWithinAt (fun t => E t ((X r - C (E t (X r))) ^ n))
      (levy (E0 (b r)) (E0 (a r r)) c.lam (fun n => ∫ y, y r ^ n ∂c.ν) n) (Set.Ici 0) 0 := by
  have hx : ∀ t, E t ((X r - C (E t (X r))) ^ n) =
      ∑ i ∈ Finset.range (n + 1), n.choose i * (-(E t (X r))) ^ (n - i) * E t (X r ^ i) := by
    intro t
    rw [sub_eq_add_neg, ← C_neg, add_pow, map_sum]
    refine Finset.sum_congr rfl fun i _ => ?_
    rw [← smul_eq_mul (_ * _) (E t _), ← map_smul, smul_eq_C_mul]
    refine congrArg (E t) ?_
    simp only [map_mul, map_pow, map_natCast]
    ring
  simp only [hx]
  have m := fun i hi => short_mom h hν hE h1 h0 i hi
  obtain ⟨m0, m1⟩ := m 1 le_rfl
  simp only [pow_one] at m0 m1
  have e0 : (E 0) 1 = 1 := by rw [(dynkin_sol h hν hE).2, h1]
  refine ⟨?_, ?_⟩
  · refine Finset.sum_eq_zero fun i hi => ?_
    rcases Nat.eq_zero_or_pos i with rfl | h'
    · rw [m0, neg_zero, zero_pow (by omega)]
      simp
    · rw [(m i h').1, mul_zero]
  · have hd := HasDerivWithinAt.fun_sum (u := Finset.range (n + 1)) (s := Set.Ici (0 : ℝ)) (x := 0)
      (A := fun i t => n.choose i * (-(E t (X r))) ^ (n - i) * E t (X r ^ i))
      (A' := fun i => if i = n then levy (E0 (b r)) (E0 (a r r)) c.lam (fun n => ∫ y, y r ^ n ∂c.ν) n else 0) fun i hi => ?_
    · rw [Finset.sum_ite_eq' , if_pos (by simp)] at hd
      exact hd
    · have hi := Finset.mem_range_succ_iff.1 hi
      rcases eq_or_lt_of_le hi with rfl | hi
      · simpa using (m i (by omega)).2
      · have hp := (m1.neg.pow (n - i)).const_mul (n.choose i : ℝ)
        rcases Nat.eq_zero_or_pos i with rfl | h'
        · have : (fun t => (n.choose 0 : ℝ) * (-(E t (X r))) ^ (n - 0) * E t (X r ^ 0)) = fun t => E t 1 *
              ((n.choose 0 : ℝ) * (-(E t (X r))) ^ (n - 0)) := by
            funext t
            rw [pow_zero, mul_comm]
          have hs := (dynkin_sol h hν hE).1 1 0 le_rfl
          rw [this]
          refine (hs.mul hp).congr_deriv ?_
          simp [m0, hi.ne, show n ≠ 0 by omega, show n - 1 ≠ 0 by omega]
        · have := hp.mul (m i h').2
          refine this.congr_deriv ?_
          simp [m0, (m i h').1, hi.ne, show n - i ≠ 0 by omega]

end Ajd.Gen
