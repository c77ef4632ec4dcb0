import Verif.Lemmas.Heston2
import Verif.Lemmas.CppDyn
import Verif.Lemmas.Svj

/-! Diffusions in which only one coordinate is random, and that one is normal. -/

namespace Ajd.Flat
open MvPolynomial MeasureTheory ProbabilityTheory Real
open scoped NNReal

/-- the moments of the normal law with mean `a` and variance `b` -/
noncomputable def M (a b : ℝ) : ℕ → ℝ
  | 0 => 1
  | 1 => a
  | n + 2 => a * M a b (n + 1) + (n + 1) * b * M a b n

theorem M_succ (a b : ℝ) (n : ℕ) : M a b (n + 1) = a * M a b n + n * b * M a b (n - 1) := by
  cases n with
  | zero => simp [M]
  | succ n => simp [M]

theorem nm_succ (a : ℝ) (v : ℝ≥0) (n : ℕ) :
    CppDyn.nm a v (n + 1) = a * CppDyn.nm a v n + n * v * CppDyn.nm a v (n - 1) := by
  simp only [CppDyn.nm_eq]
  have hd : deriv (fun t : ℝ => exp (a * t + v * t ^ 2 / 2)) =
      (fun t : ℝ => a + v * t) * fun t : ℝ => exp (a * t + v * t ^ 2 / 2) := by
    funext t
    have h : HasDerivAt (fun t : ℝ => a * t + v * t ^ 2 / 2) (a + v * t) t := by
      have h1 := ((hasDerivAt_id t).const_mul a).add ((((hasDerivAt_id t).pow 2).const_mul (v : ℝ)).div_const 2)
      refine h1.congr_deriv ?_
      simp
      ring
    rw [h.exp.deriv, Pi.mul_apply, mul_comm]
  rw [iteratedDeriv_succ', hd, iteratedDeriv_mul (by fun_prop) (by fun_prop)]
  have h0 : ∀ j, iteratedDeriv j (fun t : ℝ => a + v * t) 0 = if j = 0 then a else if j = 1 then (v : ℝ) else 0 := by
    intro j
    match j with
    | 0 => simp
    | 1 =>
      rw [iteratedDeriv_one]
      simp
    | j + 2 =>
      rw [iteratedDeriv_succ', iteratedDeriv_succ']
      have h1 : deriv (fun t : ℝ => a + v * t) = fun _ => (v : ℝ) := by funext t; simp
      have h2 : deriv (fun _ : ℝ => (v : ℝ)) = fun _ => 0 := by funext t; simp
      rw [h1, h2]
      simp [iteratedDeriv_const]
  simp only [h0]
  cases n with
  | zero => simp
  | succ n =>
    rw [Finset.sum_eq_add_of_mem 0 1 (by simp) (by simp) (by simp)]
    · simp
    · intro j _ hj
      rw [if_neg hj.1, if_neg hj.2]
      ring

theorem nm_eq_M (a : ℝ) (v : ℝ≥0) : ∀ n, CppDyn.nm a v n = M a v n
  | 0 => by simp [M, CppDyn.nm_zero]
  | 1 => by rw [nm_succ a v 0, CppDyn.nm_zero]; simp [M]
  | n + 2 => by
    rw [nm_succ, M, nm_eq_M a v (n + 1), Nat.add_sub_cancel, nm_eq_M a v n]
    push_cast
    ring

/-- the moments of the normal law -/
theorem M_int (a b : ℝ) (hb : 0 ≤ b) (n : ℕ) : M a b n = ∫ x, x ^ n ∂gaussianReal a b.toNNReal := by
  rw [← CppDyn.nm, nm_eq_M, Real.coe_toNNReal b hb]

theorem M_deriv (a b : ℝ → ℝ) (a' b' t : ℝ) (s : Set ℝ) (ha : HasDerivWithinAt a a' s t) (hb : HasDerivWithinAt b b' s t) :
    ∀ n, HasDerivWithinAt (fun t => M (a t) (b t) n)
      (a' * (n * M (a t) (b t) (n - 1)) + b' / 2 * (n * (n - 1 : ℕ) * M (a t) (b t) (n - 2))) s t
  | 0 => by simpa [M] using hasDerivWithinAt_const t s (1 : ℝ)
  | 1 => by simpa [M] using ha
  | n + 2 => by
    have h1 := M_deriv a b a' b' t s ha hb (n + 1)
    have h0 := M_deriv a b a' b' t s ha hb n
    have := (ha.mul h1).add ((hb.const_mul ((n : ℝ) + 1)).mul h0)
    refine (this.congr_deriv ?_).congr (fun x _ => by simp [M]) (by simp [M])
    simp only [Nat.add_sub_cancel, show n + 1 - 2 = n - 1 by omega, show n + 2 - 1 = n + 1 by omega]
    rw [M_succ (a t) (b t) n]
    cases n with
    | zero => simp [M]; ring
    | succ n =>
      simp only [Nat.add_sub_cancel, show n + 1 - 2 = n - 1 by omega]
      rw [M_succ (a t) (b t) n]
      cases n with
      | zero => simp [M]; ring
      | succ n =>
        simp only [Nat.add_sub_cancel]
        push_cast
        ring

theorem Lp_gauss (a b : ℝ) (hb : 0 ≤ b) (q : Polynomial ℝ) :
    Srjd.Lp (M a b) q = ∫ x, q.eval x ∂gaussianReal a b.toNNReal := by
  rw [Srjd.Lp_eq, Polynomial.sum_def]
  simp only [Polynomial.eval_eq_sum, Polynomial.sum_def]
  rw [integral_finset_sum _ fun i _ => (CppDyn.gauss_pow a _ i).const_mul _]
  exact Finset.sum_congr rfl fun i _ => by rw [integral_const_mul, M_int a b hb]

theorem M_shift (a b : ℝ) (hb : 0 ≤ b) (n : ℕ) : Srjd.Lp (M a b) ((Polynomial.X - Polynomial.C a) ^ n) =
    ∫ x, x ^ n ∂gaussianReal 0 b.toNNReal := by
  rw [Lp_gauss a b hb]
  have h := gaussianReal_map_sub_const (μ := a) (v := b.toNNReal) a
  rw [sub_self] at h
  rw [← h, integral_map (by fun_prop) (Measurable.aestronglyMeasurable (by fun_prop))]
  simp

variable {σ : Type} [Fintype σ] [DecidableEq σ]

/-- all coordinates but `y` are given -/
noncomputable def sub (y : σ) (w : σ → ℝ) : MvPolynomial σ ℝ →ₐ[ℝ] Polynomial ℝ :=
  aeval fun i => if i = y then Polynomial.X else Polynomial.C (w i)

/-- the expectation if all coordinates but `y` are given, and `y` is normal -/
noncomputable def L (y : σ) (w : σ → ℝ) (a b : ℝ) : MvPolynomial σ ℝ →ₗ[ℝ] ℝ :=
  Srjd.Lp (M a b) ∘ₗ (sub y w).toLinearMap

theorem L_y (y : σ) (w : σ → ℝ) (a b : ℝ) (n : ℕ) : L y w a b (X y ^ n) = M a b n := by
  have := Srjd.Lp_X (M a b) 1 n
  simpa [L, sub] using this

theorem L_mul (y : σ) (w : σ → ℝ) (a b : ℝ) (i : σ) (hi : i ≠ y) (f : MvPolynomial σ ℝ) :
    L y w a b (X i * f) = w i * L y w a b f := by
  rw [L, LinearMap.comp_apply, AlgHom.toLinearMap_apply, map_mul, sub, aeval_X, if_neg hi, Polynomial.C_mul', map_smul]
  rfl

theorem L_deriv (y : σ) (w : ℝ → σ → ℝ) (w' : σ → ℝ) (a b : ℝ → ℝ) (a' b' t : ℝ) (s : Set ℝ)
    (hw : ∀ i, i ≠ y → HasDerivWithinAt (fun t => w t i) (w' i) s t)
    (ha : HasDerivWithinAt a a' s t) (hb : HasDerivWithinAt b b' s t) (f : MvPolynomial σ ℝ) :
    HasDerivWithinAt (fun t => L y (w t) (a t) (b t) f)
      (L y (w t) (a t) (b t) (∑ i, C (if i = y then a' else w' i) * pderiv i f + C (b' / 2) * pderiv y (pderiv y f))) s t := by
  suffices H : ∀ n, HasDerivWithinAt (fun t => L y (w t) (a t) (b t) (f * X y ^ n))
      (L y (w t) (a t) (b t) (∑ i, C (if i = y then a' else w' i) * pderiv i (f * X y ^ n) +
        C (b' / 2) * pderiv y (pderiv y (f * X y ^ n)))) s t by simpa using H 0
  induction f using MvPolynomial.induction_on with
  | C c =>
    intro n
    have h := (M_deriv a b a' b' t s ha hb n).const_mul c
    refine (h.congr_deriv ?_).congr (fun x _ => ?_) ?_
    · rw [Finset.sum_eq_single y]
      · simp only [if_true, Derivation.leibniz, Derivation.leibniz_pow, pderiv_X_self, pderiv_C, smul_eq_mul, mul_zero, add_zero,
          nsmul_eq_mul, mul_one]
        rw [Derivation.map_natCast, mul_zero, add_zero, show n - 1 - 1 = n - 2 by omega,
          show C a' * (C c * ((n : MvPolynomial σ ℝ) * X y ^ (n - 1))) +
          C (b' / 2) * (C c * ((n : MvPolynomial σ ℝ) * (((n - 1 : ℕ) : MvPolynomial σ ℝ) * X y ^ (n - 2)))) =
          C (a' * (c * n)) * X y ^ (n - 1) + C (b' / 2 * (c * (n * (n - 1 : ℕ)))) * X y ^ (n - 2) from ?_]
        · rw [map_add, C_mul', C_mul', map_smul, map_smul, L_y, L_y]
          simp only [smul_eq_mul]
          ring
        · simp only [map_mul, map_natCast]
          ring
      · intro i _ hi
        simp [Derivation.leibniz, Derivation.leibniz_pow, pderiv_X_of_ne (Ne.symm hi)]
      · simp
    · rw [C_mul', map_smul, L_y]; rfl
    · rw [C_mul', map_smul, L_y]; rfl
  | add p q hp hq =>
    intro n
    have h := (hp n).add (hq n)
    refine (h.congr_deriv ?_).congr (fun x _ => ?_) ?_
    · rw [← map_add]
      refine congrArg _ ?_
      simp only [add_mul, map_add, mul_add, Finset.sum_add_distrib]
      ring
    · rw [add_mul, map_add]; rfl
    · rw [add_mul, map_add]; rfl
  | mul_X p i hp =>
    intro n
    by_cases hi : i = y
    · subst hi
      have := hp (n + 1)
      rwa [show p * X i ^ (n + 1) = p * X i * X i ^ n by ring] at this
    · have h := (hw i hi).mul (hp n)
      refine (h.congr_deriv ?_).congr (fun x _ => ?_) ?_
      · rw [← L_mul y _ _ _ i hi]
        have e : w' i * L y (w t) (a t) (b t) (p * X y ^ n) = L y (w t) (a t) (b t) (C (w' i) * (p * X y ^ n)) := by
          rw [C_mul', map_smul]; rfl
        rw [e, ← map_add]
        refine congrArg _ ?_
        have e1 : p * X i * X y ^ n = X i * (p * X y ^ n) := by ring
        have e2 : ∀ j, pderiv j (X i * (p * X y ^ n)) = X i * pderiv j (p * X y ^ n) + (if j = i then p * X y ^ n else 0) := by
          intro j
          rw [Derivation.leibniz, smul_eq_mul, smul_eq_mul]
          split
          · next h => rw [h, pderiv_X_self, mul_one]
          · next h => rw [pderiv_X_of_ne (Ne.symm h), mul_zero]
        have e3 : pderiv y (pderiv y (X i * (p * X y ^ n))) = X i * pderiv y (pderiv y (p * X y ^ n)) := by
          rw [e2, if_neg (Ne.symm hi), add_zero, Derivation.leibniz, smul_eq_mul, smul_eq_mul, pderiv_X_of_ne hi, mul_zero, add_zero]
        rw [e1, e3]
        simp only [e2, mul_add, Finset.sum_add_distrib, mul_ite, mul_zero, Finset.sum_ite_eq', Finset.mem_univ, if_true, if_neg hi]
        rw [Finset.mul_sum]
        simp only [mul_left_comm (X i)]
        ring
      · rw [show p * X i * X y ^ n = X i * (p * X y ^ n) by ring, L_mul y _ _ _ i hi]; rfl
      · rw [show p * X i * X y ^ n = X i * (p * X y ^ n) by ring, L_mul y _ _ _ i hi]; rfl

theorem eval_sub (y : σ) (w : σ → ℝ) (z : ℝ) (f : MvPolynomial σ ℝ) :
    (sub y w f).eval z = eval (Function.update w y z) f := by
  induction f using MvPolynomial.induction_on with
  | C c => simp [sub]
  | add p q hp hq => simp only [map_add, Polynomial.eval_add, hp, hq]
  | mul_X p i hp =>
    rw [map_mul, Polynomial.eval_mul, hp, map_mul, eval_X]
    congr 1
    by_cases h : i = y
    · subst h; simp [sub]
    · simp [sub, h, Function.update_of_ne h]

theorem L_congr (y : σ) (w : σ → ℝ) (a b : ℝ) (f g : MvPolynomial σ ℝ)
    (h : ∀ z, eval (Function.update w y z) f = eval (Function.update w y z) g) : L y w a b f = L y w a b g := by
  have : sub y w f = sub y w g := Polynomial.funext fun z => by rw [eval_sub, eval_sub, h]
  rw [L, LinearMap.comp_apply, LinearMap.comp_apply, AlgHom.toLinearMap_apply, AlgHom.toLinearMap_apply, this]

/-- the expectations of a diffusion in which only `y` is random -/
theorem dynkin_flat {c : JumpDiff σ} {b : σ → MvPolynomial σ ℝ} {a : σ → σ → MvPolynomial σ ℝ} (hc : Gen.PolyCoef c b a)
    (hν : Gen.Mom c.ν) (hl : c.lam = 0) (y : σ) (w w' : ℝ → σ → ℝ) (m m' V V' : ℝ → ℝ)
    (hw : ∀ t, ∀ i, i ≠ y → HasDerivAt (fun t => w t i) (w' t i) t) (hm : ∀ t, HasDerivAt m (m' t) t)
    (hV : ∀ t, HasDerivAt V (V' t) t)
    (hb : ∀ t z i, c.b (Function.update (w t) y z) i = if i = y then m' t else w' t i)
    (ha : ∀ t z i j, c.a (Function.update (w t) y z) i j = if i = y ∧ j = y then V' t else 0) :
    c.Dynkin (L y (w 0) (m 0) (V 0)) fun t => L y (w t) (m t) (V t) := by
  refine Gen.dynkin_of_sol hc hν (E := fun t => L y (w t) (m t) (V t)) fun f t _ => ?_
  refine (L_deriv y w (w' t) m V (m' t) (V' t) t _ (fun i hi => (hw t i hi).hasDerivWithinAt) (hm t).hasDerivWithinAt
    (hV t).hasDerivWithinAt f).congr_deriv (L_congr _ _ _ _ _ _ fun z => ?_)
  rw [Gen.op_apply, hl, zero_smul, add_zero, map_add, map_add, map_sum, map_sum, smul_eval, map_sum]
  simp only [map_mul, eval_C, hc.hb, hc.ha, hb, map_sum, ha]
  congr 1
  rw [Finset.sum_eq_single y, Finset.sum_eq_single y]
  · rw [if_pos ⟨rfl, rfl⟩]; ring
  · intro j _ hj; rw [if_neg fun h => hj h.2, zero_mul]
  · simp
  · intro i _ hi
    exact Finset.sum_eq_zero fun j _ => by rw [if_neg fun h => hi h.1, zero_mul]
  · simp

theorem L_zero (y : σ) (w : σ → ℝ) (hw : w y = 0) : L y w 0 0 = (aeval w : MvPolynomial σ ℝ →ₐ[ℝ] ℝ).toLinearMap := by
  have h : ∀ q : Polynomial ℝ, Srjd.Lp (M 0 0) q = q.eval 0 := by
    intro q
    rw [Lp_gauss 0 0 le_rfl, Real.toNNReal_zero, gaussianReal_zero_var, integral_dirac]
  ext f
  simp only [L, LinearMap.comp_apply, AlgHom.toLinearMap_apply, h, eval_sub]
  rw [← hw, Function.update_eq_self]
  rfl

end Ajd.Flat

namespace Ajd.Sv
open MvPolynomial MeasureTheory ProbabilityTheory Real

/-- the variance at `t`, if it starts from `x` and its volatility is 0 -/
noncomputable def vDet (k θ x t : ℝ) : ℝ := θ + (x - θ) * exp (-k * t)

/-- its integral -/
noncomputable def vInt (k θ x t : ℝ) : ℝ := θ * t + (x - θ) * ((1 - exp (-k * t)) / k)

theorem vDet_deriv (k θ x t : ℝ) : HasDerivAt (vDet k θ x) (k * (θ - vDet k θ x t)) t := by
  have h := ((((hasDerivAt_id t).const_mul (-k)).exp).const_mul (x - θ)).const_add θ
  refine h.congr_deriv ?_
  simp [vDet]
  ring

theorem vInt_deriv (k θ x t : ℝ) (hk : k ≠ 0) : HasDerivAt (vInt k θ x) (vDet k θ x t) t := by
  have h := ((hasDerivAt_id t).const_mul θ).add
    (((((hasDerivAt_id t).const_mul (-k)).exp).const_sub 1 |>.div_const k).const_mul (x - θ))
  refine h.congr_deriv ?_
  simp only [vDet, id]
  field_simp

/-- with `sigma = 0` the return is normal -/
theorem heston_flat (mu k θ ρ x : ℝ) (hk : k ≠ 0) {E : ℝ → MvPolynomial (Fin 2) ℝ →ₗ[ℝ] ℝ}
    (hE : (heston mu k θ 0 ρ).Dynkin (aeval ![x, 0]).toLinearMap E) (t : ℝ) (ht : 0 ≤ t) :
    E t = Flat.L 1 ![vDet k θ x t, 0] (mu * t - vInt k θ x t / 2) (vInt k θ x t) := by
  have h := Flat.dynkin_flat (hcoef mu k θ 0 ρ) (hmom mu k θ 0 ρ) rfl 1 (fun t => ![vDet k θ x t, 0])
    (fun t => ![k * (θ - vDet k θ x t), 0]) (fun t => mu * t - vInt k θ x t / 2) (fun t => mu - vDet k θ x t / 2)
    (vInt k θ x) (vDet k θ x) (fun t i hi => ?_) (fun t => ?_) (fun t => vInt_deriv k θ x t hk) (fun t z i => ?_)
    (fun t z i j => ?_)
  · have e0 : Flat.L 1 ![vDet k θ x 0, 0] (mu * 0 - vInt k θ x 0 / 2) (vInt k θ x 0) =
        (aeval ![x, 0] : MvPolynomial (Fin 2) ℝ →ₐ[ℝ] ℝ).toLinearMap := by
      have h1 : vInt k θ x 0 = 0 := by simp [vInt]
      have h2 : vDet k θ x 0 = x := by simp [vDet]
      rw [h1, h2, mul_zero, zero_div, sub_zero]
      exact Flat.L_zero 1 _ rfl
    rw [e0] at h
    exact Gen.dynkin_unique (hcoef mu k θ 0 ρ) (hmom mu k θ 0 ρ) hE h t ht
  · fin_cases i
    · exact vDet_deriv k θ x t
    · exact absurd rfl hi
  · refine (((hasDerivAt_id t).const_mul mu).sub ((vInt_deriv k θ x t hk).div_const 2)).congr_deriv ?_
    simp
  · fin_cases i <;> simp [heston]
  · fin_cases i <;> fin_cases j <;> simp [heston]

theorem vInt_nonneg {k θ x t : ℝ} (hk : 0 < k) (hθ : 0 ≤ θ) (hx : 0 ≤ x) (ht : 0 ≤ t) : 0 ≤ vInt k θ x t := by
  have h1 : 1 - exp (-k * t) ≤ k * t := by have := add_one_le_exp (-k * t); linarith
  have h2 : 0 ≤ 1 - exp (-k * t) := by
    have : exp (-k * t) ≤ 1 := exp_le_one_iff.2 (by nlinarith)
    linarith
  have h3 : (1 - exp (-k * t)) / k ≤ t := by rw [div_le_iff₀ hk]; linarith
  have h4 : 0 ≤ (1 - exp (-k * t)) / k := div_nonneg h2 hk.le
  rw [vInt]
  nlinarith [mul_nonneg hθ (sub_nonneg.2 h3), mul_nonneg hx h4]

end Ajd.Sv
