import Verif.Lemmas.GenMap
import Verif.Lemmas.SvcjDrv
import Verif.Spec.Itos
import Verif.Spec.Sv2
import Mathlib.MeasureTheory.Integral.IntervalIntegral.FundThmCalculus
import Verif.Spec.Fsv2

section -- Sv2Drv

/-!
The processes from which the variances and the return of the two-factor model are built: `e^{-k1 t} IE_1`, `I_1`,
`e^{-k2 t} IE_2`, `I_2`, `I*`, `e^{-k1 t} (v_1 - θ1)`, `e^{-k2 t} (v_2 - θ2)` and the time; as one diffusion.
-/

namespace Ajd.Gen
open MvPolynomial MeasureTheory Finset

/-- a coordinate without noise -/
theorem op_X {σ : Type} [Fintype σ] [DecidableEq σ] (b : σ → MvPolynomial σ ℝ) (a : σ → σ → MvPolynomial σ ℝ)
    (ν : Measure (σ → ℝ)) (hν : Mom ν) (i : σ) (h1 : ∀ j, a i j = 0) (h2 : ∀ j, a j i = 0) (f : MvPolynomial σ ℝ) :
    op b a 0 ν hν (X i * f) = X i * op b a 0 ν hν f + b i * f := by
  have d1 : ∀ (j : σ) (g : MvPolynomial σ ℝ), pderiv j (X i * g) = X i * pderiv j g + (if j = i then g else 0) := by
    intro j g
    rw [Derivation.leibniz, smul_eq_mul, smul_eq_mul, pderiv_X]
    by_cases h : j = i
    · subst h; simp
    · simp [h, Pi.single_apply, Ne.symm h]
  have hb : ∑ j, b j * pderiv j (X i * f) = X i * ∑ j, b j * pderiv j f + b i * f := by
    simp only [d1, mul_add, mul_ite, mul_zero, sum_add_distrib, Finset.sum_ite_eq', mem_univ, if_true, mul_sum]
    congr 1
    exact sum_congr rfl fun j _ => by ring
  have ha : ∑ j, ∑ l, a j l * pderiv j (pderiv l (X i * f)) = X i * ∑ j, ∑ l, a j l * pderiv j (pderiv l f) := by
    simp only [mul_sum]
    refine sum_congr rfl fun j _ => sum_congr rfl fun l _ => ?_
    rw [d1, map_add, d1]
    by_cases hj : j = i
    · subst hj; rw [h1]; simp
    · by_cases hl : l = i
      · subst hl; rw [h2]; simp
      · simp [hj, hl]; ring
  rw [op_apply, op_apply, hb, ha]
  simp only [smul_eq_C_mul, zero_smul]
  ring

end Ajd.Gen

namespace Ajd.Sv2
open MvPolynomial Finset MeasureTheory SvcjI

noncomputable def V1 (θ1 σ1 : ℝ) : M8 := X 5 + C θ1 + C σ1 * X 0
noncomputable def V2 (θ2 σ2 : ℝ) : M8 := X 6 + C θ2 + C σ2 * X 2

noncomputable def bD (k1 k2 : ℝ) : Fin 8 → M8 :=
  ![C (-k1) * X 0, 0, C (-k2) * X 2, 0, 0, C (-k1) * X 5, C (-k2) * X 6, 1]

def a1 : Fin 8 → ℝ := ![1, 1, 0, 0, 0, 0, 0, 0]
def a2 : Fin 8 → ℝ := ![0, 0, 1, 1, 0, 0, 0, 0]
def a3 : Fin 8 → ℝ := ![0, 0, 0, 0, 1, 0, 0, 0]

noncomputable def aD (θ1 σ1 θ2 σ2 : ℝ) : Fin 8 → Fin 8 → M8 := fun i j =>
  C (a1 i * a1 j + a3 i * a3 j) * V1 θ1 σ1 + C (a2 i * a2 j + a3 i * a3 j) * V2 θ2 σ2

noncomputable def drv (k1 k2 θ1 σ1 θ2 σ2 : ℝ) : JumpDiff (Fin 8) where
  b x i := eval x (bD k1 k2 i)
  a x i j := eval x (aD θ1 σ1 θ2 σ2 i j)
  lam := 0
  ν := Measure.dirac 0

theorem momD : Gen.Mom (Measure.dirac (0 : Fin 8 → ℝ)) := fun f => integrable_dirac (by simp)

theorem V1_deg (θ σ : ℝ) : (V1 θ σ).totalDegree ≤ 1 := by
  unfold V1
  refine (totalDegree_add _ _).trans (max_le ((totalDegree_add _ _).trans (max_le ?_ ?_)) ?_)
  · rw [totalDegree_X]
  · rw [totalDegree_C]; omega
  · refine (totalDegree_mul _ _).trans ?_
    rw [totalDegree_X, totalDegree_C]

theorem V2_deg (θ σ : ℝ) : (V2 θ σ).totalDegree ≤ 1 := by
  unfold V2
  refine (totalDegree_add _ _).trans (max_le ((totalDegree_add _ _).trans (max_le ?_ ?_)) ?_)
  · rw [totalDegree_X]
  · rw [totalDegree_C]; omega
  · refine (totalDegree_mul _ _).trans ?_
    rw [totalDegree_X, totalDegree_C]

theorem drv_coef (k1 k2 θ1 σ1 θ2 σ2 : ℝ) :
    Gen.PolyCoef (drv k1 k2 θ1 σ1 θ2 σ2) (bD k1 k2) (aD θ1 σ1 θ2 σ2) where
  prob := by
    show IsProbabilityMeasure (Measure.dirac _)
    infer_instance
  hb _ _ := rfl
  ha _ _ _ := rfl
  db i := by
    have h : ∀ (c : ℝ) (j : Fin 8), (C c * X j : M8).totalDegree ≤ 1 := fun c j => by
      refine (totalDegree_mul _ _).trans ?_
      rw [totalDegree_X, totalDegree_C]
    have h0 : (0 : M8).totalDegree ≤ 1 := by rw [totalDegree_zero]; omega
    have h1 : (1 : M8).totalDegree ≤ 1 := by rw [totalDegree_one]; omega
    fin_cases i
    · exact h _ _
    · exact h0
    · exact h _ _
    · exact h0
    · exact h0
    · exact h _ _
    · exact h _ _
    · exact h1
  da i j := by
    refine (totalDegree_add _ _).trans (max_le ?_ ?_)
    · refine (totalDegree_mul _ _).trans ?_
      rw [totalDegree_C]
      have := V1_deg θ1 σ1
      omega
    · refine (totalDegree_mul _ _).trans ?_
      rw [totalDegree_C]
      have := V2_deg θ2 σ2
      omega

/-- a product of powers of the five integrals -/
noncomputable def fn (n1 n2 n3 n4 n5 : ℕ) : M8 := X 0 ^ n1 * X 1 ^ n2 * X 2 ^ n3 * X 3 ^ n4 * X 4 ^ n5

theorem pd0 (n1 n2 n3 n4 n5 : ℕ) : pderiv 0 (fn n1 n2 n3 n4 n5) = (n1 : M8) * fn (n1 - 1) n2 n3 n4 n5 := by
  simp [fn, Derivation.leibniz, pd_pow]; ring
theorem pd1 (n1 n2 n3 n4 n5 : ℕ) : pderiv 1 (fn n1 n2 n3 n4 n5) = (n2 : M8) * fn n1 (n2 - 1) n3 n4 n5 := by
  simp [fn, Derivation.leibniz, pd_pow]; ring
theorem pd2 (n1 n2 n3 n4 n5 : ℕ) : pderiv 2 (fn n1 n2 n3 n4 n5) = (n3 : M8) * fn n1 n2 (n3 - 1) n4 n5 := by
  simp [fn, Derivation.leibniz, pd_pow]; ring
theorem pd3 (n1 n2 n3 n4 n5 : ℕ) : pderiv 3 (fn n1 n2 n3 n4 n5) = (n4 : M8) * fn n1 n2 n3 (n4 - 1) n5 := by
  simp [fn, Derivation.leibniz, pd_pow]; ring
theorem pd4 (n1 n2 n3 n4 n5 : ℕ) : pderiv 4 (fn n1 n2 n3 n4 n5) = (n5 : M8) * fn n1 n2 n3 n4 (n5 - 1) := by
  simp [fn, Derivation.leibniz, pd_pow]; ring
theorem pd5 (n1 n2 n3 n4 n5 : ℕ) : pderiv 5 (fn n1 n2 n3 n4 n5) = 0 := by
  simp [fn, Derivation.leibniz, pd_pow]
theorem pd6 (n1 n2 n3 n4 n5 : ℕ) : pderiv 6 (fn n1 n2 n3 n4 n5) = 0 := by
  simp [fn, Derivation.leibniz, pd_pow]
theorem pd7 (n1 n2 n3 n4 n5 : ℕ) : pderiv 7 (fn n1 n2 n3 n4 n5) = 0 := by
  simp [fn, Derivation.leibniz, pd_pow]

theorem X0_fn (n1 n2 n3 n4 n5 : ℕ) : (n1 : M8) * (X 0 * fn (n1 - 1) n2 n3 n4 n5) = (n1 : M8) * fn n1 n2 n3 n4 n5 := by
  calc _ = ((n1 : M8) * (X 0 * X 0 ^ (n1 - 1))) * (X 1 ^ n2 * X 2 ^ n3 * X 3 ^ n4 * X 4 ^ n5) := by
        unfold fn; ring
    _ = _ := by rw [mulX]; unfold fn; ring

theorem X2_fn (n1 n2 n3 n4 n5 : ℕ) : (n3 : M8) * (X 2 * fn n1 n2 (n3 - 1) n4 n5) = (n3 : M8) * fn n1 n2 n3 n4 n5 := by
  calc _ = ((n3 : M8) * (X 2 * X 2 ^ (n3 - 1))) * (X 0 ^ n1 * X 1 ^ n2 * X 3 ^ n4 * X 4 ^ n5) := by
        unfold fn; ring
    _ = _ := by rw [mulX]; unfold fn; ring

theorem drift_fn (k1 k2 : ℝ) (n1 n2 n3 n4 n5 : ℕ) : ∑ i, bD k1 k2 i * pderiv i (fn n1 n2 n3 n4 n5) =
    C (-(n1 * k1 + n3 * k2)) * fn n1 n2 n3 n4 n5 := by
  rw [Fin.sum_univ_eight]
  have h0 : bD k1 k2 0 = C (-k1) * X 0 := rfl
  have h1 : bD k1 k2 1 = 0 := rfl
  have h2 : bD k1 k2 2 = C (-k2) * X 2 := rfl
  have h3 : bD k1 k2 3 = 0 := rfl
  have h4 : bD k1 k2 4 = 0 := rfl
  rw [h0, h1, h2, h3, h4, pd0, pd2, pd5, pd6, pd7]
  have e1 := X0_fn n1 n2 n3 n4 n5
  have e2 := X2_fn n1 n2 n3 n4 n5
  have e3 : (C (-(n1 * k1 + n3 * k2)) : M8) = C (-k1) * (n1 : M8) + C (-k2) * (n3 : M8) := by
    simp only [map_neg, map_add, map_mul, map_natCast]; ring
  rw [e3]
  linear_combination C (-k1) * e1 + C (-k2) * e2

theorem diff_fn (θ1 σ1 θ2 σ2 : ℝ) (n1 n2 n3 n4 n5 : ℕ) :
    (1 / 2 : ℝ) • ∑ i, ∑ j, aD θ1 σ1 θ2 σ2 i j * pderiv i (pderiv j (fn n1 n2 n3 n4 n5)) =
      C ((n1 : ℝ) * (n1 - 1) / 2) * (V1 θ1 σ1 * fn (n1 - 2) n2 n3 n4 n5) +
      C ((n2 : ℝ) * (n2 - 1) / 2) * (V1 θ1 σ1 * fn n1 (n2 - 2) n3 n4 n5) +
      C ((n1 : ℝ) * n2) * (V1 θ1 σ1 * fn (n1 - 1) (n2 - 1) n3 n4 n5) +
      C ((n3 : ℝ) * (n3 - 1) / 2) * (V2 θ2 σ2 * fn n1 n2 (n3 - 2) n4 n5) +
      C ((n4 : ℝ) * (n4 - 1) / 2) * (V2 θ2 σ2 * fn n1 n2 n3 (n4 - 2) n5) +
      C ((n3 : ℝ) * n4) * (V2 θ2 σ2 * fn n1 n2 (n3 - 1) (n4 - 1) n5) +
      C ((n5 : ℝ) * (n5 - 1) / 2) * (V1 θ1 σ1 * fn n1 n2 n3 n4 (n5 - 2) + V2 θ2 σ2 * fn n1 n2 n3 n4 (n5 - 2)) := by
  have c1 : ∀ n : ℕ, (C ((n : ℝ) * (n - 1) / 2) : M8) = C (1 / 2) * ((n : M8) * ((n - 1 : ℕ) : M8)) := fun n => by
    rw [← cast_pred, show ((n : ℝ) * ((n - 1 : ℕ) : ℝ) / 2) = 1 / 2 * ((n : ℝ) * ((n - 1 : ℕ) : ℝ)) by ring]
    simp only [map_mul, map_natCast]
  have c2 : ∀ n m : ℕ, (C ((n : ℝ) * m) : M8) = C (1 / 2) * (2 * ((n : M8) * (m : M8))) := fun n m => by
    have : (C (1 / 2) * 2 : M8) = 1 := by
      rw [show (2 : M8) = C 2 from (map_ofNat C 2).symm, ← C_mul]; norm_num
    rw [← mul_assoc, this]; simp
  have hz : ∀ i : Fin 8, 5 ≤ i.val → ∀ j, pderiv i (pderiv j (fn n1 n2 n3 n4 n5)) = 0 := by
    intro i hi j
    have h : ∀ a b c d e, pderiv i (fn a b c d e) = 0 := by
      intro a b c d e
      have : i = 5 ∨ i = 6 ∨ i = 7 := by omega
      rcases this with rfl | rfl | rfl
      · exact pd5 ..
      · exact pd6 ..
      · exact pd7 ..
    fin_cases j
    · show pderiv i (pderiv 0 _) = 0
      rw [pd0, pd_nat, h, mul_zero]
    · show pderiv i (pderiv 1 _) = 0
      rw [pd1, pd_nat, h, mul_zero]
    · show pderiv i (pderiv 2 _) = 0
      rw [pd2, pd_nat, h, mul_zero]
    · show pderiv i (pderiv 3 _) = 0
      rw [pd3, pd_nat, h, mul_zero]
    · show pderiv i (pderiv 4 _) = 0
      rw [pd4, pd_nat, h, mul_zero]
    · show pderiv i (pderiv 5 _) = 0
      rw [pd5, map_zero]
    · show pderiv i (pderiv 6 _) = 0
      rw [pd6, map_zero]
    · show pderiv i (pderiv 7 _) = 0
      rw [pd7, map_zero]
  have hA : ∀ i j, aD θ1 σ1 θ2 σ2 i j = C (a1 i * a1 j + a3 i * a3 j) * V1 θ1 σ1 +
      C (a2 i * a2 j + a3 i * a3 j) * V2 θ2 σ2 := fun _ _ => rfl
  simp only [Fin.sum_univ_eight, hz 5 (by decide), hz 6 (by decide), hz 7 (by decide), mul_zero, add_zero, pd5, pd6, pd7,
    map_zero, pd0, pd1, pd2, pd3, pd4, pd_nat, Nat.sub_sub, one_add_one_eq_two, smul_eq_C_mul, c1, c2, hA]
  simp only [a1, a2, a3, Matrix.cons_val, mul_zero, zero_mul, mul_one, add_zero, zero_add, C_0, C_1, one_mul]
  ring

/-! ### the moments -/

section
variable {k1 k2 θ1 σ1 θ2 σ2 x1 x2 : ℝ} {D : ℝ → M8 →ₗ[ℝ] ℝ}

def start (x1 x2 θ1 θ2 : ℝ) : Fin 8 → ℝ := ![0, 0, 0, 0, 0, x1 - θ1, x2 - θ2, 0]

noncomputable def E0D (x1 x2 θ1 θ2 : ℝ) : M8 →ₗ[ℝ] ℝ := (aeval (start x1 x2 θ1 θ2)).toLinearMap

theorem E0D_apply (f : M8) : E0D x1 x2 θ1 θ2 f = eval (start x1 x2 θ1 θ2) f := by
  rw [E0D, AlgHom.toLinearMap_apply, aeval_eq_eval]

variable (hD : (drv k1 k2 θ1 σ1 θ2 σ2).Dynkin (E0D x1 x2 θ1 θ2) D)
include hD

theorem drv_sol : Dyn.Sol (Gen.op (bD k1 k2) (aD θ1 σ1 θ2 σ2) 0 (Measure.dirac 0) momD) D ∧ D 0 = E0D x1 x2 θ1 θ2 :=
  Gen.dynkin_sol (drv_coef k1 k2 θ1 σ1 θ2 σ2) momD hD

omit hD in
theorem drv_lf : Dyn.LF (Gen.op (bD k1 k2) (aD θ1 σ1 θ2 σ2) 0 (Measure.dirac 0) momD) :=
  Gen.op_lf _ _ _ _ _ (drv_coef k1 k2 θ1 σ1 θ2 σ2).db (drv_coef k1 k2 θ1 σ1 θ2 σ2).da

omit hD in
theorem aD_zero (i j : Fin 8) (h : 5 ≤ i.val ∨ 5 ≤ j.val) : aD θ1 σ1 θ2 σ2 i j = 0 := by
  have h1 : ∀ i : Fin 8, 5 ≤ i.val → a1 i = 0 ∧ a2 i = 0 ∧ a3 i = 0 := by
    intro i hi
    have : i = 5 ∨ i = 6 ∨ i = 7 := by omega
    rcases this with rfl | rfl | rfl <;> simp [a1, a2, a3]
  rcases h with h | h
  · obtain ⟨e1, e2, e3⟩ := h1 i h
    rw [aD, e1, e2, e3]; simp
  · obtain ⟨e1, e2, e3⟩ := h1 j h
    rw [aD, e1, e2, e3]; simp

/-- a coordinate that decays with rate `k` -/
theorem E_decay (i : Fin 8) (hi : 5 ≤ i.val) (k : ℝ) (hb : bD k1 k2 i = C (-k) * X i) (t : ℝ) (ht : 0 ≤ t) (f : M8) :
    D t (X i * f) = Real.exp (-k * t) * start x1 x2 θ1 θ2 i * D t f := by
  obtain ⟨hs, h0⟩ := drv_sol hD
  let L : ℝ → M8 →ₗ[ℝ] ℝ := fun t =>
    Real.exp (k * t) • (D t ∘ₗ LinearMap.mulLeft ℝ (X i)) - (start x1 x2 θ1 θ2 i) • D t
  have hL : Dyn.Sol (Gen.op (bD k1 k2) (aD θ1 σ1 θ2 σ2) 0 (Measure.dirac 0) momD) L := by
    intro f t ht
    have h1 : HasDerivWithinAt (fun t => Real.exp (k * t)) (Real.exp (k * t) * k) (Set.Ici 0) t := by
      have : HasDerivAt (fun t : ℝ => k * t) k t := by simpa using (hasDerivAt_id t).const_mul k
      exact this.exp.hasDerivWithinAt
    refine ((h1.mul (hs (X i * f) t ht)).sub ((hs f t ht).const_mul (start x1 x2 θ1 θ2 i))).congr_deriv ?_
    rw [Gen.op_X _ _ _ _ i (fun j => aD_zero i j (Or.inl hi)) (fun j => aD_zero j i (Or.inr hi)),
      hb, mul_assoc (C (-k)), ← smul_eq_C_mul (X i * f)]
    simp only [L, map_add, map_smul, LinearMap.sub_apply, LinearMap.smul_apply, LinearMap.comp_apply,
      LinearMap.mulLeft_apply, smul_eq_mul]
    ring
  have hL0 : L 0 = 0 := by
    refine LinearMap.ext fun f => ?_
    simp only [L, h0, LinearMap.sub_apply, LinearMap.smul_apply, LinearMap.comp_apply, LinearMap.mulLeft_apply,
      E0D_apply, map_mul, eval_X, smul_eq_mul, mul_zero, Real.exp_zero, one_mul, LinearMap.zero_apply, sub_self]
  have := congrArg (fun l : M8 →ₗ[ℝ] ℝ => l f) (Dyn.sol_zero drv_lf hL hL0 t ht)
  simp only [L, LinearMap.sub_apply, LinearMap.smul_apply, LinearMap.comp_apply, LinearMap.mulLeft_apply,
    smul_eq_mul, LinearMap.zero_apply] at this
  have hx : Real.exp (-k * t) * Real.exp (k * t) = 1 := by rw [← Real.exp_add]; simp
  linear_combination Real.exp (-k * t) * this - D t (X i * f) * hx

theorem E_X5 (t : ℝ) (ht : 0 ≤ t) (f : M8) : D t (X 5 * f) = Real.exp (-k1 * t) * (x1 - θ1) * D t f :=
  E_decay hD 5 (by decide) k1 rfl t ht f

theorem E_X6 (t : ℝ) (ht : 0 ≤ t) (f : M8) : D t (X 6 * f) = Real.exp (-k2 * t) * (x2 - θ2) * D t f :=
  E_decay hD 6 (by decide) k2 rfl t ht f

theorem E_X7 (t : ℝ) (ht : 0 ≤ t) (f : M8) : D t (X 7 * f) = t * D t f := by
  obtain ⟨hs, h0⟩ := drv_sol hD
  let L : ℝ → M8 →ₗ[ℝ] ℝ := fun t => D t ∘ₗ LinearMap.mulLeft ℝ (X 7) - t • D t
  have hL : Dyn.Sol (Gen.op (bD k1 k2) (aD θ1 σ1 θ2 σ2) 0 (Measure.dirac 0) momD) L := by
    intro f t ht
    refine ((hs (X 7 * f) t ht).sub ((hasDerivWithinAt_id t _).mul (hs f t ht))).congr_deriv ?_
    rw [Gen.op_X _ _ _ _ 7 (fun j => aD_zero 7 j (Or.inl (by decide))) (fun j => aD_zero j 7 (Or.inr (by decide)))]
    have hb : bD k1 k2 7 = 1 := rfl
    rw [hb, one_mul]
    simp only [L, map_add, LinearMap.sub_apply, LinearMap.smul_apply, LinearMap.comp_apply,
      LinearMap.mulLeft_apply, smul_eq_mul, id]
    ring
  have hL0 : L 0 = 0 := by
    refine LinearMap.ext fun f => ?_
    simp only [L, h0, LinearMap.sub_apply, LinearMap.smul_apply, LinearMap.comp_apply, LinearMap.mulLeft_apply,
      E0D_apply, map_mul, eval_X, smul_eq_mul, LinearMap.zero_apply]
    simp [start]
  have := congrArg (fun l : M8 →ₗ[ℝ] ℝ => l f) (Dyn.sol_zero drv_lf hL hL0 t ht)
  simp only [L, LinearMap.sub_apply, LinearMap.smul_apply, LinearMap.comp_apply, LinearMap.mulLeft_apply,
    smul_eq_mul, LinearMap.zero_apply] at this
  linarith

end

end Ajd.Sv2

end -- Sv2Drv

section -- Sv2Ito

/-! The two-factor Itô moment equation, from the equations of the variances. -/

namespace Ajd.Sv2
open MvPolynomial Finset MeasureTheory SvcjI

theorem L_C {σ : Type} (E : MvPolynomial σ ℝ →ₗ[ℝ] ℝ) (a : ℝ) (f : MvPolynomial σ ℝ) : E (C a * f) = a * E f := by
  rw [← smul_eq_C_mul, map_smul, smul_eq_mul]

section
variable {k1 k2 θ1 σ1 θ2 σ2 x1 x2 : ℝ} {D : ℝ → M8 →ₗ[ℝ] ℝ}

/-- the joint moments of the five integrals at the time `t`, for an interval from `u` -/
noncomputable def famM (k1 k2 u : ℝ) (D : ℝ → M8 →ₗ[ℝ] ℝ) : Itos.Fam := fun a b c d e t =>
  Real.exp ((a * k1 + c * k2) * t) * D (t - u) (fn a b c d e)

/-- `∫_u^t e^{r s} E[g_{s-u}] ds` -/
noncomputable def J (D : ℝ → M8 →ₗ[ℝ] ℝ) (u r t : ℝ) (g : M8) : ℝ :=
  ∫ s in u..t, Real.exp (r * s) * D (s - u) g

variable (hD : (drv k1 k2 θ1 σ1 θ2 σ2).Dynkin (E0D x1 x2 θ1 θ2) D)
include hD

theorem D_cont (u : ℝ) (g : M8) : ContinuousOn (fun s => D (s - u) g) (Set.Ici u) :=
  (hD.cont g).comp (by fun_prop) fun s hs => by
    show 0 ≤ s - u
    have : u ≤ s := hs
    linarith

theorem D_int (u r t : ℝ) (ht : u ≤ t) (g : M8) :
    IntervalIntegrable (fun s => Real.exp (r * s) * D (s - u) g) volume u t := by
  apply ContinuousOn.intervalIntegrable
  rw [Set.uIcc_of_le ht]
  exact ContinuousOn.mul (by fun_prop) ((D_cont hD u g).mono Set.Icc_subset_Ici_self)

theorem J_add (u r t : ℝ) (ht : u ≤ t) (f g : M8) : J D u r t (f + g) = J D u r t f + J D u r t g := by
  unfold J
  rw [← intervalIntegral.integral_add (D_int hD u r t ht f) (D_int hD u r t ht g)]
  simp only [map_add, mul_add]

omit hD in
theorem J_C (u r t c : ℝ) (g : M8) : J D u r t (C c * g) = c * J D u r t g := by
  unfold J
  rw [← intervalIntegral.integral_const_mul]
  refine intervalIntegral.integral_congr fun s _ => ?_
  simp only [L_C]
  ring

theorem quad1_eq (u : ℝ) (n : ℤ) (a b c d e : ℕ) (t : ℝ) (ht : u ≤ t) :
    Itos.quad1 ⟨k1, k2, u, x1, θ1, σ1, x2, θ2, σ2⟩ n (famM k1 k2 u D a b c d e) (famM k1 k2 u D (a + 1) b c d e) t =
      J D u ((n + 1 + a) * k1 + c * k2) t (V1 θ1 σ1 * fn a b c d e) := by
  have hi : ∀ (r : ℝ) (a' : ℕ), IntervalIntegrable (fun s => Real.exp (r * s) * famM k1 k2 u D a' b c d e s) volume u t := by
    intro r a'
    apply ContinuousOn.intervalIntegrable
    rw [Set.uIcc_of_le ht]
    exact ContinuousOn.mul (by fun_prop) (ContinuousOn.mul (by fun_prop)
      ((D_cont hD u _).mono Set.Icc_subset_Ici_self))
  unfold Itos.quad1 J
  dsimp only
  rw [← intervalIntegral.integral_const_mul, ← intervalIntegral.integral_const_mul,
    ← intervalIntegral.integral_const_mul, ← intervalIntegral.integral_add ((hi _ _).const_mul _)
    ((hi _ _).const_mul _), ← intervalIntegral.integral_add (((hi _ _).const_mul _).add
    ((hi _ _).const_mul _)) ((hi _ _).const_mul _)]
  refine intervalIntegral.integral_congr fun s hs => ?_
  rw [Set.uIcc_of_le ht] at hs
  have hX : X 0 * fn a b c d e = fn (a + 1) b c d e := by unfold fn; ring
  have hV : V1 θ1 σ1 * fn a b c d e = X 5 * fn a b c d e + C θ1 * fn a b c d e + C σ1 * fn (a + 1) b c d e := by
    rw [← hX, V1]; ring
  rw [hV, map_add, map_add, L_C, L_C,
    E_X5 hD (s - u) (by linarith [hs.1])]
  unfold famM
  have e1 : Real.exp (k1 * u) * (Real.exp (n * k1 * s) * Real.exp ((a * k1 + c * k2) * s)) =
      Real.exp (((n + 1 + a) * k1 + c * k2) * s) * Real.exp (-k1 * (s - u)) := by
    rw [← Real.exp_add, ← Real.exp_add, ← Real.exp_add]; congr 1; ring
  have e2 : Real.exp ((n + 1 : ℤ) * k1 * s) * Real.exp ((a * k1 + c * k2) * s) =
      Real.exp (((n + 1 + a) * k1 + c * k2) * s) := by
    rw [← Real.exp_add]; congr 1; push_cast; ring
  have e3 : Real.exp (n * k1 * s) * Real.exp (((a + 1 : ℕ) * k1 + c * k2) * s) =
      Real.exp (((n + 1 + a) * k1 + c * k2) * s) := by
    rw [← Real.exp_add]; congr 1; push_cast; ring
  linear_combination (x1 - θ1) * D (s - u) (fn a b c d e) * e1 + θ1 * D (s - u) (fn a b c d e) * e2 +
    σ1 * D (s - u) (fn (a + 1) b c d e) * e3

theorem quad2_eq (u : ℝ) (n : ℤ) (a b c d e : ℕ) (t : ℝ) (ht : u ≤ t) :
    Itos.quad2 ⟨k1, k2, u, x1, θ1, σ1, x2, θ2, σ2⟩ n (famM k1 k2 u D a b c d e) (famM k1 k2 u D a b (c + 1) d e) t =
      J D u (a * k1 + (n + 1 + c) * k2) t (V2 θ2 σ2 * fn a b c d e) := by
  have hi : ∀ (r : ℝ) (c' : ℕ), IntervalIntegrable (fun s => Real.exp (r * s) * famM k1 k2 u D a b c' d e s) volume u t := by
    intro r c'
    apply ContinuousOn.intervalIntegrable
    rw [Set.uIcc_of_le ht]
    exact ContinuousOn.mul (by fun_prop) (ContinuousOn.mul (by fun_prop)
      ((D_cont hD u _).mono Set.Icc_subset_Ici_self))
  unfold Itos.quad2 J
  dsimp only
  rw [← intervalIntegral.integral_const_mul, ← intervalIntegral.integral_const_mul,
    ← intervalIntegral.integral_const_mul, ← intervalIntegral.integral_add ((hi _ _).const_mul _)
    ((hi _ _).const_mul _), ← intervalIntegral.integral_add (((hi _ _).const_mul _).add
    ((hi _ _).const_mul _)) ((hi _ _).const_mul _)]
  refine intervalIntegral.integral_congr fun s hs => ?_
  rw [Set.uIcc_of_le ht] at hs
  have hX : X 2 * fn a b c d e = fn a b (c + 1) d e := by unfold fn; ring
  have hV : V2 θ2 σ2 * fn a b c d e = X 6 * fn a b c d e + C θ2 * fn a b c d e + C σ2 * fn a b (c + 1) d e := by
    rw [← hX, V2]; ring
  rw [hV, map_add, map_add, L_C, L_C,
    E_X6 hD (s - u) (by linarith [hs.1])]
  unfold famM
  have e1 : Real.exp (k2 * u) * (Real.exp (n * k2 * s) * Real.exp ((a * k1 + c * k2) * s)) =
      Real.exp ((a * k1 + (n + 1 + c) * k2) * s) * Real.exp (-k2 * (s - u)) := by
    rw [← Real.exp_add, ← Real.exp_add, ← Real.exp_add]; congr 1; ring
  have e2 : Real.exp ((n + 1 : ℤ) * k2 * s) * Real.exp ((a * k1 + c * k2) * s) =
      Real.exp ((a * k1 + (n + 1 + c) * k2) * s) := by
    rw [← Real.exp_add]; congr 1; push_cast; ring
  have e3 : Real.exp (n * k2 * s) * Real.exp ((a * k1 + (c + 1 : ℕ) * k2) * s) =
      Real.exp ((a * k1 + (n + 1 + c) * k2) * s) := by
    rw [← Real.exp_add]; congr 1; push_cast; ring
  linear_combination (x2 - θ2) * D (s - u) (fn a b c d e) * e1 + θ2 * D (s - u) (fn a b c d e) * e2 +
    σ2 * D (s - u) (fn a b (c + 1) d e) * e3

/-- the moments as integrals -/
theorem famM_int (u : ℝ) (a b c d e : ℕ) (t : ℝ) (ht : u ≤ t) : famM k1 k2 u D a b c d e t =
    (if a + b + c + d + e = 0 then 1 else 0) + J D u (a * k1 + c * k2) t
      ((1 / 2 : ℝ) • ∑ i, ∑ j, aD θ1 σ1 θ2 σ2 i j * pderiv i (pderiv j (fn a b c d e))) := by
  obtain ⟨hs, h0⟩ := drv_sol hD
  set G := (1 / 2 : ℝ) • ∑ i, ∑ j, aD θ1 σ1 θ2 σ2 i j * pderiv i (pderiv j (fn a b c d e)) with hG
  have hop : Gen.op (bD k1 k2) (aD θ1 σ1 θ2 σ2) 0 (Measure.dirac 0) momD (fn a b c d e) =
      C (-(a * k1 + c * k2)) * fn a b c d e + G := by
    rw [Gen.op_apply, drift_fn, hG]
    simp
  have hder : ∀ s, u ≤ s → HasDerivWithinAt (famM k1 k2 u D a b c d e)
      (Real.exp ((a * k1 + c * k2) * s) * D (s - u) G) (Set.Ici u) s := by
    intro s hs'
    have h1 : HasDerivWithinAt (fun t => Real.exp ((a * k1 + c * k2) * t))
        (Real.exp ((a * k1 + c * k2) * s) * (a * k1 + c * k2)) (Set.Ici u) s := by
      have : HasDerivAt (fun t : ℝ => (a * k1 + c * k2) * t) (a * k1 + c * k2) s := by
        simpa using (hasDerivAt_id s).const_mul (a * k1 + c * k2 : ℝ)
      exact this.exp.hasDerivWithinAt
    have h2 : HasDerivWithinAt (fun t => D (t - u) (fn a b c d e))
        (D (s - u) (Gen.op (bD k1 k2) (aD θ1 σ1 θ2 σ2) 0 (Measure.dirac 0) momD (fn a b c d e))) (Set.Ici u) s := by
      have h3 := hs (fn a b c d e) (s - u) (by linarith)
      have h4 : HasDerivWithinAt (fun t : ℝ => t - u) 1 (Set.Ici u) s := ((hasDerivAt_id s).sub_const u).hasDerivWithinAt
      have := HasDerivWithinAt.comp s h3 h4 (fun t ht => by
        show 0 ≤ t - u
        have : u ≤ t := ht
        linarith)
      rw [mul_one] at this
      exact this
    refine (h1.mul h2).congr_deriv ?_
    rw [hop, map_add, L_C]
    ring
  have := intervalIntegral.integral_eq_sub_of_hasDeriv_right (a := u) (b := t) (f := famM k1 k2 u D a b c d e)
    (f' := fun s => Real.exp ((a * k1 + c * k2) * s) * D (s - u) G) (by
      rw [Set.uIcc_of_le ht]
      exact fun s hs' => ((hder s hs'.1).continuousWithinAt).mono Set.Icc_subset_Ici_self) (fun s hs' => by
      rw [min_eq_left ht, max_eq_right ht] at hs'
      exact (hder s hs'.1.le).mono (fun r hr => le_trans hs'.1.le (le_of_lt hr)))
    (D_int hD u _ t ht G)
  rw [J, this]
  have hi : famM k1 k2 u D a b c d e u = if a + b + c + d + e = 0 then 1 else 0 := by
    rw [famM, sub_self, h0, E0D_apply]
    split_ifs with h
    · have : a = 0 ∧ b = 0 ∧ c = 0 ∧ d = 0 ∧ e = 0 := by omega
      obtain ⟨rfl, rfl, rfl, rfl, rfl⟩ := this
      simp [fn]
    · have : (0 : ℝ) ^ a * 0 ^ b * 0 ^ c * 0 ^ d * 0 ^ e = 0 := by
        rw [← pow_add, ← pow_add, ← pow_add, ← pow_add, zero_pow h]
      simp only [fn, map_mul, map_pow, eval_X, start, Matrix.cons_val]
      rw [this, mul_zero]
  rw [hi]
  ring

/-- The equation `ito-moment-m4m5m6m7m8`. -/
theorem itoRec2 (u : ℝ) : Itos.ItoRec2 ⟨k1, k2, u, x1, θ1, σ1, x2, θ2, σ2⟩ (famM k1 k2 u D) where
  zero t ht := by
    rw [famM_int hD u 0 0 0 0 0 t ht, diff_fn]
    simp [J]
  step n4 n5 n6 n7 n8 h0 t ht := by
    have t4 : Itos.term4 ⟨k1, k2, u, x1, θ1, σ1, x2, θ2, σ2⟩ (famM k1 k2 u D) n4 n5 n6 n7 n8 t =
        (n4 : ℝ) * (n4 - 1) / 2 * J D u (n4 * k1 + n6 * k2) t (V1 θ1 σ1 * fn (n4 - 2) n5 n6 n7 n8) := by
      rw [Itos.term4]
      rcases Nat.lt_or_ge n4 2 with h | h
      · interval_cases n4 <;> simp
      · obtain ⟨m, rfl⟩ : ∃ m, n4 = m + 2 := ⟨n4 - 2, by omega⟩
        rw [show m + 2 - 2 = m by omega, show m + 2 - 1 = m + 1 by omega, quad1_eq hD u _ _ _ _ _ _ t ht]
        congr 2; push_cast; ring
    have t5 : Itos.term5 ⟨k1, k2, u, x1, θ1, σ1, x2, θ2, σ2⟩ (famM k1 k2 u D) n4 n5 n6 n7 n8 t =
        (n5 : ℝ) * (n5 - 1) / 2 * J D u (n4 * k1 + n6 * k2) t (V1 θ1 σ1 * fn n4 (n5 - 2) n6 n7 n8) := by
      rw [Itos.term5, quad1_eq hD u _ _ _ _ _ _ t ht]
      congr 2; push_cast; ring
    have t45 : Itos.term45 ⟨k1, k2, u, x1, θ1, σ1, x2, θ2, σ2⟩ (famM k1 k2 u D) n4 n5 n6 n7 n8 t =
        (n4 : ℝ) * n5 * J D u (n4 * k1 + n6 * k2) t (V1 θ1 σ1 * fn (n4 - 1) (n5 - 1) n6 n7 n8) := by
      rw [Itos.term45]
      rcases Nat.eq_zero_or_pos n4 with h | h
      · subst h; simp
      · obtain ⟨m, rfl⟩ : ∃ m, n4 = m + 1 := ⟨n4 - 1, by omega⟩
        rw [show m + 1 - 1 = m by omega, quad1_eq hD u _ _ _ _ _ _ t ht]
        congr 2; push_cast; ring
    have t6 : Itos.term6 ⟨k1, k2, u, x1, θ1, σ1, x2, θ2, σ2⟩ (famM k1 k2 u D) n4 n5 n6 n7 n8 t =
        (n6 : ℝ) * (n6 - 1) / 2 * J D u (n4 * k1 + n6 * k2) t (V2 θ2 σ2 * fn n4 n5 (n6 - 2) n7 n8) := by
      rw [Itos.term6]
      rcases Nat.lt_or_ge n6 2 with h | h
      · interval_cases n6 <;> simp
      · obtain ⟨m, rfl⟩ : ∃ m, n6 = m + 2 := ⟨n6 - 2, by omega⟩
        rw [show m + 2 - 2 = m by omega, show m + 2 - 1 = m + 1 by omega, quad2_eq hD u _ _ _ _ _ _ t ht]
        congr 2; push_cast; ring
    have t7 : Itos.term7 ⟨k1, k2, u, x1, θ1, σ1, x2, θ2, σ2⟩ (famM k1 k2 u D) n4 n5 n6 n7 n8 t =
        (n7 : ℝ) * (n7 - 1) / 2 * J D u (n4 * k1 + n6 * k2) t (V2 θ2 σ2 * fn n4 n5 n6 (n7 - 2) n8) := by
      rw [Itos.term7, quad2_eq hD u _ _ _ _ _ _ t ht]
      congr 2; push_cast; ring
    have t67 : Itos.term67 ⟨k1, k2, u, x1, θ1, σ1, x2, θ2, σ2⟩ (famM k1 k2 u D) n4 n5 n6 n7 n8 t =
        (n6 : ℝ) * n7 * J D u (n4 * k1 + n6 * k2) t (V2 θ2 σ2 * fn n4 n5 (n6 - 1) (n7 - 1) n8) := by
      rw [Itos.term67]
      rcases Nat.eq_zero_or_pos n6 with h | h
      · subst h; simp
      · obtain ⟨m, rfl⟩ : ∃ m, n6 = m + 1 := ⟨n6 - 1, by omega⟩
        rw [show m + 1 - 1 = m by omega, quad2_eq hD u _ _ _ _ _ _ t ht]
        congr 2; push_cast; ring
    have t8 : Itos.term8 ⟨k1, k2, u, x1, θ1, σ1, x2, θ2, σ2⟩ (famM k1 k2 u D) n4 n5 n6 n7 n8 t =
        (n8 : ℝ) * (n8 - 1) / 2 * (J D u (n4 * k1 + n6 * k2) t (V1 θ1 σ1 * fn n4 n5 n6 n7 (n8 - 2)) +
          J D u (n4 * k1 + n6 * k2) t (V2 θ2 σ2 * fn n4 n5 n6 n7 (n8 - 2))) := by
      rw [Itos.term8, quad1_eq hD u _ _ _ _ _ _ t ht, quad2_eq hD u _ _ _ _ _ _ t ht]
      congr 3 <;> congr 1 <;> push_cast <;> ring
    rw [famM_int hD u n4 n5 n6 n7 n8 t ht, if_neg (by omega), diff_fn, zero_add, t4, t5, t45, t6, t7, t67, t8,
      J_add hD u _ t ht, J_add hD u _ t ht, J_add hD u _ t ht, J_add hD u _ t ht, J_add hD u _ t ht,
      J_add hD u _ t ht, J_C, J_C, J_C, J_C, J_C, J_C, J_C, J_add hD u _ t ht]

end

end Ajd.Sv2

end -- Sv2Ito
