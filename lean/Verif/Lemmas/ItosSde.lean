import Verif.Spec.ItosSde
import Verif.Lemmas.Sv2Ito
import Verif.Lemmas.Sv2Repr

/-! The Itô integrals of the two-factor model: from the equations to the recursion of the moments. -/

namespace Ajd.Itos
open MvPolynomial Finset MeasureTheory Gen Sv2
open SvcjI (M8)

noncomputable def b7 (x : Par) : Fin 7 → MvPolynomial (Fin 7) ℝ :=
  ![C x.k1 * (C x.θ1 - X 0), C x.k2 * (C x.θ2 - X 1), C (-x.k1) * X 2, 0, C (-x.k2) * X 4, 0, 0]

noncomputable def a7 (x : Par) : Fin 7 → Fin 7 → MvPolynomial (Fin 7) ℝ := fun i j =>
  C (noise1 x.σ1 i * noise1 x.σ1 j + noise3 i * noise3 j) * X 0 +
    C (noise2 x.σ2 i * noise2 x.σ2 j + noise3 i * noise3 j) * X 1

theorem deg_rev {n : ℕ} (k θ : ℝ) (i : Fin n) : (C k * (C θ - X i) : MvPolynomial (Fin n) ℝ).totalDegree ≤ 1 := by
  refine (totalDegree_mul _ _).trans ?_
  rw [totalDegree_C, zero_add]
  exact (totalDegree_sub _ _).trans (by simp)

theorem coef7 (x : Par) : PolyCoef (ints x) (b7 x) (a7 x) where
  prob := by
    show IsProbabilityMeasure (Measure.dirac _)
    infer_instance
  hb y i := by fin_cases i <;> simp [b7, ints]
  ha y i j := by
    simp only [a7, ints, map_add, map_mul, eval_C, eval_X]
    ring
  db i := by
    have h0 : (0 : MvPolynomial (Fin 7) ℝ).totalDegree ≤ 1 := by rw [totalDegree_zero]; omega
    fin_cases i
    · exact deg_rev _ _ _
    · exact deg_rev _ _ _
    · exact deg_lin _ _
    · exact h0
    · exact deg_lin _ _
    · exact h0
    · exact h0
  da _ _ := (totalDegree_add _ _).trans (max_le ((deg_lin _ _).trans one_le_two) ((deg_lin _ _).trans one_le_two))

noncomputable def g7 (x : Par) : Fin 7 → M8 := ![V1 x.θ1 x.σ1, V2 x.θ2 x.σ2, X 0, X 1, X 2, X 3, X 4]

def c7 (x : Par) : Fin 7 → Fin 8 → ℝ :=
  ![![x.σ1, 0, 0, 0, 0, 1, 0, 0], ![0, 0, x.σ2, 0, 0, 0, 1, 0], ![1, 0, 0, 0, 0, 0, 0, 0], ![0, 1, 0, 0, 0, 0, 0, 0],
    ![0, 0, 1, 0, 0, 0, 0, 0], ![0, 0, 0, 1, 0, 0, 0, 0], ![0, 0, 0, 0, 1, 0, 0, 0]]

theorem n1_eq (x : Par) (k : Fin 7) : ∑ i, a1 i * c7 x k i = noise1 x.σ1 k := by
  rw [Fin.sum_univ_eight]
  fin_cases k <;> simp [a1, c7, noise1]

theorem n2_eq (x : Par) (k : Fin 7) : ∑ i, a2 i * c7 x k i = noise2 x.σ2 k := by
  rw [Fin.sum_univ_eight]
  fin_cases k <;> simp [a2, c7, noise2]

theorem n3_eq (x : Par) (k : Fin 7) : ∑ i, a3 i * c7 x k i = noise3 k := by
  rw [Fin.sum_univ_eight]
  fin_cases k <;> simp [a3, c7, noise3]

theorem image7 (x : Par) : Image (g7 x) (c7 x) (bD x.k1 x.k2) (aD x.θ1 x.σ1 x.θ2 x.σ2)
    (drv x.k1 x.k2 x.θ1 x.σ1 x.θ2 x.σ2).ν (b7 x) (a7 x) (ints x).ν where
  lin k i := by
    fin_cases k <;> fin_cases i <;> simp [g7, c7, V1, V2, Derivation.leibniz, pderiv_X, Pi.single_apply]
  shift k y z := by
    rw [Fin.sum_univ_eight]
    fin_cases k <;> simp [g7, c7, V1, V2] <;> ring
  drift k := by
    rw [Fin.sum_univ_eight]
    refine MvPolynomial.funext fun y => ?_
    fin_cases k <;> simp [bD, c7, b7, g7, V1, V2] <;> ring
  diff k l := by
    have e : ∀ i j, aD x.θ1 x.σ1 x.θ2 x.σ2 i j * C (c7 x k i) * C (c7 x l j) =
        C ((a1 i * c7 x k i) * (a1 j * c7 x l j) + (a3 i * c7 x k i) * (a3 j * c7 x l j)) * V1 x.θ1 x.σ1 +
        C ((a2 i * c7 x k i) * (a2 j * c7 x l j) + (a3 i * c7 x k i) * (a3 j * c7 x l j)) * V2 x.θ2 x.σ2 := by
      intro i j
      simp only [aD, C_add, C_mul]
      ring
    simp only [e, sum_add_distrib, ← sum_mul, ← map_sum, ← sum_mul_sum, n1_eq, n2_eq, n3_eq]
    simp [a7, g7]
  jump := by
    show Measure.dirac 0 = (Measure.dirac 0).map _
    rw [Measure.map_dirac' (by fun_prop)]
    simp
    rfl

theorem mom7 (x : Par) : Mom (ints x).ν := fun f => integrable_dirac (by simp)

/-- the moments of the integrals solve the recursion -/
theorem given_rec (x : Par) {E : ℝ → MvPolynomial (Fin 7) ℝ →ₗ[ℝ] ℝ} (hE : Given x E) :
    ∃ M, ItoRec2 x M ∧ ∀ n4 n5 n6 n7 n8 : ℕ, ∀ t, x.u ≤ t → M n4 n5 n6 n7 n8 t =
      Real.exp ((n4 * x.k1 + n6 * x.k2) * t) *
        E (t - x.u) (X 2 ^ n4 * X 3 ^ n5 * X 4 ^ n6 * X 5 ^ n7 * X 6 ^ n8) := by
  obtain ⟨Q, hQ⟩ := dynkin_exists (drv_coef x.k1 x.k2 x.θ1 x.σ1 x.θ2 x.σ2) momD
  have hD := hQ (E0D x.v1 x.v2 x.θ1 x.θ2)
  have him := dynkin_image (image7 x) (drv_coef _ _ _ _ _ _) (coef7 x) rfl momD (mom7 x) hD
  have h0 : E0D x.v1 x.v2 x.θ1 x.θ2 ∘ₗ (aeval (g7 x)).toLinearMap =
      (aeval ![x.v1, x.v2, 0, 0, 0, 0, 0]).toLinearMap := by
    refine LinearMap.ext fun f => ?_
    rw [LinearMap.comp_apply, E0D_apply, AlgHom.toLinearMap_apply, AlgHom.toLinearMap_apply, Gen.eval_aeval,
      aeval_eq_eval]
    congr 1
    congr 1
    funext i
    fin_cases i <;> simp [g7, V1, V2, start]
  rw [h0] at him
  refine ⟨famM x.k1 x.k2 x.u _, itoRec2 hD x.u, fun n4 n5 n6 n7 n8 t ht => ?_⟩
  rw [dynkin_unique (coef7 x) (mom7 x) hE him (t - x.u) (by linarith), famM]
  refine congrArg (fun z => Real.exp ((n4 * x.k1 + n6 * x.k2) * t) * (E0D x.v1 x.v2 x.θ1 x.θ2 ∘ₗ Q (t - x.u)) z) ?_
  simp [g7, fn]

theorem given_exists (x : Par) : ∃ E, Given x E :=
  let ⟨_, h⟩ := dynkin_exists (coef7 x) (mom7 x)
  ⟨_, h _⟩

end Ajd.Itos
