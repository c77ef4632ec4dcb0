import Verif.Lemmas.CppLaw
import Verif.Lemmas.Gen
import Verif.Lemmas.IezizizDiff
import Verif.Lemmas.GenMap
import Mathlib.Analysis.Calculus.IteratedDeriv.Lemmas
import Mathlib.Topology.Algebra.MvPolynomial

/-! The compound Poisson process with normal jumps satisfies Dynkin's formula. -/

namespace Ajd.CppDyn
open MvPolynomial MeasureTheory ProbabilityTheory Dyn Real
open scoped NNReal

variable (μ : ℝ) (v : ℝ≥0)

/-- moments of a jump -/
noncomputable def nm (n : ℕ) : ℝ := ∫ x, x ^ n ∂(gaussianReal μ v)
/-- moments of the sum of the jumps -/
noncomputable def cm (Λ : ℝ≥0) (n : ℕ) : ℝ := ∫ x, x ^ n ∂(Cpp.cppLaw Λ (gaussianReal μ v))

theorem nm_zero : nm μ v 0 = 1 := by simp [nm]
theorem cm_zero (Λ : ℝ≥0) : cm μ v Λ 0 = 1 := by simp [cm]

theorem nm_eq (n : ℕ) : nm μ v n = iteratedDeriv n (fun t => exp (μ * t + v * t ^ 2 / 2)) 0 := by
  have hs : integrableExpSet (fun x => x) (gaussianReal μ v) = Set.univ := by
    ext t; simpa [integrableExpSet] using integrable_exp_mul_gaussianReal t
  have h := iteratedDeriv_mgf_zero (X := fun x : ℝ => x) (μ := gaussianReal μ v) (by rw [hs]; simp) n
  rw [mgf_fun_id_gaussianReal] at h
  rw [h]; rfl

theorem cm_rec (Λ : ℝ≥0) (n : ℕ) : cm μ v Λ (n + 1) =
    ∑ j ∈ Finset.range (n + 1), (n.choose j : ℝ) * (Λ * nm μ v (j + 1) * cm μ v Λ (n - j)) := by
  simp only [cm, Cpp.cpp_moment, nm_eq]
  have hd : deriv (fun t : ℝ => exp (Λ * (exp (μ * t + v * t ^ 2 / 2) - 1))) =
      (fun t => (Λ : ℝ) * deriv (fun t => exp (μ * t + v * t ^ 2 / 2)) t) *
        fun t => exp (Λ * (exp (μ * t + v * t ^ 2 / 2) - 1)) := by
    funext t
    have h1 : DifferentiableAt ℝ (fun t : ℝ => exp (μ * t + v * t ^ 2 / 2)) t := by fun_prop
    have := ((h1.hasDerivAt.sub_const 1).const_mul (Λ : ℝ)).exp
    rw [this.deriv, Pi.mul_apply]; ring
  have hc : ContDiff ℝ ⊤ (fun t : ℝ => exp (μ * t + v * t ^ 2 / 2)) := by fun_prop
  have hc' : ContDiff ℝ n (deriv fun t : ℝ => exp (μ * t + v * t ^ 2 / 2)) := by
    have := (contDiff_succ_iff_deriv (n := n)).1 (hc.of_le (by exact_mod_cast le_top))
    exact this.2.2
  rw [iteratedDeriv_succ', hd, iteratedDeriv_mul (by fun_prop) (by fun_prop)]
  refine Finset.sum_congr rfl fun j _ => ?_
  rw [iteratedDeriv_const_mul_field, ← iteratedDeriv_succ']
  ring

/-- the cumulants after time `s` -/
noncomputable def kap (lam s : ℝ) : Ieziziz.N3 → ℝ :=
  fun n => if n.1 = 0 ∧ n.2.1 = 0 then lam * s * nm μ v n.2.2 else 0

theorem G_cm (lam s : ℝ) (hs : 0 ≤ lam * s) (n : ℕ) :
    aeval (kap μ v lam s) (Ieziziz.G 0 0 n) = cm μ v (lam * s).toNNReal n := by
  have := Ieziziz.G_unique (kap μ v lam s) (fun a b c => if a = 0 ∧ b = 0 then cm μ v (lam * s).toNNReal c else 0)
    (by simp [cm_zero]) ?_ 0 0 n
  · simpa using this
  · intro a b c p q r h
    have : (p = 1 ∧ q = 0 ∧ r = 0) ∨ (p = 0 ∧ q = 1 ∧ r = 0) ∨ (p = 0 ∧ q = 0 ∧ r = 1) := by omega
    rcases this with ⟨rfl, rfl, rfl⟩ | ⟨rfl, rfl, rfl⟩ | ⟨rfl, rfl, rfl⟩
    · simp [kap]
    · simp [kap]
    · rw [Finset.sum_range_succ', Finset.sum_eq_zero fun i _ => Finset.sum_eq_zero fun j _ =>
        Finset.sum_eq_zero fun l _ => by simp [kap], zero_add, Finset.sum_range_succ',
        Finset.sum_eq_zero fun j _ => Finset.sum_eq_zero fun l _ => by simp [kap], zero_add]
      by_cases hab : a = 0 ∧ b = 0
      · obtain ⟨rfl, rfl⟩ := hab
        simp only [kap, add_zero, and_self, if_true, cm_rec, Real.coe_toNNReal _ hs, Nat.choose_self, Nat.cast_one,
          one_mul, Nat.sub_zero]
      · rw [if_neg (by simpa using hab)]
        refine (Finset.sum_eq_zero fun l _ => ?_).symm
        rw [if_neg (by simpa using hab), mul_zero, mul_zero]

/-- the derivative of the moments in time -/
theorem cm_deriv (lam : ℝ) (hl : 0 ≤ lam) (n : ℕ) (t : ℝ) (ht : 0 ≤ t) :
    HasDerivWithinAt (fun t => cm μ v (lam * t).toNNReal n)
      (lam * (∑ j ∈ Finset.range (n + 1), (n.choose j : ℝ) * (nm μ v j * cm μ v (lam * t).toNNReal (n - j)) -
        cm μ v (lam * t).toNNReal n)) (Set.Ici 0) t := by
  have h := Ieziziz.hasDerivAt_G (kap μ v lam) (fun n => if n.1 = 0 ∧ n.2.1 = 0 then lam * nm μ v n.2.2 else 0) t
    (fun n => by
      by_cases hn : n.1 = 0 ∧ n.2.1 = 0
      · simp only [kap, if_pos hn]
        have := ((hasDerivAt_id t).const_mul lam).mul_const (nm μ v n.2.2)
        simpa using this
      · simp only [kap, if_neg hn]
        exact hasDerivAt_const _ _) 0 0 n
  refine (h.hasDerivWithinAt (s := Set.Ici 0)).congr_of_mem (fun s hs => (G_cm μ v lam s (mul_nonneg hl hs) n).symm)
    ht |>.congr_deriv ?_
  simp only [zero_add, Finset.sum_range_one, Nat.choose_self, Nat.cast_one, one_mul, Nat.sub_zero, and_self, if_true,
    G_cm μ v lam t (mul_nonneg hl ht), Prod.fst_zero, Prod.snd_zero, nm_zero]
  rw [mul_sub, Finset.mul_sum, mul_one]
  refine congrArg (· - _) (Finset.sum_congr rfl fun j _ => ?_)
  ring

/-- the compound Poisson process with normal jumps -/
noncomputable def sys (lam : ℝ) : JumpDiff (Fin 1) where
  b _ := 0
  a _ := 0
  lam := lam
  ν := (gaussianReal μ v).map fun y _ => y

theorem sys_coef (lam : ℝ) : Gen.PolyCoef (sys μ v lam) 0 0 where
  prob := Measure.isProbabilityMeasure_map (by fun_prop)
  hb x i := by simp [sys]
  ha x i j := by simp [sys]
  db i := by simp
  da i j := by simp

theorem gauss_pow (n : ℕ) : Integrable (fun x => x ^ n) (gaussianReal μ v) := by
  have hs : integrableExpSet (fun x => x) (gaussianReal μ v) = Set.univ := by
    ext t; simpa [integrableExpSet] using integrable_exp_mul_gaussianReal t
  exact integrable_pow_of_mem_interior_integrableExpSet (X := fun x : ℝ => x) (μ := gaussianReal μ v)
    (by rw [hs]; simp) n

theorem int_of_pow {γ : Measure ℝ} (h : ∀ n, Integrable (fun x => x ^ n) γ) (f : MvPolynomial (Fin 1) ℝ) :
    Integrable (fun x => eval (fun _ => x) f) γ := by
  rw [f.as_sum]
  simp only [map_sum, eval_monomial]
  refine integrable_finsetSum _ fun s _ => ?_
  simp only [Finsupp.prod_fintype _ _ fun i => pow_zero _, Finset.univ_unique, Finset.prod_singleton]
  exact (h _).const_mul _

theorem sys_mom (lam : ℝ) : Gen.Mom (sys μ v lam).ν := by
  intro f
  have hm : Measurable fun y : Fin 1 → ℝ => eval y f := (MvPolynomial.continuous_eval f).measurable
  rw [sys, integrable_map_measure hm.aestronglyMeasurable (by fun_prop)]
  exact int_of_pow (gauss_pow μ v) f

/-- expectations of polynomials in the sum of the jumps -/
noncomputable def E (Λ : ℝ≥0) : MvPolynomial (Fin 1) ℝ →ₗ[ℝ] ℝ where
  toFun f := ∫ x, eval (fun _ => x) f ∂(Cpp.cppLaw Λ (gaussianReal μ v))
  map_add' f g := by
    have h := int_of_pow (Cpp.cpp_integrable_pow Λ μ v)
    simp only [map_add]
    rw [integral_add (h f) (h g)]
  map_smul' c f := by
    simp only [smul_eval, RingHom.id_apply, smul_eq_mul]
    rw [integral_const_mul]

theorem E_X (Λ : ℝ≥0) (n : ℕ) : E μ v Λ (X 0 ^ n) = cm μ v Λ n := by
  simp [E, cm]

theorem mono_pow (s : Fin 1 →₀ ℕ) (c : ℝ) : monomial s c = c • (X 0 : MvPolynomial (Fin 1) ℝ) ^ s 0 := by
  rw [MvPolynomial.monomial_eq, Finsupp.prod_fintype _ _ fun i => pow_zero _, smul_eq_C_mul]
  simp

/-- no jumps yet -/
theorem E_zero : E μ v 0 = (aeval (0 : Fin 1 → ℝ)).toLinearMap := by
  refine LinearMap.ext fun f => ?_
  induction f using MvPolynomial.induction_on' with
  | monomial s c =>
    rw [mono_pow, map_smul, map_smul, E_X]
    refine congrArg _ ?_
    cases s 0 with
    | zero => simp [cm_zero]
    | succ n => simp [cm_rec]
  | add p q hp hq => rw [map_add, map_add, hp, hq]

theorem dynkin (lam : ℝ) (hl : 0 ≤ lam) :
    (sys μ v lam).Dynkin (E μ v 0) fun t => E μ v (lam * t).toNNReal := by
  have := Gen.dynkin_of_sol (sys_coef μ v lam) (sys_mom μ v lam) (E := fun t => E μ v (lam * t).toNNReal) ?_
  · simpa using this
  have hx : ∀ n t, 0 ≤ t → HasDerivWithinAt (fun t => E μ v (lam * t).toNNReal (X 0 ^ n))
      (E μ v (lam * t).toNNReal (Gen.op 0 0 lam (sys μ v lam).ν (sys_mom μ v lam) (X 0 ^ n))) (Set.Ici 0) t := by
    intro n t ht
    simp only [E_X]
    refine (cm_deriv μ v lam hl n t ht).congr_deriv ?_
    have hj : Gen.jump (sys μ v lam).ν (sys_mom μ v lam) (X 0 ^ n) =
        ∑ j ∈ Finset.range (n + 1), ((n.choose j : ℝ) * nm μ v j) • (X 0 : MvPolynomial (Fin 1) ℝ) ^ (n - j) := by
      refine MvPolynomial.funext fun x => ?_
      have hm : Measurable fun y : Fin 1 → ℝ => eval (x + y) (X 0 ^ n : MvPolynomial (Fin 1) ℝ) := by
        simp only [map_pow, eval_X, Pi.add_apply]; fun_prop
      rw [Gen.eval_jump, sys, integral_map (by fun_prop) hm.aestronglyMeasurable]
      simp only [map_pow, eval_X, Pi.add_apply, map_sum, smul_eval, add_comm (x 0), add_pow]
      rw [integral_finsetSum _ fun j _ => ((gauss_pow μ v j).mul_const _).mul_const _]
      refine Finset.sum_congr rfl fun j _ => ?_
      rw [integral_mul_const, integral_mul_const, nm]; ring
    rw [Gen.op_apply, hj]
    simp only [Pi.zero_apply, zero_mul, Finset.sum_const_zero, smul_zero, zero_add, map_smul, map_sub, map_sum,
      E_X, smul_eq_mul]
    refine congrArg (fun z => lam * (z - _)) (Finset.sum_congr rfl fun j _ => ?_)
    ring
  intro f t ht
  induction f using MvPolynomial.induction_on' with
  | monomial s c =>
    rw [mono_pow]
    simp only [map_smul]
    exact (hx (s 0) t ht).const_smul c
  | add p q hp hq =>
    simp only [map_add]
    exact hp.add hq

end Ajd.CppDyn
