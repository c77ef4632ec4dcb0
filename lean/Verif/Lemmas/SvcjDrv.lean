import Verif.Lemmas.SvcjVolt
import Verif.Lemmas.GenMap
import Mathlib.Tactic.FinCases
import Mathlib.Data.Fin.VecNotation

/-!
The processes from which the SVCJ variance and return are built: `U = e^{-kt} IE_t`, `I_t`, `I*_t`,
`W = e^{-kt} IEZ_t`, `IZ_t`, `IZ*_t`, `D = e^{-kt} (v_0 - θ)` and the time; as one jump-diffusion.
-/

namespace Ajd.SvcjI
open MvPolynomial Ieziziz Finset MeasureTheory ProbabilityTheory

abbrev M8 := MvPolynomial (Fin 8) ℝ

/-- the jumps of the variance, and the independent part of the jumps of the price -/
noncomputable def jl (p : Par) : Measure (ℝ × ℝ) :=
  (expMeasure (1 / p.mu_v)).prod (gaussianReal p.mu_s (p.sigma_s ^ 2).toNNReal)

theorem jl_prob (p : Par) (hm : 0 < p.mu_v) : IsProbabilityMeasure (jl p) := by
  have := isProbabilityMeasure_expMeasure (show 0 < 1 / p.mu_v by positivity)
  unfold jl
  infer_instance

theorem jl_int (p : Par) (hm : 0 < p.mu_v) (a b : ℕ) : Integrable (fun y : ℝ × ℝ => y.1 ^ a * y.2 ^ b) (jl p) := by
  have := isProbabilityMeasure_expMeasure (show 0 < 1 / p.mu_v by positivity)
  refine Integrable.mul_prod (f := fun y : ℝ => y ^ a) (g := fun y : ℝ => y ^ b) ?_ ?_
  · have hδ : 0 < 1 / p.mu_v / 2 := by positivity
    refine ((exp_abs_exp (r := 1 / p.mu_v) (by positivity) (half_lt_self (by positivity))).const_mul
      (a.factorial / (1 / p.mu_v / 2) ^ a)).mono' (by fun_prop) (Filter.Eventually.of_forall fun y => ?_)
    rw [norm_pow]
    exact pow_le_hE hδ y a
  · refine ((gauss_abs_exp p.mu_s (p.sigma_s ^ 2).toNNReal 1).const_mul (b.factorial / 1 ^ b)).mono'
      (by fun_prop) (Filter.Eventually.of_forall fun y => ?_)
    rw [norm_pow]
    exact pow_le_hE one_pos y b

theorem jl_moment (p : Par) (hm : 0 < p.mu_v) (a b : ℕ) : ∫ y, y.1 ^ a * y.2 ^ b ∂(jl p) =
    a.factorial * p.mu_v ^ a * gaussMom p.mu_s (p.sigma_s ^ 2).toNNReal b := by
  have := isProbabilityMeasure_expMeasure (show 0 < 1 / p.mu_v by positivity)
  rw [jl, integral_prod_mul (fun u : ℝ => u ^ a) fun y : ℝ => y ^ b, Srjd.exp_moment hm]
  rfl


/-- the jump of the eight processes -/
def vec (y : ℝ × ℝ) : Fin 8 → ℝ := ![0, 0, 0, y.1, y.1, y.2, 0, 0]

theorem vec_meas : Measurable vec := by
  refine measurable_pi_lambda _ fun i => ?_
  fin_cases i <;> simp [vec] <;> fun_prop

noncomputable def nuD (p : Par) : Measure (Fin 8 → ℝ) := (jl p).map vec

theorem eval_meas {σ : Type} [Fintype σ] (f : MvPolynomial σ ℝ) : Measurable fun y : σ → ℝ => eval y f := by
  induction f using MvPolynomial.induction_on with
  | C a => simp
  | add p q hp hq => simp only [map_add]; exact hp.add hq
  | mul_X p i hp => simp only [map_mul, eval_X]; exact hp.mul (measurable_pi_apply i)

theorem mom_D (p : Par) (hm : 0 < p.mu_v) : Gen.Mom (nuD p) := by
  intro f
  rw [nuD, integrable_map_measure (eval_meas f).aestronglyMeasurable vec_meas.aemeasurable]
  suffices h : ∀ a b : ℕ, Integrable (fun y : ℝ × ℝ => y.1 ^ a * y.2 ^ b * eval (vec y) f) (jl p) by
    simpa [Function.comp_def] using h 0 0
  induction f using MvPolynomial.induction_on with
  | C c => intro a b; simpa using (jl_int p hm a b).mul_const c
  | add p q hp hq =>
    intro a b
    simp only [map_add, mul_add]
    exact (hp a b).add (hq a b)
  | mul_X f i hf =>
    intro a b
    have h1 : ((fun y : ℝ × ℝ => y.1 ^ a * y.2 ^ b * eval (vec y) (f * X i)) = fun _ => 0) ∨
        ((fun y : ℝ × ℝ => y.1 ^ a * y.2 ^ b * eval (vec y) (f * X i)) =
          fun y => y.1 ^ (a + 1) * y.2 ^ b * eval (vec y) f) ∨
        ((fun y : ℝ × ℝ => y.1 ^ a * y.2 ^ b * eval (vec y) (f * X i)) =
          fun y => y.1 ^ a * y.2 ^ (b + 1) * eval (vec y) f) := by
      simp only [map_mul, eval_X]
      fin_cases i
      all_goals first
        | (left; funext y; simp [vec]; done)
        | (right; left; funext y; simp [vec]; ring_nf; done)
        | (right; right; funext y; simp [vec]; ring_nf; done)
    rcases h1 with h | h | h <;> rw [h]
    · exact integrable_zero _ _ _
    · exact hf _ _
    · exact hf _ _

/-- the variance -/
noncomputable def Vp (θ σ : ℝ) : M8 := X 6 + C θ + C σ * X 0 + X 3

noncomputable def bD (k : ℝ) : Fin 8 → M8 := ![C (-k) * X 0, 0, 0, C (-k) * X 3, 0, 0, C (-k) * X 6, 1]

def aM : Fin 8 → Fin 8 → ℝ := fun i j =>
  (![1, 1, 0, 0, 0, 0, 0, 0] : Fin 8 → ℝ) i * (![1, 1, 0, 0, 0, 0, 0, 0] : Fin 8 → ℝ) j +
    (![0, 0, 1, 0, 0, 0, 0, 0] : Fin 8 → ℝ) i * (![0, 0, 1, 0, 0, 0, 0, 0] : Fin 8 → ℝ) j

noncomputable def aD (θ σ : ℝ) : Fin 8 → Fin 8 → M8 := fun i j => C (aM i j) * Vp θ σ

noncomputable def drv (p : Par) (θ σ : ℝ) : JumpDiff (Fin 8) where
  b x i := eval x (bD p.k i)
  a x i j := eval x (aD θ σ i j)
  lam := p.lmbd
  ν := nuD p

theorem Vp_deg (θ σ : ℝ) : (Vp θ σ).totalDegree ≤ 1 := by
  unfold Vp
  refine (totalDegree_add _ _).trans (max_le ((totalDegree_add _ _).trans (max_le ((totalDegree_add _ _).trans
    (max_le ?_ ?_)) ?_)) ?_)
  · rw [totalDegree_X]
  · rw [totalDegree_C]; omega
  · refine (totalDegree_mul _ _).trans ?_
    rw [totalDegree_X, totalDegree_C]
  · rw [totalDegree_X]

theorem drv_coef (p : Par) (hm : 0 < p.mu_v) (θ σ : ℝ) : Gen.PolyCoef (drv p θ σ) (bD p.k) (aD θ σ) where
  prob := by
    have := jl_prob p hm
    exact Measure.isProbabilityMeasure_map vec_meas.aemeasurable
  hb _ _ := rfl
  ha _ _ _ := rfl
  db i := by
    have h : ∀ j : Fin 8, (C (-p.k) * X j : M8).totalDegree ≤ 1 := fun j => by
      refine (totalDegree_mul _ _).trans ?_
      rw [totalDegree_X, totalDegree_C]
    fin_cases i <;> simp [bD] <;> first | exact (by simpa using h 0) | exact (by simpa using h 3) | exact (by simpa using h 6)
  da i j := by
    refine (totalDegree_mul _ _).trans ?_
    rw [totalDegree_C]
    have := Vp_deg θ σ
    omega


/-! ### the generator -/

/-- a product of powers of the first six processes -/
noncomputable def fn (n1 n2 n3 n4 n5 n6 : ℕ) : M8 :=
  X 0 ^ n1 * X 1 ^ n2 * X 2 ^ n3 * X 3 ^ n4 * X 4 ^ n5 * X 5 ^ n6

theorem pd_pow (i j : Fin 8) (n : ℕ) :
    pderiv i (X j ^ n : M8) = if i = j then (n : M8) * X j ^ (n - 1) else 0 := by
  rw [Derivation.leibniz_pow]
  by_cases h : i = j
  · subst h; simp
  · rw [pderiv_X_of_ne (fun e => h e.symm), if_neg h]; simp

theorem pd0 (n1 n2 n3 n4 n5 n6 : ℕ) : pderiv 0 (fn n1 n2 n3 n4 n5 n6) = (n1 : M8) * fn (n1 - 1) n2 n3 n4 n5 n6 := by
  simp [fn, Derivation.leibniz, pd_pow]; ring
theorem pd1 (n1 n2 n3 n4 n5 n6 : ℕ) : pderiv 1 (fn n1 n2 n3 n4 n5 n6) = (n2 : M8) * fn n1 (n2 - 1) n3 n4 n5 n6 := by
  simp [fn, Derivation.leibniz, pd_pow]; ring
theorem pd2 (n1 n2 n3 n4 n5 n6 : ℕ) : pderiv 2 (fn n1 n2 n3 n4 n5 n6) = (n3 : M8) * fn n1 n2 (n3 - 1) n4 n5 n6 := by
  simp [fn, Derivation.leibniz, pd_pow]; ring
theorem pd3 (n1 n2 n3 n4 n5 n6 : ℕ) : pderiv 3 (fn n1 n2 n3 n4 n5 n6) = (n4 : M8) * fn n1 n2 n3 (n4 - 1) n5 n6 := by
  simp [fn, Derivation.leibniz, pd_pow]; ring
theorem pd6 (n1 n2 n3 n4 n5 n6 : ℕ) : pderiv 6 (fn n1 n2 n3 n4 n5 n6) = 0 := by
  simp [fn, Derivation.leibniz, pd_pow]
theorem pd7 (n1 n2 n3 n4 n5 n6 : ℕ) : pderiv 7 (fn n1 n2 n3 n4 n5 n6) = 0 := by
  simp [fn, Derivation.leibniz, pd_pow]

theorem pd_nat (i : Fin 8) (n : ℕ) (f : M8) : pderiv i ((n : M8) * f) = (n : M8) * pderiv i f := by
  rw [Derivation.leibniz]; simp

theorem mulX (n : ℕ) (i : Fin 8) : (n : M8) * (X i * X i ^ (n - 1)) = (n : M8) * X i ^ n := by
  cases n with
  | zero => simp
  | succ n => rw [Nat.add_sub_cancel, pow_succ']

theorem X0_fn (n1 n2 n3 n4 n5 n6 : ℕ) : (n1 : M8) * (X 0 * fn (n1 - 1) n2 n3 n4 n5 n6) = (n1 : M8) * fn n1 n2 n3 n4 n5 n6 := by
  calc _ = ((n1 : M8) * (X 0 * X 0 ^ (n1 - 1))) * (X 1 ^ n2 * X 2 ^ n3 * X 3 ^ n4 * X 4 ^ n5 * X 5 ^ n6) := by
        unfold fn; ring
    _ = _ := by rw [mulX]; unfold fn; ring

theorem X3_fn (n1 n2 n3 n4 n5 n6 : ℕ) : (n4 : M8) * (X 3 * fn n1 n2 n3 (n4 - 1) n5 n6) = (n4 : M8) * fn n1 n2 n3 n4 n5 n6 := by
  calc _ = ((n4 : M8) * (X 3 * X 3 ^ (n4 - 1))) * (X 0 ^ n1 * X 1 ^ n2 * X 2 ^ n3 * X 4 ^ n5 * X 5 ^ n6) := by
        unfold fn; ring
    _ = _ := by rw [mulX]; unfold fn; ring

theorem drift_fn (k : ℝ) (n1 n2 n3 n4 n5 n6 : ℕ) : ∑ i, bD k i * pderiv i (fn n1 n2 n3 n4 n5 n6) =
    C (-k * (n1 + n4)) * fn n1 n2 n3 n4 n5 n6 := by
  rw [Fin.sum_univ_eight]
  have h0 : bD k 0 = C (-k) * X 0 := rfl
  have h1 : bD k 1 = 0 := rfl
  have h2 : bD k 2 = 0 := rfl
  have h3 : bD k 3 = C (-k) * X 3 := rfl
  have h4 : bD k 4 = 0 := rfl
  have h5 : bD k 5 = 0 := rfl
  rw [h0, h1, h2, h3, h4, h5, pd0, pd3, pd6, pd7]
  have e1 := X0_fn n1 n2 n3 n4 n5 n6
  have e2 := X3_fn n1 n2 n3 n4 n5 n6
  have e3 : (C (-k * (n1 + n4)) : M8) = C (-k) * ((n1 : M8) + (n4 : M8)) := by simp
  rw [e3]
  linear_combination C (-k) * e1 + C (-k) * e2

theorem aM_zero (i j : Fin 8) (h : 3 ≤ i.val ∨ 3 ≤ j.val) : aM i j = 0 := by
  fin_cases i <;> fin_cases j <;> simp [aM] at h ⊢

theorem cast_pred (n : ℕ) : (n : ℝ) * ((n - 1 : ℕ) : ℝ) = n * (n - 1) := by
  cases n <;> simp

theorem diff_fn (θ σ : ℝ) (n1 n2 n3 n4 n5 n6 : ℕ) :
    (1 / 2 : ℝ) • ∑ i, ∑ j, aD θ σ i j * pderiv i (pderiv j (fn n1 n2 n3 n4 n5 n6)) =
      C ((n1 : ℝ) * (n1 - 1) / 2) * (Vp θ σ * fn (n1 - 2) n2 n3 n4 n5 n6) +
      C ((n2 : ℝ) * (n2 - 1) / 2) * (Vp θ σ * fn n1 (n2 - 2) n3 n4 n5 n6) +
      C ((n1 : ℝ) * n2) * (Vp θ σ * fn (n1 - 1) (n2 - 1) n3 n4 n5 n6) +
      C ((n3 : ℝ) * (n3 - 1) / 2) * (Vp θ σ * fn n1 n2 (n3 - 2) n4 n5 n6) := by
  have hz : ∀ i j : Fin 8, (3 ≤ i.val ∨ 3 ≤ j.val) → aD θ σ i j = 0 := fun i j h => by
    rw [aD, aM_zero i j h]; simp
  simp only [Fin.sum_univ_eight]
  rw [hz 0 3 (by decide), hz 0 4 (by decide), hz 0 5 (by decide), hz 0 6 (by decide), hz 0 7 (by decide),
    hz 1 3 (by decide), hz 1 4 (by decide), hz 1 5 (by decide), hz 1 6 (by decide), hz 1 7 (by decide),
    hz 2 3 (by decide), hz 2 4 (by decide), hz 2 5 (by decide), hz 2 6 (by decide), hz 2 7 (by decide)]
  have h3 : ∀ j, aD θ σ 3 j = 0 := fun j => hz 3 j (Or.inl (by decide))
  have h4 : ∀ j, aD θ σ 4 j = 0 := fun j => hz 4 j (Or.inl (by decide))
  have h5 : ∀ j, aD θ σ 5 j = 0 := fun j => hz 5 j (Or.inl (by decide))
  have h6 : ∀ j, aD θ σ 6 j = 0 := fun j => hz 6 j (Or.inl (by decide))
  have h7 : ∀ j, aD θ σ 7 j = 0 := fun j => hz 7 j (Or.inl (by decide))
  have h00 : aD θ σ 0 0 = Vp θ σ := by simp [aD, aM]
  have h01 : aD θ σ 0 1 = Vp θ σ := by simp [aD, aM]
  have h10 : aD θ σ 1 0 = Vp θ σ := by simp [aD, aM]
  have h11 : aD θ σ 1 1 = Vp θ σ := by simp [aD, aM]
  have h22 : aD θ σ 2 2 = Vp θ σ := by simp [aD, aM]
  have h02 : aD θ σ 0 2 = 0 := by simp [aD, aM]
  have h12 : aD θ σ 1 2 = 0 := by simp [aD, aM]
  have h20 : aD θ σ 2 0 = 0 := by simp [aD, aM]
  have h21 : aD θ σ 2 1 = 0 := by simp [aD, aM]
  have c1 : ∀ n : ℕ, (C ((n : ℝ) * (n - 1) / 2) : M8) = C (1 / 2) * ((n : M8) * ((n - 1 : ℕ) : M8)) := fun n => by
    rw [← cast_pred, show ((n : ℝ) * ((n - 1 : ℕ) : ℝ) / 2) = 1 / 2 * ((n : ℝ) * ((n - 1 : ℕ) : ℝ)) by ring]
    simp only [map_mul, map_natCast]
  have c2 : (C ((n1 : ℝ) * n2) : M8) = C (1 / 2) * (2 * ((n1 : M8) * (n2 : M8))) := by
    have : (C (1 / 2) * 2 : M8) = 1 := by
      rw [show (2 : M8) = C 2 from (map_ofNat C 2).symm, ← C_mul]; norm_num
    rw [← mul_assoc, this]; simp
  simp only [h3, h4, h5, h6, h7, h00, h01, h10, h11, h22, h02, h12, h20, h21, zero_mul, add_zero, zero_add,
    pd0, pd1, pd2, pd_nat, Nat.sub_sub, one_add_one_eq_two, smul_eq_C_mul, c1, c2]
  ring

theorem jump_fn (p : Par) (hm : 0 < p.mu_v) (n1 n2 n3 n4 n5 n6 : ℕ) :
    Gen.jump (nuD p) (mom_D p hm) (fn n1 n2 n3 n4 n5 n6) =
      ∑ i ∈ range (n4 + 1), ∑ j ∈ range (n5 + 1), ∑ l ∈ range (n6 + 1),
        C ((n4.choose i * n5.choose j * n6.choose l : ℝ) * ((i + j).factorial * p.mu_v ^ (i + j) *
          gaussMom p.mu_s (p.sigma_s ^ 2).toNNReal l)) * fn n1 n2 n3 (n4 - i) (n5 - j) (n6 - l) := by
  refine MvPolynomial.funext fun x => ?_
  rw [Gen.eval_jump, nuD, integral_map vec_meas.aemeasurable (by
    apply Measurable.aestronglyMeasurable
    have := eval_meas (fn n1 n2 n3 n4 n5 n6)
    exact this.comp (measurable_const.add measurable_id))]
  have e : ∀ y : ℝ × ℝ, eval (x + vec y) (fn n1 n2 n3 n4 n5 n6) =
      ∑ i ∈ range (n4 + 1), ∑ j ∈ range (n5 + 1), ∑ l ∈ range (n6 + 1),
        ((n4.choose i * n5.choose j * n6.choose l : ℝ) * eval x (fn n1 n2 n3 (n4 - i) (n5 - j) (n6 - l))) *
          (y.1 ^ (i + j) * y.2 ^ l) := by
    intro y
    have h3 : (x + vec y) 3 = y.1 + x 3 := by simp [vec, add_comm]
    have h4 : (x + vec y) 4 = y.1 + x 4 := by simp [vec, add_comm]
    have h5 : (x + vec y) 5 = y.2 + x 5 := by simp [vec, add_comm]
    have h0 : (x + vec y) 0 = x 0 := by simp [vec]
    have h1 : (x + vec y) 1 = x 1 := by simp [vec]
    have h2 : (x + vec y) 2 = x 2 := by simp [vec]
    simp only [fn, map_mul, map_pow, eval_X, h0, h1, h2, h3, h4, h5]
    have r : ∀ K A B D : ℝ, K * A * B * D = A * (B * (D * K)) := by intros; ring
    rw [add_pow, add_pow, add_pow, r, sum_mul]
    refine sum_congr rfl fun i _ => ?_
    rw [sum_mul, mul_sum]
    refine sum_congr rfl fun j _ => ?_
    rw [sum_mul, mul_sum, mul_sum]
    refine sum_congr rfl fun l _ => ?_
    rw [pow_add]; ring
  have hi := jl_int p hm
  simp only [e]
  rw [integral_finsetSum _ fun i _ => integrable_finsetSum _ fun j _ => integrable_finsetSum _ fun l _ =>
    (hi _ _).const_mul _, map_sum]
  refine sum_congr rfl fun i _ => ?_
  rw [integral_finsetSum _ fun j _ => integrable_finsetSum _ fun l _ => (hi _ _).const_mul _, map_sum]
  refine sum_congr rfl fun j _ => ?_
  rw [integral_finsetSum _ fun l _ => (hi _ _).const_mul _, map_sum]
  refine sum_congr rfl fun l _ => ?_
  rw [integral_const_mul, jl_moment p hm, map_mul, eval_C]
  ring

/-- a coordinate without noise -/
theorem op_X (p : Par) (hm : 0 < p.mu_v) (θ σ : ℝ) (i : Fin 8) (hi : 6 ≤ i.val) (f : M8) :
    Gen.op (bD p.k) (aD θ σ) p.lmbd (nuD p) (mom_D p hm) (X i * f) =
      X i * Gen.op (bD p.k) (aD θ σ) p.lmbd (nuD p) (mom_D p hm) f + bD p.k i * f := by
  have hz1 : ∀ j, aD θ σ i j = 0 := fun j => by rw [aD, aM_zero i j (by omega)]; simp
  have hz2 : ∀ j, aD θ σ j i = 0 := fun j => by rw [aD, aM_zero j i (by omega)]; simp
  have d1 : ∀ (j : Fin 8) (g : M8), pderiv j (X i * g) = X i * pderiv j g + (if j = i then g else 0) := by
    intro j g
    rw [Derivation.leibniz, smul_eq_mul, smul_eq_mul, pderiv_X]
    by_cases h : j = i
    · subst h; simp
    · simp [h, Pi.single_apply, Ne.symm h]
  have hb : ∑ j, bD p.k j * pderiv j (X i * f) = X i * ∑ j, bD p.k j * pderiv j f + bD p.k i * f := by
    simp only [d1, mul_add, mul_ite, mul_zero, sum_add_distrib, Finset.sum_ite_eq', mem_univ, if_true, mul_sum]
    congr 1
    exact sum_congr rfl fun j _ => by ring
  have ha : ∑ j, ∑ l, aD θ σ j l * pderiv j (pderiv l (X i * f)) =
      X i * ∑ j, ∑ l, aD θ σ j l * pderiv j (pderiv l f) := by
    simp only [mul_sum]
    refine sum_congr rfl fun j _ => sum_congr rfl fun l _ => ?_
    rw [d1, map_add, d1]
    by_cases hj : j = i
    · subst hj; rw [hz1]; simp
    · by_cases hl : l = i
      · subst hl; rw [hz2]; simp
      · simp [hj, hl]; ring
  have hJ : Gen.jump (nuD p) (mom_D p hm) (X i * f) = X i * Gen.jump (nuD p) (mom_D p hm) f := by
    refine MvPolynomial.funext fun x => ?_
    have hv : ∀ y, vec y i = 0 := fun y => by
      have : i = 6 ∨ i = 7 := by omega
      rcases this with rfl | rfl <;> rfl
    have hme : ∀ g : M8, AEStronglyMeasurable (fun y => eval (x + y) g) ((jl p).map vec) := fun g =>
      ((eval_meas g).comp (measurable_const.add measurable_id)).aestronglyMeasurable
    rw [Gen.eval_jump, map_mul, Gen.eval_jump, nuD, integral_map vec_meas.aemeasurable (hme _),
      integral_map vec_meas.aemeasurable (hme _), eval_X, ← integral_const_mul]
    refine integral_congr_ae (Filter.Eventually.of_forall fun y => ?_)
    simp [hv]
  rw [Gen.op_apply, Gen.op_apply, hb, ha, hJ]
  simp only [smul_eq_C_mul]
  ring


/-! ### the moments -/

section
variable {p : Par} (hm : 0 < p.mu_v) {v0 θ σ : ℝ} {E : ℝ → M8 →ₗ[ℝ] ℝ}

/-- `(0, ..., 0, v_0 - θ, 0)` -/
def start (v0 θ : ℝ) : Fin 8 → ℝ := ![0, 0, 0, 0, 0, 0, v0 - θ, 0]

noncomputable def E0D (v0 θ : ℝ) : M8 →ₗ[ℝ] ℝ := (aeval (start v0 θ)).toLinearMap

theorem E0D_apply (v0 θ : ℝ) (f : M8) : E0D v0 θ f = eval (start v0 θ) f := by
  rw [E0D, AlgHom.toLinearMap_apply, aeval_eq_eval]

variable (hE : (drv p θ σ).Dynkin (E0D v0 θ) E)
include hm hE

theorem drv_sol : Dyn.Sol (Gen.op (bD p.k) (aD θ σ) p.lmbd (nuD p) (mom_D p hm)) E ∧ E 0 = E0D v0 θ :=
  Gen.dynkin_sol (drv_coef p hm θ σ) (mom_D p hm) hE

theorem drv_lf : Dyn.LF (Gen.op (bD p.k) (aD θ σ) p.lmbd (nuD p) (mom_D p hm)) :=
  Gen.op_lf _ _ _ _ _ (drv_coef p hm θ σ).db (drv_coef p hm θ σ).da

theorem E_X6 (t : ℝ) (ht : 0 ≤ t) (f : M8) : E t (X 6 * f) = Real.exp (-p.k * t) * (v0 - θ) * E t f := by
  obtain ⟨hs, h0⟩ := drv_sol hm hE
  let L : ℝ → M8 →ₗ[ℝ] ℝ := fun t =>
    Real.exp (p.k * t) • (E t ∘ₗ LinearMap.mulLeft ℝ (X 6)) - (v0 - θ) • E t
  have hL : Dyn.Sol (Gen.op (bD p.k) (aD θ σ) p.lmbd (nuD p) (mom_D p hm)) L := by
    intro f t ht
    have h1 : HasDerivWithinAt (fun t => Real.exp (p.k * t)) (Real.exp (p.k * t) * p.k) (Set.Ici 0) t := by
      have : HasDerivAt (fun t : ℝ => p.k * t) p.k t := by simpa using (hasDerivAt_id t).const_mul p.k
      exact this.exp.hasDerivWithinAt
    refine ((h1.mul (hs (X 6 * f) t ht)).sub ((hs f t ht).const_mul (v0 - θ))).congr_deriv ?_
    rw [op_X p hm θ σ 6 (by decide)]
    have hb : bD p.k 6 = C (-p.k) * X 6 := rfl
    rw [hb, mul_assoc (C (-p.k)), ← smul_eq_C_mul (X 6 * f)]
    simp only [L, map_add, map_smul, LinearMap.sub_apply, LinearMap.smul_apply, LinearMap.comp_apply,
      LinearMap.mulLeft_apply, smul_eq_mul]
    ring
  have hL0 : L 0 = 0 := by
    refine LinearMap.ext fun f => ?_
    simp only [L, h0, LinearMap.sub_apply, LinearMap.smul_apply, LinearMap.comp_apply, LinearMap.mulLeft_apply,
      E0D_apply, map_mul, eval_X, smul_eq_mul, mul_zero, Real.exp_zero, one_mul, LinearMap.zero_apply]
    simp [start]
  have := congrArg (fun l : M8 →ₗ[ℝ] ℝ => l f) (Dyn.sol_zero (drv_lf hm hE) hL hL0 t ht)
  simp only [L, LinearMap.sub_apply, LinearMap.smul_apply, LinearMap.comp_apply, LinearMap.mulLeft_apply,
    smul_eq_mul, LinearMap.zero_apply] at this
  have hx : Real.exp (-p.k * t) * Real.exp (p.k * t) = 1 := by rw [← Real.exp_add]; simp
  linear_combination Real.exp (-p.k * t) * this - E t (X 6 * f) * hx

theorem E_X7 (t : ℝ) (ht : 0 ≤ t) (f : M8) : E t (X 7 * f) = t * E t f := by
  obtain ⟨hs, h0⟩ := drv_sol hm hE
  let L : ℝ → M8 →ₗ[ℝ] ℝ := fun t => E t ∘ₗ LinearMap.mulLeft ℝ (X 7) - t • E t
  have hL : Dyn.Sol (Gen.op (bD p.k) (aD θ σ) p.lmbd (nuD p) (mom_D p hm)) L := by
    intro f t ht
    refine ((hs (X 7 * f) t ht).sub ((hasDerivWithinAt_id t _).mul (hs f t ht))).congr_deriv ?_
    rw [op_X p hm θ σ 7 (by decide)]
    have hb : bD p.k 7 = 1 := rfl
    rw [hb, one_mul]
    simp only [L, map_add, LinearMap.sub_apply, LinearMap.smul_apply, LinearMap.comp_apply,
      LinearMap.mulLeft_apply, smul_eq_mul, id]
    ring
  have hL0 : L 0 = 0 := by
    refine LinearMap.ext fun f => ?_
    simp only [L, h0, LinearMap.sub_apply, LinearMap.smul_apply, LinearMap.comp_apply, LinearMap.mulLeft_apply,
      E0D_apply, map_mul, eval_X, smul_eq_mul, LinearMap.zero_apply]
    simp [start]
  have := congrArg (fun l : M8 →ₗ[ℝ] ℝ => l f) (Dyn.sol_zero (drv_lf hm hE) hL hL0 t ht)
  simp only [L, LinearMap.sub_apply, LinearMap.smul_apply, LinearMap.comp_apply, LinearMap.mulLeft_apply,
    smul_eq_mul, LinearMap.zero_apply] at this
  linarith

omit hm hE in
/-- `E[IE^n1 I^n2 I*^n3 IEZ^n4 IZ^n5 IZ*^n6]` -/
noncomputable def famN (p : Par) (E : ℝ → M8 →ₗ[ℝ] ℝ) : Fam := fun n1 n2 n3 n4 n5 n6 t =>
  Real.exp ((n1 + n4) * p.k * t) * E t (fn n1 n2 n3 n4 n5 n6)

theorem VV_eq (n1 n2 n3 n4 n5 n6 : ℕ) (t : ℝ) (ht : 0 ≤ t) :
    VV p.k v0 θ σ (famN p E) n1 n2 n3 n4 n5 n6 t =
      Real.exp ((n1 + n4 + 1) * p.k * t) * E t (Vp θ σ * fn n1 n2 n3 n4 n5 n6) := by
  have e1 : Vp θ σ * fn n1 n2 n3 n4 n5 n6 = X 6 * fn n1 n2 n3 n4 n5 n6 + θ • fn n1 n2 n3 n4 n5 n6 +
      σ • fn (n1 + 1) n2 n3 n4 n5 n6 + fn n1 n2 n3 (n4 + 1) n5 n6 := by
    simp only [Vp, fn, smul_eq_C_mul]; ring
  rw [e1, map_add, map_add, map_add, map_smul, map_smul, E_X6 hm hE t ht, VV]
  simp only [famN, smul_eq_mul]
  push_cast
  have x1 : Real.exp ((n1 + n4 + 1) * p.k * t) = Real.exp ((n1 + n4) * p.k * t) * Real.exp (p.k * t) := by
    rw [← Real.exp_add]; congr 1; ring
  have x2 : Real.exp ((n1 + 1 + n4) * p.k * t) = Real.exp ((n1 + n4 + 1) * p.k * t) := by
    congr 1; ring
  have x3 : Real.exp ((n1 + (n4 + 1)) * p.k * t) = Real.exp ((n1 + n4 + 1) * p.k * t) := by
    congr 1; ring
  have hx : Real.exp (-p.k * t) * Real.exp (p.k * t) = 1 := by rw [← Real.exp_add]; simp
  rw [x2, x3, x1]
  linear_combination (-Real.exp ((n1 + n4) * p.k * t)) * (v0 - θ) * E t (fn n1 n2 n3 n4 n5 n6) * hx

theorem drv_jsys : JSys p v0 θ σ (famN p E) := by
  obtain ⟨hs, h0⟩ := drv_sol hm hE
  constructor
  · intro n1 n2 n3 n4 n5 n6
    simp only [famN, mul_zero, Real.exp_zero, one_mul, h0, E0D_apply, fn, map_mul, map_pow, eval_X]
    simp only [start]
    simp only [Matrix.cons_val, zero_pow_eq]
    split_ifs <;> simp_all
  · intro n1 n2 n3 n4 n5 n6 t ht
    have h1 : HasDerivWithinAt (fun t => Real.exp ((n1 + n4) * p.k * t))
        (Real.exp ((n1 + n4) * p.k * t) * ((n1 + n4) * p.k)) (Set.Ici 0) t := by
      have : HasDerivAt (fun t : ℝ => (n1 + n4) * p.k * t) ((n1 + n4) * p.k) t := by
        simpa using (hasDerivAt_id t).const_mul ((n1 + n4) * p.k)
      exact this.exp.hasDerivWithinAt
    refine (h1.mul (hs (fn n1 n2 n3 n4 n5 n6) t ht)).congr_deriv ?_
    rw [Gen.op_apply, drift_fn, diff_fn, jump_fn p hm]
    simp only [← smul_eq_C_mul, map_add, map_smul, map_sub, map_sum, smul_eq_mul]
    have f1 : (n1 : ℝ) * (n1 - 1) / 2 * (Real.exp (p.k * t) * VV p.k v0 θ σ (famN p E) (n1 - 2) n2 n3 n4 n5 n6 t) =
        Real.exp ((n1 + n4) * p.k * t) *
          ((n1 : ℝ) * (n1 - 1) / 2 * E t (Vp θ σ * fn (n1 - 2) n2 n3 n4 n5 n6)) := by
      match n1 with
      | 0 => simp
      | 1 => simp
      | n + 2 =>
        rw [Nat.add_sub_cancel, VV_eq hm hE _ _ _ _ _ _ t ht, ← mul_assoc (Real.exp (p.k * t)), ← Real.exp_add]
        push_cast
        rw [show p.k * t + (n + n4 + 1) * p.k * t = (n + 2 + n4) * p.k * t by ring]
        ring
    have f2 : Real.exp (-p.k * t) * VV p.k v0 θ σ (famN p E) n1 (n2 - 2) n3 n4 n5 n6 t =
        Real.exp ((n1 + n4) * p.k * t) * E t (Vp θ σ * fn n1 (n2 - 2) n3 n4 n5 n6) := by
      rw [VV_eq hm hE _ _ _ _ _ _ t ht, ← mul_assoc, ← Real.exp_add]
      congr 2; ring
    have f3 : (n1 : ℝ) * n2 * VV p.k v0 θ σ (famN p E) (n1 - 1) (n2 - 1) n3 n4 n5 n6 t =
        Real.exp ((n1 + n4) * p.k * t) * (n1 * n2 * E t (Vp θ σ * fn (n1 - 1) (n2 - 1) n3 n4 n5 n6)) := by
      match n1 with
      | 0 => simp
      | n + 1 =>
        rw [Nat.add_sub_cancel, VV_eq hm hE _ _ _ _ _ _ t ht]
        push_cast
        rw [show (n + n4 + 1) * p.k * t = (n + 1 + n4) * p.k * t by ring]
        ring
    have f4 : Real.exp (-p.k * t) * VV p.k v0 θ σ (famN p E) n1 n2 (n3 - 2) n4 n5 n6 t =
        Real.exp ((n1 + n4) * p.k * t) * E t (Vp θ σ * fn n1 n2 (n3 - 2) n4 n5 n6) := by
      rw [VV_eq hm hE _ _ _ _ _ _ t ht, ← mul_assoc, ← Real.exp_add]
      congr 2; ring
    have fj : ∑ i ∈ range (n4 + 1), ∑ j ∈ range (n5 + 1), ∑ l ∈ range (n6 + 1),
        (n4.choose i * n5.choose j * n6.choose l : ℝ) *
          (cJ p t (i, j, l) * famN p E n1 n2 n3 (n4 - i) (n5 - j) (n6 - l) t) =
        Real.exp ((n1 + n4) * p.k * t) * (p.lmbd *
          ∑ i ∈ range (n4 + 1), ∑ j ∈ range (n5 + 1), ∑ l ∈ range (n6 + 1),
            (n4.choose i * n5.choose j * n6.choose l : ℝ) * ((i + j).factorial * p.mu_v ^ (i + j) *
              gaussMom p.mu_s (p.sigma_s ^ 2).toNNReal l) * E t (fn n1 n2 n3 (n4 - i) (n5 - j) (n6 - l))) := by
      simp only [mul_sum]
      refine sum_congr rfl fun i hi => sum_congr rfl fun j _ => sum_congr rfl fun l _ => ?_
      have hi' : i ≤ n4 := by have := mem_range.1 hi; omega
      simp only [cJ, famN]
      rw [Nat.cast_sub hi', show Real.exp ((n1 + n4) * p.k * t) =
        Real.exp (i * p.k * t) * Real.exp ((n1 + (n4 - i)) * p.k * t) by rw [← Real.exp_add]; congr 1; ring]
      ring
    have c0 : cJ p t 0 = p.lmbd := by simp [cJ, gaussMom_zero]
    rw [FF, f1, f2, f3, f4, fj, c0]
    simp only [famN]
    ring

end

end Ajd.SvcjI
