import Verif.Spec.ItoSde
import Verif.Lemmas.SrjdDynkin
import Verif.Lemmas.Gen
import Mathlib.Topology.Algebra.MvPolynomial

/-! The joint moments of `IE_t` and `IEZ_t` from the stochastic differential equations. -/

namespace Ajd.Srjd
open MvPolynomial MeasureTheory ProbabilityTheory Gen Dyn

abbrev M3 := MvPolynomial (Fin 3) ℝ

noncomputable def b3 (k θ c : ℝ) : Fin 3 → M3 := ![C k * (C θ - X 0), C (-k) * X 1, C (-k) * X 2 - C c]

def m3 (σ : ℝ) : Fin 3 → Fin 3 → ℝ := ![![σ ^ 2, σ, 0], ![σ, 1, 0], ![0, 0, 0]]

noncomputable def a3 (σ : ℝ) : Fin 3 → Fin 3 → M3 := fun i j => C (m3 σ i j) * X 0

theorem meas3 : Measurable fun y : ℝ => (![y, 0, y] : Fin 3 → ℝ) := by
  refine measurable_pi_lambda _ fun i => ?_
  fin_cases i <;> simp <;> fun_prop

theorem coef3 (k θ σ lam c : ℝ) {μ : ℝ} (hμ : 0 < μ) : PolyCoef (ints k θ σ lam μ c) (b3 k θ c) (a3 σ) where
  prob := by
    have := isProbabilityMeasure_expMeasure (show 0 < 1 / μ by positivity)
    exact Measure.isProbabilityMeasure_map meas3.aemeasurable
  hb x i := by fin_cases i <;> simp [b3, ints]
  ha x i j := by fin_cases i <;> fin_cases j <;> simp [a3, m3, ints]
  db i := by
    have h : ∀ i : Fin 3, (C (-k) * X i : M3).totalDegree ≤ 1 := fun i => (totalDegree_mul _ _).trans (by simp)
    fin_cases i
    · refine (totalDegree_mul _ _).trans ?_
      rw [totalDegree_C, zero_add]
      exact (totalDegree_sub _ _).trans (by simp)
    · exact h 1
    · exact (totalDegree_sub _ _).trans (max_le (h 2) (by simp))
  da _ _ := (totalDegree_mul _ _).trans (by simp)

theorem mom3 (k θ σ lam c : ℝ) {μ : ℝ} (hμ : 0 < μ) : Mom (ints k θ σ lam μ c).ν := by
  intro f
  show Integrable _ ((expMeasure (1 / μ)).map _)
  rw [integrable_map_measure (MvPolynomial.continuous_eval f).measurable.aestronglyMeasurable meas3.aemeasurable]
  induction f using MvPolynomial.induction_on' with
  | monomial s r =>
    refine (((exp_int_pow hμ (s 0 + s 2)).const_mul (r * 0 ^ s 1))).congr (ae_of_all _ fun y => ?_)
    simp [eval_monomial, Finsupp.prod_fintype, Fin.prod_univ_three, pow_add]
    ring
  | add p q hp hq =>
    refine (hp.add hq).congr (ae_of_all _ fun y => ?_)
    simp

/-- `v - β - σ A - B`, which only has the drift `-k` times itself -/
noncomputable def dp (β σ : ℝ) : M3 := X 0 - C β - C σ * X 1 - X 2

noncomputable def fm (β σ : ℝ) (m n j : ℕ) : M3 := X 1 ^ m * X 2 ^ n * dp β σ ^ j

theorem der_pow (d : Derivation ℝ M3 M3) (q : M3) (k : ℝ) (h : d q = C (-k) * q) (n : ℕ) : d (q ^ n) = C (-(n * k)) * q ^ n := by
  induction n with
  | zero => simp
  | succ n ih =>
    rw [pow_succ, Derivation.leibniz, ih, h]
    simp only [smul_eq_mul, C_neg, C_mul, Nat.cast_add, Nat.cast_one, C_add, C_1]
    ring

/-- the drift -/
noncomputable def dd (k θ c : ℝ) : Derivation ℝ M3 M3 := b3 k θ c 0 • pderiv 0 + b3 k θ c 1 • pderiv 1 + b3 k θ c 2 • pderiv 2

/-- the direction of the noise -/
noncomputable def dn (σ : ℝ) : Derivation ℝ M3 M3 := (C σ : M3) • pderiv 0 + pderiv 1

theorem dd_fm {k θ σ c β : ℝ} (hβ : k * β = k * θ + c) (m n j : ℕ) : dd k θ c (fm β σ m n j) =
    C (-((m + n + j) * k)) * fm β σ m n j - C (c * n) * fm β σ m (n - 1) j := by
  have h1 : dd k θ c (X 1) = C (-k) * X 1 := by simp [dd, b3, pderiv_X]
  have h2 : dd k θ c (X 2) = C (-k) * X 2 - C c := by simp [dd, b3, pderiv_X]
  have h3 : dd k θ c (dp β σ) = C (-k) * dp β σ := by
    have : (C k * C β : M3) = C k * C θ + C c := by rw [← C_mul, hβ, C_add, C_mul]
    simp [dd, b3, dp, pderiv_X]
    linear_combination -this
  rw [fm, Derivation.leibniz, Derivation.leibniz, der_pow _ _ k h1, der_pow _ _ k h3, Derivation.leibniz_pow, h2, fm]
  rcases n with _ | n
  · simp only [smul_eq_mul, C_neg, C_mul, C_add, Nat.cast_zero, C_0, zero_smul, pow_zero]
    ring
  · simp only [smul_eq_mul, nsmul_eq_mul, C_neg, C_mul, C_add, Nat.add_sub_cancel, Nat.cast_add, Nat.cast_one, C_1, ← map_natCast (C : ℝ →+* M3)]
    ring

theorem dn_fm (σ β : ℝ) (m n j : ℕ) : dn σ (dn σ (fm β σ m n j)) = C (m * (m - 1 : ℕ) : ℝ) * fm β σ (m - 2) n j := by
  have h1 : dn σ (X 1) = 1 := by simp [dn, pderiv_X]
  have h2 : dn σ (X 2) = 0 := by simp [dn, pderiv_X]
  have h3 : dn σ (dp β σ) = 0 := by simp [dn, dp, pderiv_X]
  have key : ∀ m, dn σ (fm β σ m n j) = C (m : ℝ) * fm β σ (m - 1) n j := by
    intro m
    rw [fm, Derivation.leibniz, Derivation.leibniz, Derivation.leibniz_pow, Derivation.leibniz_pow, Derivation.leibniz_pow, h1, h2, h3, fm]
    simp only [smul_eq_mul, nsmul_eq_mul, ← map_natCast (C : ℝ →+* M3)]
    ring
  rw [key, Derivation.leibniz, key, Nat.sub_sub]
  have : dn σ (C (m : ℝ)) = 0 := by simp [dn]
  rw [this]
  simp only [smul_eq_mul, C_mul]
  ring

theorem gen3 {k θ σ lam μ c β : ℝ} (hβ : k * β = k * θ + c) (hμ : 0 < μ) (m n j : ℕ) :
    (ints k θ σ lam μ c).IsGen (fm β σ m n j)
      (C (-((m + n + j) * k)) * fm β σ m n j - C (c * n) * fm β σ m (n - 1) j +
        C (m * (m - 1 : ℕ) / 2 : ℝ) * (C β * fm β σ (m - 2) n j + C σ * fm β σ (m - 2 + 1) n j + fm β σ (m - 2) (n + 1) j +
          fm β σ (m - 2) n (j + 1)) +
        ∑ i ∈ Finset.range n, C (lam * (n.choose (i + 1) * ((i + 1).factorial * μ ^ (i + 1)))) * fm β σ m (n - (i + 1)) j) := by
  intro x
  have e1 := congrArg (eval x) (dd_fm (σ := σ) hβ m n j)
  have e2 := congrArg (eval x) (dn_fm σ β m n j)
  have e3 : ∫ y, (eval (x + y) (fm β σ m n j) - eval x (fm β σ m n j)) ∂(ints k θ σ lam μ c).ν =
      ∑ i ∈ Finset.range n, (n.choose (i + 1) * ((i + 1).factorial * μ ^ (i + 1))) * eval x (fm β σ m (n - (i + 1)) j) := by
    show ∫ y, _ ∂((expMeasure (1 / μ)).map _) = _
    have hme : Measurable fun y : Fin 3 → ℝ => eval (x + y) (fm β σ m n j) - eval x (fm β σ m n j) :=
      (((MvPolynomial.continuous_eval (fm β σ m n j)).comp (continuous_const.add continuous_id)).sub continuous_const).measurable
    rw [integral_map meas3.aemeasurable hme.aestronglyMeasurable]
    have : ∀ y : ℝ, eval (x + ![y, 0, y]) (fm β σ m n j) - eval x (fm β σ m n j) =
        (x 1 ^ m * (x 0 - β - σ * x 1 - x 2) ^ j) * ((x 2 + y) ^ n - x 2 ^ n) := by
      intro y
      simp only [fm, dp, map_mul, map_pow, map_sub, eval_X, eval_C, Pi.add_apply, Matrix.cons_val_zero, Matrix.cons_val_one, Matrix.cons_val]
      rw [show x 0 + y - β - σ * (x 1 + 0) - (x 2 + y) = x 0 - β - σ * x 1 - x 2 by ring]
      ring
    simp only [this]
    rw [integral_const_mul, jump_pow hμ, Finset.mul_sum]
    refine Finset.sum_congr rfl fun i _ => ?_
    simp only [fm, dp, map_mul, map_pow, map_sub, eval_X, eval_C]
    ring
  rw [e3, show (ints k θ σ lam μ c).lam = lam from rfl]
  have d1 : ∑ i, (ints k θ σ lam μ c).b x i * eval x (pderiv i (fm β σ m n j)) = eval x (dd k θ c (fm β σ m n j)) := by
    rw [Fin.sum_univ_three]
    simp [dd, b3, ints]
  have d2 : ∑ i, ∑ l, (ints k θ σ lam μ c).a x i l * eval x (pderiv i (pderiv l (fm β σ m n j))) =
      x 0 * eval x (dn σ (dn σ (fm β σ m n j))) := by
    simp only [Fin.sum_univ_three]
    simp [dn, ints, Derivation.leibniz]
    ring
  rw [d1, d2, e1, e2]
  simp only [map_add, map_sub, map_mul, map_sum, eval_C, fm, dp, map_pow, eval_X, Finset.mul_sum]
  congr 1
  · ring
  · exact Finset.sum_congr rfl fun i _ => by ring

variable {Z : ZFun} {δ : ℝ}

theorem ints_moment {cf : Cfg} (hc : CfgOK cf Z) (hZ : ZGen Z δ) {p : Par} (hp : p.OK) {θ β x : ℝ}
    (hβ : p.k * β = p.k * θ + (1 - δ) * (p.lmbd * p.mu_v)) {E : ℝ → M3 →ₗ[ℝ] ℝ}
    (hE : (ints p.k θ p.sigma p.lmbd p.mu_v ((1 - δ) * (p.lmbd * p.mu_v))).Dynkin (aeval ![x, 0, 0]).toLinearMap E)
    (m n j : ℕ) (t : ℝ) (ht : 0 ≤ t) : Real.exp ((m + n + j) * p.k * t) * E t (fm β p.sigma m n j) =
      (x - β) ^ j * jm Z p (x - β) β m n t := by
  have hco := coef3 p.k θ p.sigma p.lmbd ((1 - δ) * (p.lmbd * p.mu_v)) hp.mu
  have hmo := mom3 p.k θ p.sigma p.lmbd ((1 - δ) * (p.lmbd * p.mu_v)) hp.mu
  obtain ⟨hs, h0⟩ := dynkin_sol hco hmo hE
  induction m using Nat.strong_induction_on generalizing n j t with
  | _ m ihm =>
  induction n using Nat.strong_induction_on generalizing j t with
  | _ n ihn =>
  have key := linear_zero 0 (fun t => Real.exp ((m + n + j) * p.k * t) * E t (fm β p.sigma m n j) -
    (x - β) ^ j * jm Z p (x - β) β m n t) ?_ ?_ ?_ t ht
  · exact sub_eq_zero.1 key
  · simp only [mul_zero, Real.exp_zero, one_mul]
    rw [jm_zero hZ hp, h0, AlgHom.toLinearMap_apply]
    simp only [fm, dp, map_mul, map_pow, map_sub, aeval_X, aeval_C, Matrix.cons_val_zero, Matrix.cons_val_one, Matrix.cons_val, Algebra.algebraMap_self, RingHom.id_apply]
    by_cases hm : m = 0 <;> by_cases hn : n = 0 <;> simp [hm, hn]
  · obtain ⟨f, cf', hf⟩ := jm_cont hc hp (x - β) β m n
    refine ContinuousOn.sub (((by fun_prop : Continuous fun t => Real.exp ((m + n + j) * p.k * t)).continuousOn).mul (hE.cont _)) ?_
    exact ((continuous_const.mul cf').continuousOn (f := fun t => (x - β) ^ j * f t)).congr fun t ht => by simp only [hf t ht]
  · intro t ht
    have d1 : HasDerivAt (fun t => Real.exp ((m + n + j) * p.k * t)) (Real.exp ((m + n + j) * p.k * t) * ((m + n + j) * p.k)) t := by
      have := ((hasDerivAt_id t).const_mul ((m + n + j : ℝ) * p.k)).exp
      simpa using this
    have d2 := (hs (fm β p.sigma m n j) t ht.le).hasDerivAt (Ici_mem_nhds ht)
    rw [isGen_unique (isGen_op hco hmo (fm β p.sigma m n j)) (gen3 (σ := p.sigma) hβ hp.mu m n j)] at d2
    have d3 := (jm_deriv hc hZ hp (x - β) β m n t ht).const_mul ((x - β) ^ j)
    refine ((d1.mul d2).sub d3).congr_deriv ?_
    have smul : ∀ (r : ℝ) (f : M3), E t (C r * f) = r * E t f := fun r f => by rw [← smul_eq_C_mul, map_smul, smul_eq_mul]
    simp only [map_add, map_sub, map_sum, smul]
    have ex : ∀ a b : ℝ, Real.exp ((a + b) * p.k * t) = Real.exp (a * p.k * t) * Real.exp (b * p.k * t) := fun a b => by
      rw [← Real.exp_add]; ring_nf
    have q1 : Real.exp ((m + n + j) * p.k * t) * ((m * (m - 1 : ℕ) / 2 : ℝ) * (β * E t (fm β p.sigma (m - 2) n j) +
        p.sigma * E t (fm β p.sigma (m - 2 + 1) n j) + E t (fm β p.sigma (m - 2) (n + 1) j) +
          E t (fm β p.sigma (m - 2) n (j + 1)))) =
        (x - β) ^ j * ((m * (m - 1 : ℕ) / 2 : ℝ) * gI Z p (x - β) β (m - 2) n t) := by
      match m, ihm with
      | 0, _ => simp
      | 1, _ => simp
      | m + 2, ihm =>
        have i1 := ihm m (by omega) n j t ht.le
        have i2 := ihm (m + 1) (by omega) n j t ht.le
        have i3 := ihm m (by omega) (n + 1) j t ht.le
        have i4 := ihm m (by omega) n (j + 1) t ht.le
        rw [gI, Nat.add_sub_cancel, show m + 2 - 1 = m + 1 by omega]
        push_cast at i1 i2 i3 i4 ⊢
        have e0 : Real.exp ((m + 2 + n + j) * p.k * t) = Real.exp ((m + n + j) * p.k * t) * Real.exp (2 * p.k * t) := by
          rw [← ex]; ring_nf
        have e1 : Real.exp ((m + 2 + n + j) * p.k * t) = Real.exp ((m + 1 + n + j) * p.k * t) * Real.exp (p.k * t) := by
          rw [← Real.exp_add]; ring_nf
        have e2 : Real.exp ((m + 2 + n + j) * p.k * t) = Real.exp ((m + (n + 1) + j) * p.k * t) * Real.exp (p.k * t) := by
          rw [← Real.exp_add]; ring_nf
        have e3 : Real.exp ((m + 2 + n + j) * p.k * t) = Real.exp ((m + n + (j + 1)) * p.k * t) * Real.exp (p.k * t) := by
          rw [← Real.exp_add]; ring_nf
        have f0 : Real.exp ((m + 2 + n + j) * p.k * t) * E t (fm β p.sigma m n j) =
            Real.exp (2 * p.k * t) * ((x - β) ^ j * jm Z p (x - β) β m n t) := by rw [← i1, e0]; ring
        have f1 : Real.exp ((m + 2 + n + j) * p.k * t) * E t (fm β p.sigma (m + 1) n j) =
            Real.exp (p.k * t) * ((x - β) ^ j * jm Z p (x - β) β (m + 1) n t) := by rw [← i2, e1]; ring
        have f2 : Real.exp ((m + 2 + n + j) * p.k * t) * E t (fm β p.sigma m (n + 1) j) =
            Real.exp (p.k * t) * ((x - β) ^ j * jm Z p (x - β) β m (n + 1) t) := by rw [← i3, e2]; ring
        have f3 : Real.exp ((m + 2 + n + j) * p.k * t) * E t (fm β p.sigma m n (j + 1)) =
            Real.exp (p.k * t) * ((x - β) ^ (j + 1) * jm Z p (x - β) β m n t) := by rw [← i4, e3]; ring
        linear_combination (((m : ℝ) + 2) * (m + 1) / 2) * (β * f0 + p.sigma * f1 + f2 + f3)
    have q2 : Real.exp ((m + n + j) * p.k * t) * (∑ i ∈ Finset.range n, p.lmbd * (n.choose (i + 1) * ((i + 1).factorial * p.mu_v ^ (i + 1))) *
        E t (fm β p.sigma m (n - (i + 1)) j) - (1 - δ) * (p.lmbd * p.mu_v) * n * E t (fm β p.sigma m (n - 1) j)) =
        (x - β) ^ j * ∑ i ∈ Finset.range n, n.choose (i + 1) * jr δ p (i + 1) t * jm Z p (x - β) β m (n - (i + 1)) t := by
      have i1 : ∀ i < n, Real.exp ((m + n + j) * p.k * t) * E t (fm β p.sigma m (n - (i + 1)) j) =
          Real.exp (((i + 1 : ℕ) : ℝ) * p.k * t) * ((x - β) ^ j * jm Z p (x - β) β m (n - (i + 1)) t) := by
        intro i hi
        rw [← ihn (n - (i + 1)) (by omega) j t ht.le, ← mul_assoc, ← ex, Nat.cast_sub (by omega)]
        congr 3
        ring
      rcases n with _ | n
      · simp
      · have i0 := i1 0 (by omega)
        rw [Finset.mul_sum, mul_sub, Finset.mul_sum, Finset.sum_range_succ', Finset.sum_range_succ']
        have : ∀ i ∈ Finset.range n, Real.exp ((m + (n + 1 : ℕ) + j) * p.k * t) * (p.lmbd * ((n + 1).choose (i + 1 + 1) *
            ((i + 1 + 1).factorial * p.mu_v ^ (i + 1 + 1))) * E t (fm β p.sigma m (n + 1 - (i + 1 + 1)) j)) =
            (x - β) ^ j * ((n + 1).choose (i + 1 + 1) * jr δ p (i + 1 + 1) t * jm Z p (x - β) β m (n + 1 - (i + 1 + 1)) t) := by
          intro i hi
          rw [Finset.mem_range] at hi
          have := i1 (i + 1) (by omega)
          rw [jr, if_neg (by omega)]
          linear_combination (p.lmbd * ((n + 1).choose (i + 1 + 1) * ((i + 1 + 1).factorial * p.mu_v ^ (i + 1 + 1)))) * this
        rw [Finset.sum_congr rfl this, jr, if_pos rfl]
        simp only [zero_add, Nat.choose_one_right, Nat.factorial_one, Nat.cast_one, one_mul, pow_one, Nat.add_sub_cancel] at i0 ⊢
        linear_combination (p.lmbd * p.mu_v * ((n + 1 : ℕ) : ℝ) * δ) * i0
    linear_combination q1 + q2

end Ajd.Srjd
