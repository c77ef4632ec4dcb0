import Verif.Lemmas.SrjdCond

/-! Dynkin's formula determines the moments. -/

namespace Ajd.Srjd
open MeasureTheory ProbabilityTheory
open scoped Topology

/-- `∑ q_i V_i` -/
noncomputable def Lp (V : ℕ → ℝ) : Polynomial ℝ →ₗ[ℝ] ℝ := Polynomial.lsum fun i => V i • LinearMap.id

theorem Lp_eq (V : ℕ → ℝ) (q : Polynomial ℝ) : Lp V q = q.sum fun i c => c * V i := by
  rw [Lp, Polynomial.lsum_apply]
  congr 1
  funext i c
  simp [mul_comm]

theorem Lp_X (V : ℕ → ℝ) (c : ℝ) (i : ℕ) : Lp V (Polynomial.C c * Polynomial.X ^ i) = c * V i := by
  rw [Lp_eq, Polynomial.C_mul_X_pow_eq_monomial, Polynomial.sum_monomial_index _ _ (by simp)]

theorem exp_int_pow {μ : ℝ} (hμ : 0 < μ) (n : ℕ) : Integrable (fun y : ℝ => y ^ n) (expMeasure (1 / μ)) := by
  have hr : 0 < 1 / μ := by positivity
  refine integrable_pow_of_mem_interior_integrableExpSet (X := fun x : ℝ => x) ?_ n
  rw [mem_interior]
  refine ⟨Set.Iio (1 / μ), fun x hx => ?_, isOpen_Iio, hr⟩
  exact exp_expMeasure hr hx

theorem jump_pow {μ : ℝ} (hμ : 0 < μ) (n : ℕ) (v : ℝ) :
    ∫ y, ((v + y) ^ n - v ^ n) ∂(expMeasure (1 / μ)) =
      ∑ j ∈ Finset.range n, n.choose (j + 1) * ((j + 1).factorial * μ ^ (j + 1)) * v ^ (n - (j + 1)) := by
  have e : ∀ y : ℝ, (v + y) ^ n - v ^ n =
      ∑ j ∈ Finset.range n, n.choose (j + 1) * v ^ (n - (j + 1)) * y ^ (j + 1) := by
    intro y
    rw [add_comm v y, add_pow, Finset.sum_range_succ']
    simp only [pow_zero, Nat.sub_zero, one_mul, Nat.choose_zero_right, Nat.cast_one, mul_one,
      add_sub_cancel_right]
    exact Finset.sum_congr rfl fun j _ => by ring
  simp_rw [e]
  rw [integral_finsetSum _ fun j _ => (exp_int_pow hμ _).const_mul _]
  refine Finset.sum_congr rfl fun j _ => ?_
  rw [integral_const_mul, exp_moment hμ]
  ring

/-- the generator maps monomials to polynomials -/
noncomputable def genPoly (k θ σ lam μ : ℝ) (n : ℕ) : Polynomial ℝ :=
  Polynomial.C (k * θ * n + n * (n - 1 : ℕ) * σ ^ 2 / 2) * Polynomial.X ^ (n - 1) +
    Polynomial.C (-(n * k)) * Polynomial.X ^ n +
    ∑ j ∈ Finset.range n, Polynomial.C (lam * (n.choose (j + 1) * ((j + 1).factorial * μ ^ (j + 1)))) *
      Polynomial.X ^ (n - (j + 1))

theorem gen_pow (k θ σ lam : ℝ) {μ : ℝ} (hμ : 0 < μ) (n : ℕ) (v : ℝ) :
    (genPoly k θ σ lam μ n).eval v = gen k θ σ lam μ (fun y => y ^ n) v := by
  have h1 : deriv (fun y : ℝ => y ^ n) = fun y : ℝ => (n : ℝ) * y ^ (n - 1) := by
    funext y; simp
  have h2 : deriv (fun y : ℝ => (n : ℝ) * y ^ (n - 1)) v = n * ((n - 1 : ℕ) * v ^ (n - 2)) := by
    have := ((hasDerivAt_pow (n - 1) v).const_mul (n : ℝ)).deriv
    rw [this, Nat.sub_sub]
  rw [gen, h1, h2, jump_pow hμ, genPoly]
  simp only [Polynomial.eval_add, Polynomial.eval_mul, Polynomial.eval_C, Polynomial.eval_pow,
    Polynomial.eval_X, Polynomial.eval_finsetSum]
  rw [Finset.mul_sum]
  congr 1
  · rcases n with _ | _ | n
    · simp
    · simp; ring
    · simp only [Nat.add_sub_cancel, Nat.add_sub_cancel_left]
      rw [show n + 1 + 1 - 2 = n by omega]
      push_cast
      ring
  · exact Finset.sum_congr rfl fun j _ => by ring

theorem Lp_genPoly (k θ σ lam μ : ℝ) (V : ℕ → ℝ) (n : ℕ) : Lp V (genPoly k θ σ lam μ n) =
    -(n * k) * (V n - θ * V (n - 1)) + n * (n - 1 : ℕ) * σ ^ 2 / 2 * V (n - 1) +
      lam * ∑ j ∈ Finset.range n, n.choose (j + 1) * ((j + 1).factorial * μ ^ (j + 1)) * V (n - (j + 1)) := by
  rw [genPoly, map_add, map_add, Lp_X, Lp_X, map_sum, Finset.mul_sum]
  simp only [Lp_X]
  congr 1
  · ring
  · exact Finset.sum_congr rfl fun j _ => by ring

theorem dynkin_iff (k θ σ lam μ x : ℝ) (hμ : 0 < μ) (V : ℕ → ℝ → ℝ) : Dynkin k θ σ lam μ x V ↔
    (∀ n, V n 0 = x ^ n) ∧ (∀ n, ContinuousOn (V n) (Set.Ici 0)) ∧ ∀ n t, 0 < t → HasDerivAt (V n)
      (-(n * k) * (V n t - θ * V (n - 1) t) + n * (n - 1 : ℕ) * σ ^ 2 / 2 * V (n - 1) t +
      lam * ∑ j ∈ Finset.range n, n.choose (j + 1) * ((j + 1).factorial * μ ^ (j + 1)) *
        V (n - (j + 1)) t) t := by
  constructor
  · intro h
    refine ⟨h.init, h.cont, fun n t ht => ?_⟩
    have := h.deriv n t ht _ (gen_pow k θ σ lam hμ n)
    rw [← Lp_eq (fun i => V i t), Lp_genPoly] at this
    exact this
  · rintro ⟨h1, h2, h3⟩
    refine ⟨h1, h2, fun n t ht q hq => ?_⟩
    have : q = genPoly k θ σ lam μ n := Polynomial.funext fun v => by
      rw [hq, gen_pow k θ σ lam hμ]
    rw [this, ← Lp_eq (fun i => V i t), Lp_genPoly]
    exact h3 n t ht

/-- a linear equation with the initial value `0` only has the solution `0` -/
theorem linear_zero (c : ℝ) (f : ℝ → ℝ) (h0 : f 0 = 0) (hc : ContinuousOn f (Set.Ici 0))
    (hd : ∀ t, 0 < t → HasDerivAt f (c * f t) t) (t : ℝ) (ht : 0 ≤ t) : f t = 0 := by
  have hg : ∀ u, 0 < u → HasDerivAt (fun u => Real.exp (-(c * u)) * f u) 0 u := by
    intro u hu
    have h1 : HasDerivAt (fun u => Real.exp (-(c * u))) (Real.exp (-(c * u)) * -c) u := by
      have := ((hasDerivAt_id u).const_mul c).neg.exp
      simpa using this
    exact (h1.mul (hd u hu)).congr_deriv (by ring)
  rcases ht.eq_or_lt with rfl | ht
  · exact h0
  have hcont : ContinuousOn (fun u => Real.exp (-(c * u)) * f u) (Set.Icc 0 t) :=
    (by fun_prop : Continuous fun u => Real.exp (-(c * u))).continuousOn.mul
      (hc.mono fun x hx => hx.1)
  obtain ⟨_, _, key⟩ := exists_hasDerivAt_eq_slope _ (fun _ => 0) ht hcont fun u hu => hg u hu.1
  simp only [h0, mul_zero, sub_zero] at key
  have := (div_eq_zero_iff.1 key.symm).resolve_right ht.ne'
  exact (mul_eq_zero.1 this).resolve_left (Real.exp_pos _).ne'

theorem dynkin_unique {k θ σ lam μ x : ℝ} (hμ : 0 < μ) {V W : ℕ → ℝ → ℝ} (hV : Dynkin k θ σ lam μ x V)
    (hW : Dynkin k θ σ lam μ x W) (n : ℕ) (t : ℝ) (ht : 0 ≤ t) : V n t = W n t := by
  rw [dynkin_iff _ _ _ _ _ _ hμ] at hV hW
  induction n using Nat.strong_induction_on generalizing t with
  | _ n ih =>
    have key := linear_zero (-(n * k)) (fun u => V n u - W n u) (by rw [hV.1, hW.1, sub_self])
      ((hV.2.1 n).sub (hW.2.1 n)) (fun u hu => by
        refine ((hV.2.2 n u hu).sub (hW.2.2 n u hu)).congr_deriv ?_
        have e1 : (n : ℝ) * V (n - 1) u = n * W (n - 1) u := by
          rcases n with _ | n
          · simp
          · rw [ih (n + 1 - 1) (by omega) u hu.le]
        have e2 : ∀ j ∈ Finset.range n, n.choose (j + 1) * ((j + 1).factorial * μ ^ (j + 1)) *
            V (n - (j + 1)) u = n.choose (j + 1) * ((j + 1).factorial * μ ^ (j + 1)) *
            W (n - (j + 1)) u := by
          intro j hj
          rw [Finset.mem_range] at hj
          rw [ih _ (by omega) u hu.le]
        rw [Finset.sum_congr rfl e2]
        linear_combination (k * θ + (n - 1 : ℕ) * σ ^ 2 / 2) * e1) t ht
    exact sub_eq_zero.1 key

/-! ### the moments of the model -/

theorem Ex_zero (q : P2v) : Ex (fun m n => if m = 0 ∧ n = 0 then 1 else 0) q = MvPolynomial.eval (fun _ => 0) q := by
  induction q using MvPolynomial.induction_on' with
  | monomial s c =>
    rw [Ex_monomial, mono_eq]
    simp only [map_mul, MvPolynomial.eval_C, map_pow, MvPolynomial.eval_X]
    by_cases h0 : s 0 = 0 <;> by_cases h1 : s 1 = 0 <;> simp [h0, h1]
  | add p q hp hq => rw [map_add, map_add, hp, hq]

theorem U_zero {Z : ZFun} {δ : ℝ} (hZ : ZGen Z δ) {p : Par} (hp : p.OK) (a b β : ℝ) (n : ℕ) :
    U Z p a b β n 0 = (β + a) ^ n := by
  rw [U]
  have : (fun m n => jm Z p a b m n 0) = fun m n => if m = 0 ∧ n = 0 then 1 else 0 := by
    funext m n; exact jm_zero hZ hp a b m n
  rw [this, Ex_zero, Wt, xi]
  simp

theorem U_cont {c : Cfg} {Z : ZFun} (hc : CfgOK c Z) {p : Par} (hp : p.OK) (a b β : ℝ) (n : ℕ) :
    ContinuousOn (U Z p a b β n) (Set.Ici 0) := by
  have hx : ∀ q : P2v, ContinuousOn (fun t => Ex (fun m n => jm Z p a b m n t) q) (Set.Ici 0) := by
    intro q
    induction q using MvPolynomial.induction_on' with
    | monomial s x =>
      simp only [Ex_monomial]
      obtain ⟨f, cf, hf⟩ := jm_cont hc hp a b (s 0) (s 1)
      exact ((continuous_const.mul cf).continuousOn (f := fun t => x * f t)).congr fun t ht => by
        simp only [hf t ht]
    | add p q hp hq => simp only [map_add]; exact hp.add hq
  have e : ∀ t, U Z p a b β n t = ∑ m ∈ Finset.range (n + 1), ((β + a * Real.exp (-(p.k * t))) ^ m *
      Real.exp (-(p.k * t)) ^ (n - m) * n.choose m) * Ex (fun m n => jm Z p a b m n t) (xi p ^ (n - m)) := by
    intro t
    rw [U, Wt, add_pow, map_sum]
    refine Finset.sum_congr rfl fun m _ => ?_
    rw [← Ex_C_mul]
    congr 1
    simp only [map_mul, map_pow, map_natCast]
    ring
  have : U Z p a b β n = fun t => _ := funext e
  rw [this]
  refine continuousOn_finsetSum _ fun m _ => ContinuousOn.mul ?_ (hx _)
  exact (by fun_prop : Continuous fun t => (β + a * Real.exp (-(p.k * t))) ^ m *
      Real.exp (-(p.k * t)) ^ (n - m) * (n.choose m : ℝ)).continuousOn

theorem U_dynkin {p : Par} (hp : p.OK) (x θ : ℝ) :
    Dynkin p.k θ p.sigma p.lmbd p.mu_v x (U rawZ p (x - θ) θ θ) := by
  rw [dynkin_iff _ _ _ _ _ _ hp.mu]
  refine ⟨fun n => by rw [U_zero rawZ_gen hp]; ring, U_cont rawCfg_ok hp _ _ _, fun n t ht => ?_⟩
  refine (U_deriv rawCfg_ok rawZ_gen hp (x - θ) θ θ n t ht).congr_deriv ?_
  simp only [ite_self, one_mul, sub_self, zero_mul, add_zero]

end Ajd.Srjd
