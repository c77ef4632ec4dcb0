import Verif.Props.Nest
import Verif.Props.JumpAvg
import Verif.Props.Fsv2Sde
import Verif.Props.Fsv2jSde

/-! C76: the mean and the variance of the return, and the covariance of two returns in a row, in closed form. C77: what follows from it. -/

namespace Ajd.Gen
open MvPolynomial MeasureTheory

variable {σ : Type} [Fintype σ]

theorem mom_mul {ν : Measure (σ → ℝ)} (hν : Mom ν) (i j : σ) : Integrable (fun y => y i * y j) ν := by
  exact (hν (X i * X j)).congr (Filter.Eventually.of_forall fun y => by simp)

theorem mom_one {ν : Measure (σ → ℝ)} (hν : Mom ν) (i : σ) : Integrable (fun y => y i) ν := by
  simpa using hν (X i)

/-- the generator of a coordinate -/
theorem isGen_lin {c : JumpDiff σ} (i : σ) {g : MvPolynomial σ ℝ}
    (hg : ∀ x, eval x g = c.b x i + c.lam * ∫ y, y i ∂c.ν) : c.IsGen (X i) g := by
  classical
  intro x
  rw [hg]
  simp [pderiv_X, Pi.single_apply, apply_ite]

/-- the generator of the product of two coordinates -/
theorem isGen_quad {c : JumpDiff σ} (hp : IsProbabilityMeasure c.ν) (hν : Mom c.ν) (i j : σ) {g : MvPolynomial σ ℝ}
    (hg : ∀ x, eval x g = c.b x i * x j + c.b x j * x i + (c.a x i j + c.a x j i) / 2 +
      c.lam * (x i * (∫ y, y j ∂c.ν) + x j * (∫ y, y i ∂c.ν) + ∫ y, y i * y j ∂c.ν)) : c.IsGen (X i * X j) g := by
  classical
  intro x
  have e : ∫ y, (eval (x + y) (X i * X j) - eval x (X i * X j)) ∂c.ν =
      x i * (∫ y, y j ∂c.ν) + x j * (∫ y, y i ∂c.ν) + ∫ y, y i * y j ∂c.ν := by
    have h1 := (mom_one hν j).const_mul (x i)
    have h2 := (mom_one hν i).const_mul (x j)
    have h12 : Integrable (fun y : σ → ℝ => x i * y j + x j * y i) c.ν := h1.add h2
    rw [← integral_const_mul, ← integral_const_mul, ← integral_add h1 h2, ← integral_add h12 (mom_mul hν i j)]
    refine integral_congr_ae (Filter.Eventually.of_forall fun y => ?_)
    simp only [map_mul, eval_X, Pi.add_apply]
    ring
  rw [hg, e]
  have d1 : ∀ l, eval x (pderiv l (X i * X j)) = (if i = l then x j else 0) + if j = l then x i else 0 := by
    intro l
    simp only [pderiv_mul, pderiv_X, Pi.single_apply, map_add, map_mul, eval_X]
    split_ifs <;> simp
  have d2 : ∀ l l', eval x (pderiv l (pderiv l' (X i * X j))) =
      (if i = l' then if j = l then (1 : ℝ) else 0 else 0) + if j = l' then if i = l then (1 : ℝ) else 0 else 0 := by
    intro l l'
    simp only [pderiv_mul, pderiv_X, Pi.single_apply, map_add, map_mul, eval_X]
    split_ifs <;> simp [pderiv_X, Pi.single_apply, *]
  simp only [d1, d2, mul_add, Finset.sum_add_distrib, mul_ite, mul_one, mul_zero, Finset.sum_ite_eq, Finset.mem_univ, if_true]
  ring

/-- a linear equation for an expectation -/
theorem sol_lin {c : JumpDiff σ} {b : σ → MvPolynomial σ ℝ} {a : σ → σ → MvPolynomial σ ℝ} (h : PolyCoef c b a)
    (hν : Mom c.ν) {E0 : MvPolynomial σ ℝ →ₗ[ℝ] ℝ} {E : ℝ → MvPolynomial σ ℝ →ₗ[ℝ] ℝ} (hE : c.Dynkin E0 E)
    {f g : MvPolynomial σ ℝ} (hg : c.IsGen f g) (k : ℝ) {φ r : ℝ → ℝ} (hφ : ∀ t, HasDerivAt φ (r t - k * φ t) t)
    (hr : ∀ t, 0 ≤ t → E t g = r t - k * E t f) (h0 : E0 f = φ 0) (t : ℝ) (ht : 0 ≤ t) : E t f = φ t := by
  obtain ⟨hs, e0⟩ := dynkin_sol h hν hE
  obtain rfl := isGen_unique hg (isGen_op h hν f)
  have hd : ∀ s, 0 ≤ s → HasDerivWithinAt (fun s => Real.exp (k * s) * (E s f - φ s)) 0 (Set.Ici 0) s := by
    intro s hs'
    have h1 := hs f s hs'
    rw [hr s hs'] at h1
    have h2 : HasDerivAt (fun s => Real.exp (k * s)) (Real.exp (k * s) * k) s := by
      simpa using ((hasDerivAt_id s).const_mul k).exp
    refine (h2.hasDerivWithinAt.mul (h1.sub (hφ s).hasDerivWithinAt)).congr_deriv ?_
    simp only [Pi.sub_apply]
    ring
  have hc := constant_of_has_deriv_right_zero (a := 0) (b := t) (f := fun s => Real.exp (k * s) * (E s f - φ s))
    (fun s hs' => ((hd s hs'.1).continuousWithinAt).mono Set.Icc_subset_Ici_self)
    (fun s hs' => (hd s hs'.1).mono (Set.Ici_subset_Ici.2 hs'.1)) t ⟨ht, le_rfl⟩
  rw [e0, h0, sub_self, mul_zero] at hc
  have := (mul_eq_zero.1 hc).resolve_left (Real.exp_ne_zero _)
  linarith

end Ajd.Gen

namespace Ajd.Closed
open MvPolynomial MeasureTheory Gen

/-- the numbers in the formulas -/
structure Data where
  /-- speed of mean reversion -/
  k : ℝ
  /-- the mean of the variance in the long run -/
  T : ℝ
  /-- the volatility of the variance -/
  σ : ℝ
  /-- the correlation of the Wiener processes -/
  ρ : ℝ
  /-- the rate of the return, without the variance: drift and mean of the jumps per unit of time -/
  nu : ℝ
  /-- the mean of the squares of the jumps of the variance per unit of time -/
  q : ℝ
  /-- the mean of the products of the jumps of the variance and the return per unit of time -/
  s : ℝ
  /-- the mean of the squares of the jumps of the return per unit of time -/
  u : ℝ
  /-- the mean of the initial variance -/
  a : ℝ
  /-- the variance of the initial variance -/
  w : ℝ

/-- the mean of the variance at the time `t` -/
noncomputable def vMean (d : Data) (t : ℝ) : ℝ := d.T + (d.a - d.T) * Real.exp (-d.k * t)

/-- the mean of the return over the time `t` -/
noncomputable def yMean (d : Data) (t : ℝ) : ℝ := (d.nu - d.T / 2) * t - (d.a - d.T) * (1 - Real.exp (-d.k * t)) / (2 * d.k)

/-- the variance of the variance in the long run -/
noncomputable def W (d : Data) : ℝ := (d.σ ^ 2 * d.T + d.q) / (2 * d.k)

/-- the amplitudes of `e^{-kt}` and `e^{-2kt}` in the variance of the variance -/
noncomputable def A (d : Data) : ℝ := d.σ ^ 2 * (d.a - d.T) / d.k
noncomputable def B (d : Data) : ℝ := d.w - W d - A d

/-- the variance of the variance at the time `t` -/
noncomputable def vVar (d : Data) (t : ℝ) : ℝ := W d + A d * Real.exp (-d.k * t) + B d * Real.exp (-d.k * t) ^ 2

/-- the rate of the covariance of variance and return in the long run -/
noncomputable def R (d : Data) : ℝ := d.ρ * d.σ * d.T + d.s - W d / 2

/-- the covariance of the variance at the time `t` and the return over `t` -/
noncomputable def vyCov (d : Data) (t : ℝ) : ℝ :=
  R d * (1 - Real.exp (-d.k * t)) / d.k + (d.ρ * d.σ * (d.a - d.T) - A d / 2) * t * Real.exp (-d.k * t) -
    B d * Real.exp (-d.k * t) * (1 - Real.exp (-d.k * t)) / (2 * d.k)

/-- the variance of the return over the time `t` -/
noncomputable def yVar (d : Data) (t : ℝ) : ℝ :=
  (d.T + d.u) * t + (d.a - d.T) * (1 - Real.exp (-d.k * t)) / d.k -
    R d * (d.k * t - 1 + Real.exp (-d.k * t)) / d.k ^ 2 -
    (d.ρ * d.σ * (d.a - d.T) - A d / 2) * (1 - Real.exp (-d.k * t) * (1 + d.k * t)) / d.k ^ 2 +
    B d * (1 - Real.exp (-d.k * t)) ^ 2 / (4 * d.k ^ 2)

theorem hexp (k t : ℝ) : HasDerivAt (fun t => Real.exp (-k * t)) (-k * Real.exp (-k * t)) t := by
  have := ((hasDerivAt_id t).const_mul (-k)).exp
  simp only [mul_one, id] at this
  rwa [mul_comm] at this

theorem d_vMean (d : Data) (t : ℝ) : HasDerivAt (vMean d) (d.k * (d.T - vMean d t)) t := by
  refine (((hexp d.k t).const_mul (d.a - d.T)).const_add d.T).congr_deriv ?_
  rw [vMean]
  ring

theorem d_yMean (d : Data) (hk : d.k ≠ 0) (t : ℝ) : HasDerivAt (yMean d) (d.nu - vMean d t / 2) t := by
  refine (((hasDerivAt_id t).const_mul (d.nu - d.T / 2)).sub
    ((((hexp d.k t).const_sub 1).const_mul (d.a - d.T)).div_const (2 * d.k))).congr_deriv ?_
  rw [vMean]
  field_simp
  ring

theorem d_vVar (d : Data) (hk : d.k ≠ 0) (t : ℝ) :
    HasDerivAt (vVar d) (d.σ ^ 2 * vMean d t + d.q - 2 * d.k * vVar d t) t := by
  refine ((((hexp d.k t).const_mul (A d)).const_add (W d)).add (((hexp d.k t).pow 2).const_mul (B d))).congr_deriv ?_
  rw [vVar, vMean, B, A, W]
  field_simp
  ring

theorem d_vyCov (d : Data) (hk : d.k ≠ 0) (t : ℝ) :
    HasDerivAt (vyCov d) (d.ρ * d.σ * vMean d t + d.s - vVar d t / 2 - d.k * vyCov d t) t := by
  refine (((((hexp d.k t).const_sub 1).const_mul (R d)).div_const d.k).add
    (((hasDerivAt_id t).const_mul (d.ρ * d.σ * (d.a - d.T) - A d / 2)).mul (hexp d.k t))).sub
    ((((hexp d.k t).const_mul (B d)).mul ((hexp d.k t).const_sub 1)).div_const (2 * d.k)) |>.congr_deriv ?_
  rw [vVar, vMean, vyCov, B, A, R]
  simp only [id]
  field_simp
  ring

theorem d_yVar (d : Data) (hk : d.k ≠ 0) (t : ℝ) : HasDerivAt (yVar d) (vMean d t + d.u - vyCov d t) t := by
  have h1 : HasDerivAt (fun t => d.k * t - 1 + Real.exp (-d.k * t)) (d.k * 1 + -d.k * Real.exp (-d.k * t)) t :=
    (((hasDerivAt_id t).const_mul d.k).sub_const 1).add (hexp d.k t)
  have h2 : HasDerivAt (fun t => 1 - Real.exp (-d.k * t) * (1 + d.k * t)) _ t :=
    ((hexp d.k t).mul (((hasDerivAt_id t).const_mul d.k).const_add 1)).const_sub 1
  refine (((((hasDerivAt_id t).const_mul (d.T + d.u)).add
    ((((hexp d.k t).const_sub 1).const_mul (d.a - d.T)).div_const d.k)).sub
    ((h1.const_mul (R d)).div_const (d.k ^ 2))).sub
    ((h2.const_mul (d.ρ * d.σ * (d.a - d.T) - A d / 2)).div_const (d.k ^ 2))).add
    (((((hexp d.k t).const_sub 1).pow 2).const_mul (B d)).div_const (4 * d.k ^ 2)) |>.congr_deriv ?_
  rw [vMean, vyCov]
  simp only [id]
  field_simp
  ring

theorem at_zero (d : Data) : vMean d 0 = d.a ∧ yMean d 0 = 0 ∧ vVar d 0 = d.w ∧ vyCov d 0 = 0 ∧ yVar d 0 = 0 := by
  simp [vMean, yMean, vVar, vyCov, yVar, B]

/-- variance and return: the first two moments -/
theorem pair {c : JumpDiff (Fin 2)} {b : Fin 2 → MvPolynomial (Fin 2) ℝ} {a : Fin 2 → Fin 2 → MvPolynomial (Fin 2) ℝ}
    (h : PolyCoef c b a) (hν : Mom c.ν) (d : Data) (hk : d.k ≠ 0) (θ mu : ℝ)
    (hb : ∀ x, c.b x = ![d.k * (θ - x 0), mu - x 0 / 2])
    (ha : ∀ x, c.a x = ![![d.σ ^ 2 * x 0, d.ρ * d.σ * x 0], ![d.ρ * d.σ * x 0, x 0]])
    (m0 : d.k * d.T = d.k * θ + c.lam * ∫ y, y 0 ∂c.ν) (m1 : d.nu = mu + c.lam * ∫ y, y 1 ∂c.ν)
    (m00 : d.q = c.lam * ∫ y, y 0 * y 0 ∂c.ν) (m01 : d.s = c.lam * ∫ y, y 0 * y 1 ∂c.ν)
    (m11 : d.u = c.lam * ∫ y, y 1 * y 1 ∂c.ν)
    {E0 : MvPolynomial (Fin 2) ℝ →ₗ[ℝ] ℝ} {E : ℝ → MvPolynomial (Fin 2) ℝ →ₗ[ℝ] ℝ} (hE : c.Dynkin E0 E)
    (s : E0 1 = 1) (s0 : E0 (X 0) = d.a) (s00 : E0 (X 0 * X 0) = d.w + d.a ^ 2) (s1 : ∀ f, E0 (X 1 * f) = 0)
    (t : ℝ) (ht : 0 ≤ t) :
    E t 1 = 1 ∧ E t (X 0) = vMean d t ∧ E t (X 1) = yMean d t ∧ E t (X 0 * X 0) = vVar d t + vMean d t ^ 2 ∧
      E t (X 0 * X 1) = vyCov d t + vMean d t * yMean d t ∧ E t (X 1 * X 1) = yVar d t + yMean d t ^ 2 := by
  obtain ⟨z1, z2, z3, z4, z5⟩ := at_zero d
  have o : ∀ t, 0 ≤ t → ∀ r, E t (C r) = r := fun t ht r => by
    rw [C_eq_smul_one, map_smul, dynkin_one hE t ht, s, smul_eq_mul, mul_one]
  have cm : ∀ t r f, E t (C r * f) = r * E t f := fun t r f => by
    rw [C_mul', map_smul, smul_eq_mul]
  have e0 : ∀ t, 0 ≤ t → E t (X 0) = vMean d t := sol_lin h hν hE
    (isGen_lin 0 (g := C (d.k * d.T) - C d.k * X 0) fun x => by
      rw [hb]; simp [m0]; ring) d.k (r := fun _ => d.k * d.T)
    (fun t => (d_vMean d t).congr_deriv (by ring)) (fun t ht => by rw [map_sub, cm, o t ht]) (by rw [s0, z1])
  have e1 : ∀ t, 0 ≤ t → E t (X 1) = yMean d t := sol_lin h hν hE
    (isGen_lin 1 (g := C d.nu - C (1 / 2) * X 0) fun x => by
      rw [hb]; simp [m1]; ring) 0 (r := fun t => d.nu - vMean d t / 2)
    (fun t => (d_yMean d hk t).congr_deriv (by ring)) (fun t ht => by rw [map_sub, cm, o t ht, e0 t ht]; ring)
    (by rw [z2]; simpa using s1 1)
  have e00 : ∀ t, 0 ≤ t → E t (X 0 * X 0) = vVar d t + vMean d t ^ 2 := sol_lin h hν hE
    (isGen_quad h.prob hν 0 0 (g := C (2 * d.k * d.T + d.σ ^ 2) * X 0 + C d.q - C (2 * d.k) * (X 0 * X 0)) fun x => by
      rw [hb, ha]; simp [m00]; linear_combination 2 * x 0 * m0) (2 * d.k)
    (r := fun t => (2 * d.k * d.T + d.σ ^ 2) * vMean d t + d.q)
    (fun t => ((d_vVar d hk t).add ((d_vMean d t).pow 2)).congr_deriv (by ring))
    (fun t ht => by rw [map_sub, map_add, cm, cm, o t ht, e0 t ht])
    (by rw [z1, z3, s00])
  have e01 : ∀ t, 0 ≤ t → E t (X 0 * X 1) = vyCov d t + vMean d t * yMean d t := sol_lin h hν hE
    (isGen_quad h.prob hν 0 1 (g := C (d.k * d.T) * X 1 + C (d.nu + d.ρ * d.σ) * X 0 - C (1 / 2) * (X 0 * X 0) + C d.s
        - C d.k * (X 0 * X 1)) fun x => by
      rw [hb, ha]; simp [m01]; linear_combination x 1 * m0 + x 0 * m1) d.k
    (r := fun t => d.k * d.T * yMean d t + (d.nu + d.ρ * d.σ) * vMean d t - 1 / 2 * (vVar d t + vMean d t ^ 2) + d.s)
    (fun t => ((d_vyCov d hk t).add ((d_vMean d t).mul (d_yMean d hk t))).congr_deriv (by ring))
    (fun t ht => by rw [map_sub, map_add, map_sub, map_add, cm, cm, cm, cm, o t ht, e0 t ht, e1 t ht, e00 t ht])
    (by rw [z2, z4, mul_comm, s1]; ring)
  have e11 : ∀ t, 0 ≤ t → E t (X 1 * X 1) = yVar d t + yMean d t ^ 2 := sol_lin h hν hE
    (isGen_quad h.prob hν 1 1 (g := C (2 * d.nu) * X 1 - X 0 * X 1 + X 0 + C d.u) fun x => by
      rw [hb, ha]; simp [m11]; linear_combination 2 * x 1 * m1) 0
    (r := fun t => 2 * d.nu * yMean d t - (vyCov d t + vMean d t * yMean d t) + vMean d t + d.u)
    (fun t => ((d_yVar d hk t).add ((d_yMean d hk t).pow 2)).congr_deriv (by ring))
    (fun t ht => by rw [map_add, map_add, map_sub, cm, o t ht, e0 t ht, e1 t ht, e01 t ht]; ring)
    (by rw [z2, z5, s1]; ring)
  exact ⟨by simpa using o t ht 1, e0 t ht, e1 t ht, e00 t ht, e01 t ht, e11 t ht⟩

end Ajd.Closed

namespace Ajd.Closed
open MvPolynomial MeasureTheory Gen

theorem var_sq {σ : Type} [Fintype σ] (L : MvPolynomial σ ℝ →ₗ[ℝ] ℝ) (h : L 1 = 1) (i : σ) {m V : ℝ} (hm : L (X i) = m)
    (hV : L (X i * X i) = V + m ^ 2) : L ((X i - C (L (X i))) ^ 2) = V := by
  have := var_eq L h i
  rw [pow_two (X i : MvPolynomial σ ℝ), hV] at this
  rw [hm] at this ⊢
  linarith

theorem gauss_two (m s : ℝ) : ∫ y, y * y ∂ProbabilityTheory.gaussianReal m (s ^ 2).toNNReal = m ^ 2 + s ^ 2 := by
  have := gaussMom_rec m (s ^ 2).toNNReal 0
  rw [gaussMom_one, gaussMom_zero, Real.coe_toNNReal _ (sq_nonneg s), gaussMom] at this
  simp only [zero_add, ← pow_two] at this ⊢
  rw [this]
  push_cast
  ring

theorem gauss_one (m s : ℝ) : ∫ y, y ∂ProbabilityTheory.gaussianReal m (s ^ 2).toNNReal = m := by
  have := gaussMom_one m (s ^ 2).toNNReal
  simpa [gaussMom] using this

/-- the jumps of the return in `mdl_1fsvj` -/
theorem svj_jumps (mu k θ σ ρ lam mj sj : ℝ) (F : (Fin 2 → ℝ) → ℝ) (hF : Continuous F) :
    ∫ y, F y ∂(Sv.svj mu k θ σ ρ lam mj sj).ν = ∫ y, F ![0, y] ∂ProbabilityTheory.gaussianReal mj (sj ^ 2).toNNReal := by
  have hm : Measurable fun y : ℝ => (![0, y] : Fin 2 → ℝ) := by
    refine measurable_pi_lambda _ fun i => ?_
    fin_cases i <;> simp <;> fun_prop
  exact integral_map hm.aemeasurable hF.aestronglyMeasurable

theorem svj2_jumps (mu k θ σ ρ lam mj sj : ℝ) (F : (Fin 3 → ℝ) → ℝ) (hF : Continuous F) :
    ∫ y, F y ∂(Sv.svj2 mu k θ σ ρ lam mj sj).ν = ∫ y, F ![0, 0, y] ∂ProbabilityTheory.gaussianReal mj (sj ^ 2).toNNReal := by
  have hm : Measurable fun y : ℝ => (![0, 0, y] : Fin 3 → ℝ) := by
    refine measurable_pi_lambda _ fun i => ?_
    fin_cases i <;> simp <;> fun_prop
  exact integral_map hm.aemeasurable hF.aestronglyMeasurable

/-- the numbers of `mdl_1fsvj`, the initial variance having mean `a` and variance `w` -/
noncomputable def dataJ (p : Fsv1j.Par) (a w : ℝ) : Data :=
  ⟨p.k, p.θ, p.σ, p.ρ, p.μ + p.lam * p.μj, 0, 0, p.lam * (p.μj ^ 2 + p.σj ^ 2), a, w⟩

theorem pairJ (p : Fsv1j.Par) (hk : p.k ≠ 0) (a w : ℝ) {E0 : MvPolynomial (Fin 2) ℝ →ₗ[ℝ] ℝ}
    {E : ℝ → MvPolynomial (Fin 2) ℝ →ₗ[ℝ] ℝ} (hE : (Sv.svj p.μ p.k p.θ p.σ p.ρ p.lam p.μj p.σj).Dynkin E0 E)
    (s : E0 1 = 1) (s0 : E0 (X 0) = a) (s00 : E0 (X 0 * X 0) = w + a ^ 2) (s1 : ∀ f, E0 (X 1 * f) = 0)
    (t : ℝ) (ht : 0 ≤ t) :
    E t 1 = 1 ∧ E t (X 0) = vMean (dataJ p a w) t ∧ E t (X 1) = yMean (dataJ p a w) t ∧
      E t (X 0 * X 0) = vVar (dataJ p a w) t + vMean (dataJ p a w) t ^ 2 ∧
      E t (X 0 * X 1) = vyCov (dataJ p a w) t + vMean (dataJ p a w) t * yMean (dataJ p a w) t ∧
      E t (X 1 * X 1) = yVar (dataJ p a w) t + yMean (dataJ p a w) t ^ 2 := by
  have J := svj_jumps p.μ p.k p.θ p.σ p.ρ p.lam p.μj p.σj
  have j0 := J (fun y => y 0) (by fun_prop)
  have j1 := J (fun y => y 1) (by fun_prop)
  have j00 := J (fun y => y 0 * y 0) (by fun_prop)
  have j01 := J (fun y => y 0 * y 1) (by fun_prop)
  have j11 := J (fun y => y 1 * y 1) (by fun_prop)
  refine pair (c := Sv.svj p.μ p.k p.θ p.σ p.ρ p.lam p.μj p.σj) (Sv.svj_coef _ _ _ _ _ _ _ _) (Sv.svj_mom _ _ _ _ _ _ _ _)
    (dataJ p a w) hk p.θ p.μ (fun x => rfl) (fun x => rfl)
    ?_ ?_ ?_ ?_ ?_ hE s s0 s00 s1 t ht
  · rw [j0]; simp [dataJ]
  · rw [j1]; simp [dataJ, Sv.svj, gauss_one]
  · rw [j00]; simp [dataJ]
  · rw [j01]; simp [dataJ]
  · rw [j11]; simp [dataJ, Sv.svj, gauss_two]

/-- two returns in a row -/
theorem covJ (p : Fsv1j.Par) (hk : p.k ≠ 0) {n c : ℝ} {E0 : MvPolynomial (Fin 3) ℝ →ₗ[ℝ] ℝ}
    {E : ℝ → MvPolynomial (Fin 3) ℝ →ₗ[ℝ] ℝ} (s2 : ∀ f, E0 (X 2 * f) = 0) (s : E0 1 = 1) (s0 : E0 (X 0) = p.θ)
    (s1 : E0 (X 1) = n) (s01 : E0 (X 0 * X 1) = c + p.θ * n)
    (hE : (Sv.svj2 p.μ p.k p.θ p.σ p.ρ p.lam p.μj p.σj).Dynkin E0 E) (t : ℝ) (ht : 0 ≤ t) :
    E t (X 1 * X 2) - E t (X 1) * E t (X 2) = -(c * (1 - Real.exp (-p.k * t)) / (2 * p.k)) := by
  have J := svj2_jumps p.μ p.k p.θ p.σ p.ρ p.lam p.μj p.σj
  have j0 := J (fun y => y 0) (by fun_prop)
  have j1 := J (fun y => y 1) (by fun_prop)
  have j2 := J (fun y => y 2) (by fun_prop)
  have j01 := J (fun y => y 0 * y 1) (by fun_prop)
  have j12 := J (fun y => y 1 * y 2) (by fun_prop)
  have h := Sv.svj2_coef p.μ p.k p.θ p.σ p.ρ p.lam p.μj p.σj
  have hν := Sv.svj2_mom p.μ p.k p.θ p.σ p.ρ p.lam p.μj p.σj
  have o : ∀ t, 0 ≤ t → ∀ r, E t (C r) = r := fun t ht r => by
    rw [C_eq_smul_one, map_smul, dynkin_one hE t ht, s, smul_eq_mul, mul_one]
  have cm : ∀ t r f, E t (C r * f) = r * E t f := fun t r f => by
    rw [C_mul', map_smul, smul_eq_mul]
  have hl : (Sv.svj2 p.μ p.k p.θ p.σ p.ρ p.lam p.μj p.σj).lam = p.lam := rfl
  have hb : ∀ x, (Sv.svj2 p.μ p.k p.θ p.σ p.ρ p.lam p.μj p.σj).b x = ![p.k * (p.θ - x 0), 0, p.μ - x 0 / 2] := fun x => rfl
  have ha : ∀ x, (Sv.svj2 p.μ p.k p.θ p.σ p.ρ p.lam p.μj p.σj).a x =
    ![![p.σ ^ 2 * x 0, 0, p.ρ * p.σ * x 0], ![0, 0, 0], ![p.ρ * p.σ * x 0, 0, x 0]] := fun x => rfl
  have e0 : ∀ t, 0 ≤ t → E t (X 0) = p.θ := sol_lin h hν hE
    (isGen_lin 0 (g := C (p.k * p.θ) - C p.k * X 0) fun x => by rw [hb, j0]; simp; ring) p.k (φ := fun _ => p.θ)
    (r := fun _ => p.k * p.θ) (fun t => (hasDerivAt_const t p.θ).congr_deriv (by ring))
    (fun t ht => by rw [map_sub, cm, o t ht]) s0
  have e1 : ∀ t, 0 ≤ t → E t (X 1) = n := sol_lin h hν hE
    (isGen_lin 1 (g := 0) fun x => by rw [hb, j1]; simp) 0 (φ := fun _ => n)
    (r := fun _ => 0) (fun t => (hasDerivAt_const t n).congr_deriv (by ring))
    (fun t ht => by rw [map_zero]; ring) s1
  have e2 : ∀ t, 0 ≤ t → E t (X 2) = (p.μ + p.lam * p.μj - p.θ / 2) * t := sol_lin h hν hE
    (isGen_lin 2 (g := C (p.μ + p.lam * p.μj) - C (1 / 2) * X 0) fun x => by
      rw [hb, j2, hl]; simp [gauss_one]; ring) 0 (φ := fun t => (p.μ + p.lam * p.μj - p.θ / 2) * t)
    (r := fun _ => p.μ + p.lam * p.μj - p.θ / 2)
    (fun t => ((hasDerivAt_id t).const_mul (p.μ + p.lam * p.μj - p.θ / 2)).congr_deriv (by ring))
    (fun t ht => by rw [map_sub, cm, o t ht, e0 t ht]; ring) (by rw [mul_zero]; simpa using s2 1)
  have e01 : ∀ t, 0 ≤ t → E t (X 0 * X 1) = p.θ * n + c * Real.exp (-p.k * t) := sol_lin h hν hE
    (isGen_quad h.prob hν 0 1 (g := C (p.k * p.θ) * X 1 - C p.k * (X 0 * X 1)) fun x => by
      rw [hb, ha, j0, j1, j01]; simp; ring) p.k (φ := fun t => p.θ * n + c * Real.exp (-p.k * t))
    (r := fun _ => p.k * p.θ * n)
    (fun t => (((hexp p.k t).const_mul c).const_add (p.θ * n)).congr_deriv (by ring))
    (fun t ht => by rw [map_sub, cm, cm, e1 t ht]) (by rw [s01]; simp; ring)
  have e12 : ∀ t, 0 ≤ t → E t (X 1 * X 2) = n * ((p.μ + p.lam * p.μj - p.θ / 2) * t) -
      c * (1 - Real.exp (-p.k * t)) / (2 * p.k) := sol_lin h hν hE
    (isGen_quad h.prob hν 1 2 (g := C (p.μ + p.lam * p.μj) * X 1 - C (1 / 2) * (X 0 * X 1)) fun x => by
      rw [hb, ha, j1, j2, j12, hl]; simp [gauss_one]; ring) 0
    (φ := fun t => n * ((p.μ + p.lam * p.μj - p.θ / 2) * t) - c * (1 - Real.exp (-p.k * t)) / (2 * p.k))
    (r := fun t => (p.μ + p.lam * p.μj) * n - 1 / 2 * (p.θ * n + c * Real.exp (-p.k * t)))
    (fun t => ((((hasDerivAt_id t).const_mul (p.μ + p.lam * p.μj - p.θ / 2)).const_mul n).sub
      ((((hexp p.k t).const_sub 1).const_mul c).div_const (2 * p.k))).congr_deriv (by field_simp; ring))
    (fun t ht => by rw [map_sub, cm, cm, e1 t ht, e01 t ht]; ring) (by rw [mul_comm, s2]; simp)
  rw [e12 t ht, e1 t ht, e2 t ht]
  ring

/-- C76. The 1FSVJ model: `m(1, par)` is the mean of the return, `cm(2, par)` its variance and `cov(1, 1, par)` the
covariance of the returns over two intervals in a row, in closed form. -/
theorem C76_fsv1j (p : Fsv1j.Par) (hk : 0 < p.k) (hθ : 0 < p.θ) (hσ : 0 < p.σ) (hh : 0 ≤ p.h) (hρ : 0 ≤ 1 - p.ρ ^ 2)
    (hl : 0 ≤ p.lam) :
    Fsv1j.m 1 p = .ok ((p.μ - p.θ / 2 + p.lam * p.μj) * p.h) ∧
    Fsv1j.cm 2 p = .ok ((p.θ + p.lam * (p.μj ^ 2 + p.σj ^ 2)) * p.h +
      (p.σ ^ 2 * p.θ / (4 * p.k) - p.ρ * p.σ * p.θ) * (p.k * p.h - 1 + Real.exp (-p.k * p.h)) / p.k ^ 2) ∧
    Fsv1j.cov 1 1 p = .ok ((p.σ ^ 2 * p.θ / (4 * p.k) - p.ρ * p.σ * p.θ) * (1 - Real.exp (-p.k * p.h)) ^ 2 / (2 * p.k ^ 2)) := by
  obtain ⟨E0, E, E0', E', h0, hE, h0', hE'⟩ := Sv.svj_exists p (Ito.vMoment p.k p.θ p.σ)
  have hk' := hk.ne'
  have P := pairJ p hk' p.θ (p.σ ^ 2 * p.θ / (2 * p.k)) hE (by simpa [Ito.vMoment] using h0.v 0)
    (by simpa [Ito.vMoment] using h0.v 1)
    (by rw [← pow_two, h0.v]; simp [Ito.vMoment, Finset.prod_range_succ]; ring) h0.y
  obtain ⟨o, e0, e1, -, e01, e11⟩ := P p.h hh
  have hm : yMean (dataJ p p.θ (p.σ ^ 2 * p.θ / (2 * p.k))) p.h = (p.μ - p.θ / 2 + p.lam * p.μj) * p.h := by
    simp only [yMean, dataJ]; ring
  have hA : A (dataJ p p.θ (p.σ ^ 2 * p.θ / (2 * p.k))) = 0 := by simp [A, dataJ]
  have hB : B (dataJ p p.θ (p.σ ^ 2 * p.θ / (2 * p.k))) = 0 := by
    rw [B, hA]; simp [W, dataJ]
  refine ⟨?_, ?_, ?_⟩
  · rw [Sv.C30_m_sde p hk hθ hσ hh hρ hl E0 h0 E hE, pow_one, e1, hm]
  · rw [Sv.C30_cm_sde p hk hθ hσ hh hρ hl E0 h0 E hE, var_sq _ o 1 e1 e11, yVar, hA, hB]
    congr 1
    simp only [dataJ, R, W]
    field_simp
    ring
  · rw [Sv.C30_cov_sde p hk hθ hσ hh hρ hl E0 h0 E hE E0' h0' E' hE', pow_one, pow_one]
    have d := covJ p hk' h0'.1 (n := yMean (dataJ p p.θ (p.σ ^ 2 * p.θ / (2 * p.k))) p.h)
      (c := vyCov (dataJ p p.θ (p.σ ^ 2 * p.θ / (2 * p.k))) p.h)
      (by rw [← map_one (rename ![(0 : Fin 3), 1]), h0'.2, o])
      (by have := h0'.2 (X 0); rw [rename_X] at this; exact this.trans (e0.trans (by simp [vMean, dataJ])))
      (by have := h0'.2 (X 1); rw [rename_X] at this; exact this.trans e1)
      (by
        have := h0'.2 (X 0 * X 1)
        rw [map_mul, rename_X, rename_X] at this
        refine this.trans (e01.trans ?_)
        simp only [vMean, dataJ]; ring) hE' p.h hh
    rw [d, vyCov, hA, hB]
    congr 1
    simp only [dataJ, R, W]
    field_simp
    ring

/-- C76. The 1FSV model. -/
theorem C76_fsv1 (p : Fsv1.Par) (hk : 0 < p.k) (hθ : 0 < p.θ) (hσ : 0 < p.σ) (hh : 0 ≤ p.h) (hρ : 0 ≤ 1 - p.ρ ^ 2) :
    Fsv1.m 1 p = .ok ((p.μ - p.θ / 2) * p.h) ∧
    Fsv1.cm 2 p = .ok (p.θ * p.h +
      (p.σ ^ 2 * p.θ / (4 * p.k) - p.ρ * p.σ * p.θ) * (p.k * p.h - 1 + Real.exp (-p.k * p.h)) / p.k ^ 2) ∧
    Fsv1.cov 1 1 p = .ok ((p.σ ^ 2 * p.θ / (4 * p.k) - p.ρ * p.σ * p.θ) * (1 - Real.exp (-p.k * p.h)) ^ 2 / (2 * p.k ^ 2)) := by
  obtain ⟨a, b, c⟩ := C76_fsv1j ⟨p, 0, 0, 0⟩ hk hθ hσ hh hρ le_rfl
  obtain ⟨n, n'⟩ := Sv.C59_fsv1j ⟨p, 0, 0, 0⟩ hk hθ hσ hh hρ rfl
  refine ⟨(n 1).1.symm.trans (a.trans ?_), (n 2).2.symm.trans (b.trans ?_), (n' 1 1).symm.trans c⟩
  · simp
  · simp

/-- C76. Two returns in a row are negatively correlated if and only if `sigma_v < 4 k rho`: never when the
correlation `rho` with the variance is not positive. -/
theorem C76_sign (p : Fsv1.Par) (hk : 0 < p.k) (hθ : 0 < p.θ) (hσ : 0 < p.σ) (hh : 0 < p.h) (hρ : 0 ≤ 1 - p.ρ ^ 2) :
    ∃ c, Fsv1.cov 1 1 p = .ok c ∧ (c < 0 ↔ p.σ < 4 * p.k * p.ρ) := by
  refine ⟨_, (C76_fsv1 p hk hθ hσ hh.le hρ).2.2, ?_⟩
  have h1 : Real.exp (-p.k * p.h) < 1 := by
    rw [Real.exp_lt_one_iff]
    nlinarith [mul_pos hk hh]
  have h2 : 0 < (1 - Real.exp (-p.k * p.h)) ^ 2 := pow_pos (sub_pos.2 h1) 2
  have e : (p.σ ^ 2 * p.θ / (4 * p.k) - p.ρ * p.σ * p.θ) * (1 - Real.exp (-p.k * p.h)) ^ 2 / (2 * p.k ^ 2) =
      (p.σ - 4 * p.k * p.ρ) * (p.σ * p.θ * (1 - Real.exp (-p.k * p.h)) ^ 2 / (8 * p.k ^ 3)) := by
    field_simp
    ring
  rw [e, mul_neg_iff]
  have h3 : 0 < p.σ * p.θ * (1 - Real.exp (-p.k * p.h)) ^ 2 / (8 * p.k ^ 3) := by positivity
  constructor
  · rintro (⟨-, h⟩ | ⟨h, -⟩)
    · exact absurd h h3.not_gt
    · linarith
  · exact fun h => .inr ⟨by linarith, h3⟩

/-- C76. The 1FSV model: the variance of the return given the initial variance `x`. -/
theorem C76_fsv1_cond (p : Fsv1.Par) (hk : p.k ≠ 0) (hh : 0 ≤ p.h) (hρ : 0 ≤ 1 - p.ρ ^ 2) (x : ℝ) :
    Fsv1c.condCm 2 p x = .ok (yVar ⟨p.k, p.θ, p.σ, p.ρ, p.μ, 0, 0, 0, x, 0⟩ p.h) := by
  obtain ⟨Q, hQ, -⟩ := Sv.heston_semi p.μ p.k p.θ p.σ p.ρ
  have hE := hQ (aeval ![x, 0]).toLinearMap
  have hJ := dynkin_congr (fun f g => (Sv.gen_zero p.μ p.k p.θ p.σ p.ρ 0 0 f g).1) hE
  obtain ⟨o, -, e1, -, -, e11⟩ := pairJ ⟨p, 0, 0, 0⟩ hk x 0 hJ (by simp) (by simp) (by simp [pow_two]) (by simp) p.h hh
  have := Sv.C29_cond_cm_sde p hk hh hρ x _ hE 2 one_le_two
  rw [var_sq _ o 1 e1 e11] at this
  simpa [dataJ] using this

/-- the numbers of the SVCJ model, the initial variance having mean `a` and variance `w` -/
noncomputable def dataC (p : SvcjI.SPar) (a w : ℝ) : Data where
  k := p.k
  T := p.theta + p.lmbd * p.mu_v / p.k
  σ := p.sigma
  ρ := p.rho
  nu := p.mu + p.lmbd * (p.mu_s + p.rhoJ * p.mu_v)
  q := p.lmbd * (2 * p.mu_v ^ 2)
  s := p.lmbd * (p.mu_v * p.mu_s + 2 * p.rhoJ * p.mu_v ^ 2)
  u := p.lmbd * (p.mu_s ^ 2 + p.sigma_s ^ 2 + 2 * p.rhoJ * p.mu_s * p.mu_v + 2 * p.rhoJ ^ 2 * p.mu_v ^ 2)
  a := a
  w := w

theorem svcj_jumps (p : SvcjI.SPar) (hm : 0 < p.mu_v) (F : (Fin 2 → ℝ) → ℝ) (hF : Continuous F) :
    ∫ y, F y ∂p.sde.ν = ∫ y, F ![y.1, p.rhoJ * y.1 + y.2] ∂SvcjI.jl p.toPar := by
  have hG : Measurable fun y : ℝ × ℝ => (![y.1, p.rhoJ * y.1 + y.2] : Fin 2 → ℝ) := by
    refine measurable_pi_lambda _ fun i => ?_
    fin_cases i <;> simp <;> fun_prop
  have e : p.sde.ν = SvcjI.jumpLaw2 p.mu_v p.rhoJ p.mu_s p.sigma_s := rfl
  rw [e, SvcjI.jumpLaw2_eq p.toPar hm, integral_map hG.aemeasurable hF.aestronglyMeasurable]

theorem pairC (p : SvcjI.SPar) (hp : SvcjI.Ok p) (a w : ℝ) {E0 : MvPolynomial (Fin 2) ℝ →ₗ[ℝ] ℝ}
    {E : ℝ → MvPolynomial (Fin 2) ℝ →ₗ[ℝ] ℝ} (hE : p.sde.Dynkin E0 E)
    (s : E0 1 = 1) (s0 : E0 (X 0) = a) (s00 : E0 (X 0 * X 0) = w + a ^ 2) (s1 : ∀ f, E0 (X 1 * f) = 0)
    (t : ℝ) (ht : 0 ≤ t) :
    E t 1 = 1 ∧ E t (X 0) = vMean (dataC p a w) t ∧ E t (X 1) = yMean (dataC p a w) t ∧
      E t (X 0 * X 0) = vVar (dataC p a w) t + vMean (dataC p a w) t ^ 2 ∧
      E t (X 0 * X 1) = vyCov (dataC p a w) t + vMean (dataC p a w) t * yMean (dataC p a w) t ∧
      E t (X 1 * X 1) = yVar (dataC p a w) t + yMean (dataC p a w) t ^ 2 := by
  have J := svcj_jumps p hp.mu_v
  have hk := hp.k
  have g2 := gaussMom_rec p.mu_s (p.sigma_s ^ 2).toNNReal 0
  rw [gaussMom_one, gaussMom_zero, Real.coe_toNNReal _ (sq_nonneg p.sigma_s)] at g2
  have I := SvcjI.jl_int p.toPar hp.mu_v
  have M := SvcjI.jl_moment p.toPar hp.mu_v
  have i10 := I 1 0
  have i01 := I 0 1
  have i20 := I 2 0
  have i11 := I 1 1
  have i02 := I 0 2
  have k10 := M 1 0
  have k01 := M 0 1
  have k20 := M 2 0
  have k11 := M 1 1
  have k02 := M 0 2
  simp only [pow_zero, pow_one, one_mul, mul_one, gaussMom_zero, gaussMom_one, Nat.factorial, Nat.cast_one] at i10 i01 i20 i11 i02 k10 k01 k20 k11 k02
  have j0 : ∫ y, y 0 ∂p.sde.ν = p.mu_v := by
    rw [J (fun y => y 0) (by fun_prop)]
    simpa using k10
  have j1 : ∫ y, y 1 ∂p.sde.ν = p.mu_s + p.rhoJ * p.mu_v := by
    rw [J (fun y => y 1) (by fun_prop)]
    simp only [Matrix.cons_val_one, Matrix.cons_val_fin_one]
    rw [integral_add (i10.const_mul _) i01, integral_const_mul, k10, k01]
    ring
  have j00 : ∫ y, y 0 * y 0 ∂p.sde.ν = 2 * p.mu_v ^ 2 := by
    rw [J (fun y => y 0 * y 0) (by fun_prop)]
    simp only [Matrix.cons_val_zero, ← pow_two]
    rw [k20]
    norm_num
  have j01 : ∫ y, y 0 * y 1 ∂p.sde.ν = p.mu_v * p.mu_s + 2 * p.rhoJ * p.mu_v ^ 2 := by
    rw [J (fun y => y 0 * y 1) (by fun_prop)]
    simp only [Matrix.cons_val_zero, Matrix.cons_val_one, Matrix.cons_val_fin_one]
    have e : ∀ y : ℝ × ℝ, y.1 * (p.rhoJ * y.1 + y.2) = p.rhoJ * y.1 ^ 2 + y.1 * y.2 := fun y => by ring
    simp only [e]
    rw [integral_add (i20.const_mul _) i11, integral_const_mul, k20, k11]
    norm_num
    ring
  have j11 : ∫ y, y 1 * y 1 ∂p.sde.ν =
      p.mu_s ^ 2 + p.sigma_s ^ 2 + 2 * p.rhoJ * p.mu_s * p.mu_v + 2 * p.rhoJ ^ 2 * p.mu_v ^ 2 := by
    rw [J (fun y => y 1 * y 1) (by fun_prop)]
    simp only [Matrix.cons_val_one, Matrix.cons_val_fin_one]
    have e : ∀ y : ℝ × ℝ, (p.rhoJ * y.1 + y.2) * (p.rhoJ * y.1 + y.2) =
        p.rhoJ ^ 2 * y.1 ^ 2 + (2 * p.rhoJ * (y.1 * y.2) + y.2 ^ 2) := fun y => by ring
    simp only [e]
    have i3 : Integrable (fun y : ℝ × ℝ => 2 * p.rhoJ * (y.1 * y.2) + y.2 ^ 2) (SvcjI.jl p.toPar) := (i11.const_mul _).add i02
    rw [integral_add (i20.const_mul _) i3, integral_add (i11.const_mul _) i02, integral_const_mul,
      integral_const_mul, k20, k11, k02, g2]
    norm_num
    ring
  refine pair (c := p.sde) (SvcjI.sY_coef p.toPar hp.mu_v p.mu p.theta p.sigma p.rho p.rhoJ) (SvcjI.momY p.toPar hp.mu_v p.rhoJ)
    (dataC p a w) hk p.theta p.mu (fun x => rfl) (fun x => rfl) ?_ ?_ ?_ ?_ ?_ hE s s0 s00 s1 t ht
  · rw [j0]
    simp only [dataC, SvcjI.svcj]
    field_simp
  · rw [j1]; rfl
  · rw [j00]; rfl
  · rw [j01]; rfl
  · rw [j11]; rfl

/-- C76. The SVCJ model given the initial variance: `m_y(1, par)` and `cm_y(2, par)` of cond_mom.py and cond_cmom.py. -/
theorem C76_svcj_cond (p : SvcjI.SPar) (hp : SvcjI.Ok p) :
    SvcjI.mY 1 p = .ok (yMean (dataC p p.v0 0) p.h) ∧ SvcjI.cmYc 2 p = .ok (yVar (dataC p p.v0 0) p.h) := by
  obtain ⟨E, hE⟩ := (SvcjI.C43_expectation p hp (aeval ![p.v0, 0]).toLinearMap).1
  obtain ⟨o, -, e1, -, -, e11⟩ := pairC p hp p.v0 0 hE (by simp) (by simp) (by simp [pow_two]) (by simp) p.h hp.h
  have a := SvcjI.C43_m_y 1 p hp E hE
  have b := SvcjI.C43_cm_y_cond 2 p hp E hE
  rw [pow_one, e1] at a
  rw [var_sq _ o 1 e1 e11] at b
  exact ⟨a, b⟩

/-- C76. The SVCJ model with the variance in its stationary law: `unm_y(1, par)` of mom.py and `cm_y(2, par)` of cmom.py.
The mean of the variance is `E = theta + lmbd mu_v / k`. -/
theorem C76_svcj : ∃ d0 : ℕ, ∀ d, d0 ≤ d → ∀ p : SvcjI.SPar, SvcjI.Ok p → 0 ≤ p.lmbd → ∀ Ev, Ev = p.theta + p.lmbd * p.mu_v / p.k →
    SvcjI.unmY d 1 p = .ok ((p.mu - Ev / 2 + p.lmbd * (p.mu_s + p.rhoJ * p.mu_v)) * p.h) ∧
    SvcjI.cmY d 2 p = .ok (
      (Ev + p.lmbd * (p.mu_s ^ 2 + p.sigma_s ^ 2 + 2 * p.rhoJ * p.mu_s * p.mu_v + 2 * p.rhoJ ^ 2 * p.mu_v ^ 2)) * p.h +
      ((p.sigma ^ 2 * Ev + 2 * p.lmbd * p.mu_v ^ 2) / (4 * p.k) - p.rho * p.sigma * Ev -
        p.lmbd * (p.mu_v * p.mu_s + 2 * p.rhoJ * p.mu_v ^ 2)) * (p.k * p.h - 1 + Real.exp (-p.k * p.h)) / p.k ^ 2) := by
  obtain ⟨d1, h1⟩ := SvcjI.C43_unm_y 1
  obtain ⟨d2, h2⟩ := SvcjI.C43_cm_y 2
  refine ⟨max d1 d2, fun d hd p hp hl Ev hEv => ?_⟩
  obtain ⟨E0, M, h0, hM, E, hE⟩ := SvcjI.start_exists p hp
  have hk := hp.k
  have m1 : M 1 = Ev := by rw [hEv, Srjd.C51_mean _ _ _ _ _ hp.k hp.mu_v M hM]
  have m2 : M 2 = (p.sigma ^ 2 * Ev + 2 * p.lmbd * p.mu_v ^ 2) / (2 * p.k) + Ev ^ 2 := by
    have e := hM.gen 2 _ (Srjd.gen_pow _ _ _ _ hp.mu_v 2)
    rw [← Srjd.Lp_eq, Srjd.Lp_genPoly] at e
    simp only [Finset.sum_range_succ, Finset.sum_range_zero, hM.zero, m1] at e
    norm_num [Nat.choose, Nat.factorial, hM.zero, m1] at e
    have e' : p.k * Ev = p.k * p.theta + p.lmbd * p.mu_v := by rw [hEv]; field_simp
    field_simp
    linear_combination (-1) * e - 2 * Ev * e'
  have P := pairC p hp Ev ((p.sigma ^ 2 * Ev + 2 * p.lmbd * p.mu_v ^ 2) / (2 * p.k)) hE (by simpa [hM.zero] using h0.v 0)
    (by simpa [m1] using h0.v 1) (by rw [← pow_two, h0.v, m2]) h0.y
  obtain ⟨o, -, e1, -, -, e11⟩ := P p.h hp.h
  have a := h1 d ((le_max_left _ _).trans hd) p hp hl E0 M h0 hM E hE
  have b := h2 d ((le_max_right _ _).trans hd) p hp hl E0 M h0 hM E hE
  rw [pow_one, e1] at a
  rw [var_sq _ o 1 e1 e11] at b
  have hA : A (dataC p Ev ((p.sigma ^ 2 * Ev + 2 * p.lmbd * p.mu_v ^ 2) / (2 * p.k))) = 0 := by simp [A, dataC, ← hEv]
  have hB : B (dataC p Ev ((p.sigma ^ 2 * Ev + 2 * p.lmbd * p.mu_v ^ 2) / (2 * p.k))) = 0 := by
    rw [B, hA]
    simp only [W, dataC, ← hEv]
    ring
  refine ⟨a.trans ?_, b.trans ?_⟩
  · simp only [yMean, dataC, ← hEv]
    congr 1
    ring
  · rw [yVar, hA, hB]
    simp only [R, W, dataC, ← hEv]
    congr 1
    field_simp
    ring

/-- C76. The SRJD model: `m(1, par)` and `cm(2, par)` of cond_mom.py and cond_cmom.py are the mean and the variance of
the variance at the time `h` given `v_0`. The mean in the long run is `E = theta + lmbd mu_v / k`. -/
theorem C76_srjd (p : Srjd.Par) (hk : p.k ≠ 0) (hl : 0 ≤ p.lmbd) (hm : 0 < p.mu_v) (hh : 0 ≤ p.h) (Ev : ℝ)
    (hEv : Ev = p.theta + p.lmbd * p.mu_v / p.k) :
    Srjd.mV 2 1 p = .ok (Ev + (p.v0 - Ev) * Real.exp (-p.k * p.h)) ∧
    Srjd.cmV 2 2 p = .ok (p.lmbd * p.mu_v ^ 2 / p.k * (1 - Real.exp (-p.k * p.h) ^ 2) +
      p.sigma ^ 2 * Ev / (2 * p.k) * (1 - Real.exp (-p.k * p.h)) ^ 2 +
      p.sigma ^ 2 * p.v0 / p.k * (Real.exp (-p.k * p.h) - Real.exp (-p.k * p.h) ^ 2)) := by
  let s : SvcjI.SPar := ⟨⟨p.k, p.lmbd, p.mu_v, 0, 0⟩, p.v0, 0, p.theta, p.sigma, 0, 0, p.h⟩
  have hs : SvcjI.Ok s := ⟨hk, by norm_num [s], hm, hh⟩
  obtain ⟨E, hE⟩ := (SvcjI.C43_expectation s hs (aeval ![s.v0, 0]).toLinearMap).1
  obtain ⟨o, e0, -, e00, -, -⟩ := pairC s hs p.v0 0 hE (by simp) (by simp [s]) (by simp [s, pow_two]) (by simp) p.h hh
  have hV := Srjd.dynkin_var s.toPar hm hE
  have a := Srjd.C50_unique p hk hl hm hh _ hV 2 1 (by norm_num) le_rfl
  obtain ⟨r, er, -, -, v⟩ := Srjd.C36_cmoment_v 2 2 le_rfl le_rfl
  rw [Nat.cast_ofNat] at er
  have b : Srjd.cmV 2 2 p = .ok (∑ i ∈ Finset.range (2 + 1), Nat.choose 2 i * (-E p.h (X 0 ^ 1)) ^ (2 - i) * E p.h (X 0 ^ i)) := by
    rw [Srjd.cmV, er, ok_bind, v p hk hl hm hh _ hV]
    rfl
  simp only [pow_one] at a
  rw [e0] at a
  refine ⟨a.trans ?_, b.trans ?_⟩
  · simp [vMean, dataC, s, hEv]
  · simp only [Finset.sum_range_succ, Finset.sum_range_zero, pow_zero, pow_one, pow_two (X 0 : MvPolynomial (Fin 2) ℝ), o, e0, e00]
    norm_num [Nat.choose]
    simp only [vMean, vVar, B, A, W, dataC, s, ← hEv]
    field_simp
    ring

/-! ### two factors -/

/-- the covariance of a factor and the return over `t`, from the stationary law -/
noncomputable def fCov (k θ σ t : ℝ) : ℝ := -(σ ^ 2 * θ / (4 * k ^ 2) * (1 - Real.exp (-k * t)))

/-- what a factor adds to the variance of the return -/
noncomputable def fVar (k θ σ t : ℝ) : ℝ := σ ^ 2 * θ / (4 * k ^ 3) * (k * t - 1 + Real.exp (-k * t))

theorem d_fCov (k θ σ : ℝ) (hk : k ≠ 0) (t : ℝ) :
    HasDerivAt (fCov k θ σ) (-(σ ^ 2 * θ / (2 * k)) / 2 - k * fCov k θ σ t) t := by
  refine (((hexp k t).const_sub 1).const_mul (σ ^ 2 * θ / (4 * k ^ 2))).neg.congr_deriv ?_
  rw [fCov]
  field_simp
  ring

theorem d_fVar (k θ σ : ℝ) (hk : k ≠ 0) (t : ℝ) : HasDerivAt (fVar k θ σ) (-fCov k θ σ t) t := by
  refine (((((hasDerivAt_id t).const_mul k).sub_const 1).add (hexp k t)).const_mul (σ ^ 2 * θ / (4 * k ^ 3))).congr_deriv ?_
  rw [fCov]
  field_simp
  ring

/-- two factors and the return: the first two moments from the stationary law -/
theorem triple {c : JumpDiff (Fin 3)} {b : Fin 3 → MvPolynomial (Fin 3) ℝ} {a : Fin 3 → Fin 3 → MvPolynomial (Fin 3) ℝ}
    (h : PolyCoef c b a) (hν : Mom c.ν) (p : Fsv2.Par) (h1 : p.k1 ≠ 0) (h2 : p.k2 ≠ 0) (j u : ℝ)
    (hb : ∀ x, c.b x = ![p.k1 * (p.θ1 - x 0), p.k2 * (p.θ2 - x 1), p.μ - (x 0 + x 1) / 2])
    (ha : ∀ x, c.a x = ![![p.σ1 ^ 2 * x 0, 0, 0], ![0, p.σ2 ^ 2 * x 1, 0], ![0, 0, x 0 + x 1]])
    (m0 : c.lam * ∫ y, y 0 ∂c.ν = 0) (m1 : c.lam * ∫ y, y 1 ∂c.ν = 0) (m2 : c.lam * ∫ y, y 2 ∂c.ν = j)
    (m00 : c.lam * ∫ y, y 0 * y 0 ∂c.ν = 0) (m01 : c.lam * ∫ y, y 0 * y 1 ∂c.ν = 0) (m11 : c.lam * ∫ y, y 1 * y 1 ∂c.ν = 0)
    (m02 : c.lam * ∫ y, y 0 * y 2 ∂c.ν = 0) (m12 : c.lam * ∫ y, y 1 * y 2 ∂c.ν = 0) (m22 : c.lam * ∫ y, y 2 * y 2 ∂c.ν = u)
    {E0 : MvPolynomial (Fin 3) ℝ →ₗ[ℝ] ℝ} {E : ℝ → MvPolynomial (Fin 3) ℝ →ₗ[ℝ] ℝ} (hE : c.Dynkin E0 E)
    (s : Sv2.Start E0 (Ito.vMoment p.k1 p.θ1 p.σ1) (Ito.vMoment p.k2 p.θ2 p.σ2)) (t : ℝ) (ht : 0 ≤ t) :
    E t 1 = 1 ∧ E t (X 0) = p.θ1 ∧ E t (X 1) = p.θ2 ∧ E t (X 2) = (p.μ + j - (p.θ1 + p.θ2) / 2) * t ∧
      E t (X 0 * X 2) = fCov p.k1 p.θ1 p.σ1 t + p.θ1 * ((p.μ + j - (p.θ1 + p.θ2) / 2) * t) ∧
      E t (X 1 * X 2) = fCov p.k2 p.θ2 p.σ2 t + p.θ2 * ((p.μ + j - (p.θ1 + p.θ2) / 2) * t) ∧
      E t (X 2 * X 2) = (p.θ1 + p.θ2 + u) * t + fVar p.k1 p.θ1 p.σ1 t + fVar p.k2 p.θ2 p.σ2 t +
        ((p.μ + j - (p.θ1 + p.θ2) / 2) * t) ^ 2 := by
  have s' : E0 1 = 1 := by simpa [Ito.vMoment] using s.v 0 0
  have o : ∀ t, 0 ≤ t → ∀ r, E t (C r) = r := fun t ht r => by
    rw [C_eq_smul_one, map_smul, dynkin_one hE t ht, s', smul_eq_mul, mul_one]
  have cm : ∀ t r f, E t (C r * f) = r * E t f := fun t r f => by
    rw [C_mul', map_smul, smul_eq_mul]
  set n := p.μ + j - (p.θ1 + p.θ2) / 2 with hn
  have dn : ∀ t, HasDerivAt (fun t => n * t) n t := fun t => by simpa using (hasDerivAt_id t).const_mul n
  have e0 : ∀ t, 0 ≤ t → E t (X 0) = p.θ1 := sol_lin h hν hE
    (isGen_lin 0 (g := C (p.k1 * p.θ1) - C p.k1 * X 0) fun x => by rw [hb, m0]; simp; ring) p.k1 (φ := fun _ => p.θ1)
    (r := fun _ => p.k1 * p.θ1) (fun t => (hasDerivAt_const t p.θ1).congr_deriv (by ring))
    (fun t ht => by rw [map_sub, cm, o t ht]) (by simpa [Ito.vMoment] using s.v 1 0)
  have e1 : ∀ t, 0 ≤ t → E t (X 1) = p.θ2 := sol_lin h hν hE
    (isGen_lin 1 (g := C (p.k2 * p.θ2) - C p.k2 * X 1) fun x => by rw [hb, m1]; simp; ring) p.k2 (φ := fun _ => p.θ2)
    (r := fun _ => p.k2 * p.θ2) (fun t => (hasDerivAt_const t p.θ2).congr_deriv (by ring))
    (fun t ht => by rw [map_sub, cm, o t ht]) (by simpa [Ito.vMoment] using s.v 0 1)
  have e2 : ∀ t, 0 ≤ t → E t (X 2) = n * t := sol_lin h hν hE
    (isGen_lin 2 (g := C (p.μ + j) - C (1 / 2) * X 0 - C (1 / 2) * X 1) fun x => by rw [hb, m2]; simp; ring) 0
    (r := fun _ => n) (fun t => (dn t).congr_deriv (by ring))
    (fun t ht => by rw [map_sub, map_sub, cm, cm, o t ht, e0 t ht, e1 t ht, hn]; ring) (by simpa using s.y 1)
  have e00 : ∀ t, 0 ≤ t → E t (X 0 * X 0) = p.σ1 ^ 2 * p.θ1 / (2 * p.k1) + p.θ1 ^ 2 := sol_lin h hν hE
    (isGen_quad h.prob hν 0 0 (g := C (2 * p.k1 * p.θ1 + p.σ1 ^ 2) * X 0 - C (2 * p.k1) * (X 0 * X 0)) fun x => by
      rw [hb, ha]; simp; linear_combination -2 * x 0 * m0 - m00) (2 * p.k1)
    (φ := fun _ => p.σ1 ^ 2 * p.θ1 / (2 * p.k1) + p.θ1 ^ 2) (r := fun _ => (2 * p.k1 * p.θ1 + p.σ1 ^ 2) * p.θ1)
    (fun t => (hasDerivAt_const t _).congr_deriv (by field_simp; ring))
    (fun t ht => by rw [map_sub, cm, cm, e0 t ht])
    (by have := s.v 2 0; simp [Ito.vMoment, Finset.prod_range_succ] at this; rw [← pow_two, this]; ring)
  have e11 : ∀ t, 0 ≤ t → E t (X 1 * X 1) = p.σ2 ^ 2 * p.θ2 / (2 * p.k2) + p.θ2 ^ 2 := sol_lin h hν hE
    (isGen_quad h.prob hν 1 1 (g := C (2 * p.k2 * p.θ2 + p.σ2 ^ 2) * X 1 - C (2 * p.k2) * (X 1 * X 1)) fun x => by
      rw [hb, ha]; simp; linear_combination -2 * x 1 * m1 - m11) (2 * p.k2)
    (φ := fun _ => p.σ2 ^ 2 * p.θ2 / (2 * p.k2) + p.θ2 ^ 2) (r := fun _ => (2 * p.k2 * p.θ2 + p.σ2 ^ 2) * p.θ2)
    (fun t => (hasDerivAt_const t _).congr_deriv (by field_simp; ring))
    (fun t ht => by rw [map_sub, cm, cm, e1 t ht])
    (by have := s.v 0 2; simp [Ito.vMoment, Finset.prod_range_succ] at this; rw [← pow_two, this]; ring)
  have e01 : ∀ t, 0 ≤ t → E t (X 0 * X 1) = p.θ1 * p.θ2 := by
    refine sol_lin h hν hE
        (isGen_quad h.prob hν 0 1 (g := C (p.k1 * p.θ1) * X 1 + C (p.k2 * p.θ2) * X 0 - C (p.k1 + p.k2) * (X 0 * X 1)) fun x => by
          rw [hb, ha]; simp; linear_combination -x 1 * m0 - x 0 * m1 - m01) (p.k1 + p.k2)
        (φ := fun _ => p.θ1 * p.θ2) (r := fun _ => p.k1 * p.θ1 * p.θ2 + p.k2 * p.θ2 * p.θ1)
        (fun t => (hasDerivAt_const t _).congr_deriv (by ring))
        (fun t ht => by rw [map_sub, map_add, cm, cm, cm, e0 t ht, e1 t ht])
        (by simpa [Ito.vMoment] using s.v 1 1)
  have e02 : ∀ t, 0 ≤ t → E t (X 0 * X 2) = fCov p.k1 p.θ1 p.σ1 t + p.θ1 * (n * t) := sol_lin h hν hE
    (isGen_quad h.prob hν 0 2 (g := C (p.k1 * p.θ1) * X 2 + C (p.μ + j) * X 0 - C (1 / 2) * (X 0 * X 0) -
        C (1 / 2) * (X 0 * X 1) - C p.k1 * (X 0 * X 2)) fun x => by
      rw [hb, ha]; simp; linear_combination -x 2 * m0 - x 0 * m2 - m02) p.k1
    (r := fun t => p.k1 * p.θ1 * (n * t) + (p.μ + j) * p.θ1 - 1 / 2 * (p.σ1 ^ 2 * p.θ1 / (2 * p.k1) + p.θ1 ^ 2) -
      1 / 2 * (p.θ1 * p.θ2))
    (fun t => ((d_fCov p.k1 p.θ1 p.σ1 h1 t).add ((dn t).const_mul p.θ1)).congr_deriv (by rw [hn]; ring))
    (fun t ht => by rw [map_sub, map_sub, map_sub, map_add, cm, cm, cm, cm, cm, e0 t ht, e2 t ht, e00 t ht, e01 t ht])
    (by rw [mul_comm, s.y]; simp [fCov])
  have e12 : ∀ t, 0 ≤ t → E t (X 1 * X 2) = fCov p.k2 p.θ2 p.σ2 t + p.θ2 * (n * t) := sol_lin h hν hE
    (isGen_quad h.prob hν 1 2 (g := C (p.k2 * p.θ2) * X 2 + C (p.μ + j) * X 1 - C (1 / 2) * (X 1 * X 1) -
        C (1 / 2) * (X 0 * X 1) - C p.k2 * (X 1 * X 2)) fun x => by
      rw [hb, ha]; simp; linear_combination -x 2 * m1 - x 1 * m2 - m12) p.k2
    (r := fun t => p.k2 * p.θ2 * (n * t) + (p.μ + j) * p.θ2 - 1 / 2 * (p.σ2 ^ 2 * p.θ2 / (2 * p.k2) + p.θ2 ^ 2) -
      1 / 2 * (p.θ1 * p.θ2))
    (fun t => ((d_fCov p.k2 p.θ2 p.σ2 h2 t).add ((dn t).const_mul p.θ2)).congr_deriv (by rw [hn]; ring))
    (fun t ht => by rw [map_sub, map_sub, map_sub, map_add, cm, cm, cm, cm, cm, e1 t ht, e2 t ht, e11 t ht, e01 t ht])
    (by rw [mul_comm, s.y]; simp [fCov])
  have e22 : ∀ t, 0 ≤ t → E t (X 2 * X 2) = (p.θ1 + p.θ2 + u) * t + fVar p.k1 p.θ1 p.σ1 t + fVar p.k2 p.θ2 p.σ2 t +
      (n * t) ^ 2 := sol_lin h hν hE
    (isGen_quad h.prob hν 2 2 (g := C (2 * (p.μ + j)) * X 2 - X 0 * X 2 - X 1 * X 2 + X 0 + X 1 + C u) fun x => by
      rw [hb, ha]; simp; linear_combination -2 * x 2 * m2 - m22) 0
    (φ := fun t => (p.θ1 + p.θ2 + u) * t + fVar p.k1 p.θ1 p.σ1 t + fVar p.k2 p.θ2 p.σ2 t + (n * t) ^ 2)
    (r := fun t => 2 * (p.μ + j) * (n * t) - (fCov p.k1 p.θ1 p.σ1 t + p.θ1 * (n * t)) -
      (fCov p.k2 p.θ2 p.σ2 t + p.θ2 * (n * t)) + p.θ1 + p.θ2 + u)
    (fun t => (((((hasDerivAt_id t).const_mul (p.θ1 + p.θ2 + u)).add (d_fVar p.k1 p.θ1 p.σ1 h1 t)).add
      (d_fVar p.k2 p.θ2 p.σ2 h2 t)).add ((dn t).pow 2)).congr_deriv (by rw [hn]; ring))
    (fun t ht => by
      rw [map_add, map_add, map_add, map_sub, map_sub, cm, o t ht, e0 t ht, e1 t ht, e2 t ht, e02 t ht, e12 t ht]; ring)
    (by rw [s.y]; simp [fVar])
  exact ⟨by simpa using o t ht 1, e0 t ht, e1 t ht, e2 t ht, e02 t ht, e12 t ht, e22 t ht⟩

/-- two factors, two returns in a row -/
theorem cov2 {c : JumpDiff (Fin 4)} {b : Fin 4 → MvPolynomial (Fin 4) ℝ} {a : Fin 4 → Fin 4 → MvPolynomial (Fin 4) ℝ}
    (h : PolyCoef c b a) (hν : Mom c.ν) (p : Fsv2.Par) (h1 : p.k1 ≠ 0) (h2 : p.k2 ≠ 0) (j : ℝ)
    (hb : ∀ x, c.b x = ![p.k1 * (p.θ1 - x 0), p.k2 * (p.θ2 - x 1), 0, p.μ - (x 0 + x 1) / 2])
    (ha : ∀ x, c.a x = ![![p.σ1 ^ 2 * x 0, 0, 0, 0], ![0, p.σ2 ^ 2 * x 1, 0, 0], ![0, 0, 0, 0], ![0, 0, 0, x 0 + x 1]])
    (m0 : c.lam * ∫ y, y 0 ∂c.ν = 0) (m1 : c.lam * ∫ y, y 1 ∂c.ν = 0) (m2 : c.lam * ∫ y, y 2 ∂c.ν = 0)
    (m3 : c.lam * ∫ y, y 3 ∂c.ν = j)
    (m02 : c.lam * ∫ y, y 0 * y 2 ∂c.ν = 0) (m12 : c.lam * ∫ y, y 1 * y 2 ∂c.ν = 0) (m23 : c.lam * ∫ y, y 2 * y 3 ∂c.ν = 0)
    {E0 : MvPolynomial (Fin 4) ℝ →ₗ[ℝ] ℝ} {E : ℝ → MvPolynomial (Fin 4) ℝ →ₗ[ℝ] ℝ} (hE : c.Dynkin E0 E)
    {n c1 c2 : ℝ} (s3 : ∀ f, E0 (X 3 * f) = 0) (s : E0 1 = 1) (s0 : E0 (X 0) = p.θ1) (s1 : E0 (X 1) = p.θ2)
    (s2 : E0 (X 2) = n) (s02 : E0 (X 0 * X 2) = c1 + p.θ1 * n) (s12 : E0 (X 1 * X 2) = c2 + p.θ2 * n) (t : ℝ) (ht : 0 ≤ t) :
    E t (X 2 * X 3) - E t (X 2) * E t (X 3) =
      -(c1 * (1 - Real.exp (-p.k1 * t)) / (2 * p.k1) + c2 * (1 - Real.exp (-p.k2 * t)) / (2 * p.k2)) := by
  have o : ∀ t, 0 ≤ t → ∀ r, E t (C r) = r := fun t ht r => by
    rw [C_eq_smul_one, map_smul, dynkin_one hE t ht, s, smul_eq_mul, mul_one]
  have cm : ∀ t r f, E t (C r * f) = r * E t f := fun t r f => by
    rw [C_mul', map_smul, smul_eq_mul]
  set g := p.μ + j - (p.θ1 + p.θ2) / 2 with hg
  have e0 : ∀ t, 0 ≤ t → E t (X 0) = p.θ1 := sol_lin h hν hE
    (isGen_lin 0 (g := C (p.k1 * p.θ1) - C p.k1 * X 0) fun x => by rw [hb, m0]; simp; ring) p.k1 (φ := fun _ => p.θ1)
    (r := fun _ => p.k1 * p.θ1) (fun t => (hasDerivAt_const t p.θ1).congr_deriv (by ring))
    (fun t ht => by rw [map_sub, cm, o t ht]) s0
  have e1 : ∀ t, 0 ≤ t → E t (X 1) = p.θ2 := sol_lin h hν hE
    (isGen_lin 1 (g := C (p.k2 * p.θ2) - C p.k2 * X 1) fun x => by rw [hb, m1]; simp; ring) p.k2 (φ := fun _ => p.θ2)
    (r := fun _ => p.k2 * p.θ2) (fun t => (hasDerivAt_const t p.θ2).congr_deriv (by ring))
    (fun t ht => by rw [map_sub, cm, o t ht]) s1
  have e2 : ∀ t, 0 ≤ t → E t (X 2) = n := sol_lin h hν hE
    (isGen_lin 2 (g := 0) fun x => by rw [hb, m2]; simp) 0 (φ := fun _ => n)
    (r := fun _ => 0) (fun t => (hasDerivAt_const t n).congr_deriv (by ring))
    (fun t ht => by rw [map_zero]; ring) s2
  have e3 : ∀ t, 0 ≤ t → E t (X 3) = g * t := sol_lin h hν hE
    (isGen_lin 3 (g := C (p.μ + j) - C (1 / 2) * X 0 - C (1 / 2) * X 1) fun x => by rw [hb, m3]; simp; ring) 0
    (φ := fun t => g * t) (r := fun _ => g) (fun t => ((hasDerivAt_id t).const_mul g).congr_deriv (by ring))
    (fun t ht => by rw [map_sub, map_sub, cm, cm, o t ht, e0 t ht, e1 t ht, hg]; ring) (by simpa using s3 1)
  have e02 : ∀ t, 0 ≤ t → E t (X 0 * X 2) = p.θ1 * n + c1 * Real.exp (-p.k1 * t) := sol_lin h hν hE
    (isGen_quad h.prob hν 0 2 (g := C (p.k1 * p.θ1) * X 2 - C p.k1 * (X 0 * X 2)) fun x => by
      rw [hb, ha]; simp; linear_combination -x 2 * m0 - x 0 * m2 - m02) p.k1 (φ := fun t => p.θ1 * n + c1 * Real.exp (-p.k1 * t))
    (r := fun _ => p.k1 * p.θ1 * n)
    (fun t => (((hexp p.k1 t).const_mul c1).const_add (p.θ1 * n)).congr_deriv (by ring))
    (fun t ht => by rw [map_sub, cm, cm, e2 t ht]) (by rw [s02]; simp; ring)
  have e12 : ∀ t, 0 ≤ t → E t (X 1 * X 2) = p.θ2 * n + c2 * Real.exp (-p.k2 * t) := sol_lin h hν hE
    (isGen_quad h.prob hν 1 2 (g := C (p.k2 * p.θ2) * X 2 - C p.k2 * (X 1 * X 2)) fun x => by
      rw [hb, ha]; simp; linear_combination -x 2 * m1 - x 1 * m2 - m12) p.k2 (φ := fun t => p.θ2 * n + c2 * Real.exp (-p.k2 * t))
    (r := fun _ => p.k2 * p.θ2 * n)
    (fun t => (((hexp p.k2 t).const_mul c2).const_add (p.θ2 * n)).congr_deriv (by ring))
    (fun t ht => by rw [map_sub, cm, cm, e2 t ht]) (by rw [s12]; simp; ring)
  have e23 : ∀ t, 0 ≤ t → E t (X 2 * X 3) = n * (g * t) -
      (c1 * (1 - Real.exp (-p.k1 * t)) / (2 * p.k1) + c2 * (1 - Real.exp (-p.k2 * t)) / (2 * p.k2)) := sol_lin h hν hE
    (isGen_quad h.prob hν 2 3 (g := C (p.μ + j) * X 2 - C (1 / 2) * (X 0 * X 2) - C (1 / 2) * (X 1 * X 2)) fun x => by
      rw [hb, ha]; simp; linear_combination -x 2 * m3 - x 3 * m2 - m23) 0
    (φ := fun t => n * (g * t) -
      (c1 * (1 - Real.exp (-p.k1 * t)) / (2 * p.k1) + c2 * (1 - Real.exp (-p.k2 * t)) / (2 * p.k2)))
    (r := fun t => (p.μ + j) * n - 1 / 2 * (p.θ1 * n + c1 * Real.exp (-p.k1 * t)) - 1 / 2 * (p.θ2 * n + c2 * Real.exp (-p.k2 * t)))
    (fun t => ((((hasDerivAt_id t).const_mul g).const_mul n).sub
      (((((hexp p.k1 t).const_sub 1).const_mul c1).div_const (2 * p.k1)).add
      ((((hexp p.k2 t).const_sub 1).const_mul c2).div_const (2 * p.k2)))).congr_deriv (by rw [hg]; field_simp; ring))
    (fun t ht => by rw [map_sub, map_sub, cm, cm, cm, e2 t ht, e02 t ht, e12 t ht]; ring) (by rw [mul_comm, s3]; simp)
  rw [e23 t ht, e2 t ht, e3 t ht]
  ring

theorem sv2j_jumps (mu k1 k2 θ1 σ1 θ2 σ2 lam mj sj : ℝ) (F : (Fin 3 → ℝ) → ℝ) (hF : Continuous F) :
    ∫ y, F y ∂(Sv2.sv2j mu k1 k2 θ1 σ1 θ2 σ2 lam mj sj).ν =
      ∫ y, F ![0, 0, y] ∂ProbabilityTheory.gaussianReal mj (sj ^ 2).toNNReal :=
  svj2_jumps mu k1 θ1 σ1 0 lam mj sj F hF

theorem sv2jtwo_jumps (mu k1 k2 θ1 σ1 θ2 σ2 lam mj sj : ℝ) (F : (Fin 4 → ℝ) → ℝ) (hF : Continuous F) :
    ∫ y, F y ∂(Sv2.sv2jtwo mu k1 k2 θ1 σ1 θ2 σ2 lam mj sj).ν =
      ∫ y, F ![0, 0, 0, y] ∂ProbabilityTheory.gaussianReal mj (sj ^ 2).toNNReal := by
  have hm : Measurable fun y : ℝ => (![0, 0, 0, y] : Fin 4 → ℝ) := by
    refine measurable_pi_lambda _ fun i => ?_
    fin_cases i <;> simp <;> fun_prop
  exact integral_map hm.aemeasurable hF.aestronglyMeasurable

/-- the covariance in closed form from the first interval -/
theorem cov2_val (p : Fsv2.Par) (h1 : p.k1 ≠ 0) (h2 : p.k2 ≠ 0) :
    -(fCov p.k1 p.θ1 p.σ1 p.h * (1 - Real.exp (-p.k1 * p.h)) / (2 * p.k1) +
      fCov p.k2 p.θ2 p.σ2 p.h * (1 - Real.exp (-p.k2 * p.h)) / (2 * p.k2)) =
    p.σ1 ^ 2 * p.θ1 / (8 * p.k1 ^ 3) * (1 - Real.exp (-p.k1 * p.h)) ^ 2 +
      p.σ2 ^ 2 * p.θ2 / (8 * p.k2 ^ 3) * (1 - Real.exp (-p.k2 * p.h)) ^ 2 := by
  rw [fCov, fCov]
  field_simp
  ring

/-- C76. The 2FSVJ model. -/
theorem C76_fsv2j (p : Fsv2j.Par) (hp : Sv2.Pos p.toPar) (hl : 0 ≤ p.lam) :
    Fsv2j.m Itos.code 1 p = .ok ((p.μ - (p.θ1 + p.θ2) / 2 + p.lam * p.μj) * p.h) ∧
    Fsv2j.cm Itos.code 2 p = .ok ((p.θ1 + p.θ2 + p.lam * (p.μj ^ 2 + p.σj ^ 2)) * p.h +
      p.σ1 ^ 2 * p.θ1 / (4 * p.k1 ^ 3) * (p.k1 * p.h - 1 + Real.exp (-p.k1 * p.h)) +
      p.σ2 ^ 2 * p.θ2 / (4 * p.k2 ^ 3) * (p.k2 * p.h - 1 + Real.exp (-p.k2 * p.h))) ∧
    Fsv2j.cov Itos.code 1 1 p = .ok (p.σ1 ^ 2 * p.θ1 / (8 * p.k1 ^ 3) * (1 - Real.exp (-p.k1 * p.h)) ^ 2 +
      p.σ2 ^ 2 * p.θ2 / (8 * p.k2 ^ 3) * (1 - Real.exp (-p.k2 * p.h)) ^ 2) := by
  obtain ⟨E0, E, E0', E', h0, hE, h0', hE'⟩ := Sv2.sv2j_exists p
  have J := sv2j_jumps p.μ p.k1 p.k2 p.θ1 p.σ1 p.θ2 p.σ2 p.lam p.μj p.σj
  have J' := sv2jtwo_jumps p.μ p.k1 p.k2 p.θ1 p.σ1 p.θ2 p.σ2 p.lam p.μj p.σj
  have hc := Gen.jmp_coef 2 p.lam p.μj (p.σj ^ 2).toNNReal (Sv2.coefY p.μ p.k1 p.k2 p.θ1 p.σ1 p.θ2 p.σ2)
  have hm := Gen.jmp_mom (Sv2.sv2 p.μ p.k1 p.k2 p.θ1 p.σ1 p.θ2 p.σ2) 2 p.lam p.μj (p.σj ^ 2).toNNReal
  have hc' := Gen.jmp_coef 3 p.lam p.μj (p.σj ^ 2).toNNReal (Sv2.coef4 p.μ p.k1 p.k2 p.θ1 p.σ1 p.θ2 p.σ2)
  have hm' := Gen.jmp_mom (Sv2.sv2two p.μ p.k1 p.k2 p.θ1 p.σ1 p.θ2 p.σ2) 3 p.lam p.μj (p.σj ^ 2).toNNReal
  rw [← Sv2.sv2j_eq] at hc hm
  rw [← Sv2.sv2jtwo_eq] at hc' hm'
  obtain ⟨o, e0, e1, e2, e02, e12, e22⟩ := triple hc hm p.toPar hp.k1.ne' hp.k2.ne' (p.lam * p.μj) (p.lam * (p.μj ^ 2 + p.σj ^ 2))
    (fun x => rfl) (fun x => rfl)
    (by rw [J (fun y => y 0) (by fun_prop)]; simp) (by rw [J (fun y => y 1) (by fun_prop)]; simp)
    (by rw [J (fun y => y 2) (by fun_prop)]; simp [Sv2.sv2j])
    (by rw [J (fun y => y 0 * y 0) (by fun_prop)]; simp) (by rw [J (fun y => y 0 * y 1) (by fun_prop)]; simp)
    (by rw [J (fun y => y 1 * y 1) (by fun_prop)]; simp) (by rw [J (fun y => y 0 * y 2) (by fun_prop)]; simp)
    (by rw [J (fun y => y 1 * y 2) (by fun_prop)]; simp)
    (by rw [J (fun y => y 2 * y 2) (by fun_prop)]; simp [Sv2.sv2j, gauss_two]) hE h0 p.h hp.h.le
  refine ⟨?_, ?_, ?_⟩
  · rw [(Sv2.C53_moments_sde_partial p hp hl E0 h0 E hE 1 one_le_two).1, pow_one, e2]
    congr 1
    ring
  · rw [(Sv2.C53_moments_sde_partial p hp hl E0 h0 E hE 2 le_rfl).2, var_sq _ o 2 e2 e22]
    rfl
  · rw [Sv2.C53_cov_sde_partial p hp hl E0 h0 E hE E0' h0' E' hE', ← cov2_val p.toPar hp.k1.ne' hp.k2.ne']
    congr 1
    exact cov2 (n := (p.μ + p.lam * p.μj - (p.θ1 + p.θ2) / 2) * p.h) hc' hm' p.toPar hp.k1.ne' hp.k2.ne' (p.lam * p.μj) (fun x => rfl) (fun x => rfl)
      (by rw [J' (fun y => y 0) (by fun_prop)]; simp) (by rw [J' (fun y => y 1) (by fun_prop)]; simp)
      (by rw [J' (fun y => y 2) (by fun_prop)]; simp)
      (by rw [J' (fun y => y 3) (by fun_prop)]; simp [Sv2.sv2jtwo])
      (by rw [J' (fun y => y 0 * y 2) (by fun_prop)]; simp) (by rw [J' (fun y => y 1 * y 2) (by fun_prop)]; simp)
      (by rw [J' (fun y => y 2 * y 3) (by fun_prop)]; simp) hE' h0'.1
      (by rw [← map_one (rename ![(0 : Fin 4), 1, 2]), h0'.2, o])
      (by have := h0'.2 (X 0); rw [rename_X] at this; exact this.trans e0)
      (by have := h0'.2 (X 1); rw [rename_X] at this; exact this.trans e1)
      (by have := h0'.2 (X 2); rw [rename_X] at this; exact this.trans e2)
      (by have := h0'.2 (X 0 * X 2); rw [map_mul, rename_X, rename_X] at this; exact this.trans e02)
      (by have := h0'.2 (X 1 * X 2); rw [map_mul, rename_X, rename_X] at this; exact this.trans e12) p.h hp.h.le

/-- C76. The 2FSV model. -/
theorem C76_fsv2 (p : Fsv2.Par) (hp : Sv2.Pos p) :
    Fsv2.m Itos.code 1 p = .ok ((p.μ - (p.θ1 + p.θ2) / 2) * p.h) ∧
    Fsv2.cm Itos.code 2 p = .ok ((p.θ1 + p.θ2) * p.h +
      p.σ1 ^ 2 * p.θ1 / (4 * p.k1 ^ 3) * (p.k1 * p.h - 1 + Real.exp (-p.k1 * p.h)) +
      p.σ2 ^ 2 * p.θ2 / (4 * p.k2 ^ 3) * (p.k2 * p.h - 1 + Real.exp (-p.k2 * p.h))) ∧
    Fsv2.cov Itos.code 1 1 p = .ok (p.σ1 ^ 2 * p.θ1 / (8 * p.k1 ^ 3) * (1 - Real.exp (-p.k1 * p.h)) ^ 2 +
      p.σ2 ^ 2 * p.θ2 / (8 * p.k2 ^ 3) * (1 - Real.exp (-p.k2 * p.h)) ^ 2) := by
  obtain ⟨E0, E, E0', E', h0, hE, h0', hE'⟩ := Sv2.sv2_exists p
  have z : ∀ r : ℝ, (Sv2.sv2 p.μ p.k1 p.k2 p.θ1 p.σ1 p.θ2 p.σ2).lam * r = 0 := fun r => zero_mul r
  have z' : ∀ r : ℝ, (Sv2.sv2two p.μ p.k1 p.k2 p.θ1 p.σ1 p.θ2 p.σ2).lam * r = 0 := fun r => zero_mul r
  obtain ⟨o, e0, e1, e2, e02, e12, e22⟩ := triple (Sv2.coefY p.μ p.k1 p.k2 p.θ1 p.σ1 p.θ2 p.σ2) Sv2.momY p
    hp.k1.ne' hp.k2.ne' 0 0 (fun x => rfl) (fun x => rfl) (z _) (z _) (z _) (z _) (z _) (z _) (z _) (z _) (z _) hE h0 p.h hp.h.le
  simp only [add_zero] at e2 e02 e12 e22
  refine ⟨?_, ?_, ?_⟩
  · rw [(Sv2.C52_moments_sde_partial p hp E0 h0 E hE 1 one_le_two).1, pow_one, e2]
  · rw [(Sv2.C52_moments_sde_partial p hp E0 h0 E hE 2 le_rfl).2, var_sq _ o 2 e2 e22]
    rfl
  · rw [Sv2.C52_cov_sde_partial p hp E0 h0 E hE E0' h0' E' hE', ← cov2_val p hp.k1.ne' hp.k2.ne']
    congr 1
    exact cov2 (n := (p.μ - (p.θ1 + p.θ2) / 2) * p.h) (Sv2.coef4 p.μ p.k1 p.k2 p.θ1 p.σ1 p.θ2 p.σ2) Sv2.mom4 p hp.k1.ne' hp.k2.ne' 0 (fun x => rfl) (fun x => rfl)
      (z' _) (z' _) (z' _) (z' _) (z' _) (z' _) (z' _) hE' h0'.1
      (by rw [← map_one (rename ![(0 : Fin 4), 1, 2]), h0'.2, o])
      (by have := h0'.2 (X 0); rw [rename_X] at this; exact this.trans e0)
      (by have := h0'.2 (X 1); rw [rename_X] at this; exact this.trans e1)
      (by have := h0'.2 (X 2); rw [rename_X] at this; exact this.trans e2)
      (by have := h0'.2 (X 0 * X 2); rw [map_mul, rename_X, rename_X] at this; exact this.trans e02)
      (by have := h0'.2 (X 1 * X 2); rw [map_mul, rename_X, rename_X] at this; exact this.trans e12) p.h hp.h.le

/-- C76. In the two-factor models two returns in a row are positively correlated. -/
theorem C76_sign2 (p : Fsv2.Par) (hp : Sv2.Pos p) : ∃ c, Fsv2.cov Itos.code 1 1 p = .ok c ∧ 0 < c := by
  refine ⟨_, (C76_fsv2 p hp).2.2, ?_⟩
  have f : ∀ k θ σ : ℝ, 0 < k → 0 < θ → 0 < σ → 0 < σ ^ 2 * θ / (8 * k ^ 3) * (1 - Real.exp (-k * p.h)) ^ 2 := by
    intro k θ σ hk hθ hσ
    have h1 : Real.exp (-k * p.h) < 1 := by
      rw [Real.exp_lt_one_iff]
      nlinarith [mul_pos hk hp.h]
    have h2 : 0 < (1 - Real.exp (-k * p.h)) ^ 2 := pow_pos (sub_pos.2 h1) 2
    positivity
  exact add_pos (f _ _ _ hp.k1 hp.θ1 hp.σ1) (f _ _ _ hp.k2 hp.θ2 hp.σ2)

/-! ### C77: the variance over time, and correlations -/

/-- `x - 1 + e^{-x}` -/
noncomputable def G (x : ℝ) : ℝ := x - 1 + Real.exp (-x)

theorem sq_le_G {x : ℝ} (hx : 0 ≤ x) : (1 - Real.exp (-x)) ^ 2 ≤ 2 * G x := by
  have h : ∀ x, HasDerivAt (fun x => 2 * (x - 1 + Real.exp (-x)) - (1 - Real.exp (-x)) ^ 2) (2 * (1 - Real.exp (-x)) ^ 2) x := by
    intro x
    have h1 : HasDerivAt (fun x => Real.exp (-x)) (-Real.exp (-x)) x := by simpa using (hasDerivAt_neg x).exp
    refine (((((hasDerivAt_id x).sub_const 1).add h1).const_mul 2).sub ((h1.const_sub 1).pow 2)).congr_deriv ?_
    ring
  have := monotone_of_hasDerivAt_nonneg h (fun x => by positivity) hx
  norm_num at this
  rw [G]
  linarith

theorem G_double (x : ℝ) : G (2 * x) = 2 * G x + (1 - Real.exp (-x)) ^ 2 := by
  have : Real.exp (-(2 * x)) = Real.exp (-x) ^ 2 := by rw [← Real.exp_nat_mul]; congr 1; push_cast; ring
  rw [G, G, this]
  ring

theorem G_step {a b : ℝ} (ha : 0 ≤ a) (hab : a < b) : 0 ≤ G b - G a ∧ G b - G a < b - a := by
  have h1 : Real.exp (-b) < Real.exp (-a) := Real.exp_lt_exp.2 (by linarith)
  have h2 : Real.exp (-b) = Real.exp (-a) * Real.exp (-(b - a)) := by rw [← Real.exp_add]; congr 1; ring
  have h3 : 1 - (b - a) ≤ Real.exp (-(b - a)) := by linarith [Real.add_one_le_exp (-(b - a))]
  have h4 : Real.exp (-a) ≤ 1 := Real.exp_le_one_iff.2 (by linarith)
  have h5 := Real.exp_pos (-a)
  simp only [G]
  refine ⟨?_, by linarith⟩
  nlinarith

theorem G_nonneg {x : ℝ} (hx : 0 ≤ x) : 0 ≤ G x := by
  have := sq_le_G hx
  nlinarith [sq_nonneg (1 - Real.exp (-x))]

theorem tendsto_exp (k : ℝ) (hk : 0 < k) : Filter.Tendsto (fun t => Real.exp (-k * t)) Filter.atTop (nhds 0) := by
  have := Real.tendsto_exp_neg_atTop_nhds_zero.comp (Filter.tendsto_id.const_mul_atTop hk)
  refine this.congr fun t => ?_
  simp

theorem tendsto_G (k : ℝ) (hk : 0 < k) : Filter.Tendsto (fun t => G (k * t) / t) Filter.atTop (nhds k) := by
  have h1 : Filter.Tendsto (fun t : ℝ => k - t⁻¹ + Real.exp (-k * t) * t⁻¹) Filter.atTop (nhds (k - 0 + 0 * 0)) :=
    (tendsto_const_nhds.sub tendsto_inv_atTop_zero).add ((tendsto_exp k hk).mul tendsto_inv_atTop_zero)
  rw [sub_zero, mul_zero, add_zero] at h1
  refine h1.congr' ?_
  filter_upwards [Filter.eventually_gt_atTop 0] with t ht
  rw [G]
  field_simp

/-- the factor of the covariance is not smaller than `-theta k` -/
theorem coef_ge (p : Fsv1.Par) (hk : 0 < p.k) (hθ : 0 < p.θ) (hρ : 0 ≤ 1 - p.ρ ^ 2) :
    -p.θ * p.k ≤ p.σ ^ 2 * p.θ / (4 * p.k) - p.ρ * p.σ * p.θ := by
  have e : p.σ ^ 2 * p.θ / (4 * p.k) - p.ρ * p.σ * p.θ + p.θ * p.k =
      p.θ / (4 * p.k) * ((p.σ - 2 * p.k * p.ρ) ^ 2 + 4 * p.k ^ 2 * (1 - p.ρ ^ 2)) := by
    field_simp
    ring
  have : 0 ≤ p.θ / (4 * p.k) * ((p.σ - 2 * p.k * p.ρ) ^ 2 + 4 * p.k ^ 2 * (1 - p.ρ ^ 2)) := by positivity
  linarith

/-- C77. The variance of the return of the 1FSVJ model, `cm(2, par)`, grows with the length `h` of the interval. -/
theorem C77_increasing (p : Fsv1j.Par) (hk : 0 < p.k) (hθ : 0 < p.θ) (hσ : 0 < p.σ) (hρ : 0 ≤ 1 - p.ρ ^ 2)
    (hl : 0 ≤ p.lam) (s t : ℝ) (hs : 0 ≤ s) (hst : s < t) :
    ∃ a b, Fsv1j.cm 2 { p with h := s } = .ok a ∧ Fsv1j.cm 2 { p with h := t } = .ok b ∧ a < b := by
  refine ⟨_, _, (C76_fsv1j { p with h := s } hk hθ hσ hs hρ hl).2.1,
    (C76_fsv1j { p with h := t } hk hθ hσ (hs.trans hst.le) hρ hl).2.1, ?_⟩
  obtain ⟨g0, g1⟩ := G_step (mul_nonneg hk.le hs) (mul_lt_mul_of_pos_left hst hk)
  have hc := coef_ge p.toPar hk hθ hρ
  have eG : ∀ x, x - 1 + Real.exp (-x) = G x := fun x => rfl
  simp only [neg_mul, eG] at hc ⊢
  set c := p.σ ^ 2 * p.θ / (4 * p.k) - p.ρ * p.σ * p.θ
  have hJ : 0 ≤ p.lam * (p.μj ^ 2 + p.σj ^ 2) := by positivity
  have h1 : 0 ≤ p.lam * (p.μj ^ 2 + p.σj ^ 2) * (t - s) := mul_nonneg hJ (by linarith)
  have h2 : -(p.θ * p.k) * (G (p.k * t) - G (p.k * s)) ≤ c * (G (p.k * t) - G (p.k * s)) :=
    mul_le_mul_of_nonneg_right hc g0
  have h3 : p.θ * p.k * (G (p.k * t) - G (p.k * s)) < p.θ * p.k * (p.k * t - p.k * s) :=
    mul_lt_mul_of_pos_left g1 (by positivity)
  have h4 : -(p.θ * (t - s)) < c * (G (p.k * t) - G (p.k * s)) / p.k ^ 2 := by
    rw [lt_div_iff₀ (by positivity)]
    nlinarith
  have e : c * (G (p.k * t) - G (p.k * s)) / p.k ^ 2 = c * G (p.k * t) / p.k ^ 2 - c * G (p.k * s) / p.k ^ 2 := by ring
  rw [e] at h4
  nlinarith

/-- C77. The variance of the return of the 1FSVJ model is positive, and the correlation of two returns in a row,
`cov(1, 1, par) / cm(2, par)`, lies strictly between `-1` and `1`. -/
theorem C77_correlation (p : Fsv1j.Par) (hk : 0 < p.k) (hθ : 0 < p.θ) (hσ : 0 < p.σ) (hh : 0 < p.h) (hρ : 0 ≤ 1 - p.ρ ^ 2)
    (hl : 0 ≤ p.lam) : ∃ v c, Fsv1j.cm 2 p = .ok v ∧ Fsv1j.cov 1 1 p = .ok c ∧ 0 < v ∧ |c| < v := by
  obtain ⟨-, hv, hc⟩ := C76_fsv1j p hk hθ hσ hh.le hρ hl
  refine ⟨_, _, hv, hc, ?_⟩
  obtain ⟨a, b, ha, hb, hab⟩ := C77_increasing p hk hθ hσ hρ hl 0 p.h le_rfl hh
  obtain ⟨a', b', ha', hb', hab'⟩ := C77_increasing p hk hθ hσ hρ hl 0 (2 * p.h) le_rfl (by linarith)
  have z := (C76_fsv1j { p with h := 0 } hk hθ hσ le_rfl hρ hl).2.1
  have z2 := (C76_fsv1j { p with h := 2 * p.h } hk hθ hσ (by simp; linarith) hρ hl).2.1
  rw [ha'] at ha
  rw [ha'] at z
  rw [hb'] at z2
  have hb : Fsv1j.cm 2 p = .ok b := hb
  rw [hv] at hb
  simp only [Except.ok.injEq, mul_zero, Real.exp_zero] at ha z z2 hb
  norm_num at z
  rw [hb]
  have hpos : 0 < b := by linarith
  refine ⟨hpos, ?_⟩
  have e1 : p.k * (2 * p.h) - 1 + Real.exp (-p.k * (2 * p.h)) = G (2 * (p.k * p.h)) := by rw [G]; congr 2 <;> ring_nf
  have e2 : p.k * p.h - 1 + Real.exp (-p.k * p.h) = G (p.k * p.h) := by rw [G, neg_mul]
  rw [e1, G_double] at z2
  rw [e2] at hb
  rw [neg_mul]
  set c := p.σ ^ 2 * p.θ / (4 * p.k) - p.ρ * p.σ * p.θ
  set S := (1 - Real.exp (-(p.k * p.h))) ^ 2 with hS
  have hd : b' = 2 * b + 2 * (c * S / (2 * p.k ^ 2)) := by
    rw [z2, ← hb]
    field_simp
    ring
  rw [abs_lt]
  refine ⟨by linarith, ?_⟩
  have hsq : S ≤ 2 * G (p.k * p.h) := sq_le_G (by positivity)
  have hS0 : 0 ≤ S := sq_nonneg _
  rcases le_or_gt c 0 with h | h
  · have : c * S / (2 * p.k ^ 2) ≤ 0 := div_nonpos_of_nonpos_of_nonneg (mul_nonpos_of_nonpos_of_nonneg h hS0) (by positivity)
    linarith
  · have h1 : c * S / (2 * p.k ^ 2) ≤ c * G (p.k * p.h) / p.k ^ 2 := by
      rw [div_le_div_iff₀ (by positivity) (by positivity)]
      nlinarith [mul_le_mul_of_nonneg_left hsq (mul_nonneg h.le (sq_nonneg p.k))]
    have h2 : 0 < (p.θ + p.lam * (p.μj ^ 2 + p.σj ^ 2)) * p.h := by positivity
    linarith

/-- C77. Long intervals: the variance of the return of the 1FSVJ model per unit of time tends to
`theta + lmbd (mu_j^2 + sigma_j^2) + (sigma_v^2 theta / (4k) - rho sigma_v theta) / k`, and the covariance of two returns in
a row stays bounded, so that their correlation tends to `0`. -/
theorem C77_long (p : Fsv1j.Par) (hk : 0 < p.k) (hθ : 0 < p.θ) (hσ : 0 < p.σ) (hρ : 0 ≤ 1 - p.ρ ^ 2) (hl : 0 ≤ p.lam) :
    ∃ v c : ℝ → ℝ, (∀ t, 0 ≤ t → Fsv1j.cm 2 { p with h := t } = .ok (v t) ∧ Fsv1j.cov 1 1 { p with h := t } = .ok (c t)) ∧
      Filter.Tendsto (fun t => v t / t) Filter.atTop (nhds (p.θ + p.lam * (p.μj ^ 2 + p.σj ^ 2) +
        (p.σ ^ 2 * p.θ / (4 * p.k) - p.ρ * p.σ * p.θ) / p.k)) ∧
      Filter.Tendsto c Filter.atTop (nhds ((p.σ ^ 2 * p.θ / (4 * p.k) - p.ρ * p.σ * p.θ) / (2 * p.k ^ 2))) := by
  refine ⟨_, _, fun t ht => (C76_fsv1j { p with h := t } hk hθ hσ ht hρ hl).2, ?_, ?_⟩
  · have h := ((tendsto_G p.k hk).const_mul ((p.σ ^ 2 * p.θ / (4 * p.k) - p.ρ * p.σ * p.θ) / p.k ^ 2)).const_add
      (p.θ + p.lam * (p.μj ^ 2 + p.σj ^ 2))
    have e : (p.σ ^ 2 * p.θ / (4 * p.k) - p.ρ * p.σ * p.θ) / p.k ^ 2 * p.k =
      (p.σ ^ 2 * p.θ / (4 * p.k) - p.ρ * p.σ * p.θ) / p.k := by field_simp
    rw [e] at h
    refine h.congr' ?_
    filter_upwards [Filter.eventually_gt_atTop 0] with t ht
    simp only [G, neg_mul]
    field_simp
  · have h := ((((tendsto_exp p.k hk).const_sub 1).pow 2).const_mul (p.σ ^ 2 * p.θ / (4 * p.k) - p.ρ * p.σ * p.θ)).div_const
      (2 * p.k ^ 2)
    simpa using h

/-- C77. Two factors with jumps: the variance of the return grows with `h`. -/
theorem C77_increasing2 (p : Fsv2j.Par) (hp : Sv2.Pos p.toPar) (hl : 0 ≤ p.lam) (s t : ℝ) (hs : 0 < s) (hst : s < t) :
    ∃ a b, Fsv2j.cm Itos.code 2 { p with h := s } = .ok a ∧ Fsv2j.cm Itos.code 2 { p with h := t } = .ok b ∧ a < b := by
  refine ⟨_, _, (C76_fsv2j { p with h := s } ⟨hp.k1, hp.k2, hp.θ1, hp.σ1, hp.θ2, hp.σ2, hs⟩ hl).2.1,
    (C76_fsv2j { p with h := t } ⟨hp.k1, hp.k2, hp.θ1, hp.σ1, hp.θ2, hp.σ2, hs.trans hst⟩ hl).2.1, ?_⟩
  have f : ∀ k θ σ : ℝ, 0 < k → 0 < θ →
      σ ^ 2 * θ / (4 * k ^ 3) * (k * s - 1 + Real.exp (-k * s)) ≤ σ ^ 2 * θ / (4 * k ^ 3) * (k * t - 1 + Real.exp (-k * t)) := by
    intro k θ σ hk hθ
    have g := (G_step (mul_nonneg hk.le hs.le) (mul_lt_mul_of_pos_left hst hk)).1
    simp only [G] at g
    rw [neg_mul, neg_mul]
    exact mul_le_mul_of_nonneg_left (by linarith) (by positivity)
  have h1 := f _ _ p.σ1 hp.k1 hp.θ1
  have h2 := f _ _ p.σ2 hp.k2 hp.θ2
  have h3 : (p.θ1 + p.θ2 + p.lam * (p.μj ^ 2 + p.σj ^ 2)) * s < (p.θ1 + p.θ2 + p.lam * (p.μj ^ 2 + p.σj ^ 2)) * t := by
    have := hp.θ1
    have := hp.θ2
    exact mul_lt_mul_of_pos_left hst (by positivity)
  simp only
  linarith

/-- C77. Two factors with jumps: two returns in a row have a positive correlation, smaller than `1`. -/
theorem C77_correlation2 (p : Fsv2j.Par) (hp : Sv2.Pos p.toPar) (hl : 0 ≤ p.lam) :
    ∃ v c, Fsv2j.cm Itos.code 2 p = .ok v ∧ Fsv2j.cov Itos.code 1 1 p = .ok c ∧ 0 < c ∧ c < v := by
  obtain ⟨-, hv, hc⟩ := C76_fsv2j p hp hl
  refine ⟨_, _, hv, hc, ?_, ?_⟩
  · obtain ⟨c, h1, h2⟩ := C76_sign2 p.toPar hp
    rw [(C76_fsv2 p.toPar hp).2.2] at h1
    rw [Except.ok.inj h1]
    exact h2
  · have f : ∀ k θ σ : ℝ, 0 < k → 0 < θ → σ ^ 2 * θ / (8 * k ^ 3) * (1 - Real.exp (-k * p.h)) ^ 2 ≤
        σ ^ 2 * θ / (4 * k ^ 3) * (k * p.h - 1 + Real.exp (-k * p.h)) := by
      intro k θ σ hk hθ
      have g := sq_le_G (mul_nonneg hk.le hp.h.le)
      rw [G] at g
      have e : σ ^ 2 * θ / (4 * k ^ 3) * (k * p.h - 1 + Real.exp (-k * p.h)) =
          σ ^ 2 * θ / (8 * k ^ 3) * (2 * (k * p.h - 1 + Real.exp (-k * p.h))) := by field_simp; ring
      rw [e, neg_mul]
      exact mul_le_mul_of_nonneg_left g (by positivity)
    have h1 := f _ _ p.σ1 hp.k1 hp.θ1
    have h2 := f _ _ p.σ2 hp.k2 hp.θ2
    have h3 : 0 < (p.θ1 + p.θ2 + p.lam * (p.μj ^ 2 + p.σj ^ 2)) * p.h := by
      have := hp.θ1
      have := hp.θ2
      have := hp.h
      positivity
    linarith

/-- C77. Two factors with jumps, long intervals. -/
theorem C77_long2 (p : Fsv2j.Par) (hp : Sv2.Pos p.toPar) (hl : 0 ≤ p.lam) :
    ∃ v c : ℝ → ℝ, (∀ t, 0 < t → Fsv2j.cm Itos.code 2 { p with h := t } = .ok (v t) ∧
        Fsv2j.cov Itos.code 1 1 { p with h := t } = .ok (c t)) ∧
      Filter.Tendsto (fun t => v t / t) Filter.atTop (nhds (p.θ1 + p.θ2 + p.lam * (p.μj ^ 2 + p.σj ^ 2) +
        p.σ1 ^ 2 * p.θ1 / (4 * p.k1 ^ 2) + p.σ2 ^ 2 * p.θ2 / (4 * p.k2 ^ 2))) ∧
      Filter.Tendsto c Filter.atTop (nhds (p.σ1 ^ 2 * p.θ1 / (8 * p.k1 ^ 3) + p.σ2 ^ 2 * p.θ2 / (8 * p.k2 ^ 3))) := by
  have k1 := hp.k1
  have k2 := hp.k2
  refine ⟨_, _, fun t ht => (C76_fsv2j { p with h := t } ⟨hp.k1, hp.k2, hp.θ1, hp.σ1, hp.θ2, hp.σ2, ht⟩ hl).2, ?_, ?_⟩
  · have h := (((tendsto_G p.k1 k1).const_mul (p.σ1 ^ 2 * p.θ1 / (4 * p.k1 ^ 3))).const_add
      (p.θ1 + p.θ2 + p.lam * (p.μj ^ 2 + p.σj ^ 2))).add
      ((tendsto_G p.k2 k2).const_mul (p.σ2 ^ 2 * p.θ2 / (4 * p.k2 ^ 3)))
    have e1 : p.σ1 ^ 2 * p.θ1 / (4 * p.k1 ^ 3) * p.k1 = p.σ1 ^ 2 * p.θ1 / (4 * p.k1 ^ 2) := by field_simp
    have e2 : p.σ2 ^ 2 * p.θ2 / (4 * p.k2 ^ 3) * p.k2 = p.σ2 ^ 2 * p.θ2 / (4 * p.k2 ^ 2) := by field_simp
    rw [e1, e2] at h
    refine h.congr' ?_
    filter_upwards [Filter.eventually_gt_atTop 0] with t ht
    simp only [G, neg_mul]
    field_simp
  · have h := ((((tendsto_exp p.k1 k1).const_sub 1).pow 2).const_mul (p.σ1 ^ 2 * p.θ1 / (8 * p.k1 ^ 3))).add
      ((((tendsto_exp p.k2 k2).const_sub 1).pow 2).const_mul (p.σ2 ^ 2 * p.θ2 / (8 * p.k2 ^ 3)))
    simpa using h

/-! ### The hypotheses can be met -/

example : ∃ p : Fsv1j.Par, 0 < p.k ∧ 0 < p.θ ∧ 0 < p.σ ∧ 0 < p.h ∧ 0 < 1 - p.ρ ^ 2 ∧ p.σ < 4 * p.k * p.ρ ∧ 0 < p.lam ∧ p.μj ≠ 0 :=
  ⟨⟨{ μ := 1, k := 1, θ := 1, σ := 1, ρ := 1 / 2, h := 1 }, 1, 1, 1⟩, by norm_num⟩

example : ∃ p : SvcjI.SPar, SvcjI.Ok p ∧ 0 < p.lmbd ∧ p.rhoJ ≠ 0 ∧ p.sigma ≠ 0 :=
  ⟨⟨⟨2, 1, 1, 1, 1⟩, 1, 1, 1, 1, 1 / 2, 1, 1⟩, ⟨by norm_num, by norm_num, by norm_num, by norm_num⟩, by norm_num⟩

example : ∃ p : Srjd.Par, p.k ≠ 0 ∧ 0 < p.lmbd ∧ 0 < p.mu_v ∧ 0 < p.h ∧ p.sigma ≠ 0 :=
  ⟨⟨1, 1, 1, 1, 1, 1, 1⟩, by norm_num⟩

example : Sv2.Pos Fsv2j.exPar.toPar ∧ 0 < Fsv2j.exPar.lam := by
  refine ⟨⟨?_, ?_, ?_, ?_, ?_, ?_, ?_⟩, ?_⟩ <;> norm_num [Fsv2j.exPar, Fsv2.exPar]

end Ajd.Closed
