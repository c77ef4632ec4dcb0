import Verif.Props.Closed
import Verif.Props.LawAt

/-! C79: the mean and the variance given the jumps of the variance, in closed form. -/

namespace Ajd.Gen
open MvPolynomial MeasureTheory Filter Topology

variable {N : ℕ} {s : Fin N → ℝ}

/-- a function with jumps: derivative from the right `φ'`, limit from the left `ℓ` -/
structure Piece (s : Fin N → ℝ) (φ φ' ℓ : ℝ → ℝ) : Prop where
  deriv : ∀ r, 0 ≤ r → HasDerivWithinAt φ (φ' r) (Set.Ici r) r
  left : ∀ r, 0 < r → Tendsto φ (𝓝[<] r) (𝓝 (ℓ r))
  only : ∀ r, (¬∃ i, s i = r) → φ r = ℓ r

theorem Piece.add {φ φ' ℓ ψ ψ' m : ℝ → ℝ} (h : Piece s φ φ' ℓ) (h' : Piece s ψ ψ' m) :
    Piece s (fun t => φ t + ψ t) (fun t => φ' t + ψ' t) fun t => ℓ t + m t where
  deriv r hr := (h.deriv r hr).add (h'.deriv r hr)
  left r hr := (h.left r hr).add (h'.left r hr)
  only r hr := by rw [h.only r hr, h'.only r hr]

theorem Piece.mul {φ φ' ℓ ψ ψ' m : ℝ → ℝ} (h : Piece s φ φ' ℓ) (h' : Piece s ψ ψ' m) :
    Piece s (fun t => φ t * ψ t) (fun t => φ' t * ψ t + φ t * ψ' t) fun t => ℓ t * m t where
  deriv r hr := (h.deriv r hr).mul (h'.deriv r hr)
  left r hr := (h.left r hr).mul (h'.left r hr)
  only r hr := by rw [h.only r hr, h'.only r hr]

/-- `g0`, and from the time `s i` on also `g i` of the time since then -/
noncomputable def tot (s : Fin N → ℝ) (g0 : ℝ → ℝ) (g : Fin N → ℝ → ℝ) (t : ℝ) : ℝ :=
  g0 t + ∑ i, if s i ≤ t then g i (t - s i) else 0

/-- the limit from the left -/
noncomputable def totL (s : Fin N → ℝ) (g0 : ℝ → ℝ) (g : Fin N → ℝ → ℝ) (t : ℝ) : ℝ :=
  g0 t + ∑ i, if s i < t then g i (t - s i) else 0

/-- a linear equation holds for the sum if it holds for the terms, the constant only in the first one -/
theorem tot_lin {φ0 f0 g0 h0 : ℝ → ℝ} {φ f g h : Fin N → ℝ → ℝ} (q a b c : ℝ)
    (e0 : ∀ t, φ0 t = q + a * f0 t + b * g0 t + c * h0 t) (e : ∀ i t, φ i t = a * f i t + b * g i t + c * h i t) (t : ℝ) :
    tot s φ0 φ t = q + a * tot s f0 f t + b * tot s g0 g t + c * tot s h0 h t := by
  have : ∀ i, (if s i ≤ t then φ i (t - s i) else 0) = a * (if s i ≤ t then f i (t - s i) else 0) +
      b * (if s i ≤ t then g i (t - s i) else 0) + c * if s i ≤ t then h i (t - s i) else 0 := fun i => by
    split_ifs
    · exact e i _
    · simp
  simp only [tot, this, Finset.sum_add_distrib, ← Finset.mul_sum, e0]
  ring

theorem tot_zero (hs : Times s) (g0 : ℝ → ℝ) (g : Fin N → ℝ → ℝ) : tot s g0 g 0 = g0 0 := by
  rw [tot, Finset.sum_eq_zero, add_zero]
  intro i _
  rw [if_neg (hs.pos i).not_ge]

theorem tot_jump (hs : Times s) (g0 : ℝ → ℝ) (g : Fin N → ℝ → ℝ) (j : Fin N) :
    tot s g0 g (s j) = totL s g0 g (s j) + g j 0 := by
  have : ∀ i, (if s i ≤ s j then g i (s j - s i) else 0) = (if s i < s j then g i (s j - s i) else 0) + if j = i then g j 0 else 0 := by
    intro i
    by_cases h : j = i
    · subst h; simp
    · have hn : s i ≠ s j := fun e => h (hs.inj e).symm
      simp only [le_iff_lt_or_eq, hn, or_false, if_neg h, add_zero]
  simp only [tot, totL, this, Finset.sum_add_distrib, Finset.sum_ite_eq, Finset.mem_univ, if_true]
  ring

theorem tot_piece {g0 g0' : ℝ → ℝ} {g g' : Fin N → ℝ → ℝ} (h0 : ∀ t, HasDerivAt g0 (g0' t) t)
    (h : ∀ i t, HasDerivAt (g i) (g' i t) t) : Piece s (tot s g0 g) (tot s g0' g') (totL s g0 g) where
  deriv r hr := by
    refine (h0 r).hasDerivWithinAt.add (HasDerivWithinAt.fun_sum fun i _ => ?_)
    by_cases hi : s i ≤ r
    · rw [if_pos hi]
      have h1 : HasDerivAt (fun t => g i (t - s i)) (g' i (r - s i)) r := by
        simpa [Function.comp_def] using (h i (r - s i)).comp r ((hasDerivAt_id r).sub_const (s i))
      exact h1.hasDerivWithinAt.congr (fun t ht => if_pos (hi.trans ht)) (if_pos hi)
    · rw [if_neg hi]
      refine (hasDerivWithinAt_const r (Set.Ici r) (0 : ℝ)).congr_of_eventuallyEq ?_ (if_neg hi)
      filter_upwards [mem_nhdsWithin_of_mem_nhds (Iio_mem_nhds (not_le.1 hi))] with t ht
      exact if_neg (not_le.2 ht)
  left r hr := by
    refine ((h0 r).continuousAt.tendsto.mono_left nhdsWithin_le_nhds).add (tendsto_finsetSum _ fun i _ => ?_)
    by_cases hi : s i < r
    · rw [if_pos hi]
      have h1 : ContinuousAt (fun t => g i (t - s i)) r := by
        have h2 : ContinuousAt (g i) (r - s i) := (h i (r - s i)).continuousAt
        exact ContinuousAt.comp (f := fun t => t - s i) h2 (by fun_prop)
      refine (h1.tendsto.mono_left nhdsWithin_le_nhds).congr' ?_
      filter_upwards [mem_nhdsWithin_of_mem_nhds (Ioi_mem_nhds hi)] with t ht
      exact (if_pos ht.le).symm
    · rw [if_neg hi]
      refine tendsto_const_nhds.congr' ?_
      filter_upwards [self_mem_nhdsWithin] with t ht
      exact (if_neg (not_le.2 (lt_of_lt_of_le ht (not_lt.1 hi)))).symm
  only r hr := by
    simp only [tot, totL]
    congr 1
    refine Finset.sum_congr rfl fun i _ => ?_
    have hn : s i ≠ r := fun e => hr ⟨i, e⟩
    simp only [le_iff_lt_or_eq, hn, or_false]

variable {σ : Type} [Fintype σ] {κ : Fin N → Measure (σ → ℝ)}

theorem jump_lin (ν : Measure (σ → ℝ)) [IsProbabilityMeasure ν] (hν : Mom ν) (i : σ) :
    jump ν hν (X i) = X i + C (∫ y, y i ∂ν) := by
  refine MvPolynomial.funext fun x => ?_
  rw [eval_jump]
  simp only [eval_X, Pi.add_apply, map_add, eval_C]
  rw [integral_add (integrable_const _) (mom_one hν i)]
  simp

theorem jump_quad (ν : Measure (σ → ℝ)) [IsProbabilityMeasure ν] (hν : Mom ν) (i j : σ) :
    jump ν hν (X i * X j) = X i * X j + C (∫ y, y j ∂ν) * X i + C (∫ y, y i ∂ν) * X j + C (∫ y, y i * y j ∂ν) := by
  refine MvPolynomial.funext fun x => ?_
  rw [eval_jump]
  simp only [eval_X, Pi.add_apply, map_add, map_mul, eval_C]
  have h1 := (mom_one hν j).const_mul (x i)
  have h2 := (mom_one hν i).const_mul (x j)
  have h01 : Integrable (fun y : σ → ℝ => x i * x j + x i * y j) ν := (integrable_const _).add h1
  have h02 : Integrable (fun y : σ → ℝ => x i * x j + x i * y j + x j * y i) ν := h01.add h2
  have e : ∀ y : σ → ℝ, (x i + y i) * (x j + y j) = x i * x j + x i * y j + x j * y i + y i * y j := fun y => by ring
  simp only [e]
  have k1 : ∫ y : σ → ℝ, x i * y j ∂ν = x i * ∫ y, y j ∂ν := integral_const_mul _ _
  have k2 : ∫ y : σ → ℝ, x j * y i ∂ν = x j * ∫ y, y i ∂ν := integral_const_mul _ _
  rw [integral_add h02 (mom_mul hν i j), integral_add h01 h2, integral_add (integrable_const _) h1, k1, k2, integral_const,
    probReal_univ, one_smul]
  ring

/-- a linear equation for an expectation, with jumps at fixed times -/
theorem sol_linAt {c : JumpDiff σ} {b : σ → MvPolynomial σ ℝ} {a : σ → σ → MvPolynomial σ ℝ} (h : PolyCoef c b a)
    (hν : Mom c.ν) (hs : Times s) (hκ : ∀ i, Mom (κ i)) {E0 : MvPolynomial σ ℝ →ₗ[ℝ] ℝ}
    {E : ℝ → MvPolynomial σ ℝ →ₗ[ℝ] ℝ} (hE : c.DynkinAt s κ E0 E) {f g : MvPolynomial σ ℝ} (hg : c.IsGen f g) (k : ℝ)
    {φ φ' ℓ : ℝ → ℝ} (hφ : Piece s φ φ' ℓ) (hr : ∀ t, 0 ≤ t → E t g = φ' t + k * φ t - k * E t f) (h0 : E0 f = φ 0)
    (hj : ∀ i, ∀ L : MvPolynomial σ ℝ →ₗ[ℝ] ℝ, (∀ f, Tendsto (fun u => E u f) (𝓝[<] s i) (𝓝 (L f))) →
      L (jump (κ i) (hκ i) f) - L f = φ (s i) - ℓ (s i)) (t : ℝ) (ht : 0 ≤ t) : E t f = φ t := by
  have hsol := dynkinAt_sol h hν hs hκ hE
  obtain rfl := isGen_unique hg (isGen_op h hν f)
  have hx : ∀ r, HasDerivAt (fun s => Real.exp (k * s)) (Real.exp (k * r) * k) r := fun r => by
    simpa using ((hasDerivAt_id r).const_mul k).exp
  have hd : ∀ r, 0 ≤ r → HasDerivWithinAt (fun s => Real.exp (k * s) * (E s f - φ s)) 0 (Set.Ici r) r := by
    intro r hr'
    have h1 := hsol.deriv f r hr'
    rw [hr r hr'] at h1
    refine ((hx r).hasDerivWithinAt.mul (h1.sub (hφ.deriv r hr'))).congr_deriv ?_
    simp only [Pi.sub_apply]
    ring
  have hl : ∀ r, 0 < r → ContinuousWithinAt (fun s => Real.exp (k * s) * (E s f - φ s)) (Set.Iio r) r := by
    intro r hr'
    obtain ⟨M, hM, e⟩ := hsol.left r hr'
    have h1 := (((hx r).continuousAt.tendsto.mono_left nhdsWithin_le_nhds).mul ((hM f).sub (hφ.left r hr')))
    have e2 : M f - ℓ r = E r f - φ r := by
      by_cases hi : ∃ i, s i = r
      · obtain ⟨i, rfl⟩ := hi
        rw [e, jat_at hs, LinearMap.comp_apply]
        linarith [hj i M hM]
      · rw [e, jat_ne κ hκ hi, hφ.only r hi]
        rfl
    rw [e2] at h1
    exact h1
  have hc := constant_of_has_deriv_right_zero (a := 0) (b := t) (f := fun s => Real.exp (k * s) * (E s f - φ s))
    (fun r hr' => by
      rcases hr'.1.eq_or_lt with e | e
      · subst e
        exact (hd 0 le_rfl).continuousWithinAt.mono Set.Icc_subset_Ici_self
      · exact (continuousAt_iff_continuous_left'_right'.2 ⟨hl r e,
          (hd r e.le).continuousWithinAt.mono Set.Ioi_subset_Ici_self⟩).continuousWithinAt)
    (fun r hr' => hd r hr'.1) t ⟨ht, le_rfl⟩
  simp only [hE.start, h0, sub_self, mul_zero] at hc
  have := (mul_eq_zero.1 hc).resolve_left (Real.exp_ne_zero _)
  linarith

end Ajd.Gen

namespace Ajd.Closed
open MvPolynomial MeasureTheory Gen Filter Topology

/-- what a jump of the variance by `J` adds -/
def Data.jump (d : Data) (J : ℝ) : Data := ⟨d.k, 0, d.σ, d.ρ, 0, 0, 0, 0, J, 0⟩

/-- variance and return given the jumps: the first two moments. The jump `i` has the size `J i` in the variance, and mean
`n i` and variance `z i` in the return. -/
theorem pairAt {N : ℕ} {τ : Fin N → ℝ} {κ : Fin N → Measure (Fin 2 → ℝ)} {c : JumpDiff (Fin 2)}
    {b : Fin 2 → MvPolynomial (Fin 2) ℝ} {a : Fin 2 → Fin 2 → MvPolynomial (Fin 2) ℝ}
    (h : PolyCoef c b a) (hν : Mom c.ν) (hs : Times τ) (hκ : ∀ i, Mom (κ i)) (hp : ∀ i, IsProbabilityMeasure (κ i))
    (d : Data) (hk : d.k ≠ 0) (θ mu : ℝ) (hb : ∀ x, c.b x = ![d.k * (θ - x 0), mu - x 0 / 2])
    (ha : ∀ x, c.a x = ![![d.σ ^ 2 * x 0, d.ρ * d.σ * x 0], ![d.ρ * d.σ * x 0, x 0]])
    (m0 : d.k * d.T = d.k * θ + c.lam * ∫ y, y 0 ∂c.ν) (m1 : d.nu = mu + c.lam * ∫ y, y 1 ∂c.ν)
    (m00 : d.q = c.lam * ∫ y, y 0 * y 0 ∂c.ν) (m01 : d.s = c.lam * ∫ y, y 0 * y 1 ∂c.ν)
    (m11 : d.u = c.lam * ∫ y, y 1 * y 1 ∂c.ν) (J n z : Fin N → ℝ) (j0 : ∀ i, ∫ y, y 0 ∂κ i = J i)
    (j1 : ∀ i, ∫ y, y 1 ∂κ i = n i) (j00 : ∀ i, ∫ y, y 0 * y 0 ∂κ i = J i ^ 2) (j01 : ∀ i, ∫ y, y 0 * y 1 ∂κ i = J i * n i)
    (j11 : ∀ i, ∫ y, y 1 * y 1 ∂κ i = z i + n i ^ 2)
    {E0 : MvPolynomial (Fin 2) ℝ →ₗ[ℝ] ℝ} {E : ℝ → MvPolynomial (Fin 2) ℝ →ₗ[ℝ] ℝ} (hE : c.DynkinAt τ κ E0 E)
    (s : E0 1 = 1) (s0 : E0 (X 0) = d.a) (s00 : E0 (X 0 * X 0) = d.w + d.a ^ 2) (s1 : ∀ f, E0 (X 1 * f) = 0)
    (t : ℝ) (ht : 0 ≤ t) :
    E t 1 = 1 ∧ E t (X 0) = tot τ (vMean d) (fun i => vMean (d.jump (J i))) t ∧
      E t (X 1) = tot τ (yMean d) (fun i t => n i + yMean (d.jump (J i)) t) t ∧
      E t (X 0 * X 0) = tot τ (vVar d) (fun i => vVar (d.jump (J i))) t + tot τ (vMean d) (fun i => vMean (d.jump (J i))) t ^ 2 ∧
      E t (X 1 * X 1) = tot τ (yVar d) (fun i t => z i + yVar (d.jump (J i)) t) t +
        tot τ (yMean d) (fun i t => n i + yMean (d.jump (J i)) t) t ^ 2 := by
  obtain ⟨z1, z2, z3, z4, z5⟩ := at_zero d
  have o : ∀ t, 0 ≤ t → ∀ r, E t (C r) = r := fun t ht r => by
    rw [C_eq_smul_one, map_smul, dynkinAt_one h hν hs hκ hp hE ht, s, smul_eq_mul, mul_one]
  have cm : ∀ (L : MvPolynomial (Fin 2) ℝ →ₗ[ℝ] ℝ) r f, L (C r * f) = r * L f := fun L r f => by
    rw [C_mul', map_smul, smul_eq_mul]
  have lim : ∀ {f : MvPolynomial (Fin 2) ℝ} {φ φ' ℓ : ℝ → ℝ}, Piece τ φ φ' ℓ → (∀ t, 0 ≤ t → E t f = φ t) →
      ∀ i (L : MvPolynomial (Fin 2) ℝ →ₗ[ℝ] ℝ), (∀ f, Tendsto (fun u => E u f) (𝓝[<] τ i) (𝓝 (L f))) → L f = ℓ (τ i) := by
    intro f φ φ' ℓ hP he i L hL
    refine tendsto_nhds_unique (hL f) ((hP.left _ (hs.pos i)).congr' ?_)
    filter_upwards [Ioo_mem_nhdsLT (hs.pos i)] with u hu
    exact (he u hu.1.le).symm
  have one : ∀ i (L : MvPolynomial (Fin 2) ℝ →ₗ[ℝ] ℝ), (∀ f, Tendsto (fun u => E u f) (𝓝[<] τ i) (𝓝 (L f))) →
      ∀ r, L (C r) = r := fun i L hL r => by
    refine tendsto_nhds_unique (hL (C r)) (tendsto_const_nhds.congr' ?_)
    filter_upwards [Ioo_mem_nhdsLT (hs.pos i)] with u hu
    exact (o u hu.1.le r).symm
  have hkj : ∀ i, (d.jump (J i)).k ≠ 0 := fun i => hk
  -- the five functions
  have pv : Piece τ (tot τ (vMean d) fun i => vMean (d.jump (J i))) _ _ :=
    tot_piece (d_vMean d) fun i => d_vMean (d.jump (J i))
  have py : Piece τ (tot τ (yMean d) fun i t => n i + yMean (d.jump (J i)) t) _ _ :=
    tot_piece (d_yMean d hk) fun i t => (d_yMean (d.jump (J i)) (hkj i) t).const_add (n i)
  have pvv : Piece τ (tot τ (vVar d) fun i => vVar (d.jump (J i))) _ _ :=
    tot_piece (d_vVar d hk) fun i => d_vVar (d.jump (J i)) (hkj i)
  have pvy : Piece τ (tot τ (vyCov d) fun i => vyCov (d.jump (J i))) _ _ :=
    tot_piece (d_vyCov d hk) fun i => d_vyCov (d.jump (J i)) (hkj i)
  have pyy : Piece τ (tot τ (yVar d) fun i t => z i + yVar (d.jump (J i)) t) _ _ :=
    tot_piece (d_yVar d hk) fun i t => (d_yVar (d.jump (J i)) (hkj i) t).const_add (z i)
  -- their derivatives
  have dv : ∀ t, tot τ (fun t => d.k * (d.T - vMean d t)) (fun i t => (d.jump (J i)).k * ((d.jump (J i)).T - vMean (d.jump (J i)) t)) t =
      d.k * d.T - d.k * tot τ (vMean d) (fun i => vMean (d.jump (J i))) t := fun t => by
    rw [tot_lin (d.k * d.T) (-d.k) 0 0 (s := τ) (f0 := vMean d) (f := fun i => vMean (d.jump (J i)))
      (g0 := vVar d) (g := fun i => vVar (d.jump (J i))) (h0 := vyCov d) (h := fun i => vyCov (d.jump (J i)))
      (fun t => by ring) (fun i t => by simp only [Data.jump]; ring)]
    ring
  have dy : ∀ t, tot τ (fun t => d.nu - vMean d t / 2) (fun i t => (d.jump (J i)).nu - vMean (d.jump (J i)) t / 2) t =
      d.nu - tot τ (vMean d) (fun i => vMean (d.jump (J i))) t / 2 := fun t => by
    rw [tot_lin d.nu (-1 / 2) 0 0 (s := τ) (f0 := vMean d) (f := fun i => vMean (d.jump (J i)))
      (g0 := vVar d) (g := fun i => vVar (d.jump (J i))) (h0 := vyCov d) (h := fun i => vyCov (d.jump (J i)))
      (fun t => by ring) (fun i t => by simp only [Data.jump]; ring)]
    ring
  have dvv : ∀ t, tot τ (fun t => d.σ ^ 2 * vMean d t + d.q - 2 * d.k * vVar d t) (fun i t => (d.jump (J i)).σ ^ 2 *
        vMean (d.jump (J i)) t + (d.jump (J i)).q - 2 * (d.jump (J i)).k * vVar (d.jump (J i)) t) t =
      d.σ ^ 2 * tot τ (vMean d) (fun i => vMean (d.jump (J i))) t + d.q - 2 * d.k * tot τ (vVar d) (fun i => vVar (d.jump (J i))) t := fun t => by
    rw [tot_lin d.q (d.σ ^ 2) (-(2 * d.k)) 0 (s := τ) (f0 := vMean d) (f := fun i => vMean (d.jump (J i)))
      (g0 := vVar d) (g := fun i => vVar (d.jump (J i))) (h0 := vyCov d) (h := fun i => vyCov (d.jump (J i)))
      (fun t => by ring) (fun i t => by simp only [Data.jump]; ring)]
    ring
  have dvy : ∀ t, tot τ (fun t => d.ρ * d.σ * vMean d t + d.s - vVar d t / 2 - d.k * vyCov d t) (fun i t =>
        (d.jump (J i)).ρ * (d.jump (J i)).σ * vMean (d.jump (J i)) t + (d.jump (J i)).s - vVar (d.jump (J i)) t / 2 -
          (d.jump (J i)).k * vyCov (d.jump (J i)) t) t =
      d.ρ * d.σ * tot τ (vMean d) (fun i => vMean (d.jump (J i))) t + d.s - tot τ (vVar d) (fun i => vVar (d.jump (J i))) t / 2 -
        d.k * tot τ (vyCov d) (fun i => vyCov (d.jump (J i))) t := fun t => by
    rw [tot_lin d.s (d.ρ * d.σ) (-1 / 2) (-d.k) (s := τ) (f0 := vMean d) (f := fun i => vMean (d.jump (J i)))
      (g0 := vVar d) (g := fun i => vVar (d.jump (J i))) (h0 := vyCov d) (h := fun i => vyCov (d.jump (J i)))
      (fun t => by ring) (fun i t => by simp only [Data.jump]; ring)]
    ring
  have dyy : ∀ t, tot τ (fun t => vMean d t + d.u - vyCov d t) (fun i t => vMean (d.jump (J i)) t + (d.jump (J i)).u -
        vyCov (d.jump (J i)) t) t =
      tot τ (vMean d) (fun i => vMean (d.jump (J i))) t + d.u - tot τ (vyCov d) (fun i => vyCov (d.jump (J i))) t := fun t => by
    rw [tot_lin d.u 1 0 (-1) (s := τ) (f0 := vMean d) (f := fun i => vMean (d.jump (J i)))
      (g0 := vVar d) (g := fun i => vVar (d.jump (J i))) (h0 := vyCov d) (h := fun i => vyCov (d.jump (J i)))
      (fun t => by ring) (fun i t => by simp only [Data.jump]; ring)]
    ring
  have bj := fun i => at_zero (d.jump (J i))
  have jv : ∀ i, tot τ (vMean d) (fun i => vMean (d.jump (J i))) (τ i) = totL τ (vMean d) (fun i => vMean (d.jump (J i))) (τ i) + J i :=
    fun i => by rw [tot_jump hs, (bj i).1]; rfl
  have jy : ∀ i, tot τ (yMean d) (fun i t => n i + yMean (d.jump (J i)) t) (τ i) =
      totL τ (yMean d) (fun i t => n i + yMean (d.jump (J i)) t) (τ i) + n i :=
    fun i => by rw [tot_jump hs, (bj i).2.1, add_zero]
  have jvv : ∀ i, tot τ (vVar d) (fun i => vVar (d.jump (J i))) (τ i) = totL τ (vVar d) (fun i => vVar (d.jump (J i))) (τ i) :=
    fun i => by rw [tot_jump hs, (bj i).2.2.1]; exact add_zero _
  have jvy : ∀ i, tot τ (vyCov d) (fun i => vyCov (d.jump (J i))) (τ i) = totL τ (vyCov d) (fun i => vyCov (d.jump (J i))) (τ i) :=
    fun i => by rw [tot_jump hs, (bj i).2.2.2.1, add_zero]
  have jyy : ∀ i, tot τ (yVar d) (fun i t => z i + yVar (d.jump (J i)) t) (τ i) =
      totL τ (yVar d) (fun i t => z i + yVar (d.jump (J i)) t) (τ i) + z i :=
    fun i => by rw [tot_jump hs, (bj i).2.2.2.2, add_zero]
  have e0 := sol_linAt h hν hs hκ hE (isGen_lin 0 (g := C (d.k * d.T) - C d.k * X 0) fun x => by
      rw [hb]; simp [m0]; ring) d.k pv (fun t ht => by rw [map_sub, cm, o t ht, dv]; ring) (by rw [s0, tot_zero hs, z1])
    fun i L hL => by rw [jump_lin, map_add, one i L hL, j0, jv]; ring
  have e1 := sol_linAt h hν hs hκ hE (isGen_lin 1 (g := C d.nu - C (1 / 2) * X 0) fun x => by
      rw [hb]; simp [m1]; ring) 0 py (fun t ht => by rw [map_sub, cm, o t ht, e0 t ht, dy]; ring)
    (by rw [tot_zero hs, z2]; simpa using s1 1) fun i L hL => by rw [jump_lin, map_add, one i L hL, j1, jy]; ring
  have e00 := sol_linAt h hν hs hκ hE
    (isGen_quad h.prob hν 0 0 (g := C (2 * d.k * d.T + d.σ ^ 2) * X 0 + C d.q - C (2 * d.k) * (X 0 * X 0)) fun x => by
      rw [hb, ha]; simp [m00]; linear_combination 2 * x 0 * m0) (2 * d.k) (pvv.add (pv.mul pv))
    (fun t ht => by rw [map_sub, map_add, cm, cm, o t ht, e0 t ht, dvv, dv]; ring)
    (by rw [tot_zero hs, tot_zero hs, z1, z3, s00]; ring)
    fun i L hL => by
      rw [jump_quad, map_add, map_add, map_add, cm, one i L hL, lim pv e0 i L hL, j0, j00, jv, jvv]; ring
  have e01 := sol_linAt h hν hs hκ hE
    (isGen_quad h.prob hν 0 1 (g := C (d.k * d.T) * X 1 + C (d.nu + d.ρ * d.σ) * X 0 - C (1 / 2) * (X 0 * X 0) + C d.s
        - C d.k * (X 0 * X 1)) fun x => by
      rw [hb, ha]; simp [m01]; linear_combination x 1 * m0 + x 0 * m1) d.k (pvy.add (pv.mul py))
    (fun t ht => by
      rw [map_sub, map_add, map_sub, map_add, cm, cm, cm, cm, o t ht, e0 t ht, e1 t ht, e00 t ht, dvy, dv, dy]; ring)
    (by rw [tot_zero hs, tot_zero hs, tot_zero hs, z2, z4, mul_comm, s1]; ring)
    fun i L hL => by
      rw [jump_quad, map_add, map_add, map_add, cm, cm, one i L hL, lim pv e0 i L hL, lim py e1 i L hL, j0, j1, j01, jv, jvy, jy]; ring
  have e11 := sol_linAt h hν hs hκ hE
    (isGen_quad h.prob hν 1 1 (g := C (2 * d.nu) * X 1 - X 0 * X 1 + X 0 + C d.u) fun x => by
      rw [hb, ha]; simp [m11]; linear_combination 2 * x 1 * m1) 0 (pyy.add (py.mul py))
    (fun t ht => by rw [map_add, map_add, map_sub, cm, o t ht, e0 t ht, e1 t ht, e01 t ht, dyy, dy]; ring)
    (by rw [tot_zero hs, tot_zero hs, z2, z5, s1]; ring)
    fun i L hL => by
      rw [jump_quad, map_add, map_add, map_add, cm, one i L hL, lim py e1 i L hL, j1, j11, jy, jyy]; ring
  refine ⟨by simpa using o t ht 1, e0 t ht, e1 t ht, (e00 t ht).trans (by ring), (e11 t ht).trans (by ring)⟩

/-- the numbers of a variance without a return -/
def dataV (x : ItoCond.Par) : Data := ⟨x.k, x.θ, x.σ, 0, 0, 0, 0, 0, x.v, 0⟩

/-- the variance alone given the jumps: the first two moments -/
theorem soloAt (x : ItoCond.Par) (hk : x.k ≠ 0) (hs : Times x.s) {E : ℝ → MvPolynomial (Fin 1) ℝ →ₗ[ℝ] ℝ}
    (hE : ItoCond.GivenV x E) (t : ℝ) (ht : 0 ≤ t) :
    E t 1 = 1 ∧ E t (X 0) = tot x.s (vMean (dataV x)) (fun i => vMean ((dataV x).jump (x.J i))) t ∧
      E t (X 0 * X 0) = tot x.s (vVar (dataV x)) (fun i => vVar ((dataV x).jump (x.J i))) t +
        tot x.s (vMean (dataV x)) (fun i => vMean ((dataV x).jump (x.J i))) t ^ 2 := by
  have h := ItoCond.coef1 x.k x.θ x.σ
  have hν := ItoCond.mom1 x.k x.θ x.σ
  have hκ : ∀ i, Mom (Measure.dirac (![x.J i] : Fin 1 → ℝ)) := fun i => CondJ.mom_dirac _
  generalize hd : dataV x = d
  have dk : d.k = x.k := by rw [← hd]; rfl
  have dT : d.T = x.θ := by rw [← hd]; rfl
  have dσ : d.σ = x.σ := by rw [← hd]; rfl
  have da : d.a = x.v := by rw [← hd]; rfl
  have dw : d.w = 0 := by rw [← hd]; rfl
  have dq : d.q = 0 := by rw [← hd]; rfl
  have hk' : d.k ≠ 0 := dk ▸ hk
  obtain ⟨z1, -, z3, -, -⟩ := at_zero d
  have o : ∀ t, 0 ≤ t → ∀ r, E t (C r) = r := fun t ht r => by
    rw [C_eq_smul_one, map_smul, dynkinAt_one h hν hs hκ (fun _ => inferInstance) hE ht]
    simp
  have cm : ∀ (L : MvPolynomial (Fin 1) ℝ →ₗ[ℝ] ℝ) r f, L (C r * f) = r * L f := fun L r f => by
    rw [C_mul', map_smul, smul_eq_mul]
  have one : ∀ i (L : MvPolynomial (Fin 1) ℝ →ₗ[ℝ] ℝ), (∀ f, Tendsto (fun u => E u f) (𝓝[<] x.s i) (𝓝 (L f))) →
      ∀ r, L (C r) = r := fun i L hL r => by
    refine tendsto_nhds_unique (hL (C r)) (tendsto_const_nhds.congr' ?_)
    filter_upwards [Ioo_mem_nhdsLT (hs.pos i)] with u hu
    exact (o u hu.1.le r).symm
  have pv : Piece x.s (tot x.s (vMean d) fun i => vMean (d.jump (x.J i))) _ _ :=
    tot_piece (d_vMean d) fun i => d_vMean (d.jump (x.J i))
  have pvv : Piece x.s (tot x.s (vVar d) fun i => vVar (d.jump (x.J i))) _ _ :=
    tot_piece (d_vVar d hk') fun i => d_vVar (d.jump (x.J i)) hk'
  have dv : ∀ t, tot x.s (fun t => d.k * (d.T - vMean d t)) (fun i t => (d.jump (x.J i)).k * ((d.jump (x.J i)).T -
      vMean (d.jump (x.J i)) t)) t = d.k * d.T - d.k * tot x.s (vMean d) (fun i => vMean (d.jump (x.J i))) t := fun t => by
    rw [tot_lin (d.k * d.T) (-d.k) 0 0 (s := x.s) (f0 := vMean d) (f := fun i => vMean (d.jump (x.J i)))
      (g0 := vVar d) (g := fun i => vVar (d.jump (x.J i))) (h0 := vVar d) (h := fun i => vVar (d.jump (x.J i)))
      (fun t => by ring) (fun i t => by simp only [Data.jump]; ring)]
    ring
  have dvv : ∀ t, tot x.s (fun t => d.σ ^ 2 * vMean d t + d.q - 2 * d.k * vVar d t) (fun i t => (d.jump (x.J i)).σ ^ 2 *
        vMean (d.jump (x.J i)) t + (d.jump (x.J i)).q - 2 * (d.jump (x.J i)).k * vVar (d.jump (x.J i)) t) t =
      d.σ ^ 2 * tot x.s (vMean d) (fun i => vMean (d.jump (x.J i))) t + d.q -
        2 * d.k * tot x.s (vVar d) (fun i => vVar (d.jump (x.J i))) t := fun t => by
    rw [tot_lin d.q (d.σ ^ 2) (-(2 * d.k)) 0 (s := x.s) (f0 := vMean d) (f := fun i => vMean (d.jump (x.J i)))
      (g0 := vVar d) (g := fun i => vVar (d.jump (x.J i))) (h0 := vVar d) (h := fun i => vVar (d.jump (x.J i)))
      (fun t => by ring) (fun i t => by simp only [Data.jump]; ring)]
    ring
  have bj := fun i => at_zero (d.jump (x.J i))
  have jv : ∀ i, tot x.s (vMean d) (fun i => vMean (d.jump (x.J i))) (x.s i) =
      totL x.s (vMean d) (fun i => vMean (d.jump (x.J i))) (x.s i) + x.J i := fun i => by
    rw [tot_jump hs, (bj i).1]; rfl
  have jvv : ∀ i, tot x.s (vVar d) (fun i => vVar (d.jump (x.J i))) (x.s i) =
      totL x.s (vVar d) (fun i => vVar (d.jump (x.J i))) (x.s i) := fun i => by
    rw [tot_jump hs, (bj i).2.2.1]; exact add_zero _
  have j0 : ∀ i, ∫ y, y 0 ∂Measure.dirac (![x.J i] : Fin 1 → ℝ) = x.J i := fun i => by
    rw [integral_dirac]; simp
  have j00 : ∀ i, ∫ y, y 0 * y 0 ∂Measure.dirac (![x.J i] : Fin 1 → ℝ) = x.J i * x.J i := fun i => by
    rw [integral_dirac]; simp
  have e0 := sol_linAt h hν hs hκ hE (isGen_lin 0 (g := C (d.k * d.T) - C d.k * X 0) fun y => by
      simp [Ito.cir, dk, dT]; ring) d.k pv (fun t ht => by rw [map_sub, cm, o t ht, dv]; ring)
    (by rw [tot_zero hs, z1, da]; simp) fun i L hL => by rw [jump_lin, map_add, one i L hL, j0, jv]; ring
  have lim : ∀ i (L : MvPolynomial (Fin 1) ℝ →ₗ[ℝ] ℝ), (∀ f, Tendsto (fun u => E u f) (𝓝[<] x.s i) (𝓝 (L f))) →
      L (X 0) = totL x.s (vMean d) (fun i => vMean (d.jump (x.J i))) (x.s i) := by
    intro i L hL
    refine tendsto_nhds_unique (hL _) ((pv.left _ (hs.pos i)).congr' ?_)
    filter_upwards [Ioo_mem_nhdsLT (hs.pos i)] with u hu
    exact (e0 u hu.1.le).symm
  have e00 := sol_linAt h hν hs hκ hE
    (isGen_quad h.prob hν 0 0 (g := C (2 * d.k * d.T + d.σ ^ 2) * X 0 - C (2 * d.k) * (X 0 * X 0)) fun y => by
      simp [Ito.cir, dk, dT, dσ]; ring) (2 * d.k) (pvv.add (pv.mul pv))
    (fun t ht => by rw [map_sub, cm, cm, e0 t ht, dvv, dv, dq]; ring)
    (by rw [tot_zero hs, tot_zero hs, z1, z3, da, dw]; simp)
    fun i L hL => by rw [jump_quad, map_add, map_add, map_add, cm, one i L hL, lim i L hL, j0, j00, jv, jvv]; ring
  exact ⟨by simpa using o t ht 1, e0 t ht, (e00 t ht).trans (by ring)⟩

/-- a sum over the jumps: sizes `js`, times `ts` -/
def overJumps (js ts : List ℝ) (f : ℝ → ℝ → ℝ) : ℝ := ((js.zip ts).map fun x => f x.1 x.2).sum

theorem overJumps_eq (f : ℝ → ℝ → ℝ) : ∀ js ts : List ℝ, ts.length = js.length →
    ∑ i : Fin js.length, f (js.getD i 0) (ts.getD i 0) = overJumps js ts f
  | [], _, _ => by simp [overJumps]
  | j :: js, [], h => by simp at h
  | j :: js, t :: ts, h => by
    have ih := overJumps_eq f js ts (by simpa using h)
    rw [overJumps] at ih ⊢
    simp only [List.length_cons, Fin.sum_univ_succ, List.zip_cons_cons, List.map_cons, List.sum_cons, ← ih]
    simp

/-- what a unit of variance at the time 0 adds to the variance of the return over the time `t` -/
noncomputable def perUnit (k σ ρ t : ℝ) : ℝ :=
  (1 - Real.exp (-k * t)) / k - (ρ * σ - σ ^ 2 / (2 * k)) * (1 - Real.exp (-k * t) * (1 + k * t)) / k ^ 2 -
    σ ^ 2 * (1 - Real.exp (-k * t)) ^ 2 / (4 * k ^ 3)

theorem jump_values (d : Data) (hk : d.k ≠ 0) (J t : ℝ) : vMean (d.jump J) t = J * Real.exp (-d.k * t) ∧
    yMean (d.jump J) t = -(J * (1 - Real.exp (-d.k * t)) / (2 * d.k)) ∧
    vVar (d.jump J) t = J * (d.σ ^ 2 / d.k * (Real.exp (-d.k * t) - Real.exp (-d.k * t) ^ 2)) ∧
    yVar (d.jump J) t = J * perUnit d.k d.σ d.ρ t := by
  refine ⟨by simp [vMean, Data.jump], by simp [yMean, Data.jump], ?_, ?_⟩
  · simp only [vVar, W, A, B, Data.jump]
    field_simp
    ring
  · simp only [yVar, R, W, A, B, Data.jump, perUnit]
    field_simp
    ring

/-- the sum over the jumps that have happened by the time `h`, as a sum over all of them -/
theorem tot_list (js ts : List ℝ) (h : ℝ) (hl : ts.length = js.length) (ht : ∀ s ∈ ts, s ≤ h) (g0 : ℝ → ℝ) (f : ℝ → ℝ → ℝ) :
    tot (fun i : Fin js.length => ts.getD i 0) g0 (fun i t => f (js.getD i 0) t) h = g0 h + overJumps js ts fun J s => f J (h - s) := by
  rw [tot, ← overJumps_eq _ js ts hl]
  congr 1
  refine Finset.sum_congr rfl fun i _ => if_pos ?_
  have hi : (i : ℕ) < ts.length := i.2.trans_eq hl.symm
  rw [List.getD_eq_getElem _ _ hi]
  exact ht _ (List.getElem_mem _)

end Ajd.Closed

namespace Ajd
open MvPolynomial MeasureTheory Gen Closed

namespace SrjdJ

/-- C79. SRJD: `m(1, par)` and `cm(2, par)` given the jumps. -/
theorem C79_srjd (p : SrjdJ.Par) (hp : p.OK) (hd : p.jumptime.Nodup) (h0 : ∀ s ∈ p.jumptime, 0 < s) :
    ∃ c, ∀ fuel, c ≤ fuel →
      SrjdJ.mV fuel 1 p = some (.ok (p.theta + (p.v0 - p.theta) * Real.exp (-p.k * p.h) +
        overJumps p.jumpsize p.jumptime fun J s => J * Real.exp (-p.k * (p.h - s)))) ∧
      SrjdJ.cmV fuel 2 p = some (.ok (p.sigma ^ 2 * p.theta / (2 * p.k) * (1 - Real.exp (-p.k * p.h)) ^ 2 +
        p.v0 * (p.sigma ^ 2 / p.k * (Real.exp (-p.k * p.h) - Real.exp (-p.k * p.h) ^ 2)) +
        overJumps p.jumpsize p.jumptime fun J s =>
          J * (p.sigma ^ 2 / p.k * (Real.exp (-p.k * (p.h - s)) - Real.exp (-p.k * (p.h - s)) ^ 2)))) := by
  have hl : ∀ i : Fin p.jumpsize.length, (i : ℕ) < p.jumptime.length := fun i => i.2.trans_eq hp.len.symm
  have hs : Times p.cir.s := by
    constructor
    · intro i j e
      change p.jumptime.getD i 0 = p.jumptime.getD j 0 at e
      rw [List.getD_eq_getElem _ _ (hl i), List.getD_eq_getElem _ _ (hl j)] at e
      exact Fin.ext ((hd.getElem_inj_iff (hi := hl i) (hj := hl j)).1 e)
    · intro i
      change 0 < p.jumptime.getD i 0
      rw [List.getD_eq_getElem _ _ (hl i)]
      exact h0 _ (List.getElem_mem _)
  obtain ⟨E, hE, -⟩ := C37_law p.cir hs.pos hs.inj
  obtain ⟨o, e0, e00⟩ := soloAt p.cir hp.k hs hE p.h hp.h
  obtain ⟨c1, h1⟩ := C37_sde 1 p hp hd h0
  obtain ⟨c2, h2⟩ := C37_sde 2 p hp hd h0
  have a1 : tot p.cir.s (vMean (dataV p.cir)) (fun i => vMean ((dataV p.cir).jump (p.cir.J i))) p.h = _ :=
    tot_list p.jumpsize p.jumptime p.h hp.len (fun s hs => (hp.time s hs).2) _ fun J t => vMean ((dataV p.cir).jump J) t
  have a2 : tot p.cir.s (vVar (dataV p.cir)) (fun i => vVar ((dataV p.cir).jump (p.cir.J i))) p.h = _ :=
    tot_list p.jumpsize p.jumptime p.h hp.len (fun s hs => (hp.time s hs).2) _ fun J t => vVar ((dataV p.cir).jump J) t
  simp only [(jump_values (dataV p.cir) hp.k _ _).1] at a1
  simp only [(jump_values (dataV p.cir) hp.k _ _).2.2.1] at a2
  refine ⟨max c1 c2, fun fuel hfu => ⟨?_, ?_⟩⟩
  · have := (h1 fuel (by omega) E hE).1
    rw [pow_one, e0, a1] at this
    exact this
  · have := (h2 fuel (by omega) E hE).2
    rw [var_sq _ o 0 e0 e00, a2] at this
    rw [Nat.cast_ofNat] at this
    rw [this]
    congr 3
    simp only [vVar, W, A, B, dataV, SrjdJ.Par.cir]
    have := hp.k
    field_simp
    ring

end SrjdJ

theorem dirac2 (J : ℝ) (F : (Fin 2 → ℝ) → ℝ) : ∫ y, F y ∂Measure.dirac (![J, 0] : Fin 2 → ℝ) = F ![J, 0] := integral_dirac _ _

namespace Svvj

/-- C79. SVVJ: `m(1, par)` and `cm(2, par)` given the jumps: the mean and the variance of the return without jumps, and what
every jump adds. -/
theorem C79_svvj (p : Svvj.Par) (hp : p.OK) (hj : p.Simple) : ∃ c, ∀ fuel, c ≤ fuel →
    Svvj.m fuel 1 p = some (.ok (yMean ⟨p.k, p.θ, p.σ, p.ρ, p.μ, 0, 0, 0, p.v0, 0⟩ p.h +
      overJumps p.jumpsize p.jumptime fun J s => -(J * (1 - Real.exp (-p.k * (p.h - s))) / (2 * p.k)))) ∧
    Svvj.cm fuel 2 p = some (.ok (yVar ⟨p.k, p.θ, p.σ, p.ρ, p.μ, 0, 0, 0, p.v0, 0⟩ p.h +
      overJumps p.jumpsize p.jumptime fun J s => J * perUnit p.k p.σ p.ρ (p.h - s))) := by
  obtain ⟨E, hE⟩ := Svvj.given_exists p hp.len hj
  let d : Data := ⟨p.k, p.θ, p.σ, p.ρ, p.μ, 0, 0, 0, p.v0, 0⟩
  obtain ⟨o, -, e1, -, e11⟩ := pairAt (Sv.hcoef p.μ p.k p.θ p.σ p.ρ) (Sv.hmom _ _ _ _ _) (hj.times hp.len)
    (fun _ => CondJ.mom_dirac _) (fun _ => inferInstance) d hp.k p.θ p.μ (fun x => rfl) (fun x => rfl)
    (by simp [d, Sv.heston]) (by simp [d, Sv.heston]) (by simp [d, Sv.heston]) (by simp [d, Sv.heston]) (by simp [d, Sv.heston])
    (fun i => p.jumpsize.getD i 0) (fun _ => 0) (fun _ => 0) (fun i => by rw [dirac2 _ fun y => y 0]; simp)
    (fun i => by rw [dirac2 _ fun y => y 1]; simp) (fun i => by rw [dirac2 _ fun y => y 0 * y 0]; simp [pow_two])
    (fun i => by rw [dirac2 _ fun y => y 0 * y 1]; simp) (fun i => by rw [dirac2 _ fun y => y 1 * y 1]; simp)
    hE (by simp) (by simp [d]) (by simp [d, pow_two]) (by simp) p.h hp.h
  have a1 : tot (Svvj.jt p) (yMean d) (fun i t => 0 + yMean (d.jump (p.jumpsize.getD i 0)) t) p.h = _ :=
    tot_list p.jumpsize p.jumptime p.h hp.len (fun s hs => (hp.time s hs).2) _ fun J t => 0 + yMean (d.jump J) t
  have a2 : tot (Svvj.jt p) (yVar d) (fun i t => 0 + yVar (d.jump (p.jumpsize.getD i 0)) t) p.h = _ :=
    tot_list p.jumpsize p.jumptime p.h hp.len (fun s hs => (hp.time s hs).2) _ fun J t => 0 + yVar (d.jump J) t
  obtain ⟨x, ⟨c1, h1⟩, hx⟩ := Svvj.C38_m_sde_partial 1 p hp hj
  obtain ⟨y, ⟨c2, h2⟩, hy⟩ := Svvj.C38_cm_sde_partial 2 one_le_two p hp hj
  have hx := hx E hE (.inr (by norm_num))
  have hy := hy E hE (.inr (by norm_num))
  rw [pow_one, e1, a1] at hx
  rw [cmAt, var_sq _ o 1 e1 e11, a2] at hy
  simp only [zero_add, (jump_values d hp.k _ _).2.1] at hx
  simp only [zero_add, (jump_values d hp.k _ _).2.2.2] at hy
  refine ⟨max c1 c2, fun fuel hfu => ⟨?_, ?_⟩⟩
  · rw [← Nat.cast_one, h1 fuel (by omega), hx]
  · rw [← Nat.cast_ofNat, h2 fuel (by omega), hy]

end Svvj

namespace Svij

/-- C79. SVIJ: the same with the independent jumps of the return. -/
theorem C79_svij (p : Svij.Par) (hp : p.toPar.OK) (hj : p.toPar.Simple) (hlam : 0 ≤ p.lam) : ∃ c, ∀ fuel, c ≤ fuel →
    Svij.m fuel 1 p = some (.ok (yMean ⟨p.k, p.θ, p.σ, p.ρ, p.μ, 0, 0, 0, p.v0, 0⟩ p.h + p.lam * p.μs * p.h +
      overJumps p.jumpsize p.jumptime fun J s => -(J * (1 - Real.exp (-p.k * (p.h - s))) / (2 * p.k)))) ∧
    Svij.cm fuel 2 p = some (.ok (yVar ⟨p.k, p.θ, p.σ, p.ρ, p.μ, 0, 0, 0, p.v0, 0⟩ p.h + p.lam * (p.μs ^ 2 + p.σs ^ 2) * p.h +
      overJumps p.jumpsize p.jumptime fun J s => J * perUnit p.k p.σ p.ρ (p.h - s))) := by
  obtain ⟨E, hE⟩ := Svij.given_exists p hp hj
  let d : Data := ⟨p.k, p.θ, p.σ, p.ρ, p.μ + p.lam * p.μs, 0, 0, p.lam * (p.μs ^ 2 + p.σs ^ 2), p.v0, 0⟩
  have J := svj_jumps p.μ p.k p.θ p.σ p.ρ p.lam p.μs p.σs
  have j0 := J (fun y => y 0) (by fun_prop)
  have j1 := J (fun y => y 1) (by fun_prop)
  have j00 := J (fun y => y 0 * y 0) (by fun_prop)
  have j01 := J (fun y => y 0 * y 1) (by fun_prop)
  have j11 := J (fun y => y 1 * y 1) (by fun_prop)
  obtain ⟨o, -, e1, -, e11⟩ := pairAt (c := Sv.svj p.μ p.k p.θ p.σ p.ρ p.lam p.μs p.σs) (Sv.svj_coef _ _ _ _ _ _ _ _)
    (Sv.svj_mom _ _ _ _ _ _ _ _) (hj.times hp.len)
    (fun _ => CondJ.mom_dirac _) (fun _ => inferInstance) d hp.k p.θ p.μ (fun x => rfl) (fun x => rfl)
    (by rw [j0]; simp [d]) (by rw [j1]; simp [d, Sv.svj]) (by rw [j00]; simp [d]) (by rw [j01]; simp [d])
    (by rw [j11]; simp [d, Sv.svj, gauss_two])
    (fun i => p.jumpsize.getD i 0) (fun _ => 0) (fun _ => 0) (fun i => by rw [dirac2 _ fun y => y 0]; simp)
    (fun i => by rw [dirac2 _ fun y => y 1]; simp) (fun i => by rw [dirac2 _ fun y => y 0 * y 0]; simp [pow_two])
    (fun i => by rw [dirac2 _ fun y => y 0 * y 1]; simp) (fun i => by rw [dirac2 _ fun y => y 1 * y 1]; simp)
    hE (by simp) (by simp [d]) (by simp [d, pow_two]) (by simp) p.h hp.h
  have a1 : tot (Svvj.jt p.toPar) (yMean d) (fun i t => 0 + yMean (d.jump (p.jumpsize.getD i 0)) t) p.h = _ :=
    tot_list p.jumpsize p.jumptime p.h hp.len (fun s hs => (hp.time s hs).2) _ fun J t => 0 + yMean (d.jump J) t
  have a2 : tot (Svvj.jt p.toPar) (yVar d) (fun i t => 0 + yVar (d.jump (p.jumpsize.getD i 0)) t) p.h = _ :=
    tot_list p.jumpsize p.jumptime p.h hp.len (fun s hs => (hp.time s hs).2) _ fun J t => 0 + yVar (d.jump J) t
  obtain ⟨x, ⟨c1, h1⟩, hx⟩ := Svij.C48_m_sde_partial 1 p hp hj hlam
  obtain ⟨y, ⟨c2, h2⟩, hy⟩ := Svij.C48_cm_sde_partial 2 one_le_two p hp hj hlam
  have hx := hx E hE (.inr (by norm_num))
  have hy := hy E hE (.inr (by norm_num))
  rw [pow_one, e1, a1] at hx
  rw [cmAt, var_sq _ o 1 e1 e11, a2] at hy
  simp only [zero_add, (jump_values d hp.k _ _).2.1] at hx
  simp only [zero_add, (jump_values d hp.k _ _).2.2.2] at hy
  have b1 : yMean d p.h = yMean ⟨p.k, p.θ, p.σ, p.ρ, p.μ, 0, 0, 0, p.v0, 0⟩ p.h + p.lam * p.μs * p.h := by
    simp only [yMean, d]; ring
  have b2 : yVar d p.h = yVar ⟨p.k, p.θ, p.σ, p.ρ, p.μ, 0, 0, 0, p.v0, 0⟩ p.h + p.lam * (p.μs ^ 2 + p.σs ^ 2) * p.h := by
    simp only [yVar, R, W, A, B, d]; ring
  rw [b1] at hx
  rw [b2] at hy
  refine ⟨max c1 c2, fun fuel hfu => ⟨?_, ?_⟩⟩
  · rw [← Nat.cast_one, h1 fuel (by omega), hx]
  · rw [← Nat.cast_ofNat, h2 fuel (by omega), hy]

end Svij

theorem gauss2 (J m s : ℝ) (F : (Fin 2 → ℝ) → ℝ) (hF : Continuous F) :
    ∫ y, F y ∂(ProbabilityTheory.gaussianReal m (s ^ 2).toNNReal).map (fun y => ![J, y]) =
      ∫ y, F ![J, y] ∂ProbabilityTheory.gaussianReal m (s ^ 2).toNNReal := by
  have hm : Measurable fun y : ℝ => (![J, y] : Fin 2 → ℝ) := by fun_prop
  exact integral_map hm.aemeasurable hF.aestronglyMeasurable

namespace Svcj

/-- C79. SVCJ: every jump also adds its jump of the return. -/
theorem C79_svcj (p : Svcj.Par) (hp : p.toPar.OK) (hj : p.toPar.Simple) : ∃ c, ∀ fuel, c ≤ fuel →
    (Svcj.m fuel 1 p).run = some (.ok (yMean ⟨p.k, p.θ, p.σ, p.ρ, p.μ, 0, 0, 0, p.v0, 0⟩ p.h +
      overJumps p.jumpsize p.jumptime fun J s =>
        p.μs + p.ρJ * J - J * (1 - Real.exp (-p.k * (p.h - s))) / (2 * p.k))) ∧
    (Svcj.cm fuel 2 p).run = some (.ok (yVar ⟨p.k, p.θ, p.σ, p.ρ, p.μ, 0, 0, 0, p.v0, 0⟩ p.h +
      overJumps p.jumpsize p.jumptime fun J s => p.σs ^ 2 + J * perUnit p.k p.σ p.ρ (p.h - s))) := by
  obtain ⟨E, hE⟩ := Svcj.given_exists p hp hj
  let d : Data := ⟨p.k, p.θ, p.σ, p.ρ, p.μ, 0, 0, 0, p.v0, 0⟩
  have hm : ∀ J : ℝ, AEMeasurable (fun y : ℝ => ![J, y]) (ProbabilityTheory.gaussianReal (p.μs + p.ρJ * J) (p.σs ^ 2).toNNReal) :=
    fun J => by fun_prop
  obtain ⟨o, -, e1, -, e11⟩ := pairAt (Sv.hcoef p.μ p.k p.θ p.σ p.ρ) (Sv.hmom _ _ _ _ _) (hj.times hp.len)
    (fun i => Svcj.price_mom (p.jumpsize.getD i 0) (p.μs + p.ρJ * p.jumpsize.getD i 0) (p.σs ^ 2).toNNReal)
    (fun i => Measure.isProbabilityMeasure_map (hm _)) d hp.k p.θ p.μ (fun x => rfl) (fun x => rfl)
    (by simp [d, Sv.heston]) (by simp [d, Sv.heston]) (by simp [d, Sv.heston]) (by simp [d, Sv.heston]) (by simp [d, Sv.heston])
    (fun i => p.jumpsize.getD i 0) (fun i => p.μs + p.ρJ * p.jumpsize.getD i 0) (fun _ => p.σs ^ 2)
    (fun i => by rw [gauss2 _ _ _ (fun y => y 0) (by fun_prop)]; simp)
    (fun i => by rw [gauss2 _ _ _ (fun y => y 1) (by fun_prop)]; exact gauss_one _ _)
    (fun i => by rw [gauss2 _ _ _ (fun y => y 0 * y 0) (by fun_prop)]; simp [pow_two])
    (fun i => by
      rw [gauss2 _ _ _ (fun y => y 0 * y 1) (by fun_prop)]
      simp only [Matrix.cons_val_zero, Matrix.cons_val_one]
      rw [integral_const_mul, gauss_one])
    (fun i => by
      rw [gauss2 _ _ _ (fun y => y 1 * y 1) (by fun_prop)]
      exact (gauss_two _ _).trans (add_comm _ _))
    hE (by simp) (by simp [d]) (by simp [d, pow_two]) (by simp) p.h hp.h
  have a1 : tot (Svvj.jt p.toPar) (yMean d) (fun i t => p.μs + p.ρJ * p.jumpsize.getD i 0 + yMean (d.jump (p.jumpsize.getD i 0)) t) p.h = _ :=
    tot_list p.jumpsize p.jumptime p.h hp.len (fun s hs => (hp.time s hs).2) _ fun J t => p.μs + p.ρJ * J + yMean (d.jump J) t
  have a2 : tot (Svvj.jt p.toPar) (yVar d) (fun i t => p.σs ^ 2 + yVar (d.jump (p.jumpsize.getD i 0)) t) p.h = _ :=
    tot_list p.jumpsize p.jumptime p.h hp.len (fun s hs => (hp.time s hs).2) _ fun J t => p.σs ^ 2 + yVar (d.jump J) t
  obtain ⟨x, ⟨c1, h1⟩, hx⟩ := Svcj.C49_m_sde_partial 1 le_rfl p hp hj
  obtain ⟨y, ⟨c2, h2⟩, hy⟩ := Svcj.C49_cm_sde_partial 2 one_le_two p hp hj
  have hx := hx E hE (.inr (by norm_num))
  have hy := hy E hE (.inr (by norm_num))
  rw [pow_one, e1, a1] at hx
  rw [cmAt, var_sq _ o 1 e1 e11, a2] at hy
  simp only [(jump_values d hp.k _ _).2.1, ← sub_eq_add_neg] at hx
  simp only [(jump_values d hp.k _ _).2.2.2] at hy
  refine ⟨max c1 c2, fun fuel hfu => ⟨?_, ?_⟩⟩
  · rw [← Nat.cast_one, h1 fuel (by omega), hx]
  · rw [← Nat.cast_ofNat, h2 fuel (by omega), hy]

end Svcj

/-- C79. A unit of variance never lowers the variance of the return. -/
theorem C79_unit {k σ ρ t : ℝ} (hk : k ≠ 0) (hρ : 0 ≤ 1 - ρ ^ 2) (ht : 0 ≤ t) : 0 ≤ perUnit k σ ρ t := by
  have hp : (⟨1, 0, k, 0, σ, ρ, t, [], []⟩ : Svvj.Par).OK := ⟨hk, ht, hρ, rfl, by simp⟩
  have hj : (⟨1, 0, k, 0, σ, ρ, t, [], []⟩ : Svvj.Par).Simple := ⟨by simp, by simp⟩
  obtain ⟨x, ⟨c, hc⟩, hx⟩ := Svvj.C78_svvj_var _ hp hj ⟨by simp, by simp, by simp⟩
  obtain ⟨c', hc'⟩ := Svvj.C79_svvj _ hp hj
  have e := (hc (max c c') (le_max_left _ _)).symm.trans (hc' (max c c') (le_max_right _ _)).2
  simp only [Option.some.injEq, Except.ok.injEq] at e
  have := (jump_values ⟨k, 0, σ, ρ, 0, 0, 0, 0, 1, 0⟩ hk 1 t).2.2.2
  rw [one_mul] at this
  rw [← this]
  rw [e] at hx
  simpa [overJumps, Data.jump] using hx

namespace Svvj

/-- C79. SVVJ: jumps of the variance upwards lower the mean of the return and raise its variance, both not strictly. -/
theorem C79_compare (p : Svvj.Par) (hp : p.OK) (hj : p.Simple) (hk : 0 < p.k) (hJ : ∀ x ∈ p.jumpsize, 0 ≤ x) :
    ∃ x x' y y', (∃ c, ∀ fuel, c ≤ fuel → Svvj.m fuel 1 p = some (.ok x) ∧ Svvj.cm fuel 2 p = some (.ok y) ∧
      Svvj.m fuel 1 { p with jumpsize := [], jumptime := [] } = some (.ok x') ∧
      Svvj.cm fuel 2 { p with jumpsize := [], jumptime := [] } = some (.ok y')) ∧ x ≤ x' ∧ y' ≤ y := by
  obtain ⟨c, hc⟩ := Svvj.C79_svvj p hp hj
  obtain ⟨c', hc'⟩ := Svvj.C79_svvj { p with jumpsize := [], jumptime := [] } ⟨hp.k, hp.h, hp.ρ, rfl, by simp⟩ ⟨by simp, by simp⟩
  refine ⟨_, _, _, _, ⟨max c c', fun fuel hfu => ⟨(hc fuel (by omega)).1, (hc fuel (by omega)).2, (hc' fuel (by omega)).1,
    (hc' fuel (by omega)).2⟩⟩, ?_, ?_⟩
  · have : ∀ l : List (ℝ × ℝ), (∀ x ∈ l, 0 ≤ x.1 ∧ x.2 ≤ p.h) →
        (l.map fun x => -(x.1 * (1 - Real.exp (-p.k * (p.h - x.2))) / (2 * p.k))).sum ≤ 0 := by
      intro l hl
      induction l with
      | nil => simp
      | cons x l ih =>
        rw [List.map_cons, List.sum_cons]
        have hx := hl x List.mem_cons_self
        have h1 : Real.exp (-p.k * (p.h - x.2)) ≤ 1 := Real.exp_le_one_iff.2 (by nlinarith [hx.2])
        have h2 : 0 ≤ x.1 * (1 - Real.exp (-p.k * (p.h - x.2))) / (2 * p.k) :=
          div_nonneg (mul_nonneg hx.1 (by linarith)) (by linarith)
        linarith [ih fun y hy => hl y (List.mem_cons_of_mem _ hy)]
    have := this (p.jumpsize.zip p.jumptime) fun x hx => ⟨hJ _ (List.of_mem_zip hx).1, (hp.time _ (List.of_mem_zip hx).2).2⟩
    simpa [overJumps] using this
  · have : 0 ≤ overJumps p.jumpsize p.jumptime (fun J s => J * perUnit p.k p.σ p.ρ (p.h - s)) := by
      refine List.sum_nonneg fun y hy => ?_
      obtain ⟨⟨J, s⟩, hm, rfl⟩ := List.mem_map.1 hy
      have hm := List.of_mem_zip hm
      exact mul_nonneg (hJ J hm.1) (C79_unit hp.k hp.ρ (sub_nonneg.2 (hp.time s hm.2).2))
    simpa [overJumps] using this

end Svvj

/-- two jumps, and all the hypotheses -/
example : ∃ p : SrjdJ.Par, p.OK ∧ p.jumptime.Nodup ∧ (∀ s ∈ p.jumptime, 0 < s) ∧ p.jumpsize.length = 2 := by
  refine ⟨{ v0 := 1, k := 1, theta := 1, sigma := 1, h := 3, jumpsize := [1, 5], jumptime := [1, 2] },
    ⟨by norm_num, by norm_num, rfl, ?_⟩, by simp, ?_, rfl⟩ <;>
  · intro s hs; simp at hs; rcases hs with rfl | rfl <;> norm_num

example : Svvj.par1.OK ∧ Svvj.par1.Simple ∧ 0 < Svvj.par1.k ∧ (∀ x ∈ Svvj.par1.jumpsize, 0 ≤ x) ∧ Svvj.par1.jumpsize ≠ [] :=
  ⟨Svvj.par1_ok, Svvj.par1_simple, by norm_num [Svvj.par1], by simp [Svvj.par1], by simp [Svvj.par1]⟩

example : ∃ p : Svij.Par, p.toPar.OK ∧ p.toPar.Simple ∧ 0 < p.lam ∧ p.jumpsize ≠ [] :=
  ⟨⟨Svvj.par1, 1, 0, 1⟩, Svvj.par1_ok, Svvj.par1_simple, one_pos, by simp [Svvj.par1]⟩

example : ∃ p : Svcj.Par, p.toPar.OK ∧ p.toPar.Simple ∧ p.jumpsize ≠ [] ∧ p.ρJ ≠ 0 :=
  ⟨Svcj.parJ, Svvj.par1_ok, Svvj.par1_simple, by simp [Svcj.parJ, Svvj.par1], one_ne_zero⟩

end Ajd
