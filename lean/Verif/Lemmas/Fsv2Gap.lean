import Verif.Lemmas.Fsv2Deriv
import Verif.Props.Itos
import Mathlib.Analysis.Calculus.Deriv.MeanValue

section -- Fsv2True

/-! What the code gives for the true law: orders up to 2, covariance of order (1, 1), and the error of
order 3. -/

namespace Ajd.Fsv2
open Poly Utils MvPolynomial MeasureTheory ProbabilityTheory Itos

/-! ### functionals on polynomials of bounded degree -/

theorem E_ext (E E' : Rv →ₗ[ℝ] ℝ) (N : ℕ) (h : ∀ a b c d e : ℕ, a + b + c + d + e ≤ N →
      E (X 0 ^ a * X 1 ^ b * X 2 ^ c * X 3 ^ d * X 4 ^ e) = E' (X 0 ^ a * X 1 ^ b * X 2 ^ c * X 3 ^ d * X 4 ^ e))
    (f : Rv) (hf : f.totalDegree ≤ N) : E f = E' f := by
  rw [f.as_sum, map_sum, map_sum]
  apply Finset.sum_congr rfl
  intro s hs
  have hd : s 0 + s 1 + s 2 + s 3 + s 4 ≤ N := by
    have := (le_totalDegree hs).trans hf
    rwa [Finsupp.sum_fintype _ _ (by simp), Fin.sum_univ_five] at this
  have : monomial s (MvPolynomial.coeff s f) = C (MvPolynomial.coeff s f) *
      (X 0 ^ s 0 * X 1 ^ s 1 * X 2 ^ s 2 * X 3 ^ s 3 * X 4 ^ s 4) := by
    rw [monomial_eq, Finsupp.prod_fintype _ _ (by simp), Fin.prod_univ_five]
  rw [this, E_C_mul, E_C_mul, h _ _ _ _ _ hd]

theorem deg_add {a b : Rv} (ha : a.totalDegree ≤ 1) (hb : b.totalDegree ≤ 1) : (a + b).totalDegree ≤ 1 :=
  (totalDegree_add a b).trans (max_le ha hb)

theorem deg_C (a : ℝ) : (C a : Rv).totalDegree ≤ 1 := by simp

theorem deg_C_mul (a : ℝ) {f : Rv} (hf : f.totalDegree ≤ 1) : (C a * f : Rv).totalDegree ≤ 1 :=
  (totalDegree_mul _ _).trans (by simpa using hf)

theorem deg_X (i : Fin 5) : (X i : Rv).totalDegree ≤ 1 := by simp

theorem deg_ret (p : Par) (h1 : p.k1 ≠ 0) (h2 : p.k2 ≠ 0) (t0 : ℝ) (x : ℝ × ℝ) : (ret p t0 x).totalDegree ≤ 1 := by
  rw [← parts_sum p h1 h2]
  simp only [partsOf, List.sum_cons, List.sum_nil, add_zero]
  exact deg_add (deg_C _) (deg_add (deg_C _) (deg_add (deg_C _) (deg_add (deg_C_mul _ (deg_X _))
    (deg_add (deg_C_mul _ (deg_X _)) (deg_add (deg_C_mul _ (deg_X _)) (deg_add (deg_C_mul _ (deg_X _))
      (deg_X _)))))))

theorem deg_vNext1 (p : Par) (t0 x : ℝ) : (vNext1 p t0 x).totalDegree ≤ 1 :=
  deg_add (deg_C _) (deg_C_mul _ (deg_X _))

theorem deg_vNext2 (p : Par) (t0 x : ℝ) : (vNext2 p t0 x).totalDegree ≤ 1 :=
  deg_add (deg_C _) (deg_C_mul _ (deg_X _))

/-! ### orders up to 2 -/

theorem compLaw_code (p : Par) (h1 : p.k1 ≠ 0) (h2 : p.k2 ≠ 0) (hh : 0 ≤ p.h) (t0 : ℝ) (x : ℝ × ℝ)
    (E : Rv →ₗ[ℝ] ℝ) (h : CondLaw p t0 x E) : CompLaw code 2 p t0 x E := by
  intro a b c d e hl
  obtain ⟨M, hM, hE⟩ := h
  obtain ⟨P, eP, G, _⟩ := code_moment ((a : ℤ), (b : ℤ), (c : ℤ), (d : ℤ), (e : ℤ)) (by simp [Itos.Valid])
  refine ⟨P, eP, ?_⟩
  have hl' : a + b + c + d + e ≤ 2 := by exact_mod_cast hl
  have := G.val ⟨p.it t0 x, M, t0 + p.h, by simpa [Par.it] using hh, hM⟩
    ⟨Or.inl (by simp only [Itos.lev]; omega), h1, h2⟩
  rw [hE]
  simpa [Fam.at] using this.symm

/-- the conditional mean, from moments of order 1 -/
theorem cond_mean (g : Cfg) (p : Par) (h1 : p.k1 ≠ 0) (h2 : p.k2 ≠ 0) (t0 : ℝ) (x : ℝ × ℝ)
    (E : Rv →ₗ[ℝ] ℝ) (h : CompLaw g 1 p t0 x E) :
    E (ret p t0 x) = const p - beta1 p * x.1 - beta2 p * x.2 := by
  have e1 : E 1 = 1 := by
    obtain ⟨P, e, v⟩ := h 0 0 0 0 0 (by simp)
    have : moment g (((0 : ℕ) : ℤ), ((0 : ℕ) : ℤ), ((0 : ℕ) : ℤ), ((0 : ℕ) : ℤ), ((0 : ℕ) : ℤ)) = .ok P1 := rfl
    rw [this] at e
    cases e
    simpa [ev, P1, dval, den, Itos.Par.rate, ix] using v
  have z : ∀ i : Fin 5, E (X i) = 0 := by
    have hz : ∀ P : DPoly, P = P0 → ev (dval (p.it t0 x) (t0 + p.h)) P = 0 := by rintro _ rfl; rfl
    intro i
    fin_cases i
    · obtain ⟨P, e, v⟩ := h 1 0 0 0 0 (by simp)
      rw [hz P (Except.ok.inj (e.symm.trans rfl))] at v
      simpa using v
    · obtain ⟨P, e, v⟩ := h 0 1 0 0 0 (by simp)
      rw [hz P (Except.ok.inj (e.symm.trans rfl))] at v
      simpa using v
    · obtain ⟨P, e, v⟩ := h 0 0 1 0 0 (by simp)
      rw [hz P (Except.ok.inj (e.symm.trans rfl))] at v
      simpa using v
    · obtain ⟨P, e, v⟩ := h 0 0 0 1 0 (by simp)
      rw [hz P (Except.ok.inj (e.symm.trans rfl))] at v
      simpa using v
    · obtain ⟨P, e, v⟩ := h 0 0 0 0 1 (by simp)
      rw [hz P (Except.ok.inj (e.symm.trans rfl))] at v
      simpa using v
  have ec : ∀ a : ℝ, E (C a) = a := by
    intro a
    have := E_C_mul E a 1
    rwa [mul_one, e1, mul_one] at this
  rw [← parts_sum p h1 h2]
  simp only [partsOf, List.sum_cons, List.sum_nil, map_add, E_C_mul, z, ec]
  simp
  ring

theorem mean_ret (g : Cfg) (p : Par) (h1 : p.k1 ≠ 0) (h2 : p.k2 ≠ 0) (t0 : ℝ)
    (E : ℝ × ℝ → Rv →ₗ[ℝ] ℝ) (γ : Measure (ℝ × ℝ)) (hγ : StatLaw p γ)
    (hE : ∀ᵐ x ∂γ, CompLaw g 1 p t0 x (E x)) : expect γ E (ret p t0) = mean p := by
  have e : ∀ᵐ x ∂γ, E x (ret p t0 x) = const p - beta1 p * x.1 - beta2 p * x.2 :=
    hE.mono fun x hx => cond_mean g p h1 h2 t0 x (E x) hx
  have i0 := hγ.integrable 0 0
  have i1 := hγ.integrable 1 0
  have i2 := hγ.integrable 0 1
  have m0 := hγ.moment 0 0
  have m1 := hγ.moment 1 0
  have m2 := hγ.moment 0 1
  simp only [pow_zero, pow_one, Ito.vMoment, Finset.range_zero, Finset.prod_empty, Finset.range_one,
    Finset.prod_singleton, Nat.cast_zero, zero_mul, zero_div, add_zero, mul_one, one_mul] at i0 i1 i2 m0 m1 m2
  rw [expect, integral_congr_ae e]
  have : (fun x : ℝ × ℝ => const p - beta1 p * x.1 - beta2 p * x.2) =
      fun x => const p * (1 : ℝ) - beta1 p * x.1 - beta2 p * x.2 := by
    funext x; ring
  have j1 : Integrable (fun x : ℝ × ℝ => const p * (1 : ℝ) - beta1 p * x.1) γ :=
    (i0.const_mul (const p)).sub (i1.const_mul (beta1 p))
  rw [this, integral_sub j1 (i2.const_mul _), integral_sub (i0.const_mul _) (i1.const_mul _),
    integral_const_mul, integral_const_mul, integral_const_mul, m0, m1, m2, const, constC]
  ring

/-! ### covariance of order (1, 1) -/

/-- the conditional mean of the next return -/
noncomputable def Q1 (p : Par) : Pol := C (const p) - C (beta1 p) * X 0 - C (beta2 p) * X 1

theorem eval_Q1 (p : Par) (z : ℝ × ℝ) :
    eval (two z.1 z.2) (Q1 p) = const p - beta1 p * z.1 - beta2 p * z.2 := by
  simp [Q1, two]

theorem condPoly_Q1 (p : Par) (h1 : p.k1 ≠ 0) (h2 : p.k2 ≠ 0) (t1 : ℝ) : CondPoly code p t1 1 (Q1 p) := by
  refine ⟨compE code p t1, Set.univ, Set.univ, Set.infinite_univ, Set.infinite_univ,
    fun z _ => compLaw_compE _ _ _ _ _, fun z _ => ?_⟩
  rw [pow_one, cond_mean code p h1 h2 t1 z _ (compLaw_compE _ _ _ _ _), eval_Q1]

theorem pol_ext (S1 S2 : Set ℝ) (i1 : S1.Infinite) (i2 : S2.Infinite) (Q Q' : Pol)
    (h : ∀ z ∈ S1 ×ˢ S2, eval (two z.1 z.2) Q = eval (two z.1 z.2) Q') : Q = Q' := by
  apply funext_set (two S1 S2)
  · intro i
    fin_cases i
    · exact i1
    · exact i2
  · intro x hx
    have hz : (x 0, x 1) ∈ S1 ×ˢ S2 := ⟨hx 0 trivial, hx 1 trivial⟩
    have ht : x = two (x 0, x 1).1 (x 0, x 1).2 := by
      funext i
      fin_cases i <;> rfl
    rw [ht, h _ hz]

/-- laws with the same moments up to order 2 -/
theorem agree2 (p : Par) (h1 : p.k1 ≠ 0) (h2 : p.k2 ≠ 0) (hh : 0 ≤ p.h) (t0 : ℝ) (x : ℝ × ℝ) (E : Rv →ₗ[ℝ] ℝ)
    (h : CondLaw p t0 x E) (f : Rv) (hf : f.totalDegree ≤ 2) : E f = compE code p t0 x f := by
  apply E_ext _ _ 2 _ _ hf
  intro a b c d e hl
  obtain ⟨P, eP, v⟩ := compLaw_code p h1 h2 hh t0 x E h a b c d e (by exact_mod_cast hl)
  obtain ⟨P', eP', v'⟩ := compLaw_compE code 2 p t0 x a b c d e (by exact_mod_cast hl)
  rw [eP] at eP'
  cases eP'
  rw [v, v']

theorem covYY11 (p : Par) (h1 : p.k1 ≠ 0) (h2 : p.k2 ≠ 0) (hh : 0 ≤ p.h) (t0 : ℝ)
    (E : ℝ × ℝ → Rv →ₗ[ℝ] ℝ) (γ : Measure (ℝ × ℝ)) (hγ : StatLaw p γ) (hE : ∀ᵐ x ∂γ, CondLaw p t0 x (E x)) :
    ∃ r, covYY code 1 1 = .ok r ∧ r.Keys (TOK 6) ∧
      ev (mVal p) r = (expect γ E fun x => ret p t0 x *
          aeval (two (vNext1 p t0 x.1) (vNext2 p t0 x.2)) (Q1 p)) -
        (expect γ E fun x => ret p t0 x) * (expect γ E fun x => ret p t0 x) := by
  obtain ⟨r, e, _, _, _, k, v⟩ := covYY_spec code p h1 h2 t0 (compE code p t0) γ hγ
    (Filter.Eventually.of_forall fun x => compLaw_compE _ _ _ _ _) 1 1 (Q1 p) (condPoly_Q1 p h1 h2 _)
  refine ⟨r, e, k, ?_⟩
  rw [v]
  simp only [pow_one, expect]
  have d : ∀ x : ℝ × ℝ, (aeval (two (vNext1 p t0 x.1) (vNext2 p t0 x.2)) (Q1 p) : Rv).totalDegree ≤ 1 := by
    intro x
    have : (aeval (two (vNext1 p t0 x.1) (vNext2 p t0 x.2)) (Q1 p) : Rv) =
        C (const p) + C (-beta1 p) * vNext1 p t0 x.1 + C (-beta2 p) * vNext2 p t0 x.2 := by
      simp [Q1, two, MvPolynomial.algebraMap_eq]
      ring
    rw [this]
    exact deg_add (deg_add (deg_C _) (deg_C_mul _ (deg_vNext1 _ _ _))) (deg_C_mul _ (deg_vNext2 _ _ _))
  rw [integral_congr_ae (hE.mono fun x hx => agree2 p h1 h2 hh t0 x (E x) hx _
      ((totalDegree_mul _ _).trans (add_le_add (deg_ret p h1 h2 t0 x) (d x)))),
    integral_congr_ae (hE.mono fun x hx => agree2 p h1 h2 hh t0 x (E x) hx (ret p t0 x)
      ((deg_ret p h1 h2 t0 x).trans (by norm_num)))]

end Ajd.Fsv2

end -- Fsv2True

section -- Fsv2Gap

/-! The error of the code at order 3. -/

namespace Ajd.Fsv2
open Poly Utils MvPolynomial MeasureTheory ProbabilityTheory Itos

/-! ### second moments of the Itô integrals of one factor -/

/-- `E[IE^2]` -/
noncomputable def s20 (k θ v u s : ℝ) : ℝ :=
  Real.exp (k * u) * (v - θ) * ((Real.exp (k * s) - Real.exp (k * u)) / k) +
    θ * ((Real.exp (2 * k * s) - Real.exp (2 * k * u)) / (2 * k))

/-- `E[IE I]` -/
noncomputable def s11 (k θ v u s : ℝ) : ℝ :=
  Real.exp (k * u) * (v - θ) * (s - u) + θ * ((Real.exp (k * s) - Real.exp (k * u)) / k)

theorem M20 (x : Itos.Par) (M : Fam) (hk : x.k1 ≠ 0) (hM : ItoRec2 x M) (s : ℝ) (hs : x.u ≤ s) :
    M 2 0 0 0 0 s = s20 x.k1 x.θ1 x.v1 x.u s := by
  rw [hM.step 2 0 0 0 0 (by norm_num) s hs]
  simp only [term4, term5, term45, term6, term7, term67, term8, quad1,
    show 2 - 2 = 0 from rfl, show 2 - 1 = 1 from rfl, int_zero hM _ hs,
    int_first hM _ (show 1 + 0 + 0 + 0 + 0 = 1 from rfl) hs]
  have e1 := Ito.integral_exp x.k1 x.u s hk
  have e2 := Ito.integral_exp (2 * x.k1) x.u s (mul_ne_zero two_ne_zero hk)
  rw [s20, ← e1, ← e2]
  norm_num

theorem M20' (x : Itos.Par) (M : Fam) (hk : x.k2 ≠ 0) (hM : ItoRec2 x M) (s : ℝ) (hs : x.u ≤ s) :
    M 0 0 2 0 0 s = s20 x.k2 x.θ2 x.v2 x.u s := by
  rw [hM.step 0 0 2 0 0 (by norm_num) s hs]
  simp only [term4, term5, term45, term6, term7, term67, term8, quad2,
    show 2 - 2 = 0 from rfl, show 2 - 1 = 1 from rfl, int_zero hM _ hs,
    int_first hM _ (show 0 + 0 + 1 + 0 + 0 = 1 from rfl) hs]
  have e1 := Ito.integral_exp x.k2 x.u s hk
  have e2 := Ito.integral_exp (2 * x.k2) x.u s (mul_ne_zero two_ne_zero hk)
  rw [s20, ← e1, ← e2]
  norm_num

theorem M11 (x : Itos.Par) (M : Fam) (hk : x.k1 ≠ 0) (hM : ItoRec2 x M) (s : ℝ) (hs : x.u ≤ s) :
    M 1 1 0 0 0 s = s11 x.k1 x.θ1 x.v1 x.u s := by
  rw [hM.step 1 1 0 0 0 (by norm_num) s hs]
  simp only [term4, term5, term45, term6, term7, term67, term8, quad1, show 1 - 1 = 0 from rfl,
    int_zero hM _ hs, int_first hM _ (show 1 + 0 + 0 + 0 + 0 = 1 from rfl) hs]
  have e1 := Ito.integral_exp x.k1 x.u s hk
  rw [s11, ← e1]
  norm_num

theorem M11' (x : Itos.Par) (M : Fam) (hk : x.k2 ≠ 0) (hM : ItoRec2 x M) (s : ℝ) (hs : x.u ≤ s) :
    M 0 0 1 1 0 s = s11 x.k2 x.θ2 x.v2 x.u s := by
  rw [hM.step 0 0 1 1 0 (by norm_num) s hs]
  simp only [term4, term5, term45, term6, term7, term67, term8, quad2, show 1 - 1 = 0 from rfl,
    int_zero hM _ hs, int_first hM _ (show 0 + 0 + 1 + 0 + 0 = 1 from rfl) hs]
  have e1 := Ito.integral_exp x.k2 x.u s hk
  rw [s11, ← e1]
  norm_num

/-- `∫_u^T E[IE^2]` -/
noncomputable def i20 (k θ v u h : ℝ) : ℝ :=
  Real.exp (k * u) * (v - θ) * ((Real.exp (k * (u + h)) - Real.exp (k * u)) / k ^ 2 - h * Real.exp (k * u) / k) +
    θ * ((Real.exp (2 * k * (u + h)) - Real.exp (2 * k * u)) / (4 * k ^ 2) - h * Real.exp (2 * k * u) / (2 * k))

/-- `∫_u^T E[IE I]` -/
noncomputable def i11 (k θ v u h : ℝ) : ℝ :=
  Real.exp (k * u) * (v - θ) * (h ^ 2 / 2) +
    θ * ((Real.exp (k * (u + h)) - Real.exp (k * u)) / k ^ 2 - h * Real.exp (k * u) / k)

theorem int_s20 (k θ v u h : ℝ) (hk : k ≠ 0) : ∫ s in u..(u + h), s20 k θ v u s = i20 k θ v u h := by
  have hd : ∀ s ∈ Set.uIcc u (u + h), HasDerivAt (fun s => Real.exp (k * u) * (v - θ) *
      ((Real.exp (k * s) / k - s * Real.exp (k * u)) / k) +
        θ * ((Real.exp (2 * k * s) / (2 * k) - s * Real.exp (2 * k * u)) / (2 * k))) (s20 k θ v u s) s := by
    intro s _
    have d1 := ((hasDerivAt_id s).const_mul k).exp.div_const k
    have d2 := ((hasDerivAt_id s).const_mul (2 * k)).exp.div_const (2 * k)
    have e1 := (hasDerivAt_id s).mul_const (Real.exp (k * u))
    have e2 := (hasDerivAt_id s).mul_const (Real.exp (2 * k * u))
    refine ((((d1.sub e1).div_const k).const_mul (Real.exp (k * u) * (v - θ))).add
      (((d2.sub e2).div_const (2 * k)).const_mul θ)).congr_deriv ?_
    simp only [s20, id]
    field_simp
  rw [intervalIntegral.integral_eq_sub_of_hasDerivAt hd, i20]
  · field_simp
    ring
  · apply Continuous.intervalIntegrable
    unfold s20
    fun_prop

theorem int_s11 (k θ v u h : ℝ) (hk : k ≠ 0) : ∫ s in u..(u + h), s11 k θ v u s = i11 k θ v u h := by
  have hd : ∀ s ∈ Set.uIcc u (u + h), HasDerivAt (fun s => Real.exp (k * u) * (v - θ) * ((s - u) ^ 2 / 2) +
        θ * ((Real.exp (k * s) / k - s * Real.exp (k * u)) / k)) (s11 k θ v u s) s := by
    intro s _
    have d1 := ((hasDerivAt_id s).const_mul k).exp.div_const k
    have e1 := (hasDerivAt_id s).mul_const (Real.exp (k * u))
    have e2 := (((hasDerivAt_id s).sub_const u).pow 2).div_const 2
    refine ((e2.const_mul (Real.exp (k * u) * (v - θ))).add
      (((d1.sub e1).div_const k).const_mul θ)).congr_deriv ?_
    simp only [s11, id]
    field_simp
    ring
  rw [intervalIntegral.integral_eq_sub_of_hasDerivAt hd, i11]
  · field_simp
    ring
  · apply Continuous.intervalIntegrable
    unfold s11
    fun_prop

/-! ### the difference of the two laws at order 3 -/

/-- true law minus computed law -/
noncomputable def Dl (p : Par) (t0 : ℝ) (x : ℝ × ℝ) (E : Rv →ₗ[ℝ] ℝ) : Rv →ₗ[ℝ] ℝ := E - compE code p t0 x

theorem Dl_apply (p : Par) (t0 : ℝ) (x : ℝ × ℝ) (E : Rv →ₗ[ℝ] ℝ) (f : Rv) :
    Dl p t0 x E f = E f - compE code p t0 x f := rfl

/-- the value of a computed moment -/
theorem compE_mono (p : Par) (t0 : ℝ) (x : ℝ × ℝ) (a b c d e : ℕ) (P : DPoly)
    (h : moment code ((a : ℤ), (b : ℤ), (c : ℤ), (d : ℤ), (e : ℤ)) = .ok P) :
    compE code p t0 x (X 0 ^ a * X 1 ^ b * X 2 ^ c * X 3 ^ d * X 4 ^ e) = ev (dval (p.it t0 x) (t0 + p.h)) P := by
  rw [compE, functional_apply, h]

/-- the non-zero differences -/
noncomputable def dv (p : Par) (t0 : ℝ) (x : ℝ × ℝ) (a b c d e : ℕ) : ℝ :=
  if [a, b, c, d, e] = [2, 1, 0, 0, 0] then 2 * p.σ1 * i20 p.k1 p.θ1 x.1 t0 p.h
  else if [a, b, c, d, e] = [1, 2, 0, 0, 0] then 2 * p.σ1 * i11 p.k1 p.θ1 x.1 t0 p.h
  else if [a, b, c, d, e] = [0, 0, 2, 1, 0] then 2 * p.σ2 * i20 p.k2 p.θ2 x.2 t0 p.h
  else if [a, b, c, d, e] = [0, 0, 1, 2, 0] then 2 * p.σ2 * i11 p.k2 p.θ2 x.2 t0 p.h
  else 0

theorem Dl_mono (p : Par) (h1 : p.k1 ≠ 0) (h2 : p.k2 ≠ 0) (hh : 0 ≤ p.h) (t0 : ℝ) (x : ℝ × ℝ)
    (E : Rv →ₗ[ℝ] ℝ) (hE : CondLaw p t0 x E) (a b c d e : ℕ) (hl : a + b + c + d + e ≤ 3) :
    Dl p t0 x E (X 0 ^ a * X 1 ^ b * X 2 ^ c * X 3 ^ d * X 4 ^ e) = dv p t0 x a b c d e := by
  obtain ⟨M, hM, hE⟩ := hE
  have ht : (p.it t0 x).u ≤ t0 + p.h := by simpa [Par.it] using hh
  obtain ⟨⟨P1, q1, v1⟩, ⟨P2, q2, v2⟩, ⟨P3, q3, v3⟩, ⟨P4, q4, v4⟩⟩ := C22_moment_error
  rw [Dl_apply, hE, dv]
  split_ifs with w1 w2 w3 w4
  · simp only [List.cons.injEq, and_true] at w1
    obtain ⟨rfl, rfl, rfl, rfl, rfl⟩ := w1
    rw [compE_mono p t0 x 2 1 0 0 0 P1 q1, v1 (p.it t0 x) M h1 h2 hM _ ht, ← int_s20 _ _ _ _ _ h1]
    congr 1
    apply intervalIntegral.integral_congr
    intro s hs
    rw [show (p.it t0 x).u = t0 from rfl, Set.uIcc_of_le (by linarith)] at hs
    exact M20 (p.it t0 x) M h1 hM s hs.1
  · simp only [List.cons.injEq, and_true] at w2
    obtain ⟨rfl, rfl, rfl, rfl, rfl⟩ := w2
    rw [compE_mono p t0 x 1 2 0 0 0 P2 q2, v2 (p.it t0 x) M h1 h2 hM _ ht, ← int_s11 _ _ _ _ _ h1]
    congr 1
    apply intervalIntegral.integral_congr
    intro s hs
    rw [show (p.it t0 x).u = t0 from rfl, Set.uIcc_of_le (by linarith)] at hs
    exact M11 (p.it t0 x) M h1 hM s hs.1
  · simp only [List.cons.injEq, and_true] at w3
    obtain ⟨rfl, rfl, rfl, rfl, rfl⟩ := w3
    rw [compE_mono p t0 x 0 0 2 1 0 P3 q3, v3 (p.it t0 x) M h1 h2 hM _ ht, ← int_s20 _ _ _ _ _ h2]
    congr 1
    apply intervalIntegral.integral_congr
    intro s hs
    rw [show (p.it t0 x).u = t0 from rfl, Set.uIcc_of_le (by linarith)] at hs
    exact M20' (p.it t0 x) M h2 hM s hs.1
  · simp only [List.cons.injEq, and_true] at w4
    obtain ⟨rfl, rfl, rfl, rfl, rfl⟩ := w4
    rw [compE_mono p t0 x 0 0 1 2 0 P4 q4, v4 (p.it t0 x) M h1 h2 hM _ ht, ← int_s11 _ _ _ _ _ h2]
    congr 1
    apply intervalIntegral.integral_congr
    intro s hs
    rw [show (p.it t0 x).u = t0 from rfl, Set.uIcc_of_le (by linarith)] at hs
    exact M11' (p.it t0 x) M h2 hM s hs.1
  · obtain ⟨P, eP, G, _⟩ := code_moment ((a : ℤ), (b : ℤ), (c : ℤ), (d : ℤ), (e : ℤ)) (by simp [Itos.Valid])
    have := G.val ⟨p.it t0 x, M, t0 + p.h, ht, hM⟩ ⟨?_, h1, h2⟩
    · rw [compE_mono p t0 x a b c d e P eP, this]
      simp [Fam.at]
    · simp only [List.cons.injEq, and_true] at w1 w2 w3 w4
      simp only [Itos.Right, Itos.lev, wrong3, List.mem_cons, Prod.mk.injEq, List.not_mem_nil, or_false]
      by_cases h3 : a + b + c + d + e ≤ 2
      · left; omega
      · right; left; omega

/-- the coefficient of `v - θ` -/
noncomputable def gapv (k σ h : ℝ) : ℝ :=
  3 * σ ^ 4 / (4 * k ^ 3) * (Real.exp (-(k * h)) * (h ^ 2 / 2) -
    Real.exp (-(k * h)) * ((1 - Real.exp (-(k * h))) / k ^ 2 - h * Real.exp (-(k * h)) / k))

theorem factor_gap (k θ σ v u h : ℝ) (hk : k ≠ 0) :
    3 * ((σ / (2 * k)) ^ 2 * (-(σ / (2 * k)))) * (Real.exp (-(k * (u + h))) ^ 2 * (2 * σ * i20 k θ v u h)) +
      3 * ((σ / (2 * k)) * (-(σ / (2 * k))) ^ 2) * (Real.exp (-(k * (u + h))) * (2 * σ * i11 k θ v u h)) =
    gap3 k θ σ h + gapv k σ h * (v - θ) := by
  have e0 : Real.exp (k * (u + h)) = Real.exp (k * u) * Real.exp (k * h) := by rw [← Real.exp_add]; congr 1; ring
  have e1 : Real.exp (2 * k * (u + h)) = (Real.exp (k * u) * Real.exp (k * h)) ^ 2 := by
    rw [← Real.exp_add, pow_two, ← Real.exp_add]; congr 1; ring
  have e2 : Real.exp (2 * k * u) = Real.exp (k * u) ^ 2 := by rw [pow_two, ← Real.exp_add]; congr 1; ring
  have e3 : Real.exp (-(k * (u + h))) = (Real.exp (k * u))⁻¹ * (Real.exp (k * h))⁻¹ := by
    rw [← Real.exp_neg, ← Real.exp_neg, ← Real.exp_add]; congr 1; ring
  have n1 := (Real.exp_pos (k * u)).ne'
  have n2 := (Real.exp_pos (k * h)).ne'
  rw [i20, i11, gap3, gapv, e0, e1, e2, e3, Real.exp_neg]
  generalize Real.exp (k * u) = A at *
  generalize Real.exp (k * h) = B at *
  field_simp
  ring

theorem Dl_cube (a : ℝ) (p : Par) (h1 : p.k1 ≠ 0) (h2 : p.k2 ≠ 0) (hh : 0 ≤ p.h) (t0 : ℝ) (x : ℝ × ℝ)
    (E : Rv →ₗ[ℝ] ℝ) (hE : CondLaw p t0 x E) : Dl p t0 x E ((partsOf a p t0 x).sum ^ 3) =
      (gap3 p.k1 p.θ1 p.σ1 p.h + gap3 p.k2 p.θ2 p.σ2 p.h) + gapv p.k1 p.σ1 p.h * (x.1 - p.θ1) +
        gapv p.k2 p.σ2 p.h * (x.2 - p.θ2) := by
  rw [← combs_multinomial 7 _ rfl, ← sum_E]
  have hterm : ∀ ns ∈ combsDown 7 3, Dl p t0 x E ((combN 3 ns : Rv) *
      (List.zipWith (· ^ ·) (partsOf a p t0 x) ns).prod) =
      (if ns = [0, 0, 0, 2, 1, 0, 0, 0] then 3 * ((p.σ1 / (2 * p.k1)) ^ 2 * (-(p.σ1 / (2 * p.k1)))) *
        (Real.exp (-(p.k1 * (t0 + p.h))) ^ 2 * (2 * p.σ1 * i20 p.k1 p.θ1 x.1 t0 p.h)) else 0) +
      (if ns = [0, 0, 0, 1, 2, 0, 0, 0] then 3 * ((p.σ1 / (2 * p.k1)) * (-(p.σ1 / (2 * p.k1))) ^ 2) *
        (Real.exp (-(p.k1 * (t0 + p.h))) * (2 * p.σ1 * i11 p.k1 p.θ1 x.1 t0 p.h)) else 0) +
      (if ns = [0, 0, 0, 0, 0, 2, 1, 0] then 3 * ((p.σ2 / (2 * p.k2)) ^ 2 * (-(p.σ2 / (2 * p.k2)))) *
        (Real.exp (-(p.k2 * (t0 + p.h))) ^ 2 * (2 * p.σ2 * i20 p.k2 p.θ2 x.2 t0 p.h)) else 0) +
      (if ns = [0, 0, 0, 0, 0, 1, 2, 0] then 3 * ((p.σ2 / (2 * p.k2)) * (-(p.σ2 / (2 * p.k2))) ^ 2) *
        (Real.exp (-(p.k2 * (t0 + p.h))) * (2 * p.σ2 * i11 p.k2 p.θ2 x.2 t0 p.h)) else 0) := by
    intro ns hns
    obtain ⟨g1, g2⟩ := combs_mem _ _ _ hns
    obtain ⟨n1, n2, n3, n4, n5, n6, n7, n8, rfl⟩ := len8 ns g1
    simp only [List.sum_cons, List.sum_nil] at g2
    rw [E_parts, Dl_mono p h1 h2 hh t0 x E hE _ _ _ _ _ (by omega), dv]
    have c1 : combN 3 [0, 0, 0, 2, 1, 0, 0, 0] = 3 := by decide
    have c2 : combN 3 [0, 0, 0, 1, 2, 0, 0, 0] = 3 := by decide
    have c3 : combN 3 [0, 0, 0, 0, 0, 2, 1, 0] = 3 := by decide
    have c4 : combN 3 [0, 0, 0, 0, 0, 1, 2, 0] = 3 := by decide
    by_cases w1 : [n4, n5, n6, n7, n8] = [2, 1, 0, 0, 0]
    · simp only [List.cons.injEq, and_true] at w1
      obtain ⟨rfl, rfl, rfl, rfl, rfl⟩ := w1
      obtain ⟨rfl, rfl, rfl⟩ : n1 = 0 ∧ n2 = 0 ∧ n3 = 0 := by omega
      rw [c1]
      simp [coefs]
    by_cases w2 : [n4, n5, n6, n7, n8] = [1, 2, 0, 0, 0]
    · simp only [List.cons.injEq, and_true] at w2
      obtain ⟨rfl, rfl, rfl, rfl, rfl⟩ := w2
      obtain ⟨rfl, rfl, rfl⟩ : n1 = 0 ∧ n2 = 0 ∧ n3 = 0 := by omega
      rw [c2]
      simp [coefs]
    by_cases w3 : [n4, n5, n6, n7, n8] = [0, 0, 2, 1, 0]
    · simp only [List.cons.injEq, and_true] at w3
      obtain ⟨rfl, rfl, rfl, rfl, rfl⟩ := w3
      obtain ⟨rfl, rfl, rfl⟩ : n1 = 0 ∧ n2 = 0 ∧ n3 = 0 := by omega
      rw [c3]
      simp [coefs]
    by_cases w4 : [n4, n5, n6, n7, n8] = [0, 0, 1, 2, 0]
    · simp only [List.cons.injEq, and_true] at w4
      obtain ⟨rfl, rfl, rfl, rfl, rfl⟩ := w4
      obtain ⟨rfl, rfl, rfl⟩ : n1 = 0 ∧ n2 = 0 ∧ n3 = 0 := by omega
      rw [c4]
      simp [coefs]
    rw [if_neg w1, if_neg w2, if_neg w3, if_neg w4, mul_zero, mul_zero]
    simp only [List.cons.injEq, and_true] at w1 w2 w3 w4 ⊢
    rw [if_neg (by omega), if_neg (by omega), if_neg (by omega), if_neg (by omega)]
    simp
  rw [List.map_congr_left hterm, List.sum_map_add, List.sum_map_add, List.sum_map_add]
  have hs : ∀ (L : List (List ℕ)) (b : List ℕ) (r : ℝ), (L.map fun ns => if ns = b then r else 0).sum =
      (L.count b : ℝ) * r := by
    intro L b r
    induction L with
    | nil => simp
    | cons a t ih =>
      rw [List.map_cons, List.sum_cons, ih, List.count_cons]
      by_cases h : a = b
      · simp [h]; ring
      · simp [h]
  rw [hs, hs, hs, hs, show (combsDown 7 3).count [0, 0, 0, 2, 1, 0, 0, 0] = 1 by decide +kernel,
    show (combsDown 7 3).count [0, 0, 0, 1, 2, 0, 0, 0] = 1 by decide +kernel,
    show (combsDown 7 3).count [0, 0, 0, 0, 0, 2, 1, 0] = 1 by decide +kernel,
    show (combsDown 7 3).count [0, 0, 0, 0, 0, 1, 2, 0] = 1 by decide +kernel]
  linear_combination factor_gap p.k1 p.θ1 p.σ1 x.1 t0 p.h h1 + factor_gap p.k2 p.θ2 p.σ2 x.2 t0 p.h h2

/-! ### averaged over the stationary law -/

theorem integrable_pol (p : Par) (γ : Measure (ℝ × ℝ)) (hγ : StatLaw p γ) (Q : Pol) :
    Integrable (fun x : ℝ × ℝ => eval (two x.1 x.2) Q) γ := by
  simp only [eval_eq', Fin.prod_univ_two]
  apply integrable_finsetSum
  intro d _
  exact (hγ.integrable (d 0) (d 1)).const_mul _

/-- the moments given the start of the interval, centred at any constant -/
theorem condPoly_cube (p : Par) (h1 : p.k1 ≠ 0) (h2 : p.k2 ≠ 0) (t0 m : ℝ) :
    ∃ Q : Pol, ∀ x, eval (two x.1 x.2) Q = compE code p t0 x ((ret p t0 x - C m) ^ 3) := by
  obtain ⟨Q3, q3⟩ := condPoly code p h1 h2 t0 3
  obtain ⟨Q2, q2⟩ := condPoly code p h1 h2 t0 2
  obtain ⟨Q1, q1⟩ := condPoly code p h1 h2 t0 1
  obtain ⟨Q0, q0⟩ := condPoly code p h1 h2 t0 0
  refine ⟨Q3 + C (-3 * m) * Q2 + C (3 * m ^ 2) * Q1 + C (-m ^ 3) * Q0, fun x => ?_⟩
  have e : (ret p t0 x - C m) ^ 3 = ret p t0 x ^ 3 + C (-3 * m) * ret p t0 x ^ 2 + C (3 * m ^ 2) * ret p t0 x ^ 1 +
      C (-m ^ 3) * ret p t0 x ^ 0 := by
    simp only [map_mul, map_neg, map_pow, map_ofNat]
    ring
  rw [e]
  generalize -3 * m = c2
  generalize 3 * m ^ 2 = c1
  generalize -m ^ 3 = c0
  simp only [map_add, E_C_mul, map_mul, eval_C]
  rw [q3 x _ (compLaw_compE _ _ _ _ _), q2 x _ (compLaw_compE _ _ _ _ _), q1 x _ (compLaw_compE _ _ _ _ _),
    q0 x _ (compLaw_compE _ _ _ _ _)]

theorem expect_cube (p : Par) (h1 : p.k1 ≠ 0) (h2 : p.k2 ≠ 0) (hh : 0 ≤ p.h) (t0 : ℝ)
    (E : ℝ × ℝ → Rv →ₗ[ℝ] ℝ) (γ : Measure (ℝ × ℝ)) (hγ : StatLaw p γ) (hE : ∀ᵐ x ∂γ, CondLaw p t0 x (E x))
    (m : ℝ) : (expect γ E fun x => (ret p t0 x - C m) ^ 3) =
      (expect γ (compE code p t0) fun x => (ret p t0 x - C m) ^ 3) +
        (gap3 p.k1 p.θ1 p.σ1 p.h + gap3 p.k2 p.θ2 p.σ2 p.h) := by
  obtain ⟨Q, hQ⟩ := condPoly_cube p h1 h2 t0 m
  have hs : ∀ x, (partsOf (const p - m) p t0 x).sum = ret p t0 x - C m := by
    intro x
    have h := parts_sum p h1 h2 t0 x
    simp only [partsOf, List.sum_cons, List.sum_nil, map_sub] at h ⊢
    linear_combination h
  have e : ∀ᵐ x ∂γ, E x ((ret p t0 x - C m) ^ 3) = eval (two x.1 x.2) Q +
      ((gap3 p.k1 p.θ1 p.σ1 p.h + gap3 p.k2 p.θ2 p.σ2 p.h) * 1 + gapv p.k1 p.σ1 p.h * (x.1 - p.θ1 * 1) +
        gapv p.k2 p.σ2 p.h * (x.2 - p.θ2 * 1)) := by
    filter_upwards [hE] with x hx
    have := Dl_cube (const p - m) p h1 h2 hh t0 x (E x) hx
    rw [Dl_apply, hs, ← hQ] at this
    linarith
  have i0 := hγ.integrable 0 0
  have i1 := hγ.integrable 1 0
  have i2 := hγ.integrable 0 1
  have m0 := hγ.moment 0 0
  have m1 := hγ.moment 1 0
  have m2 := hγ.moment 0 1
  simp only [pow_zero, pow_one, Ito.vMoment, Finset.range_zero, Finset.prod_empty, Finset.range_one,
    Finset.prod_singleton, Nat.cast_zero, zero_mul, zero_div, add_zero, mul_one, one_mul] at i0 i1 i2 m0 m1 m2
  have j0 := i0.const_mul (gap3 p.k1 p.θ1 p.σ1 p.h + gap3 p.k2 p.θ2 p.σ2 p.h)
  have j1' : Integrable (fun x : ℝ × ℝ => x.1 - p.θ1 * 1) γ := i1.sub (i0.const_mul p.θ1)
  have j2' : Integrable (fun x : ℝ × ℝ => x.2 - p.θ2 * 1) γ := i2.sub (i0.const_mul p.θ2)
  have j1 := j1'.const_mul (gapv p.k1 p.σ1 p.h)
  have j2 := j2'.const_mul (gapv p.k2 p.σ2 p.h)
  have j01 : Integrable (fun x : ℝ × ℝ => (gap3 p.k1 p.θ1 p.σ1 p.h + gap3 p.k2 p.θ2 p.σ2 p.h) * 1 +
    gapv p.k1 p.σ1 p.h * (x.1 - p.θ1 * 1)) γ := j0.add j1
  have j : Integrable (fun x : ℝ × ℝ => (gap3 p.k1 p.θ1 p.σ1 p.h + gap3 p.k2 p.θ2 p.σ2 p.h) * 1 +
    gapv p.k1 p.σ1 p.h * (x.1 - p.θ1 * 1) + gapv p.k2 p.σ2 p.h * (x.2 - p.θ2 * 1)) γ := j01.add j2
  rw [expect, integral_congr_ae e, integral_add (integrable_pol p γ hγ Q) j, integral_add j01 j2,
    integral_add j0 j1, integral_const_mul, integral_const_mul, integral_const_mul,
    integral_sub i1 (i0.const_mul p.θ1), integral_sub i2 (i0.const_mul p.θ2), integral_const_mul,
    integral_const_mul, m0, m1, m2, expect]
  simp only [hQ]
  ring

theorem gap3_pos (k θ σ h : ℝ) (hk : 0 < k) (hθ : 0 < θ) (hσ : σ ≠ 0) (hh : 0 < h) : 0 < gap3 k θ σ h := by
  have hx : 0 < k * h := mul_pos hk hh
  rw [gap3]
  refine mul_pos (by positivity) ?_
  generalize k * h = x at hx
  let f : ℝ → ℝ := fun x => 3 / 2 - 2 * Real.exp (-x) - 2 * x * Real.exp (-x) + Real.exp (-x) ^ 2 / 2 +
    x * Real.exp (-x) ^ 2
  have hd : ∀ y, HasDerivAt f (2 * y * Real.exp (-y) * (1 - Real.exp (-y))) y := by
    intro y
    have d := (hasDerivAt_neg y).exp
    refine (((((hasDerivAt_const y (3 / 2 : ℝ)).sub (d.const_mul 2)).sub
      (((hasDerivAt_id y).const_mul 2).mul d)).add ((d.pow 2).div_const 2)).add
      ((hasDerivAt_id y).mul (d.pow 2))).congr_deriv ?_
    simp only [id, Pi.pow_apply]
    ring
  have hm : StrictMonoOn f (Set.Ici 0) := by
    apply strictMonoOn_of_deriv_pos (convex_Ici 0) (fun y _ => (hd y).continuousAt.continuousWithinAt)
    intro y hy
    rw [interior_Ici] at hy
    rw [(hd y).deriv]
    have hy' : 0 < y := hy
    have : Real.exp (-y) < 1 := Real.exp_lt_one_iff.2 (by linarith)
    have := Real.exp_pos (-y)
    apply mul_pos (by positivity)
    linarith
  have := hm (Set.self_mem_Ici) hx.le hx
  simp only [f, neg_zero, Real.exp_zero] at this
  norm_num at this
  linarith

end Ajd.Fsv2

end -- Fsv2Gap
