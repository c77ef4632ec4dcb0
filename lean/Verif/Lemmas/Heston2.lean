import Verif.Spec.Sv
import Verif.Spec.Ito
import Verif.Spec.Fsv1
import Verif.Lemmas.SvcjY3
import Verif.Lemmas.SvcjU4
import Verif.Lemmas.ItoShift
import Verif.Lemmas.Fsv1Inst
import Verif.Props.Ito

section -- Heston

/-! The Heston model as the SVCJ model without jumps. -/

namespace Ajd.Sv
open MvPolynomial Finset MeasureTheory SvcjI Ieziziz

/-- no jumps -/
noncomputable def p0 (k : ℝ) : Ieziziz.Par := ⟨k, 0, 1, 0, 0⟩

theorem isGen_iff (mu k θ σ ρ : ℝ) (f g : MvPolynomial (Fin 2) ℝ) :
    (heston mu k θ σ ρ).IsGen f g ↔ (svcj mu k θ σ ρ 0 1 0 0 0).IsGen f g := by
  unfold JumpDiff.IsGen
  simp [heston, svcj]

theorem dynkin_iff (mu k θ σ ρ : ℝ) (E0 : MvPolynomial (Fin 2) ℝ →ₗ[ℝ] ℝ) (E : ℝ → MvPolynomial (Fin 2) ℝ →ₗ[ℝ] ℝ) :
    (heston mu k θ σ ρ).Dynkin E0 E ↔ (svcj mu k θ σ ρ 0 1 0 0 0).Dynkin E0 E := by
  constructor <;> intro h
  · exact ⟨h.cont, fun f g hg => h.formula f g ((isGen_iff _ _ _ _ _ f g).2 hg)⟩
  · exact ⟨h.cont, fun f g hg => h.formula f g ((isGen_iff _ _ _ _ _ f g).1 hg)⟩

section
variable {k v0 θ σ : ℝ} {N : Fam} (h : JSys (p0 k) v0 θ σ N)
include h

theorem ode (n1 n2 n3 n4 n5 n6 : ℕ) (t : ℝ) (ht : 0 ≤ t) :
    HasDerivWithinAt (N n1 n2 n3 n4 n5 n6) (FF k v0 θ σ N n1 n2 n3 n4 n5 n6 t) (Set.Ici 0) t := by
  refine (h.ode n1 n2 n3 n4 n5 n6 t ht).congr_deriv ?_
  have hc : ∀ n, cJ (p0 k) t n = 0 := fun n => by simp [cJ, p0]
  simp only [hc]
  simp [p0]

theorem integrated (n1 n2 n3 n4 n5 n6 : ℕ) (t : ℝ) (ht : 0 ≤ t) : N n1 n2 n3 n4 n5 n6 t =
    (if n1 = 0 ∧ n2 = 0 ∧ n3 = 0 ∧ n4 = 0 ∧ n5 = 0 ∧ n6 = 0 then 1 else 0) +
      ∫ s in (0 : ℝ)..t, FF k v0 θ σ N n1 n2 n3 n4 n5 n6 s := by
  have hcont := (h.FF_cont n1 n2 n3 n4 n5 n6).mono (Set.Icc_subset_Ici_self : Set.Icc 0 t ⊆ _)
  have := intervalIntegral.integral_eq_sub_of_hasDeriv_right (a := 0) (b := t) (f := N n1 n2 n3 n4 n5 n6)
    (f' := FF k v0 θ σ N n1 n2 n3 n4 n5 n6) (by
      rw [Set.uIcc_of_le ht]
      exact (h.cont n1 n2 n3 n4 n5 n6).mono Set.Icc_subset_Ici_self) (fun s hs => by
      rw [min_eq_left ht, max_eq_right ht] at hs
      exact (ode h n1 n2 n3 n4 n5 n6 s hs.1.le).mono (fun u hu => le_trans hs.1.le (le_of_lt hu)))
    (by
      apply ContinuousOn.intervalIntegrable
      rw [Set.uIcc_of_le ht]
      exact hcont)
  rw [this, h.init]
  ring

/-- the integrals over the jumps vanish -/
theorem nojump (m : ℕ) : ∀ n1 n2 n3 n4 n5 n6, n1 + n2 + n3 = m → 0 < n4 + n5 + n6 → ∀ t, 0 ≤ t →
    N n1 n2 n3 n4 n5 n6 t = 0 := by
  induction m using Nat.strong_induction_on with
  | _ m ih =>
    intro n1 n2 n3 n4 n5 n6 hm h0 t ht
    have hV : ∀ a b c, a + b + c + 1 < m → ∀ s, 0 ≤ s → VV k v0 θ σ N a b c n4 n5 n6 s = 0 := by
      intro a b c hl s hs
      rw [VV, ih (a + b + c) (by omega) a b c n4 n5 n6 rfl h0 s hs,
        ih (a + 1 + b + c) (by omega) (a + 1) b c n4 n5 n6 rfl h0 s hs,
        ih (a + b + c) (by omega) a b c (n4 + 1) n5 n6 rfl (by omega) s hs]
      ring
    have hF : ∀ s, 0 ≤ s → FF k v0 θ σ N n1 n2 n3 n4 n5 n6 s = 0 := by
      intro s hs
      have t1 : (n1 : ℝ) * (n1 - 1) / 2 * (Real.exp (k * s) * VV k v0 θ σ N (n1 - 2) n2 n3 n4 n5 n6 s) = 0 := by
        rcases Nat.lt_or_ge n1 2 with h | h
        · interval_cases n1 <;> simp
        · rw [hV _ _ _ (by omega) s hs]; ring
      have t2 : (n2 : ℝ) * (n2 - 1) / 2 * (Real.exp (-k * s) * VV k v0 θ σ N n1 (n2 - 2) n3 n4 n5 n6 s) = 0 := by
        rcases Nat.lt_or_ge n2 2 with h | h
        · interval_cases n2 <;> simp
        · rw [hV _ _ _ (by omega) s hs]; ring
      have t3 : (n1 : ℝ) * n2 * VV k v0 θ σ N (n1 - 1) (n2 - 1) n3 n4 n5 n6 s = 0 := by
        rcases Nat.eq_zero_or_pos n1 with h | h
        · subst h; simp
        rcases Nat.eq_zero_or_pos n2 with h' | h'
        · subst h'; simp
        · rw [hV _ _ _ (by omega) s hs]; ring
      have t4 : (n3 : ℝ) * (n3 - 1) / 2 * (Real.exp (-k * s) * VV k v0 θ σ N n1 n2 (n3 - 2) n4 n5 n6 s) = 0 := by
        rcases Nat.lt_or_ge n3 2 with h | h
        · interval_cases n3 <;> simp
        · rw [hV _ _ _ (by omega) s hs]; ring
      rw [FF, t1, t2, t3, t4]
      ring
    rw [integrated h n1 n2 n3 n4 n5 n6 t ht, if_neg (by omega), intervalIntegral.integral_congr (g := fun _ => 0)]
    · simp
    · intro s hs
      rw [Set.uIcc_of_le ht] at hs
      exact hF s hs.1

/-- The equation `ito-moment` of theory.rst. -/
theorem itoRec : Ito.ItoRec ⟨k, θ, σ, v0, 0⟩ fun n3 n4 n5 t => N n3 n4 n5 0 0 0 t where
  zero t ht := by
    have := integrated h 0 0 0 0 0 0 t ht
    rw [this]
    simp [FF]
  step n3 n4 n5 h0 t ht := by
    have hc := h.cont
    have hi : ∀ (a : ℝ) (n1 n2 n3 : ℕ),
        IntervalIntegrable (fun s => Real.exp (a * s) * N n1 n2 n3 0 0 0 s) volume 0 t := by
      intro a n1 n2 n3
      apply ContinuousOn.intervalIntegrable
      rw [Set.uIcc_of_le ht]
      exact ContinuousOn.mul (by fun_prop) ((hc n1 n2 n3 0 0 0).mono Set.Icc_subset_Ici_self)
    have hV : ∀ (a : ℝ) (n1 n2 n3 : ℕ), ContinuousOn (fun s => Real.exp (a * s) * VV k v0 θ σ N n1 n2 n3 0 0 0 s)
        (Set.uIcc 0 t) := by
      intro a n1 n2 n3
      rw [Set.uIcc_of_le ht]
      unfold VV
      have hc' : ∀ n1 n2 n3 n4 n5 n6, ContinuousOn (N n1 n2 n3 n4 n5 n6) (Set.Icc 0 t) :=
        fun n1 n2 n3 n4 n5 n6 => (hc n1 n2 n3 n4 n5 n6).mono Set.Icc_subset_Ici_self
      fun_prop (disch := assumption)
    have hVi : ∀ (a : ℝ) (n1 n2 n3 : ℕ), ∫ s in (0 : ℝ)..t, Real.exp (a * s) * VV k v0 θ σ N n1 n2 n3 0 0 0 s =
        (v0 - θ) * (∫ s in (0 : ℝ)..t, Real.exp (a * s) * N n1 n2 n3 0 0 0 s) +
          θ * (∫ s in (0 : ℝ)..t, Real.exp ((a + k) * s) * N n1 n2 n3 0 0 0 s) +
          σ * (∫ s in (0 : ℝ)..t, Real.exp (a * s) * N (n1 + 1) n2 n3 0 0 0 s) := by
      intro a n1 n2 n3
      rw [← intervalIntegral.integral_const_mul, ← intervalIntegral.integral_const_mul,
        ← intervalIntegral.integral_const_mul, ← intervalIntegral.integral_add ((hi _ _ _ _).const_mul _)
        ((hi _ _ _ _).const_mul _), ← intervalIntegral.integral_add (((hi _ _ _ _).const_mul _).add
        ((hi _ _ _ _).const_mul _)) ((hi _ _ _ _).const_mul _)]
      refine intervalIntegral.integral_congr fun s hs => ?_
      rw [Set.uIcc_of_le ht] at hs
      rw [VV, nojump h _ n1 n2 n3 1 0 0 rfl (by omega) s hs.1, add_mul, Real.exp_add]
      ring
    have hF : ∫ s in (0 : ℝ)..t, FF k v0 θ σ N n3 n4 n5 0 0 0 s =
        (n3 : ℝ) * (n3 - 1) / 2 * (∫ s in (0 : ℝ)..t, Real.exp (k * s) * VV k v0 θ σ N (n3 - 2) n4 n5 0 0 0 s) +
        (n4 : ℝ) * (n4 - 1) / 2 * (∫ s in (0 : ℝ)..t, Real.exp (-k * s) * VV k v0 θ σ N n3 (n4 - 2) n5 0 0 0 s) +
        (n3 : ℝ) * n4 * (∫ s in (0 : ℝ)..t, Real.exp (0 * s) * VV k v0 θ σ N (n3 - 1) (n4 - 1) n5 0 0 0 s) +
        (n5 : ℝ) * (n5 - 1) / 2 * (∫ s in (0 : ℝ)..t, Real.exp (-k * s) * VV k v0 θ σ N n3 n4 (n5 - 2) 0 0 0 s) := by
      have hj := fun a n1 n2 n3 => (hV a n1 n2 n3).intervalIntegrable (μ := volume)
      rw [← intervalIntegral.integral_const_mul, ← intervalIntegral.integral_const_mul,
        ← intervalIntegral.integral_const_mul, ← intervalIntegral.integral_const_mul,
        ← intervalIntegral.integral_add ((hj _ _ _ _).const_mul _) ((hj _ _ _ _).const_mul _),
        ← intervalIntegral.integral_add (((hj _ _ _ _).const_mul _).add ((hj _ _ _ _).const_mul _))
          ((hj _ _ _ _).const_mul _),
        ← intervalIntegral.integral_add ((((hj _ _ _ _).const_mul _).add ((hj _ _ _ _).const_mul _)).add
          ((hj _ _ _ _).const_mul _)) ((hj _ _ _ _).const_mul _)]
      refine intervalIntegral.integral_congr fun s _ => ?_
      rw [FF, zero_mul, Real.exp_zero, one_mul]
    dsimp only
    rw [integrated h n3 n4 n5 0 0 0 t ht, if_neg (by omega), hF, hVi, hVi, hVi, hVi]
    have e1 : ∀ g : ℕ → ℝ, (n3 : ℝ) * (n3 - 1) / 2 * g (n3 - 2 + 1) = (n3 : ℝ) * (n3 - 1) / 2 * g (n3 - 1) := by
      intro g
      rcases Nat.lt_or_ge n3 2 with h | h
      · interval_cases n3 <;> simp
      · rw [show n3 - 2 + 1 = n3 - 1 by omega]
    have e2 : ∀ g : ℕ → ℝ, (n3 : ℝ) * g (n3 - 1 + 1) = (n3 : ℝ) * g n3 := by
      intro g
      rcases Nat.eq_zero_or_pos n3 with h | h
      · subst h; simp
      · rw [Nat.sub_add_cancel h]
    have e1' := e1 fun n => ∫ s in (0 : ℝ)..t, Real.exp (k * s) * N n n4 n5 0 0 0 s
    have e2' := e2 fun n => ∫ s in (0 : ℝ)..t, Real.exp (0 * s) * N n (n4 - 1) n5 0 0 0 s
    have z1 : ∀ x : ℝ, k * x + k * x = 2 * k * x := fun x => by ring
    simp only [zero_add, mul_zero, Real.exp_zero, one_mul, add_mul, z1, neg_mul, neg_add_cancel, zero_mul] at e1' e2' ⊢
    linear_combination σ * e1' + n4 * σ * e2'

end

/-! ### the conditional law -/

/-- from the eight processes to the three integrals -/
noncomputable def chi (k θ x h : ℝ) : M8 →ₐ[ℝ] Fsv1.Rv :=
  aeval ![C (Real.exp (-k * h)) * X 0, X 1, X 2, 0, 0, 0, C (Real.exp (-k * h) * (x - θ)), C h]

/-- the expectation for the three integrals -/
noncomputable def Ec (k h : ℝ) (D : M8 →ₗ[ℝ] ℝ) : Fsv1.Rv →ₗ[ℝ] ℝ :=
  D ∘ₗ (aeval ![C (Real.exp (k * h)) * X 0, X 1, X 2]).toLinearMap

theorem Ec_mon (k h : ℝ) (D : M8 →ₗ[ℝ] ℝ) (a b c : ℕ) :
    Ec k h D (X 0 ^ a * X 1 ^ b * X 2 ^ c) = Real.exp (a * k * h) * D (fn a b c 0 0 0) := by
  rw [Ec, LinearMap.comp_apply, AlgHom.toLinearMap_apply]
  simp only [map_mul, map_pow, aeval_X, Matrix.cons_val]
  rw [show (a : ℝ) * k * h = a * (k * h) by ring, Real.exp_nat_mul, ← E_C]
  refine congrArg D ?_
  simp only [fn, mul_pow, map_pow]
  ring

theorem condLaw (p : Fsv1.Par) (hh : 0 ≤ p.h) (x : ℝ) {D : ℝ → M8 →ₗ[ℝ] ℝ}
    (hD : (drv (p0 p.k) p.θ p.σ).Dynkin (E0D x p.θ) D) : Fsv1.CondLaw p 0 x (Ec p.k p.h (D p.h)) := by
  refine ⟨_, itoRec (drv_jsys (p := p0 p.k) one_pos hD), fun a b c => ?_⟩
  rw [Ec_mon, zero_add]
  simp [famN, p0]

theorem D_chi (p : Fsv1.Par) (hh : 0 ≤ p.h) (x : ℝ) {D : ℝ → M8 →ₗ[ℝ] ℝ}
    (hD : (drv (p0 p.k) p.θ p.σ).Dynkin (E0D x p.θ) D) (F : M8) :
    D p.h F = Ec p.k p.h (D p.h) (chi p.k p.θ x p.h F) := by
  suffices hs : D p.h = Ec p.k p.h (D p.h) ∘ₗ (chi p.k p.θ x p.h).toLinearMap by
    conv_lhs => rw [hs]
    rfl
  refine (basisMonomials (Fin 8) ℝ).ext fun s => ?_
  have hm : basisMonomials (Fin 8) ℝ s = (X 6 ^ s 6 * X 7 ^ s 7) * fn (s 0) (s 1) (s 2) (s 3) (s 4) (s 5) := by
    rw [coe_basisMonomials]
    show monomial s 1 = _
    rw [monomial_eq, C_1, one_mul, Finsupp.prod_fintype _ _ (by simp), Fin.prod_univ_eight]
    unfold fn
    ring
  rw [hm, LinearMap.comp_apply, AlgHom.toLinearMap_apply, E_psi (p := p0 p.k) one_pos hD p.h hh]
  have h6 : psi (p0 p.k).k x p.θ p.h (X 6 ^ s 6 * X 7 ^ s 7) =
      C ((Real.exp (-p.k * p.h) * (x - p.θ)) ^ s 6 * p.h ^ s 7) := by
    simp only [psi, p0, map_mul, map_pow, aeval_X, Matrix.cons_val]
  have h7 : chi p.k p.θ x p.h (X 6 ^ s 6 * X 7 ^ s 7 * fn (s 0) (s 1) (s 2) (s 3) (s 4) (s 5)) =
      C ((Real.exp (-p.k * p.h) * (x - p.θ)) ^ s 6 * p.h ^ s 7 * Real.exp (-p.k * p.h) ^ s 0 *
        (0 ^ s 3 * 0 ^ s 4 * 0 ^ s 5)) * (X 0 ^ s 0 * X 1 ^ s 1 * X 2 ^ s 2) := by
    simp only [chi, fn, map_mul, map_pow, aeval_X, Matrix.cons_val, map_zero]
    ring
  rw [h6, h7, E_C, E_C, Ec_mon]
  by_cases h0 : s 3 + s 4 + s 5 = 0
  · have e3 : s 3 = 0 := by omega
    have e4 : s 4 = 0 := by omega
    have e5 : s 5 = 0 := by omega
    rw [e3, e4, e5, ← Real.exp_nat_mul]
    have : Real.exp (s 0 * (-p.k * p.h)) * Real.exp (s 0 * p.k * p.h) = 1 := by
      rw [← Real.exp_add, show s 0 * (-p.k * p.h) + s 0 * p.k * p.h = 0 by ring, Real.exp_zero]
    linear_combination (-((Real.exp (-p.k * p.h) * (x - p.θ)) ^ s 6 * p.h ^ s 7 * D p.h (fn (s 0) (s 1) (s 2) 0 0 0))) * this
  · have hz := nojump (drv_jsys (p := p0 p.k) one_pos hD) _ (s 0) (s 1) (s 2) (s 3) (s 4) (s 5) rfl (by omega) p.h hh
    rw [famN, mul_eq_zero] at hz
    rw [hz.resolve_left (Real.exp_ne_zero _)]
    have : (0 : ℝ) ^ s 3 * 0 ^ s 4 * 0 ^ s 5 = 0 := by
      rw [← pow_add, ← pow_add, zero_pow h0]
    rw [this]
    ring

/-- The law at the end of an interval that starts with the variance `x`, by the integrals. -/
theorem heston_repr (p : Fsv1.Par) (hk : p.k ≠ 0) (hh : 0 ≤ p.h) (hρ : 0 ≤ 1 - p.ρ ^ 2) (x : ℝ)
    {E : ℝ → MvPolynomial (Fin 2) ℝ →ₗ[ℝ] ℝ}
    (hE : (heston p.μ p.k p.θ p.σ p.ρ).Dynkin (aeval ![x, 0]).toLinearMap E) :
    ∃ E', Fsv1.CondLaw p 0 x E' ∧ ∀ f, E p.h f = E' (aeval ![Fsv1.vNext p 0 x, Fsv1.ret p 0 x] f) := by
  obtain ⟨D, hD, hDE⟩ := svcj_repr (p0 p.k) one_pos hk p.μ p.θ p.σ p.ρ 0 x hρ ((dynkin_iff _ _ _ _ _ _ _).1 hE)
  refine ⟨_, condLaw p hh x hD, fun f => ?_⟩
  rw [hDE p.h hh, D_chi p hh x hD]
  refine congrArg _ ?_
  have : (chi p.k p.θ x p.h).comp (aeval (gI p.k p.σ p.ρ 0 p.μ p.θ x)) = aeval ![Fsv1.vNext p 0 x, Fsv1.ret p 0 x] := by
    refine algHom_ext fun i => ?_
    rw [AlgHom.comp_apply, aeval_X, aeval_X]
    refine MvPolynomial.funext fun y => ?_
    fin_cases i
    · simp [gI, Vp, chi, Fsv1.vNext]
      ring
    · simp [gI, yP, chi, Fsv1.ret, Fsv1.intVar, Fsv1.vNext]
      field_simp
      ring
  exact congrArg (fun g : MvPolynomial (Fin 2) ℝ →ₐ[ℝ] Fsv1.Rv => g f) this

end Ajd.Sv

end -- Heston

section -- Heston2

/-! The Heston model with a stationary variance. -/

namespace Ajd.Sv
open MvPolynomial Finset MeasureTheory SvcjI Ieziziz

theorem E_cond (p : Fsv1.Par) (hk : p.k ≠ 0) (hh : 0 ≤ p.h) (t0 x : ℝ) {E' : Fsv1.Rv →ₗ[ℝ] ℝ}
    (h : Fsv1.CondLaw p 0 x E') (F : Fsv1.Rv) :
    E' F = Fsv1.condE p t0 x (aeval ![C (Real.exp (-(p.k * t0))) * X 0, X 1, X 2] F) := by
  suffices hs : E' = Fsv1.condE p t0 x ∘ₗ (aeval ![C (Real.exp (-(p.k * t0))) * X 0, X 1, X 2]).toLinearMap by
    conv_lhs => rw [hs]
    rfl
  refine (basisMonomials (Fin 3) ℝ).ext fun s => ?_
  have hm : basisMonomials (Fin 3) ℝ s = X 0 ^ s 0 * X 1 ^ s 1 * X 2 ^ s 2 := by
    rw [coe_basisMonomials]
    show monomial s 1 = _
    rw [monomial_eq, C_1, one_mul, Finsupp.prod_fintype _ _ (by simp), Fin.prod_univ_three]
  obtain ⟨M, hM, e⟩ := h
  obtain ⟨M', hM', e'⟩ := Fsv1.condLaw_condE p t0 x
  rw [hm, LinearMap.comp_apply, AlgHom.toLinearMap_apply, e, zero_add]
  have h1 := hM'.shift
  dsimp only at h1
  have h2 := (C16_unique ⟨p.k, p.θ, p.σ, x, 0⟩ hk).2 M _ hM h1 (s 0) (s 1) (s 2) p.h hh
  rw [h2]
  simp only [map_mul, map_pow, aeval_X, Matrix.cons_val, mul_pow]
  rw [← e', ← smul_eq_mul, ← map_smul]
  refine congrArg _ ?_
  rw [smul_eq_C_mul, map_pow]
  ring

/-- The law at the end of an interval from `t0` that starts with the variance `x`. -/
theorem heston_condE (p : Fsv1.Par) (hk : p.k ≠ 0) (hh : 0 ≤ p.h) (hρ : 0 ≤ 1 - p.ρ ^ 2) (t0 x : ℝ)
    {E : ℝ → MvPolynomial (Fin 2) ℝ →ₗ[ℝ] ℝ}
    (hE : (heston p.μ p.k p.θ p.σ p.ρ).Dynkin (aeval ![x, 0]).toLinearMap E) (f : MvPolynomial (Fin 2) ℝ) :
    E p.h f = Fsv1.condE p t0 x (aeval ![Fsv1.vNext p t0 x, Fsv1.ret p t0 x] f) := by
  obtain ⟨E', h, e⟩ := heston_repr p hk hh hρ x hE
  rw [e, E_cond p hk hh t0 x h]
  refine congrArg _ ?_
  have : (aeval ![C (Real.exp (-(p.k * t0))) * X 0, X 1, X 2] : Fsv1.Rv →ₐ[ℝ] Fsv1.Rv).comp
      (aeval ![Fsv1.vNext p 0 x, Fsv1.ret p 0 x]) = aeval ![Fsv1.vNext p t0 x, Fsv1.ret p t0 x] := by
    have hv : (aeval ![C (Real.exp (-(p.k * t0))) * X 0, X 1, X 2] : Fsv1.Rv →ₐ[ℝ] Fsv1.Rv) (Fsv1.vNext p 0 x) =
        Fsv1.vNext p t0 x := by
      rw [Fsv1.vNext, Fsv1.vNext, show -(p.k * (t0 + p.h)) = -(p.k * (0 + p.h)) + -(p.k * t0) by ring, Real.exp_add]
      simp [algHom_C, MvPolynomial.algebraMap_eq]
      ring
    refine algHom_ext fun i => ?_
    rw [AlgHom.comp_apply, aeval_X, aeval_X]
    fin_cases i
    · exact hv
    · show (aeval _ : Fsv1.Rv →ₐ[ℝ] Fsv1.Rv) (Fsv1.ret p 0 x) = Fsv1.ret p t0 x
      simp only [Fsv1.ret, Fsv1.intVar, map_add, map_sub, map_mul, hv, algHom_C, MvPolynomial.algebraMap_eq, aeval_X,
        Matrix.cons_val]
  exact congrArg (fun g : MvPolynomial (Fin 2) ℝ →ₐ[ℝ] Fsv1.Rv => g f) this

theorem Start.svcj {E0 : MvPolynomial (Fin 2) ℝ →ₗ[ℝ] ℝ} {M : ℕ → ℝ} (h : Start E0 M) : SvcjI.Start E0 M := ⟨h.y, h.v⟩

theorem Lp_int (p : Fsv1.Par) (γ : Measure ℝ) (hγ : Fsv1.StatLaw p γ) (q : Polynomial ℝ) :
    Srjd.Lp (Ito.vMoment p.k p.θ p.σ) q = ∫ x, q.eval x ∂γ := by
  rw [Srjd.Lp_eq, Polynomial.sum_def]
  simp only [Polynomial.eval_eq_sum, Polynomial.sum_def]
  rw [integral_finset_sum _ fun i _ => (hγ.integrable i).const_mul _]
  refine Finset.sum_congr rfl fun i _ => ?_
  rw [integral_const_mul, hγ.moment]

theorem coef (mu k θ σ ρ : ℝ) : Gen.PolyCoef (svcj mu k θ σ ρ 0 1 0 0 0) (bY k θ mu) (aY σ ρ) :=
  sY_coef (p0 k) one_pos mu θ σ ρ 0

theorem mom : Gen.Mom (jumpLaw2 1 0 0 0) := momY (p0 0) one_pos 0

theorem heston_semi (mu k θ σ ρ : ℝ) : ∃ Q : ℝ → MvPolynomial (Fin 2) ℝ →ₗ[ℝ] MvPolynomial (Fin 2) ℝ,
    (∀ E0, (heston mu k θ σ ρ).Dynkin E0 fun t => E0 ∘ₗ Q t) ∧
    ∀ E0 E, (heston mu k θ σ ρ).Dynkin E0 E → ∀ t, 0 ≤ t → E t = E0 ∘ₗ Q t := by
  obtain ⟨Q, hQ⟩ := Gen.dynkin_exists (coef mu k θ σ ρ) mom
  refine ⟨Q, fun E0 => (dynkin_iff _ _ _ _ _ _ _).2 (hQ E0), fun E0 E hE t ht => ?_⟩
  exact Gen.dynkin_unique (coef mu k θ σ ρ) mom ((dynkin_iff _ _ _ _ _ _ _).1 hE) (hQ E0) t ht

/-- The law of a return, over the stationary law of the variance at its start. -/
theorem heston_stat (p : Fsv1.Par) (hk : p.k ≠ 0) (hh : 0 ≤ p.h) (hρ : 0 ≤ 1 - p.ρ ^ 2) (t0 : ℝ)
    (γ : Measure ℝ) (hγ : Fsv1.StatLaw p γ) {E0 : MvPolynomial (Fin 2) ℝ →ₗ[ℝ] ℝ}
    (h0 : Start E0 (Ito.vMoment p.k p.θ p.σ)) {E : ℝ → MvPolynomial (Fin 2) ℝ →ₗ[ℝ] ℝ}
    (hE : (heston p.μ p.k p.θ p.σ p.ρ).Dynkin E0 E) (f : MvPolynomial (Fin 2) ℝ) :
    E p.h f = Fsv1.expect γ (Fsv1.condE p t0) fun x => aeval ![Fsv1.vNext p t0 x, Fsv1.ret p t0 x] f := by
  obtain ⟨Q, hQ, hu⟩ := heston_semi p.μ p.k p.θ p.σ p.ρ
  rw [hu E0 E hE p.h hh, LinearMap.comp_apply, h0.svcj.eq, Lp_int p γ hγ, Fsv1.expect]
  refine integral_congr_ae (Filter.Eventually.of_forall fun x => ?_)
  dsimp only
  rw [eval_atV, ← heston_condE p hk hh hρ t0 x (hQ (aeval ![x, 0]).toLinearMap)]
  rfl

end Ajd.Sv

end -- Heston2
