import Verif.Lemmas.Fsv2jDeriv
import Verif.Props.Fsv2

namespace Ajd.Fsv2j
open Poly Itos MvPolynomial MeasureTheory ProbabilityTheory
open Fsv2 (TKey TPoly TOK Rv Pol two vNext1 vNext2 StatLaw CompLaw CondLaw compE IsDeriv ZeroDiv Separate gap3)

/-! ### C33 moments and covariance, given the Itô moments that `itos_mom` computes -/

/-- `m(l, par)` of `mdl_2fsvj/mom.py` is the `l`-th moment of the sum of the two-factor return and an
independent compound Poisson variable with normal jumps, for every expectation whose joint moments of
the Itô integrals are the ones `itos_mom` computes. It raises only ZeroDivisionError, and that only if
an integer combination of the rates vanishes. -/
theorem C33_m (p : Par) (h1 : p.k1 ≠ 0) (h2 : p.k2 ≠ 0) (hl : 0 ≤ p.lam * p.h) (t0 : ℝ)
    (E : ℝ × ℝ → Rv →ₗ[ℝ] ℝ) (γ : Measure (ℝ × ℝ)) (hγ : StatLaw p.toPar γ) (l : ℕ)
    (hE : ∀ᵐ x ∂γ, CompLaw code l p.toPar t0 x (E x)) :
    m code l p = .ok (expect p γ E fun z x => ret p t0 z x ^ l) ∨
      (m code l p = .error .zeroDivision ∧ ¬ p.toPar.Generic) := by
  obtain ⟨r, e, ks, v⟩ := momentY_val code p h1 h2 hl t0 E γ hγ l hE
  by_cases hz : ZeroDiv r p.toPar
  · right
    exact ⟨by rw [m, e, ok_bind, poly2num, if_pos hz], fun hg => Fsv2.not_zeroDiv r 9 ks p.toPar hg hz⟩
  · left
    rw [m, e, ok_bind, poly2num_eq r p hz, v]

/-- `cm(l, par)` of `mdl_2fsvj/cmom.py` is the `l`-th central moment, in the same sense. -/
theorem C33_cm (p : Par) (h1 : p.k1 ≠ 0) (h2 : p.k2 ≠ 0) (hl : 0 ≤ p.lam * p.h) (t0 : ℝ)
    (E : ℝ × ℝ → Rv →ₗ[ℝ] ℝ) (γ : Measure (ℝ × ℝ)) (hγ : StatLaw p.toPar γ) (l : ℕ)
    (hE : ∀ᵐ x ∂γ, CompLaw code l p.toPar t0 x (E x)) :
    cm code l p = .ok (expect p γ E fun z x =>
        (ret p t0 z x - C (expect p γ E fun z x => ret p t0 z x)) ^ l) ∨
      (cm code l p = .error .zeroDivision ∧ ¬ p.toPar.Generic) := by
  obtain ⟨r, e, ks, v⟩ := cmomentY_val code p h1 h2 hl t0 E γ hγ l hE
  by_cases hz : ZeroDiv r p.toPar
  · right
    exact ⟨by rw [cm, e, ok_bind, poly2numC, if_pos hz], fun hg => Fsv2.not_zeroDiv r 8 ks p.toPar hg hz⟩
  · left
    rw [cm, e, ok_bind, poly2numC_eq r p hz, v]

/-- `cov(l1, l2, par)` of `mdl_2fsvj/cov.py` is `cov(y_n^l1, y_{n+1}^l2)` in the same sense; the jumps of
the two intervals are independent. `Q z` is the conditional moment of `y_{n+1}^l2` given that the jumps
of the second interval sum up to `z`, a polynomial in the variances at time `n` (see `C33_condPoly`). -/
theorem C33_cov (p : Par) (h1 : p.k1 ≠ 0) (h2 : p.k2 ≠ 0) (hl : 0 ≤ p.lam * p.h) (t0 : ℝ)
    (E : ℝ × ℝ → Rv →ₗ[ℝ] ℝ) (γ : Measure (ℝ × ℝ)) (hγ : StatLaw p.toPar γ)
    (hE : ∀ᵐ x ∂γ, CompLaw code ⊤ p.toPar t0 x (E x)) (l1 l2 : ℕ)
    (Q : ℝ → Pol) (hQ : CondPoly code p (t0 + p.h) l2 Q) :
    cov code l1 l2 p = .ok ((∫ z', expect p γ E (fun z x => ret p t0 z x ^ l1 *
          aeval (two (vNext1 p.toPar t0 x.1) (vNext2 p.toPar t0 x.2)) (Q z')) ∂(jumpLaw p)) -
        (expect p γ E fun z x => ret p t0 z x ^ l1) * (expect p γ E fun z x => ret p t0 z x ^ l2)) ∨
      (cov code l1 l2 p = .error .zeroDivision ∧ ¬ p.toPar.Generic) := by
  obtain ⟨r, e, ks, v⟩ := covYY_val code p h1 h2 hl t0 E γ hγ hE l1 l2 Q hQ
  by_cases hz : ZeroDiv r p.toPar
  · right
    exact ⟨by rw [cov, e, ok_bind, poly2num, if_pos hz], fun hg => Fsv2.not_zeroDiv r 9 ks p.toPar hg hz⟩
  · left
    rw [cov, e, ok_bind, poly2num_eq r p hz, v]

/-- The polynomials `C33_cov` asks for exist. -/
theorem C33_condPoly (p : Par) (h1 : p.k1 ≠ 0) (h2 : p.k2 ≠ 0) (t1 : ℝ) (l : ℕ) :
    ∃ Q : ℝ → Pol, CondPoly code p t1 l Q ∧
      ∀ z v E, CompLaw code ⊤ p.toPar t1 v E → eval (two v.1 v.2) (Q z) = E (ret p t1 z v ^ l) := by
  obtain ⟨Q, hQ⟩ := condPolyJ code p h1 h2 t1 l
  exact ⟨Q, ⟨compE code p.toPar t1, Set.univ, Set.univ, Set.infinite_univ, Set.infinite_univ,
    fun z _ => Fsv2.compLaw_compE _ _ _ _ _, fun z v _ => hQ z v _ (Fsv2.compLaw_compE _ _ _ _ _)⟩, hQ⟩

/-- `moment_y`, `cmoment_y` and `cov_yy` never raise; their Polys contain no zero value and no repeated
key, have the documented `keyfor`, keys of that length, and no negative power. -/
theorem C33_keys (l l1 l2 : ℕ) :
    (∃ r, momentY code l = .ok r ∧ r.keyfor = kfM ∧ r.WF ∧ r.NoZero ∧
      ∀ e ∈ r.items, e.1.c.length + 2 = kfM.length ∧ ∀ j, 0 ≤ ix e.1.c j) ∧
    (∃ r, cmomentY code l = .ok r ∧ r.keyfor = kfC ∧ r.WF ∧ r.NoZero ∧
      ∀ e ∈ r.items, e.1.c.length + 2 = kfC.length ∧ ∀ j, 0 ≤ ix e.1.c j) ∧
    (∃ r, covYY code l1 l2 = .ok r ∧ r.keyfor = kfM ∧ r.WF ∧ r.NoZero ∧
      ∀ e ∈ r.items, e.1.c.length + 2 = kfM.length ∧ ∀ j, 0 ≤ ix e.1.c j) := by
  obtain ⟨r, e, k, w, z, ks, _⟩ := momentY_spec code l
  obtain ⟨r', e', k', w', z', ks', _⟩ := cmomentY_spec code l
  obtain ⟨r'', e'', k'', w'', z'', ks'', _⟩ := covYY_parts code l1 l2
  exact ⟨⟨r, e, k, w, z, fun x hx => ⟨by rw [(ks x hx).2.2.1]; rfl, (ks x hx).2.2.2⟩⟩,
    ⟨r', e', k', w', z', fun x hx => ⟨by rw [(ks' x hx).2.2.1]; rfl, (ks' x hx).2.2.2⟩⟩,
    ⟨r'', e'', k'', w'', z'', fun x hx => ⟨by rw [(ks'' x hx).2.2.1]; rfl, (ks'' x hx).2.2.2⟩⟩⟩

/-- the parameters of the examples -/
noncomputable def exPar : Par := ⟨Fsv2.exPar, 2, 1 / 3, 1 / 5⟩

example : exPar.toPar.Generic ∧ exPar.k1 ≠ 0 ∧ exPar.k2 ≠ 0 ∧ 0 ≤ exPar.lam * exPar.h ∧
    StatLaw exPar.toPar (Fsv2.gammas exPar.toPar) ∧
    (∀ x, CompLaw code ⊤ exPar.toPar 3 x (compE code exPar.toPar 3 x)) ∧
    ∃ Q, CondPoly code exPar (3 + exPar.h) 2 Q := by
  have hg : exPar.toPar.Generic := Fsv2.generic_of_irrational _ rfl irrational_sqrt_two
  obtain ⟨h1, h2⟩ := Fsv2.generic_ne hg
  obtain ⟨Q, hQ, _⟩ := C33_condPoly exPar h1 h2 (3 + exPar.h) 2
  refine ⟨hg, h1, h2, by norm_num [exPar, Fsv2.exPar], Fsv2.statLaw_gammas _ ?_ ?_ ?_ ?_ ?_ ?_,
    fun x => Fsv2.compLaw_compE _ _ _ _ _, Q, hQ⟩ <;> norm_num [exPar, Fsv2.exPar]

/-! ### C53 the moments of the model itself -/

/-- Up to order 2 the moments and central moments are the ones of the model (`CondLaw`: the Itô moment
equation). Missing: the statement is false at order 3, see `C53_order3`. -/
theorem C53_moments_partial (p : Par) (h1 : p.k1 ≠ 0) (h2 : p.k2 ≠ 0) (hh : 0 ≤ p.h) (hl : 0 ≤ p.lam) (t0 : ℝ)
    (E : ℝ × ℝ → Rv →ₗ[ℝ] ℝ) (γ : Measure (ℝ × ℝ)) (hγ : StatLaw p.toPar γ)
    (hE : ∀ᵐ x ∂γ, CondLaw p.toPar t0 x (E x)) (l : ℕ) (hl2 : l ≤ 2) :
    m code l p = .ok (expect p γ E fun z x => ret p t0 z x ^ l) ∧
    cm code l p = .ok (expect p γ E fun z x =>
      (ret p t0 z x - C (expect p γ E fun z x => ret p t0 z x)) ^ l) := by
  have hE' : ∀ᵐ x ∂γ, CompLaw code 2 p.toPar t0 x (E x) := hE.mono fun x hx =>
    Fsv2.compLaw_code p.toPar h1 h2 hh t0 x (E x) hx
  have hl' : (l : ℕ∞) ≤ 2 := by exact_mod_cast hl2
  have hs : Separate (momentY code l) = true ∧ Separate (cmomentY code l) = true := by
    obtain rfl | rfl | rfl : l = 0 ∨ l = 1 ∨ l = 2 := by omega
    · exact ⟨by decide +kernel, by decide +kernel⟩
    · exact ⟨by decide +kernel, by decide +kernel⟩
    · exact ⟨by decide +kernel, by decide +kernel⟩
  obtain ⟨r, e, ks, v⟩ := momentY_val code p h1 h2 (mul_nonneg hl hh) t0 E γ hγ l
    (hE'.mono fun x hx => Fsv2.compLaw_mono hl' hx)
  obtain ⟨r', e', ks', v'⟩ := cmomentY_val code p h1 h2 (mul_nonneg hl hh) t0 E γ hγ l
    (hE'.mono fun x hx => Fsv2.compLaw_mono hl' hx)
  rw [e, e'] at hs
  constructor
  · rw [m, e, ok_bind, poly2num_eq r p (Fsv2.not_zeroDiv_separate r 9 ks hs.1 p.toPar h1 h2), v]
  · rw [cm, e', ok_bind, poly2numC_eq r' p (Fsv2.not_zeroDiv_separate r' 8 ks' hs.2 p.toPar h1 h2), v']

/-- `cov(1, 1, par)` is the autocovariance of the return. Missing: higher orders. -/
theorem C53_cov_partial (p : Par) (h1 : p.k1 ≠ 0) (h2 : p.k2 ≠ 0) (hh : 0 ≤ p.h) (hl : 0 ≤ p.lam) (t0 : ℝ)
    (E : ℝ × ℝ → Rv →ₗ[ℝ] ℝ) (γ : Measure (ℝ × ℝ)) (hγ : StatLaw p.toPar γ)
    (hE : ∀ᵐ x ∂γ, CondLaw p.toPar t0 x (E x)) (Q : ℝ → Pol) (hQ : TruePoly p (t0 + p.h) 1 Q) :
    cov code 1 1 p = .ok ((∫ z', expect p γ E (fun z x => ret p t0 z x *
          aeval (two (vNext1 p.toPar t0 x.1) (vNext2 p.toPar t0 x.2)) (Q z')) ∂(jumpLaw p)) -
        (expect p γ E fun z x => ret p t0 z x) * (expect p γ E fun z x => ret p t0 z x)) := by
  obtain ⟨E', S1, S2, i1, i2, hE', hQ'⟩ := hQ
  have he : ∀ v z E, CompLaw code 1 p.toPar (t0 + p.h) v E →
      E (ret p (t0 + p.h) z v) = eval (two v.1 v.2) (Fsv2.Q1 p.toPar + C z) := by
    intro v z E h
    have e1 : E 1 = 1 := by
      obtain ⟨P, e, v⟩ := h 0 0 0 0 0 (by simp)
      have : moment code (((0 : ℕ) : ℤ), ((0 : ℕ) : ℤ), ((0 : ℕ) : ℤ), ((0 : ℕ) : ℤ), ((0 : ℕ) : ℤ)) = .ok P1 := rfl
      rw [this] at e
      cases e
      simpa [ev, P1, dval, den, Itos.Par.rate, ix] using v
    rw [ret, map_add, Fsv2.cond_mean code p.toPar h1 h2 (t0 + p.h) v E h, map_add, Fsv2.eval_Q1, eval_C]
    have := Fsv2.E_C_mul E z 1
    rw [mul_one, e1, mul_one] at this
    rw [this]
  have hq : ∀ z, Q z = Fsv2.Q1 p.toPar + C z := by
    intro z
    apply Fsv2.pol_ext S1 S2 i1 i2
    intro v hv
    rw [hQ' z v hv, pow_one, he v z (E' v) (Fsv2.compLaw_mono (by norm_num)
      (Fsv2.compLaw_code p.toPar h1 h2 hh _ v _ (hE' v hv)))]
  obtain ⟨r, e, ks, v⟩ := covYY_val code p h1 h2 (mul_nonneg hl hh) t0 (compE code p.toPar t0) γ hγ
    (Filter.Eventually.of_forall fun x => Fsv2.compLaw_compE _ _ _ _ _) 1 1 Q
    ⟨compE code p.toPar (t0 + p.h), Set.univ, Set.univ, Set.infinite_univ, Set.infinite_univ,
      fun v _ => Fsv2.compLaw_compE _ _ _ _ _, fun z v _ => by
        rw [pow_one, he v z _ (Fsv2.compLaw_compE _ _ _ _ _), hq]⟩
  have hs : Separate (covYY code 1 1) = true := by decide +kernel
  rw [e] at hs
  rw [cov, e, ok_bind, poly2num_eq r p (Fsv2.not_zeroDiv_separate r 9 ks hs p.toPar h1 h2), v]
  have hr : ∀ z x, (ret p t0 z x).totalDegree ≤ 1 := fun z x =>
    Fsv2.deg_add (Fsv2.deg_ret p.toPar h1 h2 t0 x) (Fsv2.deg_C _)
  have hw : ∀ z' (x : ℝ × ℝ), (aeval (two (vNext1 p.toPar t0 x.1) (vNext2 p.toPar t0 x.2)) (Q z') : Rv).totalDegree
      ≤ 1 := by
    intro z' x
    have : (aeval (two (vNext1 p.toPar t0 x.1) (vNext2 p.toPar t0 x.2)) (Q z') : Rv) =
        C (Fsv2.const p.toPar + z') + C (-Fsv2.beta1 p.toPar) * vNext1 p.toPar t0 x.1 +
          C (-Fsv2.beta2 p.toPar) * vNext2 p.toPar t0 x.2 := by
      simp [hq, Fsv2.Q1, two, MvPolynomial.algebraMap_eq]
      ring
    rw [this]
    exact Fsv2.deg_add (Fsv2.deg_add (Fsv2.deg_C _) (Fsv2.deg_C_mul _ (Fsv2.deg_vNext1 _ _ _)))
      (Fsv2.deg_C_mul _ (Fsv2.deg_vNext2 _ _ _))
  have hx : ∀ f : ℝ → ℝ × ℝ → Rv, (∀ z x, (f z x).totalDegree ≤ 2) →
      expect p γ (compE code p.toPar t0) f = expect p γ E f := by
    intro f hf
    rw [expect, expect]
    congr 1
    funext z
    exact integral_congr_ae (hE.mono fun x hx => (Fsv2.agree2 p.toPar h1 h2 hh t0 x (E x) hx _ (hf z x)).symm)
  simp only [pow_one]
  rw [hx (fun z x => ret p t0 z x) fun z x => (hr z x).trans (by norm_num)]
  congr 3
  funext z'
  exact hx _ fun z x => (totalDegree_mul _ _).trans (add_le_add (hr z x) (hw z' x))

/-- At order 3, moment and central moment are too small by the same amount as without jumps. -/
theorem C53_order3 (p : Par) (hg : p.toPar.Generic) (hh : 0 ≤ p.h) (hl : 0 ≤ p.lam) (t0 : ℝ)
    (E : ℝ × ℝ → Rv →ₗ[ℝ] ℝ) (γ : Measure (ℝ × ℝ)) (hγ : StatLaw p.toPar γ)
    (hE : ∀ᵐ x ∂γ, CondLaw p.toPar t0 x (E x)) :
    (m code 3 p = .ok ((expect p γ E fun z x => ret p t0 z x ^ 3) -
      (gap3 p.k1 p.θ1 p.σ1 p.h + gap3 p.k2 p.θ2 p.σ2 p.h))) ∧
    (cm code 3 p = .ok ((expect p γ E fun z x =>
        (ret p t0 z x - C (expect p γ E fun z x => ret p t0 z x)) ^ 3) -
      (gap3 p.k1 p.θ1 p.σ1 p.h + gap3 p.k2 p.θ2 p.σ2 p.h))) := by
  obtain ⟨h1, h2⟩ := Fsv2.generic_ne hg
  have hlh := mul_nonneg hl hh
  have hc : ∀ᵐ x ∂γ, CompLaw code (3 : ℕ) p.toPar t0 x (compE code p.toPar t0 x) :=
    Filter.Eventually.of_forall fun x => Fsv2.compLaw_compE _ _ _ _ _
  have hm : (expect p γ (compE code p.toPar t0) fun z x => ret p t0 z x) =
      expect p γ E fun z x => ret p t0 z x := by
    rw [mean_val code p h1 h2 hlh t0 E γ hγ (hE.mono fun x hx => Fsv2.compLaw_mono (by norm_num)
      (Fsv2.compLaw_code p.toPar h1 h2 hh t0 x (E x) hx)), mean_val code p h1 h2 hlh t0 _ γ hγ
      (Filter.Eventually.of_forall fun x => Fsv2.compLaw_compE _ _ _ _ _)]
  constructor
  · obtain h | h := C33_m p h1 h2 hlh t0 _ γ hγ 3 hc
    · have := expect_cube p hg hh hlh t0 E γ hγ hE 0
      simp only [map_zero, sub_zero] at this
      rw [h, this, add_sub_cancel_right]
    · exact absurd hg h.2
  · obtain h | h := C33_cm p h1 h2 hlh t0 _ γ hγ 3 hc
    · rw [h, expect_cube p hg hh hlh t0 E γ hγ hE, hm, add_sub_cancel_right]
    · exact absurd hg h.2

/-- For positive parameters the difference is positive: `m(3, par)` and `cm(3, par)` are wrong. -/
theorem C53_order3_wrong (p : Par) (hg : p.toPar.Generic) (k1 : 0 < p.k1) (k2 : 0 < p.k2) (hh : 0 < p.h)
    (θ1 : 0 < p.θ1) (θ2 : 0 < p.θ2) (σ1 : p.σ1 ≠ 0) (σ2 : p.σ2 ≠ 0) (hl : 0 ≤ p.lam) (t0 : ℝ)
    (E : ℝ × ℝ → Rv →ₗ[ℝ] ℝ) (γ : Measure (ℝ × ℝ)) (hγ : StatLaw p.toPar γ)
    (hE : ∀ᵐ x ∂γ, CondLaw p.toPar t0 x (E x)) :
    (∃ v, m code 3 p = .ok v ∧ v < expect p γ E fun z x => ret p t0 z x ^ 3) ∧
    (∃ v, cm code 3 p = .ok v ∧ v < expect p γ E fun z x =>
      (ret p t0 z x - C (expect p γ E fun z x => ret p t0 z x)) ^ 3) := by
  obtain ⟨a, b⟩ := C53_order3 p hg hh.le hl t0 E γ hγ hE
  have g1 := Fsv2.gap3_pos p.k1 p.θ1 p.σ1 p.h k1 θ1 σ1 hh
  have g2 := Fsv2.gap3_pos p.k2 p.θ2 p.σ2 p.h k2 θ2 σ2 hh
  exact ⟨⟨_, a, by linarith⟩, ⟨_, b, by linarith⟩⟩

/-- With the two corrections of `itos_mom` (`Itos.fixed`), and without an integer relation between the
rates, the moments, central moments and covariances of all orders are the ones of the model. -/
theorem C53_corrected (p : Par) (hg : p.toPar.Generic) (hh : 0 ≤ p.h) (hl : 0 ≤ p.lam) (t0 : ℝ)
    (E : ℝ × ℝ → Rv →ₗ[ℝ] ℝ) (γ : Measure (ℝ × ℝ)) (hγ : StatLaw p.toPar γ)
    (hE : ∀ᵐ x ∂γ, CondLaw p.toPar t0 x (E x)) :
    (∀ l, m fixed l p = .ok (expect p γ E fun z x => ret p t0 z x ^ l)) ∧
    (∀ l, cm fixed l p = .ok (expect p γ E fun z x =>
      (ret p t0 z x - C (expect p γ E fun z x => ret p t0 z x)) ^ l)) ∧
    ∀ l1 l2 Q, TruePoly p (t0 + p.h) l2 Q →
      cov fixed l1 l2 p = .ok ((∫ z', expect p γ E (fun z x => ret p t0 z x ^ l1 *
          aeval (two (vNext1 p.toPar t0 x.1) (vNext2 p.toPar t0 x.2)) (Q z')) ∂(jumpLaw p)) -
        (expect p γ E fun z x => ret p t0 z x ^ l1) * (expect p γ E fun z x => ret p t0 z x ^ l2)) := by
  obtain ⟨h1, h2⟩ := Fsv2.generic_ne hg
  have hlh := mul_nonneg hl hh
  have hc : ∀ N, ∀ᵐ x ∂γ, CompLaw fixed N p.toPar t0 x (E x) := fun N =>
    hE.mono fun x hx => Fsv2.compLaw_fixed p.toPar hg hh t0 x (E x) hx N
  refine ⟨fun l => ?_, fun l => ?_, fun l1 l2 Q hQ => ?_⟩
  · obtain ⟨r, e, ks, v⟩ := momentY_val fixed p h1 h2 hlh t0 E γ hγ l (hc _)
    rw [m, e, ok_bind, poly2num_eq r p (Fsv2.not_zeroDiv r 9 ks p.toPar hg), v]
  · obtain ⟨r, e, ks, v⟩ := cmomentY_val fixed p h1 h2 hlh t0 E γ hγ l (hc _)
    rw [cm, e, ok_bind, poly2numC_eq r p (Fsv2.not_zeroDiv r 8 ks p.toPar hg), v]
  · obtain ⟨E', S1, S2, i1, i2, hE', hQ'⟩ := hQ
    obtain ⟨r, e, ks, v⟩ := covYY_val fixed p h1 h2 hlh t0 E γ hγ (hc _) l1 l2 Q
      ⟨E', S1, S2, i1, i2, fun z hz => Fsv2.compLaw_fixed p.toPar hg hh _ z _ (hE' z hz) _, hQ'⟩
    rw [cov, e, ok_bind, poly2num_eq r p (Fsv2.not_zeroDiv r 9 ks p.toPar hg), v]

example : exPar.toPar.Generic ∧ 0 < exPar.h ∧ 0 ≤ exPar.lam ∧ StatLaw exPar.toPar (Fsv2.gammas exPar.toPar) ∧
    (∀ x, CondLaw exPar.toPar 3 x (Fsv2.condE exPar.toPar 3 x)) ∧ ∃ Q, TruePoly exPar (3 + exPar.h) 2 Q := by
  have hg : exPar.toPar.Generic := Fsv2.generic_of_irrational _ rfl irrational_sqrt_two
  obtain ⟨h1, h2⟩ := Fsv2.generic_ne hg
  obtain ⟨Q, hQ⟩ := condPolyJ fixed exPar h1 h2 (3 + exPar.h) 2
  have hh : 0 < exPar.h := by norm_num [exPar, Fsv2.exPar]
  refine ⟨hg, hh, by norm_num [exPar], Fsv2.statLaw_gammas _ ?_ ?_ ?_ ?_ ?_ ?_,
    fun x => Fsv2.condLaw_condE _ _ _, Q, Fsv2.condE exPar.toPar (3 + exPar.h), Set.univ, Set.univ,
    Set.infinite_univ, Set.infinite_univ, fun z _ => Fsv2.condLaw_condE _ _ _,
    fun z v _ => hQ z v _ (Fsv2.compLaw_fixed _ hg hh.le _ _ _ (Fsv2.condLaw_condE _ _ _) _)⟩ <;>
    norm_num [exPar, Fsv2.exPar]

/-! ### C54 derivatives -/

/-- `dm(l, par, wrt)` is the partial derivative of `m(l, par)`, `dcm` of `cm` and `dcov` of `cov`,
wherever no integer combination of the rates vanishes. -/
theorem C54_deriv (wrt : String) (hw : wrt ∈ wrts) (p : Par) (hg : p.toPar.Generic) (l l1 l2 : ℕ) :
    IsDeriv (fun s => m code l (p.set wrt s)) (dm code l p wrt) (p.get wrt) ∧
    IsDeriv (fun s => cm code l (p.set wrt s)) (dcm code l p wrt) (p.get wrt) ∧
    IsDeriv (fun s => cov code l1 l2 (p.set wrt s)) (dcov code l1 l2 p wrt) (p.get wrt) := by
  refine ⟨?_, ?_, ?_⟩
  · obtain ⟨r, e, _, _, _, ks, _⟩ := momentY_spec code l
    obtain ⟨d, ed, hd⟩ := dpoly_spec r ks p (Fsv2.not_zeroDiv r 9 ks p.toPar hg) wrt hw
    simpa only [m, dm, e, ok_bind, ed] using hd
  · obtain ⟨r, e, _, _, _, ks, _⟩ := cmomentY_spec code l
    obtain ⟨d, ed, hd⟩ := dpolyC_spec r ks p (Fsv2.not_zeroDiv r 8 ks p.toPar hg) wrt hw
    simpa only [cm, dcm, e, ok_bind, ed] using hd
  · obtain ⟨r, e, _, _, _, ks, _⟩ := covYY_parts code l1 l2
    obtain ⟨d, ed, hd⟩ := dpoly_spec r ks p (Fsv2.not_zeroDiv r 9 ks p.toPar hg) wrt hw
    simpa only [cov, dcov, e, ok_bind, ed] using hd

/-- The same at every point where the moment itself can be evaluated. -/
theorem C54_deriv_ok (wrt : String) (hw : wrt ∈ wrts) (p : Par) (l l1 l2 : ℕ) :
    (m code l p ≠ .error .zeroDivision →
      IsDeriv (fun s => m code l (p.set wrt s)) (dm code l p wrt) (p.get wrt)) ∧
    (cm code l p ≠ .error .zeroDivision →
      IsDeriv (fun s => cm code l (p.set wrt s)) (dcm code l p wrt) (p.get wrt)) ∧
    (cov code l1 l2 p ≠ .error .zeroDivision →
      IsDeriv (fun s => cov code l1 l2 (p.set wrt s)) (dcov code l1 l2 p wrt) (p.get wrt)) := by
  refine ⟨fun h => ?_, fun h => ?_, fun h => ?_⟩
  · obtain ⟨r, e, _, _, _, ks, _⟩ := momentY_spec code l
    have hz : ¬ ZeroDiv r p.toPar := fun hz => h (by rw [m, e, ok_bind, poly2num, if_pos hz])
    obtain ⟨d, ed, hd⟩ := dpoly_spec r ks p hz wrt hw
    simpa only [m, dm, e, ok_bind, ed] using hd
  · obtain ⟨r, e, _, _, _, ks, _⟩ := cmomentY_spec code l
    have hz : ¬ ZeroDiv r p.toPar := fun hz => h (by rw [cm, e, ok_bind, poly2numC, if_pos hz])
    obtain ⟨d, ed, hd⟩ := dpolyC_spec r ks p hz wrt hw
    simpa only [cm, dcm, e, ok_bind, ed] using hd
  · obtain ⟨r, e, _, _, _, ks, _⟩ := covYY_parts code l1 l2
    have hz : ¬ ZeroDiv r p.toPar := fun hz => h (by rw [cov, e, ok_bind, poly2num, if_pos hz])
    obtain ⟨d, ed, hd⟩ := dpoly_spec r ks p hz wrt hw
    simpa only [cov, dcov, e, ok_bind, ed] using hd

/-- Any other name is refused with `ValueError`. -/
theorem C54_error (wrt : String) (hw : wrt ∉ wrts) (p : Par) (l1 l2 : ℕ) :
    dm code l1 p wrt = .error .valueError ∧ dcm code l1 p wrt = .error .valueError ∧
      dcov code l1 l2 p wrt = .error .valueError := by
  obtain ⟨r, e, _⟩ := momentY_spec code l1
  obtain ⟨r', e', _⟩ := cmomentY_spec code l1
  obtain ⟨r'', e'', _⟩ := covYY_parts code l1 l2
  refine ⟨?_, ?_, ?_⟩
  · rw [dm, e, ok_bind, (dpoly_error r wrt hw).1]; rfl
  · rw [dcm, e', ok_bind, (dpoly_error r' wrt hw).2]; rfl
  · rw [dcov, e'', ok_bind, (dpoly_error r'' wrt hw).1]; rfl

/-- Also for every other Poly whose keys have a non-empty tuple of denominators `(n1, n2, i)` with `i ≥ 0`, and
`i = 0` when `n1 = n2 = 0`, the documented length and no negative powers. -/
theorem C54_dpoly (P : TPoly) (hP : ∀ e ∈ P.items, e.1.d ≠ [] ∧
      (∀ t ∈ e.1.d, DOK t) ∧ e.1.c.length = 9 ∧ ∀ j, 0 ≤ ix e.1.c j)
    (p : Par) (hz : ¬ ZeroDiv P p.toPar) (wrt : String) (hw : wrt ∈ wrts) :
    ∃ d, dpoly P wrt = .ok d ∧
      IsDeriv (fun s => poly2num P (p.set wrt s)) (poly2num d p) (p.get wrt) :=
  dpoly_spec P hP p hz wrt hw

example : ("lambda" ∈ wrts) ∧ ("h" ∉ wrts) ∧ exPar.toPar.Generic ∧
    ∃ P : TPoly, P.items ≠ [] ∧ (∀ e ∈ P.items, e.1.d ≠ [] ∧
      (∀ t ∈ e.1.d, DOK t) ∧ e.1.c.length = 9 ∧ ∀ j, 0 ≤ ix e.1.c j) ∧ ¬ ZeroDiv P exPar.toPar := by
  have hg : exPar.toPar.Generic := Fsv2.generic_of_irrational _ rfl irrational_sqrt_two
  have hk : ∀ e ∈ [((⟨[(1, 2, 3), (0, 1, 1)], (1, 2), [1, 0, 2, 1, 1, 1, 2, 1, 3]⟩ : TKey), (5 : ℚ))],
      e.1.d ≠ [] ∧ (∀ t ∈ e.1.d, DOK t) ∧ e.1.c.length = 9 ∧ ∀ j, 0 ≤ ix e.1.c j := by
    intro e he
    obtain rfl : e = (⟨[(1, 2, 3), (0, 1, 1)], (1, 2), [1, 0, 2, 1, 1, 1, 2, 1, 3]⟩, 5) := by simpa using he
    exact ⟨by simp, by simp [DOK], rfl, Fsv2.nonneg9 _ _ _ _ _ _ _ _ _ (by norm_num)⟩
  exact ⟨by decide, by decide, hg, ⟨kfM, _⟩, by simp, hk, Fsv2.not_zeroDiv ⟨kfM, _⟩ 9 hk _ hg⟩

end Ajd.Fsv2j
