import Verif.Lemmas.Fsv2Gap

namespace Ajd.Fsv2
open Poly MvPolynomial MeasureTheory ProbabilityTheory Itos

/-! ### C31 moments and covariance, given the Itô moments that `itos_mom` computes -/

/-- `m(l, par)` of `mdl_2fsv/mom.py` is the `l`-th moment of the return, for every expectation whose
joint moments are the ones `itos_mom` computes. It raises only ZeroDivisionError, and that only if an
integer combination of the rates vanishes. -/
theorem C31_m (p : Par) (h1 : p.k1 ≠ 0) (h2 : p.k2 ≠ 0) (t0 : ℝ) (E : ℝ × ℝ → Rv →ₗ[ℝ] ℝ)
    (γ : Measure (ℝ × ℝ)) (hγ : StatLaw p γ) (l : ℕ) (hE : ∀ᵐ x ∂γ, CompLaw code l p t0 x (E x)) :
    m code l p = .ok (expect γ E fun x => ret p t0 x ^ l) ∨
      (m code l p = .error .zeroDivision ∧ ¬ p.Generic) := by
  obtain ⟨r, e, _, _, _, ks, v⟩ := momentY_spec code p h1 h2 t0 E γ hγ l hE
  by_cases hz : ZeroDiv r p
  · right
    exact ⟨by rw [m, e, ok_bind, poly2num, if_pos hz], fun hg => not_zeroDiv r 6 ks p hg hz⟩
  · left
    rw [m, e, ok_bind, poly2num_eq r p hz, v]

/-- `cm(l, par)` of `mdl_2fsv/cmom.py` is the `l`-th central moment of the return, in the same sense. -/
theorem C31_cm (p : Par) (h1 : p.k1 ≠ 0) (h2 : p.k2 ≠ 0) (t0 : ℝ) (E : ℝ × ℝ → Rv →ₗ[ℝ] ℝ)
    (γ : Measure (ℝ × ℝ)) (hγ : StatLaw p γ) (l : ℕ) (hE : ∀ᵐ x ∂γ, CompLaw code l p t0 x (E x)) :
    cm code l p = .ok (expect γ E fun x => (ret p t0 x - C (expect γ E (ret p t0))) ^ l) ∨
      (cm code l p = .error .zeroDivision ∧ ¬ p.Generic) := by
  obtain ⟨r, e, _, _, _, ks, v⟩ := cmomentY_spec code p h1 h2 t0 E γ hγ l hE
  by_cases hz : ZeroDiv r p
  · right
    exact ⟨by rw [cm, e, ok_bind, poly2numC, if_pos hz], fun hg => not_zeroDiv r 5 ks p hg hz⟩
  · left
    rw [cm, e, ok_bind, poly2numC_eq r p hz, v]
    rcases l with _ | l
    · simp
    · rw [mean_ret code p h1 h2 t0 E γ hγ (hE.mono fun x hx => compLaw_mono (by simp) hx)]

/-- `cov(l1, l2, par)` of `mdl_2fsv/cov.py` is `cov(y_n^l1, y_{n+1}^l2)` in the same sense; `Q` is the
conditional moment of `y_{n+1}^l2`, a polynomial in the variances at time `n` (see `C31_condPoly`). -/
theorem C31_cov (p : Par) (h1 : p.k1 ≠ 0) (h2 : p.k2 ≠ 0) (t0 : ℝ) (E : ℝ × ℝ → Rv →ₗ[ℝ] ℝ)
    (γ : Measure (ℝ × ℝ)) (hγ : StatLaw p γ) (hE : ∀ᵐ x ∂γ, CompLaw code ⊤ p t0 x (E x)) (l1 l2 : ℕ)
    (Q : Pol) (hQ : CondPoly code p (t0 + p.h) l2 Q) :
    cov code l1 l2 p = .ok ((expect γ E fun x => ret p t0 x ^ l1 *
          aeval (two (vNext1 p t0 x.1) (vNext2 p t0 x.2)) Q) -
        (expect γ E fun x => ret p t0 x ^ l1) * (expect γ E fun x => ret p t0 x ^ l2)) ∨
      (cov code l1 l2 p = .error .zeroDivision ∧ ¬ p.Generic) := by
  obtain ⟨r, e, _, _, _, ks, v⟩ := covYY_spec code p h1 h2 t0 E γ hγ hE l1 l2 Q hQ
  by_cases hz : ZeroDiv r p
  · right
    exact ⟨by rw [cov, e, ok_bind, poly2num, if_pos hz], fun hg => not_zeroDiv r 6 ks p hg hz⟩
  · left
    rw [cov, e, ok_bind, poly2num_eq r p hz, v]

/-- The polynomial `C31_cov` asks for exists. -/
theorem C31_condPoly (p : Par) (h1 : p.k1 ≠ 0) (h2 : p.k2 ≠ 0) (t1 : ℝ) (l : ℕ) :
    ∃ Q : Pol, CondPoly code p t1 l Q ∧
      ∀ z E, CompLaw code ⊤ p t1 z E → eval (two z.1 z.2) Q = E (ret p t1 z ^ l) := by
  obtain ⟨Q, hQ⟩ := condPoly code p h1 h2 t1 l
  exact ⟨Q, ⟨compE code p t1, Set.univ, Set.univ, Set.infinite_univ, Set.infinite_univ,
    fun z _ => compLaw_compE _ _ _ _ _, fun z _ => hQ z _ (compLaw_compE _ _ _ _ _)⟩, hQ⟩

/-- `moment_y`, `cmoment_y` and `cov_yy` never raise; their Polys contain no zero value and no repeated
key, have the documented `keyfor`, keys of that length, and no negative power. -/
theorem C31_keys (l l1 l2 : ℕ) :
    (∃ r, momentY code l = .ok r ∧ r.keyfor = kfM ∧ r.WF ∧ r.NoZero ∧
      ∀ e ∈ r.items, e.1.c.length + 2 = kfM.length ∧ ∀ j, 0 ≤ ix e.1.c j) ∧
    (∃ r, cmomentY code l = .ok r ∧ r.keyfor = kfC ∧ r.WF ∧ r.NoZero ∧
      ∀ e ∈ r.items, e.1.c.length + 2 = kfC.length ∧ ∀ j, 0 ≤ ix e.1.c j) ∧
    (∃ r, covYY code l1 l2 = .ok r ∧ r.keyfor = kfM ∧ r.WF ∧ r.NoZero ∧
      ∀ e ∈ r.items, e.1.c.length + 2 = kfM.length ∧ ∀ j, 0 ≤ ix e.1.c j) := by
  obtain ⟨r, e, k, w, z, ks⟩ := momentY_keys code l
  obtain ⟨r', e', k', w', z', ks'⟩ := cmomentY_keys code l
  obtain ⟨r'', e'', k'', w'', z'', ks''⟩ := covYY_keys code l1 l2
  exact ⟨⟨r, e, k, w, z, fun x hx => ⟨by rw [(ks x hx).2.2.1]; rfl, (ks x hx).2.2.2⟩⟩,
    ⟨r', e', k', w', z', fun x hx => ⟨by rw [(ks' x hx).2.2.1]; rfl, (ks' x hx).2.2.2⟩⟩,
    ⟨r'', e'', k'', w'', z'', fun x hx => ⟨by rw [(ks'' x hx).2.2.1]; rfl, (ks'' x hx).2.2.2⟩⟩⟩

/-- rates without a relation exist: `1` and an irrational -/
theorem generic_of_irrational (p : Par) (h1 : p.k1 = 1) (h2 : Irrational p.k2) : p.Generic := by
  intro a b hr
  rw [h1, mul_one] at hr
  by_cases hb : b = 0
  · subst hb
    simp only [Int.cast_zero, zero_mul, add_zero, Int.cast_eq_zero] at hr
    exact ⟨hr, rfl⟩
  · exfalso
    have hb' : (b : ℝ) ≠ 0 := by exact_mod_cast hb
    apply h2
    refine ⟨-(a : ℚ) / b, ?_⟩
    push_cast
    field_simp
    linarith

/-- the parameters of the examples -/
noncomputable def exPar : Par := ⟨1, Real.sqrt 2, 1, 1 / 8, 1 / 4, 1 / 10, 1 / 5, 1 / 20⟩

/-- The hypotheses are met: the stationary gamma laws and the functional with the computed moments. -/
example : exPar.Generic ∧ exPar.k1 ≠ 0 ∧ exPar.k2 ≠ 0 ∧ StatLaw exPar (gammas exPar) ∧
    (∀ x, CompLaw code ⊤ exPar 3 x (compE code exPar 3 x)) ∧ ∃ Q, CondPoly code exPar (3 + exPar.h) 2 Q := by
  have hg : exPar.Generic := generic_of_irrational _ rfl irrational_sqrt_two
  obtain ⟨Q, hQ, _⟩ := C31_condPoly exPar (generic_ne hg).1 (generic_ne hg).2 (3 + exPar.h) 2
  exact ⟨hg, (generic_ne hg).1, (generic_ne hg).2, statLaw_gammas _ (by norm_num [exPar])
    (by simp [exPar]) (by norm_num [exPar]) (by norm_num [exPar]) (by norm_num [exPar]) (by norm_num [exPar]),
    fun x => compLaw_compE _ _ _ _ _, Q, hQ⟩

/-! ### C52 the moments of the model itself -/

/-- Up to order 2 the moments and central moments are the ones of the model (`CondLaw`: the Itô moment
equation). Missing: the statement is false at order 3, see `C52_order3`, because of the errors in
`itos_mom` (`C22_moment_error`). -/
theorem C52_moments_partial (p : Par) (h1 : p.k1 ≠ 0) (h2 : p.k2 ≠ 0) (hh : 0 ≤ p.h) (t0 : ℝ)
    (E : ℝ × ℝ → Rv →ₗ[ℝ] ℝ) (γ : Measure (ℝ × ℝ)) (hγ : StatLaw p γ)
    (hE : ∀ᵐ x ∂γ, CondLaw p t0 x (E x)) (l : ℕ) (hl : l ≤ 2) :
    m code l p = .ok (expect γ E fun x => ret p t0 x ^ l) ∧
    cm code l p = .ok (expect γ E fun x => (ret p t0 x - C (expect γ E (ret p t0))) ^ l) := by
  have hE' : ∀ᵐ x ∂γ, CompLaw code 2 p t0 x (E x) := hE.mono fun x hx => compLaw_code p h1 h2 hh t0 x (E x) hx
  have hl' : (l : ℕ∞) ≤ 2 := by exact_mod_cast hl
  have hs : Separate (momentY code l) = true ∧ Separate (cmomentY code l) = true := by
    obtain rfl | rfl | rfl : l = 0 ∨ l = 1 ∨ l = 2 := by omega
    · exact ⟨by decide +kernel, by decide +kernel⟩
    · exact ⟨by decide +kernel, by decide +kernel⟩
    · exact ⟨by decide +kernel, by decide +kernel⟩
  obtain ⟨r, e, _, _, _, ks, v⟩ := momentY_spec code p h1 h2 t0 E γ hγ l
    (hE'.mono fun x hx => compLaw_mono hl' hx)
  obtain ⟨r', e', _, _, _, ks', v'⟩ := cmomentY_spec code p h1 h2 t0 E γ hγ l
    (hE'.mono fun x hx => compLaw_mono hl' hx)
  rw [e, e'] at hs
  constructor
  · rw [m, e, ok_bind, poly2num_eq r p (not_zeroDiv_separate r 6 ks hs.1 p h1 h2), v]
  · rw [cm, e', ok_bind, poly2numC_eq r' p (not_zeroDiv_separate r' 5 ks' hs.2 p h1 h2), v',
      mean_ret code p h1 h2 t0 E γ hγ (hE'.mono fun x hx => compLaw_mono (by norm_num) hx)]

/-- `cov(1, 1, par)` is the autocovariance of the return. Missing: higher orders. -/
theorem C52_cov_partial (p : Par) (h1 : p.k1 ≠ 0) (h2 : p.k2 ≠ 0) (hh : 0 ≤ p.h) (t0 : ℝ)
    (E : ℝ × ℝ → Rv →ₗ[ℝ] ℝ) (γ : Measure (ℝ × ℝ)) (hγ : StatLaw p γ)
    (hE : ∀ᵐ x ∂γ, CondLaw p t0 x (E x)) (Q : Pol) (hQ : TruePoly p (t0 + p.h) 1 Q) :
    cov code 1 1 p = .ok ((expect γ E fun x => ret p t0 x *
          aeval (two (vNext1 p t0 x.1) (vNext2 p t0 x.2)) Q) -
        (expect γ E fun x => ret p t0 x) * (expect γ E fun x => ret p t0 x)) := by
  obtain ⟨E', S1, S2, i1, i2, hE', hQ'⟩ := hQ
  have hq : Q = Q1 p := by
    apply pol_ext S1 S2 i1 i2
    intro z hz
    rw [hQ' z hz, pow_one, eval_Q1, cond_mean code p h1 h2 (t0 + p.h) z (E' z)
      (compLaw_mono (by norm_num) (compLaw_code p h1 h2 hh _ z _ (hE' z hz)))]
  subst hq
  obtain ⟨r, e, ks, v⟩ := covYY11 p h1 h2 hh t0 E γ hγ hE
  have hs : Separate (covYY code 1 1) = true := by decide +kernel
  rw [e] at hs
  rw [cov, e, ok_bind, poly2num_eq r p (not_zeroDiv_separate r 6 ks hs p h1 h2), v]

/-- At order 3, moment and central moment are too small by the same amount, a sum over the two factors. -/
theorem C52_order3 (p : Par) (hg : p.Generic) (hh : 0 ≤ p.h) (t0 : ℝ)
    (E : ℝ × ℝ → Rv →ₗ[ℝ] ℝ) (γ : Measure (ℝ × ℝ)) (hγ : StatLaw p γ)
    (hE : ∀ᵐ x ∂γ, CondLaw p t0 x (E x)) :
    (m code 3 p = .ok ((expect γ E fun x => ret p t0 x ^ 3) -
      (gap3 p.k1 p.θ1 p.σ1 p.h + gap3 p.k2 p.θ2 p.σ2 p.h))) ∧
    (cm code 3 p = .ok ((expect γ E fun x => (ret p t0 x - C (expect γ E (ret p t0))) ^ 3) -
      (gap3 p.k1 p.θ1 p.σ1 p.h + gap3 p.k2 p.θ2 p.σ2 p.h))) := by
  obtain ⟨h1, h2⟩ := generic_ne hg
  have hc : ∀ᵐ x ∂γ, CompLaw code (3 : ℕ) p t0 x (compE code p t0 x) :=
    Filter.Eventually.of_forall fun x => compLaw_compE _ _ _ _ _
  have hm : expect γ (compE code p t0) (ret p t0) = expect γ E (ret p t0) := by
    rw [mean_ret code p h1 h2 t0 E γ hγ (hE.mono fun x hx => compLaw_mono (by norm_num)
      (compLaw_code p h1 h2 hh t0 x (E x) hx)), mean_ret code p h1 h2 t0 _ γ hγ
      (Filter.Eventually.of_forall fun x => compLaw_compE _ _ _ _ _)]
  constructor
  · obtain h | h := C31_m p h1 h2 t0 _ γ hγ 3 hc
    · have := expect_cube p h1 h2 hh t0 E γ hγ hE 0
      simp only [map_zero, sub_zero] at this
      rw [h, this, add_sub_cancel_right]
    · exact absurd hg h.2
  · obtain h | h := C31_cm p h1 h2 t0 _ γ hγ 3 hc
    · rw [h, expect_cube p h1 h2 hh t0 E γ hγ hE, hm, add_sub_cancel_right]
    · exact absurd hg h.2

/-- For positive parameters the difference is positive: `m(3, par)` and `cm(3, par)` are wrong. -/
theorem C52_order3_wrong (p : Par) (hg : p.Generic) (k1 : 0 < p.k1) (k2 : 0 < p.k2) (hh : 0 < p.h)
    (θ1 : 0 < p.θ1) (θ2 : 0 < p.θ2) (σ1 : p.σ1 ≠ 0) (σ2 : p.σ2 ≠ 0) (t0 : ℝ)
    (E : ℝ × ℝ → Rv →ₗ[ℝ] ℝ) (γ : Measure (ℝ × ℝ)) (hγ : StatLaw p γ)
    (hE : ∀ᵐ x ∂γ, CondLaw p t0 x (E x)) :
    (∃ v, m code 3 p = .ok v ∧ v < expect γ E fun x => ret p t0 x ^ 3) ∧
    (∃ v, cm code 3 p = .ok v ∧ v < expect γ E fun x => (ret p t0 x - C (expect γ E (ret p t0))) ^ 3) := by
  obtain ⟨a, b⟩ := C52_order3 p hg hh.le t0 E γ hγ hE
  have g1 := gap3_pos p.k1 p.θ1 p.σ1 p.h k1 θ1 σ1 hh
  have g2 := gap3_pos p.k2 p.θ2 p.σ2 p.h k2 θ2 σ2 hh
  exact ⟨⟨_, a, by linarith⟩, ⟨_, b, by linarith⟩⟩

/-- With the two corrections of `itos_mom` (`Itos.fixed`), and without an integer relation between the
rates, the moments, central moments and covariances of all orders are the ones of the model. -/
theorem C52_corrected (p : Par) (hg : p.Generic) (hh : 0 ≤ p.h) (t0 : ℝ)
    (E : ℝ × ℝ → Rv →ₗ[ℝ] ℝ) (γ : Measure (ℝ × ℝ)) (hγ : StatLaw p γ)
    (hE : ∀ᵐ x ∂γ, CondLaw p t0 x (E x)) :
    (∀ l, m fixed l p = .ok (expect γ E fun x => ret p t0 x ^ l)) ∧
    (∀ l, cm fixed l p = .ok (expect γ E fun x => (ret p t0 x - C (expect γ E (ret p t0))) ^ l)) ∧
    ∀ l1 l2 Q, TruePoly p (t0 + p.h) l2 Q →
      cov fixed l1 l2 p = .ok ((expect γ E fun x => ret p t0 x ^ l1 *
          aeval (two (vNext1 p t0 x.1) (vNext2 p t0 x.2)) Q) -
        (expect γ E fun x => ret p t0 x ^ l1) * (expect γ E fun x => ret p t0 x ^ l2)) := by
  obtain ⟨h1, h2⟩ := generic_ne hg
  have hc : ∀ N, ∀ᵐ x ∂γ, CompLaw fixed N p t0 x (E x) := fun N =>
    hE.mono fun x hx => compLaw_fixed p hg hh t0 x (E x) hx N
  refine ⟨fun l => ?_, fun l => ?_, fun l1 l2 Q hQ => ?_⟩
  · obtain ⟨r, e, _, _, _, ks, v⟩ := momentY_spec fixed p h1 h2 t0 E γ hγ l (hc _)
    rw [m, e, ok_bind, poly2num_eq r p (not_zeroDiv r 6 ks p hg), v]
  · obtain ⟨r, e, _, _, _, ks, v⟩ := cmomentY_spec fixed p h1 h2 t0 E γ hγ l (hc _)
    rw [cm, e, ok_bind, poly2numC_eq r p (not_zeroDiv r 5 ks p hg), v,
      mean_ret fixed p h1 h2 t0 E γ hγ (hc _)]
  · obtain ⟨E', S1, S2, i1, i2, hE', hQ'⟩ := hQ
    obtain ⟨r, e, _, _, _, ks, v⟩ := covYY_spec fixed p h1 h2 t0 E γ hγ (hc _) l1 l2 Q
      ⟨E', S1, S2, i1, i2, fun z hz => compLaw_fixed p hg hh _ z _ (hE' z hz) _, hQ'⟩
    rw [cov, e, ok_bind, poly2num_eq r p (not_zeroDiv r 6 ks p hg), v]

/-- The hypotheses are met by the gamma laws and the solution of the Itô moment equation. -/
example : exPar.Generic ∧ 0 ≤ exPar.h ∧ StatLaw exPar (gammas exPar) ∧
    (∀ x, CondLaw exPar 3 x (condE exPar 3 x)) ∧ ∃ Q, TruePoly exPar (3 + exPar.h) 2 Q := by
  have hg : exPar.Generic := generic_of_irrational _ rfl irrational_sqrt_two
  obtain ⟨Q, hQ⟩ := condPoly fixed exPar (generic_ne hg).1 (generic_ne hg).2 (3 + exPar.h) 2
  have hh : 0 ≤ exPar.h := by norm_num [exPar]
  exact ⟨hg, hh, statLaw_gammas _ (by norm_num [exPar])
    (by simp [exPar]) (by norm_num [exPar]) (by norm_num [exPar]) (by norm_num [exPar]) (by norm_num [exPar]),
    fun x => condLaw_condE _ _ _, Q, condE exPar (3 + exPar.h), Set.univ, Set.univ, Set.infinite_univ,
    Set.infinite_univ, fun z _ => condLaw_condE _ _ _,
    fun z _ => hQ z _ (compLaw_fixed _ hg hh _ _ _ (condLaw_condE _ _ _) _)⟩

/-! ### C32 derivatives -/

/-- `dm(l, par, wrt)` is the partial derivative of `m(l, par)`, `dcm` of `cm` and `dcov` of `cov`,
wherever no integer combination of the rates vanishes. -/
theorem C32_deriv (wrt : String) (hw : wrt ∈ wrts) (p : Par) (hg : p.Generic) (l l1 l2 : ℕ) :
    IsDeriv (fun s => m code l (p.set wrt s)) (dm code l p wrt) (p.get wrt) ∧
    IsDeriv (fun s => cm code l (p.set wrt s)) (dcm code l p wrt) (p.get wrt) ∧
    IsDeriv (fun s => cov code l1 l2 (p.set wrt s)) (dcov code l1 l2 p wrt) (p.get wrt) := by
  refine ⟨?_, ?_, ?_⟩
  · obtain ⟨r, e, _, _, _, ks⟩ := momentY_keys code l
    obtain ⟨d, ed, hd⟩ := dpoly_spec r ks p (not_zeroDiv r 6 ks p hg) wrt hw
    simpa only [m, dm, e, ok_bind, ed] using hd
  · obtain ⟨r, e, _, _, _, ks⟩ := cmomentY_keys code l
    obtain ⟨d, ed, hd⟩ := dpolyC_spec r ks p (not_zeroDiv r 5 ks p hg) wrt hw
    simpa only [cm, dcm, e, ok_bind, ed] using hd
  · obtain ⟨r, e, _, _, _, ks⟩ := covYY_keys code l1 l2
    obtain ⟨d, ed, hd⟩ := dpoly_spec r ks p (not_zeroDiv r 6 ks p hg) wrt hw
    simpa only [cov, dcov, e, ok_bind, ed] using hd

/-- The same at every point where the moment itself can be evaluated. -/
theorem C32_deriv_ok (wrt : String) (hw : wrt ∈ wrts) (p : Par) (l l1 l2 : ℕ) :
    (m code l p ≠ .error .zeroDivision →
      IsDeriv (fun s => m code l (p.set wrt s)) (dm code l p wrt) (p.get wrt)) ∧
    (cm code l p ≠ .error .zeroDivision →
      IsDeriv (fun s => cm code l (p.set wrt s)) (dcm code l p wrt) (p.get wrt)) ∧
    (cov code l1 l2 p ≠ .error .zeroDivision →
      IsDeriv (fun s => cov code l1 l2 (p.set wrt s)) (dcov code l1 l2 p wrt) (p.get wrt)) := by
  refine ⟨fun h => ?_, fun h => ?_, fun h => ?_⟩
  · obtain ⟨r, e, _, _, _, ks⟩ := momentY_keys code l
    have hz : ¬ ZeroDiv r p := fun hz => h (by rw [m, e, ok_bind, poly2num, if_pos hz])
    obtain ⟨d, ed, hd⟩ := dpoly_spec r ks p hz wrt hw
    simpa only [m, dm, e, ok_bind, ed] using hd
  · obtain ⟨r, e, _, _, _, ks⟩ := cmomentY_keys code l
    have hz : ¬ ZeroDiv r p := fun hz => h (by rw [cm, e, ok_bind, poly2numC, if_pos hz])
    obtain ⟨d, ed, hd⟩ := dpolyC_spec r ks p hz wrt hw
    simpa only [cm, dcm, e, ok_bind, ed] using hd
  · obtain ⟨r, e, _, _, _, ks⟩ := covYY_keys code l1 l2
    have hz : ¬ ZeroDiv r p := fun hz => h (by rw [cov, e, ok_bind, poly2num, if_pos hz])
    obtain ⟨d, ed, hd⟩ := dpoly_spec r ks p hz wrt hw
    simpa only [cov, dcov, e, ok_bind, ed] using hd

/-- Any other name is refused with `ValueError`. -/
theorem C32_error (wrt : String) (hw : wrt ∉ wrts) (p : Par) (l1 l2 : ℕ) :
    dm code l1 p wrt = .error .valueError ∧ dcm code l1 p wrt = .error .valueError ∧
      dcov code l1 l2 p wrt = .error .valueError := by
  obtain ⟨r, e, _⟩ := momentY_keys code l1
  obtain ⟨r', e', _⟩ := cmomentY_keys code l1
  obtain ⟨r'', e'', _⟩ := covYY_keys code l1 l2
  refine ⟨?_, ?_, ?_⟩
  · rw [dm, e, ok_bind, (dpoly_error r wrt hw).1]; rfl
  · rw [dcm, e', ok_bind, (dpoly_error r' wrt hw).2]; rfl
  · rw [dcov, e'', ok_bind, (dpoly_error r'' wrt hw).1]; rfl

/-- Also for every other Poly whose keys have a non-empty tuple of denominators `(n1, n2, i)` with `i ≥ 0`, and
`i = 0` when `n1 = n2 = 0`, the documented length and no negative powers. -/
theorem C32_dpoly (P : TPoly) (hP : ∀ e ∈ P.items, e.1.d ≠ [] ∧
      (∀ t ∈ e.1.d, DOK t) ∧ e.1.c.length = 6 ∧ ∀ j, 0 ≤ ix e.1.c j)
    (p : Par) (hz : ¬ ZeroDiv P p) (wrt : String) (hw : wrt ∈ wrts) :
    ∃ d, dpoly P wrt = .ok d ∧
      IsDeriv (fun s => poly2num P (p.set wrt s)) (poly2num d p) (p.get wrt) :=
  dpoly_spec P hP p hz wrt hw

example : ("sigma_v2" ∈ wrts) ∧ ("h" ∉ wrts) ∧ exPar.Generic ∧
    ∃ P : TPoly, P.items ≠ [] ∧ (∀ e ∈ P.items, e.1.d ≠ [] ∧
      (∀ t ∈ e.1.d, DOK t) ∧ e.1.c.length = 6 ∧ ∀ j, 0 ≤ ix e.1.c j) ∧ ¬ ZeroDiv P exPar := by
  have hg : exPar.Generic := generic_of_irrational _ rfl irrational_sqrt_two
  refine ⟨by decide, by decide, hg, ⟨kfM, [(⟨[(1, 2, 3), (0, 1, 1)], (1, 2), [1, 0, 2, 1, 1, 1]⟩, 5)]⟩, by simp, ?_, ?_⟩
  · intro e he
    obtain rfl : e = (⟨[(1, 2, 3), (0, 1, 1)], (1, 2), [1, 0, 2, 1, 1, 1]⟩, 5) := by simpa using he
    refine ⟨by simp, by simp [DOK], rfl, fun i => ?_⟩
    rcases i with _ | _ | _ | _ | _ | _ | i <;> simp [ix]
  · apply not_zeroDiv _ 6 _ _ hg
    intro e he
    obtain rfl : e = (⟨[(1, 2, 3), (0, 1, 1)], (1, 2), [1, 0, 2, 1, 1, 1]⟩, 5) := by simpa using he
    refine ⟨by simp, by simp [DOK], rfl, fun i => ?_⟩
    rcases i with _ | _ | _ | _ | _ | _ | i <;> simp [ix]

end Ajd.Fsv2
