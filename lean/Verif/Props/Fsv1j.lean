import Verif.Lemmas.Fsv1jDeriv

namespace Ajd.Fsv1j
open Poly Cpp MvPolynomial MeasureTheory ProbabilityTheory
open Fsv1 (bmVal cVal M8 C7 StatLaw CondLaw Rv vNext)

/-! ### C30 moments of the return with jumps -/

/-- `m(l, par)` of `mdl_1fsvj/mom.py` is the `l`-th moment of the sum of the one-factor return and an
independent compound Poisson variable with normal jumps. -/
theorem C30_m (p : Par) (hk : p.k ≠ 0) (hh : 0 ≤ p.h) (hρ : 0 ≤ 1 - p.ρ ^ 2) (hl : 0 ≤ p.lam)
    (t0 : ℝ) (E : ℝ → Rv →ₗ[ℝ] ℝ) (γ : Measure ℝ) (hγ : StatLaw p.toPar γ)
    (hE : ∀ᵐ x ∂γ, CondLaw p.toPar t0 x (E x)) (l : ℕ) :
    m l p = .ok (expect p γ E fun z x => ret p t0 z x ^ l) := by
  rw [m_val p hk hh hρ hl t0 E γ hγ hE l]

/-- `cm(l, par)` of `mdl_1fsvj/cmom.py` is the `l`-th central moment. -/
theorem C30_cm (p : Par) (hk : p.k ≠ 0) (hh : 0 ≤ p.h) (hρ : 0 ≤ 1 - p.ρ ^ 2) (hl : 0 ≤ p.lam)
    (t0 : ℝ) (E : ℝ → Rv →ₗ[ℝ] ℝ) (γ : Measure ℝ) (hγ : StatLaw p.toPar γ)
    (hE : ∀ᵐ x ∂γ, CondLaw p.toPar t0 x (E x)) (l : ℕ) :
    cm l p = .ok (expect p γ E fun z x =>
      (ret p t0 z x - C (expect p γ E fun z x => ret p t0 z x)) ^ l) :=
  cm_val p hk hh hρ hl t0 E γ hγ hE l

/-- `cov(l1, l2, par)` of `mdl_1fsvj/cov.py` is `cov(y_n^l1, y_{n+1}^l2)`; the jumps of the two
intervals are independent. `Q z` is the conditional moment of `y_{n+1}^l2` given that the jumps of
the second interval sum up to `z`, as a polynomial in `v_n` (compare `Fsv1.C27_cov`). -/
theorem C30_cov (p : Par) (hk : p.k ≠ 0) (hh : 0 ≤ p.h) (hρ : 0 ≤ 1 - p.ρ ^ 2) (hl : 0 ≤ p.lam)
    (t0 : ℝ) (E E' : ℝ → Rv →ₗ[ℝ] ℝ) (γ : Measure ℝ) (hγ : StatLaw p.toPar γ)
    (hE : ∀ᵐ x ∂γ, CondLaw p.toPar t0 x (E x)) (S : Set ℝ) (hS : S.Infinite)
    (hE' : ∀ v ∈ S, CondLaw p.toPar (t0 + p.h) v (E' v)) (l1 l2 : ℕ) (Q : ℝ → Polynomial ℝ)
    (hQ : ∀ z, ∀ v ∈ S, (Q z).eval v = E' v (ret p (t0 + p.h) z v ^ l2)) :
    cov l1 l2 p = .ok
      ((∫ z', expect p γ E (fun z x => ret p t0 z x ^ l1 *
          Polynomial.aeval (vNext p.toPar t0 x) (Q z')) ∂(jumpLaw p)) -
        (expect p γ E fun z x => ret p t0 z x ^ l1) *
          (expect p γ E fun z x => ret p t0 z x ^ l2)) :=
  cov_val p hk hh hρ hl t0 E E' γ hγ hE S hS hE' l1 l2 Q hQ

/-- The polynomials `C30_cov` asks for exist. -/
theorem C30_condPoly (p : Par) (hk : p.k ≠ 0) (hh : 0 ≤ p.h) (hρ : 0 ≤ 1 - p.ρ ^ 2) (t0 : ℝ)
    (l : ℕ) : ∃ Q : ℝ → Polynomial ℝ, ∀ z v E, CondLaw p.toPar t0 v E →
      (Q z).eval v = E (ret p t0 z v ^ l) :=
  condPolyJ p hk hh hρ t0 l

/-- No zero values, no repeated keys, keys as long as `keyfor`. -/
theorem C30_keys (l l2 : ℕ) :
    (∃ r, momentY l = .ok r ∧ r.keyfor = kfM ∧ r.WF ∧ r.NoZero ∧
      ∀ e ∈ r.items, e.1.length = kfM.length) ∧
    (∃ r, cmomentY l = .ok r ∧ r.keyfor = kfC ∧ r.WF ∧ r.NoZero ∧
      ∀ e ∈ r.items, e.1.length = kfC.length) ∧
    (∃ r, covYY l l2 = .ok r ∧ r.keyfor = kfM ∧ r.WF ∧ r.NoZero ∧
      ∀ e ∈ r.items, e.1.length = kfM.length) := by
  obtain ⟨r, e, k, w, z, ks, _⟩ := momentY_spec l
  obtain ⟨r', e', k', w', z', ks', _⟩ := cmomentY_spec l
  obtain ⟨q, f, k2, w2, z2, ks2, _⟩ := covYY_keys l l2
  exact ⟨⟨r, e, k, w, z, fun x hx => (ks x hx).1⟩, ⟨r', e', k', w', z', fun x hx => (ks' x hx).1⟩,
    ⟨q, f, k2, w2, z2, fun x hx => (ks2 x hx).1⟩⟩

example : ∃ (γ : Measure ℝ) (E E' : ℝ → Rv →ₗ[ℝ] ℝ) (Q : ℝ → Polynomial ℝ),
    let p : Par := ⟨⟨1 / 10, 1 / 4, 1 / 10, -7 / 10, 1 / 8, 1⟩, 2, 1 / 3, 1 / 5⟩
    StatLaw p.toPar γ ∧ (∀ x, CondLaw p.toPar 3 x (E x)) ∧
    (∀ v ∈ Set.Ici (0 : ℝ), CondLaw p.toPar (3 + p.h) v (E' v)) ∧ (Set.Ici (0 : ℝ)).Infinite ∧
    ∀ z, ∀ v ∈ Set.Ici (0 : ℝ), (Q z).eval v = E' v (ret p (3 + p.h) z v ^ 2) := by
  obtain ⟨Q, hQ⟩ := C30_condPoly ⟨⟨1 / 10, 1 / 4, 1 / 10, -7 / 10, 1 / 8, 1⟩, 2, 1 / 3, 1 / 5⟩
    (by norm_num) (by norm_num) (by norm_num) (3 + 1) 2
  exact ⟨_, Fsv1.condE _ 3, Fsv1.condE _ (3 + 1), Q,
    Fsv1.statLaw_gamma _ (by norm_num) (by norm_num) (by norm_num),
    fun x => Fsv1.condLaw_condE _ _ x, fun x _ => Fsv1.condLaw_condE _ _ x, Set.Ici_infinite 0,
    fun z v _ => hQ z v _ (Fsv1.condLaw_condE _ _ _)⟩

/-! ### C47 derivatives -/

/-- `dm`, `dcm`, `dcov` are the partial derivatives of `m`, `cm`, `cov`. -/
theorem C47_deriv (wrt : String) (hw : wrt ∈ wrts) :
    (∀ l, ∃ f : Par → ℝ, (∀ p, m l p = .ok (f p)) ∧
      ∀ p, (wrt = "k" → p.k ≠ 0) → (wrt = "rho" → 0 < 1 - p.ρ ^ 2) →
        ∃ d, dm l p wrt = .ok d ∧ HasDerivAt (fun s => f (p.set wrt s)) d (p.get wrt)) ∧
    (∀ l, ∃ f : Par → ℝ, (∀ p, cm l p = .ok (f p)) ∧
      ∀ p, (wrt = "k" → p.k ≠ 0) → (wrt = "rho" → 0 < 1 - p.ρ ^ 2) →
        ∃ d, dcm l p wrt = .ok d ∧ HasDerivAt (fun s => f (p.set wrt s)) d (p.get wrt)) ∧
    (∀ l1 l2, ∃ f : Par → ℝ, (∀ p, cov l1 l2 p = .ok (f p)) ∧
      ∀ p, (wrt = "k" → p.k ≠ 0) → (wrt = "rho" → 0 < 1 - p.ρ ^ 2) →
        ∃ d, dcov l1 l2 p wrt = .ok d ∧ HasDerivAt (fun s => f (p.set wrt s)) d (p.get wrt)) := by
  refine ⟨fun l => ?_, fun l => ?_, fun l1 l2 => ?_⟩
  · obtain ⟨r, e, _, _, _, ks, _⟩ := momentY_spec l
    refine ⟨poly2num r, fun p => by rw [m, e]; rfl, fun p hk hρ => ?_⟩
    obtain ⟨d, ed, hd⟩ := dpoly_spec r ks p wrt hw hk hρ
    exact ⟨_, by rw [dm, e, ok_bind, ed]; rfl, hd⟩
  · obtain ⟨r, e, _, _, _, ks, _⟩ := cmomentY_spec l
    refine ⟨poly2numC r, fun p => by rw [cm, e]; rfl, fun p hk hρ => ?_⟩
    obtain ⟨d, ed, hd⟩ := dpolyC_spec r ks p wrt hw hk hρ
    exact ⟨_, by rw [dcm, e, ok_bind, ed]; rfl, hd⟩
  · obtain ⟨r, e, _, _, _, ks, _⟩ := covYY_keys l1 l2
    refine ⟨poly2num r, fun p => by rw [cov, e]; rfl, fun p hk hρ => ?_⟩
    obtain ⟨d, ed, hd⟩ := dpoly_spec r ks p wrt hw hk hρ
    exact ⟨_, by rw [dcov, e, ok_bind, ed]; rfl, hd⟩

/-- Any other name is refused with `ValueError`. -/
theorem C47_error (wrt : String) (hw : wrt ∉ wrts) (p : Par) (l1 l2 : ℕ) :
    dm l1 p wrt = .error .valueError ∧ dcm l1 p wrt = .error .valueError ∧
      dcov l1 l2 p wrt = .error .valueError := by
  obtain ⟨r, e, _⟩ := momentY_spec l1
  obtain ⟨r', e', _⟩ := cmomentY_spec l1
  obtain ⟨r'', e'', _⟩ := covYY_keys l1 l2
  refine ⟨?_, ?_, ?_⟩
  · rw [dm, e, ok_bind, (dpoly_error r wrt hw).1]; rfl
  · rw [dcm, e', ok_bind, (dpoly_error r' wrt hw).2]; rfl
  · rw [dcov, e'', ok_bind, (dpoly_error r'' wrt hw).1]; rfl

example : ("lambda" ∈ wrts) ∧ ("h" ∉ wrts) ∧ (0 : ℝ) < 1 - (-7 / 10) ^ 2 :=
  ⟨by decide, by decide, by norm_num⟩

end Ajd.Fsv1j
