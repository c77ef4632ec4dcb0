import Verif.Lemmas.Fsv1Deriv

namespace Ajd.Fsv1
open Poly MvPolynomial MeasureTheory ProbabilityTheory

/-! ### C26 moments of the return -/

/-- `cm(l, par)` of `mdl_1fsv/cmom.py` is the `l`-th central moment of the return. -/
theorem C26_cm (p : Par) (hk : p.k ≠ 0) (hh : 0 ≤ p.h) (hρ : 0 ≤ 1 - p.ρ ^ 2) (t0 : ℝ)
    (E : ℝ → Rv →ₗ[ℝ] ℝ) (γ : Measure ℝ) (hγ : StatLaw p γ)
    (hE : ∀ᵐ x ∂γ, CondLaw p t0 x (E x)) (l : ℕ) :
    cm l p = .ok (expect γ E fun x => (ret p t0 x - C (expect γ E (ret p t0))) ^ l) := by
  obtain ⟨r, e, _, _, _, _, v⟩ := cmomentY_spec p hk hh hρ t0 E γ hγ hE l
  rw [mean_ret p hk hh t0 E γ hγ hE, ← v, cm, e, ok_bind, poly2numC_eq]
  rfl

/-- `m(l, par)` of `mdl_1fsv/mom.py` is the `l`-th moment of the return. -/
theorem C26_m (p : Par) (hk : p.k ≠ 0) (hh : 0 ≤ p.h) (hρ : 0 ≤ 1 - p.ρ ^ 2) (t0 : ℝ)
    (E : ℝ → Rv →ₗ[ℝ] ℝ) (γ : Measure ℝ) (hγ : StatLaw p γ)
    (hE : ∀ᵐ x ∂γ, CondLaw p t0 x (E x)) (l : ℕ) :
    m l p = .ok (expect γ E fun x => ret p t0 x ^ l) := by
  obtain ⟨r, e, _, _, _, _, v⟩ := momentY_spec p hk hh hρ t0 E γ hγ hE l
  rw [← v, m, e, ok_bind, poly2num_eq]
  rfl

/-- The Polys returned by `cmoment_y`, `moment_y` never contain a zero value or a repeated key, and
have the documented `keyfor` with keys of that length. -/
theorem C26_keys (l : ℕ) :
    (∃ r, cmomentY l = .ok r ∧ r.keyfor = kfC ∧ r.WF ∧ r.NoZero ∧
      ∀ e ∈ r.items, e.1.length = kfC.length) ∧
    (∃ r, momentY l = .ok r ∧ r.keyfor = kfM ∧ r.WF ∧ r.NoZero ∧
      ∀ e ∈ r.items, e.1.length = kfM.length) := by
  obtain ⟨r, e, k, w, z, ks⟩ := cmomentY_keys l
  obtain ⟨r', e', k', w', z', ks'⟩ := momentY_keys l
  exact ⟨⟨r, e, k, w, z, fun x hx => (ks x hx).1⟩, ⟨r', e', k', w', z', fun x hx => (ks' x hx).1⟩⟩

/-- The hypotheses are met by the stationary gamma law and the solution of the Itô equation. -/
example : ∃ (γ : Measure ℝ) (E : ℝ → Rv →ₗ[ℝ] ℝ),
    StatLaw ⟨1 / 10, 1 / 4, 1 / 10, -7 / 10, 1 / 8, 1⟩ γ ∧
    ∀ x, CondLaw ⟨1 / 10, 1 / 4, 1 / 10, -7 / 10, 1 / 8, 1⟩ 3 x (E x) :=
  ⟨_, condE _ 3, statLaw_gamma _ (by norm_num) (by norm_num) (by norm_num),
    fun x => condLaw_condE _ _ x⟩

/-! ### C27 covariance -/

/-- `cov(l1, l2, par)` of `mdl_1fsv/cov.py` is `cov(y_n^l1, y_{n+1}^l2)`. The conditional moment of
`y_{n+1}^l2` given `v_n = z` is a polynomial `Q` in `z` (see `C27_condPoly`); the law of the next
interval has to be consistent on some infinite set of variances, for instance the non-negative
ones. -/
theorem C27_cov (p : Par) (hk : p.k ≠ 0) (hh : 0 ≤ p.h) (hρ : 0 ≤ 1 - p.ρ ^ 2) (t0 : ℝ)
    (E E' : ℝ → Rv →ₗ[ℝ] ℝ) (γ : Measure ℝ) (hγ : StatLaw p γ)
    (hE : ∀ᵐ x ∂γ, CondLaw p t0 x (E x)) (S : Set ℝ) (hS : S.Infinite)
    (hE' : ∀ z ∈ S, CondLaw p (t0 + p.h) z (E' z)) (l1 l2 : ℕ) (Q : Polynomial ℝ)
    (hQ : ∀ z ∈ S, Q.eval z = E' z (ret p (t0 + p.h) z ^ l2)) :
    cov l1 l2 p = .ok
      ((expect γ E fun x => ret p t0 x ^ l1 * Polynomial.aeval (vNext p t0 x) Q) -
        (expect γ E fun x => ret p t0 x ^ l1) * (expect γ E fun x => ret p t0 x ^ l2)) := by
  obtain ⟨r, e, _, _, _, _, v⟩ := covYY_spec p hk hh hρ t0 E γ hγ hE l1 l2 E' S hS hE' Q hQ
  rw [← v, cov, e, ok_bind, poly2num_eq]
  rfl

/-- The polynomial `C27_cov` asks for exists. -/
theorem C27_condPoly (p : Par) (hk : p.k ≠ 0) (hh : 0 ≤ p.h) (hρ : 0 ≤ 1 - p.ρ ^ 2) (t0 : ℝ)
    (l : ℕ) :
    ∃ Q : Polynomial ℝ, ∀ z E, CondLaw p t0 z E → Q.eval z = E (ret p t0 z ^ l) :=
  condPoly p hk hh hρ t0 l

example : ∃ (γ : Measure ℝ) (E E' : ℝ → Rv →ₗ[ℝ] ℝ) (Q : Polynomial ℝ),
    let p : Par := ⟨1 / 10, 1 / 4, 1 / 10, -7 / 10, 1 / 8, 1⟩
    StatLaw p γ ∧ (∀ x, CondLaw p 3 x (E x)) ∧
    (∀ z ∈ Set.Ici (0 : ℝ), CondLaw p (3 + p.h) z (E' z)) ∧ (Set.Ici (0 : ℝ)).Infinite ∧
    ∀ z ∈ Set.Ici (0 : ℝ), Q.eval z = E' z (ret p (3 + p.h) z ^ 2) := by
  obtain ⟨Q, hQ⟩ := C27_condPoly ⟨1 / 10, 1 / 4, 1 / 10, -7 / 10, 1 / 8, 1⟩ (by norm_num)
    (by norm_num) (by norm_num) (3 + 1) 2
  exact ⟨_, condE _ 3, condE _ (3 + 1), Q,
    statLaw_gamma _ (by norm_num) (by norm_num) (by norm_num),
    fun x => condLaw_condE _ _ x, fun x _ => condLaw_condE _ _ x, Set.Ici_infinite 0,
    fun z _ => hQ z _ (condLaw_condE _ _ _)⟩

/-! ### C28 derivatives -/

/-- `dm(l, par, wrt)` is the partial derivative of `m(l, par)`, `dcm` of `cm` and `dcov` of
`cov`. -/
theorem C28_deriv (wrt : String) (hw : wrt ∈ wrts) :
    (∀ l, ∃ f : Par → ℝ, (∀ p, m l p = .ok (f p)) ∧
      ∀ p, (wrt = "k" → p.k ≠ 0) → (wrt = "rho" → 0 < 1 - p.ρ ^ 2) →
        ∃ d, dm l p wrt = .ok d ∧ HasDerivAt (fun s => f (p.set wrt s)) d (p.get wrt)) ∧
    (∀ l, ∃ f : Par → ℝ, (∀ p, cm l p = .ok (f p)) ∧
      ∀ p, (wrt = "k" → p.k ≠ 0) → (wrt = "rho" → 0 < 1 - p.ρ ^ 2) →
        ∃ d, dcm l p wrt = .ok d ∧ HasDerivAt (fun s => f (p.set wrt s)) d (p.get wrt)) ∧
    (∀ l1 l2, ∃ f : Par → ℝ, (∀ p, cov l1 l2 p = .ok (f p)) ∧
      ∀ p, (wrt = "k" → p.k ≠ 0) → (wrt = "rho" → 0 < 1 - p.ρ ^ 2) →
        ∃ d, dcov l1 l2 p wrt = .ok d ∧ HasDerivAt (fun s => f (p.set wrt s)) d (p.get wrt)) := by
  refine ⟨fun l => ?_, fun l => ?_, fun l1 l2 => ?_⟩
  · obtain ⟨r, e, _, _, _, ks⟩ := momentY_keys l
    refine ⟨poly2num r, fun p => by rw [m, e]; rfl, fun p hk hρ => ?_⟩
    obtain ⟨d, ed, hd⟩ := dpoly_spec r ks p wrt hw hk hρ
    exact ⟨_, by rw [dm, e, ok_bind, ed]; rfl, hd⟩
  · obtain ⟨r, e, _, _, _, ks⟩ := cmomentY_keys l
    refine ⟨poly2numC r, fun p => by rw [cm, e]; rfl, fun p hk hρ => ?_⟩
    obtain ⟨d, ed, hd⟩ := dpolyC_spec r ks p wrt hw hk hρ
    exact ⟨_, by rw [dcm, e, ok_bind, ed]; rfl, hd⟩
  · obtain ⟨r, e, _, _, _, ks⟩ := covYY_keys l1 l2
    refine ⟨poly2num r, fun p => by rw [cov, e]; rfl, fun p hk hρ => ?_⟩
    obtain ⟨d, ed, hd⟩ := dpoly_spec r ks p wrt hw hk hρ
    exact ⟨_, by rw [dcov, e, ok_bind, ed]; rfl, hd⟩

/-- Any other name is refused with `ValueError`. -/
theorem C28_error (wrt : String) (hw : wrt ∉ wrts) (p : Par) (l1 l2 : ℕ) :
    dm l1 p wrt = .error .valueError ∧ dcm l1 p wrt = .error .valueError ∧
      dcov l1 l2 p wrt = .error .valueError := by
  obtain ⟨r, e, _⟩ := momentY_keys l1
  obtain ⟨r', e', _⟩ := cmomentY_keys l1
  obtain ⟨r'', e'', _⟩ := covYY_keys l1 l2
  refine ⟨?_, ?_, ?_⟩
  · rw [dm, e, ok_bind, (dpoly_error r wrt hw).1]; rfl
  · rw [dcm, e', ok_bind, (dpoly_error r' wrt hw).2]; rfl
  · rw [dcov, e'', ok_bind, (dpoly_error r'' wrt hw).1]; rfl

/-- Also for every other Poly with keys of the documented length and no negative powers of `h`,
`mu`, `theta`, `sigma_v`, `rho`. -/
theorem C28_dpoly (P : IPoly) (hP : ∀ e ∈ P.items, e.1.length = 8 ∧
      ∀ i, i ≠ 0 → i ≠ 2 → 0 ≤ ix e.1 i) (p : Par) (wrt : String) (hw : wrt ∈ wrts)
    (hk : wrt = "k" → p.k ≠ 0) (hρ : wrt = "rho" → 0 < 1 - p.ρ ^ 2) :
    ∃ d, dpoly P wrt = .ok d ∧
      HasDerivAt (fun s => poly2num P (p.set wrt s)) (poly2num d p) (p.get wrt) := by
  refine dpoly_spec P (fun e he => ?_) p wrt hw hk hρ
  obtain ⟨h0, h⟩ := hP e he
  exact ⟨h0, h 1 (by simp) (by simp), h 3 (by simp) (by simp), h 4 (by simp) (by simp),
    h 5 (by simp) (by simp), h 6 (by simp) (by simp), h 7 (by simp) (by simp)⟩

example : ("rho" ∈ wrts) ∧ ("h" ∉ wrts) ∧ (0 : ℝ) < 1 - (-7 / 10) ^ 2 ∧
    ∃ P : IPoly, P.items ≠ [] ∧ ∀ e ∈ P.items, e.1.length = 8 ∧
      ∀ i, i ≠ 0 → i ≠ 2 → 0 ≤ ix e.1 i := by
  refine ⟨by decide, by decide, by norm_num, ⟨kfM, [([1, 2, -3, 1, 0, 2, 1, 1], 5)]⟩, by simp, ?_⟩
  intro e he
  obtain rfl : e = ([1, 2, -3, 1, 0, 2, 1, 1], 5) := by simpa using he
  refine ⟨rfl, fun i h0 h2 => ?_⟩
  rcases i with _ | _ | _ | _ | _ | _ | _ | _ | i <;> simp [ix] at *

end Ajd.Fsv1
