import Verif.Lemmas.Ieziziz2

/-! C42: `mdl_svcj/ieziziz_mom.py`. -/

namespace Ajd
open Poly Ieziziz MeasureTheory ProbabilityTheory

/-- C42. For all orders `moment_ieziziz(a, b, c)` returns a Poly, with the documented keyfor, no zero entry
and non-negative powers only, whose value is the joint moment `E[IEZ_{s,t}^a IZ_{s,t}^b IZ*_{s,t}^c]`, for all
parameters and all `s <= t`. -/
theorem C42_moment_ieziziz (a b c : ℕ) : ∃ r, Ieziziz.moment a b c = .ok r ∧
    r.keyfor = ["e^{kt}", "e^{ks}", "t-s", "k^{-}", "lmbd", "mu_v", "mu_s", "sigma_s"] ∧ r.WF ∧ r.NoZero ∧
    r.Keys (fun K => K.length = 8 ∧ ∀ i, 0 ≤ K.getD i 0) ∧
    ∀ p : Par, p.k ≠ 0 → 0 ≤ p.lmbd → 0 < p.mu_v → ∀ s t : ℝ, s ≤ t →
      Integrable (fun x : ℝ × ℝ × ℝ => x.1 ^ a * x.2.1 ^ b * x.2.2 ^ c)
        (law p.k p.lmbd p.mu_v p.mu_s p.sigma_s s t) ∧
      ev (wZ p s t) r =
        ∫ x, x.1 ^ a * x.2.1 ^ b * x.2.2 ^ c ∂(law p.k p.lmbd p.mu_v p.mu_s p.sigma_s s t) := by
  obtain ⟨r, e, k, w, z, c', v⟩ := moment_spec a b c
  refine ⟨r, e, k, w, z, c', fun p h1 h2 h3 s t hst => ⟨law_int ⟨h1, h2, h3⟩ hst a b c, ?_⟩⟩
  rw [v, aeval_law ⟨h1, h2, h3⟩ hst]
  rfl

/-- C42. `m_ieziziz((a, b, c), par)` is the joint moment over `(0, h]`. -/
theorem C42_m_ieziziz (a b c : ℕ) (p : Par) (hk : p.k ≠ 0) (hl : 0 ≤ p.lmbd) (hm : 0 < p.mu_v) (h : ℝ)
    (hh : 0 ≤ h) : mIeziziz a b c p h =
      .ok (∫ x, x.1 ^ a * x.2.1 ^ b * x.2.2 ^ c ∂(law p.k p.lmbd p.mu_v p.mu_s p.sigma_s 0 h)) := by
  obtain ⟨r, e, -, -, -, -, v⟩ := C42_moment_ieziziz a b c
  rw [mIeziziz, e, ok_bind, poly2num_eq, (v p hk hl hm 0 h hh).2]
  rfl

/-- C42. A negative order raises `ValueError`. -/
theorem C42_negative (a b c : ℤ) (h : a < 0 ∨ b < 0 ∨ c < 0) : Ieziziz.moment a b c = .error .valueError := by
  rw [Ieziziz.moment, if_pos h]

example : Ieziziz.moment 1 1 0 = .ok ⟨kf0, [([1, 0, 1, 1, 2, 2, 0, 0], 1), ([0, 1, 1, 1, 2, 2, 0, 0], -1),
    ([1, 0, 0, 1, 1, 2, 0, 0], 2), ([0, 1, 0, 1, 1, 2, 0, 0], -2)]⟩ := by decide +kernel

example : (1 : ℤ) < 0 ∨ (0 : ℤ) < 0 ∨ (-2 : ℤ) < 0 := by norm_num

/-- parameters that meet the hypotheses -/
example : ∃ p : Par, p.k ≠ 0 ∧ 0 ≤ p.lmbd ∧ 0 < p.mu_v ∧ (0 : ℝ) ≤ 1 :=
  ⟨⟨2, 1, 3, -1, 1⟩, by norm_num, by norm_num, by norm_num, by norm_num⟩

end Ajd
