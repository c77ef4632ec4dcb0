import Verif.Lemmas.SrjdIez

/-! C34: moments of the compound Poisson integral `IEZ_{s,t}`. -/

namespace Ajd.Srjd
open Poly MeasureTheory ProbabilityTheory

/-- C34. `moment_IEZ(n)` raises nothing, has the documented keyfor, and evaluates for all parameters and
all `s ≤ t` to the `n`-th moment of the compound Poisson integral with exponential jumps. -/
theorem C34_moment_IEZ (n : ℕ) : ∃ r, momentIEZ n = .ok r ∧
    r.keyfor = ["e^{kt}", "e^{ks}", "k^{-}", "lmbd", "mu_v"] ∧ r.WF ∧
    r.Keys (fun K => K.length = 5 ∧ ∀ i, 0 ≤ K.getD i 0) ∧
    ∀ p : ZPar, p.k ≠ 0 → 0 ≤ p.lmbd → 0 < p.mu_v → p.s ≤ p.t →
      ev (wZ p) r = ∫ x, x ^ n ∂(iezLaw p.k p.lmbd p.mu_v p.s p.t) := by
  obtain ⟨r, h1, h2, h3, h4, h5⟩ := momentIEZ_spec n
  exact ⟨r, h1, h2, h3, h4, fun p a b c d => h5 p ⟨a, b, c, d⟩⟩

/-- C34. `cmoment_IEZ(n)` is in the same way the `n`-th central moment. -/
theorem C34_cmoment_IEZ (n : ℕ) : ∃ r, cmomentIEZ n = .ok r ∧
    r.keyfor = ["e^{kt}", "e^{ks}", "k^{-}", "lmbd", "mu_v"] ∧ r.WF ∧
    r.Keys (fun K => K.length = 5 ∧ ∀ i, 0 ≤ K.getD i 0) ∧
    ∀ p : ZPar, p.k ≠ 0 → 0 ≤ p.lmbd → 0 < p.mu_v → p.s ≤ p.t →
      ev (wZ p) r = ∫ x, (x - ∫ y, y ∂(iezLaw p.k p.lmbd p.mu_v p.s p.t)) ^ n
        ∂(iezLaw p.k p.lmbd p.mu_v p.s p.t) := by
  obtain ⟨r, h1, h2, h3, h4, h5⟩ := cmomentIEZ_spec n
  exact ⟨r, h1, h2, h3, h4, fun p a b c d => h5 p ⟨a, b, c, d⟩⟩

/-- C34. A negative order raises `ValueError`. -/
theorem C34_negative (n : ℤ) (hn : n < 0) :
    momentIEZ n = .error .valueError ∧ cmomentIEZ n = .error .valueError := by
  rw [momentIEZ, cmomentIEZ, if_pos hn, if_pos hn]
  exact ⟨rfl, rfl⟩

/-- C34. `m(n, par)` returns the moment. -/
theorem C34_m (n : ℕ) (p : ZPar) (hk : p.k ≠ 0) (hl : 0 ≤ p.lmbd) (hm : 0 < p.mu_v) (h : p.s ≤ p.t) :
    mIEZ n p = .ok (∫ x, x ^ n ∂(iezLaw p.k p.lmbd p.mu_v p.s p.t)) := by
  obtain ⟨r, h1, -, -, -, h5⟩ := momentIEZ_spec n
  rw [mIEZ, h1, ok_bind, poly2num_eq, h5 p ⟨hk, hl, hm, h⟩]
  rfl

/-- C34 fails for `iez_cmom.cm(n, par)`: it raises `TypeError` for every order and all parameters, since
`poly2num` is called without `par`. -/
theorem C34_cm_raises (n : ℕ) (p : ZPar) : cmIEZ n p = .error .typeError := by
  obtain ⟨r, h1, -⟩ := cmomentIEZ_spec n
  rw [cmIEZ, h1, ok_bind]

/-- The specified law is a probability with all moments, so the integrals above are no default values. -/
theorem C34_law (k lam μ s t : ℝ) (hk : k ≠ 0) (hl : 0 ≤ lam) (hm : 0 < μ) (h : s ≤ t) :
    IsProbabilityMeasure (iezLaw k lam μ s t) ∧
    ∀ n : ℕ, Integrable (fun x : ℝ => x ^ n) (iezLaw k lam μ s t) :=
  ⟨law_prob (p := ⟨k, lam, μ, s, t⟩) ⟨hk, hl, hm, h⟩,
    law_int (p := ⟨k, lam, μ, s, t⟩) ⟨hk, hl, hm, h⟩⟩

example : momentIEZ 2 = .ok ⟨["e^{kt}", "e^{ks}", "k^{-}", "lmbd", "mu_v"],
    [([2, 0, 2, 2, 2], 1), ([1, 1, 2, 2, 2], -2), ([0, 2, 2, 2, 2], 1), ([2, 0, 1, 1, 2], 1),
      ([0, 2, 1, 1, 2], -1)]⟩ := by decide +kernel
example : cmomentIEZ 3 = .ok ⟨["e^{kt}", "e^{ks}", "k^{-}", "lmbd", "mu_v"],
    [([3, 0, 1, 1, 3], 2), ([0, 3, 1, 1, 3], -2)]⟩ := by decide +kernel
example : ∃ p : ZPar, p.k ≠ 0 ∧ 0 ≤ p.lmbd ∧ 0 < p.mu_v ∧ p.s ≤ p.t :=
  ⟨⟨1, 2, 3, 0, 1⟩, by norm_num⟩
example : ∃ p : ZPar, 0 < p.lmbd ∧
    mIEZ 1 p = .ok (p.lmbd * p.mu_v * (Real.exp p.t - Real.exp p.s)) := by
  refine ⟨⟨1, 2, 3, 0, 1⟩, by norm_num, ?_⟩
  simp only [mIEZ, momentIEZ, poly2num, wZ]
  norm_num [ix]
  ring_nf

end Ajd.Srjd
