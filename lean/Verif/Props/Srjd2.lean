import Verif.Lemmas.SrjdJoint2

/-! C35: joint moments of the diffusion and the jump integral. -/

namespace Ajd.Srjd
open Poly

/-- C35. `moment_ie_iez(n1, n2)` raises nothing for all orders and evaluates for all parameters and times
to the solution of the documented recursion, the moments of the jump integral being those of its law. It
carries the documented keyfor except for `(2, 0)`. `d` bounds the depth of the recursion of python. -/
theorem C35_moment_ie_iez_partial (d n1 n2 : ℕ) (hd : n1 + n2 ≤ d) (h2 : 2 ≤ d) :
    ∃ r, momentJoint rawCfg d n1 n2 = .ok r ∧
      ((n1, n2) ≠ (2, 0) →
        r.keyfor = ["e^{kt}", "k^{-}", "v0-theta", "theta", "sigma", "lmbd", "mu_v"]) ∧
      r.WF ∧ r.Keys (fun K => K.length = 7 ∧ ∀ i, 0 ≤ K.getD i 0) ∧
      ∀ p : Par, p.k ≠ 0 → 0 ≤ p.lmbd → 0 < p.mu_v → 0 ≤ p.h →
        poly2numI r p = jointMom p.k (p.v0 - p.theta) p.theta p.sigma (rawZ p.k p.lmbd p.mu_v)
          n1 n2 p.h := by
  obtain ⟨r, e, k, g1, g2, g3⟩ := momentJoint_spec rawCfg_ok d n1 n2 hd h2
  refine ⟨r, e, fun h => k fun h' => h (by rw [h'.1, h'.2]), g1, fun x hx => (g2 x hx).1, fun p a b c d => ?_⟩
  rw [poly2numI_eq, g3 p ⟨a, b, c⟩ _ _ _ d]

/-- C35. The same for `cmoment_ie_iez(n1, n2)`, with the jump integral centred. -/
theorem C35_cmoment_ie_iez_partial (d n1 n2 : ℕ) (hd : n1 + n2 ≤ d) (h2 : 2 ≤ d) :
    ∃ r, momentJoint centralCfg d n1 n2 = .ok r ∧
      ((n1, n2) ≠ (2, 0) →
        r.keyfor = ["e^{kt}", "k^{-}", "v0-E[v]", "E[v]", "sigma", "lmbd", "mu_v"]) ∧
      r.WF ∧ r.Keys (fun K => K.length = 7 ∧ ∀ i, 0 ≤ K.getD i 0) ∧
      ∀ p : Par, p.k ≠ 0 → 0 ≤ p.lmbd → 0 < p.mu_v → 0 ≤ p.h →
        poly2numIc r p = jointMom p.k (p.v0 - (p.theta + p.lmbd * p.mu_v / p.k))
          (p.theta + p.lmbd * p.mu_v / p.k) p.sigma (centralZ p.k p.lmbd p.mu_v) n1 n2 p.h := by
  obtain ⟨r, e, k, g1, g2, g3⟩ := momentJoint_spec centralCfg_ok d n1 n2 hd h2
  refine ⟨r, e, fun h => k fun h' => h (by rw [h'.1, h'.2]), g1, fun x hx => (g2 x hx).1, fun p a b c d => ?_⟩
  rw [poly2numIc_eq, g3 p ⟨a, b, c⟩ _ _ _ d, meanv]

/-- C35. `moment_ie(n)` is the moment of `IE_t` alone, in both files. -/
theorem C35_moment_ie (d n : ℕ) (h1 : 1 ≤ d) (hd : n ≤ d) :
    (∃ r, momentIe rawCfg d n = .ok r ∧
      (n ≠ 2 → r.keyfor = ["e^{kt}", "k^{-}", "v0-theta", "theta", "sigma", "lmbd", "mu_v"]) ∧
      ∀ p : Par, p.k ≠ 0 → 0 ≤ p.lmbd → 0 < p.mu_v → 0 ≤ p.h →
        poly2numI r p = jointMom p.k (p.v0 - p.theta) p.theta p.sigma (rawZ p.k p.lmbd p.mu_v)
          n 0 p.h) ∧
    ∃ r, momentIe centralCfg d n = .ok r ∧
      (n ≠ 2 → r.keyfor = ["e^{kt}", "k^{-}", "v0-E[v]", "E[v]", "sigma", "lmbd", "mu_v"]) ∧
      ∀ p : Par, p.k ≠ 0 → 0 ≤ p.lmbd → 0 < p.mu_v → 0 ≤ p.h →
        poly2numIc r p = jointMom p.k (p.v0 - (p.theta + p.lmbd * p.mu_v / p.k))
          (p.theta + p.lmbd * p.mu_v / p.k) p.sigma (centralZ p.k p.lmbd p.mu_v) n 0 p.h := by
  constructor
  · obtain ⟨r, e, k, -, -, g⟩ := momentIe_spec rawCfg_ok d n h1 hd
    exact ⟨r, e, k, fun p a b c d => by rw [poly2numI_eq, g p ⟨a, b, c⟩ _ _ _ d]⟩
  · obtain ⟨r, e, k, -, -, g⟩ := momentIe_spec centralCfg_ok d n h1 hd
    exact ⟨r, e, k, fun p a b c d => by rw [poly2numIc_eq, g p ⟨a, b, c⟩ _ _ _ d, meanv]⟩

/-- C35 fails for the keyfor of the order `(2, 0)`: it is empty, at every depth and in both files. -/
theorem C35_keyfor_violated (d : ℕ) (hd : 1 ≤ d) :
    (∃ r, momentJoint rawCfg d 2 0 = .ok r ∧ r.keyfor = []) ∧
    (∃ r, momentJoint centralCfg d 2 0 = .ok r ∧ r.keyfor = []) ∧
    (∃ r, momentIe rawCfg d 2 = .ok r ∧ r.keyfor = []) ∧
    ∃ r, momentIe centralCfg d 2 = .ok r ∧ r.keyfor = [] := by
  obtain ⟨d, rfl⟩ : ∃ e, d = e + 1 := ⟨d - 1, by omega⟩
  refine ⟨⟨P2 rawCfg, ?_, rfl⟩, ⟨P2 centralCfg, ?_, rfl⟩, ⟨P2 rawCfg, rfl, rfl⟩,
    ⟨P2 centralCfg, rfl, rfl⟩⟩
  · obtain ⟨z1, e1, -⟩ := momentIEZ_spec 1
    obtain ⟨z2, e2, -⟩ := momentIEZ_spec 2
    norm_num at e1 e2
    simp only [momentJoint, momentJointWith, rawCfg, e1, e2]
    rfl
  · obtain ⟨z1, e1, -⟩ := cmomentIEZ_spec 1
    obtain ⟨z2, e2, -⟩ := cmomentIEZ_spec 2
    norm_num at e1 e2
    simp only [momentJoint, momentJointWith, centralCfg, e1, e2]
    rfl

/-- C35. A negative order raises `ValueError`. -/
theorem C35_negative (c : Cfg) (d : ℕ) (n1 n2 : ℤ) (h : n1 < 0 ∨ n2 < 0) :
    momentJoint c d n1 n2 = .error .valueError ∧
    (n1 < 0 → momentIe c (d + 1) n1 = .error .valueError) := by
  refine ⟨?_, fun h => ?_⟩
  · rw [momentJoint, momentJointWith, if_pos (by omega)]
  · rw [momentIe, momentIeWith, if_pos h]

/-- The specified recursion is the documented one: its first orders in closed form. -/
theorem C35_spec_second (k a b σ t : ℝ) (Z : ℕ → ℝ → ℝ → ℝ) (hk : k ≠ 0) (ht : 0 ≤ t)
    (h0 : ∀ s t, s ≤ t → Z 0 s t = 1) (h1 : ∀ s t, s ≤ t → Z 1 s t = 0) :
    jointMom k a b σ Z 2 0 t = a * ((Real.exp (k * t) - 1) / k) +
      b * ((Real.exp (2 * k * t) - 1) / (2 * k)) := by
  rw [jointMom]
  simp only [zero_add, Finset.range_one, Finset.sum_singleton, jointMom, Nat.sub_self]
  rw [int_congr t ht (fun u => Real.exp (k * u) * Z 0 0 u * Z 0 u t) (fun u => Real.exp (k * u))
      (fun u h h' => by rw [h0 u t h', h0 0 u h]; ring),
    int_congr t ht (fun u => Real.exp (2 * k * u) * Z 0 0 u * Z 0 u t) (fun u => Real.exp (2 * k * u))
      (fun u h h' => by rw [h0 u t h', h0 0 u h]; ring),
    int_congr t ht (fun u => Real.exp (k * u) * Z 1 0 u * Z 0 u t) (fun _ => 0)
      (fun u h h' => by rw [h1 0 u h]; ring), (exp_int2 hk t).1, (exp_int2 hk t).2]
  simp
  ring

example : (momentJoint rawCfg 5 3 1).map (fun r => r.keyfor.length) = .ok 7 := by decide +kernel
example : (momentJoint centralCfg 5 2 1).map (fun r => r.items) = .ok [([3, 2, 0, 0, 0, 1, 2], 1 / 3),
    ([0, 2, 0, 0, 0, 1, 2], 2 / 3), ([1, 2, 0, 0, 0, 1, 2], -1)] := by decide +kernel
example : ∃ p : Par, p.k ≠ 0 ∧ 0 ≤ p.lmbd ∧ 0 < p.mu_v ∧ 0 ≤ p.h := ⟨⟨1, 1, 1, 1, 1, 1, 1⟩, by norm_num⟩

end Ajd.Srjd
