import Verif.Lemmas.SrjdDynkin

/-! C36 and C50: moments of the square-root jump-diffusion given its initial value. -/

namespace Ajd.Srjd
open Poly MvPolynomial

/-- the point of evaluation of `poly2num` -/
noncomputable def atPar (p : Par) (hp : p.OK) (h : 0 ≤ p.h) : At := ⟨p, p.v0 - p.theta, p.theta, p.h, hp, h⟩

theorem par_at {q : IPoly} (p : Par) (hp : p.OK) (h : 0 ≤ p.h) : poly2numI q p = ev (atPar p hp h).v q :=
  poly2numI_eq q p

/-- C36. `moment_x(n)` raises nothing and evaluates to the `n`-th moment of `σ IE_t + IEZ_t`, expanded in
the joint moments. -/
theorem C36_moment_x (d n : ℕ) (hd : n ≤ d) (h2 : 2 ≤ d) : ∃ r, momentX d n = .ok r ∧
    r.keyfor = ["e^{kt}", "k^{-}", "v0-theta", "theta", "sigma", "lmbd", "mu_v"] ∧ r.WF ∧
    ∀ p : Par, p.k ≠ 0 → 0 ≤ p.lmbd → 0 < p.mu_v → 0 ≤ p.h → poly2numI r p =
      ∑ i ∈ Finset.range (n + 1), n.choose i * p.sigma ^ i * jointMom p.k (p.v0 - p.theta) p.theta
        p.sigma (rawZ p.k p.lmbd p.mu_v) i (n - i) p.h := by
  obtain ⟨r, e, k, w, -, v⟩ := momentX_spec d n hd h2
  refine ⟨r, e, k, w, fun p a b c h => ?_⟩
  rw [par_at p ⟨a, b, c⟩ h, v, E_pow_xi]
  rfl

/-- C36. `moment_v(n)` raises nothing and evaluates to the `n`-th moment of
`v_t = θ + e^{-kt} (v_0 - θ) + e^{-kt} (σ IE_t + IEZ_t)`, expanded in the moments of `σ IE_t + IEZ_t`. -/
theorem C36_moment_v (d n : ℕ) (hd : n ≤ d) (h2 : 2 ≤ d) : ∃ r, momentV d n = .ok r ∧
    r.keyfor = ["e^{kt}", "k^{-}", "v0-theta", "theta", "sigma", "lmbd", "mu_v"] ∧ r.WF ∧
    ∀ p : Par, p.k ≠ 0 → 0 ≤ p.lmbd → 0 < p.mu_v → 0 ≤ p.h →
      ∃ X : ℕ → ℝ, (∀ i ≤ n, mX d i p = .ok (X i)) ∧ poly2numI r p =
        ∑ i ∈ Finset.range (n + 1), n.choose i *
          (p.theta + Real.exp (-(p.k * p.h)) * (p.v0 - p.theta)) ^ (n - i) *
          (Real.exp (-(p.k * p.h)) ^ i * X i) := by
  obtain ⟨r, e, k, w, -, v⟩ := momentV_spec d n hd h2
  refine ⟨r, e, k, w, fun p a b c h => ⟨fun i => (atPar p ⟨a, b, c⟩ h).E rawZ (xi p ^ i), ?_, ?_⟩⟩
  · intro i hi
    obtain ⟨r, e, -, -, -, v⟩ := momentX_spec d i (hi.trans hd) h2
    rw [mX, e, ok_bind, par_at p ⟨a, b, c⟩ h, v]
    rfl
  · rw [par_at p ⟨a, b, c⟩ h, v, U, Wt, add_comm, add_pow, map_sum]
    refine Finset.sum_congr rfl fun i _ => ?_
    rw [At.E, ← Ex_C_mul, ← Ex_C_mul]
    refine congrArg _ ?_
    simp only [atPar, map_mul, map_pow, map_natCast, map_add, map_sub, mul_pow]
    ring

/-- C50. `m(n, par)` of cond_mom.py is the `n`-th moment of the process: as functions of the time `h` the
values for all orders start at `v0^n` and follow Dynkin's formula for the generator of the stochastic
differential equation. -/
theorem C50_dynkin (p : Par) (hk : p.k ≠ 0) (hl : 0 ≤ p.lmbd) (hm : 0 < p.mu_v) :
    ∃ V, Dynkin p.k p.theta p.sigma p.lmbd p.mu_v p.v0 V ∧
      ∀ (d n : ℕ) (t : ℝ), n ≤ d → 2 ≤ d → 0 ≤ t → mV d n { p with h := t } = .ok (V n t) := by
  refine ⟨_, U_dynkin ⟨hk, hl, hm⟩ p.v0 p.theta, fun d n t hd h2 ht => ?_⟩
  obtain ⟨r, e, -, -, -, v⟩ := momentV_spec d n hd h2
  rw [mV, e, ok_bind, par_at { p with h := t } ⟨hk, hl, hm⟩ ht, v]
  rfl

/-- C50. Dynkin's formula determines the moments, so any family that satisfies it is what `m` returns. -/
theorem C50_unique (p : Par) (hk : p.k ≠ 0) (hl : 0 ≤ p.lmbd) (hm : 0 < p.mu_v) (hh : 0 ≤ p.h)
    (V : ℕ → ℝ → ℝ) (hV : Dynkin p.k p.theta p.sigma p.lmbd p.mu_v p.v0 V) (d n : ℕ) (hd : n ≤ d)
    (h2 : 2 ≤ d) : mV d n p = .ok (V n p.h) := by
  obtain ⟨W, hW, h⟩ := C50_dynkin p hk hl hm
  rw [dynkin_unique hm hV hW n p.h hh]
  exact h d n p.h hd h2 hh

theorem E_xi (i : At) : i.E rawZ (xi i.p) = mx i.p i.t := by
  have := E_pow_xi rawZ i 1
  rw [pow_one] at this
  rw [this, Finset.sum_range_succ, Finset.sum_range_one]
  simp only [Nat.choose_zero_right, Nat.sub_zero, Nat.sub_self, jm, jointMom]
  rw [Z1 i.hp i.t i.ht, mx]
  simp

theorem E_const (i : At) (x : ℝ) : i.E rawZ (C x) = x := by
  have := E_pow_xi rawZ i 0
  rw [pow_zero, Finset.sum_range_one] at this
  rw [← mul_one (C x : P2v), At.E, Ex_C_mul]
  rw [At.E] at this
  rw [this]
  have h0 : rawZ i.p.k i.p.lmbd i.p.mu_v 0 0 i.t = 1 := rawZ_zero (zp i.p 0 i.t) (zp_ok i.hp i.ht)
  simp [jm, jointMom, h0]

theorem Ex_central (M : ℕ → ℕ → ℝ) (w : P2v) (c : ℝ) (n : ℕ) : Ex M ((w - C c) ^ n) =
    ∑ i ∈ Finset.range (n + 1), n.choose i * (-c) ^ (n - i) * Ex M (w ^ i) := by
  rw [sub_eq_add_neg, add_pow, map_sum]
  refine Finset.sum_congr rfl fun i _ => ?_
  rw [← Ex_C_mul]
  refine congrArg _ ?_
  simp only [map_mul, map_pow, map_natCast, map_neg]
  ring

/-- C36. `cmoment_x(n)` raises nothing and evaluates to the `n`-th central moment of `σ IE_t + IEZ_t`. -/
theorem C36_cmoment_x (d n : ℕ) (hd : n ≤ d) (h2 : 2 ≤ d) (h1 : 1 ≤ n) : ∃ r, cmomentX d n = .ok r ∧
    r.keyfor = ["e^{kt}", "k^{-}", "v0-theta", "theta", "sigma", "lmbd", "mu_v"] ∧ r.WF ∧
    ∀ p : Par, p.k ≠ 0 → 0 ≤ p.lmbd → 0 < p.mu_v → 0 ≤ p.h →
      ∃ X : ℕ → ℝ, (∀ i ≤ n, mX d i p = .ok (X i)) ∧ poly2numI r p =
        ∑ i ∈ Finset.range (n + 1), n.choose i * (-X 1) ^ (n - i) * X i := by
  obtain ⟨r, e, k, w, -, v⟩ := cmomentX_spec d n hd h2
  refine ⟨r, e, k, w, fun p a b c h => ⟨fun i => (atPar p ⟨a, b, c⟩ h).E rawZ (xi p ^ i), ?_, ?_⟩⟩
  · intro i hi
    obtain ⟨r, e, -, -, -, v⟩ := momentX_spec d i (hi.trans hd) h2
    rw [mX, e, ok_bind, par_at p ⟨a, b, c⟩ h, v]
    rfl
  · have e1 := E_xi (atPar p ⟨a, b, c⟩ h)
    rw [par_at p ⟨a, b, c⟩ h, v, At.E, Ex_central, ← e1]
    simp only [pow_one]
    rfl

/-- C36. `cm(n, par)` of cond_cmom.py is the `n`-th central moment of the process: the central moment
about `V 1` formed from the moments `V` that Dynkin's formula determines. -/
theorem C36_cmoment_v (d n : ℕ) (hd : n ≤ d) (h2 : 2 ≤ d) : ∃ r, cmomentV d n = .ok r ∧
    r.keyfor = ["e^{kt}", "k^{-}", "v0-theta", "theta", "sigma", "lmbd", "mu_v"] ∧ r.WF ∧
    ∀ p : Par, p.k ≠ 0 → 0 ≤ p.lmbd → 0 < p.mu_v → 0 ≤ p.h →
      ∀ V, Dynkin p.k p.theta p.sigma p.lmbd p.mu_v p.v0 V → poly2numI r p =
        ∑ i ∈ Finset.range (n + 1), n.choose i * (-V 1 p.h) ^ (n - i) * V i p.h := by
  obtain ⟨r, e, k, w, -, v⟩ := cmomentV_spec d n hd h2
  refine ⟨r, e, k, w, fun p a b c h V hV => ?_⟩
  have hU := fun i => dynkin_unique c hV (U_dynkin ⟨a, b, c⟩ p.v0 p.theta) i p.h h
  simp only [hU]
  rw [par_at p ⟨a, b, c⟩ h, v]
  have e1 := E_xi (atPar p ⟨a, b, c⟩ h)
  have e2 : U rawZ p (p.v0 - p.theta) p.theta p.theta 1 p.h = p.theta +
      (p.v0 - p.theta) * Real.exp (-(p.k * p.h)) + Real.exp (-(p.k * p.h)) * mx p p.h := by
    have : U rawZ p (p.v0 - p.theta) p.theta p.theta 1 p.h =
        (atPar p ⟨a, b, c⟩ h).E rawZ (Wt p (p.v0 - p.theta) p.theta p.h) := by rw [U, pow_one]; rfl
    rw [this, Wt, map_add, E_const, At.E, Ex_C_mul]
    exact congrArg _ (congrArg _ e1)
  have e4 : (C (Real.exp (-(p.k * p.h))) * (xi p - C (mx p p.h)) : P2v) =
      Wt p (p.v0 - p.theta) p.theta p.h - C (U rawZ p (p.v0 - p.theta) p.theta p.theta 1 p.h) := by
    rw [e2, Wt]
    simp only [map_add, map_mul]
    ring
  refine (congrArg (fun w => (atPar p ⟨a, b, c⟩ h).E rawZ (w ^ n)) e4).trans ?_
  rw [At.E, Ex_central]
  rfl

/-- C36. A negative order raises nothing: all four functions return a Poly without entries, so that `m`
and `cm` are `0` there. -/
theorem C36_negative (d : ℕ) (n : ℤ) (hn : n < 0) :
    momentX d n = .ok ⟨kfV, []⟩ ∧ momentV d n = .ok ⟨kfV, []⟩ ∧
    cmomentX d n = .ok ⟨kfV, []⟩ ∧ cmomentV d n = .ok ⟨kfV, []⟩ := by
  have h : pyRange 0 (n + 1) = [] := by
    rw [pyRange, show (n + 1 - 0).toNat = 0 by omega]; rfl
  have h' : idx2 n = [] := by rw [idx2, h]; rfl
  refine ⟨?_, ?_, ?_, ?_⟩
  · rw [momentX, h]; rfl
  · rw [momentV, h']; rfl
  · rw [cmomentX, h']; rfl
  · rw [cmomentV, h']; rfl



example : (momentV 3 1).map (fun r => r.items) = .ok [([0, 1, 0, 0, 0, 1, 1], 1),
    ([-1, 1, 0, 0, 0, 1, 1], -1), ([0, 0, 0, 1, 0, 0, 0], 1), ([-1, 0, 1, 0, 0, 0, 0], 1)] := by
  decide +kernel
example : (cmomentV 3 2).map (fun r => r.items.length) = .ok 9 := by decide +kernel
example : ∃ p : Par, p.k ≠ 0 ∧ 0 ≤ p.lmbd ∧ 0 < p.mu_v ∧ 0 ≤ p.h := ⟨⟨1, 1, 1, 1, 1, 1, 1⟩, by norm_num⟩
/-- the specification is met by a family that is not constant -/
example : ∃ V, Dynkin 1 2 1 3 4 5 V :=
  let ⟨V, h, _⟩ := C50_dynkin ⟨5, 1, 2, 1, 3, 4, 1⟩ (by norm_num) (by norm_num) (by norm_num)
  ⟨V, h⟩

end Ajd.Srjd
