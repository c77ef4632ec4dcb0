import Verif.Lemmas.SrjdJump3

/-! C37: moments of the SRJD variance given the initial variance and the jumps. -/

namespace Ajd.SrjdJ
open Poly Polynomial

/-- C37. `moment_IE(m)` raises nothing, carries the documented keyfor and evaluates, for all parameters,
jump histories and times, to the solution of the documented recursion. -/
theorem C37_moment_IE (m : ℕ) : ∃ r, momentIE m = .ok r ∧
    r.keyfor = ["v_0", "k^{-}", "theta", "sigma", "e^{kt}", "l_{1:n}", "o_{2:n}"] ∧ r.WF ∧ r.Keys SOK ∧
      ∀ x : ItoCond.Par, x.k ≠ 0 → (∀ i, 0 ≤ x.s i) → ∀ t, 0 ≤ t → ∀ M, IERec x M →
        ev (sval x t) r = M m t := by
  obtain ⟨r, e, k, w, c, v⟩ := momentIE_spec m
  exact ⟨r, e, k, w, fun x hx => (c x hx).1, fun x hk hs t ht M hM => v ⟨x, t, hk, hs, ht⟩ M hM⟩

/-- C37. `moment_v(m)` is the `m`-th moment of `v_t` given `v_0` and the jumps. -/
theorem C37_moment_v (m : ℕ) : ∃ r, momentV m = .ok r ∧
    r.keyfor = ["v_0", "k^{-}", "theta", "sigma", "e^{kt}", "l_{1:n}", "o_{2:n}"] ∧ r.WF ∧ r.NoZero ∧
      r.Keys SOK ∧
      ∀ x : ItoCond.Par, x.k ≠ 0 → (∀ i, 0 ≤ x.s i) → ∀ t, 0 ≤ t → ∀ E, Law x t E →
        ev (sval x t) r = E (vAt x t ^ m) := by
  obtain ⟨r, e, k, w, z, c, v⟩ := momentV_spec m
  exact ⟨r, e, k, w, z, c, fun x hk hs t ht E hE => v ⟨⟨x, t, hk, hs, ht⟩, E, hE⟩⟩

/-- C37. `cmoment_v(m)` is the `m`-th central moment of `v_t` given `v_0` and the jumps. -/
theorem C37_cmoment_v (m : ℕ) : ∃ r, cmomentV m = .ok r ∧
    r.keyfor = ["v_0", "k^{-}", "theta", "sigma", "e^{kt}", "l_{1:n}", "o_{2:n}"] ∧ r.WF ∧
      r.Keys SOK ∧
      ∀ x : ItoCond.Par, x.k ≠ 0 → (∀ i, 0 ≤ x.s i) → ∀ t, 0 ≤ t → ∀ E, Law x t E →
        ev (sval x t) r = E ((vAt x t - C (E (vAt x t))) ^ m) := by
  obtain ⟨r, e, k, w, c, v⟩ := cmomentV_spec m
  exact ⟨r, e, k, w, c, fun x hk hs t ht E hE => v ⟨⟨x, t, hk, hs, ht⟩, E, hE⟩⟩

/-- C37. `fZ(l, o, k, s, J)` ends and returns the sum over all tuples of jumps, each with its running
maxima. -/
theorem C37_fZ (l o : List ℤ) (k : ℝ) (s J : List ℝ) (ho : o.length = l.length - 1)
    (hs : J.length ≤ s.length) : ∃ c, ∀ fuel, c ≤ fuel → fZ fuel l o k s J = some (.ok
      (∑ j : Fin l.length → Fin J.length,
        (∏ i : Fin l.length, (Real.exp (l.getD i 0 * k * s.getD (j i) 0) * J.getD (j i) 0)) *
        ∏ i : Fin l.length, if (i : ℕ) = 0 then 1 else
          Real.exp (o.getD (i - 1) 0 * k *
            Utils.runMax (fun a : Fin J.length => s.getD a 0) j i))) :=
  fZ_spec l o k s J ho hs

/-- C37. `m(l, par)` returns the conditional moment, when there is one jump time in `[0, h]` for each jump
size. -/
theorem C37_m (m : ℕ) (p : Par) (hp : p.OK) : ∃ c, ∀ fuel, c ≤ fuel → ∀ E, Law p.cir p.h E →
    mV fuel m p = some (.ok (E (vAt p.cir p.h ^ m))) := by
  obtain ⟨r, e, -, -, -, c, v⟩ := C37_moment_v m
  obtain ⟨f, h⟩ := poly2num_spec hp r c
  refine ⟨f, fun fuel hf E hE => ?_⟩
  rw [mV, e]
  dsimp only
  rw [h fuel hf, v p.cir hp.k hp.nonneg p.h hp.h E hE]

/-- C37. `cm(l, par)` returns the conditional central moment. -/
theorem C37_cm (m : ℕ) (p : Par) (hp : p.OK) : ∃ c, ∀ fuel, c ≤ fuel → ∀ E, Law p.cir p.h E →
    cmV fuel m p = some (.ok (E ((vAt p.cir p.h - C (E (vAt p.cir p.h))) ^ m))) := by
  obtain ⟨r, e, -, -, c, v⟩ := C37_cmoment_v m
  obtain ⟨f, h⟩ := poly2num_spec hp r c
  refine ⟨f, fun fuel hf E hE => ?_⟩
  rw [cmV, e]
  dsimp only
  rw [h fuel hf, v p.cir hp.k hp.nonneg p.h hp.h E hE]

/-- C37. The recursion has one solution, it is the law of `IE` alone in the recursion for the joint
moments of `ito_cond_mom.py`, and there is a functional with these moments. -/
theorem C37_recursion (x : ItoCond.Par) (t : ℝ) (ht : 0 ≤ t) :
    (∃ M, IERec x M ∧ ∀ M', IERec x M' → ∀ m, ∀ s, 0 ≤ s → M' m s = M m s) ∧
    (∀ M, ItoCond.ItoRecZ x M → IERec x fun m => M m 0 0) ∧
    (∃ E, Law x t E) ∧ ∀ E E', Law x t E → Law x t E' → ∀ i : ℕ, E (X ^ i) = E' (X ^ i) := by
  refine ⟨⟨ieSol x, ieSol_rec x, fun M' h m s hs => h.unique m s hs⟩, fun M h => IERec.of_joint h,
    ⟨momE fun i => ieSol x i t, ieSol x, ieSol_rec x, fun i => momE_X _ i⟩, ?_⟩
  rintro E E' ⟨M, hM, hE⟩ ⟨M', hM', hE'⟩ i
  rw [hE, hE', hM.unique i t ht, hM'.unique i t ht]

/-- C37. Negative orders: `moment_IE` and `cmoment_v` raise `KeyError`, `moment_v` returns the empty
Poly. -/
theorem C37_negative (m : ℤ) (hm : m < 0) : momentIE m = .error .keyError ∧
    cmomentV m = .error .keyError ∧ ∃ r, momentV m = .ok r ∧ r.items = [] := by
  have h : momentIE m = .error .keyError := by
    rw [momentIE, if_pos (by omega), lookup]
    have : dget tab0 m = none := by
      simp only [tab0, dget]
      rw [if_neg (by omega), if_neg (by omega), if_neg (by omega)]
    rw [this]
  refine ⟨h, by rw [cmomentV, h]; rfl, ?_⟩
  have e : pyRange 0 (m + 1) = [] := by
    rw [pyRange, show (m + 1 - 0).toNat = 0 by omega]; rfl
  refine ⟨_, by rw [momentV, if_neg (by omega), if_neg (by omega), e]; rfl, by decide +kernel⟩

/-! ### the hypotheses are met, and the values -/

/-- two jumps within the interval -/
noncomputable def exPar : Par := ⟨1, 2, 3, 1, 1, [1, 2], [0, 1 / 2]⟩

theorem exPar_ok : exPar.OK :=
  ⟨by norm_num [exPar], by norm_num [exPar], rfl, by
    intro s hs
    simp only [exPar, List.mem_cons, List.not_mem_nil, or_false] at hs
    rcases hs with rfl | rfl <;> norm_num [exPar]⟩

example : ∃ c, ∀ fuel, c ≤ fuel → ∀ E, Law exPar.cir exPar.h E →
    mV fuel 7 exPar = some (.ok (E (vAt exPar.cir exPar.h ^ 7))) := C37_m 7 exPar exPar_ok

/-- the jumps enter the conditional mean discounted to the time of observation -/
example : ∃ c, ∀ fuel, c ≤ fuel → mV fuel 1 exPar = some (.ok
    (Real.exp (-2) * (1 - 3) + 3 + Real.exp (-2) * (1 + Real.exp 1 * 2))) := by
  obtain ⟨c, h⟩ := C37_m 1 exPar exPar_ok
  obtain ⟨-, -, ⟨E, hE⟩, -⟩ := C37_recursion exPar.cir exPar.h exPar_ok.h
  refine ⟨c, fun fuel hf => ?_⟩
  have h1 := h fuel hf E hE
  have h2 := E_vAt ⟨⟨exPar.cir, exPar.h, exPar_ok.k, exPar_ok.nonneg, exPar_ok.h⟩, E, hE⟩
  have h3 : exPar.cir.IEZ exPar.h = 1 + Real.exp 1 * 2 := by
    have : exPar.cir.IEZ exPar.h = ∑ i : Fin 2, if exPar.cir.s i ≤ exPar.h then
      Real.exp (exPar.cir.k * exPar.cir.s i) * exPar.cir.J i else 0 := rfl
    rw [this, Fin.sum_univ_two]
    have a0 : exPar.cir.s (0 : Fin 2) = 0 := rfl
    have a1 : exPar.cir.s (1 : Fin 2) = 1 / 2 := rfl
    have b0 : exPar.cir.J (0 : Fin 2) = 1 := rfl
    have b1 : exPar.cir.J (1 : Fin 2) = 2 := rfl
    rw [a0, a1, b0, b1]
    norm_num [exPar, Par.cir]
  dsimp only at h2
  rw [h3] at h2
  rw [Nat.cast_one, pow_one] at h1
  rw [h1, h2]
  norm_num [exPar, Par.cir]

/-- two equal jumps at the times 0 and 1: the four pairs, with the later time from the second on -/
example : ∃ c, ∀ fuel, c ≤ fuel → fZ fuel [1, 1] [1] 1 [0, 1] [1, 1] = some (.ok
    (1 + Real.exp 1 * Real.exp 1 + Real.exp 1 * Real.exp 1 +
      Real.exp 1 * Real.exp 1 * Real.exp 1)) := by
  obtain ⟨c, h⟩ := C37_fZ [1, 1] [1] 1 [0, 1] [1, 1] rfl le_rfl
  refine ⟨c, fun fuel hf => ?_⟩
  rw [h fuel hf]
  congr 2
  have e : ∀ f : (Fin 2 → Fin 2) → ℝ, ∑ j, f j = f ![0, 0] + f ![0, 1] + f ![1, 0] + f ![1, 1] := by
    intro f
    rw [← (Equiv.sum_comp (finTwoArrowEquiv (Fin 2)).symm f), Fintype.sum_prod_type,
      Fin.sum_univ_two, Fin.sum_univ_two, Fin.sum_univ_two]
    simp only [finTwoArrowEquiv_symm_apply]
    ring
  refine (e _).trans ?_
  have r : ∀ j : Fin 2 → Fin 2, Utils.runMax (fun a : Fin 2 => ([0, 1] : List ℝ).getD a 0) j 1 =
      max (([0, 1] : List ℝ).getD (j 0) 0) (([0, 1] : List ℝ).getD (j 1) 0) := by
    intro j
    have := ItoCond.runMax_succ (fun a : Fin 2 => ([0, 1] : List ℝ).getD a 0) j 0
    rw [show (Fin.succ 0 : Fin 2) = 1 from rfl] at this
    rw [this]
    simp [ItoCond.runMax_zero]
  have hp : ∀ f : Fin 2 → ℝ, (∏ i : Fin ([1, 1] : List ℤ).length, f i) = f 0 * f 1 :=
    fun f => Fin.prod_univ_two f
  simp only [hp]
  have r' : ∀ j : Fin 2 → Fin 2, Utils.runMax (fun a : Fin ([1, 1] : List ℝ).length =>
      ([0, 1] : List ℝ).getD a 0) j 1 =
      max (([0, 1] : List ℝ).getD (j 0) 0) (([0, 1] : List ℝ).getD (j 1) 0) := r
  simp only [r']
  simp

example : (∃ r, momentV (-1) = .ok r ∧ r.items = []) := (C37_negative (-1) (by norm_num)).2.2

end Ajd.SrjdJ
