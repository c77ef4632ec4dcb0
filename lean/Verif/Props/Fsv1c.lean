import Verif.Lemmas.Fsv1c
import Verif.Lemmas.Fsv1Inst

namespace Ajd.Fsv1c
open Poly MvPolynomial

/-! ### C29 conditional central moments of the one-factor model -/

/-- `cmoments_y_to(l)` returns, for `l >= 1`, exactly the conditional central moments of the orders
`0, ..., l`, with the documented `keyfor`. -/
theorem C29_cmoments (l : ℕ) (hl : 1 ≤ l) :
    ∃ ms, cmomentsYTo l = .ok ms ∧ ms.length = l + 1 ∧ ∀ (n : ℕ) r, ms[n]? = some r →
      r.keyfor = kf9 ∧ r.WF ∧ r.Keys K9 ∧ (n ≠ 1 → r.NoZero) ∧
      ∀ (p : Fsv1.Par) (t0 x : ℝ) (E : Fsv1.Rv →ₗ[ℝ] ℝ), p.k ≠ 0 → 0 ≤ p.h →
        Fsv1.CondLaw p t0 x E →
        ev (v9 p x) r = E ((Fsv1.ret p t0 x - C (E (Fsv1.ret p t0 x))) ^ n) := by
  obtain ⟨ms, e, h, hm⟩ := cmomentsYTo_spec l
  refine ⟨ms, e, by omega, fun n r hr => ?_⟩
  obtain ⟨k, w, K, _, z, v⟩ := hm n r hr
  exact ⟨k, w, K, z, v⟩

/-- `cond_cm(l, par)` is the `l`-th conditional central moment of the return given `v_0 = x`. -/
theorem C29_cond_cm (l : ℕ) (hl : 1 ≤ l) (p : Fsv1.Par) (hk : p.k ≠ 0) (hh : 0 ≤ p.h)
    (hρ : 0 ≤ 1 - p.ρ ^ 2) (t0 x : ℝ) (E : Fsv1.Rv →ₗ[ℝ] ℝ) (hE : Fsv1.CondLaw p t0 x E) :
    condCm l p x = .ok (E ((Fsv1.ret p t0 x - C (E (Fsv1.ret p t0 x))) ^ l)) := by
  obtain ⟨ms, e, h, hm⟩ := cmomentsYTo_spec l
  have hlen : ms.length = l + 1 := by omega
  have hlast : ms.getLast? = some ms[l] := by
    rw [List.getLast?_eq_getElem?, show ms.length - 1 = l by omega,
      List.getElem?_eq_getElem (by omega)]
  obtain ⟨_, _, K, even, _, v⟩ := hm l ms[l] (List.getElem?_eq_getElem (by omega))
  obtain ⟨q, eq, _, _, _, _, qv⟩ := simplify2_spec ms[l] K even
  have hs : simplify ms[l] 2 = .ok q := by rw [simplify]; simpa using eq
  rw [condCm, e, ok_bind, pyLast, hlast]
  simp only [ok_bind, hs]
  rw [poly2num_eq, qv p x hk hρ, v p t0 x E hk hh hE]
  rfl

/-- Every central moment can be simplified in the three documented ways, which do not change its
value: `tp = 1` counts powers of `e^{-kt}`, `tp = 2` expands everything in `rho`, `tp = 3` also
expands `v_0 - theta`. -/
theorem C29_simplify (l : ℕ) :
    ∃ ms, cmomentsYTo l = .ok ms ∧ ∀ r ∈ ms, ∃ s1 s2 s3, simplify r 1 = .ok s1 ∧
      simplify r 2 = .ok s2 ∧ simplify r 3 = .ok s3 ∧
      s1.keyfor = ["e^{-kt}", "t", "k^{-}", "v_0-theta", "theta", "sigma", "sigma/2k",
        "rho-sigma/2k", "sqrt(1-rho^2)"] ∧
      s2.keyfor = ["e^{-kt}", "t", "k^{-}", "v_0-theta", "theta", "sigma", "rho"] ∧
      s3.keyfor = ["e^{-kt}", "t", "k^{-}", "v_0", "theta", "sigma", "rho"] ∧
      ∀ (p : Fsv1.Par) (x : ℝ), ev (v9' p x) s1 = ev (v9 p x) r ∧
        (p.k ≠ 0 → 0 ≤ 1 - p.ρ ^ 2 → ev (v7 p x) s2 = ev (v9 p x) r ∧
          ev (v7v p x) s3 = ev (v9 p x) r) := by
  obtain ⟨ms, e, h, hm⟩ := cmomentsYTo_spec l
  refine ⟨ms, e, fun r hr => ?_⟩
  obtain ⟨n, hn, rfl⟩ := List.getElem_of_mem hr
  obtain ⟨k, _, K, even, _, _⟩ := hm n ms[n] (List.getElem?_eq_getElem hn)
  obtain ⟨q, eq, qk, _, _, _, qv⟩ := simplify2_spec ms[n] K even
  refine ⟨_, q, ofTerms kf7v (q.items.flatMap vExpand), rfl, by rw [simplify]; simpa using eq, ?_,
    ?_, qk, by simp [kf7v], ?_⟩
  · rw [simplify]
    simp [eq]
  · simp [simplify1, k, kf9, kf6]
  · intro p x
    refine ⟨simplify1_spec _ K p x, fun hk hρ => ⟨qv p x hk hρ, ?_⟩⟩
    rw [← qv p x hk hρ]
    apply ev_ofTerms_flatMap
    intro y hy
    have := simplify2_ix _ _ K eq y hy
    exact vExpand_value p x y this.2.1 this.2.2.1

/-- Any other simplification is refused. -/
theorem C29_simplify_error (r : IPoly) (tp : ℤ) (h : tp ≠ 1 ∧ tp ≠ 2 ∧ tp ≠ 3) :
    simplify r tp = .error .exception := by
  rw [simplify, if_neg h.1, if_neg h.2.1, if_neg h.2.2]

/-- For order 0 `cond_cm` returns the moment of order 1: zero instead of one. -/
theorem C29_cond_cm_zero (p : Fsv1.Par) (x : ℝ) : condCm 0 p x = .ok 0 := by
  have e : cmomentsYTo 0 = .ok first := rfl
  have e2 : simplify2 ⟨kf9, [([0, 0, 0, 0, 0, 0, 0, 0, 0], 0)]⟩ =
      .ok ⟨kf8.eraseIdx 7, []⟩ := by decide +kernel
  rw [condCm, e, ok_bind, pyLast]
  simp only [first, List.getLast?_cons_cons, List.getLast?_singleton, ok_bind, simplify]
  norm_num
  rw [e2]
  simp [poly2num]

/-- The hypotheses are met by the solution of the Itô equation. -/
example : ∃ E, Fsv1.CondLaw ⟨1 / 10, 1 / 4, 1 / 10, -7 / 10, 1 / 8, 1⟩ 3 (1 / 5) E :=
  ⟨_, Fsv1.condLaw_condE _ _ _⟩

end Ajd.Fsv1c
