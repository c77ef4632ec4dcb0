import Verif.Lemmas.Svvj
import Verif.Lemmas.SvvjErr
import Verif.Lemmas.SvvjClass

/-! C38, C39: moments of the model with jumps in the variance, given the initial variance and the
jumps of the variance. -/

namespace Ajd.Svvj
open Poly MvPolynomial ItoCond

/-! ### C38 -/

/-- C38, part. Full statement: `cmoments_y_to(l)` returns the conditional central moments of the orders
`0, ..., l`. It never raises, and for every `l` the list holds well formed Polys with the documented
`keyfor`; their values are right up to order 3, and for all orders if there is no jump. Missing: the
orders from 4 on with jumps, where the value is wrong (`C38_cm_wrong`), and `l = 0`, where the list has
two elements. -/
theorem C38_cmoments_partial (l : ℕ) :
    ∃ ms, cmomentsYTo l = .ok ms ∧ ms.length = max l 1 + 1 ∧ ∀ (n : ℕ) r, ms[n]? = some r →
      r.keyfor = ["e^{kt}", "t", "k^{-}", "v0-theta", "theta", "sigma", "l_{1:n}", "o_{1:n}",
        "p_{2:n}", "q_{2:n}", "sigma/2k", "rho-sigma/2k", "sqrt(1-rho^2)"] ∧
      r.WF ∧ r.Keys KC ∧ (n ≠ 1 → r.NoZero) ∧
      ∀ (p : Par) (E : Fsv1.Rv →ₗ[ℝ] ℝ), p.OK → CondLaw p E → p.jumpsize = [] ∨ n ≤ 3 →
        ev (vC p) r = E ((ret p - C (E (ret p))) ^ n) := by
  obtain ⟨ms, e, h, hm⟩ := code_spec l
  refine ⟨ms, e, h, fun n r hr => ?_⟩
  obtain ⟨k, w, K, _, z, v⟩ := hm n r hr
  refine ⟨k, w, K, z, fun p E hp hE hr => ?_⟩
  rw [centred hp hE]
  exact v p E hp hE hr

/-- C38. The only fault is in `int_e_IEZ_poly`: with that function repaired all orders are right. -/
theorem C38_cmoments_repaired (l : ℕ) :
    ∃ ms, cmomentsWith intEIEZFixed l = .ok ms ∧ ms.length = max l 1 + 1 ∧
      ∀ (n : ℕ) r, ms[n]? = some r → r.keyfor = kfC ∧ r.WF ∧ r.Keys KC ∧ (n ≠ 1 → r.NoZero) ∧
      ∀ (p : Par) (E : Fsv1.Rv →ₗ[ℝ] ℝ), p.OK → CondLaw p E →
        ev (vC p) r = E ((ret p - C (E (ret p))) ^ n) := by
  obtain ⟨ms, e, h, hm⟩ := fixed_spec l
  refine ⟨ms, e, h, fun n r hr => ?_⟩
  obtain ⟨k, w, K, _, z, v⟩ := hm n r hr
  refine ⟨k, w, K, z, fun p E hp hE => ?_⟩
  rw [centred hp hE]
  exact v p E hp hE trivial

theorem lastCm (OKn : ℕ → Par → Prop) (ms : List JPoly) (l : ℕ) (hl : 1 ≤ l)
    (h : ms.length = max l 1 + 1) (hm : ∀ (n : ℕ) r, ms[n]? = some r → IsCm OKn n r) :
    ∃ r, pyLast ms = .ok r ∧ IsCm OKn l r := by
  have hlast : ms.getLast? = some ms[l] := by
    rw [List.getLast?_eq_getElem?, show ms.length - 1 = l by omega,
      List.getElem?_eq_getElem (by omega)]
  exact ⟨ms[l], by rw [pyLast, hlast], hm l _ (List.getElem?_eq_getElem _)⟩

/-- C38, part. `cm(l, par)` always returns a number, and it is the `l`-th conditional central moment
up to order 3, and for all orders if there is no jump. Missing: see `C38_cmoments_partial`. -/
theorem C38_cm_partial (l : ℕ) (hl : 1 ≤ l) (p : Par) (hp : p.OK) :
    ∃ x : ℝ, (∃ c, ∀ fuel, c ≤ fuel → cm fuel l p = some (.ok x)) ∧
      ∀ E, CondLaw p E → p.jumpsize = [] ∨ l ≤ 3 → x = E ((ret p - C (E (ret p))) ^ l) := by
  obtain ⟨ms, e, h, hm⟩ := code_spec l
  obtain ⟨r, hr, _, _, K, _, _, v⟩ := lastCm _ ms l hl h hm
  obtain ⟨c, hc⟩ := poly2numC_spec r K p hp
  refine ⟨ev (vC p) r, ⟨c, fun fuel hf => ?_⟩, fun E hE hR => ?_⟩
  · rw [cm, cmomentY, e, ok_bind, hr]
    exact hc fuel hf
  · rw [centred hp hE]
    exact v p E hp hE hR

/-- C38. For order 0 `cm` returns 0, the first central moment, instead of 1. -/
theorem C38_cm_zero (p : Par) (hp : p.OK) : ∃ c, ∀ fuel, c ≤ fuel → cm fuel 0 p = some (.ok 0) := by
  obtain ⟨c, hc⟩ := poly2numC_spec ⟨kfC, [(keyC0, 0)]⟩ (by
    intro x hx; simp at hx; subst hx; simp [KC, keyC0, ZOK]) p hp
  refine ⟨c, fun fuel hf => ?_⟩
  have e : cmomentY 0 = .ok ⟨kfC, [(keyC0, 0)]⟩ := by decide +kernel
  rw [cm, e]
  simp only [hc fuel hf]
  simp [ev]

/-- C38. With one jump the central moment of order 4 is wrong: for the parameters `par1` the number
returned differs from the moment for every law of the model. -/
theorem C38_cm_wrong : ∃ (p : Par) (x : ℝ), p.OK ∧ p.Simple ∧ (∃ E, CondLaw p E) ∧
    (∃ c, ∀ fuel, c ≤ fuel → cm fuel 4 p = some (.ok x)) ∧
    ∀ E, CondLaw p E → x ≠ E ((ret p - C (E (ret p))) ^ 4) := by
  obtain ⟨r, e, K, v⟩ := err4
  obtain ⟨c, hc⟩ := poly2numC_spec r K par1 par1_ok
  refine ⟨par1, ev (vC par1) r, par1_ok, par1_simple, ⟨_, condLaw_condE _⟩, ⟨c, fun fuel hf => ?_⟩,
    fun E hE hx => ?_⟩
  · rw [cm, e]
    exact hc fuel hf
  · rw [centred par1_ok hE, v par1 E par1_ok hE (by simp [par1])] at hx
    exact par1_err (by linarith)

/-- C38. `simplify` keeps the value: with `tp = 0` the first exponent counts `e^{-kt}`, otherwise
everything is also expanded in `rho`. -/
theorem C38_simplify (l : ℕ) (tp : ℤ) (ht : tp ≠ 0) :
    ∃ ms, cmomentsYTo l = .ok ms ∧ ∀ r ∈ ms, ∃ s0 s1, simplify r 0 = .ok s0 ∧
      simplify r tp = .ok s1 ∧ s0.keyfor = "e^{-kt}" :: kfC.drop 1 ∧
      s1.keyfor = ["e^{-kt}", "t", "k^{-}", "v0-theta", "theta", "sigma", "l_{1:n}", "o_{1:n}",
        "p_{2:n}", "q_{2:n}", "rho"] ∧ s0.WF ∧ s1.WF ∧ s1.NoZero ∧
      ∀ p : Par, ev (vC0 p) s0 = ev (vC p) r ∧
        (p.k ≠ 0 → 0 ≤ 1 - p.ρ ^ 2 → ev (vC1 p) s1 = ev (vC p) r) := by
  obtain ⟨ms, e, h, hm⟩ := code_spec l
  refine ⟨ms, e, fun r hr => ?_⟩
  obtain ⟨n, hn, rfl⟩ := List.getElem_of_mem hr
  obtain ⟨k, _, K, even, _, _⟩ := hm n ms[n] (List.getElem?_eq_getElem hn)
  obtain ⟨s1, e1, k1, w1, z1, v1⟩ := simplify1_spec ms[n] k K even tp ht
  have h0 := fun p => simplify0_spec ms[n] K p
  refine ⟨ofTerms ("e^{-kt}" :: ms[n].keyfor.drop 1) _, s1, rfl, e1, by simp [k], k1,
    ofTerms_WF _ _, w1, z1, fun p => ⟨?_, v1 p⟩⟩
  obtain ⟨s0, e0, _, _, v0⟩ := h0 p
  have : simplify ms[n] 0 = .ok s0 := e0
  rw [simplify, if_pos rfl] at this
  rw [Except.ok.inj this]
  exact v0

/-- C38, part. Full statement: `moments_y_to(l)` returns the conditional moments of the orders
`0, ..., l`. It never raises and returns `l + 1` well formed Polys; values right up to order 3, and for
all orders if there is no jump. Missing: the orders from 4 on with jumps. -/
theorem C38_moments_partial (l : ℕ) :
    ∃ ms, momentsYTo l = .ok ms ∧ ms.length = l + 1 ∧ ∀ (n : ℕ) r, ms[n]? = some r →
      r.keyfor = ["e^{kt}", "t", "k^{-}", "beta_t", "mu-theta/2", "v0-theta", "theta", "sigma",
        "l_{1:n}", "o_{1:n}", "p_{2:n}", "q_{2:n}", "sigma/2k", "rho-sigma/2k", "sqrt(1-rho^2)"] ∧
      r.WF ∧ r.Keys KM ∧ r.NoZero ∧
      ∀ (p : Par) (E : Fsv1.Rv →ₗ[ℝ] ℝ), p.OK → CondLaw p E → p.jumpsize = [] ∨ n ≤ 3 →
        ev (vM p) r = E (ret p ^ n) := by
  obtain ⟨ms, e, h, hm⟩ := momentsWith_spec Right Right_mono intEIEZ l (code_spec l)
  exact ⟨ms, e, h, fun n r hr => hm n r hr⟩

/-- C38. with `int_e_IEZ_poly` repaired all moments are right -/
theorem C38_moments_repaired (l : ℕ) :
    ∃ ms, momentsWith intEIEZFixed l = .ok ms ∧ ms.length = l + 1 ∧
      ∀ (n : ℕ) r, ms[n]? = some r → r.keyfor = kfM ∧ r.WF ∧ r.Keys KM ∧ r.NoZero ∧
      ∀ (p : Par) (E : Fsv1.Rv →ₗ[ℝ] ℝ), p.OK → CondLaw p E → ev (vM p) r = E (ret p ^ n) := by
  obtain ⟨ms, e, h, hm⟩ := momentsWith_spec (fun _ _ => True) (fun _ _ _ _ h => h) intEIEZFixed l
    (fixed_spec l)
  refine ⟨ms, e, h, fun n r hr => ?_⟩
  obtain ⟨k, w, K, z, v⟩ := hm n r hr
  exact ⟨k, w, K, z, fun p E hp hE => v p E hp hE trivial⟩

/-- C38, part. `m(l, par)` always returns a number, and it is the `l`-th conditional moment up to order
3 (order 0 included), and for all orders if there is no jump. Missing: orders from 4 on with jumps. -/
theorem C38_m_partial (l : ℕ) (p : Par) (hp : p.OK) :
    ∃ x : ℝ, (∃ c, ∀ fuel, c ≤ fuel → m fuel l p = some (.ok x)) ∧
      ∀ E, CondLaw p E → p.jumpsize = [] ∨ l ≤ 3 → x = E (ret p ^ l) := by
  obtain ⟨ms, e, h, hm⟩ := momentsWith_spec Right Right_mono intEIEZ l (code_spec l)
  have hlast : ms.getLast? = some ms[l] := by
    rw [List.getLast?_eq_getElem?, show ms.length - 1 = l by omega,
      List.getElem?_eq_getElem (by omega)]
  obtain ⟨_, _, K, _, v⟩ := hm l ms[l] (List.getElem?_eq_getElem (by omega))
  obtain ⟨c, hc⟩ := poly2numM_spec ms[l] K p hp
  refine ⟨ev (vM p) ms[l], ⟨c, fun fuel hf => ?_⟩, fun E hE hR => v p E hp hE hR⟩
  have e' : momentsYTo l = .ok ms := e
  rw [m, momentY, e', ok_bind, pyLast, hlast]
  exact hc fuel hf

/-- parameters with one jump, `0 < ρ < 1`, and a law for them -/
example : par1.OK ∧ par1.Simple ∧ CondLaw par1 (condE par1) ∧ par1.jumpsize.length = 1 :=
  ⟨par1_ok, par1_simple, condLaw_condE _, rfl⟩
/-- parameters with two jumps -/
example : (⟨1, 0, 2, 1, 1, 1 / 2, 3, [1, 5], [1, 2]⟩ : Par).OK :=
  ⟨by norm_num, by norm_num, by norm_num, rfl, by intro s hs; simp at hs; rcases hs with rfl | rfl <;>
    norm_num⟩
example : (cmomentY 3).map (fun r => decide (20 < r.items.length)) = .ok true := by decide +kernel

/-! ### C39 -/

/-- C39, part. Full statement: `classify` splits every Poly by depth of summation. It does if the depths
that occur are `0, ..., m - 1` with `m > 0`: the sub-Poly `d` holds exactly the entries of depth `d`, in
their order and with their values, keys of depth 0 without the four empty tuples. Missing: the other
Polys, for which it raises (`C39_classify_error`). -/
theorem C39_classify_partial (P : JPoly) (m : ℕ) (hm : 0 < m)
    (hd : ∀ d, (∃ e ∈ P.items, e.1.z.l.length = d) ↔ d < m) (hw : P.WF)
    (hP : P.Keys fun K => K.b.length = 6 ∧ ZOK K.z) :
    ∃ subs, classify P = .ok subs ∧ subs.length = m ∧ ∀ d < m, subs[d]? = some
      ⟨if d = 0 then P.keyfor.take 6 ++ P.keyfor.drop 10 else P.keyfor,
        (P.items.filter fun e => e.1.z.l.length = d).map fun e =>
          (if d = 0 then .inl (e.1.b ++ e.1.c) else .inr e.1, e.2)⟩ := by
  obtain ⟨subs, e, hl, hs⟩ := classify_ok P m hm hd hw hP
  refine ⟨subs, e, hl, fun d hd => ?_⟩
  rw [hs d hd]
  congr 2
  apply List.map_congr_left
  intro y hy
  have : y.1.z.l.length = d := of_decide_eq_true (List.mem_filter.1 hy).2
  rw [classKey, this]

/-- C39. two entries never meet under the same key of a sub-Poly -/
theorem C39_keys_apart (a b : JKey) (ha : a.b.length = 6 ∧ ZOK a.z) (hb : b.b.length = 6 ∧ ZOK b.z)
    (h : classKey a = classKey b) : a = b := classKey_inj a b ha hb h

/-- C39. Exactly when the depths that occur are not `0, ..., m - 1` for an `m > 0`, `classify` raises an
IndexError; in particular for the empty Poly. -/
theorem C39_classify_error (P : JPoly) (hw : P.WF)
    (hP : P.Keys fun K => K.b.length = 6 ∧ ZOK K.z) : classify P = .error .indexError ↔
      ¬ ∃ m, 0 < m ∧ ∀ d, (∃ e ∈ P.items, e.1.z.l.length = d) ↔ d < m := by
  refine ⟨fun h => ?_, fun h => classify_err P h⟩
  rintro ⟨m, hm, hd⟩
  obtain ⟨subs, e, _⟩ := classify_ok P m hm hd hw hP
  rw [e] at h
  cases h

/-- C39. A Poly with one summation in every entry, such as the derivative of a moment by a jump size,
is refused, though it is a valid Poly. -/
theorem C39_classify_violated : ∃ P : JPoly, P.WF ∧ P.NoZero ∧ P.Keys KC ∧
    classify P = .error .indexError :=
  ⟨⟨kfC, [(⟨[0, 0, 1, 0, 0, 0], ⟨[1], [0], [], []⟩, [1, 0, 0]⟩, 1)]⟩, by simp [WF],
    by intro x hx; simp at hx; subst hx; simp, by
      intro x hx; simp at hx; subst hx; simp [KC, ZOK], by decide +kernel⟩

/-- the depths that occur in the central moment of order 3 are 0 and 1 -/
example : (cmomentY 3).map (fun r => (r.items.all (fun e => decide (e.1.z.l.length < 2)),
    r.items.any (fun e => decide (e.1.z.l.length = 0)),
    r.items.any (fun e => decide (e.1.z.l.length = 1)))) = .ok (true, true, true) := by decide +kernel
/-- the hypotheses are met -/
example : ∃ P : JPoly, P.WF ∧ P.Keys (fun K => K.b.length = 6 ∧ ZOK K.z) ∧
    ∀ d, (∃ e ∈ P.items, e.1.z.l.length = d) ↔ d < 2 :=
  ⟨⟨kfC, [(⟨[0, 0, 1, 0, 0, 0], ⟨[1], [0], [], []⟩, [1, 0, 0]⟩, 1),
    (⟨[0, 0, 1, 0, 0, 0], ⟨[], [], [], []⟩, [1, 0, 0]⟩, 5)]⟩, by simp [WF], by
      intro x hx; simp at hx; rcases hx with rfl | rfl <;> simp [ZOK], by
      intro d; simp; omega⟩

end Ajd.Svvj
