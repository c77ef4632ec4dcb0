import Verif.Lemmas.Svij
import Verif.Lemmas.SvvjErr

/-! C40, C48: moments of the model with independent jumps in the variance and in the price. -/

namespace Ajd.Svij
open Poly MvPolynomial ItoCond MeasureTheory

/-- C40. The `n`-th element of `cmoments_y_to(l)` is the binomial convolution of the central moments
that `mdl_svvj` returns with those of the compound Poisson law of the jumps of the price. -/
theorem C40_cmoments (l : ℕ) : ∃ cs ms, Svvj.cmomentsYTo l = .ok cs ∧ cmomentsYTo l = .ok ms ∧
    ms.length = cs.length ∧ ∀ (n : ℕ) r, ms[n]? = some r →
      r.keyfor = ["e^{kt}", "t", "k^{-}", "v0-theta", "theta", "sigma", "l_{1:n}", "o_{1:n}",
        "p_{2:n}", "q_{2:n}", "sigma/2k", "rho-sigma/2k", "sqrt(1-rho^2)", "lmbd_s", "mu_s",
        "sigma_s"] ∧ r.WF ∧ r.Keys KC ∧ (n ≠ 1 → r.NoZero) ∧
      ∀ p : Par, 0 ≤ p.lam * p.h → ev (vC p) r = ∑ i ∈ Finset.range (n + 1), n.choose i *
        (ev (Svvj.vC p.toPar) (cs.getD i ⟨[], []⟩) *
          ∫ z, (z - ∫ w, w ∂jumpLaw p) ^ (n - i) ∂jumpLaw p) := by
  obtain ⟨cs, ms, e1, e2, _, l1, l2, hm⟩ := cmoments_conv _ intEIEZ l (Svvj.code_spec l)
  exact ⟨cs, ms, e1, e2, by rw [l1, l2], hm⟩

/-- C40. The same for the moments. -/
theorem C40_moments (l : ℕ) : ∃ cs ms, Svvj.momentsYTo l = .ok cs ∧ momentsYTo l = .ok ms ∧
    cs.length = l + 1 ∧ ms.length = l + 1 ∧ ∀ (n : ℕ) r, ms[n]? = some r →
      r.keyfor = ["e^{kt}", "t", "k^{-}", "beta_t", "mu-theta/2", "v0-theta", "theta", "sigma",
        "l_{1:n}", "o_{1:n}", "p_{2:n}", "q_{2:n}", "sigma/2k", "rho-sigma/2k", "sqrt(1-rho^2)",
        "lmbd_s", "mu_s", "sigma_s"] ∧ r.WF ∧ r.Keys KM ∧ r.NoZero ∧
      ∀ p : Par, 0 ≤ p.lam * p.h → ev (vM p) r = ∑ i ∈ Finset.range (n + 1), n.choose i *
        (ev (Svvj.vM p.toPar) (cs.getD i ⟨[], []⟩) * ∫ z, z ^ (n - i) ∂jumpLaw p) := by
  obtain ⟨cs, ms, e1, e2, _, l1, l2, hm⟩ := moments_conv _ intEIEZ l
    (Svvj.momentsWith_spec Svvj.Right Svvj.Right_mono intEIEZ l (Svvj.code_spec l))
  exact ⟨cs, ms, e1, e2, l1, l2, hm⟩

theorem central_value (OKn : ℕ → Svvj.Par → Prop) (hO : ∀ n m p, m ≤ n → OKn n p → OKn m p)
    (cs : List JPoly) (hc : ∀ (n : ℕ) r, cs[n]? = some r → Svvj.IsCm OKn n r) (n : ℕ)
    (hn : n < cs.length) (r : JPoly) (hr : IsConvC cs n r) (p : Par) (hp : p.toPar.OK)
    (hl : 0 ≤ p.lam) (E : Fsv1.Rv →ₗ[ℝ] ℝ) (hE : Svvj.CondLaw p.toPar E) (h : OKn n p.toPar) :
    ev (vC p) r = expect p E fun z => (ret p z - C (expect p E (ret p))) ^ n := by
  rw [hr.2.2.2.2 p (mul_nonneg hl hp.h), central_sum hp hE n]
  refine Finset.sum_congr rfl fun i hi => ?_
  have hi' : i ≤ n := by simpa [Nat.lt_succ_iff] using hi
  have hg := List.getElem?_eq_getElem (show i < cs.length by omega)
  rw [List.getD_eq_getElem?_getD, hg, Option.getD_some, Svvj.centred hp hE,
    (hc i _ hg).2.2.2.2.2 p.toPar E hp hE (hO n i _ hi' h)]

theorem raw_value (OKn : ℕ → Svvj.Par → Prop) (hO : ∀ n m p, m ≤ n → OKn n p → OKn m p)
    (cs : List JPoly) (hc : ∀ (n : ℕ) r, cs[n]? = some r → Svvj.IsM OKn n r) (n : ℕ)
    (hn : n < cs.length) (r : JPoly) (hr : IsConvM cs n r) (p : Par) (hp : p.toPar.OK)
    (hl : 0 ≤ p.lam) (E : Fsv1.Rv →ₗ[ℝ] ℝ) (hE : Svvj.CondLaw p.toPar E) (h : OKn n p.toPar) :
    ev (vM p) r = expect p E fun z => ret p z ^ n := by
  rw [hr.2.2.2.2 p (mul_nonneg hl hp.h), raw_sum p E n]
  refine Finset.sum_congr rfl fun i hi => ?_
  have hi' : i ≤ n := by simpa [Nat.lt_succ_iff] using hi
  have hg := List.getElem?_eq_getElem (show i < cs.length by omega)
  rw [List.getD_eq_getElem?_getD, hg, Option.getD_some,
    (hc i _ hg).2.2.2.2 p.toPar E hp hE (hO n i _ hi' h)]

/-- C48, part. Full statement: `cm(l, par)` is the `l`-th central moment of the return. It always
returns a number, right up to order 3, and for all orders if the variance does not jump. Missing: orders
from 4 on with jumps of the variance, where the moments of `mdl_svvj` are wrong (`C48_cm_wrong`). -/
theorem C48_cm_partial (l : ℕ) (hl : 1 ≤ l) (p : Par) (hp : p.toPar.OK) (hlam : 0 ≤ p.lam) :
    ∃ x : ℝ, (∃ c, ∀ fuel, c ≤ fuel → cm fuel l p = some (.ok x)) ∧
      ∀ E, Svvj.CondLaw p.toPar E → p.jumpsize = [] ∨ l ≤ 3 →
        x = expect p E fun z => (ret p z - C (expect p E (ret p))) ^ l := by
  obtain ⟨cs, ms, e1, e2, hc, l1, l2, hm⟩ := cmoments_conv _ intEIEZ l (Svvj.code_spec l)
  have hlast : ms.getLast? = some ms[l] := by
    rw [List.getLast?_eq_getElem?, show ms.length - 1 = l by omega,
      List.getElem?_eq_getElem (by omega)]
  have hr := hm l ms[l] (List.getElem?_eq_getElem (by omega))
  obtain ⟨c, hcc⟩ := poly2numC_spec ms[l] hr.2.2.1 p hp
  refine ⟨ev (vC p) ms[l], ⟨c, fun fuel hf => ?_⟩, fun E hE hR => ?_⟩
  · have e' : cmomentsYTo l = .ok ms := e2
    rw [cm, cmomentY, e', ok_bind, pyLast, hlast]
    exact hcc fuel hf
  · exact central_value _ Svvj.Right_mono cs hc l (by omega) _ hr p hp hlam E hE hR

/-- C48, part. Full statement: `m(l, par)` is the `l`-th moment of the return. Proved and missing as for
`C48_cm_partial`; order 0 is right too. -/
theorem C48_m_partial (l : ℕ) (p : Par) (hp : p.toPar.OK) (hlam : 0 ≤ p.lam) :
    ∃ x : ℝ, (∃ c, ∀ fuel, c ≤ fuel → m fuel l p = some (.ok x)) ∧
      ∀ E, Svvj.CondLaw p.toPar E → p.jumpsize = [] ∨ l ≤ 3 →
        x = expect p E fun z => ret p z ^ l := by
  obtain ⟨cs, ms, e1, e2, hc, l1, l2, hm⟩ := moments_conv _ intEIEZ l
    (Svvj.momentsWith_spec Svvj.Right Svvj.Right_mono intEIEZ l (Svvj.code_spec l))
  have hlast : ms.getLast? = some ms[l] := by
    rw [List.getLast?_eq_getElem?, show ms.length - 1 = l by omega,
      List.getElem?_eq_getElem (by omega)]
  have hr := hm l ms[l] (List.getElem?_eq_getElem (by omega))
  obtain ⟨c, hcc⟩ := poly2numM_spec ms[l] hr.2.2.1 p hp
  refine ⟨ev (vM p) ms[l], ⟨c, fun fuel hf => ?_⟩, fun E hE hR => ?_⟩
  · have e' : momentsYTo l = .ok ms := e2
    rw [m, momentY, e', ok_bind, pyLast, hlast]
    exact hcc fuel hf
  · exact raw_value _ Svvj.Right_mono cs hc l (by omega) _ hr p hp hlam E hE hR

/-- C48. With `int_e_IEZ_poly` repaired all moments and central moments are right. -/
theorem C48_repaired (l : ℕ) : (∃ ms, cmomentsWith intEIEZFixed l = .ok ms ∧
      ms.length = max l 1 + 1 ∧ ∀ (n : ℕ) r, ms[n]? = some r → ∀ p : Par, p.toPar.OK → 0 ≤ p.lam →
        ∀ E, Svvj.CondLaw p.toPar E →
          ev (vC p) r = expect p E fun z => (ret p z - C (expect p E (ret p))) ^ n) ∧
    (∃ ms, momentsWith intEIEZFixed l = .ok ms ∧ ms.length = l + 1 ∧
      ∀ (n : ℕ) r, ms[n]? = some r → ∀ p : Par, p.toPar.OK → 0 ≤ p.lam →
        ∀ E, Svvj.CondLaw p.toPar E → ev (vM p) r = expect p E fun z => ret p z ^ n) := by
  obtain ⟨cs, ms, e1, e2, hc, l1, l2, hm⟩ := cmoments_conv _ intEIEZFixed l (Svvj.fixed_spec l)
  obtain ⟨cs', ms', e1', e2', hc', l1', l2', hm'⟩ := moments_conv _ intEIEZFixed l
    (Svvj.momentsWith_spec (fun _ _ => True) (fun _ _ _ _ h => h) intEIEZFixed l (Svvj.fixed_spec l))
  refine ⟨⟨ms, e2, l2, fun n r hr p hp hlam E hE => ?_⟩,
    ⟨ms', e2', l2', fun n r hr p hp hlam E hE => ?_⟩⟩
  · have hn := (List.getElem?_eq_some_iff.1 hr).1
    exact central_value _ (fun _ _ _ _ h => h) cs hc n (by omega) r (hm n r hr) p hp hlam E hE trivial
  · have hn := (List.getElem?_eq_some_iff.1 hr).1
    exact raw_value _ (fun _ _ _ _ h => h) cs' hc' n (by omega) r (hm' n r hr) p hp hlam E hE trivial

/-- C48. The error of `mdl_svvj` at order 4 carries over unchanged. -/
theorem C48_cm_wrong : ∃ (p : Par) (x : ℝ), p.toPar.OK ∧ p.toPar.Simple ∧ 0 < p.lam ∧ 0 < p.σs ∧
    (∃ E, Svvj.CondLaw p.toPar E) ∧ (∃ c, ∀ fuel, c ≤ fuel → cm fuel 4 p = some (.ok x)) ∧
    ∀ E, Svvj.CondLaw p.toPar E →
      x ≠ expect p E fun z => (ret p z - C (expect p E (ret p))) ^ 4 := by
  obtain ⟨cs, ms, e1, e2, hc, l1, l2, hm⟩ := cmoments_conv _ intEIEZ 4 (Svvj.code_spec 4)
  obtain ⟨q, eq, _, qv⟩ := Svvj.err4
  have hlast : ms.getLast? = some ms[4] := by
    rw [List.getLast?_eq_getElem?, show ms.length - 1 = 4 by omega,
      List.getElem?_eq_getElem (by omega)]
  have hr := hm 4 ms[4] (List.getElem?_eq_getElem (by omega))
  have hq : cs.getD 4 ⟨[], []⟩ = q := by
    have e' : Svvj.cmomentsYTo 4 = .ok cs := e1
    rw [Svvj.cmomentY, e', ok_bind, pyLast, List.getLast?_eq_getElem?,
      show cs.length - 1 = 4 by omega, List.getElem?_eq_getElem (by omega)] at eq
    rw [List.getD_eq_getElem?_getD, List.getElem?_eq_getElem (by omega), Option.getD_some]
    exact Except.ok.inj eq
  have hp : (⟨Svvj.par1, 1, 0, 1⟩ : Par).toPar.OK := Svvj.par1_ok
  obtain ⟨c, hcc⟩ := poly2numC_spec ms[4] hr.2.2.1 ⟨Svvj.par1, 1, 0, 1⟩ hp
  refine ⟨⟨Svvj.par1, 1, 0, 1⟩, ev (vC ⟨Svvj.par1, 1, 0, 1⟩) ms[4], hp, Svvj.par1_simple, one_pos, one_pos,
    ⟨_, Svvj.condLaw_condE _⟩, ⟨c, fun fuel hf => ?_⟩, fun E hE hx => ?_⟩
  · have e' : cmomentsYTo 4 = .ok ms := e2
    rw [cm, cmomentY, e', ok_bind, pyLast, hlast]
    exact hcc fuel hf
  · rw [hr.2.2.2.2 _ (mul_nonneg zero_le_one hp.h), central_sum hp hE 4,
      Finset.sum_range_succ, Finset.sum_range_succ (n := 4)] at hx
    have hsum : ∀ i ∈ Finset.range 4, (Nat.choose 4 i : ℝ) *
        (ev (Svvj.vC Svvj.par1) (cs.getD i ⟨[], []⟩) * ∫ z, (z - ∫ w, w ∂jumpLaw ⟨Svvj.par1, 1, 0, 1⟩) ^
          (4 - i) ∂jumpLaw ⟨Svvj.par1, 1, 0, 1⟩) = (Nat.choose 4 i : ℝ) *
        (E ((Svvj.ret Svvj.par1 - C (E (Svvj.ret Svvj.par1))) ^ i) *
          ∫ z, (z - ∫ w, w ∂jumpLaw ⟨Svvj.par1, 1, 0, 1⟩) ^ (4 - i) ∂jumpLaw ⟨Svvj.par1, 1, 0, 1⟩) := by
      intro i hi
      have hi' : i < 4 := by simpa using hi
      have hg := List.getElem?_eq_getElem (show i < cs.length by omega)
      rw [List.getD_eq_getElem?_getD, hg, Option.getD_some, Svvj.centred hp hE,
        (hc i _ hg).2.2.2.2.2 Svvj.par1 E hp hE (Or.inr (by omega))]
    rw [Finset.sum_congr rfl hsum, hq] at hx
    have h4 := qv Svvj.par1 E hp hE (by simp [Svvj.par1])
    simp only [Nat.choose_self, Nat.sub_self, pow_zero, integral_const, probReal_univ, smul_eq_mul,
      mul_one, Nat.cast_one, one_mul] at hx
    rw [Svvj.centred hp hE, h4] at hx
    exact Svvj.par1_err (by linarith)

/-- C48. For order 0 `cm` returns 0 instead of 1. -/
theorem C48_cm_zero (p : Par) (hp : p.toPar.OK) :
    ∃ c, ∀ fuel, c ≤ fuel → cm fuel 0 p = some (.ok 0) := by
  have e : cmomentY 0 = .ok ⟨kfJ Svvj.kfC, [(keyC0, 0)]⟩ := by decide +kernel
  obtain ⟨c, hc⟩ := Svvj.evalLoop_spec p.k p.jumptime p.jumpsize hp.len.ge
    (fun K => Svvj.wC p.toPar K * wJ p K) [(keyC0, 0)] (by
      intro e he; simp at he; subst he; simp [keyC0, ZOK])
  refine ⟨c, fun fuel hf => ?_⟩
  rw [cm, e]
  simp only [poly2numC, hc fuel hf]
  simp

example : ∃ p : Par, p.toPar.OK ∧ 0 < p.lam ∧ p.jumpsize ≠ [] ∧ ∃ E, Svvj.CondLaw p.toPar E :=
  ⟨⟨Svvj.par1, 1, 0, 1⟩, Svvj.par1_ok, one_pos, by simp [Svvj.par1], _, Svvj.condLaw_condE _⟩
example : (cmomentY 3).map (fun r => decide (30 < r.items.length)) = .ok true := by decide +kernel

end Ajd.Svij
