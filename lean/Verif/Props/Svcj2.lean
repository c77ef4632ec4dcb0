import Verif.Lemmas.Svcj2
import Verif.Lemmas.SvvjErr

/-! C41, C49: the model with contemporaneous jumps given the jumps of the variance. -/

namespace Ajd.Svcj
open Poly MvPolynomial ItoCond MeasureTheory ProbabilityTheory

/-- C41. `moment_IZs(m, J)` ends, raises nothing, and is for every number of jumps of the variance and
every jump sizes the `m`-th moment of the sum of the jumps of the price. -/
theorem C41_moment_IZs (m N : ℕ) : ∃ c r,
    (∀ fuel, c ≤ fuel → (momentIZs fuel m N).run = some (.ok r)) ∧
    r.keyfor = ["mu_s", "rho_J", "sigma_s", "J_{1:n}"] ∧ r.WF ∧
    r.Keys (fun k => k.length = 3 + N ∧ ∀ i, 0 ≤ k.getD i 0) ∧
    ∀ (μ ρ σ : ℝ) (J : List ℝ), J.length = N →
      ev (vIZ μ ρ σ J) r = ∫ z, z ^ m ∂(jumpSum μ ρ σ J) := by
  obtain ⟨c, r, h1, h2, h3, h4, h5⟩ := momentIZs_spec m N
  exact ⟨c, r, fun f hf => by rw [h1 f hf]; rfl, h2, h3, h4, h5⟩

/-- C41. `cmoment_IZs(m, J)` is the `m`-th central moment of that sum; it depends on the number of jumps
only. -/
theorem C41_cmoment_IZs (m N : ℕ) : ∃ c r,
    (∀ fuel, c ≤ fuel → (cmomentIZs fuel m N).run = some (.ok r)) ∧
    r.keyfor = ["sigma_s"] ∧ r.WF ∧ r.Keys (fun k => k.length = 1 ∧ ∀ i, 0 ≤ k.getD i 0) ∧
    ∀ (μ ρ σ : ℝ) (J : List ℝ), J.length = N → ev (fun k => σ ^ ix k 0) r =
      ∫ z, (z - ∫ w, w ∂(jumpSum μ ρ σ J)) ^ m ∂(jumpSum μ ρ σ J) := by
  obtain ⟨c, r, h1, h2, h3, h4, h5⟩ := cmomentIZs_spec m N
  exact ⟨c, r, fun f hf => by rw [h1 f hf]; rfl, h2, h3, h4, h5⟩

/-- C41. The specified law: the sum is normal with mean `N μ + ρ Σ J` and variance `N σ²`. -/
theorem C41_law (μ ρ σ : ℝ) (J : List ℝ) : jumpSum μ ρ σ J =
    gaussianReal (J.length * μ + ρ * J.sum) (J.length * (σ ^ 2).toNNReal) := jumpSum_eq μ ρ σ J

example : (momentIZs 100 2 3).run.map (fun r => r.map fun p => p.items.length) = some (.ok 11) := by
  decide +kernel
example : (cmomentIZs 100 4 3).run = some (.ok ⟨["sigma_s"], [([4], 27)]⟩) := by decide +kernel

theorem central_value (OKn : ℕ → Svvj.Par → Prop) (hO : ∀ n m p, m ≤ n → OKn n p → OKn m p)
    (cs : List JPoly) (hc : ∀ (n : ℕ) r, cs[n]? = some r → Svvj.IsCm OKn n r) (n : ℕ)
    (hn : n < cs.length) (r : JPoly) (p : Par) (hr : IsConvC p.jumpsize.length cs n r)
    (hp : p.toPar.OK) (E : Fsv1.Rv →ₗ[ℝ] ℝ) (hE : Svvj.CondLaw p.toPar E) (h : OKn n p.toPar) :
    ev (vC p) r = expect p E fun z => (ret p z - C (expect p E (ret p))) ^ n := by
  rw [hr.2.2.2.2 p rfl, central_sum hp hE n]
  refine Finset.sum_congr rfl fun i hi => ?_
  have hi' : i ≤ n := by simpa [Nat.lt_succ_iff] using hi
  have hg := List.getElem?_eq_getElem (show i < cs.length by omega)
  rw [List.getD_eq_getElem?_getD, hg, Option.getD_some, Svvj.centred hp hE,
    (hc i _ hg).2.2.2.2.2 p.toPar E hp hE (hO n i _ hi' h)]

theorem raw_value (OKn : ℕ → Svvj.Par → Prop) (hO : ∀ n m p, m ≤ n → OKn n p → OKn m p)
    (cs : List JPoly) (hc : ∀ (n : ℕ) r, cs[n]? = some r → Svvj.IsM OKn n r) (n : ℕ)
    (hn : n < cs.length) (r : JPoly) (p : Par) (hr : IsConvM p.jumpsize.length cs n r)
    (hp : p.toPar.OK) (E : Fsv1.Rv →ₗ[ℝ] ℝ) (hE : Svvj.CondLaw p.toPar E) (h : OKn n p.toPar) :
    ev (vM p) r = expect p E fun z => ret p z ^ n := by
  rw [hr.2.2.2.2 p rfl, raw_sum p E n]
  refine Finset.sum_congr rfl fun i hi => ?_
  have hi' : i ≤ n := by simpa [Nat.lt_succ_iff] using hi
  have hg := List.getElem?_eq_getElem (show i < cs.length by omega)
  rw [List.getD_eq_getElem?_getD, hg, Option.getD_some,
    (hc i _ hg).2.2.2.2 p.toPar E hp hE (hO n i _ hi' h)]

/-- how `cm` runs, given the list it evaluates the last element of -/
theorem cm_run (l : ℕ) (p : Par) (hp : p.toPar.OK) (c : ℕ) (ms : List JPoly)
    (h : ∀ fuel, c ≤ fuel → cmomentsWith intEIEZ fuel l p.jumpsize.length = pure ms)
    (hn : ms.length = l + 1) (r : JPoly) (hr : ms[l]? = some r) (hK : r.Keys KC) :
    ∃ c, ∀ fuel, c ≤ fuel → (cm fuel l p).run = some (.ok (ev (vC p) r)) := by
  obtain ⟨c', h'⟩ := poly2numC_spec r hK p hp
  refine ⟨max c c', fun fuel hf => ?_⟩
  have e1 : cmomentsYTo fuel l p.jumpsize.length = pure ms := h fuel (le_trans (le_max_left _ _) hf)
  have e2 : runE (pyLast ms) = pure r := by
    rw [pyLast, List.getLast?_eq_getElem?, show ms.length - 1 = l by omega, hr]; rfl
  rw [cm, cmomentY, e1, pure_bind, e2, pure_bind, h' fuel (le_trans (le_max_right _ _) hf)]
  rfl

/-- C49, part. Full statement: `cm(l, par)` is the `l`-th central moment of the return given the initial
variance and the jumps of the variance. It ends, always with a number, right up to order 3, and for all
orders if there is no jump. Missing: orders from 4 on with jumps, where the moments of `mdl_svvj` are
wrong (`C49_cm_wrong`). -/
theorem C49_cm_partial (l : ℕ) (hl : 1 ≤ l) (p : Par) (hp : p.toPar.OK) :
    ∃ x : ℝ, (∃ c, ∀ fuel, c ≤ fuel → (cm fuel l p).run = some (.ok x)) ∧
      ∀ E, Svvj.CondLaw p.toPar E → p.jumpsize = [] ∨ l ≤ 3 →
        x = expect p E fun z => (ret p z - C (expect p E (ret p))) ^ l := by
  obtain ⟨c, cs, ms, e1, e2, hc, l1, l2, hm⟩ := cmoments_conv _ intEIEZ l p.jumpsize.length
    (Svvj.code_spec l)
  have hg := List.getElem?_eq_getElem (show l < ms.length by omega)
  have hr := hm l ms[l] hg
  exact ⟨ev (vC p) ms[l], cm_run l p hp c ms e2 (by omega) _ hg hr.2.2.1, fun E hE hR =>
    central_value _ Svvj.Right_mono cs hc l (by omega) _ p hr hp E hE hR⟩

/-- C49, part. Full statement: `m(l, par)` is the `l`-th moment of the return given the initial variance
and the jumps of the variance. Proved and missing as for `C49_cm_partial`; order 0 raises (`C49_m_zero`). -/
theorem C49_m_partial (l : ℕ) (hl : 1 ≤ l) (p : Par) (hp : p.toPar.OK) :
    ∃ x : ℝ, (∃ c, ∀ fuel, c ≤ fuel → (m fuel l p).run = some (.ok x)) ∧
      ∀ E, Svvj.CondLaw p.toPar E → p.jumpsize = [] ∨ l ≤ 3 →
        x = expect p E fun z => ret p z ^ l := by
  obtain ⟨c, cs, ms, e1, e2, hc, l1, l2, hm⟩ := moments_conv _ intEIEZ l p.jumpsize.length
    (Svvj.momentsWith_spec Svvj.Right Svvj.Right_mono intEIEZ l (Svvj.code_spec l))
  have hg := List.getElem?_eq_getElem (show l - 1 < ms.length by omega)
  have hr := hm (l - 1) _ hg
  rw [show l - 1 + 1 = l by omega] at hr
  obtain ⟨c', h'⟩ := poly2numM_spec ms[l - 1] p hr.2.2.1 hp
  refine ⟨ev (vM p) ms[l - 1], ⟨max c c', fun fuel hf => ?_⟩, fun E hE hR =>
    raw_value _ Svvj.Right_mono cs hc l (by omega) _ p hr hp E hE hR⟩
  have e' : momentsYTo fuel l p.jumpsize.length = pure (⟨Svvj.kfM ++ kfIZ, [(keyM0, 1)]⟩ :: ms) :=
    e2 fuel (le_trans (le_max_left _ _) hf)
  have e3 : runE (pyLast (⟨Svvj.kfM ++ kfIZ, [(keyM0, 1)]⟩ :: ms)) = pure ms[l - 1] := by
    have e4 : (⟨Svvj.kfM ++ kfIZ, [(keyM0, 1)]⟩ :: ms)[ms.length]? = some ms[l - 1] := by
      have : ms.length = (l - 1) + 1 := by omega
      conv_lhs => rw [this]
      exact hg
    rw [pyLast, List.getLast?_eq_getElem?, List.length_cons, Nat.add_sub_cancel, e4]
    rfl
  rw [m, momentY, e', pure_bind, e3, pure_bind, h' fuel (le_trans (le_max_right _ _) hf)]
  rfl

/-- C49. With `int_e_IEZ_poly` repaired all moments of order at least 1 and all central moments are
right, for every number of jumps. -/
theorem C49_repaired (l N : ℕ) : (∃ c ms,
      (∀ fuel, c ≤ fuel → (cmomentsWith intEIEZFixed fuel l N).run = some (.ok ms)) ∧
      ms.length = max l 1 + 1 ∧ ∀ (n : ℕ) r, ms[n]? = some r → ∀ p : Par, p.toPar.OK →
        p.jumpsize.length = N → ∀ E, Svvj.CondLaw p.toPar E →
          ev (vC p) r = expect p E fun z => (ret p z - C (expect p E (ret p))) ^ n) ∧
    (∃ c m0 ms, (∀ fuel, c ≤ fuel → (momentsWith intEIEZFixed fuel l N).run = some (.ok (m0 :: ms))) ∧
      ms.length = l ∧ ∀ (n : ℕ) r, ms[n]? = some r → ∀ p : Par, p.toPar.OK →
        p.jumpsize.length = N → ∀ E, Svvj.CondLaw p.toPar E →
          ev (vM p) r = expect p E fun z => ret p z ^ (n + 1)) := by
  obtain ⟨c, cs, ms, e1, e2, hc, l1, l2, hm⟩ := cmoments_conv _ intEIEZFixed l N (Svvj.fixed_spec l)
  obtain ⟨c', cs', ms', e1', e2', hc', l1', l2', hm'⟩ := moments_conv _ intEIEZFixed l N
    (Svvj.momentsWith_spec (fun _ _ => True) (fun _ _ _ _ h => h) intEIEZFixed l (Svvj.fixed_spec l))
  refine ⟨⟨c, ms, fun f hf => by rw [e2 f hf]; rfl, l2, fun n r hr p hp hN E hE => ?_⟩,
    ⟨c', _, ms', fun f hf => by rw [e2' f hf]; rfl, l2', fun n r hr p hp hN E hE => ?_⟩⟩
  · have hn := (List.getElem?_eq_some_iff.1 hr).1
    subst hN
    exact central_value _ (fun _ _ _ _ h => h) cs hc n (by omega) r p (hm n r hr) hp E hE trivial
  · have hn := (List.getElem?_eq_some_iff.1 hr).1
    subst hN
    exact raw_value _ (fun _ _ _ _ h => h) cs' hc' (n + 1) (by omega) r p (hm' n r hr) hp E hE trivial

/-- parameters of the counterexample -/
noncomputable def parJ : Par := ⟨Svvj.par1, 0, 1, 1⟩

/-- C49. The error of `mdl_svvj` at order 4 carries over unchanged. -/
theorem C49_cm_wrong : ∃ (p : Par) (x : ℝ), p.toPar.OK ∧ p.toPar.Simple ∧ 0 < p.σs ∧
    (∃ E, Svvj.CondLaw p.toPar E) ∧ (∃ c, ∀ fuel, c ≤ fuel → (cm fuel 4 p).run = some (.ok x)) ∧
    ∀ E, Svvj.CondLaw p.toPar E →
      x ≠ expect p E fun z => (ret p z - C (expect p E (ret p))) ^ 4 := by
  obtain ⟨c, cs, ms, e1, e2, hc, l1, l2, hm⟩ := cmoments_conv _ intEIEZ 4 parJ.jumpsize.length
    (Svvj.code_spec 4)
  obtain ⟨q, eq, _, qv⟩ := Svvj.err4
  have hg := List.getElem?_eq_getElem (show 4 < ms.length by omega)
  have hr := hm 4 ms[4] hg
  have hq : cs.getD 4 ⟨[], []⟩ = q := by
    have e' : Svvj.cmomentsYTo 4 = .ok cs := e1
    rw [Svvj.cmomentY, e', ok_bind, pyLast, List.getLast?_eq_getElem?,
      show cs.length - 1 = 4 by omega, List.getElem?_eq_getElem (by omega)] at eq
    rw [List.getD_eq_getElem?_getD, List.getElem?_eq_getElem (by omega), Option.getD_some]
    exact Except.ok.inj eq
  have hp : parJ.toPar.OK := Svvj.par1_ok
  refine ⟨parJ, ev (vC parJ) ms[4], hp, Svvj.par1_simple, one_pos, ⟨_, Svvj.condLaw_condE _⟩,
    cm_run 4 parJ hp c ms e2 (by omega) _ hg hr.2.2.1, fun E hE hx => ?_⟩
  rw [hr.2.2.2.2 _ rfl, central_sum hp hE 4, Finset.sum_range_succ, Finset.sum_range_succ (n := 4)] at hx
  have hsum : ∀ i ∈ Finset.range 4, (Nat.choose 4 i : ℝ) *
      (ev (Svvj.vC parJ.toPar) (cs.getD i ⟨[], []⟩) * zC parJ (4 - i)) = (Nat.choose 4 i : ℝ) *
      (E ((Svvj.ret parJ.toPar - C (E (Svvj.ret parJ.toPar))) ^ i) * zC parJ (4 - i)) := by
    intro i hi
    have hi' : i < 4 := by simpa using hi
    have hg := List.getElem?_eq_getElem (show i < cs.length by omega)
    rw [List.getD_eq_getElem?_getD, hg, Option.getD_some, Svvj.centred hp hE,
      (hc i _ hg).2.2.2.2.2 parJ.toPar E hp hE (Or.inr (by omega))]
  rw [Finset.sum_congr rfl hsum, hq] at hx
  have h4 := qv Svvj.par1 E hp hE (by simp [Svvj.par1])
  simp only [Nat.choose_self, Nat.sub_self, zC_zero, mul_one, Nat.cast_one, one_mul] at hx
  rw [Svvj.centred hp hE] at hx
  have e5 : parJ.toPar = Svvj.par1 := rfl
  rw [e5, h4] at hx
  exact Svvj.par1_err (by linarith)

/-- C49. For order 0 `cm` returns 0 instead of 1. -/
theorem C49_cm_zero (p : Par) (hp : p.toPar.OK) :
    ∃ c, ∀ fuel, c ≤ fuel → (cm fuel 0 p).run = some (.ok 0) := by
  obtain ⟨c, h⟩ := poly2numC_spec ⟨Svvj.kfC ++ ["sigma_s"], [(keyC0, 0)]⟩ (by
    intro x hx; simp at hx; subst hx
    refine ⟨rfl, by simp [keyC0], by simp [keyC0], by simp [keyC0], by simp [keyC0],
        by simp [keyC0, ZOK], rfl, fun i => ?_⟩
    simp only [keyC0]
    match i with
    | 0 | 1 | 2 | 3 => rfl
    | i + 4 => rfl) p hp
  refine ⟨c, fun fuel hf => ?_⟩
  have e : Svvj.cmomentsYTo 0 = .ok [⟨Svvj.kfC, [(Svvj.keyC0, 1)]⟩, ⟨Svvj.kfC, [(Svvj.keyC0, 0)]⟩] := by
    decide +kernel
  have e' : runE (Svvj.cmomentsWith intEIEZ 0) =
      pure [⟨Svvj.kfC, [(Svvj.keyC0, 1)]⟩, ⟨Svvj.kfC, [(Svvj.keyC0, 0)]⟩] := congrArg runE e
  have e2 : cmomentY fuel 0 p.jumpsize.length = pure ⟨Svvj.kfC ++ ["sigma_s"], [(keyC0, 0)]⟩ := by
    rw [cmomentY, cmomentsYTo, cmomentsWith, e', pure_bind]
    rfl
  rw [cm, e2, pure_bind, h fuel hf]
  simp [ev]

/-- C49. For order 0 `m` raises `IndexError` instead of returning 1: the key of the constant lacks
components that `poly2num` reads. -/
theorem C49_m_zero (p : Par) (hp : p.toPar.OK) :
    ∃ c, ∀ fuel, c ≤ fuel → (m fuel 0 p).run = some (.error .indexError) := by
  obtain ⟨c, h⟩ := Svvj.evalLoop_spec p.k p.jumptime p.jumpsize hp.len.ge (fun _ => 1) [(keyM0, 1)]
    (by intro e he; simp at he; subst he; simp [keyM0, ZOK])
  refine ⟨c, fun fuel hf => ?_⟩
  have e : Svvj.momentsYTo 0 = .ok [Svvj.firstM] := by decide +kernel
  have e' : runE (Svvj.momentsWith intEIEZ 0) = pure [Svvj.firstM] := congrArg runE e
  have e2 : momentY fuel 0 p.jumpsize.length = pure ⟨Svvj.kfM ++ kfIZ, [(keyM0, 1)]⟩ := by
    rw [momentY, momentsYTo, momentsWith, e', pure_bind]
    rfl
  have hw : wJM p keyM0 = .error .indexError := rfl
  have hz := h fuel hf 0
  rw [Svvj.evalLoop] at hz
  rw [m, e2, pure_bind, poly2numM, evalLoop]
  cases hf' : Utils.fZ fuel keyM0.z.l keyM0.z.o keyM0.z.p keyM0.z.q p.k p.jumptime p.jumpsize with
  | none => rw [hf'] at hz; cases hz
  | some r =>
    cases r with
    | error er => rw [hf'] at hz; cases hz
    | ok z => rw [hw]; rfl

example : ∃ p : Par, p.toPar.OK ∧ p.jumpsize ≠ [] ∧ p.ρJ ≠ 0 ∧ ∃ E, Svvj.CondLaw p.toPar E :=
  ⟨parJ, Svvj.par1_ok, by simp [parJ, Svvj.par1], one_ne_zero, _, Svvj.condLaw_condE _⟩

end Ajd.Svcj
