import Verif.Props.Law
import Verif.Props.Law2
import Verif.Props.Fsv2
import Verif.Props.Fsv2j
import Verif.Props.CondSde
import Verif.Spec.Sv2

/-! C59: without jumps the models with jumps are the models without. -/

namespace Ajd.Gen
open MvPolynomial MeasureTheory

variable {σ : Type} [Fintype σ]

theorem dynkinAt_none {c : JumpDiff σ} {E0 : MvPolynomial σ ℝ →ₗ[ℝ] ℝ} {E : ℝ → MvPolynomial σ ℝ →ₗ[ℝ] ℝ}
    {N : ℕ} (hN : N = 0) {s : Fin N → ℝ} {κ : Fin N → Measure (σ → ℝ)} (h0 : E 0 = E0) (hE : c.Dynkin E0 E) :
    c.DynkinAt s κ E0 E := by
  subst hN
  refine ⟨h0, fun f a b ha _ => (hE.cont f).mono fun t ht => ha.trans ht.1, fun f g hg a b ha hab _ => ?_,
    fun i => i.elim0⟩
  have hi : ∀ u v : ℝ, 0 ≤ u → 0 ≤ v → IntervalIntegrable (fun r => E r g) volume u v := fun u v hu hv =>
    ((hE.cont g).mono (fun r hr => (le_inf hu hv).trans hr.1)).intervalIntegrable
  rw [hE.formula f g hg b (ha.trans hab), hE.formula f g hg a ha, add_assoc,
    intervalIntegral.integral_add_adjacent_intervals (hi _ _ le_rfl ha) (hi _ _ ha (ha.trans hab))]

end Ajd.Gen

namespace Ajd.Sv
open MvPolynomial MeasureTheory Gen

theorem gen_zero (mu k θ σ ρ mj sj : ℝ) (f g : MvPolynomial (Fin 2) ℝ) :
    (svj mu k θ σ ρ 0 mj sj).IsGen f g ↔ (heston mu k θ σ ρ).IsGen f g := by
  simp [JumpDiff.IsGen, svj, heston]

theorem gen2_zero (mu k θ σ ρ mj sj : ℝ) (f g : MvPolynomial (Fin 3) ℝ) :
    (svj2 mu k θ σ ρ 0 mj sj).IsGen f g ↔ (heston2 mu k θ σ ρ).IsGen f g := by
  simp [JumpDiff.IsGen, svj2, heston2]

/-- If jumps come at rate 0, `m`, `cm` and `cov` of `mdl_1fsvj` return what those of `mdl_1fsv` return, whatever the
law of the jumps. -/
theorem C59_fsv1j (p : Fsv1j.Par) (hk : 0 < p.k) (hθ : 0 < p.θ) (hσ : 0 < p.σ) (hh : 0 ≤ p.h) (hρ : 0 ≤ 1 - p.ρ ^ 2)
    (hl : p.lam = 0) : (∀ l : ℕ, Fsv1j.m l p = Fsv1.m l p.toPar ∧ Fsv1j.cm l p = Fsv1.cm l p.toPar) ∧
      ∀ l1 l2 : ℕ, Fsv1j.cov l1 l2 p = Fsv1.cov l1 l2 p.toPar := by
  obtain ⟨E0, E, E0', E', h0, hE, h0', hE'⟩ := sde_exists p.toPar (Ito.vMoment p.k p.θ p.σ)
  have hJ := dynkin_congr (fun f g => (gen_zero p.μ p.k p.θ p.σ p.ρ p.μj p.σj f g).1) hE
  have hJ' := dynkin_congr (fun f g => (gen2_zero p.μ p.k p.θ p.σ p.ρ p.μj p.σj f g).1) hE'
  rw [← hl] at hJ hJ'
  refine ⟨fun l => ⟨?_, ?_⟩, fun l1 l2 => ?_⟩
  · rw [C30_m_sde p hk hθ hσ hh hρ hl.ge E0 h0 E hJ, C26_m_sde p.toPar hk hθ hσ hh hρ E0 h0 E hE]
  · rw [C30_cm_sde p hk hθ hσ hh hρ hl.ge E0 h0 E hJ, C26_cm_sde p.toPar hk hθ hσ hh hρ E0 h0 E hE]
  · rw [C30_cov_sde p hk hθ hσ hh hρ hl.ge E0 h0 E hJ E0' h0' E' hJ',
      C27_cov_sde p.toPar hk hθ hσ hh hρ E0 h0 E hE E0' h0' E' hE']

example : ∃ p : Fsv1j.Par, 0 < p.k ∧ 0 < p.θ ∧ 0 < p.σ ∧ 0 < p.h ∧ 0 < 1 - p.ρ ^ 2 ∧ p.lam = 0 ∧ 0 < p.μj :=
  ⟨⟨⟨1, 1, 1, -1 / 2, 1, 1⟩, 0, 1, 1⟩, by norm_num⟩

end Ajd.Sv

namespace Ajd.Srjd
open Sv

/-- the stationary law of the square-root diffusion is a gamma law -/
theorem stationary_gamma (k θ σ : ℝ) {μ : ℝ} (hk : k ≠ 0) (hμ : 0 < μ) : Stationary k θ σ 0 μ (Ito.vMoment k θ σ) := by
  refine ⟨by simp [Ito.vMoment], fun n q hq => ?_⟩
  have e : q = genPoly k θ σ 0 μ n := Polynomial.funext fun v => by rw [hq, gen_pow _ _ _ _ hμ]
  rw [e, ← Lp_eq, genPoly, map_add, map_add, Lp_X, Lp_X]
  cases n with
  | zero => simp
  | succ n =>
    simp only [zero_mul, map_zero, Finset.sum_const_zero, add_zero, Nat.add_sub_cancel]
    rw [Ito.vMoment, Ito.vMoment, Finset.prod_range_succ]
    push_cast
    field_simp
    ring

/-- If jumps come at rate 0, `moment_v` of mdl_srjd/mom.py gives the moments of the gamma law, which is what `moment_v`
of ito_mom.py gives. -/
theorem C59_srjd (k θ σ μ : ℝ) (hk : k ≠ 0) (hμ : 0 < μ) (d n : ℕ) (hd : n ≤ d) (s : Bool) :
    ((umomentV d n s).map (Poly.ev (statVal k θ σ 0 μ)) : Except PyErr ℝ) = .ok (Ito.vMoment k θ σ n) := by
  obtain ⟨r, e, -, -, v⟩ := C51_moment_v d n hd s
  have := v k θ σ 0 μ hk le_rfl hμ _ (stationary_gamma k θ σ hk hμ)
  simp only [zero_mul, zero_div, add_zero, ite_self] at this
  rw [e, ← this]
  rfl

end Ajd.Srjd

namespace Ajd.SvcjI
open MvPolynomial MeasureTheory Gen

theorem gen_zero (p : SPar) (hl : p.lmbd = 0) (f g : MvPolynomial (Fin 2) ℝ) :
    p.sde.IsGen f g ↔ (Sv.heston p.mu p.k p.theta p.sigma p.rho).IsGen f g := by
  simp [JumpDiff.IsGen, SPar.sde, svcj, Sv.heston, hl]

/-- the parameters of `mdl_1fsv` -/
def SPar.fsv (p : SPar) : Fsv1.Par := ⟨p.k, p.theta, p.sigma, p.rho, p.mu, p.h⟩

/-- If jumps come at rate 0, `cm_y` of mdl_svcj/cond_cmom.py returns what `cond_cm` of `mdl_1fsv` returns. -/
theorem C59_svcj_cond (p : SPar) (hp : Ok p) (hl : p.lmbd = 0) (n : ℕ) (hn : 1 ≤ n) :
    cmYc n p = Fsv1c.condCm n p.fsv p.v0 := by
  obtain ⟨Q, hQ, -⟩ := Sv.heston_semi p.mu p.k p.theta p.sigma p.rho
  rw [C43_cm_y_cond n p hp _ (dynkin_congr (fun f g => (gen_zero p hl f g).1) (hQ _)),
    Sv.C29_cond_cm_sde p.fsv hp.k hp.h hp.rho p.v0 _ (hQ _) n hn]
  rfl

/-- If jumps come at rate 0, `unm_y` of mdl_svcj/mom.py and `cm_y` of cmom.py return what `m` and `cm` of `mdl_1fsv`
return. -/
theorem C59_svcj (n : ℕ) : ∃ d0, ∀ d, d0 ≤ d → ∀ p : SPar, Ok p → 0 < p.k → 0 < p.theta → 0 < p.sigma → p.lmbd = 0 →
    unmY d n p = Fsv1.m n p.fsv ∧ cmY d n p = Fsv1.cm n p.fsv := by
  obtain ⟨d1, h1⟩ := C43_unm_y n
  obtain ⟨d2, h2⟩ := C43_cm_y n
  refine ⟨max d1 d2, fun d hd p hp hk hθ hσ hl => ?_⟩
  obtain ⟨E0, E, -, -, h0, hE, -⟩ := Sv.sde_exists p.fsv (Ito.vMoment p.k p.theta p.sigma)
  have hJ := dynkin_congr (fun f g => (gen_zero p hl f g).1) hE
  have hM := Srjd.stationary_gamma p.k p.theta p.sigma hk.ne' hp.mu_v
  rw [← hl] at hM
  constructor
  · rw [h1 d ((le_max_left _ _).trans hd) p hp hl.ge E0 _ ⟨h0.y, h0.v⟩ hM E hJ, Sv.C26_m_sde p.fsv hk hθ hσ hp.h hp.rho E0 h0 E hE]
    rfl
  · rw [h2 d ((le_max_right _ _).trans hd) p hp hl.ge E0 _ ⟨h0.y, h0.v⟩ hM E hJ,
      Sv.C26_cm_sde p.fsv hk hθ hσ hp.h hp.rho E0 h0 E hE]
    rfl

/-- `C59_svcj_cond`, `C59_svcj` -/
example : ∃ p : SPar, Ok p ∧ 0 < p.k ∧ 0 < p.theta ∧ 0 < p.sigma ∧ p.lmbd = 0 ∧ 0 < p.h ∧ 0 < p.rhoJ := by
  refine ⟨⟨⟨1, 0, 1, 1, 1⟩, 1, 1, 1, 1, 1 / 2, 1, 1⟩, ⟨?_, ?_, ?_, ?_⟩, ?_⟩ <;> norm_num

end Ajd.SvcjI

namespace Ajd
open MvPolynomial MeasureTheory Gen

/-- the parameters of `mdl_1fsv` -/
def Svvj.Par.fsv (p : Svvj.Par) : Fsv1.Par := ⟨p.k, p.θ, p.σ, p.ρ, p.μ, p.h⟩

theorem point_exists (p : Svvj.Par) : ∃ E, E 0 = (aeval ![p.v0, 0]).toLinearMap ∧
    (Sv.heston p.μ p.k p.θ p.σ p.ρ).Dynkin (aeval ![p.v0, 0]).toLinearMap E := by
  obtain ⟨Q, hQ, -⟩ := Sv.heston_semi p.μ p.k p.θ p.σ p.ρ
  have h := hQ (aeval ![p.v0, 0]).toLinearMap
  exact ⟨_, (dynkin_sol (Sv.hcoef p.μ p.k p.θ p.σ p.ρ) (Sv.hmom _ _ _ _ _) h).2, h⟩

/-- If there are no jumps, `cm` of mdl_svvj/cond2_cmom.py returns what `cond_cm` of `mdl_1fsv` returns. -/
theorem C59_svvj (l : ℕ) (hl : 1 ≤ l) (p : Svvj.Par) (hp : p.OK) (hj : p.jumpsize = []) :
    ∃ c, ∀ fuel, c ≤ fuel → Svvj.cm fuel l p = some (Fsv1c.condCm l p.fsv p.v0) := by
  have ht : p.jumptime = [] := List.length_eq_zero_iff.1 (by rw [hp.len, hj]; rfl)
  obtain ⟨x, h, hx⟩ := Svvj.C38_cm_sde_partial l hl p hp (by simp [Svvj.Par.Simple, ht])
  obtain ⟨E, e0, hE⟩ := point_exists p
  have hG : Svvj.Given p E := dynkinAt_none (by rw [hj]; rfl) e0 hE
  rw [Sv.C29_cond_cm_sde p.fsv hp.k hp.h hp.ρ p.v0 E hE l hl]
  rw [hx E hG (Or.inl hj)] at h
  exact h

/-- If there are no jumps, `cm` of mdl_svij/cond2_cmom.py returns what `cond_cm` of `mdl_1fsv` returns. -/
theorem C59_svij (l : ℕ) (hl : 1 ≤ l) (p : Svij.Par) (hp : p.toPar.OK) (hj : p.jumpsize = []) (hlam : p.lam = 0) :
    ∃ c, ∀ fuel, c ≤ fuel → Svij.cm fuel l p = some (Fsv1c.condCm l p.toPar.fsv p.v0) := by
  have ht : p.jumptime = [] := List.length_eq_zero_iff.1 (by rw [hp.len, hj]; rfl)
  obtain ⟨x, h, hx⟩ := Svij.C48_cm_sde_partial l hl p hp (by simp [Svvj.Par.Simple, ht]) hlam.ge
  obtain ⟨E, e0, hE⟩ := point_exists p.toPar
  have hJ := dynkin_congr (c' := Sv.svj p.μ p.k p.θ p.σ p.ρ p.lam p.μs p.σs)
    (fun f g => by rw [hlam]; exact (Sv.gen_zero p.μ p.k p.θ p.σ p.ρ p.μs p.σs f g).1) hE
  have hG : Svij.Given p E := dynkinAt_none (by rw [hj]; rfl) e0 hJ
  rw [Sv.C29_cond_cm_sde p.toPar.fsv hp.k hp.h hp.ρ p.v0 E hE l hl]
  rw [hx E hG (Or.inl hj)] at h
  exact h

/-- If there are no jumps, `cm` of mdl_svcj/cond2_cmom.py returns what `cond_cm` of `mdl_1fsv` returns. -/
theorem C59_svcj2 (l : ℕ) (hl : 1 ≤ l) (p : Svcj.Par) (hp : p.toPar.OK) (hj : p.jumpsize = []) :
    ∃ c, ∀ fuel, c ≤ fuel → (Svcj.cm fuel l p).run = some (Fsv1c.condCm l p.toPar.fsv p.v0) := by
  have ht : p.jumptime = [] := List.length_eq_zero_iff.1 (by rw [hp.len, hj]; rfl)
  obtain ⟨x, h, hx⟩ := Svcj.C49_cm_sde_partial l hl p hp (by simp [Svvj.Par.Simple, ht])
  obtain ⟨E, e0, hE⟩ := point_exists p.toPar
  have hG : Svcj.Given p E := dynkinAt_none (by rw [hj]; rfl) e0 hE
  rw [Sv.C29_cond_cm_sde p.toPar.fsv hp.k hp.h hp.ρ p.v0 E hE l hl]
  rw [hx E hG (Or.inl hj)] at h
  exact h

/-- `C59_svvj`, `C59_svij`, `C59_svcj2` -/
example : ∃ p : Svvj.Par, p.OK ∧ p.jumpsize = [] ∧ 0 < p.h ∧ 0 < p.v0 :=
  ⟨⟨1, 1, 1, 1, 1, -1 / 2, 1, [], []⟩, ⟨by norm_num, by norm_num, by norm_num, rfl, by simp⟩, rfl, by norm_num⟩

/-! ### compound Poisson sums with rate 0 -/

theorem cpp_zero (ν : Measure ℝ) [IsProbabilityMeasure ν] : Cpp.cppLaw 0 ν = Measure.dirac 0 := by
  have h : ProbabilityTheory.poissonMeasure 0 = Measure.dirac 0 := by
    refine Measure.ext_of_singleton fun n => ?_
    cases n <;> simp [ProbabilityTheory.poissonMeasure_singleton]
  rw [Cpp.cppLaw, h, Measure.dirac_bind measurable_from_top]
  rfl

/-- If the jumps of the price come at rate 0, `cm` and `m` of `mdl_svij` return what those of `mdl_svvj` return, for all
jumps of the variance and all orders from 1 on, also those for which both are wrong. -/
theorem C59_svij_svvj (l : ℕ) (hl : 1 ≤ l) (p : Svij.Par) (hp : p.toPar.OK) (hlam : p.lam = 0) :
    ∃ c, ∀ fuel, c ≤ fuel → Svij.cm fuel l p = Svvj.cm fuel l p.toPar ∧ Svij.m fuel l p = Svvj.m fuel l p.toPar := by
  have hd : Svij.jumpLaw p = Measure.dirac 0 := by
    rw [Svij.jumpLaw, hlam, zero_mul, Real.toNNReal_zero, cpp_zero]
  have h0 : 0 ≤ p.lam * p.h := by rw [hlam, zero_mul]
  have hs : ∀ (n : ℕ) (f : ℕ → ℝ), ∑ i ∈ Finset.range (n + 1), n.choose i * (f i * (0 : ℝ) ^ (n - i)) = f n := by
    intro n f
    rw [Finset.sum_range_succ, Finset.sum_eq_zero]
    · simp
    · intro i hi
      rw [zero_pow (by have := Finset.mem_range.1 hi; omega)]
      simp
  obtain ⟨cs, ms, e1, e2, hc, l1, l2, hm⟩ := Svij.cmoments_conv _ ItoCond.intEIEZ l (Svvj.code_spec l)
  obtain ⟨cs', ms', e1', e2', hc', l1', l2', hm'⟩ := Svij.moments_conv _ ItoCond.intEIEZ l
    (Svvj.momentsWith_spec Svvj.Right Svvj.Right_mono ItoCond.intEIEZ l (Svvj.code_spec l))
  have hlast : ∀ (q : List ItoCond.JPoly) (h : l < q.length), q.length = l + 1 → pyLast q = .ok q[l] := by
    intro q h hq
    rw [pyLast, List.getLast?_eq_getElem?, show q.length - 1 = l by omega, List.getElem?_eq_getElem h]
  have hr := hm l ms[l] (List.getElem?_eq_getElem (by omega))
  have hr' := hm' l ms'[l] (List.getElem?_eq_getElem (by omega))
  have hq := hc l cs[l] (List.getElem?_eq_getElem (by omega))
  have hq' := hc' l cs'[l] (List.getElem?_eq_getElem (by omega))
  obtain ⟨a, ha⟩ := Svij.poly2numC_spec ms[l] hr.2.2.1 p hp
  obtain ⟨a', ha'⟩ := Svij.poly2numM_spec ms'[l] hr'.2.2.1 p hp
  obtain ⟨b, hb⟩ := Svvj.poly2numC_spec cs[l] hq.2.2.1 p.toPar hp
  obtain ⟨b', hb'⟩ := Svvj.poly2numM_spec cs'[l] hq'.2.2.1 p.toPar hp
  have v := hr.2.2.2.2 p h0
  have v' := hr'.2.2.2.2 p h0
  simp only [hd, integral_dirac, sub_zero] at v v'
  rw [hs, List.getD_eq_getElem _ _ (by omega)] at v v'
  refine ⟨max (max a a') (max b b'), fun fuel hf => ⟨?_, ?_⟩⟩
  · have f1 : Svij.cmomentsYTo l = .ok ms := e2
    have f2 : Svvj.cmomentsYTo l = .ok cs := e1
    rw [Svij.cm, Svij.cmomentY, f1, ok_bind, hlast ms (by omega) (by omega), Svvj.cm, Svvj.cmomentY, f2, ok_bind,
      hlast cs (by omega) (by omega)]
    simp only
    rw [ha fuel (by omega), hb fuel (by omega), v]
  · have f1 : Svij.momentsYTo l = .ok ms' := e2'
    have f2 : Svvj.momentsYTo l = .ok cs' := e1'
    rw [Svij.m, Svij.momentY, f1, ok_bind, hlast ms' (by omega) (by omega), Svvj.m, Svvj.momentY, f2, ok_bind,
      hlast cs' (by omega) (by omega)]
    simp only
    rw [ha' fuel (by omega), hb' fuel (by omega), v']

/-- `C59_svij_svvj` -/
example : ∃ p : Svij.Par, p.toPar.OK ∧ p.lam = 0 ∧ p.jumpsize ≠ [] ∧ 0 < p.σs :=
  ⟨⟨⟨1, 0, 2, 1, 1, 1 / 2, 3, [1, 5], [1, 2]⟩, 0, 1, 1⟩, ⟨by norm_num, by norm_num, by norm_num, rfl,
    by intro s hs; simp at hs; rcases hs with rfl | rfl <;> norm_num⟩, rfl, by simp, one_pos⟩

/-- If jumps come at rate 0, `m`, `cm` and `cov` of `mdl_2fsvj` return what those of `mdl_2fsv` return, whatever the law
of the jumps and for all orders, also those for which both are wrong. -/
theorem C59_fsv2j (p : Fsv2j.Par) (hp : Sv2.Pos p.toPar) (hg : p.toPar.Generic) (hl : p.lam = 0) :
    (∀ l : ℕ, Fsv2j.m Itos.code l p = Fsv2.m Itos.code l p.toPar ∧ Fsv2j.cm Itos.code l p = Fsv2.cm Itos.code l p.toPar) ∧
      ∀ l1 l2 : ℕ, Fsv2j.cov Itos.code l1 l2 p = Fsv2.cov Itos.code l1 l2 p.toPar := by
  have hd : Fsv2j.jumpLaw p = Measure.dirac 0 := by
    rw [Fsv2j.jumpLaw, hl, zero_mul, Real.toNNReal_zero, cpp_zero]
  have h0 : 0 ≤ p.lam * p.h := by rw [hl, zero_mul]
  have hγ := Fsv2.statLaw_gammas p.toPar hp.k1 hp.k2 hp.θ1 hp.σ1 hp.θ2 hp.σ2
  obtain ⟨γ, hγ⟩ : ∃ γ, Fsv2.StatLaw p.toPar γ := ⟨_, hγ⟩
  have hE : ∀ N : ℕ∞, ∀ᵐ x ∂γ, Fsv2.CompLaw Itos.code N p.toPar 0 x (Fsv2.compE Itos.code p.toPar 0 x) := fun N =>
    Filter.Eventually.of_forall fun x => Fsv2.compLaw_compE _ _ _ _ _
  have hx : ∀ f, Fsv2j.expect p γ (Fsv2.compE Itos.code p.toPar 0) f =
      Fsv2.expect γ (Fsv2.compE Itos.code p.toPar 0) (f 0) := fun f => by
    rw [Fsv2j.expect, hd, integral_dirac]
  have hr : ∀ t, Fsv2j.ret p t 0 = Fsv2.ret p.toPar t := fun t => funext fun x => by simp [Fsv2j.ret]
  refine ⟨fun l => ⟨?_, ?_⟩, fun l1 l2 => ?_⟩
  · rw [(Fsv2j.C33_m p hp.k1.ne' hp.k2.ne' h0 0 _ γ hγ l (hE _)).resolve_right fun h => h.2 hg,
      (Fsv2.C31_m p.toPar hp.k1.ne' hp.k2.ne' 0 _ γ hγ l (hE _)).resolve_right fun h => h.2 hg]
    simp only [hx, hr]
  · rw [(Fsv2j.C33_cm p hp.k1.ne' hp.k2.ne' h0 0 _ γ hγ l (hE _)).resolve_right fun h => h.2 hg,
      (Fsv2.C31_cm p.toPar hp.k1.ne' hp.k2.ne' 0 _ γ hγ l (hE _)).resolve_right fun h => h.2 hg]
    simp only [hx, hr]
  · obtain ⟨Q, ⟨E, S1, S2, i1, i2, c, e⟩, -⟩ := Fsv2j.C33_condPoly p hp.k1.ne' hp.k2.ne' (0 + p.h) l2
    have hQ : Fsv2.CondPoly Itos.code p.toPar (0 + p.h) l2 (Q 0) :=
      ⟨E, S1, S2, i1, i2, c, fun z hz => by rw [e 0 z hz, hr]⟩
    rw [(Fsv2j.C33_cov p hp.k1.ne' hp.k2.ne' h0 0 _ γ hγ (hE _) l1 l2 Q ⟨E, S1, S2, i1, i2, c, e⟩).resolve_right
        fun h => h.2 hg,
      (Fsv2.C31_cov p.toPar hp.k1.ne' hp.k2.ne' 0 _ γ hγ (hE _) l1 l2 (Q 0) hQ).resolve_right fun h => h.2 hg]
    simp only [hx, hr, hd, integral_dirac]

/-- `C59_fsv2j` -/
example : ∃ p : Fsv2j.Par, Sv2.Pos p.toPar ∧ p.toPar.Generic ∧ p.lam = 0 ∧ 0 < p.σj := by
  have hp : Sv2.Pos Fsv2.exPar := by
    refine ⟨?_, ?_, ?_, ?_, ?_, ?_, ?_⟩ <;> norm_num [Fsv2.exPar]
  exact ⟨⟨Fsv2.exPar, 0, 0, 1⟩, hp, Fsv2.generic_of_irrational _ rfl irrational_sqrt_two, rfl, one_pos⟩

end Ajd
