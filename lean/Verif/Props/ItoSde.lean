import Verif.Lemmas.ItoSde
import Verif.Props.Ito
import Verif.Props.ItoCond
import Verif.Props.Srjd5
import Verif.Lemmas.ItoShift
import Verif.Lemmas.SrjdInts
import Verif.Props.Srjd2
import Mathlib.Analysis.Complex.ExponentialBounds

/-! C16, C20, C35 and C37 from the stochastic differential equations of the integrals and of the variance. -/

namespace Ajd
open MvPolynomial MeasureTheory Poly Gen

namespace Ito

/-- without jumps at given times -/
theorem dynkinAt_nil {σ : Type} [Fintype σ] {c : JumpDiff σ} {b a} (hc : PolyCoef c b a) (hν : Mom c.ν)
    {E0 : MvPolynomial σ ℝ →ₗ[ℝ] ℝ} {E : ℝ → MvPolynomial σ ℝ →ₗ[ℝ] ℝ} (h : c.Dynkin E0 E) (s : Fin 0 → ℝ)
    (κ : Fin 0 → Measure (σ → ℝ)) : c.DynkinAt s κ E0 E where
  start := (dynkin_sol hc hν h).2
  cont f a b ha _ := (h.cont f).mono fun _ hx => ha.trans hx.1
  formula f g hg a b ha hab _ := by
    have hi : ∀ t, 0 ≤ t → IntervalIntegrable (fun u => E u g) volume 0 t := fun t ht =>
      ContinuousOn.intervalIntegrable_of_Icc ht ((h.cont g).mono fun _ hx => hx.1)
    rw [h.formula f g hg b (ha.trans hab), h.formula f g hg a ha, add_assoc,
      intervalIntegral.integral_add_adjacent_intervals (hi a ha) ((hi a ha).symm.trans (hi b (ha.trans hab)))]
  jump i := i.elim0

/-- the recursion without jumps -/
theorem itoRec_of_Z {k θ σ v : ℝ} {s J : Fin 0 → ℝ} {M : ℕ → ℕ → ℕ → ℝ → ℝ}
    (h : ItoCond.ItoRecZ ⟨k, θ, σ, v, 0, s, J⟩ M) : ItoRec ⟨k, θ, σ, v, 0⟩ M where
  zero := h.zero
  step n3 n4 n5 hn t ht := by
    rw [h.step n3 n4 n5 hn t ht]
    simp only [ItoCond.quad, ItoCond.Par.IEZ, Finset.univ_eq_empty, Finset.sum_empty, zero_mul, mul_zero,
      intervalIntegral.integral_zero, add_zero, Real.exp_zero, one_mul]
    norm_num

/-- C16. The processes `(v, A, I, I*)` with `A = e^{-kt} IE` follow the documented stochastic differential equations
from the time `t0`, where the variance is `v` and the integrals are 0; `E u f` is the expectation of the polynomial
`f` at the time `t0 + u`. Then `moment_IEII(n3, n4, n5)` is the joint moment of `IE, I, I*`. -/
theorem C16_sde (n3 n4 n5 : ℕ) : ∃ P, momentIEII n3 n4 n5 = .ok P ∧
    ∀ (p : Par), p.k ≠ 0 → ∀ E, (ints p.k p.θ p.σ).Dynkin (aeval ![p.v, 0, 0, 0]).toLinearMap E →
      ∀ t, p.t0 ≤ t → ev (momVal p t) P =
        Real.exp (n3 * p.k * t) * E (t - p.t0) (X 1 ^ n3 * X 2 ^ n4 * X 3 ^ n5) := by
  obtain ⟨P, h, -, -, hP⟩ := C16_moment_IEII n3 n4 n5
  refine ⟨P, h, fun p hk E hE t ht => ?_⟩
  obtain ⟨M, hM, hv⟩ := ItoCond.given_rec ⟨p.k, p.θ, p.σ, p.v, 0, Fin.elim0, Fin.elim0⟩
    ⟨fun i => i.elim0, fun i => i.elim0⟩ (dynkinAt_nil (ItoCond.coef4 _ _ _) (ItoCond.mom4 _ _ _) hE _ _)
  have h1 := itoRec_of_Z hM
  obtain ⟨⟨W, hW⟩, -⟩ := C16_unique p hk
  have h2 := (C16_unique { p with t0 := 0 } hk).2 _ _ hW.shift h1 n3 n4 n5 (t - p.t0) (by simpa using ht)
  rw [hP p W hk hW t ht]
  rw [hv n3 n4 n5 (t - p.t0) (by linarith), add_sub_cancel, ← Real.exp_nat_mul] at h2
  calc W n3 n4 n5 t = Real.exp (n3 * p.k * p.t0) * (Real.exp (n3 * -(p.k * p.t0)) * W n3 n4 n5 t) := by
        rw [← mul_assoc, ← Real.exp_add]
        ring_nf
        simp
    _ = _ := by
        rw [h2, ← mul_assoc, ← Real.exp_add]
        ring_nf

/-- the processes exist -/
example : ∃ E, (ints 1 2 3).Dynkin (aeval ![4, 0, 0, 0]).toLinearMap E :=
  let ⟨_, h⟩ := dynkin_exists (ItoCond.coef4 1 2 3) (ItoCond.mom4 1 2 3)
  ⟨_, h _⟩

end Ito

namespace ItoCond

/-- C20, part. Full statement: `moment_IEII(n1, n2, n3)` is the joint moment of `IE, I, I*` given the jumps of the
variance, for the processes of the documented stochastic differential equations. Right where `C20_moment_IEII_partial`
is; missing: the orders from 4 on with jumps, where it is false by `C20_sde_wrong`. -/
theorem C20_sde_partial (n1 n2 n3 : ℕ) : ∃ P, ItoCond.momentIEII n1 n2 n3 = .ok P ∧
    ∀ (x : ItoCond.Par), x.k ≠ 0 → (∀ i, 0 < x.s i) → Function.Injective x.s → ∀ E, Given x E →
      (n1 + n2 + n3 ≤ 3 ∨ x.N = 0 ∨ (n2 = 0 ∧ n3 = 0)) → ∀ t, 0 ≤ t → ev (jval x t) P =
        Real.exp (n1 * x.k * t) * E t (X 1 ^ n1 * X 2 ^ n2 * X 3 ^ n3) := by
  obtain ⟨P, h, -, -, -, hP⟩ := C20_moment_IEII_partial n1 n2 n3
  refine ⟨P, h, fun x hk hs hi E hE hr t ht => ?_⟩
  obtain ⟨M, hM, hv⟩ := given_rec x ⟨hi, hs⟩ hE
  rw [hP x M hk (fun i => (hs i).le) hM hr t ht, hv _ _ _ t ht]

/-- C20. the same for all orders with the tuples of `int_e_IEZ_poly` computed afresh -/
theorem C20_sde_repaired (n1 n2 n3 : ℕ) : ∃ P, momentWith intEIEZFixed n1 n2 n3 = .ok P ∧
    ∀ (x : ItoCond.Par), x.k ≠ 0 → (∀ i, 0 < x.s i) → Function.Injective x.s → ∀ E, Given x E →
      ∀ t, 0 ≤ t → ev (jval x t) P = Real.exp (n1 * x.k * t) * E t (X 1 ^ n1 * X 2 ^ n2 * X 3 ^ n3) := by
  obtain ⟨P, h, -, -, -, hP⟩ := C20_moment_IEII_repaired n1 n2 n3
  refine ⟨P, h, fun x hk hs hi E hE t ht => ?_⟩
  obtain ⟨M, hM, hv⟩ := given_rec x ⟨hi, hs⟩ hE
  rw [hP x M hk (fun i => (hs i).le) hM t ht, hv _ _ _ t ht]

/-- one jump of size 1 at the time `log 2` -/
noncomputable def parW : ItoCond.Par := ⟨1, 1, 1, 1, 1, fun _ => Real.log 2, fun _ => 1⟩

/-- C20. With a jump the value for `(2, 2, 0)` is wrong at every time after the jump. -/
theorem C20_sde_wrong : ∃ (E : ℝ → MvPolynomial (Fin 4) ℝ →ₗ[ℝ] ℝ) (P : JPoly), Given parW E ∧
    ItoCond.momentIEII 2 2 0 = .ok P ∧ ∀ t, Real.log 2 < t →
      ev (jval parW t) P ≠ Real.exp (2 * t) * E t (X 1 ^ 2 * X 2 ^ 2) := by
  have hl : 0 < Real.log 2 := Real.log_pos one_lt_two
  have hs : Times parW.s := ⟨fun i j _ => Subsingleton.elim (α := Fin 1) i j, fun _ => hl⟩
  obtain ⟨E, hE⟩ := given_exists parW hs
  obtain ⟨M, hM, hv⟩ := given_rec parW hs hE
  obtain ⟨P, h, he⟩ := C20_moment_IEII_error
  refine ⟨E, P, hE, h, fun t ht hne => ?_⟩
  have h1 := he parW M one_ne_zero (fun i => (hs.pos i).le) hM t (hl.trans ht).le
  have h2 := hv 2 2 0 t (hl.trans ht).le
  rw [show parW.k = 1 from rfl, pow_zero, mul_one, Nat.cast_ofNat, mul_one] at h2
  rw [hne, h2, sub_self] at h1
  have h3 : (2 : ℝ) < Real.exp t := by
    rw [← Real.exp_log (show (0 : ℝ) < 2 by norm_num)]
    exact Real.exp_lt_exp.2 ht
  have h4 := Real.log_two_gt_d9
  simp only [parW, if_pos ht.le, one_mul, one_pow,
    div_one, mul_one, Real.exp_log (show (0 : ℝ) < 2 by norm_num)] at h1
  have h5 := h1.trans (Fin.sum_univ_one _)
  nlinarith

/-- the processes exist and are determined -/
theorem C20_sde_law (x : ItoCond.Par) (hs : ∀ i, 0 < x.s i) (hi : Function.Injective x.s) :
    ∃ E, Given x E ∧ ∀ E', Given x E' → ∀ t, 0 ≤ t → E' t = E t := by
  obtain ⟨E, hE⟩ := given_exists x ⟨hi, hs⟩
  exact ⟨E, hE, fun E' h t ht => dynkinAt_unique (coef4 _ _ _) ⟨hi, hs⟩ (fun _ => CondJ.mom_dirac _) (mom4 _ _ _) h hE t ht⟩

/-- two jumps -/
example : ∃ E, Given ⟨1, 2, 3, 4, 2, ![1, 2], ![5, 6]⟩ E :=
  let ⟨E, h, _⟩ := C20_sde_law ⟨1, 2, 3, 4, 2, ![1, 2], ![5, 6]⟩
    (fun i => by
      change Fin 2 at i
      fin_cases i <;> simp) (fun i j e => by
      change Fin 2 at i j
      fin_cases i <;> fin_cases j <;> simp_all)
  ⟨E, h⟩

end ItoCond

namespace Srjd
open ProbabilityTheory

/-- C35. `moment_ie_iez(n1, n2)` is the joint moment of `IE` and `IEZ` given by their stochastic differential equations:
`E[IE_h^n1 IEZ_h^n2] = e^{(n1+n2)kh} E[A_h^n1 B_h^n2]`. -/
theorem C35_moment_ie_iez_sde (d n1 n2 : ℕ) (hd : n1 + n2 ≤ d) (h2 : 2 ≤ d) : ∃ r, momentJoint rawCfg d n1 n2 = .ok r ∧
    ∀ p : Par, p.k ≠ 0 → 0 ≤ p.lmbd → 0 < p.mu_v → 0 ≤ p.h → ∀ E,
      (ints p.k p.theta p.sigma p.lmbd p.mu_v 0).Dynkin (aeval ![p.v0, 0, 0]).toLinearMap E →
        poly2numI r p = Real.exp ((n1 + n2) * p.k * p.h) * E p.h (X 1 ^ n1 * X 2 ^ n2) := by
  obtain ⟨r, e, -, -, -, v⟩ := C35_moment_ie_iez_partial d n1 n2 hd h2
  refine ⟨r, e, fun p a b c h E hE => ?_⟩
  have := ints_moment rawCfg_ok rawZ_gen (p := p) ⟨a, b, c⟩ (θ := p.theta) (β := p.theta) (x := p.v0) (by ring)
    (by simpa using hE) n1 n2 0 p.h h
  rw [v p a b c h]
  simpa [fm] using this.symm

/-- C35. `cmoment_ie_iez(n1, n2)` is the joint moment of `IE` and of `IEZ` less its mean. -/
theorem C35_cmoment_ie_iez_sde (d n1 n2 : ℕ) (hd : n1 + n2 ≤ d) (h2 : 2 ≤ d) : ∃ r, momentJoint centralCfg d n1 n2 = .ok r ∧
    ∀ p : Par, p.k ≠ 0 → 0 ≤ p.lmbd → 0 < p.mu_v → 0 ≤ p.h → ∀ E,
      (ints p.k p.theta p.sigma p.lmbd p.mu_v (p.lmbd * p.mu_v)).Dynkin (aeval ![p.v0, 0, 0]).toLinearMap E →
        poly2numIc r p = Real.exp ((n1 + n2) * p.k * p.h) * E p.h (X 1 ^ n1 * X 2 ^ n2) := by
  obtain ⟨r, e, -, -, -, v⟩ := C35_cmoment_ie_iez_partial d n1 n2 hd h2
  refine ⟨r, e, fun p a b c h E hE => ?_⟩
  have := ints_moment centralCfg_ok centralZ_gen (p := p) ⟨a, b, c⟩ (θ := p.theta) (β := p.theta + p.lmbd * p.mu_v / p.k)
    (x := p.v0) (by field_simp; ring) (by simpa using hE) n1 n2 0 p.h h
  rw [v p a b c h]
  simpa [fm] using this.symm

/-- Beside the two theorems: the processes exist and are determined; the mean of `B_t` is
`(lam mu - c) (1 - e^{-kt}) / k`, so that the last process of the second theorem has the mean 0. -/
theorem C35_sde_law (k θ σ lam μ v0 : ℝ) (hk : k ≠ 0) (hμ : 0 < μ) (c : ℝ) :
    ∃ E, (ints k θ σ lam μ c).Dynkin (aeval ![v0, 0, 0]).toLinearMap E ∧
      (∀ E', (ints k θ σ lam μ c).Dynkin (aeval ![v0, 0, 0]).toLinearMap E' → ∀ t, 0 ≤ t → E' t = E t) ∧
      ∀ t, 0 ≤ t → k * E t (X 2) = (lam * μ - c) * (1 - Real.exp (-(k * t))) := by
  obtain ⟨Q, hQ⟩ := dynkin_exists (coef3 k θ σ lam c hμ) (mom3 k θ σ lam c hμ)
  refine ⟨_, hQ _, fun E' hE' t ht => Gen.dynkin_unique (coef3 k θ σ lam c hμ) (mom3 k θ σ lam c hμ) hE' (hQ _) t ht, ?_⟩
  have hE := hQ (aeval ![v0, 0, 0]).toLinearMap
  set E := fun t => (aeval ![v0, 0, 0] : M3 →ₐ[ℝ] ℝ).toLinearMap ∘ₗ Q t
  change ∀ t, 0 ≤ t → k * E t (X 2) = _
  obtain ⟨hs, h0⟩ := dynkin_sol (coef3 k θ σ lam c hμ) (mom3 k θ σ lam c hμ) hE
  have hβ : k * (θ + c / k) = k * θ + c := by field_simp
  have g0 := gen3 (σ := σ) (lam := lam) hβ hμ 0 0 0
  have g1 := gen3 (σ := σ) (lam := lam) hβ hμ 0 1 0
  simp [fm] at g0 g1
  have one : ∀ t, 0 ≤ t → E t 1 = 1 := fun t ht => by
    have := hE.formula 1 0 g0 t ht
    simpa using this
  intro t ht
  refine sub_eq_zero.1 (linear_zero (-k) (fun t => k * E t (X 2) - (lam * μ - c) * (1 - Real.exp (-(k * t)))) ?_ ?_ ?_ t ht)
  · simp [h0]
  · exact ((hE.cont _).const_smul k).sub (by fun_prop : Continuous fun t => (lam * μ - c) * (1 - Real.exp (-(k * t)))).continuousOn
  · intro t ht
    have d2 := (hs (X 2) t ht.le).hasDerivAt (Ici_mem_nhds ht)
    rw [isGen_unique (isGen_op (coef3 k θ σ lam c hμ) (mom3 k θ σ lam c hμ) (X 2)) g1] at d2
    have d1 : HasDerivAt (fun t => Real.exp (-(k * t))) (Real.exp (-(k * t)) * -k) t := by
      simpa using ((hasDerivAt_id t).const_mul k).neg.exp
    refine ((d2.const_mul k).sub ((d1.const_sub 1).const_mul (lam * μ - c))).congr_deriv ?_
    have smul : ∀ (r : ℝ) (f : M3), E t (C r * f) = r * E t f := fun r f => by rw [← smul_eq_C_mul, map_smul, smul_eq_mul]
    have cst : ∀ r : ℝ, E t (C r) = r := fun r => by rw [← mul_one (C r), smul, one t ht.le, mul_one]
    simp only [map_add, map_sub, map_neg, neg_mul, smul, cst, C_mul]
    ring

/-- the hypotheses are met, with jumps -/
example : ∃ (p : Par) (E : _), p.k ≠ 0 ∧ 0 < p.lmbd ∧ 0 < p.mu_v ∧ 0 ≤ p.h ∧
    (ints p.k p.theta p.sigma p.lmbd p.mu_v 0).Dynkin (aeval ![p.v0, 0, 0]).toLinearMap E ∧ E 1 (X 2) ≠ 0 := by
  obtain ⟨E, h, -, hm⟩ := C35_sde_law 1 2 1 3 4 5 one_ne_zero (by norm_num) 0
  refine ⟨⟨5, 1, 2, 1, 3, 4, 1⟩, E, by norm_num, by norm_num, by norm_num, by norm_num, h, fun h0 => ?_⟩
  have := hm 1 zero_le_one
  have h1 : Real.exp (-(1 * 1 : ℝ)) < 1 := by rw [Real.exp_lt_one_iff]; norm_num
  rw [h0] at this
  linarith

end Srjd

namespace SrjdJ
open ItoCond

/-- C37. `moment_v(m)` is the `m`-th moment at time `t` of the square-root diffusion from `v_0` that jumps by `J_i` at
the times `s_i`. -/
theorem C37_moment_v_sde (m : ℕ) : ∃ r, momentV m = .ok r ∧
    ∀ x : ItoCond.Par, x.k ≠ 0 → (∀ i, 0 < x.s i) → Function.Injective x.s → ∀ E, GivenV x E → ∀ t, 0 ≤ t →
      ev (sval x t) r = E t (X 0 ^ m) := by
  obtain ⟨r, e, -, -, -, -, v⟩ := C37_moment_v m
  refine ⟨r, e, fun x hk hs hi E hE t ht => ?_⟩
  obtain ⟨E', hL, h⟩ := givenV_repr x ⟨hi, hs⟩ hE t ht
  rw [v x hk (fun i => (hs i).le) t ht E' hL, h]
  simp

/-- C37. `cmoment_v(m)` is the `m`-th central moment. -/
theorem C37_cmoment_v_sde (m : ℕ) : ∃ r, cmomentV m = .ok r ∧
    ∀ x : ItoCond.Par, x.k ≠ 0 → (∀ i, 0 < x.s i) → Function.Injective x.s → ∀ E, GivenV x E → ∀ t, 0 ≤ t →
      ev (sval x t) r = E t ((X 0 - C (E t (X 0))) ^ m) := by
  obtain ⟨r, e, -, -, -, v⟩ := C37_cmoment_v m
  refine ⟨r, e, fun x hk hs hi E hE t ht => ?_⟩
  obtain ⟨E', hL, h⟩ := givenV_repr x ⟨hi, hs⟩ hE t ht
  rw [v x hk (fun i => (hs i).le) t ht E' hL, h, h]
  simp [Polynomial.C_eq_algebraMap]

/-- C37. `m(l, par)` and `cm(l, par)` return the moments of this process at time `h`, when the jump times are
different and in `(0, h]`. -/
theorem C37_sde (m : ℕ) (p : Par) (hp : p.OK) (hd : p.jumptime.Nodup) (h0 : ∀ s ∈ p.jumptime, 0 < s) :
    ∃ c, ∀ fuel, c ≤ fuel → ∀ E, GivenV p.cir E → mV fuel m p = some (.ok (E p.h (X 0 ^ m))) ∧
      cmV fuel m p = some (.ok (E p.h ((X 0 - C (E p.h (X 0))) ^ m))) := by
  obtain ⟨c, hc⟩ := C37_m m p hp
  obtain ⟨d, hd'⟩ := C37_cm m p hp
  have hs : Times p.cir.s := by
    have hl : ∀ i : Fin p.jumpsize.length, (i : ℕ) < p.jumptime.length := fun i => i.2.trans_eq hp.len.symm
    constructor
    · intro i j e
      change p.jumptime.getD i 0 = p.jumptime.getD j 0 at e
      rw [List.getD_eq_getElem _ _ (hl i), List.getD_eq_getElem _ _ (hl j)] at e
      exact Fin.ext ((hd.getElem_inj_iff (hi := hl i) (hj := hl j)).1 e)
    · intro i
      change 0 < p.jumptime.getD i 0
      rw [List.getD_eq_getElem _ _ (hl i)]
      exact h0 _ (List.getElem_mem _)
  refine ⟨max c d, fun fuel hf E hE => ?_⟩
  obtain ⟨E', hL, h⟩ := givenV_repr p.cir hs hE p.h hp.h
  rw [hc fuel ((le_max_left _ _).trans hf) E' hL, hd' fuel ((le_max_right _ _).trans hf) E' hL, h, h, h]
  simp [Polynomial.C_eq_algebraMap]

/-- C37. the process exists and is determined -/
theorem C37_law (x : ItoCond.Par) (hs : ∀ i, 0 < x.s i) (hi : Function.Injective x.s) :
    ∃ E, GivenV x E ∧ ∀ E', GivenV x E' → ∀ t, 0 ≤ t → E' t = E t := by
  obtain ⟨E, hE⟩ := givenV_exists x ⟨hi, hs⟩
  exact ⟨E, hE, fun E' h t ht => dynkinAt_unique (coef1 _ _ _) ⟨hi, hs⟩ (fun _ => CondJ.mom_dirac _) (mom1 _ _ _) h hE t ht⟩

/-- the hypotheses are met -/
example : ∃ p : Par, p.OK ∧ p.jumptime.Nodup ∧ (∀ s ∈ p.jumptime, 0 < s) ∧ p.jumpsize.length = 2 :=
  ⟨⟨1, 2, 3, 1, 1, [1, 2], [1, 1 / 2]⟩, ⟨by norm_num, by norm_num, rfl, by
    intro s hs
    simp only [List.mem_cons, List.not_mem_nil, or_false] at hs
    rcases hs with rfl | rfl <;> norm_num⟩, by norm_num, by
    intro s hs
    simp only [List.mem_cons, List.not_mem_nil, or_false] at hs
    rcases hs with rfl | rfl <;> norm_num, rfl⟩

end SrjdJ
end Ajd
