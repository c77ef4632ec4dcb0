import Verif.Lemmas.SvcjU4

/-!
C43: the moments of the return of the SVCJ model, from its stochastic differential equations
(`Spec/SvcjGen.lean`, `Spec/SvcjInt.lean`). `E h f` is the expectation of the polynomial `f` of the processes at
time `h`; it is any family with Dynkin's formula, and `C43_expectation` says that there is exactly one.
-/

namespace Ajd.SvcjI
open MvPolynomial

/-- For all parameters and all initial laws, the equations determine the expectations. -/
theorem C43_expectation (p : SPar) (hp : Ok p) (E0 : MvPolynomial (Fin 2) ℝ →ₗ[ℝ] ℝ) :
    (∃ E, p.sde.Dynkin E0 E) ∧
      ∀ E E', p.sde.Dynkin E0 E → p.sde.Dynkin E0 E' → ∀ t, 0 ≤ t → E t = E' t := by
  have hc := sY_coef p.toPar hp.mu_v p.mu p.theta p.sigma p.rho p.rhoJ
  have hm := momY p.toPar hp.mu_v p.rhoJ
  obtain ⟨Q, hQ⟩ := Gen.dynkin_exists hc hm
  exact ⟨⟨_, hQ E0⟩, fun E E' h h' t ht => Gen.dynkin_unique hc hm h h' t ht⟩

/-- parameters as in the documentation, docs/source/svcj.rst -/
noncomputable def par0 : SPar where
  k := 346 / 100
  lmbd := 47 / 100
  mu_v := 5 / 100
  mu_s := -869 / 10000
  sigma_s := 1 / 10000
  v0 := 7569 / 1000000
  mu := 0
  theta := 8 / 1000
  sigma := 14 / 100
  rho := -82 / 100
  rhoJ := -38 / 100
  h := 1

theorem par0_ok : Ok par0 := ⟨by norm_num [par0], by norm_num [par0], by norm_num [par0], by norm_num [par0]⟩

/-! ### the integrals -/

theorem ints_eq (p : SPar) : p.ints = drv p.toPar p.theta p.sigma := by
  unfold SPar.ints ints drv
  congr 1
  · funext x i
    fin_cases i <;> simp [bD]
  · funext x i j
    simp only [aD, aM, Vp, map_mul, map_add, eval_C, eval_X]
    ring

theorem poly2numI_eq (q : IPoly) (p : SPar) : poly2numI q p = Poly.ev (numI p) q := by
  unfold poly2numI Poly.ev
  generalize q.items = l
  have : ∀ a : ℝ, l.foldl (fun f e => f + numI p e.1 * e.2) a = a + (l.map fun kv => kv.2 • numI p kv.1).sum := by
    induction l with
    | nil => simp
    | cons b l ih =>
      intro a
      rw [List.foldl_cons, ih, List.map_cons, List.sum_cons, Rat.smul_def]
      ring
  rw [this, zero_add]

theorem numI_wI (p : SPar) (K : List ℤ) (hK : KI K) : numI p K = wI p p.h K := by
  obtain ⟨a0, a1, a2, a3, a4, a5, a6, a7, a8, a9, rfl⟩ := len10 K hK.1
  simp only [numI, wI, tailI, ix_cons_zero, ix_cons_succ]
  rw [zpow_neg]
  ring

theorem dynkin_ints (p : SPar) (hp : Ok p) : ∃ E, p.ints.Dynkin (aeval ![0, 0, 0, 0, 0, 0, p.v0 - p.theta, 0]).toLinearMap E := by
  rw [ints_eq]
  obtain ⟨Q, hQ⟩ := Gen.dynkin_exists (drv_coef p.toPar hp.mu_v p.theta p.sigma) (mom_D p.toPar hp.mu_v)
  exact ⟨_, hQ _⟩

/-- `m_ieii_ieziziz((n1, ..., n6), par)` is the joint moment of the six integrals
`E[IE^n1 I^n2 I*^n3 IEZ^n4 IZ^n5 IZ*^n6 | v0]` at time `h`, for all orders and parameters. -/
theorem C43_m_ieii_ieziziz (n1 n2 n3 n4 n5 n6 : ℕ) (p : SPar) (hp : Ok p)
    (E : ℝ → MvPolynomial (Fin 8) ℝ →ₗ[ℝ] ℝ)
    (hE : p.ints.Dynkin (aeval ![0, 0, 0, 0, 0, 0, p.v0 - p.theta, 0]).toLinearMap E) :
    mI n1 n2 n3 n4 n5 n6 p = .ok (E p.h ((C (Real.exp (p.k * p.h)) * X 0) ^ n1 * X 1 ^ n2 * X 2 ^ n3 *
      (C (Real.exp (p.k * p.h)) * X 3) ^ n4 * X 4 ^ n5 * X 5 ^ n6)) := by
  rw [ints_eq] at hE
  obtain ⟨e, -, gK, -, gv⟩ := momI_ok n1 n2 n3 n4 n5 n6
  unfold mI
  rw [e, ok_bind, poly2numI_eq, Poly.ev_congr _ _ _ fun e he => numI_wI p e.1 (gK e he),
    gv ⟨p, famN p.toPar E, p.h, hp.k, drv_jsys hp.mu_v hE, hp.h⟩]
  refine congrArg Except.ok ?_
  show Real.exp ((n1 + n4) * p.k * p.h) * E p.h (fn n1 n2 n3 n4 n5 n6) = _
  rw [← E_C]
  refine congrArg _ ?_
  rw [show ((n1 : ℝ) + n4) * p.k * p.h = ((n1 + n4 : ℕ) : ℝ) * (p.k * p.h) by push_cast; ring, Real.exp_nat_mul,
    pow_add]
  simp only [fn, mul_pow, map_mul, map_pow]
  ring

/-- negative orders are refused -/
theorem C43_m_ieii_ieziziz_error (n1 n2 n3 n4 n5 n6 : ℤ)
    (h : n1 < 0 ∨ n2 < 0 ∨ n3 < 0 ∨ n4 < 0 ∨ n5 < 0 ∨ n6 < 0) (p : SPar) :
    mI n1 n2 n3 n4 n5 n6 p = .error .valueError := by
  unfold mI momentI
  rw [if_pos h]
  rfl

example : Ok par0 ∧ ∃ E, par0.ints.Dynkin (aeval ![0, 0, 0, 0, 0, 0, par0.v0 - par0.theta, 0]).toLinearMap E :=
  ⟨par0_ok, dynkin_ints _ par0_ok⟩

/-! ### the return given the initial variance -/

/-- `m_y(n, par)` of cond_mom.py is `E[y_h^n | v_0]`, for all orders and parameters; in particular the error for an
odd power of `sqrt(1 - rho^2)` is not reached. -/
theorem C43_m_y (n : ℕ) (p : SPar) (hp : Ok p) (E : ℝ → MvPolynomial (Fin 2) ℝ →ₗ[ℝ] ℝ)
    (hE : p.sde.Dynkin (aeval ![p.v0, 0]).toLinearMap E) : mY n p = .ok (E p.h (X 1 ^ n)) := by
  obtain ⟨r, e, -, -, -, v⟩ := condY_num n
  unfold mY
  rw [e, ok_bind, v p hp E hE]
  rfl

/-- `cm_y(n, par)` of cond_cmom.py is the central moment of `y_h` given `v_0`. -/
theorem C43_cm_y_cond (n : ℕ) (p : SPar) (hp : Ok p) (E : ℝ → MvPolynomial (Fin 2) ℝ →ₗ[ℝ] ℝ)
    (hE : p.sde.Dynkin (aeval ![p.v0, 0]).toLinearMap E) :
    cmYc n p = .ok (E p.h ((X 1 - C (E p.h (X 1))) ^ n)) := by
  obtain ⟨r, e, -, -, v⟩ := condC_num n
  unfold cmYc
  rw [e, ok_bind, v p hp E hE]
  rfl

example : Ok par0 ∧ ∃ E, par0.sde.Dynkin (aeval ![par0.v0, 0]).toLinearMap E :=
  ⟨par0_ok, (C43_expectation _ par0_ok _).1⟩

/-- The mean as in docs/source/svcj.rst: `(mu - E[v]/2) t - (v0 - E[v]) (1 - e^{-kt})/(2k) + lmbd t (mu_s + rhoJ mu_v)`
with `E[v] = theta + lmbd mu_v / k`. -/
theorem C43_mean (p : SPar) (hk : p.k ≠ 0) : mY 1 p =
    .ok ((p.mu - (p.theta + p.lmbd * p.mu_v / p.k) / 2) * p.h -
      (p.v0 - (p.theta + p.lmbd * p.mu_v / p.k)) * ((1 - Real.exp (-p.k * p.h)) / (2 * p.k)) +
      p.lmbd * p.h * (p.mu_s + p.rhoJ * p.mu_v)) := by
  have h : condY 1 = .ok ⟨kfY, [([-1, 0, 1, 0, 1, 0, 0, 0, 0, 0, 0, 0, 0], 1 / 2), ([0, 0, 1, 0, 1, 0, 0, 0, 0, 0, 0, 0, 0], -1 / 2),
    ([0, 1, 0, 1, 0, 0, 0, 0, 0, 0, 0, 0, 0], 1), ([0, 1, 0, 0, 0, 1, 0, 0, 0, 0, 0, 0, 0], -1 / 2),
    ([0, 1, 0, 0, 0, 0, 0, 0, 1, 0, 0, 1, 0], 1), ([0, 1, 0, 0, 0, 0, 0, 0, 1, 1, 1, 0, 0], 1),
    ([0, 1, 1, 0, 0, 0, 0, 0, 1, 1, 0, 0, 0], -1 / 2), ([0, 0, 2, 0, 0, 0, 0, 0, 1, 1, 0, 0, 0], 1 / 2),
    ([-1, 0, 2, 0, 0, 0, 0, 0, 1, 1, 0, 0, 0], -1 / 2)]⟩ := by decide +kernel
  unfold mY
  rw [h, ok_bind]
  refine congrArg Except.ok ?_
  simp only [poly2numC, numY, List.foldl_cons, List.foldl_nil, ix_cons_zero, ix_cons_succ]
  rw [show -p.k * p.h = -1 * p.k * p.h by ring]
  norm_num
  field_simp
  ring

/-! ### the return with a stationary initial variance -/

/-- `unm_y(n, par)` of mom.py is `E[y_h^n]` when the variance starts from its stationary law. The depth `d` of the
recursion in `cmoment_v` has to be large enough; then it plays no role. -/
theorem C43_unm_y (n : ℕ) : ∃ d0, ∀ d, d0 ≤ d → ∀ (p : SPar) (_ : Ok p) (_ : 0 ≤ p.lmbd)
    (E0 : MvPolynomial (Fin 2) ℝ →ₗ[ℝ] ℝ) (M : ℕ → ℝ) (_ : Start E0 M)
    (_ : Srjd.Stationary p.k p.theta p.sigma p.lmbd p.mu_v M) (E : ℝ → MvPolynomial (Fin 2) ℝ →ₗ[ℝ] ℝ)
    (_ : p.sde.Dynkin E0 E), unmY d n p = .ok (E p.h (X 1 ^ n)) := by
  refine ⟨depth n, fun d hd p hp hl E0 M h0 hM E hE => ?_⟩
  unfold unmY
  rw [(uY_ok d n hd).1, ok_bind, uY_num d n hd p hp hl E0 M h0 hM E hE]
  rfl

/-- `cm_y(n, par)` of cmom.py is the central moment of `y_h` when the variance starts from its stationary law. -/
theorem C43_cm_y (n : ℕ) : ∃ d0, ∀ d, d0 ≤ d → ∀ (p : SPar) (_ : Ok p) (_ : 0 ≤ p.lmbd)
    (E0 : MvPolynomial (Fin 2) ℝ →ₗ[ℝ] ℝ) (M : ℕ → ℝ) (_ : Start E0 M)
    (_ : Srjd.Stationary p.k p.theta p.sigma p.lmbd p.mu_v M) (E : ℝ → MvPolynomial (Fin 2) ℝ →ₗ[ℝ] ℝ)
    (_ : p.sde.Dynkin E0 E), cmY d n p = .ok (E p.h ((X 1 - C (E p.h (X 1))) ^ n)) := by
  refine ⟨depthC n, fun d hd p hp hl E0 M h0 hM E hE => ?_⟩
  obtain ⟨q, e, -, -, -, v⟩ := uncC_num d n hd
  unfold cmY
  rw [e, ok_bind, v p hp hl E0 M h0 hM E hE]
  rfl

/-- the stationary law exists -/
theorem start_exists (p : SPar) (hp : Ok p) : ∃ E0 M, Start E0 M ∧
    Srjd.Stationary p.k p.theta p.sigma p.lmbd p.mu_v M ∧ ∃ E, p.sde.Dynkin E0 E := by
  refine ⟨Srjd.Lp (Srjd.rmS p.k (p.theta + p.lmbd * p.mu_v / p.k) p.sigma p.lmbd p.mu_v) ∘ₗ atV.toLinearMap, _,
    ⟨fun f => ?_, fun n => ?_⟩, Srjd.stat_rmS _ _ _ _ _ hp.k hp.mu_v, (C43_expectation _ hp _).1⟩
  · rw [LinearMap.comp_apply, AlgHom.toLinearMap_apply, map_mul, atV, aeval_X]
    simp
  · rw [LinearMap.comp_apply, AlgHom.toLinearMap_apply, map_pow, atV, aeval_X]
    have := Srjd.Lp_X (Srjd.rmS p.k (p.theta + p.lmbd * p.mu_v / p.k) p.sigma p.lmbd p.mu_v) 1 n
    rw [map_one, one_mul, one_mul] at this
    exact this

example : Ok par0 ∧ 0 ≤ par0.lmbd ∧ ∃ E0 M, Start E0 M ∧
    Srjd.Stationary par0.k par0.theta par0.sigma par0.lmbd par0.mu_v M ∧ ∃ E, par0.sde.Dynkin E0 E :=
  ⟨par0_ok, by norm_num [par0], start_exists _ par0_ok⟩

/-- value of a key of the Poly without the column of `mu`; the first component is the power of `e^{-kt}`. -/
noncomputable def noMu (p : SPar) (K : List ℤ) : ℝ :=
  Real.exp (-(p.k * p.h)) ^ ix K 0 * p.h ^ ix K 1 * p.k ^ (-ix K 2) * (p.theta + p.lmbd * p.mu_v / p.k) ^ ix K 3 *
    p.theta ^ ix K 4 * p.sigma ^ ix K 5 * p.rho ^ ix K 6 * p.lmbd ^ ix K 7 * p.mu_v ^ ix K 8 * p.rhoJ ^ ix K 9 *
    p.mu_s ^ ix K 10 * p.sigma_s ^ ix K 11

/-- `remove_mu_column(cmoment_y(n))` does not raise, and the sum of its terms is the central moment, which
therefore does not depend on `mu`. -/
theorem C43_remove_mu (n : ℕ) : ∃ d0, ∀ d, d0 ≤ d → ∃ q r, uncC d n = .ok q ∧ removeMu q = .ok r ∧
    r.keyfor = ["e^{-kt}", "t", "k^{-}", "E[v]", "theta", "sigma", "rho", "lmbd", "mu_v", "rhoJ", "mu_s", "sigma_s"] ∧
    ∀ p, cmY d n p = .ok (Poly.ev (noMu p) r) := by
  refine ⟨depthC n, fun d hd => ?_⟩
  obtain ⟨q, e, -, -, K, -⟩ := uncC_num d n hd
  obtain ⟨r, er, kr, -, v⟩ := removeMu_spec q K (uncC_no_mu d n hd q e) noMu (by
    intro p a0 a1 a2 a4 a5 a6 a7 a8 a9 a10 a11 a12
    simp only [noMu, numY, ix_cons_zero, ix_cons_succ]
    rw [exp_zpow, zpow_neg, zpow_zero, show ((-a0 : ℤ) : ℝ) * -(p.k * p.h) = a0 * p.k * p.h by push_cast; ring]
    ring)
  refine ⟨q, r, e, er, kr, fun p => ?_⟩
  unfold cmY
  rw [e, ok_bind, v]
  rfl

/-- the drift plays no role -/
theorem C43_no_mu (n : ℕ) : ∃ d0, ∀ d, d0 ≤ d → ∀ (p : SPar) (m : ℝ), cmY d n { p with mu := m } = cmY d n p := by
  obtain ⟨d0, h⟩ := C43_remove_mu n
  refine ⟨d0, fun d hd p m => ?_⟩
  obtain ⟨q, r, -, -, -, v⟩ := h d hd
  rw [v, v]
  rfl

/-- negative orders are refused by all functions -/
theorem C43_error (n : ℤ) (hn : n < 0) (d : ℕ) (p : SPar) : mY n p = .error .valueError ∧
    cmYc n p = .error .valueError ∧ unmY d n p = .error .valueError ∧ cmY d n p = .error .valueError := by
  have h : condY n = .error .valueError := by unfold condY; rw [if_pos hn]
  refine ⟨by unfold mY; rw [h]; rfl, ?_, by unfold unmY uncY; rw [h]; rfl, ?_⟩
  · unfold cmYc condC
    obtain ⟨r, e, -⟩ := condY_num 1
    rw [show ((1 : ℕ) : ℤ) = 1 from rfl] at e
    rw [e, ok_bind, if_pos hn]
    rfl
  · unfold cmY uncC
    rw [if_pos hn]
    rfl

end Ajd.SvcjI
