import Verif.Lemmas.SrjdIez
import Mathlib.Probability.Moments.MGFAnalytic
import Mathlib.Analysis.Calculus.IteratedDeriv.Lemmas
import Verif.Lemmas.SrjdJoint2
import Verif.Spec.SrjdGen
import Mathlib.Algebra.MvPolynomial.PDeriv
import Mathlib.Algebra.MvPolynomial.Degrees
import Mathlib.RingTheory.MvPolynomial.Basic
import Mathlib.Data.Nat.Factorial.BigOperators

section -- Cumulant

/-! Moments and cumulants of the compound Poisson law, and how moments depend on the end of the interval. -/

namespace Ajd.Srjd
open MeasureTheory ProbabilityTheory Real Cpp
open scoped NNReal Topology

/-- `m` are the moments belonging to the cumulants `κ` -/
def CumSeq (κ m : ℕ → ℝ) : Prop :=
  m 0 = 1 ∧ ∀ n, m (n + 1) = ∑ j ∈ Finset.range (n + 1), n.choose j * κ (j + 1) * m (n - j)

theorem cum_mgf (P : Measure ℝ) [IsProbabilityMeasure P] (X : ℝ → ℝ)
    (h0 : 0 ∈ interior (integrableExpSet X P)) (ψ : ℝ → ℝ) (hψ : AnalyticAt ℝ ψ 0)
    (hF : ∀ᶠ θ in 𝓝 (0:ℝ), mgf X P θ = exp (ψ θ)) :
    CumSeq (fun j => iteratedDeriv j ψ 0) (fun n => ∫ x, X x ^ n ∂P) := by
  refine ⟨by simp, fun n => ?_⟩
  have e : ∀ n, ∫ x, X x ^ n ∂P = iteratedDeriv n (mgf X P) 0 := fun n => by
    rw [iteratedDeriv_mgf_zero h0]; rfl
  simp only [e]
  rw [iteratedDeriv_succ']
  have hd : deriv (mgf X P) =ᶠ[𝓝 0] deriv ψ * mgf X P := by
    have := hF.eventually_nhds
    filter_upwards [this, hF, hψ.eventually_analyticAt] with θ h1 h2 h3
    have h4 : mgf X P =ᶠ[𝓝 θ] fun θ => exp (ψ θ) := h1
    rw [h4.deriv_eq, Pi.mul_apply, h2]
    rw [(h3.differentiableAt.hasDerivAt.exp).deriv]
    ring
  rw [hd.iteratedDeriv_eq, iteratedDeriv_mul hψ.deriv.contDiffAt (analyticAt_mgf h0).contDiffAt]
  refine Finset.sum_congr rfl fun j _ => ?_
  rw [iteratedDeriv_succ']

theorem cum_cpp (Λ : ℝ≥0) (ν : Measure ℝ) [IsProbabilityMeasure ν]
    (h0 : 0 ∈ interior (integrableExpSet (fun x => x) ν)) (c : ℝ) :
    CumSeq (fun j => Λ * (∫ x, x ^ j ∂ν) - if j = 1 then c else 0)
      (fun n => ∫ x, (x - c) ^ n ∂(cppLaw Λ ν)) := by
  have hset : integrableExpSet (fun x : ℝ => x + -c) (cppLaw Λ ν) =
      integrableExpSet (fun x => x) (cppLaw Λ ν) := by
    ext θ
    simp only [integrableExpSet, Set.mem_ofPred_eq]
    simp only [mul_add, exp_add]
    exact integrable_mul_const_iff (isUnit_iff_ne_zero.2 (exp_pos _).ne') _
  have h1 : 0 ∈ interior (integrableExpSet (fun x : ℝ => x + -c) (cppLaw Λ ν)) := by
    rw [hset]; exact expSet_cpp _ _ h0
  have hG := analyticAt_mgf h0
  set ψ : ℝ → ℝ := fun θ => Λ * mgf (fun x => x) ν θ + (-c * θ - Λ) with hψ
  have ha : AnalyticAt ℝ ψ 0 := by
    rw [hψ]
    exact (analyticAt_const.mul hG).add ((analyticAt_const.mul analyticAt_id).sub analyticAt_const)
  have key := cum_mgf (cppLaw Λ ν) (fun x => x + -c) h1 ψ ha (by
    have : ∀ᶠ θ in 𝓝 (0:ℝ), θ ∈ interior (integrableExpSet (fun x => x) ν) :=
      isOpen_interior.mem_nhds h0
    filter_upwards [this] with θ hθ
    have ht : θ ∈ integrableExpSet (fun x : ℝ => x) ν := interior_subset hθ
    rw [mgf_add_const, mgf_cppLaw Λ ν ht, ← exp_add]
    congr 1
    rw [hψ]; ring)
  have hit : ∀ j, iteratedDeriv (j + 1) ψ 0 = Λ * (∫ x, x ^ (j + 1) ∂ν) - if j + 1 = 1 then c else 0 := by
    intro j
    have hlin : AnalyticAt ℝ (fun θ : ℝ => -c * θ - Λ) 0 :=
      (analyticAt_const.mul analyticAt_id).sub analyticAt_const
    have hgm : AnalyticAt ℝ (fun θ : ℝ => (Λ : ℝ) * mgf (fun x => x) ν θ) 0 := analyticAt_const.mul hG
    rw [hψ, iteratedDeriv_fun_add hgm.contDiffAt hlin.contDiffAt, iteratedDeriv_const_mul_field,
      iteratedDeriv_mgf_zero h0]
    have hl : deriv (fun θ : ℝ => -c * θ - (Λ : ℝ)) = fun _ => -c := by
      funext θ
      exact (((hasDerivAt_id θ).const_mul (-c)).sub_const (Λ : ℝ)).deriv.trans (by simp)
    rw [iteratedDeriv_succ' (f := fun θ : ℝ => -c * θ - (Λ : ℝ)), hl, iteratedDeriv_const]
    have : ((fun x : ℝ => x) ^ (j + 1)) = fun x : ℝ => x ^ (j + 1) := rfl
    rw [this]
    by_cases hj : j = 0 <;> simp [hj, sub_eq_add_neg]
  refine ⟨by simp, fun n => ?_⟩
  have := key.2 n
  simp only [hit, ← sub_eq_add_neg] at this
  exact this

/-- the cumulants of `IEZ_{s,t}` -/
noncomputable def kap (p : ZPar) (j : ℕ) : ℝ := p.lmbd * gEJ p j

theorem cum_law {p : ZPar} (hp : p.OK) (c : ℝ) : CumSeq (fun j => kap p j - if j = 1 then c else 0)
    (fun n => ∫ x, (x - c) ^ n ∂p.law) := by
  rcases hp.st.lt_or_eq with h | h
  · have := jumpLaw_prob (k := p.k) hp.mu h
    have key := cum_cpp (p.lmbd * (p.t - p.s)).toNNReal _ (jumpLaw_exp (k := p.k) hp.mu h) c
    have hx : p.t - p.s ≠ 0 := by linarith
    refine ⟨by have := law_prob hp; simp, fun n => ?_⟩
    have k2 := key.2 n
    simp only [jumpLaw_moment hp.mu h hp.k _ (Nat.succ_ne_zero _),
      Real.coe_toNNReal _ (mul_nonneg hp.lmbd (sub_nonneg.2 hp.st))] at k2
    rw [ZPar.law, iezLaw]
    refine k2.trans ?_
    refine Finset.sum_congr rfl fun j _ => ?_
    have : p.lmbd * (p.t - p.s) * ((((j + 1 - 1).factorial : ℝ) * p.mu_v ^ (j + 1) *
        (exp (((j + 1 : ℕ) : ℝ) * p.k * p.t) - exp (((j + 1 : ℕ) : ℝ) * p.k * p.s)) / p.k) / (p.t - p.s)) =
        kap p (j + 1) := by
      rw [kap, gEJ]; field_simp
    dsimp only
    rw [← this]
  · have hk : ∀ j, kap p j = 0 := fun j => by rw [kap, gEJ, h]; simp
    rw [ZPar.law, ← h, iezLaw_diag]
    refine ⟨by simp, fun n => ?_⟩
    rw [Finset.sum_eq_single 0]
    · simp [integral_dirac, hk, pow_succ]; ring
    · intro j _ hj
      dsimp only
      rw [hk, if_neg (by omega)]; simp
    · simp

/-- moments follow the cumulants -/
theorem cum_deriv (κ m : ℝ → ℕ → ℝ) (κ' : ℕ → ℝ) (t : ℝ) (h : ∀ᶠ u in 𝓝 t, CumSeq (κ u) (m u))
    (hκ : ∀ j, HasDerivAt (fun u => κ u (j + 1)) (κ' (j + 1)) t) (n : ℕ) :
    HasDerivAt (fun u => m u n) (∑ j ∈ Finset.range n, n.choose (j + 1) * κ' (j + 1) * m t (n - (j + 1))) t := by
  induction n using Nat.strong_induction_on with
  | _ n ih =>
    match n with
    | 0 =>
      have : (fun u => m u 0) =ᶠ[𝓝 t] fun _ => 1 := by filter_upwards [h] with u hu using hu.1
      simpa using (hasDerivAt_const t (1:ℝ)).congr_of_eventuallyEq this
    | n + 1 =>
      have e : (fun u => m u (n + 1)) =ᶠ[𝓝 t] fun u => ∑ j ∈ Finset.range (n + 1),
          n.choose j * κ u (j + 1) * m u (n - j) := by filter_upwards [h] with u hu using hu.2 n
      have ht := h.self_of_nhds
      have hd : HasDerivAt (fun u => ∑ j ∈ Finset.range (n + 1), n.choose j * κ u (j + 1) * m u (n - j))
          (∑ j ∈ Finset.range (n + 1), ((n.choose j * κ' (j + 1)) * m t (n - j) +
            n.choose j * κ t (j + 1) * ∑ i ∈ Finset.range (n - j),
              (n - j).choose (i + 1) * κ' (i + 1) * m t (n - j - (i + 1)))) t :=
        HasDerivAt.fun_sum fun j _ => ((hκ j).const_mul _).mul (ih (n - j) (by omega))
      refine (hd.congr_of_eventuallyEq e).congr_deriv ?_
      rw [Finset.sum_add_distrib]
      have swap : ∑ j ∈ Finset.range (n + 1), n.choose j * κ t (j + 1) * ∑ i ∈ Finset.range (n - j),
              (n - j).choose (i + 1) * κ' (i + 1) * m t (n - j - (i + 1)) =
          ∑ i ∈ Finset.range n, n.choose (i + 1) * κ' (i + 1) * m t (n - i) := by
        have r : ∀ i ∈ Finset.range n, n.choose (i + 1) * κ' (i + 1) * m t (n - i) =
            ∑ j ∈ Finset.range (n - i), n.choose (i + 1) * κ' (i + 1) *
              ((n - (i + 1)).choose j * κ t (j + 1) * m t (n - (i + 1) - j)) := by
          intro i hi
          rw [Finset.mem_range] at hi
          rw [← Finset.mul_sum]
          have := ht.2 (n - (i + 1))
          rw [show n - (i + 1) + 1 = n - i by omega] at this
          rw [this]
        rw [Finset.sum_congr rfl r]
        simp_rw [Finset.mul_sum]
        rw [Finset.sum_sigma', Finset.sum_sigma']
        refine Finset.sum_bij' (fun x _ => ⟨x.2, x.1⟩) (fun x _ => ⟨x.2, x.1⟩) ?_ ?_ (fun _ _ => rfl)
          (fun _ _ => rfl) ?_
        · intro x hx; simp only [Finset.mem_sigma, Finset.mem_range] at hx ⊢; omega
        · intro x hx; simp only [Finset.mem_sigma, Finset.mem_range] at hx ⊢; omega
        · intro x hx
          simp only [Finset.mem_sigma, Finset.mem_range] at hx
          have hc : (n.choose x.1 : ℝ) * (n - x.1).choose (x.2 + 1) =
              n.choose (x.2 + 1) * (n - (x.2 + 1)).choose x.1 := by
            have h1 := Nat.choose_mul (n := n) (k := x.1 + (x.2 + 1)) (s := x.1) (by omega)
            have h2 := Nat.choose_mul (n := n) (k := x.1 + (x.2 + 1)) (s := x.2 + 1) (by omega)
            rw [Nat.add_sub_cancel_left] at h1
            rw [Nat.add_sub_cancel] at h2
            have h3 : (x.1 + (x.2 + 1)).choose x.1 = (x.1 + (x.2 + 1)).choose (x.2 + 1) :=
              Nat.choose_symm_add
            rw [h3, h2] at h1
            exact_mod_cast h1.symm
          rw [show n - x.1 - (x.2 + 1) = n - (x.2 + 1) - x.1 by omega]
          linear_combination (κ t (x.1 + 1) * κ' (x.2 + 1) * m t (n - (x.2 + 1) - x.1)) * hc
      rw [swap, Finset.sum_range_succ (n := n)]
      rw [Finset.sum_range_succ (n := n), show n + 1 - (n + 1) = 0 by omega, Nat.sub_self,
        Nat.choose_self, Nat.choose_self, add_right_comm, ← Finset.sum_add_distrib]
      congr 1
      refine Finset.sum_congr rfl fun j hj => ?_
      rw [show n + 1 - (j + 1) = n - j by omega, Nat.choose_succ_succ]
      push_cast
      ring

end Ajd.Srjd

end -- Cumulant

section -- SrjdGen

/-! How the joint moments of `IE_t` and `IEZ_t` change with `t`. -/

namespace Ajd.Srjd
open Poly MeasureTheory ProbabilityTheory
open scoped Topology

/-- what is needed from the moments of the jump integral: they belong to the cumulants `kap`, the first
one scaled by `δ` (`1` for raw and `0` for central moments) -/
def ZGen (Z : ZFun) (δ : ℝ) : Prop := ∀ p : ZPar, p.OK →
  CumSeq (fun j => (if j = 1 then δ else 1) * kap p j) (fun n => Z p.k p.lmbd p.mu_v n p.s p.t)

theorem rawZ_gen : ZGen rawZ 1 := by
  intro p hp
  have h := cum_law hp 0
  refine ⟨rawZ_zero p hp, fun n => ?_⟩
  have h2 := h.2 n
  simp only [sub_zero, ite_self] at h2
  simp only [ite_self, one_mul]
  exact h2

theorem centralZ_gen : ZGen centralZ 0 := by
  intro p hp
  have h1 := (cum_law hp 0).2 0
  have h0 := (cum_law hp 0).1
  simp only [sub_zero, ite_self, zero_add, Finset.range_one, Finset.sum_singleton, Nat.choose_self,
    Nat.cast_one, one_mul, pow_one, Nat.sub_self] at h1
  have hp1 := law_prob hp
  have h2 : ∫ x, x ∂p.law = kap p 1 := by rw [h1]; simp
  have h := cum_law hp (∫ x, x ∂p.law)
  refine ⟨centralZ_zero p hp, fun n => ?_⟩
  refine (h.2 n).trans (Finset.sum_congr rfl fun j _ => ?_)
  have : kap p (j + 1) - (if j + 1 = 1 then ∫ x, x ∂p.law else 0) =
      (if j + 1 = 1 then (0:ℝ) else 1) * kap p (j + 1) := by
    by_cases hj : j = 0
    · subst hj; rw [h2]; simp
    · simp [hj]
  dsimp only
  rw [this]
  rfl

/-- rate at which the `j`-th cumulant grows -/
noncomputable def jr (δ : ℝ) (p : Par) (j : ℕ) (t : ℝ) : ℝ :=
  (if j = 1 then δ else 1) * (p.lmbd * (j.factorial * p.mu_v ^ j * Real.exp (j * p.k * t)))

theorem kap_deriv (δ : ℝ) {p : Par} (hp : p.OK) (s t : ℝ) (j : ℕ) :
    HasDerivAt (fun u => (if j + 1 = 1 then δ else 1) * kap (zp p s u) (j + 1)) (jr δ p (j + 1) t) t := by
  have h1 : HasDerivAt (fun u : ℝ => Real.exp (((j + 1 : ℕ) : ℝ) * p.k * u))
      (Real.exp (((j + 1 : ℕ) : ℝ) * p.k * t) * (((j + 1 : ℕ) : ℝ) * p.k)) t := by
    have := ((hasDerivAt_id t).const_mul (((j + 1 : ℕ) : ℝ) * p.k)).exp
    simpa using this
  have h2 := ((((h1.sub_const (Real.exp (((j + 1 : ℕ) : ℝ) * p.k * s))).const_mul
    (((j + 1 - 1).factorial : ℝ) * p.mu_v ^ (j + 1))).div_const p.k).const_mul p.lmbd).const_mul
    (if j + 1 = 1 then δ else 1)
  refine h2.congr_deriv ?_
  rw [jr, Nat.factorial_succ, Nat.add_sub_cancel]
  have := hp.k
  push_cast
  field_simp

variable {Z : ZFun} {δ : ℝ}

/-- the right end of the interval moves -/
theorem Z_deriv (hZ : ZGen Z δ) {p : Par} (hp : p.OK) (s t : ℝ) (h : s < t) (n : ℕ) :
    HasDerivAt (fun u => Z p.k p.lmbd p.mu_v n s u) (∑ j ∈ Finset.range n, n.choose (j + 1) *
      jr δ p (j + 1) t * Z p.k p.lmbd p.mu_v (n - (j + 1)) s t) t :=
  cum_deriv (fun u j => (if j = 1 then δ else 1) * kap (zp p s u) j)
    (fun u n => Z p.k p.lmbd p.mu_v n s u) (fun j => jr δ p j t) t
    (by filter_upwards [lt_mem_nhds h] with u hu using hZ (zp p s u) (zp_ok hp hu.le))
    (fun j => kap_deriv δ hp s t j) n

theorem Z_diag (hZ : ZGen Z δ) {p : Par} (hp : p.OK) (t : ℝ) (n : ℕ) :
    Z p.k p.lmbd p.mu_v n t t = if n = 0 then 1 else 0 := by
  have h := hZ (zp p t t) (zp_ok hp le_rfl)
  have hk : ∀ j, kap (zp p t t) j = 0 := fun j => by rw [kap, gEJ]; simp
  match n with
  | 0 => exact h.1
  | n + 1 =>
    refine (h.2 n).trans ?_
    simp [hk]

/-- value of a key of `moment_IEZ` without the factor that depends on `s` -/
noncomputable def wT (p : Par) (t : ℝ) (K : List ℤ) : ℝ :=
  Real.exp (ix K 0 * p.k * t) * (p.k ^ (-ix K 2) * p.lmbd ^ ix K 3 * p.mu_v ^ ix K 4)

theorem wT_eq (p : Par) (s t : ℝ) (K : List ℤ) :
    wZ (zp p s t) K = wT p t K * Real.exp (ix K 1 * p.k * s) := by
  simp only [wZ, wT]; ring

theorem wT_deriv (p : Par) (t : ℝ) (K : List ℤ) :
    HasDerivAt (fun u => wT p u K) (ix K 0 * p.k * wT p t K) t := by
  have := (((hasDerivAt_id t).const_mul (ix K 0 * p.k)).exp).mul_const
    (p.k ^ (-ix K 2) * p.lmbd ^ ix K 3 * p.mu_v ^ ix K 4)
  refine this.congr_deriv ?_
  simp only [wT, id]; ring

/-- Leibniz' rule -/
theorem leibniz_poly (p : Par) (r : IPoly) (g : ℝ → ℝ) (hg : Continuous g) (t : ℝ) :
    HasDerivAt (fun u => ∫ s in (0:ℝ)..u, g s * ev (wZ (zp p s u)) r)
      (g t * ev (wZ (zp p t t)) r +
        ∫ s in (0:ℝ)..t, g s * ev (fun K => ix K 0 * p.k * wZ (zp p s t) K) r) t := by
  have c1 : ∀ (c : ℝ) (K : List ℤ), Continuous fun s => c * Real.exp (ix K 1 * p.k * s) := by
    intro c K; fun_prop
  have e1 : ∀ u, ∫ s in (0:ℝ)..u, g s * ev (wZ (zp p s u)) r =
      ev (fun K => wT p u K * ∫ s in (0:ℝ)..u, g s * Real.exp (ix K 1 * p.k * s)) r := by
    intro u
    rw [(intervalIntegral_ev g (fun s => wZ (zp p s u)) r 0 u (fun e _ => by
      simp only [wT_eq]
      exact (hg.mul (c1 _ _)).intervalIntegrable _ _)).2]
    refine ev_congr _ _ _ fun e _ => ?_
    rw [← intervalIntegral.integral_const_mul]
    congr 1; funext s; rw [wT_eq]; ring
  have e2 : ∫ s in (0:ℝ)..t, g s * ev (fun K => ix K 0 * p.k * wZ (zp p s t) K) r =
      ev (fun K => ix K 0 * p.k * wT p t K * ∫ s in (0:ℝ)..t, g s * Real.exp (ix K 1 * p.k * s)) r := by
    rw [(intervalIntegral_ev g (fun s K => ix K 0 * p.k * wZ (zp p s t) K) r 0 t (fun e _ => by
      simp only [wT_eq, ← mul_assoc]
      have : Continuous fun s => g s * ix e.1 0 * p.k * wT p t e.1 * Real.exp (ix e.1 1 * p.k * s) := by
        fun_prop
      exact this.intervalIntegrable _ _)).2]
    refine ev_congr _ _ _ fun e _ => ?_
    rw [← intervalIntegral.integral_const_mul]
    congr 1; funext s; rw [wT_eq]; ring
  simp only [e1]
  rw [e2, ← ev_mul_const, ← ev_add_fun]
  refine hasDerivAt_ev _ _ r t fun e _ => ?_
  have hi : HasDerivAt (fun u => ∫ s in (0:ℝ)..u, g s * Real.exp (ix e.1 1 * p.k * s))
      (g t * Real.exp (ix e.1 1 * p.k * t)) t := by
    have hc : Continuous fun s => g s * Real.exp (ix e.1 1 * p.k * s) := by fun_prop
    exact intervalIntegral.integral_hasDerivAt_right (hc.intervalIntegrable _ _)
      (hc.stronglyMeasurableAtFilter _ _) hc.continuousAt
  refine ((wT_deriv p t e.1).mul hi).congr_deriv ?_
  rw [wT_eq]; ring

/-- Leibniz' rule for the moments of the jump integral -/
theorem leibniz_Z {c : Cfg} (hc : CfgOK c Z) (hZ : ZGen Z δ) {p : Par} (hp : p.OK) (n : ℕ) (g : ℝ → ℝ)
    (hg : Continuous g) (t : ℝ) (ht : 0 < t) :
    HasDerivAt (fun u => ∫ s in (0:ℝ)..u, g s * Z p.k p.lmbd p.mu_v n s u)
      ((if n = 0 then g t else 0) + ∑ j ∈ Finset.range n, n.choose (j + 1) * jr δ p (j + 1) t *
        ∫ s in (0:ℝ)..t, g s * Z p.k p.lmbd p.mu_v (n - (j + 1)) s t) t := by
  obtain ⟨r, -, -, -, v⟩ := hc.iez n
  have e : (fun u => ∫ s in (0:ℝ)..u, g s * Z p.k p.lmbd p.mu_v n s u) =ᶠ[𝓝 t]
      fun u => ∫ s in (0:ℝ)..u, g s * ev (wZ (zp p s u)) r := by
    filter_upwards [lt_mem_nhds ht] with u hu
    exact int_congr u hu.le _ _ fun s _ h => by rw [v (zp p s u) (zp_ok hp h)]
  refine ((leibniz_poly p r g hg t).congr_of_eventuallyEq e).congr_deriv ?_
  congr 1
  · rw [v (zp p t t) (zp_ok hp le_rfl)]
    simp only [Z_diag hZ hp]
    split_ifs <;> simp
  · have h1 : ∀ s ∈ Set.Ioo 0 t, g s * ev (fun K => ix K 0 * p.k * wZ (zp p s t) K) r =
        ∑ j ∈ Finset.range n, n.choose (j + 1) * jr δ p (j + 1) t *
          (g s * Z p.k p.lmbd p.mu_v (n - (j + 1)) s t) := by
      intro s hs
      have d1 := Z_deriv hZ hp s t hs.2 n
      have d2 : HasDerivAt (fun u => ev (wZ (zp p s u)) r) (ev (fun K => ix K 0 * p.k * wZ (zp p s t) K) r) t := by
        refine hasDerivAt_ev _ _ r t fun e _ => ?_
        simp only [wT_eq]
        exact ((wT_deriv p t e.1).mul_const _).congr_deriv (by ring)
      have d3 : (fun u => Z p.k p.lmbd p.mu_v n s u) =ᶠ[𝓝 t] fun u => ev (wZ (zp p s u)) r := by
        filter_upwards [lt_mem_nhds hs.2] with u hu
        rw [v (zp p s u) (zp_ok hp hu.le)]
      rw [(d2.congr_of_eventuallyEq d3).unique d1, Finset.mul_sum]
      exact Finset.sum_congr rfl fun j _ => by ring
    rw [intervalIntegral.integral_congr_Ioo_of_le ht.le h1, intervalIntegral.integral_finsetSum]
    · refine Finset.sum_congr rfl fun j _ => ?_
      rw [intervalIntegral.integral_const_mul]
    · intro j _
      obtain ⟨q, -, -, -, w⟩ := hc.iez (n - (j + 1))
      have c : Continuous fun s => g s * ev (wZ (zp p s t)) q :=
        hg.mul (ev_cont (fun s => wZ (zp p s t)) q fun K => wZ_cont p t K)
      refine ((c.intervalIntegrable 0 t).congr ?_).const_mul _
      intro s hs
      rw [Set.uIoc_of_le ht.le] at hs
      simp only
      rw [w (zp p s t) (zp_ok hp hs.2)]

/-- the joint moments in `m`, `n` are the values of a Poly and so continuous -/
theorem jm_cont {c : Cfg} (hc : CfgOK c Z) {p : Par} (hp : p.OK) (a b : ℝ) (m n : ℕ) :
    ∃ f : ℝ → ℝ, Continuous f ∧ ∀ t, 0 ≤ t → jm Z p a b m n t = f t := by
  obtain ⟨r, -, -, g⟩ := momentJoint_spec hc (m + n + 2) m n (by omega) (by omega)
  exact ⟨fun t => ev (vIat p a b t) r, ev_cont _ r fun K => vIat_cont p a b K, fun t ht =>
    (g.2.2 p hp a b t ht).symm⟩

theorem choose_comm (n i j : ℕ) (h : i + j ≤ n) : (n.choose i : ℝ) * (n - i).choose j =
    n.choose j * (n - j).choose i := by
  have h1 := Nat.choose_mul (n := n) (k := i + j) (s := i) (by omega)
  have h2 := Nat.choose_mul (n := n) (k := i + j) (s := j) (by omega)
  rw [Nat.add_sub_cancel_left] at h1
  rw [Nat.add_sub_cancel] at h2
  rw [Nat.choose_symm_add, h2] at h1
  exact_mod_cast h1.symm

/-- the integrand of `jointMom` before it is multiplied by the jumps after `u` -/
noncomputable def gI (Z : ZFun) (p : Par) (a b : ℝ) (m i : ℕ) (u : ℝ) : ℝ :=
  a * Real.exp (p.k * u) * jm Z p a b m i u + b * Real.exp (2 * p.k * u) * jm Z p a b m i u +
    p.sigma * Real.exp (p.k * u) * jm Z p a b (m + 1) i u + Real.exp (p.k * u) * jm Z p a b m (i + 1) u

theorem gI_cont {c : Cfg} (hc : CfgOK c Z) {p : Par} (hp : p.OK) (a b : ℝ) (m n : ℕ) :
    ∃ f : ℝ → ℝ, Continuous f ∧ ∀ t, 0 ≤ t → gI Z p a b m n t = f t := by
  obtain ⟨f1, c1, h1⟩ := jm_cont hc hp a b m n
  obtain ⟨f2, c2, h2⟩ := jm_cont hc hp a b (m + 1) n
  obtain ⟨f3, c3, h3⟩ := jm_cont hc hp a b m (n + 1)
  refine ⟨fun u => a * Real.exp (p.k * u) * f1 u + b * Real.exp (2 * p.k * u) * f1 u +
    p.sigma * Real.exp (p.k * u) * f2 u + Real.exp (p.k * u) * f3 u, by fun_prop, fun t ht => ?_⟩
  rw [gI, h1 t ht, h2 t ht, h3 t ht]

theorem jm_eq_gI {c : Cfg} (hc : CfgOK c Z) {p : Par} (hp : p.OK) (a b : ℝ) (m n : ℕ) (t : ℝ)
    (ht : 0 ≤ t) : jm Z p a b (m + 2) n t = ∑ i ∈ Finset.range (n + 1),
      n.choose i * ((m + 2 : ℕ) * (m + 1 : ℕ) / 2) *
        ∫ u in (0:ℝ)..t, gI Z p a b m i u * Z p.k p.lmbd p.mu_v (n - i) u t := by
  rw [jm, jointMom]
  refine Finset.sum_congr rfl fun i _ => ?_
  congr 1
  obtain ⟨q, -, -, -, w⟩ := hc.iez (n - i)
  have ii : ∀ (q' : ℝ) (m' i' : ℕ), IntervalIntegrable (fun u => Real.exp (q' * u) * jm Z p a b m' i' u *
      Z p.k p.lmbd p.mu_v (n - i) u t) volume 0 t := by
    intro q' m' i'
    obtain ⟨f, cf, hf⟩ := jm_cont hc hp a b m' i'
    have c : Continuous fun u => Real.exp (q' * u) * f u * ev (wZ (zp p u t)) q :=
      ((by fun_prop : Continuous fun u => Real.exp (q' * u)).mul cf).mul
        (ev_cont (fun s => wZ (zp p s t)) q fun K => wZ_cont p t K)
    refine (c.intervalIntegrable 0 t).congr ?_
    intro s hs
    rw [Set.uIoc_of_le ht] at hs
    simp only
    rw [w (zp p s t) (zp_ok hp hs.2), hf s hs.1.le]
  rw [← intervalIntegral.integral_const_mul, ← intervalIntegral.integral_const_mul,
    ← intervalIntegral.integral_const_mul, ← intervalIntegral.integral_add ((ii _ _ _).const_mul _)
      ((ii _ _ _).const_mul _), ← intervalIntegral.integral_add (((ii _ _ _).const_mul _).add
      ((ii _ _ _).const_mul _)) ((ii _ _ _).const_mul _), ← intervalIntegral.integral_add
      ((((ii _ _ _).const_mul _).add ((ii _ _ _).const_mul _)).add ((ii _ _ _).const_mul _)) (ii _ _ _)]
  congr 1
  funext u
  rw [gI]; ring

/-- Dynkin's formula for the monomials `IE^m IEZ^n` -/
theorem jm_deriv {c : Cfg} (hc : CfgOK c Z) (hZ : ZGen Z δ) {p : Par} (hp : p.OK) (a b : ℝ) (m n : ℕ)
    (t : ℝ) (ht : 0 < t) : HasDerivAt (jm Z p a b m n)
      ((m * (m - 1 : ℕ) / 2 : ℝ) * gI Z p a b (m - 2) n t +
        ∑ j ∈ Finset.range n, n.choose (j + 1) * jr δ p (j + 1) t * jm Z p a b m (n - (j + 1)) t) t := by
  match m with
  | 0 =>
    have : jm Z p a b 0 n = fun u => Z p.k p.lmbd p.mu_v n 0 u := by funext u; rw [jm, jointMom]
    rw [this]
    refine (Z_deriv hZ hp 0 t ht n).congr_deriv ?_
    simp [jm, jointMom]
  | 1 =>
    have : ∀ n, jm Z p a b 1 n = fun _ => 0 := by intro n; funext u; rw [jm, jointMom]
    simp only [this]
    simpa using hasDerivAt_const t (0:ℝ)
  | m + 2 =>
    have e : jm Z p a b (m + 2) n =ᶠ[𝓝 t] fun t => ∑ i ∈ Finset.range (n + 1),
        n.choose i * ((m + 2 : ℕ) * (m + 1 : ℕ) / 2) *
          ∫ u in (0:ℝ)..t, gI Z p a b m i u * Z p.k p.lmbd p.mu_v (n - i) u t := by
      filter_upwards [lt_mem_nhds ht] with u hu using jm_eq_gI hc hp a b m n u hu.le
    have hd : ∀ i, HasDerivAt (fun t => ∫ u in (0:ℝ)..t, gI Z p a b m i u * Z p.k p.lmbd p.mu_v (n - i) u t)
        ((if n - i = 0 then gI Z p a b m i t else 0) + ∑ j ∈ Finset.range (n - i),
          (n - i).choose (j + 1) * jr δ p (j + 1) t *
          ∫ s in (0:ℝ)..t, gI Z p a b m i s * Z p.k p.lmbd p.mu_v (n - i - (j + 1)) s t) t := by
      intro i
      obtain ⟨f, cf, hf⟩ := gI_cont hc hp a b m i
      have e2 : (fun t => ∫ u in (0:ℝ)..t, gI Z p a b m i u * Z p.k p.lmbd p.mu_v (n - i) u t) =ᶠ[𝓝 t]
          fun t => ∫ u in (0:ℝ)..t, f u * Z p.k p.lmbd p.mu_v (n - i) u t := by
        filter_upwards [lt_mem_nhds ht] with u hu
        exact int_congr u hu.le _ _ fun s h _ => by rw [hf s h]
      refine ((leibniz_Z hc hZ hp (n - i) f cf t ht).congr_of_eventuallyEq e2).congr_deriv ?_
      rw [hf t ht.le]
      congr 1
      refine Finset.sum_congr rfl fun j _ => ?_
      congr 1
      exact int_congr t ht.le _ _ fun s h _ => by rw [hf s h]
    have hs := HasDerivAt.fun_sum (u := Finset.range (n + 1)) fun i _ =>
      (hd i).const_mul ((n.choose i : ℝ) * ((m + 2 : ℕ) * (m + 1 : ℕ) / 2))
    refine (hs.congr_of_eventuallyEq e).congr_deriv ?_
    simp only [mul_add]
    rw [Finset.sum_add_distrib]
    congr 1
    · rw [Finset.sum_eq_single n]
      · simp
      · intro i hi hne
        rw [Finset.mem_range] at hi
        rw [if_neg (by omega), mul_zero]
      · simp
    · have r : ∀ j ∈ Finset.range n, n.choose (j + 1) * jr δ p (j + 1) t *
          jm Z p a b (m + 2) (n - (j + 1)) t = ∑ i ∈ Finset.range (n - j),
          n.choose (j + 1) * jr δ p (j + 1) t * ((n - (j + 1)).choose i *
            ((m + 2 : ℕ) * (m + 1 : ℕ) / 2) *
          ∫ u in (0:ℝ)..t, gI Z p a b m i u * Z p.k p.lmbd p.mu_v (n - (j + 1) - i) u t) := by
        intro j hj
        rw [Finset.mem_range] at hj
        rw [jm_eq_gI hc hp a b m _ t ht.le, Finset.mul_sum, show n - (j + 1) + 1 = n - j by omega]
      rw [Finset.sum_congr rfl r]
      simp_rw [Finset.mul_sum]
      rw [Finset.sum_sigma', Finset.sum_sigma']
      refine Finset.sum_bij' (fun x _ => ⟨x.2, x.1⟩) (fun x _ => ⟨x.2, x.1⟩) ?_ ?_ (fun _ _ => rfl)
        (fun _ _ => rfl) ?_
      · intro x hx; simp only [Finset.mem_sigma, Finset.mem_range] at hx ⊢; omega
      · intro x hx; simp only [Finset.mem_sigma, Finset.mem_range] at hx ⊢; omega
      · intro x hx
        simp only [Finset.mem_sigma, Finset.mem_range] at hx
        have hcc := choose_comm n x.1 (x.2 + 1) (by omega)
        rw [show n - x.1 - (x.2 + 1) = n - (x.2 + 1) - x.1 by omega]
        linear_combination (((m + 2 : ℕ) * (m + 1 : ℕ) / 2 : ℝ) * jr δ p (x.2 + 1) t *
          ∫ s in (0:ℝ)..t, gI Z p a b m x.1 s * Z p.k p.lmbd p.mu_v (n - (x.2 + 1) - x.1) s t) * hcc

theorem jm_zero (hZ : ZGen Z δ) {p : Par} (hp : p.OK) (a b : ℝ) (m n : ℕ) :
    jm Z p a b m n 0 = if m = 0 ∧ n = 0 then 1 else 0 := by
  match m with
  | 0 => rw [jm, jointMom, Z_diag hZ hp]; simp
  | 1 => rw [jm, jointMom]; simp
  | m + 2 => rw [jm, jointMom]; simp

end Ajd.Srjd

end -- SrjdGen

section -- SrjdFun

/-! Expectations of polynomials in `IE_t` and `IEZ_t`. -/

namespace Ajd.Srjd
open MvPolynomial
open scoped Topology

/-- polynomials in `x = IE_t` and `z = IEZ_t` -/
abbrev P2v := MvPolynomial (Fin 2) ℝ

/-- the expectation when `x^m z^n` has the expectation `M m n` -/
noncomputable def Ex (M : ℕ → ℕ → ℝ) : P2v →ₗ[ℝ] ℝ :=
  (MvPolynomial.basisMonomials (Fin 2) ℝ).constr ℝ fun s => M (s 0) (s 1)

theorem Ex_monomial (M : ℕ → ℕ → ℝ) (s : Fin 2 →₀ ℕ) (c : ℝ) : Ex M (monomial s c) = c * M (s 0) (s 1) := by
  have h : (monomial s c : P2v) = c • MvPolynomial.basisMonomials (Fin 2) ℝ s := by
    rw [MvPolynomial.coe_basisMonomials, smul_monomial, smul_eq_mul, mul_one]
  rw [h, map_smul, Ex, Module.Basis.constr_basis, smul_eq_mul]

theorem Ex_C_mul (M : ℕ → ℕ → ℝ) (c : ℝ) (q : P2v) : Ex M (C c * q) = c * Ex M q := by
  rw [← smul_eq_C_mul, map_smul, smul_eq_mul]

theorem mono_eq (s : Fin 2 →₀ ℕ) (c : ℝ) : (monomial s c : P2v) = C c * (X 0 ^ s 0 * X 1 ^ s 1) := by
  rw [monomial_eq, Finsupp.prod_fintype _ _ (by simp), Fin.prod_univ_two]

theorem Ex_xz (M : ℕ → ℕ → ℝ) (m n : ℕ) : Ex M (X 0 ^ m * X 1 ^ n) = M m n := by
  have h := Ex_monomial M (Finsupp.single 0 m + Finsupp.single 1 n) 1
  rw [mono_eq] at h
  simpa using h

/-- the expectation of a polynomial changes as those of its monomials do -/
theorem Ex_deriv (M : ℕ → ℕ → ℝ → ℝ) (M' : ℕ → ℕ → ℝ) (t : ℝ)
    (h : ∀ m n, HasDerivAt (M m n) (M' m n) t) (q : P2v) :
    HasDerivAt (fun u => Ex (fun m n => M m n u) q) (Ex M' q) t := by
  induction q using MvPolynomial.induction_on' with
  | monomial s c =>
    simp only [Ex_monomial]
    exact (h _ _).const_mul c
  | add p q hp hq =>
    simp only [map_add]
    exact hp.add hq

/-- powers of an affine expression whose coefficients change too -/
theorem pow_deriv (L : ℝ → P2v →ₗ[ℝ] ℝ) (L' : P2v →ₗ[ℝ] ℝ) (t : ℝ)
    (hL : ∀ q, HasDerivAt (fun u => L u q) (L' q) t) (c d : ℝ → ℝ) (c' d' : ℝ)
    (hc : HasDerivAt c c' t) (hd : HasDerivAt d d' t) (ξ : P2v) (n : ℕ) (q : P2v) :
    HasDerivAt (fun u => L u (q * (C (c u) + C (d u) * ξ) ^ n))
      (L' (q * (C (c t) + C (d t) * ξ) ^ n) +
        L t (q * (C (n : ℝ) * (C c' + C d' * ξ) * (C (c t) + C (d t) * ξ) ^ (n - 1)))) t := by
  induction n generalizing q with
  | zero => simpa using hL q
  | succ n ih =>
    have lin : ∀ (Φ : P2v →ₗ[ℝ] ℝ) (a : ℝ) (r : P2v), a * Φ r = Φ (C a * r) := by
      intro Φ a r; rw [← smul_eq_C_mul, map_smul, smul_eq_mul]
    have e : ∀ (Φ : P2v →ₗ[ℝ] ℝ) (u : ℝ), Φ (q * (C (c u) + C (d u) * ξ) ^ (n + 1)) =
        c u * Φ (q * (C (c u) + C (d u) * ξ) ^ n) + d u * Φ (q * ξ * (C (c u) + C (d u) * ξ) ^ n) := by
      intro Φ u
      rw [lin, lin, ← map_add]
      congr 1
      ring
    have hn : C (n : ℝ) * (C (c t) + C (d t) * ξ) ^ n =
        C (n : ℝ) * (C (c t) + C (d t) * ξ) * (C (c t) + C (d t) * ξ) ^ (n - 1) := by
      rcases n with _ | n
      · simp
      · rw [Nat.add_sub_cancel]; ring
    have e2 : L t (q * (C ((n + 1 : ℕ) : ℝ) * (C c' + C d' * ξ) * (C (c t) + C (d t) * ξ) ^ n)) =
        c' * L t (q * (C (c t) + C (d t) * ξ) ^ n) + d' * L t (q * ξ * (C (c t) + C (d t) * ξ) ^ n) +
        (c t * L t (q * (C (n : ℝ) * (C c' + C d' * ξ) * (C (c t) + C (d t) * ξ) ^ (n - 1))) +
          d t * L t (q * ξ * (C (n : ℝ) * (C c' + C d' * ξ) * (C (c t) + C (d t) * ξ) ^ (n - 1)))) := by
      rw [lin, lin, lin, lin, ← map_add, ← map_add, ← map_add]
      congr 1
      push_cast
      rw [map_add, map_one]
      linear_combination (q * (C c' + C d' * ξ)) * hn
    simp only [e]
    refine ((hc.mul (ih q)).add (hd.mul (ih (q * ξ)))).congr_deriv ?_
    rw [Nat.add_sub_cancel, e2]
    ring

/-! ### the generator of `(IE_t, IEZ_t)` -/

theorem iter_pderiv_monomial (j : ℕ) (s : Fin 2 →₀ ℕ) (c : ℝ) :
    (pderiv (1 : Fin 2))^[j] (monomial s c) = monomial (s - Finsupp.single 1 j) (c * (s 1).descFactorial j) := by
  induction j with
  | zero => simp
  | succ j ih =>
    rw [Function.iterate_succ_apply', ih, pderiv_monomial]
    congr 1
    · rw [tsub_tsub, ← Finsupp.single_add]
    · rw [Finsupp.coe_tsub, Pi.sub_apply, Finsupp.single_eq_same, Nat.descFactorial_succ]
      push_cast; ring

theorem iter_pderiv_pow (j n : ℕ) (c d : ℝ) (ξ : P2v) (hξ : pderiv (1 : Fin 2) ξ = 1) :
    (pderiv (1 : Fin 2))^[j] ((C c + C d * ξ) ^ n) =
      C (n.descFactorial j * d ^ j : ℝ) * (C c + C d * ξ) ^ (n - j) := by
  induction j with
  | zero => simp
  | succ j ih =>
    rw [Function.iterate_succ_apply', ih, Derivation.leibniz, Derivation.leibniz_pow]
    simp only [map_add, pderiv_C, smul_zero, add_zero, Derivation.leibniz, hξ, smul_eq_mul, mul_one,
      zero_add, nsmul_eq_mul, Nat.descFactorial_succ, Nat.sub_sub]
    rw [show ((n - j : ℕ) : P2v) = C ((n - j : ℕ) : ℝ) by simp, pow_succ]
    push_cast
    simp only [map_mul, map_pow]
    ring

variable {Z : ZFun} {δ : ℝ}

/-- derivative of `jm` -/
noncomputable def jm' (Z : ZFun) (δ : ℝ) (p : Par) (a b t : ℝ) (m n : ℕ) : ℝ :=
  (m * (m - 1 : ℕ) / 2 : ℝ) * gI Z p a b (m - 2) n t +
    ∑ j ∈ Finset.range n, n.choose (j + 1) * jr δ p (j + 1) t * jm Z p a b m (n - (j + 1)) t

/-- `E[e^{kt} v_t]`-like factor -/
noncomputable def vol (p : Par) (a b t : ℝ) : P2v :=
  C (a * Real.exp (p.k * t) + b * Real.exp (2 * p.k * t)) + C (p.sigma * Real.exp (p.k * t)) * X 0 +
    C (Real.exp (p.k * t)) * X 1

theorem Ex_gen (p : Par) (a b t : ℝ) (N : ℕ) (q : P2v) (hq : q.degreeOf 1 ≤ N) :
    Ex (jm' Z δ p a b t) q = Ex (fun m n => jm Z p a b m n t)
      (C (1 / 2) * pderiv 0 (pderiv 0 q) * vol p a b t +
        ∑ j ∈ Finset.range N, C (jr δ p (j + 1) t / (j + 1).factorial) * (pderiv 1)^[j + 1] q) := by
  set E := Ex (fun m n => jm Z p a b m n t) with hE
  have lin : ∀ j, ∀ r s : P2v, (pderiv (1 : Fin 2))^[j] (r + s) =
      (pderiv (1 : Fin 2))^[j] r + (pderiv (1 : Fin 2))^[j] s := by
    intro j r s; exact iterate_map_add (pderiv (1 : Fin 2)) j r s
  have mono : ∀ s : Fin 2 →₀ ℕ, ∀ c : ℝ, s 1 ≤ N → Ex (jm' Z δ p a b t) (monomial s c) =
      E (C (1 / 2) * pderiv 0 (pderiv 0 (monomial s c)) * vol p a b t +
        ∑ j ∈ Finset.range N, C (jr δ p (j + 1) t / (j + 1).factorial) * (pderiv 1)^[j + 1] (monomial s c)) := by
    intro s c hs
    rw [Ex_monomial, jm', mul_add, map_add, map_sum]
    congr 1
    · rw [pderiv_monomial, pderiv_monomial]
      by_cases h2 : s 0 < 2
      · have : s 0 = 0 ∨ s 0 = 1 := by omega
        rcases this with h | h <;> simp [h]
      · rw [mono_eq, vol]
        have e0 : (s - Finsupp.single (0 : Fin 2) 1 - Finsupp.single (0 : Fin 2) 1 : Fin 2 →₀ ℕ) 0 = s 0 - 2 := by simp; omega
        have e1 : (s - Finsupp.single (0 : Fin 2) 1 - Finsupp.single (0 : Fin 2) 1 : Fin 2 →₀ ℕ) 1 = s 1 := by simp
        have e2 : (s - Finsupp.single (0 : Fin 2) 1 : Fin 2 →₀ ℕ) 0 = s 0 - 1 := by simp
        rw [e0, e1, e2]
        obtain ⟨m, hm⟩ : ∃ m, s 0 = m + 2 := ⟨s 0 - 2, by omega⟩
        rw [hm, Nat.add_sub_cancel]
        have : C (1 / 2) * (C (c * ((m + 2 : ℕ) : ℝ) * ((m + 2 - 1 : ℕ) : ℝ)) * (X 0 ^ m * X 1 ^ s 1)) *
            (C (a * Real.exp (p.k * t) + b * Real.exp (2 * p.k * t)) +
              C (p.sigma * Real.exp (p.k * t)) * X 0 + C (Real.exp (p.k * t)) * X 1) =
            C (1 / 2 * (c * ((m + 2 : ℕ) : ℝ) * ((m + 2 - 1 : ℕ) : ℝ))) *
            (C (a * Real.exp (p.k * t) + b * Real.exp (2 * p.k * t)) * (X 0 ^ m * X 1 ^ s 1) +
              C (p.sigma * Real.exp (p.k * t)) * (X 0 ^ (m + 1) * X 1 ^ s 1) +
              C (Real.exp (p.k * t)) * (X 0 ^ m * X 1 ^ (s 1 + 1)) : P2v) := by
          rw [C_mul (σ := Fin 2) (a := (1/2 : ℝ))]
          ring
        rw [this, hE, Ex_C_mul, map_add, map_add, Ex_C_mul, Ex_C_mul, Ex_C_mul, Ex_xz, Ex_xz, Ex_xz, gI]
        ring
    · rw [Finset.mul_sum, ← Finset.sum_subset (Finset.range_mono hs)]
      · refine Finset.sum_congr rfl fun j _ => ?_
        rw [iter_pderiv_monomial, hE, Ex_C_mul, Ex_monomial]
        have e1 : (s - Finsupp.single (1 : Fin 2) (j + 1) : Fin 2 →₀ ℕ) 0 = s 0 := by simp
        have e2 : (s - Finsupp.single (1 : Fin 2) (j + 1) : Fin 2 →₀ ℕ) 1 = s 1 - (j + 1) := by simp
        rw [e1, e2, Nat.descFactorial_eq_factorial_mul_choose]
        have : ((j + 1).factorial : ℝ) ≠ 0 := by positivity
        push_cast
        field_simp
      · intro j _ hj
        rw [Finset.mem_range, not_lt] at hj
        rw [iter_pderiv_monomial, Nat.descFactorial_eq_zero_iff_lt.2 (by omega)]
        simp
  have lins : ∀ j, ∀ (x : ℝ) (r : P2v), (pderiv (1 : Fin 2))^[j] (x • r) =
      x • (pderiv (1 : Fin 2))^[j] r := by
    intro j x r
    induction j with
    | zero => rfl
    | succ j ih => rw [Function.iterate_succ_apply', ih, Derivation.map_smul,
        Function.iterate_succ_apply']
  let T : P2v →ₗ[ℝ] ℝ :=
    { toFun := fun q => E (C (1 / 2) * pderiv 0 (pderiv 0 q) * vol p a b t +
        ∑ j ∈ Finset.range N, C (jr δ p (j + 1) t / (j + 1).factorial) * (pderiv 1)^[j + 1] q)
      map_add' := by
        intro r s
        simp only [lin, map_add, mul_add, add_mul, Finset.sum_add_distrib]
        ring
      map_smul' := by
        intro x r
        simp only [lins, Derivation.map_smul, mul_smul_comm, smul_mul_assoc, ← Finset.smul_sum, ← smul_add,
          map_smul, RingHom.id_apply] }
  show _ = T q
  rw [q.as_sum, map_sum, map_sum]
  refine Finset.sum_congr rfl fun s hs => mono s _ ?_
  exact (monomial_le_degreeOf 1 hs).trans hq

/-! ### powers of `v_t` -/

/-- `σ IE_t + IEZ_t` -/
noncomputable def xi (p : Par) : P2v := C p.sigma * X 0 + X 1

theorem xi_deriv1 (p : Par) : pderiv (1 : Fin 2) (xi p) = 1 := by
  rw [xi, map_add, Derivation.leibniz, pderiv_X_self, pderiv_X_of_ne (by decide), pderiv_C]
  simp

theorem xi_deriv0 (p : Par) : pderiv (0 : Fin 2) (xi p) = C p.sigma := by
  rw [xi, map_add, Derivation.leibniz, pderiv_X_self, pderiv_X_of_ne (by decide), pderiv_C]
  simp

/-- `β + e^{-kt} (a + σ IE_t + IEZ_t)` -/
noncomputable def Wt (p : Par) (a β t : ℝ) : P2v :=
  C (β + a * Real.exp (-(p.k * t))) + C (Real.exp (-(p.k * t))) * xi p

/-- `E[(β + e^{-kt} (a + σ IE_t + IEZ_t))^n]` -/
noncomputable def U (Z : ZFun) (p : Par) (a b β : ℝ) (n : ℕ) (t : ℝ) : ℝ :=
  Ex (fun m n => jm Z p a b m n t) (Wt p a β t ^ n)

theorem deg_pow (c d σ : ℝ) (n : ℕ) : degreeOf 1 ((C c + C d * (C σ * X 0 + X 1) : P2v) ^ n) ≤ n := by
  refine (degreeOf_pow_le _ _ _).trans ?_
  have h : degreeOf 1 (C c + C d * (C σ * X 0 + X 1) : P2v) ≤ 1 := by
    refine (degreeOf_add_le _ _ _).trans (max_le (by simp) ?_)
    refine (degreeOf_C_mul_le _ _ _).trans ((degreeOf_add_le _ _ _).trans (max_le ?_ ?_))
    · refine (degreeOf_C_mul_le _ _ _).trans ?_
      rw [degreeOf_X]; simp
    · rw [degreeOf_X]; simp
  calc n * _ ≤ n * 1 := Nat.mul_le_mul_left _ h
    _ = n := mul_one _

theorem d0_pow (c d : ℝ) (p : Par) (n : ℕ) :
    pderiv (0 : Fin 2) (pderiv 0 ((C c + C d * xi p) ^ n)) =
      C (n * (n - 1 : ℕ) * (d * p.sigma) ^ 2 : ℝ) * (C c + C d * xi p) ^ (n - 2) := by
  have h1 : ∀ n : ℕ, pderiv (0 : Fin 2) ((C c + C d * xi p) ^ n) =
      C (n * (d * p.sigma) : ℝ) * (C c + C d * xi p) ^ (n - 1) := by
    intro n
    rw [Derivation.leibniz_pow]
    simp only [map_add, pderiv_C, smul_zero, add_zero, Derivation.leibniz, xi_deriv0, smul_eq_mul,
      zero_add, nsmul_eq_mul]
    simp only [map_mul, map_natCast]
    ring
  rw [h1, Derivation.leibniz, h1, pderiv_C, smul_zero, add_zero, smul_eq_mul, Nat.sub_sub]
  simp only [map_mul, map_natCast, map_pow]
  ring

theorem vol_eq (p : Par) (a b β t : ℝ) : vol p a b t =
    C (Real.exp (p.k * t) ^ 2) * (Wt p a β t + C (b - β)) := by
  have h1 : Real.exp (2 * p.k * t) = Real.exp (p.k * t) ^ 2 := by
    rw [← Real.exp_nat_mul]; congr 1; push_cast; ring
  have h2 : Real.exp (p.k * t) ^ 2 * Real.exp (-(p.k * t)) = Real.exp (p.k * t) := by
    rw [pow_two, mul_assoc, ← Real.exp_add, add_neg_cancel, Real.exp_zero, mul_one]
  rw [vol, Wt, xi, h1]
  conv_lhs => rw [show p.sigma * Real.exp (p.k * t) = p.sigma * (Real.exp (p.k * t) ^ 2 * Real.exp (-(p.k * t))) by rw [h2]]
  conv_lhs => rw [show (C (Real.exp (p.k * t)) * X 1 : P2v) =
    C (Real.exp (p.k * t) ^ 2 * Real.exp (-(p.k * t))) * X 1 by rw [h2]]
  conv_lhs => rw [show a * Real.exp (p.k * t) = a * (Real.exp (p.k * t) ^ 2 * Real.exp (-(p.k * t))) by rw [h2]]
  simp only [map_add, map_mul, map_sub]
  ring

theorem U_deriv {c : Cfg} (hc : CfgOK c Z) (hZ : ZGen Z δ) {p : Par} (hp : p.OK) (a b β : ℝ) (n : ℕ)
    (t : ℝ) (ht : 0 < t) : HasDerivAt (U Z p a b β n)
      (-(n * p.k) * (U Z p a b β n t - β * U Z p a b β (n - 1) t) +
        n * (n - 1 : ℕ) * p.sigma ^ 2 / 2 * (U Z p a b β (n - 1) t + (b - β) * U Z p a b β (n - 2) t) +
        p.lmbd * ∑ j ∈ Finset.range n, (if j + 1 = 1 then δ else 1) *
          (n.choose (j + 1) * ((j + 1).factorial * p.mu_v ^ (j + 1))) * U Z p a b β (n - (j + 1)) t) t := by
  have hE : HasDerivAt (fun t => Real.exp (-(p.k * t))) (-(p.k) * Real.exp (-(p.k * t))) t := by
    have := ((hasDerivAt_id t).const_mul p.k).neg.exp
    refine this.congr_deriv ?_
    simp; ring
  have key := pow_deriv (fun u => Ex (fun m n => jm Z p a b m n u)) (Ex (jm' Z δ p a b t)) t
    (Ex_deriv (jm Z p a b) _ t fun m n => jm_deriv hc hZ hp a b m n t ht)
    (fun t => β + a * Real.exp (-(p.k * t))) (fun t => Real.exp (-(p.k * t))) _ _
    ((hE.const_mul a).const_add β) hE (xi p) n 1
  simp only [one_mul] at key
  refine key.congr_deriv ?_
  rw [Ex_gen p a b t n ((C (β + a * Real.exp (-(p.k * t))) + C (Real.exp (-(p.k * t))) * xi p) ^ n)
    (deg_pow _ _ _ n), d0_pow, vol_eq p a b β]
  set e := Real.exp (-(p.k * t)) with he
  have hW : (C (β + a * e) + C e * xi p : P2v) = Wt p a β t := rfl
  simp only [iter_pderiv_pow _ _ _ _ _ (xi_deriv1 p)]
  simp only [hW]
  have hee : e ^ 2 * Real.exp (p.k * t) ^ 2 = 1 := by
    rw [← mul_pow, he, ← Real.exp_add, neg_add_cancel, Real.exp_zero, one_pow]
  rw [map_add]
  have t1 : Ex (fun m n => jm Z p a b m n t) (C (1 / 2) * (C (n * (n - 1 : ℕ) * (e * p.sigma) ^ 2 : ℝ) *
        Wt p a β t ^ (n - 2)) * (C (Real.exp (p.k * t) ^ 2) * (Wt p a β t + C (b - β)))) =
      n * (n - 1 : ℕ) * p.sigma ^ 2 / 2 * (U Z p a b β (n - 1) t + (b - β) * U Z p a b β (n - 2) t) := by
    by_cases hn : n < 2
    · have : n = 0 ∨ n = 1 := by omega
      rcases this with rfl | rfl <;> simp
    · obtain ⟨m, rfl⟩ : ∃ m, n = m + 2 := ⟨n - 2, by omega⟩
      have e1 : C (1 / 2) * (C (((m + 2 : ℕ) : ℝ) * ((m + 2 - 1 : ℕ) : ℝ) * (e * p.sigma) ^ 2 : ℝ) *
          Wt p a β t ^ m) * (C (Real.exp (p.k * t) ^ 2) * (Wt p a β t + C (b - β))) =
        C (((m + 2 : ℕ) : ℝ) * ((m + 2 - 1 : ℕ) : ℝ) * p.sigma ^ 2 / 2) * (Wt p a β t ^ (m + 1) +
          C (b - β) * Wt p a β t ^ m) := by
        have e2 : ((m + 2 : ℕ) : ℝ) * ((m + 2 - 1 : ℕ) : ℝ) * p.sigma ^ 2 / 2 =
            1 / 2 * (((m + 2 : ℕ) : ℝ) * ((m + 2 - 1 : ℕ) : ℝ) * (e * p.sigma) ^ 2) *
              Real.exp (p.k * t) ^ 2 := by
          linear_combination (-(((m + 2 : ℕ) : ℝ) * ((m + 2 - 1 : ℕ) : ℝ) * p.sigma ^ 2 / 2)) * hee
        rw [e2, C_mul (a := 1 / 2 * _), C_mul (a := 1 / 2)]
        ring
      rw [Nat.add_sub_cancel, e1, Ex_C_mul, map_add, Ex_C_mul]
      rfl
  rw [t1, map_sum]
  have t2 : ∀ j ∈ Finset.range n, Ex (fun m n => jm Z p a b m n t)
      (C (jr δ p (j + 1) t / (j + 1).factorial) * (C (n.descFactorial (j + 1) * e ^ (j + 1) : ℝ) *
        Wt p a β t ^ (n - (j + 1)))) = p.lmbd * ((if j + 1 = 1 then δ else 1) *
          (n.choose (j + 1) * ((j + 1).factorial * p.mu_v ^ (j + 1))) * U Z p a b β (n - (j + 1)) t) := by
    intro j _
    have h3 : Real.exp (((j + 1 : ℕ) : ℝ) * p.k * t) * e ^ (j + 1) = 1 := by
      rw [he, ← Real.exp_nat_mul, ← Real.exp_add]
      rw [show ((j + 1 : ℕ) : ℝ) * p.k * t + ((j + 1 : ℕ) : ℝ) * -(p.k * t) = 0 by ring, Real.exp_zero]
    rw [Ex_C_mul, Ex_C_mul, U, jr, Nat.descFactorial_eq_factorial_mul_choose]
    generalize (if j + 1 = 1 then δ else 1) = w
    have h4 : ((j + 1).factorial : ℝ) ≠ 0 := by positivity
    push_cast at h3 ⊢
    field_simp
    linear_combination (w * p.lmbd * p.mu_v ^ (j + 1) *
      (n.choose (j + 1) : ℝ) * Ex (fun m n => jm Z p a b m n t) (Wt p a β t ^ (n - (j + 1)))) * h3
  rw [Finset.sum_congr rfl t2, ← Finset.mul_sum]
  have t3 : Ex (fun m n => jm Z p a b m n t) (C (n : ℝ) * (C (a * (-p.k * e)) + C (-p.k * e) * xi p) *
      Wt p a β t ^ (n - 1)) = -(n * p.k) * (U Z p a b β n t - β * U Z p a b β (n - 1) t) := by
    rcases n with _ | n
    · simp
    · have e4 : C ((n + 1 : ℕ) : ℝ) * (C (a * (-p.k * e)) + C (-p.k * e) * xi p) *
          Wt p a β t ^ (n + 1 - 1) = C (-(((n + 1 : ℕ) : ℝ) * p.k)) * (Wt p a β t ^ (n + 1) +
            C (-β) * Wt p a β t ^ n) := by
        have : (C (a * (-p.k * e)) + C (-p.k * e) * xi p : P2v) = C (-p.k) * (Wt p a β t + C (-β)) := by
          rw [← hW]
          simp only [map_add, map_mul, map_neg]
          ring
        rw [this, Nat.add_sub_cancel]
        simp only [map_mul, map_neg]
        ring
      rw [e4, Ex_C_mul, map_add, Ex_C_mul, Nat.add_sub_cancel]
      simp only [U]
      ring
  rw [t3]
  ring

end Ajd.Srjd

end -- SrjdFun
