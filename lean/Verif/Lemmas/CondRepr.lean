import Verif.Lemmas.CondDrv
import Verif.Spec.CondSde
import Verif.Lemmas.Svj
import Verif.Lemmas.Svvj

section -- CondIto

/-! The moment equation given the jumps of the variance, from the stochastic differential equations. -/

namespace Ajd.CondJ
open MvPolynomial Finset MeasureTheory SvcjI Gen Dyn Filter Topology ItoCond

variable {x : ItoCond.Par}

/-- `E[IE^a I^b I*^c]` -/
noncomputable def fam (x : ItoCond.Par) (D : ℝ → M8 →ₗ[ℝ] ℝ) (a b c : ℕ) (t : ℝ) : ℝ :=
  Real.exp (a * x.k * t) * D t (fn a b c 0 0 0)

/-- `e^{kt} E[v_t IE^a I^b I*^c]` -/
noncomputable def W (x : ItoCond.Par) (M : ℕ → ℕ → ℕ → ℝ → ℝ) (a b c : ℕ) (t : ℝ) : ℝ :=
  (x.v - x.θ) * M a b c t + x.θ * (Real.exp (x.k * t) * M a b c t) + x.σ * M (a + 1) b c t + x.IEZ t * M a b c t

section
variable (hs : Times x.s) {D : ℝ → M8 →ₗ[ℝ] ℝ}
  (hD : (drv0 x.k x.θ x.σ).DynkinAt x.s (kap x) (E0D x.v x.θ) D)
include hs hD

theorem W_eq (a b c : ℕ) (t : ℝ) (ht : 0 ≤ t) : W x (fam x D) a b c t =
    Real.exp ((a + 1) * x.k * t) * D t (Vp x.θ x.σ * fn a b c 0 0 0) := by
  have e1 : Vp x.θ x.σ * fn a b c 0 0 0 = X 6 * fn a b c 0 0 0 + x.θ • fn a b c 0 0 0 +
      x.σ • fn (a + 1) b c 0 0 0 + X 3 * fn a b c 0 0 0 := by
    simp only [Vp, fn, smul_eq_C_mul]; ring
  rw [e1, map_add, map_add, map_add, map_smul, map_smul, D_X6 hs hD t ht, D_X3 hs hD t ht, W]
  simp only [fam, smul_eq_mul]
  push_cast
  have x1 : Real.exp ((a + 1) * x.k * t) = Real.exp (a * x.k * t) * Real.exp (x.k * t) := by
    rw [← Real.exp_add]; congr 1; ring
  have hx : Real.exp (-x.k * t) * Real.exp (x.k * t) = 1 := by rw [← Real.exp_add]; simp
  rw [x1]
  linear_combination (-Real.exp (a * x.k * t)) * (x.v - x.θ + x.IEZ t) * D t (fn a b c 0 0 0) * hx

/-- the derivative of a moment -/
noncomputable def dM (x : ItoCond.Par) (M : ℕ → ℕ → ℕ → ℝ → ℝ) (n1 n2 n3 : ℕ) (t : ℝ) : ℝ :=
  (n1 : ℝ) * (n1 - 1) / 2 * (Real.exp (x.k * t) * W x M (n1 - 2) n2 n3 t) +
  (n2 : ℝ) * (n2 - 1) / 2 * (Real.exp (-x.k * t) * W x M n1 (n2 - 2) n3 t) +
  (n1 : ℝ) * n2 * W x M (n1 - 1) (n2 - 1) n3 t +
  (n3 : ℝ) * (n3 - 1) / 2 * (Real.exp (-x.k * t) * W x M n1 n2 (n3 - 2) t)

theorem fam_deriv (n1 n2 n3 : ℕ) (t : ℝ) (ht : 0 ≤ t) :
    HasDerivWithinAt (fam x D n1 n2 n3) (dM x (fam x D) n1 n2 n3 t) (Set.Ici t) t := by
  have h1 : HasDerivWithinAt (fun t => Real.exp (n1 * x.k * t)) (Real.exp (n1 * x.k * t) * (n1 * x.k)) (Set.Ici t) t := by
    have : HasDerivAt (fun t : ℝ => n1 * x.k * t) (n1 * x.k) t := by simpa using (hasDerivAt_id t).const_mul (n1 * x.k)
    exact this.exp.hasDerivWithinAt
  refine (h1.mul ((D_sol hs hD).deriv (fn n1 n2 n3 0 0 0) t ht)).congr_deriv ?_
  rw [A0_apply, drift_fn, diff_fn]
  simp only [map_add, ← smul_eq_C_mul, map_smul, smul_eq_mul]
  rw [dM, W_eq hs hD _ _ _ t ht, W_eq hs hD _ _ _ t ht, W_eq hs hD _ _ _ t ht, W_eq hs hD _ _ _ t ht]
  have t1 : (n1 : ℝ) * (n1 - 1) / 2 * (Real.exp (x.k * t) * Real.exp (((n1 - 2 : ℕ) + 1) * x.k * t)) =
      (n1 : ℝ) * (n1 - 1) / 2 * Real.exp (n1 * x.k * t) := by
    rcases Nat.lt_or_ge n1 2 with h | h
    · interval_cases n1 <;> simp
    · rw [← Real.exp_add, Nat.cast_sub h]
      congr 2
      push_cast
      ring
  have t2 : Real.exp (-x.k * t) * Real.exp ((n1 + 1) * x.k * t) = Real.exp (n1 * x.k * t) := by
    rw [← Real.exp_add]; congr 1; ring
  have t3 : (n1 : ℝ) * n2 * Real.exp (((n1 - 1 : ℕ) + 1) * x.k * t) = (n1 : ℝ) * n2 * Real.exp (n1 * x.k * t) := by
    rcases Nat.eq_zero_or_pos n1 with h | h
    · subst h; simp
    · rw [Nat.cast_sub h]
      congr 2
      push_cast
      ring
  have r1 := congrArg (· * D t (Vp x.θ x.σ * fn (n1 - 2) n2 n3 0 0 0)) t1
  have r2 := congrArg (· * ((n2 : ℝ) * (n2 - 1) / 2 * D t (Vp x.θ x.σ * fn n1 (n2 - 2) n3 0 0 0))) t2
  have r3 := congrArg (· * D t (Vp x.θ x.σ * fn (n1 - 1) (n2 - 1) n3 0 0 0)) t3
  have r4 := congrArg (· * ((n3 : ℝ) * (n3 - 1) / 2 * D t (Vp x.θ x.σ * fn n1 n2 (n3 - 2) 0 0 0))) t2
  push_cast
  linear_combination -r1 - r2 - r3 - r4

theorem fam_cont (n1 n2 n3 : ℕ) (t : ℝ) : ContinuousOn (fam x D n1 n2 n3) (Set.Icc 0 t) := by
  have h := (D_sol hs hD).contOn (fn n1 n2 n3 0 0 0) 0 t le_rfl fun u _ _ L' => by rw [jat_fn hs]
  exact ContinuousOn.mul (by fun_prop) h

end

theorem stp_int (w : Fin x.N → ℝ) (a b : ℝ) : IntervalIntegrable (stp x w) volume a b := by
  unfold stp
  have : ∀ j ∈ (univ : Finset (Fin x.N)), IntervalIntegrable (fun t => if x.s j ≤ t then w j else 0) volume a b := by
    intro j _
    have h : (fun t => if x.s j ≤ t then w j else 0) = Set.indicator (Set.Ici (x.s j)) fun _ => w j := by
      funext t
      simp [Set.indicator]
    rw [h, intervalIntegrable_iff]
    exact (intervalIntegrable_iff.1 intervalIntegrable_const).indicator measurableSet_Ici
  have h2 := IntervalIntegrable.sum _ this
  refine h2.congr fun t _ => ?_
  simp

section
variable (M : ℕ → ℕ → ℕ → ℝ → ℝ) (hc : ∀ a b c t, ContinuousOn (M a b c) (Set.Icc 0 t))
include hc

theorem e_int (α : ℝ) (a b c : ℕ) (t : ℝ) (ht : 0 ≤ t) :
    IntervalIntegrable (fun s => Real.exp (α * s) * M a b c s) volume 0 t := by
  apply ContinuousOn.intervalIntegrable
  rw [Set.uIcc_of_le ht]
  exact ContinuousOn.mul (by fun_prop) (hc a b c t)

theorem eZ_int (α : ℝ) (a b c : ℕ) (t : ℝ) (ht : 0 ≤ t) :
    IntervalIntegrable (fun s => Real.exp (α * s) * (x.IEZ s * M a b c s)) volume 0 t := by
  have h := (stp_int (x := x) (fun j => Real.exp (x.k * x.s j) * x.J j) 0 t).mul_continuousOn
    (g := fun s => Real.exp (α * s) * M a b c s) (by
      rw [Set.uIcc_of_le ht]
      exact ContinuousOn.mul (by fun_prop) (hc a b c t))
  refine h.congr fun s _ => ?_
  show stp x _ s * (Real.exp (α * s) * M a b c s) = _
  rw [← IEZ_stp]
  ring

theorem W_split (α : ℝ) (a b c : ℕ) (s : ℝ) : Real.exp (α * s) * W x M a b c s =
    (x.v - x.θ) * (Real.exp (α * s) * M a b c s) + x.θ * (Real.exp ((α + x.k) * s) * M a b c s) +
      x.σ * (Real.exp (α * s) * M (a + 1) b c s) + Real.exp (α * s) * (x.IEZ s * M a b c s) := by
  rw [W, add_mul α, Real.exp_add]
  ring

theorem W_int (α : ℝ) (a b c : ℕ) (t : ℝ) (ht : 0 ≤ t) :
    IntervalIntegrable (fun s => Real.exp (α * s) * W x M a b c s) volume 0 t := by
  simp only [W_split M hc]
  exact ((((e_int M hc _ _ _ _ t ht).const_mul _).add ((e_int M hc _ _ _ _ t ht).const_mul _)).add
    ((e_int M hc _ _ _ _ t ht).const_mul _)).add (eZ_int M hc _ _ _ _ t ht)

theorem W_integral (n : ℤ) (a b c : ℕ) (t : ℝ) (ht : 0 ≤ t) :
    ∫ s in (0 : ℝ)..t, Real.exp ((n * x.k) * s) * W x M a b c s = quad x n (M a b c) (M (a + 1) b c) t := by
  simp only [W_split M hc]
  have h1 := fun α a b c => e_int M hc α a b c t ht
  rw [intervalIntegral.integral_add ((((h1 _ _ _ _).const_mul _).add ((h1 _ _ _ _).const_mul _)).add
    ((h1 _ _ _ _).const_mul _)) (eZ_int M hc _ _ _ _ t ht),
    intervalIntegral.integral_add (((h1 _ _ _ _).const_mul _).add ((h1 _ _ _ _).const_mul _))
    ((h1 _ _ _ _).const_mul _),
    intervalIntegral.integral_add ((h1 _ _ _ _).const_mul _) ((h1 _ _ _ _).const_mul _),
    intervalIntegral.integral_const_mul, intervalIntegral.integral_const_mul, intervalIntegral.integral_const_mul, quad]
  have : ∀ s : ℝ, (n * x.k + x.k) * s = ((n + 1 : ℤ) : ℝ) * x.k * s := fun s => by push_cast; ring
  simp only [this]

end

/-- The equation `ito-jmp-moment-ii`. -/
theorem itoRecZ (hs : Times x.s) {D : ℝ → M8 →ₗ[ℝ] ℝ}
    (hD : (drv0 x.k x.θ x.σ).DynkinAt x.s (kap x) (E0D x.v x.θ) D) : ItoRecZ x (fam x D) := by
  have hc := fam_cont hs hD
  have hint : ∀ n1 n2 n3 t, 0 ≤ t → fam x D n1 n2 n3 t = fam x D n1 n2 n3 0 +
      ((n1 : ℝ) * (n1 - 1) / 2 * quad x 1 (fam x D (n1 - 2) n2 n3) (fam x D (n1 - 2 + 1) n2 n3) t +
      (n2 : ℝ) * (n2 - 1) / 2 * quad x (-1) (fam x D n1 (n2 - 2) n3) (fam x D (n1 + 1) (n2 - 2) n3) t +
      (n1 : ℝ) * n2 * quad x 0 (fam x D (n1 - 1) (n2 - 1) n3) (fam x D (n1 - 1 + 1) (n2 - 1) n3) t +
      (n3 : ℝ) * (n3 - 1) / 2 * quad x (-1) (fam x D n1 n2 (n3 - 2)) (fam x D (n1 + 1) n2 (n3 - 2)) t) := by
    intro n1 n2 n3 t ht
    have hW := fun (n : ℤ) a b c => W_int (x := x) (fam x D) hc (n * x.k) a b c t ht
    have hsplit : ∀ s, dM x (fam x D) n1 n2 n3 s =
        (n1 : ℝ) * (n1 - 1) / 2 * (Real.exp (((1 : ℤ) * x.k) * s) * W x (fam x D) (n1 - 2) n2 n3 s) +
        (n2 : ℝ) * (n2 - 1) / 2 * (Real.exp (((-1 : ℤ) * x.k) * s) * W x (fam x D) n1 (n2 - 2) n3 s) +
        (n1 : ℝ) * n2 * (Real.exp (((0 : ℤ) * x.k) * s) * W x (fam x D) (n1 - 1) (n2 - 1) n3 s) +
        (n3 : ℝ) * (n3 - 1) / 2 * (Real.exp (((-1 : ℤ) * x.k) * s) * W x (fam x D) n1 n2 (n3 - 2) s) := by
      intro s
      rw [dM]
      push_cast
      simp only [one_mul, zero_mul, Real.exp_zero, neg_mul]
    have hdi : IntervalIntegrable (dM x (fam x D) n1 n2 n3) volume 0 t := by
      rw [show dM x (fam x D) n1 n2 n3 = fun s => dM x (fam x D) n1 n2 n3 s from rfl]
      simp only [hsplit]
      exact ((((hW _ _ _ _).const_mul _).add ((hW _ _ _ _).const_mul _)).add ((hW _ _ _ _).const_mul _)).add
        ((hW _ _ _ _).const_mul _)
    have := intervalIntegral.integral_eq_sub_of_hasDeriv_right_of_le ht (hc n1 n2 n3 t)
      (fun s hs' => (fam_deriv hs hD n1 n2 n3 s hs'.1.le).mono Set.Ioi_subset_Ici_self) hdi
    simp only [hsplit] at this
    rw [intervalIntegral.integral_add ((((hW _ _ _ _).const_mul _).add ((hW _ _ _ _).const_mul _)).add
      ((hW _ _ _ _).const_mul _)) ((hW _ _ _ _).const_mul _),
      intervalIntegral.integral_add (((hW _ _ _ _).const_mul _).add ((hW _ _ _ _).const_mul _))
      ((hW _ _ _ _).const_mul _),
      intervalIntegral.integral_add ((hW _ _ _ _).const_mul _) ((hW _ _ _ _).const_mul _),
      intervalIntegral.integral_const_mul, intervalIntegral.integral_const_mul, intervalIntegral.integral_const_mul,
      intervalIntegral.integral_const_mul, W_integral _ hc _ _ _ _ t ht, W_integral _ hc _ _ _ _ t ht,
      W_integral _ hc _ _ _ _ t ht, W_integral _ hc _ _ _ _ t ht] at this
    linarith
  have h0 : ∀ n1 n2 n3, fam x D n1 n2 n3 0 = if n1 = 0 ∧ n2 = 0 ∧ n3 = 0 then 1 else 0 := by
    intro n1 n2 n3
    rw [fam, hD.start, E0D_apply]
    by_cases h1 : n1 = 0
    · by_cases h2 : n2 = 0
      · by_cases h3 : n3 = 0
        · subst h1 h2 h3; simp [fn]
        · simp [fn, start, h1, h2, h3]
      · simp [fn, start, h1, h2]
    · simp [fn, start, h1]
  constructor
  · intro t ht
    rw [hint 0 0 0 t ht, h0]
    simp
  · intro n1 n2 n3 hn t ht
    rw [hint n1 n2 n3 t ht, h0, if_neg (by omega), zero_add]
    have e1 : ∀ g : ℕ → ℝ, (n1 : ℝ) * (n1 - 1) / 2 * g (n1 - 2 + 1) = (n1 : ℝ) * (n1 - 1) / 2 * g (n1 - 1) := by
      intro g
      rcases Nat.lt_or_ge n1 2 with h | h
      · interval_cases n1 <;> simp
      · rw [show n1 - 2 + 1 = n1 - 1 by omega]
    have e2 : ∀ g : ℕ → ℝ, (n1 : ℝ) * n2 * g (n1 - 1 + 1) = (n1 : ℝ) * n2 * g n1 := by
      intro g
      rcases Nat.eq_zero_or_pos n1 with h | h
      · subst h; simp
      · rw [Nat.sub_add_cancel h]
    rw [e1 fun n => quad x 1 (fam x D (n1 - 2) n2 n3) (fam x D n n2 n3) t,
      e2 fun n => quad x 0 (fam x D (n1 - 1) (n2 - 1) n3) (fam x D n (n2 - 1) n3) t]

end Ajd.CondJ

end -- CondIto

section -- CondRepr

/-! The model with jumps in the variance, given these jumps: from the equations to the Itô integrals. -/

namespace Ajd.Svvj
open MvPolynomial Finset MeasureTheory SvcjI Gen Dyn CondJ ItoCond

theorem Par.Simple.times {p : Par} (h : p.Simple) (hl : p.jumptime.length = p.jumpsize.length) : Times (jt p) where
  inj i j e := by
    have hi : (i : ℕ) < p.jumptime.length := i.2.trans_eq hl.symm
    have hj : (j : ℕ) < p.jumptime.length := j.2.trans_eq hl.symm
    rw [jt, jt, List.getD_eq_getElem _ _ hi, List.getD_eq_getElem _ _ hj] at e
    exact Fin.ext ((h.1.getElem_inj_iff (hi := hi) (hj := hj)).1 e)
  pos i := by
    have hi : (i : ℕ) < p.jumptime.length := i.2.trans_eq hl.symm
    rw [jt, List.getD_eq_getElem _ _ hi]
    exact h.2 _ (List.getElem_mem hi)

/-- the linear map for a jump of the variance -/
theorem lin_vec (k σ ρ mu θ J : ℝ) (hk : k ≠ 0) :
    (fun l : Fin 2 => ∑ j, cI k σ ρ 0 mu θ l j * vec (J, 0) j) = ![J, 0] := by
  funext l
  rw [Fin.sum_univ_eight]
  fin_cases l
  · simp [cI, vec]
  · simp [cI, vec]

theorem imageH (k mu θ σ ρ v0 : ℝ) (hk : k ≠ 0) (hρ : 0 ≤ 1 - ρ ^ 2) :
    Image (gI k σ ρ 0 mu θ v0) (cI k σ ρ 0 mu θ) (bD k) (aD θ σ) (drv0 k θ σ).ν (bY k θ mu) (aY σ ρ)
      (Sv.heston mu k θ σ ρ).ν := by
  have h := image (Sv.p0 k) one_pos hk mu θ σ ρ 0 v0 hρ
  refine ⟨h.lin, h.shift, h.drift, h.diff, ?_⟩
  show Measure.dirac 0 = (Measure.dirac 0).map _
  rw [Measure.map_dirac' (by fun_prop)]
  simp
  rfl

/-- the known components -/
noncomputable def psiZ (x : ItoCond.Par) (h : ℝ) : M8 →ₐ[ℝ] M8 :=
  aeval ![X 0, X 1, X 2, C (Real.exp (-x.k * h) * x.IEZ h), C (stp x x.J h), 0, C (Real.exp (-x.k * h) * (x.v - x.θ)), C h]

theorem D_psi {x : ItoCond.Par} (hs : Times x.s) {D : ℝ → M8 →ₗ[ℝ] ℝ}
    (hD : (drv0 x.k x.θ x.σ).DynkinAt x.s (kap x) (E0D x.v x.θ) D) (h : ℝ) (hh : 0 ≤ h) (f g : M8) :
    D h (f * g) = D h (psiZ x h f * g) := by
  induction f using MvPolynomial.induction_on generalizing g with
  | C a => simp [psiZ]
  | add f f' h1 h2 => rw [add_mul, map_add, h1, h2, map_add, add_mul, map_add]
  | mul_X f i ih =>
    rw [map_mul (psiZ x h), mul_assoc, ih]
    have hx : psiZ x h (X i) = ![X 0, X 1, X 2, C (Real.exp (-x.k * h) * x.IEZ h), C (stp x x.J h), 0,
        C (Real.exp (-x.k * h) * (x.v - x.θ)), C h] i := by
      rw [psiZ, aeval_X]
    rw [hx]
    have key : ∀ (i : Fin 8) (c : ℝ), (∀ f, D h (X i * f) = c * D h f) →
        D h (psiZ x h f * (X i * g)) = D h (psiZ x h f * C c * g) := by
      intro i c hc
      rw [mul_left_comm, hc, ← SvcjI.E_C]
      congr 1
      ring
    fin_cases i <;> try (simp [mul_assoc]; done)
    · exact key 3 _ fun f => D_X3 hs hD h hh f
    · exact key 4 _ fun f => D_X4 hs hD h hh f
    · have := key 5 0 fun f => by rw [D_X5 hs hD h hh f, zero_mul]
      rw [C_0] at this
      exact this
    · exact key 6 _ fun f => D_X6 hs hD h hh f
    · exact key 7 _ fun f => D_X7 hs hD h hh f

/-- from the eight processes to the three integrals -/
noncomputable def chiZ (x : ItoCond.Par) (h : ℝ) : M8 →ₐ[ℝ] Fsv1.Rv :=
  aeval ![C (Real.exp (-x.k * h)) * X 0, X 1, X 2, C (Real.exp (-x.k * h) * x.IEZ h), C (stp x x.J h), 0,
    C (Real.exp (-x.k * h) * (x.v - x.θ)), C h]

theorem D_chiZ {x : ItoCond.Par} (hs : Times x.s) {D : ℝ → M8 →ₗ[ℝ] ℝ}
    (hD : (drv0 x.k x.θ x.σ).DynkinAt x.s (kap x) (E0D x.v x.θ) D) (h : ℝ) (hh : 0 ≤ h) (F : M8) :
    D h F = Sv.Ec x.k h (D h) (chiZ x h F) := by
  have h1 := D_psi hs hD h hh F 1
  rw [mul_one, mul_one] at h1
  rw [h1, Sv.Ec, LinearMap.comp_apply, AlgHom.toLinearMap_apply]
  refine congrArg (D h) ?_
  have : (aeval ![C (Real.exp (x.k * h)) * X 0, X 1, X 2] : Fsv1.Rv →ₐ[ℝ] M8).comp (chiZ x h) = psiZ x h := by
    refine algHom_ext fun i => ?_
    rw [AlgHom.comp_apply, chiZ, psiZ, aeval_X, aeval_X]
    have e : Real.exp (-x.k * h) * Real.exp (x.k * h) = 1 := by rw [← Real.exp_add]; simp
    fin_cases i <;> simp [algebraMap_eq]
    rw [← mul_assoc, ← C_mul, ← neg_mul, e]
    simp
  exact (DFunLike.congr_fun this F).symm

/-- the law given the jumps, by the integrals -/
theorem given_repr (p : Par) (hp : p.OK) (hj : p.Simple) {E : ℝ → MvPolynomial (Fin 2) ℝ →ₗ[ℝ] ℝ}
    (hE : Given p E) : ∃ E', CondLaw p E' ∧ ∀ f, E p.h f = E' (aeval ![vEnd p, ret p] f) := by
  have hs : Times p.cir.s := hj.times hp.len
  obtain ⟨D, hD⟩ := dynkinAt_exists (drv0_coef p.k p.θ p.σ) hs (kap_mom p.cir) (drv0_mom p.k p.θ p.σ) (E0D p.v0 p.θ)
  have hκ : ∀ i : Fin p.cir.N, Mom (Measure.dirac ![p.jumpsize.getD i 0, (0 : ℝ)]) := fun i => mom_dirac _
  have him := dynkinAt_image (imageH p.k p.μ p.θ p.σ p.ρ p.v0 hp.k hp.ρ) (drv0_coef p.k p.θ p.σ)
    (Sv.hcoef p.μ p.k p.θ p.σ p.ρ) rfl (drv0_mom p.k p.θ p.σ) (Sv.hmom _ _ _ _ _) hs (kap_mom p.cir) hκ
    (fun i => by
      rw [kap, Measure.map_dirac' (by fun_prop), lin_vec _ _ _ _ _ _ hp.k]
      rfl) hD
  have h0 : E0D p.v0 p.θ ∘ₗ (aeval (gI p.k p.σ p.ρ 0 p.μ p.θ p.v0)).toLinearMap = (aeval ![p.v0, 0]).toLinearMap := by
    refine LinearMap.ext fun f => ?_
    rw [LinearMap.comp_apply, E0D_apply, AlgHom.toLinearMap_apply, AlgHom.toLinearMap_apply, Gen.eval_aeval,
      aeval_eq_eval]
    congr 1
    congr 1
    funext i
    fin_cases i
    · simp [gI, Vp, start]
    · simp [gI, yP, start]; field_simp; ring
  rw [h0] at him
  have hu := dynkinAt_unique (Sv.hcoef p.μ p.k p.θ p.σ p.ρ) hs hκ (Sv.hmom _ _ _ _ _) hE him p.h hp.h
  refine ⟨Sv.Ec p.k p.h (D p.h), ⟨_, itoRecZ hs hD, fun a b c => Sv.Ec_mon _ _ _ _ _ _⟩, fun f => ?_⟩
  rw [hu]
  show D p.h (aeval (gI p.k p.σ p.ρ 0 p.μ p.θ p.v0) f) = _
  rw [D_chiZ hs hD p.h hp.h]
  refine congrArg _ ?_
  have e3 : p.cir.IEZ p.h = IEZ p := by
    rw [← S1_one hp]
    simp [S1, ItoCond.Par.IEZ]
  have e4 : stp p.cir p.cir.J p.h = IZ p := by
    rw [← S1_zero hp]
    simp [S1, stp]
  have hk := hp.k
  have : (chiZ p.cir p.h).comp (aeval (gI p.k p.σ p.ρ 0 p.μ p.θ p.v0)) = aeval ![vEnd p, ret p] := by
    refine algHom_ext fun i => ?_
    rw [AlgHom.comp_apply, aeval_X, aeval_X, chiZ, e3, e4]
    refine MvPolynomial.funext fun y => ?_
    fin_cases i
    · simp [gI, Vp, vEnd, Par.cir]
      ring
    · simp [gI, yP, ret, intVar, vEnd, Par.cir]
      field_simp
      ring
  exact DFunLike.congr_fun this f

/-- the law given the jumps exists -/
theorem given_exists (p : Par) (hl : p.jumptime.length = p.jumpsize.length) (hj : p.Simple) : ∃ E, Given p E :=
  dynkinAt_exists (Sv.hcoef p.μ p.k p.θ p.σ p.ρ) (hj.times hl) (fun _ => mom_dirac _) (Sv.hmom _ _ _ _ _) _

end Ajd.Svvj

end -- CondRepr
