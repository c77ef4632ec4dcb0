import Verif.Lemmas.SvcjDrv
import Verif.Spec.SvcjGen
import Verif.Lemmas.SvcjI3
import Verif.Lemmas.Graded
import Mathlib.Algebra.MvPolynomial.CommRing
import Verif.Spec.SvcjInt

section -- SvcjSde

/-! The SVCJ variance and return as functions of the eight processes. -/

namespace Ajd.SvcjI
open MvPolynomial Ieziziz Finset MeasureTheory ProbabilityTheory

theorem jumpLaw2_eq (p : Par) (hm : 0 < p.mu_v) (rhoJ : ℝ) : jumpLaw2 p.mu_v rhoJ p.mu_s p.sigma_s =
    (jl p).map fun y => ![y.1, rhoJ * y.1 + y.2] := by
  have := isProbabilityMeasure_expMeasure (show 0 < 1 / p.mu_v by positivity)
  have hG : Measurable fun y : ℝ × ℝ => (![y.1, rhoJ * y.1 + y.2] : Fin 2 → ℝ) := by
    refine measurable_pi_lambda _ fun i => ?_
    fin_cases i <;> simp <;> fun_prop
  have hk : ∀ jv : ℝ, (gaussianReal (p.mu_s + rhoJ * jv) (p.sigma_s ^ 2).toNNReal).map
      (fun js => (![jv, js] : Fin 2 → ℝ)) =
      ((gaussianReal p.mu_s (p.sigma_s ^ 2).toNNReal).map (Prod.mk jv)).map
        fun y : ℝ × ℝ => (![y.1, rhoJ * y.1 + y.2] : Fin 2 → ℝ) := by
    intro jv
    have h2 : Measurable fun js : ℝ => (![jv, js] : Fin 2 → ℝ) := by
      refine measurable_pi_lambda _ fun i => ?_
      fin_cases i <;> simp <;> fun_prop
    rw [← gaussianReal_map_const_add, Measure.map_map h2 (by fun_prop), Measure.map_map hG (by fun_prop)]
    rfl
  unfold jumpLaw2 jl
  simp only [hk]
  have hmeas : Measurable fun jv : ℝ => ((gaussianReal p.mu_s (p.sigma_s ^ 2).toNNReal).map (Prod.mk jv)).map
        fun y : ℝ × ℝ => (![y.1, rhoJ * y.1 + y.2] : Fin 2 → ℝ) :=
    (Measure.measurable_map _ hG).comp Measurable.map_prodMk_left
  ext s hs
  rw [Measure.bind_apply hs hmeas.aemeasurable, Measure.map_apply hG hs, Measure.prod_apply (hG hs)]
  refine lintegral_congr fun jv => ?_
  rw [Measure.map_apply hG hs, Measure.map_apply (by fun_prop) (hG hs)]

/-- the linear part -/
noncomputable def cI (k σ ρ rhoJ mu θ : ℝ) : Fin 2 → Fin 8 → ℝ :=
  ![![σ, 0, 0, 1, 0, 0, 1, 0],
    ![σ / (2 * k), ρ - σ / (2 * k), √(1 - ρ ^ 2), 1 / (2 * k), rhoJ - 1 / (2 * k), 1, 1 / (2 * k), mu - θ / 2]]

/-- the return -/
noncomputable def yP (k σ ρ rhoJ mu θ v0 : ℝ) : M8 :=
  C (σ / (2 * k)) * X 0 + C (ρ - σ / (2 * k)) * X 1 + C √(1 - ρ ^ 2) * X 2 + C (1 / (2 * k)) * X 3 +
    C (rhoJ - 1 / (2 * k)) * X 4 + X 5 + C (mu - θ / 2) * X 7 +
    (C (1 / (2 * k)) * X 6 - C ((v0 - θ) / (2 * k)))

noncomputable def gI (k σ ρ rhoJ mu θ v0 : ℝ) : Fin 2 → M8 := ![Vp θ σ, yP k σ ρ rhoJ mu θ v0]

/-- the coefficients of the SVCJ model, as polynomials -/
noncomputable def bY (k θ mu : ℝ) : Fin 2 → MvPolynomial (Fin 2) ℝ :=
  ![C k * (C θ - X 0), C mu - C (1 / 2) * X 0]

noncomputable def aY (σ ρ : ℝ) : Fin 2 → Fin 2 → MvPolynomial (Fin 2) ℝ :=
  ![![C (σ ^ 2) * X 0, C (ρ * σ) * X 0], ![C (ρ * σ) * X 0, X 0]]

theorem sY_coef (p : Par) (hm : 0 < p.mu_v) (mu θ σ ρ rhoJ : ℝ) :
    Gen.PolyCoef (svcj mu p.k θ σ ρ p.lmbd p.mu_v rhoJ p.mu_s p.sigma_s) (bY p.k θ mu) (aY σ ρ) where
  prob := by
    have := jl_prob p hm
    show IsProbabilityMeasure (jumpLaw2 p.mu_v rhoJ p.mu_s p.sigma_s)
    rw [jumpLaw2_eq p hm]
    refine Measure.isProbabilityMeasure_map (Measurable.aemeasurable ?_)
    refine measurable_pi_lambda _ fun i => ?_
    fin_cases i <;> simp <;> fun_prop
  hb x i := by fin_cases i <;> simp [bY, svcj]; ring
  ha x i j := by fin_cases i <;> fin_cases j <;> simp [aY, svcj]
  db i := by
    fin_cases i
    · refine (totalDegree_mul _ _).trans ?_
      rw [totalDegree_C, zero_add]
      refine (totalDegree_sub _ _).trans (max_le ?_ ?_)
      · rw [totalDegree_C]; omega
      · rw [totalDegree_X]
    · refine (totalDegree_sub _ _).trans (max_le ?_ ?_)
      · rw [totalDegree_C]; omega
      · refine (totalDegree_mul _ _).trans ?_
        rw [totalDegree_C, totalDegree_X]
  da i j := by
    have h : ∀ c : ℝ, (C c * X 0 : MvPolynomial (Fin 2) ℝ).totalDegree ≤ 2 := fun c => by
      refine (totalDegree_mul _ _).trans ?_
      rw [totalDegree_C, totalDegree_X]; omega
    fin_cases i <;> fin_cases j
    · exact h _
    · exact h _
    · exact h _
    · show (X 0 : MvPolynomial (Fin 2) ℝ).totalDegree ≤ 2
      rw [totalDegree_X]; omega

theorem image (p : Par) (hm : 0 < p.mu_v) (hk : p.k ≠ 0) (mu θ σ ρ rhoJ v0 : ℝ) (hρ : 0 ≤ 1 - ρ ^ 2) :
    Gen.Image (gI p.k σ ρ rhoJ mu θ v0) (cI p.k σ ρ rhoJ mu θ) (bD p.k) (aD θ σ) (nuD p) (bY p.k θ mu) (aY σ ρ)
      (jumpLaw2 p.mu_v rhoJ p.mu_s p.sigma_s) where
  lin k i := by
    fin_cases k <;> fin_cases i <;>
      simp [gI, cI, Vp, yP, Derivation.leibniz, pderiv_X, Pi.single_apply]
  shift k x y := by
    rw [Fin.sum_univ_eight]
    fin_cases k
    · simp [gI, cI, Vp]; ring
    · simp [gI, cI, yP]; ring
  drift k := by
    rw [Fin.sum_univ_eight]
    refine MvPolynomial.funext fun x => ?_
    fin_cases k
    · simp [bD, cI, bY, gI, Vp]; ring
    · simp [bD, cI, bY, gI, Vp]; field_simp; ring
  diff k l := by
    refine MvPolynomial.funext fun x => ?_
    have hs := Real.sq_sqrt hρ
    simp only [Fin.sum_univ_eight]
    fin_cases k <;> fin_cases l
    · simp [aD, aM, cI, aY, gI]; ring
    · simp [aD, aM, cI, aY, gI]; ring
    · simp [aD, aM, cI, aY, gI]; ring
    · simp [aD, aM, cI, aY, gI]
      linear_combination eval x (Vp θ σ) * hs
  jump := by
    rw [jumpLaw2_eq p hm, nuD, Measure.map_map (by fun_prop) vec_meas]
    congr 1
    funext y k
    rw [Function.comp, Fin.sum_univ_eight]
    fin_cases k
    · simp [cI, vec]
    · simp [cI, vec]; ring

theorem momY (p : Par) (hm : 0 < p.mu_v) (rhoJ : ℝ) : Gen.Mom (jumpLaw2 p.mu_v rhoJ p.mu_s p.sigma_s) := by
  intro f
  have hG : Measurable fun y : ℝ × ℝ => (![y.1, rhoJ * y.1 + y.2] : Fin 2 → ℝ) := by
    refine measurable_pi_lambda _ fun i => ?_
    fin_cases i <;> simp <;> fun_prop
  rw [jumpLaw2_eq p hm, integrable_map_measure (eval_meas f).aestronglyMeasurable hG.aemeasurable]
  suffices h : ∀ a b : ℕ, Integrable (fun y : ℝ × ℝ => y.1 ^ a * y.2 ^ b * eval ![y.1, rhoJ * y.1 + y.2] f) (jl p) by
    simpa [Function.comp_def] using h 0 0
  induction f using MvPolynomial.induction_on with
  | C c => intro a b; simpa using (jl_int p hm a b).mul_const c
  | add p q hp hq =>
    intro a b
    simp only [map_add, mul_add]
    exact (hp a b).add (hq a b)
  | mul_X f i hf =>
    intro a b
    fin_cases i
    · refine (hf (a + 1) b).congr (Filter.Eventually.of_forall fun y => ?_)
      simp; ring
    · refine (((hf (a + 1) b).const_mul rhoJ).add (hf a (b + 1))).congr (Filter.Eventually.of_forall fun y => ?_)
      simp; ring

/-- The moments of the SVCJ model are those of the representation by the eight processes. -/
theorem svcj_repr (p : Par) (hm : 0 < p.mu_v) (hk : p.k ≠ 0) (mu θ σ ρ rhoJ v0 : ℝ) (hρ : 0 ≤ 1 - ρ ^ 2)
    {E : ℝ → MvPolynomial (Fin 2) ℝ →ₗ[ℝ] ℝ}
    (hE : (svcj mu p.k θ σ ρ p.lmbd p.mu_v rhoJ p.mu_s p.sigma_s).Dynkin (aeval ![v0, 0]).toLinearMap E) :
    ∃ D : ℝ → M8 →ₗ[ℝ] ℝ, (drv p θ σ).Dynkin (E0D v0 θ) D ∧
      ∀ t, 0 ≤ t → ∀ f, E t f = D t (aeval (gI p.k σ ρ rhoJ mu θ v0) f) := by
  obtain ⟨Q, hQ⟩ := Gen.dynkin_exists (drv_coef p hm θ σ) (mom_D p hm)
  have hD := hQ (E0D v0 θ)
  refine ⟨_, hD, fun t ht f => ?_⟩
  have him := Gen.dynkin_image (S := drv p θ σ)
    (T := svcj mu p.k θ σ ρ p.lmbd p.mu_v rhoJ p.mu_s p.sigma_s) (image p hm hk mu θ σ ρ rhoJ v0 hρ)
    (drv_coef p hm θ σ) (sY_coef p hm mu θ σ ρ rhoJ) rfl (mom_D p hm) (momY p hm rhoJ) hD
  have h0 : E0D v0 θ ∘ₗ (aeval (gI p.k σ ρ rhoJ mu θ v0)).toLinearMap = (aeval ![v0, 0]).toLinearMap := by
    refine LinearMap.ext fun f => ?_
    rw [LinearMap.comp_apply, E0D_apply, AlgHom.toLinearMap_apply, AlgHom.toLinearMap_apply, Gen.eval_aeval,
      aeval_eq_eval]
    congr 1
    congr 1
    funext i
    fin_cases i
    · simp [gI, Vp, start]
    · simp [gI, yP, start]; field_simp; ring
  rw [h0] at him
  have := Gen.dynkin_unique (sY_coef p hm mu θ σ ρ rhoJ) (momY p hm rhoJ) hE him t ht
  rw [this]
  rfl

end Ajd.SvcjI

end -- SvcjSde

section -- SvcjY

/-! The conditional moments of the return as an expansion over the moments of the integrals. The keys are given
values in any commutative ring, where `e^{kt}` and `k^{-}` are units. -/

namespace Ajd.SvcjI
open Poly Ieziziz Finset

variable {R : Type} [CommRing R] [Algebra ℚ R]

/-- values of the components -/
structure Wt (R : Type) [CommRing R] where
  e : Rˣ
  c : Rˣ
  t : R
  mu : R
  x : R
  th : R
  sg : R
  rh : R
  rt : R
  lm : R
  mv : R
  J : R
  ms : R
  ss : R

/-- the value of a key, whose components in `S` are powers of elements that need not be units -/
def wq (e c : Rˣ) (v : ℕ → R) (S : Finset ℕ) (K : List ℤ) : R :=
  ((e ^ ix K 0 : Rˣ) : R) * ((c ^ ix K 2 : Rˣ) : R) * ∏ i ∈ S, v i ^ (ix K i).toNat

/-- keys of length `n` with components in `S` that are not negative -/
def KS (n : ℕ) (S : Finset ℕ) (K : List ℤ) : Prop := K.length = n ∧ ∀ i ∈ S, 0 ≤ ix K i

theorem KS_add (n : ℕ) (S : Finset ℕ) : AddClosed (KS n S) := by
  intro k1 k2 h1 h2
  refine ⟨by simp [h1.1, h2.1], fun i hi => ?_⟩
  rw [ix_zipWith _ _ (by rw [h1.1, h2.1])]
  have := h1.2 i hi; have := h2.2 i hi; omega

omit [Algebra ℚ R] in
theorem wq_mul (e c : Rˣ) (v : ℕ → R) (n : ℕ) (S : Finset ℕ) : MulOn (KS n S) (wq e c v S) := by
  intro k1 k2 h1 h2
  have hl : k1.length = k2.length := by rw [h1.1, h2.1]
  unfold wq
  rw [ix_zipWith _ _ hl, ix_zipWith _ _ hl, zpow_add, zpow_add]
  have : ∏ i ∈ S, v i ^ (ix (List.zipWith (· + ·) k1 k2) i).toNat =
      (∏ i ∈ S, v i ^ (ix k1 i).toNat) * ∏ i ∈ S, v i ^ (ix k2 i).toNat := by
    rw [← prod_mul_distrib]
    refine prod_congr rfl fun i hi => ?_
    rw [ix_zipWith _ _ hl, Int.toNat_add (h1.2 i hi) (h2.2 i hi), pow_add]
  rw [this]
  push_cast
  ring

def S10 : Finset ℕ := {1, 3, 4, 5, 6, 7, 8, 9}
def S13 : Finset ℕ := {1, 3, 4, 5, 6, 7, 8, 9, 10, 11, 12}
def S14 : Finset ℕ := {1, 3, 4, 5, 6, 7, 8, 9, 10, 11, 12, 13}

def Wt.v10 (W : Wt R) (i : ℕ) : R := [0, W.t, 0, W.x, W.th, W.sg, W.lm, W.mv, W.ms, W.ss].getD i 0
def Wt.v13 (W : Wt R) (i : ℕ) : R :=
  [0, W.t, 0, W.mu, W.x, W.th, W.sg, W.rh, W.lm, W.mv, W.J, W.ms, W.ss].getD i 0
def Wt.v14 (W : Wt R) (i : ℕ) : R :=
  [0, W.t, 0, W.mu, W.x, W.th, W.sg, W.rh, W.rt, W.lm, W.mv, W.J, W.ms, W.ss].getD i 0

/-- value of a key of `moment_ieii_ieziziz` -/
def w10 (W : Wt R) : List ℤ → R := wq W.e W.c W.v10 S10
/-- value of a key of `moment_y` -/
def w13 (W : Wt R) : List ℤ → R := wq W.e W.c W.v13 S13
/-- value of a key with `sqrt(1-rho^2)` -/
def w14 (W : Wt R) : List ℤ → R := wq W.e W.c W.v14 S14

omit [Algebra ℚ R] in
theorem w10_lit (W : Wt R) (a0 a1 a2 a3 a4 a5 a6 a7 a8 a9 : ℤ) : w10 W [a0, a1, a2, a3, a4, a5, a6, a7, a8, a9] =
    ((W.e ^ a0 : Rˣ) : R) * ((W.c ^ a2 : Rˣ) : R) * (W.t ^ a1.toNat * (W.x ^ a3.toNat * (W.th ^ a4.toNat *
      (W.sg ^ a5.toNat * (W.lm ^ a6.toNat * (W.mv ^ a7.toNat * (W.ms ^ a8.toNat * W.ss ^ a9.toNat))))))) := by
  simp [w10, wq, S10, Wt.v10, ix]

omit [Algebra ℚ R] in
theorem w13_lit (W : Wt R) (a0 a1 a2 a3 a4 a5 a6 a7 a8 a9 a10 a11 a12 : ℤ) :
    w13 W [a0, a1, a2, a3, a4, a5, a6, a7, a8, a9, a10, a11, a12] =
    ((W.e ^ a0 : Rˣ) : R) * ((W.c ^ a2 : Rˣ) : R) * (W.t ^ a1.toNat * (W.mu ^ a3.toNat * (W.x ^ a4.toNat *
      (W.th ^ a5.toNat * (W.sg ^ a6.toNat * (W.rh ^ a7.toNat * (W.lm ^ a8.toNat * (W.mv ^ a9.toNat *
        (W.J ^ a10.toNat * (W.ms ^ a11.toNat * W.ss ^ a12.toNat)))))))))) := by
  simp [w13, wq, S13, Wt.v13, ix]

omit [Algebra ℚ R] in
theorem w14_lit (W : Wt R) (a0 a1 a2 a3 a4 a5 a6 a7 a8 a9 a10 a11 a12 a13 : ℤ) :
    w14 W [a0, a1, a2, a3, a4, a5, a6, a7, a8, a9, a10, a11, a12, a13] =
    ((W.e ^ a0 : Rˣ) : R) * ((W.c ^ a2 : Rˣ) : R) * (W.t ^ a1.toNat * (W.mu ^ a3.toNat * (W.x ^ a4.toNat *
      (W.th ^ a5.toNat * (W.sg ^ a6.toNat * (W.rh ^ a7.toNat * (W.rt ^ a8.toNat * (W.lm ^ a9.toNat *
        (W.mv ^ a10.toNat * (W.J ^ a11.toNat * (W.ms ^ a12.toNat * W.ss ^ a13.toNat))))))))))) := by
  simp [w14, wq, S14, Wt.v14, ix]

/-! ### `enlarge` -/

theorem idx_ok : kfI.mapM (indexOf kfB) = .ok [0, 1, 2, 4, 5, 6, 9, 10, 12, 13] := by decide +kernel

theorem KS14_iff (a0 a1 a2 a3 a4 a5 a6 a7 a8 a9 a10 a11 a12 a13 : ℤ) :
    KS 14 S14 [a0, a1, a2, a3, a4, a5, a6, a7, a8, a9, a10, a11, a12, a13] ↔ 0 ≤ a1 ∧ 0 ≤ a3 ∧ 0 ≤ a4 ∧ 0 ≤ a5 ∧
      0 ≤ a6 ∧ 0 ≤ a7 ∧ 0 ≤ a8 ∧ 0 ≤ a9 ∧ 0 ≤ a10 ∧ 0 ≤ a11 ∧ 0 ≤ a12 ∧ 0 ≤ a13 := by
  simp [KS, S14, ix]

theorem KS13_iff (a0 a1 a2 a3 a4 a5 a6 a7 a8 a9 a10 a11 a12 : ℤ) :
    KS 13 S13 [a0, a1, a2, a3, a4, a5, a6, a7, a8, a9, a10, a11, a12] ↔ 0 ≤ a1 ∧ 0 ≤ a3 ∧ 0 ≤ a4 ∧ 0 ≤ a5 ∧
      0 ≤ a6 ∧ 0 ≤ a7 ∧ 0 ≤ a8 ∧ 0 ≤ a9 ∧ 0 ≤ a10 ∧ 0 ≤ a11 ∧ 0 ≤ a12 := by
  simp [KS, S13, ix]

theorem enlarge_spec (q : IPoly) (hk : q.keyfor = kfI) (hK : q.Keys KI) :
    ∃ r, enlarge q kfB = .ok r ∧ r.keyfor = kfB ∧ r.Keys (fun K => KS 14 S14 K ∧ ix K 8 = 0) ∧
      (∀ W : Wt R, ev (w14 W) r = ev (w10 W) q) ∧ ∀ f : List ℤ → ℝ, ∃ g : List ℤ → ℝ, ev f r = ev g q := by
  have hl : ∀ a0 a1 a2 a3 a4 a5 a6 a7 a8 a9 : ℤ, (List.range kfI.length).foldl (fun (key : List ℤ) (i : ℕ) =>
      key.set (([0, 1, 2, 4, 5, 6, 9, 10, 12, 13] : List ℕ).getD i 0)
        (ix [a0, a1, a2, a3, a4, a5, a6, a7, a8, a9] i)) (List.replicate kfB.length 0) =
      [a0, a1, a2, 0, a3, a4, a5, 0, 0, a6, a7, 0, a8, a9] := fun _ _ _ _ _ _ _ _ _ _ => rfl
  refine ⟨_, by unfold enlarge; rw [hk, idx_ok, ok_bind]; rfl, by simp, ?_, fun W => ?_, fun f => ?_⟩
  · apply ofTerms_Keys
    intro y hy
    obtain ⟨e, he, rfl⟩ := List.mem_map.1 hy
    have h := hK e he
    obtain ⟨a0, a1, a2, a3, a4, a5, a6, a7, a8, a9, hE⟩ := len10 e.1 h.1
    rw [hE] at h
    have := (KI_iff _ _ _ _ _ _ _ _ _ _).1 h
    simp only [hE, hl]
    exact ⟨(KS14_iff _ _ _ _ _ _ _ _ _ _ _ _ _ _).2 (by omega), rfl⟩
  · refine ev_ofTerms_map _ _ _ _ _ fun e he => ?_
    obtain ⟨a0, a1, a2, a3, a4, a5, a6, a7, a8, a9, hE⟩ := len10 e.1 (hK e he).1
    simp only [hE, hl, w14_lit, w10_lit, Int.toNat_zero, pow_zero, one_mul]
  · exact ⟨_, ev_ofTerms_map f (fun k => f ((List.range kfI.length).foldl (fun (key : List ℤ) (i : ℕ) =>
      key.set (([0, 1, 2, 4, 5, 6, 9, 10, 12, 13] : List ℕ).getD i 0) (ix k i)) (List.replicate kfB.length 0)))
      _ _ _ fun e he => rfl⟩

/-! ### `b_n` -/

/-- a half -/
noncomputable def hf (R : Type) [CommRing R] [Algebra ℚ R] : R := algebraMap ℚ R (1 / 2)

theorem bN_keys (n1 n2 n3 n4 n5 n7 n8 : ℕ) :
    (bN n1 n2 n3 n4 n5 n7 n8).Keys (fun K => KS 14 S14 K ∧ ix K 8 = n3) := by
  apply ofTerms_Keys
  intro y hy
  simp only [List.mem_flatMap, List.mem_map, List.mem_range] at hy
  obtain ⟨i1, h1, i2, h2, i3, h3, i4, h4, rfl⟩ := hy
  exact ⟨(KS14_iff _ _ _ _ _ _ _ _ _ _ _ _ _ _).2 (by omega), rfl⟩

theorem ev_bN (W : Wt R) (n1 n2 n3 n4 n5 n7 n8 : ℕ) : ev (w14 W) (bN n1 n2 n3 n4 n5 n7 n8) =
    (W.sg * (hf R * W.c * (W.e⁻¹ : Rˣ))) ^ n1 * (W.rh - W.sg * (hf R * W.c)) ^ n2 * W.rt ^ n3 *
      (hf R * W.c * (W.e⁻¹ : Rˣ)) ^ n4 * (W.J - hf R * W.c) ^ n5 * ((W.mu - hf R * W.th) * W.t) ^ n7 *
      (W.x * (hf R * W.c) * ((W.e⁻¹ : Rˣ) - 1)) ^ n8 := by
  have hs : ∀ (a b : R) (n : ℕ), (a - b) ^ n = ∑ i ∈ range (n + 1), (-1) ^ i * (n.choose i : R) * (b ^ i * a ^ (n - i)) := by
    intro a b n
    rw [sub_eq_add_neg, add_comm, add_pow]
    refine sum_congr rfl fun i _ => ?_
    rw [neg_pow b]; ring
  have hr : (W.sg * (hf R * W.c * (W.e⁻¹ : Rˣ))) ^ n1 * (W.rh - W.sg * (hf R * W.c)) ^ n2 * W.rt ^ n3 *
      (hf R * W.c * (W.e⁻¹ : Rˣ)) ^ n4 * (W.J - hf R * W.c) ^ n5 * ((W.mu - hf R * W.th) * W.t) ^ n7 *
      (W.x * (hf R * W.c) * ((W.e⁻¹ : Rˣ) - 1)) ^ n8 =
      (W.rh - W.sg * (hf R * W.c)) ^ n2 * ((W.J - hf R * W.c) ^ n5 * ((W.mu - hf R * W.th) ^ n7 *
        ((((W.e⁻¹ : Rˣ) : R) - 1) ^ n8 * ((W.sg * (hf R * W.c * (W.e⁻¹ : Rˣ))) ^ n1 * W.rt ^ n3 *
          (hf R * W.c * (W.e⁻¹ : Rˣ)) ^ n4 * W.t ^ n7 * (W.x * (hf R * W.c)) ^ n8)))) := by
    rw [mul_pow _ W.t, mul_pow _ (((W.e⁻¹ : Rˣ) : R) - 1)]; ring
  rw [hr, hs W.rh, hs W.J, hs W.mu, hs ((W.e⁻¹ : Rˣ) : R)]
  unfold bN
  rw [ev_ofTerms, sum_flatMap, list_range_sum, sum_mul]
  refine sum_congr rfl fun i1 h1 => ?_
  rw [sum_flatMap, list_range_sum, sum_mul, mul_sum]
  refine sum_congr rfl fun i2 h2 => ?_
  rw [sum_flatMap, list_range_sum, sum_mul, mul_sum, mul_sum]
  refine sum_congr rfl fun i3 h3 => ?_
  rw [List.map_map, list_range_sum, sum_mul, mul_sum, mul_sum, mul_sum]
  refine sum_congr rfl fun i4 h4 => ?_
  have g1 : i1 ≤ n2 := by have := mem_range.1 h1; omega
  have g2 : i2 ≤ n5 := by have := mem_range.1 h2; omega
  have g3 : i3 ≤ n7 := by have := mem_range.1 h3; omega
  have g4 : i4 ≤ n8 := by have := mem_range.1 h4; omega
  simp only [Function.comp]
  rw [w14_lit, Algebra.smul_def]
  have e1 : W.e ^ (-((n1 : ℤ) + n4 + n8 - i4)) = W.e⁻¹ ^ (n1 + n4 + (n8 - i4)) := by
    rw [zpow_neg, ← inv_zpow, ← zpow_natCast]
    congr 1
    omega
  have e2 : W.c ^ ((n1 : ℤ) + n4 + i1 + i2 + n8) = W.c ^ (n1 + n4 + i1 + i2 + n8) := by
    rw [← zpow_natCast]; push_cast; rfl
  have t1 : ((n7 : ℤ) - i3).toNat = n7 - i3 := by omega
  have t2 : ((n1 : ℤ) + i1).toNat = n1 + i1 := by omega
  have t3 : ((n2 : ℤ) - i1).toNat = n2 - i1 := by omega
  have t4 : ((n5 : ℤ) - i2).toNat = n5 - i2 := by omega
  rw [e1, e2, t1, t2, t3, t4]
  have ec : algebraMap ℚ R ((-1) ^ (i1 + i2 + i3 + i4) *
      (((n2.choose i1 * n5.choose i2 * n7.choose i3 * n8.choose i4 : ℕ) : ℚ) / 2 ^ (n1 + n4 + i1 + i2 + i3 + n8))) =
      (-1) ^ (i1 + i2 + i3 + i4) * ((n2.choose i1 : R) * n5.choose i2 * n7.choose i3 * n8.choose i4) *
        hf R ^ (n1 + n4 + i1 + i2 + i3 + n8) := by
    have : ∀ (a : ℚ) (m : ℕ), a / 2 ^ m = a * (1 / 2) ^ m := by intro a m; rw [one_div, inv_pow]; rfl
    rw [this]
    unfold hf
    simp only [map_mul, map_pow, map_neg, map_one, map_natCast]
    push_cast
    ring
  rw [ec]
  simp only [Int.toNat_natCast, Int.toNat_zero, pow_zero, mul_one, Units.val_pow_eq_pow_val]
  ring

end Ajd.SvcjI

end -- SvcjY

section -- SvcjY2

/-! `moment_y` of the SVCJ model, given the initial variance. -/

namespace Ajd.SvcjI
open Poly Ieziziz Finset MvPolynomial

variable {R : Type} [CommRing R] [Algebra ℚ R]

/-! ### ascending combinations -/

theorem combsUp_mem (p l : ℕ) (ns : List ℕ) (h : ns ∈ combsUp p l) : ns.length = p + 1 ∧ ns.sum = l := by
  induction p generalizing l ns with
  | zero => simp [combsUp] at h; subst h; simp
  | succ p ih =>
    simp only [combsUp, List.mem_flatMap, List.mem_range, List.mem_map] at h
    obtain ⟨i, hi, t, ht, rfl⟩ := h
    have := ih _ _ ht
    simp only [List.length_cons, List.sum_cons]
    omega

theorem combsUp_multinomial {R : Type*} [CommSemiring R] (p : ℕ) (xs : List R) (hx : xs.length = p + 1) (l : ℕ) :
    ((combsUp p l).map fun ns => (Utils.combN l ns : R) * (List.zipWith (· ^ ·) xs ns).prod).sum = xs.sum ^ l := by
  induction p generalizing xs l with
  | zero =>
    obtain ⟨x, rfl⟩ := List.length_eq_one_iff.1 hx
    simp [combsUp, Utils.combN]
  | succ p ih =>
    cases xs with
    | nil => simp at hx
    | cons x t =>
      simp only [combsUp, List.sum_cons]
      rw [add_pow, sum_flatMap]
      have : ∀ i, ((((combsUp p (l - i)).map (i :: ·)).map fun ns =>
          (Utils.combN l ns : R) * (List.zipWith (· ^ ·) (x :: t) ns).prod)).sum =
          x ^ i * t.sum ^ (l - i) * (l.choose i : R) := by
        intro i
        rw [← ih t (by simpa using hx) (l - i), List.map_map, ← List.sum_map_mul_left,
          ← List.sum_map_mul_right]
        congr 1
        apply List.map_congr_left
        intro ns _
        simp only [Function.comp, Utils.combN, List.zipWith_cons_cons, List.prod_cons]
        push_cast
        ring
      simp only [this]
      rw [list_range_sum]

/-! ### products with a Poly of zeros -/

theorem mul_zero_ev (p q r : IPoly) (hk : p.keyfor = q.keyfor) (n : ℕ) (hp : p.Len n) (hq : q.Len n)
    (h : p.mul q = .ok r) (hz : ∀ f : List ℤ → ℝ, ev f q = 0) (f : List ℤ → ℝ) : ev f r = 0 := by
  rw [mul_eq p q hk n hp hq] at h
  obtain rfl := Except.ok.inj h
  rw [ev_removeZero, ev_ofTerms, List.map_map]
  unfold pairs
  rw [sum_flatMap]
  refine List.sum_eq_zero fun y hy => ?_
  obtain ⟨a, ha, rfl⟩ := List.mem_map.1 hy
  have := hz fun k => a.2 * f (List.zipWith (· + ·) a.1 k)
  unfold ev at this
  rw [List.map_map, ← this]
  congr 1
  apply List.map_congr_left
  intro b _
  simp only [Function.comp, Rat.smul_def]
  push_cast
  ring

theorem items_nil (r : IPoly) (hw : r.WF) (hn : r.NoZero) (hz : ∀ f : List ℤ → ℝ, ev f r = 0) : r.items = [] := by
  by_contra hne
  obtain ⟨a, ha⟩ := List.exists_mem_of_ne_nil _ hne
  have h1 := dget_eq_some_of_mem r.items hw a.1 a.2 ha
  have h2 : r.coeff a.1 = a.2 := by unfold Poly.coeff; rw [h1]; rfl
  have h3 := hz fun k' => if k' = a.1 then 1 else 0
  have h4 : ((r.coeff a.1 : ℚ) : ℝ) = 0 := by
    rw [coeff_eq_ev r hw, ← h3]
    unfold ev
    generalize r.items = l
    induction l with
    | nil => simp
    | cons b l ih =>
      rw [List.map_cons, List.sum_cons, List.map_cons, List.sum_cons, Rat.cast_add, ih]
      congr 1
      simp only [Rat.smul_def]
      split_ifs <;> simp
  rw [h2] at h4
  exact hn a ha (by exact_mod_cast h4)

/-! ### one combination -/

/-- the Poly of `moment_ieii_ieziziz` -/
def momI (n1 n2 n3 n4 n5 n6 : ℕ) : IPoly :=
  match momentI n1 n2 n3 n4 n5 n6 with
  | .ok r => r
  | .error _ => ⟨[], []⟩

theorem momI_ok (n1 n2 n3 n4 n5 n6 : ℕ) : momentI n1 n2 n3 n4 n5 n6 = .ok (momI n1 n2 n3 n4 n5 n6) ∧
    GoodN n1 n2 n3 n4 n5 n6 (momI n1 n2 n3 n4 n5 n6) := by
  obtain ⟨r, e, g⟩ := momentI_spec n1 n2 n3 n4 n5 n6
  have : momI n1 n2 n3 n4 n5 n6 = r := by unfold momI; rw [e]
  rw [this]
  exact ⟨e, g⟩

/-- keys with a given power of `sqrt(1-rho^2)` -/
def G8 (a : ℤ) (K : List ℤ) : Prop := KS 14 S14 K ∧ ix K 8 = a

theorem G8_add : GAdd G8 := by
  intro a b k1 k2 h1 h2
  refine ⟨KS_add 14 S14 _ _ h1.1 h2.1, ?_⟩
  rw [ix_zipWith _ _ (by rw [h1.1.1, h2.1.1]), h1.2, h2.2]

/-- keys with an even power of `sqrt(1-rho^2)` -/
def K14 (K : List ℤ) : Prop := KS 14 S14 K ∧ ix K 8 % 2 = 0

/-- the value of `b_n` -/
noncomputable def bVal (W : Wt R) (n1 n2 n3 n4 n5 n7 n8 : ℕ) : R :=
    (W.sg * (hf R * W.c * (W.e⁻¹ : Rˣ))) ^ n1 * (W.rh - W.sg * (hf R * W.c)) ^ n2 * W.rt ^ n3 *
      (hf R * W.c * (W.e⁻¹ : Rˣ)) ^ n4 * (W.J - hf R * W.c) ^ n5 * ((W.mu - hf R * W.th) * W.t) ^ n7 *
      (W.x * (hf R * W.c) * ((W.e⁻¹ : Rˣ) - 1)) ^ n8

theorem yTerm_spec (n n1 n2 n3 n4 n5 n6 n7 n8 : ℕ) (hn : n1 + n2 + n3 + n4 + n5 + n6 + n7 + n8 = n) :
    ∃ q, yTerm n [n1, n2, n3, n4, n5, n6, n7, n8] = .ok q ∧ q.keyfor = kfB ∧ q.Keys K14 ∧
      ∀ W : Wt R, ev (w14 W) q = (Utils.combN n [n1, n2, n3, n4, n5, n6, n7, n8] : R) *
        (bVal W n1 n2 n3 n4 n5 n7 n8 * ev (w10 W) (momI n1 n2 n3 n4 n5 n6)) := by
  have hc := Utils.comb_eq [n1, n2, n3, n4, n5, n6, n7, n8] n (by simp; omega)
  obtain ⟨em, gk, gK, go, -⟩ := momI_ok n1 n2 n3 n4 n5 n6
  obtain ⟨r, er, rk, rK, rv, rz⟩ := enlarge_spec (R := R) _ gk gK
  obtain ⟨q, eq, qk, qw, qn, qK, qv⟩ := gmul_on (n := 14) G8_add (fun a k h => h.1.1) (bN n1 n2 n3 n4 n5 n7 n8) r
    (by rw [rk]; simp [bN]) n3 0 (bN_keys _ _ _ _ _ _ _) rK
  have hbk : (bN n1 n2 n3 n4 n5 n7 n8).keyfor = kfB := by simp [bN]
  obtain ⟨mk, mw, mn, mK⟩ := rmul_spec ((Utils.combN n [n1, n2, n3, n4, n5, n6, n7, n8] : ℕ) : ℚ) q _ qK
  refine ⟨rmul ((Utils.combN n [n1, n2, n3, n4, n5, n6, n7, n8] : ℕ) : ℚ) q, ?_, by rw [mk, qk, hbk], ?_,
    fun W => ?_⟩
  · unfold yTerm
    rw [hc, ok_bind]
    simp only [nat, List.getD_cons_zero, List.getD_cons_succ]
    rw [em, ok_bind, hbk, er, ok_bind, eq, ok_bind]
    simp
    rfl
  · by_cases ho : Odd n3
    · have hz := mul_zero_ev _ _ _ (by rw [rk, hbk]) 14 (fun y hy => (bN_keys _ _ _ _ _ _ _ y hy).1.1)
        (fun y hy => (rK y hy).1.1) eq (fun f => by obtain ⟨g, hg⟩ := rz f; rw [hg]; exact go ho g)
      have := items_nil _ mw mn (fun f => by rw [ev_rmul, hz, smul_zero])
      intro y hy
      rw [this] at hy
      simp at hy
    · intro y hy
      have := mK y hy
      rw [Nat.not_odd_iff_even] at ho
      obtain ⟨m, hm⟩ := ho
      exact ⟨this.1, by rw [this.2]; omega⟩
  · rw [ev_rmul, qv (w14 W) (fun a b k1 k2 h1 h2 => wq_mul W.e W.c W.v14 14 S14 k1 k2 h1.1 h2.1), ev_bN, rv,
      Algebra.smul_def]
    simp [bVal]

/-! ### `expand_sqrt` -/

theorem len14 {α : Type*} (l : List α) (h : l.length = 14) :
    ∃ a b c d e f g i j o p q r s, l = [a, b, c, d, e, f, g, i, j, o, p, q, r, s] := by
  match l, h with
  | [a, b, c, d, e, f, g, i, j, o, p, q, r, s], _ => exact ⟨a, b, c, d, e, f, g, i, j, o, p, q, r, s, rfl⟩

theorem expandSqrt_spec (q : IPoly) (hq : q.Keys K14) : ∃ r, expandSqrt q = .ok r ∧ r.keyfor = kfY ∧ r.WF ∧
    r.Keys (KS 13 S13) ∧ ∀ W : {W : Wt R // W.rt ^ 2 = 1 - W.rh ^ 2}, ev (w13 W.1) r = ev (w14 W.1) q := by
  refine subst_spec kfY sqrtTerms q (KS 13 S13) (fun W : {W : Wt R // W.rt ^ 2 = 1 - W.rh ^ 2} => w13 W.1)
    (fun W => w14 W.1) ?_
  intro e he
  obtain ⟨h1, h2⟩ := hq e he
  obtain ⟨a0, a1, a2, a3, a4, a5, a6, a7, a8, a9, a10, a11, a12, a13, hE⟩ := len14 e.1 h1.1
  rw [hE] at h1 h2
  have hs := (KS14_iff _ _ _ _ _ _ _ _ _ _ _ _ _ _).1 h1
  simp only [ix_cons_succ, ix_cons_zero] at h2
  obtain ⟨m, hm⟩ : ∃ m : ℕ, a8 = 2 * m := ⟨(a8 / 2).toNat, by omega⟩
  have hd : a8 / 2 = m := by omega
  have ht : ((m : ℤ) + 1).toNat = m + 1 := by omega
  unfold sqrtTerms
  simp only [hE, ix_cons_succ, ix_cons_zero]
  rw [if_neg (by omega)]
  refine ⟨_, rfl, ?_, fun W => ?_⟩
  · intro y hy
    obtain ⟨i, hi, rfl⟩ := List.mem_map.1 hy
    exact (KS13_iff _ _ _ _ _ _ _ _ _ _ _ _ _).2 (by dsimp only; omega)
  · rw [hd, ht, Int.toNat_natCast, List.map_map, list_range_sum, w14_lit]
    have e8 : a8.toNat = 2 * m := by omega
    rw [e8, pow_mul, W.2, sub_eq_add_neg, add_comm (1 : R), add_pow]
    simp only [mul_sum, sum_mul, smul_sum]
    refine sum_congr rfl fun i _ => ?_
    have e7 : (a7 + 2 * (i : ℤ)).toNat = a7.toNat + 2 * i := by omega
    simp only [Function.comp, List.modify, List.modifyTailIdx, List.modifyTailIdx.go, List.modifyHead,
      List.eraseIdx_cons_succ, List.eraseIdx_cons_zero]
    rw [w13_lit, e7, one_pow, mul_one, Algebra.smul_def, Algebra.smul_def, neg_pow (W.1.rh ^ 2), ← pow_mul, pow_add]
    simp only [map_mul, map_pow, map_neg, map_one, map_natCast]
    ring

/-! ### `moment_y` -/

/-- the return as a polynomial of the integrals -/
noncomputable def yW (W : Wt R) : MvPolynomial (Fin 6) R :=
  C (W.sg * (hf R * W.c * (W.e⁻¹ : Rˣ))) * X 0 + C (W.rh - W.sg * (hf R * W.c)) * X 1 + C W.rt * X 2 +
    C (hf R * W.c * (W.e⁻¹ : Rˣ)) * X 3 + C (W.J - hf R * W.c) * X 4 + X 5 + C ((W.mu - hf R * W.th) * W.t) +
    C (W.x * (hf R * W.c) * ((W.e⁻¹ : Rˣ) - 1))

theorem E_C {σ : Type} (E : MvPolynomial σ R →ₗ[R] R) (a : R) (f : MvPolynomial σ R) : E (C a * f) = a * E f := by
  rw [C_mul', map_smul, smul_eq_mul]

theorem len8' (l : List ℕ) (h : l.length = 8) : ∃ a b c d e f g i, l = [a, b, c, d, e, f, g, i] := len8 l h

theorem WF_nil (kf : List String) : (⟨kf, []⟩ : IPoly).WF := by simp [WF]

theorem condY_spec (n : ℕ) : ∃ r, condY n = .ok r ∧ r.keyfor = kfY ∧ r.WF ∧ r.Keys (KS 13 S13) ∧
    ∀ (W : Wt R) (_ : W.rt ^ 2 = 1 - W.rh ^ 2) (E : MvPolynomial (Fin 6) R →ₗ[R] R)
      (_ : ∀ n1 n2 n3 n4 n5 n6 : ℕ, E (X 0 ^ n1 * X 1 ^ n2 * X 2 ^ n3 * X 3 ^ n4 * X 4 ^ n5 * X 5 ^ n6) =
        ev (w10 W) (momI n1 n2 n3 n4 n5 n6)), ev (w13 W) r = E (yW W ^ n) := by
  unfold condY
  rw [if_neg (by omega)]
  by_cases h0 : n = 0
  · subst h0
    refine ⟨_, rfl, rfl, by simp [WF, one13], ?_, fun W _ E hE => ?_⟩
    · intro y hy
      simp only [one13, List.mem_singleton] at hy
      subst hy
      exact (KS13_iff _ _ _ _ _ _ _ _ _ _ _ _ _).2 (by simp)
    · have h1 := hE 0 0 0 0 0 0
      simp only [pow_zero, mul_one] at h1
      rw [pow_zero, h1]
      have h2 : momI 0 0 0 0 0 0 = ⟨kfI, [([0, 0, 0, 0, 0, 0, 0, 0, 0, 0], 1)]⟩ := by decide +kernel
      rw [h2]
      simp [one13, ev, w13_lit, w10_lit]
  · rw [if_neg (by omega)]
    obtain ⟨q, e, -, -, -, k, v⟩ := mergeLoop_spec (ι := Wt R) (yTerm n) (combsUp 7 n) ⟨kfB, []⟩ K14 w14
      (fun W ns => (Utils.combN n ns : R) * (bVal W (nat ns 0) (nat ns 1) (nat ns 2) (nat ns 3) (nat ns 4)
        (nat ns 6) (nat ns 7) * ev (w10 W) (momI (nat ns 0) (nat ns 1) (nat ns 2) (nat ns 3) (nat ns 4) (nat ns 5))))
      (fun x hx => by simp at hx) (by
        intro ns hns
        obtain ⟨h1, h2⟩ := combsUp_mem _ _ _ hns
        obtain ⟨n1, n2, n3, n4, n5, n6, n7, n8, rfl⟩ := len8' ns h1
        simp only [List.sum_cons, List.sum_nil] at h2
        exact yTerm_spec n n1 n2 n3 n4 n5 n6 n7 n8 (by omega))
    obtain ⟨r, e1, k1, w1, K1, v1⟩ := expandSqrt_spec (R := R) q k
    refine ⟨r, by rw [Int.toNat_natCast, e, ok_bind, e1], k1, w1, K1, fun W hW E hE => ?_⟩
    rw [v1 ⟨W, hW⟩, v, ev_nil, zero_add]
    have hm := combsUp_multinomial (R := MvPolynomial (Fin 6) R) 7 [C (W.sg * (hf R * W.c * (W.e⁻¹ : Rˣ))) * X 0,
      C (W.rh - W.sg * (hf R * W.c)) * X 1, C W.rt * X 2, C (hf R * W.c * (W.e⁻¹ : Rˣ)) * X 3,
      C (W.J - hf R * W.c) * X 4, X 5, C ((W.mu - hf R * W.th) * W.t),
      C (W.x * (hf R * W.c) * ((W.e⁻¹ : Rˣ) - 1))] rfl n
    have hy : yW W = [C (W.sg * (hf R * W.c * (W.e⁻¹ : Rˣ))) * X 0,
      C (W.rh - W.sg * (hf R * W.c)) * X 1, C W.rt * X 2, C (hf R * W.c * (W.e⁻¹ : Rˣ)) * X 3,
      C (W.J - hf R * W.c) * X 4, X 5, C ((W.mu - hf R * W.th) * W.t),
      C (W.x * (hf R * W.c) * ((W.e⁻¹ : Rˣ) - 1))].sum := by
      simp only [List.sum_cons, List.sum_nil, yW]; ring
    rw [hy, ← hm, map_list_sum, List.map_map]
    congr 1
    apply List.map_congr_left
    intro ns hns
    obtain ⟨h1, -⟩ := combsUp_mem _ _ _ hns
    obtain ⟨n1, n2, n3, n4, n5, n6, n7, n8, rfl⟩ := len8' ns h1
    simp only [Function.comp, nat, List.getD_cons_zero, List.getD_cons_succ]
    rw [← hE, ← E_C E, ← E_C E, map_natCast]
    refine congrArg E ?_
    simp only [List.zipWith_cons_cons, List.zipWith_nil_right, List.prod_cons, List.prod_nil, mul_pow,
      map_mul, map_pow, bVal]
    ring

end Ajd.SvcjI

end -- SvcjY2

section -- SvcjY3

/-! The conditional moments of the return of the SVCJ model, from its stochastic differential equations. -/

namespace Ajd.SvcjI
open Poly Ieziziz Finset MvPolynomial

/-- the values of the components -/
noncomputable def realW (p : SPar) (hk : p.k ≠ 0) (x : ℝ) : Wt ℝ where
  e := Units.mk0 (Real.exp (p.k * p.h)) (Real.exp_ne_zero _)
  c := Units.mk0 p.k⁻¹ (inv_ne_zero hk)
  t := p.h
  mu := p.mu
  x := x
  th := p.theta
  sg := p.sigma
  rh := p.rho
  rt := √(1 - p.rho ^ 2)
  lm := p.lmbd
  mv := p.mu_v
  J := p.rhoJ
  ms := p.mu_s
  ss := p.sigma_s

theorem zpow_toNat' (x : ℝ) (a : ℤ) (h : 0 ≤ a) : x ^ a.toNat = x ^ a := by
  obtain ⟨n, rfl⟩ := Int.eq_ofNat_of_zero_le h
  simp

theorem exp_zpow (x : ℝ) (a : ℤ) : Real.exp x ^ a = Real.exp (a * x) := by
  rw [← Real.rpow_intCast, ← Real.exp_mul, mul_comm]

theorem len13 {α : Type*} (l : List α) (h : l.length = 13) :
    ∃ a b c d e f g i j o p q r, l = [a, b, c, d, e, f, g, i, j, o, p, q, r] := by
  match l, h with
  | [a, b, c, d, e, f, g, i, j, o, p, q, r], _ => exact ⟨a, b, c, d, e, f, g, i, j, o, p, q, r, rfl⟩

theorem w13_real (p : SPar) (hk : p.k ≠ 0) (x : ℝ) (K : List ℤ) (hK : KS 13 S13 K) :
    w13 (realW p hk x) K = numY p x K := by
  obtain ⟨a0, a1, a2, a3, a4, a5, a6, a7, a8, a9, a10, a11, a12, rfl⟩ := len13 K hK.1
  have hs := (KS13_iff _ _ _ _ _ _ _ _ _ _ _ _ _).1 hK
  rw [w13_lit]
  simp only [realW, numY, ix_cons_zero, ix_cons_succ, Units.val_zpow_eq_zpow_val, Units.val_mk0, exp_zpow, inv_zpow]
  rw [zpow_toNat' _ _ hs.1, zpow_toNat' _ _ hs.2.1, zpow_toNat' _ _ hs.2.2.1, zpow_toNat' _ _ hs.2.2.2.1,
    zpow_toNat' _ _ hs.2.2.2.2.1, zpow_toNat' _ _ hs.2.2.2.2.2.1, zpow_toNat' _ _ hs.2.2.2.2.2.2.1,
    zpow_toNat' _ _ hs.2.2.2.2.2.2.2.1, zpow_toNat' _ _ hs.2.2.2.2.2.2.2.2.1, zpow_toNat' _ _ hs.2.2.2.2.2.2.2.2.2.1,
    zpow_toNat' _ _ hs.2.2.2.2.2.2.2.2.2.2, mul_assoc (a0 : ℝ), div_eq_mul_inv]
  ring

theorem w10_real (p : SPar) (hk : p.k ≠ 0) (K : List ℤ) (hK : KI K) :
    w10 (realW p hk (p.v0 - p.theta)) K = wI p p.h K := by
  obtain ⟨a0, a1, a2, a3, a4, a5, a6, a7, a8, a9, rfl⟩ := len10 K hK.1
  have hs := (KI_iff _ _ _ _ _ _ _ _ _ _).1 hK
  rw [w10_lit]
  simp only [realW, wI, tailI, ix_cons_zero, ix_cons_succ, Units.val_zpow_eq_zpow_val, Units.val_mk0, exp_zpow,
    inv_zpow]
  rw [zpow_toNat' _ _ hs.1, zpow_toNat' _ _ hs.2.1, zpow_toNat' _ _ hs.2.2.1, zpow_toNat' _ _ hs.2.2.2.1,
    zpow_toNat' _ _ hs.2.2.2.2.1, zpow_toNat' _ _ hs.2.2.2.2.2.1, zpow_toNat' _ _ hs.2.2.2.2.2.2.1,
    zpow_toNat' _ _ hs.2.2.2.2.2.2.2, mul_assoc (a0 : ℝ), zpow_neg]
  ring

theorem w13_ev (p : SPar) (hk : p.k ≠ 0) (x : ℝ) (r : IPoly) (hr : r.Keys (KS 13 S13)) :
    ev (w13 (realW p hk x)) r = ev (numY p x) r :=
  ev_congr _ _ _ fun e he => w13_real p hk x e.1 (hr e he)

/-- the last two components are known -/
noncomputable def psi (k v0 θ h : ℝ) : M8 →ₐ[ℝ] M8 :=
  aeval ![X 0, X 1, X 2, X 3, X 4, X 5, C (Real.exp (-k * h) * (v0 - θ)), C h]

theorem E_psi {p : Par} (hm : 0 < p.mu_v) {v0 θ σ : ℝ} {E : ℝ → M8 →ₗ[ℝ] ℝ}
    (hE : (drv p θ σ).Dynkin (E0D v0 θ) E) (h : ℝ) (hh : 0 ≤ h) (f g : M8) :
    E h (f * g) = E h (psi p.k v0 θ h f * g) := by
  induction f using MvPolynomial.induction_on generalizing g with
  | C a => simp [psi]
  | add f f' h1 h2 => rw [add_mul, map_add, h1, h2, map_add, add_mul, map_add]
  | mul_X f i ih =>
    rw [map_mul (psi p.k v0 θ h), mul_assoc, ih]
    have hx : psi p.k v0 θ h (X i) = ![X 0, X 1, X 2, X 3, X 4, X 5, C (Real.exp (-p.k * h) * (v0 - θ)), C h] i := by
      rw [psi, aeval_X]
    rw [hx]
    fin_cases i <;> try (simp [mul_assoc]; done)
    · have := E_X6 hm hE h hh (psi p.k v0 θ h f * g)
      simp only [Fin.mk_one, Fin.reduceFinMk, Matrix.cons_val] at this ⊢
      rw [mul_left_comm, this, ← E_C]
      congr 1
      ring
    · have := E_X7 hm hE h hh (psi p.k v0 θ h f * g)
      simp only [Fin.mk_one, Fin.reduceFinMk, Matrix.cons_val] at this ⊢
      rw [mul_left_comm, this, ← E_C]
      congr 1
      ring

/-- `e^{-kt} IE = U` and `e^{-kt} IEZ = W` -/
noncomputable def phi (e : ℝ) : MvPolynomial (Fin 6) ℝ →ₐ[ℝ] M8 :=
  aeval ![C e * X 0, X 1, X 2, C e * X 3, X 4, X 5]

theorem phi_yW (p : SPar) (hk : p.k ≠ 0) : phi (Real.exp (p.k * p.h)) (yW (realW p hk (p.v0 - p.theta))) =
    psi p.k p.v0 p.theta p.h (yP p.k p.sigma p.rho p.rhoJ p.mu p.theta p.v0) := by
  have hf2 : hf ℝ = 1 / 2 := by simp [hf]
  have he := Real.exp_ne_zero (p.k * p.h)
  have e1 : Real.exp (-p.k * p.h) = (Real.exp (p.k * p.h))⁻¹ := by rw [neg_mul, Real.exp_neg]
  simp only [phi, psi, yW, yP, realW, hf2, map_add, map_sub, map_mul, aeval_X, Units.val_mk0, Units.val_inv_eq_inv_val,
    algHom_C, algebraMap_eq, Matrix.cons_val, e1]
  generalize Real.exp (p.k * p.h) = e at *
  have hc : (C e⁻¹ : M8) * C e = 1 := by rw [← C_mul, inv_mul_cancel₀ he, C_1]
  have h1 : (C (p.sigma / (2 * p.k)) : M8) = C p.sigma * (C (1 / 2) * C p.k⁻¹) := by
    simp only [← C_mul]; congr 1; field_simp
  have h2 : (C (1 / (2 * p.k)) : M8) = C (1 / 2) * C p.k⁻¹ := by
    simp only [← C_mul]; congr 1; field_simp
  have h3 : (C ((p.v0 - p.theta) / (2 * p.k)) : M8) = (C p.v0 - C p.theta) * (C (1 / 2) * C p.k⁻¹) := by
    simp only [← C_mul, ← C_sub]; congr 1; field_simp
  have h4 : (C (p.theta / 2) : M8) = C (1 / 2) * C p.theta := by
    simp only [← C_mul]; congr 1; ring
  rw [h1, h2, h3, h4, C_1]
  linear_combination (C p.sigma * C (1 / 2) * C p.k⁻¹ * X 0 + C (1 / 2) * C p.k⁻¹ * X 3) * hc

theorem poly2numC_eq (q : IPoly) (p : SPar) : poly2numC q p = ev (numY p (p.v0 - p.theta)) q := by
  unfold poly2numC ev
  generalize q.items = l
  have : ∀ a : ℝ, l.foldl (fun f e => f + numY p (p.v0 - p.theta) e.1 * e.2) a =
      a + (l.map fun kv => kv.2 • numY p (p.v0 - p.theta) kv.1).sum := by
    induction l with
    | nil => simp
    | cons b l ih =>
      intro a
      rw [List.foldl_cons, ih, List.map_cons, List.sum_cons, Rat.smul_def]
      ring
  rw [this, zero_add]

/-- `moment_y(n)` is `E[y^n]` given the initial variance. -/
theorem condY_num (n : ℕ) : ∃ r, condY n = .ok r ∧ r.keyfor = kfY ∧ r.WF ∧ r.Keys (KS 13 S13) ∧
    ∀ (p : SPar) (_ : Ok p) (E : ℝ → MvPolynomial (Fin 2) ℝ →ₗ[ℝ] ℝ)
      (_ : p.sde.Dynkin (aeval ![p.v0, 0]).toLinearMap E), poly2numC r p = E p.h (X 1 ^ n) := by
  obtain ⟨r, e, k, w, K, v⟩ := condY_spec (R := ℝ) n
  refine ⟨r, e, k, w, K, fun p hp E hE => ?_⟩
  obtain ⟨D, hD, hDE⟩ := svcj_repr p.toPar hp.mu_v hp.k p.mu p.theta p.sigma p.rho p.rhoJ p.v0 hp.rho hE
  have hN := drv_jsys hp.mu_v hD
  rw [poly2numC_eq, ← w13_ev p hp.k _ _ K, hDE _ hp.h, map_pow, aeval_X]
  have e1 := E_psi hp.mu_v hD p.h hp.h (yP p.k p.sigma p.rho p.rhoJ p.mu p.theta p.v0 ^ n) 1
  rw [mul_one, mul_one, map_pow (psi _ _ _ _), ← phi_yW p hp.k, ← map_pow (phi _)] at e1
  show _ = D p.h (yP p.k p.sigma p.rho p.rhoJ p.mu p.theta p.v0 ^ n)
  rw [e1]
  refine v (realW p hp.k (p.v0 - p.theta)) (Real.sq_sqrt hp.rho)
    (D p.h ∘ₗ (phi (Real.exp (p.k * p.h))).toLinearMap) fun n1 n2 n3 n4 n5 n6 => ?_
  obtain ⟨-, gk, gK, go, gv⟩ := momI_ok n1 n2 n3 n4 n5 n6
  rw [ev_congr _ _ _ fun e he => w10_real p hp.k e.1 (gK e he),
    gv ⟨p, famN p.toPar D, p.h, hp.k, hN, hp.h⟩, LinearMap.comp_apply, AlgHom.toLinearMap_apply]
  have : phi (Real.exp (p.k * p.h)) (X 0 ^ n1 * X 1 ^ n2 * X 2 ^ n3 * X 3 ^ n4 * X 4 ^ n5 * X 5 ^ n6) =
      C (Real.exp ((n1 + n4) * p.k * p.h)) * fn n1 n2 n3 n4 n5 n6 := by
    rw [show ((n1 : ℝ) + n4) * p.k * p.h = ((n1 + n4 : ℕ) : ℝ) * (p.k * p.h) by push_cast; ring, Real.exp_nat_mul,
      pow_add]
    simp only [phi, map_mul, map_pow, aeval_X, Matrix.cons_val, fn, mul_pow]
    ring
  rw [this, E_C]
  rfl

end Ajd.SvcjI

end -- SvcjY3
