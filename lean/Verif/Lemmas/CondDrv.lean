import Verif.Lemmas.GenAt
import Verif.Lemmas.SvcjDrv
import Verif.Spec.ItoCond

/-! The processes behind the variance and the return, given the jumps of the variance. -/

namespace Ajd.CondJ
open MvPolynomial Finset MeasureTheory SvcjI Gen Dyn Filter Topology

/-- no jump at a random time -/
noncomputable def drv0 (k θ σ : ℝ) : JumpDiff (Fin 8) where
  b x i := eval x (bD k i)
  a x i j := eval x (aD θ σ i j)
  lam := 0
  ν := Measure.dirac 0

theorem mom_dirac {τ : Type} [Fintype τ] (y : τ → ℝ) : Mom (Measure.dirac y) := fun f =>
  integrable_dirac (by simp)

theorem drv0_coef (k θ σ : ℝ) : PolyCoef (drv0 k θ σ) (bD k) (aD θ σ) where
  prob := by
    show IsProbabilityMeasure (Measure.dirac _)
    infer_instance
  hb _ _ := rfl
  ha _ _ _ := rfl
  db := (drv_coef ⟨k, 0, 1, 0, 0⟩ one_pos θ σ).db
  da := (drv_coef ⟨k, 0, 1, 0, 0⟩ one_pos θ σ).da

theorem drv0_mom (k θ σ : ℝ) : Mom (drv0 k θ σ).ν := mom_dirac 0

/-- the generator -/
noncomputable abbrev A0 (k θ σ : ℝ) : M8 →ₗ[ℝ] M8 := op (bD k) (aD θ σ) (drv0 k θ σ).lam (drv0 k θ σ).ν (drv0_mom k θ σ)

theorem A0_apply (k θ σ : ℝ) (f : M8) : A0 k θ σ f = ∑ i, bD k i * pderiv i f +
    (1 / 2 : ℝ) • ∑ i, ∑ j, aD θ σ i j * pderiv i (pderiv j f) := by
  rw [A0, op_apply]
  simp [drv0]

/-- a coordinate without noise -/
theorem A0_X (k θ σ : ℝ) (i : Fin 8) (hi : 3 ≤ i.val) (f : M8) :
    A0 k θ σ (X i * f) = X i * A0 k θ σ f + bD k i * f := by
  have hz1 : ∀ j, aD θ σ i j = 0 := fun j => by rw [aD, aM_zero i j (Or.inl hi)]; simp
  have hz2 : ∀ j, aD θ σ j i = 0 := fun j => by rw [aD, aM_zero j i (Or.inr hi)]; simp
  have d1 : ∀ (j : Fin 8) (g : M8), pderiv j (X i * g) = X i * pderiv j g + (if j = i then g else 0) := by
    intro j g
    rw [Derivation.leibniz, smul_eq_mul, smul_eq_mul, pderiv_X]
    by_cases h : j = i
    · subst h; simp
    · simp [h, Pi.single_apply, Ne.symm h]
  have hb : ∑ j, bD k j * pderiv j (X i * f) = X i * ∑ j, bD k j * pderiv j f + bD k i * f := by
    simp only [d1, mul_add, mul_ite, mul_zero, sum_add_distrib, Finset.sum_ite_eq', mem_univ, if_true, mul_sum]
    congr 1
    exact sum_congr rfl fun j _ => by ring
  have ha : ∑ j, ∑ l, aD θ σ j l * pderiv j (pderiv l (X i * f)) =
      X i * ∑ j, ∑ l, aD θ σ j l * pderiv j (pderiv l f) := by
    simp only [mul_sum]
    refine sum_congr rfl fun j _ => sum_congr rfl fun l _ => ?_
    rw [d1, map_add, d1]
    by_cases hj : j = i
    · subst hj; rw [hz1]; simp
    · by_cases hl : l = i
      · subst hl; rw [hz2]; simp
      · simp [hj, hl]; ring
  rw [A0_apply, A0_apply, hb, ha]
  simp only [smul_eq_C_mul]
  ring

theorem jump_dirac {τ : Type} [Fintype τ] (y : τ → ℝ) (h : Mom (Measure.dirac y)) (f : MvPolynomial τ ℝ) :
    jump _ h f = aeval (fun i => X i + C (y i)) f := by
  refine MvPolynomial.funext fun x => ?_
  rw [eval_jump, integral_dirac, eval_aeval]
  refine congrArg (fun z => eval z f) (funext fun i => ?_)
  simp

theorem exp_deriv (k t : ℝ) : HasDerivAt (fun t => Real.exp (-k * t)) (-k * Real.exp (-k * t)) t := by
  have : HasDerivAt (fun t : ℝ => -k * t) (-k) t := by simpa using (hasDerivAt_id t).const_mul (-k)
  exact this.exp.congr_deriv (by ring)

section
variable (x : ItoCond.Par)

/-- the jump of the processes when the variance jumps by `J` -/
noncomputable def kap (i : Fin x.N) : Measure (Fin 8 → ℝ) := Measure.dirac (vec (x.J i, 0))

theorem kap_mom (i : Fin x.N) : Mom (kap x i) := mom_dirac _

/-- a function that jumps by `w j` at `s j` -/
noncomputable def stp (w : Fin x.N → ℝ) (t : ℝ) : ℝ := ∑ j, if x.s j ≤ t then w j else 0

/-- its jump at `t` -/
noncomputable def jmpAt (w : Fin x.N → ℝ) (t : ℝ) : ℝ := ∑ j, if x.s j = t then w j else 0

theorem stp_right (w : Fin x.N → ℝ) (t : ℝ) : HasDerivWithinAt (stp x w) 0 (Set.Ici t) t := by
  refine (hasDerivWithinAt_const t _ (stp x w t)).congr_of_eventuallyEq ?_ rfl
  obtain ⟨b, hb, hq⟩ := quiet_right x.s t
  filter_upwards [Icc_mem_nhdsGE hb] with u hu
  refine sum_congr rfl fun j _ => ?_
  by_cases h : x.s j ≤ t
  · rw [if_pos h, if_pos (h.trans hu.1)]
  · rw [if_neg h, if_neg fun hc => hq j ⟨not_le.1 h, hc.trans hu.2⟩]

theorem stp_left (w : Fin x.N → ℝ) (t : ℝ) : Tendsto (stp x w) (𝓝[<] t) (𝓝 (stp x w t - jmpAt x w t)) := by
  have h : ∀ᶠ u in 𝓝[<] t, ∀ i, ¬(u < x.s i ∧ x.s i < t) := by
    rw [eventually_all]
    intro i
    by_cases hi : x.s i < t
    · filter_upwards [mem_nhdsWithin_of_mem_nhds (Ioi_mem_nhds hi)] with u hu hc
      exact absurd hu (not_lt.2 hc.1.le)
    · exact Eventually.of_forall fun u hc => hi hc.2
  refine tendsto_const_nhds.congr' ?_
  filter_upwards [h, self_mem_nhdsWithin] with u hu hut
  have hut' : u < t := hut
  rw [stp, stp, jmpAt, ← sum_sub_distrib]
  refine sum_congr rfl fun j _ => ?_
  rcases lt_trichotomy (x.s j) t with hl | he | hg
  · have : x.s j ≤ u := not_lt.1 fun hc => hu j ⟨hc, hl⟩
    rw [if_pos hl.le, if_neg hl.ne, if_pos this, sub_zero]
  · rw [if_pos he.le, if_pos he, if_neg (by rw [he]; exact not_le.2 hut'), sub_self]
  · rw [if_neg (not_le.2 hg), if_neg hg.ne', if_neg (not_le.2 (hut'.trans hg)), sub_zero]

variable {x}

/-- the jumps as operators -/
theorem jat_X (hs : Times x.s) (t : ℝ) (i : Fin 8) (f : M8) :
    jat x.s (kap x) (kap_mom x) t (X i * f) =
      (X i + C (jmpAt x (fun j => vec (x.J j, 0) i) t)) * jat x.s (kap x) (kap_mom x) t f := by
  by_cases hn : ∃ j, x.s j = t
  · obtain ⟨j, rfl⟩ := hn
    have : jmpAt x (fun j => vec (x.J j, 0) i) (x.s j) = vec (x.J j, 0) i := by
      rw [jmpAt, Finset.sum_eq_single j]
      · simp
      · intro l _ hl
        rw [if_neg fun h => hl (hs.inj h)]
      · simp
    rw [jat_at hs, this]
    have h2 : ∀ g, jump (kap x j) (kap_mom x j) g = aeval (fun i => X i + C (vec (x.J j, 0) i)) g :=
      fun g => jump_dirac _ _ g
    rw [h2, h2, map_mul, aeval_X]
  · have : jmpAt x (fun j => vec (x.J j, 0) i) t = 0 :=
      sum_eq_zero fun j _ => by rw [if_neg fun h => hn ⟨j, h⟩]
    rw [jat_ne _ _ hn, this]
    simp

theorem jat_fn (hs : Times x.s) (t : ℝ) (a b c : ℕ) :
    jat x.s (kap x) (kap_mom x) t (fn a b c 0 0 0) = fn a b c 0 0 0 := by
  by_cases hn : ∃ j, x.s j = t
  · obtain ⟨j, rfl⟩ := hn
    rw [jat_at hs]
    have h2 : ∀ g, jump (kap x j) (kap_mom x j) g = aeval (fun i => X i + C (vec (x.J j, 0) i)) g :=
      fun g => jump_dirac _ _ g
    rw [h2]
    simp [fn, vec]
  · rw [jat_ne _ _ hn]
    rfl

variable (hs : Times x.s) {D : ℝ → M8 →ₗ[ℝ] ℝ}
  (hD : (drv0 x.k x.θ x.σ).DynkinAt x.s (kap x) (E0D x.v x.θ) D)
include hs hD

theorem D_sol : SolAt (A0 x.k x.θ x.σ) (jat x.s (kap x) (kap_mom x)) D :=
  dynkinAt_sol (drv0_coef x.k x.θ x.σ) (drv0_mom x.k x.θ x.σ) hs (kap_mom x) hD

/-- a coordinate without noise is a function of the time -/
theorem D_X (i : Fin 8) (hi : 3 ≤ i.val) (β γ : ℝ) (hb : bD x.k i = C β * X i + C γ) (c : ℝ → ℝ)
    (hc0 : c 0 = start x.v x.θ i) (hc : ∀ t, 0 ≤ t → HasDerivWithinAt c (β * c t + γ) (Set.Ici t) t)
    (hl : ∀ t, 0 < t → Tendsto c (𝓝[<] t) (𝓝 (c t - jmpAt x (fun j => vec (x.J j, 0) i) t)))
    (t : ℝ) (ht : 0 ≤ t) (f : M8) : D t (X i * f) = c t * D t f := by
  have hsol := D_sol hs hD
  let L : ℝ → M8 →ₗ[ℝ] ℝ := fun t => Real.exp (-β * t) • (D t ∘ₗ LinearMap.mulLeft ℝ (X i) - c t • D t)
  have hE := exp_deriv β
  have hL : SolAt (A0 x.k x.θ x.σ) (jat x.s (kap x) (kap_mom x)) L := by
    constructor
    · intro f t ht
      refine ((hE t).hasDerivWithinAt.mul ((hsol.deriv (X i * f) t ht).sub ((hc t ht).mul
        (hsol.deriv f t ht)))).congr_deriv ?_
      rw [A0_X _ _ _ i hi, hb, add_mul (C β * X i), mul_assoc (C β), ← smul_eq_C_mul (X i * f), ← smul_eq_C_mul f γ]
      simp only [L, map_add, map_smul, LinearMap.sub_apply, LinearMap.smul_apply, LinearMap.comp_apply,
        LinearMap.mulLeft_apply, smul_eq_mul, Pi.mul_apply, Pi.sub_apply]
      ring
    · intro t ht
      obtain ⟨M, hM, e⟩ := hsol.left t ht
      refine ⟨Real.exp (-β * t) • (M ∘ₗ LinearMap.mulLeft ℝ (X i) -
        (c t - jmpAt x (fun j => vec (x.J j, 0) i) t) • M), fun f => ?_, LinearMap.ext fun f => ?_⟩
      · have h1 := (hE t).continuousAt.tendsto.mono_left (nhdsWithin_le_nhds (s := Set.Iio t))
        have h2 := h1.mul ((hM (X i * f)).sub ((hl t ht).mul (hM f)))
        simp only [L, LinearMap.sub_apply, LinearMap.smul_apply, LinearMap.comp_apply, LinearMap.mulLeft_apply,
          smul_eq_mul]
        exact h2
      · simp only [L, e, LinearMap.sub_apply, LinearMap.smul_apply, LinearMap.comp_apply,
          LinearMap.mulLeft_apply, smul_eq_mul]
        rw [jat_X hs, add_mul, map_add, ← smul_eq_C_mul, map_smul, smul_eq_mul]
        ring
  have hL0 : L 0 = 0 := by
    refine LinearMap.ext fun f => ?_
    simp only [L, hD.start, hc0, LinearMap.sub_apply, LinearMap.smul_apply, LinearMap.comp_apply,
      LinearMap.mulLeft_apply, E0D_apply, map_mul, eval_X, smul_eq_mul, LinearMap.zero_apply]
    ring
  have := congrArg (fun l : M8 →ₗ[ℝ] ℝ => l f) (hL.zero (op_lf _ _ _ _ _ (drv0_coef x.k x.θ x.σ).db
    (drv0_coef x.k x.θ x.σ).da) (jat_only _ _ _) hL0 t ht)
  simp only [L, LinearMap.sub_apply, LinearMap.smul_apply, LinearMap.comp_apply, LinearMap.mulLeft_apply,
    smul_eq_mul, LinearMap.zero_apply, mul_eq_zero, Real.exp_ne_zero, false_or] at this
  linarith

omit hs hD in
theorem IEZ_stp (t : ℝ) : x.IEZ t = stp x (fun j => Real.exp (x.k * x.s j) * x.J j) t := rfl

theorem D_X3 (t : ℝ) (ht : 0 ≤ t) (f : M8) : D t (X 3 * f) = Real.exp (-x.k * t) * x.IEZ t * D t f := by
  refine D_X hs hD 3 (by decide) (-x.k) 0 (by simp [bD]) (fun t => Real.exp (-x.k * t) * x.IEZ t) ?_ ?_ ?_ t ht f
  · have : x.IEZ 0 = 0 := sum_eq_zero fun j _ => by rw [if_neg (not_le.2 (hs.pos j))]
    simp [this, start]
  · intro t _
    refine ((exp_deriv x.k t).hasDerivWithinAt.mul (stp_right x _ t)).congr_deriv ?_
    rw [IEZ_stp]
    ring
  · intro t _
    have h1 := (exp_deriv x.k t).continuousAt.tendsto.mono_left (nhdsWithin_le_nhds (s := Set.Iio t))
    have h2 := h1.mul (stp_left x (fun j => Real.exp (x.k * x.s j) * x.J j) t)
    have e : Real.exp (-x.k * t) * (stp x (fun j => Real.exp (x.k * x.s j) * x.J j) t -
        jmpAt x (fun j => Real.exp (x.k * x.s j) * x.J j) t) =
        Real.exp (-x.k * t) * x.IEZ t - jmpAt x (fun j => vec (x.J j, 0) 3) t := by
      rw [IEZ_stp, mul_sub, jmpAt, jmpAt, mul_sum]
      congr 1
      refine sum_congr rfl fun j _ => ?_
      by_cases h : x.s j = t
      · rw [if_pos h, if_pos h, h, ← mul_assoc, ← Real.exp_add]
        simp [vec]
      · rw [if_neg h, if_neg h, mul_zero]
    rw [e] at h2
    exact h2

theorem D_X4 (t : ℝ) (ht : 0 ≤ t) (f : M8) : D t (X 4 * f) = stp x x.J t * D t f := by
  refine D_X hs hD 4 (by decide) 0 0 (by simp [bD]) (stp x x.J) ?_ ?_ ?_ t ht f
  · have : stp x x.J 0 = 0 := sum_eq_zero fun j _ => by rw [if_neg (not_le.2 (hs.pos j))]
    simp [this, start]
  · intro t _
    exact (stp_right x _ t).congr_deriv (by ring)
  · intro t _
    exact stp_left x x.J t

omit hs hD in
theorem jmpAt_zero (i : Fin 8) (hi : ∀ j, vec (x.J j, 0) i = 0) (t : ℝ) :
    jmpAt x (fun j => vec (x.J j, 0) i) t = 0 :=
  sum_eq_zero fun j _ => by simp [hi]

theorem D_X5 (t : ℝ) (ht : 0 ≤ t) (f : M8) : D t (X 5 * f) = 0 := by
  rw [D_X hs hD 5 (by decide) 0 0 (by simp [bD]) (fun _ => 0) ?_ ?_ ?_ t ht f, zero_mul]
  · simp [start]
  · intro t _
    exact (hasDerivWithinAt_const t _ 0).congr_deriv (by ring)
  · intro t _
    rw [jmpAt_zero 5 (fun j => by simp [vec]), sub_zero]
    exact tendsto_const_nhds

theorem D_X6 (t : ℝ) (ht : 0 ≤ t) (f : M8) : D t (X 6 * f) = Real.exp (-x.k * t) * (x.v - x.θ) * D t f := by
  refine D_X hs hD 6 (by decide) (-x.k) 0 (by simp [bD]) (fun t => Real.exp (-x.k * t) * (x.v - x.θ)) ?_ ?_ ?_ t ht f
  · simp [start]
  · intro t _
    exact ((exp_deriv x.k t).hasDerivWithinAt.mul_const _).congr_deriv (by ring)
  · intro t _
    rw [jmpAt_zero 6 (fun j => by simp [vec]), sub_zero]
    exact ((exp_deriv x.k t).continuousAt.mul_const _).tendsto.mono_left nhdsWithin_le_nhds

theorem D_X7 (t : ℝ) (ht : 0 ≤ t) (f : M8) : D t (X 7 * f) = t * D t f := by
  refine D_X hs hD 7 (by decide) 0 1 (by simp [bD]) (fun t => t) ?_ ?_ ?_ t ht f
  · simp [start]
  · intro t _
    exact (hasDerivWithinAt_id t _).congr_deriv (by ring)
  · intro t _
    rw [jmpAt_zero 7 (fun j => by simp [vec]), sub_zero]
    exact tendsto_id.mono_left nhdsWithin_le_nhds

end

end Ajd.CondJ
