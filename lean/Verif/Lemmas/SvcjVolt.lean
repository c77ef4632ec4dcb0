import Verif.Lemmas.IezizizDiff
import Verif.Lemmas.Ieziziz2
import Mathlib.MeasureTheory.Integral.IntervalIntegral.FundThmCalculus

/-!
The differential equations of the joint moments of `(IE, I, I*, IEZ, IZ, IZ*)`, and their integrated form, in
which `mdl_svcj/cond_ieii_ieziziz_mom.py` computes them.
-/

namespace Ajd.SvcjI
open MvPolynomial Ieziziz Finset

theorem tri (m : ℕ) (A : ℕ → ℕ → ℕ → ℝ) :
    ∑ i ∈ range (m + 1), ∑ j ∈ range (m - i + 1), (m.choose i * (m - i).choose j : ℝ) * A j (m - i - j) i =
      ∑ i ∈ range (m + 1), ∑ j ∈ range (i + 1), (m.choose i * i.choose j : ℝ) * A j (m - i) (i - j) := by
  rw [sum_sigma', sum_sigma']
  refine sum_bij' (fun x _ => ⟨x.1 + x.2, x.2⟩) (fun x _ => ⟨x.1 - x.2, x.2⟩) ?_ ?_ ?_ ?_ ?_
  · rintro ⟨i, j⟩ h; simp only [mem_sigma, mem_range] at h ⊢; omega
  · rintro ⟨i, j⟩ h; simp only [mem_sigma, mem_range] at h ⊢; omega
  · rintro ⟨i, j⟩ h; simp
  · rintro ⟨i, j⟩ h
    simp only [mem_sigma, mem_range] at h
    simp only [Sigma.mk.injEq, heq_eq_eq, and_true]; omega
  · rintro ⟨i, j⟩ h
    simp only [mem_sigma, mem_range] at h ⊢
    have h1 : m.choose (i + j) * (i + j).choose i = m.choose i * (m - i).choose (i + j - i) :=
      Nat.choose_mul (by omega)
    rw [Nat.add_sub_cancel_left, Nat.choose_symm_add] at h1
    rw [show m - (i + j) = m - i - j by omega, Nat.add_sub_cancel]
    congr 1
    exact_mod_cast h1.symm

theorem reorder (R1 R2 R3 : Finset ℕ) (r1 r2 r3 : ℕ → Finset ℕ) (F : ℕ → ℕ → ℕ → ℕ → ℕ → ℕ → ℝ) :
    ∑ i1 ∈ R1, ∑ i2 ∈ R2, ∑ i3 ∈ R3, ∑ j1 ∈ r1 i1, ∑ j2 ∈ r2 i2, ∑ j3 ∈ r3 i3, F i1 i2 i3 j1 j2 j3 =
      ∑ i1 ∈ R1, ∑ j1 ∈ r1 i1, ∑ i2 ∈ R2, ∑ j2 ∈ r2 i2, ∑ i3 ∈ R3, ∑ j3 ∈ r3 i3, F i1 i2 i3 j1 j2 j3 := by
  refine sum_congr rfl fun i1 _ => ?_
  calc _ = ∑ i2 ∈ R2, ∑ j1 ∈ r1 i1, ∑ i3 ∈ R3, ∑ j2 ∈ r2 i2, ∑ j3 ∈ r3 i3, F i1 i2 i3 j1 j2 j3 :=
        sum_congr rfl fun i2 _ => sum_comm
    _ = ∑ j1 ∈ r1 i1, ∑ i2 ∈ R2, ∑ i3 ∈ R3, ∑ j2 ∈ r2 i2, ∑ j3 ∈ r3 i3, F i1 i2 i3 j1 j2 j3 := sum_comm
    _ = _ := sum_congr rfl fun j1 _ => sum_congr rfl fun i2 _ => sum_comm

/-- the same for three indices -/
theorem tri3 (a b d : ℕ) (A : ℕ → ℕ → ℕ → ℕ → ℕ → ℕ → ℕ → ℕ → ℕ → ℝ) :
    ∑ i1 ∈ range (a + 1), ∑ i2 ∈ range (b + 1), ∑ i3 ∈ range (d + 1),
      ∑ j1 ∈ range (a - i1 + 1), ∑ j2 ∈ range (b - i2 + 1), ∑ j3 ∈ range (d - i3 + 1),
        (a.choose i1 * (a - i1).choose j1 : ℝ) * ((b.choose i2 * (b - i2).choose j2 : ℝ) *
          ((d.choose i3 * (d - i3).choose j3 : ℝ) *
            A j1 j2 j3 (a - i1 - j1) (b - i2 - j2) (d - i3 - j3) i1 i2 i3)) =
    ∑ i1 ∈ range (a + 1), ∑ i2 ∈ range (b + 1), ∑ i3 ∈ range (d + 1),
      ∑ j1 ∈ range (i1 + 1), ∑ j2 ∈ range (i2 + 1), ∑ j3 ∈ range (i3 + 1),
        (a.choose i1 * i1.choose j1 : ℝ) * ((b.choose i2 * i2.choose j2 : ℝ) *
          ((d.choose i3 * i3.choose j3 : ℝ) *
            A j1 j2 j3 (a - i1) (b - i2) (d - i3) (i1 - j1) (i2 - j2) (i3 - j3))) := by
  rw [reorder (range (a + 1)) (range (b + 1)) (range (d + 1)) (fun i => range (a - i + 1))
      (fun i => range (b - i + 1)) (fun i => range (d - i + 1)),
    reorder (range (a + 1)) (range (b + 1)) (range (d + 1)) (fun i => range (i + 1))
      (fun i => range (i + 1)) (fun i => range (i + 1))]
  simp only [← mul_sum]
  have e := tri a fun x1 y1 z1 => ∑ i2 ∈ range (b + 1), ∑ j2 ∈ range (b - i2 + 1),
    (b.choose i2 * (b - i2).choose j2 : ℝ) * ∑ i3 ∈ range (d + 1), ∑ j3 ∈ range (d - i3 + 1),
      (d.choose i3 * (d - i3).choose j3 : ℝ) * A x1 j2 j3 y1 (b - i2 - j2) (d - i3 - j3) z1 i2 i3
  rw [e]
  refine sum_congr rfl fun i1 _ => sum_congr rfl fun j1 _ => ?_
  congr 1
  have e := tri b fun x2 y2 z2 => ∑ i3 ∈ range (d + 1), ∑ j3 ∈ range (d - i3 + 1),
      (d.choose i3 * (d - i3).choose j3 : ℝ) * A j1 x2 j3 (a - i1) y2 (d - i3 - j3) (i1 - j1) z2 i3
  rw [e]
  refine sum_congr rfl fun i2 _ => sum_congr rfl fun j2 _ => ?_
  congr 1
  exact tri d fun x3 y3 z3 => A j1 j2 x3 (a - i1) (b - i2) y3 (i1 - j1) (i2 - j2) z3

/-- the moments of a jump at time `s`, times the intensity -/
noncomputable def cJ (p : Par) (s : ℝ) (n : N3) : ℝ :=
  p.lmbd * Real.exp (n.1 * p.k * s) * ((n.1 + n.2.1).factorial * p.mu_v ^ (n.1 + n.2.1)) *
    gaussMom p.mu_s (p.sigma_s ^ 2).toNNReal n.2.2

/-- `E[IEZ_{s,t}^a IZ_{s,t}^b IZ*_{s,t}^d]` -/
noncomputable def Z (p : Par) (a b d : ℕ) (s t : ℝ) : ℝ := aeval (kapZ p s t) (G a b d)

theorem kapZ_deriv (p : Par) (hk : p.k ≠ 0) (s t : ℝ) (n : N3) :
    HasDerivAt (fun s => kapZ p s t n) (-cJ p s n) s := by
  unfold kapZ cJ
  have h : HasDerivAt (fun s => intE p.k s t n.1) (-Real.exp (n.1 * p.k * s)) s := by
    unfold intE
    by_cases h0 : n.1 = 0
    · simp only [h0, if_true, Nat.cast_zero, zero_mul, Real.exp_zero]
      simpa using (hasDerivAt_id s).const_sub t
    · simp only [if_neg h0]
      have hn : (n.1 : ℝ) ≠ 0 := by exact_mod_cast h0
      have h1 : HasDerivAt (fun s : ℝ => n.1 * p.k * s) (n.1 * p.k) s := by
        simpa using (hasDerivAt_id s).const_mul (n.1 * p.k)
      refine ((h1.exp.const_sub (Real.exp (n.1 * p.k * t))).div_const (n.1 * p.k)).congr_deriv ?_
      field_simp
  refine (((h.const_mul p.lmbd).mul_const _).mul_const _).congr_deriv ?_
  ring

theorem Z_deriv (p : Par) (hk : p.k ≠ 0) (a b d : ℕ) (s t : ℝ) : HasDerivAt (fun s => Z p a b d s t)
    (cJ p s 0 * Z p a b d s t -
      ∑ i ∈ range (a + 1), ∑ j ∈ range (b + 1), ∑ l ∈ range (d + 1),
        (a.choose i * b.choose j * d.choose l : ℝ) * (cJ p s (i, j, l) * Z p (a - i) (b - j) (d - l) s t)) s := by
  refine (hasDerivAt_G (fun s => kapZ p s t) (fun n => -cJ p s n) s (kapZ_deriv p hk s t) a b d).congr_deriv ?_
  simp only [neg_mul, mul_neg, sum_neg_distrib]
  unfold Z
  ring

theorem Z_diag (p : Par) (a b d : ℕ) (t : ℝ) : Z p a b d t t = if a = 0 ∧ b = 0 ∧ d = 0 then 1 else 0 := by
  have hz : kapZ p t t = fun _ => 0 := by
    funext n; unfold kapZ intE; split <;> simp
  have := G_unique (kapZ p t t) (fun a b d => if a = 0 ∧ b = 0 ∧ d = 0 then 1 else 0) (by simp) (by
    intro a b c p' q r h1
    rw [if_neg (by omega)]
    symm
    refine sum_eq_zero fun i _ => sum_eq_zero fun j _ => sum_eq_zero fun l _ => ?_
    rw [hz]; simp) a b d
  exact this

/-- families of moments, indexed by the powers of `IE, I, I*, IEZ, IZ, IZ*` -/
abbrev Fam := ℕ → ℕ → ℕ → ℕ → ℕ → ℕ → ℝ → ℝ

/-- the moment of `e^{kt} v_t` times the variables, where `e^{kt} v_t = (v_0 - θ) + θ e^{kt} + σ IE_t + IEZ_t` -/
noncomputable def VV (k v0 θ σ : ℝ) (N : Fam) (n1 n2 n3 n4 n5 n6 : ℕ) (t : ℝ) : ℝ :=
  (v0 - θ) * N n1 n2 n3 n4 n5 n6 t + θ * Real.exp (k * t) * N n1 n2 n3 n4 n5 n6 t +
    σ * N (n1 + 1) n2 n3 n4 n5 n6 t + N n1 n2 n3 (n4 + 1) n5 n6 t

/-- the diffusion part of the derivative of a moment -/
noncomputable def FF (k v0 θ σ : ℝ) (N : Fam) (n1 n2 n3 n4 n5 n6 : ℕ) (t : ℝ) : ℝ :=
  (n1 : ℝ) * (n1 - 1) / 2 * (Real.exp (k * t) * VV k v0 θ σ N (n1 - 2) n2 n3 n4 n5 n6 t) +
  (n2 : ℝ) * (n2 - 1) / 2 * (Real.exp (-k * t) * VV k v0 θ σ N n1 (n2 - 2) n3 n4 n5 n6 t) +
  (n1 : ℝ) * n2 * VV k v0 θ σ N (n1 - 1) (n2 - 1) n3 n4 n5 n6 t +
  (n3 : ℝ) * (n3 - 1) / 2 * (Real.exp (-k * t) * VV k v0 θ σ N n1 n2 (n3 - 2) n4 n5 n6 t)

/-- the differential equations -/
structure JSys (p : Par) (v0 θ σ : ℝ) (N : Fam) : Prop where
  init : ∀ n1 n2 n3 n4 n5 n6, N n1 n2 n3 n4 n5 n6 0 =
    if n1 = 0 ∧ n2 = 0 ∧ n3 = 0 ∧ n4 = 0 ∧ n5 = 0 ∧ n6 = 0 then 1 else 0
  ode : ∀ n1 n2 n3 n4 n5 n6 t, 0 ≤ t → HasDerivWithinAt (N n1 n2 n3 n4 n5 n6)
    (FF p.k v0 θ σ N n1 n2 n3 n4 n5 n6 t +
      (∑ i ∈ range (n4 + 1), ∑ j ∈ range (n5 + 1), ∑ l ∈ range (n6 + 1),
        (n4.choose i * n5.choose j * n6.choose l : ℝ) *
          (cJ p t (i, j, l) * N n1 n2 n3 (n4 - i) (n5 - j) (n6 - l) t) -
        cJ p t 0 * N n1 n2 n3 n4 n5 n6 t)) (Set.Ici 0) t

theorem JSys.cont {p : Par} {v0 θ σ : ℝ} {N : Fam} (h : JSys p v0 θ σ N) (n1 n2 n3 n4 n5 n6 : ℕ) :
    ContinuousOn (N n1 n2 n3 n4 n5 n6) (Set.Ici 0) :=
  fun t ht => (h.ode n1 n2 n3 n4 n5 n6 t ht).continuousWithinAt

theorem JSys.FF_cont {p : Par} {v0 θ σ : ℝ} {N : Fam} (h : JSys p v0 θ σ N) (n1 n2 n3 n4 n5 n6 : ℕ) :
    ContinuousOn (FF p.k v0 θ σ N n1 n2 n3 n4 n5 n6) (Set.Ici 0) := by
  have hc := h.cont
  unfold FF VV
  fun_prop (disch := assumption)

/-- The integrated form. -/
theorem JSys.volt {p : Par} (hk : p.k ≠ 0) {v0 θ σ : ℝ} {N : Fam} (h : JSys p v0 θ σ N) (n1 n2 n3 a b d : ℕ)
    (t : ℝ) (ht : 0 ≤ t) : N n1 n2 n3 a b d t =
      (if n1 = 0 ∧ n2 = 0 ∧ n3 = 0 then Z p a b d 0 t else 0) +
      ∑ i1 ∈ range (a + 1), ∑ i2 ∈ range (b + 1), ∑ i3 ∈ range (d + 1),
        (a.choose i1 * b.choose i2 * d.choose i3 : ℝ) *
          ∫ s in (0 : ℝ)..t, Z p (a - i1) (b - i2) (d - i3) s t * FF p.k v0 θ σ N n1 n2 n3 i1 i2 i3 s := by
  let φ : ℝ → ℝ := fun s => ∑ i1 ∈ range (a + 1), ∑ i2 ∈ range (b + 1), ∑ i3 ∈ range (d + 1),
    (a.choose i1 * b.choose i2 * d.choose i3 : ℝ) * (Z p (a - i1) (b - i2) (d - i3) s t * N n1 n2 n3 i1 i2 i3 s)
  let ψ : ℝ → ℝ := fun s => ∑ i1 ∈ range (a + 1), ∑ i2 ∈ range (b + 1), ∑ i3 ∈ range (d + 1),
    (a.choose i1 * b.choose i2 * d.choose i3 : ℝ) *
      (Z p (a - i1) (b - i2) (d - i3) s t * FF p.k v0 θ σ N n1 n2 n3 i1 i2 i3 s)
  have hd : ∀ s, 0 ≤ s → HasDerivWithinAt φ (ψ s) (Set.Ici 0) s := by
    intro s hs
    have h1 : HasDerivWithinAt φ (∑ i1 ∈ range (a + 1), ∑ i2 ∈ range (b + 1), ∑ i3 ∈ range (d + 1),
        (a.choose i1 * b.choose i2 * d.choose i3 : ℝ) *
          ((cJ p s 0 * Z p (a - i1) (b - i2) (d - i3) s t -
            ∑ i ∈ range (a - i1 + 1), ∑ j ∈ range (b - i2 + 1), ∑ l ∈ range (d - i3 + 1),
              ((a - i1).choose i * (b - i2).choose j * (d - i3).choose l : ℝ) *
                (cJ p s (i, j, l) * Z p (a - i1 - i) (b - i2 - j) (d - i3 - l) s t)) * N n1 n2 n3 i1 i2 i3 s +
            Z p (a - i1) (b - i2) (d - i3) s t * (FF p.k v0 θ σ N n1 n2 n3 i1 i2 i3 s +
              (∑ i ∈ range (i1 + 1), ∑ j ∈ range (i2 + 1), ∑ l ∈ range (i3 + 1),
                (i1.choose i * i2.choose j * i3.choose l : ℝ) *
                  (cJ p s (i, j, l) * N n1 n2 n3 (i1 - i) (i2 - j) (i3 - l) s) -
                cJ p s 0 * N n1 n2 n3 i1 i2 i3 s)))) (Set.Ici 0) s := by
      refine HasDerivWithinAt.fun_sum fun i1 _ => HasDerivWithinAt.fun_sum fun i2 _ =>
        HasDerivWithinAt.fun_sum fun i3 _ => ?_
      exact ((Z_deriv p hk _ _ _ s t).hasDerivWithinAt.mul (h.ode n1 n2 n3 i1 i2 i3 s hs)).const_mul _
    refine h1.congr_deriv ?_
    have e := tri3 a b d fun j1 j2 j3 m1 m2 m3 i1 i2 i3 =>
      cJ p s (j1, j2, j3) * Z p m1 m2 m3 s t * N n1 n2 n3 i1 i2 i3 s
    rw [← sub_eq_zero] at e ⊢
    rw [← sum_sub_distrib] at e ⊢
    rw [← neg_eq_zero, ← sum_neg_distrib] at e
    refine Eq.trans (sum_congr rfl fun i1 _ => ?_) e
    simp only [← sum_sub_distrib, ← sum_neg_distrib]
    refine sum_congr rfl fun i2 _ => sum_congr rfl fun i3 _ => ?_
    have e1 : ∑ i ∈ range (a - i1 + 1), ∑ j ∈ range (b - i2 + 1), ∑ l ∈ range (d - i3 + 1),
        (a.choose i1 * (a - i1).choose i : ℝ) * ((b.choose i2 * (b - i2).choose j : ℝ) *
          ((d.choose i3 * (d - i3).choose l : ℝ) *
            (cJ p s (i, j, l) * Z p (a - i1 - i) (b - i2 - j) (d - i3 - l) s t * N n1 n2 n3 i1 i2 i3 s))) =
        (a.choose i1 * b.choose i2 * d.choose i3 : ℝ) *
          ((∑ i ∈ range (a - i1 + 1), ∑ j ∈ range (b - i2 + 1), ∑ l ∈ range (d - i3 + 1),
              ((a - i1).choose i * (b - i2).choose j * (d - i3).choose l : ℝ) *
                (cJ p s (i, j, l) * Z p (a - i1 - i) (b - i2 - j) (d - i3 - l) s t)) * N n1 n2 n3 i1 i2 i3 s) := by
      simp only [mul_sum, sum_mul]
      refine sum_congr rfl fun i _ => sum_congr rfl fun j _ => sum_congr rfl fun l _ => ?_
      ring
    have e2 : ∑ i ∈ range (i1 + 1), ∑ j ∈ range (i2 + 1), ∑ l ∈ range (i3 + 1),
        (a.choose i1 * i1.choose i : ℝ) * ((b.choose i2 * i2.choose j : ℝ) *
          ((d.choose i3 * i3.choose l : ℝ) *
            (cJ p s (i, j, l) * Z p (a - i1) (b - i2) (d - i3) s t *
              N n1 n2 n3 (i1 - i) (i2 - j) (i3 - l) s))) =
        (a.choose i1 * b.choose i2 * d.choose i3 : ℝ) * (Z p (a - i1) (b - i2) (d - i3) s t *
          (∑ i ∈ range (i1 + 1), ∑ j ∈ range (i2 + 1), ∑ l ∈ range (i3 + 1),
                (i1.choose i * i2.choose j * i3.choose l : ℝ) *
                  (cJ p s (i, j, l) * N n1 n2 n3 (i1 - i) (i2 - j) (i3 - l) s))) := by
      simp only [mul_sum]
      refine sum_congr rfl fun i _ => sum_congr rfl fun j _ => sum_congr rfl fun l _ => ?_
      ring
    rw [e1, e2]
    ring
  have hZc : ∀ x y z : ℕ, Continuous fun s => Z p x y z s t := fun x y z =>
    continuous_iff_continuousAt.2 fun s => (Z_deriv p hk x y z s t).continuousAt
  have hterm : ∀ i1 i2 i3, ContinuousOn (fun s => Z p (a - i1) (b - i2) (d - i3) s t *
      FF p.k v0 θ σ N n1 n2 n3 i1 i2 i3 s) (Set.Ici 0) := fun i1 i2 i3 =>
    (hZc _ _ _).continuousOn.mul (h.FF_cont n1 n2 n3 i1 i2 i3)
  have hint : ∀ i1 i2 i3, IntervalIntegrable (fun s => Z p (a - i1) (b - i2) (d - i3) s t *
      FF p.k v0 θ σ N n1 n2 n3 i1 i2 i3 s) MeasureTheory.volume 0 t := fun i1 i2 i3 => by
    apply ContinuousOn.intervalIntegrable
    rw [Set.uIcc_of_le ht]
    exact (hterm i1 i2 i3).mono Set.Icc_subset_Ici_self
  have hψi : IntervalIntegrable ψ MeasureTheory.volume 0 t := by
    apply ContinuousOn.intervalIntegrable
    rw [Set.uIcc_of_le ht]
    refine ContinuousOn.mono ?_ (Set.Icc_subset_Ici_self : Set.Icc 0 t ⊆ Set.Ici 0)
    refine continuousOn_finsetSum _ fun i1 _ => continuousOn_finsetSum _ fun i2 _ =>
      continuousOn_finsetSum _ fun i3 _ => ?_
    exact continuousOn_const.mul (hterm i1 i2 i3)
  have hftc := intervalIntegral.integral_eq_sub_of_hasDeriv_right_of_le ht
    (fun s hs => ((hd s hs.1).continuousWithinAt).mono (Set.Icc_subset_Ici_self : Set.Icc 0 t ⊆ Set.Ici 0))
    (fun s hs => (hd s hs.1.le).mono (fun u hu => le_of_lt (lt_trans hs.1 hu))) hψi
  have hψ : ∫ s in (0 : ℝ)..t, ψ s = ∑ i1 ∈ range (a + 1), ∑ i2 ∈ range (b + 1), ∑ i3 ∈ range (d + 1),
        (a.choose i1 * b.choose i2 * d.choose i3 : ℝ) *
          ∫ s in (0 : ℝ)..t, Z p (a - i1) (b - i2) (d - i3) s t * FF p.k v0 θ σ N n1 n2 n3 i1 i2 i3 s := by
    have i3' : ∀ i1 i2, ∀ i3 ∈ range (d + 1), IntervalIntegrable (fun s =>
        (a.choose i1 * b.choose i2 * d.choose i3 : ℝ) * (Z p (a - i1) (b - i2) (d - i3) s t *
      FF p.k v0 θ σ N n1 n2 n3 i1 i2 i3 s)) MeasureTheory.volume 0 t := fun i1 i2 i3 _ => (hint i1 i2 i3).const_mul _
    have i2' : ∀ i1, ∀ i2 ∈ range (b + 1), IntervalIntegrable (fun s => ∑ i3 ∈ range (d + 1),
        (a.choose i1 * b.choose i2 * d.choose i3 : ℝ) * (Z p (a - i1) (b - i2) (d - i3) s t *
      FF p.k v0 θ σ N n1 n2 n3 i1 i2 i3 s)) MeasureTheory.volume 0 t := fun i1 i2 _ => by
      have := IntervalIntegrable.sum (range (d + 1)) (i3' i1 i2)
      simpa [Finset.sum_fn] using this
    have i1' : ∀ i1 ∈ range (a + 1), IntervalIntegrable (fun s => ∑ i2 ∈ range (b + 1), ∑ i3 ∈ range (d + 1),
        (a.choose i1 * b.choose i2 * d.choose i3 : ℝ) * (Z p (a - i1) (b - i2) (d - i3) s t *
      FF p.k v0 θ σ N n1 n2 n3 i1 i2 i3 s)) MeasureTheory.volume 0 t := fun i1 _ => by
      have := IntervalIntegrable.sum (range (b + 1)) (i2' i1)
      simpa [Finset.sum_fn] using this
    show ∫ s in (0 : ℝ)..t, ∑ i1 ∈ range (a + 1), ∑ i2 ∈ range (b + 1), ∑ i3 ∈ range (d + 1), _ = _
    rw [intervalIntegral.integral_finsetSum i1']
    refine sum_congr rfl fun i1 _ => ?_
    rw [intervalIntegral.integral_finsetSum (i2' i1)]
    refine sum_congr rfl fun i2 _ => ?_
    rw [intervalIntegral.integral_finsetSum (i3' i1 i2)]
    refine sum_congr rfl fun i3 _ => ?_
    rw [intervalIntegral.integral_const_mul]
  have hφt : φ t = N n1 n2 n3 a b d t := by
    show ∑ i1 ∈ range (a + 1), ∑ i2 ∈ range (b + 1), ∑ i3 ∈ range (d + 1), _ = _
    rw [sum_eq_single a, sum_eq_single b, sum_eq_single d]
    · simp [Z_diag]
    · intro i h1 h2
      have := mem_range.1 h1
      rw [Z_diag, if_neg (by omega)]; simp
    · intro h; simp at h
    · intro i h1 h2
      have := mem_range.1 h1
      refine sum_eq_zero fun j _ => ?_
      rw [Z_diag, if_neg (by omega)]; simp
    · intro h; simp at h
    · intro i h1 h2
      have := mem_range.1 h1
      refine sum_eq_zero fun j _ => sum_eq_zero fun l _ => ?_
      rw [Z_diag, if_neg (by omega)]; simp
    · intro h; simp at h
  have hφ0 : φ 0 = if n1 = 0 ∧ n2 = 0 ∧ n3 = 0 then Z p a b d 0 t else 0 := by
    show ∑ i1 ∈ range (a + 1), ∑ i2 ∈ range (b + 1), ∑ i3 ∈ range (d + 1), _ = _
    rw [sum_eq_single 0, sum_eq_single 0, sum_eq_single 0]
    · rw [h.init]
      by_cases hn : n1 = 0 ∧ n2 = 0 ∧ n3 = 0
      · rw [if_pos hn, if_pos (by tauto)]; simp
      · rw [if_neg hn, if_neg (by tauto)]; simp
    · intro i h1 h2
      rw [h.init, if_neg (by omega)]; simp
    · intro h; simp at h
    · intro i h1 h2
      refine sum_eq_zero fun j _ => ?_
      rw [h.init, if_neg (by omega)]; simp
    · intro h; simp at h
    · intro i h1 h2
      refine sum_eq_zero fun j _ => sum_eq_zero fun l _ => ?_
      rw [h.init, if_neg (by omega)]; simp
    · intro h; simp at h
  rw [← hψ, hftc, hφt, hφ0]
  ring

end Ajd.SvcjI
