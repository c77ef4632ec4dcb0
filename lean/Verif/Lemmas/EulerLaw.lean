import Verif.Lemmas.Gen
import Verif.Lemmas.Flat
import Mathlib.MeasureTheory.Integral.Pi
import Mathlib.Analysis.SpecialFunctions.Sqrt
import Verif.Lemmas.Dyn
import Mathlib.LinearAlgebra.FiniteDimensional.Basic
import Mathlib.LinearAlgebra.Basis.VectorSpace
import Mathlib.MeasureTheory.Integral.Prod

section -- EulerStep

/-! One step of an Euler scheme: expansion in the length of the step. -/

namespace Ajd.Scheme
open MvPolynomial MeasureTheory ProbabilityTheory

variable {α : Type} {σ κ : Type} [Fintype σ] [Fintype κ]

/-! ### growth -/

/-- `1 + |s|^2` -/
noncomputable def U (s : σ → ℝ) : ℝ := 1 + ∑ i, s i ^ 2

theorem one_le_U (s : σ → ℝ) : 1 ≤ U s := le_add_of_nonneg_right (Finset.sum_nonneg fun _ _ => sq_nonneg _)

theorem sq_le_U (s : σ → ℝ) (i : σ) : s i ^ 2 ≤ U s := by
  have := Finset.single_le_sum (f := fun i => s i ^ 2) (fun _ _ => sq_nonneg _) (Finset.mem_univ i)
  rw [U]
  linarith

theorem abs_le_U (s : σ → ℝ) (i : σ) : |s i| ≤ U s := by
  have h := sq_le_U s i
  have h1 := one_le_U s
  refine abs_le.2 ⟨?_, ?_⟩ <;> nlinarith

/-- `F` is bounded by a power of `V` -/
def Gr (V F : α → ℝ) : Prop := ∃ C, ∃ m : ℕ, 0 ≤ C ∧ ∀ a, |F a| ≤ C * V a ^ m

section
variable {V F G : α → ℝ} (hV : ∀ a, 1 ≤ V a)
include hV

theorem Gr.const (c : ℝ) : Gr V fun _ => c := ⟨|c|, 0, abs_nonneg _, fun a => by simp⟩

theorem Gr.add (hF : Gr V F) (hG : Gr V G) : Gr V fun a => F a + G a := by
  obtain ⟨C, m, hC, h⟩ := hF
  obtain ⟨D, n, hD, g⟩ := hG
  refine ⟨C + D, m + n, add_nonneg hC hD, fun a => (abs_add_le _ _).trans ?_⟩
  have h1 : V a ^ m ≤ V a ^ (m + n) := pow_le_pow_right₀ (hV a) (by omega)
  have h2 : V a ^ n ≤ V a ^ (m + n) := pow_le_pow_right₀ (hV a) (by omega)
  rw [add_mul]
  exact add_le_add ((h a).trans (mul_le_mul_of_nonneg_left h1 hC)) ((g a).trans (mul_le_mul_of_nonneg_left h2 hD))

theorem Gr.mul (hF : Gr V F) (hG : Gr V G) : Gr V fun a => F a * G a := by
  obtain ⟨C, m, hC, h⟩ := hF
  obtain ⟨D, n, hD, g⟩ := hG
  refine ⟨C * D, m + n, mul_nonneg hC hD, fun a => ?_⟩
  rw [abs_mul, pow_add, mul_mul_mul_comm]
  exact mul_le_mul (h a) (g a) (abs_nonneg _) (mul_nonneg hC (pow_nonneg (zero_le_one.trans (hV a)) _))

theorem Gr.sum {ι : Type} (t : Finset ι) {F : ι → α → ℝ} (h : ∀ i ∈ t, Gr V (F i)) : Gr V fun a => ∑ i ∈ t, F i a := by
  classical
  induction t using Finset.induction_on with
  | empty => simpa using Gr.const hV 0
  | insert i t hi ih =>
    simp only [Finset.sum_insert hi]
    exact Gr.add hV (h i (Finset.mem_insert_self _ _)) (ih fun j hj => h j (Finset.mem_insert_of_mem hj))

theorem Gr.pow (hF : Gr V F) : ∀ n : ℕ, Gr V fun a => F a ^ n
  | 0 => by simpa using Gr.const hV 1
  | n + 1 => by simpa [pow_succ] using Gr.mul hV (Gr.pow hF n) hF

theorem Gr.U {g : α → σ → ℝ} (h : ∀ i, Gr V fun a => g a i) : Gr V fun a => U (g a) :=
  Gr.add hV (Gr.const hV 1) (Gr.sum hV _ fun i _ => Gr.pow hV (h i) 2)

theorem Gr.eval {g : α → σ → ℝ} (h : ∀ i, Gr V fun a => g a i) (f : MvPolynomial σ ℝ) :
    Gr V fun a => MvPolynomial.eval (g a) f := by
  induction f using MvPolynomial.induction_on with
  | C c => simpa using Gr.const hV c
  | add f g hf hg => simpa using Gr.add hV hf hg
  | mul_X f i hf => simpa using Gr.mul hV hf (h i)

omit hV in
theorem Gr.mono (hG : Gr V G) (h : ∀ a, |F a| ≤ |G a|) : Gr V F := by
  obtain ⟨C, m, hC, g⟩ := hG
  exact ⟨C, m, hC, fun a => (h a).trans (g a)⟩

omit hV in
theorem Gr.self (h : ∀ a, |F a| ≤ V a) : Gr V F := ⟨1, 1, zero_le_one, fun a => by simpa using h a⟩

theorem Gr.sqrt (hF : Gr V F) : Gr V fun a => √(F a) := by
  refine (Gr.add hV (Gr.const hV 1) (Gr.pow hV hF 2)).mono fun a => ?_
  rw [abs_of_nonneg (Real.sqrt_nonneg _), abs_of_nonneg (by positivity)]
  refine Real.sqrt_le_iff.2 ⟨by positivity, ?_⟩
  nlinarith [sq_nonneg (F a - 1), sq_nonneg (F a ^ 2), sq_nonneg (F a)]

end

/-- a polynomial does not change much if its arguments do not -/
theorem eval_lip (f : MvPolynomial σ ℝ) : ∃ C, ∃ m : ℕ, 0 ≤ C ∧ ∀ x y : σ → ℝ,
    |eval y f - eval x f| ≤ C * (U x * U y) ^ m * ∑ i, |y i - x i| := by
  induction f using MvPolynomial.induction_on with
  | C c => exact ⟨0, 0, le_rfl, fun x y => by simp⟩
  | add f g hf hg =>
    obtain ⟨C, m, hC, h⟩ := hf
    obtain ⟨D, n, hD, h'⟩ := hg
    refine ⟨C + D, m + n, add_nonneg hC hD, fun x y => ?_⟩
    have hU : 1 ≤ U x * U y := one_le_mul_of_one_le_of_one_le (one_le_U x) (one_le_U y)
    have h1 : (U x * U y) ^ m ≤ (U x * U y) ^ (m + n) := pow_le_pow_right₀ hU (by omega)
    have h2 : (U x * U y) ^ n ≤ (U x * U y) ^ (m + n) := pow_le_pow_right₀ hU (by omega)
    have hs : 0 ≤ ∑ i, |y i - x i| := Finset.sum_nonneg fun _ _ => abs_nonneg _
    rw [map_add, map_add, add_sub_add_comm, add_mul, add_mul]
    exact (abs_add_le _ _).trans (add_le_add
      ((h x y).trans (mul_le_mul_of_nonneg_right (mul_le_mul_of_nonneg_left h1 hC) hs))
      ((h' x y).trans (mul_le_mul_of_nonneg_right (mul_le_mul_of_nonneg_left h2 hD) hs)))
  | mul_X f i hf =>
    obtain ⟨C, m, hC, h⟩ := hf
    obtain ⟨D, n, hD, h'⟩ := Gr.eval (V := U) (α := σ → ℝ) one_le_U (g := fun a => a)
      (fun i => Gr.self fun a => abs_le_U a i) f
    refine ⟨C + D, m + n + 1, add_nonneg hC hD, fun x y => ?_⟩
    have hx := one_le_U x
    have hy := one_le_U y
    have hU : 1 ≤ U x * U y := one_le_mul_of_one_le_of_one_le hx hy
    have h1 : (U x * U y) ^ (m + 1) ≤ (U x * U y) ^ (m + n + 1) := pow_le_pow_right₀ hU (by omega)
    have h2 : (U x * U y) ^ n ≤ (U x * U y) ^ (m + n + 1) := pow_le_pow_right₀ hU (by omega)
    have hs : 0 ≤ ∑ i, |y i - x i| := Finset.sum_nonneg fun _ _ => abs_nonneg _
    have hxy : U x ≤ U x * U y := le_mul_of_one_le_right (by linarith) hy
    have hyx : U y ≤ U x * U y := le_mul_of_one_le_left (by linarith) hx
    have e : eval y (f * X i) - eval x (f * X i) = (eval y f - eval x f) * y i + eval x f * (y i - x i) := by
      rw [map_mul, map_mul, eval_X, eval_X]; ring
    have e1 : |(eval y f - eval x f) * y i| ≤ C * (U x * U y) ^ (m + 1) * ∑ i, |y i - x i| := by
      rw [abs_mul, pow_succ, ← mul_assoc, mul_right_comm]
      exact mul_le_mul (h x y) ((abs_le_U y i).trans hyx) (abs_nonneg _)
        (mul_nonneg (mul_nonneg hC (by positivity)) hs)
    have e2 : |eval x f * (y i - x i)| ≤ D * (U x * U y) ^ n * ∑ i, |y i - x i| := by
      rw [abs_mul]
      refine mul_le_mul ((h' x).trans (mul_le_mul_of_nonneg_left
        (pow_le_pow_left₀ (by linarith) hxy _) hD)) ?_ (abs_nonneg _) (mul_nonneg hD (by positivity))
      exact Finset.single_le_sum (f := fun i => |y i - x i|) (fun _ _ => abs_nonneg _) (Finset.mem_univ i)
    rw [e, add_mul, add_mul]
    exact (abs_add_le _ _).trans (add_le_add
      (e1.trans (mul_le_mul_of_nonneg_right (mul_le_mul_of_nonneg_left h1 hC) hs))
      (e2.trans (mul_le_mul_of_nonneg_right (mul_le_mul_of_nonneg_left h2 hD) hs)))

/-! ### expansion -/

/-- first derivative along `x` -/
noncomputable def D1 (f : MvPolynomial σ ℝ) (s x : σ → ℝ) : ℝ := ∑ i, x i * eval s (pderiv i f)

/-- second derivative along `x` -/
noncomputable def D2 (f : MvPolynomial σ ℝ) (s x : σ → ℝ) : ℝ := ∑ i, ∑ j, x i * x j * eval s (pderiv i (pderiv j f))

variable [DecidableEq σ]

theorem D1_mul_X (f : MvPolynomial σ ℝ) (l : σ) (s x : σ → ℝ) :
    D1 (f * X l) s x = D1 f s x * s l + eval s f * x l := by
  simp only [D1, pderiv_mul, map_add, map_mul, eval_X, mul_add, Finset.sum_add_distrib, Finset.sum_mul]
  congr 1
  · exact Finset.sum_congr rfl fun i _ => by ring
  · rw [Finset.sum_eq_single l]
    · simp [pderiv_X_self, mul_comm]
    · intro i _ hi
      rw [pderiv_X_of_ne hi.symm]
      simp
    · simp

theorem D2_mul_X (f : MvPolynomial σ ℝ) (l : σ) (s x : σ → ℝ) :
    D2 (f * X l) s x = D2 f s x * s l + 2 * x l * D1 f s x := by
  have h0 : ∀ i j : σ, pderiv i (pderiv j (X l : MvPolynomial σ ℝ)) = 0 := by
    intro i j
    by_cases h : j = l
    · subst h; simp [pderiv_X_self]
    · rw [pderiv_X_of_ne (Ne.symm h)]; simp
  have h1 : ∀ i : σ, eval s (pderiv i (X l : MvPolynomial σ ℝ)) = if i = l then 1 else 0 := by
    intro i
    by_cases h : i = l
    · subst h; simp [pderiv_X_self]
    · rw [pderiv_X_of_ne (Ne.symm h)]; simp [h]
  have e : ∀ i j : σ, x i * x j * eval s (pderiv i (pderiv j (f * X l))) =
      x i * x j * eval s (pderiv i (pderiv j f)) * s l + (if i = l then x l * (x j * eval s (pderiv j f)) else 0) +
        (if j = l then x l * (x i * eval s (pderiv i f)) else 0) := by
    intro i j
    rw [pderiv_mul, map_add, pderiv_mul, pderiv_mul, h0]
    simp only [map_add, map_mul, eval_X, h1, mul_zero, add_zero]
    by_cases hi : i = l <;> by_cases hj : j = l <;> simp [hi, hj] <;> ring
  simp only [D2, e, Finset.sum_add_distrib]
  rw [Finset.sum_comm (f := fun i j => if i = l then x l * (x j * eval s (pderiv j f)) else 0)]
  simp only [Finset.sum_ite_eq', Finset.mem_univ, if_true, ← Finset.mul_sum, ← Finset.sum_mul, D1]
  ring

/-- the data of the expansion: the square root of the length of the step, the state, the noise -/
abbrev Dat (σ : Type) := {e : ℝ // 0 ≤ e ∧ e ≤ 1} × (σ → ℝ) × (σ → ℝ)

/-- the scale for the remainder -/
noncomputable def VD (a : Dat σ) : ℝ := U a.2.1 * U a.2.2

theorem one_le_VD (a : Dat σ) : 1 ≤ VD a := one_le_mul_of_one_le_of_one_le (one_le_U _) (one_le_U _)

theorem gr_e : Gr (VD (σ := σ)) fun a => (a.1 : ℝ) := ⟨1, 0, zero_le_one, fun a => by
  rw [abs_of_nonneg a.1.2.1]; simpa using a.1.2.2⟩

theorem gr_s (i : σ) : Gr (VD (σ := σ)) fun a => a.2.1 i :=
  Gr.self fun a => (abs_le_U _ i).trans (le_mul_of_one_le_right (zero_le_one.trans (one_le_U _)) (one_le_U _))

theorem gr_x (i : σ) : Gr (VD (σ := σ)) fun a => a.2.2 i :=
  Gr.self fun a => (abs_le_U _ i).trans (le_mul_of_one_le_left (zero_le_one.trans (one_le_U _)) (one_le_U _))

theorem gr_D1 (f : MvPolynomial σ ℝ) : Gr (VD (σ := σ)) fun a => D1 f a.2.1 a.2.2 :=
  Gr.sum one_le_VD _ fun i _ => Gr.mul one_le_VD (gr_x i) (Gr.eval one_le_VD gr_s _)

theorem gr_D0 (b : σ → MvPolynomial σ ℝ) (f : MvPolynomial σ ℝ) :
    Gr (VD (σ := σ)) fun a => D1 f a.2.1 fun i => eval a.2.1 (b i) :=
  Gr.sum one_le_VD _ fun i _ => Gr.mul one_le_VD (Gr.eval one_le_VD gr_s _) (Gr.eval one_le_VD gr_s _)

theorem gr_D2 (f : MvPolynomial σ ℝ) : Gr (VD (σ := σ)) fun a => D2 f a.2.1 a.2.2 :=
  Gr.sum one_le_VD _ fun i _ => Gr.sum one_le_VD _ fun j _ => Gr.mul one_le_VD (Gr.mul one_le_VD (gr_x i) (gr_x j))
    (Gr.eval one_le_VD gr_s _)

/-- `f(s + e^2 b(s) + e x)` up to the order `e^3` -/
theorem taylor (b : σ → MvPolynomial σ ℝ) (f : MvPolynomial σ ℝ) : ∃ R : Dat σ → ℝ, Gr VD R ∧ ∀ a : Dat σ,
    eval (fun i => a.2.1 i + (a.1 : ℝ) ^ 2 * eval a.2.1 (b i) + a.1 * a.2.2 i) f = eval a.2.1 f + a.1 * D1 f a.2.1 a.2.2 +
      (a.1 : ℝ) ^ 2 * ((D1 f a.2.1 fun i => eval a.2.1 (b i)) + 1 / 2 * D2 f a.2.1 a.2.2) + (a.1 : ℝ) ^ 3 * R a := by
  induction f using MvPolynomial.induction_on with
  | C c => exact ⟨fun _ => 0, Gr.const one_le_VD 0, fun a => by simp [D1, D2]⟩
  | add f g hf hg =>
    obtain ⟨R, hR, h⟩ := hf
    obtain ⟨R', hR', h'⟩ := hg
    refine ⟨fun a => R a + R' a, Gr.add one_le_VD hR hR', fun a => ?_⟩
    have e1 : ∀ x, D1 (f + g) a.2.1 x = D1 f a.2.1 x + D1 g a.2.1 x := fun x => by
      simp [D1, mul_add, Finset.sum_add_distrib]
    have e2 : D2 (f + g) a.2.1 a.2.2 = D2 f a.2.1 a.2.2 + D2 g a.2.1 a.2.2 := by
      simp [D2, mul_add, Finset.sum_add_distrib]
    rw [map_add, map_add, h, h', e1, e1, e2]
    ring
  | mul_X f l hf =>
    obtain ⟨R, hR, h⟩ := hf
    have hb := Gr.eval one_le_VD (α := Dat σ) gr_s (b l)
    have hq := Gr.add one_le_VD (gr_D0 b f) (Gr.mul one_le_VD (Gr.const one_le_VD (1 / 2)) (gr_D2 f))
    refine ⟨fun a => R a * (a.2.1 l + (a.1 : ℝ) ^ 2 * eval a.2.1 (b l) + a.1 * a.2.2 l) +
      (D1 f a.2.1 a.2.2 * eval a.2.1 (b l) + ((D1 f a.2.1 fun i => eval a.2.1 (b i)) + 1 / 2 * D2 f a.2.1 a.2.2) * a.2.2 l) +
      a.1 * (((D1 f a.2.1 fun i => eval a.2.1 (b i)) + 1 / 2 * D2 f a.2.1 a.2.2) * eval a.2.1 (b l)), ?_, fun a => ?_⟩
    · exact Gr.add one_le_VD (Gr.add one_le_VD
        (Gr.mul one_le_VD hR (Gr.add one_le_VD (Gr.add one_le_VD (gr_s l) (Gr.mul one_le_VD (Gr.pow one_le_VD gr_e 2) hb))
          (Gr.mul one_le_VD gr_e (gr_x l))))
        (Gr.add one_le_VD (Gr.mul one_le_VD (gr_D1 f) hb) (Gr.mul one_le_VD hq (gr_x l))))
        (Gr.mul one_le_VD gr_e (Gr.mul one_le_VD hq hb))
    · rw [map_mul, map_mul, eval_X, eval_X, h, D1_mul_X, D1_mul_X, D2_mul_X]
      ring

/-! ### the noise -/

/-- independent standard normal variables -/
noncomputable def N (κ : Type) [Fintype κ] : Measure (κ → ℝ) := Measure.pi fun _ => gaussianReal 0 1

instance : IsProbabilityMeasure (N κ) := by unfold N; infer_instance

theorem int_mono (m : κ → ℕ) : Integrable (fun z : κ → ℝ => ∏ k, z k ^ m k) (N κ) :=
  Integrable.fintype_prod (f := fun k (x : ℝ) => x ^ m k) fun k => CppDyn.gauss_pow 0 1 (m k)

theorem integral_mono (m : κ → ℕ) : ∫ z : κ → ℝ, ∏ k, z k ^ m k ∂(N κ) = ∏ k, CppDyn.nm 0 1 (m k) :=
  integral_fintype_prod_eq_prod (f := fun k (x : ℝ) => x ^ m k)

theorem momN : Gen.Mom (N κ) := by
  intro f
  simp only [eval_eq']
  exact integrable_finsetSum _ fun m _ => (int_mono fun k => m k).const_mul _

variable [DecidableEq κ]

theorem nm01 : CppDyn.nm 0 1 0 = 1 ∧ CppDyn.nm 0 1 1 = 0 ∧ CppDyn.nm 0 1 2 = 1 := by
  refine ⟨?_, ?_, ?_⟩ <;> simp [Flat.nm_eq_M, Flat.M]

omit [DecidableEq κ] in
theorem int_z (k : κ) : ∫ z : κ → ℝ, z k ∂(N κ) = 0 := by
  classical
  have h := integral_mono (Pi.single k 1 : κ → ℕ)
  rw [Finset.prod_eq_zero (Finset.mem_univ k) (by simpa using nm01.2.1)] at h
  rw [← h]
  refine integral_congr_ae (Filter.Eventually.of_forall fun z => ?_)
  simp only
  rw [Finset.prod_eq_single k (fun i _ hi => by simp [hi]) (by simp)]
  simp

theorem int_zz (k l : κ) : ∫ z : κ → ℝ, z k * z l ∂(N κ) = if k = l then 1 else 0 := by
  have e : ∀ z : κ → ℝ, z k * z l = ∏ i, z i ^ ((Pi.single k 1 : κ → ℕ) i + (Pi.single l 1 : κ → ℕ) i) := by
    intro z
    simp only [pow_add, Finset.prod_mul_distrib]
    rw [Finset.prod_eq_single k (fun i _ hi => by simp [hi]) (by simp),
      Finset.prod_eq_single l (fun i _ hi => by simp [hi]) (by simp)]
    simp
  simp only [e]
  rw [integral_mono]
  split_ifs with h
  · subst h
    refine Finset.prod_eq_one fun i _ => ?_
    by_cases hi : i = k
    · subst hi; simpa using nm01.2.2
    · simpa [hi] using nm01.1
  · exact Finset.prod_eq_zero (Finset.mem_univ k) (by simpa [h] using nm01.2.1)

omit [DecidableEq κ] in
theorem U_int (m : ℕ) : Integrable (fun z : κ → ℝ => U z ^ m) (N κ) := by
  have := momN (κ := κ) ((1 + ∑ i, X i ^ 2) ^ m)
  simpa [U] using this

end Ajd.Scheme

end -- EulerStep

section -- EulerConv

/-! A scheme of steps that approximates a linear differential equation. -/

namespace Ajd.Dyn
open Filter Topology

variable {P : Type} [AddCommGroup P] [Module ℝ P]

/-- the error of one step for the solution itself -/
theorem sol_step {A : P →ₗ[ℝ] P} {E : ℝ → P →ₗ[ℝ] ℝ} (hE : Sol A E) (T : ℝ) (f : P) :
    ∃ C, 0 ≤ C ∧ ∀ t d, 0 ≤ t → 0 ≤ d → t + d ≤ T → |E (t + d) f - E t f - d * E t (A f)| ≤ C * d ^ 2 := by
  have hk : IsCompact (Set.Icc (0 : ℝ) T) := isCompact_Icc
  obtain ⟨C, hC⟩ := hk.exists_bound_of_continuousOn
    ((hE.cont (A (A f))).mono (Set.Icc_subset_Ici_self : Set.Icc 0 T ⊆ _))
  have lip : ∀ g D, (∀ s ∈ Set.Icc (0 : ℝ) T, |E s (A g)| ≤ D) → ∀ t s, 0 ≤ t → t ≤ s → s ≤ T →
      |E s g - E t g| ≤ D * (s - t) := by
    intro g D hD t s ht hts hs
    have := norm_image_sub_le_of_norm_deriv_right_le_segment (a := t) (b := s) (f := fun u => E u g)
      (f' := fun u => E u (A g)) (C := D)
      ((hE.cont g).mono fun u hu => ht.trans hu.1) (fun u hu => (hE g u (ht.trans hu.1)).mono fun w hw =>
        (ht.trans hu.1).trans hw) (fun u hu => hD u ⟨ht.trans hu.1, hu.2.le.trans hs⟩) s ⟨hts, le_rfl⟩
    exact this
  refine ⟨max C 0, le_max_right _ _, fun t d ht hd htd => ?_⟩
  have h1 := lip (A f) (max C 0) fun s hs => (hC s hs).trans (le_max_left _ _)
  have := norm_image_sub_le_of_norm_deriv_right_le_segment (a := t) (b := t + d)
    (f := fun u => E u f - (u - t) * E t (A f)) (f' := fun u => E u (A f) - E t (A f)) (C := max C 0 * d)
    (((hE.cont f).mono fun u hu => ht.trans hu.1).sub (by fun_prop))
    (fun u hu => by
      have h2 := (hE f u (ht.trans hu.1)).mono (fun w hw => (ht.trans hu.1).trans hw : Set.Ici u ⊆ Set.Ici 0)
      have h3 := (((hasDerivWithinAt_id u (Set.Ici u)).sub_const t).mul_const (E t (A f)))
      rw [one_mul] at h3
      exact h2.sub h3)
    (fun u hu => by
      refine (h1 t u ht hu.1 (hu.2.le.trans htd)).trans ?_
      exact mul_le_mul_of_nonneg_left (by linarith [hu.2]) (le_max_right _ _)) (t + d) ⟨by linarith, le_rfl⟩
  simp only [sub_self, zero_mul, sub_zero, add_sub_cancel_left, Real.norm_eq_abs] at this
  rw [sub_right_comm, pow_two, ← mul_assoc]
  exact this

theorem gronwall (D c : ℕ → ℝ) (K : ℝ) (hK : 0 ≤ K) (hc : ∀ j, 0 ≤ c j) (n : ℕ)
    (h : ∀ j < n, D (j + 1) ≤ (1 + K) * D j + c j) (h0 : 0 ≤ D 0) :
    ∀ j ≤ n, D j ≤ Real.exp (K * j) * (D 0 + ∑ i ∈ Finset.range j, c i) := by
  intro j
  induction j with
  | zero => simp
  | succ j ih =>
    intro hj
    have h1 := ih (by omega)
    have h2 := h j (by omega)
    have h3 : (1 + K) * Real.exp (K * j) ≤ Real.exp (K * (j + 1 : ℕ)) := by
      rw [show K * ((j + 1 : ℕ) : ℝ) = K + K * j by push_cast; ring, Real.exp_add]
      exact mul_le_mul_of_nonneg_right (by linarith [Real.add_one_le_exp K]) (Real.exp_nonneg _)
    have h4 : (1 : ℝ) ≤ Real.exp (K * (j + 1 : ℕ)) := Real.one_le_exp (by positivity)
    have hs : 0 ≤ D 0 + ∑ i ∈ Finset.range j, c i := add_nonneg h0 (Finset.sum_nonneg fun i _ => hc i)
    rw [Finset.sum_range_succ]
    calc D (j + 1) ≤ (1 + K) * (Real.exp (K * j) * (D 0 + ∑ i ∈ Finset.range j, c i)) + c j :=
          h2.trans (add_le_add_left (mul_le_mul_of_nonneg_left h1 (by linarith)) _)
      _ = (1 + K) * Real.exp (K * j) * (D 0 + ∑ i ∈ Finset.range j, c i) + 1 * c j := by ring
      _ ≤ Real.exp (K * (j + 1 : ℕ)) * (D 0 + ∑ i ∈ Finset.range j, c i) + Real.exp (K * (j + 1 : ℕ)) * c j :=
          add_le_add (mul_le_mul_of_nonneg_right h3 hs) (mul_le_mul_of_nonneg_right h4 (hc j))
      _ = _ := by ring

/-- If the errors of `n` steps of length `T / n` add up to something small, the scheme converges. -/
theorem conv_sol {A : P →ₗ[ℝ] P} (hA : LF A) {E : ℝ → P →ₗ[ℝ] ℝ} (hE : Sol A E) (T : ℝ) (hT : 0 ≤ T)
    (u : ℕ → ℕ → P →ₗ[ℝ] ℝ) (h0 : ∀ f, Tendsto (fun n => u n 0 f) atTop (𝓝 (E 0 f))) (η : P → ℕ → ℕ → ℝ)
    (hη0 : ∀ f n j, 0 ≤ η f n j)
    (hstep : ∀ f, ∀ᶠ n in atTop, ∀ j < n, |u n (j + 1) f - u n j f - T / n * u n j (A f)| ≤ η f n j)
    (hη : ∀ f, Tendsto (fun n => ∑ j ∈ Finset.range n, η f n j) atTop (𝓝 0)) (f : P) :
    Tendsto (fun n => u n n f) atTop (𝓝 (E T f)) := by
  obtain ⟨W, hW, hf, hinv⟩ := hA f
  let B := Module.finBasis ℝ W
  let d := Module.finrank ℝ W
  let a : Fin d → Fin d → ℝ := fun i j => B.repr ⟨A (B i), hinv _ (B i).2⟩ j
  have hexp : ∀ (L : P →ₗ[ℝ] ℝ) (w : W), L w = ∑ j, B.repr w j * L (B j) := by
    intro L w
    have := congrArg (fun v : W => L v) (B.sum_repr w)
    simp only [Submodule.coe_sum, Submodule.coe_smul, map_sum, map_smul, smul_eq_mul] at this
    exact this.symm
  have ha : ∀ (L : P →ₗ[ℝ] ℝ) i, L (A (B i)) = ∑ j, a i j * L (B j) := fun L i => hexp L ⟨A (B i), hinv _ (B i).2⟩
  choose C hC0 hC using fun i => sol_step hE T (B i : P)
  set K := ∑ i, ∑ j, |a i j| with hKdef
  have hK : 0 ≤ K := Finset.sum_nonneg fun i _ => Finset.sum_nonneg fun j _ => abs_nonneg _
  let D : ℕ → ℕ → ℝ := fun n j => ∑ i, |u n j (B i) - E (T / n * j) (B i)|
  let c : ℕ → ℕ → ℝ := fun n j => ∑ i, (η (B i) n j + C i * (T / n) ^ 2)
  have hc : ∀ n j, 0 ≤ c n j := fun n j => Finset.sum_nonneg fun i _ =>
    add_nonneg (hη0 _ _ _) (mul_nonneg (hC0 i) (sq_nonneg _))
  have hD : ∀ᶠ n in atTop, ∀ j < n, D n (j + 1) ≤ (1 + K * (T / n)) * D n j + c n j := by
    filter_upwards [eventually_all.2 fun i => hstep (B i : P), eventually_gt_atTop 0] with n hn hn0 j hj
    have hn0' : (0 : ℝ) < n := by exact_mod_cast hn0
    have hd : 0 ≤ T / n := by positivity
    have ht : 0 ≤ T / n * j := by positivity
    have htT : T / n * j + T / n ≤ T := by
      have : (j : ℝ) + 1 ≤ n := by exact_mod_cast hj
      calc T / n * j + T / n = T / n * (j + 1) := by ring
        _ ≤ T / n * n := mul_le_mul_of_nonneg_left this hd
        _ = T := by field_simp
    have key : ∀ i, |u n (j + 1) (B i) - E (T / n * (j + 1 : ℕ)) (B i)| ≤ |u n j (B i) - E (T / n * j) (B i)| +
        T / n * (∑ l, |a i l| * |u n j (B l) - E (T / n * j) (B l)|) + (η (B i) n j + C i * (T / n) ^ 2) := by
      intro i
      have e1 := hn i j hj
      have e2 := hC i (T / n * j) (T / n) ht hd htT
      rw [show T / n * j + T / n = T / n * ((j + 1 : ℕ) : ℝ) by push_cast; ring] at e2
      have e3 : |u n j (A (B i)) - E (T / n * j) (A (B i))| ≤ ∑ l, |a i l| * |u n j (B l) - E (T / n * j) (B l)| := by
        rw [ha, ha, ← Finset.sum_sub_distrib]
        refine (Finset.abs_sum_le_sum_abs _ _).trans (Finset.sum_le_sum fun l _ => ?_)
        rw [← mul_sub, abs_mul]
      have e4 : u n (j + 1) (B i) - E (T / n * (j + 1 : ℕ)) (B i) =
          (u n (j + 1) (B i) - u n j (B i) - T / n * u n j (A (B i))) -
          (E (T / n * (j + 1 : ℕ)) (B i) - E (T / n * j) (B i) - T / n * E (T / n * j) (A (B i))) +
          (u n j (B i) - E (T / n * j) (B i)) + T / n * (u n j (A (B i)) - E (T / n * j) (A (B i))) := by ring
      rw [e4]
      refine (abs_add_le _ _).trans ?_
      refine (add_le_add_left ((abs_add_le _ _).trans (add_le_add_left (abs_sub _ _) _)) _).trans ?_
      rw [abs_mul, abs_of_nonneg hd]
      have := mul_le_mul_of_nonneg_left e3 hd
      linarith
    refine (Finset.sum_le_sum fun i _ => key i).trans ?_
    rw [Finset.sum_add_distrib, Finset.sum_add_distrib, ← Finset.mul_sum]
    have h5 : ∑ i, ∑ l, |a i l| * |u n j (B l) - E (T / n * j) (B l)| ≤ K * D n j := by
      rw [hKdef, Finset.sum_mul]
      refine Finset.sum_le_sum fun i _ => ?_
      rw [Finset.sum_mul]
      refine Finset.sum_le_sum fun l _ => mul_le_mul_of_nonneg_left ?_ (abs_nonneg _)
      exact Finset.single_le_sum (f := fun l => |u n j (B l) - E (T / n * j) (B l)|) (fun _ _ => abs_nonneg _)
        (Finset.mem_univ l)
    have := mul_le_mul_of_nonneg_left h5 hd
    change D n j + T / n * _ + c n j ≤ _
    linarith
  have hsum : Tendsto (fun n => ∑ j ∈ Finset.range n, c n j) atTop (𝓝 0) := by
    have e : ∀ n, ∑ j ∈ Finset.range n, c n j =
        ∑ i, (∑ j ∈ Finset.range n, η (B i) n j + C i * (n * (T / n) ^ 2)) := by
      intro n
      simp only [c]
      rw [Finset.sum_comm]
      refine Finset.sum_congr rfl fun i _ => ?_
      rw [Finset.sum_add_distrib, Finset.sum_const, Finset.card_range, nsmul_eq_mul]
      ring
    have h6 : Tendsto (fun n : ℕ => (n : ℝ) * (T / n) ^ 2) atTop (𝓝 0) := by
      refine (tendsto_const_div_atTop_nhds_zero_nat (T ^ 2)).congr' ?_
      filter_upwards [eventually_gt_atTop 0] with n hn
      have : (n : ℝ) ≠ 0 := by exact_mod_cast hn.ne'
      field_simp
    simp only [e]
    rw [show (0 : ℝ) = ∑ i : Fin d, (0 + C i * 0) by simp]
    exact tendsto_finset_sum _ fun i _ => (hη _).add (h6.const_mul _)
  have hD0 : Tendsto (fun n => D n 0) atTop (𝓝 0) := by
    rw [show (0 : ℝ) = ∑ i : Fin d, |E 0 (B i) - E 0 (B i)| by simp]
    refine tendsto_finset_sum _ fun i _ => ?_
    simp only [Nat.cast_zero, mul_zero]
    exact ((h0 _).sub_const _).abs
  have hDn : Tendsto (fun n => D n n) atTop (𝓝 0) := by
    have hup : Tendsto (fun n => Real.exp (K * T) * (D n 0 + ∑ j ∈ Finset.range n, c n j)) atTop (𝓝 0) := by
      simpa using (hD0.add hsum).const_mul (Real.exp (K * T))
    refine tendsto_of_tendsto_of_tendsto_of_le_of_le' tendsto_const_nhds hup
      (Eventually.of_forall fun n => Finset.sum_nonneg fun i _ => abs_nonneg _) ?_
    filter_upwards [hD, eventually_gt_atTop 0] with n hn hn0
    have hn0' : (0 : ℝ) < n := by exact_mod_cast hn0
    have := gronwall (D n) (c n) (K * (T / n)) (by positivity) (hc n) n hn
      (Finset.sum_nonneg fun i _ => abs_nonneg _) n le_rfl
    rwa [show K * (T / n) * n = K * T by field_simp] at this
  have hfin : ∀ᶠ n : ℕ in atTop, |u n n f - E T f| ≤ (∑ j, |B.repr ⟨f, hf⟩ j|) * D n n := by
    filter_upwards [eventually_gt_atTop 0] with n hn0
    have hn0' : (n : ℝ) ≠ 0 := by exact_mod_cast hn0.ne'
    have e1 := hexp (u n n) ⟨f, hf⟩
    have e2 := hexp (E T) ⟨f, hf⟩
    simp only at e1 e2
    rw [e1, e2, ← Finset.sum_sub_distrib, Finset.sum_mul]
    refine (Finset.abs_sum_le_sum_abs _ _).trans (Finset.sum_le_sum fun l _ => ?_)
    rw [← mul_sub, abs_mul]
    refine mul_le_mul_of_nonneg_left ?_ (abs_nonneg _)
    have := Finset.single_le_sum (f := fun l => |u n n (B l) - E (T / n * n) (B l)|) (fun _ _ => abs_nonneg _)
      (Finset.mem_univ l)
    simp only [D]
    rwa [div_mul_cancel₀ _ hn0'] at this ⊢
  have h7 := hDn.const_mul (∑ j, |B.repr ⟨f, hf⟩ j|)
  rw [mul_zero] at h7
  exact tendsto_sub_nhds_zero_iff.1 (squeeze_zero_norm' (f := fun n => u n n f - E T f) hfin h7)

end Ajd.Dyn

end -- EulerConv

section -- EulerLaw

/-! The law of an Euler scheme for a diffusion, with some coordinates replaced by 0 when they become negative. -/

namespace Ajd.Scheme
open MvPolynomial MeasureTheory ProbabilityTheory Filter Topology

variable {σ κ : Type} [Fintype σ] [Fintype κ]

/-- `dx = b(x) dt + r diag(√w(x)) dw` -/
structure Sch (σ κ : Type) where
  /-- drift -/
  b : σ → MvPolynomial σ ℝ
  /-- loadings of the noises -/
  r : σ → κ → ℝ
  /-- their variances -/
  w : κ → MvPolynomial σ ℝ
  /-- the coordinates that are kept from becoming negative -/
  T : σ → Bool

namespace Sch
variable (S : Sch σ κ)

/-- the states of the scheme -/
def Pos (s : σ → ℝ) : Prop := ∀ i, S.T i = true → 0 ≤ s i

/-- what is needed of the coefficients: linear growth, and variances that are not negative -/
structure Ok : Prop where
  b : ∃ K, 0 ≤ K ∧ ∀ s i, eval s (S.b i) ^ 2 ≤ K * U s
  w : ∃ K, 0 ≤ K ∧ ∀ s k, eval s (S.w k) ≤ K * U s
  pos : ∀ s, S.Pos s → ∀ k, 0 ≤ eval s (S.w k)
  db : ∀ i, (S.b i).totalDegree ≤ 1
  dw : ∀ k, (S.w k).totalDegree ≤ 1

/-- the noise of a step -/
noncomputable def xi (s : σ → ℝ) (z : κ → ℝ) (i : σ) : ℝ := ∑ k, S.r i k * (√(eval s (S.w k)) * z k)

/-- a step of length `e^2`, before negative coordinates are replaced -/
noncomputable def pre (e : ℝ) (s : σ → ℝ) (z : κ → ℝ) (i : σ) : ℝ := s i + e ^ 2 * eval s (S.b i) + e * S.xi s z i

/-- replace negative coordinates -/
noncomputable def trunc (x : σ → ℝ) (i : σ) : ℝ := if S.T i then max (x i) 0 else x i

/-- a step of length `e^2` -/
noncomputable def step (e : ℝ) (s : σ → ℝ) (z : κ → ℝ) : σ → ℝ := S.trunc (S.pre e s z)

/-- the law after some steps -/
noncomputable def law (e : ℝ) (μ : Measure (σ → ℝ)) : ℕ → Measure (σ → ℝ)
  | 0 => μ
  | j + 1 => ((law e μ j).prod (N κ)).map fun q => S.step e q.1 q.2

/-- the covariance -/
noncomputable def a (i j : σ) : MvPolynomial σ ℝ := ∑ k, C (S.r i k * S.r j k) * S.w k

theorem pos_trunc (x : σ → ℝ) : S.Pos (S.trunc x) := by
  intro i hi
  rw [trunc, if_pos hi]
  exact le_max_right _ _

theorem abs_trunc (x : σ → ℝ) (i : σ) : |S.trunc x i| ≤ |x i| := by
  rw [trunc]
  split_ifs
  · rcases le_total (x i) 0 with h | h
    · rw [max_eq_right h, abs_zero]; exact abs_nonneg _
    · rw [max_eq_left h]
  · exact le_rfl

theorem U_trunc (x : σ → ℝ) : U (S.trunc x) ≤ U x :=
  add_le_add_right (Finset.sum_le_sum fun i _ => sq_le_sq.2 (S.abs_trunc x i)) 1

theorem cont_pre (e : ℝ) : Continuous fun q : (σ → ℝ) × (κ → ℝ) => S.pre e q.1 q.2 := by
  refine continuous_pi fun i => ?_
  have h : ∀ f : MvPolynomial σ ℝ, Continuous fun q : (σ → ℝ) × (κ → ℝ) => eval q.1 f := fun f =>
    (MvPolynomial.continuous_eval f).comp continuous_fst
  unfold pre xi
  refine ((by fun_prop : Continuous fun q : (σ → ℝ) × (κ → ℝ) => q.1 i).add (continuous_const.mul (h _))).add ?_
  refine continuous_const.mul (continuous_finset_sum _ fun k _ => continuous_const.mul ?_)
  exact ((h _).sqrt).mul (by fun_prop)

theorem cont_trunc : Continuous S.trunc := by
  refine continuous_pi fun i => ?_
  unfold trunc
  split_ifs <;> fun_prop

theorem cont_step (e : ℝ) : Continuous fun q : (σ → ℝ) × (κ → ℝ) => S.step e q.1 q.2 :=
  S.cont_trunc.comp (S.cont_pre e)

end Sch

/-- a probability law on the states of the scheme, with all moments -/
structure Good (S : Sch σ κ) (μ : Measure (σ → ℝ)) : Prop where
  prob : IsProbabilityMeasure μ
  int : ∀ m : ℕ, Integrable (fun s => U s ^ m) μ
  pos : ∀ᵐ s ∂μ, S.Pos s

theorem meas_U (m : ℕ) : Measurable fun s : σ → ℝ => U s ^ m := by unfold U; fun_prop

/-- the scale for functions of the state and the noise -/
noncomputable def VS (q : (σ → ℝ) × (κ → ℝ)) : ℝ := U q.1 * U q.2

theorem one_le_VS (q : (σ → ℝ) × (κ → ℝ)) : 1 ≤ VS q := one_le_mul_of_one_le_of_one_le (one_le_U _) (one_le_U _)

section
variable (S : Sch σ κ)

theorem gr_fst (i : σ) : Gr (VS (σ := σ) (κ := κ)) fun q => q.1 i :=
  Gr.self fun a => (abs_le_U _ i).trans (le_mul_of_one_le_right (zero_le_one.trans (one_le_U _)) (one_le_U _))

theorem gr_snd (k : κ) : Gr (VS (σ := σ) (κ := κ)) fun q => q.2 k :=
  Gr.self fun a => (abs_le_U _ k).trans (le_mul_of_one_le_left (zero_le_one.trans (one_le_U _)) (one_le_U _))

theorem gr_xi (i : σ) : Gr (VS (σ := σ) (κ := κ)) fun q => S.xi q.1 q.2 i :=
  Gr.sum one_le_VS _ fun k _ => Gr.mul one_le_VS (Gr.const one_le_VS _) (Gr.mul one_le_VS
    (Gr.sqrt one_le_VS (Gr.eval one_le_VS gr_fst _)) (gr_snd k))

theorem gr_pre (e : ℝ) (i : σ) : Gr (VS (σ := σ) (κ := κ)) fun q => S.pre e q.1 q.2 i :=
  Gr.add one_le_VS (Gr.add one_le_VS (gr_fst i) (Gr.mul one_le_VS (Gr.const one_le_VS _) (Gr.eval one_le_VS gr_fst _)))
    (Gr.mul one_le_VS (Gr.const one_le_VS _) (gr_xi S i))

theorem int_VS {μ : Measure (σ → ℝ)} (hμ : Good S μ) (m : ℕ) : Integrable (fun q => VS q ^ m) (μ.prod (N κ)) := by
  have := hμ.prob
  simp only [VS, mul_pow]
  exact Integrable.mul_prod (hμ.int m) (U_int m)

theorem int_gr {μ : Measure (σ → ℝ)} (hμ : Good S μ) {F : (σ → ℝ) × (κ → ℝ) → ℝ} (hF : Gr VS F) (hm : Measurable F) :
    Integrable F (μ.prod (N κ)) := by
  obtain ⟨C, m, _, h⟩ := hF
  refine Integrable.mono' ((int_VS S hμ m).const_mul C) hm.aestronglyMeasurable (Filter.Eventually.of_forall fun q => ?_)
  exact h q

theorem meas_eval_pre (e : ℝ) (f : MvPolynomial σ ℝ) : Measurable fun q : (σ → ℝ) × (κ → ℝ) => eval (S.pre e q.1 q.2) f :=
  ((MvPolynomial.continuous_eval f).comp (S.cont_pre e)).measurable

theorem meas_eval_step (e : ℝ) (f : MvPolynomial σ ℝ) : Measurable fun q : (σ → ℝ) × (κ → ℝ) => eval (S.step e q.1 q.2) f :=
  ((MvPolynomial.continuous_eval f).comp (S.cont_step e)).measurable

theorem gr_eval_pre (e : ℝ) (f : MvPolynomial σ ℝ) : Gr (VS (σ := σ) (κ := κ)) fun q => eval (S.pre e q.1 q.2) f :=
  Gr.eval one_le_VS (gr_pre S e) f

theorem gr_eval_step (e : ℝ) (f : MvPolynomial σ ℝ) : Gr (VS (σ := σ) (κ := κ)) fun q => eval (S.step e q.1 q.2) f :=
  Gr.eval one_le_VS (fun i => (gr_pre S e i).mono fun q => S.abs_trunc _ i) f

/-- `1 + |s|^2` as a polynomial -/
noncomputable def Upol (σ : Type) [Fintype σ] (m : ℕ) : MvPolynomial σ ℝ := (1 + ∑ i, X i ^ 2) ^ m

theorem eval_Upol (m : ℕ) (s : σ → ℝ) : eval s (Upol σ m) = U s ^ m := by simp [Upol, U]

theorem Good.mom {μ : Measure (σ → ℝ)} (hμ : Good S μ) : Gen.Mom μ := by
  intro f
  obtain ⟨C, m, _, h⟩ := Gr.eval (V := U) (α := σ → ℝ) one_le_U (g := fun a => a)
    (fun i => Gr.self fun a => abs_le_U a i) f
  exact Integrable.mono' ((hμ.int m).const_mul C) (MvPolynomial.continuous_eval f).measurable.aestronglyMeasurable
    (Filter.Eventually.of_forall h)

theorem good_law (e : ℝ) {μ : Measure (σ → ℝ)} (hμ : Good S μ) : ∀ j, Good S (S.law e μ j)
  | 0 => hμ
  | j + 1 => by
    have ih := good_law e hμ j
    have := ih.prob
    have hm := (S.cont_step e).measurable
    refine ⟨Measure.isProbabilityMeasure_map hm.aemeasurable, fun m => ?_, ?_⟩
    · rw [Sch.law, integrable_map_measure (meas_U m).aestronglyMeasurable hm.aemeasurable]
      have h := int_gr S ih (gr_eval_step S e (Upol σ m)) (meas_eval_step S e _)
      simp only [eval_Upol] at h
      exact h
    · rw [Sch.law]
      have hset : MeasurableSet {s | S.Pos s} := by
        have : {s | S.Pos s} = ⋂ i, {s : σ → ℝ | S.T i = true → 0 ≤ s i} := by ext s; simp [Sch.Pos]
        rw [this]
        refine MeasurableSet.iInter fun i => ?_
        by_cases h : S.T i = true
        · simp only [h, forall_const]
          exact measurableSet_le measurable_const (measurable_pi_apply i)
        · simp [h]
      rw [ae_map_iff hm.aemeasurable hset]
      exact Filter.Eventually.of_forall fun q => S.pos_trunc _

/-- a polynomial after a step -/
theorem integral_law (e : ℝ) (μ : Measure (σ → ℝ)) (j : ℕ) (f : MvPolynomial σ ℝ) :
    ∫ s, eval s f ∂(S.law e μ (j + 1)) = ∫ q, eval (S.step e q.1 q.2) f ∂((S.law e μ j).prod (N κ)) := by
  rw [Sch.law, integral_map (S.cont_step e).measurable.aemeasurable
    (MvPolynomial.continuous_eval f).measurable.aestronglyMeasurable]

/-! ### the noise of a step -/

variable (hS : S.Ok)

theorem xi_eq (s : σ → ℝ) (z : κ → ℝ) (i : σ) : S.xi s z i = ∑ k, (S.r i k * √(eval s (S.w k))) * z k :=
  Finset.sum_congr rfl fun k _ => by ring

theorem int_zk (k : κ) : Integrable (fun z : κ → ℝ => z k) (N κ) := by
  simpa using momN (κ := κ) (X k)

theorem int_zkl (k l : κ) : Integrable (fun z : κ → ℝ => z k * z l) (N κ) := by
  have h := momN (κ := κ) (X k * X l)
  simp only [eval_mul, eval_X] at h
  exact h

theorem integral_xi (s : σ → ℝ) (i : σ) : Integrable (fun z => S.xi s z i) (N κ) ∧ ∫ z, S.xi s z i ∂(N κ) = 0 := by
  simp only [xi_eq]
  refine ⟨integrable_finsetSum _ fun k _ => (int_zk k).const_mul _, ?_⟩
  rw [integral_finsetSum _ fun k _ => (int_zk k).const_mul _]
  exact Finset.sum_eq_zero fun k _ => by rw [integral_const_mul, int_z, mul_zero]

include hS in
theorem integral_xixi (s : σ → ℝ) (hs : S.Pos s) (i j : σ) :
    Integrable (fun z => S.xi s z i * S.xi s z j) (N κ) ∧ ∫ z, S.xi s z i * S.xi s z j ∂(N κ) = eval s (S.a i j) := by
  classical
  have e : ∀ z, S.xi s z i * S.xi s z j = ∑ k, ∑ l, ((S.r i k * √(eval s (S.w k))) * (S.r j l * √(eval s (S.w l)))) *
      (z k * z l) := fun z => by
    rw [xi_eq, xi_eq, Finset.sum_mul_sum]
    exact Finset.sum_congr rfl fun k _ => Finset.sum_congr rfl fun l _ => by ring
  simp only [e]
  refine ⟨integrable_finsetSum _ fun k _ => integrable_finsetSum _ fun l _ => (int_zkl k l).const_mul _, ?_⟩
  rw [integral_finsetSum _ fun k _ => integrable_finsetSum _ fun l _ => (int_zkl k l).const_mul _, Sch.a, map_sum]
  refine Finset.sum_congr rfl fun k _ => ?_
  rw [integral_finsetSum _ fun l _ => (int_zkl k l).const_mul _]
  simp only [integral_const_mul, int_zz]
  simp only [mul_ite, mul_one, mul_zero, Finset.sum_ite_eq, Finset.mem_univ, if_true, map_mul, eval_C]
  rw [show S.r i k * √(eval s (S.w k)) * (S.r j k * √(eval s (S.w k))) = S.r i k * S.r j k *
    (√(eval s (S.w k)) * √(eval s (S.w k))) by ring, Real.mul_self_sqrt (hS.pos s hs k)]

/-- the generator -/
noncomputable def Sch.gen (f : MvPolynomial σ ℝ) : MvPolynomial σ ℝ :=
  ∑ i, S.b i * pderiv i f + (1 / 2 : ℝ) • ∑ i, ∑ j, S.a i j * pderiv i (pderiv j f)

include hS in
/-- the mean of a polynomial after a step without replacement -/
theorem step_exp (f : MvPolynomial σ ℝ) : ∃ C, ∃ m : ℕ, 0 ≤ C ∧ ∀ e, 0 ≤ e → e ≤ 1 → ∀ s, S.Pos s →
    |∫ z, eval (S.pre e s z) f ∂(N κ) - eval s f - e ^ 2 * eval s (S.gen f)| ≤ C * e ^ 3 * U s ^ m := by
  classical
  obtain ⟨R, ⟨C, m, hC, hR⟩, hT⟩ := taylor S.b f
  obtain ⟨C', m', hC', hx⟩ := Gr.U one_le_VS (gr_xi S)
  have hU0 : ∀ s : σ → ℝ, 0 ≤ U s := fun s => zero_le_one.trans (one_le_U s)
  have hz0 : ∀ s : κ → ℝ, 0 ≤ U s := fun s => zero_le_one.trans (one_le_U s)
  refine ⟨C * C' ^ m * ∫ z : κ → ℝ, U z ^ (m' * m) ∂(N κ), m + m' * m,
    mul_nonneg (by positivity) (integral_nonneg fun z => pow_nonneg (hz0 z) _), fun e he he1 s hs => ?_⟩
  have hbound : ∀ z : κ → ℝ, |R (⟨e, he, he1⟩, s, S.xi s z)| ≤ C * C' ^ m * U s ^ (m + m' * m) * U z ^ (m' * m) := by
    intro z
    refine (hR _).trans ?_
    have h1 := hx (s, z)
    rw [abs_of_nonneg (hU0 _)] at h1
    simp only [VS, VD] at h1 ⊢
    calc C * (U s * U (S.xi s z)) ^ m ≤ C * (U s * (C' * (U s * U z) ^ m')) ^ m :=
          mul_le_mul_of_nonneg_left (pow_le_pow_left₀ (mul_nonneg (hU0 _) (hU0 _))
            (mul_le_mul_of_nonneg_left h1 (hU0 _)) m) hC
      _ = _ := by ring
  have hpre : ∀ z, eval (S.pre e s z) f = (eval s f + e * D1 f s (S.xi s z) +
      e ^ 2 * ((D1 f s fun i => eval s (S.b i)) + 1 / 2 * D2 f s (S.xi s z))) + e ^ 3 * R (⟨e, he, he1⟩, s, S.xi s z) :=
    fun z => hT (⟨e, he, he1⟩, s, S.xi s z)
  have i1 : Integrable (fun z => D1 f s (S.xi s z)) (N κ) := by
    unfold D1
    exact integrable_finsetSum _ fun i _ => (integral_xi S s i).1.mul_const _
  have i2 : Integrable (fun z => D2 f s (S.xi s z)) (N κ) := by
    unfold D2
    exact integrable_finsetSum _ fun i _ => integrable_finsetSum _ fun j _ => (integral_xixi S hS s hs i j).1.mul_const _
  have v1 : ∫ z, D1 f s (S.xi s z) ∂(N κ) = 0 := by
    unfold D1
    rw [integral_finsetSum _ fun i _ => (integral_xi S s i).1.mul_const _]
    exact Finset.sum_eq_zero fun i _ => by rw [integral_mul_const, (integral_xi S s i).2, zero_mul]
  have v2 : ∫ z, D2 f s (S.xi s z) ∂(N κ) = ∑ i, ∑ j, eval s (S.a i j) * eval s (pderiv i (pderiv j f)) := by
    unfold D2
    rw [integral_finsetSum _ fun i _ => integrable_finsetSum _ fun j _ => (integral_xixi S hS s hs i j).1.mul_const _]
    refine Finset.sum_congr rfl fun i _ => ?_
    rw [integral_finsetSum _ fun j _ => (integral_xixi S hS s hs i j).1.mul_const _]
    exact Finset.sum_congr rfl fun j _ => by rw [integral_mul_const, (integral_xixi S hS s hs i j).2]
  have ip : Integrable (fun z => eval (S.pre e s z) f) (N κ) := by
    obtain ⟨C, m, _, h⟩ := gr_eval_pre S e f
    refine Integrable.mono' (((U_int (κ := κ) m).const_mul (C * U s ^ m))) ((meas_eval_pre S e f).comp
      (measurable_const.prodMk measurable_id)).aestronglyMeasurable (Filter.Eventually.of_forall fun z => ?_)
    have := h (s, z)
    rw [VS, mul_pow, ← mul_assoc] at this
    exact this
  have i3 : Integrable (fun z => eval s f + e * D1 f s (S.xi s z) +
      e ^ 2 * ((D1 f s fun i => eval s (S.b i)) + 1 / 2 * D2 f s (S.xi s z))) (N κ) :=
    ((integrable_const _).add (i1.const_mul e)).add (((integrable_const _).add (i2.const_mul _)).const_mul _)
  have i4 : Integrable (fun z => e ^ 3 * R (⟨e, he, he1⟩, s, S.xi s z)) (N κ) := by
    refine (ip.sub i3).congr (Filter.Eventually.of_forall fun z => ?_)
    simp only [Pi.sub_apply, hpre z]
    ring
  have v3 : ∫ z, (eval s f + e * D1 f s (S.xi s z) +
      e ^ 2 * ((D1 f s fun i => eval s (S.b i)) + 1 / 2 * D2 f s (S.xi s z))) ∂(N κ) = eval s f + e ^ 2 * eval s (S.gen f) := by
    have j1 : Integrable (fun z => eval s f + e * D1 f s (S.xi s z)) (N κ) := (integrable_const _).add (i1.const_mul e)
    have j2 : Integrable (fun z => (D1 f s fun i => eval s (S.b i)) + 1 / 2 * D2 f s (S.xi s z)) (N κ) :=
      (integrable_const _).add (i2.const_mul _)
    rw [integral_add j1 (j2.const_mul _), integral_add (integrable_const _) (i1.const_mul e), integral_const_mul,
      integral_const_mul, integral_add (integrable_const _) (i2.const_mul _), integral_const_mul, v1, v2]
    simp [Sch.gen, D1]
  have hval : ∫ z, eval (S.pre e s z) f ∂(N κ) - eval s f - e ^ 2 * eval s (S.gen f) =
      ∫ z, e ^ 3 * R (⟨e, he, he1⟩, s, S.xi s z) ∂(N κ) := by
    simp only [hpre]
    rw [integral_add i3 i4, v3]
    ring
  rw [hval, ← Real.norm_eq_abs]
  refine (norm_integral_le_of_norm_le (g := fun z => e ^ 3 * (C * C' ^ m * U s ^ (m + m' * m) * U z ^ (m' * m)))
    (((U_int _).const_mul _).const_mul _) (Filter.Eventually.of_forall fun z => ?_)).trans (le_of_eq ?_)
  · rw [Real.norm_eq_abs, abs_mul, abs_of_nonneg (by positivity : (0 : ℝ) ≤ e ^ 3)]
    exact mul_le_mul_of_nonneg_left (hbound z) (by positivity)
  · rw [integral_const_mul, integral_const_mul]
    ring

end

end Ajd.Scheme

end -- EulerLaw
