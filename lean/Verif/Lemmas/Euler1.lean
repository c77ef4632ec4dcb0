import Verif.Lemmas.EulerProc
import Verif.Props.FsvSde
import Verif.Props.Euler

/-! The generators `r1FSV` and `r1FSV_iid` as Euler schemes. -/

namespace Ajd.Euler
open MvPolynomial MeasureTheory ProbabilityTheory Filter Topology Scheme Spec

variable (p : Fsv1.Par)

/-- the scheme for the variance and the return -/
noncomputable def S1 : Sch (Fin 2) (Fin 2) where
  b := ![C p.k * (C p.θ - X 0), C p.μ - C (1 / 2) * X 0]
  r := ![![p.σ, 0], ![p.ρ, √(1 - p.ρ ^ 2)]]
  w := fun _ => X 0
  T := ![true, false]

/-- the scheme for the variance and two returns in a row, during the second -/
noncomputable def S2 : Sch (Fin 3) (Fin 2) where
  b := ![C p.k * (C p.θ - X 0), 0, C p.μ - C (1 / 2) * X 0]
  r := ![![p.σ, 0], ![0, 0], ![p.ρ, √(1 - p.ρ ^ 2)]]
  w := fun _ => X 0
  T := ![true, false, false]

theorem lin_sq {σ : Type} [Fintype σ] (a b : ℝ) (s : σ → ℝ) (i : σ) : (a + b * s i) ^ 2 ≤ (2 * a ^ 2 + 2 * b ^ 2) * U s := by
  have h1 := one_le_U s
  have h2 := sq_le_U s i
  nlinarith [sq_nonneg (a - b * s i), mul_le_mul_of_nonneg_left h1 (sq_nonneg a), mul_le_mul_of_nonneg_left h2 (sq_nonneg b)]

theorem deg_lin2 {n : ℕ} (a b : ℝ) (i : Fin n) : (C a - C b * X i : MvPolynomial (Fin n) ℝ).totalDegree ≤ 1 := by
  refine (totalDegree_sub _ _).trans (max_le (by simp) ((totalDegree_mul _ _).trans (by simp)))

theorem deg_lin3 {n : ℕ} (a b : ℝ) (i : Fin n) : (C a * (C b - X i) : MvPolynomial (Fin n) ℝ).totalDegree ≤ 1 := by
  refine (totalDegree_mul _ _).trans ?_
  have : (C b - X i : MvPolynomial (Fin n) ℝ).totalDegree ≤ 1 := (totalDegree_sub _ _).trans (by simp)
  rw [totalDegree_C]
  omega

theorem ok1 : (S1 p).Ok where
  b := by
    refine ⟨(2 * (p.k * p.θ) ^ 2 + 2 * (-p.k) ^ 2) + (2 * p.μ ^ 2 + 2 * (-1 / 2) ^ 2), by positivity, fun s i => ?_⟩
    have h0 : 0 ≤ U s := zero_le_one.trans (one_le_U s)
    have h1 := lin_sq (p.k * p.θ) (-p.k) s 0
    have h2 := lin_sq p.μ (-1 / 2) s 0
    have h3 : 0 ≤ (2 * (p.k * p.θ) ^ 2 + 2 * (-p.k) ^ 2) * U s := by positivity
    have h4 : 0 ≤ (2 * p.μ ^ 2 + 2 * (-1 / 2) ^ 2) * U s := by positivity
    fin_cases i
    · simp only [S1, Fin.zero_eta, Matrix.cons_val, map_mul, map_sub, eval_C, eval_X]
      rw [show p.k * (p.θ - s 0) = p.k * p.θ + -p.k * s 0 by ring]
      linarith
    · simp only [S1, Fin.mk_one, Matrix.cons_val, map_mul, map_sub, eval_C, eval_X]
      rw [show p.μ - 1 / 2 * s 0 = p.μ + -1 / 2 * s 0 by ring]
      linarith
  w := ⟨1, zero_le_one, fun s k => by
    simp only [S1, eval_X, one_mul]
    exact (le_abs_self _).trans (abs_le_U s 0)⟩
  pos s hs k := by
    simp only [S1, eval_X]
    exact hs 0 rfl
  db i := by
    fin_cases i
    · exact deg_lin3 _ _ _
    · exact deg_lin2 _ _ _
  dw k := by simp [S1]

theorem ok2 : (S2 p).Ok where
  b := by
    refine ⟨(2 * (p.k * p.θ) ^ 2 + 2 * (-p.k) ^ 2) + (2 * p.μ ^ 2 + 2 * (-1 / 2) ^ 2), by positivity, fun s i => ?_⟩
    have h0 : 0 ≤ U s := zero_le_one.trans (one_le_U s)
    have h1 := lin_sq (p.k * p.θ) (-p.k) s 0
    have h2 := lin_sq p.μ (-1 / 2) s 0
    have h3 : 0 ≤ (2 * (p.k * p.θ) ^ 2 + 2 * (-p.k) ^ 2) * U s := by positivity
    have h4 : 0 ≤ (2 * p.μ ^ 2 + 2 * (-1 / 2) ^ 2) * U s := by positivity
    fin_cases i
    · simp only [S2, Fin.zero_eta, Matrix.cons_val, map_mul, map_sub, eval_C, eval_X]
      rw [show p.k * (p.θ - s 0) = p.k * p.θ + -p.k * s 0 by ring]
      linarith
    · simp only [S2, Fin.mk_one, Matrix.cons_val, map_zero]
      rw [zero_pow two_ne_zero]
      linarith
    · simp only [S2, Fin.reduceFinMk, Matrix.cons_val, map_mul, map_sub, eval_C, eval_X]
      rw [show p.μ - 1 / 2 * s 0 = p.μ + -1 / 2 * s 0 by ring]
      linarith
  w := ⟨1, zero_le_one, fun s k => by
    simp only [S2, eval_X, one_mul]
    exact (le_abs_self _).trans (abs_le_U s 0)⟩
  pos s hs k := by
    simp only [S2, eval_X]
    exact hs 0 rfl
  db i := by
    fin_cases i
    · exact deg_lin3 _ _ _
    · simp [S2]
    · exact deg_lin2 _ _ _
  dw k := by simp [S2]

theorem xi1_0 (s : Fin 2 → ℝ) (z : Fin 2 → ℝ) : (S1 p).xi s z 0 = p.σ * (√(s 0) * z 0) := by
  simp [Sch.xi, S1, Fin.sum_univ_two]

theorem xi1_1 (s : Fin 2 → ℝ) (z : Fin 2 → ℝ) :
    (S1 p).xi s z 1 = p.ρ * (√(s 0) * z 0) + √(1 - p.ρ ^ 2) * (√(s 0) * z 1) := by
  simp [Sch.xi, S1, Fin.sum_univ_two]

theorem xi2_0 (s : Fin 3 → ℝ) (z : Fin 2 → ℝ) : (S2 p).xi s z 0 = p.σ * (√(s 0) * z 0) := by
  simp [Sch.xi, S2, Fin.sum_univ_two]

theorem xi2_1 (s : Fin 3 → ℝ) (z : Fin 2 → ℝ) : (S2 p).xi s z 1 = 0 := by
  simp [Sch.xi, S2, Fin.sum_univ_two]

theorem xi2_2 (s : Fin 3 → ℝ) (z : Fin 2 → ℝ) :
    (S2 p).xi s z 2 = p.ρ * (√(s 0) * z 0) + √(1 - p.ρ ^ 2) * (√(s 0) * z 1) := by
  simp [Sch.xi, S2, Fin.sum_univ_two]

theorem cir1 (hk : 0 < p.k) (hθ : 0 < p.θ) (i : Fin 2) (hi : (S1 p).T i = true) : Nonempty (Cir (S1 p) i) := by
  fin_cases i
  · exact ⟨⟨p.k, p.θ, p.σ, 0, hk, hθ, rfl, fun s => by simp [S1], fun s z => xi1_0 p s z⟩⟩
  · simp [S1] at hi

theorem cir2 (hk : 0 < p.k) (hθ : 0 < p.θ) (i : Fin 3) (hi : (S2 p).T i = true) : Nonempty (Cir (S2 p) i) := by
  fin_cases i
  · exact ⟨⟨p.k, p.θ, p.σ, 0, hk, hθ, rfl, fun s => by simp [S2], fun s z => xi2_0 p s z⟩⟩
  · simp [S2] at hi
  · simp [S2] at hi

theorem hb1 (x : Fin 2 → ℝ) (i : Fin 2) : eval x ((S1 p).b i) = (Sv.heston p.μ p.k p.θ p.σ p.ρ).b x i := by
  fin_cases i
  · simp [S1, Sv.heston]
  · simp [S1, Sv.heston]; ring

theorem ha1 (hρ : 0 ≤ 1 - p.ρ ^ 2) (x : Fin 2 → ℝ) (i j : Fin 2) :
    eval x ((S1 p).a i j) = (Sv.heston p.μ p.k p.θ p.σ p.ρ).a x i j := by
  have h := Real.mul_self_sqrt hρ
  fin_cases i <;> fin_cases j <;> simp [S1, Sv.heston, Sch.a, Fin.sum_univ_two] <;> first | ring1 | (left; ring1) | linear_combination (x 0) * h

theorem hb2 (x : Fin 3 → ℝ) (i : Fin 3) : eval x ((S2 p).b i) = (Sv.heston2 p.μ p.k p.θ p.σ p.ρ).b x i := by
  fin_cases i
  · simp [S2, Sv.heston2]
  · simp [S2, Sv.heston2]
  · simp [S2, Sv.heston2]; ring

theorem ha2 (hρ : 0 ≤ 1 - p.ρ ^ 2) (x : Fin 3 → ℝ) (i j : Fin 3) :
    eval x ((S2 p).a i j) = (Sv.heston2 p.μ p.k p.θ p.σ p.ρ).a x i j := by
  have h := Real.mul_self_sqrt hρ
  fin_cases i <;> fin_cases j <;> simp [S2, Sv.heston2, Sch.a, Fin.sum_univ_two] <;> first | ring1 | (left; ring1) | linear_combination (x 0) * h

/-! ### the states of the scheme -/

theorem step1_0 (e : ℝ) (s z : Fin 2 → ℝ) : (S1 p).step e s z 0 =
    max 0 (s 0 + p.k * (p.θ - s 0) * e ^ 2 + p.σ * √(s 0) * (e * z 0)) := by
  rw [Sch.step, Sch.trunc, if_pos (by rfl), Sch.pre, xi1_0, max_comm]
  simp only [S1, Matrix.cons_val, map_mul, map_sub, eval_C, eval_X]
  congr 1
  ring

theorem step1_1 (e : ℝ) (s z : Fin 2 → ℝ) : (S1 p).step e s z 1 =
    s 1 + (p.μ - s 0 / 2) * e ^ 2 + (p.ρ * (√(s 0) * (e * z 0)) + √(1 - p.ρ ^ 2) * (√(s 0) * (e * z 1))) := by
  rw [Sch.step, Sch.trunc, if_neg (by simp [S1]), Sch.pre, xi1_1]
  simp only [S1, Matrix.cons_val, map_mul, map_sub, eval_C, eval_X]
  ring

theorem traj1_0 (n : ℕ) (hh : 0 ≤ p.h) (s : Fin 2 → ℝ) (z : ℕ → Fin 2 → ℝ) (j : ℕ) :
    (S1 p).traj (rt p.h n) s z j 0 = path p.k p.θ p.σ (p.h / n) (s 0) (fun j => z j 0) j := by
  induction j with
  | zero => rfl
  | succ j ih =>
    rw [Sch.traj, step1_0, ih, rt_sq _ hh, path]
    rfl

theorem traj1_1 (n : ℕ) (hh : 0 ≤ p.h) (v y : ℝ) (z : ℕ → Fin 2 → ℝ) (j : ℕ) :
    (S1 p).traj (rt p.h n) ![v, y] z j 1 = y + p.μ * (p.h / n) * j -
      (∑ i ∈ Finset.range j, path p.k p.θ p.σ (p.h / n) v (fun j => z j 0) i * (p.h / n)) / 2 +
      p.ρ * ∑ i ∈ Finset.range j, √(path p.k p.θ p.σ (p.h / n) v (fun j => z j 0) i) * (√(p.h / n) * z i 0) +
      √(1 - p.ρ ^ 2) * ∑ i ∈ Finset.range j, √(path p.k p.θ p.σ (p.h / n) v (fun j => z j 0) i) * (√(p.h / n) * z i 1) := by
  induction j with
  | zero => simp [Sch.traj]
  | succ j ih =>
    have h0 := traj1_0 p n hh ![v, y] z j
    rw [Sch.traj, step1_1, ih, rt_sq _ hh, h0]
    simp only [Finset.sum_range_succ, rt, Matrix.cons_val, Nat.cast_succ]
    ring

theorem traj1_ret (n : ℕ) (hn : 0 < n) (hh : 0 ≤ p.h) (v : ℝ) (z : ℕ → Fin 2 → ℝ) :
    (S1 p).traj (rt p.h n) ![v, 0] z n 1 = ret1 p.μ p.ρ p.h n (p.h / n)
      (path p.k p.θ p.σ (p.h / n) v fun j => z j 0) (fun j => z j 0) fun j => z j 1 := by
  have h0 : (n : ℝ) ≠ 0 := by positivity
  rw [traj1_1 p n hh, ret1, zero_add, mul_assoc p.μ, div_mul_cancel₀ _ h0]

theorem traj2 (e : ℝ) (v y : ℝ) (z : ℕ → Fin 2 → ℝ) (j : ℕ) : (S2 p).traj e ![v, y, 0] z j =
    ![(S1 p).traj e ![v, 0] z j 0, y, (S1 p).traj e ![v, 0] z j 1] := by
  induction j with
  | zero => simp [Sch.traj]
  | succ j ih =>
    rw [Sch.traj, ih, Sch.traj]
    generalize (S1 p).traj e ![v, 0] z j = s
    funext i
    fin_cases i
    · show (S2 p).step e _ (z j) 0 = (S1 p).step e s (z j) 0
      rw [step1_0, Sch.step, Sch.trunc, if_pos (by rfl), Sch.pre, xi2_0, max_comm]
      simp only [S2, Matrix.cons_val, map_mul, map_sub, eval_C, eval_X]
      congr 1
      ring
    · show (S2 p).step e _ (z j) 1 = y
      rw [Sch.step, Sch.trunc, if_neg (by simp [S2]), Sch.pre, xi2_1]
      simp [S2]
    · show (S2 p).step e _ (z j) 2 = (S1 p).step e s (z j) 1
      rw [step1_1, Sch.step, Sch.trunc, if_neg (by simp [S2]), Sch.pre, xi2_2]
      simp only [S2, Matrix.cons_val, map_mul, map_sub, eval_C, eval_X]
      ring

/-! ### the samples -/

section
variable {Ω : Type} [MeasurableSpace Ω] {P : Measure Ω} [IsProbabilityMeasure P]

/-- the variance at the start of the `i`-th sample -/
noncomputable def st (V : Ω → ℝ) (D : ℕ → ℕ → ℕ → Fin 2 → Ω → ℝ) (n i : ℕ) (ω : Ω) : ℝ :=
  start p.k p.θ p.σ (p.h / n) (V ω) n (fun i j => D n i j 0 ω) i

/-- the variance and the return at the end of the `i`-th sample -/
noncomputable def en (V : Ω → ℝ) (D : ℕ → ℕ → ℕ → Fin 2 → Ω → ℝ) (n i : ℕ) (ω : Ω) : Fin 2 → ℝ :=
  (S1 p).traj (rt p.h n) ![st p V D n i ω, 0] (fun j => zz (D n) i j ω) n

/-- a new sample -/
noncomputable def G1 : Fin 2 → MvPolynomial (Fin 2) ℝ := ![X 0, 0]

/-- the second of two samples in a row -/
noncomputable def G2 : Fin 3 → MvPolynomial (Fin 2) ℝ := ![X 0, X 1, 0]

theorem g1 (s : Fin 2 → ℝ) (i : Fin 2) : (![s 0, 0] : Fin 2 → ℝ) i = eval s (G1 i) := by
  fin_cases i <;> simp [G1]

theorem g2 (s : Fin 2 → ℝ) (i : Fin 3) : (![s 0, s 1, 0] : Fin 3 → ℝ) i = eval s (G2 i) := by
  fin_cases i <;> simp [G2]

theorem U1 (s : Fin 2 → ℝ) : U ![s 0, 0] ≤ U s := by
  simp only [U, Fin.sum_univ_two, Matrix.cons_val]
  nlinarith [sq_nonneg (s 1)]

theorem U2 (s : Fin 2 → ℝ) : U ![s 0, s 1, 0] ≤ U s := by
  simp [U, Fin.sum_univ_two, Fin.sum_univ_three]

theorem P1 (s : Fin 2 → ℝ) (hs : (S1 p).Pos s) : (S1 p).Pos ![s 0, 0] := by
  intro i hi
  fin_cases i
  · exact hs 0 rfl
  · exact le_rfl

theorem P2 (s : Fin 2 → ℝ) (hs : (S1 p).Pos s) : (S2 p).Pos ![s 0, s 1, 0] := by
  intro i hi
  fin_cases i
  · exact hs 0 rfl
  · simp [S2] at hi
  · exact le_rfl

variable {p} {V : Ω → ℝ} {D : ℕ → ℕ → ℕ → Fin 2 → Ω → ℝ} (hk : 0 < p.k) (hθ : 0 < p.θ) (hh : 0 < p.h)
  (hρ : 0 ≤ 1 - p.ρ ^ 2) (hD : ∀ n, Draws P V (D n)) (hV0 : ∀ ω, 0 ≤ V ω) (hV : ∀ n : ℕ, Integrable (fun ω => V ω ^ n) P)

omit [MeasurableSpace Ω] in
include hh in
theorem st_succ (n i : ℕ) (ω : Ω) : st p V D n (i + 1) ω = en p V D n i ω 0 := by
  rw [en, traj1_0 p n hh.le, st, start]
  rfl

omit [MeasurableSpace Ω] in
include hh in
theorem en_ret (n : ℕ) (hn : 0 < n) (i : ℕ) (ω : Ω) : en p V D n i ω 1 = ret1 p.μ p.ρ p.h n (p.h / n)
    (path p.k p.θ p.σ (p.h / n) (st p V D n i ω) fun j => D n i j 0 ω) (fun j => D n i j 0 ω) fun j => D n i j 1 ω :=
  traj1_ret p n hn hh.le _ _

include hV0 hV in
theorem good_start (hm : Measurable V) : Good (S1 p) (P.map fun ω => ![V ω, 0]) := by
  have hg : Measurable fun v : ℝ => (![v, 0] : Fin 2 → ℝ) := by
    rw [measurable_pi_iff]
    intro i
    fin_cases i
    · exact measurable_id
    · exact measurable_const
  have hm' : Measurable fun ω => (![V ω, 0] : Fin 2 → ℝ) := hg.comp hm
  refine ⟨Measure.isProbabilityMeasure_map hm'.aemeasurable, fun m => ?_, ?_⟩
  · rw [integrable_map_measure (meas_U m).aestronglyMeasurable hm'.aemeasurable]
    have e : ((fun s => U s ^ m) ∘ fun ω => (![V ω, 0] : Fin 2 → ℝ)) =
        fun ω => ∑ a ∈ Finset.range (m + 1), V ω ^ (2 * a) * (m.choose a : ℝ) := by
      funext ω
      simp only [Function.comp, U, Fin.sum_univ_two, Matrix.cons_val]
      rw [add_comm, add_pow]
      refine Finset.sum_congr rfl fun a _ => ?_
      rw [pow_mul]
      simp
    rw [e]
    exact integrable_finsetSum _ fun a _ => (hV _).mul_const _
  · have hset : MeasurableSet {s | (S1 p).Pos s} := by
      have : {s | (S1 p).Pos s} = ⋂ i, {s : Fin 2 → ℝ | (S1 p).T i = true → 0 ≤ s i} := by ext s; simp [Sch.Pos]
      rw [this]
      refine MeasurableSet.iInter fun i => ?_
      by_cases h : (S1 p).T i = true
      · simp only [h, forall_const]
        exact measurableSet_le measurable_const (measurable_pi_apply i)
      · simp [h]
    rw [ae_map_iff hm'.aemeasurable hset]
    refine Filter.Eventually.of_forall fun ω i hi => ?_
    fin_cases i
    · exact hV0 ω
    · exact le_rfl

include hk hθ hh hρ in
/-- the variance and the return at the end of the samples -/
theorem end_conv {Q : ℝ → MvPolynomial (Fin 2) ℝ →ₗ[ℝ] MvPolynomial (Fin 2) ℝ}
    (hQ : ∀ E0, (Sv.heston p.μ p.k p.θ p.σ p.ρ).Dynkin E0 fun t => E0 ∘ₗ Q t) (i : ℕ) :
    (∀ n, Measurable[past V (D n) i 0] fun ω => ![st p V D n i ω, 0]) ∧
    (∀ n, Measurable[past V (D n) i n] (en p V D n i)) ∧ (∀ n, Good (S1 p) (P.map (en p V D n i))) ∧
    (Bdd fun n => P.map (en p V D n i)) ∧
    ∀ f, Tendsto (fun n => ∫ s, eval s f ∂(P.map (en p V D n i))) atTop
      (𝓝 ((Lq (ex (S1 p) _ (good_start hV0 hV (hD 0).measV)) (Q p.h) G1 i ∘ₗ Q p.h) f)) := by
  have hg : Measurable fun v : ℝ => (![v, 0] : Fin 2 → ℝ) := by
    rw [measurable_pi_iff]
    intro i
    fin_cases i
    · exact measurable_id
    · exact measurable_const
  obtain ⟨h1, h2, h3, h4⟩ := chain (ok1 p) (cir1 p hk hθ) (hb1 p) (ha1 p hρ) rfl rfl hQ p.h hh
    (g := fun s => ![s 0, 0]) g1 U1 (P1 p) hD (X := fun n i ω => ![st p V D n i ω, 0]) (X0 := fun v => ![v, 0]) hg
    (fun n ω => rfl) (fun n i ω => by rw [st_succ hh]; rfl) (good_start hV0 hV (hD 0).measV) i
  have ht := fun n => traj_draws (S1 p) (hD n) (rt p.h n) i (h1 n) n
  have e : ∀ n, P.map (en p V D n i) = (S1 p).law (rt p.h n) (P.map fun ω => ![st p V D n i ω, 0]) n := fun n => (ht n).2
  refine ⟨h1, fun n => (ht n).1, ?_, ?_, fun f => ?_⟩
  · simp only [e]
    exact fun n => good_law (S1 p) _ (h2 n) n
  · simp only [e]
    exact bdd_law (S1 p) (ok1 p) p.h hh.le _ h2 h3
  · simp only [e]
    exact stage (ok1 p) (cir1 p hk hθ) (hb1 p) (ha1 p hρ) rfl rfl (hQ _) p.h hh _ h2 h3 h4 f

include hk hθ hh hρ in
/-- the variance and the returns at the end of two samples in a row -/
theorem end_conv2 {Q : ℝ → MvPolynomial (Fin 2) ℝ →ₗ[ℝ] MvPolynomial (Fin 2) ℝ}
    (hQ : ∀ E0, (Sv.heston p.μ p.k p.θ p.σ p.ρ).Dynkin E0 fun t => E0 ∘ₗ Q t) (i : ℕ)
    {E' : ℝ → MvPolynomial (Fin 3) ℝ →ₗ[ℝ] ℝ} (hE' : (Sv.heston2 p.μ p.k p.θ p.σ p.ρ).Dynkin
      ((Lq (ex (S1 p) _ (good_start hV0 hV (hD 0).measV)) (Q p.h) G1 i ∘ₗ Q p.h) ∘ₗ (aeval G2).toLinearMap) E')
    (f : MvPolynomial (Fin 3) ℝ) :
    Tendsto (fun n => ∫ ω, eval ![en p V D n (i + 1) ω 0, en p V D n i ω 1, en p V D n (i + 1) ω 1] f ∂P) atTop
      (𝓝 (E' p.h f)) := by
  obtain ⟨-, h1, h2, h3, h4⟩ := end_conv hk hθ hh hρ hD hV0 hV hQ i
  have hgm : Measurable fun s : Fin 2 → ℝ => (![s 0, s 1, 0] : Fin 3 → ℝ) := meas_poly g2
  have hX : ∀ n, Measurable[past V (D n) (i + 1) 0] fun ω => (![en p V D n i ω 0, en p V D n i ω 1, 0] : Fin 3 → ℝ) :=
    fun n => hgm.comp ((h1 n).mono (past_next i n) le_rfl)
  have hen : ∀ n, Measurable (en p V D n i) := fun n => (h1 n).mono (past_le (hD n) _ _) le_rfl
  have em : ∀ n, (P.map fun ω => (![en p V D n i ω 0, en p V D n i ω 1, 0] : Fin 3 → ℝ)) =
      (P.map (en p V D n i)).map fun s => ![s 0, s 1, 0] := fun n => by
    rw [Measure.map_map hgm (hen n)]
    rfl
  have ht := fun n => traj_draws (S2 p) (hD n) (rt p.h n) (i + 1) (hX n) n
  have key := stage (ok2 p) (cir2 p hk hθ) (hb2 p) (ha2 p hρ) rfl rfl hE' p.h hh
    (fun n => P.map fun ω => (![en p V D n i ω 0, en p V D n i ω 1, 0] : Fin 3 → ℝ))
    (fun n => by rw [em]; exact (good_map (h2 n) hgm U2 (P2 p)).1)
    (by simp only [em]; exact bdd_map (S' := S2 p) h2 h3 hgm U2 (P2 p))
    (fun f => by simp only [em, integral_poly g2]; exact h4 _) f
  refine key.congr fun n => ?_
  rw [← (ht n).2, integral_map ((ht n).1.mono (past_le (hD n) _ _) le_rfl).aemeasurable
    (MvPolynomial.continuous_eval f).measurable.aestronglyMeasurable]
  refine integral_congr_ae (Filter.Eventually.of_forall fun ω => ?_)
  simp only [traj2, ← st_succ hh n i ω]
  rfl

end

end Ajd.Euler
