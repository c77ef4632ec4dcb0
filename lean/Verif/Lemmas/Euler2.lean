import Verif.Lemmas.Euler1
import Verif.Props.Fsv2Sde

/-! The generator `r2FSV` as an Euler scheme. -/

namespace Ajd.Euler.F2
open MvPolynomial MeasureTheory ProbabilityTheory Filter Topology Scheme Spec

variable (p : Fsv2.Par)

/-- the parameters of the generator -/
noncomputable def par : Par2 := ⟨p.μ, p.k1, p.θ1, p.σ1, p.k2, p.θ2, p.σ2, p.h⟩

/-- the scheme for the variances and the return -/
noncomputable def S1 : Sch (Fin 3) (Fin 3) where
  b := ![C p.k1 * (C p.θ1 - X 0), C p.k2 * (C p.θ2 - X 1), C p.μ - C (1 / 2) * (X 0 + X 1)]
  r := ![![0, p.σ1, 0], ![0, 0, p.σ2], ![1, 0, 0]]
  w := ![X 0 + X 1, X 0, X 1]
  T := ![true, true, false]

/-- the scheme for the variances and two returns in a row, during the second -/
noncomputable def S2 : Sch (Fin 4) (Fin 3) where
  b := ![C p.k1 * (C p.θ1 - X 0), C p.k2 * (C p.θ2 - X 1), 0, C p.μ - C (1 / 2) * (X 0 + X 1)]
  r := ![![0, p.σ1, 0], ![0, 0, p.σ2], ![0, 0, 0], ![1, 0, 0]]
  w := ![X 0 + X 1, X 0, X 1]
  T := ![true, true, false, false]

theorem lin_sq2 {σ : Type} [Fintype σ] (a b c : ℝ) (s : σ → ℝ) (i j : σ) :
    (a + b * s i + c * s j) ^ 2 ≤ (3 * a ^ 2 + 3 * b ^ 2 + 3 * c ^ 2) * U s := by
  have h1 := one_le_U s
  have h2 := sq_le_U s i
  have h3 := sq_le_U s j
  nlinarith [sq_nonneg (a - b * s i), sq_nonneg (a - c * s j), sq_nonneg (b * s i - c * s j),
    mul_le_mul_of_nonneg_left h1 (sq_nonneg a), mul_le_mul_of_nonneg_left h2 (sq_nonneg b),
    mul_le_mul_of_nonneg_left h3 (sq_nonneg c)]

theorem deg_lin4 {n : ℕ} (a b : ℝ) (i j : Fin n) : (C a - C b * (X i + X j) : MvPolynomial (Fin n) ℝ).totalDegree ≤ 1 := by
  refine (totalDegree_sub _ _).trans (max_le (by simp) ((totalDegree_mul _ _).trans ?_))
  have : (X i + X j : MvPolynomial (Fin n) ℝ).totalDegree ≤ 1 := (totalDegree_add _ _).trans (by simp)
  rw [totalDegree_C]
  omega

theorem ok1 : (S1 p).Ok where
  b := by
    refine ⟨(2 * (p.k1 * p.θ1) ^ 2 + 2 * (-p.k1) ^ 2) + (2 * (p.k2 * p.θ2) ^ 2 + 2 * (-p.k2) ^ 2) +
      (3 * p.μ ^ 2 + 3 * (-1 / 2) ^ 2 + 3 * (-1 / 2) ^ 2), by positivity, fun s i => ?_⟩
    have h0 : 0 ≤ U s := zero_le_one.trans (one_le_U s)
    have h1 := lin_sq (p.k1 * p.θ1) (-p.k1) s 0
    have h2 := lin_sq (p.k2 * p.θ2) (-p.k2) s 1
    have h3 := lin_sq2 p.μ (-1 / 2) (-1 / 2) s 0 1
    have h4 : 0 ≤ (2 * (p.k1 * p.θ1) ^ 2 + 2 * (-p.k1) ^ 2) * U s := by positivity
    have h5 : 0 ≤ (2 * (p.k2 * p.θ2) ^ 2 + 2 * (-p.k2) ^ 2) * U s := by positivity
    have h6 : 0 ≤ (3 * p.μ ^ 2 + 3 * (-1 / 2) ^ 2 + 3 * (-1 / 2) ^ 2) * U s := by positivity
    fin_cases i
    · simp only [S1, Fin.zero_eta, Matrix.cons_val, map_mul, map_sub, eval_C, eval_X]
      rw [show p.k1 * (p.θ1 - s 0) = p.k1 * p.θ1 + -p.k1 * s 0 by ring]
      linarith
    · simp only [S1, Fin.mk_one, Matrix.cons_val, map_mul, map_sub, eval_C, eval_X]
      rw [show p.k2 * (p.θ2 - s 1) = p.k2 * p.θ2 + -p.k2 * s 1 by ring]
      linarith
    · simp only [S1, Fin.reduceFinMk, Matrix.cons_val, map_mul, map_sub, map_add, eval_C, eval_X]
      rw [show p.μ - 1 / 2 * (s 0 + s 1) = p.μ + -1 / 2 * s 0 + -1 / 2 * s 1 by ring]
      linarith
  w := ⟨2, zero_le_two, fun s k => by
    have h1 := (le_abs_self _).trans (abs_le_U s 0)
    have h2 := (le_abs_self _).trans (abs_le_U s 1)
    have h0 : 0 ≤ U s := zero_le_one.trans (one_le_U s)
    fin_cases k <;> simp only [S1, Fin.zero_eta, Fin.mk_one, Fin.reduceFinMk, Matrix.cons_val, map_add, eval_X] <;> linarith⟩
  pos s hs k := by
    have h1 := hs 0 rfl
    have h2 := hs 1 rfl
    fin_cases k <;> simp only [S1, Fin.zero_eta, Fin.mk_one, Fin.reduceFinMk, Matrix.cons_val, map_add, eval_X] <;> linarith
  db i := by
    fin_cases i
    · exact deg_lin3 _ _ _
    · exact deg_lin3 _ _ _
    · exact deg_lin4 _ _ _ _
  dw k := by
    fin_cases k
    · exact (totalDegree_add _ _).trans (by simp)
    · simp [S1]
    · simp [S1]

theorem ok2 : (S2 p).Ok where
  b := by
    refine ⟨(2 * (p.k1 * p.θ1) ^ 2 + 2 * (-p.k1) ^ 2) + (2 * (p.k2 * p.θ2) ^ 2 + 2 * (-p.k2) ^ 2) +
      (3 * p.μ ^ 2 + 3 * (-1 / 2) ^ 2 + 3 * (-1 / 2) ^ 2), by positivity, fun s i => ?_⟩
    have h0 : 0 ≤ U s := zero_le_one.trans (one_le_U s)
    have h1 := lin_sq (p.k1 * p.θ1) (-p.k1) s 0
    have h2 := lin_sq (p.k2 * p.θ2) (-p.k2) s 1
    have h3 := lin_sq2 p.μ (-1 / 2) (-1 / 2) s 0 1
    have h4 : 0 ≤ (2 * (p.k1 * p.θ1) ^ 2 + 2 * (-p.k1) ^ 2) * U s := by positivity
    have h5 : 0 ≤ (2 * (p.k2 * p.θ2) ^ 2 + 2 * (-p.k2) ^ 2) * U s := by positivity
    have h6 : 0 ≤ (3 * p.μ ^ 2 + 3 * (-1 / 2) ^ 2 + 3 * (-1 / 2) ^ 2) * U s := by positivity
    fin_cases i
    · simp only [S2, Fin.zero_eta, Matrix.cons_val, map_mul, map_sub, eval_C, eval_X]
      rw [show p.k1 * (p.θ1 - s 0) = p.k1 * p.θ1 + -p.k1 * s 0 by ring]
      linarith
    · simp only [S2, Fin.mk_one, Matrix.cons_val, map_mul, map_sub, eval_C, eval_X]
      rw [show p.k2 * (p.θ2 - s 1) = p.k2 * p.θ2 + -p.k2 * s 1 by ring]
      linarith
    · simp only [S2, Fin.reduceFinMk, Matrix.cons_val, map_zero]
      rw [zero_pow two_ne_zero]
      linarith
    · simp only [S2, Fin.reduceFinMk, Matrix.cons_val, map_mul, map_sub, map_add, eval_C, eval_X]
      rw [show p.μ - 1 / 2 * (s 0 + s 1) = p.μ + -1 / 2 * s 0 + -1 / 2 * s 1 by ring]
      linarith
  w := ⟨2, zero_le_two, fun s k => by
    have h1 := (le_abs_self _).trans (abs_le_U s 0)
    have h2 := (le_abs_self _).trans (abs_le_U s 1)
    have h0 : 0 ≤ U s := zero_le_one.trans (one_le_U s)
    fin_cases k <;> simp only [S2, Fin.zero_eta, Fin.mk_one, Fin.reduceFinMk, Matrix.cons_val, map_add, eval_X] <;> linarith⟩
  pos s hs k := by
    have h1 := hs 0 rfl
    have h2 := hs 1 rfl
    fin_cases k <;> simp only [S2, Fin.zero_eta, Fin.mk_one, Fin.reduceFinMk, Matrix.cons_val, map_add, eval_X] <;> linarith
  db i := by
    fin_cases i
    · exact deg_lin3 _ _ _
    · exact deg_lin3 _ _ _
    · simp [S2]
    · exact deg_lin4 _ _ _ _
  dw k := by
    fin_cases k
    · exact (totalDegree_add _ _).trans (by simp)
    · simp [S2]
    · simp [S2]

theorem xi1_0 (s : Fin 3 → ℝ) (z : Fin 3 → ℝ) : (S1 p).xi s z 0 = p.σ1 * (√(s 0) * z 1) := by
  simp [Sch.xi, S1, Fin.sum_univ_three]

theorem xi1_1 (s : Fin 3 → ℝ) (z : Fin 3 → ℝ) : (S1 p).xi s z 1 = p.σ2 * (√(s 1) * z 2) := by
  simp [Sch.xi, S1, Fin.sum_univ_three]

theorem xi1_2 (s : Fin 3 → ℝ) (z : Fin 3 → ℝ) : (S1 p).xi s z 2 = √(s 0 + s 1) * z 0 := by
  simp [Sch.xi, S1, Fin.sum_univ_three]

theorem xi2_0 (s : Fin 4 → ℝ) (z : Fin 3 → ℝ) : (S2 p).xi s z 0 = p.σ1 * (√(s 0) * z 1) := by
  simp [Sch.xi, S2, Fin.sum_univ_three]

theorem xi2_1 (s : Fin 4 → ℝ) (z : Fin 3 → ℝ) : (S2 p).xi s z 1 = p.σ2 * (√(s 1) * z 2) := by
  simp [Sch.xi, S2, Fin.sum_univ_three]

theorem xi2_3 (s : Fin 4 → ℝ) (z : Fin 3 → ℝ) : (S2 p).xi s z 3 = √(s 0 + s 1) * z 0 := by
  simp [Sch.xi, S2, Fin.sum_univ_three]

theorem xi2_2 (s : Fin 4 → ℝ) (z : Fin 3 → ℝ) : (S2 p).xi s z 2 = 0 := by
  simp [Sch.xi, S2, Fin.sum_univ_three]

theorem cir1 (hp : Sv2.Pos p) (i : Fin 3) (hi : (S1 p).T i = true) : Nonempty (Cir (S1 p) i) := by
  fin_cases i
  · exact ⟨⟨p.k1, p.θ1, p.σ1, 1, hp.k1, hp.θ1, rfl, fun s => by simp [S1], fun s z => xi1_0 p s z⟩⟩
  · exact ⟨⟨p.k2, p.θ2, p.σ2, 2, hp.k2, hp.θ2, rfl, fun s => by simp [S1], fun s z => xi1_1 p s z⟩⟩
  · simp [S1] at hi

theorem cir2 (hp : Sv2.Pos p) (i : Fin 4) (hi : (S2 p).T i = true) : Nonempty (Cir (S2 p) i) := by
  fin_cases i
  · exact ⟨⟨p.k1, p.θ1, p.σ1, 1, hp.k1, hp.θ1, rfl, fun s => by simp [S2], fun s z => xi2_0 p s z⟩⟩
  · exact ⟨⟨p.k2, p.θ2, p.σ2, 2, hp.k2, hp.θ2, rfl, fun s => by simp [S2], fun s z => xi2_1 p s z⟩⟩
  · simp [S2] at hi
  · simp [S2] at hi

theorem hb1 (x : Fin 3 → ℝ) (i : Fin 3) :
    eval x ((S1 p).b i) = (Sv2.sv2 p.μ p.k1 p.k2 p.θ1 p.σ1 p.θ2 p.σ2).b x i := by
  fin_cases i <;> simp [S1, Sv2.sv2] <;> ring1

theorem ha1 (x : Fin 3 → ℝ) (i j : Fin 3) :
    eval x ((S1 p).a i j) = (Sv2.sv2 p.μ p.k1 p.k2 p.θ1 p.σ1 p.θ2 p.σ2).a x i j := by
  fin_cases i <;> fin_cases j <;> simp [S1, Sv2.sv2, Sch.a, Fin.sum_univ_three] <;> first | ring1 | (left; ring1)

theorem hb2 (x : Fin 4 → ℝ) (i : Fin 4) :
    eval x ((S2 p).b i) = (Sv2.sv2two p.μ p.k1 p.k2 p.θ1 p.σ1 p.θ2 p.σ2).b x i := by
  fin_cases i <;> simp [S2, Sv2.sv2two] <;> ring1

theorem ha2 (x : Fin 4 → ℝ) (i j : Fin 4) :
    eval x ((S2 p).a i j) = (Sv2.sv2two p.μ p.k1 p.k2 p.θ1 p.σ1 p.θ2 p.σ2).a x i j := by
  fin_cases i <;> fin_cases j <;> simp [S2, Sv2.sv2two, Sch.a, Fin.sum_univ_three] <;> first | ring1 | (left; ring1)

/-! ### the states of the scheme -/

theorem step1_0 (e : ℝ) (s z : Fin 3 → ℝ) : (S1 p).step e s z 0 =
    max 0 (s 0 + p.k1 * (p.θ1 - s 0) * e ^ 2 + p.σ1 * √(s 0) * (e * z 1)) := by
  rw [Sch.step, Sch.trunc, if_pos (by rfl), Sch.pre, xi1_0, max_comm]
  simp only [S1, Matrix.cons_val, map_mul, map_sub, eval_C, eval_X]
  congr 1
  ring

theorem step1_1 (e : ℝ) (s z : Fin 3 → ℝ) : (S1 p).step e s z 1 =
    max 0 (s 1 + p.k2 * (p.θ2 - s 1) * e ^ 2 + p.σ2 * √(s 1) * (e * z 2)) := by
  rw [Sch.step, Sch.trunc, if_pos (by rfl), Sch.pre, xi1_1, max_comm]
  simp only [S1, Matrix.cons_val, map_mul, map_sub, eval_C, eval_X]
  congr 1
  ring

theorem step1_2 (e : ℝ) (s z : Fin 3 → ℝ) : (S1 p).step e s z 2 =
    s 2 + (p.μ - (s 0 + s 1) / 2) * e ^ 2 + √(s 0 + s 1) * (e * z 0) := by
  rw [Sch.step, Sch.trunc, if_neg (by simp [S1]), Sch.pre, xi1_2]
  simp only [S1, Matrix.cons_val, map_mul, map_sub, map_add, eval_C, eval_X]
  ring

theorem traj1_0 (n : ℕ) (hh : 0 ≤ p.h) (s : Fin 3 → ℝ) (z : ℕ → Fin 3 → ℝ) (j : ℕ) :
    (S1 p).traj (rt p.h n) s z j 0 = path p.k1 p.θ1 p.σ1 (p.h / n) (s 0) (fun j => z j 1) j := by
  induction j with
  | zero => rfl
  | succ j ih =>
    rw [Sch.traj, step1_0, ih, rt_sq _ hh, path]
    rfl

theorem traj1_1 (n : ℕ) (hh : 0 ≤ p.h) (s : Fin 3 → ℝ) (z : ℕ → Fin 3 → ℝ) (j : ℕ) :
    (S1 p).traj (rt p.h n) s z j 1 = path p.k2 p.θ2 p.σ2 (p.h / n) (s 1) (fun j => z j 2) j := by
  induction j with
  | zero => rfl
  | succ j ih =>
    rw [Sch.traj, step1_1, ih, rt_sq _ hh, path]
    rfl

theorem traj1_2 (n : ℕ) (hh : 0 ≤ p.h) (v w y : ℝ) (z : ℕ → Fin 3 → ℝ) (j : ℕ) :
    (S1 p).traj (rt p.h n) ![v, w, y] z j 2 = y + p.μ * (p.h / n) * j -
      (∑ i ∈ Finset.range j, (path p.k1 p.θ1 p.σ1 (p.h / n) v (fun j => z j 1) i +
        path p.k2 p.θ2 p.σ2 (p.h / n) w (fun j => z j 2) i) * (p.h / n)) / 2 +
      ∑ i ∈ Finset.range j, √(path p.k1 p.θ1 p.σ1 (p.h / n) v (fun j => z j 1) i +
        path p.k2 p.θ2 p.σ2 (p.h / n) w (fun j => z j 2) i) * (√(p.h / n) * z i 0) := by
  induction j with
  | zero => simp [Sch.traj]
  | succ j ih =>
    have h0 := traj1_0 p n hh ![v, w, y] z j
    have h1 := traj1_1 p n hh ![v, w, y] z j
    rw [Sch.traj, step1_2, ih, rt_sq _ hh, h0, h1]
    simp only [Finset.sum_range_succ, rt, Matrix.cons_val, Nat.cast_succ]
    ring

theorem traj1_ret (n : ℕ) (hn : 0 < n) (hh : 0 ≤ p.h) (v w : ℝ) (z : ℕ → Fin 3 → ℝ) :
    (S1 p).traj (rt p.h n) ![v, w, 0] z n 2 = ret2 p.μ p.h n (p.h / n)
      (path p.k1 p.θ1 p.σ1 (p.h / n) v fun j => z j 1) (path p.k2 p.θ2 p.σ2 (p.h / n) w fun j => z j 2)
      fun j => z j 0 := by
  have h0 : (n : ℝ) ≠ 0 := by positivity
  rw [traj1_2 p n hh, ret2, zero_add, mul_assoc p.μ, div_mul_cancel₀ _ h0]

theorem traj2 (e : ℝ) (v w y : ℝ) (z : ℕ → Fin 3 → ℝ) (j : ℕ) : (S2 p).traj e ![v, w, y, 0] z j =
    ![(S1 p).traj e ![v, w, 0] z j 0, (S1 p).traj e ![v, w, 0] z j 1, y, (S1 p).traj e ![v, w, 0] z j 2] := by
  induction j with
  | zero => simp [Sch.traj]
  | succ j ih =>
    rw [Sch.traj, ih, Sch.traj]
    generalize (S1 p).traj e ![v, w, 0] z j = s
    funext i
    fin_cases i
    · show (S2 p).step e _ (z j) 0 = (S1 p).step e s (z j) 0
      rw [step1_0, Sch.step, Sch.trunc, if_pos (by rfl), Sch.pre, xi2_0, max_comm]
      simp only [S2, Matrix.cons_val, map_mul, map_sub, eval_C, eval_X]
      congr 1
      ring
    · show (S2 p).step e _ (z j) 1 = (S1 p).step e s (z j) 1
      rw [step1_1, Sch.step, Sch.trunc, if_pos (by rfl), Sch.pre, xi2_1, max_comm]
      simp only [S2, Matrix.cons_val, map_mul, map_sub, eval_C, eval_X]
      congr 1
      ring
    · show (S2 p).step e _ (z j) 2 = y
      rw [Sch.step, Sch.trunc, if_neg (by simp [S2]), Sch.pre, xi2_2]
      simp [S2]
    · show (S2 p).step e _ (z j) 3 = (S1 p).step e s (z j) 2
      rw [step1_2, Sch.step, Sch.trunc, if_neg (by simp [S2]), Sch.pre, xi2_3]
      simp only [S2, Matrix.cons_val, map_mul, map_sub, map_add, eval_C, eval_X]
      ring

/-! ### the samples -/

section
variable {Ω : Type} [MeasurableSpace Ω] {P : Measure Ω} [IsProbabilityMeasure P]

/-- the variances at the start of the `i`-th sample -/
noncomputable def st (V : Ω → ℝ × ℝ) (D : ℕ → ℕ → ℕ → Fin 3 → Ω → ℝ) (n i : ℕ) (ω : Ω) : Fin 3 → ℝ :=
  ![start p.k1 p.θ1 p.σ1 (p.h / n) (V ω).1 n (fun i j => D n i j 1 ω) i,
    start p.k2 p.θ2 p.σ2 (p.h / n) (V ω).2 n (fun i j => D n i j 2 ω) i, 0]

/-- the variances and the return at the end of the `i`-th sample -/
noncomputable def en (V : Ω → ℝ × ℝ) (D : ℕ → ℕ → ℕ → Fin 3 → Ω → ℝ) (n i : ℕ) (ω : Ω) : Fin 3 → ℝ :=
  (S1 p).traj (rt p.h n) (st p V D n i ω) (fun j => zz (D n) i j ω) n

/-- a new sample -/
noncomputable def G1 : Fin 3 → MvPolynomial (Fin 3) ℝ := ![X 0, X 1, 0]

/-- the second of two samples in a row -/
noncomputable def G2 : Fin 4 → MvPolynomial (Fin 3) ℝ := ![X 0, X 1, X 2, 0]

theorem g1 (s : Fin 3 → ℝ) (i : Fin 3) : (![s 0, s 1, 0] : Fin 3 → ℝ) i = eval s (G1 i) := by
  fin_cases i <;> simp [G1]

theorem g2 (s : Fin 3 → ℝ) (i : Fin 4) : (![s 0, s 1, s 2, 0] : Fin 4 → ℝ) i = eval s (G2 i) := by
  fin_cases i <;> simp [G2]

theorem U1 (s : Fin 3 → ℝ) : U ![s 0, s 1, 0] ≤ U s := by
  simp only [U, Fin.sum_univ_three, Matrix.cons_val]
  nlinarith [sq_nonneg (s 2)]

theorem U2 (s : Fin 3 → ℝ) : U ![s 0, s 1, s 2, 0] ≤ U s := by
  simp [U, Fin.sum_univ_three, Fin.sum_univ_four]

theorem P1 (s : Fin 3 → ℝ) (hs : (S1 p).Pos s) : (S1 p).Pos ![s 0, s 1, 0] := by
  intro i hi
  fin_cases i
  · exact hs 0 rfl
  · exact hs 1 rfl
  · exact le_rfl

theorem P2 (s : Fin 3 → ℝ) (hs : (S1 p).Pos s) : (S2 p).Pos ![s 0, s 1, s 2, 0] := by
  intro i hi
  fin_cases i
  · exact hs 0 rfl
  · exact hs 1 rfl
  · simp [S2] at hi
  · exact le_rfl

variable {p} {V : Ω → ℝ × ℝ} {D : ℕ → ℕ → ℕ → Fin 3 → Ω → ℝ} (hp : Sv2.Pos p) (hD : ∀ n, Draws P V (D n))
  (hV0 : ∀ ω, 0 ≤ (V ω).1 ∧ 0 ≤ (V ω).2) (hV : ∀ m n : ℕ, Integrable (fun ω => (V ω).1 ^ m * (V ω).2 ^ n) P)

omit [MeasurableSpace Ω] in
include hp in
theorem st_succ (n i : ℕ) (ω : Ω) : st p V D n (i + 1) ω = ![en p V D n i ω 0, en p V D n i ω 1, 0] := by
  rw [en, traj1_0 p n hp.h.le, traj1_1 p n hp.h.le]
  rfl

omit [MeasurableSpace Ω] in
include hp in
theorem en_ret (n : ℕ) (hn : 0 < n) (i : ℕ) (ω : Ω) : en p V D n i ω 2 = ret2 p.μ p.h n (p.h / n)
    (path p.k1 p.θ1 p.σ1 (p.h / n) (st p V D n i ω 0) fun j => D n i j 1 ω)
    (path p.k2 p.θ2 p.σ2 (p.h / n) (st p V D n i ω 1) fun j => D n i j 2 ω) fun j => D n i j 0 ω :=
  traj1_ret p n hn hp.h.le _ _ _

theorem meas3 : Measurable fun v : ℝ × ℝ => (![v.1, v.2, 0] : Fin 3 → ℝ) := by
  rw [measurable_pi_iff]
  intro i
  fin_cases i
  · exact measurable_fst
  · exact measurable_snd
  · exact measurable_const

include hV0 hV in
theorem good_start (hm : Measurable V) : Good (S1 p) (P.map fun ω => ![(V ω).1, (V ω).2, 0]) := by
  have hm' : Measurable fun ω => (![(V ω).1, (V ω).2, 0] : Fin 3 → ℝ) := meas3.comp hm
  refine ⟨Measure.isProbabilityMeasure_map hm'.aemeasurable, fun m => ?_, ?_⟩
  · rw [integrable_map_measure (meas_U m).aestronglyMeasurable hm'.aemeasurable]
    have e : ((fun s => U s ^ m) ∘ fun ω => (![(V ω).1, (V ω).2, 0] : Fin 3 → ℝ)) =
        fun ω => ∑ a ∈ Finset.range (m + 1), ∑ b ∈ Finset.range (a + 1),
          (V ω).1 ^ (2 * b) * (V ω).2 ^ (2 * (m - a)) * ((a.choose b : ℝ) * (m.choose a : ℝ)) := by
      funext ω
      simp only [Function.comp, U, Fin.sum_univ_three, Matrix.cons_val]
      rw [show 1 + ((V ω).1 ^ 2 + (V ω).2 ^ 2 + (0 : ℝ) ^ 2) = ((V ω).1 ^ 2 + 1) + (V ω).2 ^ 2 by ring, add_pow]
      refine Finset.sum_congr rfl fun a _ => ?_
      rw [add_pow, Finset.sum_mul, Finset.sum_mul]
      refine Finset.sum_congr rfl fun b _ => ?_
      rw [pow_mul, pow_mul]
      ring
    rw [e]
    exact integrable_finsetSum _ fun a _ => integrable_finsetSum _ fun b _ => (hV _ _).mul_const _
  · have hset : MeasurableSet {s | (S1 p).Pos s} := by
      have : {s | (S1 p).Pos s} = ⋂ i, {s : Fin 3 → ℝ | (S1 p).T i = true → 0 ≤ s i} := by ext s; simp [Sch.Pos]
      rw [this]
      refine MeasurableSet.iInter fun i => ?_
      by_cases h : (S1 p).T i = true
      · simp only [h, forall_const]
        exact measurableSet_le measurable_const (measurable_pi_apply i)
      · simp [h]
    rw [ae_map_iff hm'.aemeasurable hset]
    refine Filter.Eventually.of_forall fun ω i hi => ?_
    fin_cases i
    · exact (hV0 ω).1
    · exact (hV0 ω).2
    · exact le_rfl

include hp in
/-- the variances and the return at the end of the samples -/
theorem end_conv {Q : ℝ → MvPolynomial (Fin 3) ℝ →ₗ[ℝ] MvPolynomial (Fin 3) ℝ}
    (hQ : ∀ E0, (Sv2.sv2 p.μ p.k1 p.k2 p.θ1 p.σ1 p.θ2 p.σ2).Dynkin E0 fun t => E0 ∘ₗ Q t) (i : ℕ) :
    (∀ n, Measurable[past V (D n) i n] (en p V D n i)) ∧ (∀ n, Good (S1 p) (P.map (en p V D n i))) ∧
    (Bdd fun n => P.map (en p V D n i)) ∧
    ∀ f, Tendsto (fun n => ∫ s, eval s f ∂(P.map (en p V D n i))) atTop
      (𝓝 ((Lq (ex (S1 p) _ (good_start hV0 hV (hD 0).measV)) (Q p.h) G1 i ∘ₗ Q p.h) f)) := by
  obtain ⟨h1, h2, h3, h4⟩ := chain (ok1 p) (cir1 p hp) (hb1 p) (ha1 p) rfl rfl hQ p.h hp.h
    (g := fun s => ![s 0, s 1, 0]) g1 U1 (P1 p) hD (X := fun n i ω => st p V D n i ω) (X0 := fun v => ![v.1, v.2, 0]) meas3
    (fun n ω => rfl) (fun n i ω => by rw [st_succ hp]; rfl) (good_start hV0 hV (hD 0).measV) i
  have ht := fun n => traj_draws (S1 p) (hD n) (rt p.h n) i (h1 n) n
  have e : ∀ n, P.map (en p V D n i) = (S1 p).law (rt p.h n) (P.map fun ω => st p V D n i ω) n := fun n => (ht n).2
  refine ⟨fun n => (ht n).1, ?_, ?_, fun f => ?_⟩
  · simp only [e]
    exact fun n => good_law (S1 p) _ (h2 n) n
  · simp only [e]
    exact bdd_law (S1 p) (ok1 p) p.h hp.h.le _ h2 h3
  · simp only [e]
    exact stage (ok1 p) (cir1 p hp) (hb1 p) (ha1 p) rfl rfl (hQ _) p.h hp.h _ h2 h3 h4 f

include hp in
/-- the variances and the returns at the end of two samples in a row -/
theorem end_conv2 {Q : ℝ → MvPolynomial (Fin 3) ℝ →ₗ[ℝ] MvPolynomial (Fin 3) ℝ}
    (hQ : ∀ E0, (Sv2.sv2 p.μ p.k1 p.k2 p.θ1 p.σ1 p.θ2 p.σ2).Dynkin E0 fun t => E0 ∘ₗ Q t) (i : ℕ)
    {E' : ℝ → MvPolynomial (Fin 4) ℝ →ₗ[ℝ] ℝ} (hE' : (Sv2.sv2two p.μ p.k1 p.k2 p.θ1 p.σ1 p.θ2 p.σ2).Dynkin
      ((Lq (ex (S1 p) _ (good_start hV0 hV (hD 0).measV)) (Q p.h) G1 i ∘ₗ Q p.h) ∘ₗ (aeval G2).toLinearMap) E')
    (f : MvPolynomial (Fin 4) ℝ) :
    Tendsto (fun n => ∫ ω, eval ![en p V D n (i + 1) ω 0, en p V D n (i + 1) ω 1, en p V D n i ω 2,
      en p V D n (i + 1) ω 2] f ∂P) atTop (𝓝 (E' p.h f)) := by
  obtain ⟨h1, h2, h3, h4⟩ := end_conv hp hD hV0 hV hQ i
  have hgm : Measurable fun s : Fin 3 → ℝ => (![s 0, s 1, s 2, 0] : Fin 4 → ℝ) := meas_poly g2
  have hX : ∀ n, Measurable[past V (D n) (i + 1) 0]
      fun ω => (![en p V D n i ω 0, en p V D n i ω 1, en p V D n i ω 2, 0] : Fin 4 → ℝ) :=
    fun n => hgm.comp ((h1 n).mono (past_next i n) le_rfl)
  have hen : ∀ n, Measurable (en p V D n i) := fun n => (h1 n).mono (past_le (hD n) _ _) le_rfl
  have em : ∀ n, (P.map fun ω => (![en p V D n i ω 0, en p V D n i ω 1, en p V D n i ω 2, 0] : Fin 4 → ℝ)) =
      (P.map (en p V D n i)).map fun s => ![s 0, s 1, s 2, 0] := fun n => by
    rw [Measure.map_map hgm (hen n)]
    rfl
  have ht := fun n => traj_draws (S2 p) (hD n) (rt p.h n) (i + 1) (hX n) n
  have key := stage (ok2 p) (cir2 p hp) (hb2 p) (ha2 p) rfl rfl hE' p.h hp.h
    (fun n => P.map fun ω => (![en p V D n i ω 0, en p V D n i ω 1, en p V D n i ω 2, 0] : Fin 4 → ℝ))
    (fun n => by rw [em]; exact (good_map (h2 n) hgm U2 (P2 p)).1)
    (by simp only [em]; exact bdd_map (S' := S2 p) h2 h3 hgm U2 (P2 p))
    (fun f => by simp only [em, integral_poly g2]; exact h4 _) f
  refine key.congr fun n => ?_
  rw [← (ht n).2, integral_map ((ht n).1.mono (past_le (hD n) _ _) le_rfl).aemeasurable
    (MvPolynomial.continuous_eval f).measurable.aestronglyMeasurable]
  refine integral_congr_ae (Filter.Eventually.of_forall fun ω => ?_)
  simp only [traj2, ← st_succ hp n i ω]
  rfl

end

end Ajd.Euler.F2
