import Verif.Props.CumulantAt
import Verif.Props.Cpp
import Verif.Lemmas.CppDyn

/-! C82, C83: cumulants of the square-root jump-diffusion given the initial variance, and of the compound Poisson
variable. -/

namespace Ajd.Cum

open PowerSeries in
/-- the equation of the moments from that of the cumulants, with jumps of exponential size -/
theorem mder_jumps (k θ s2 lam μ : ℝ) (e e' : ℕ → ℝ) (h0 : e' 0 = k * θ - k * e 0 + lam * μ)
    (h : ∀ i : ℕ, e' (i + 1) = (i + 2) * (-k * e (i + 1) + s2 * e i + lam * μ ^ (i + 2))) (n : ℕ) :
    mder e e' (n + 1) = (k * θ + n * s2) * mser e n - k * (n + 1) * mser e (n + 1) +
      lam * ∑ j ∈ Finset.range (n + 1), μ ^ (j + 1) * mser e (n - j) := by
  obtain ⟨G, hG⟩ : ∃ G, G = mk (mser e) := ⟨_, rfl⟩
  obtain ⟨P, hP⟩ : ∃ P, P = mk e := ⟨_, rfl⟩
  have dG : derivative ℝ G = P * G := by rw [hG, hP, d_mser]
  obtain ⟨A, hA⟩ : ∃ A : ℝ⟦X⟧, A = C (-k) * X + C s2 * (X * X) := ⟨_, rfl⟩
  obtain ⟨Q, hQ⟩ : ∃ Q : ℝ⟦X⟧, Q = mk fun j => μ ^ (j + 1) := ⟨_, rfl⟩
  obtain ⟨F, hF⟩ : ∃ F : ℝ⟦X⟧, F = C (k * θ) * X + C lam * (X * Q) := ⟨_, rfl⟩
  obtain ⟨R, hR⟩ : ∃ R, R = F * G + A * derivative ℝ G := ⟨_, rfl⟩
  have hP' : mk e' = derivative ℝ F + derivative ℝ (A * P) := by
    ext i
    have e1 : A * P = C (-k) * (X * P) + C s2 * (X * (X * P)) := by rw [hA]; ring
    rw [map_add, coeff_derivative, coeff_derivative, coeff_mk, e1, hP, hF, hQ, map_add, map_add,
      coeff_C_mul, coeff_C_mul, coeff_C_mul, coeff_C_mul, coeff_succ_X_mul, coeff_succ_X_mul, coeff_succ_X_mul,
      coeff_mk, coeff_mk]
    rcases i with _ | i
    · rw [h0]; simp; ring
    · rw [h, coeff_succ_X_mul, coeff_mk, coeff_X, if_neg (by omega)]; push_cast; ring
  have dR : derivative ℝ R = mk e' * G + P * R := by
    rw [hP', hR, dG]
    simp only [map_add, Derivation.leibniz, smul_eq_mul, dG]
    ring
  have cR : ∀ n, coeff (n + 1) R = (k * θ + n * s2) * mser e n - k * (n + 1) * mser e (n + 1) +
      lam * ∑ j ∈ Finset.range (n + 1), μ ^ (j + 1) * mser e (n - j) := by
    intro n
    have e1 : R = C (k * θ) * (X * G) + C lam * (X * (Q * G)) + (C (-k) * (X * derivative ℝ G) +
        C s2 * (X * (X * derivative ℝ G))) := by rw [hR, hF, hA]; ring
    rw [e1, map_add, map_add, map_add, coeff_C_mul, coeff_C_mul, coeff_C_mul, coeff_C_mul,
      coeff_succ_X_mul, coeff_succ_X_mul, coeff_succ_X_mul, coeff_succ_X_mul, coeff_derivative, coeff_mul,
      Finset.Nat.sum_antidiagonal_eq_sum_range_succ_mk, hQ, hG, coeff_mk, coeff_mk]
    simp only [coeff_mk]
    rcases n with _ | n
    · simp; ring
    · rw [coeff_succ_X_mul, coeff_derivative, coeff_mk]; push_cast; ring
  have c0 : coeff 0 R = 0 := by rw [hR, hA, hF]; simp
  have key : ∀ n, mder e e' n = coeff n R := by
    intro n
    induction n using Nat.strong_induction_on with
    | _ n ih =>
      rcases n with _ | n
      · rw [c0, mder]
      · have hn : ((n : ℝ) + 1) ≠ 0 := by positivity
        apply mul_left_cancel₀ hn
        rw [mder_succ, mul_comm ((n : ℝ) + 1) (coeff (n + 1) R), ← coeff_derivative, dR, map_add, coeff_mul, coeff_mul,
          Finset.Nat.sum_antidiagonal_eq_sum_range_succ_mk, Finset.Nat.sum_antidiagonal_eq_sum_range_succ_mk,
          ← Finset.sum_add_distrib]
        refine Finset.sum_congr rfl fun i hi => ?_
        rw [ih _ (by omega), hG, hP]
        simp
  rw [key, cR]

theorem mser_deriv {e e' : ℕ → ℝ → ℝ} (t : ℝ) (h : ∀ i, HasDerivAt (e i) (e' i t) t) (n : ℕ) :
    HasDerivAt (fun t => mser (fun i => e i t) n) (mder (fun i => e i t) (fun i => e' i t) n) t := by
  induction n using Nat.strong_induction_on with
  | _ n ih =>
    rcases n with _ | n
    · simp only [mser, mder]; exact hasDerivAt_const _ _
    · simp only [mser, mder]
      exact (HasDerivAt.fun_sum fun (i : Fin (n + 1)) _ => (h i).mul (ih (n - (i : ℕ)) (by omega))).div_const _

/-- what a unit of `κ_{j+1} / (j+1)!` at the time 0 adds to `κ_{i+1} / (i+1)!` at the time `t` -/
noncomputable def flow (k β : ℝ) (i j : ℕ) (t : ℝ) : ℝ :=
  i.choose j * Real.exp (-k * t) ^ (j + 1) * (β * (1 - Real.exp (-k * t))) ^ (i - j)

theorem d_flow (k β : ℝ) (i j : ℕ) (t : ℝ) : HasDerivAt (flow k β i j)
    (-(k * (i + 1)) * flow k β i j t + i * (k * β) * flow k β (i - 1) j t) t := by
  have h := ((((d_exp k t).pow (j + 1)).const_mul (i.choose j : ℝ))).mul (((d_one k t).const_mul β).pow (i - j))
  refine h.congr_deriv ?_
  rcases lt_trichotomy i j with hij | rfl | hij
  · simp [flow, Nat.choose_eq_zero_of_lt hij, Nat.choose_eq_zero_of_lt (show i - 1 < j by omega)]
  · rcases i with _ | i
    · simp [flow]
    · simp [flow]
      ring
  · obtain ⟨d, rfl⟩ : ∃ d, i = j + d + 1 := ⟨i - j - 1, by omega⟩
    have h1 : ((j + d + 1 : ℕ) : ℝ) * ((j + d).choose j : ℕ) = (d + 1) * ((j + d + 1).choose j : ℕ) := by
      have := Nat.choose_mul_succ_eq (j + d) j
      rw [show j + d + 1 - j = d + 1 by omega] at this
      have h' : ((j + d).choose j : ℝ) * ((j + d + 1 : ℕ) : ℝ) = ((j + d + 1).choose j : ℕ) * ((d + 1 : ℕ) : ℝ) := by
        exact_mod_cast this
      push_cast at h' ⊢
      linear_combination h'
    simp only [flow, show j + d + 1 - j = d + 1 by omega, show j + d + 1 - 1 = j + d by omega, show j + d - j = d by omega,
      Nat.add_sub_cancel, Pi.pow_apply]
    push_cast at h1 ⊢
    linear_combination (-(k * β) * Real.exp (-k * t) ^ (j + 1) * (β * (1 - Real.exp (-k * t))) ^ d) * h1

/-- `κ_{i+1} / i!` given the initial variance `v`: the stationary value, and the distance to it at the time 0 carried
by `flow` -/
noncomputable def cumOf (k θ σ lam μ v : ℝ) (i : ℕ) (t : ℝ) : ℝ :=
  Srjd.statCumE (σ ^ 2 / (2 * k)) θ (lam / k) μ i + (i + 1) * ∑ j ∈ Finset.range (i + 1),
    ((if j = 0 then v else 0) - Srjd.statCumE (σ ^ 2 / (2 * k)) θ (lam / k) μ j) / (j + 1) * flow k (σ ^ 2 / (2 * k)) i j t

theorem d_cumOf {k θ σ lam μ v : ℝ} (hk : k ≠ 0) (t : ℝ) (i : ℕ) : HasDerivAt (cumOf k θ σ lam μ v i)
    (match i with
      | 0 => k * θ - k * cumOf k θ σ lam μ v 0 t + lam * μ
      | i + 1 => (i + 2) * (-k * cumOf k θ σ lam μ v (i + 1) t + σ ^ 2 / 2 * cumOf k θ σ lam μ v i t + lam * μ ^ (i + 2))) t := by
  obtain ⟨β, hβ⟩ : ∃ β, β = σ ^ 2 / (2 * k) := ⟨_, rfl⟩
  have hs2 : σ ^ 2 / 2 = k * β := by rw [hβ]; field_simp
  obtain ⟨c, hc⟩ : ∃ c, c = lam / k := ⟨_, rfl⟩
  have hl : lam = k * c := by rw [hc]; field_simp
  have h := ((HasDerivAt.fun_sum fun (j : ℕ) (_ : j ∈ Finset.range (i + 1)) => (d_flow k β i j t).const_mul
    (((if j = 0 then v else 0) - Srjd.statCumE β θ c μ j) / (j + 1))).const_mul ((i : ℝ) + 1)).const_add
      (Srjd.statCumE β θ c μ i)
  rw [hβ, hc] at h
  refine h.congr_deriv ?_
  rw [← hβ, ← hc]
  rcases i with _ | i
  · simp only [cumOf, ← hβ, ← hc]
    simp [Srjd.statCumE, hl]
    ring
  · simp only [cumOf, ← hβ, ← hc, hs2]
    have e1 : ∑ j ∈ Finset.range (i + 1 + 1), ((if j = 0 then v else 0) - Srjd.statCumE β θ c μ j) / (j + 1) * flow k β i j t =
        ∑ j ∈ Finset.range (i + 1), ((if j = 0 then v else 0) - Srjd.statCumE β θ c μ j) / (j + 1) * flow k β i j t := by
      rw [Finset.sum_range_succ, flow, Nat.choose_succ_self]; simp
    have e2 : ∑ j ∈ Finset.range (i + 1 + 1), ((if j = 0 then v else 0) - Srjd.statCumE β θ c μ j) / (j + 1) *
        (-(k * ((i + 1 : ℕ) + 1)) * flow k β (i + 1) j t + (i + 1 : ℕ) * (k * β) * flow k β (i + 1 - 1) j t) =
        -(k * ((i + 1 : ℕ) + 1)) * (∑ j ∈ Finset.range (i + 1 + 1), ((if j = 0 then v else 0) - Srjd.statCumE β θ c μ j) / (j + 1) *
          flow k β (i + 1) j t) + (i + 1 : ℕ) * (k * β) *
        ∑ j ∈ Finset.range (i + 1), ((if j = 0 then v else 0) - Srjd.statCumE β θ c μ j) / (j + 1) * flow k β i j t := by
      rw [← e1, Finset.mul_sum, Finset.mul_sum, ← Finset.sum_add_distrib]
      refine Finset.sum_congr rfl fun j _ => ?_
      rw [Nat.add_sub_cancel]; ring
    rw [e2, Srjd.statCumE, hl]
    push_cast
    ring

theorem cumOf_zero {k θ σ lam μ v : ℝ} (i : ℕ) : cumOf k θ σ lam μ v i 0 = if i = 0 then v else 0 := by
  have f0 : ∀ j, flow k (σ ^ 2 / (2 * k)) i j 0 = if j = i then 1 else 0 := fun j => by
    rcases lt_trichotomy i j with h | rfl | h
    · rw [flow, Nat.choose_eq_zero_of_lt h, if_neg (by omega)]; simp
    · simp [flow]
    · rw [if_neg (by omega), flow]
      simp [show i - j ≠ 0 by omega]
  have hi : ((i : ℝ) + 1) ≠ 0 := by positivity
  simp only [cumOf, f0, mul_ite, mul_one, mul_zero]
  rw [Finset.sum_ite_eq', if_pos (by simp)]
  field_simp
  ring

/-- the moments with these cumulants follow Dynkin's formula -/
theorem cumOf_dynkin {k θ σ lam μ : ℝ} (hk : k ≠ 0) (hμ : 0 < μ) (v : ℝ) :
    Srjd.Dynkin k θ σ lam μ v fun n t => n.factorial * mser (fun i => cumOf k θ σ lam μ v i t) n := by
  have hd : ∀ n t, HasDerivAt (fun t => mser (fun i => cumOf k θ σ lam μ v i t) n) _ t := fun n t =>
    mser_deriv t (e := cumOf k θ σ lam μ v) (e' := fun i t => match i with
      | 0 => k * θ - k * cumOf k θ σ lam μ v 0 t + lam * μ
      | i + 1 => (i + 2) * (-k * cumOf k θ σ lam μ v (i + 1) t + σ ^ 2 / 2 * cumOf k θ σ lam μ v i t + lam * μ ^ (i + 2)))
      (d_cumOf hk t) n
  rw [Srjd.dynkin_iff k θ σ lam μ v hμ]
  refine ⟨fun n => ?_, fun n t _ => ((hd n t).const_mul _).continuousAt.continuousWithinAt, fun n t ht => ?_⟩
  · rw [mser_jump (fun _ => 0) _ v (by simp [cumOf_zero]) (by simp [cumOf_zero])]
    have z : ∀ m, mser (fun _ => 0) m = if m = 0 then 1 else 0 := fun m => by
      rcases m with _ | m <;> simp [mser]
    rw [Finset.sum_range_succ, Nat.sub_self, z, if_pos rfl, mul_one, Finset.sum_eq_zero, zero_add]
    · field_simp [Srjd.fac_ne n]
    · intro j hj
      rw [Finset.mem_range] at hj
      rw [z, if_neg (by omega), mul_zero]
  · refine ((hd n t).const_mul _).congr_deriv ?_
    rcases n with _ | n
    · simp [mder]
    · rw [mder_jumps k θ (σ ^ 2 / 2) lam μ _ _ rfl fun i => rfl]
      have hs : ∑ j ∈ Finset.range (n + 1), ((n + 1).choose (j + 1) : ℝ) * ((j + 1).factorial * μ ^ (j + 1)) *
          ((n + 1 - (j + 1)).factorial * mser (fun i => cumOf k θ σ lam μ v i t) (n + 1 - (j + 1))) = (n + 1).factorial *
          ∑ j ∈ Finset.range (n + 1), μ ^ (j + 1) * mser (fun i => cumOf k θ σ lam μ v i t) (n - j) := by
        rw [Finset.mul_sum]
        refine Finset.sum_congr rfl fun j hj => ?_
        rw [Finset.mem_range] at hj
        rw [Srjd.choose_fac n j (by omega), Nat.add_sub_add_right]
        field_simp [Srjd.fac_ne (n - j)]
      simp only [Nat.add_sub_cancel]
      rw [hs, Nat.factorial_succ]
      push_cast
      ring

theorem cumOf_nonneg {k θ σ lam μ v : ℝ} (hk : 0 < k) (hθ : 0 ≤ θ) (hl : 0 ≤ lam) (hμ : 0 < μ) (hv : 0 ≤ v) (i : ℕ) :
    ∀ t, 0 ≤ t → 0 ≤ cumOf k θ σ lam μ v i t := by
  induction i with
  | zero =>
    intro t ht
    have hd : ∀ t, HasDerivAt (fun t => Real.exp (k * t) * cumOf k θ σ lam μ v 0 t) (Real.exp (k * t) * (k * θ + lam * μ)) t := by
      intro t
      have hx : HasDerivAt (fun s => Real.exp (k * s)) (Real.exp (k * t) * k) t := by
        simpa using ((hasDerivAt_id t).const_mul k).exp
      refine (hx.mul (d_cumOf hk.ne' t 0)).congr_deriv ?_
      simp only
      ring
    have hm : Monotone fun t => Real.exp (k * t) * cumOf k θ σ lam μ v 0 t :=
      monotone_of_deriv_nonneg (fun t => (hd t).differentiableAt) fun t => by rw [(hd t).deriv]; positivity
    have h1 := hm ht
    simp only [cumOf_zero, if_true, mul_zero, Real.exp_zero, one_mul] at h1
    exact nonneg_of_mul_nonneg_right (hv.trans h1) (Real.exp_pos _)
  | succ i ih =>
    intro t ht
    have hd : ∀ t, HasDerivAt (fun t => Real.exp ((i + 2) * k * t) * cumOf k θ σ lam μ v (i + 1) t)
        (Real.exp ((i + 2) * k * t) * ((i + 2) * (σ ^ 2 / 2 * cumOf k θ σ lam μ v i t + lam * μ ^ (i + 2)))) t := by
      intro t
      have hx : HasDerivAt (fun s => Real.exp ((i + 2) * k * s)) (Real.exp ((i + 2) * k * t) * ((i + 2) * k)) t := by
        simpa using ((hasDerivAt_id t).const_mul ((i + 2) * k)).exp
      refine (hx.mul (d_cumOf hk.ne' t (i + 1))).congr_deriv ?_
      simp only
      ring
    have hm : MonotoneOn (fun t => Real.exp ((i + 2) * k * t) * cumOf k θ σ lam μ v (i + 1) t) (Set.Ici 0) :=
      monotoneOn_of_deriv_nonneg (convex_Ici 0) (fun t _ => (hd t).continuousAt.continuousWithinAt)
        (fun t _ => (hd t).differentiableAt.differentiableWithinAt) fun t ht => by
          rw [interior_Ici, Set.mem_Ioi] at ht
          have := ih t ht.le
          rw [(hd t).deriv]
          positivity
    have h1 := hm (Set.mem_Ici.2 le_rfl) (Set.mem_Ici.2 ht) ht
    simp only [cumOf_zero, Nat.add_one_ne_zero, if_false, mul_zero] at h1
    exact nonneg_of_mul_nonneg_right h1 (Real.exp_pos _)

end Ajd.Cum

namespace Ajd.Srjd
open Cum

/-- the `n`-th cumulant of the variance at the time `h` given `v_0`, for `n ≥ 1`: with `β = σ² / (2k)`, `x = e^{-kh}`
and the stationary cumulants `n! c_n`,
`n! (v_0 x (β (1-x))^(n-1) + c_n - ∑_{m=1}^n C(n-1,m-1) c_m x^m (β (1-x))^(n-m))` -/
noncomputable def ofCum (p : Par) (n : ℕ) : ℝ :=
  n.factorial * (p.v0 * Real.exp (-p.k * p.h) * (p.sigma ^ 2 / (2 * p.k) * (1 - Real.exp (-p.k * p.h))) ^ (n - 1) +
    statCum p.k p.theta p.sigma p.lmbd p.mu_v n / n.factorial -
    ∑ j ∈ Finset.range n, (n - 1).choose j * (statCum p.k p.theta p.sigma p.lmbd p.mu_v (j + 1) / (j + 1).factorial) *
      Real.exp (-p.k * p.h) ^ (j + 1) * (p.sigma ^ 2 / (2 * p.k) * (1 - Real.exp (-p.k * p.h))) ^ (n - 1 - j))

theorem ofCum_eq (p : Par) (i : ℕ) :
    ofCum p (i + 1) = i.factorial * cumOf p.k p.theta p.sigma p.lmbd p.mu_v p.v0 i p.h := by
  obtain ⟨β, hβ⟩ : ∃ β, β = p.sigma ^ 2 / (2 * p.k) := ⟨_, rfl⟩
  obtain ⟨e, he⟩ : ∃ e, e = statCumE β p.theta (p.lmbd / p.k) p.mu_v := ⟨_, rfl⟩
  have hs : ∀ j, statCum p.k p.theta p.sigma p.lmbd p.mu_v (j + 1) / (j + 1).factorial = e j / (j + 1) := fun j => by
    rw [statCum_eq, Nat.factorial_succ, he, hβ]
    push_cast
    have hn : ((j : ℝ) + 1) ≠ 0 := by positivity
    field_simp [fac_ne j]
  have hi : ((i : ℝ) + 1) ≠ 0 := by positivity
  have e1 : ∑ j ∈ Finset.range (i + 1), ((if j = 0 then p.v0 else 0) - e j) / (j + 1) * flow p.k β i j p.h =
      p.v0 * Real.exp (-p.k * p.h) * (β * (1 - Real.exp (-p.k * p.h))) ^ i -
        ∑ j ∈ Finset.range (i + 1), i.choose j * (e j / (j + 1)) * Real.exp (-p.k * p.h) ^ (j + 1) *
          (β * (1 - Real.exp (-p.k * p.h))) ^ (i - j) := by
    have : ∀ j ∈ Finset.range (i + 1), ((if j = 0 then p.v0 else 0) - e j) / (j + 1) * flow p.k β i j p.h =
        (if j = 0 then p.v0 * flow p.k β i 0 p.h else 0) - i.choose j * (e j / (j + 1)) * Real.exp (-p.k * p.h) ^ (j + 1) *
          (β * (1 - Real.exp (-p.k * p.h))) ^ (i - j) := fun j _ => by
      by_cases hj : j = 0
      · subst hj; simp [flow]; ring
      · simp only [if_neg hj, flow]; ring
    rw [Finset.sum_congr rfl this, Finset.sum_sub_distrib, Finset.sum_ite_eq', if_pos (by simp)]
    simp [flow]
    ring
  rw [cumOf, ← hβ, ← he, e1, ofCum]
  simp only [hs, ← hβ, Nat.add_sub_cancel]
  rw [Nat.factorial_succ]
  push_cast
  field_simp
  ring

/-- C82. `m(n, par)` of cond_mom.py, for all orders `n`, are the moments with the cumulants `ofCum`. -/
theorem C82_m (p : Par) (hk : p.k ≠ 0) (hl : 0 ≤ p.lmbd) (hm : 0 < p.mu_v) (hh : 0 ≤ p.h) :
    ∃ M : ℕ → ℝ, (∀ d n : ℕ, n ≤ d → 2 ≤ d → mV d n p = .ok (M n)) ∧ M 0 = 1 ∧ Cumulants M (ofCum p) :=
  ⟨_, fun d n hd h2 => C50_unique p hk hl hm hh _ (cumOf_dynkin hk hm p.v0) d n hd h2, by simp [mser],
    mser_cum _ _ (ofCum_eq p)⟩

/-- C82. `cm(n, par)` of cond_cmom.py, for all orders `n`, are the moments with the same cumulants but the first,
which is 0. -/
theorem C82_cm (p : Par) (hk : p.k ≠ 0) (hl : 0 ≤ p.lmbd) (hm : 0 < p.mu_v) (hh : 0 ≤ p.h) :
    ∃ M : ℕ → ℝ, (∀ d n : ℕ, n ≤ d → 2 ≤ d → cmV d n p = .ok (M n)) ∧ M 0 = 1 ∧
      Cumulants M (fun n => if n = 1 then 0 else ofCum p n) := by
  obtain ⟨e, he⟩ : ∃ e : ℕ → ℝ, e = fun i => cumOf p.k p.theta p.sigma p.lmbd p.mu_v p.v0 i p.h := ⟨_, rfl⟩
  refine ⟨fun n => n.factorial * mser (fun i => if i = 0 then 0 else e i) n, fun d n hd h2 => ?_, by simp [mser],
    mser_cum _ _ fun i => ?_⟩
  · obtain ⟨r, er, -, -, v⟩ := C36_cmoment_v d n hd h2
    rw [cmV, er, ok_bind, v p hk hl hm hh _ (cumOf_dynkin hk hm p.v0), ← he, ← Finset.sum_range_reflect]
    simp only
    rw [mser_jump e (fun i => if i = 0 then 0 else e i) (-e 0) (by simp) (by simp), Finset.mul_sum]
    refine congrArg Except.ok (Finset.sum_congr rfl fun j hj => ?_)
    rw [Finset.mem_range] at hj
    have h1 : (1 : ℕ).factorial * mser e 1 = e 0 := by simp [mser]
    rw [h1, show n + 1 - 1 - j = n - j by omega, show n - (n - j) = j by omega, Nat.choose_symm (by omega),
      ← Nat.choose_mul_factorial_mul_factorial (show j ≤ n by omega)]
    push_cast
    field_simp [fac_ne j]
  · by_cases hi : i = 0
    · simp [hi]
    · simp [hi, ofCum_eq, he]

/-- C82. Given `v_0` every central moment is nonnegative, also those of odd order, and the kurtosis is at least 3. -/
theorem C82_shape (p : Par) (hk : 0 < p.k) (hθ : 0 ≤ p.theta) (hl : 0 ≤ p.lmbd) (hm : 0 < p.mu_v) (hh : 0 ≤ p.h)
    (hv : 0 ≤ p.v0) :
    ∃ M : ℕ → ℝ, (∀ d n : ℕ, n ≤ d → 2 ≤ d → cmV d n p = .ok (M n)) ∧ (∀ n, 0 ≤ M n) ∧
      M 2 = ofCum p 2 ∧ M 3 = ofCum p 3 ∧ M 4 = ofCum p 4 + 3 * M 2 ^ 2 ∧ 3 * M 2 ^ 2 ≤ M 4 := by
  obtain ⟨M, hM, h1, h⟩ := C82_cm p hk.ne' hl hm hh
  have nn : ∀ i, 0 ≤ ofCum p (i + 1) := fun i => by
    rw [ofCum_eq]
    exact mul_nonneg (Nat.cast_nonneg _) (cumOf_nonneg hk hθ hl hm hv i p.h hh)
  have n4 := nn 3
  have c1 := h 0
  have c2 := h 1
  have c3 := h 2
  have c4 := h 3
  simp [Finset.sum_range_succ, h1] at c1 c2
  simp [Finset.sum_range_succ, h1, c1] at c3
  simp [Finset.sum_range_succ, h1, c1, c2, Nat.choose] at c4
  have c4' : M 4 = ofCum p 4 + 3 * M 2 ^ 2 := by rw [c4, c2]; ring
  refine ⟨M, hM, fun n => ?_, c2, c3, c4', by linarith⟩
  induction n using Nat.strong_induction_on with
  | _ n ih =>
    rcases n with _ | n
    · rw [h1]; exact zero_le_one
    · rw [h n]
      refine Finset.sum_nonneg fun i _ => mul_nonneg (mul_nonneg (Nat.cast_nonneg _) ?_) (ih _ (by omega))
      simp only
      split_ifs
      · exact le_rfl
      · exact nn i

/-! ### the hypotheses are met, and the values -/

example : ∃ p : Par, 0 < p.k ∧ 0 ≤ p.theta ∧ 0 ≤ p.lmbd ∧ 0 < p.mu_v ∧ 0 ≤ p.h ∧ 0 ≤ p.v0 ∧ 0 < p.lmbd :=
  ⟨⟨1, 1, 2, 1, 3, 1 / 2, 1⟩, by norm_num⟩

/-- the first cumulant is the mean of C76 -/
example (p : Par) : ofCum p 1 = (p.theta + p.lmbd / p.k * p.mu_v) +
    (p.v0 - (p.theta + p.lmbd / p.k * p.mu_v)) * Real.exp (-p.k * p.h) := by
  rw [ofCum_eq]
  simp [cumOf, statCumE, flow]

end Ajd.Srjd

namespace Ajd.Cum
open Srjd

/-- central moments have the same cumulants but the first -/
theorem cum_central {M κ : ℕ → ℝ} (h0 : M 0 = 1) (h : Cumulants M κ) :
    Cumulants (fun n => ∑ i ∈ Finset.range (n + 1), n.choose i * (-M 1) ^ (n - i) * M i) fun n => if n = 1 then 0 else κ n := by
  obtain ⟨e, he⟩ : ∃ e : ℕ → ℝ, e = fun i => κ (i + 1) / i.factorial := ⟨_, rfl⟩
  have hκ : ∀ i, κ (i + 1) = i.factorial * e i := fun i => by rw [he]; field_simp [fac_ne i]
  have h' := mser_cum e κ hκ
  have hM : ∀ n, M n = n.factorial * mser e n := by
    intro n
    induction n using Nat.strong_induction_on with
    | _ n ih =>
      rcases n with _ | n
      · rw [h0]; simp [mser]
      · rw [h n, show (n + 1).factorial * mser e (n + 1) = _ from h' n]
        exact Finset.sum_congr rfl fun i _ => by rw [ih _ (by omega)]
  have h1 : M 1 = e 0 := by rw [hM]; simp [mser]
  have hc : (fun n => ∑ i ∈ Finset.range (n + 1), (n.choose i : ℝ) * (-M 1) ^ (n - i) * M i) =
      fun n => n.factorial * mser (fun i => if i = 0 then 0 else e i) n := by
    funext n
    rw [← Finset.sum_range_reflect, mser_jump e (fun i => if i = 0 then 0 else e i) (-e 0) (by simp) (by simp), Finset.mul_sum]
    refine Finset.sum_congr rfl fun j hj => ?_
    rw [Finset.mem_range] at hj
    rw [h1, hM, show n + 1 - 1 - j = n - j by omega, show n - (n - j) = j by omega, Nat.choose_symm (by omega),
      ← Nat.choose_mul_factorial_mul_factorial (show j ≤ n by omega)]
    push_cast
    field_simp [fac_ne j]
  rw [hc]
  refine mser_cum _ _ fun i => ?_
  by_cases hi : i = 0
  · simp [hi]
  · simp [hi, hκ]

end Ajd.Cum

namespace Ajd
open Poly Cpp MeasureTheory ProbabilityTheory Srjd
open scoped NNReal

/-- value of the polynomials of `mcpp` and `cmcpp` -/
noncomputable def cppVal (Λ μ σ : ℝ) (r : IPoly) : ℝ := ev (mono fun i => if i = 0 then Λ else if i = 1 then μ else σ) r

/-- C83. `mcpp(n)`, for all orders, are the moments whose `n`-th cumulant is `λ h` times the `n`-th moment of a jump,
which is `mnorm(n)`. -/
theorem C83_mcpp : ∃ r q : ℕ → IPoly, (∀ n : ℕ, mcpp n = .ok (r n)) ∧ (∀ n : ℕ, mnorm n = .ok (q n)) ∧
    ∀ (Λ : ℝ≥0) (μ σ : ℝ), Cumulants (fun n => cppVal Λ μ σ (r n))
      fun n => Λ * ev (mono fun i => if i = 0 then μ else σ ^ 2) (q n) := by
  choose r hr _ _ _ hv using C24_mcpp
  choose q hq _ _ _ hw using C23_mnorm
  refine ⟨r, q, hr, hq, fun Λ μ σ n => ?_⟩
  have hc : ∀ n, cppVal Λ μ σ (r n) = CppDyn.cm μ (σ ^ 2).toNNReal Λ n := fun n => hv n Λ μ σ
  have hn : ∀ n, ev (mono fun i => if i = 0 then μ else σ ^ 2) (q n) = CppDyn.nm μ (σ ^ 2).toNNReal n := fun n => by
    have := hw n μ (σ ^ 2).toNNReal
    rw [Real.coe_toNNReal _ (sq_nonneg σ)] at this
    exact this
  simp only [hc, hn]
  rw [CppDyn.cm_rec]
  exact Finset.sum_congr rfl fun i _ => by ring

/-- C83. `cmcpp(n)`, for all orders, are the moments with the same cumulants but the first, which is 0. -/
theorem C83_cmcpp : ∃ r q : ℕ → IPoly, (∀ n : ℕ, cmcpp n = .ok (r n)) ∧ (∀ n : ℕ, mnorm n = .ok (q n)) ∧
    ∀ (Λ : ℝ≥0) (μ σ : ℝ), cppVal Λ μ σ (r 0) = 1 ∧ Cumulants (fun n => cppVal Λ μ σ (r n))
      fun n => if n = 1 then 0 else Λ * ev (mono fun i => if i = 0 then μ else σ ^ 2) (q n) := by
  obtain ⟨m, q, hm, hq, hc⟩ := C83_mcpp
  choose r hr _ _ _ _ hv using C25_cmcpp
  refine ⟨r, q, hr, hq, fun Λ μ σ => ?_⟩
  set ν := cppLaw Λ (gaussianReal μ (σ ^ 2).toNNReal) with hν
  have hM : ∀ n, cppVal Λ μ σ (m n) = ∫ x, x ^ n ∂ν := fun n => by
    obtain ⟨s, e, -, -, -, v⟩ := C24_mcpp n
    obtain rfl := Except.ok.inj (e.symm.trans (hm n))
    exact v Λ μ σ
  have h0 : cppVal Λ μ σ (m 0) = 1 := by rw [hM]; exact CppDyn.cm_zero _ _ _
  have hC : ∀ n, cppVal Λ μ σ (r n) =
      ∑ i ∈ Finset.range (n + 1), n.choose i * (-cppVal Λ μ σ (m 1)) ^ (n - i) * cppVal Λ μ σ (m i) := fun n => by
    have h1 : ∫ y, y ∂ν = cppVal Λ μ σ (m 1) := by rw [hM]; simp
    have hexp : ∀ x : ℝ, (x - cppVal Λ μ σ (m 1)) ^ n =
        ∑ i ∈ Finset.range (n + 1), n.choose i * (-cppVal Λ μ σ (m 1)) ^ (n - i) * x ^ i := by
      intro x
      rw [sub_eq_add_neg, add_pow]
      exact Finset.sum_congr rfl fun i _ => by ring
    refine (hv n Λ μ σ).trans ?_
    rw [← hν, h1]
    simp only [hexp]
    rw [integral_finsetSum _ fun i _ => (cpp_integrable_pow Λ μ _ i).const_mul _]
    refine Finset.sum_congr rfl fun i _ => ?_
    rw [integral_const_mul, hM i]
  have h := Cum.cum_central h0 (hc Λ μ σ)
  simp only [hC]
  exact ⟨by simp [h0], h⟩

/-- C83. `cmcpp(4) >= 3 cmcpp(2)^2`, and `cmcpp(3)` has the sign of the mean of a jump. -/
theorem C83_shape : ∃ r2 r3 r4 : IPoly, cmcpp 2 = .ok r2 ∧ cmcpp 3 = .ok r3 ∧ cmcpp 4 = .ok r4 ∧
    ∀ (Λ : ℝ≥0) (μ σ : ℝ), cppVal Λ μ σ r3 = Λ * (μ ^ 2 + 3 * σ ^ 2) * μ ∧
      cppVal Λ μ σ r4 = Λ * (μ ^ 4 + 6 * μ ^ 2 * σ ^ 2 + 3 * σ ^ 4) + 3 * cppVal Λ μ σ r2 ^ 2 ∧
      3 * cppVal Λ μ σ r2 ^ 2 ≤ cppVal Λ μ σ r4 := by
  obtain ⟨r, q, hr, hq, h⟩ := C83_cmcpp
  refine ⟨r 2, r 3, r 4, hr 2, hr 3, hr 4, fun Λ μ σ => ?_⟩
  obtain ⟨h1, hc⟩ := h Λ μ σ
  have q3 : q 3 = ⟨["mu", "sigma^2"], [([3, 0], 1), ([1, 1], 3)]⟩ :=
    Except.ok.inj ((hq 3).symm.trans (by decide +kernel))
  have q4 : q 4 = ⟨["mu", "sigma^2"], [([4, 0], 1), ([2, 1], 6), ([0, 2], 3)]⟩ :=
    Except.ok.inj ((hq 4).symm.trans (by decide +kernel))
  have v3 : ev (mono fun i => if i = 0 then μ else σ ^ 2) (q 3) = μ ^ 3 + 3 * μ * σ ^ 2 := by
    rw [q3]
    simp [ev, mono, Rat.smul_def, Finset.prod_range_succ]
    norm_cast
    try ring
  have v4 : ev (mono fun i => if i = 0 then μ else σ ^ 2) (q 4) = μ ^ 4 + 6 * μ ^ 2 * σ ^ 2 + 3 * σ ^ 4 := by
    rw [q4]
    simp [ev, mono, Rat.smul_def, Finset.prod_range_succ]
    norm_cast
    try ring
  have c1 := hc 0
  have c2 := hc 1
  have c3 := hc 2
  have c4 := hc 3
  simp [Finset.sum_range_succ, h1] at c1 c2
  simp [Finset.sum_range_succ, h1, c1, v3] at c3
  simp [Finset.sum_range_succ, h1, c1, c2, v4, Nat.choose] at c4
  have e4 : cppVal Λ μ σ (r 4) = Λ * (μ ^ 4 + 6 * μ ^ 2 * σ ^ 2 + 3 * σ ^ 4) + 3 * cppVal Λ μ σ (r 2) ^ 2 := by
    rw [c4, c2]; ring
  have hΛ := Λ.coe_nonneg
  have : 0 ≤ (Λ : ℝ) * (μ ^ 4 + 6 * μ ^ 2 * σ ^ 2 + 3 * σ ^ 4) := by positivity
  exact ⟨by rw [c3]; ring, e4, by linarith⟩

/-- the third central moment is `λ h` times the third moment of a jump -/
example : cmcpp 3 = .ok ⟨["lambda*h", "mu", "sigma"], [([1, 3, 0], 1), ([1, 1, 2], 3)]⟩ := by decide +kernel

/-- without variance of the jumps: `λ h` copies of a jump of size `μ` -/
example : ∃ (Λ : ℝ≥0) (μ : ℝ), 0 < (Λ : ℝ) * (μ ^ 2 + 3 * 0 ^ 2) * μ := ⟨1, 1, by norm_num⟩

end Ajd

namespace Ajd.SrjdJ
open Closed Cum Srjd

theorem cum_mono {M M' κ κ' : ℕ → ℝ} (h0 : M 0 = 1) (h0' : M' 0 = 1) (h : Cumulants M κ) (h' : Cumulants M' κ')
    (hκ : ∀ n, 0 ≤ κ n) (hle : ∀ n, κ n ≤ κ' n) (n : ℕ) : M n ≤ M' n := by
  induction n using Nat.strong_induction_on with
  | _ n ih =>
    rcases n with _ | n
    · rw [h0, h0']
    · rw [h n, h' n]
      refine Finset.sum_le_sum fun i _ => ?_
      refine mul_le_mul (mul_le_mul_of_nonneg_left (hle _) (Nat.cast_nonneg _)) (ih _ (by omega)) (cum_nonneg h0 h hκ _)
        (mul_nonneg (Nat.cast_nonneg _) ((hκ _).trans (hle _)))

theorem overJumps_mono {js js' : List ℝ} (h : List.Forall₂ (· ≤ ·) js js') (f : ℝ → ℝ → ℝ) :
    ∀ ts : List ℝ, (∀ s ∈ ts, Monotone fun J => f J s) → overJumps js ts f ≤ overJumps js' ts f := by
  induction h with
  | nil => intro ts _; exact le_rfl
  | cons hJ _ ih =>
    intro ts hf
    rcases ts with _ | ⟨s, ts⟩
    · simp [overJumps]
    · have h1 := ih ts fun s hs => hf s (List.mem_cons_of_mem _ hs)
      have h2 := hf s List.mem_cons_self hJ
      simp only [overJumps, List.zip_cons_cons, List.map_cons, List.sum_cons] at h1 ⊢
      exact add_le_add h2 h1

/-- the weight of a unit of variance in the `n`-th cumulant -/
theorem weight_nonneg {k t : ℝ} (hk : 0 < k) (ht : 0 ≤ t) : 0 ≤ 1 - Real.exp (-k * t) := by
  have : Real.exp (-k * t) ≤ 1 := Real.exp_le_one_iff.2 (by nlinarith)
  linarith

theorem condCum_mono (p : Par) (hp : p.OK) (hk : 0 < p.k) (hθ0 : 0 ≤ p.theta) (hv0 : 0 ≤ p.v0) (hJ0 : ∀ J ∈ p.jumpsize, 0 ≤ J)
    {v' θ' σ' : ℝ} {js' : List ℝ} (hv : p.v0 ≤ v') (hθ : p.theta ≤ θ') (hσ : p.sigma ^ 2 ≤ σ' ^ 2)
    (hJ : List.Forall₂ (· ≤ ·) p.jumpsize js') (n : ℕ) :
    condCum p n ≤ condCum { p with v0 := v', theta := θ', sigma := σ', jumpsize := js' } n := by
  have hh := weight_nonneg hk hp.h
  have hn := overJumps_nonneg p.jumpsize p.jumptime (fun J s =>
    n * J * Real.exp (-p.k * (p.h - s)) * (1 - Real.exp (-p.k * (p.h - s))) ^ (n - 1)) fun J hJ s hs => by
      have := weight_nonneg hk (show 0 ≤ p.h - s by linarith [(hp.time s hs).2])
      have := Real.exp_pos (-p.k * (p.h - s))
      have := hJ0 J hJ
      positivity
  have ho := overJumps_mono hJ (fun J s =>
    n * J * Real.exp (-p.k * (p.h - s)) * (1 - Real.exp (-p.k * (p.h - s))) ^ (n - 1)) p.jumptime fun s hs a b hab => by
      have := weight_nonneg hk (show 0 ≤ p.h - s by linarith [(hp.time s hs).2])
      have := Real.exp_pos (-p.k * (p.h - s))
      simp only
      gcongr
  have := Real.exp_pos (-p.k * p.h)
  rw [condCum, condCum]
  simp only
  refine mul_le_mul (by gcongr) (by gcongr) (add_nonneg (by positivity) hn) (by positivity)

/-- C84. SRJD given the jumps: no moment `m(n, par)` and no central moment `cm(n, par)` decreases when the initial
variance, the mean `theta`, the volatility `|sigma|` or the sizes of the jumps increase. -/
theorem C84_given (p : Par) (hp : p.OK) (hd : p.jumptime.Nodup) (h0 : ∀ s ∈ p.jumptime, 0 < s)
    (hk : 0 < p.k) (hθ : 0 ≤ p.theta) (hv : 0 ≤ p.v0) (hJ : ∀ J ∈ p.jumpsize, 0 ≤ J) (p' : Par) (v' θ' σ' : ℝ) (js' : List ℝ)
    (hp' : p' = { p with v0 := v', theta := θ', sigma := σ', jumpsize := js' }) (hv' : p.v0 ≤ v') (hθ' : p.theta ≤ θ')
    (hσ' : |p.sigma| ≤ |σ'|)
    (hJ' : List.Forall₂ (· ≤ ·) p.jumpsize js') (n : ℕ) :
    ∃ c x x' y y', x ≤ x' ∧ y ≤ y' ∧ ∀ fuel, c ≤ fuel → mV fuel n p = some (.ok x) ∧ mV fuel n p' = some (.ok x') ∧
      cmV fuel n p = some (.ok y) ∧ cmV fuel n p' = some (.ok y') := by
  have ok' : p'.OK := by
    subst hp'
    exact ⟨hp.k, hp.h, hp.len.trans hJ'.length_eq, hp.time⟩
  have ht : p'.jumptime = p.jumptime := by rw [hp']
  have le : ∀ n, condCum p n ≤ condCum p' n := fun n => by rw [hp']; exact condCum_mono p hp hk hθ hv hJ hv' hθ' (sq_le_sq.2 hσ') hJ' n
  have nn := condCum_nonneg p hp hk hθ hv hJ
  obtain ⟨M, hM, m0, hm⟩ := C81_m p hp hd h0
  obtain ⟨M', hM', m0', hm'⟩ := C81_m p' ok' (ht ▸ hd) (ht ▸ h0)
  obtain ⟨N, hN, n0, hn⟩ := C81_cm p hp hd h0
  obtain ⟨N', hN', n0', hn'⟩ := C81_cm p' ok' (ht ▸ hd) (ht ▸ h0)
  obtain ⟨c1, h1⟩ := hM n
  obtain ⟨c2, h2⟩ := hM' n
  obtain ⟨c3, h3⟩ := hN n
  obtain ⟨c4, h4⟩ := hN' n
  refine ⟨max (max c1 c2) (max c3 c4), M n, M' n, N n, N' n, cum_mono m0 m0' hm hm' nn le n,
    cum_mono n0 n0' hn hn' (fun n => ?_) (fun n => ?_) n, fun fuel hf =>
      ⟨h1 fuel (by omega), h2 fuel (by omega), h3 fuel (by omega), h4 fuel (by omega)⟩⟩
  · split_ifs
    · exact le_rfl
    · exact nn n
  · split_ifs
    · exact le_rfl
    · exact le n

/-- C84. SRJD given the jumps: a further upward jump decreases no moment and no central moment. -/
theorem C84_jump (p : Par) (hp : p.OK) (hk : 0 < p.k) (hθ : 0 ≤ p.theta) (hv : 0 ≤ p.v0) (hJ : ∀ J ∈ p.jumpsize, 0 ≤ J)
    (J s : ℝ) (hJ0 : 0 ≤ J) (hs : s ≤ p.h) (p' : Par)
    (hp' : p' = { p with jumpsize := J :: p.jumpsize, jumptime := s :: p.jumptime })
    (hd : p'.jumptime.Nodup) (h0 : ∀ s ∈ p'.jumptime, 0 < s) (n : ℕ) :
    ∃ c x x' y y', x ≤ x' ∧ y ≤ y' ∧ ∀ fuel, c ≤ fuel → mV fuel n p = some (.ok x) ∧ mV fuel n p' = some (.ok x') ∧
      cmV fuel n p = some (.ok y) ∧ cmV fuel n p' = some (.ok y') := by
  have tt : p'.jumptime = s :: p.jumptime := by rw [hp']
  have s0 : 0 < s := h0 s (by rw [tt]; exact List.mem_cons_self)
  have hd1 : p.jumptime.Nodup := (List.nodup_cons.1 (tt ▸ hd)).2
  have h01 : ∀ s ∈ p.jumptime, 0 < s := fun u hu => h0 u (by rw [tt]; exact List.mem_cons_of_mem _ hu)
  have ok' : p'.OK := by
    subst hp'
    refine ⟨hp.k, hp.h, by simp [hp.len], fun u hu => ?_⟩
    rcases List.mem_cons.1 hu with rfl | hu
    · exact ⟨s0.le, hs⟩
    · exact hp.time u hu
  have le : ∀ n, condCum p n ≤ condCum p' n := fun n => by
    have hw := weight_nonneg hk (show 0 ≤ p.h - s by linarith)
    have hh := weight_nonneg hk hp.h
    have := Real.exp_pos (-p.k * (p.h - s))
    have hx : 0 ≤ n * J * Real.exp (-p.k * (p.h - s)) * (1 - Real.exp (-p.k * (p.h - s))) ^ (n - 1) := by positivity
    rw [hp', condCum, condCum]
    simp only [overJumps, List.zip_cons_cons, List.map_cons, List.sum_cons]
    refine mul_le_mul_of_nonneg_left ?_ (by positivity)
    linarith
  have nn := condCum_nonneg p hp hk hθ hv hJ
  obtain ⟨M, hM, m0, hm⟩ := C81_m p hp hd1 h01
  obtain ⟨M', hM', m0', hm'⟩ := C81_m p' ok' hd h0
  obtain ⟨N, hN, n0, hn⟩ := C81_cm p hp hd1 h01
  obtain ⟨N', hN', n0', hn'⟩ := C81_cm p' ok' hd h0
  obtain ⟨c1, h1⟩ := hM n
  obtain ⟨c2, h2⟩ := hM' n
  obtain ⟨c3, h3⟩ := hN n
  obtain ⟨c4, h4⟩ := hN' n
  refine ⟨max (max c1 c2) (max c3 c4), M n, M' n, N n, N' n, cum_mono m0 m0' hm hm' nn le n,
    cum_mono n0 n0' hn hn' (fun n => ?_) (fun n => ?_) n, fun fuel hf =>
      ⟨h1 fuel (by omega), h2 fuel (by omega), h3 fuel (by omega), h4 fuel (by omega)⟩⟩
  · split_ifs
    · exact le_rfl
    · exact nn n
  · split_ifs
    · exact le_rfl
    · exact le n

/-! ### the hypotheses are met -/

example : ∃ (p p' : Par) (J s : ℝ), p.OK ∧ 0 < p.k ∧ 0 ≤ p.theta ∧ 0 ≤ p.v0 ∧ (∀ J ∈ p.jumpsize, 0 ≤ J) ∧ 0 ≤ J ∧ s ≤ p.h ∧
    p' = { p with jumpsize := J :: p.jumpsize, jumptime := s :: p.jumptime } ∧ p'.jumptime.Nodup ∧
    ∀ s ∈ p'.jumptime, 0 < s := by
  refine ⟨{ v0 := 1, k := 1, theta := 1, sigma := 1, h := 3, jumpsize := [5], jumptime := [1] }, _, 2, 2,
    ⟨by norm_num, by norm_num, rfl, by simp⟩, by norm_num, by norm_num, by norm_num, by simp, by norm_num, by norm_num, rfl,
    by norm_num, by simp⟩

example : List.Forall₂ (· ≤ ·) [(1 : ℝ), 5] [1, 6] := by norm_num

end Ajd.SrjdJ

namespace Ajd.Srjd
open Cum

theorem cumOf_mono {k θ σ lam μ v θ' σ' lam' μ' v' : ℝ} (hk : 0 < k) (hθ : 0 ≤ θ) (hl : 0 ≤ lam) (hμ : 0 < μ) (hv : 0 ≤ v)
    (hθ' : θ ≤ θ') (hσ' : σ ^ 2 ≤ σ' ^ 2) (hl' : lam ≤ lam') (hμ' : μ ≤ μ') (hv' : v ≤ v') (i : ℕ) :
    ∀ t, 0 ≤ t → cumOf k θ σ lam μ v i t ≤ cumOf k θ' σ' lam' μ' v' i t := by
  have hp (i : ℕ) : lam * μ ^ i ≤ lam' * μ' ^ i := by gcongr; exact hl.trans hl'
  have key : ∀ i : ℕ, ∀ F : ℝ → ℝ, (∀ t, HasDerivAt
      (fun t => Real.exp ((i + 1) * k * t) * (cumOf k θ' σ' lam' μ' v' i t - cumOf k θ σ lam μ v i t))
      (Real.exp ((i + 1) * k * t) * F t) t) → (∀ t, 0 ≤ t → 0 ≤ F t) →
      ∀ t, 0 ≤ t → cumOf k θ σ lam μ v i t ≤ cumOf k θ' σ' lam' μ' v' i t := by
    intro i F hd hF t ht
    have hm : MonotoneOn (fun t => Real.exp ((i + 1) * k * t) * (cumOf k θ' σ' lam' μ' v' i t - cumOf k θ σ lam μ v i t))
        (Set.Ici 0) :=
      monotoneOn_of_deriv_nonneg (convex_Ici 0) (fun t _ => (hd t).continuousAt.continuousWithinAt)
        (fun t _ => (hd t).differentiableAt.differentiableWithinAt) fun t ht => by
          rw [interior_Ici, Set.mem_Ioi] at ht
          have := hF t ht.le
          rw [(hd t).deriv]
          positivity
    have h1 := hm (Set.mem_Ici.2 le_rfl) (Set.mem_Ici.2 ht) ht
    simp only [cumOf_zero, mul_zero, Real.exp_zero, one_mul] at h1
    have h2 : (0 : ℝ) ≤ (if i = 0 then v' else 0) - if i = 0 then v else 0 := by split_ifs <;> linarith
    exact sub_nonneg.1 (nonneg_of_mul_nonneg_right (h2.trans h1) (Real.exp_pos _))
  have hx : ∀ (i : ℕ) (t : ℝ), HasDerivAt (fun s => Real.exp ((i + 1) * k * s)) (Real.exp ((i + 1) * k * t) * ((i + 1) * k)) t :=
    fun i t => by simpa using ((hasDerivAt_id t).const_mul (((i : ℝ) + 1) * k)).exp
  induction i with
  | zero =>
    refine key 0 (fun _ => k * (θ' - θ) + (lam' * μ' - lam * μ)) (fun t => ?_) fun t _ => ?_
    · refine ((hx 0 t).mul ((d_cumOf hk.ne' t 0).sub (d_cumOf hk.ne' t 0))).congr_deriv ?_
      simp only [Pi.sub_apply]
      push_cast
      ring
    · have h1 := hp 1
      simp only [pow_one] at h1
      have := mul_nonneg hk.le (sub_nonneg.2 hθ')
      linarith
  | succ i ih =>
    refine key (i + 1) (fun t => (i + 2) * ((σ' ^ 2 / 2 * cumOf k θ' σ' lam' μ' v' i t - σ ^ 2 / 2 * cumOf k θ σ lam μ v i t) +
      (lam' * μ' ^ (i + 2) - lam * μ ^ (i + 2)))) (fun t => ?_) fun t ht => ?_
    · refine ((hx (i + 1) t).mul ((d_cumOf hk.ne' t (i + 1)).sub (d_cumOf hk.ne' t (i + 1)))).congr_deriv ?_
      simp only [Pi.sub_apply]
      push_cast
      ring
    · have h1 := ih t ht
      have h0 := cumOf_nonneg (σ := σ) hk hθ hl hμ hv i t ht
      have h2 : σ ^ 2 / 2 * cumOf k θ σ lam μ v i t ≤ σ' ^ 2 / 2 * cumOf k θ' σ' lam' μ' v' i t := by gcongr
      exact mul_nonneg (by positivity) (add_nonneg (sub_nonneg.2 h2) (sub_nonneg.2 (hp _)))

theorem cut {M κ : ℕ → ℝ} (h : Cumulants M κ) : Cumulants M fun n => if n = 0 then 0 else κ n := fun n => by
  rw [h n]; exact Finset.sum_congr rfl fun i _ => by simp

/-- C84. SRJD given the initial variance: no moment `m(n, par)` and no central moment `cm(n, par)` decreases when the
initial variance, the mean `theta`, the volatility `|sigma|`, or the rate or the mean size of the jumps increase. -/
theorem C84_start (p p' : Par) (hk : 0 < p.k) (hθ : 0 ≤ p.theta) (hl : 0 ≤ p.lmbd) (hm : 0 < p.mu_v) (hh : 0 ≤ p.h)
    (hv : 0 ≤ p.v0) (hk' : p'.k = p.k) (hh' : p'.h = p.h) (hv' : p.v0 ≤ p'.v0) (hθ' : p.theta ≤ p'.theta)
    (hσ' : |p.sigma| ≤ |p'.sigma|) (hl' : p.lmbd ≤ p'.lmbd) (hm' : p.mu_v ≤ p'.mu_v) (n : ℕ) :
    ∃ x x' y y', x ≤ x' ∧ y ≤ y' ∧ ∀ d : ℕ, n ≤ d → 2 ≤ d → mV d n p = .ok x ∧ mV d n p' = .ok x' ∧
      cmV d n p = .ok y ∧ cmV d n p' = .ok y' := by
  have le : ∀ i, ofCum p (i + 1) ≤ ofCum p' (i + 1) := fun i => by
    rw [ofCum_eq, ofCum_eq, hk', hh']
    exact mul_le_mul_of_nonneg_left (cumOf_mono hk hθ hl hm hv hθ' (sq_le_sq.2 hσ') hl' hm' hv' i p.h hh) (Nat.cast_nonneg _)
  have nn : ∀ i, 0 ≤ ofCum p (i + 1) := fun i => by
    rw [ofCum_eq]
    exact mul_nonneg (Nat.cast_nonneg _) (cumOf_nonneg hk hθ hl hm hv i p.h hh)
  obtain ⟨M, hM, m0, c⟩ := C82_m p hk.ne' hl hm hh
  obtain ⟨M', hM', m0', c'⟩ := C82_m p' (hk' ▸ hk.ne') (hl.trans hl') (hm.trans_le hm') (hh' ▸ hh)
  obtain ⟨N, hN, n0, e⟩ := C82_cm p hk.ne' hl hm hh
  obtain ⟨N', hN', n0', e'⟩ := C82_cm p' (hk' ▸ hk.ne') (hl.trans hl') (hm.trans_le hm') (hh' ▸ hh)
  refine ⟨M n, M' n, N n, N' n, SrjdJ.cum_mono m0 m0' (cut c) (cut c') (fun n => ?_) (fun n => ?_) n,
    SrjdJ.cum_mono n0 n0' (cut e) (cut e') (fun n => ?_) (fun n => ?_) n,
    fun d hd h2 => ⟨hM d n hd h2, hM' d n hd h2, hN d n hd h2, hN' d n hd h2⟩⟩
  all_goals
    rcases n with _ | n
    · simp
    · simp only [Nat.add_one_ne_zero, if_false]
      try split_ifs
      all_goals first
        | exact le_rfl
        | exact nn n
        | exact le n

/-- C84. SRJD: no stationary central moment of the variance, `cmoment_v(n)` of cmom.py, decreases when the mean `theta`,
the volatility `|sigma|`, or the rate or the mean size of the jumps increase. -/
theorem C84_stationary (d n : ℕ) (hd : n ≤ d) : ∃ r, ucmomentV d n = .ok r ∧
    ∀ k θ σ lam μ θ' σ' lam' μ' : ℝ, 0 < k → 0 ≤ θ → 0 ≤ lam → 0 < μ → θ ≤ θ' → |σ| ≤ |σ'| → lam ≤ lam' → μ ≤ μ' →
      Poly.ev (statVal k (θ + lam * μ / k) σ lam μ) r ≤ Poly.ev (statVal k (θ' + lam' * μ' / k) σ' lam' μ') r := by
  obtain ⟨r, e, v⟩ := cen_val d n hd
  refine ⟨r, e, fun k θ σ lam μ θ' σ' lam' μ' hk hθ hl hμ hθ' hσ' hl' hμ' => ?_⟩
  rw [v _ _ _ _ _ hk.ne' hl hμ, v _ _ _ _ _ hk.ne' (hl.trans hl') (hμ.trans_le hμ')]
  have hs := sq_le_sq.2 hσ'
  have h1 : Cumulants (cmS k (θ + lam * μ / k) σ lam μ) fun n => if n = 1 then 0 else statCum k θ σ lam μ n := fun n => by
    rw [cen_cum hk.ne']; exact Finset.sum_congr rfl fun i _ => by simp
  have h2 : Cumulants (cmS k (θ' + lam' * μ' / k) σ' lam' μ') fun n => if n = 1 then 0 else statCum k θ' σ' lam' μ' n :=
    fun n => by rw [cen_cum hk.ne']; exact Finset.sum_congr rfl fun i _ => by simp
  refine SrjdJ.cum_mono (by rw [cmS]) (by rw [cmS]) (cut h1) (cut h2) (fun n => ?_) (fun n => ?_) n
  · rcases n with _ | n
    · simp
    · simp only [Nat.add_one_ne_zero, if_false]
      split_ifs
      · exact le_rfl
      · exact (statCum_pos hk hθ hl hμ n).1
  · rcases n with _ | n
    · simp
    · simp only [Nat.add_one_ne_zero, if_false]
      split_ifs
      · exact le_rfl
      · have := hl.trans hl'
        have := hθ.trans hθ'
        have := hμ.trans_le hμ'
        rw [statCum, statCum]
        gcongr

/-- C84. SRJD: nor does any stationary moment of the variance, `moment_v(n)` of mom.py. -/
theorem C84_moment_v (d n : ℕ) (hd : n ≤ d) (simplify : Bool) : ∃ r, umomentV d n simplify = .ok r ∧
    ∀ k θ σ lam μ θ' σ' lam' μ' : ℝ, 0 < k → 0 ≤ θ → 0 ≤ lam → 0 < μ → θ ≤ θ' → |σ| ≤ |σ'| → lam ≤ lam' → μ ≤ μ' →
      Poly.ev (statVal k (if simplify then θ else θ + lam * μ / k) σ lam μ) r ≤
        Poly.ev (statVal k (if simplify then θ' else θ' + lam' * μ' / k) σ' lam' μ') r := by
  obtain ⟨r, e, -, -, v⟩ := C51_moment_v d n hd simplify
  refine ⟨r, e, fun k θ σ lam μ θ' σ' lam' μ' hk hθ hl hμ hθ' hσ' hl' hμ' => ?_⟩
  obtain ⟨M, hM, -⟩ := C51_stationary k θ σ lam μ hk.ne' hμ
  obtain ⟨M', hM', -⟩ := C51_stationary k θ' σ' lam' μ' hk.ne' (hμ.trans_le hμ')
  rw [v k θ σ lam μ hk.ne' hl hμ M hM, v k θ' σ' lam' μ' hk.ne' (hl.trans hl') (hμ.trans_le hμ') M' hM']
  have hs := sq_le_sq.2 hσ'
  refine SrjdJ.cum_mono hM.1 hM'.1 (cut (stat_cum hk.ne' hμ hM)) (cut (stat_cum hk.ne' (hμ.trans_le hμ') hM'))
    (fun n => ?_) (fun n => ?_) n
  · rcases n with _ | n
    · simp
    · exact (statCum_pos hk hθ hl hμ n).1
  · have := hl.trans hl'
    have := hθ.trans hθ'
    have := hμ.trans_le hμ'
    split_ifs
    · exact le_rfl
    · rw [statCum, statCum]
      gcongr

example : ∃ p p' : Par, 0 < p.k ∧ 0 ≤ p.theta ∧ 0 ≤ p.lmbd ∧ 0 < p.mu_v ∧ 0 ≤ p.h ∧ 0 ≤ p.v0 ∧ p'.k = p.k ∧ p'.h = p.h ∧
    p.v0 < p'.v0 ∧ p.theta < p'.theta ∧ |p.sigma| < |p'.sigma| ∧ p.lmbd < p'.lmbd ∧ p.mu_v < p'.mu_v :=
  ⟨⟨1, 1, 2, 1, 3, 1 / 2, 1⟩, ⟨2, 1, 3, -2, 4, 1, 1⟩, by norm_num⟩

end Ajd.Srjd

namespace Ajd.Cum
open Srjd PowerSeries

theorem mser_add (e e' : ℕ → ℝ) (n : ℕ) :
    mser (fun i => e i + e' i) n = ∑ j ∈ Finset.range (n + 1), mser e j * mser e' (n - j) := by
  obtain ⟨F, hF⟩ : ∃ F, F = mk (mser e) * mk (mser e') := ⟨_, rfl⟩
  have dF : derivative ℝ F = mk (fun i => e i + e' i) * F := by
    have : (mk fun i => e i + e' i) = mk e + mk e' := by ext i; simp
    rw [hF, Derivation.leibniz, smul_eq_mul, smul_eq_mul, d_mser, d_mser, this]; ring
  have key : ∀ n, mser (fun i => e i + e' i) n = coeff n F := by
    intro n
    induction n using Nat.strong_induction_on with
    | _ n ih =>
      rcases n with _ | n
      · rw [hF, coeff_mul]; simp [mser]
      · have h1 := congrArg (coeff n) dF
        rw [coeff_derivative, coeff_mul, Finset.Nat.sum_antidiagonal_eq_sum_range_succ_mk] at h1
        have h2 := mser_succ (fun i => e i + e' i) n
        rw [Finset.sum_congr rfl fun i _ => by rw [ih (n - i) (by omega)]] at h2
        simp only [coeff_mk] at h1
        have hn : ((n : ℝ) + 1) ≠ 0 := by positivity
        exact mul_left_cancel₀ hn (h2.trans (h1.symm.trans (mul_comm _ _)))
  rw [key, hF, coeff_mul, Finset.Nat.sum_antidiagonal_eq_sum_range_succ_mk]
  simp

theorem cum_mser {M κ : ℕ → ℝ} (h0 : M 0 = 1) (h : Cumulants M κ) (n : ℕ) :
    M n = n.factorial * mser (fun i => κ (i + 1) / i.factorial) n := by
  have h' := mser_cum (fun i => κ (i + 1) / i.factorial) κ fun i => by field_simp [fac_ne i]
  induction n using Nat.strong_induction_on with
  | _ n ih =>
    rcases n with _ | n
    · rw [h0]; simp [mser]
    · rw [h n]
      refine Eq.trans ?_ (h' n).symm
      exact Finset.sum_congr rfl fun i _ => by rw [ih _ (by omega)]

/-- moments whose cumulants are the sums of two lists of cumulants are those of a sum of independent variables -/
theorem cum_add {M M' N κ κ' ν : ℕ → ℝ} (h0 : M 0 = 1) (h0' : M' 0 = 1) (hN : N 0 = 1) (h : Cumulants M κ)
    (h' : Cumulants M' κ') (hν : Cumulants N ν) (ha : ∀ i, ν (i + 1) = κ (i + 1) + κ' (i + 1)) (n : ℕ) :
    N n = ∑ j ∈ Finset.range (n + 1), n.choose j * M j * M' (n - j) := by
  rw [cum_mser hN hν, show (fun i : ℕ => ν (i + 1) / (i.factorial : ℝ)) =
    fun i => κ (i + 1) / i.factorial + κ' (i + 1) / i.factorial from funext fun i => by rw [ha, add_div], mser_add,
    Finset.mul_sum]
  refine Finset.sum_congr rfl fun j hj => ?_
  rw [Finset.mem_range] at hj
  rw [cum_mser h0 h, cum_mser h0' h', ← Nat.choose_mul_factorial_mul_factorial (show j ≤ n by omega)]
  push_cast
  ring

end Ajd.Cum

namespace Ajd.SrjdJ
open Closed Cum Srjd

theorem overJumps_append (js js' ts ts' : List ℝ) (hl : js.length = ts.length) (f : ℝ → ℝ → ℝ) :
    overJumps (js ++ js') (ts ++ ts') f = overJumps js ts f + overJumps js' ts' f := by
  simp [overJumps, List.zip_append hl]

/-- C85. SRJD given the jumps: the sum of two independent variances with the same `k` and `sigma` is one whose initial
value and mean `theta` are the sums, and whose jumps are those of both. So its moments `m(n, par)` and central moments
`cm(n, par)` are the binomial convolutions of those of the two. -/
theorem C85_given (p p' : Par) (hp : p.OK) (hp' : p'.OK) (hk : p'.k = p.k) (hσ : p'.sigma = p.sigma) (hh : p'.h = p.h) (q : Par)
    (hq : q = { p with v0 := p.v0 + p'.v0, theta := p.theta + p'.theta, jumpsize := p.jumpsize ++ p'.jumpsize, jumptime := p.jumptime ++ p'.jumptime })
    (hd : q.jumptime.Nodup) (h0 : ∀ s ∈ q.jumptime, 0 < s) :
    ∃ x y z x' y' z' : ℕ → ℝ, (∀ n, z n = ∑ j ∈ Finset.range (n + 1), n.choose j * x j * y (n - j)) ∧
      (∀ n, z' n = ∑ j ∈ Finset.range (n + 1), n.choose j * x' j * y' (n - j)) ∧
      ∀ n : ℕ, ∃ c, ∀ fuel, c ≤ fuel → mV fuel n p = some (.ok (x n)) ∧ mV fuel n p' = some (.ok (y n)) ∧
        mV fuel n q = some (.ok (z n)) ∧ cmV fuel n p = some (.ok (x' n)) ∧ cmV fuel n p' = some (.ok (y' n)) ∧
        cmV fuel n q = some (.ok (z' n)) := by
  have tt : q.jumptime = p.jumptime ++ p'.jumptime := by rw [hq]
  rw [tt] at hd h0
  have okq : q.OK := by
    subst hq
    refine ⟨hp.k, hp.h, by simp [hp.len, hp'.len], fun s hs => ?_⟩
    rcases List.mem_append.1 hs with hs | hs
    · exact hp.time s hs
    · exact hh ▸ hp'.time s hs
  have hc : ∀ i, condCum q (i + 1) = condCum p (i + 1) + condCum p' (i + 1) := fun i => by
    rw [hq, condCum, condCum, condCum, hk, hσ, hh]
    simp only
    rw [overJumps_append _ _ _ _ (by first | exact hp.len | exact hp.len.symm)]
    ring
  have d1 := (List.nodup_append.1 hd).1
  have d2 := (List.nodup_append.1 hd).2.1
  have z1 : ∀ s ∈ p.jumptime, 0 < s := fun s hs => h0 s (List.mem_append_left _ hs)
  have z2 : ∀ s ∈ p'.jumptime, 0 < s := fun s hs => h0 s (List.mem_append_right _ hs)
  obtain ⟨M, hM, m0, hm⟩ := C81_m p hp d1 z1
  obtain ⟨M', hM', m0', hm'⟩ := C81_m p' hp' d2 z2
  obtain ⟨L, hL, l0, hl⟩ := C81_m q okq (tt ▸ hd) (tt ▸ h0)
  obtain ⟨N, hN, n0, hn⟩ := C81_cm p hp d1 z1
  obtain ⟨N', hN', n0', hn'⟩ := C81_cm p' hp' d2 z2
  obtain ⟨K, hK, k0, hkk⟩ := C81_cm q okq (tt ▸ hd) (tt ▸ h0)
  refine ⟨M, M', L, N, N', K, cum_add m0 m0' l0 hm hm' hl hc, cum_add n0 n0' k0 hn hn' hkk fun i => ?_, fun n => ?_⟩
  · split_ifs
    · simp
    · exact hc i
  · obtain ⟨c1, h1⟩ := hM n
    obtain ⟨c2, h2⟩ := hM' n
    obtain ⟨c3, h3⟩ := hL n
    obtain ⟨c4, h4⟩ := hN n
    obtain ⟨c5, h5⟩ := hN' n
    obtain ⟨c6, h6⟩ := hK n
    exact ⟨c1 + c2 + c3 + c4 + c5 + c6, fun fuel hf => ⟨h1 fuel (by omega), h2 fuel (by omega), h3 fuel (by omega),
      h4 fuel (by omega), h5 fuel (by omega), h6 fuel (by omega)⟩⟩

example : ∃ p p' q : Par, p.OK ∧ p'.OK ∧ p'.k = p.k ∧ p'.sigma = p.sigma ∧ p'.h = p.h ∧
    q = { p with v0 := p.v0 + p'.v0, theta := p.theta + p'.theta, jumpsize := p.jumpsize ++ p'.jumpsize, jumptime := p.jumptime ++ p'.jumptime } ∧
    q.jumptime.Nodup ∧ ∀ s ∈ q.jumptime, 0 < s :=
  ⟨{ v0 := 1, k := 1, theta := 1, sigma := 1, h := 3, jumpsize := [5], jumptime := [1] },
    { v0 := 2, k := 1, theta := 1, sigma := 1, h := 3, jumpsize := [4], jumptime := [2] }, _,
    ⟨by norm_num, by norm_num, rfl, by simp⟩, ⟨by norm_num, by norm_num, rfl, by norm_num⟩, rfl, rfl, rfl, rfl,
    by norm_num, by simp⟩

end Ajd.SrjdJ

namespace Ajd.Srjd
open Cum

theorem statCum_add (k θ σ lam μ θ' lam' : ℝ) (n : ℕ) :
    statCum k (θ + θ') σ (lam + lam') μ n = statCum k θ σ lam μ n + statCum k θ' σ lam' μ n := by
  rw [statCum, statCum, statCum]; ring

theorem ofCum_add (p p' q : Par) (hk : p'.k = p.k) (hσ : p'.sigma = p.sigma) (hm : p'.mu_v = p.mu_v) (hh : p'.h = p.h)
    (hq : q = { p with v0 := p.v0 + p'.v0, theta := p.theta + p'.theta, lmbd := p.lmbd + p'.lmbd }) (n : ℕ) :
    ofCum q n = ofCum p n + ofCum p' n := by
  rw [hq, ofCum, ofCum, ofCum, hk, hσ, hm, hh]
  simp only [statCum_add, add_div, mul_add, add_mul, Finset.sum_add_distrib]
  ring

/-- C85. SRJD given the initial variance: likewise, if the jump sizes have the same mean; the rates of the jumps add. -/
theorem C85_start (p p' q : Par) (hk0 : p.k ≠ 0) (hl : 0 ≤ p.lmbd) (hl' : 0 ≤ p'.lmbd) (hm0 : 0 < p.mu_v) (hh0 : 0 ≤ p.h)
    (hk : p'.k = p.k) (hσ : p'.sigma = p.sigma) (hm : p'.mu_v = p.mu_v) (hh : p'.h = p.h)
    (hq : q = { p with v0 := p.v0 + p'.v0, theta := p.theta + p'.theta, lmbd := p.lmbd + p'.lmbd }) :
    ∃ x y z x' y' z' : ℕ → ℝ, (∀ n, z n = ∑ j ∈ Finset.range (n + 1), n.choose j * x j * y (n - j)) ∧
      (∀ n, z' n = ∑ j ∈ Finset.range (n + 1), n.choose j * x' j * y' (n - j)) ∧
      ∀ d n : ℕ, n ≤ d → 2 ≤ d → mV d n p = .ok (x n) ∧ mV d n p' = .ok (y n) ∧ mV d n q = .ok (z n) ∧
        cmV d n p = .ok (x' n) ∧ cmV d n p' = .ok (y' n) ∧ cmV d n q = .ok (z' n) := by
  have hc := ofCum_add p p' q hk hσ hm hh hq
  have q1 : q.k ≠ 0 := by rw [hq]; exact hk0
  have q2 : 0 ≤ q.lmbd := by rw [hq]; exact add_nonneg hl hl'
  have q3 : 0 < q.mu_v := by rw [hq]; exact hm0
  have q4 : 0 ≤ q.h := by rw [hq]; exact hh0
  obtain ⟨M, hM, m0, a1⟩ := C82_m p hk0 hl hm0 hh0
  obtain ⟨M', hM', m0', a2⟩ := C82_m p' (hk ▸ hk0) hl' (hm ▸ hm0) (hh ▸ hh0)
  obtain ⟨L, hL, l0, a3⟩ := C82_m q q1 q2 q3 q4
  obtain ⟨N, hN, n0, b1⟩ := C82_cm p hk0 hl hm0 hh0
  obtain ⟨N', hN', n0', b2⟩ := C82_cm p' (hk ▸ hk0) hl' (hm ▸ hm0) (hh ▸ hh0)
  obtain ⟨K, hK, k0, b3⟩ := C82_cm q q1 q2 q3 q4
  refine ⟨M, M', L, N, N', K, cum_add m0 m0' l0 a1 a2 a3 fun i => hc _, cum_add n0 n0' k0 b1 b2 b3 fun i => ?_,
    fun d n hd h2 => ⟨hM d n hd h2, hM' d n hd h2, hL d n hd h2, hN d n hd h2, hN' d n hd h2, hK d n hd h2⟩⟩
  split_ifs
  · simp
  · exact hc _

/-- C85. SRJD: likewise for the stationary moments, `moment_v(n)` of mom.py. -/
theorem C85_stationary (d n : ℕ) (hd : n ≤ d) (simplify : Bool) : ∃ r : ℕ → IPoly,
    (∀ i ≤ n, umomentV d i simplify = .ok (r i)) ∧
    ∀ k θ σ lam μ θ' lam' : ℝ, k ≠ 0 → 0 ≤ lam → 0 ≤ lam' → 0 < μ →
      let val θ lam i := Poly.ev (statVal k (if simplify then θ else θ + lam * μ / k) σ lam μ) (r i)
      val (θ + θ') (lam + lam') n = ∑ j ∈ Finset.range (n + 1), n.choose j * val θ lam j * val θ' lam' (n - j) := by
  have H : ∀ i, ∃ r, i ≤ n → umomentV d i simplify = .ok r ∧
      ∀ k θ σ lam μ : ℝ, k ≠ 0 → 0 ≤ lam → 0 < μ → ∀ M, Stationary k θ σ lam μ M →
        Poly.ev (statVal k (if simplify then θ else θ + lam * μ / k) σ lam μ) r = M i := by
    intro i
    by_cases hi : i ≤ n
    · obtain ⟨r, e, -, -, v⟩ := C51_moment_v d i (by omega) simplify
      exact ⟨r, fun _ => ⟨e, v⟩⟩
    · exact ⟨⟨[], []⟩, fun h => absurd h hi⟩
  choose r hr using H
  refine ⟨r, fun i hi => (hr i hi).1, fun k θ σ lam μ θ' lam' hk hl hl' hμ => ?_⟩
  obtain ⟨M, hM, -⟩ := C51_stationary k θ σ lam μ hk hμ
  obtain ⟨M', hM', -⟩ := C51_stationary k θ' σ lam' μ hk hμ
  obtain ⟨N, hN, -⟩ := C51_stationary k (θ + θ') σ (lam + lam') μ hk hμ
  intro val
  rw [show val (θ + θ') (lam + lam') n = N n from (hr n le_rfl).2 k _ σ _ μ hk (add_nonneg hl hl') hμ N hN,
    cum_add hM.1 hM'.1 hN.1 (stat_cum hk hμ hM) (stat_cum hk hμ hM') (stat_cum hk hμ hN) fun i => statCum_add ..]
  refine Finset.sum_congr rfl fun j hj => ?_
  rw [Finset.mem_range] at hj
  rw [show val θ lam j = M j from (hr j (by omega)).2 k _ σ _ μ hk hl hμ M hM,
    show val θ' lam' (n - j) = M' (n - j) from (hr (n - j) (by omega)).2 k _ σ _ μ hk hl' hμ M' hM']

example : ∃ p p' : Par, p.k ≠ 0 ∧ 0 ≤ p.lmbd ∧ 0 ≤ p'.lmbd ∧ 0 < p.mu_v ∧ 0 ≤ p.h ∧ p'.k = p.k ∧ p'.sigma = p.sigma ∧
    p'.mu_v = p.mu_v ∧ p'.h = p.h ∧ p.v0 ≠ p'.v0 ∧ p.theta ≠ p'.theta ∧ p.lmbd ≠ p'.lmbd :=
  ⟨⟨1, 1, 2, 1, 3, 1 / 2, 1⟩, ⟨2, 1, 3, 1, 4, 1 / 2, 1⟩, by norm_num⟩

end Ajd.Srjd
