import Verif.Props.Cumulant
import Verif.Props.ClosedAt
import Mathlib.RingTheory.PowerSeries.Derivative

/-! C81: cumulants of the variance given its jumps. -/

namespace Ajd.Cum

/-- the moments, divided by `n!`, from the cumulants `e i = κ_{i+1} / i!` -/
noncomputable def mser (e : ℕ → ℝ) : ℕ → ℝ
  | 0 => 1
  | n + 1 => (∑ i : Fin (n + 1), e i * mser e (n - i)) / (n + 1)

theorem mser_succ (e : ℕ → ℝ) (n : ℕ) :
    (n + 1) * mser e (n + 1) = ∑ i ∈ Finset.range (n + 1), e i * mser e (n - i) := by
  have hn : ((n : ℝ) + 1) ≠ 0 := by positivity
  rw [mser, mul_div_cancel₀ _ hn, ← Fin.sum_univ_eq_sum_range fun i => e i * mser e (n - i)]

/-- their derivatives in time -/
noncomputable def mder (e e' : ℕ → ℝ) : ℕ → ℝ
  | 0 => 0
  | n + 1 => (∑ i : Fin (n + 1), (e' i * mser e (n - i) + e i * mder e e' (n - i))) / (n + 1)

theorem mder_succ (e e' : ℕ → ℝ) (n : ℕ) :
    (n + 1) * mder e e' (n + 1) = ∑ i ∈ Finset.range (n + 1), (e' i * mser e (n - i) + e i * mder e e' (n - i)) := by
  have hn : ((n : ℝ) + 1) ≠ 0 := by positivity
  rw [mder, mul_div_cancel₀ _ hn, ← Fin.sum_univ_eq_sum_range fun i => e' i * mser e (n - i) + e i * mder e e' (n - i)]

open PowerSeries in
theorem d_mser (e : ℕ → ℝ) : derivative ℝ (mk (mser e)) = mk e * mk (mser e) := by
  ext n
  rw [coeff_derivative, coeff_mk, coeff_mul, Finset.Nat.sum_antidiagonal_eq_sum_range_succ_mk, mul_comm, mser_succ]
  simp

open PowerSeries in
/-- the equation of the moments from that of the cumulants -/
theorem mder_eq (k θ s2 : ℝ) (e e' : ℕ → ℝ) (h0 : e' 0 = k * θ - k * e 0)
    (h : ∀ i : ℕ, e' (i + 1) = (i + 2) * (-k * e (i + 1) + s2 * e i)) (n : ℕ) :
    mder e e' (n + 1) = (k * θ + n * s2) * mser e n - k * (n + 1) * mser e (n + 1) := by
  obtain ⟨G, hG⟩ : ∃ G, G = mk (mser e) := ⟨_, rfl⟩
  obtain ⟨P, hP⟩ : ∃ P, P = mk e := ⟨_, rfl⟩
  have dG : derivative ℝ G = P * G := by rw [hG, hP, d_mser]
  obtain ⟨A, hA⟩ : ∃ A : ℝ⟦X⟧, A = C (-k) * X + C s2 * (X * X) := ⟨_, rfl⟩
  obtain ⟨R, hR⟩ : ∃ R, R = C (k * θ) * X * G + A * derivative ℝ G := ⟨_, rfl⟩
  have hP' : mk e' = C (k * θ) + derivative ℝ (A * P) := by
    ext i
    rw [map_add, coeff_derivative, coeff_mk, hA, hP, coeff_C, add_mul, map_add, mul_assoc, mul_assoc, coeff_C_mul, coeff_C_mul,
      mul_assoc, coeff_succ_X_mul, coeff_succ_X_mul, coeff_mk]
    rcases i with _ | i
    · rw [h0]; simp; ring
    · rw [h, coeff_succ_X_mul, coeff_mk]; simp; ring
  have dR : derivative ℝ R = mk e' * G + P * R := by
    rw [hP', hR, dG]
    simp only [map_add, Derivation.leibniz, smul_eq_mul, dG, derivative_C, derivative_X]
    ring
  have cR : ∀ n, coeff (n + 1) R = (k * θ + n * s2) * mser e n - k * (n + 1) * mser e (n + 1) := by
    intro n
    rw [hR, map_add, hA, add_mul, map_add, mul_assoc, mul_assoc, mul_assoc, mul_assoc, coeff_C_mul, coeff_C_mul, coeff_C_mul,
      coeff_succ_X_mul, coeff_succ_X_mul, coeff_succ_X_mul, coeff_derivative, hG, coeff_mk, coeff_mk]
    rcases n with _ | n
    · simp; ring
    · rw [coeff_succ_X_mul, coeff_derivative, coeff_mk]; push_cast; ring
  have c0 : coeff 0 R = 0 := by rw [hR, hA]; simp
  have key : ∀ n, mder e e' n = coeff n R := by
    intro n
    induction n using Nat.strong_induction_on with
    | _ n ih =>
      rcases n with _ | n
      · rw [c0, mder]
      · have hn : ((n : ℝ) + 1) ≠ 0 := by positivity
        apply mul_left_cancel₀ hn
        rw [mder_succ, mul_comm ((n : ℝ) + 1) (coeff (n + 1) R), ← coeff_derivative, dR, map_add, coeff_mul, coeff_mul,
          Finset.Nat.sum_antidiagonal_eq_sum_range_succ_mk, Finset.Nat.sum_antidiagonal_eq_sum_range_succ_mk,
          ← Finset.sum_add_distrib]
        refine Finset.sum_congr rfl fun i hi => ?_
        rw [ih _ (by omega), hG, hP]
        simp
  rw [key, cR]

open PowerSeries in
/-- a jump -/
theorem mser_jump (e e1 : ℕ → ℝ) (J : ℝ) (h0 : e1 0 = e 0 + J) (h : ∀ i, e1 (i + 1) = e (i + 1)) (n : ℕ) :
    mser e1 n = ∑ j ∈ Finset.range (n + 1), J ^ j / j.factorial * mser e (n - j) := by
  obtain ⟨G, hG⟩ : ∃ G, G = mk (mser e) := ⟨_, rfl⟩
  obtain ⟨H, hH⟩ : ∃ H : ℝ⟦X⟧, H = mk fun j => J ^ j / j.factorial := ⟨_, rfl⟩
  have dH : derivative ℝ H = C J * H := by
    ext i
    rw [coeff_derivative, coeff_C_mul, hH, coeff_mk, coeff_mk, Nat.factorial_succ]
    push_cast
    have hn : ((i : ℝ) + 1) ≠ 0 := by positivity
    field_simp [Srjd.fac_ne i]
    try ring
  have hP : mk e1 = mk e + C J := by
    ext i
    rw [map_add, coeff_mk, coeff_mk, coeff_C]
    rcases i with _ | i
    · simp [h0]
    · simp [h]
  have dF : derivative ℝ (H * G) = mk e1 * (H * G) := by
    rw [Derivation.leibniz, smul_eq_mul, smul_eq_mul, dH, hG, d_mser, hP]; ring
  have key : ∀ n, mser e1 n = coeff n (H * G) := by
    intro n
    induction n using Nat.strong_induction_on with
    | _ n ih =>
      rcases n with _ | n
      · rw [mser, hH, hG]; simp [mser]
      · have hn : ((n : ℝ) + 1) ≠ 0 := by positivity
        apply mul_left_cancel₀ hn
        rw [mser_succ, mul_comm ((n : ℝ) + 1) (coeff (n + 1) (H * G)), ← coeff_derivative, dF, coeff_mul,
          Finset.Nat.sum_antidiagonal_eq_sum_range_succ_mk]
        refine Finset.sum_congr rfl fun i hi => ?_
        rw [ih _ (by omega)]
        simp
  rw [key, coeff_mul, Finset.Nat.sum_antidiagonal_eq_sum_range_succ_mk, hH, hG]
  simp

open Gen

variable {N : ℕ} {s : Fin N → ℝ}

theorem piece_const (c : ℝ) : Piece s (fun _ => c) (fun _ => 0) fun _ => c where
  deriv _ _ := hasDerivWithinAt_const _ _ _
  left _ _ := tendsto_const_nhds
  only _ _ := rfl

theorem piece_sum {ι : Type} (F : Finset ι) {φ φ' ℓ : ι → ℝ → ℝ} (h : ∀ i, i ∈ F → Piece s (φ i) (φ' i) (ℓ i)) :
    Piece s (fun t => ∑ i ∈ F, φ i t) (fun t => ∑ i ∈ F, φ' i t) fun t => ∑ i ∈ F, ℓ i t where
  deriv r hr := HasDerivWithinAt.fun_sum fun i hi => (h i hi).deriv r hr
  left r hr := tendsto_finsetSum _ fun i hi => (h i hi).left r hr
  only r hr := Finset.sum_congr rfl fun i hi => (h i hi).only r hr

theorem piece_scale {φ φ' ℓ : ℝ → ℝ} (h : Piece s φ φ' ℓ) (c : ℝ) :
    Piece s (fun t => c * φ t) (fun t => c * φ' t) fun t => c * ℓ t where
  deriv r hr := (h.deriv r hr).const_mul c
  left r hr := (h.left r hr).const_mul c
  only r hr := by rw [h.only r hr]

theorem mser_piece {e e' l : ℕ → ℝ → ℝ} (h : ∀ i, Piece s (e i) (e' i) (l i)) (n : ℕ) :
    Piece s (fun t => mser (fun i => e i t) n) (fun t => mder (fun i => e i t) (fun i => e' i t) n)
      fun t => mser (fun i => l i t) n := by
  induction n using Nat.strong_induction_on with
  | _ n ih =>
    rcases n with _ | n
    · simp only [mser, mder]; exact piece_const 1
    · simp only [mser, mder, div_eq_inv_mul]
      exact piece_scale (piece_sum Finset.univ fun (i : Fin (n + 1)) _ => (h i).mul (ih (n - (i : ℕ)) (by omega))) _

/-- what a unit of variance at the time 0 adds to `κ_{i+1} / i!` at the time `t` -/
noncomputable def unit (k β : ℝ) (i : ℕ) (t : ℝ) : ℝ :=
  (i + 1) * β ^ i * Real.exp (-k * t) * (1 - Real.exp (-k * t)) ^ i

/-- `κ_{i+1} / i!` from no variance at the time 0 -/
noncomputable def base (k β θ : ℝ) (i : ℕ) (t : ℝ) : ℝ := θ * β ^ i * (1 - Real.exp (-k * t)) ^ (i + 1)

theorem d_exp (k t : ℝ) : HasDerivAt (fun t => Real.exp (-k * t)) (-k * Real.exp (-k * t)) t := by
  have := ((hasDerivAt_id t).const_mul (-k)).exp
  simpa [mul_comm] using this

theorem d_one (k t : ℝ) : HasDerivAt (fun t => 1 - Real.exp (-k * t)) (k * Real.exp (-k * t)) t := by
  refine ((d_exp k t).const_sub 1).congr_deriv ?_
  ring

/-- the right side of the equation of the cumulants, without its constant -/
noncomputable def rhs (k β : ℝ) (f : ℕ → ℝ → ℝ) : ℕ → ℝ → ℝ
  | 0, t => -k * f 0 t
  | i + 1, t => (i + 2) * (-k * f (i + 1) t + k * β * f i t)

theorem d_unit (k β : ℝ) (i : ℕ) (t : ℝ) : HasDerivAt (unit k β i) (rhs k β (unit k β) i t) t := by
  rcases i with _ | i
  · have h := d_exp k t
    have e : unit k β 0 = fun t => Real.exp (-k * t) := by funext u; simp [unit]
    rw [rhs, e]
    exact h
  · have h := (((d_exp k t).const_mul (((i + 1 : ℕ) + 1 : ℝ) * β ^ (i + 1)))).mul ((d_one k t).pow (i + 1))
    refine h.congr_deriv ?_
    simp only [rhs, unit, Nat.add_sub_cancel, Pi.pow_apply]
    push_cast
    ring

theorem d_base (k β θ : ℝ) (i : ℕ) (t : ℝ) :
    HasDerivAt (base k β θ i) ((if i = 0 then k * θ else 0) + rhs k β (base k β θ) i t) t := by
  have h := ((d_one k t).pow (i + 1)).const_mul (θ * β ^ i)
  refine h.congr_deriv ?_
  rcases i with _ | i
  · simp [rhs, base]; ring
  · simp only [rhs, base, Nat.add_sub_cancel, Nat.add_one_ne_zero, if_false]
    push_cast
    ring

open MvPolynomial MeasureTheory Filter Topology

/-- `κ_{i+1} / i!` of the variance given its jumps -/
noncomputable def cumAt (x : ItoCond.Par) (i : ℕ) : ℝ → ℝ :=
  tot x.s (fun t => base x.k (x.σ ^ 2 / (2 * x.k)) x.θ i t + x.v * unit x.k (x.σ ^ 2 / (2 * x.k)) i t)
    fun j t => x.J j * unit x.k (x.σ ^ 2 / (2 * x.k)) i t

theorem isGen_powV (k θ σ : ℝ) (n : ℕ) : (Ito.cir k θ σ).IsGen (X 0 ^ (n + 1))
    (C ((n + 1) * (k * θ + n * (σ ^ 2 / 2))) * X 0 ^ n - C ((n + 1) * k) * X 0 ^ (n + 1)) := by
  intro y
  rcases n with _ | n
  · simp [Ito.cir]; ring
  · simp [Ito.cir, Derivation.leibniz_pow, Derivation.leibniz]; ring

theorem cumAt_sol (x : ItoCond.Par) (hk : x.k ≠ 0) (hs : Times x.s) {E : ℝ → MvPolynomial (Fin 1) ℝ →ₗ[ℝ] ℝ}
    (hE : ItoCond.GivenV x E) (n : ℕ) : ∀ t, 0 ≤ t → E t (X 0 ^ n) = n.factorial * mser (fun i => cumAt x i t) n := by
  have h := ItoCond.coef1 x.k x.θ x.σ
  have hν := ItoCond.mom1 x.k x.θ x.σ
  have hκ : ∀ i, Mom (Measure.dirac (![x.J i] : Fin 1 → ℝ)) := fun i => CondJ.mom_dirac _
  obtain ⟨β, hβ⟩ : ∃ β, β = x.σ ^ 2 / (2 * x.k) := ⟨_, rfl⟩
  have hs2 : x.k * β = x.σ ^ 2 / 2 := by rw [hβ]; field_simp
  have cm : ∀ (L : MvPolynomial (Fin 1) ℝ →ₗ[ℝ] ℝ) r f, L (C r * f) = r * L f := fun L r f => by
    rw [C_mul', map_smul, smul_eq_mul]
  obtain ⟨g0, hg0⟩ : ∃ g0 : ℕ → ℝ → ℝ, g0 = fun i t => base x.k β x.θ i t + x.v * unit x.k β i t := ⟨_, rfl⟩
  obtain ⟨g, hg⟩ : ∃ g : ℕ → Fin x.N → ℝ → ℝ, g = fun i j t => x.J j * unit x.k β i t := ⟨_, rfl⟩
  have hc : ∀ i, cumAt x i = tot x.s (g0 i) (g i) := fun i => by rw [cumAt, hg0, hg, hβ]
  obtain ⟨g0', hg0'⟩ : ∃ g0' : ℕ → ℝ → ℝ, g0' = fun i t => ((if i = 0 then x.k * x.θ else 0) + rhs x.k β (base x.k β x.θ) i t) +
    x.v * rhs x.k β (unit x.k β) i t := ⟨_, rfl⟩
  obtain ⟨g', hg'⟩ : ∃ g' : ℕ → Fin x.N → ℝ → ℝ, g' = fun i j t => x.J j * rhs x.k β (unit x.k β) i t := ⟨_, rfl⟩
  have pc : ∀ i, Piece x.s (cumAt x i) (tot x.s (g0' i) (g' i)) (totL x.s (g0 i) (g i)) := fun i => by
    rw [hc]
    refine tot_piece (fun t => ?_) fun j t => ?_
    · rw [hg0, hg0']; exact (d_base _ _ _ i t).add ((d_unit _ _ i t).const_mul _)
    · rw [hg, hg']; exact (d_unit _ _ i t).const_mul _
  have e0 : ∀ t, tot x.s (g0' 0) (g' 0) t = x.k * x.θ - x.k * cumAt x 0 t := fun t => by
    rw [hc, tot_lin (x.k * x.θ) (-x.k) 0 0 (f0 := g0 0) (f := g 0) (g0 := g0 0) (g := g 0) (h0 := g0 0) (h := g 0)
      (fun t => by rw [hg0, hg0']; simp [rhs]; ring) (fun i t => by rw [hg, hg']; simp [rhs]; ring)]
    ring
  have e1 : ∀ (i : ℕ) t, tot x.s (g0' (i + 1)) (g' (i + 1)) t =
      (i + 2) * (-x.k * cumAt x (i + 1) t + x.σ ^ 2 / 2 * cumAt x i t) := fun i t => by
    rw [hc, hc, ← hs2, tot_lin 0 (-((i + 2) * x.k)) ((i + 2) * (x.k * β)) 0 (f0 := g0 (i + 1)) (f := g (i + 1))
      (g0 := g0 i) (g := g i) (h0 := g0 0) (h := g 0)
      (fun t => by rw [hg0, hg0']; simp [rhs]; ring) (fun i t => by rw [hg, hg']; simp [rhs]; ring)]
    ring
  have u0 : ∀ i, unit x.k β i 0 = if i = 0 then 1 else 0 := fun i => by
    rcases i with _ | i <;> simp [unit]
  have b0 : ∀ i, base x.k β x.θ i 0 = 0 := fun i => by simp [base]
  have c0 : ∀ i, cumAt x i 0 = if i = 0 then x.v else 0 := fun i => by
    rw [hc, tot_zero hs, hg0]
    simp only [u0, b0]
    split_ifs <;> simp
  have st : ∀ m, mser (fun i => cumAt x i 0) m = x.v ^ m / m.factorial := by
    intro m
    rw [mser_jump (fun _ => 0) _ x.v (by simp [c0]) (by simp [c0])]
    have z : ∀ m, mser (fun _ => 0) m = if m = 0 then 1 else 0 := fun m => by
      rcases m with _ | m <;> simp [mser]
    rw [Finset.sum_range_succ, Nat.sub_self, z, if_pos rfl, mul_one, Finset.sum_eq_zero, zero_add]
    intro j hj
    rw [Finset.mem_range] at hj
    rw [z, if_neg (by omega), mul_zero]
  have pm := fun n => mser_piece pc n
  induction n using Nat.strong_induction_on with
  | _ n ih =>
    rcases n with _ | n
    · intro t ht
      have := dynkinAt_one h hν hs hκ (fun _ => inferInstance) hE ht
      rw [pow_zero, this, mser]
      simp
    · refine sol_linAt h hν hs hκ hE (isGen_powV x.k x.θ x.σ n) ((n + 1) * x.k) (piece_scale (pm (n + 1)) (n + 1).factorial)
        (fun t ht => ?_) ?_ fun i L hL => ?_
      · rw [map_sub, cm, cm, ih n (by omega) t ht, mder_eq x.k x.θ (x.σ ^ 2 / 2) _ _ (e0 t) (fun i => e1 i t), Nat.factorial_succ]
        push_cast
        ring
      · rw [st]
        have := Srjd.fac_ne (n + 1)
        simp
        field_simp
      · have lim : ∀ m, m ≤ n → L (X 0 ^ m) = m.factorial * mser (fun j => totL x.s (g0 j) (g j) (x.s i)) m := by
          intro m hm
          refine tendsto_nhds_unique (hL _) (((piece_scale (pm m) m.factorial).left _ (hs.pos i)).congr' ?_)
          filter_upwards [Ioo_mem_nhdsLT (hs.pos i)] with u hu
          exact (ih m (by omega) u hu.1.le).symm
        have hj : jump (Measure.dirac (![x.J i] : Fin 1 → ℝ)) (hκ i) (X 0 ^ (n + 1)) = (C (x.J i) + X 0) ^ (n + 1) := by
          refine MvPolynomial.funext fun y => ?_
          rw [eval_jump, integral_dirac]
          simp [add_comm]
          rfl
        have cj : ∀ j, cumAt x j (x.s i) = totL x.s (g0 j) (g j) (x.s i) + if j = 0 then x.J i else 0 := fun j => by
          rw [hc, tot_jump hs, hg]
          simp only [u0]
          split_ifs <;> simp
        rw [hj, add_pow, mser_jump (fun j => totL x.s (g0 j) (g j) (x.s i)) _ (x.J i) (by simp [cj]) (by simp [cj]),
          map_sum, Finset.sum_range_succ', Finset.sum_range_succ' _ (n + 1)]
        simp only [pow_zero, one_mul, Nat.sub_zero, Nat.choose_zero_right, Nat.cast_one, mul_one, Nat.factorial_zero, div_one]
        rw [mul_add, add_sub_cancel_right, add_sub_cancel_right, Finset.mul_sum]
        refine Finset.sum_congr rfl fun j hj => ?_
        rw [Finset.mem_range] at hj
        have : C (x.J i) ^ (j + 1) * X 0 ^ (n + 1 - (j + 1)) * (((n + 1).choose (j + 1) : ℕ) : MvPolynomial (Fin 1) ℝ) =
            C (x.J i ^ (j + 1) * (n + 1).choose (j + 1)) * X 0 ^ (n - j) := by
          rw [C_mul, C_pow, map_natCast, Nat.add_sub_add_right]; ring
        rw [this, cm, lim _ (by omega), Nat.add_sub_add_right]
        have hf := Nat.choose_mul_factorial_mul_factorial (show j + 1 ≤ n + 1 by omega)
        rw [Nat.add_sub_add_right] at hf
        rw [← hf]
        push_cast
        field_simp [Srjd.fac_ne (j + 1)]

/-- the moments of `mser` have the cumulants `i! e i` -/
theorem mser_cum (e κ : ℕ → ℝ) (h : ∀ i, κ (i + 1) = i.factorial * e i) :
    Srjd.Cumulants (fun n => n.factorial * mser e n) κ := by
  intro n
  have := mser_succ e n
  simp only
  rw [Nat.factorial_succ]
  push_cast
  rw [mul_comm ((n : ℝ) + 1), mul_assoc, this, Finset.mul_sum]
  refine Finset.sum_congr rfl fun i hi => ?_
  rw [Finset.mem_range] at hi
  rw [h, Srjd.choose_fac' n i (by omega)]
  field_simp [Srjd.fac_ne (n - i)]

/-- central moments -/
theorem mser_cen {E : MvPolynomial (Fin 1) ℝ →ₗ[ℝ] ℝ} {e : ℕ → ℝ} (h : ∀ n, E (X 0 ^ n) = n.factorial * mser e n) (n : ℕ) :
    E ((X 0 - C (E (X 0))) ^ n) = n.factorial * mser (fun i => if i = 0 then 0 else e i) n := by
  have h1 : E (X 0) = e 0 := by
    have := h 1
    rw [pow_one] at this
    rw [this]; simp [mser]
  rw [h1, mser_jump e _ (-e 0) (by simp) (by simp), sub_eq_neg_add, ← C_neg, add_pow, map_sum, Finset.mul_sum]
  refine Finset.sum_congr rfl fun j hj => ?_
  rw [Finset.mem_range] at hj
  have : C (-e 0) ^ j * X 0 ^ (n - j) * ((n.choose j : ℕ) : MvPolynomial (Fin 1) ℝ) =
      C ((-e 0) ^ j * n.choose j) * X 0 ^ (n - j) := by
    rw [C_mul, C_pow, map_natCast]; ring
  rw [this, C_mul', map_smul, smul_eq_mul, h, ← Nat.choose_mul_factorial_mul_factorial (show j ≤ n by omega)]
  push_cast
  field_simp [Srjd.fac_ne j]

theorem mser_nonneg {e : ℕ → ℝ} (h : ∀ i, 0 ≤ e i) (n : ℕ) : 0 ≤ mser e n := by
  induction n using Nat.strong_induction_on with
  | _ n ih =>
    rcases n with _ | n
    · rw [mser]; exact zero_le_one
    · rw [mser]
      exact div_nonneg (Finset.sum_nonneg fun i _ => mul_nonneg (h _) (ih _ (by omega))) (by positivity)

end Ajd.Cum

namespace Ajd.SrjdJ
open MvPolynomial MeasureTheory Gen Closed Cum Srjd

/-- the `n`-th cumulant of the variance given its jumps, for `n ≥ 1`: with `β = σ² / (2k)`,
`(n-1)! β^(n-1) (θ (1 - e^{-kh})^n + n v_0 e^{-kh} (1 - e^{-kh})^(n-1) + ∑_i n J_i e^{-k(h-s_i)} (1 - e^{-k(h-s_i)})^(n-1))` -/
noncomputable def condCum (p : Par) (n : ℕ) : ℝ :=
  (n - 1).factorial * (p.sigma ^ 2 / (2 * p.k)) ^ (n - 1) *
    (p.theta * (1 - Real.exp (-p.k * p.h)) ^ n +
      n * p.v0 * Real.exp (-p.k * p.h) * (1 - Real.exp (-p.k * p.h)) ^ (n - 1) +
      overJumps p.jumpsize p.jumptime fun J s =>
        n * J * Real.exp (-p.k * (p.h - s)) * (1 - Real.exp (-p.k * (p.h - s))) ^ (n - 1))

theorem overJumps_mul (c : ℝ) (js ts : List ℝ) (f g : ℝ → ℝ → ℝ) (h : ∀ J s, f J s = c * g J s) :
    overJumps js ts f = c * overJumps js ts g := by
  rw [overJumps, overJumps, ← List.sum_map_mul_left]
  simp only [h]

theorem overJumps_nonneg (js ts : List ℝ) (f : ℝ → ℝ → ℝ) (h : ∀ J ∈ js, ∀ s ∈ ts, 0 ≤ f J s) : 0 ≤ overJumps js ts f := by
  refine List.sum_nonneg fun y hy => ?_
  obtain ⟨⟨a, b⟩, hz, rfl⟩ := List.mem_map.1 hy
  exact h _ (List.of_mem_zip hz).1 _ (List.of_mem_zip hz).2

theorem condCum_eq (p : Par) (hp : p.OK) (i : ℕ) : condCum p (i + 1) = i.factorial * cumAt p.cir i p.h := by
  have a : cumAt p.cir i p.h = _ := tot_list p.jumpsize p.jumptime p.h hp.len (fun s hs => (hp.time s hs).2)
    (fun t => base p.k (p.sigma ^ 2 / (2 * p.k)) p.theta i t + p.v0 * unit p.k (p.sigma ^ 2 / (2 * p.k)) i t)
    fun J t => J * unit p.k (p.sigma ^ 2 / (2 * p.k)) i t
  have b := overJumps_mul ((p.sigma ^ 2 / (2 * p.k)) ^ i) p.jumpsize p.jumptime
    (fun J s => J * unit p.k (p.sigma ^ 2 / (2 * p.k)) i (p.h - s))
    (fun J s => (i + 1 : ℕ) * J * Real.exp (-p.k * (p.h - s)) * (1 - Real.exp (-p.k * (p.h - s))) ^ i)
    (fun J s => by simp only [unit]; push_cast; ring)
  rw [a, b, condCum, Nat.add_sub_cancel]
  generalize (overJumps p.jumpsize p.jumptime fun J s =>
    (i + 1 : ℕ) * J * Real.exp (-p.k * (p.h - s)) * (1 - Real.exp (-p.k * (p.h - s))) ^ i) = S
  simp only [base, unit]
  push_cast
  ring

theorem condCum_nonneg (p : Par) (hp : p.OK) (hk : 0 < p.k) (hθ : 0 ≤ p.theta) (hv : 0 ≤ p.v0)
    (hJ : ∀ J ∈ p.jumpsize, 0 ≤ J) (n : ℕ) : 0 ≤ condCum p n := by
  have h1 : ∀ t, 0 ≤ t → 0 ≤ 1 - Real.exp (-p.k * t) := fun t ht => by
    have : Real.exp (-p.k * t) ≤ 1 := Real.exp_le_one_iff.2 (by nlinarith)
    linarith
  have hh := h1 p.h hp.h
  have ho := overJumps_nonneg p.jumpsize p.jumptime (fun J s =>
    n * J * Real.exp (-p.k * (p.h - s)) * (1 - Real.exp (-p.k * (p.h - s))) ^ (n - 1)) fun J hj s hs => by
      have := h1 (p.h - s) (by linarith [(hp.time s hs).2])
      have := hJ J hj
      positivity
  have := Real.exp_pos (-p.k * p.h)
  rw [condCum]
  positivity

theorem times_of (p : Par) (hp : p.OK) (hd : p.jumptime.Nodup) (h0 : ∀ s ∈ p.jumptime, 0 < s) : Times p.cir.s := by
  have hl : ∀ i : Fin p.jumpsize.length, (i : ℕ) < p.jumptime.length := fun i => i.2.trans_eq hp.len.symm
  constructor
  · intro i j e
    change p.jumptime.getD i 0 = p.jumptime.getD j 0 at e
    rw [List.getD_eq_getElem _ _ (hl i), List.getD_eq_getElem _ _ (hl j)] at e
    exact Fin.ext ((hd.getElem_inj_iff (hi := hl i) (hj := hl j)).1 e)
  · intro i
    change 0 < p.jumptime.getD i 0
    rw [List.getD_eq_getElem _ _ (hl i)]
    exact h0 _ (List.getElem_mem _)

/-- C81. `m(n, par)` of cond2_mom.py, for all orders `n`, are the moments with the cumulants `condCum`. -/
theorem C81_m (p : Par) (hp : p.OK) (hd : p.jumptime.Nodup) (h0 : ∀ s ∈ p.jumptime, 0 < s) :
    ∃ M : ℕ → ℝ, (∀ n : ℕ, ∃ c, ∀ fuel, c ≤ fuel → mV fuel n p = some (.ok (M n))) ∧ M 0 = 1 ∧
      Cumulants M (condCum p) := by
  have hs := times_of p hp hd h0
  obtain ⟨E, hE, -⟩ := C37_law p.cir hs.pos hs.inj
  refine ⟨fun n => n.factorial * mser (fun i => cumAt p.cir i p.h) n, fun n => ?_, by simp [mser],
    mser_cum _ _ (condCum_eq p hp)⟩
  obtain ⟨c, hc⟩ := C37_sde n p hp hd h0
  refine ⟨c, fun fuel hf => ?_⟩
  rw [(hc fuel hf E hE).1, cumAt_sol p.cir hp.k hs hE n p.h hp.h]

/-- C81. `cm(n, par)` of cond2_cmom.py, for all orders `n`, are the moments with the same cumulants but the first,
which is 0. -/
theorem C81_cm (p : Par) (hp : p.OK) (hd : p.jumptime.Nodup) (h0 : ∀ s ∈ p.jumptime, 0 < s) :
    ∃ M : ℕ → ℝ, (∀ n : ℕ, ∃ c, ∀ fuel, c ≤ fuel → cmV fuel n p = some (.ok (M n))) ∧ M 0 = 1 ∧
      Cumulants M (fun n => if n = 1 then 0 else condCum p n) := by
  have hs := times_of p hp hd h0
  obtain ⟨E, hE, -⟩ := C37_law p.cir hs.pos hs.inj
  refine ⟨fun n => n.factorial * mser (fun i => if i = 0 then 0 else cumAt p.cir i p.h) n, fun n => ?_, by simp [mser],
    mser_cum _ _ fun i => ?_⟩
  · obtain ⟨c, hc⟩ := C37_sde n p hp hd h0
    refine ⟨c, fun fuel hf => ?_⟩
    rw [(hc fuel hf E hE).2, mser_cen fun n => cumAt_sol p.cir hp.k hs hE n p.h hp.h]
  · by_cases hi : i = 0
    · simp [hi]
    · simp [hi, condCum_eq p hp]

/-- moments with nonnegative cumulants -/
theorem cum_nonneg {M κ : ℕ → ℝ} (h0 : M 0 = 1) (h : Cumulants M κ) (hκ : ∀ n, 0 ≤ κ n) (n : ℕ) : 0 ≤ M n := by
  induction n using Nat.strong_induction_on with
  | _ n ih =>
    rcases n with _ | n
    · rw [h0]; exact zero_le_one
    · rw [h n]
      exact Finset.sum_nonneg fun i _ => mul_nonneg (mul_nonneg (Nat.cast_nonneg _) (hκ _)) (ih _ (by omega))

/-- C81. Given the jumps every central moment is nonnegative, also those of odd order, and the kurtosis is at
least 3. -/
theorem C81_shape (p : Par) (hp : p.OK) (hd : p.jumptime.Nodup) (h0 : ∀ s ∈ p.jumptime, 0 < s)
    (hk : 0 < p.k) (hθ : 0 ≤ p.theta) (hv : 0 ≤ p.v0) (hJ : ∀ J ∈ p.jumpsize, 0 ≤ J) :
    ∃ M : ℕ → ℝ, (∀ n : ℕ, ∃ c, ∀ fuel, c ≤ fuel → cmV fuel n p = some (.ok (M n))) ∧ (∀ n, 0 ≤ M n) ∧
      M 2 = condCum p 2 ∧ M 3 = condCum p 3 ∧ M 4 = condCum p 4 + 3 * M 2 ^ 2 ∧ 3 * M 2 ^ 2 ≤ M 4 := by
  obtain ⟨M, hM, h1, h⟩ := C81_cm p hp hd h0
  have n4 := condCum_nonneg p hp hk hθ hv hJ 4
  have c1 := h 0
  have c2 := h 1
  have c3 := h 2
  have c4 := h 3
  simp [Finset.sum_range_succ, h1] at c1 c2
  simp [Finset.sum_range_succ, h1, c1] at c3
  simp [Finset.sum_range_succ, h1, c1, c2, Nat.choose] at c4
  have c4' : M 4 = condCum p 4 + 3 * M 2 ^ 2 := by rw [c4, c2]; ring
  refine ⟨M, hM, cum_nonneg h1 h fun n => ?_, c2, c3, c4', by linarith⟩
  split_ifs
  · exact le_rfl
  · exact condCum_nonneg p hp hk hθ hv hJ n

/-! ### the hypotheses are met, and the values -/

example : ∃ p : Par, p.OK ∧ p.jumptime.Nodup ∧ (∀ s ∈ p.jumptime, 0 < s) ∧ 0 < p.k ∧ 0 ≤ p.theta ∧ 0 ≤ p.v0 ∧
    (∀ J ∈ p.jumpsize, 0 ≤ J) ∧ p.jumpsize.length = 2 := by
  refine ⟨{ v0 := 1, k := 1, theta := 1, sigma := 1, h := 3, jumpsize := [1, 5], jumptime := [1, 2] }, ⟨by norm_num, by norm_num, rfl, ?_⟩, by simp, ?_, by norm_num, by norm_num,
    by norm_num, by simp, rfl⟩ <;> intro s hs <;> simp at hs <;> rcases hs with rfl | rfl <;> norm_num

/-- the first cumulant is the mean of C79 -/
example (p : Par) : condCum p 1 = p.theta * (1 - Real.exp (-p.k * p.h)) + p.v0 * Real.exp (-p.k * p.h) +
    overJumps p.jumpsize p.jumptime fun J s => J * Real.exp (-p.k * (p.h - s)) := by
  simp [condCum]

end Ajd.SrjdJ
