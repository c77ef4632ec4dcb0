import Verif.Spec.Fsv1
import Verif.Lemmas.Loop
import Verif.Lemmas.ItoSol

namespace Ajd.Fsv1
open Poly Ito Utils MvPolynomial MeasureTheory

/-! ### values of keys -/

/-- `(1 - rho**2) ** (a / 2)` -/
noncomputable def sq (ρ : ℝ) (a : ℤ) : ℝ := (1 - ρ ^ 2) ^ ((a : ℝ) / 2)

theorem sq_nat (ρ : ℝ) (h : 0 ≤ 1 - ρ ^ 2) (n : ℕ) :
    sq ρ n = Real.sqrt (1 - ρ ^ 2) ^ n := by
  unfold sq
  generalize 1 - ρ ^ 2 = y at h
  rw [Real.sqrt_eq_rpow, ← Real.rpow_natCast, ← Real.rpow_mul h]
  congr 1
  push_cast
  ring

noncomputable def veVal (p : Par) (x : ℝ) (key : List ℤ) : ℝ :=
  Real.exp (-(ix key 0) * p.k * p.h) * p.h ^ ix key 1 * x ^ ix key 2 * p.k ^ (-ix key 3) *
    p.θ ^ ix key 4 * p.σ ^ ix key 5

def VK (k : List ℤ) : Prop :=
  k.length = 6 ∧ 0 ≤ ix k 1 ∧ 0 ≤ ix k 2 ∧ 0 ≤ ix k 4 ∧ 0 ≤ ix k 5

theorem ev_ofTerms_map_nz {K L : Type} [DecidableEq K] (f : K → ℝ) (g : L → ℝ)
    (kf : List String) (p : Poly L) (t : L × ℚ → K × ℚ)
    (h : ∀ e ∈ p.items, (t e).2 • f (t e).1 = e.2 • g e.1) :
    ev f (ofTerms kf (p.items.map t)) = ev g p := ev_ofTerms_map f g kf p t h

theorem ve_spec (p : Par) (hk : p.k ≠ 0) (hh : 0 ≤ p.h) (t0 : ℝ) (n2 n3 n4 n5 : ℕ) :
    ∃ P, veIEII n2 n3 n4 n5 = .ok P ∧ P.keyfor = kfVe ∧ P.WF ∧ P.Keys VK ∧
      ∀ x M, ItoRec ⟨p.k, p.θ, p.σ, x, t0⟩ M → ev (veVal p x) P =
        x ^ n2 * Real.exp (-(p.k * (t0 + p.h))) ^ n3 * M n3 n4 n5 (t0 + p.h) := by
  obtain ⟨Q, e, ⟨qk, qkeys, qw, qv, q0⟩, _⟩ := momentIEII_spec ((n3 : ℤ), (n4 : ℤ), (n5 : ℤ))
    (by simp [Valid])
  refine ⟨_, by rw [veIEII, e]; rfl, by simp, ofTerms_WF _ _, ?_, ?_⟩
  · apply ofTerms_Keys
    intro y hy
    obtain ⟨z, hz, rfl⟩ := List.mem_map.1 hy
    have := qkeys z hz
    simp only [KeyOK] at this
    simp [VK, ix_cons_zero, ix_cons_succ]
    omega
  · intro x M hM
    have hv := qv ⟨p.k, p.θ, p.σ, x, t0⟩ M hk hM (t0 + p.h) (by simpa using hh)
    simp only [Int.toNat_natCast] at hv
    rw [← hv, ← ev_mul_const]
    apply ev_ofTerms_map
    intro z hz
    have hz' := qkeys z hz
    simp only [KeyOK] at hz'
    by_cases h0 : z.2 = 0
    · simp [h0]
    · have h1 := q0 z hz h0
      simp only at h1
      congr 1
      simp only [veVal, momVal, ix_cons_zero, ix_cons_succ, h1]
      rw [zpow_add_nn x _ _ (by omega) hz'.2.2.1, zpow_natCast, ← Real.exp_nat_mul]
      have : Real.exp (-((n3 : ℤ) - ix z.1 1 : ℤ) * p.k * p.h) =
          Real.exp (n3 * -(p.k * (t0 + p.h))) * Real.exp (((n3 : ℤ) : ℝ) * p.k * t0) *
            Real.exp (ix z.1 1 * p.k * (t0 + p.h - t0)) := by
        rw [← Real.exp_add, ← Real.exp_add]
        congr 1
        push_cast
        ring
      rw [this, add_sub_cancel_left]
      ring

/-! ### cmom.py -/

noncomputable def bcVal (p : Par) (key : List ℤ) : ℝ :=
  Real.exp (-(ix key 0) * p.k * p.h) * p.k ^ (-ix key 1) *
    p.θ ^ ix key 2 * p.σ ^ ix key 3 * p.ρ ^ ix key 4 * sq p.ρ (ix key 5)

/-- `β = (1 - e^{-kh}) / (2k)` -/
noncomputable def beta (p : Par) : ℝ := (1 - Real.exp (-(p.k * p.h))) / (2 * p.k)

theorem bNc_keys (n1 n2 n3 n4 n5 : ℕ) : (bNc n1 n2 n3 n4 n5).Keys (NN 6) := by
  apply ofTerms_Keys
  intro y hy
  simp only [List.mem_flatMap, List.mem_map, List.mem_range] at hy
  obtain ⟨i, hi, j, hj, rfl⟩ := hy
  refine ⟨rfl, fun m => ?_⟩
  rcases m with _ | _ | _ | _ | _ | _ | m <;> simp [ix] <;> omega

theorem zpow_neg_nat (k : ℝ) (n : ℕ) : k ^ (-(n : ℤ)) = (k⁻¹) ^ n := by
  rw [zpow_neg, zpow_natCast, inv_pow]

theorem binom_neg (a b : ℝ) (n : ℕ) :
    ∑ j ∈ Finset.range (n + 1), (n.choose j : ℝ) * ((-1) ^ j * b ^ j * a ^ (n - j)) =
      (a - b) ^ n := by
  rw [sub_eq_add_neg, add_comm a, add_pow]
  apply Finset.sum_congr rfl
  intro j _
  rw [neg_pow b]
  ring

theorem exp_nat (p : Par) (i : ℕ) :
    Real.exp (-((i : ℤ) : ℝ) * p.k * p.h) = Real.exp (-(p.k * p.h)) ^ i := by
  rw [← Real.exp_nat_mul]; congr 1; push_cast; ring

theorem ev_bNc (p : Par) (hk : p.k ≠ 0) (hρ : 0 ≤ 1 - p.ρ ^ 2) (n1 n2 n3 n4 n5 : ℕ) :
    ev (bcVal p) (bNc n1 n2 n3 n4 n5) = (beta p * p.θ) ^ n1 * (-beta p) ^ n2 *
      (p.σ / (2 * p.k)) ^ n3 * (p.ρ - p.σ / (2 * p.k)) ^ n4 * Real.sqrt (1 - p.ρ ^ 2) ^ n5 := by
  rw [bNc, ev_ofTerms, sum_flatMap, list_range_sum']
  have h1 : ∀ i j : ℕ, j ≤ n4 → ((((n1 + n2).choose i : ℚ) * (n4.choose j : ℚ) *
      (-1) ^ (n2 + i + j)) / 2 ^ (n1 + n2 + n3 + j)) • bcVal p
      [(i : ℤ), (n1 : ℤ) + n2 + n3 + j, (n1 : ℤ), (n3 : ℤ) + j, (n4 : ℤ) - j, (n5 : ℤ)] =
      (((n1 + n2).choose i : ℝ) * ((-1) ^ i * Real.exp (-(p.k * p.h)) ^ i * 1 ^ (n1 + n2 - i))) *
      ((n4.choose j : ℝ) * ((-1) ^ j * (p.σ / (2 * p.k)) ^ j * p.ρ ^ (n4 - j))) *
      (p.θ ^ n1 * (-1) ^ n2 * (1 / (2 * p.k)) ^ (n1 + n2) * (p.σ / (2 * p.k)) ^ n3 *
        Real.sqrt (1 - p.ρ ^ 2) ^ n5) := by
    intro i j hj
    simp only [Rat.smul_def, bcVal, ix_cons_zero, ix_cons_succ, sq_nat _ hρ, exp_nat]
    rw [show (n1 : ℤ) + n2 + n3 + j = ((n1 + n2 + n3 + j : ℕ) : ℤ) by push_cast; rfl,
      show (n3 : ℤ) + j = ((n3 + j : ℕ) : ℤ) by push_cast; rfl,
      show (n4 : ℤ) - j = ((n4 - j : ℕ) : ℤ) by omega, zpow_neg_nat]
    simp only [zpow_natCast, div_eq_mul_inv, mul_inv, mul_pow, pow_add, one_pow]
    push_cast
    simp only [mul_inv, ← inv_pow]
    generalize (2 : ℝ)⁻¹ = u
    ring
  have h2 : ∀ i : ℕ, (((List.range (n4 + 1)).map fun j : ℕ =>
      ([(i : ℤ), (n1 : ℤ) + n2 + n3 + j, (n1 : ℤ), (n3 : ℤ) + j, (n4 : ℤ) - j, (n5 : ℤ)],
        (((n1 + n2).choose i : ℚ) * (n4.choose j : ℚ) * (-1) ^ (n2 + i + j)) /
          2 ^ (n1 + n2 + n3 + j))).map fun kv : List ℤ × ℚ => kv.2 • bcVal p kv.1).sum =
      (((n1 + n2).choose i : ℝ) * ((-1) ^ i * Real.exp (-(p.k * p.h)) ^ i * 1 ^ (n1 + n2 - i))) *
      (p.ρ - p.σ / (2 * p.k)) ^ n4 *
      (p.θ ^ n1 * (-1) ^ n2 * (1 / (2 * p.k)) ^ (n1 + n2) * (p.σ / (2 * p.k)) ^ n3 *
        Real.sqrt (1 - p.ρ ^ 2) ^ n5) := by
    intro i
    rw [List.map_map, list_range_sum', ← binom_neg, Finset.mul_sum, Finset.sum_mul]
    apply Finset.sum_congr rfl
    intro j hj
    exact h1 i j (by simpa [Nat.lt_succ_iff] using hj)
  simp only [h2]
  rw [← Finset.sum_mul, ← Finset.sum_mul, binom_neg, neg_pow (beta p), beta,
    div_eq_mul_inv (1 - _), one_div]
  generalize 1 - Real.exp (-(p.k * p.h)) = w
  generalize p.ρ - p.σ / (2 * p.k) = u
  generalize p.σ / (2 * p.k) = u2
  generalize (2 * p.k)⁻¹ = u3
  simp only [mul_pow, pow_add]
  ring

/-- value of a key of `cmom.py` before `sub_v` -/
noncomputable def cvVal (p : Par) (x : ℝ) (key : List ℤ) : ℝ :=
  Real.exp (-(ix key 0) * p.k * p.h) * p.h ^ ix key 1 * x ^ ix key 2 * p.k ^ (-ix key 3) *
    p.θ ^ ix key 4 * p.σ ^ ix key 5 * p.ρ ^ ix key 6 * sq p.ρ (ix key 7)

/-- the five summands of the centred return -/
noncomputable def partsC (p : Par) (t0 x : ℝ) : List Rv :=
  [C (beta p * p.θ), C (-beta p * x), C (p.σ / (2 * p.k) * Real.exp (-(p.k * (t0 + p.h)))) * X 0,
    C (p.ρ - p.σ / (2 * p.k)) * X 1, C (Real.sqrt (1 - p.ρ ^ 2)) * X 2]

theorem partsC_sum (p : Par) (hk : p.k ≠ 0) (t0 x : ℝ) :
    (partsC p t0 x).sum = ret p t0 x - C ((p.μ - p.θ / 2) * p.h) := by
  simp only [partsC, List.sum_cons, List.sum_nil, ret, intVar, vNext, beta]
  simp only [map_add, map_sub, map_mul, map_neg, div_eq_mul_inv, mul_inv, map_one, one_mul]
  have h2 : (C (p.k⁻¹) : Rv) * C p.k = 1 := by rw [← C_mul, inv_mul_cancel₀ hk, map_one]
  have h3 : (C (2⁻¹ : ℝ) : Rv) * 2 = 1 := by
    rw [show (2 : Rv) = C 2 by rw [map_ofNat], ← C_mul]; norm_num
  ring_nf

def CK (k : List ℤ) : Prop :=
  k.length = 8 ∧ 0 ≤ ix k 1 ∧ 0 ≤ ix k 2 ∧ 0 ≤ ix k 4 ∧ 0 ≤ ix k 5 ∧ 0 ≤ ix k 6 ∧ 0 ≤ ix k 7

theorem E_C_mul (E : Rv →ₗ[ℝ] ℝ) (a : ℝ) (f : Rv) : E (C a * f) = a * E f := by
  rw [C_mul', map_smul, smul_eq_mul]

/-- the value of a combination of powers of five summands `a, b, c IE, d I, e I*` -/
theorem E_parts (E : Rv →ₗ[ℝ] ℝ) (N : ℕ) (a b c d e : ℝ) (n1 n2 n3 n4 n5 : ℕ) :
    E ((N : Rv) * (List.zipWith (· ^ ·) [C a, C b, C c * X 0, C d * X 1, C e * X 2]
      [n1, n2, n3, n4, n5]).prod) =
      N * (a ^ n1 * b ^ n2 * c ^ n3 * d ^ n4 * e ^ n5) * E (X 0 ^ n3 * X 1 ^ n4 * X 2 ^ n5) := by
  rw [← E_C_mul]
  congr 1
  simp only [List.zipWith_cons_cons, List.zipWith_nil_right, List.prod_cons, List.prod_nil, mul_pow,
    map_mul, map_pow, map_natCast]
  ring

theorem momentCombC_spec (p : Par) (hk : p.k ≠ 0) (hh : 0 ≤ p.h) (hρ : 0 ≤ 1 - p.ρ ^ 2) (t0 : ℝ)
    (E : ℝ → Rv →ₗ[ℝ] ℝ) (l n1 n2 n3 n4 n5 : ℕ) (hl : n1 + n2 + n3 + n4 + n5 = l) :
    ∃ q, momentCombC l n1 n2 n3 n4 n5 = .ok q ∧ q.keyfor = kfCv ∧ q.Keys CK ∧
      ∀ x : {x : ℝ // CondLaw p t0 x (E x)}, ev (cvVal p x) q =
        E x ((combN l [n1, n2, n3, n4, n5] : Rv) *
          (List.zipWith (· ^ ·) (partsC p t0 x) [n1, n2, n3, n4, n5]).prod) := by
  obtain ⟨P, e, pk, _, pkeys, pv⟩ := ve_spec p hk hh t0 n2 n3 n4 n5
  obtain ⟨r, er, rk, _, _, rkeys, rv⟩ := mulPoly_on (ι := {x : ℝ // CondLaw p t0 x (E x)}) P
    (bNc n1 n2 n3 n4 n5)
    [0, 1, 2, 3, 4, 5, -1, -1] [0, -1, -1, 1, 2, 3, 4, 5] kfCv (by simp) VK (NN 6) CK
    (fun x => cvVal p x) (fun x => veVal p x) (fun _ => bcVal p) pkeys (bNc_keys _ _ _ _ _)
    (by
      intro k1 k2 h1 h2
      have := h2.2 2; have := h2.2 3; have := h2.2 4; have := h2.2 5
      obtain ⟨_, _, _, _, _⟩ := h1
      simp [CK, ix_cons_zero, ix_cons_succ]
      omega)
    (by
      intro x k1 k2 h1 h2
      have := h2.2 2; have := h2.2 3
      obtain ⟨_, _, _, _, _⟩ := h1
      simp only [cvVal, veVal, bcVal, List.zipWith_cons_cons, ix_cons_zero, ix_cons_succ, kv_zero,
        kv_one, kv_ofNat, kv_neg_one, add_zero, zero_add, Int.cast_add, neg_add, add_mul,
        Real.exp_add, zpow_add₀ hk]
      rw [zpow_add_nn p.θ _ _ ‹_› ‹_›, zpow_add_nn p.σ _ _ ‹_› ‹_›]
      ring)
  have hc : comb l [(n1 : ℤ), (n2 : ℤ), (n3 : ℤ), (n4 : ℤ), (n5 : ℤ)] =
      .ok (combN l [n1, n2, n3, n4, n5]) :=
    comb_eq [n1, n2, n3, n4, n5] l (by simp; omega)
  obtain ⟨mk, _, _, mkeys⟩ := rmul_spec (combN l [n1, n2, n3, n4, n5] : ℤ) r CK rkeys
  refine ⟨_, ?_, mk.trans rk, mkeys, fun x => ?_⟩
  · rw [momentCombC, e, ok_bind, er, ok_bind, hc]; rfl
  · rw [ev_rmul, rv, partsC, E_parts, ev_bNc p hk hρ]
    obtain ⟨M, hM, hE⟩ := x.2
    rw [hE, pv x M hM, Rat.smul_def, mul_pow (-beta p), mul_pow (p.σ / (2 * p.k))]
    push_cast
    ring

theorem sum_E {α : Type} (E : Rv →ₗ[ℝ] ℝ) (L : List α) (f : α → Rv) :
    (L.map fun a => E (f a)).sum = E ((L.map f).sum) := by
  induction L with
  | nil => simp
  | cons a t ih => simp [ih]

theorem polyC_spec (p : Par) (hk : p.k ≠ 0) (hh : 0 ≤ p.h) (hρ : 0 ≤ 1 - p.ρ ^ 2) (t0 : ℝ)
    (E : ℝ → Rv →ₗ[ℝ] ℝ) (l : ℕ) :
    ∃ q, mergeLoop (fun ns => momentCombC l (nat ns 0) (nat ns 1) (nat ns 2) (nat ns 3)
      (nat ns 4)) (combsDown 4 l) ⟨kfCv, []⟩ = .ok q ∧ q.Keys CK ∧
      ∀ x, CondLaw p t0 x (E x) → ev (cvVal p x) q =
        E x ((ret p t0 x - C ((p.μ - p.θ / 2) * p.h)) ^ l) := by
  obtain ⟨q, e, _, _, _, k, v⟩ := mergeLoop_spec (ι := {x : ℝ // CondLaw p t0 x (E x)})
    (fun ns => momentCombC l (nat ns 0) (nat ns 1) (nat ns 2) (nat ns 3)
      (nat ns 4)) (combsDown 4 l) ⟨kfCv, []⟩ CK (fun x => cvVal p x)
    (fun x ns => E x ((combN l ns : Rv) * (List.zipWith (· ^ ·) (partsC p t0 x) ns).prod))
    (fun x hx => by simp at hx) (by
      intro ns hns
      obtain ⟨h1, h2⟩ := combs_mem _ _ _ hns
      obtain ⟨n1, n2, n3, n4, n5, rfl⟩ := len5 ns h1
      simp only [List.sum_cons, List.sum_nil] at h2
      exact momentCombC_spec p hk hh hρ t0 E l n1 n2 n3 n4 n5 (by omega))
  refine ⟨q, e, k, fun x hx => ?_⟩
  rw [v ⟨x, hx⟩, sum_E, combs_multinomial 4 _ rfl, partsC_sum p hk]
  simp [ev]

/-! ### substituting the stationary moments -/

theorem subv_val (p : Par) (hk : p.k ≠ 0) (γ : Measure ℝ) (hγ : StatLaw p γ) (n : ℕ) :
    ev (vVal p.k p.θ p.σ) (momentV n) = ∫ x, x ^ n ∂γ := by
  rw [ev_momentV, hγ.moment]

/-- value of a key of `cmoment_y` -/
noncomputable def cVal (p : Par) (key : List ℤ) : ℝ :=
  Real.exp (-(ix key 0) * p.k * p.h) * p.h ^ ix key 1 * p.k ^ (-ix key 2) *
    p.θ ^ ix key 3 * p.σ ^ ix key 4 * p.ρ ^ ix key 5 * sq p.ρ (ix key 6)

theorem poly2numC_eq (P : IPoly) (p : Par) : poly2numC P p = ev (cVal p) P := by
  unfold poly2numC ev cVal sq
  congr 1
  apply List.map_congr_left
  intro e _
  simp only [Rat.smul_def]
  ring

def C7 (k : List ℤ) : Prop :=
  k.length = 7 ∧ 0 ≤ ix k 1 ∧ 0 ≤ ix k 3 ∧ 0 ≤ ix k 4 ∧ 0 ≤ ix k 5 ∧ 0 ≤ ix k 6

theorem subVC_spec (p : Par) (hk : p.k ≠ 0) (γ : Measure ℝ) (hγ : StatLaw p γ) (P : IPoly)
    (hP : P.Keys CK) :
    ∃ r, subVC P = .ok r ∧ r.keyfor = kfC ∧ r.WF ∧ r.Keys C7 ∧
      ev (cVal p) r = ∫ x, ev (cvVal p x) P ∂γ := by
  have hint : ∀ e ∈ P.items, Integrable (fun x => cvVal p x e.1) γ := by
    intro e he
    obtain ⟨_, _, h2, _⟩ := hP e he
    obtain ⟨n, hn⟩ := Int.eq_ofNat_of_zero_le h2
    simp only [cvVal, hn, zpow_natCast]
    have := (hγ.integrable n).const_mul (Real.exp (-(ix e.1 0) * p.k * p.h) * p.h ^ ix e.1 1 *
      p.k ^ (-ix e.1 3) * p.θ ^ ix e.1 4 * p.σ ^ ix e.1 5 * p.ρ ^ ix e.1 6 * sq p.ρ (ix e.1 7))
    refine this.congr (Filter.Eventually.of_forall fun x => ?_)
    simp only
    ring
  rw [(integral_ev γ (cvVal p) P hint).2]
  obtain ⟨r, e, k, w, keys, v⟩ := subst_spec (ι := Unit) kfC (fun e => do
    let poln ← momentVPy (ix e.1 2)
    pure (poln.items.map fun m =>
      ([ix e.1 0, ix e.1 1, ix e.1 3 + ix m.1 1, ix e.1 4 + ix m.1 0, ix e.1 5 + 2 * ix m.1 1,
        ix e.1 6, ix e.1 7], m.2 * e.2))) P C7 (fun _ => cVal p)
    (fun _ key => ∫ x, cvVal p x key ∂γ) (by
      intro e he
      obtain ⟨h0, h1, h2, h4, h5, h6, h7⟩ := hP e he
      obtain ⟨n, hn⟩ := Int.eq_ofNat_of_zero_le h2
      have hm : momentVPy (ix e.1 2) = .ok (momentV n) := by
        rw [momentVPy, if_neg (by omega), hn]; rfl
      refine ⟨_, by rw [hm]; rfl, ?_, fun _ => ?_⟩
      · intro y hy
        obtain ⟨m, hm, rfl⟩ := List.mem_map.1 hy
        obtain ⟨_, _, _⟩ := (momentV_keys n).1 m hm
        simp [C7, ix_cons_zero, ix_cons_succ]
        omega
      · have hv := subv_val p hk γ hγ n
        have : ∫ x, cvVal p x e.1 ∂γ = (Real.exp (-(ix e.1 0) * p.k * p.h) * p.h ^ ix e.1 1 *
            p.k ^ (-ix e.1 3) * p.θ ^ ix e.1 4 * p.σ ^ ix e.1 5 * p.ρ ^ ix e.1 6 *
            sq p.ρ (ix e.1 7)) * ∫ x, x ^ n ∂γ := by
          rw [← integral_const_mul]
          congr 1
          funext x
          simp only [cvVal, hn, zpow_natCast]
          ring
        rw [this, ← hv, ← ev_mul_const, List.map_map]
        unfold ev
        rw [Rat.smul_def, ← List.sum_map_mul_left]
        congr 1
        apply List.map_congr_left
        intro m hm
        obtain ⟨m0, m1, _⟩ := (momentV_keys n).1 m hm
        simp only [Function.comp, Rat.smul_def, cVal, vVal, ix_cons_zero, ix_cons_succ]
        rw [zpow_add_nn p.θ _ _ ‹_› ‹_›, zpow_add_nn p.σ _ _ ‹_› (by omega), neg_add,
          zpow_add₀ hk, div_zpow, zpow_mul, zpow_neg _ (ix m.1 1),
          show (p.σ ^ (2 : ℤ)) = p.σ ^ 2 from zpow_ofNat _ _]
        push_cast
        ring)
  exact ⟨r, e, k, w, keys, v ()⟩

theorem cmomentY_spec (p : Par) (hk : p.k ≠ 0) (hh : 0 ≤ p.h) (hρ : 0 ≤ 1 - p.ρ ^ 2) (t0 : ℝ)
    (E : ℝ → Rv →ₗ[ℝ] ℝ) (γ : Measure ℝ) (hγ : StatLaw p γ)
    (hE : ∀ᵐ x ∂γ, CondLaw p t0 x (E x)) (l : ℕ) :
    ∃ r, cmomentY l = .ok r ∧ r.keyfor = kfC ∧ r.WF ∧ r.NoZero ∧ r.Keys C7 ∧
      ev (cVal p) r = expect γ E fun x => (ret p t0 x - C ((p.μ - p.θ / 2) * p.h)) ^ l := by
  obtain ⟨q, e, qk, qv⟩ := polyC_spec p hk hh hρ t0 E l
  obtain ⟨r, er, rk, rw', rkeys, rv⟩ := subVC_spec p hk γ hγ q qk
  refine ⟨r.removeZero, ?_, by simp [rk], removeZero_WF _ rw', removeZero_NoZero _,
    removeZero_Keys _ _ rkeys, ?_⟩
  · rw [cmomentY, e, ok_bind, er]; rfl
  · rw [ev_removeZero, rv, expect]
    exact integral_congr_ae (hE.mono fun x hx => qv x hx)

/-- the conditional mean return -/
theorem cond_mean (p : Par) (hk : p.k ≠ 0) (hh : 0 ≤ p.h) (t0 x : ℝ) (E : Rv →ₗ[ℝ] ℝ)
    (hx : CondLaw p t0 x E) :
    E (ret p t0 x) = (p.μ - p.θ / 2) * p.h + beta p * p.θ - beta p * x := by
  obtain ⟨M, hM, hE⟩ := hx
  have t0h : (⟨p.k, p.θ, p.σ, x, t0⟩ : Ito.Par).t0 ≤ t0 + p.h := by simpa using hh
  have e0 : E 1 = 1 := by
    have := hE 0 0 0
    simpa [hM.zero _ t0h] using this
  have e1 : E (X 0) = 0 := by
    have := hE 1 0 0
    rw [hM.step 1 0 0 (by norm_num) _ t0h] at this
    simpa using this
  have e2 : E (X 1) = 0 := by
    have := hE 0 1 0
    rw [hM.step 0 1 0 (by norm_num) _ t0h] at this
    simpa using this
  have e3 : E (X 2) = 0 := by
    have := hE 0 0 1
    rw [hM.step 0 0 1 (by norm_num) _ t0h] at this
    simpa using this
  have h := partsC_sum p hk t0 x
  have : ret p t0 x = C ((p.μ - p.θ / 2) * p.h) * 1 + (C (beta p * p.θ) * 1 +
      (C (-beta p * x) * 1 +
      (C (p.σ / (2 * p.k) * Real.exp (-(p.k * (t0 + p.h)))) * X 0 +
      (C (p.ρ - p.σ / (2 * p.k)) * X 1 + C (Real.sqrt (1 - p.ρ ^ 2)) * X 2)))) := by
    simp only [partsC, List.sum_cons, List.sum_nil] at h
    linear_combination -h
  rw [this]
  simp only [map_add, E_C_mul, e0, e1, e2, e3]
  ring

/-- the mean return -/
theorem mean_ret (p : Par) (hk : p.k ≠ 0) (hh : 0 ≤ p.h) (t0 : ℝ)
    (E : ℝ → Rv →ₗ[ℝ] ℝ) (γ : Measure ℝ) (hγ : StatLaw p γ)
    (hE : ∀ᵐ x ∂γ, CondLaw p t0 x (E x)) :
    expect γ E (ret p t0) = (p.μ - p.θ / 2) * p.h := by
  have h1 : ∀ᵐ x ∂γ, E x (ret p t0 x) = (p.μ - p.θ / 2) * p.h + beta p * p.θ - beta p * x :=
    hE.mono fun x hx => cond_mean p hk hh t0 x (E x) hx
  have i0 := hγ.integrable 0
  have i1 := hγ.integrable 1
  have m0 := hγ.moment 0
  have m1 := hγ.moment 1
  simp only [pow_zero, pow_one, vMoment, Finset.range_zero, Finset.prod_empty, Finset.range_one,
    Finset.prod_singleton, Nat.cast_zero, zero_mul, zero_div, add_zero] at i0 i1 m0 m1
  rw [expect, integral_congr_ae h1]
  have : (fun x => (p.μ - p.θ / 2) * p.h + beta p * p.θ - beta p * x) =
      fun x => ((p.μ - p.θ / 2) * p.h + beta p * p.θ) * (1 : ℝ) - beta p * x := by
    funext x; ring
  rw [this, integral_sub (i0.const_mul _) (i1.const_mul _), integral_const_mul,
    integral_const_mul, m0, m1]
  ring

end Ajd.Fsv1
