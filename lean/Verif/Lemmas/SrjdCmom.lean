import Verif.Lemmas.PolyOn
import Mathlib.Algebra.Polynomial.Roots
import Mathlib.Order.Interval.Set.Infinite
import Verif.Lemmas.SrjdDynkin
import Mathlib.LinearAlgebra.Lagrange
import Verif.Model.SrjdCmom

section -- Laurent

/-! Laurent polynomials are determined by their values. -/

namespace Ajd

/-- in one variable -/
theorem laurent_zero (S : Finset ℤ) (c : ℤ → ℝ) (h : ∀ x : ℝ, 1 < x → ∑ j ∈ S, c j * x ^ j = 0) :
    ∀ j ∈ S, c j = 0 := by
  obtain ⟨N, hN⟩ : ∃ N : ℤ, ∀ j ∈ S, 0 ≤ j + N := by
    obtain ⟨m, hm⟩ := S.bddBelow
    exact ⟨-m, fun j hj => by have := hm hj; omega⟩
  set p : Polynomial ℝ := ∑ j ∈ S, Polynomial.C (c j) * Polynomial.X ^ (j + N).toNat with hp
  have hp0 : p = 0 := by
    refine Polynomial.eq_zero_of_infinite_isRoot p ((Set.Ioi_infinite (a := (1 : ℝ))).mono fun x hx => ?_)
    have hx0 : x ≠ 0 := by have : (1 : ℝ) < x := hx; positivity
    show p.eval x = 0
    rw [hp, Polynomial.eval_finsetSum]
    have : ∀ j ∈ S, (Polynomial.C (c j) * Polynomial.X ^ (j + N).toNat).eval x = c j * x ^ j * x ^ N := by
      intro j hj
      rw [Polynomial.eval_mul, Polynomial.eval_C, Polynomial.eval_pow, Polynomial.eval_X, mul_assoc,
        ← zpow_add₀ hx0, ← zpow_natCast, Int.toNat_of_nonneg (hN j hj)]
    rw [Finset.sum_congr rfl this, ← Finset.sum_mul, h x hx, zero_mul]
  intro j hj
  have hc : p.coeff (j + N).toNat = c j := by
    rw [hp, Polynomial.finsetSum_coeff]
    simp only [Polynomial.coeff_C_mul, Polynomial.coeff_X_pow]
    rw [Finset.sum_eq_single j]
    · simp
    · intro b hb hbj
      rw [if_neg, mul_zero]
      have := hN j hj; have := hN b hb
      omega
    · exact fun h => absurd hj h
  rw [← hc, hp0, Polynomial.coeff_zero]

/-- value of a list of exponents -/
noncomputable def lval : List ℝ → List ℤ → ℝ
  | x :: xs, j :: K => x ^ j * lval xs K
  | _, _ => 1

/-- sum over entries -/
noncomputable def lsum {K : Type} (f : K → ℝ) (L : List (K × ℝ)) : ℝ := (L.map fun e => e.2 * f e.1).sum

/-- entries whose first exponent is `j`, without it -/
def part (j : ℤ) (L : List (List ℤ × ℝ)) : List (List ℤ × ℝ) :=
  (L.filter fun e => decide (ix e.1 0 = j)).map fun e => (e.1.tail, e.2)

theorem lsum_part (x : ℝ) (xs : List ℝ) (L : List (List ℤ × ℝ)) (hL : ∀ e ∈ L, e.1 ≠ []) (S : Finset ℤ)
    (hS : ∀ e ∈ L, ix e.1 0 ∈ S) :
    lsum (lval (x :: xs)) L = ∑ j ∈ S, lsum (lval xs) (part j L) * x ^ j := by
  induction L with
  | nil => simp [lsum, part]
  | cons e L ih =>
    have ih := ih (fun e he => hL e (by simp [he])) (fun e he => hS e (by simp [he]))
    obtain ⟨K, v⟩ := e
    rcases K with _ | ⟨i, K⟩
    · exact absurd rfl (hL ([], v) (by simp))
    have hi : i ∈ S := hS (i :: K, v) (by simp)
    have e1 : lsum (lval (x :: xs)) ((i :: K, v) :: L) = v * (x ^ i * lval xs K) +
        lsum (lval (x :: xs)) L := by simp [lsum, lval]
    have e2 : ∀ j, lsum (lval xs) (part j ((i :: K, v) :: L)) =
        (if i = j then v * lval xs K else 0) + lsum (lval xs) (part j L) := by
      intro j
      by_cases h : i = j
      · simp [lsum, part, h]
      · simp [lsum, part, h]
    rw [e1, ih]
    simp only [e2, add_mul, Finset.sum_add_distrib, ite_mul, zero_mul]
    rw [Finset.sum_ite_eq, if_pos hi]
    ring

theorem part_nodup (j : ℤ) (L : List (List ℤ × ℝ)) (hL : ∀ e ∈ L, e.1 ≠ []) (h : (L.map Prod.fst).Nodup) :
    ((part j L).map Prod.fst).Nodup := by
  rw [part, List.map_map]
  have h1 : ((L.filter fun e => decide (ix e.1 0 = j)).map Prod.fst).Nodup :=
    h.sublist (List.filter_sublist.map _)
  have h2 := List.nodup_map_iff_inj_on (f := Prod.fst) (List.Nodup.of_map _ h1)
  rw [h2] at h1
  refine (List.nodup_map_iff_inj_on ?_).2 ?_
  · exact List.Nodup.of_map Prod.fst (h.sublist (List.filter_sublist.map _))
  · rintro ⟨a, u⟩ ha ⟨b, w⟩ hb hab
    refine h1 _ ha _ hb ?_
    simp only [List.mem_filter, decide_eq_true_eq] at ha hb
    simp only [Function.comp] at hab
    rcases a with _ | ⟨i, a⟩
    · exact absurd rfl (hL _ ha.1)
    rcases b with _ | ⟨i', b⟩
    · exact absurd rfl (hL _ hb.1)
    simp only [ix_cons_zero, List.tail_cons] at ha hb hab
    simp only
    rw [ha.2, hb.2, hab]

/-- in several variables -/
theorem laurent_zero_list (n : ℕ) (L : List (List ℤ × ℝ)) (hn : (L.map Prod.fst).Nodup)
    (hl : ∀ e ∈ L, e.1.length = n)
    (h : ∀ xs : List ℝ, xs.length = n → (∀ x ∈ xs, 1 < x) → lsum (lval xs) L = 0) :
    ∀ e ∈ L, e.2 = 0 := by
  induction n generalizing L with
  | zero =>
    rcases L with _ | ⟨e, _ | ⟨e', L⟩⟩
    · simp
    · intro x hx
      rw [List.mem_singleton] at hx
      subst hx
      have := h [] rfl (by simp)
      simpa [lsum, lval] using this
    · have h1 := hl e (by simp)
      have h2 := hl e' (by simp)
      rw [List.length_eq_zero_iff] at h1 h2
      simp [h1, h2] at hn
  | succ n ih =>
    have hne : ∀ e ∈ L, e.1 ≠ [] := fun e he h0 => by have := hl e he; rw [h0] at this; simp at this
    set S : Finset ℤ := (L.map fun e => ix e.1 0).toFinset with hS
    have hmem : ∀ e ∈ L, ix e.1 0 ∈ S := fun e he => by
      rw [hS, List.mem_toFinset]; exact List.mem_map.2 ⟨e, he, rfl⟩
    intro e he
    have key := ih (part (ix e.1 0) L) (part_nodup _ _ hne hn) (by
      intro y hy
      simp only [part, List.mem_map, List.mem_filter] at hy
      obtain ⟨z, hz, rfl⟩ := hy
      simp [hl z hz.1]) (by
      intro xs hx1 hx2
      refine laurent_zero S (fun j => lsum (lval xs) (part j L)) (fun x hx => ?_) _ (hmem e he)
      rw [← lsum_part x xs L hne S hmem]
      exact h (x :: xs) (by simp [hx1]) (by simpa using ⟨hx, hx2⟩))
    exact key (e.1.tail, e.2) (List.mem_map.2 ⟨e, List.mem_filter.2 ⟨he, by simp⟩, rfl⟩)

end Ajd

end -- Laurent

section -- SrjdStat

/-! Stationary central moments. -/

namespace Ajd.Srjd
open Poly

/-- central moments of the stationary law with mean `b` -/
noncomputable def cmS (k b σ lam μ : ℝ) : ℕ → ℝ
  | 0 => 1
  | n + 1 => ((n + 1 : ℕ) * n * σ ^ 2 / 2 * (cmS k b σ lam μ n + b * cmS k b σ lam μ (n - 1)) +
      lam * ∑ j : Fin (n + 1), (if (j : ℕ) + 1 = 1 then 0 else 1) *
        ((n + 1).choose (j + 1) * (((j : ℕ) + 1).factorial * μ ^ ((j : ℕ) + 1))) *
          cmS k b σ lam μ (n - j)) / ((n + 1 : ℕ) * k)

theorem cmS_rec (k b σ lam μ : ℝ) (hk : k ≠ 0) (n : ℕ) : n * k * cmS k b σ lam μ n =
    n * (n - 1 : ℕ) * σ ^ 2 / 2 * (cmS k b σ lam μ (n - 1) + b * cmS k b σ lam μ (n - 2)) +
      lam * ∑ j ∈ Finset.range n, (if j + 1 = 1 then 0 else 1) *
        (n.choose (j + 1) * ((j + 1).factorial * μ ^ (j + 1))) * cmS k b σ lam μ (n - (j + 1)) := by
  rcases n with _ | n
  · simp
  · have h : ((n + 1 : ℕ) : ℝ) * k ≠ 0 := mul_ne_zero (by positivity) hk
    conv_lhs => rw [cmS]
    rw [mul_div_cancel₀ _ h, Finset.sum_fin_eq_sum_range]
    congr 1
    congr 1
    refine Finset.sum_congr rfl fun j hj => ?_
    rw [Finset.mem_range] at hj
    rw [dif_pos hj, show n + 1 - (j + 1) = n - j by omega]

theorem cmS_one (k b σ lam μ : ℝ) : cmS k b σ lam μ 1 = 0 := by
  rw [cmS]; simp

/-- a family of numbers as a combination of powers -/
theorem weights (m : ℕ → ℝ) (N : ℕ) : ∃ w : ℕ → ℝ, ∀ i ≤ N, ∑ l ∈ Finset.range (N + 1), w l * (l : ℝ) ^ i = m i := by
  refine ⟨fun l => Lp m (Lagrange.basis (Finset.range (N + 1)) (fun j : ℕ => (j : ℝ)) l), fun i hi => ?_⟩
  have h : (Polynomial.X ^ i : Polynomial ℝ) = Lagrange.interpolate (Finset.range (N + 1))
      (fun j : ℕ => (j : ℝ)) fun l => ((l : ℝ) ^ i) := by
    refine Lagrange.eq_interpolate_of_eval_eq _ (Nat.cast_injective.injOn) ?_ (fun l _ => by simp)
    rw [Polynomial.degree_X_pow, Finset.card_range]
    exact_mod_cast Nat.lt_succ_of_le hi
  have h1 : Lp m (Polynomial.X ^ i) = m i := by
    have := Lp_X m 1 i
    rwa [map_one, one_mul, one_mul] at this
  rw [← h1, h, Lagrange.interpolate_apply, map_sum]
  refine Finset.sum_congr rfl fun l _ => ?_
  rw [← Polynomial.smul_eq_C_mul, map_smul, smul_eq_mul, mul_comm]

/-- the moments of the stationary law do not change -/
theorem stat_const {p : Par} (hp : p.OK) (b : ℝ) (N : ℕ) (w : ℕ → ℝ)
    (hw : ∀ i ≤ N, ∑ l ∈ Finset.range (N + 1), w l * (l : ℝ) ^ i = cmS p.k b p.sigma p.lmbd p.mu_v i)
    (n : ℕ) (hn : n ≤ N) (t : ℝ) (ht : 0 ≤ t) :
    ∑ l ∈ Finset.range (N + 1), w l * U centralZ p l b 0 n t = cmS p.k b p.sigma p.lmbd p.mu_v n := by
  set m := cmS p.k b p.sigma p.lmbd p.mu_v with hm
  induction n using Nat.strong_induction_on generalizing t with
  | _ n ih =>
    have key := linear_zero (-(n * p.k))
      (fun u => ∑ l ∈ Finset.range (N + 1), w l * U centralZ p l b 0 n u - m n) (by
        simp only [U_zero centralZ_gen hp, zero_add]
        rw [hw n hn, sub_self])
      ((continuousOn_finsetSum _ fun l _ => continuousOn_const.mul
        (U_cont centralCfg_ok hp _ _ _ _)).sub continuousOn_const)
      (fun u hu => by
        have hd := HasDerivAt.fun_sum (u := Finset.range (N + 1)) fun l _ =>
          (U_deriv centralCfg_ok centralZ_gen hp (l : ℝ) b 0 n u hu).const_mul (w l)
        refine (hd.sub_const (m n)).congr_deriv ?_
        have e := cmS_rec p.k b p.sigma p.lmbd p.mu_v hp.k n
        rw [← hm] at e
        have i1 : (n : ℝ) * ∑ l ∈ Finset.range (N + 1), w l * U centralZ p l b 0 (n - 1) u =
            n * m (n - 1) := by
          rcases n with _ | n
          · simp
          · rw [ih (n + 1 - 1) (by omega) (by omega) u hu.le]
        have i2 : (n : ℝ) * (n - 1 : ℕ) * ∑ l ∈ Finset.range (N + 1), w l * U centralZ p l b 0 (n - 2) u =
            n * (n - 1 : ℕ) * m (n - 2) := by
          rcases n with _ | _ | n
          · simp
          · simp
          · rw [ih (n + 2 - 2) (by omega) (by omega) u hu.le]
        have i3 : ∑ l ∈ Finset.range (N + 1), w l * ∑ j ∈ Finset.range n, (if j + 1 = 1 then 0 else 1) *
            (n.choose (j + 1) * ((j + 1).factorial * p.mu_v ^ (j + 1))) *
              U centralZ p l b 0 (n - (j + 1)) u =
            ∑ j ∈ Finset.range n, (if j + 1 = 1 then 0 else 1) *
              (n.choose (j + 1) * ((j + 1).factorial * p.mu_v ^ (j + 1))) * m (n - (j + 1)) := by
          simp only [Finset.mul_sum]
          rw [Finset.sum_comm]
          refine Finset.sum_congr rfl fun j hj => ?_
          rw [Finset.mem_range] at hj
          rw [← ih (n - (j + 1)) (by omega) (by omega) u hu.le, Finset.mul_sum]
          exact Finset.sum_congr rfl fun l _ => by ring
        have hs : ∀ l : ℕ, w l * (-(n * p.k) * (U centralZ p l b 0 n u - 0 * U centralZ p l b 0 (n - 1) u) +
            n * (n - 1 : ℕ) * p.sigma ^ 2 / 2 * (U centralZ p l b 0 (n - 1) u +
              (b - 0) * U centralZ p l b 0 (n - 2) u) +
            p.lmbd * ∑ j ∈ Finset.range n, (if j + 1 = 1 then 0 else 1) *
              (n.choose (j + 1) * ((j + 1).factorial * p.mu_v ^ (j + 1))) *
              U centralZ p l b 0 (n - (j + 1)) u) =
            -(n * p.k) * (w l * U centralZ p l b 0 n u) +
            (n - 1 : ℕ) * p.sigma ^ 2 / 2 * (n * (w l * U centralZ p l b 0 (n - 1) u)) +
            p.sigma ^ 2 / 2 * b * (n * (n - 1 : ℕ) * (w l * U centralZ p l b 0 (n - 2) u)) +
            p.lmbd * (w l * ∑ j ∈ Finset.range n, (if j + 1 = 1 then 0 else 1) *
              (n.choose (j + 1) * ((j + 1).factorial * p.mu_v ^ (j + 1))) *
              U centralZ p l b 0 (n - (j + 1)) u) := fun l => by ring
        rw [Finset.sum_congr rfl fun l _ => hs l]
        simp only [Finset.sum_add_distrib, ← Finset.mul_sum]
        rw [i1, i2, i3]
        linear_combination -e) t ht
    exact sub_eq_zero.1 key

end Ajd.Srjd

end -- SrjdStat

section -- SrjdCmom

/-! `cond_cmoment_v`, `find_same_order` and `last_expectation`. -/

namespace Ajd.Srjd
open Poly MvPolynomial

theorem joint00 {c : Cfg} {Z : ZFun} (hc : CfgOK c Z) (d : ℕ) (hd : 2 ≤ d) : momentJoint c d 0 0 = .ok (P1 c) := by
  obtain ⟨z1, e1, -⟩ := hc.iez 1
  obtain ⟨z2, e2, -⟩ := hc.iez 2
  obtain ⟨q, e3, -⟩ := momentIe_spec hc d 2 (by omega) hd
  norm_num at e1 e2 e3
  rw [momentJoint, momentJointWith, if_neg (by simp), e1, e2, e3]
  rfl

/-- the key of `e^{-nkt} (v0-E[v])^n` -/
abbrev target (n : ℤ) : List ℤ := [-n, 0, n, 0, 0, 0, 0]

/-- keys of `cond_cmoment_v(n)` -/
def KC (n : ℤ) (K : List ℤ) : Prop := K7 K ∧ ix K 2 ≤ n ∧ (ix K 2 = n → K = target n)

theorem condTerms_keys (d n x y : ℕ) (hxy : x + y ≤ n) (hd : n ≤ d) (h2 : 2 ≤ d) :
    ∃ ts, condTerms d n ((x : ℤ), (y : ℤ)) = .ok ts ∧ (∀ e ∈ ts, KC n e.1) ∧
      ((ts.map fun e => e.2 • (if e.1 = target n then (1 : ℚ) else 0)).sum = if x = 0 ∧ y = 0 then 1 else 0) ∧
      ∀ i : At, (ts.map fun e => e.2 • i.v e.1).sum = n.choose x * (n - x).choose y *
        vIat i.p i.a i.b i.t [-n, 0, n - x - y, 0, x, 0, 0] * jm centralZ i.p i.a i.b x y i.t := by
  obtain ⟨q, e, -, g1, g2, g3⟩ := momentJoint_spec centralCfg_ok d x y (by omega) h2
  have hk7 : q.Keys K7 := fun e he => K7_of (g2 e he).1
  obtain ⟨c, v⟩ := shift_terms q hk7 (combZ n x * combZ (n - x) y)
    (-n) 0 (n - x - y) 0 x 0 0 le_rfl (by omega) (by omega) (by omega) le_rfl le_rfl
    (fun e => ([ix e.1 0 - n, ix e.1 1, ix e.1 2 + (n - x - y), ix e.1 3, ix e.1 4 + x,
      ix e.1 5, ix e.1 6], e.2 * (combZ n x * combZ (n - x) y))) (fun e => by simp; constructor <;> ring)
  refine ⟨_, by rw [condTerms]; dsimp only; rw [e]; rfl, ?_, ?_, fun i => ?_⟩
  · intro z hz
    refine ⟨c z hz, ?_⟩
    obtain ⟨w, hw, rfl⟩ := List.mem_map.1 hz
    have h3 := (g2 w hw).2
    simp only [ix_cons_zero, ix_cons_succ]
    refine ⟨by omega, fun h => ?_⟩
    have hx : x = 0 := by omega
    have hy : y = 0 := by omega
    subst hx; subst hy
    have e0 := joint00 centralCfg_ok d h2
    norm_num at e
    rw [e0] at e
    cases e
    simp [P1] at hw
    subst hw
    simp
  · by_cases h : x = 0 ∧ y = 0
    · obtain ⟨rfl, rfl⟩ := h
      have e0 := joint00 centralCfg_ok d h2
      norm_num at e
      rw [e0] at e
      cases e
      simp [P1, combZ]
    · rw [if_neg h]
      refine List.sum_eq_zero fun z hz => ?_
      simp only [List.map_map, List.mem_map, Function.comp] at hz
      obtain ⟨w, hw, rfl⟩ := hz
      have h3 := (g2 w hw).2
      rw [if_neg, smul_zero]
      intro h'
      have := congrArg (fun K => ix K 2) h'
      simp only [ix_cons_zero, ix_cons_succ] at this
      omega
  · refine (v i).trans ?_
    rw [← Nat.cast_sub (by omega), combZ_eq, combZ_eq, g3 i.p i.hp _ _ _ i.ht]
    push_cast
    rw [Nat.cast_sub (by omega)]

theorem condCmomentV_spec (d n : ℕ) (hn : 2 ≤ n) (hd : n ≤ d) : ∃ r, condCmomentV d n = .ok r ∧
    r.keyfor = kfC ∧ r.WF ∧ r.Keys (KC n) ∧ dget r.items (target n) = some 1 ∧
    ∀ i : At, ev i.v r = U centralZ i.p i.a i.b 0 n i.t := by
  obtain ⟨r, e, k, w, c, v⟩ := addLoop_spec kfC (condTerms d n) (idx2 n) (KC n)
    (fun i : At => i.v) (fun i m => n.choose m.1.toNat * (n - m.1.toNat).choose m.2.toNat *
        vIat i.p i.a i.b i.t [-n, 0, n - m.1 - m.2, 0, m.1, 0, 0] *
          jm centralZ i.p i.a i.b m.1.toNat m.2.toNat i.t) (by
    intro m hm
    obtain ⟨x, y, rfl, hxy⟩ := mem_idx2 n m hm
    obtain ⟨ts, a, b, -, v⟩ := condTerms_keys d n x y hxy hd (by omega)
    exact ⟨ts, a, b, v⟩)
  obtain ⟨r', e', -, -, -, v'⟩ := addLoop_spec kfC (condTerms d n) (idx2 n) (KC n)
    (fun (_ : Unit) K => if K = target n then (1 : ℚ) else 0)
    (fun _ m => if m.1.toNat = 0 ∧ m.2.toNat = 0 then 1 else 0) (by
    intro m hm
    obtain ⟨x, y, rfl, hxy⟩ := mem_idx2 n m hm
    obtain ⟨ts, a, b, v, -⟩ := condTerms_keys d n x y hxy hd (by omega)
    exact ⟨ts, a, b, fun _ => v⟩)
  rw [e] at e'
  cases e'
  have hc : r.coeff (target n) = 1 := by
    rw [coeff_eq_ev r w, v' ()]
    have hs : ((idx2 n).map fun m : ℤ × ℤ => if m.1.toNat = 0 ∧ m.2.toNat = 0 then (1 : ℚ) else 0).sum = 1 := by
      rw [sum_idx2]
      simp only [Int.toNat_natCast]
      rw [Finset.sum_eq_single 0, Finset.sum_eq_single 0]
      · simp
      · intro b _ hb; simp [hb]
      · intro h; simp at h
      · intro b _ hb; simp [hb]
      · intro h; simp at h
    exact hs
  refine ⟨r, by rw [condCmomentV, if_neg (by omega), if_neg (by omega), e], k, w, c, ?_, fun i => ?_⟩
  · rw [Poly.coeff] at hc
    cases h : dget r.items (target n) with
    | none => rw [h] at hc; simp at hc
    | some x => rw [h] at hc; simpa using hc
  · rw [v i, sum_idx2, U, Wt]
    have hW : (C (0 + i.a * Real.exp (-(i.p.k * i.t))) + C (Real.exp (-(i.p.k * i.t))) * xi i.p : P2v) =
        C (Real.exp (-(i.p.k * i.t))) * (C i.p.sigma * X 0 + (X 1 + C i.a)) := by
      rw [zero_add, map_mul, xi]; ring
    rw [hW, mul_pow, ← map_pow, Ex_C_mul, trinom, map_sum, Finset.mul_sum]
    refine Finset.sum_congr rfl fun x hx => ?_
    rw [map_sum, Finset.mul_sum]
    refine Finset.sum_congr rfl fun y hy => ?_
    rw [Finset.mem_range] at hx hy
    set E := Real.exp (-(i.p.k * i.t)) with hE
    have h1 : ((n.choose x : P2v) * ((n - x).choose y : P2v) * ((C i.p.sigma * X 0) ^ x * X 1 ^ y *
        C i.a ^ (n - x - y)) : P2v) = C ((n.choose x * (n - x).choose y : ℝ) *
          (i.p.sigma ^ x * i.a ^ (n - x - y))) * (X 0 ^ x * X 1 ^ y) := by
      simp only [map_mul, map_pow, map_natCast]; ring
    rw [h1, Ex_C_mul, Ex_xz]
    simp only [Int.toNat_natCast, vIat, ix_cons_zero, ix_cons_succ, neg_zero, zpow_zero, mul_one,
      zpow_natCast]
    have h3 : Real.exp (((-(n : ℤ) : ℤ) : ℝ) * i.p.k * i.t) = E ^ n := by
      rw [hE, ← Real.exp_nat_mul]
      congr 1; push_cast; ring
    have h4 : ((n : ℤ) - x - y) = ((n - x - y : ℕ) : ℤ) := by omega
    rw [h3, h4, zpow_natCast]
    ring


theorem filter_one {K V : Type} (l : List (K × V)) (h : (l.map Prod.fst).Nodup) (q : K → Bool) (k : K)
    (v : V) (hm : (k, v) ∈ l) (hq : ∀ e ∈ l, q e.1 = true ↔ e.1 = k) :
    (l.filter fun e => q e.1).length = 1 := by
  have h1 : ((l.filter fun e => q e.1).map Prod.fst).Nodup := h.sublist (List.filter_sublist.map _)
  have h2 : (k, v) ∈ l.filter fun e => q e.1 := List.mem_filter.2 ⟨hm, (hq _ hm).2 rfl⟩
  have h3 : ∀ e ∈ l.filter fun e => q e.1, e.1 = k := fun e he =>
    (hq e (List.mem_filter.1 he).1).1 (List.mem_filter.1 he).2
  generalize (l.filter fun e => q e.1) = f at h1 h2 h3
  rcases f with _ | ⟨a, _ | ⟨b, t⟩⟩
  · simp at h2
  · rfl
  · have ha := h3 a (by simp)
    have hb := h3 b (by simp)
    simp [ha, hb] at h1

theorem findSameOrder_spec (n : ℕ) (r : IPoly) (w : r.WF) (c : r.Keys (KC n))
    (h1 : dget r.items (target n) = some 1) : findSameOrder r n = .ok true := by
  have := filter_one r.items w (fun K => decide (ix K 2 = n)) (target n) 1 (mem_of_dget _ _ _ h1)
    (fun e he => by
      rw [decide_eq_true_iff]
      exact ⟨(c e he).2.2, fun h => by rw [h]; rfl⟩)
  rw [findSameOrder, if_pos this, lookup, h1]
  rfl

/-- value of a key of `last_expectation` -/
noncomputable def vL (p : Par) (b t : ℝ) (K : List ℤ) : ℝ :=
  Real.exp (ix K 0 * p.k * t) * p.k ^ (-ix K 1) * (b ^ ix K 2 * p.sigma ^ ix K 3) *
    (p.lmbd ^ ix K 4 * p.mu_v ^ ix K 5)

/-- value of a key of `cmoment_v` -/
noncomputable def vS (k b σ lam μ : ℝ) (K : List ℤ) : ℝ :=
  k ^ (-ix K 0) * (b ^ ix K 1 * σ ^ ix K 2) * (lam ^ ix K 3 * μ ^ ix K 4)

/-- `r` represents the central moment of order `m` -/
def CMGood (m : ℕ) (r : IPoly) : Prop :=
  r.keyfor = kfS ∧ r.WF ∧ r.Keys (NN 5) ∧ ∀ p : Par, p.OK → ∀ b,
    ev (vS p.k b p.sigma p.lmbd p.mu_v) r = cmS p.k b p.sigma p.lmbd p.mu_v m

/-- six components, all but the first non-negative -/
def KL (K : List ℤ) : Prop := K.length = 6 ∧ ∀ i, 1 ≤ i → 0 ≤ ix K i

theorem KL_mk (a b c d e f : ℤ) (h1 : 0 ≤ b) (h2 : 0 ≤ c) (h3 : 0 ≤ d) (h4 : 0 ≤ e) (h5 : 0 ≤ f) :
    KL [a, b, c, d, e, f] := by
  refine ⟨rfl, fun i hi => ?_⟩
  match i with
  | 1 => exact h1
  | 2 => exact h2
  | 3 => exact h3
  | 4 => exact h4
  | 5 => exact h5
  | n + 6 => simp

/-- the key without `v0-E[v]` -/
abbrev dropA (K : List ℤ) : List ℤ := [ix K 0, ix K 1, ix K 3, ix K 4, ix K 5, ix K 6]

theorem dropA_eq (K : List ℤ) (h : K.length = 7) : K.take 2 ++ K.drop 3 = dropA K := by
  match K, h with
  | [a, b, c, d, e, f, g], _ => rfl

theorem keyTimesC_spec (x : ℚ) (K : List ℤ) (hK : K7 K) (m : ℕ) (q : IPoly) (hq : CMGood m q) :
    (keyTimesC x K q).keyfor = kfL ∧ (keyTimesC x K q).Keys KL ∧ ∀ i : At,
      ev (vL i.p i.b i.t) (keyTimesC x K q) =
        x • (vL i.p i.b i.t (dropA K) * cmS i.p.k i.b i.p.sigma i.p.lmbd i.p.mu_v m) := by
  refine ⟨by simp [keyTimesC], ofTerms_Keys _ _ _ ?_, fun i => ?_⟩
  · intro z hz
    obtain ⟨y, hy, rfl⟩ := List.mem_map.1 hz
    have h := (hq.2.2.1 y hy).2
    have g := hK.2
    exact KL_mk _ _ _ _ _ _ (add_nonneg (g 1 (by norm_num)) (h 0)) (add_nonneg (g 3 (by norm_num)) (h 1))
      (add_nonneg (g 4 (by norm_num)) (h 2)) (add_nonneg (g 5 (by norm_num)) (h 3))
      (add_nonneg (g 6 (by norm_num)) (h 4))
  · rw [← hq.2.2.2 i.p i.hp i.b, Rat.smul_def, ← mul_assoc, ← ev_mul_const]
    refine ev_ofTerms_map _ _ _ _ _ fun y hy => ?_
    have h := (hq.2.2.1 y hy).2
    have g := hK.2
    simp only [vL, vS, ix_cons_zero, ix_cons_succ, Rat.smul_def]
    rw [zpow_add_nn _ _ _ (g 3 (by norm_num)) (h 1), zpow_add_nn _ _ _ (g 4 (by norm_num)) (h 2),
      zpow_add_nn _ _ _ (g 5 (by norm_num)) (h 3), zpow_add_nn _ _ _ (g 6 (by norm_num)) (h 4), neg_add,
      zpow_add₀ i.hp.k]
    push_cast
    ring

theorem lastExpectation_spec (n : ℕ) (cm : List IPoly) (hcm : ∀ j, 2 ≤ j → j < n → ∃ q, cm[j]? = some q ∧ CMGood j q)
    (poly : IPoly) (hp : ∀ e ∈ poly.items, K7 e.1 ∧ ix e.1 2 < n) :
    ∃ r, lastExpectation poly cm = .ok r ∧ r.keyfor = kfL ∧ r.WF ∧ r.Keys KL ∧ ∀ i : At,
      ev (vL i.p i.b i.t) r = ev (fun K => vL i.p i.b i.t (dropA K) *
        cmS i.p.k i.b i.p.sigma i.p.lmbd i.p.mu_v (ix K 2).toNat) poly := by
  obtain ⟨r, e, k, w, c, v⟩ := accLoop_spec (lastStep cm) poly.items KL kfL
    (fun (i : At) => vL i.p i.b i.t) (fun i e => e.2 • (vL i.p i.b i.t (dropA e.1) *
      cmS i.p.k i.b i.p.sigma i.p.lmbd i.p.mu_v (ix e.1 2).toNat)) (by
    intro e he acc hk hacc
    obtain ⟨hK, hlt⟩ := hp e he
    have h2 := hK.2 2 (by norm_num)
    by_cases h0 : ix e.1 2 = 0
    · have hd : KL (dropA e.1) := KL_mk _ _ _ _ _ _ (hK.2 1 (by norm_num)) (hK.2 3 (by norm_num))
        (hK.2 4 (by norm_num)) (hK.2 5 (by norm_num)) (hK.2 6 (by norm_num))
      refine ⟨acc.addKeyval (dropA e.1) e.2, by rw [lastStep, if_pos h0, dropA_eq _ hK.1], ?_, ?_, ?_, ?_⟩
      · rw [← hk]; simp
      · exact addKeyval_WF _ _ _
      · exact addKeyval_Keys _ _ _ _ hacc hd
      · intro i
        rw [ev_addKeyval, h0]
        simp [cmS]
    · by_cases h1 : 1 < ix e.1 2
      · obtain ⟨q, hq1, hq2⟩ := hcm (ix e.1 2).toNat (by omega) (by omega)
        obtain ⟨k1, c1, v1⟩ := keyTimesC_spec e.2 e.1 hK _ q hq2
        obtain ⟨s, f, l, w, -, dd, u⟩ := merge_spec acc (keyTimesC e.2 e.1 q) (hk.trans k1.symm)
        refine ⟨s, ?_, l.trans hk, w, dd _ hacc c1, fun i => by rw [u, v1]⟩
        rw [lastStep, if_neg h0, if_pos h1, Utils.pyGet, hq1]
        exact f
      · have : ix e.1 2 = 1 := by omega
        refine ⟨acc, by rw [lastStep, if_neg h0, if_neg h1], hk, id, hacc, fun i => ?_⟩
        rw [this, show (1 : ℤ).toNat = 1 from rfl, cmS_one]
        simp) ⟨kfL, []⟩ rfl (by intro y hy; simp at hy)
  refine ⟨r, e, k, w (by simp [WF]), c, fun i => ?_⟩
  rw [v i]
  simp [ev]

/-- the left hand side is `(1 - e^{-nkt}) m_n` -/
theorem left_value (n : ℕ) (r : IPoly) (w : r.WF) (c : r.Keys (KC n))
    (h1 : dget r.items (target n) = some 1)
    (v : ∀ i : At, ev i.v r = U centralZ i.p i.a i.b 0 n i.t) (i : At) :
    ev (fun K => vL i.p i.b i.t (dropA K) * cmS i.p.k i.b i.p.sigma i.p.lmbd i.p.mu_v (ix K 2).toNat)
      (⟨kfC, r.items.filter fun e => !decide (e.1 = target n)⟩ : IPoly) =
      (1 - Real.exp (-(n * i.p.k * i.t))) * cmS i.p.k i.b i.p.sigma i.p.lmbd i.p.mu_v n := by
  set m := cmS i.p.k i.b i.p.sigma i.p.lmbd i.p.mu_v with hm
  set g : List ℤ → ℝ := fun K => vL i.p i.b i.t (dropA K) * m (ix K 2).toNat with hg
  obtain ⟨ω, hω⟩ := weights m n
  have hs := stat_const i.hp i.b n ω hω n le_rfl i.t i.ht
  have e1 : ev g r = m n := by
    rw [hm, ← hs]
    have : ∀ l : ℕ, U centralZ i.p l i.b 0 n i.t = ev (vIat i.p l i.b i.t) r := fun l =>
      (v ⟨i.p, l, i.b, i.t, i.hp, i.ht⟩).symm
    simp only [this]
    have h2 : ∀ e ∈ r.items, g e.1 = ∑ l ∈ Finset.range (n + 1), ω l * vIat i.p l i.b i.t e.1 := by
      intro e he
      obtain ⟨hK, hle, -⟩ := c e he
      have h0 := hK.2 2 (by norm_num)
      simp only [hg]
      rw [← hω (ix e.1 2).toNat (by omega), Finset.mul_sum]
      refine Finset.sum_congr rfl fun l _ => ?_
      simp only [vL, vIat, ix_cons_zero, ix_cons_succ]
      rw [← zpow_natCast, Int.toNat_of_nonneg h0]
      ring
    unfold ev
    rw [List.map_congr_left fun e he => by rw [h2 e he]]
    generalize r.items = L
    induction L with
    | nil => simp
    | cons a L ih =>
      simp only [List.map_cons, List.sum_cons, mul_add, Finset.sum_add_distrib]
      rw [ih]
      congr 1
      rw [Rat.smul_def, Finset.mul_sum]
      refine Finset.sum_congr rfl fun l _ => ?_
      rw [Rat.smul_def]; ring
  have e2 : ev g r = ev g (⟨kfC, r.items.filter fun e => !decide (e.1 = target n)⟩ : IPoly) + g (target n) := by
    unfold ev
    have hw : (r.items.map Prod.fst).Nodup := w
    generalize r.items = L at hw h1
    clear e1
    induction L with
    | nil => simp at h1
    | cons a L ih =>
      obtain ⟨K, x⟩ := a
      simp only [List.map_cons, List.nodup_cons] at hw
      rw [dget_cons] at h1
      by_cases h : K = target n
      · rw [if_pos h] at h1
        have hx : x = 1 := by simpa using h1
        have hf : L.filter (fun e => !decide (e.1 = target n)) = L := by
          rw [List.filter_eq_self]
          intro e he
          simp only [Bool.not_eq_true', decide_eq_false_iff_not]
          intro h'
          exact hw.1 (List.mem_map.2 ⟨e, he, h'.trans h.symm⟩)
        rw [List.filter_cons_of_neg (by simp [h]), hf, List.map_cons, List.sum_cons, hx, h, one_smul, add_comm]
      · rw [if_neg h] at h1
        rw [List.filter_cons_of_pos (by simp [h]), List.map_cons, List.sum_cons, List.map_cons, List.sum_cons,
          ih hw.2 h1, add_assoc]
  have e3 : g (target n) = Real.exp (-(n * i.p.k * i.t)) * m n := by
    simp only [hg, vL, ix_cons_zero, ix_cons_succ, neg_zero, zpow_zero, mul_one, Int.toNat_natCast]
    congr 2
    push_cast; ring
  rw [e1, e3] at e2
  rw [sub_mul, one_mul]
  linarith

end Ajd.Srjd

end -- SrjdCmom
