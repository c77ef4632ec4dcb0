import Verif.Lemmas.Fsv1

namespace Ajd.Fsv1
open Poly Ito Utils MvPolynomial MeasureTheory

/-! ### mom.py -/

noncomputable def bmVal (p : Par) (key : List ℤ) : ℝ :=
  Real.exp (-(ix key 0) * p.k * p.h) * p.h ^ ix key 1 * p.k ^ (-ix key 2) * p.μ ^ ix key 3 *
    p.θ ^ ix key 4 * p.σ ^ ix key 5 * p.ρ ^ ix key 6 * sq p.ρ (ix key 7)

theorem sum_triple {α β γ : Type} (L1 : List α) (L2 : List β) (L3 : List γ) (F : α × β × γ → ℝ)
    (A : α → ℝ) (B : β → ℝ) (D : γ → ℝ)
    (h : ∀ a ∈ L1, ∀ b ∈ L2, ∀ c ∈ L3, F (a, b, c) = A a * B b * D c) :
    ((L1.flatMap fun a => L2.flatMap fun b => L3.map fun c => (a, b, c)).map F).sum =
      (L1.map A).sum * (L2.map B).sum * (L3.map D).sum := by
  rw [sum_flatMap, mul_assoc, ← List.sum_map_mul_right]
  congr 1
  apply List.map_congr_left
  intro a ha
  rw [sum_flatMap, ← List.sum_map_mul_right, ← List.sum_map_mul_left]
  congr 1
  apply List.map_congr_left
  intro b hb
  rw [← mul_assoc, ← List.sum_map_mul_left, List.map_map]
  congr 1
  apply List.map_congr_left
  intro c hc
  exact h a ha b hb c hc

/-- the constant part `(μ - θ/2) h + β θ` -/
noncomputable def const (p : Par) : ℝ := (p.μ - p.θ / 2) * p.h + beta p * p.θ

/-- the value of `bNTerm` -/
def bNT (n1 n2 n3 n4 n5 : ℕ) (x : List ℕ × ℕ × ℕ) : List ℤ × ℚ :=
  ([(nat x.1 3 : ℤ) + x.2.1, (nat x.1 0 : ℤ) + nat x.1 1,
      (nat x.1 2 : ℤ) + nat x.1 3 + n2 + n3 + x.2.2,
      (nat x.1 0 : ℤ), (n1 : ℤ) - nat x.1 0, (n3 : ℤ) + x.2.2, (n4 : ℤ) - x.2.2, (n5 : ℤ)],
    (((combN n1 x.1 : ℤ) : ℚ) * (n2.choose x.2.1 : ℚ) * (n4.choose x.2.2 : ℚ) *
      (-1) ^ (nat x.1 1 + nat x.1 3 + n2 + x.2.1 + x.2.2)) / 2 ^ (n1 - nat x.1 0 + n2 + n3 + x.2.2))

theorem bN_spec (p : Par) (hk : p.k ≠ 0) (hρ : 0 ≤ 1 - p.ρ ^ 2) (n1 n2 n3 n4 n5 : ℕ) :
    ∃ b, bN n1 n2 n3 n4 n5 = .ok b ∧ b.Keys (NN 8) ∧ ev (bmVal p) b =
      const p ^ n1 * (-beta p) ^ n2 *
      (p.σ / (2 * p.k)) ^ n3 * (p.ρ - p.σ / (2 * p.k)) ^ n4 * Real.sqrt (1 - p.ρ ^ 2) ^ n5 := by
  have hm := mapM_ok (fun x : List ℕ × ℕ × ℕ => bNTerm n1 n2 n3 n4 n5 x.1 x.2.1 x.2.2)
    (bNT n1 n2 n3 n4 n5) ((combsDown 3 n1).flatMap fun is => (List.range (n2 + 1)).flatMap fun i =>
    (List.range (n4 + 1)).map fun j => (is, i, j)) (by
      intro x hx
      simp only [List.mem_flatMap, List.mem_map, List.mem_range] at hx
      obtain ⟨is, his, i, hi, j, hj, rfl⟩ := hx
      obtain ⟨h1, h2⟩ := combs_mem _ _ _ his
      obtain ⟨i1, i2, i3, i4, rfl⟩ := len4 is h1
      have hc : comb n1 [(i1 : ℤ), (i2 : ℤ), (i3 : ℤ), (i4 : ℤ)] = .ok (combN n1 [i1, i2, i3, i4]) :=
        comb_eq [i1, i2, i3, i4] n1 (le_of_eq h2)
      simp only [bNTerm, nat, List.getD_cons_zero, List.getD_cons_succ]
      rw [hc]
      rfl)
  refine ⟨_, by rw [bN, hm]; rfl, ?_, ?_⟩
  · apply ofTerms_Keys
    intro y hy
    simp only [List.mem_flatMap, List.mem_map, List.mem_range] at hy
    obtain ⟨x, ⟨is, his, i, hi, j, hj, rfl⟩, rfl⟩ := hy
    obtain ⟨h1, h2⟩ := combs_mem _ _ _ his
    obtain ⟨i1, i2, i3, i4, rfl⟩ := len4 is h1
    simp only [List.sum_cons, List.sum_nil] at h2
    refine ⟨rfl, fun m => ?_⟩
    rcases m with _ | _ | _ | _ | _ | _ | _ | _ | m <;> simp [bNT, nat, ix] <;> omega
  · rw [ev_ofTerms, List.map_map]
    rw [sum_triple _ _ _ _ (fun is => (combN n1 is : ℝ) * (List.zipWith (· ^ ·) [p.μ * p.h,
        -(p.θ / 2 * p.h), p.θ / (2 * p.k), -(Real.exp (-(p.k * p.h)) * p.θ / (2 * p.k))] is).prod)
      (fun i => (n2.choose i : ℝ) * ((-1) ^ i * Real.exp (-(p.k * p.h)) ^ i * 1 ^ (n2 - i)))
      (fun j => (n4.choose j : ℝ) * ((-1) ^ j * (p.σ / (2 * p.k)) ^ j * p.ρ ^ (n4 - j)) *
        ((-1) ^ n2 * (1 / (2 * p.k)) ^ n2 * (p.σ / (2 * p.k)) ^ n3 *
          Real.sqrt (1 - p.ρ ^ 2) ^ n5))]
    · rw [combs_multinomial 3 _ rfl, list_range_sum', list_range_sum', binom_neg,
        ← Finset.sum_mul, binom_neg, neg_pow (beta p)]
      have h1 : [p.μ * p.h, -(p.θ / 2 * p.h), p.θ / (2 * p.k),
          -(Real.exp (-(p.k * p.h)) * p.θ / (2 * p.k))].sum = const p := by
        simp only [List.sum_cons, List.sum_nil, const, beta]
        ring
      rw [h1, show beta p = (1 - Real.exp (-(p.k * p.h))) * (1 / (2 * p.k)) by rw [beta]; ring,
        mul_pow (1 - _)]
      ring
    · intro is his i hi j hj
      obtain ⟨h1, h2⟩ := combs_mem _ _ _ his
      obtain ⟨i1, i2, i3, i4, rfl⟩ := len4 is h1
      simp only [List.sum_cons, List.sum_nil] at h2
      simp only [List.mem_range] at hj
      simp only [Function.comp, bNT, nat, List.getD_cons_zero, List.getD_cons_succ]
      have e3 : (n1 : ℤ) - i1 = ((i2 + i3 + i4 : ℕ) : ℤ) := by omega
      have e4 : n1 - i1 = i2 + i3 + i4 := by omega
      simp only [Rat.smul_def, bmVal, ix_cons_zero, ix_cons_succ, sq_nat _ hρ]
      rw [e3, e4, show (i4 : ℤ) + i = ((i4 + i : ℕ) : ℤ) by push_cast; rfl,
        show (i1 : ℤ) + i2 = ((i1 + i2 : ℕ) : ℤ) by push_cast; rfl,
        show (i3 : ℤ) + i4 + n2 + n3 + j = ((i3 + i4 + n2 + n3 + j : ℕ) : ℤ) by push_cast; rfl,
        show (n3 : ℤ) + j = ((n3 + j : ℕ) : ℤ) by push_cast; rfl,
        show (n4 : ℤ) - j = ((n4 - j : ℕ) : ℤ) by omega, zpow_neg_nat, exp_nat]
      simp only [zpow_natCast, List.zipWith_cons_cons, List.zipWith_nil_right, List.prod_cons,
        List.prod_nil, div_eq_mul_inv, mul_inv, neg_pow (p.θ * 2⁻¹ * p.h),
        neg_pow (Real.exp (-(p.k * p.h)) * p.θ * (2⁻¹ * p.k⁻¹)), mul_pow, pow_add, one_pow]
      push_cast
      simp only [mul_inv, ← inv_pow]
      generalize (2 : ℝ)⁻¹ = u
      ring

/-- value of a key of `mom.py` before `sub_v` -/
noncomputable def mvVal (p : Par) (x : ℝ) (key : List ℤ) : ℝ :=
  Real.exp (-(ix key 0) * p.k * p.h) * p.h ^ ix key 1 * x ^ ix key 2 * p.k ^ (-ix key 3) *
    p.μ ^ ix key 4 * p.θ ^ ix key 5 * p.σ ^ ix key 6 * p.ρ ^ ix key 7 * sq p.ρ (ix key 8)

/-- the five summands of the return -/
noncomputable def parts (p : Par) (t0 x : ℝ) : List Rv :=
  [C (const p), C (-beta p * x), C (p.σ / (2 * p.k) * Real.exp (-(p.k * (t0 + p.h)))) * X 0,
    C (p.ρ - p.σ / (2 * p.k)) * X 1, C (Real.sqrt (1 - p.ρ ^ 2)) * X 2]

theorem parts_sum (p : Par) (hk : p.k ≠ 0) (t0 x : ℝ) : (parts p t0 x).sum = ret p t0 x := by
  have h := partsC_sum p hk t0 x
  simp only [partsC, List.sum_cons, List.sum_nil] at h
  simp only [parts, List.sum_cons, List.sum_nil, const, map_add]
  linear_combination h

def MK (k : List ℤ) : Prop :=
  k.length = 9 ∧ 0 ≤ ix k 1 ∧ 0 ≤ ix k 2 ∧ 0 ≤ ix k 4 ∧ 0 ≤ ix k 5 ∧ 0 ≤ ix k 6 ∧ 0 ≤ ix k 7 ∧
    0 ≤ ix k 8

theorem timesB_spec {ι : Type} (p : Par) (hk : p.k ≠ 0) (hρ : 0 ≤ 1 - p.ρ ^ 2) (v : ι → ℝ)
    (l n1 n2 n3 n4 n5 : ℕ) (hl : n1 + n2 + n3 + n4 + n5 = l) (P : IPoly) (hP : P.Keys VK) :
    ∃ q, timesB l n1 n2 n3 n4 n5 P = .ok q ∧ q.keyfor = kfMv ∧ q.Keys MK ∧
      ∀ i, ev (mvVal p (v i)) q = combN l [n1, n2, n3, n4, n5] * (ev (veVal p (v i)) P *
        (const p ^ n1 * (-beta p) ^ n2 * (p.σ / (2 * p.k)) ^ n3 *
          (p.ρ - p.σ / (2 * p.k)) ^ n4 * Real.sqrt (1 - p.ρ ^ 2) ^ n5)) := by
  obtain ⟨b, eb, bkeys, bv⟩ := bN_spec p hk hρ n1 n2 n3 n4 n5
  obtain ⟨r, er, rk, _, _, rkeys, rv⟩ := mulPoly_on (ι := ι) P b
    [0, 1, 2, 3, -1, 4, 5, -1, -1] [0, 1, -1, 2, 3, 4, 5, 6, 7] kfMv (by simp) VK (NN 8) MK
    (fun i => mvVal p (v i)) (fun i => veVal p (v i)) (fun _ => bmVal p) hP bkeys
    (by
      intro k1 k2 h1 h2
      have := h2.2 1; have := h2.2 3; have := h2.2 4; have := h2.2 5; have := h2.2 6
      have := h2.2 7
      obtain ⟨_, _, _, _, _⟩ := h1
      simp [MK, ix_cons_zero, ix_cons_succ]
      omega)
    (by
      intro x k1 k2 h1 h2
      have := h2.2 1; have := h2.2 4; have := h2.2 5
      obtain ⟨_, _, _, _, _⟩ := h1
      simp only [mvVal, veVal, bmVal, List.zipWith_cons_cons, ix_cons_zero, ix_cons_succ, kv_zero,
        kv_one, kv_ofNat, kv_neg_one, add_zero, zero_add, Int.cast_add, neg_add, add_mul,
        Real.exp_add, zpow_add₀ hk]
      rw [zpow_add_nn p.θ _ _ ‹_› ‹_›, zpow_add_nn p.σ _ _ ‹_› ‹_›, zpow_add_nn p.h _ _ ‹_› ‹_›]
      ring)
  have hc : comb l [(n1 : ℤ), (n2 : ℤ), (n3 : ℤ), (n4 : ℤ), (n5 : ℤ)] =
      .ok (combN l [n1, n2, n3, n4, n5]) :=
    comb_eq [n1, n2, n3, n4, n5] l (by simp; omega)
  obtain ⟨mk, _, _, mkeys⟩ := rmul_spec (combN l [n1, n2, n3, n4, n5] : ℤ) r MK rkeys
  refine ⟨_, ?_, mk.trans rk, mkeys, fun i => ?_⟩
  · rw [timesB, eb, ok_bind, er, ok_bind, hc]; rfl
  · rw [ev_rmul, rv, bv, Rat.smul_def]
    push_cast
    ring

theorem momentComb_spec (p : Par) (hk : p.k ≠ 0) (hh : 0 ≤ p.h) (hρ : 0 ≤ 1 - p.ρ ^ 2) (t0 : ℝ)
    (E : ℝ → Rv →ₗ[ℝ] ℝ) (l n1 n2 n3 n4 n5 : ℕ) (hl : n1 + n2 + n3 + n4 + n5 = l) :
    ∃ q, momentComb l n1 n2 n3 n4 n5 = .ok q ∧ q.keyfor = kfMv ∧ q.Keys MK ∧
      ∀ x : {x : ℝ // CondLaw p t0 x (E x)}, ev (mvVal p x) q =
        E x ((combN l [n1, n2, n3, n4, n5] : Rv) *
          (List.zipWith (· ^ ·) (parts p t0 x) [n1, n2, n3, n4, n5]).prod) := by
  obtain ⟨P, e, pk, _, pkeys, pv⟩ := ve_spec p hk hh t0 n2 n3 n4 n5
  obtain ⟨q, eq, qk, qkeys, qv⟩ := timesB_spec (ι := {x : ℝ // CondLaw p t0 x (E x)}) p hk hρ
    (fun x => x) l n1 n2 n3 n4 n5 hl P pkeys
  refine ⟨q, by rw [momentComb, e, ok_bind, eq], qk, qkeys, fun x => ?_⟩
  rw [qv, parts, E_parts]
  obtain ⟨M, hM, hE⟩ := x.2
  rw [hE, pv x M hM, mul_pow (-beta p), mul_pow (p.σ / (2 * p.k))]
  ring

theorem polyM_spec (p : Par) (hk : p.k ≠ 0) (hh : 0 ≤ p.h) (hρ : 0 ≤ 1 - p.ρ ^ 2) (t0 : ℝ)
    (E : ℝ → Rv →ₗ[ℝ] ℝ) (l : ℕ) :
    ∃ q, mergeLoop (fun ns => momentComb l (nat ns 0) (nat ns 1) (nat ns 2) (nat ns 3)
      (nat ns 4)) (combsDown 4 l) ⟨kfMv, []⟩ = .ok q ∧ q.Keys MK ∧
      ∀ x, CondLaw p t0 x (E x) → ev (mvVal p x) q = E x (ret p t0 x ^ l) := by
  obtain ⟨q, e, _, _, _, k, v⟩ := mergeLoop_spec (ι := {x : ℝ // CondLaw p t0 x (E x)})
    (fun ns => momentComb l (nat ns 0) (nat ns 1) (nat ns 2) (nat ns 3)
      (nat ns 4)) (combsDown 4 l) ⟨kfMv, []⟩ MK (fun x => mvVal p x)
    (fun x ns => E x ((combN l ns : Rv) * (List.zipWith (· ^ ·) (parts p t0 x) ns).prod))
    (fun x hx => by simp at hx) (by
      intro ns hns
      obtain ⟨h1, h2⟩ := combs_mem _ _ _ hns
      obtain ⟨n1, n2, n3, n4, n5, rfl⟩ := len5 ns h1
      simp only [List.sum_cons, List.sum_nil] at h2
      exact momentComb_spec p hk hh hρ t0 E l n1 n2 n3 n4 n5 (by omega))
  refine ⟨q, e, k, fun x hx => ?_⟩
  rw [v ⟨x, hx⟩, sum_E, combs_multinomial 4 _ rfl, parts_sum p hk]
  simp [ev]

theorem poly2num_eq (P : IPoly) (p : Par) : poly2num P p = ev (bmVal p) P := by
  unfold poly2num ev bmVal sq
  congr 1
  apply List.map_congr_left
  intro e _
  simp only [Rat.smul_def]
  ring

def M8 (k : List ℤ) : Prop :=
  k.length = 8 ∧ 0 ≤ ix k 1 ∧ 0 ≤ ix k 3 ∧ 0 ≤ ix k 4 ∧ 0 ≤ ix k 5 ∧ 0 ≤ ix k 6 ∧ 0 ≤ ix k 7

theorem subV_spec (p : Par) (hk : p.k ≠ 0) (γ : Measure ℝ) (hγ : StatLaw p γ) (P : IPoly)
    (hP : P.Keys MK) :
    ∃ r, subV P = .ok r ∧ r.keyfor = kfM ∧ r.WF ∧ r.Keys M8 ∧
      ev (bmVal p) r = ∫ x, ev (mvVal p x) P ∂γ := by
  have hint : ∀ e ∈ P.items, Integrable (fun x => mvVal p x e.1) γ := by
    intro e he
    obtain ⟨_, _, h2, _⟩ := hP e he
    obtain ⟨n, hn⟩ := Int.eq_ofNat_of_zero_le h2
    simp only [mvVal, hn, zpow_natCast]
    have := (hγ.integrable n).const_mul (Real.exp (-(ix e.1 0) * p.k * p.h) * p.h ^ ix e.1 1 *
      p.k ^ (-ix e.1 3) * p.μ ^ ix e.1 4 * p.θ ^ ix e.1 5 * p.σ ^ ix e.1 6 * p.ρ ^ ix e.1 7 *
      sq p.ρ (ix e.1 8))
    refine this.congr (Filter.Eventually.of_forall fun x => ?_)
    simp only
    ring
  rw [(integral_ev γ (mvVal p) P hint).2]
  obtain ⟨r, e, k, w, keys, v⟩ := subst_spec (ι := Unit) kfM (fun e => do
    let poln ← momentVPy (ix e.1 2)
    pure (poln.items.map fun m =>
      ([ix e.1 0, ix e.1 1, ix e.1 3 + ix m.1 1, ix e.1 4, ix e.1 5 + ix m.1 0,
        ix e.1 6 + 2 * ix m.1 1, ix e.1 7, ix e.1 8], m.2 * e.2))) P M8 (fun _ => bmVal p)
    (fun _ key => ∫ x, mvVal p x key ∂γ) (by
      intro e he
      obtain ⟨h0, h1, h2, h4, h5, h6, h7, h8⟩ := hP e he
      obtain ⟨n, hn⟩ := Int.eq_ofNat_of_zero_le h2
      have hm : momentVPy (ix e.1 2) = .ok (momentV n) := by
        rw [momentVPy, if_neg (by omega), hn]; rfl
      refine ⟨_, by rw [hm]; rfl, ?_, fun _ => ?_⟩
      · intro y hy
        obtain ⟨m, hm, rfl⟩ := List.mem_map.1 hy
        obtain ⟨_, _, _⟩ := (momentV_keys n).1 m hm
        simp [M8, ix_cons_zero, ix_cons_succ]
        omega
      · have hv := subv_val p hk γ hγ n
        have : ∫ x, mvVal p x e.1 ∂γ = (Real.exp (-(ix e.1 0) * p.k * p.h) * p.h ^ ix e.1 1 *
            p.k ^ (-ix e.1 3) * p.μ ^ ix e.1 4 * p.θ ^ ix e.1 5 * p.σ ^ ix e.1 6 *
            p.ρ ^ ix e.1 7 * sq p.ρ (ix e.1 8)) * ∫ x, x ^ n ∂γ := by
          rw [← integral_const_mul]
          congr 1
          funext x
          simp only [mvVal, hn, zpow_natCast]
          ring
        rw [this, ← hv, ← ev_mul_const, List.map_map]
        unfold ev
        rw [Rat.smul_def, ← List.sum_map_mul_left]
        congr 1
        apply List.map_congr_left
        intro m hm
        obtain ⟨m0, m1, _⟩ := (momentV_keys n).1 m hm
        simp only [Function.comp, Rat.smul_def, bmVal, vVal, ix_cons_zero, ix_cons_succ]
        rw [zpow_add_nn p.θ _ _ ‹_› ‹_›, zpow_add_nn p.σ _ _ ‹_› (by omega), neg_add,
          zpow_add₀ hk, div_zpow, zpow_mul, zpow_neg _ (ix m.1 1),
          show (p.σ ^ (2 : ℤ)) = p.σ ^ 2 from zpow_ofNat _ _]
        push_cast
        ring)
  exact ⟨r, e, k, w, keys, v ()⟩

theorem momentY_spec (p : Par) (hk : p.k ≠ 0) (hh : 0 ≤ p.h) (hρ : 0 ≤ 1 - p.ρ ^ 2) (t0 : ℝ)
    (E : ℝ → Rv →ₗ[ℝ] ℝ) (γ : Measure ℝ) (hγ : StatLaw p γ)
    (hE : ∀ᵐ x ∂γ, CondLaw p t0 x (E x)) (l : ℕ) :
    ∃ r, momentY l = .ok r ∧ r.keyfor = kfM ∧ r.WF ∧ r.NoZero ∧ r.Keys M8 ∧
      ev (bmVal p) r = expect γ E fun x => ret p t0 x ^ l := by
  obtain ⟨q, e, qk, qv⟩ := polyM_spec p hk hh hρ t0 E l
  obtain ⟨r, er, rk, rw', rkeys, rv⟩ := subV_spec p hk γ hγ q qk
  refine ⟨r.removeZero, ?_, by simp [rk], removeZero_WF _ rw', removeZero_NoZero _,
    removeZero_Keys _ _ rkeys, ?_⟩
  · rw [momentY, e, ok_bind, er]; rfl
  · rw [ev_removeZero, rv, expect]
    exact integral_congr_ae (hE.mono fun x hx => qv x hx)

end Ajd.Fsv1
