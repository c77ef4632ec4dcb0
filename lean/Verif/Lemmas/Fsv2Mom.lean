import Verif.Lemmas.Fsv2

/-! `mdl_2fsv/cmom.py` and `mom.py`. -/

namespace Ajd.Fsv2
open Poly Ito Utils MvPolynomial MeasureTheory Itos

/-- `β1 = (1 - e^{-k1 h}) / (2 k1)` -/
noncomputable def beta1 (p : Par) : ℝ := (1 - Real.exp (-(p.k1 * p.h))) / (2 * p.k1)
/-- `β2 = (1 - e^{-k2 h}) / (2 k2)` -/
noncomputable def beta2 (p : Par) : ℝ := (1 - Real.exp (-(p.k2 * p.h))) / (2 * p.k2)

/-- the constant part of the centred return -/
noncomputable def constC (p : Par) : ℝ := beta1 p * p.θ1 + beta2 p * p.θ2

/-- the constant part of the return -/
noncomputable def const (p : Par) : ℝ := mean p + constC p

/-- the coefficients other than the constant one -/
noncomputable def coefs (p : Par) (n2 n3 n4 n5 n6 n7 : ℕ) : ℝ :=
  (-beta1 p) ^ n2 * (-beta2 p) ^ n3 * (p.σ1 / (2 * p.k1)) ^ n4 * (-(p.σ1 / (2 * p.k1))) ^ n5 *
    (p.σ2 / (2 * p.k2)) ^ n6 * (-(p.σ2 / (2 * p.k2))) ^ n7

/-- value of the powers of a key of `b_n` -/
noncomputable def bcC (p : Par) (m : List ℤ) : ℝ :=
  p.θ1 ^ ix m 2 * p.σ1 ^ ix m 3 * (p.θ2 ^ ix m 6 * p.σ2 ^ ix m 7)

theorem bT_nat (p : Par) (a b c d : ℕ) (x2 x3 : ℤ) (l : List ℤ) :
    bT p (((a : ℕ) : ℤ) :: ((b : ℕ) : ℤ) :: x2 :: x3 :: ((c : ℕ) : ℤ) :: ((d : ℕ) : ℤ) :: l) =
      Real.exp (-(p.k1 * p.h)) ^ a * Real.exp (-(p.k2 * p.h)) ^ c * ((p.k1⁻¹) ^ b * (p.k2⁻¹) ^ d) := by
  simp only [bT, ix_cons_zero, ix_cons_succ]
  rw [Fsv1.zpow_neg_nat, Fsv1.zpow_neg_nat, ← Real.exp_nat_mul, ← Real.exp_nat_mul, ← Real.exp_add]
  congr 2
  push_cast
  ring

theorem mem_bLoops (q n1 n2 n3 : ℕ) (x : List ℕ × ℕ × ℕ) (hx : x ∈ bLoops q n1 n2 n3) :
    x.1.length = q + 1 ∧ x.1.sum = n1 ∧ x.2.1 ≤ n2 ∧ x.2.2 ≤ n3 := by
  simp only [bLoops, List.mem_flatMap, List.mem_map, List.mem_range] at hx
  obtain ⟨is, his, i, hi, j, hj, rfl⟩ := hx
  obtain ⟨h1, h2⟩ := combs_mem _ _ _ his
  exact ⟨h1, h2, by dsimp only; omega, by dsimp only; omega⟩

/-! ### cmom.py -/

theorem bNc_keys (n1 n2 n3 n4 n5 n6 n7 : ℕ) : (bNc n1 n2 n3 n4 n5 n6 n7).Keys (NN 8) := by
  apply ofTerms_Keys
  intro y hy
  obtain ⟨x, hx, rfl⟩ := List.mem_map.1 hy
  refine ⟨rfl, fun m => ?_⟩
  rcases m with _ | _ | _ | _ | _ | _ | _ | _ | m <;> simp [bNcTerm, ix] <;> omega

theorem combN4 (i1 i2 i3 i4 n : ℕ) (h : i1 + i2 + i3 + i4 = n) :
    combN n [i1, i2, i3, i4] = n.choose i1 * (n - i1).choose i2 * (n - i1 - i2).choose i3 := by
  have h4 : n - i1 - i2 - i3 = i4 := by omega
  simp only [combN, h4, Nat.choose_self, mul_one]
  ring

theorem ev_bNc (p : Par) (n1 n2 n3 n4 n5 n6 n7 : ℕ) :
    ev (fun m => bT p m * bcC p m) (bNc n1 n2 n3 n4 n5 n6 n7) =
      constC p ^ n1 * coefs p n2 n3 n4 n5 n6 n7 := by
  rw [bNc, ev_ofTerms, List.map_map, bLoops]
  rw [Fsv1.sum_triple _ _ _ _ (fun is => (combN n1 is : ℝ) * (List.zipWith (· ^ ·)
        [p.θ1 / (2 * p.k1), -(Real.exp (-(p.k1 * p.h)) * p.θ1 / (2 * p.k1)), p.θ2 / (2 * p.k2),
          -(Real.exp (-(p.k2 * p.h)) * p.θ2 / (2 * p.k2))] is).prod)
      (fun j => (n2.choose j : ℝ) * ((-1) ^ j * Real.exp (-(p.k1 * p.h)) ^ j * 1 ^ (n2 - j)))
      (fun q => (n3.choose q : ℝ) * ((-1) ^ q * Real.exp (-(p.k2 * p.h)) ^ q * 1 ^ (n3 - q)) *
        ((-1) ^ n2 * (1 / (2 * p.k1)) ^ n2 * ((-1) ^ n3 * (1 / (2 * p.k2)) ^ n3) *
          ((p.σ1 / (2 * p.k1)) ^ n4 * (-(p.σ1 / (2 * p.k1))) ^ n5 *
          (p.σ2 / (2 * p.k2)) ^ n6 * (-(p.σ2 / (2 * p.k2))) ^ n7)))]
  · rw [combs_multinomial 3 _ rfl, list_range_sum', list_range_sum', Fsv1.binom_neg,
      ← Finset.sum_mul, Fsv1.binom_neg, coefs, neg_pow (beta1 p), neg_pow (beta2 p)]
    have h1 : [p.θ1 / (2 * p.k1), -(Real.exp (-(p.k1 * p.h)) * p.θ1 / (2 * p.k1)), p.θ2 / (2 * p.k2),
          -(Real.exp (-(p.k2 * p.h)) * p.θ2 / (2 * p.k2))].sum = constC p := by
      simp only [List.sum_cons, List.sum_nil, constC, beta1, beta2]
      ring
    rw [h1, show beta1 p = (1 - Real.exp (-(p.k1 * p.h))) * (1 / (2 * p.k1)) by rw [beta1]; ring,
      show beta2 p = (1 - Real.exp (-(p.k2 * p.h))) * (1 / (2 * p.k2)) by rw [beta2]; ring,
      mul_pow (1 - _), mul_pow (1 - _)]
    ring
  · intro is his j hj q hq
    obtain ⟨h1, h2⟩ := combs_mem _ _ _ his
    obtain ⟨i1, i2, i3, i4, rfl⟩ := len4 is h1
    simp only [List.sum_cons, List.sum_nil] at h2
    have h2' : i1 + i2 + i3 + i4 = n1 := by omega
    simp only [Function.comp, bNcTerm, nat, List.getD_cons_zero, List.getD_cons_succ]
    rw [combN4 i1 i2 i3 i4 n1 h2', show n1 + n2 + n3 + n4 + n5 + n6 + n7 =
      i1 + i2 + i3 + i4 + n2 + n3 + n4 + n5 + n6 + n7 by omega]
    rw [show (i2 : ℤ) + j = ((i2 + j : ℕ) : ℤ) by push_cast; rfl,
      show (i1 : ℤ) + i2 + n2 + n4 + n5 = ((i1 + i2 + n2 + n4 + n5 : ℕ) : ℤ) by push_cast; rfl,
      show (i4 : ℤ) + q = ((i4 + q : ℕ) : ℤ) by push_cast; rfl,
      show (i3 : ℤ) + i4 + n3 + n6 + n7 = ((i3 + i4 + n3 + n6 + n7 : ℕ) : ℤ) by push_cast; rfl,
      show (i1 : ℤ) + i2 = ((i1 + i2 : ℕ) : ℤ) by push_cast; rfl,
      show (n4 : ℤ) + n5 = ((n4 + n5 : ℕ) : ℤ) by push_cast; rfl,
      show (i3 : ℤ) + i4 = ((i3 + i4 : ℕ) : ℤ) by push_cast; rfl,
      show (n6 : ℤ) + n7 = ((n6 + n7 : ℕ) : ℤ) by push_cast; rfl, bT_nat]
    simp only [bcC, ix_cons_zero, ix_cons_succ, Rat.smul_def, zpow_natCast, List.zipWith_cons_cons,
      List.zipWith_nil_right, List.prod_cons, List.prod_nil, div_eq_mul_inv, mul_inv,
      neg_pow (p.σ1 * (2⁻¹ * p.k1⁻¹)), neg_pow (p.σ2 * (2⁻¹ * p.k2⁻¹)),
      neg_pow (Real.exp (-(p.k1 * p.h)) * p.θ1 * (2⁻¹ * p.k1⁻¹)),
      neg_pow (Real.exp (-(p.k2 * p.h)) * p.θ2 * (2⁻¹ * p.k2⁻¹)), mul_pow, pow_add, one_pow]
    push_cast
    simp only [mul_inv, ← inv_pow]
    generalize (2 : ℝ)⁻¹ = u
    generalize p.k1⁻¹ = u1
    generalize p.k2⁻¹ = u2
    ring

/-- the eight summands of the return, `a` the constant one -/
noncomputable def partsOf (a : ℝ) (p : Par) (t0 : ℝ) (x : ℝ × ℝ) : List Rv :=
  [C a, C (-beta1 p * x.1), C (-beta2 p * x.2),
    C (p.σ1 / (2 * p.k1) * Real.exp (-(p.k1 * (t0 + p.h)))) * X 0, C (-(p.σ1 / (2 * p.k1))) * X 1,
    C (p.σ2 / (2 * p.k2) * Real.exp (-(p.k2 * (t0 + p.h)))) * X 2, C (-(p.σ2 / (2 * p.k2))) * X 3, X 4]

theorem parts_sum (p : Par) (h1 : p.k1 ≠ 0) (h2 : p.k2 ≠ 0) (t0 : ℝ) (x : ℝ × ℝ) :
    (partsOf (const p) p t0 x).sum = ret p t0 x := by
  simp only [partsOf, List.sum_cons, List.sum_nil, ret, intVar1, intVar2, vNext1, vNext2, const, constC,
    mean, beta1, beta2]
  simp only [map_add, map_sub, map_mul, map_neg, div_eq_mul_inv, mul_inv, map_one, one_mul]
  have e1 : (C (p.k1⁻¹) : Rv) * C p.k1 = 1 := by rw [← C_mul, inv_mul_cancel₀ h1, map_one]
  have e2 : (C (p.k2⁻¹) : Rv) * C p.k2 = 1 := by rw [← C_mul, inv_mul_cancel₀ h2, map_one]
  ring_nf

theorem partsC_sum (p : Par) (h1 : p.k1 ≠ 0) (h2 : p.k2 ≠ 0) (t0 : ℝ) (x : ℝ × ℝ) :
    (partsOf (constC p) p t0 x).sum = ret p t0 x - C (mean p) := by
  have h := parts_sum p h1 h2 t0 x
  simp only [partsOf, List.sum_cons, List.sum_nil, const, map_add] at h ⊢
  linear_combination h

theorem E_C_mul (E : Rv →ₗ[ℝ] ℝ) (a : ℝ) (f : Rv) : E (C a * f) = a * E f := by
  rw [C_mul', map_smul, smul_eq_mul]

theorem sum_E {α : Type} (E : Rv →ₗ[ℝ] ℝ) (L : List α) (f : α → Rv) :
    (L.map fun a => E (f a)).sum = E ((L.map f).sum) := by
  induction L with
  | nil => simp
  | cons a t ih => simp [ih]

/-- the product over a combination -/
theorem E_parts (a : ℝ) (p : Par) (t0 : ℝ) (x : ℝ × ℝ) (E : Rv →ₗ[ℝ] ℝ) (N n1 n2 n3 n4 n5 n6 n7 n8 : ℕ) :
    E ((N : Rv) * (List.zipWith (· ^ ·) (partsOf a p t0 x) [n1, n2, n3, n4, n5, n6, n7, n8]).prod) =
      N * (a ^ n1 * coefs p n2 n3 n4 n5 n6 n7) * (x.1 ^ n2 * x.2 ^ n3 *
        Real.exp (-(p.k1 * (t0 + p.h))) ^ n4 * Real.exp (-(p.k2 * (t0 + p.h))) ^ n6 *
        E (X 0 ^ n4 * X 1 ^ n5 * X 2 ^ n6 * X 3 ^ n7 * X 4 ^ n8)) := by
  rw [← E_C_mul, ← E_C_mul]
  congr 1
  simp only [partsOf, List.zipWith_cons_cons, List.zipWith_nil_right, List.prod_cons, List.prod_nil,
    mul_pow, map_mul, map_pow, map_natCast, coefs]
  ring

theorem comb8_eq (l n1 n2 n3 n4 n5 n6 n7 n8 : ℕ) (hl : n1 + n2 + n3 + n4 + n5 + n6 + n7 + n8 = l) :
    comb8 l [n1, n2, n3, n4, n5, n6, n7, n8] = .ok (combN l [n1, n2, n3, n4, n5, n6, n7, n8]) :=
  comb_eq [n1, n2, n3, n4, n5, n6, n7, n8] l (by simp; omega)

theorem nonneg8 (a b c d e f g i : ℤ) (h : 0 ≤ a ∧ 0 ≤ b ∧ 0 ≤ c ∧ 0 ≤ d ∧ 0 ≤ e ∧ 0 ≤ f ∧ 0 ≤ g ∧ 0 ≤ i)
    (j : ℕ) : 0 ≤ ix [a, b, c, d, e, f, g, i] j := by
  rcases j with _ | _ | _ | _ | _ | _ | _ | _ | j <;> simp [ix_cons_zero, ix_cons_succ] <;>
    first | omega | simp [ix]

theorem nonneg7 (a b c d e f g : ℤ) (h : 0 ≤ a ∧ 0 ≤ b ∧ 0 ≤ c ∧ 0 ≤ d ∧ 0 ≤ e ∧ 0 ≤ f ∧ 0 ≤ g)
    (j : ℕ) : 0 ≤ ix [a, b, c, d, e, f, g] j := by
  rcases j with _ | _ | _ | _ | _ | _ | _ | j <;> simp [ix_cons_zero, ix_cons_succ] <;>
    first | omega | simp [ix]

theorem nonneg6 (a b c d e f : ℤ) (h : 0 ≤ a ∧ 0 ≤ b ∧ 0 ≤ c ∧ 0 ≤ d ∧ 0 ≤ e ∧ 0 ≤ f)
    (j : ℕ) : 0 ≤ ix [a, b, c, d, e, f] j := by
  rcases j with _ | _ | _ | _ | _ | _ | j <;> simp [ix_cons_zero, ix_cons_succ] <;>
    first | omega | simp [ix]

theorem nonneg5 (a b c d e : ℤ) (h : 0 ≤ a ∧ 0 ≤ b ∧ 0 ≤ c ∧ 0 ≤ d ∧ 0 ≤ e)
    (j : ℕ) : 0 ≤ ix [a, b, c, d, e] j := by
  rcases j with _ | _ | _ | _ | _ | j <;> simp [ix_cons_zero, ix_cons_succ] <;>
    first | omega | simp [ix]

theorem momentCombC_spec (g : Cfg) (p : Par) (t0 : ℝ) (E : ℝ × ℝ → Rv →ₗ[ℝ] ℝ)
    (l n1 n2 n3 n4 n5 n6 n7 n8 : ℕ) (hl : n1 + n2 + n3 + n4 + n5 + n6 + n7 + n8 = l) :
    ∃ q, momentCombC g l [n1, n2, n3, n4, n5, n6, n7, n8] = .ok q ∧ q.keyfor = kfV ∧ q.Keys (TOK 7) ∧
      ∀ x : {x : ℝ × ℝ // CompLaw g l p t0 x (E x)}, ev (vvVal p x) q =
        E x ((combN l [n1, n2, n3, n4, n5, n6, n7, n8] : Rv) *
          (List.zipWith (· ^ ·) (partsOf (constC p) p t0 x) [n1, n2, n3, n4, n5, n6, n7, n8]).prod) := by
  obtain ⟨P, Q, e, eQ, _, _, pk, pv⟩ := vvee_spec g p t0 n2 n3 n4 n5 n6 n7 n8
  obtain ⟨r, er, rk, rw', rkeys, rv⟩ := mulB_spec (ι := {x : ℝ × ℝ // CompLaw g l p t0 x (E x)}) p kfV cfC
    P (bNc n1 n2 n3 n4 n5 n6 n7) 7 7 8 (fun x => vvC p x) (fun x => vvC p x) (bcC p) pk
    (bNc_keys _ _ _ _ _ _ _) (by
      intro c m _ hc hm
      have := hc 0; have := hc 1; have := hc 2; have := hc 3; have := hc 4; have := hc 5; have := hc 6
      have := hm 2; have := hm 3; have := hm 6; have := hm 7
      refine ⟨rfl, nonneg7 _ _ _ _ _ _ _ (by omega), fun x => ?_⟩
      simp only [cfC, vvC, bcC, ix_cons_zero, ix_cons_succ]
      rw [zpow_add_nn p.θ1 _ _ ‹_› ‹_›, zpow_add_nn p.σ1 _ _ ‹_› ‹_›, zpow_add_nn p.θ2 _ _ ‹_› ‹_›,
        zpow_add_nn p.σ2 _ _ ‹_› ‹_›]
      ring)
  obtain ⟨mk, _, _, mkeys⟩ := rmul_spec (combN l [n1, n2, n3, n4, n5, n6, n7, n8] : ℤ) r (TOK 7) rkeys
  refine ⟨_, ?_, mk.trans rk, mkeys, fun x => ?_⟩
  · simp only [momentCombC, nat, List.getD_cons_zero, List.getD_cons_succ]
    rw [e, ok_bind, er, ok_bind, comb8_eq l _ _ _ _ _ _ _ _ hl]; rfl
  · obtain ⟨Q', eQ', hE⟩ := x.2 n4 n5 n6 n7 n8 (by exact_mod_cast (by omega))
    rw [eQ] at eQ'
    cases eQ'
    have hv := rv x
    change ev (vvVal p x) r = ev (vvVal p x) P * _ at hv
    rw [ev_rmul, hv, E_parts, hE, pv, ev_bNc, Rat.smul_def]
    push_cast
    ring

theorem polyC_spec (g : Cfg) (p : Par) (h1 : p.k1 ≠ 0) (h2 : p.k2 ≠ 0) (t0 : ℝ) (E : ℝ × ℝ → Rv →ₗ[ℝ] ℝ)
    (l : ℕ) :
    ∃ q, mergeLoop (momentCombC g l) (combsDown 7 l) ⟨kfV, []⟩ = .ok q ∧ q.Keys (TOK 7) ∧
      ∀ x, CompLaw g l p t0 x (E x) → ev (vvVal p x) q = E x ((ret p t0 x - C (mean p)) ^ l) := by
  obtain ⟨q, e, _, _, _, k, v⟩ := mergeLoop_spec (ι := {x : ℝ × ℝ // CompLaw g l p t0 x (E x)})
    (momentCombC g l) (combsDown 7 l) ⟨kfV, []⟩ (TOK 7) (fun x => vvVal p x)
    (fun x ns => E x ((combN l ns : Rv) * (List.zipWith (· ^ ·) (partsOf (constC p) p t0 x) ns).prod))
    (fun x hx => by simp at hx) (by
      intro ns hns
      obtain ⟨h1, h2⟩ := combs_mem _ _ _ hns
      obtain ⟨n1, n2, n3, n4, n5, n6, n7, n8, rfl⟩ := len8 ns h1
      simp only [List.sum_cons, List.sum_nil] at h2
      exact momentCombC_spec g p t0 E l n1 n2 n3 n4 n5 n6 n7 n8 (by omega))
  refine ⟨q, e, k, fun x hx => ?_⟩
  rw [v ⟨x, hx⟩, sum_E, combs_multinomial 7 _ rfl, partsC_sum p h1 h2]
  simp [ev]

/-- value of the powers of a key of `cmoment_y` -/
noncomputable def cC' (p : Par) (c : List ℤ) : ℝ :=
  p.h ^ ix c 0 * (p.θ1 ^ ix c 1 * p.σ1 ^ ix c 2) * (p.θ2 ^ ix c 3 * p.σ2 ^ ix c 4)

/-- value of a key of `cmoment_y` -/
noncomputable def cVal (p : Par) (key : TKey) : ℝ := tv p key * cC' p key.c

theorem subVC_spec (p : Par) (γ : Measure (ℝ × ℝ)) (hγ : StatLaw p γ) (P : TPoly) (hP : P.Keys (TOK 7)) :
    ∃ r, subVC P = .ok r ∧ r.keyfor = kfC ∧ r.WF ∧ r.Keys (TOK 5) ∧
      ev (cVal p) r = ∫ x, ev (vvVal p x) P ∂γ := by
  have hx : ∀ e ∈ P.items, ∀ x : ℝ × ℝ, vvVal p x e.1 = (tv p e.1 * (p.h ^ ix e.1.c 0 *
      (p.θ1 ^ ix e.1.c 2 * p.σ1 ^ ix e.1.c 3) * (p.θ2 ^ ix e.1.c 5 * p.σ2 ^ ix e.1.c 6))) *
      (x.1 ^ (ix e.1.c 1).toNat * x.2 ^ (ix e.1.c 4).toNat) := by
    intro e he x
    obtain ⟨_, _, _, h⟩ := hP e he
    obtain ⟨a, ha⟩ := Int.eq_ofNat_of_zero_le (h 1)
    obtain ⟨b, hb⟩ := Int.eq_ofNat_of_zero_le (h 4)
    simp only [vvVal, vvC, ha, hb, zpow_natCast, Int.toNat_natCast]
    ring
  have hint : ∀ e ∈ P.items, Integrable (fun x => vvVal p x e.1) γ := by
    intro e he
    rw [show (fun x => vvVal p x e.1) = _ from funext (hx e he)]
    exact (hγ.integrable _ _).const_mul _
  rw [(integral_ev γ (vvVal p) P hint).2]
  obtain ⟨q, eq, _, _, qk, qv⟩ := subLoop_spec p [] (1, 0) p.k1 p.θ1 p.σ1 (Or.inl ⟨rfl, rfl⟩) 1 (fun c m =>
    [ix c 0, ix c 2 + ix m 0, ix c 3 + 2 * ix m 1, ix c 4, ix c 5, ix c 6]) P 7 6
    (fun c => p.h ^ ix c 0 * (p.θ1 ^ ix c 2 * p.σ1 ^ ix c 3) * (p.θ2 ^ ix c 5 * p.σ2 ^ ix c 6) *
      vMoment p.k2 p.θ2 p.σ2 (ix c 4).toNat)
    (fun c => p.h ^ ix c 0 * (p.θ1 ^ ix c 1 * p.σ1 ^ ix c 2) * (p.θ2 ^ ix c 4 * p.σ2 ^ ix c 5) *
      vMoment p.k2 p.θ2 p.σ2 (ix c 3).toNat) hP (by
      intro c m _ hc m0 m1
      have := hc 0; have := hc 1; have := hc 2; have := hc 3; have := hc 4; have := hc 5; have := hc 6
      refine ⟨rfl, nonneg6 _ _ _ _ _ _ (by omega), ?_⟩
      simp only [ix_cons_zero, ix_cons_succ]
      rw [zpow_add_nn p.θ1 _ _ ‹_› ‹_›, zpow_add_nn p.σ1 _ _ ‹_› (by omega)]
      ring)
  obtain ⟨r, er, rk, rw', rkeys, rv⟩ := subLoop_spec p kfC (0, 1) p.k2 p.θ2 p.σ2 (Or.inr ⟨rfl, rfl⟩) 3
    (fun c m => [ix c 0, ix c 1, ix c 2, ix c 4 + ix m 0, ix c 5 + 2 * ix m 1]) q 6 5
    (fun c => p.h ^ ix c 0 * (p.θ1 ^ ix c 1 * p.σ1 ^ ix c 2) * (p.θ2 ^ ix c 4 * p.σ2 ^ ix c 5))
    (cC' p) qk (by
      intro c m _ hc m0 m1
      have := hc 0; have := hc 1; have := hc 2; have := hc 3; have := hc 4; have := hc 5
      refine ⟨rfl, nonneg5 _ _ _ _ _ (by omega), ?_⟩
      simp only [cC', ix_cons_zero, ix_cons_succ]
      rw [zpow_add_nn p.θ2 _ _ ‹_› ‹_›, zpow_add_nn p.σ2 _ _ ‹_› (by omega)]
      ring)
  refine ⟨r, by rw [subVC, eq, ok_bind, er], rk, rw', rkeys, ?_⟩
  refine rv.trans (qv.trans ?_)
  apply ev_congr
  intro e he
  rw [show (fun x => vvVal p x e.1) = _ from funext (hx e he), integral_const_mul, hγ.moment]
  ring

theorem cmomentY_spec (g : Cfg) (p : Par) (h1 : p.k1 ≠ 0) (h2 : p.k2 ≠ 0) (t0 : ℝ)
    (E : ℝ × ℝ → Rv →ₗ[ℝ] ℝ) (γ : Measure (ℝ × ℝ)) (hγ : StatLaw p γ) (l : ℕ)
    (hE : ∀ᵐ x ∂γ, CompLaw g l p t0 x (E x)) :
    ∃ r, cmomentY g l = .ok r ∧ r.keyfor = kfC ∧ r.WF ∧ r.NoZero ∧ r.Keys (TOK 5) ∧
      ev (cVal p) r = expect γ E fun x => (ret p t0 x - C (mean p)) ^ l := by
  obtain ⟨q, e, qk, qv⟩ := polyC_spec g p h1 h2 t0 E l
  obtain ⟨r, er, rk, rw', rkeys, rv⟩ := subVC_spec p γ hγ q qk
  refine ⟨r.removeZero, ?_, by simp [rk], removeZero_WF _ rw', removeZero_NoZero _,
    removeZero_Keys _ _ rkeys, ?_⟩
  · rw [cmomentY, e, ok_bind, er]; rfl
  · rw [ev_removeZero, rv, expect]
    exact integral_congr_ae (hE.mono fun x hx => qv x hx)

/-! ### mom.py -/

/-- value of the powers of a key of `b_n` -/
noncomputable def bmC (p : Par) (m : List ℤ) : ℝ := bcC p m * (p.h ^ ix m 8 * p.μ ^ ix m 9)

/-- the value of `bNTerm` -/
def bNT (n1 n2 n3 n4 n5 n6 n7 : ℕ) (x : List ℕ × ℕ × ℕ) : List ℤ × ℚ :=
  ([(nat x.1 1 : ℤ) + x.2.1, (nat x.1 0 : ℤ) + nat x.1 1 + n2 + n4 + n5,
      (nat x.1 0 : ℤ) + nat x.1 1 + nat x.1 4, (n4 : ℤ) + n5,
      (nat x.1 3 : ℤ) + x.2.2, (nat x.1 2 : ℤ) + nat x.1 3 + n3 + n6 + n7,
      (nat x.1 2 : ℤ) + nat x.1 3 + nat x.1 5, (n6 : ℤ) + n7,
      (nat x.1 4 : ℤ) + nat x.1 5 + nat x.1 6, (nat x.1 6 : ℤ)],
    (((combN n1 x.1 : ℤ) : ℚ) * (n2.choose x.2.1 : ℚ) * (n3.choose x.2.2 : ℚ) *
      (-1) ^ (nat x.1 1 + nat x.1 3 + nat x.1 4 + nat x.1 5 + (n2 + x.2.1) + (n3 + x.2.2) + n5 + n7)) /
        2 ^ (n1 - nat x.1 6 + n2 + n3 + n4 + n5 + n6 + n7))

theorem bN_spec (p : Par) (n1 n2 n3 n4 n5 n6 n7 : ℕ) :
    ∃ b, bN n1 n2 n3 n4 n5 n6 n7 = .ok b ∧ b.Keys (NN 10) ∧
      ev (fun m => bT p m * bmC p m) b = const p ^ n1 * coefs p n2 n3 n4 n5 n6 n7 := by
  have hm := mapM_ok (bNTerm n1 n2 n3 n4 n5 n6 n7) (bNT n1 n2 n3 n4 n5 n6 n7) (bLoops 6 n1 n2 n3) (by
      intro x hx
      obtain ⟨h1, h2, _, _⟩ := mem_bLoops _ _ _ _ _ hx
      obtain ⟨is, j, q⟩ := x
      obtain ⟨i1, i2, i3, i4, i5, i6, i7, rfl⟩ := len7 is h1
      have hc : comb n1 [(i1 : ℤ), (i2 : ℤ), (i3 : ℤ), (i4 : ℤ), (i5 : ℤ), (i6 : ℤ), (i7 : ℤ)] =
          .ok (combN n1 [i1, i2, i3, i4, i5, i6, i7]) :=
        comb_eq [i1, i2, i3, i4, i5, i6, i7] n1 (le_of_eq h2)
      simp only [bNTerm, nat, List.getD_cons_zero, List.getD_cons_succ]
      rw [hc]
      rfl)
  refine ⟨_, by rw [bN, hm]; rfl, ?_, ?_⟩
  · apply ofTerms_Keys
    intro y hy
    obtain ⟨x, hx, rfl⟩ := List.mem_map.1 hy
    refine ⟨rfl, fun m => ?_⟩
    rcases m with _ | _ | _ | _ | _ | _ | _ | _ | _ | _ | m <;> simp [bNT, ix] <;> omega
  · rw [ev_ofTerms, List.map_map, bLoops]
    rw [Fsv1.sum_triple _ _ _ _ (fun is => (combN n1 is : ℝ) * (List.zipWith (· ^ ·)
        [p.θ1 / (2 * p.k1), -(Real.exp (-(p.k1 * p.h)) * p.θ1 / (2 * p.k1)), p.θ2 / (2 * p.k2),
          -(Real.exp (-(p.k2 * p.h)) * p.θ2 / (2 * p.k2)), -(p.θ1 / 2 * p.h), -(p.θ2 / 2 * p.h),
          p.μ * p.h] is).prod)
      (fun j => (n2.choose j : ℝ) * ((-1) ^ j * Real.exp (-(p.k1 * p.h)) ^ j * 1 ^ (n2 - j)))
      (fun q => (n3.choose q : ℝ) * ((-1) ^ q * Real.exp (-(p.k2 * p.h)) ^ q * 1 ^ (n3 - q)) *
        ((-1) ^ n2 * (1 / (2 * p.k1)) ^ n2 * ((-1) ^ n3 * (1 / (2 * p.k2)) ^ n3) *
          ((p.σ1 / (2 * p.k1)) ^ n4 * (-(p.σ1 / (2 * p.k1))) ^ n5 *
          (p.σ2 / (2 * p.k2)) ^ n6 * (-(p.σ2 / (2 * p.k2))) ^ n7)))]
    · rw [combs_multinomial 6 _ rfl, list_range_sum', list_range_sum', Fsv1.binom_neg,
        ← Finset.sum_mul, Fsv1.binom_neg, coefs, neg_pow (beta1 p), neg_pow (beta2 p)]
      have h1 : [p.θ1 / (2 * p.k1), -(Real.exp (-(p.k1 * p.h)) * p.θ1 / (2 * p.k1)), p.θ2 / (2 * p.k2),
          -(Real.exp (-(p.k2 * p.h)) * p.θ2 / (2 * p.k2)), -(p.θ1 / 2 * p.h), -(p.θ2 / 2 * p.h),
          p.μ * p.h].sum = const p := by
        simp only [List.sum_cons, List.sum_nil, const, mean, constC, beta1, beta2]
        ring
      rw [h1, show beta1 p = (1 - Real.exp (-(p.k1 * p.h))) * (1 / (2 * p.k1)) by rw [beta1]; ring,
        show beta2 p = (1 - Real.exp (-(p.k2 * p.h))) * (1 / (2 * p.k2)) by rw [beta2]; ring,
        mul_pow (1 - _), mul_pow (1 - _)]
      ring
    · intro is his j hj q hq
      obtain ⟨h1, h2⟩ := combs_mem _ _ _ his
      obtain ⟨i1, i2, i3, i4, i5, i6, i7, rfl⟩ := len7 is h1
      simp only [List.sum_cons, List.sum_nil] at h2
      simp only [Function.comp, bNT, nat, List.getD_cons_zero, List.getD_cons_succ]
      rw [show n1 - i7 = i1 + i2 + i3 + i4 + i5 + i6 by omega]
      rw [show (i2 : ℤ) + j = ((i2 + j : ℕ) : ℤ) by push_cast; rfl,
        show (i1 : ℤ) + i2 + n2 + n4 + n5 = ((i1 + i2 + n2 + n4 + n5 : ℕ) : ℤ) by push_cast; rfl,
        show (i4 : ℤ) + q = ((i4 + q : ℕ) : ℤ) by push_cast; rfl,
        show (i3 : ℤ) + i4 + n3 + n6 + n7 = ((i3 + i4 + n3 + n6 + n7 : ℕ) : ℤ) by push_cast; rfl,
        show (i1 : ℤ) + i2 + i5 = ((i1 + i2 + i5 : ℕ) : ℤ) by push_cast; rfl,
        show (n4 : ℤ) + n5 = ((n4 + n5 : ℕ) : ℤ) by push_cast; rfl,
        show (i3 : ℤ) + i4 + i6 = ((i3 + i4 + i6 : ℕ) : ℤ) by push_cast; rfl,
        show (n6 : ℤ) + n7 = ((n6 + n7 : ℕ) : ℤ) by push_cast; rfl,
        show (i5 : ℤ) + i6 + i7 = ((i5 + i6 + i7 : ℕ) : ℤ) by push_cast; rfl, bT_nat]
      simp only [bmC, bcC, ix_cons_zero, ix_cons_succ, Rat.smul_def, zpow_natCast, List.zipWith_cons_cons,
        List.zipWith_nil_right, List.prod_cons, List.prod_nil, div_eq_mul_inv, mul_inv,
        neg_pow (p.σ1 * (2⁻¹ * p.k1⁻¹)), neg_pow (p.σ2 * (2⁻¹ * p.k2⁻¹)),
        neg_pow (p.θ1 * 2⁻¹ * p.h), neg_pow (p.θ2 * 2⁻¹ * p.h),
        neg_pow (Real.exp (-(p.k1 * p.h)) * p.θ1 * (2⁻¹ * p.k1⁻¹)),
        neg_pow (Real.exp (-(p.k2 * p.h)) * p.θ2 * (2⁻¹ * p.k2⁻¹)), mul_pow, pow_add, one_pow]
      push_cast
      simp only [mul_inv, ← inv_pow]
      generalize (2 : ℝ)⁻¹ = u
      generalize p.k1⁻¹ = u1
      generalize p.k2⁻¹ = u2
      ring

/-- value of the powers of a key before `sub_v` -/
noncomputable def mvC (p : Par) (x : ℝ × ℝ) (c : List ℤ) : ℝ :=
  p.h ^ ix c 0 * p.μ ^ ix c 1 * (x.1 ^ ix c 2 * p.θ1 ^ ix c 3 * p.σ1 ^ ix c 4) *
    (x.2 ^ ix c 5 * p.θ2 ^ ix c 6 * p.σ2 ^ ix c 7)

noncomputable def mvVal (p : Par) (x : ℝ × ℝ) (key : TKey) : ℝ := tv p key * mvC p x key.c

theorem momentComb_spec (g : Cfg) (p : Par) (t0 : ℝ) (E : ℝ × ℝ → Rv →ₗ[ℝ] ℝ)
    (l n1 n2 n3 n4 n5 n6 n7 n8 : ℕ) (hl : n1 + n2 + n3 + n4 + n5 + n6 + n7 + n8 = l) :
    ∃ q, momentComb g l [n1, n2, n3, n4, n5, n6, n7, n8] = .ok q ∧ q.keyfor = kfMv ∧ q.Keys (TOK 8) ∧
      ∀ x : {x : ℝ × ℝ // CompLaw g l p t0 x (E x)}, ev (mvVal p x) q =
        E x ((combN l [n1, n2, n3, n4, n5, n6, n7, n8] : Rv) *
          (List.zipWith (· ^ ·) (partsOf (const p) p t0 x) [n1, n2, n3, n4, n5, n6, n7, n8]).prod) := by
  obtain ⟨P, Q, e, eQ, _, _, pk, pv⟩ := vvee_spec g p t0 n2 n3 n4 n5 n6 n7 n8
  obtain ⟨b, eb, bk, bv⟩ := bN_spec p n1 n2 n3 n4 n5 n6 n7
  obtain ⟨r, er, rk, rw', rkeys, rv⟩ := mulB_spec (ι := {x : ℝ × ℝ // CompLaw g l p t0 x (E x)}) p kfMv cfM
    P b 7 8 10 (fun x => vvC p x) (fun x => mvC p x) (bmC p) pk bk (by
      intro c m _ hc hm
      have := hc 0; have := hc 1; have := hc 2; have := hc 3; have := hc 4; have := hc 5; have := hc 6
      have := hm 2; have := hm 3; have := hm 6; have := hm 7; have := hm 8; have := hm 9
      refine ⟨rfl, nonneg8 _ _ _ _ _ _ _ _ (by omega), fun x => ?_⟩
      simp only [cfM, vvC, mvC, bcC, bmC, ix_cons_zero, ix_cons_succ]
      rw [zpow_add_nn p.θ1 _ _ ‹_› ‹_›, zpow_add_nn p.σ1 _ _ ‹_› ‹_›, zpow_add_nn p.θ2 _ _ ‹_› ‹_›,
        zpow_add_nn p.σ2 _ _ ‹_› ‹_›, zpow_add_nn p.h _ _ ‹_› ‹_›]
      ring)
  obtain ⟨mk, _, _, mkeys⟩ := rmul_spec (combN l [n1, n2, n3, n4, n5, n6, n7, n8] : ℤ) r (TOK 8) rkeys
  refine ⟨_, ?_, mk.trans rk, mkeys, fun x => ?_⟩
  · simp only [momentComb, nat, List.getD_cons_zero, List.getD_cons_succ]
    rw [e, ok_bind, eb, ok_bind, er, ok_bind, comb8_eq l _ _ _ _ _ _ _ _ hl]; rfl
  · obtain ⟨Q', eQ', hE⟩ := x.2 n4 n5 n6 n7 n8 (by exact_mod_cast (by omega))
    rw [eQ] at eQ'
    cases eQ'
    have hv := rv x
    change ev (mvVal p x) r = ev (vvVal p x) P * _ at hv
    rw [ev_rmul, hv, E_parts, hE, pv, bv, Rat.smul_def]
    push_cast
    ring

theorem polyM_spec (g : Cfg) (p : Par) (h1 : p.k1 ≠ 0) (h2 : p.k2 ≠ 0) (t0 : ℝ) (E : ℝ × ℝ → Rv →ₗ[ℝ] ℝ)
    (l : ℕ) :
    ∃ q, mergeLoop (momentComb g l) (combsDown 7 l) ⟨kfMv, []⟩ = .ok q ∧ q.Keys (TOK 8) ∧
      ∀ x, CompLaw g l p t0 x (E x) → ev (mvVal p x) q = E x (ret p t0 x ^ l) := by
  obtain ⟨q, e, _, _, _, k, v⟩ := mergeLoop_spec (ι := {x : ℝ × ℝ // CompLaw g l p t0 x (E x)})
    (momentComb g l) (combsDown 7 l) ⟨kfMv, []⟩ (TOK 8) (fun x => mvVal p x)
    (fun x ns => E x ((combN l ns : Rv) * (List.zipWith (· ^ ·) (partsOf (const p) p t0 x) ns).prod))
    (fun x hx => by simp at hx) (by
      intro ns hns
      obtain ⟨h1, h2⟩ := combs_mem _ _ _ hns
      obtain ⟨n1, n2, n3, n4, n5, n6, n7, n8, rfl⟩ := len8 ns h1
      simp only [List.sum_cons, List.sum_nil] at h2
      exact momentComb_spec g p t0 E l n1 n2 n3 n4 n5 n6 n7 n8 (by omega))
  refine ⟨q, e, k, fun x hx => ?_⟩
  rw [v ⟨x, hx⟩, sum_E, combs_multinomial 7 _ rfl, parts_sum p h1 h2]
  simp [ev]

/-- value of the powers of a key of `moment_y` -/
noncomputable def mC (p : Par) (c : List ℤ) : ℝ :=
  p.h ^ ix c 0 * p.μ ^ ix c 1 * (p.θ1 ^ ix c 2 * p.σ1 ^ ix c 3) * (p.θ2 ^ ix c 4 * p.σ2 ^ ix c 5)

/-- value of a key of `moment_y` -/
noncomputable def mVal (p : Par) (key : TKey) : ℝ := tv p key * mC p key.c

theorem subV_spec (p : Par) (γ : Measure (ℝ × ℝ)) (hγ : StatLaw p γ) (P : TPoly) (hP : P.Keys (TOK 8)) :
    ∃ r, subV P = .ok r ∧ r.keyfor = kfM ∧ r.WF ∧ r.Keys (TOK 6) ∧
      ev (mVal p) r = ∫ x, ev (mvVal p x) P ∂γ := by
  have hx : ∀ e ∈ P.items, ∀ x : ℝ × ℝ, mvVal p x e.1 = (tv p e.1 * (p.h ^ ix e.1.c 0 * p.μ ^ ix e.1.c 1 *
      (p.θ1 ^ ix e.1.c 3 * p.σ1 ^ ix e.1.c 4) * (p.θ2 ^ ix e.1.c 6 * p.σ2 ^ ix e.1.c 7))) *
      (x.1 ^ (ix e.1.c 2).toNat * x.2 ^ (ix e.1.c 5).toNat) := by
    intro e he x
    obtain ⟨_, _, _, h⟩ := hP e he
    obtain ⟨a, ha⟩ := Int.eq_ofNat_of_zero_le (h 2)
    obtain ⟨b, hb⟩ := Int.eq_ofNat_of_zero_le (h 5)
    simp only [mvVal, mvC, ha, hb, zpow_natCast, Int.toNat_natCast]
    ring
  have hint : ∀ e ∈ P.items, Integrable (fun x => mvVal p x e.1) γ := by
    intro e he
    rw [show (fun x => mvVal p x e.1) = _ from funext (hx e he)]
    exact (hγ.integrable _ _).const_mul _
  rw [(integral_ev γ (mvVal p) P hint).2]
  obtain ⟨q, eq, _, _, qk, qv⟩ := subLoop_spec p [] (1, 0) p.k1 p.θ1 p.σ1 (Or.inl ⟨rfl, rfl⟩) 2 (fun c m =>
    [ix c 0, ix c 1, ix c 3 + ix m 0, ix c 4 + 2 * ix m 1, ix c 5, ix c 6, ix c 7]) P 8 7
    (fun c => p.h ^ ix c 0 * p.μ ^ ix c 1 * (p.θ1 ^ ix c 3 * p.σ1 ^ ix c 4) *
      (p.θ2 ^ ix c 6 * p.σ2 ^ ix c 7) * vMoment p.k2 p.θ2 p.σ2 (ix c 5).toNat)
    (fun c => p.h ^ ix c 0 * p.μ ^ ix c 1 * (p.θ1 ^ ix c 2 * p.σ1 ^ ix c 3) *
      (p.θ2 ^ ix c 5 * p.σ2 ^ ix c 6) * vMoment p.k2 p.θ2 p.σ2 (ix c 4).toNat) hP (by
      intro c m _ hc m0 m1
      have := hc 0; have := hc 1; have := hc 2; have := hc 3; have := hc 4; have := hc 5; have := hc 6
      have := hc 7
      refine ⟨rfl, nonneg7 _ _ _ _ _ _ _ (by omega), ?_⟩
      simp only [ix_cons_zero, ix_cons_succ]
      rw [zpow_add_nn p.θ1 _ _ ‹_› ‹_›, zpow_add_nn p.σ1 _ _ ‹_› (by omega)]
      ring)
  obtain ⟨r, er, rk, rw', rkeys, rv⟩ := subLoop_spec p kfM (0, 1) p.k2 p.θ2 p.σ2 (Or.inr ⟨rfl, rfl⟩) 4
    (fun c m => [ix c 0, ix c 1, ix c 2, ix c 3, ix c 5 + ix m 0, ix c 6 + 2 * ix m 1]) q 7 6
    (fun c => p.h ^ ix c 0 * p.μ ^ ix c 1 * (p.θ1 ^ ix c 2 * p.σ1 ^ ix c 3) *
      (p.θ2 ^ ix c 5 * p.σ2 ^ ix c 6))
    (mC p) qk (by
      intro c m _ hc m0 m1
      have := hc 0; have := hc 1; have := hc 2; have := hc 3; have := hc 4; have := hc 5; have := hc 6
      refine ⟨rfl, nonneg6 _ _ _ _ _ _ (by omega), ?_⟩
      simp only [mC, ix_cons_zero, ix_cons_succ]
      rw [zpow_add_nn p.θ2 _ _ ‹_› ‹_›, zpow_add_nn p.σ2 _ _ ‹_› (by omega)]
      ring)
  refine ⟨r, by rw [subV, eq, ok_bind, er], rk, rw', rkeys, ?_⟩
  refine rv.trans (qv.trans ?_)
  apply ev_congr
  intro e he
  rw [show (fun x => mvVal p x e.1) = _ from funext (hx e he), integral_const_mul, hγ.moment]
  ring

theorem momentY_spec (g : Cfg) (p : Par) (h1 : p.k1 ≠ 0) (h2 : p.k2 ≠ 0) (t0 : ℝ)
    (E : ℝ × ℝ → Rv →ₗ[ℝ] ℝ) (γ : Measure (ℝ × ℝ)) (hγ : StatLaw p γ) (l : ℕ)
    (hE : ∀ᵐ x ∂γ, CompLaw g l p t0 x (E x)) :
    ∃ r, momentY g l = .ok r ∧ r.keyfor = kfM ∧ r.WF ∧ r.NoZero ∧ r.Keys (TOK 6) ∧
      ev (mVal p) r = expect γ E fun x => ret p t0 x ^ l := by
  obtain ⟨q, e, qk, qv⟩ := polyM_spec g p h1 h2 t0 E l
  obtain ⟨r, er, rk, rw', rkeys, rv⟩ := subV_spec p γ hγ q qk
  refine ⟨r.removeZero, ?_, by simp [rk], removeZero_WF _ rw', removeZero_NoZero _,
    removeZero_Keys _ _ rkeys, ?_⟩
  · rw [momentY, e, ok_bind, er]; rfl
  · rw [ev_removeZero, rv, expect]
    exact integral_congr_ae (hE.mono fun x hx => qv x hx)

end Ajd.Fsv2
