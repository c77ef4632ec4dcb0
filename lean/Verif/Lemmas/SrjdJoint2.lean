import Verif.Lemmas.SrjdJoint

/-! The recursion of `moment_ie` and `moment_ie_iez`. -/

namespace Ajd.Srjd
open Poly MeasureTheory ProbabilityTheory

/-- parameters for which the jumps have a law -/
structure Par.OK (p : Par) : Prop where
  k : p.k ≠ 0
  lmbd : 0 ≤ p.lmbd
  mu : 0 < p.mu_v

/-- where a Poly is evaluated -/
structure At where
  p : Par
  a : ℝ
  b : ℝ
  t : ℝ
  hp : p.OK
  ht : 0 ≤ t

noncomputable abbrev At.v (i : At) : List ℤ → ℝ := vIat i.p i.a i.b i.t

/-- moments of the jump integral as a function of `k`, `lmbd`, `mu_v` -/
abbrev ZFun := ℝ → ℝ → ℝ → ℕ → ℝ → ℝ → ℝ

noncomputable abbrev jm (Z : ZFun) (p : Par) (a b : ℝ) : ℕ → ℕ → ℝ → ℝ :=
  jointMom p.k a b p.sigma (Z p.k p.lmbd p.mu_v)

/-- `r` represents the joint moment of order `(m, n)` -/
def Good (Z : ZFun) (m n : ℕ) (r : IPoly) : Prop :=
  r.WF ∧ r.Keys (GB m) ∧ ∀ (p : Par), p.OK → ∀ a b t, 0 ≤ t →
    ev (vIat p a b t) r = jm Z p a b m n t

/-- `zp p s t` are the parameters for `moment_IEZ` over `(s, t]` -/
abbrev zp (p : Par) (s t : ℝ) : ZPar := ⟨p.k, p.lmbd, p.mu_v, s, t⟩

theorem zp_ok {p : Par} (hp : p.OK) {s t : ℝ} (h : s ≤ t) : (zp p s t).OK := ⟨hp.k, hp.lmbd, hp.mu, h⟩

/-- what the configuration has to satisfy -/
structure CfgOK (c : Cfg) (Z : ZFun) : Prop where
  iez : ∀ n : ℕ, ∃ r, c.iez n = .ok r ∧ r.WF ∧ r.Keys (NN 5) ∧
    ∀ p : ZPar, p.OK → ev (wZ p) r = Z p.k p.lmbd p.mu_v n p.s p.t
  zero : ∀ p : ZPar, p.OK → Z p.k p.lmbd p.mu_v 0 p.s p.t = 1
  p2 : Good Z 2 0 (P2 c)

variable {c : Cfg} {Z : ZFun} (hc : CfgOK c Z)

theorem Good.removeZero {m n : ℕ} {r : IPoly} (h : Good Z m n r) : Good Z m n r.removeZero :=
  ⟨removeZero_WF _ h.1, removeZero_Keys _ _ h.2.1, fun p hp a b t ht => by
    rw [ev_removeZero]; exact h.2.2 p hp a b t ht⟩

theorem lookup_ok {I V : Type} [DecidableEq I] {T : List (I × V)} {i : I} {v : V}
    (h : dget T i = some v) : lookup T i = .ok v := by rw [lookup, h]

/-- an interval integral only depends on the values inside -/
theorem int_congr (t : ℝ) (ht : 0 ≤ t) (f g : ℝ → ℝ) (h : ∀ u, 0 ≤ u → u ≤ t → f u = g u) :
    ∫ u in (0:ℝ)..t, f u = ∫ u in (0:ℝ)..t, g u := by
  apply intervalIntegral.integral_congr
  intro u hu
  rw [Set.uIcc_of_le ht] at hu
  exact h u hu.1 hu.2

theorem tpv1 (a b σ : ℝ) : tpv 1 a b σ = a := by simp [tpv]
theorem tpv2 (a b σ : ℝ) : tpv 2 a b σ = b := by simp [tpv]
theorem tpv3 (a b σ : ℝ) : tpv 3 a b σ = σ := by simp [tpv]
theorem tpv4 (a b σ : ℝ) : tpv 4 a b σ = 1 := by norm_num [tpv]

include hc in
theorem recursiveIe_spec (m : ℕ) (IE : Tab ℤ) (T : Tab (ℤ × ℤ)) (qa qb qd : IPoly)
    (ha : dget IE (m : ℤ) = some qa) (hb : dget IE (m + 1 : ℤ) = some qb)
    (hd : dget T ((m : ℤ), 1) = some qd) (ga : Good Z m 0 qa) (gb : Good Z (m + 1) 0 qb)
    (gd : Good Z m 1 qd) :
    ∃ r, recursiveIe c (m + 2 : ℤ) IE T = .ok r ∧ r.keyfor = c.kf ∧ Good Z (m + 2) 0 r := by
  have hn2 : (m + 2 : ℤ) - 2 = m := by ring
  have hn1 : (m + 2 : ℤ) - 1 = m + 1 := by ring
  set cf : ℚ := ((m + 2 : ℤ) : ℚ) * (((m + 2 : ℤ) : ℚ) - 1) / 2 with hcf
  obtain ⟨q1, e1, k1, -, c1, v1⟩ := intE_spec c cf 1 1 le_rfl qa m (m + 2 : ℕ)
    ga.2.1 (by norm_num)
  obtain ⟨q2, e2, k2, -, c2, v2⟩ := intE_spec c cf 2 2 (by norm_num) qa m (m + 2 : ℕ)
    ga.2.1 (by norm_num)
  obtain ⟨q3, e3, k3, -, c3, v3⟩ := intE_spec c cf 3 1 le_rfl qb (m + 1 : ℕ) (m + 2 : ℕ)
    gb.2.1 (by norm_num)
  obtain ⟨q4, e4, k4, -, c4, v4⟩ := intE_spec c cf 4 1 le_rfl qd m (m + 2 : ℕ)
    gd.2.1 (by norm_num)
  obtain ⟨s1, f1, l1, w1, -, d1, u1⟩ := merge_spec ⟨c.kf, []⟩ q1 k1.symm
  obtain ⟨s2, f2, l2, w2, -, d2, u2⟩ := merge_spec s1 q2 (l1.trans k2.symm)
  obtain ⟨s3, f3, l3, w3, -, d3, u3⟩ := merge_spec s2 q3 ((l2.trans l1).trans k3.symm)
  obtain ⟨s4, f4, l4, w4, -, d4, u4⟩ := merge_spec s3 q4 ((l3.trans (l2.trans l1)).trans k4.symm)
  refine ⟨s4, ?_, l4.trans (l3.trans (l2.trans l1)), w4 (w3 (w2 (w1 (by simp [WF])))), ?_, ?_⟩
  · rw [recursiveIe, if_pos (by omega), hn2, hn1, lookup_ok ha, lookup_ok hb, lookup_ok hd]
    simp only [ok_bind]
    rw [← hcf, e1]
    simp only [ok_bind]
    rw [f1]
    simp only [ok_bind]
    rw [e2]
    simp only [ok_bind]
    rw [f2]
    simp only [ok_bind]
    rw [e3]
    simp only [ok_bind]
    rw [f3]
    simp only [ok_bind]
    rw [e4]
    simp only [ok_bind]
    rw [f4]
  · exact d4 _ (d3 _ (d2 _ (d1 _ (by intro y hy; simp at hy) c1) c2) c3) c4
  · intro p hp a b t ht
    rw [u4, u3, u2, u1, v1 ⟨⟨p, hp.k⟩, a, b, t⟩, v2 ⟨⟨p, hp.k⟩, a, b, t⟩, v3 ⟨⟨p, hp.k⟩, a, b, t⟩,
      v4 ⟨⟨p, hp.k⟩, a, b, t⟩]
    simp only [tpv1, tpv2, tpv3, tpv4]
    rw [jm, jointMom]
    simp only [zero_add, Finset.range_one, Finset.sum_singleton, Nat.choose_self, Nat.cast_one,
      Nat.sub_self]
    have hz : ∀ u, 0 ≤ u → u ≤ t → Z p.k p.lmbd p.mu_v 0 u t = 1 := fun u _ h =>
      hc.zero (zp p u t) (zp_ok hp h)
    have I : ∀ (q : ℤ) (m' n' : ℕ) (r : IPoly), Good Z m' n' r →
        ∫ u in (0:ℝ)..t, Real.exp (q * p.k * u) * ev (vIat p a b u) r =
        ∫ u in (0:ℝ)..t, Real.exp (q * p.k * u) * jm Z p a b m' n' u * Z p.k p.lmbd p.mu_v 0 u t :=
      fun q m' n' r g => int_congr t ht _ _ fun u h1 h2 => by
        rw [hz u h1 h2, g.2.2 p hp a b u h1, mul_one]
    rw [I 1 m 0 qa ga, I 2 m 0 qa ga, I 1 (m + 1) 0 qb gb, I 1 m 1 qd gd]
    simp only [Int.cast_one, one_mul, Int.cast_ofNat]
    have h0 : ev (vIat p a b t) (⟨c.kf, []⟩ : IPoly) = 0 := rfl
    rw [h0, hcf]
    push_cast
    ring_nf

/-! ### the constants -/

theorem P1_good (hc : CfgOK c Z) : Good Z 0 0 (P1 c) := by
  refine ⟨by simp [P1, WF], ?_, fun p hp a b t ht => ?_⟩
  · intro y hy
    simp [P1] at hy
    subst hy
    exact ⟨NN_seven _ _ _ _ _ _ _ le_rfl le_rfl le_rfl le_rfl le_rfl le_rfl le_rfl, by simp⟩
  · rw [jm, jointMom, hc.zero (zp p 0 t) (zp_ok hp ht)]
    simp [ev, P1, vIat]

theorem P0_good (n : ℕ) : Good Z 1 n (P0 c) := by
  refine ⟨by simp [P0, WF], ?_, fun p hp a b t ht => ?_⟩
  · intro y hy
    simp [P0] at hy
    subst hy
    exact ⟨NN_seven _ _ _ _ _ _ _ le_rfl le_rfl le_rfl le_rfl le_rfl le_rfl le_rfl, by simp⟩
  · rw [jm, jointMom]
    simp [ev, P0]

theorem toIe_good (hc : CfgOK c Z) (n : ℕ) (z : IPoly) (hz : c.iez n = .ok z) :
    (toIe c z).keyfor = c.kf ∧ Good Z 0 n (toIe c z) := by
  obtain ⟨r, e, w, k, v⟩ := hc.iez n
  rw [hz] at e
  cases e
  refine ⟨by simp [toIe], ofTerms_WF _ _, ofTerms_Keys _ _ _ ?_, fun p hp a b t ht => ?_⟩
  · intro x hx
    obtain ⟨y, hy, rfl⟩ := List.mem_map.1 hx
    have := (k y hy).2
    exact ⟨NN_seven _ _ _ _ _ _ _ (this 0) (this 2) le_rfl le_rfl le_rfl (this 3) (this 4), by simp⟩
  · rw [jm, jointMom, ← v (zp p 0 t) (zp_ok hp ht), toIe]
    refine ev_ofTerms_map _ _ _ _ _ fun y hy => ?_
    simp only [vIat, wZ, ix_cons_zero, ix_cons_succ, zpow_zero, mul_zero, Real.exp_zero]
    ring

/-! ### one round with jumps -/

theorem keyTimes_spec (K : List ℤ) (hK : NN 5 K) (q : IPoly) (B : ℤ) (hq : q.Keys (GB B)) :
    (keyTimes c K q).keyfor = c.kf ∧ (keyTimes c K q).Keys (GB B) ∧
    ∀ i : At, ev i.v (keyTimes c K q) = Real.exp (ix K 0 * i.p.k * i.t) * (i.p.k ^ (-ix K 2) *
      i.p.lmbd ^ ix K 3 * i.p.mu_v ^ ix K 4) * ev i.v q := by
  refine ⟨by simp [keyTimes], ofTerms_Keys _ _ _ ?_, fun i => ?_⟩
  · intro x hx
    obtain ⟨y, hy, rfl⟩ := List.mem_map.1 hx
    have h := (hq y hy).1.2
    have h0 := h 0; have h1 := h 1; have h5 := h 5; have h6 := h 6
    have g0 := hK.2 0; have g2 := hK.2 2; have g3 := hK.2 3; have g4 := hK.2 4
    exact ⟨NN_seven _ _ _ _ _ _ _ (by omega) (by omega) (h 2) (h 3) (h 4) (by omega) (by omega),
      (hq y hy).2⟩
  · rw [← ev_mul_const]
    refine ev_ofTerms_map _ _ _ _ _ fun y hy => ?_
    have h := (hq y hy).1.2
    simp only [At.v, vIat, ix_cons_zero, ix_cons_succ]
    rw [zpow_neg_add _ _ _ (hK.2 2) (h 1), zpow_add_nn _ _ _ (hK.2 3) (h 5),
      zpow_add_nn _ _ _ (hK.2 4) (h 6)]
    push_cast
    rw [add_mul, add_mul, Real.exp_add]
    ring

/-- the integrals of the documented recursion for one key of the jump moment -/
noncomputable def psi (Z : ZFun) (m n : ℕ) (i : At) (j : ℕ) (K : List ℤ) : ℝ :=
  n.choose j * ((m + 2 : ℕ) * (m + 1 : ℕ) / 2) *
    (i.a * (∫ u in (0:ℝ)..i.t, Real.exp (i.p.k * u) * jm Z i.p i.a i.b m j u * wZ (zp i.p u i.t) K) +
      i.b * (∫ u in (0:ℝ)..i.t, Real.exp (2 * i.p.k * u) * jm Z i.p i.a i.b m j u *
        wZ (zp i.p u i.t) K) +
      i.p.sigma * (∫ u in (0:ℝ)..i.t, Real.exp (i.p.k * u) * jm Z i.p i.a i.b (m + 1) j u *
        wZ (zp i.p u i.t) K) +
      ∫ u in (0:ℝ)..i.t, Real.exp (i.p.k * u) * jm Z i.p i.a i.b m (j + 1) u * wZ (zp i.p u i.t) K)

theorem pull (i : At) (K : List ℤ) (q : ℤ) (M : ℝ → ℝ) (M' : ℝ → ℝ)
    (h : ∀ u, 0 ≤ u → M u = M' u) :
    (Real.exp (ix K 0 * i.p.k * i.t) * (i.p.k ^ (-ix K 2) * i.p.lmbd ^ ix K 3 * i.p.mu_v ^ ix K 4)) *
      ∫ u in (0:ℝ)..i.t, Real.exp ((q + ix K 1 : ℤ) * i.p.k * u) * M u =
    ∫ u in (0:ℝ)..i.t, Real.exp (q * i.p.k * u) * M' u * wZ (zp i.p u i.t) K := by
  rw [← intervalIntegral.integral_const_mul]
  refine int_congr _ i.ht _ _ fun u h1 _ => ?_
  rw [h u h1, wZ]
  push_cast
  rw [add_mul, add_mul, Real.exp_add]
  ring

theorem jointTerm_spec (m n j : ℕ) (T : Tab (ℤ × ℤ)) (qa qb qd : IPoly)
    (ha : dget T ((m : ℤ), (j : ℤ)) = some qa) (hb : dget T ((m + 1 : ℤ), (j : ℤ)) = some qb)
    (hd : dget T ((m : ℤ), (j + 1 : ℤ)) = some qd) (ga : Good Z m j qa) (gb : Good Z (m + 1) j qb)
    (gd : Good Z m (j + 1) qd) (e : List ℤ × ℚ) (he : NN 5 e.1) :
    ∃ r, jointTerm c (m + 2 : ℤ) n j T e = .ok r ∧ r.keyfor = c.kf ∧ r.Keys (GB (m + 2 : ℕ)) ∧
      ∀ i : At, ev i.v r = e.2 • psi Z m n i j e.1 := by
  have hn2 : (m + 2 : ℤ) - 2 = m := by ring
  have hn1 : (m + 2 : ℤ) - 1 = m + 1 := by ring
  have h1 := he.2 1
  set cf : ℚ := (n.choose j : ℚ) * (((m + 2 : ℤ) : ℚ) * (((m + 2 : ℤ) : ℚ) - 1) / 2) * e.2 with hcf
  obtain ⟨q1, e1, k1, -, c1, v1⟩ := intE_spec c cf 1 (1 + ix e.1 1) (by omega) qa m (m + 2 : ℕ)
    ga.2.1 (by norm_num)
  obtain ⟨q2, e2, k2, -, c2, v2⟩ := intE_spec c cf 2 (2 + ix e.1 1) (by omega) qa m (m + 2 : ℕ)
    ga.2.1 (by norm_num)
  obtain ⟨q3, e3, k3, -, c3, v3⟩ := intE_spec c cf 3 (1 + ix e.1 1) (by omega) qb (m + 1 : ℕ) (m + 2 : ℕ)
    gb.2.1 (by norm_num)
  obtain ⟨q4, e4, k4, -, c4, v4⟩ := intE_spec c cf 4 (1 + ix e.1 1) (by omega) qd m (m + 2 : ℕ)
    gd.2.1 (by norm_num)
  obtain ⟨s2, f2, l2, -, -, d2, u2⟩ := add_spec q1 q2 (k1.trans k2.symm)
  obtain ⟨s3, f3, l3, -, -, d3, u3⟩ := add_spec s2 q3 ((l2.trans k1).trans k3.symm)
  obtain ⟨s4, f4, l4, -, -, d4, u4⟩ := add_spec s3 q4 ((l3.trans (l2.trans k1)).trans k4.symm)
  obtain ⟨k5, c5, v5⟩ := keyTimes_spec (c := c) e.1 he s4 _ (d4 _ (d3 _ (d2 _ c1 c2) c3) c4)
  refine ⟨_, ?_, k5, c5, fun i => ?_⟩
  · rw [jointTerm, hn2, hn1, lookup_ok ha, lookup_ok hb, lookup_ok hd]
    simp only [ok_bind, Int.toNat_natCast]
    rw [← hcf, e1]
    simp only [ok_bind]
    rw [e2]
    simp only [ok_bind]
    rw [f2]
    simp only [ok_bind]
    rw [e3]
    simp only [ok_bind]
    rw [f3]
    simp only [ok_bind]
    rw [e4]
    simp only [ok_bind]
    rw [f4]
    rfl
  · have hi := i.hp.k
    have ha' := fun u hu => ga.2.2 i.p i.hp i.a i.b u hu
    have hb' := fun u hu => gb.2.2 i.p i.hp i.a i.b u hu
    have hd' := fun u hu => gd.2.2 i.p i.hp i.a i.b u hu
    rw [v5, u4, u3, u2, v1 ⟨⟨i.p, hi⟩, i.a, i.b, i.t⟩, v2 ⟨⟨i.p, hi⟩, i.a, i.b, i.t⟩,
      v3 ⟨⟨i.p, hi⟩, i.a, i.b, i.t⟩, v4 ⟨⟨i.p, hi⟩, i.a, i.b, i.t⟩]
    simp only [tpv1, tpv2, tpv3, tpv4]
    have p1 := pull i e.1 1 _ _ ha'
    have p2 := pull i e.1 2 _ _ ha'
    have p3 := pull i e.1 1 _ _ hb'
    have p4 := pull i e.1 1 _ _ hd'
    rw [psi, Rat.smul_def]
    simp only [Int.cast_one, one_mul, Int.cast_ofNat] at p1 p2 p3 p4
    rw [← p1, ← p2, ← p3, ← p4, hcf]
    push_cast
    ring_nf

theorem wZ_cont (p : Par) (t : ℝ) (K : List ℤ) : Continuous fun u => wZ (zp p u t) K := by
  simp only [wZ]; fun_prop

/-- the sum of `psi` over the keys of the jump moment -/
theorem ev_psi (hc : CfgOK c Z) (m n j : ℕ) (qa qb qd z : IPoly) (ga : Good Z m j qa)
    (gb : Good Z (m + 1) j qb) (gd : Good Z m (j + 1) qd) (hz : c.iez (n - j : ℕ) = .ok z) (i : At) :
    ev (psi Z m n i j) z = n.choose j * ((m + 2 : ℕ) * (m + 1 : ℕ) / 2) *
      (i.a * (∫ u in (0:ℝ)..i.t, Real.exp (i.p.k * u) * jm Z i.p i.a i.b m j u *
          Z i.p.k i.p.lmbd i.p.mu_v (n - j) u i.t) +
        i.b * (∫ u in (0:ℝ)..i.t, Real.exp (2 * i.p.k * u) * jm Z i.p i.a i.b m j u *
          Z i.p.k i.p.lmbd i.p.mu_v (n - j) u i.t) +
        i.p.sigma * (∫ u in (0:ℝ)..i.t, Real.exp (i.p.k * u) * jm Z i.p i.a i.b (m + 1) j u *
          Z i.p.k i.p.lmbd i.p.mu_v (n - j) u i.t) +
        ∫ u in (0:ℝ)..i.t, Real.exp (i.p.k * u) * jm Z i.p i.a i.b m (j + 1) u *
          Z i.p.k i.p.lmbd i.p.mu_v (n - j) u i.t) := by
  obtain ⟨r, e, w, k, v⟩ := hc.iez (n - j)
  rw [hz] at e
  cases e
  have I : ∀ (q : ℝ) (m' n' : ℕ) (r : IPoly), Good Z m' n' r →
      ev (fun K => ∫ u in (0:ℝ)..i.t, Real.exp (q * u) * jm Z i.p i.a i.b m' n' u *
        wZ (zp i.p u i.t) K) z =
      ∫ u in (0:ℝ)..i.t, Real.exp (q * u) * jm Z i.p i.a i.b m' n' u *
        Z i.p.k i.p.lmbd i.p.mu_v (n - j) u i.t := by
    intro q m' n' r g
    have h1 : ∀ F : ℝ → ℝ, ∫ u in (0:ℝ)..i.t, Real.exp (q * u) * jm Z i.p i.a i.b m' n' u * F u =
        ∫ u in (0:ℝ)..i.t, (Real.exp (q * u) * ev (vIat i.p i.a i.b u) r) * F u := fun F =>
      int_congr _ i.ht _ _ fun u h1 _ => by rw [g.2.2 i.p i.hp i.a i.b u h1]
    simp only [h1]
    rw [← (intervalIntegral_ev (fun u => Real.exp (q * u) * ev (vIat i.p i.a i.b u) r)
      (fun u => wZ (zp i.p u i.t)) z 0 i.t (fun e _ => by
        refine Continuous.intervalIntegrable ?_ _ _
        exact ((by fun_prop : Continuous fun u : ℝ => Real.exp (q * u)).mul
          (ev_cont _ _ (vIat_cont i.p i.a i.b))).mul (wZ_cont _ _ _))).2]
    exact int_congr _ i.ht _ _ fun u _ h2 => by rw [v (zp i.p u i.t) (zp_ok i.hp h2)]
  unfold psi
  rw [ev_mul_const]
  congr 1
  rw [ev_add_fun, ev_add_fun, ev_add_fun, ev_mul_const, ev_mul_const, ev_mul_const, I _ _ _ _ ga,
    I _ _ _ _ ga, I _ _ _ _ gb, I _ _ _ _ gd]

/-- the entries of the table below level `N` -/
def TG (Z : ZFun) (N : ℤ) (T : Tab (ℤ × ℤ)) : Prop :=
  TabGood (fun (I : ℤ × ℤ) r => Good Z I.1.toNat I.2.toNat r)
    (fun I => (0 ≤ I.1 ∧ 0 ≤ I.2) ∧ I.1 + I.2 < N) T

theorem TG.get {N : ℤ} {T : Tab (ℤ × ℤ)} (h : TG Z N T) (m n : ℕ) (hmn : (m : ℤ) + n < N) :
    ∃ q, dget T ((m : ℤ), (n : ℤ)) = some q ∧ Good Z m n q := by
  obtain ⟨q, h1, h2⟩ := h ((m : ℤ), (n : ℤ)) ⟨⟨by simp, by simp⟩, hmn⟩
  exact ⟨q, h1, by simpa using h2⟩

theorem jointLoop_spec (hc : CfgOK c Z) (m n : ℕ) (T : Tab (ℤ × ℤ)) (hT : TG Z (m + 2 + n) T) :
    ∃ r, jointLoop c (m + 2 : ℤ) n T = .ok r ∧ r.keyfor = c.kf ∧ Good Z (m + 2) n r := by
  obtain ⟨r, e, k, w, cc, v⟩ := accLoop_spec (fun (poly : IPoly) (i : ℤ) => do
      let pol1 ← c.iez ((n : ℤ) - i)
      mergeLoop (jointTerm c (m + 2 : ℤ) n i T) pol1.items poly) (pyRange 0 ((n : ℤ) + 1))
    (GB (m + 2 : ℕ)) c.kf
    (fun i : At => i.v)
    (fun i jz => n.choose jz.toNat * ((m + 2 : ℕ) * (m + 1 : ℕ) / 2) *
      (i.a * (∫ u in (0:ℝ)..i.t, Real.exp (i.p.k * u) * jm Z i.p i.a i.b m jz.toNat u *
          Z i.p.k i.p.lmbd i.p.mu_v (n - jz.toNat) u i.t) +
        i.b * (∫ u in (0:ℝ)..i.t, Real.exp (2 * i.p.k * u) * jm Z i.p i.a i.b m jz.toNat u *
          Z i.p.k i.p.lmbd i.p.mu_v (n - jz.toNat) u i.t) +
        i.p.sigma * (∫ u in (0:ℝ)..i.t, Real.exp (i.p.k * u) * jm Z i.p i.a i.b (m + 1) jz.toNat u *
          Z i.p.k i.p.lmbd i.p.mu_v (n - jz.toNat) u i.t) +
        ∫ u in (0:ℝ)..i.t, Real.exp (i.p.k * u) * jm Z i.p i.a i.b m (jz.toNat + 1) u *
          Z i.p.k i.p.lmbd i.p.mu_v (n - jz.toNat) u i.t))
    (by
      intro jz hjz acc hk hacc
      rw [mem_pyRange] at hjz
      obtain ⟨j, rfl⟩ := Int.eq_ofNat_of_zero_le hjz.1
      have hj : j ≤ n := by omega
      obtain ⟨z, e1, w1, k1, -⟩ := hc.iez (n - j)
      obtain ⟨qa, ha, ga⟩ := hT.get m j (by omega)
      obtain ⟨qb, hb, gb⟩ := hT.get (m + 1) j (by push_cast; omega)
      obtain ⟨qd, hd, gd⟩ := hT.get m (j + 1) (by push_cast; omega)
      obtain ⟨r, e2, k2, w2, -, c2, v2⟩ := mergeLoop_spec (jointTerm c (m + 2 : ℤ) n j T) z.items acc
        (GB (m + 2 : ℕ)) (fun i : At => i.v) (fun i e => e.2 • psi Z m n i j e.1) hacc (fun e he => by
          obtain ⟨q, f1, f2, f3, f4⟩ := jointTerm_spec (c := c) m n j T qa qb qd ha
            (by push_cast at hb; exact hb) (by push_cast at hd; exact hd) ga gb gd e (k1 e he)
          exact ⟨q, f1, f2.trans hk.symm, f3, f4⟩)
      have e1' := e1
      rw [Nat.cast_sub hj] at e1'
      refine ⟨r, by rw [e1']; exact e2, k2.trans hk, w2, c2, fun i => ?_⟩
      rw [v2]
      congr 1
      exact ev_psi hc m n j qa qb qd z ga gb gd e1 i) ⟨c.kf, []⟩ rfl (by intro y hy; simp at hy)
  refine ⟨r, e, k, w (by simp [WF]), cc, fun p hp a b t ht => ?_⟩
  have := v ⟨p, a, b, t, hp, ht⟩
  simp only [At.v] at this
  rw [this, jm, jointMom]
  have h0 : ev (vIat p a b t) (⟨c.kf, []⟩ : IPoly) = 0 := rfl
  rw [h0, zero_add, pyRange, List.map_map]
  have hN : ((n : ℤ) + 1 - 0).toNat = n + 1 := by omega
  rw [hN, list_range_sum']
  refine Finset.sum_congr rfl fun j _ => ?_
  simp only [Function.comp, zero_add, Int.toNat_natCast]

/-- `ie` gives the moments of `IE` up to order `N` -/
def IeOK (c : Cfg) (Z : ZFun) (ie : ℤ → Except PyErr IPoly) (N : ℕ) : Prop :=
  ∀ n : ℕ, n ≤ N → ∃ r, ie n = .ok r ∧ (n ≠ 2 → r.keyfor = c.kf) ∧ Good Z n 0 r

theorem jointStep_spec (hc : CfgOK c Z) (ie : ℤ → Except PyErr IPoly) (N : ℕ) (hie : IeOK c Z ie N)
    (m n : ℕ) (hN : n = 0 → m ≤ N) (T : Tab (ℤ × ℤ)) (hT : TG Z (m + n) T) :
    ∃ r, jointStep c ie ((m : ℤ), (n : ℤ)) T = .ok r ∧ (¬ (m = 2 ∧ n = 0) → r.keyfor = c.kf) ∧
      Good Z m n r := by
  suffices H : ∃ r, recursiveJoint c ie m n T = .ok r ∧ (¬ (m = 2 ∧ n = 0) → r.keyfor = c.kf) ∧
      Good Z m n r by
    obtain ⟨r, e, k, g⟩ := H
    exact ⟨_, by rw [jointStep, e]; rfl, fun h => by rw [removeZero_keyfor, k h], g.removeZero⟩
  match m with
  | 0 =>
    obtain ⟨z, e, -⟩ := hc.iez n
    obtain ⟨k, g⟩ := toIe_good hc n z e
    exact ⟨_, by
      rw [recursiveJoint, if_neg (by omega), if_neg (by omega), if_neg (by omega), if_pos (by omega), e]
      rfl, fun _ => k, g⟩
  | 1 =>
    refine ⟨_, by rw [recursiveJoint, if_neg (by omega), if_neg (by omega), if_pos (by omega)],
      fun _ => by simp, ?_⟩
    exact P0_good (c := c) n
  | m + 2 =>
    by_cases hn : n = 0
    · subst hn
      obtain ⟨r, e, k, g⟩ := hie (m + 2) (hN rfl)
      exact ⟨r, by rw [recursiveJoint, if_neg (by omega), if_pos (by omega), e],
        fun h => k (by omega), g⟩
    · obtain ⟨r, e, k, g⟩ := jointLoop_spec hc m n T (by push_cast at hT; exact hT)
      exact ⟨r, by rw [recursiveJoint, if_pos (by omega)]; push_cast; exact e, fun _ => k, g⟩

theorem momentJointWith_spec (hc : CfgOK c Z) (ie : ℤ → Except PyErr IPoly) (N : ℕ)
    (hie : IeOK c Z ie N) (h2 : 2 ≤ N) (m n : ℕ) (hN : n = 0 → m ≤ N) (hN' : m + n ≤ N + 1) :
    ∃ r, momentJointWith c ie m n = .ok r ∧ (¬ (m = 2 ∧ n = 0) → r.keyfor = c.kf) ∧ Good Z m n r := by
  obtain ⟨z1, e1, -⟩ := hc.iez 1
  obtain ⟨z2, e2, -⟩ := hc.iez 2
  obtain ⟨q, e3, -, g3⟩ := hie 2 h2
  obtain ⟨k1, g1⟩ := toIe_good hc 1 z1 e1
  obtain ⟨k2, g2⟩ := toIe_good hc 2 z2 e2
  norm_num at e1 e2 e3
  set T0 : Tab (ℤ × ℤ) := [((0, 0), P1 c), ((1, 0), P0 c), ((0, 1), toIe c z1), ((2, 0), q),
    ((1, 1), P0 c), ((0, 2), toIe c z2)] with hT0
  have hsmall : ∀ m n : ℕ, m + n ≤ 2 → ∃ r, dget T0 ((m : ℤ), (n : ℤ)) = some r ∧
      (¬ (m = 2 ∧ n = 0) → r.keyfor = c.kf) ∧ Good Z m n r := by
    intro m n h
    match m, n with
    | 0, 0 => exact ⟨_, rfl, fun _ => rfl, P1_good hc⟩
    | 0, 1 => exact ⟨_, rfl, fun _ => k1, g1⟩
    | 0, 2 => exact ⟨_, rfl, fun _ => k2, g2⟩
    | 1, 0 => exact ⟨_, rfl, fun _ => rfl, P0_good 0⟩
    | 1, 1 => exact ⟨_, rfl, fun _ => rfl, P0_good 1⟩
    | 2, 0 => exact ⟨_, rfl, fun h => absurd ⟨rfl, rfl⟩ h, g3⟩
    | 0, n + 3 => omega
    | 1, n + 2 => omega
    | 2, n + 1 => omega
    | m + 3, n => omega
  have hd : momentJointWith c ie m n = if (m : ℤ) + n ≤ 2 then lookup T0 ((m : ℤ), (n : ℤ))
      else (fillLevels (jointStep c ie) (fun n => (pyRange 0 (n + 1)).map fun i => (i, n - i))
        (fun _ _ => false) (pyRange 3 ((m : ℤ) + n)) T0) >>=
          fun T => jointStep c ie ((m : ℤ), (n : ℤ)) T := by
    rw [momentJointWith, if_neg (by simp), e1, e2, e3]
    rfl
  rw [hd]
  by_cases h : m + n ≤ 2
  · obtain ⟨r, h1, h2, h3⟩ := hsmall m n h
    exact ⟨r, by rw [if_pos (by omega), lookup_ok h1], h2, h3⟩
  · rw [if_neg (by omega)]
    obtain ⟨T, e4, g4⟩ := fillLevels_all (fun (I : ℤ × ℤ) r => Good Z I.1.toNat I.2.toNat r)
      (fun I : ℤ × ℤ => 0 ≤ I.1 ∧ 0 ≤ I.2) (fun I => I.1 + I.2) (jointStep c ie)
      (fun n => (pyRange 0 (n + 1)).map fun i => (i, n - i)) 3 ((m : ℤ) + n) (by omega)
      (by
        intro l _ _ I
        simp only [List.mem_map, mem_pyRange]
        constructor
        · rintro ⟨i, hi, rfl⟩
          exact ⟨⟨by dsimp only; omega, by dsimp only; omega⟩, by dsimp only; omega⟩
        · rintro ⟨⟨h1, h2⟩, h3⟩
          exact ⟨I.1, by omega, Prod.ext rfl (by dsimp only; omega)⟩)
      (by
        rintro ⟨I1, I2⟩ ⟨h1, h2⟩ h3 h4 T hT
        dsimp only at h1 h2 h3 h4
        obtain ⟨a, rfl⟩ := Int.eq_ofNat_of_zero_le h1
        obtain ⟨b, rfl⟩ := Int.eq_ofNat_of_zero_le h2
        obtain ⟨r, e, -, g⟩ := jointStep_spec hc ie N hie a b (by omega) T hT
        exact ⟨r, e, g⟩)
      T0 (by
        rintro ⟨I1, I2⟩ ⟨⟨h1, h2⟩, h3⟩
        dsimp only at h1 h2 h3
        obtain ⟨a, rfl⟩ := Int.eq_ofNat_of_zero_le h1
        obtain ⟨b, rfl⟩ := Int.eq_ofNat_of_zero_le h2
        obtain ⟨r, e, -, g⟩ := hsmall a b (by omega)
        exact ⟨r, e, g⟩)
    obtain ⟨r, e, k, g⟩ := jointStep_spec hc ie N hie m n hN T g4
    exact ⟨r, by rw [e4, ok_bind, e], k, g⟩

/-! ### `moment_ie` -/

theorem delKey_ok {I V : Type} [DecidableEq I] {T : List (I × V)} {i : I} {v : V}
    (h : dget T i = some v) : ∃ T', delKey T i = .ok T' ∧ ∀ j, j ≠ i → dget T' j = dget T j := by
  refine ⟨_, by rw [delKey, lookup_ok h]; rfl, fun j hj => ?_⟩
  exact dget_filter T (fun k => !decide (k = i)) j (by simp [hj])

/-- state of the loop before round `i` -/
def IeInv (Z : ZFun) (i : ℕ) (S : Tab ℤ × Tab (ℤ × ℤ)) : Prop :=
  (∃ qa, dget S.1 ((i : ℤ) - 2) = some qa ∧ Good Z (i - 2) 0 qa) ∧
  (∃ qb, dget S.1 ((i : ℤ) - 1) = some qb ∧ Good Z (i - 1) 0 qb) ∧
  (i = 3 → ∃ qd, dget S.2 (1, 1) = some qd ∧ Good Z 1 1 qd)

theorem needIez_spec (joint : ℤ → ℤ → Except PyErr IPoly) (i : ℕ) (hi : 3 ≤ i)
    (hj : 4 ≤ i → ∃ q, joint ((i - 2 : ℕ) : ℤ) (1 : ℕ) = .ok q ∧ Good Z (i - 2) 1 q)
    (S : Tab ℤ × Tab (ℤ × ℤ)) (hS : IeInv Z i S) :
    ∃ T qd, needIez joint i S.2 = .ok T ∧ dget T ((i : ℤ) - 2, 1) = some qd ∧ Good Z (i - 2) 1 qd := by
  by_cases h : i = 3
  · subst h
    obtain ⟨qd, h1, h2⟩ := hS.2.2 rfl
    exact ⟨S.2, qd, by rw [needIez, if_neg (by norm_num)], h1, h2⟩
  · obtain ⟨q, e, g⟩ := hj (by omega)
    rw [Nat.cast_sub (by omega)] at e
    norm_num at e
    refine ⟨_, q, by rw [needIez, if_pos (by omega), e]; rfl, ?_, g⟩
    rw [dget_dset, if_pos rfl]

theorem rec_at (hc : CfgOK c Z) (i : ℕ) (hi : 3 ≤ i) (S : Tab ℤ × Tab (ℤ × ℤ)) (hS : IeInv Z i S)
    (T : Tab (ℤ × ℤ)) (qd : IPoly) (hd : dget T ((i : ℤ) - 2, 1) = some qd) (gd : Good Z (i - 2) 1 qd) :
    ∃ r, recursiveIe c i S.1 T = .ok r ∧ r.keyfor = c.kf ∧ Good Z i 0 r := by
  obtain ⟨⟨qa, ha, ga⟩, ⟨qb, hb, gb⟩, -⟩ := hS
  obtain ⟨m, rfl⟩ : ∃ m, i = m + 2 := ⟨i - 2, by omega⟩
  simp only [Nat.add_sub_cancel, Nat.add_one_sub_one, Nat.cast_add, Nat.cast_ofNat,
    add_sub_cancel_right] at ha hb ga gb gd hd
  rw [show (m : ℤ) + 2 - 1 = m + 1 by ring] at hb
  obtain ⟨r, e, k, g⟩ := recursiveIe_spec hc m S.1 T qa qb qd ha hb hd ga gb gd
  exact ⟨r, by push_cast; exact e, k, g⟩

theorem ieStep_spec (hc : CfgOK c Z) (joint : ℤ → ℤ → Except PyErr IPoly) (i : ℕ) (hi : 3 ≤ i)
    (hj : 4 ≤ i → ∃ q, joint ((i - 2 : ℕ) : ℤ) (1 : ℕ) = .ok q ∧ Good Z (i - 2) 1 q)
    (S : Tab ℤ × Tab (ℤ × ℤ)) (hS : IeInv Z i S) :
    ∃ S', ieStep c joint S i = .ok S' ∧ IeInv Z (i + 1) S' := by
  obtain ⟨T, qd, e1, hd, gd⟩ := needIez_spec joint i hi hj S hS
  obtain ⟨r, e2, k2, g2⟩ := rec_at hc i hi S hS T qd hd gd
  obtain ⟨⟨qa, ha, ga⟩, ⟨qb, hb, gb⟩, -⟩ := hS
  obtain ⟨IE, e3, h3⟩ := delKey_ok (T := dset S.1 (i : ℤ) r.removeZero) (i := (i : ℤ) - 2) (v := qa)
    (by rw [dget_dset, if_neg (by omega), ha])
  obtain ⟨T', e4, -⟩ := delKey_ok hd
  refine ⟨(IE, T'), by rw [ieStep, e1, ok_bind, e2, ok_bind, e3, ok_bind, e4]; rfl, ⟨qb, ?_, ?_⟩,
    ⟨r.removeZero, ?_, g2.removeZero⟩, by omega⟩
  · have h : ((i + 1 : ℕ) : ℤ) - 2 = (i : ℤ) - 1 := by push_cast; ring
    rw [h, h3 _ (by omega), dget_dset, if_neg (by omega), hb]
  · exact gb
  · have h : ((i + 1 : ℕ) : ℤ) - 1 = (i : ℤ) := by push_cast; ring
    rw [h, h3 _ (by omega), dget_dset, if_pos rfl]

theorem ieLoop_spec (hc : CfgOK c Z) (joint : ℤ → ℤ → Except PyErr IPoly) (m i : ℕ) (hi : 3 ≤ i)
    (hj : ∀ j, 4 ≤ j → j < i + m → ∃ q, joint ((j - 2 : ℕ) : ℤ) (1 : ℕ) = .ok q ∧ Good Z (j - 2) 1 q)
    (S : Tab ℤ × Tab (ℤ × ℤ)) (hS : IeInv Z i S) :
    ∃ S', ((List.range m).map fun j : ℕ => (i : ℤ) + (j : ℤ)).foldlM (ieStep c joint) S = .ok S' ∧
      IeInv Z (i + m) S' := by
  induction m generalizing i S with
  | zero => exact ⟨S, rfl, hS⟩
  | succ m ih =>
    obtain ⟨S1, e1, h1⟩ := ieStep_spec hc joint i hi (fun h => hj i h (by omega)) S hS
    obtain ⟨S2, e2, h2⟩ := ih (i + 1) (by omega) (fun j h h' => hj j h (by omega)) S1 h1
    refine ⟨S2, ?_, by rw [show i + (m + 1) = i + 1 + m by omega]; exact h2⟩
    rw [List.range_succ_eq_map, List.map_cons, List.map_map, List.foldlM_cons]
    have e0 : (i : ℤ) + ((0 : ℕ) : ℤ) = i := by simp
    have e3 : ((fun j : ℕ => (i : ℤ) + (j : ℤ)) ∘ Nat.succ) =
        fun j : ℕ => ((i + 1 : ℕ) : ℤ) + (j : ℤ) := by
      funext j; simp; omega
    rw [e0, e1, e3]
    exact e2

theorem momentIeWith_spec (hc : CfgOK c Z) (joint : ℤ → ℤ → Except PyErr IPoly) (n : ℕ)
    (hj : ∀ j, 4 ≤ j → j ≤ n → ∃ q, joint ((j - 2 : ℕ) : ℤ) (1 : ℕ) = .ok q ∧ Good Z (j - 2) 1 q) :
    ∃ r, momentIeWith c joint n = .ok r ∧ (n ≠ 2 → r.keyfor = c.kf) ∧ Good Z n 0 r := by
  match n with
  | 0 => exact ⟨_, rfl, fun _ => rfl, P1_good hc⟩
  | 1 => exact ⟨_, rfl, fun _ => rfl, P0_good 0⟩
  | 2 => exact ⟨_, rfl, fun h => absurd rfl h, hc.p2⟩
  | n + 3 =>
    obtain ⟨z, e1, -⟩ := hc.iez 1
    norm_num at e1
    obtain ⟨S, e2, h2⟩ := ieLoop_spec hc joint n 3 le_rfl (fun j h h' => hj j h (by omega))
      ([(0, P1 c), (1, P0 c), (2, P2 c)], [((0, 1), toIe c z), ((1, 1), P0 c)])
      ⟨⟨_, rfl, P0_good 0⟩, ⟨_, rfl, hc.p2⟩, fun _ => ⟨_, rfl, P0_good 1⟩⟩
    rw [show 3 + n = n + 3 by omega] at h2
    obtain ⟨T, qd, e3, hd, gd⟩ := needIez_spec joint (n + 3) (by omega)
      (fun h => hj _ h le_rfl) S h2
    obtain ⟨r, e4, k4, g4⟩ := rec_at hc (n + 3) (by omega) S h2 T qd hd gd
    refine ⟨r.removeZero, ?_, fun _ => by rw [removeZero_keyfor, k4], g4.removeZero⟩
    have hr : pyRange 3 ((n + 3 : ℕ) : ℤ) = (List.range n).map fun j : ℕ => ((3 : ℕ) : ℤ) + (j : ℤ) := by
      rw [pyRange, show (((n + 3 : ℕ) : ℤ) - 3).toNat = n by omega]; rfl
    rw [momentIeWith, if_neg (by omega), if_neg (by omega), e1, ok_bind, hr, e2, ok_bind, e3, ok_bind,
      e4]
    rfl

theorem momentIe_spec (hc : CfgOK c Z) (d : ℕ) (n : ℕ) (hd : 1 ≤ d) (hn : n ≤ d) :
    ∃ r, momentIe c d n = .ok r ∧ (n ≠ 2 → r.keyfor = c.kf) ∧ Good Z n 0 r := by
  induction d generalizing n with
  | zero => omega
  | succ d ih =>
    rw [momentIe]
    refine momentIeWith_spec hc _ n fun j h4 hj => ?_
    obtain ⟨r, e, -, g⟩ := momentJointWith_spec hc (momentIe c d) d
      (fun n hn => ih n (by omega) hn) (by omega) (j - 2) 1 (by omega) (by omega)
    exact ⟨r, e, g⟩

theorem momentJoint_spec (hc : CfgOK c Z) (d m n : ℕ) (hd : m + n ≤ d) (h2 : 2 ≤ d) :
    ∃ r, momentJoint c d m n = .ok r ∧ (¬ (m = 2 ∧ n = 0) → r.keyfor = c.kf) ∧ Good Z m n r :=
  momentJointWith_spec hc (momentIe c d) d (fun n hn => momentIe_spec hc d n (by omega) hn) h2 m n
    (by omega) (by omega)

/-! ### the two files -/

theorem Z1 {p : Par} (hp : p.OK) (u : ℝ) (hu : 0 ≤ u) : rawZ p.k p.lmbd p.mu_v 1 0 u =
    p.lmbd * p.mu_v * (Real.exp (p.k * u) - 1) * p.k⁻¹ := by
  obtain ⟨r, e, -, -, -, v⟩ := momentIEZ_spec 1
  have := v (zp p 0 u) (zp_ok hp hu)
  cases e
  rw [rawZ, ← this]
  simp [ev, wZ]
  ring

theorem exp_int2 {k : ℝ} (hk : k ≠ 0) (t : ℝ) :
    (∫ u in (0:ℝ)..t, Real.exp (k * u)) = (Real.exp (k * t) - 1) * k⁻¹ ∧
    (∫ u in (0:ℝ)..t, Real.exp (2 * k * u)) = (Real.exp (2 * k * t) - 1) * (k⁻¹ * (1 / 2)) := by
  have h1 := integral_exp_nk 1 one_ne_zero k hk t
  have h2 := integral_exp_nk 2 two_ne_zero k hk t
  norm_num at h1 h2
  norm_num
  exact ⟨h1, h2⟩

theorem jm20 (Z : ZFun) {p : Par} (hp : p.OK) (hz : ∀ p : ZPar, p.OK → Z p.k p.lmbd p.mu_v 0 p.s p.t = 1)
    (f : ℝ → ℝ) (h1 : ∀ u, 0 ≤ u → Z p.k p.lmbd p.mu_v 1 0 u = f u) (a b t : ℝ) (ht : 0 ≤ t) :
    jm Z p a b 2 0 t = a * ((Real.exp (p.k * t) - 1) * p.k⁻¹) +
      b * ((Real.exp (2 * p.k * t) - 1) * (p.k⁻¹ * (1 / 2))) +
      ∫ u in (0:ℝ)..t, Real.exp (p.k * u) * f u := by
  have hz0 : ∀ u, 0 ≤ u → u ≤ t → Z p.k p.lmbd p.mu_v 0 u t = 1 := fun u _ h => hz (zp p u t) (zp_ok hp h)
  have hz1 : ∀ u, 0 ≤ u → Z p.k p.lmbd p.mu_v 0 0 u = 1 := fun u h => hz (zp p 0 u) (zp_ok hp h)
  rw [jm, jointMom]
  simp only [zero_add, Finset.range_one, Finset.sum_singleton, jointMom, Nat.sub_self]
  rw [int_congr t ht (fun u => Real.exp (p.k * u) * Z p.k p.lmbd p.mu_v 0 0 u *
      Z p.k p.lmbd p.mu_v 0 u t) (fun u => Real.exp (p.k * u))
      (fun u h h' => by rw [hz0 u h h', hz1 u h]; ring),
    int_congr t ht (fun u => Real.exp (2 * p.k * u) * Z p.k p.lmbd p.mu_v 0 0 u *
      Z p.k p.lmbd p.mu_v 0 u t) (fun u => Real.exp (2 * p.k * u))
      (fun u h h' => by rw [hz0 u h h', hz1 u h]; ring),
    int_congr t ht (fun u => Real.exp (p.k * u) * Z p.k p.lmbd p.mu_v 1 0 u *
      Z p.k p.lmbd p.mu_v 0 u t) (fun u => Real.exp (p.k * u) * f u)
      (fun u h h' => by rw [hz0 u h h', h1 u h]; ring), (exp_int2 hp.k t).1, (exp_int2 hp.k t).2]
  simp

theorem rawZ_zero (p : ZPar) (hp : p.OK) : rawZ p.k p.lmbd p.mu_v 0 p.s p.t = 1 := by
  have := law_prob hp
  simp [rawZ]

theorem centralZ_zero (p : ZPar) (hp : p.OK) : centralZ p.k p.lmbd p.mu_v 0 p.s p.t = 1 := by
  have := law_prob hp
  simp [centralZ]

theorem centralZ_one (p : ZPar) (hp : p.OK) : centralZ p.k p.lmbd p.mu_v 1 p.s p.t = 0 := by
  obtain ⟨r, e, -, -, -, v⟩ := cmomentIEZ_spec 1
  have := v p hp
  cases e
  rw [centralZ, ← this]
  simp [ev]

theorem rawCfg_ok : CfgOK rawCfg rawZ where
  iez n := by
    obtain ⟨r, e, -, w, k, v⟩ := momentIEZ_spec n
    exact ⟨r, e, w, k, v⟩
  zero := rawZ_zero
  p2 := by
    refine ⟨by simp [WF, P2, rawCfg], ?_, fun p hp a b t ht => ?_⟩
    · intro y hy
      simp only [P2, rawCfg, List.mem_cons, List.not_mem_nil, or_false] at hy
      rcases hy with rfl | rfl | rfl | rfl | rfl | rfl | rfl <;>
        exact ⟨NN_seven _ _ _ _ _ _ _ (by norm_num) (by norm_num) (by norm_num) (by norm_num)
          (by norm_num) (by norm_num) (by norm_num), by simp⟩
    · rw [jm20 rawZ hp rawZ_zero _ (fun u hu => Z1 hp u hu) a b t ht]
      have : ∀ u : ℝ, Real.exp (p.k * u) * (p.lmbd * p.mu_v * (Real.exp (p.k * u) - 1) * p.k⁻¹) =
          p.lmbd * p.mu_v * p.k⁻¹ * (Real.exp (2 * p.k * u) - Real.exp (p.k * u)) := by
        intro u
        rw [show 2 * p.k * u = p.k * u + p.k * u by ring, Real.exp_add]; ring
      simp_rw [this]
      rw [intervalIntegral.integral_const_mul, intervalIntegral.integral_sub
        (Continuous.intervalIntegrable (by fun_prop) _ _)
        (Continuous.intervalIntegrable (by fun_prop) _ _), (exp_int2 hp.k t).1, (exp_int2 hp.k t).2]
      simp only [ev, P2, rawCfg, List.map_cons, List.map_nil, List.sum_cons, List.sum_nil, vIat,
        ix_cons_zero, ix_cons_succ, Rat.smul_def, zpow_zero, zpow_one, zpow_neg]
      have h2 : p.k ^ (2 : ℤ) = p.k * p.k := by rw [zpow_ofNat, pow_two]
      rw [h2]
      push_cast
      rw [mul_inv]
      simp only [zero_mul, Real.exp_zero, one_mul]
      ring

theorem centralCfg_ok : CfgOK centralCfg centralZ where
  iez n := by
    obtain ⟨r, e, -, w, k, v⟩ := cmomentIEZ_spec n
    exact ⟨r, e, w, k, v⟩
  zero := centralZ_zero
  p2 := by
    refine ⟨by simp [WF, P2, centralCfg], ?_, fun p hp a b t ht => ?_⟩
    · intro y hy
      simp only [P2, centralCfg, List.mem_cons, List.not_mem_nil, or_false] at hy
      rcases hy with rfl | rfl | rfl | rfl <;>
        exact ⟨NN_seven _ _ _ _ _ _ _ (by norm_num) (by norm_num) (by norm_num) (by norm_num)
          (by norm_num) (by norm_num) (by norm_num), by simp⟩
    · rw [jm20 centralZ hp centralZ_zero (fun _ => 0)
        (fun u hu => centralZ_one (zp p 0 u) (zp_ok hp hu)) a b t ht]
      simp only [ev, P2, centralCfg, List.map_cons, List.map_nil, List.sum_cons, List.sum_nil, vIat,
        ix_cons_zero, ix_cons_succ, Rat.smul_def, zpow_zero, zpow_one, zpow_neg, mul_zero,
        intervalIntegral.integral_zero]
      push_cast
      simp only [zero_mul, Real.exp_zero, one_mul]
      ring

theorem poly2numI_eq (q : IPoly) (p : Par) :
    poly2numI q p = ev (vIat p (p.v0 - p.theta) p.theta p.h) q := by
  unfold poly2numI ev
  rw [List.sum_eq_foldl, List.foldl_map]
  congr 1
  funext f e
  rw [Rat.smul_def, mul_comm]

theorem poly2numIc_eq (q : IPoly) (p : Par) :
    poly2numIc q p = ev (vIat p (p.v0 - meanv p) (meanv p) p.h) q := by
  unfold poly2numIc ev
  rw [List.sum_eq_foldl, List.foldl_map]
  congr 1
  funext f e
  rw [Rat.smul_def, mul_comm]

end Ajd.Srjd
