import Verif.Lemmas.Fsv1Mom
import Mathlib.Algebra.Polynomial.AlgebraMap
import Mathlib.Algebra.Polynomial.Roots

namespace Ajd.Fsv1
open Poly Ito Utils MvPolynomial MeasureTheory

/-! ### cov.py -/

theorem rat_smul_rv (c : ℚ) (f : Rv) : c • f = C (c : ℝ) * f := by
  rw [C_mul']
  exact (Rat.cast_smul_eq_qsmul ℝ c f).symm

theorem rat_smul_pol (c : ℚ) (f : Polynomial ℝ) : c • f = Polynomial.C (c : ℝ) * f := by
  rw [← Polynomial.smul_eq_C_mul]
  exact (Rat.cast_smul_eq_qsmul ℝ c f).symm

theorem sq_add (ρ : ℝ) (h : 0 ≤ 1 - ρ ^ 2) (a b : ℤ) (ha : 0 ≤ a) (hb : 0 ≤ b) :
    sq ρ (a + b) = sq ρ a * sq ρ b := by
  obtain ⟨m, rfl⟩ := Int.eq_ofNat_of_zero_le ha
  obtain ⟨n, rfl⟩ := Int.eq_ofNat_of_zero_le hb
  rw [← Nat.cast_add, sq_nat ρ h, sq_nat ρ h, sq_nat ρ h, pow_add]

/-- `e^{-knh} IE_n` -/
noncomputable def eIE (p : Par) (t0 : ℝ) : Rv := C (Real.exp (-(p.k * (t0 + p.h)))) * X 0

noncomputable def vnVal (p : Par) (t0 x : ℝ) (key : List ℤ) : Rv :=
  C (Real.exp (-(ix key 1) * p.k * p.h) * x ^ ix key 2 * p.θ ^ ix key 3 * p.σ ^ ix key 4) *
    eIE p t0 ^ (ix key 0).toNat

theorem expVn_spec (p : Par) (t0 : ℝ) (l : ℕ) :
    ∃ P, expVn l = .ok P ∧ P.Keys (NN 5) ∧ ∀ x, ev (vnVal p t0 x) P = vNext p t0 x ^ l := by
  have hm := mapM_ok (fun is : List ℕ => (do
    let c ← comb l [(nat is 0 : ℤ), (nat is 1 : ℤ), (nat is 2 : ℤ), (nat is 3 : ℤ)]
    pure ([(nat is 3 : ℤ), (nat is 0 : ℤ) + nat is 2, (nat is 0 : ℤ), (nat is 1 : ℤ) + nat is 2,
      (nat is 3 : ℤ)], (c : ℚ) * (-1) ^ nat is 2) : Except PyErr (List ℤ × ℚ)))
    (fun is => ([(nat is 3 : ℤ), (nat is 0 : ℤ) + nat is 2, (nat is 0 : ℤ),
      (nat is 1 : ℤ) + nat is 2, (nat is 3 : ℤ)], ((combN l is : ℤ) : ℚ) * (-1) ^ nat is 2))
    (combsDown 3 l) (by
      intro is his
      obtain ⟨h1, h2⟩ := combs_mem _ _ _ his
      obtain ⟨i1, i2, i3, i4, rfl⟩ := len4 is h1
      have hc : comb l [(i1 : ℤ), (i2 : ℤ), (i3 : ℤ), (i4 : ℤ)] = .ok (combN l [i1, i2, i3, i4]) :=
        comb_eq [i1, i2, i3, i4] l (le_of_eq h2)
      simp only [nat, List.getD_cons_zero, List.getD_cons_succ]
      rw [hc]
      rfl)
  refine ⟨_, by rw [expVn, hm]; rfl, ?_, fun x => ?_⟩
  · apply ofTerms_Keys
    intro y hy
    obtain ⟨is, his, rfl⟩ := List.mem_map.1 hy
    refine ⟨rfl, fun m => ?_⟩
    rcases m with _ | _ | _ | _ | _ | m <;> simp [ix] <;> omega
  · rw [ev_ofTerms, List.map_map]
    have hs : vNext p t0 x = [C (Real.exp (-(p.k * p.h)) * x), C p.θ,
        C (-(Real.exp (-(p.k * p.h)) * p.θ)), C p.σ * eIE p t0].sum := by
      simp only [vNext, eIE, List.sum_cons, List.sum_nil, map_add, map_mul, map_sub, map_one,
        map_neg]
      ring
    rw [hs, ← combs_multinomial 3 _ rfl]
    congr 1
    apply List.map_congr_left
    intro is his
    obtain ⟨h1, h2⟩ := combs_mem _ _ _ his
    obtain ⟨i1, i2, i3, i4, rfl⟩ := len4 is h1
    simp only [Function.comp, nat, List.getD_cons_zero, List.getD_cons_succ, rat_smul_rv, vnVal,
      ix_cons_zero, ix_cons_succ, Int.toNat_natCast]
    rw [show (i1 : ℤ) + i3 = ((i1 + i3 : ℕ) : ℤ) by push_cast; rfl,
      show (i2 : ℤ) + i3 = ((i2 + i3 : ℕ) : ℤ) by push_cast; rfl, exp_nat]
    simp only [zpow_natCast, List.zipWith_cons_cons, List.zipWith_nil_right, List.prod_cons,
        List.prod_nil, neg_pow (Real.exp (-(p.k * p.h)) * p.θ), mul_pow, pow_add]
    push_cast
    simp only [map_mul, map_pow, map_neg, map_one, map_natCast]
    ring

/-- the Poly `ve_IEII` as a polynomial in the variance at the start of the interval -/
noncomputable def vePol (p : Par) (key : List ℤ) : Polynomial ℝ :=
  Polynomial.C (Real.exp (-(ix key 0) * p.k * p.h) * p.h ^ ix key 1 * p.k ^ (-ix key 3) *
    p.θ ^ ix key 4 * p.σ ^ ix key 5) * Polynomial.X ^ (ix key 2).toNat

theorem ev_map {K M N : Type} [AddCommMonoid M] [Module ℚ M] [AddCommMonoid N]
    [Module ℚ N] (φ : M →+ N) (hφ : ∀ (c : ℚ) m, φ (c • m) = c • φ m) (f : K → M) (P : Poly K) :
    φ (ev f P) = ev (fun k => φ (f k)) P := by
  unfold ev
  generalize P.items = l
  induction l with
  | nil => simp
  | cons a t ih => simp only [List.map_cons, List.sum_cons, map_add, ih, hφ]

theorem eval_vePol (p : Par) (P : IPoly) (hP : P.Keys VK) (z : ℝ) :
    (ev (vePol p) P).eval z = ev (veVal p z) P := by
  have := ev_map (Polynomial.evalRingHom z).toAddMonoidHom (fun c m => by
    simp [rat_smul_pol, Rat.smul_def]) (vePol p) P
  refine this.trans ?_
  apply ev_congr
  intro e he
  obtain ⟨_, _, h2, _⟩ := hP e he
  obtain ⟨n, hn⟩ := Int.eq_ofNat_of_zero_le h2
  simp [vePol, veVal, hn]
  ring

/-- value of a key of `ve_IEII_vn` -/
noncomputable def eIvVal (p : Par) (t0 x : ℝ) (key : List ℤ) : Rv :=
  C (Real.exp (-(ix key 1) * p.k * p.h) * p.h ^ ix key 2 * x ^ ix key 3 * p.k ^ (-ix key 4) *
    p.θ ^ ix key 5 * p.σ ^ ix key 6) * eIE p t0 ^ (ix key 0).toNat

def EK (k : List ℤ) : Prop :=
  k.length = 7 ∧ 0 ≤ ix k 0 ∧ 0 ≤ ix k 2 ∧ 0 ≤ ix k 3 ∧ 0 ≤ ix k 5 ∧ 0 ≤ ix k 6

theorem aeval_vePol (p : Par) (t0 x : ℝ) (P : IPoly) :
    Polynomial.aeval (vNext p t0 x) (ev (vePol p) P) =
      ev (fun key => C (Real.exp (-(ix key 0) * p.k * p.h) * p.h ^ ix key 1 * p.k ^ (-ix key 3) *
        p.θ ^ ix key 4 * p.σ ^ ix key 5) * vNext p t0 x ^ (ix key 2).toNat) P := by
  have := ev_map (Polynomial.aeval (vNext p t0 x)).toRingHom.toAddMonoidHom (fun c m => by
    simp [rat_smul_pol, rat_smul_rv, MvPolynomial.algebraMap_eq]) (vePol p) P
  refine this.trans ?_
  apply ev_congr
  intro e he
  simp [vePol, MvPolynomial.algebraMap_eq]

theorem veIEIIvn_spec (p : Par) (hk : p.k ≠ 0) (hh : 0 ≤ p.h) (t0 : ℝ) (n2 n3 n4 n5 : ℕ) :
    ∃ (P : IPoly) (Q : Polynomial ℝ), veIEIIvn n2 n3 n4 n5 = .ok P ∧ P.Keys EK ∧
      (∀ x, ev (eIvVal p t0 x) P = Polynomial.aeval (vNext p t0 x) Q) ∧
      (∀ z M, ItoRec ⟨p.k, p.θ, p.σ, z, t0 + p.h⟩ M → Q.eval z =
        z ^ n2 * Real.exp (-(p.k * (t0 + p.h + p.h))) ^ n3 * M n3 n4 n5 (t0 + p.h + p.h)) := by
  obtain ⟨V, e, pk, _, pkeys, pv⟩ := ve_spec p hk hh (t0 + p.h) n2 n3 n4 n5
  obtain ⟨r, er, _, _, rkeys, rv⟩ := subst_spec (ι := ℝ) kfEIv (fun e => do
    let polv ← expVnPy (ix e.1 2)
    pure (polv.items.map fun m =>
      ([ix m.1 0, ix e.1 0 + ix m.1 1, ix e.1 1, ix m.1 2, ix e.1 3, ix e.1 4 + ix m.1 3,
        ix e.1 5 + ix m.1 4], e.2 * m.2))) V EK (fun x => eIvVal p t0 x)
    (fun x key => C (Real.exp (-(ix key 0) * p.k * p.h) * p.h ^ ix key 1 * p.k ^ (-ix key 3) *
        p.θ ^ ix key 4 * p.σ ^ ix key 5) * vNext p t0 x ^ (ix key 2).toNat) (by
      intro e he
      obtain ⟨h0, h1, h2, h4, h5⟩ := pkeys e he
      obtain ⟨P, eP, Pk, Pv⟩ := expVn_spec p t0 (ix e.1 2).toNat
      have hm : expVnPy (ix e.1 2) = .ok P := by
        rw [expVnPy, if_neg (by omega), eP]
      refine ⟨_, by rw [hm]; rfl, ?_, fun x => ?_⟩
      · intro y hy
        obtain ⟨m, hm, rfl⟩ := List.mem_map.1 hy
        obtain ⟨_, hmk⟩ := Pk m hm
        have := hmk 0; have := hmk 2; have := hmk 3; have := hmk 4
        simp [EK, ix_cons_zero, ix_cons_succ]
        omega
      · rw [← Pv x, List.map_map, rat_smul_rv]
        unfold ev
        rw [← List.sum_map_mul_left, ← List.sum_map_mul_left]
        congr 1
        apply List.map_congr_left
        intro m hm
        obtain ⟨_, hmk⟩ := Pk m hm
        simp only [Function.comp, rat_smul_rv, eIvVal, vnVal, ix_cons_zero, ix_cons_succ]
        rw [zpow_add_nn p.θ _ _ ‹_› (hmk 3), zpow_add_nn p.σ _ _ ‹_› (hmk 4)]
        simp only [Int.cast_add, neg_add, add_mul, Real.exp_add]
        push_cast
        simp only [map_mul]
        ring)
  refine ⟨r, ev (vePol p) V, by rw [veIEIIvn, e, ok_bind]; exact er, rkeys, fun x => ?_, ?_⟩
  · rw [rv, aeval_vePol]
  · intro z M hM
    rw [eval_vePol p V pkeys, pv z M hM]

theorem innerPoly_spec (p : Par) (hk : p.k ≠ 0) (hh : 0 ≤ p.h) (t0 : ℝ) (E : ℝ → Rv →ₗ[ℝ] ℝ)
    (m2 m3 m4 m5 : ℕ) (P : IPoly) (hP : P.Keys EK) :
    ∃ r, innerPoly m2 m3 m4 m5 P = .ok r ∧ r.Keys VK ∧
      ∀ x : {x : ℝ // CondLaw p t0 x (E x)}, ev (veVal p x) r =
        E x (C ((x : ℝ) ^ m2) * eIE p t0 ^ m3 * X 1 ^ m4 * X 2 ^ m5 * ev (eIvVal p t0 x) P) := by
  obtain ⟨r, er, _, _, rkeys, rv⟩ := subst_spec (ι := {x : ℝ // CondLaw p t0 x (E x)}) kfVe
    (fun e => do
    let poln ← veIEII (m2 + ix e.1 3).toNat (m3 + ix e.1 0).toNat m4 m5
    pure (poln.items.map fun m =>
      ([ix e.1 1 + ix m.1 0, ix e.1 2 + ix m.1 1, ix m.1 2, ix e.1 4 + ix m.1 3,
        ix e.1 5 + ix m.1 4, ix e.1 6 + ix m.1 5], e.2 * m.2))) P VK (fun x => veVal p x)
    (fun x key => E x (C ((x : ℝ) ^ m2) * eIE p t0 ^ m3 * X 1 ^ m4 * X 2 ^ m5 *
      eIvVal p t0 x key)) (by
      intro e he
      obtain ⟨h0, h1, h2, h4, h5, h6⟩ := hP e he
      obtain ⟨V, eV, _, _, Vkeys, Vv⟩ := ve_spec p hk hh t0 (m2 + ix e.1 3).toNat
        (m3 + ix e.1 0).toNat m4 m5
      refine ⟨_, by rw [eV]; rfl, ?_, fun x => ?_⟩
      · intro y hy
        obtain ⟨m, hm, rfl⟩ := List.mem_map.1 hy
        obtain ⟨_, _, _, _, _⟩ := Vkeys m hm
        simp [VK, ix_cons_zero, ix_cons_succ]
        omega
      · obtain ⟨M, hM, hE⟩ := x.2
        have hv := Vv x M hM
        rw [← hE] at hv
        have h3 : E x (C ((x : ℝ) ^ m2) * eIE p t0 ^ m3 * X 1 ^ m4 * X 2 ^ m5 *
            eIvVal p t0 x e.1) = (Real.exp (-(ix e.1 1) * p.k * p.h) * p.h ^ ix e.1 2 *
            p.k ^ (-ix e.1 4) * p.θ ^ ix e.1 5 * p.σ ^ ix e.1 6) * ev (veVal p x) V := by
          rw [hv, ← mul_assoc, ← E_C_mul]
          congr 1
          obtain ⟨a, ha⟩ := Int.eq_ofNat_of_zero_le h4
          obtain ⟨b, hb⟩ := Int.eq_ofNat_of_zero_le h1
          rw [eIvVal, ha, hb, show ((m2 : ℤ) + a).toNat = m2 + a by omega,
            show ((m3 : ℤ) + b).toNat = m3 + b by omega, Int.toNat_natCast, eIE]
          simp only [zpow_natCast, mul_pow, pow_add, map_mul, map_pow]
          ring
        rw [h3, List.map_map]
        unfold ev
        rw [Rat.smul_def, ← List.sum_map_mul_left, ← List.sum_map_mul_left]
        congr 1
        apply List.map_congr_left
        intro m hm
        obtain ⟨_, _, _, _, _⟩ := Vkeys m hm
        simp only [Function.comp, Rat.smul_def, veVal, ix_cons_zero, ix_cons_succ]
        rw [zpow_add_nn p.θ _ _ ‹_› ‹_›, zpow_add_nn p.σ _ _ ‹_› ‹_›, zpow_add_nn p.h _ _ ‹_› ‹_›]
        simp only [Int.cast_add, neg_add, add_mul, Real.exp_add, zpow_add₀ hk]
        push_cast
        ring)
  refine ⟨r, er, rkeys, fun x => ?_⟩
  rw [rv]
  have := ev_map (((E x).comp (LinearMap.mulLeft ℝ (C ((x : ℝ) ^ m2) * eIE p t0 ^ m3 * X 1 ^ m4 *
    X 2 ^ m5)))).toAddMonoidHom (fun c m => by
      rw [rat_smul_rv, Rat.smul_def]
      simp only [LinearMap.toAddMonoidHom_coe, LinearMap.comp_apply, LinearMap.mulLeft_apply]
      rw [← E_C_mul]
      congr 1
      ring) (eIvVal p t0 x) P
  exact this.symm

/-- the product over a combination with an extra factor -/
theorem E_parts_mul (p : Par) (t0 x : ℝ) (E : Rv →ₗ[ℝ] ℝ) (N : ℕ) (F : Rv) (m1 m2 m3 m4 m5 : ℕ) :
    E ((N : Rv) * (List.zipWith (· ^ ·) (parts p t0 x) [m1, m2, m3, m4, m5]).prod * F) =
      N * (E (C (x ^ m2) * eIE p t0 ^ m3 * X 1 ^ m4 * X 2 ^ m5 * F) *
        (const p ^ m1 * (-beta p) ^ m2 * (p.σ / (2 * p.k)) ^ m3 *
          (p.ρ - p.σ / (2 * p.k)) ^ m4 * Real.sqrt (1 - p.ρ ^ 2) ^ m5)) := by
  rw [mul_comm (E _), ← mul_assoc, ← E_C_mul]
  congr 1
  simp only [parts, List.zipWith_cons_cons, List.zipWith_nil_right, List.prod_cons, List.prod_nil,
    mul_pow, map_mul, map_pow, map_natCast, eIE]
  ring

theorem inner_spec (p : Par) (hk : p.k ≠ 0) (hh : 0 ≤ p.h) (hρ : 0 ≤ 1 - p.ρ ^ 2) (t0 : ℝ)
    (E : ℝ → Rv →ₗ[ℝ] ℝ) (l1 : ℕ) (P : IPoly) (hP : P.Keys EK) :
    ∃ r, mergeLoop (fun ms => momentInnerComb l1 (nat ms 0) (nat ms 1) (nat ms 2) (nat ms 3)
      (nat ms 4) P) (combsDown 4 l1) ⟨kfMv, []⟩ = .ok r ∧ r.Keys MK ∧
      ∀ x : {x : ℝ // CondLaw p t0 x (E x)}, ev (mvVal p x) r =
        E x (ret p t0 x ^ l1 * ev (eIvVal p t0 x) P) := by
  obtain ⟨q, e, _, _, _, k, v⟩ := mergeLoop_spec (ι := {x : ℝ // CondLaw p t0 x (E x)})
    (fun ms => momentInnerComb l1 (nat ms 0) (nat ms 1) (nat ms 2) (nat ms 3)
      (nat ms 4) P) (combsDown 4 l1) ⟨kfMv, []⟩ MK (fun x => mvVal p x)
    (fun x ms => E x ((combN l1 ms : Rv) * (List.zipWith (· ^ ·) (parts p t0 x) ms).prod *
      ev (eIvVal p t0 x) P))
    (fun x hx => by simp at hx) (by
      intro ms hms
      obtain ⟨h1, h2⟩ := combs_mem _ _ _ hms
      obtain ⟨m1, m2, m3, m4, m5, rfl⟩ := len5 ms h1
      simp only [List.sum_cons, List.sum_nil] at h2
      obtain ⟨V, eV, Vkeys, Vv⟩ := innerPoly_spec p hk hh t0 E m2 m3 m4 m5 P hP
      obtain ⟨q, eq, qk, qkeys, qv⟩ := timesB_spec (ι := {x : ℝ // CondLaw p t0 x (E x)}) p hk hρ
        (fun x => x) l1 m1 m2 m3 m4 m5 (by omega) V Vkeys
      refine ⟨q, ?_, qk, qkeys, fun x => ?_⟩
      · simp only [nat, List.getD_cons_zero, List.getD_cons_succ]
        rw [momentInnerComb, eV, ok_bind, eq]
      · rw [qv, E_parts_mul, Vv])
  refine ⟨q, e, k, fun x => ?_⟩
  rw [v x, sum_E, List.sum_map_mul_right, combs_multinomial 4 _ rfl, parts_sum p hk]
  simp [ev]

theorem outer_spec (p : Par) (hk : p.k ≠ 0) (hh : 0 ≤ p.h) (hρ : 0 ≤ 1 - p.ρ ^ 2) (t0 : ℝ)
    (E : ℝ → Rv →ₗ[ℝ] ℝ) (l1 l2 n1 n2 n3 n4 n5 : ℕ) (hl : n1 + n2 + n3 + n4 + n5 = l2) :
    ∃ (r : IPoly) (Q : Polynomial ℝ), momentOuterComb l2 n1 n2 n3 n4 n5 l1 = .ok r ∧
      r.keyfor = kfMv ∧ r.Keys MK ∧
      (∀ x : {x : ℝ // CondLaw p t0 x (E x)}, ev (mvVal p x) r =
        E x (ret p t0 x ^ l1 * Polynomial.aeval (vNext p t0 x) Q)) ∧
      ∀ z E', CondLaw p (t0 + p.h) z E' → Q.eval z =
        E' ((combN l2 [n1, n2, n3, n4, n5] : Rv) *
          (List.zipWith (· ^ ·) (parts p (t0 + p.h) z) [n1, n2, n3, n4, n5]).prod) := by
  have hc : comb l2 [(n1 : ℤ), (n2 : ℤ), (n3 : ℤ), (n4 : ℤ), (n5 : ℤ)] =
      .ok (combN l2 [n1, n2, n3, n4, n5]) :=
    comb_eq [n1, n2, n3, n4, n5] l2 (by simp; omega)
  obtain ⟨b, eb, bkeys, bv⟩ := bN_spec p hk hρ n1 n2 n3 n4 n5
  obtain ⟨P, Q, eP, Pkeys, Pv, Qv⟩ := veIEIIvn_spec p hk hh t0 n2 n3 n4 n5
  obtain ⟨s, es, skeys, sv⟩ := inner_spec p hk hh hρ t0 E l1 P Pkeys
  obtain ⟨r, er, rk, _, _, rkeys, rv⟩ := mulPoly_on (ι := {x : ℝ // CondLaw p t0 x (E x)}) s b
    [0, 1, 2, 3, 4, 5, 6, 7, 8] [0, 1, -1, 2, 3, 4, 5, 6, 7] kfMv (by simp) MK (NN 8) MK
    (fun i => mvVal p i) (fun i => mvVal p i) (fun _ => bmVal p) skeys bkeys
    (by
      intro k1 k2 h1 h2
      have := h2.2 1; have := h2.2 3; have := h2.2 4; have := h2.2 5; have := h2.2 6
      have := h2.2 7
      obtain ⟨_, _, _, _, _, _, _, _⟩ := h1
      simp [MK, ix_cons_zero, ix_cons_succ]
      omega)
    (by
      intro x k1 k2 h1 h2
      have := h2.2 1; have := h2.2 3; have := h2.2 4; have := h2.2 5; have := h2.2 6
      have := h2.2 7
      obtain ⟨_, _, _, _, _, _, _, _⟩ := h1
      simp only [mvVal, bmVal, List.zipWith_cons_cons, ix_cons_zero, ix_cons_succ, kv_zero,
        kv_one, kv_ofNat, kv_neg_one, add_zero, zero_add, Int.cast_add, neg_add, add_mul,
        Real.exp_add, zpow_add₀ hk]
      rw [zpow_add_nn p.θ _ _ ‹_› ‹_›, zpow_add_nn p.σ _ _ ‹_› ‹_›, zpow_add_nn p.h _ _ ‹_› ‹_›,
        zpow_add_nn p.μ _ _ ‹_› ‹_›, zpow_add_nn p.ρ _ _ ‹_› ‹_›, sq_add p.ρ hρ _ _ ‹_› ‹_›]
      ring)
  obtain ⟨mk, _, _, mkeys⟩ := rmul_spec (combN l2 [n1, n2, n3, n4, n5] : ℤ) r MK rkeys
  refine ⟨_, Polynomial.C (combN l2 [n1, n2, n3, n4, n5] * (const p ^ n1 * (-beta p) ^ n2 *
    (p.σ / (2 * p.k)) ^ n3 * (p.ρ - p.σ / (2 * p.k)) ^ n4 * Real.sqrt (1 - p.ρ ^ 2) ^ n5)) * Q, ?_,
    mk.trans rk, mkeys, fun x => ?_, ?_⟩
  · rw [momentOuterComb, hc, ok_bind, eb, ok_bind, eP, ok_bind, es, ok_bind, er]; rfl
  · rw [ev_rmul, rv, bv, sv, Pv, Rat.smul_def, map_mul (Polynomial.aeval (vNext p t0 x)),
      Polynomial.aeval_C, MvPolynomial.algebraMap_eq, mul_left_comm (ret p t0 x ^ l1), E_C_mul]
    push_cast
    ring
  · rintro z E' ⟨M, hM, hE⟩
    rw [parts, E_parts, hE, Polynomial.eval_mul, Polynomial.eval_C, Qv z M hM, mul_pow (-beta p),
      mul_pow (p.σ / (2 * p.k))]
    ring

theorem polyYY_spec (p : Par) (hk : p.k ≠ 0) (hh : 0 ≤ p.h) (hρ : 0 ≤ 1 - p.ρ ^ 2) (t0 : ℝ)
    (E : ℝ → Rv →ₗ[ℝ] ℝ) (l1 l2 : ℕ) :
    ∃ (r : IPoly) (Q : Polynomial ℝ), mergeLoop (fun ns => momentOuterComb l2 (nat ns 0) (nat ns 1)
      (nat ns 2) (nat ns 3) (nat ns 4) l1) (combsDown 4 l2) ⟨kfMv, []⟩ = .ok r ∧ r.Keys MK ∧
      (∀ x : {x : ℝ // CondLaw p t0 x (E x)}, ev (mvVal p x) r =
        E x (ret p t0 x ^ l1 * Polynomial.aeval (vNext p t0 x) Q)) ∧
      ∀ z E', CondLaw p (t0 + p.h) z E' → Q.eval z = E' (ret p (t0 + p.h) z ^ l2) := by
  have hex : ∀ ns : List ℕ, ∃ Q : Polynomial ℝ, ns ∈ combsDown 4 l2 →
      ∃ r : IPoly, momentOuterComb l2 (nat ns 0) (nat ns 1) (nat ns 2) (nat ns 3) (nat ns 4) l1 =
        .ok r ∧ r.keyfor = kfMv ∧ r.Keys MK ∧
      (∀ x : {x : ℝ // CondLaw p t0 x (E x)}, ev (mvVal p x) r =
        E x (ret p t0 x ^ l1 * Polynomial.aeval (vNext p t0 x) Q)) ∧
      ∀ z E', CondLaw p (t0 + p.h) z E' → Q.eval z =
        E' ((combN l2 ns : Rv) *
          (List.zipWith (· ^ ·) (parts p (t0 + p.h) z) ns).prod) := by
    intro ns
    by_cases hns : ns ∈ combsDown 4 l2
    · obtain ⟨h1, h2⟩ := combs_mem _ _ _ hns
      obtain ⟨n1, n2, n3, n4, n5, rfl⟩ := len5 ns h1
      simp only [List.sum_cons, List.sum_nil] at h2
      obtain ⟨r, Q, h⟩ := outer_spec p hk hh hρ t0 E l1 l2 n1 n2 n3 n4 n5 (by omega)
      exact ⟨Q, fun _ => ⟨r, h⟩⟩
    · exact ⟨0, fun h => absurd h hns⟩
  choose Q hQ using hex
  obtain ⟨r, e, _, _, _, k, v⟩ := mergeLoop_spec (ι := {x : ℝ // CondLaw p t0 x (E x)})
    (fun ns => momentOuterComb l2 (nat ns 0) (nat ns 1)
      (nat ns 2) (nat ns 3) (nat ns 4) l1) (combsDown 4 l2) ⟨kfMv, []⟩ MK (fun x => mvVal p x)
    (fun x ns => E x (ret p t0 x ^ l1 * Polynomial.aeval (vNext p t0 x) (Q ns)))
    (fun x hx => by simp at hx) (by
      intro ns hns
      obtain ⟨q, h1, h2, h3, h4, _⟩ := hQ ns hns
      exact ⟨q, h1, h2, h3, h4⟩)
  refine ⟨r, ((combsDown 4 l2).map Q).sum, e, k, fun x => ?_, fun z E' hE' => ?_⟩
  · rw [v x, sum_E, List.sum_map_mul_left, map_list_sum, List.map_map]
    simp [ev, Function.comp_def]
  · have := map_list_sum (Polynomial.evalRingHom z) ((combsDown 4 l2).map Q)
    rw [Polynomial.coe_evalRingHom] at this
    rw [this, List.map_map, List.map_congr_left (g := fun ns => E' ((combN l2 ns : Rv) *
      (List.zipWith (· ^ ·) (parts p (t0 + p.h) z) ns).prod)) (fun ns hns => by
        obtain ⟨q, _, _, _, _, h5⟩ := hQ ns hns
        exact h5 z E' hE'), sum_E, combs_multinomial 4 _ rfl, parts_sum p hk]

theorem momentYY_spec (p : Par) (hk : p.k ≠ 0) (hh : 0 ≤ p.h) (hρ : 0 ≤ 1 - p.ρ ^ 2) (t0 : ℝ)
    (E : ℝ → Rv →ₗ[ℝ] ℝ) (γ : Measure ℝ) (hγ : StatLaw p γ)
    (hE : ∀ᵐ x ∂γ, CondLaw p t0 x (E x)) (l1 l2 : ℕ) (E' : ℝ → Rv →ₗ[ℝ] ℝ) (S : Set ℝ)
    (hS : S.Infinite) (hE' : ∀ z ∈ S, CondLaw p (t0 + p.h) z (E' z)) (Q : Polynomial ℝ)
    (hQ : ∀ z ∈ S, Q.eval z = E' z (ret p (t0 + p.h) z ^ l2)) :
    ∃ r, momentYY l1 l2 = .ok r ∧ r.keyfor = kfM ∧ r.WF ∧ r.NoZero ∧ r.Keys M8 ∧
      ev (bmVal p) r =
        expect γ E fun x => ret p t0 x ^ l1 * Polynomial.aeval (vNext p t0 x) Q := by
  obtain ⟨q, Q', e, qk, qv, qQ⟩ := polyYY_spec p hk hh hρ t0 E l1 l2
  have hQQ : Q = Q' := by
    apply Polynomial.eq_of_infinite_eval_eq
    apply hS.mono
    intro z hz
    simp only [Set.mem_setOf_eq]
    rw [hQ z hz, qQ z _ (hE' z hz)]
  subst hQQ
  obtain ⟨r, er, rk, rw', rkeys, rv⟩ := subV_spec p hk γ hγ q qk
  refine ⟨r.removeZero, ?_, by simp [rk], removeZero_WF _ rw', removeZero_NoZero _,
    removeZero_Keys _ _ rkeys, ?_⟩
  · rw [momentYY, e, ok_bind, er]; rfl
  · rw [ev_removeZero, rv, expect]
    exact integral_congr_ae (hE.mono fun x hx => qv ⟨x, hx⟩)

theorem M8_add : AddClosed M8 := by
  intro k1 k2 h1 h2
  obtain ⟨a0, a1, a3, a4, a5, a6, a7⟩ := h1
  obtain ⟨b0, b1, b3, b4, b5, b6, b7⟩ := h2
  have hl : k1.length = k2.length := by omega
  simp only [M8, List.length_zipWith, ix_zipWith _ _ hl]
  omega

theorem bmVal_mulOn (p : Par) (hk : p.k ≠ 0) (hρ : 0 ≤ 1 - p.ρ ^ 2) : MulOn M8 (bmVal p) := by
  intro k1 k2 h1 h2
  obtain ⟨a0, a1, a3, a4, a5, a6, a7⟩ := h1
  obtain ⟨b0, b1, b3, b4, b5, b6, b7⟩ := h2
  have hl : k1.length = k2.length := by omega
  simp only [bmVal, ix_zipWith _ _ hl, Int.cast_add, neg_add, add_mul, Real.exp_add, zpow_add₀ hk]
  rw [zpow_add_nn p.θ _ _ ‹_› ‹_›, zpow_add_nn p.σ _ _ ‹_› ‹_›, zpow_add_nn p.h _ _ ‹_› ‹_›,
    zpow_add_nn p.μ _ _ ‹_› ‹_›, zpow_add_nn p.ρ _ _ ‹_› ‹_›, sq_add p.ρ hρ _ _ ‹_› ‹_›]
  ring

theorem covYY_spec (p : Par) (hk : p.k ≠ 0) (hh : 0 ≤ p.h) (hρ : 0 ≤ 1 - p.ρ ^ 2) (t0 : ℝ)
    (E : ℝ → Rv →ₗ[ℝ] ℝ) (γ : Measure ℝ) (hγ : StatLaw p γ)
    (hE : ∀ᵐ x ∂γ, CondLaw p t0 x (E x)) (l1 l2 : ℕ) (E' : ℝ → Rv →ₗ[ℝ] ℝ) (S : Set ℝ)
    (hS : S.Infinite) (hE' : ∀ z ∈ S, CondLaw p (t0 + p.h) z (E' z)) (Q : Polynomial ℝ)
    (hQ : ∀ z ∈ S, Q.eval z = E' z (ret p (t0 + p.h) z ^ l2)) :
    ∃ r, covYY l1 l2 = .ok r ∧ r.keyfor = kfM ∧ r.WF ∧ r.NoZero ∧ r.Keys M8 ∧
      ev (bmVal p) r =
        (expect γ E fun x => ret p t0 x ^ l1 * Polynomial.aeval (vNext p t0 x) Q) -
          (expect γ E fun x => ret p t0 x ^ l1) * (expect γ E fun x => ret p t0 x ^ l2) := by
  obtain ⟨a, ea, ak, aw, an, akeys, av⟩ :=
    momentYY_spec p hk hh hρ t0 E γ hγ hE l1 l2 E' S hS hE' Q hQ
  obtain ⟨b, eb, bk, _, _, bkeys, bv⟩ := momentY_spec p hk hh hρ t0 E γ hγ hE l1
  obtain ⟨c, ec, ck, _, _, ckeys, cv⟩ := momentY_spec p hk hh hρ t0 E γ hγ hE l2
  obtain ⟨d, ed, dk, dw, _, dkeys, dv⟩ := mul_on b c (bk.trans ck.symm) 8 M8 M8_add
    (fun k h => h.1) bkeys ckeys
  obtain ⟨r, er, rk, rw', _, rkeys, rv⟩ := sub_spec a d (ak.trans (dk.trans bk).symm) dw
  refine ⟨r.removeZero, ?_, by simp [rk, ak], removeZero_WF _ (rw' aw), removeZero_NoZero _,
    removeZero_Keys _ _ (rkeys _ akeys dkeys), ?_⟩
  · rw [covYY, ea, ok_bind, eb, ok_bind, ec, ok_bind, ed, ok_bind, er]; rfl
  · rw [ev_removeZero, rv, av, dv _ (bmVal_mulOn p hk hρ), bv, cv]

end Ajd.Fsv1
