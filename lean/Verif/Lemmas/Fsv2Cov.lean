import Verif.Lemmas.Fsv2Mom
import Verif.Lemmas.Fsv1Cov
import Mathlib.Algebra.MvPolynomial.Funext

/-! `mdl_2fsv/cov.py`. -/

namespace Ajd.Fsv2
open Poly Ito Utils MvPolynomial MeasureTheory Itos

theorem rat_smul_mv {n : ℕ} (c : ℚ) (f : MvPolynomial (Fin n) ℝ) : c • f = C (c : ℝ) * f := by
  rw [C_mul']
  exact (Rat.cast_smul_eq_qsmul ℝ c f).symm

theorem mapM_terms {ι L K M : Type} [AddCommMonoid M] [Module ℚ M] (items : List (L × ℚ))
    (f : L × ℚ → Except PyErr (K × ℚ)) (P : K → Prop) (φ : ι → K → M) (w : ι → L × ℚ → M)
    (h : ∀ m ∈ items, ∃ y, f m = .ok y ∧ P y.1 ∧ ∀ i, y.2 • φ i y.1 = w i m) :
    ∃ ts, items.mapM f = .ok ts ∧ (∀ y ∈ ts, P y.1) ∧
      ∀ i, (ts.map fun y => y.2 • φ i y.1).sum = (items.map (w i)).sum := by
  obtain ⟨ts, e, hrel⟩ := mapM_ok_rel f (fun m y => P y.1 ∧ ∀ i, y.2 • φ i y.1 = w i m) items h
  refine ⟨ts, e, ?_, fun i => ?_⟩
  · intro y hy
    clear e h
    induction hrel with
    | nil => simp at hy
    | cons hd _ ih =>
      rcases List.mem_cons.1 hy with rfl | hy
      · exact hd.1
      · exact ih hy
  · clear e h
    induction hrel with
    | nil => rfl
    | cons hd _ ih => rw [List.map_cons, List.sum_cons, List.map_cons, List.sum_cons, ih, hd.2 i]

theorem mulT0s_spec (p : Par) (b : List Den) : ∀ a : List Den, a ≠ [] → (∀ s ∈ a, DOK s) →
    (∀ s ∈ b, DOK s) → ∃ l, mulT0s a b = .ok l ∧ l ≠ [] ∧ (∀ s ∈ l, DOK s) ∧
      (l.map (dn p)).prod = (a.map (dn p)).prod * (b.map (dn p)).prod := by
  induction b with
  | nil => exact fun a h1 h2 _ => ⟨a, rfl, h1, h2, by simp⟩
  | cons t b ih =>
    intro a h1 h2 h3
    obtain ⟨l, e, a1, a2, a3⟩ := tMul_spec p t a (h3 t (by simp)) h1 h2
    obtain ⟨l', e', b1, b2, b3⟩ := ih l a1 a2 (fun s hs => h3 s (by simp [hs]))
    refine ⟨l', ?_, b1, b2, ?_⟩
    · rw [mulT0s, List.foldlM_cons, e, ok_bind]
      exact e'
    · rw [b3, a3, List.map_cons, List.prod_cons]; ring

/-- `e^{-k1 nh} IE_{1,n}` -/
noncomputable def eI1 (p : Par) (t0 : ℝ) : Rv := C (Real.exp (-(p.k1 * (t0 + p.h)))) * X 0
/-- `e^{-k2 nh} IE_{2,n}` -/
noncomputable def eI2 (p : Par) (t0 : ℝ) : Rv := C (Real.exp (-(p.k2 * (t0 + p.h)))) * X 2

/-- value of a key of `exp_vn` -/
noncomputable def vnVal (k θ σ h x : ℝ) (eI : Rv) (key : List ℤ) : Rv :=
  C (Real.exp (-(ix key 1) * k * h) * x ^ ix key 2 * θ ^ ix key 3 * σ ^ ix key 4) * eI ^ (ix key 0).toNat

theorem expVn_spec (p : Par) (t0 : ℝ) (l : ℕ) :
    ∃ P, Fsv1.expVn l = .ok P ∧ P.Keys (NN 5) ∧
      (∀ x, ev (vnVal p.k1 p.θ1 p.σ1 p.h x (eI1 p t0)) P = vNext1 p t0 x ^ l) ∧
      ∀ x, ev (vnVal p.k2 p.θ2 p.σ2 p.h x (eI2 p t0)) P = vNext2 p t0 x ^ l := by
  obtain ⟨P, e, k, v1⟩ := Fsv1.expVn_spec ⟨p.k1, p.θ1, p.σ1, 0, 0, p.h⟩ t0 l
  obtain ⟨P', e', _, v2⟩ := Fsv1.expVn_spec ⟨p.k2, p.θ2, p.σ2, 0, 0, p.h⟩ t0 l
  rw [e] at e'
  cases e'
  refine ⟨P, e, k, fun x => ?_, fun x => ?_⟩
  · have h := congrArg (aeval (R := ℝ) (fun _ : Fin 3 => (X 0 : Rv))) (v1 x)
    have := Fsv1.ev_map (aeval (R := ℝ) (fun _ : Fin 3 => (X 0 : Rv))).toRingHom.toAddMonoidHom (fun c m => by
      simp [rat_smul_mv, MvPolynomial.algebraMap_eq]) (Fsv1.vnVal ⟨p.k1, p.θ1, p.σ1, 0, 0, p.h⟩ t0 x) P
    have hv : aeval (R := ℝ) (fun _ : Fin 3 => (X 0 : Rv)) (ev (Fsv1.vnVal ⟨p.k1, p.θ1, p.σ1, 0, 0, p.h⟩ t0 x) P) =
        ev (vnVal p.k1 p.θ1 p.σ1 p.h x (eI1 p t0)) P := by
      refine this.trans ?_
      apply ev_congr
      intro z _
      simp [Fsv1.vnVal, vnVal, Fsv1.eIE, eI1, MvPolynomial.algebraMap_eq]
    rw [← hv, h, map_pow]
    simp [Fsv1.vNext, vNext1, MvPolynomial.algebraMap_eq]
  · have h := congrArg (aeval (R := ℝ) (fun _ : Fin 3 => (X 2 : Rv))) (v2 x)
    have := Fsv1.ev_map (aeval (R := ℝ) (fun _ : Fin 3 => (X 2 : Rv))).toRingHom.toAddMonoidHom (fun c m => by
      simp [rat_smul_mv, MvPolynomial.algebraMap_eq]) (Fsv1.vnVal ⟨p.k2, p.θ2, p.σ2, 0, 0, p.h⟩ t0 x) P
    have hv : aeval (R := ℝ) (fun _ : Fin 3 => (X 2 : Rv)) (ev (Fsv1.vnVal ⟨p.k2, p.θ2, p.σ2, 0, 0, p.h⟩ t0 x) P) =
        ev (vnVal p.k2 p.θ2 p.σ2 p.h x (eI2 p t0)) P := by
      refine this.trans ?_
      apply ev_congr
      intro z _
      simp [Fsv1.vnVal, vnVal, Fsv1.eIE, eI2, MvPolynomial.algebraMap_eq]
    rw [← hv, h, map_pow]
    simp [Fsv1.vNext, vNext2, MvPolynomial.algebraMap_eq]

/-! ### the moments given the start of the interval as polynomials -/

noncomputable def vvPolC (p : Par) (key : TKey) : ℝ :=
  tv p key * (p.h ^ ix key.c 0 * (p.θ1 ^ ix key.c 2 * p.σ1 ^ ix key.c 3) *
    (p.θ2 ^ ix key.c 5 * p.σ2 ^ ix key.c 6))

/-- a key of `vvee_IEI_IEII` as a polynomial in the variances -/
noncomputable def vvPol (p : Par) (key : TKey) : Pol :=
  C (vvPolC p key) * (X 0 ^ (ix key.c 1).toNat * X 1 ^ (ix key.c 4).toNat)

theorem eval_vvPol (p : Par) (P : TPoly) (hP : P.Keys (TOK 7)) (z : ℝ × ℝ) :
    eval (two z.1 z.2) (ev (vvPol p) P) = ev (vvVal p z) P := by
  have := Fsv1.ev_map (eval (two z.1 z.2)).toAddMonoidHom (fun c m => by
    simp [rat_smul_mv, Rat.smul_def]) (vvPol p) P
  refine this.trans ?_
  apply ev_congr
  intro e he
  obtain ⟨_, _, _, h⟩ := hP e he
  obtain ⟨a, ha⟩ := Int.eq_ofNat_of_zero_le (h 1)
  obtain ⟨b, hb⟩ := Int.eq_ofNat_of_zero_le (h 4)
  simp [vvPol, vvPolC, vvVal, vvC, ha, hb, two]
  ring

theorem aeval_vvPol (p : Par) (A B : Rv) (P : TPoly) :
    aeval (two A B) (ev (vvPol p) P) =
      ev (fun key => C (vvPolC p key) * (A ^ (ix key.c 1).toNat * B ^ (ix key.c 4).toNat)) P := by
  have := Fsv1.ev_map (aeval (R := ℝ) (two A B)).toRingHom.toAddMonoidHom (fun c m => by
    simp [rat_smul_mv, MvPolynomial.algebraMap_eq]) (vvPol p) P
  refine this.trans ?_
  apply ev_congr
  intro e he
  simp [vvPol, MvPolynomial.algebraMap_eq, two]

/-- value of a key of `vvee_IEI_IEII_vnvn` -/
noncomputable def eIvVal (p : Par) (t0 : ℝ) (x : ℝ × ℝ) (key : TKey) : Rv :=
  C (tv p key * (p.h ^ ix key.c 2 * (x.1 ^ ix key.c 3 * p.θ1 ^ ix key.c 4 * p.σ1 ^ ix key.c 5) *
    (x.2 ^ ix key.c 6 * p.θ2 ^ ix key.c 7 * p.σ2 ^ ix key.c 8))) *
    (eI1 p t0 ^ (ix key.c 0).toNat * eI2 p t0 ^ (ix key.c 1).toNat)

/-- value of a key after the first loop -/
noncomputable def eIvVal1 (p : Par) (t0 : ℝ) (x : ℝ × ℝ) (key : TKey) : Rv :=
  C (tv p key * (p.h ^ ix key.c 2 * (x.1 ^ ix key.c 3 * p.θ1 ^ ix key.c 4 * p.σ1 ^ ix key.c 5) *
    (p.θ2 ^ ix key.c 7 * p.σ2 ^ ix key.c 8))) *
    (eI1 p t0 ^ (ix key.c 0).toNat * vNext2 p t0 x.2 ^ (ix key.c 6).toNat)

theorem nonneg9 (a b c d e f g i j' : ℤ)
    (h : 0 ≤ a ∧ 0 ≤ b ∧ 0 ≤ c ∧ 0 ≤ d ∧ 0 ≤ e ∧ 0 ≤ f ∧ 0 ≤ g ∧ 0 ≤ i ∧ 0 ≤ j')
    (j : ℕ) : 0 ≤ ix [a, b, c, d, e, f, g, i, j'] j := by
  rcases j with _ | _ | _ | _ | _ | _ | _ | _ | _ | j <;> simp [ix_cons_zero, ix_cons_succ] <;>
    first | omega | simp [ix]

theorem exp_fst (p : Par) (a b c : ℤ) :
    Real.exp (-(((a + c : ℤ) : ℝ) * p.k1 + (b : ℝ) * p.k2) * p.h) =
      Real.exp (-(a * p.k1 + b * p.k2) * p.h) * Real.exp (-c * p.k1 * p.h) := by
  rw [← Real.exp_add]; congr 1; push_cast; ring

theorem exp_snd (p : Par) (a b c : ℤ) :
    Real.exp (-((a : ℝ) * p.k1 + ((b + c : ℤ) : ℝ) * p.k2) * p.h) =
      Real.exp (-(a * p.k1 + b * p.k2) * p.h) * Real.exp (-c * p.k2 * p.h) := by
  rw [← Real.exp_add]; congr 1; push_cast; ring

theorem expV1_spec (p : Par) (t0 : ℝ) (V : TPoly) (hV : V.Keys (TOK 7)) :
    ∃ r, expV1 V = .ok r ∧ r.Keys (TOK 9) ∧ ∀ x : ℝ × ℝ, ev (eIvVal1 p t0 x) r =
      aeval (two (vNext1 p t0 x.1) (vNext2 p t0 x.2)) (ev (vvPol p) V) := by
  obtain ⟨r, er, _, _, rkeys, rv⟩ := subst_spec (ι := ℝ × ℝ) [] (fun e => do
    let polv ← Fsv1.expVnPy (ix e.1.c 1)
    pure (polv.items.map fun m =>
      ((⟨e.1.d, (e.1.e.1 + ix m.1 1, e.1.e.2), [ix m.1 0, 0, ix e.1.c 0, 0 + ix m.1 2,
        ix e.1.c 2 + ix m.1 3, ix e.1.c 3 + ix m.1 4, ix e.1.c 4, ix e.1.c 5, ix e.1.c 6]⟩ : TKey), e.2 * m.2)))
    V (TOK 9) (fun x => eIvVal1 p t0 x)
    (fun x key => C (vvPolC p key) * (vNext1 p t0 x.1 ^ (ix key.c 1).toNat *
      vNext2 p t0 x.2 ^ (ix key.c 4).toNat)) (by
      intro e he
      obtain ⟨h1, h2, h3, h⟩ := hV e he
      obtain ⟨P, eP, Pk, Pv, _⟩ := expVn_spec p t0 (ix e.1.c 1).toNat
      have hm : Fsv1.expVnPy (ix e.1.c 1) = .ok P := by
        have := h 1
        rw [Fsv1.expVnPy, if_neg (by omega), eP]
      refine ⟨_, by rw [hm]; rfl, ?_, fun x => ?_⟩
      · intro y hy
        obtain ⟨m, hm, rfl⟩ := List.mem_map.1 hy
        obtain ⟨_, hmk⟩ := Pk m hm
        have := hmk 0; have := hmk 2; have := hmk 3; have := hmk 4
        have := h 0; have := h 2; have := h 3; have := h 4; have := h 5; have := h 6
        exact ⟨h1, h2, rfl, nonneg9 _ _ _ _ _ _ _ _ _ (by omega)⟩
      · rw [← Pv x.1, List.map_map, rat_smul_mv]
        unfold ev
        rw [← List.sum_map_mul_right, ← List.sum_map_mul_left, ← List.sum_map_mul_left]
        congr 1
        apply List.map_congr_left
        intro m hm
        obtain ⟨_, hmk⟩ := Pk m hm
        simp only [Function.comp, rat_smul_mv, eIvVal1, vnVal, vvPolC, tv, exp_fst, ix_cons_zero, ix_cons_succ,
          zero_add]
        rw [zpow_add_nn p.θ1 _ _ (h 2) (hmk 3), zpow_add_nn p.σ1 _ _ (h 3) (hmk 4)]
        push_cast
        simp only [map_mul]
        ring)
  exact ⟨r, er, rkeys, fun x => by rw [rv, aeval_vvPol]⟩

theorem expV2_spec (p : Par) (t0 : ℝ) (V : TPoly) (hV : V.Keys (TOK 9)) :
    ∃ r, expV2 V = .ok r ∧ r.Keys (TOK 9) ∧ ∀ x : ℝ × ℝ, ev (eIvVal p t0 x) r = ev (eIvVal1 p t0 x) V := by
  obtain ⟨r, er, _, _, rkeys, rv⟩ := subst_spec (ι := ℝ × ℝ) kfEIv (fun e => do
    let polv ← Fsv1.expVnPy (ix e.1.c 6)
    pure (polv.items.map fun m =>
      ((⟨e.1.d, (e.1.e.1, e.1.e.2 + ix m.1 1), [ix e.1.c 0, ix m.1 0, ix e.1.c 2, ix e.1.c 3, ix e.1.c 4,
        ix e.1.c 5, 0 + ix m.1 2, ix e.1.c 7 + ix m.1 3, ix e.1.c 8 + ix m.1 4]⟩ : TKey), e.2 * m.2)))
    V (TOK 9) (fun x => eIvVal p t0 x) (fun x => eIvVal1 p t0 x) (by
      intro e he
      obtain ⟨h1, h2, h3, h⟩ := hV e he
      obtain ⟨P, eP, Pk, _, Pv⟩ := expVn_spec p t0 (ix e.1.c 6).toNat
      have hm : Fsv1.expVnPy (ix e.1.c 6) = .ok P := by
        have := h 6
        rw [Fsv1.expVnPy, if_neg (by omega), eP]
      refine ⟨_, by rw [hm]; rfl, ?_, fun x => ?_⟩
      · intro y hy
        obtain ⟨m, hm, rfl⟩ := List.mem_map.1 hy
        obtain ⟨_, hmk⟩ := Pk m hm
        have := hmk 0; have := hmk 2; have := hmk 3; have := hmk 4
        have := h 0; have := h 2; have := h 3; have := h 4; have := h 5; have := h 7; have := h 8
        exact ⟨h1, h2, rfl, nonneg9 _ _ _ _ _ _ _ _ _ (by omega)⟩
      · rw [List.map_map, rat_smul_mv]
        simp only [eIvVal1]
        rw [← Pv x.2]
        unfold ev
        rw [← List.sum_map_mul_left, ← List.sum_map_mul_left, ← List.sum_map_mul_left]
        congr 1
        apply List.map_congr_left
        intro m hm
        obtain ⟨_, hmk⟩ := Pk m hm
        simp only [Function.comp, rat_smul_mv, eIvVal, vnVal, tv, exp_snd, ix_cons_zero, ix_cons_succ,
          zero_add]
        rw [zpow_add_nn p.θ2 _ _ (h 7) (hmk 3), zpow_add_nn p.σ2 _ _ (h 8) (hmk 4)]
        push_cast
        simp only [map_mul]
        ring)
  exact ⟨r, er, rkeys, rv⟩

theorem vvee_E (g : Cfg) (p : Par) (t0 : ℝ) (n2 n3 n4 n5 n6 n7 n8 : ℕ) :
    ∃ P, vvee g n2 n3 n4 n5 n6 n7 n8 = .ok P ∧ P.Keys (TOK 7) ∧
      ∀ x E, CompLaw g ⊤ p t0 x E → ev (vvVal p x) P =
        E (C (x.1 ^ n2 * x.2 ^ n3) * (eI1 p t0 ^ n4 * X 1 ^ n5 * eI2 p t0 ^ n6 * X 3 ^ n7 * X 4 ^ n8)) := by
  obtain ⟨P, Q, e, eQ, _, _, pk, pv⟩ := vvee_spec g p t0 n2 n3 n4 n5 n6 n7 n8
  refine ⟨P, e, pk, fun x E h => ?_⟩
  obtain ⟨Q', eQ', hE⟩ := h n4 n5 n6 n7 n8 le_top
  rw [eQ] at eQ'
  cases eQ'
  rw [pv, ← hE, ← E_C_mul]
  congr 1
  simp only [eI1, eI2, mul_pow, map_mul, map_pow]
  ring

theorem vveeVn_spec (g : Cfg) (p : Par) (t0 : ℝ) (n2 n3 n4 n5 n6 n7 n8 : ℕ) :
    ∃ (P : TPoly) (Q : Pol), vveeVn g n2 n3 n4 n5 n6 n7 n8 = .ok P ∧ P.Keys (TOK 9) ∧
      (∀ x : ℝ × ℝ, ev (eIvVal p t0 x) P = aeval (two (vNext1 p t0 x.1) (vNext2 p t0 x.2)) Q) ∧
      ∀ z E, CompLaw g ⊤ p (t0 + p.h) z E → eval (two z.1 z.2) Q =
        E (C (z.1 ^ n2 * z.2 ^ n3) * (eI1 p (t0 + p.h) ^ n4 * X 1 ^ n5 * eI2 p (t0 + p.h) ^ n6 *
          X 3 ^ n7 * X 4 ^ n8)) := by
  obtain ⟨V, e, Vk, Vv⟩ := vvee_E g p (t0 + p.h) n2 n3 n4 n5 n6 n7 n8
  obtain ⟨s, es, sk, sv⟩ := expV1_spec p t0 V Vk
  obtain ⟨r, er, rk, rv⟩ := expV2_spec p t0 s sk
  refine ⟨r, ev (vvPol p) V, by rw [vveeVn, e, ok_bind, es, ok_bind, er], rk, fun x => ?_, ?_⟩
  · rw [rv, sv]
  · intro z E h
    rw [eval_vvPol p V Vk, Vv z E h]

theorem innerPoly_spec (g : Cfg) (p : Par) (t0 : ℝ) (E : ℝ × ℝ → Rv →ₗ[ℝ] ℝ)
    (m1 m2 m3 m4 m5 m6 m7 m8 : ℕ) (P : TPoly) (hP : P.Keys (TOK 9)) :
    ∃ r, innerPoly g [m1, m2, m3, m4, m5, m6, m7, m8] P = .ok r ∧ r.Keys (TOK 8) ∧
      ∀ x : {x : ℝ × ℝ // CompLaw g ⊤ p t0 x (E x)}, ev (mvVal p x) r =
        E x (C ((x : ℝ × ℝ).1 ^ m2 * (x : ℝ × ℝ).2 ^ m3) * (eI1 p t0 ^ m4 * X 1 ^ m5 * eI2 p t0 ^ m6 *
          X 3 ^ m7 * X 4 ^ m8) * ev (eIvVal p t0 x) P) := by
  obtain ⟨r, er, _, _, rkeys, rv⟩ := subst_spec (ι := {x : ℝ × ℝ // CompLaw g ⊤ p t0 x (E x)}) kfMv
    (fun e => do
    let poln ← vvee g (m2 + ix e.1.c 3).toNat (m3 + ix e.1.c 6).toNat
      (m4 + ix e.1.c 0).toNat m5 (m6 + ix e.1.c 1).toNat m7 m8
    poln.items.mapM fun m => do
      let t0 ← mulT0s e.1.d m.1.d
      pure ((⟨t0, (e.1.e.1 + m.1.e.1, e.1.e.2 + m.1.e.2), [ix m.1.c 0 + ix e.1.c 2, 0, ix m.1.c 1,
        ix m.1.c 2 + ix e.1.c 4, ix m.1.c 3 + ix e.1.c 5, ix m.1.c 4, ix m.1.c 5 + ix e.1.c 7,
        ix m.1.c 6 + ix e.1.c 8]⟩ : TKey), e.2 * m.2)) P (TOK 8) (fun x => mvVal p x)
    (fun x key => E x (C ((x : ℝ × ℝ).1 ^ m2 * (x : ℝ × ℝ).2 ^ m3) * (eI1 p t0 ^ m4 * X 1 ^ m5 * eI2 p t0 ^ m6 *
          X 3 ^ m7 * X 4 ^ m8) * eIvVal p t0 x key)) (by
      intro e he
      obtain ⟨h1, h2, h3, h⟩ := hP e he
      obtain ⟨V, eV, Vk, Vv⟩ := vvee_E g p t0 (m2 + ix e.1.c 3).toNat (m3 + ix e.1.c 6).toNat
        (m4 + ix e.1.c 0).toNat m5 (m6 + ix e.1.c 1).toNat m7 m8
      obtain ⟨ts, ets, tk, tval⟩ := mapM_terms (ι := {x : ℝ × ℝ // CompLaw g ⊤ p t0 x (E x)}) V.items
        (fun m : TKey × ℚ => (do
          let t0 ← mulT0s e.1.d m.1.d
          pure ((⟨t0, (e.1.e.1 + m.1.e.1, e.1.e.2 + m.1.e.2), [ix m.1.c 0 + ix e.1.c 2, 0, ix m.1.c 1,
            ix m.1.c 2 + ix e.1.c 4, ix m.1.c 3 + ix e.1.c 5, ix m.1.c 4, ix m.1.c 5 + ix e.1.c 7,
            ix m.1.c 6 + ix e.1.c 8]⟩ : TKey), e.2 * m.2) : Except PyErr (TKey × ℚ))) (TOK 8)
        (fun x => mvVal p x)
        (fun x m => ((e.2 : ℝ) * (tv p e.1 * (p.h ^ ix e.1.c 2 * (p.θ1 ^ ix e.1.c 4 * p.σ1 ^ ix e.1.c 5) *
          (p.θ2 ^ ix e.1.c 7 * p.σ2 ^ ix e.1.c 8)))) * (m.2 • vvVal p x m.1)) (by
          intro m hm
          obtain ⟨g1, g2, _, g⟩ := Vk m hm
          obtain ⟨l, el, a1, a2, a3⟩ := mulT0s_spec p m.1.d e.1.d h1 h2 g2
          have := g 0; have := g 1; have := g 2; have := g 3; have := g 4; have := g 5; have := g 6
          have := h 2; have := h 4; have := h 5; have := h 7; have := h 8
          refine ⟨_, by rw [el]; rfl, ⟨a1, a2, rfl, ?_⟩, fun x => ?_⟩
          · exact nonneg8 _ _ _ _ _ _ _ _ (by omega)
          simp only [mvVal, mvC, tv, vvVal, vvC, exp_two, a3, ix_cons_zero, ix_cons_succ, Rat.smul_def]
          rw [zpow_add_nn p.θ1 _ _ ‹_› ‹_›, zpow_add_nn p.σ1 _ _ ‹_› ‹_›, zpow_add_nn p.θ2 _ _ ‹_› ‹_›,
            zpow_add_nn p.σ2 _ _ ‹_› ‹_›, zpow_add_nn p.h _ _ ‹_› ‹_›]
          push_cast
          simp only [zpow_zero]
          ring)
      refine ⟨ts, by rw [eV, ok_bind, ets], tk, fun x => ?_⟩
      rw [tval, List.sum_map_mul_left]
      change _ * ev (vvVal p x) V = _
      rw [Vv x _ x.2, Rat.smul_def, mul_assoc, ← E_C_mul]
      congr 2
      obtain ⟨a, ha⟩ := Int.eq_ofNat_of_zero_le (h 3)
      obtain ⟨b, hb⟩ := Int.eq_ofNat_of_zero_le (h 6)
      obtain ⟨c, hc⟩ := Int.eq_ofNat_of_zero_le (h 0)
      obtain ⟨d, hd⟩ := Int.eq_ofNat_of_zero_le (h 1)
      rw [eIvVal, ha, hb, hc, hd, show ((m2 : ℤ) + a).toNat = m2 + a by omega,
        show ((m3 : ℤ) + b).toNat = m3 + b by omega, show ((m4 : ℤ) + c).toNat = m4 + c by omega,
        show ((m6 : ℤ) + d).toNat = m6 + d by omega, Int.toNat_natCast, Int.toNat_natCast]
      simp only [zpow_natCast, pow_add, map_mul, map_pow]
      ring)
  refine ⟨r, by rw [innerPoly]; exact er, rkeys, fun x => ?_⟩
  rw [rv]
  have := Fsv1.ev_map (((E x).comp (LinearMap.mulLeft ℝ (C ((x : ℝ × ℝ).1 ^ m2 * (x : ℝ × ℝ).2 ^ m3) *
    (eI1 p t0 ^ m4 * X 1 ^ m5 * eI2 p t0 ^ m6 * X 3 ^ m7 * X 4 ^ m8))))).toAddMonoidHom (fun c m => by
      rw [rat_smul_mv, Rat.smul_def]
      simp only [LinearMap.toAddMonoidHom_coe, LinearMap.comp_apply, LinearMap.mulLeft_apply]
      rw [← E_C_mul]
      congr 1
      ring) (eIvVal p t0 x) P
  exact this.symm

theorem timesB_spec {ι : Type} (p : Par) (x : ι → ℝ × ℝ) (l n1 n2 n3 n4 n5 n6 n7 n8 : ℕ)
    (hl : n1 + n2 + n3 + n4 + n5 + n6 + n7 + n8 = l) (V : TPoly) (hV : V.Keys (TOK 8)) :
    ∃ q, timesB l [n1, n2, n3, n4, n5, n6, n7, n8] V = .ok q ∧ q.keyfor = kfMv ∧ q.Keys (TOK 8) ∧
      ∀ i, ev (mvVal p (x i)) q = combN l [n1, n2, n3, n4, n5, n6, n7, n8] *
        (ev (mvVal p (x i)) V * (const p ^ n1 * coefs p n2 n3 n4 n5 n6 n7)) := by
  obtain ⟨b, eb, bk, bv⟩ := bN_spec p n1 n2 n3 n4 n5 n6 n7
  obtain ⟨r, er, rk, rw', rkeys, rv⟩ := mulB_spec (ι := ι) p kfMv cfY
    V b 8 8 10 (fun i => mvC p (x i)) (fun i => mvC p (x i)) (bmC p) hV bk (by
      intro c m _ hc hm
      have := hc 0; have := hc 1; have := hc 2; have := hc 3; have := hc 4; have := hc 5; have := hc 6
      have := hc 7
      have := hm 2; have := hm 3; have := hm 6; have := hm 7; have := hm 8; have := hm 9
      refine ⟨rfl, nonneg8 _ _ _ _ _ _ _ _ (by omega), fun x => ?_⟩
      simp only [cfY, mvC, bcC, bmC, ix_cons_zero, ix_cons_succ]
      rw [zpow_add_nn p.θ1 _ _ ‹_› ‹_›, zpow_add_nn p.σ1 _ _ ‹_› ‹_›, zpow_add_nn p.θ2 _ _ ‹_› ‹_›,
        zpow_add_nn p.σ2 _ _ ‹_› ‹_›, zpow_add_nn p.h _ _ ‹_› ‹_›, zpow_add_nn p.μ _ _ ‹_› ‹_›]
      ring)
  obtain ⟨mk, _, _, mkeys⟩ := rmul_spec (combN l [n1, n2, n3, n4, n5, n6, n7, n8] : ℤ) r (TOK 8) rkeys
  refine ⟨_, ?_, mk.trans rk, mkeys, fun i => ?_⟩
  · simp only [timesB, nat, List.getD_cons_zero, List.getD_cons_succ]
    rw [eb, ok_bind, er, ok_bind, comb8_eq l _ _ _ _ _ _ _ _ hl]; rfl
  · have hv := rv i
    change ev (mvVal p (x i)) r = ev (mvVal p (x i)) V * _ at hv
    rw [ev_rmul, hv, bv, Rat.smul_def]
    push_cast
    ring

/-- the product over a combination with an extra factor -/
theorem E_parts_mul (p : Par) (t0 : ℝ) (x : ℝ × ℝ) (E : Rv →ₗ[ℝ] ℝ) (N : ℕ) (F : Rv)
    (m1 m2 m3 m4 m5 m6 m7 m8 : ℕ) :
    E ((N : Rv) * (List.zipWith (· ^ ·) (partsOf (const p) p t0 x) [m1, m2, m3, m4, m5, m6, m7, m8]).prod * F) =
      N * (E (C (x.1 ^ m2 * x.2 ^ m3) * (eI1 p t0 ^ m4 * X 1 ^ m5 * eI2 p t0 ^ m6 * X 3 ^ m7 * X 4 ^ m8) * F) *
        (const p ^ m1 * coefs p m2 m3 m4 m5 m6 m7)) := by
  rw [mul_comm (E _), ← mul_assoc, ← E_C_mul]
  congr 1
  simp only [partsOf, List.zipWith_cons_cons, List.zipWith_nil_right, List.prod_cons, List.prod_nil,
    mul_pow, map_mul, map_pow, map_natCast, eI1, eI2, coefs]
  ring

theorem inner_spec (g : Cfg) (p : Par) (h1 : p.k1 ≠ 0) (h2 : p.k2 ≠ 0) (t0 : ℝ)
    (E : ℝ × ℝ → Rv →ₗ[ℝ] ℝ) (l1 : ℕ) (P : TPoly) (hP : P.Keys (TOK 9)) :
    ∃ r, mergeLoop (momentInnerComb g l1 P) (combsDown 7 l1) ⟨kfMv, []⟩ = .ok r ∧ r.Keys (TOK 8) ∧
      ∀ x : {x : ℝ × ℝ // CompLaw g ⊤ p t0 x (E x)}, ev (mvVal p x) r =
        E x (ret p t0 x ^ l1 * ev (eIvVal p t0 x) P) := by
  obtain ⟨q, e, _, _, _, k, v⟩ := mergeLoop_spec (ι := {x : ℝ × ℝ // CompLaw g ⊤ p t0 x (E x)})
    (momentInnerComb g l1 P) (combsDown 7 l1) ⟨kfMv, []⟩ (TOK 8) (fun x => mvVal p x)
    (fun x ms => E x ((combN l1 ms : Rv) * (List.zipWith (· ^ ·) (partsOf (const p) p t0 x) ms).prod *
      ev (eIvVal p t0 x) P))
    (fun x hx => by simp at hx) (by
      intro ms hms
      obtain ⟨h1, h2⟩ := combs_mem _ _ _ hms
      obtain ⟨m1, m2, m3, m4, m5, m6, m7, m8, rfl⟩ := len8 ms h1
      simp only [List.sum_cons, List.sum_nil] at h2
      obtain ⟨V, eV, Vkeys, Vv⟩ := innerPoly_spec g p t0 E m1 m2 m3 m4 m5 m6 m7 m8 P hP
      obtain ⟨q, eq, qk, qkeys, qv⟩ := timesB_spec (ι := {x : ℝ × ℝ // CompLaw g ⊤ p t0 x (E x)}) p
        (fun x => x) l1 m1 m2 m3 m4 m5 m6 m7 m8 (by omega) V Vkeys
      refine ⟨q, ?_, qk, qkeys, fun x => ?_⟩
      · rw [momentInnerComb, eV, ok_bind, eq]
      · rw [qv, E_parts_mul, Vv])
  refine ⟨q, e, k, fun x => ?_⟩
  rw [v x, sum_E, List.sum_map_mul_right, combs_multinomial 7 _ rfl, parts_sum p h1 h2]
  simp [ev]

theorem outer_spec (g : Cfg) (p : Par) (h1 : p.k1 ≠ 0) (h2 : p.k2 ≠ 0) (t0 : ℝ)
    (E : ℝ × ℝ → Rv →ₗ[ℝ] ℝ) (l1 l2 n1 n2 n3 n4 n5 n6 n7 n8 : ℕ)
    (hl : n1 + n2 + n3 + n4 + n5 + n6 + n7 + n8 = l2) :
    ∃ (r : TPoly) (Q : Pol), momentOuterComb g l1 l2 [n1, n2, n3, n4, n5, n6, n7, n8] = .ok r ∧
      r.keyfor = kfMv ∧ r.Keys (TOK 8) ∧
      (∀ x : {x : ℝ × ℝ // CompLaw g ⊤ p t0 x (E x)}, ev (mvVal p x) r =
        E x (ret p t0 x ^ l1 * aeval (two (vNext1 p t0 (x : ℝ × ℝ).1) (vNext2 p t0 (x : ℝ × ℝ).2)) Q)) ∧
      ∀ z E', CompLaw g ⊤ p (t0 + p.h) z E' → eval (two z.1 z.2) Q =
        E' ((combN l2 [n1, n2, n3, n4, n5, n6, n7, n8] : Rv) *
          (List.zipWith (· ^ ·) (partsOf (const p) p (t0 + p.h) z) [n1, n2, n3, n4, n5, n6, n7, n8]).prod) := by
  obtain ⟨P, Q, eP, Pkeys, Pv, Qv⟩ := vveeVn_spec g p t0 n2 n3 n4 n5 n6 n7 n8
  obtain ⟨s, es, skeys, sv⟩ := inner_spec g p h1 h2 t0 E l1 P Pkeys
  obtain ⟨q, eq, qk, qkeys, qv⟩ := timesB_spec (ι := {x : ℝ × ℝ // CompLaw g ⊤ p t0 x (E x)}) p
    (fun x => x) l2 n1 n2 n3 n4 n5 n6 n7 n8 hl s skeys
  refine ⟨q, C (combN l2 [n1, n2, n3, n4, n5, n6, n7, n8] * (const p ^ n1 * coefs p n2 n3 n4 n5 n6 n7)) * Q,
    ?_, qk, qkeys, fun x => ?_, fun z E' h => ?_⟩
  · simp only [momentOuterComb, nat, List.getD_cons_zero, List.getD_cons_succ]
    rw [eP, ok_bind, es, ok_bind, eq]
  · rw [qv, sv, Pv, map_mul (aeval _), aeval_C, MvPolynomial.algebraMap_eq, mul_left_comm (ret p t0 x ^ l1),
      E_C_mul]
    ring
  · have := E_parts_mul p (t0 + p.h) z E' (combN l2 [n1, n2, n3, n4, n5, n6, n7, n8]) 1 n1 n2 n3 n4 n5 n6 n7 n8
    rw [mul_one, mul_one, ← Qv z E' h] at this
    rw [this, map_mul, eval_C]
    ring

theorem polyYY_spec (g : Cfg) (p : Par) (h1 : p.k1 ≠ 0) (h2 : p.k2 ≠ 0) (t0 : ℝ)
    (E : ℝ × ℝ → Rv →ₗ[ℝ] ℝ) (l1 l2 : ℕ) :
    ∃ (r : TPoly) (Q : Pol), mergeLoop (momentOuterComb g l1 l2) (combsDown 7 l2) ⟨kfMv, []⟩ = .ok r ∧
      r.Keys (TOK 8) ∧
      (∀ x : {x : ℝ × ℝ // CompLaw g ⊤ p t0 x (E x)}, ev (mvVal p x) r =
        E x (ret p t0 x ^ l1 * aeval (two (vNext1 p t0 (x : ℝ × ℝ).1) (vNext2 p t0 (x : ℝ × ℝ).2)) Q)) ∧
      ∀ z E', CompLaw g ⊤ p (t0 + p.h) z E' → eval (two z.1 z.2) Q = E' (ret p (t0 + p.h) z ^ l2) := by
  have hex : ∀ ns : List ℕ, ∃ Q : Pol, ns ∈ combsDown 7 l2 →
      ∃ r : TPoly, momentOuterComb g l1 l2 ns = .ok r ∧ r.keyfor = kfMv ∧ r.Keys (TOK 8) ∧
      (∀ x : {x : ℝ × ℝ // CompLaw g ⊤ p t0 x (E x)}, ev (mvVal p x) r =
        E x (ret p t0 x ^ l1 * aeval (two (vNext1 p t0 (x : ℝ × ℝ).1) (vNext2 p t0 (x : ℝ × ℝ).2)) Q)) ∧
      ∀ z E', CompLaw g ⊤ p (t0 + p.h) z E' → eval (two z.1 z.2) Q =
        E' ((combN l2 ns : Rv) * (List.zipWith (· ^ ·) (partsOf (const p) p (t0 + p.h) z) ns).prod) := by
    intro ns
    by_cases hns : ns ∈ combsDown 7 l2
    · obtain ⟨g1, g2⟩ := combs_mem _ _ _ hns
      obtain ⟨n1, n2, n3, n4, n5, n6, n7, n8, rfl⟩ := len8 ns g1
      simp only [List.sum_cons, List.sum_nil] at g2
      obtain ⟨r, Q, h⟩ := outer_spec g p h1 h2 t0 E l1 l2 n1 n2 n3 n4 n5 n6 n7 n8 (by omega)
      exact ⟨Q, fun _ => ⟨r, h⟩⟩
    · exact ⟨0, fun h => absurd h hns⟩
  choose Q hQ using hex
  obtain ⟨r, e, _, _, _, k, v⟩ := mergeLoop_spec (ι := {x : ℝ × ℝ // CompLaw g ⊤ p t0 x (E x)})
    (momentOuterComb g l1 l2) (combsDown 7 l2) ⟨kfMv, []⟩ (TOK 8) (fun x => mvVal p x)
    (fun x ns => E x (ret p t0 x ^ l1 *
      aeval (two (vNext1 p t0 (x : ℝ × ℝ).1) (vNext2 p t0 (x : ℝ × ℝ).2)) (Q ns)))
    (fun x hx => by simp at hx) (by
      intro ns hns
      obtain ⟨q, h1, h2, h3, h4, _⟩ := hQ ns hns
      exact ⟨q, h1, h2, h3, h4⟩)
  refine ⟨r, ((combsDown 7 l2).map Q).sum, e, k, fun x => ?_, fun z E' hE' => ?_⟩
  · rw [v x, sum_E, List.sum_map_mul_left, map_list_sum, List.map_map]
    simp [ev, Function.comp_def]
  · rw [map_list_sum, List.map_map, List.map_congr_left (g := fun ns => E' ((combN l2 ns : Rv) *
      (List.zipWith (· ^ ·) (partsOf (const p) p (t0 + p.h) z) ns).prod)) (fun ns hns => by
        obtain ⟨q, _, _, _, _, h5⟩ := hQ ns hns
        exact h5 z E' hE'), sum_E, combs_multinomial 7 _ rfl, parts_sum p h1 h2]

theorem momentYY_spec (g : Cfg) (p : Par) (h1 : p.k1 ≠ 0) (h2 : p.k2 ≠ 0) (t0 : ℝ)
    (E : ℝ × ℝ → Rv →ₗ[ℝ] ℝ) (γ : Measure (ℝ × ℝ)) (hγ : StatLaw p γ)
    (hE : ∀ᵐ x ∂γ, CompLaw g ⊤ p t0 x (E x)) (l1 l2 : ℕ) (Q : Pol) (hQ : CondPoly g p (t0 + p.h) l2 Q) :
    ∃ r, momentYY g l1 l2 = .ok r ∧ r.keyfor = kfM ∧ r.WF ∧ r.NoZero ∧ r.Keys (TOK 6) ∧
      ev (mVal p) r = expect γ E fun x => ret p t0 x ^ l1 *
        aeval (two (vNext1 p t0 x.1) (vNext2 p t0 x.2)) Q := by
  obtain ⟨q, Q', e, qk, qv, qQ⟩ := polyYY_spec g p h1 h2 t0 E l1 l2
  obtain ⟨E', S1, S2, i1, i2, hE', hQ⟩ := hQ
  have hQQ : Q = Q' := by
    apply funext_set (two S1 S2)
    · intro i
      fin_cases i
      · exact i1
      · exact i2
    · intro x hx
      have hz : (x 0, x 1) ∈ S1 ×ˢ S2 := ⟨hx 0 trivial, hx 1 trivial⟩
      have ht : x = two (x 0, x 1).1 (x 0, x 1).2 := by
        funext i
        fin_cases i <;> rfl
      rw [ht, hQ _ hz, qQ _ _ (hE' _ hz)]
  subst hQQ
  obtain ⟨r, er, rk, rw', rkeys, rv⟩ := subV_spec p γ hγ q qk
  refine ⟨r.removeZero, ?_, by simp [rk], removeZero_WF _ rw', removeZero_NoZero _,
    removeZero_Keys _ _ rkeys, ?_⟩
  · rw [momentYY, e, ok_bind, er]; rfl
  · rw [ev_removeZero, rv, expect]
    exact integral_congr_ae (hE.mono fun x hx => qv ⟨x, hx⟩)

theorem mulT_spec (p : Par) (a b : TPoly) (ha : a.Keys (TOK 6)) (hb : b.Keys (TOK 6)) :
    ∃ r, mulT kfM 6 a b = .ok r ∧ r.keyfor = kfM ∧ r.WF ∧ r.Keys (TOK 6) ∧
      ev (mVal p) r = ev (mVal p) a * ev (mVal p) b := by
  obtain ⟨r, e, k, w, keys, v⟩ := subst_spec (ι := Unit) kfM (fun e => b.items.mapM fun m => do
      let t0 ← mulT0s e.1.d m.1.d
      pure ((⟨t0, (e.1.e.1 + m.1.e.1, e.1.e.2 + m.1.e.2),
        (List.range 6).map fun i : ℕ => ix e.1.c i + ix m.1.c i⟩ : TKey), e.2 * m.2)) a (TOK 6)
    (fun _ => mVal p) (fun _ key => mVal p key * ev (mVal p) b) (by
      intro e he
      obtain ⟨h1, h2, h3, h⟩ := ha e he
      obtain ⟨ts, ets, tk, tval⟩ := mapM_terms (ι := Unit) b.items (fun m : TKey × ℚ => (do
          let t0 ← mulT0s e.1.d m.1.d
          pure ((⟨t0, (e.1.e.1 + m.1.e.1, e.1.e.2 + m.1.e.2),
            (List.range 6).map fun i : ℕ => ix e.1.c i + ix m.1.c i⟩ : TKey), e.2 * m.2) :
            Except PyErr (TKey × ℚ))) (TOK 6) (fun _ => mVal p)
        (fun _ m => (e.2 • mVal p e.1) * (m.2 • mVal p m.1)) (by
          intro m hm
          obtain ⟨g1, g2, _, g⟩ := hb m hm
          obtain ⟨l, el, a1, a2, a3⟩ := mulT0s_spec p m.1.d e.1.d h1 h2 g2
          have := g 0; have := g 1; have := g 2; have := g 3; have := g 4; have := g 5
          have := h 0; have := h 1; have := h 2; have := h 3; have := h 4; have := h 5
          refine ⟨_, by rw [el]; rfl, ⟨a1, a2, rfl, ?_⟩, fun _ => ?_⟩
          · exact nonneg6 _ _ _ _ _ _ (by dsimp only; omega)
          simp only [mVal, mC, tv, exp_two, a3, List.range_succ, List.range_zero, List.nil_append,
            List.cons_append, List.map_cons, List.map_nil, ix_cons_zero, ix_cons_succ, Rat.smul_def]
          rw [zpow_add_nn p.θ1 _ _ ‹_› ‹_›, zpow_add_nn p.σ1 _ _ ‹_› ‹_›, zpow_add_nn p.θ2 _ _ ‹_› ‹_›,
            zpow_add_nn p.σ2 _ _ ‹_› ‹_›, zpow_add_nn p.h _ _ ‹_› ‹_›, zpow_add_nn p.μ _ _ ‹_› ‹_›]
          push_cast
          ring)
      refine ⟨ts, ets, tk, fun _ => ?_⟩
      rw [tval (), List.sum_map_mul_left]
      change _ * ev (mVal p) b = _
      rw [Rat.smul_def, Rat.smul_def]
      ring)
  refine ⟨r, e, k, w, keys, ?_⟩
  rw [v (), mul_comm, ← ev_mul_const]
  apply ev_congr
  intro e _
  rw [mul_comm]

theorem compLaw_mono {g : Cfg} {p : Par} {t0 : ℝ} {x : ℝ × ℝ} {E : Rv →ₗ[ℝ] ℝ} {N N' : ℕ∞} (h : N' ≤ N)
    (hE : CompLaw g N p t0 x E) : CompLaw g N' p t0 x E :=
  fun a b c d e he => hE a b c d e (he.trans h)

theorem covYY_spec (g : Cfg) (p : Par) (h1 : p.k1 ≠ 0) (h2 : p.k2 ≠ 0) (t0 : ℝ)
    (E : ℝ × ℝ → Rv →ₗ[ℝ] ℝ) (γ : Measure (ℝ × ℝ)) (hγ : StatLaw p γ)
    (hE : ∀ᵐ x ∂γ, CompLaw g ⊤ p t0 x (E x)) (l1 l2 : ℕ) (Q : Pol) (hQ : CondPoly g p (t0 + p.h) l2 Q) :
    ∃ r, covYY g l1 l2 = .ok r ∧ r.keyfor = kfM ∧ r.WF ∧ r.NoZero ∧ r.Keys (TOK 6) ∧
      ev (mVal p) r = (expect γ E fun x => ret p t0 x ^ l1 *
          aeval (two (vNext1 p t0 x.1) (vNext2 p t0 x.2)) Q) -
        (expect γ E fun x => ret p t0 x ^ l1) * (expect γ E fun x => ret p t0 x ^ l2) := by
  obtain ⟨a, ea, ak, aw, an, akeys, av⟩ := momentYY_spec g p h1 h2 t0 E γ hγ hE l1 l2 Q hQ
  obtain ⟨b, eb, bk, _, _, bkeys, bv⟩ := momentY_spec g p h1 h2 t0 E γ hγ l1
    (hE.mono fun x h => compLaw_mono le_top h)
  obtain ⟨c, ec, ck, _, _, ckeys, cv⟩ := momentY_spec g p h1 h2 t0 E γ hγ l2
    (hE.mono fun x h => compLaw_mono le_top h)
  obtain ⟨d, ed, dk, dw, dkeys, dv⟩ := mulT_spec p b c bkeys ckeys
  obtain ⟨r, er, rk, rw', _, rkeys, rv⟩ := sub_spec a d (ak.trans dk.symm) dw
  refine ⟨r.removeZero, ?_, by simp [rk, ak], removeZero_WF _ (rw' aw), removeZero_NoZero _,
    removeZero_Keys _ _ (rkeys _ akeys dkeys), ?_⟩
  · rw [covYY, eb, ok_bind, ec, ok_bind, ed, ok_bind, ea, ok_bind, er]; rfl
  · rw [ev_removeZero, rv, av, dv, bv, cv]

end Ajd.Fsv2
