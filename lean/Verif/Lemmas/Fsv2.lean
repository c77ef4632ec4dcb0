import Verif.Spec.Fsv2
import Verif.Lemmas.Fsv1Mom
import Verif.Lemmas.ItosInst

/-! Common parts of `mdl_2fsv/cmom.py` and `mom.py`. -/

namespace Ajd.Fsv2
open Poly Ito Utils MvPolynomial MeasureTheory Itos

theorem len7 {α : Type*} (l : List α) (h : l.length = 7) : ∃ a b c d e f g, l = [a, b, c, d, e, f, g] := by
  match l, h with
  | [a, b, c, d, e, f, g], _ => exact ⟨a, b, c, d, e, f, g, rfl⟩

theorem len8 {α : Type*} (l : List α) (h : l.length = 8) :
    ∃ a b c d e f g i, l = [a, b, c, d, e, f, g, i] := by
  match l, h with
  | [a, b, c, d, e, f, g, i], _ => exact ⟨a, b, c, d, e, f, g, i, rfl⟩

/-! ### values of keys -/

/-- `(n1 k1 + n2 k2)^{-i}` -/
noncomputable def dn (p : Par) (t : Den) : ℝ := ((t.1 : ℝ) * p.k1 + t.2.1 * p.k2) ^ (-t.2.2)

theorem dn_eq (p : Par) (t0 : ℝ) (x : ℝ × ℝ) (t : Den) : dn p t = den (p.it t0 x) t := rfl

/-- the value of the first two components of a key -/
noncomputable def tv (p : Par) (key : TKey) : ℝ :=
  (key.d.map (dn p)).prod * Real.exp (-(key.e.1 * p.k1 + key.e.2 * p.k2) * p.h)

/-- keys with `n` powers -/
def TOK (n : ℕ) (key : TKey) : Prop :=
  key.d ≠ [] ∧ (∀ t ∈ key.d, DOK t) ∧ key.c.length = n ∧ ∀ j, 0 ≤ ix key.c j

theorem tMul_spec (p : Par) (t : Den) (t0 : List Den) (ht : DOK t) (h0 : t0 ≠ []) (hd : ∀ s ∈ t0, DOK s) :
    ∃ l, tMulT0 t t0 = .ok l ∧ l ≠ [] ∧ (∀ s ∈ l, DOK s) ∧
      (l.map (dn p)).prod = dn p t * (t0.map (dn p)).prod := by
  obtain ⟨l, e, h1, h2, h3⟩ := tMulT0_spec t t0 ht h0 hd
  exact ⟨l, e, h1, h2, h3 (p.it 0 (0, 0))⟩

theorem exp_two (p : Par) (a b c d : ℤ) :
    Real.exp (-(((a + c : ℤ) : ℝ) * p.k1 + ((b + d : ℤ) : ℝ) * p.k2) * p.h) =
      Real.exp (-(a * p.k1 + b * p.k2) * p.h) * Real.exp (-(c * p.k1 + d * p.k2) * p.h) := by
  rw [← Real.exp_add]; congr 1; push_cast; ring

/-! ### the Itô moments -/

theorem moment_keys (g : Cfg) (i : Itos.Idx) (hv : Itos.Valid i) : ∃ P, moment g i = .ok P ∧ P.keyfor = Itos.kf ∧
    P.WF ∧ P.Keys KOK ∧ P.Keys fun k => k.a = aOf i := by
  obtain ⟨P, e, G, _⟩ := moment_spec (g := g) (OK := fun _ _ => False) (G := fun _ _ => True)
    (fun _ _ h => h.elim) (fun _ _ _ _ _ => trivial) (fun _ _ _ _ _ _ _ _ _ => trivial)
    (fun _ _ _ _ h => h.elim) i hv
  exact ⟨P, e, G.kf, G.wf, G.keys, G.a⟩

theorem compLaw_fixed (p : Par) (hp : p.Generic) (hh : 0 ≤ p.h) (t0 : ℝ) (x : ℝ × ℝ) (E : Rv →ₗ[ℝ] ℝ)
    (h : CondLaw p t0 x E) (N : ℕ∞) : CompLaw fixed N p t0 x E := by
  intro a b c d e _
  obtain ⟨M, hM, hE⟩ := h
  obtain ⟨P, eP, G, _⟩ := fixed_moment ((a : ℤ), (b : ℤ), (c : ℤ), (d : ℤ), (e : ℤ)) (by simp [Itos.Valid])
  refine ⟨P, eP, ?_⟩
  have := G.val ⟨p.it t0 x, M, t0 + p.h, by simpa [Par.it] using hh, hM⟩ (by
    intro n hn h0
    apply hn
    obtain ⟨h1, h2⟩ := hp n.1 n.2 h0
    exact Prod.ext h1 h2)
  rw [this, hE]
  simp [Fam.at]

/-! ### `vvee_IEI_IEII` -/

/-- value of the powers of a key of `vvee_IEI_IEII` -/
noncomputable def vvC (p : Par) (x : ℝ × ℝ) (c : List ℤ) : ℝ :=
  p.h ^ ix c 0 * (x.1 ^ ix c 1 * p.θ1 ^ ix c 2 * p.σ1 ^ ix c 3) *
    (x.2 ^ ix c 4 * p.θ2 ^ ix c 5 * p.σ2 ^ ix c 6)

noncomputable def vvVal (p : Par) (x : ℝ × ℝ) (key : TKey) : ℝ := tv p key * vvC p x key.c

theorem vvee_spec (g : Cfg) (p : Par) (t0 : ℝ) (n2 n3 n4 n5 n6 n7 n8 : ℕ) :
    ∃ P Q, vvee g n2 n3 n4 n5 n6 n7 n8 = .ok P ∧
      moment g ((n4 : ℤ), (n5 : ℤ), (n6 : ℤ), (n7 : ℤ), (n8 : ℤ)) = .ok Q ∧
      P.keyfor = kfV ∧ P.WF ∧ P.Keys (TOK 7) ∧
      ∀ x : ℝ × ℝ, ev (vvVal p x) P = x.1 ^ n2 * x.2 ^ n3 * Real.exp (-(p.k1 * (t0 + p.h))) ^ n4 *
        Real.exp (-(p.k2 * (t0 + p.h))) ^ n6 * ev (dval (p.it t0 x) (t0 + p.h)) Q := by
  obtain ⟨Q, e, _, _, qk, qa⟩ := moment_keys g ((n4 : ℤ), (n5 : ℤ), (n6 : ℤ), (n7 : ℤ), (n8 : ℤ))
    (by simp [Itos.Valid])
  refine ⟨_, Q, by rw [vvee, e]; rfl, e, by simp, ofTerms_WF _ _, ?_, ?_⟩
  · apply ofTerms_Keys
    intro y hy
    obtain ⟨z, hz, rfl⟩ := List.mem_map.1 hy
    obtain ⟨h1, h2, h3⟩ := qk z hz
    refine ⟨h1, h2, rfl, fun j => ?_⟩
    have := h3 0; have := h3 1; have := h3 2; have := h3 3; have := h3 4; have := h3 5; have := h3 6
    rcases j with _ | _ | _ | _ | _ | _ | _ | j <;> simp [ix_cons_zero, ix_cons_succ] <;>
      first | omega | simp [ix]
  · intro x
    rw [← ev_mul_const]
    apply ev_ofTerms_map
    intro z hz
    obtain ⟨h1, h2, h3⟩ := qk z hz
    have ha : z.1.a = ((n4 : ℤ), (n6 : ℤ)) := qa z hz
    congr 1
    simp only [vvVal, vvC, tv, dval, ix_cons_zero, ix_cons_succ, ha, Par.it, Itos.Par.rate]
    rw [zpow_add_nn x.1 _ _ (h3 1) (by omega), zpow_add_nn x.2 _ _ (h3 4) (by omega), zpow_natCast,
      zpow_natCast, ← Real.exp_nat_mul, ← Real.exp_nat_mul]
    have : Real.exp (-(((n4 : ℤ) - z.1.e.1 : ℤ) * p.k1 + ((n6 : ℤ) - z.1.e.2 : ℤ) * p.k2) * p.h) =
        Real.exp (n4 * -(p.k1 * (t0 + p.h))) * Real.exp (n6 * -(p.k2 * (t0 + p.h))) *
          Real.exp ((((n4 : ℤ) : ℝ) * p.k1 + ((n6 : ℤ) : ℝ) * p.k2) * t0) *
            Real.exp ((z.1.e.1 * p.k1 + z.1.e.2 * p.k2) * (t0 + p.h - t0)) := by
      rw [← Real.exp_add, ← Real.exp_add, ← Real.exp_add]
      congr 1
      push_cast
      ring
    rw [this, add_sub_cancel_left]
    simp only [show dn p = den ⟨p.k1, p.k2, t0, x.1, p.θ1, p.σ1, x.2, p.θ2, p.σ2⟩ from rfl]
    ring

/-! ### multiplication by `b_n` -/

/-- value of the rates of a key of `b_n` -/
noncomputable def bT (p : Par) (m : List ℤ) : ℝ :=
  Real.exp (-(ix m 0 * p.k1 + ix m 4 * p.k2) * p.h) * (p.k1 ^ (-ix m 1) * p.k2 ^ (-ix m 5))

theorem mulB_spec {ι : Type} (p : Par) (kf : List String) (cf : List ℤ → List ℤ → List ℤ) (poly : TPoly)
    (b : IPoly) (n n' q : ℕ) (A : ι → List ℤ → ℝ) (A' : ι → List ℤ → ℝ) (B : List ℤ → ℝ)
    (hp : poly.Keys (TOK n)) (hb : b.Keys (NN q))
    (hc : ∀ c m, c.length = n → (∀ j, 0 ≤ ix c j) → (∀ j, 0 ≤ ix m j) →
      (cf c m).length = n' ∧ (∀ j, 0 ≤ ix (cf c m) j) ∧ ∀ i, A' i (cf c m) = A i c * B m) :
    ∃ r, mulB kf cf poly b = .ok r ∧ r.keyfor = kf ∧ r.WF ∧ r.Keys (TOK n') ∧
      ∀ i, ev (fun key => tv p key * A' i key.c) r =
        ev (fun key => tv p key * A i key.c) poly * ev (fun m => bT p m * B m) b := by
  obtain ⟨r, e, k, w, keys, v⟩ := subst_spec (ι := ι) kf (fun e => b.items.mapM fun m => do
      let t0 ← tMulT0 (1, 0, ix m.1 1) e.1.d
      let t0 ← tMulT0 (0, 1, ix m.1 5) t0
      pure ((⟨t0, (e.1.e.1 + ix m.1 0, e.1.e.2 + ix m.1 4), cf e.1.c m.1⟩ : TKey), e.2 * m.2))
    poly (TOK n') (fun i key => tv p key * A' i key.c)
    (fun i key => tv p key * A i key.c * ev (fun m => bT p m * B m) b) (by
      intro e he
      obtain ⟨h1, h2, h3, h4⟩ := hp e he
      obtain ⟨ts, ets, hrel⟩ := mapM_ok_rel (fun m : List ℤ × ℚ => (do
          let t0 ← tMulT0 (1, 0, ix m.1 1) e.1.d
          let t0 ← tMulT0 (0, 1, ix m.1 5) t0
          pure ((⟨t0, (e.1.e.1 + ix m.1 0, e.1.e.2 + ix m.1 4), cf e.1.c m.1⟩ : TKey), e.2 * m.2) :
            Except PyErr (TKey × ℚ)))
        (fun m y => TOK n' y.1 ∧ ∀ i, y.2 • (tv p y.1 * A' i y.1.c) =
          (e.2 • (tv p e.1 * A i e.1.c)) * (m.2 • (bT p m.1 * B m.1))) b.items (by
          intro m hm
          obtain ⟨_, hm'⟩ := hb m hm
          obtain ⟨l1, e1, a1, a2, a3⟩ := tMul_spec p (1, 0, ix m.1 1) e.1.d ⟨hm' 1, by simp⟩ h1 h2
          obtain ⟨l2, e2, b1, b2, b3⟩ := tMul_spec p (0, 1, ix m.1 5) l1 ⟨hm' 5, by simp⟩ a1 a2
          obtain ⟨c1, c2, c3⟩ := hc e.1.c m.1 h3 h4 hm'
          refine ⟨_, by rw [e1, ok_bind, e2]; rfl, ⟨b1, b2, c1, c2⟩, fun i => ?_⟩
          simp only [tv, bT, c3, b3, a3, exp_two, Rat.smul_def, dn]
          push_cast
          simp only [one_mul, zero_mul, add_zero, zero_add]
          ring)
      refine ⟨ts, ets, ?_, fun i => ?_⟩
      · intro y hy
        clear ets
        generalize b.items = l at hrel
        induction hrel with
        | nil => simp at hy
        | cons hd _ ih =>
          rcases List.mem_cons.1 hy with rfl | hy
          · exact hd.1
          · exact ih hy
      · rw [ev]
        clear ets hb
        generalize b.items = l at hrel
        rw [show ∀ (c : ℚ) (y z : ℝ), c • (y * z) = (c • y) * z from fun c y z => by
          rw [Rat.smul_def, Rat.smul_def]; ring, ← List.sum_map_mul_left]
        induction hrel with
        | nil => rfl
        | cons hd _ ih => rw [List.map_cons, List.sum_cons, List.map_cons, List.sum_cons, ih, hd.2 i])
  refine ⟨r, e, k, w, keys, fun i => ?_⟩
  rw [v i]
  rw [mul_comm, ← ev_mul_const]
  apply ev_congr
  intro e _
  rw [mul_comm]

/-! ### one loop of `sub_v` -/

theorem subLoop_spec (p : Par) (kf : List String) (s : ℤ × ℤ) (k θ σ : ℝ)
    (hs : s = (1, 0) ∧ k = p.k1 ∨ s = (0, 1) ∧ k = p.k2) (j : ℕ)
    (cf : List ℤ → List ℤ → List ℤ) (poly : TPoly) (n n' : ℕ) (A A' : List ℤ → ℝ)
    (hp : poly.Keys (TOK n))
    (hc : ∀ c m, c.length = n → (∀ i, 0 ≤ ix c i) → 0 ≤ ix m 0 → 0 ≤ ix m 1 →
      (cf c m).length = n' ∧ (∀ i, 0 ≤ ix (cf c m) i) ∧
        A' (cf c m) = A c * (θ ^ ix m 0 * σ ^ (2 * ix m 1))) :
    ∃ r, subLoop kf s j cf poly = .ok r ∧ r.keyfor = kf ∧ r.WF ∧ r.Keys (TOK n') ∧
      ev (fun key => tv p key * A' key.c) r =
        ev (fun key => tv p key * (A key.c * vMoment k θ σ (ix key.c j).toNat)) poly := by
  obtain ⟨r, e, kk, w, keys, v⟩ := subst_spec (ι := Unit) kf (fun e => do
      let pol ← momentVPy (ix e.1.c j)
      pol.items.mapM fun m => do
        let t0 ← tMulT0 (s.1, s.2, ix m.1 1) e.1.d
        pure ((⟨t0, e.1.e, cf e.1.c m.1⟩ : TKey), e.2 * m.2))
    poly (TOK n') (fun _ key => tv p key * A' key.c)
    (fun _ key => tv p key * (A key.c * vMoment k θ σ (ix key.c j).toNat)) (by
      intro e he
      obtain ⟨h1, h2, h3, h4⟩ := hp e he
      obtain ⟨a, ha⟩ := Int.eq_ofNat_of_zero_le (h4 j)
      have hm : momentVPy (ix e.1.c j) = .ok (momentV a) := by
        rw [momentVPy, if_neg (by omega), ha]; rfl
      obtain ⟨ts, ets, hrel⟩ := mapM_ok_rel (fun m : List ℤ × ℚ => (do
          let t0 ← tMulT0 (s.1, s.2, ix m.1 1) e.1.d
          pure ((⟨t0, e.1.e, cf e.1.c m.1⟩ : TKey), e.2 * m.2) : Except PyErr (TKey × ℚ)))
        (fun m y => TOK n' y.1 ∧ y.2 • (tv p y.1 * A' y.1.c) =
          (e.2 • (tv p e.1 * A e.1.c)) * (m.2 • vVal k θ σ m.1)) (momentV a).items (by
          intro m hm
          obtain ⟨m0, m1, _⟩ := (momentV_keys a).1 m hm
          obtain ⟨l1, e1, a1, a2, a3⟩ := tMul_spec p (s.1, s.2, ix m.1 1) e.1.d ⟨m1, by
            rcases hs with ⟨rfl, _⟩ | ⟨rfl, _⟩ <;> simp⟩ h1 h2
          obtain ⟨c1, c2, c3⟩ := hc e.1.c m.1 h3 h4 m0 m1
          refine ⟨_, by rw [e1]; rfl, ⟨a1, a2, c1, c2⟩, ?_⟩
          have hd : dn p (s.1, s.2, ix m.1 1) = k ^ (-ix m.1 1) := by
            rcases hs with ⟨rfl, rfl⟩ | ⟨rfl, rfl⟩ <;> simp [dn]
          simp only [tv, c3, a3, hd, Rat.smul_def, vVal]
          rw [div_zpow, zpow_mul, zpow_neg _ (ix m.1 1), show (σ ^ (2 : ℤ)) = σ ^ 2 from zpow_ofNat _ _]
          push_cast
          ring)
      refine ⟨ts, by rw [hm, ok_bind, ets], ?_, fun _ => ?_⟩
      · intro y hy
        clear ets hm
        generalize (momentV a).items = l at hrel
        induction hrel with
        | nil => simp at hy
        | cons hd _ ih =>
          rcases List.mem_cons.1 hy with rfl | hy
          · exact hd.1
          · exact ih hy
      · have hv := ev_momentV k θ σ a
        rw [show (ix e.1.c j).toNat = a by omega, ← hv, ev]
        clear ets hm hv
        generalize (momentV a).items = l at hrel
        rw [show ∀ (c : ℚ) (y z w : ℝ), c • (y * (z * w)) = (c • (y * z)) * w from fun c y z w => by
          rw [Rat.smul_def, Rat.smul_def]; ring, ← List.sum_map_mul_left]
        induction hrel with
        | nil => rfl
        | cons hd _ ih => rw [List.map_cons, List.sum_cons, List.map_cons, List.sum_cons, ih, hd.2])
  exact ⟨r, e, kk, w, keys, v ()⟩

end Ajd.Fsv2
