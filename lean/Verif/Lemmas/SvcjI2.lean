import Verif.Model.SvcjI
import Verif.Lemmas.SvcjVolt
import Verif.Lemmas.Ieziziz2
import Verif.Lemmas.Ito
import Verif.Lemmas.SrjdJoint
import Verif.Lemmas.SrjdJoint2

section -- SvcjI

/-! The building blocks of `recursive_ieii_ieziziz`: `int_e_s_poly`, `key_times_poly`, `expand_ieziziz`. -/

namespace Ajd.SvcjI
open Poly Ieziziz Finset

theorem len3 {α : Type*} (l : List α) (h : l.length = 3) : ∃ a b c, l = [a, b, c] := by
  match l, h with
  | [a, b, c], _ => exact ⟨a, b, c, rfl⟩

theorem len9 {α : Type*} (l : List α) (h : l.length = 9) : ∃ a b c d e f g i j, l = [a, b, c, d, e, f, g, i, j] := by
  match l, h with
  | [a, b, c, d, e, f, g, i, j], _ => exact ⟨a, b, c, d, e, f, g, i, j, rfl⟩

theorem len8 {α : Type*} (l : List α) (h : l.length = 8) : ∃ a b c d e f g i, l = [a, b, c, d, e, f, g, i] := by
  match l, h with
  | [a, b, c, d, e, f, g, i], _ => exact ⟨a, b, c, d, e, f, g, i, rfl⟩

theorem len10 {α : Type*} (l : List α) (h : l.length = 10) :
    ∃ a b c d e f g i j o, l = [a, b, c, d, e, f, g, i, j, o] := by
  match l, h with
  | [a, b, c, d, e, f, g, i, j, o], _ => exact ⟨a, b, c, d, e, f, g, i, j, o, rfl⟩

/-- the keys of the moments -/
def KI (K : List ℤ) : Prop := K.length = 10 ∧ 0 ≤ ix K 1 ∧ ∀ i, 3 ≤ i → 0 ≤ ix K i

theorem KI_iff (a b c d e f g i j o : ℤ) : KI [a, b, c, d, e, f, g, i, j, o] ↔
    0 ≤ b ∧ 0 ≤ d ∧ 0 ≤ e ∧ 0 ≤ f ∧ 0 ≤ g ∧ 0 ≤ i ∧ 0 ≤ j ∧ 0 ≤ o := by
  constructor
  · rintro ⟨-, h1, h⟩
    exact ⟨h1, h 3 (by norm_num), h 4 (by norm_num), h 5 (by norm_num), h 6 (by norm_num), h 7 (by norm_num),
      h 8 (by norm_num), h 9 (by norm_num)⟩
  · rintro ⟨h1, h3, h4, h5, h6, h7, h8, h9⟩
    refine ⟨rfl, h1, fun n hn => ?_⟩
    match n, hn with
    | 3, _ => exact h3
    | 4, _ => exact h4
    | 5, _ => exact h5
    | 6, _ => exact h6
    | 7, _ => exact h7
    | 8, _ => exact h8
    | 9, _ => exact h9
    | n + 10, _ => simp [ix]

/-- the value of the last seven components -/
noncomputable def tailI (p : SPar) (K : List ℤ) : ℝ :=
  (p.v0 - p.theta) ^ ix K 3 * p.theta ^ ix K 4 * p.sigma ^ ix K 5 * (p.lmbd ^ ix K 6 * p.mu_v ^ ix K 7 *
    (p.mu_s ^ ix K 8 * p.sigma_s ^ ix K 9))

/-- The value of a key at time `t`. -/
noncomputable def wI (p : SPar) (t : ℝ) (K : List ℤ) : ℝ :=
  Real.exp (ix K 0 * p.k * t) * t ^ ix K 1 * p.k ^ (-ix K 2) * tailI p K

theorem wI_cont (p : SPar) (K : List ℤ) (h : KI K) : Continuous fun s => wI p s K := by
  obtain ⟨n, hn⟩ := Int.eq_ofNat_of_zero_le h.2.1
  unfold wI
  rw [hn]
  simp only [zpow_natCast]
  fun_prop

theorem wI_ev_cont (p : SPar) (r : IPoly) (h : r.Keys KI) : Continuous fun s => ev (wI p s) r := by
  unfold ev
  have h' : ∀ x ∈ r.items, KI x.1 := h
  generalize r.items = l at h'
  induction l with
  | nil => simpa using continuous_const
  | cons a t ih =>
    simp only [List.map_cons, List.sum_cons]
    refine Continuous.add ?_ (ih fun x hx => h' x (by simp [hx]))
    simp only [Rat.smul_def]
    exact continuous_const.mul (wI_cont p a.1 (h' a (by simp)))

/-- the factor of the type of `int_e_s_poly` -/
noncomputable def xt (p : SPar) (tp : ℕ) : ℝ :=
  if tp = 1 then p.v0 - p.theta else if tp = 2 then p.theta else if tp = 3 then p.sigma else 1

/-- the key made in `int_e_s_poly` -/
def esKey (tp : ℕ) (K f : List ℤ) : List ℤ :=
  if tp = 1 ∨ tp = 2 ∨ tp = 3 then (f.modify 2 (· + ix K 2) ++ K.drop 3).modify (tp + 2) (· + 1)
  else f.modify 2 (· + ix K 2) ++ K.drop 3

theorem esKey_val (p : SPar) (hk : p.k ≠ 0) (t : ℝ) (tp : ℕ) (K : List ℤ) (hK : KI K) (f : List ℤ)
    (hf : f.length = 3 ∧ 0 ≤ ix f 1) : KI (esKey tp K f) ∧ wI p t (esKey tp K f) =
      xt p tp * (p.k ^ (-ix K 2) * tailI p K) * Ito.etVal p.k t f := by
  obtain ⟨a0, a1, a2, a3, a4, a5, a6, a7, a8, a9, rfl⟩ := len10 K hK.1
  obtain ⟨b0, b1, b2, rfl⟩ := len3 f hf.1
  have h := (KI_iff _ _ _ _ _ _ _ _ _ _).1 hK
  have hb : 0 ≤ b1 := hf.2
  have ez : p.k ^ (-(b2 + a2)) = p.k ^ (-b2) * p.k ^ (-a2) := by rw [neg_add, zpow_add₀ hk]
  unfold esKey xt
  by_cases h1 : tp = 1
  · subst h1
    refine ⟨(KI_iff _ _ _ _ _ _ _ _ _ _).2 (by dsimp only; omega), ?_⟩
    simp only [wI, tailI, Ito.etVal, true_or, if_true, List.modify, List.modifyTailIdx, List.modifyTailIdx.go,
      List.modifyHead, List.drop, List.cons_append, List.nil_append, ix_cons_succ, ix_cons_zero]
    rw [ez, Ito.zpow_succ_nonneg _ a3 (by omega)]
    ring
  · by_cases h2 : tp = 2
    · subst h2
      refine ⟨(KI_iff _ _ _ _ _ _ _ _ _ _).2 (by dsimp only; omega), ?_⟩
      simp only [wI, tailI, Ito.etVal, true_or, or_true, if_true, List.modify, List.modifyTailIdx,
        List.modifyTailIdx.go, h1,
        List.modifyHead, List.drop, List.cons_append, List.nil_append, ix_cons_succ, ix_cons_zero]
      rw [ez, Ito.zpow_succ_nonneg _ a4 (by omega)]
      norm_num
      ring
    · by_cases h3 : tp = 3
      · subst h3
        refine ⟨(KI_iff _ _ _ _ _ _ _ _ _ _).2 (by dsimp only; omega), ?_⟩
        simp only [wI, tailI, Ito.etVal, or_true, if_true, List.modify, List.modifyTailIdx,
          List.modifyTailIdx.go, h1,
          List.modifyHead, List.drop, List.cons_append, List.nil_append, ix_cons_succ, ix_cons_zero]
        rw [ez, Ito.zpow_succ_nonneg _ a5 (by omega)]
        norm_num
        ring
      · rw [if_neg (by omega), if_neg h1, if_neg h2, if_neg h3]
        refine ⟨(KI_iff _ _ _ _ _ _ _ _ _ _).2 (by omega), ?_⟩
        simp only [wI, tailI, Ito.etVal, List.modify, List.modifyTailIdx,
          List.modifyTailIdx.go,
          List.modifyHead, List.drop, List.cons_append, List.nil_append, ix_cons_succ, ix_cons_zero]
        rw [ez]
        ring

theorem intES_spec (c : ℚ) (tp : ℕ) (m1 m2 : ℤ) (h2 : 0 ≤ m2) (r : IPoly) (hr : r.Keys KI) :
    ∃ q, intES c tp m1 m2 r = .ok q ∧ q.keyfor = kfI ∧ q.Keys KI ∧
      (∀ (p : SPar) (t : ℝ), p.k ≠ 0 → ev (wI p t) q = c * xt p tp *
        ∫ s in (0 : ℝ)..t, Real.exp (m1 * p.k * s) * s ^ m2.toNat * ev (wI p s) r) ∧
      ∀ f : List ℤ → ℝ, ∃ g : List ℤ → ℝ, ev f q = ev g r := by
  have hterm : ∀ e ∈ r.items, intESTerms c tp m1 m2 e = .ok
      ((Ito.intEtNat (ix e.1 0 + m1) (ix e.1 1 + m2).toNat).items.map fun f =>
        (esKey tp e.1 f.1, c * e.2 * f.2)) := by
    intro e he
    have := (hr e he).2.1
    unfold intESTerms Ito.intEt
    rw [if_neg (by omega)]
    rfl
  let φ : ({p : SPar // p.k ≠ 0} × ℝ) ⊕ (List ℤ → ℝ) → List ℤ → ℝ := fun i =>
    Sum.elim (fun a => wI a.1.1 a.2) id i
  let ψ : ({p : SPar // p.k ≠ 0} × ℝ) ⊕ (List ℤ → ℝ) → List ℤ → ℝ := fun i =>
    Sum.elim (fun a K => c * xt a.1.1 tp *
        ∫ s in (0 : ℝ)..a.2, Real.exp (m1 * a.1.1.k * s) * s ^ m2.toNat * wI a.1.1 s K)
      (fun f K => c * ev (fun e => f (esKey tp K e)) (Ito.intEtNat (ix K 0 + m1) (ix K 1 + m2).toNat)) i
  obtain ⟨q, e, qk, -, qK, qv⟩ := subst_spec kfI (intESTerms c tp m1 m2) r KI φ ψ (by
    intro e he
    refine ⟨_, hterm e he, ?_, ?_⟩
    · intro x hx
      obtain ⟨f, hf, rfl⟩ := List.mem_map.1 hx
      exact (esKey_val ⟨⟨1, 0, 0, 0, 0⟩, 0, 0, 0, 0, 0, 0, 0⟩ one_ne_zero 0 tp e.1 (hr e he) f.1
        (Ito.intEtNat_keys _ _ f hf)).1
    · rintro (⟨⟨p, hp⟩, t⟩ | f)
      · simp only [φ, ψ, Sum.elim_inl]
        obtain ⟨a1, ha1⟩ := Int.eq_ofNat_of_zero_le (hr e he).2.1
        obtain ⟨m, rfl⟩ := Int.eq_ofNat_of_zero_le h2
        have hI : ∫ s in (0 : ℝ)..t, Real.exp (m1 * p.k * s) * s ^ (Int.toNat m) * wI p s e.1 =
            (p.k ^ (-ix e.1 2) * tailI p e.1) *
              ev (Ito.etVal p.k t) (Ito.intEtNat (ix e.1 0 + m1) (ix e.1 1 + m).toNat) := by
          rw [Ito.ev_intEtNat _ _ hp, ← intervalIntegral.integral_const_mul]
          congr 1
          funext s
          unfold wI
          rw [ha1]
          have : ((a1 : ℤ) + m).toNat = a1 + m := by omega
          rw [this, Int.toNat_natCast, zpow_natCast, pow_add]
          push_cast
          rw [show ((ix e.1 0 : ℝ) + m1) * p.k * s = ix e.1 0 * p.k * s + m1 * p.k * s by ring, Real.exp_add]
          ring
        rw [hI]
        unfold ev
        rw [List.map_map, Rat.smul_def, ← mul_assoc, ← mul_assoc, ← List.sum_map_mul_left]
        congr 1
        apply List.map_congr_left
        intro f hf
        simp only [Function.comp, Rat.smul_def]
        rw [(esKey_val p hp t tp e.1 (hr e he) f.1 (Ito.intEtNat_keys _ _ f hf)).2]
        push_cast
        ring
      · simp only [φ, ψ, Sum.elim_inr, id]
        unfold ev
        rw [List.map_map, Rat.smul_def, ← mul_assoc, ← List.sum_map_mul_left]
        congr 1
        apply List.map_congr_left
        intro x _
        simp only [Function.comp, Rat.smul_def]
        push_cast
        ring)
  refine ⟨q, e, qk, qK, fun p t hp => ?_, fun f => ⟨_, qv (Sum.inr f)⟩⟩
  rw [show ev (wI p t) q = _ from qv (Sum.inl (⟨p, hp⟩, t))]
  simp only [ψ, Sum.elim_inl]
  have hK : ∀ x ∈ r.items, KI x.1 := hr
  unfold ev
  generalize r.items = l at hK
  induction l with
  | nil => simp
  | cons a l ih =>
    simp only [List.map_cons, List.sum_cons]
    rw [ih fun x hx => hK x (by simp [hx])]
    have c1 := wI_cont p a.1 (hK a (by simp))
    have c2 : Continuous fun s => (l.map fun kv => kv.2 • wI p s kv.1).sum :=
      wI_ev_cont p ⟨[], l⟩ fun x hx => hK x (by simp [hx])
    have hs : (∫ s in (0 : ℝ)..t, Real.exp (m1 * p.k * s) * s ^ m2.toNat *
        (a.2 • wI p s a.1 + (l.map fun kv => kv.2 • wI p s kv.1).sum)) =
        a.2 * (∫ s in (0 : ℝ)..t, Real.exp (m1 * p.k * s) * s ^ m2.toNat * wI p s a.1) +
        ∫ s in (0 : ℝ)..t, Real.exp (m1 * p.k * s) * s ^ m2.toNat * (l.map fun kv => kv.2 • wI p s kv.1).sum := by
      rw [← intervalIntegral.integral_const_mul, ← intervalIntegral.integral_add]
      · congr 1
        funext s
        rw [Rat.smul_def]; ring
      · apply Continuous.intervalIntegrable; fun_prop
      · apply Continuous.intervalIntegrable; fun_prop
    rw [hs, mul_add, Rat.smul_def]
    ring

end Ajd.SvcjI

end -- SvcjI

section -- SvcjI2

/-! `recursive_ieii_ieziziz` and `moment_ieii_ieziziz`. -/

namespace Ajd.SvcjI
open Poly Ieziziz Finset MvPolynomial

/-- parameters, the moments that solve the equations, and a time -/
structure Ctx where
  p : SPar
  N : Fam
  t : ℝ
  hk : p.k ≠ 0
  hN : JSys p.toPar p.v0 p.theta p.sigma N
  ht : 0 ≤ t

/-- What the Poly of a moment has to satisfy. -/
def GoodN (n1 n2 n3 n4 n5 n6 : ℕ) (r : IPoly) : Prop :=
  r.keyfor = kfI ∧ r.Keys KI ∧ (Odd n3 → ∀ f : List ℤ → ℝ, ev f r = 0) ∧
    ∀ x : Ctx, ev (wI x.p x.t) r = x.N n1 n2 n3 n4 n5 n6 x.t

/-- the same at a later or earlier time -/
def Ctx.at (x : Ctx) (s : ℝ) (hs : 0 ≤ s) : Ctx := ⟨x.p, x.N, s, x.hk, x.hN, hs⟩

/-! ### the four lines -/

theorem four_spec (c : ℚ) (m s : ℤ) (hs : 0 ≤ s) (n1 n2 n3 n4 n5 n6 : ℕ) (I1 I2 I3 : List ℤ) (T : Tab)
    (h1 : ∃ v, dget T I1 = some v ∧ GoodN n1 n2 n3 n4 n5 n6 v)
    (h2 : ∃ v, dget T I2 = some v ∧ GoodN (n1 + 1) n2 n3 n4 n5 n6 v)
    (h3 : ∃ v, dget T I3 = some v ∧ GoodN n1 n2 n3 (n4 + 1) n5 n6 v) :
    ∃ q, four c m s I1 I2 I3 T = .ok q ∧ q.keyfor = kfI ∧ q.Keys KI ∧ (Odd n3 → ∀ f : List ℤ → ℝ, ev f q = 0) ∧
      ∀ x : Ctx, ev (wI x.p x.t) q = c * ∫ u in (0 : ℝ)..x.t, Real.exp (m * x.p.k * u) * u ^ s.toNat *
        VV x.p.k x.p.v0 x.p.theta x.p.sigma x.N n1 n2 n3 n4 n5 n6 u := by
  obtain ⟨v1, d1, k1, K1, o1, w1⟩ := h1
  obtain ⟨v2, d2, k2, K2, o2, w2⟩ := h2
  obtain ⟨v3, d3, k3, K3, o3, w3⟩ := h3
  obtain ⟨q1, e1, a1, b1, c1, g1⟩ := intES_spec c 1 m s hs v1 K1
  obtain ⟨q2, e2, a2, b2, c2, g2⟩ := intES_spec c 2 (m + 1) s hs v1 K1
  obtain ⟨q3, e3, a3, b3, c3, g3⟩ := intES_spec c 3 m s hs v2 K2
  obtain ⟨q4, e4, a4, b4, c4, g4⟩ := intES_spec c 4 m s hs v3 K3
  obtain ⟨r1, f1, x1, -, -, y1, z1⟩ := add_spec q1 q2 (by rw [a1, a2])
  obtain ⟨r2, f2, x2, -, -, y2, z2⟩ := add_spec r1 q3 (by rw [x1, a1, a3])
  obtain ⟨r3, f3, x3, -, -, y3, z3⟩ := add_spec r2 q4 (by rw [x2, x1, a1, a4])
  refine ⟨r3, ?_, by rw [x3, x2, x1, a1], y3 _ (y2 _ (y1 _ b1 b2) b3) b4, fun ho f => ?_, fun x => ?_⟩
  · unfold four
    rw [Srjd.lookup_ok d1, ok_bind, e1, ok_bind, e2, ok_bind, f1, ok_bind, Srjd.lookup_ok d2, ok_bind, e3, ok_bind,
      f2, ok_bind, Srjd.lookup_ok d3, ok_bind, e4, ok_bind, f3]
  · obtain ⟨f1, h1⟩ := g1 f
    obtain ⟨f2, h2⟩ := g2 f
    obtain ⟨f3, h3⟩ := g3 f
    obtain ⟨f4, h4⟩ := g4 f
    rw [z3, z2, z1, h1, h2, h3, h4, o1 ho, o1 ho, o2 ho, o3 ho]
    simp
  · rw [z3, z2, z1, c1 _ _ x.hk, c2 _ _ x.hk, c3 _ _ x.hk, c4 _ _ x.hk]
    have hc := x.hN.cont
    have hi : ∀ (g : ℝ → ℝ) (_ : ContinuousOn g (Set.Ici 0)) (a : ℝ), IntervalIntegrable
        (fun u => Real.exp (a * x.p.k * u) * u ^ s.toNat * g u) MeasureTheory.volume 0 x.t := fun g hg a => by
      apply ContinuousOn.intervalIntegrable
      rw [Set.uIcc_of_le x.ht]
      refine ContinuousOn.mono ?_ (Set.Icc_subset_Ici_self : Set.Icc 0 x.t ⊆ Set.Ici 0)
      exact ContinuousOn.mul (by fun_prop) hg
    have hcg : ∀ (v : IPoly) (g : ℝ → ℝ) (a : ℝ), (∀ u, 0 ≤ u → ev (wI x.p u) v = g u) →
        ∫ u in (0 : ℝ)..x.t, Real.exp (a * x.p.k * u) * u ^ s.toNat * ev (wI x.p u) v =
        ∫ u in (0 : ℝ)..x.t, Real.exp (a * x.p.k * u) * u ^ s.toNat * g u := fun v g a h =>
      Srjd.int_congr _ x.ht _ _ fun u hu _ => by rw [h u hu]
    rw [hcg v1 (x.N n1 n2 n3 n4 n5 n6) m fun u hu => w1 (x.at u hu),
      hcg v1 (x.N n1 n2 n3 n4 n5 n6) _ fun u hu => w1 (x.at u hu),
      hcg v2 (x.N (n1 + 1) n2 n3 n4 n5 n6) m fun u hu => w2 (x.at u hu),
      hcg v3 (x.N n1 n2 n3 (n4 + 1) n5 n6) m fun u hu => w3 (x.at u hu)]
    have hsplit : ∀ u, Real.exp (m * x.p.k * u) * u ^ s.toNat *
        VV x.p.k x.p.v0 x.p.theta x.p.sigma x.N n1 n2 n3 n4 n5 n6 u =
        (x.p.v0 - x.p.theta) * (Real.exp (m * x.p.k * u) * u ^ s.toNat * x.N n1 n2 n3 n4 n5 n6 u) +
        x.p.theta * (Real.exp ((m + 1 : ℤ) * x.p.k * u) * u ^ s.toNat * x.N n1 n2 n3 n4 n5 n6 u) +
        x.p.sigma * (Real.exp (m * x.p.k * u) * u ^ s.toNat * x.N (n1 + 1) n2 n3 n4 n5 n6 u) +
        Real.exp (m * x.p.k * u) * u ^ s.toNat * x.N n1 n2 n3 (n4 + 1) n5 n6 u := by
      intro u
      unfold VV
      rw [show ((m + 1 : ℤ) : ℝ) * x.p.k * u = m * x.p.k * u + x.p.k * u by push_cast; ring, Real.exp_add]
      ring
    simp only [hsplit]
    have i1 := (hi _ (hc n1 n2 n3 n4 n5 n6) m).const_mul (x.p.v0 - x.p.theta)
    have i2 := (hi _ (hc n1 n2 n3 n4 n5 n6) (m + 1 : ℤ)).const_mul x.p.theta
    have i3 := (hi _ (hc (n1 + 1) n2 n3 n4 n5 n6) m).const_mul x.p.sigma
    have i4 := hi _ (hc n1 n2 n3 (n4 + 1) n5 n6) m
    rw [intervalIntegral.integral_add ((i1.add i2).add i3) i4, intervalIntegral.integral_add (i1.add i2) i3,
      intervalIntegral.integral_add i1 i2, intervalIntegral.integral_const_mul, intervalIntegral.integral_const_mul,
      intervalIntegral.integral_const_mul]
    simp only [xt]
    norm_num
    ring

/-! ### `key_times_poly` -/

/-- value of the components of a key of `expand_ieziziz` that do not depend on `s` -/
noncomputable def headX (p : SPar) (t : ℝ) (k : List ℤ) : ℝ :=
  Real.exp (ix k 0 * p.k * t) * t ^ ix k 1 * p.k ^ (-ix k 4) *
    (p.lmbd ^ ix k 5 * p.mu_v ^ ix k 6 * (p.mu_s ^ ix k 7 * p.sigma_s ^ ix k 8))

/-- value of a key of `expand_ieziziz` -/
noncomputable def wX (p : SPar) (s t : ℝ) (k : List ℤ) : ℝ :=
  headX p t k * (Real.exp (ix k 2 * p.k * s) * s ^ ix k 3)

theorem keyTimes_spec (k : List ℤ) (hk : NN 9 k) (q : IPoly) (hq : q.Keys KI) :
    (keyTimes k q).keyfor = kfI ∧ (keyTimes k q).Keys KI ∧
      (∀ (p : SPar) (t : ℝ), p.k ≠ 0 → ev (wI p t) (keyTimes k q) = headX p t k * ev (wI p t) q) ∧
      ∀ f : List ℤ → ℝ, ∃ g : List ℤ → ℝ, ev f (keyTimes k q) = ev g q := by
  obtain ⟨c0, c1, c2, c3, c4, c5, c6, c7, c8, rfl⟩ := len9 k hk.1
  have hn := hk.2
  have n1 : 0 ≤ c1 := hn 1
  have n5 : 0 ≤ c5 := hn 5
  have n6 : 0 ≤ c6 := hn 6
  have n7 : 0 ≤ c7 := hn 7
  have n8 : 0 ≤ c8 := hn 8
  refine ⟨by simp [keyTimes], ?_, fun p t hp => ?_, fun f => ?_⟩
  · apply ofTerms_Keys
    intro x hx
    obtain ⟨e, he, rfl⟩ := List.mem_map.1 hx
    have := hq e he
    refine (KI_iff _ _ _ _ _ _ _ _ _ _).2 ?_
    have h1 := this.2.1
    have h2 := this.2.2
    simp only [ix_cons_succ, ix_cons_zero]
    have a3 := h2 3 (by norm_num)
    have a4 := h2 4 (by norm_num)
    have a5 := h2 5 (by norm_num)
    have a6 := h2 6 (by norm_num)
    have a7 := h2 7 (by norm_num)
    have a8 := h2 8 (by norm_num)
    have a9 := h2 9 (by norm_num)
    omega
  · rw [← ev_mul_const]
    refine ev_ofTerms_map _ _ _ _ _ fun e he => ?_
    have := hq e he
    obtain ⟨a0, a1, a2, a3, a4, a5, a6, a7, a8, a9, hE⟩ := len10 e.1 this.1
    rw [hE] at this
    have h := (KI_iff _ _ _ _ _ _ _ _ _ _).1 this
    simp only [hE, wI, tailI, headX, ix_cons_succ, ix_cons_zero]
    rw [zpow_add_nn _ a1 c1 (by omega) n1, zpow_add_nn _ a6 c5 (by omega) n5, zpow_add_nn _ a7 c6 (by omega) n6,
      zpow_add_nn _ a8 c7 (by omega) n7, zpow_add_nn _ a9 c8 (by omega) n8, neg_add, zpow_add₀ hp]
    push_cast
    rw [show ((a0 : ℝ) + c0) * p.k * t = a0 * p.k * t + c0 * p.k * t by ring, Real.exp_add]
    simp only [Rat.smul_def, smul_eq_mul]
    ring
  · exact ⟨_, ev_ofTerms_map f (fun e => f [ix e 0 + c0, ix e 1 + c1, ix e 2 + c4, ix e 3, ix e 4, ix e 5,
      ix e 6 + c5, ix e 7 + c6, ix e 8 + c7, ix e 9 + c8]) _ _ _ fun e he => rfl⟩


/-! ### `expand_ieziziz` and `ieziziz_to_ieii_ieziziz` -/

theorem NN_nine (a b c d e f g i j : ℤ) (h : 0 ≤ a ∧ 0 ≤ b ∧ 0 ≤ c ∧ 0 ≤ d ∧ 0 ≤ e ∧ 0 ≤ f ∧ 0 ≤ g ∧ 0 ≤ i ∧ 0 ≤ j) :
    NN 9 [a, b, c, d, e, f, g, i, j] := by
  obtain ⟨h0, h1, h2, h3, h4, h5, h6, h7, h8⟩ := h
  refine ⟨rfl, fun n => ?_⟩
  match n with
  | 0 => exact h0
  | 1 => exact h1
  | 2 => exact h2
  | 3 => exact h3
  | 4 => exact h4
  | 5 => exact h5
  | 6 => exact h6
  | 7 => exact h7
  | 8 => exact h8
  | n + 9 => simp

theorem NN_eight (a b c d e f g i : ℤ) (h : NN 8 [a, b, c, d, e, f, g, i]) :
    0 ≤ a ∧ 0 ≤ b ∧ 0 ≤ c ∧ 0 ≤ d ∧ 0 ≤ e ∧ 0 ≤ f ∧ 0 ≤ g ∧ 0 ≤ i :=
  ⟨h.2 0, h.2 1, h.2 2, h.2 3, h.2 4, h.2 5, h.2 6, h.2 7⟩

theorem expandZ_spec (m : IPoly) (hm : m.Keys (NN 8)) : (expandZ m).Keys (NN 9) ∧
    ∀ (p : SPar) (s t : ℝ), ev (wX p s t) (expandZ m) = ev (wZ p.toPar s t) m := by
  constructor
  · apply ofTerms_Keys
    intro x hx
    obtain ⟨e, he, hx⟩ := List.mem_flatMap.1 hx
    obtain ⟨i, hi, rfl⟩ := List.mem_map.1 hx
    have h := hm e he
    obtain ⟨c0, c1, c2, c3, c4, c5, c6, c7, hE⟩ := len8 e.1 h.1
    rw [hE] at h
    have := NN_eight _ _ _ _ _ _ _ _ h
    simp only [hE, ix_cons_succ, ix_cons_zero, List.mem_range] at hi ⊢
    exact NN_nine _ _ _ _ _ _ _ _ _ (by omega)
  · intro p s t
    refine ev_ofTerms_flatMap _ _ _ _ _ fun e he => ?_
    have h := hm e he
    obtain ⟨c0, c1, c2, c3, c4, c5, c6, c7, hE⟩ := len8 e.1 h.1
    rw [hE] at h
    have := NN_eight _ _ _ _ _ _ _ _ h
    obtain ⟨n, rfl⟩ := Int.eq_ofNat_of_zero_le this.2.2.1
    unfold expandTerms
    rw [hE, List.map_map]
    simp only [ix_cons_succ, ix_cons_zero, wZ, zpow_natCast]
    have hn : ((n : ℤ) + 1).toNat = n + 1 := by omega
    rw [hn, list_range_sum, sub_eq_add_neg, add_pow, Rat.smul_def]
    simp only [mul_sum, sum_mul]
    refine sum_congr rfl fun i hi => ?_
    have hi' : i ≤ n := by have := mem_range.1 hi; omega
    have e1 : ((n : ℤ) - i).toNat = n - i := by omega
    have e2 : (n : ℤ) - i = ((n - i : ℕ) : ℤ) := by omega
    simp only [Function.comp, wX, headX, Rat.smul_def, ix_cons_succ, ix_cons_zero, List.drop, List.cons_append,
      List.nil_append, e2, Int.toNat_natCast, zpow_natCast]
    push_cast
    rw [neg_pow s]
    ring

theorem toI_spec (m : IPoly) (hm : m.Keys (NN 8)) : (toI m).keyfor = kfI ∧ (toI m).Keys KI ∧
    ∀ (p : SPar) (t : ℝ), ev (wI p t) (toI m) = ev (wZ p.toPar 0 t) m := by
  refine ⟨by simp [toI], ?_, fun p t => ?_⟩
  · apply ofTerms_Keys
    intro x hx
    obtain ⟨e, he, rfl⟩ := List.mem_map.1 hx
    have h := (hm e he).2
    refine (KI_iff _ _ _ _ _ _ _ _ _ _).2 ⟨h 2, le_rfl, le_rfl, le_rfl, h 4, h 5, h 6, h 7⟩
  · refine ev_ofTerms_map _ _ _ _ _ fun e he => ?_
    simp only [wI, tailI, wZ, ix_cons_succ, ix_cons_zero, zpow_zero, mul_zero, Real.exp_zero, sub_zero]
    simp only [mul_one, one_mul]

/-! ### the jump moments are not empty -/

theorem aeval_G_pos (κ : N3 → ℝ) (hκ : ∀ n, 0 < κ n) (a b c : ℕ) : 0 < aeval κ (G a b c) := by
  suffices H : ∀ n a b c, a + b + c = n → 0 < aeval κ (G a b c) from H _ a b c rfl
  intro n
  induction n using Nat.strong_induction_on with
  | _ n ih =>
    have key : ∀ (e : N3) (a b c : ℕ), a + b + c < n → 0 < aeval κ (T e (G a b c)) := by
      intro e a b c h
      rw [T_G_sum, map_sum]
      refine sum_pos (fun i hi => ?_) ⟨0, by simp⟩
      rw [map_sum]
      refine sum_pos (fun j hj => ?_) ⟨0, by simp⟩
      rw [map_sum]
      refine sum_pos (fun l hl => ?_) ⟨0, by simp⟩
      rw [map_nsmul, map_mul, aeval_X, nsmul_eq_mul]
      have h1 := mem_range.1 hi
      have h2 := mem_range.1 hj
      have h3 := mem_range.1 hl
      have := ih (a - i + (b - j) + (c - l)) (by omega) _ _ _ rfl
      have h4 : 0 < a.choose i * b.choose j * c.choose l :=
        Nat.mul_pos (Nat.mul_pos (Nat.choose_pos (by omega)) (Nat.choose_pos (by omega))) (Nat.choose_pos (by omega))
      have h5 : (0 : ℝ) < ((a.choose i * b.choose j * c.choose l : ℕ) : ℝ) := by exact_mod_cast h4
      exact mul_pos h5 (mul_pos (hκ _) this)
    intro a b c h
    match a, b, c, h with
    | 0, 0, 0, _ => rw [G_zero]; simp
    | a + 1, b, c, h => rw [← G_one]; exact key _ _ _ _ (by omega)
    | 0, b + 1, c, h => rw [← G_two]; exact key _ _ _ _ (by omega)
    | 0, 0, c + 1, h => rw [← G_three]; exact key _ _ _ _ (by omega)

theorem gaussMom_pos (n : ℕ) : 0 < gaussMom 1 1 n ∧ 0 < gaussMom 1 1 (n + 1) := by
  induction n with
  | zero => rw [gaussMom_zero, gaussMom_one]; exact ⟨one_pos, one_pos⟩
  | succ n ih =>
    refine ⟨ih.2, ?_⟩
    rw [gaussMom_rec]
    have := ih.1
    have := ih.2
    positivity

theorem kapZ_pos (n : N3) : 0 < kapZ ⟨1, 1, 1, 1, 1⟩ 0 1 n := by
  unfold kapZ intE
  have hg : ((1 : ℝ) ^ 2).toNNReal = 1 := by simp
  have h1 := (gaussMom_pos n.2.2).1
  have h2 : (0 : ℝ) < if n.1 = 0 then 1 - 0 else (Real.exp (n.1 * 1 * 1) - Real.exp (n.1 * 1 * 0)) / (n.1 * 1) := by
    split_ifs with h
    · norm_num
    · have hn : (0 : ℝ) < n.1 := by exact_mod_cast Nat.pos_of_ne_zero h
      have : Real.exp (n.1 * 1 * 0) < Real.exp (n.1 * 1 * 1) := by
        rw [Real.exp_lt_exp]; linarith
      apply div_pos
      · linarith
      · linarith
  simp only [hg]
  positivity

theorem expandZ_ne (a b c : ℕ) (m : IPoly) (hm : Ieziziz.moment a b c = .ok m) : (expandZ m).items ≠ [] := by
  obtain ⟨r, e, -, -, -, rK, rv⟩ := moment_spec a b c
  rw [e] at hm
  obtain rfl : r = m := by simpa using hm
  intro h
  have h1 := rv ⟨1, 1, 1, 1, 1⟩ 0 1
  have h2 := (expandZ_spec r rK).2 ⟨⟨1, 1, 1, 1, 1⟩, 0, 0, 0, 0, 0, 0, 0⟩ 0 1
  rw [h1] at h2
  have := aeval_G_pos _ kapZ_pos a b c
  rw [← h2] at this
  unfold ev at this
  rw [h] at this
  simp at this

end Ajd.SvcjI

end -- SvcjI2
