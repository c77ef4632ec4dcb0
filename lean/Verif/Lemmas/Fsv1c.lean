import Verif.Spec.Fsv1c
import Verif.Lemmas.CMoms
import Verif.Lemmas.IntEv
import Verif.Lemmas.ItoShift
import Verif.Lemmas.Fsv1
import Verif.Lemmas.Deriv

namespace Ajd.Fsv1c
open Poly Ito Utils MvPolynomial MeasureTheory

/-! ### values of keys -/

/-- value of a key of the joint moments at time `t` -/
noncomputable def v6 (p : Ito.Par) (t : ℝ) (k : List ℤ) : ℝ :=
  Real.exp (ix k 0 * p.k * t) * t ^ ix k 1 * p.k ^ (-ix k 2) * (p.v - p.θ) ^ ix k 3 *
    p.θ ^ ix k 4 * p.σ ^ ix k 5

def K6 (k : List ℤ) : Prop :=
  k.length = 6 ∧ 0 ≤ ix k 1 ∧ 0 ≤ ix k 3 ∧ 0 ≤ ix k 4 ∧ 0 ≤ ix k 5

/-- the factor selected by `tp` -/
noncomputable def fac (p : Ito.Par) (tp : ℕ) : ℝ :=
  if tp = 1 then p.v - p.θ else if tp = 2 then p.θ else p.σ

theorem v6_continuous (p : Ito.Par) (m : ℤ) (k : List ℤ) (h : K6 k) :
    Continuous fun s => Real.exp (m * p.k * s) * v6 p s k := by
  unfold v6
  obtain ⟨n, hn⟩ := Int.eq_ofNat_of_zero_le h.2.1
  rw [hn]
  simp only [Int.ofNat_eq_natCast, zpow_natCast]
  fun_prop

theorem intMIEII_spec (c : ℚ) (tp : ℕ) (m : ℤ) (P : IPoly) (hP : P.Keys K6) :
    ∃ Q, intMIEII c tp m P = .ok Q ∧ Q.keyfor = P.keyfor ∧ Q.WF ∧ Q.Keys K6 ∧
      (∀ (p : Ito.Par) (t : ℝ), p.k ≠ 0 → ev (v6 p t) Q =
        c * fac p tp * ∫ s in (0 : ℝ)..t, Real.exp (m * p.k * s) * ev (v6 p s) P) ∧
      ∀ A : Prop, (P.NZKeys fun _ => A) → Q.NZKeys fun _ => A := by
  obtain ⟨Q, e, qk, qw, qK, qv⟩ := subst_spec (ι := {x : Ito.Par × ℝ // x.1.k ≠ 0}) P.keyfor
    (fun e => do
      let sub ← intEt (m + ix e.1 0) (ix e.1 1)
      pure (sub.items.map fun e2 => (intKey tp e.1 e2.1, c * e.2 * e2.2))) P K6
    (fun x => v6 x.1.1 x.1.2) (fun x k => c * fac x.1.1 tp * ∫ s in (0 : ℝ)..x.1.2,
      Real.exp (m * x.1.1.k * s) * v6 x.1.1 s k) (by
    rintro ⟨k1, v⟩ he
    have h1 := hP _ he
    simp only at h1
    obtain ⟨hl, h1, h3, h4, h5⟩ := h1
    refine ⟨_, by
      simp only [intEt]
      rw [if_neg (by omega)]; rfl, ?_, ?_⟩
    · intro x hx
      obtain ⟨y, hy, rfl⟩ := List.mem_map.1 hx
      have := (intEtNat_keys _ _ y hy).2
      simp only [K6, intKey, ix_cons_zero, ix_cons_succ, List.length_cons, List.length_nil]
      split_ifs <;> refine ⟨trivial, ?_, ?_, ?_, ?_⟩ <;> omega
    · rintro ⟨⟨p, t⟩, hk⟩
      simp only at hk ⊢
      rw [List.map_map]
      have hi : ∫ s in (0 : ℝ)..t, Real.exp (m * p.k * s) * v6 p s k1 =
          ev (etVal p.k t) (intEtNat (m + ix k1 0) (ix k1 1).toNat) *
          (p.k ^ (-ix k1 2) * (p.v - p.θ) ^ ix k1 3 * p.θ ^ ix k1 4 * p.σ ^ ix k1 5) := by
        rw [ev_intEtNat p.k t hk, ← intervalIntegral.integral_mul_const]
        congr 1
        funext s
        obtain ⟨n, hn⟩ := Int.eq_ofNat_of_zero_le h1
        rw [v6, hn, Int.cast_add, add_mul, add_mul, Real.exp_add]
        simp only [zpow_natCast, Int.toNat_natCast]
        ring
      rw [hi]
      unfold ev
      rw [← List.sum_map_mul_right, ← List.sum_map_mul_left, Rat.smul_def,
        ← List.sum_map_mul_left]
      congr 1
      apply List.map_congr_left
      rintro ⟨k2, v2⟩ _
      have z1 : ∀ (b : Prop) [Decidable b] (x : ℝ) (a : ℤ), 0 ≤ a →
          x ^ (a + if b then 1 else 0) = x ^ a * if b then x else 1 := by
        intro b _ x a ha
        split_ifs
        · exact zpow_succ_nonneg x a ha
        · simp
      have z2 : ∀ (b : Prop) [Decidable b] (x : ℝ) (a : ℤ), 0 ≤ a →
          x ^ (a + if b then 0 else 1) = x ^ a * if b then 1 else x := by
        intro b _ x a ha
        split_ifs
        · simp
        · exact zpow_succ_nonneg x a ha
      simp only [Function.comp, v6, intKey, ix_cons_zero, ix_cons_succ, etVal, neg_add,
        zpow_add₀ hk, z1 _ _ _ h3, z1 _ _ _ h4, z2 _ _ _ h5, Rat.smul_def, fac]
      push_cast
      by_cases a1 : tp = 1
      · simp [a1]; ring
      · by_cases a2 : tp = 2
        · simp [a2]; ring
        · simp [a1, a2]; ring)
  refine ⟨Q, e, qk, qw, qK, ?_, ?_⟩
  · intro p t hk
    rw [qv ⟨(p, t), hk⟩, (intervalIntegral_ev _ _ _ _ _ fun e he =>
      (v6_continuous p m e.1 (hP e he)).intervalIntegrable _ _).2]
    rw [mul_comm, ← ev_mul_const]
  · intro A hA
    unfold subst at e
    cases hm : P.items.mapM (fun e : List ℤ × ℚ => (do
      let sub ← intEt (m + ix e.1 0) (ix e.1 1)
      pure (sub.items.map fun e2 => (intKey tp e.1 e2.1, c * e.2 * e2.2)) :
        Except PyErr (List (List ℤ × ℚ)))) with
    | error _ => rw [hm] at e; cases e
    | ok ts =>
      rw [hm] at e
      cases e
      apply ofTerms_NZKeys
      intro x hx hne
      obtain ⟨l, hl, hx⟩ := List.mem_flatten.1 hx
      obtain ⟨e1, he1, hf⟩ := mapM_mem _ _ _ hm l hl
      cases hs : intEt (m + ix e1.1 0) (ix e1.1 1) with
      | error _ => rw [hs] at hf; cases hf
      | ok sub =>
        rw [hs] at hf
        cases hf
        obtain ⟨e2, he2, rfl⟩ := List.mem_map.1 hx
        refine hA e1 he1 fun h0 => hne ?_
        simp [h0]

/-! ### the recursion -/

/-- a solution of the Itô moment equation started at time 0 and a time -/
structure Env where
  p : Ito.Par
  M : ℕ → ℕ → ℕ → ℝ → ℝ
  t : ℝ
  hk : p.k ≠ 0
  h0 : p.t0 = 0
  hM : ItoRec p M
  ht : 0 ≤ t

/-- what a table entry satisfies -/
def Good (i : Idx) (P : IPoly) : Prop :=
  P.keyfor = kf6 ∧ P.Keys K6 ∧ (∀ x : Env, ev (v6 x.p x.t) P =
    x.M i.1.toNat i.2.1.toNat i.2.2.toNat x.t) ∧ P.NZKeys fun _ => i.2.2 % 2 = 0

/-- the value added by one call -/
noncomputable def callVal (p : Ito.Par) (M : ℕ → ℕ → ℕ → ℝ → ℝ) (t : ℝ) (q : Call) : ℝ :=
  q.c * fac p q.tp * ∫ s in (0 : ℝ)..t, Real.exp (q.m * p.k * s) *
    M q.idx.1.toNat q.idx.2.1.toNat q.idx.2.2.toNat s

theorem calls_sum (p : Ito.Par) (h0 : p.t0 = 0) (M : ℕ → ℕ → ℕ → ℝ → ℝ) (hM : ItoRec p M) (t : ℝ)
    (ht : 0 ≤ t) (n3 n4 n5 : ℕ) (hn : 0 < n3 + n4 + n5) :
    ((calls (n3, n4, n5)).map (callVal p M t)).sum = M n3 n4 n5 t := by
  rw [hM.step n3 n4 n5 hn t (h0 ▸ ht), h0]
  simp only [calls, List.map_append, List.sum_append, mul_zero, Real.exp_zero, one_mul]
  rw [← add_assoc, ← add_assoc]
  congr 1
  · congr 1
    · congr 1
      · split_ifs with h
        · simp only [List.map_cons, List.map_nil, List.sum_cons, List.sum_nil, callVal, fac]
          simp only [show ((n3 : ℤ) - 2).toNat = n3 - 2 by omega,
            show ((n3 : ℤ) - 1).toNat = n3 - 1 by omega, Int.toNat_natCast]
          norm_num
          ring
        · have : n3 = 0 ∨ n3 = 1 := by omega
          rcases this with rfl | rfl <;> simp
      · split_ifs with h
        · simp only [List.map_cons, List.map_nil, List.sum_cons, List.sum_nil, callVal, fac]
          simp only [show ((n4 : ℤ) - 2).toNat = n4 - 2 by omega,
            show ((n3 : ℤ) + 1).toNat = n3 + 1 by omega, Int.toNat_natCast]
          norm_num
          ring
        · have : n4 = 0 ∨ n4 = 1 := by omega
          rcases this with rfl | rfl <;> simp
    · split_ifs with h
      · simp only [List.map_cons, List.map_nil, List.sum_cons, List.sum_nil, callVal, fac]
        simp only [show ((n4 : ℤ) - 1).toNat = n4 - 1 by omega,
          show ((n3 : ℤ) - 1).toNat = n3 - 1 by omega, Int.toNat_natCast]
        norm_num
        ring
      · have : n3 = 0 ∨ n4 = 0 := by omega
        rcases this with rfl | rfl <;> simp
  · split_ifs with h
    · simp only [List.map_cons, List.map_nil, List.sum_cons, List.sum_nil, callVal, fac]
      simp only [show ((n5 : ℤ) - 2).toNat = n5 - 2 by omega,
        show ((n3 : ℤ) + 1).toNat = n3 + 1 by omega, Int.toNat_natCast]
      norm_num
      ring
    · have : n5 = 0 ∨ n5 = 1 := by omega
      rcases this with rfl | rfl <;> simp

theorem calls_idx (i : Idx) (hi : Valid i) : ∀ q ∈ calls i, Valid q.idx ∧
    (lev q.idx = lev i - 2 ∨ lev q.idx = lev i - 1) ∧ q.idx.2.2 % 2 = i.2.2 % 2 := by
  obtain ⟨a, b, c⟩ := i
  obtain ⟨h1, h2, h3⟩ := hi
  simp only at h1 h2 h3
  intro q hq
  simp only [calls, List.mem_append] at hq
  simp only [Valid, lev]
  rcases hq with hq | hq | hq | hq <;> split_ifs at hq with h <;>
    simp only [List.mem_cons, List.not_mem_nil, or_false] at hq <;>
    rcases hq with rfl | rfl | rfl <;> dsimp only <;> refine ⟨⟨?_, ?_, ?_⟩, ?_, ?_⟩ <;> omega

theorem recursive_spec (i : Idx) (hi : Valid i) (hl : 3 ≤ lev i) (T : TabK (List ℤ))
    (hT : TabGood Good (fun j => Valid j ∧ (lev j = lev i - 2 ∨ lev j = lev i - 1)) T) :
    ∃ v, recursiveIEII i T = .ok v ∧ Good i v := by
  have hq : ∀ q ∈ calls i, ∃ P, dget T q.idx = some P ∧ Good q.idx P := fun q hq =>
    hT _ ⟨(calls_idx i hi q hq).1, (calls_idx i hi q hq).2.1⟩
  obtain ⟨r, e, rk, _, _, rK, rv⟩ := mergeLoop_spec (ι := Env) (fun q : Call => do
    let p ← lookup T q.idx
    intMIEII q.c q.tp q.m p) (calls i) (⟨kf6, []⟩ : IPoly) K6 (fun x => v6 x.p x.t)
    (fun x => callVal x.p x.M x.t) (fun x hx => by simp at hx) (by
    intro q hq'
    obtain ⟨P, eP, pk, pK, pv, _⟩ := hq q hq'
    obtain ⟨Q, eQ, qk, _, qK, qv, _⟩ := intMIEII_spec q.c q.tp q.m P pK
    refine ⟨Q, by rw [lookup, eP]; exact eQ, qk.trans pk, qK, fun x => ?_⟩
    rw [qv x.p x.t x.hk, callVal]
    congr 1
    apply intervalIntegral.integral_congr
    intro s hs
    rw [Set.uIcc_of_le x.ht] at hs
    simp only
    rw [pv ⟨x.p, x.M, s, x.hk, x.h0, x.hM, hs.1⟩])
  refine ⟨r, e, rk, rK, fun x => ?_, ?_⟩
  · rw [rv x]
    obtain ⟨a, b, c⟩ := i
    obtain ⟨h1, h2, h3⟩ := hi
    simp only [lev] at h1 h2 h3 hl
    lift a to ℕ using h1
    lift b to ℕ using h2
    lift c to ℕ using h3
    rw [calls_sum x.p x.h0 x.M x.hM x.t x.ht a b c (by omega)]
    simp [ev]
  · refine mergeLoop_NZ _ _ _ _ _ (fun x hx => by simp at hx) ?_ e
    intro q hq' Q eq
    obtain ⟨P, eP, pk, pK, pv, pz⟩ := hq q hq'
    obtain ⟨Q', eQ, qk, _, qK, qv, qz⟩ := intMIEII_spec q.c q.tp q.m P pK
    have : Q = Q' := by
      rw [lookup, eP] at eq
      exact Except.ok.inj (eq.symm.trans eQ)
    rw [this, ← (calls_idx i hi q hq').2.2]
    exact qz _ pz

/-! ### the initial table -/

theorem good_P1 : Good (0, 0, 0) P1 := by
  refine ⟨rfl, ?_, ?_, by intro x hx; simp⟩
  · intro x hx; simp [P1] at hx; subst hx; simp [K6]
  · intro x
    simp [x.hM.zero x.t (x.h0 ▸ x.ht), P1, ev, v6]

theorem good_P0 (i : Idx) (h : ∀ x : Env, x.M i.1.toNat i.2.1.toNat i.2.2.toNat x.t = 0) :
    Good i P0 := by
  refine ⟨rfl, ?_, ?_, by intro x hx; simp [P0] at hx; subst hx; simp⟩
  · intro x hx; simp [P0] at hx; subst hx; simp [K6]
  · intro x
    rw [h x]; simp [P0, ev]

theorem good_P200 : Good (2, 0, 0) P200 := by
  refine ⟨rfl, ?_, ?_, by intro x hx; simp⟩
  · intro x hx; simp [P200] at hx; rcases hx with rfl | rfl | rfl | rfl <;> simp [K6]
  · rintro ⟨p, M, t, hk, h0, hM, ht⟩
    change _ = M 2 0 0 t
    rw [← h0] at ht
    rw [hM.step 2 0 0 (by norm_num) t ht]
    simp only [show 2 - 2 = 0 from rfl, show 2 - 1 = 1 from rfl, int_zero hM _ ht,
      int_first hM _ (show 1 + 0 + 0 = 1 from rfl) ht, integral_exp p.k p.t0 t hk,
      integral_exp (2 * p.k) p.t0 t (by simpa using hk)]
    rw [h0]
    simp [P200, ev, v6, Rat.smul_def]
    field_simp
    ring

theorem good_P110 : Good (1, 1, 0) P110 := by
  refine ⟨rfl, ?_, ?_, by intro x hx; simp⟩
  · intro x hx; simp [P110] at hx; rcases hx with rfl | rfl | rfl <;> simp [K6]
  · rintro ⟨p, M, t, hk, h0, hM, ht⟩
    change _ = M 1 1 0 t
    rw [← h0] at ht
    rw [hM.step 1 1 0 (by norm_num) t ht]
    simp only [show 1 - 1 = 0 from rfl, int_zero hM _ ht, int_zero' hM ht,
      int_first' hM (show 1 + 0 + 0 = 1 from rfl) ht, integral_exp p.k p.t0 t hk]
    rw [h0]
    simp [P110, ev, v6, Rat.smul_def]
    field_simp
    ring

theorem aux_020 (p : Ito.Par) (t : ℝ) (hk : p.k ≠ 0) : ev (v6 p t) P020 =
    (p.v - p.θ) * ((Real.exp (-p.k * t) - 1) / -p.k) + p.θ * t := by
  simp [P020, ev, v6, Rat.smul_def]
  field_simp
  ring

theorem good_P020 : Good (0, 2, 0) P020 := by
  refine ⟨rfl, ?_, ?_, by intro x hx; simp⟩
  · intro x hx; simp [P020] at hx; rcases hx with rfl | rfl | rfl <;> simp [K6]
  · rintro ⟨p, M, t, hk, h0, hM, ht⟩
    change _ = M 0 2 0 t
    rw [← h0] at ht
    rw [hM.step 0 2 0 (by norm_num) t ht, aux_020 p t hk]
    simp only [show 2 - 2 = 0 from rfl, int_zero hM _ ht, int_zero' hM ht,
      int_first hM _ (show 0 + 1 + 0 + 0 = 1 from rfl) ht, integral_exp (-p.k) p.t0 t (by simpa using hk)]
    rw [h0]
    norm_num

theorem good_P002 : Good (0, 0, 2) P020 := by
  refine ⟨rfl, ?_, ?_, by intro x hx; simp⟩
  · intro x hx; simp [P020] at hx; rcases hx with rfl | rfl | rfl <;> simp [K6]
  · rintro ⟨p, M, t, hk, h0, hM, ht⟩
    change _ = M 0 0 2 t
    rw [← h0] at ht
    rw [hM.step 0 0 2 (by norm_num) t ht, aux_020 p t hk]
    simp only [show 2 - 2 = 0 from rfl, int_zero hM _ ht, int_zero' hM ht,
      int_first hM _ (show 0 + 1 + 0 + 0 = 1 from rfl) ht, integral_exp (-p.k) p.t0 t (by simpa using hk)]
    rw [h0]
    norm_num

theorem T0_good : TabGood Good (fun j => Valid j ∧ lev j ≤ 2) T0 := by
  rintro ⟨a, b, c⟩ ⟨⟨h1, h2, h3⟩, h4⟩
  simp only [lev] at h1 h2 h3 h4
  have : (a = 0 ∨ a = 1 ∨ a = 2) ∧ (b = 0 ∨ b = 1 ∨ b = 2) ∧ (c = 0 ∨ c = 1 ∨ c = 2) := by omega
  obtain ⟨ha, hb, hc⟩ := this
  rcases ha with rfl | rfl | rfl <;> rcases hb with rfl | rfl | rfl <;>
    rcases hc with rfl | rfl | rfl <;> first
    | (exfalso; omega)
    | exact ⟨P1, rfl, good_P1⟩
    | exact ⟨P200, rfl, good_P200⟩
    | exact ⟨P110, rfl, good_P110⟩
    | exact ⟨P020, rfl, good_P020⟩
    | exact ⟨P020, rfl, good_P002⟩
    | exact ⟨P0, rfl, good_P0 _ (fun x => M_first x.hM rfl (x.h0 ▸ x.ht))⟩
    | exact ⟨P0, rfl, good_P0 _ (fun x => by
        rw [x.hM.step _ _ _ (by norm_num) x.t (x.h0 ▸ x.ht)]; simp)⟩

/-! ### the central moments -/

theorem key9_eq (i : Idx) (k : List ℤ) (h : k.length = 6) :
    key9 i k = [ix k 0 - i.1, ix k 1, ix k 2, ix k 3, ix k 4, ix k 5, i.1, i.2.1, i.2.2] := by
  match k, h with
  | [a, b, c, d, e, f], _ => rfl

theorem v9_key9 (p : Fsv1.Par) (x : ℝ) (k : List ℤ) (h : k.length = 6) (a b c : ℕ) :
    v9 p x (key9 ((a : ℤ), (b : ℤ), (c : ℤ)) k) =
      v6 ⟨p.k, p.θ, p.σ, x, 0⟩ p.h k * (Real.exp (-(p.k * p.h)) ^ a * (p.σ / (2 * p.k)) ^ a *
        (p.ρ - p.σ / (2 * p.k)) ^ b * Real.sqrt (1 - p.ρ ^ 2) ^ c) := by
  rw [key9_eq _ _ h]
  simp only [v9, v6, ix_cons_zero, ix_cons_succ, zpow_natCast]
  have : Real.exp (((ix k 0 - (a : ℤ) : ℤ) : ℝ) * p.k * p.h) =
      Real.exp (ix k 0 * p.k * p.h) * Real.exp (-(p.k * p.h)) ^ a := by
    rw [← Real.exp_nat_mul, ← Real.exp_add]
    congr 1; push_cast; ring
  rw [this]
  ring

/-- the three summands of the conditionally centred return -/
theorem centred (p : Fsv1.Par) (hk : p.k ≠ 0) (hh : 0 ≤ p.h) (t0 x : ℝ) (E : Fsv1.Rv →ₗ[ℝ] ℝ)
    (hx : Fsv1.CondLaw p t0 x E) :
    Fsv1.ret p t0 x - C (E (Fsv1.ret p t0 x)) =
      [C (p.σ / (2 * p.k) * Real.exp (-(p.k * (t0 + p.h)))) * X 0,
        C (p.ρ - p.σ / (2 * p.k)) * X 1, C (Real.sqrt (1 - p.ρ ^ 2)) * X 2].sum := by
  have h := Fsv1.partsC_sum p hk t0 x
  rw [Fsv1.cond_mean p hk hh t0 x E hx]
  simp only [Fsv1.partsC, List.sum_cons, List.sum_nil] at h ⊢
  simp only [map_add, map_sub, map_mul, map_neg] at h ⊢
  linear_combination -h

theorem E_parts3 (E : Fsv1.Rv →ₗ[ℝ] ℝ) (N : ℕ) (c d e : ℝ) (n3 n4 n5 : ℕ) :
    E ((N : Fsv1.Rv) * (List.zipWith (· ^ ·) [C c * X 0, C d * X 1, C e * X 2]
      [n3, n4, n5]).prod) =
      N * (c ^ n3 * d ^ n4 * e ^ n5) * E (X 0 ^ n3 * X 1 ^ n4 * X 2 ^ n5) := by
  rw [← Fsv1.E_C_mul]
  congr 1
  simp only [List.zipWith_cons_cons, List.zipWith_nil_right, List.prod_cons, List.prod_nil, mul_pow,
    map_mul, map_pow, map_natCast]
  ring

theorem level_value (p : Fsv1.Par) (hk : p.k ≠ 0) (hh : 0 ≤ p.h) (t0 x : ℝ)
    (E : Fsv1.Rv →ₗ[ℝ] ℝ) (hx : Fsv1.CondLaw p t0 x E) (n : ℕ) (P : Idx → IPoly)
    (hP : ∀ i, Valid i → lev i = n → Good i (P i)) :
    ev (v9 p x) (ofTerms kf9 (levelTerms key9 n P)) =
      E ((Fsv1.ret p t0 x - C (E (Fsv1.ret p t0 x))) ^ n) := by
  rw [centred p hk hh t0 x E hx, ← combs_multinomial 2 _ (by simp) n, map_list_sum, List.map_map]
  obtain ⟨M, hM, hE⟩ := hx
  rw [ev_ofTerms, levelTerms, sum_flatMap, idxs_combs, List.map_map]
  congr 1
  apply List.map_congr_left
  intro ns hns
  obtain ⟨hl, hs⟩ := combs_mem _ _ _ hns
  match ns, hl with
  | [a, b, c], _ =>
    simp only [List.sum_cons, List.sum_nil] at hs
    simp only [Function.comp, nat, List.getD_cons_zero, List.getD_cons_succ]
    rw [E_parts3, hE]
    obtain ⟨_, pK, pv, _⟩ := hP ((a : ℤ), (b : ℤ), (c : ℤ)) (by simp [Valid]) (by
      simp only [lev]; omega)
    have hv := pv ⟨⟨p.k, p.θ, p.σ, x, 0⟩, _, p.h, hk, rfl, hM.shift, hh⟩
    simp only [Int.toNat_natCast] at hv
    rw [List.map_map]
    have : ∀ y ∈ (P ((a : ℤ), (b : ℤ), (c : ℤ))).items,
        ((fun kv : List ℤ × ℚ => kv.2 • v9 p x kv.1) ∘ fun e : List ℤ × ℚ =>
          (key9 ((a : ℤ), (b : ℤ), (c : ℤ)) e.1, cN n ((a : ℤ), (b : ℤ), (c : ℤ)) * e.2)) y =
        (combN n [a, b, c] * (Real.exp (-(p.k * p.h)) ^ a * (p.σ / (2 * p.k)) ^ a *
        (p.ρ - p.σ / (2 * p.k)) ^ b * Real.sqrt (1 - p.ρ ^ 2) ^ c)) *
          (y.2 • v6 ⟨p.k, p.θ, p.σ, x, 0⟩ p.h y.1) := by
      intro y hy
      simp only [Function.comp, v9_key9 p x y.1 (pK y hy).1 a b c, cN, Int.toNat_natCast,
        Rat.smul_def]
      push_cast
      ring
    rw [List.map_congr_left this, List.sum_map_mul_left]
    change _ * ev (v6 ⟨p.k, p.θ, p.σ, x, 0⟩ p.h) _ = _
    rw [hv, mul_add p.k t0, neg_add, Real.exp_add]
    ring

theorem level_keys (n : ℕ) (P : Idx → IPoly) (hP : ∀ i, Valid i → lev i = n → Good i (P i)) :
    (ofTerms kf9 (levelTerms key9 n P)).Keys K9 ∧
      (ofTerms kf9 (levelTerms key9 n P)).NZKeys fun k => ix k 8 % 2 = 0 := by
  have hm : ∀ y ∈ levelTerms key9 n P, ∃ i, Valid i ∧ lev i = n ∧ ∃ e ∈ (P i).items,
      y = (key9 i e.1, cN n i * e.2) := by
    intro y hy
    simp only [levelTerms, List.mem_flatMap, List.mem_map] at hy
    obtain ⟨i, hi, e, he, rfl⟩ := hy
    obtain ⟨h1, h2⟩ := (mem_idxs _ _).1 hi
    exact ⟨i, h1, h2, e, he, rfl⟩
  constructor
  · apply ofTerms_Keys
    intro y hy
    obtain ⟨i, h1, h2, e, he, rfl⟩ := hm y hy
    obtain ⟨_, pK, _⟩ := hP i h1 h2
    obtain ⟨k0, k1, k3, k4, k5⟩ := pK e he
    obtain ⟨a1, a2, a3⟩ := h1
    simp only [key9_eq _ _ k0, K9, ix_cons_zero, ix_cons_succ]
    exact ⟨rfl, k1, k3, k4, k5, a1, a2, a3⟩
  · apply ofTerms_NZKeys
    intro y hy hne
    obtain ⟨i, h1, h2, e, he, rfl⟩ := hm y hy
    obtain ⟨_, pK, _, pz⟩ := hP i h1 h2
    simp only [key9_eq _ _ (pK e he).1, ix_cons_zero, ix_cons_succ]
    exact pz e he fun h0 => hne (by simp [h0])

/-- what each element of `cmoments_y_to(l)` satisfies -/
def IsCm (n : ℕ) (r : IPoly) : Prop :=
  r.keyfor = kf9 ∧ r.WF ∧ r.Keys K9 ∧ (r.Keys fun k => ix k 8 % 2 = 0) ∧ (n ≠ 1 → r.NoZero) ∧
    ∀ (p : Fsv1.Par) (t0 x : ℝ) (E : Fsv1.Rv →ₗ[ℝ] ℝ), p.k ≠ 0 → 0 ≤ p.h →
      Fsv1.CondLaw p t0 x E →
      ev (v9 p x) r = E ((Fsv1.ret p t0 x - C (E (Fsv1.ret p t0 x))) ^ n)

theorem cmomentsYTo_spec (l : ℕ) :
    ∃ ms, cmomentsYTo l = .ok ms ∧ ms.length = max l 1 + 1 ∧
      ∀ (n : ℕ) r, ms[n]? = some r → IsCm n r := by
  obtain ⟨ms, e, hl, hms⟩ := cmomsTo_spec Good recursiveIEII key9 kf9 recursive_spec T0 T0_good
    first l
  refine ⟨_, e, by simp [first, hl]; omega, ?_⟩
  intro n r hr
  match n with
  | 0 =>
    simp [first] at hr
    subst hr
    refine ⟨rfl, by simp [WF], ?_, ?_, ?_, ?_⟩
    · intro x hx; simp at hx; subst hx; simp [K9]
    · intro x hx; simp at hx; subst hx; simp
    · intro _ x hx; simp at hx; subst hx; simp
    · intro p t0 x E hk hh ⟨M, hM, hE⟩
      have h0 := hE 0 0 0
      rw [hM.zero _ (by simpa using hh)] at h0
      simp at h0
      simp [ev, v9, h0]
  | 1 =>
    simp [first] at hr
    subst hr
    refine ⟨rfl, by simp [WF], ?_, ?_, by simp, ?_⟩
    · intro x hx; simp at hx; subst hx; simp [K9]
    · intro x hx; simp at hx; subst hx; simp
    · intro p t0 x E hk hh hE
      have h1 : E 1 = 1 := by
        obtain ⟨M, hM, hE⟩ := hE
        have h0 := hE 0 0 0
        rw [hM.zero _ (by simpa using hh)] at h0
        simpa using h0
      rw [pow_one, map_sub, show (C (E (Fsv1.ret p t0 x)) : Fsv1.Rv) =
        C (E (Fsv1.ret p t0 x)) * 1 by rw [mul_one], Fsv1.E_C_mul, h1]
      simp [ev]
  | j + 2 =>
    have hr' : ms[j]? = some r := by
      rw [← hr]
      simp [first]
    obtain ⟨P, hP, rfl⟩ := hms j r hr'
    have hj : ((j : ℤ) + 2) = ((j + 2 : ℕ) : ℤ) := by push_cast; rfl
    rw [hj] at hP ⊢
    obtain ⟨k1, k2⟩ := level_keys (j + 2) P hP
    refine ⟨by simp, removeZero_WF _ (ofTerms_WF _ _), removeZero_Keys _ _ k1, ?_,
      fun _ => removeZero_NoZero _, ?_⟩
    · intro y hy
      exact removeZero_NZKeys _ _ k2 y hy (removeZero_NoZero _ y hy)
    · intro p t0 x E hk hh hE
      rw [ev_removeZero, level_value p hk hh t0 x E hE (j + 2) P hP]

/-! ### `simplify` -/

theorem ix_ext (k : List ℤ) (h : k.length = 9) : k = [ix k 0, ix k 1, ix k 2, ix k 3, ix k 4, ix k 5,
    ix k 6, ix k 7, ix k 8] := by
  match k, h with
  | [a, b, c, d, e, f, g, i, j], _ => rfl

theorem simplify1_spec (r : IPoly) (h : r.Keys K9) (p : Fsv1.Par) (x : ℝ) :
    ev (v9' p x) (simplify1 r) = ev (v9 p x) r := by
  apply ev_ofTerms_map
  intro e he
  congr 1
  rw [ix_ext e.1 (h e he).1]
  simp only [v9', v9, ix_cons_zero, ix_cons_succ, List.drop_succ_cons, List.drop_zero]
  push_cast
  rw [neg_neg]

/-- the variables of a key before `simplify_rho` -/
noncomputable def vars (p : Fsv1.Par) (x : ℝ) (i : ℕ) : ℝ :=
  [Real.exp (-(p.k * p.h)), p.h, p.k⁻¹, x - p.θ, p.θ, p.σ, p.ρ, Real.sqrt (1 - p.ρ ^ 2)].getD i 0

theorem exp_z (y : ℝ) (a : ℤ) : Real.exp (-(a : ℝ) * y) = Real.exp (-y) ^ a := by
  obtain ⟨n, rfl | rfl⟩ := a.eq_nat_or_neg
  · rw [zpow_natCast, ← Real.exp_nat_mul]; congr 1; push_cast; ring
  · rw [zpow_neg, zpow_natCast, ← Real.exp_nat_mul, ← Real.exp_neg]; congr 1; push_cast; ring

theorem mono_vars (p : Fsv1.Par) (x : ℝ) (a b c d e f g h : ℤ) :
    mono (vars p x) [a, b, c, d, e, f, g, h] = Real.exp (-(a : ℝ) * (p.k * p.h)) * p.h ^ b *
      p.k ^ (-c) * (x - p.θ) ^ d * p.θ ^ e * p.σ ^ f * p.ρ ^ g * Real.sqrt (1 - p.ρ ^ 2) ^ h := by
  simp only [mono, List.length_cons, List.length_nil, zero_add, Finset.prod_range_succ, exp_z, vars]
  simp

theorem mono_drop (p : Fsv1.Par) (x : ℝ) (k : List ℤ) (hk : k.length = 7) :
    mono (dropVar 7 (vars p x)) k = v7 p x k := by
  match k, hk with
  | [a, b, c, d, e, f, g], _ =>
    simp only [mono, List.length_cons, List.length_nil, zero_add, Finset.prod_range_succ, v7,
      dropVar, vars, ix_cons_zero, ix_cons_succ]
    rw [mul_assoc (-(a : ℝ)), exp_z]
    simp

theorem rhoExpand_value (p : Fsv1.Par) (hk : p.k ≠ 0) (x : ℝ) (e : List ℤ × ℚ) (he : K9 e.1) :
    ((rhoExpand e).map fun t => t.2 • mono (vars p x) t.1).sum = e.2 • v9 p x e.1 := by
  obtain ⟨k, v⟩ := e
  obtain ⟨hl, h1, h3, h4, h5, h6, h7, h8⟩ := he
  simp only at hl h1 h3 h4 h5 h6 h7 h8
  obtain ⟨a, ha⟩ := Int.eq_ofNat_of_zero_le h6
  obtain ⟨b, hb⟩ := Int.eq_ofNat_of_zero_le h7
  simp only [rhoExpand, v9, ha, hb, List.map_map]
  rw [show ((b : ℤ) + 1).toNat = b + 1 by omega, list_range_sum', Int.toNat_natCast]
  simp only [zpow_natCast]
  rw [← Fsv1.binom_neg p.ρ (p.σ / (2 * p.k)) b, Finset.mul_sum, Finset.sum_mul, Finset.smul_sum]
  apply Finset.sum_congr rfl
  intro j hj
  have hj' : j ≤ b := by simpa [Nat.lt_succ_iff] using hj
  simp only [Function.comp, mono_vars, Rat.smul_def]
  rw [show (a : ℤ) + j = ((a + j : ℕ) : ℤ) by push_cast; rfl,
    show (b : ℤ) - j = ((b - j : ℕ) : ℤ) by omega, neg_add, zpow_add₀ hk,
    zpow_add_nn p.σ _ _ h5 (by omega), Fsv1.zpow_neg_nat]
  simp only [zpow_natCast, div_eq_mul_inv, mul_inv, mul_pow, pow_add]
  push_cast
  rw [neg_neg, mul_assoc _ p.k p.h]
  simp only [← inv_pow, one_mul]
  ring

theorem simplify2_spec (r : IPoly) (h : r.Keys K9) (he : r.Keys fun k => ix k 8 % 2 = 0) :
    ∃ q, simplify2 r = .ok q ∧ q.keyfor = kf8.eraseIdx 7 ∧ q.WF ∧ q.NoZero ∧ q.Len 7 ∧
      ∀ (p : Fsv1.Par) (x : ℝ), p.k ≠ 0 → 0 ≤ 1 - p.ρ ^ 2 → ev (v7 p x) q = ev (v9 p x) r := by
  set s := (ofTerms kf8 (r.items.flatMap rhoExpand)).removeZero with hs
  have hkeys : s.Keys fun k => k.length = 8 ∧ RhoKey 7 k := by
    apply removeZero_Keys
    apply ofTerms_Keys
    intro y hy
    obtain ⟨e, he', hy⟩ := List.mem_flatMap.1 hy
    obtain ⟨j, hj, rfl⟩ := List.mem_map.1 hy
    obtain ⟨hl, h1, h3, h4, h5, h6, h7, h8⟩ := h e he'
    have h8' := he e he'
    have hj := List.mem_range.1 hj
    refine ⟨rfl, by simp, ?_, ?_, ?_⟩
    · change 0 ≤ ix e.1 7 - (j : ℤ); omega
    · exact h8
    · exact h8'
  obtain ⟨q, e, qk, qw, qz, ql, qv⟩ := simplifyRho_spec s 7 (by norm_num) fun x hx => (hkeys x hx).2
  refine ⟨q, e, by rw [qk]; simp [s], qw, qz, ql 7 fun x hx => (hkeys x hx).1, ?_⟩
  intro p x hk hρ
  rw [← ev_congr _ _ _ fun e he => mono_drop p x e.1 (ql 7 (fun x hx => (hkeys x hx).1) e he),
    qv (vars p x) (by simp [vars, Real.sq_sqrt hρ]), hs, ev_removeZero]
  apply ev_ofTerms_flatMap
  intro e he'
  exact rhoExpand_value p hk x e (h e he')

/-- `simplify_rho` leaves the components before 'rho' alone -/
theorem simplifyRho_ix (P Q : IPoly) (n : ℕ) (e : simplifyRho P n = .ok Q) :
    ∀ y ∈ Q.items, ∃ x ∈ P.items, ∀ j, j + 1 < n → ix y.1 j = ix x.1 j := by
  unfold simplifyRho at e
  cases hm : P.items.mapM (rhoTerms n) with
  | error _ => rw [hm] at e; cases e
  | ok ts =>
    rw [hm] at e
    cases e
    apply removeZero_Keys (fun k => ∃ x ∈ P.items, ∀ j, j + 1 < n → ix k j = ix x.1 j)
    apply ofTerms_Keys
    intro y hy
    obtain ⟨l, hl, hy⟩ := List.mem_flatten.1 hy
    obtain ⟨x, hx, hf⟩ := mapM_mem _ _ _ hm l hl
    refine ⟨x, hx, fun j hj => ?_⟩
    unfold rhoTerms at hf
    cases hg : pyGet x.1 n with
    | error _ => rw [hg] at hf; cases hf
    | ok kn =>
      rw [hg] at hf
      have hlen : n < x.1.length := by
        by_contra hc
        rw [pyGet, List.getElem?_eq_none (by omega)] at hg
        cases hg
      have hix : ix (x.1.take n ++ x.1.drop (n + 1)) j = ix x.1 j := by
        simp only [ix, List.getD_eq_getElem?_getD]
        rw [List.getElem?_append_left (by simp; omega), List.getElem?_take_of_lt (by omega)]
      simp only [ok_bind] at hf
      split_ifs at hf
      · cases hf
        simp only [List.mem_singleton] at hy
        subst hy
        exact hix
      · cases hf
        obtain ⟨i, hi, rfl⟩ := List.mem_map.1 hy
        simp only
        rw [Fsv1.ix_modify_ne _ _ _ _ (by omega)]
        exact hix

theorem vExpand_value (p : Fsv1.Par) (x : ℝ) (e : List ℤ × ℚ) (h3 : 0 ≤ ix e.1 3)
    (h4 : 0 ≤ ix e.1 4) :
    ((vExpand e).map fun t => t.2 • v7v p x t.1).sum = e.2 • v7 p x e.1 := by
  obtain ⟨k, v⟩ := e
  simp only at h3 h4
  obtain ⟨b, hb⟩ := Int.eq_ofNat_of_zero_le h3
  simp only [vExpand, v7, hb, List.map_map]
  rw [show ((b : ℤ) + 1).toNat = b + 1 by omega, list_range_sum', Int.toNat_natCast]
  simp only [zpow_natCast]
  rw [← Fsv1.binom_neg x p.θ b, Finset.mul_sum, Finset.sum_mul, Finset.sum_mul, Finset.sum_mul,
    Finset.smul_sum]
  apply Finset.sum_congr rfl
  intro j hj
  have hj' : j ≤ b := by simpa [Nat.lt_succ_iff] using hj
  simp only [Function.comp, v7v, ix_cons_zero, ix_cons_succ, Rat.smul_def]
  rw [show (b : ℤ) - j = ((b - j : ℕ) : ℤ) by omega, zpow_add_nn p.θ _ _ h4 (by omega)]
  simp only [zpow_natCast]
  push_cast
  ring

theorem simplify2_ix (r q : IPoly) (h : r.Keys K9) (e : simplify2 r = .ok q) :
    q.Keys fun k => 0 ≤ ix k 1 ∧ 0 ≤ ix k 3 ∧ 0 ≤ ix k 4 ∧ 0 ≤ ix k 5 := by
  intro y hy
  obtain ⟨x, hx, hxy⟩ := simplifyRho_ix _ _ 7 e y hy
  rw [hxy 1 (by norm_num), hxy 3 (by norm_num), hxy 4 (by norm_num), hxy 5 (by norm_num)]
  have : ((ofTerms kf8 (r.items.flatMap rhoExpand)).removeZero).Keys
      fun k => 0 ≤ ix k 1 ∧ 0 ≤ ix k 3 ∧ 0 ≤ ix k 4 ∧ 0 ≤ ix k 5 := by
    apply removeZero_Keys
    apply ofTerms_Keys
    intro y hy
    obtain ⟨e, he', hy⟩ := List.mem_flatMap.1 hy
    obtain ⟨j, hj, rfl⟩ := List.mem_map.1 hy
    obtain ⟨hl, h1, h3, h4, h5, h6, h7, h8⟩ := h e he'
    simp only [ix_cons_zero, ix_cons_succ]
    exact ⟨h1, h3, h4, by omega⟩
  exact this x hx

theorem poly2num_eq (P : IPoly) (p : Fsv1.Par) (x : ℝ) : poly2num P p x = ev (v7 p x) P := by
  unfold poly2num ev
  congr 1
  apply List.map_congr_left
  intro e _
  simp only [v7, Rat.smul_def]
  ring

end Ajd.Fsv1c
