import Verif.Lemmas.ItoCondInt
import Verif.Lemmas.IntEv
import Verif.Lemmas.CMoms

/-! The joint moments of `ito_cond_mom.py`. -/

namespace Ajd.ItoCond
open MeasureTheory Utils Poly Ito

/-! ### exponent tuples -/

theorem lv_snoc (z : Tup) (hz : ZOK z) : lv (snoc z) = lv z ++ [(1, 0, 0, 0)] := by
  obtain ⟨l, o, p, q⟩ := z
  obtain ⟨h1, h2, h3, _, _⟩ := hz
  simp only at h1 h2 h3
  unfold snoc lv
  dsimp only
  split_ifs with h
  · dsimp only
    rw [List.length_append, List.length_singleton, List.range_succ, List.map_append]
    congr 1
    · apply List.map_congr_left
      intro i hi
      rw [List.mem_range] at hi
      rw [List.getD_append _ _ _ _ hi, List.getD_append _ _ _ _ (by omega)]
      by_cases h0 : i = 0
      · simp [h0]
      · rw [List.getD_append _ _ _ _ (by omega), List.getD_append _ _ _ _ (by omega)]
    · have h0 : l.length ≠ 0 := by omega
      simp only [List.map_cons, List.map_nil, if_neg h0]
      rw [List.getD_append_right _ _ _ _ le_rfl, List.getD_append_right _ _ _ _ (by omega),
        List.getD_append_right _ _ _ _ (by omega), List.getD_append_right _ _ _ _ (by omega)]
      simp [h1, h2, h3]
  · have h0 : l = [] := by
      cases l with
      | nil => rfl
      | cons a t => simp at h
    subst h0
    have : o = [] := by simpa using h1
    subst this
    simp

theorem snoc_ok (z : Tup) (hz : ZOK z) : ZOK (snoc z) ∧ (snoc z).l.length = z.l.length + 1 := by
  obtain ⟨l, o, p, q⟩ := z
  obtain ⟨h1, h2, h3, h4, h5⟩ := hz
  simp only at h1 h2 h3 h4 h5
  unfold snoc
  dsimp only
  split_ifs with h
  · refine ⟨⟨?_, ?_, ?_, ?_, ?_⟩, by simp⟩
    · simp [h1]
    · simp; omega
    · simp; omega
    · intro a ha; simp at ha; rcases ha with ha | rfl
      · exact h4 a ha
      · exact le_rfl
    · intro a ha; simp at ha; rcases ha with ha | rfl
      · exact h5 a ha
      · exact le_rfl
  · have : l.length = 0 := by omega
    refine ⟨⟨?_, ?_, ?_, ?_, ?_⟩, by simp⟩
    · simp [h1]
    · simp [this]
    · simp [this]
    · intro a ha; simp at ha; rcases ha with ha | rfl
      · exact h4 a ha
      · exact le_rfl
    · simp

theorem zpow_add_nonneg (x : ℝ) (a b : ℤ) (ha : 0 ≤ a) (hb : 0 ≤ b) : x ^ (a + b) = x ^ a * x ^ b := by
  lift a to ℕ using ha
  lift b to ℕ using hb
  exact_mod_cast pow_add x a b

theorem addMax1_zero (z : Tup) (hz : ZOK z) (h0 : 1 ≤ z.l.length) : addMax1 z 0 0 = .ok z := by
  obtain ⟨l, o, p, q⟩ := z
  obtain ⟨h1, h2, h3, _, _⟩ := hz
  simp only at h0 h1 h2 h3
  unfold addMax1
  dsimp only
  split_ifs with h
  · obtain ⟨l0, rfl⟩ := List.length_eq_one_iff.1 h
    obtain ⟨o0, rfl⟩ := List.length_eq_one_iff.1 h1
    have : p = [] := by simpa using h2
    subst this
    have : q = [] := by simpa using h3
    subst this
    simp [addFirst]
  · have hp : p ≠ [] := by rintro rfl; simp at h2; omega
    have hq : q ≠ [] := by rintro rfl; simp at h3; omega
    simp [addLast, List.getLast?_eq_some_getLast hp, List.getLast?_eq_some_getLast hq,
      List.dropLast_append_getLast]

theorem addMax1_spec (z : Tup) (hz : ZOK z) (h0 : 1 ≤ z.l.length) (a b : ℤ) (hb : 0 ≤ b) :
    ∃ z', addMax1 z a b = .ok z' ∧ ZOK z' ∧ z'.l.length = z.l.length ∧
      ∀ (x : Par), (∀ i, 0 ≤ x.s i) → ∀ φ : ℝ → ℝ, Z x.k x.s x.J (lv z') 0 φ =
        Z x.k x.s x.J (lv z) 0 fun μ => Real.exp (a * x.k * μ) * μ ^ b * φ μ := by
  obtain ⟨l, o, p, q⟩ := z
  obtain ⟨h1, h2, h3, h4, h5⟩ := hz
  simp only at h0 h1 h2 h3 h4 h5
  unfold addMax1
  dsimp only
  split_ifs with h
  · obtain ⟨l0, rfl⟩ := List.length_eq_one_iff.1 h
    obtain ⟨o0, rfl⟩ := List.length_eq_one_iff.1 h1
    have ho := h4 o0 (by simp)
    refine ⟨⟨[l0 + a], [o0 + b], [], []⟩, rfl, ⟨rfl, rfl, rfl, ?_, ?_⟩, rfl, ?_⟩
    · intro c hc; simp at hc; omega
    · simp
    · intro x hs φ
      simp only [lv, List.length_singleton, List.range_one, List.map_cons, List.map_nil,
        List.getD_cons_zero, if_true, Z, wt]
      apply Finset.sum_congr rfl
      intro i _
      rw [max_eq_right (hs i), zpow_add_nonneg _ _ _ ho hb]
      push_cast
      rw [add_mul, add_mul, Real.exp_add]
      ring
  · obtain ⟨n, hn⟩ : ∃ n, l.length = n + 2 := ⟨l.length - 2, by omega⟩
    have hp : p ≠ [] := by rintro rfl; simp at h2; omega
    have hq : q ≠ [] := by rintro rfl; simp at h3; omega
    obtain ⟨p', p0, rfl⟩ : ∃ p' p0, p = p' ++ [p0] :=
      ⟨_, _, (List.dropLast_append_getLast hp).symm⟩
    obtain ⟨q', q0, rfl⟩ : ∃ q' q0, q = q' ++ [q0] :=
      ⟨_, _, (List.dropLast_append_getLast hq).symm⟩
    simp only [List.length_append, List.length_singleton] at h2 h3
    have hq0 := h5 q0 (by simp)
    refine ⟨⟨l, o, p' ++ [p0 + a], q' ++ [q0 + b]⟩, by simp [addLast],
      ⟨h1, by simp; omega, by simp; omega, h4, ?_⟩, rfl, ?_⟩
    · intro c hc
      simp only [List.mem_append, List.mem_singleton] at hc
      rcases hc with hc | rfl
      · exact h5 c (by simp [hc])
      · omega
    · intro x hs φ
      have e : ∀ u v : ℤ, lv ⟨l, o, p' ++ [u], q' ++ [v]⟩ = ((List.range (n + 1)).map fun i : ℕ =>
          (l.getD i 0, o.getD i 0, if i = 0 then 0 else p'.getD (i - 1) 0,
            if i = 0 then 0 else q'.getD (i - 1) 0)) ++ [(l.getD (n + 1) 0, o.getD (n + 1) 0, u, v)] := by
        intro u v
        simp only [lv, hn]
        rw [List.range_succ, List.map_append]
        congr 1
        · apply List.map_congr_left
          intro i hi
          rw [List.mem_range] at hi
          by_cases hi0 : i = 0
          · simp [hi0]
          · rw [List.getD_append _ _ _ _ (by omega), List.getD_append _ _ _ _ (by omega)]
        · simp only [List.map_cons, List.map_nil]
          rw [if_neg (by omega), if_neg (by omega), List.getD_append_right _ _ _ _ (by omega),
            List.getD_append_right _ _ _ _ (by omega)]
          rw [show n + 1 - 1 - p'.length = 0 by omega, show n + 1 - 1 - q'.length = 0 by omega]
          rfl
      rw [e, e, Z_append, Z_append]
      apply Z_congr
      intro μ _
      simp only [Z, wt]
      apply Finset.sum_congr rfl
      intro i _
      rw [zpow_add_nonneg _ _ _ hq0 hb]
      push_cast
      rw [add_mul, add_mul, Real.exp_add]
      ring

theorem addMax1_zval (z : Tup) (hz : ZOK z) (h0 : 1 ≤ z.l.length) (a b : ℤ) (hb : 0 ≤ b) :
    ∃ z', addMax1 z a b = .ok z' ∧ ZOK z' ∧ z'.l.length = z.l.length ∧
      ∀ (x : Par), (∀ i, 0 ≤ x.s i) → ∀ t, 0 ≤ t → zval x t z' = zvalMul x t z a b := by
  obtain ⟨z', e, h1, h2, h3⟩ := addMax1_spec z hz h0 a b hb
  refine ⟨z', e, h1, h2, fun x hs t ht => ?_⟩
  rw [zval_eq x hs t ht, zvalMul_eq x hs t ht, h3 x hs]
  congr 1
  funext μ
  split_ifs <;> simp

theorem addMax_zval (z : Tup) (hz : ZOK z) (κ : List ℤ) (hκ : K5 z.l.length κ) :
    ∃ z', addMax z (ix κ 3) (ix κ 4) = .ok z' ∧ ZOK z' ∧
      ∀ (x : Par), (∀ i, 0 ≤ x.s i) → ∀ t, 0 ≤ t →
        zval x t z' = zvalMul x t z (ix κ 3) (ix κ 4) := by
  unfold addMax
  split_ifs with h
  · obtain ⟨h3, h4⟩ := hκ.2.2.2 h
    refine ⟨_, rfl, ⟨rfl, rfl, rfl, by simp, by simp⟩, fun x hs t ht => ?_⟩
    have : lv z = [] := by simp [lv, h]
    rw [zval_eq x hs t ht, zvalMul_eq x hs t ht, this, h3, h4]
    simp [lv, Z]
  · obtain ⟨z', e, h1, _, h3⟩ := addMax1_zval z hz (by omega) (ix κ 3) (ix κ 4) hκ.2.2.1
    exact ⟨z', e, h1, h3⟩

theorem zval_snoc (x : Par) (hs : ∀ i, 0 ≤ x.s i) (t : ℝ) (ht : 0 ≤ t) (z : Tup) (hz : ZOK z) :
    x.IEZ t * zval x t z = zval x t (snoc z) := by
  rw [zval_eq x hs t ht, zval_eq x hs t ht, lv_snoc z hz, Z_append, ← Z_mul]
  apply Z_congr
  intro μ _
  simp only [Z, wt, Par.IEZ]
  split_ifs with h
  · rw [mul_one]
    apply Finset.sum_congr rfl
    intro i _
    by_cases hi : x.s i ≤ t
    · simp [hi, h]
    · simp [hi]
  · simp [h]

theorem zval_none (x : Par) (hN : x.N = 0) (t : ℝ) (z : Tup) (hz : 1 ≤ z.l.length) :
    zval x t z = 0 := by
  unfold zval fZSpec
  apply Finset.sum_eq_zero
  intro j _
  have := (j ⟨0, hz⟩).2
  omega

theorem IEZ_none (x : Par) (hN : x.N = 0) (t : ℝ) : x.IEZ t = 0 := by
  unfold Par.IEZ
  apply Finset.sum_eq_zero
  intro i _
  have := i.2
  omega

/-! ### the two integrals of Polys -/

/-- admissible parameters and time -/
def Adm (x : Par) (t : ℝ) : Prop := x.k ≠ 0 ∧ (∀ i, 0 ≤ x.s i) ∧ 0 ≤ t

/-- the factor selected by `tp` -/
noncomputable def fac (x : Par) (tp : ℕ) : ℝ :=
  if tp = 1 then x.v - x.θ else if tp = 2 then x.θ else x.σ

/-- the part of a key that does not depend on the time -/
noncomputable def cst (x : Par) (k : List ℤ) : ℝ :=
  x.k ^ (-ix k 2) * (x.v - x.θ) ^ ix k 3 * x.θ ^ ix k 4 * x.σ ^ ix k 5

theorem jval_eq (x : Par) (key : JKey) (h : 0 ≤ ix key.b 1) (m : ℤ) (u : ℝ) :
    Real.exp (m * x.k * u) * jval x u key =
      Real.exp ((m + ix key.b 0 : ℤ) * x.k * u) * u ^ (ix key.b 1).toNat * zval x u key.z *
        cst x key.b := by
  obtain ⟨n, hn⟩ := Int.eq_ofNat_of_zero_le h
  rw [jval, cst, hn, Int.cast_add, add_mul, add_mul, Real.exp_add]
  simp only [zpow_natCast, Int.toNat_natCast]
  ring

theorem jval_integral (x : Par) (t : ℝ) (hx : Adm x t) (key : JKey) (h : 0 ≤ ix key.b 1) (m : ℤ) :
    IntervalIntegrable (fun u => Real.exp (m * x.k * u) * jval x u key) volume 0 t ∧
    ∫ u in (0 : ℝ)..t, Real.exp (m * x.k * u) * jval x u key =
      ev (fun κ => etVal x.k t κ * zvalMul x t key.z (ix κ 3) (ix κ 4))
        (intEtFZNat (m + ix key.b 0) (ix key.b 1).toNat key.z.l.length) * cst x key.b := by
  obtain ⟨h1, h2⟩ := zval_integral x hx.2.1 hx.1 t hx.2.2 key.z (m + ix key.b 0) (ix key.b 1).toNat
  simp only [jval_eq x key h m]
  exact ⟨h1.mul_const _, by rw [intervalIntegral.integral_mul_const, h2]⟩

theorem key1_cst (x : Par) (hk : x.k ≠ 0) (tp : ℕ) (k kk : List ℤ) (h3 : 0 ≤ ix k 3)
    (h4 : 0 ≤ ix k 4) (h5 : 0 ≤ ix k 5) (t : ℝ) :
    Real.exp (ix (key1 tp k kk) 0 * x.k * t) * t ^ ix (key1 tp k kk) 1 * cst x (key1 tp k kk) =
      fac x tp * etVal x.k t kk * cst x k := by
  unfold key1 fac cst etVal
  split_ifs <;>
  simp only [ix_cons_zero, ix_cons_succ, neg_add, zpow_add₀ hk, zpow_succ_nonneg _ _ h3,
    zpow_succ_nonneg _ _ h4, zpow_succ_nonneg _ _ h5] <;> ring

theorem key1Z_cst (x : Par) (hk : x.k ≠ 0) (k kk : List ℤ) (t : ℝ) :
    Real.exp (ix (key1Z k kk) 0 * x.k * t) * t ^ ix (key1Z k kk) 1 * cst x (key1Z k kk) =
      etVal x.k t kk * cst x k := by
  unfold key1Z cst etVal
  simp only [ix_cons_zero, ix_cons_succ, neg_add, zpow_add₀ hk]
  ring

theorem jval_cst (x : Par) (t : ℝ) (key : JKey) : jval x t key =
    Real.exp (ix key.b 0 * x.k * t) * t ^ ix key.b 1 * cst x key.b * zval x t key.z := by
  unfold jval cst; ring

theorem key1_ok (tp : ℕ) (k kk : List ℤ) (h3 : 0 ≤ ix k 3) (h4 : 0 ≤ ix k 4) (h5 : 0 ≤ ix k 5)
    (h1 : 0 ≤ ix kk 1) (z : Tup) (hz : ZOK z) : KOK { b := key1 tp k kk, z := z } := by
  unfold KOK key1
  dsimp only
  split_ifs <;> simp only [ix_cons_zero, ix_cons_succ, List.length_cons, List.length_nil] <;>
    exact ⟨by trivial, by omega, by omega, by omega, by omega, hz, by trivial⟩

theorem subst_NZ {K L : Type} [DecidableEq K] (kf : List String)
    (terms : L × ℚ → Except PyErr (List (K × ℚ))) (P : Poly L) (Q : Poly K) (A : Prop)
    (hA : P.NZKeys fun _ => A) (e : subst kf terms P = .ok Q)
    (h : ∀ e ∈ P.items, ∀ ts, terms e = .ok ts → e.2 = 0 → ∀ x ∈ ts, x.2 = 0) :
    Q.NZKeys fun _ => A := by
  unfold subst at e
  cases hm : P.items.mapM terms with
  | error _ => rw [hm] at e; cases e
  | ok ts =>
    rw [hm] at e
    cases e
    apply ofTerms_NZKeys
    intro x hx hne
    obtain ⟨l, hl, hx⟩ := List.mem_flatten.1 hx
    obtain ⟨e1, he1, hf⟩ := mapM_mem _ _ _ hm l hl
    exact hA e1 he1 fun h0 => hne (h e1 he1 l hf h0 x hx)

/-- a property of the keys of a substitution -/
theorem subst_Keys {K L : Type} [DecidableEq K] (kf : List String)
    (terms : L × ℚ → Except PyErr (List (K × ℚ))) (P : Poly L) (Q : Poly K) (G : K → Prop)
    (e : subst kf terms P = .ok Q)
    (h : ∀ e ∈ P.items, ∀ ts, terms e = .ok ts → ∀ x ∈ ts, G x.1) : Q.Keys G := by
  unfold subst at e
  cases hm : P.items.mapM terms with
  | error _ => rw [hm] at e; cases e
  | ok ts =>
    rw [hm] at e
    cases e
    apply ofTerms_Keys
    intro x hx
    obtain ⟨l, hl, hx⟩ := List.mem_flatten.1 hx
    obtain ⟨e1, he1, hf⟩ := mapM_mem _ _ _ hm l hl
    exact h e1 he1 l hf x hx

/-- the terms for one entry: each entry of `sub` becomes one term -/
theorem terms_ok (sub : List (List ℤ × ℚ)) (f : ℤ → ℤ → Except PyErr Tup) (kb : List ℤ → List ℤ)
    (cv : ℚ) (z : Tup) (h : ∀ e ∈ sub, ∃ z', f (ix e.1 3) (ix e.1 4) = .ok z' ∧ ZOK z' ∧
      (∀ z'', ZOK z'' → KOK { b := kb e.1, z := z'' }) ∧
      ∀ (x : Par), (∀ i, 0 ≤ x.s i) → ∀ t, 0 ≤ t →
        zval x t z' = zvalMul x t z (ix e.1 3) (ix e.1 4)) :
    ∃ ts, (sub.mapM fun e2 => (do
        let z ← f (ix e2.1 3) (ix e2.1 4)
        pure (({ b := kb e2.1, z := z } : JKey), cv * e2.2) : Except PyErr (JKey × ℚ))) = .ok ts ∧
      (∀ x ∈ ts, KOK x.1) ∧ ∀ (x : Par) (t : ℝ), Adm x t →
        (ts.map fun y => y.2 • jval x t y.1).sum = cv * (sub.map fun e => e.2 •
          (Real.exp (ix (kb e.1) 0 * x.k * t) * t ^ ix (kb e.1) 1 * cst x (kb e.1) *
            zvalMul x t z (ix e.1 3) (ix e.1 4))).sum := by
  induction sub with
  | nil => exact ⟨[], rfl, by simp, by simp⟩
  | cons e sub ih =>
    obtain ⟨ts, e1, h1, h2⟩ := ih fun e he => h e (by simp [he])
    obtain ⟨z', e2, h3, h4, h5⟩ := h e (by simp)
    refine ⟨(({ b := kb e.1, z := z' } : JKey), cv * e.2) :: ts, ?_, ?_, ?_⟩
    · rw [List.mapM_cons, e2, e1]; rfl
    · intro x hx
      rcases List.mem_cons.1 hx with rfl | hx
      · exact h4 z' h3
      · exact h1 x hx
    · intro x t hx
      rw [List.map_cons, List.sum_cons, h2 x t hx, List.map_cons, List.sum_cons, mul_add]
      congr 1
      dsimp only
      rw [jval_cst]
      dsimp only
      rw [h5 x hx.2.1 t hx.2.2]
      simp only [Rat.smul_def]
      push_cast
      ring

theorem mapM_zero {α : Type} (sub : List α) (f : α → Except PyErr (JKey × ℚ)) (ts : List (JKey × ℚ))
    (e : sub.mapM f = .ok ts) (h : ∀ a y, f a = .ok y → y.2 = 0) : ∀ x ∈ ts, x.2 = 0 := by
  intro x hx
  obtain ⟨a, _, ha⟩ := mapM_mem _ _ _ e x hx
  exact h a x ha

theorem intEPoly_spec (c : ℚ) (tp : ℕ) (m : ℤ) (P : JPoly) (hP : P.Keys KOK) :
    ∃ Q, intEPoly c tp m P = .ok Q ∧ Q.keyfor = P.keyfor ∧ Q.WF ∧ Q.Keys KOK ∧
      (∀ (x : Par) (t : ℝ), Adm x t → ev (jval x t) Q =
        c * fac x tp * ∫ s in (0 : ℝ)..t, Real.exp (m * x.k * s) * ev (jval x s) P) ∧
      ∀ A : Prop, (P.NZKeys fun _ => A) → Q.NZKeys fun _ => A := by
  obtain ⟨Q, e, qk, qw, qK, qv⟩ := subst_spec (ι := {y : Par × ℝ // Adm y.1 y.2}) P.keyfor
    (fun e => do
      let sub ← intEtFZ (m + ix e.1.b 0) (ix e.1.b 1) e.1.z.l.length
      sub.items.mapM fun e2 => do
        let z ← addMax e.1.z (ix e2.1 3) (ix e2.1 4)
        pure (({ b := key1 tp e.1.b e2.1, z := z } : JKey), c * e.2 * e2.2)) P KOK
    (fun y => jval y.1.1 y.1.2) (fun y k => c * fac y.1.1 tp * ∫ s in (0 : ℝ)..y.1.2,
      Real.exp (m * y.1.1.k * s) * jval y.1.1 s k) (by
    rintro ⟨key, v⟩ he
    have h0 := hP _ he
    simp only at h0
    obtain ⟨hl, h1, h3, h4, h5, hz, hc⟩ := h0
    obtain ⟨ts, e1, e2, e3⟩ := terms_ok (intEtFZNat (m + ix key.b 0) (ix key.b 1).toNat
      key.z.l.length).items (addMax key.z) (key1 tp key.b) (c * v) key.z (by
      intro e he
      have hκ := intEtFZ_keys _ _ _ e he
      obtain ⟨z', a1, a2, a3⟩ := addMax_zval key.z hz e.1 hκ
      exact ⟨z', a1, a2, fun z'' hz'' => key1_ok tp key.b e.1 h3 h4 h5 hκ.2.1 z'' hz'', a3⟩)
    refine ⟨ts, ?_, e2, ?_⟩
    · simp only [intEtFZ]
      rw [if_neg (by omega)]
      exact e1
    · rintro ⟨⟨x, t⟩, hx⟩
      simp only at hx ⊢
      rw [e3 x t hx, (jval_integral x t hx key h1 m).2]
      simp only [key1_cst x hx.1 tp key.b _ h3 h4 h5]
      unfold ev
      rw [Rat.smul_def, ← List.sum_map_mul_left, ← List.sum_map_mul_right, ← List.sum_map_mul_left,
        ← List.sum_map_mul_left]
      congr 1
      apply List.map_congr_left
      intro a _
      simp only [Rat.smul_def]
      push_cast
      ring)
  refine ⟨Q, e, qk, qw, qK, ?_, ?_⟩
  · intro x t hx
    rw [qv ⟨(x, t), hx⟩, (intervalIntegral_ev _ _ _ _ _ fun e he =>
      (jval_integral x t hx e.1 (hP e he).2.1 m).1).2]
    rw [mul_comm, ← ev_mul_const]
  · intro A hA
    refine subst_NZ _ _ _ _ A hA e ?_
    rintro ⟨k, v⟩ he ts hts h0 y hy
    simp only at h0
    subst h0
    cases hs : intEtFZ (m + ix k.b 0) (ix k.b 1) k.z.l.length with
    | error _ => rw [hs] at hts; cases hts
    | ok sub =>
      rw [hs] at hts
      refine mapM_zero _ _ _ hts ?_ y hy
      intro a y' ha
      cases hz : addMax k.z (ix a.1 3) (ix a.1 4) with
      | error _ => rw [hz] at ha; cases ha
      | ok z =>
        rw [hz] at ha
        cases ha
        simp

/-- the value the integral with `IEZ` should have -/
noncomputable def iezVal (x : Par) (t : ℝ) (c : ℚ) (m : ℤ) (f : ℝ → ℝ) : ℝ :=
  c * ∫ s in (0 : ℝ)..t, Real.exp (m * x.k * s) * (x.IEZ s * f s)

theorem iez_entry (x : Par) (t : ℝ) (hx : Adm x t) (key : JKey) (h : KOK key) (m : ℤ) :
    IntervalIntegrable (fun u => Real.exp (m * x.k * u) * x.IEZ u * jval x u key) volume 0 t ∧
    ∫ u in (0 : ℝ)..t, Real.exp (m * x.k * u) * x.IEZ u * jval x u key =
      ev (fun κ => etVal x.k t κ * zvalMul x t (snoc key.z) (ix κ 3) (ix κ 4))
        (intEtFZNat (m + ix key.b 0) (ix key.b 1).toNat (key.z.l.length + 1)) * cst x key.b := by
  obtain ⟨h1, h2⟩ := jval_integral x t hx { b := key.b, z := snoc key.z } h.2.1 m
  have e : ∀ u ∈ Set.uIcc 0 t, Real.exp (m * x.k * u) * x.IEZ u * jval x u key =
      Real.exp (m * x.k * u) * jval x u { b := key.b, z := snoc key.z } := by
    intro u hu
    rw [Set.uIcc_of_le hx.2.2] at hu
    simp only [jval_cst, ← zval_snoc x hx.2.1 u hu.1 key.z h.2.2.2.2.2.1]
    ring
  rw [(snoc_ok key.z h.2.2.2.2.2.1).2] at h2
  refine ⟨h1.congr fun u hu => (e u (Set.uIoc_subset_uIcc hu)).symm, ?_⟩
  rw [intervalIntegral.integral_congr e, h2]

theorem iezVal_ev (x : Par) (t : ℝ) (hx : Adm x t) (c : ℚ) (m : ℤ) (P : JPoly) (hP : P.Keys KOK) :
    iezVal x t c m (fun s => ev (jval x s) P) =
      ev (fun k => c * ∫ s in (0 : ℝ)..t, Real.exp (m * x.k * s) * x.IEZ s * jval x s k) P := by
  unfold iezVal
  have : ∀ s, Real.exp (m * x.k * s) * (x.IEZ s * ev (jval x s) P) =
      (Real.exp (m * x.k * s) * x.IEZ s) * ev (jval x s) P := fun s => by ring
  simp only [this]
  rw [(intervalIntegral_ev _ _ _ _ _ fun e he => (iez_entry x t hx e.1 (hP e he) m).1).2]
  rw [← ev_mul_const]

theorem fixed_terms (c : ℚ) (m : ℤ) (key : JKey) (v : ℚ) (h0 : KOK key) :
    ∃ ts, ((intEtFZNat (m + ix key.b 0) (ix key.b 1).toNat (key.z.l.length + 1)).items.mapM
      fun e2 => (do
        let z ← addMax1 (snoc key.z) (ix e2.1 3) (ix e2.1 4)
        pure (({ b := key1Z key.b e2.1, z := z } : JKey), c * v * e2.2) :
          Except PyErr (JKey × ℚ))) = .ok ts ∧ (∀ x ∈ ts, KOK x.1) ∧
      ∀ (x : Par) (t : ℝ), Adm x t → (ts.map fun y => y.2 • jval x t y.1).sum =
        v • (c * ∫ s in (0 : ℝ)..t, Real.exp (m * x.k * s) * x.IEZ s * jval x s key) := by
  obtain ⟨hl, h1, h3, h4, h5, hz, hc⟩ := h0
  obtain ⟨ts, e1, e2, e3⟩ := terms_ok (intEtFZNat (m + ix key.b 0) (ix key.b 1).toNat
    (key.z.l.length + 1)).items (addMax1 (snoc key.z)) (key1Z key.b) (c * v) (snoc key.z) (by
    intro e he
    have hκ := intEtFZ_keys _ _ _ e he
    obtain ⟨sz, sl⟩ := snoc_ok key.z hz
    obtain ⟨z', a1, a2, _, a3⟩ := addMax1_zval (snoc key.z) sz (by omega) (ix e.1 3) (ix e.1 4)
      hκ.2.2.1
    refine ⟨z', a1, a2, fun z'' hz'' => ?_, a3⟩
    unfold KOK key1Z
    simp only [ix_cons_zero, ix_cons_succ, List.length_cons, List.length_nil]
    exact ⟨by trivial, hκ.2.1, h3, h4, h5, hz'', by trivial⟩)
  refine ⟨ts, e1, e2, fun x t hx => ?_⟩
  rw [e3 x t hx, (iez_entry x t hx key ⟨hl, h1, h3, h4, h5, hz, hc⟩ m).2]
  simp only [key1Z_cst x hx.1]
  unfold ev
  rw [Rat.smul_def, ← List.sum_map_mul_left, ← List.sum_map_mul_right, ← List.sum_map_mul_left,
    ← List.sum_map_mul_left]
  congr 1
  apply List.map_congr_left
  intro a _
  simp only [Rat.smul_def]
  push_cast
  ring

theorem fixed_spec (c : ℚ) (m : ℤ) (P : JPoly) (hP : P.Keys KOK) :
    ∃ Q, intEIEZFixed c m P = .ok Q ∧ Q.keyfor = P.keyfor ∧ Q.WF ∧ Q.Keys KOK ∧
      (∀ (x : Par) (t : ℝ), Adm x t → ev (jval x t) Q =
        iezVal x t c m fun s => ev (jval x s) P) ∧
      ∀ A : Prop, (P.NZKeys fun _ => A) → Q.NZKeys fun _ => A := by
  obtain ⟨Q, e, qk, qw, qK, qv⟩ := subst_spec (ι := {y : Par × ℝ // Adm y.1 y.2}) P.keyfor
    (fun e => do
      let sub ← intEtFZ (m + ix e.1.b 0) (ix e.1.b 1) (e.1.z.l.length + 1)
      sub.items.mapM fun e2 => do
        let z ← addMax1 (snoc e.1.z) (ix e2.1 3) (ix e2.1 4)
        pure (({ b := key1Z e.1.b e2.1, z := z } : JKey), c * e.2 * e2.2)) P KOK
    (fun y => jval y.1.1 y.1.2) (fun y k => c * ∫ s in (0 : ℝ)..y.1.2,
      Real.exp (m * y.1.1.k * s) * y.1.1.IEZ s * jval y.1.1 s k) (by
    rintro ⟨key, v⟩ he
    have h0 := hP _ he
    simp only at h0
    obtain ⟨ts, e1, e2, e3⟩ := fixed_terms c m key v h0
    refine ⟨ts, ?_, e2, fun y => e3 _ _ y.2⟩
    simp only [intEtFZ]
    rw [if_neg (by have := h0.2.1; omega)]
    exact e1)
  refine ⟨Q, e, qk, qw, qK, ?_, ?_⟩
  · intro x t hx
    rw [qv ⟨(x, t), hx⟩, iezVal_ev x t hx c m P hP]
  · intro A hA
    refine subst_NZ _ _ _ _ A hA e ?_
    rintro ⟨k, v⟩ he ts hts h0 y hy
    simp only at h0
    subst h0
    cases hs : intEtFZ (m + ix k.b 0) (ix k.b 1) (k.z.l.length + 1) with
    | error _ => rw [hs] at hts; cases hts
    | ok sub =>
      rw [hs] at hts
      refine mapM_zero _ _ _ hts ?_ y hy
      intro a y' ha
      cases hz : addMax1 (snoc k.z) (ix a.1 3) (ix a.1 4) with
      | error _ => rw [hz] at ha; cases ha
      | ok z =>
        rw [hz] at ha
        cases ha
        simp

/-! ### the loop of `int_e_IEZ_poly` -/

theorem iezLoop_ok (c : ℚ) (e : JKey × ℚ) (z : Tup) (hz : ZOK z) (h1 : 1 ≤ z.l.length)
    (hk : 0 ≤ ix e.1.b 3 ∧ 0 ≤ ix e.1.b 4 ∧ 0 ≤ ix e.1.b 5)
    (sub : List (List ℤ × ℚ)) (hsub : ∀ a ∈ sub, 0 ≤ ix a.1 1 ∧ 0 ≤ ix a.1 4) :
    ∃ ts, iezLoop c e z sub = .ok ts ∧ (∀ x ∈ ts, KOK x.1 ∧ 1 ≤ x.1.z.l.length) ∧
      (e.2 = 0 → ∀ x ∈ ts, x.2 = 0) := by
  induction sub generalizing z with
  | nil => exact ⟨[], rfl, by simp, by simp⟩
  | cons a sub ih =>
    obtain ⟨z', a1, a2, a3, _⟩ := addMax1_zval z hz h1 (ix a.1 3) (ix a.1 4) (hsub a (by simp)).2
    obtain ⟨ts, b1, b2, b3⟩ := ih z' a2 (by omega) fun a ha => hsub a (by simp [ha])
    refine ⟨_, by rw [iezLoop, a1, ok_bind, b1, ok_bind]; rfl, ?_, ?_⟩
    · intro x hx
      rcases List.mem_cons.1 hx with rfl | hx
      · have := (hsub a (by simp)).1
        refine ⟨?_, by dsimp only; omega⟩
        unfold KOK key1Z
        simp only [ix_cons_zero, ix_cons_succ, List.length_cons, List.length_nil]
        exact ⟨by trivial, this, hk.1, hk.2.1, hk.2.2, a2, by trivial⟩
      · exact b2 x hx
    · intro h0 x hx
      rcases List.mem_cons.1 hx with rfl | hx
      · simp [h0]
      · exact b3 h0 x hx

/-- when every power combination has at most one non-trivial lower bound term, carrying the tuples
from round to round makes no difference -/
theorem iezLoop_eq (c : ℚ) (e : JKey × ℚ) (he : KOK e.1) (n : ℤ) (m : ℕ) (h : n = 0 ∨ m = 0) :
    iezLoop c e (snoc e.1.z) (intEtFZNat n m (e.1.z.l.length + 1)).items =
      (intEtFZNat n m (e.1.z.l.length + 1)).items.mapM fun e2 => (do
        let z ← addMax1 (snoc e.1.z) (ix e2.1 3) (ix e2.1 4)
        pure (({ b := key1Z e.1.b e2.1, z := z } : JKey), c * e.2 * e2.2) :
          Except PyErr (JKey × ℚ)) := by
  obtain ⟨sz, sl⟩ := snoc_ok e.1.z he.2.2.2.2.2.1
  have h00 := addMax1_zero _ sz (by omega)
  have key : ∀ (a b : List ℤ) (v w : ℚ), ix a 3 = 0 → ix a 4 = 0 →
      iezLoop c e (snoc e.1.z) [(a, v), (b, w)] = [(a, v), (b, w)].mapM fun e2 => (do
        let z ← addMax1 (snoc e.1.z) (ix e2.1 3) (ix e2.1 4)
        pure (({ b := key1Z e.1.b e2.1, z := z } : JKey), c * e.2 * e2.2) :
          Except PyErr (JKey × ℚ)) := by
    intro a b v w h3 h4
    simp only [List.mapM_cons, List.mapM_nil, iezLoop, h3, h4, h00, ok_bind]
    cases addMax1 (snoc e.1.z) (ix b 3) (ix b 4) <;> rfl
  unfold intEtFZNat
  rw [if_neg (by omega)]
  by_cases hn : n = 0
  · rw [if_pos hn]
    have h3 : ¬ ([0, (m : ℤ) + 1, 0, 0, 0] : List ℤ) = [0, 0, 0, 0, (m : ℤ) + 1] := by
      simp; omega
    simp only [dset, h3, if_false]
    exact key _ _ _ _ rfl rfl
  · have hm : m = 0 := by tauto
    rw [if_neg hn, if_pos hm]
    have h3 : ¬ ([n, 0, 1, 0, 0] : List ℤ) = [0, 0, 1, n, 0] := by simp [hn]
    simp only [dset, h3, if_false]
    exact key _ _ _ _ rfl rfl

/-- when `int_e_IEZ_poly` is right: there are no jumps, or no key mixes a power of the time with an
exponential -/
def IezOK (x : Par) (m : ℤ) (P : JPoly) : Prop :=
  x.N = 0 ∨ P.Keys fun k => m + ix k.b 0 = 0 ∨ ix k.b 1 = 0

theorem code_spec (c : ℚ) (m : ℤ) (P : JPoly) (hP : P.Keys KOK) :
    ∃ Q, intEIEZ c m P = .ok Q ∧ Q.keyfor = P.keyfor ∧ Q.WF ∧ Q.Keys KOK ∧
      (∀ (x : Par) (t : ℝ), Adm x t → IezOK x m P → ev (jval x t) Q =
        iezVal x t c m fun s => ev (jval x s) P) ∧
      ∀ A : Prop, (P.NZKeys fun _ => A) → Q.NZKeys fun _ => A := by
  have hterm : ∀ e ∈ P.items, ∃ ts, iezLoop c e (snoc e.1.z) (intEtFZNat (m + ix e.1.b 0)
      (ix e.1.b 1).toNat (e.1.z.l.length + 1)).items = .ok ts ∧
      (∀ x ∈ ts, KOK x.1 ∧ 1 ≤ x.1.z.l.length) ∧ (e.2 = 0 → ∀ x ∈ ts, x.2 = 0) := by
    intro e he
    obtain ⟨hl, h1, h3, h4, h5, hz, hc⟩ := hP e he
    obtain ⟨sz, sl⟩ := snoc_ok e.1.z hz
    exact iezLoop_ok c e _ sz (by omega) ⟨h3, h4, h5⟩ _ fun a ha =>
      ⟨(intEtFZ_keys _ _ _ a ha).2.1, (intEtFZ_keys _ _ _ a ha).2.2.1⟩
  have hsub : ∀ e ∈ P.items, intEtFZ (m + ix e.1.b 0) (ix e.1.b 1) (e.1.z.l.length + 1) =
      .ok (intEtFZNat (m + ix e.1.b 0) (ix e.1.b 1).toNat (e.1.z.l.length + 1)) := by
    intro e he
    have := (hP e he).2.1
    rw [intEtFZ, if_neg (by omega)]
  obtain ⟨Q, e, qk, qw, qK, qv⟩ := subst_spec (ι := {y : Par × ℝ // Adm y.1 y.2 ∧ IezOK y.1 m P})
    P.keyfor
    (fun e => do
      let sub ← intEtFZ (m + ix e.1.b 0) (ix e.1.b 1) (e.1.z.l.length + 1)
      iezLoop c e (snoc e.1.z) sub.items) P KOK
    (fun y => jval y.1.1 y.1.2) (fun y k => c * ∫ s in (0 : ℝ)..y.1.2,
      Real.exp (m * y.1.1.k * s) * y.1.1.IEZ s * jval y.1.1 s k) (by
    intro e he
    obtain ⟨ts, e1, e2, e3⟩ := hterm e he
    refine ⟨ts, ?_, fun x hx => (e2 x hx).1, ?_⟩
    · rw [hsub e he]; exact e1
    · rintro ⟨⟨x, t⟩, hx, hA⟩
      dsimp only at hx hA ⊢
      rcases hA with hN | hA
      · have : ∀ y ∈ ts, y.2 • jval x t y.1 = 0 := by
          intro y hy
          rw [jval_cst, zval_none x hN t _ (e2 y hy).2]; simp
        rw [List.map_congr_left this]
        simp [IEZ_none x hN]
      · obtain ⟨k, v⟩ := e
        have h0 := hP _ he
        have hcond : m + ix k.b 0 = 0 ∨ (ix k.b 1).toNat = 0 := by
          have := hA _ he
          dsimp only at this
          omega
        rw [iezLoop_eq c (k, v) h0 _ _ hcond] at e1
        obtain ⟨ts', f1, f2, f3⟩ := fixed_terms c m k v h0
        have : ts = ts' := Except.ok.inj (e1.symm.trans f1)
        rw [this]
        exact f3 x t hx)
  refine ⟨Q, e, qk, qw, qK, ?_, ?_⟩
  · intro x t hx hA
    rw [qv ⟨(x, t), hx, hA⟩, iezVal_ev x t hx c m P hP]
  · intro A hA
    refine subst_NZ _ _ _ _ A hA e ?_
    intro e1 he ts hts h0 y hy
    obtain ⟨ts', a1, a2, a3⟩ := hterm e1 he
    rw [hsub e1 he, ok_bind] at hts
    have : ts = ts' := Except.ok.inj (hts.symm.trans a1)
    rw [this] at hy
    exact a3 h0 y hy

end Ajd.ItoCond
