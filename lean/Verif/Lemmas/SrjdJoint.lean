import Verif.Model.SrjdJoint
import Verif.Lemmas.SrjdIez
import Verif.Lemmas.IntEv

/-! `moment_ie` and `moment_ie_iez`. -/

namespace Ajd

theorem fillLevels_all {I V : Type} [DecidableEq I] (good : I → V → Prop) (valid : I → Prop)
    (lev : I → ℤ) (step : I → List (I × V) → Except PyErr V) (idxs : ℤ → List I) (a b : ℤ)
    (hab : a ≤ b)
    (hidx : ∀ n, a ≤ n → n < b → ∀ i, i ∈ idxs n ↔ valid i ∧ lev i = n)
    (hstep : ∀ i, valid i → a ≤ lev i → lev i < b → ∀ T,
      TabGood good (fun j => valid j ∧ lev j < lev i) T → ∃ v, step i T = .ok v ∧ good i v)
    (T : List (I × V)) (hT : TabGood good (fun j => valid j ∧ lev j < a) T) :
    ∃ T', fillLevels step idxs (fun _ _ => false) (pyRange a b) T = .ok T' ∧
      TabGood good (fun j => valid j ∧ lev j < b) T' := by
  suffices H : ∀ (m : ℕ) (a' : ℤ) (T : List (I × V)), a ≤ a' → a' + m = b →
      TabGood good (fun j => valid j ∧ lev j < a') T →
      ∃ T', fillLevels step idxs (fun _ _ => false) ((List.range m).map fun i : ℕ => a' + (i : ℤ)) T =
        .ok T' ∧ TabGood good (fun j => valid j ∧ lev j < b) T' by
    exact H (b - a).toNat a T le_rfl (by omega) hT
  intro m
  induction m with
  | zero =>
    intro a' T h1 h2 hT
    refine ⟨T, rfl, ?_⟩
    have : a' = b := by push_cast at h2; omega
    subst this; exact hT
  | succ m ih =>
    intro a' T h1 h2 hT
    obtain ⟨T1, e1, g1⟩ := fillTable_spec good step (fun j => valid j ∧ lev j < a') (idxs a')
      (by
        intro i hi hD
        have := ((hidx a' h1 (by push_cast at h2; omega) i).1 hi).2
        omega)
      (by
        intro i hi T hT
        obtain ⟨hv, hl⟩ := (hidx a' h1 (by push_cast at h2; omega) i).1 hi
        exact hstep i hv (by omega) (by push_cast at h2; omega) T (by rw [hl]; exact hT))
      T hT
    have hT2 : TabGood good (fun j => valid j ∧ lev j < a' + 1)
        (T1.filter fun e => !((fun _ _ => false : ℤ → I → Bool) a' e.1)) := by
      rintro i ⟨hv, hl⟩
      simp only [Bool.not_false, List.filter_true]
      apply g1
      by_cases h : lev i < a'
      · left; exact ⟨hv, h⟩
      · right; exact (hidx a' h1 (by push_cast at h2; omega) i).2 ⟨hv, by omega⟩
    obtain ⟨T', e', g'⟩ := ih (a' + 1) _ (by omega) (by push_cast at h2 ⊢; omega) hT2
    refine ⟨T', ?_, g'⟩
    rw [List.range_succ_eq_map, List.map_cons, List.map_map]
    have e0 : a' + ((0 : ℕ) : ℤ) = a' := by simp
    rw [e0]
    have e2 : ((fun i : ℕ => a' + (i : ℤ)) ∘ Nat.succ) = fun i : ℕ => (a' + 1) + (i : ℤ) := by
      funext i; simp; omega
    rw [e2]
    unfold fillLevels at e' ⊢
    rw [List.foldlM_cons, e1]
    exact e'

namespace Poly

/-- a loop whose body adds something to the accumulator -/
theorem accLoop_spec {K α ι : Type} {M : Type} [AddCommMonoid M] [Module ℚ M]
    (f : Poly K → α → Except PyErr (Poly K)) (A : List α) (P : K → Prop) (kf : List String)
    (φ : ι → K → M) (F : ι → α → M)
    (h : ∀ a ∈ A, ∀ acc : Poly K, acc.keyfor = kf → acc.Keys P → ∃ q, f acc a = .ok q ∧ q.keyfor = kf ∧
      (acc.WF → q.WF) ∧ q.Keys P ∧ ∀ i, ev (φ i) q = ev (φ i) acc + F i a)
    (acc : Poly K) (hk : acc.keyfor = kf) (hacc : acc.Keys P) :
    ∃ r, A.foldlM f acc = .ok r ∧ r.keyfor = kf ∧ (acc.WF → r.WF) ∧ r.Keys P ∧
      ∀ i, ev (φ i) r = ev (φ i) acc + (A.map (F i)).sum := by
  induction A generalizing acc with
  | nil => exact ⟨acc, rfl, hk, id, hacc, fun i => by simp⟩
  | cons a t ih =>
    obtain ⟨q, e, k, w, c, v⟩ := h a (by simp) acc hk hacc
    obtain ⟨r, e1, k1, w1, c1, v1⟩ := ih (fun a ha => h a (by simp [ha])) q k c
    refine ⟨r, by rw [List.foldlM_cons, e]; exact e1, k1, w1 ∘ w, c1, fun i => ?_⟩
    rw [v1, v, List.map_cons, List.sum_cons, add_assoc]

end Poly

namespace Srjd
open Poly MeasureTheory ProbabilityTheory

theorem NN_seven (a b c d e f g : ℤ) (h0 : 0 ≤ a) (h1 : 0 ≤ b) (h2 : 0 ≤ c) (h3 : 0 ≤ d) (h4 : 0 ≤ e)
    (h5 : 0 ≤ f) (h6 : 0 ≤ g) : NN 7 [a, b, c, d, e, f, g] := by
  refine ⟨rfl, fun i => ?_⟩
  match i with
  | 0 => exact h0
  | 1 => exact h1
  | 2 => exact h2
  | 3 => exact h3
  | 4 => exact h4
  | 5 => exact h5
  | 6 => exact h6
  | n + 7 => simp

/-- non-negative components, and `v0-theta` appears with at most the power `B / 2` -/
def GB (B : ℤ) (K : List ℤ) : Prop := NN 7 K ∧ 2 * ix K 2 ≤ B

/-- factor chosen by `tp` -/
noncomputable def tpv (tp : ℤ) (a b σ : ℝ) : ℝ :=
  if tp = 1 then a else if tp = 2 then b else if tp = 3 then σ else 1

theorem zpow_succ_nn (x : ℝ) (n : ℤ) (hn : 0 ≤ n) : x ^ (n + 1) = x ^ n * x := by
  rw [zpow_add_nn x n 1 hn zero_le_one, zpow_one]

theorem vIat_intEKey (p : Par) (a b t : ℝ) (K : List ℤ) (hK : NN 7 K) (tp n0 : ℤ) :
    vIat p a b t (intEKey tp n0 K) = Real.exp (n0 * p.k * t) * (tpv tp a b p.sigma * p.k⁻¹ *
      (p.k ^ (-ix K 1) * (a ^ ix K 2 * b ^ ix K 3 * p.sigma ^ ix K 4) *
        (p.lmbd ^ ix K 5 * p.mu_v ^ ix K 6))) := by
  have hk : p.k ^ (-(ix K 1 + 1)) = p.k ^ (-ix K 1) * p.k⁻¹ := by
    rw [zpow_neg_add _ _ _ (hK.2 1) zero_le_one, zpow_neg_one]
  simp only [vIat, intEKey, ix_cons_zero, ix_cons_succ, hk, tpv]
  by_cases h1 : tp = 1
  · subst h1
    norm_num
    rw [zpow_succ_nn _ _ (hK.2 2)]; ring
  by_cases h2 : tp = 2
  · subst h2
    norm_num
    rw [zpow_succ_nn _ _ (hK.2 3)]; ring
  by_cases h3 : tp = 3
  · subst h3
    norm_num
    rw [zpow_succ_nn _ _ (hK.2 4)]; ring
  simp only [h1, h2, h3, if_false]
  ring

theorem vIat_split (p : Par) (a b t : ℝ) (K : List ℤ) : vIat p a b t K = Real.exp (ix K 0 * p.k * t) *
    (p.k ^ (-ix K 1) * (a ^ ix K 2 * b ^ ix K 3 * p.sigma ^ ix K 4) *
        (p.lmbd ^ ix K 5 * p.mu_v ^ ix K 6)) := by
  unfold vIat; ring

theorem integral_exp_nk (n : ℤ) (hn : n ≠ 0) (k : ℝ) (hk : k ≠ 0) (t : ℝ) :
    ∫ u in (0:ℝ)..t, Real.exp (n * k * u) = (Real.exp (n * k * t) - 1) * (k⁻¹ * (1 / n)) := by
  have hn' : (n : ℝ) ≠ 0 := by exact_mod_cast hn
  have h := intervalIntegral.integral_comp_mul_left (a := 0) (b := t) (fun x => Real.exp x)
    (c := n * k) (mul_ne_zero hn' hk)
  rw [h, integral_exp]
  simp only [mul_zero, Real.exp_zero, smul_eq_mul]
  field_simp

theorem vIat_cont (p : Par) (a b : ℝ) (K : List ℤ) : Continuous fun u => vIat p a b u K := by
  unfold vIat; fun_prop

theorem ev_cont {K : Type} (f : ℝ → K → ℝ) (q : Poly K) (h : ∀ k, Continuous fun u => f u k) :
    Continuous fun u => ev (f u) q := by
  unfold ev
  induction q.items with
  | nil => simpa using continuous_const
  | cons e l ih =>
    simp only [List.map_cons, List.sum_cons, Rat.smul_def]
    exact ((h e.1).const_mul _ |>.congr fun _ => rfl).add (by simpa [Rat.smul_def] using ih)

variable (c : Cfg)

theorem intE_spec (cf : ℚ) (tp m : ℤ) (hm : 1 ≤ m) (poly : IPoly) (B B' : ℤ) (hp : poly.Keys (GB B))
    (hB : (if tp = 1 then B + 2 else B) ≤ B') :
    ∃ r, intE c cf tp m poly = .ok r ∧ r.keyfor = c.kf ∧ r.WF ∧ r.Keys (GB B') ∧
      ∀ i : {p : Par // p.k ≠ 0} × ℝ × ℝ × ℝ,
        ev (vIat i.1.1 i.2.1 i.2.2.1 i.2.2.2) r = cf * (tpv tp i.2.1 i.2.2.1 i.1.1.sigma *
          ∫ u in (0:ℝ)..i.2.2.2, Real.exp (m * i.1.1.k * u) *
            ev (vIat i.1.1 i.2.1 i.2.2.1 u) poly) := by
  obtain ⟨r, e, k, w, cc, v⟩ := subst_spec c.kf (intETerms cf tp m) poly (GB B')
    (fun (i : {p : Par // p.k ≠ 0} × ℝ × ℝ × ℝ) => vIat i.1.1 i.2.1 i.2.2.1 i.2.2.2)
    (fun i K => cf * (tpv tp i.2.1 i.2.2.1 i.1.1.sigma *
      ∫ u in (0:ℝ)..i.2.2.2, Real.exp (m * i.1.1.k * u) * vIat i.1.1 i.2.1 i.2.2.1 u K)) (by
    intro e he
    obtain ⟨hK, hK2⟩ := hp e he
    have hn : ix e.1 0 + m ≠ 0 := by have := hK.2 0; omega
    refine ⟨_, by rw [intETerms]; exact if_neg hn, ?_, ?_⟩
    · intro x hx
      simp only [List.mem_cons, List.not_mem_nil, or_false] at hx
      have h1 := hK.2 1; have h2 := hK.2 2; have h3 := hK.2 3; have h4 := hK.2 4
      have h0 := hK.2 0
      rcases hx with rfl | rfl
      · exact ⟨NN_seven _ _ _ _ _ _ _ (by omega) (by omega) (by split_ifs <;> omega)
          (by split_ifs <;> omega) (by split_ifs <;> omega) (hK.2 5) (hK.2 6), by
            simp only [intEKey, ix_cons_zero, ix_cons_succ]; split_ifs at hB ⊢ <;> omega⟩
      · exact ⟨NN_seven _ _ _ _ _ _ _ (by omega) (by omega) (by split_ifs <;> omega)
          (by split_ifs <;> omega) (by split_ifs <;> omega) (hK.2 5) (hK.2 6), by
            simp only [intEKey, ix_cons_zero, ix_cons_succ]; split_ifs at hB ⊢ <;> omega⟩
    · rintro ⟨⟨p, hk⟩, a, b, t⟩
      simp only [List.map_cons, List.map_nil, List.sum_cons, List.sum_nil, Rat.smul_def, add_zero,
        vIat_intEKey p a b t e.1 hK]
      have : ∀ u, Real.exp (m * p.k * u) * vIat p a b u e.1 =
          (p.k ^ (-ix e.1 1) * (a ^ ix e.1 2 * b ^ ix e.1 3 * p.sigma ^ ix e.1 4) *
            (p.lmbd ^ ix e.1 5 * p.mu_v ^ ix e.1 6)) * Real.exp ((ix e.1 0 + m : ℤ) * p.k * u) := by
        intro u
        rw [vIat_split]
        push_cast
        rw [add_mul, add_mul, Real.exp_add]; ring
      simp_rw [this]
      rw [intervalIntegral.integral_const_mul, integral_exp_nk _ hn _ hk]
      push_cast
      simp only [zero_mul, Real.exp_zero]
      ring)
  refine ⟨r, e, k, w, cc, ?_⟩
  rintro ⟨⟨p, hk⟩, a, b, t⟩
  rw [v]
  simp only [ev_mul_const]
  rw [(intervalIntegral_ev (fun u => Real.exp (m * p.k * u)) (vIat p a b) poly 0 t (fun e _ => by
    refine Continuous.intervalIntegrable ?_ _ _
    exact (by fun_prop : Continuous fun u : ℝ => Real.exp (m * p.k * u)).mul (vIat_cont p a b e.1))).2]

end Srjd
end Ajd
