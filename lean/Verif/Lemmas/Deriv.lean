import Verif.Lemmas.Fsv1
import Mathlib.Analysis.SpecialFunctions.Pow.Deriv
import Mathlib.Analysis.Calculus.Deriv.ZPow

namespace Ajd.Fsv1
open Poly

/-! ### the derivative blocks of `dpoly` -/

theorem ix_modify_eq (k : List ℤ) (i : ℕ) (g : ℤ → ℤ) (h : i < k.length) :
    ix (k.modify i g) i = g (ix k i) := by
  simp [ix, List.getElem?_modify, h]

theorem ix_modify_ne (k : List ℤ) (i j : ℕ) (g : ℤ → ℤ) (h : i ≠ j) :
    ix (k.modify i g) j = ix k j := by
  simp [ix, List.getElem?_modify, h]

/-- differentiating a plain power -/
theorem deriv_pow (i : ℕ) (kf : List String) (F : ℝ → List ℤ → ℝ) (g : List ℤ → ℝ)
    (hF : ∀ s k, F s k = s ^ ix k i * g k) (hg : ∀ k a, g (k.modify i a) = g k) (P : IPoly) (s : ℝ)
    (hP : ∀ e ∈ P.items, i < e.1.length ∧ (s ≠ 0 ∨ 0 ≤ ix e.1 i)) :
    HasDerivAt (fun s => ev (F s) P) (ev (F s) (ofTerms kf (P.items.flatMap (dPow i)))) s := by
  rw [ev_ofTerms_flatMap (F s) (fun k => (ix k i : ℝ) * s ^ (ix k i - 1) * g k)]
  · apply hasDerivAt_ev
    intro e he
    simp only [hF]
    exact (hasDerivAt_zpow (ix e.1 i) s (hP e he).2).mul_const _
  · intro e he
    unfold dPow
    split_ifs with h0
    · simp only [List.map_cons, List.map_nil, List.sum_cons, List.sum_nil, add_zero, hF, hg,
        Rat.smul_def, ix_modify_eq _ _ _ (hP e he).1]
      push_cast
      ring
    · have : ix e.1 i = 0 := by simpa using h0
      simp [this]

/-- differentiating `e^{-kh}`, `k^{-}` at positions 0 and 2 with `h` at position 1 -/
theorem deriv_k (kf : List String) (h : ℝ) (F : ℝ → List ℤ → ℝ) (g : List ℤ → ℝ)
    (hF : ∀ s k, F s k = Real.exp (-(ix k 0) * s * h) * h ^ ix k 1 * s ^ (-ix k 2) * g k)
    (hg : ∀ k a, g (k.modify 1 a) = g k) (hg2 : ∀ k a, g (k.modify 2 a) = g k)
    (P : IPoly) (s : ℝ) (hs : s ≠ 0) (hP : ∀ e ∈ P.items, 2 < e.1.length ∧ 0 ≤ ix e.1 1) :
    HasDerivAt (fun s => ev (F s) P) (ev (F s) (ofTerms kf (P.items.flatMap dK))) s := by
  rw [ev_ofTerms_flatMap (F s) (fun k => Real.exp (-(ix k 0) * s * h) * (-(ix k 0) * h) *
    (h ^ ix k 1 * s ^ (-ix k 2) * g k) + Real.exp (-(ix k 0) * s * h) * h ^ ix k 1 *
      ((-(ix k 2) : ℝ) * s ^ (-(ix k 2) - 1)) * g k)]
  · apply hasDerivAt_ev
    intro e he
    have h1 : HasDerivAt (fun s => Real.exp (-(ix e.1 0) * s * h))
        (Real.exp (-(ix e.1 0) * s * h) * (-(ix e.1 0) * h)) s := by
      apply HasDerivAt.exp
      have := ((hasDerivAt_id s).const_mul (-(ix e.1 0) : ℝ)).mul_const h
      simpa using this
    have h2 := hasDerivAt_zpow (-ix e.1 2) s (Or.inl hs)
    have h3 := (h1.mul_const (h ^ ix e.1 1)).mul h2 |>.mul_const (g e.1)
    refine (h3.congr_deriv ?_).congr_of_eventuallyEq (Filter.Eventually.of_forall fun x => ?_)
    · push_cast
      ring
    · simp [hF]
  · intro e he
    obtain ⟨hl, h1⟩ := hP e he
    unfold dK
    rw [List.map_append, List.sum_append]
    have a1 : ((if ix e.1 0 ≠ 0 then [(e.1.modify 1 (· + 1), (-(ix e.1 0) : ℚ) * e.2)]
        else []).map fun kv : List ℤ × ℚ => kv.2 • F s kv.1).sum =
        (e.2 : ℝ) * (Real.exp (-(ix e.1 0) * s * h) * (-(ix e.1 0) * h) *
    (h ^ ix e.1 1 * s ^ (-ix e.1 2) * g e.1)) := by
      split_ifs with h0
      · simp only [List.map_cons, List.map_nil, List.sum_cons, List.sum_nil, add_zero, hF, hg,
          Rat.smul_def, ix_modify_eq _ 1 _ (by omega : 1 < e.1.length),
          ix_modify_ne _ 1 0 _ (by omega), ix_modify_ne _ 1 2 _ (by omega)]
        rw [zpow_add_nn h _ _ h1 (by norm_num), zpow_one]
        push_cast
        ring
      · have : ix e.1 0 = 0 := by simpa using h0
        simp [this]
    have a2 : ((if ix e.1 2 ≠ 0 then [(e.1.modify 2 (· + 1), (-(ix e.1 2) : ℚ) * e.2)]
        else []).map fun kv : List ℤ × ℚ => kv.2 • F s kv.1).sum =
        (e.2 : ℝ) * (Real.exp (-(ix e.1 0) * s * h) * h ^ ix e.1 1 *
      ((-(ix e.1 2) : ℝ) * s ^ (-(ix e.1 2) - 1)) * g e.1) := by
      split_ifs with h0
      · simp only [List.map_cons, List.map_nil, List.sum_cons, List.sum_nil, add_zero, hF, hg2,
          Rat.smul_def, ix_modify_eq _ 2 _ hl,
          ix_modify_ne _ 2 0 _ (by omega), ix_modify_ne _ 2 1 _ (by omega)]
        rw [neg_add, ← sub_eq_add_neg]
        push_cast
        ring
      · have : ix e.1 2 = 0 := by simpa using h0
        simp [this]
    rw [a1, a2, Rat.smul_def]
    ring

/-- differentiating `rho`, `sqrt(1-rho^2)` at positions `i`, `i+1` -/
theorem deriv_rho (i : ℕ) (kf : List String) (F : ℝ → List ℤ → ℝ) (g : List ℤ → ℝ)
    (hF : ∀ s k, F s k = s ^ ix k i * sq s (ix k (i + 1)) * g k)
    (hg : ∀ k a, g (k.modify i a) = g k) (hg2 : ∀ k a, g (k.modify (i + 1) a) = g k)
    (P : IPoly) (s : ℝ) (hs : 0 < 1 - s ^ 2)
    (hP : ∀ e ∈ P.items, i + 1 < e.1.length ∧ 0 ≤ ix e.1 i) :
    HasDerivAt (fun s => ev (F s) P) (ev (F s) (ofTerms kf (P.items.flatMap (dRho i)))) s := by
  rw [ev_ofTerms_flatMap (F s) (fun k => ((ix k i : ℝ) * s ^ (ix k i - 1)) *
    sq s (ix k (i + 1)) * g k + s ^ ix k i * (-(ix k (i + 1)) * s * sq s (ix k (i + 1) - 2)) * g k)]
  · apply hasDerivAt_ev
    intro e he
    have h1 := hasDerivAt_zpow (ix e.1 i) s (Or.inr (hP e he).2)
    have h0 : HasDerivAt (fun s : ℝ => 1 - s ^ 2) (-(2 * s)) s := by
      have := (hasDerivAt_pow 2 s).const_sub 1
      simpa using this
    have h2 : HasDerivAt (fun s => sq s (ix e.1 (i + 1)))
        (-(ix e.1 (i + 1)) * s * sq s (ix e.1 (i + 1) - 2)) s := by
      unfold sq
      refine (h0.rpow_const (p := (ix e.1 (i + 1) : ℝ) / 2) (Or.inl (ne_of_gt hs))).congr_deriv ?_
      push_cast
      rw [show ((ix e.1 (i + 1) : ℝ) - 2) / 2 = (ix e.1 (i + 1) : ℝ) / 2 - 1 by ring]
      ring
    refine ((h1.mul h2).mul_const (g e.1)).congr_deriv ?_
      |>.congr_of_eventuallyEq (Filter.Eventually.of_forall fun x => ?_)
    · ring
    · simp [hF]
  · intro e he
    obtain ⟨hl, h1⟩ := hP e he
    unfold dRho
    rw [List.map_append, List.sum_append]
    have a1 : ((dPow i e).map fun kv : List ℤ × ℚ => kv.2 • F s kv.1).sum =
        (e.2 : ℝ) * (((ix e.1 i : ℝ) * s ^ (ix e.1 i - 1)) * sq s (ix e.1 (i + 1)) * g e.1) := by
      unfold dPow
      split_ifs with h0
      · simp only [List.map_cons, List.map_nil, List.sum_cons, List.sum_nil, add_zero, hF, hg,
          Rat.smul_def, ix_modify_eq _ i _ (by omega : i < e.1.length),
          ix_modify_ne _ i (i + 1) _ (by omega)]
        push_cast
        ring
      · have : ix e.1 i = 0 := by simpa using h0
        simp [this]
    have a2 : ((if ix e.1 (i + 1) ≠ 0 then
        [((e.1.modify i (· + 1)).modify (i + 1) (· - 2), (-(ix e.1 (i + 1)) : ℚ) * e.2)]
        else []).map fun kv : List ℤ × ℚ => kv.2 • F s kv.1).sum =
        (e.2 : ℝ) * (s ^ ix e.1 i *
          (-(ix e.1 (i + 1)) * s * sq s (ix e.1 (i + 1) - 2)) * g e.1) := by
      split_ifs with h0
      · simp only [List.map_cons, List.map_nil, List.sum_cons, List.sum_nil, add_zero, hF, hg2, hg,
          Rat.smul_def, ix_modify_eq _ (i + 1) _
            (by simpa using hl : i + 1 < (e.1.modify i (· + 1)).length),
          ix_modify_ne _ (i + 1) i _ (by omega), ix_modify_ne _ i (i + 1) _ (by omega),
          ix_modify_eq _ i _ (by omega : i < e.1.length)]
        rw [zpow_add_nn s _ _ h1 (by norm_num), zpow_one]
        push_cast
        ring
      · have : ix e.1 (i + 1) = 0 := by simpa using h0
        simp [this]
    rw [a1, a2, Rat.smul_def]
    ring

end Ajd.Fsv1
