import Verif.Lemmas.ItosInst
import Mathlib.MeasureTheory.Integral.IntervalIntegral.FundThmCalculus
import Mathlib.NumberTheory.Real.Irrational

/-! C21, C22: joint moments of the two-factor model (`itos_mom.py`). -/

namespace Ajd
open Poly Itos MeasureTheory

/-- C21, part. Full statement: `int_et(n1, n2, m)` is `∫_0^s e^{(n1 k1 + n2 k2) r} r^m dr` whenever
`n1 k1 + n2 k2 ≠ 0` or `n1 = n2 = 0`. Missing: `n1 = -n2 ≠ 0`, where the value is wrong
(`C21_int_et_wrong`). -/
theorem C21_int_et_partial (n1 n2 : ℤ) (m : ℕ) : ∃ P, Itos.intEt code n1 n2 m = .ok P ∧
    P.keyfor = kfEt ∧ P.WF ∧
    ∀ (x : Itos.Par) (s : ℝ), (n1 = 0 ∧ n2 = 0) ∨ (n1 + n2 ≠ 0 ∧ x.rate (n1, n2) ≠ 0) →
      ev (Itos.eval x s) P = ∫ r in (0 : ℝ)..s, Real.exp ((n1 * x.k1 + n2 * x.k2) * r) * r ^ m := by
  refine ⟨intEtNat code n1 n2 m, by rw [Itos.intEt, if_neg (by omega), Int.toNat_natCast], ?_, ?_, ?_⟩
  · unfold intEtNat; split_ifs <;> exact ofTerms_keyfor _ _
  · unfold intEtNat; split_ifs <;> exact ofTerms_WF _ _
  · intro x s h
    refine ev_intEtNat code x n1 n2 ?_ m s
    rcases h with ⟨rfl, rfl⟩ | h
    · exact Or.inl ⟨rfl, rfl⟩
    · exact Or.inr ⟨by simp [code, h.1], h.2⟩

/-- C21. with the test `n1 == 0 and n2 == 0` (this is not the code) the full statement holds -/
theorem C21_int_et_repaired (n1 n2 : ℤ) (m : ℕ) : ∃ P, Itos.intEt fixed n1 n2 m = .ok P ∧
    ∀ (x : Itos.Par) (s : ℝ), (n1 = 0 ∧ n2 = 0) ∨ x.rate (n1, n2) ≠ 0 →
      ev (Itos.eval x s) P = ∫ r in (0 : ℝ)..s, Real.exp ((n1 * x.k1 + n2 * x.k2) * r) * r ^ m := by
  refine ⟨intEtNat fixed n1 n2 m, by rw [Itos.intEt, if_neg (by omega), Int.toNat_natCast], ?_⟩
  intro x s h
  refine ev_intEtNat fixed x n1 n2 ?_ m s
  rcases h with ⟨rfl, rfl⟩ | h
  · exact Or.inl ⟨rfl, rfl⟩
  · refine Or.inr ⟨?_, h⟩
    simp only [fixed, Bool.and_eq_false_iff, beq_eq_false_iff_ne]
    by_contra hc
    push Not at hc
    rw [hc.1, hc.2] at h
    simp [Itos.Par.rate] at h

/-- C21. `int_et(n, -n, m)` ignores the exponential, and is wrong whenever it matters -/
theorem C21_int_et_wrong (n : ℤ) (hn : n ≠ 0) (m : ℕ) : ∃ P, Itos.intEt code n (-n) m = .ok P ∧
    ∀ (x : Itos.Par) (s : ℝ), x.k1 ≠ x.k2 → 0 < s →
      ev (Itos.eval x s) P = s ^ (m + 1) / (m + 1) ∧
      ev (Itos.eval x s) P ≠
        ∫ r in (0 : ℝ)..s, Real.exp ((n * x.k1 + (-n : ℤ) * x.k2) * r) * r ^ m := by
  refine ⟨intEtNat code n (-n) m, by rw [Itos.intEt, if_neg (by omega), Int.toNat_natCast], ?_⟩
  intro x s hx hs
  have hz : code.zero n (-n) = true := by simp [code]
  have e : ev (Itos.eval x s) (intEtNat code n (-n) m) = s ^ (m + 1) / (m + 1) := by
    have : intEtNat code n (-n) m = intEtNat code 0 0 m := by
      unfold intEtNat
      rw [hz, show code.zero 0 0 = true from rfl]
      simp
    rw [this, ev_intEtNat code x 0 0 (Or.inl ⟨rfl, rfl⟩)]
    simp [Itos.Par.rate, integral_pow]
  refine ⟨e, ?_⟩
  rw [e]
  have e1 : s ^ (m + 1) / (m + 1) = ∫ r in (0 : ℝ)..s, r ^ m := by simp [integral_pow]
  have ha : (n : ℝ) * x.k1 + ((-n : ℤ) : ℝ) * x.k2 ≠ 0 := by
    push_cast
    have : (n : ℝ) * x.k1 + -n * x.k2 = n * (x.k1 - x.k2) := by ring
    rw [this]
    exact mul_ne_zero (by exact_mod_cast hn) (sub_ne_zero.2 hx)
  generalize (n : ℝ) * x.k1 + ((-n : ℤ) : ℝ) * x.k2 = a at ha
  rw [e1]
  rcases lt_or_gt_of_ne ha with ha | ha
  · apply ne_of_gt
    apply intervalIntegral.integral_lt_integral_of_continuousOn_of_le_of_exists_lt hs (by fun_prop) (by fun_prop)
    · intro r hr
      have : Real.exp (a * r) ≤ 1 := Real.exp_le_one_iff.2 (mul_nonpos_of_nonpos_of_nonneg ha.le hr.1.le)
      nlinarith [pow_nonneg hr.1.le m]
    · refine ⟨s, by simp [hs.le], ?_⟩
      have : Real.exp (a * s) < 1 := by
        rw [← Real.exp_zero]; exact Real.exp_lt_exp.2 (mul_neg_of_neg_of_pos ha hs)
      nlinarith [pow_pos hs m]
  · apply ne_of_lt
    apply intervalIntegral.integral_lt_integral_of_continuousOn_of_le_of_exists_lt hs (by fun_prop) (by fun_prop)
    · intro r hr
      have : 1 ≤ Real.exp (a * r) := Real.one_le_exp (mul_nonneg ha.le hr.1.le)
      nlinarith [pow_nonneg hr.1.le m]
    · refine ⟨s, by simp [hs.le], ?_⟩
      have : 1 < Real.exp (a * s) := Real.one_lt_exp_iff.2 (mul_pos ha hs)
      nlinarith [pow_pos hs m]

/-- C21. a negative power is rejected -/
theorem C21_int_et_guard (g : Itos.Cfg) (n1 n2 m : ℤ) : (∃ e, Itos.intEt g n1 n2 m = .error e) ↔ m < 0 := by
  unfold Itos.intEt; split_ifs with h <;> simp [h]

example : ∃ x : Itos.Par, x.rate (2, -1) ≠ 0 ∧ x.k1 ≠ x.k2 :=
  ⟨⟨1, 3, 0, 1, 1, 1, 1, 1, 1⟩, by norm_num [Itos.Par.rate], by norm_num⟩

/-- C22, part. Full statement: `moment_IEI_IEII(n4, n5, n6, n7, n8)` evaluates to the solution of the
documented recursive equation for all orders. It never raises and its keys are well formed for all
orders, with `key[1] = (n4, n6)`; the value is right if the total order is at most 2, if it is 3 except
for the four orders of `C22_moment_wrong`, or if `IE1` (or `IE2`) is the only one of the five processes
with an order above 1 and its companion `I1` (`I2`) does not occur. Missing: the other orders. -/
theorem C22_moment_partial (n4 n5 n6 n7 n8 : ℕ) : ∃ P, moment code (n4, n5, n6, n7, n8) = .ok P ∧
    P.keyfor = Itos.kf ∧ P.WF ∧ (P.Keys fun k => KOK k ∧ k.a = ((n4 : ℤ), (n6 : ℤ))) ∧
    ∀ (x : Itos.Par) (M : Fam), x.k1 ≠ 0 → x.k2 ≠ 0 → ItoRec2 x M →
      (n4 + n5 + n6 + n7 + n8 ≤ 2 ∨
        (n4 + n5 + n6 + n7 + n8 = 3 ∧ (n4, n5, n6, n7, n8) ∉
          [(2, 1, 0, 0, 0), (1, 2, 0, 0, 0), (0, 0, 2, 1, 0), (0, 0, 1, 2, 0)]) ∨
        (n5 = 0 ∧ n6 + n7 + n8 ≤ 1) ∨ (n7 = 0 ∧ n4 + n5 + n8 ≤ 1)) →
      ∀ t, x.u ≤ t → ev (dval x t) P = M n4 n5 n6 n7 n8 t := by
  obtain ⟨P, h, g, _⟩ := code_moment (n4, n5, n6, n7, n8) ⟨by simp, by simp, by simp, by simp, by simp⟩
  refine ⟨P, h, g.kf, g.wf, fun k hk => ⟨g.keys k hk, g.a k hk⟩, fun x M h1 h2 hM hr t ht => ?_⟩
  refine g.val ⟨x, M, t, ht, hM⟩ ⟨?_, h1, h2⟩
  simp only [Itos.Right, Itos.lev, R1, R2, wrong3]
  rcases hr with h | ⟨h, h'⟩ | h | h
  · left; omega
  · right; left
    refine ⟨by omega, ?_⟩
    simp only [List.mem_cons, Prod.mk.injEq, List.not_mem_nil, or_false] at h' ⊢
    omega
  · right; right; left; omega
  · right; right; right; omega

/-- C22. with the `elif`s replaced by `if`s and the test in `int_et` repaired (this is not the code)
all orders are right, for rates without a linear relation over the integers (footnote f1 of the module) -/
theorem C22_moment_repaired (n4 n5 n6 n7 n8 : ℕ) : ∃ P, moment fixed (n4, n5, n6, n7, n8) = .ok P ∧
    P.keyfor = Itos.kf ∧ P.WF ∧ (P.Keys fun k => KOK k ∧ k.a = ((n4 : ℤ), (n6 : ℤ))) ∧
    ∀ (x : Itos.Par) (M : Fam), x.Generic → ItoRec2 x M →
      ∀ t, x.u ≤ t → ev (dval x t) P = M n4 n5 n6 n7 n8 t := by
  obtain ⟨P, h, g, _⟩ := fixed_moment (n4, n5, n6, n7, n8) ⟨by simp, by simp, by simp, by simp, by simp⟩
  exact ⟨P, h, g.kf, g.wf, fun k hk => ⟨g.keys k hk, g.a k hk⟩, fun x M hx hM t ht =>
    g.val ⟨x, M, t, ht, hM⟩ hx⟩

theorem itoRec2_eq (x : Itos.Par) (M M' : Fam) (h : ItoRec2 x M) (h' : ItoRec2 x M') : ∀ n n4 n5 n6 n7 n8,
    n4 + n5 + n6 + n7 + n8 ≤ n → ∀ t, x.u ≤ t → M n4 n5 n6 n7 n8 t = M' n4 n5 n6 n7 n8 t := by
  intro n
  induction n with
  | zero =>
    intro n4 n5 n6 n7 n8 hn t ht
    obtain ⟨rfl, rfl, rfl, rfl, rfl⟩ : n4 = 0 ∧ n5 = 0 ∧ n6 = 0 ∧ n7 = 0 ∧ n8 = 0 := by omega
    rw [h.zero t ht, h'.zero t ht]
  | succ n ih =>
    intro n4 n5 n6 n7 n8 hn t ht
    by_cases h0 : n4 + n5 + n6 + n7 + n8 = 0
    · exact ih _ _ _ _ _ (by omega) t ht
    have hq : ∀ (w : ℝ → ℝ) (a b c d e : ℕ), a + b + c + d + e ≤ n →
        ∫ s in x.u..t, w s * M a b c d e s = ∫ s in x.u..t, w s * M' a b c d e s := by
      intro w a b c d e hl
      apply intervalIntegral.integral_congr
      intro s hs
      rw [Set.uIcc_of_le ht] at hs
      dsimp only
      rw [ih a b c d e hl s hs.1]
    have q1 : ∀ (a : ℤ) (a1 a2 a3 a4 a5 b1 b2 b3 b4 b5 : ℕ), a1 + a2 + a3 + a4 + a5 ≤ n →
        b1 + b2 + b3 + b4 + b5 ≤ n → quad1 x a (M a1 a2 a3 a4 a5) (M b1 b2 b3 b4 b5) t =
          quad1 x a (M' a1 a2 a3 a4 a5) (M' b1 b2 b3 b4 b5) t := by
      intro a a1 a2 a3 a4 a5 b1 b2 b3 b4 b5 hl1 hl2
      simp only [quad1, hq _ _ _ _ _ _ hl1, hq _ _ _ _ _ _ hl2]
    have q2 : ∀ (a : ℤ) (a1 a2 a3 a4 a5 b1 b2 b3 b4 b5 : ℕ), a1 + a2 + a3 + a4 + a5 ≤ n →
        b1 + b2 + b3 + b4 + b5 ≤ n → quad2 x a (M a1 a2 a3 a4 a5) (M b1 b2 b3 b4 b5) t =
          quad2 x a (M' a1 a2 a3 a4 a5) (M' b1 b2 b3 b4 b5) t := by
      intro a a1 a2 a3 a4 a5 b1 b2 b3 b4 b5 hl1 hl2
      simp only [quad2, hq _ _ _ _ _ _ hl1, hq _ _ _ _ _ _ hl2]
    have c2 : ∀ (c : ℕ) (r r' : ℝ), (2 ≤ c → r = r') →
        (c : ℝ) * (c - 1) / 2 * r = (c : ℝ) * (c - 1) / 2 * r' := by
      intro c r r' hr
      by_cases hc : 2 ≤ c
      · rw [hr hc]
      · rw [choose2 c hc, zero_mul, zero_mul]
    have c11 : ∀ (c d : ℕ) (r r' : ℝ), (1 ≤ c → 1 ≤ d → r = r') → (c : ℝ) * d * r = (c : ℝ) * d * r' := by
      intro c d r r' hr
      by_cases hc : 1 ≤ c ∧ 1 ≤ d
      · rw [hr hc.1 hc.2]
      · have : c = 0 ∨ d = 0 := by omega
        rcases this with rfl | rfl <;> simp
    rw [h.step _ _ _ _ _ (by omega) t ht, h'.step _ _ _ _ _ (by omega) t ht]
    simp only [term4, term5, term45, term6, term7, term67, term8]
    rw [c2 n4 _ _ fun _ => q1 1 _ _ _ _ _ _ _ _ _ _ (by omega) (by omega),
      c2 n5 _ _ fun _ => q1 (-1) _ _ _ _ _ _ _ _ _ _ (by omega) (by omega),
      c11 n4 n5 _ _ fun _ _ => q1 0 _ _ _ _ _ _ _ _ _ _ (by omega) (by omega),
      c2 n6 _ _ fun _ => q2 1 _ _ _ _ _ _ _ _ _ _ (by omega) (by omega),
      c2 n7 _ _ fun _ => q2 (-1) _ _ _ _ _ _ _ _ _ _ (by omega) (by omega),
      c11 n6 n7 _ _ fun _ _ => q2 0 _ _ _ _ _ _ _ _ _ _ (by omega) (by omega),
      c2 n8 _ _ fun _ => congrArg₂ (· + ·) (q1 (-1) _ _ _ _ _ _ _ _ _ _ (by omega) (by omega))
        (q2 (-1) _ _ _ _ _ _ _ _ _ _ (by omega) (by omega))]

/-- C22. the equation has a solution, and only one for `t >= (n-1)h` -/
theorem C22_unique (x : Itos.Par) : (∃ M, ItoRec2 x M) ∧
    ∀ M M', ItoRec2 x M → ItoRec2 x M' → ∀ n4 n5 n6 n7 n8 t, x.u ≤ t →
      M n4 n5 n6 n7 n8 t = M' n4 n5 n6 n7 n8 t :=
  ⟨⟨_, itoSol_rec x⟩, fun M M' h h' n4 n5 n6 n7 n8 => itoRec2_eq x M M' h h' _ n4 n5 n6 n7 n8 le_rfl⟩

/-- C22. the error for the four wrong orders of total 3: the code leaves out the mixed term -/
theorem C22_moment_error :
    (∃ P, moment code (2, 1, 0, 0, 0) = .ok P ∧ ∀ (x : Itos.Par) (M : Fam), x.k1 ≠ 0 → x.k2 ≠ 0 →
      ItoRec2 x M → ∀ t, x.u ≤ t →
        M 2 1 0 0 0 t - ev (dval x t) P = 2 * x.σ1 * ∫ s in x.u..t, M 2 0 0 0 0 s) ∧
    (∃ P, moment code (1, 2, 0, 0, 0) = .ok P ∧ ∀ (x : Itos.Par) (M : Fam), x.k1 ≠ 0 → x.k2 ≠ 0 →
      ItoRec2 x M → ∀ t, x.u ≤ t →
        M 1 2 0 0 0 t - ev (dval x t) P = 2 * x.σ1 * ∫ s in x.u..t, M 1 1 0 0 0 s) ∧
    (∃ P, moment code (0, 0, 2, 1, 0) = .ok P ∧ ∀ (x : Itos.Par) (M : Fam), x.k1 ≠ 0 → x.k2 ≠ 0 →
      ItoRec2 x M → ∀ t, x.u ≤ t →
        M 0 0 2 1 0 t - ev (dval x t) P = 2 * x.σ2 * ∫ s in x.u..t, M 0 0 2 0 0 s) ∧
    (∃ P, moment code (0, 0, 1, 2, 0) = .ok P ∧ ∀ (x : Itos.Par) (M : Fam), x.k1 ≠ 0 → x.k2 ≠ 0 →
      ItoRec2 x M → ∀ t, x.u ≤ t →
        M 0 0 1 2 0 t - ev (dval x t) P = 2 * x.σ2 * ∫ s in x.u..t, M 0 0 1 1 0 s) := by
  have key : ∀ (n4 n5 n6 n7 : ℕ) (b : Bool × List Call) (j : ℕ), n4 + n5 + n6 + n7 = 3 →
      (cases (n4, n5, n6, n7, (0 : ℕ)))[j]? = some b → b.1 = true →
      calls code (n4, n5, n6, n7, (0 : ℕ)) = b.2 →
      ∃ P, moment code (n4, n5, n6, n7, (0 : ℕ)) = .ok P ∧ ∀ (x : Itos.Par) (M : Fam), x.k1 ≠ 0 →
        x.k2 ≠ 0 → ItoRec2 x M → ∀ t, x.u ≤ t →
          some (ev (dval x t) P) = (Itos.terms x M n4 n5 n6 n7 0 t)[j]? := by
    intro n4 n5 n6 n7 b j hl hb hb1 hc
    obtain ⟨P, e, h⟩ := code_moment3 (n4, n5, n6, n7, (0 : ℕ))
      ⟨by simp, by simp, by simp, by simp, by simp⟩ (by simp only [lev]; omega)
    refine ⟨P, e, fun x M h1 h2 hM t ht => ?_⟩
    have := h ⟨x, M, t, ht, hM⟩ h1 h2
    dsimp only at this
    rw [this, hc]
    have hf := cases_terms x M t n4 n5 n6 n7 0
    have hlen := hf.length_eq
    obtain ⟨hj, hjb⟩ := List.getElem?_eq_some_iff.1 hb
    rw [List.getElem?_eq_getElem (by omega)]
    congr 1
    have := (List.forall₂_iff_get.1 hf).2 j hj (by omega)
    simp only [List.get_eq_getElem, hjb] at this
    exact this.1 hb1
  refine ⟨?_, ?_, ?_, ?_⟩
  · obtain ⟨P, e, h⟩ := key 2 1 0 0 _ 0 rfl rfl rfl rfl
    refine ⟨P, e, fun x M h1 h2 hM t ht => ?_⟩
    have := h x M h1 h2 hM t ht
    simp only [Itos.terms, List.getElem?_cons_zero, Option.some.injEq] at this
    rw [this, hM.step 2 1 0 0 0 (by norm_num) t ht]
    have h0 := int_first hM (fun s => Real.exp (((0 : ℤ) : ℝ) * x.k1 * s)) (show 1 + 0 + 0 + 0 + 0 = 1 from rfl) ht
    have h0' := int_first hM (fun s => Real.exp (((0 + 1 : ℤ) : ℝ) * x.k1 * s)) (show 1 + 0 + 0 + 0 + 0 = 1 from rfl) ht
    simp only [term4, term5, term45, term6, term7, term67, term8, quad1, quad2,
      show 2 - 1 = 1 from rfl, show 1 - 1 = 0 from rfl, h0, h0']
    simp
    ring
  · obtain ⟨P, e, h⟩ := key 1 2 0 0 _ 1 rfl rfl rfl rfl
    refine ⟨P, e, fun x M h1 h2 hM t ht => ?_⟩
    have := h x M h1 h2 hM t ht
    simp only [Itos.terms, List.getElem?_cons_zero, List.getElem?_cons_succ, Option.some.injEq] at this
    rw [this, hM.step 1 2 0 0 0 (by norm_num) t ht]
    have h0 := int_first hM (fun s => Real.exp (((0 : ℤ) : ℝ) * x.k1 * s)) (show 0 + 1 + 0 + 0 + 0 = 1 from rfl) ht
    have h0' := int_first hM (fun s => Real.exp (((0 + 1 : ℤ) : ℝ) * x.k1 * s)) (show 0 + 1 + 0 + 0 + 0 = 1 from rfl) ht
    simp only [term4, term5, term45, term6, term7, term67, term8, quad1, quad2,
      show 2 - 1 = 1 from rfl, show 1 - 1 = 0 from rfl, h0, h0']
    simp
    ring
  · obtain ⟨P, e, h⟩ := key 0 0 2 1 _ 3 rfl rfl rfl rfl
    refine ⟨P, e, fun x M h1 h2 hM t ht => ?_⟩
    have := h x M h1 h2 hM t ht
    simp only [Itos.terms, List.getElem?_cons_zero, List.getElem?_cons_succ, Option.some.injEq] at this
    rw [this, hM.step 0 0 2 1 0 (by norm_num) t ht]
    have h0 := int_first hM (fun s => Real.exp (((0 : ℤ) : ℝ) * x.k2 * s)) (show 0 + 0 + 1 + 0 + 0 = 1 from rfl) ht
    have h0' := int_first hM (fun s => Real.exp (((0 + 1 : ℤ) : ℝ) * x.k2 * s)) (show 0 + 0 + 1 + 0 + 0 = 1 from rfl) ht
    simp only [term4, term5, term45, term6, term7, term67, term8, quad1, quad2,
      show 2 - 1 = 1 from rfl, show 1 - 1 = 0 from rfl, h0, h0']
    simp
    ring
  · obtain ⟨P, e, h⟩ := key 0 0 1 2 _ 4 rfl rfl rfl rfl
    refine ⟨P, e, fun x M h1 h2 hM t ht => ?_⟩
    have := h x M h1 h2 hM t ht
    simp only [Itos.terms, List.getElem?_cons_zero, List.getElem?_cons_succ, Option.some.injEq] at this
    rw [this, hM.step 0 0 1 2 0 (by norm_num) t ht]
    have h0 := int_first hM (fun s => Real.exp (((0 : ℤ) : ℝ) * x.k2 * s)) (show 0 + 0 + 0 + 1 + 0 = 1 from rfl) ht
    have h0' := int_first hM (fun s => Real.exp (((0 + 1 : ℤ) : ℝ) * x.k2 * s)) (show 0 + 0 + 0 + 1 + 0 = 1 from rfl) ht
    simp only [term4, term5, term45, term6, term7, term67, term8, quad1, quad2,
      show 2 - 1 = 1 from rfl, show 1 - 1 = 0 from rfl, h0, h0']
    simp
    ring

/-- C22. The statement is false for the code: at `(2, 1, 0, 0, 0)` and all usual parameters. -/
theorem C22_moment_wrong : ∃ P, moment code (2, 1, 0, 0, 0) = .ok P ∧
    ∀ (x : Itos.Par) (M : Fam), 0 < x.k1 → 0 < x.k2 → 0 < x.v1 → 0 ≤ x.θ1 → x.σ1 ≠ 0 → ItoRec2 x M →
      ∀ t, x.u < t → ev (dval x t) P ≠ M 2 1 0 0 0 t := by
  obtain ⟨⟨P, e, h⟩, _⟩ := C22_moment_error
  refine ⟨P, e, fun x M hk hk2 hv hθ hσ hM t ht heq => ?_⟩
  have h1 := h x M hk.ne' hk2.ne' hM t ht.le
  rw [heq, sub_self] at h1
  -- the second moment of `IE1` is positive
  have m2 : ∀ s, x.u ≤ s → M 2 0 0 0 0 s = ∫ r in x.u..s,
      Real.exp (x.k1 * r) * (Real.exp (x.k1 * x.u) * (x.v1 - x.θ1) + x.θ1 * Real.exp (x.k1 * r)) := by
    intro s hs
    rw [hM.step 2 0 0 0 0 (by norm_num) s hs]
    simp only [term4, term5, term45, term6, term7, term67, term8, quad1,
      show 2 - 2 = 0 from rfl, show 2 - 1 = 1 from rfl, int_zero hM _ hs,
      int_first hM _ (show 1 + 0 + 0 + 0 + 0 = 1 from rfl) hs]
    have i1 : IntervalIntegrable (fun r => Real.exp (x.k1 * x.u) * (x.v1 - x.θ1) * Real.exp (x.k1 * r)) volume x.u s :=
      Continuous.intervalIntegrable (by fun_prop) _ _
    have i2 : IntervalIntegrable (fun r => x.θ1 * Real.exp (2 * x.k1 * r)) volume x.u s :=
      Continuous.intervalIntegrable (by fun_prop) _ _
    have : (fun r => Real.exp (x.k1 * r) * (Real.exp (x.k1 * x.u) * (x.v1 - x.θ1) + x.θ1 * Real.exp (x.k1 * r)))
        = fun r => Real.exp (x.k1 * x.u) * (x.v1 - x.θ1) * Real.exp (x.k1 * r) + x.θ1 * Real.exp (2 * x.k1 * r) := by
      funext r
      rw [show 2 * x.k1 * r = x.k1 * r + x.k1 * r by ring, Real.exp_add]
      ring
    rw [this, intervalIntegral.integral_add i1 i2, intervalIntegral.integral_const_mul,
      intervalIntegral.integral_const_mul]
    norm_num
  have pos : ∀ s, x.u < s → 0 < M 2 0 0 0 0 s := by
    intro s hs
    rw [m2 s hs.le]
    apply intervalIntegral.intervalIntegral_pos_of_pos_on (Continuous.intervalIntegrable (by fun_prop) _ _) _ hs
    intro r hr
    apply mul_pos (Real.exp_pos _)
    have : Real.exp (x.k1 * x.u) ≤ Real.exp (x.k1 * r) :=
      Real.exp_le_exp.2 (mul_le_mul_of_nonneg_left hr.1.le hk.le)
    nlinarith [mul_pos (Real.exp_pos (x.k1 * x.u)) hv]
  have ipos : 0 < ∫ s in x.u..t, M 2 0 0 0 0 s := by
    have : ∫ s in x.u..t, M 2 0 0 0 0 s = ∫ s in x.u..t, ∫ r in x.u..s,
      Real.exp (x.k1 * r) * (Real.exp (x.k1 * x.u) * (x.v1 - x.θ1) + x.θ1 * Real.exp (x.k1 * r)) := by
      apply intervalIntegral.integral_congr
      intro s hs
      rw [Set.uIcc_of_le ht.le] at hs
      exact m2 s hs.1
    rw [this]
    apply intervalIntegral.intervalIntegral_pos_of_pos_on _ _ ht
    · apply Continuous.intervalIntegrable
      exact intervalIntegral.continuous_primitive (fun a b => Continuous.intervalIntegrable (by fun_prop) _ _) _
    · intro s hs
      rw [← m2 s hs.1.le]
      exact pos s hs.1
  have : 2 * x.σ1 * ∫ s in x.u..t, M 2 0 0 0 0 s ≠ 0 := mul_ne_zero (mul_ne_zero (by norm_num) hσ) ipos.ne'
  exact this h1.symm

/-- C22. a negative total is rejected, though by an accident of the error message -/
theorem C22_guard (g : Itos.Cfg) (i : Itos.Idx) (h : i.1 + i.2.1 + i.2.2.1 + i.2.2.2.1 + i.2.2.2.2 < 0) :
    moment g i = .error .nameError := by
  rw [moment, momentAll, if_pos (show lev i < 0 from h)]; rfl

/-- all applicable terms, the test in `int_et` as in the code -/
def Itos.mixed : Itos.Cfg := ⟨true, code.zero, rfl⟩

/-- what it differs by from the repaired program for `(1, 1, 0, 2, 0)` -/
def diff11020 : List (DKey × ℚ) := [
  (⟨[(0, 1, 1)], (1, 0), (0, 0), [1, 0, 1, 0, 1, 0, 0]⟩, -1),
  (⟨[(0, 1, 1)], (1, 0), (0, 0), [1, 0, 1, 0, 0, 1, 0]⟩, 1),
  (⟨[(1, 0, 1)], (1, 0), (0, 0), [1, 0, 1, 0, 1, 0, 0]⟩, 1),
  (⟨[(1, 0, 1)], (1, 0), (0, 0), [1, 0, 1, 0, 0, 1, 0]⟩, -1),
  (⟨[(1, -1, 1), (0, 1, 1)], (1, 0), (1, -1), [0, 0, 1, 0, 1, 0, 0]⟩, 1),
  (⟨[(1, -1, 1), (0, 1, 1)], (1, 0), (0, 0), [0, 0, 1, 0, 1, 0, 0]⟩, -1),
  (⟨[(1, -1, 1), (0, 1, 1)], (1, 0), (1, -1), [0, 0, 1, 0, 0, 1, 0]⟩, -1),
  (⟨[(1, -1, 1), (0, 1, 1)], (1, 0), (0, 0), [0, 0, 1, 0, 0, 1, 0]⟩, 1),
  (⟨[(1, -1, 1), (1, 0, 1)], (1, 0), (1, -1), [0, 0, 1, 0, 1, 0, 0]⟩, -1),
  (⟨[(1, -1, 1), (1, 0, 1)], (1, 0), (0, 0), [0, 0, 1, 0, 1, 0, 0]⟩, 1),
  (⟨[(1, -1, 1), (1, 0, 1)], (1, 0), (1, -1), [0, 0, 1, 0, 0, 1, 0]⟩, 1),
  (⟨[(1, -1, 1), (1, 0, 1)], (1, 0), (0, 0), [0, 0, 1, 0, 0, 1, 0]⟩, -1)]

theorem diff11020_eq : (match moment mixed (1, 1, 0, 2, 0), moment fixed (1, 1, 0, 2, 0) with
    | .ok p, .ok q => (match p.sub q with
      | .ok r => decide (r.items = diff11020) && decide (p.keyfor = q.keyfor)
      | .error _ => false)
    | _, _ => false) = true := by
  decide +kernel

/-- C22. replacing the `elif`s is not enough: with the test in `int_et` as it is, order 4 is wrong -/
theorem C22_rate_test_matters : ∃ P, moment mixed (1, 1, 0, 2, 0) = .ok P ∧
    ∀ (x : Itos.Par) (M : Fam), x.Generic → ItoRec2 x M → ∀ t, x.u ≤ t →
      ev (dval x t) P - M 1 1 0 2 0 t = Real.exp (x.k1 * x.u) * x.θ1 * (x.v2 - x.θ2) *
        (1 / x.k1 - 1 / x.k2) * ((t - x.u) - (Real.exp ((x.k1 - x.k2) * (t - x.u)) - 1) / (x.k1 - x.k2)) := by
  obtain ⟨Q, h', hk', hw', _, hv⟩ := C22_moment_repaired 1 1 0 2 0
  have hd := diff11020_eq
  rw [show moment fixed (1, 1, 0, 2, 0) = .ok Q from h'] at hd
  cases hp : moment mixed (1, 1, 0, 2, 0) with
  | error _ => rw [hp] at hd; simp at hd
  | ok P =>
    rw [hp] at hd
    dsimp only at hd
    refine ⟨P, rfl, fun x M hx hM t ht => ?_⟩
    have hk : P.keyfor = Q.keyfor := by
      cases hs : P.sub Q with
      | error _ => rw [hs] at hd; simp at hd
      | ok r => rw [hs] at hd; simp at hd; exact hd.2
    obtain ⟨r, e, _, _, _, _, hr⟩ := sub_spec P Q hk hw'
    simp only [e, Bool.and_eq_true, decide_eq_true_eq] at hd
    have := hr (dval x t)
    rw [hv x M hx hM t ht] at this
    rw [← this, ev, hd.1]
    have k1 : x.k1 ≠ 0 := by simpa [Itos.Par.rate] using hx (1, 0) (by simp)
    have k2 : x.k2 ≠ 0 := by simpa [Itos.Par.rate] using hx (0, 1) (by simp)
    have k12 : x.k1 - x.k2 ≠ 0 := by
      have := hx (1, -1) (by simp)
      simpa [Itos.Par.rate, sub_eq_add_neg] using this
    simp only [diff11020, List.map_cons, List.map_nil, List.sum_cons, List.sum_nil, Rat.smul_def,
      dval, den, Itos.Par.rate]
    simp [ix]
    have e1 : x.k1 + -x.k2 = x.k1 - x.k2 := by ring
    rw [e1]
    field_simp
    ring

/-- rates without a relation exist: `1` and an irrational -/
theorem generic_irrational (x : Itos.Par) (h1 : x.k1 = 1) (h2 : Irrational x.k2) : x.Generic := by
  rintro ⟨a, b⟩ hp hr
  simp only [Itos.Par.rate, h1, mul_one] at hr
  by_cases hb : b = 0
  · subst hb
    simp at hr
    exact hp (by simp [hr])
  · have hb' : (b : ℝ) ≠ 0 := by exact_mod_cast hb
    apply h2
    refine ⟨-(a : ℚ) / b, ?_⟩
    push_cast
    field_simp
    linarith

example : ∃ x : Itos.Par, x.Generic ∧ 0 < x.k1 ∧ 0 < x.k2 ∧ 0 < x.v1 ∧ 0 ≤ x.θ1 ∧ x.σ1 ≠ 0 :=
  ⟨⟨1, Real.sqrt 2, 0, 1, 1, 1, 1, 1, 1⟩, generic_irrational _ rfl irrational_sqrt_two, by norm_num,
    by simp, by norm_num, by norm_num, by norm_num⟩
example (x : Itos.Par) : ∃ M, ItoRec2 x M := (C22_unique x).1

end Ajd
