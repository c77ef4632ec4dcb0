import Verif.Lemmas.ItoCondMom

/-! C19, C20: joint moments given the initial variance and the jumps of the variance
(`ito_cond_mom.py`). -/

namespace Ajd
open Poly Ito ItoCond MeasureTheory

/-- C19. `int_et_fZ(n, m, N)` with `N` summations is `∫_0^t e^{nks} s^m f_{Z_s} ds` for every jump
functional `f_Z` with `N` summations; the last two entries of a key are exponents at the last of the
running maxima of the jump times. -/
theorem C19_int_et_fZ (n : ℤ) (m : ℕ) (N : ℕ) : ∃ P, intEtFZ n m N = .ok P ∧ P.keyfor = kfFZ ∧
    P.Len 5 ∧ ∀ (z : Tup), z.l.length = N → ∀ (x : ItoCond.Par) (t : ℝ), x.k ≠ 0 →
      (∀ i, 0 ≤ x.s i) → 0 ≤ t →
      ev (fun κ => etVal x.k t κ * zvalMul x t z (ix κ 3) (ix κ 4)) P =
        ∫ s in (0 : ℝ)..t, Real.exp (n * x.k * s) * s ^ m * zval x s z := by
  refine ⟨intEtFZNat n m N, ?_, ?_, fun e he => (intEtFZ_keys n m N e he).1, ?_⟩
  · rw [intEtFZ, if_neg (by omega), Int.toNat_natCast]
  · unfold intEtFZNat; split_ifs <;> rfl
  · rintro z rfl x t hk hs ht
    exact (zval_integral x hs hk t ht z n m).2.symm

/-- C19. a negative power of the time is rejected -/
theorem C19_int_et_fZ_guard (n m : ℤ) (N : ℕ) : (∃ e, intEtFZ n m N = .error e) ↔ m < 0 := by
  unfold intEtFZ; split_ifs with h <;> simp [h]

/-- C19. a factor `e^{aks} s^b` at the last running maximum is again a jump functional: the program
rewrites the exponent tuples into it -/
theorem C19_at_last_maximum (z : Tup) (hz : ZOK z) (h0 : 1 ≤ z.l.length) (a b : ℤ) (hb : 0 ≤ b) :
    ∃ z', addMax1 z a b = .ok z' ∧ ZOK z' ∧ z'.l.length = z.l.length ∧
      ∀ (x : ItoCond.Par), (∀ i, 0 ≤ x.s i) → ∀ t, 0 ≤ t → zval x t z' = zvalMul x t z a b :=
  addMax1_zval z hz h0 a b hb

example : ∃ P, intEtFZ 2 3 2 = .ok P ∧ P.items.length = 8 := ⟨_, rfl, by decide +kernel⟩
example : ZOK ⟨[1, 2], [0, 1], [1], [3]⟩ := by simp [ZOK]
example : addMax1 ⟨[1, 2], [0, 1], [1], [3]⟩ 2 1 = .ok ⟨[1, 2], [0, 1], [3], [4]⟩ := rfl

/-- C20. `int_e_poly(c, tp, m, poly)` is `c * factor(tp) * ∫_0^t e^{mks} poly(s) ds`, all jump
functionals included -/
theorem C20_int_e_poly (c : ℚ) (tp : ℕ) (m : ℤ) (P : JPoly) (hP : P.Keys KOK) :
    ∃ Q, ItoCond.intEPoly c tp m P = .ok Q ∧ Q.keyfor = P.keyfor ∧ Q.WF ∧ Q.Keys KOK ∧
      ∀ (x : ItoCond.Par) (t : ℝ), x.k ≠ 0 → (∀ i, 0 ≤ x.s i) → 0 ≤ t → ev (jval x t) Q =
        c * (if tp = 1 then x.v - x.θ else if tp = 2 then x.θ else x.σ) *
          ∫ s in (0 : ℝ)..t, Real.exp (m * x.k * s) * ev (jval x s) P := by
  obtain ⟨Q, h1, h2, h3, h4, h5, _⟩ := intEPoly_spec c tp m P hP
  exact ⟨Q, h1, h2, h3, h4, fun x t hk hs ht => h5 x t ⟨hk, hs, ht⟩⟩

example : ItoCond.P200.Keys KOK := by
  intro x hx; simp [ItoCond.P200] at hx
  rcases hx with rfl | rfl | rfl | rfl | rfl | rfl <;> simp [KOK, ZOK]

/-- C20, part. Full statement: `moment_IEII(n1, n2, n3)` returns
`E[IE_t^{n1} I_t^{n2} I*_t^{n3} | v_0, z]` for all orders and all jumps. It never raises and its keys
are well formed for all orders; the value is right if the total order is at most 3, or there is no
jump, or `n2 = n3 = 0`. Missing: the other orders from 4 on, where the value is wrong
(`C20_moment_IEII_wrong`). -/
theorem C20_moment_IEII_partial (n1 n2 n3 : ℕ) : ∃ P, ItoCond.momentIEII n1 n2 n3 = .ok P ∧
    P.keyfor = ItoCond.kf ∧ P.WF ∧ P.Keys KOK ∧
    ∀ (x : ItoCond.Par) (M : ℕ → ℕ → ℕ → ℝ → ℝ), x.k ≠ 0 → (∀ i, 0 ≤ x.s i) → ItoRecZ x M →
      (n1 + n2 + n3 ≤ 3 ∨ x.N = 0 ∨ (n2 = 0 ∧ n3 = 0)) → ∀ t, 0 ≤ t →
      ev (jval x t) P = M n1 n2 n3 t := by
  obtain ⟨P, h, g, _⟩ := code_moment (n1, n2, n3) ⟨by simp, by simp, by simp⟩
  refine ⟨P, h, g.kf, g.wf, g.keys, fun x M hk hs hM hr t ht => ?_⟩
  refine g.val ⟨x, M, t, ⟨hk, hs, ht⟩, hM⟩ ?_
  simp only [Right, lev, ItoCond.Pure]
  omega

/-- C20. with the tuples of `int_e_IEZ_poly` computed afresh for every term (this is not the code) all
orders are right -/
theorem C20_moment_IEII_repaired (n1 n2 n3 : ℕ) : ∃ P, momentWith intEIEZFixed n1 n2 n3 = .ok P ∧
    P.keyfor = ItoCond.kf ∧ P.WF ∧ P.Keys KOK ∧
    ∀ (x : ItoCond.Par) (M : ℕ → ℕ → ℕ → ℝ → ℝ), x.k ≠ 0 → (∀ i, 0 ≤ x.s i) → ItoRecZ x M →
      ∀ t, 0 ≤ t → ev (jval x t) P = M n1 n2 n3 t := by
  obtain ⟨P, h, g, _⟩ := fixed_moment (n1, n2, n3) ⟨by simp, by simp, by simp⟩
  exact ⟨P, h, g.kf, g.wf, g.keys, fun x M hk hs hM t ht =>
    g.val ⟨x, M, t, ⟨hk, hs, ht⟩, hM⟩ trivial⟩

/-- C20. the equation has a solution, and only one for `t >= 0` -/
theorem C20_unique (x : ItoCond.Par) (hk : x.k ≠ 0) (hs : ∀ i, 0 ≤ x.s i) : (∃ M, ItoRecZ x M) ∧
    ∀ M M', ItoRecZ x M → ItoRecZ x M' → ∀ n1 n2 n3 t, 0 ≤ t → M n1 n2 n3 t = M' n1 n2 n3 t := by
  refine ⟨⟨_, itoSolZ_rec x⟩, ?_⟩
  intro M M' h h' n1 n2 n3 t ht
  obtain ⟨P, _, _, _, _, hP⟩ := C20_moment_IEII_repaired n1 n2 n3
  rw [← hP x M hk hs h t ht, hP x M' hk hs h' t ht]

/-- C20. an odd power of `I*` has moment 0: all coefficients are 0 -/
theorem C20_odd (n1 n2 n3 : ℕ) (h3 : n3 % 2 = 1) : ∃ P, ItoCond.momentIEII n1 n2 n3 = .ok P ∧
    (∀ e ∈ P.items, e.2 = 0) ∧ (3 ≤ n1 + n2 + n3 → P.items = []) := by
  obtain ⟨P, h, g, hz⟩ := code_moment (n1, n2, n3) ⟨by simp, by simp, by simp⟩
  have h0 : ∀ e ∈ P.items, e.2 = 0 := by
    intro e he
    by_contra hne
    have := g.nz e he hne
    simp only at this
    omega
  refine ⟨P, h, h0, fun hl => ?_⟩
  have := hz (by simp only [lev]; omega)
  cases hp : P.items with
  | nil => rfl
  | cons e l =>
    exact absurd (h0 e (by simp [hp])) (this e (by simp [hp]))

/-- a negative total order is rejected -/
theorem C20_guard (n1 n2 n3 : ℤ) (h : n1 + n2 + n3 < 0) :
    ItoCond.momentIEII n1 n2 n3 = .error .valueError := by
  simp [ItoCond.momentIEII, momentWith, h]

/-- what the code and the repaired program differ by for `(2, 2, 0)` -/
def diff220 : List (JKey × ℚ) := [
  (⟨[0, 0, 2, 0, 1, 0], ⟨[2], [0], [], []⟩, []⟩, -1),
  (⟨[1, 0, 2, 0, 1, 0], ⟨[2], [1], [], []⟩, []⟩, -1),
  (⟨[0, 0, 2, 0, 1, 0], ⟨[3], [1], [], []⟩, []⟩, 1),
  (⟨[1, 0, 2, 0, 1, 0], ⟨[1], [0], [], []⟩, []⟩, 1)]

theorem diff220_eq : (match ItoCond.momentIEII 2 2 0, momentWith intEIEZFixed 2 2 0 with
    | .ok p, .ok q => (match p.sub q with
      | .ok r => decide (r.items = diff220)
      | .error _ => false)
    | _, _ => false) = true := by
  decide +kernel

/-- C20. the error of `moment_IEII(2, 2, 0)`, for all jumps -/
theorem C20_moment_IEII_error : ∃ P, ItoCond.momentIEII 2 2 0 = .ok P ∧
    ∀ (x : ItoCond.Par) (M : ℕ → ℕ → ℕ → ℝ → ℝ), x.k ≠ 0 → (∀ i, 0 ≤ x.s i) → ItoRecZ x M →
      ∀ t, 0 ≤ t → ev (jval x t) P - M 2 2 0 t = x.θ / x.k ^ 2 * ∑ i, if x.s i ≤ t then
        Real.exp (x.k * x.s i) * x.J i * (Real.exp (x.k * t) - Real.exp (x.k * x.s i)) *
          (1 - x.s i * Real.exp (x.k * x.s i)) else 0 := by
  obtain ⟨P, h, hk, _⟩ := C20_moment_IEII_partial 2 2 0
  obtain ⟨Q, h', hk', hw', _, hv⟩ := C20_moment_IEII_repaired 2 2 0
  have hd := diff220_eq
  rw [show ItoCond.momentIEII 2 2 0 = .ok P from h, show momentWith intEIEZFixed 2 2 0 = .ok Q from h']
    at hd
  obtain ⟨r, e, _, _, _, _, hr⟩ := sub_spec P Q (hk.trans hk'.symm) hw'
  simp only [e, decide_eq_true_eq] at hd
  refine ⟨P, h, fun x M hk hs hM t ht => ?_⟩
  have := hr (jval x t)
  rw [hv x M hk hs hM t ht] at this
  rw [← this, ev, hd]
  simp only [diff220, List.map_cons, List.map_nil, List.sum_cons, List.sum_nil, Rat.smul_def,
    jval, zval_one]
  simp [ix]
  simp only [Finset.mul_sum, ← Finset.sum_neg_distrib, ← Finset.sum_add_distrib]
  apply Finset.sum_congr rfl
  intro i _
  split_ifs
  · rw [show 2 * x.k * x.s i = x.k * x.s i + x.k * x.s i by ring,
      show 3 * x.k * x.s i = x.k * x.s i + (x.k * x.s i + x.k * x.s i) by ring]
    simp only [Real.exp_add]
    field_simp
    ring
  · simp

/-- C20, negation. With one jump, of size 1 at time 0, the moment `moment_IEII(2, 2, 0)` is wrong at
every time `t > 0`. -/
theorem C20_moment_IEII_wrong : ∃ (x : ItoCond.Par) (M : ℕ → ℕ → ℕ → ℝ → ℝ) (P : JPoly), x.k ≠ 0 ∧
    (∀ i, 0 ≤ x.s i) ∧ ItoRecZ x M ∧ ItoCond.momentIEII 2 2 0 = .ok P ∧
    ∀ t, 0 < t → ev (jval x t) P ≠ M 2 2 0 t := by
  obtain ⟨P, h, he⟩ := C20_moment_IEII_error
  let x : ItoCond.Par := ⟨1, 1, 1, 1, 1, fun _ => 0, fun _ => 1⟩
  refine ⟨x, itoSolZ x, P, one_ne_zero, fun _ => le_rfl, itoSolZ_rec x, h, fun t ht hne => ?_⟩
  have := he x _ one_ne_zero (fun _ => le_rfl) (itoSolZ_rec x) t ht.le
  rw [hne, sub_self] at this
  simp [x, ht.le] at this
  have h1 : (1 : ℝ) < Real.exp t := by
    have := Real.add_one_lt_exp ht.ne'
    linarith
  linarith

example : (2 : ℕ) + 1 + 0 ≤ 3 := by norm_num
example : ∃ P, ItoCond.momentIEII 2 1 0 = .ok P ∧ P.items.length = 13 := by
  have : (match ItoCond.momentIEII 2 1 0 with | .ok p => p.items.length | .error _ => 0) = 13 := by
    decide +kernel
  cases h : ItoCond.momentIEII 2 1 0 with
  | error e => rw [h] at this; simp at this
  | ok P => rw [h] at this; exact ⟨P, rfl, this⟩

end Ajd
