import Verif.Spec.ItoCond
import Mathlib.MeasureTheory.Integral.IntervalIntegral.Basic
import Mathlib.Algebra.BigOperators.Fin
import Mathlib.Data.List.GetD
import Verif.Lemmas.Ito
import Verif.Lemmas.Loop

section -- JumpFn

/-! The functionals of the jumps as a recursion over the levels. -/

namespace Ajd.ItoCond
open MeasureTheory Utils

/-- exponents of one level -/
abbrev Lv := ℤ × ℤ × ℤ × ℤ

section
variable {N : ℕ} (k : ℝ) (s J : Fin N → ℝ)

/-- weight of one level when jump `i` is chosen and the running maximum becomes `m` -/
noncomputable def wt (a : Lv) (i : Fin N) (m : ℝ) : ℝ :=
  Real.exp (a.1 * k * s i) * J i * s i ^ a.2.1 * (Real.exp (a.2.2.1 * k * m) * m ^ a.2.2.2)

/-- the sum over all choices of jumps, `φ` applied to the last running maximum -/
noncomputable def Z : List Lv → ℝ → (ℝ → ℝ) → ℝ
  | [], m, φ => φ m
  | a :: L, m, φ => ∑ i, wt k s J a i (max m (s i)) * Z L (max m (s i)) φ

theorem Z_congr (L : List Lv) (m : ℝ) (φ ψ : ℝ → ℝ) (h : ∀ μ, m ≤ μ → φ μ = ψ μ) :
    Z k s J L m φ = Z k s J L m ψ := by
  induction L generalizing m with
  | nil => exact h m le_rfl
  | cons a L ih =>
    unfold Z
    apply Finset.sum_congr rfl
    intro i _
    rw [ih _ fun μ hμ => h μ (le_trans (le_max_left _ _) hμ)]

theorem Z_append (A B : List Lv) (m : ℝ) (φ : ℝ → ℝ) :
    Z k s J (A ++ B) m φ = Z k s J A m fun μ => Z k s J B μ φ := by
  induction A generalizing m with
  | nil => rfl
  | cons a L ih =>
    simp only [List.cons_append, Z, ih]

theorem Z_zero (L : List Lv) (m : ℝ) : Z k s J L m (fun _ => 0) = 0 := by
  induction L generalizing m with
  | nil => rfl
  | cons a L ih => simp [Z, ih]

theorem Z_add (L : List Lv) (m : ℝ) (φ ψ : ℝ → ℝ) :
    Z k s J L m (fun μ => φ μ + ψ μ) = Z k s J L m φ + Z k s J L m ψ := by
  induction L generalizing m with
  | nil => rfl
  | cons a L ih => simp only [Z, ih, mul_add, Finset.sum_add_distrib]

theorem Z_mul (L : List Lv) (m : ℝ) (c : ℝ) (φ : ℝ → ℝ) :
    Z k s J L m (fun μ => c * φ μ) = c * Z k s J L m φ := by
  induction L generalizing m with
  | nil => rfl
  | cons a L ih =>
    simp only [Z, ih, Finset.mul_sum]
    apply Finset.sum_congr rfl
    intro i _
    ring

theorem Z_ev {K : Type} (L : List Lv) (m : ℝ) (f : ℝ → K → ℝ) (P : Poly K) :
    Z k s J L m (fun μ => Poly.ev (f μ) P) = Poly.ev (fun κ => Z k s J L m fun μ => f μ κ) P := by
  unfold Poly.ev
  generalize P.items = l
  induction l with
  | nil => simp [Z_zero]
  | cons e l ih =>
    simp only [List.map_cons, List.sum_cons]
    rw [Z_add, ih]
    congr 1
    simp only [Rat.smul_def]
    exact Z_mul ..

/-- jumps after `t` have size 0: only the choices with last running maximum `<= t` remain -/
theorem Z_upTo (L : List Lv) (t m : ℝ) (φ : ℝ → ℝ) (hm : m ≤ t) :
    Z k s (fun i => if s i ≤ t then J i else 0) L m φ =
      Z k s J L m fun μ => if μ ≤ t then φ μ else 0 := by
  induction L generalizing m with
  | nil => simp [Z, hm]
  | cons a L ih =>
    unfold Z
    apply Finset.sum_congr rfl
    intro i _
    by_cases h : s i ≤ t
    · rw [ih _ (max_le hm h)]
      simp [wt, h]
    · rw [Z_congr k s J L _ (fun μ => if μ ≤ t then φ μ else 0) (fun _ => 0), Z_zero]
      · simp [wt, h]
      · intro μ hμ
        rw [if_neg]
        intro h'
        exact h (le_trans (le_trans (le_max_right _ _) hμ) h')

theorem Z_integral (L : List Lv) (m a b : ℝ) (φ : ℝ → ℝ → ℝ)
    (h : ∀ μ, m ≤ μ → IntervalIntegrable (fun u => φ u μ) volume a b) :
    IntervalIntegrable (fun u => Z k s J L m (φ u)) volume a b ∧
    ∫ u in a..b, Z k s J L m (φ u) = Z k s J L m fun μ => ∫ u in a..b, φ u μ := by
  induction L generalizing m with
  | nil => exact ⟨h m le_rfl, rfl⟩
  | cons e L ih =>
    have h' := fun i => ih (max m (s i)) fun μ hμ => h μ (le_trans (le_max_left _ _) hμ)
    have h1 : ∀ i ∈ Finset.univ, IntervalIntegrable (fun u => wt k s J e i (max m (s i)) *
        Z k s J L (max m (s i)) (φ u)) volume a b := fun i _ => (h' i).1.const_mul _
    unfold Z
    constructor
    · have := IntervalIntegrable.sum Finset.univ h1
      refine this.congr ?_
      intro u _
      simp
    · rw [intervalIntegral.integral_finsetSum h1]
      apply Finset.sum_congr rfl
      intro i _
      rw [intervalIntegral.integral_const_mul, (h' i).2]

end

/-! ### relation to the sum over tuples -/

theorem runMax_zero {n N : ℕ} (s : Fin N → ℝ) (j : Fin (n + 1) → Fin N) :
    runMax s j 0 = s (j 0) := by
  unfold runMax
  apply le_antisymm
  · apply Finset.sup'_le
    intro b hb
    rw [Finset.mem_Iic] at hb
    rw [Fin.le_zero_iff.1 hb]
  · exact Finset.le_sup' (fun a => s (j a)) (by simp)

theorem runMax_succ {n N : ℕ} (s : Fin N → ℝ) (j : Fin (n + 1) → Fin N) (i : Fin n) :
    runMax s j i.succ = max (s (j 0)) (runMax s (fun a => j a.succ) i) := by
  unfold runMax
  apply le_antisymm
  · apply Finset.sup'_le
    intro b hb
    rw [Finset.mem_Iic] at hb
    induction b using Fin.cases with
    | zero => exact le_max_left _ _
    | succ b =>
      refine le_trans ?_ (le_max_right _ _)
      exact Finset.le_sup' (fun a : Fin n => s (j a.succ)) (by
        rw [Finset.mem_Iic]; exact Fin.succ_le_succ_iff.1 hb)
  · apply max_le
    · exact Finset.le_sup' (fun a => s (j a)) (by simp)
    · apply Finset.sup'_le
      intro b hb
      rw [Finset.mem_Iic] at hb
      exact Finset.le_sup' (fun a => s (j a)) (by
        rw [Finset.mem_Iic]; exact Fin.succ_le_succ_iff.2 hb)

theorem runMax_nonneg {n N : ℕ} (s : Fin N → ℝ) (hs : ∀ i, 0 ≤ s i) (j : Fin n → Fin N) (i : Fin n) :
    0 ≤ runMax s j i := by
  unfold runMax
  exact le_trans (hs (j i)) (Finset.le_sup' (fun a => s (j a)) (by simp))

/-- the last running maximum when `m` was the maximum before -/
noncomputable def lastFrom : {n N : ℕ} → (s : Fin N → ℝ) → ℝ → (j : Fin n → Fin N) → ℝ
  | 0, _, _, m, _ => m
  | _ + 1, _, s, m, j => max m (runMax s j (Fin.last _))

theorem lastFrom_cons {n N : ℕ} (s : Fin N → ℝ) (m : ℝ) (j : Fin (n + 1) → Fin N) :
    lastFrom s m j = lastFrom s (max m (s (j 0))) fun a => j a.succ := by
  cases n with
  | zero =>
    change max m (runMax s j 0) = max m (s (j 0))
    rw [runMax_zero]
  | succ n =>
    change max m (runMax s j (Fin.last n).succ) = max (max m (s (j 0))) _
    rw [runMax_succ, max_assoc]

theorem Z_sum {N : ℕ} (k : ℝ) (s J : Fin N → ℝ) (L : List Lv) (m : ℝ) (φ : ℝ → ℝ) :
    Z k s J L m φ = ∑ j : Fin L.length → Fin N,
      (∏ i : Fin L.length, wt k s J (L.getD i (0, 0, 0, 0)) (j i) (max m (runMax s j i))) *
        φ (lastFrom s m j) := by
  induction L generalizing m with
  | nil => simp [Z, lastFrom]
  | cons a L ih =>
    unfold Z
    change _ = ∑ j : Fin (L.length + 1) → Fin N, (∏ i : Fin (L.length + 1), _) * φ (lastFrom s m j)
    rw [← (Fin.consEquiv (fun _ : Fin (L.length + 1) => Fin N)).sum_comp, Fintype.sum_prod_type]
    apply Finset.sum_congr rfl
    intro i _
    rw [ih, Finset.mul_sum]
    apply Finset.sum_congr rfl
    intro j _
    rw [Fin.prod_univ_succ, lastFrom_cons]
    simp only [runMax_zero, runMax_succ]
    simp only [Fin.consEquiv, Equiv.coe_fn_mk, Fin.cons_zero, Fin.cons_succ, Fin.val_zero,
      Fin.val_succ, List.getD_cons_zero, List.getD_cons_succ, max_assoc]
    ring

/-- the levels of exponent tuples -/
def lv (z : Tup) : List Lv := (List.range z.l.length).map fun i : ℕ =>
  (z.l.getD i 0, z.o.getD i 0, if i = 0 then 0 else z.p.getD (i - 1) 0,
    if i = 0 then 0 else z.q.getD (i - 1) 0)

@[simp] theorem lv_length (z : Tup) : (lv z).length = z.l.length := by simp [lv]

theorem lastFrom_zero {n N : ℕ} (s : Fin N → ℝ) (hs : ∀ i, 0 ≤ s i) (j : Fin n → Fin N) :
    lastFrom s 0 j = lastMax s j := by
  cases n with
  | zero => rfl
  | succ n => exact max_eq_right (runMax_nonneg s hs j _)

theorem lv_sum (k : ℝ) {N : ℕ} (s J : Fin N → ℝ) (hs : ∀ i, 0 ≤ s i) (z : Tup) (φ : ℝ → ℝ) :
    Z k s J (lv z) 0 φ = ∑ j : Fin z.l.length → Fin N,
      (∏ i : Fin z.l.length, (Real.exp (z.l.getD i 0 * k * s (j i)) * J (j i) *
        s (j i) ^ z.o.getD i 0)) *
      (∏ i : Fin z.l.length, if (i : ℕ) = 0 then 1 else
        Real.exp (z.p.getD (i - 1) 0 * k * runMax s j i) * runMax s j i ^ z.q.getD (i - 1) 0) *
      φ (lastMax s j) := by
  rw [Z_sum]
  have hl := lv_length z
  generalize hL : lv z = L at hl ⊢
  have hg : ∀ i, i < z.l.length → L.getD i (0, 0, 0, 0) =
      (z.l.getD i 0, z.o.getD i 0, if i = 0 then 0 else z.p.getD (i - 1) 0,
        if i = 0 then 0 else z.q.getD (i - 1) 0) := by
    intro i hi
    rw [← hL, lv, List.getD_eq_getElem _ _ (by simpa using hi)]
    simp
  clear hL
  generalize z.l.length = n at hl hg ⊢
  subst hl
  apply Finset.sum_congr rfl
  intro j _
  rw [lastFrom_zero s hs, ← Finset.prod_mul_distrib]
  congr 1
  apply Finset.prod_congr rfl
  intro i _
  rw [hg i i.2, max_eq_right (runMax_nonneg s hs j i)]
  by_cases h : (i : ℕ) = 0
  · simp [wt, h]
  · simp [wt, h]

theorem zval_eq (x : Par) (hs : ∀ i, 0 ≤ x.s i) (t : ℝ) (ht : 0 ≤ t) (z : Tup) :
    zval x t z = Z x.k x.s x.J (lv z) 0 fun μ => if μ ≤ t then 1 else 0 := by
  rw [← Z_upTo _ _ _ _ _ _ (fun _ => 1) ht, lv_sum _ _ _ hs]
  simp [zval, fZSpec, Par.upTo]

theorem zvalMul_eq (x : Par) (hs : ∀ i, 0 ≤ x.s i) (t : ℝ) (ht : 0 ≤ t) (z : Tup) (a b : ℤ) :
    zvalMul x t z a b = Z x.k x.s x.J (lv z) 0 fun μ =>
      if μ ≤ t then Real.exp (a * x.k * μ) * μ ^ b else 0 := by
  rw [← Z_upTo _ _ _ _ _ _ (fun μ => Real.exp (a * x.k * μ) * μ ^ b) ht, lv_sum _ _ _ hs]
  rfl

end Ajd.ItoCond

end -- JumpFn

section -- ItoCondInt

/-! `int_et_fZ` and the integral of a functional of the jumps. -/

namespace Ajd.ItoCond
open MeasureTheory Utils Poly Ito

/-- value of a key of `int_et_fZ` when the last running maximum is `μ` -/
noncomputable def et5 (k t μ : ℝ) (key : List ℤ) : ℝ :=
  etVal k t key * (Real.exp (ix key 3 * k * μ) * μ ^ ix key 4)

theorem dset_map {A B V : Type} [DecidableEq A] [DecidableEq B] (f : A → B)
    (hf : Function.Injective f) (l : List (A × V)) (a : A) (v : V) :
    dset (l.map fun e => (f e.1, e.2)) (f a) v = (dset l a v).map fun e => (f e.1, e.2) := by
  induction l with
  | nil => rfl
  | cons e t ih =>
    obtain ⟨a', v'⟩ := e
    by_cases h : a' = a
    · subst h; simp [dset]
    · have : f a' ≠ f a := fun h' => h (hf h')
      simp [dset, h, this, ih]

theorem intEtFZ_zero (n : ℤ) (m : ℕ) :
    (intEtFZNat n m 0).items = (intEtNat n m).items.map fun e => (e.1 ++ [0, 0], e.2) := by
  have inj : Function.Injective fun k : List ℤ => k ++ [0, 0] := List.append_left_injective _
  have key := fun (l : List (List ℤ × ℚ)) a v => dset_map (fun k : List ℤ => k ++ [0, 0]) inj l a v
  unfold intEtFZNat intEtNat
  rw [if_pos rfl]
  split_ifs with h1 h2
  · rfl
  · simp only
    rw [← key, ← key]; rfl
  · simp only
    have hfold : ∀ (L : List ℕ) (l : List (List ℤ × ℚ)),
        L.foldl (etStep0 n m) (l.map fun e => (e.1 ++ [0, 0], e.2)) =
        (L.foldl (intEtStep n m) l).map fun e => (e.1 ++ [0, 0], e.2) := by
      intro L
      induction L with
      | nil => intro l; rfl
      | cons i L ih =>
        intro l
        rw [List.foldl_cons, List.foldl_cons, ← ih]
        congr 1
        unfold etStep0 intEtStep
        simp only
        split_ifs
        · rw [← key, ← key]; rfl
        · rw [← key]; rfl
    rw [← hfold, ← key]; rfl

theorem etStep1_fold (n : ℤ) (hn : n ≠ 0) (m : ℕ) (q : ℕ) (hq : q ≤ m) (f : List ℤ → ℝ) :
    (∀ e ∈ ((List.range q).map (· + 1)).foldl (etStep1 n m)
        (dset (dset [] [n, (m : ℤ), 1, 0, 0] (1 / (n : ℚ))) [0, 0, 1, n, (m : ℤ)] (-(1 / (n : ℚ)))),
      ix e.1 2 ≤ q + 1 ∧ e.1.length = 5 ∧ 0 ≤ ix e.1 1 ∧ 0 ≤ ix e.1 4) ∧
    ((((List.range q).map (· + 1)).foldl (etStep1 n m)
        (dset (dset [] [n, (m : ℤ), 1, 0, 0] (1 / (n : ℚ))) [0, 0, 1, n, (m : ℤ)]
          (-(1 / (n : ℚ))))).map fun kv => kv.2 • f kv.1).sum =
      ∑ j ∈ Finset.range (q + 1), c_nmi n m j •
        (f [n, (m : ℤ) - j, (j : ℤ) + 1, 0, 0] - f [0, 0, (j : ℤ) + 1, n, (m : ℤ) - j]) := by
  induction q with
  | zero =>
    constructor
    · intro e he
      simp [dset, hn] at he
      rcases he with rfl | rfl <;> simp
    · simp [dset, c_nmi, hn, sub_eq_add_neg]
  | succ q ih =>
    obtain ⟨ih1, ih2⟩ := ih (by omega)
    rw [List.range_succ, List.map_append, List.foldl_append]
    generalize ((List.range q).map (· + 1)).foldl (etStep1 n m)
        (dset (dset [] [n, (m : ℤ), 1, 0, 0] (1 / (n : ℚ))) [0, 0, 1, n, (m : ℤ)]
          (-(1 / (n : ℚ)))) = L at ih1 ih2
    simp only [List.map_cons, List.map_nil, List.foldl_cons, List.foldl_nil]
    have hfresh : ∀ a b d e : ℤ, dget L [a, b, ((q + 1 : ℕ) : ℤ) + 1, d, e] = none := by
      intro a b d e
      rw [dget_none]
      intro hmem
      obtain ⟨e, he, h1⟩ := List.mem_map.1 hmem
      have := (ih1 e he).1
      rw [h1] at this
      simp at this
    unfold etStep1
    simp only
    constructor
    · intro e he
      rcases mem_dset _ _ _ _ he with rfl | he
      · refine ⟨?_, rfl, ?_, ?_⟩ <;> simp; omega
      · rcases mem_dset _ _ _ _ he with rfl | he
        · refine ⟨?_, rfl, ?_, ?_⟩ <;> simp; omega
        · have := ih1 e he; refine ⟨by push_cast; omega, this.2⟩
    · rw [sum_dset_of_none f _ _ _ (by
        rw [dget_dset, if_neg (by simp [hn]), hfresh]), sum_dset_of_none f _ _ _ (hfresh _ _ _ _),
        ih2, Finset.sum_range_succ _ (q + 1), smul_sub, neg_smul]
      ring

/-- what is used of the keys of `int_et_fZ` -/
def K5 (N : ℕ) (key : List ℤ) : Prop :=
  key.length = 5 ∧ 0 ≤ ix key 1 ∧ 0 ≤ ix key 4 ∧ (N = 0 → ix key 3 = 0 ∧ ix key 4 = 0)

theorem intEtFZ_keys (n : ℤ) (m N : ℕ) : ∀ e ∈ (intEtFZNat n m N).items, K5 N e.1 := by
  intro e he
  by_cases hN : N = 0
  · subst hN
    rw [intEtFZ_zero] at he
    obtain ⟨e', he', rfl⟩ := List.mem_map.1 he
    obtain ⟨h1, h2⟩ := intEtNat_keys n m e' he'
    match e', h1, h2 with
    | ([a, b, c], v), _, h2 => simpa [K5] using h2
  · unfold intEtFZNat at he
    rw [if_neg hN] at he
    split_ifs at he with h1 h2
    · have h3 : ¬ ([0, (m : ℤ) + 1, 0, 0, 0] : List ℤ) = [0, 0, 0, 0, (m : ℤ) + 1] := by
        simp; omega
      simp only [dset, h3, if_false, List.mem_cons, List.not_mem_nil, or_false] at he
      rcases he with rfl | rfl <;> simp [K5, hN] <;> omega
    · simp [dset, h1] at he
      rcases he with rfl | rfl <;> simp [K5, hN]
    · obtain ⟨_, h3, h4, h5⟩ := (etStep1_fold n h1 m m le_rfl (fun _ => 0)).1 e he
      exact ⟨h3, h4, h5, fun h => absurd h hN⟩

theorem ev_intEtFZ (k t μ : ℝ) (hk : k ≠ 0) (n : ℤ) (m N : ℕ) :
    ev (et5 k t μ) (intEtFZNat n m N) =
      ∫ s in (if N = 0 then 0 else μ)..t, Real.exp (n * k * s) * s ^ m := by
  by_cases hN : N = 0
  · subst hN
    rw [if_pos rfl, ← ev_intEtNat k t hk]
    unfold ev
    rw [intEtFZ_zero, List.map_map]
    congr 1
    apply List.map_congr_left
    intro e he
    obtain ⟨h1, h2⟩ := intEtNat_keys n m e he
    match e, h1 with
    | ([a, b, c], v), _ => simp [et5, etVal]
  · rw [if_neg hN]
    unfold intEtFZNat
    rw [if_neg hN]
    split_ifs with h1 h2
    · subst h1
      have : ¬ ([0, (m : ℤ) + 1, 0, 0, 0] : List ℤ) = [0, 0, 0, 0, (m : ℤ) + 1] := by
        simp; omega
      simp only [dset, this, if_false, ev, List.map_cons, List.map_nil, List.sum_cons,
        List.sum_nil, et5, etVal, ix_cons_zero, ix_cons_succ, Rat.smul_def]
      simp only [Int.cast_zero, zero_mul, Real.exp_zero, one_mul, integral_pow]
      have e1 : ∀ x : ℝ, x ^ ((m : ℤ) + 1) = x ^ (m + 1) := by
        intro x; rw [← zpow_natCast]; norm_cast
      simp only [e1]
      simp
      ring
    · subst h2
      have : ¬ ([n, 0, 1, 0, 0] : List ℤ) = [0, 0, 1, n, 0] := by simp [h1]
      have ha : (n : ℝ) * k ≠ 0 := mul_ne_zero (by exact_mod_cast h1) hk
      have hn' : (n : ℝ) ≠ 0 := by exact_mod_cast h1
      simp only [dset, this, if_false, ev, List.map_cons, List.map_nil, List.sum_cons,
        List.sum_nil, et5, etVal, ix_cons_zero, ix_cons_succ, Rat.smul_def, pow_zero, mul_one]
      rw [integral_exp _ _ _ ha]
      simp
      field_simp
      ring
    · have ha : (n : ℝ) * k ≠ 0 := mul_ne_zero (by exact_mod_cast h1) hk
      have hn' : (n : ℝ) ≠ 0 := by exact_mod_cast h1
      have hFTC : ∫ s in μ..t, Real.exp (n * k * s) * s ^ m =
          expF (n * k) m t - expF (n * k) m μ := by
        apply intervalIntegral.integral_eq_sub_of_hasDerivAt
        · intro s _; exact expF_hasDerivAt _ ha m s
        · apply Continuous.intervalIntegrable; fun_prop
      rw [hFTC]
      unfold ev
      rw [(etStep1_fold n h1 m m le_rfl (et5 k t μ)).2]
      unfold expF
      rw [← Finset.sum_sub_distrib]
      apply Finset.sum_congr rfl
      intro i hi
      rw [Finset.mem_range] at hi
      rw [c_nmi_eq n m i (by omega), Rat.smul_def]
      simp only [et5, etVal, ix_cons_zero, ix_cons_succ]
      have e1 : ∀ x : ℝ, x ^ ((m : ℤ) - i) = x ^ (m - i) := by
        intro x; rw [← zpow_natCast, Nat.cast_sub (by omega)]
      have e2 : k ^ (-((i : ℤ) + 1)) = 1 / k ^ (i + 1) := by
        rw [zpow_neg, one_div]; norm_cast
      rw [e1, e1, e2, mul_pow]
      simp
      field_simp

theorem integral_step (w : ℝ → ℝ) (hw : Continuous w) (t μ : ℝ) (ht : 0 ≤ t) (hμ : 0 ≤ μ) :
    IntervalIntegrable (fun u => if μ ≤ u then w u else 0) volume 0 t ∧
    ∫ u in (0 : ℝ)..t, (if μ ≤ u then w u else 0) = if μ ≤ t then ∫ u in μ..t, w u else 0 := by
  have hi : ∀ a b, IntervalIntegrable (fun u => if μ ≤ u then w u else 0) volume a b := by
    intro a b
    rw [intervalIntegrable_iff]
    have h1 : IntegrableOn w (Set.uIoc a b) volume :=
      intervalIntegrable_iff.1 (hw.intervalIntegrable a b)
    have := h1.indicator (measurableSet_Ici (a := μ))
    refine this.congr (ae_of_all _ fun u => ?_)
    by_cases h : μ ≤ u
    · simp [h]
    · simp [h]
  refine ⟨hi _ _, ?_⟩
  split_ifs with h
  · rw [← intervalIntegral.integral_add_adjacent_intervals (hi 0 μ) (hi μ t)]
    have h1 : ∫ u in (0 : ℝ)..μ, (if μ ≤ u then w u else 0) = 0 := by
      rw [intervalIntegral.integral_of_le hμ, integral_Ioc_eq_integral_Ioo]
      rw [setIntegral_congr_fun (g := fun _ => (0 : ℝ)) measurableSet_Ioo]
      · simp
      · intro u hu
        simp [not_le.2 hu.2]
    rw [h1, zero_add]
    apply intervalIntegral.integral_congr
    intro u hu
    rw [Set.uIcc_of_le h] at hu
    simp [hu.1]
  · rw [intervalIntegral.integral_congr (g := fun _ => (0 : ℝ))]
    · simp
    · intro u hu
      rw [Set.uIcc_of_le ht] at hu
      simp only
      rw [if_neg (by linarith [hu.2, not_le.1 h])]

/-- C19 in terms of `Z` -/
theorem zval_integral (x : Par) (hs : ∀ i, 0 ≤ x.s i) (hk : x.k ≠ 0) (t : ℝ) (ht : 0 ≤ t) (z : Tup)
    (n : ℤ) (m : ℕ) :
    IntervalIntegrable (fun u => Real.exp (n * x.k * u) * u ^ m * zval x u z) volume 0 t ∧
    ∫ u in (0 : ℝ)..t, Real.exp (n * x.k * u) * u ^ m * zval x u z =
      ev (fun κ => etVal x.k t κ * zvalMul x t z (ix κ 3) (ix κ 4)) (intEtFZNat n m z.l.length) := by
  have hw : Continuous fun u : ℝ => Real.exp (n * x.k * u) * u ^ m := by fun_prop
  have e1 : ∀ u ∈ Set.uIcc 0 t, Real.exp (n * x.k * u) * u ^ m * zval x u z =
      Z x.k x.s x.J (lv z) 0 fun μ => if μ ≤ u then Real.exp (n * x.k * u) * u ^ m else 0 := by
    intro u hu
    rw [Set.uIcc_of_le ht] at hu
    rw [zval_eq x hs u hu.1, ← Z_mul]
    congr 1
    funext μ
    split_ifs <;> simp
  obtain ⟨h1, h2⟩ := Z_integral x.k x.s x.J (lv z) 0 0 t
    (fun u μ => if μ ≤ u then Real.exp (n * x.k * u) * u ^ m else 0)
    (fun μ hμ => (integral_step _ hw t μ ht hμ).1)
  constructor
  · refine h1.congr fun u hu => (e1 u (Set.uIoc_subset_uIcc hu)).symm
  · rw [intervalIntegral.integral_congr e1, h2]
    have e2 : ∀ κ, etVal x.k t κ * zvalMul x t z (ix κ 3) (ix κ 4) =
        Z x.k x.s x.J (lv z) 0 fun μ => if μ ≤ t then et5 x.k t μ κ else 0 := by
      intro κ
      rw [zvalMul_eq x hs t ht, ← Z_mul]
      congr 1
      funext μ
      split_ifs <;> simp [et5]
    simp only [e2]
    rw [← Z_ev]
    have e3 : ∀ μ, ev (fun κ => if μ ≤ t then et5 x.k t μ κ else 0) (intEtFZNat n m z.l.length) =
        if μ ≤ t then ∫ s in (if z.l.length = 0 then 0 else μ)..t, Real.exp (n * x.k * s) * s ^ m
        else 0 := by
      intro μ
      split_ifs with h1 h2
      · rw [ev_intEtFZ _ _ _ hk, if_pos h2]
      · rw [ev_intEtFZ _ _ _ hk, if_neg h2]
      · simp [ev]
    simp only [e3]
    by_cases hz : z.l.length = 0
    · have : lv z = [] := by simp [lv, hz]
      rw [this]
      simp only [Z, hz, if_true, ht]
      rw [(integral_step _ hw t 0 ht le_rfl).2, if_pos ht]
    · simp only [if_neg hz]
      apply Z_congr
      intro μ hμ
      exact (integral_step _ hw t μ ht hμ).2

end Ajd.ItoCond

end -- ItoCondInt
