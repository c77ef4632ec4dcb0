import Verif.Spec.Svcj2
import Verif.Lemmas.CppLaw
import Verif.Lemmas.Cpp
import Verif.Lemmas.Loop
import Verif.Props.Utils

namespace Ajd.Svcj
open Poly Utils Cpp MeasureTheory ProbabilityTheory

/-! ### the law of the sum of the jumps -/

theorem jumpSum_eq (μ ρ σ : ℝ) (J : List ℝ) : jumpSum μ ρ σ J =
    gaussianReal (J.length * μ + ρ * J.sum) (J.length * (σ ^ 2).toNNReal) := by
  induction J with
  | nil => simp [jumpSum]
  | cons x J ih =>
    rw [jumpSum, ih, gaussianReal_conv_gaussianReal]
    congr 1 <;> (simp only [List.length_cons, List.sum_cons]; push_cast; ring)

instance (μ ρ σ : ℝ) (J : List ℝ) : IsProbabilityMeasure (jumpSum μ ρ σ J) := by
  rw [jumpSum_eq]; infer_instance

theorem gauss_pow_int (μ : ℝ) (v : NNReal) (n : ℕ) :
    Integrable (fun x : ℝ => x ^ n) (gaussianReal μ v) :=
  integrable_pow_of_mem_interior_integrableExpSet (X := fun x : ℝ => x) (by simp) n

theorem jumpSum_int (μ ρ σ : ℝ) (J : List ℝ) (n : ℕ) :
    Integrable (fun x : ℝ => x ^ n) (jumpSum μ ρ σ J) := by
  rw [jumpSum_eq]; exact gauss_pow_int _ _ n

/-- moments of a sum of two independent variables -/
theorem conv_moment (α β : Measure ℝ) [IsProbabilityMeasure α] [IsProbabilityMeasure β]
    (ha : ∀ n : ℕ, Integrable (fun x : ℝ => x ^ n) α) (hb : ∀ n : ℕ, Integrable (fun x : ℝ => x ^ n) β)
    (n : ℕ) : ∫ z, z ^ n ∂(Measure.conv α β) = ∑ i ∈ Finset.range (n + 1),
      n.choose i * (∫ x, x ^ i ∂α) * ∫ y, y ^ (n - i) ∂β := by
  rw [Measure.conv, integral_map (by fun_prop) (by fun_prop)]
  simp only [add_pow]
  rw [integral_finsetSum]
  · refine Finset.sum_congr rfl fun i _ => ?_
    rw [integral_mul_const, integral_prod_mul (fun x : ℝ => x ^ i) fun y : ℝ => y ^ (n - i)]
    ring
  · intro i _
    exact ((ha i).mul_prod (hb (n - i))).mul_const _

/-- the iterated binomial convolution of the sequences `g x` -/
noncomputable def convSeq (g : ℝ → ℕ → ℝ) : List ℝ → ℕ → ℝ
  | [], n => if n = 0 then 1 else 0
  | x :: J, n => ∑ i ∈ Finset.range (n + 1), n.choose i * g x i * convSeq g J (n - i)

theorem jumpSum_moment (μ ρ σ : ℝ) (J : List ℝ) (n : ℕ) : ∫ z, z ^ n ∂(jumpSum μ ρ σ J) =
    convSeq (fun x i => ∫ z, z ^ i ∂(gaussianReal (μ + ρ * x) (σ ^ 2).toNNReal)) J n := by
  induction J generalizing n with
  | nil =>
    rw [jumpSum, convSeq, integral_dirac]
    split
    · rename_i h; simp [h]
    · rename_i h; simp [h]
  | cons x J ih =>
    rw [jumpSum, conv_moment _ _ (gauss_pow_int _ _) (jumpSum_int _ _ _ _), convSeq]
    simp only [ih]

theorem jumpSum_mean (μ ρ σ : ℝ) (J : List ℝ) :
    ∫ z, z ∂(jumpSum μ ρ σ J) = J.length * μ + ρ * J.sum := by
  rw [jumpSum_eq, integral_id_gaussianReal]

theorem jumpSum_central (μ ρ σ : ℝ) (J : List ℝ) (n : ℕ) :
    ∫ z, (z - ∫ w, w ∂(jumpSum μ ρ σ J)) ^ n ∂(jumpSum μ ρ σ J) =
      convSeq (fun _ i => gaussMom 0 (σ ^ 2).toNNReal i) J n := by
  have h := jumpSum_moment 0 0 σ J n
  rw [jumpSum_mean, jumpSum_eq, gauss_central]
  rw [jumpSum_eq] at h
  simp only [mul_zero, zero_mul, add_zero] at h
  exact h

theorem convSeq_comps (g : ℝ → ℕ → ℝ) (J : List ℝ) (m : ℕ) :
    ((comps J.length m).map fun ns => (combN m ns : ℝ) * (List.zipWith g J ns).prod).sum =
      convSeq g J m := by
  induction J generalizing m with
  | nil =>
    simp only [List.length_nil, comps, convSeq]
    by_cases h : m = 0
    · subst h; simp [combN]
    · simp [h]
  | cons x t ih =>
    simp only [List.length_cons, comps, convSeq]
    rw [← list_range_sum', sum_flatMap]
    congr 1
    apply List.map_congr_left
    intro i _
    rw [← ih (m - i), List.map_map, ← List.sum_map_mul_left]
    congr 1
    apply List.map_congr_left
    intro ns _
    simp only [Function.comp, combN, List.zipWith_cons_cons, List.prod_cons]
    push_cast
    ring

/-! ### `mnorm_cond`, `comb_poly`, `moment_IZs` -/

/-- value of a key of `mnorm_cond` -/
noncomputable def vN (μ ρ σ x : ℝ) (k : List ℤ) : ℝ :=
  μ ^ ix k 0 * ρ ^ ix k 1 * σ ^ ix k 2 * x ^ ix k 3

/-- moment of one jump of the price -/
noncomputable def gN (μ ρ σ x : ℝ) (n : ℕ) : ℝ :=
  ∫ z, z ^ n ∂(gaussianReal (μ + ρ * x) (σ ^ 2).toNNReal)

theorem NN_cons {n : ℕ} {a : ℤ} {k : List ℤ} (ha : 0 ≤ a) (h : NN n k) : NN (n + 1) (a :: k) :=
  ⟨by simp [h.1], fun i => by cases i with
    | zero => exact ha
    | succ i => exact h.2 i⟩

theorem NN_nil : NN 0 [] := ⟨rfl, fun i => by simp⟩

theorem mnormCond_keys (n : ℕ) : (mnormCond n).Keys (NN 4) := by
  unfold mnormCond
  split
  · intro x hx
    simp at hx; subst hx
    exact NN_cons le_rfl (NN_cons le_rfl (NN_cons le_rfl (NN_cons le_rfl NN_nil)))
  · apply ofTerms_Keys
    intro x hx
    obtain ⟨e, he, hx⟩ := List.mem_flatMap.1 hx
    have h := mnormNat_keys n e he
    obtain ⟨i, hi, rfl⟩ := List.mem_map.1 hx
    have h1 := h.2 1
    rw [List.mem_range] at hi
    exact NN_cons (by omega) (NN_cons (by omega) (NN_cons (by omega) (NN_cons (by omega) NN_nil)))

theorem mnormCond_val (μ ρ σ x : ℝ) (n : ℕ) : ev (vN μ ρ σ x) (mnormCond n) = gN μ ρ σ x n := by
  unfold mnormCond
  split
  · rename_i h; subst h
    simp [ev, vN, gN]
  · have h1 : gN μ ρ σ x n =
        ev (mono fun i => if i = 0 then μ + ρ * x else ((σ ^ 2).toNNReal : ℝ)) (mnormNat n) := by
      rw [ev_mnormNat]
      exact gaussMom_eq_iter _ _ n
    rw [h1]
    apply ev_ofTerms_flatMap
    intro e he
    have h := mnormNat_keys n e he
    have h0 := h.2 0
    have h2 := h.2 1
    rw [mono_two _ _ h]
    obtain ⟨a, ha⟩ := Int.eq_ofNat_of_zero_le h0
    obtain ⟨b, hb⟩ := Int.eq_ofNat_of_zero_le h2
    simp only [condTerms, ha, hb, List.map_map]
    rw [show ((a : ℤ) + 1).toNat = a + 1 by omega, list_range_sum']
    simp only [Int.toNat_natCast, if_true, one_ne_zero, if_false,
      Real.coe_toNNReal _ (sq_nonneg σ), add_pow]
    rw [Finset.sum_mul, Finset.smul_sum]
    refine Finset.sum_congr rfl fun i hi => ?_
    have hi' : i ≤ a := by simpa [Nat.lt_succ_iff] using hi
    simp only [Function.comp, vN, ix_cons_zero, ix_cons_succ, Rat.smul_def]
    rw [show (a : ℤ) - i = ((a - i : ℕ) : ℤ) by omega, show 2 * (b : ℤ) = ((2 * b : ℕ) : ℤ) by
      push_cast; ring]
    simp only [zpow_natCast, pow_mul, mul_pow]
    push_cast
    ring

theorem KIZ_NN (N : ℕ) (k : List ℤ) : KIZ N k ↔ NN (3 + N) k := Iff.rfl

theorem ix_snoc_nonneg (k : List ℤ) (e : ℤ) (hk : ∀ i, 0 ≤ ix k i) (he : 0 ≤ e) (i : ℕ) :
    0 ≤ ix (k ++ [e]) i := by
  induction k generalizing i with
  | nil => cases i with
    | zero => exact he
    | succ i => simp
  | cons a t ih =>
    cases i with
    | zero => exact hk 0
    | succ i => exact ih (fun j => hk (j + 1)) i

theorem combPolyStep_spec (P : IPoly) (N i : ℕ) (hP : P.Keys (KIZ N)) :
    (combPolyStep P i).Keys (KIZ (N + 1)) ∧ ∀ μ ρ σ x J, J.length = N →
      ev (vIZ μ ρ σ (J ++ [x])) (combPolyStep P i) = ev (vIZ μ ρ σ J) P * gN μ ρ σ x i := by
  have hk := mnormCond_keys i
  constructor
  · apply ofTerms_Keys
    intro y hy
    obtain ⟨e1, h1, hy⟩ := List.mem_flatMap.1 hy
    obtain ⟨e2, h2, rfl⟩ := List.mem_map.1 hy
    obtain ⟨l2, n2⟩ := hP _ h2
    obtain ⟨l1, n1⟩ := hk _ h1
    match hh : e2.1, l2 with
    | a :: b :: c :: t, l2 =>
      rw [hh] at n2
      have e0 := n2 0
      have e1' := n2 1
      have e2' := n2 2
      simp only [ix_cons_zero, ix_cons_succ] at e0 e1' e2'
      have := n1 0
      have := n1 1
      have := n1 2
      simp only [hh, ix_cons_zero, ix_cons_succ, List.drop_succ_cons, List.drop_zero]
      refine ⟨by simp at l2 ⊢; omega, fun j => ?_⟩
      match j with
      | 0 => simp only [ix_cons_zero]; omega
      | 1 => simp only [ix_cons_zero, ix_cons_succ]; omega
      | 2 => simp only [ix_cons_zero, ix_cons_succ]; omega
      | j + 3 =>
        simp only [ix_cons_succ]
        exact ix_snoc_nonneg _ _ (fun q => n2 (q + 3)) (n1 3) j
    | [], l2 => simp at l2; omega
    | [_], l2 => simp at l2; omega
    | [_, _], l2 => simp at l2; omega
  · intro μ ρ σ x J hJ
    rw [← mnormCond_val, mul_comm]
    unfold combPolyStep
    rw [ev_ofTerms, sum_flatMap]
    conv_rhs => unfold ev
    rw [← List.sum_map_mul_right]
    congr 1
    apply List.map_congr_left
    intro e1 h1
    rw [List.map_map, ← List.sum_map_mul_left]
    congr 1
    apply List.map_congr_left
    intro e2 h2
    obtain ⟨l2, n2⟩ := hP _ h2
    obtain ⟨l1, n1⟩ := hk _ h1
    match hh : e2.1, l2 with
    | a :: b :: c :: t, l2 =>
      rw [hh] at n2
      have e0 := n2 0
      have e1' := n2 1
      have e2' := n2 2
      simp only [ix_cons_zero, ix_cons_succ] at e0 e1' e2'
      simp only [Function.comp, vIZ, vN, hh, ix_cons_zero, ix_cons_succ, List.drop_succ_cons,
        List.drop_zero, Rat.smul_def]
      rw [zpow_add_nn _ _ _ (n1 0) e0, zpow_add_nn _ _ _ (n1 1) e1', zpow_add_nn _ _ _ (n1 2) e2',
        List.zipWith_append (by simp at l2; omega), List.prod_append]
      simp only [List.zipWith_cons_cons, List.zipWith_nil_left, List.prod_cons, List.prod_nil]
      push_cast
      ring
    | [], l2 => simp at l2; omega
    | [_], l2 => simp at l2; omega
    | [_, _], l2 => simp at l2; omega

theorem combPolyStep_keyfor (P : IPoly) (i : ℕ) : (combPolyStep P i).keyfor = kfIZ := by
  simp [combPolyStep]

theorem combPoly_spec (ns : List ℕ) : (combPoly ns).keyfor = kfIZ ∧
    (combPoly ns).Keys (KIZ ns.length) ∧ ∀ μ ρ σ J, J.length = ns.length →
      ev (vIZ μ ρ σ J) (combPoly ns) = (List.zipWith (gN μ ρ σ) J ns).prod := by
  induction ns using List.reverseRecOn with
  | nil =>
    refine ⟨rfl, ?_, ?_⟩
    · intro x hx
      simp [combPoly, addKeyval, dget, dset] at hx
      subst hx
      exact NN_cons le_rfl (NN_cons le_rfl (NN_cons le_rfl NN_nil))
    · intro μ ρ σ J hJ
      simp [combPoly, addKeyval, dget, dset, ev, vIZ]
  | append_singleton ns i ih =>
    obtain ⟨_, hk, hv⟩ := ih
    have e : combPoly (ns ++ [i]) = combPolyStep (combPoly ns) i := by
      simp [combPoly, List.foldl_append]
    obtain ⟨s1, s2⟩ := combPolyStep_spec _ _ i hk
    rw [e]
    refine ⟨combPolyStep_keyfor _ _, by simpa using s1, ?_⟩
    intro μ ρ σ J hJ
    have hne : J ≠ [] := by rintro rfl; simp at hJ
    obtain ⟨J', x, rfl⟩ : ∃ J' x, J = J' ++ [x] :=
      ⟨_, _, (List.dropLast_append_getLast hne).symm⟩
    have hl : J'.length = ns.length := by simpa using hJ
    rw [s2 _ _ _ _ _ hl, hv _ _ _ _ hl, List.zipWith_append hl, List.prod_append]
    simp

theorem comb_ok (m : ℕ) (ns : List ℕ) (h : ns.sum = m) :
    comb m (ns.map Int.ofNat) = .ok (combN m ns) := comb_eq ns m h.le

theorem emitM_eq (m : ℕ) : emitM m = fun acc ns => (do
    let q ← (do let c ← comb m (ns.map Int.ofNat); pure (Poly.rmul c (combPoly ns)))
    acc.merge q) := by
  funext acc ns
  unfold emitM
  cases comb m (ns.map Int.ofNat) <;> rfl

theorem momentIZs_spec (m N : ℕ) : ∃ c r, (∀ fuel, c ≤ fuel → momentIZs fuel m N = pure r) ∧
    r.keyfor = kfIZ ∧ r.WF ∧ r.Keys (KIZ N) ∧ ∀ μ ρ σ J, J.length = N →
      ev (vIZ μ ρ σ J) r = ∫ z, z ^ m ∂(jumpSum μ ρ σ J) := by
  unfold momentIZs
  by_cases h0 : m = 0
  · subst h0
    refine ⟨0, _, fun _ _ => by rw [if_pos rfl], by simp, addKeyval_WF _ _ _ (by simp [WF]), ?_, ?_⟩
    · intro x hx
      simp [addKeyval, dget, dset] at hx
      subst hx
      refine ⟨by simp; omega, fun i => ?_⟩
      match i with
      | 0 | 1 | 2 => simp
      | i + 3 =>
        change 0 ≤ ix (List.replicate N 0) i
        simp only [ix, List.getD_eq_getElem?_getD, List.getElem?_replicate]
        split <;> simp
    · intro μ ρ σ J hJ
      have : ∀ (J : List ℝ) N, (List.zipWith (fun (x : ℝ) (e : ℤ) => x ^ e) J
          (List.replicate N 0)).prod = 1 := by
        intro J
        induction J with
        | nil => simp
        | cons x J ih =>
          intro N
          cases N with
          | zero => simp
          | succ N => simp [List.replicate_succ, ih]
      simp [ev, addKeyval, dget, dset, vIZ, this]
  · simp only [if_neg h0]
    by_cases h1 : N = 0
    · subst h1
      refine ⟨0, _, fun _ _ => by rw [if_pos rfl], by simp, addKeyval_WF _ _ _ (by simp [WF]), ?_, ?_⟩
      · intro x hx
        simp [addKeyval, dget, dset] at hx
        subst hx
        exact NN_cons le_rfl (NN_cons le_rfl (NN_cons le_rfl NN_nil))
      · intro μ ρ σ J hJ
        rw [List.length_eq_zero_iff] at hJ
        subst hJ
        simp [ev, addKeyval, dget, dset, jumpSum, h0]
    · simp only [if_neg h1]
      have hval : ∀ μ ρ σ J, J.length = N → ∫ z, z ^ m ∂(jumpSum μ ρ σ J) =
          ((comps N m).map fun ns => (combN m ns : ℝ) * (List.zipWith (gN μ ρ σ) J ns).prod).sum := by
        rintro μ ρ σ J rfl
        rw [convSeq_comps, jumpSum_moment]
        rfl
      by_cases h2 : N = 1
      · subst h2
        refine ⟨0, _, fun _ _ => by rw [if_pos rfl], by simp, ofTerms_WF _ _, ?_, ?_⟩
        · apply ofTerms_Keys
          intro x hx
          obtain ⟨e, he, rfl⟩ := List.mem_map.1 hx
          have := (mnormCond_keys m e he).2
          exact NN_cons (this 0) (NN_cons (this 1) (NN_cons (this 2) (NN_cons (this 3) NN_nil)))
        · intro μ ρ σ J hJ
          obtain ⟨x, rfl⟩ := List.length_eq_one_iff.1 hJ
          rw [hval _ _ _ _ hJ, comps_one, ev_ofTerms, List.map_map]
          simp only [List.map_cons, List.map_nil, List.sum_cons, List.sum_nil, combN,
            List.zipWith_cons_cons, List.zipWith_nil_left, List.prod_cons, List.prod_nil,
            Nat.choose_self, mul_one, Nat.cast_one, one_mul, add_zero]
          rw [← mnormCond_val]
          unfold ev
          congr 1
          apply List.map_congr_left
          intro e he
          simp [vIZ, vN]
      · simp only [if_neg h2]
        by_cases h3 : N = 2
        · subst h3
          refine ⟨0, _, fun _ _ => by rw [if_pos rfl], by simp, ofTerms_WF _ _, ?_, ?_⟩
          · apply ofTerms_Keys
            intro x hx
            obtain ⟨i, hi, hx⟩ := List.mem_flatMap.1 hx
            obtain ⟨e1, he1, hx⟩ := List.mem_flatMap.1 hx
            obtain ⟨e2, he2, rfl⟩ := List.mem_map.1 hx
            have a := (mnormCond_keys _ e1 he1).2
            have b := (mnormCond_keys _ e2 he2).2
            exact NN_cons (add_nonneg (a 0) (b 0)) (NN_cons (add_nonneg (a 1) (b 1))
              (NN_cons (add_nonneg (a 2) (b 2)) (NN_cons (a 3) (NN_cons (b 3) NN_nil))))
          · intro μ ρ σ J hJ
            obtain ⟨x, y, rfl⟩ := List.length_eq_two.1 hJ
            rw [hval _ _ _ _ hJ, comps_two, ev_ofTerms, List.map_map, sum_flatMap]
            congr 1
            apply List.map_congr_left
            intro i hi
            simp only [Function.comp, combN, List.zipWith_cons_cons, List.zipWith_nil_left,
              List.prod_cons, List.prod_nil, Nat.choose_self, mul_one]
            rw [← mnormCond_val, ← mnormCond_val, sum_flatMap]
            conv_rhs => unfold ev
            rw [← List.sum_map_mul_right, ← List.sum_map_mul_left]
            congr 1
            apply List.map_congr_left
            intro e1 h1
            rw [List.map_map, ← List.sum_map_mul_left, ← List.sum_map_mul_left]
            congr 1
            apply List.map_congr_left
            intro e2 h2
            have a := (mnormCond_keys _ e1 h1).2
            have b := (mnormCond_keys _ e2 h2).2
            simp only [Function.comp, vIZ, vN, ix_cons_zero, ix_cons_succ, List.drop_succ_cons,
              List.drop_zero, List.zipWith_cons_cons, List.zipWith_nil_left, List.prod_cons,
              List.prod_nil, Rat.smul_def]
            rw [zpow_add_nn _ _ _ (a 0) (b 0), zpow_add_nn _ _ _ (a 1) (b 1),
              zpow_add_nn _ _ _ (a 2) (b 2)]
            push_cast
            ring
        · simp only [if_neg h3]
          obtain ⟨c, hc⟩ := combRun_foldlM (emit := emitM m) N m (by omega) ⟨kfIZ, []⟩
          obtain ⟨r, e, k, w, _, K, v⟩ := mergeLoop_spec (M := ℝ)
            (ι := {q : ℝ × ℝ × ℝ × List ℝ // q.2.2.2.length = N})
            (fun ns => (do let c ← comb m (ns.map Int.ofNat); pure (Poly.rmul c (combPoly ns))))
            (comps N m) (⟨kfIZ, []⟩ : IPoly) (KIZ N)
            (fun q => vIZ q.1.1 q.1.2.1 q.1.2.2.1 q.1.2.2.2)
            (fun q ns => (combN m ns : ℝ) *
              (List.zipWith (gN q.1.1 q.1.2.1 q.1.2.2.1) q.1.2.2.2 ns).prod)
            (by intro x hx; simp at hx) (by
              intro ns hns
              obtain ⟨l1, l2⟩ := (mem_comps _ _ _).1 hns
              obtain ⟨q1, q2, q3⟩ := combPoly_spec ns
              rw [l1] at q2
              obtain ⟨s1, s2, s3, s4⟩ := rmul_spec (combN m ns : ℚ) _ _ q2
              refine ⟨_, by rw [comb_ok m ns l2]; rfl, ?_, ?_, ?_⟩
              · rw [rmul_keyfor, q1]
              · exact_mod_cast s4
              · rintro ⟨⟨μ, ρ, σ, J⟩, hJ⟩
                simp only at hJ ⊢
                rw [ev_rmul, q3 _ _ _ _ (by rw [hJ, l1]), Rat.smul_def]
                push_cast
                rfl)
          refine ⟨c, r, fun fuel hf => ?_, k, w (by simp [WF]), K, fun μ ρ σ J hJ => ?_⟩
          · rw [hc fuel hf, emitM_eq]
            have e' := e
            unfold mergeLoop at e'
            rw [e']
            rfl
          · rw [v ⟨(μ, ρ, σ, J), hJ⟩, hval _ _ _ _ hJ]
            simp [ev]

/-! ### `cmoment_IZs` -/

theorem cmnorm_keys (n : ℕ) : (cmnorm n).Keys (NN 1) := by
  intro x hx
  unfold cmnorm at hx
  split_ifs at hx <;> simp [addKeyval, dget, dset] at hx <;> subst hx <;>
    exact NN_cons (by simp) NN_nil

theorem cmnorm_val (σ : ℝ) (n : ℕ) :
    ev (fun k => σ ^ ix k 0) (cmnorm n) = gaussMom 0 (σ ^ 2).toNNReal n := by
  rcases Nat.even_or_odd' n with ⟨c, h | h⟩
  · subst h
    rw [gaussMom_even, cmnorm]
    by_cases hc : c = 0
    · subst hc; simp [ev]
    · rw [if_neg (by omega), if_neg (by omega), ev_addKeyval, dbfactorial_eq]
      simp only [ev, List.map_nil, List.sum_nil, zero_add, ix_cons_zero, zpow_natCast, Rat.smul_def,
        Real.coe_toNNReal _ (sq_nonneg σ), pow_mul]
      push_cast
      ring
  · subst h
    rw [gaussMom_odd, cmnorm, if_neg (by omega), if_pos (by omega), ev_addKeyval]
    simp [ev]

theorem sigma_mulOn (σ : ℝ) : MulOn (NN 1) (fun k => σ ^ ix k 0) := by
  intro a b ha hb
  match a, b, ha, hb with
  | [x], [y], ha, hb => exact zpow_add_nn _ _ _ (ha.2 0) (hb.2 0)

theorem emitC_eq (m : ℕ) : emitC m = fun acc ns => (do
    let q ← (do
      let c ← comb m (ns.map Int.ofNat)
      let poln ← ns.foldlM (fun p i => p.mul (cmnorm i)) (⟨["sigma"], [([0], 1)]⟩ : IPoly)
      pure (Poly.rmul c (poln.setKeyfor ["sigma_s"])))
    acc.merge q) := by
  funext acc ns
  unfold emitC
  cases comb m (ns.map Int.ofNat) with
  | error e => rfl
  | ok c =>
    simp only [ok_bind]
    cases ns.foldlM (fun p i => p.mul (cmnorm i)) (⟨["sigma"], [([0], 1)]⟩ : IPoly) <;> rfl

theorem prod_cmnorm (ns : List ℕ) (P : IPoly) (hk : P.keyfor = ["sigma"]) (hP : P.Keys (NN 1)) :
    ∃ r, ns.foldlM (fun p i => p.mul (cmnorm i)) P = .ok r ∧ r.keyfor = ["sigma"] ∧ r.Keys (NN 1) ∧
      ∀ σ : ℝ, ev (fun k => σ ^ ix k 0) r = ev (fun k => σ ^ ix k 0) P *
        (ns.map fun i => gaussMom 0 (σ ^ 2).toNNReal i).prod := by
  induction ns generalizing P with
  | nil => exact ⟨P, rfl, hk, hP, fun σ => by simp⟩
  | cons i t ih =>
    have kf : (cmnorm i).keyfor = ["sigma"] := (C11_cmnorm i).2.1
    obtain ⟨r, e, k, _, _, K, v⟩ := mul_on P (cmnorm i) (by rw [hk, kf]) 1 (NN 1) (addClosed_NN 1)
      (fun k h => h.1) hP (cmnorm_keys i)
    obtain ⟨r', e', k', K', v'⟩ := ih r (by rw [k, hk]) K
    refine ⟨r', by rw [List.foldlM_cons, e, ok_bind, e'], k', K', fun σ => ?_⟩
    rw [v' σ, v _ (sigma_mulOn σ), cmnorm_val, List.map_cons, List.prod_cons]
    ring

theorem zipWith_const (g : ℕ → ℝ) (J : List ℝ) (ns : List ℕ) (h : J.length = ns.length) :
    (List.zipWith (fun _ i => g i) J ns).prod = (ns.map g).prod := by
  induction J generalizing ns with
  | nil => cases ns with
    | nil => rfl
    | cons a t => simp at h
  | cons x J ih => cases ns with
    | nil => simp at h
    | cons a t => simp [ih t (by simpa using h)]

theorem setKeyfor_ev (f : List ℤ → ℝ) (P : IPoly) (kf : List String) :
    ev f (P.setKeyfor kf) = ev f P := rfl

theorem cmomentIZs_spec (m N : ℕ) : ∃ c r, (∀ fuel, c ≤ fuel → cmomentIZs fuel m N = pure r) ∧
    r.keyfor = ["sigma_s"] ∧ r.WF ∧ r.Keys (NN 1) ∧ ∀ μ ρ σ J, J.length = N →
      ev (fun k => σ ^ ix k 0) r =
        ∫ z, (z - ∫ w, w ∂(jumpSum μ ρ σ J)) ^ m ∂(jumpSum μ ρ σ J) := by
  have n0 : NN 1 [0] := NN_cons le_rfl NN_nil
  simp only [jumpSum_central]
  unfold cmomentIZs
  by_cases h0 : m = 0
  · subst h0
    refine ⟨0, _, fun _ _ => by rw [if_pos rfl], by simp, addKeyval_WF _ _ _ (by simp [WF]), ?_, ?_⟩
    · intro x hx
      simp [addKeyval, dget, dset] at hx
      subst hx
      exact n0
    · intro μ ρ σ J hJ
      rw [← jumpSum_central 0 0 σ J 0]
      simp [ev, addKeyval, dget, dset]
  · simp only [if_neg h0]
    by_cases h1 : N = 0
    · subst h1
      refine ⟨0, _, fun _ _ => by rw [if_pos rfl], by simp, addKeyval_WF _ _ _ (by simp [WF]), ?_, ?_⟩
      · intro x hx
        simp [addKeyval, dget, dset] at hx
        subst hx
        exact n0
      · intro μ ρ σ J hJ
        rw [List.length_eq_zero_iff] at hJ
        subst hJ
        simp [ev, addKeyval, dget, dset, convSeq, h0]
    · simp only [if_neg h1]
      have hval : ∀ (σ : ℝ) J, J.length = N →
          convSeq (fun _ i => gaussMom 0 (σ ^ 2).toNNReal i) J m =
          ((comps N m).map fun ns => (combN m ns : ℝ) *
            (ns.map fun i => gaussMom 0 (σ ^ 2).toNNReal i).prod).sum := by
        rintro σ J rfl
        rw [← convSeq_comps]
        congr 1
        apply List.map_congr_left
        intro ns hns
        rw [zipWith_const _ _ _ ((mem_comps _ _ _).1 hns).1.symm]
      by_cases h2 : N = 1
      · subst h2
        refine ⟨0, (cmnorm m).setKeyfor ["sigma_s"], fun _ _ => by rw [if_pos rfl], rfl, ?_,
          cmnorm_keys m, ?_⟩
        · change (cmnorm m).WF
          unfold cmnorm
          split_ifs
          · exact addKeyval_WF _ _ _ (by simp [WF])
          · exact addKeyval_WF _ _ _ (by simp [WF])
        · intro μ ρ σ J hJ
          rw [hval _ _ hJ, comps_one, setKeyfor_ev, cmnorm_val]
          simp [combN]
      · simp only [if_neg h2]
        by_cases h3 : N = 2
        · subst h3
          obtain ⟨r, e, k, w, _, K, v⟩ := mergeLoop_spec (M := ℝ) (ι := ℝ) (twoPoly m)
            (List.range (m + 1)) (⟨["sigma_s"], []⟩ : IPoly) (NN 1) (fun σ k => σ ^ ix k 0)
            (fun σ i => (m.choose i : ℝ) * (gaussMom 0 (σ ^ 2).toNNReal i *
              gaussMom 0 (σ ^ 2).toNNReal (m - i)))
            (by intro x hx; simp at hx) (by
              intro i hi
              obtain ⟨r, e, k, _, _, K, v⟩ := mul_on (cmnorm i) (cmnorm (m - i))
                (by rw [(C11_cmnorm i).2.1, (C11_cmnorm (m - i)).2.1]) 1 (NN 1) (addClosed_NN 1)
                (fun k h => h.1) (cmnorm_keys i) (cmnorm_keys _)
              have K' : (r.setKeyfor ["sigma_s"]).Keys (NN 1) := K
              refine ⟨_, by rw [twoPoly, e, ok_bind]; rfl, ?_,
                (rmul_spec (m.choose i : ℚ) _ _ K').2.2.2, fun σ => ?_⟩
              · rw [rmul_keyfor]; rfl
              · rw [ev_rmul, setKeyfor_ev, v _ (sigma_mulOn σ), cmnorm_val, cmnorm_val, Rat.smul_def]
                push_cast
                ring)
          refine ⟨0, r, fun _ _ => by rw [if_pos rfl, e]; rfl, k, w (by simp [WF]), K, ?_⟩
          intro μ ρ σ J hJ
          rw [v, hval _ _ hJ, comps_two, List.map_map]
          simp [ev, combN, Function.comp_def]
        · simp only [if_neg h3]
          obtain ⟨c, hc⟩ := combRun_foldlM (emit := emitC m) N m (by omega) ⟨["sigma_s"], []⟩
          obtain ⟨r, e, k, w, _, K, v⟩ := mergeLoop_spec (M := ℝ) (ι := ℝ)
            (fun ns => (do
              let c ← comb m (ns.map Int.ofNat)
              let poln ← ns.foldlM (fun p i => p.mul (cmnorm i)) (⟨["sigma"], [([0], 1)]⟩ : IPoly)
              pure (Poly.rmul c (poln.setKeyfor ["sigma_s"]))))
            (comps N m) (⟨["sigma_s"], []⟩ : IPoly) (NN 1) (fun σ k => σ ^ ix k 0)
            (fun σ ns => (combN m ns : ℝ) * (ns.map fun i => gaussMom 0 (σ ^ 2).toNNReal i).prod)
            (by intro x hx; simp at hx) (by
              intro ns hns
              obtain ⟨l1, l2⟩ := (mem_comps _ _ _).1 hns
              obtain ⟨q, q1, q2, q3, q4⟩ := prod_cmnorm ns ⟨["sigma"], [([0], 1)]⟩ rfl (by
                intro x hx; simp at hx; subst hx; exact n0)
              have q3' : (q.setKeyfor ["sigma_s"]).Keys (NN 1) := q3
              refine ⟨_, by rw [comb_ok m ns l2, ok_bind, q1, ok_bind]; rfl, ?_,
                (rmul_spec _ _ _ q3').2.2.2, fun σ => ?_⟩
              · rw [rmul_keyfor]; rfl
              · rw [ev_rmul, setKeyfor_ev, q4, Rat.smul_def]
                simp [ev])
          refine ⟨c, r, fun fuel hf => ?_, k, w (by simp [WF]), K, fun μ ρ σ J hJ => ?_⟩
          · rw [hc fuel hf, emitC_eq]
            have e' := e
            unfold mergeLoop at e'
            rw [e']
            rfl
          · rw [v σ, hval _ _ hJ]
            simp [ev]

end Ajd.Svcj
