import Verif.Lemmas.Utils
import Verif.Lemmas.Gauss

/-! C08-C13: `utils.py`. -/

namespace Ajd
open Poly Utils MeasureTheory ProbabilityTheory
open scoped NNReal

/-- C08. `comb(n, ns)` with `sum(ns) = n` is `n! / (n1! ... nk!)`, a positive integer. -/
theorem C08_comb (ns : List ℕ) : ∃ c : ℕ, comb (ns.sum : ℕ) (ns.map Int.ofNat) = .ok c ∧ 0 < c ∧
    c * (ns.map Nat.factorial).prod = ns.sum.factorial := by
  have h := combN_fact ns ns.sum le_rfl
  rw [Nat.sub_self, Nat.factorial_zero, mul_one] at h
  refine ⟨combN ns.sum ns, comb_eq ns _ le_rfl, ?_, h⟩
  rcases Nat.eq_zero_or_pos (combN ns.sum ns) with h0 | h0
  · rw [h0, zero_mul] at h; exact absurd h.symm (Nat.factorial_ne_zero _)
  · exact h0

/-- C08. A splitting that asks for more than `n` leaves a negative rest; a further part then raises
`ValueError`. -/
theorem C08_comb_overfull (n a b : ℕ) (h : n < a) :
    comb n [(a : ℤ), (b : ℤ)] = .error .valueError := by
  have h1 : pyComb n a = .ok (n.choose a) := by rw [pyComb, if_neg (by simp)]; simp
  have h2 : pyComb ((n : ℤ) - a) b = .error .valueError := by rw [pyComb, if_pos (by omega)]
  simp only [comb, combLoop, h1, ok_bind, h2, error_bind]

/-- C08. Multinomial theorem: the tuples of `multilevel_comb(N, m)` weighted by `comb(m, ·)` expand
`(x_1 + ... + x_N)^m`. -/
theorem C08_multinomial (xs : List ℝ) (h2 : 2 ≤ xs.length) (m : ℕ) :
    ∃ fuel0 idx, (∀ fuel ≥ fuel0, multilevelComb fuel xs.length m = some (.ok (.inr idx))) ∧
      ∃ w : List ℕ → ℕ, (∀ ns ∈ idx, comb m (ns.map Int.ofNat) = .ok (w ns)) ∧
        (idx.map fun ns => (w ns : ℝ) * (List.zipWith (· ^ ·) xs ns).prod).sum = xs.sum ^ m := by
  have hw : ∀ ns ∈ comps xs.length m, comb m (ns.map Int.ofNat) = .ok (combN m ns) := fun ns hns =>
    comb_eq ns m ((mem_comps _ _ _).1 hns).2.le
  by_cases h : xs.length = 2
  · refine ⟨0, comps xs.length m, fun f _ => ?_, combN m, hw, multinomial_list xs m⟩
    rw [h, multilevelComb, if_neg (by norm_num), if_pos rfl, comps_two]
  · obtain ⟨c, hc⟩ := combRun_total xs.length m (by omega)
    refine ⟨c, comps xs.length m, fun f hf => ?_, combN m, hw, multinomial_list xs m⟩
    rw [multilevelComb, if_neg (by omega), if_neg h, hc f hf]
    rfl

example : 2 ≤ [(1 : ℝ), 2, 3].length := by simp

/-- C09. `multilevel_index(n, m)` terminates and returns every `n`-tuple over `0..m-1` exactly once
in lexicographic order, `m^n` of them. -/
theorem C09_multilevel_index (n m : ℕ) (hn : 1 ≤ n) (hm : 1 ≤ m) :
    ∃ fuel0 idx, (∀ fuel ≥ fuel0, multilevelIndex fuel n m = some (.ok idx)) ∧
      idx.Nodup ∧ idx.Pairwise (List.Lex (· < ·)) ∧ idx.length = m ^ n ∧
      ∀ l : List ℕ, l ∈ idx ↔ l.length = n ∧ ∀ x ∈ l, x < m := by
  obtain ⟨c, hc⟩ := odo_total (A := List (List ℕ)) (n := n) (m := m)
    (emit := fun a l => .ok (a ++ [l])) (g := fun a l => a ++ [l]) hn hm (fun _ _ _ _ => rfl) []
  refine ⟨c, tuples m n, ?_, tuples_nodup m n, tuples_sorted m n, length_tuples m n,
    fun l => mem_tuples m n l⟩
  intro f hf
  rw [multilevelIndex, hc f hf]
  have : ∀ (L acc : List (List ℕ)), L.foldl (fun a l => a ++ [l]) acc = acc ++ L := by
    intro L
    induction L with
    | nil => simp
    | cons x t ih => intro acc; simp [ih]
  rw [this]; rfl

example : multilevelIndex 100 2 2 = some (.ok [[0, 0], [0, 1], [1, 0], [1, 1]]) := by decide +kernel

/-- C09. Outside the documented domain (`m = 0` with at least two levels) the loop never ends. -/
theorem C09_diverges (n : ℕ) (hn : 2 ≤ n) (fuel : ℕ) : multilevelIndex fuel n 0 = none := by
  suffices H : ∀ (f : ℕ) (s : Odo (List (List ℕ))), s.stack.length < n →
      (s.fwd = false → s.stack.length + 1 = n) →
      odoRun n 0 (fun a l => .ok (a ++ [l])) f s = none from
    H fuel _ (by simp; omega) (by simp)
  intro f
  induction f with
  | zero => intros; rfl
  | succ f ih =>
    intro s hs hb
    rw [odoRun, if_pos hs]
    by_cases hf : s.fwd = true
    · by_cases hl : s.stack.length + 1 < n
      · have : odoStep n 0 (fun a l => .ok (a ++ [l])) s = .ok (.inl ⟨s.stack ++ [0], true, s.acc⟩) := by
          rw [odoStep, if_pos hf, if_pos hl]
        rw [this]
        exact ih _ (by simpa using hl) (by simp)
      · have hall : ((s.stack.take (n - 1)).all fun x => x + 1 == 0) = false := by
          rw [List.take_of_length_le (by omega)]
          cases h : s.stack with
          | nil => rw [h] at hl; simp at hl; omega
          | cons a t => simp
        have : odoStep n 0 (fun a l => .ok (a ++ [l])) s = .ok (.inl ⟨s.stack, false, s.acc⟩) := by
          rw [odoStep, if_pos hf, if_neg hl]
          simp only [List.range_zero, List.map_nil, List.foldlM_nil]
          rw [hall]; rfl
        rw [this]
        exact ih _ hs (fun _ => by simp only; omega)
    · have hlen := hb (by simpa using hf)
      have hne : s.stack ≠ [] := by intro h; rw [h] at hlen; simp at hlen; omega
      have : odoStep n 0 (fun a l => .ok (a ++ [l])) s =
          .ok (.inl ⟨s.stack.dropLast ++ [s.stack.getLast hne + 1], true, s.acc⟩) := by
        rw [odoStep, if_neg hf, List.getLast?_eq_some_getLast hne]
        simp
      rw [this]
      exact ih _ (by simp; omega) (by simp)

example : (2 : ℕ) ≤ 3 := by norm_num

/-- C10. `multilevel_comb(n, m)` terminates and for `n >= 2` returns every `n`-tuple of naturals
with sum `m` exactly once, in lexicographic order. -/
theorem C10_multilevel_comb (n m : ℕ) (hn : 2 ≤ n) :
    ∃ fuel0 idx, (∀ fuel ≥ fuel0, multilevelComb fuel n m = some (.ok (.inr idx))) ∧
      idx.Nodup ∧ idx.Pairwise (List.Lex (· < ·)) ∧
      ∀ l : List ℕ, l ∈ idx ↔ l.length = n ∧ l.sum = m := by
  have H : ∃ fuel0, ∀ fuel ≥ fuel0, multilevelComb fuel n m = some (.ok (.inr (comps n m))) := by
    by_cases h : n = 2
    · subst h
      refine ⟨0, fun f _ => ?_⟩
      rw [multilevelComb, if_neg (by norm_num), if_pos rfl, comps_two]
    · obtain ⟨c, hc⟩ := combRun_total n m (by omega)
      refine ⟨c, fun f hf => ?_⟩
      rw [multilevelComb, if_neg (by omega), if_neg h, hc f hf]
      rfl
  obtain ⟨c, hc⟩ := H
  exact ⟨c, comps n m, hc, comps_nodup n m, comps_sorted n m, mem_comps n m⟩

/-- C10. With one part the function returns the bare integer instead of a list of index lists. -/
theorem C10_one_part (fuel m : ℕ) : multilevelComb fuel 1 m = some (.ok (.inl m)) := rfl

example : multilevelComb 100 3 2 = some (.ok (.inr
    [[0, 0, 2], [0, 1, 1], [0, 2, 0], [1, 0, 1], [1, 1, 0], [2, 0, 0]])) := by decide +kernel

/-- C11. `dbfactorial` is the double factorial. -/
theorem C11_dbfactorial (n : ℕ) : dbfactorial n = n.doubleFactorial := dbfactorial_eq n

/-- C11. `cmnorm(n)` evaluates to the `n`-th central moment of every normal law `N(μ, σ²)`. -/
theorem C11_cmnorm (n : ℕ) : (cmnorm n).Len 1 ∧ (cmnorm n).keyfor = ["sigma"] ∧
    ∀ (μ : ℝ) (σ : ℝ≥0), ev (mono fun _ => (σ : ℝ)) (cmnorm n) =
      ∫ x, (x - μ) ^ n ∂(gaussianReal μ (σ ^ 2)) := by
  have key : ∀ (σ : ℝ) (k : ℤ), mono (fun _ => σ) [k] = σ ^ k := fun σ k => by simp [mono]
  refine ⟨?_, ?_, ?_⟩
  · intro x hx
    unfold cmnorm at hx
    split_ifs at hx <;> simp [addKeyval, dget, dset] at hx <;> subst hx <;> rfl
  · unfold cmnorm; split_ifs <;> simp
  · intro μ σ
    rw [gauss_central]
    rcases Nat.even_or_odd' n with ⟨k, rfl | rfl⟩
    · rw [gaussMom_even, cmnorm]
      by_cases h : 2 * k = 0
      · have : k = 0 := by omega
        subst this
        simp [ev, key]
      · rw [if_neg h, if_neg (by omega), dbfactorial_eq, ev_addKeyval, key]
        simp only [ev, List.map_nil, List.sum_nil, zero_add, Rat.smul_def]
        push_cast
        rw [show (2 * (k : ℤ)) = ((2 * k : ℕ) : ℤ) by push_cast; rfl, zpow_natCast, pow_mul]
        ring
    · rw [gaussMom_odd, cmnorm, if_neg (by omega), if_pos (by omega), ev_addKeyval]
      simp [ev]

example : (cmnorm 4).items = [([4], 3)] := by decide +kernel

/-- C12. `fZ` terminates and equals the documented sum over all tuples of jumps, for any number of
jumps including none, for exponent tuples of matching length. -/
theorem C12_fZ (l o p q : List ℤ) (k : ℝ) (s J : List ℝ) (ho : l.length ≤ o.length)
    (hp : l.length ≤ p.length + 1) (hq : l.length ≤ q.length + 1) (hs : J.length ≤ s.length) :
    ∃ fuel0, ∀ fuel ≥ fuel0, fZ fuel l o p q k s J = some (.ok
      (fZSpec l.length (fun i => l.getD i 0) (fun i => o.getD i 0) (fun i => p.getD i 0)
        (fun i => q.getD i 0) k (fun j : Fin J.length => s.getD j 0) (fun j => J.getD j 0))) :=
  fZ_total l o p q k s J ho hp hq hs

/-- C12. `fZ` is the sum of `fZ_each_index` over all index tuples (what `multilevel_index` lists). -/
theorem C12_fZ_each_index (l o p q : List ℤ) (k : ℝ) (s J : List ℝ) (ho : l.length ≤ o.length)
    (hp : l.length ≤ p.length + 1) (hq : l.length ≤ q.length + 1) (hs : J.length ≤ s.length)
    (hl : 1 ≤ l.length) (hJ : 1 ≤ J.length) :
    ∃ fuel0 idx w, (∀ fuel ≥ fuel0, multilevelIndex fuel l.length J.length = some (.ok idx)) ∧
      (∀ i ∈ idx, fZEachIndex l o p q k s J i = .ok (w i)) ∧
      ∀ fuel ≥ fuel0, fZ fuel l o p q k s J = some (.ok (idx.map w).sum) := by
  obtain ⟨c, hc⟩ := odo_total (A := List (List ℕ)) (n := l.length) (m := J.length)
    (emit := fun a l => .ok (a ++ [l])) (g := fun a l => a ++ [l]) hl hJ (fun _ _ _ _ => rfl) []
  have hw : ∀ index : List ℕ, index.length = l.length → (∀ x ∈ index, x < J.length) →
      fZEachIndex l o p q k s J index =
        .ok (∏ i ∈ Finset.range index.length, facAt l o p q k s J index i) := by
    intro index h1 h2
    exact fZEachIndex_ok k (by rintro rfl; simp at h1; omega) (by omega) (by omega) (by omega)
        (by omega) (fun j hj => (h2 j hj).trans_le hs) h2
  obtain ⟨c', hc'⟩ := odo_total (A := ℝ) (n := l.length) (m := J.length)
    (emit := fun val index => do let f ← fZEachIndex l o p q k s J index; .ok (val + f))
    (g := fun val index => val + ∏ i ∈ Finset.range index.length, facAt l o p q k s J index i)
    hl hJ (by intro index h1 h2 a; rw [hw index h1 h2, ok_bind]) 0
  refine ⟨max c c', tuples J.length l.length, _, ?_, fun i hi => hw i ((mem_tuples _ _ _).1 hi).1
    ((mem_tuples _ _ _).1 hi).2, ?_⟩
  · intro f hf
    rw [multilevelIndex, hc f (le_trans (le_max_left _ _) hf)]
    have : ∀ (L acc : List (List ℕ)), L.foldl (fun a l => a ++ [l]) acc = acc ++ L := by
      intro L
      induction L with
      | nil => simp
      | cons x t ih => intro acc; simp [ih]
    rw [this]; rfl
  · intro f hf
    rw [fZ, if_neg (by omega), if_neg (by omega), hc' f (le_trans (le_max_right _ _) hf)]
    have hfold : ∀ (L : List (List ℕ)) (a : ℝ), L.foldl (fun val index => val +
        ∏ i ∈ Finset.range index.length, facAt l o p q k s J index i) a =
        a + (L.map fun index => ∏ i ∈ Finset.range index.length, facAt l o p q k s J index i).sum := by
      intro L
      induction L with
      | nil => simp
      | cons x t ih => intro a; simp [ih, add_assoc]
    rw [hfold, zero_add]

/-- the documented value at depth one: `Σ_j e^{l k s_j} J_j s_j^o` -/
example (l o : ℤ) (k : ℝ) (s J : Fin 3 → ℝ) : fZSpec 1 (fun _ => l) (fun _ => o) (fun _ => 0)
    (fun _ => 0) k s J = ∑ j, Real.exp (l * k * s j) * J j * s j ^ o := by
  unfold fZSpec
  rw [← (Equiv.funUnique (Fin 1) (Fin 3)).symm.sum_comp]
  simp

/-- C13. `simplify_rho(poly, n)` removes the 'sqrt(1-rho^2)' component and keeps the value at every
assignment with `x_n² = 1 - x_{n-1}²`. -/
theorem C13_simplify_rho (P : IPoly) (n : ℕ) (hn : 1 ≤ n) (hP : P.Keys (RhoKey n)) :
    ∃ Q, simplifyRho P n = .ok Q ∧ Q.keyfor = P.keyfor.eraseIdx n ∧ Q.WF ∧ Q.NoZero ∧
      (∀ L, P.Len (L + 1) → Q.Len L) ∧
      ∀ x : ℕ → ℝ, x n ^ 2 = 1 - x (n - 1) ^ 2 → ev (mono (dropVar n x)) Q = ev (mono x) P :=
  simplifyRho_spec P n hn hP

/-- C13. An odd power of 'sqrt(1-rho^2)' raises. -/
theorem C13_odd_raises (P : IPoly) (n : ℕ) (hlen : P.Keys fun k => n < k.length)
    (hodd : ∃ e ∈ P.items, e.1.getD n 0 % 2 = 1) : simplifyRho P n = .error .exception := by
  have hg : ∀ e ∈ P.items, pyGet e.1 n = .ok (e.1.getD n 0) := fun e he => pyGet_ok _ _ _ (hlen e he)
  have : P.items.mapM (rhoTerms n) = .error .exception := by
    apply mapM_error
    · intro e he
      simp only [rhoTerms, hg e he, ok_bind]
      by_cases h0 : e.1.getD n 0 = 0
      · left; rw [if_pos h0]; exact ⟨_, rfl⟩
      · by_cases h1 : e.1.getD n 0 % 2 = 0
        · left; rw [if_neg h0, if_pos h1]; exact ⟨_, rfl⟩
        · right; rw [if_neg h0, if_neg h1]
    · obtain ⟨e, he, h⟩ := hodd
      refine ⟨e, he, ?_⟩
      simp only [rhoTerms, hg e he, ok_bind]
      rw [if_neg (by intro h0; rw [h0] at h; norm_num at h), if_neg (by omega)]
  rw [simplifyRho, this]; rfl

/-- C13. Outside the documented domain a negative even power is silently dropped. -/
theorem C13_negative_dropped :
    simplifyRho ⟨["rho", "sqrt(1-rho^2)"], [([0, -2], 1)]⟩ 1 = .ok ⟨["rho"], []⟩ := by
  decide +kernel

example : (⟨["rho", "sqrt(1-rho^2)"], [([1, 2], 3), ([0, 4], 1)]⟩ : IPoly).Keys (RhoKey 1) := by
  intro x hx; simp at hx; rcases hx with rfl | rfl <;> simp [RhoKey]
example : ∃ x : ℕ → ℝ, x 1 ^ 2 = 1 - x 0 ^ 2 ∧ x 0 = 3 / 5 :=
  ⟨fun i => if i = 0 then 3 / 5 else 4 / 5, by norm_num, by norm_num⟩

end Ajd
