import Verif.Spec.Euler
import Verif.Lemmas.Utils
import Verif.Lemmas.Table
import Mathlib.Data.List.GetD
import Mathlib.Tactic.Ring
import Mathlib.Tactic.Linarith
import Mathlib.Tactic.FieldSimp
import Mathlib.Tactic.Positivity

namespace Ajd.Euler

open Spec Finset

theorem pySqrt_ok {x : ℝ} (h : 0 ≤ x) : pySqrt x = .ok √x := by
  rw [pySqrt, if_neg (not_lt.2 h)]

theorem pyDiv_ok {x y : ℝ} (h : y ≠ 0) : pyDiv x y = .ok (x / y) := by
  rw [pyDiv, if_neg h]

theorem foldlM_range {M : Type} (f : M → ℕ → Except PyErr M) (S : ℕ → M) (n : ℕ)
    (h : ∀ j < n, f (S j) j = .ok (S (j + 1))) : (List.range n).foldlM f (S 0) = .ok (S n) := by
  induction n with
  | zero => rfl
  | succ n ih =>
    rw [List.range_succ, List.foldlM_append, ih fun j hj => h j (by omega)]
    rw [ok_bind, List.foldlM_cons, h n (by omega)]
    rfl

theorem neg_max (x : ℝ) : (if x < 0 then 0 else x) = max 0 x := by
  split_ifs with h
  · rw [max_eq_left h.le]
  · rw [max_eq_right (not_lt.1 h)]

theorem path_nonneg (k θ σ δ v : ℝ) (ξ : ℕ → ℝ) (hv : 0 ≤ v) (j : ℕ) :
    0 ≤ path k θ σ δ v ξ j := by
  cases j with
  | zero => exact hv
  | succ j => exact le_max_left _ _

theorem start_nonneg (k θ σ δ v : ℝ) (n : ℕ) (ξ : ℕ → ℕ → ℝ) (hv : 0 ≤ v) (i : ℕ) :
    0 ≤ start k θ σ δ v n ξ i := by
  induction i with
  | zero => exact hv
  | succ i ih => exact path_nonneg _ _ _ _ _ _ ih _

/-! ### one-factor -/

theorem seg1_loop (p : Fsv1.Par) (δ : ℝ) (e e2 : ℕ → ℝ) (v : ℝ) (hv : 0 ≤ v) (n : ℕ) :
    (List.range n).foldlM (seg1 p δ √δ e e2) ⟨v, 0, 0, 0⟩ = .ok
      ⟨path p.k p.θ p.σ δ v e n,
        ∑ j ∈ range n, √(path p.k p.θ p.σ δ v e j) * (√δ * e j),
        ∑ j ∈ range n, √(path p.k p.θ p.σ δ v e j) * (√δ * e2 j),
        ∑ j ∈ range n, path p.k p.θ p.σ δ v e j * δ⟩ := by
  have := foldlM_range (seg1 p δ √δ e e2) (fun n =>
      (⟨path p.k p.θ p.σ δ v e n,
        ∑ j ∈ range n, √(path p.k p.θ p.σ δ v e j) * (√δ * e j),
        ∑ j ∈ range n, √(path p.k p.θ p.σ δ v e j) * (√δ * e2 j),
        ∑ j ∈ range n, path p.k p.θ p.σ δ v e j * δ⟩ : St1)) n (fun j _ => by
    simp only [seg1, pySqrt_ok (path_nonneg p.k p.θ p.σ δ v e hv j), ok_bind, neg_max, normal,
      zero_add, sum_range_succ, path, mul_assoc]
    rfl)
  simpa [path] using this

theorem sample1_spec (p : Fsv1.Par) (n : ℕ) (δ : ℝ) (e e2 : ℕ → ℝ) (v : ℝ) (hv : 0 ≤ v)
    (hρ : p.ρ ^ 2 ≤ 1) :
    sample1 p n δ √δ e e2 v = .ok (ret1 p.μ p.ρ p.h n δ (path p.k p.θ p.σ δ v e) e e2,
      path p.k p.θ p.σ δ v e n) := by
  rw [sample1, seg1_loop p δ e e2 v hv n, ok_bind, pySqrt_ok (by linarith), ok_bind]
  rfl

theorem jumpPart_eq (m : ℕ) (μj σj : ℝ) (g : ℕ → ℝ) :
    jumpPart m μj σj g = jumps m μj σj g := by
  have : ∀ m : ℕ, (List.range m).foldl (fun acc l => acc + normal μj σj (g l)) 0 =
      jumps m μj σj g := by
    intro m
    induction m with
    | zero => simp [jumps]
    | succ m ih =>
      rw [List.range_succ, List.foldl_append, ih]
      simp only [List.foldl_cons, List.foldl_nil, jumps, normal, sum_range_succ, Nat.cast_succ]
      ring
  rw [jumpPart]
  split_ifs with h
  · exact this m
  · have : m = 0 := by omega
    subst this
    simp [jumps]

/-- a loop that carries a state and appends an output -/
theorem traj {S : Type} (f : S → ℕ → Except PyErr (S × ℝ)) (s : ℕ → S) (y : ℕ → ℝ) (N : ℕ)
    (h : ∀ i < N, f (s i) i = .ok (s (i + 1), y i)) :
    (List.range N).foldlM (fun (st : S × List ℝ) i => do
      let x ← f st.1 i
      pure (x.1, st.2 ++ [x.2])) (s 0, []) = .ok (s N, (List.range N).map y) := by
  have := foldlM_range (fun (st : S × List ℝ) i => do
      let x ← f st.1 i
      pure (x.1, st.2 ++ [x.2])) (fun i => (s i, (List.range i).map y)) N (fun j hj => by
    simp only [h j hj, ok_bind, List.range_succ, List.map_append, List.map_cons, List.map_nil]
    rfl)
  simpa using this

/-! ### two-factor -/

theorem seg2_loop (p : Par2) (δ : ℝ) (e e1 e2 : ℕ → ℝ) (v : ℝ × ℝ) (h1 : 0 ≤ v.1) (h2 : 0 ≤ v.2)
    (n : ℕ) :
    (List.range n).foldlM (seg2 p δ √δ e e1 e2) ⟨v.1, v.2, 0, 0, 0⟩ = .ok
      ⟨path p.k1 p.θ1 p.σ1 δ v.1 e1 n, path p.k2 p.θ2 p.σ2 δ v.2 e2 n,
        ∑ j ∈ range n, √(path p.k1 p.θ1 p.σ1 δ v.1 e1 j + path p.k2 p.θ2 p.σ2 δ v.2 e2 j) *
          (√δ * e j),
        ∑ j ∈ range n, path p.k1 p.θ1 p.σ1 δ v.1 e1 j * δ,
        ∑ j ∈ range n, path p.k2 p.θ2 p.σ2 δ v.2 e2 j * δ⟩ := by
  have := foldlM_range (seg2 p δ √δ e e1 e2) (fun n =>
      (⟨path p.k1 p.θ1 p.σ1 δ v.1 e1 n, path p.k2 p.θ2 p.σ2 δ v.2 e2 n,
        ∑ j ∈ range n, √(path p.k1 p.θ1 p.σ1 δ v.1 e1 j + path p.k2 p.θ2 p.σ2 δ v.2 e2 j) *
          (√δ * e j),
        ∑ j ∈ range n, path p.k1 p.θ1 p.σ1 δ v.1 e1 j * δ,
        ∑ j ∈ range n, path p.k2 p.θ2 p.σ2 δ v.2 e2 j * δ⟩ : St2)) n (fun j _ => by
    have a1 := path_nonneg p.k1 p.θ1 p.σ1 δ v.1 e1 h1 j
    have a2 := path_nonneg p.k2 p.θ2 p.σ2 δ v.2 e2 h2 j
    simp only [seg2, pySqrt_ok a1, pySqrt_ok a2, pySqrt_ok (add_nonneg a1 a2), ok_bind, neg_max,
      normal, zero_add, sum_range_succ, path, mul_assoc]
    rfl)
  simpa [path] using this

theorem sample2_spec (p : Par2) (n : ℕ) (δ : ℝ) (e e1 e2 : ℕ → ℝ) (v : ℝ × ℝ) (h1 : 0 ≤ v.1)
    (h2 : 0 ≤ v.2) :
    sample2 p n δ √δ e e1 e2 v = .ok (ret2 p.μ p.h n δ (path p.k1 p.θ1 p.σ1 δ v.1 e1)
      (path p.k2 p.θ2 p.σ2 δ v.2 e2) e,
      path p.k1 p.θ1 p.σ1 δ v.1 e1 n, path p.k2 p.θ2 p.σ2 δ v.2 e2 n) := by
  rw [sample2, seg2_loop p δ e e1 e2 v h1 h2 n, ok_bind]
  simp only [ret2, add_mul, sum_add_distrib]
  rfl

/-! ### SVVJ -/

theorem izLoop_spec (t : ℝ) (g : ℝ → ℝ → ℝ) (js ts : List ℝ) (hl : js.length = ts.length)
    (hs : ts.Pairwise (· ≤ ·)) (f : ℝ) :
    izLoop t g js ts f = .ok (f + ((jumpsTo t js ts).map fun x => g x.1 x.2).sum) := by
  induction js generalizing ts f with
  | nil =>
    obtain rfl : ts = [] := by simpa using hl.symm
    simp [izLoop, jumpsTo]
  | cons J js ih =>
    cases ts with
    | nil => simp at hl
    | cons τ ts =>
      rw [List.pairwise_cons] at hs
      rw [izLoop]
      split_ifs with h
      · rw [ih ts (by simpa using hl) hs.2]
        simp [jumpsTo, h, add_assoc]
      · have : jumpsTo t (J :: js) (τ :: ts) = [] := by
          rw [jumpsTo, List.filter_eq_nil_iff]
          intro x hx
          rw [List.zip_cons_cons, List.mem_cons] at hx
          rcases hx with rfl | hx
          · simpa using h
          · have := hs.1 x.1 (List.of_mem_zip hx).1
            simp only [decide_eq_true_eq, not_le]
            exact lt_of_lt_of_le (not_le.1 h) this
        simp [this]

/-- a step of the specification on the loop variables -/
noncomputable def stepEv (k θ σ : ℝ) (z : ℕ → ℝ × ℝ) (s : St3) (e : Ev) : St3 :=
  ⟨s.IE + Real.exp (k * e.start) * (√s.v * (√e.dur * (z s.c).1)),
    s.I + √s.v * (√e.dur * (z s.c).1), s.I2 + √s.v * (√e.dur * (z s.c).2),
    next k θ σ e s.v (z s.c).1, e.start + e.dur, s.j + if e.jump.isSome then 1 else 0, s.c + 1⟩

theorem foldl_stepEv (k θ σ : ℝ) (z : ℕ → ℝ × ℝ) (es : List Ev) (s : St3) :
    (es.foldl (stepEv k θ σ z) s).IE = s.IE + integ k θ σ (fun e => Real.exp (k * e.start))
      (fun c => (z c).1) (fun c => (z c).1) es s.c s.v ∧
    (es.foldl (stepEv k θ σ z) s).I = s.I + integ k θ σ (fun _ => 1)
      (fun c => (z c).1) (fun c => (z c).1) es s.c s.v ∧
    (es.foldl (stepEv k θ σ z) s).I2 = s.I2 + integ k θ σ (fun _ => 1)
      (fun c => (z c).1) (fun c => (z c).2) es s.c s.v := by
  induction es generalizing s with
  | nil => simp [integ]
  | cons e es ih =>
    obtain ⟨a, b, c⟩ := ih (stepEv k θ σ z s e)
    rw [List.foldl_cons, a, b, c]
    simp only [stepEv, integ, one_mul, add_assoc, and_self]

theorem inc_spec (k θ σ : ℝ) (z : ℕ → ℝ × ℝ) (dt : ℝ) (s : St3) (hd : 0 ≤ dt) (hv : 0 ≤ s.v) :
    incIEII k θ σ z dt s = .ok { stepEv k θ σ z s ⟨s.t0, dt, none⟩ with t0 := s.t0 } := by
  simp only [incIEII, pySqrt_ok hd, pySqrt_ok hv, ok_bind, neg_max, normal, zero_add, one_mul,
    stepEv, next, Option.getD_none, add_zero, Option.isSome_none, mul_assoc]
  rfl

theorem chain_append {a b c : ℝ} {es fs : List Ev} (h : Chain a es b) (h' : Chain b fs c) :
    Chain a (es ++ fs) c := by
  induction es generalizing a with
  | nil => cases h; exact h'
  | cons e es ih => exact ⟨h.1, h.2.1, ih h.2.2⟩

theorem jumpsOf_append (es fs : List Ev) : jumpsOf (es ++ fs) = jumpsOf es ++ jumpsOf fs := by
  simp [jumpsOf]

theorem chain_one {a b : ℝ} {e : Ev} (h : e.start = a) (h' : 0 ≤ e.dur) (hb : a + e.dur = b) :
    Chain a [e] b := ⟨h, h', hb⟩

theorem next_nonneg (k θ σ : ℝ) (e : Ev) (v ξ : ℝ) (h : 0 ≤ e.jump.getD 0) :
    0 ≤ next k θ σ e v ξ := add_nonneg (le_max_left _ _) h

/-- the `while` loop over the jumps -/
theorem jumpLoop_spec (k θ σ : ℝ) (z : ℕ → ℝ × ℝ) (js ts : List ℝ) (hl : js.length = ts.length)
    (hJ : ∀ J ∈ js, 0 ≤ J) (hs : ts.Pairwise (· ≤ ·)) (t δ : ℝ) (fuel : ℕ) (s : St3)
    (hf : ts.length - s.j ≤ fuel) (hv : 0 ≤ s.v) (ht : s.t0 ≤ t) (hδ : t - s.t0 ≤ δ)
    (hr : ∀ x ∈ (ts.zip js).drop s.j, s.t0 ≤ x.1) :
    ∃ es, ∃ s' : St3, jumpLoop k θ σ z js ts t fuel s = .ok s' ∧ s' = es.foldl (stepEv k θ σ z) s ∧
      Chain s.t0 es s'.t0 ∧ s'.t0 ≤ t ∧ t - s'.t0 ≤ δ ∧ 0 ≤ s'.v ∧ (∀ e ∈ es, e.dur ≤ δ) ∧
      (ts.zip js).drop s.j = jumpsOf es ++ (ts.zip js).drop s'.j ∧
      (∀ x ∈ jumpsOf es, x.1 ≤ t) ∧ ∀ x ∈ (ts.zip js).drop s'.j, t < x.1 := by
  induction fuel generalizing s with
  | zero =>
    have hz : (ts.zip js).drop s.j = [] := by
      rw [List.drop_eq_nil_iff, List.length_zip, hl, min_self]; omega
    exact ⟨[], s, rfl, rfl, rfl, ht, hδ, hv, by simp, by simp [jumpsOf], by simp [jumpsOf],
      by simp [hz]⟩
  | succ fuel ih =>
    rw [jumpLoop]
    by_cases hj : s.j < ts.length
    · have hj' : s.j < js.length := by omega
      have hz : s.j < (ts.zip js).length := by rw [List.length_zip, hl, min_self]; exact hj
      have hdrop : (ts.zip js).drop s.j = (ts[s.j], js[s.j]) :: (ts.zip js).drop (s.j + 1) := by
        rw [List.drop_eq_getElem_cons hz, List.getElem_zip]
      rw [List.getElem?_eq_getElem hj]
      dsimp only
      have h0 : s.t0 ≤ ts[s.j] := hr (ts[s.j], js[s.j]) (by rw [hdrop]; simp)
      split_ifs with hτ
      · have hg : Utils.pyGet js s.j = .ok js[s.j] := by
          rw [Utils.pyGet, List.getElem?_eq_getElem hj']
        rw [inc_spec k θ σ z _ s (by linarith) hv, ok_bind, hg, ok_bind]
        have hst : ∀ q : St3, q = { stepEv k θ σ z s ⟨s.t0, ts[s.j] - s.t0, none⟩ with t0 := s.t0 } →
            { q with v := q.v + js[s.j], t0 := ts[s.j], j := q.j + 1 } =
            stepEv k θ σ z s ⟨s.t0, ts[s.j] - s.t0, some js[s.j]⟩ := by
          rintro q rfl
          simp [stepEv, next]
        rw [hst _ rfl]
        have hJ0 : 0 ≤ js[s.j] := hJ _ (List.getElem_mem hj')
        obtain ⟨es, s', h1, h2, h3, h4, h5, h6, h7, h8, h9, h10⟩ := ih
          (stepEv k θ σ z s ⟨s.t0, ts[s.j] - s.t0, some js[s.j]⟩)
          (by simp only [stepEv, Option.isSome_some, if_true]; omega)
          (next_nonneg _ _ _ _ _ _ hJ0)
          (by simp only [stepEv]; linarith) (by simp only [stepEv]; linarith)
          (by
            intro x hx
            simp only [stepEv, Option.isSome_some, if_true] at hx ⊢
            have hsz : ((ts.zip js).drop s.j).Pairwise (fun x y => x.1 ≤ y.1) := by
              apply List.Pairwise.drop
              have : ((ts.zip js).map Prod.fst).Pairwise (· ≤ ·) := by
                rw [List.map_fst_zip (by omega)]; exact hs
              exact List.pairwise_map.1 this
            rw [hdrop, List.pairwise_cons] at hsz
            have := hsz.1 x hx
            simp only at this
            linarith)
        refine ⟨⟨s.t0, ts[s.j] - s.t0, some js[s.j]⟩ :: es, s', h1, h2, ?_, h4, h5, h6, ?_, ?_, ?_,
          h10⟩
        · refine ⟨rfl, by dsimp only; linarith, ?_⟩
          simpa [stepEv] using h3
        · intro e he
          rcases List.mem_cons.1 he with rfl | he
          · dsimp only; linarith
          · exact h7 e he
        · simp only [stepEv, Option.isSome_some, if_true] at h8
          rw [hdrop, h8]
          simp [jumpsOf]
        · intro x hx
          simp only [jumpsOf, List.filterMap_cons, Option.map_some] at hx
          rcases List.mem_cons.1 hx with rfl | hx
          · dsimp only; linarith
          · exact h9 x hx
      · refine ⟨[], s, rfl, rfl, rfl, ht, hδ, hv, by simp, by simp [jumpsOf], by simp [jumpsOf], ?_⟩
        intro x hx
        have hsz : ((ts.zip js).drop s.j).Pairwise (fun x y => x.1 ≤ y.1) := by
          apply List.Pairwise.drop
          have : ((ts.zip js).map Prod.fst).Pairwise (· ≤ ·) := by
            rw [List.map_fst_zip (by omega)]; exact hs
          exact List.pairwise_map.1 this
        rw [hdrop, List.pairwise_cons] at hsz
        rw [hdrop] at hx
        rcases List.mem_cons.1 hx with rfl | hx
        · exact not_le.1 hτ
        · exact lt_of_lt_of_le (not_le.1 hτ) (hsz.1 x hx)
    · rw [List.getElem?_eq_none (by omega)]
      have hz : (ts.zip js).drop s.j = [] := by
        rw [List.drop_eq_nil_iff, List.length_zip, hl, min_self]; omega
      exact ⟨[], s, rfl, rfl, rfl, ht, hδ, hv, by simp, by simp [jumpsOf], by simp [jumpsOf],
        by simp [hz]⟩

/-- state of `rIEII` before segment `i` -/
structure Inv (k θ σ δ v0 : ℝ) (z : ℕ → ℝ × ℝ) (js ts : List ℝ) (i : ℕ) (s : St3)
    (es : List Ev) : Prop where
  eq : { s with t0 := (i : ℝ) * δ } =
    { es.foldl (stepEv k θ σ z) ⟨0, 0, 0, v0, 0, 0, 0⟩ with t0 := (i : ℝ) * δ }
  chain : Chain 0 es ((i : ℝ) * δ)
  dur : ∀ e ∈ es, e.dur ≤ δ
  v : 0 ≤ s.v
  zip : ts.zip js = jumpsOf es ++ (ts.zip js).drop s.j
  le : ∀ x ∈ jumpsOf es, x.1 ≤ (i : ℝ) * δ
  ge : ∀ x ∈ (ts.zip js).drop s.j, (i : ℝ) * δ ≤ x.1
  gt : 0 < i → ∀ x ∈ (ts.zip js).drop s.j, (i : ℝ) * δ < x.1

theorem foldl_t0 (k θ σ : ℝ) (z : ℕ → ℝ × ℝ) (es : List Ev) (s s2 : St3) (t : ℝ)
    (h : { s with t0 := t } = { s2 with t0 := t }) :
    { es.foldl (stepEv k θ σ z) s with t0 := t } = { es.foldl (stepEv k θ σ z) s2 with t0 := t } := by
  induction es generalizing s s2 with
  | nil => exact h
  | cons e es ih =>
    simp only [List.foldl_cons]
    apply ih
    simp only [St3.mk.injEq] at h
    obtain ⟨a, b, c, d, _, f, g⟩ := h
    simp only [stepEv, a, b, c, d, f, g]

theorem seg3_spec (k θ σ δ v0 : ℝ) (z : ℕ → ℝ × ℝ) (js ts : List ℝ) (hl : js.length = ts.length)
    (hJ : ∀ J ∈ js, 0 ≤ J) (hs : ts.Pairwise (· ≤ ·)) (hδ : 0 ≤ δ) (i : ℕ) (s : St3) (es : List Ev)
    (h : Inv k θ σ δ v0 z js ts i s es) :
    ∃ s' es', seg3 k θ σ δ z js ts s i = .ok s' ∧ Inv k θ σ δ v0 z js ts (i + 1) s' es' := by
  have hstep : ((i + 1 : ℕ) : ℝ) * δ - (i : ℝ) * δ = δ := by push_cast; ring
  obtain ⟨fs, s1, h1, h2, h3, h4, h5, h6, h7, h8, h9, h10⟩ := jumpLoop_spec k θ σ z js ts hl hJ hs
    (((i + 1 : ℕ) : ℝ) * δ) δ ts.length { s with t0 := (i : ℝ) * δ } (by simp) h.v
    (by dsimp only; linarith) (by dsimp only; linarith) h.ge
  dsimp only at h3 h8
  have hchain1 : Chain 0 (es ++ fs) s1.t0 := chain_append h.chain h3
  have hdur1 : ∀ e ∈ es ++ fs, e.dur ≤ δ := by
    intro e he
    rcases List.mem_append.1 he with he | he
    · exact h.dur e he
    · exact h7 e he
  have hfold : ∀ t, { s1 with t0 := t } =
      { (es ++ fs).foldl (stepEv k θ σ z) ⟨0, 0, 0, v0, 0, 0, 0⟩ with t0 := t } := by
    intro t
    rw [List.foldl_append, h2]
    apply foldl_t0
    have := h.eq
    simp only [St3.mk.injEq] at this ⊢
    tauto
  have hzip1 : ts.zip js = jumpsOf (es ++ fs) ++ (ts.zip js).drop s1.j := by
    rw [jumpsOf_append, List.append_assoc, ← h8]
    exact h.zip
  have hle1 : ∀ x ∈ jumpsOf (es ++ fs), x.1 ≤ ((i + 1 : ℕ) : ℝ) * δ := by
    intro x hx
    rw [jumpsOf_append] at hx
    rcases List.mem_append.1 hx with hx | hx
    · have := h.le x hx
      linarith
    · exact h9 x hx
  rw [seg3, h1, ok_bind, restSeg]
  split_ifs with hlt
  · rw [inc_spec k θ σ z _ s1 (by linarith) h6]
    refine ⟨_, es ++ fs ++ [⟨s1.t0, ((i + 1 : ℕ) : ℝ) * δ - s1.t0, none⟩], rfl, ?_, ?_, ?_, ?_, ?_,
      ?_, ?_, ?_⟩
    · rw [List.foldl_append]
      simp only [List.foldl_cons, List.foldl_nil]
      have := hfold 0
      simp only [St3.mk.injEq] at this
      obtain ⟨a, b, c, d, _, f, g⟩ := this
      simp only [stepEv, a, b, c, d, f, g]
    · exact chain_append hchain1 (chain_one rfl (by dsimp only; linarith) (by dsimp only; ring))
    · intro e he
      rcases List.mem_append.1 he with he | he
      · exact hdur1 e he
      · rw [List.mem_singleton] at he
        subst he
        exact h5
    · exact next_nonneg _ _ _ _ _ _ (by simp)
    · rw [jumpsOf_append]
      simpa [jumpsOf, stepEv] using hzip1
    · intro x hx
      rw [jumpsOf_append] at hx
      exact hle1 x (by simpa [jumpsOf] using hx)
    · intro x hx
      exact (h10 x (by simpa [stepEv] using hx)).le
    · intro _ x hx
      exact h10 x (by simpa [stepEv] using hx)
  · have ht : s1.t0 = ((i + 1 : ℕ) : ℝ) * δ := le_antisymm h4 (not_lt.1 hlt)
    refine ⟨s1, es ++ fs, rfl, hfold _, ht ▸ hchain1, hdur1, h6, hzip1, hle1,
      fun x hx => (h10 x hx).le, fun _ => h10⟩

theorem foldlM_range_inv {M : Type} (f : M → ℕ → Except PyErr M) (P : ℕ → M → Prop) (n : ℕ) (s : M)
    (h0 : P 0 s) (h : ∀ i < n, ∀ s, P i s → ∃ s', f s i = .ok s' ∧ P (i + 1) s') :
    ∃ s', (List.range n).foldlM f s = .ok s' ∧ P n s' := by
  induction n with
  | zero => exact ⟨s, rfl, h0⟩
  | succ n ih =>
    obtain ⟨s1, e1, p1⟩ := ih fun i hi => h i (by omega)
    obtain ⟨s2, e2, p2⟩ := h n (by omega) s1 p1
    refine ⟨s2, ?_, p2⟩
    rw [List.range_succ, List.foldlM_append, e1, ok_bind, List.foldlM_cons, e2]
    rfl

theorem seg0_spec (k θ σ δ v0 : ℝ) (z : ℕ → ℝ × ℝ) (hδ : 0 ≤ δ) (i : ℕ) (s : St3) (es : List Ev)
    (h : Inv k θ σ δ v0 z [] [] i s es) :
    ∃ s' es', incIEII k θ σ z δ { s with t0 := (i : ℝ) * δ } = .ok s' ∧
      Inv k θ σ δ v0 z [] [] (i + 1) s' es' := by
  rw [inc_spec k θ σ z δ { s with t0 := (i : ℝ) * δ } hδ h.v]
  refine ⟨_, es ++ [⟨(i : ℝ) * δ, δ, none⟩], rfl, ?_, ?_, ?_, ?_, ?_, ?_, ?_, ?_⟩
  · rw [List.foldl_append]
    simp only [List.foldl_cons, List.foldl_nil]
    have := h.eq
    simp only [St3.mk.injEq] at this
    obtain ⟨a, b, c, d, _, f, g⟩ := this
    simp only [stepEv, a, b, c, d, f, g]
  · exact chain_append h.chain (chain_one rfl hδ (by push_cast; ring))
  · intro e he
    rcases List.mem_append.1 he with he | he
    · exact h.dur e he
    · rw [List.mem_singleton] at he
      subst he
      exact le_rfl
  · exact next_nonneg _ _ _ _ _ _ (by simp)
  · have := h.zip
    rw [jumpsOf_append]
    simpa [jumpsOf] using this
  · intro x hx
    have := h.zip
    simp only [List.zip_nil_right, List.drop_nil, List.append_nil] at this
    rw [jumpsOf_append, ← this] at hx
    simp [jumpsOf] at hx
  · simp
  · simp

theorem filter_of_split (T : ℝ) (l a b : List (ℝ × ℝ)) (h : l = a ++ b) (ha : ∀ x ∈ a, x.1 ≤ T)
    (hb : ∀ x ∈ b, T < x.1) : l.filter (fun x => x.1 ≤ T) = a := by
  rw [h, List.filter_append, List.filter_eq_self.2 (by simpa using ha),
    List.filter_eq_nil_iff.2 (by simpa using hb), List.append_nil]

theorem rIEII_spec (v0 k θ σ T : ℝ) (js ts : List ℝ) (n : ℕ) (z : ℕ → ℝ × ℝ) (hv : 0 ≤ v0)
    (hT : 0 ≤ T) (hn : 0 < n) (hl : js.length = ts.length) (hJ : ∀ J ∈ js, 0 ≤ J)
    (hs : ts.Pairwise (· ≤ ·)) (h0 : ∀ t ∈ ts, 0 ≤ t) :
    ∃ es : List Ev, Chain 0 es T ∧ (∀ e ∈ es, e.dur ≤ T / n) ∧ jumpsOf es = jumpsTo T js ts ∧
      rIEII v0 k θ σ T js ts n z = .ok
        (integ k θ σ (fun e => Real.exp (k * e.start)) (fun c => (z c).1) (fun c => (z c).1) es 0 v0,
          integ k θ σ (fun _ => 1) (fun c => (z c).1) (fun c => (z c).1) es 0 v0,
          integ k θ σ (fun _ => 1) (fun c => (z c).1) (fun c => (z c).2) es 0 v0) := by
  have hn0 : (n : ℝ) ≠ 0 := by positivity
  have hδ : 0 ≤ T / n := by positivity
  have hTn : (n : ℝ) * (T / n) = T := by field_simp
  have hinit : Inv k θ σ (T / n) v0 z js ts 0 ⟨0, 0, 0, v0, 0, 0, 0⟩ [] :=
    { eq := rfl
      chain := by simp [Chain]
      dur := by simp
      v := hv
      zip := by simp [jumpsOf]
      le := by simp [jumpsOf]
      ge := by
        intro x hx
        have := h0 x.1 (List.of_mem_zip (List.mem_of_mem_drop hx)).1
        simpa using this
      gt := by simp }
  have key : ∃ s es, rIEIILoop v0 k θ σ (T / n) js ts n z = .ok s ∧
      Inv k θ σ (T / n) v0 z js ts n s es := by
    rw [rIEIILoop]
    split_ifs with hz
    · obtain rfl : ts = [] := by simpa using hz
      obtain rfl : js = [] := by simpa using hl
      obtain ⟨s, e, es, h⟩ := foldlM_range_inv (fun s (i : ℕ) => incIEII k θ σ z (T / n)
        { s with t0 := (i : ℝ) * (T / n) }) (fun i s => ∃ es, Inv k θ σ (T / n) v0 z [] [] i s es) n
        ⟨0, 0, 0, v0, 0, 0, 0⟩ ⟨[], hinit⟩ (by
          rintro i - s ⟨es, h⟩
          obtain ⟨s', es', a, b⟩ := seg0_spec k θ σ (T / n) v0 z hδ i s es h
          exact ⟨s', a, es', b⟩)
      exact ⟨s, es, e, h⟩
    · obtain ⟨s, e, es, h⟩ := foldlM_range_inv (seg3 k θ σ (T / n) z js ts)
        (fun i s => ∃ es, Inv k θ σ (T / n) v0 z js ts i s es) n
        ⟨0, 0, 0, v0, 0, 0, 0⟩ ⟨[], hinit⟩ (by
          rintro i - s ⟨es, h⟩
          obtain ⟨s', es', a, b⟩ := seg3_spec k θ σ (T / n) v0 z js ts hl hJ hs hδ i s es h
          exact ⟨s', a, es', b⟩)
      exact ⟨s, es, e, h⟩
  obtain ⟨s, es, e, h⟩ := key
  refine ⟨es, hTn ▸ h.chain, h.dur, ?_, ?_⟩
  · exact (filter_of_split T _ _ _ h.zip (by simpa [hTn] using h.le)
      (by simpa only [hTn] using h.gt hn)).symm
  · rw [rIEII, pyDiv_ok hn0, ok_bind, e, ok_bind]
    obtain ⟨a, b, c⟩ := foldl_stepEv k θ σ z es ⟨0, 0, 0, v0, 0, 0, 0⟩
    have := h.eq
    simp only [St3.mk.injEq] at this
    rw [this.1, this.2.1, this.2.2.1, a, b, c]
    simp only [zero_add]
    rfl

/-! ### SRJD -/

theorem exp_lt_one {k τ : ℝ} (hk : 0 < k) (hτ : 0 < τ) : 0 < 1 - Real.exp (-k * τ) := by
  have : Real.exp (-k * τ) < 1 := Real.exp_zero ▸ Real.exp_lt_exp.2 (by nlinarith [mul_pos hk hτ])
  linarith

theorem rSRD_spec (k θ σ v τ : ℝ) (x : ℝ → ℝ → ℝ) (hk : 0 < k) (hθ : 0 < θ) (hσ : 0 < σ)
    (hv : 0 ≤ v) (hτ : 0 < τ) : rSRD v τ k θ σ x = .ok (cir k θ σ v τ x) := by
  have he := exp_lt_one hk hτ
  have hc : 0 < σ ^ 2 * (1 - Real.exp (-k * τ)) / (4 * k) := by positivity
  have hd : 0 < 4 * θ * k / σ ^ 2 := by positivity
  have hl : 0 ≤ v * Real.exp (-k * τ) / (σ ^ 2 * (1 - Real.exp (-k * τ)) / (4 * k)) := by
    have := Real.exp_pos (-k * τ)
    positivity
  rw [rSRD, pyDiv_ok (by positivity), ok_bind, pyDiv_ok (by positivity), ok_bind,
    pyDiv_ok hc.ne', ok_bind, ncx2, if_neg (by
      rintro (h | h)
      · exact absurd h (not_le.2 hd)
      · exact absurd h (not_lt.2 hl)), ok_bind]
  rfl

theorem cir_nonneg (k θ σ v τ : ℝ) (x : ℝ → ℝ → ℝ) (hk : 0 < k) (hτ : 0 < τ)
    (hx : ∀ d l, 0 ≤ x d l) : 0 ≤ cir k θ σ v τ x := by
  have he := exp_lt_one hk hτ
  unfold cir
  exact mul_nonneg (by positivity) (hx _ _)

theorem rSRD_zero (k θ σ v : ℝ) (x : ℝ → ℝ → ℝ) (hk : k ≠ 0) (hσ : σ ≠ 0) :
    rSRD v 0 k θ σ x = .error .zeroDivision := by
  rw [rSRD, pyDiv_ok (by positivity), ok_bind, pyDiv_ok (by simpa using hk), ok_bind]
  simp [pyDiv, error_bind]

/-- the time before the `j`-th jump -/
noncomputable def prev (ts : List ℝ) (j : ℕ) : ℝ := (0 :: ts).getD j 0

theorem pyGet_ok {α : Type} (l : List α) (i : ℕ) (h : i < l.length) :
    Utils.pyGet l i = .ok l[i] := by
  rw [Utils.pyGet, List.getElem?_eq_getElem h]

theorem diffs_spec (numJ : ℕ) (ts : List ℝ) (h : numJ ≤ ts.length) :
    diffs numJ ts = .ok ((List.range' 1 (numJ - 1)).map fun i => ts.getD i 0 - prev ts i) := by
  rw [diffs]
  apply mapM_ok
  intro i hi
  rw [List.mem_range'_1] at hi
  rw [pyGet_ok ts i (by omega), ok_bind, pyGet_ok ts (i - 1) (by omega), ok_bind]
  have : prev ts i = ts[i - 1]'(by omega) := by
    obtain ⟨m, rfl⟩ : ∃ m, i = m + 1 := ⟨i - 1, by omega⟩
    rw [prev, List.getD_cons_succ]
    simp only [Nat.add_sub_cancel]
    exact List.getD_eq_getElem _ _ _
  rw [this, List.getD_eq_getElem _ _ (by omega)]
  rfl

theorem gap_pos (ts : List ℝ) (h : (0 :: ts).Pairwise (· < ·)) (j : ℕ) (hj : j < ts.length) :
    0 < ts.getD j 0 - prev ts j := by
  have := List.pairwise_iff_getElem.1 h j (j + 1) (by simp; omega) (by simpa using hj) (by omega)
  rw [prev, List.getD_eq_getElem _ _ hj, List.getD_eq_getElem _ _ (by simp; omega)]
  simp only [List.getElem_cons_succ] at this
  linarith

theorem srjdSample_spec (v0 k θ σ T : ℝ) (js ts dt : List ℝ) (x : ℕ → ℝ → ℝ → ℝ) (hk : 0 < k)
    (hθ : 0 < θ) (hσ : 0 < σ) (hv : 0 ≤ v0) (hl : js.length = ts.length) (hne : ts ≠ [])
    (ht : (0 :: ts).Pairwise (· < ·)) (hJ : ∀ J ∈ js, 0 ≤ J) (hx : ∀ j d l, 0 ≤ x j d l)
    (hdt : ∀ j < ts.length, Utils.pyGet dt j = .ok (ts.getD j 0 - prev ts j)) :
    srjdSample v0 k θ σ T js ts dt x = .ok (srjd k θ σ T x (ts.zip js) 0 0 v0) := by
  have hlen : 0 < ts.length := List.length_pos_iff.2 hne
  obtain ⟨v, e, hv1, h⟩ := foldlM_range_inv (fun v j => (do
      let d ← Utils.pyGet dt j
      let r ← rSRD v d k θ σ (x j)
      let J ← Utils.pyGet js j
      pure (r + J) : Except PyErr ℝ))
    (fun j v => 0 ≤ v ∧ srjd k θ σ T x (ts.zip js) 0 0 v0 =
      srjd k θ σ T x ((ts.zip js).drop j) j (prev ts j) v) js.length v0
    ⟨hv, by simp [prev]⟩ (by
      rintro j hj v ⟨hv, hr⟩
      have hjt : j < ts.length := by omega
      have hg := gap_pos ts ht j hjt
      refine ⟨cir k θ σ v (ts.getD j 0 - prev ts j) (x j) + js[j], ?_, ?_, ?_⟩
      · simp only [hdt j hjt, ok_bind, rSRD_spec k θ σ v _ (x j) hk hθ hσ hv hg, pyGet_ok js j hj]
        rfl
      · exact add_nonneg (cir_nonneg k θ σ v _ _ hk hg (hx j)) (hJ _ (List.getElem_mem hj))
      · have hz : j < (ts.zip js).length := by rw [List.length_zip]; omega
        rw [hr, List.drop_eq_getElem_cons hz, List.getElem_zip, srjd]
        have hp : prev ts (j + 1) = ts[j] := by
          rw [prev, List.getD_cons_succ, List.getD_eq_getElem]
        rw [hp, List.getD_eq_getElem _ _ hjt])
  rw [srjdSample, e, ok_bind, pyGet_ok ts _ (by omega), ok_bind, h]
  rw [List.drop_eq_nil_of_le (by rw [List.length_zip]; omega), srjd]
  have hp : prev ts js.length = ts[ts.length - 1]'(by omega) := by
    have : js.length = (ts.length - 1) + 1 := by omega
    rw [this, prev, List.getD_cons_succ, List.getD_eq_getElem]
  rw [hp]
  by_cases hlt : ts[ts.length - 1]'(by omega) < T
  · rw [if_pos (by linarith), if_pos hlt, rSRD_spec k θ σ v _ _ hk hθ hσ hv1 (by linarith)]
  · rw [if_neg (by linarith), if_neg hlt]
    rfl

theorem rSRJD_spec (v0 k θ σ T : ℝ) (js ts : List ℝ) (N : ℕ) (x : ℕ → ℕ → ℝ → ℝ → ℝ) (hk : 0 < k)
    (hθ : 0 < θ) (hσ : 0 < σ) (hv : 0 ≤ v0) (hT : 0 < T) (hl : js.length = ts.length)
    (ht : (0 :: ts).Pairwise (· < ·)) (hJ : ∀ J ∈ js, 0 ≤ J) (hx : ∀ i j d l, 0 ≤ x i j d l) :
    rSRJD v0 k θ σ T js ts N x =
      .ok ((List.range N).map fun i => srjd k θ σ T (x i) (ts.zip js) 0 0 v0) := by
  rw [rSRJD]
  split_ifs with h0
  · obtain rfl : js = [] := by simpa using h0
    obtain rfl : ts = [] := by simpa using hl.symm
    apply mapM_ok
    intro i _
    rw [rSRD_spec k θ σ v0 T _ hk hθ hσ hv hT]
    simp [srjd, hT]
  · have hlen : 0 < ts.length := by omega
    rw [pyGet_ok ts 0 hlen, ok_bind, diffs_spec _ _ hl.le, ok_bind]
    apply mapM_ok
    intro i _
    apply srjdSample_spec v0 k θ σ T js ts _ (x i) hk hθ hσ hv hl (List.length_pos_iff.1 hlen) ht hJ
      (hx i)
    intro j hj
    rw [pyGet_ok _ _ (by simp; omega)]
    cases j with
    | zero =>
      rw [List.getD_eq_getElem _ _ hlen]
      simp [prev]
    | succ j => simp [Nat.add_comm]

end Ajd.Euler
