import Verif.Lemmas.Fsv2Inst
import Verif.Lemmas.Deriv

/-! `dt0`, `dpoly` of `mdl_2fsv`. -/

namespace Ajd.Fsv2
open Poly Itos

/-- the rate with the given number replaced -/
def setR (p : Par) (b : Bool) (s : ℝ) : Par := if b then { p with k2 := s } else { p with k1 := s }
def getR (p : Par) (b : Bool) : ℝ := if b then p.k2 else p.k1

theorem setR_getR (p : Par) (b : Bool) : setR p b (getR p b) = p := by cases b <;> rfl

/-- `t[0]` or `t[1]` -/
def numR (t : Den) (b : Bool) : ℤ := if b then t.2.1 else t.1

theorem rate_setR (p : Par) (b : Bool) (s : ℝ) (t : Den) :
    (t.1 : ℝ) * (setR p b s).k1 + t.2.1 * (setR p b s).k2 =
      numR t b * s + (if b then t.1 * p.k1 else t.2.1 * p.k2) := by
  cases b
  · simp [setR, numR]
  · simp [setR, numR]; ring

/-- the derivative of one denominator -/
noncomputable def dDn (p : Par) (b : Bool) (t : Den) : ℝ :=
  ((-t.2.2 * numR t b : ℤ) : ℝ) * dn p (t.1, t.2.1, t.2.2 + 1)

theorem hasDerivAt_dn (p : Par) (b : Bool) (t : Den)
    (h : t.2.2 = 0 ∨ (t.1 : ℝ) * p.k1 + t.2.1 * p.k2 ≠ 0) :
    HasDerivAt (fun s => dn (setR p b s) t) (dDn p b t) (getR p b) := by
  rcases h with h | h
  · have : (fun s => dn (setR p b s) t) = fun _ => 1 := by
      funext s; simp [dn, h]
    rw [this]
    exact (hasDerivAt_const _ _).congr_deriv (by simp [dDn, h])
  · have e : ∀ s, dn (setR p b s) t = (numR t b * s + (if b then t.1 * p.k1 else t.2.1 * p.k2)) ^ (-t.2.2) := by
      intro s; rw [dn, rate_setR]
    have e0 : (t.1 : ℝ) * p.k1 + t.2.1 * p.k2 =
        numR t b * getR p b + (if b then t.1 * p.k1 else t.2.1 * p.k2) := by
      have := rate_setR p b (getR p b) t
      rwa [setR_getR] at this
    simp only [e]
    have h1 : HasDerivAt (fun s : ℝ => numR t b * s + (if b then t.1 * p.k1 else t.2.1 * p.k2)) (numR t b : ℝ)
        (getR p b) := by
      simpa using ((hasDerivAt_id (getR p b)).const_mul (numR t b : ℝ)).add_const
        (if b then (t.1 : ℝ) * p.k1 else (t.2.1 : ℝ) * p.k2)
    have h2 := (hasDerivAt_zpow (-t.2.2) _ (Or.inl (e0 ▸ h))).comp (getR p b) h1
    refine h2.congr_deriv ?_
    rw [dDn, dn]
    dsimp only
    rw [e0, show -(t.2.2 + 1) = -t.2.2 - 1 by ring]
    push_cast
    ring

/-- the sum over the entries of `dt0` -/
noncomputable def sumDt0 (p : Par) (b : Bool) (l : List Den) : ℝ :=
  ((dt0 l b).map fun t => (t.2 : ℝ) * (t.1.map (dn p)).prod).sum

theorem sumDt0_cons (p : Par) (b : Bool) (a : Den) (l : List Den) :
    sumDt0 p b (a :: l) = dDn p b a * (l.map (dn p)).prod + dn p a * sumDt0 p b l := by
  simp only [sumDt0, dt0, List.length_cons, List.range_succ_eq_map, List.flatMap_cons, List.map_append,
    List.sum_append]
  congr 1
  · simp only [List.getD_cons_zero, List.set_cons_zero]
    have hd : dDn p b a = ((-a.2.2 * (if b then a.2.1 else a.1) : ℤ) : ℝ) * dn p (a.1, a.2.1, a.2.2 + 1) := rfl
    rw [hd]
    generalize (if b then a.2.1 else a.1) = N
    split_ifs with h2
    · simp; ring
    · by_cases h0 : a.2.2 = 0
      · simp [h0]
      · have : N = 0 := by simpa [h0] using h2
        simp [this]
  · rw [← List.sum_map_mul_left]
    simp only [List.flatMap_map, List.map_flatMap]
    congr 2
    funext i
    simp only [List.getD_cons_succ, Nat.succ_eq_add_one, List.set_cons_succ]
    generalize (if b then (l.getD i (0, 0, 0)).2.1 else (l.getD i (0, 0, 0)).1) = N
    split_ifs
    · simp; ring
    · simp

theorem hasDerivAt_dns (p : Par) (b : Bool) (l : List Den)
    (h : ∀ t ∈ l, t.2.2 = 0 ∨ (t.1 : ℝ) * p.k1 + t.2.1 * p.k2 ≠ 0) :
    HasDerivAt (fun s => (l.map (dn (setR p b s))).prod) (sumDt0 p b l) (getR p b) := by
  induction l with
  | nil => simpa [sumDt0, dt0] using hasDerivAt_const (getR p b) (1 : ℝ)
  | cons a l ih =>
    simp only [List.map_cons, List.prod_cons]
    refine ((hasDerivAt_dn p b a (h a (by simp))).mul (ih fun t ht => h t (by simp [ht]))).congr_deriv ?_
    rw [sumDt0_cons, setR_getR]

theorem hasDerivAt_exp (p : Par) (b : Bool) (e : ℤ × ℤ) :
    HasDerivAt (fun s => Real.exp (-(e.1 * (setR p b s).k1 + e.2 * (setR p b s).k2) * p.h))
      (-(((if b then e.2 else e.1) : ℤ) : ℝ) * p.h * Real.exp (-(e.1 * p.k1 + e.2 * p.k2) * p.h)) (getR p b) := by
  have h1 : HasDerivAt (fun s : ℝ => -(e.1 * (setR p b s).k1 + e.2 * (setR p b s).k2) * p.h)
      (-(((if b then e.2 else e.1) : ℤ) : ℝ) * p.h) (getR p b) := by
    cases b
    · simp only [setR, getR]
      have := ((((hasDerivAt_id p.k1).const_mul (e.1 : ℝ)).add_const ((e.2 : ℝ) * p.k2)).neg).mul_const p.h
      simpa using this
    · simp only [setR, getR]
      have := ((((hasDerivAt_id p.k2).const_mul (e.2 : ℝ)).const_add ((e.1 : ℝ) * p.k1)).neg).mul_const p.h
      simpa using this
  refine h1.exp.congr_deriv ?_
  rw [setR_getR]
  ring

theorem setR_h (p : Par) (b : Bool) (s : ℝ) : (setR p b s).h = p.h := by cases b <;> rfl

/-- the denominators do not vanish -/
theorem dens_ok (P : TPoly) (n : ℕ) (hP : P.Keys (TOK n)) (p : Par) (hz : ¬ ZeroDiv P p) (e : TKey × ℚ)
    (he : e ∈ P.items) (t : Den) (ht : t ∈ e.1.d) : t.2.2 = 0 ∨ (t.1 : ℝ) * p.k1 + t.2.1 * p.k2 ≠ 0 := by
  have := ((hP e he).2.1 t ht).1
  by_cases h : t.2.2 = 0
  · exact Or.inl h
  · right
    intro h0
    exact hz ⟨e, he, t, ht, h0, by omega⟩

theorem deriv_rate (p : Par) (kf : List String) (b : Bool) (n : ℕ) (hn : 0 < n) (B : List ℤ → ℝ)
    (hB : ∀ c a, B (c.modify 0 a) = B c) (P : TPoly) (hP : P.Keys (TOK n)) (hz : ¬ ZeroDiv P p) :
    HasDerivAt (fun s => ev (fun key => tv (setR p b s) key * (p.h ^ ix key.c 0 * B key.c)) P)
      (ev (fun key => tv p key * (p.h ^ ix key.c 0 * B key.c)) (dRate kf P b)) (getR p b) := by
  have hs : ev (fun key => tv p key * (p.h ^ ix key.c 0 * B key.c)) (dRate kf P b) =
      ev (fun key => (sumDt0 p b key.d * Real.exp (-(key.e.1 * p.k1 + key.e.2 * p.k2) * p.h) +
        (key.d.map (dn p)).prod * (-(((if b then key.e.2 else key.e.1) : ℤ) : ℝ) * p.h *
          Real.exp (-(key.e.1 * p.k1 + key.e.2 * p.k2) * p.h))) * (p.h ^ ix key.c 0 * B key.c)) P := by
    rw [dRate, ev_ofTerms, List.map_append, List.sum_append,
      ← ev_ofTerms (fun key => tv p key * (p.h ^ ix key.c 0 * B key.c)) kf,
      ← ev_ofTerms (fun key => tv p key * (p.h ^ ix key.c 0 * B key.c)) kf,
      ev_ofTerms_flatMap (fun key => tv p key * (p.h ^ ix key.c 0 * B key.c))
        (fun key => sumDt0 p b key.d * Real.exp (-(key.e.1 * p.k1 + key.e.2 * p.k2) * p.h) *
          (p.h ^ ix key.c 0 * B key.c)),
      ev_ofTerms_flatMap (fun key => tv p key * (p.h ^ ix key.c 0 * B key.c))
        (fun key => (key.d.map (dn p)).prod * (-(((if b then key.e.2 else key.e.1) : ℤ) : ℝ) * p.h *
          Real.exp (-(key.e.1 * p.k1 + key.e.2 * p.k2) * p.h)) * (p.h ^ ix key.c 0 * B key.c)), ← ev_add_fun]
    · apply ev_congr
      intro e _
      ring
    · intro e he
      obtain ⟨_, _, h3, h4⟩ := hP e he
      dsimp only
      generalize hN : (if b then e.1.e.2 else e.1.e.1) = N
      split_ifs with h0
      · simp only [List.map_cons, List.map_nil, List.sum_cons, List.sum_nil, add_zero, Rat.smul_def, hB, tv]
        rw [Fsv1.ix_modify_eq _ _ _ (by omega), zpow_add_nn p.h _ _ (h4 0) (by norm_num), zpow_one]
        push_cast
        ring
      · have : N = 0 := by simpa using h0
        simp [this]
    · intro e he
      simp only [List.map_map, Function.comp_def, Rat.smul_def, tv, sumDt0]
      rw [mul_assoc (List.sum _), ← List.sum_map_mul_right, ← List.sum_map_mul_left]
      congr 1
      apply List.map_congr_left
      intro t _
      push_cast
      ring
  rw [hs]
  apply hasDerivAt_ev
  intro e he
  have h1 := hasDerivAt_dns p b e.1.d (dens_ok P n hP p hz e he)
  have h2 := hasDerivAt_exp p b e.1.e
  refine ((h1.mul h2).mul_const (p.h ^ ix e.1.c 0 * B e.1.c)).congr_deriv ?_
    |>.congr_of_eventuallyEq (Filter.Eventually.of_forall fun s => ?_)
  · rw [setR_getR]
  · simp only [tv, setR_h, Pi.mul_apply]

theorem deriv_pow (p : Par) (kf : List String) (i n : ℕ) (hn : i < n) (F : ℝ → List ℤ → ℝ) (B : List ℤ → ℝ)
    (hF : ∀ s c, F s c = s ^ ix c i * B c) (hB : ∀ c a, B (c.modify i a) = B c) (P : TPoly)
    (hP : P.Keys (TOK n)) (s : ℝ) :
    HasDerivAt (fun s => ev (fun key => tv p key * F s key.c) P)
      (ev (fun key => tv p key * F s key.c) (dPow kf P i)) s := by
  rw [dPow, ev_ofTerms_flatMap (fun key => tv p key * F s key.c)
    (fun key => tv p key * (((ix key.c i : ℝ) * s ^ (ix key.c i - 1)) * B key.c))]
  · apply hasDerivAt_ev
    intro e he
    simp only [hF]
    exact ((hasDerivAt_zpow (ix e.1.c i) s (Or.inr ((hP e he).2.2.2 i))).mul_const _).const_mul _
  · intro e he
    obtain ⟨_, _, h3, _⟩ := hP e he
    split_ifs with h0
    · simp only [List.map_cons, List.map_nil, List.sum_cons, List.sum_nil, add_zero, hF, hB,
        Rat.smul_def, Fsv1.ix_modify_eq _ _ _ (show i < e.1.c.length by omega), tv]
      push_cast
      ring
    · have : ix e.1.c i = 0 := by simpa using h0
      simp [this]

/-! ### the denominators of the derivative -/

theorem zeroDiv_dRate (p : Par) (kf : List String) (b : Bool) (P : TPoly) (n : ℕ) (hP : P.Keys (TOK n))
    (hz : ¬ ZeroDiv P p) : ¬ ZeroDiv (dRate kf P b) p := by
  rintro ⟨e, he, t, ht, h0, h1⟩
  have hk : (dRate kf P b).Keys fun key => ∀ t ∈ key.d, ¬ ((t.1 : ℝ) * p.k1 + t.2.1 * p.k2 = 0 ∧ 0 < t.2.2) := by
    apply ofTerms_Keys
    intro y hy
    rw [List.mem_append] at hy
    rcases hy with hy | hy
    · obtain ⟨a, ha, hy⟩ := List.mem_flatMap.1 hy
      obtain ⟨u, hu, rfl⟩ := List.mem_map.1 hy
      obtain ⟨i, hi, hu⟩ := List.mem_flatMap.1 hu
      rw [List.mem_range] at hi
      intro t ht hc
      dsimp only at hu
      generalize hN : (if b then (a.1.d.getD i (0, 0, 0)).2.1 else (a.1.d.getD i (0, 0, 0)).1) = N at hu
      split_ifs at hu with hc'
      · simp only [List.mem_cons, List.not_mem_nil, or_false] at hu
        subst hu
        dsimp only at ht
        rcases List.mem_or_eq_of_mem_set ht with ht | rfl
        · exact hz ⟨a, ha, t, ht, hc⟩
        · have hmem : a.1.d.getD i (0, 0, 0) ∈ a.1.d := by
            rw [List.getD_eq_getElem _ _ hi]
            exact List.getElem_mem hi
          have := dens_ok P n hP p hz a ha _ hmem
          rcases this with h | h
          · exact hc'.1 h
          · exact h hc.1
      · simp at hu
    · obtain ⟨a, ha, hy⟩ := List.mem_flatMap.1 hy
      intro t ht hc
      dsimp only at hy
      generalize (if b then a.1.e.2 else a.1.e.1) = N at hy
      split_ifs at hy with hc'
      · simp only [List.mem_cons, List.not_mem_nil, or_false] at hy
        subst hy
        exact hz ⟨a, ha, t, ht, hc⟩
      · simp at hy
  exact hk e he t ht ⟨h0, h1⟩

theorem zeroDiv_dPow (p : Par) (kf : List String) (i : ℕ) (P : TPoly) (hz : ¬ ZeroDiv P p) :
    ¬ ZeroDiv (dPow kf P i) p := by
  rintro ⟨e, he, t, ht, h0, h1⟩
  have hk : (dPow kf P i).Keys fun key => ∀ t ∈ key.d, ¬ ((t.1 : ℝ) * p.k1 + t.2.1 * p.k2 = 0 ∧ 0 < t.2.2) := by
    apply ofTerms_Keys
    intro y hy
    obtain ⟨a, ha, hy⟩ := List.mem_flatMap.1 hy
    intro t ht hc
    split_ifs at hy with hc'
    · simp only [List.mem_cons, List.not_mem_nil, or_false] at hy
      subst hy
      exact hz ⟨a, ha, t, ht, hc⟩
    · simp at hy
  exact hk e he t ht ⟨h0, h1⟩

/-- no division by zero occurs in a neighbourhood either -/
theorem zeroDiv_near (P : TPoly) (n : ℕ) (hP : P.Keys (TOK n)) (p : Par) (hz : ¬ ZeroDiv P p) (b : Bool) :
    ∀ᶠ s in nhds (getR p b), ¬ ZeroDiv P (setR p b s) := by
  have hall : ∀ e ∈ P.items, ∀ t ∈ e.1.d, ∀ᶠ s in nhds (getR p b),
      ¬ ((t.1 : ℝ) * (setR p b s).k1 + t.2.1 * (setR p b s).k2 = 0 ∧ 0 < t.2.2) := by
    intro e he t ht
    rcases dens_ok P n hP p hz e he t ht with h | h
    · exact Filter.Eventually.of_forall fun s hs => by omega
    · have hc : ContinuousAt (fun s : ℝ => (t.1 : ℝ) * (setR p b s).k1 + t.2.1 * (setR p b s).k2) (getR p b) := by
        simp only [rate_setR]
        fun_prop
      have h' : (t.1 : ℝ) * (setR p b (getR p b)).k1 + t.2.1 * (setR p b (getR p b)).k2 ≠ 0 := by
        rw [setR_getR]; exact h
      exact (hc.eventually_ne h').mono fun s hs hh => hs hh.1
  have key : ∀ᶠ s in nhds (getR p b), ∀ e ∈ P.items, ∀ t ∈ e.1.d,
      ¬ ((t.1 : ℝ) * (setR p b s).k1 + t.2.1 * (setR p b s).k2 = 0 ∧ 0 < t.2.2) := by
    have hl : ∀ {α : Type} (l : List α) (Q : α → ℝ → Prop), (∀ a ∈ l, ∀ᶠ s in nhds (getR p b), Q a s) →
        ∀ᶠ s in nhds (getR p b), ∀ a ∈ l, Q a s := by
      intro α l Q
      induction l with
      | nil => intro _; simp
      | cons a l ih =>
        intro h
        filter_upwards [h a (by simp), ih fun a ha => h a (by simp [ha])] with s h1 h2
        intro b' hb
        rcases List.mem_cons.1 hb with rfl | hb
        · exact h1
        · exact h2 _ hb
    exact hl _ _ fun e he => hl _ _ fun t ht => hall e he t ht
  filter_upwards [key] with s hs
  rintro ⟨e, he, t, ht, h⟩
  exact hs e he t ht h

/-! ### dpoly -/

theorem isDeriv_rate (num : TPoly → Par → Except PyErr ℝ) (val : Par → TKey → ℝ)
    (hnum : ∀ P p, ¬ ZeroDiv P p → num P p = .ok (ev (val p) P)) (p : Par) (kf : List String) (b : Bool) (n : ℕ)
    (hn : 0 < n) (B : List ℤ → ℝ) (hB : ∀ c a, B (c.modify 0 a) = B c)
    (hv : ∀ s key, val (setR p b s) key = tv (setR p b s) key * (p.h ^ ix key.c 0 * B key.c))
    (P : TPoly) (hP : P.Keys (TOK n)) (hz : ¬ ZeroDiv P p) :
    IsDeriv (fun s => num P (setR p b s)) (num (dRate kf P b) p) (getR p b) := by
  refine ⟨_, fun s => ev (val (setR p b s)) P, hnum _ _ (zeroDiv_dRate p kf b P n hP hz), ?_, ?_⟩
  · filter_upwards [zeroDiv_near P n hP p hz b] with s hs
    exact hnum _ _ hs
  · have h1 : ∀ s, val (setR p b s) = fun key => tv (setR p b s) key * (p.h ^ ix key.c 0 * B key.c) :=
      fun s => funext (hv s)
    have h2 : val p = fun key => tv p key * (p.h ^ ix key.c 0 * B key.c) := by
      have := h1 (getR p b)
      rwa [setR_getR] at this
    rw [h2]
    simp only [h1]
    exact deriv_rate p kf b n hn B hB P hP hz

theorem isDeriv_pow (num : TPoly → Par → Except PyErr ℝ) (val : Par → TKey → ℝ)
    (hnum : ∀ P p, ¬ ZeroDiv P p → num P p = .ok (ev (val p) P)) (p : Par) (kf : List String) (i n : ℕ)
    (hn : i < n) (q : ℝ → Par) (s0 : ℝ) (hq : q s0 = p) (hk : ∀ s, (q s).k1 = p.k1 ∧ (q s).k2 = p.k2)
    (B : List ℤ → ℝ) (hB : ∀ c a, B (c.modify i a) = B c)
    (hv : ∀ s key, val (q s) key = tv p key * (s ^ ix key.c i * B key.c))
    (P : TPoly) (hP : P.Keys (TOK n)) (hz : ¬ ZeroDiv P p) :
    IsDeriv (fun s => num P (q s)) (num (dPow kf P i) p) s0 := by
  refine ⟨_, fun s => ev (val (q s)) P, hnum _ _ (zeroDiv_dPow p kf i P hz), ?_, ?_⟩
  · refine Filter.Eventually.of_forall fun s => hnum _ _ ?_
    rw [ZeroDiv, (hk s).1, (hk s).2]
    exact hz
  · have h1 : ∀ s, val (q s) = fun key => tv p key * (s ^ ix key.c i * B key.c) :=
      fun s => funext (hv s)
    have h2 : val p = fun key => tv p key * (s0 ^ ix key.c i * B key.c) := by
      have := h1 s0
      rwa [hq] at this
    rw [h2]
    simp only [h1]
    exact deriv_pow p kf i n hn _ B (fun _ _ => rfl) hB P hP s0

theorem dpoly_spec (P : TPoly) (hP : P.Keys (TOK 6)) (p : Par) (hz : ¬ ZeroDiv P p) (wrt : String) (hw : wrt ∈ wrts) :
    ∃ d, dpoly P wrt = .ok d ∧ IsDeriv (fun s => poly2num P (p.set wrt s)) (poly2num d p) (p.get wrt) := by
  simp only [wrts, List.mem_cons, List.not_mem_nil, or_false] at hw
  rcases hw with rfl | rfl | rfl | rfl | rfl | rfl | rfl
  · exact ⟨_, by simp [dpoly]; rfl, isDeriv_rate poly2num mVal poly2num_eq p kfM false 6 (by norm_num)
      (fun c => p.μ ^ ix c 1 * (p.θ1 ^ ix c 2 * p.σ1 ^ ix c 3) * (p.θ2 ^ ix c 4 * p.σ2 ^ ix c 5))
      (fun c a => by simp [Fsv1.ix_modify_ne]) (fun s key => by simp only [mVal, mC, setR, Bool.false_eq_true, if_true, if_false]; ring) P hP hz⟩
  · exact ⟨_, by simp [dpoly]; rfl, isDeriv_rate poly2num mVal poly2num_eq p kfM true 6 (by norm_num)
      (fun c => p.μ ^ ix c 1 * (p.θ1 ^ ix c 2 * p.σ1 ^ ix c 3) * (p.θ2 ^ ix c 4 * p.σ2 ^ ix c 5))
      (fun c a => by simp [Fsv1.ix_modify_ne]) (fun s key => by simp only [mVal, mC, setR, Bool.false_eq_true, if_true, if_false]; ring) P hP hz⟩
  · exact ⟨_, by simp [dpoly]; rfl, isDeriv_pow poly2num mVal poly2num_eq p kfM 1 6 (by norm_num)
      (fun s => { p with μ := s }) p.μ rfl (fun _ => ⟨rfl, rfl⟩)
      (fun c => p.h ^ ix c 0 * (p.θ1 ^ ix c 2 * p.σ1 ^ ix c 3) * (p.θ2 ^ ix c 4 * p.σ2 ^ ix c 5))
      (fun c a => by simp [Fsv1.ix_modify_ne]) (fun s key => by rw [mVal, show tv { p with μ := s } key = tv p key from rfl, mC]; ring) P hP hz⟩
  · exact ⟨_, by simp [dpoly]; rfl, isDeriv_pow poly2num mVal poly2num_eq p kfM 2 6 (by norm_num)
      (fun s => { p with θ1 := s }) p.θ1 rfl (fun _ => ⟨rfl, rfl⟩)
      (fun c => p.h ^ ix c 0 * p.μ ^ ix c 1 * p.σ1 ^ ix c 3 * (p.θ2 ^ ix c 4 * p.σ2 ^ ix c 5))
      (fun c a => by simp [Fsv1.ix_modify_ne]) (fun s key => by rw [mVal, show tv { p with θ1 := s } key = tv p key from rfl, mC]; ring) P hP hz⟩
  · exact ⟨_, by simp [dpoly]; rfl, isDeriv_pow poly2num mVal poly2num_eq p kfM 3 6 (by norm_num)
      (fun s => { p with σ1 := s }) p.σ1 rfl (fun _ => ⟨rfl, rfl⟩)
      (fun c => p.h ^ ix c 0 * p.μ ^ ix c 1 * p.θ1 ^ ix c 2 * (p.θ2 ^ ix c 4 * p.σ2 ^ ix c 5))
      (fun c a => by simp [Fsv1.ix_modify_ne]) (fun s key => by rw [mVal, show tv { p with σ1 := s } key = tv p key from rfl, mC]; ring) P hP hz⟩
  · exact ⟨_, by simp [dpoly]; rfl, isDeriv_pow poly2num mVal poly2num_eq p kfM 4 6 (by norm_num)
      (fun s => { p with θ2 := s }) p.θ2 rfl (fun _ => ⟨rfl, rfl⟩)
      (fun c => p.h ^ ix c 0 * p.μ ^ ix c 1 * (p.θ1 ^ ix c 2 * p.σ1 ^ ix c 3) * p.σ2 ^ ix c 5)
      (fun c a => by simp [Fsv1.ix_modify_ne]) (fun s key => by rw [mVal, show tv { p with θ2 := s } key = tv p key from rfl, mC]; ring) P hP hz⟩
  · exact ⟨_, by simp [dpoly]; rfl, isDeriv_pow poly2num mVal poly2num_eq p kfM 5 6 (by norm_num)
      (fun s => { p with σ2 := s }) p.σ2 rfl (fun _ => ⟨rfl, rfl⟩)
      (fun c => p.h ^ ix c 0 * p.μ ^ ix c 1 * (p.θ1 ^ ix c 2 * p.σ1 ^ ix c 3) * p.θ2 ^ ix c 4)
      (fun c a => by simp [Fsv1.ix_modify_ne]) (fun s key => by rw [mVal, show tv { p with σ2 := s } key = tv p key from rfl, mC]; ring) P hP hz⟩

theorem dpolyC_spec (P : TPoly) (hP : P.Keys (TOK 5)) (p : Par) (hz : ¬ ZeroDiv P p) (wrt : String) (hw : wrt ∈ wrts) :
    ∃ d, dpolyC P wrt = .ok d ∧ IsDeriv (fun s => poly2numC P (p.set wrt s)) (poly2numC d p) (p.get wrt) := by
  simp only [wrts, List.mem_cons, List.not_mem_nil, or_false] at hw
  rcases hw with rfl | rfl | rfl | rfl | rfl | rfl | rfl
  · exact ⟨_, by simp [dpolyC]; rfl, isDeriv_rate poly2numC cVal poly2numC_eq p kfC false 5 (by norm_num)
      (fun c => (p.θ1 ^ ix c 1 * p.σ1 ^ ix c 2) * (p.θ2 ^ ix c 3 * p.σ2 ^ ix c 4))
      (fun c a => by simp [Fsv1.ix_modify_ne]) (fun s key => by simp only [cVal, cC', setR, Bool.false_eq_true, if_true, if_false]; ring) P hP hz⟩
  · exact ⟨_, by simp [dpolyC]; rfl, isDeriv_rate poly2numC cVal poly2numC_eq p kfC true 5 (by norm_num)
      (fun c => (p.θ1 ^ ix c 1 * p.σ1 ^ ix c 2) * (p.θ2 ^ ix c 3 * p.σ2 ^ ix c 4))
      (fun c a => by simp [Fsv1.ix_modify_ne]) (fun s key => by simp only [cVal, cC', setR, Bool.false_eq_true, if_true, if_false]; ring) P hP hz⟩
  · refine ⟨_, by simp [dpolyC]; rfl, 0, fun _ => ev (cVal p) P, ?_, ?_, hasDerivAt_const _ _⟩
    · rw [poly2numC_eq _ _ (by simp [ZeroDiv])]; simp [ev]
    · exact Filter.Eventually.of_forall fun s => poly2numC_eq P { p with μ := s } hz
  · exact ⟨_, by simp [dpolyC]; rfl, isDeriv_pow poly2numC cVal poly2numC_eq p kfC 1 5 (by norm_num)
      (fun s => { p with θ1 := s }) p.θ1 rfl (fun _ => ⟨rfl, rfl⟩)
      (fun c => p.h ^ ix c 0 * p.σ1 ^ ix c 2 * (p.θ2 ^ ix c 3 * p.σ2 ^ ix c 4))
      (fun c a => by simp [Fsv1.ix_modify_ne]) (fun s key => by rw [cVal, show tv { p with θ1 := s } key = tv p key from rfl, cC']; ring) P hP hz⟩
  · exact ⟨_, by simp [dpolyC]; rfl, isDeriv_pow poly2numC cVal poly2numC_eq p kfC 2 5 (by norm_num)
      (fun s => { p with σ1 := s }) p.σ1 rfl (fun _ => ⟨rfl, rfl⟩)
      (fun c => p.h ^ ix c 0 * p.θ1 ^ ix c 1 * (p.θ2 ^ ix c 3 * p.σ2 ^ ix c 4))
      (fun c a => by simp [Fsv1.ix_modify_ne]) (fun s key => by rw [cVal, show tv { p with σ1 := s } key = tv p key from rfl, cC']; ring) P hP hz⟩
  · exact ⟨_, by simp [dpolyC]; rfl, isDeriv_pow poly2numC cVal poly2numC_eq p kfC 3 5 (by norm_num)
      (fun s => { p with θ2 := s }) p.θ2 rfl (fun _ => ⟨rfl, rfl⟩)
      (fun c => p.h ^ ix c 0 * (p.θ1 ^ ix c 1 * p.σ1 ^ ix c 2) * p.σ2 ^ ix c 4)
      (fun c a => by simp [Fsv1.ix_modify_ne]) (fun s key => by rw [cVal, show tv { p with θ2 := s } key = tv p key from rfl, cC']; ring) P hP hz⟩
  · exact ⟨_, by simp [dpolyC]; rfl, isDeriv_pow poly2numC cVal poly2numC_eq p kfC 4 5 (by norm_num)
      (fun s => { p with σ2 := s }) p.σ2 rfl (fun _ => ⟨rfl, rfl⟩)
      (fun c => p.h ^ ix c 0 * (p.θ1 ^ ix c 1 * p.σ1 ^ ix c 2) * p.θ2 ^ ix c 3)
      (fun c a => by simp [Fsv1.ix_modify_ne]) (fun s key => by rw [cVal, show tv { p with σ2 := s } key = tv p key from rfl, cC']; ring) P hP hz⟩

theorem dpoly_error (P : TPoly) (wrt : String) (hw : wrt ∉ wrts) :
    dpoly P wrt = .error .valueError ∧ dpolyC P wrt = .error .valueError := by
  simp only [wrts, List.mem_cons, List.not_mem_nil, or_false, not_or] at hw
  obtain ⟨h1, h2, h3, h4, h5, h6, h7⟩ := hw
  simp [dpoly, dpolyC, h1, h2, h3, h4, h5, h6, h7]

end Ajd.Fsv2
