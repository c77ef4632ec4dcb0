import Verif.Model.Cpp
import Verif.Lemmas.PolyOn
import Verif.Lemmas.Utils
import Verif.Lemmas.Gauss
import Mathlib.Analysis.Calculus.Deriv.Pow

namespace Ajd.Cpp
open Poly Utils Real

/-! ### `mnorm` -/

/-- normal MGF -/
noncomputable def nM (μ v : ℝ) (t : ℝ) : ℝ := exp (μ * t + v * t ^ 2 / 2)

/-- `M^{(n)}` -/
noncomputable def nD (μ v : ℝ) (n : ℕ) (t : ℝ) : ℝ := iteratedDeriv n (nM μ v) t

theorem nM_contDiff (μ v : ℝ) : ContDiff ℝ ⊤ (nM μ v) := by unfold nM; fun_prop

theorem nD_hasDerivAt (μ v : ℝ) (n : ℕ) (t : ℝ) :
    HasDerivAt (nD μ v n) (nD μ v (n + 1) t) t := by
  have e : nD μ v n = iteratedDeriv n (nM μ v) := rfl
  rw [e, nD, iteratedDeriv_succ]
  exact (((nM_contDiff μ v).differentiable_iteratedDeriv n
    (by exact_mod_cast WithTop.coe_lt_top _)) t).hasDerivAt

/-- interpretation of a `dmgf` key at `s` -/
noncomputable def nI (μ v s : ℝ) (k : List ℤ) : ℝ :=
  (μ + v * s) ^ (ix k 0).toNat * v ^ (ix k 1).toNat

theorem nM_hasDerivAt (μ v t : ℝ) : HasDerivAt (nM μ v) (nM μ v t * (μ + v * t)) t := by
  unfold nM
  apply HasDerivAt.exp
  have := ((hasDerivAt_id t).const_mul μ).add ((((hasDerivAt_id t).pow 2).const_mul v).div_const 2)
  have this' : HasDerivAt (fun t : ℝ => μ * t + v * t ^ 2 / 2)
      (μ * 1 + v * ((2 : ℕ) * t ^ (2 - 1) * 1) / 2) t := this
  exact this'.congr_deriv (by norm_num; ring)

theorem nI_hasDerivAt (μ v s : ℝ) (k : List ℤ) :
    HasDerivAt (fun s => nI μ v s k)
      ((ix k 0).toNat * (μ + v * s) ^ ((ix k 0).toNat - 1) * v * v ^ (ix k 1).toNat) s := by
  unfold nI
  have h1 : HasDerivAt (fun t : ℝ => μ + v * t) v s := by
    have := ((hasDerivAt_id s).const_mul v).const_add μ
    simpa using this
  exact (h1.pow _).mul_const _

theorem dmgf_terms_keys (e : List ℤ × ℚ) (h : NN 2 e.1) : ∀ x ∈ dmgfTerms e, NN 2 x.1 := by
  intro x hx
  have h0 := h.2 0
  have h1 := h.2 1
  have key : ∀ a b : ℤ, 0 ≤ a → 0 ≤ b → NN 2 [a, b] := by
    intro a b ha hb
    refine ⟨rfl, fun i => ?_⟩
    match i with
    | 0 => exact ha
    | 1 => exact hb
    | n + 2 => simp
  unfold dmgfTerms at hx
  rcases List.mem_cons.1 hx with rfl | hx
  · exact key _ _ (by omega) h1
  · split at hx
    · simp only [List.mem_singleton] at hx
      subst hx
      exact key _ _ (by omega) (by omega)
    · simp at hx

theorem dmgf_keys (p : IPoly) (h : p.Keys (NN 2)) : (dmgf p).Keys (NN 2) := by
  apply ofTerms_Keys
  intro x hx
  obtain ⟨e, he, hx⟩ := List.mem_flatMap.1 hx
  exact dmgf_terms_keys e (h e he) x hx

theorem mnormNat_keys (n : ℕ) : (mnormNat n).Keys (NN 2) := by
  induction n using Nat.strong_induction_on with
  | _ n ih =>
    match n with
    | 0 => intro x hx; simp [mnormNat] at hx; subst hx; exact ⟨rfl, fun i => by
        match i with
        | 0 => simp
        | 1 => simp
        | n + 2 => simp⟩
    | 1 => intro x hx; simp [mnormNat] at hx; subst hx; exact ⟨rfl, fun i => by
        match i with
        | 0 => simp
        | 1 => simp
        | n + 2 => simp⟩
    | n + 2 => exact dmgf_keys _ (ih (n + 1) (by omega))

theorem mnormNat_keyfor (n : ℕ) : (mnormNat n).keyfor = ["mu", "sigma^2"] := by
  match n with
  | 0 => rfl
  | 1 => rfl
  | n + 2 => simp [mnormNat, dmgf]

theorem mnormNat_WF (n : ℕ) : (mnormNat n).WF := by
  match n with
  | 0 => simp [mnormNat, WF]
  | 1 => simp [mnormNat, WF]
  | n + 2 => exact ofTerms_WF _ _

/-- differentiating `M(s) * P(μ + v s, v)` -/
theorem ev_dmgf (μ v s : ℝ) (p : IPoly) (hp : p.Keys (NN 2)) :
    ev (nI μ v s) (dmgf p) = (μ + v * s) * ev (nI μ v s) p + ev (fun k : List ℤ =>
      (ix k 0).toNat * (μ + v * s) ^ ((ix k 0).toNat - 1) * v * v ^ (ix k 1).toNat) p := by
  rw [dmgf, ← ev_mul_const, ← ev_add_fun]
  apply ev_ofTerms_flatMap
  intro e he
  obtain ⟨hl, hnn⟩ := hp e he
  have h0 := hnn 0
  have h1 := hnn 1
  obtain ⟨a, ha⟩ := Int.eq_ofNat_of_zero_le h0
  obtain ⟨b, hb⟩ := Int.eq_ofNat_of_zero_le h1
  unfold dmgfTerms
  rw [ha, hb]
  rcases Nat.eq_zero_or_pos a with h | h
  · subst h
    simp only [nI, ha, hb]
    simp [Rat.smul_def]
  · obtain ⟨c, rfl⟩ : ∃ c, a = c + 1 := ⟨a - 1, by omega⟩
    rw [if_pos (by push_cast; omega)]
    have e1 : (((c + 1 : ℕ) : ℤ) + 1).toNat = c + 2 := by omega
    have e2 : (((c + 1 : ℕ) : ℤ) - 1).toNat = c := by omega
    have e3 : ((b : ℤ) + 1).toNat = b + 1 := by omega
    have e4 : ((c + 1 : ℕ) : ℤ).toNat = c + 1 := by omega
    have e5 : (b : ℤ).toNat = b := by omega
    have e6 : (((c + 1 : ℕ) : ℤ) : ℚ) = (c : ℚ) + 1 := by push_cast; ring
    simp only [List.map_cons, List.map_nil, List.sum_cons, List.sum_nil, nI, ix_cons_zero,
      ix_cons_succ, ha, hb, e1, e2, e3, e4, e5, e6, Rat.smul_def]
    simp only [Nat.add_sub_cancel]
    push_cast
    ring

theorem nD_eq (μ v : ℝ) (n : ℕ) : ∀ s, nD μ v n s = nM μ v s * ev (nI μ v s) (mnormNat n) := by
  induction n using Nat.strong_induction_on with
  | _ n ih =>
    match n with
    | 0 => intro s; simp [nD, mnormNat, ev, nI]
    | 1 =>
      intro s
      rw [nD, iteratedDeriv_one, (nM_hasDerivAt μ v s).deriv]
      simp [mnormNat, ev, nI]
    | n + 2 =>
      intro s
      have hd := nD_hasDerivAt μ v (n + 1) s
      have he : nD μ v (n + 1) = fun s => nM μ v s * ev (nI μ v s) (mnormNat (n + 1)) :=
        funext (ih (n + 1) (by omega))
      rw [he] at hd
      have h2 := (nM_hasDerivAt μ v s).mul
        (hasDerivAt_ev (fun s => nI μ v s) (fun k : List ℤ =>
          (ix k 0).toNat * (μ + v * s) ^ ((ix k 0).toNat - 1) * v * v ^ (ix k 1).toNat)
          (mnormNat (n + 1)) s fun e _ => nI_hasDerivAt μ v s e.1)
      rw [hd.unique h2, mnormNat, ev_dmgf _ _ _ _ (mnormNat_keys (n + 1))]
      ring

theorem mono_two (x : ℕ → ℝ) (k : List ℤ) (h : NN 2 k) :
    mono x k = x 0 ^ (ix k 0).toNat * x 1 ^ (ix k 1).toNat := by
  unfold mono
  rw [h.1, Finset.prod_range_succ, Finset.prod_range_one]
  have h0 := h.2 0
  have h1 := h.2 1
  rw [← zpow_natCast, ← zpow_natCast, Int.toNat_of_nonneg h0, Int.toNat_of_nonneg h1]
  rfl

theorem ev_mnormNat (x : ℕ → ℝ) (n : ℕ) : ev (mono x) (mnormNat n) = nD (x 0) (x 1) n 0 := by
  rw [nD_eq]
  have : nM (x 0) (x 1) 0 = 1 := by simp [nM]
  rw [this, one_mul]
  apply ev_congr
  intro e he
  rw [mono_two x _ (mnormNat_keys n e he), nI]
  simp

/-! ### `dmgf_cpp` -/

/-- the pairs of a key: all derivative orders and multiplicities at least 1 -/
def PairsOK (ps : List (ℤ × ℤ)) : Prop := ∀ p ∈ ps, 1 ≤ p.1 ∧ 1 ≤ p.2

def CKey (k : Key) : Prop := 0 ≤ k.1 ∧ k.2 ≠ [] ∧ PairsOK k.2

/-- `∏ (M^{(n_j)}(s))^{m_j}` -/
noncomputable def pv (D : ℕ → ℝ) (ps : List (ℤ × ℤ)) : ℝ :=
  (ps.map fun p => D p.1.toNat ^ p.2.toNat).prod

noncomputable def cI (Λ : ℝ) (D : ℕ → ℝ) (k : Key) : ℝ := Λ ^ k.1.toNat * pv D k.2

@[simp] theorem pv_nil (D : ℕ → ℝ) : pv D [] = 1 := rfl
@[simp] theorem pv_cons (D : ℕ → ℝ) (p : ℤ × ℤ) (ps : List (ℤ × ℤ)) :
    pv D (p :: ps) = D p.1.toNat ^ p.2.toNat * pv D ps := rfl
@[simp] theorem pv_append (D : ℕ → ℝ) (a b : List (ℤ × ℤ)) : pv D (a ++ b) = pv D a * pv D b := by
  simp [pv]

theorem d1TimesKey_spec (Λ : ℝ) (D : ℕ → ℝ) (k : Key) (h : CKey k) :
    ∃ k', d1TimesKey k = .ok k' ∧ CKey k' ∧ cI Λ D k' = Λ * D 1 * cI Λ D k := by
  obtain ⟨i, ps⟩ := k
  obtain ⟨h0, h1, h2⟩ := h
  simp only at h0 h1 h2
  match ps, h1, h2 with
  | (n1, m1) :: t, _, h2 =>
    have hp := h2 (n1, m1) (by simp)
    have ei : (i + 1).toNat = i.toNat + 1 := by omega
    have em : (m1 + 1).toNat = m1.toNat + 1 := by simp only at hp; omega
    by_cases hn : n1 = 1
    · subst hn
      refine ⟨(i + 1, (1, m1 + 1) :: t), by simp [d1TimesKey], ⟨?_, by simp, ?_⟩, ?_⟩
      · simp only; omega
      · intro p hp'
        rcases List.mem_cons.1 hp' with rfl | hp'
        · simp only at hp ⊢; omega
        · exact h2 p (by simp [hp'])
      · simp only [cI, pv_cons, ei, em]
        simp only [Int.toNat_one, pow_succ]; ring
    · refine ⟨(i + 1, (1, 1) :: (n1, m1) :: t), by simp [d1TimesKey, hn], ⟨?_, by simp, ?_⟩, ?_⟩
      · simp only; omega
      · intro p hp'
        rcases List.mem_cons.1 hp' with rfl | hp'
        · simp
        · exact h2 p hp'
      · simp only [cI, pv_cons, ei]
        simp only [Int.toNat_one, pow_succ]; ring

/-- what follows the pair at position `j` in the key computed by `dterm` -/
def tailKey (n : ℤ) : List (ℤ × ℤ) → List (ℤ × ℤ)
  | [] => [(n + 1, 1)]
  | (nn, mn) :: t' => if nn = n + 1 then (nn, mn + 1) :: t' else (n + 1, 1) :: (nn, mn) :: t'

/-- the key computed by `dterm`, in terms of what stands before and after position `j` -/
theorem dtermKey_eq (pre t : List (ℤ × ℤ)) (n m : ℤ) :
    dtermKey (pre ++ (n, m) :: t) pre.length n m =
      pre ++ (if m - 1 = 0 then [] else [(n, m - 1)]) ++
        tailKey n t := by
  have hset : (pre ++ (n, m) :: t).set pre.length (n, m - 1) = pre ++ (n, m - 1) :: t := by
    rw [List.set_append_right _ _ le_rfl]; simp
  have fin : ∀ s : List (ℤ × ℤ), (match (pre ++ (n, m - 1) :: s)[pre.length]? with
      | some (_, m') => if m' = 0 then (pre ++ (n, m - 1) :: s).eraseIdx pre.length
          else pre ++ (n, m - 1) :: s
      | none => pre ++ (n, m - 1) :: s) = pre ++ (if m - 1 = 0 then [] else [(n, m - 1)]) ++ s := by
    intro s
    have : (pre ++ (n, m - 1) :: s)[pre.length]? = some (n, m - 1) := by simp
    rw [this]
    simp only
    split
    · rw [List.eraseIdx_append_of_length_le le_rfl]; simp
    · simp
  unfold dtermKey
  simp only [hset]
  match t with
  | [] =>
    rw [if_neg (by simp), tailKey]
    have : pre ++ [(n, m - 1)] ++ [(n + 1, 1)] = pre ++ (n, m - 1) :: [(n + 1, (1 : ℤ))] := by simp
    rw [this]
    exact fin [(n + 1, 1)]
  | (nn, mn) :: t' =>
    rw [if_pos (by simp)]
    have hg : (pre ++ (n, m) :: (nn, mn) :: t')[pre.length + 1]? = some (nn, mn) := by
      rw [List.getElem?_append_right (by omega)]; simp
    rw [hg]
    simp only [tailKey]
    by_cases hn : nn = n + 1
    · rw [if_pos hn, if_pos hn]
      have : (pre ++ (n, m - 1) :: (nn, mn) :: t').set (pre.length + 1) (nn, mn + 1) =
          pre ++ (n, m - 1) :: (nn, mn + 1) :: t' := by
        rw [List.set_append_right _ _ (by omega)]; simp
      rw [this]
      exact fin _
    · rw [if_neg hn, if_neg hn]
      have : (pre ++ (n, m - 1) :: (nn, mn) :: t').insertIdx (pre.length + 1) (n + 1, 1) =
          pre ++ (n, m - 1) :: (n + 1, 1) :: (nn, mn) :: t' := by
        clear hset fin hg
        induction pre with
        | nil => simp
        | cons a l ih => simpa using ih
      rw [this]
      exact fin _

theorem dtermKey_ok (pre t : List (ℤ × ℤ)) (n m : ℤ) (h : PairsOK (pre ++ (n, m) :: t)) :
    dtermKey (pre ++ (n, m) :: t) pre.length n m ≠ [] ∧
      PairsOK (dtermKey (pre ++ (n, m) :: t) pre.length n m) := by
  rw [dtermKey_eq]
  have hnm := h (n, m) (by simp)
  simp only at hnm
  constructor
  · have : tailKey n t ≠ [] := by
      unfold tailKey
      split
      · simp
      · split <;> simp
    simp [this]
  · intro p hp
    rw [List.mem_append, List.mem_append] at hp
    rcases hp with (hp | hp) | hp
    · exact h p (by simp [hp])
    · split at hp
      · simp at hp
      · simp only [List.mem_singleton] at hp; subst hp; simp only; omega
    · match t, h, hp with
      | [], h, hp => simp only [tailKey, List.mem_singleton] at hp; subst hp; simp only; omega
      | (nn, mn) :: t', h, hp =>
        have h2 := h (nn, mn) (by simp)
        simp only [tailKey] at h2 hp
        split at hp
        · rcases List.mem_cons.1 hp with rfl | hp
          · simp only; omega
          · exact h p (by simp [hp])
        · rcases List.mem_cons.1 hp with rfl | hp
          · simp only; omega
          · exact h p (by simp [hp])

theorem pv_dtermKey (D : ℕ → ℝ) (pre t : List (ℤ × ℤ)) (n m : ℤ)
    (h : PairsOK (pre ++ (n, m) :: t)) :
    pv D (dtermKey (pre ++ (n, m) :: t) pre.length n m) =
      pv D pre * (D n.toNat ^ (m.toNat - 1) * D (n.toNat + 1) * pv D t) := by
  rw [dtermKey_eq, pv_append, pv_append]
  have hnm := h (n, m) (by simp)
  simp only at hnm
  have en : (n + 1).toNat = n.toNat + 1 := by omega
  have em : (m - 1).toNat = m.toNat - 1 := by omega
  have e1 : pv D (if m - 1 = 0 then [] else [(n, m - 1)]) = D n.toNat ^ (m.toNat - 1) := by
    split
    · have : m.toNat - 1 = 0 := by omega
      simp [this]
    · simp [em]
  have e2 : pv D (tailKey n t)
      = D (n.toNat + 1) * pv D t := by
    match t, h with
    | [], _ => simp [tailKey, en]
    | (nn, mn) :: t', h =>
      have h2 := h (nn, mn) (by simp)
      simp only [tailKey] at h2 ⊢
      split
      · rename_i hn
        have : (mn + 1).toNat = mn.toNat + 1 := by omega
        simp only [pv_cons, this, hn, en, pow_succ]; ring
      · simp [en]
  rw [e1, e2]; ring

/-- Leibniz rule for `∏ (M^{(n_j)})^{m_j}` -/
noncomputable def pd (D : ℕ → ℝ) : List (ℤ × ℤ) → ℝ
  | [] => 0
  | (n, m) :: t => m.toNat * D n.toNat ^ (m.toNat - 1) * D (n.toNat + 1) * pv D t +
      D n.toNat ^ m.toNat * pd D t

theorem pv_hasDerivAt (D : ℕ → ℝ → ℝ) (hD : ∀ n s, HasDerivAt (D n) (D (n + 1) s) s)
    (ps : List (ℤ × ℤ)) (s : ℝ) :
    HasDerivAt (fun s => pv (fun n => D n s) ps) (pd (fun n => D n s) ps) s := by
  induction ps with
  | nil => simpa [pd] using hasDerivAt_const s (1 : ℝ)
  | cons p t ih =>
    obtain ⟨n, m⟩ := p
    simp only [pv_cons, pd]
    exact ((hD n.toNat s).pow m.toNat).mul ih

theorem dterm_sum (D : ℕ → ℝ) (pre suf : List (ℤ × ℤ)) (h : PairsOK (pre ++ suf)) :
    ((List.range suf.length).map fun j =>
      (((pre ++ suf).getD (pre.length + j) (0, 0)).2 : ℝ) *
        pv D (dtermKey (pre ++ suf) (pre.length + j) ((pre ++ suf).getD (pre.length + j) (0, 0)).1
          ((pre ++ suf).getD (pre.length + j) (0, 0)).2)).sum = pv D pre * pd D suf := by
  induction suf generalizing pre with
  | nil => simp [pd]
  | cons p t ih =>
    obtain ⟨n, m⟩ := p
    have := ih (pre ++ [(n, m)]) (by simpa using h)
    rw [List.length_cons, List.range_succ_eq_map, List.map_cons, List.sum_cons, List.map_map]
    have e : pre ++ [(n, m)] ++ t = pre ++ (n, m) :: t := by simp
    rw [e] at this
    have e2 : ((fun j : ℕ => (((pre ++ (n, m) :: t).getD (pre.length + j) (0, 0)).2 : ℝ) *
        pv D (dtermKey (pre ++ (n, m) :: t) (pre.length + j)
          ((pre ++ (n, m) :: t).getD (pre.length + j) (0, 0)).1
          ((pre ++ (n, m) :: t).getD (pre.length + j) (0, 0)).2)) ∘ Nat.succ) =
        fun j : ℕ => (((pre ++ (n, m) :: t).getD ((pre ++ [(n, m)]).length + j) (0, 0)).2 : ℝ) *
        pv D (dtermKey (pre ++ (n, m) :: t) ((pre ++ [(n, m)]).length + j)
          ((pre ++ (n, m) :: t).getD ((pre ++ [(n, m)]).length + j) (0, 0)).1
          ((pre ++ (n, m) :: t).getD ((pre ++ [(n, m)]).length + j) (0, 0)).2) := by
      funext j
      have : pre.length + j.succ = (pre ++ [(n, m)]).length + j := by simp; omega
      simp only [Function.comp]
      rw [this]
    rw [e2, this]
    have e3 : (pre ++ (n, m) :: t).getD (pre.length + 0) (0, 0) = (n, m) := by
      simp [List.getD_eq_getElem?_getD]
    rw [e3]
    simp only [Nat.add_zero]
    rw [pv_dtermKey D pre t n m h]
    have hm : 1 ≤ m := (h (n, m) (by simp)).2
    have hm' : (m : ℝ) = (m.toNat : ℝ) := by
      have : (m.toNat : ℤ) = m := by omega
      exact_mod_cast this.symm
    rw [hm', pd, pv_append]
    simp only [pv_cons, pv_nil]
    ring

theorem dterm_keys (k : Key) (c : ℚ) (h : CKey k) : (dterm k c).Keys CKey := by
  apply ofTerms_Keys
  intro x hx
  obtain ⟨j, hj, rfl⟩ := List.mem_map.1 hx
  rw [List.mem_range] at hj
  have hsplit : k.2 = k.2.take j ++ k.2[j] :: k.2.drop (j + 1) := by
    rw [List.getElem_cons_drop, List.take_append_drop]
  have hg : k.2.getD j (0, 0) = k.2[j] := by
    simp [List.getD_eq_getElem?_getD, List.getElem?_eq_getElem hj]
  have hlen : (k.2.take j).length = j := by simp; omega
  have := dtermKey_ok (k.2.take j) (k.2.drop (j + 1)) k.2[j].1 k.2[j].2
    (by rw [Prod.mk.eta, ← hsplit]; exact h.2.2)
  rw [Prod.mk.eta, ← hsplit, hlen] at this
  simp only [hg]
  exact ⟨h.1, this.1, this.2⟩

theorem ev_dterm (Λ : ℝ) (D : ℕ → ℝ) (k : Key) (c : ℚ) (h : CKey k) :
    ev (cI Λ D) (dterm k c) = (c : ℝ) * (Λ ^ k.1.toNat * pd D k.2) := by
  rw [dterm, ev_ofTerms, List.map_map]
  have := dterm_sum D [] k.2 (by simpa using h.2.2)
  simp only [List.nil_append, List.length_nil, Nat.zero_add, pv_nil, one_mul] at this
  rw [← this, ← List.sum_map_mul_left, ← List.sum_map_mul_left]
  congr 1
  apply List.map_congr_left
  intro j _
  simp only [Function.comp, Rat.smul_def, cI]
  push_cast
  ring

theorem mergeTerms_spec (Λ : ℝ) (D : ℕ → ℝ) (l : List (Key × ℚ)) (hl : ∀ e ∈ l, CKey e.1)
    (acc : Poly Key) (hk : acc.keyfor = []) (ha : acc.Keys CKey) :
    ∃ r, mergeTerms acc l = .ok r ∧ r.keyfor = [] ∧ r.Keys CKey ∧
      ev (cI Λ D) r = ev (cI Λ D) acc +
        (l.map fun e => (e.2 : ℝ) * (Λ ^ e.1.1.toNat * pd D e.1.2)).sum := by
  induction l generalizing acc with
  | nil => exact ⟨acc, rfl, hk, ha, by simp⟩
  | cons e t ih =>
    have he := hl e (by simp)
    obtain ⟨r1, e1, k1, _, _, c1, v1⟩ := merge_spec acc (dterm e.1 e.2) (by simp [dterm, hk])
    obtain ⟨r, e2, k2, c2, v2⟩ := ih (fun e he => hl e (by simp [he])) r1 (k1.trans hk)
      (c1 _ ha (dterm_keys _ _ he))
    refine ⟨r, by rw [mergeTerms, e1, ok_bind, e2], k2, c2, ?_⟩
    rw [v2, v1, ev_dterm _ _ _ _ he, List.map_cons, List.sum_cons, add_assoc]

theorem dmgfCpp_spec (Λ : ℝ) (D : ℕ → ℝ) (p : Poly Key) (hp : p.Keys CKey) :
    ∃ r, dmgfCpp p = .ok r ∧ r.keyfor = [] ∧ r.Keys CKey ∧
      ev (cI Λ D) r = Λ * D 1 * ev (cI Λ D) p +
        ev (fun k : Key => Λ ^ k.1.toNat * pd D k.2) p := by
  obtain ⟨ts, e1, hts⟩ := mapM_ok_rel (fun e : Key × ℚ => do
      let k ← d1TimesKey e.1; pure (k, e.2))
    (fun e t => CKey t.1 ∧ t.2 = e.2 ∧ cI Λ D t.1 = Λ * D 1 * cI Λ D e.1) p.items
    (by
      intro e he
      obtain ⟨k', h1, h2, h3⟩ := d1TimesKey_spec Λ D e.1 (hp e he)
      exact ⟨(k', e.2), by rw [h1]; rfl, h2, rfl, h3⟩)
  have hck : ∀ t ∈ ts, CKey t.1 := by
    intro t ht
    obtain ⟨i, hi, rfl⟩ := List.getElem_of_mem ht
    have := hts.get (i := i) (by rw [hts.length_eq]; exact hi) hi
    exact this.1
  obtain ⟨r, e2, k2, c2, v2⟩ := mergeTerms_spec Λ D p.items (fun e he => hp e he)
    (ofTerms [] ts) (by simp) (ofTerms_Keys _ _ _ hck)
  refine ⟨r, by rw [dmgfCpp, e1, ok_bind, e2], k2, c2, ?_⟩
  rw [v2, ev_ofTerms]
  congr 1
  · unfold ev
    clear e1 e2 v2 hp
    rw [← List.sum_map_mul_left]
    generalize p.items = l at hts
    induction hts with
    | nil => rfl
    | cons h _ ih =>
      rw [List.map_cons, List.sum_cons, List.map_cons, List.sum_cons,
        ih fun t ht => hck t (by simp [ht])]
      simp only [Rat.smul_def, h.2.1, h.2.2]
      ring

/-- MGF of the compound Poisson variable -/
noncomputable def cF (Λ μ v : ℝ) (t : ℝ) : ℝ := exp (Λ * (nM μ v t - 1))

theorem cF_contDiff (Λ μ v : ℝ) : ContDiff ℝ ⊤ (cF Λ μ v) := by unfold cF nM; fun_prop

theorem cF_hasDerivAt (Λ μ v s : ℝ) :
    HasDerivAt (cF Λ μ v) (cF Λ μ v s * (Λ * nD μ v 1 s)) s := by
  unfold cF
  apply HasDerivAt.exp
  have h := nD_hasDerivAt μ v 0 s
  have e : nD μ v 0 = nM μ v := by funext t; simp [nD]
  rw [e] at h
  exact (h.sub_const 1).const_mul Λ

theorem cppDeriv_spec (Λ μ v : ℝ) (n : ℕ) :
    ∃ r, cppDeriv n = .ok r ∧ r.Keys CKey ∧
      ∀ s, iteratedDeriv (n + 1) (cF Λ μ v) s = cF Λ μ v s * ev (cI Λ fun j => nD μ v j s) r := by
  induction n with
  | zero =>
    refine ⟨_, rfl, ?_, ?_⟩
    · intro x hx
      simp only [List.mem_singleton] at hx
      subst hx
      refine ⟨by norm_num, by simp, ?_⟩
      intro p hp
      simp only [List.mem_singleton] at hp
      subst hp; norm_num
    · intro s
      rw [zero_add, iteratedDeriv_one, (cF_hasDerivAt Λ μ v s).deriv]
      simp [ev, cI]
  | succ n ih =>
    obtain ⟨p, e1, k1, v1⟩ := ih
    have hs : ∀ s, ∃ r, dmgfCpp p = .ok r ∧ r.keyfor = [] ∧ r.Keys CKey ∧
      ev (cI Λ fun j => nD μ v j s) r = Λ * nD μ v 1 s * ev (cI Λ fun j => nD μ v j s) p +
        ev (fun k : Key => Λ ^ k.1.toNat * pd (fun j => nD μ v j s) k.2) p :=
      fun s => dmgfCpp_spec Λ (fun j => nD μ v j s) p k1
    obtain ⟨r, e2, _, c2, _⟩ := hs 0
    refine ⟨r, by rw [cppDeriv, e1, ok_bind, e2], c2, ?_⟩
    intro s
    obtain ⟨r', e3, _, _, v3⟩ := hs s
    rw [e2] at e3
    cases e3
    have hd : HasDerivAt (iteratedDeriv (n + 1) (cF Λ μ v))
        (iteratedDeriv (n + 1 + 1) (cF Λ μ v) s) s := by
      rw [iteratedDeriv_succ (n := n + 1)]
      exact (((cF_contDiff Λ μ v).differentiable_iteratedDeriv (n + 1)
        (by exact_mod_cast WithTop.coe_lt_top _)) s).hasDerivAt
    rw [funext v1] at hd
    have h2 := (cF_hasDerivAt Λ μ v s).mul
      (hasDerivAt_ev (fun s => cI Λ fun j => nD μ v j s)
        (fun k => Λ ^ k.1.toNat * pd (fun j => nD μ v j s) k.2) p s fun e _ =>
        (pv_hasDerivAt (nD μ v) (nD_hasDerivAt μ v) e.1.2 s).const_mul _)
    rw [hd.unique h2, v3]
    ring

/-! ### `decode` and the moments -/

theorem decodeLoop_spec (ps : List (ℤ × ℤ)) (h : PairsOK ps) (acc : IPoly)
    (hk : acc.keyfor = ["mu", "sigma^2"]) (ha : acc.Keys (NN 2)) :
    ∃ r, decodeLoop acc ps = .ok r ∧ r.Keys (NN 2) ∧ ∀ x : ℕ → ℝ,
      ev (mono x) r = ev (mono x) acc * pv (fun j => nD (x 0) (x 1) j 0) ps := by
  induction ps generalizing acc with
  | nil => exact ⟨acc, rfl, ha, by simp⟩
  | cons p t ih =>
    obtain ⟨n, m⟩ := p
    have hnm := h (n, m) (by simp)
    simp only at hnm
    have em : mnorm n = .ok (mnormNat n.toNat) := by rw [mnorm, if_neg (by omega)]
    obtain ⟨pw, e1, k1, c1, v1⟩ := pow_on (mnormNat n.toNat) 2 (NN 2) (addClosed_NN 2)
      (fun k hk => hk.1) (mnormNat_keys _) m hnm.2
    obtain ⟨a, e2, k2, _, _, c2, v2⟩ := mul_on acc pw (by rw [k1, hk, mnormNat_keyfor]) 2 (NN 2)
      (addClosed_NN 2) (fun k hk => hk.1) ha c1
    obtain ⟨r, e3, c3, v3⟩ := ih (fun p hp => h p (by simp [hp])) a (k2.trans hk) c2
    refine ⟨r, by rw [decodeLoop, em, ok_bind, e1, ok_bind, e2, ok_bind, e3], c3, ?_⟩
    intro x
    rw [v3, v2 _ (mono_mulOn_NN x 2), v1 _ (mono_mulOn_NN x 2), ev_mnormNat, pv_cons]
    ring

theorem NN_three (a b c : ℤ) (ha : 0 ≤ a) (hb : 0 ≤ b) (hc : 0 ≤ c) : NN 3 [a, b, c] := by
  refine ⟨rfl, fun i => ?_⟩
  match i with
  | 0 => exact ha
  | 1 => exact hb
  | 2 => exact hc
  | n + 3 => simp

theorem mono_three (x : ℕ → ℝ) (a b c : ℤ) : mono x [a, b, c] = x 0 ^ a * x 1 ^ b * x 2 ^ c := by
  simp [mono, Finset.prod_range_succ]

theorem decodeTerms_spec (e : Key × ℚ) (h : CKey e.1) :
    ∃ ts, decodeTerms e = .ok ts ∧ (∀ t ∈ ts, NN 3 t.1) ∧ ∀ x : ℕ → ℝ,
      (ts.map fun kv => kv.2 • mono x kv.1).sum =
        e.2 • cI (x 0) (fun j => nD (x 1) (x 2) j 0) e.1 := by
  obtain ⟨r, e1, c1, v1⟩ := decodeLoop_spec e.1.2 h.2.2 ⟨["mu", "sigma^2"], [([0, 0], 1)]⟩ rfl
    (mnormNat_keys 0)
  refine ⟨_, by rw [decodeTerms, e1, ok_bind], ?_, ?_⟩
  · intro t ht
    obtain ⟨y, hy, rfl⟩ := List.mem_map.1 ht
    exact NN_three _ _ _ h.1 ((c1 y hy).2 0) ((c1 y hy).2 1)
  · intro x
    have hv := v1 (fun i => x (i + 1))
    have h0 : ev (mono fun i => x (i + 1)) (⟨["mu", "sigma^2"], [([0, 0], 1)]⟩ : IPoly) = 1 := by
      simp [ev, mono, Finset.prod_range_succ]
    rw [h0, one_mul] at hv
    simp only [cI, zero_add] at hv ⊢
    rw [← hv, List.map_map, ← ev_mul_const, ev, Rat.smul_def, ← List.sum_map_mul_left]
    congr 1
    apply List.map_congr_left
    intro y hy
    simp only [Function.comp, Rat.smul_def, mono_three]
    rw [mono_two _ _ (c1 y hy)]
    have h0 := (c1 y hy).2 0
    have h1 := (c1 y hy).2 1
    rw [← zpow_natCast, ← zpow_natCast, ← zpow_natCast, Int.toNat_of_nonneg h0,
      Int.toNat_of_nonneg h1, Int.toNat_of_nonneg h.1]
    push_cast
    ring

theorem decode_spec (p : Poly Key) (hp : p.Keys CKey) :
    ∃ r, decode p = .ok r ∧ r.keyfor = ["lambda*h", "mu", "sigma^2"] ∧ r.WF ∧ r.NoZero ∧
      r.Keys (NN 3) ∧ ∀ x : ℕ → ℝ,
        ev (mono x) r = ev (cI (x 0) fun j => nD (x 1) (x 2) j 0) p := by
  obtain ⟨tss, e1, hts⟩ := mapM_ok_rel decodeTerms
    (fun e ts => (∀ t ∈ ts, NN 3 t.1) ∧ ∀ x : ℕ → ℝ, (ts.map fun kv => kv.2 • mono x kv.1).sum =
        e.2 • cI (x 0) (fun j => nD (x 1) (x 2) j 0) e.1) p.items
    (fun e he => decodeTerms_spec e (hp e he))
  refine ⟨_, by rw [decode, e1, ok_bind], by simp, removeZero_WF _ (ofTerms_WF _ _),
    removeZero_NoZero _, removeZero_Keys _ _ (ofTerms_Keys _ _ _ ?_), ?_⟩
  · intro t ht
    obtain ⟨ts, hm, ht⟩ := List.mem_flatten.1 ht
    obtain ⟨i, hi, rfl⟩ := List.getElem_of_mem hm
    exact (hts.get (i := i) (by rw [hts.length_eq]; exact hi) hi).1 t ht
  · intro x
    rw [ev_removeZero, ev_ofTerms]
    unfold ev
    clear e1 hp
    generalize p.items = l at hts
    induction hts with
    | nil => rfl
    | cons h _ ih =>
      rw [List.flatten_cons, List.map_append, List.sum_append, ih, h.2 x, List.map_cons,
        List.sum_cons]

theorem mcppOriginal_spec (n : ℕ) :
    ∃ r, mcppOriginal n = .ok r ∧ r.keyfor = ["lambda*h", "mu", "sigma^2"] ∧ r.WF ∧
      r.NoZero ∧ r.Keys (NN 3) ∧
      ∀ x : ℕ → ℝ, ev (mono x) r = iteratedDeriv n (cF (x 0) (x 1) (x 2)) 0 := by
  match n with
  | 0 =>
    refine ⟨_, rfl, rfl, by simp [WF], ?_, ?_, ?_⟩
    · intro y hy; simp at hy; subst hy; simp
    · intro y hy; simp at hy; subst hy; exact NN_three _ _ _ le_rfl le_rfl le_rfl
    · intro x; simp [ev, mono_three, cF, nM]
  | 1 =>
    refine ⟨_, rfl, rfl, by simp [WF], ?_, ?_, ?_⟩
    · intro y hy; simp at hy; subst hy; simp
    · intro y hy; simp at hy; subst hy; exact NN_three _ _ _ (by norm_num) (by norm_num) le_rfl
    · intro x
      rw [iteratedDeriv_one, (cF_hasDerivAt _ _ _ _).deriv, nD_eq]
      simp [ev, mono_three, cF, nM, mnormNat, nI]
  | n + 2 =>
    have hex : ∀ x : ℕ → ℝ, ∃ r, cppDeriv (n + 1) = .ok r ∧ r.Keys CKey ∧
      ∀ s, iteratedDeriv (n + 1 + 1) (cF (x 0) (x 1) (x 2)) s =
        cF (x 0) (x 1) (x 2) s * ev (cI (x 0) fun j => nD (x 1) (x 2) j s) r :=
      fun x => cppDeriv_spec (x 0) (x 1) (x 2) (n + 1)
    obtain ⟨p, e1, c1, _⟩ := hex 0
    obtain ⟨r, e2, k2, w2, z2, c2, v2⟩ := decode_spec p c1
    refine ⟨r, ?_, k2, w2, z2, c2, ?_⟩
    · rw [mcppOriginal, if_neg (by omega), if_neg (by omega), if_neg (by omega)]
      have : (((n + 2 : ℕ) : ℤ) - 1).toNat = n + 1 := by omega
      rw [this, e1, ok_bind, e2]
    · intro x
      obtain ⟨p', e3, _, v3⟩ := hex x
      rw [e1] at e3; cases e3
      have := v3 0
      rw [show cF (x 0) (x 1) (x 2) 0 = 1 by simp [cF, nM], one_mul] at this
      rw [v2 x, this]

theorem mcpp_spec (n : ℕ) :
    ∃ r, mcpp n = .ok r ∧ r.keyfor = ["lambda*h", "mu", "sigma"] ∧ r.WF ∧ r.Keys (NN 3) ∧
      ∀ Λ μ σ : ℝ, ev (mono fun i => if i = 0 then Λ else if i = 1 then μ else σ) r =
        iteratedDeriv n (cF Λ μ (σ ^ 2)) 0 := by
  obtain ⟨p, e, _, _, _, c, v⟩ := mcppOriginal_spec n
  refine ⟨_, by rw [mcpp, e, ok_bind], by simp, ofTerms_WF _ _, ofTerms_Keys _ _ _ ?_, ?_⟩
  · intro t ht
    obtain ⟨y, hy, rfl⟩ := List.mem_map.1 ht
    have := (c y hy).2
    exact NN_three _ _ _ (this 0) (this 1) (by have := this 2; omega)
  · intro Λ μ σ
    have := v (fun i => if i = 0 then Λ else if i = 1 then μ else σ ^ 2)
    simp only [if_true, one_ne_zero, if_false, OfNat.ofNat_ne_zero, OfNat.ofNat_ne_one] at this
    rw [← this]
    apply ev_ofTerms_map
    intro y hy
    have hl := (c y hy).1
    obtain ⟨a, b, d, hy1⟩ : ∃ a b d, y.1 = [a, b, d] := by
      match h : y.1, hl with
      | [a, b, d], _ => exact ⟨a, b, d, rfl⟩
    rw [hy1, mono_three, mono_three]
    simp [zpow_mul]

theorem cmcppTerms_spec (n i : ℕ) (hi : i ≤ n) :
    ∃ ts, cmcppTerms n i = .ok ts ∧ (∀ t ∈ ts, NN 3 t.1) ∧ ∀ Λ μ σ : ℝ,
      (ts.map fun kv => kv.2 •
        mono (fun i => if i = 0 then Λ else if i = 1 then μ else σ) kv.1).sum =
        n.choose i * (-(Λ * μ)) ^ (n - i) * iteratedDeriv i (cF Λ μ (σ ^ 2)) 0 := by
  obtain ⟨r, e, _, _, c, v⟩ := mcpp_spec i
  refine ⟨_, by rw [cmcppTerms, e, ok_bind], ?_, ?_⟩
  · intro t ht
    obtain ⟨y, hy, rfl⟩ := List.mem_map.1 ht
    have := (c y hy).2
    exact NN_three _ _ _ (by have := this 0; omega) (by have := this 1; omega) (this 2)
  · intro Λ μ σ
    rw [← v, ← ev_mul_const, ev, List.map_map]
    congr 1
    apply List.map_congr_left
    intro y hy
    have hl := (c y hy).1
    have hnn := (c y hy).2
    obtain ⟨a, b, d, hy1⟩ : ∃ a b d, y.1 = [a, b, d] := by
      match h : y.1, hl with
      | [a, b, d], _ => exact ⟨a, b, d, rfl⟩
    have h0 := hnn 0
    have h1 := hnn 1
    simp only [Function.comp, hy1, ix_cons_zero, ix_cons_succ, mono_three, Rat.smul_def] at *
    have e0 : a + (n : ℤ) - i = a + ((n - i : ℕ) : ℤ) := by omega
    have e1 : b + (n : ℤ) - i = b + ((n - i : ℕ) : ℤ) := by omega
    rw [e0, e1, zpow_add_ok _ a _ (fun _ => h0) (fun _ => by omega),
      zpow_add_ok _ b _ (fun _ => h1) (fun _ => by omega), zpow_natCast, zpow_natCast,
      neg_pow (Λ * μ), mul_pow]
    push_cast
    ring

theorem cmcpp_spec (n : ℕ) :
    ∃ r, cmcpp n = .ok r ∧ r.keyfor = ["lambda*h", "mu", "sigma"] ∧ r.WF ∧ r.NoZero ∧
      r.Keys (NN 3) ∧ ∀ Λ μ σ : ℝ,
        ev (mono fun i => if i = 0 then Λ else if i = 1 then μ else σ) r =
        ∑ i ∈ Finset.range (n + 1),
          n.choose i * (-(Λ * μ)) ^ (n - i) * iteratedDeriv i (cF Λ μ (σ ^ 2)) 0 := by
  obtain ⟨tss, e1, hts⟩ := mapM_ok_rel (cmcppTerms n)
    (fun i ts => (∀ t ∈ ts, NN 3 t.1) ∧ ∀ Λ μ σ : ℝ,
      (ts.map fun kv => kv.2 •
        mono (fun i => if i = 0 then Λ else if i = 1 then μ else σ) kv.1).sum =
        n.choose i * (-(Λ * μ)) ^ (n - i) * iteratedDeriv i (cF Λ μ (σ ^ 2)) 0)
    (List.range (n + 1))
    (fun i hi => cmcppTerms_spec n i (by rw [List.mem_range] at hi; omega))
  refine ⟨_, by rw [cmcpp, if_neg (by omega), Int.toNat_natCast, e1, ok_bind], by simp,
    removeZero_WF _ (ofTerms_WF _ _),
    removeZero_NoZero _, removeZero_Keys _ _ (ofTerms_Keys _ _ _ ?_), ?_⟩
  · intro t ht
    obtain ⟨ts, hm, ht⟩ := List.mem_flatten.1 ht
    obtain ⟨i, hi, rfl⟩ := List.getElem_of_mem hm
    exact (hts.get (i := i) (by rw [hts.length_eq]; exact hi) hi).1 t ht
  · intro Λ μ σ
    rw [ev_removeZero, ev_ofTerms, ← list_range_sum']
    clear e1
    generalize List.range (n + 1) = l at hts
    induction hts with
    | nil => rfl
    | cons h _ ih =>
      rw [List.flatten_cons, List.map_append, List.sum_append, ih, h.2, List.map_cons,
        List.sum_cons]

end Ajd.Cpp
