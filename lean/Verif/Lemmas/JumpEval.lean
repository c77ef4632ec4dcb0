import Verif.Lemmas.ItoCond
import Verif.Model.Svvj
import Mathlib.Algebra.BigOperators.Fin

/-! Appending levels to a functional of the jumps; the evaluation loop of `poly2num`. -/

namespace Ajd.ItoCond
open Utils Poly

/-- `Σ_{s_i <= t} e^{a k s_i} J_i` -/
noncomputable def S1 (x : Par) (t : ℝ) (a : ℤ) : ℝ :=
  ∑ i, if x.s i ≤ t then Real.exp (a * x.k * x.s i) * x.J i else 0

/-- appending levels without any time but an exponential -/
def appTup (z : Tup) (as : List ℤ) (nx : ℕ) : Tup :=
  ⟨z.l ++ as, z.o ++ List.replicate as.length 0, z.p ++ List.replicate nx 0,
    z.q ++ List.replicate nx 0⟩

theorem appTup_ok (z : Tup) (hz : ZOK z) (as : List ℤ) (nx : ℕ)
    (hn : nx = if z.l.length = 0 then as.length - 1 else as.length) : ZOK (appTup z as nx) := by
  obtain ⟨l, o, p, q⟩ := z
  obtain ⟨h1, h2, h3, h4, h5⟩ := hz
  simp only at h1 h2 h3 h4 h5 hn
  have hnx : nx + (l.length - 1) = l.length + as.length - 1 := by
    split_ifs at hn with h <;> omega
  refine ⟨by simp [appTup, h1], by simp [appTup]; omega, by simp [appTup]; omega, ?_, ?_⟩
  · intro a ha
    simp only [appTup, List.mem_append, List.mem_replicate] at ha
    rcases ha with ha | ⟨_, rfl⟩
    · exact h4 a ha
    · exact le_rfl
  · intro a ha
    simp only [appTup, List.mem_append, List.mem_replicate] at ha
    rcases ha with ha | ⟨_, rfl⟩
    · exact h5 a ha
    · exact le_rfl

theorem getD_app_zero (l : List ℤ) (n i : ℕ) (h : l.length ≤ i) :
    (l ++ List.replicate n 0).getD i 0 = 0 := by
  rw [List.getD_append_right _ _ _ _ h]
  by_cases hi : i - l.length < n
  · rw [List.getD_eq_getElem _ _ (by simpa using hi)]; simp
  · rw [List.getD_eq_default _ _ (by simpa using hi)]

theorem lv_app (z : Tup) (hz : ZOK z) (as : List ℤ) (nx : ℕ) :
    lv (appTup z as nx) = lv z ++ as.map fun a => (a, 0, 0, 0) := by
  obtain ⟨l, o, p, q⟩ := z
  obtain ⟨h1, h2, h3, _, _⟩ := hz
  simp only at h1 h2 h3
  apply List.ext_getElem
  · simp [lv, appTup]
  · intro i hi hi'
    simp only [lv, appTup, List.length_map, List.length_range, List.length_append] at hi hi'
    by_cases h : i < l.length
    · rw [List.getElem_append_left (by simpa [lv] using h)]
      simp only [lv, appTup, List.getElem_map, List.getElem_range]
      rw [List.getD_append _ _ _ _ h, List.getD_append _ _ _ _ (by omega)]
      by_cases h0 : i = 0
      · simp [h0]
      · simp only [h0, if_false]
        rw [List.getD_append _ _ _ _ (by omega), List.getD_append _ _ _ _ (by omega)]
    · rw [List.getElem_append_right (by simpa [lv] using h)]
      simp only [lv, appTup, List.getElem_map, List.getElem_range, List.length_map,
        List.length_range]
      rw [List.getD_append_right _ _ _ _ (by omega), getD_app_zero _ _ _ (by omega),
        List.getD_eq_getElem _ _ (by omega)]
      by_cases h0 : i = 0
      · simp [h0]
      · simp only [h0, if_false]
        rw [getD_app_zero _ _ _ (by omega), getD_app_zero _ _ _ (by omega)]

theorem Z_app (x : Par) (t : ℝ) (as : List ℤ) (m : ℝ) :
    Z x.k x.s x.J (as.map fun a => (a, 0, 0, 0)) m (fun μ => if μ ≤ t then 1 else 0) =
      (as.map (S1 x t)).prod * if m ≤ t then 1 else 0 := by
  induction as generalizing m with
  | nil => simp [Z]
  | cons a as ih =>
    simp only [List.map_cons, Z, ih, List.prod_cons, S1, wt]
    rw [mul_assoc, Finset.sum_mul]
    apply Finset.sum_congr rfl
    intro i _
    by_cases hi : x.s i ≤ t <;> by_cases hm : m ≤ t <;> simp [hi, hm]

/-- appended levels multiply the functional -/
theorem zval_app (x : Par) (hs : ∀ i, 0 ≤ x.s i) (t : ℝ) (ht : 0 ≤ t) (z : Tup) (hz : ZOK z)
    (as : List ℤ) (nx : ℕ) : zval x t (appTup z as nx) = (as.map (S1 x t)).prod * zval x t z := by
  rw [zval_eq x hs t ht, zval_eq x hs t ht, lv_app z hz, Z_append, ← Z_mul]
  apply Z_congr
  intro μ _
  rw [Z_app]

end Ajd.ItoCond

namespace Ajd.Svvj
open Utils Poly ItoCond

/-- the loop of `poly2num` ends and returns the value of the Poly -/
theorem evalLoop_spec (k : ℝ) (s J : List ℝ) (hs : J.length ≤ s.length) (w : JKey → ℝ)
    (L : List (JKey × ℚ)) (hL : ∀ e ∈ L, ZOK e.1.z) : ∃ c, ∀ fuel, c ≤ fuel → ∀ f,
    evalLoop fuel k s J w f L = some (.ok (f + (L.map fun e => e.2 • (w e.1 *
      fZSpec e.1.z.l.length (fun i => e.1.z.l.getD i 0) (fun i => e.1.z.o.getD i 0)
        (fun i => e.1.z.p.getD i 0) (fun i => e.1.z.q.getD i 0) k
        (fun j : Fin J.length => s.getD j 0) (fun j => J.getD j 0))).sum)) := by
  induction L with
  | nil => exact ⟨0, fun fuel _ f => by simp [evalLoop]⟩
  | cons e L ih =>
    obtain ⟨c1, h1⟩ := ih fun e he => hL e (by simp [he])
    obtain ⟨o1, o2, o3, _, _⟩ := hL e (by simp)
    obtain ⟨c2, h2⟩ := fZ_total e.1.z.l e.1.z.o e.1.z.p e.1.z.q k s J (by omega) (by omega)
      (by omega) hs
    refine ⟨max c1 c2, fun fuel hf f => ?_⟩
    rw [evalLoop, h2 fuel (le_trans (le_max_right _ _) hf)]
    simp only
    rw [h1 fuel (le_trans (le_max_left _ _) hf), List.map_cons, List.sum_cons, ← add_assoc,
      Rat.smul_def]
    congr 4
    ring

theorem sqrt_pow (ρ : ℝ) (h : 0 ≤ 1 - ρ ^ 2) (c : ℤ) (hc : 0 ≤ c) :
    (1 - ρ ^ 2) ^ ((c : ℝ) / 2) = Real.sqrt (1 - ρ ^ 2) ^ c := by
  obtain ⟨n, rfl⟩ := Int.eq_ofNat_of_zero_le hc
  generalize 1 - ρ ^ 2 = y at h ⊢
  rw [zpow_natCast, Real.sqrt_eq_rpow, ← Real.rpow_natCast, ← Real.rpow_mul h]
  congr 1
  push_cast
  ring

end Ajd.Svvj
