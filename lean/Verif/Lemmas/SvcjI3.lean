import Verif.Lemmas.SvcjI2

/-! `recursive_ieii_ieziziz` and `moment_ieii_ieziziz`. -/

namespace Ajd.SvcjI
open Poly Ieziziz Finset

/-- adding to the accumulator; `o` says that only zeros are added -/
def Step (o : Prop) (F : Ctx → ℝ) (acc : IPoly) (res : Except PyErr IPoly) : Prop :=
  ∃ acc', res = .ok acc' ∧ acc'.keyfor = kfI ∧ acc'.Keys KI ∧
    (∀ x : Ctx, ev (wI x.p x.t) acc' = ev (wI x.p x.t) acc + F x) ∧
    (o → (∀ f : List ℤ → ℝ, ev f acc = 0) → ∀ f : List ℤ → ℝ, ev f acc' = 0)

theorem Step.bind {o : Prop} {F G : Ctx → ℝ} {acc : IPoly} {res : Except PyErr IPoly}
    {g : IPoly → Except PyErr IPoly} (h : Step o F acc res)
    (hg : ∀ acc', acc'.keyfor = kfI → acc'.Keys KI → Step o G acc' (g acc')) :
    Step o (fun x => F x + G x) acc (res >>= g) := by
  obtain ⟨a, e, k, K, v, z⟩ := h
  obtain ⟨a', e', k', K', v', z'⟩ := hg a k K
  refine ⟨a', by rw [e, ok_bind, e'], k', K', fun x => by rw [v', v, add_assoc], fun ho h => z' ho (z ho h)⟩

theorem Step.congr {o : Prop} {F G : Ctx → ℝ} {acc : IPoly} {res : Except PyErr IPoly} (h : Step o F acc res)
    (hFG : ∀ x, F x = G x) : Step o G acc res := by
  obtain rfl : F = G := funext hFG
  exact h

theorem Step.fold {α : Type} {o : Prop} (f : IPoly → α → Except PyErr IPoly) (F : α → Ctx → ℝ) (L : List α)
    (h : ∀ a ∈ L, ∀ acc, acc.keyfor = kfI → acc.Keys KI → Step o (F a) acc (f acc a)) (acc : IPoly)
    (hk : acc.keyfor = kfI) (hK : acc.Keys KI) :
    Step o (fun x => (L.map fun a => F a x).sum) acc (L.foldlM f acc) := by
  induction L generalizing acc with
  | nil => exact ⟨acc, rfl, hk, hK, fun x => by simp, fun _ h => h⟩
  | cons a l ih =>
    rw [List.foldlM_cons]
    exact (h a (by simp) acc hk hK).bind fun acc' k' K' => ih (fun b hb => h b (by simp [hb])) acc' k' K'

theorem branch_spec {o : Prop} (b : Prop) [Decidable b] (k : List ℤ) (hk : NN 9 k) (q : Except PyErr IPoly)
    (Q : Ctx → ℝ) (hb : b → ∃ q', q = .ok q' ∧ q'.keyfor = kfI ∧ q'.Keys KI ∧
      (o → ∀ f : List ℤ → ℝ, ev f q' = 0) ∧ ∀ x : Ctx, ev (wI x.p x.t) q' = Q x) (hn : ¬ b → ∀ x, Q x = 0)
    (acc : IPoly) (ha : acc.keyfor = kfI) (hA : acc.Keys KI) :
    Step o (fun x => headX x.p x.t k * Q x) acc (branch b k q acc) := by
  unfold branch
  split_ifs with h
  · obtain ⟨q', e, -, K', z, v⟩ := hb h
    obtain ⟨a1, a2, a3, a4⟩ := keyTimes_spec k hk q' K'
    obtain ⟨r, e1, k1, -, -, c1, v1⟩ := merge_spec acc (keyTimes k q') (by rw [ha, a1])
    refine ⟨r, by rw [e, ok_bind, e1], by rw [k1, ha], c1 _ hA a2, fun x => ?_, fun ho hz f => ?_⟩
    · rw [v1, a3 _ _ x.hk, v]
    · obtain ⟨g, hg⟩ := a4 f
      rw [v1, hz, hg, z ho, add_zero]
  · exact ⟨acc, rfl, ha, hA, fun x => by simp [hn h x], fun _ h => h⟩

theorem JSys.VV_cont {p : Par} {v0 θ σ : ℝ} {N : Fam} (h : JSys p v0 θ σ N) (n1 n2 n3 n4 n5 n6 : ℕ) :
    ContinuousOn (VV p.k v0 θ σ N n1 n2 n3 n4 n5 n6) (Set.Ici 0) := by
  have hc := h.cont
  unfold VV
  fun_prop (disch := assumption)

theorem int_wX_FF (x : Ctx) (k : List ℤ) (hk : 0 ≤ ix k 3) (n1 n2 n3 i1 i2 i3 : ℕ) :
    ∫ u in (0 : ℝ)..x.t, wX x.p u x.t k * FF x.p.k x.p.v0 x.p.theta x.p.sigma x.N n1 n2 n3 i1 i2 i3 u =
      headX x.p x.t k * (
      (n1 : ℝ) * (n1 - 1) / 2 * (∫ u in (0 : ℝ)..x.t, Real.exp ((ix k 2 + 1 : ℤ) * x.p.k * u) * u ^ (ix k 3).toNat *
        VV x.p.k x.p.v0 x.p.theta x.p.sigma x.N (n1 - 2) n2 n3 i1 i2 i3 u) +
      (n2 : ℝ) * (n2 - 1) / 2 * (∫ u in (0 : ℝ)..x.t, Real.exp ((ix k 2 - 1 : ℤ) * x.p.k * u) * u ^ (ix k 3).toNat *
        VV x.p.k x.p.v0 x.p.theta x.p.sigma x.N n1 (n2 - 2) n3 i1 i2 i3 u) +
      (n1 : ℝ) * n2 * (∫ u in (0 : ℝ)..x.t, Real.exp ((ix k 2 + 0 : ℤ) * x.p.k * u) * u ^ (ix k 3).toNat *
        VV x.p.k x.p.v0 x.p.theta x.p.sigma x.N (n1 - 1) (n2 - 1) n3 i1 i2 i3 u) +
      (n3 : ℝ) * (n3 - 1) / 2 * (∫ u in (0 : ℝ)..x.t, Real.exp ((ix k 2 - 1 : ℤ) * x.p.k * u) * u ^ (ix k 3).toNat *
        VV x.p.k x.p.v0 x.p.theta x.p.sigma x.N n1 n2 (n3 - 2) i1 i2 i3 u)) := by
  have hi : ∀ (m : ℤ) (n1 n2 n3 i1 i2 i3 : ℕ) (c : ℝ), IntervalIntegrable
      (fun u => c * (Real.exp (m * x.p.k * u) * u ^ (ix k 3).toNat *
        VV x.p.k x.p.v0 x.p.theta x.p.sigma x.N n1 n2 n3 i1 i2 i3 u)) MeasureTheory.volume 0 x.t := by
    intro m n1 n2 n3 i1 i2 i3 c
    apply ContinuousOn.intervalIntegrable
    rw [Set.uIcc_of_le x.ht]
    refine ContinuousOn.mono ?_ (Set.Icc_subset_Ici_self : Set.Icc 0 x.t ⊆ Set.Ici 0)
    exact ContinuousOn.mul (by fun_prop) (ContinuousOn.mul (by fun_prop) (x.hN.VV_cont n1 n2 n3 i1 i2 i3))
  rw [← intervalIntegral.integral_const_mul ((n1 : ℝ) * (n1 - 1) / 2), ← intervalIntegral.integral_const_mul
    ((n2 : ℝ) * (n2 - 1) / 2), ← intervalIntegral.integral_const_mul ((n1 : ℝ) * n2),
    ← intervalIntegral.integral_const_mul ((n3 : ℝ) * (n3 - 1) / 2),
    ← intervalIntegral.integral_add (hi _ _ _ _ _ _ _ _) (hi _ _ _ _ _ _ _ _),
    ← intervalIntegral.integral_add ((hi _ _ _ _ _ _ _ _).add (hi _ _ _ _ _ _ _ _)) (hi _ _ _ _ _ _ _ _),
    ← intervalIntegral.integral_add (((hi _ _ _ _ _ _ _ _).add (hi _ _ _ _ _ _ _ _)).add (hi _ _ _ _ _ _ _ _))
      (hi _ _ _ _ _ _ _ _), ← intervalIntegral.integral_const_mul]
  congr 1
  funext u
  obtain ⟨n, hn⟩ := Int.eq_ofNat_of_zero_le hk
  unfold wX FF
  rw [hn, Int.toNat_natCast, zpow_natCast]
  rw [show ((ix k 2 + 1 : ℤ) : ℝ) * x.p.k * u = ix k 2 * x.p.k * u + x.p.k * u by push_cast; ring,
    show ((ix k 2 - 1 : ℤ) : ℝ) * x.p.k * u = ix k 2 * x.p.k * u + -x.p.k * u by push_cast; ring,
    show ((ix k 2 + 0 : ℤ) : ℝ) * x.p.k * u = ix k 2 * x.p.k * u by push_cast; ring, Real.exp_add, Real.exp_add]
  ring

/-- the entries of the dict below a level -/
def Get (T : Tab) (l : ℕ) : Prop := ∀ m1 m2 m3 m4 m5 m6 : ℕ, m1 + m2 + m3 + m4 + m5 + m6 < l →
  ∃ v, dget T [(m1 : ℤ), (m2 : ℤ), (m3 : ℤ), (m4 : ℤ), (m5 : ℤ), (m6 : ℤ)] = some v ∧ GoodN m1 m2 m3 m4 m5 m6 v

theorem recEntry_spec (n1 n2 n3 i1 i2 i3 : ℕ) (bino : ℚ) (T : Tab) (hT : Get T (n1 + n2 + n3 + i1 + i2 + i3))
    (e : List ℤ × ℚ) (he : NN 9 e.1) (acc : IPoly) (ha : acc.keyfor = kfI) (hA : acc.Keys KI) :
    Step (Odd n3) (fun x => bino * (e.2 * ∫ u in (0 : ℝ)..x.t, wX x.p u x.t e.1 *
      FF x.p.k x.p.v0 x.p.theta x.p.sigma x.N n1 n2 n3 i1 i2 i3 u)) acc
      (recEntry n1 n2 n3 i1 i2 i3 bino T acc e) := by
  have h3 : 0 ≤ ix e.1 3 := he.2 3
  have H := fun (Q1 Q2 Q3 Q4 : Ctx → ℝ) h1 h2 h3 h4 h1' h2' h3' h4' =>
    ((branch_spec (o := Odd n3) (2 ≤ (n1 : ℤ) ∧ 0 ≤ (n2 : ℤ) ∧ 0 ≤ (n3 : ℤ)) e.1 he
      (four (bino * (((n1 : ℤ) * ((n1 : ℤ) - 1) : ℤ) / 2 : ℚ) * e.2) (ix e.1 2 + 1) (ix e.1 3)
        [(n1 : ℤ) - 2, n2, n3, i1, i2, i3] [(n1 : ℤ) - 1, n2, n3, i1, i2, i3]
        [(n1 : ℤ) - 2, n2, n3, (i1 : ℤ) + 1, i2, i3] T) Q1 h1 h1' acc ha hA).bind fun acc ha hA =>
    (branch_spec (0 ≤ (n1 : ℤ) ∧ 2 ≤ (n2 : ℤ) ∧ 0 ≤ (n3 : ℤ)) e.1 he
      (four (bino * (((n2 : ℤ) * ((n2 : ℤ) - 1) : ℤ) / 2 : ℚ) * e.2) (ix e.1 2 - 1) (ix e.1 3)
        [(n1 : ℤ), (n2 : ℤ) - 2, n3, i1, i2, i3] [(n1 : ℤ) + 1, (n2 : ℤ) - 2, n3, i1, i2, i3]
        [(n1 : ℤ), (n2 : ℤ) - 2, n3, (i1 : ℤ) + 1, i2, i3] T) Q2 h2 h2' acc ha hA).bind fun acc ha hA =>
    (branch_spec (1 ≤ (n1 : ℤ) ∧ 1 ≤ (n2 : ℤ) ∧ 0 ≤ (n3 : ℤ)) e.1 he
      (four (bino * (n1 : ℤ) * (n2 : ℤ) * e.2) (ix e.1 2 + 0) (ix e.1 3)
        [(n1 : ℤ) - 1, (n2 : ℤ) - 1, n3, i1, i2, i3] [(n1 : ℤ) + 0, (n2 : ℤ) - 1, n3, i1, i2, i3]
        [(n1 : ℤ) - 1, (n2 : ℤ) - 1, n3, (i1 : ℤ) + 1, i2, i3] T) Q3 h3 h3' acc ha hA).bind fun acc ha hA =>
    (branch_spec (0 ≤ (n1 : ℤ) ∧ 0 ≤ (n2 : ℤ) ∧ 2 ≤ (n3 : ℤ)) e.1 he
      (four (bino * (((n3 : ℤ) * ((n3 : ℤ) - 1) : ℤ) / 2 : ℚ) * e.2) (ix e.1 2 - 1) (ix e.1 3)
        [(n1 : ℤ), n2, (n3 : ℤ) - 2, i1, i2, i3] [(n1 : ℤ) + 1, n2, (n3 : ℤ) - 2, i1, i2, i3]
        [(n1 : ℤ), n2, (n3 : ℤ) - 2, (i1 : ℤ) + 1, i2, i3] T) Q4 h4 h4' acc ha hA))
  unfold recEntry
  refine (H
    (fun x => (bino * (((n1 : ℤ) * ((n1 : ℤ) - 1) : ℤ) / 2 : ℚ) * e.2 : ℚ) *
      ∫ u in (0 : ℝ)..x.t, Real.exp ((ix e.1 2 + 1 : ℤ) * x.p.k * u) * u ^ (ix e.1 3).toNat *
        VV x.p.k x.p.v0 x.p.theta x.p.sigma x.N (n1 - 2) n2 n3 i1 i2 i3 u)
    (fun x => (bino * (((n2 : ℤ) * ((n2 : ℤ) - 1) : ℤ) / 2 : ℚ) * e.2 : ℚ) *
      ∫ u in (0 : ℝ)..x.t, Real.exp ((ix e.1 2 - 1 : ℤ) * x.p.k * u) * u ^ (ix e.1 3).toNat *
        VV x.p.k x.p.v0 x.p.theta x.p.sigma x.N n1 (n2 - 2) n3 i1 i2 i3 u)
    (fun x => (bino * (n1 : ℤ) * (n2 : ℤ) * e.2 : ℚ) *
      ∫ u in (0 : ℝ)..x.t, Real.exp ((ix e.1 2 + 0 : ℤ) * x.p.k * u) * u ^ (ix e.1 3).toNat *
        VV x.p.k x.p.v0 x.p.theta x.p.sigma x.N (n1 - 1) (n2 - 1) n3 i1 i2 i3 u)
    (fun x => (bino * (((n3 : ℤ) * ((n3 : ℤ) - 1) : ℤ) / 2 : ℚ) * e.2 : ℚ) *
      ∫ u in (0 : ℝ)..x.t, Real.exp ((ix e.1 2 - 1 : ℤ) * x.p.k * u) * u ^ (ix e.1 3).toNat *
        VV x.p.k x.p.v0 x.p.theta x.p.sigma x.N n1 n2 (n3 - 2) i1 i2 i3 u)
    ?_ ?_ ?_ ?_ ?_ ?_ ?_ ?_).congr ?_
  · rintro ⟨h, -, -⟩
    obtain ⟨a, rfl⟩ : ∃ a, n1 = a + 2 := ⟨n1 - 2, by omega⟩
    have e1 : ((a + 2 : ℕ) : ℤ) - 2 = a := by push_cast; ring
    have e2 : ((a + 2 : ℕ) : ℤ) - 1 = (a + 1 : ℕ) := by push_cast; ring
    have e3 : (i1 : ℤ) + 1 = (i1 + 1 : ℕ) := by push_cast; ring
    rw [e1, e2, e3, Nat.add_sub_cancel]
    exact four_spec _ _ _ h3 a n2 n3 i1 i2 i3 _ _ _ T (hT _ _ _ _ _ _ (by omega)) (hT _ _ _ _ _ _ (by omega))
      (hT _ _ _ _ _ _ (by omega))
  · rintro ⟨-, h, -⟩
    obtain ⟨a, rfl⟩ : ∃ a, n2 = a + 2 := ⟨n2 - 2, by omega⟩
    have e1 : ((a + 2 : ℕ) : ℤ) - 2 = a := by push_cast; ring
    have e2 : (n1 : ℤ) + 1 = (n1 + 1 : ℕ) := by push_cast; ring
    have e3 : (i1 : ℤ) + 1 = (i1 + 1 : ℕ) := by push_cast; ring
    rw [e1, e2, e3, Nat.add_sub_cancel]
    exact four_spec _ _ _ h3 n1 a n3 i1 i2 i3 _ _ _ T (hT _ _ _ _ _ _ (by omega)) (hT _ _ _ _ _ _ (by omega))
      (hT _ _ _ _ _ _ (by omega))
  · rintro ⟨h, h', -⟩
    obtain ⟨a, rfl⟩ : ∃ a, n1 = a + 1 := ⟨n1 - 1, by omega⟩
    obtain ⟨b, rfl⟩ : ∃ b, n2 = b + 1 := ⟨n2 - 1, by omega⟩
    have e1 : ((a + 1 : ℕ) : ℤ) - 1 = a := by push_cast; ring
    have e1' : ((b + 1 : ℕ) : ℤ) - 1 = b := by push_cast; ring
    have e2 : ((a + 1 : ℕ) : ℤ) + 0 = (a + 1 : ℕ) := by push_cast; ring
    have e3 : (i1 : ℤ) + 1 = (i1 + 1 : ℕ) := by push_cast; ring
    rw [e1, e1', e2, e3, Nat.add_sub_cancel, Nat.add_sub_cancel]
    exact four_spec _ _ _ h3 a b n3 i1 i2 i3 _ _ _ T (hT _ _ _ _ _ _ (by omega)) (hT _ _ _ _ _ _ (by omega))
      (hT _ _ _ _ _ _ (by omega))
  · rintro ⟨-, -, h⟩
    obtain ⟨a, rfl⟩ : ∃ a, n3 = a + 2 := ⟨n3 - 2, by omega⟩
    have e1 : ((a + 2 : ℕ) : ℤ) - 2 = a := by push_cast; ring
    have e2 : (n1 : ℤ) + 1 = (n1 + 1 : ℕ) := by push_cast; ring
    have e3 : (i1 : ℤ) + 1 = (i1 + 1 : ℕ) := by push_cast; ring
    have e4 : Odd (a + 2) ↔ Odd a := by rw [Nat.odd_add]; simp
    rw [e1, e2, e3, Nat.add_sub_cancel, e4]
    exact four_spec _ _ _ h3 n1 n2 a i1 i2 i3 _ _ _ T (hT _ _ _ _ _ _ (by omega)) (hT _ _ _ _ _ _ (by omega))
      (hT _ _ _ _ _ _ (by omega))
  · intro h x
    have : n1 = 0 ∨ n1 = 1 := by omega
    rcases this with rfl | rfl <;> simp
  · intro h x
    have : n2 = 0 ∨ n2 = 1 := by omega
    rcases this with rfl | rfl <;> simp
  · intro h x
    have : n1 = 0 ∨ n2 = 0 := by omega
    rcases this with rfl | rfl <;> simp
  · intro h x
    have : n3 = 0 ∨ n3 = 1 := by omega
    rcases this with rfl | rfl <;> simp
  · intro x
    rw [int_wX_FF x e.1 h3]
    push_cast
    ring

theorem sum_int_wX (x : Ctx) (g : ℝ → ℝ) (hg : ContinuousOn g (Set.Ici 0)) (r : IPoly) (hr : r.Keys (NN 9)) :
    (r.items.map fun e => e.2 * ∫ u in (0 : ℝ)..x.t, wX x.p u x.t e.1 * g u).sum =
      ∫ u in (0 : ℝ)..x.t, ev (wX x.p u x.t) r * g u := by
  have h' : ∀ e ∈ r.items, NN 9 e.1 := hr
  have hc : ∀ k, NN 9 k → Continuous fun u => wX x.p u x.t k := by
    intro k hk
    obtain ⟨n, hn⟩ := Int.eq_ofNat_of_zero_le (hk.2 3)
    unfold wX
    rw [hn]
    simp only [zpow_natCast]
    fun_prop
  unfold ev
  generalize r.items = l at h'
  suffices H : ContinuousOn (fun u => (l.map fun e => (e.2 : ℝ) * wX x.p u x.t e.1).sum) (Set.Ici 0) ∧
      (l.map fun e => e.2 * ∫ u in (0 : ℝ)..x.t, wX x.p u x.t e.1 * g u).sum =
      ∫ u in (0 : ℝ)..x.t, (l.map fun e => (e.2 : ℝ) * wX x.p u x.t e.1).sum * g u by
    simp only [Rat.smul_def]
    exact H.2
  induction l with
  | nil => simpa using continuousOn_const
  | cons a l ih =>
    obtain ⟨h1, h2⟩ := ih fun e he => h' e (by simp [he])
    have ca := (hc a.1 (h' a (by simp))).continuousOn (s := Set.Ici 0)
    simp only [List.map_cons, List.sum_cons]
    refine ⟨(continuousOn_const.mul ca).add h1, ?_⟩
    have hi : ∀ f : ℝ → ℝ, ContinuousOn f (Set.Ici 0) → IntervalIntegrable f MeasureTheory.volume 0 x.t := by
      intro f hf
      apply ContinuousOn.intervalIntegrable
      rw [Set.uIcc_of_le x.ht]
      exact hf.mono (Set.Icc_subset_Ici_self : Set.Icc 0 x.t ⊆ Set.Ici 0)
    have i1 := hi (fun u => (a.2 : ℝ) * (wX x.p u x.t a.1 * g u)) (continuousOn_const.mul (ca.mul hg))
    have i2 := hi (fun u => (l.map fun e => (e.2 : ℝ) * wX x.p u x.t e.1).sum * g u) (h1.mul hg)
    rw [h2, ← intervalIntegral.integral_const_mul, ← intervalIntegral.integral_add i1 i2]
    congr 1
    funext u
    ring

theorem recRound_spec (n1 n2 n3 n4 n5 n6 i1 i2 i3 : ℕ) (h4 : i1 ≤ n4) (h5 : i2 ≤ n5) (h6 : i3 ≤ n6) (T : Tab)
    (hT : Get T (n1 + n2 + n3 + n4 + n5 + n6)) (acc : IPoly) (ha : acc.keyfor = kfI) (hA : acc.Keys KI) :
    Step (Odd n3) (fun x => (n4.choose i1 * n5.choose i2 * n6.choose i3 : ℝ) * ∫ u in (0 : ℝ)..x.t,
      Z x.p.toPar (n4 - i1) (n5 - i2) (n6 - i3) u x.t *
        FF x.p.k x.p.v0 x.p.theta x.p.sigma x.N n1 n2 n3 i1 i2 i3 u) acc
      (recRound n1 n2 n3 n4 n5 n6 T acc (i1, i2, i3)) := by
  have e4 : (n4 : ℤ) - i1 = (n4 - i1 : ℕ) := by omega
  have e5 : (n5 : ℤ) - i2 = (n5 - i2 : ℕ) := by omega
  have e6 : (n6 : ℤ) - i3 = (n6 - i3 : ℕ) := by omega
  obtain ⟨m, em, -, -, -, mK, mv⟩ := moment_spec (n4 - i1) (n5 - i2) (n6 - i3)
  obtain ⟨xK, xv⟩ := expandZ_spec m mK
  have hne := expandZ_ne _ _ _ m em
  unfold recRound
  dsimp only
  rw [e4, e5, e6, em, ok_bind, if_neg (by simpa using hne)]
  simp only [Int.toNat_natCast]
  refine (Step.fold _ _ _ (fun e he acc ha hA => recEntry_spec n1 n2 n3 i1 i2 i3 _ T
    (fun m1 m2 m3 m4 m5 m6 h => hT m1 m2 m3 m4 m5 m6 (by omega)) e (xK e he) acc ha hA) acc ha hA).congr fun x => ?_
  rw [List.sum_map_mul_left, sum_int_wX x _ (x.hN.FF_cont n1 n2 n3 i1 i2 i3) _ xK]
  push_cast
  congr 2
  funext u
  rw [xv, mv]
  rfl

theorem pyRange_nat (n : ℕ) : pyRange 0 ((n : ℤ) + 1) = (List.range (n + 1)).map fun i : ℕ => (i : ℤ) := by
  unfold pyRange
  have : ((n : ℤ) + 1 - 0).toNat = n + 1 := by omega
  rw [this]
  simp

theorem mem_recIdx (n4 n5 n6 : ℕ) (i : ℤ × ℤ × ℤ) (h : i ∈ recIdx n4 n5 n6) :
    ∃ i1 i2 i3 : ℕ, i = ((i1 : ℤ), (i2 : ℤ), (i3 : ℤ)) ∧ i1 ≤ n4 ∧ i2 ≤ n5 ∧ i3 ≤ n6 := by
  unfold recIdx at h
  simp only [List.mem_flatMap, List.mem_map, mem_pyRange] at h
  obtain ⟨a, ha, b, hb, c, hc, rfl⟩ := h
  exact ⟨a.toNat, b.toNat, c.toNat, by simp; omega, by omega, by omega, by omega⟩

theorem recIdx_sum (n4 n5 n6 : ℕ) (F : ℕ → ℕ → ℕ → ℝ) :
    ((recIdx n4 n5 n6).map fun i => F i.1.toNat i.2.1.toNat i.2.2.toNat).sum =
      ∑ i1 ∈ range (n4 + 1), ∑ i2 ∈ range (n5 + 1), ∑ i3 ∈ range (n6 + 1), F i1 i2 i3 := by
  unfold recIdx
  rw [sum_flatMap, pyRange_nat n4, List.map_map, list_range_sum]
  refine sum_congr rfl fun i1 _ => ?_
  simp only [Function.comp]
  rw [sum_flatMap, pyRange_nat n5, List.map_map, list_range_sum]
  refine sum_congr rfl fun i2 _ => ?_
  simp only [Function.comp]
  rw [List.map_map, pyRange_nat, List.map_map, list_range_sum]
  refine sum_congr rfl fun i3 _ => ?_
  simp

theorem good_Z (n4 n5 n6 : ℕ) : ∃ m, Ieziziz.moment n4 n5 n6 = .ok m ∧ GoodN 0 0 0 n4 n5 n6 (toI m) := by
  obtain ⟨m, em, -, -, -, mK, mv⟩ := moment_spec n4 n5 n6
  obtain ⟨a1, a2, a3⟩ := toI_spec m mK
  refine ⟨m, em, a1, a2, fun h => by simp at h, fun x => ?_⟩
  rw [a3, mv, x.hN.volt x.hk _ _ _ _ _ _ _ x.ht, if_pos (by simp)]
  have hF : ∀ i1 i2 i3 u, FF x.p.k x.p.v0 x.p.theta x.p.sigma x.N 0 0 0 i1 i2 i3 u = 0 := by
    intro i1 i2 i3 u; unfold FF; simp
  simp only [hF]
  simp [Z]

theorem recI_spec (n1 n2 n3 n4 n5 n6 : ℕ) (T : Tab) (hT : Get T (n1 + n2 + n3 + n4 + n5 + n6)) :
    ∃ r, recI [(n1 : ℤ), (n2 : ℤ), (n3 : ℤ), (n4 : ℤ), (n5 : ℤ), (n6 : ℤ)] T = .ok r ∧ GoodN n1 n2 n3 n4 n5 n6 r := by
  unfold recI
  simp only [ix_cons_succ, ix_cons_zero, Int.natCast_eq_zero]
  split_ifs with h
  · obtain ⟨rfl, rfl, rfl⟩ := h
    obtain ⟨m, em, g⟩ := good_Z n4 n5 n6
    exact ⟨_, by rw [em, ok_bind]; rfl, g⟩
  · have H := Step.fold (o := Odd n3) (recRound n1 n2 n3 n4 n5 n6 T) (fun i x =>
      (n4.choose i.1.toNat * n5.choose i.2.1.toNat * n6.choose i.2.2.toNat : ℝ) * ∫ u in (0 : ℝ)..x.t,
        Z x.p.toPar (n4 - i.1.toNat) (n5 - i.2.1.toNat) (n6 - i.2.2.toNat) u x.t *
        FF x.p.k x.p.v0 x.p.theta x.p.sigma x.N n1 n2 n3 i.1.toNat i.2.1.toNat i.2.2.toNat u) (recIdx n4 n5 n6)
      (by
        intro i hi acc ha hA
        obtain ⟨i1, i2, i3, rfl, h4, h5, h6⟩ := mem_recIdx _ _ _ _ hi
        exact recRound_spec n1 n2 n3 n4 n5 n6 i1 i2 i3 h4 h5 h6 T hT acc ha hA) ⟨kfI, []⟩ rfl (by intro x hx; simp at hx)
    obtain ⟨r, e, k, K, v, z⟩ := H
    refine ⟨r, e, k, K, fun ho => z ho (by simp), fun x => ?_⟩
    rw [v, x.hN.volt x.hk _ _ _ _ _ _ _ x.ht, if_neg h, ev_nil]
    congr 1
    exact recIdx_sum n4 n5 n6 fun i1 i2 i3 => (n4.choose i1 * n5.choose i2 * n6.choose i3 : ℝ) *
      ∫ u in (0 : ℝ)..x.t, Z x.p.toPar (n4 - i1) (n5 - i2) (n6 - i3) u x.t *
        FF x.p.k x.p.v0 x.p.theta x.p.sigma x.N n1 n2 n3 i1 i2 i3 u

/-! ### `moment_ieii_ieziziz` -/

theorem len6 {α : Type*} (l : List α) (h : l.length = 6) : ∃ a b c d e f, l = [a, b, c, d, e, f] := by
  match l, h with
  | [a, b, c, d, e, f], _ => exact ⟨a, b, c, d, e, f, rfl⟩

def goodL (n : List ℤ) (r : IPoly) : Prop :=
  GoodN (ix n 0).toNat (ix n 1).toNat (ix n 2).toNat (ix n 3).toNat (ix n 4).toNat (ix n 5).toNat r

def levL (n : List ℤ) : ℤ := ix n 0 + ix n 1 + ix n 2 + ix n 3 + ix n 4 + ix n 5

theorem NN_six (a b c d e f : ℤ) : NN 6 [a, b, c, d, e, f] ↔
    0 ≤ a ∧ 0 ≤ b ∧ 0 ≤ c ∧ 0 ≤ d ∧ 0 ≤ e ∧ 0 ≤ f := by
  constructor
  · intro h; exact ⟨h.2 0, h.2 1, h.2 2, h.2 3, h.2 4, h.2 5⟩
  · rintro ⟨h0, h1, h2, h3, h4, h5⟩
    refine ⟨rfl, fun n => ?_⟩
    match n with
    | 0 => exact h0
    | 1 => exact h1
    | 2 => exact h2
    | 3 => exact h3
    | 4 => exact h4
    | 5 => exact h5
    | n + 6 => simp

theorem mem_idxI (n : ℤ) (hn : 0 ≤ n) (i : List ℤ) : i ∈ idxI n ↔ NN 6 i ∧ levL i = n := by
  unfold idxI
  simp only [List.mem_flatMap, List.mem_map, mem_pyRange]
  constructor
  · rintro ⟨a, ha, b, hb, c, hc, d, hd, e, he, rfl⟩
    refine ⟨(NN_six _ _ _ _ _ _).2 (by omega), ?_⟩
    simp only [levL, ix_cons_succ, ix_cons_zero]
    ring
  · rintro ⟨h, hl⟩
    obtain ⟨a, b, c, d, e, f, rfl⟩ := len6 i h.1
    have := (NN_six _ _ _ _ _ _).1 h
    simp only [levL, ix_cons_succ, ix_cons_zero] at hl
    exact ⟨a, by omega, b, by omega, c, by omega, d, by omega, e, by omega, by
      rw [show n - a - b - c - d - e = f by omega]⟩

theorem tab_get (T : Tab) (l : ℤ) (hT : TabGood goodL (fun j => NN 6 j ∧ levL j < l) T) : Get T l.toNat := by
  intro m1 m2 m3 m4 m5 m6 h
  obtain ⟨v, h1, h2⟩ := hT [(m1 : ℤ), (m2 : ℤ), (m3 : ℤ), (m4 : ℤ), (m5 : ℤ), (m6 : ℤ)]
    ⟨(NN_six _ _ _ _ _ _).2 (by omega), by simp only [levL, ix_cons_succ, ix_cons_zero]; omega⟩
  refine ⟨v, h1, ?_⟩
  simpa [goodL] using h2

theorem recI_step (n : List ℤ) (hn : NN 6 n) (T : Tab)
    (hT : TabGood goodL (fun j => NN 6 j ∧ levL j < levL n) T) : ∃ r, recI n T = .ok r ∧ goodL n r := by
  obtain ⟨a, b, c, d, e, f, rfl⟩ := len6 n hn.1
  obtain ⟨h0, h1, h2, h3, h4, h5⟩ := (NN_six _ _ _ _ _ _).1 hn
  lift a to ℕ using h0
  lift b to ℕ using h1
  lift c to ℕ using h2
  lift d to ℕ using h3
  lift e to ℕ using h4
  lift f to ℕ using h5
  have hg := tab_get T _ hT
  have : (levL [(a : ℤ), (b : ℤ), (c : ℤ), (d : ℤ), (e : ℤ), (f : ℤ)]).toNat = a + b + c + d + e + f := by
    simp only [levL, ix_cons_succ, ix_cons_zero]; omega
  rw [this] at hg
  obtain ⟨r, e1, g⟩ := recI_spec a b c d e f T hg
  exact ⟨r, e1, by simpa [goodL] using g⟩

theorem good_P0 (n1 n2 n3 : ℕ) (h : n1 + n2 + n3 = 1) :
    GoodN n1 n2 n3 0 0 0 ⟨kfI, [([0, 0, 0, 0, 0, 0, 0, 0, 0, 0], 0)]⟩ := by
  refine ⟨rfl, ?_, fun _ f => by simp [ev], fun x => ?_⟩
  · intro y hy
    simp only [List.mem_singleton] at hy
    subst hy
    exact (KI_iff _ _ _ _ _ _ _ _ _ _).2 (by simp)
  · rw [x.hN.volt x.hk _ _ _ _ _ _ _ x.ht, if_neg (by omega)]
    have hF : ∀ u, FF x.p.k x.p.v0 x.p.theta x.p.sigma x.N n1 n2 n3 0 0 0 u = 0 := by
      intro u
      have : (n1 = 0 ∧ n2 = 0 ∧ n3 = 1) ∨ (n1 = 0 ∧ n2 = 1 ∧ n3 = 0) ∨ (n1 = 1 ∧ n2 = 0 ∧ n3 = 0) := by omega
      unfold FF
      rcases this with ⟨rfl, rfl, rfl⟩ | ⟨rfl, rfl, rfl⟩ | ⟨rfl, rfl, rfl⟩ <;> simp
    simp [hF, ev]

theorem T0_good : ∃ T, tabI = .ok T ∧ TabGood goodL (fun j => NN 6 j ∧ levL j < 2) T := by
  obtain ⟨m1, e1, g1⟩ := good_Z 1 0 0
  obtain ⟨m2, e2, g2⟩ := good_Z 0 1 0
  obtain ⟨m3, e3, g3⟩ := good_Z 0 0 1
  refine ⟨_, by
    unfold tabI
    norm_num at e1 e2 e3
    rw [e1, ok_bind, e2, ok_bind, e3, ok_bind]
    rfl, ?_⟩
  rintro j ⟨hj, hl⟩
  obtain ⟨a, b, c, d, e, f, rfl⟩ := len6 j hj.1
  obtain ⟨h0, h1, h2, h3, h4, h5⟩ := (NN_six _ _ _ _ _ _).1 hj
  simp only [levL, ix_cons_succ, ix_cons_zero] at hl
  have : (a = 0 ∧ b = 0 ∧ c = 0 ∧ d = 0 ∧ e = 0 ∧ f = 0) ∨ (a = 1 ∧ b = 0 ∧ c = 0 ∧ d = 0 ∧ e = 0 ∧ f = 0) ∨
      (a = 0 ∧ b = 1 ∧ c = 0 ∧ d = 0 ∧ e = 0 ∧ f = 0) ∨ (a = 0 ∧ b = 0 ∧ c = 1 ∧ d = 0 ∧ e = 0 ∧ f = 0) ∨
      (a = 0 ∧ b = 0 ∧ c = 0 ∧ d = 1 ∧ e = 0 ∧ f = 0) ∨ (a = 0 ∧ b = 0 ∧ c = 0 ∧ d = 0 ∧ e = 1 ∧ f = 0) ∨
      (a = 0 ∧ b = 0 ∧ c = 0 ∧ d = 0 ∧ e = 0 ∧ f = 1) := by omega
  rcases this with ⟨rfl, rfl, rfl, rfl, rfl, rfl⟩ | ⟨rfl, rfl, rfl, rfl, rfl, rfl⟩ | ⟨rfl, rfl, rfl, rfl, rfl, rfl⟩ |
    ⟨rfl, rfl, rfl, rfl, rfl, rfl⟩ | ⟨rfl, rfl, rfl, rfl, rfl, rfl⟩ | ⟨rfl, rfl, rfl, rfl, rfl, rfl⟩ |
    ⟨rfl, rfl, rfl, rfl, rfl, rfl⟩
  · refine ⟨_, rfl, ?_⟩
    refine ⟨rfl, ?_, fun h => by simp [ix] at h, fun x => ?_⟩
    · intro y hy
      simp only [List.mem_singleton] at hy
      subst hy
      exact (KI_iff _ _ _ _ _ _ _ _ _ _).2 (by simp)
    · obtain ⟨m, em, g⟩ := good_Z 0 0 0
      have h1 := g.2.2.2 x
      have h2 : toI m = ⟨kfI, [([0, 0, 0, 0, 0, 0, 0, 0, 0, 0], 1)]⟩ := by
        have : Ieziziz.moment 0 0 0 = .ok ⟨kf0, [([0, 0, 0, 0, 0, 0, 0, 0], 1)]⟩ := rfl
        norm_num at em
        rw [em] at this
        obtain rfl := Except.ok.inj this
        rfl
      rw [h2] at h1
      exact h1
  · exact ⟨_, rfl, good_P0 1 0 0 rfl⟩
  · exact ⟨_, rfl, good_P0 0 1 0 rfl⟩
  · exact ⟨_, rfl, good_P0 0 0 1 rfl⟩
  · exact ⟨_, rfl, g1⟩
  · exact ⟨_, rfl, g2⟩
  · exact ⟨_, rfl, g3⟩

theorem momentI_spec (n1 n2 n3 n4 n5 n6 : ℕ) :
    ∃ r, momentI n1 n2 n3 n4 n5 n6 = .ok r ∧ GoodN n1 n2 n3 n4 n5 n6 r := by
  obtain ⟨T0, e0, g0⟩ := T0_good
  unfold momentI
  rw [if_neg (by omega), e0, ok_bind]
  have hv : NN 6 [(n1 : ℤ), (n2 : ℤ), (n3 : ℤ), (n4 : ℤ), (n5 : ℤ), (n6 : ℤ)] := (NN_six _ _ _ _ _ _).2 (by omega)
  have hl : levL [(n1 : ℤ), (n2 : ℤ), (n3 : ℤ), (n4 : ℤ), (n5 : ℤ), (n6 : ℤ)] =
      (n1 : ℤ) + n2 + n3 + n4 + n5 + n6 := by simp only [levL, ix_cons_succ, ix_cons_zero]
  obtain ⟨T, eT, gT⟩ : ∃ T, fillLevels recI idxI (fun _ _ => false)
      (pyRange 2 ((n1 : ℤ) + n2 + n3 + n4 + n5 + n6)) T0 = .ok T ∧
      TabGood goodL (fun j => NN 6 j ∧ levL j < (n1 : ℤ) + n2 + n3 + n4 + n5 + n6) T := by
    by_cases h2 : 2 ≤ (n1 : ℤ) + n2 + n3 + n4 + n5 + n6
    · exact fillLevels_all goodL (NN 6) levL recI idxI 2 _ h2 (fun n hn _ i => mem_idxI n (by omega) i)
        (fun i hi _ _ T hT => recI_step i hi T hT) T0 g0
    · refine ⟨T0, ?_, fun j hj => g0 j ⟨hj.1, by omega⟩⟩
      have : pyRange 2 ((n1 : ℤ) + n2 + n3 + n4 + n5 + n6) = [] := by
        unfold pyRange
        rw [show ((n1 : ℤ) + n2 + n3 + n4 + n5 + n6 - 2).toNat = 0 by omega]
        rfl
      rw [this]
      rfl
  rw [eT, ok_bind]
  obtain ⟨r, e, g⟩ := recI_step _ hv T (by rw [hl]; exact gT)
  exact ⟨r, e, by simpa [goodL] using g⟩

end Ajd.SvcjI
