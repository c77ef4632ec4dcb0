import Verif.Lemmas.Dyn
import Verif.Spec.GenAt
import Verif.Lemmas.GenMap

section -- DynAt

/-!
Linear evolution equations `d/dt L_t(f) = L_t(A f)` with `L_t = L_{t-} ∘ K_t` at finitely many times.
-/

namespace Ajd.Dyn
open Filter Topology

variable {P : Type} [AddCommGroup P] [Module ℝ P]

/-- `d/dt L_t(f) = L_t(A f)` between the jumps, `L_t = L_{t-} ∘ K_t` -/
structure SolAt (A : P →ₗ[ℝ] P) (K : ℝ → P →ₗ[ℝ] P) (L : ℝ → P →ₗ[ℝ] ℝ) : Prop where
  deriv : ∀ f t, 0 ≤ t → HasDerivWithinAt (fun t => L t f) (L t (A f)) (Set.Ici t) t
  left : ∀ t, 0 < t → ∃ L' : P →ₗ[ℝ] ℝ, (∀ f, Tendsto (fun u => L u f) (𝓝[<] t) (𝓝 (L' f))) ∧ L t = L' ∘ₗ K t

/-- the jumps are at the times `F` -/
def Only (F : Finset ℝ) (K : ℝ → P →ₗ[ℝ] P) : Prop := ∀ t, t ∉ F → K t = LinearMap.id

theorem SolAt.sub {A : P →ₗ[ℝ] P} {K : ℝ → P →ₗ[ℝ] P} {L L' : ℝ → P →ₗ[ℝ] ℝ} (h : SolAt A K L)
    (h' : SolAt A K L') : SolAt A K fun t => L t - L' t where
  deriv f t ht := (h.deriv f t ht).sub (h'.deriv f t ht)
  left t ht := by
    obtain ⟨M, hM, e⟩ := h.left t ht
    obtain ⟨M', hM', e'⟩ := h'.left t ht
    exact ⟨M - M', fun f => (hM f).sub (hM' f), by rw [e, e', LinearMap.sub_comp]⟩

theorem SolAt.cont {A : P →ₗ[ℝ] P} {K : ℝ → P →ₗ[ℝ] P} {L : ℝ → P →ₗ[ℝ] ℝ}
    (h : SolAt A K L) (f : P) (t : ℝ) (ht : 0 < t) (hK : ∀ L' : P →ₗ[ℝ] ℝ, L' (K t f) = L' f) :
    ContinuousAt (fun u => L u f) t := by
  rw [continuousAt_iff_continuous_left'_right']
  refine ⟨?_, ((h.deriv f t ht.le).continuousWithinAt).mono Set.Ioi_subset_Ici_self⟩
  obtain ⟨M, hM, e⟩ := h.left t ht
  have := hM f
  rw [← hK M] at this
  rw [ContinuousWithinAt, e]
  exact this

theorem SolAt.contOn {A : P →ₗ[ℝ] P} {K : ℝ → P →ₗ[ℝ] P} {L : ℝ → P →ₗ[ℝ] ℝ}
    (h : SolAt A K L) (f : P) (a b : ℝ) (ha : 0 ≤ a) (hK : ∀ t, a < t → t ≤ b → ∀ L' : P →ₗ[ℝ] ℝ, L' (K t f) = L' f) :
    ContinuousOn (fun u => L u f) (Set.Icc a b) := by
  intro t ht
  rcases eq_or_lt_of_le ht.1 with rfl | hlt
  · exact ((h.deriv f a ha).continuousWithinAt).mono Set.Icc_subset_Ici_self
  · exact (h.cont f t (ha.trans_lt hlt) (hK t hlt ht.2)).continuousWithinAt

theorem zero_on {A : P →ₗ[ℝ] P} (hA : LF A) {L : ℝ → P →ₗ[ℝ] ℝ} {a b : ℝ} (hab : a ≤ b)
    (hc : ∀ f, ContinuousOn (fun t => L t f) (Set.Icc a b))
    (hd : ∀ f t, t ∈ Set.Ico a b → HasDerivWithinAt (fun t => L t f) (L t (A f)) (Set.Ici t) t)
    (h0 : L a = 0) : L b = 0 := by
  ext f
  obtain ⟨W, hW, hf, hinv⟩ := hA f
  let e := Module.finBasis ℝ W
  let n := Module.finrank ℝ W
  let φ : ℝ → (Fin n → ℝ) := fun t i => L t (e i)
  let M : (Fin n → ℝ) →ₗ[ℝ] (Fin n → ℝ) :=
    LinearMap.pi fun i => ∑ j, e.repr ⟨A (e i), hinv _ (e i).2⟩ j • LinearMap.proj j
  have hM : ∀ t, M (φ t) = fun i => L t (A (e i)) := by
    intro t
    funext i
    have := congrArg (fun w : W => L t w) (e.sum_repr ⟨A (e i), hinv _ (e i).2⟩)
    simp only [Submodule.coe_sum, Submodule.coe_smul, map_sum, map_smul] at this
    rw [← this]
    simp [M, φ, LinearMap.pi_apply]
  have hLip : LipschitzWith ‖LinearMap.toContinuousLinearMap M‖₊ (M : (Fin n → ℝ) → (Fin n → ℝ)) :=
    (LinearMap.toContinuousLinearMap M).lipschitz
  have hφ : Set.EqOn φ (fun _ => 0) (Set.Icc a b) := by
    refine ODE_solution_unique (v := fun _ => M) (K := ‖LinearMap.toContinuousLinearMap M‖₊) (fun _ => hLip)
      (continuousOn_pi.2 fun i => hc (e i)) (fun s hs => ?_)
      continuousOn_const (fun s hs => ?_) ?_
    · rw [hM, hasDerivWithinAt_pi]
      exact fun i => hd (e i) s hs
    · rw [map_zero]; exact hasDerivWithinAt_const _ _ _
    · funext i
      simp [φ, h0]
  have hz := hφ ⟨hab, le_refl b⟩
  have hfr := congrArg (fun w : W => L b w) (e.sum_repr ⟨f, hf⟩)
  simp only [Submodule.coe_sum, Submodule.coe_smul, map_sum, map_smul] at hfr
  rw [← hfr]
  have : ∀ i, L b (e i) = 0 := fun i => congrFun hz i
  simp [this]

theorem SolAt.zero_between {A : P →ₗ[ℝ] P} (hA : LF A) {F : Finset ℝ} {K : ℝ → P →ₗ[ℝ] P} (hF : Only F K)
    {L : ℝ → P →ₗ[ℝ] ℝ} (h : SolAt A K L) {a b : ℝ} (ha : 0 ≤ a) (hab : a ≤ b)
    (hq : ∀ x ∈ F, ¬(a < x ∧ x ≤ b)) (h0 : L a = 0) : L b = 0 := by
  refine zero_on hA hab (fun f => h.contOn f a b ha fun t h1 h2 L' => ?_)
    (fun f t ht => h.deriv f t (ha.trans ht.1)) h0
  rw [hF t fun hx => hq t hx ⟨h1, h2⟩]
  rfl

theorem SolAt.zero {A : P →ₗ[ℝ] P} (hA : LF A) {F : Finset ℝ} {K : ℝ → P →ₗ[ℝ] P} (hF : Only F K)
    {L : ℝ → P →ₗ[ℝ] ℝ} (h : SolAt A K L) (h0 : L 0 = 0) (t : ℝ) (ht : 0 ≤ t) : L t = 0 := by
  obtain ⟨n, hn⟩ : ∃ n, n = (F.filter fun x => 0 < x ∧ x ≤ t).card := ⟨_, rfl⟩
  induction n using Nat.strong_induction_on generalizing t with
  | _ n ih =>
    by_cases he : (F.filter fun x => 0 < x ∧ x ≤ t).Nonempty
    · obtain ⟨m, hm, hmax⟩ := Finset.exists_max_image _ id he
      rw [Finset.mem_filter] at hm
      obtain ⟨hmF, hm0, hmt⟩ := hm
      refine h.zero_between hA hF hm0.le hmt (fun x hx hc => ?_) ?_
      · have := hmax x (Finset.mem_filter.2 ⟨hx, hm0.trans hc.1, hc.2⟩)
        simp only [id] at this
        linarith [hc.1]
      · obtain ⟨M, hM, e⟩ := h.left m hm0
        have : M = 0 := by
          ext f
          refine tendsto_nhds_unique (hM f) ?_
          refine (tendsto_const_nhds (x := (0 : ℝ))).congr' ?_
          filter_upwards [Ioo_mem_nhdsLT hm0] with u hu
          rw [ih _ ?_ u hu.1.le rfl]
          · simp
          · rw [hn]
            refine Finset.card_lt_card ⟨fun x hx => ?_, fun hs => ?_⟩
            · rw [Finset.mem_filter] at hx ⊢
              exact ⟨hx.1, hx.2.1, hx.2.2.trans (hu.2.le.trans hmt)⟩
            · have := hs (Finset.mem_filter.2 ⟨hmF, hm0, hmt⟩)
              rw [Finset.mem_filter] at this
              linarith [this.2.2, hu.2]
        rw [e, this, LinearMap.zero_comp]
    · refine h.zero_between hA hF le_rfl ht (fun x hx hc => he ⟨x, Finset.mem_filter.2 ⟨hx, hc⟩⟩) h0

theorem SolAt.unique {A : P →ₗ[ℝ] P} (hA : LF A) {F : Finset ℝ} {K : ℝ → P →ₗ[ℝ] P} (hF : Only F K)
    {L L' : ℝ → P →ₗ[ℝ] ℝ} (h : SolAt A K L) (h' : SolAt A K L') (h0 : L 0 = L' 0) (t : ℝ) (ht : 0 ≤ t) :
    L t = L' t :=
  sub_eq_zero.1 ((h.sub h').zero hA hF (by simp [h0]) t ht)

/-- solutions exist -/
theorem exists_flow {A : P →ₗ[ℝ] P} (hA : LF A) (F : Finset ℝ) (h0 : ∀ x ∈ F, 0 < x) (K : ℝ → P →ₗ[ℝ] P)
    (hF : Only F K) : ∃ T : ℝ → P →ₗ[ℝ] P, T 0 = LinearMap.id ∧ ∀ ℓ : P →ₗ[ℝ] ℝ, SolAt A K fun t => ℓ ∘ₗ T t := by
  obtain ⟨Q, hQ0, hQ⟩ := exists_semigroup hA
  induction F using Finset.induction_on_max generalizing K with
  | empty =>
    refine ⟨Q, hQ0, fun ℓ => ⟨fun f t ht => (hQ ℓ f t ht).mono (Set.Ici_subset_Ici.2 ht), fun t ht => ?_⟩⟩
    refine ⟨ℓ ∘ₗ Q t, fun f => ?_, by rw [hF t (by simp), LinearMap.comp_id]⟩
    exact (((hQ ℓ f t ht.le).hasDerivAt (Ici_mem_nhds ht)).continuousAt.tendsto).mono_left nhdsWithin_le_nhds
  | insert m F' hm ih =>
    have hm0 : 0 < m := h0 m (Finset.mem_insert_self _ _)
    let K' : ℝ → P →ₗ[ℝ] P := fun t => if t = m then LinearMap.id else K t
    obtain ⟨T, hT0, hT⟩ := ih (fun x hx => h0 x (Finset.mem_insert_of_mem hx)) K' (fun t ht => by
      by_cases e : t = m
      · simp [K', e]
      · simp only [K', e, if_false]
        exact hF t (by simp [e, ht]))
    refine ⟨fun t => if t < m then T t else T m ∘ₗ K m ∘ₗ Q (t - m), by simp [hm0, hT0], fun ℓ => ⟨fun f t ht => ?_,
      fun t ht => ?_⟩⟩
    · rcases lt_or_ge t m with hlt | hge
      · dsimp only
        rw [if_pos hlt]
        refine ((hT ℓ).deriv f t ht).congr_of_eventuallyEq ?_ (by rw [if_pos hlt])
        filter_upwards [mem_nhdsWithin_of_mem_nhds (Iio_mem_nhds hlt)] with u hu
        have : u < m := hu
        rw [if_pos this]
      · dsimp only
        rw [if_neg (not_lt.2 hge)]
        have h1 := hQ (ℓ ∘ₗ T m ∘ₗ K m) f (t - m) (by linarith)
        have h2 : HasDerivWithinAt (fun u : ℝ => u - m) 1 (Set.Ici t) t := (hasDerivWithinAt_id t _).sub_const m
        have h3 := h1.scomp t h2 (fun u (hu : t ≤ u) => show (0 : ℝ) ≤ u - m by linarith)
        rw [one_smul] at h3
        refine h3.congr (fun u (hu : t ≤ u) => ?_) ?_
        · rw [if_neg (not_lt.2 (hge.trans hu))]; rfl
        · rw [if_neg (not_lt.2 hge)]; rfl
    · rcases lt_trichotomy t m with hlt | rfl | hgt
      · obtain ⟨M, hM, e⟩ := (hT ℓ).left t ht
        refine ⟨M, fun f => ?_, ?_⟩
        · refine (hM f).congr' ?_
          filter_upwards [self_mem_nhdsWithin] with u hu
          have : u < m := lt_trans hu hlt
          rw [if_pos this]
        · dsimp only
          rw [if_pos hlt, e]
          simp [K', hlt.ne]
      · obtain ⟨M, hM, e⟩ := (hT ℓ).left t ht
        refine ⟨M, fun f => ?_, ?_⟩
        · refine (hM f).congr' ?_
          filter_upwards [self_mem_nhdsWithin] with u hu
          have : u < t := hu
          rw [if_pos this]
        · have : K' t = LinearMap.id := by simp [K']
          rw [this, LinearMap.comp_id] at e
          dsimp only
          rw [if_neg (lt_irrefl t), sub_self, hQ0, LinearMap.comp_id, ← LinearMap.comp_assoc, e]
      · refine ⟨ℓ ∘ₗ T m ∘ₗ K m ∘ₗ Q (t - m), fun f => ?_, ?_⟩
        · have h1 := ((hQ (ℓ ∘ₗ T m ∘ₗ K m) f (t - m) (by linarith)).hasDerivAt
            (Ici_mem_nhds (by linarith))).continuousAt
          have h2 : ContinuousAt (fun u => (ℓ ∘ₗ T m ∘ₗ K m) (Q (u - m) f)) t :=
            ContinuousAt.comp (f := fun u : ℝ => u - m)
              (g := fun u => ((ℓ ∘ₗ T m ∘ₗ K m) ∘ₗ Q u) f) h1 (by fun_prop)
          refine (h2.tendsto.mono_left nhdsWithin_le_nhds).congr' ?_
          filter_upwards [mem_nhdsWithin_of_mem_nhds (Ioi_mem_nhds hgt)] with u hu
          have : ¬ u < m := not_lt.2 (le_of_lt hu)
          rw [if_neg this]
          rfl
        · have : K t = LinearMap.id := hF t (by
            simp only [Finset.mem_insert, not_or]
            exact ⟨hgt.ne', fun hx => absurd (hm t hx) (not_lt.2 hgt.le)⟩)
          dsimp only
          rw [this, LinearMap.comp_id, if_neg (not_lt.2 hgt.le)]

end Ajd.Dyn

end -- DynAt

section -- GenAt

/-! Jump-diffusions with jumps at fixed times. -/

namespace Ajd.Gen
open MvPolynomial MeasureTheory Dyn Filter Topology JumpDiff

variable {σ τ : Type} [Fintype σ] [Fintype τ] {N : ℕ}

/-- the times of the jumps are different and positive -/
structure Times (s : Fin N → ℝ) : Prop where
  inj : Function.Injective s
  pos : ∀ i, 0 < s i

/-- the jumps as operators -/
noncomputable def jat (s : Fin N → ℝ) (κ : Fin N → Measure (σ → ℝ)) (hκ : ∀ i, Mom (κ i)) (t : ℝ) :
    MvPolynomial σ ℝ →ₗ[ℝ] MvPolynomial σ ℝ :=
  open Classical in if h : ∃ i, s i = t then jump (κ h.choose) (hκ _) else LinearMap.id

theorem jat_at {s : Fin N → ℝ} (hs : Times s) (κ : Fin N → Measure (σ → ℝ)) (hκ : ∀ i, Mom (κ i)) (i : Fin N) :
    jat s κ hκ (s i) = jump (κ i) (hκ i) := by
  have h : ∃ j, s j = s i := ⟨i, rfl⟩
  have e : h.choose = i := hs.inj h.choose_spec
  rw [jat, dif_pos h]
  congr 1 <;> rw [e]

theorem jat_ne {s : Fin N → ℝ} (κ : Fin N → Measure (σ → ℝ)) (hκ : ∀ i, Mom (κ i)) {t : ℝ} (h : ¬∃ i, s i = t) :
    jat s κ hκ t = LinearMap.id := by
  rw [jat, dif_neg h]

theorem jat_only (s : Fin N → ℝ) (κ : Fin N → Measure (σ → ℝ)) (hκ : ∀ i, Mom (κ i)) :
    Only (Finset.univ.image s) (jat s κ hκ) := fun t ht =>
  jat_ne κ hκ fun ⟨i, hi⟩ => ht (Finset.mem_image.2 ⟨i, Finset.mem_univ i, hi⟩)

theorem quiet_right (s : Fin N → ℝ) (t : ℝ) : ∃ b, t < b ∧ Quiet s t b := by
  have h : ∀ᶠ u in 𝓝[>] t, ∀ i, ¬(t < s i ∧ s i ≤ u) := by
    rw [eventually_all]
    intro i
    by_cases hi : t < s i
    · filter_upwards [mem_nhdsWithin_of_mem_nhds (Iio_mem_nhds hi)] with u hu hc
      exact absurd hu (not_lt.2 hc.2)
    · exact Eventually.of_forall fun u hc => hi hc.1
  obtain ⟨b, hq, hb⟩ := (h.and self_mem_nhdsWithin).exists
  exact ⟨b, hb, hq⟩

theorem quiet_left (s : Fin N → ℝ) (t : ℝ) (ht : 0 < t) (hn : ¬∃ i, s i = t) : ∃ a, 0 ≤ a ∧ a < t ∧ Quiet s a t := by
  have h : ∀ᶠ u in 𝓝[<] t, ∀ i, ¬(u < s i ∧ s i ≤ t) := by
    rw [eventually_all]
    intro i
    by_cases hi : s i < t
    · filter_upwards [mem_nhdsWithin_of_mem_nhds (Ioi_mem_nhds hi)] with u hu hc
      exact absurd hu (not_lt.2 hc.1.le)
    · exact Eventually.of_forall fun u hc => hn ⟨i, le_antisymm hc.2 (not_lt.1 hi)⟩
  obtain ⟨a, ha, hq⟩ := (h.and (Ioo_mem_nhdsLT ht)).exists
  exact ⟨a, hq.1.le, hq.2, ha⟩

section
variable {c : JumpDiff σ} {b : σ → MvPolynomial σ ℝ} {a : σ → σ → MvPolynomial σ ℝ} (h : PolyCoef c b a)
  (hν : Mom c.ν) {s : Fin N → ℝ} (hs : Times s) {κ : Fin N → Measure (σ → ℝ)} (hκ : ∀ i, Mom (κ i))
include h hs

theorem dynkinAt_sol {E0 : MvPolynomial σ ℝ →ₗ[ℝ] ℝ} {E : ℝ → MvPolynomial σ ℝ →ₗ[ℝ] ℝ}
    (hE : c.DynkinAt s κ E0 E) : SolAt (op b a c.lam c.ν hν) (jat s κ hκ) E := by
  constructor
  · intro f t ht
    have hf := hE.formula f _ (isGen_op h hν f)
    generalize op b a c.lam c.ν hν f = g at hf ⊢
    obtain ⟨u, htu, hq⟩ := quiet_right s t
    have hc := hE.cont g t u ht hq
    have hcl : Continuous fun x => E (max (min x u) t) g :=
      hc.comp_continuous ((continuous_id.min continuous_const).max continuous_const) fun x =>
        ⟨le_max_right _ _, max_le (min_le_right _ _) htu.le⟩
    have hcut : ∀ x ∈ Set.Icc t u, max (min x u) t = x := fun x hx => by
      rw [min_eq_left hx.2, max_eq_left hx.1]
    have hd := (hcl.integral_hasStrictDerivAt t t).hasDerivAt.const_add (E t f)
    rw [hcut t ⟨le_rfl, htu.le⟩] at hd
    have hEq : ∀ x ∈ Set.Icc t u, E x f = E t f + ∫ y in t..x, E (max (min y u) t) g := by
      intro x hx
      rw [hf t x ht hx.1 fun i hc => hq i ⟨hc.1, hc.2.trans hx.2⟩]
      congr 1
      refine intervalIntegral.integral_congr fun y hy => ?_
      rw [Set.uIcc_of_le hx.1] at hy
      rw [hcut y ⟨hy.1, hy.2.trans hx.2⟩]
    refine hd.hasDerivWithinAt.congr_of_eventuallyEq ?_ (hEq t ⟨le_rfl, htu.le⟩)
    filter_upwards [Icc_mem_nhdsGE htu] with x hx using hEq x hx
  · intro t ht
    by_cases hn : ∃ i, s i = t
    · obtain ⟨i, rfl⟩ := hn
      obtain ⟨L, hL, e⟩ := hE.jump i
      refine ⟨L, hL, LinearMap.ext fun f => ?_⟩
      rw [jat_at hs]
      exact e f _ fun x => eval_jump _ _ f x
    · obtain ⟨u, hu0, hut, hq⟩ := quiet_left s t ht hn
      refine ⟨E t, fun f => ?_, by rw [jat_ne κ hκ hn, LinearMap.comp_id]⟩
      have := (hE.cont f u t hu0 hq) t ⟨hut.le, le_rfl⟩
      exact this.mono_left (nhdsWithin_le_of_mem (Icc_mem_nhdsLT hut))

omit hs in
theorem sol_between (hs : Times s) {E : ℝ → MvPolynomial σ ℝ →ₗ[ℝ] ℝ}
    (hE : SolAt (op b a c.lam c.ν hν) (jat s κ hκ) E) : c.DynkinAt s κ (E 0) E := by
  have hcont : ∀ f u v, 0 ≤ u → Quiet s u v → ContinuousOn (fun t => E t f) (Set.Icc u v) := by
    intro f u v hu hq
    refine hE.contOn f u v hu fun t h1 h2 L' => ?_
    rw [jat_ne κ hκ fun ⟨i, hi⟩ => hq i (by rw [hi]; exact ⟨h1, h2⟩)]
    rfl
  refine ⟨rfl, hcont, fun f g hg u v hu huv hq => ?_, fun i => ?_⟩
  · obtain rfl := isGen_unique hg (isGen_op h hν f)
    have hc := hcont (op b a c.lam c.ν hν f) u v hu hq
    have := intervalIntegral.integral_eq_sub_of_hasDeriv_right_of_le huv (hcont f u v hu hq)
      (fun x hx => (hE.deriv f x (hu.trans hx.1.le)).mono Set.Ioi_subset_Ici_self)
      (by rw [← Set.uIcc_of_le huv] at hc; exact hc.intervalIntegrable)
    rw [this]; ring
  · obtain ⟨L, hL, e⟩ := hE.left (s i) (hs.pos i)
    refine ⟨L, hL, fun f g hg => ?_⟩
    rw [e, jat_at hs, LinearMap.comp_apply]
    refine congrArg L (MvPolynomial.funext fun x => ?_)
    rw [eval_jump, hg]

/-- the moments are determined by the coefficients, the jumps and the initial law -/
theorem dynkinAt_unique (hκ : ∀ i, Mom (κ i)) (hν : Mom c.ν) {E0 : MvPolynomial σ ℝ →ₗ[ℝ] ℝ}
    {E E' : ℝ → MvPolynomial σ ℝ →ₗ[ℝ] ℝ} (hE : c.DynkinAt s κ E0 E) (hE' : c.DynkinAt s κ E0 E') (t : ℝ)
    (ht : 0 ≤ t) : E t = E' t :=
  (dynkinAt_sol h hν hs hκ hE).unique (op_lf b a _ _ hν h.db h.da) (jat_only s κ hκ) (dynkinAt_sol h hν hs hκ hE')
    (by rw [hE.start, hE'.start]) t ht

/-- and they exist -/
theorem dynkinAt_exists (hκ : ∀ i, Mom (κ i)) (hν : Mom c.ν) (E0 : MvPolynomial σ ℝ →ₗ[ℝ] ℝ) :
    ∃ E, c.DynkinAt s κ E0 E := by
  obtain ⟨T, h0, hT⟩ := exists_flow (op_lf b a c.lam c.ν hν h.db h.da) (Finset.univ.image s)
    (fun x hx => by
      obtain ⟨i, -, rfl⟩ := Finset.mem_image.1 hx
      exact hs.pos i) (jat s κ hκ) (jat_only s κ hκ)
  refine ⟨fun t => E0 ∘ₗ T t, ?_⟩
  have := sol_between h hν hκ hs (hT E0)
  rwa [h0, LinearMap.comp_id] at this

end

/-- an affine map carries the jumps -/
theorem jump_image {g : τ → MvPolynomial σ ℝ} {c : τ → σ → ℝ}
    (hsh : ∀ k x y, eval (x + y) (g k) = eval x (g k) + ∑ i, c k i * y i) {ν : Measure (σ → ℝ)}
    {ν' : Measure (τ → ℝ)} (hj : ν' = ν.map fun y k => ∑ i, c k i * y i) (hν : Mom ν) (hν' : Mom ν')
    (f : MvPolynomial τ ℝ) : jump ν hν (aeval g f) = aeval g (jump ν' hν' f) := by
  have hmeas : Measurable fun (y : σ → ℝ) (k : τ) => ∑ i, c k i * y i := by fun_prop
  refine MvPolynomial.funext fun x => ?_
  rw [eval_jump, eval_aeval, eval_jump]
  subst hj
  rw [integral_map hmeas.aemeasurable]
  · refine integral_congr_ae (Filter.Eventually.of_forall fun y => ?_)
    simp only [eval_aeval, hsh]
    rfl
  · exact (jump_int _ hν' f _).aestronglyMeasurable

/-- an affine image of a process with jumps at fixed times -/
theorem dynkinAt_image {g : τ → MvPolynomial σ ℝ} {c : τ → σ → ℝ} {b : σ → MvPolynomial σ ℝ}
    {a : σ → σ → MvPolynomial σ ℝ} {b' : τ → MvPolynomial τ ℝ}
    {a' : τ → τ → MvPolynomial τ ℝ} {S : JumpDiff σ} {T : JumpDiff τ} (h : Image g c b a S.ν b' a' T.ν)
    (hS : PolyCoef S b a) (hT : PolyCoef T b' a') (hl : S.lam = T.lam)
    (hν : Mom S.ν) (hν' : Mom T.ν) {s : Fin N → ℝ} (hs : Times s) {κ : Fin N → Measure (σ → ℝ)}
    {κ' : Fin N → Measure (τ → ℝ)} (hκ : ∀ i, Mom (κ i)) (hκ' : ∀ i, Mom (κ' i))
    (hj : ∀ i, κ' i = (κ i).map fun y k => ∑ j, c k j * y j)
    {E0 : MvPolynomial σ ℝ →ₗ[ℝ] ℝ} {E : ℝ → MvPolynomial σ ℝ →ₗ[ℝ] ℝ}
    (hE : S.DynkinAt s κ E0 E) :
    T.DynkinAt s κ' (E0 ∘ₗ (aeval g).toLinearMap) fun t => E t ∘ₗ (aeval g).toLinearMap := by
  have hsol := dynkinAt_sol hS hν hs hκ hE
  have : SolAt (op b' a' T.lam T.ν hν') (jat s κ' hκ') fun t => E t ∘ₗ (aeval g).toLinearMap := by
    constructor
    · intro f t ht
      refine (hsol.deriv (aeval g f) t ht).congr_deriv ?_
      rw [op_image h S.lam hν hν', hl]
      rfl
    · intro t ht
      obtain ⟨L, hL, e⟩ := hsol.left t ht
      refine ⟨L ∘ₗ (aeval g).toLinearMap, fun f => hL (aeval g f), LinearMap.ext fun f => ?_⟩
      rw [e]
      simp only [LinearMap.comp_apply, AlgHom.toLinearMap_apply]
      refine congrArg L ?_
      by_cases hn : ∃ i, s i = t
      · obtain ⟨i, rfl⟩ := hn
        rw [jat_at hs, jat_at hs]
        exact jump_image h.shift (hj i) (hκ i) (hκ' i) f
      · rw [jat_ne κ hκ hn, jat_ne κ' hκ' hn]
        rfl
  have h2 := sol_between hT hν' hκ' hs this
  rwa [hE.start] at h2

end Ajd.Gen

end -- GenAt
