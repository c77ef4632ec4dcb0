import Verif.Lemmas.Svvj
import Verif.Lemmas.Fsv1j
import Verif.Lemmas.TermsM
import Verif.Spec.Svij

namespace Ajd.Svij
open Poly Utils Cpp ItoCond MvPolynomial MeasureTheory

/-- the jump part of the parameters, as in `mdl_1fsvj` -/
noncomputable def Par.j (p : Par) : Fsv1j.Par := ⟨⟨0, 0, 0, 0, 0, p.h⟩, p.lam, p.μs, p.σs⟩

theorem jumpLaw_j (p : Par) : Fsv1j.jumpLaw p.j = jumpLaw p := rfl

theorem convKey_value (b : Par → JKey → ℝ) (h : Par → JKey → List ℤ → Prop)
    (hb : ∀ p K k2, h p K k2 → b p (convKey K k2) = b p K * p.h ^ ix k2 0) (p : Par) (K : JKey)
    (k2 : List ℤ) (hK : h p K k2) (hc : K.c.length = 3) (h2 : NN 3 k2) :
    b p (convKey K k2) * vJ p (convKey K k2) = b p K * Fsv1j.zVal p.j k2 := by
  rw [hb p K k2 hK, Fsv1j.zVal_eq _ _ h2.1, vJ, convKey]
  match hcc : K.c, hc with
  | [c0, c1, c2], _ =>
    simp only [List.cons_append, List.nil_append, ix_cons_succ, Par.j]
    rw [mul_zpow]
    ring

theorem vC_conv (p : Par) (K : JKey) (k2 : List ℤ) (hK : Svvj.KC K) (h2 : NN 3 k2) :
    vC p (convKey K k2) = Svvj.vC p.toPar K * Fsv1j.zVal p.j k2 := by
  refine convKey_value (fun p => Svvj.vC p.toPar) (fun _ K k2 => Svvj.KC K ∧ NN 3 k2) ?_ p K k2
    ⟨hK, h2⟩ hK.2.2.2.2.2.2.1 h2
  rintro p ⟨b, z, c⟩ k2 ⟨hK, h2⟩
  obtain ⟨hl, h1, _, _, _, _, hc, _⟩ := hK
  simp only at hl h1 hc
  match b, hl, c, hc with
  | [b0, b1, b2, b3, b4, b5], _, [c0, c1, c2], _ =>
    simp only [Svvj.vC, convKey, ix_cons_zero, ix_cons_succ, List.drop_succ_cons, List.drop_zero,
      List.cons_append, List.nil_append] at h1 ⊢
    rw [zpow_add_nn _ _ _ h1 (h2.2 0)]
    ring

theorem vM_conv (p : Par) (K : JKey) (k2 : List ℤ) (hK : Svvj.KM K) (h2 : NN 3 k2) :
    vM p (convKey K k2) = Svvj.vM p.toPar K * Fsv1j.zVal p.j k2 := by
  refine convKey_value (fun p => Svvj.vM p.toPar) (fun _ K k2 => Svvj.KM K ∧ NN 3 k2) ?_ p K k2
    ⟨hK, h2⟩ hK.2.2.2.2.2.2.2.2.1 h2
  rintro p ⟨b, z, c⟩ k2 ⟨hK, h2⟩
  obtain ⟨hl, h1, _, _, _, _, _, _, hc, _⟩ := hK
  simp only at hl h1 hc
  match b, hl, c, hc with
  | [b0, b1, b2, b3, b4, b5, b6, b7], _, [c0, c1, c2], _ =>
    simp only [Svvj.vM, convKey, ix_cons_zero, ix_cons_succ, List.drop_succ_cons, List.drop_zero,
      List.cons_append, List.nil_append] at h1 ⊢
    rw [zpow_add_nn _ _ _ h1 (h2.2 0)]
    ring

theorem ix_append_nonneg (c k : List ℤ) (hc : c.length = 3) (h0 : 0 ≤ ix c 0) (h1 : 0 ≤ ix c 1)
    (h2 : 0 ≤ ix c 2) (hk : NN 3 k) : (c ++ k).length = 6 ∧ ∀ i, 0 ≤ ix (c ++ k) i := by
  match c, hc with
  | [c0, c1, c2], _ =>
    simp only [ix_cons_zero, ix_cons_succ] at h0 h1 h2
    refine ⟨by simp [hk.1], fun i => ?_⟩
    match i with
    | 0 => exact h0
    | 1 => exact h1
    | 2 => exact h2
    | j + 3 => exact hk.2 j

theorem KC_conv (K : JKey) (k2 : List ℤ) (hK : Svvj.KC K) (h2 : NN 3 k2) : KC (convKey K k2) := by
  obtain ⟨b, z, c⟩ := K
  obtain ⟨hl, h1, h3, h4, h5, hz, hc, c0, c1, c2⟩ := hK
  simp only at hl h1 h3 h4 h5 hz hc c0 c1 c2
  have := h2.2 0
  obtain ⟨e1, e2⟩ := ix_append_nonneg c k2 hc c0 c1 c2 h2
  match b, hl with
  | [b0, b1, b2, b3, b4, b5], _ =>
    simp only [convKey, ix_cons_zero, ix_cons_succ, List.drop_succ_cons, List.drop_zero, KC] at *
    exact ⟨rfl, by omega, h3, h4, h5, hz, e1, e2⟩

theorem KM_conv (K : JKey) (k2 : List ℤ) (hK : Svvj.KM K) (h2 : NN 3 k2) : KM (convKey K k2) := by
  obtain ⟨b, z, c⟩ := K
  obtain ⟨hl, h1, h3, h4, h5, h6, h7, hz, hc, c0, c1, c2⟩ := hK
  simp only at hl h1 h3 h4 h5 h6 h7 hz hc c0 c1 c2
  have := h2.2 0
  obtain ⟨e1, e2⟩ := ix_append_nonneg c k2 hc c0 c1 c2 h2
  match b, hl with
  | [b0, b1, b2, b3, b4, b5, b6, b7], _ =>
    simp only [convKey, ix_cons_zero, ix_cons_succ, List.drop_succ_cons, List.drop_zero, KM] at *
    exact ⟨rfl, by omega, h3, h4, h5, h6, h7, hz, e1, e2⟩

/-- one round of the loop: the binomial convolution -/
theorem convLevel_spec (G G' : JKey → Prop) (v : Par → JKey → ℝ) (u : Par → JKey → ℝ)
    (hG : ∀ K k2, G K → NN 3 k2 → G' (convKey K k2))
    (hv : ∀ p K k2, G K → NN 3 k2 → v p (convKey K k2) = u p K * Fsv1j.zVal p.j k2)
    (ms : List JPoly) (hms : ∀ r ∈ ms, r.Keys G) (cpp : ℤ → Except PyErr IPoly)
    (z : Par → ℕ → ℝ) (hz : ∀ n : ℕ, ∃ r, cpp n = .ok r ∧ r.Keys (NN 3) ∧
      ∀ p : Par, 0 ≤ p.lam * p.h → ev (Fsv1j.zVal p.j) r = z p n) (kf : List String) (n : ℕ)
    (hn : n < ms.length) :
    ∃ r, convLevel ms cpp kf n = .ok r ∧ r.keyfor = kf ∧ r.WF ∧ r.NoZero ∧ r.Keys G' ∧
      ∀ p : Par, 0 ≤ p.lam * p.h → ev (v p) r = ∑ i ∈ Finset.range (n + 1),
        n.choose i * (ev (u p) (ms.getD i ⟨[], []⟩) * z p (n - i)) := by
  obtain ⟨tss, e, hP, hS⟩ := termsM_spec (ι := {p : Par // 0 ≤ p.lam * p.h}) (M := ℝ)
    (convTerms ms cpp n) (List.range (n + 1)).reverse G' (fun p => v p.1) (fun p i =>
      n.choose i * (ev (u p.1) (ms.getD i ⟨[], []⟩) * z p.1 (n - i))) (by
    intro i hi
    rw [List.mem_reverse, List.mem_range] at hi
    have hi' : i < ms.length := by omega
    obtain ⟨r2, e2, k2, v2⟩ := hz (n - i)
    have hg : pyGet ms i = .ok ms[i] := by rw [pyGet, List.getElem?_eq_getElem hi']
    refine ⟨_, by
      rw [convTerms, hg, ok_bind, show (n : ℤ) - i = ((n - i : ℕ) : ℤ) by omega, e2, ok_bind]; rfl,
      ?_, ?_⟩
    · intro x hx
      obtain ⟨e1, h1, hx⟩ := List.mem_flatMap.1 hx
      obtain ⟨y, hy, rfl⟩ := List.mem_map.1 hx
      exact hG _ _ (hms _ (List.getElem_mem hi') _ h1) (k2 _ hy)
    · rintro ⟨p, hp⟩
      have hget : ms.getD i ⟨[], []⟩ = ms[i] := by
        rw [List.getD_eq_getElem?_getD, List.getElem?_eq_getElem hi', Option.getD_some]
      rw [sum_flatMap, hget, ← v2 p hp]
      unfold ev
      rw [← List.sum_map_mul_right, ← List.sum_map_mul_left]
      congr 1
      apply List.map_congr_left
      intro e1 h1
      rw [List.map_map, ← List.sum_map_mul_left, ← List.sum_map_mul_left]
      congr 1
      apply List.map_congr_left
      intro y hy
      simp only [Function.comp, Rat.smul_def]
      rw [hv p _ _ (hms _ (List.getElem_mem hi') _ h1) (k2 _ hy)]
      push_cast
      ring)
  refine ⟨_, by rw [convLevel, e]; rfl, by simp, removeZero_WF _ (ofTerms_WF _ _),
    removeZero_NoZero _, removeZero_Keys _ _ (ofTerms_Keys _ _ _ hP), fun p hp => ?_⟩
  rw [ev_removeZero, ev_ofTerms, hS ⟨p, hp⟩, List.map_reverse, List.sum_reverse, list_range_sum']

/-! ### the lists -/

theorem cmomsTo_prefix {K K' : Type} [DecidableEq K']
    (rec : Ito.Idx → TabK K → Except PyErr (Poly K)) (key : Ito.Idx → K → K') (kf : List String)
    (T0 : TabK K) (first : List (Poly K')) (l : ℤ) (ms : List (Poly K'))
    (h : cmomsTo rec key kf T0 first l = .ok ms) : ∃ t, ms = first ++ t := by
  have H : ∀ (ns : List ℤ) (st st' : TabK K × List (Poly K')),
      ns.foldlM (cmomLevel rec key kf l) st = .ok st' → ∃ t, st'.2 = st.2 ++ t := by
    intro ns
    induction ns with
    | nil => intro st st' h; cases h; exact ⟨[], by simp⟩
    | cons n ns ih =>
      intro st st' h
      rw [List.foldlM_cons] at h
      unfold cmomLevel at h
      cases hf : (Ito.idxs n).foldlM (cmomBody rec key l n) (st.1, (⟨kf, []⟩ : Poly K')) with
      | error e => rw [hf] at h; cases h
      | ok r =>
        rw [hf] at h
        obtain ⟨t, ht⟩ := ih _ _ h
        exact ⟨_, by rw [ht, List.append_assoc]⟩
  unfold cmomsTo at h
  cases hf : (pyRange 2 (l + 1)).foldlM (cmomLevel rec key kf l) (T0, first) with
  | error e => rw [hf] at h; cases h
  | ok r =>
    rw [hf] at h
    cases h
    exact H _ _ _ hf

/-- what each element of `cmoments_y_to(l)` satisfies, `cs` the list of SVVJ -/
def IsConvC (cs : List JPoly) (n : ℕ) (r : JPoly) : Prop :=
  r.keyfor = kfJ Svvj.kfC ∧ r.WF ∧ r.Keys KC ∧ (n ≠ 1 → r.NoZero) ∧
    ∀ p : Par, 0 ≤ p.lam * p.h → ev (vC p) r = ∑ i ∈ Finset.range (n + 1), n.choose i *
      (ev (Svvj.vC p.toPar) (cs.getD i ⟨[], []⟩) *
        ∫ z, (z - ∫ w, w ∂jumpLaw p) ^ (n - i) ∂jumpLaw p)

theorem zM_one (p : Par) : Fsv1j.zM p.j 1 = ∫ w, w ∂jumpLaw p := by
  simp [Fsv1j.zM, jumpLaw_j]

instance (p : Par) : IsProbabilityMeasure (jumpLaw p) := by unfold jumpLaw; infer_instance

theorem int_id (p : Par) : Integrable (fun z : ℝ => z) (jumpLaw p) := by
  have := Fsv1j.jump_integrable p.j 1
  simp only [pow_one] at this
  exact this

theorem int_sub (p : Par) : ∫ z, (z - ∫ w, w ∂jumpLaw p) ∂jumpLaw p = 0 := by
  rw [integral_sub (int_id p) (integrable_const _)]
  simp

theorem forall2_get {A B : Type} {R : A → B → Prop} {l : List A} {l' : List B}
    (h : List.Forall₂ R l l') (i : ℕ) (a : A) (b : B) (ha : l[i]? = some a) (hb : l'[i]? = some b) :
    R a b := by
  obtain ⟨h1, rfl⟩ := List.getElem?_eq_some_iff.1 ha
  obtain ⟨h2, rfl⟩ := List.getElem?_eq_some_iff.1 hb
  exact h.get h1 h2

theorem cmoments_conv (OKn : ℕ → Svvj.Par → Prop) (iez : ℚ → ℤ → JPoly → Except PyErr JPoly) (l : ℕ)
    (h : ∃ cs, Svvj.cmomentsWith iez l = .ok cs ∧ cs.length = max l 1 + 1 ∧
      ∀ (n : ℕ) r, cs[n]? = some r → Svvj.IsCm OKn n r) :
    ∃ cs ms, Svvj.cmomentsWith iez l = .ok cs ∧ cmomentsWith iez l = .ok ms ∧
      (∀ (n : ℕ) r, cs[n]? = some r → Svvj.IsCm OKn n r) ∧ cs.length = max l 1 + 1 ∧
      ms.length = max l 1 + 1 ∧ ∀ (n : ℕ) r, ms[n]? = some r → IsConvC cs n r := by
  obtain ⟨cs, e, hl, hc⟩ := h
  have hkeys : ∀ r ∈ cs, r.Keys Svvj.KC := by
    intro r hr
    obtain ⟨n, hn, rfl⟩ := List.getElem_of_mem hr
    exact (hc n _ (List.getElem?_eq_getElem hn)).2.2.1
  obtain ⟨t, ht⟩ := cmomsTo_prefix _ _ _ _ _ _ _ e
  have hkf : firstKf cs = .ok Svvj.kfC := by rw [ht]; rfl
  obtain ⟨ms, em, hR⟩ := mapM_ok_rel (convLevel cs cmcpp (kfJ Svvj.kfC))
    (fun n r => IsConvC cs n r) ((List.range (l - 1)).map (· + 2)) (by
    intro n hn
    simp only [List.mem_map, List.mem_range] at hn
    obtain ⟨a, ha, rfl⟩ := hn
    obtain ⟨r, er, rk, rw', rz, rK, rv⟩ := convLevel_spec Svvj.KC KC vC (fun p => Svvj.vC p.toPar)
      KC_conv vC_conv _ hkeys cmcpp (fun p n => ∫ z, (z - ∫ w, w ∂jumpLaw p) ^ n ∂jumpLaw p) (by
        intro n
        obtain ⟨r, e, _, k, v⟩ := Fsv1j.cmcpp_val n
        refine ⟨r, e, k, fun p hp => ?_⟩
        rw [v p.j hp, zM_one, jumpLaw_j]) (kfJ Svvj.kfC) (a + 2) (by omega)
    exact ⟨r, er, rk, rw', rK, fun _ => rz, rv⟩)
  have hlen := hR.length_eq
  simp only [List.length_map, List.length_range] at hlen
  refine ⟨cs, ⟨kfJ Svvj.kfC, [(keyC0, 1)]⟩ :: ⟨kfJ Svvj.kfC, [(keyC0, 0)]⟩ :: ms, e, ?_, hc, hl, ?_,
    ?_⟩
  · rw [cmomentsWith, e, ok_bind, hkf, ok_bind, show ((l : ℤ) - 1).toNat = l - 1 by omega, em]
    rfl
  · simp only [List.length_cons, ← hlen]; omega
  · have v0 : ∀ p, vC p keyC0 = 1 := by
      intro p
      simp [vC, Svvj.vC, vJ, keyC0, zval_nil]
    have k0 : KC keyC0 := by
      refine ⟨rfl, by simp [keyC0], by simp [keyC0], by simp [keyC0], by simp [keyC0],
        by simp [keyC0, ZOK], rfl, fun i => ?_⟩
      simp only [keyC0]
      match i with
      | 0 | 1 | 2 | 3 | 4 | 5 => rfl
      | i + 6 => rfl
    have c0 : ∀ p, ev (Svvj.vC p) (cs.getD 0 ⟨[], []⟩) = 1 := by
      intro p; rw [ht]; simp [Svvj.first, ev, Svvj.vC_keyC0]
    have c1 : ∀ p, ev (Svvj.vC p) (cs.getD 1 ⟨[], []⟩) = 0 := by
      intro p; rw [ht]; simp [Svvj.first, ev]
    intro n r hr
    match n with
    | 0 =>
      simp at hr
      subst hr
      refine ⟨rfl, by simp [WF], ?_, ?_, fun p hp => ?_⟩
      · intro x hx; simp at hx; subst hx; exact k0
      · intro _ x hx; simp at hx; subst hx; simp
      · rw [Finset.sum_range_one, c0]
        simp [ev, v0]
    | 1 =>
      simp at hr
      subst hr
      refine ⟨rfl, by simp [WF], ?_, by simp, fun p hp => ?_⟩
      · intro x hx; simp at hx; subst hx; exact k0
      · rw [Finset.sum_range_succ, Finset.sum_range_one, c0, c1]
        simp only [Nat.sub_zero, pow_one, int_sub]
        simp [ev]
    | j + 2 =>
      have hr' : ms[j]? = some r := by simpa using hr
      have hj := (List.getElem?_eq_some_iff.1 hr').1
      exact forall2_get hR j (j + 2) r (by
        rw [List.getElem?_map, List.getElem?_range (by omega)]; rfl) hr'

/-- what each element of `moments_y_to(l)` satisfies, `cs` the list of SVVJ -/
def IsConvM (cs : List JPoly) (n : ℕ) (r : JPoly) : Prop :=
  r.keyfor = kfJ Svvj.kfM ∧ r.WF ∧ r.Keys KM ∧ r.NoZero ∧
    ∀ p : Par, 0 ≤ p.lam * p.h → ev (vM p) r = ∑ i ∈ Finset.range (n + 1), n.choose i *
      (ev (Svvj.vM p.toPar) (cs.getD i ⟨[], []⟩) * ∫ z, z ^ (n - i) ∂jumpLaw p)

theorem moments_conv (OKn : ℕ → Svvj.Par → Prop) (iez : ℚ → ℤ → JPoly → Except PyErr JPoly) (l : ℕ)
    (h : ∃ cs, Svvj.momentsWith iez l = .ok cs ∧ cs.length = l + 1 ∧
      ∀ (n : ℕ) r, cs[n]? = some r → Svvj.IsM OKn n r) :
    ∃ cs ms, Svvj.momentsWith iez l = .ok cs ∧ momentsWith iez l = .ok ms ∧
      (∀ (n : ℕ) r, cs[n]? = some r → Svvj.IsM OKn n r) ∧ cs.length = l + 1 ∧
      ms.length = l + 1 ∧ ∀ (n : ℕ) r, ms[n]? = some r → IsConvM cs n r := by
  obtain ⟨cs, e, hl, hc⟩ := h
  have hkeys : ∀ r ∈ cs, r.Keys Svvj.KM := by
    intro r hr
    obtain ⟨n, hn, rfl⟩ := List.getElem_of_mem hr
    exact (hc n _ (List.getElem?_eq_getElem hn)).2.2.1
  obtain ⟨t, ht⟩ : ∃ t, cs = Svvj.firstM :: t := by
    unfold Svvj.momentsWith at e
    cases hf : Svvj.cmomentsWith iez l with
    | error e' => rw [hf] at e; cases e
    | ok r =>
      rw [hf, ok_bind] at e
      cases hg : ((List.range (l : ℤ).toNat).map (· + 1)).mapM (Svvj.momentLevel r) with
      | error e' => rw [hg] at e; cases e
      | ok q => rw [hg] at e; cases e; exact ⟨_, rfl⟩
  have hkf : firstKf cs = .ok Svvj.kfM := by rw [ht]; rfl
  obtain ⟨ms, em, hR⟩ := mapM_ok_rel (convLevel cs mcpp (kfJ Svvj.kfM))
    (fun n r => IsConvM cs n r) ((List.range l).map (· + 1)) (by
    intro n hn
    simp only [List.mem_map, List.mem_range] at hn
    obtain ⟨a, ha, rfl⟩ := hn
    obtain ⟨r, er, rk, rw', rz, rK, rv⟩ := convLevel_spec Svvj.KM KM vM (fun p => Svvj.vM p.toPar)
      KM_conv vM_conv _ hkeys mcpp (fun p n => ∫ z, z ^ n ∂jumpLaw p) (by
        intro n
        obtain ⟨r, e, _, k, v⟩ := Fsv1j.mcpp_val n
        exact ⟨r, e, k, fun p hp => v p.j hp⟩) (kfJ Svvj.kfM) (a + 1) (by omega)
    exact ⟨r, er, rk, rw', rK, rz, rv⟩)
  have hlen := hR.length_eq
  simp only [List.length_map, List.length_range] at hlen
  refine ⟨cs, ⟨kfJ Svvj.kfM, [(keyM0, 1)]⟩ :: ms, e, ?_, hc, hl, ?_, ?_⟩
  · rw [momentsWith, e, ok_bind, hkf, ok_bind, Int.toNat_natCast, em]
    rfl
  · simp only [List.length_cons, ← hlen]
  · have v0 : ∀ p, vM p keyM0 = 1 := by
      intro p
      simp [vM, Svvj.vM, vJ, keyM0, zval_nil]
    have k0 : KM keyM0 := by
      refine ⟨rfl, by simp [keyM0], by simp [keyM0], by simp [keyM0], by simp [keyM0],
        by simp [keyM0], by simp [keyM0], by simp [keyM0, ZOK], rfl, fun i => ?_⟩
      simp only [keyM0]
      match i with
      | 0 | 1 | 2 | 3 | 4 | 5 => rfl
      | i + 6 => rfl
    have c0 : ∀ p, ev (Svvj.vM p) (cs.getD 0 ⟨[], []⟩) = 1 := by
      intro p; rw [ht]; simp [Svvj.firstM, ev, Svvj.vM, zval_nil]
    intro n r hr
    match n with
    | 0 =>
      simp at hr
      subst hr
      refine ⟨rfl, by simp [WF], ?_, ?_, fun p hp => ?_⟩
      · intro x hx; simp at hx; subst hx; exact k0
      · intro x hx; simp at hx; subst hx; simp
      · rw [Finset.sum_range_one, c0]
        simp [ev, v0]
    | j + 1 =>
      have hr' : ms[j]? = some r := by simpa using hr
      have hj := (List.getElem?_eq_some_iff.1 hr').1
      exact forall2_get hR j (j + 1) r (by
        rw [List.getElem?_map, List.getElem?_range (by omega)]; rfl) hr'

/-! ### the law -/

theorem binom_int (p : Par) (E : Fsv1.Rv →ₗ[ℝ] ℝ) (y : Fsv1.Rv) (g : ℝ → ℝ) (n : ℕ)
    (hg : ∀ i : ℕ, Integrable (fun z => g z ^ i) (jumpLaw p)) :
    expect p E (fun z => (y + C (g z)) ^ n) = ∑ i ∈ Finset.range (n + 1),
      n.choose i * (E (y ^ i) * ∫ z, g z ^ (n - i) ∂jumpLaw p) := by
  have h1 : ∀ z, E ((y + C (g z)) ^ n) = ∑ i ∈ Finset.range (n + 1),
      (n.choose i * E (y ^ i)) * g z ^ (n - i) := by
    intro z
    rw [add_pow, map_sum]
    refine Finset.sum_congr rfl fun i _ => ?_
    rw [show (n.choose i * E (y ^ i)) * g z ^ (n - i) = (n.choose i * g z ^ (n - i)) * E (y ^ i) by
      ring, ← Fsv1.E_C_mul]
    congr 1
    simp only [map_mul, map_pow, map_natCast]
    ring
  unfold expect
  simp only [h1]
  rw [integral_finsetSum _ fun i _ => (hg (n - i)).const_mul _]
  refine Finset.sum_congr rfl fun i _ => ?_
  rw [integral_const_mul]
  ring

theorem int_pow (p : Par) (n : ℕ) : Integrable (fun z : ℝ => z ^ n) (jumpLaw p) :=
  Fsv1j.jump_integrable p.j n

theorem int_cpow (p : Par) (c : ℝ) (n : ℕ) : Integrable (fun z : ℝ => (z - c) ^ n) (jumpLaw p) := by
  have : (fun z : ℝ => (z - c) ^ n) = fun z => ∑ i ∈ Finset.range (n + 1),
      (n.choose i * (-c) ^ (n - i)) * z ^ i := by
    funext z
    rw [sub_eq_add_neg, add_pow]
    exact Finset.sum_congr rfl fun i _ => by ring
  rw [this]
  exact integrable_finset_sum _ fun i _ => (int_pow p i).const_mul _

theorem expect_ret {p : Par} (hp : p.toPar.OK) {E : Fsv1.Rv →ₗ[ℝ] ℝ} (hE : Svvj.CondLaw p.toPar E) :
    expect p E (ret p) = E (Svvj.ret p.toPar) + ∫ w, w ∂jumpLaw p := by
  have : ∀ z, E (ret p z) = E (Svvj.ret p.toPar) + z := by
    intro z
    rw [ret, map_add, Svvj.E_C hp hE]
  unfold expect
  simp only [this]
  rw [integral_add (integrable_const _) (int_id p)]
  simp

theorem central_sum {p : Par} (hp : p.toPar.OK) {E : Fsv1.Rv →ₗ[ℝ] ℝ} (hE : Svvj.CondLaw p.toPar E)
    (n : ℕ) : expect p E (fun z => (ret p z - C (expect p E (ret p))) ^ n) =
      ∑ i ∈ Finset.range (n + 1), n.choose i *
        (E ((Svvj.ret p.toPar - C (E (Svvj.ret p.toPar))) ^ i) *
          ∫ z, (z - ∫ w, w ∂jumpLaw p) ^ (n - i) ∂jumpLaw p) := by
  rw [← binom_int p E _ (fun z => z - ∫ w, w ∂jumpLaw p) n (int_cpow p _)]
  congr 1
  funext z
  rw [expect_ret hp hE, ret]
  congr 1
  simp only [map_add, map_sub]
  ring

theorem raw_sum (p : Par) (E : Fsv1.Rv →ₗ[ℝ] ℝ) (n : ℕ) :
    expect p E (fun z => ret p z ^ n) = ∑ i ∈ Finset.range (n + 1), n.choose i *
        (E (Svvj.ret p.toPar ^ i) * ∫ z, z ^ (n - i) ∂jumpLaw p) :=
  binom_int p E _ (fun z => z) n (int_pow p)

/-! ### evaluation -/

theorem poly2numC_spec (P : JPoly) (hP : P.Keys KC) (p : Par) (hp : p.toPar.OK) :
    ∃ c, ∀ fuel, c ≤ fuel → poly2numC fuel P p = some (.ok (ev (vC p) P)) := by
  obtain ⟨c, hc⟩ := Svvj.evalLoop_spec p.k p.jumptime p.jumpsize hp.len.ge
    (fun K => Svvj.wC p.toPar K * wJ p K) P.items fun e he => (hP e he).2.2.2.2.2.1
  refine ⟨c, fun fuel hf => ?_⟩
  rw [poly2numC, hc fuel hf, zero_add, ev]
  congr 3
  apply List.map_congr_left
  intro e he
  congr 1
  rw [← Svvj.zval_fZ hp, vC, Svvj.vC, vJ, wJ, Svvj.wC, Svvj.sqrt_pow _ hp.ρ _ ((hP e he).2.2.2.2.2.2.2 2)]
  ring

theorem poly2numM_spec (P : JPoly) (hP : P.Keys KM) (p : Par) (hp : p.toPar.OK) :
    ∃ c, ∀ fuel, c ≤ fuel → poly2numM fuel P p = some (.ok (ev (vM p) P)) := by
  obtain ⟨c, hc⟩ := Svvj.evalLoop_spec p.k p.jumptime p.jumpsize hp.len.ge
    (fun K => Svvj.wM p.toPar K * wJ p K) P.items fun e he => (hP e he).2.2.2.2.2.2.2.1
  refine ⟨c, fun fuel hf => ?_⟩
  rw [poly2numM, hc fuel hf, zero_add, ev]
  congr 3
  apply List.map_congr_left
  intro e he
  congr 1
  rw [← Svvj.zval_fZ hp, vM, Svvj.vM, vJ, wJ, Svvj.wM,
    Svvj.sqrt_pow _ hp.ρ _ ((hP e he).2.2.2.2.2.2.2.2.2 2), neg_mul]
  ring

end Ajd.Svij
