import Verif.Lemmas.Svcj2Sum
import Verif.Lemmas.TermsM
import Verif.Lemmas.Svij

namespace Ajd.Svcj
open Poly Utils Cpp ItoCond MvPolynomial MeasureTheory

theorem mapM_congr' {m : Type → Type} [Monad m] [LawfulMonad m] {α β : Type} (f g : α → m β) (l : List α)
    (h : ∀ a ∈ l, f a = g a) : l.mapM f = l.mapM g := by
  induction l with
  | nil => simp
  | cons a t ih =>
    rw [List.mapM_cons, List.mapM_cons, h a (by simp), ih fun b hb => h b (by simp [hb])]

theorem convLevel_congr (ms : List JPoly) (izs izs' : ℕ → Run IPoly) (kf : List String) (n : ℕ)
    (h : ∀ i ≤ n, izs i = izs' i) : convLevel ms izs kf n = convLevel ms izs' kf n := by
  unfold convLevel
  rw [mapM_congr' _ (convTerms ms izs' n)]
  intro i _
  unfold convTerms
  rw [h _ (Nat.sub_le n i)]

/-- a key of SVVJ extended by the exponents of the jumps of the price -/
def ext (K : JKey) (k2 : List ℤ) : JKey := ⟨K.b, K.z, K.c ++ k2⟩

/-- one round of the loop: the binomial convolution -/
theorem convLevel_spec (N : ℕ) (G G' : JKey → Prop) (H : List ℤ → Prop) (v u : Par → JKey → ℝ)
    (w : Par → List ℤ → ℝ) (hG : ∀ K k2, G K → H k2 → G' (ext K k2))
    (hv : ∀ p K k2, G K → H k2 → v p (ext K k2) = u p K * w p k2)
    (ms : List JPoly) (hms : ∀ r ∈ ms, r.Keys G) (izs : ℕ → Run IPoly)
    (z : Par → ℕ → ℝ) (hz : ∀ n : ℕ, ∃ r, izs n = pure r ∧ r.Keys H ∧
      ∀ p : Par, p.jumpsize.length = N → ev (w p) r = z p n) (kf : List String) (n : ℕ)
    (hn : n < ms.length) :
    ∃ r, convLevel ms izs kf n = pure r ∧ r.keyfor = kf ∧ r.WF ∧ r.NoZero ∧ r.Keys G' ∧
      ∀ p : Par, p.jumpsize.length = N → ev (v p) r = ∑ i ∈ Finset.range (n + 1),
        n.choose i * (ev (u p) (ms.getD i ⟨[], []⟩) * z p (n - i)) := by
  obtain ⟨tss, e, hP, hS⟩ := termsPure_spec (m := Run) (ι := {p : Par // p.jumpsize.length = N})
    (M := ℝ) (convTerms ms izs n) (List.range (n + 1)).reverse G' (fun p => v p.1) (fun p i =>
      n.choose i * (ev (u p.1) (ms.getD i ⟨[], []⟩) * z p.1 (n - i))) (by
    intro i hi
    rw [List.mem_reverse, List.mem_range] at hi
    have hi' : i < ms.length := by omega
    obtain ⟨r2, e2, k2, v2⟩ := hz (n - i)
    have hg : runE (pyGet ms i) = pure ms[i] := by
      rw [pyGet, List.getElem?_eq_getElem hi']; rfl
    refine ⟨_, by rw [convTerms, hg, pure_bind, e2, pure_bind], ?_, ?_⟩
    · intro x hx
      obtain ⟨e1, h1, hx⟩ := List.mem_flatMap.1 hx
      obtain ⟨y, hy, rfl⟩ := List.mem_map.1 hx
      exact hG _ _ (hms _ (List.getElem_mem hi') _ h1) (k2 _ hy)
    · rintro ⟨p, hp⟩
      have hget : ms.getD i ⟨[], []⟩ = ms[i] := by
        rw [List.getD_eq_getElem?_getD, List.getElem?_eq_getElem hi', Option.getD_some]
      rw [sum_flatMap, hget, ← v2 p hp]
      unfold ev
      rw [← List.sum_map_mul_right, ← List.sum_map_mul_left]
      congr 1
      apply List.map_congr_left
      intro e1 h1
      rw [List.map_map, ← List.sum_map_mul_left, ← List.sum_map_mul_left]
      congr 1
      apply List.map_congr_left
      intro y hy
      have := hv p _ _ (hms _ (List.getElem_mem hi') _ h1) (k2 _ hy)
      simp only [ext] at this
      simp only [Function.comp, Rat.smul_def]
      rw [this]
      push_cast
      ring)
  refine ⟨_, by rw [convLevel, e, pure_bind], by simp, removeZero_WF _ (ofTerms_WF _ _),
    removeZero_NoZero _, removeZero_Keys _ _ (ofTerms_Keys _ _ _ hP), fun p hp => ?_⟩
  rw [ev_removeZero, ev_ofTerms, hS ⟨p, hp⟩, List.map_reverse, List.sum_reverse, list_range_sum']

theorem ix_append_ge (a b : List ℤ) (i : ℕ) : ix (a ++ b) (a.length + i) = ix b i := by
  induction a with
  | nil => simp
  | cons x t ih =>
    rw [List.length_cons, show t.length + 1 + i = (t.length + i) + 1 by omega]
    exact ih

theorem three (c : List ℤ) (h : c.length = 3) : ∃ a b d, c = [a, b, d] := by
  match c, h with
  | [a, b, d], _ => exact ⟨a, b, d, rfl⟩

theorem vC_ext (p : Par) (K : JKey) (k2 : List ℤ) (hK : Svvj.KC K) (_ : NN 1 k2) :
    vC p (ext K k2) = Svvj.vC p.toPar K * p.σs ^ ix k2 0 := by
  obtain ⟨a, b, d, h⟩ := three _ hK.2.2.2.2.2.2.1
  simp only [vC, Svvj.vC, ext, h, List.cons_append, List.nil_append, ix_cons_zero, ix_cons_succ]

theorem vM_ext (p : Par) (K : JKey) (k2 : List ℤ) (hK : Svvj.KM K) :
    vM p (ext K k2) = Svvj.vM p.toPar K * vIZ p.μs p.ρJ p.σs p.jumpsize k2 := by
  obtain ⟨a, b, d, h⟩ := three _ hK.2.2.2.2.2.2.2.2.1
  simp only [vM, Svvj.vM, ext, h, List.cons_append, List.nil_append, ix_cons_zero, ix_cons_succ,
    List.drop_succ_cons, List.drop_zero]

theorem KC_ext (K : JKey) (k2 : List ℤ) (hK : Svvj.KC K) (h2 : NN 1 k2) : KC (ext K k2) := by
  obtain ⟨hl, h1, h3, h4, h5, hz, hc, c0, c1, c2⟩ := hK
  obtain ⟨a, b, d, h⟩ := three _ hc
  rw [h] at c0 c1 c2
  refine ⟨hl, h1, h3, h4, h5, hz, by simp [ext, hc, h2.1], fun i => ?_⟩
  simp only [ext, h, List.cons_append, List.nil_append]
  match i with
  | 0 => exact c0
  | 1 => exact c1
  | 2 => exact c2
  | j + 3 => exact h2.2 j

theorem KM_ext (N : ℕ) (K : JKey) (k2 : List ℤ) (hK : Svvj.KM K) (h2 : KIZ N k2) :
    KM N (ext K k2) := by
  obtain ⟨hl, h1, h3, h4, h5, h6, h7, hz, hc, c0, c1, c2⟩ := hK
  obtain ⟨a, b, d, h⟩ := three _ hc
  rw [h] at c0 c1 c2
  refine ⟨hl, h1, h3, h4, h5, h6, h7, hz, by simp [ext, hc, h2.1]; omega, fun i => ?_⟩
  simp only [ext, h, List.cons_append, List.nil_append]
  match i with
  | 0 => exact c0
  | 1 => exact c1
  | 2 => exact c2
  | j + 3 => exact h2.2 j

/-- central moment of the sum of the jumps of the price -/
noncomputable def zC (p : Par) (n : ℕ) : ℝ := ∫ z, (z - ∫ w, w ∂jumpLaw p) ^ n ∂jumpLaw p

/-- moment of the sum of the jumps of the price -/
noncomputable def zM (p : Par) (n : ℕ) : ℝ := ∫ z, z ^ n ∂jumpLaw p

/-- what each element of `cmoments_y_to(l, J)` satisfies, `cs` the list of SVVJ -/
def IsConvC (N : ℕ) (cs : List JPoly) (n : ℕ) (r : JPoly) : Prop :=
  r.keyfor = Svvj.kfC ++ ["sigma_s"] ∧ r.WF ∧ r.Keys KC ∧ (n ≠ 1 → r.NoZero) ∧
    ∀ p : Par, p.jumpsize.length = N → ev (vC p) r = ∑ i ∈ Finset.range (n + 1), n.choose i *
      (ev (Svvj.vC p.toPar) (cs.getD i ⟨[], []⟩) * zC p (n - i))

/-- what each element of `moments_y_to(l, J)` but the first satisfies -/
def IsConvM (N : ℕ) (cs : List JPoly) (n : ℕ) (r : JPoly) : Prop :=
  r.keyfor = Svvj.kfM ++ kfIZ ∧ r.WF ∧ r.Keys (KM N) ∧ r.NoZero ∧
    ∀ p : Par, p.jumpsize.length = N → ev (vM p) r = ∑ i ∈ Finset.range (n + 1), n.choose i *
      (ev (Svvj.vM p.toPar) (cs.getD i ⟨[], []⟩) * zM p (n - i))

instance (p : Par) : IsProbabilityMeasure (jumpLaw p) := by unfold jumpLaw; infer_instance

theorem int_pow (p : Par) (n : ℕ) : Integrable (fun z : ℝ => z ^ n) (jumpLaw p) :=
  jumpSum_int _ _ _ _ n

theorem int_id (p : Par) : Integrable (fun z : ℝ => z) (jumpLaw p) := by
  have := int_pow p 1
  simp only [pow_one] at this
  exact this

theorem zC_zero (p : Par) : zC p 0 = 1 := by simp [zC]

theorem zC_one (p : Par) : zC p 1 = 0 := by
  simp only [zC, pow_one]
  rw [integral_sub (int_id p) (integrable_const _)]
  simp

/-- fuel that suffices for all of a finite number of calls -/
theorem fuel_all (f : ℕ → ℕ → Run IPoly) (g : ℕ → IPoly) (c : ℕ → ℕ) (l : ℕ)
    (h : ∀ n fuel, c n ≤ fuel → f fuel n = pure (g n)) :
    ∃ C, ∀ fuel, C ≤ fuel → ∀ n ≤ l, f fuel n = pure (g n) := by
  refine ⟨∑ n ∈ Finset.range (l + 1), c n, fun fuel hf n hn => h n fuel (le_trans ?_ hf)⟩
  exact Finset.single_le_sum (f := c) (fun _ _ => Nat.zero_le _) (by simp; omega)

theorem cmoments_conv (OKn : ℕ → Svvj.Par → Prop) (iez : ℚ → ℤ → JPoly → Except PyErr JPoly) (l N : ℕ)
    (h : ∃ cs, Svvj.cmomentsWith iez l = .ok cs ∧ cs.length = max l 1 + 1 ∧
      ∀ (n : ℕ) r, cs[n]? = some r → Svvj.IsCm OKn n r) :
    ∃ c cs ms, Svvj.cmomentsWith iez l = .ok cs ∧
      (∀ fuel, c ≤ fuel → cmomentsWith iez fuel l N = pure ms) ∧
      (∀ (n : ℕ) r, cs[n]? = some r → Svvj.IsCm OKn n r) ∧ cs.length = max l 1 + 1 ∧
      ms.length = max l 1 + 1 ∧ ∀ (n : ℕ) r, ms[n]? = some r → IsConvC N cs n r := by
  obtain ⟨cs, e, hl, hc⟩ := h
  choose c g hf hk hw hK hv using fun m => cmomentIZs_spec m N
  have hkeys : ∀ r ∈ cs, r.Keys Svvj.KC := by
    intro r hr
    obtain ⟨n, hn, rfl⟩ := List.getElem_of_mem hr
    exact (hc n _ (List.getElem?_eq_getElem hn)).2.2.1
  obtain ⟨t, ht⟩ := Svij.cmomsTo_prefix _ _ _ _ _ _ _ e
  have hkf : firstKf cs = .ok Svvj.kfC := by rw [ht]; rfl
  obtain ⟨ms, em, hR⟩ := mapM_pure_rel (m := Run)
    (convLevel cs (fun m => pure (g m)) (Svvj.kfC ++ ["sigma_s"]))
    (fun n r => IsConvC N cs n r) ((List.range (l - 1)).map (· + 2)) (by
    intro n hn
    simp only [List.mem_map, List.mem_range] at hn
    obtain ⟨a, ha, rfl⟩ := hn
    obtain ⟨r, er, rk, rw', rz, rK, rv⟩ := convLevel_spec N Svvj.KC KC (NN 1) vC
      (fun p => Svvj.vC p.toPar) (fun p k => p.σs ^ ix k 0)
      KC_ext vC_ext _ hkeys (fun m => pure (g m)) zC
      (fun n => ⟨g n, rfl, hK n, fun p hp => hv n p.μs p.ρJ p.σs p.jumpsize hp⟩)
      (Svvj.kfC ++ ["sigma_s"]) (a + 2) (by omega)
    exact ⟨r, er, rk, rw', rK, fun _ => rz, rv⟩)
  obtain ⟨C, hC⟩ := fuel_all (fun fuel m => cmomentIZs fuel m N) g c l fun n fuel => hf n fuel
  have hlen := hR.length_eq
  simp only [List.length_map, List.length_range] at hlen
  refine ⟨C, cs, ⟨Svvj.kfC ++ ["sigma_s"], [(keyC0, 1)]⟩ :: ⟨Svvj.kfC ++ ["sigma_s"], [(keyC0, 0)]⟩ :: ms,
    e, fun fuel hfuel => ?_, hc, hl, ?_, ?_⟩
  · have e1 : runE (Svvj.cmomentsWith iez l) = pure cs := by rw [e]; rfl
    have e2 : runE (firstKf cs) = pure Svvj.kfC := by rw [hkf]; rfl
    rw [cmomentsWith, e1, pure_bind, e2, pure_bind, show ((l : ℤ) - 1).toNat = l - 1 by omega]
    dsimp only
    rw [mapM_congr' _ (convLevel cs (fun m => pure (g m)) (Svvj.kfC ++ ["sigma_s"])), em, pure_bind]
    intro n hn
    simp only [List.mem_map, List.mem_range] at hn
    obtain ⟨a, ha, rfl⟩ := hn
    exact convLevel_congr _ _ _ _ _ fun i hi => hC fuel hfuel i (by omega)
  · simp only [List.length_cons, ← hlen]; omega
  · have v0 : ∀ p, vC p keyC0 = 1 := by
      intro p
      simp [vC, Svvj.vC, keyC0, zval_nil]
    have k0 : KC keyC0 := by
      refine ⟨rfl, by simp [keyC0], by simp [keyC0], by simp [keyC0], by simp [keyC0],
        by simp [keyC0, ZOK], rfl, fun i => ?_⟩
      simp only [keyC0]
      match i with
      | 0 | 1 | 2 | 3 => rfl
      | i + 4 => rfl
    have c0 : ∀ p, ev (Svvj.vC p) (cs.getD 0 ⟨[], []⟩) = 1 := by
      intro p; rw [ht]; simp [Svvj.first, ev, Svvj.vC_keyC0]
    have c1 : ∀ p, ev (Svvj.vC p) (cs.getD 1 ⟨[], []⟩) = 0 := by
      intro p; rw [ht]; simp [Svvj.first, ev]
    intro n r hr
    match n with
    | 0 =>
      simp at hr
      subst hr
      refine ⟨rfl, by simp [WF], ?_, ?_, fun p hp => ?_⟩
      · intro x hx; simp at hx; subst hx; exact k0
      · intro _ x hx; simp at hx; subst hx; simp
      · rw [Finset.sum_range_one, c0, zC_zero]
        simp [ev, v0]
    | 1 =>
      simp at hr
      subst hr
      refine ⟨rfl, by simp [WF], ?_, by simp, fun p hp => ?_⟩
      · intro x hx; simp at hx; subst hx; exact k0
      · rw [Finset.sum_range_succ, Finset.sum_range_one, c0, c1, Nat.sub_zero, zC_one]
        simp [ev]
    | j + 2 =>
      have hr' : ms[j]? = some r := by simpa using hr
      have hj := (List.getElem?_eq_some_iff.1 hr').1
      exact Svij.forall2_get hR j (j + 2) r (by
        rw [List.getElem?_map, List.getElem?_range (by omega)]; rfl) hr'

theorem moments_conv (OKn : ℕ → Svvj.Par → Prop) (iez : ℚ → ℤ → JPoly → Except PyErr JPoly) (l N : ℕ)
    (h : ∃ cs, Svvj.momentsWith iez l = .ok cs ∧ cs.length = l + 1 ∧
      ∀ (n : ℕ) r, cs[n]? = some r → Svvj.IsM OKn n r) :
    ∃ c cs ms, Svvj.momentsWith iez l = .ok cs ∧
      (∀ fuel, c ≤ fuel → momentsWith iez fuel l N =
        pure (⟨Svvj.kfM ++ kfIZ, [(keyM0, 1)]⟩ :: ms)) ∧
      (∀ (n : ℕ) r, cs[n]? = some r → Svvj.IsM OKn n r) ∧ cs.length = l + 1 ∧
      ms.length = l ∧ ∀ (n : ℕ) r, ms[n]? = some r → IsConvM N cs (n + 1) r := by
  obtain ⟨cs, e, hl, hc⟩ := h
  choose c g hf hk hw hK hv using fun m => momentIZs_spec m N
  have hkeys : ∀ r ∈ cs, r.Keys Svvj.KM := by
    intro r hr
    obtain ⟨n, hn, rfl⟩ := List.getElem_of_mem hr
    exact (hc n _ (List.getElem?_eq_getElem hn)).2.2.1
  have hkf : firstKf cs = .ok Svvj.kfM := by
    have : cs[0]? = some cs[0] := List.getElem?_eq_getElem (by omega)
    rw [firstKf, pyGet, this, ok_bind, (hc 0 _ this).1]
    rfl
  obtain ⟨ms, em, hR⟩ := mapM_pure_rel (m := Run)
    (convLevel cs (fun m => pure (g m)) (Svvj.kfM ++ kfIZ))
    (fun n r => IsConvM N cs n r) ((List.range l).map (· + 1)) (by
    intro n hn
    simp only [List.mem_map, List.mem_range] at hn
    obtain ⟨a, ha, rfl⟩ := hn
    obtain ⟨r, er, rk, rw', rz, rK, rv⟩ := convLevel_spec N Svvj.KM (KM N) (KIZ N) vM
      (fun p => Svvj.vM p.toPar) (fun p k => vIZ p.μs p.ρJ p.σs p.jumpsize k)
      (KM_ext N) (fun p K k2 hK _ => vM_ext p K k2 hK) _ hkeys (fun m => pure (g m)) zM
      (fun n => ⟨g n, rfl, hK n, fun p hp => hv n p.μs p.ρJ p.σs p.jumpsize hp⟩)
      (Svvj.kfM ++ kfIZ) (a + 1) (by omega)
    exact ⟨r, er, rk, rw', rK, rz, rv⟩)
  obtain ⟨C, hC⟩ := fuel_all (fun fuel m => momentIZs fuel m N) g c l fun n fuel => hf n fuel
  have hlen := hR.length_eq
  simp only [List.length_map, List.length_range] at hlen
  refine ⟨C, cs, ms, e, fun fuel hfuel => ?_, hc, hl, hlen.symm, ?_⟩
  · have e1 : runE (Svvj.momentsWith iez l) = pure cs := by rw [e]; rfl
    have e2 : runE (firstKf cs) = pure Svvj.kfM := by rw [hkf]; rfl
    rw [momentsWith, e1, pure_bind, e2, pure_bind, Int.toNat_natCast]
    dsimp only
    rw [mapM_congr' _ (convLevel cs (fun m => pure (g m)) (Svvj.kfM ++ kfIZ)), em, pure_bind]
    intro n hn
    simp only [List.mem_map, List.mem_range] at hn
    obtain ⟨a, ha, rfl⟩ := hn
    exact convLevel_congr _ _ _ _ _ fun i hi => hC fuel hfuel i (by omega)
  · intro j r hr
    have hj := (List.getElem?_eq_some_iff.1 hr).1
    exact Svij.forall2_get hR j (j + 1) r (by
        rw [List.getElem?_map, List.getElem?_range (by omega)]; rfl) hr

/-! ### the law -/

theorem binom_int (p : Par) (E : Fsv1.Rv →ₗ[ℝ] ℝ) (y : Fsv1.Rv) (g : ℝ → ℝ) (n : ℕ)
    (hg : ∀ i : ℕ, Integrable (fun z => g z ^ i) (jumpLaw p)) :
    expect p E (fun z => (y + C (g z)) ^ n) = ∑ i ∈ Finset.range (n + 1),
      n.choose i * (E (y ^ i) * ∫ z, g z ^ (n - i) ∂jumpLaw p) := by
  have h1 : ∀ z, E ((y + C (g z)) ^ n) = ∑ i ∈ Finset.range (n + 1),
      (n.choose i * E (y ^ i)) * g z ^ (n - i) := by
    intro z
    rw [add_pow, map_sum]
    refine Finset.sum_congr rfl fun i _ => ?_
    rw [show (n.choose i * E (y ^ i)) * g z ^ (n - i) = (n.choose i * g z ^ (n - i)) * E (y ^ i) by
      ring, ← Fsv1.E_C_mul]
    congr 1
    simp only [map_mul, map_pow, map_natCast]
    ring
  unfold expect
  simp only [h1]
  rw [integral_finsetSum _ fun i _ => (hg (n - i)).const_mul _]
  refine Finset.sum_congr rfl fun i _ => ?_
  rw [integral_const_mul]
  ring

theorem int_cpow (p : Par) (c : ℝ) (n : ℕ) : Integrable (fun z : ℝ => (z - c) ^ n) (jumpLaw p) := by
  have : (fun z : ℝ => (z - c) ^ n) = fun z => ∑ i ∈ Finset.range (n + 1),
      (n.choose i * (-c) ^ (n - i)) * z ^ i := by
    funext z
    rw [sub_eq_add_neg, add_pow]
    exact Finset.sum_congr rfl fun i _ => by ring
  rw [this]
  exact integrable_finset_sum _ fun i _ => (int_pow p i).const_mul _

theorem expect_ret {p : Par} (hp : p.toPar.OK) {E : Fsv1.Rv →ₗ[ℝ] ℝ} (hE : Svvj.CondLaw p.toPar E) :
    expect p E (ret p) = E (Svvj.ret p.toPar) + ∫ w, w ∂jumpLaw p := by
  have : ∀ z, E (ret p z) = E (Svvj.ret p.toPar) + z := by
    intro z
    rw [ret, map_add, Svvj.E_C hp hE]
  unfold expect
  simp only [this]
  rw [integral_add (integrable_const _) (int_id p)]
  simp

theorem central_sum {p : Par} (hp : p.toPar.OK) {E : Fsv1.Rv →ₗ[ℝ] ℝ} (hE : Svvj.CondLaw p.toPar E)
    (n : ℕ) : expect p E (fun z => (ret p z - C (expect p E (ret p))) ^ n) =
      ∑ i ∈ Finset.range (n + 1), n.choose i *
        (E ((Svvj.ret p.toPar - C (E (Svvj.ret p.toPar))) ^ i) * zC p (n - i)) := by
  refine Eq.trans ?_ (binom_int p E _ (fun z => z - ∫ w, w ∂jumpLaw p) n (int_cpow p _))
  congr 1
  funext z
  rw [expect_ret hp hE, ret]
  congr 1
  simp only [map_add, map_sub]
  ring

theorem raw_sum (p : Par) (E : Fsv1.Rv →ₗ[ℝ] ℝ) (n : ℕ) :
    expect p E (fun z => ret p z ^ n) = ∑ i ∈ Finset.range (n + 1), n.choose i *
        (E (Svvj.ret p.toPar ^ i) * zM p (n - i)) :=
  binom_int p E _ (fun z => z) n (int_pow p)

/-! ### evaluation -/

theorem evalLoop_eq (fuel : ℕ) (k : ℝ) (s J : List ℝ) (w : JKey → Except PyErr ℝ) (w' : JKey → ℝ)
    (l : List (JKey × ℚ)) (h : ∀ e ∈ l, w e.1 = .ok (w' e.1)) (f : ℝ) :
    evalLoop fuel k s J w f l = ExceptT.mk (Svvj.evalLoop fuel k s J w' f l) := by
  induction l generalizing f with
  | nil => rfl
  | cons e t ih =>
    rw [evalLoop, Svvj.evalLoop]
    cases fZ fuel e.1.z.l e.1.z.o e.1.z.p e.1.z.q k s J with
    | none => rfl
    | some r =>
      cases r with
      | error er => rfl
      | ok z =>
        rw [h e (by simp), ← ih fun e he => h e (by simp [he])]
        rfl

theorem poly2numC_spec (P : JPoly) (hP : P.Keys KC) (p : Par) (hp : p.toPar.OK) :
    ∃ c, ∀ fuel, c ≤ fuel → poly2numC fuel P p = pure (ev (vC p) P) := by
  obtain ⟨c, hc⟩ := Svvj.evalLoop_spec p.k p.jumptime p.jumpsize hp.len.ge
    (fun K => Svvj.wC p.toPar K * p.σs ^ ix K.c 3) P.items fun e he => (hP e he).2.2.2.2.2.1
  refine ⟨c, fun fuel hf => ?_⟩
  rw [poly2numC, evalLoop_eq _ _ _ _ _ (fun K => Svvj.wC p.toPar K * p.σs ^ ix K.c 3), hc fuel hf,
    zero_add, ev]
  · change some (Except.ok _) = some (Except.ok _)
    congr 3
    apply List.map_congr_left
    intro e he
    congr 1
    rw [← Svvj.zval_fZ hp, vC, Svvj.vC, Svvj.wC, Svvj.sqrt_pow _ hp.ρ _ ((hP e he).2.2.2.2.2.2.2 2)]
    ring
  · intro e he
    have := (hP e he).2.2.2.2.2.2.1
    match hh : e.1.c, this with
    | [_, _, _, a], _ => rfl

theorem fJ_ok (J : List ℝ) (es : List ℤ) (h : es.length = J.length) (f : ℝ) :
    fJ J es f = .ok (f * (List.zipWith (· ^ ·) J es).prod) := by
  induction J generalizing es f with
  | nil => simp [fJ]
  | cons x J ih =>
    cases es with
    | nil => simp at h
    | cons e es =>
      rw [fJ, ih es (by simpa using h), List.zipWith_cons_cons, List.prod_cons, mul_assoc]

theorem poly2numM_spec (P : JPoly) (p : Par) (hP : P.Keys (KM p.jumpsize.length)) (hp : p.toPar.OK) :
    ∃ c, ∀ fuel, c ≤ fuel → poly2numM fuel P p = pure (ev (vM p) P) := by
  obtain ⟨c, hc⟩ := Svvj.evalLoop_spec p.k p.jumptime p.jumpsize hp.len.ge
    (fun K => Svvj.wM p.toPar K * vIZ p.μs p.ρJ p.σs p.jumpsize (K.c.drop 3)) P.items
    fun e he => (hP e he).2.2.2.2.2.2.2.1
  refine ⟨c, fun fuel hf => ?_⟩
  rw [poly2numM, evalLoop_eq _ _ _ _ _
    (fun K => Svvj.wM p.toPar K * vIZ p.μs p.ρJ p.σs p.jumpsize (K.c.drop 3)), hc fuel hf,
    zero_add, ev]
  · change some (Except.ok _) = some (Except.ok _)
    congr 3
    apply List.map_congr_left
    intro e he
    congr 1
    rw [← Svvj.zval_fZ hp, vM, Svvj.vM, Svvj.wM,
      Svvj.sqrt_pow _ hp.ρ _ ((hP e he).2.2.2.2.2.2.2.2.2 2), neg_mul]
    ring
  · intro e he
    have := (hP e he).2.2.2.2.2.2.2.2.1
    match hh : e.1.c, this with
    | a :: b :: c :: d :: f :: g :: t, ht =>
      have e3 : wJM p e.1 = .ok (vIZ p.μs p.ρJ p.σs p.jumpsize (e.1.c.drop 3)) := by
        rw [wJM, hh]
        change (do let f' ← fJ p.jumpsize t 1; pure (p.μs ^ d * p.ρJ ^ f * p.σs ^ g * f')) = _
        rw [fJ_ok _ _ (by simp at ht; omega), ok_bind, one_mul]
        rfl
      rw [e3, ok_bind, hh]
      rfl
    | [], ht => simp at ht; omega
    | [_], ht => simp at ht; omega
    | [_, _], ht => simp at ht; omega
    | [_, _, _], ht => simp at ht; omega
    | [_, _, _, _], ht => simp at ht; omega
    | [_, _, _, _, _], ht => simp at ht; omega

end Ajd.Svcj
