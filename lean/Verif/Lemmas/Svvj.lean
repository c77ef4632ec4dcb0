import Verif.Spec.Svvj
import Verif.Lemmas.JumpEval
import Verif.Lemmas.ItoCondMom
import Verif.Lemmas.Fsv1c
import Mathlib.RingTheory.MvPolynomial.Basic

namespace Ajd.Svvj
open Poly Ito Utils MvPolynomial ItoCond

/-! ### parameters -/

theorem Par.OK.adm {p : Par} (hp : p.OK) : Adm p.cir p.h := by
  refine ⟨hp.k, fun i => ?_, hp.h⟩
  have hi : (i : ℕ) < p.jumptime.length := hp.len ▸ i.2
  change 0 ≤ p.jumptime.getD i 0
  rw [List.getD_eq_getElem _ _ hi]
  exact (hp.time _ (List.getElem_mem hi)).1

theorem Par.OK.le {p : Par} (hp : p.OK) (i : Fin p.cir.N) : p.cir.s i ≤ p.h := by
  have hi : (i : ℕ) < p.jumptime.length := hp.len ▸ i.2
  change p.jumptime.getD i 0 ≤ _
  rw [List.getD_eq_getElem _ _ hi]
  exact (hp.time _ (List.getElem_mem hi)).2

theorem zval_fZ {p : Par} (hp : p.OK) (z : Tup) : zval p.cir p.h z =
    fZSpec z.l.length (fun i => z.l.getD i 0) (fun i => z.o.getD i 0) (fun i => z.p.getD i 0)
      (fun i => z.q.getD i 0) p.k (fun j : Fin p.jumpsize.length => p.jumptime.getD j 0)
      (fun j => p.jumpsize.getD j 0) := by
  unfold zval
  congr 1
  funext i
  rw [ItoCond.Par.upTo, if_pos (hp.le i)]
  rfl

theorem S1_one {p : Par} (hp : p.OK) : S1 p.cir p.h 1 = IEZ p := by
  have h : List.zipWith (fun s J => Real.exp (p.k * s) * J) p.jumptime p.jumpsize =
      List.ofFn fun i : Fin p.jumpsize.length =>
        Real.exp (p.k * p.jumptime.getD i 0) * p.jumpsize.getD i 0 := by
    apply List.ext_getElem
    · simp [hp.len]
    · intro i h1 h2
      simp only [List.length_zipWith, hp.len, List.length_ofFn, min_self] at h1 h2
      simp only [List.getElem_zipWith, List.getElem_ofFn]
      rw [List.getD_eq_getElem _ _ (hp.len ▸ h2), List.getD_eq_getElem _ _ h2]
  rw [IEZ, h, List.sum_ofFn, S1]
  apply Finset.sum_congr rfl
  intro i _
  rw [if_pos (hp.le i)]
  simp [Par.cir]

theorem S1_zero {p : Par} (hp : p.OK) : S1 p.cir p.h 0 = IZ p := by
  have h : p.jumpsize = List.ofFn fun i : Fin p.jumpsize.length => p.jumpsize.getD i 0 := by
    apply List.ext_getElem
    · simp
    · intro i h1 h2
      simp only [List.getElem_ofFn]
      rw [List.getD_eq_getElem _ _ h1]
  have h' : p.jumpsize.sum = _ := congrArg List.sum h
  rw [IZ, h', List.sum_ofFn, S1]
  apply Finset.sum_congr rfl
  intro i _
  rw [if_pos (hp.le i)]
  simp [Par.cir]

/-! ### the return -/

/-- the constant part of the return -/
noncomputable def means (p : Par) : ℝ × ℝ × ℝ × ℝ :=
  ((p.μ - p.θ / 2) * p.h, -((p.v0 - p.θ) * ((1 - Real.exp (-(p.k * p.h))) / (2 * p.k))),
    Real.exp (-(p.k * p.h)) * IEZ p / (2 * p.k), -(IZ p / (2 * p.k)))

/-- the random part of the return -/
noncomputable def ybar (p : Par) : Fsv1.Rv :=
  [C (p.σ / (2 * p.k) * Real.exp (-(p.k * p.h))) * X 0,
    C (p.ρ - p.σ / (2 * p.k)) * X 1, C (Real.sqrt (1 - p.ρ ^ 2)) * X 2].sum

/-- documented decomposition of the return -/
theorem ret_parts (p : Par) (hk : p.k ≠ 0) : ret p = C (means p).1 + C (means p).2.1 +
    C (means p).2.2.1 + C (means p).2.2.2 + ybar p := by
  simp only [ret, intVar, vEnd, ybar, means, List.sum_cons, List.sum_nil]
  simp only [map_add, map_sub, map_mul, map_neg, div_eq_mul_inv, mul_inv, map_one, one_mul]
  have h2 : (C (p.k⁻¹) : Fsv1.Rv) * C p.k = 1 := by rw [← C_mul, inv_mul_cancel₀ hk, map_one]
  have h3 : (C (2⁻¹ : ℝ) : Fsv1.Rv) * 2 = 1 := by
    rw [show (2 : Fsv1.Rv) = C 2 by rw [map_ofNat], ← C_mul]; norm_num
  ring_nf

theorem E_one {p : Par} (hp : p.OK) {E : Fsv1.Rv →ₗ[ℝ] ℝ} (hE : CondLaw p E) : E 1 = 1 := by
  obtain ⟨M, hM, hE⟩ := hE
  have := hE 0 0 0
  simpa [hM.zero _ hp.h] using this

theorem E_C {p : Par} (hp : p.OK) {E : Fsv1.Rv →ₗ[ℝ] ℝ} (hE : CondLaw p E) (a : ℝ) :
    E (C a) = a := by
  have := Fsv1.E_C_mul E a 1
  rwa [mul_one, E_one hp hE, mul_one] at this

theorem E_ybar {p : Par} (hp : p.OK) {E : Fsv1.Rv →ₗ[ℝ] ℝ} (hE : CondLaw p E) :
    E (ybar p) = 0 := by
  obtain ⟨M, hM, hE⟩ := hE
  have e1 : E (X 0) = 0 := by
    have := hE 1 0 0
    rw [M_first hM (by norm_num) hp.h] at this
    simpa using this
  have e2 : E (X 1) = 0 := by
    have := hE 0 1 0
    rw [M_first hM (by norm_num) hp.h] at this
    simpa using this
  have e3 : E (X 2) = 0 := by
    have := hE 0 0 1
    rw [M_first hM (by norm_num) hp.h] at this
    simpa using this
  simp only [ybar, List.sum_cons, List.sum_nil, add_zero]
  rw [map_add, map_add, Fsv1.E_C_mul, Fsv1.E_C_mul, Fsv1.E_C_mul, e1, e2, e3]
  simp

theorem centred {p : Par} (hp : p.OK) {E : Fsv1.Rv →ₗ[ℝ] ℝ} (hE : CondLaw p E) :
    ret p - C (E (ret p)) = ybar p := by
  have h : E (ret p) = (means p).1 + (means p).2.1 + (means p).2.2.1 + (means p).2.2.2 := by
    rw [ret_parts p hp.k]
    simp only [map_add, E_C hp hE, E_ybar hp hE, add_zero]
  rw [h, ret_parts p hp.k]
  simp only [map_add]
  ring

/-! ### central moments -/

theorem vC_keyC (p : Par) (K : JKey) (hK : KOK K) (a b c : ℕ) :
    vC p (keyC ((a : ℤ), (b : ℤ), (c : ℤ)) K) =
      jval p.cir p.h K * (Real.exp (-(p.k * p.h)) ^ a * (p.σ / (2 * p.k)) ^ a *
        (p.ρ - p.σ / (2 * p.k)) ^ b * Real.sqrt (1 - p.ρ ^ 2) ^ c) := by
  obtain ⟨kb, z, kc⟩ := K
  obtain ⟨hl, _, _, _, _, _, hc⟩ := hK
  simp only at hl hc
  subst hc
  match kb, hl with
  | [k0, k1, k2, k3, k4, k5], _ =>
    simp only [vC, keyC, jval, ix_cons_zero, ix_cons_succ, zpow_natCast, List.drop_succ_cons,
      List.drop_zero, List.nil_append, Par.cir]
    have : Real.exp (((k0 - (a : ℤ) : ℤ) : ℝ) * p.k * p.h) =
        Real.exp (k0 * p.k * p.h) * Real.exp (-(p.k * p.h)) ^ a := by
      rw [← Real.exp_nat_mul, ← Real.exp_add]
      congr 1; push_cast; ring
    rw [this]
    ring

section
variable {OK : Idx → ItoCond.Par → Prop} {G : Idx → JKey → Prop}

/-- the factors of one combination -/
noncomputable def wgt (p : Par) (a b c : ℕ) : ℝ :=
  Real.exp (-(p.k * p.h)) ^ a * (p.σ / (2 * p.k)) ^ a * (p.ρ - p.σ / (2 * p.k)) ^ b *
    Real.sqrt (1 - p.ρ ^ 2) ^ c

theorem level_sum (p : Par) (n : ℕ) (P : Idx → JPoly)
    (hP : ∀ i, Valid i → lev i = n → (P i).Keys KOK) :
    ev (vC p) (ofTerms kfC (levelTerms keyC n P)) = ((combsDown 2 n).map fun ns =>
      combN n ns * wgt p (nat ns 0) (nat ns 1) (nat ns 2) * ev (jval p.cir p.h)
        (P (((nat ns 0 : ℕ) : ℤ), ((nat ns 1 : ℕ) : ℤ), ((nat ns 2 : ℕ) : ℤ)))).sum := by
  rw [ev_ofTerms, levelTerms, sum_flatMap, idxs_combs, List.map_map]
  congr 1
  apply List.map_congr_left
  intro ns hns
  obtain ⟨hl, hs⟩ := combs_mem _ _ _ hns
  match ns, hl with
  | [a, b, c], _ =>
    simp only [List.sum_cons, List.sum_nil] at hs
    simp only [Function.comp, nat, List.getD_cons_zero, List.getD_cons_succ]
    have hv : Valid ((a : ℤ), (b : ℤ), (c : ℤ)) := by simp [Valid]
    have hl : lev ((a : ℤ), (b : ℤ), (c : ℤ)) = n := by simp only [lev]; omega
    have hg := hP ((a : ℤ), (b : ℤ), (c : ℤ)) hv hl
    rw [List.map_map, ev, ← List.sum_map_mul_left]
    congr 1
    apply List.map_congr_left
    intro y hy
    simp only [Function.comp, vC_keyC p y.1 (hg y hy) a b c, cN, Int.toNat_natCast,
      Rat.smul_def, wgt]
    push_cast
    ring

theorem level_value {p : Par} (hp : p.OK) {E : Fsv1.Rv →ₗ[ℝ] ℝ} (hE : CondLaw p E) (n : ℕ)
    (P : Idx → JPoly) (hP : ∀ i, Valid i → lev i = n → Good OK G i (P i))
    (hO : ∀ i, Valid i → lev i = n → OK i p.cir) :
    ev (vC p) (ofTerms kfC (levelTerms keyC n P)) = E (ybar p ^ n) := by
  rw [ybar, ← combs_multinomial 2 _ (by simp) n, map_list_sum, List.map_map,
    level_sum p n P fun i hi hl => (hP i hi hl).keys]
  obtain ⟨M, hM, hE⟩ := hE
  congr 1
  apply List.map_congr_left
  intro ns hns
  obtain ⟨hl, hs⟩ := combs_mem _ _ _ hns
  match ns, hl with
  | [a, b, c], _ =>
    simp only [List.sum_cons, List.sum_nil] at hs
    simp only [Function.comp, nat, List.getD_cons_zero, List.getD_cons_succ]
    rw [Fsv1c.E_parts3, hE]
    have hv : Valid ((a : ℤ), (b : ℤ), (c : ℤ)) := by simp [Valid]
    have hl : lev ((a : ℤ), (b : ℤ), (c : ℤ)) = n := by simp only [lev]; omega
    have hv := (hP ((a : ℤ), (b : ℤ), (c : ℤ)) hv hl).val ⟨p.cir, M, p.h, hp.adm, hM⟩ (hO _ hv hl)
    simp only [Int.toNat_natCast] at hv
    rw [hv, wgt]
    ring

theorem level_keys (n : ℕ) (P : Idx → JPoly)
    (hP : ∀ i, Valid i → lev i = n → Good OK G i (P i)) :
    (ofTerms kfC (levelTerms keyC n P)).Keys KC ∧
      (ofTerms kfC (levelTerms keyC n P)).NZKeys fun k => ix k.c 2 % 2 = 0 := by
  have hm : ∀ y ∈ levelTerms keyC n P, ∃ i, Valid i ∧ lev i = n ∧ ∃ e ∈ (P i).items,
      y = (keyC i e.1, cN n i * e.2) := by
    intro y hy
    simp only [levelTerms, List.mem_flatMap, List.mem_map] at hy
    obtain ⟨i, hi, e, he, rfl⟩ := hy
    obtain ⟨h1, h2⟩ := (mem_idxs _ _).1 hi
    exact ⟨i, h1, h2, e, he, rfl⟩
  constructor
  · apply ofTerms_Keys
    intro y hy
    obtain ⟨i, h1, h2, e, he, rfl⟩ := hm y hy
    obtain ⟨⟨kb, z, kc⟩, v⟩ := e
    obtain ⟨k0, k1, k3, k4, k5, kz, kc'⟩ := (hP i h1 h2).keys _ he
    obtain ⟨a1, a2, a3⟩ := h1
    simp only at k0 k1 k3 k4 k5 kz kc'
    subst kc'
    match kb, k0 with
    | [b0, b1, b2, b3, b4, b5], _ => exact ⟨rfl, k1, k3, k4, k5, kz, rfl, a1, a2, a3⟩
  · apply ofTerms_NZKeys
    intro y hy hne
    obtain ⟨i, h1, h2, e, he, rfl⟩ := hm y hy
    have hc := ((hP i h1 h2).keys _ he).2.2.2.2.2.2
    simp only [keyC, hc, List.nil_append, ix_cons_zero, ix_cons_succ]
    exact (hP i h1 h2).nz e he fun h0 => hne (by simp [h0])

/-- what each element of `cmoments_y_to(l)` satisfies; `OKn n` says for which parameters its value is
claimed -/
def IsCm (OKn : ℕ → Par → Prop) (n : ℕ) (r : JPoly) : Prop :=
  r.keyfor = kfC ∧ r.WF ∧ r.Keys KC ∧ (r.Keys fun k => ix k.c 2 % 2 = 0) ∧ (n ≠ 1 → r.NoZero) ∧
    ∀ (p : Par) (E : Fsv1.Rv →ₗ[ℝ] ℝ), p.OK → CondLaw p E → OKn n p → ev (vC p) r = E (ybar p ^ n)

theorem vC_keyC0 (p : Par) : vC p keyC0 = 1 := by
  simp [vC, keyC0, zval_nil]

theorem cmomentsWith_spec (iez : ℚ → ℤ → JPoly → Except PyErr JPoly)
    (hT0 : TabGood (Good OK G) (fun j => Valid j ∧ lev j ≤ 2) T0)
    (hrec : ∀ i, Valid i → 3 ≤ lev i → ∀ T : TabK JKey,
      TabGood (Good OK G) (fun j => Valid j ∧ (lev j = lev i - 2 ∨ lev j = lev i - 1)) T →
      ∃ v, recursiveWith iez i T = .ok v ∧ Good OK G i v) (OKn : ℕ → Par → Prop)
    (hO : ∀ n p i, OKn n p → Valid i → lev i = n → OK i p.cir) (l : ℕ) :
    ∃ ms, cmomentsWith iez l = .ok ms ∧ ms.length = max l 1 + 1 ∧
      ∀ (n : ℕ) r, ms[n]? = some r → IsCm OKn n r := by
  obtain ⟨ms, e, hl, hms⟩ := cmomsTo_spec (Good OK G) (recursiveWith iez) keyC kfC hrec T0 hT0
    first l
  refine ⟨_, e, by simp [first, hl]; omega, ?_⟩
  intro n r hr
  match n with
  | 0 =>
    simp [first] at hr
    subst hr
    refine ⟨rfl, by simp [WF], ?_, ?_, ?_, ?_⟩
    · intro x hx; simp at hx; subst hx; simp [KC, keyC0, ZOK]
    · intro x hx; simp at hx; subst hx; simp [keyC0]
    · intro _ x hx; simp at hx; subst hx; simp
    · intro p E hp hE _
      simp [ev, vC_keyC0, E_one hp hE]
  | 1 =>
    simp [first] at hr
    subst hr
    refine ⟨rfl, by simp [WF], ?_, ?_, by simp, ?_⟩
    · intro x hx; simp at hx; subst hx; simp [KC, keyC0, ZOK]
    · intro x hx; simp at hx; subst hx; simp [keyC0]
    · intro p E hp hE _
      simp [ev, E_ybar hp hE]
  | j + 2 =>
    have hr' : ms[j]? = some r := by
      rw [← hr]
      simp [first]
    obtain ⟨P, hP, rfl⟩ := hms j r hr'
    have hj : ((j : ℤ) + 2) = ((j + 2 : ℕ) : ℤ) := by push_cast; rfl
    rw [hj] at hP ⊢
    obtain ⟨k1, k2⟩ := level_keys (j + 2) P hP
    refine ⟨by simp, removeZero_WF _ (ofTerms_WF _ _), removeZero_Keys _ _ k1, ?_,
      fun _ => removeZero_NoZero _, ?_⟩
    · intro y hy
      exact removeZero_NZKeys _ _ k2 y hy (removeZero_NoZero _ y hy)
    · intro p E hp hE hn
      rw [ev_removeZero, level_value hp hE (j + 2) P hP fun i hi hl => hO _ _ _ hn hi hl]

end

/-- where the code is right: no jumps, or order at most 3 -/
def Right (n : ℕ) (p : Par) : Prop := p.jumpsize = [] ∨ n ≤ 3

theorem code_spec (l : ℕ) : ∃ ms, cmomentsYTo l = .ok ms ∧ ms.length = max l 1 + 1 ∧
    ∀ (n : ℕ) r, ms[n]? = some r → IsCm Right n r := by
  refine cmomentsWith_spec intEIEZ code_T0 code_rec Right ?_ l
  rintro n p i (h | h) hi hl
  · exact Or.inl (by simp [Par.cir, h])
  · exact Or.inr (Or.inl (by omega))

theorem fixed_spec (l : ℕ) : ∃ ms, cmomentsWith intEIEZFixed l = .ok ms ∧
    ms.length = max l 1 + 1 ∧ ∀ (n : ℕ) r, ms[n]? = some r → IsCm (fun _ _ => True) n r :=
  cmomentsWith_spec intEIEZFixed fixed_T0 fixed_rec _ (fun _ _ _ _ _ _ => trivial) l

/-! ### evaluation -/

theorem poly2numC_spec (P : JPoly) (hP : P.Keys KC) (p : Par) (hp : p.OK) :
    ∃ c, ∀ fuel, c ≤ fuel → poly2numC fuel P p = some (.ok (ev (vC p) P)) := by
  obtain ⟨c, hc⟩ := evalLoop_spec p.k p.jumptime p.jumpsize hp.len.ge (wC p) P.items
    fun e he => (hP e he).2.2.2.2.2.1
  refine ⟨c, fun fuel hf => ?_⟩
  rw [poly2numC, hc fuel hf, zero_add, ev]
  congr 3
  apply List.map_congr_left
  intro e he
  congr 1
  rw [← zval_fZ hp, vC, wC, sqrt_pow _ hp.ρ _ (hP e he).2.2.2.2.2.2.2.2.2]
  ring

/-! ### simplify -/

theorem simplify0_spec (r : JPoly) (h : r.Keys KC) (p : Par) :
    ∃ s, simplify r 0 = .ok s ∧ s.keyfor = "e^{-kt}" :: r.keyfor.drop 1 ∧ s.WF ∧
      ev (vC0 p) s = ev (vC p) r := by
  refine ⟨_, rfl, by simp, ofTerms_WF _ _, ?_⟩
  apply ev_ofTerms_map
  intro e he
  congr 1
  obtain ⟨⟨kb, z, kc⟩, v⟩ := e
  have hl := (h _ he).1
  simp only at hl
  match kb, hl with
  | [b0, b1, b2, b3, b4, b5], _ =>
    simp only [vC0, vC, ix_cons_zero, ix_cons_succ, List.drop_succ_cons, List.drop_zero]
    push_cast
    rw [neg_neg]

/-- value of a key between the two steps of `simplify(poly, 1)` -/
noncomputable def vR (p : Par) (K : JKey) : ℝ :=
  Real.exp (-(ix K.b 0) * p.k * p.h) * p.h ^ ix K.b 1 * p.k ^ (-ix K.b 2) *
    (p.v0 - p.θ) ^ ix K.b 3 * p.θ ^ ix K.b 4 * p.σ ^ ix K.b 5 * zval p.cir p.h K.z *
    (p.ρ ^ ix K.c 0 * Real.sqrt (1 - p.ρ ^ 2) ^ ix K.c 1)

theorem rhoExpand_value (p : Par) (hk : p.k ≠ 0) (e : JKey × ℚ) (he : KC e.1) :
    ((rhoExpand e).map fun t => t.2 • vR p t.1).sum = e.2 • vC p e.1 := by
  obtain ⟨⟨kb, z, kc⟩, v⟩ := e
  obtain ⟨hl, h1, h3, h4, h5, _, _, h6, h7, h8⟩ := he
  simp only at hl h1 h3 h4 h5 h6 h7 h8
  obtain ⟨a, ha⟩ := Int.eq_ofNat_of_zero_le h6
  obtain ⟨b, hb⟩ := Int.eq_ofNat_of_zero_le h7
  simp only [rhoExpand, vC, ha, hb, List.map_map]
  rw [show ((b : ℤ) + 1).toNat = b + 1 by omega, list_range_sum', Int.toNat_natCast]
  simp only [zpow_natCast]
  rw [← Fsv1.binom_neg p.ρ (p.σ / (2 * p.k)) b, Finset.mul_sum, Finset.sum_mul, Finset.smul_sum]
  apply Finset.sum_congr rfl
  intro j hj
  have hj' : j ≤ b := by simpa [Nat.lt_succ_iff] using hj
  simp only [Function.comp, vR, ix_cons_zero, ix_cons_succ, Rat.smul_def]
  rw [show (a : ℤ) + j = ((a + j : ℕ) : ℤ) by push_cast; rfl,
    show (b : ℤ) - j = ((b - j : ℕ) : ℤ) by omega, neg_add, zpow_add₀ hk,
    zpow_add_nn p.σ _ _ h5 (by omega), Fsv1.zpow_neg_nat]
  simp only [zpow_natCast, div_eq_mul_inv, mul_inv, mul_pow, pow_add]
  push_cast
  rw [neg_neg]
  simp only [← inv_pow, one_mul]
  ring

theorem simplifyRhoJ_spec (P : JPoly) (hP : P.Keys fun K => K.c.length = 2 ∧ RhoKey 1 K.c) :
    ∃ Q, simplifyRhoJ P = .ok Q ∧ Q.keyfor = P.keyfor.take 11 ++ P.keyfor.drop 12 ∧ Q.WF ∧
      Q.NoZero ∧ (Q.Keys fun K => K.c.length = 1) ∧
      ∀ p : Par, 0 ≤ 1 - p.ρ ^ 2 → ev (vC1 p) Q = ev (vR p) P := by
  obtain ⟨Q, e, qk, qw, qK, qv⟩ := subst_spec (ι := {p : Par // 0 ≤ 1 - p.ρ ^ 2})
    (P.keyfor.take 11 ++ P.keyfor.drop 12) (fun e : JKey × ℚ => do
      let ts ← rhoTerms 1 (e.1.c, e.2)
      pure (ts.map fun t => ((⟨e.1.b, e.1.z, t.1⟩ : JKey), t.2))) P (fun K => K.c.length = 1)
    (fun p => vC1 p.1) (fun p => vR p.1) (by
    intro e he
    obtain ⟨hl, hr⟩ := hP e he
    obtain ⟨ts, e1, e2, e3⟩ := rhoTerms_ok 1 one_pos (e.1.c, e.2) hr
    refine ⟨_, by rw [e1]; rfl, ?_, ?_⟩
    · intro t ht
      obtain ⟨u, hu, rfl⟩ := List.mem_map.1 ht
      have := e2 u hu
      simp only at this ⊢
      omega
    · rintro ⟨p, hρ⟩
      have hv := e3 (fun i => if i = 0 then p.ρ else Real.sqrt (1 - p.ρ ^ 2))
        (by simp [Real.sq_sqrt hρ])
      have hm : ∀ u ∈ ts, mono (dropVar 1 fun i => if i = 0 then p.ρ else
          Real.sqrt (1 - p.ρ ^ 2)) u.1 = p.ρ ^ ix u.1 0 := by
        intro u hu
        have := e2 u hu
        simp only at this
        match hu1 : u.1, (by omega : u.1.length = 1) with
        | [a], _ => simp [mono, dropVar]
      have hc : mono (fun i => if i = 0 then p.ρ else Real.sqrt (1 - p.ρ ^ 2)) e.1.c =
          p.ρ ^ ix e.1.c 0 * Real.sqrt (1 - p.ρ ^ 2) ^ ix e.1.c 1 := by
        match he1 : e.1.c, hl with
        | [a, b], _ => simp [mono, Finset.prod_range_succ]
      simp only [hc] at hv
      simp only [vR]
      rw [← mul_smul_comm, ← hv, List.map_map, ← List.sum_map_mul_left]
      congr 1
      apply List.map_congr_left
      intro u hu
      simp only [Function.comp, vC1]
      rw [hm u hu, mul_smul_comm])
  refine ⟨Q.removeZero, ?_, by simp [qk], removeZero_WF _ qw, removeZero_NoZero _,
    removeZero_Keys _ _ qK, fun p hρ => by rw [ev_removeZero]; exact qv ⟨p, hρ⟩⟩
  unfold subst at e
  unfold simplifyRhoJ
  cases hm : P.items.mapM (fun e : JKey × ℚ => do
      let ts ← rhoTerms 1 (e.1.c, e.2)
      pure (ts.map fun t => ((⟨e.1.b, e.1.z, t.1⟩ : JKey), t.2)) :
        JKey × ℚ → Except PyErr (List (JKey × ℚ))) with
  | error _ => rw [hm] at e; cases e
  | ok ts => rw [hm] at e; cases e; rfl

/-- keyfor after `simplify(poly, 1)` -/
def kfR : List String := ["e^{-kt}", "t", "k^{-}", "v0-theta", "theta", "sigma", "l_{1:n}",
  "o_{1:n}", "p_{2:n}", "q_{2:n}", "rho"]

theorem simplify1_spec (r : JPoly) (hk : r.keyfor = kfC) (h : r.Keys KC)
    (he : r.Keys fun k => ix k.c 2 % 2 = 0) (tp : ℤ) (ht : tp ≠ 0) :
    ∃ q, simplify r tp = .ok q ∧ q.keyfor = kfR ∧ q.WF ∧ q.NoZero ∧
      ∀ p : Par, p.k ≠ 0 → 0 ≤ 1 - p.ρ ^ 2 → ev (vC1 p) q = ev (vC p) r := by
  obtain ⟨Q, e, qk, qw, qz, _, qv⟩ := simplifyRhoJ_spec (ofTerms
    (("e^{-kt}" :: r.keyfor.drop 1).take 10 ++ ["rho"] ++ ("e^{-kt}" :: r.keyfor.drop 1).drop 12)
      (r.items.flatMap rhoExpand)) (by
    apply ofTerms_Keys
    intro y hy
    obtain ⟨e, he', hy⟩ := List.mem_flatMap.1 hy
    obtain ⟨j, hj, rfl⟩ := List.mem_map.1 hy
    obtain ⟨_, _, _, _, _, _, _, h6, h7, h8⟩ := h e he'
    have h8' := he e he'
    have hj := List.mem_range.1 hj
    refine ⟨rfl, by simp, ?_, h8, h8'⟩
    change 0 ≤ ix e.1.c 1 - (j : ℤ)
    omega)
  refine ⟨Q, by rw [simplify, if_neg ht]; exact e, ?_, qw, qz, fun p hk hρ => ?_⟩
  · rw [qk, ofTerms_keyfor, hk]; rfl
  · rw [qv p hρ]
    apply ev_ofTerms_flatMap
    intro e he'
    exact rhoExpand_value p hk e (h e he')

/-! ### moments -/

theorem keyM_tup (n1 n2 n3 n4 : ℕ) (K : JKey) : (keyM n1 n2 n3 n4 K).z =
    appTup K.z (List.replicate n3 1 ++ List.replicate n4 0)
      (if K.z.l.length = 0 then n3 + n4 - 1 else n3 + n4) := by
  simp [keyM, appTup]

theorem vM_keyM {p : Par} (hp : p.OK) (n1 n2 n3 n4 : ℕ) (K : JKey) (hK : KC K) :
    vM p (keyM n1 n2 n3 n4 K) = vC p K * (((p.μ - p.θ / 2) * p.h) ^ n1 *
      ((p.v0 - p.θ) * ((1 - Real.exp (-(p.k * p.h))) / (2 * p.k))) ^ n2 *
      (Real.exp (-(p.k * p.h)) * IEZ p / p.k) ^ n3 * (IZ p / p.k) ^ n4) := by
  obtain ⟨hl, h1, h3, h4, h5, hz, _, _, _, _⟩ := hK
  unfold vM
  rw [keyM_tup, zval_app _ hp.adm.2.1 _ hp.h _ hz]
  obtain ⟨kb, z, kc⟩ := K
  simp only at hl h1 h3 h4 h5 hz
  simp only [keyM, vC, ix_cons_zero, ix_cons_succ, List.map_append, List.map_replicate,
    List.prod_append, List.prod_replicate, S1_one hp, S1_zero hp, zpow_natCast, neg_add,
    zpow_add₀ hp.k, zpow_add_nn _ _ _ h1 (Int.natCast_nonneg n1),
    zpow_add_nn _ _ _ h3 (Int.natCast_nonneg n2), Fsv1.zpow_neg_nat]
  have : Real.exp (((ix kb 0 - (n3 : ℤ) : ℤ) : ℝ) * p.k * p.h) =
      Real.exp (ix kb 0 * p.k * p.h) * Real.exp (-(p.k * p.h)) ^ n3 := by
    rw [← Real.exp_nat_mul, ← Real.exp_add]
    congr 1; push_cast; ring
  rw [this]
  simp only [div_eq_mul_inv, mul_pow]
  ring

theorem keyM_ok (n1 n2 n3 n4 : ℕ) (K : JKey) (hK : KC K) : KM (keyM n1 n2 n3 n4 K) := by
  obtain ⟨hl, h1, h3, h4, h5, hz, h6, h7, h8, h9⟩ := hK
  refine ⟨rfl, ?_, ?_, ?_, ?_, h4, h5, ?_, h6, h7, h8, h9⟩
  · simp only [keyM, ix_cons_zero, ix_cons_succ]; omega
  · simp [keyM]
  · simp [keyM]
  · simp only [keyM, ix_cons_zero, ix_cons_succ]; omega
  · rw [keyM_tup]
    exact appTup_ok _ hz _ _ (by simp)

theorem momentComb_spec (n n1 n2 n3 n4 n5 : ℕ) (hn : n1 + (n2 + (n3 + (n4 + n5))) = n) (P : JPoly)
    (hk : P.keyfor = kfC) (hP : P.Keys KC) :
    ∃ Q, momentComb n n1 n2 n3 n4 P = .ok Q ∧ Q.keyfor = kfM ∧ Q.Keys KM ∧
      ∀ p : Par, p.OK → ev (vM p) Q = combN n [n1, n2, n3, n4, n5] * ((means p).1 ^ n1 *
        ((means p).2.1 ^ n2 * ((means p).2.2.1 ^ n3 * (means p).2.2.2 ^ n4))) * ev (vC p) P := by
  have hc : comb n [(n1 : ℤ), (n2 : ℤ), (n3 : ℤ), (n4 : ℤ), (n : ℤ) - n1 - n2 - n3 - n4] =
      .ok (combN n [n1, n2, n3, n4, n5]) := by
    have := comb_eq [n1, n2, n3, n4, n5] n (by simp; omega)
    rw [← this]
    congr 1
    simp
    omega
  refine ⟨_, by rw [momentComb, hc]; rfl, by rw [ofTerms_keyfor, hk]; rfl, ?_, ?_⟩
  · apply ofTerms_Keys
    intro y hy
    obtain ⟨e, he, rfl⟩ := List.mem_map.1 hy
    exact keyM_ok _ _ _ _ _ (hP e he)
  · intro p hp
    rw [ev_ofTerms, List.map_map, ev, ← List.sum_map_mul_left]
    congr 1
    apply List.map_congr_left
    intro e he
    simp only [Function.comp, vM_keyM hp _ _ _ _ _ (hP e he), means, Rat.smul_def]
    push_cast
    rw [pow_add, pow_add, neg_pow (_ * _) n2, neg_pow (_ / _) n4]
    simp only [div_eq_mul_inv, mul_inv, mul_pow, inv_pow]
    ring

/-- what each element of `moments_y_to(l)` satisfies -/
def IsM (OKn : ℕ → Par → Prop) (n : ℕ) (r : JPoly) : Prop :=
  r.keyfor = kfM ∧ r.WF ∧ r.Keys KM ∧ r.NoZero ∧
    ∀ (p : Par) (E : Fsv1.Rv →ₗ[ℝ] ℝ), p.OK → CondLaw p E → OKn n p → ev (vM p) r = E (ret p ^ n)

theorem momentLevel_spec (OKn : ℕ → Par → Prop) (hO : ∀ n m p, m ≤ n → OKn n p → OKn m p)
    (cms : List JPoly) (n : ℕ) (hl : n < cms.length)
    (hc : ∀ (m : ℕ) r, cms[m]? = some r → IsCm OKn m r) :
    ∃ r, momentLevel cms n = .ok r ∧ IsM OKn n r := by
  obtain ⟨r, e, rk, rw', _, rK, rv⟩ := mergeLoop_spec
    (ι := {x : Par × (Fsv1.Rv →ₗ[ℝ] ℝ) // x.1.OK ∧ CondLaw x.1 x.2 ∧ OKn n x.1}) (fun ns => do
    let py ← pyGet cms (nat ns 4)
    momentComb n (nat ns 0) (nat ns 1) (nat ns 2) (nat ns 3) py) (combsDown 4 n)
    (⟨kfM, []⟩ : JPoly) KM (fun x => vM x.1.1) (fun x ns => x.1.2 ((combN n ns : Fsv1.Rv) *
      (List.zipWith (· ^ ·) [C (means x.1.1).1, C (means x.1.1).2.1, C (means x.1.1).2.2.1,
        C (means x.1.1).2.2.2, ybar x.1.1] ns).prod)) (fun x hx => by simp at hx) (by
    intro ns hns
    obtain ⟨h5, hs⟩ := combs_mem _ _ _ hns
    match ns, h5 with
    | [n1, n2, n3, n4, n5], _ =>
      simp only [List.sum_cons, List.sum_nil, add_zero] at hs
      simp only [nat, List.getD_cons_zero, List.getD_cons_succ]
      have h5 : n5 < cms.length := by omega
      have hg := List.getElem?_eq_getElem h5
      obtain ⟨ck, _, cK, _, _, cv⟩ := hc n5 _ hg
      obtain ⟨Q, eQ, qk, qK, qv⟩ := momentComb_spec n n1 n2 n3 n4 n5 (by omega) _ ck cK
      refine ⟨Q, by rw [pyGet, hg]; exact eQ, qk, qK, ?_⟩
      rintro ⟨⟨p, E⟩, hp, hE, hn⟩
      rw [qv p hp, cv p E hp hE (hO n n5 p (by omega) hn), ← Fsv1.E_C_mul]
      congr 1
      simp only [List.zipWith_cons_cons, List.zipWith_nil_right, List.prod_cons, List.prod_nil,
        map_mul, map_pow, map_natCast]
      ring)
  refine ⟨r.removeZero, by rw [momentLevel, e]; rfl, by simpa using rk,
    removeZero_WF _ (rw' (by simp [WF])), removeZero_Keys _ _ rK, removeZero_NoZero _, ?_⟩
  intro p E hp hE hn
  rw [ev_removeZero, rv ⟨(p, E), hp, hE, hn⟩, Fsv1.sum_E, combs_multinomial 4 _ rfl,
    ret_parts p hp.k]
  simp only [ev, List.map_nil, List.sum_nil, zero_add, List.sum_cons, add_zero]
  congr 2
  ring

theorem momentsWith_spec (OKn : ℕ → Par → Prop) (hO : ∀ n m p, m ≤ n → OKn n p → OKn m p)
    (iez : ℚ → ℤ → JPoly → Except PyErr JPoly) (l : ℕ)
    (h : ∃ ms, cmomentsWith iez l = .ok ms ∧ ms.length = max l 1 + 1 ∧
      ∀ (n : ℕ) r, ms[n]? = some r → IsCm OKn n r) :
    ∃ ms, momentsWith iez l = .ok ms ∧ ms.length = l + 1 ∧
      ∀ (n : ℕ) r, ms[n]? = some r → IsM OKn n r := by
  obtain ⟨cms, e, hl, hc⟩ := h
  obtain ⟨ms, em, hR⟩ := mapM_ok_rel (momentLevel cms) (fun n r => IsM OKn n r)
    ((List.range l).map (· + 1)) (by
    intro n hn
    simp only [List.mem_map, List.mem_range] at hn
    obtain ⟨a, ha, rfl⟩ := hn
    exact momentLevel_spec OKn hO cms (a + 1) (by omega) hc)
  have hlen := hR.length_eq
  simp only [List.length_map, List.length_range] at hlen
  refine ⟨firstM :: ms, ?_, by simp [← hlen], ?_⟩
  · simp only [momentsWith, e, ok_bind, Int.toNat_natCast, em]
    rfl
  · intro n r hr
    cases n with
    | zero =>
      simp at hr
      subst hr
      refine ⟨rfl, by simp [WF, firstM], ?_, ?_, ?_⟩
      · intro x hx; simp [firstM] at hx; subst hx; simp [KM, ZOK]
      · intro x hx; simp [firstM] at hx; subst hx; simp
      · intro p E hp hE _
        simp [ev, firstM, vM, zval_nil, E_one hp hE]
    | succ n =>
      have hr' : ms[n]? = some r := by simpa using hr
      have hn : n < ms.length := (List.getElem?_eq_some_iff.1 hr').1
      have := hR.get (i := n) (by simpa [hlen] using hn) hn
      simp only [List.get_eq_getElem, List.getElem_map, List.getElem_range] at this
      rwa [(List.getElem?_eq_some_iff.1 hr').2] at this

theorem Right_mono (n m : ℕ) (p : Par) (h : m ≤ n) (hr : Right n p) : Right m p :=
  hr.imp_right fun h' => h.trans h'

theorem poly2numM_spec (P : JPoly) (hP : P.Keys KM) (p : Par) (hp : p.OK) :
    ∃ c, ∀ fuel, c ≤ fuel → poly2numM fuel P p = some (.ok (ev (vM p) P)) := by
  obtain ⟨c, hc⟩ := evalLoop_spec p.k p.jumptime p.jumpsize hp.len.ge (wM p) P.items
    fun e he => (hP e he).2.2.2.2.2.2.2.1
  refine ⟨c, fun fuel hf => ?_⟩
  rw [poly2numM, hc fuel hf, zero_add, ev]
  congr 3
  apply List.map_congr_left
  intro e he
  congr 1
  rw [← zval_fZ hp, vM, wM, sqrt_pow _ hp.ρ _ (hP e he).2.2.2.2.2.2.2.2.2.2.2, neg_mul]
  ring

/-! ### existence of the conditional expectation -/

/-- the functional with the moments of `itoSolZ` -/
noncomputable def condE (p : Par) : Fsv1.Rv →ₗ[ℝ] ℝ :=
  (basisMonomials (Fin 3) ℝ).constr ℝ fun s => itoSolZ p.cir (s 0) (s 1) (s 2) p.h

theorem condLaw_condE (p : Par) : CondLaw p (condE p) := by
  refine ⟨_, itoSolZ_rec _, fun a b c => ?_⟩
  have h : (X 0 ^ a * X 1 ^ b * X 2 ^ c : Fsv1.Rv) = basisMonomials (Fin 3) ℝ
      (Finsupp.single 0 a + Finsupp.single 1 b + Finsupp.single 2 c) := by
    rw [coe_basisMonomials, X_pow_eq_monomial, X_pow_eq_monomial, X_pow_eq_monomial, monomial_mul,
      monomial_mul, one_mul, one_mul]
  rw [h, condE, Module.Basis.constr_basis]
  simp [Finsupp.single_apply]

end Ajd.Svvj
