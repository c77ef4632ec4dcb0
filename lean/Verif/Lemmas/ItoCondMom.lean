import Verif.Lemmas.ItoCond

section -- ItoCondRec

/-! The recursion and the table of `ito_cond_mom.py`. -/

namespace Ajd.ItoCond
open MeasureTheory Utils Poly Ito

/-- a solution of the moment equation and a time -/
structure Env where
  x : Par
  M : ℕ → ℕ → ℕ → ℝ → ℝ
  t : ℝ
  adm : Adm x t
  hM : ItoRecZ x M

/-- the value added by one call -/
noncomputable def callVal (x : Par) (M : ℕ → ℕ → ℕ → ℝ → ℝ) (t : ℝ) (q : Call) : ℝ :=
  if q.tp = 4 then iezVal x t q.c q.m (M q.idx.1.toNat q.idx.2.1.toNat q.idx.2.2.toNat)
  else q.c * fac x q.tp * ∫ s in (0 : ℝ)..t, Real.exp (q.m * x.k * s) *
    M q.idx.1.toNat q.idx.2.1.toNat q.idx.2.2.toNat s

theorem calls_sum (x : Par) (M : ℕ → ℕ → ℕ → ℝ → ℝ) (hM : ItoRecZ x M) (t : ℝ)
    (ht : 0 ≤ t) (n1 n2 n3 : ℕ) (hn : 0 < n1 + n2 + n3) :
    ((calls (n1, n2, n3)).map (callVal x M t)).sum = M n1 n2 n3 t := by
  rw [hM.step n1 n2 n3 hn t ht]
  simp only [calls, List.map_append, List.sum_append]
  rw [← add_assoc, ← add_assoc]
  congr 1
  · congr 1
    · congr 1
      · split_ifs with h
        · simp only [List.map_cons, List.map_nil, List.sum_cons, List.sum_nil, callVal, fac, quad,
            iezVal]
          simp only [show ((n1 : ℤ) - 2).toNat = n1 - 2 by omega,
            show ((n1 : ℤ) - 1).toNat = n1 - 1 by omega, Int.toNat_natCast]
          norm_num
          ring
        · have : n1 = 0 ∨ n1 = 1 := by omega
          rcases this with rfl | rfl <;> simp
      · split_ifs with h
        · simp only [List.map_cons, List.map_nil, List.sum_cons, List.sum_nil, callVal, fac, quad,
            iezVal]
          simp only [show ((n2 : ℤ) - 2).toNat = n2 - 2 by omega,
            show ((n1 : ℤ) + 1).toNat = n1 + 1 by omega, Int.toNat_natCast]
          norm_num
          ring
        · have : n2 = 0 ∨ n2 = 1 := by omega
          rcases this with rfl | rfl <;> simp
    · split_ifs with h
      · simp only [List.map_cons, List.map_nil, List.sum_cons, List.sum_nil, callVal, fac, quad,
          iezVal]
        simp only [show ((n2 : ℤ) - 1).toNat = n2 - 1 by omega,
          show ((n1 : ℤ) - 1).toNat = n1 - 1 by omega, Int.toNat_natCast]
        norm_num
        ring
      · have : n1 = 0 ∨ n2 = 0 := by omega
        rcases this with rfl | rfl <;> simp
  · split_ifs with h
    · simp only [List.map_cons, List.map_nil, List.sum_cons, List.sum_nil, callVal, fac, quad,
        iezVal]
      simp only [show ((n3 : ℤ) - 2).toNat = n3 - 2 by omega,
        show ((n1 : ℤ) + 1).toNat = n1 + 1 by omega, Int.toNat_natCast]
      norm_num
      ring
    · have : n3 = 0 ∨ n3 = 1 := by omega
      rcases this with rfl | rfl <;> simp

/-- moments of `IE` alone -/
def Pure (i : Idx) : Prop := i.2.1 = 0 ∧ i.2.2 = 0

theorem calls_idx (i : Idx) (hi : Valid i) : ∀ q ∈ calls i, Valid q.idx ∧
    (lev q.idx = lev i - 2 ∨ lev q.idx = lev i - 1) ∧ q.idx.2.2 % 2 = i.2.2 % 2 ∧
    (q.tp = 4 → lev q.idx = lev i - 2) ∧ (Pure i → Pure q.idx ∧ 1 ≤ q.m) := by
  obtain ⟨a, b, c⟩ := i
  obtain ⟨h1, h2, h3⟩ := hi
  simp only at h1 h2 h3
  intro q hq
  simp only [calls, List.mem_append] at hq
  simp only [Valid, lev, Pure]
  rcases hq with hq | hq | hq | hq <;> split_ifs at hq with h <;>
    simp only [List.mem_cons, List.not_mem_nil, or_false] at hq <;>
    rcases hq with rfl | rfl | rfl | rfl <;> dsimp only <;>
    refine ⟨⟨?_, ?_, ?_⟩, ?_, ?_, ?_, ?_⟩ <;> omega

/-- Parameters of the argument: `OK i x` where the moment `i` is claimed to be right, `G i` what is
known of its keys. -/
structure Good (OK : Idx → Par → Prop) (G : Idx → JKey → Prop) (i : Idx) (P : JPoly) : Prop where
  kf : P.keyfor = kf
  keys : P.Keys KOK
  G : P.Keys (G i)
  wf : P.WF
  val : ∀ y : Env, OK i y.x → ev (jval y.x y.t) P = y.M i.1.toNat i.2.1.toNat i.2.2.toNat y.t
  nz : P.NZKeys fun _ => i.2.2 % 2 = 0

/-- `recursive_IEII` is right wherever `int_e_IEZ_poly` is -/
theorem recursive_spec (iez : ℚ → ℤ → JPoly → Except PyErr JPoly) (OK : Idx → Par → Prop)
    (G : Idx → JKey → Prop)
    (hiez : ∀ i, Valid i → 3 ≤ lev i → ∀ q ∈ calls i, q.tp = 4 → ∀ P : JPoly, P.Keys KOK →
      P.Keys (G q.idx) → ∃ Q, iez q.c q.m P = .ok Q ∧ Q.keyfor = P.keyfor ∧ Q.Keys KOK ∧
        Q.Keys (G i) ∧ (∀ (x : Par) (t : ℝ), Adm x t → OK i x → ev (jval x t) Q =
          iezVal x t q.c q.m fun s => ev (jval x s) P) ∧
        ∀ A : Prop, (P.NZKeys fun _ => A) → Q.NZKeys fun _ => A)
    (hG : ∀ i, Valid i → 3 ≤ lev i → ∀ q ∈ calls i, q.tp ≠ 4 → ∀ P Q : JPoly, P.Keys KOK →
      P.Keys (G q.idx) → intEPoly q.c q.tp q.m P = .ok Q → Q.Keys (G i))
    (hOK : ∀ i, Valid i → ∀ x, OK i x → ∀ q ∈ calls i, OK q.idx x)
    (i : Idx) (hi : Valid i) (hl : 3 ≤ lev i) (T : TabK JKey)
    (hT : TabGood (Good OK G) (fun j => Valid j ∧ (lev j = lev i - 2 ∨ lev j = lev i - 1)) T) :
    ∃ v, recursiveWith iez i T = .ok v ∧ Good OK G i v := by
  have hq : ∀ q ∈ calls i, ∃ P, dget T q.idx = some P ∧ Good OK G q.idx P := fun q hq =>
    hT _ ⟨(calls_idx i hi q hq).1, (calls_idx i hi q hq).2.1⟩
  have hcall : ∀ q ∈ calls i, ∃ Q, (do
      let p ← lookup T q.idx
      if q.tp = 4 then iez q.c q.m p else intEPoly q.c q.tp q.m p : Except PyErr JPoly) = .ok Q ∧
      Q.keyfor = kf ∧ (Q.Keys fun k => KOK k ∧ G i k) ∧
      (∀ y : {y : Env // OK i y.x}, ev (jval y.1.x y.1.t) Q = callVal y.1.x y.1.M y.1.t q) ∧
      Q.NZKeys fun _ => i.2.2 % 2 = 0 := by
    intro q hq'
    obtain ⟨P, eP, g⟩ := hq q hq'
    have hpar := (calls_idx i hi q hq').2.2.1
    by_cases h4 : q.tp = 4
    · obtain ⟨Q, eQ, qk, qK, qG, qv, qz⟩ := hiez i hi hl q hq' h4 P g.keys g.G
      refine ⟨Q, by rw [lookup, eP]; simpa [h4] using eQ, qk.trans g.kf,
        fun k hk => ⟨qK k hk, qG k hk⟩, ?_, hpar ▸ qz _ g.nz⟩
      rintro ⟨y, hy⟩
      dsimp only
      rw [qv y.x y.t y.adm hy, callVal, if_pos h4]
      unfold iezVal
      congr 1
      apply intervalIntegral.integral_congr
      intro s hs
      rw [Set.uIcc_of_le y.adm.2.2] at hs
      dsimp only
      rw [g.val ⟨y.x, y.M, s, ⟨y.adm.1, y.adm.2.1, hs.1⟩, y.hM⟩ (hOK i hi y.x hy q hq')]
    · obtain ⟨Q, eQ, qk, _, qK, qv, qz⟩ := intEPoly_spec q.c q.tp q.m P g.keys
      have qG := hG i hi hl q hq' h4 P Q g.keys g.G eQ
      refine ⟨Q, by rw [lookup, eP]; simpa [h4] using eQ, qk.trans g.kf,
        fun k hk => ⟨qK k hk, qG k hk⟩, ?_, hpar ▸ qz _ g.nz⟩
      rintro ⟨y, hy⟩
      dsimp only
      rw [qv y.x y.t y.adm, callVal, if_neg h4]
      congr 1
      apply intervalIntegral.integral_congr
      intro s hs
      rw [Set.uIcc_of_le y.adm.2.2] at hs
      dsimp only
      rw [g.val ⟨y.x, y.M, s, ⟨y.adm.1, y.adm.2.1, hs.1⟩, y.hM⟩ (hOK i hi y.x hy q hq')]
  obtain ⟨r, e, rk, rw', _, rK, rv⟩ := mergeLoop_spec (ι := {y : Env // OK i y.x}) (fun q : Call => do
    let p ← lookup T q.idx
    if q.tp = 4 then iez q.c q.m p else intEPoly q.c q.tp q.m p) (calls i) (⟨kf, []⟩ : JPoly)
    (fun k => KOK k ∧ G i k) (fun y => jval y.1.x y.1.t)
    (fun y => callVal y.1.x y.1.M y.1.t) (fun x hx => by simp at hx) (by
    intro q hq'
    obtain ⟨Q, a1, a2, a3, a4, _⟩ := hcall q hq'
    exact ⟨Q, a1, a2, a3, a4⟩)
  refine ⟨r, e, rk, fun k hk => (rK k hk).1, fun k hk => (rK k hk).2, rw' (by simp [WF]), ?_, ?_⟩
  · intro y hy
    rw [rv ⟨y, hy⟩]
    obtain ⟨a, b, c⟩ := i
    obtain ⟨h1, h2, h3⟩ := hi
    simp only [lev] at h1 h2 h3 hl
    lift a to ℕ using h1
    lift b to ℕ using h2
    lift c to ℕ using h3
    rw [calls_sum y.x y.M y.hM y.t y.adm.2.2 a b c (by omega)]
    simp [ev]
  · refine mergeLoop_NZ _ _ _ _ _ (fun x hx => by simp at hx) ?_ e
    intro q hq' Q eq
    obtain ⟨Q', a1, _, _, _, a5⟩ := hcall q hq'
    have : Q = Q' := Except.ok.inj (eq.symm.trans a1)
    rw [this]
    exact a5

/-! ### the initial table -/

section
variable {x : Par} {M : ℕ → ℕ → ℕ → ℝ → ℝ} (hM : ItoRecZ x M)
include hM

theorem M_first {n1 n2 n3 : ℕ} (h : n1 + n2 + n3 = 1) {t : ℝ} (ht : 0 ≤ t) :
    M n1 n2 n3 t = 0 := by
  rw [hM.step n1 n2 n3 (by omega) t ht]
  have : (n1 = 1 ∧ n2 = 0 ∧ n3 = 0) ∨ (n1 = 0 ∧ n2 = 1 ∧ n3 = 0) ∨ (n1 = 0 ∧ n2 = 0 ∧ n3 = 1) := by
    omega
  rcases this with ⟨rfl, rfl, rfl⟩ | ⟨rfl, rfl, rfl⟩ | ⟨rfl, rfl, rfl⟩ <;> simp

theorem int_first (w : ℝ → ℝ) {n1 n2 n3 : ℕ} (h : n1 + n2 + n3 = 1) {t : ℝ} (ht : 0 ≤ t) :
    ∫ s in (0 : ℝ)..t, w s * M n1 n2 n3 s = 0 := by
  rw [intervalIntegral.integral_congr (g := fun _ => (0 : ℝ))]
  · simp
  · intro s hs
    rw [Set.uIcc_of_le ht] at hs
    simp [M_first hM h hs.1]

theorem int_zero (w : ℝ → ℝ) {t : ℝ} (ht : 0 ≤ t) :
    ∫ s in (0 : ℝ)..t, w s * M 0 0 0 s = ∫ s in (0 : ℝ)..t, w s := by
  apply intervalIntegral.integral_congr
  intro s hs
  rw [Set.uIcc_of_le ht] at hs
  simp [hM.zero s hs.1]

theorem int_iez (w : ℝ → ℝ) {t : ℝ} (ht : 0 ≤ t) :
    ∫ s in (0 : ℝ)..t, w s * (x.IEZ s * M 0 0 0 s) = ∫ s in (0 : ℝ)..t, w s * x.IEZ s := by
  apply intervalIntegral.integral_congr
  intro s hs
  rw [Set.uIcc_of_le ht] at hs
  simp [hM.zero s hs.1]

end

theorem zval_nil (x : Par) (t : ℝ) (z : Tup) (hz : z.l = []) : zval x t z = 1 := by
  obtain ⟨l, o, p, q⟩ := z
  simp only at hz
  subst hz
  simp [zval, fZSpec]

theorem zval_one (x : Par) (t : ℝ) (l o : ℤ) : zval x t ⟨[l], [o], [], []⟩ =
    ∑ i, if x.s i ≤ t then Real.exp (l * x.k * x.s i) * x.J i * x.s i ^ o else 0 := by
  unfold zval fZSpec
  change ∑ j : Fin 1 → Fin x.N, _ = _
  rw [← (Equiv.funUnique (Fin 1) (Fin x.N)).symm.sum_comp]
  apply Finset.sum_congr rfl
  intro i _
  simp only [List.length_singleton, Equiv.funUnique_symm_apply, uniqueElim_const,
    Finset.univ_unique, Finset.prod_singleton, Fin.default_eq_zero, Fin.isValue, Fin.val_zero,
    List.getD_cons_zero, if_true, mul_one, Par.upTo]
  split_ifs <;> simp

theorem iez_weight (x : Par) (t : ℝ) (hx : Adm x t) (a : ℤ) :
    ∫ s in (0 : ℝ)..t, Real.exp (a * x.k * s) * x.IEZ s =
      ∑ i, if x.s i ≤ t then Real.exp (x.k * x.s i) * x.J i *
        ∫ s in (x.s i)..t, Real.exp (a * x.k * s) else 0 := by
  have hw : Continuous fun u : ℝ => Real.exp (a * x.k * u) := by fun_prop
  unfold Par.IEZ
  have e : ∀ s, Real.exp (a * x.k * s) * (∑ i, if x.s i ≤ s then Real.exp (x.k * x.s i) * x.J i else 0) =
      ∑ i, Real.exp (x.k * x.s i) * x.J i * if x.s i ≤ s then Real.exp (a * x.k * s) else 0 := by
    intro s
    rw [Finset.mul_sum]
    apply Finset.sum_congr rfl
    intro i _
    split_ifs
    · ring
    · simp
  simp only [e]
  rw [intervalIntegral.integral_finsetSum fun i _ =>
    (integral_step _ hw t _ hx.2.2 (hx.2.1 i)).1.const_mul _]
  apply Finset.sum_congr rfl
  intro i _
  rw [intervalIntegral.integral_const_mul, (integral_step _ hw t _ hx.2.2 (hx.2.1 i)).2]
  split_ifs <;> simp

section
variable {OK : Idx → Par → Prop} {G : Idx → JKey → Prop}

theorem good_P1 (hG : P1.Keys (G (0, 0, 0))) : Good OK G (0, 0, 0) P1 := by
  refine ⟨rfl, ?_, hG, by simp [WF, P1], ?_, by intro x hx; simp⟩
  · intro x hx; simp [P1] at hx; subst hx; simp [KOK, ZOK]
  · intro y _
    simp [y.hM.zero y.t y.adm.2.2, P1, ev, jval, zval_nil]

theorem good_P0 (i : Idx) (hG : P0.Keys (G i))
    (h : ∀ y : Env, y.M i.1.toNat i.2.1.toNat i.2.2.toNat y.t = 0) : Good OK G i P0 := by
  refine ⟨rfl, ?_, hG, by simp [WF, P0], ?_, by intro x hx; simp [P0] at hx; subst hx; simp⟩
  · intro x hx; simp [P0] at hx; subst hx; simp [KOK, ZOK]
  · intro y _
    rw [h y]; simp [P0, ev]

theorem good_P200 (hG : P200.Keys (G (2, 0, 0))) : Good OK G (2, 0, 0) P200 := by
  refine ⟨rfl, ?_, hG, by simp [WF, P200], ?_, by intro x hx; simp⟩
  · intro x hx; simp [P200] at hx
    rcases hx with rfl | rfl | rfl | rfl | rfl | rfl <;> simp [KOK, ZOK]
  · rintro ⟨x, M, t, adm, hM⟩ _
    have ht := adm.2.2
    have hk := adm.1
    change _ = M 2 0 0 t
    rw [hM.step 2 0 0 (by norm_num) t ht]
    have h1 : ∀ a : ℤ, a ≠ 0 → (a : ℝ) * x.k ≠ 0 := fun a ha =>
      mul_ne_zero (by exact_mod_cast ha) hk
    simp only [show 2 - 2 = 0 from rfl, show 2 - 1 = 1 from rfl, quad, int_zero hM _ ht,
      int_first hM _ (show 1 + 0 + 0 = 1 from rfl) ht, int_iez hM _ ht, iez_weight x t adm,
      integral_exp _ _ _ (h1 1 (by norm_num)), integral_exp _ _ _ (h1 (1 + 1) (by norm_num))]
    simp [P200, ev, jval_cst, cst, zval_nil, zval_one, Rat.smul_def]
    have e : (∑ i, if x.s i ≤ t then Real.exp (x.k * x.s i) * x.J i *
        ((Real.exp (x.k * t) - Real.exp (x.k * x.s i)) / x.k) else 0) =
        Real.exp (x.k * t) * x.k⁻¹ * (∑ i, if x.s i ≤ t then Real.exp (x.k * x.s i) * x.J i else 0) -
        x.k⁻¹ * ∑ i, if x.s i ≤ t then Real.exp (2 * x.k * x.s i) * x.J i else 0 := by
      rw [Finset.mul_sum, Finset.mul_sum, ← Finset.sum_sub_distrib]
      apply Finset.sum_congr rfl
      intro i _
      split_ifs
      · rw [show 2 * x.k * x.s i = x.k * x.s i + x.k * x.s i by ring, Real.exp_add]
        field_simp
      · simp
    rw [e]
    field_simp
    ring_nf

theorem good_P110 (hG : P110.Keys (G (1, 1, 0))) : Good OK G (1, 1, 0) P110 := by
  refine ⟨rfl, ?_, hG, by simp [WF, P110], ?_, by intro x hx; simp⟩
  · intro x hx; simp [P110] at hx
    rcases hx with rfl | rfl | rfl | rfl | rfl <;> simp [KOK, ZOK]
  · rintro ⟨x, M, t, adm, hM⟩ _
    have ht := adm.2.2
    have hk := adm.1
    change _ = M 1 1 0 t
    rw [hM.step 1 1 0 (by norm_num) t ht]
    have h1 : ∀ a : ℤ, a ≠ 0 → (a : ℝ) * x.k ≠ 0 := fun a ha =>
      mul_ne_zero (by exact_mod_cast ha) hk
    simp only [show 1 - 1 = 0 from rfl, quad, int_zero hM _ ht,
      int_first hM _ (show 1 + 0 + 0 = 1 from rfl) ht, int_iez hM _ ht, iez_weight x t adm,
      integral_exp _ _ _ (h1 (0 + 1) (by norm_num))]
    simp [P110, ev, jval_cst, cst, zval_nil, zval_one, Rat.smul_def]
    have e : (∑ i, if x.s i ≤ t then Real.exp (x.k * x.s i) * x.J i * (t - x.s i) else 0) =
        t * (∑ i, if x.s i ≤ t then Real.exp (x.k * x.s i) * x.J i else 0) -
        ∑ i, if x.s i ≤ t then Real.exp (x.k * x.s i) * x.J i * x.s i else 0 := by
      rw [Finset.mul_sum, ← Finset.sum_sub_distrib]
      apply Finset.sum_congr rfl
      intro i _
      split_ifs
      · ring
      · simp
    rw [e]
    field_simp
    ring_nf

theorem aux_020 (x : Par) (t : ℝ) (adm : Adm x t) (M : ℕ → ℕ → ℕ → ℝ → ℝ) (hM : ItoRecZ x M)
    (g : ℝ → ℝ) (hg : ∫ s in (0 : ℝ)..t, Real.exp ((-1 : ℤ) * x.k * s) * g s = 0) :
    ev (jval x t) P020 = quad x (-1) (M 0 0 0) g t := by
  have ht := adm.2.2
  have hk := adm.1
  have h1 : ∀ a : ℤ, a ≠ 0 → (a : ℝ) * x.k ≠ 0 := fun a ha =>
    mul_ne_zero (by exact_mod_cast ha) hk
  simp only [quad, hg, int_zero hM _ ht, int_iez hM _ ht, iez_weight x t adm,
    integral_exp _ _ _ (h1 (-1) (by norm_num))]
  simp [P020, ev, jval_cst, cst, zval_nil, zval_one, Rat.smul_def]
  have e : (∑ i, if x.s i ≤ t then Real.exp (x.k * x.s i) * x.J i *
      ((Real.exp (-(x.k * t)) - Real.exp (-(x.k * x.s i))) / (-x.k)) else 0) =
      -(Real.exp (-(x.k * t)) * x.k⁻¹ *
        ∑ i, if x.s i ≤ t then Real.exp (x.k * x.s i) * x.J i else 0) +
      x.k⁻¹ * ∑ i, if x.s i ≤ t then x.J i else 0 := by
    rw [Finset.mul_sum, Finset.mul_sum, ← Finset.sum_neg_distrib, ← Finset.sum_add_distrib]
    apply Finset.sum_congr rfl
    intro i _
    split_ifs
    · have : Real.exp (x.k * x.s i) * Real.exp (-(x.k * x.s i)) = 1 := by
        rw [← Real.exp_add]; simp
      field_simp
      linear_combination (x.J i) * this
    · simp
  rw [e]
  field_simp
  ring_nf

theorem good_P020 (hG : P020.Keys (G (0, 2, 0))) : Good OK G (0, 2, 0) P020 := by
  refine ⟨rfl, ?_, hG, by simp [WF, P020], ?_, by intro x hx; simp⟩
  · intro x hx; simp [P020] at hx
    rcases hx with rfl | rfl | rfl | rfl | rfl <;> simp [KOK, ZOK]
  · rintro ⟨x, M, t, adm, hM⟩ _
    change _ = M 0 2 0 t
    rw [hM.step 0 2 0 (by norm_num) t adm.2.2, aux_020 x t adm M hM (M (0 + 1) (2 - 2) 0)
      (int_first hM _ rfl adm.2.2)]
    norm_num

theorem good_P002 (hG : P020.Keys (G (0, 0, 2))) : Good OK G (0, 0, 2) P020 := by
  refine ⟨rfl, ?_, hG, by simp [WF, P020], ?_, by intro x hx; simp⟩
  · intro x hx; simp [P020] at hx
    rcases hx with rfl | rfl | rfl | rfl | rfl <;> simp [KOK, ZOK]
  · rintro ⟨x, M, t, adm, hM⟩ _
    change _ = M 0 0 2 t
    rw [hM.step 0 0 2 (by norm_num) t adm.2.2, aux_020 x t adm M hM (M (0 + 1) 0 (2 - 2))
      (int_first hM _ rfl adm.2.2)]
    norm_num

theorem T0_good (hG : ∀ i P, dget T0 i = some P → P.Keys (G i)) :
    TabGood (Good OK G) (fun j => Valid j ∧ lev j ≤ 2) T0 := by
  rintro ⟨a, b, c⟩ ⟨⟨h1, h2, h3⟩, h4⟩
  simp only [lev] at h1 h2 h3 h4
  have : (a = 0 ∨ a = 1 ∨ a = 2) ∧ (b = 0 ∨ b = 1 ∨ b = 2) ∧ (c = 0 ∨ c = 1 ∨ c = 2) := by omega
  obtain ⟨ha, hb, hc⟩ := this
  rcases ha with rfl | rfl | rfl <;> rcases hb with rfl | rfl | rfl <;>
    rcases hc with rfl | rfl | rfl <;> first
    | (exfalso; omega)
    | exact ⟨P1, rfl, good_P1 (hG _ _ rfl)⟩
    | exact ⟨P200, rfl, good_P200 (hG _ _ rfl)⟩
    | exact ⟨P110, rfl, good_P110 (hG _ _ rfl)⟩
    | exact ⟨P020, rfl, good_P020 (hG _ _ rfl)⟩
    | exact ⟨P020, rfl, good_P002 (hG _ _ rfl)⟩
    | exact ⟨P0, rfl, good_P0 _ (hG _ _ rfl) (fun y => M_first y.hM rfl y.adm.2.2)⟩
    | exact ⟨P0, rfl, good_P0 _ (hG _ _ rfl) (fun y => by
        rw [y.hM.step _ _ _ (by norm_num) y.t y.adm.2.2]; simp)⟩

end

/-- `moment_IEII` is right wherever the recursion is -/
theorem moment_spec (iez : ℚ → ℤ → JPoly → Except PyErr JPoly) (OK : Idx → Par → Prop)
    (G : Idx → JKey → Prop) (hG0 : ∀ i P, dget T0 i = some P → P.Keys (G i))
    (hrec : ∀ i, Valid i → 3 ≤ lev i → ∀ T : TabK JKey,
      TabGood (Good OK G) (fun j => Valid j ∧ (lev j = lev i - 2 ∨ lev j = lev i - 1)) T →
      ∃ v, recursiveWith iez i T = .ok v ∧ Good OK G i v) (i : Idx) (hv : Valid i) :
    ∃ P, momentWith iez i.1 i.2.1 i.2.2 = .ok P ∧ Good OK G i P ∧ (3 ≤ lev i → P.NoZero) := by
  have hstep : ∀ i, Valid i → 3 ≤ lev i → ∀ T : TabK JKey,
      TabGood (Good OK G) (fun j => Valid j ∧ (lev j = lev i - 2 ∨ lev j = lev i - 1)) T →
      ∃ v, stepWith iez i T = .ok v ∧ Good OK G i v ∧ v.NoZero := by
    intro i hi hl T hT
    obtain ⟨P, e, g⟩ := hrec i hi hl T hT
    refine ⟨P.removeZero, by rw [stepWith, e]; rfl, ⟨g.kf, removeZero_Keys _ _ g.keys,
      removeZero_Keys _ _ g.G, removeZero_WF _ g.wf, fun y hy => by rw [ev_removeZero]; exact g.val y hy,
      removeZero_NZKeys _ _ g.nz⟩, removeZero_NoZero _⟩
  have hl0 : 0 ≤ lev i := by have := hv.1; have := hv.2.1; have := hv.2.2; simp only [lev]; omega
  have hlev : i.1 + i.2.1 + i.2.2 = lev i := rfl
  by_cases hl : lev i ≤ 2
  · obtain ⟨P, e, g⟩ := T0_good (OK := OK) hG0 i ⟨hv, hl⟩
    refine ⟨P, ?_, g, by omega⟩
    rw [momentWith, hlev, if_neg (by omega), if_pos hl]
    simp [lookup, e]
  · have hbase : ∀ n : ℤ, n = 3 → TabGood (Good OK G)
        (fun j => Valid j ∧ (lev j = n - 2 ∨ lev j = n - 1)) T0 :=
      fun n hn j hj => T0_good hG0 j ⟨hj.1, by omega⟩
    have : ∃ T, tableWith iez (lev i) = .ok T ∧ TabGood (Good OK G)
        (fun j => Valid j ∧ (lev j = lev i - 2 ∨ lev j = lev i - 1)) T := by
      unfold tableWith
      by_cases h3 : lev i > 3
      · rw [if_pos h3]
        apply fillLevels_spec (Good OK G) Valid lev (stepWith iez) idxs _ 3 (lev i) (by omega)
          (fun n _ _ j => mem_idxs n j)
        · intro n j h; simpa [lev] using h
        · intro j hj h1 _ T hT
          obtain ⟨P, e, g, _⟩ := hstep j hj (by omega) T hT
          exact ⟨P, e, g⟩
        · exact hbase 3 rfl
      · rw [if_neg h3]
        exact ⟨T0, rfl, hbase _ (by omega)⟩
    obtain ⟨T, e, hT⟩ := this
    obtain ⟨P, e', g, hz⟩ := hstep i hv (by omega) T hT
    refine ⟨P, ?_, g, fun _ => hz⟩
    rw [momentWith, hlev, if_neg (by omega), if_neg hl, e]
    exact e'

end Ajd.ItoCond

end -- ItoCondRec

section -- ItoCondMom

/-! `moment_IEII` of `ito_cond_mom.py`: the repaired and the actual program; existence of the
moments. -/

namespace Ajd.ItoCond
open MeasureTheory Utils Poly Ito

/-! ### the repaired program -/

theorem fixed_T0 : TabGood (Good (fun _ _ => True) (fun _ _ => True))
    (fun j => Valid j ∧ lev j ≤ 2) T0 := T0_good fun _ _ _ _ _ => trivial

theorem fixed_rec (i : Idx) (hi : Valid i) (hl : 3 ≤ lev i) (T : TabK JKey)
    (hT : TabGood (Good (fun _ _ => True) (fun _ _ => True))
      (fun j => Valid j ∧ (lev j = lev i - 2 ∨ lev j = lev i - 1)) T) :
    ∃ v, recursiveWith intEIEZFixed i T = .ok v ∧ Good (fun _ _ => True) (fun _ _ => True) i v := by
  apply recursive_spec _ _ _ _ _ _ i hi hl T hT
  · intro i _ _ q _ _ P hP _
    obtain ⟨Q, e, qk, _, qK, qv, qz⟩ := fixed_spec q.c q.m P hP
    exact ⟨Q, e, qk, qK, fun _ _ => trivial, fun x t h _ => qv x t h, qz⟩
  · intros; intro _ _; trivial
  · intros; trivial

theorem fixed_moment (i : Idx) (hv : Valid i) : ∃ P, momentWith intEIEZFixed i.1 i.2.1 i.2.2 = .ok P ∧
    Good (fun _ _ => True) (fun _ _ => True) i P ∧ (3 ≤ lev i → P.NoZero) :=
  moment_spec _ _ _ (fun _ _ _ _ _ => trivial) fixed_rec i hv

/-! ### the code -/

/-- where the code is right: no jumps, order at most 3, or moments of `IE` alone -/
def Right (i : Idx) (x : Par) : Prop := x.N = 0 ∨ lev i ≤ 3 ∨ Pure i

/-- what is known of the keys -/
def KG (i : Idx) (key : JKey) : Prop :=
  ((lev i ≤ 1 ∨ Pure i) → ix key.b 1 = 0) ∧ (Pure i → 0 ≤ ix key.b 0)

theorem intEtFZ_pure (n : ℤ) (hn : n ≠ 0) (N : ℕ) : ∀ e ∈ (intEtFZNat n 0 N).items,
    (ix e.1 0 = n ∨ ix e.1 0 = 0) ∧ ix e.1 1 = 0 := by
  intro e he
  have h : n ≠ 0 := hn
  unfold intEtFZNat at he
  split_ifs at he <;>
  · simp [dset, h] at he
    rcases he with rfl | rfl <;> simp [ix]

theorem iezLoop_mem (c : ℚ) (e : JKey × ℚ) : ∀ (l : List (List ℤ × ℚ)) (z : Tup)
    (ts : List (JKey × ℚ)), iezLoop c e z l = .ok ts → ∀ x ∈ ts, ∃ a ∈ l, x.1.b = key1Z e.1.b a.1 := by
  intro l
  induction l with
  | nil => intro z ts h x hx; cases h; simp at hx
  | cons a l ih =>
    intro z ts h x hx
    rw [iezLoop] at h
    cases hz : addMax1 z (ix a.1 3) (ix a.1 4) with
    | error _ => rw [hz] at h; cases h
    | ok z' =>
      rw [hz, ok_bind] at h
      cases hl : iezLoop c e z' l with
      | error _ => rw [hl] at h; cases h
      | ok ts' =>
        rw [hl] at h
        cases h
        rcases List.mem_cons.1 hx with rfl | hx
        · exact ⟨a, by simp, rfl⟩
        · obtain ⟨b, hb, e⟩ := ih _ _ hl x hx
          exact ⟨b, by simp [hb], e⟩

/-- keys produced for a moment of `IE` alone -/
theorem pure_keys (q : Call) (i : Idx) (hi : Valid i) (hl : 3 ≤ lev i) (hq : q ∈ calls i) (key : JKey)
    (hk : KG q.idx key) (b : List ℤ) (a : List ℤ × ℚ) (N : ℕ)
    (ha : a ∈ (intEtFZNat (q.m + ix key.b 0) (ix key.b 1).toNat N).items) (h0 : ix b 0 = ix a.1 0)
    (h1 : ix b 1 = ix a.1 1) (z : Tup) (c : List ℤ) : KG i ⟨b, z, c⟩ := by
  have hp := (calls_idx i hi q hq).2.2.2.2
  have main : Pure i → ix b 1 = 0 ∧ 0 ≤ ix b 0 := by
    intro h
    obtain ⟨h2, hm⟩ := hp h
    have k1 := hk.1 (Or.inr h2)
    have k0 := hk.2 h2
    rw [k1] at ha
    obtain ⟨h3, h4⟩ := intEtFZ_pure _ (by omega) _ a ha
    rw [h0, h1]
    exact ⟨h4, by omega⟩
  exact ⟨fun h => (main (h.resolve_left (by omega))).1, fun h => (main h).2⟩

theorem code_keys : ∀ i P, dget T0 i = some P → P.Keys (KG i) := by
  intro i P h
  have : (i, P) ∈ T0 := mem_of_dget _ _ _ h
  simp [T0] at this
  rcases this with h | h | h | h | h | h | h | h | h | h <;> obtain ⟨rfl, rfl⟩ := h <;>
    intro x hx <;>
    simp [P0, P1, P200, P110, P020] at hx <;>
    (try rcases hx with h | h | h | h | h | h) <;> (try rcases hx with h | h | h | h | h) <;>
    (try subst hx) <;> (try subst h) <;>
    simp [KG, Pure, lev, ix]

theorem code_T0 : TabGood (Good Right KG) (fun j => Valid j ∧ lev j ≤ 2) T0 := T0_good code_keys

theorem code_rec (i : Idx) (hi : Valid i) (hl : 3 ≤ lev i) (T : TabK JKey)
    (hT : TabGood (Good Right KG) (fun j => Valid j ∧ (lev j = lev i - 2 ∨ lev j = lev i - 1)) T) :
    ∃ v, recursiveWith intEIEZ i T = .ok v ∧ Good Right KG i v := by
  apply recursive_spec _ _ _ _ _ _ i hi hl T hT
  · intro i hi hl q hq h4 P hP hG
    obtain ⟨Q, e, qk, _, qK, qv, qz⟩ := code_spec q.c q.m P hP
    refine ⟨Q, e, qk, qK, ?_, ?_, qz⟩
    · refine subst_Keys _ _ _ _ (KG i) e ?_
      intro e1 he1 ts hts x hx
      rw [intEtFZ, if_neg (by have := (hP _ he1).2.1; omega), ok_bind] at hts
      obtain ⟨a, ha, hb⟩ := iezLoop_mem _ _ _ _ _ hts x hx
      obtain ⟨⟨b, z, c⟩, v⟩ := x
      simp only at hb
      exact pure_keys q i hi hl hq e1.1 (hG _ he1) b a _ ha (by rw [hb]; rfl) (by rw [hb]; rfl) z c
    · intro x t hx hR
      apply qv x t hx
      obtain ⟨_, _, _, h2, h3⟩ := calls_idx i hi q hq
      rcases hR with h | h | h
      · exact Or.inl h
      · exact Or.inr fun k hk => Or.inr ((hG k hk).1 (Or.inl (by have := h2 h4; omega)))
      · exact Or.inr fun k hk => Or.inr ((hG k hk).1 (Or.inr (h3 h).1))
  · intro i hi hl q hq h4 P Q hP hG e
    refine subst_Keys _ _ _ _ (KG i) e ?_
    intro e1 he1 ts hts x hx
    rw [intEtFZ, if_neg (by have := (hP _ he1).2.1; omega), ok_bind] at hts
    obtain ⟨a, ha, hf⟩ := mapM_mem _ _ _ hts x hx
    cases hz : addMax e1.1.z (ix a.1 3) (ix a.1 4) with
    | error _ => rw [hz] at hf; cases hf
    | ok z' =>
      rw [hz] at hf
      cases hf
      apply pure_keys q i hi hl hq e1.1 (hG _ he1) _ a _ ha
      · simp only [key1]; split_ifs <;> rfl
      · simp only [key1]; split_ifs <;> rfl
  · intro i hi x hR q hq
    obtain ⟨_, h1, _, _, h3⟩ := calls_idx i hi q hq
    rcases hR with h | h | h
    · exact Or.inl h
    · exact Or.inr (Or.inl (by omega))
    · exact Or.inr (Or.inr (h3 h).1)

theorem code_moment (i : Idx) (hv : Valid i) : ∃ P, momentIEII i.1 i.2.1 i.2.2 = .ok P ∧
    Good Right KG i P ∧ (3 ≤ lev i → P.NoZero) :=
  moment_spec _ _ _ code_keys code_rec i hv

/-! ### existence -/

/-- A family satisfying the moment equation. -/
noncomputable def itoSolZ (x : Par) (n1 n2 n3 : ℕ) (t : ℝ) : ℝ :=
  if n1 + n2 + n3 = 0 then 1 else
    (if _h : 2 ≤ n1 then (n1 : ℝ) * (n1 - 1) / 2 *
      quad x 1 (fun s => itoSolZ x (n1 - 2) n2 n3 s) (fun s => itoSolZ x (n1 - 1) n2 n3 s) t
      else 0) +
    (if _h : 2 ≤ n2 then (n2 : ℝ) * (n2 - 1) / 2 *
      quad x (-1) (fun s => itoSolZ x n1 (n2 - 2) n3 s) (fun s => itoSolZ x (n1 + 1) (n2 - 2) n3 s) t
      else 0) +
    (if _h : 1 ≤ n1 ∧ 1 ≤ n2 then (n1 : ℝ) * n2 *
      quad x 0 (fun s => itoSolZ x (n1 - 1) (n2 - 1) n3 s) (fun s => itoSolZ x n1 (n2 - 1) n3 s) t
      else 0) +
    (if _h : 2 ≤ n3 then (n3 : ℝ) * (n3 - 1) / 2 *
      quad x (-1) (fun s => itoSolZ x n1 n2 (n3 - 2) s) (fun s => itoSolZ x (n1 + 1) n2 (n3 - 2) s) t
      else 0)
termination_by n1 + n2 + n3

theorem itoSolZ_rec (x : Par) : ItoRecZ x (itoSolZ x) where
  zero t _ := by rw [itoSolZ]; simp
  step n1 n2 n3 hn t _ := by
    rw [itoSolZ, if_neg (by omega)]
    congr 1
    · congr 1
      · congr 1
        · split_ifs with h
          · rfl
          · have : n1 = 0 ∨ n1 = 1 := by omega
            rcases this with rfl | rfl <;> simp
        · split_ifs with h
          · rfl
          · have : n2 = 0 ∨ n2 = 1 := by omega
            rcases this with rfl | rfl <;> simp
      · split_ifs with h
        · rfl
        · have : n1 = 0 ∨ n2 = 0 := by omega
          rcases this with rfl | rfl <;> simp
    · split_ifs with h
      · rfl
      · have : n3 = 0 ∨ n3 = 1 := by omega
        rcases this with rfl | rfl <;> simp

end Ajd.ItoCond

end -- ItoCondMom
