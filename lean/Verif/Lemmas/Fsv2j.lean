import Verif.Lemmas.Fsv2Gap
import Verif.Lemmas.Fsv1jDeriv
import Verif.Lemmas.SrjdCond
import Verif.Spec.Fsv2j

/-! `mdl_2fsvj`: moments, central moments, covariances. -/

namespace Ajd.Fsv2
open Poly Itos MvPolynomial MeasureTheory

/-! ### integrability of the conditional moments -/

/-- laws with the computed moments up to order `N` agree -/
theorem agree (g : Cfg) (p : Par) (t0 : ℝ) (x : ℝ × ℝ) (E : Rv →ₗ[ℝ] ℝ) (N : ℕ) (h : CompLaw g N p t0 x E)
    (f : Rv) (hf : f.totalDegree ≤ N) : E f = compE g p t0 x f := by
  apply E_ext _ _ N _ _ hf
  intro a b c d e hl
  obtain ⟨P, eP, v⟩ := h a b c d e (by exact_mod_cast hl)
  obtain ⟨P', eP', v'⟩ := compLaw_compE g N p t0 x a b c d e (by exact_mod_cast hl)
  rw [eP] at eP'
  cases eP'
  rw [v, v']

theorem ret_integrable (g : Cfg) (p : Par) (h1 : p.k1 ≠ 0) (h2 : p.k2 ≠ 0) (t0 : ℝ)
    (E : ℝ × ℝ → Rv →ₗ[ℝ] ℝ) (γ : Measure (ℝ × ℝ)) (hγ : StatLaw p γ) (i : ℕ)
    (hE : ∀ᵐ x ∂γ, CompLaw g i p t0 x (E x)) :
    Integrable (fun x => E x (ret p t0 x ^ i)) γ := by
  obtain ⟨Q, hQ⟩ := condPoly g p h1 h2 t0 i
  refine (integrable_pol p γ hγ Q).congr (hE.mono fun x hx => ?_)
  dsimp only
  rw [hQ x _ (compLaw_compE g ⊤ p t0 x), agree g p t0 x (E x) i hx]
  exact (totalDegree_pow _ _).trans ((Nat.mul_le_mul_left i (deg_ret p h1 h2 t0 x)).trans (by simp))

theorem cret_integrable (g : Cfg) (p : Par) (h1 : p.k1 ≠ 0) (h2 : p.k2 ≠ 0) (t0 : ℝ)
    (E : ℝ × ℝ → Rv →ₗ[ℝ] ℝ) (γ : Measure (ℝ × ℝ)) (hγ : StatLaw p γ) (l : ℕ)
    (hE : ∀ᵐ x ∂γ, CompLaw g l p t0 x (E x)) (c : ℝ) :
    Integrable (fun x => E x ((ret p t0 x - C c) ^ l)) γ := by
  have : (fun x => E x ((ret p t0 x - C c) ^ l)) = fun x => ∑ i ∈ Finset.range (l + 1),
      (l.choose i * (-c) ^ (l - i)) * E x (ret p t0 x ^ i) := by
    funext x
    rw [sub_eq_add_neg, ← C_neg, add_pow, map_sum]
    refine Finset.sum_congr rfl fun i _ => ?_
    rw [← E_C_mul]
    congr 1
    simp only [map_mul, map_pow, map_natCast]
    ring
  rw [this]
  refine integrable_finsetSum _ fun i hi => Integrable.const_mul ?_ _
  rw [Finset.mem_range] at hi
  exact ret_integrable g p h1 h2 t0 E γ hγ i (hE.mono fun x hx =>
    compLaw_mono (by exact_mod_cast (by omega : i ≤ l)) hx)

theorem mvVal_integrable (p : Par) (γ : Measure (ℝ × ℝ)) (hγ : StatLaw p γ) (P : TPoly) (hP : P.Keys (TOK 8)) :
    Integrable (fun x => ev (mvVal p x) P) γ := by
  refine (integral_ev γ (mvVal p) P ?_).1
  intro e he
  obtain ⟨_, _, _, h⟩ := hP e he
  obtain ⟨a, ha⟩ := Int.eq_ofNat_of_zero_le (h 2)
  obtain ⟨b, hb⟩ := Int.eq_ofNat_of_zero_le (h 5)
  refine ((hγ.integrable a b).const_mul (tv p e.1 * (p.h ^ ix e.1.c 0 * p.μ ^ ix e.1.c 1 *
      (p.θ1 ^ ix e.1.c 3 * p.σ1 ^ ix e.1.c 4) * (p.θ2 ^ ix e.1.c 6 * p.σ2 ^ ix e.1.c 7)))).congr
    (Filter.Eventually.of_forall fun x => ?_)
  simp only [mvVal, mvC, ha, hb, zpow_natCast]
  ring

theorem yy_integrable (g : Cfg) (p : Par) (h1 : p.k1 ≠ 0) (h2 : p.k2 ≠ 0) (t0 : ℝ)
    (E : ℝ × ℝ → Rv →ₗ[ℝ] ℝ) (γ : Measure (ℝ × ℝ)) (hγ : StatLaw p γ)
    (hE : ∀ᵐ x ∂γ, CompLaw g ⊤ p t0 x (E x)) (l1 l2 : ℕ) (Q : Pol)
    (hQ : ∀ z, eval (two z.1 z.2) Q = compE g p (t0 + p.h) z (ret p (t0 + p.h) z ^ l2)) :
    Integrable (fun x => E x (ret p t0 x ^ l1 * aeval (two (vNext1 p t0 x.1) (vNext2 p t0 x.2)) Q)) γ := by
  obtain ⟨q, Q', e, qk, qv, qQ⟩ := polyYY_spec g p h1 h2 t0 E l1 l2
  have hQQ : Q = Q' := by
    apply pol_ext Set.univ Set.univ Set.infinite_univ Set.infinite_univ
    intro z _
    rw [hQ z, qQ z _ (compLaw_compE g ⊤ p _ z)]
  subst hQQ
  exact (mvVal_integrable p γ hγ q qk).congr (hE.mono fun x hx => qv ⟨x, hx⟩)

/-- a power of a sum of independent parts -/
theorem binom_expect (γ : Measure (ℝ × ℝ)) (ν : Measure ℝ) (E : ℝ × ℝ → Rv →ₗ[ℝ] ℝ) (y w : ℝ × ℝ → Rv)
    (g : ℝ → ℝ) (l : ℕ) (hy : ∀ i ≤ l, Integrable (fun x => E x (y x ^ i * w x)) γ)
    (hg : ∀ i : ℕ, Integrable (fun z => g z ^ i) ν) :
    ∫ z, expect γ E (fun x => (y x + C (g z)) ^ l * w x) ∂ν =
      ∑ i ∈ Finset.range (l + 1), l.choose i * (expect γ E (fun x => y x ^ i * w x) *
        ∫ z, g z ^ (l - i) ∂ν) := by
  have h1 : ∀ z, expect γ E (fun x => (y x + C (g z)) ^ l * w x) =
      ∑ i ∈ Finset.range (l + 1), (l.choose i * expect γ E (fun x => y x ^ i * w x)) *
        g z ^ (l - i) := by
    intro z
    have : (fun x => E x ((y x + C (g z)) ^ l * w x)) = fun x => ∑ i ∈ Finset.range (l + 1),
        (l.choose i * g z ^ (l - i)) * E x (y x ^ i * w x) := by
      funext x
      rw [add_pow, Finset.sum_mul, map_sum]
      refine Finset.sum_congr rfl fun i _ => ?_
      rw [← E_C_mul]
      congr 1
      simp only [map_mul, map_pow, map_natCast]
      ring
    rw [expect, this, integral_finsetSum _ fun i hi => (hy i (by rw [Finset.mem_range] at hi; omega)).const_mul _]
    refine Finset.sum_congr rfl fun i _ => ?_
    rw [integral_const_mul, expect]
    ring
  simp only [h1]
  rw [integral_finsetSum _ fun i _ => (hg (l - i)).const_mul _]
  refine Finset.sum_congr rfl fun i _ => ?_
  rw [integral_const_mul]
  ring

end Ajd.Fsv2

namespace Ajd.Fsv2j
open Poly Cpp Itos MvPolynomial MeasureTheory ProbabilityTheory
open Fsv2 (TKey TPoly TOK tv mVal cVal mC cC' Rv Pol two vNext1 vNext2 StatLaw CompLaw CondLaw compE)
open Fsv1j (zVal zVal_eq zM mcpp_val cmcpp_val jump_integrable list_range_sum)

/-- the parameters of the jumps -/
def jp (p : Par) : Fsv1j.Par := ⟨⟨0, 0, 0, 0, 0, p.h⟩, p.lam, p.μj, p.σj⟩

theorem jumpLaw_eq (p : Par) : jumpLaw p = Fsv1j.jumpLaw (jp p) := rfl

/-- the value of the powers of the jump parameters -/
noncomputable def jv (p : Par) (i : ℕ) (c : List ℤ) : ℝ :=
  p.lam ^ ix c i * p.μj ^ ix c (i + 1) * p.σj ^ ix c (i + 2)

noncomputable def mJ (p : Par) (key : TKey) : ℝ := mVal p.toPar key * jv p 6 key.c
noncomputable def cJ (p : Par) (key : TKey) : ℝ := cVal p.toPar key * jv p 5 key.c

theorem poly2num_eq (P : TPoly) (p : Par) (h : ¬ Fsv2.ZeroDiv P p.toPar) :
    poly2num P p = .ok (ev (mJ p) P) := by
  rw [poly2num, if_neg h, ev]
  congr 2
  apply List.map_congr_left
  intro e _
  simp only [mJ, mVal, mC, tv, jv, Rat.smul_def]
  rw [show e.1.d.map (Fsv2.dn p.toPar) =
    e.1.d.map fun t => ((t.1 : ℝ) * p.k1 + t.2.1 * p.k2) ^ (-t.2.2) from rfl]
  ring

theorem poly2numC_eq (P : TPoly) (p : Par) (h : ¬ Fsv2.ZeroDiv P p.toPar) :
    poly2numC P p = .ok (ev (cJ p) P) := by
  rw [poly2numC, if_neg h, ev]
  congr 2
  apply List.map_congr_left
  intro e _
  simp only [cJ, cVal, cC', tv, jv, Rat.smul_def]
  rw [show e.1.d.map (Fsv2.dn p.toPar) =
    e.1.d.map fun t => ((t.1 : ℝ) * p.k1 + t.2.1 * p.k2) ^ (-t.2.2) from rfl]
  ring

/-- the double loop -/
theorem jumpTerms_spec (cf : List ℤ → List ℤ → List ℤ) (c : ℚ) (P : TPoly) (Z : IPoly) (n n' : ℕ)
    (hP : P.Keys (TOK n)) (hZ : Z.Keys (NN 3))
    (hk : ∀ c z : List ℤ, (∀ j, 0 ≤ ix c j) → NN 3 z → (cf c z).length = n' ∧ ∀ j, 0 ≤ ix (cf c z) j) :
    (∀ x ∈ jumpTerms cf c P Z, TOK n' x.1) ∧
    ∀ (φ ψ : TKey → ℝ) (ζ : List ℤ → ℝ), (∀ d e (c z : List ℤ), (∀ j, 0 ≤ ix c j) → NN 3 z →
        φ ⟨d, e, cf c z⟩ = ψ ⟨d, e, c⟩ * ζ z) →
      ((jumpTerms cf c P Z).map fun x => x.2 • φ x.1).sum = c * (ev ψ P * ev ζ Z) := by
  constructor
  · intro x hx
    obtain ⟨a, ha, hx⟩ := List.mem_flatMap.1 hx
    obtain ⟨b, hb, rfl⟩ := List.mem_map.1 hx
    obtain ⟨h1, h2, _, h4⟩ := hP a ha
    exact ⟨h1, h2, hk _ _ h4 (hZ b hb)⟩
  · intro φ ψ ζ h
    rw [jumpTerms, sum_flatMap, ev, ← List.sum_map_mul_right, ← List.sum_map_mul_left]
    congr 1
    apply List.map_congr_left
    intro a ha
    rw [List.map_map, ev, ← List.sum_map_mul_left, ← List.sum_map_mul_left]
    congr 1
    apply List.map_congr_left
    intro b hb
    simp only [Function.comp_def]
    rw [h _ _ _ _ (hP a ha).2.2.2 (hZ b hb)]
    simp only [Rat.smul_def]
    push_cast
    ring

theorem jumpTermsM (c : ℚ) (P : TPoly) (Z : IPoly) (hP : P.Keys (TOK 6)) (hZ : Z.Keys (NN 3)) :
    (∀ x ∈ jumpTerms cfM c P Z, TOK 9 x.1) ∧ ∀ p : Par,
      ((jumpTerms cfM c P Z).map fun x => x.2 • mJ p x.1).sum = c * (ev (mVal p.toPar) P * ev (zVal (jp p)) Z) := by
  obtain ⟨a, b⟩ := jumpTerms_spec cfM c P Z 6 9 hP hZ (by
    intro c z hc hz
    have := hc 0; have := hc 1; have := hc 2; have := hc 3; have := hc 4; have := hc 5
    have := hz.2 0; have := hz.2 1; have := hz.2 2
    exact ⟨rfl, Fsv2.nonneg9 _ _ _ _ _ _ _ _ _ (by omega)⟩)
  refine ⟨a, fun p => b _ _ _ ?_⟩
  intro d e c z hc hz
  have := hc 0
  have := hz.2 0
  rw [zVal_eq _ z hz.1]
  simp only [mJ, jv, mVal, mC, tv, cfM, ix_cons_zero, ix_cons_succ, mul_zpow, jp]
  rw [zpow_add_nn p.h _ _ ‹_› ‹_›]
  ring

theorem jumpTermsC (c : ℚ) (P : TPoly) (Z : IPoly) (hP : P.Keys (TOK 5)) (hZ : Z.Keys (NN 3)) :
    (∀ x ∈ jumpTerms cfC c P Z, TOK 8 x.1) ∧ ∀ p : Par,
      ((jumpTerms cfC c P Z).map fun x => x.2 • cJ p x.1).sum = c * (ev (cVal p.toPar) P * ev (zVal (jp p)) Z) := by
  obtain ⟨a, b⟩ := jumpTerms_spec cfC c P Z 5 8 hP hZ (by
    intro c z hc hz
    have := hc 0; have := hc 1; have := hc 2; have := hc 3; have := hc 4
    have := hz.2 0; have := hz.2 1; have := hz.2 2
    exact ⟨rfl, Fsv2.nonneg8 _ _ _ _ _ _ _ _ (by omega)⟩)
  refine ⟨a, fun p => b _ _ _ ?_⟩
  intro d e c z hc hz
  have := hc 0
  have := hz.2 0
  rw [zVal_eq _ z hz.1]
  simp only [cJ, jv, cVal, cC', tv, cfC, ix_cons_zero, ix_cons_succ, mul_zpow, jp]
  rw [zpow_add_nn p.h _ _ ‹_› ‹_›]
  ring

theorem sum_reverse {M : Type*} [AddCommMonoid M] (n : ℕ) (f : ℕ → M) :
    ((List.range n).reverse.map f).sum = ∑ i ∈ Finset.range n, f i := by
  rw [List.map_reverse, List.sum_reverse, list_range_sum]

theorem momentY_spec (g : Cfg) (l : ℕ) :
    ∃ r, momentY g l = .ok r ∧ r.keyfor = kfM ∧ r.WF ∧ r.NoZero ∧ r.Keys (TOK 9) ∧
      ∀ (p : Par) (A : ℕ → ℝ), 0 ≤ p.lam * p.h → (∀ i ≤ l, ∀ q, Fsv2.momentY g i = .ok q →
        ev (mVal p.toPar) q = A i) →
        ev (mJ p) r = ∑ i ∈ Finset.range (l + 1), l.choose i * (A i * zM (jp p) (l - i)) := by
  obtain ⟨r, e, k, w, c, v⟩ := addLoop_spec
    kfM (momentYTerms g l) (List.range (l + 1)).reverse (TOK 9)
    (fun x : {x : Par × (ℕ → ℝ) // 0 ≤ x.1.lam * x.1.h ∧ (∀ i ≤ l, ∀ q, Fsv2.momentY g i = .ok q →
        ev (mVal x.1.toPar) q = x.2 i)} => mJ x.1.1)
    (fun x i => l.choose i * (x.1.2 i * zM (jp x.1.1) (l - i))) (by
      intro i hi
      have hi' : i ≤ l := by rw [List.mem_reverse, List.mem_range] at hi; omega
      obtain ⟨P, eP, _, _, _, Pk⟩ := Fsv2.momentY_keys g i
      obtain ⟨Z, eZ, _, Zk, Zv⟩ := mcpp_val (l - i)
      obtain ⟨tk, tval⟩ := jumpTermsM (l.choose i) P Z Pk Zk
      refine ⟨_, ?_, tk, ?_⟩
      · rw [momentYTerms, eP, ok_bind, show (l : ℤ) - i = ((l - i : ℕ) : ℤ) by omega, eZ, ok_bind]
        rfl
      · rintro ⟨⟨p, A⟩, hp, hA⟩
        rw [tval, hA i hi' P eP, Zv (jp p) hp]
        push_cast
        ring)
  refine ⟨r.removeZero, by rw [momentY, e]; rfl, by simp [k], removeZero_WF _ w, removeZero_NoZero _,
    removeZero_Keys _ _ c, fun p A hp hA => ?_⟩
  rw [ev_removeZero, v ⟨⟨p, A⟩, hp, hA⟩, sum_reverse]

theorem cmomentY_spec (g : Cfg) (l : ℕ) :
    ∃ r, cmomentY g l = .ok r ∧ r.keyfor = kfC ∧ r.WF ∧ r.NoZero ∧ r.Keys (TOK 8) ∧
      ∀ (p : Par) (A : ℕ → ℝ), 0 ≤ p.lam * p.h → (∀ i ≤ l, ∀ q, Fsv2.cmomentY g i = .ok q →
        ev (cVal p.toPar) q = A i) →
        ev (cJ p) r = ∑ i ∈ Finset.range (l + 1), l.choose i * (A i *
          ∫ z, (z - zM (jp p) 1) ^ (l - i) ∂(jumpLaw p)) := by
  obtain ⟨r, e, k, w, c, v⟩ := addLoop_spec
    kfC (cmomentYTerms g l) (List.range (l + 1)).reverse (TOK 8)
    (fun x : {x : Par × (ℕ → ℝ) // 0 ≤ x.1.lam * x.1.h ∧ (∀ i ≤ l, ∀ q, Fsv2.cmomentY g i = .ok q →
        ev (cVal x.1.toPar) q = x.2 i)} => cJ x.1.1)
    (fun x i => l.choose i * (x.1.2 i * ∫ z, (z - zM (jp x.1.1) 1) ^ (l - i) ∂(jumpLaw x.1.1))) (by
      intro i hi
      have hi' : i ≤ l := by rw [List.mem_reverse, List.mem_range] at hi; omega
      obtain ⟨P, eP, _, _, _, Pk⟩ := Fsv2.cmomentY_keys g i
      obtain ⟨Z, eZ, _, Zk, Zv⟩ := cmcpp_val (l - i)
      obtain ⟨tk, tval⟩ := jumpTermsC (l.choose i) P Z Pk Zk
      refine ⟨_, ?_, tk, ?_⟩
      · rw [cmomentYTerms, eP, ok_bind, show (l : ℤ) - i = ((l - i : ℕ) : ℤ) by omega, eZ, ok_bind]
        rfl
      · rintro ⟨⟨p, A⟩, hp, hA⟩
        rw [tval, hA i hi' P eP, Zv (jp p) hp, jumpLaw_eq]
        push_cast
        ring)
  refine ⟨r.removeZero, by rw [cmomentY, e]; rfl, by simp [k], removeZero_WF _ w, removeZero_NoZero _,
    removeZero_Keys _ _ c, fun p A hp hA => ?_⟩
  rw [ev_removeZero, v ⟨⟨p, A⟩, hp, hA⟩, sum_reverse]

theorem momentYY_keys (g : Cfg) (l1 l2 : ℕ) : ∃ r, Fsv2.momentYY g l1 l2 = .ok r ∧ r.Keys (TOK 6) := by
  obtain ⟨Q, hQ⟩ := Fsv2.condPoly_compE g Fsv2.unitPar one_ne_zero one_ne_zero (0 + Fsv2.unitPar.h) l2
  obtain ⟨r, e, k, w, z, ks, _⟩ := Fsv2.momentYY_spec g Fsv2.unitPar one_ne_zero one_ne_zero 0 (compE g _ 0) _
    Fsv2.statLaw_unit (Filter.Eventually.of_forall fun x => Fsv2.compLaw_compE _ _ _ _ _) l1 l2 Q hQ
  exact ⟨r, e, ks⟩

theorem momentYY_spec (g : Cfg) (l1 l2 : ℕ) :
    ∃ r, momentYY g l1 l2 = .ok r ∧ r.keyfor = kfM ∧ r.WF ∧ r.NoZero ∧ r.Keys (TOK 9) ∧
      ∀ (p : Par) (A : ℕ → ℕ → ℝ), 0 ≤ p.lam * p.h → (∀ i j q, Fsv2.momentYY g i j = .ok q →
        ev (mVal p.toPar) q = A i j) →
        ev (mJ p) r = ∑ i ∈ Finset.range (l1 + 1), ∑ j ∈ Finset.range (l2 + 1),
          (l1.choose i * l2.choose j) * (A i j * (zM (jp p) (l1 - i) * zM (jp p) (l2 - j))) := by
  obtain ⟨r, e, k, w, c, v⟩ := addLoop_spec
    kfM (momentYYTerms g l1 l2)
    ((List.range (l1 + 1)).reverse.flatMap fun i : ℕ => (List.range (l2 + 1)).reverse.map fun j : ℕ => (i, j))
    (TOK 9)
    (fun x : {x : Par × (ℕ → ℕ → ℝ) // 0 ≤ x.1.lam * x.1.h ∧ (∀ i j q, Fsv2.momentYY g i j = .ok q →
        ev (mVal x.1.toPar) q = x.2 i j)} => mJ x.1.1)
    (fun x ij => (l1.choose ij.1 * l2.choose ij.2) * (x.1.2 ij.1 ij.2 *
      (zM (jp x.1.1) (l1 - ij.1) * zM (jp x.1.1) (l2 - ij.2)))) (by
      rintro ⟨i, j⟩ hi
      simp only [List.mem_flatMap, List.mem_map, List.mem_reverse, List.mem_range, Prod.mk.injEq] at hi
      obtain ⟨i', hi', j', hj', rfl, rfl⟩ := hi
      obtain ⟨P, eP, Pk⟩ := momentYY_keys g i' j'
      obtain ⟨Z, eZ, Zkf, Zk, Zv⟩ := mcpp_val (l1 - i')
      obtain ⟨Y, eY, Ykf, Yk, Yv⟩ := mcpp_val (l2 - j')
      obtain ⟨W, eW, _, _, _, Wk, Wv⟩ := mul_on Z Y (Zkf.trans Ykf.symm) 3 (NN 3) (addClosed_NN 3)
        (fun k hk => hk.1) Zk Yk
      obtain ⟨tk, tval⟩ := jumpTermsM (l1.choose i' * l2.choose j') P W Pk Wk
      refine ⟨_, ?_, tk, ?_⟩
      · simp only [momentYYTerms]
        rw [eP, ok_bind, show (l1 : ℤ) - i' = ((l1 - i' : ℕ) : ℤ) by omega,
          show (l2 : ℤ) - j' = ((l2 - j' : ℕ) : ℤ) by omega, eZ, ok_bind, eY, ok_bind, eW, ok_bind]
        rfl
      · rintro ⟨⟨p, A⟩, hp, hA⟩
        rw [tval, hA i' j' P eP, Wv (zVal (jp p)) (mono_mulOn_NN _ 3), Zv (jp p) hp, Yv (jp p) hp]
        push_cast
        ring)
  refine ⟨r.removeZero, by rw [momentYY, e]; rfl, by simp [k], removeZero_WF _ w, removeZero_NoZero _,
    removeZero_Keys _ _ c, fun p A hp hA => ?_⟩
  rw [ev_removeZero, v ⟨⟨p, A⟩, hp, hA⟩, sum_flatMap, sum_reverse]
  simp only [List.map_map, sum_reverse, Function.comp_def]

theorem mulT_spec (p : Par) (a b : TPoly) (ha : a.Keys (TOK 9)) (hb : b.Keys (TOK 9)) :
    ∃ r, Fsv2.mulT kfM 9 a b = .ok r ∧ r.keyfor = kfM ∧ r.WF ∧ r.Keys (TOK 9) ∧
      ev (mJ p) r = ev (mJ p) a * ev (mJ p) b := by
  obtain ⟨r, e, k, w, keys, v⟩ := subst_spec (ι := Unit) kfM (fun e => b.items.mapM fun m => do
      let t0 ← Fsv2.mulT0s e.1.d m.1.d
      pure ((⟨t0, (e.1.e.1 + m.1.e.1, e.1.e.2 + m.1.e.2),
        (List.range 9).map fun i : ℕ => ix e.1.c i + ix m.1.c i⟩ : TKey), e.2 * m.2)) a (TOK 9)
    (fun _ => mJ p) (fun _ key => mJ p key * ev (mJ p) b) (by
      intro e he
      obtain ⟨h1, h2, h3, h⟩ := ha e he
      obtain ⟨ts, ets, tk, tval⟩ := Fsv2.mapM_terms (ι := Unit) b.items (fun m : TKey × ℚ => (do
          let t0 ← Fsv2.mulT0s e.1.d m.1.d
          pure ((⟨t0, (e.1.e.1 + m.1.e.1, e.1.e.2 + m.1.e.2),
            (List.range 9).map fun i : ℕ => ix e.1.c i + ix m.1.c i⟩ : TKey), e.2 * m.2) :
            Except PyErr (TKey × ℚ))) (TOK 9) (fun _ => mJ p)
        (fun _ m => (e.2 • mJ p e.1) * (m.2 • mJ p m.1)) (by
          intro m hm
          obtain ⟨g1, g2, _, g⟩ := hb m hm
          obtain ⟨l, el, a1, a2, a3⟩ := Fsv2.mulT0s_spec p.toPar m.1.d e.1.d h1 h2 g2
          have := g 0; have := g 1; have := g 2; have := g 3; have := g 4; have := g 5
          have := g 6; have := g 7; have := g 8
          have := h 0; have := h 1; have := h 2; have := h 3; have := h 4; have := h 5
          have := h 6; have := h 7; have := h 8
          refine ⟨_, by rw [el]; rfl, ⟨a1, a2, rfl, ?_⟩, fun _ => ?_⟩
          · exact Fsv2.nonneg9 _ _ _ _ _ _ _ _ _ (by dsimp only; omega)
          simp only [mJ, jv, mVal, mC, tv, Fsv2.exp_two, a3, List.range_succ, List.range_zero, List.nil_append,
            List.cons_append, List.map_cons, List.map_nil, ix_cons_zero, ix_cons_succ, Rat.smul_def]
          rw [zpow_add_nn p.θ1 _ _ ‹_› ‹_›, zpow_add_nn p.σ1 _ _ ‹_› ‹_›, zpow_add_nn p.θ2 _ _ ‹_› ‹_›,
            zpow_add_nn p.σ2 _ _ ‹_› ‹_›, zpow_add_nn p.h _ _ ‹_› ‹_›, zpow_add_nn p.μ _ _ ‹_› ‹_›,
            zpow_add_nn p.lam _ _ ‹_› ‹_›, zpow_add_nn p.μj _ _ ‹_› ‹_›, zpow_add_nn p.σj _ _ ‹_› ‹_›]
          push_cast
          ring)
      refine ⟨ts, ets, tk, fun _ => ?_⟩
      rw [tval (), List.sum_map_mul_left]
      change _ * ev (mJ p) b = _
      rw [Rat.smul_def, Rat.smul_def]
      ring)
  refine ⟨r, e, k, w, keys, ?_⟩
  rw [v (), mul_comm, ← ev_mul_const]
  apply ev_congr
  intro e _
  rw [mul_comm]

theorem covYY_parts (g : Cfg) (l1 l2 : ℕ) : ∃ r, covYY g l1 l2 = .ok r ∧ r.keyfor = kfM ∧ r.WF ∧ r.NoZero ∧
    r.Keys (TOK 9) ∧ ∀ p : Par, ∃ a b c, momentYY g l1 l2 = .ok a ∧ momentY g l1 = .ok b ∧
      momentY g l2 = .ok c ∧ ev (mJ p) r = ev (mJ p) a - ev (mJ p) b * ev (mJ p) c := by
  obtain ⟨a, ea, ak, aw, an, akeys, _⟩ := momentYY_spec g l1 l2
  obtain ⟨b, eb, bk, _, _, bkeys, _⟩ := momentY_spec g l1
  obtain ⟨c, ec, ck, _, _, ckeys, _⟩ := momentY_spec g l2
  obtain ⟨d, ed, dk, dw, dkeys, _⟩ := mulT_spec ⟨Fsv2.unitPar, 0, 0, 0⟩ b c bkeys ckeys
  obtain ⟨r, er, rk, rw', _, rkeys, rv⟩ := sub_spec a d (ak.trans dk.symm) dw
  refine ⟨r.removeZero, ?_, by simp [rk, ak], removeZero_WF _ (rw' aw), removeZero_NoZero _,
    removeZero_Keys _ _ (rkeys _ akeys dkeys), fun p => ⟨a, b, c, ea, eb, ec, ?_⟩⟩
  · rw [covYY, eb, ok_bind, ec, ok_bind, ed, ok_bind, ea, ok_bind, er]; rfl
  · obtain ⟨d', ed', _, _, _, dv⟩ := mulT_spec p b c bkeys ckeys
    rw [ed] at ed'
    cases ed'
    rw [ev_removeZero, rv, dv]

end Ajd.Fsv2j
