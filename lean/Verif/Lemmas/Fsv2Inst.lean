import Verif.Lemmas.Fsv2Cov
import Verif.Lemmas.Fsv1Inst
import Mathlib.MeasureTheory.Integral.Prod

/-! The laws the theorems speak about exist; the keys; `poly2num`. -/

namespace Ajd.Fsv2
open Poly Ito Utils MvPolynomial MeasureTheory ProbabilityTheory Itos

/-! ### laws -/

/-- the product of the two stationary gamma laws -/
noncomputable def gammas (p : Par) : Measure (ℝ × ℝ) :=
  (gammaMeasure (2 * p.k1 * p.θ1 / p.σ1 ^ 2) (2 * p.k1 / p.σ1 ^ 2)).prod
    (gammaMeasure (2 * p.k2 * p.θ2 / p.σ2 ^ 2) (2 * p.k2 / p.σ2 ^ 2))

theorem statLaw_gammas (p : Par) (h1 : 0 < p.k1) (h2 : 0 < p.k2) (h3 : 0 < p.θ1) (h4 : 0 < p.σ1)
    (h5 : 0 < p.θ2) (h6 : 0 < p.σ2) : StatLaw p (gammas p) := by
  have s1 := Fsv1.statLaw_gamma ⟨p.k1, p.θ1, p.σ1, 0, 0, 0⟩ h1 h3 h4
  have s2 := Fsv1.statLaw_gamma ⟨p.k2, p.θ2, p.σ2, 0, 0, 0⟩ h2 h5 h6
  haveI := isProbabilityMeasure_gammaMeasure (a := 2 * p.k1 * p.θ1 / p.σ1 ^ 2) (r := 2 * p.k1 / p.σ1 ^ 2)
    (by positivity) (by positivity)
  haveI := isProbabilityMeasure_gammaMeasure (a := 2 * p.k2 * p.θ2 / p.σ2 ^ 2) (r := 2 * p.k2 / p.σ2 ^ 2)
    (by positivity) (by positivity)
  refine ⟨fun a b => ?_, fun a b => ?_⟩
  · exact (s1.integrable a).mul_prod (s2.integrable b)
  · have := integral_prod_mul (μ := gammaMeasure (2 * p.k1 * p.θ1 / p.σ1 ^ 2) (2 * p.k1 / p.σ1 ^ 2))
      (ν := gammaMeasure (2 * p.k2 * p.θ2 / p.σ2 ^ 2) (2 * p.k2 / p.σ2 ^ 2)) (fun x : ℝ => x ^ a) (fun x : ℝ => x ^ b)
    rw [gammas, this]
    exact congrArg₂ (· * ·) (s1.moment a) (s2.moment b)

/-- the functional with given moments -/
noncomputable def functional (M : ℕ → ℕ → ℕ → ℕ → ℕ → ℝ) : Rv →ₗ[ℝ] ℝ :=
  (basisMonomials (Fin 5) ℝ).constr ℝ fun s => M (s 0) (s 1) (s 2) (s 3) (s 4)

theorem functional_apply (M : ℕ → ℕ → ℕ → ℕ → ℕ → ℝ) (a b c d e : ℕ) :
    functional M (X 0 ^ a * X 1 ^ b * X 2 ^ c * X 3 ^ d * X 4 ^ e) = M a b c d e := by
  have h : (X 0 ^ a * X 1 ^ b * X 2 ^ c * X 3 ^ d * X 4 ^ e : Rv) = basisMonomials (Fin 5) ℝ
      (Finsupp.single 0 a + Finsupp.single 1 b + Finsupp.single 2 c + Finsupp.single 3 d +
        Finsupp.single 4 e) := by
    rw [coe_basisMonomials]
    simp only [X_pow_eq_monomial, monomial_mul, one_mul]
  rw [h, functional, Module.Basis.constr_basis]
  simp [Finsupp.single_apply]

/-- a conditional law with the moments of the Itô equation -/
noncomputable def condE (p : Par) (t0 : ℝ) (x : ℝ × ℝ) : Rv →ₗ[ℝ] ℝ :=
  functional fun a b c d e => itoSol (p.it t0 x) a b c d e (t0 + p.h)

theorem condLaw_condE (p : Par) (t0 : ℝ) (x : ℝ × ℝ) : CondLaw p t0 x (condE p t0 x) :=
  ⟨_, itoSol_rec _, fun a b c d e => functional_apply _ a b c d e⟩

/-- a conditional law with the moments that `itos_mom` computes -/
noncomputable def compE (g : Cfg) (p : Par) (t0 : ℝ) (x : ℝ × ℝ) : Rv →ₗ[ℝ] ℝ :=
  functional fun a b c d e =>
    match moment g ((a : ℤ), (b : ℤ), (c : ℤ), (d : ℤ), (e : ℤ)) with
    | .ok P => ev (dval (p.it t0 x) (t0 + p.h)) P
    | .error _ => 0

theorem compLaw_compE (g : Cfg) (N : ℕ∞) (p : Par) (t0 : ℝ) (x : ℝ × ℝ) :
    CompLaw g N p t0 x (compE g p t0 x) := by
  intro a b c d e _
  obtain ⟨P, h, _⟩ := moment_keys g ((a : ℤ), (b : ℤ), (c : ℤ), (d : ℤ), (e : ℤ)) (by simp [Itos.Valid])
  refine ⟨P, h, ?_⟩
  rw [compE, functional_apply, h]

/-- the moments given the start of the interval are polynomials in the variances -/
theorem condPoly (g : Cfg) (p : Par) (h1 : p.k1 ≠ 0) (h2 : p.k2 ≠ 0) (t1 : ℝ) (l : ℕ) :
    ∃ Q : Pol, ∀ z E, CompLaw g ⊤ p t1 z E → eval (two z.1 z.2) Q = E (ret p t1 z ^ l) := by
  obtain ⟨r, Q, _, _, _, h⟩ := polyYY_spec g p h1 h2 (t1 - p.h) (compE g p (t1 - p.h)) 0 l
  rw [sub_add_cancel] at h
  exact ⟨Q, h⟩

/-! ### keys, whatever the parameters -/

/-- some parameters -/
noncomputable def unitPar : Par := ⟨1, 1, 1, 0, 1, 1, 1, 1⟩

theorem statLaw_unit : StatLaw unitPar (gammas unitPar) :=
  statLaw_gammas unitPar one_pos one_pos one_pos one_pos one_pos one_pos

theorem momentY_keys (g : Cfg) (l : ℕ) : ∃ r, momentY g l = .ok r ∧ r.keyfor = kfM ∧ r.WF ∧ r.NoZero ∧
    r.Keys (TOK 6) := by
  obtain ⟨r, e, k, w, z, ks, _⟩ := momentY_spec g unitPar one_ne_zero one_ne_zero 0 (compE g _ 0) _
    statLaw_unit l (Filter.Eventually.of_forall fun x => compLaw_compE _ _ _ _ _)
  exact ⟨r, e, k, w, z, ks⟩

theorem cmomentY_keys (g : Cfg) (l : ℕ) : ∃ r, cmomentY g l = .ok r ∧ r.keyfor = kfC ∧ r.WF ∧ r.NoZero ∧
    r.Keys (TOK 5) := by
  obtain ⟨r, e, k, w, z, ks, _⟩ := cmomentY_spec g unitPar one_ne_zero one_ne_zero 0 (compE g _ 0) _
    statLaw_unit l (Filter.Eventually.of_forall fun x => compLaw_compE _ _ _ _ _)
  exact ⟨r, e, k, w, z, ks⟩

theorem condPoly_compE (g : Cfg) (p : Par) (h1 : p.k1 ≠ 0) (h2 : p.k2 ≠ 0) (t1 : ℝ) (l : ℕ) :
    ∃ Q : Pol, CondPoly g p t1 l Q := by
  obtain ⟨Q, hQ⟩ := condPoly g p h1 h2 t1 l
  exact ⟨Q, compE g p t1, Set.univ, Set.univ, Set.infinite_univ, Set.infinite_univ,
    fun z _ => compLaw_compE _ _ _ _ _, fun z _ => hQ z _ (compLaw_compE _ _ _ _ _)⟩

theorem covYY_keys (g : Cfg) (l1 l2 : ℕ) : ∃ r, covYY g l1 l2 = .ok r ∧ r.keyfor = kfM ∧ r.WF ∧ r.NoZero ∧
    r.Keys (TOK 6) := by
  obtain ⟨Q, hQ⟩ := condPoly_compE g unitPar one_ne_zero one_ne_zero (0 + unitPar.h) l2
  obtain ⟨r, e, k, w, z, ks, _⟩ := covYY_spec g unitPar one_ne_zero one_ne_zero 0 (compE g _ 0) _
    statLaw_unit (Filter.Eventually.of_forall fun x => compLaw_compE _ _ _ _ _) l1 l2 Q hQ
  exact ⟨r, e, k, w, z, ks⟩

/-! ### `poly2num` -/

theorem poly2num_eq (P : TPoly) (p : Par) (h : ¬ ZeroDiv P p) : poly2num P p = .ok (ev (mVal p) P) := by
  rw [poly2num, if_neg h, ev]
  congr 2
  apply List.map_congr_left
  intro e _
  simp only [mVal, mC, tv, Rat.smul_def]
  rw [show e.1.d.map (dn p) = e.1.d.map fun t => ((t.1 : ℝ) * p.k1 + t.2.1 * p.k2) ^ (-t.2.2) from rfl]
  ring

theorem poly2numC_eq (P : TPoly) (p : Par) (h : ¬ ZeroDiv P p) : poly2numC P p = .ok (ev (cVal p) P) := by
  rw [poly2numC, if_neg h, ev]
  congr 2
  apply List.map_congr_left
  intro e _
  simp only [cVal, cC', tv, Rat.smul_def]
  rw [show e.1.d.map (dn p) = e.1.d.map fun t => ((t.1 : ℝ) * p.k1 + t.2.1 * p.k2) ^ (-t.2.2) from rfl]
  ring

theorem not_zeroDiv (P : TPoly) (n : ℕ) (hP : P.Keys (TOK n)) (p : Par) (hp : p.Generic) : ¬ ZeroDiv P p := by
  rintro ⟨e, he, t, ht, h0, h1⟩
  obtain ⟨h2, h3⟩ := hp _ _ h0
  have := ((hP e he).2.1 t ht).2 h2 h3
  omega

theorem generic_ne {p : Par} (hp : p.Generic) : p.k1 ≠ 0 ∧ p.k2 ≠ 0 := by
  constructor
  · intro h
    have := hp 1 0 (by simp [h])
    simp at this
  · intro h
    have := hp 0 1 (by simp [h])
    simp at this

/-- every denominator belongs to one of the two factors -/
def Separate (r : Except PyErr TPoly) : Bool :=
  match r with
  | .ok P => P.items.all fun e => e.1.d.all fun t => t.1 == 0 || t.2.1 == 0
  | .error _ => false

theorem not_zeroDiv_separate (P : TPoly) (n : ℕ) (hP : P.Keys (TOK n)) (hs : Separate (.ok P) = true) (p : Par)
    (h1 : p.k1 ≠ 0) (h2 : p.k2 ≠ 0) : ¬ ZeroDiv P p := by
  rintro ⟨e, he, t, ht, h0, h3⟩
  have hd := ((hP e he).2.1 t ht).2
  have := List.all_eq_true.1 (List.all_eq_true.1 hs e he) t ht
  simp only [Bool.or_eq_true, beq_iff_eq] at this
  have hb : t.1 = 0 ∧ t.2.1 = 0 := by
    rcases this with h | h
    · rw [h] at h0
      simp only [Int.cast_zero, zero_mul, zero_add, mul_eq_zero, h2, or_false, Int.cast_eq_zero] at h0
      exact ⟨h, h0⟩
    · rw [h] at h0
      simp only [Int.cast_zero, zero_mul, add_zero, mul_eq_zero, h1, or_false, Int.cast_eq_zero] at h0
      exact ⟨h0, h⟩
  have := hd hb.1 hb.2
  omega

end Ajd.Fsv2
