import Verif.Lemmas.SvLaw
import Verif.Lemmas.Sv2jLaw

/-! Expectations of the two-factor models are integrals. -/

namespace Ajd.Sv2
open MvPolynomial MeasureTheory ProbabilityTheory Gen

theorem central_sum {τ : Type} (E : MvPolynomial τ ℝ →ₗ[ℝ] ℝ) (i : τ) (c : ℝ) (n : ℕ) :
    E ((X i - C c) ^ n) = ∑ j ∈ Finset.range (n + 1), n.choose j * (-c) ^ (n - j) * E (X i ^ j) := by
  rw [sub_eq_add_neg, add_pow, map_sum]
  refine Finset.sum_congr rfl fun j _ => ?_
  rw [← C_neg, ← C_pow, mul_assoc, show (n.choose j : MvPolynomial τ ℝ) = C (n.choose j : ℝ) by simp, ← C_mul,
    mul_comm, ← smul_eq_C_mul, map_smul, smul_eq_mul]
  ring

theorem pair_law {τ : Type} [Fintype τ] {P : Measure (τ → ℝ)} [IsProbabilityMeasure P] {E : MvPolynomial τ ℝ →ₗ[ℝ] ℝ}
    (hP : ∀ f, Integrable (fun x => eval x f) P ∧ E f = ∫ x, eval x f ∂P) (i j : τ) {m cm : ℕ → Except PyErr ℝ}
    {cov : ℕ → ℕ → Except PyErr ℝ} (hm : ∀ l, m l = .ok (E (X i ^ l))) (hj : ∀ l, E (X j ^ l) = E (X i ^ l))
    (hc : ∀ l, cm l = .ok (E ((X i - C (E (X i))) ^ l)))
    (hv : ∀ l1 l2, cov l1 l2 = .ok (E (X i ^ l1 * X j ^ l2) - E (X i ^ l1) * E (X j ^ l2))) :
    IsPairLaw (P.map fun x => (x i, x j)) m cm cov := by
  have hm' : Measurable fun x : τ → ℝ => (x i, x j) := (measurable_pi_apply i).prodMk (measurable_pi_apply j)
  have h1 : E (X j) = E (X i) := by simpa using hj 1
  refine ⟨Measure.isProbabilityMeasure_map hm'.aemeasurable, fun a b => ?_, ?_, ?_, fun l1 l2 => ?_⟩
  · rw [integrable_map_measure (by fun_prop) hm'.aemeasurable]
    have := (hP (X i ^ a * X j ^ b)).1
    simpa [Function.comp_def] using this
  · rw [Measure.map_map (by fun_prop) hm']
    exact Sv.law_fst hP i hm hc
  · rw [Measure.map_map (by fun_prop) hm']
    refine Sv.law_fst hP j (fun l => by rw [hj, hm]) fun l => ?_
    rw [hc, central_sum, central_sum, h1]
    simp only [hj]
  · rw [integral_map hm'.aemeasurable (by fun_prop), integral_map hm'.aemeasurable (by fun_prop),
      integral_map hm'.aemeasurable (by fun_prop), hv, (hP _).2, (hP _).2, (hP _).2]
    simp

theorem rate (w : ℝ) (hw : 0 ≤ w) (Q : Prop) (h : 0 < w → Q) : w = 0 ∨ (0 ≤ w ∧ Q) := by
  rcases hw.eq_or_lt with h0 | h0
  · exact .inl h0.symm
  · exact .inr ⟨hw, h h0⟩

theorem sv2j_viable {mu k1 k2 θ1 σ1 θ2 σ2 lam mj sj : ℝ} (h1 : 0 ≤ k1 * θ1) (h2 : 0 ≤ k2 * θ2) (hl : 0 ≤ lam) :
    Viable (sv2j mu k1 k2 θ1 σ1 θ2 σ2 lam mj sj) (orth {0, 1}) := by
  refine viable_orth ?_ ?_ hl ?_
  · rintro x hx i (rfl | rfl) h0
    · simpa [sv2j, sv2, h0] using h1
    · simpa [sv2j, sv2, h0] using h2
  · intro x hx
    have p0 := hx 0 (by simp)
    have p1 := hx 1 (by simp)
    refine ⟨3, ![x 0, x 1, x 0 + x 1], ![![σ1, 0, 0], ![0, σ2, 0], ![0, 0, 1]], fun i j => ?_, fun r => ?_⟩
    · fin_cases i <;> fin_cases j <;> simp [sv2j, sv2, Fin.sum_univ_three] <;> ring
    · fin_cases r
      · refine rate _ p0 _ fun h => ?_
        rintro i (rfl | rfl) hi
        · exact absurd hi h.ne'
        · simp
      · refine rate _ p1 _ fun h => ?_
        rintro i (rfl | rfl) hi
        · simp
        · exact absurd hi h.ne'
      · refine .inr ⟨add_nonneg p0 p1, ?_⟩
        rintro i (rfl | rfl) hi <;> simp
  · simp only [sv2j]
    refine (ae_map_iff (by fun_prop) (orth_closed _).measurableSet).2 (Filter.Eventually.of_forall fun y => ?_)
    rintro i (rfl | rfl) <;> simp

theorem sv2jtwo_viable {mu k1 k2 θ1 σ1 θ2 σ2 lam mj sj : ℝ} (h1 : 0 ≤ k1 * θ1) (h2 : 0 ≤ k2 * θ2) (hl : 0 ≤ lam) :
    Viable (sv2jtwo mu k1 k2 θ1 σ1 θ2 σ2 lam mj sj) (orth {0, 1}) := by
  refine viable_orth ?_ ?_ hl ?_
  · rintro x hx i (rfl | rfl) h0
    · simpa [sv2jtwo, sv2two, h0] using h1
    · simpa [sv2jtwo, sv2two, h0] using h2
  · intro x hx
    have p0 := hx 0 (by simp)
    have p1 := hx 1 (by simp)
    refine ⟨3, ![x 0, x 1, x 0 + x 1], ![![σ1, 0, 0, 0], ![0, σ2, 0, 0], ![0, 0, 0, 1]], fun i j => ?_, fun r => ?_⟩
    · fin_cases i <;> fin_cases j <;> simp [sv2jtwo, sv2two, Fin.sum_univ_three] <;> ring
    · fin_cases r
      · refine rate _ p0 _ fun h => ?_
        rintro i (rfl | rfl) hi
        · exact absurd hi h.ne'
        · simp
      · refine rate _ p1 _ fun h => ?_
        rintro i (rfl | rfl) hi
        · simp
        · exact absurd hi h.ne'
      · refine .inr ⟨add_nonneg p0 p1, ?_⟩
        rintro i (rfl | rfl) hi <;> simp
  · simp only [sv2jtwo]
    refine (ae_map_iff (by fun_prop) (orth_closed _).measurableSet).2 (Filter.Eventually.of_forall fun y => ?_)
    rintro i (rfl | rfl) <;> simp

theorem start_pos {p : Fsv2.Par} (hp : Pos p) {E0 : MvPolynomial (Fin 3) ℝ →ₗ[ℝ] ℝ}
    (h0 : Start E0 (Ito.vMoment p.k1 p.θ1 p.σ1) (Ito.vMoment p.k2 p.θ2 p.σ2)) (f : MvPolynomial (Fin 3) ℝ)
    (hf : ∀ x ∈ orth {0, 1}, 0 ≤ eval x f) : 0 ≤ E0 f := by
  rw [(Start.eq (Fsv2.statLaw_gammas p hp.k1 hp.k2 hp.θ1 hp.σ1 hp.θ2 hp.σ2) h0 f).2]
  refine integral_nonneg_of_ae ?_
  have g : ∀ᵐ x ∂(Fsv2.gammas p), 0 ≤ x.1 ∧ 0 ≤ x.2 := by
    obtain ⟨k1, k2, θ1, σ1, θ2, σ2, -⟩ := hp
    haveI := isProbabilityMeasure_gammaMeasure (a := 2 * p.k1 * p.θ1 / p.σ1 ^ 2) (r := 2 * p.k1 / p.σ1 ^ 2)
      (by positivity) (by positivity)
    haveI := isProbabilityMeasure_gammaMeasure (a := 2 * p.k2 * p.θ2 / p.σ2 ^ 2) (r := 2 * p.k2 / p.σ2 ^ 2)
      (by positivity) (by positivity)
    unfold Fsv2.gammas
    filter_upwards [Measure.quasiMeasurePreserving_fst.ae (Sv.gamma_nonneg _ _),
      Measure.quasiMeasurePreserving_snd.ae (Sv.gamma_nonneg _ _)] with x h1 h2
    exact ⟨h1, h2⟩
  filter_upwards [g] with x hx
  rw [aeval_eq_eval]
  exact hf _ (by rintro i (rfl | rfl) <;> simp [hx.1, hx.2])

theorem Second.all {E : MvPolynomial (Fin 3) ℝ →ₗ[ℝ] ℝ} {E0 : MvPolynomial (Fin 4) ℝ →ₗ[ℝ] ℝ} (h : Second E E0)
    (f : MvPolynomial (Fin 4) ℝ) : E0 f = E (aeval ![X 0, X 1, X 2, 0] f) := by
  induction f using MvPolynomial.induction_on' with
  | add p q hp hq => rw [map_add, hp, hq, map_add, map_add]
  | monomial s c =>
    have hm : monomial s c = C c * (X 0 ^ s 0 * X 1 ^ s 1 * X 2 ^ s 2 * X 3 ^ s 3 : MvPolynomial (Fin 4) ℝ) := by
      rw [monomial_eq, Finsupp.prod_fintype _ _ (by simp), Fin.prod_univ_four]
    rw [hm]
    rcases Nat.eq_zero_or_pos (s 3) with h3 | h3
    · have e : (C c * (X 0 ^ s 0 * X 1 ^ s 1 * X 2 ^ s 2 * X 3 ^ s 3) : MvPolynomial (Fin 4) ℝ) =
          rename ![0, 1, 2] (C c * (X 0 ^ s 0 * X 1 ^ s 1 * X 2 ^ s 2)) := by simp [h3]
      rw [e, h.2, aeval_rename]
      refine congrArg E ?_
      simp
    · have e : (C c * (X 0 ^ s 0 * X 1 ^ s 1 * X 2 ^ s 2 * X 3 ^ s 3) : MvPolynomial (Fin 4) ℝ) =
          X 3 * (C c * (X 0 ^ s 0 * X 1 ^ s 1 * X 2 ^ s 2 * X 3 ^ (s 3 - 1))) := by
        conv_lhs => rw [show s 3 = s 3 - 1 + 1 by omega, pow_succ]
        ring
      rw [e, h.1]
      simp

theorem second_pos {E : MvPolynomial (Fin 3) ℝ →ₗ[ℝ] ℝ} {E0 : MvPolynomial (Fin 4) ℝ →ₗ[ℝ] ℝ} (h : Second E E0)
    (hp : ∀ f, (∀ x ∈ orth {0, 1}, 0 ≤ eval x f) → 0 ≤ E f) (f : MvPolynomial (Fin 4) ℝ)
    (hf : ∀ x ∈ orth {0, 1}, 0 ≤ eval x f) : 0 ≤ E0 f := by
  rw [h.all]
  refine hp _ fun x hx => ?_
  rw [eval_aeval]
  refine hf _ ?_
  rintro i (rfl | rfl)
  · simpa using hx 0 (by simp)
  · simpa using hx 1 (by simp)

/-- the two returns are integrable functions on a probability space, with the same moments -/
theorem two_law (p : Fsv2j.Par) (hp : Pos p.toPar) (hl : 0 ≤ p.lam) {E0 : MvPolynomial (Fin 3) ℝ →ₗ[ℝ] ℝ}
    (h0 : Start E0 (Ito.vMoment p.k1 p.θ1 p.σ1) (Ito.vMoment p.k2 p.θ2 p.σ2)) {E : ℝ → MvPolynomial (Fin 3) ℝ →ₗ[ℝ] ℝ}
    (hE : (sv2j p.μ p.k1 p.k2 p.θ1 p.σ1 p.θ2 p.σ2 p.lam p.μj p.σj).Dynkin E0 E)
    {E0' : MvPolynomial (Fin 4) ℝ →ₗ[ℝ] ℝ} (h0' : Second (E p.h) E0') {E' : ℝ → MvPolynomial (Fin 4) ℝ →ₗ[ℝ] ℝ}
    (hE' : (sv2jtwo p.μ p.k1 p.k2 p.θ1 p.σ1 p.θ2 p.σ2 p.lam p.μj p.σj).Dynkin E0' E') :
    (∃ P : Measure (Fin 4 → ℝ), IsProbabilityMeasure P ∧
      ∀ f, Integrable (fun x => eval x f) P ∧ E' p.h f = ∫ x, eval x f ∂P) ∧
    ∀ l, E' p.h (X 2 ^ l) = E p.h (X 2 ^ l) ∧ E' p.h (X 3 ^ l) = E p.h (X 2 ^ l) := by
  have hp1 := mul_nonneg hp.k1.le hp.θ1.le
  have hp2 := mul_nonneg hp.k2.le hp.θ2.le
  have c3 := jmp_coef 2 p.lam p.μj (p.σj ^ 2).toNNReal (coefY p.μ p.k1 p.k2 p.θ1 p.σ1 p.θ2 p.σ2)
  have c4 := jmp_coef 3 p.lam p.μj (p.σj ^ 2).toNNReal (coef4 p.μ p.k1 p.k2 p.θ1 p.σ1 p.θ2 p.σ2)
  rw [← sv2j_eq] at c3
  rw [← sv2jtwo_eq] at c4
  have m3 : Mom (sv2j p.μ p.k1 p.k2 p.θ1 p.σ1 p.θ2 p.σ2 p.lam p.μj p.σj).ν := by
    rw [sv2j_eq]; exact jmp_mom _ 2 p.lam p.μj _
  have m4 : Mom (sv2jtwo p.μ p.k1 p.k2 p.θ1 p.σ1 p.θ2 p.σ2 p.lam p.μj p.σj).ν := by
    rw [sv2jtwo_eq]; exact jmp_mom _ 3 p.lam p.μj _
  have hpos := dynkin_pos c3 m3 (sv2j_viable hp1 hp2 hl) hE (start_pos hp h0) p.h hp.h.le
  have h1 : E0' 1 = 1 := by
    rw [h0'.all, map_one, dynkin_one hE p.h hp.h.le]
    simpa [Ito.vMoment] using h0.v 0 0
  refine ⟨?_, fun l => ?_⟩
  · obtain ⟨P, hP, -, hf⟩ := Gen.exists_law c4 m4 (sv2jtwo_viable hp1 hp2 hl) ⟨0, fun i _ => le_rfl⟩ hE'
      (second_pos h0' hpos) h1 p.h hp.h.le
    exact ⟨P, hP, hf⟩
  · obtain ⟨Ex, γ, Q, L⟩ := exists_law p.toPar hp.k1 hp.k2 hp.θ1 hp.σ1 hp.θ2 hp.σ2 hp.h.le
    obtain ⟨-, b, c⟩ := jtwo L hp.k1.ne' hp.k2.ne' hl hp.h.le h0 hE h0' hE' 0 l l
    have e := jret L hl hp.h.le h0 hE 0 0 l
    simp only [map_zero, sub_zero] at e
    exact ⟨b.trans e.symm, c.trans e.symm⟩

end Ajd.Sv2
