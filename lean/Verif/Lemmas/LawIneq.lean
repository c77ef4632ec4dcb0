import Verif.Spec.Law
import Mathlib.Tactic.Linarith
import Mathlib.Tactic.LinearCombination
import Mathlib.Tactic.Positivity
import Mathlib.Algebra.BigOperators.Ring.Finset

/-! Inequalities between the moments of a distribution. -/

namespace Ajd
open MeasureTheory Finset

/-- a quadratic form is not negative -/
theorem quad_le {a b c : ℝ} (h : ∀ s t : ℝ, 0 ≤ s ^ 2 * a + 2 * s * t * b + t ^ 2 * c) : b ^ 2 ≤ a * c := by
  have ha := h 1 0
  have hc := h 0 1
  have h1 := h b (-a)
  have h2 := h c (-b)
  have h3 := h 1 (-b)
  rcases (show 0 ≤ a by linarith).eq_or_lt with h0 | h0
  · rw [← h0] at h3 h2 ⊢
    have h4 := h 1 (-b * (c + 1))
    rw [← h0] at h4
    rcases (show 0 ≤ c by linarith).eq_or_lt with h5 | h5
    · rw [← h5] at h3
      nlinarith
    · nlinarith [mul_pos h5 h5]
  · nlinarith

variable {P : Measure ℝ} {m cm : ℕ → Except PyErr ℝ}

/-- central powers are integrable -/
theorem IsLaw.int_c (h : IsLaw P m cm) (c : ℝ) (l : ℕ) : Integrable (fun y => (y - c) ^ l) P := by
  have : (fun y : ℝ => (y - c) ^ l) = fun y => ∑ i ∈ range (l + 1), y ^ i * ((-c) ^ (l - i) * l.choose i) := by
    funext y
    rw [sub_eq_add_neg, add_pow]
    exact sum_congr rfl fun i _ => by ring
  rw [this]
  exact integrable_finset_sum _ fun i _ => (h.int i).mul_const _

/-- a Hankel form of the moments is not negative -/
theorem IsLaw.hankel (h : IsLaw P m cm) (n : ℕ) (a : ℕ → ℝ) : ∃ M : ℕ → ℝ, (∀ l, m l = .ok (M l)) ∧
    0 ≤ ∑ i ∈ range n, ∑ j ∈ range n, a i * a j * M (i + j) := by
  refine ⟨fun l => ∫ y, y ^ l ∂P, h.m, ?_⟩
  have e : ∑ i ∈ range n, ∑ j ∈ range n, a i * a j * ∫ y, y ^ (i + j) ∂P = ∫ y, (∑ i ∈ range n, a i * y ^ i) ^ 2 ∂P := by
    have : (fun y : ℝ => (∑ i ∈ range n, a i * y ^ i) ^ 2) =
        fun y => ∑ i ∈ range n, ∑ j ∈ range n, a i * a j * y ^ (i + j) := by
      funext y
      rw [sq, sum_mul_sum]
      exact sum_congr rfl fun i _ => sum_congr rfl fun j _ => by rw [pow_add]; ring
    rw [this, integral_finset_sum _ fun i _ => integrable_finset_sum _ fun j _ => (h.int _).const_mul _]
    refine sum_congr rfl fun i _ => ?_
    rw [integral_finset_sum _ fun j _ => (h.int _).const_mul _]
    exact sum_congr rfl fun j _ => (integral_const_mul _ _).symm
  rw [e]
  exact integral_nonneg fun y => sq_nonneg _

/-- central moments of even order are not negative -/
theorem IsLaw.even (h : IsLaw P m cm) (l : ℕ) : ∃ c, cm (2 * l) = .ok c ∧ 0 ≤ c :=
  ⟨_, h.cm _, integral_nonneg fun y => by
    rw [pow_mul]
    exact pow_nonneg (sq_nonneg _) l⟩

/-- the first central moment is `0` and the one of order `0` is `1` -/
theorem IsLaw.low (h : IsLaw P m cm) : cm 0 = .ok 1 ∧ cm 1 = .ok 0 := by
  have := h.prob
  refine ⟨by rw [h.cm]; simp, ?_⟩
  rw [h.cm]
  have := h.int 1
  simp only [pow_one] at this ⊢
  rw [integral_sub this (integrable_const _)]
  simp

/-- the kurtosis is at least `1 + skewness^2` -/
theorem IsLaw.kurt (h : IsLaw P m cm) : ∃ c2 c3 c4, cm 2 = .ok c2 ∧ cm 3 = .ok c3 ∧ cm 4 = .ok c4 ∧
    0 ≤ c2 ∧ 0 ≤ c4 ∧ c3 ^ 2 + c2 ^ 3 ≤ c2 * c4 := by
  have hp := h.prob
  obtain ⟨μ, hμ⟩ : ∃ μ, μ = ∫ z, z ∂P := ⟨_, rfl⟩
  refine ⟨_, _, _, h.cm 2, h.cm 3, h.cm 4, integral_nonneg fun y => sq_nonneg _,
    integral_nonneg fun y => by positivity, ?_⟩
  rw [← hμ]
  have hi := h.int_c μ
  have h1 : ∫ y, (y - μ) ∂P = 0 := by
    have e := h.low.2
    rw [h.cm, ← hμ] at e
    simpa using e
  -- `(y - μ)^2 - c2` and `y - μ`
  generalize hc : ∫ y, (y - μ) ^ 2 ∂P = c2
  have key : ∀ s t : ℝ, 0 ≤ s ^ 2 * c2 + 2 * s * t * (∫ y, (y - μ) ^ 3 ∂P) + t ^ 2 * ((∫ y, (y - μ) ^ 4 ∂P) - c2 ^ 2) := by
    intro s t
    have e : ∫ y, (s * (y - μ) + t * ((y - μ) ^ 2 - c2)) ^ 2 ∂P = s ^ 2 * c2 + 2 * s * t * (∫ y, (y - μ) ^ 3 ∂P) +
        t ^ 2 * ((∫ y, (y - μ) ^ 4 ∂P) - c2 ^ 2) := by
      have e1 : (fun y : ℝ => (s * (y - μ) + t * ((y - μ) ^ 2 - c2)) ^ 2) = fun y => t ^ 2 * (y - μ) ^ 4 +
          (2 * s * t * (y - μ) ^ 3 + ((s ^ 2 - 2 * t ^ 2 * c2) * (y - μ) ^ 2 + (-2 * s * t * c2 * (y - μ) ^ 1 + t ^ 2 * c2 ^ 2))) := by
        funext y
        ring
      have h4 := hi 4
      have h3 := hi 3
      have h2 := hi 2
      have h0 := hi 1
      rw [e1, integral_add (by fun_prop) (by fun_prop), integral_add (by fun_prop) (by fun_prop),
        integral_add (by fun_prop) (by fun_prop), integral_add (by fun_prop) (by fun_prop)]
      simp only [integral_const_mul, integral_const, probReal_univ, one_smul, pow_one, h1, hc]
      ring
    rw [← e]
    exact integral_nonneg fun y => sq_nonneg _
  have := quad_le key
  linarith

variable {Q : Measure (ℝ × ℝ)} {cov : ℕ → ℕ → Except PyErr ℝ}

theorem IsPairLaw.fst_int (h : IsPairLaw Q m cm cov) (l : ℕ) : m l = .ok (∫ y, y.1 ^ l ∂Q) := by
  rw [h.fst.m, integral_map (by fun_prop) (by fun_prop)]

theorem IsPairLaw.snd_int (h : IsPairLaw Q m cm cov) (l : ℕ) : m l = .ok (∫ y, y.2 ^ l ∂Q) := by
  rw [h.snd.m, integral_map (by fun_prop) (by fun_prop)]

/-- the variance -/
theorem IsLaw.var (h : IsLaw P m cm) : ∃ m1 m2, m 1 = .ok m1 ∧ m 2 = .ok m2 ∧ cm 2 = .ok (m2 - m1 ^ 2) := by
  have := h.prob
  refine ⟨_, _, h.m 1, h.m 2, ?_⟩
  rw [h.cm]
  have h1 : Integrable (fun y : ℝ => y) P := by simpa using h.int 1
  have h2 := h.int 2
  simp only [pow_one]
  obtain ⟨μ, hμ⟩ : ∃ μ, μ = ∫ z, z ∂P := ⟨_, rfl⟩
  rw [← hμ]
  have e : (fun y : ℝ => (y - μ) ^ 2) = fun y => y ^ 2 - (2 * μ * y - μ ^ 2) := by funext y; ring
  have h3 : Integrable (fun y : ℝ => 2 * μ * y - μ ^ 2) P := (h1.const_mul _).sub (integrable_const _)
  rw [e, integral_sub h2 h3, integral_sub (h1.const_mul _) (integrable_const _),
    integral_const_mul, ← hμ]
  simp
  ring

/-- the covariance is at most the product of the standard deviations -/
theorem IsPairLaw.cauchy (h : IsPairLaw Q m cm cov) (l1 l2 : ℕ) : ∃ c m1 m2 s1 s2, cov l1 l2 = .ok c ∧
    m l1 = .ok m1 ∧ m l2 = .ok m2 ∧ m (2 * l1) = .ok s1 ∧ m (2 * l2) = .ok s2 ∧
    c ^ 2 ≤ (s1 - m1 ^ 2) * (s2 - m2 ^ 2) := by
  have hp := h.prob
  refine ⟨_, _, _, _, _, h.cov l1 l2, h.fst_int l1, h.snd_int l2, h.fst_int (2 * l1), h.snd_int (2 * l2), ?_⟩
  have i11 : Integrable (fun y : ℝ × ℝ => y.1 ^ l1 * y.2 ^ l2) Q := h.int l1 l2
  have i10 : Integrable (fun y : ℝ × ℝ => y.1 ^ l1) Q := by simpa using h.int l1 0
  have i01 : Integrable (fun y : ℝ × ℝ => y.2 ^ l2) Q := by simpa using h.int 0 l2
  have i20 : Integrable (fun y : ℝ × ℝ => y.1 ^ (2 * l1)) Q := by simpa using h.int (2 * l1) 0
  have i02 : Integrable (fun y : ℝ × ℝ => y.2 ^ (2 * l2)) Q := by simpa using h.int 0 (2 * l2)
  generalize h1 : ∫ y, y.1 ^ l1 ∂Q = m1
  generalize h2 : ∫ y, y.2 ^ l2 ∂Q = m2
  refine quad_le fun s t => ?_
  have e : ∫ y, (s * (y.1 ^ l1 - m1) + t * (y.2 ^ l2 - m2)) ^ 2 ∂Q = s ^ 2 * (∫ y, y.1 ^ (2 * l1) ∂Q - m1 ^ 2) +
      2 * s * t * (∫ y, y.1 ^ l1 * y.2 ^ l2 ∂Q - m1 * m2) + t ^ 2 * (∫ y, y.2 ^ (2 * l2) ∂Q - m2 ^ 2) := by
    have e1 : (fun y : ℝ × ℝ => (s * (y.1 ^ l1 - m1) + t * (y.2 ^ l2 - m2)) ^ 2) = fun y => s ^ 2 * y.1 ^ (2 * l1) +
        (t ^ 2 * y.2 ^ (2 * l2) + (2 * s * t * (y.1 ^ l1 * y.2 ^ l2) + ((-2 * s * (s * m1 + t * m2)) * y.1 ^ l1 +
          ((-2 * t * (s * m1 + t * m2)) * y.2 ^ l2 + (s * m1 + t * m2) ^ 2)))) := by
      funext y
      rw [mul_comm 2 l1, mul_comm 2 l2, pow_mul, pow_mul]
      ring
    rw [e1, integral_add (by fun_prop) (by fun_prop), integral_add (by fun_prop) (by fun_prop),
      integral_add (by fun_prop) (by fun_prop), integral_add (by fun_prop) (by fun_prop),
      integral_add (by fun_prop) (by fun_prop)]
    simp only [integral_const_mul, integral_const, probReal_univ, one_smul, h1, h2]
    ring
  rw [← e]
  exact integral_nonneg fun y => sq_nonneg _

/-- the covariance of the returns is at most the variance -/
theorem IsPairLaw.cov_le (h : IsPairLaw Q m cm cov) : ∃ c2 c, cm 2 = .ok c2 ∧ cov 1 1 = .ok c ∧ 0 ≤ c2 ∧ |c| ≤ c2 := by
  obtain ⟨c, m1, m2, s1, s2, hc, h1, h2, h3, h4, hle⟩ := h.cauchy 1 1
  obtain ⟨a1, a2, e1, e2, e3⟩ := h.fst.var
  obtain ⟨c2, e4, hp⟩ := h.fst.even 1
  rw [h1] at h2 e1
  rw [show (2 * 1 : ℕ) = 2 from rfl] at h3 h4 e4
  rw [h3] at h4 e2
  rw [e3] at e4
  injection h2 with h2; injection e1 with e1; injection h4 with h4; injection e2 with e2; injection e4 with e4
  subst h2 e1 h4 e2 e4
  refine ⟨_, _, e3, hc, hp, abs_le_of_sq_le_sq (by nlinarith) hp⟩

end Ajd
