import Verif.Lemmas.Sv2jLaw
import Verif.Props.Conv

/-! The expectations of the two-factor system with jumps from those without jumps. -/

namespace Ajd.Sv2
open MvPolynomial MeasureTheory

theorem int_conv {σ : Type} {ν : Measure ℝ} (E : MvPolynomial σ ℝ →ₗ[ℝ] ℝ) (W : MvPolynomial σ ℝ) (g : MvPolynomial σ ℝ)
    {f : ℝ → ℝ} (hf : ∀ k : ℕ, Integrable (fun z => f z ^ k) ν) (l : ℕ) :
    ∫ z, E ((W + C (f z)) ^ l * g) ∂ν = conv (fun k => E (W ^ k * g)) (fun k => ∫ z, f z ^ k ∂ν) l := by
  have e : ∀ z, E ((W + C (f z)) ^ l * g) =
      ∑ i ∈ Finset.range (l + 1), (l.choose i : ℝ) * (E (W ^ i * g) * f z ^ (l - i)) := fun z => by
    rw [add_pow, Finset.sum_mul, map_sum]
    refine Finset.sum_congr rfl fun i _ => ?_
    have : W ^ i * C (f z) ^ (l - i) * (l.choose i : MvPolynomial σ ℝ) * g = ((l.choose i : ℝ) * f z ^ (l - i)) • (W ^ i * g) := by
      rw [MvPolynomial.smul_eq_C_mul, map_mul, map_pow, map_natCast]
      ring
    rw [this, map_smul, smul_eq_mul]
    ring
  simp only [e]
  rw [integral_finsetSum _ fun i _ => ((hf _).const_mul _).const_mul _, conv]
  refine Finset.sum_congr rfl fun i _ => ?_
  rw [integral_const_mul, integral_const_mul]

section
variable {p : Fsv2j.Par} (hl : 0 ≤ p.lam) (hh : 0 ≤ p.h) {E0 : MvPolynomial (Fin 3) ℝ →ₗ[ℝ] ℝ}
  {E F : ℝ → MvPolynomial (Fin 3) ℝ →ₗ[ℝ] ℝ} (hE : (sv2 p.μ p.k1 p.k2 p.θ1 p.σ1 p.θ2 p.σ2).Dynkin E0 E)
  (hF : (sv2j p.μ p.k1 p.k2 p.θ1 p.σ1 p.θ2 p.σ2 p.lam p.μj p.σj).Dynkin E0 F)

theorem jump_int (p : Fsv2j.Par) (k : ℕ) : Integrable (fun z => z ^ k) (Fsv2j.jumpLaw p) := by
  unfold Fsv2j.jumpLaw
  exact Cpp.cpp_integrable_pow _ _ _ k

instance (p : Fsv2j.Par) : IsProbabilityMeasure (Fsv2j.jumpLaw p) := by unfold Fsv2j.jumpLaw; infer_instance

theorem jump_int_sub (p : Fsv2j.Par) (c : ℝ) (k : ℕ) : Integrable (fun z => (z - c) ^ k) (Fsv2j.jumpLaw p) := by
  simp only [sub_eq_add_neg, add_pow]
  exact integrable_finsetSum _ fun i _ => ((jump_int p _).mul_const _).mul_const _

include hl hh hE hF in
theorem jmom (l : ℕ) : F p.h (X 2 ^ l) = conv (fun k => E p.h (X 2 ^ k)) (fun k => ∫ z, z ^ k ∂(Fsv2j.jumpLaw p)) l := by
  have := int_conv (E p.h) (X 2) 1 (jump_int p) l
  simp only [mul_one] at this
  rw [sv2j_repr p hl hh hE hF, ← this]
  simp

include hh hE in
theorem e_one (h1 : E0 1 = 1) : E p.h 1 = 1 := by
  have hg : (sv2 p.μ p.k1 p.k2 p.θ1 p.σ1 p.θ2 p.σ2).IsGen 1 0 := by
    simpa using gen_v p.μ p.k1 p.k2 p.θ1 p.σ1 p.θ2 p.σ2 0 0
  rw [hE.formula _ _ hg p.h hh, h1]
  simp

include hl hh hE hF in
theorem jcm (h1 : E0 1 = 1) (l : ℕ) : F p.h ((X 2 - C (F p.h (X 2))) ^ l) =
    conv (fun k => E p.h ((X 2 - C (E p.h (X 2))) ^ k))
      (fun k => ∫ z, (z - ∫ z', z' ∂(Fsv2j.jumpLaw p)) ^ k ∂(Fsv2j.jumpLaw p)) l := by
  have e1 : F p.h (X 2) = E p.h (X 2) + ∫ z', z' ∂(Fsv2j.jumpLaw p) := by
    have := jmom hl hh hE hF 1
    simp only [conv, Finset.sum_range_succ, Finset.sum_range_zero, pow_zero, pow_one, e_one hh hE h1, integral_const, probReal_univ,
      smul_eq_mul, mul_one, Nat.choose_self, Nat.cast_one, Nat.choose_zero_right, Nat.sub_self, Nat.sub_zero, one_mul, zero_add] at this
    rw [this, add_comm]
  have := int_conv (E p.h) (X 2 - C (E p.h (X 2))) 1 (jump_int_sub p (∫ z', z' ∂(Fsv2j.jumpLaw p))) l
  simp only [mul_one] at this
  rw [sv2j_repr p hl hh hE hF, ← this, e1]
  refine integral_congr_ae (Filter.Eventually.of_forall fun z => ?_)
  dsimp only
  refine congrArg _ ?_
  simp only [map_pow, map_sub, aeval_X, Matrix.cons_val, aeval_C, algebraMap_eq, map_add]
  ring

variable {E0' F0' : MvPolynomial (Fin 4) ℝ →ₗ[ℝ] ℝ} {E' F' : ℝ → MvPolynomial (Fin 4) ℝ →ₗ[ℝ] ℝ}
  (hE0' : Second (E p.h) E0') (hE' : (sv2two p.μ p.k1 p.k2 p.θ1 p.σ1 p.θ2 p.σ2).Dynkin E0' E')
  (hF0' : Second (F p.h) F0') (hF' : (sv2jtwo p.μ p.k1 p.k2 p.θ1 p.σ1 p.θ2 p.σ2 p.lam p.μj p.σj).Dynkin F0' F')

include hl hh hE hF hE0' hE' hF0' hF' in
theorem jmom2 (a b : ℕ) : F' p.h (X 2 ^ a * X 3 ^ b) =
    conv2 (fun i j => E' p.h (X 2 ^ i * X 3 ^ j)) (fun k => ∫ z, z ^ k ∂(Fsv2j.jumpLaw p)) a b := by
  obtain ⟨Q, hQ, -⟩ := sv2_semi p.μ p.k1 p.k2 p.θ1 p.σ1 p.θ2 p.σ2
  obtain ⟨Q2, hQ2⟩ := Gen.dynkin_exists (coef4 p.μ p.k1 p.k2 p.θ1 p.σ1 p.θ2 p.σ2) mom4
  have key : F' p.h (X 2 ^ a * X 3 ^ b) =
      ∫ z', F p.h (X 2 ^ a * aeval ![X 0, X 1, 0] (Q p.h ((X 2 + C z') ^ b))) ∂(Fsv2j.jumpLaw p) := by
    rw [sv2jtwo_repr p hl hh (hQ2 F0') hF']
    refine integral_congr_ae (Filter.Eventually.of_forall fun z => ?_)
    dsimp only
    have e := second hQ (hQ2 F0') a ((X 2 + C z) ^ b) p.h hh
    rw [hF0'.eq] at e
    refine Eq.trans ?_ e
    refine congrArg _ ?_
    simp [algebraMap_eq]
  have h1 : ∀ q : MvPolynomial (Fin 3) ℝ, F p.h (X 2 ^ a * aeval ![X 0, X 1, 0] q) =
      conv (fun i => E p.h (X 2 ^ i * aeval ![X 0, X 1, 0] q)) (fun k => ∫ z, z ^ k ∂(Fsv2j.jumpLaw p)) a := fun q => by
    rw [sv2j_repr p hl hh hE hF, ← int_conv (E p.h) (X 2) _ (jump_int p) a]
    refine integral_congr_ae (Filter.Eventually.of_forall fun z => ?_)
    dsimp only
    refine congrArg _ ?_
    rw [map_mul, map_pow, aeval_X]
    refine congrArg _ ?_
    rw [← AlgHom.comp_apply]
    refine congrArg (fun g : MvPolynomial (Fin 3) ℝ →ₐ[ℝ] MvPolynomial (Fin 3) ℝ => g q) (MvPolynomial.algHom_ext fun k => ?_)
    fin_cases k <;> simp
  have h2 : ∀ i j, E' p.h (X 2 ^ i * X 3 ^ j) = E p.h (X 2 ^ i * aeval ![X 0, X 1, 0] (Q p.h (X 2 ^ j))) := fun i j => by
    have e := second hQ hE' i (X 2 ^ j) p.h hh
    rw [map_pow, rename_X, hE0'.eq] at e
    exact e
  have h3 := int_conv (ν := Fsv2j.jumpLaw p) (F p.h ∘ₗ LinearMap.mulLeft ℝ (X 2 ^ a) ∘ₗ
    (aeval ![X 0, X 1, 0] : MvPolynomial (Fin 3) ℝ →ₐ[ℝ] MvPolynomial (Fin 3) ℝ).toLinearMap ∘ₗ Q p.h) (X 2) 1
    (jump_int p) b
  simp only [mul_one, LinearMap.comp_apply, LinearMap.mulLeft_apply, AlgHom.toLinearMap_apply, h1] at h3
  rw [key]
  simp only [h1]
  rw [h3]
  simp only [h2, conv2, conv, Finset.sum_mul, Finset.mul_sum]
  rw [Finset.sum_comm]
  exact Finset.sum_congr rfl fun i _ => Finset.sum_congr rfl fun j _ => by ring

include hl hh hE hF hE0' hE' hF0' hF' in
theorem jcov (a b : ℕ) : F' p.h (X 2 ^ a * X 3 ^ b) - F' p.h (X 2 ^ a) * F' p.h (X 3 ^ b) =
    conv2 (fun i j => E' p.h (X 2 ^ i * X 3 ^ j) - E' p.h (X 2 ^ i) * E' p.h (X 3 ^ j))
      (fun k => ∫ z, z ^ k ∂(Fsv2j.jumpLaw p)) a b := by
  have h := jmom2 hl hh hE hF hE0' hE' hF0' hF'
  have ha := h a 0
  have hb := h 0 b
  simp only [pow_zero, mul_one, one_mul, conv2, conv, Finset.sum_range_succ, Finset.sum_range_zero, Nat.choose_self,
    Nat.cast_one, Nat.sub_self, integral_const, probReal_univ, smul_eq_mul, zero_add] at ha hb
  rw [h, ha, hb]
  simp only [conv2, conv_sub, conv_const_mul, conv_mul]
  congr 2
  · simp [conv, Finset.sum_range_succ]
  · simp [conv, Finset.sum_range_succ]

end

end Ajd.Sv2
