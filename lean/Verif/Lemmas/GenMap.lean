import Verif.Lemmas.Gen

/-! An affine image of a jump-diffusion. -/

namespace Ajd.Gen
open MvPolynomial MeasureTheory Dyn

variable {σ τ : Type} [Fintype σ] [Fintype τ]

theorem pderiv_aeval (g : τ → MvPolynomial σ ℝ) (i : σ) (f : MvPolynomial τ ℝ) :
    pderiv i (aeval g f) = ∑ k, aeval g (pderiv k f) * pderiv i (g k) := by
  classical
  induction f using MvPolynomial.induction_on with
  | C a => simp [algebraMap_eq]
  | add p q hp hq => simp only [map_add, hp, hq, add_mul, Finset.sum_add_distrib]
  | mul_X p k hp =>
    simp only [map_mul, aeval_X, Derivation.leibniz, smul_eq_mul, map_add, hp, pderiv_X, Pi.single_apply, add_mul,
      Finset.sum_add_distrib, mul_ite, mul_one, mul_zero, apply_ite (aeval g), map_zero, ite_mul, zero_mul,
      Finset.sum_ite_eq, Finset.mem_univ, if_true, Finset.mul_sum]
    congr 1
    refine Finset.sum_congr rfl fun j _ => ?_
    ring

/-- the affine map `g` with linear part `c` carries the coefficients `b, a` to `b', a'` -/
structure Image (g : τ → MvPolynomial σ ℝ) (c : τ → σ → ℝ) (b : σ → MvPolynomial σ ℝ)
    (a : σ → σ → MvPolynomial σ ℝ) (ν : Measure (σ → ℝ)) (b' : τ → MvPolynomial τ ℝ)
    (a' : τ → τ → MvPolynomial τ ℝ) (ν' : Measure (τ → ℝ)) : Prop where
  lin : ∀ k i, pderiv i (g k) = C (c k i)
  shift : ∀ k x y, eval (x + y) (g k) = eval x (g k) + ∑ i, c k i * y i
  drift : ∀ k, ∑ i, b i * C (c k i) = aeval g (b' k)
  diff : ∀ k l, ∑ i, ∑ j, a i j * C (c k i) * C (c l j) = aeval g (a' k l)
  jump : ν' = ν.map fun y k => ∑ i, c k i * y i

theorem eval_aeval (g : τ → MvPolynomial σ ℝ) (x : σ → ℝ) (f : MvPolynomial τ ℝ) :
    eval x (aeval g f) = eval (fun k => eval x (g k)) f := by
  induction f using MvPolynomial.induction_on with
  | C a => simp [algebraMap_eq]
  | add p q hp hq => simp only [map_add, hp, hq]
  | mul_X p k hp => simp only [map_mul, aeval_X, hp, eval_X]

theorem op_image {g : τ → MvPolynomial σ ℝ} {c : τ → σ → ℝ} {b : σ → MvPolynomial σ ℝ}
    {a : σ → σ → MvPolynomial σ ℝ} {ν : Measure (σ → ℝ)} {b' : τ → MvPolynomial τ ℝ}
    {a' : τ → τ → MvPolynomial τ ℝ} {ν' : Measure (τ → ℝ)} (h : Image g c b a ν b' a' ν') (lam : ℝ)
    (hν : Mom ν) (hν' : Mom ν') (f : MvPolynomial τ ℝ) :
    op b a lam ν hν (aeval g f) = aeval g (op b' a' lam ν' hν' f) := by
  have d1 : ∀ i (f : MvPolynomial τ ℝ), pderiv i (aeval g f) = ∑ k, aeval g (pderiv k f) * C (c k i) := by
    intro i f
    rw [pderiv_aeval]
    simp only [h.lin]
  have d2 : ∀ i j, pderiv i (pderiv j (aeval g f)) =
      ∑ k, ∑ l, aeval g (pderiv k (pderiv l f)) * C (c k i) * C (c l j) := by
    intro i j
    rw [d1, map_sum, Finset.sum_comm]
    refine Finset.sum_congr rfl fun l _ => ?_
    rw [Derivation.leibniz, pderiv_C, smul_zero, zero_add, d1, smul_eq_mul, mul_comm, Finset.sum_mul]
  have e1 : ∑ i, b i * pderiv i (aeval g f) = aeval g (∑ k, b' k * pderiv k f) := by
    simp only [d1, map_sum, map_mul, ← h.drift, Finset.mul_sum, Finset.sum_mul]
    rw [Finset.sum_comm]
    refine Finset.sum_congr rfl fun k _ => Finset.sum_congr rfl fun i _ => ?_
    ring
  have e2 : ∑ i, ∑ j, a i j * pderiv i (pderiv j (aeval g f)) =
      aeval g (∑ k, ∑ l, a' k l * pderiv k (pderiv l f)) := by
    simp only [d2, map_sum, map_mul, ← h.diff, Finset.mul_sum, Finset.sum_mul]
    have : ∀ F : σ → σ → τ → τ → MvPolynomial σ ℝ, ∑ i, ∑ j, ∑ k, ∑ l, F i j k l = ∑ k, ∑ l, ∑ i, ∑ j, F i j k l := by
      intro F
      calc ∑ i, ∑ j, ∑ k, ∑ l, F i j k l = ∑ i, ∑ k, ∑ j, ∑ l, F i j k l :=
            Finset.sum_congr rfl fun i _ => Finset.sum_comm
        _ = ∑ k, ∑ i, ∑ j, ∑ l, F i j k l := Finset.sum_comm
        _ = ∑ k, ∑ i, ∑ l, ∑ j, F i j k l :=
            Finset.sum_congr rfl fun k _ => Finset.sum_congr rfl fun i _ => Finset.sum_comm
        _ = _ := Finset.sum_congr rfl fun k _ => Finset.sum_comm
    rw [this]
    refine Finset.sum_congr rfl fun k _ => Finset.sum_congr rfl fun l _ => Finset.sum_congr rfl fun i _ =>
      Finset.sum_congr rfl fun j _ => ?_
    ring
  have hmeas : Measurable fun (y : σ → ℝ) (k : τ) => ∑ i, c k i * y i := by fun_prop
  have e3 : Gen.jump ν hν (aeval g f) = aeval g (Gen.jump ν' hν' f) := by
    refine MvPolynomial.funext fun x => ?_
    rw [eval_jump, eval_aeval, eval_jump]
    obtain ⟨_, hsh, _, _, hj⟩ := h
    subst hj
    rw [integral_map hmeas.aemeasurable]
    · refine integral_congr_ae (Filter.Eventually.of_forall fun y => ?_)
      simp only [eval_aeval, hsh]
      rfl
    · exact (jump_int _ hν' f _).aestronglyMeasurable
  rw [op_apply, op_apply, e1, e2, e3]
  simp only [map_add, map_sub, map_smul]

theorem dynkin_image {g : τ → MvPolynomial σ ℝ} {c : τ → σ → ℝ} {b : σ → MvPolynomial σ ℝ}
    {a : σ → σ → MvPolynomial σ ℝ} {b' : τ → MvPolynomial τ ℝ}
    {a' : τ → τ → MvPolynomial τ ℝ} {S : JumpDiff σ} {T : JumpDiff τ} (h : Image g c b a S.ν b' a' T.ν)
    (hS : PolyCoef S b a) (hT : PolyCoef T b' a') (hl : S.lam = T.lam)
    (hν : Mom S.ν) (hν' : Mom T.ν) {E0 : MvPolynomial σ ℝ →ₗ[ℝ] ℝ} {E : ℝ → MvPolynomial σ ℝ →ₗ[ℝ] ℝ}
    (hE : S.Dynkin E0 E) :
    T.Dynkin (E0 ∘ₗ (aeval g).toLinearMap) fun t => E t ∘ₗ (aeval g).toLinearMap := by
  obtain ⟨s, i⟩ := dynkin_sol hS hν hE
  have hs : Sol (op b' a' T.lam T.ν hν') fun t => E t ∘ₗ (aeval g).toLinearMap := by
    intro f t ht
    refine (s (aeval g f) t ht).congr_deriv ?_
    rw [op_image h S.lam hν hν', hl]
    rfl
  have := dynkin_of_sol hT hν' hs
  rwa [i] at this

end Ajd.Gen
