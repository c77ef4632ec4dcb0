import Verif.Lemmas.Gen
import Mathlib.Algebra.MvPolynomial.Rename
import Mathlib.Topology.Algebra.MvPolynomial
import Verif.Lemmas.CppDyn

section -- GenProd

/-! Two independent processes. -/

namespace Ajd.Gen
open MvPolynomial MeasureTheory Dyn

variable {σ τ : Type} [Fintype σ] [Fintype τ]

noncomputable abbrev il : MvPolynomial σ ℝ →ₐ[ℝ] MvPolynomial (σ ⊕ τ) ℝ := rename Sum.inl
noncomputable abbrev ir : MvPolynomial τ ℝ →ₐ[ℝ] MvPolynomial (σ ⊕ τ) ℝ := rename Sum.inr

/-- a monomial in both processes -/
theorem mono_split (s : (σ ⊕ τ) →₀ ℕ) : ∃ (a : σ →₀ ℕ) (b : τ →₀ ℕ),
    s = a.mapDomain Sum.inl + b.mapDomain Sum.inr := by
  refine ⟨s.comapDomain Sum.inl Sum.inl_injective.injOn, s.comapDomain Sum.inr Sum.inr_injective.injOn, ?_⟩
  ext i
  rw [Finsupp.add_apply]
  cases i with
  | inl i =>
    rw [Finsupp.mapDomain_apply Sum.inl_injective, Finsupp.mapDomain_notin_range _ _ (by simp)]
    simp
  | inr i =>
    rw [Finsupp.mapDomain_apply Sum.inr_injective, Finsupp.mapDomain_notin_range _ _ (by simp)]
    simp

theorem prod_span (h : MvPolynomial (σ ⊕ τ) ℝ) :
    h ∈ Submodule.span ℝ {q | ∃ f g, q = il (τ := τ) f * ir (σ := σ) g} := by
  rw [h.as_sum]
  refine Submodule.sum_mem _ fun s _ => ?_
  obtain ⟨a, b, rfl⟩ := mono_split s
  generalize coeff _ h = c
  refine Submodule.subset_span ⟨monomial a c, monomial b 1, ?_⟩
  rw [il, ir, rename_monomial, rename_monomial, monomial_mul, mul_one]

/-- the joint expectation of independent variables -/
noncomputable def tens (L : MvPolynomial σ ℝ →ₗ[ℝ] ℝ) (L' : MvPolynomial τ ℝ →ₗ[ℝ] ℝ) :
    MvPolynomial (σ ⊕ τ) ℝ →ₗ[ℝ] ℝ :=
  (basisMonomials (σ ⊕ τ) ℝ).constr ℝ fun s =>
    L (monomial (s.comapDomain Sum.inl Sum.inl_injective.injOn) 1) *
      L' (monomial (s.comapDomain Sum.inr Sum.inr_injective.injOn) 1)

theorem tens_mul (L : MvPolynomial σ ℝ →ₗ[ℝ] ℝ) (L' : MvPolynomial τ ℝ →ₗ[ℝ] ℝ) (f : MvPolynomial σ ℝ)
    (g : MvPolynomial τ ℝ) : tens L L' (il f * ir g) = L f * L' g := by
  have hmono : ∀ a b, tens L L' (il (monomial a 1) * ir (monomial b 1)) = L (monomial a 1) * L' (monomial b 1) := by
    intro a b
    rw [il, ir, rename_monomial, rename_monomial, monomial_mul, mul_one]
    have := (basisMonomials (σ ⊕ τ) ℝ).constr_basis ℝ (fun s =>
      L (monomial (s.comapDomain Sum.inl Sum.inl_injective.injOn) 1) *
        L' (monomial (s.comapDomain Sum.inr Sum.inr_injective.injOn) 1)) (a.mapDomain Sum.inl + b.mapDomain Sum.inr)
    rw [coe_basisMonomials] at this
    refine this.trans ?_
    congr 3
    · congr 1
      ext i
      rw [Finsupp.comapDomain_apply, Finsupp.add_apply, Finsupp.mapDomain_apply Sum.inl_injective,
        Finsupp.mapDomain_notin_range _ _ (by simp), add_zero]
    · congr 1
      ext i
      rw [Finsupp.comapDomain_apply, Finsupp.add_apply, Finsupp.mapDomain_apply Sum.inr_injective,
        Finsupp.mapDomain_notin_range _ _ (by simp), zero_add]
  have h1 : ∀ b, tens L L' ∘ₗ LinearMap.mulRight ℝ (ir (monomial b 1)) ∘ₗ il.toLinearMap =
      L' (monomial b 1) • L := by
    intro b
    refine (basisMonomials σ ℝ).ext fun a => ?_
    rw [coe_basisMonomials]
    exact (hmono a b).trans (mul_comm _ _)
  have h2 : tens L L' ∘ₗ LinearMap.mulLeft ℝ (il f) ∘ₗ ir.toLinearMap = L f • L' := by
    refine (basisMonomials τ ℝ).ext fun b => ?_
    rw [coe_basisMonomials]
    have := congrArg (fun M : MvPolynomial σ ℝ →ₗ[ℝ] ℝ => M f) (h1 b)
    exact this.trans (mul_comm _ _)
  exact congrArg (fun M : MvPolynomial τ ℝ →ₗ[ℝ] ℝ => M g) h2

theorem tens_unique {L : MvPolynomial σ ℝ →ₗ[ℝ] ℝ} {L' : MvPolynomial τ ℝ →ₗ[ℝ] ℝ}
    {K : MvPolynomial (σ ⊕ τ) ℝ →ₗ[ℝ] ℝ} (h : ∀ f g, K (il f * ir g) = L f * L' g) : K = tens L L' := by
  refine LinearMap.ext fun q => ?_
  induction prod_span q using Submodule.span_induction with
  | mem x hx =>
    obtain ⟨f, g, rfl⟩ := hx
    rw [h, tens_mul]
  | zero => simp
  | add x y _ _ hx hy => rw [map_add, map_add, hx, hy]
  | smul a x _ hx => rw [map_smul, map_smul, hx]

theorem tens_sol {A : MvPolynomial σ ℝ →ₗ[ℝ] MvPolynomial σ ℝ} {B : MvPolynomial τ ℝ →ₗ[ℝ] MvPolynomial τ ℝ}
    {D : MvPolynomial (σ ⊕ τ) ℝ →ₗ[ℝ] MvPolynomial (σ ⊕ τ) ℝ}
    (hD : ∀ f g, D (il f * ir g) = il (A f) * ir g + il f * ir (B g))
    {L : ℝ → MvPolynomial σ ℝ →ₗ[ℝ] ℝ} {L' : ℝ → MvPolynomial τ ℝ →ₗ[ℝ] ℝ} (h : Sol A L) (h' : Sol B L') :
    Sol D fun t => tens (L t) (L' t) := by
  intro q t ht
  induction prod_span q using Submodule.span_induction with
  | mem x hx =>
    obtain ⟨f, g, rfl⟩ := hx
    rw [hD, map_add, tens_mul, tens_mul]
    simp only [tens_mul]
    exact (h f t ht).mul (h' g t ht)
  | zero => simpa using hasDerivWithinAt_const t (Set.Ici 0) (0 : ℝ)
  | add x y _ _ hx hy => 
    simp only [map_add]
    exact hx.add hy
  | smul a x _ hx => simpa only [map_smul, smul_eq_mul] using hx.const_mul a

/-- two independent processes, the first without jumps -/
noncomputable def prod (S : JumpDiff σ) (T : JumpDiff τ) : JumpDiff (σ ⊕ τ) where
  b x := Sum.elim (S.b (x ∘ Sum.inl)) (T.b (x ∘ Sum.inr))
  a x := Sum.elim (fun i => Sum.elim (S.a (x ∘ Sum.inl) i) 0) (fun i => Sum.elim 0 (T.a (x ∘ Sum.inr) i))
  lam := T.lam
  ν := T.ν.map fun y => Sum.elim 0 y

noncomputable def prodB (b : σ → MvPolynomial σ ℝ) (b' : τ → MvPolynomial τ ℝ) : σ ⊕ τ → MvPolynomial (σ ⊕ τ) ℝ :=
  Sum.elim (fun i => il (b i)) (fun i => ir (b' i))

noncomputable def prodA (a : σ → σ → MvPolynomial σ ℝ) (a' : τ → τ → MvPolynomial τ ℝ) :
    σ ⊕ τ → σ ⊕ τ → MvPolynomial (σ ⊕ τ) ℝ :=
  Sum.elim (fun i => Sum.elim (fun j => il (a i j)) 0) (fun i => Sum.elim 0 (fun j => ir (a' i j)))

theorem meas_inr : Measurable fun y : τ → ℝ => (Sum.elim 0 y : σ ⊕ τ → ℝ) := by
  refine measurable_pi_lambda _ fun i => ?_
  cases i with
  | inl i => exact measurable_const
  | inr i => exact measurable_pi_apply i

theorem prod_coef {S : JumpDiff σ} {T : JumpDiff τ} {b : σ → MvPolynomial σ ℝ} {a : σ → σ → MvPolynomial σ ℝ}
    {b' : τ → MvPolynomial τ ℝ} {a' : τ → τ → MvPolynomial τ ℝ} (hS : PolyCoef S b a) (hT : PolyCoef T b' a') :
    PolyCoef (prod S T) (prodB b b') (prodA a a') where
  prob := by
    have := hT.prob
    exact Measure.isProbabilityMeasure_map meas_inr.aemeasurable
  hb x i := by
    cases i with
    | inl i => simp [prodB, prod, eval_rename, hS.hb]
    | inr i => simp [prodB, prod, eval_rename, hT.hb]
  ha x i j := by
    cases i <;> cases j <;> simp [prodA, prod, eval_rename, hS.ha, hT.ha]
  db i := by
    cases i with
    | inl i => exact (totalDegree_rename_le _ _).trans (hS.db i)
    | inr i => exact (totalDegree_rename_le _ _).trans (hT.db i)
  da i j := by
    cases i <;> cases j
    · exact (totalDegree_rename_le _ _).trans (hS.da _ _)
    · simp [prodA]
    · simp [prodA]
    · exact (totalDegree_rename_le _ _).trans (hT.da _ _)

theorem eval_inr (f : MvPolynomial (σ ⊕ τ) ℝ) (y : τ → ℝ) : eval (Sum.elim 0 y) f =
    eval y (aeval (Sum.elim 0 X : σ ⊕ τ → MvPolynomial τ ℝ) f) := by
  induction f using MvPolynomial.induction_on with
  | C a => simp
  | add p q hp hq => simp only [map_add, hp, hq]
  | mul_X p i hp =>
    simp only [map_mul, hp, eval_X, aeval_X]
    cases i <;> simp

theorem prod_mom (S : JumpDiff σ) {T : JumpDiff τ} (h : Mom T.ν) : Mom (prod S T).ν := by
  intro f
  show Integrable _ (T.ν.map fun y => (Sum.elim 0 y : σ ⊕ τ → ℝ))
  have hm : Measurable fun y : σ ⊕ τ → ℝ => eval y f := (MvPolynomial.continuous_eval f).measurable
  rw [integrable_map_measure hm.aestronglyMeasurable meas_inr.aemeasurable]
  refine (h (aeval (Sum.elim 0 X : σ ⊕ τ → MvPolynomial τ ℝ) f)).congr (Filter.Eventually.of_forall fun y => ?_)
  exact (eval_inr f y).symm

theorem prod_op {S : JumpDiff σ} {T : JumpDiff τ} {b : σ → MvPolynomial σ ℝ} {a : σ → σ → MvPolynomial σ ℝ}
    {b' : τ → MvPolynomial τ ℝ} {a' : τ → τ → MvPolynomial τ ℝ} (hν : Mom S.ν) (hν' : Mom T.ν) (hl : S.lam = 0)
    (f : MvPolynomial σ ℝ) (g : MvPolynomial τ ℝ) :
    op (prodB b b') (prodA a a') (prod S T).lam (prod S T).ν (prod_mom S hν') (il f * ir g) =
      il (op b a S.lam S.ν hν f) * ir g + il f * ir (op b' a' T.lam T.ν hν' g) := by
  have dl : ∀ (i : σ) (f : MvPolynomial σ ℝ) (g : MvPolynomial τ ℝ),
      pderiv (Sum.inl i) (il f * ir g) = il (pderiv i f) * ir (σ := σ) g := by
    intro i f g
    have h0 : pderiv (R := ℝ) (Sum.inl i : σ ⊕ τ) (ir g) = 0 := by
      classical
      refine pderiv_eq_zero_of_notMem_vars fun hm => ?_
      have := vars_rename (Sum.inr : τ → σ ⊕ τ) g hm
      simp at this
    rw [pderiv_mul, h0, mul_zero, add_zero, pderiv_rename Sum.inl_injective]
  have dr : ∀ (i : τ) (f : MvPolynomial σ ℝ) (g : MvPolynomial τ ℝ),
      pderiv (Sum.inr i) (il f * ir g) = il (τ := τ) f * ir (pderiv i g) := by
    intro i f g
    have h0 : pderiv (R := ℝ) (Sum.inr i : σ ⊕ τ) (il f) = 0 := by
      classical
      refine pderiv_eq_zero_of_notMem_vars fun hm => ?_
      have := vars_rename (Sum.inl : σ → σ ⊕ τ) f hm
      simp at this
    rw [pderiv_mul, h0, zero_mul, zero_add, pderiv_rename Sum.inr_injective]
  have hj : jump (prod S T).ν (prod_mom S hν') (il f * ir g) = il f * ir (jump T.ν hν' g) := by
    refine MvPolynomial.funext fun x => ?_
    rw [eval_jump, map_mul, il, ir, eval_rename, eval_rename, eval_jump, ← integral_const_mul]
    have hm : Measurable fun y : σ ⊕ τ → ℝ => eval (x + y) (il f * ir g) :=
      ((MvPolynomial.continuous_eval _).comp (continuous_const.add continuous_id)).measurable
    refine (integral_map meas_inr.aemeasurable hm.aestronglyMeasurable).trans ?_
    refine integral_congr_ae (Filter.Eventually.of_forall fun y => ?_)
    simp only [map_mul, il, ir, eval_rename]
    congr 1
    · congr 2
      funext i
      simp
  rw [op_apply, op_apply, op_apply, hj, hl, zero_smul, add_zero]
  simp only [Fintype.sum_sum_type, prodB, prodA, Sum.elim_inl, Sum.elim_inr, dl, dr, Pi.zero_apply, zero_mul,
    Finset.sum_const_zero, add_zero, zero_add, map_add, map_sum, map_mul, map_smul, map_sub, add_mul, mul_add,
    Finset.sum_mul, Finset.mul_sum, smul_add, smul_mul_assoc, mul_smul_comm, mul_sub, smul_sub]
  have r1 : ∀ i, il (b i) * (il (pderiv i f) * ir g) = il (τ := τ) (b i) * il (pderiv i f) * ir g := fun i => by ring
  have r2 : ∀ i, ir (b' i) * (il f * ir (pderiv i g)) = il f * (ir (σ := σ) (b' i) * ir (pderiv i g)) := fun i => by ring
  have r3 : ∀ i j, il (a i j) * (il (pderiv i (pderiv j f)) * ir g) =
      il (τ := τ) (a i j) * il (pderiv i (pderiv j f)) * ir g := fun i j => by ring
  have r4 : ∀ i j, ir (a' i j) * (il f * ir (pderiv i (pderiv j g))) =
      il f * (ir (σ := σ) (a' i j) * ir (pderiv i (pderiv j g))) := fun i j => by ring
  simp only [r1, r2, r3, r4, prod]
  abel

theorem dynkin_prod {S : JumpDiff σ} {T : JumpDiff τ} {b : σ → MvPolynomial σ ℝ} {a : σ → σ → MvPolynomial σ ℝ}
    {b' : τ → MvPolynomial τ ℝ} {a' : τ → τ → MvPolynomial τ ℝ} (hS : PolyCoef S b a) (hT : PolyCoef T b' a')
    (hν : Mom S.ν) (hν' : Mom T.ν) (hl : S.lam = 0) {E0 : MvPolynomial σ ℝ →ₗ[ℝ] ℝ}
    {E : ℝ → MvPolynomial σ ℝ →ₗ[ℝ] ℝ} (hE : S.Dynkin E0 E) {F0 : MvPolynomial τ ℝ →ₗ[ℝ] ℝ}
    {F : ℝ → MvPolynomial τ ℝ →ₗ[ℝ] ℝ} (hF : T.Dynkin F0 F) :
    (prod S T).Dynkin (tens E0 F0) fun t => tens (E t) (F t) := by
  obtain ⟨s, i⟩ := dynkin_sol hS hν hE
  obtain ⟨s', i'⟩ := dynkin_sol hT hν' hF
  have := dynkin_of_sol (prod_coef hS hT) (prod_mom S hν') (tens_sol (prod_op hν hν' hl) s s')
  rwa [i, i'] at this

end Ajd.Gen

end -- GenProd

section -- GenJump

/-! A diffusion with an independent compound Poisson process added to one coordinate. -/

namespace Ajd.Gen
open MvPolynomial MeasureTheory ProbabilityTheory Dyn
open scoped NNReal

variable {σ : Type} [Fintype σ] [DecidableEq σ] (S : JumpDiff σ) (r : σ) (lam μ : ℝ) (v : ℝ≥0)

/-- `S` with jumps in the coordinate `r` -/
noncomputable def jmp : JumpDiff σ where
  b := S.b
  a := S.a
  lam := lam
  ν := (gaussianReal μ v).map fun y => Pi.single r y

theorem meas_single : Measurable fun y : ℝ => (Pi.single r y : σ → ℝ) := by
  refine measurable_pi_lambda _ fun i => ?_
  by_cases h : i = r
  · subst h; simp only [Pi.single_eq_same]; exact measurable_id
  · simp only [Pi.single_eq_of_ne h]; exact measurable_const

variable {S}

theorem jmp_coef {b : σ → MvPolynomial σ ℝ} {a : σ → σ → MvPolynomial σ ℝ} (h : PolyCoef S b a) :
    PolyCoef (jmp S r lam μ v) b a where
  prob := Measure.isProbabilityMeasure_map (meas_single r).aemeasurable
  hb := h.hb
  ha := h.ha
  db := h.db
  da := h.da

variable (S)

theorem jmp_mom : Mom (jmp S r lam μ v).ν := by
  intro f
  have hm : Measurable fun y : σ → ℝ => eval y f := (MvPolynomial.continuous_eval f).measurable
  rw [jmp, integrable_map_measure hm.aestronglyMeasurable (meas_single r).aemeasurable]
  have h := CppDyn.int_of_pow (CppDyn.gauss_pow μ v) (aeval (Pi.single r (X 0)) f)
  refine h.congr (Filter.Eventually.of_forall fun y => ?_)
  dsimp only [Function.comp_apply]
  rw [eval_aeval]
  refine congrArg (fun x => eval x f) (funext fun i => ?_)
  by_cases hi : i = r
  · subst hi; simp
  · simp [Pi.single_eq_of_ne hi]

/-- the two processes as one -/
noncomputable def gJ : σ → MvPolynomial (σ ⊕ Fin 1) ℝ := fun k =>
  X (Sum.inl k) + if k = r then X (Sum.inr 0) else 0

noncomputable def cJ : σ → σ ⊕ Fin 1 → ℝ := fun k =>
  Sum.elim (fun i => if i = k then 1 else 0) fun _ => if k = r then 1 else 0

/-- expectation over the sum of the jumps -/
theorem tens_cpp (L : MvPolynomial σ ℝ →ₗ[ℝ] ℝ) (Λ : ℝ≥0) (h : MvPolynomial (σ ⊕ Fin 1) ℝ) :
    Integrable (fun z => L (aeval (Sum.elim X fun _ => C z) h)) (Cpp.cppLaw Λ (gaussianReal μ v)) ∧
    tens L (CppDyn.E μ v Λ) h = ∫ z, L (aeval (Sum.elim X fun _ => C z) h) ∂(Cpp.cppLaw Λ (gaussianReal μ v)) := by
  refine Submodule.span_induction (p := fun h _ =>
    Integrable (fun z => L (aeval (Sum.elim X fun _ => C z) h)) (Cpp.cppLaw Λ (gaussianReal μ v)) ∧
    tens L (CppDyn.E μ v Λ) h = ∫ z, L (aeval (Sum.elim X fun _ => C z) h) ∂(Cpp.cppLaw Λ (gaussianReal μ v)))
    ?_ ?_ ?_ ?_ (prod_span h)
  · rintro _ ⟨f, g, rfl⟩
    have e : ∀ z : ℝ, L (aeval (Sum.elim X fun _ => C z) (il f * ir g)) = L f * eval (fun _ => z) g := by
      intro z
      rw [map_mul, aeval_rename, aeval_rename]
      have h1 : aeval ((Sum.elim X fun _ => C z : σ ⊕ Fin 1 → MvPolynomial σ ℝ) ∘ Sum.inl) f = f := by
        rw [Sum.elim_comp_inl, aeval_X_left]; rfl
      have h2 : aeval ((Sum.elim X fun _ => C z : σ ⊕ Fin 1 → MvPolynomial σ ℝ) ∘ Sum.inr) g =
          C (eval (fun _ => z) g) := by
        rw [Sum.elim_comp_inr]
        induction g using MvPolynomial.induction_on with
        | C a => simp [algebraMap_eq]
        | add p q hp hq => simp only [map_add, hp, hq]
        | mul_X p i hp => simp only [map_mul, hp, aeval_X, eval_X]
      rw [h1, h2, mul_comm, ← smul_eq_C_mul, map_smul, smul_eq_mul, mul_comm]
    simp only [e]
    refine ⟨(CppDyn.int_of_pow (Cpp.cpp_integrable_pow Λ μ v) g).const_mul _, ?_⟩
    rw [tens_mul, integral_const_mul]
    rfl
  · simp
  · intro x y _ _ hx hy
    simp only [map_add]
    exact ⟨hx.1.add hy.1, by rw [hx.2, hy.2, integral_add hx.1 hy.1]⟩
  · intro c x _ hx
    simp only [map_smul]
    exact ⟨hx.1.smul c, by rw [hx.2, integral_smul]⟩

/-- The process with jumps: given the sum `z` of the jumps, the process without jumps is shifted by `z`. -/
theorem jmp_repr {b : σ → MvPolynomial σ ℝ} {a : σ → σ → MvPolynomial σ ℝ} (hS : PolyCoef S b a) (hν : Mom S.ν)
    (hl : S.lam = 0) (hb : ∀ k, aeval (gJ r) (b k) = rename Sum.inl (b k))
    (ha : ∀ k l, aeval (gJ r) (a k l) = rename Sum.inl (a k l)) (hlam : 0 ≤ lam)
    {E0 : MvPolynomial σ ℝ →ₗ[ℝ] ℝ} {E F : ℝ → MvPolynomial σ ℝ →ₗ[ℝ] ℝ} (hE : S.Dynkin E0 E)
    (hF : (jmp S r lam μ v).Dynkin E0 F) (t : ℝ) (ht : 0 ≤ t) (f : MvPolynomial σ ℝ) :
    F t f = ∫ z, E t (aeval (fun k => X k + if k = r then C z else 0) f)
      ∂(Cpp.cppLaw (lam * t).toNNReal (gaussianReal μ v)) := by
  have hC := CppDyn.sys_coef μ v lam
  have hM := CppDyn.sys_mom μ v lam
  have hd := dynkin_prod hS hC hν hM hl hE (CppDyn.dynkin μ v lam hlam)
  have him : Image (gJ r) (cJ r) (prodB b 0) (prodA a 0) (prod S (CppDyn.sys μ v lam)).ν b a (jmp S r lam μ v).ν := by
    refine ⟨?_, ?_, ?_, ?_, ?_⟩
    · rintro k (i | i)
      · have : pderiv (Sum.inl i) (if k = r then X (Sum.inr 0) else 0 : MvPolynomial (σ ⊕ Fin 1) ℝ) = 0 := by
          split <;> simp [pderiv_X, Pi.single_apply]
        rw [gJ, map_add, this, add_zero, pderiv_X, cJ]
        by_cases hi : i = k
        · subst hi; simp
        · simp [hi, Pi.single_apply, Ne.symm hi]
      · by_cases hk : k = r <;> simp [gJ, cJ, pderiv_X, hk, Pi.single_apply]
        fin_cases i
        simp
    · intro k x y
      by_cases hk : k = r <;> simp [gJ, cJ, hk]
      ring
    · intro k
      rw [hb]
      simp [prodB, cJ]
    · intro k l
      rw [ha]
      simp [prodA, cJ]
    · rw [jmp, prod, CppDyn.sys, Measure.map_map meas_inr (by fun_prop), Measure.map_map (by fun_prop)
        (meas_inr.comp (by fun_prop))]
      refine congrArg (fun g => (gaussianReal μ v).map g) (funext fun y => funext fun k => ?_)
      by_cases hk : k = r <;> simp [cJ, hk]
  have hd2 := dynkin_image him (prod_coef hS hC) (jmp_coef r lam μ v hS) rfl (prod_mom S hM) (jmp_mom S r lam μ v) hd
  have h0 : tens E0 (CppDyn.E μ v 0) ∘ₗ (aeval (gJ r)).toLinearMap = E0 := by
    have he : CppDyn.E μ v 0 = (aeval (0 : Fin 1 → ℝ)).toLinearMap := CppDyn.E_zero μ v
    have ht : tens E0 (CppDyn.E μ v 0) =
        E0 ∘ₗ (aeval (Sum.elim X 0 : σ ⊕ Fin 1 → MvPolynomial σ ℝ)).toLinearMap := by
      refine (tens_unique fun f g => ?_).symm
      rw [he, LinearMap.comp_apply, AlgHom.toLinearMap_apply, map_mul, aeval_rename, aeval_rename, Sum.elim_comp_inl,
        Sum.elim_comp_inr, aeval_X_left, AlgHom.toLinearMap_apply]
      have : aeval (0 : Fin 1 → MvPolynomial σ ℝ) g = C (aeval (0 : Fin 1 → ℝ) g) := by
        induction g using MvPolynomial.induction_on with
        | C a => simp [algebraMap_eq]
        | add p q hp hq => simp only [map_add, hp, hq]
        | mul_X p i hp => simp
      rw [this, mul_comm, ← smul_eq_C_mul, map_smul, smul_eq_mul, mul_comm]
      rfl
    rw [ht]
    refine LinearMap.ext fun f => congrArg E0 ?_
    have : (aeval (Sum.elim X 0 : σ ⊕ Fin 1 → MvPolynomial σ ℝ)).comp (aeval (gJ r)) = AlgHom.id ℝ _ := by
      refine MvPolynomial.algHom_ext fun k => ?_
      by_cases hk : k = r <;> simp [gJ, hk]
    exact DFunLike.congr_fun this f
  rw [h0] at hd2
  rw [dynkin_unique (jmp_coef r lam μ v hS) (jmp_mom S r lam μ v) hF hd2 t ht, LinearMap.comp_apply,
    AlgHom.toLinearMap_apply, (tens_cpp μ v (E t) _ _).2]
  refine integral_congr_ae (Filter.Eventually.of_forall fun z => ?_)
  dsimp only
  refine congrArg (E t) ?_
  have : (aeval (Sum.elim X fun _ => C z : σ ⊕ Fin 1 → MvPolynomial σ ℝ)).comp (aeval (gJ r)) =
      aeval (fun k => X k + if k = r then C z else 0) := by
    refine MvPolynomial.algHom_ext fun k => ?_
    by_cases hk : k = r <;> simp [gJ, hk]
  exact DFunLike.congr_fun this f

end Ajd.Gen

end -- GenJump
