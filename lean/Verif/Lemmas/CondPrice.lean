import Verif.Lemmas.GenAt
import Verif.Lemmas.GenJump
import Verif.Lemmas.CondRepr
import Verif.Lemmas.Svcj2Sum

section -- GenJumpAt

/-! A process with jumps of known size at fixed times, and an independent process added to one coordinate. -/

namespace Ajd.Gen
open MvPolynomial MeasureTheory ProbabilityTheory Dyn Filter Topology
open scoped NNReal

variable {σ : Type} [Fintype σ] [DecidableEq σ] {N : ℕ}

/-- a process without fixed jumps is one with jumps 0 -/
theorem Dyn_sol_at {P : Type} [AddCommGroup P] [Module ℝ P] {A : P →ₗ[ℝ] P} {L : ℝ → P →ₗ[ℝ] ℝ} (h : Sol A L) :
    SolAt A (fun _ => LinearMap.id) L where
  deriv f t ht := (h f t ht).mono (Set.Ici_subset_Ici.2 ht)
  left t ht := by
    refine ⟨L t, fun f => ?_, rfl⟩
    have := (h f t ht.le).continuousWithinAt
    exact this.mono_left (nhdsWithin_le_of_mem (mem_nhdsWithin_of_mem_nhds (Ici_mem_nhds ht)))

theorem tens_solAt {τ : Type} [Fintype τ] {A : MvPolynomial σ ℝ →ₗ[ℝ] MvPolynomial σ ℝ}
    {B : MvPolynomial τ ℝ →ₗ[ℝ] MvPolynomial τ ℝ}
    {D : MvPolynomial (σ ⊕ τ) ℝ →ₗ[ℝ] MvPolynomial (σ ⊕ τ) ℝ}
    (hD : ∀ f g, D (il f * ir g) = il (A f) * ir g + il f * ir (B g))
    {K : ℝ → MvPolynomial σ ℝ →ₗ[ℝ] MvPolynomial σ ℝ} {K' : ℝ → MvPolynomial τ ℝ →ₗ[ℝ] MvPolynomial τ ℝ}
    {M : ℝ → MvPolynomial (σ ⊕ τ) ℝ →ₗ[ℝ] MvPolynomial (σ ⊕ τ) ℝ}
    (hM : ∀ t f g, M t (il f * ir g) = il (K t f) * ir (K' t g))
    {L : ℝ → MvPolynomial σ ℝ →ₗ[ℝ] ℝ} {L' : ℝ → MvPolynomial τ ℝ →ₗ[ℝ] ℝ} (h : SolAt A K L) (h' : SolAt B K' L') :
    SolAt D M fun t => tens (L t) (L' t) where
  deriv q t ht := by
    induction prod_span q using Submodule.span_induction with
    | mem x hx =>
      obtain ⟨f, g, rfl⟩ := hx
      rw [hD, map_add, tens_mul, tens_mul]
      simp only [tens_mul]
      exact (h.deriv f t ht).mul (h'.deriv g t ht)
    | zero => simpa using hasDerivWithinAt_const t (Set.Ici t) (0 : ℝ)
    | add x y _ _ hx hy =>
      simp only [map_add]
      exact hx.add hy
    | smul a x _ hx => simpa only [map_smul, smul_eq_mul] using hx.const_mul a
  left t ht := by
    obtain ⟨Q, hQ, e⟩ := h.left t ht
    obtain ⟨Q', hQ', e'⟩ := h'.left t ht
    refine ⟨tens Q Q', fun q => ?_, ?_⟩
    · induction prod_span q using Submodule.span_induction with
      | mem x hx =>
        obtain ⟨f, g, rfl⟩ := hx
        simp only [tens_mul]
        exact (hQ f).mul (hQ' g)
      | zero => simp
      | add x y _ _ hx hy =>
        simp only [map_add]
        exact hx.add hy
      | smul a x _ hx => simpa only [map_smul, smul_eq_mul] using hx.const_mul a
    · refine (tens_unique fun f g => ?_).symm
      rw [LinearMap.comp_apply, hM, tens_mul, e, e', LinearMap.comp_apply, LinearMap.comp_apply]

theorem meas_elim {τ : Type} [Fintype τ] (u : σ → ℝ) : Measurable fun y : τ → ℝ => (Sum.elim u y : σ ⊕ τ → ℝ) := by
  refine measurable_pi_lambda _ fun i => ?_
  cases i with
  | inl i => exact measurable_const
  | inr i => exact measurable_pi_apply i

theorem dirac_mom (u : σ → ℝ) : Mom (Measure.dirac u) := fun f => integrable_dirac (by simp)

theorem eval_elim {τ : Type} [Fintype τ] (u : σ → ℝ) (f : MvPolynomial (σ ⊕ τ) ℝ) (y : τ → ℝ) :
    eval (Sum.elim u y) f = eval y (aeval (Sum.elim (fun i => C (u i)) X : σ ⊕ τ → MvPolynomial τ ℝ) f) := by
  rw [eval_aeval]
  refine congrArg (fun x => eval x f) (funext fun i => ?_)
  cases i <;> simp

theorem elim_mom {τ : Type} [Fintype τ] (u : σ → ℝ) {η : Measure (τ → ℝ)} (h : Mom η) :
    Mom (η.map fun y => (Sum.elim u y : σ ⊕ τ → ℝ)) := by
  intro f
  have hm : Measurable fun y : σ ⊕ τ → ℝ => eval y f := (MvPolynomial.continuous_eval f).measurable
  rw [integrable_map_measure hm.aestronglyMeasurable (meas_elim u).aemeasurable]
  refine (h (aeval (Sum.elim (fun i => C (u i)) X : σ ⊕ τ → MvPolynomial τ ℝ) f)).congr
    (Filter.Eventually.of_forall fun y => ?_)
  exact (eval_elim u f y).symm

theorem jump_elim {τ : Type} [Fintype τ] (u : σ → ℝ) {η : Measure (τ → ℝ)} (h : Mom η) (f : MvPolynomial σ ℝ)
    (g : MvPolynomial τ ℝ) : jump (η.map fun y => (Sum.elim u y : σ ⊕ τ → ℝ)) (elim_mom u h) (il f * ir g) =
      il (jump (Measure.dirac u) (dirac_mom u) f) * ir (jump η h g) := by
  refine MvPolynomial.funext fun x => ?_
  rw [eval_jump, map_mul, il, ir, eval_rename, eval_rename, eval_jump, eval_jump, integral_dirac,
    ← integral_const_mul]
  have hm : Measurable fun y : σ ⊕ τ → ℝ => eval (x + y) (il f * ir g) :=
    ((MvPolynomial.continuous_eval _).comp (continuous_const.add continuous_id)).measurable
  refine (integral_map (meas_elim u).aemeasurable hm.aestronglyMeasurable).trans ?_
  refine integral_congr_ae (Filter.Eventually.of_forall fun y => ?_)
  simp only [map_mul, il, ir, eval_rename]
  rfl

/-- expectations of polynomials of one variable -/
noncomputable def law (γ : Measure ℝ) (hγ : ∀ n, Integrable (fun x => x ^ n) γ) : MvPolynomial (Fin 1) ℝ →ₗ[ℝ] ℝ where
  toFun f := ∫ x, eval (fun _ => x) f ∂γ
  map_add' f g := by
    have h := CppDyn.int_of_pow hγ
    simp only [map_add]
    rw [integral_add (h f) (h g)]
  map_smul' c f := by
    simp only [smul_eval, RingHom.id_apply, smul_eq_mul]
    rw [integral_const_mul]

theorem dirac_pow (z : ℝ) (n : ℕ) : Integrable (fun x : ℝ => x ^ n) (Measure.dirac z) := integrable_dirac (by simp)

theorem law_dirac : law (Measure.dirac 0) (dirac_pow 0) = (aeval (0 : Fin 1 → ℝ)).toLinearMap := by
  refine LinearMap.ext fun f => ?_
  show ∫ x, eval (fun _ => x) f ∂(Measure.dirac 0) = _
  rw [integral_dirac, AlgHom.toLinearMap_apply, aeval_eq_eval]
  rfl

theorem tens_law (L : MvPolynomial σ ℝ →ₗ[ℝ] ℝ) (γ : Measure ℝ) (hγ : ∀ n, Integrable (fun x => x ^ n) γ)
    (h : MvPolynomial (σ ⊕ Fin 1) ℝ) :
    Integrable (fun z => L (aeval (Sum.elim X fun _ => C z) h)) γ ∧
    tens L (law γ hγ) h = ∫ z, L (aeval (Sum.elim X fun _ => C z) h) ∂γ := by
  refine Submodule.span_induction (p := fun h _ =>
    Integrable (fun z => L (aeval (Sum.elim X fun _ => C z) h)) γ ∧
    tens L (law γ hγ) h = ∫ z, L (aeval (Sum.elim X fun _ => C z) h) ∂γ)
    ?_ ?_ ?_ ?_ (prod_span h)
  · rintro _ ⟨f, g, rfl⟩
    have e : ∀ z : ℝ, L (aeval (Sum.elim X fun _ => C z) (il f * ir g)) = L f * eval (fun _ => z) g := by
      intro z
      rw [map_mul, aeval_rename, aeval_rename]
      have h1 : aeval ((Sum.elim X fun _ => C z : σ ⊕ Fin 1 → MvPolynomial σ ℝ) ∘ Sum.inl) f = f := by
        rw [Sum.elim_comp_inl, aeval_X_left]; rfl
      have h2 : aeval ((Sum.elim X fun _ => C z : σ ⊕ Fin 1 → MvPolynomial σ ℝ) ∘ Sum.inr) g =
          C (eval (fun _ => z) g) := by
        rw [Sum.elim_comp_inr]
        induction g using MvPolynomial.induction_on with
        | C a => simp [algebraMap_eq]
        | add p q hp hq => simp only [map_add, hp, hq]
        | mul_X p i hp => simp only [map_mul, hp, aeval_X, eval_X]
      rw [h1, h2, mul_comm, ← smul_eq_C_mul, map_smul, smul_eq_mul, mul_comm]
    simp only [e]
    refine ⟨(CppDyn.int_of_pow hγ g).const_mul _, ?_⟩
    rw [tens_mul, integral_const_mul]
    rfl
  · simp
  · intro x y _ _ hx hy
    simp only [map_add]
    exact ⟨hx.1.add hy.1, by rw [hx.2, hy.2, integral_add hx.1 hy.1]⟩
  · intro c x _ hx
    simp only [map_smul]
    exact ⟨hx.1.smul c, by rw [hx.2, integral_smul]⟩

variable (S : JumpDiff σ) (r : σ) (lam μ : ℝ) (v : ℝ≥0)

theorem single_mom (u : σ → ℝ) {η : Measure (Fin 1 → ℝ)} (h : Mom η) :
    Mom (η.map fun y => u + Pi.single r (y 0)) := by
  intro f
  have hm : Measurable fun y : σ → ℝ => eval y f := (MvPolynomial.continuous_eval f).measurable
  have hs : Measurable fun y : Fin 1 → ℝ => u + Pi.single r (y 0) :=
    ((meas_single r).comp (measurable_pi_apply 0)).const_add u
  rw [integrable_map_measure hm.aestronglyMeasurable hs.aemeasurable]
  refine (h (aeval (fun i => C (u i) + if i = r then X 0 else 0) f)).congr (Filter.Eventually.of_forall fun y => ?_)
  dsimp only [Function.comp_apply]
  rw [eval_aeval]
  refine congrArg (fun x => eval x f) (funext fun i => ?_)
  by_cases hi : i = r
  · subst hi; simp
  · simp [Pi.single_eq_of_ne hi, hi]

variable {S}

/-- The process with an independent process added to the coordinate `r`: given the value `z` of the latter at the
time `t`, the process without it is shifted by `z`. -/
theorem jmpAt_repr {b : σ → MvPolynomial σ ℝ} {a : σ → σ → MvPolynomial σ ℝ} (hS : PolyCoef S b a) (hν : Mom S.ν)
    (hl : S.lam = 0) (hb : ∀ k, aeval (gJ r) (b k) = rename Sum.inl (b k))
    (ha : ∀ k l, aeval (gJ r) (a k l) = rename Sum.inl (a k l)) {s : Fin N → ℝ} (hs : Times s) (u : Fin N → σ → ℝ)
    {η : Fin N → Measure (Fin 1 → ℝ)} (hη : ∀ i, Mom (η i))
    {E0 : MvPolynomial σ ℝ →ₗ[ℝ] ℝ} {E F : ℝ → MvPolynomial σ ℝ →ₗ[ℝ] ℝ}
    (hE : S.DynkinAt s (fun i => Measure.dirac (u i)) E0 E)
    (hF : (jmp S r lam μ v).DynkinAt s (fun i => (η i).map fun y => u i + Pi.single r (y 0)) E0 F)
    (γ : ℝ → Measure ℝ) (hγ : ∀ t n, Integrable (fun x => x ^ n) (γ t))
    (hγ0 : law (γ 0) (hγ 0) = (aeval (0 : Fin 1 → ℝ)).toLinearMap)
    (hG : SolAt (op 0 0 lam (CppDyn.sys μ v lam).ν (CppDyn.sys_mom μ v lam)) (jat s η hη)
      fun t => law (γ t) (hγ t))
    (t : ℝ) (ht : 0 ≤ t) (f : MvPolynomial σ ℝ) :
    F t f = ∫ z, E t (aeval (fun k => X k + if k = r then C z else 0) f) ∂(γ t) := by
  have hC := CppDyn.sys_coef μ v lam
  have hM := CppDyn.sys_mom μ v lam
  have hκ : ∀ i, Mom (Measure.dirac (u i)) := fun i => dirac_mom (u i)
  have hs1 := dynkinAt_sol hS hν hs hκ hE
  have hmj : ∀ t f g, jat s (fun i => (η i).map fun y => (Sum.elim (u i) y : σ ⊕ Fin 1 → ℝ))
      (fun i => elim_mom (u i) (hη i)) t (il f * ir g) = il (jat s _ hκ t f) * ir (jat s η hη t g) := by
    intro t f g
    by_cases hn : ∃ i, s i = t
    · obtain ⟨i, rfl⟩ := hn
      rw [jat_at hs, jat_at hs, jat_at hs]
      exact jump_elim (u i) (hη i) f g
    · rw [jat_ne _ _ hn, jat_ne _ _ hn, jat_ne _ _ hn]
      rfl
  have hd := sol_between (prod_coef hS hC) (prod_mom S hM) (fun i => elim_mom (u i) (hη i)) hs
    (tens_solAt (prod_op hν hM hl) hmj hs1 hG)
  have him : Image (gJ r) (cJ r) (prodB b 0) (prodA a 0) (prod S (CppDyn.sys μ v lam)).ν b a (jmp S r lam μ v).ν := by
    refine ⟨?_, ?_, ?_, ?_, ?_⟩
    · rintro k (i | i)
      · have : pderiv (Sum.inl i) (if k = r then X (Sum.inr 0) else 0 : MvPolynomial (σ ⊕ Fin 1) ℝ) = 0 := by
          split <;> simp [pderiv_X, Pi.single_apply]
        rw [gJ, map_add, this, add_zero, pderiv_X, cJ]
        by_cases hi : i = k
        · subst hi; simp
        · simp [hi, Pi.single_apply, Ne.symm hi]
      · by_cases hk : k = r <;> simp [gJ, cJ, pderiv_X, hk, Pi.single_apply]
        fin_cases i
        simp
    · intro k x y
      by_cases hk : k = r <;> simp [gJ, cJ, hk]
      ring
    · intro k
      rw [hb]
      simp [prodB, cJ]
    · intro k l
      rw [ha]
      simp [prodA, cJ]
    · rw [jmp, prod, CppDyn.sys, Measure.map_map meas_inr (by fun_prop), Measure.map_map (by fun_prop)
        (meas_inr.comp (by fun_prop))]
      refine congrArg (fun g => (gaussianReal μ v).map g) (funext fun y => funext fun k => ?_)
      by_cases hk : k = r <;> simp [cJ, hk]
  have hκ' : ∀ i, Mom ((η i).map fun y => u i + Pi.single r (y 0)) := fun i => single_mom r (u i) (hη i)
  have hd2 := dynkinAt_image him (prod_coef hS hC) (jmp_coef r lam μ v hS) rfl (prod_mom S hM) (jmp_mom S r lam μ v)
    hs (fun i => elim_mom (u i) (hη i)) hκ' (fun i => by
      rw [Measure.map_map (by fun_prop) (meas_elim (u i))]
      refine congrArg (fun g => (η i).map g) (funext fun y => funext fun k => ?_)
      by_cases hk : k = r <;> simp [cJ, hk]) hd
  have h0 : tens (E 0) (law (γ 0) (hγ 0)) ∘ₗ (aeval (gJ r)).toLinearMap = E0 := by
    refine LinearMap.ext fun f => ?_
    rw [LinearMap.comp_apply, AlgHom.toLinearMap_apply, hγ0, ← law_dirac, (tens_law (E 0) _ _ _).2, integral_dirac,
      hE.start]
    have : (aeval (Sum.elim X fun _ => C 0 : σ ⊕ Fin 1 → MvPolynomial σ ℝ)).comp (aeval (gJ r)) = AlgHom.id ℝ _ := by
      refine MvPolynomial.algHom_ext fun k => ?_
      by_cases hk : k = r <;> simp [gJ, hk]
    exact congrArg E0 (DFunLike.congr_fun this f)
  rw [h0] at hd2
  rw [dynkinAt_unique (jmp_coef r lam μ v hS) hs hκ' (jmp_mom S r lam μ v) hF hd2 t ht, LinearMap.comp_apply,
    AlgHom.toLinearMap_apply, (tens_law (E t) _ _ _).2]
  refine integral_congr_ae (Filter.Eventually.of_forall fun z => ?_)
  dsimp only
  refine congrArg (E t) ?_
  have : (aeval (Sum.elim X fun _ => C z : σ ⊕ Fin 1 → MvPolynomial σ ℝ)).comp (aeval (gJ r)) =
      aeval (fun k => X k + if k = r then C z else 0) := by
    refine MvPolynomial.algHom_ext fun k => ?_
    by_cases hk : k = r <;> simp [gJ, hk]
  exact DFunLike.congr_fun this f

end Ajd.Gen

end -- GenJumpAt

section -- CondPrice

/-! The models with jumps in the price too, given the jumps of the variance. -/

namespace Ajd.Svij
open MvPolynomial MeasureTheory ProbabilityTheory Gen Dyn Filter

theorem jat_zero {N : ℕ} {s : Fin N → ℝ} (hs : Times s) (t : ℝ) :
    jat s (fun _ => Measure.dirac (0 : Fin 1 → ℝ)) (fun _ => dirac_mom 0) t = LinearMap.id := by
  by_cases hn : ∃ i, s i = t
  · obtain ⟨i, rfl⟩ := hn
    rw [jat_at hs]
    refine LinearMap.ext fun f => ?_
    rw [CondJ.jump_dirac]
    have : (aeval (fun i => X i + C ((0 : Fin 1 → ℝ) i)) : MvPolynomial (Fin 1) ℝ →ₐ[ℝ] MvPolynomial (Fin 1) ℝ) =
        AlgHom.id ℝ _ := algHom_ext fun i => by simp
    rw [this]
    rfl
  · exact jat_ne _ _ hn

theorem add_single (u z : ℝ) : ![u, 0] + Pi.single 1 z = ![u, z] := by
  funext i
  fin_cases i <;> simp

theorem meas_add (u : Fin 2 → ℝ) : Measurable fun y : Fin 1 → ℝ => u + Pi.single 1 (y 0) := by
  have := (meas_single (1 : Fin 2)).comp (measurable_pi_apply (0 : Fin 1) : Measurable fun y : Fin 1 → ℝ => y 0)
  exact this.const_add u

theorem shift_eq (z : ℝ) : (fun k : Fin 2 => X k + if k = 1 then C z else 0) =
    (![X 0, X 1 + C z] : Fin 2 → MvPolynomial (Fin 2) ℝ) := by
  funext k
  fin_cases k <;> simp

theorem bY_gJ (k θ μ : ℝ) (l : Fin 2) : aeval (gJ 1) (SvcjI.bY k θ μ l) = rename Sum.inl (SvcjI.bY k θ μ l) := by
  fin_cases l <;> simp [SvcjI.bY, gJ]

theorem aY_gJ (σ ρ : ℝ) (l m : Fin 2) : aeval (gJ 1) (SvcjI.aY σ ρ l m) = rename Sum.inl (SvcjI.aY σ ρ l m) := by
  fin_cases l <;> fin_cases m <;> simp [SvcjI.aY, gJ]

/-- the law given the jumps of the variance, by the integrals and the jumps of the price -/
theorem given_repr (p : Par) (hp : p.toPar.OK) (hl : 0 ≤ p.lam) (hj : p.toPar.Simple)
    {E : ℝ → MvPolynomial (Fin 2) ℝ →ₗ[ℝ] ℝ} (hE : Given p E) :
    ∃ E', Svvj.CondLaw p.toPar E' ∧ ∀ f, E p.h f = expect p E' fun z => aeval ![Svvj.vEnd p.toPar, ret p z] f := by
  have hs : Times (Svvj.jt p.toPar) := hj.times hp.len
  obtain ⟨F, hF⟩ := Svvj.given_exists p.toPar hp.len hj
  obtain ⟨E', hE', hr⟩ := Svvj.given_repr p.toPar hp hj hF
  refine ⟨E', hE', fun f => ?_⟩
  rw [Given, Sv.svj_eq] at hE
  have hG := Dyn_sol_at (dynkin_sol (CppDyn.sys_coef p.μs (p.σs ^ 2).toNNReal p.lam) (CppDyn.sys_mom _ _ _)
    (CppDyn.dynkin p.μs (p.σs ^ 2).toNNReal p.lam hl)).1
  rw [← funext (jat_zero hs)] at hG
  have hE2 : (jmp (Sv.heston p.μ p.k p.θ p.σ p.ρ) 1 p.lam p.μs (p.σs ^ 2).toNNReal).DynkinAt (Svvj.jt p.toPar)
      (fun i => (Measure.dirac (0 : Fin 1 → ℝ)).map fun y => ![p.jumpsize.getD i 0, 0] + Pi.single 1 (y 0))
      (aeval ![p.v0, 0]).toLinearMap E := by
    have : ∀ i : Fin p.jumpsize.length, ((Measure.dirac (0 : Fin 1 → ℝ)).map fun y =>
        ![p.jumpsize.getD i 0, 0] + Pi.single 1 (y 0)) = Measure.dirac ![p.jumpsize.getD i 0, 0] := by
      intro i
      rw [Measure.map_dirac' (meas_add _)]
      simp
    rw [funext this]
    exact hE
  have := jmpAt_repr 1 p.lam p.μs (p.σs ^ 2).toNNReal (Sv.hcoef p.μ p.k p.θ p.σ p.ρ) (Sv.hmom _ _ _ _ _) rfl
    (bY_gJ _ _ _) (aY_gJ _ _) hs (fun i => ![p.jumpsize.getD i 0, 0]) (fun _ => dirac_mom 0) hF hE2
    (fun t => Cpp.cppLaw (p.lam * t).toNNReal (gaussianReal p.μs (p.σs ^ 2).toNNReal))
    (fun t => Cpp.cpp_integrable_pow _ _ _) (by
      have := CppDyn.E_zero p.μs (p.σs ^ 2).toNNReal
      rw [← this]
      simp only [mul_zero, Real.toNNReal_zero]
      rfl) hG p.h hp.h f
  rw [this, expect, jumpLaw]
  refine integral_congr_ae (Eventually.of_forall fun z => ?_)
  dsimp only
  rw [hr, shift_eq, ← AlgHom.comp_apply]
  refine congrArg (fun g : MvPolynomial (Fin 2) ℝ →ₐ[ℝ] Fsv1.Rv => E' (g f)) (algHom_ext fun k => ?_)
  fin_cases k <;> simp [ret, algebraMap_eq]

end Ajd.Svij

namespace Ajd.Svcj
open MvPolynomial MeasureTheory ProbabilityTheory Gen Dyn Filter Topology
open scoped NNReal

section
variable {N : ℕ} (s : Fin N → ℝ) (m : Fin N → ℝ) (v : ℝ≥0)

/-- the law of the sum of the normal jumps up to `t` -/
noncomputable def nrm (A : Finset (Fin N)) : Measure ℝ := gaussianReal (∑ i ∈ A, m i) (∑ _i ∈ A, v)

noncomputable def nlaw (A : Finset (Fin N)) : MvPolynomial (Fin 1) ℝ →ₗ[ℝ] ℝ :=
  law (nrm m v A) (CppDyn.gauss_pow _ _)

noncomputable def eta (i : Fin N) : Measure (Fin 1 → ℝ) := (gaussianReal (m i) v).map fun y _ => y

theorem eta_mom (i : Fin N) : Mom (eta m v i) := CppDyn.sys_mom (m i) v 0

theorem nlaw_insert {A : Finset (Fin N)} {i : Fin N} (h : i ∉ A) :
    nlaw m v (insert i A) = nlaw m v A ∘ₗ jump (eta m v i) (eta_mom m v i) := by
  refine LinearMap.ext fun f => ?_
  show ∫ x, eval (fun _ => x) f ∂(nrm m v (insert i A)) = ∫ x, eval (fun _ => x) (jump _ _ f) ∂(nrm m v A)
  have e : nrm m v (insert i A) = Measure.conv (nrm m v A) (gaussianReal (m i) v) := by
    rw [nrm, nrm, gaussianReal_conv_gaussianReal, Finset.sum_insert h, Finset.sum_insert h, add_comm (m i),
      add_comm v]
  have hi : Integrable (fun x => eval (fun _ : Fin 1 => x) f) (nrm m v (insert i A)) :=
    CppDyn.int_of_pow (CppDyn.gauss_pow _ _) f
  rw [e] at hi ⊢
  haveI : IsProbabilityMeasure (nrm m v A) := by rw [nrm]; infer_instance
  rw [integral_conv hi]
  refine integral_congr_ae (Eventually.of_forall fun x => ?_)
  dsimp only
  have hm : Measurable fun y : Fin 1 → ℝ => eval ((fun _ => x) + y) f :=
    ((MvPolynomial.continuous_eval _).comp (continuous_const.add continuous_id)).measurable
  rw [eval_jump, eta, integral_map (by fun_prop) hm.aestronglyMeasurable]
  rfl

/-- the jumps up to `t` -/
noncomputable def upto (t : ℝ) : Finset (Fin N) := Finset.univ.filter fun i => s i ≤ t

theorem nlaw_sol (hs : Times s) (ν : Measure (Fin 1 → ℝ)) (hν : Mom ν) :
    SolAt (op 0 0 0 ν hν) (jat s (eta m v) (eta_mom m v)) fun t => nlaw m v (upto s t) where
  deriv f t ht := by
    have h0 : op 0 0 0 ν hν f = 0 := by rw [op_apply]; simp
    rw [h0, map_zero]
    refine (hasDerivWithinAt_const t _ (nlaw m v (upto s t) f)).congr_of_eventuallyEq ?_ rfl
    obtain ⟨b, hb, hq⟩ := quiet_right s t
    filter_upwards [Icc_mem_nhdsGE hb] with u hu
    have : upto s u = upto s t := by
      ext j
      simp only [upto, Finset.mem_filter, Finset.mem_univ, true_and]
      exact ⟨fun h => not_lt.1 fun hc => hq j ⟨hc, h.trans hu.2⟩, fun h => h.trans hu.1⟩
    rw [this]
  left t ht := by
    refine ⟨nlaw m v (Finset.univ.filter fun i => s i < t), fun f => ?_, ?_⟩
    · have h : ∀ᶠ u in 𝓝[<] t, ∀ i, ¬(u < s i ∧ s i < t) := by
        rw [eventually_all]
        intro i
        by_cases hi : s i < t
        · filter_upwards [mem_nhdsWithin_of_mem_nhds (Ioi_mem_nhds hi)] with u hu hc
          exact absurd hu (not_lt.2 hc.1.le)
        · exact Eventually.of_forall fun u hc => hi hc.2
      refine tendsto_const_nhds.congr' ?_
      filter_upwards [h, self_mem_nhdsWithin] with u hu hut
      have : upto s u = Finset.univ.filter fun i => s i < t := by
        ext j
        simp only [upto, Finset.mem_filter, Finset.mem_univ, true_and]
        exact ⟨fun h => h.trans_lt hut, fun h => not_lt.1 fun hc => hu j ⟨hc, h⟩⟩
      rw [this]
    · by_cases hn : ∃ i, s i = t
      · obtain ⟨i, rfl⟩ := hn
        rw [jat_at hs, ← nlaw_insert m v (by simp)]
        congr 1
        ext j
        simp only [upto, Finset.mem_filter, Finset.mem_univ, true_and, Finset.mem_insert]
        rw [le_iff_eq_or_lt]
        exact or_congr_left ⟨fun h => hs.inj h, fun h => by rw [h]⟩
      · rw [jat_ne _ _ hn, LinearMap.comp_id]
        congr 1
        ext j
        simp only [upto, Finset.mem_filter, Finset.mem_univ, true_and]
        exact ⟨fun h => lt_of_le_of_ne h fun e => hn ⟨j, e⟩, le_of_lt⟩

end

theorem price_mom (J m : ℝ) (v : ℝ≥0) : Mom ((gaussianReal m v).map fun y => ![J, y]) := by
  have h := single_mom (1 : Fin 2) ![J, 0] (eta_mom (N := 1) (fun _ => m) v 0)
  rw [eta, Measure.map_map (Svij.meas_add _) (by fun_prop)] at h
  have e : ((fun y : Fin 1 → ℝ => ![J, 0] + Pi.single 1 (y 0)) ∘ fun (y : ℝ) (_ : Fin 1) => y) = fun y => ![J, y] :=
    funext fun y => Svij.add_single _ _
  rwa [e] at h

/-- without random jumps their law does not matter -/
theorem dynkinAt_lam {σ : Type} [Fintype σ] {c c' : JumpDiff σ} (hb : c.b = c'.b) (ha : c.a = c'.a) (hl : c.lam = 0)
    (hl' : c'.lam = 0) {N : ℕ} {s : Fin N → ℝ} {κ : Fin N → Measure (σ → ℝ)} {E0 : MvPolynomial σ ℝ →ₗ[ℝ] ℝ}
    {E : ℝ → MvPolynomial σ ℝ →ₗ[ℝ] ℝ} (h : c.DynkinAt s κ E0 E) : c'.DynkinAt s κ E0 E := by
  refine ⟨h.start, h.cont, fun f g hg => h.formula f g fun x => ?_, h.jump⟩
  have := hg x
  rw [hl', zero_mul] at this
  rw [hl, zero_mul, hb, ha, this]

/-- the law given the jumps of the variance, by the integrals and the jumps of the price -/
theorem given_repr (p : Par) (hp : p.toPar.OK) (hj : p.toPar.Simple)
    {E : ℝ → MvPolynomial (Fin 2) ℝ →ₗ[ℝ] ℝ} (hE : Given p E) :
    ∃ E', Svvj.CondLaw p.toPar E' ∧ ∀ f, E p.h f = expect p E' fun z => aeval ![Svvj.vEnd p.toPar, ret p z] f := by
  have hs : Times (Svvj.jt p.toPar) := hj.times hp.len
  obtain ⟨F, hF⟩ := Svvj.given_exists p.toPar hp.len hj
  obtain ⟨E', hE', hr⟩ := Svvj.given_repr p.toPar hp hj hF
  refine ⟨E', hE', fun f => ?_⟩
  set m : Fin p.jumpsize.length → ℝ := fun i => p.μs + p.ρJ * p.jumpsize.getD i 0 with hm
  set v := (p.σs ^ 2).toNNReal with hv
  have hE2 : (jmp (Sv.heston p.μ p.k p.θ p.σ p.ρ) 1 0 0 0).DynkinAt (Svvj.jt p.toPar)
      (fun i => (eta m v i).map fun y => ![p.jumpsize.getD i 0, 0] + Pi.single 1 (y 0))
      (aeval ![p.v0, 0]).toLinearMap E := by
    have : ∀ i : Fin p.jumpsize.length, ((eta m v i).map fun y =>
        ![p.jumpsize.getD i 0, 0] + Pi.single 1 (y 0)) = (gaussianReal (p.μs + p.ρJ * p.jumpsize.getD i 0) v).map
          fun y => ![p.jumpsize.getD i 0, y] := by
      intro i
      rw [eta, Measure.map_map (Svij.meas_add _) (by fun_prop)]
      refine congrArg (fun g => (gaussianReal (m i) v).map g) (funext fun y => ?_)
      exact Svij.add_single _ _
    rw [funext this]
    exact dynkinAt_lam (c := Sv.heston p.μ p.k p.θ p.σ p.ρ)
      (c' := jmp (Sv.heston p.μ p.k p.θ p.σ p.ρ) 1 0 0 0) rfl rfl rfl rfl hE
  have := jmpAt_repr 1 0 0 0 (Sv.hcoef p.μ p.k p.θ p.σ p.ρ) (Sv.hmom _ _ _ _ _) rfl
    (Svij.bY_gJ _ _ _) (Svij.aY_gJ _ _) hs (fun i => ![p.jumpsize.getD i 0, 0]) (eta_mom m v) hF hE2
    (fun t => nrm m v (upto (Svvj.jt p.toPar) t))
    (fun t => CppDyn.gauss_pow _ _) (by
      have h0 : upto (Svvj.jt p.toPar) 0 = ∅ := by
        ext j
        simpa [upto] using hs.pos j
      have : nrm m v (upto (Svvj.jt p.toPar) 0) = Measure.dirac 0 := by
        rw [h0, nrm]
        simp
      rw [← law_dirac]
      congr 1) (nlaw_sol _ m v hs _ _) p.h hp.h f
  have hlaw : nrm m v (upto (Svvj.jt p.toPar) p.h) = jumpLaw p := by
    have hu : upto (Svvj.jt p.toPar) p.h = Finset.univ := by
      ext j
      simp only [upto, Finset.mem_filter, Finset.mem_univ, true_and, iff_true]
      exact hp.le j
    rw [hu, nrm, jumpLaw, jumpSum_eq]
    congr 1
    · rw [hm, Finset.sum_add_distrib, ← Finset.mul_sum]
      simp [Fin.sum_univ_def, ← List.sum_ofFn]
    · simp [hv]
  rw [this, expect, hlaw]
  refine integral_congr_ae (Eventually.of_forall fun z => ?_)
  dsimp only
  rw [hr, Svij.shift_eq, ← AlgHom.comp_apply]
  refine congrArg (fun g : MvPolynomial (Fin 2) ℝ →ₐ[ℝ] Fsv1.Rv => E' (g f)) (algHom_ext fun k => ?_)
  fin_cases k <;> simp [ret, algebraMap_eq]

end Ajd.Svcj

end -- CondPrice
