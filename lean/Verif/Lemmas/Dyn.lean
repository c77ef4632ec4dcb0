import Mathlib.Analysis.ODE.ExistUnique
import Mathlib.Analysis.SpecialFunctions.Exponential
import Mathlib.LinearAlgebra.Dual.Lemmas
import Mathlib.LinearAlgebra.FiniteDimensional.Basic
import Mathlib.Topology.Algebra.Module.FiniteDimension

/-!
Linear evolution equations `d/dt L_t(f) = L_t(A f)` for functionals on a vector space of any dimension, where
every vector lies in an invariant subspace of finite dimension.
-/

namespace Ajd.Dyn

variable {P : Type} [AddCommGroup P] [Module ℝ P]

/-- every vector lies in an invariant subspace of finite dimension -/
def LF (A : P →ₗ[ℝ] P) : Prop :=
  ∀ f, ∃ W : Submodule ℝ P, FiniteDimensional ℝ W ∧ f ∈ W ∧ ∀ g ∈ W, A g ∈ W

/-- `d/dt L_t(f) = L_t(A f)` -/
def Sol (A : P →ₗ[ℝ] P) (L : ℝ → P →ₗ[ℝ] ℝ) : Prop :=
  ∀ f t, 0 ≤ t → HasDerivWithinAt (fun t => L t f) (L t (A f)) (Set.Ici 0) t

theorem Sol.sub {A : P →ₗ[ℝ] P} {L L' : ℝ → P →ₗ[ℝ] ℝ} (h : Sol A L) (h' : Sol A L') :
    Sol A fun t => L t - L' t :=
  fun f t ht => (h f t ht).sub (h' f t ht)

theorem Sol.cont {A : P →ₗ[ℝ] P} {L : ℝ → P →ₗ[ℝ] ℝ} (h : Sol A L) (f : P) :
    ContinuousOn (fun t => L t f) (Set.Ici 0) :=
  fun t ht => (h f t ht).continuousWithinAt

theorem sol_zero {A : P →ₗ[ℝ] P} (hA : LF A) {L : ℝ → P →ₗ[ℝ] ℝ} (h : Sol A L) (h0 : L 0 = 0)
    (t : ℝ) (ht : 0 ≤ t) : L t = 0 := by
  ext f
  obtain ⟨W, hW, hf, hinv⟩ := hA f
  let b := Module.finBasis ℝ W
  let n := Module.finrank ℝ W
  let φ : ℝ → (Fin n → ℝ) := fun t i => L t (b i)
  let M : (Fin n → ℝ) →ₗ[ℝ] (Fin n → ℝ) :=
    LinearMap.pi fun i => ∑ j, b.repr ⟨A (b i), hinv _ (b i).2⟩ j • LinearMap.proj j
  have hM : ∀ t, M (φ t) = fun i => L t (A (b i)) := by
    intro t
    funext i
    have := congrArg (fun w : W => L t w) (b.sum_repr ⟨A (b i), hinv _ (b i).2⟩)
    simp only [Submodule.coe_sum, Submodule.coe_smul, map_sum, map_smul] at this
    rw [← this]
    simp [M, φ, LinearMap.pi_apply]
  have hd : ∀ s, 0 ≤ s → HasDerivWithinAt φ (M (φ s)) (Set.Ici 0) s := by
    intro s hs
    rw [hM, hasDerivWithinAt_pi]
    exact fun i => h (b i) s hs
  have hLip : LipschitzWith ‖LinearMap.toContinuousLinearMap M‖₊ (M : (Fin n → ℝ) → (Fin n → ℝ)) :=
    (LinearMap.toContinuousLinearMap M).lipschitz
  have hφ : Set.EqOn φ (fun _ => 0) (Set.Icc 0 t) := by
    refine ODE_solution_unique (v := fun _ => M) (K := ‖LinearMap.toContinuousLinearMap M‖₊) (fun _ => hLip)
      (fun s hs => ((hd s hs.1).continuousWithinAt).mono Set.Icc_subset_Ici_self) (fun s hs => ?_)
      continuousOn_const (fun s hs => ?_) ?_
    · exact (hd s hs.1).mono (Set.Ici_subset_Ici.2 hs.1)
    · rw [map_zero]; exact hasDerivWithinAt_const _ _ _
    · funext i
      simp [φ, h0]
  have hz := hφ ⟨ht, le_refl t⟩
  have hfr := congrArg (fun w : W => L t w) (b.sum_repr ⟨f, hf⟩)
  simp only [Submodule.coe_sum, Submodule.coe_smul, map_sum, map_smul] at hfr
  rw [← hfr]
  have : ∀ i, L t (b i) = 0 := fun i => congrFun hz i
  simp [this]

theorem sol_unique {A : P →ₗ[ℝ] P} (hA : LF A) {L L' : ℝ → P →ₗ[ℝ] ℝ} (h : Sol A L) (h' : Sol A L')
    (h0 : L 0 = L' 0) (t : ℝ) (ht : 0 ≤ t) : L t = L' t :=
  sub_eq_zero.1 (sol_zero hA (h.sub h') (by simp [h0]) t ht)

theorem hs_congr {f g : ℕ → ℝ} {a : ℝ} (h : HasSum f a) (e : ∀ n, f n = g n) : HasSum g a := by
  rwa [show f = g from funext e] at h

open NormedSpace in
theorem exp_aux (A : P →ₗ[ℝ] P) (W : Submodule ℝ P) [FiniteDimensional ℝ W] (hinv : ∀ g ∈ W, A g ∈ W) :
    ∃ Q : ℝ → W →ₗ[ℝ] W, (∀ t (f : W) (ℓ : P →ₗ[ℝ] ℝ),
      HasSum (fun n : ℕ => ((n.factorial : ℝ)⁻¹ * t ^ n) * ℓ ((A ^ n) f)) (ℓ (Q t f))) ∧
      ∀ t (f : W) (ℓ : P →ₗ[ℝ] ℝ), HasDerivAt (fun t => ℓ (Q t f)) (ℓ (Q t ⟨A f, hinv _ f.2⟩)) t := by
  let b := Module.finBasis ℝ W
  let V := Fin (Module.finrank ℝ W) → ℝ
  let e : W ≃ₗ[ℝ] V := b.equivFun
  let B : W →ₗ[ℝ] W := A.restrict hinv
  let M : V →L[ℝ] V := LinearMap.toContinuousLinearMap (e.toLinearMap ∘ₗ B ∘ₗ e.symm.toLinearMap)
  have hMe : ∀ f : W, M (e f) = e (B f) := fun f => by simp [M]
  have hMn : ∀ (n : ℕ) (f : W), (M ^ n) (e f) = e ((B ^ n) f) := by
    intro n
    induction n with
    | zero => intro f; rfl
    | succ n ih =>
      intro f
      rw [pow_succ, pow_succ]
      show (M ^ n) (M (e f)) = e ((B ^ n) (B f))
      rw [hMe, ih]
  have hBn : ∀ (n : ℕ) (f : W), (((B ^ n) f : W) : P) = (A ^ n) f := by
    intro n
    induction n with
    | zero => intro f; rfl
    | succ n ih =>
      intro f
      rw [pow_succ, pow_succ]
      show (((B ^ n) (B f) : W) : P) = (A ^ n) (A f)
      rw [ih]; rfl
  refine ⟨fun t => e.symm.toLinearMap ∘ₗ (exp (t • M)).toLinearMap ∘ₗ e.toLinearMap, fun t f ℓ => ?_,
    fun t f ℓ => ?_⟩
  · let ℓ' : V →L[ℝ] ℝ := LinearMap.toContinuousLinearMap (ℓ ∘ₗ W.subtype ∘ₗ e.symm.toLinearMap)
    have h1 := (exp_series_hasSum_exp' (𝕂 := ℝ) (t • M)).mapL (ContinuousLinearMap.apply ℝ V (e f))
    have h2 := h1.mapL ℓ'
    refine hs_congr (h2) fun n => ?_
    simp only [ContinuousLinearMap.apply_apply, ContinuousLinearMap.smul_apply, smul_pow, map_smul, hMn,
      smul_eq_mul]
    have : ℓ' (e ((B ^ n) f)) = ℓ ((A ^ n) f) := by
      simp [ℓ', hBn]
    rw [this]
    ring
  · let ℓ' : V →L[ℝ] ℝ := LinearMap.toContinuousLinearMap (ℓ ∘ₗ W.subtype ∘ₗ e.symm.toLinearMap)
    have h1 := hasDerivAt_exp_smul_const (𝕂 := ℝ) M t
    have h2 := (ℓ'.comp (ContinuousLinearMap.apply ℝ V (e f))).hasFDerivAt.comp_hasDerivAt t h1
    refine h2.congr_deriv ?_
    show ℓ' (exp (t • M) (M (e f))) = _
    rw [hMe]
    rfl

/-- the semigroup `e^{tA}` -/
theorem exists_semigroup {A : P →ₗ[ℝ] P} (hA : LF A) : ∃ Q : ℝ → P →ₗ[ℝ] P,
    Q 0 = LinearMap.id ∧ ∀ ℓ : P →ₗ[ℝ] ℝ, Sol A fun t => ℓ ∘ₗ Q t := by
  have key : ∀ (t : ℝ) (f : P), ∃ g : P, ∀ ℓ : P →ₗ[ℝ] ℝ,
      HasSum (fun n : ℕ => ((n.factorial : ℝ)⁻¹ * t ^ n) * ℓ ((A ^ n) f)) (ℓ g) := by
    intro t f
    obtain ⟨W, hW, hf, hinv⟩ := hA f
    obtain ⟨Q, hQ, _⟩ := exp_aux A W hinv
    exact ⟨Q t ⟨f, hf⟩, fun ℓ => hQ t ⟨f, hf⟩ ℓ⟩
  choose q hq using key
  have sep : ∀ x y : P, (∀ ℓ : P →ₗ[ℝ] ℝ, ℓ x = ℓ y) → x = y := by
    intro x y h
    rw [← sub_eq_zero, ← Module.forall_dual_apply_eq_zero_iff ℝ]
    intro ℓ
    rw [map_sub, h ℓ, sub_self]
  refine ⟨fun t => { toFun := q t, map_add' := ?_, map_smul' := ?_ }, ?_, ?_⟩
  · intro f g
    refine sep _ _ fun ℓ => ?_
    rw [map_add]
    refine (hq t (f + g) ℓ).unique ?_
    refine hs_congr ((hq t f ℓ).add (hq t g ℓ)) fun n => ?_
    simp only [map_add]; ring
  · intro c f
    refine sep _ _ fun ℓ => ?_
    rw [map_smul]
    refine (hq t (c • f) ℓ).unique ?_
    refine hs_congr ((hq t f ℓ).const_smul ((RingHom.id ℝ) c)) fun n => ?_
    simp only [map_smul, smul_eq_mul, RingHom.id_apply]; ring
  · ext f
    refine sep _ _ fun ℓ => ?_
    refine (hq 0 f ℓ).unique ?_
    refine hs_congr (hasSum_ite_eq (0 : ℕ) (ℓ f)) fun n => ?_
    cases n <;> simp
  · intro ℓ f t _
    obtain ⟨W, hW, hf, hinv⟩ := hA f
    obtain ⟨Q, hQ, hd⟩ := exp_aux A W hinv
    have h1 : (fun t => ℓ (q t f)) = fun t => ℓ (Q t ⟨f, hf⟩) := by
      funext t
      exact (hq t f ℓ).unique (hQ t ⟨f, hf⟩ ℓ)
    have h2 : ℓ (q t (A f)) = ℓ (Q t ⟨A f, hinv _ hf⟩) := (hq t (A f) ℓ).unique (hQ t ⟨A f, hinv _ hf⟩ ℓ)
    show HasDerivWithinAt (fun t => ℓ (q t f)) (ℓ (q t (A f))) _ t
    rw [h1, h2]
    exact (hd t ⟨f, hf⟩ ℓ).hasDerivWithinAt

end Ajd.Dyn
