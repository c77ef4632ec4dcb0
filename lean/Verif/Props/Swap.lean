import Verif.Lemmas.Agg
import Verif.Props.Fsv2Sde
import Verif.Props.Fsv2jSde
import Verif.Props.Conv

/-! C64: the two factors have no order. -/

namespace Ajd.Sv2
open MvPolynomial MeasureTheory Gen
open Itos (code fixed)

/-- the same model with the names of the two factors exchanged -/
def swap (p : Fsv2.Par) : Fsv2.Par :=
  { p with k1 := p.k2, k2 := p.k1, θ1 := p.θ2, σ1 := p.σ2, θ2 := p.θ1, σ2 := p.σ1 }

/-- the same for the model with jumps -/
def swapj (p : Fsv2j.Par) : Fsv2j.Par := { p with toPar := swap p.toPar }

theorem swap_pos {p : Fsv2.Par} (hp : Pos p) : Pos (swap p) := ⟨hp.k2, hp.k1, hp.θ2, hp.σ2, hp.θ1, hp.σ1, hp.h⟩

theorem swap_generic {p : Fsv2.Par} (hg : p.Generic) : (swap p).Generic := fun a b h =>
  (hg b a (by rw [add_comm]; exact h)).symm

theorem swap_image (mu k1 k2 θ1 σ1 θ2 σ2 : ℝ) (ν ν' : Measure (Fin 3 → ℝ))
    (h : ν' = ν.map fun y k => ∑ i, (![![0, 1, 0], ![1, 0, 0], ![0, 0, 1]] : Fin 3 → Fin 3 → ℝ) k i * y i) :
    Image ![X 1, X 0, X 2] ![![0, 1, 0], ![1, 0, 0], ![0, 0, 1]] (bY mu k1 k2 θ1 θ2) (aY σ1 σ2) ν
      (bY mu k2 k1 θ2 θ1) (aY σ2 σ1) ν' where
  lin k i := by fin_cases k <;> fin_cases i <;> simp [pderiv_X]
  shift k x y := by fin_cases k <;> simp [Fin.sum_univ_three]
  drift k := by fin_cases k <;> simp [bY, Fin.sum_univ_three, algebraMap_eq, add_comm]
  diff k l := by fin_cases k <;> fin_cases l <;> simp [aY, Fin.sum_univ_three, algebraMap_eq, add_comm]
  jump := h

theorem swap_image4 (mu k1 k2 θ1 σ1 θ2 σ2 : ℝ) (ν ν' : Measure (Fin 4 → ℝ))
    (h : ν' = ν.map fun y k => ∑ i, (![![0, 1, 0, 0], ![1, 0, 0, 0], ![0, 0, 1, 0], ![0, 0, 0, 1]] :
      Fin 4 → Fin 4 → ℝ) k i * y i) :
    Image ![X 1, X 0, X 2, X 3] ![![0, 1, 0, 0], ![1, 0, 0, 0], ![0, 0, 1, 0], ![0, 0, 0, 1]] (b4 mu k1 k2 θ1 θ2) (a4 σ1 σ2) ν
      (b4 mu k2 k1 θ2 θ1) (a4 σ2 σ1) ν' where
  lin k i := by fin_cases k <;> fin_cases i <;> simp [pderiv_X]
  shift k x y := by fin_cases k <;> simp [Fin.sum_univ_four]
  drift k := by fin_cases k <;> simp [b4, Fin.sum_univ_four, algebraMap_eq, add_comm]
  diff k l := by fin_cases k <;> fin_cases l <;> simp [a4, Fin.sum_univ_four, algebraMap_eq, add_comm]
  jump := h

/-- the exchange of the variances -/
noncomputable def sw3 : MvPolynomial (Fin 3) ℝ →ₗ[ℝ] MvPolynomial (Fin 3) ℝ := (aeval ![X 1, X 0, X 2]).toLinearMap

noncomputable def sw4 : MvPolynomial (Fin 4) ℝ →ₗ[ℝ] MvPolynomial (Fin 4) ℝ := (aeval ![X 1, X 0, X 2, X 3]).toLinearMap

theorem sv2_swap {mu k1 k2 θ1 σ1 θ2 σ2 : ℝ} {E0 : MvPolynomial (Fin 3) ℝ →ₗ[ℝ] ℝ} {E : ℝ → MvPolynomial (Fin 3) ℝ →ₗ[ℝ] ℝ}
    (hE : (sv2 mu k1 k2 θ1 σ1 θ2 σ2).Dynkin E0 E) :
    (sv2 mu k2 k1 θ2 σ2 θ1 σ1).Dynkin (E0 ∘ₗ sw3) fun t => E t ∘ₗ sw3 :=
  dynkin_image (S := sv2 mu k1 k2 θ1 σ1 θ2 σ2) (swap_image mu k1 k2 θ1 σ1 θ2 σ2 _ _ (by
    simp only [sv2]
    rw [Measure.map_dirac' (by fun_prop)]
    congr 1
    funext i
    simp)) (coefY _ _ _ _ _ _ _) (coefY _ _ _ _ _ _ _) rfl momY momY hE

theorem sv2two_swap {mu k1 k2 θ1 σ1 θ2 σ2 : ℝ} {E0 : MvPolynomial (Fin 4) ℝ →ₗ[ℝ] ℝ} {E : ℝ → MvPolynomial (Fin 4) ℝ →ₗ[ℝ] ℝ}
    (hE : (sv2two mu k1 k2 θ1 σ1 θ2 σ2).Dynkin E0 E) :
    (sv2two mu k2 k1 θ2 σ2 θ1 σ1).Dynkin (E0 ∘ₗ sw4) fun t => E t ∘ₗ sw4 :=
  dynkin_image (S := sv2two mu k1 k2 θ1 σ1 θ2 σ2) (swap_image4 mu k1 k2 θ1 σ1 θ2 σ2 _ _ (by
    simp only [sv2two]
    rw [Measure.map_dirac' (by fun_prop)]
    congr 1
    funext i
    simp)) (coef4 _ _ _ _ _ _ _) (coef4 _ _ _ _ _ _ _) rfl mom4 mom4 hE

theorem sv2j_swap {mu k1 k2 θ1 σ1 θ2 σ2 lam mj sj : ℝ} {E0 : MvPolynomial (Fin 3) ℝ →ₗ[ℝ] ℝ}
    {E : ℝ → MvPolynomial (Fin 3) ℝ →ₗ[ℝ] ℝ} (hE : (sv2j mu k1 k2 θ1 σ1 θ2 σ2 lam mj sj).Dynkin E0 E) :
    (sv2j mu k2 k1 θ2 σ2 θ1 σ1 lam mj sj).Dynkin (E0 ∘ₗ sw3) fun t => E t ∘ₗ sw3 :=
  dynkin_image (S := sv2j mu k1 k2 θ1 σ1 θ2 σ2 lam mj sj) (swap_image mu k1 k2 θ1 σ1 θ2 σ2 _ _ (by
    simp only [sv2j]
    rw [Measure.map_map (by fun_prop) (by fun_prop)]
    congr 1
    funext y i
    fin_cases i <;> simp [Fin.sum_univ_three])) (sv2j_coef _ _ _ _ _ _ _ _ _ _) (sv2j_coef _ _ _ _ _ _ _ _ _ _) rfl
    (sv2j_mom _ _ _ _ _ _ _ _ _ _) (sv2j_mom _ _ _ _ _ _ _ _ _ _) hE

theorem sv2jtwo_swap {mu k1 k2 θ1 σ1 θ2 σ2 lam mj sj : ℝ} {E0 : MvPolynomial (Fin 4) ℝ →ₗ[ℝ] ℝ}
    {E : ℝ → MvPolynomial (Fin 4) ℝ →ₗ[ℝ] ℝ} (hE : (sv2jtwo mu k1 k2 θ1 σ1 θ2 σ2 lam mj sj).Dynkin E0 E) :
    (sv2jtwo mu k2 k1 θ2 σ2 θ1 σ1 lam mj sj).Dynkin (E0 ∘ₗ sw4) fun t => E t ∘ₗ sw4 :=
  dynkin_image (S := sv2jtwo mu k1 k2 θ1 σ1 θ2 σ2 lam mj sj) (swap_image4 mu k1 k2 θ1 σ1 θ2 σ2 _ _ (by
    simp only [sv2jtwo]
    rw [Measure.map_map (by fun_prop) (by fun_prop)]
    congr 1
    funext y i
    fin_cases i <;> simp [Fin.sum_univ_four])) (sv2jtwo_coef _ _ _ _ _ _ _ _ _ _) (sv2jtwo_coef _ _ _ _ _ _ _ _ _ _) rfl
    (sv2jtwo_mom _ _ _ _ _ _ _ _ _ _) (sv2jtwo_mom _ _ _ _ _ _ _ _ _ _) hE

theorem start_swap {E0 : MvPolynomial (Fin 3) ℝ →ₗ[ℝ] ℝ} {M1 M2 : ℕ → ℝ} (h : Start E0 M1 M2) : Start (E0 ∘ₗ sw3) M2 M1 where
  y f := by simp [sw3, h.y]
  v m n := by
    simp only [sw3, LinearMap.comp_apply, AlgHom.toLinearMap_apply, map_mul, map_pow, aeval_X, Matrix.cons_val_zero,
      Matrix.cons_val_one]
    rw [mul_comm, h.v, mul_comm]

theorem second_swap {E : MvPolynomial (Fin 3) ℝ →ₗ[ℝ] ℝ} {E0 : MvPolynomial (Fin 4) ℝ →ₗ[ℝ] ℝ} (h : Second E E0) :
    Second (E ∘ₗ sw3) (E0 ∘ₗ sw4) := by
  refine ⟨fun f => by simp [sw4, h.1], fun f => ?_⟩
  simp only [sw3, sw4, LinearMap.comp_apply, AlgHom.toLinearMap_apply, aeval_rename, ← h.2]
  refine congrArg E0 (MvPolynomial.funext fun x => ?_)
  rw [eval_rename, eval_aeval, eval_aeval]
  refine congrArg (fun y => eval y f) ?_
  funext i
  fin_cases i <;> simp

/-- `mdl_2fsv`: up to order 3 (covariances: 1, 1) it does not matter which factor is called the first. Missing: the other orders,
where the elif chain of `recursive_IEI_IEII` prefers the first factor, see `C64_itos_wrong`. -/
theorem C64_fsv2_partial (p : Fsv2.Par) (hp : Pos p) (hg : p.Generic) : (∀ l : ℕ, l ≤ 3 →
    Fsv2.m code l (swap p) = Fsv2.m code l p ∧ Fsv2.cm code l (swap p) = Fsv2.cm code l p) ∧
    Fsv2.cov code 1 1 (swap p) = Fsv2.cov code 1 1 p := by
  obtain ⟨E0, E, E0', E', h0, hE, h0', hE'⟩ := sv2_exists p
  have hp' := swap_pos hp
  refine ⟨fun l hl => ?_, ?_⟩
  · rcases Nat.lt_or_ge 2 l with h | h
    · obtain rfl : l = 3 := by omega
      obtain ⟨g, -, eg, a, b⟩ := C52_order3_sde p hp hg E0 h0 E hE
      obtain ⟨g', -, eg', a', b'⟩ := C52_order3_sde (swap p) hp' (swap_generic hg) _ (start_swap h0) _ (sv2_swap hE)
      have : g' = g := by rw [eg, eg', add_comm]; rfl
      subst this
      rw [a, b, a', b']
      simp [sw3, algebraMap_eq, swap]
    · obtain ⟨a, b⟩ := C52_moments_sde_partial p hp E0 h0 E hE l h
      obtain ⟨a', b'⟩ := C52_moments_sde_partial (swap p) hp' _ (start_swap h0) _ (sv2_swap hE) l h
      rw [a, b, a', b']
      simp [sw3, algebraMap_eq, swap]
  · rw [C52_cov_sde_partial p hp E0 h0 E hE E0' h0' E' hE',
      C52_cov_sde_partial (swap p) hp' _ (start_swap h0) _ (sv2_swap hE) _ (second_swap h0') _ (sv2two_swap hE')]
    simp [sw4, swap]

/-- The same for `mdl_2fsvj`. -/
theorem C64_fsv2j_partial (p : Fsv2j.Par) (hp : Pos p.toPar) (hg : p.toPar.Generic) (hl : 0 ≤ p.lam) : (∀ l : ℕ, l ≤ 3 →
    Fsv2j.m code l (swapj p) = Fsv2j.m code l p ∧ Fsv2j.cm code l (swapj p) = Fsv2j.cm code l p) ∧
    Fsv2j.cov code 1 1 (swapj p) = Fsv2j.cov code 1 1 p := by
  obtain ⟨E0, E, E0', E', h0, hE, h0', hE'⟩ := sv2j_exists p
  have hp' := swap_pos hp
  refine ⟨fun l hl3 => ?_, ?_⟩
  · rcases Nat.lt_or_ge 2 l with h | h
    · obtain rfl : l = 3 := by omega
      obtain ⟨g, -, eg, a, b⟩ := C53_order3_sde p hp hg hl E0 h0 E hE
      obtain ⟨g', -, eg', a', b'⟩ := C53_order3_sde (swapj p) hp' (swap_generic hg) hl _ (start_swap h0) _ (sv2j_swap hE)
      have : g' = g := by rw [eg, eg', add_comm]; rfl
      subst this
      rw [a, b, a', b']
      simp [sw3, algebraMap_eq, swap, swapj]
    · obtain ⟨a, b⟩ := C53_moments_sde_partial p hp hl E0 h0 E hE l h
      obtain ⟨a', b'⟩ := C53_moments_sde_partial (swapj p) hp' hl _ (start_swap h0) _ (sv2j_swap hE) l h
      rw [a, b, a', b']
      simp [sw3, algebraMap_eq, swap, swapj]
  · rw [C53_cov_sde_partial p hp hl E0 h0 E hE E0' h0' E' hE',
      C53_cov_sde_partial (swapj p) hp' hl _ (start_swap h0) _ (sv2j_swap hE) _ (second_swap h0') _ (sv2jtwo_swap hE')]
    simp [sw4, swap, swapj]

/-- With the two corrections of `itos_mom` all orders are symmetric. -/
theorem C64_corrected (p : Fsv2j.Par) (hp : Pos p.toPar) (hg : p.toPar.Generic) (hl : 0 ≤ p.lam) :
    (∀ l : ℕ, Fsv2.m fixed l (swap p.toPar) = Fsv2.m fixed l p.toPar ∧ Fsv2.cm fixed l (swap p.toPar) = Fsv2.cm fixed l p.toPar ∧
      Fsv2j.m fixed l (swapj p) = Fsv2j.m fixed l p ∧ Fsv2j.cm fixed l (swapj p) = Fsv2j.cm fixed l p) ∧
    ∀ l1 l2 : ℕ, Fsv2.cov fixed l1 l2 (swap p.toPar) = Fsv2.cov fixed l1 l2 p.toPar ∧
      Fsv2j.cov fixed l1 l2 (swapj p) = Fsv2j.cov fixed l1 l2 p := by
  have hp' := swap_pos hp
  have hg' := swap_generic hg
  obtain ⟨E0, E, E0', E', h0, hE, h0', hE'⟩ := sv2_exists p.toPar
  obtain ⟨F0, F, F0', F', g0, hF, g0', hF'⟩ := sv2j_exists p
  obtain ⟨a, b, c⟩ := C52_corrected_sde p.toPar hp hg E0 h0 E hE E0' h0' E' hE'
  obtain ⟨a', b', c'⟩ := C52_corrected_sde (swap p.toPar) hp' hg' _ (start_swap h0) _ (sv2_swap hE) _ (second_swap h0') _
    (sv2two_swap hE')
  obtain ⟨d, e, f⟩ := C53_corrected_sde p hp hg hl F0 g0 F hF F0' g0' F' hF'
  obtain ⟨d', e', f'⟩ := C53_corrected_sde (swapj p) hp' hg' hl _ (start_swap g0) _ (sv2j_swap hF) _ (second_swap g0') _
    (sv2jtwo_swap hF')
  refine ⟨fun l => ⟨?_, ?_, ?_, ?_⟩, fun l1 l2 => ⟨?_, ?_⟩⟩
  · rw [a, a']; simp [sw3, swap]
  · rw [b, b']; simp [sw3, algebraMap_eq, swap]
  · rw [d, d']; simp [sw3, swap, swapj]
  · rw [e, e']; simp [sw3, algebraMap_eq, swap, swapj]
  · rw [c, c']; simp [sw4, swap]
  · rw [f, f']; simp [sw4, swap, swapj]

end Ajd.Sv2

namespace Ajd.Itos
open Poly

/-- what `moment_IEI_IEII(2, 0, 2, 0, 0)` returns -/
def swapWitness : List (DKey × ℚ) := [
  (⟨[(1, 2, 1), (0, 2, 1)], (2, 2), (1, 2), [0, 1, 0, 0, 0, 1, 0]⟩, 1),
  (⟨[(1, 2, 1), (0, 2, 1)], (2, 2), (0, 0), [0, 1, 0, 0, 0, 1, 0]⟩, -1),
  (⟨[(1, 1, 1), (0, 1, 1)], (2, 2), (1, 1), [0, 1, 0, 0, 1, 0, 0]⟩, 1),
  (⟨[(1, 1, 1), (0, 1, 1)], (2, 2), (0, 0), [0, 1, 0, 0, 1, 0, 0]⟩, -1),
  (⟨[(1, 1, 1), (0, 1, 1)], (2, 2), (1, 1), [0, 1, 0, 0, 0, 1, 0]⟩, -1),
  (⟨[(1, 1, 1), (0, 1, 1)], (2, 2), (0, 0), [0, 1, 0, 0, 0, 1, 0]⟩, 1),
  (⟨[(1, 0, 1), (0, 1, 1)], (2, 2), (1, 0), [0, 1, 0, 0, 1, 0, 0]⟩, -1),
  (⟨[(1, 0, 1), (0, 1, 1)], (2, 2), (0, 0), [0, 1, 0, 0, 1, 0, 0]⟩, 1),
  (⟨[(1, 0, 1), (0, 2, 1)], (2, 2), (1, 0), [0, 1, 0, 0, 0, 1, 0]⟩, 1),
  (⟨[(1, 0, 1), (0, 2, 1)], (2, 2), (0, 0), [0, 1, 0, 0, 0, 1, 0]⟩, -1),
  (⟨[(1, 2, 1), (0, 2, 1)], (2, 2), (1, 2), [0, 0, 1, 0, 0, 1, 0]⟩, -1),
  (⟨[(1, 2, 1), (0, 2, 1)], (2, 2), (0, 0), [0, 0, 1, 0, 0, 1, 0]⟩, 1),
  (⟨[(1, 1, 1), (0, 1, 1)], (2, 2), (1, 1), [0, 0, 1, 0, 1, 0, 0]⟩, -1),
  (⟨[(1, 1, 1), (0, 1, 1)], (2, 2), (0, 0), [0, 0, 1, 0, 1, 0, 0]⟩, 1),
  (⟨[(1, 1, 1), (0, 1, 1)], (2, 2), (1, 1), [0, 0, 1, 0, 0, 1, 0]⟩, 1),
  (⟨[(1, 1, 1), (0, 1, 1)], (2, 2), (0, 0), [0, 0, 1, 0, 0, 1, 0]⟩, -1),
  (⟨[(1, 0, 1), (0, 1, 1)], (2, 2), (1, 0), [0, 0, 1, 0, 1, 0, 0]⟩, 1),
  (⟨[(1, 0, 1), (0, 1, 1)], (2, 2), (0, 0), [0, 0, 1, 0, 1, 0, 0]⟩, -1),
  (⟨[(1, 0, 1), (0, 2, 1)], (2, 2), (1, 0), [0, 0, 1, 0, 0, 1, 0]⟩, -1),
  (⟨[(1, 0, 1), (0, 2, 1)], (2, 2), (0, 0), [0, 0, 1, 0, 0, 1, 0]⟩, 1),
  (⟨[(2, 2, 1), (0, 2, 1)], (2, 2), (2, 2), [0, 0, 1, 0, 0, 1, 0]⟩, 1),
  (⟨[(2, 2, 1), (0, 2, 1)], (2, 2), (0, 0), [0, 0, 1, 0, 0, 1, 0]⟩, -1),
  (⟨[(2, 1, 1), (0, 1, 1)], (2, 2), (2, 1), [0, 0, 1, 0, 1, 0, 0]⟩, 1),
  (⟨[(2, 1, 1), (0, 1, 1)], (2, 2), (0, 0), [0, 0, 1, 0, 1, 0, 0]⟩, -1),
  (⟨[(2, 1, 1), (0, 1, 1)], (2, 2), (2, 1), [0, 0, 1, 0, 0, 1, 0]⟩, -1),
  (⟨[(2, 1, 1), (0, 1, 1)], (2, 2), (0, 0), [0, 0, 1, 0, 0, 1, 0]⟩, 1),
  (⟨[(2, 0, 1), (0, 1, 1)], (2, 2), (2, 0), [0, 0, 1, 0, 1, 0, 0]⟩, -1),
  (⟨[(2, 0, 1), (0, 1, 1)], (2, 2), (0, 0), [0, 0, 1, 0, 1, 0, 0]⟩, 1),
  (⟨[(2, 0, 1), (0, 2, 1)], (2, 2), (2, 0), [0, 0, 1, 0, 0, 1, 0]⟩, 1),
  (⟨[(2, 0, 1), (0, 2, 1)], (2, 2), (0, 0), [0, 0, 1, 0, 0, 1, 0]⟩, -1)]

theorem swapWitness_eq : (match moment code (2, 0, 2, 0, 0) with
    | .ok p => decide (p.items = swapWitness)
    | .error _ => false) = true := by
  decide +kernel

/-- the parameters of the Itô moments with the names of the two factors exchanged -/
def Par.swap (x : Par) : Par := { x with k1 := x.k2, k2 := x.k1, v1 := x.v2, θ1 := x.θ2, σ1 := x.σ2, v2 := x.v1, θ2 := x.θ1, σ2 := x.σ1 }

/-- `E[IE_1^2 IE_2^2]` as the code has it depends on which factor is called the first. -/
theorem C64_itos_wrong : ∃ P, moment code (2, 0, 2, 0, 0) = .ok P ∧ ∃ x : Par, 0 < x.k1 ∧ 0 < x.k2 ∧ 0 < x.v1 ∧ 0 < x.v2 ∧
    0 < x.θ1 ∧ 0 < x.θ2 ∧ 0 < x.σ1 ∧ 0 < x.σ2 ∧ ∀ t, x.u < t → ev (dval x.swap t) P ≠ ev (dval x t) P := by
  have h := swapWitness_eq
  cases hP : moment code (2, 0, 2, 0, 0) with
  | error _ => rw [hP] at h; simp at h
  | ok P =>
    rw [hP] at h
    simp only [decide_eq_true_eq] at h
    refine ⟨P, rfl, ⟨1, 2, 0, 1, 1, 1, 1, 1, 1⟩, by norm_num, by norm_num, by norm_num, by norm_num, by norm_num, by norm_num,
      by norm_num, by norm_num, fun t ht e => ?_⟩
    have ht : 0 < t := ht
    simp only [ev, h, swapWitness, List.map_cons, List.map_nil, List.sum_cons, List.sum_nil, Rat.smul_def, dval, den,
      Par.rate, Par.swap] at e
    simp [ix] at e
    have hx : ∀ n : ℕ, Real.exp (n * t) = Real.exp t ^ n := fun n => Real.exp_nat_mul t n
    have h2 := hx 2
    have h3 := hx 3
    have h4 := hx 4
    have h5 := hx 5
    have h6 := hx 6
    have hy : 1 < Real.exp t := Real.one_lt_exp_iff.2 ht
    generalize Real.exp t = y at *
    norm_num at h2 h3 h4 h5 h6 e
    rw [h2, h4, h6] at e
    have hz : 0 < (y ^ 2 - 1) ^ 3 := pow_pos (by nlinarith) 3
    linarith

/-- the hypotheses of the theorems for the models are met -/
example : ∃ p : Fsv2j.Par, Sv2.Pos p.toPar ∧ p.toPar.Generic ∧ 0 < p.lam ∧ Sv2.swapj p ≠ p := by
  have hp : Sv2.Pos Fsv2.exPar := by
    refine ⟨?_, ?_, ?_, ?_, ?_, ?_, ?_⟩ <;> norm_num [Fsv2.exPar]
  refine ⟨⟨Fsv2.exPar, 1, 0, 1⟩, hp, Fsv2.generic_of_irrational _ rfl irrational_sqrt_two, one_pos, fun h => ?_⟩
  have := congrArg (fun q : Fsv2j.Par => q.k2) h
  simp only [Sv2.swapj, Sv2.swap, Fsv2.exPar] at this
  exact irrational_sqrt_two ⟨1, by simpa using this⟩

end Ajd.Itos
