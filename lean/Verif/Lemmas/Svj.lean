import Verif.Lemmas.Heston3
import Verif.Lemmas.GenJump
import Verif.Spec.Fsv1j

/-! The Heston model with jumps in the price. -/

namespace Ajd.Sv
open MvPolynomial MeasureTheory ProbabilityTheory SvcjI

theorem hcoef (mu k θ σ ρ : ℝ) : Gen.PolyCoef (heston mu k θ σ ρ) (bY k θ mu) (aY σ ρ) where
  prob := by
    show IsProbabilityMeasure (Measure.dirac _)
    infer_instance
  hb := (coef mu k θ σ ρ).hb
  ha := (coef mu k θ σ ρ).ha
  db := (coef mu k θ σ ρ).db
  da := (coef mu k θ σ ρ).da

theorem hmom (mu k θ σ ρ : ℝ) : Gen.Mom (heston mu k θ σ ρ).ν := fun f => integrable_dirac (by simp)

theorem svj_eq (mu k θ σ ρ lam mj sj : ℝ) :
    svj mu k θ σ ρ lam mj sj = Gen.jmp (heston mu k θ σ ρ) 1 lam mj (sj ^ 2).toNNReal := by
  rw [svj, Gen.jmp]
  have : (fun y : ℝ => ![0, y]) = fun y => Pi.single (M := fun _ : Fin 2 => ℝ) 1 y := by
    funext y i
    fin_cases i <;> simp
  rw [this]

theorem svj2_eq (mu k θ σ ρ lam mj sj : ℝ) :
    svj2 mu k θ σ ρ lam mj sj = Gen.jmp (heston2 mu k θ σ ρ) 2 lam mj (sj ^ 2).toNNReal := by
  rw [svj2, Gen.jmp]
  have : (fun y : ℝ => ![0, 0, y]) = fun y => Pi.single (M := fun _ : Fin 3 => ℝ) 2 y := by
    funext y i
    fin_cases i <;> simp
  rw [this]

/-- given the jumps, the return is shifted by their sum -/
theorem svj_repr (p : Fsv1j.Par) (hl : 0 ≤ p.lam) (hh : 0 ≤ p.h) {E0 : MvPolynomial (Fin 2) ℝ →ₗ[ℝ] ℝ}
    {E F : ℝ → MvPolynomial (Fin 2) ℝ →ₗ[ℝ] ℝ} (hE : (heston p.μ p.k p.θ p.σ p.ρ).Dynkin E0 E)
    (hF : (svj p.μ p.k p.θ p.σ p.ρ p.lam p.μj p.σj).Dynkin E0 F) (f : MvPolynomial (Fin 2) ℝ) :
    F p.h f = ∫ z, E p.h (aeval ![X 0, X 1 + C z] f) ∂(Fsv1j.jumpLaw p) := by
  rw [svj_eq] at hF
  have := Gen.jmp_repr _ 1 p.lam p.μj (p.σj ^ 2).toNNReal (hcoef p.μ p.k p.θ p.σ p.ρ) (hmom _ _ _ _ _) rfl
    (fun k => by fin_cases k <;> simp [bY, Gen.gJ])
    (fun k l => by fin_cases k <;> fin_cases l <;> simp [aY, Gen.gJ]) hl hE hF p.h hh f
  rw [this, Fsv1j.jumpLaw]
  refine integral_congr_ae (Filter.Eventually.of_forall fun z => ?_)
  dsimp only
  refine congrArg (fun g : Fin 2 → MvPolynomial (Fin 2) ℝ => E p.h (aeval g f)) (funext fun k => ?_)
  fin_cases k <;> simp

theorem svj2_repr (p : Fsv1j.Par) (hl : 0 ≤ p.lam) (hh : 0 ≤ p.h) {E0 : MvPolynomial (Fin 3) ℝ →ₗ[ℝ] ℝ}
    {E F : ℝ → MvPolynomial (Fin 3) ℝ →ₗ[ℝ] ℝ} (hE : (heston2 p.μ p.k p.θ p.σ p.ρ).Dynkin E0 E)
    (hF : (svj2 p.μ p.k p.θ p.σ p.ρ p.lam p.μj p.σj).Dynkin E0 F) (f : MvPolynomial (Fin 3) ℝ) :
    F p.h f = ∫ z, E p.h (aeval ![X 0, X 1, X 2 + C z] f) ∂(Fsv1j.jumpLaw p) := by
  rw [svj2_eq] at hF
  have := Gen.jmp_repr _ 2 p.lam p.μj (p.σj ^ 2).toNNReal (coef3 p.μ p.k p.θ p.σ p.ρ) mom3 rfl
    (fun k => by fin_cases k <;> simp [b3, Gen.gJ])
    (fun k l => by fin_cases k <;> fin_cases l <;> simp [a3, Gen.gJ]) hl hE hF p.h hh f
  rw [this, Fsv1j.jumpLaw]
  refine integral_congr_ae (Filter.Eventually.of_forall fun z => ?_)
  dsimp only
  refine congrArg (fun g : Fin 3 → MvPolynomial (Fin 3) ℝ => E p.h (aeval g f)) (funext fun k => ?_)
  fin_cases k <;> simp

/-- the law of a return with jumps, over the stationary law of the variance -/
theorem svj_stat (p : Fsv1j.Par) (hk : p.k ≠ 0) (hh : 0 ≤ p.h) (hρ : 0 ≤ 1 - p.ρ ^ 2) (hl : 0 ≤ p.lam) (t0 : ℝ)
    (γ : Measure ℝ) (hγ : Fsv1.StatLaw p.toPar γ) {E0 : MvPolynomial (Fin 2) ℝ →ₗ[ℝ] ℝ}
    (h0 : Start E0 (Ito.vMoment p.k p.θ p.σ)) {F : ℝ → MvPolynomial (Fin 2) ℝ →ₗ[ℝ] ℝ}
    (hF : (svj p.μ p.k p.θ p.σ p.ρ p.lam p.μj p.σj).Dynkin E0 F) (f : MvPolynomial (Fin 2) ℝ) :
    F p.h f = Fsv1j.expect p γ (Fsv1.condE p.toPar t0) fun z x =>
      aeval ![Fsv1.vNext p.toPar t0 x, Fsv1j.ret p t0 z x] f := by
  obtain ⟨Q, hQ, -⟩ := heston_semi p.μ p.k p.θ p.σ p.ρ
  rw [svj_repr p hl hh (hQ E0) hF, Fsv1j.expect]
  refine integral_congr_ae (Filter.Eventually.of_forall fun z => ?_)
  dsimp only
  rw [heston_stat p.toPar hk hh hρ t0 γ hγ h0 (hQ E0)]
  congr 1
  funext x
  rw [← AlgHom.comp_apply]
  refine congrArg (fun g : MvPolynomial (Fin 2) ℝ →ₐ[ℝ] Fsv1.Rv => g f) (MvPolynomial.algHom_ext fun k => ?_)
  fin_cases k <;> simp [Fsv1j.ret, algebraMap_eq]

/-- a polynomial in the variance at the end of the first interval -/
theorem aeval_atV (V Y : Fsv1.Rv) (f : MvPolynomial (Fin 2) ℝ) :
    aeval ![V, Y] ((aeval ![X 0, 0] : MvPolynomial (Fin 2) ℝ →ₐ[ℝ] MvPolynomial (Fin 2) ℝ) f) =
      Polynomial.aeval V (SvcjI.atV f) := by
  induction f using MvPolynomial.induction_on with
  | C a => simp [SvcjI.atV]
  | add p q hp hq => simp only [map_add, hp, hq]
  | mul_X p i hp =>
    simp only [map_mul, hp]
    congr 1
    fin_cases i <;> simp [SvcjI.atV]

end Ajd.Sv
