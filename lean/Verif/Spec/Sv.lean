import Verif.Spec.Gen
import Mathlib.Data.Fin.VecNotation
import Mathlib.MeasureTheory.Measure.Dirac
import Mathlib.Probability.Distributions.Gaussian.Real

/-! Specification for the moments of the Heston model: its stochastic differential equations. -/

namespace Ajd.Sv
open MeasureTheory MvPolynomial

/-- The pair `x = (v, y)` of the variance and the return `y_t = log s(t) - log s(0)`
(docs/source/theory.rst lines 33-60): `dv = k (theta - v) dt + sigma √v dw^v`, `dy = (mu - v/2) dt + √v dw^s`, where
the Wiener processes have correlation `rho`; there are no jumps. -/
noncomputable def heston (mu k theta sigma rho : ℝ) : JumpDiff (Fin 2) where
  b x := ![k * (theta - x 0), mu - x 0 / 2]
  a x := ![![sigma ^ 2 * x 0, rho * sigma * x 0], ![rho * sigma * x 0, x 0]]
  lam := 0
  ν := Measure.dirac 0

/-- the variance starts from a law with moments `M`, and the return from `0` -/
structure Start (E0 : MvPolynomial (Fin 2) ℝ →ₗ[ℝ] ℝ) (M : ℕ → ℝ) : Prop where
  y : ∀ f, E0 (X 1 * f) = 0
  v : ∀ n, E0 (X 0 ^ n) = M n

/-- Two returns in a row: `x = (v, y_1, y_2)` in the second interval, where `y_1` is the return of the first
interval. -/
noncomputable def heston2 (mu k theta sigma rho : ℝ) : JumpDiff (Fin 3) where
  b x := ![k * (theta - x 0), 0, mu - x 0 / 2]
  a x := ![![sigma ^ 2 * x 0, 0, rho * sigma * x 0], ![0, 0, 0], ![rho * sigma * x 0, 0, x 0]]
  lam := 0
  ν := Measure.dirac 0

/-- the second interval starts where the first ends, with `y_2 = 0` -/
def Second (E : MvPolynomial (Fin 2) ℝ →ₗ[ℝ] ℝ) (E0 : MvPolynomial (Fin 3) ℝ →ₗ[ℝ] ℝ) : Prop :=
  (∀ f, E0 (X 2 * f) = 0) ∧ ∀ f : MvPolynomial (Fin 2) ℝ, E0 (rename ![0, 1] f) = E f

/-- The Heston model with normal jumps in the price (docs/source/1fsvj.rst lines 8-35): the jumps of the return have
intensity `lam`, mean `mu_j` and variance `sigma_j^2`. -/
noncomputable def svj (mu k theta sigma rho lam mu_j sigma_j : ℝ) : JumpDiff (Fin 2) where
  b := (heston mu k theta sigma rho).b
  a := (heston mu k theta sigma rho).a
  lam := lam
  ν := (ProbabilityTheory.gaussianReal mu_j (sigma_j ^ 2).toNNReal).map fun y => ![0, y]

/-- Two returns in a row, with jumps. -/
noncomputable def svj2 (mu k theta sigma rho lam mu_j sigma_j : ℝ) : JumpDiff (Fin 3) where
  b := (heston2 mu k theta sigma rho).b
  a := (heston2 mu k theta sigma rho).a
  lam := lam
  ν := (ProbabilityTheory.gaussianReal mu_j (sigma_j ^ 2).toNNReal).map fun y => ![0, 0, y]

end Ajd.Sv
