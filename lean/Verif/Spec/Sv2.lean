import Verif.Spec.Gen
import Verif.Spec.Fsv2
import Mathlib.Data.Fin.VecNotation
import Mathlib.MeasureTheory.Measure.Dirac
import Mathlib.Probability.Distributions.Gaussian.Real

/-! Specification for the moments of the two-factor models: their stochastic differential equations. -/

namespace Ajd.Sv2
open MeasureTheory MvPolynomial

/-- The two variances and the return, `x = (v_1, v_2, y)` (docs/source/2fsv.rst lines 9-17):
`dv_i = k_i (theta_i - v_i) dt + sigma_i √v_i dw_i`, `dy = (mu - v/2) dt + √v dw` with `v = v_1 + v_2`, where the three
Wiener processes are independent; there are no jumps. -/
noncomputable def sv2 (mu k1 k2 theta1 sigma1 theta2 sigma2 : ℝ) : JumpDiff (Fin 3) where
  b x := ![k1 * (theta1 - x 0), k2 * (theta2 - x 1), mu - (x 0 + x 1) / 2]
  a x := ![![sigma1 ^ 2 * x 0, 0, 0], ![0, sigma2 ^ 2 * x 1, 0], ![0, 0, x 0 + x 1]]
  lam := 0
  ν := Measure.dirac 0

/-- positive parameters -/
structure Pos (p : Fsv2.Par) : Prop where
  k1 : 0 < p.k1
  k2 : 0 < p.k2
  θ1 : 0 < p.θ1
  σ1 : 0 < p.σ1
  θ2 : 0 < p.θ2
  σ2 : 0 < p.σ2
  h : 0 < p.h

/-- the variances start from independent laws with moments `M1` and `M2`, and the return from `0` -/
structure Start (E0 : MvPolynomial (Fin 3) ℝ →ₗ[ℝ] ℝ) (M1 M2 : ℕ → ℝ) : Prop where
  y : ∀ f, E0 (X 2 * f) = 0
  v : ∀ m n, E0 (X 0 ^ m * X 1 ^ n) = M1 m * M2 n

/-- Two returns in a row: `x = (v_1, v_2, y_1, y_2)` in the second interval, where `y_1` is the return of the first
interval. -/
noncomputable def sv2two (mu k1 k2 theta1 sigma1 theta2 sigma2 : ℝ) : JumpDiff (Fin 4) where
  b x := ![k1 * (theta1 - x 0), k2 * (theta2 - x 1), 0, mu - (x 0 + x 1) / 2]
  a x := ![![sigma1 ^ 2 * x 0, 0, 0, 0], ![0, sigma2 ^ 2 * x 1, 0, 0], ![0, 0, 0, 0], ![0, 0, 0, x 0 + x 1]]
  lam := 0
  ν := Measure.dirac 0

/-- the second interval starts where the first ends, with `y_2 = 0` -/
def Second (E : MvPolynomial (Fin 3) ℝ →ₗ[ℝ] ℝ) (E0 : MvPolynomial (Fin 4) ℝ →ₗ[ℝ] ℝ) : Prop :=
  (∀ f, E0 (X 3 * f) = 0) ∧ ∀ f : MvPolynomial (Fin 3) ℝ, E0 (rename ![0, 1, 2] f) = E f

/-- The two-factor model with normal jumps in the price (docs/source/2fsvj.rst): the jumps of the return have intensity
`lam`, mean `mu_j` and variance `sigma_j^2`. -/
noncomputable def sv2j (mu k1 k2 theta1 sigma1 theta2 sigma2 lam mu_j sigma_j : ℝ) : JumpDiff (Fin 3) where
  b := (sv2 mu k1 k2 theta1 sigma1 theta2 sigma2).b
  a := (sv2 mu k1 k2 theta1 sigma1 theta2 sigma2).a
  lam := lam
  ν := (ProbabilityTheory.gaussianReal mu_j (sigma_j ^ 2).toNNReal).map fun y => ![0, 0, y]

/-- Two returns in a row, with jumps. -/
noncomputable def sv2jtwo (mu k1 k2 theta1 sigma1 theta2 sigma2 lam mu_j sigma_j : ℝ) : JumpDiff (Fin 4) where
  b := (sv2two mu k1 k2 theta1 sigma1 theta2 sigma2).b
  a := (sv2two mu k1 k2 theta1 sigma1 theta2 sigma2).a
  lam := lam
  ν := (ProbabilityTheory.gaussianReal mu_j (sigma_j ^ 2).toNNReal).map fun y => ![0, 0, 0, y]

end Ajd.Sv2
