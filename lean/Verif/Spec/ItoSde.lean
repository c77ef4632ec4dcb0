import Verif.Spec.GenAt
import Verif.Spec.ItoCond
import Mathlib.LinearAlgebra.Matrix.Notation
import Mathlib.Probability.Distributions.Exponential

/-!
Specification of the Itô integrals behind the moments: `IE_t = ∫ e^{ks} √v_s dw^v_s`, `I_t = ∫ √v_s dw^v_s` and
`I*_t = ∫ √v_s dw_s` (docs/source/theory.rst, lines 78-97), as stochastic differential equations.
-/

namespace Ajd
open MvPolynomial MeasureTheory ProbabilityTheory

/-- The four processes `x = (v, A, I, I*)` with `A_t = e^{-kt} IE_t`, that is `dA = -k A dt + √v dw^v`; the
variance is `dv = k (theta - v) dt + sigma √v dw^v`, and `w` is independent of `w^v`. -/
noncomputable def Ito.ints (k theta sigma : ℝ) : JumpDiff (Fin 4) where
  b x := ![k * (theta - x 0), -k * x 1, 0, 0]
  a x := ![![sigma ^ 2 * x 0, sigma * x 0, sigma * x 0, 0], ![sigma * x 0, x 0, x 0, 0],
    ![sigma * x 0, x 0, x 0, 0], ![0, 0, 0, x 0]]
  lam := 0
  ν := Measure.dirac 0

/-- the variance starts from `v_0`, the integrals from 0 -/
def ItoCond.Given (x : ItoCond.Par) (E : ℝ → MvPolynomial (Fin 4) ℝ →ₗ[ℝ] ℝ) : Prop :=
  (Ito.ints x.k x.θ x.σ).DynkinAt x.s (fun i => Measure.dirac ![x.J i, 0, 0, 0])
    (aeval ![x.v, 0, 0, 0]).toLinearMap E

/-- The three processes `x = (v, A, B)` of SRJD (docs/source/srjd.rst), where `z` is a compound Poisson process with
intensity `lam` and exponential jumps of mean `mu`: the variance `dv = k (theta - v) dt + sigma √v dw + dz`,
`A_t = e^{-kt} IE_t` with `d(IE) = e^{kt} √v dw`, and `B_t = e^{-kt} ∫_0^t e^{ks} (dz_s - c ds)`. For `c = 0` the last
integral is `IEZ_t`, for `c = lam mu` it is `IEZ_t` less its mean. -/
noncomputable def Srjd.ints (k theta sigma lam mu c : ℝ) : JumpDiff (Fin 3) where
  b x := ![k * (theta - x 0), -k * x 1, -k * x 2 - c]
  a x := ![![sigma ^ 2 * x 0, sigma * x 0, 0], ![sigma * x 0, x 0, 0], ![0, 0, 0]]
  lam := lam
  ν := (expMeasure (1 / mu)).map fun y => ![y, 0, y]

/-- the square-root diffusion -/
noncomputable def Ito.cir (k theta sigma : ℝ) : JumpDiff (Fin 1) where
  b x := ![k * (theta - x 0)]
  a x := ![![sigma ^ 2 * x 0]]
  lam := 0
  ν := Measure.dirac 0

/-- the square-root diffusion from `v_0`, with jumps `J_i` at the times `s_i` -/
def ItoCond.GivenV (x : ItoCond.Par) (E : ℝ → MvPolynomial (Fin 1) ℝ →ₗ[ℝ] ℝ) : Prop :=
  (Ito.cir x.k x.θ x.σ).DynkinAt x.s (fun i => Measure.dirac ![x.J i]) (aeval ![x.v]).toLinearMap E

end Ajd
