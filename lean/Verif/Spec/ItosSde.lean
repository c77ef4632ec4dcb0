import Verif.Spec.Gen
import Verif.Spec.Itos
import Mathlib.LinearAlgebra.Matrix.Notation

/-!
Specification of the Itô integrals of the two-factor model (docstring of itos_mom.py) as stochastic differential
equations.
-/

namespace Ajd.Itos
open MvPolynomial MeasureTheory

/-- noise of the first variance, in `v_1`, `A_1` and `I_1` -/
def noise1 (sigma1 : ℝ) : Fin 7 → ℝ := ![sigma1, 0, 1, 1, 0, 0, 0]
/-- noise of the second variance, in `v_2`, `A_2` and `I_2` -/
def noise2 (sigma2 : ℝ) : Fin 7 → ℝ := ![0, sigma2, 0, 0, 1, 1, 0]
/-- noise of the price, in `I*` -/
def noise3 : Fin 7 → ℝ := ![0, 0, 0, 0, 0, 0, 1]

/-- The processes `x = (v_1, v_2, A_1, I_1, A_2, I_2, I*)` with `A_i(t) = e^{-k_i t} IE_i(t)`:
`dv_i = k_i (theta_i - v_i) dt + sigma_i √v_i dw_i`, `dA_i = -k_i A_i dt + √v_i dw_i`, `dI_i = √v_i dw_i` and
`dI* = √(v_1 + v_2) dw` with independent Wiener processes. -/
noncomputable def ints (x : Par) : JumpDiff (Fin 7) where
  b y := ![x.k1 * (x.θ1 - y 0), x.k2 * (x.θ2 - y 1), -x.k1 * y 2, 0, -x.k2 * y 4, 0, 0]
  a y i j := y 0 * (noise1 x.σ1 i * noise1 x.σ1 j) + y 1 * (noise2 x.σ2 i * noise2 x.σ2 j) +
    (y 0 + y 1) * (noise3 i * noise3 j)
  lam := 0
  ν := Measure.dirac 0

/-- the variances start from `v_1` and `v_2`, the integrals from 0, at the time `u` of the parameters; `E s f` is the
expectation of the polynomial `f` at the time `u + s` -/
def Given (x : Par) (E : ℝ → MvPolynomial (Fin 7) ℝ →ₗ[ℝ] ℝ) : Prop :=
  (ints x).Dynkin (aeval ![x.v1, x.v2, 0, 0, 0, 0, 0]).toLinearMap E

end Ajd.Itos
