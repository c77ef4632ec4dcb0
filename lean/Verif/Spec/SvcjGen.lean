import Verif.Spec.Gen
import Mathlib.Probability.Distributions.Exponential
import Mathlib.Probability.Distributions.Gaussian.Real
import Mathlib.Data.Fin.VecNotation

/-! Specification for the moments of the SVCJ model: its stochastic differential equations. -/

namespace Ajd.SvcjI
open MeasureTheory ProbabilityTheory

/-- Law of the jumps `(J^v, J^s)`: `J^v` is exponential with mean `mu_v` and, given `J^v`, `J^s` is normal with
mean `mu_s + rhoJ J^v` and variance `sigma_s^2` (docs/source/svcj.rst lines 16-31). -/
noncomputable def jumpLaw2 (mu_v rhoJ mu_s sigma_s : ℝ) : Measure (Fin 2 → ℝ) :=
  (expMeasure (1 / mu_v)).bind fun jv =>
    (gaussianReal (mu_s + rhoJ * jv) (sigma_s ^ 2).toNNReal).map fun js => ![jv, js]

/-- The pair `x = (v, y)` of the variance and the return `y_t = log s(t) - log s(0)`
(docs/source/svcj.rst lines 9-31):
`dv = k (theta - v) dt + sigma √v dw^v + dz^v`, `dy = (mu - v/2) dt + √v dw^s + dz^s`, where the Wiener processes
have correlation `rho` and the jumps come at rate `lmbd`. -/
noncomputable def svcj (mu k theta sigma rho lmbd mu_v rhoJ mu_s sigma_s : ℝ) : JumpDiff (Fin 2) where
  b x := ![k * (theta - x 0), mu - x 0 / 2]
  a x := ![![sigma ^ 2 * x 0, rho * sigma * x 0], ![rho * sigma * x 0, x 0]]
  lam := lmbd
  ν := jumpLaw2 mu_v rhoJ mu_s sigma_s

end Ajd.SvcjI
