import Verif.Spec.SvcjGen
import Verif.Model.SvcjI

/-! Specification for the moments of the SVCJ return: parameters, initial law and the integrals in the solution. -/

namespace Ajd.SvcjI
open MeasureTheory ProbabilityTheory

/-- the hypotheses on the parameters -/
structure Ok (p : SPar) : Prop where
  k : p.k ≠ 0
  rho : 0 ≤ 1 - p.rho ^ 2
  mu_v : 0 < p.mu_v
  h : 0 ≤ p.h

/-- the SVCJ model with the given parameters -/
noncomputable abbrev SPar.sde (p : SPar) : JumpDiff (Fin 2) :=
  svcj p.mu p.k p.theta p.sigma p.rho p.lmbd p.mu_v p.rhoJ p.mu_s p.sigma_s

/-- the variance starts from a law with moments `M`, and the return from `0` -/
structure Start (E0 : MvPolynomial (Fin 2) ℝ →ₗ[ℝ] ℝ) (M : ℕ → ℝ) : Prop where
  y : ∀ f, E0 (MvPolynomial.X 1 * f) = 0
  v : ∀ n, E0 (MvPolynomial.X 0 ^ n) = M n

/-- The integrals in the solution of the model (docs/source/svcj.rst, docs/source/theory.rst), discounted where
this makes the coefficients polynomial, for `v = theta + x_6 + sigma x_0 + x_3`:
`x_0 = e^{-kt} ∫ e^{ks} √v dw^v`, `x_1 = ∫ √v dw^v`, `x_2 = ∫ √v dw` with `w` independent of `w^v`,
`x_3 = e^{-kt} ∫ e^{ks} dz^v`, `x_4 = z^v`, `x_5` the sum of the parts of the price jumps which do not depend on the
variance jumps, `x_6 = e^{-kt} (v_0 - theta)` and `x_7 = t`. -/
noncomputable def ints (k theta sigma lmbd mu_v mu_s sigma_s : ℝ) : JumpDiff (Fin 8) where
  b x := ![-k * x 0, 0, 0, -k * x 3, 0, 0, -k * x 6, 1]
  a x i j := (theta + x 6 + sigma * x 0 + x 3) *
    ((![1, 1, 0, 0, 0, 0, 0, 0] : Fin 8 → ℝ) i * (![1, 1, 0, 0, 0, 0, 0, 0] : Fin 8 → ℝ) j +
      (![0, 0, 1, 0, 0, 0, 0, 0] : Fin 8 → ℝ) i * (![0, 0, 1, 0, 0, 0, 0, 0] : Fin 8 → ℝ) j)
  lam := lmbd
  ν := ((expMeasure (1 / mu_v)).prod (gaussianReal mu_s (sigma_s ^ 2).toNNReal)).map
    fun y => ![0, 0, 0, y.1, y.1, y.2, 0, 0]

/-- the integrals with the given parameters -/
noncomputable abbrev SPar.ints (p : SPar) : JumpDiff (Fin 8) :=
  SvcjI.ints p.k p.theta p.sigma p.lmbd p.mu_v p.mu_s p.sigma_s

end Ajd.SvcjI
