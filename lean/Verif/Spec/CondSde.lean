import Verif.Spec.GenAt
import Verif.Spec.Sv
import Verif.Spec.Svvj
import Verif.Spec.Svij
import Verif.Spec.Svcj2

/-!
Specification for the moments given the jumps of the variance: the stochastic differential equations of the models.
The pair `x = (v, y)` of the variance and the return starts from `(v_0, 0)` and the variance jumps by `J_i` at the
time `s_i`. The times are different and positive; in a model where the jumps come from a Poisson process this has
probability one.
-/

namespace Ajd
open MvPolynomial MeasureTheory ProbabilityTheory

namespace Svvj

/-- the times of the jumps -/
noncomputable def jt (p : Par) (i : Fin p.jumpsize.length) : ℝ := p.jumptime.getD i 0

/-- Jumps in the variance only: the equations of the Heston model between the jumps. -/
def Given (p : Par) (E : ℝ → MvPolynomial (Fin 2) ℝ →ₗ[ℝ] ℝ) : Prop :=
  (Sv.heston p.μ p.k p.θ p.σ p.ρ).DynkinAt (jt p) (fun i => Measure.dirac ![p.jumpsize.getD i 0, 0])
    (aeval ![p.v0, 0]).toLinearMap E

end Svvj

/-- Independent jumps in the price: between the jumps of the variance the price jumps at random times. -/
def Svij.Given (p : Svij.Par) (E : ℝ → MvPolynomial (Fin 2) ℝ →ₗ[ℝ] ℝ) : Prop :=
  (Sv.svj p.μ p.k p.θ p.σ p.ρ p.lam p.μs p.σs).DynkinAt (Svvj.jt p.toPar)
    (fun i => Measure.dirac ![p.jumpsize.getD i 0, 0]) (aeval ![p.v0, 0]).toLinearMap E

/-- Contemporaneous jumps: when the variance jumps by `x` the return jumps by a normal variable with mean
`mu_s + rho_J x` and variance `sigma_s^2`. -/
def Svcj.Given (p : Svcj.Par) (E : ℝ → MvPolynomial (Fin 2) ℝ →ₗ[ℝ] ℝ) : Prop :=
  (Sv.heston p.μ p.k p.θ p.σ p.ρ).DynkinAt (Svvj.jt p.toPar)
    (fun i => (gaussianReal (p.μs + p.ρJ * p.jumpsize.getD i 0) (p.σs ^ 2).toNNReal).map
      fun y => ![p.jumpsize.getD i 0, y]) (aeval ![p.v0, 0]).toLinearMap E

end Ajd
