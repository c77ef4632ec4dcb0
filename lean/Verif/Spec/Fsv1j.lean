import Verif.Spec.Fsv1
import Verif.Spec.Cpp
import Verif.Model.Fsv1j

/-! Specification for the one-factor model with jumps: the return is the return of the one-factor
model plus an independent compound Poisson variable with normal jumps
(docs/source/theory.rst, jumps in the price). -/

namespace Ajd.Fsv1j
open MeasureTheory MvPolynomial ProbabilityTheory

/-- law of the sum of the jumps in an interval of length `h` -/
noncomputable def jumpLaw (p : Par) : Measure ℝ :=
  Cpp.cppLaw (p.lam * p.h).toNNReal (gaussianReal p.μj (p.σj ^ 2).toNNReal)

/-- the return given the sum `z` of the jumps -/
noncomputable def ret (p : Par) (t0 z x : ℝ) : Fsv1.Rv := Fsv1.ret p.toPar t0 x + C z

/-- `E[f]` for `f` depending on the sum `z` of the jumps, the variance and the Itô integrals -/
noncomputable def expect (p : Par) (γ : Measure ℝ) (E : ℝ → Fsv1.Rv →ₗ[ℝ] ℝ)
    (f : ℝ → ℝ → Fsv1.Rv) : ℝ :=
  ∫ z, Fsv1.expect γ E (f z) ∂(jumpLaw p)

def wrts : List String := ["k", "mu", "theta", "sigma_v", "rho", "lambda", "mu_j", "sigma_j"]

/-- the named parameter -/
def Par.get (p : Par) (wrt : String) : ℝ :=
  if wrt = "k" then p.k else if wrt = "mu" then p.μ else if wrt = "theta" then p.θ
  else if wrt = "sigma_v" then p.σ else if wrt = "rho" then p.ρ else if wrt = "lambda" then p.lam
  else if wrt = "mu_j" then p.μj else if wrt = "sigma_j" then p.σj else 0

/-- `p` with the named parameter replaced by `s` -/
def Par.set (p : Par) (wrt : String) (s : ℝ) : Par :=
  if wrt = "k" then { p with k := s } else if wrt = "mu" then { p with μ := s }
  else if wrt = "theta" then { p with θ := s } else if wrt = "sigma_v" then { p with σ := s }
  else if wrt = "rho" then { p with ρ := s } else if wrt = "lambda" then { p with lam := s }
  else if wrt = "mu_j" then { p with μj := s } else if wrt = "sigma_j" then { p with σj := s }
  else p

end Ajd.Fsv1j
