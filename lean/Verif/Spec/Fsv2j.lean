import Verif.Spec.Fsv2
import Verif.Spec.Cpp
import Verif.Model.Fsv2j

/-! Specification for the two-factor model with jumps: the return is the return of the two-factor model
plus an independent compound Poisson variable with normal jumps (docs/source/2fsvj.rst). -/

namespace Ajd.Fsv2j
open MeasureTheory MvPolynomial ProbabilityTheory

/-- law of the sum of the jumps in an interval of length `h` -/
noncomputable def jumpLaw (p : Par) : Measure ℝ :=
  Cpp.cppLaw (p.lam * p.h).toNNReal (gaussianReal p.μj (p.σj ^ 2).toNNReal)

/-- the return given the sum `z` of the jumps -/
noncomputable def ret (p : Par) (t0 z : ℝ) (x : ℝ × ℝ) : Fsv2.Rv := Fsv2.ret p.toPar t0 x + C z

/-- `E[f]` for `f` depending on the sum `z` of the jumps, the variances and the Itô integrals -/
noncomputable def expect (p : Par) (γ : Measure (ℝ × ℝ)) (E : ℝ × ℝ → Fsv2.Rv →ₗ[ℝ] ℝ)
    (f : ℝ → ℝ × ℝ → Fsv2.Rv) : ℝ :=
  ∫ z, Fsv2.expect γ E (f z) ∂(jumpLaw p)

/-- `Q z` is the conditional moment `E[y_{n+1}^l | v_{1,n}, v_{2,n}]` given also that the jumps of that
interval sum up to `z`, as a polynomial in the variances, at the points of a box with infinite sides -/
def CondPoly (g : Itos.Cfg) (p : Par) (t1 : ℝ) (l : ℕ) (Q : ℝ → Fsv2.Pol) : Prop :=
  ∃ (E : ℝ × ℝ → Fsv2.Rv →ₗ[ℝ] ℝ) (S1 S2 : Set ℝ), S1.Infinite ∧ S2.Infinite ∧
    (∀ v ∈ S1 ×ˢ S2, Fsv2.CompLaw g ⊤ p.toPar t1 v (E v)) ∧
    ∀ z, ∀ v ∈ S1 ×ˢ S2, eval (Fsv2.two v.1 v.2) (Q z) = E v (ret p t1 z v ^ l)

/-- the same for the Itô moment equation -/
def TruePoly (p : Par) (t1 : ℝ) (l : ℕ) (Q : ℝ → Fsv2.Pol) : Prop :=
  ∃ (E : ℝ × ℝ → Fsv2.Rv →ₗ[ℝ] ℝ) (S1 S2 : Set ℝ), S1.Infinite ∧ S2.Infinite ∧
    (∀ v ∈ S1 ×ˢ S2, Fsv2.CondLaw p.toPar t1 v (E v)) ∧
    ∀ z, ∀ v ∈ S1 ×ˢ S2, eval (Fsv2.two v.1 v.2) (Q z) = E v (ret p t1 z v ^ l)

/-- the names a derivative can be taken with respect to -/
def wrts : List String := ["k1", "k2", "mu", "theta1", "sigma_v1", "theta2", "sigma_v2", "lambda", "mu_j",
  "sigma_j"]

/-- the named parameter -/
def Par.get (p : Par) (wrt : String) : ℝ :=
  if wrt = "lambda" then p.lam else if wrt = "mu_j" then p.μj else if wrt = "sigma_j" then p.σj
  else p.toPar.get wrt

/-- `p` with the named parameter replaced by `s` -/
def Par.set (p : Par) (wrt : String) (s : ℝ) : Par :=
  if wrt = "lambda" then { p with lam := s } else if wrt = "mu_j" then { p with μj := s }
  else if wrt = "sigma_j" then { p with σj := s } else { p with toPar := p.toPar.set wrt s }

end Ajd.Fsv2j
