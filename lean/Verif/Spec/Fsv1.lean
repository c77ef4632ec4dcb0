import Verif.Spec.Ito
import Verif.Model.Fsv1
import Mathlib.Algebra.MvPolynomial.Basic
import Mathlib.MeasureTheory.Integral.Bochner.Basic

/-! Specification for the one-factor stochastic volatility model (docs/source/theory.rst). -/

namespace Ajd.Fsv1
open MeasureTheory MvPolynomial

/-- polynomials in the three Itô integrals of one interval: `X 0 = IE_n`, `X 1 = I_n`,
`X 2 = I*_n` -/
abbrev Rv := MvPolynomial (Fin 3) ℝ

/-- `γ` has the moments of the stationary law of the variance, equation `moment-v` -/
structure StatLaw (p : Par) (γ : Measure ℝ) : Prop where
  integrable : ∀ n : ℕ, Integrable (fun x => x ^ n) γ
  moment : ∀ n : ℕ, ∫ x, x ^ n ∂γ = Ito.vMoment p.k p.θ p.σ n

/-- `E` is a conditional expectation given `v_{n-1} = x`, for the interval from `t0 = (n-1)h` to
`t0 + h = nh`: its joint moments are those of the Itô moment equation -/
def CondLaw (p : Par) (t0 x : ℝ) (E : Rv →ₗ[ℝ] ℝ) : Prop :=
  ∃ M, Ito.ItoRec ⟨p.k, p.θ, p.σ, x, t0⟩ M ∧
    ∀ a b c : ℕ, E (X 0 ^ a * X 1 ^ b * X 2 ^ c) = M a b c (t0 + p.h)

/-- `v_n = e^{-kh} v_{n-1} + θ (1 - e^{-kh}) + σ e^{-knh} IE_n` -/
noncomputable def vNext (p : Par) (t0 x : ℝ) : Rv :=
  C (Real.exp (-(p.k * p.h)) * x + p.θ * (1 - Real.exp (-(p.k * p.h)))) +
    C (p.σ * Real.exp (-(p.k * (t0 + p.h)))) * X 0

/-- `IV_n = θ h - (v_n - v_{n-1}) / k + (σ / k) I_n` -/
noncomputable def intVar (p : Par) (t0 x : ℝ) : Rv :=
  C (p.θ * p.h) - C (1 / p.k) * (vNext p t0 x - C x) + C (p.σ / p.k) * X 1

/-- the return `y_n = μ h - IV_n / 2 + ρ I_n + √(1-ρ²) I*_n` -/
noncomputable def ret (p : Par) (t0 x : ℝ) : Rv :=
  C (p.μ * p.h) - C (1 / 2) * intVar p t0 x + C p.ρ * X 1 + C (Real.sqrt (1 - p.ρ ^ 2)) * X 2

/-- `E[f(v_{n-1}, IE_n, I_n, I*_n)]`: first given `v_{n-1} = x`, then over the stationary law -/
noncomputable def expect (γ : Measure ℝ) (E : ℝ → Rv →ₗ[ℝ] ℝ) (f : ℝ → Rv) : ℝ :=
  ∫ x, E x (f x) ∂γ

/-- the parameters a derivative can be taken with respect to, by their names in `par` -/
def Par.get (p : Par) (wrt : String) : ℝ :=
  if wrt = "k" then p.k else if wrt = "mu" then p.μ else if wrt = "theta" then p.θ
  else if wrt = "sigma_v" then p.σ else if wrt = "rho" then p.ρ else 0

/-- `p` with the named parameter replaced by `s` -/
def Par.set (p : Par) (wrt : String) (s : ℝ) : Par :=
  if wrt = "k" then { p with k := s } else if wrt = "mu" then { p with μ := s }
  else if wrt = "theta" then { p with θ := s } else if wrt = "sigma_v" then { p with σ := s }
  else if wrt = "rho" then { p with ρ := s } else p

/-- the supported names -/
def wrts : List String := ["k", "mu", "theta", "sigma_v", "rho"]

end Ajd.Fsv1
