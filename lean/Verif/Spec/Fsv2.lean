import Verif.Spec.Itos
import Verif.Spec.Ito
import Verif.Model.Fsv2
import Mathlib.Algebra.MvPolynomial.Basic
import Mathlib.MeasureTheory.Integral.Bochner.Basic
import Mathlib.Analysis.Calculus.Deriv.Basic

/-! Specification for the two-factor stochastic volatility model (docs/source/2fsv.rst). -/

namespace Ajd.Fsv2
open MeasureTheory MvPolynomial

/-- polynomials in the five Itô integrals of one interval: `X 0 = IE_{1,n}`, `X 1 = I_{1,n}`,
`X 2 = IE_{2,n}`, `X 3 = I_{2,n}`, `X 4 = I*_n` -/
abbrev Rv := MvPolynomial (Fin 5) ℝ

/-- the parameters, the time `t0 = (n-1)h` and the variances at that time, in the form of the two-factor
Itô moments -/
def Par.it (p : Par) (t0 : ℝ) (x : ℝ × ℝ) : Itos.Par :=
  ⟨p.k1, p.k2, t0, x.1, p.θ1, p.σ1, x.2, p.θ2, p.σ2⟩

/-- no integer combination of the two rates vanishes -/
def Par.Generic (p : Par) : Prop := ∀ a b : ℤ, (a : ℝ) * p.k1 + b * p.k2 = 0 → a = 0 ∧ b = 0

/-- `γ` has the moments of the stationary law of the two variances, which are independent -/
structure StatLaw (p : Par) (γ : Measure (ℝ × ℝ)) : Prop where
  integrable : ∀ a b : ℕ, Integrable (fun x : ℝ × ℝ => x.1 ^ a * x.2 ^ b) γ
  moment : ∀ a b : ℕ, ∫ x, x.1 ^ a * x.2 ^ b ∂γ =
    Ito.vMoment p.k1 p.θ1 p.σ1 a * Ito.vMoment p.k2 p.θ2 p.σ2 b

/-- `E` is a conditional expectation given `(v_{1,n-1}, v_{2,n-1}) = x`, for the interval from
`t0 = (n-1)h` to `t0 + h = nh`: its joint moments are those of the Itô moment equation -/
def CondLaw (p : Par) (t0 : ℝ) (x : ℝ × ℝ) (E : Rv →ₗ[ℝ] ℝ) : Prop :=
  ∃ M, Itos.ItoRec2 (p.it t0 x) M ∧ ∀ a b c d e : ℕ,
    E (X 0 ^ a * X 1 ^ b * X 2 ^ c * X 3 ^ d * X 4 ^ e) = M a b c d e (t0 + p.h)

/-- `v_{1,n} = e^{-k1 h} v_{1,n-1} + θ1 (1 - e^{-k1 h}) + σ1 e^{-k1 nh} IE_{1,n}` -/
noncomputable def vNext1 (p : Par) (t0 x : ℝ) : Rv :=
  C (Real.exp (-(p.k1 * p.h)) * x + p.θ1 * (1 - Real.exp (-(p.k1 * p.h)))) +
    C (p.σ1 * Real.exp (-(p.k1 * (t0 + p.h)))) * X 0

/-- `v_{2,n} = e^{-k2 h} v_{2,n-1} + θ2 (1 - e^{-k2 h}) + σ2 e^{-k2 nh} IE_{2,n}` -/
noncomputable def vNext2 (p : Par) (t0 x : ℝ) : Rv :=
  C (Real.exp (-(p.k2 * p.h)) * x + p.θ2 * (1 - Real.exp (-(p.k2 * p.h)))) +
    C (p.σ2 * Real.exp (-(p.k2 * (t0 + p.h)))) * X 2

/-- `IV_{1,n} = θ1 h - (v_{1,n} - v_{1,n-1}) / k1 + (σ1 / k1) I_{1,n}` -/
noncomputable def intVar1 (p : Par) (t0 x : ℝ) : Rv :=
  C (p.θ1 * p.h) - C (1 / p.k1) * (vNext1 p t0 x - C x) + C (p.σ1 / p.k1) * X 1

/-- `IV_{2,n} = θ2 h - (v_{2,n} - v_{2,n-1}) / k2 + (σ2 / k2) I_{2,n}` -/
noncomputable def intVar2 (p : Par) (t0 x : ℝ) : Rv :=
  C (p.θ2 * p.h) - C (1 / p.k2) * (vNext2 p t0 x - C x) + C (p.σ2 / p.k2) * X 3

/-- the return `y_n = μ h - (IV_{1,n} + IV_{2,n}) / 2 + I*_n` -/
noncomputable def ret (p : Par) (t0 : ℝ) (x : ℝ × ℝ) : Rv :=
  C (p.μ * p.h) - C (1 / 2) * (intVar1 p t0 x.1 + intVar2 p t0 x.2) + X 4

/-- `E[f(v_{n-1}, IE_n, I_n, I*_n)]`: first given `v_{n-1} = x`, then over the stationary law -/
noncomputable def expect (γ : Measure (ℝ × ℝ)) (E : ℝ × ℝ → Rv →ₗ[ℝ] ℝ) (f : ℝ × ℝ → Rv) : ℝ :=
  ∫ x, E x (f x) ∂γ

/-- the mean return -/
noncomputable def mean (p : Par) : ℝ := (p.μ - p.θ1 / 2 - p.θ2 / 2) * p.h

/-- `E` has, up to the total order `N`, the joint moments that `itos_mom` computes -/
def CompLaw (g : Itos.Cfg) (N : ℕ∞) (p : Par) (t0 : ℝ) (x : ℝ × ℝ) (E : Rv →ₗ[ℝ] ℝ) : Prop :=
  ∀ a b c d e : ℕ, ((a + b + c + d + e : ℕ) : ℕ∞) ≤ N →
    ∃ P, Itos.moment g ((a : ℤ), (b : ℤ), (c : ℤ), (d : ℤ), (e : ℤ)) = .ok P ∧
      E (X 0 ^ a * X 1 ^ b * X 2 ^ c * X 3 ^ d * X 4 ^ e) = Poly.ev (Itos.dval (p.it t0 x) (t0 + p.h)) P

/-- polynomials in the two variances at the start of an interval -/
abbrev Pol := MvPolynomial (Fin 2) ℝ

/-- the variances, or their values, in the place of the two variables -/
def two {α : Type} (a b : α) : Fin 2 → α := ![a, b]

/-- `Q` is the conditional moment `E[y_{n+1}^l | v_{1,n} = z1, v_{2,n} = z2]` as a polynomial, at the
points of a box with infinite sides -/
def CondPoly (g : Itos.Cfg) (p : Par) (t1 : ℝ) (l : ℕ) (Q : Pol) : Prop :=
  ∃ (E : ℝ × ℝ → Rv →ₗ[ℝ] ℝ) (S1 S2 : Set ℝ), S1.Infinite ∧ S2.Infinite ∧
    (∀ z ∈ S1 ×ˢ S2, CompLaw g ⊤ p t1 z (E z)) ∧
    ∀ z ∈ S1 ×ˢ S2, eval (two z.1 z.2) Q = E z (ret p t1 z ^ l)

/-- `Q` is that conditional moment for the Itô moment equation -/
def TruePoly (p : Par) (t1 : ℝ) (l : ℕ) (Q : Pol) : Prop :=
  ∃ (E : ℝ × ℝ → Rv →ₗ[ℝ] ℝ) (S1 S2 : Set ℝ), S1.Infinite ∧ S2.Infinite ∧
    (∀ z ∈ S1 ×ˢ S2, CondLaw p t1 z (E z)) ∧
    ∀ z ∈ S1 ×ˢ S2, eval (two z.1 z.2) Q = E z (ret p t1 z ^ l)

/-- the part of the third moment, for one factor, that the code leaves out -/
noncomputable def gap3 (k θ σ h : ℝ) : ℝ :=
  3 * σ ^ 4 * θ / (8 * k ^ 5) * (3 / 2 - 2 * Real.exp (-(k * h)) - 2 * (k * h) * Real.exp (-(k * h)) +
    Real.exp (-(k * h)) ^ 2 / 2 + k * h * Real.exp (-(k * h)) ^ 2)

/-- the parameters a derivative can be taken with respect to, by their names in `par` -/
def Par.get (p : Par) (wrt : String) : ℝ :=
  if wrt = "k1" then p.k1 else if wrt = "k2" then p.k2 else if wrt = "mu" then p.μ
  else if wrt = "theta1" then p.θ1 else if wrt = "sigma_v1" then p.σ1
  else if wrt = "theta2" then p.θ2 else if wrt = "sigma_v2" then p.σ2 else 0

/-- `p` with the named parameter replaced by `s` -/
def Par.set (p : Par) (wrt : String) (s : ℝ) : Par :=
  if wrt = "k1" then { p with k1 := s } else if wrt = "k2" then { p with k2 := s }
  else if wrt = "mu" then { p with μ := s }
  else if wrt = "theta1" then { p with θ1 := s } else if wrt = "sigma_v1" then { p with σ1 := s }
  else if wrt = "theta2" then { p with θ2 := s } else if wrt = "sigma_v2" then { p with σ2 := s } else p

/-- `d` returns the derivative at `s0` of the function that `f` computes; `f` does not raise near `s0` -/
def IsDeriv (f : ℝ → Except PyErr ℝ) (d : Except PyErr ℝ) (s0 : ℝ) : Prop :=
  ∃ v F, d = .ok v ∧ (∀ᶠ s in nhds s0, f s = .ok (F s)) ∧ HasDerivAt F v s0

/-- the supported names -/
def wrts : List String := ["k1", "k2", "mu", "theta1", "sigma_v1", "theta2", "sigma_v2"]

end Ajd.Fsv2
