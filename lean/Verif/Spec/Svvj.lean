import Verif.Spec.ItoCond
import Verif.Spec.Fsv1
import Verif.Model.Svvj

/-! Specification of the model with jumps in the variance (docs/source, SVVJ), given the initial
variance and all jumps of the variance up to the time `h`. -/

namespace Ajd.Svvj
open MvPolynomial ItoCond

/-- the jumps and the parameters as used in `Spec/ItoCond.lean` -/
noncomputable def Par.cir (p : Par) : ItoCond.Par :=
  ⟨p.k, p.θ, p.σ, p.v0, p.jumpsize.length, fun i => p.jumptime.getD i 0, fun i => p.jumpsize.getD i 0⟩

/-- parameters of the model: one jump time in `[0, h]` for every jump size -/
structure Par.OK (p : Par) : Prop where
  k : p.k ≠ 0
  h : 0 ≤ p.h
  ρ : 0 ≤ 1 - p.ρ ^ 2
  len : p.jumptime.length = p.jumpsize.length
  time : ∀ s ∈ p.jumptime, 0 ≤ s ∧ s ≤ p.h

/-- the jumps come one at a time, after the time 0 -/
def Par.Simple (p : Par) : Prop := p.jumptime.Nodup ∧ ∀ s ∈ p.jumptime, 0 < s

/-- `E` is the conditional expectation given `v_0` and the jumps: its joint moments of `X 0 = IE_h`,
`X 1 = I_h`, `X 2 = I*_h` solve the moment equation -/
def CondLaw (p : Par) (E : Fsv1.Rv →ₗ[ℝ] ℝ) : Prop :=
  ∃ M, ItoRecZ p.cir M ∧ ∀ a b c : ℕ, E (X 0 ^ a * X 1 ^ b * X 2 ^ c) = M a b c p.h

/-- `IZ_h = Σ J_i` -/
noncomputable def IZ (p : Par) : ℝ := p.jumpsize.sum

/-- `IEZ_h = Σ e^{k s_i} J_i` -/
noncomputable def IEZ (p : Par) : ℝ :=
  (List.zipWith (fun s J => Real.exp (p.k * s) * J) p.jumptime p.jumpsize).sum

/-- `v_h = e^{-kh} (v_0 - θ) + θ + σ e^{-kh} IE_h + e^{-kh} IEZ_h` -/
noncomputable def vEnd (p : Par) : Fsv1.Rv :=
  C (Real.exp (-(p.k * p.h)) * (p.v0 - p.θ) + p.θ + Real.exp (-(p.k * p.h)) * IEZ p) +
    C (p.σ * Real.exp (-(p.k * p.h))) * X 0

/-- the integrated variance, from `v_h - v_0 = k θ h - k IV_h + σ I_h + IZ_h` -/
noncomputable def intVar (p : Par) : Fsv1.Rv :=
  C (p.θ * p.h) - C (1 / p.k) * (vEnd p - C p.v0) + C (p.σ / p.k) * X 1 + C (IZ p / p.k)

/-- the return `y_h = μ h - IV_h / 2 + ρ I_h + √(1-ρ²) I*_h` -/
noncomputable def ret (p : Par) : Fsv1.Rv :=
  C (p.μ * p.h) - C (1 / 2) * intVar p + C p.ρ * X 1 + C (Real.sqrt (1 - p.ρ ^ 2)) * X 2

/-- value of a key of the central moments -/
noncomputable def vC (p : Par) (K : JKey) : ℝ :=
  Real.exp (ix K.b 0 * p.k * p.h) * p.h ^ ix K.b 1 * p.k ^ (-ix K.b 2) * (p.v0 - p.θ) ^ ix K.b 3 *
    p.θ ^ ix K.b 4 * p.σ ^ ix K.b 5 * zval p.cir p.h K.z * (p.σ / (2 * p.k)) ^ ix K.c 0 *
    (p.ρ - p.σ / (2 * p.k)) ^ ix K.c 1 * Real.sqrt (1 - p.ρ ^ 2) ^ ix K.c 2

/-- a key of the central moments -/
def KC (K : JKey) : Prop :=
  K.b.length = 6 ∧ 0 ≤ ix K.b 1 ∧ 0 ≤ ix K.b 3 ∧ 0 ≤ ix K.b 4 ∧ 0 ≤ ix K.b 5 ∧ ZOK K.z ∧
    K.c.length = 3 ∧ 0 ≤ ix K.c 0 ∧ 0 ≤ ix K.c 1 ∧ 0 ≤ ix K.c 2

/-- value of a key after `simplify(poly, 0)` -/
noncomputable def vC0 (p : Par) (K : JKey) : ℝ :=
  Real.exp (-(ix K.b 0) * p.k * p.h) * p.h ^ ix K.b 1 * p.k ^ (-ix K.b 2) *
    (p.v0 - p.θ) ^ ix K.b 3 * p.θ ^ ix K.b 4 * p.σ ^ ix K.b 5 * zval p.cir p.h K.z *
    (p.σ / (2 * p.k)) ^ ix K.c 0 * (p.ρ - p.σ / (2 * p.k)) ^ ix K.c 1 *
    Real.sqrt (1 - p.ρ ^ 2) ^ ix K.c 2

/-- value of a key after `simplify(poly, 1)` -/
noncomputable def vC1 (p : Par) (K : JKey) : ℝ :=
  Real.exp (-(ix K.b 0) * p.k * p.h) * p.h ^ ix K.b 1 * p.k ^ (-ix K.b 2) *
    (p.v0 - p.θ) ^ ix K.b 3 * p.θ ^ ix K.b 4 * p.σ ^ ix K.b 5 * zval p.cir p.h K.z *
    p.ρ ^ ix K.c 0

/-- value of a key of the moments -/
noncomputable def vM (p : Par) (K : JKey) : ℝ :=
  Real.exp (ix K.b 0 * p.k * p.h) * p.h ^ ix K.b 1 * p.k ^ (-ix K.b 2) *
    ((1 - Real.exp (-(p.k * p.h))) / (2 * p.k)) ^ ix K.b 3 * (p.μ - p.θ / 2) ^ ix K.b 4 *
    (p.v0 - p.θ) ^ ix K.b 5 * p.θ ^ ix K.b 6 * p.σ ^ ix K.b 7 * zval p.cir p.h K.z *
    (p.σ / (2 * p.k)) ^ ix K.c 0 * (p.ρ - p.σ / (2 * p.k)) ^ ix K.c 1 *
    Real.sqrt (1 - p.ρ ^ 2) ^ ix K.c 2

/-- a key of the moments -/
def KM (K : JKey) : Prop :=
  K.b.length = 8 ∧ 0 ≤ ix K.b 1 ∧ 0 ≤ ix K.b 3 ∧ 0 ≤ ix K.b 4 ∧ 0 ≤ ix K.b 5 ∧ 0 ≤ ix K.b 6 ∧
    0 ≤ ix K.b 7 ∧ ZOK K.z ∧ K.c.length = 3 ∧ 0 ≤ ix K.c 0 ∧ 0 ≤ ix K.c 1 ∧ 0 ≤ ix K.c 2

end Ajd.Svvj
