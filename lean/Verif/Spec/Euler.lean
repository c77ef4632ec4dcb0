import Verif.Model.Euler
import Mathlib.Algebra.BigOperators.Group.Finset.Basic

/-! What the Euler generators should compute, written without the loops of the code: the truncated
Euler scheme as a recursion for the variance and sums over the steps. -/

namespace Ajd.Euler.Spec

open Finset

/-! ### one-factor models -/

/-- variance after `j` steps of length `δ` from `v`, with standard normal draws `ξ` -/
noncomputable def path (k θ σ δ v : ℝ) (ξ : ℕ → ℝ) : ℕ → ℝ
  | 0 => v
  | j + 1 => max 0 (path k θ σ δ v ξ j + k * (θ - path k θ σ δ v ξ j) * δ +
      σ * √(path k θ σ δ v ξ j) * (√δ * ξ j))

/-- the return over `n` steps, with variance path `V` -/
noncomputable def ret1 (μ ρ h : ℝ) (n : ℕ) (δ : ℝ) (V ξ ξ2 : ℕ → ℝ) : ℝ :=
  μ * h - (∑ j ∈ range n, V j * δ) / 2 + ρ * ∑ j ∈ range n, √(V j) * (√δ * ξ j) +
    √(1 - ρ ^ 2) * ∑ j ∈ range n, √(V j) * (√δ * ξ2 j)

/-- variance at the beginning of the `i`-th interval of a trajectory -/
noncomputable def start (k θ σ δ v : ℝ) (n : ℕ) (ξ : ℕ → ℕ → ℝ) : ℕ → ℝ
  | 0 => v
  | i + 1 => path k θ σ δ (start k θ σ δ v n ξ i) (ξ i) n

/-- sum of `m` normal jumps -/
noncomputable def jumps (m : ℕ) (μj σj : ℝ) (g : ℕ → ℝ) : ℝ := m * μj + σj * ∑ l ∈ range m, g l

/-! ### two-factor models -/

/-- the return over `n` steps of the two-factor model, with variance paths `V1`, `V2` -/
noncomputable def ret2 (μ h : ℝ) (n : ℕ) (δ : ℝ) (V1 V2 ξ : ℕ → ℝ) : ℝ :=
  μ * h - (∑ j ∈ range n, (V1 j + V2 j) * δ) / 2 + ∑ j ∈ range n, √(V1 j + V2 j) * (√δ * ξ j)

/-! ### SVVJ -/

/-- a step of the simulation: from time `start` over the time `dur`, with a jump at its end or not -/
structure Ev where
  start : ℝ
  dur : ℝ
  jump : Option ℝ

/-- the steps cover the time from `a` to `b` without gap or overlap -/
def Chain : ℝ → List Ev → ℝ → Prop
  | a, [], b => a = b
  | a, e :: es, b => e.start = a ∧ 0 ≤ e.dur ∧ Chain (a + e.dur) es b

/-- the jumps of a list of steps: time and size -/
def jumpsOf (es : List Ev) : List (ℝ × ℝ) :=
  es.filterMap fun e => e.jump.map fun J => (e.start + e.dur, J)

/-- variance after one step from `v` -/
noncomputable def next (k θ σ : ℝ) (e : Ev) (v ξ : ℝ) : ℝ :=
  max 0 (v + k * (θ - v) * e.dur + σ * √v * (√e.dur * ξ)) + e.jump.getD 0

/-- the Euler sum of `∫ w √v dW` over the steps; `ξ (c + i)` drives the variance in the `i`-th step and
`ζ (c + i)` is the increment in the integral -/
noncomputable def integ (k θ σ : ℝ) (w : Ev → ℝ) (ξ ζ : ℕ → ℝ) : List Ev → ℕ → ℝ → ℝ
  | [], _, _ => 0
  | e :: es, c, v =>
    w e * (√v * (√e.dur * ζ c)) + integ k θ σ w ξ ζ es (c + 1) (next k θ σ e v (ξ c))

/-- the given jumps with time at most `T`, as (time, size) -/
noncomputable def jumpsTo (T : ℝ) (js ts : List ℝ) : List (ℝ × ℝ) :=
  (ts.zip js).filter fun x => x.1 ≤ T

/-- the return of the SVVJ model for the three integrals over `[0, T]` -/
noncomputable def retV (v0 μ k θ σ ρ T : ℝ) (js ts : List ℝ) (IE I I2 : ℝ) : ℝ :=
  (μ - θ / 2) * T - (v0 - θ) * ((1 - Real.exp (-k * T)) / (2 * k)) +
    Real.exp (-k * T) / (2 * k) * ((jumpsTo T js ts).map fun x => Real.exp (k * x.1) * x.2).sum -
    ((jumpsTo T js ts).map fun x => x.2).sum / (2 * k) +
    σ * Real.exp (-k * T) / (2 * k) * IE + (ρ - σ / (2 * k)) * I + √(1 - ρ ^ 2) * I2

/-! ### SRJD -/

/-- exact step of the square-root diffusion over the time `τ`: a scaled non-central chi-square
variable; `x d l` is the draw with `d` degrees of freedom and non-centrality `l` -/
noncomputable def cir (k θ σ v τ : ℝ) (x : ℝ → ℝ → ℝ) : ℝ :=
  let c := σ ^ 2 * (1 - Real.exp (-k * τ)) / (4 * k)
  c * x (4 * θ * k / σ ^ 2) (v * Real.exp (-k * τ) / c)

/-- value at `T` from value `v` at time `a` with the jumps (time, size) after `a`, the first draw being
`x j` -/
noncomputable def srjd (k θ σ T : ℝ) (x : ℕ → ℝ → ℝ → ℝ) : List (ℝ × ℝ) → ℕ → ℝ → ℝ → ℝ
  | [], j, a, v => if a < T then cir k θ σ v (T - a) (x j) else v
  | (τ, J) :: l, j, a, v => srjd k θ σ T x l (j + 1) τ (cir k θ σ v (τ - a) (x j) + J)

end Ajd.Euler.Spec
