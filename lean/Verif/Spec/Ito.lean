import Verif.Spec.Poly
import Verif.Model.Table
import Mathlib.Analysis.SpecialFunctions.Exp
import Mathlib.MeasureTheory.Integral.IntervalIntegral.Basic

/-! Specification of the Itô moments (docs/source/theory.rst, equations `moment-v`, `ito-moment`). -/

namespace Ajd.Ito

open MeasureTheory

/-- meaning of a key `('e^{k x}', 'x', 'k^{-}')` with `x = t-(n-1)h` -/
noncomputable def etVal (k x : ℝ) (key : List ℤ) : ℝ :=
  Real.exp (ix key 0 * k * x) * x ^ ix key 1 * k ^ (-ix key 2)

/-- the parameters a conditional moment depends on; `t0 = (n-1)h`, `v = v_{n-1}` -/
structure Par where
  k : ℝ
  θ : ℝ
  σ : ℝ
  v : ℝ
  t0 : ℝ

/-- meaning of a key ('e^{k(n-1)h}', 'e^{k[t-(n-1)h]}', '[t-(n-1)h]', 'v_{n-1}', 'k^{-}', 'theta',
'sigma_v') at time `t` -/
noncomputable def momVal (p : Par) (t : ℝ) (key : List ℤ) : ℝ :=
  Real.exp (ix key 0 * p.k * p.t0) * Real.exp (ix key 1 * p.k * (t - p.t0)) *
    (t - p.t0) ^ ix key 2 * p.v ^ ix key 3 * p.k ^ (-ix key 4) * p.θ ^ ix key 5 * p.σ ^ ix key 6

/-- a key of a moment Poly whose positive-power components are not negative -/
def KeyOK (k : List ℤ) : Prop :=
  7 ≤ k.length ∧ 0 ≤ ix k 2 ∧ 0 ≤ ix k 3 ∧ 0 ≤ ix k 5 ∧ 0 ≤ ix k 6

/-- the factor selected by `tp`, docstring of `int_e_poly` -/
noncomputable def fac (p : Par) (tp : ℕ) : ℝ :=
  if tp = 1 then Real.exp (p.k * p.t0) * p.v
  else if tp = 2 then -(Real.exp (p.k * p.t0) * p.θ)
  else if tp = 3 then p.θ else p.σ

/-- The recursive integral equation `ito-moment` of theory.rst for
`M n3 n4 n5 t = E[IE_{n-1,t}^{n3} I_{n-1,t}^{n4} I*_{n-1,t}^{n5} | v_{n-1}]`. Coefficients such as
`n3 (n3 - 1) / 2` vanish when a term with a negative power would be mentioned. -/
structure ItoRec (p : Par) (M : ℕ → ℕ → ℕ → ℝ → ℝ) : Prop where
  zero : ∀ t, p.t0 ≤ t → M 0 0 0 t = 1
  step : ∀ n3 n4 n5 : ℕ, 0 < n3 + n4 + n5 → ∀ t, p.t0 ≤ t → M n3 n4 n5 t =
    (n3 : ℝ) * (n3 - 1) / 2 * (
      Real.exp (p.k * p.t0) * (p.v - p.θ) *
        (∫ s in p.t0..t, Real.exp (p.k * s) * M (n3 - 2) n4 n5 s) +
      p.θ * (∫ s in p.t0..t, Real.exp (2 * p.k * s) * M (n3 - 2) n4 n5 s) +
      p.σ * (∫ s in p.t0..t, Real.exp (p.k * s) * M (n3 - 1) n4 n5 s)) +
    (n4 : ℝ) * (n4 - 1) / 2 * (
      Real.exp (p.k * p.t0) * (p.v - p.θ) *
        (∫ s in p.t0..t, Real.exp (-p.k * s) * M n3 (n4 - 2) n5 s) +
      p.θ * (∫ s in p.t0..t, M n3 (n4 - 2) n5 s) +
      p.σ * (∫ s in p.t0..t, Real.exp (-p.k * s) * M (n3 + 1) (n4 - 2) n5 s)) +
    (n3 : ℝ) * n4 * (
      Real.exp (p.k * p.t0) * (p.v - p.θ) * (∫ s in p.t0..t, M (n3 - 1) (n4 - 1) n5 s) +
      p.θ * (∫ s in p.t0..t, Real.exp (p.k * s) * M (n3 - 1) (n4 - 1) n5 s) +
      p.σ * (∫ s in p.t0..t, M n3 (n4 - 1) n5 s)) +
    (n5 : ℝ) * (n5 - 1) / 2 * (
      Real.exp (p.k * p.t0) * (p.v - p.θ) *
        (∫ s in p.t0..t, Real.exp (-p.k * s) * M n3 n4 (n5 - 2) s) +
      p.θ * (∫ s in p.t0..t, M n3 n4 (n5 - 2) s) +
      p.σ * (∫ s in p.t0..t, Real.exp (-p.k * s) * M (n3 + 1) n4 (n5 - 2) s))

/-- the stationary moment of the variance, equation `moment-v` of theory.rst -/
noncomputable def vMoment (k θ σ : ℝ) (n : ℕ) : ℝ :=
  ∏ j ∈ Finset.range n, (θ + j * σ ^ 2 / (2 * k))

/-- meaning of a key ('theta', 'sigma_v^2/k') -/
noncomputable def vVal (k θ σ : ℝ) (key : List ℤ) : ℝ :=
  θ ^ ix key 0 * (σ ^ 2 / k) ^ ix key 1

end Ajd.Ito
