import Verif.Spec.Cpp
import Mathlib.Probability.Distributions.Exponential
import Mathlib.Probability.ConditionalProbability
import Mathlib.MeasureTheory.Integral.IntervalIntegral.Basic

/-! Specification for `mdl_srjd`: square-root jump-diffusion with exponential jumps. -/

namespace Ajd.Srjd
open MeasureTheory ProbabilityTheory

/-- law of `e^{k u} J`, the jump time `u` being uniform on `(s, t]` and the jump size `J` exponential
with mean `μ` -/
noncomputable def jumpLaw (k μ s t : ℝ) : Measure ℝ :=
  ((cond volume (Set.Ioc s t)).prod (expMeasure (1 / μ))).map fun x => Real.exp (k * x.1) * x.2

/-- law of `IEZ_{s,t} = ∫_s^t e^{k u} dz(u) = ∑ e^{k u_i} J_i` for a compound Poisson process `z` with
intensity `lam` and exponential jumps of mean `μ` (docs/source/srjd.rst): given their number the jump
times are independent and uniform -/
noncomputable def iezLaw (k lam μ s t : ℝ) : Measure ℝ :=
  Cpp.cppLaw (lam * (t - s)).toNNReal (jumpLaw k μ s t)

/-- `E[IE_t^{m} IEZ_t^{n} | v_0]`, docs/source/srjd.rst "Conditional Moments - I": `Z i s t` stands for
`E[IEZ_{s,t}^i]`, and `e^{ks} v_s = a + b e^{ks} + σ IE_s + IEZ_s`. Itô's formula gives

`E[IE_t^{m} IEZ_t^{n}] = ∑_i (n choose i) m(m-1)/2 ∫_0^t e^{ks} E[IE_s^{m-2} IEZ_s^i (e^{ks} v_s)] Z(n-i,s,t) ds`,

the four integrals below being the documented `p_1, ..., p_4`. -/
noncomputable def jointMom (k a b σ : ℝ) (Z : ℕ → ℝ → ℝ → ℝ) : ℕ → ℕ → ℝ → ℝ
  | 0, n, t => Z n 0 t
  | 1, _, _ => 0
  | m + 2, n, t => ∑ i ∈ Finset.range (n + 1), n.choose i * ((m + 2 : ℕ) * (m + 1 : ℕ) / 2) *
      (a * (∫ u in (0:ℝ)..t, Real.exp (k * u) * jointMom k a b σ Z m i u * Z (n - i) u t) +
        b * (∫ u in (0:ℝ)..t, Real.exp (2 * k * u) * jointMom k a b σ Z m i u * Z (n - i) u t) +
        σ * (∫ u in (0:ℝ)..t, Real.exp (k * u) * jointMom k a b σ Z (m + 1) i u * Z (n - i) u t) +
        ∫ u in (0:ℝ)..t, Real.exp (k * u) * jointMom k a b σ Z m (i + 1) u * Z (n - i) u t)

/-- the moments of `IEZ_{s,t}` -/
noncomputable def rawZ (k lam μ : ℝ) (n : ℕ) (s t : ℝ) : ℝ := ∫ x, x ^ n ∂(iezLaw k lam μ s t)

/-- the central moments of `IEZ_{s,t}` -/
noncomputable def centralZ (k lam μ : ℝ) (n : ℕ) (s t : ℝ) : ℝ :=
  ∫ x, (x - ∫ y, y ∂(iezLaw k lam μ s t)) ^ n ∂(iezLaw k lam μ s t)

end Ajd.Srjd
