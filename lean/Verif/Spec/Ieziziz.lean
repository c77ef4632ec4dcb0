import Verif.Spec.Cpp
import Mathlib.Probability.Distributions.Exponential
import Mathlib.Probability.ConditionalProbability

/-! Specification for `mdl_svcj/ieziziz_mom.py`: the three jump integrals of the SVCJ model. -/

namespace Ajd.Ieziziz
open MeasureTheory ProbabilityTheory

/-- law of `(e^{ku} J, J, J*)`: the jump time `u` is uniform on `(s, t]`, the jump `J` of the variance is
exponential with mean `mu_v` and the jump `J*` of the price is normal; the three are independent -/
noncomputable def jumpLaw (k mu_v mu_s sigma_s s t : ℝ) : Measure (ℝ × ℝ × ℝ) :=
  ((ProbabilityTheory.cond volume (Set.Ioc s t)).prod
    ((expMeasure (1 / mu_v)).prod (gaussianReal mu_s (sigma_s ^ 2).toNNReal))).map
    fun x => (Real.exp (k * x.1) * x.2.1, x.2.1, x.2.2)

/-- law of `(IEZ_{s,t}, IZ_{s,t}, IZ*_{s,t}) = (∑ e^{k u_i} J_i, ∑ J_i, ∑ J*_i)`, the sums over the jump times
in `(s, t]` of one Poisson process with intensity `lmbd` (docs/source/svcj.rst, ieziziz_mom.py lines 5-30) -/
noncomputable def law (k lmbd mu_v mu_s sigma_s s t : ℝ) : Measure (ℝ × ℝ × ℝ) :=
  Cpp.cppLaw (lmbd * (t - s)).toNNReal (jumpLaw k mu_v mu_s sigma_s s t)

end Ajd.Ieziziz
