import Verif.Spec.Svvj
import Verif.Spec.Cpp
import Verif.Model.Svij

/-! Specification of the model with independent jumps in the variance and in the price: the return is
that of `Spec/Svvj.lean` plus an independent compound Poisson variable with normal jumps. -/

namespace Ajd.Svij
open MeasureTheory MvPolynomial ProbabilityTheory ItoCond

/-- law of the sum of the jumps of the price up to time `h` -/
noncomputable def jumpLaw (p : Par) : Measure ℝ :=
  Cpp.cppLaw (p.lam * p.h).toNNReal (gaussianReal p.μs (p.σs ^ 2).toNNReal)

/-- the return given the sum `z` of the jumps of the price -/
noncomputable def ret (p : Par) (z : ℝ) : Fsv1.Rv := Svvj.ret p.toPar + C z

/-- `E[f]` for `f` depending on the sum `z` of the jumps of the price and on the Itô integrals, given
the initial variance and the jumps of the variance -/
noncomputable def expect (p : Par) (E : Fsv1.Rv →ₗ[ℝ] ℝ) (f : ℝ → Fsv1.Rv) : ℝ :=
  ∫ z, E (f z) ∂(jumpLaw p)

/-- value of the exponents of the jump parameters -/
noncomputable def vJ (p : Par) (K : JKey) : ℝ :=
  p.lam ^ ix K.c 3 * p.μs ^ ix K.c 4 * p.σs ^ ix K.c 5

/-- value of a key of the central moments -/
noncomputable def vC (p : Par) (K : JKey) : ℝ := Svvj.vC p.toPar K * vJ p K

/-- value of a key of the moments -/
noncomputable def vM (p : Par) (K : JKey) : ℝ := Svvj.vM p.toPar K * vJ p K

/-- a key of the central moments -/
def KC (K : JKey) : Prop :=
  K.b.length = 6 ∧ 0 ≤ ix K.b 1 ∧ 0 ≤ ix K.b 3 ∧ 0 ≤ ix K.b 4 ∧ 0 ≤ ix K.b 5 ∧ ZOK K.z ∧
    K.c.length = 6 ∧ ∀ i, 0 ≤ ix K.c i

/-- a key of the moments -/
def KM (K : JKey) : Prop :=
  K.b.length = 8 ∧ 0 ≤ ix K.b 1 ∧ 0 ≤ ix K.b 3 ∧ 0 ≤ ix K.b 4 ∧ 0 ≤ ix K.b 5 ∧ 0 ≤ ix K.b 6 ∧
    0 ≤ ix K.b 7 ∧ ZOK K.z ∧ K.c.length = 6 ∧ ∀ i, 0 ≤ ix K.c i

end Ajd.Svij
