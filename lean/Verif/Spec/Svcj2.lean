import Verif.Spec.Svvj
import Verif.Spec.Cpp
import Verif.Model.Svcj2

/-! Specification of the model with contemporaneous jumps: whenever the variance jumps by `x` the price
jumps by a normal variable with mean `μ + ρ x` and variance `σ²`; these are independent of one another and
of the rest. -/

namespace Ajd.Svcj
open MeasureTheory MvPolynomial ProbabilityTheory ItoCond

/-- law of the sum of the jumps of the price given the jumps of the variance -/
noncomputable def jumpSum (μ ρ σ : ℝ) : List ℝ → Measure ℝ
  | [] => Measure.dirac 0
  | x :: J => Measure.conv (gaussianReal (μ + ρ * x) (σ ^ 2).toNNReal) (jumpSum μ ρ σ J)

/-- the same for the parameters `p` -/
noncomputable def jumpLaw (p : Par) : Measure ℝ := jumpSum p.μs p.ρJ p.σs p.jumpsize

/-- the return given the sum `z` of the jumps of the price -/
noncomputable def ret (p : Par) (z : ℝ) : Fsv1.Rv := Svvj.ret p.toPar + C z

/-- `E[f]` for `f` depending on the sum `z` of the jumps of the price and on the Itô integrals, given
the initial variance and the jumps of the variance -/
noncomputable def expect (p : Par) (E : Fsv1.Rv →ₗ[ℝ] ℝ) (f : ℝ → Fsv1.Rv) : ℝ :=
  ∫ z, E (f z) ∂(jumpLaw p)

/-- value of a key `(mu_s, rho_J, sigma_s, (J_1, ..., J_n))` -/
noncomputable def vIZ (μ ρ σ : ℝ) (J : List ℝ) (k : List ℤ) : ℝ :=
  μ ^ ix k 0 * ρ ^ ix k 1 * σ ^ ix k 2 * (List.zipWith (· ^ ·) J (k.drop 3)).prod

/-- value of a key of the moments -/
noncomputable def vM (p : Par) (K : JKey) : ℝ :=
  Svvj.vM p.toPar K * vIZ p.μs p.ρJ p.σs p.jumpsize (K.c.drop 3)

/-- value of a key of the central moments -/
noncomputable def vC (p : Par) (K : JKey) : ℝ := Svvj.vC p.toPar K * p.σs ^ ix K.c 3

/-- a key `(mu_s, rho_J, sigma_s, (J_1, ..., J_N))` -/
def KIZ (N : ℕ) (k : List ℤ) : Prop := k.length = 3 + N ∧ ∀ i, 0 ≤ ix k i

/-- a key of the moments for `N` jumps -/
def KM (N : ℕ) (K : JKey) : Prop :=
  K.b.length = 8 ∧ 0 ≤ ix K.b 1 ∧ 0 ≤ ix K.b 3 ∧ 0 ≤ ix K.b 4 ∧ 0 ≤ ix K.b 5 ∧ 0 ≤ ix K.b 6 ∧
    0 ≤ ix K.b 7 ∧ ZOK K.z ∧ K.c.length = 6 + N ∧ ∀ i, 0 ≤ ix K.c i

/-- a key of the central moments -/
def KC (K : JKey) : Prop :=
  K.b.length = 6 ∧ 0 ≤ ix K.b 1 ∧ 0 ≤ ix K.b 3 ∧ 0 ≤ ix K.b 4 ∧ 0 ≤ ix K.b 5 ∧ ZOK K.z ∧
    K.c.length = 4 ∧ ∀ i, 0 ≤ ix K.c i

end Ajd.Svcj
