import Verif.Model.Itos
import Mathlib.Analysis.SpecialFunctions.Exp
import Mathlib.MeasureTheory.Integral.IntervalIntegral.Basic

/-! Specification of the joint moments of the two-factor model (docstring of itos_mom.py, equation
`ito-moment-m4m5m6m7m8`). -/

namespace Ajd.Itos
open MeasureTheory

/-- parameters, the time `u = (n-1)h` and the variances `v1`, `v2` at that time -/
structure Par where
  k1 : ℝ
  k2 : ℝ
  u : ℝ
  v1 : ℝ
  θ1 : ℝ
  σ1 : ℝ
  v2 : ℝ
  θ2 : ℝ
  σ2 : ℝ

/-- `n1 k1 + n2 k2` -/
def Par.rate (x : Par) (p : ℤ × ℤ) : ℝ := p.1 * x.k1 + p.2 * x.k2

/-- no combination of the two rates vanishes (footnote f1 of the docstring) -/
def Par.Generic (x : Par) : Prop := ∀ p : ℤ × ℤ, p ≠ (0, 0) → x.rate p ≠ 0

/-- `(n1 k1 + n2 k2)^{-i}` -/
noncomputable def den (x : Par) (d : Den) : ℝ := x.rate (d.1, d.2.1) ^ (-d.2.2)

/-- meaning of a key of `int_et` at `s = t-(n-1)h` -/
noncomputable def eval (x : Par) (s : ℝ) (key : EKey) : ℝ :=
  den x key.d * (Real.exp (x.rate key.e * s) * s ^ key.p)

/-- meaning of a key of a moment at time `t` -/
noncomputable def dval (x : Par) (t : ℝ) (key : DKey) : ℝ :=
  (key.d.map (den x)).prod * Real.exp (x.rate key.a * x.u) *
    (Real.exp (x.rate key.e * (t - x.u)) * (t - x.u) ^ ix key.c 0) *
    (x.v1 ^ ix key.c 1 * x.θ1 ^ ix key.c 2 * x.σ1 ^ ix key.c 3 *
      (x.v2 ^ ix key.c 4 * x.θ2 ^ ix key.c 5 * x.σ2 ^ ix key.c 6))

/-- `∫_u^t e^{(a+1)k1 s} v1(s) F_s ds` for the variance
`v1(s) = e^{-k1 s} e^{k1 u} (v1 - θ1) + θ1 + σ1 e^{-k1 s} IE1_s`, where `f` is the conditional expectation
of `F` and `g` that of `F * IE1`. -/
noncomputable def quad1 (x : Par) (a : ℤ) (f g : ℝ → ℝ) (t : ℝ) : ℝ :=
  Real.exp (x.k1 * x.u) * (x.v1 - x.θ1) * (∫ s in x.u..t, Real.exp (a * x.k1 * s) * f s) +
  x.θ1 * (∫ s in x.u..t, Real.exp ((a + 1 : ℤ) * x.k1 * s) * f s) +
  x.σ1 * (∫ s in x.u..t, Real.exp (a * x.k1 * s) * g s)

/-- the same for the second factor -/
noncomputable def quad2 (x : Par) (a : ℤ) (f g : ℝ → ℝ) (t : ℝ) : ℝ :=
  Real.exp (x.k2 * x.u) * (x.v2 - x.θ2) * (∫ s in x.u..t, Real.exp (a * x.k2 * s) * f s) +
  x.θ2 * (∫ s in x.u..t, Real.exp ((a + 1 : ℤ) * x.k2 * s) * f s) +
  x.σ2 * (∫ s in x.u..t, Real.exp (a * x.k2 * s) * g s)

/-- a family of conditional moments, indexed by the five orders and the time -/
abbrev Fam := ℕ → ℕ → ℕ → ℕ → ℕ → ℝ → ℝ

section
variable (x : Par) (M : Fam) (n4 n5 n6 n7 n8 : ℕ) (t : ℝ)

/-- terms with `m4(m4-1)/2` -/
noncomputable def term4 : ℝ := (n4 : ℝ) * (n4 - 1) / 2 *
  quad1 x 1 (M (n4 - 2) n5 n6 n7 n8) (M (n4 - 1) n5 n6 n7 n8) t
/-- terms with `m5(m5-1)/2` -/
noncomputable def term5 : ℝ := (n5 : ℝ) * (n5 - 1) / 2 *
  quad1 x (-1) (M n4 (n5 - 2) n6 n7 n8) (M (n4 + 1) (n5 - 2) n6 n7 n8) t
/-- terms with `m4 m5` -/
noncomputable def term45 : ℝ := (n4 : ℝ) * n5 *
  quad1 x 0 (M (n4 - 1) (n5 - 1) n6 n7 n8) (M n4 (n5 - 1) n6 n7 n8) t
/-- terms with `m6(m6-1)/2` -/
noncomputable def term6 : ℝ := (n6 : ℝ) * (n6 - 1) / 2 *
  quad2 x 1 (M n4 n5 (n6 - 2) n7 n8) (M n4 n5 (n6 - 1) n7 n8) t
/-- terms with `m7(m7-1)/2` -/
noncomputable def term7 : ℝ := (n7 : ℝ) * (n7 - 1) / 2 *
  quad2 x (-1) (M n4 n5 n6 (n7 - 2) n8) (M n4 n5 (n6 + 1) (n7 - 2) n8) t
/-- terms with `m6 m7` -/
noncomputable def term67 : ℝ := (n6 : ℝ) * n7 *
  quad2 x 0 (M n4 n5 (n6 - 1) (n7 - 1) n8) (M n4 n5 n6 (n7 - 1) n8) t
/-- terms with `m8(m8-1)/2` -/
noncomputable def term8 : ℝ := (n8 : ℝ) * (n8 - 1) / 2 *
  (quad1 x (-1) (M n4 n5 n6 n7 (n8 - 2)) (M (n4 + 1) n5 n6 n7 (n8 - 2)) t +
    quad2 x (-1) (M n4 n5 n6 n7 (n8 - 2)) (M n4 n5 (n6 + 1) n7 (n8 - 2)) t)

end

/-- The recursive equation `ito-moment-m4m5m6m7m8` for
`M n4 n5 n6 n7 n8 t = E[IE1^{n4} I1^{n5} IE2^{n6} I2^{n7} I*^{n8} | v_{1,n-1}, v_{2,n-1}]`. -/
structure ItoRec2 (x : Par) (M : Fam) : Prop where
  zero : ∀ t, x.u ≤ t → M 0 0 0 0 0 t = 1
  step : ∀ n4 n5 n6 n7 n8 : ℕ, 0 < n4 + n5 + n6 + n7 + n8 → ∀ t, x.u ≤ t → M n4 n5 n6 n7 n8 t =
    term4 x M n4 n5 n6 n7 n8 t + term5 x M n4 n5 n6 n7 n8 t + term45 x M n4 n5 n6 n7 n8 t +
    term6 x M n4 n5 n6 n7 n8 t + term7 x M n4 n5 n6 n7 n8 t + term67 x M n4 n5 n6 n7 n8 t +
    term8 x M n4 n5 n6 n7 n8 t

/-- orders the program is meant for -/
def Valid (i : Idx) : Prop :=
  0 ≤ i.1 ∧ 0 ≤ i.2.1 ∧ 0 ≤ i.2.2.1 ∧ 0 ≤ i.2.2.2.1 ∧ 0 ≤ i.2.2.2.2

/-- the moment with the orders `i` -/
def Fam.at (M : Fam) (i : Idx) (t : ℝ) : ℝ :=
  M i.1.toNat i.2.1.toNat i.2.2.1.toNat i.2.2.2.1.toNat i.2.2.2.2.toNat t

/-- a denominator: a non-negative power, 0 for the rate that vanishes identically -/
def DOK (t : Den) : Prop := 0 ≤ t.2.2 ∧ (t.1 = 0 → t.2.1 = 0 → t.2.2 = 0)

instance (t : Den) : Decidable (DOK t) := by unfold DOK; infer_instance

/-- a key of a moment: at least one denominator, and no negative power of anything -/
def KOK (key : DKey) : Prop := key.d ≠ [] ∧ (∀ t ∈ key.d, DOK t) ∧ ∀ j, 0 ≤ ix key.c j

end Ajd.Itos
