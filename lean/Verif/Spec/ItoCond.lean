import Verif.Spec.Ito
import Verif.Spec.Utils
import Verif.Model.ItoCond

/-! Specification of the joint moments given the initial variance and the jumps of the variance
(docstring of ito_cond_mom.py, equations `ito-jmp-moment-ii` and `fZ`). -/

namespace Ajd.ItoCond
open MeasureTheory Utils

/-- parameters, initial variance and the jumps of the variance: times `s`, sizes `J` -/
structure Par where
  k : ℝ
  θ : ℝ
  σ : ℝ
  v : ℝ
  N : ℕ
  s : Fin N → ℝ
  J : Fin N → ℝ

/-- jump sizes of `Z_t`: the jumps after `t` have not happened -/
noncomputable def Par.upTo (x : Par) (t : ℝ) (i : Fin x.N) : ℝ := if x.s i ≤ t then x.J i else 0

/-- `IEZ_t = Σ_{s_i <= t} e^{k s_i} J_i` -/
noncomputable def Par.IEZ (x : Par) (t : ℝ) : ℝ :=
  ∑ i, if x.s i ≤ t then Real.exp (x.k * x.s i) * x.J i else 0

/-- `f_{Z_t}(l, o, p, q)` -/
noncomputable def zval (x : Par) (t : ℝ) (z : Tup) : ℝ :=
  fZSpec z.l.length (fun i => z.l.getD i 0) (fun i => z.o.getD i 0) (fun i => z.p.getD i 0)
    (fun i => z.q.getD i 0) x.k x.s (x.upTo t)

/-- the last running maximum, 0 if there is no summation at all -/
noncomputable def lastMax : {n N : ℕ} → (s : Fin N → ℝ) → (j : Fin n → Fin N) → ℝ
  | 0, _, _, _ => 0
  | _ + 1, _, s, j => runMax s j (Fin.last _)

/-- `f_{Z_t}(l, o, p, q)` with each summand multiplied by `e^{a k m} m^b`, where `m` is the last of
its running maxima -/
noncomputable def zvalMul (x : Par) (t : ℝ) (z : Tup) (a b : ℤ) : ℝ :=
  ∑ j : Fin z.l.length → Fin x.N,
    (∏ i : Fin z.l.length, (Real.exp (z.l.getD i 0 * x.k * x.s (j i)) * x.upTo t (j i) *
      x.s (j i) ^ z.o.getD i 0)) *
    (∏ i : Fin z.l.length, if (i : ℕ) = 0 then 1 else
      Real.exp (z.p.getD (i - 1) 0 * x.k * runMax x.s j i) * runMax x.s j i ^ z.q.getD (i - 1) 0) *
    (Real.exp (a * x.k * lastMax x.s j) * lastMax x.s j ^ b)

/-- exponent tuples that describe a functional of the jumps: lengths agree, no negative power of a
time -/
def ZOK (z : Tup) : Prop :=
  z.o.length = z.l.length ∧ z.p.length = z.l.length - 1 ∧ z.q.length = z.l.length - 1 ∧
    (∀ a ∈ z.o, 0 ≤ a) ∧ ∀ a ∈ z.q, 0 ≤ a

/-- meaning of a key at time `t` -/
noncomputable def jval (x : Par) (t : ℝ) (key : JKey) : ℝ :=
  Real.exp (ix key.b 0 * x.k * t) * t ^ ix key.b 1 * x.k ^ (-ix key.b 2) * (x.v - x.θ) ^ ix key.b 3 *
    x.θ ^ ix key.b 4 * x.σ ^ ix key.b 5 * zval x t key.z

/-- a key of a joint moment: powers of everything but `e^{kt}` and `k` are not negative -/
def KOK (key : JKey) : Prop :=
  key.b.length = 6 ∧ 0 ≤ ix key.b 1 ∧ 0 ≤ ix key.b 3 ∧ 0 ≤ ix key.b 4 ∧ 0 ≤ ix key.b 5 ∧
    ZOK key.z ∧ key.c = []

/-- `∫_0^t e^{(a+1)ks} v_s F_s ds` for the variance
`v_s = e^{-ks} (v_0 - θ) + θ + σ e^{-ks} IE_s + e^{-ks} IEZ_s`, where `f` is the conditional
expectation of `F` and `g` that of `F * IE`. -/
noncomputable def quad (x : Par) (a : ℤ) (f g : ℝ → ℝ) (t : ℝ) : ℝ :=
  (x.v - x.θ) * (∫ s in (0 : ℝ)..t, Real.exp (a * x.k * s) * f s) +
  x.θ * (∫ s in (0 : ℝ)..t, Real.exp ((a + 1 : ℤ) * x.k * s) * f s) +
  x.σ * (∫ s in (0 : ℝ)..t, Real.exp (a * x.k * s) * g s) +
  ∫ s in (0 : ℝ)..t, Real.exp (a * x.k * s) * (x.IEZ s * f s)

/-- The recursive integral equation `ito-jmp-moment-ii` for
`M n1 n2 n3 t = E[IE_t^{n1} I_t^{n2} I*_t^{n3} | v_0, z(s), 0 <= s <= t]`. -/
structure ItoRecZ (x : Par) (M : ℕ → ℕ → ℕ → ℝ → ℝ) : Prop where
  zero : ∀ t, 0 ≤ t → M 0 0 0 t = 1
  step : ∀ n1 n2 n3 : ℕ, 0 < n1 + n2 + n3 → ∀ t, 0 ≤ t → M n1 n2 n3 t =
    (n1 : ℝ) * (n1 - 1) / 2 * quad x 1 (M (n1 - 2) n2 n3) (M (n1 - 1) n2 n3) t +
    (n2 : ℝ) * (n2 - 1) / 2 * quad x (-1) (M n1 (n2 - 2) n3) (M (n1 + 1) (n2 - 2) n3) t +
    (n1 : ℝ) * n2 * quad x 0 (M (n1 - 1) (n2 - 1) n3) (M n1 (n2 - 1) n3) t +
    (n3 : ℝ) * (n3 - 1) / 2 * quad x (-1) (M n1 n2 (n3 - 2)) (M (n1 + 1) n2 (n3 - 2)) t

end Ajd.ItoCond
