import Verif.Spec.ItoCond
import Verif.Model.SrjdJump
import Mathlib.Algebra.Polynomial.Basic

/-! Specification of the moments of the SRJD variance given the initial variance and the jumps
(docs/source/srjd.rst, equations `srjd-IE-moment` and `fZ_IE`). -/

namespace Ajd.SrjdJ
open MeasureTheory Polynomial

/-- the recursive equation `srjd-IE-moment` for `M m t = E[IE_t^m | v_0, z(s), 0 <= s <= t]`, where
`d(IE)_t = e^{kt} sqrt(v_t) dw_t` and
`v_t = e^{-kt} (v_0 - θ) + θ + σ e^{-kt} IE_t + e^{-kt} IEZ_t` -/
structure IERec (x : ItoCond.Par) (M : ℕ → ℝ → ℝ) : Prop where
  zero : ∀ t, 0 ≤ t → M 0 t = 1
  one : ∀ t, 0 ≤ t → M 1 t = 0
  step : ∀ m, ∀ t, 0 ≤ t → M (m + 2) t = ((m : ℝ) + 2) * (m + 1) / 2 *
    ((x.v - x.θ) * (∫ s in (0 : ℝ)..t, Real.exp (x.k * s) * M m s) +
      x.θ * (∫ s in (0 : ℝ)..t, Real.exp (2 * x.k * s) * M m s) +
      (∫ s in (0 : ℝ)..t, Real.exp (x.k * s) * (x.IEZ s * M m s)) +
      x.σ * ∫ s in (0 : ℝ)..t, Real.exp (x.k * s) * M (m + 1) s)

/-- `f_{Z_t}(l, o)`, equation `fZ_IE`: the sum over all tuples of jumps up to time `t` -/
noncomputable def zv (x : ItoCond.Par) (t : ℝ) (l o : List ℤ) : ℝ :=
  ∑ j : Fin l.length → Fin x.N,
    (∏ i : Fin l.length, (Real.exp (l.getD i 0 * x.k * x.s (j i)) * x.upTo t (j i))) *
    ∏ i : Fin l.length, if (i : ℕ) = 0 then 1 else
      Real.exp (o.getD (i - 1) 0 * x.k * Utils.runMax x.s j i)

/-- meaning of a key at time `t` -/
noncomputable def sval (x : ItoCond.Par) (t : ℝ) (key : SKey) : ℝ :=
  x.v ^ ix key.b 0 * x.k ^ (-ix key.b 1) * x.θ ^ ix key.b 2 * x.σ ^ ix key.b 3 *
    Real.exp (ix key.b 4 * x.k * t) * zv x t key.l key.o

/-- a key: no negative powers of `v_0`, `θ`, `σ`, one power of a running maximum for each summation
but the first -/
def SOK (key : SKey) : Prop :=
  key.b.length = 5 ∧ 0 ≤ ix key.b 0 ∧ 0 ≤ ix key.b 2 ∧ 0 ≤ ix key.b 3 ∧
    key.o.length = key.l.length - 1

/-- `v_t` as a polynomial in the random variable `X = IE_t` -/
noncomputable def vAt (x : ItoCond.Par) (t : ℝ) : ℝ[X] :=
  C (Real.exp (-(x.k * t)) * (x.v - x.θ) + x.θ + Real.exp (-(x.k * t)) * x.IEZ t) +
    C (x.σ * Real.exp (-(x.k * t))) * X

/-- `E` is the conditional expectation at time `t`: its moments of `X = IE_t` solve the moment
equation -/
def Law (x : ItoCond.Par) (t : ℝ) (E : ℝ[X] →ₗ[ℝ] ℝ) : Prop :=
  ∃ M, IERec x M ∧ ∀ i : ℕ, E (X ^ i) = M i t

/-- the jumps and the parameters as used above -/
noncomputable def Par.cir (p : Par) : ItoCond.Par :=
  ⟨p.k, p.theta, p.sigma, p.v0, p.jumpsize.length, fun i => p.jumptime.getD i 0,
    fun i => p.jumpsize.getD i 0⟩

/-- parameters of the model: one jump time in `[0, h]` for every jump size -/
structure Par.OK (p : Par) : Prop where
  k : p.k ≠ 0
  h : 0 ≤ p.h
  len : p.jumptime.length = p.jumpsize.length
  time : ∀ s ∈ p.jumptime, 0 ≤ s ∧ s ≤ p.h

end Ajd.SrjdJ
