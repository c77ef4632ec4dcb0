import Verif.Lemmas.Loop
import Mathlib.MeasureTheory.Integral.IntervalIntegral.Basic

/-! Integrals of evaluated Polys over intervals. -/

namespace Ajd
open Poly MeasureTheory

theorem intervalIntegral_ev {K : Type} (W : ℝ → ℝ) (f : ℝ → K → ℝ) (p : Poly K) (a b : ℝ)
    (h : ∀ e ∈ p.items, IntervalIntegrable (fun s => W s * f s e.1) volume a b) :
    IntervalIntegrable (fun s => W s * ev (f s) p) volume a b ∧
    ∫ s in a..b, W s * ev (f s) p = ev (fun k => ∫ s in a..b, W s * f s k) p := by
  unfold ev
  generalize p.items = l at h ⊢
  induction l with
  | nil => simp
  | cons e l ih =>
    obtain ⟨h1, h2⟩ := ih fun x hx => h x (by simp [hx])
    have h3 : IntervalIntegrable (fun s => e.2 • (W s * f s e.1)) volume a b := by
      simp only [Rat.smul_def]; exact (h e (by simp)).const_mul _
    have heq : ∀ s, W s * (e.2 • f s e.1 + (l.map fun kv => kv.2 • f s kv.1).sum) =
        e.2 • (W s * f s e.1) + W s * (l.map fun kv => kv.2 • f s kv.1).sum := by
      intro s; simp only [Rat.smul_def]; ring
    constructor
    · simp only [List.map_cons, List.sum_cons, heq]
      exact h3.add h1
    · simp only [List.map_cons, List.sum_cons, heq]
      rw [intervalIntegral.integral_add h3 h1, h2]
      congr 1
      simp only [Rat.smul_def]
      exact intervalIntegral.integral_const_mul _ _

end Ajd
