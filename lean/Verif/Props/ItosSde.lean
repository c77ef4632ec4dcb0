import Verif.Lemmas.ItosSde
import Verif.Props.Itos

/-! C22 from the stochastic differential equations of the two-factor model. -/

namespace Ajd
open Poly Itos MvPolynomial

/-- the moment of the integrals `IE_1, I_1, IE_2, I_2, I*` at time `t`, where
`IE_i = e^{k_i t} A_i`; the coordinates are in the order of `Itos.ints` -/
noncomputable def itoMom (x : Itos.Par) (E : ℝ → MvPolynomial (Fin 7) ℝ →ₗ[ℝ] ℝ) (n4 n5 n6 n7 n8 : ℕ) (t : ℝ) : ℝ :=
  Real.exp ((n4 * x.k1 + n6 * x.k2) * t) *
    E (t - x.u) (X 2 ^ n4 * X 3 ^ n5 * X 4 ^ n6 * X 5 ^ n7 * X 6 ^ n8)

/-- C22, part. Full statement: `moment_IEI_IEII(n4, n5, n6, n7, n8)` is the joint moment of the integrals in the
documented stochastic differential equations, for all orders. Right where `C22_moment_partial` is; missing: the other
orders, where it is false by `C22_sde_wrong`. -/
theorem C22_sde_partial (n4 n5 n6 n7 n8 : ℕ) : ∃ P, moment code (n4, n5, n6, n7, n8) = .ok P ∧
    ∀ (x : Itos.Par), x.k1 ≠ 0 → x.k2 ≠ 0 → ∀ E, Given x E →
      (n4 + n5 + n6 + n7 + n8 ≤ 2 ∨
        (n4 + n5 + n6 + n7 + n8 = 3 ∧ (n4, n5, n6, n7, n8) ∉
          [(2, 1, 0, 0, 0), (1, 2, 0, 0, 0), (0, 0, 2, 1, 0), (0, 0, 1, 2, 0)]) ∨
        (n5 = 0 ∧ n6 + n7 + n8 ≤ 1) ∨ (n7 = 0 ∧ n4 + n5 + n8 ≤ 1)) →
      ∀ t, x.u ≤ t → ev (dval x t) P = itoMom x E n4 n5 n6 n7 n8 t := by
  obtain ⟨P, h, -, -, -, hP⟩ := C22_moment_partial n4 n5 n6 n7 n8
  refine ⟨P, h, fun x h1 h2 E hE hr t ht => ?_⟩
  obtain ⟨M, hM, hv⟩ := given_rec x hE
  rw [hP x M h1 h2 hM hr t ht, hv _ _ _ _ _ t ht, itoMom]

/-- C22. the same for all orders with the `elif`s replaced by `if`s and the test in `int_et` repaired -/
theorem C22_sde_repaired (n4 n5 n6 n7 n8 : ℕ) : ∃ P, moment fixed (n4, n5, n6, n7, n8) = .ok P ∧
    ∀ (x : Itos.Par), x.Generic → ∀ E, Given x E → ∀ t, x.u ≤ t →
      ev (dval x t) P = itoMom x E n4 n5 n6 n7 n8 t := by
  obtain ⟨P, h, -, -, -, hP⟩ := C22_moment_repaired n4 n5 n6 n7 n8
  refine ⟨P, h, fun x hx E hE t ht => ?_⟩
  obtain ⟨M, hM, hv⟩ := given_rec x hE
  rw [hP x M hx hM t ht, hv _ _ _ _ _ t ht, itoMom]

/-- C22. The statement is false for the code: `E[IE_1^2 I_1]` is wrong for all usual parameters. -/
theorem C22_sde_wrong : ∃ P, moment code (2, 1, 0, 0, 0) = .ok P ∧
    ∀ (x : Itos.Par), 0 < x.k1 → 0 < x.k2 → 0 < x.v1 → 0 ≤ x.θ1 → x.σ1 ≠ 0 → ∀ E, Given x E →
      ∀ t, x.u < t → ev (dval x t) P ≠ itoMom x E 2 1 0 0 0 t := by
  obtain ⟨P, h, hP⟩ := C22_moment_wrong
  refine ⟨P, h, fun x h1 h2 h3 h4 h5 E hE t ht => ?_⟩
  obtain ⟨M, hM, hv⟩ := given_rec x hE
  rw [itoMom, ← hv _ _ _ _ _ t ht.le]
  exact hP x M h1 h2 h3 h4 h5 hM t ht

/-- C22. the processes exist and are determined -/
theorem C22_sde_law (x : Itos.Par) : ∃ E, Given x E ∧ ∀ E', Given x E' → ∀ t, 0 ≤ t → E' t = E t := by
  obtain ⟨E, hE⟩ := given_exists x
  exact ⟨E, hE, fun E' h t ht => Gen.dynkin_unique (coef7 x) (mom7 x) h hE t ht⟩

example : ∃ E, Given ⟨1, 2, 3, 4, 5, 6, 7, 8, 9⟩ E := given_exists _

end Ajd
