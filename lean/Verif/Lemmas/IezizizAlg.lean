import Mathlib.Algebra.MvPolynomial.Derivation
import Mathlib.RingTheory.Derivation.Lie
import Mathlib.Data.Nat.Choose.Sum
import Mathlib.Tactic.Ring
import Mathlib.Data.Real.Basic
import Mathlib.Algebra.Algebra.Rat
import Mathlib.Algebra.CharP.Algebra

/-!
Complete Bell polynomials in three indices. The variable `X (a, b, c)` stands for `λ(t-s)` times the
moment `(a, b, c)` of a jump; the moments of the compound Poisson variable are polynomials in them.
-/

namespace Ajd.Ieziziz
open MvPolynomial

abbrev N3 := ℕ × ℕ × ℕ

abbrev R3 := MvPolynomial N3 ℚ

/-- `∂X_n = X_{n+e}` -/
noncomputable def D (e : N3) : Derivation ℚ R3 R3 := mkDerivation ℚ fun n => X (n + e)

@[simp] theorem D_X (e n : N3) : D e (X n) = X (n + e) := mkDerivation_X _ _ _

/-- `g ↦ X_e g + ∂g` -/
noncomputable def T (e : N3) : R3 →ₗ[ℚ] R3 := LinearMap.mulLeft ℚ (X e) + (D e : R3 →ₗ[ℚ] R3)

theorem T_apply (e : N3) (g : R3) : T e g = X e * g + D e g := rfl

theorem D_comm (e f : N3) (g : R3) : D e (D f g) = D f (D e g) := by
  have h : ⁅D e, D f⁆ = 0 := by
    apply derivation_ext
    intro n
    rw [Derivation.commutator_apply, D_X, D_X, D_X, D_X, add_right_comm, sub_self]
    rfl
  have := congrArg (fun d : Derivation ℚ R3 R3 => d g) h
  simp only [Derivation.commutator_apply] at this
  exact sub_eq_zero.1 this

theorem T_comm (e f : N3) : Commute (T e) (T f) := by
  apply LinearMap.ext
  intro g
  show T e (T f g) = T f (T e g)
  simp only [T_apply, map_add, Derivation.leibniz, D_X, smul_eq_mul]
  rw [D_comm e f g, add_comm f e]
  ring

theorem T_mul_X (e m : N3) (g : R3) : T e (X m * g) = X (m + e) * g + X m * T e g := by
  simp only [T_apply, Derivation.leibniz, D_X, smul_eq_mul]
  ring

theorem T_pow_mul_X (e m : N3) (n : ℕ) (g : R3) : (T e ^ n) (X m * g) =
    ∑ i ∈ Finset.range (n + 1), n.choose i • (X (m + i • e) * (T e ^ (n - i)) g) := by
  rw [← Finset.Nat.sum_antidiagonal_eq_sum_range_succ
    (fun i j => n.choose i • (X (m + i • e) * (T e ^ j) g : R3))]
  induction n generalizing m g with
  | zero => simp
  | succ n ih =>
    rw [pow_succ, Module.End.mul_apply, T_mul_X, map_add, ih, ih,
      Finset.sum_antidiagonal_choose_succ_nsmul
        (fun i j => (X (m + i • e) * (T e ^ j) g : R3)), add_comm]
    congr 1
    · refine Finset.sum_congr rfl fun ij h => ?_
      rw [Finset.mem_antidiagonal] at h
      rw [show ij.2 = n - ij.1 by omega, Nat.choose_symm (by omega), succ_nsmul', add_assoc]

def e1 : N3 := (1, 0, 0)
def e2 : N3 := (0, 1, 0)
def e3 : N3 := (0, 0, 1)

/-- the moment of order `(a, b, c)` -/
noncomputable def G (a b c : ℕ) : R3 := (T e1 ^ a * T e2 ^ b * T e3 ^ c) 1

theorem G_zero : G 0 0 0 = 1 := by simp [G]

theorem G_one (a b c : ℕ) : T e1 (G a b c) = G (a + 1) b c := by
  rw [G, G, pow_succ' _ a, mul_assoc, mul_assoc, mul_assoc]; rfl

theorem G_two (a b c : ℕ) : T e2 (G a b c) = G a (b + 1) c := by
  rw [G, G, pow_succ' _ b, ← mul_assoc, ← ((T_comm e2 e1).pow_right a).eq]
  simp only [mul_assoc]; rfl

theorem G_three (a b c : ℕ) : T e3 (G a b c) = G a b (c + 1) := by
  rw [G, G, pow_succ' _ c, ← mul_assoc,
    ← (((T_comm e3 e1).pow_right a).mul_right ((T_comm e3 e2).pow_right b)).eq]
  simp only [mul_assoc]; rfl

theorem T_one (e : N3) : T e 1 = X e * 1 := by
  rw [T_apply, Derivation.map_one_eq_zero, add_zero]

theorem T_G (e : N3) (a b c : ℕ) : T e (G a b c) = (T e1 ^ a * T e2 ^ b * T e3 ^ c) (X e * 1) := by
  rw [← T_one, G]
  have h : Commute (T e) (T e1 ^ a * T e2 ^ b * T e3 ^ c) :=
    (((T_comm e e1).pow_right a).mul_right ((T_comm e e2).pow_right b)).mul_right
      ((T_comm e e3).pow_right c)
  rw [← Module.End.mul_apply, h.eq, Module.End.mul_apply]

theorem T_G_sum (e : N3) (a b c : ℕ) : T e (G a b c) =
    ∑ i ∈ Finset.range (a + 1), ∑ j ∈ Finset.range (b + 1), ∑ l ∈ Finset.range (c + 1),
      (a.choose i * b.choose j * c.choose l) • (X (e + (i, j, l)) * G (a - i) (b - j) (c - l)) := by
  rw [T_G, Module.End.mul_apply, Module.End.mul_apply, T_pow_mul_X, map_sum]
  have h1 : ∀ l, (T e2 ^ b) (c.choose l • (X (e + l • e3) * (T e3 ^ (c - l)) 1 : R3)) =
      ∑ j ∈ Finset.range (b + 1), (b.choose j * c.choose l) •
        (X (e + l • e3 + j • e2) * (T e2 ^ (b - j)) ((T e3 ^ (c - l)) 1) : R3) := by
    intro l
    rw [map_nsmul, T_pow_mul_X, Finset.smul_sum]
    refine Finset.sum_congr rfl fun j _ => ?_
    rw [smul_smul, mul_comm]
  simp only [h1]
  rw [Finset.sum_comm, map_sum]
  have h2 : ∀ j l, (T e1 ^ a) ((b.choose j * c.choose l) •
        (X (e + l • e3 + j • e2) * (T e2 ^ (b - j)) ((T e3 ^ (c - l)) 1) : R3)) =
      ∑ i ∈ Finset.range (a + 1), (a.choose i * b.choose j * c.choose l) •
        (X (e + (i, j, l)) * G (a - i) (b - j) (c - l)) := by
    intro j l
    rw [map_nsmul, T_pow_mul_X, Finset.smul_sum]
    refine Finset.sum_congr rfl fun i _ => ?_
    rw [smul_smul]
    have hx : e + l • e3 + j • e2 + i • e1 = e + (i, j, l) := by
      simp [e1, e2, e3, add_assoc]
    rw [hx, mul_comm (b.choose j * c.choose l), mul_assoc]
    rfl
  simp only [map_sum, h2]
  rw [Finset.sum_congr rfl fun j _ => Finset.sum_comm, Finset.sum_comm]

/-- the recursion of the moments determines them -/
theorem G_unique (κ : N3 → ℝ) (Z : ℕ → ℕ → ℕ → ℝ) (h0 : Z 0 0 0 = 1)
    (h : ∀ a b c p q r : ℕ, p + q + r = 1 → Z (a + p) (b + q) (c + r) =
      ∑ i ∈ Finset.range (a + 1), ∑ j ∈ Finset.range (b + 1), ∑ l ∈ Finset.range (c + 1),
        (a.choose i * b.choose j * c.choose l : ℝ) *
          (κ (i + p, j + q, l + r) * Z (a - i) (b - j) (c - l)))
    (a b c : ℕ) : aeval κ (G a b c) = Z a b c := by
  suffices H : ∀ n a b c, a + b + c = n → aeval κ (G a b c) = Z a b c from H _ a b c rfl
  intro n
  induction n using Nat.strong_induction_on with
  | _ n ih =>
    intro a b c hn
    have key : ∀ a b c p q r : ℕ, p + q + r = 1 → a + b + c < n →
        aeval κ (T (p, q, r) (G a b c)) = Z (a + p) (b + q) (c + r) := by
      intro a b c p q r h1 hlt
      rw [T_G_sum, h a b c p q r h1, map_sum]
      refine Finset.sum_congr rfl fun i _ => ?_
      rw [map_sum]
      refine Finset.sum_congr rfl fun j _ => ?_
      rw [map_sum]
      refine Finset.sum_congr rfl fun l _ => ?_
      rw [map_nsmul, map_mul, aeval_X, ih _ (by omega) _ _ _ rfl, nsmul_eq_mul]
      push_cast
      rw [Prod.mk_add_mk, Prod.mk_add_mk, add_comm p, add_comm q, add_comm r]
    rcases a with _ | a
    · rcases b with _ | b
      · rcases c with _ | c
        · rw [G_zero, map_one, h0]
        · rw [← G_three]; exact key 0 0 c 0 0 1 rfl (by omega)
      · rw [← G_two]; exact key 0 b c 0 1 0 rfl (by omega)
    · rw [← G_one]; exact key a b c 1 0 0 rfl (by omega)

theorem G_diag (a b c : ℕ) (h : a + b + c ≠ 0) : aeval (fun _ => (0 : ℝ)) (G a b c) = 0 := by
  have := G_unique (fun _ => 0) (fun a b c => if a + b + c = 0 then 1 else 0) (by simp)
    (by
      intro a b c p q r h
      rw [if_neg (by omega)]
      simp) a b c
  rw [this, if_neg h]

end Ajd.Ieziziz
