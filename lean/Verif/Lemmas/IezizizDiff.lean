import Verif.Lemmas.IezizizAlg
import Mathlib.Analysis.Calculus.Deriv.Mul
import Mathlib.Analysis.Calculus.Deriv.Add

/-!
The derivative of the moments `G a b c` along a change of the jump moments. The ring has a second set of
variables for the direction of the change.
-/

namespace Ajd.Ieziziz
open MvPolynomial

abbrev R6 := MvPolynomial (N3 ⊕ N3) ℚ

/-- shift of both sets of variables -/
noncomputable def D' (e : N3) : Derivation ℚ R6 R6 :=
  mkDerivation ℚ (Sum.elim (fun n => X (Sum.inl (n + e))) fun n => X (Sum.inr (n + e)))

@[simp] theorem D'_inl (e n : N3) : D' e (X (Sum.inl n)) = X (Sum.inl (n + e)) := by simp [D']
@[simp] theorem D'_inr (e n : N3) : D' e (X (Sum.inr n)) = X (Sum.inr (n + e)) := by simp [D']

/-- `g ↦ X_e g + ∂g` -/
noncomputable def T' (e : N3) : R6 →ₗ[ℚ] R6 := LinearMap.mulLeft ℚ (X (Sum.inl e)) + (D' e : R6 →ₗ[ℚ] R6)

theorem T'_apply (e : N3) (g : R6) : T' e g = X (Sum.inl e) * g + D' e g := rfl

theorem T'_mul_Y (e m : N3) (g : R6) :
    T' e (X (Sum.inr m) * g) = X (Sum.inr (m + e)) * g + X (Sum.inr m) * T' e g := by
  simp only [T'_apply, Derivation.leibniz, D'_inr, smul_eq_mul]
  ring

theorem T'_pow_mul_Y (e m : N3) (n : ℕ) (g : R6) : (T' e ^ n) (X (Sum.inr m) * g) =
    ∑ i ∈ Finset.range (n + 1), n.choose i • (X (Sum.inr (m + i • e)) * (T' e ^ (n - i)) g) := by
  rw [← Finset.Nat.sum_antidiagonal_eq_sum_range_succ
    (fun i j => n.choose i • (X (Sum.inr (m + i • e)) * (T' e ^ j) g : R6))]
  induction n generalizing m g with
  | zero => simp
  | succ n ih =>
    rw [pow_succ, Module.End.mul_apply, T'_mul_Y, map_add, ih, ih,
      Finset.sum_antidiagonal_choose_succ_nsmul
        (fun i j => (X (Sum.inr (m + i • e)) * (T' e ^ j) g : R6)), add_comm]
    congr 1
    · refine Finset.sum_congr rfl fun ij h => ?_
      rw [Finset.mem_antidiagonal] at h
      rw [show ij.2 = n - ij.1 by omega, Nat.choose_symm (by omega), succ_nsmul', add_assoc]

/-- the change: `X_n ↦ Y_n` -/
noncomputable def dl : Derivation ℚ R6 R6 :=
  mkDerivation ℚ (Sum.elim (fun n => X (Sum.inr n)) fun _ => 0)

@[simp] theorem dl_inl (n : N3) : dl (X (Sum.inl n)) = X (Sum.inr n) := by simp [dl]
@[simp] theorem dl_inr (n : N3) : dl (X (Sum.inr n)) = 0 := by simp [dl]

/-- `g ↦ δg + Y_0 g` -/
noncomputable def dt : R6 →ₗ[ℚ] R6 := (dl : R6 →ₗ[ℚ] R6) + LinearMap.mulLeft ℚ (X (Sum.inr 0))

theorem dt_apply (g : R6) : dt g = dl g + X (Sum.inr 0) * g := rfl

theorem dl_D' (e : N3) (g : R6) : dl (D' e g) = D' e (dl g) := by
  have h : ⁅dl, D' e⁆ = 0 := by
    apply derivation_ext
    rintro (n | n) <;> rw [Derivation.commutator_apply] <;> simp
  have := congrArg (fun d : Derivation ℚ R6 R6 => d g) h
  simp only [Derivation.commutator_apply] at this
  exact sub_eq_zero.1 this

theorem dt_T' (e : N3) : Commute dt (T' e) := by
  apply LinearMap.ext
  intro g
  show dt (T' e g) = T' e (dt g)
  simp only [dt_apply, T'_apply, map_add, Derivation.leibniz, smul_eq_mul, dl_D', dl_inl, D'_inr, zero_add]
  ring

/-- the old variables inside the larger ring -/
noncomputable abbrev up : R3 →ₐ[ℚ] R6 := rename Sum.inl

theorem up_D (e : N3) (g : R3) : up (D e g) = D' e (up g) := by
  induction g using MvPolynomial.induction_on with
  | C a => simp
  | add p q hp hq => simp only [map_add, hp, hq]
  | mul_X p n hp => simp only [Derivation.leibniz, map_mul, map_add, smul_eq_mul, hp, D_X, rename_X, D'_inl]

theorem up_T (e : N3) (g : R3) : up (T e g) = T' e (up g) := by
  rw [T_apply, T'_apply, map_add, map_mul, rename_X, up_D]

theorem up_T_pow (e : N3) (n : ℕ) (g : R3) : up ((T e ^ n) g) = (T' e ^ n) (up g) := by
  induction n generalizing g with
  | zero => rfl
  | succ n ih => rw [pow_succ, pow_succ, Module.End.mul_apply, Module.End.mul_apply, ih, up_T]

theorem dt_up_G (a b c : ℕ) : dt (up (G a b c)) =
    ∑ i ∈ Finset.range (a + 1), ∑ j ∈ Finset.range (b + 1), ∑ l ∈ Finset.range (c + 1),
      (a.choose i * b.choose j * c.choose l) • (X (Sum.inr (i, j, l)) * up (G (a - i) (b - j) (c - l))) := by
  have h0 : dt (up (G a b c)) = (T' e1 ^ a * T' e2 ^ b * T' e3 ^ c) (X (Sum.inr 0) * up 1) := by
    have h : Commute dt (T' e1 ^ a * T' e2 ^ b * T' e3 ^ c) :=
      (((dt_T' e1).pow_right a).mul_right ((dt_T' e2).pow_right b)).mul_right ((dt_T' e3).pow_right c)
    have h1 : dt 1 = X (Sum.inr 0) * up 1 := by
      rw [dt_apply, Derivation.map_one_eq_zero, zero_add, map_one]
    rw [← h1, G, Module.End.mul_apply, Module.End.mul_apply, up_T_pow, up_T_pow, up_T_pow, map_one,
      ← Module.End.mul_apply, ← Module.End.mul_apply, ← Module.End.mul_apply, ← Module.End.mul_apply, mul_assoc dt,
      mul_assoc dt, h.eq]
  rw [h0, Module.End.mul_apply, Module.End.mul_apply, T'_pow_mul_Y, map_sum]
  have h1 : ∀ l, (T' e2 ^ b) (c.choose l • (X (Sum.inr (0 + l • e3)) * (T' e3 ^ (c - l)) (up 1) : R6)) =
      ∑ j ∈ Finset.range (b + 1), (b.choose j * c.choose l) •
        (X (Sum.inr (0 + l • e3 + j • e2)) * (T' e2 ^ (b - j)) ((T' e3 ^ (c - l)) (up 1)) : R6) := by
    intro l
    rw [map_nsmul, T'_pow_mul_Y, Finset.smul_sum]
    refine Finset.sum_congr rfl fun j _ => ?_
    rw [smul_smul, mul_comm]
  simp only [h1]
  rw [Finset.sum_comm, map_sum]
  have h2 : ∀ j l, (T' e1 ^ a) ((b.choose j * c.choose l) •
        (X (Sum.inr (0 + l • e3 + j • e2)) * (T' e2 ^ (b - j)) ((T' e3 ^ (c - l)) (up 1)) : R6)) =
      ∑ i ∈ Finset.range (a + 1), (a.choose i * b.choose j * c.choose l) •
        (X (Sum.inr (i, j, l)) * up (G (a - i) (b - j) (c - l))) := by
    intro j l
    rw [map_nsmul, T'_pow_mul_Y, Finset.smul_sum]
    refine Finset.sum_congr rfl fun i _ => ?_
    rw [smul_smul]
    have hx : (0 : N3) + l • e3 + j • e2 + i • e1 = (i, j, l) := by
      simp [e1, e2, e3]
    rw [hx, mul_comm (b.choose j * c.choose l), mul_assoc, ← up_T_pow, ← up_T_pow, ← up_T_pow]
    rfl
  simp only [map_sum, h2]
  rw [Finset.sum_congr rfl fun j _ => Finset.sum_comm, Finset.sum_comm]

theorem hasDerivAt_aeval (κ : ℝ → N3 → ℝ) (c : N3 → ℝ) (s : ℝ) (h : ∀ n, HasDerivAt (fun s => κ s n) (c n) s)
    (g : R3) : HasDerivAt (fun s => aeval (κ s) g) (aeval (Sum.elim (κ s) c) (dl (up g))) s := by
  have hup : ∀ g : R3, aeval (Sum.elim (κ s) c) (up g) = aeval (κ s) g := by
    intro g
    rw [aeval_rename]; rfl
  induction g using MvPolynomial.induction_on with
  | C a => simpa using hasDerivAt_const s _
  | add p q hp hq => simp only [map_add]; exact hp.add hq
  | mul_X p n hp =>
    simp only [map_mul, aeval_X]
    refine (hp.mul (h n)).congr_deriv ?_
    simp only [Derivation.leibniz, map_add, map_mul, smul_eq_mul, hup, rename_X, dl_inl, aeval_X, Sum.elim_inr,
      Sum.elim_inl]
    ring

/-- The derivative of a moment: `δ Z_n = ∑_j C(n, j) c_j Z_{n-j} - c_0 Z_n`. -/
theorem hasDerivAt_G (κ : ℝ → N3 → ℝ) (c : N3 → ℝ) (s : ℝ) (h : ∀ n, HasDerivAt (fun s => κ s n) (c n) s)
    (a b d : ℕ) : HasDerivAt (fun s => aeval (κ s) (G a b d))
      (∑ i ∈ Finset.range (a + 1), ∑ j ∈ Finset.range (b + 1), ∑ l ∈ Finset.range (d + 1),
        (a.choose i * b.choose j * d.choose l : ℝ) * (c (i, j, l) * aeval (κ s) (G (a - i) (b - j) (d - l))) -
        c 0 * aeval (κ s) (G a b d)) s := by
  have hup : ∀ g : R3, aeval (Sum.elim (κ s) c) (up g) = aeval (κ s) g := by
    intro g
    rw [aeval_rename]; rfl
  refine (hasDerivAt_aeval κ c s h (G a b d)).congr_deriv ?_
  have e : dl (up (G a b d)) = dt (up (G a b d)) - X (Sum.inr 0) * up (G a b d) := by
    rw [dt_apply]; ring
  rw [e, dt_up_G, map_sub, map_mul, aeval_X, hup, map_sum]
  simp only [map_sum, map_nsmul, map_mul, aeval_X, hup, nsmul_eq_mul, Sum.elim_inr, Nat.cast_mul, map_natCast]

end Ajd.Ieziziz
