import Verif.Props.Nest
import Mathlib.RingTheory.PowerSeries.Basic

/-! C63: the jumps of the return are independent of the rest. -/

namespace Ajd
open MvPolynomial MeasureTheory

/-- the moments of a sum of two independent variables with moments `a` and `b` -/
def conv (a b : ℕ → ℝ) (n : ℕ) : ℝ := ∑ i ∈ Finset.range (n + 1), n.choose i * (a i * b (n - i))

theorem conv_sub (a b z : ℕ → ℝ) (n : ℕ) : conv (fun i => a i - b i) z n = conv a z n - conv b z n := by
  simp only [conv, sub_mul, mul_sub, Finset.sum_sub_distrib]

theorem conv_mul (a z : ℕ → ℝ) (c : ℝ) (n : ℕ) : conv (fun i => a i * c) z n = conv a z n * c := by
  simp only [conv, Finset.sum_mul]
  exact Finset.sum_congr rfl fun i _ => by ring

theorem conv_const_mul (a z : ℕ → ℝ) (c : ℝ) (n : ℕ) : conv (fun i => c * a i) z n = c * conv a z n := by
  simp only [conv, Finset.mul_sum]
  exact Finset.sum_congr rfl fun i _ => by ring

/-- the exponential generating function of a sequence -/
noncomputable def egf (a : ℕ → ℝ) : PowerSeries ℝ := PowerSeries.mk fun n => a n / n.factorial

theorem egf_conv (a b : ℕ → ℝ) : egf (conv a b) = egf a * egf b := by
  ext n
  rw [PowerSeries.coeff_mul, Finset.Nat.sum_antidiagonal_eq_sum_range_succ_mk]
  simp only [egf, PowerSeries.coeff_mk, conv, Finset.sum_div]
  refine Finset.sum_congr rfl fun i hi => ?_
  rw [Nat.cast_choose ℝ (Finset.mem_range_succ_iff.1 hi)]
  have := Nat.factorial_ne_zero n
  field_simp

theorem egf_inj {a b : ℕ → ℝ} (h : egf a = egf b) : a = b := by
  funext n
  have := congrArg (PowerSeries.coeff n) h
  simp only [egf, PowerSeries.coeff_mk] at this
  have h0 : (n.factorial : ℝ) ≠ 0 := by exact_mod_cast Nat.factorial_ne_zero n
  field_simp at this
  exact this

theorem conv_right_comm (a b c : ℕ → ℝ) : conv (conv a b) c = conv (conv a c) b :=
  egf_inj (by simp only [egf_conv]; ring)

/-- the joint moments of `x + z` and `y + z'`, where `z` and `z'` are independent of `(x, y)` and of each other -/
def conv2 (c : ℕ → ℕ → ℝ) (z : ℕ → ℝ) (m n : ℕ) : ℝ := conv (fun i => conv (c i) z n) z m

theorem conv_fsv1j (p : Fsv1j.Par) (hk : p.k ≠ 0) (hγ : ∃ γ, Fsv1.StatLaw p.toPar γ) (hh : 0 ≤ p.h) (hρ : 0 ≤ 1 - p.ρ ^ 2)
    (hl : 0 ≤ p.lam) : ∃ (a b : ℕ → ℝ) (c : ℕ → ℕ → ℝ),
    (∀ l : ℕ, Fsv1.m l p.toPar = .ok (a l) ∧
      Fsv1j.m l p = .ok (conv a (fun n => ∫ z, z ^ n ∂(Fsv1j.jumpLaw p)) l) ∧ Fsv1.cm l p.toPar = .ok (b l) ∧
      Fsv1j.cm l p = .ok (conv b (fun n => ∫ z, (z - ∫ z', z' ∂(Fsv1j.jumpLaw p)) ^ n ∂(Fsv1j.jumpLaw p)) l)) ∧
    ∀ l1 l2 : ℕ, Fsv1.cov l1 l2 p.toPar = .ok (c l1 l2) ∧
      Fsv1j.cov l1 l2 p = .ok (conv2 c (fun n => ∫ z, z ^ n ∂(Fsv1j.jumpLaw p)) l1 l2) := by
  have hlh : 0 ≤ p.lam * p.h := mul_nonneg hl hh
  obtain ⟨γ, hγ⟩ := hγ
  have hE : ∀ᵐ x ∂γ, Fsv1.CondLaw p.toPar 0 x (Fsv1.condE p.toPar 0 x) := Filter.Eventually.of_forall fun x =>
    Fsv1.condLaw_condE _ _ _
  choose Q hQ using fun l => Fsv1.condPoly p.toPar hk hh hρ (0 + p.h) l
  have hQ' := fun l z (_ : z ∈ Set.univ) => hQ l z _ (Fsv1.condLaw_condE p.toPar (0 + p.h) z)
  have s1 := Fsv1.momentY_spec p.toPar hk hh hρ 0 _ _ hγ hE
  have s2 := Fsv1.cmomentY_spec p.toPar hk hh hρ 0 _ _ hγ hE
  have s3 := fun l1 l2 => Fsv1.momentYY_spec p.toPar hk hh hρ 0 _ _ hγ hE l1 l2 _ Set.univ Set.infinite_univ
    (fun z _ => Fsv1.condLaw_condE p.toPar (0 + p.h) z) (Q l2) (hQ' l2)
  have s4 := fun l1 l2 => Fsv1.covYY_spec p.toPar hk hh hρ 0 _ _ hγ hE l1 l2 _ Set.univ Set.infinite_univ
    (fun z _ => Fsv1.condLaw_condE p.toPar (0 + p.h) z) (Q l2) (hQ' l2)
  choose a ha _ _ _ _ av using s1
  choose b hb _ _ _ _ bv using s2
  choose d hd _ _ _ _ dv using s3
  choose c hc _ _ _ _ cv using s4
  have hm : ∀ l r, Fsv1j.momentY l = .ok r → Poly.ev (Fsv1j.mVal p) r =
      conv (fun i => Poly.ev (Fsv1.bmVal p.toPar) (a i)) (fun n => ∫ z, z ^ n ∂(Fsv1j.jumpLaw p)) l := by
    intro l r hr
    obtain ⟨r', e, _, _, _, _, v⟩ := Fsv1j.momentY_spec l
    rw [hr] at e
    cases e
    refine v p _ hlh fun i q hq => ?_
    rw [ha] at hq
    cases hq
    rfl
  refine ⟨fun l => Poly.ev (Fsv1.bmVal p.toPar) (a l), fun l => Poly.ev (Fsv1.cVal p.toPar) (b l),
    fun i j => Poly.ev (Fsv1.bmVal p.toPar) (c i j), fun l => ⟨?_, ?_, ?_, ?_⟩, fun l1 l2 => ⟨?_, ?_⟩⟩
  · rw [Fsv1.m, ha, ok_bind, Fsv1.poly2num_eq]; rfl
  · obtain ⟨r, e, -⟩ := Fsv1j.momentY_spec l
    rw [Fsv1j.m, e, ok_bind, Fsv1j.poly2num_eq, hm l r e]; rfl
  · rw [Fsv1.cm, hb, ok_bind, Fsv1.poly2numC_eq]; rfl
  · obtain ⟨r, e, _, _, _, _, v⟩ := Fsv1j.cmomentY_spec l
    rw [Fsv1j.cm, e, ok_bind, Fsv1j.poly2numC_eq, v p (fun l => Poly.ev (Fsv1.cVal p.toPar) (b l)) hlh fun i q hq => by
      rw [hb] at hq
      cases hq
      rfl]
    simp only [Fsv1j.zM, pow_one]
    rfl
  · rw [Fsv1.cov, hc, ok_bind, Fsv1.poly2num_eq]; rfl
  · obtain ⟨r, e, _, _, _, _, A, B, B', eA, eB, eB', v⟩ := Fsv1j.covYY_keys l1 l2
    obtain ⟨A', eA', _, _, _, _, Av⟩ := Fsv1j.momentYY_spec l1 l2
    rw [eA] at eA'
    cases eA'
    have hA := Av p (fun i j => Poly.ev (Fsv1.bmVal p.toPar) (d i j)) hlh fun i j q hq => by
      rw [hd] at hq
      cases hq
      rfl
    rw [Fsv1j.cov, e, ok_bind, Fsv1j.poly2num_eq, v p hk hρ, hm _ _ eB, hm _ _ eB', hA]
    have hcd : ∀ i j, Poly.ev (Fsv1.bmVal p.toPar) (c i j) = Poly.ev (Fsv1.bmVal p.toPar) (d i j) -
        Poly.ev (Fsv1.bmVal p.toPar) (a i) * Poly.ev (Fsv1.bmVal p.toPar) (a j) := fun i j => by
      rw [cv, dv, av, av]
    simp only [conv2, hcd, conv_sub, conv_const_mul, conv_mul]
    refine congrArg (fun x => Except.ok (x - _)) ?_
    rw [Finset.sum_comm]
    simp only [conv, Finset.mul_sum, Finset.sum_mul]
    exact Finset.sum_congr rfl fun i _ => Finset.sum_congr rfl fun j _ => by simp only [Fsv1j.zM]; ring

/-- `mdl_1fsvj` adds to the return of `mdl_1fsv` an independent compound Poisson variable: its moments, central moments and
covariances come from those of `mdl_1fsv` and of that variable. -/
theorem C63_fsv1j (p : Fsv1j.Par) (hk : 0 < p.k) (hθ : 0 < p.θ) (hσ : 0 < p.σ) (hh : 0 ≤ p.h) (hρ : 0 ≤ 1 - p.ρ ^ 2)
    (hl : 0 ≤ p.lam) : ∃ (a b : ℕ → ℝ) (c : ℕ → ℕ → ℝ),
    (∀ l : ℕ, Fsv1.m l p.toPar = .ok (a l) ∧
      Fsv1j.m l p = .ok (conv a (fun n => ∫ z, z ^ n ∂(Fsv1j.jumpLaw p)) l) ∧ Fsv1.cm l p.toPar = .ok (b l) ∧
      Fsv1j.cm l p = .ok (conv b (fun n => ∫ z, (z - ∫ z', z' ∂(Fsv1j.jumpLaw p)) ^ n ∂(Fsv1j.jumpLaw p)) l)) ∧
    ∀ l1 l2 : ℕ, Fsv1.cov l1 l2 p.toPar = .ok (c l1 l2) ∧
      Fsv1j.cov l1 l2 p = .ok (conv2 c (fun n => ∫ z, z ^ n ∂(Fsv1j.jumpLaw p)) l1 l2) :=
  conv_fsv1j p hk.ne' ⟨_, Fsv1.statLaw_gamma p.toPar hk hθ hσ⟩ hh hρ hl

theorem conv_fsv2j (p : Fsv2j.Par) (h1 : p.k1 ≠ 0) (h2 : p.k2 ≠ 0) (hh : 0 ≤ p.h) (hγ : ∃ γ, Fsv2.StatLaw p.toPar γ)
    (hg : p.toPar.Generic) (hl : 0 ≤ p.lam) :
    ∃ (a b : ℕ → ℝ) (c : ℕ → ℕ → ℝ),
    (∀ l : ℕ, Fsv2.m Itos.code l p.toPar = .ok (a l) ∧
      Fsv2j.m Itos.code l p = .ok (conv a (fun n => ∫ z, z ^ n ∂(Fsv2j.jumpLaw p)) l) ∧
      Fsv2.cm Itos.code l p.toPar = .ok (b l) ∧ Fsv2j.cm Itos.code l p =
        .ok (conv b (fun n => ∫ z, (z - ∫ z', z' ∂(Fsv2j.jumpLaw p)) ^ n ∂(Fsv2j.jumpLaw p)) l)) ∧
    ∀ l1 l2 : ℕ, Fsv2.cov Itos.code l1 l2 p.toPar = .ok (c l1 l2) ∧
      Fsv2j.cov Itos.code l1 l2 p = .ok (conv2 c (fun n => ∫ z, z ^ n ∂(Fsv2j.jumpLaw p)) l1 l2) := by
  have hlh : 0 ≤ p.lam * p.h := mul_nonneg hl hh
  obtain ⟨γ, hγ⟩ := hγ
  have hE : ∀ N : ℕ∞, ∀ᵐ x ∂γ, Fsv2.CompLaw Itos.code N p.toPar 0 x (Fsv2.compE Itos.code p.toPar 0 x) := fun N =>
    Filter.Eventually.of_forall fun x => Fsv2.compLaw_compE _ _ _ _ _
  choose Q hQ using fun l => Fsv2.condPoly_compE Itos.code p.toPar h1 h2 (0 + p.h) l
  have s1 := fun l : ℕ => Fsv2.momentY_spec Itos.code p.toPar h1 h2 0 _ _ hγ l (hE l)
  have s2 := fun l : ℕ => Fsv2.cmomentY_spec Itos.code p.toPar h1 h2 0 _ _ hγ l (hE l)
  have s3 := fun l1 l2 => Fsv2.momentYY_spec Itos.code p.toPar h1 h2 0 _ _ hγ (hE ⊤) l1 l2 (Q l2) (hQ l2)
  have s4 := fun l1 l2 => Fsv2.covYY_spec Itos.code p.toPar h1 h2 0 _ _ hγ (hE ⊤) l1 l2 (Q l2) (hQ l2)
  choose a ha _ _ _ ka av using s1
  choose b hb _ _ _ kb bv using s2
  choose d hd _ _ _ kd dv using s3
  choose c hc _ _ _ kc cv using s4
  have hm : ∀ l r, Fsv2j.momentY Itos.code l = .ok r → Poly.ev (Fsv2j.mJ p) r =
      conv (fun i => Poly.ev (Fsv2.mVal p.toPar) (a i)) (fun n => ∫ z, z ^ n ∂(Fsv2j.jumpLaw p)) l := by
    intro l r hr
    obtain ⟨r', e, _, _, _, _, v⟩ := Fsv2j.momentY_spec Itos.code l
    rw [hr] at e
    cases e
    refine v p _ hlh fun i _ q hq => ?_
    rw [ha] at hq
    cases hq
    rfl
  refine ⟨fun l => Poly.ev (Fsv2.mVal p.toPar) (a l), fun l => Poly.ev (Fsv2.cVal p.toPar) (b l),
    fun i j => Poly.ev (Fsv2.mVal p.toPar) (c i j), fun l => ⟨?_, ?_, ?_, ?_⟩, fun l1 l2 => ⟨?_, ?_⟩⟩
  · rw [Fsv2.m, ha, ok_bind, Fsv2.poly2num_eq _ _ (Fsv2.not_zeroDiv _ 6 (ka l) p.toPar hg)]
  · obtain ⟨r, e, _, _, _, ks, -⟩ := Fsv2j.momentY_spec Itos.code l
    rw [Fsv2j.m, e, ok_bind, Fsv2j.poly2num_eq _ _ (Fsv2.not_zeroDiv _ 9 ks p.toPar hg), hm l r e]
  · rw [Fsv2.cm, hb, ok_bind, Fsv2.poly2numC_eq _ _ (Fsv2.not_zeroDiv _ 5 (kb l) p.toPar hg)]
  · obtain ⟨r, e, _, _, _, ks, v⟩ := Fsv2j.cmomentY_spec Itos.code l
    rw [Fsv2j.cm, e, ok_bind, Fsv2j.poly2numC_eq _ _ (Fsv2.not_zeroDiv _ 8 ks p.toPar hg),
      v p (fun l => Poly.ev (Fsv2.cVal p.toPar) (b l)) hlh fun i _ q hq => by
        rw [hb] at hq
        cases hq
        rfl]
    simp only [Fsv1j.zM, pow_one]
    rfl
  · rw [Fsv2.cov, hc, ok_bind, Fsv2.poly2num_eq _ _ (Fsv2.not_zeroDiv _ 6 (kc l1 l2) p.toPar hg)]
  · obtain ⟨r, e, _, _, _, ks, h⟩ := Fsv2j.covYY_parts Itos.code l1 l2
    obtain ⟨A, B, B', eA, eB, eB', v⟩ := h p
    obtain ⟨A', eA', _, _, _, _, Av⟩ := Fsv2j.momentYY_spec Itos.code l1 l2
    rw [eA] at eA'
    cases eA'
    have hA := Av p (fun i j => Poly.ev (Fsv2.mVal p.toPar) (d i j)) hlh fun i j q hq => by
      rw [hd] at hq
      cases hq
      rfl
    rw [Fsv2j.cov, e, ok_bind, Fsv2j.poly2num_eq _ _ (Fsv2.not_zeroDiv _ 9 ks p.toPar hg), v, hm _ _ eB, hm _ _ eB', hA]
    have hcd : ∀ i j, Poly.ev (Fsv2.mVal p.toPar) (c i j) = Poly.ev (Fsv2.mVal p.toPar) (d i j) -
        Poly.ev (Fsv2.mVal p.toPar) (a i) * Poly.ev (Fsv2.mVal p.toPar) (a j) := fun i j => by
      rw [cv, dv, av, av]
    simp only [conv2, hcd, conv_sub, conv_const_mul, conv_mul]
    refine congrArg (fun x => Except.ok (x - _)) ?_
    simp only [conv, Finset.mul_sum, Finset.sum_mul]
    refine Finset.sum_congr rfl fun i _ => Finset.sum_congr rfl fun j _ => ?_
    simp only [Fsv1j.zM, Fsv2j.jumpLaw_eq]
    ring

/-- The same for two factors, for all orders. -/
theorem C63_fsv2j (p : Fsv2j.Par) (hp : Sv2.Pos p.toPar) (hg : p.toPar.Generic) (hl : 0 ≤ p.lam) :
    ∃ (a b : ℕ → ℝ) (c : ℕ → ℕ → ℝ),
    (∀ l : ℕ, Fsv2.m Itos.code l p.toPar = .ok (a l) ∧
      Fsv2j.m Itos.code l p = .ok (conv a (fun n => ∫ z, z ^ n ∂(Fsv2j.jumpLaw p)) l) ∧
      Fsv2.cm Itos.code l p.toPar = .ok (b l) ∧ Fsv2j.cm Itos.code l p =
        .ok (conv b (fun n => ∫ z, (z - ∫ z', z' ∂(Fsv2j.jumpLaw p)) ^ n ∂(Fsv2j.jumpLaw p)) l)) ∧
    ∀ l1 l2 : ℕ, Fsv2.cov Itos.code l1 l2 p.toPar = .ok (c l1 l2) ∧
      Fsv2j.cov Itos.code l1 l2 p = .ok (conv2 c (fun n => ∫ z, z ^ n ∂(Fsv2j.jumpLaw p)) l1 l2) :=
  conv_fsv2j p hp.k1.ne' hp.k2.ne' hp.h.le ⟨_, Fsv2.statLaw_gammas p.toPar hp.k1 hp.k2 hp.θ1 hp.σ1 hp.θ2 hp.σ2⟩ hg hl

example : ∃ p : Fsv1j.Par, 0 < p.k ∧ 0 < p.θ ∧ 0 < p.σ ∧ 0 < p.h ∧ 0 < 1 - p.ρ ^ 2 ∧ 0 < p.lam :=
  ⟨⟨⟨1, 1, 1, -1 / 2, 1, 1⟩, 1, 1, 1⟩, by norm_num⟩

example : ∃ p : Fsv2j.Par, Sv2.Pos p.toPar ∧ p.toPar.Generic ∧ 0 < p.lam ∧ 0 < p.σj := by
  have hp : Sv2.Pos Fsv2.exPar := by
    refine ⟨?_, ?_, ?_, ?_, ?_, ?_, ?_⟩ <;> norm_num [Fsv2.exPar]
  exact ⟨⟨Fsv2.exPar, 1, 0, 1⟩, hp, Fsv2.generic_of_irrational _ rfl irrational_sqrt_two, one_pos, one_pos⟩

/-- with a jump variable that is the constant 1 the second moment changes as it should -/
example (a : ℕ → ℝ) : conv a (fun _ => 1) 2 = a 0 + 2 * a 1 + a 2 := by
  simp [conv, Finset.sum_range_succ]

end Ajd
