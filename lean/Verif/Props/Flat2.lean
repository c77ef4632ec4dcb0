import Verif.Lemmas.ItosFlat
import Verif.Props.Flat

/-! C68 for the two-factor models. -/

namespace Ajd.Fsv2
open MvPolynomial MeasureTheory ProbabilityTheory Real
open Itos (code)

/-- the moments of `I*` if both variances are constant -/
theorem star_flat (x : Itos.Par) (M : Itos.Fam) (hM : Itos.ItoRec2 x M) (s1 : x.σ1 = 0) (s2 : x.σ2 = 0)
    (e1 : x.v1 = x.θ1) (e2 : x.v2 = x.θ2) : ∀ (n : ℕ) (t : ℝ), x.u ≤ t →
      M 0 0 0 0 n t = Flat.M 0 ((x.θ1 + x.θ2) * (t - x.u)) n
  | 0, t, ht => by rw [hM.zero t ht, Flat.M]
  | 1, t, ht => by
    rw [hM.step 0 0 0 0 1 (by norm_num) t ht]
    simp [Itos.term4, Itos.term5, Itos.term45, Itos.term6, Itos.term7, Itos.term67, Itos.term8, Flat.M]
  | n + 2, t, ht => by
    have ih : ∀ s ∈ Set.uIcc x.u t, M 0 0 0 0 n s = Flat.M 0 ((x.θ1 + x.θ2) * (s - x.u)) n := fun s hs => by
      rw [Set.uIcc_of_le ht] at hs
      exact star_flat x M hM s1 s2 e1 e2 n s hs.1
    have hd : ∀ s, HasDerivAt (fun s => (x.θ1 + x.θ2) * (s - x.u)) (x.θ1 + x.θ2) s := fun s => by
      simpa using ((hasDerivAt_id s).sub_const x.u).const_mul (x.θ1 + x.θ2)
    have hD : ∀ m s, HasDerivAt (fun s => Flat.M 0 ((x.θ1 + x.θ2) * (s - x.u)) m) ((x.θ1 + x.θ2) / 2 *
        (m * (m - 1 : ℕ) * Flat.M 0 ((x.θ1 + x.θ2) * (s - x.u)) (m - 2))) s := fun m s => by
      have := Flat.M_deriv (fun _ => 0) (fun s => (x.θ1 + x.θ2) * (s - x.u)) 0 (x.θ1 + x.θ2) s Set.univ
        (hasDerivWithinAt_const _ _ _) (hd s).hasDerivWithinAt m
      rw [hasDerivWithinAt_univ, zero_mul, zero_add] at this
      exact this
    have hc : ∀ m, Continuous fun s => Flat.M 0 ((x.θ1 + x.θ2) * (s - x.u)) m := fun m =>
      continuous_iff_continuousAt.2 fun s => (hD m s).continuousAt
    have hi : ∫ s in x.u..t, (x.θ1 + x.θ2) / 2 * (((n + 2 : ℕ) : ℝ) * (n + 2 - 1 : ℕ) *
        Flat.M 0 ((x.θ1 + x.θ2) * (s - x.u)) (n + 2 - 2)) = Flat.M 0 ((x.θ1 + x.θ2) * (t - x.u)) (n + 2) := by
      rw [intervalIntegral.integral_eq_sub_of_hasDerivAt (f := fun s => Flat.M 0 ((x.θ1 + x.θ2) * (s - x.u)) (n + 2))
        (fun s _ => hD (n + 2) s) (Continuous.intervalIntegrable
          (continuous_const.mul (continuous_const.mul (hc _))) _ _)]
      simp [Flat.M]
    rw [← hi, hM.step 0 0 0 0 (n + 2) (by omega) t ht]
    simp only [Nat.add_sub_cancel, show n + 2 - 1 = n + 1 by omega]
    rw [intervalIntegral.integral_const_mul, intervalIntegral.integral_const_mul, ← intervalIntegral.integral_congr ih]
    simp [Itos.term4, Itos.term5, Itos.term45, Itos.term6, Itos.term7, Itos.term67, Itos.term8, Itos.quad1, Itos.quad2,
      s1, s2, e1, e2]
    ring

theorem statLaw_dirac (p : Par) (h1 : p.σ1 = 0) (h2 : p.σ2 = 0) : StatLaw p (Measure.dirac (p.θ1, p.θ2)) where
  integrable a b := integrable_dirac enorm_lt_top
  moment a b := by simp [Ito.vMoment, h1, h2]

section
variable (p : Par) (h1 : 0 < p.k1) (h2 : 0 < p.k2) (s1 : p.σ1 = 0) (s2 : p.σ2 = 0) (hh : 0 ≤ p.h) (t0 : ℝ)
include h1 h2 s1 s2 hh

theorem comp_star (n : ℕ) : compE code p t0 (p.θ1, p.θ2) (X 4 ^ n) = Flat.M 0 ((p.θ1 + p.θ2) * p.h) n := by
  obtain ⟨P, e, v⟩ := compLaw_compE code ⊤ p t0 (p.θ1, p.θ2) 0 0 0 0 n le_top
  obtain ⟨P', e', v'⟩ := Itos.flat_moment n
  have : P = P' := by
    have := e.symm.trans e'
    simpa using this
  subst this
  have hM := Itos.itoSol_rec (p.it t0 (p.θ1, p.θ2))
  simp only [pow_zero, one_mul] at v
  rw [v, v' _ _ hM h1 h2 s1 s2 (t0 + p.h) (by simpa [Par.it] using hh),
    star_flat _ _ hM s1 s2 rfl rfl n (t0 + p.h) (by simpa [Par.it] using hh)]
  simp [Par.it]

omit hh h1 h2 in
theorem ret_const : ret p t0 (p.θ1, p.θ2) = C (mean p) + X 4 := by
  rw [ret, intVar1, intVar2, vNext1, vNext2, s1, s2]
  simp only [zero_mul, zero_div, map_zero, add_zero]
  rw [show exp (-(p.k1 * p.h)) * p.θ1 + p.θ1 * (1 - exp (-(p.k1 * p.h))) = p.θ1 by ring,
    show exp (-(p.k2 * p.h)) * p.θ2 + p.θ2 * (1 - exp (-(p.k2 * p.h))) = p.θ2 by ring, sub_self, sub_self, mul_zero, mul_zero, sub_zero,
    sub_zero, ← map_add C, ← map_mul C, ← map_sub C, mean]
  congr 2
  ring

theorem comp_poly (q : Polynomial ℝ) : compE code p t0 (p.θ1, p.θ2) (Polynomial.aeval (X 4) q) =
    Srjd.Lp (Flat.M 0 ((p.θ1 + p.θ2) * p.h)) q := by
  rw [Polynomial.aeval_eq_sum_range, map_sum, Srjd.Lp_eq, Polynomial.sum_over_range _ (by simp)]
  refine Finset.sum_congr rfl fun i _ => ?_
  rw [map_smul, comp_star p h1 h2 s1 s2 hh, smul_eq_mul]

theorem comp_ret (hb : 0 ≤ (p.θ1 + p.θ2) * p.h) (n : ℕ) : compE code p t0 (p.θ1, p.θ2) (ret p t0 (p.θ1, p.θ2) ^ n) =
    ∫ y, y ^ n ∂gaussianReal (mean p) ((p.θ1 + p.θ2) * p.h).toNNReal := by
  have h := comp_poly p h1 h2 s1 s2 hh t0 ((Polynomial.C (mean p) + Polynomial.X) ^ n)
  have hg := gaussianReal_map_const_add (μ := 0) (v := ((p.θ1 + p.θ2) * p.h).toNNReal) (mean p)
  rw [Flat.Lp_gauss _ _ hb] at h
  rw [zero_add] at hg
  rw [← hg, integral_map (by fun_prop) (Measurable.aestronglyMeasurable (by fun_prop)), ret_const p s1 s2]
  simpa [algebraMap_eq] using h

end

/-- If `sigma1v = sigma2v = 0`, `m(l, par)` of `mdl_2fsv` is, at every order, the `l`-th moment of the normal law with mean
`(mu - theta1/2 - theta2/2) h` and variance `(theta1 + theta2) h`; `cm(l, par)` is its central moment, and
`cov(l1, l2, par)` is 0. -/
theorem C68_fsv2 (p : Par) (h1 : 0 < p.k1) (h2 : 0 < p.k2) (ht1 : 0 ≤ p.θ1) (ht2 : 0 ≤ p.θ2) (s1 : p.σ1 = 0) (s2 : p.σ2 = 0)
    (hh : 0 ≤ p.h) (hg : p.Generic) :
    (∀ l : ℕ, m code l p = .ok (∫ y, y ^ l ∂gaussianReal ((p.μ - p.θ1 / 2 - p.θ2 / 2) * p.h)
        ((p.θ1 + p.θ2) * p.h).toNNReal) ∧
      cm code l p = .ok (∫ y, y ^ l ∂gaussianReal 0 ((p.θ1 + p.θ2) * p.h).toNNReal)) ∧
    ∀ l1 l2 : ℕ, cov code l1 l2 p = .ok 0 := by
  have hγ := statLaw_dirac p s1 s2
  have hE : ∀ N : ℕ∞, ∀ᵐ x ∂Measure.dirac (p.θ1, p.θ2), CompLaw code N p 0 x (compE code p 0 x) := fun N =>
    Filter.Eventually.of_forall fun x => compLaw_compE _ _ _ _ _
  have hb : 0 ≤ (p.θ1 + p.θ2) * p.h := mul_nonneg (add_nonneg ht1 ht2) hh
  refine ⟨fun l => ⟨?_, ?_⟩, fun l1 l2 => ?_⟩
  · obtain ⟨r, e, _, _, _, ks, v⟩ := momentY_spec code p h1.ne' h2.ne' 0 _ _ hγ l (hE l)
    rw [m, e, ok_bind, poly2num_eq r p (not_zeroDiv _ 6 ks p hg), v, expect, integral_dirac,
      comp_ret p h1 h2 s1 s2 hh 0 hb, mean]
  · obtain ⟨r, e, _, _, _, ks, v⟩ := cmomentY_spec code p h1.ne' h2.ne' 0 _ _ hγ l (hE l)
    rw [cm, e, ok_bind, poly2numC_eq r p (not_zeroDiv _ 5 ks p hg), v, expect, integral_dirac, ret_const p s1 s2,
      add_sub_cancel_left, comp_star p h1 h2 s1 s2 hh, Flat.M_int _ _ hb]
  · obtain ⟨Q, hQ⟩ := condPoly code p h1.ne' h2.ne' (0 + p.h) l2
    have hQ' : CondPoly code p (0 + p.h) l2 Q := ⟨compE code p (0 + p.h), Set.univ, Set.univ, Set.infinite_univ,
      Set.infinite_univ, fun z _ => compLaw_compE _ _ _ _ _, fun z _ => hQ z _ (compLaw_compE _ _ _ _ _)⟩
    obtain ⟨r, e, _, _, _, ks, v⟩ := covYY_spec code p h1.ne' h2.ne' 0 _ _ hγ (hE ⊤) l1 l2 Q hQ'
    rw [cov, e, ok_bind, poly2num_eq r p (not_zeroDiv _ 6 ks p hg), v]
    simp only [expect, integral_dirac]
    have hv1 : vNext1 p 0 p.θ1 = C p.θ1 := by
      rw [vNext1, s1, show exp (-(p.k1 * p.h)) * p.θ1 + p.θ1 * (1 - exp (-(p.k1 * p.h))) = p.θ1 by ring]
      simp
    have hv2 : vNext2 p 0 p.θ2 = C p.θ2 := by
      rw [vNext2, s2, show exp (-(p.k2 * p.h)) * p.θ2 + p.θ2 * (1 - exp (-(p.k2 * p.h))) = p.θ2 by ring]
      simp
    have hq : aeval (two (C p.θ1 : Rv) (C p.θ2)) Q = C (eval (two p.θ1 p.θ2) Q) := by
      have := aeval_algebraMap_apply Rv (two p.θ1 p.θ2) Q
      have hf : (algebraMap ℝ Rv ∘ two p.θ1 p.θ2) = two (C p.θ1 : Rv) (C p.θ2) := by
        funext i
        fin_cases i <;> rfl
      rw [hf] at this
      exact this
    rw [hv1, hv2, hq, mul_comm, ← smul_eq_C_mul, map_smul, smul_eq_mul, hQ (p.θ1, p.θ2) _ (compLaw_compE _ _ _ _ _),
      comp_ret p h1 h2 s1 s2 hh _ hb, comp_ret p h1 h2 s1 s2 hh _ hb, comp_ret p h1 h2 s1 s2 hh _ hb]
    simp [mul_comm]

end Ajd.Fsv2

namespace Ajd
open MvPolynomial MeasureTheory ProbabilityTheory Real

/-- If `sigma1v = sigma2v = 0`, `mdl_2fsvj` is Merton's jump diffusion at every order. -/
theorem C68_fsv2j (p : Fsv2j.Par) (h1 : 0 < p.k1) (h2 : 0 < p.k2) (ht1 : 0 ≤ p.θ1) (ht2 : 0 ≤ p.θ2) (s1 : p.σ1 = 0)
    (s2 : p.σ2 = 0) (hh : 0 ≤ p.h) (hg : p.toPar.Generic) (hl : 0 ≤ p.lam) :
    (∀ l : ℕ, Fsv2j.m Itos.code l p = .ok (∫ y, y ^ l
        ∂(gaussianReal ((p.μ - p.θ1 / 2 - p.θ2 / 2) * p.h) ((p.θ1 + p.θ2) * p.h).toNNReal).conv (Fsv2j.jumpLaw p)) ∧
      Fsv2j.cm Itos.code l p = .ok (∫ y, y ^ l
        ∂(gaussianReal 0 ((p.θ1 + p.θ2) * p.h).toNNReal).conv (jumpCen (Fsv2j.jp p)))) ∧
    ∀ l1 l2 : ℕ, Fsv2j.cov Itos.code l1 l2 p = .ok 0 := by
  obtain ⟨g0, g3⟩ := Fsv2.C68_fsv2 p.toPar h1 h2 ht1 ht2 s1 s2 hh hg
  obtain ⟨a, b, c, g1, g2⟩ := conv_fsv2j p h1.ne' h2.ne' hh ⟨_, Fsv2.statLaw_dirac p.toPar s1 s2⟩ hg hl
  refine ⟨fun l => ⟨?_, ?_⟩, fun l1 l2 => ?_⟩
  · rw [(g1 l).2.1]
    exact congrArg _ (conv_jump (Fsv2j.jp p) a _ _ (fun i => Except.ok.inj ((g1 i).1.symm.trans (g0 i).1)) l)
  · rw [(g1 l).2.2.2]
    exact congrArg _ (conv_jumpCen (Fsv2j.jp p) b _ _ (fun i => Except.ok.inj ((g1 i).2.2.1.symm.trans (g0 i).2)) l)
  · have h0 : ∀ i j, c i j = 0 := fun i j => Except.ok.inj ((g2 i j).1.symm.trans (g3 i j))
    rw [(g2 l1 l2).2]
    simp [conv2, conv, h0]

example : ∃ p : Fsv2j.Par, p.toPar.Generic ∧ 0 < p.k1 ∧ 0 < p.k2 ∧ 0 < p.θ1 ∧ 0 < p.θ2 ∧ p.σ1 = 0 ∧ p.σ2 = 0 ∧ 0 < p.h ∧
    0 < p.lam :=
  ⟨⟨{ Fsv2.exPar with σ1 := 0, σ2 := 0 }, 1, 1, 1⟩, Fsv2.generic_of_irrational _ rfl irrational_sqrt_two, by norm_num [Fsv2.exPar]⟩

end Ajd
