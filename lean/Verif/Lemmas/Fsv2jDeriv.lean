import Verif.Lemmas.Fsv2j

section -- Fsv2jVal

/-! The values of the Polys of `mdl_2fsvj`. -/

namespace Ajd.Fsv2j
open Poly Cpp Itos MvPolynomial MeasureTheory ProbabilityTheory
open Fsv2 (TKey TPoly TOK tv mVal cVal mC cC' Rv Pol two vNext1 vNext2 StatLaw CompLaw CondLaw compE)
open Fsv1j (zVal zVal_eq zM mcpp_val cmcpp_val jump_integrable list_range_sum)

theorem jump_one (p : Par) (hl : 0 ≤ p.lam * p.h) : (∫ z, z ^ 0 ∂(jumpLaw p)) = 1 := by
  obtain ⟨r, er, _, _, rv⟩ := mcpp_val 0
  have h2 := rv (jp p) hl
  have : r = ⟨["lambda*h", "mu", "sigma"], [([0, 0, 0], 1)]⟩ := by
    have h3 : mcpp ((0 : ℕ) : ℤ) = .ok ⟨["lambda*h", "mu", "sigma"], [([0, 0, 0], 1)]⟩ := by
      decide +kernel
    rw [h3] at er
    cases er
    rfl
  rw [zM] at h2
  rw [jumpLaw_eq, ← h2, this]
  simp [ev, zVal, mono_three]

theorem cjump_integrable (p : Par) (i : ℕ) : Integrable (fun z => (z - zM (jp p) 1) ^ i) (jumpLaw p) := by
  have : (fun z => (z - zM (jp p) 1) ^ i) = fun z => ∑ j ∈ Finset.range (i + 1),
      (i.choose j * (-zM (jp p) 1) ^ (i - j)) * z ^ j := by
    funext z
    rw [sub_eq_add_neg, add_pow]
    exact Finset.sum_congr rfl fun i _ => by ring
  rw [this]
  exact integrable_finsetSum _ fun j _ => (jump_integrable (jp p) j).const_mul _

theorem momentY_val (g : Cfg) (p : Par) (h1 : p.k1 ≠ 0) (h2 : p.k2 ≠ 0) (hl : 0 ≤ p.lam * p.h) (t0 : ℝ)
    (E : ℝ × ℝ → Rv →ₗ[ℝ] ℝ) (γ : Measure (ℝ × ℝ)) (hγ : StatLaw p.toPar γ) (l : ℕ)
    (hE : ∀ᵐ x ∂γ, CompLaw g l p.toPar t0 x (E x)) :
    ∃ r, momentY g l = .ok r ∧ r.Keys (TOK 9) ∧ ev (mJ p) r = expect p γ E fun z x => ret p t0 z x ^ l := by
  obtain ⟨r, e, _, _, _, ks, v⟩ := momentY_spec g l
  have hE' : ∀ i ≤ l, ∀ᵐ x ∂γ, CompLaw g i p.toPar t0 x (E x) := fun i hi => hE.mono fun x hx =>
    Fsv2.compLaw_mono (by exact_mod_cast hi) hx
  have h := v p (fun i => Fsv2.expect γ E fun x => Fsv2.ret p.toPar t0 x ^ i) hl (by
    intro i hi q hq
    obtain ⟨q', e', _, _, _, _, v'⟩ := Fsv2.momentY_spec g p.toPar h1 h2 t0 E γ hγ i (hE' i hi)
    rw [hq] at e'
    cases e'
    exact v')
  have hb := Fsv2.binom_expect γ (jumpLaw p) E (Fsv2.ret p.toPar t0) (fun _ => 1) (fun z => z) l
    (fun i hi => by simpa using Fsv2.ret_integrable g p.toPar h1 h2 t0 E γ hγ i (hE' i hi))
    (jump_integrable (jp p))
  simp only [mul_one] at hb
  refine ⟨r, e, ks, ?_⟩
  rw [h, expect]
  simp only [ret]
  rw [hb]
  rfl

/-- the mean return with jumps -/
theorem mean_val (g : Cfg) (p : Par) (h1 : p.k1 ≠ 0) (h2 : p.k2 ≠ 0) (hl : 0 ≤ p.lam * p.h) (t0 : ℝ)
    (E : ℝ × ℝ → Rv →ₗ[ℝ] ℝ) (γ : Measure (ℝ × ℝ)) (hγ : StatLaw p.toPar γ)
    (hE : ∀ᵐ x ∂γ, CompLaw g 1 p.toPar t0 x (E x)) :
    (expect p γ E fun z x => ret p t0 z x) = Fsv2.mean p.toPar + zM (jp p) 1 := by
  have hb := Fsv2.binom_expect γ (jumpLaw p) E (Fsv2.ret p.toPar t0) (fun _ => 1) (fun z => z) 1
    (fun i hi => by
      simpa using Fsv2.ret_integrable g p.toPar h1 h2 t0 E γ hγ i (hE.mono fun x hx =>
        Fsv2.compLaw_mono (by exact_mod_cast hi) hx))
    (jump_integrable (jp p))
  simp only [mul_one, pow_one] at hb
  rw [expect]
  simp only [ret]
  rw [hb, Finset.sum_range_succ, Finset.sum_range_one]
  have h0 : Fsv2.expect γ E (fun x => (Fsv2.ret p.toPar t0 x) ^ 0) = 1 := by
    have hone : ∀ᵐ x ∂γ, E x 1 = 1 := by
      refine hE.mono fun x hx => ?_
      obtain ⟨P, e, v⟩ := hx 0 0 0 0 0 (by simp)
      have : moment g (((0 : ℕ) : ℤ), ((0 : ℕ) : ℤ), ((0 : ℕ) : ℤ), ((0 : ℕ) : ℤ), ((0 : ℕ) : ℤ)) = .ok P1 := rfl
      rw [this] at e
      cases e
      simpa [ev, P1, dval, den, Itos.Par.rate, ix] using v
    simp only [pow_zero, Fsv2.expect]
    rw [integral_congr_ae hone]
    have := hγ.moment 0 0
    simpa [Ito.vMoment] using this
  rw [h0]
  simp only [Nat.sub_self, pow_one]
  rw [jump_one p hl, Fsv2.mean_ret g p.toPar h1 h2 t0 E γ hγ hE, zM]
  simp
  rw [jumpLaw_eq]
  ring

theorem cmomentY_val (g : Cfg) (p : Par) (h1 : p.k1 ≠ 0) (h2 : p.k2 ≠ 0) (hl : 0 ≤ p.lam * p.h) (t0 : ℝ)
    (E : ℝ × ℝ → Rv →ₗ[ℝ] ℝ) (γ : Measure (ℝ × ℝ)) (hγ : StatLaw p.toPar γ) (l : ℕ)
    (hE : ∀ᵐ x ∂γ, CompLaw g l p.toPar t0 x (E x)) :
    ∃ r, cmomentY g l = .ok r ∧ r.Keys (TOK 8) ∧ ev (cJ p) r = expect p γ E fun z x =>
      (ret p t0 z x - C (expect p γ E fun z x => ret p t0 z x)) ^ l := by
  obtain ⟨r, e, _, _, _, ks, v⟩ := cmomentY_spec g l
  have hE' : ∀ i ≤ l, ∀ᵐ x ∂γ, CompLaw g i p.toPar t0 x (E x) := fun i hi => hE.mono fun x hx =>
    Fsv2.compLaw_mono (by exact_mod_cast hi) hx
  have h := v p (fun i => Fsv2.expect γ E fun x => (Fsv2.ret p.toPar t0 x - C (Fsv2.mean p.toPar)) ^ i) hl (by
    intro i hi q hq
    obtain ⟨q', e', _, _, _, _, v'⟩ := Fsv2.cmomentY_spec g p.toPar h1 h2 t0 E γ hγ i (hE' i hi)
    rw [hq] at e'
    cases e'
    exact v')
  have hb := Fsv2.binom_expect γ (jumpLaw p) E
    (fun x => Fsv2.ret p.toPar t0 x - C (Fsv2.mean p.toPar)) (fun _ => 1)
    (fun z => z - zM (jp p) 1) l
    (fun i hi => by
      simp only [mul_one]
      exact Fsv2.cret_integrable g p.toPar h1 h2 t0 E γ hγ i (hE' i hi) _) (cjump_integrable p)
  simp only [mul_one] at hb
  refine ⟨r, e, ks, ?_⟩
  rw [h, ← hb, expect]
  rcases l with _ | l
  · simp
  rw [mean_val g p h1 h2 hl t0 E γ hγ (by exact_mod_cast hE' 1 (by omega))]
  congr 1
  funext z
  congr 1
  funext x
  rw [ret, C_add, C_sub]
  ring

theorem condPolyJ (g : Cfg) (p : Par) (h1 : p.k1 ≠ 0) (h2 : p.k2 ≠ 0) (t1 : ℝ) (l : ℕ) :
    ∃ Q : ℝ → Pol, ∀ z v E, CompLaw g ⊤ p.toPar t1 v E →
      eval (two v.1 v.2) (Q z) = E (ret p t1 z v ^ l) := by
  choose Q hQ using fun l => Fsv2.condPoly g p.toPar h1 h2 t1 l
  refine ⟨fun z => ∑ i ∈ Finset.range (l + 1), C (l.choose i * z ^ (l - i)) * Q i, ?_⟩
  intro z v E hE
  rw [map_sum, ret, add_pow, map_sum]
  refine Finset.sum_congr rfl fun i _ => ?_
  rw [map_mul, eval_C, hQ i v E hE, ← Fsv2.E_C_mul]
  congr 1
  simp only [map_mul, map_pow, map_natCast]
  ring

theorem covYY_val (g : Cfg) (p : Par) (h1 : p.k1 ≠ 0) (h2 : p.k2 ≠ 0) (hl : 0 ≤ p.lam * p.h) (t0 : ℝ)
    (E : ℝ × ℝ → Rv →ₗ[ℝ] ℝ) (γ : Measure (ℝ × ℝ)) (hγ : StatLaw p.toPar γ)
    (hE : ∀ᵐ x ∂γ, CompLaw g ⊤ p.toPar t0 x (E x)) (l1 l2 : ℕ) (Q : ℝ → Pol)
    (hQ : CondPoly g p (t0 + p.h) l2 Q) :
    ∃ r, covYY g l1 l2 = .ok r ∧ r.Keys (TOK 9) ∧ ev (mJ p) r =
      (∫ z', expect p γ E (fun z x => ret p t0 z x ^ l1 *
          aeval (two (vNext1 p.toPar t0 x.1) (vNext2 p.toPar t0 x.2)) (Q z')) ∂(jumpLaw p)) -
        (expect p γ E fun z x => ret p t0 z x ^ l1) * (expect p γ E fun z x => ret p t0 z x ^ l2) := by
  obtain ⟨E', S1, S2, i1, i2, hE', hQ⟩ := hQ
  obtain ⟨r, e, _, _, _, ks, rv⟩ := covYY_parts g l1 l2
  obtain ⟨a, b, c, ea, eb, ec, rv⟩ := rv p
  obtain ⟨b', eb', _, hb⟩ := momentY_val g p h1 h2 hl t0 E γ hγ l1
    (hE.mono fun x h => Fsv2.compLaw_mono le_top h)
  obtain ⟨c', ec', _, hc⟩ := momentY_val g p h1 h2 hl t0 E γ hγ l2
    (hE.mono fun x h => Fsv2.compLaw_mono le_top h)
  rw [eb] at eb'
  cases eb'
  rw [ec] at ec'
  cases ec'
  choose Qi hQi using fun l => Fsv2.condPoly g p.toPar h1 h2 (t0 + p.h) l
  obtain ⟨a', ea', _, _, _, _, av⟩ := momentYY_spec g l1 l2
  rw [ea] at ea'
  cases ea'
  have h := av p (fun j i => Fsv2.expect γ E fun x => Fsv2.ret p.toPar t0 x ^ j *
    aeval (two (vNext1 p.toPar t0 x.1) (vNext2 p.toPar t0 x.2)) (Qi i)) hl (by
    intro j i q hq
    obtain ⟨q', e', _, _, _, _, v'⟩ := Fsv2.momentYY_spec g p.toPar h1 h2 t0 E γ hγ hE j i (Qi i)
      ⟨E', S1, S2, i1, i2, hE', fun z hz => hQi i z _ (hE' z hz)⟩
    rw [hq] at e'
    cases e'
    exact v')
  have hint := fun j i => Fsv2.yy_integrable g p.toPar h1 h2 t0 E γ hγ hE j i (Qi i)
    (fun z => hQi i z _ (Fsv2.compLaw_compE _ _ _ _ _))
  have hQQ : ∀ z, Q z = ∑ i ∈ Finset.range (l2 + 1), C (l2.choose i * z ^ (l2 - i)) * Qi i := by
    intro z
    apply Fsv2.pol_ext S1 S2 i1 i2
    intro v hv
    rw [hQ z v hv, map_sum, ret, add_pow, map_sum]
    refine Finset.sum_congr rfl fun i _ => ?_
    rw [map_mul (MvPolynomial.eval _), eval_C, hQi i v _ (hE' v hv), ← Fsv2.E_C_mul]
    congr 1
    simp only [map_mul, map_pow, map_natCast]
    ring
  refine ⟨r, e, ks, ?_⟩
  rw [rv, hb, hc, h]
  congr 1
  have h1 : ∀ z', expect p γ E (fun z x => ret p t0 z x ^ l1 *
      aeval (two (vNext1 p.toPar t0 x.1) (vNext2 p.toPar t0 x.2)) (Q z')) = ∑ i ∈ Finset.range (l2 + 1),
        (l2.choose i * ∑ j ∈ Finset.range (l1 + 1), l1.choose j * (Fsv2.expect γ E (fun x =>
          Fsv2.ret p.toPar t0 x ^ j * aeval (two (vNext1 p.toPar t0 x.1) (vNext2 p.toPar t0 x.2)) (Qi i)) *
            zM (jp p) (l1 - j))) * z' ^ (l2 - i) := by
    intro z'
    have hw : ∀ j, (fun x => E x (Fsv2.ret p.toPar t0 x ^ j *
        aeval (two (vNext1 p.toPar t0 x.1) (vNext2 p.toPar t0 x.2)) (Q z'))) = fun x =>
        ∑ i ∈ Finset.range (l2 + 1), (l2.choose i * z' ^ (l2 - i)) *
          E x (Fsv2.ret p.toPar t0 x ^ j *
            aeval (two (vNext1 p.toPar t0 x.1) (vNext2 p.toPar t0 x.2)) (Qi i)) := by
      intro j
      funext x
      rw [hQQ, map_sum, Finset.mul_sum, map_sum]
      refine Finset.sum_congr rfl fun i _ => ?_
      rw [map_mul (aeval _), aeval_C, MvPolynomial.algebraMap_eq, mul_left_comm, Fsv2.E_C_mul]
    have hb := Fsv2.binom_expect γ (jumpLaw p) E (Fsv2.ret p.toPar t0)
      (fun x => aeval (two (vNext1 p.toPar t0 x.1) (vNext2 p.toPar t0 x.2)) (Q z')) (fun z => z) l1
      (fun j _ => by
        rw [hw]
        exact integrable_finsetSum _ fun i _ => (hint j i).const_mul _)
      (jump_integrable (jp p))
    rw [expect]
    simp only [ret]
    rw [hb]
    have hw' : ∀ j, Fsv2.expect γ E (fun x => Fsv2.ret p.toPar t0 x ^ j *
        aeval (two (vNext1 p.toPar t0 x.1) (vNext2 p.toPar t0 x.2)) (Q z')) =
        ∑ i ∈ Finset.range (l2 + 1), (l2.choose i * z' ^ (l2 - i)) *
          Fsv2.expect γ E (fun x => Fsv2.ret p.toPar t0 x ^ j *
            aeval (two (vNext1 p.toPar t0 x.1) (vNext2 p.toPar t0 x.2)) (Qi i)) := by
      intro j
      rw [Fsv2.expect, hw, integral_finsetSum _ fun i _ => (hint j i).const_mul _]
      refine Finset.sum_congr rfl fun i _ => ?_
      rw [integral_const_mul, Fsv2.expect]
    simp only [hw', Finset.mul_sum, Finset.sum_mul]
    rw [Finset.sum_comm]
    refine Finset.sum_congr rfl fun i _ => Finset.sum_congr rfl fun j _ => ?_
    rw [zM, jumpLaw_eq]
    ring
  simp only [h1]
  rw [jumpLaw_eq, integral_finsetSum _ fun i _ => (jump_integrable (jp p) (l2 - i)).const_mul _, Finset.sum_comm]
  refine Finset.sum_congr rfl fun i _ => ?_
  rw [integral_const_mul, Finset.mul_sum, Finset.sum_mul]
  refine Finset.sum_congr rfl fun j _ => ?_
  rw [zM, zM]
  ring

end Ajd.Fsv2j

end -- Fsv2jVal

section -- Fsv2jDeriv

/-! `dpoly` of `mdl_2fsvj`; the moments under the true law. -/

namespace Ajd.Fsv2j
open Poly Cpp Itos MvPolynomial MeasureTheory ProbabilityTheory
open Fsv2 (TKey TPoly TOK tv mVal cVal mC cC' Rv Pol two vNext1 vNext2 StatLaw CompLaw CondLaw compE IsDeriv
  ZeroDiv setR getR)
open Fsv1j (zM jump_integrable)

/-! ### derivatives -/

theorem isDeriv_pow (p : Fsv2.Par) (num : ℝ → TPoly → Except PyErr ℝ) (val : ℝ → TKey → ℝ)
    (hnum : ∀ s P, ¬ ZeroDiv P p → num s P = .ok (ev (val s) P)) (kf : List String) (i n : ℕ)
    (hn : i < n) (s0 : ℝ) (B : List ℤ → ℝ) (hB : ∀ c a, B (c.modify i a) = B c)
    (hv : ∀ s key, val s key = tv p key * (s ^ ix key.c i * B key.c))
    (P : TPoly) (hP : P.Keys (TOK n)) (hz : ¬ ZeroDiv P p) :
    IsDeriv (fun s => num s P) (num s0 (Fsv2.dPow kf P i)) s0 := by
  refine ⟨_, fun s => ev (val s) P, hnum _ _ (Fsv2.zeroDiv_dPow p kf i P hz),
    Filter.Eventually.of_forall fun s => hnum _ _ hz, ?_⟩
  have h1 : ∀ s, val s = fun key => tv p key * (s ^ ix key.c i * B key.c) := fun s => funext (hv s)
  simp only [h1]
  exact Fsv2.deriv_pow p kf i n hn _ B (fun _ _ => rfl) hB P hP s0

theorem dpoly_spec (P : TPoly) (hP : P.Keys (TOK 9)) (p : Par) (hz : ¬ ZeroDiv P p.toPar) (wrt : String)
    (hw : wrt ∈ wrts) :
    ∃ d, dpoly P wrt = .ok d ∧ IsDeriv (fun s => poly2num P (p.set wrt s)) (poly2num d p) (p.get wrt) := by
  simp only [wrts, List.mem_cons, List.not_mem_nil, or_false] at hw
  rcases hw with rfl | rfl | rfl | rfl | rfl | rfl | rfl | rfl | rfl | rfl
  · exact ⟨_, by simp [dpoly]; rfl, Fsv2.isDeriv_rate (fun P q => poly2num P { p with toPar := q })
      (fun q => mJ { p with toPar := q }) (fun P q h => poly2num_eq P { p with toPar := q } h) p.toPar kfM false 9
      (by norm_num) (fun c => p.μ ^ ix c 1 * p.θ1 ^ ix c 2 * p.σ1 ^ ix c 3 * p.θ2 ^ ix c 4 * p.σ2 ^ ix c 5 * p.lam ^ ix c 6 * p.μj ^ ix c 7 * p.σj ^ ix c 8)
      (fun c a => by simp [Fsv1.ix_modify_ne])
      (fun s key => by simp only [mJ, jv, mVal, mC, setR, Bool.false_eq_true, if_true, if_false]; ring) P hP hz⟩
  · exact ⟨_, by simp [dpoly]; rfl, Fsv2.isDeriv_rate (fun P q => poly2num P { p with toPar := q })
      (fun q => mJ { p with toPar := q }) (fun P q h => poly2num_eq P { p with toPar := q } h) p.toPar kfM true 9
      (by norm_num) (fun c => p.μ ^ ix c 1 * p.θ1 ^ ix c 2 * p.σ1 ^ ix c 3 * p.θ2 ^ ix c 4 * p.σ2 ^ ix c 5 * p.lam ^ ix c 6 * p.μj ^ ix c 7 * p.σj ^ ix c 8)
      (fun c a => by simp [Fsv1.ix_modify_ne])
      (fun s key => by simp only [mJ, jv, mVal, mC, setR, Bool.false_eq_true, if_true, if_false]; ring) P hP hz⟩
  · exact ⟨_, by simp [dpoly]; rfl, isDeriv_pow p.toPar (fun s P => poly2num P { p with μ := s })
      (fun s => mJ { p with μ := s }) (fun s P h => poly2num_eq P { p with μ := s } h) kfM 1 9
      (by norm_num) p.μ (fun c => p.h ^ ix c 0 * p.θ1 ^ ix c 2 * p.σ1 ^ ix c 3 * p.θ2 ^ ix c 4 * p.σ2 ^ ix c 5 * p.lam ^ ix c 6 * p.μj ^ ix c 7 * p.σj ^ ix c 8)
      (fun c a => by simp [Fsv1.ix_modify_ne]) (fun s key => by rw [mJ, mVal]; change tv p.toPar key * _ * _ = _; simp only [mJ, jv, mVal, mC]; ring) P hP hz⟩
  · exact ⟨_, by simp [dpoly]; rfl, isDeriv_pow p.toPar (fun s P => poly2num P { p with θ1 := s })
      (fun s => mJ { p with θ1 := s }) (fun s P h => poly2num_eq P { p with θ1 := s } h) kfM 2 9
      (by norm_num) p.θ1 (fun c => p.h ^ ix c 0 * p.μ ^ ix c 1 * p.σ1 ^ ix c 3 * p.θ2 ^ ix c 4 * p.σ2 ^ ix c 5 * p.lam ^ ix c 6 * p.μj ^ ix c 7 * p.σj ^ ix c 8)
      (fun c a => by simp [Fsv1.ix_modify_ne]) (fun s key => by rw [mJ, mVal]; change tv p.toPar key * _ * _ = _; simp only [mJ, jv, mVal, mC]; ring) P hP hz⟩
  · exact ⟨_, by simp [dpoly]; rfl, isDeriv_pow p.toPar (fun s P => poly2num P { p with σ1 := s })
      (fun s => mJ { p with σ1 := s }) (fun s P h => poly2num_eq P { p with σ1 := s } h) kfM 3 9
      (by norm_num) p.σ1 (fun c => p.h ^ ix c 0 * p.μ ^ ix c 1 * p.θ1 ^ ix c 2 * p.θ2 ^ ix c 4 * p.σ2 ^ ix c 5 * p.lam ^ ix c 6 * p.μj ^ ix c 7 * p.σj ^ ix c 8)
      (fun c a => by simp [Fsv1.ix_modify_ne]) (fun s key => by rw [mJ, mVal]; change tv p.toPar key * _ * _ = _; simp only [mJ, jv, mVal, mC]; ring) P hP hz⟩
  · exact ⟨_, by simp [dpoly]; rfl, isDeriv_pow p.toPar (fun s P => poly2num P { p with θ2 := s })
      (fun s => mJ { p with θ2 := s }) (fun s P h => poly2num_eq P { p with θ2 := s } h) kfM 4 9
      (by norm_num) p.θ2 (fun c => p.h ^ ix c 0 * p.μ ^ ix c 1 * p.θ1 ^ ix c 2 * p.σ1 ^ ix c 3 * p.σ2 ^ ix c 5 * p.lam ^ ix c 6 * p.μj ^ ix c 7 * p.σj ^ ix c 8)
      (fun c a => by simp [Fsv1.ix_modify_ne]) (fun s key => by rw [mJ, mVal]; change tv p.toPar key * _ * _ = _; simp only [mJ, jv, mVal, mC]; ring) P hP hz⟩
  · exact ⟨_, by simp [dpoly]; rfl, isDeriv_pow p.toPar (fun s P => poly2num P { p with σ2 := s })
      (fun s => mJ { p with σ2 := s }) (fun s P h => poly2num_eq P { p with σ2 := s } h) kfM 5 9
      (by norm_num) p.σ2 (fun c => p.h ^ ix c 0 * p.μ ^ ix c 1 * p.θ1 ^ ix c 2 * p.σ1 ^ ix c 3 * p.θ2 ^ ix c 4 * p.lam ^ ix c 6 * p.μj ^ ix c 7 * p.σj ^ ix c 8)
      (fun c a => by simp [Fsv1.ix_modify_ne]) (fun s key => by rw [mJ, mVal]; change tv p.toPar key * _ * _ = _; simp only [mJ, jv, mVal, mC]; ring) P hP hz⟩
  · exact ⟨_, by simp [dpoly]; rfl, isDeriv_pow p.toPar (fun s P => poly2num P { p with lam := s })
      (fun s => mJ { p with lam := s }) (fun s P h => poly2num_eq P { p with lam := s } h) kfM 6 9
      (by norm_num) p.lam (fun c => p.h ^ ix c 0 * p.μ ^ ix c 1 * p.θ1 ^ ix c 2 * p.σ1 ^ ix c 3 * p.θ2 ^ ix c 4 * p.σ2 ^ ix c 5 * p.μj ^ ix c 7 * p.σj ^ ix c 8)
      (fun c a => by simp [Fsv1.ix_modify_ne]) (fun s key => by rw [mJ, mVal]; change tv p.toPar key * _ * _ = _; simp only [mJ, jv, mVal, mC]; ring) P hP hz⟩
  · exact ⟨_, by simp [dpoly]; rfl, isDeriv_pow p.toPar (fun s P => poly2num P { p with μj := s })
      (fun s => mJ { p with μj := s }) (fun s P h => poly2num_eq P { p with μj := s } h) kfM 7 9
      (by norm_num) p.μj (fun c => p.h ^ ix c 0 * p.μ ^ ix c 1 * p.θ1 ^ ix c 2 * p.σ1 ^ ix c 3 * p.θ2 ^ ix c 4 * p.σ2 ^ ix c 5 * p.lam ^ ix c 6 * p.σj ^ ix c 8)
      (fun c a => by simp [Fsv1.ix_modify_ne]) (fun s key => by rw [mJ, mVal]; change tv p.toPar key * _ * _ = _; simp only [mJ, jv, mVal, mC]; ring) P hP hz⟩
  · exact ⟨_, by simp [dpoly]; rfl, isDeriv_pow p.toPar (fun s P => poly2num P { p with σj := s })
      (fun s => mJ { p with σj := s }) (fun s P h => poly2num_eq P { p with σj := s } h) kfM 8 9
      (by norm_num) p.σj (fun c => p.h ^ ix c 0 * p.μ ^ ix c 1 * p.θ1 ^ ix c 2 * p.σ1 ^ ix c 3 * p.θ2 ^ ix c 4 * p.σ2 ^ ix c 5 * p.lam ^ ix c 6 * p.μj ^ ix c 7)
      (fun c a => by simp [Fsv1.ix_modify_ne]) (fun s key => by rw [mJ, mVal]; change tv p.toPar key * _ * _ = _; simp only [mJ, jv, mVal, mC]; ring) P hP hz⟩

theorem dpolyC_spec (P : TPoly) (hP : P.Keys (TOK 8)) (p : Par) (hz : ¬ ZeroDiv P p.toPar) (wrt : String)
    (hw : wrt ∈ wrts) :
    ∃ d, dpolyC P wrt = .ok d ∧ IsDeriv (fun s => poly2numC P (p.set wrt s)) (poly2numC d p) (p.get wrt) := by
  simp only [wrts, List.mem_cons, List.not_mem_nil, or_false] at hw
  rcases hw with rfl | rfl | rfl | rfl | rfl | rfl | rfl | rfl | rfl | rfl
  · exact ⟨_, by simp [dpolyC]; rfl, Fsv2.isDeriv_rate (fun P q => poly2numC P { p with toPar := q })
      (fun q => cJ { p with toPar := q }) (fun P q h => poly2numC_eq P { p with toPar := q } h) p.toPar kfC false 8
      (by norm_num) (fun c => p.θ1 ^ ix c 1 * p.σ1 ^ ix c 2 * p.θ2 ^ ix c 3 * p.σ2 ^ ix c 4 * p.lam ^ ix c 5 * p.μj ^ ix c 6 * p.σj ^ ix c 7)
      (fun c a => by simp [Fsv1.ix_modify_ne])
      (fun s key => by simp only [cJ, jv, cVal, cC', setR, Bool.false_eq_true, if_true, if_false]; ring) P hP hz⟩
  · exact ⟨_, by simp [dpolyC]; rfl, Fsv2.isDeriv_rate (fun P q => poly2numC P { p with toPar := q })
      (fun q => cJ { p with toPar := q }) (fun P q h => poly2numC_eq P { p with toPar := q } h) p.toPar kfC true 8
      (by norm_num) (fun c => p.θ1 ^ ix c 1 * p.σ1 ^ ix c 2 * p.θ2 ^ ix c 3 * p.σ2 ^ ix c 4 * p.lam ^ ix c 5 * p.μj ^ ix c 6 * p.σj ^ ix c 7)
      (fun c a => by simp [Fsv1.ix_modify_ne])
      (fun s key => by simp only [cJ, jv, cVal, cC', setR, Bool.false_eq_true, if_true, if_false]; ring) P hP hz⟩
  · refine ⟨_, by simp [dpolyC]; rfl, 0, fun _ => ev (cJ p) P, ?_, ?_, hasDerivAt_const _ _⟩
    · rw [poly2numC_eq _ _ (by simp [ZeroDiv])]; simp [ev]
    · exact Filter.Eventually.of_forall fun s => poly2numC_eq P { p with μ := s } hz
  · exact ⟨_, by simp [dpolyC]; rfl, isDeriv_pow p.toPar (fun s P => poly2numC P { p with θ1 := s })
      (fun s => cJ { p with θ1 := s }) (fun s P h => poly2numC_eq P { p with θ1 := s } h) kfC 1 8
      (by norm_num) p.θ1 (fun c => p.h ^ ix c 0 * p.σ1 ^ ix c 2 * p.θ2 ^ ix c 3 * p.σ2 ^ ix c 4 * p.lam ^ ix c 5 * p.μj ^ ix c 6 * p.σj ^ ix c 7)
      (fun c a => by simp [Fsv1.ix_modify_ne]) (fun s key => by rw [cJ, cVal]; change tv p.toPar key * _ * _ = _; simp only [cJ, jv, cVal, cC']; ring) P hP hz⟩
  · exact ⟨_, by simp [dpolyC]; rfl, isDeriv_pow p.toPar (fun s P => poly2numC P { p with σ1 := s })
      (fun s => cJ { p with σ1 := s }) (fun s P h => poly2numC_eq P { p with σ1 := s } h) kfC 2 8
      (by norm_num) p.σ1 (fun c => p.h ^ ix c 0 * p.θ1 ^ ix c 1 * p.θ2 ^ ix c 3 * p.σ2 ^ ix c 4 * p.lam ^ ix c 5 * p.μj ^ ix c 6 * p.σj ^ ix c 7)
      (fun c a => by simp [Fsv1.ix_modify_ne]) (fun s key => by rw [cJ, cVal]; change tv p.toPar key * _ * _ = _; simp only [cJ, jv, cVal, cC']; ring) P hP hz⟩
  · exact ⟨_, by simp [dpolyC]; rfl, isDeriv_pow p.toPar (fun s P => poly2numC P { p with θ2 := s })
      (fun s => cJ { p with θ2 := s }) (fun s P h => poly2numC_eq P { p with θ2 := s } h) kfC 3 8
      (by norm_num) p.θ2 (fun c => p.h ^ ix c 0 * p.θ1 ^ ix c 1 * p.σ1 ^ ix c 2 * p.σ2 ^ ix c 4 * p.lam ^ ix c 5 * p.μj ^ ix c 6 * p.σj ^ ix c 7)
      (fun c a => by simp [Fsv1.ix_modify_ne]) (fun s key => by rw [cJ, cVal]; change tv p.toPar key * _ * _ = _; simp only [cJ, jv, cVal, cC']; ring) P hP hz⟩
  · exact ⟨_, by simp [dpolyC]; rfl, isDeriv_pow p.toPar (fun s P => poly2numC P { p with σ2 := s })
      (fun s => cJ { p with σ2 := s }) (fun s P h => poly2numC_eq P { p with σ2 := s } h) kfC 4 8
      (by norm_num) p.σ2 (fun c => p.h ^ ix c 0 * p.θ1 ^ ix c 1 * p.σ1 ^ ix c 2 * p.θ2 ^ ix c 3 * p.lam ^ ix c 5 * p.μj ^ ix c 6 * p.σj ^ ix c 7)
      (fun c a => by simp [Fsv1.ix_modify_ne]) (fun s key => by rw [cJ, cVal]; change tv p.toPar key * _ * _ = _; simp only [cJ, jv, cVal, cC']; ring) P hP hz⟩
  · exact ⟨_, by simp [dpolyC]; rfl, isDeriv_pow p.toPar (fun s P => poly2numC P { p with lam := s })
      (fun s => cJ { p with lam := s }) (fun s P h => poly2numC_eq P { p with lam := s } h) kfC 5 8
      (by norm_num) p.lam (fun c => p.h ^ ix c 0 * p.θ1 ^ ix c 1 * p.σ1 ^ ix c 2 * p.θ2 ^ ix c 3 * p.σ2 ^ ix c 4 * p.μj ^ ix c 6 * p.σj ^ ix c 7)
      (fun c a => by simp [Fsv1.ix_modify_ne]) (fun s key => by rw [cJ, cVal]; change tv p.toPar key * _ * _ = _; simp only [cJ, jv, cVal, cC']; ring) P hP hz⟩
  · exact ⟨_, by simp [dpolyC]; rfl, isDeriv_pow p.toPar (fun s P => poly2numC P { p with μj := s })
      (fun s => cJ { p with μj := s }) (fun s P h => poly2numC_eq P { p with μj := s } h) kfC 6 8
      (by norm_num) p.μj (fun c => p.h ^ ix c 0 * p.θ1 ^ ix c 1 * p.σ1 ^ ix c 2 * p.θ2 ^ ix c 3 * p.σ2 ^ ix c 4 * p.lam ^ ix c 5 * p.σj ^ ix c 7)
      (fun c a => by simp [Fsv1.ix_modify_ne]) (fun s key => by rw [cJ, cVal]; change tv p.toPar key * _ * _ = _; simp only [cJ, jv, cVal, cC']; ring) P hP hz⟩
  · exact ⟨_, by simp [dpolyC]; rfl, isDeriv_pow p.toPar (fun s P => poly2numC P { p with σj := s })
      (fun s => cJ { p with σj := s }) (fun s P h => poly2numC_eq P { p with σj := s } h) kfC 7 8
      (by norm_num) p.σj (fun c => p.h ^ ix c 0 * p.θ1 ^ ix c 1 * p.σ1 ^ ix c 2 * p.θ2 ^ ix c 3 * p.σ2 ^ ix c 4 * p.lam ^ ix c 5 * p.μj ^ ix c 6)
      (fun c a => by simp [Fsv1.ix_modify_ne]) (fun s key => by rw [cJ, cVal]; change tv p.toPar key * _ * _ = _; simp only [cJ, jv, cVal, cC']; ring) P hP hz⟩

theorem dpoly_error (P : TPoly) (wrt : String) (hw : wrt ∉ wrts) :
    dpoly P wrt = .error .valueError ∧ dpolyC P wrt = .error .valueError := by
  simp only [wrts, List.mem_cons, List.not_mem_nil, or_false, not_or] at hw
  obtain ⟨h1, h2, h3, h4, h5, h6, h7, h8, h9, h10⟩ := hw
  simp [dpoly, dpolyC, h1, h2, h3, h4, h5, h6, h7, h8, h9, h10]

/-! ### the true law -/

/-- at order 3 the difference is the one without jumps -/
theorem expect_cube (p : Par) (hg : p.toPar.Generic) (hh : 0 ≤ p.h) (hl : 0 ≤ p.lam * p.h) (t0 : ℝ)
    (E : ℝ × ℝ → Rv →ₗ[ℝ] ℝ) (γ : Measure (ℝ × ℝ)) (hγ : StatLaw p.toPar γ)
    (hE : ∀ᵐ x ∂γ, CondLaw p.toPar t0 x (E x)) (m : ℝ) :
    (expect p γ E fun z x => (ret p t0 z x - C m) ^ 3) =
      (expect p γ (compE code p.toPar t0) fun z x => (ret p t0 z x - C m) ^ 3) +
        (Fsv2.gap3 p.k1 p.θ1 p.σ1 p.h + Fsv2.gap3 p.k2 p.θ2 p.σ2 p.h) := by
  obtain ⟨h1, h2⟩ := Fsv2.generic_ne hg
  have hr : ∀ z x, ret p t0 z x - C m = (Fsv2.ret p.toPar t0 x - C m) + C z := by
    intro z x
    rw [ret]
    ring
  have hc : ∀ N : ℕ, ∀ᵐ x ∂γ, CompLaw fixed N p.toPar t0 x (E x) := fun N =>
    hE.mono fun x hx => Fsv2.compLaw_fixed p.toPar hg hh t0 x (E x) hx N
  have b1 := Fsv2.binom_expect γ (jumpLaw p) E (fun x => Fsv2.ret p.toPar t0 x - C m) (fun _ => 1) (fun z => z) 3
    (fun i _ => by simpa using Fsv2.cret_integrable fixed p.toPar h1 h2 t0 E γ hγ i (hc i) m)
    (jump_integrable (jp p))
  have b2 := Fsv2.binom_expect γ (jumpLaw p) (compE code p.toPar t0) (fun x => Fsv2.ret p.toPar t0 x - C m)
    (fun _ => 1) (fun z => z) 3
    (fun i _ => by
      simpa using Fsv2.cret_integrable code p.toPar h1 h2 t0 _ γ hγ i
        (Filter.Eventually.of_forall fun x => Fsv2.compLaw_compE _ _ _ _ _) m)
    (jump_integrable (jp p))
  simp only [mul_one] at b1 b2
  have hlow : ∀ i ≤ 2, (Fsv2.expect γ E fun x => (Fsv2.ret p.toPar t0 x - C m) ^ i) =
      Fsv2.expect γ (compE code p.toPar t0) fun x => (Fsv2.ret p.toPar t0 x - C m) ^ i := by
    intro i hi
    apply integral_congr_ae
    refine hE.mono fun x hx => Fsv2.agree2 p.toPar h1 h2 hh t0 x (E x) hx _ ?_
    have hd : (Fsv2.ret p.toPar t0 x - C m : Rv).totalDegree ≤ 1 := by
      rw [sub_eq_add_neg, ← C_neg]
      exact Fsv2.deg_add (Fsv2.deg_ret p.toPar h1 h2 t0 x) (Fsv2.deg_C _)
    exact (totalDegree_pow _ _).trans ((Nat.mul_le_mul_left i hd).trans (by omega))
  simp only [expect, hr]
  rw [b1, b2, Finset.sum_range_succ, Finset.sum_range_succ _ 3]
  have hs : ∑ i ∈ Finset.range 3, ((3 : ℕ).choose i : ℝ) * (Fsv2.expect γ E (fun x =>
      (Fsv2.ret p.toPar t0 x - C m) ^ i) * ∫ z, z ^ (3 - i) ∂(jumpLaw p)) =
      ∑ i ∈ Finset.range 3, ((3 : ℕ).choose i : ℝ) * (Fsv2.expect γ (compE code p.toPar t0) (fun x =>
      (Fsv2.ret p.toPar t0 x - C m) ^ i) * ∫ z, z ^ (3 - i) ∂(jumpLaw p)) := by
    refine Finset.sum_congr rfl fun i hi => ?_
    rw [hlow i (by rw [Finset.mem_range] at hi; omega)]
  rw [hs, Fsv2.expect_cube p.toPar h1 h2 hh t0 E γ hγ hE m]
  simp only [Nat.sub_self, Nat.choose_self, Nat.cast_one, one_mul, jump_one p hl, mul_one]
  ring

end Ajd.Fsv2j

end -- Fsv2jDeriv
