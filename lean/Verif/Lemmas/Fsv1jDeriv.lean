import Verif.Lemmas.Fsv1j

namespace Ajd.Fsv1j
open Poly Cpp MvPolynomial MeasureTheory ProbabilityTheory
open Fsv1 (bmVal cVal M8 C7 StatLaw CondLaw Rv vNext deriv_k deriv_pow deriv_rho ix_modify_ne)

theorem m_val (p : Par) (hk : p.k ≠ 0) (hh : 0 ≤ p.h) (hρ : 0 ≤ 1 - p.ρ ^ 2) (hl : 0 ≤ p.lam)
    (t0 : ℝ) (E : ℝ → Rv →ₗ[ℝ] ℝ) (γ : Measure ℝ) (hγ : StatLaw p.toPar γ)
    (hE : ∀ᵐ x ∂γ, CondLaw p.toPar t0 x (E x)) (l : ℕ) :
    m l p = .ok (expect p γ E fun z x => ret p t0 z x ^ l) := by
  obtain ⟨r, e, _, _, _, _, v⟩ := momentY_spec l
  have h := v p (fun i => Fsv1.expect γ E fun x => Fsv1.ret p.toPar t0 x ^ i) (by positivity) (by
    intro i q hq
    obtain ⟨q', e', _, _, _, _, v'⟩ := Fsv1.momentY_spec p.toPar hk hh hρ t0 E γ hγ hE i
    rw [hq] at e'
    cases e'
    exact v')
  have hb := Fsv1.binom_expect γ (jumpLaw p) E (Fsv1.ret p.toPar t0) (fun _ => 1) (fun z => z) l
    (fun i => by simpa using Fsv1.ret_integrable p.toPar hk hh hρ t0 E γ hγ hE i)
    (jump_integrable p)
  simp only [mul_one] at hb
  rw [m, e, ok_bind, poly2num_eq, h, expect]
  simp only [ret]
  rw [hb]
  rfl

theorem cm_val (p : Par) (hk : p.k ≠ 0) (hh : 0 ≤ p.h) (hρ : 0 ≤ 1 - p.ρ ^ 2) (hl : 0 ≤ p.lam)
    (t0 : ℝ) (E : ℝ → Rv →ₗ[ℝ] ℝ) (γ : Measure ℝ) (hγ : StatLaw p.toPar γ)
    (hE : ∀ᵐ x ∂γ, CondLaw p.toPar t0 x (E x)) (l : ℕ) :
    cm l p = .ok (expect p γ E fun z x =>
      (ret p t0 z x - C (expect p γ E fun z x => ret p t0 z x)) ^ l) := by
  obtain ⟨r, e, _, _, _, _, v⟩ := cmomentY_spec l
  have h := v p (fun i => Fsv1.expect γ E fun x =>
    (Fsv1.ret p.toPar t0 x - C ((p.μ - p.θ / 2) * p.h)) ^ i) (by positivity) (by
    intro i q hq
    obtain ⟨q', e', _, _, _, _, v'⟩ := Fsv1.cmomentY_spec p.toPar hk hh hρ t0 E γ hγ hE i
    rw [hq] at e'
    cases e'
    exact v')
  have hone : ∀ᵐ x ∂γ, E x 1 = 1 := by
    refine hE.mono fun x hx => ?_
    obtain ⟨M, hM, hE⟩ := hx
    have := hE 0 0 0
    simpa [hM.zero _ (by simpa using hh : (⟨p.k, p.θ, p.σ, x, t0⟩ : Ito.Par).t0 ≤ t0 + p.h)]
      using this
  have hmean : (expect p γ E fun z x => ret p t0 z x) = (p.μ - p.θ / 2) * p.h + zM p 1 := by
    have hb := Fsv1.binom_expect γ (jumpLaw p) E (Fsv1.ret p.toPar t0) (fun _ => 1) (fun z => z) 1
      (fun i => by simpa using Fsv1.ret_integrable p.toPar hk hh hρ t0 E γ hγ hE i)
      (jump_integrable p)
    simp only [mul_one, pow_one] at hb
    rw [expect]
    simp only [ret]
    rw [hb, Finset.sum_range_succ, Finset.sum_range_one]
    have h0 : Fsv1.expect γ E (fun x => (Fsv1.ret p.toPar t0 x) ^ 0) = 1 := by
      simp only [pow_zero, Fsv1.expect]
      rw [integral_congr_ae hone]
      have := hγ.moment 0
      simpa [Ito.vMoment] using this
    have h1 : (∫ z, z ^ 0 ∂(jumpLaw p)) = 1 := by
      have : ∀ z : ℝ, z ^ 0 = 1 := fun z => pow_zero z
      obtain ⟨r, er, _, _, rv⟩ := mcpp_val 0
      have h2 := rv p (by positivity)
      have : r = ⟨["lambda*h", "mu", "sigma"], [([0, 0, 0], 1)]⟩ := by
        have h3 : mcpp ((0 : ℕ) : ℤ) = .ok ⟨["lambda*h", "mu", "sigma"], [([0, 0, 0], 1)]⟩ := by
          decide +kernel
        rw [h3] at er
        cases er
        rfl
      rw [zM] at h2
      rw [← h2, this]
      simp [ev, zVal, mono_three]
    rw [h0]
    simp only [Nat.sub_self, pow_one]
    rw [h1, Fsv1.mean_ret p.toPar hk hh t0 E γ hγ hE, zM]
    simp
    ring
  have hg : ∀ i : ℕ, Integrable (fun z => (z - zM p 1) ^ i) (jumpLaw p) := by
    intro i
    have : (fun z => (z - zM p 1) ^ i) = fun z => ∑ j ∈ Finset.range (i + 1),
        (i.choose j * (-zM p 1) ^ (i - j)) * z ^ j := by
      funext z
      rw [sub_eq_add_neg, add_pow]
      exact Finset.sum_congr rfl fun i _ => by ring
    rw [this]
    exact integrable_finset_sum _ fun j _ => (jump_integrable p j).const_mul _
  have hb := Fsv1.binom_expect γ (jumpLaw p) E
    (fun x => Fsv1.ret p.toPar t0 x - C ((p.μ - p.θ / 2) * p.h)) (fun _ => 1)
    (fun z => z - zM p 1) l
    (fun i => by
      simp only [mul_one]
      exact Fsv1.cret_integrable p.toPar hk hh hρ t0 E γ hγ hE ((p.μ - p.θ / 2) * p.h) i) hg
  simp only [mul_one] at hb
  rw [cm, e, ok_bind, poly2numC_eq, h, ← hb, hmean, expect]
  congr 2
  funext z
  congr 1
  funext x
  rw [ret, C_add, C_sub]
  ring

theorem condPolyJ (p : Par) (hk : p.k ≠ 0) (hh : 0 ≤ p.h) (hρ : 0 ≤ 1 - p.ρ ^ 2) (t0 : ℝ)
    (l : ℕ) : ∃ Q : ℝ → Polynomial ℝ, ∀ z v E, CondLaw p.toPar t0 v E →
      (Q z).eval v = E (ret p t0 z v ^ l) := by
  choose Q hQ using fun l => Fsv1.condPoly p.toPar hk hh hρ t0 l
  refine ⟨fun z => ∑ i ∈ Finset.range (l + 1), Polynomial.C (l.choose i * z ^ (l - i)) * Q i, ?_⟩
  intro z v E hE
  rw [Polynomial.eval_finsetSum, ret, add_pow, map_sum]
  refine Finset.sum_congr rfl fun i _ => ?_
  rw [Polynomial.eval_mul, Polynomial.eval_C, hQ i v E hE, ← Fsv1.E_C_mul]
  congr 1
  simp only [map_mul, map_pow, map_natCast]
  ring

theorem M11_add : AddClosed M11 := by
  intro k1 k2 h1 h2
  obtain ⟨a0, a1, a3, a4, a5, a6, a7, a8, a9, a10⟩ := h1
  obtain ⟨b0, b1, b3, b4, b5, b6, b7, b8, b9, b10⟩ := h2
  have hl : k1.length = k2.length := by omega
  simp only [M11, List.length_zipWith, ix_zipWith _ _ hl]
  omega

theorem mVal_mulOn (p : Par) (hk : p.k ≠ 0) (hρ : 0 ≤ 1 - p.ρ ^ 2) : MulOn M11 (mVal p) := by
  intro k1 k2 h1 h2
  obtain ⟨a0, a1, a3, a4, a5, a6, a7, a8, a9, a10⟩ := h1
  obtain ⟨b0, b1, b3, b4, b5, b6, b7, b8, b9, b10⟩ := h2
  have hl : k1.length = k2.length := by omega
  simp only [mVal, jVal, bmVal, ix_zipWith _ _ hl, Int.cast_add, neg_add, add_mul, Real.exp_add,
    zpow_add₀ hk]
  rw [zpow_add_nn p.θ _ _ ‹_› ‹_›, zpow_add_nn p.σ _ _ ‹_› ‹_›, zpow_add_nn p.h _ _ ‹_› ‹_›,
    zpow_add_nn p.μ _ _ ‹_› ‹_›, zpow_add_nn p.ρ _ _ ‹_› ‹_›, Fsv1.sq_add p.ρ hρ _ _ ‹_› ‹_›,
    zpow_add_nn p.lam _ _ ‹_› ‹_›, zpow_add_nn p.μj _ _ ‹_› ‹_›, zpow_add_nn p.σj _ _ ‹_› ‹_›]
  ring

theorem covYY_keys (l1 l2 : ℕ) : ∃ r, covYY l1 l2 = .ok r ∧ r.keyfor = kfM ∧ r.WF ∧ r.NoZero ∧
    r.Keys M11 ∧ ∃ a b c : IPoly, momentYY l1 l2 = .ok a ∧ momentY l1 = .ok b ∧
      momentY l2 = .ok c ∧ ∀ p : Par, p.k ≠ 0 → 0 ≤ 1 - p.ρ ^ 2 →
      ev (mVal p) r = ev (mVal p) a - ev (mVal p) b * ev (mVal p) c := by
  obtain ⟨a, ea, ak, aw, an, akeys, _⟩ := momentYY_spec l1 l2
  obtain ⟨b, eb, bk, _, _, bkeys, _⟩ := momentY_spec l1
  obtain ⟨c, ec, ck, _, _, ckeys, _⟩ := momentY_spec l2
  obtain ⟨d, ed, dk, dw, _, dkeys, dv⟩ := mul_on b c (bk.trans ck.symm) 11 M11 M11_add
    (fun k h => h.1) bkeys ckeys
  obtain ⟨r, er, rk, rw', _, rkeys, rv⟩ := sub_spec a d (ak.trans (dk.trans bk).symm) dw
  refine ⟨r.removeZero, ?_, by simp [rk, ak], removeZero_WF _ (rw' aw), removeZero_NoZero _,
    removeZero_Keys _ _ (rkeys _ akeys dkeys), a, b, c, ea, eb, ec, fun p hk hρ => ?_⟩
  · rw [covYY, ea, ok_bind, eb, ok_bind, ec, ok_bind, ed, ok_bind, er]; rfl
  · rw [ev_removeZero, rv, dv _ (mVal_mulOn p hk hρ)]

theorem cov_val (p : Par) (hk : p.k ≠ 0) (hh : 0 ≤ p.h) (hρ : 0 ≤ 1 - p.ρ ^ 2) (hl : 0 ≤ p.lam)
    (t0 : ℝ) (E E' : ℝ → Rv →ₗ[ℝ] ℝ) (γ : Measure ℝ) (hγ : StatLaw p.toPar γ)
    (hE : ∀ᵐ x ∂γ, CondLaw p.toPar t0 x (E x)) (S : Set ℝ) (hS : S.Infinite)
    (hE' : ∀ v ∈ S, CondLaw p.toPar (t0 + p.h) v (E' v)) (l1 l2 : ℕ) (Q : ℝ → Polynomial ℝ)
    (hQ : ∀ z, ∀ v ∈ S, (Q z).eval v = E' v (ret p (t0 + p.h) z v ^ l2)) :
    cov l1 l2 p = .ok
      ((∫ z', expect p γ E (fun z x => ret p t0 z x ^ l1 *
          Polynomial.aeval (vNext p.toPar t0 x) (Q z')) ∂(jumpLaw p)) -
        (expect p γ E fun z x => ret p t0 z x ^ l1) *
          (expect p γ E fun z x => ret p t0 z x ^ l2)) := by
  obtain ⟨r, e, _, _, _, _, a, b, c, ea, eb, ec, rv⟩ := covYY_keys l1 l2
  have hb := m_val p hk hh hρ hl t0 E γ hγ hE l1
  have hc := m_val p hk hh hρ hl t0 E γ hγ hE l2
  rw [m, eb, ok_bind] at hb
  rw [m, ec, ok_bind] at hc
  have hb' := Except.ok.inj hb
  have hc' := Except.ok.inj hc
  rw [poly2num_eq] at hb' hc'
  choose Qi hQi using fun l => Fsv1.condPoly p.toPar hk hh hρ (t0 + p.h) l
  obtain ⟨a', ea', _, _, _, _, av⟩ := momentYY_spec l1 l2
  rw [ea] at ea'
  cases ea'
  have h := av p (fun j i => Fsv1.expect γ E fun x => Fsv1.ret p.toPar t0 x ^ j *
    Polynomial.aeval (vNext p.toPar t0 x) (Qi i)) (by positivity) (by
    intro i j q hq
    obtain ⟨q', e', _, _, _, _, v'⟩ := Fsv1.momentYY_spec p.toPar hk hh hρ t0 E γ hγ hE j i E' S hS
      hE' (Qi i) (fun z hz => hQi i z _ (hE' z hz))
    rw [hq] at e'
    cases e'
    exact v')
  have hint := fun j i => Fsv1.yy_integrable p.toPar hk hh hρ t0 E γ hγ hE j i E' S hS
      hE' (Qi i) (fun z hz => hQi i z _ (hE' z hz))
  have hQQ : ∀ z, Q z = ∑ i ∈ Finset.range (l2 + 1),
      Polynomial.C (l2.choose i * z ^ (l2 - i)) * Qi i := by
    intro z
    apply Polynomial.eq_of_infinite_eval_eq
    apply hS.mono
    intro v hv
    simp only [Set.mem_ofPred_eq]
    rw [hQ z v hv, Polynomial.eval_finsetSum, ret, add_pow, map_sum]
    refine Finset.sum_congr rfl fun i _ => ?_
    rw [Polynomial.eval_mul, Polynomial.eval_C, hQi i v _ (hE' v hv), ← Fsv1.E_C_mul]
    congr 1
    simp only [map_mul, map_pow, map_natCast]
    ring
  rw [cov, e, ok_bind, poly2num_eq, rv p hk hρ, hb', hc', h]
  congr 2
  have h1 : ∀ z', expect p γ E (fun z x => ret p t0 z x ^ l1 *
      Polynomial.aeval (vNext p.toPar t0 x) (Q z')) = ∑ i ∈ Finset.range (l2 + 1),
        (l2.choose i * ∑ j ∈ Finset.range (l1 + 1), l1.choose j * (Fsv1.expect γ E (fun x =>
          Fsv1.ret p.toPar t0 x ^ j * Polynomial.aeval (vNext p.toPar t0 x) (Qi i)) *
            zM p (l1 - j))) * z' ^ (l2 - i) := by
    intro z'
    have hw : ∀ j, (fun x => E x (Fsv1.ret p.toPar t0 x ^ j *
        Polynomial.aeval (vNext p.toPar t0 x) (Q z'))) = fun x =>
        ∑ i ∈ Finset.range (l2 + 1), (l2.choose i * z' ^ (l2 - i)) *
          E x (Fsv1.ret p.toPar t0 x ^ j * Polynomial.aeval (vNext p.toPar t0 x) (Qi i)) := by
      intro j
      funext x
      rw [hQQ, map_sum, Finset.mul_sum, map_sum]
      refine Finset.sum_congr rfl fun i _ => ?_
      rw [map_mul (Polynomial.aeval _), Polynomial.aeval_C, MvPolynomial.algebraMap_eq, mul_left_comm, Fsv1.E_C_mul]
    have hb := Fsv1.binom_expect γ (jumpLaw p) E (Fsv1.ret p.toPar t0)
      (fun x => Polynomial.aeval (vNext p.toPar t0 x) (Q z')) (fun z => z) l1
      (fun j => by
        rw [hw]
        exact integrable_finset_sum _ fun i _ => (hint j i).const_mul _)
      (jump_integrable p)
    rw [expect]
    simp only [ret]
    rw [hb]
    have hw' : ∀ j, Fsv1.expect γ E (fun x => Fsv1.ret p.toPar t0 x ^ j *
        Polynomial.aeval (vNext p.toPar t0 x) (Q z')) =
        ∑ i ∈ Finset.range (l2 + 1), (l2.choose i * z' ^ (l2 - i)) *
          Fsv1.expect γ E (fun x => Fsv1.ret p.toPar t0 x ^ j *
            Polynomial.aeval (vNext p.toPar t0 x) (Qi i)) := by
      intro j
      rw [Fsv1.expect, hw, integral_finsetSum _ fun i _ => (hint j i).const_mul _]
      refine Finset.sum_congr rfl fun i _ => ?_
      rw [integral_const_mul, Fsv1.expect]
    simp only [hw', Finset.mul_sum, Finset.sum_mul]
    rw [Finset.sum_comm]
    refine Finset.sum_congr rfl fun i _ => Finset.sum_congr rfl fun j _ => ?_
    rw [zM]
    ring
  simp only [h1]
  rw [integral_finsetSum _ fun i _ => (jump_integrable p (l2 - i)).const_mul _]
  refine Finset.sum_congr rfl fun i _ => ?_
  rw [integral_const_mul, Finset.mul_sum, Finset.sum_mul]
  refine Finset.sum_congr rfl fun j _ => ?_
  rw [zM, zM]
  ring

theorem dpoly_spec (P : IPoly) (hP : P.Keys M11) (p : Par) (wrt : String) (hw : wrt ∈ wrts)
    (hk : wrt = "k" → p.k ≠ 0) (hρ : wrt = "rho" → 0 < 1 - p.ρ ^ 2) :
    ∃ d, dpoly P wrt = .ok d ∧
      HasDerivAt (fun s => poly2num P (p.set wrt s)) (poly2num d p) (p.get wrt) := by
  simp only [poly2num_eq]
  simp only [wrts, List.mem_cons, List.not_mem_nil, or_false] at hw
  rcases hw with rfl | rfl | rfl | rfl | rfl | rfl | rfl | rfl
  · refine ⟨_, by simp [dpoly]; rfl, ?_⟩
    have := deriv_k kfM p.h (fun s => mVal { p with k := s }) (fun key => p.μ ^ ix key 3 *
      p.θ ^ ix key 4 * p.σ ^ ix key 5 * p.ρ ^ ix key 6 * Fsv1.sq p.ρ (ix key 7) * jVal p 8 key)
      (fun s key => by simp only [mVal, jVal, bmVal]; ring)
      (fun key a => by simp [ix_modify_ne, jVal]) (fun key a => by simp [ix_modify_ne, jVal]) P p.k
      (hk rfl) (fun e he => by obtain ⟨_, _⟩ := hP e he; omega)
    exact this
  · refine ⟨_, by simp [dpoly]; rfl, ?_⟩
    have := deriv_pow 3 kfM (fun s => mVal { p with μ := s }) (fun key =>
      Real.exp (-(ix key 0) * p.k * p.h) * p.h ^ ix key 1 * p.k ^ (-ix key 2) *
      p.θ ^ ix key 4 * p.σ ^ ix key 5 * p.ρ ^ ix key 6 * Fsv1.sq p.ρ (ix key 7) * jVal p 8 key)
      (fun s key => by simp only [mVal, jVal, bmVal]; ring)
      (fun key a => by simp [ix_modify_ne, jVal]) P p.μ
      (fun e he => by obtain ⟨_, _⟩ := hP e he; omega)
    exact this
  · refine ⟨_, by simp [dpoly]; rfl, ?_⟩
    have := deriv_pow 4 kfM (fun s => mVal { p with θ := s }) (fun key =>
      Real.exp (-(ix key 0) * p.k * p.h) * p.h ^ ix key 1 * p.k ^ (-ix key 2) *
      p.μ ^ ix key 3 * p.σ ^ ix key 5 * p.ρ ^ ix key 6 * Fsv1.sq p.ρ (ix key 7) * jVal p 8 key)
      (fun s key => by simp only [mVal, jVal, bmVal]; ring)
      (fun key a => by simp [ix_modify_ne, jVal]) P p.θ
      (fun e he => by obtain ⟨_, _⟩ := hP e he; omega)
    exact this
  · refine ⟨_, by simp [dpoly]; rfl, ?_⟩
    have := deriv_pow 5 kfM (fun s => mVal { p with σ := s }) (fun key =>
      Real.exp (-(ix key 0) * p.k * p.h) * p.h ^ ix key 1 * p.k ^ (-ix key 2) *
      p.μ ^ ix key 3 * p.θ ^ ix key 4 * p.ρ ^ ix key 6 * Fsv1.sq p.ρ (ix key 7) * jVal p 8 key)
      (fun s key => by simp only [mVal, jVal, bmVal]; ring)
      (fun key a => by simp [ix_modify_ne, jVal]) P p.σ
      (fun e he => by obtain ⟨_, _⟩ := hP e he; omega)
    exact this
  · refine ⟨_, by simp [dpoly]; rfl, ?_⟩
    have := deriv_rho 6 kfM (fun s => mVal { p with ρ := s }) (fun key =>
      Real.exp (-(ix key 0) * p.k * p.h) * p.h ^ ix key 1 * p.k ^ (-ix key 2) *
      p.μ ^ ix key 3 * p.θ ^ ix key 4 * p.σ ^ ix key 5 * jVal p 8 key)
      (fun s key => by simp only [mVal, jVal, bmVal]; ring)
      (fun key a => by simp [ix_modify_ne, jVal]) (fun key a => by simp [ix_modify_ne, jVal]) P p.ρ
      (hρ rfl) (fun e he => by obtain ⟨_, _⟩ := hP e he; omega)
    exact this
  · refine ⟨_, by simp [dpoly]; rfl, ?_⟩
    have := deriv_pow 8 kfM (fun s => mVal { p with lam := s }) (fun key => bmVal p.toPar key *
      p.μj ^ ix key 9 * p.σj ^ ix key 10)
      (fun s key => by simp only [mVal, jVal]; ring)
      (fun key a => by simp [ix_modify_ne, bmVal]) P p.lam
      (fun e he => by obtain ⟨_, _⟩ := hP e he; omega)
    exact this
  · refine ⟨_, by simp [dpoly]; rfl, ?_⟩
    have := deriv_pow 9 kfM (fun s => mVal { p with μj := s }) (fun key => bmVal p.toPar key *
      p.lam ^ ix key 8 * p.σj ^ ix key 10)
      (fun s key => by simp only [mVal, jVal]; ring)
      (fun key a => by simp [ix_modify_ne, bmVal]) P p.μj
      (fun e he => by obtain ⟨_, _⟩ := hP e he; omega)
    exact this
  · refine ⟨_, by simp [dpoly]; rfl, ?_⟩
    have := deriv_pow 10 kfM (fun s => mVal { p with σj := s }) (fun key => bmVal p.toPar key *
      p.lam ^ ix key 8 * p.μj ^ ix key 9)
      (fun s key => by simp only [mVal, jVal]; ring)
      (fun key a => by simp [ix_modify_ne, bmVal]) P p.σj
      (fun e he => by obtain ⟨_, _⟩ := hP e he; omega)
    exact this

theorem dpolyC_spec (P : IPoly) (hP : P.Keys C10) (p : Par) (wrt : String) (hw : wrt ∈ wrts)
    (hk : wrt = "k" → p.k ≠ 0) (hρ : wrt = "rho" → 0 < 1 - p.ρ ^ 2) :
    ∃ d, dpolyC P wrt = .ok d ∧
      HasDerivAt (fun s => poly2numC P (p.set wrt s)) (poly2numC d p) (p.get wrt) := by
  simp only [poly2numC_eq]
  simp only [wrts, List.mem_cons, List.not_mem_nil, or_false] at hw
  rcases hw with rfl | rfl | rfl | rfl | rfl | rfl | rfl | rfl
  · refine ⟨_, by simp [dpolyC]; rfl, ?_⟩
    have := deriv_k kfC p.h (fun s => ccVal { p with k := s }) (fun key =>
      p.θ ^ ix key 3 * p.σ ^ ix key 4 * p.ρ ^ ix key 5 * Fsv1.sq p.ρ (ix key 6) * jVal p 7 key)
      (fun s key => by simp only [ccVal, jVal, cVal]; ring)
      (fun key a => by simp [ix_modify_ne, jVal]) (fun key a => by simp [ix_modify_ne, jVal]) P p.k
      (hk rfl) (fun e he => by obtain ⟨_, _⟩ := hP e he; omega)
    exact this
  · refine ⟨_, by simp [dpolyC]; rfl, ?_⟩
    have h : (fun s => ev (ccVal (p.set "mu" s)) P) = fun _ => ev (ccVal p) P := by
      funext s
      rfl
    rw [h]
    simpa [ev] using hasDerivAt_const (p.get "mu") (ev (ccVal p) P)
  · refine ⟨_, by simp [dpolyC]; rfl, ?_⟩
    have := deriv_pow 3 kfC (fun s => ccVal { p with θ := s }) (fun key =>
      Real.exp (-(ix key 0) * p.k * p.h) * p.h ^ ix key 1 * p.k ^ (-ix key 2) *
      p.σ ^ ix key 4 * p.ρ ^ ix key 5 * Fsv1.sq p.ρ (ix key 6) * jVal p 7 key)
      (fun s key => by simp only [ccVal, jVal, cVal]; ring)
      (fun key a => by simp [ix_modify_ne, jVal]) P p.θ
      (fun e he => by obtain ⟨_, _⟩ := hP e he; omega)
    exact this
  · refine ⟨_, by simp [dpolyC]; rfl, ?_⟩
    have := deriv_pow 4 kfC (fun s => ccVal { p with σ := s }) (fun key =>
      Real.exp (-(ix key 0) * p.k * p.h) * p.h ^ ix key 1 * p.k ^ (-ix key 2) *
      p.θ ^ ix key 3 * p.ρ ^ ix key 5 * Fsv1.sq p.ρ (ix key 6) * jVal p 7 key)
      (fun s key => by simp only [ccVal, jVal, cVal]; ring)
      (fun key a => by simp [ix_modify_ne, jVal]) P p.σ
      (fun e he => by obtain ⟨_, _⟩ := hP e he; omega)
    exact this
  · refine ⟨_, by simp [dpolyC]; rfl, ?_⟩
    have := deriv_rho 5 kfC (fun s => ccVal { p with ρ := s }) (fun key =>
      Real.exp (-(ix key 0) * p.k * p.h) * p.h ^ ix key 1 * p.k ^ (-ix key 2) *
      p.θ ^ ix key 3 * p.σ ^ ix key 4 * jVal p 7 key)
      (fun s key => by simp only [ccVal, jVal, cVal]; ring)
      (fun key a => by simp [ix_modify_ne, jVal]) (fun key a => by simp [ix_modify_ne, jVal]) P p.ρ
      (hρ rfl) (fun e he => by obtain ⟨_, _⟩ := hP e he; omega)
    exact this
  · refine ⟨_, by simp [dpolyC]; rfl, ?_⟩
    have := deriv_pow 7 kfC (fun s => ccVal { p with lam := s }) (fun key => cVal p.toPar key *
      p.μj ^ ix key 8 * p.σj ^ ix key 9)
      (fun s key => by simp only [ccVal, jVal]; ring)
      (fun key a => by simp [ix_modify_ne, cVal]) P p.lam
      (fun e he => by obtain ⟨_, _⟩ := hP e he; omega)
    exact this
  · refine ⟨_, by simp [dpolyC]; rfl, ?_⟩
    have := deriv_pow 8 kfC (fun s => ccVal { p with μj := s }) (fun key => cVal p.toPar key *
      p.lam ^ ix key 7 * p.σj ^ ix key 9)
      (fun s key => by simp only [ccVal, jVal]; ring)
      (fun key a => by simp [ix_modify_ne, cVal]) P p.μj
      (fun e he => by obtain ⟨_, _⟩ := hP e he; omega)
    exact this
  · refine ⟨_, by simp [dpolyC]; rfl, ?_⟩
    have := deriv_pow 9 kfC (fun s => ccVal { p with σj := s }) (fun key => cVal p.toPar key *
      p.lam ^ ix key 7 * p.μj ^ ix key 8)
      (fun s key => by simp only [ccVal, jVal]; ring)
      (fun key a => by simp [ix_modify_ne, cVal]) P p.σj
      (fun e he => by obtain ⟨_, _⟩ := hP e he; omega)
    exact this

theorem dpoly_error (P : IPoly) (wrt : String) (hw : wrt ∉ wrts) :
    dpoly P wrt = .error .valueError ∧ dpolyC P wrt = .error .valueError := by
  simp only [wrts, List.mem_cons, List.not_mem_nil, or_false, not_or] at hw
  obtain ⟨h1, h2, h3, h4, h5, h6, h7, h8⟩ := hw
  simp [dpoly, dpolyC, h1, h2, h3, h4, h5, h6, h7, h8]

end Ajd.Fsv1j
