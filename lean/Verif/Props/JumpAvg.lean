import Verif.Lemmas.JumpAvg
import Verif.Props.Srjd3
import Verif.Props.ItoSde
import Verif.Props.CondSde
import Verif.Props.SvcjI

/-! C74, C75: averaging the moments given the jumps over the jumps. -/

namespace Ajd.SrjdJ
open MvPolynomial MeasureTheory ProbabilityTheory Gen

/-- the arguments of cond2_mom.py for the parameters `p` and the jumps `l` -/
def withJumps (p : Srjd.Par) (l : List (ℝ × ℝ)) : Par := ⟨p.v0, p.k, p.theta, p.sigma, p.h, l.map Prod.snd, l.map Prod.fst⟩

/-- the value given the jumps -/
theorem mV_given (p : Srjd.Par) (hk : p.k ≠ 0) (hh : 0 ≤ p.h) {l : List (ℝ × ℝ)} (hl : JumpsIn 0 p.h l) :
    ∃ E, ItoCond.GivenV (withJumps p l).cir E ∧ ∀ n : ℕ, ∃ c, ∀ fuel, c ≤ fuel → mV fuel n (withJumps p l) = some (.ok (E p.h (X 0 ^ n))) ∧
      cmV fuel n (withJumps p l) = some (.ok (E p.h ((X 0 - C (E p.h (X 0))) ^ n))) := by
  have ht := List.pairwise_cons.1 hl.1
  have hle : ∀ s ∈ l.map Prod.fst, s ≤ p.h := fun s hs => by
    obtain ⟨q, hq, rfl⟩ := List.mem_map.1 hs
    exact hl.2 q hq
  obtain ⟨E, hE⟩ := ItoCond.givenV_exists (withJumps p l).cir (lists_times hl)
  refine ⟨E, hE, fun n => ?_⟩
  obtain ⟨c, hc⟩ := C37_sde n (withJumps p l) ⟨hk, hh, by simp [withJumps], fun s hs => ⟨(ht.1 s hs).le, hle s hs⟩⟩
    (ht.2.imp fun h => h.ne) ht.1
  exact ⟨c, fun fuel hf => hc fuel hf E hE⟩

theorem isGiven {n : ℕ} {p : Srjd.Par} (hk : p.k ≠ 0) (hh : 0 ≤ p.h) {F : List (ℝ × ℝ) → ℝ}
    (hF : ∀ l, JumpsIn 0 p.h l → ∃ c, ∀ fuel, c ≤ fuel → mV fuel n (withJumps p l) = some (.ok (F l))) :
    IsGiven (Ito.cir p.k p.theta p.sigma) (fun y => Measure.dirac ![y]) (aeval ![p.v0]).toLinearMap p.h (X 0 ^ n) F := by
  refine isGiven_of fun l hl => ?_
  obtain ⟨c, hc⟩ := hF l hl
  obtain ⟨E, hE, h⟩ := mV_given p hk hh hl
  obtain ⟨c', hc'⟩ := h n
  refine ⟨E, hE, ?_⟩
  have := (hc (max c c') (le_max_left _ _)).symm.trans (hc' (max c c') (le_max_right _ _)).1
  simpa using this

/-- C74. `m(n, par)` of cond2_mom.py, the moment given the jumps, averaged over the jumps of the compound Poisson
process up to the time `h`, is `m(n, par)` of cond_mom.py, the moment given the initial variance only. -/
theorem C74_average (d n : ℕ) (hd : n ≤ d) (h2 : 2 ≤ d) (p : Srjd.Par) (hk : p.k ≠ 0) (hl : 0 ≤ p.lmbd) (hm : 0 < p.mu_v)
    (hh : 0 ≤ p.h) (F : List (ℝ × ℝ) → ℝ)
    (hF : ∀ l, JumpsIn 0 p.h l → ∃ c, ∀ fuel, c ≤ fuel → mV fuel n (withJumps p l) = some (.ok (F l))) :
    ∃ s, Srjd.mV d n p = .ok s ∧ HasSum (fun N => jumpAvg p.lmbd p.mu_v p.h N 0 F) s := by
  obtain ⟨V, hV, h⟩ := Srjd.C50_dynkin p hk hl hm
  refine ⟨V n p.h, h d n p.h hd h2 hh, ?_⟩
  exact srjd_avg hm hh hV n (isGiven hk hh hF)

/-- C74. The moments given the jumps are defined for all jumps, so there is one such function. -/
theorem C74_defined (n : ℕ) (p : Srjd.Par) (hk : p.k ≠ 0) (hh : 0 ≤ p.h) :
    ∃ F : List (ℝ × ℝ) → ℝ, ∀ l, JumpsIn 0 p.h l → ∃ c, ∀ fuel, c ≤ fuel → mV fuel n (withJumps p l) = some (.ok (F l)) := by
  classical
  choose! E hE h using fun (l : List (ℝ × ℝ)) (hl : JumpsIn 0 p.h l) => mV_given p hk hh hl
  refine ⟨fun l => E l p.h (X 0 ^ n), fun l hl => ?_⟩
  obtain ⟨c, hc⟩ := h l hl n
  exact ⟨c, fun fuel hf => (hc fuel hf).1⟩

/-- C74. The averages are means over a probability law: the averages of the constant 1 add up to 1. -/
theorem C74_total {lam μ T : ℝ} (hμ : 0 < μ) (hT : 0 ≤ T) : HasSum (fun N => jumpAvg lam μ T N 0 fun _ => 1) 1 := avg_one hμ hT

/-- C74. The law of total variance: the mean over the jumps of the variance given the jumps, `cm(2, par)` of
cond2_cmom.py, plus that of the square of the mean given the jumps, `m(1, par)` of cond2_mom.py, is
`cm(2, par) + m(1, par)^2` of cond_cmom.py and cond_mom.py. -/
theorem C74_variance (p : Srjd.Par) (hk : p.k ≠ 0) (hl : 0 ≤ p.lmbd) (hm : 0 < p.mu_v) (hh : 0 ≤ p.h) (F G : List (ℝ × ℝ) → ℝ)
    (hF : ∀ l, JumpsIn 0 p.h l → ∃ c, ∀ fuel, c ≤ fuel → mV fuel 1 (withJumps p l) = some (.ok (F l)))
    (hG : ∀ l, JumpsIn 0 p.h l → ∃ c, ∀ fuel, c ≤ fuel → cmV fuel 2 (withJumps p l) = some (.ok (G l))) :
    ∃ a b, Srjd.mV 2 1 p = .ok a ∧ Srjd.cmV 2 2 p = .ok b ∧
      HasSum (fun N => jumpAvg p.lmbd p.mu_v p.h N 0 fun l => G l + F l ^ 2) (b + a ^ 2) := by
  obtain ⟨V, hV, h⟩ := Srjd.C50_dynkin p hk hl hm
  obtain ⟨r, er, -, -, v⟩ := Srjd.C36_cmoment_v 2 2 le_rfl le_rfl
  rw [Nat.cast_ofNat] at er
  refine ⟨V 1 p.h, _, h 2 1 p.h (by norm_num) le_rfl hh, by rw [Srjd.cmV, er, ok_bind, v p hk hl hm hh V hV]; rfl, ?_⟩
  have h0 : V 0 p.h = 1 := by
    have hc := intervalIntegral.integral_eq_sub_of_hasDeriv_right_of_le (f' := fun _ => 0) hh
      ((hV.cont 0).mono Set.Icc_subset_Ici_self) (fun t ht => by
        have := hV.deriv 0 t ht.1 0 fun v => by simp [Srjd.gen]
        simpa using this.hasDerivWithinAt) (by simp)
    rw [intervalIntegral.integral_zero, hV.init 0, pow_zero] at hc
    linarith
  have e : ∑ i ∈ Finset.range (2 + 1), Nat.choose 2 i * (-V 1 p.h) ^ (2 - i) * V i p.h + V 1 p.h ^ 2 = V 2 p.h := by
    simp only [Finset.sum_range_succ, Finset.sum_range_zero, h0]
    norm_num [Nat.choose]
    ring
  rw [e]
  refine srjd_avg hm hh hV 2 (isGiven_of fun l hl => ?_)
  obtain ⟨c, hc⟩ := hF l hl
  obtain ⟨d, hd⟩ := hG l hl
  obtain ⟨E, hE, h⟩ := mV_given p hk hh hl
  obtain ⟨c', hc'⟩ := h 1
  obtain ⟨d', hd'⟩ := h 2
  refine ⟨E, hE, ?_⟩
  have e1 : F l = E p.h (X 0 ^ 1) := by
    have := (hc (max c c') (le_max_left _ _)).symm.trans (hc' (max c c') (le_max_right _ _)).1
    simpa using this
  have e2 : G l = E p.h ((X 0 - C (E p.h (X 0))) ^ 2) := by
    have := (hd (max d d') (le_max_left _ _)).symm.trans (hd' (max d d') (le_max_right _ _)).2
    simpa using this
  have e3 := dynkinAt_one (sd_coef _ _ _) (sd_mom _ _ _) (lists_times hl) (fun _ => CondJ.mom_dirac _) (fun _ => inferInstance) hE hh
  rw [e1, e2, pow_one, var_eq _ (e3.trans (map_one (aeval (R := ℝ) _)))]

/-- the hypotheses are met, with infinitely many possible numbers of jumps -/
example : ∃ F : List (ℝ × ℝ) → ℝ, (∀ l, JumpsIn 0 3 l → ∃ c, ∀ fuel, c ≤ fuel →
    mV fuel 5 (withJumps ⟨1 / 2, 2, 1, 1 / 3, 4, 1 / 5, 3⟩ l) = some (.ok (F l))) ∧
    ∃ s, Srjd.mV 5 5 ⟨1 / 2, 2, 1, 1 / 3, 4, 1 / 5, 3⟩ = .ok s ∧ HasSum (fun N => jumpAvg 4 (1 / 5) 3 N 0 F) s := by
  obtain ⟨F, hF⟩ := C74_defined 5 ⟨1 / 2, 2, 1, 1 / 3, 4, 1 / 5, 3⟩ (by norm_num) (by norm_num)
  exact ⟨F, hF, C74_average 5 5 le_rfl (by norm_num) ⟨1 / 2, 2, 1, 1 / 3, 4, 1 / 5, 3⟩ (by norm_num) (by norm_num) (by norm_num)
    (by norm_num) F hF⟩

end Ajd.SrjdJ

namespace Ajd.Svcj
open MvPolynomial MeasureTheory ProbabilityTheory Gen Poly

/-- the arguments of mdl_svcj/cond2_mom.py for the parameters `p` and the jumps `l` of the variance -/
def withJumps (p : SvcjI.SPar) (l : List (ℝ × ℝ)) : Par :=
  ⟨⟨p.v0, p.mu, p.k, p.theta, p.sigma, p.rho, p.h, l.map Prod.snd, l.map Prod.fst⟩, p.mu_s, p.rhoJ, p.sigma_s⟩

theorem withJumps_ok {p : SvcjI.SPar} (hp : SvcjI.Ok p) {l : List (ℝ × ℝ)} (hl : JumpsIn 0 p.h l) :
    (withJumps p l).toPar.OK ∧ (withJumps p l).toPar.Simple := by
  have ht := List.pairwise_cons.1 hl.1
  refine ⟨⟨hp.k, hp.h, hp.rho, by simp [withJumps], fun s hs => ⟨(ht.1 s hs).le, ?_⟩⟩, ht.2.imp fun h => h.ne, ht.1⟩
  obtain ⟨q, hq, rfl⟩ := List.mem_map.1 hs
  exact hl.2 q hq

theorem isGiven {p : SvcjI.SPar} (hp : SvcjI.Ok p) {f : MvPolynomial (Fin 2) ℝ} {F : List (ℝ × ℝ) → ℝ}
    (h : ∀ l, JumpsIn 0 p.h l → ∀ E, Given (withJumps p l) E → F l = E p.h f) :
    IsGiven (Sv.heston p.mu p.k p.theta p.sigma p.rho) (kap p.mu_s p.rhoJ p.sigma_s) (aeval ![p.v0, 0]).toLinearMap p.h f F := by
  refine isGiven_of fun l hl => ?_
  obtain ⟨h1, h2⟩ := withJumps_ok hp hl
  obtain ⟨E, hE⟩ := given_exists _ h1 h2
  exact ⟨E, hE, h l hl E hE⟩

/-- C75, part. Full statement: `m(n, par)` of cond2_mom.py, the moment of the return given the jumps of the variance,
averaged over the jumps up to the time `h`, is `m_y(n, par)` of cond_mom.py, the moment given the initial variance only.
Proved up to order 3. Missing: orders from 4 on, where the moments given the jumps are wrong (`C49_cm_sde_wrong`). -/
theorem C75_average_partial (n : ℕ) (h1 : 1 ≤ n) (h3 : n ≤ 3) (p : SvcjI.SPar) (hp : SvcjI.Ok p) (F : List (ℝ × ℝ) → ℝ)
    (hF : ∀ l, JumpsIn 0 p.h l → ∃ c, ∀ fuel, c ≤ fuel → (m fuel n (withJumps p l)).run = some (.ok (F l))) :
    ∃ s, SvcjI.mY n p = .ok s ∧ HasSum (fun N => jumpAvg p.lmbd p.mu_v p.h N 0 F) s := by
  obtain ⟨Q, hQ⟩ := dynkin_exists (SvcjI.sY_coef p.toPar hp.mu_v p.mu p.theta p.sigma p.rho p.rhoJ) (SvcjI.momY p.toPar hp.mu_v p.rhoJ)
  have hE := hQ (aeval ![p.v0, 0]).toLinearMap
  refine ⟨_, SvcjI.C43_m_y n p hp _ hE, svcj_avg p hp.mu_v hp.h hE (isGiven hp fun l hl E hE => ?_)⟩
  obtain ⟨o1, o2⟩ := withJumps_ok hp hl
  obtain ⟨x, ⟨c, hc⟩, hx⟩ := C49_m_sde_partial n h1 (withJumps p l) o1 o2
  obtain ⟨c', hc'⟩ := hF l hl
  have := (hc' (max c c') (le_max_right _ _)).symm.trans (hc (max c c') (le_max_left _ _))
  have e : F l = x := by simpa using this
  rw [e]
  exact hx E hE (.inr h3)

/-- C75. The same for all orders with `int_e_IEZ_poly` repaired. -/
theorem C75_average_repaired (n : ℕ) (p : SvcjI.SPar) (hp : SvcjI.Ok p) (F : List (ℝ × ℝ) → ℝ)
    (hF : ∀ l, JumpsIn 0 p.h l → ∃ c m0 ms r, (∀ fuel, c ≤ fuel →
      (momentsWith ItoCond.intEIEZFixed fuel (n + 1) l.length).run = some (.ok (m0 :: ms))) ∧ ms[n]? = some r ∧
        F l = ev (vM (withJumps p l)) r) :
    ∃ s, SvcjI.mY (n + 1 : ℕ) p = .ok s ∧ HasSum (fun N => jumpAvg p.lmbd p.mu_v p.h N 0 F) s := by
  obtain ⟨Q, hQ⟩ := dynkin_exists (SvcjI.sY_coef p.toPar hp.mu_v p.mu p.theta p.sigma p.rho p.rhoJ) (SvcjI.momY p.toPar hp.mu_v p.rhoJ)
  have hE := hQ (aeval ![p.v0, 0]).toLinearMap
  refine ⟨_, SvcjI.C43_m_y (n + 1) p hp _ hE, svcj_avg p hp.mu_v hp.h hE (isGiven hp fun l hl E hE => ?_)⟩
  obtain ⟨o1, o2⟩ := withJumps_ok hp hl
  obtain ⟨-, c, m0, ms, e, -, h⟩ := C49_sde_repaired (n + 1) l.length
  obtain ⟨c', m0', ms', r, e', hr, hv⟩ := hF l hl
  have := (e' (max c c') (le_max_right _ _)).symm.trans (e (max c c') (le_max_left _ _))
  simp only [Option.some.injEq, Except.ok.injEq, List.cons.injEq] at this
  rw [this.2] at hr
  rw [hv]
  exact h n r hr (withJumps p l) o1 o2 (by simp [withJumps]) E hE

/-- C75. The law of total variance, for the code as it is: the mean over the jumps of the variance given the jumps, `cm(2, par)` of
cond2_cmom.py, plus that of the square of the mean given the jumps, `m(1, par)` of cond2_mom.py, is
`cm_y(2, par) + m_y(1, par)^2` of cond_cmom.py and cond_mom.py. -/
theorem C75_variance (p : SvcjI.SPar) (hp : SvcjI.Ok p) (F G : List (ℝ × ℝ) → ℝ)
    (hF : ∀ l, JumpsIn 0 p.h l → ∃ c, ∀ fuel, c ≤ fuel → (m fuel 1 (withJumps p l)).run = some (.ok (F l)))
    (hG : ∀ l, JumpsIn 0 p.h l → ∃ c, ∀ fuel, c ≤ fuel → (cm fuel 2 (withJumps p l)).run = some (.ok (G l))) :
    ∃ a b, SvcjI.mY 1 p = .ok a ∧ SvcjI.cmYc 2 p = .ok b ∧
      HasSum (fun N => jumpAvg p.lmbd p.mu_v p.h N 0 fun l => G l + F l ^ 2) (b + a ^ 2) := by
  obtain ⟨Q, hQ⟩ := dynkin_exists (SvcjI.sY_coef p.toPar hp.mu_v p.mu p.theta p.sigma p.rho p.rhoJ) (SvcjI.momY p.toPar hp.mu_v p.rhoJ)
  have hE := hQ (aeval ![p.v0, 0]).toLinearMap
  refine ⟨_, _, SvcjI.C43_m_y 1 p hp _ hE, SvcjI.C43_cm_y_cond 2 p hp _ hE, ?_⟩
  rw [pow_one, var_eq]
  swap
  · exact (dynkin_one hE p.h hp.h).trans
      (map_one (aeval (R := ℝ) _))
  refine svcj_avg p hp.mu_v hp.h hE (isGiven hp fun l hl E hE => ?_)
  obtain ⟨o1, o2⟩ := withJumps_ok hp hl
  obtain ⟨x, ⟨c, hc⟩, hx⟩ := C49_m_sde_partial 1 le_rfl (withJumps p l) o1 o2
  obtain ⟨y, ⟨d, hd⟩, hy⟩ := C49_cm_sde_partial 2 one_le_two (withJumps p l) o1 o2
  obtain ⟨c', hc'⟩ := hF l hl
  obtain ⟨d', hd'⟩ := hG l hl
  have e1 : F l = x := by simpa using (hc' (max c c') (le_max_right _ _)).symm.trans (hc (max c c') (le_max_left _ _))
  have e2 : G l = y := by simpa using (hd' (max d d') (le_max_right _ _)).symm.trans (hd (max d d') (le_max_left _ _))
  have e3 := dynkinAt_one (Sv.hcoef _ _ _ _ _) (Sv.hmom _ _ _ _ _) (lists_times hl) (fun _ => price_mom _ _ _) (fun _ => ?_) hE hp.h
  · rw [e1, e2, hx E hE (.inr (by norm_num)), hy E hE (.inr (by norm_num)), pow_one]
    exact var_eq _ (e3.trans (map_one (aeval (R := ℝ) _))) 1
  · refine Measure.isProbabilityMeasure_map (Measurable.aemeasurable ?_)
    refine measurable_pi_lambda _ fun i => ?_
    fin_cases i <;> simp <;> fun_prop

/-- C75. The moments given the jumps are defined for all jumps, so there are such functions. -/
theorem C75_defined (n : ℕ) (h1 : 1 ≤ n) (p : SvcjI.SPar) (hp : SvcjI.Ok p) : ∃ F G : List (ℝ × ℝ) → ℝ,
    ∀ l, JumpsIn 0 p.h l → ∃ c, ∀ fuel, c ≤ fuel → (m fuel n (withJumps p l)).run = some (.ok (F l)) ∧
      (cm fuel n (withJumps p l)).run = some (.ok (G l)) := by
  classical
  have h := fun (l : List (ℝ × ℝ)) (hl : JumpsIn 0 p.h l) => C49_m_sde_partial n h1 (withJumps p l) (withJumps_ok hp hl).1 (withJumps_ok hp hl).2
  have h' := fun (l : List (ℝ × ℝ)) (hl : JumpsIn 0 p.h l) => C49_cm_sde_partial n h1 (withJumps p l) (withJumps_ok hp hl).1 (withJumps_ok hp hl).2
  choose! F hF _ using h
  choose! G hG _ using h'
  refine ⟨F, G, fun l hl => ?_⟩
  obtain ⟨c, hc⟩ := hF l hl
  obtain ⟨d, hd⟩ := hG l hl
  exact ⟨max c d, fun fuel hf => ⟨hc fuel ((le_max_left _ _).trans hf), hd fuel ((le_max_right _ _).trans hf)⟩⟩

/-- the hypotheses are met -/
example : ∃ (p : SvcjI.SPar) (F : List (ℝ × ℝ) → ℝ), SvcjI.Ok p ∧ 0 < p.lmbd ∧ p.rhoJ ≠ 0 ∧
    (∀ l, JumpsIn 0 p.h l → ∃ c, ∀ fuel, c ≤ fuel → (m fuel 3 (withJumps p l)).run = some (.ok (F l))) ∧
    ∃ s, SvcjI.mY 3 p = .ok s ∧ HasSum (fun N => jumpAvg p.lmbd p.mu_v p.h N 0 F) s := by
  have hp : SvcjI.Ok ⟨⟨2, 3, 1, 1, 1⟩, 1, 1, 1, 1, 1 / 2, 1, 2⟩ := ⟨by norm_num, by norm_num, by norm_num, by norm_num⟩
  obtain ⟨F, G, h⟩ := C75_defined 3 (by norm_num) _ hp
  have hF := fun l hl => (h l hl).imp fun c hc fuel hf => (hc fuel hf).1
  exact ⟨_, F, hp, by norm_num, by norm_num, hF, C75_average_partial 3 (by norm_num) le_rfl _ hp F hF⟩

end Ajd.Svcj
