import Verif.Lemmas.Euler1
import Mathlib.Probability.Independence.InfinitePi

/-! C69: the moments of the samples of the Euler generators converge to the moments computed by the package, as the
number of segments grows. -/

namespace Ajd.Euler
open MvPolynomial MeasureTheory ProbabilityTheory Filter Topology Scheme Spec

variable {Ω : Type} [MeasurableSpace Ω] {P : Measure Ω} [IsProbabilityMeasure P]

theorem getD_map (f : ℕ → ℝ) {N i : ℕ} (hi : i < N) : ((List.range N).map f).getD i 0 = f i := by
  simp [List.getD, hi]

omit [IsProbabilityMeasure P] in
theorem pow_law {S : Sch (Fin 2) (Fin 2)} {x : Ω → Fin 2 → ℝ} (hx : Measurable x) (h : Good S (P.map x)) (f : MvPolynomial (Fin 2) ℝ) :
    Integrable (fun ω => eval (x ω) f) P ∧ ∫ ω, eval (x ω) f ∂P = ∫ s, eval s f ∂(P.map x) := by
  have hm : AEStronglyMeasurable (fun s => eval s f) (P.map x) :=
    (MvPolynomial.continuous_eval f).measurable.aestronglyMeasurable
  refine ⟨?_, (integral_map hx.aemeasurable hm).symm⟩
  have := h.mom S f
  rwa [integrable_map_measure hm hx.aemeasurable] at this

/-- moments and central moments from the convergence of the expectations of polynomials -/
theorem two_moments {x : ℕ → Ω → Fin 2 → ℝ} {S : Sch (Fin 2) (Fin 2)} (hx : ∀ n, Measurable (x n)) (h : ∀ n, Good S (P.map (x n)))
    {E : MvPolynomial (Fin 2) ℝ →ₗ[ℝ] ℝ} (hE : ∀ f, Tendsto (fun n => ∫ s, eval s f ∂(P.map (x n))) atTop (𝓝 (E f)))
    {y : ℕ → Ω → ℝ} (hy : ∀ n, 0 < n → ∀ ω, y n ω = x n ω 1) (l : ℕ) :
    (∀ n, 0 < n → Integrable (fun ω => y n ω ^ l) P) ∧ Tendsto (fun n => ∫ ω, y n ω ^ l ∂P) atTop (𝓝 (E (X 1 ^ l))) ∧
    Tendsto (fun n => ∫ ω, (y n ω - ∫ ω', y n ω' ∂P) ^ l ∂P) atTop (𝓝 (E ((X 1 - C (E (X 1))) ^ l))) := by
  have hi : ∀ l n, 0 < n → Integrable (fun ω => y n ω ^ l) P := fun l n hn => by
    have := (pow_law (hx n) (h n) (X 1 ^ l)).1
    simpa only [map_pow, eval_X, hy n hn] using this
  have ht : ∀ l, Tendsto (fun n => ∫ ω, y n ω ^ l ∂P) atTop (𝓝 (E (X 1 ^ l))) := fun l => by
    refine (hE (X 1 ^ l)).congr' ?_
    filter_upwards [eventually_gt_atTop 0] with n hn
    rw [← (pow_law (hx n) (h n) (X 1 ^ l)).2]
    simp only [map_pow, eval_X, hy n hn]
  refine ⟨hi l, ht l, ?_⟩
  have := central (P := P) (x := y) ((eventually_gt_atTop 0).mono fun n hn l => hi l n hn)
    (M := E ∘ₗ (Polynomial.aeval (X 1)).toLinearMap) (fun l => by simpa using ht l) l
  simpa using this

section
variable {p : Fsv1.Par} (hk : 0 < p.k) (hθ : 0 < p.θ) (hσ : 0 < p.σ) (hh : 0 < p.h) (hρ : 0 ≤ 1 - p.ρ ^ 2)
  {V : Ω → ℝ} {D : ℕ → ℕ → ℕ → Fin 2 → Ω → ℝ} (hD : ∀ n, Draws P V (D n)) (hV0 : ∀ ω, 0 ≤ V ω)
  (hV : Fsv1.StatLaw p (P.map V))

omit [IsProbabilityMeasure P] in
include hV in
theorem hV_int (hm : Measurable V) (n : ℕ) : Integrable (fun ω => V ω ^ n) P := by
  have := hV.integrable n
  rwa [integrable_map_measure (Measurable.aestronglyMeasurable (by fun_prop)) hm.aemeasurable] at this

include hk hh in
/-- the variance at the start of every sample has the stationary moments -/
theorem start_stat {Q : ℝ → MvPolynomial (Fin 2) ℝ →ₗ[ℝ] MvPolynomial (Fin 2) ℝ}
    (hQ : ∀ E0, (Sv.heston p.μ p.k p.θ p.σ p.ρ).Dynkin E0 fun t => E0 ∘ₗ Q t) (i : ℕ) :
    Sv.Start (Lq (ex (S1 p) _ (good_start hV0 (hV_int hV (hD 0).measV) (hD 0).measV)) (Q p.h) G1 i)
      (Ito.vMoment p.k p.θ p.σ) := by
  induction i with
  | zero =>
    have hm := (hD 0).measV
    have hg : Measurable fun v : ℝ => (![v, 0] : Fin 2 → ℝ) := by
      rw [measurable_pi_iff]
      intro i
      fin_cases i
      · exact measurable_id
      · exact measurable_const
    have hm' : Measurable fun ω => (![V ω, 0] : Fin 2 → ℝ) := hg.comp hm
    refine ⟨fun f => ?_, fun n => ?_⟩
    · show ∫ s, eval s (X 1 * f) ∂(P.map fun ω => ![V ω, 0]) = 0
      rw [integral_map hm'.aemeasurable (MvPolynomial.continuous_eval _).measurable.aestronglyMeasurable]
      simp
    · show ∫ s, eval s (X 0 ^ n) ∂(P.map fun ω => ![V ω, 0]) = _
      rw [integral_map hm'.aemeasurable (MvPolynomial.continuous_eval _).measurable.aestronglyMeasurable, ← hV.moment,
        integral_map hm.aemeasurable (Measurable.aestronglyMeasurable (by fun_prop))]
      simp
  | succ i ih =>
    refine ⟨fun f => ?_, fun n => ?_⟩
    · simp [Lq, G1]
    · have := Sv.stationary hk.ne' (hQ _) ih.v n p.h hh.le
      simpa [Lq, G1] using this

omit [MeasurableSpace Ω] in
include hh hρ hV0 in
/-- For every number of segments the generator returns `N` samples. -/
theorem C69_1fsv_ok (N : ℕ) : ∃ L : ℕ → Ω → List ℝ, ∀ n, 0 < n → ∀ ω,
    r1FSV (V ω) p N n (fun i j => D n i j 0 ω) (fun i j => D n i j 1 ω) = .ok (L n ω) ∧ (L n ω).length = N :=
  ⟨_, fun n hn ω => ⟨C45_1fsv (V ω) p N n _ _ (hV0 ω) hh.le hn (by linarith), by simp⟩⟩

omit [MeasurableSpace Ω] in
include hh hρ hV0 in
theorem L_eq {N : ℕ} {L : ℕ → Ω → List ℝ}
    (hL : ∀ n, 0 < n → ∀ ω, r1FSV (V ω) p N n (fun i j => D n i j 0 ω) (fun i j => D n i j 1 ω) = .ok (L n ω)) (i : ℕ)
    (hi : i < N) (n : ℕ) (hn : 0 < n) (ω : Ω) : (L n ω).getD i 0 = en p V D n i ω 1 := by
  have h1 := hL n hn ω
  rw [C45_1fsv (V ω) p N n _ _ (hV0 ω) hh.le hn (by linarith)] at h1
  injection h1 with h1
  rw [← h1, getD_map _ hi, en_ret hh n hn]
  rfl

include hk hθ hσ hh hρ hD hV0 hV in
/-- `r1FSV`, when the initial variance has the stationary law: as the number of segments grows, the moments and the
central moments of every sample converge to the values of `m` and `cm`. -/
theorem C69_1fsv (N : ℕ) (L : ℕ → Ω → List ℝ)
    (hL : ∀ n, 0 < n → ∀ ω, r1FSV (V ω) p N n (fun i j => D n i j 0 ω) (fun i j => D n i j 1 ω) = .ok (L n ω)) (i : ℕ)
    (hi : i < N) (l : ℕ) :
    (∀ n, 0 < n → Integrable (fun ω => (L n ω).getD i 0 ^ l) P) ∧
    (∃ m, Fsv1.m l p = .ok m ∧ Tendsto (fun n => ∫ ω, (L n ω).getD i 0 ^ l ∂P) atTop (𝓝 m)) ∧
    ∃ c, Fsv1.cm l p = .ok c ∧
      Tendsto (fun n => ∫ ω, ((L n ω).getD i 0 - ∫ ω', (L n ω').getD i 0 ∂P) ^ l ∂P) atTop (𝓝 c) := by
  obtain ⟨Q, hQ, -⟩ := Sv.heston_semi p.μ p.k p.θ p.σ p.ρ
  have hVi := hV_int hV (hD 0).measV
  obtain ⟨-, h1, h2, h3, h4⟩ := end_conv hk hθ hh hρ hD hV0 hVi hQ i
  have hst := start_stat hk hh hD hV0 hV hQ i
  obtain ⟨a, b, c⟩ := two_moments (fun n => (h1 n).mono (past_le (hD n) _ _) le_rfl) h2 h4
    (y := fun n ω => (L n ω).getD i 0) (fun n hn ω => L_eq hh hρ hV0 hL i hi n hn ω) l
  exact ⟨a, ⟨_, Sv.C26_m_sde p hk hθ hσ hh.le hρ _ hst _ (hQ _) l, b⟩, ⟨_, Sv.C26_cm_sde p hk hθ hσ hh.le hρ _ hst _ (hQ _) l, c⟩⟩

include hk hθ hσ hh hρ hD hV0 hV in
/-- `r1FSV`, when the initial variance has the stationary law: as the number of segments grows, the covariance of powers
of two samples in a row converges to the value of `cov`. -/
theorem C69_1fsv_cov (N : ℕ) (L : ℕ → Ω → List ℝ)
    (hL : ∀ n, 0 < n → ∀ ω, r1FSV (V ω) p N n (fun i j => D n i j 0 ω) (fun i j => D n i j 1 ω) = .ok (L n ω)) (i : ℕ)
    (hi : i + 1 < N) (l1 l2 : ℕ) :
    ∃ c, Fsv1.cov l1 l2 p = .ok c ∧ Tendsto (fun n => (∫ ω, (L n ω).getD i 0 ^ l1 * (L n ω).getD (i + 1) 0 ^ l2 ∂P) -
      (∫ ω, (L n ω).getD i 0 ^ l1 ∂P) * ∫ ω, (L n ω).getD (i + 1) 0 ^ l2 ∂P) atTop (𝓝 c) := by
  obtain ⟨Q, hQ, -⟩ := Sv.heston_semi p.μ p.k p.θ p.σ p.ρ
  have hVi := hV_int hV (hD 0).measV
  have hst := start_stat hk hh hD hV0 hV hQ i
  obtain ⟨Q', hQ'⟩ := Gen.dynkin_exists (Sv.coef3 p.μ p.k p.θ p.σ p.ρ) Sv.mom3
  have hE' := hQ' ((Lq (ex (S1 p) _ (good_start hV0 hVi (hD 0).measV)) (Q p.h) G1 i ∘ₗ Q p.h) ∘ₗ (aeval G2).toLinearMap)
  have key := end_conv2 hk hθ hh hρ hD hV0 hVi hQ i hE'
  have h2 : Sv.Second (Lq (ex (S1 p) _ (good_start hV0 hVi (hD 0).measV)) (Q p.h) G1 i ∘ₗ Q p.h)
      ((Lq (ex (S1 p) _ (good_start hV0 hVi (hD 0).measV)) (Q p.h) G1 i ∘ₗ Q p.h) ∘ₗ (aeval G2).toLinearMap) := by
    refine ⟨fun f => ?_, fun f => ?_⟩
    · simp [G2]
    · rw [LinearMap.comp_apply, AlgHom.toLinearMap_apply, aeval_rename]
      refine congrArg _ ?_
      have : G2 ∘ ![0, 1] = X := by
        funext i
        fin_cases i <;> rfl
      rw [this, aeval_X_left]
      rfl
  refine ⟨_, Sv.C27_cov_sde p hk hθ hσ hh.le hρ _ hst _ (hQ _) _ h2 _ hE' l1 l2, ?_⟩
  have hev : ∀ a b, Tendsto (fun n => ∫ ω, (L n ω).getD i 0 ^ a * (L n ω).getD (i + 1) 0 ^ b ∂P) atTop
      (𝓝 ((_ ∘ₗ Q' p.h) (X 1 ^ a * X 2 ^ b))) := fun a b => by
    refine (key (X 1 ^ a * X 2 ^ b)).congr' ?_
    filter_upwards [eventually_gt_atTop 0] with n hn
    simp only [map_mul, map_pow, eval_X, Matrix.cons_val, L_eq hh hρ hV0 hL i (by omega) n hn,
      L_eq hh hρ hV0 hL (i + 1) hi n hn]
  have e1 := hev l1 0
  have e2 := hev 0 l2
  simp only [pow_zero, mul_one, one_mul] at e1 e2
  exact (hev l1 l2).sub (e1.mul e2)

end

/-! ### samples from the same variance -/

section
variable {p : Fsv1.Par} (hk : 0 < p.k) (hθ : 0 < p.θ) (hh : 0 < p.h) (hρ : 0 ≤ 1 - p.ρ ^ 2) {v0 : ℝ} (hv : 0 ≤ v0)
  {D : ℕ → ℕ → ℕ → Fin 2 → Ω → ℝ} (hD : ∀ n, Normals P (D n))

omit [MeasurableSpace Ω] in
include hh hρ hv in
/-- For every number of segments the generator returns `N` samples. -/
theorem C69_1fsv_iid_ok (N : ℕ) : ∃ L : ℕ → Ω → List ℝ, ∀ n, 0 < n → ∀ ω,
    r1FSVIid v0 p N n (fun i j => D n i j 0 ω) (fun i j => D n i j 1 ω) = .ok (L n ω) ∧ (L n ω).length = N :=
  ⟨_, fun n hn ω => ⟨C45_1fsv_iid v0 p N n _ _ hv hh.le hn (by linarith), by simp⟩⟩

include hk hθ hh hρ hv hD in
/-- `r1FSV_iid`: as the number of segments grows, the moments and the central moments of every sample converge to those
of the return over `h`, when the variance starts from `v0`. -/
theorem C69_1fsv_iid_sde (N : ℕ) (L : ℕ → Ω → List ℝ)
    (hL : ∀ n, 0 < n → ∀ ω, r1FSVIid v0 p N n (fun i j => D n i j 0 ω) (fun i j => D n i j 1 ω) = .ok (L n ω)) (i : ℕ)
    (hi : i < N) (E : ℝ → MvPolynomial (Fin 2) ℝ →ₗ[ℝ] ℝ)
    (hE : (Sv.heston p.μ p.k p.θ p.σ p.ρ).Dynkin (aeval ![v0, 0]).toLinearMap E) (l : ℕ) :
    (∀ n, 0 < n → Integrable (fun ω => (L n ω).getD i 0 ^ l) P) ∧
    Tendsto (fun n => ∫ ω, (L n ω).getD i 0 ^ l ∂P) atTop (𝓝 (E p.h (X 1 ^ l))) ∧
    Tendsto (fun n => ∫ ω, ((L n ω).getD i 0 - ∫ ω', (L n ω').getD i 0 ∂P) ^ l ∂P) atTop
      (𝓝 (E p.h ((X 1 - C (E p.h (X 1))) ^ l))) := by
  have hpos : (S1 p).Pos ![v0, 0] := by
    intro i hi
    fin_cases i
    · exact hv
    · exact le_rfl
  have hm : ∀ n, Measurable fun ω => (S1 p).traj (rt p.h n) ![v0, 0] (fun j => zz (D n) i j ω) n := by
    intro n
    have : ∀ j, Measurable fun ω => (S1 p).traj (rt p.h n) ![v0, 0] (fun j => zz (D n) i j ω) j := by
      intro j
      induction j with
      | zero => exact measurable_const
      | succ j ih =>
        exact ((S1 p).cont_step _).measurable.comp (ih.prodMk (measurable_pi_iff.2 fun k => (hD n).meas i j k))
    exact this n
  refine two_moments (S := S1 p) (x := fun n ω => (S1 p).traj (rt p.h n) ![v0, 0] (fun j => zz (D n) i j ω) n) hm (fun n => ?_)
    (fun f => ?_) (fun n hn ω => ?_) l
  · rw [traj_iid (S1 p) (hD n)]
    exact good_law _ _ (good_dirac _ hpos) n
  · simp only [traj_iid (S1 p) (hD _)]
    refine stage (ok1 p) (cir1 p hk hθ) (hb1 p) (ha1 p hρ) rfl rfl hE p.h hh _ (fun n => good_dirac _ hpos)
      (fun m => ⟨_, Filter.Eventually.of_forall fun n => le_rfl⟩) (fun f => ?_) f
    simp only [integral_dirac]
    exact tendsto_const_nhds
  · have h1 := hL n hn ω
    rw [C45_1fsv_iid v0 p N n _ _ hv hh.le hn (by linarith)] at h1
    injection h1 with h1
    rw [← h1, getD_map _ hi, traj1_ret p n hn hh.le]
    rfl

include hk hθ hh hρ hv hD in
/-- `r1FSV_iid`: as the number of segments grows, the central moments of every sample converge to the values of
`cond_cm`. -/
theorem C69_1fsv_iid (N : ℕ) (L : ℕ → Ω → List ℝ)
    (hL : ∀ n, 0 < n → ∀ ω, r1FSVIid v0 p N n (fun i j => D n i j 0 ω) (fun i j => D n i j 1 ω) = .ok (L n ω)) (i : ℕ)
    (hi : i < N) (l : ℕ) (hl : 1 ≤ l) :
    ∃ c, Fsv1c.condCm l p v0 = .ok c ∧
      Tendsto (fun n => ∫ ω, ((L n ω).getD i 0 - ∫ ω', (L n ω').getD i 0 ∂P) ^ l ∂P) atTop (𝓝 c) := by
  obtain ⟨Q, hQ, -⟩ := Sv.heston_semi p.μ p.k p.θ p.σ p.ρ
  exact ⟨_, Sv.C29_cond_cm_sde p hk.ne' hh.le hρ v0 _ (hQ _) l hl,
    (C69_1fsv_iid_sde hk hθ hh hρ hv hD N L hL i hi _ (hQ _) l).2.2⟩

end

/-! ### the hypotheses are met -/

section
open Measure

/-- the space of the initial variance and of the draws -/
abbrev Space := Option (ℕ × ℕ × Fin 2) → ℝ

/-- their laws -/
noncomputable def laws (p : Fsv1.Par) : Option (ℕ × ℕ × Fin 2) → Measure ℝ
  | none => gammaMeasure (2 * p.k * p.θ / p.σ ^ 2) (2 * p.k / p.σ ^ 2)
  | some _ => gaussianReal 0 1

theorem laws_prob (p : Fsv1.Par) (hk : 0 < p.k) (hθ : 0 < p.θ) (hσ : 0 < p.σ) (o) : IsProbabilityMeasure (laws p o) := by
  cases o with
  | none => exact isProbabilityMeasure_gammaMeasure (by positivity) (by positivity)
  | some q => exact inferInstanceAs (IsProbabilityMeasure (gaussianReal 0 1))

theorem gamma_pos (a r : ℝ) : ∀ᵐ x ∂gammaMeasure a r, 0 ≤ x := by
  rw [gammaMeasure, ae_withDensity_iff (by unfold gammaPDF; exact (measurable_gammaPDFReal a r).ennreal_ofReal)]
  refine Filter.Eventually.of_forall fun x hx => ?_
  by_contra h
  exact hx (gammaPDF_of_neg (not_le.1 h))

/-- Beside the theorems above: for all positive parameters there are a nonnegative initial variance with the stationary
law, and independent normal draws. -/
theorem draws_exist (p : Fsv1.Par) (hk : 0 < p.k) (hθ : 0 < p.θ) (hσ : 0 < p.σ) :
    ∃ (P : Measure Space) (_ : IsProbabilityMeasure P) (V : Space → ℝ) (D : ℕ → ℕ → Fin 2 → Space → ℝ),
      Draws P V D ∧ (∀ ω, 0 ≤ V ω) ∧ Fsv1.StatLaw p (P.map V) := by
  have := laws_prob p hk hθ hσ
  refine ⟨infinitePi (laws p), inferInstance, fun ω => max 0 (ω none), fun i j k ω => ω (some (i, j, k)),
    ⟨by fun_prop, fun i j k => by fun_prop, fun i j k => infinitePi_map_eval (laws p) _, ?_⟩, fun ω => le_max_left _ _, ?_⟩
  · have h := iIndepFun_infinitePi (P := laws p) (X := fun o x => o.elim (max 0 x) fun _ => x) (fun o => by
      cases o <;> simp only [Option.elim] <;> fun_prop)
    have e : (fun o : Option (ℕ × ℕ × Fin 2) => o.elim
        (MeasurableSpace.comap (fun ω : Space => max 0 (ω none)) inferInstance) fun q =>
          MeasurableSpace.comap (fun ω : Space => ω (some (q.1, q.2.1, q.2.2))) inferInstance) =
        fun o => MeasurableSpace.comap (fun ω : Space => o.elim (max 0 (ω o)) fun _ => ω o) inferInstance := by
      funext o
      cases o <;> rfl
    rw [e]
    exact h.iIndep
  · have e : (infinitePi (laws p)).map (fun ω => max 0 (ω none)) = laws p none := by
      have h1 : (infinitePi (laws p)).map (fun ω => max 0 (ω none)) = (laws p none).map (max 0) := by
        rw [← infinitePi_map_eval (laws p) none, Measure.map_map (by fun_prop) (by fun_prop)]
        rfl
      rw [h1]
      have h2 : (laws p none).map (max 0) = (laws p none).map id :=
        Measure.map_congr ((gamma_pos _ _).mono fun x hx => max_eq_right hx)
      rw [h2, Measure.map_id]
    rw [e]
    exact Fsv1.statLaw_gamma p hk hθ hσ

end

/-- Beside `C69_1fsv`, `C69_1fsv_cov` and `C69_1fsv_ok`: the parameters of the project's tests. -/
example : ∃ (P : Measure Space) (_ : IsProbabilityMeasure P) (V : Space → ℝ) (D : ℕ → ℕ → ℕ → Fin 2 → Space → ℝ)
    (L : ℕ → Space → List ℝ), (∀ n, Draws P V (D n)) ∧
    (∀ n, 0 < n → ∀ ω, r1FSV (V ω) ⟨1/10, 1/4, 1/10, -7/10, 125/1000, 1⟩ 400 n (fun i j => D n i j 0 ω)
      (fun i j => D n i j 1 ω) = .ok (L n ω)) ∧
    (∃ m, Fsv1.cm 3 ⟨1/10, 1/4, 1/10, -7/10, 125/1000, 1⟩ = .ok m ∧
      Tendsto (fun n => ∫ ω, ((L n ω).getD 399 0 - ∫ ω', (L n ω').getD 399 0 ∂P) ^ 3 ∂P) atTop (𝓝 m)) ∧
    ∃ c, Fsv1.cov 2 1 ⟨1/10, 1/4, 1/10, -7/10, 125/1000, 1⟩ = .ok c ∧
      Tendsto (fun n => (∫ ω, (L n ω).getD 3 0 ^ 2 * (L n ω).getD (3 + 1) 0 ^ 1 ∂P) -
        (∫ ω, (L n ω).getD 3 0 ^ 2 ∂P) * ∫ ω, (L n ω).getD (3 + 1) 0 ^ 1 ∂P) atTop (𝓝 c) := by
  obtain ⟨P, hP, V, D, hD, h0, hV⟩ := draws_exist ⟨1/10, 1/4, 1/10, -7/10, 125/1000, 1⟩ (by norm_num) (by norm_num) (by norm_num)
  obtain ⟨L, hL⟩ := C69_1fsv_ok (p := ⟨1/10, 1/4, 1/10, -7/10, 125/1000, 1⟩) (by norm_num) (by norm_num) (V := V)
    (D := fun _ => D) h0 400
  exact ⟨P, hP, V, fun _ => D, L, fun _ => hD, fun n hn ω => (hL n hn ω).1,
    (C69_1fsv (by norm_num) (by norm_num) (by norm_num) (by norm_num) (by norm_num) (fun _ => hD) h0 hV 400 L
      (fun n hn ω => (hL n hn ω).1) 399 (by norm_num) 3).2.2,
    C69_1fsv_cov (by norm_num) (by norm_num) (by norm_num) (by norm_num) (by norm_num) (fun _ => hD) h0 hV 400 L
      (fun n hn ω => (hL n hn ω).1) 3 (by norm_num) 2 1⟩

/-- Beside `C69_1fsv_iid`, `C69_1fsv_iid_sde` and `C69_1fsv_iid_ok`. -/
example : ∃ (P : Measure Space) (_ : IsProbabilityMeasure P) (D : ℕ → ℕ → ℕ → Fin 2 → Space → ℝ)
    (L : ℕ → Space → List ℝ), (∀ n, Normals P (D n)) ∧
    (∀ n, 0 < n → ∀ ω, r1FSVIid (1/5) ⟨1/10, 1/4, 1/10, -7/10, 125/1000, 1⟩ 400 n (fun i j => D n i j 0 ω)
      (fun i j => D n i j 1 ω) = .ok (L n ω)) ∧
    ∃ m, Fsv1c.condCm 3 ⟨1/10, 1/4, 1/10, -7/10, 125/1000, 1⟩ (1/5) = .ok m ∧
      Tendsto (fun n => ∫ ω, ((L n ω).getD 399 0 - ∫ ω', (L n ω').getD 399 0 ∂P) ^ 3 ∂P) atTop (𝓝 m) := by
  obtain ⟨P, hP, V, D, hD, h0, hV⟩ := draws_exist ⟨1/10, 1/4, 1/10, -7/10, 125/1000, 1⟩ (by norm_num) (by norm_num) (by norm_num)
  obtain ⟨L, hL⟩ := C69_1fsv_iid_ok (p := ⟨1/10, 1/4, 1/10, -7/10, 125/1000, 1⟩) (by norm_num) (by norm_num)
    (v0 := 1/5) (by norm_num) (D := fun _ => D) 400
  exact ⟨P, hP, fun _ => D, L, fun _ => hD.normals, fun n hn ω => (hL n hn ω).1,
    C69_1fsv_iid (by norm_num) (by norm_num) (by norm_num) (by norm_num) (by norm_num) (fun _ => hD.normals) 400 L
      (fun n hn ω => (hL n hn ω).1) 399 (by norm_num) 3 (by norm_num)⟩

end Ajd.Euler
