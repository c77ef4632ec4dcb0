import Verif.Lemmas.Euler2
import Verif.Props.EulerConv

/-! C70: the samples of the two-factor Euler generator in the limit of small steps. -/

namespace Ajd.Euler.F2
open MvPolynomial MeasureTheory ProbabilityTheory Filter Topology Scheme Spec Itos

variable {Ω : Type} [MeasurableSpace Ω] {P : Measure Ω} [IsProbabilityMeasure P]

omit [IsProbabilityMeasure P] in
theorem pow_law {S : Sch (Fin 3) (Fin 3)} {x : Ω → Fin 3 → ℝ} (hx : Measurable x) (h : Good S (P.map x)) (f : MvPolynomial (Fin 3) ℝ) :
    Integrable (fun ω => eval (x ω) f) P ∧ ∫ ω, eval (x ω) f ∂P = ∫ s, eval s f ∂(P.map x) := by
  have hm : AEStronglyMeasurable (fun s => eval s f) (P.map x) :=
    (MvPolynomial.continuous_eval f).measurable.aestronglyMeasurable
  refine ⟨?_, (integral_map hx.aemeasurable hm).symm⟩
  have := h.mom S f
  rwa [integrable_map_measure hm hx.aemeasurable] at this

/-- moments and central moments from the convergence of the expectations of polynomials -/
theorem two_moments {x : ℕ → Ω → Fin 3 → ℝ} {S : Sch (Fin 3) (Fin 3)} (hx : ∀ n, Measurable (x n)) (h : ∀ n, Good S (P.map (x n)))
    {E : MvPolynomial (Fin 3) ℝ →ₗ[ℝ] ℝ} (hE : ∀ f, Tendsto (fun n => ∫ s, eval s f ∂(P.map (x n))) atTop (𝓝 (E f)))
    {y : ℕ → Ω → ℝ} (hy : ∀ n, 0 < n → ∀ ω, y n ω = x n ω 2) (l : ℕ) :
    (∀ n, 0 < n → Integrable (fun ω => y n ω ^ l) P) ∧ Tendsto (fun n => ∫ ω, y n ω ^ l ∂P) atTop (𝓝 (E (X 2 ^ l))) ∧
    Tendsto (fun n => ∫ ω, (y n ω - ∫ ω', y n ω' ∂P) ^ l ∂P) atTop (𝓝 (E ((X 2 - C (E (X 2))) ^ l))) := by
  have hi : ∀ l n, 0 < n → Integrable (fun ω => y n ω ^ l) P := fun l n hn => by
    have := (pow_law (hx n) (h n) (X 2 ^ l)).1
    simpa only [map_pow, eval_X, hy n hn] using this
  have ht : ∀ l, Tendsto (fun n => ∫ ω, y n ω ^ l ∂P) atTop (𝓝 (E (X 2 ^ l))) := fun l => by
    refine (hE (X 2 ^ l)).congr' ?_
    filter_upwards [eventually_gt_atTop 0] with n hn
    rw [← (pow_law (hx n) (h n) (X 2 ^ l)).2]
    simp only [map_pow, eval_X, hy n hn]
  refine ⟨hi l, ht l, ?_⟩
  have := central (P := P) (x := y) ((eventually_gt_atTop 0).mono fun n hn l => hi l n hn)
    (M := E ∘ₗ (Polynomial.aeval (X 2)).toLinearMap) (fun l => by simpa using ht l) l
  simpa using this

variable {p : Fsv2.Par} (hp : Sv2.Pos p) {V : Ω → ℝ × ℝ} {D : ℕ → ℕ → ℕ → Fin 3 → Ω → ℝ} (hD : ∀ n, Draws P V (D n))
  (hV0 : ∀ ω, 0 ≤ (V ω).1 ∧ 0 ≤ (V ω).2) (hV : Fsv2.StatLaw p (P.map V))

omit [IsProbabilityMeasure P] in
include hV in
theorem hV_int (hm : Measurable V) (a b : ℕ) : Integrable (fun ω => (V ω).1 ^ a * (V ω).2 ^ b) P := by
  have := hV.integrable a b
  rwa [integrable_map_measure (Measurable.aestronglyMeasurable (by fun_prop)) hm.aemeasurable] at this

include hp in
/-- the variances at the start of every sample have the stationary moments -/
theorem start_stat {Q : ℝ → MvPolynomial (Fin 3) ℝ →ₗ[ℝ] MvPolynomial (Fin 3) ℝ}
    (hQ : ∀ E0, (Sv2.sv2 p.μ p.k1 p.k2 p.θ1 p.σ1 p.θ2 p.σ2).Dynkin E0 fun t => E0 ∘ₗ Q t) (i : ℕ) :
    Sv2.Start (Lq (ex (S1 p) _ (good_start hV0 (hV_int hV (hD 0).measV) (hD 0).measV)) (Q p.h) G1 i)
      (Ito.vMoment p.k1 p.θ1 p.σ1) (Ito.vMoment p.k2 p.θ2 p.σ2) := by
  induction i with
  | zero =>
    have hm := (hD 0).measV
    have hm' : Measurable fun ω => (![(V ω).1, (V ω).2, 0] : Fin 3 → ℝ) := meas3.comp hm
    refine ⟨fun f => ?_, fun a b => ?_⟩
    · show ∫ s, eval s (X 2 * f) ∂(P.map fun ω => ![(V ω).1, (V ω).2, 0]) = 0
      rw [integral_map hm'.aemeasurable (MvPolynomial.continuous_eval _).measurable.aestronglyMeasurable]
      simp
    · show ∫ s, eval s (X 0 ^ a * X 1 ^ b) ∂(P.map fun ω => ![(V ω).1, (V ω).2, 0]) = _
      rw [integral_map hm'.aemeasurable (MvPolynomial.continuous_eval _).measurable.aestronglyMeasurable, ← hV.moment,
        integral_map hm.aemeasurable (Measurable.aestronglyMeasurable (by fun_prop))]
      simp
  | succ i ih =>
    refine ⟨fun f => ?_, fun a b => ?_⟩
    · simp [Lq, G1]
    · have := Sv2.stationary hp.k1.ne' hp.k2.ne' (hQ _) ih.v _ a b rfl p.h hp.h.le
      simpa [Lq, G1] using this

omit [MeasurableSpace Ω] in
include hp hV0 in
/-- For every number of segments the generator returns `N` samples. -/
theorem C70_2fsv_ok (N : ℕ) : ∃ L : ℕ → Ω → List ℝ, ∀ n, 0 < n → ∀ ω,
    r2FSV (V ω) (par p) N n (fun i j => D n i j 0 ω) (fun i j => D n i j 1 ω) (fun i j => D n i j 2 ω) = .ok (L n ω) ∧
      (L n ω).length = N :=
  ⟨_, fun n hn ω => ⟨C45_2fsv (V ω) (par p) N n _ _ _ (hV0 ω).1 (hV0 ω).2 hp.h.le hn, by simp⟩⟩

variable {N : ℕ} {L : ℕ → Ω → List ℝ}
  (hL : ∀ n, 0 < n → ∀ ω, r2FSV (V ω) (par p) N n (fun i j => D n i j 0 ω) (fun i j => D n i j 1 ω)
    (fun i j => D n i j 2 ω) = .ok (L n ω))

omit [MeasurableSpace Ω] in
include hp hV0 hL in
theorem L_eq (i : ℕ) (hi : i < N) (n : ℕ) (hn : 0 < n) (ω : Ω) : (L n ω).getD i 0 = en p V D n i ω 2 := by
  have h1 := hL n hn ω
  rw [C45_2fsv (V ω) (par p) N n _ _ _ (hV0 ω).1 (hV0 ω).2 hp.h.le hn] at h1
  injection h1 with h1
  rw [← h1, getD_map _ hi, en_ret hp n hn]
  rfl

include hp hD hV0 hV hL in
/-- everything about the samples that is needed below -/
theorem limits (i : ℕ) (hi : i < N) : ∃ E0 E E0' E',
    Sv2.Start E0 (Ito.vMoment p.k1 p.θ1 p.σ1) (Ito.vMoment p.k2 p.θ2 p.σ2) ∧
    (Sv2.sv2 p.μ p.k1 p.k2 p.θ1 p.σ1 p.θ2 p.σ2).Dynkin E0 E ∧ Sv2.Second (E p.h) E0' ∧
    (Sv2.sv2two p.μ p.k1 p.k2 p.θ1 p.σ1 p.θ2 p.σ2).Dynkin E0' E' ∧
    (∀ l, (∀ n, 0 < n → Integrable (fun ω => (L n ω).getD i 0 ^ l) P) ∧
      Tendsto (fun n => ∫ ω, (L n ω).getD i 0 ^ l ∂P) atTop (𝓝 (E p.h (X 2 ^ l))) ∧
      Tendsto (fun n => ∫ ω, ((L n ω).getD i 0 - ∫ ω', (L n ω').getD i 0 ∂P) ^ l ∂P) atTop
        (𝓝 (E p.h ((X 2 - C (E p.h (X 2))) ^ l)))) ∧
    (i + 1 < N → ∀ l1 l2, Tendsto (fun n => (∫ ω, (L n ω).getD i 0 ^ l1 * (L n ω).getD (i + 1) 0 ^ l2 ∂P) -
      (∫ ω, (L n ω).getD i 0 ^ l1 ∂P) * ∫ ω, (L n ω).getD (i + 1) 0 ^ l2 ∂P) atTop
        (𝓝 (E' p.h (X 2 ^ l1 * X 3 ^ l2) - E' p.h (X 2 ^ l1) * E' p.h (X 3 ^ l2)))) := by
  obtain ⟨Q, hQ, -⟩ := Sv2.sv2_semi p.μ p.k1 p.k2 p.θ1 p.σ1 p.θ2 p.σ2
  obtain ⟨Q', hQ'⟩ := Gen.dynkin_exists (Sv2.coef4 p.μ p.k1 p.k2 p.θ1 p.σ1 p.θ2 p.σ2) Sv2.mom4
  have hVi := hV_int hV (hD 0).measV
  obtain ⟨h1, h2, h3, h4⟩ := end_conv hp hD hV0 hVi hQ i
  have hE' := hQ' ((Lq (ex (S1 p) _ (good_start hV0 hVi (hD 0).measV)) (Q p.h) G1 i ∘ₗ Q p.h) ∘ₗ (aeval G2).toLinearMap)
  refine ⟨_, _, _, _, start_stat hp hD hV0 hV hQ i, hQ _, Sv2.second_start _, hE', fun l => ?_, fun hi1 l1 l2 => ?_⟩
  · exact two_moments (fun n => (h1 n).mono (past_le (hD n) _ _) le_rfl) h2 h4
      (y := fun n ω => (L n ω).getD i 0) (fun n hn ω => L_eq hp hV0 hL i hi n hn ω) l
  · have key := end_conv2 hp hD hV0 hVi hQ i hE'
    have hev : ∀ a b, Tendsto (fun n => ∫ ω, (L n ω).getD i 0 ^ a * (L n ω).getD (i + 1) 0 ^ b ∂P) atTop
        (𝓝 ((_ ∘ₗ Q' p.h) (X 2 ^ a * X 3 ^ b))) := fun a b => by
      refine (key (X 2 ^ a * X 3 ^ b)).congr' ?_
      filter_upwards [eventually_gt_atTop 0] with n hn
      simp only [map_mul, map_pow, eval_X, Matrix.cons_val, L_eq hp hV0 hL i (by omega) n hn,
        L_eq hp hV0 hL (i + 1) hi1 n hn]
    have e1 := hev l1 0
    have e2 := hev 0 l2
    simp only [pow_zero, mul_one, one_mul] at e1 e2
    exact (hev l1 l2).sub (e1.mul e2)

include hp hD hV0 hV hL in
/-- `r2FSV`, when the initial variances have the stationary law: as the number of segments grows, the moments and the
central moments of every sample, of all orders, converge to those of the return over `h`. -/
theorem C70_2fsv_sde (i : ℕ) (hi : i < N) (E0 : MvPolynomial (Fin 3) ℝ →ₗ[ℝ] ℝ)
    (h0 : Sv2.Start E0 (Ito.vMoment p.k1 p.θ1 p.σ1) (Ito.vMoment p.k2 p.θ2 p.σ2))
    (E : ℝ → MvPolynomial (Fin 3) ℝ →ₗ[ℝ] ℝ) (hE : (Sv2.sv2 p.μ p.k1 p.k2 p.θ1 p.σ1 p.θ2 p.σ2).Dynkin E0 E) (l : ℕ) :
    (∀ n, 0 < n → Integrable (fun ω => (L n ω).getD i 0 ^ l) P) ∧
    Tendsto (fun n => ∫ ω, (L n ω).getD i 0 ^ l ∂P) atTop (𝓝 (E p.h (X 2 ^ l))) ∧
    Tendsto (fun n => ∫ ω, ((L n ω).getD i 0 - ∫ ω', (L n ω').getD i 0 ∂P) ^ l ∂P) atTop
      (𝓝 (E p.h ((X 2 - C (E p.h (X 2))) ^ l))) := by
  obtain ⟨F0, F, -, -, hF0, hF, -, -, h, -⟩ := limits hp hD hV0 hV hL i hi
  have e0 : F0 = E0 := LinearMap.ext fun f => (hF0.eq hV f).2.trans (h0.eq hV f).2.symm
  subst e0
  have e := Gen.dynkin_unique (Sv2.coefY p.μ p.k1 p.k2 p.θ1 p.σ1 p.θ2 p.σ2) Sv2.momY hF hE p.h hp.h.le
  rw [e] at h
  exact h l

include hp hD hV0 hV hL in
/-- `r2FSV`, when the initial variances have the stationary law: as the number of segments grows, the moments and the
central moments of every sample converge to the values of `m` and `cm`, for orders up to 2. Missing: higher orders, where
the claim is false. -/
theorem C70_2fsv_partial (i : ℕ) (hi : i < N) (l : ℕ) (hl : l ≤ 2) :
    (∃ m, Fsv2.m code l p = .ok m ∧ Tendsto (fun n => ∫ ω, (L n ω).getD i 0 ^ l ∂P) atTop (𝓝 m)) ∧
    ∃ c, Fsv2.cm code l p = .ok c ∧
      Tendsto (fun n => ∫ ω, ((L n ω).getD i 0 - ∫ ω', (L n ω').getD i 0 ∂P) ^ l ∂P) atTop (𝓝 c) := by
  obtain ⟨F0, F, -, -, hF0, hF, -, -, h, -⟩ := limits hp hD hV0 hV hL i hi
  obtain ⟨a, b⟩ := Sv2.C52_moments_sde_partial p hp F0 hF0 F hF l hl
  exact ⟨⟨_, a, (h l).2.1⟩, _, b, (h l).2.2⟩

include hp hD hV0 hV hL in
/-- The same for the covariance of two samples in a row and `cov(1, 1, par)`. Missing: higher orders. -/
theorem C70_2fsv_cov_partial (i : ℕ) (hi : i + 1 < N) :
    ∃ c, Fsv2.cov code 1 1 p = .ok c ∧ Tendsto (fun n => (∫ ω, (L n ω).getD i 0 * (L n ω).getD (i + 1) 0 ∂P) -
      (∫ ω, (L n ω).getD i 0 ∂P) * ∫ ω, (L n ω).getD (i + 1) 0 ∂P) atTop (𝓝 c) := by
  obtain ⟨F0, F, F0', F', hF0, hF, hF0', hF', -, h⟩ := limits hp hD hV0 hV hL i (by omega)
  have := h hi 1 1
  simp only [pow_one] at this
  exact ⟨_, Sv2.C52_cov_sde_partial p hp F0 hF0 F hF F0' hF0' F' hF', this⟩

include hp hD hV0 hV hL in
/-- At order 3 the simulated returns and the computed moments disagree: in the limit the third moment and the third
central moment of every sample exceed `m(3, par)` and `cm(3, par)` by the same positive amount. -/
theorem C70_2fsv_order3 (hg : p.Generic) (i : ℕ) (hi : i < N) : ∃ m c gap, Fsv2.m code 3 p = .ok m ∧
    Fsv2.cm code 3 p = .ok c ∧ 0 < gap ∧ gap = Fsv2.gap3 p.k1 p.θ1 p.σ1 p.h + Fsv2.gap3 p.k2 p.θ2 p.σ2 p.h ∧
    Tendsto (fun n => ∫ ω, (L n ω).getD i 0 ^ 3 ∂P) atTop (𝓝 (m + gap)) ∧
    Tendsto (fun n => ∫ ω, ((L n ω).getD i 0 - ∫ ω', (L n ω').getD i 0 ∂P) ^ 3 ∂P) atTop (𝓝 (c + gap)) := by
  obtain ⟨F0, F, -, -, hF0, hF, -, -, h, -⟩ := limits hp hD hV0 hV hL i hi
  obtain ⟨gap, h1, h2, h3, h4⟩ := Sv2.C52_order3_sde p hp hg F0 hF0 F hF
  refine ⟨_, _, gap, h3, h4, h1, h2, ?_, ?_⟩
  · rw [sub_add_cancel]; exact (h 3).2.1
  · rw [sub_add_cancel]; exact (h 3).2.2

include hp hD hV0 hV hL in
/-- With the two corrections of `itos_mom` the simulated returns and the computed moments agree at all orders. -/
theorem C70_2fsv_corrected (hg : p.Generic) (i : ℕ) (hi : i < N) :
    (∀ l, ∃ m, Fsv2.m fixed l p = .ok m ∧ Tendsto (fun n => ∫ ω, (L n ω).getD i 0 ^ l ∂P) atTop (𝓝 m)) ∧
    (∀ l, ∃ c, Fsv2.cm fixed l p = .ok c ∧
      Tendsto (fun n => ∫ ω, ((L n ω).getD i 0 - ∫ ω', (L n ω').getD i 0 ∂P) ^ l ∂P) atTop (𝓝 c)) ∧
    (i + 1 < N → ∀ l1 l2, ∃ c, Fsv2.cov fixed l1 l2 p = .ok c ∧
      Tendsto (fun n => (∫ ω, (L n ω).getD i 0 ^ l1 * (L n ω).getD (i + 1) 0 ^ l2 ∂P) -
        (∫ ω, (L n ω).getD i 0 ^ l1 ∂P) * ∫ ω, (L n ω).getD (i + 1) 0 ^ l2 ∂P) atTop (𝓝 c)) := by
  obtain ⟨F0, F, F0', F', hF0, hF, hF0', hF', h, h'⟩ := limits hp hD hV0 hV hL i hi
  obtain ⟨a, b, c⟩ := Sv2.C52_corrected_sde p hp hg F0 hF0 F hF F0' hF0' F' hF'
  exact ⟨fun l => ⟨_, a l, (h l).2.1⟩, fun l => ⟨_, b l, (h l).2.2⟩, fun hi l1 l2 => ⟨_, c l1 l2, h' hi l1 l2⟩⟩

/-! ### the hypotheses are met -/

section
open Measure

/-- where the initial value and the draws live -/
def Om (α : Type) : Option (ℕ × ℕ × Fin 3) → Type
  | none => α
  | some _ => ℝ

instance (α : Type) [MeasurableSpace α] : ∀ o, MeasurableSpace (Om α o)
  | none => inferInstanceAs (MeasurableSpace α)
  | some _ => inferInstanceAs (MeasurableSpace ℝ)

/-- their laws -/
noncomputable def laws {α : Type} [MeasurableSpace α] (γ : Measure α) : ∀ o, Measure (Om α o)
  | none => γ
  | some _ => gaussianReal 0 1

/-- a change of the initial value -/
def fix {α : Type} (f : α → α) : ∀ o, Om α o → Om α o
  | none => f
  | some _ => id

instance {α : Type} [MeasurableSpace α] (γ : Measure α) [IsProbabilityMeasure γ] : ∀ o, IsProbabilityMeasure (laws γ o)
  | none => inferInstanceAs (IsProbabilityMeasure γ)
  | some _ => inferInstanceAs (IsProbabilityMeasure (gaussianReal 0 1))

/-- There are normal draws and an independent initial value with a given law; `f` may change it on a null set. -/
theorem exists_draws {α : Type} [MeasurableSpace α] (γ : Measure α) [IsProbabilityMeasure γ] (f : α → α) (hf : Measurable f)
    (hγ : γ.map f = γ) : ∃ (V : (∀ o, Om α o) → α) (D : ℕ → ℕ → Fin 3 → (∀ o, Om α o) → ℝ),
      Draws (infinitePi (laws γ)) V D ∧ (∀ ω, ∃ a, V ω = f a) ∧ (infinitePi (laws γ)).map V = γ := by
  have hm : ∀ o, Measurable (fix f o) := fun o => by
    cases o with
    | none => exact hf
    | some q => exact measurable_id
  refine ⟨fun ω => fix f none (ω none), fun i j k ω => ω (some (i, j, k)),
    ⟨(hm none).comp (measurable_pi_apply none), fun i j k => measurable_pi_apply (X := Om α) (some (i, j, k)), fun i j k => infinitePi_map_eval (laws γ) (some (i, j, k)), ?_⟩,
    fun ω => ⟨ω none, rfl⟩, ?_⟩
  · have h := iIndepFun_infinitePi (P := laws γ) (X := fix f) hm
    have e : (fun o : Option (ℕ × ℕ × Fin 3) => o.elim
        (MeasurableSpace.comap (fun ω : ∀ o, Om α o => fix f none (ω none)) inferInstance) fun q =>
          MeasurableSpace.comap (fun ω : ∀ o, Om α o => ω (some (q.1, q.2.1, q.2.2))) inferInstance) =
        fun o => MeasurableSpace.comap (fun ω : ∀ o, Om α o => fix f o (ω o)) inferInstance := by
      funext o
      cases o <;> rfl
    exact (congrArg (fun m => iIndep m (infinitePi (laws γ))) e).mpr h.iIndep
  · have h1 : (infinitePi (laws γ)).map (fun ω => fix f none (ω none)) = ((infinitePi (laws γ)).map fun ω => ω none).map (fix f none) := by
      rw [Measure.map_map (hm none) (measurable_pi_apply none)]
      rfl
    have h2 := infinitePi_map_eval (laws γ) none
    exact (h1.trans (congrArg (fun m => Measure.map (fix f none) m) h2)).trans hγ

/-- Beside the theorems above: for all positive parameters there are nonnegative initial variances with the stationary
law, and independent normal draws. -/
theorem draws_exist (p : Fsv2.Par) (hp : Sv2.Pos p) : ∃ (P : Measure (∀ o, Om (ℝ × ℝ) o)) (_ : IsProbabilityMeasure P)
    (V : (∀ o, Om (ℝ × ℝ) o) → ℝ × ℝ) (D : ℕ → ℕ → Fin 3 → (∀ o, Om (ℝ × ℝ) o) → ℝ),
      Draws P V D ∧ (∀ ω, 0 ≤ (V ω).1 ∧ 0 ≤ (V ω).2) ∧ Fsv2.StatLaw p (P.map V) := by
  obtain ⟨k1, k2, t1, s1, t2, s2, -⟩ := hp
  haveI := isProbabilityMeasure_gammaMeasure (a := 2 * p.k1 * p.θ1 / p.σ1 ^ 2) (r := 2 * p.k1 / p.σ1 ^ 2)
    (by positivity) (by positivity)
  haveI := isProbabilityMeasure_gammaMeasure (a := 2 * p.k2 * p.θ2 / p.σ2 ^ 2) (r := 2 * p.k2 / p.σ2 ^ 2)
    (by positivity) (by positivity)
  haveI : IsProbabilityMeasure (Fsv2.gammas p) := by unfold Fsv2.gammas; infer_instance
  have h : ∀ a r, (gammaMeasure a r).map (max 0) = gammaMeasure a r := fun a r => by
    have h2 : (gammaMeasure a r).map (max 0) = (gammaMeasure a r).map id :=
      Measure.map_congr ((gamma_pos _ _).mono fun x hx => max_eq_right hx)
    rw [h2, Measure.map_id]
  obtain ⟨V, D, h1, h2, h3⟩ := exists_draws (Fsv2.gammas p) (Prod.map (max 0) (max 0)) (by fun_prop) (by
    rw [Fsv2.gammas, ← Measure.map_prod_map _ _ (by fun_prop) (by fun_prop), h, h])
  refine ⟨_, inferInstance, V, D, h1, fun ω => ?_, ?_⟩
  · obtain ⟨a, ha⟩ := h2 ω
    rw [ha]
    exact ⟨le_max_left _ _, le_max_left _ _⟩
  · rw [h3]
    exact Fsv2.statLaw_gammas p k1 k2 t1 s1 t2 s2

end

/-- Beside the theorems above: the hypotheses are met, and for these parameters the third moment of the first sample does
not converge to `m(3, par)`. -/
example : ∃ (P : Measure (∀ o, Om (ℝ × ℝ) o)) (_ : IsProbabilityMeasure P) (V : (∀ o, Om (ℝ × ℝ) o) → ℝ × ℝ)
    (D : ℕ → ℕ → ℕ → Fin 3 → (∀ o, Om (ℝ × ℝ) o) → ℝ) (L : ℕ → (∀ o, Om (ℝ × ℝ) o) → List ℝ),
    (∀ n, Draws P V (D n)) ∧ (∀ ω, 0 ≤ (V ω).1 ∧ 0 ≤ (V ω).2) ∧ Fsv2.StatLaw Fsv2.exPar (P.map V) ∧
    (∀ n, 0 < n → ∀ ω, r2FSV (V ω) (par Fsv2.exPar) 400 n (fun i j => D n i j 0 ω) (fun i j => D n i j 1 ω)
      (fun i j => D n i j 2 ω) = .ok (L n ω)) ∧
    ∃ m, Fsv2.m code 3 Fsv2.exPar = .ok m ∧ ¬ Tendsto (fun n => ∫ ω, (L n ω).getD 0 0 ^ 3 ∂P) atTop (𝓝 m) := by
  have hp : Sv2.Pos Fsv2.exPar := by
    refine ⟨?_, ?_, ?_, ?_, ?_, ?_, ?_⟩ <;> norm_num [Fsv2.exPar]
  obtain ⟨P, hP, V, D, hD, h0, hV⟩ := draws_exist _ hp
  obtain ⟨L, hL⟩ := C70_2fsv_ok hp (V := V) (D := fun _ => D) h0 400
  have hL' := fun n hn ω => (hL n hn ω).1
  obtain ⟨m, c, gap, hm, -, hg, -, ht, -⟩ := C70_2fsv_order3 hp (fun _ => hD) h0 hV hL'
    (Fsv2.generic_of_irrational _ rfl irrational_sqrt_two) 0 (by norm_num)
  refine ⟨P, hP, V, fun _ => D, L, fun _ => hD, h0, hV, hL', m, hm, fun h => ?_⟩
  have := tendsto_nhds_unique h ht
  linarith

end Ajd.Euler.F2
