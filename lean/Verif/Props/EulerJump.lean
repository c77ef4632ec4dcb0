import Verif.Lemmas.EulerJump
import Verif.Lemmas.Sv2Conv
import Verif.Props.EulerConv2
import Verif.Props.Fsv2jSde

/-! C71, C72: the samples of the Euler generators with jumps in the limit of small steps. -/

namespace Ajd.Euler
open MvPolynomial MeasureTheory ProbabilityTheory Filter Topology Scheme Spec
open scoped NNReal

variable {Ω : Type} [MeasurableSpace Ω] {P : Measure Ω} [IsProbabilityMeasure P]

section
variable {p : Fsv1j.Par} (hk : 0 < p.k) (hθ : 0 < p.θ) (hσ : 0 < p.σ) (hh : 0 < p.h) (hρ : 0 ≤ 1 - p.ρ ^ 2)
  (hl : 0 ≤ p.lam) {V : Ω → ℝ} {D : ℕ → ℕ → ℕ → Fin 2 → Ω → ℝ} {M : ℕ → ℕ → ℝ → Ω → ℕ} {G : ℕ → ℕ → ℕ → Ω → ℝ}
  (hD : ∀ n, DrawsJ P V (D n) (fun i => M n i (p.lam * p.h)) (G n) (p.lam * p.h).toNNReal) (hV0 : ∀ ω, 0 ≤ V ω)
  (hV : Fsv1.StatLaw p.toPar (P.map V))

omit [MeasurableSpace Ω] in
include hh hρ hV0 in
/-- For every number of segments the generator returns `N` samples. -/
theorem C71_1fsvj_ok (N : ℕ) : ∃ L : ℕ → Ω → List ℝ, ∀ n, 0 < n → ∀ ω,
    r1FSVJ (V ω) p N n (fun i j => D n i j 0 ω) (fun i j => D n i j 1 ω) (fun i r => M n i r ω) (fun i l => G n i l ω) =
      .ok (L n ω) ∧ (L n ω).length = N :=
  ⟨_, fun n hn ω => ⟨C45_1fsvj (V ω) p N n _ _ _ _ (hV0 ω) hh.le hn (by linarith), by simp⟩⟩

variable {N : ℕ} {L : ℕ → Ω → List ℝ} (hL : ∀ n, 0 < n → ∀ ω, r1FSVJ (V ω) p N n (fun i j => D n i j 0 ω)
  (fun i j => D n i j 1 ω) (fun i r => M n i r ω) (fun i l => G n i l ω) = .ok (L n ω))

omit [MeasurableSpace Ω] in
include hh hρ hV0 hL in
theorem LJ_eq (i : ℕ) (hi : i < N) (n : ℕ) (hn : 0 < n) (ω : Ω) : (L n ω).getD i 0 = en p.toPar V D n i ω 1 +
    js (fun i => M n i (p.lam * p.h)) (G n) p.μj p.σj i ω := by
  have h1 := hL n hn ω
  rw [C45_1fsvj (V ω) p N n _ _ _ _ (hV0 ω) hh.le hn (by linarith)] at h1
  injection h1 with h1
  rw [← h1, getD_map _ hi, en_ret hh n hn]
  rfl

include hk hθ hh hρ hD hV0 hV in
theorem y_meas (i n : ℕ) :
    Measurable[base V (D n) (fun i => M n i (p.lam * p.h)) (G n)] fun ω => en p.toPar V D n i ω 1 := by
  obtain ⟨Q, hQ, -⟩ := Sv.heston_semi p.μ p.k p.θ p.σ p.ρ
  obtain ⟨-, h1, -⟩ := end_conv hk hθ hh hρ (fun n => (hD n).draws) hV0 (hV_int hV (hD 0).draws.measV) hQ i
  exact (measurable_pi_apply 1).comp ((h1 n).mono (past_base i n) le_rfl)

include hk hθ hσ hh hρ hD hV0 hV in
theorem y_limits (i l : ℕ) : (∀ n, 0 < n → Integrable (fun ω => en p.toPar V D n i ω 1 ^ l) P) ∧
    (∃ m, Fsv1.m l p.toPar = .ok m ∧ Tendsto (fun n => ∫ ω, en p.toPar V D n i ω 1 ^ l ∂P) atTop (𝓝 m)) ∧
    ∃ c, Fsv1.cm l p.toPar = .ok c ∧
      Tendsto (fun n => ∫ ω, (en p.toPar V D n i ω 1 - ∫ ω', en p.toPar V D n i ω' 1 ∂P) ^ l ∂P) atTop (𝓝 c) := by
  obtain ⟨L0, hL0⟩ := C69_1fsv_ok (p := p.toPar) hh hρ (V := V) (D := D) hV0 (i + 1)
  obtain ⟨a, ⟨m, hm, b⟩, c, hc, d⟩ := C69_1fsv hk hθ hσ hh hρ (fun n => (hD n).draws) hV0 hV (i + 1) L0
    (fun n hn ω => (hL0 n hn ω).1) i (Nat.lt_succ_self i) l
  have e : ∀ n, 0 < n → ∀ ω, (L0 n ω).getD i 0 = en p.toPar V D n i ω 1 := fun n hn ω =>
    L_eq hh hρ hV0 (fun n hn ω => (hL0 n hn ω).1) i (Nat.lt_succ_self i) n hn ω
  refine ⟨fun n hn => by simpa only [e n hn] using a n hn, ⟨m, hm, b.congr' ?_⟩, c, hc, d.congr' ?_⟩
  · filter_upwards [eventually_gt_atTop 0] with n hn
    simp only [e n hn]
  · filter_upwards [eventually_gt_atTop 0] with n hn
    simp only [e n hn]

include hk hθ hσ hh hρ hl hD hV0 hV hL in
/-- `r1FSVJ`, when the initial variance has the stationary law: as the number of segments grows, the moments and the
central moments of every sample converge to the values of `m` and `cm`. -/
theorem C71_1fsvj (i : ℕ) (hi : i < N) (l : ℕ) : (∀ n, 0 < n → Integrable (fun ω => (L n ω).getD i 0 ^ l) P) ∧
    (∃ m, Fsv1j.m l p = .ok m ∧ Tendsto (fun n => ∫ ω, (L n ω).getD i 0 ^ l ∂P) atTop (𝓝 m)) ∧
    ∃ c, Fsv1j.cm l p = .ok c ∧
      Tendsto (fun n => ∫ ω, ((L n ω).getD i 0 - ∫ ω', (L n ω').getD i 0 ∂P) ^ l ∂P) atTop (𝓝 c) := by
  obtain ⟨a, b, c, h1, -⟩ := C63_fsv1j p hk hθ hσ hh.le hρ hl
  have hy := y_limits hk hθ hσ hh hρ hD hV0 hV i
  obtain ⟨x, y, z⟩ := jump_limits (X := fun n ω => (L n ω).getD i 0) hD p.μj p.σj i
    (fun n _ => y_meas hk hθ hh hρ hD hV0 hV i n)
    (fun l => (hy l).1) (fun n hn ω => LJ_eq hh hρ hV0 hL i hi n hn ω) (a := a) (b := b)
    (fun l => by
      obtain ⟨-, ⟨m, hm, t⟩, -⟩ := hy l
      rw [(h1 l).1] at hm
      injection hm with hm
      rwa [hm])
    (fun l => by
      obtain ⟨-, -, m, hm, t⟩ := hy l
      rw [(h1 l).2.2.1] at hm
      injection hm with hm
      rwa [hm]) l
  exact ⟨x, ⟨_, (h1 l).2.1, y⟩, _, (h1 l).2.2.2, z⟩

include hk hθ hσ hh hρ hl hD hV0 hV hL in
/-- The same for the covariance of powers of two samples in a row and the value of `cov`. -/
theorem C71_1fsvj_cov (i : ℕ) (hi : i + 1 < N) (l1 l2 : ℕ) :
    ∃ c, Fsv1j.cov l1 l2 p = .ok c ∧ Tendsto (fun n => (∫ ω, (L n ω).getD i 0 ^ l1 * (L n ω).getD (i + 1) 0 ^ l2 ∂P) -
      (∫ ω, (L n ω).getD i 0 ^ l1 ∂P) * ∫ ω, (L n ω).getD (i + 1) 0 ^ l2 ∂P) atTop (𝓝 c) := by
  obtain ⟨a, b, c, -, h1⟩ := C63_fsv1j p hk hθ hσ hh.le hρ hl
  refine ⟨_, (h1 l1 l2).2, jump_limits_cov (X := fun n ω => (L n ω).getD i 0) (X' := fun n ω => (L n ω).getD (i + 1) 0)
    hD p.μj p.σj i (i + 1) (by omega)
    (fun n _ => y_meas hk hθ hh hρ hD hV0 hV i n) (fun n _ => y_meas hk hθ hh hρ hD hV0 hV (i + 1) n)
    (fun l => (y_limits hk hθ hσ hh hρ hD hV0 hV i l).1) (fun l => (y_limits hk hθ hσ hh hρ hD hV0 hV (i + 1) l).1)
    (fun n hn ω => LJ_eq hh hρ hV0 hL i (by omega) n hn ω) (fun n hn ω => LJ_eq hh hρ hV0 hL (i + 1) hi n hn ω)
    (fun a b => ?_) l1 l2⟩
  obtain ⟨L0, hL0⟩ := C69_1fsv_ok (p := p.toPar) hh hρ (V := V) (D := D) hV0 (i + 2)
  obtain ⟨d, hd, t⟩ := C69_1fsv_cov hk hθ hσ hh hρ (fun n => (hD n).draws) hV0 hV (i + 2) L0
    (fun n hn ω => (hL0 n hn ω).1) i (by omega) a b
  rw [(h1 a b).1] at hd
  injection hd with hd
  rw [hd]
  refine t.congr' ?_
  filter_upwards [eventually_gt_atTop 0] with n hn
  have e : ∀ j < i + 2, ∀ ω, (L0 n ω).getD j 0 = en p.toPar V D n j ω 1 := fun j hj ω =>
    L_eq hh hρ hV0 (fun n hn ω => (hL0 n hn ω).1) j hj n hn ω
  simp only [e i (by omega), e (i + 1) (by omega)]

end

end Ajd.Euler

/-! ### two factors -/

namespace Ajd.Euler.F2
open MvPolynomial MeasureTheory ProbabilityTheory Filter Topology Scheme Spec Itos

variable {Ω : Type} [MeasurableSpace Ω] {P : Measure Ω} [IsProbabilityMeasure P]
  {p : Fsv2j.Par} (hp : Sv2.Pos p.toPar) (hl : 0 ≤ p.lam) {V : Ω → ℝ × ℝ} {D : ℕ → ℕ → ℕ → Fin 3 → Ω → ℝ}
  {M : ℕ → ℕ → ℝ → Ω → ℕ} {G : ℕ → ℕ → ℕ → Ω → ℝ}
  (hD : ∀ n, DrawsJ P V (D n) (fun i => M n i (p.lam * p.h)) (G n) (p.lam * p.h).toNNReal)
  (hV0 : ∀ ω, 0 ≤ (V ω).1 ∧ 0 ≤ (V ω).2) (hV : Fsv2.StatLaw p.toPar (P.map V))

omit [MeasurableSpace Ω] in
include hp hV0 in
/-- For every number of segments the generator returns `N` samples. -/
theorem C72_2fsvj_ok (N : ℕ) : ∃ L : ℕ → Ω → List ℝ, ∀ n, 0 < n → ∀ ω,
    r2FSVJ (V ω) (par p.toPar) p.lam p.μj p.σj N n (fun i j => D n i j 0 ω) (fun i j => D n i j 1 ω)
      (fun i j => D n i j 2 ω) (fun i r => M n i r ω) (fun i l => G n i l ω) = .ok (L n ω) ∧ (L n ω).length = N :=
  ⟨_, fun n hn ω => ⟨C45_2fsvj (V ω) (par p.toPar) p.lam p.μj p.σj N n _ _ _ _ _ (hV0 ω).1 (hV0 ω).2 hp.h.le hn, by simp⟩⟩

variable {N : ℕ} {L : ℕ → Ω → List ℝ} (hL : ∀ n, 0 < n → ∀ ω, r2FSVJ (V ω) (par p.toPar) p.lam p.μj p.σj N n
  (fun i j => D n i j 0 ω) (fun i j => D n i j 1 ω) (fun i j => D n i j 2 ω) (fun i r => M n i r ω)
  (fun i l => G n i l ω) = .ok (L n ω))

omit [MeasurableSpace Ω] in
include hp hV0 hL in
theorem LJ_eq (i : ℕ) (hi : i < N) (n : ℕ) (hn : 0 < n) (ω : Ω) : (L n ω).getD i 0 = en p.toPar V D n i ω 2 +
    js (fun i => M n i (p.lam * p.h)) (G n) p.μj p.σj i ω := by
  have h1 := hL n hn ω
  rw [C45_2fsvj (V ω) (par p.toPar) p.lam p.μj p.σj N n _ _ _ _ _ (hV0 ω).1 (hV0 ω).2 hp.h.le hn] at h1
  injection h1 with h1
  rw [← h1, getD_map _ hi, en_ret hp n hn]
  rfl

include hp hD hV0 hV in
theorem y_meas (i n : ℕ) :
    Measurable[base V (D n) (fun i => M n i (p.lam * p.h)) (G n)] fun ω => en p.toPar V D n i ω 2 := by
  obtain ⟨Q, hQ, -⟩ := Sv2.sv2_semi p.μ p.k1 p.k2 p.θ1 p.σ1 p.θ2 p.σ2
  obtain ⟨h1, -⟩ := end_conv hp (fun n => (hD n).draws) hV0 (hV_int hV (hD 0).draws.measV) hQ i
  exact (measurable_pi_apply 2).comp ((h1 n).mono (past_base i n) le_rfl)

include hp hD hV0 hV in
/-- the returns without jumps -/
theorem y_limits (i : ℕ) : ∃ E0 E E0' E',
    Sv2.Start E0 (Ito.vMoment p.k1 p.θ1 p.σ1) (Ito.vMoment p.k2 p.θ2 p.σ2) ∧
    (Sv2.sv2 p.μ p.k1 p.k2 p.θ1 p.σ1 p.θ2 p.σ2).Dynkin E0 E ∧ Sv2.Second (E p.h) E0' ∧
    (Sv2.sv2two p.μ p.k1 p.k2 p.θ1 p.σ1 p.θ2 p.σ2).Dynkin E0' E' ∧
    (∀ l, (∀ n, 0 < n → Integrable (fun ω => en p.toPar V D n i ω 2 ^ l) P) ∧
      Tendsto (fun n => ∫ ω, en p.toPar V D n i ω 2 ^ l ∂P) atTop (𝓝 (E p.h (X 2 ^ l))) ∧
      Tendsto (fun n => ∫ ω, (en p.toPar V D n i ω 2 - ∫ ω', en p.toPar V D n i ω' 2 ∂P) ^ l ∂P) atTop
        (𝓝 (E p.h ((X 2 - C (E p.h (X 2))) ^ l)))) ∧
    (∀ l1 l2, Tendsto (fun n => (∫ ω, en p.toPar V D n i ω 2 ^ l1 * en p.toPar V D n (i + 1) ω 2 ^ l2 ∂P) -
      (∫ ω, en p.toPar V D n i ω 2 ^ l1 ∂P) * ∫ ω, en p.toPar V D n (i + 1) ω 2 ^ l2 ∂P) atTop
        (𝓝 (E' p.h (X 2 ^ l1 * X 3 ^ l2) - E' p.h (X 2 ^ l1) * E' p.h (X 3 ^ l2)))) := by
  obtain ⟨L0, hL0⟩ := C70_2fsv_ok hp (V := V) (D := D) hV0 (i + 2)
  obtain ⟨E0, E, E0', E', h1, h2, h3, h4, h5, h6⟩ := limits hp (fun n => (hD n).draws) hV0 hV
    (fun n hn ω => (hL0 n hn ω).1) i (by omega)
  have e : ∀ j < i + 2, ∀ n, 0 < n → ∀ ω, (L0 n ω).getD j 0 = en p.toPar V D n j ω 2 := fun j hj n hn ω =>
    L_eq hp hV0 (fun n hn ω => (hL0 n hn ω).1) j hj n hn ω
  refine ⟨E0, E, E0', E', h1, h2, h3, h4, fun l => ?_, fun l1 l2 => (h6 (by omega) l1 l2).congr' ?_⟩
  · obtain ⟨a, b, d⟩ := h5 l
    refine ⟨fun n hn => by simpa only [e i (by omega) n hn] using a n hn, b.congr' ?_, d.congr' ?_⟩
    · filter_upwards [eventually_gt_atTop 0] with n hn
      simp only [e i (by omega) n hn]
    · filter_upwards [eventually_gt_atTop 0] with n hn
      simp only [e i (by omega) n hn]
  · filter_upwards [eventually_gt_atTop 0] with n hn
    simp only [e i (by omega) n hn, e (i + 1) (by omega) n hn]

include hp hl hD hV0 hV hL in
/-- everything about the samples that is needed below -/
theorem limitsJ (i : ℕ) (hi : i < N) : ∃ E0 E E0' E',
    Sv2.Start E0 (Ito.vMoment p.k1 p.θ1 p.σ1) (Ito.vMoment p.k2 p.θ2 p.σ2) ∧
    (Sv2.sv2j p.μ p.k1 p.k2 p.θ1 p.σ1 p.θ2 p.σ2 p.lam p.μj p.σj).Dynkin E0 E ∧ Sv2.Second (E p.h) E0' ∧
    (Sv2.sv2jtwo p.μ p.k1 p.k2 p.θ1 p.σ1 p.θ2 p.σ2 p.lam p.μj p.σj).Dynkin E0' E' ∧
    (∀ l, (∀ n, 0 < n → Integrable (fun ω => (L n ω).getD i 0 ^ l) P) ∧
      Tendsto (fun n => ∫ ω, (L n ω).getD i 0 ^ l ∂P) atTop (𝓝 (E p.h (X 2 ^ l))) ∧
      Tendsto (fun n => ∫ ω, ((L n ω).getD i 0 - ∫ ω', (L n ω').getD i 0 ∂P) ^ l ∂P) atTop
        (𝓝 (E p.h ((X 2 - C (E p.h (X 2))) ^ l)))) ∧
    (i + 1 < N → ∀ l1 l2, Tendsto (fun n => (∫ ω, (L n ω).getD i 0 ^ l1 * (L n ω).getD (i + 1) 0 ^ l2 ∂P) -
      (∫ ω, (L n ω).getD i 0 ^ l1 ∂P) * ∫ ω, (L n ω).getD (i + 1) 0 ^ l2 ∂P) atTop
        (𝓝 (E' p.h (X 2 ^ l1 * X 3 ^ l2) - E' p.h (X 2 ^ l1) * E' p.h (X 3 ^ l2)))) := by
  obtain ⟨E0, E, E0', E', h1, h2, h3, h4, h5, h6⟩ := y_limits hp hD hV0 hV i
  obtain ⟨_, _, _, _, -, -, -, -, k5, -⟩ := y_limits hp hD hV0 hV (i + 1)
  obtain ⟨Q, hQ⟩ := Gen.dynkin_exists (Gen.jmp_coef 2 p.lam p.μj (p.σj ^ 2).toNNReal
    (Sv2.coefY p.μ p.k1 p.k2 p.θ1 p.σ1 p.θ2 p.σ2)) (Gen.jmp_mom _ 2 p.lam p.μj (p.σj ^ 2).toNNReal)
  obtain ⟨Q', hQ'⟩ := Gen.dynkin_exists (Gen.jmp_coef 3 p.lam p.μj (p.σj ^ 2).toNNReal
    (Sv2.coef4 p.μ p.k1 p.k2 p.θ1 p.σ1 p.θ2 p.σ2)) (Gen.jmp_mom _ 3 p.lam p.μj (p.σj ^ 2).toNNReal)
  rw [← Sv2.sv2j_eq] at hQ
  rw [← Sv2.sv2jtwo_eq] at hQ'
  have hF := hQ E0
  have hF0' := Sv2.second_start ((fun t => E0 ∘ₗ Q t) p.h)
  have hF' := hQ' ((fun t => E0 ∘ₗ Q t) p.h ∘ₗ (aeval ![X 0, X 1, X 2, 0]).toLinearMap)
  have h0 : E0 1 = 1 := by
    have := h1.v 0 0
    simpa [Ito.vMoment] using this
  have hm := Sv2.jmom hl hp.h.le h2 hF
  have hc := Sv2.jcm hl hp.h.le h2 hF h0
  have hv := Sv2.jcov hl hp.h.le h2 hF h3 h4 hF0' hF'
  refine ⟨E0, _, _, _, h1, hF, hF0', hF', fun l => ?_, fun hi1 l1 l2 => ?_⟩
  · rw [hm, hc]
    exact jump_limits (X := fun n ω => (L n ω).getD i 0) hD p.μj p.σj i (fun n _ => y_meas hp hD hV0 hV i n)
      (fun l => (h5 l).1) (fun n hn ω => LJ_eq hp hV0 hL i hi n hn ω) (fun l => (h5 l).2.1) (fun l => (h5 l).2.2) l
  · rw [hv]
    exact jump_limits_cov (X := fun n ω => (L n ω).getD i 0) (X' := fun n ω => (L n ω).getD (i + 1) 0) hD p.μj p.σj i
      (i + 1) (by omega) (fun n _ => y_meas hp hD hV0 hV i n) (fun n _ => y_meas hp hD hV0 hV (i + 1) n)
      (fun l => (h5 l).1) (fun l => (k5 l).1) (fun n hn ω => LJ_eq hp hV0 hL i hi n hn ω)
      (fun n hn ω => LJ_eq hp hV0 hL (i + 1) hi1 n hn ω) h6 l1 l2

include hp hl hD hV0 hV hL in
/-- `r2FSVJ`, when the initial variances have the stationary law: as the number of segments grows, the moments and the
central moments of every sample, of all orders, converge to those of the return over `h`. -/
theorem C72_2fsvj_sde (i : ℕ) (hi : i < N) (E0 : MvPolynomial (Fin 3) ℝ →ₗ[ℝ] ℝ)
    (h0 : Sv2.Start E0 (Ito.vMoment p.k1 p.θ1 p.σ1) (Ito.vMoment p.k2 p.θ2 p.σ2))
    (E : ℝ → MvPolynomial (Fin 3) ℝ →ₗ[ℝ] ℝ)
    (hE : (Sv2.sv2j p.μ p.k1 p.k2 p.θ1 p.σ1 p.θ2 p.σ2 p.lam p.μj p.σj).Dynkin E0 E) (l : ℕ) :
    (∀ n, 0 < n → Integrable (fun ω => (L n ω).getD i 0 ^ l) P) ∧
    Tendsto (fun n => ∫ ω, (L n ω).getD i 0 ^ l ∂P) atTop (𝓝 (E p.h (X 2 ^ l))) ∧
    Tendsto (fun n => ∫ ω, ((L n ω).getD i 0 - ∫ ω', (L n ω').getD i 0 ∂P) ^ l ∂P) atTop
      (𝓝 (E p.h ((X 2 - C (E p.h (X 2))) ^ l))) := by
  obtain ⟨F0, F, -, -, hF0, hF, -, -, h, -⟩ := limitsJ hp hl hD hV0 hV hL i hi
  have e0 : F0 = E0 := LinearMap.ext fun f => (hF0.eq hV f).2.trans (h0.eq hV f).2.symm
  subst e0
  rw [Sv2.sv2j_eq] at hF hE
  have e := Gen.dynkin_unique (Gen.jmp_coef 2 p.lam p.μj (p.σj ^ 2).toNNReal
    (Sv2.coefY p.μ p.k1 p.k2 p.θ1 p.σ1 p.θ2 p.σ2)) (Gen.jmp_mom _ 2 p.lam p.μj (p.σj ^ 2).toNNReal) hF hE p.h hp.h.le
  rw [e] at h
  exact h l

include hp hl hD hV0 hV hL in
/-- `r2FSVJ`, when the initial variances have the stationary law: as the number of segments grows, the moments and the
central moments of every sample converge to the values of `m` and `cm`, for orders up to 2. Missing: higher orders, where
the claim is false. -/
theorem C72_2fsvj_partial (i : ℕ) (hi : i < N) (l : ℕ) (h2 : l ≤ 2) :
    (∃ m, Fsv2j.m code l p = .ok m ∧ Tendsto (fun n => ∫ ω, (L n ω).getD i 0 ^ l ∂P) atTop (𝓝 m)) ∧
    ∃ c, Fsv2j.cm code l p = .ok c ∧
      Tendsto (fun n => ∫ ω, ((L n ω).getD i 0 - ∫ ω', (L n ω').getD i 0 ∂P) ^ l ∂P) atTop (𝓝 c) := by
  obtain ⟨F0, F, -, -, hF0, hF, -, -, h, -⟩ := limitsJ hp hl hD hV0 hV hL i hi
  obtain ⟨a, b⟩ := Sv2.C53_moments_sde_partial p hp hl F0 hF0 F hF l h2
  exact ⟨⟨_, a, (h l).2.1⟩, _, b, (h l).2.2⟩

include hp hl hD hV0 hV hL in
/-- The same for the covariance of two samples in a row and `cov(1, 1, par)`. Missing: higher orders. -/
theorem C72_2fsvj_cov_partial (i : ℕ) (hi : i + 1 < N) :
    ∃ c, Fsv2j.cov code 1 1 p = .ok c ∧ Tendsto (fun n => (∫ ω, (L n ω).getD i 0 * (L n ω).getD (i + 1) 0 ∂P) -
      (∫ ω, (L n ω).getD i 0 ∂P) * ∫ ω, (L n ω).getD (i + 1) 0 ∂P) atTop (𝓝 c) := by
  obtain ⟨F0, F, F0', F', hF0, hF, hF0', hF', -, h⟩ := limitsJ hp hl hD hV0 hV hL i (by omega)
  have := h hi 1 1
  simp only [pow_one] at this
  exact ⟨_, Sv2.C53_cov_sde_partial p hp hl F0 hF0 F hF F0' hF0' F' hF', this⟩

include hp hl hD hV0 hV hL in
/-- At order 3 the simulated returns and the computed moments disagree: in the limit the third moment and the third
central moment of every sample exceed `m(3, par)` and `cm(3, par)` by the same positive amount. -/
theorem C72_2fsvj_order3 (hg : p.toPar.Generic) (i : ℕ) (hi : i < N) : ∃ m c gap, Fsv2j.m code 3 p = .ok m ∧
    Fsv2j.cm code 3 p = .ok c ∧ 0 < gap ∧ gap = Fsv2.gap3 p.k1 p.θ1 p.σ1 p.h + Fsv2.gap3 p.k2 p.θ2 p.σ2 p.h ∧
    Tendsto (fun n => ∫ ω, (L n ω).getD i 0 ^ 3 ∂P) atTop (𝓝 (m + gap)) ∧
    Tendsto (fun n => ∫ ω, ((L n ω).getD i 0 - ∫ ω', (L n ω').getD i 0 ∂P) ^ 3 ∂P) atTop (𝓝 (c + gap)) := by
  obtain ⟨F0, F, -, -, hF0, hF, -, -, h, -⟩ := limitsJ hp hl hD hV0 hV hL i hi
  obtain ⟨gap, h1, h2, h3, h4⟩ := Sv2.C53_order3_sde p hp hg hl F0 hF0 F hF
  refine ⟨_, _, gap, h3, h4, h1, h2, ?_, ?_⟩
  · rw [sub_add_cancel]; exact (h 3).2.1
  · rw [sub_add_cancel]; exact (h 3).2.2

include hp hl hD hV0 hV hL in
/-- With the two corrections of `itos_mom` the simulated returns and the computed moments agree at all orders. -/
theorem C72_2fsvj_corrected (hg : p.toPar.Generic) (i : ℕ) (hi : i < N) :
    (∀ l, ∃ m, Fsv2j.m fixed l p = .ok m ∧ Tendsto (fun n => ∫ ω, (L n ω).getD i 0 ^ l ∂P) atTop (𝓝 m)) ∧
    (∀ l, ∃ c, Fsv2j.cm fixed l p = .ok c ∧
      Tendsto (fun n => ∫ ω, ((L n ω).getD i 0 - ∫ ω', (L n ω').getD i 0 ∂P) ^ l ∂P) atTop (𝓝 c)) ∧
    (i + 1 < N → ∀ l1 l2, ∃ c, Fsv2j.cov fixed l1 l2 p = .ok c ∧
      Tendsto (fun n => (∫ ω, (L n ω).getD i 0 ^ l1 * (L n ω).getD (i + 1) 0 ^ l2 ∂P) -
        (∫ ω, (L n ω).getD i 0 ^ l1 ∂P) * ∫ ω, (L n ω).getD (i + 1) 0 ^ l2 ∂P) atTop (𝓝 c)) := by
  obtain ⟨F0, F, F0', F', hF0, hF, hF0', hF', h, h'⟩ := limitsJ hp hl hD hV0 hV hL i hi
  obtain ⟨a, b, c⟩ := Sv2.C53_corrected_sde p hp hg hl F0 hF0 F hF F0' hF0' F' hF'
  exact ⟨fun l => ⟨_, a l, (h l).2.1⟩, fun l => ⟨_, b l, (h l).2.2⟩, fun hi l1 l2 => ⟨_, c l1 l2, h' hi l1 l2⟩⟩

end Ajd.Euler.F2

/-! ### the hypotheses are met -/

namespace Ajd.Euler.J
open MeasureTheory ProbabilityTheory Filter Topology Itos Measure
open scoped NNReal

/-- the names of the draws -/
abbrev Ix (κ : Type) := Option (ℕ × ℕ × κ) ⊕ ℕ × Option ℕ

/-- where the initial value and the draws live -/
def Om (α κ : Type) : Ix κ → Type
  | .inl none => α
  | .inl (some _) => ℝ
  | .inr (_, none) => ℕ
  | .inr (_, some _) => ℝ

instance (α κ : Type) [MeasurableSpace α] : ∀ o, MeasurableSpace (Om α κ o)
  | .inl none => inferInstanceAs (MeasurableSpace α)
  | .inl (some _) => inferInstanceAs (MeasurableSpace ℝ)
  | .inr (_, none) => inferInstanceAs (MeasurableSpace ℕ)
  | .inr (_, some _) => inferInstanceAs (MeasurableSpace ℝ)

/-- their laws -/
noncomputable def laws {α : Type} [MeasurableSpace α] (κ : Type) (γ : Measure α) (Λ : ℝ≥0) : ∀ o, Measure (Om α κ o)
  | .inl none => γ
  | .inl (some _) => gaussianReal 0 1
  | .inr (_, none) => poissonMeasure Λ
  | .inr (_, some _) => gaussianReal 0 1

/-- a change of the initial value -/
def fix {α : Type} (κ : Type) (f : α → α) : ∀ o, Om α κ o → Om α κ o
  | .inl none => f
  | .inl (some _) => id
  | .inr (_, none) => id
  | .inr (_, some _) => id

instance {α : Type} [MeasurableSpace α] (κ : Type) (γ : Measure α) [IsProbabilityMeasure γ] (Λ : ℝ≥0) :
    ∀ o, IsProbabilityMeasure (laws κ γ Λ o)
  | .inl none => inferInstanceAs (IsProbabilityMeasure γ)
  | .inl (some _) => inferInstanceAs (IsProbabilityMeasure (gaussianReal 0 1))
  | .inr (_, none) => inferInstanceAs (IsProbabilityMeasure (poissonMeasure Λ))
  | .inr (_, some _) => inferInstanceAs (IsProbabilityMeasure (gaussianReal 0 1))

/-- There are draws and an independent initial value with a given law; `f` may change it on a null set. -/
theorem exists_draws {α κ : Type} [MeasurableSpace α] (γ : Measure α) [IsProbabilityMeasure γ] (Λ : ℝ≥0) (f : α → α)
    (hf : Measurable f) (hγ : γ.map f = γ) : ∃ (V : (∀ o, Om α κ o) → α) (D : ℕ → ℕ → κ → (∀ o, Om α κ o) → ℝ)
      (M : ℕ → (∀ o, Om α κ o) → ℕ) (G : ℕ → ℕ → (∀ o, Om α κ o) → ℝ),
      DrawsJ (infinitePi (laws κ γ Λ)) V D M G Λ ∧ (∀ ω, ∃ a, V ω = f a) ∧ (infinitePi (laws κ γ Λ)).map V = γ := by
  have hm : ∀ o, Measurable (fix κ f o) := fun o => by
    rcases o with (_ | q) | ⟨i, _ | l⟩
    · exact hf
    · exact measurable_id
    · exact measurable_id
    · exact measurable_id
  have h := iIndepFun_infinitePi (P := laws κ γ Λ) (X := fix κ f) hm
  have e : drawn (fun ω : ∀ o, Om α κ o => fix κ f (.inl none) (ω (.inl none))) (fun i j k ω => ω (.inl (some (i, j, k))))
      (fun i ω => ω (.inr (i, none))) (fun i l ω => ω (.inr (i, some l))) =
      fun o => MeasurableSpace.comap (fun ω : ∀ o, Om α κ o => fix κ f o (ω o)) inferInstance := by
    funext o
    rcases o with (_ | q) | ⟨i, _ | l⟩ <;> rfl
  have hi : iIndep (drawn (fun ω : ∀ o, Om α κ o => fix κ f (.inl none) (ω (.inl none)))
      (fun i j k ω => ω (.inl (some (i, j, k)))) (fun i ω => ω (.inr (i, none))) (fun i l ω => ω (.inr (i, some l))))
      (infinitePi (laws κ γ Λ)) := (congrArg (fun m => iIndep m (infinitePi (laws κ γ Λ))) e).mpr h.iIndep
  refine ⟨fun ω => fix κ f (.inl none) (ω (.inl none)), fun i j k ω => ω (.inl (some (i, j, k))), fun i ω => ω (.inr (i, none)),
    fun i l ω => ω (.inr (i, some l)), ⟨⟨(hm (.inl none)).comp (measurable_pi_apply (Sum.inl none)),
      fun i j k => measurable_pi_apply (X := Om α κ) (.inl (some (i, j, k))),
      fun i j k => infinitePi_map_eval (laws κ γ Λ) (.inl (some (i, j, k))), ?_⟩,
      fun i => measurable_pi_apply (X := Om α κ) (.inr (i, none)), fun i => infinitePi_map_eval (laws κ γ Λ) (.inr (i, none)),
      fun i l => measurable_pi_apply (X := Om α κ) (.inr (i, some l)),
      fun i l => infinitePi_map_eval (laws κ γ Λ) (.inr (i, some l)), hi⟩,
    fun ω => ⟨ω (.inl none), rfl⟩, ?_⟩
  · exact hi.precomp Sum.inl_injective
  · have h1 : (infinitePi (laws κ γ Λ)).map (fun ω => fix κ f (.inl none) (ω (.inl none))) =
        ((infinitePi (laws κ γ Λ)).map fun ω => ω (.inl none)).map (fix κ f (.inl none)) := by
      rw [Measure.map_map (hm (.inl none)) (measurable_pi_apply (Sum.inl none))]
      rfl
    have h2 := infinitePi_map_eval (laws κ γ Λ) (.inl none)
    exact (h1.trans (congrArg (fun m => Measure.map (fix κ f (.inl none)) m) h2)).trans hγ

theorem map_max (a r : ℝ) : (gammaMeasure a r).map (max 0) = gammaMeasure a r := by
  have h2 : (gammaMeasure a r).map (max 0) = (gammaMeasure a r).map id :=
    Measure.map_congr ((gamma_pos _ _).mono fun x hx => max_eq_right hx)
  rw [h2, Measure.map_id]

/-- Beside the theorems on one factor: for all positive parameters there are such draws. -/
theorem exists1 (p : Fsv1.Par) (hk : 0 < p.k) (hθ : 0 < p.θ) (hσ : 0 < p.σ) (Λ : ℝ≥0) :
    ∃ (P : Measure (∀ o, Om ℝ (Fin 2) o)) (_ : IsProbabilityMeasure P) (V : (∀ o, Om ℝ (Fin 2) o) → ℝ)
      (D : ℕ → ℕ → Fin 2 → (∀ o, Om ℝ (Fin 2) o) → ℝ) (M : ℕ → (∀ o, Om ℝ (Fin 2) o) → ℕ)
      (G : ℕ → ℕ → (∀ o, Om ℝ (Fin 2) o) → ℝ),
      DrawsJ P V D M G Λ ∧ (∀ ω, 0 ≤ V ω) ∧ Fsv1.StatLaw p (P.map V) := by
  haveI := isProbabilityMeasure_gammaMeasure (a := 2 * p.k * p.θ / p.σ ^ 2) (r := 2 * p.k / p.σ ^ 2)
    (by positivity) (by positivity)
  obtain ⟨V, D, M, G, h1, h2, h3⟩ := exists_draws (κ := Fin 2) (gammaMeasure (2 * p.k * p.θ / p.σ ^ 2) (2 * p.k / p.σ ^ 2)) Λ
    (max 0) (by fun_prop) (map_max _ _)
  refine ⟨_, inferInstance, V, D, M, G, h1, fun ω => ?_, ?_⟩
  · obtain ⟨a, ha⟩ := h2 ω
    rw [ha]
    exact le_max_left _ _
  · rw [h3]
    exact Fsv1.statLaw_gamma p hk hθ hσ

/-- Beside the theorems on two factors: for all positive parameters there are such draws. -/
theorem exists2 (p : Fsv2.Par) (hp : Sv2.Pos p) (Λ : ℝ≥0) :
    ∃ (P : Measure (∀ o, Om (ℝ × ℝ) (Fin 3) o)) (_ : IsProbabilityMeasure P) (V : (∀ o, Om (ℝ × ℝ) (Fin 3) o) → ℝ × ℝ)
      (D : ℕ → ℕ → Fin 3 → (∀ o, Om (ℝ × ℝ) (Fin 3) o) → ℝ) (M : ℕ → (∀ o, Om (ℝ × ℝ) (Fin 3) o) → ℕ)
      (G : ℕ → ℕ → (∀ o, Om (ℝ × ℝ) (Fin 3) o) → ℝ),
      DrawsJ P V D M G Λ ∧ (∀ ω, 0 ≤ (V ω).1 ∧ 0 ≤ (V ω).2) ∧ Fsv2.StatLaw p (P.map V) := by
  obtain ⟨k1, k2, t1, s1, t2, s2, -⟩ := hp
  haveI := isProbabilityMeasure_gammaMeasure (a := 2 * p.k1 * p.θ1 / p.σ1 ^ 2) (r := 2 * p.k1 / p.σ1 ^ 2)
    (by positivity) (by positivity)
  haveI := isProbabilityMeasure_gammaMeasure (a := 2 * p.k2 * p.θ2 / p.σ2 ^ 2) (r := 2 * p.k2 / p.σ2 ^ 2)
    (by positivity) (by positivity)
  haveI : IsProbabilityMeasure (Fsv2.gammas p) := by unfold Fsv2.gammas; infer_instance
  obtain ⟨V, D, M, G, h1, h2, h3⟩ := exists_draws (κ := Fin 3) (Fsv2.gammas p) Λ (Prod.map (max 0) (max 0)) (by fun_prop) (by
    rw [Fsv2.gammas, ← Measure.map_prod_map _ _ (by fun_prop) (by fun_prop), map_max, map_max])
  refine ⟨_, inferInstance, V, D, M, G, h1, fun ω => ?_, ?_⟩
  · obtain ⟨a, ha⟩ := h2 ω
    rw [ha]
    exact ⟨le_max_left _ _, le_max_left _ _⟩
  · rw [h3]
    exact Fsv2.statLaw_gammas p k1 k2 t1 s1 t2 s2

/-- parameters for the example below -/
noncomputable def p1 : Fsv1j.Par := ⟨⟨1/10, 1/4, 1/10, -7/10, 125/1000, 1⟩, 1/100, 0, 5/100⟩

/-- Beside `C71_1fsvj`, `C71_1fsvj_cov` and `C71_1fsvj_ok`. -/
example : ∃ (P : Measure (∀ o, Om ℝ (Fin 2) o)) (_ : IsProbabilityMeasure P) (V : (∀ o, Om ℝ (Fin 2) o) → ℝ)
    (D : ℕ → ℕ → Fin 2 → (∀ o, Om ℝ (Fin 2) o) → ℝ) (M : ℕ → (∀ o, Om ℝ (Fin 2) o) → ℕ)
    (G : ℕ → ℕ → (∀ o, Om ℝ (Fin 2) o) → ℝ) (L : ℕ → (∀ o, Om ℝ (Fin 2) o) → List ℝ),
    DrawsJ P V D M G (p1.lam * p1.h).toNNReal ∧
    (∀ n, 0 < n → ∀ ω, r1FSVJ (V ω) p1 400 n (fun i j => D i j 0 ω) (fun i j => D i j 1 ω) (fun i _ => M i ω)
      (fun i l => G i l ω) = .ok (L n ω)) ∧
    (∃ m, Fsv1j.cm 4 p1 = .ok m ∧
      Tendsto (fun n => ∫ ω, ((L n ω).getD 399 0 - ∫ ω', (L n ω').getD 399 0 ∂P) ^ 4 ∂P) atTop (𝓝 m)) ∧
    ∃ c, Fsv1j.cov 2 1 p1 = .ok c ∧
      Tendsto (fun n => (∫ ω, (L n ω).getD 3 0 ^ 2 * (L n ω).getD (3 + 1) 0 ^ 1 ∂P) -
        (∫ ω, (L n ω).getD 3 0 ^ 2 ∂P) * ∫ ω, (L n ω).getD (3 + 1) 0 ^ 1 ∂P) atTop (𝓝 c) := by
  have hk : 0 < p1.k := by norm_num [p1]
  have hθ : 0 < p1.θ := by norm_num [p1]
  have hσ : 0 < p1.σ := by norm_num [p1]
  have hh : 0 < p1.h := by norm_num [p1]
  have hρ : 0 ≤ 1 - p1.ρ ^ 2 := by norm_num [p1]
  have hl : 0 ≤ p1.lam := by norm_num [p1]
  obtain ⟨P, hP, V, D, M, G, hD, h0, hV⟩ := exists1 p1.toPar hk hθ hσ (p1.lam * p1.h).toNNReal
  obtain ⟨L, hL⟩ := C71_1fsvj_ok (p := p1) hh hρ (V := V) (D := fun _ => D) (M := fun _ i _ => M i) (G := fun _ => G) h0 400
  exact ⟨P, hP, V, D, M, G, L, hD, fun n hn ω => (hL n hn ω).1,
    (C71_1fsvj hk hθ hσ hh hρ hl (fun _ => hD) h0 hV (fun n hn ω => (hL n hn ω).1) 399 (by norm_num) 4).2.2,
    C71_1fsvj_cov hk hθ hσ hh hρ hl (fun _ => hD) h0 hV (fun n hn ω => (hL n hn ω).1) 3 (by norm_num) 2 1⟩

/-- Beside the theorems on two factors: the hypotheses are met, and for these parameters the third moment of the first
sample does not converge to `m(3, par)`. -/
example : ∃ (p : Fsv2j.Par) (P : Measure (∀ o, Om (ℝ × ℝ) (Fin 3) o)) (_ : IsProbabilityMeasure P)
    (V : (∀ o, Om (ℝ × ℝ) (Fin 3) o) → ℝ × ℝ) (D : ℕ → ℕ → Fin 3 → (∀ o, Om (ℝ × ℝ) (Fin 3) o) → ℝ)
    (M : ℕ → (∀ o, Om (ℝ × ℝ) (Fin 3) o) → ℕ) (G : ℕ → ℕ → (∀ o, Om (ℝ × ℝ) (Fin 3) o) → ℝ)
    (L : ℕ → (∀ o, Om (ℝ × ℝ) (Fin 3) o) → List ℝ), 0 < p.lam * p.h ∧ 0 < p.σj ∧
    DrawsJ P V D M G (p.lam * p.h).toNNReal ∧ (∀ ω, 0 ≤ (V ω).1 ∧ 0 ≤ (V ω).2) ∧ Fsv2.StatLaw p.toPar (P.map V) ∧
    (∀ n, 0 < n → ∀ ω, r2FSVJ (V ω) (F2.par p.toPar) p.lam p.μj p.σj 400 n (fun i j => D i j 0 ω) (fun i j => D i j 1 ω)
      (fun i j => D i j 2 ω) (fun i _ => M i ω) (fun i l => G i l ω) = .ok (L n ω)) ∧
    ∃ m, Fsv2j.m code 3 p = .ok m ∧ ¬ Tendsto (fun n => ∫ ω, (L n ω).getD 0 0 ^ 3 ∂P) atTop (𝓝 m) := by
  have hp : Sv2.Pos Fsv2.exPar := by
    refine ⟨?_, ?_, ?_, ?_, ?_, ?_, ?_⟩ <;> norm_num [Fsv2.exPar]
  obtain ⟨P, hP, V, D, M, G, hD, h0, hV⟩ := exists2 _ hp (1 * Fsv2.exPar.h).toNNReal
  obtain ⟨L, hL⟩ := F2.C72_2fsvj_ok (p := ⟨Fsv2.exPar, 1, 0, 1⟩) hp (V := V) (D := fun _ => D) (M := fun _ i _ => M i)
    (G := fun _ => G) h0 400
  obtain ⟨m, c, gap, hm, -, hg, -, ht, -⟩ := F2.C72_2fsvj_order3 (p := ⟨Fsv2.exPar, 1, 0, 1⟩) hp zero_le_one
    (M := fun _ i _ => M i) (fun _ => hD) h0 hV (fun n hn ω => (hL n hn ω).1)
    (Fsv2.generic_of_irrational _ rfl irrational_sqrt_two) 0 (by norm_num)
  refine ⟨⟨Fsv2.exPar, 1, 0, 1⟩, P, hP, V, D, M, G, L, by simpa using hp.h, one_pos, hD, h0, hV,
    fun n hn ω => (hL n hn ω).1, m, hm, fun h => ?_⟩
  have := tendsto_nhds_unique h ht
  linarith

end Ajd.Euler.J
