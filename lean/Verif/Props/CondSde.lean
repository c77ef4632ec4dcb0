import Verif.Lemmas.CondPrice
import Verif.Props.Svvj
import Verif.Props.Svij
import Verif.Props.Svcj2

/-! C38, C48, C49: moments given the jumps of the variance, from the stochastic differential equations of the
models. `E h f` is the expectation of `f(v_h, y_h)`. -/

namespace Ajd
open Poly MvPolynomial ItoCond

/-- the central moment of the return over the interval `[0, h]` -/
noncomputable def cmAt (E : ℝ → MvPolynomial (Fin 2) ℝ →ₗ[ℝ] ℝ) (h : ℝ) (n : ℕ) : ℝ :=
  E h ((X 1 - C (E h (X 1))) ^ n)

namespace Svvj

theorem cmAt_eq {E : ℝ → MvPolynomial (Fin 2) ℝ →ₗ[ℝ] ℝ} {p : Par} {E' : Fsv1.Rv →ₗ[ℝ] ℝ}
    (h : ∀ f, E p.h f = E' (aeval ![vEnd p, ret p] f)) (n : ℕ) :
    cmAt E p.h n = E' ((ret p - C (E' (ret p))) ^ n) ∧ E p.h (X 1 ^ n) = E' (ret p ^ n) := by
  refine ⟨?_, by rw [h]; simp⟩
  rw [cmAt, h, h]
  simp [algebraMap_eq]

/-- C38, part, from the equations of the model. Full statement: `cm(l, par)` is the `l`-th central moment of the
return. Proved up to order 3, and for all orders if there is no jump. Missing: orders from 4 on with jumps, where
the value is wrong (`C38_cm_sde_wrong`). -/
theorem C38_cm_sde_partial (l : ℕ) (hl : 1 ≤ l) (p : Par) (hp : p.OK) (hj : p.Simple) :
    ∃ x : ℝ, (∃ c, ∀ fuel, c ≤ fuel → cm fuel l p = some (.ok x)) ∧
      ∀ E, Given p E → p.jumpsize = [] ∨ l ≤ 3 → x = cmAt E p.h l := by
  obtain ⟨x, h, hx⟩ := C38_cm_partial l hl p hp
  refine ⟨x, h, fun E hE hR => ?_⟩
  obtain ⟨E', hE', hr⟩ := given_repr p hp hj hE
  rw [hx E' hE' hR, (cmAt_eq hr l).1]

/-- C38, part, from the equations of the model: `m(l, par)`. -/
theorem C38_m_sde_partial (l : ℕ) (p : Par) (hp : p.OK) (hj : p.Simple) :
    ∃ x : ℝ, (∃ c, ∀ fuel, c ≤ fuel → m fuel l p = some (.ok x)) ∧
      ∀ E, Given p E → p.jumpsize = [] ∨ l ≤ 3 → x = E p.h (X 1 ^ l) := by
  obtain ⟨x, h, hx⟩ := C38_m_partial l p hp
  refine ⟨x, h, fun E hE hR => ?_⟩
  obtain ⟨E', hE', hr⟩ := given_repr p hp hj hE
  rw [hx E' hE' hR, (cmAt_eq hr l).2]

/-- C38. The value of order 4 is not the moment of the model. -/
theorem C38_cm_sde_wrong : ∃ (p : Par) (x : ℝ), p.OK ∧ p.Simple ∧ (∃ E, Given p E) ∧
    (∃ c, ∀ fuel, c ≤ fuel → cm fuel 4 p = some (.ok x)) ∧ ∀ E, Given p E → x ≠ cmAt E p.h 4 := by
  obtain ⟨p, x, hp, hj, -, h, hx⟩ := C38_cm_wrong
  refine ⟨p, x, hp, hj, given_exists p hp.len hj, h, fun E hE => ?_⟩
  obtain ⟨E', hE', hr⟩ := given_repr p hp hj hE
  rw [(cmAt_eq hr 4).1]
  exact hx E' hE'

/-- C38. With `int_e_IEZ_poly` repaired the moments and the central moments of all orders are those of the model. -/
theorem C38_sde_repaired (l : ℕ) :
    (∃ ms, cmomentsWith intEIEZFixed l = .ok ms ∧ ms.length = max l 1 + 1 ∧
      ∀ (n : ℕ) r, ms[n]? = some r → ∀ p : Par, p.OK → p.Simple → ∀ E, Given p E → ev (vC p) r = cmAt E p.h n) ∧
    (∃ ms, momentsWith intEIEZFixed l = .ok ms ∧ ms.length = l + 1 ∧
      ∀ (n : ℕ) r, ms[n]? = some r → ∀ p : Par, p.OK → p.Simple → ∀ E, Given p E →
        ev (vM p) r = E p.h (X 1 ^ n)) := by
  obtain ⟨cs, e1, l1, h1⟩ := C38_cmoments_repaired l
  obtain ⟨ms, e2, l2, h2⟩ := C38_moments_repaired l
  refine ⟨⟨cs, e1, l1, fun n r hn p hp hj E hE => ?_⟩, ⟨ms, e2, l2, fun n r hn p hp hj E hE => ?_⟩⟩
  · obtain ⟨E', hE', hr⟩ := given_repr p hp hj hE
    rw [(h1 n r hn).2.2.2.2 p E' hp hE', (cmAt_eq hr n).1]
  · obtain ⟨E', hE', hr⟩ := given_repr p hp hj hE
    rw [(h2 n r hn).2.2.2.2 p E' hp hE', (cmAt_eq hr n).2]

/-- the law exists whenever the jumps come one at a time -/
theorem C38_law (p : Par) (hp : p.OK) (hj : p.Simple) : ∃ E, Given p E ∧
    ∀ E', Given p E' → ∀ t, 0 ≤ t → E' t = E t := by
  obtain ⟨E, hE⟩ := given_exists p hp.len hj
  exact ⟨E, hE, fun E' hE' t ht => Gen.dynkinAt_unique (Sv.hcoef p.μ p.k p.θ p.σ p.ρ) (hj.times hp.len)
    (fun _ => CondJ.mom_dirac _) (Sv.hmom _ _ _ _ _) hE' hE t ht⟩

/-- parameters with two jumps, and a law -/
example : ∃ (p : Par) (E : _), p.OK ∧ p.Simple ∧ Given p E ∧ p.jumpsize.length = 2 := by
  have hj : (⟨1, 0, 2, 1, 1, 1 / 2, 3, [1, 5], [1, 2]⟩ : Par).Simple :=
    ⟨by simp, by intro s hs; simp at hs; rcases hs with rfl | rfl <;> norm_num⟩
  obtain ⟨E, hE⟩ := given_exists ⟨1, 0, 2, 1, 1, 1 / 2, 3, [1, 5], [1, 2]⟩ rfl hj
  refine ⟨_, E, ⟨by norm_num, by norm_num, by norm_num, rfl, ?_⟩, hj, hE, rfl⟩
  intro s hs; simp at hs; rcases hs with rfl | rfl <;> norm_num

end Svvj

namespace Svij

theorem cmAt_eq {E : ℝ → MvPolynomial (Fin 2) ℝ →ₗ[ℝ] ℝ} {p : Par} {E' : Fsv1.Rv →ₗ[ℝ] ℝ}
    (h : ∀ f, E p.h f = expect p E' fun z => aeval ![Svvj.vEnd p.toPar, ret p z] f) (n : ℕ) :
    cmAt E p.h n = (expect p E' fun z => (ret p z - C (expect p E' (ret p))) ^ n) ∧
      E p.h (X 1 ^ n) = expect p E' fun z => ret p z ^ n := by
  refine ⟨?_, by rw [h]; simp⟩
  rw [cmAt, h, h]
  simp [algebraMap_eq]

/-- C48, part, from the equations of the model: `cm(l, par)`. Missing: orders from 4 on with jumps of the variance
(`C48_cm_sde_wrong`). -/
theorem C48_cm_sde_partial (l : ℕ) (hl : 1 ≤ l) (p : Par) (hp : p.toPar.OK) (hj : p.toPar.Simple)
    (hlam : 0 ≤ p.lam) :
    ∃ x : ℝ, (∃ c, ∀ fuel, c ≤ fuel → cm fuel l p = some (.ok x)) ∧
      ∀ E, Given p E → p.jumpsize = [] ∨ l ≤ 3 → x = cmAt E p.h l := by
  obtain ⟨x, h, hx⟩ := C48_cm_partial l hl p hp hlam
  refine ⟨x, h, fun E hE hR => ?_⟩
  obtain ⟨E', hE', hr⟩ := given_repr p hp hlam hj hE
  rw [hx E' hE' hR, (cmAt_eq hr l).1]

/-- C48, part, from the equations of the model: `m(l, par)`. -/
theorem C48_m_sde_partial (l : ℕ) (p : Par) (hp : p.toPar.OK) (hj : p.toPar.Simple) (hlam : 0 ≤ p.lam) :
    ∃ x : ℝ, (∃ c, ∀ fuel, c ≤ fuel → m fuel l p = some (.ok x)) ∧
      ∀ E, Given p E → p.jumpsize = [] ∨ l ≤ 3 → x = E p.h (X 1 ^ l) := by
  obtain ⟨x, h, hx⟩ := C48_m_partial l p hp hlam
  refine ⟨x, h, fun E hE hR => ?_⟩
  obtain ⟨E', hE', hr⟩ := given_repr p hp hlam hj hE
  rw [hx E' hE' hR, (cmAt_eq hr l).2]

/-- the law exists -/
theorem given_exists (p : Par) (hp : p.toPar.OK) (hj : p.toPar.Simple) : ∃ E, Given p E := by
  have h := Gen.dynkinAt_exists (Gen.jmp_coef 1 _ _ _ (Sv.hcoef p.μ p.k p.θ p.σ p.ρ)) (hj.times hp.len)
    (fun _ => CondJ.mom_dirac _) (Gen.jmp_mom (Sv.heston p.μ p.k p.θ p.σ p.ρ) 1 p.lam p.μs (p.σs ^ 2).toNNReal)
    (aeval ![p.v0, 0]).toLinearMap (κ := fun i => MeasureTheory.Measure.dirac ![p.jumpsize.getD i 0, 0])
  rw [← Sv.svj_eq] at h
  exact h

/-- C48. The value of order 4 is not the moment of the model. -/
theorem C48_cm_sde_wrong : ∃ (p : Par) (x : ℝ), p.toPar.OK ∧ p.toPar.Simple ∧ 0 < p.lam ∧ 0 < p.σs ∧
    (∃ E, Given p E) ∧ (∃ c, ∀ fuel, c ≤ fuel → cm fuel 4 p = some (.ok x)) ∧
    ∀ E, Given p E → x ≠ cmAt E p.h 4 := by
  obtain ⟨p, x, hp, hj, hl, hs, -, h, hx⟩ := C48_cm_wrong
  refine ⟨p, x, hp, hj, hl, hs, given_exists p hp hj, h, fun E hE => ?_⟩
  obtain ⟨E', hE', hr⟩ := given_repr p hp hl.le hj hE
  rw [(cmAt_eq hr 4).1]
  exact hx E' hE'

/-- C48. With `int_e_IEZ_poly` repaired all orders are those of the model. -/
theorem C48_sde_repaired (l : ℕ) :
    (∃ ms, cmomentsWith intEIEZFixed l = .ok ms ∧ ms.length = max l 1 + 1 ∧
      ∀ (n : ℕ) r, ms[n]? = some r → ∀ p : Par, p.toPar.OK → p.toPar.Simple → 0 ≤ p.lam → ∀ E, Given p E →
        ev (vC p) r = cmAt E p.h n) ∧
    (∃ ms, momentsWith intEIEZFixed l = .ok ms ∧ ms.length = l + 1 ∧
      ∀ (n : ℕ) r, ms[n]? = some r → ∀ p : Par, p.toPar.OK → p.toPar.Simple → 0 ≤ p.lam → ∀ E, Given p E →
        ev (vM p) r = E p.h (X 1 ^ n)) := by
  obtain ⟨⟨cs, e1, l1, h1⟩, ⟨ms, e2, l2, h2⟩⟩ := C48_repaired l
  refine ⟨⟨cs, e1, l1, fun n r hn p hp hj hl E hE => ?_⟩, ⟨ms, e2, l2, fun n r hn p hp hj hl E hE => ?_⟩⟩
  · obtain ⟨E', hE', hr⟩ := given_repr p hp hl hj hE
    rw [h1 n r hn p hp hl E' hE', (cmAt_eq hr n).1]
  · obtain ⟨E', hE', hr⟩ := given_repr p hp hl hj hE
    rw [h2 n r hn p hp hl E' hE', (cmAt_eq hr n).2]

example : ∃ (p : Par) (E : _), p.toPar.OK ∧ p.toPar.Simple ∧ 0 < p.lam ∧ Given p E ∧ p.jumpsize ≠ [] := by
  obtain ⟨E, hE⟩ := given_exists ⟨Svvj.par1, 1, 0, 1⟩ Svvj.par1_ok Svvj.par1_simple
  exact ⟨_, E, Svvj.par1_ok, Svvj.par1_simple, one_pos, hE, by simp [Svvj.par1]⟩

end Svij

namespace Svcj

theorem cmAt_eq {E : ℝ → MvPolynomial (Fin 2) ℝ →ₗ[ℝ] ℝ} {p : Par} {E' : Fsv1.Rv →ₗ[ℝ] ℝ}
    (h : ∀ f, E p.h f = expect p E' fun z => aeval ![Svvj.vEnd p.toPar, ret p z] f) (n : ℕ) :
    cmAt E p.h n = (expect p E' fun z => (ret p z - C (expect p E' (ret p))) ^ n) ∧
      E p.h (X 1 ^ n) = expect p E' fun z => ret p z ^ n := by
  refine ⟨?_, by rw [h]; simp⟩
  rw [cmAt, h, h]
  simp [algebraMap_eq]

/-- C49, part, from the equations of the model: `cm(l, par)`. Missing: orders from 4 on with jumps
(`C49_cm_sde_wrong`). -/
theorem C49_cm_sde_partial (l : ℕ) (hl : 1 ≤ l) (p : Par) (hp : p.toPar.OK) (hj : p.toPar.Simple) :
    ∃ x : ℝ, (∃ c, ∀ fuel, c ≤ fuel → (cm fuel l p).run = some (.ok x)) ∧
      ∀ E, Given p E → p.jumpsize = [] ∨ l ≤ 3 → x = cmAt E p.h l := by
  obtain ⟨x, h, hx⟩ := C49_cm_partial l hl p hp
  refine ⟨x, h, fun E hE hR => ?_⟩
  obtain ⟨E', hE', hr⟩ := given_repr p hp hj hE
  rw [hx E' hE' hR, (cmAt_eq hr l).1]

/-- C49, part, from the equations of the model: `m(l, par)`. -/
theorem C49_m_sde_partial (l : ℕ) (hl : 1 ≤ l) (p : Par) (hp : p.toPar.OK) (hj : p.toPar.Simple) :
    ∃ x : ℝ, (∃ c, ∀ fuel, c ≤ fuel → (m fuel l p).run = some (.ok x)) ∧
      ∀ E, Given p E → p.jumpsize = [] ∨ l ≤ 3 → x = E p.h (X 1 ^ l) := by
  obtain ⟨x, h, hx⟩ := C49_m_partial l hl p hp
  refine ⟨x, h, fun E hE hR => ?_⟩
  obtain ⟨E', hE', hr⟩ := given_repr p hp hj hE
  rw [hx E' hE' hR, (cmAt_eq hr l).2]

/-- the law exists -/
theorem given_exists (p : Par) (hp : p.toPar.OK) (hj : p.toPar.Simple) : ∃ E, Given p E :=
  Gen.dynkinAt_exists (Sv.hcoef p.μ p.k p.θ p.σ p.ρ) (hj.times hp.len)
    (fun i => price_mom (p.jumpsize.getD i 0) (p.μs + p.ρJ * p.jumpsize.getD i 0) (p.σs ^ 2).toNNReal)
    (Sv.hmom _ _ _ _ _) _

/-- C49. The value of order 4 is not the moment of the model. -/
theorem C49_cm_sde_wrong : ∃ (p : Par) (x : ℝ), p.toPar.OK ∧ p.toPar.Simple ∧ 0 < p.σs ∧
    (∃ E, Given p E) ∧ (∃ c, ∀ fuel, c ≤ fuel → (cm fuel 4 p).run = some (.ok x)) ∧
    ∀ E, Given p E → x ≠ cmAt E p.h 4 := by
  obtain ⟨p, x, hp, hj, hs, -, h, hx⟩ := C49_cm_wrong
  refine ⟨p, x, hp, hj, hs, given_exists p hp hj, h, fun E hE => ?_⟩
  obtain ⟨E', hE', hr⟩ := given_repr p hp hj hE
  rw [(cmAt_eq hr 4).1]
  exact hx E' hE'

/-- C49. With `int_e_IEZ_poly` repaired all orders are those of the model. -/
theorem C49_sde_repaired (l N : ℕ) : (∃ c ms,
      (∀ fuel, c ≤ fuel → (cmomentsWith intEIEZFixed fuel l N).run = some (.ok ms)) ∧
      ms.length = max l 1 + 1 ∧ ∀ (n : ℕ) r, ms[n]? = some r → ∀ p : Par, p.toPar.OK → p.toPar.Simple →
        p.jumpsize.length = N → ∀ E, Given p E → ev (vC p) r = cmAt E p.h n) ∧
    (∃ c m0 ms, (∀ fuel, c ≤ fuel → (momentsWith intEIEZFixed fuel l N).run = some (.ok (m0 :: ms))) ∧
      ms.length = l ∧ ∀ (n : ℕ) r, ms[n]? = some r → ∀ p : Par, p.toPar.OK → p.toPar.Simple →
        p.jumpsize.length = N → ∀ E, Given p E → ev (vM p) r = E p.h (X 1 ^ (n + 1))) := by
  obtain ⟨⟨c, cs, e1, l1, h1⟩, ⟨c', m0, ms, e2, l2, h2⟩⟩ := C49_repaired l N
  refine ⟨⟨c, cs, e1, l1, fun n r hn p hp hj hN E hE => ?_⟩, ⟨c', m0, ms, e2, l2, fun n r hn p hp hj hN E hE => ?_⟩⟩
  · obtain ⟨E', hE', hr⟩ := given_repr p hp hj hE
    rw [h1 n r hn p hp hN E' hE', (cmAt_eq hr n).1]
  · obtain ⟨E', hE', hr⟩ := given_repr p hp hj hE
    rw [h2 n r hn p hp hN E' hE', (cmAt_eq hr (n + 1)).2]

example : ∃ (p : Par) (E : _), p.toPar.OK ∧ p.toPar.Simple ∧ Given p E ∧ p.jumpsize ≠ [] ∧ p.ρJ ≠ 0 := by
  obtain ⟨E, hE⟩ := given_exists parJ Svvj.par1_ok Svvj.par1_simple
  exact ⟨_, E, Svvj.par1_ok, Svvj.par1_simple, hE, by simp [parJ, Svvj.par1], one_ne_zero⟩

end Svcj
end Ajd
