import Verif.Lemmas.Euler

/-! C45: the Euler generators. Every theorem says that for all draws the generator does not raise (so
`math.sqrt` is never called with a negative number) and returns the samples of the truncated Euler
scheme of `Verif.Spec.Euler`, whose variance is never negative. -/

namespace Ajd.Euler

open Spec

/-- the variance of the scheme is never negative -/
theorem C45_variance_nonneg (k θ σ δ v : ℝ) (n : ℕ) (ξ : ℕ → ℕ → ℝ) (hv : 0 ≤ v) (i j : ℕ) :
    0 ≤ path k θ σ δ (start k θ σ δ v n ξ i) (ξ i) j :=
  path_nonneg _ _ _ _ _ _ (start_nonneg _ _ _ _ _ _ _ hv i) j

/-- `r1FSV` -/
theorem C45_1fsv (v0 : ℝ) (p : Fsv1.Par) (N n : ℕ) (e e2 : ℕ → ℕ → ℝ) (hv : 0 ≤ v0) (hh : 0 ≤ p.h)
    (hn : 0 < n) (hρ : p.ρ ^ 2 ≤ 1) :
    r1FSV v0 p N n e e2 = .ok ((List.range N).map fun i => ret1 p.μ p.ρ p.h n (p.h / n)
      (path p.k p.θ p.σ (p.h / n) (start p.k p.θ p.σ (p.h / n) v0 n e i) (e i)) (e i) (e2 i)) := by
  have hn0 : (n : ℝ) ≠ 0 := by positivity
  rw [r1FSV, pyDiv_ok hn0, ok_bind, pySqrt_ok (by positivity), ok_bind]
  have := traj (fun v i => (do
      let x ← sample1 p n (p.h / n) √(p.h / n) (e i) (e2 i) v
      pure (x.2, x.1) : Except PyErr (ℝ × ℝ))) (start p.k p.θ p.σ (p.h / n) v0 n e)
    (fun i => ret1 p.μ p.ρ p.h n (p.h / n)
      (path p.k p.θ p.σ (p.h / n) (start p.k p.θ p.σ (p.h / n) v0 n e i) (e i)) (e i) (e2 i)) N
    (fun i _ => by
      rw [sample1_spec p n _ _ _ _ (start_nonneg _ _ _ _ _ _ _ hv i) hρ, ok_bind]
      rfl)
  simp only [bind_assoc, pure_bind, start] at this
  rw [this]
  rfl

/-- the hypotheses hold for the parameters of the documentation -/
example : ∃ p : Fsv1.Par, 0 ≤ p.h ∧ p.ρ ^ 2 ≤ 1 ∧ p.ρ ≠ 0 ∧ p.σ ≠ 0 ∧ (0 : ℝ) ≤ 0.125 ∧ 0 < 10 :=
  ⟨⟨0.1, 0.25, 0.1, -0.7, 0.125, 1⟩, by norm_num⟩

/-- `r1FSV_iid`: every sample starts from `v0` -/
theorem C45_1fsv_iid (v0 : ℝ) (p : Fsv1.Par) (N n : ℕ) (e e2 : ℕ → ℕ → ℝ) (hv : 0 ≤ v0)
    (hh : 0 ≤ p.h) (hn : 0 < n) (hρ : p.ρ ^ 2 ≤ 1) :
    r1FSVIid v0 p N n e e2 = .ok ((List.range N).map fun i => ret1 p.μ p.ρ p.h n (p.h / n)
      (path p.k p.θ p.σ (p.h / n) v0 (e i)) (e i) (e2 i)) := by
  have hn0 : (n : ℝ) ≠ 0 := by positivity
  rw [r1FSVIid, pyDiv_ok hn0, ok_bind, pySqrt_ok (by positivity), ok_bind]
  have := traj (fun (_ : ℝ) i => (do
      let x ← sample1 p n (p.h / n) √(p.h / n) (e i) (e2 i) v0
      pure (x.2, x.1) : Except PyErr (ℝ × ℝ)))
    (fun i => if i = 0 then v0 else path p.k p.θ p.σ (p.h / n) v0 (e (i - 1)) n)
    (fun i => ret1 p.μ p.ρ p.h n (p.h / n) (path p.k p.θ p.σ (p.h / n) v0 (e i)) (e i) (e2 i)) N
    (fun i _ => by
      rw [sample1_spec p n _ _ _ _ hv hρ, ok_bind]
      rfl)
  simp only [bind_assoc, pure_bind, if_true] at this
  rw [this]
  rfl

/-- `r1FSVJ` -/
theorem C45_1fsvj (v0 : ℝ) (p : Fsv1j.Par) (N n : ℕ) (e e2 : ℕ → ℕ → ℝ) (m : ℕ → ℝ → ℕ)
    (g : ℕ → ℕ → ℝ) (hv : 0 ≤ v0) (hh : 0 ≤ p.h) (hn : 0 < n) (hρ : p.ρ ^ 2 ≤ 1) :
    r1FSVJ v0 p N n e e2 m g = .ok ((List.range N).map fun i => ret1 p.μ p.ρ p.h n (p.h / n)
      (path p.k p.θ p.σ (p.h / n) (start p.k p.θ p.σ (p.h / n) v0 n e i) (e i)) (e i) (e2 i) +
        jumps (m i (p.lam * p.h)) p.μj p.σj (g i)) := by
  have hn0 : (n : ℝ) ≠ 0 := by positivity
  rw [r1FSVJ, pyDiv_ok hn0, ok_bind, pySqrt_ok (by positivity), ok_bind]
  have := traj (fun v i => (do
      let x ← sample1 p.toPar n (p.h / n) √(p.h / n) (e i) (e2 i) v
      pure (x.2, x.1 + jumpPart (m i (p.lam * p.h)) p.μj p.σj (g i)) : Except PyErr (ℝ × ℝ)))
    (start p.k p.θ p.σ (p.h / n) v0 n e)
    (fun i => ret1 p.μ p.ρ p.h n (p.h / n)
      (path p.k p.θ p.σ (p.h / n) (start p.k p.θ p.σ (p.h / n) v0 n e i) (e i)) (e i) (e2 i) +
        jumps (m i (p.lam * p.h)) p.μj p.σj (g i)) N
    (fun i _ => by
      rw [sample1_spec p.toPar n _ _ _ _ (start_nonneg _ _ _ _ _ _ _ hv i) hρ, ok_bind, jumpPart_eq]
      rfl)
  simp only [bind_assoc, pure_bind, start] at this
  rw [this]
  rfl

/-- `r2FSV` -/
theorem C45_2fsv (v0 : ℝ × ℝ) (p : Par2) (N n : ℕ) (e e1 e2 : ℕ → ℕ → ℝ) (h1 : 0 ≤ v0.1)
    (h2 : 0 ≤ v0.2) (hh : 0 ≤ p.h) (hn : 0 < n) :
    r2FSV v0 p N n e e1 e2 = .ok ((List.range N).map fun i => ret2 p.μ p.h n (p.h / n)
      (path p.k1 p.θ1 p.σ1 (p.h / n) (start p.k1 p.θ1 p.σ1 (p.h / n) v0.1 n e1 i) (e1 i))
      (path p.k2 p.θ2 p.σ2 (p.h / n) (start p.k2 p.θ2 p.σ2 (p.h / n) v0.2 n e2 i) (e2 i)) (e i)) := by
  have hn0 : (n : ℝ) ≠ 0 := by positivity
  rw [r2FSV, pyDiv_ok hn0, ok_bind, pySqrt_ok (by positivity), ok_bind]
  have := traj (fun v i => (do
      let x ← sample2 p n (p.h / n) √(p.h / n) (e i) (e1 i) (e2 i) v
      pure (x.2, x.1) : Except PyErr ((ℝ × ℝ) × ℝ)))
    (fun i => (start p.k1 p.θ1 p.σ1 (p.h / n) v0.1 n e1 i, start p.k2 p.θ2 p.σ2 (p.h / n) v0.2 n e2 i))
    (fun i => ret2 p.μ p.h n (p.h / n)
      (path p.k1 p.θ1 p.σ1 (p.h / n) (start p.k1 p.θ1 p.σ1 (p.h / n) v0.1 n e1 i) (e1 i))
      (path p.k2 p.θ2 p.σ2 (p.h / n) (start p.k2 p.θ2 p.σ2 (p.h / n) v0.2 n e2 i) (e2 i)) (e i)) N
    (fun i _ => by
      rw [sample2_spec p n _ _ _ _ _ (start_nonneg _ _ _ _ _ _ _ h1 i)
        (start_nonneg _ _ _ _ _ _ _ h2 i), ok_bind]
      rfl)
  simp only [bind_assoc, pure_bind, start] at this
  rw [this]
  rfl

/-- `r2FSVJ` -/
theorem C45_2fsvj (v0 : ℝ × ℝ) (p : Par2) (lam μj σj : ℝ) (N n : ℕ) (e e1 e2 : ℕ → ℕ → ℝ)
    (m : ℕ → ℝ → ℕ) (g : ℕ → ℕ → ℝ) (h1 : 0 ≤ v0.1)
    (h2 : 0 ≤ v0.2) (hh : 0 ≤ p.h) (hn : 0 < n) :
    r2FSVJ v0 p lam μj σj N n e e1 e2 m g = .ok ((List.range N).map fun i =>
      ret2 p.μ p.h n (p.h / n)
      (path p.k1 p.θ1 p.σ1 (p.h / n) (start p.k1 p.θ1 p.σ1 (p.h / n) v0.1 n e1 i) (e1 i))
      (path p.k2 p.θ2 p.σ2 (p.h / n) (start p.k2 p.θ2 p.σ2 (p.h / n) v0.2 n e2 i) (e2 i)) (e i) +
      jumps (m i (lam * p.h)) μj σj (g i)) := by
  have hn0 : (n : ℝ) ≠ 0 := by positivity
  rw [r2FSVJ, pyDiv_ok hn0, ok_bind, pySqrt_ok (by positivity), ok_bind]
  have := traj (fun v i => (do
      let x ← sample2 p n (p.h / n) √(p.h / n) (e i) (e1 i) (e2 i) v
      pure (x.2, x.1 + jumpPart (m i (lam * p.h)) μj σj (g i)) : Except PyErr ((ℝ × ℝ) × ℝ)))
    (fun i => (start p.k1 p.θ1 p.σ1 (p.h / n) v0.1 n e1 i, start p.k2 p.θ2 p.σ2 (p.h / n) v0.2 n e2 i))
    (fun i => ret2 p.μ p.h n (p.h / n)
      (path p.k1 p.θ1 p.σ1 (p.h / n) (start p.k1 p.θ1 p.σ1 (p.h / n) v0.1 n e1 i) (e1 i))
      (path p.k2 p.θ2 p.σ2 (p.h / n) (start p.k2 p.θ2 p.σ2 (p.h / n) v0.2 n e2 i) (e2 i)) (e i) +
      jumps (m i (lam * p.h)) μj σj (g i)) N
    (fun i _ => by
      rw [sample2_spec p n _ _ _ _ _ (start_nonneg _ _ _ _ _ _ _ h1 i)
        (start_nonneg _ _ _ _ _ _ _ h2 i), ok_bind, jumpPart_eq]
      rfl)
  simp only [bind_assoc, pure_bind, start] at this
  rw [this]
  rfl

/-- the hypotheses on the jumps of the SVVJ generators are met by two simultaneous jumps, a jump at
time zero and a jump after `T` -/
example : (∀ J ∈ [(1 : ℝ), 2, 3, 4], 0 ≤ J) ∧ [(0 : ℝ), 1, 1, 7].Pairwise (· ≤ ·) ∧
    ∀ t ∈ [(0 : ℝ), 1, 1, 7], 0 ≤ t := by
  norm_num

/-- `rSVVJ`: every sample is the return for the Euler sums over steps which cover `[0, T]`, are at most
`T / n_segment` long, and apply the given jumps with time at most `T`, each once and in order. -/
theorem C45_svvj (v0 μ k θ σ ρ T : ℝ) (js ts : List ℝ) (N n : ℕ) (z : ℕ → ℕ → ℝ × ℝ) (hv : 0 ≤ v0)
    (hk : k ≠ 0) (hT : 0 ≤ T) (hn : 0 < n) (hρ : ρ ^ 2 ≤ 1) (hl : js.length = ts.length)
    (hJ : ∀ J ∈ js, 0 ≤ J) (hs : ts.Pairwise (· ≤ ·)) (h0 : ∀ t ∈ ts, 0 ≤ t) :
    ∃ ys, rSVVJ v0 μ k θ σ ρ T js ts N n z = .ok ys ∧ List.Forall₂ (fun i y =>
      ∃ es : List Ev, Chain 0 es T ∧ (∀ e ∈ es, e.dur ≤ T / n) ∧ jumpsOf es = jumpsTo T js ts ∧
        y = retV v0 μ k θ σ ρ T js ts
          (integ k θ σ (fun e => Real.exp (k * e.start)) (fun c => (z i c).1) (fun c => (z i c).1)
            es 0 v0)
          (integ k θ σ (fun _ => 1) (fun c => (z i c).1) (fun c => (z i c).1) es 0 v0)
          (integ k θ σ (fun _ => 1) (fun c => (z i c).1) (fun c => (z i c).2) es 0 v0))
      (List.range N) ys := by
  have hk2 : 2 * k ≠ 0 := by simpa using hk
  rw [rSVVJ, pyDiv_ok hk2, ok_bind, IEZ, izLoop_spec T _ js ts hl hs, ok_bind, pyDiv_ok hk2, ok_bind,
    IZ, izLoop_spec T _ js ts hl hs, ok_bind, pyDiv_ok hk2, ok_bind]
  apply Utils.mapM_ok_rel
  intro i _
  obtain ⟨es, a, b, c, d⟩ := rIEII_spec v0 k θ σ T js ts n (z i) hv hT hn hl hJ hs h0
  refine ⟨_, ?_, es, a, b, c, rfl⟩
  rw [d, ok_bind, pyDiv_ok hk2, ok_bind, pyDiv_ok hk2, ok_bind, pySqrt_ok (by linarith), ok_bind]
  refine congrArg Except.ok ?_
  simp only [retV]
  ring

/-- in the steps of `C45_svvj` the variance is never negative -/
theorem C45_svvj_nonneg (k θ σ : ℝ) (e : Ev) (v ξ : ℝ) (h : ∀ J, e.jump = some J → 0 ≤ J) :
    0 ≤ next k θ σ e v ξ := by
  apply next_nonneg
  cases hj : e.jump with
  | none => simp
  | some J => simpa using h J hj

/-- `rSVIJ`: the samples of `rSVVJ` plus independent sums of normal jumps -/
theorem C45_svij (v0 μ k θ σ ρ T : ℝ) (js ts : List ℝ) (lam μs σs : ℝ) (N n : ℕ)
    (z : ℕ → ℕ → ℝ × ℝ) (m : ℕ → ℝ → ℕ) (g : ℕ → ℕ → ℝ) (hv : 0 ≤ v0)
    (hk : k ≠ 0) (hT : 0 ≤ T) (hn : 0 < n) (hρ : ρ ^ 2 ≤ 1) (hl : js.length = ts.length)
    (hJ : ∀ J ∈ js, 0 ≤ J) (hs : ts.Pairwise (· ≤ ·)) (h0 : ∀ t ∈ ts, 0 ≤ t) :
    ∃ xs ys, rSVVJ v0 μ k θ σ ρ T js ts N n z = .ok xs ∧
      rSVIJ v0 μ k θ σ ρ T js ts lam μs σs N n z m g = .ok ys ∧ xs.length = N ∧
      ys = List.zipWith (· + ·) xs ((List.range N).map fun i => jumps (m i (lam * T)) μs σs (g i)) := by
  obtain ⟨xs, e, f⟩ := C45_svvj v0 μ k θ σ ρ T js ts N n z hv hk hT hn hρ hl hJ hs h0
  refine ⟨xs, _, e, by rw [rSVIJ, e, ok_bind]; rfl, by simpa using f.length_eq.symm, ?_⟩
  congr 1
  apply List.map_congr_left
  intro i _
  rw [← jumpPart_eq, jumpPart]
  generalize m i (lam * T) = M
  have : ∀ M : ℕ, ((List.range M).map fun l => normal μs σs (g i l)).sum = jumps M μs σs (g i) := by
    intro M
    induction M with
    | zero => simp [jumps]
    | succ M ih =>
      rw [List.range_succ, List.map_append, List.sum_append, ih]
      simp only [List.map_cons, List.map_nil, List.sum_cons, List.sum_nil, jumps, normal,
        Finset.sum_range_succ, Nat.cast_succ]
      ring
  rw [this, ← jumpPart_eq, jumpPart]

/-- `rSVCJ`: the samples of `rSVVJ` plus, for every jump `J` in the variance, a normal jump with mean
`μs + ρJ J` -/
theorem C45_svcj (v0 μ k θ σ ρ T : ℝ) (js ts : List ℝ) (μs σs ρJ : ℝ) (N n : ℕ)
    (z : ℕ → ℕ → ℝ × ℝ) (g : ℕ → ℕ → ℝ) (hv : 0 ≤ v0)
    (hk : k ≠ 0) (hT : 0 ≤ T) (hn : 0 < n) (hρ : ρ ^ 2 ≤ 1) (hl : js.length = ts.length)
    (hJ : ∀ J ∈ js, 0 ≤ J) (hs : ts.Pairwise (· ≤ ·)) (h0 : ∀ t ∈ ts, 0 ≤ t) :
    ∃ xs ys, rSVVJ v0 μ k θ σ ρ T js ts N n z = .ok xs ∧
      rSVCJ v0 μ k θ σ ρ T js ts μs σs ρJ N n z g = .ok ys ∧ xs.length = N ∧
      ys = List.zipWith (· + ·) xs ((List.range N).map fun i =>
        js.length * μs + ρJ * js.sum + σs * ∑ j ∈ Finset.range js.length, g i j) := by
  obtain ⟨xs, e, f⟩ := C45_svvj v0 μ k θ σ ρ T js ts N n z hv hk hT hn hρ hl hJ hs h0
  have hI : ∀ i, (List.range js.length).foldlM (fun acc j => (do
      let J ← Utils.pyGet js j
      pure (acc + normal (μs + ρJ * J) σs (g i j)) : Except PyErr ℝ)) (0 : ℝ) =
      .ok (js.length * μs + ρJ * js.sum + σs * ∑ j ∈ Finset.range js.length, g i j) := by
    intro i
    have := foldlM_range (fun acc j => (do
      let J ← Utils.pyGet js j
      pure (acc + normal (μs + ρJ * J) σs (g i j)) : Except PyErr ℝ))
      (fun n => n * μs + ρJ * (js.take n).sum + σs * ∑ j ∈ Finset.range n, g i j) js.length
      (fun j hj => by
        simp only [pyGet_ok js j hj, ok_bind, List.take_add_one, List.getElem?_eq_getElem hj,
          Option.toList_some, List.sum_append, List.sum_cons, List.sum_nil,
          Finset.sum_range_succ, normal, Nat.cast_succ]
        refine congrArg Except.ok ?_
        ring)
    simpa using this
  refine ⟨xs, _, e, ?_, by simpa using f.length_eq.symm, rfl⟩
  rw [rSVCJ, e, ok_bind, mapM_ok _ _ _ fun i _ => hI i, ok_bind]
  rfl

/-- `rSRJD`: exact steps of the square-root diffusion between the jumps; it never raises when the jump
times are positive and strictly increasing. -/
theorem C45_srjd_partial (v0 k θ σ T : ℝ) (js ts : List ℝ) (N : ℕ) (x : ℕ → ℕ → ℝ → ℝ → ℝ)
    (hk : 0 < k) (hθ : 0 < θ) (hσ : 0 < σ) (hv : 0 ≤ v0) (hT : 0 < T) (hl : js.length = ts.length)
    (ht : (0 :: ts).Pairwise (· < ·)) (hJ : ∀ J ∈ js, 0 ≤ J) (hx : ∀ i j d l, 0 ≤ x i j d l) :
    rSRJD v0 k θ σ T js ts N x =
      .ok ((List.range N).map fun i => srjd k θ σ T (x i) (ts.zip js) 0 0 v0) :=
  rSRJD_spec v0 k θ σ T js ts N x hk hθ hσ hv hT hl ht hJ hx

example : (0 :: [(1 : ℝ) / 2, 3]).Pairwise (· < ·) := by norm_num

/-- Missing in `C45_srjd_partial`: two jumps at the same time (or a jump at time zero) make `rSRJD`
raise `ZeroDivisionError`, though the square-root diffusion with jumps is well defined there. -/
theorem C45_srjd_simultaneous (v0 k θ σ T J J' t : ℝ) (N : ℕ) (x : ℕ → ℕ → ℝ → ℝ → ℝ)
    (hk : 0 < k) (hθ : 0 < θ) (hσ : 0 < σ) (hv : 0 ≤ v0) (ht : 0 < t) :
    rSRJD v0 k θ σ T [J, J'] [t, t] (N + 1) x = .error .zeroDivision := by
  have hd : diffs 2 [t, t] = .ok [0] := by
    rw [diffs_spec 2 [t, t] (by simp)]
    simp [prev]
  rw [rSRJD, if_neg (by simp), pyGet_ok _ _ (by simp), ok_bind]
  change (do let dt ← diffs 2 [t, t]; _) = _
  rw [hd, ok_bind, List.range_succ_eq_map, List.mapM_cons]
  have : srjdSample v0 k θ σ T [J, J'] [t, t] ([t, t][0] :: [0]) (x 0) = .error .zeroDivision := by
    rw [srjdSample]
    simp only [List.length_cons, List.length_nil, List.range_succ, List.range_zero, List.nil_append,
      List.cons_append, List.foldlM_cons, List.foldlM_nil, pyGet_ok [t, 0] 0 (by simp),
      pyGet_ok [t, 0] 1 (by simp), pyGet_ok [J, J'] 0 (by simp), List.getElem_cons_zero,
      List.getElem_cons_succ, ok_bind, rSRD_spec k θ σ v0 t (x 0 0) hk hθ hσ hv ht, zero_add,
      rSRD_zero k θ σ _ _ hk.ne' hσ.ne', error_bind, pure_bind]
  rw [this, error_bind]

/-- A negative initial variance makes `r1FSV` raise `ValueError`: the hypothesis `0 ≤ v0` of the
theorems above is needed. -/
theorem C45_1fsv_negative (v0 : ℝ) (p : Fsv1.Par) (N n : ℕ) (e e2 : ℕ → ℕ → ℝ) (hv : v0 < 0)
    (hh : 0 ≤ p.h) : r1FSV v0 p (N + 1) (n + 1) e e2 = .error .valueError := by
  have hn0 : ((n + 1 : ℕ) : ℝ) ≠ 0 := by positivity
  rw [r1FSV, pyDiv_ok hn0, ok_bind, pySqrt_ok (by positivity), ok_bind, List.range_succ_eq_map,
    List.foldlM_cons, sample1, List.range_succ_eq_map, List.foldlM_cons, seg1]
  simp only [pySqrt, if_pos hv, error_bind]

end Ajd.Euler
