import Verif.Model.Fsv1j
import Mathlib.Analysis.SpecialFunctions.Exp
import Mathlib.Analysis.SpecialFunctions.Sqrt

/-! Model of the generators `euler.py` of all models. Floats are real numbers. The random generators
are inputs: `normal(m, s)` returns `m + s * z` for an arbitrary number `z` (the standard normal draw),
`poisson(r)` an arbitrary natural number depending on `r`, `noncentral_chisquare(d, l)` an arbitrary
number depending on `d` and `l`; the inputs are indexed by the loop variables. The argument checks of
numpy are modelled for `noncentral_chisquare` only. -/

namespace Ajd.Euler

/-- `math.sqrt(x)`: `ValueError` for a negative number. -/
noncomputable def pySqrt (x : ℝ) : Except PyErr ℝ :=
  if x < 0 then .error .valueError else .ok (Real.sqrt x)

/-- `x / y`: `ZeroDivisionError` for `y = 0`. -/
noncomputable def pyDiv (x y : ℝ) : Except PyErr ℝ :=
  if y = 0 then .error .zeroDivision else .ok (x / y)

/-- `np.random.normal(m, s)` with the standard normal draw `z`. -/
def normal (m s z : ℝ) : ℝ := m + s * z

/-! ### one-factor models -/

/-- the loop variables of `r1FSV` -/
structure St1 where
  v : ℝ
  I : ℝ
  I2 : ℝ
  IV : ℝ

/-- one segment, mdl_1fsv/euler.py lines 44-52, 87-95, mdl_1fsvj/euler.py lines 44-52; `e j`, `e2 j`
are the two draws. -/
noncomputable def seg1 (p : Fsv1.Par) (dlt std : ℝ) (e e2 : ℕ → ℝ) (s : St1) (j : ℕ) :
    Except PyErr St1 := do
  let r ← pySqrt s.v
  let eps := r * normal 0 std (e j)
  let r2 ← pySqrt s.v
  let eps2 := r2 * normal 0 std (e2 j)
  let v := s.v + p.k * (p.θ - s.v) * dlt + p.σ * eps
  let v := if v < 0 then 0 else v
  pure ⟨v, s.I + eps, s.I2 + eps2, s.IV + s.v * dlt⟩

/-- one sample from the current variance; returns the sample and the new variance.
mdl_1fsv/euler.py lines 40-53, 82-96. -/
noncomputable def sample1 (p : Fsv1.Par) (n : ℕ) (dlt std : ℝ) (e e2 : ℕ → ℝ) (v0 : ℝ) :
    Except PyErr (ℝ × ℝ) := do
  let s ← (List.range n).foldlM (seg1 p dlt std e e2) ⟨v0, 0, 0, 0⟩
  let r ← pySqrt (1 - p.ρ ^ 2)
  pure (p.μ * p.h - s.IV / 2 + p.ρ * s.I + r * s.I2, s.v)

/-- `r1FSV(v0, par, N, n_segment, h)`, mdl_1fsv/euler.py lines 17-55; `e i j`, `e2 i j` are the draws
of the `i`-th sample. The time `h` is `p.h`; `n_segment` is not negative. -/
noncomputable def r1FSV (v0 : ℝ) (p : Fsv1.Par) (N n : ℕ) (e e2 : ℕ → ℕ → ℝ) :
    Except PyErr (List ℝ) := do
  let dlt ← pyDiv p.h n
  let std ← pySqrt dlt
  let r ← (List.range N).foldlM (fun (st : ℝ × List ℝ) i => do
    let x ← sample1 p n dlt std (e i) (e2 i) st.1
    pure (x.2, st.2 ++ [x.1])) (v0, [])
  pure r.2

/-- `r1FSV_iid(v0, par, N, n_segment, tau)`, mdl_1fsv/euler.py lines 58-97; every sample starts from
`v0_original`. -/
noncomputable def r1FSVIid (v0 : ℝ) (p : Fsv1.Par) (N n : ℕ) (e e2 : ℕ → ℕ → ℝ) :
    Except PyErr (List ℝ) := do
  let dlt ← pyDiv p.h n
  let std ← pySqrt dlt
  let r ← (List.range N).foldlM (fun (st : ℝ × List ℝ) i => do
    let x ← sample1 p n dlt std (e i) (e2 i) v0
    pure (x.2, st.2 ++ [x.1])) (v0, [])
  pure r.2

/-- the jump part, mdl_1fsvj/euler.py lines 55-59, mdl_2fsvj/euler.py lines 66-70: `n` jumps, `g` are
the standard normal draws. -/
noncomputable def jumpPart (n : ℕ) (μj σj : ℝ) (g : ℕ → ℝ) : ℝ :=
  if n > 0 then (List.range n).foldl (fun acc l => acc + normal μj σj (g l)) 0 else 0

/-- `r1FSVJ(v0, par, N, n_segment, h)`, mdl_1fsvj/euler.py lines 14-64; `m i` gives the number of
jumps of the `i`-th sample. -/
noncomputable def r1FSVJ (v0 : ℝ) (p : Fsv1j.Par) (N n : ℕ) (e e2 : ℕ → ℕ → ℝ) (m : ℕ → ℝ → ℕ)
    (g : ℕ → ℕ → ℝ) : Except PyErr (List ℝ) := do
  let dlt ← pyDiv p.h n
  let std ← pySqrt dlt
  let r ← (List.range N).foldlM (fun (st : ℝ × List ℝ) i => do
    let x ← sample1 p.toPar n dlt std (e i) (e2 i) st.1
    pure (x.2, st.2 ++ [x.1 + jumpPart (m i (p.lam * p.h)) p.μj p.σj (g i)])) (v0, [])
  pure r.2

/-! ### two-factor models -/

/-- the entries of `par` used by `r2FSV` and the time `h` -/
structure Par2 where
  μ : ℝ
  k1 : ℝ
  θ1 : ℝ
  σ1 : ℝ
  k2 : ℝ
  θ2 : ℝ
  σ2 : ℝ
  h : ℝ

/-- the loop variables of `r2FSV` -/
structure St2 where
  v1 : ℝ
  v2 : ℝ
  I : ℝ
  IV1 : ℝ
  IV2 : ℝ

/-- one segment, mdl_2fsv/euler.py lines 45-60, mdl_2fsvj/euler.py lines 48-63. -/
noncomputable def seg2 (p : Par2) (dlt std : ℝ) (e e1 e2 : ℕ → ℝ) (s : St2) (j : ℕ) :
    Except PyErr St2 := do
  let r ← pySqrt (s.v1 + s.v2)
  let eps := r * normal 0 std (e j)
  let r1 ← pySqrt s.v1
  let eps1 := r1 * normal 0 std (e1 j)
  let r2 ← pySqrt s.v2
  let eps2 := r2 * normal 0 std (e2 j)
  let v1 := s.v1 + p.k1 * (p.θ1 - s.v1) * dlt + p.σ1 * eps1
  let v2 := s.v2 + p.k2 * (p.θ2 - s.v2) * dlt + p.σ2 * eps2
  let v1 := if v1 < 0 then 0 else v1
  let v2 := if v2 < 0 then 0 else v2
  pure ⟨v1, v2, s.I + eps, s.IV1 + s.v1 * dlt, s.IV2 + s.v2 * dlt⟩

/-- one sample, mdl_2fsv/euler.py lines 41-61. -/
noncomputable def sample2 (p : Par2) (n : ℕ) (dlt std : ℝ) (e e1 e2 : ℕ → ℝ) (v : ℝ × ℝ) :
    Except PyErr (ℝ × ℝ × ℝ) := do
  let s ← (List.range n).foldlM (seg2 p dlt std e e1 e2) ⟨v.1, v.2, 0, 0, 0⟩
  pure (p.μ * p.h - (s.IV1 + s.IV2) / 2 + s.I, s.v1, s.v2)

/-- `r2FSV(v0, par, N, n_segment, h)`, mdl_2fsv/euler.py lines 13-63. -/
noncomputable def r2FSV (v0 : ℝ × ℝ) (p : Par2) (N n : ℕ) (e e1 e2 : ℕ → ℕ → ℝ) :
    Except PyErr (List ℝ) := do
  let dlt ← pyDiv p.h n
  let std ← pySqrt dlt
  let r ← (List.range N).foldlM (fun (st : (ℝ × ℝ) × List ℝ) i => do
    let x ← sample2 p n dlt std (e i) (e1 i) (e2 i) st.1
    pure (x.2, st.2 ++ [x.1])) (v0, [])
  pure r.2

/-- `r2FSVJ(v0, par, N, n_segment, h)`, mdl_2fsvj/euler.py lines 13-74. -/
noncomputable def r2FSVJ (v0 : ℝ × ℝ) (p : Par2) (lam μj σj : ℝ) (N n : ℕ)
    (e e1 e2 : ℕ → ℕ → ℝ) (m : ℕ → ℝ → ℕ) (g : ℕ → ℕ → ℝ) : Except PyErr (List ℝ) := do
  let dlt ← pyDiv p.h n
  let std ← pySqrt dlt
  let r ← (List.range N).foldlM (fun (st : (ℝ × ℝ) × List ℝ) i => do
    let x ← sample2 p n dlt std (e i) (e1 i) (e2 i) st.1
    pure (x.2, st.2 ++ [x.1 + jumpPart (m i (lam * p.h)) μj σj (g i)])) (v0, [])
  pure r.2

/-! ### SVVJ and the models built on it -/

/-- the `while` loop of `IZ` and `IEZ`, mdl_svvj/euler.py lines 17-21 and 27-31, as a recursion on the
two tuples; `g` is the increment. -/
noncomputable def izLoop (t : ℝ) (g : ℝ → ℝ → ℝ) : List ℝ → List ℝ → ℝ → Except PyErr ℝ
  | [], _, f => .ok f
  | _ :: _, [], _ => .error .indexError
  | J :: js, τ :: ts, f => if τ ≤ t then izLoop t g js ts (f + g τ J) else .ok f

/-- `IZ(t, jumpsize, jumptime)`, mdl_svvj/euler.py lines 14-21. -/
noncomputable def IZ (t : ℝ) (jumpsize jumptime : List ℝ) : Except PyErr ℝ :=
  izLoop t (fun _ J => J) jumpsize jumptime 0

/-- `IEZ(t, jumpsize, jumptime, k)`, mdl_svvj/euler.py lines 24-31. -/
noncomputable def IEZ (t : ℝ) (jumpsize jumptime : List ℝ) (k : ℝ) : Except PyErr ℝ :=
  izLoop t (fun τ J => Real.exp (k * τ) * J) jumpsize jumptime 0

/-- the loop variables of `rIEII`; `c` counts the calls of `incIEII` (it only selects the draws) -/
structure St3 where
  IE : ℝ
  I : ℝ
  I2 : ℝ
  v : ℝ
  t0 : ℝ
  j : ℕ
  c : ℕ

/-- `incIEII(v0, t0, dt, k, theta, sigma)` and the updates by its result, mdl_svvj/euler.py lines
34-49, 59-63, 75-78, 87-92; `z` are the two draws. -/
noncomputable def incIEII (k θ σ : ℝ) (z : ℕ → ℝ × ℝ) (dt : ℝ) (s : St3) : Except PyErr St3 := do
  let r ← pySqrt dt
  let epsv := r * normal 0 1 (z s.c).1
  let r' ← pySqrt dt
  let epsy := r' * normal 0 1 (z s.c).2
  let q ← pySqrt s.v
  let vt := s.v + k * (θ - s.v) * dt + σ * q * epsv
  let vt := if vt < 0 then 0 else vt
  pure { s with IE := s.IE + Real.exp (k * s.t0) * q * epsv, I := s.I + q * epsv,
                I2 := s.I2 + q * epsy, v := vt, c := s.c + 1 }

/-- the `while` loop over the jumps up to time `t`, mdl_svvj/euler.py lines 70-84; `fuel` bounds the
number of iterations (each one increases `j`). -/
noncomputable def jumpLoop (k θ σ : ℝ) (z : ℕ → ℝ × ℝ) (js ts : List ℝ) (t : ℝ) :
    ℕ → St3 → Except PyErr St3
  | 0, s => .ok s
  | fuel + 1, s =>
    match ts[s.j]? with
    | none => .ok s
    | some τ =>
      if τ ≤ t then do
        let s' ← incIEII k θ σ z (τ - s.t0) s
        let J ← Utils.pyGet js s.j
        jumpLoop k θ σ z js ts t fuel { s' with v := s'.v + J, t0 := τ, j := s'.j + 1 }
      else .ok s

/-- the rest of a segment after the jumps, mdl_svvj/euler.py lines 85-92. -/
noncomputable def restSeg (k θ σ : ℝ) (z : ℕ → ℝ × ℝ) (t : ℝ) (s : St3) : Except PyErr St3 :=
  if s.t0 < t then incIEII k θ σ z (t - s.t0) s else .ok s

/-- one segment, mdl_svvj/euler.py lines 68-92. -/
noncomputable def seg3 (k θ σ dt : ℝ) (z : ℕ → ℝ × ℝ) (js ts : List ℝ) (s : St3) (i : ℕ) :
    Except PyErr St3 := do
  let s' ← jumpLoop k θ σ z js ts (((i + 1 : ℕ) : ℝ) * dt) ts.length { s with t0 := (i : ℝ) * dt }
  restSeg k θ σ z (((i + 1 : ℕ) : ℝ) * dt) s'

/-- the loops of `rIEII`, mdl_svvj/euler.py lines 56-92. -/
noncomputable def rIEIILoop (v0 k θ σ dt : ℝ) (js ts : List ℝ) (n : ℕ) (z : ℕ → ℝ × ℝ) :
    Except PyErr St3 :=
  if ts.length = 0 then
    (List.range n).foldlM (fun s (i : ℕ) => incIEII k θ σ z dt { s with t0 := (i : ℝ) * dt })
      ⟨0, 0, 0, v0, 0, 0, 0⟩
  else (List.range n).foldlM (seg3 k θ σ dt z js ts) ⟨0, 0, 0, v0, 0, 0, 0⟩

/-- `rIEII(v0, k, theta, sigma, h, jumpsize, jumptime, n_segment)`, mdl_svvj/euler.py lines 52-93. -/
noncomputable def rIEII (v0 k θ σ h : ℝ) (js ts : List ℝ) (n : ℕ) (z : ℕ → ℝ × ℝ) :
    Except PyErr (ℝ × ℝ × ℝ) := do
  let dt ← pyDiv h n
  let s ← rIEIILoop v0 k θ σ dt js ts n z
  pure (s.IE, s.I, s.I2)

/-- `rSVVJ(...)`, mdl_svvj/euler.py lines 96-124; `z i` are the draws of the `i`-th sample. -/
noncomputable def rSVVJ (v0 μ k θ σ ρ T : ℝ) (js ts : List ℝ) (N n : ℕ) (z : ℕ → ℕ → ℝ × ℝ) :
    Except PyErr (List ℝ) := do
  let beta ← pyDiv (1 - Real.exp (-k * T)) (2 * k)
  let c := (μ - θ / 2) * T - (v0 - θ) * beta
  let a ← IEZ T js ts k
  let a ← pyDiv (Real.exp (-k * T) * a) (2 * k)
  let c := c + a
  let b ← IZ T js ts
  let b ← pyDiv b (2 * k)
  let c := c - b
  (List.range N).mapM fun i => do
    let x ← rIEII v0 k θ σ T js ts n (z i)
    let u ← pyDiv (Real.exp (-k * T) * x.1 * σ) (2 * k)
    let w ← pyDiv σ (2 * k)
    let r ← pySqrt (1 - ρ ^ 2)
    pure (c + u + (ρ - w) * x.2.1 + r * x.2.2)

/-- `rSVIJ(...)`, mdl_svij/euler.py lines 15-44: `m i` gives the number of jumps in the price, `g i`
their draws. -/
noncomputable def rSVIJ (v0 μ k θ σ ρ T : ℝ) (js ts : List ℝ) (lam μs σs : ℝ) (N n : ℕ)
    (z : ℕ → ℕ → ℝ × ℝ) (m : ℕ → ℝ → ℕ) (g : ℕ → ℕ → ℝ) : Except PyErr (List ℝ) := do
  let y ← rSVVJ v0 μ k θ σ ρ T js ts N n z
  pure (List.zipWith (· + ·) y ((List.range N).map fun i =>
    ((List.range (m i (lam * T))).map fun l => normal μs σs (g i l)).sum))

/-- `rSVCJ(...)`, mdl_svcj/euler.py lines 16-45: a jump in the price for every jump in the variance. -/
noncomputable def rSVCJ (v0 μ k θ σ ρ T : ℝ) (js ts : List ℝ) (μs σs ρJ : ℝ) (N n : ℕ)
    (z : ℕ → ℕ → ℝ × ℝ) (g : ℕ → ℕ → ℝ) : Except PyErr (List ℝ) := do
  let y ← rSVVJ v0 μ k θ σ ρ T js ts N n z
  let IZ ← (List.range N).mapM fun i => (List.range js.length).foldlM (fun acc j => do
    let J ← Utils.pyGet js j
    pure (acc + normal (μs + ρJ * J) σs (g i j))) (0 : ℝ)
  pure (List.zipWith (· + ·) y IZ)

/-! ### SRJD -/

/-- `rng.noncentral_chisquare(d, lmbd)`: `ValueError` unless `d > 0` and `lmbd >= 0`; `x` gives the
draw. -/
noncomputable def ncx2 (d lmbd : ℝ) (x : ℝ → ℝ → ℝ) : Except PyErr ℝ :=
  if d ≤ 0 ∨ lmbd < 0 then .error .valueError else .ok (x d lmbd)

/-- `rSRD(v0, tau, k, theta, sigma)`, mdl_srjd/euler.py lines 13-27; `x` gives the draw. -/
noncomputable def rSRD (v0 tau k θ σ : ℝ) (x : ℝ → ℝ → ℝ) : Except PyErr ℝ := do
  let d ← pyDiv (4 * θ * k) (σ ^ 2)
  let c ← pyDiv (σ ^ 2 * (1 - Real.exp (-k * tau))) (4 * k)
  let lmbd ← pyDiv (v0 * Real.exp (-k * tau)) c
  let r ← ncx2 d lmbd x
  pure (c * r)

/-- the gaps `dt[1:]`, mdl_srjd/euler.py line 56. -/
def diffs (numJ : ℕ) (ts : List ℝ) : Except PyErr (List ℝ) :=
  (List.range' 1 (numJ - 1)).mapM fun i => do
    let a ← Utils.pyGet ts i
    let b ← Utils.pyGet ts (i - 1)
    pure (a - b)

/-- one sample of `rSRJD` with at least one jump, mdl_srjd/euler.py lines 59-66. -/
noncomputable def srjdSample (v0 k θ σ T : ℝ) (js ts dt : List ℝ) (x : ℕ → ℝ → ℝ → ℝ) :
    Except PyErr ℝ := do
  let v ← (List.range js.length).foldlM (fun v j => do
    let d ← Utils.pyGet dt j
    let r ← rSRD v d k θ σ (x j)
    let J ← Utils.pyGet js j
    pure (r + J)) v0
  let last ← Utils.pyGet ts (ts.length - 1)
  if T - last > 0 then rSRD v (T - last) k θ σ (x js.length) else pure v

/-- `rSRJD(v0, k, theta, sigma, T, jumpsize, jumptime, n)`, mdl_srjd/euler.py lines 30-67; `x i` gives
the draws of the `i`-th sample. -/
noncomputable def rSRJD (v0 k θ σ T : ℝ) (js ts : List ℝ) (N : ℕ) (x : ℕ → ℕ → ℝ → ℝ → ℝ) :
    Except PyErr (List ℝ) :=
  if js.length = 0 then (List.range N).mapM fun i => rSRD v0 T k θ σ (x i 0)
  else do
    let t0 ← Utils.pyGet ts 0
    let dt ← diffs js.length ts
    (List.range N).mapM fun i => srjdSample v0 k θ σ T js ts (t0 :: dt) (x i)

end Ajd.Euler
