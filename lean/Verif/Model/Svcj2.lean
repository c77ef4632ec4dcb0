import Verif.Model.Svvj
import Verif.Model.Cpp

/-! Model of `/repo/src/ajdmom/mdl_svcj/cond2_mom.py` and `cond2_cmom.py`: moments of the return given
the initial variance and the jumps of the variance, when the price jumps together with the variance.
The number of jumps is not bounded, and `moment_IZs`, `cmoment_IZs` run a `while` loop, so results are in
`Run`: nothing if the fuel runs out, else an exception or a value. The tuple `K[18]` (or `k[3]`) of the
exponents of the jump sizes inside a key is flattened into the end of the key. Floats are reals. -/

namespace Ajd.Svcj
open Ito Utils ItoCond Cpp

/-- out of fuel, or an exception or a value -/
abbrev Run (α : Type) := ExceptT PyErr Option α

/-- a result that needs no fuel -/
def runE {α : Type} (x : Except PyErr α) : Run α := ExceptT.mk (some x)

/-! ### cond2_mom.py -/

/-- keyfor, mdl_svcj/cond2_mom.py line 22. -/
def kfN : List String := ["mu_s", "rho_J", "sigma_s", "J_i"]

/-- the terms of one key, mdl_svcj/cond2_mom.py lines 34-38. -/
def condTerms (e : List ℤ × ℚ) : List (List ℤ × ℚ) :=
  (List.range (ix e.1 0 + 1).toNat).map fun i : ℕ =>
    ([(i : ℤ), ix e.1 0 - i, 2 * ix e.1 1, ix e.1 0 - i], ((ix e.1 0).toNat.choose i : ℚ) * e.2)

/-- `mnorm_cond(n)`, mdl_svcj/cond2_mom.py lines 14-39, for `n >= 0`. -/
def mnormCond (n : ℕ) : IPoly :=
  if n = 0 then ⟨kfN, [([0, 0, 0, 0], 1)]⟩
  else Poly.ofTerms kfN ((mnormNat n).items.flatMap condTerms)

/-- keyfor, mdl_svcj/cond2_mom.py lines 51 and 79. -/
def kfIZ : List String := ["mu_s", "rho_J", "sigma_s", "J_{1:n}"]

/-- one round of the loop of `comb_poly`, mdl_svcj/cond2_mom.py lines 58-66. -/
def combPolyStep (poly : IPoly) (i : ℕ) : IPoly :=
  Poly.ofTerms kfIZ ((mnormCond i).items.flatMap fun e1 => poly.items.map fun e2 =>
    ((ix e1.1 0 + ix e2.1 0) :: (ix e1.1 1 + ix e2.1 1) :: (ix e1.1 2 + ix e2.1 2) ::
      (e2.1.drop 3 ++ [ix e1.1 3]), e1.2 * e2.2))

/-- `comb_poly(index)`, mdl_svcj/cond2_mom.py lines 42-67. -/
def combPoly (index : List ℕ) : IPoly :=
  index.foldl combPolyStep (Poly.addKeyval ⟨kfIZ, []⟩ [0, 0, 0] 1)

/-- `poly += c * poln` for one index, mdl_svcj/cond2_mom.py lines 128-130. -/
def emitM (m : ℕ) (poly : IPoly) (index : List ℕ) : Except PyErr IPoly := do
  let c ← comb m (index.map Int.ofNat)
  poly.add (Poly.rmul c (combPoly index))

/-- `moment_IZs(m, J)`, mdl_svcj/cond2_mom.py lines 70-146, for `m >= 0` and `numJ = len(J)`; `J` is used
for its length only. -/
def momentIZs (fuel m numJ : ℕ) : Run IPoly :=
  if m = 0 then pure (Poly.addKeyval ⟨kfIZ, []⟩ (0 :: 0 :: 0 :: List.replicate numJ 0) 1)
  else if numJ = 0 then pure (Poly.addKeyval ⟨kfIZ, []⟩ [0, 0, 0] 0)
  else if numJ = 1 then
    pure (Poly.ofTerms kfIZ ((mnormCond m).items.map fun e =>
      ([ix e.1 0, ix e.1 1, ix e.1 2, ix e.1 3], e.2)))
  else if numJ = 2 then
    pure (Poly.ofTerms kfIZ ((List.range (m + 1)).flatMap fun i =>
      (mnormCond i).items.flatMap fun e1 => (mnormCond (m - i)).items.map fun e2 =>
        ([ix e1.1 0 + ix e2.1 0, ix e1.1 1 + ix e2.1 1, ix e1.1 2 + ix e2.1 2, ix e1.1 3, ix e2.1 3],
          (m.choose i : ℚ) * e1.2 * e2.2)))
  else ExceptT.mk (combRun numJ m (emitM m) fuel ⟨[], true, ⟨kfIZ, []⟩⟩)

/-- the terms added for `n1`, mdl_svcj/cond2_mom.py lines 178-184, cond2_cmom.py lines 127-133, where `ms`
are the moments of SVVJ and `izs` is `moment_IZs` or `cmoment_IZs`. -/
def convTerms (ms : List JPoly) (izs : ℕ → Run IPoly) (n n1 : ℕ) : Run (List (JKey × ℚ)) := do
  let pol1 ← runE (pyGet ms n1)
  let pol2 ← izs (n - n1)
  pure (pol1.items.flatMap fun e1 => pol2.items.map fun e2 =>
    (⟨e1.1.b, e1.1.z, e1.1.c ++ e2.1⟩, (n.choose n1 : ℚ) * e1.2 * e2.2))

/-- one round of the loop over `n`, mdl_svcj/cond2_mom.py lines 175-186, cond2_cmom.py lines 124-135. -/
def convLevel (ms : List JPoly) (izs : ℕ → Run IPoly) (kf : List String) (n : ℕ) : Run JPoly := do
  let terms ← (List.range (n + 1)).reverse.mapM (convTerms ms izs n)
  pure (Poly.ofTerms kf terms.flatten).removeZero

/-- `moms_svvj[0].keyfor`, mdl_svcj/cond2_mom.py line 164, cond2_cmom.py line 107. -/
def firstKf (ms : List JPoly) : Except PyErr (List String) := do
  let p ← pyGet ms 0
  pure p.keyfor

/-- the key of the moment of order 0, mdl_svcj/cond2_mom.py line 168. It has 16 components, the names 19. -/
def keyM0 : JKey := ⟨[0, 0, 0, 0, 0, 0, 0, 0], ⟨[], [], [], []⟩, [0, 0, 0, 0]⟩

/-- `moments_y_to(l, J)`, mdl_svcj/cond2_mom.py lines 149-187, `numJ = len(J)`, with the function called
for `int_e_IEZ_poly` as a parameter. -/
def momentsWith (iez : ℚ → ℤ → JPoly → Except PyErr JPoly) (fuel : ℕ) (l : ℤ) (numJ : ℕ) :
    Run (List JPoly) := do
  let cs ← runE (Svvj.momentsWith iez l)
  let kf0 ← runE (firstKf cs)
  let kf := kf0 ++ kfIZ
  let ms ← ((List.range l.toNat).map (· + 1)).mapM
    (convLevel cs (fun m => momentIZs fuel m numJ) kf)
  pure (⟨kf, [(keyM0, 1)]⟩ :: ms)

/-- `moments_y_to(l, J)`, mdl_svcj/cond2_mom.py lines 149-187. -/
def momentsYTo (fuel : ℕ) (l : ℤ) (numJ : ℕ) : Run (List JPoly) := momentsWith intEIEZ fuel l numJ

/-- `moment_y(l, J)`, mdl_svcj/cond2_mom.py lines 190-192. -/
def momentY (fuel : ℕ) (l : ℤ) (numJ : ℕ) : Run JPoly := do
  let ms ← momentsYTo fuel l numJ
  runE (pyLast ms)

/-- the entries of `par` used by `poly2num`. -/
structure Par extends Svvj.Par where
  μs : ℝ
  ρJ : ℝ
  σs : ℝ

/-- `for i in range(len(J)): f_J *= J[i] ** K[18][i]`, mdl_svcj/cond2_mom.py lines 242-244. -/
noncomputable def fJ : List ℝ → List ℤ → ℝ → Except PyErr ℝ
  | [], _, f => .ok f
  | _ :: _, [], _ => .error .indexError
  | x :: J, e :: es, f => fJ J es (f * x ^ e)

/-- the factors of the jumps of the price, mdl_svcj/cond2_mom.py lines 240-245. -/
noncomputable def wJM (par : Par) (K : JKey) : Except PyErr ℝ := do
  let a ← pyGet K.c 3
  let b ← pyGet K.c 4
  let c ← pyGet K.c 5
  let f ← fJ par.jumpsize (K.c.drop 6) 1
  pure (par.μs ^ a * par.ρJ ^ b * par.σs ^ c * f)

/-- the loop of `poly2num` with a factor that may raise, mdl_svcj/cond2_mom.py lines 228-247. -/
noncomputable def evalLoop (fuel : ℕ) (k : ℝ) (s J : List ℝ) (w : JKey → Except PyErr ℝ) :
    ℝ → List (JKey × ℚ) → Run ℝ
  | f, [] => pure f
  | f, e :: rest => do
    let z ← (ExceptT.mk (fZ fuel e.1.z.l e.1.z.o e.1.z.p e.1.z.q k s J) : Run ℝ)
    let a ← runE (w e.1)
    evalLoop fuel k s J w (f + a * z * e.2) rest

/-- `poly2num(poly, par)`, mdl_svcj/cond2_mom.py lines 199-248: the lines 229-238 are those of
mdl_svvj/cond2_mom.py. -/
noncomputable def poly2numM (fuel : ℕ) (poly : JPoly) (par : Par) : Run ℝ :=
  evalLoop fuel par.k par.jumptime par.jumpsize
    (fun K => do let a ← wJM par K; pure (Svvj.wM par.toPar K * a)) 0 poly.items

/-- `m(l, par)`, mdl_svcj/cond2_mom.py lines 251-264. -/
noncomputable def m (fuel : ℕ) (l : ℤ) (par : Par) : Run ℝ := do
  let c ← momentY fuel l par.jumpsize.length
  poly2numM fuel c par

/-! ### cond2_cmom.py -/

/-- `poly.merge(c * poln)` for one `i`, mdl_svcj/cond2_cmom.py lines 44-48. -/
def twoPoly (m i : ℕ) : Except PyErr IPoly := do
  let poln ← (cmnorm i).mul (cmnorm (m - i))
  pure (Poly.rmul (m.choose i) (poln.setKeyfor ["sigma_s"]))

/-- `poly += c * poln` for one index, mdl_svcj/cond2_cmom.py lines 67-73. -/
def emitC (m : ℕ) (poly : IPoly) (index : List ℕ) : Except PyErr IPoly := do
  let c ← comb m (index.map Int.ofNat)
  let poln ← index.foldlM (fun p i => p.mul (cmnorm i)) (⟨["sigma"], [([0], 1)]⟩ : IPoly)
  poly.add (Poly.rmul c (poln.setKeyfor ["sigma_s"]))

/-- `cmoment_IZs(m, J)`, mdl_svcj/cond2_cmom.py lines 13-89, for `m >= 0` and `numJ = len(J)`. -/
def cmomentIZs (fuel m numJ : ℕ) : Run IPoly :=
  if m = 0 then pure (Poly.addKeyval ⟨["sigma_s"], []⟩ [0] 1)
  else if numJ = 0 then pure (Poly.addKeyval ⟨["sigma_s"], []⟩ [0] 0)
  else if numJ = 1 then pure ((cmnorm m).setKeyfor ["sigma_s"])
  else if numJ = 2 then runE (mergeLoop (twoPoly m) (List.range (m + 1)) ⟨["sigma_s"], []⟩)
  else ExceptT.mk (combRun numJ m (emitC m) fuel ⟨[], true, ⟨["sigma_s"], []⟩⟩)

/-- the key of the constants, mdl_svcj/cond2_cmom.py lines 111 and 117. -/
def keyC0 : JKey := ⟨[0, 0, 0, 0, 0, 0], ⟨[], [], [], []⟩, [0, 0, 0, 0]⟩

/-- `cmoments_y_to(l, J)`, mdl_svcj/cond2_cmom.py lines 92-136, `numJ = len(J)`, with the function called
for `int_e_IEZ_poly` as a parameter. -/
def cmomentsWith (iez : ℚ → ℤ → JPoly → Except PyErr JPoly) (fuel : ℕ) (l : ℤ) (numJ : ℕ) :
    Run (List JPoly) := do
  let cs ← runE (Svvj.cmomentsWith iez l)
  let kf0 ← runE (firstKf cs)
  let kf := kf0 ++ ["sigma_s"]
  let ms ← ((List.range (l - 1).toNat).map (· + 2)).mapM
    (convLevel cs (fun m => cmomentIZs fuel m numJ) kf)
  pure (⟨kf, [(keyC0, 1)]⟩ :: ⟨kf, [(keyC0, 0)]⟩ :: ms)

/-- `cmoments_y_to(l, J)`, mdl_svcj/cond2_cmom.py lines 92-136. -/
def cmomentsYTo (fuel : ℕ) (l : ℤ) (numJ : ℕ) : Run (List JPoly) := cmomentsWith intEIEZ fuel l numJ

/-- `cmoment_y(l, J)`, mdl_svcj/cond2_cmom.py lines 139-141. -/
def cmomentY (fuel : ℕ) (l : ℤ) (numJ : ℕ) : Run JPoly := do
  let ms ← cmomentsYTo fuel l numJ
  runE (pyLast ms)

/-- `poly2num(poly, par)`, mdl_svcj/cond2_cmom.py lines 147-185: the lines 172-181 are those of
mdl_svvj/cond2_cmom.py. -/
noncomputable def poly2numC (fuel : ℕ) (poly : JPoly) (par : Par) : Run ℝ :=
  evalLoop fuel par.k par.jumptime par.jumpsize
    (fun K => do let a ← pyGet K.c 3; pure (Svvj.wC par.toPar K * par.σs ^ a)) 0 poly.items

/-- `cm(l, par)`, mdl_svcj/cond2_cmom.py lines 188-201. -/
noncomputable def cm (fuel : ℕ) (l : ℤ) (par : Par) : Run ℝ := do
  let c ← cmomentY fuel l par.jumpsize.length
  poly2numC fuel c par

end Ajd.Svcj
