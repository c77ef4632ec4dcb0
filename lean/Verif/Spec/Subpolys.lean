import Verif.Spec.Svvj
import Verif.Spec.Writer

/-! Specification for `write_to_subpolys`: which file holds an entry, under which key, and what a key of a file means. -/

namespace Ajd.Subpolys
open Svvj ItoCond Writer

/-- Depth of summation of an entry -/
def lev (e : JKey × ℚ) : ℕ := e.1.z.l.length

/-- the depths of the entries are `0, ..., m - 1` -/
def NoGap (P : JPoly) (m : ℕ) : Prop := ∀ d, (∃ e ∈ P.items, lev e = d) ↔ d < m

/-- the key under which an entry is found in its file: the first exponent counts `e^{-kt}`; the four tuples are
left out when they are empty. -/
def fileKey (K : JKey) : List Val :=
  if K.z.l = [] then flat ((-ix K.b 0) :: K.b.drop 1 ++ K.c)
  else nested ((-ix K.b 0) :: K.b.drop 1) [K.z.l, K.z.o, K.z.p, K.z.q] K.c

/-- the names in the header of the file of depth `d` -/
def fileNames (d : ℕ) : List String :=
  if d = 0 then ["e^{-kt}", "t", "k^{-}", "v0-theta", "theta", "sigma", "sigma/2k", "rho-sigma/2k", "sqrt(1-rho^2)"]
  else ["e^{-kt}", "t", "k^{-}", "v0-theta", "theta", "sigma", "l_{1:n}", "o_{1:n}", "p_{2:n}", "q_{2:n}",
    "sigma/2k", "rho-sigma/2k", "sqrt(1-rho^2)"]

/-- the Poly in the file of depth `d` -/
def filePoly (P : JPoly) (d : ℕ) : VPoly :=
  ⟨fileNames d, (P.items.filter fun e => lev e = d).map fun e => (fileKey e.1, e.2)⟩

/-- an integer of a key -/
def int : Val → ℤ
  | .int n => n
  | .tup _ => 0

/-- the integers of a tuple of integers -/
def ints : Val → List ℤ
  | .int _ => []
  | .tup l => l.map int

/-- What a key of a file with the header `fileNames d` means: each number is the exponent of the name above it. -/
noncomputable def keyVal (p : Svvj.Par) (d : ℕ) (k : List Val) : ℝ :=
  let g := fun i : ℕ => int (k.getD i (.int 0))
  let z := fun i : ℕ => ints (k.getD i (.int 0))
  let j := if d = 0 then 6 else 10
  Real.exp (-p.k * p.h) ^ g 0 * p.h ^ g 1 * p.k ^ (-g 2) * (p.v0 - p.θ) ^ g 3 * p.θ ^ g 4 * p.σ ^ g 5 *
    (if d = 0 then 1 else zval p.cir p.h ⟨z 6, z 7, z 8, z 9⟩) *
    (p.σ / (2 * p.k)) ^ g j * (p.ρ - p.σ / (2 * p.k)) ^ g (j + 1) * Real.sqrt (1 - p.ρ ^ 2) ^ g (j + 2)

end Ajd.Subpolys
