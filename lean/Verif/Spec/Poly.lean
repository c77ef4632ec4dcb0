import Verif.Model.Poly
import Mathlib.Algebra.Module.Defs
import Mathlib.Algebra.BigOperators.Group.List.Basic
import Mathlib.Algebra.BigOperators.Group.Finset.Basic
import Mathlib.Algebra.BigOperators.Intervals
import Mathlib.Data.Real.Basic

/-! Vocabulary of the specifications: what the entries of a Poly mean. -/

namespace Ajd
namespace Poly
variable {K : Type} [DecidableEq K]

/-- Value of a Poly under an interpretation `f` of its keys: `Σ v • f k`. -/
def ev {M : Type*} [AddCommMonoid M] [Module ℚ M] (f : K → M) (p : Poly K) : M :=
  (p.items.map fun kv => kv.2 • f kv.1).sum

/-- no repeated key -/
def WF (p : Poly K) : Prop := (p.items.map Prod.fst).Nodup

/-- no entry with value zero -/
def NoZero (p : Poly K) : Prop := ∀ x ∈ p.items, x.2 ≠ 0

/-- the coefficient at a key, 0 when absent -/
def coeff (p : Poly K) (k : K) : ℚ := (dget p.items k).getD 0

/-- every key satisfies `P` -/
def Keys (P : K → Prop) (p : Poly K) : Prop := ∀ x ∈ p.items, P x.1

/-- Python `==` of two dicts: the same keys with the same values, in any order. -/
def DictEq (p q : Poly K) : Prop := ∀ k, dget p.items k = dget q.items k

/-- all keys have `n` components -/
def Len (n : ℕ) (p : IPoly) : Prop := p.Keys fun k => k.length = n

/-- `f` turns component-wise addition of `n`-component keys into multiplication. -/
def IsMul {R : Type*} [Mul R] (n : ℕ) (f : List ℤ → R) : Prop :=
  ∀ k1 k2, k1.length = n → k2.length = n → f (List.zipWith (· + ·) k1 k2) = f k1 * f k2

/-- The monomial `∏ x_i ^ k_i` that a flat key stands for. -/
noncomputable def mono (x : ℕ → ℝ) (k : List ℤ) : ℝ :=
  ∏ i ∈ Finset.range k.length, x i ^ (k.getD i 0)

end Poly
end Ajd
