import Verif.Model.Writer

/-! Specification for the files written by `write_to_csv`: a table is its lines, split at the commas. -/

namespace Ajd.Writer

/-- the table in a csv file: the lines, each of which ends in a newline, split at the commas -/
def table (t : Text) : List (List Text) := ((t.splitOn '\n').dropLast).map (·.splitOn ',')

/-- names that may be used in the title -/
def PlainNames (kf : List String) : Prop := ∀ s ∈ kf, ',' ∉ s.toList ∧ '\n' ∉ s.toList

/-- a key that is a tuple of integers -/
def flat (k : List ℤ) : List Val := k.map .int

/-- `num` and `den` of the title -/
def numDen : List Text := ["num".toList, "den".toList]

/-- the row for the integers `k` and the value `v` -/
def rowOf (k : List ℤ) (v : ℚ) : List Text := k.map dec ++ [dec v.num, dec v.den]

/-- a key with the integers `a`, the tuples `z` of integers, and the integers `b` -/
def nested (a : List ℤ) (z : List (List ℤ)) (b : List ℤ) : List Val :=
  flat a ++ z.map (fun l => .tup (flat l)) ++ flat b

/-- the columns `c_a, ..., c_{a+n-1}` -/
def cols (c : Char) (a n : ℕ) : List Text := (List.range n).map fun j : ℕ => c :: dec ((a + j : ℕ) : ℤ)

/-- Every row has as many columns as the title, and there are rows. -/
def Aligned : List (List Text) → Prop
  | [] => False
  | title :: rows => rows ≠ [] ∧ ∀ r ∈ rows, r.length = title.length

end Ajd.Writer
