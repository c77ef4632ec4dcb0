import Verif.Model.Poly

/-! Model of `Poly.write_to_txt` and `Poly.write_to_csv`, `/repo/src/ajdmom/poly.py` lines 266-347: the name of the
file and the text that is written to it. Texts are lists of characters. Keys are tuples of integers and tuples.
The messages printed are left out; when an exception is raised while rows are written, the lines already in the file
are not modelled. -/

namespace Ajd.Writer

/-- an integer, or a tuple -/
inductive Val
  | int (n : ℤ)
  | tup (l : List Val)

abbrev Text := List Char

/-- `str(n)` of an integer -/
def dec (n : ℤ) : Text := n.repr.toList

/-- `sep.join(l)` -/
def join (sep : Text) : List Text → Text
  | [] => []
  | [a] => a
  | a :: b :: l => a ++ sep ++ join sep (b :: l)

/-- a tuple with the given items; a tuple of length one is written `(x,)`. -/
def brackets : List Text → Text
  | [] => ['(', ')']
  | [a] => '(' :: a ++ [',', ')']
  | l => '(' :: join [',', ' '] l ++ [')']

mutual
/-- `str(x)` -/
def str : Val → Text
  | .int n => dec n
  | .tup l => brackets (strs l)
/-- `[str(x) for x in l]` -/
def strs : List Val → List Text
  | [] => []
  | a :: l => str a :: strs l
end

/-- `repr(s)` of a name without quotes, backslashes and unprintable characters, as all names in the package. -/
def reprStr (s : String) : Text := '\'' :: s.toList ++ ['\'']

/-- `str(l)` of a tuple of names -/
def strNames (l : List String) : Text := brackets (l.map reprStr)

abbrev VPoly := Poly (List Val)

/-- `if not filename.endswith(ext): filename += ext`, poly.py lines 269 and 280. -/
def withExt (ext name : Text) : Text := if ext.isSuffixOf name then name else name ++ ext

/-- one line of the file, poly.py line 275. -/
def txtRow (k : List Val) (v : ℚ) : Text :=
  str (.tup k) ++ ':' :: ' ' :: '(' :: dec v.num ++ ',' :: dec v.den ++ [')', '\n']

/-- `write_to_txt(filename)`, poly.py lines 266-276: the name of the file and its text. -/
def writeTxt (p : VPoly) (name : Text) : Text × Text :=
  (withExt ".txt".toList name, strNames p.keyfor ++ ": value(in fraction)\n".toList ++
    p.items.flatMap fun e => txtRow e.1 e.2)

/-- `','.join(names)` -/
def joinNames (l : List String) : Text := join [','] (l.map String.toList)

/-- one row, poly.py lines 289-290, 328-329 and 344-345; `k` are the items that are joined. -/
def csvRow (k : List Val) (v : ℚ) : Text :=
  join [','] (strs k) ++ ',' :: dec v.num ++ ',' :: dec v.den ++ ['\n']

/-- `k[i]` of a tuple -/
def item (k : List Val) (i : ℕ) : Except PyErr Val :=
  match k[i]? with
  | some x => .ok x
  | none => .error .indexError

/-- the items of a tuple, as for `len(x)` and `k + x`; `TypeError` for an integer. -/
def items : Val → Except PyErr (List Val)
  | .int _ => .error .typeError
  | .tup l => .ok l

/-- `k[:i] + k[i] + ... + k[i + c - 1] + k[i + c:]`, poly.py lines 328 and 344. -/
def splice (i c : ℕ) (k : List Val) : Except PyErr (List Val) := do
  let mid ← (List.range c).mapM fun j : ℕ => do
    let x ← item k (i + j)
    items x
  pure (k.take i ++ mid.flatten ++ k.drop (i + c))

/-- `[c + str(j) for j in range(a, n + 1)]`, poly.py lines 321-322 and 335-338. -/
def subNames (c : Char) (a n : ℕ) : List Text := (List.range' a (n + 1 - a)).map fun j : ℕ => c :: dec j

/-- the title, poly.py lines 323-324 and 339-340. -/
def csvTitle (kf : List String) (i c : ℕ) (sub : List Text) : Text :=
  joinNames (kf.take i) ++ ',' :: join [','] sub ++ ',' :: joinNames (kf.drop (i + c)) ++ ",num,den\n".toList

/-- the length of `k[i]`, poly.py line 312. -/
def subLen (i : ℕ) (k : List Val) : Except PyErr ℕ := do
  let x ← item k i
  let l ← items x
  pure l.length

/-- the loop that checks the lengths, poly.py lines 311-316. -/
def checkLen (i n : ℕ) : List (List Val × ℚ) → Except PyErr Unit
  | [] => .ok ()
  | e :: es => do
    let m ← subLen i e.1
    if m ≠ n then .error .exception else checkLen i n es

/-- the rows, poly.py lines 327-330 and 343-346. -/
def csvRows (i c : ℕ) (es : List (List Val × ℚ)) : Except PyErr Text := do
  let rows ← es.mapM fun e => do
    let k ← splice i c e.1
    pure (csvRow k e.2)
  pure rows.flatten

/-- `write_to_csv(filename)`, poly.py lines 278-347: the name of the file and its text. Without any key the name `l`
is not bound, an `UnboundLocalError`. -/
def writeCsv (p : VPoly) (name : Text) : Except PyErr (Text × Text) :=
  if "l_{1:n}" ∉ p.keyfor then
    .ok (withExt ".csv".toList name, joinNames p.keyfor ++ ",num,den\n".toList ++
      p.items.flatMap fun e => csvRow e.1 e.2)
  else
    let i := p.keyfor.idxOf "l_{1:n}"
    match p.items with
    | [] => .error .nameError
    | e :: _ => do
      let x ← item e.1 i
      let l ← items x
      let n := l.length
      checkLen i n p.items
      if "p_{2:n}" ∉ p.keyfor then
        let rows ← csvRows i 2 p.items
        pure (withExt ".csv".toList name, csvTitle p.keyfor i 2 (subNames 'l' 1 n ++ subNames 'o' 2 n) ++ rows)
      else
        let rows ← csvRows i 4 p.items
        pure (withExt ".csv".toList name, csvTitle p.keyfor i 4
          (subNames 'l' 1 n ++ subNames 'o' 1 n ++ subNames 'p' 2 n ++ subNames 'q' 2 n) ++ rows)

end Ajd.Writer
