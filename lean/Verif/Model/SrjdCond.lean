import Verif.Model.SrjdJoint

/-! Model of `/repo/src/ajdmom/mdl_srjd/cond_mom.py` and `cond_cmom.py`. -/

namespace Ajd.Srjd

/-- `for a in L: for key, val in f(a): poly.add_keyval(key, val)` into a fresh Poly. -/
def addLoop {K α : Type} [DecidableEq K] (kf : List String) (f : α → Except PyErr (List (K × ℚ)))
    (L : List α) : Except PyErr (Poly K) := do
  let ts ← L.mapM f
  pure (Poly.ofTerms kf ts.flatten)

/-- `for i in range(n+1): for j in range(n-i+1)` -/
def idx2 (n : ℤ) : List (ℤ × ℤ) :=
  (pyRange 0 (n + 1)).flatMap fun i => (pyRange 0 (n - i + 1)).map fun j => (i, j)

/-- `math.comb(n, i)` for `n, i >= 0`, which holds at every call here. -/
def combZ (n i : ℤ) : ℚ := (n.toNat.choose i.toNat : ℚ)

/-- keyfor, cond_mom.py lines 21 and 44, cond_cmom.py lines 21 and 49. -/
def kfV : List String := ["e^{kt}", "k^{-}", "v0-theta", "theta", "sigma", "lmbd", "mu_v"]

variable (d : ℕ)

/-- the entries added in one round of the loop of `moment_x`, cond_mom.py lines 24-32; `d` bounds the
depth of the recursion in `moment_ie_iez`. -/
def momentXTerms (n i : ℤ) : Except PyErr (List (List ℤ × ℚ)) := do
  let poln ← momentJoint rawCfg d i (n - i)
  pure (poln.items.map fun e =>
    ([ix e.1 0, ix e.1 1, ix e.1 2, ix e.1 3, ix e.1 4 + i, ix e.1 5, ix e.1 6], combZ n i * e.2))

/-- `moment_x(n)`, cond_mom.py lines 10-34. -/
def momentX (n : ℤ) : Except PyErr IPoly := do
  let poly ← addLoop kfV (momentXTerms d n) (pyRange 0 (n + 1))
  pure poly.removeZero

/-- the entries added in one round of the loops of `moment_v`, cond_mom.py lines 47-59. -/
def momentVTerms (n : ℤ) (ij : ℤ × ℤ) : Except PyErr (List (List ℤ × ℚ)) := do
  let poln ← momentX d (n - ij.1 - ij.2)
  pure (poln.items.map fun e =>
    ([ix e.1 0 - (n - ij.2), ix e.1 1, ix e.1 2 + ij.1, ix e.1 3 + ij.2, ix e.1 4, ix e.1 5, ix e.1 6],
      combZ n ij.1 * combZ (n - ij.1) ij.2 * e.2))

/-- `moment_v(n)`, cond_mom.py lines 36-61. -/
def momentV (n : ℤ) : Except PyErr IPoly := do
  let poly ← addLoop kfV (momentVTerms d n) (idx2 n)
  pure poly.removeZero

/-- `m_x(n, par)`, cond_mom.py lines 76-79. -/
noncomputable def mX (n : ℤ) (par : Par) : Except PyErr ℝ := do
  let moment ← momentX d n
  pure (poly2numI moment par)

/-- `m(n, par)`, cond_mom.py lines 81-84. -/
noncomputable def mV (n : ℤ) (par : Par) : Except PyErr ℝ := do
  let moment ← momentV d n
  pure (poly2numI moment par)

/-- the entries added in one round of the loops of `cmoment_x`, cond_cmom.py lines 24-37. -/
def cmomentXTerms (n : ℤ) (ij : ℤ × ℤ) : Except PyErr (List (List ℤ × ℚ)) := do
  let poln ← momentX d ij.1
  pure (poln.items.map fun e =>
    ([ix e.1 0 + ij.2, ix e.1 1 + (n - ij.1), ix e.1 2, ix e.1 3, ix e.1 4, ix e.1 5 + (n - ij.1),
      ix e.1 6 + (n - ij.1)],
      combZ n ij.1 * combZ (n - ij.1) ij.2 * e.2 * (-1) ^ ij.2))

/-- `cmoment_x(n)`, cond_cmom.py lines 10-39. -/
def cmomentX (n : ℤ) : Except PyErr IPoly := do
  let poly ← addLoop kfV (cmomentXTerms d n) (idx2 n)
  pure poly.removeZero

/-- the entries added in one round of the loops of `cmoment_v`, cond_cmom.py lines 52-65. -/
def cmomentVTerms (n : ℤ) (ij : ℤ × ℤ) : Except PyErr (List (List ℤ × ℚ)) := do
  let poln ← momentX d ij.1
  pure (poln.items.map fun e =>
    ([ix e.1 0 - (ij.1 + ij.2), ix e.1 1 + (n - ij.1), ix e.1 2, ix e.1 3, ix e.1 4,
      ix e.1 5 + (n - ij.1), ix e.1 6 + (n - ij.1)],
      combZ n ij.1 * combZ (n - ij.1) ij.2 * (-1) ^ (n - ij.1 - ij.2) * e.2))

/-- `cmoment_v(n)`, cond_cmom.py lines 41-67. -/
def cmomentV (n : ℤ) : Except PyErr IPoly := do
  let poly ← addLoop kfV (cmomentVTerms d n) (idx2 n)
  pure poly.removeZero

/-- `cm_x(n, par)`, cond_cmom.py lines 69-72; `poly2num` is that of cond_mom.py. -/
noncomputable def cmX (n : ℤ) (par : Par) : Except PyErr ℝ := do
  let cmoment ← cmomentX d n
  pure (poly2numI cmoment par)

/-- `cm(n, par)`, cond_cmom.py lines 74-77. -/
noncomputable def cmV (n : ℤ) (par : Par) : Except PyErr ℝ := do
  let cmoment ← cmomentV d n
  pure (poly2numI cmoment par)

end Ajd.Srjd
