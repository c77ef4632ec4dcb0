import Verif.Model.Cpp
import Verif.Model.Ito
import Verif.Model.Itos
import Verif.Model.ItoCond
import Verif.Model.Fsv1

/-!
Tests of the model, not proofs about it: the hand-written definitions of `Verif/Model` are evaluated
(in the kernel, or by the interpreter under `#guard` where that is too slow) and compared with the outputs that the project itself records, in `/repo/tests` and in
`/repo/docs/source/usage.rst`. They are evidence that the transcription is faithful. No property in
the list relies on this file.
-/

namespace Ajd.Fidelity

/-- `p == q` of two python dicts, poly.py class `Poly(UserDict)`: the same keys with the same values, in
any order; `keyfor` is not compared. -/
def Same {K : Type} [DecidableEq K] (r : Except PyErr (Poly K)) (d : List (K × ℚ)) : Prop :=
  match r with
  | .ok p => p.items.length = d.length ∧ ∀ e ∈ d, e ∈ p.items
  | .error _ => False

instance {K : Type} [DecidableEq K] (r : Except PyErr (Poly K)) (d : List (K × ℚ)) :
    Decidable (Same r d) := by
  unfold Same; split <;> infer_instance

-- test_poly.py lines 15-103
def pol1 : IPoly := ⟨["e", "h"], [([1, 0], 1), ([0, 1], 1)]⟩
def pol2 : IPoly := ⟨["e", "h"], [([1, 0], 1), ([0, 2], 1)]⟩

example : Same (pol1.add pol2) [([1, 0], 2), ([0, 1], 1), ([0, 2], 1)] := by decide +kernel
example : Same (pol2.add pol1) [([1, 0], 2), ([0, 1], 1), ([0, 2], 1)] := by decide +kernel
example : Same (pol1.merge pol2) [([1, 0], 2), ([0, 1], 1), ([0, 2], 1)] := by decide +kernel
example : Same (pol1.sub pol2) [([0, 1], 1), ([0, 2], -1)] := by decide +kernel
example : Same (pol1.mul pol2) [([2, 0], 1), ([1, 2], 1), ([1, 1], 1), ([0, 3], 1)] := by decide +kernel
example : Same (.ok (Poly.rmul 4 pol1)) [([1, 0], 4), ([0, 1], 4)] := by decide +kernel
example : Same (pol1.pow 2) [([2, 0], 1), ([1, 1], 2), ([0, 2], 1)] := by decide +kernel
example : Same (pol1.pow 3) [([3, 0], 1), ([2, 1], 3), ([1, 2], 3), ([0, 3], 1)] := by decide +kernel
example : Same (pol1.mulPoly ⟨[], [([1], 100), ([2, 0], 100)]⟩ [0, 1] [0, -1] ["e", "h"])
    [([2, 0], 100), ([1, 1], 100), ([3, 0], 100), ([2, 1], 100)] := by decide +kernel

-- test_utils.py lines 8-48
example : Utils.comb 5 [1, 2, 2] = .ok ((Nat.choose 5 1 * Nat.choose (5 - 1) 2 : ℕ) : ℤ) := by decide +kernel
example : [0, 1, 2, 3, 10, 11].map Utils.dbfactorial = [1, 1, 2, 3, 3840, 10395] := by decide +kernel
example : (List.range 9).map (fun n => (Utils.cmnorm n).items) =
    [[([0], 1)], [([0], 0)], [([2], 1)], [([0], 0)], [([4], 3)], [([0], 0)], [([6], 15)], [([0], 0)],
    [([8], 105)]] := by decide +kernel
example : Same (Utils.simplifyRho ⟨["rho", "sqrt(1-rho^2)"], [([1, 0], 1), ([0, 2], 1)]⟩ 1)
    [([0], 1), ([1], 1), ([2], -1)] := by decide +kernel

-- test_cpp_mom.py line 12
example : Same (Cpp.mnorm 0) [([0, 0], 1)] := by decide +kernel

-- test_cpp_mom.py line 13
example : Same (Cpp.mnorm 1) [([1, 0], 1)] := by decide +kernel

-- test_cpp_mom.py line 14
example : Same (Cpp.mnorm 2) [([2, 0], 1), ([0, 1], 1)] := by decide +kernel

-- test_cpp_mom.py line 15
example : Same (Cpp.mnorm 3) [([3, 0], 1), ([1, 1], 3)] := by decide +kernel

-- test_cpp_mom.py line 16
example : Same (Cpp.mnorm 8) [([8, 0], 1), ([6, 1], 28), ([4, 2], 210), ([2, 3], 420),
      ([0, 4], 105)] := by decide +kernel

-- test_cpp_mom.py line 31
example : Same (Cpp.mcpp 0) [([0, 0, 0], 1)] := by decide +kernel

-- test_cpp_mom.py line 32
example : Same (Cpp.mcpp 1) [([1, 1, 0], 1)] := by decide +kernel

-- test_cpp_mom.py line 33
example : Same (Cpp.mcpp 2) [([1, 2, 0], 1), ([1, 0, 2], 1), ([2, 2, 0], 1)] := by decide +kernel

-- test_cpp_mom.py line 34
example : Same (Cpp.mcpp 3) [([2, 3, 0], 3), ([2, 1, 2], 3), ([1, 3, 0], 1), ([1, 1, 2], 3),
      ([3, 3, 0], 1)] := by decide +kernel

-- test_cpp_mom.py line 36
example : Same (Cpp.mcpp 4) [([1, 0, 4], 3), ([1, 2, 2], 6), ([1, 4, 0], 1), ([2, 0, 4], 3),
      ([2, 2, 2], 18), ([2, 4, 0], 7), ([3, 2, 2], 6), ([3, 4, 0], 6),
      ([4, 4, 0], 1)] := by decide +kernel

-- test_cpp_mom.py line 59
example : Same (Cpp.cmcpp 0) [([0, 0, 0], 1)] := by decide +kernel

-- test_cpp_mom.py line 60
example : Same (Cpp.cmcpp 1) [] := by decide +kernel

-- test_cpp_mom.py line 61
example : Same (Cpp.cmcpp 2) [([1, 2, 0], 1), ([1, 0, 2], 1)] := by decide +kernel

-- test_cpp_mom.py line 62
example : Same (Cpp.cmcpp 3) [([1, 3, 0], 1), ([1, 1, 2], 3)] := by decide +kernel

-- test_cpp_mom.py line 63
example : Same (Cpp.cmcpp 4) [([1, 0, 4], 3), ([1, 2, 2], 6), ([1, 4, 0], 1), ([2, 0, 4], 3),
      ([2, 2, 2], 6), ([2, 4, 0], 3)] := by decide +kernel

-- test_ito_mom.py line 13
example : Same (Ito.momentVPy 0) [([0, 0], 1)] := by decide +kernel

-- test_ito_mom.py line 14
example : Same (Ito.momentVPy 1) [([1, 0], 1)] := by decide +kernel

-- test_ito_mom.py line 15
example : Same (Ito.momentVPy 2) [([2, 0], 1), ([1, 1], 1 / 2)] := by decide +kernel

-- test_ito_mom.py line 16
example : Same (Ito.momentVPy 3) [([3, 0], 1), ([2, 1], 3 / 2),
      ([1, 2], 1 / 2)] := by decide +kernel

-- test_ito_mom.py line 116 (the test fails: C46)
example : ¬ Same (Ito.momentIEII 0 0 0) [([0, 0, 0, 0, 0, 0, 0], 1)] := by decide +kernel

-- test_ito_mom.py line 118 (the test fails: C46)
example : ¬ Same (Ito.momentIEII 1 0 0) [] := by decide +kernel

-- test_ito_mom.py line 119 (the test fails: C46)
example : ¬ Same (Ito.momentIEII 0 1 0) [] := by decide +kernel

-- test_ito_mom.py line 120 (the test fails: C46)
example : ¬ Same (Ito.momentIEII 0 0 1) [] := by decide +kernel

-- test_ito_mom.py line 122
example : Same (Ito.momentIEII 2 0 0) [([2, 0, 0, 0, 1, 1, 0], 1 / 2),
      ([2, 0, 0, 1, 1, 0, 0], -1), ([2, 1, 0, 0, 1, 1, 0], -1), ([2, 1, 0, 1, 1, 0, 0], 1),
      ([2, 2, 0, 0, 1, 1, 0], 1 / 2)] := by decide +kernel

-- test_ito_mom.py line 127
example : Same (Ito.momentIEII 1 1 0) [([1, 0, 0, 0, 1, 1, 0], -1), ([1, 0, 1, 0, 0, 1, 0], -1),
      ([1, 0, 1, 1, 0, 0, 0], 1), ([1, 1, 0, 0, 1, 1, 0], 1)] := by decide +kernel

-- test_ito_mom.py line 131 (the test fails: C46)
example : ¬ Same (Ito.momentIEII 1 0 1) [] := by decide +kernel

-- test_ito_mom.py line 132
example : Same (Ito.momentIEII 0 2 0) [([0, -1, 0, 0, 1, 1, 0], 1),
      ([0, -1, 0, 1, 1, 0, 0], -1), ([0, 0, 0, 0, 1, 1, 0], -1), ([0, 0, 0, 1, 1, 0, 0], 1),
      ([0, 0, 1, 0, 0, 1, 0], 1)] := by decide +kernel

-- test_ito_mom.py line 137 (the test fails: C46)
example : ¬ Same (Ito.momentIEII 0 1 1) [] := by decide +kernel

-- test_ito_mom.py line 138
example : Same (Ito.momentIEII 0 0 2) [([0, -1, 0, 0, 1, 1, 0], 1),
      ([0, -1, 0, 1, 1, 0, 0], -1), ([0, 0, 0, 0, 1, 1, 0], -1), ([0, 0, 0, 1, 1, 0, 0], 1),
      ([0, 0, 1, 0, 0, 1, 0], 1)] := by decide +kernel

-- test_ito_mom.py line 144
example : Same (Ito.momentIEII 3 0 0) [([3, 0, 0, 0, 2, 1, 1], -1 / 2),
      ([3, 0, 0, 1, 2, 0, 1], 3 / 2), ([3, 1, 0, 0, 2, 1, 1], 3 / 2),
      ([3, 1, 0, 1, 2, 0, 1], -3), ([3, 2, 0, 0, 2, 1, 1], -3 / 2),
      ([3, 2, 0, 1, 2, 0, 1], 3 / 2), ([3, 3, 0, 0, 2, 1, 1], 1 / 2)] := by decide +kernel

-- test_ito_mom.py line 151
example : Same (Ito.momentIEII 2 1 0) [([2, 0, 0, 0, 2, 1, 1], 1), ([2, 0, 0, 1, 2, 0, 1], -1),
      ([2, 0, 1, 0, 1, 1, 1], 1), ([2, 0, 1, 1, 1, 0, 1], -2), ([2, 1, 0, 0, 2, 1, 1], -2),
      ([2, 1, 0, 1, 2, 0, 1], 1), ([2, 1, 1, 0, 1, 1, 1], -1), ([2, 1, 1, 1, 1, 0, 1], 1),
      ([2, 2, 0, 0, 2, 1, 1], 1)] := by decide +kernel

-- test_ito_mom.py line 160
example : Same (Ito.momentIEII 2 0 1) [] := by decide +kernel

-- test_ito_mom.py line 161
example : Same (Ito.momentIEII 1 2 0) [([1, -1, 0, 0, 2, 1, 1], -1 / 2),
      ([1, -1, 0, 1, 2, 0, 1], 1), ([1, 0, 0, 0, 2, 1, 1], -2), ([1, 0, 0, 1, 2, 0, 1], -1),
      ([1, 0, 1, 0, 1, 1, 1], -3), ([1, 0, 1, 1, 1, 0, 1], 1), ([1, 0, 2, 0, 0, 1, 1], -1),
      ([1, 0, 2, 1, 0, 0, 1], 1), ([1, 1, 0, 0, 2, 1, 1], 5 / 2)] := by decide +kernel

-- test_ito_mom.py line 170
example : Same (Ito.momentIEII 1 1 1) [] := by decide +kernel

-- test_ito_mom.py line 171
example : Same (Ito.momentIEII 1 0 2) [([1, -1, 0, 0, 2, 1, 1], -1 / 2),
      ([1, -1, 0, 1, 2, 0, 1], 1), ([1, 0, 0, 1, 2, 0, 1], -1), ([1, 0, 1, 0, 1, 1, 1], -1),
      ([1, 0, 1, 1, 1, 0, 1], 1), ([1, 1, 0, 0, 2, 1, 1], 1 / 2)] := by decide +kernel

-- test_ito_mom.py line 177
example : Same (Ito.momentIEII 0 3 0) [([0, -1, 0, 0, 2, 1, 1], 6),
      ([0, -1, 0, 1, 2, 0, 1], -3), ([0, -1, 1, 0, 1, 1, 1], 3), ([0, -1, 1, 1, 1, 0, 1], -3),
      ([0, 0, 0, 0, 2, 1, 1], -6), ([0, 0, 0, 1, 2, 0, 1], 3),
      ([0, 0, 1, 0, 1, 1, 1], 3)] := by decide +kernel

-- test_ito_mom.py line 184
example : Same (Ito.momentIEII 0 2 1) [] := by decide +kernel

-- test_ito_mom.py line 185
example : Same (Ito.momentIEII 0 1 2) [([0, -1, 0, 0, 2, 1, 1], 2),
      ([0, -1, 0, 1, 2, 0, 1], -1), ([0, -1, 1, 0, 1, 1, 1], 1), ([0, -1, 1, 1, 1, 0, 1], -1),
      ([0, 0, 0, 0, 2, 1, 1], -2), ([0, 0, 0, 1, 2, 0, 1], 1),
      ([0, 0, 1, 0, 1, 1, 1], 1)] := by decide +kernel

-- test_ito_mom.py line 192
example : Same (Ito.momentIEII 0 0 3) [] := by decide +kernel

-- test_ito_mom.py line 194
example : Same (Ito.momentIEII 4 0 0) [([4, 0, 0, 0, 2, 2, 0], 3 / 4),
      ([4, 0, 0, 0, 3, 1, 2], 3 / 4), ([4, 0, 0, 1, 2, 1, 0], -3), ([4, 0, 0, 1, 3, 0, 2], -3),
      ([4, 0, 0, 2, 2, 0, 0], 3), ([4, 1, 0, 0, 2, 2, 0], -3), ([4, 1, 0, 0, 3, 1, 2], -3),
      ([4, 1, 0, 1, 2, 1, 0], 9), ([4, 1, 0, 1, 3, 0, 2], 9), ([4, 1, 0, 2, 2, 0, 0], -6),
      ([4, 2, 0, 0, 2, 2, 0], 9 / 2), ([4, 2, 0, 0, 3, 1, 2], 9 / 2),
      ([4, 2, 0, 1, 2, 1, 0], -9), ([4, 2, 0, 1, 3, 0, 2], -9), ([4, 2, 0, 2, 2, 0, 0], 3),
      ([4, 3, 0, 0, 2, 2, 0], -3), ([4, 3, 0, 0, 3, 1, 2], -3), ([4, 3, 0, 1, 2, 1, 0], 3),
      ([4, 3, 0, 1, 3, 0, 2], 3), ([4, 4, 0, 0, 2, 2, 0], 3 / 4),
      ([4, 4, 0, 0, 3, 1, 2], 3 / 4)] := by decide +kernel

-- test_ito_cond_mom.py line 107
example : Same (ItoCond.momentIEII 3 0 0) [(⟨[2, 0, 2, 1, 0, 1], ⟨[], [], [], []⟩, []⟩, 3 / 2),
      (⟨[1, 0, 2, 1, 0, 1], ⟨[], [], [], []⟩, []⟩, -(3)),
      (⟨[0, 0, 2, 1, 0, 1], ⟨[], [], [], []⟩, []⟩, 3 / 2),
      (⟨[3, 0, 2, 0, 1, 1], ⟨[], [], [], []⟩, []⟩, 1 / 2),
      (⟨[0, 0, 2, 0, 1, 1], ⟨[], [], [], []⟩, []⟩, 1),
      (⟨[1, 0, 2, 0, 1, 1], ⟨[], [], [], []⟩, []⟩, -(3 / 2)),
      (⟨[2, 0, 2, 0, 0, 1], ⟨[1], [0], [], []⟩, []⟩, 3 / 2),
      (⟨[0, 0, 2, 0, 0, 1], ⟨[3], [0], [], []⟩, []⟩, 3 / 2),
      (⟨[1, 0, 2, 0, 0, 1], ⟨[2], [0], [], []⟩, []⟩, -(3))] := by decide +kernel

-- test_ito_cond_mom.py line 108
example : Same (ItoCond.momentIEII 2 1 0) [(⟨[1, 1, 1, 1, 0, 1], ⟨[], [], [], []⟩, []⟩, 1),
      (⟨[1, 0, 2, 0, 1, 1], ⟨[], [], [], []⟩, []⟩, -(1)),
      (⟨[0, 1, 1, 1, 0, 1], ⟨[], [], [], []⟩, []⟩, -(2)),
      (⟨[0, 1, 1, 0, 1, 1], ⟨[], [], [], []⟩, []⟩, -(1)),
      (⟨[1, 0, 2, 1, 0, 1], ⟨[], [], [], []⟩, []⟩, 1),
      (⟨[0, 0, 2, 1, 0, 1], ⟨[], [], [], []⟩, []⟩, -(1)),
      (⟨[2, 0, 2, 0, 1, 1], ⟨[], [], [], []⟩, []⟩, 1),
      (⟨[1, 1, 1, 0, 0, 1], ⟨[1], [0], [], []⟩, []⟩, 1),
      (⟨[1, 0, 1, 0, 0, 1], ⟨[1], [1], [], []⟩, []⟩, -(1)),
      (⟨[1, 0, 2, 0, 0, 1], ⟨[1], [0], [], []⟩, []⟩, 1),
      (⟨[0, 0, 2, 0, 0, 1], ⟨[2], [0], [], []⟩, []⟩, -(1)),
      (⟨[0, 1, 1, 0, 0, 1], ⟨[2], [0], [], []⟩, []⟩, -(2)),
      (⟨[0, 0, 1, 0, 0, 1], ⟨[2], [1], [], []⟩, []⟩, 2)] := by decide +kernel

-- test_ito_cond_mom.py line 109
example : Same (ItoCond.momentIEII 2 0 1) [] := by decide +kernel

-- test_ito_cond_mom.py line 110
example : Same (ItoCond.momentIEII 1 2 0) [(⟨[0, 1, 1, 1, 0, 1], ⟨[], [], [], []⟩, []⟩, 1),
      (⟨[-1, 0, 2, 1, 0, 1], ⟨[], [], [], []⟩, []⟩, 1),
      (⟨[0, 0, 2, 1, 0, 1], ⟨[], [], [], []⟩, []⟩, -(1)),
      (⟨[0, 2, 0, 1, 0, 1], ⟨[], [], [], []⟩, []⟩, 1),
      (⟨[1, 0, 2, 0, 1, 1], ⟨[], [], [], []⟩, []⟩, 5 / 2),
      (⟨[0, 0, 2, 0, 1, 1], ⟨[], [], [], []⟩, []⟩, -(3)),
      (⟨[-1, 0, 2, 0, 1, 1], ⟨[], [], [], []⟩, []⟩, 1 / 2),
      (⟨[0, 1, 1, 0, 1, 1], ⟨[], [], [], []⟩, []⟩, -(2)),
      (⟨[0, 1, 1, 0, 0, 1], ⟨[1], [0], [], []⟩, []⟩, 1),
      (⟨[0, 0, 1, 0, 0, 1], ⟨[1], [1], [], []⟩, []⟩, -(1)),
      (⟨[-1, 0, 2, 0, 0, 1], ⟨[2], [0], [], []⟩, []⟩, 1),
      (⟨[0, 0, 2, 0, 0, 1], ⟨[1], [0], [], []⟩, []⟩, -(1)),
      (⟨[0, 2, 0, 0, 0, 1], ⟨[1], [0], [], []⟩, []⟩, 1),
      (⟨[0, 0, 0, 0, 0, 1], ⟨[1], [2], [], []⟩, []⟩, 1),
      (⟨[0, 1, 0, 0, 0, 1], ⟨[1], [1], [], []⟩, []⟩, -(2))] := by decide +kernel

-- test_ito_cond_mom.py line 111
example : Same (ItoCond.momentIEII 1 1 1) [] := by decide +kernel

-- test_ito_cond_mom.py line 112
example : Same (ItoCond.momentIEII 1 0 2) [(⟨[0, 1, 1, 1, 0, 1], ⟨[], [], [], []⟩, []⟩, 1),
      (⟨[-1, 0, 2, 1, 0, 1], ⟨[], [], [], []⟩, []⟩, 1),
      (⟨[0, 0, 2, 1, 0, 1], ⟨[], [], [], []⟩, []⟩, -(1)),
      (⟨[1, 0, 2, 0, 1, 1], ⟨[], [], [], []⟩, []⟩, 1 / 2),
      (⟨[0, 0, 2, 0, 1, 1], ⟨[], [], [], []⟩, []⟩, -(1)),
      (⟨[-1, 0, 2, 0, 1, 1], ⟨[], [], [], []⟩, []⟩, 1 / 2),
      (⟨[0, 1, 1, 0, 0, 1], ⟨[1], [0], [], []⟩, []⟩, 1),
      (⟨[0, 0, 1, 0, 0, 1], ⟨[1], [1], [], []⟩, []⟩, -(1)),
      (⟨[-1, 0, 2, 0, 0, 1], ⟨[2], [0], [], []⟩, []⟩, 1),
      (⟨[0, 0, 2, 0, 0, 1], ⟨[1], [0], [], []⟩, []⟩, -(1))] := by decide +kernel

-- test_ito_cond_mom.py line 113
example : Same (ItoCond.momentIEII 0 3 0) [(⟨[-1, 1, 1, 1, 0, 1], ⟨[], [], [], []⟩, []⟩, -(3)),
      (⟨[-1, 0, 2, 1, 0, 1], ⟨[], [], [], []⟩, []⟩, -(3)),
      (⟨[0, 0, 2, 1, 0, 1], ⟨[], [], [], []⟩, []⟩, 3),
      (⟨[0, 1, 1, 0, 1, 1], ⟨[], [], [], []⟩, []⟩, 3),
      (⟨[-1, 0, 2, 0, 1, 1], ⟨[], [], [], []⟩, []⟩, 3),
      (⟨[0, 0, 2, 0, 1, 1], ⟨[], [], [], []⟩, []⟩, -(3)),
      (⟨[-1, 1, 1, 0, 0, 1], ⟨[1], [0], [], []⟩, []⟩, -(3)),
      (⟨[-1, 0, 2, 0, 0, 1], ⟨[1], [0], [], []⟩, []⟩, -(3)),
      (⟨[0, 0, 2, 0, 0, 1], ⟨[0], [0], [], []⟩, []⟩, 3),
      (⟨[-1, 0, 1, 0, 0, 1], ⟨[1], [1], [], []⟩, []⟩, 3)] := by decide +kernel

-- test_ito_cond_mom.py line 114
example : Same (ItoCond.momentIEII 0 2 1) [] := by decide +kernel

-- test_ito_cond_mom.py line 115
example : Same (ItoCond.momentIEII 0 1 2) [(⟨[-1, 1, 1, 1, 0, 1], ⟨[], [], [], []⟩, []⟩, -(1)),
      (⟨[-1, 0, 2, 1, 0, 1], ⟨[], [], [], []⟩, []⟩, -(1)),
      (⟨[0, 0, 2, 1, 0, 1], ⟨[], [], [], []⟩, []⟩, 1),
      (⟨[0, 1, 1, 0, 1, 1], ⟨[], [], [], []⟩, []⟩, 1),
      (⟨[-1, 0, 2, 0, 1, 1], ⟨[], [], [], []⟩, []⟩, 1),
      (⟨[0, 0, 2, 0, 1, 1], ⟨[], [], [], []⟩, []⟩, -(1)),
      (⟨[-1, 1, 1, 0, 0, 1], ⟨[1], [0], [], []⟩, []⟩, -(1)),
      (⟨[-1, 0, 2, 0, 0, 1], ⟨[1], [0], [], []⟩, []⟩, -(1)),
      (⟨[0, 0, 2, 0, 0, 1], ⟨[0], [0], [], []⟩, []⟩, 1),
      (⟨[-1, 0, 1, 0, 0, 1], ⟨[1], [1], [], []⟩, []⟩, 1)] := by decide +kernel

-- test_ito_cond_mom.py line 116
example : Same (ItoCond.momentIEII 0 0 3) [] := by decide +kernel

-- test_itos_mom.py line 13
example : Itos.cC 1 1 1 0 = ((1, 1, 1), 1) := by decide +kernel

-- test_itos_mom.py line 14
example : Itos.cC 1 1 1 1 = ((1, 1, 2), -1) := by decide +kernel

-- test_itos_mom.py line 16
example : Itos.cC 2 1 1 0 = ((2, 1, 1), 1) := by decide +kernel

-- test_itos_mom.py line 17
example : Itos.cC 2 1 1 1 = ((2, 1, 2), -1) := by decide +kernel

-- test_itos_mom.py line 19
example : Itos.cC 1 2 1 0 = ((1, 2, 1), 1) := by decide +kernel

-- test_itos_mom.py line 20
example : Itos.cC 1 2 1 1 = ((1, 2, 2), -1) := by decide +kernel

-- test_itos_mom.py line 33
example : Same (Itos.intEt Itos.code 0 0 0) [(⟨(0, 0, 0), (0, 0), 1⟩, 1)] := by decide +kernel

-- test_itos_mom.py line 35
example : Same (Itos.intEt Itos.code 0 0 1) [(⟨(0, 0, 0), (0, 0), 2⟩, 1 / 2)] := by decide +kernel

-- test_itos_mom.py line 36
example : Same (Itos.intEt Itos.code 0 0 2) [(⟨(0, 0, 0), (0, 0), 3⟩, 1 / 3)] := by decide +kernel

-- test_itos_mom.py line 37
example : Same (Itos.intEt Itos.code 0 0 3) [(⟨(0, 0, 0), (0, 0), 4⟩, 1 / 4)] := by decide +kernel

-- test_itos_mom.py line 39
example : Same (Itos.intEt Itos.code 1 0 0) [(⟨(1, 0, 1), (1, 0), 0⟩, 1), (⟨(1, 0, 1),
      (0, 0), 0⟩, -1)] := by decide +kernel

-- test_itos_mom.py line 40
example : Same (Itos.intEt Itos.code 0 1 0) [(⟨(0, 1, 1), (0, 1), 0⟩, 1), (⟨(0, 1, 1),
      (0, 0), 0⟩, -1)] := by decide +kernel

-- test_itos_mom.py line 41
example : Same (Itos.intEt Itos.code 1 1 0) [(⟨(1, 1, 1), (1, 1), 0⟩, 1), (⟨(1, 1, 1),
      (0, 0), 0⟩, -1)] := by decide +kernel

-- test_itos_mom.py line 42
example : Same (Itos.intEt Itos.code 2 3 0) [(⟨(2, 3, 1), (2, 3), 0⟩, 1), (⟨(2, 3, 1),
      (0, 0), 0⟩, -1)] := by decide +kernel

-- test_itos_mom.py line 44
example : Same (Itos.intEt Itos.code 1 0 1) [(⟨(1, 0, 1), (1, 0), 1⟩, 1), (⟨(1, 0, 2),
      (0, 0), 0⟩, 1), (⟨(1, 0, 2), (1, 0), 0⟩, -1)] := by decide +kernel

-- test_itos_mom.py line 47
example : Same (Itos.intEt Itos.code 0 1 1) [(⟨(0, 1, 1), (0, 1), 1⟩, 1), (⟨(0, 1, 2),
      (0, 0), 0⟩, 1), (⟨(0, 1, 2), (0, 1), 0⟩, -1)] := by decide +kernel

-- test_itos_mom.py line 50
example : Same (Itos.intEt Itos.code 2 3 4) [(⟨(2, 3, 1), (2, 3), 4⟩, 1), (⟨(2, 3, 2),
      (2, 3), 3⟩, -4), (⟨(2, 3, 3), (2, 3), 2⟩, 12), (⟨(2, 3, 4), (2, 3), 1⟩, -24), (⟨(2, 3, 5),
      (0, 0), 0⟩, -24), (⟨(2, 3, 5), (2, 3), 0⟩, 24)] := by decide +kernel

-- test_itos_mom.py line 71
example : Same (Itos.moment Itos.code (0, 0, 0, 0, 0)) [(⟨[(0, 0, 0)], (0, 0),
      (0, 0), [0, 0, 0, 0, 0, 0, 0]⟩, 1)] := by decide +kernel

-- test_itos_mom.py line 73
example : Same (Itos.moment Itos.code (1, 0, 0, 0, 0)) [] := by decide +kernel

-- test_itos_mom.py line 74
example : Same (Itos.moment Itos.code (0, 1, 0, 0, 0)) [] := by decide +kernel

-- test_itos_mom.py line 75
example : Same (Itos.moment Itos.code (0, 0, 1, 0, 0)) [] := by decide +kernel

-- test_itos_mom.py line 76
example : Same (Itos.moment Itos.code (0, 0, 0, 1, 0)) [] := by decide +kernel

-- test_itos_mom.py line 77
example : Same (Itos.moment Itos.code (0, 0, 0, 0, 1)) [] := by decide +kernel

-- test_itos_mom.py line 79
example : Same (Itos.moment Itos.code (2, 0, 0, 0, 0)) [(⟨[(1, 0, 1)], (2, 0),
      (0, 0), [0, 1, 0, 0, 0, 0, 0]⟩, -1), (⟨[(1, 0, 1)], (2, 0),
      (1, 0), [0, 0, 1, 0, 0, 0, 0]⟩, -1), (⟨[(1, 0, 1)], (2, 0),
      (1, 0), [0, 1, 0, 0, 0, 0, 0]⟩, 1), (⟨[(2, 0, 1)], (2, 0),
      (0, 0), [0, 0, 1, 0, 0, 0, 0]⟩, 1), (⟨[(2, 0, 1)], (2, 0),
      (2, 0), [0, 0, 1, 0, 0, 0, 0]⟩, 1)] := by decide +kernel

-- test_itos_mom.py line 84
example : Same (Itos.moment Itos.code (1, 1, 0, 0, 0)) [(⟨[(0, 0, 0)], (1, 0),
      (0, 0), [1, 0, 1, 0, 0, 0, 0]⟩, -1), (⟨[(0, 0, 0)], (1, 0),
      (0, 0), [1, 1, 0, 0, 0, 0, 0]⟩, 1), (⟨[(1, 0, 1)], (1, 0),
      (0, 0), [0, 0, 1, 0, 0, 0, 0]⟩, -1), (⟨[(1, 0, 1)], (1, 0),
      (1, 0), [0, 0, 1, 0, 0, 0, 0]⟩, 1)] := by decide +kernel

-- test_itos_mom.py line 88
example : Same (Itos.moment Itos.code (0, 2, 0, 0, 0)) [(⟨[(0, 0, 0)], (0, 0),
      (0, 0), [1, 0, 1, 0, 0, 0, 0]⟩, 1), (⟨[(1, 0, 1)], (0, 0),
      (-1, 0), [0, 0, 1, 0, 0, 0, 0]⟩, 1), (⟨[(1, 0, 1)], (0, 0),
      (-1, 0), [0, 1, 0, 0, 0, 0, 0]⟩, -1), (⟨[(1, 0, 1)], (0, 0),
      (0, 0), [0, 0, 1, 0, 0, 0, 0]⟩, -1), (⟨[(1, 0, 1)], (0, 0),
      (0, 0), [0, 1, 0, 0, 0, 0, 0]⟩, 1)] := by decide +kernel

-- test_itos_mom.py line 94
example : Same (Itos.moment Itos.code (3, 0, 0, 0, 0)) [(⟨[(1, 0, 1), (2, 0, 1)], (3, 0),
      (0, 0), [0, 0, 1, 1, 0, 0, 0]⟩, -3), (⟨[(1, 0, 1), (2, 0, 1)], (3, 0),
      (1, 0), [0, 0, 1, 1, 0, 0, 0]⟩, 3), (⟨[(1, 0, 2)], (3, 0),
      (0, 0), [0, 1, 0, 1, 0, 0, 0]⟩, 3), (⟨[(1, 0, 2)], (3, 0),
      (1, 0), [0, 1, 0, 1, 0, 0, 0]⟩, -3), (⟨[(2, 0, 1), (1, 0, 1)], (3, 0),
      (0, 0), [0, 0, 1, 1, 0, 0, 0]⟩, 3), (⟨[(2, 0, 1), (1, 0, 1)], (3, 0),
      (0, 0), [0, 1, 0, 1, 0, 0, 0]⟩, -3), (⟨[(2, 0, 1), (1, 0, 1)], (3, 0),
      (2, 0), [0, 0, 1, 1, 0, 0, 0]⟩, -3), (⟨[(2, 0, 1), (1, 0, 1)], (3, 0),
      (2, 0), [0, 1, 0, 1, 0, 0, 0]⟩, 3), (⟨[(3, 0, 1), (2, 0, 1)], (3, 0),
      (0, 0), [0, 0, 1, 1, 0, 0, 0]⟩, -3), (⟨[(3, 0, 1), (2, 0, 1)], (3, 0),
      (3, 0), [0, 0, 1, 1, 0, 0, 0]⟩, 3)] := by decide +kernel

-- docs/source/usage.rst lines 96-97
example : Same (Fsv1.momentY 1) [([0, 1, 0, 0, 1, 0, 0, 0], -1 / 2),
      ([0, 1, 0, 1, 0, 0, 0, 0], 1)] := by decide +kernel

-- docs/source/usage.rst lines 133-162
#guard Same (Fsv1.covYY 2 1) [([0, 0, 3, 0, 1, 2, 0, 2], -1 / 4),
      ([0, 0, 3, 0, 1, 2, 2, 0], -5 / 4), ([0, 0, 4, 0, 1, 3, 1, 0], 3 / 4),
      ([0, 0, 5, 0, 1, 4, 0, 0], -1 / 8), ([0, 1, 2, 0, 2, 1, 1, 0], 1 / 2),
      ([0, 1, 2, 1, 1, 1, 1, 0], -1), ([0, 1, 3, 0, 2, 2, 0, 0], -1 / 8),
      ([0, 1, 3, 1, 1, 2, 0, 0], 1 / 4), ([1, 0, 3, 0, 1, 2, 0, 2], 1 / 2),
      ([1, 0, 3, 0, 1, 2, 2, 0], 5 / 2), ([1, 0, 4, 0, 1, 3, 1, 0], -3 / 2),
      ([1, 0, 5, 0, 1, 4, 0, 0], 1 / 4), ([1, 1, 2, 0, 1, 2, 2, 0], 1),
      ([1, 1, 2, 0, 2, 1, 1, 0], -1), ([1, 1, 2, 1, 1, 1, 1, 0], 2),
      ([1, 1, 3, 0, 1, 3, 1, 0], -3 / 4), ([1, 1, 3, 0, 2, 2, 0, 0], 1 / 4),
      ([1, 1, 3, 1, 1, 2, 0, 0], -1 / 2), ([1, 1, 4, 0, 1, 4, 0, 0], 1 / 8),
      ([2, 0, 3, 0, 1, 2, 0, 2], -1 / 4), ([2, 0, 3, 0, 1, 2, 2, 0], -5 / 4),
      ([2, 0, 4, 0, 1, 3, 1, 0], 3 / 4), ([2, 0, 5, 0, 1, 4, 0, 0], -1 / 8),
      ([2, 1, 2, 0, 1, 2, 2, 0], -1), ([2, 1, 2, 0, 2, 1, 1, 0], 1 / 2),
      ([2, 1, 2, 1, 1, 1, 1, 0], -1), ([2, 1, 3, 0, 1, 3, 1, 0], 3 / 4),
      ([2, 1, 3, 0, 2, 2, 0, 0], -1 / 8), ([2, 1, 3, 1, 1, 2, 0, 0], 1 / 4),
      ([2, 1, 4, 0, 1, 4, 0, 0], -1 / 8)]

-- docs/source/usage.rst lines 99 and 164
#guard (Fsv1.momentY 1).map Poly.keyfor = .ok ["e^{-kh}", "h", "k^{-}", "mu", "theta", "sigma_v", "rho", "sqrt(1-rho^2)"] ∧
    (Fsv1.covYY 2 1).map Poly.keyfor = .ok ["e^{-kh}", "h", "k^{-}", "mu", "theta", "sigma_v", "rho", "sqrt(1-rho^2)"]

end Ajd.Fidelity
