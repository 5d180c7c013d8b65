import Verif.Model.Structure

/-!
# The tables of `structure_test.py`, run on the model

These are tests of the model, not proofs: they compare it with the results that the authors of the code expect.
-/

namespace TreeCat

/-! structure_test.py:48-61 -/
example : makeCompleteGraph 0 = .ok [] := by decide +kernel
example : makeCompleteGraph 1 = .ok [] := by decide +kernel
example : makeCompleteGraph 2 = .ok [(0, 0, 1)] := by decide +kernel
example : makeCompleteGraph 3 = .ok [(0, 0, 1), (1, 0, 2), (2, 1, 2)] := by decide +kernel
example : makeCompleteGraph 4 = .ok [(0, 0, 1), (1, 0, 2), (2, 1, 2), (3, 0, 3), (4, 1, 3), (5, 2, 3)] := by decide +kernel

/-! structure_test.py:64-78 -/
example : makeTree [] = [] := by decide +kernel
example : makeTree [(0, 1)] = [(0, 0, 1)] := by decide +kernel
example : makeTree [(0, 1), (1, 2)] = [(0, 0, 1), (1, 1, 2)] := by decide +kernel
example : makeTree [(0, 1), (0, 2)] = [(0, 0, 1), (1, 0, 2)] := by decide +kernel
example : makeTree [(2, 1), (1, 0)] = [(0, 0, 1), (1, 1, 2)] := by decide +kernel

/-! structure_test.py:92-107 -/
example : findCenter (makeTree []) = .ok 0 := by decide +kernel
example : findCenter (makeTree [(0, 1)]) = .ok 0 := by decide +kernel
example : findCenter (makeTree [(0, 1), (0, 2)]) = .ok 0 := by decide +kernel
example : findCenter (makeTree [(0, 1), (1, 2)]) = .ok 1 := by decide +kernel
example : findCenter (makeTree [(0, 2), (1, 2)]) = .ok 2 := by decide +kernel
example : findCenter (makeTree [(0, 1), (1, 2), (2, 3)]) = .ok 1 := by decide +kernel
example : findCenter (makeTree [(0, 1), (1, 2), (1, 3)]) = .ok 1 := by decide +kernel
example : findCenter (makeTree [(0, 1), (1, 2), (2, 3), (3, 4)]) = .ok 2 := by decide +kernel
example : findCenter (makeTree [(0, 2), (1, 2), (2, 3), (2, 4)]) = .ok 2 := by decide +kernel

end TreeCat
