import Mathlib.Data.Rat.Defs
import Verif.Model.Py

/-!
# The comparison of the tests
-/

namespace TreeCat

/-- A number in an array or on its own: a rational or `nan`. Infinities are left out. -/
inductive PyNum where
  | num (q : ℚ)
  | nan
  deriving DecidableEq

/-- Types of numbers; `np` stands for the scalar types of NumPy, by name. -/
inductive PyNumTy where
  | int
  | float
  | bool
  | np (name : String)
  deriving DecidableEq

/-- The types told apart by `type(x) == type(y)`; the type of an array does not show its `dtype`. -/
inductive PyTy where
  | num (ty : PyNumTy)
  | str
  | list
  | dict
  | ndarray
  deriving DecidableEq

/-- Elements of lists: numbers and strings. -/
inductive PyAtom where
  | number (ty : PyNumTy) (c : PyNum)
  | str (s : String)
  deriving DecidableEq

mutual
/-- The arguments of `assert_equal`, testutil.py:82-91: numbers, strings, lists of numbers and strings, dictionaries with string keys,
and arrays of numbers (shape, `dtype`, elements in row-major order). Nested lists, tuples and other objects, compared by their own `==`, are
left out. -/
inductive PyObj where
  | number (ty : PyNumTy) (c : PyNum)
  | str (s : String)
  | list (items : List PyAtom)
  | dict (entries : PyItems)
  | array (shape : List Nat) (dtype : String) (cells : List PyNum)

/-- The items of a dictionary in the order of insertion. -/
inductive PyItems where
  | nil
  | cons (key : String) (val : PyObj) (rest : PyItems)
end

/-- `type(x)`. -/
def PyObj.type : PyObj → PyTy
  | .number ty _ => .num ty
  | .str _ => .str
  | .list _ => .list
  | .dict _ => .dict
  | .array _ _ _ => .ndarray

/-- `d.keys()`. -/
def PyItems.keys : PyItems → List String
  | .nil => []
  | .cons k _ rest => k :: rest.keys

/-- `d[key]`. -/
def PyItems.get (key : String) : PyItems → Py PyObj
  | .nil => .error .keyError
  | .cons k v rest => if k = key then .ok v else rest.get key

/-- `x == y` for numbers: `nan` equals nothing. -/
def PyNum.eq : PyNum → PyNum → Bool
  | .num p, .num q => p == q
  | _, _ => false

/-- `x == y` for elements of lists: numbers of different types are compared by value. The two lists share no `nan` object (which
`==` of lists would take for equal without comparing it). -/
def PyAtom.eq : PyAtom → PyAtom → Bool
  | .number _ c, .number _ c' => c.eq c'
  | .str s, .str s' => s == s'
  | _, _ => false

/-- `x == y` for lists. -/
def listEq : List PyAtom → List PyAtom → Bool
  | [], [] => true
  | x :: xs, y :: ys => x.eq y && listEq xs ys
  | _, _ => false

/-- Elements that `np.testing.assert_array_equal` accepts: equal, or both `nan`. -/
def PyNum.same : PyNum → PyNum → Bool
  | .num p, .num q => p == q
  | .nan, .nan => true
  | _, _ => false

/-- `np.testing.assert_array_equal(x, y)`, called at testutil.py:89: the shapes agree or one of the arrays has no dimension, and is then
compared with every element of the other; `dtype`s are not compared. -/
def assertArrayEqual (sh1 : List Nat) (xs : List PyNum) (sh2 : List Nat) (ys : List PyNum) : Py Unit :=
  pyAssert <|
    if sh1 = [] then ys.all fun c => (xs.headD .nan).same c
    else if sh2 = [] then xs.all fun c => c.same (ys.headD .nan)
    else decide (sh1 = sh2) && (xs.zip ys).all fun p => p.1.same p.2

mutual
/-- `assert_equal(x, y)`, testutil.py:82-91. -/
def assertEqual : PyObj → PyObj → Py Unit
  | .dict xs, y => do
    pyAssert (decide (PyTy.dict = y.type))
    match y with
    | .dict ys =>
      pyAssert (xs.keys.all (· ∈ ys.keys) && ys.keys.all (· ∈ xs.keys))
      assertItems xs ys
    | _ => .ok ()
  | .array sh1 _ xs, y => do
    pyAssert (decide (PyTy.ndarray = y.type))
    match y with
    | .array sh2 _ ys => assertArrayEqual sh1 xs sh2 ys
    | _ => .ok ()
  | .number ty c, y => do
    pyAssert (decide (PyTy.num ty = y.type))
    match y with
    | .number _ c' => pyAssert (c.eq c')
    | _ => .ok ()
  | .str s, y => do
    pyAssert (decide (PyTy.str = y.type))
    match y with
    | .str s' => pyAssert (s == s')
    | _ => .ok ()
  | .list xs, y => do
    pyAssert (decide (PyTy.list = y.type))
    match y with
    | .list ys => pyAssert (listEq xs ys)
    | _ => .ok ()

/-- The loop over `x.keys()`, testutil.py:86-87. -/
def assertItems : PyItems → PyItems → Py Unit
  | .nil, _ => .ok ()
  | .cons k v rest, ys => do
    let w ← ys.get k
    assertEqual v w
    assertItems rest ys
end

end TreeCat
