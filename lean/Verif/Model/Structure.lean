import Mathlib.Algebra.Order.Field.Basic
import Mathlib.Data.List.Sort
import Verif.Model.Py
import Verif.Model.Rand

/-!
# Model of `treecat/structure.py`

Vertices and edge ids are natural numbers. numpy integer widths are not modelled
here except in `findCompleteEdge32`; separate theorems bound the values stored.
Python sets of vertices are lists without duplicates; the code iterates over them
in sorted order except in `order_vertices`, where the order is a parameter.
-/

namespace TreeCat

abbrev Edge := Nat × Nat

/-- A 3 x E grid of (edge id, vertex, vertex) columns. -/
abbrev Grid := List (Nat × Nat × Nat)

/-! ### Complete graphs -/

/-- `find_complete_edge(v1, v2)`, structure.py:86-91. -/
def findCompleteEdge (v1 v2 : Nat) : Nat :=
  if v2 < v1 then v2 + v1 * (v1 - 1) / 2 else v1 + v2 * (v2 - 1) / 2

/-- Wrap-around to a signed 32 bit integer. -/
def wrap32 (i : Int) : Int := (i + 2 ^ 31) % 2 ^ 32 - 2 ^ 31

/-- `find_complete_edge` with every intermediate result wrapped to int32, as its
numba signature allows, structure.py:86-91. -/
def findCompleteEdge32 (v1 v2 : Int) : Int :=
  let f (a b : Int) : Int := wrap32 (a + wrap32 (wrap32 (b * wrap32 (b - 1)) / 2))
  if v2 < v1 then f v2 v1 else f v1 v2

/-- Body of the inner loop of `make_complete_graph`, structure.py:113-114. -/
def completeStep (s : Grid × Nat) (v1v2 : Nat × Nat) : Py (Grid × Nat) := do
  let grid ← pySet s.1 s.2 (s.2, v1v2.1, v1v2.2)
  .ok (grid, s.2 + 1)

/-- `make_complete_graph(V)`, structure.py:94-115: the doubly nested loop over
`v2 in range(V)`, `v1 in range(v2)` writing into an array of K zero columns. -/
def makeCompleteGraph (V : Nat) : Py Grid := do
  let K := V * (V - 1) / 2
  let s ← (List.range V).foldlM (fun s v2 =>
    (List.range v2).foldlM (fun s v1 => completeStep s (v1, v2)) s)
    (List.replicate K (0, 0, 0), 0)
  .ok s.1

/-! ### Trees -/

/-- `tuple(sorted(edge))`, structure.py:130. -/
def sortPair (e : Edge) : Edge := if e.2 < e.1 then (e.2, e.1) else e

/-- Lexicographic order on pairs, as Python compares tuples. -/
def edgeLe (a b : Edge) : Prop := a.1 < b.1 ∨ a.1 = b.1 ∧ a.2 ≤ b.2

instance : DecidableRel edgeLe := fun _ _ => inferInstanceAs (Decidable (_ ∨ _))

/-- `sorted(tuple(sorted(pair)) for pair in edges)`, structure.py:130-131, 471. -/
def sortEdges (edges : List Edge) : List Edge := (edges.map sortPair).insertionSort edgeLe

/-- `make_tree(edges)`, structure.py:118-136. The check that each edge is a tuple
holds by typing. -/
def makeTree (edges : List Edge) : Grid :=
  (sortEdges edges).mapIdx fun e v => (e, v.1, v.2)

/-- `TreeStructure`, structure.py:25-83, without its lazily built caches. -/
structure TreeStructure where
  numVertices : Nat
  treeGrid : Grid
  deriving DecidableEq, Repr

/-- `set_edges`, structure.py:40-47. `num_edges = num_vertices - 1` is an integer
subtraction, so for zero vertices nothing is accepted. -/
def TreeStructure.setEdges (t : TreeStructure) (edges : List Edge) : Py TreeStructure := do
  pyAssert ((edges.length : Int) == (t.numVertices : Int) - 1)
  .ok { t with treeGrid := makeTree edges }

/-- `get_edges`, structure.py:49-55. -/
def TreeStructure.getEdges (t : TreeStructure) : List Edge := t.treeGrid.map fun c => (c.2.1, c.2.2)

/-- `TreeStructure(num_vertices)`, structure.py:28-34. -/
def TreeStructure.init (V : Nat) : Py TreeStructure :=
  TreeStructure.setEdges ⟨V, []⟩ ((List.range (V - 1)).map fun v => (v, v + 1))

/-! ### Neighbour sets -/

/-- `s.add(x)` on a set. -/
def setAdd (s : List Nat) (x : Nat) : List Nat := if x ∈ s then s else s ++ [x]

/-- `neighbors[v1].add(v2); neighbors[v2].add(v1)`, structure.py:152-153,
229-230, 531-532. -/
def addNeighbors (N : List (List Nat)) (e : Edge) : Py (List (List Nat)) := do
  let a ← pyGet N e.1
  let N ← pySet N e.1 (setAdd a e.2)
  let b ← pyGet N e.2
  pySet N e.2 (setAdd b e.1)

/-- `neighbors = [set() for _ in range(V)]` filled from the edges. -/
def buildNeighbors (V : Nat) (edges : List Edge) : Py (List (List Nat)) :=
  edges.foldlM addNeighbors (List.replicate V [])

/-- The (v1, v2) columns of a grid. -/
def gridEdges (g : Grid) : List Edge := g.map fun c => (c.2.1, c.2.2)

/-- `sorted(s)`. -/
def sortAsc (s : List Nat) : List Nat := s.insertionSort (· ≤ ·)

/-- `sorted(s, reverse=True)`. -/
def sortDesc (s : List Nat) : List Nat := s.insertionSort (· ≥ ·)

/-! ### `find_center_of_tree` -/

/-- The inner loop, structure.py:160-163: remove `v` from each neighbour and queue
the neighbours that became leaves. -/
def centerInner (v : Nat) : List Nat → List (List Nat) × List Nat → Py (List (List Nat) × List Nat)
  | [], s => .ok s
  | v2 :: vs, (N, Q) => do
    let a ← pyGet N v2
    if v ∈ a then
      let a' := a.erase v
      let N ← pySet N v2 a'
      centerInner v vs (N, if a'.length = 1 then Q ++ [v2] else Q)
    else .error .keyError

/-- The outer loop, structure.py:158-164. `last` is the variable `v`, unbound
before the first iteration. -/
def centerLoop : Nat → List (List Nat) → List Nat → Option Nat → Py Nat
  | _, _, [], some v => .ok v
  | _, _, [], none => .error .nameError
  | 0, _, _ :: _, _ => .error .timeout
  | fuel + 1, N, v :: Q, _ => do
    let a ← pyGet N v
    let (N, Q) ← centerInner v (sortDesc a) (N, Q)
    centerLoop fuel N Q (some v)

/-- `find_center_of_tree(grid)`, structure.py:139-164. -/
def findCenter (grid : Grid) : Py Nat := do
  let V := 1 + grid.length
  let N ← buildNeighbors V (gridEdges grid)
  let Q := (List.range V).reverse.filter fun v => (N.getD v []).length ≤ 1
  centerLoop V N Q none

/-! ### `make_propagation_program` -/

/-- Op codes, structure.py:167-172. -/
inductive Op where
  | UP | IN | ROOT | OUT | DOWN
  deriving DecidableEq, Repr

/-- One instruction `[op_code, vertex, relative_vertex, relative_edge]`. Unset
operands are 0. The array is int16; the theorems bound the operands. -/
structure Instr where
  op : Op
  v : Nat
  v2 : Nat
  e : Nat
  deriving DecidableEq, Repr

/-- `edge_dict`, structure.py:227-232, as a list of assignments, latest first. -/
def buildEdgeDict (grid : Grid) : List (Edge × Nat) :=
  grid.foldl (fun d c => ((c.2.2, c.2.1), c.1) :: ((c.2.1, c.2.2), c.1) :: d) []

/-- `edge_dict[u, v]`. -/
def edgeLookup (d : List (Edge × Nat)) (k : Edge) : Py Nat :=
  match d.lookup k with
  | some e => .ok e
  | none => .error .keyError

/-- `[v2 for v2 in sorted(neighbors[v]) if v2 != parent]`, structure.py:241-243 and
245-247. -/
def childrenOf (N : List (List Nat)) (v : Nat) (parent : Option Nat) : Py (List Nat) := do
  let a ← pyGet N v
  .ok ((sortAsc a).filter fun v2 => some v2 != parent)

/-- The breadth first loop, structure.py:235-243. -/
def bfsLoop (N : List (List Nat)) : Nat → List (Nat × Option Nat) → List (Nat × Option Nat) →
    Py (List (Nat × Option Nat))
  | _, [], acc => .ok acc
  | 0, _ :: _, _ => .error .timeout
  | fuel + 1, (v, parent) :: Q, acc => do
    let cs ← childrenOf N v parent
    bfsLoop N fuel (Q ++ cs.map fun c => (c, some v)) (acc ++ [(v, parent)])

/-- The inward part of the program for one vertex, structure.py:252-257. -/
def inwardCode (N : List (List Nat)) (d : List (Edge × Nat)) (vp : Nat × Option Nat) :
    Py (List Instr) := do
  let cs ← childrenOf N vp.1 vp.2
  let ins ← cs.mapM fun c => do
    let e ← edgeLookup d (vp.1, c)
    .ok ⟨.IN, vp.1, c, e⟩
  .ok (⟨.UP, vp.1, 0, 0⟩ :: ins)

/-- The outward part of the program for one vertex, structure.py:260-265. -/
def outwardCode (d : List (Edge × Nat)) (vp : Nat × Option Nat) : Py (List Instr) :=
  match vp.2 with
  | none => .ok [⟨.DOWN, vp.1, 0, 0⟩]
  | some p => do
    let e ← edgeLookup d (vp.1, p)
    .ok [⟨.OUT, vp.1, p, e⟩, ⟨.DOWN, vp.1, 0, 0⟩]

/-- `make_propagation_program(grid, root)`, structure.py:175-268. The instructions
are collected in a list and its length is compared with the size of the
preallocated array: writing past its end raises `IndexError`, ending early fails
the final assertion. -/
def makeProgram (grid : Grid) (root : Option Nat) : Py (List Instr) := do
  let root ← match root with
    | none => findCenter grid
    | some r => .ok r
  let E := grid.length
  let V := 1 + E
  let N ← buildNeighbors V (gridEdges grid)
  let d := buildEdgeDict grid
  let nested ← bfsLoop N V [(root, none)] []
  let inward ← nested.reverse.mapM (inwardCode N d)
  let outward ← nested.mapM (outwardCode d)
  let program := inward.flatten ++ [⟨.ROOT, root, 0, 0⟩] ++ outward.flatten
  if V + E + 1 + E + V < program.length then .error .indexError
  else do
    pyAssert (program.length == V + E + 1 + E + V)
    .ok program

/-! ### jit sets

An array `[size, item 1, ..., item size, unused, ...]`. Compiled code does not
check bounds; here an access outside the array is `PyErr.indexError`, and the
theorems show that it does not occur. -/

/-- `jit_set_add(jit_set, item)`, structure.py:276-284. -/
def jitSetAdd (s : List Nat) (item : Nat) : Py (List Nat) := do
  let size ← pyGet s 0
  let s ← pySet s 0 (size + 1)
  pySet s (size + 1) item

/-- `jit_set_pop(jit_set)`, structure.py:287-292. -/
def jitSetPop (s : List Nat) : Py (List Nat × Nat) := do
  let size ← pyGet s 0
  let s ← pySet s 0 (size - 1)
  let x ← pyGet s size
  .ok (s, x)

/-- The search loop of `jit_set_remove`, structure.py:301-303. -/
def jitFind (s : List Nat) (item : Nat) : Nat → Nat → Py Nat
  | 0, _ => .error .timeout
  | fuel + 1, pos => do
    let x ← pyGet s pos
    if x ≠ item then jitFind s item fuel (pos + 1) else .ok pos

/-- `jit_set_remove(jit_set, item)`, structure.py:295-307. The fuel `len + 1` lets
the search run off the end of the array, which is an out of bounds access. -/
def jitSetRemove (s : List Nat) (item : Nat) : Py (List Nat) := do
  let pos ← jitFind s item (s.length + 1) 1
  let size ← pyGet s 0
  let s ← if pos ≠ size then do
      let x ← pyGet s size
      pySet s pos x
    else .ok s
  pySet s 0 (size - 1)

/-! ### `sample_tree` -/

/-- `jit_set_op(neighbors[v], item)`: apply a set operation to one row. -/
def onRow (N : List (List Nat)) (v : Nat) (f : List Nat → Py (List Nat)) : Py (List (List Nat)) := do
  let row ← pyGet N v
  let row ← f row
  pySet N v row

/-- The inner loop of the component search, structure.py:322-325, over
`i in range(neighbors[v1, 0])`. -/
def dfsPush (row : List Nat) (components : List Bool) : Nat → Nat → List Nat → Py (List Nat)
  | 0, _, stack => .ok stack
  | k + 1, i, stack => do
    let v2 ← pyGet row (i + 1)
    let c ← pyGet components v2
    let stack ← if c then .ok stack else jitSetAdd stack v2
    dfsPush row components k (i + 1) stack

/-- The component search, structure.py:319-325. -/
def dfsLoop (N : List (List Nat)) : Nat → List Bool → List Nat → Py (List Bool)
  | fuel, components, stack => do
    let size ← pyGet stack 0
    if size = 0 then .ok components
    else match fuel with
      | 0 => .error .timeout
      | fuel + 1 => do
        let (stack, v1) ← jitSetPop stack
        let components ← pySet components v1 true
        let row ← pyGet N v1
        let n ← pyGet row 0
        let stack ← dfsPush row components n 0 stack
        dfsLoop N fuel components stack

/-- `jit_remove_edge(grid, e2k, neighbors, components, e)`, structure.py:310-326.
Returns `k` and the updated arrays. -/
def jitRemoveEdge (grid : Grid) (e2k : List Nat) (N : List (List Nat)) (components : List Bool)
    (e : Nat) : Py (Nat × List (List Nat) × List Bool) := do
  let k ← pyGet e2k e
  let col ← pyGet grid k
  let v1 := col.2.1
  let v2 := col.2.2
  let N ← onRow N v1 (jitSetRemove · v2)
  let N ← onRow N v2 (jitSetRemove · v1)
  let stack ← jitSetAdd (List.replicate N.length 0) v1
  let components ← dfsLoop N N.length components stack
  .ok (k, N, components)

/-- `jit_add_edge(grid, e2k, neighbors, components, e, k)`, structure.py:329-336.
Returns the updated arrays. -/
def jitAddEdge (grid : Grid) (e2k : List Nat) (N : List (List Nat)) (components : List Bool)
    (e k : Nat) : Py (List Nat × List (List Nat) × List Bool) := do
  let e2k ← pySet e2k e k
  let col ← pyGet grid k
  let v1 := col.2.1
  let v2 := col.2.2
  let N ← onRow N v1 (jitSetAdd · v2)
  let N ← onRow N v2 (jitSetAdd · v1)
  .ok (e2k, N, components.map fun _ => false)

/-- Body of the loops of `find_valid_edges`, structure.py:355-360. The state is
(valid_edges, k, end). -/
def validStep (components : List Bool) (s : List Nat × Nat × Nat) (v2 v1 : Nat) :
    Py (List Nat × Nat × Nat) := do
  let c2 ← pyGet components v2
  let c1 ← pyGet components v1
  if c2 != c1 then do
    let buf ← pySet s.1 s.2.2 s.2.1
    .ok (buf, s.2.1 + 1, s.2.2 + 1)
  else .ok (s.1, s.2.1 + 1, s.2.2)

/-- `find_valid_edges(components, valid_edges)`, structure.py:339-361. Returns the
filled buffer and `end`. -/
def findValidEdges (components : List Bool) (buf : List Nat) : Py (List Nat × Nat) := do
  let s ← (List.range components.length).foldlM (fun s v2 =>
    (List.range v2).foldlM (fun s v1 => validStep components s v2 v1) s) (buf, 0, 0)
  .ok (s.1, s.2.2)

/-- The mutable arrays of `sample_tree`. `validEdges` keeps stale contents from
earlier iterations, as in the code. -/
structure TreeState where
  e2k : List Nat
  neighbors : List (List Nat)
  components : List Bool
  validEdges : List Nat
  deriving DecidableEq, Repr

/-- Filling `e2k` and `neighbors` from the given edges, structure.py:396-400. -/
def treeStateStep (s : List Nat × List (List Nat)) (ee : Nat × Edge) :
    Py (List Nat × List (List Nat)) := do
  let e2k ← pySet s.1 ee.1 (findCompleteEdge ee.2.1 ee.2.2)
  let N ← onRow s.2 ee.2.1 (jitSetAdd · ee.2.2)
  let N ← onRow N ee.2.2 (jitSetAdd · ee.2.1)
  .ok (e2k, N)

/-- The arrays before the main loop, structure.py:390-401. `junk` is the contents
of `np.empty(K)`. -/
def treeStateInit (junk : Nat → Nat) (edges : List Edge) : Py TreeState := do
  let E := edges.length
  let V := E + 1
  let K := V * (V - 1) / 2
  let s ← ((List.range E).zip edges).foldlM treeStateStep
    (List.replicate E 0, List.replicate V (List.replicate V 0))
  .ok ⟨s.1, s.2, List.replicate V false, (List.range K).map junk⟩

section
variable {K : Type} [Field K] [LinearOrder K] {m : Type → Type} [Monad m] [Choose K m]

/-- `valid_probs = np.exp(valid_probs - valid_probs.max())`, structure.py:408-410.
`expf` stands for the exponential function. `max` of an empty array raises. -/
def expNormalize (expf : K → K) (logits : List K) : Py (List K) :=
  match logits with
  | [] => .error .valueError
  | l :: ls =>
    let mx := ls.foldl max l
    .ok ((l :: ls).map fun x => expf (x - mx))

/-- The deterministic first half of one iteration, structure.py:406-410: remove
edge `e`, find the valid replacements and their weights. -/
def proposeEdges (expf : K → K) (grid : Grid) (logits : List K) (s : TreeState) (e : Nat) :
    Py (Nat × TreeState × Nat × List K) := do
  let (k1, N, comps) ← jitRemoveEdge grid s.e2k s.neighbors s.components e
  let (buf, num) ← findValidEdges comps s.validEdges
  let ls ← (buf.take num).mapM fun k => pyGet logits k
  let probs ← expNormalize expf ls
  .ok (k1, ⟨s.e2k, N, comps, buf⟩, num, probs)

/-- The deterministic last part, structure.py:417: put the edge back at `k2`. -/
def placeEdge (grid : Grid) (s : TreeState) (e k2 : Nat) : Py TreeState := do
  let (e2k, N, comps) ← jitAddEdge grid s.e2k s.neighbors s.components e k2
  .ok ⟨e2k, N, comps, s.validEdges⟩

/-- One iteration of the main loop of `sample_tree`, structure.py:405-417.
Counters and histograms are not modelled. -/
def sampleTreeStep (expf : K → K) (grid : Grid) (logits : List K) (s : TreeState) (e : Nat) :
    ExceptT PyErr m TreeState := do
  let (k1, s, num, probs) ← liftPy (proposeEdges expf grid logits s e)
  if 0 < probs.sum then do
    let i ← sampleIndex (m := m) probs
    if i < num then do
      let k2 ← liftPy (pyGet s.validEdges i)
      liftPy (placeEdge grid s e k2)
    else throw .indexError
  else liftPy (placeEdge grid s e k1)

/-- `sample_tree(grid, edge_logits, edges)`, structure.py:364-428. `perm` is the
result of `np.random.permutation(E)`. -/
def sampleTree (expf : K → K) (junk : Nat → Nat) (grid : Grid) (logits : List K)
    (edges : List Edge) (perm : List Nat) : ExceptT PyErr m (List Edge) := do
  if edges.length ≤ 1 then pure edges
  else do
    let s ← liftPy (treeStateInit junk edges)
    let s ← perm.foldlM (sampleTreeStep expf grid logits) s
    let out ← liftPy (s.e2k.mapM fun k => do
      let c ← pyGet grid k
      .ok (c.2.1, c.2.2))
    let out := out.insertionSort edgeLe
    liftPy (pyAssert (out.length == edges.length))
    pure out

end

/-! ### `triangular_to_square` and `estimate_tree` -/

/-- `int(round(0.5 + (0.25 + 2 * K)**0.5))`, structure.py:443, as exact integer
arithmetic; `triangleSize_eq_round` relates it to the real formula. -/
def triangleSize (K : Nat) : Nat := 1 + Nat.sqrt (1 + 8 * K) / 2

/-- `square[rows, cols] = triangle`, structure.py:446-447, on a matrix given as a
list of rows. -/
def fancyAssign {α : Type} (sq : List (List α)) : List (Nat × Nat × α) → Py (List (List α))
  | [] => .ok sq
  | (i, j, x) :: rest => do
    let row ← pyGet sq i
    let row ← pySet row j x
    let sq ← pySet sq i row
    fancyAssign sq rest

/-- `triangular_to_square(grid, triangle)`, structure.py:431-448. -/
def triangularToSquare {α : Type} [Zero α] (grid : Grid) (triangle : List α) :
    Py (List (List α)) := do
  let K := triangle.length
  pyAssert (grid.length == K)
  let V := triangleSize K
  pyAssert (K == V * (V - 1) / 2)
  let square := List.replicate V (List.replicate V (0 : α))
  let square ← fancyAssign square ((grid.zip triangle).map fun p => (p.1.2.1, p.1.2.2, p.2))
  fancyAssign square ((grid.zip triangle).map fun p => (p.1.2.2, p.1.2.1, p.2))

section
variable {K : Type} [Field K] [LinearOrder K]

/-- `weights.min()` over the whole matrix. -/
def matMin (w : List (List K)) : Py K :=
  match w.flatten with
  | [] => .error .valueError
  | x :: xs => .ok (xs.foldl min x)

/-- The matrix handed to `minimum_spanning_tree`, structure.py:464-467. -/
def treeWeights (grid : Grid) (logits : List K) : Py (List (List K)) := do
  pyAssert (grid.length == logits.length)
  let w ← triangularToSquare grid logits
  let w := w.map fun r => r.map fun x => x * (-1)
  let mn ← matMin w
  .ok (w.map fun r => r.map fun x => x - mn + 1)

/-- `estimate_tree(grid, edge_logits)`, structure.py:451-473. `mst` stands for
`scipy.sparse.csgraph.minimum_spanning_tree` followed by reading off the (row,
col) positions of the nonzero entries of its result. -/
def estimateTree (mst : List (List K) → List Edge) (grid : Grid) (logits : List K) :
    Py (List Edge) := do
  let w ← treeWeights grid logits
  let edges := sortEdges (mst w)
  pyAssert ((edges.length : Int) == (w.length : Int) - 1)
  .ok edges

end

/-! ### `print_tree` -/

/-- The neighbour sets of `print_tree` are a `defaultdict(set)`: the neighbours of
`v` in the order of insertion, structure.py:491-494. -/
def dictNeighbors (edges : List Edge) (v : Nat) : List Nat :=
  edges.foldl (fun s e =>
    let s := if e.1 = v then setAdd s e.2 else s
    if e.2 = v then setAdd s e.1 else s) []

/-- The main loop of `print_tree`, structure.py:498-508. The stack is held top
first. -/
def printLoop {α : Type} (names : List α) (edges : List Edge) :
    Nat → List Nat → List Nat → List (Nat × α) → Py (List (Nat × α))
  | _, [], _, lines => .ok lines
  | 0, _ :: _, _, _ => .error .timeout
  | fuel + 1, v :: stack, seen, lines =>
    match (sortDesc (dictNeighbors edges v)).find? fun n => n ∉ seen with
    | some n => printLoop names edges fuel (n :: v :: stack) (n :: seen) lines
    | none => do
      let name ← pyGet names v
      printLoop names edges fuel stack seen (lines ++ [(stack.length, name)])

/-- The lines of `print_tree(edges, feature_names, root)` as (indent, name),
structure.py:476-509. -/
def printTreeLines {α : Type} [DecidableEq α] (edges : List Edge) (names : List α)
    (root : Option α) : Py (List (Nat × α)) := do
  pyAssert (names.length == 1 + edges.length)
  let root ← match root with
    | some r => .ok r
    | none => do
      let c ← findCenter (makeTree edges)
      pyGet names c
  pyAssert (names.contains root)
  let r := names.idxOf root
  let lines ← printLoop names edges (2 * names.length) [r] [r] []
  .ok lines.reverse

/-- `print_tree(edges, feature_names, root)`, structure.py:476-510. -/
def printTree (edges : List Edge) (names : List String) (root : Option String) : Py String := do
  let lines ← printTreeLines edges names root
  .ok ("\n".intercalate (lines.map fun l => String.join (List.replicate l.1 "  ") ++ l.2))

/-! ### `order_vertices` -/

/-- Adding one part on the shorter side, structure.py:553-562. `midpoint` is
`(len(part) - 1) / 2` with true division, so comparisons are doubled. -/
def packPart (s : List Nat × List Nat) (vp : Nat × List Nat) : List Nat × List Nat :=
  let (lhs, rhs) := s
  let (v2, part) := vp
  let twice := 2 * part.idxOf v2
  if lhs.length < rhs.length then
    ((if twice + 1 < part.length then part.reverse else part) ++ lhs, rhs)
  else
    (lhs, rhs ++ (if part.length < twice + 1 then part.reverse else part))

/-- `parts.sort(key=lambda x: len(x[1]))`, structure.py:552 (stable). -/
def sortParts (parts : List (Nat × List Nat)) : List (Nat × List Nat) :=
  parts.insertionSort fun a b => a.2.length ≤ b.2.length

/-- Main loop of `order_vertices`, structure.py:537-564. `iter v` is the order in
which Python iterates over the set `neighbors[v]`, which does not change during
the loop. In-place reversal of a part is not observable afterwards, as each part
is used once. -/
def orderLoop (iter : Nat → List Nat) :
    Nat → List Nat → List Nat → (Nat → Option (List Nat)) → Py (Nat → Option (List Nat))
  | _, [], _, orders => .ok orders
  | 0, _ :: _, _, _ => .error .timeout
  | fuel + 1, v :: stack, seen, orders =>
    match (iter v).find? fun n => n ∉ seen with
    | some n => orderLoop iter fuel (n :: v :: stack) (n :: seen) orders
    | none =>
      let parts := (iter v).filterMap fun v2 => (orders v2).map fun o => (v2, o)
      let (lhs, rhs) := (sortParts parts).foldl packPart ([], [])
      orderLoop iter fuel stack seen (Function.update orders v (some (lhs ++ [v] ++ rhs)))

/-- `order[v2] = v1` for `v1, v2 in enumerate(order_inv)`, structure.py:567-569. -/
def invertOrder (V : Nat) (inv : List Nat) : Py (List (Option Nat)) :=
  ((List.range inv.length).zip inv).foldlM (fun o p => pySet o p.2 (some p.1))
    (List.replicate V none)

/-- `order_vertices(edges)`, structure.py:513-570. Returns (order, order_inv). -/
def orderVertices (iter : Nat → List Nat) (edges : List Edge) :
    Py (List (Option Nat) × List Nat) := do
  let root ← findCenter (makeTree edges)
  let V := edges.length + 1
  let orders ← orderLoop iter (2 * V) [root] [root] (fun _ => none)
  match orders root with
  | none => .error .typeError
  | some inv => do
    let order ← invertOrder V inv
    .ok (order, inv)

end TreeCat
