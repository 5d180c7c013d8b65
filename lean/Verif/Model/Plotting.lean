import Mathlib.Algebra.Order.Field.Basic
import Verif.Model.Csv
import Verif.Model.Dict
import Verif.Model.Structure

/-!
# Model of `treecat/plotting.py`

What is drawn is returned as data instead of being passed to matplotlib. Left out: colors, line widths, the shift and rotation of
labels (plotting.py:204-230), and `nx_plot_tree` (plotting.py:83-106), which only calls networkx.
-/

namespace TreeCat

/-- The functions of numpy on floats that plotting uses. -/
structure PlotNum (K : Type) where
  sqrt : K → K
  cos : K → K
  sin : K → K
  pi : K

section
variable {K : Type} [Field K] [LinearOrder K]

/-! ### numpy indexing with an array of indices -/

/-- `xs[idx]` for an array `idx` of nonnegative indices. -/
def gather {α : Type} (xs : List α) (idx : List Nat) : Py (List α) := idx.mapM (pyGet xs)

/-- `xs[idx] = vals`: if an index occurs more than once, the last value stays. -/
def scatter {α : Type} (xs : List α) (idx : List Nat) (vals : List α) : Py (List α) :=
  (idx.zip vals).foldlM (fun xs p => pySet xs p.1 p.2) xs

/-- `xs[idx] += ds` (or another operator `op`): numpy reads `xs[idx]`, adds, and assigns to `xs[idx]`. -/
def scatterOp {α β : Type} (op : α → β → α) (xs : List α) (idx : List Nat) (ds : List β) : Py (List α) := do
  let cur ← gather xs idx
  scatter xs idx (cur.zipWith op ds)

/-- `a.min()`: raises on an empty array. -/
def arrayMin : List K → Py K
  | [] => .error .valueError
  | x :: xs => .ok (xs.foldl min x)

/-! ### `contract_positions` -/

/-- Euclidean length, plotting.py:129 and 154. -/
def norm2 (num : PlotNum K) (d : K × K) : K := num.sqrt (d.1 ^ 2 + d.2 ^ 2)

/-- `contract_positions(XY, edges, stepsize)`, plotting.py:109-136. An empty list of edges becomes an array of shape `(0,)`
(plotting.py:183-184), which fails the first assertion. -/
def contractPositions (num : PlotNum K) (XY : List (K × K)) (edges : List Edge) (stepsize : K) : Py (List (K × K)) := do
  pyAssert (edges.length != 0)
  pyAssert (XY.length == edges.length + 1)
  let heads := edges.map Prod.fst
  let tails := edges.map Prod.snd
  let hs ← gather XY heads
  let ts ← gather XY tails
  let diff := hs.zipWith (fun a b => (a.1 - b.1, a.2 - b.2)) ts
  let distances := diff.map (norm2 num)
  let spacing ← arrayMin distances
  pyAssert (decide (0 < spacing))
  let diff := diff.zipWith (fun d r => (d.1 / r * spacing, d.2 / r * spacing)) distances
  let new ← scatterOp (fun x d => (x.1 + stepsize * d.1, x.2 + stepsize * d.2)) XY tails diff
  scatterOp (fun x d => (x.1 - stepsize * d.1, x.2 - stepsize * d.2)) new heads diff

/-! ### `plot_circular` -/

/-- A chord: the four control points of a cubic Bézier curve, and the opacity. -/
structure Chord (K : Type) where
  p0 : K × K
  p1 : K × K
  p2 : K × K
  p3 : K × K
  alpha : Option K
  deriving DecidableEq

/-- `plot_chord(begin, end, spacing, color, alpha)`, plotting.py:139-159. -/
def plotChord (num : PlotNum K) (a b : K × K) (spacing : K) (alpha : Option K) : Chord K :=
  let dist := norm2 num (a.1 - b.1, a.2 - b.2)
  let c := 1 - 2 / 3 * dist + 1 / 6 * dist ^ 2 - spacing
  { p0 := a, p1 := (a.1 * c, a.2 * c), p2 := (b.1 * c, b.2 * c), p3 := b, alpha }

/-- A feature on the circle: where, its label, the opacity of the label and the sizes of the two dots. -/
structure Spot (K α : Type) where
  pos : K × K
  name : α
  alpha : K
  observed : K
  latent : K

/-- Everything that `plot_circular` draws. -/
structure Drawing (K α : Type) where
  spots : List (Spot K α)
  chords : List (Chord K)
  sampled : List (Chord K)

/-- What `plot_circular` asks of the server, plotting.py:181-188 and 249. -/
structure PlotInput (K α : Type) where
  edges : List Edge
  names : List α
  density : List K
  observed : List K
  latent : List K
  samples : List (List Edge)

/-- `order[v]` as an index. -/
def orderAt (order : List (Option Nat)) (v : Nat) : Py Nat := do
  match (← pyGet order v) with
  | some i => .ok i
  | none => .error .typeError

/-- `angle` and `XY`, plotting.py:192-193. -/
def circlePoint (num : PlotNum K) (V v : Nat) : K × K :=
  let angle := 2 * num.pi * (((v : K) + 1 / 2) / (V : K) + 1 / 4)
  (num.cos angle, num.sin angle)

/-- `XY` after the contraction, plotting.py:193-195. -/
def circlePositions (num : PlotNum K) (V : Nat) (edges : List Edge) (contract : K) : Py (List (K × K)) :=
  let XY := (List.range V).map (circlePoint num V)
  if contract = 0 then .ok XY else contractPositions num XY edges contract

/-- `edge_counts.update(sample)` for each sample, plotting.py:248-250. -/
def countEdges (samples : List (List Edge)) : Dict Edge Nat :=
  samples.foldl (fun d sample => sample.foldl (fun d e => Dict.set d e (Dict.getD d e 0 + 1)) d) []

/-- The label and the dots of one feature, plotting.py:189 and 204-241. -/
def drawSpot {α : Type} (XY : List (K × K)) (names : List α) (density observed latent : List K) (v : Nat) : Py (Spot K α) := do
  .ok { pos := ← pyGet XY v, name := ← pyGet names v, alpha := 1 / 4 + 3 / 4 * (← pyGet density v),
        observed := 2 * (← pyGet observed v), latent := 2 * (← pyGet latent v) }

/-- `plot_chord(XY[v1], XY[v2], spacing, color, alpha)`, plotting.py:244-245 and 254. -/
def drawChord (num : PlotNum K) (XY : List (K × K)) (spacing : K) (alpha : Option K) (e : Edge) : Py (Chord K) := do
  .ok (plotChord num (← pyGet XY e.1) (← pyGet XY e.2) spacing alpha)

/-- The chord of a sampled edge, plotting.py:251-254. -/
def drawSampled (num : PlotNum K) (XY : List (K × K)) (spacing : K) (order : List (Option Nat)) (treeSamples : Nat) (ec : Edge × Nat) :
    Py (Chord K) := do
  let a ← orderAt order ec.1.1
  let b ← orderAt order ec.1.2
  if treeSamples = 0 then .error .zeroDivision
  else drawChord num XY spacing (some ((ec.2 : K) / (treeSamples : K))) (a, b)

/-- The edges in terms of places, plotting.py:183-184. -/
def placeEdges (order : List (Option Nat)) (edges : List Edge) : Py (List Edge) :=
  edges.mapM fun e => do
    let a ← orderAt order e.1
    let b ← orderAt order e.2
    .ok (a, b)

/-- `plot_circular(server, tree_samples, contract)`, plotting.py:162-254. `iter` is the order in which sets of neighbours are
iterated (see `orderVertices`). -/
def plotCircular {α : Type} (num : PlotNum K) (iter : Nat → List Nat) (inp : PlotInput K α) (treeSamples : Nat) (contract : K) :
    Py (Drawing K α) := do
  let (order, inv) ← orderVertices iter inp.edges
  let edges ← placeEdges order inp.edges
  let names ← gather inp.names inv
  let density ← gather inp.density inv
  let observed ← gather inp.observed inv
  let latent ← gather inp.latent inv
  let V := names.length
  let XY ← circlePositions num V edges contract
  let spots ← (List.range V).mapM (drawSpot XY names density observed latent)
  let chords ← edges.mapM (drawChord num XY (1 / (V : K)) none)
  let sampled ← (countEdges inp.samples).mapM (drawSampled num XY (1 / (V : K)) order treeSamples)
  .ok { spots, chords, sampled }

/-! ### `plot_feature_overlap` -/

/-- How `plot_feature_overlap` sorts the features. -/
inductive OverlapMethod where
  | tree | cluster | other
  deriving DecidableEq

/-- `np.dot(present.T, present)`, plotting.py:34-35: `present` has one row of flags for each row of the frame. -/
def overlapMatrix (V : Nat) (present : List (List Bool)) : List (List Nat) :=
  (List.range V).map fun i => (List.range V).map fun j =>
    (present.filter fun row => row.getD i false && row.getD j false).length

/-- `plot_feature_overlap(df, cmap, method)`, plotting.py:25-58: the matrix whose square root is shown. `leaves` stands for the
hierarchical clustering of scipy, plotting.py:48-50. -/
def featureOverlap (mst : List (List K) → List Edge) (leaves : List (List Nat) → Py (List Nat)) (iter : List Edge → Nat → List Nat)
    (V : Nat) (present : List (List Bool)) (method : OverlapMethod) : Py (List (List Nat)) := do
  let overlap := overlapMatrix V present
  let inv ← match method with
    | .tree => do
      let grid ← makeCompleteGraph V
      let weights ← grid.mapM fun c => do
        let row ← pyGet overlap c.2.1
        let x ← pyGet row c.2.2
        .ok (x : K)
      let edges ← estimateTree mst grid weights
      let (_, inv) ← orderVertices (iter edges) edges
      .ok inv
    | .cluster => leaves overlap
    | .other => .error .valueError
  let rows ← gather overlap inv
  rows.mapM fun row => gather row inv

/-! ### `layout_tree` -/

/-- The matrix of which `layout_tree` takes eigenvectors, plotting.py:74-76. -/
def laplacian (V : Nat) (correlation : Nat → Nat → K) (i j : Nat) : K :=
  let off := fun i j => if i = j then 0 else - correlation i j
  if i = j then - ((List.range V).map fun k => off k j).sum else off i j

/-- `layout_tree(correlation)`, plotting.py:61-80. `eigh lap lo hi` stands for `scipy.linalg.eigh` with `eigvals=(lo, hi)`: the
eigenvalues with these positions, and the eigenvectors. scipy unpacks the argument into two numbers, so a list of three is a
`ValueError`. -/
def layoutTree {β : Type} (eigh : (Nat → Nat → K) → Nat → Nat → Py (List K × List β)) (V : Nat) (correlation : Nat → Nat → K)
    (eigvals : List Nat := [1, 2, 3]) : Py (List β) :=
  match eigvals with
  | [lo, hi] => do
    let (evals, evects) ← eigh (laplacian V correlation) lo hi
    pyAssert (evals.all fun x => decide (0 < x))
    pyAssert (evects.length == 3)
    .ok evects
  | _ => .error .valueError

end

/-! ### `add_panning_to_svg` -/

open Config (Str)

/-- `line.startswith(prefix)`. -/
def startsWith (p line : Str) : Bool := p.isPrefixOf line

/-- `re.search(text, line)` for a text without special characters. -/
def hasText (t line : Str) : Bool := decide (t <:+: line)

/-- The new root element, plotting.py:274-276. -/
def svgRoot : Str := ("<svg height=\"100%\" width=\"100%\" version=\"1.1\" xmlns=\"http://www.w3.org/2000/svg\"" ++
  " xmlns:xlink=\"http://www.w3.org/1999/xlink\">\n").toList

/-- The opening of the new group, plotting.py:280. -/
def svgGroup : Str := "<g id=\"viewport\" transform=\"scale(1,1) translate(0,0)\">\n".toList

/-- What replaces one line, plotting.py:271-285. `js` is the content of `svgpan.js`. -/
def panLine (js line : Str) : Py (List Str) :=
  if hasText "SVGPan library".toList line then .error .valueError
  else if startsWith "<svg ".toList line then
    .ok [svgRoot, "<script type=\"text/ecmascript\"><![CDATA[\n".toList, js, "]]></script>\n".toList, svgGroup]
  else if startsWith "</svg>".toList line then .ok ["</g>\n".toList, line]
  else .ok [line]

/-- `add_panning_to_svg(source, destin)`, plotting.py:257-288, from the text of the source to the text of the destination. The
destination is only opened after all lines have been read. -/
def addPanning (js text : Str) : Py Str := do
  let out ← (Csv.lines (Csv.universal text)).mapM (panLine js)
  .ok out.flatten.flatten

end TreeCat
