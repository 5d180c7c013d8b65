import Verif.Spec.Tree
import Verif.Model.Structure

/-!
# Specification: propagation programs

What a correct message passing program for a rooted tree is, in terms of the tree
alone.
-/

namespace TreeCat.Spec

/-- `p` is the neighbour of `c` that is closer to the root. -/
def IsParent (edges : List (Nat × Nat)) (root c p : Nat) : Prop :=
  Adj edges c p ∧ ∃ n, Walk edges n root p ∧ ∀ m, Walk edges m root c → n < m

/-- Every occurrence of `i` is before every occurrence of `j`. -/
def Before (prog : List Instr) (i j : Instr) : Prop :=
  ∀ a b : Nat, prog[a]? = some i → prog[b]? = some j → a < b

/-- The instructions a program must consist of. -/
inductive Wanted (grid : Grid) (root : Nat) : Instr → Prop
  | up {v : Nat} : v < 1 + grid.length → Wanted grid root ⟨.UP, v, 0, 0⟩
  | inward {e p c : Nat} : (e, p, c) ∈ grid ∨ (e, c, p) ∈ grid →
      IsParent (grid.map fun col => (col.2.1, col.2.2)) root c p → Wanted grid root ⟨.IN, p, c, e⟩
  | root : Wanted grid root ⟨.ROOT, root, 0, 0⟩
  | out {e p c : Nat} : (e, p, c) ∈ grid ∨ (e, c, p) ∈ grid →
      IsParent (grid.map fun col => (col.2.1, col.2.2)) root c p → Wanted grid root ⟨.OUT, c, p, e⟩
  | down {v : Nat} : v < 1 + grid.length → Wanted grid root ⟨.DOWN, v, 0, 0⟩

/-- A correct program: the wanted instructions, once each, in a valid order. -/
structure IsProgram (grid : Grid) (root : Nat) (prog : List Instr) : Prop where
  length : prog.length = (1 + grid.length) + grid.length + 1 + grid.length + (1 + grid.length)
  once : prog.Nodup
  mem : ∀ i, i ∈ prog ↔ Wanted grid root i
  /-- UP comes before every IN that reads or writes the vertex. -/
  up_in : ∀ p c e, ⟨.IN, p, c, e⟩ ∈ prog →
    Before prog ⟨.UP, p, 0, 0⟩ ⟨.IN, p, c, e⟩ ∧ Before prog ⟨.UP, c, 0, 0⟩ ⟨.IN, p, c, e⟩
  /-- A child has received everything before its parent reads it. -/
  in_in : ∀ p c e c' e', ⟨.IN, p, c, e⟩ ∈ prog → ⟨.IN, c, c', e'⟩ ∈ prog →
    Before prog ⟨.IN, c, c', e'⟩ ⟨.IN, p, c, e⟩
  /-- ROOT separates the inward from the outward phase. -/
  inward_root : ∀ i ∈ prog, (i.op = .UP ∨ i.op = .IN) → Before prog i ⟨.ROOT, root, 0, 0⟩
  root_outward : ∀ i ∈ prog, (i.op = .OUT ∨ i.op = .DOWN) → Before prog ⟨.ROOT, root, 0, 0⟩ i
  /-- A parent is finished before its child starts, and OUT precedes DOWN. -/
  out_down : ∀ p c e, ⟨.OUT, c, p, e⟩ ∈ prog →
    Before prog ⟨.DOWN, p, 0, 0⟩ ⟨.OUT, c, p, e⟩ ∧ Before prog ⟨.OUT, c, p, e⟩ ⟨.DOWN, c, 0, 0⟩
  out_out : ∀ p c e p' e', ⟨.OUT, c, p, e⟩ ∈ prog → ⟨.OUT, p, p', e'⟩ ∈ prog →
    Before prog ⟨.OUT, p, p', e'⟩ ⟨.OUT, c, p, e⟩
  /-- Operands address vertices and edges. -/
  range : ∀ i ∈ prog, i.v < 1 + grid.length ∧ i.v2 < 1 + grid.length ∧ (i.e = 0 ∨ i.e < grid.length)

end TreeCat.Spec
