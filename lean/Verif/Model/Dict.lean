/-!
# Python dicts

A dict is an association list in insertion order. Assigning to a present key keeps its place.
-/

namespace TreeCat

abbrev Dict (α β : Type) := List (α × β)

section
variable {α β : Type} [DecidableEq α]

/-- `d.get(k)`. -/
def Dict.get? : Dict α β → α → Option β
  | [], _ => none
  | (k, v) :: d, x => if k = x then some v else Dict.get? d x

/-- `d[k] = v`. -/
def Dict.set : Dict α β → α → β → Dict α β
  | [], x, w => [(x, w)]
  | (k, v) :: d, x, w => if k = x then (k, w) :: d else (k, v) :: Dict.set d x w

/-- `d.keys()`. -/
def Dict.keys (d : Dict α β) : List α := d.map Prod.fst

/-- `k in d`. -/
def Dict.has (d : Dict α β) (k : α) : Bool := (Dict.get? d k).isSome

/-- `d[k]` of a `Counter` or `defaultdict` with the default `z`. -/
def Dict.getD (d : Dict α β) (k : α) (z : β) : β := (Dict.get? d k).getD z

/-- `{k: v for k, v in l}`. -/
def Dict.ofList (l : List (α × β)) : Dict α β := l.foldl (fun d kv => Dict.set d kv.1 kv.2) []

end

end TreeCat
