import Verif.Model.FloatServe

/-!
# `quantize_from_probs2` and `median` in floating point (treecat/util.py:108-127, treecat/serving.py:118-147)

As in `Model/FloatRow` a number is `none` if it is not a number or infinite. `median` calls `quantize_from_probs2` on float32 arrays.
-/

namespace TreeCat

open Util

/-- `probs.argmax()` on floats: numpy returns the first nan if there is one, and the first maximum otherwise. -/
def fltArgmax {W : Nat} (f : Fin W → Flt) : Option (Fin W) :=
  match (List.finRange W).find? fun i => (f i).isNone with
  | some i => some i
  | none => argmax fun i => (f i).getD 0

/-- One iteration of the loop, util.py:123-126. `step` is the number `1.0 / resolution` as it is subtracted. -/
def floatQuantStep {W : Nat} (rnd : ℚ → ℚ) (step : ℚ) (s : (Fin W → Int) × (Fin W → Flt)) : Py ((Fin W → Int) × (Fin W → Flt)) :=
  match fltArgmax s.2 with
  | none => .error .valueError
  | some i => .ok (Function.update s.1 i (wrap8 (s.1 i + 1)), Function.update s.2 i ((s.2 i).map fun q => rnd (q - step)))

/-- `k` iterations of the loop, util.py:123-126. -/
def floatQuantLoop {W : Nat} (rnd : ℚ → ℚ) (step : ℚ) : Nat → (Fin W → Int) × (Fin W → Flt) → Py ((Fin W → Int) × (Fin W → Flt))
  | 0, s => .ok s
  | k + 1, s => (floatQuantStep rnd step s).bind (floatQuantLoop rnd step k)

/-- One row of `quantize_from_probs2(probs, resolution)`, util.py:108-127. `1.0 / resolution` is a float64 number (`rp`) that is converted to float32 (`rnd`) when it is
subtracted from an element of a float32 array. -/
def floatQuantRow {W : Nat} (rnd rp : ℚ → ℚ) (sum : List Flt → Flt) (probs : Fin W → Flt) (resolution : Nat) : Py (Fin W → Int) :=
  (floatQuantLoop rnd (rnd (rp (1 / resolution))) resolution
    (fun _ => 0, fun i => Flt.div rnd (probs i) (sum ((List.finRange W).map probs)))).map (·.1)

/-- One row of `median`, serving.py:139-147. -/
def floatMedianRow {M : Nat} (A : ServeOps M) (srv : FloatServer M) (counts : List Int) (marginal : Nat → Flt) : Py (Nat → Int) :=
  (List.range (srv.raggedIndex.length - 1)).foldlM (fun (result : Nat → Int) v => do
    let beg := srv.raggedIndex.getD v 0
    let stop := srv.raggedIndex.getD (v + 1) 0
    let q ← floatQuantRow A.rnd A.rp A.sum (fun c : Fin (stop - beg) => marginal (beg + c.val)) (counts.getD v 0).toNat
    .ok fun r => if h : beg ≤ r ∧ r < stop then q ⟨r - beg, by omega⟩ else result r) fun _ => 0

/-- `median(counts, data)` for one row of data, serving.py:118-147. -/
def FloatServer.median {M : Nat} [NeZero M] (A : ServeOps M) (srv : FloatServer M) (junk : Nat → Fin M → Flt) (counts data : List Int) : Py (Nat → Int) :=
  floatMedianRow A srv counts (srv.marginals A junk data)

end TreeCat
