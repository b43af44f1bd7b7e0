import Mathlib.Data.Finset.Card
/-
Specification for the segment tree: a plain set of ids given by the history of inserts. Independent of the model.
-/
namespace Yacl.SegmentTree.Spec

/-- Number of distinct ids in a history. -/
def distinct (xs : List Nat) : Nat := xs.toFinset.card

/-- What `Insert` should have returned: `true` exactly for the first occurrence of each id. `seen` are earlier ids. -/
def newFlags (seen : List Nat) : List Nat → List Bool
  | [] => []
  | x :: xs => (! decide (x ∈ seen)) :: newFlags (x :: seen) xs

/-- Ids covered by a list of half-open ranges. -/
def Covers (segs : List (Nat × Nat)) (x : Nat) : Prop := ∃ s ∈ segs, s.1 ≤ x ∧ x < s.2

/-- Ranges are non-empty, increasing, and consecutive ones neither overlap nor touch. -/
def Separated (segs : List (Nat × Nat)) : Prop :=
  (∀ s ∈ segs, s.1 < s.2) ∧ segs.Pairwise (fun a b => a.2 < b.1)

end Yacl.SegmentTree.Spec
