import Verif.Reverse.Model

/-!
# What a full-text search should find
-/

namespace BaikalDB.Reverse.Spec
open BaikalDB.Reverse

variable {K T X : Type} [LinearOrder K] [OrderBot K] [DecidableEq T]

/-- A key belongs to a range. -/
def Covers (r : Range K) (k : K) : Prop := r.start ≤ k ∧ (r.stop = ⊥ ∨ k < r.stop)

/-! Whether a condition holds for a row, if `p t` says that the row has the term `t`: a search in natural language mode is for any
of the terms, any other for all the terms of one of its items. -/
mutual
def Holds (p : T → Prop) : Query T → Prop
  | .find true items => ∃ ts ∈ items, ∃ t ∈ ts, p t
  | .find false items => ∃ ts ∈ items, ts ≠ [] ∧ ∀ t ∈ ts, p t
  | .all l => HoldsAll p l
  | .any l => HoldsAny p l
def HoldsAll (p : T → Prop) : List (Query T) → Prop
  | [] => True
  | q :: qs => Holds p q ∧ HoldsAll p qs
def HoldsAny (p : T → Prop) : List (Query T) → Prop
  | [] => False
  | q :: qs => Holds p q ∨ HoldsAny p qs
end

/-- A search for something. -/
def HasTerms : Query T → Prop
  | .find _ items => ∃ ts ∈ items, ts ≠ []
  | .all _ => True
  | .any _ => True

/-! The conditions that queries have: a search in natural language mode has one item, an AND has operands, and each of them
searches for something. -/
mutual
def Ok : Query T → Prop
  | .find natural items => natural = true → items.length = 1
  | .all l => l ≠ [] ∧ OkAll l
  | .any l => OkAny l
def OkAll : List (Query T) → Prop
  | [] => True
  | q :: qs => Ok q ∧ HasTerms q ∧ OkAll qs
def OkAny : List (Query T) → Prop
  | [] => True
  | q :: qs => Ok q ∧ OkAny qs
end

/-- The rows of a region: the text of each key. -/
abbrev Rows (K X : Type) := K → Option X

def Rows.put (tb : Rows K X) (k : K) (x : Option X) : Rows K X := fun j => if j = k then x else tb j

open Classical in
/-- The rows of a range. -/
noncomputable def Rows.within (tb : Rows K X) (r : Range K) : Rows K X := fun k => if Covers r k then tb k else none

/-- The times `at_` that the nodes of a text are written at, between `c` and `c'`. -/
def Between (terms : List T) (at_ : T → Nat) (c c' : Nat) : Prop := c ≤ c' ∧ ∀ t ∈ terms, c ≤ at_ t ∧ at_ t ≤ c'

/-- What happens to an index: rows are inserted and deleted by a clock that does not go back, terms are merged at any time, the
region is split and the nodes out of its range are removed.  The index, the rows, the time, and whether there may be nodes out of the
range. -/
inductive Run (seg : X → List T) : Index T K → Rows K X → Nat → Bool → Prop
  | start (r : Range K) : Run seg (Index.empty r) (fun _ => none) 0 false
  | insert {x tb c d} (k : K) (text : X) (at_ : T → Nat) (c' : Nat) : Run seg x tb c d → Covers x.range k → tb k = none →
      Between (seg text) at_ c c' → Run seg (x.handle false (seg text) k at_) (tb.put k (some text)) c' d
  | delete {x tb c d} (k : K) (text : X) (at_ : T → Nat) (c' : Nat) : Run seg x tb c d → tb k = some text →
      Between (seg text) at_ c c' → Run seg (x.handle true (seg text) k at_) (tb.put k none) c' d
  | merge {x tb c d} (len : Nat) (t : T) : Run seg x tb c d → Run seg (x.merge len t) tb c d
  | clean {x tb c d} : Run seg x tb c d → Run seg x.clean tb c false
  | narrow {x tb c d} (r : Range K) : Run seg x tb c d → (∀ k, Covers r k → Covers x.range k) →
      Run seg (x.narrow r) (tb.within r) c true

/-- The rows that a search should find. -/
def Finds (seg : X → List T) (tb : Rows K X) (q : Query T) (k : K) : Prop := ∃ text, tb k = some text ∧ Holds (fun t => t ∈ seg text) q

/-- The index can be searched: the region does not begin the table, or it ends the table, or the nodes out of its range are removed. -/
def Ready (r : Range K) (dirty : Bool) : Prop := r.start ≠ ⊥ ∨ r.stop = ⊥ ∨ dirty = false

end BaikalDB.Reverse.Spec
