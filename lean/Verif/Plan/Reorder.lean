import Verif.Plan.Empty

/-!
# The order of inner joins

`src/physical_plan/join_reorder.cpp`, `src/exec/join_node.cpp`:1409-1453 `need_reorder`, `src/exec/joiner.cpp`:106-125.
-/

namespace BaikalDB.Plan

/-- What is below a join without being one: a table, maybe with a filter. -/
def unitOf : Tree → Option Nat
  | .scan t => some t
  | .filter _ p => unitOf p
  | .join _ _ _ _ => none

/-- joiner.cpp:106-125: an equality of a column of one side with one of the other.  Equalities of rows of columns are left
out. -/
def eqPair (A B : List Nat) : Expr → Option (Nat × Nat)
  | .call f [.slot t _, .slot u _] =>
    if f ≠ "eq" then none
    else if t ∈ A ∧ u ∈ B then some (t, u)
    else if t ∈ B ∧ u ∈ A then some (u, t)
    else none
  | _ => none

/-- What `need_reorder` collects: tables with the plans for them in the order of the joins, equalities, conditions. -/
structure Block where
  units : List (Nat × Tree)
  eqs : List (Nat × Nat)
  conds : List Expr

/-- join_node.cpp:1409-1453 on a join, and what it collects of a child that is not one; `none` for `false`. -/
def blockOf : Tree → Option Block
  | .scan t => some ⟨[(t, .scan t)], [], []⟩
  | .filter cs p => (unitOf p).map fun t => ⟨[(t, .filter cs p)], [], []⟩
  | .join ty cs l r =>
    if ty ≠ .inner then none
    else
      match blockOf l, blockOf r with
      | some a, some b =>
        some ⟨a.units ++ b.units, a.eqs ++ b.eqs ++ cs.filterMap (eqPair (tups l) (tups r)), a.conds ++ b.conds ++ cs⟩
      | _, _ => none

def linked (eqs : List (Nat × Nat)) (t u : Nat) : Bool := eqs.any fun p => p == (t, u) || p == (u, t)

/-- An ordered insertion: the keys of a `std::map`. -/
def insertKey (t : Nat) : List Nat → List Nat
  | [] => [t]
  | u :: us => if t < u then t :: u :: us else if t = u then u :: us else u :: insertKey t us

/-- The keys of `tuple_equals_map`. -/
def keysOf (eqs : List (Nat × Nat)) : List Nat := eqs.foldl (fun ks p => insertKey p.2 (insertKey p.1 ks)) []

/-- join_reorder.cpp:54-70: is every table linked to one before it?  Looking a table up enters it into the map. -/
def scanOrder (eqs : List (Nat × Nat)) (before : List Nat) : List Nat → List Nat → Bool × List Nat
  | [], ks => (true, ks)
  | t :: rest, ks =>
    if before.any (linked eqs t) then scanOrder eqs (before ++ [t]) rest (insertKey t ks) else (false, insertKey t ks)

/-- join_reorder.cpp:99-111: the next table, linked to the earliest of those taken. -/
def nextTable (eqs : List (Nat × Nat)) (taken ks : List Nat) : Option Nat :=
  taken.findSome? fun u => ks.find? fun k => linked eqs k u

/-- join_reorder.cpp:97-119; `n` is the number of keys. -/
def pickAll (eqs : List (Nat × Nat)) : Nat → List Nat → List Nat → Option (List Nat)
  | 0, taken, _ => some taken
  | n + 1, taken, ks =>
    match nextTable eqs taken ks with
    | none => none
    | some t => pickAll eqs n (taken ++ [t]) (ks.erase t)

/-- join_reorder.cpp:42-119: the new order, `none` to leave the joins as they are.  `idx`: the table is read by an index. -/
def newOrder (idx : Nat → Bool) (order : List Nat) (eqs : List (Nat × Nat)) : Option (List Nat) :=
  match order with
  | [] => none
  | t0 :: rest =>
    let s := scanOrder eqs [t0] rest (keysOf eqs)
    if idx t0 && s.1 then none
    else
      match (order.foldl (fun ks t => insertKey t ks) []).find? idx with
      | some t => pickAll eqs (s.2.erase t).length [t] (s.2.erase t)
      | none => if s.1 then none else pickAll eqs (s.2.erase t0).length [t0] (s.2.erase t0)

/-- join_reorder.cpp:121-134: the joins in the new order, still without conditions. -/
def chain (units : List (Nat × Tree)) (last : Tree) : List Nat → Tree
  | [] => last
  | t :: ts => chain units (.join .inner [] last ((units.lookup t).getD (.scan t))) ts

/-- join_reorder.cpp:42-150 on a block of inner joins `p`; `none` is an error. -/
def reorderBlock (idx : Nat → Bool) (b : Block) (p : Tree) : Option Tree :=
  match newOrder idx (b.units.map Prod.fst) b.eqs with
  | some (t :: ts) =>
    let q := push false b.conds (chain b.units ((b.units.lookup t).getD (.scan t)) ts)
    if q.2.isEmpty then some q.1 else none
  | _ => some p

/-- join_reorder.cpp:25-40 -/
def reorder (idx : Nat → Bool) : Tree → Option Tree
  | .scan t => some (.scan t)
  | .filter cs p => (reorder idx p).map (.filter cs)
  | .join ty cs l r =>
    match blockOf (.join ty cs l r) with
    | some b => reorderBlock idx b (.join ty cs l r)
    | none =>
      match reorder idx l, reorder idx r with
      | some l', some r' => some (.join ty cs l' r')
      | _, _ => none

end BaikalDB.Plan
