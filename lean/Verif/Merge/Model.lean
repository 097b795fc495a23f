import Mathlib.Tactic.Common
/-
C21: the RocksDB merge operator for counters, src/engine/rocksdb_merge_operator.cpp, the addition it uses
(include/common/message_helper.h L255-289) and the records written to rollup indexes (src/common/table_record.cpp L249-293).

A record is given by its version column (when the table has one), its counters (the integer columns outside the primary key,
schema_factory.cpp L973-991) and its other columns.  Protobuf encoding and decoding of records is not modelled here (it is in
RowCodec).  Counter `c` has `w c` bits, 32 or 64 in the code; addition wraps around (signed overflow is undefined in C++).
The version column is a BIGINT.  The schema lookup is taken to succeed; when it fails the operator returns the first
operand, like in the NULL version case below.
-/
namespace BaikalDB.Merge

variable (w : Nat → Nat)

/-- `none` is SQL NULL (protobuf field not set). -/
structure Rec where
  ver : Option (BitVec 64)
  sum : (c : Nat) → Option (BitVec (w c))
  other : Nat → Option (List (BitVec 8))

variable {w}

/-- message_helper.h L256-289: add_value; an unset field counts as 0. -/
def addValue {n : Nat} (base : Option (BitVec n)) (v : BitVec n) : Option (BitVec n) := some (base.getD 0#n + v)

/-- rocksdb_merge_operator.cpp L126-154: add every counter that is not NULL in `r`. -/
def addAll (base r : Rec w) : Rec w :=
  { base with sum := fun c => match r.sum c with | none => base.sum c | some v => addValue (base.sum c) v }

/-- rocksdb_merge_operator.cpp L88-155: one round of the loop; none is an early return. -/
def mergeOne (versioned : Bool) (base r : Rec w) : Option (Rec w) :=
  if versioned then
    match base.ver, r.ver with
    | some b, some v =>
      if b.toInt ≥ v.toInt ∧ ¬ (v = 0#64 ∧ b = 0#64) then some base
      else some (addAll { base with ver := some v } r)
    | _, _ => none
  else some (addAll base r)

def mergeLoop (versioned : Bool) : Rec w → List (Rec w) → Option (Rec w)
  | base, [] => some base
  | base, r :: rs => match mergeOne versioned base r with
    | none => none
    | some b => mergeLoop versioned b rs

/-- rocksdb_merge_operator.cpp L18-160: FullMergeV2 (`versioned` = has_version && !is_rollup_key).  `none` when there is
nothing to merge, which RocksDB never asks for. -/
def fullMerge (versioned : Bool) (existing : Option (Rec w)) (ops : List (Rec w)) : Option (Rec w) :=
  match existing, ops with
  | none, [] => none
  | none, o :: rest =>
    if versioned = true ∧ o.ver = none then some o
    else some ((mergeLoop versioned o rest).getD o)
  | some e, ops =>
    if versioned = true ∧ e.ver = none then some e
    else some ((mergeLoop versioned e ops).getD e)

/-- rocksdb_merge_operator.cpp L234-256: the left counters are added to the right record. -/
def addLeft (cols : List Nat) (left right : Rec w) : Rec w :=
  { right with sum := fun c =>
    if c ∈ cols then (match left.sum c with | none => right.sum c | some v => addValue (right.sum c) v) else right.sum c }

/-- rocksdb_merge_operator.cpp L162-258: PartialMerge, none = false.  `cols` are the counters of the table, `enabled` the flag
olap_enable_partial_merge. -/
def partialMerge (enabled : Bool) (cols : List Nat) (versioned : Bool) (left right : Rec w) : Option (Rec w) :=
  if enabled = false then none
  else if versioned = true ∧ (left.ver ≠ some 0#64 ∨ right.ver ≠ some 0#64) then none
  else if cols.any (fun c => (left.sum c).isNone) then none
  else some (addLeft cols left right)

/-! ### What RocksDB does with a key -/

/-- The value stored below (none: no value, or deleted) and the pending merge operands, oldest first. -/
structure Key (w : Nat → Nat) where
  value : Option (Rec w)
  ops : List (Rec w)

/-- A read: full merge of everything (the value itself when there are no operands). -/
def Key.read (versioned : Bool) (k : Key w) : Option (Rec w) :=
  match k.ops with
  | [] => k.value
  | o :: os => fullMerge versioned k.value (o :: os)

/-- Compactions: full merge of the value with the `n + 1` oldest operands, or partial merge of the operands `i`, `i + 1`. -/
inductive Compact where
  | full (n : Nat)
  | partly (i : Nat)

def Key.compact (enabled : Bool) (cols : List Nat) (versioned : Bool) (k : Key w) : Compact → Key w
  | .full n =>
    if n < k.ops.length then ⟨fullMerge versioned k.value (k.ops.take (n + 1)), k.ops.drop (n + 1)⟩ else k
  | .partly i =>
    match k.ops[i]?, k.ops[i + 1]? with
    | some l, some r =>
      match partialMerge enabled cols versioned l r with
      | some m => { k with ops := k.ops.take i ++ m :: k.ops.drop (i + 2) }
      | none => k
    | _, _ => k

/-! ### Rollup records -/

/-- table_record.cpp L249-293: encode_value_for_rollup of a row whose counters are `row`: NULL counts as 0, a delete writes the
negated values, all other columns (version included) are cleared.  Counters of types other than INT and BIGINT make deletes fail (not modelled). -/
def rollupRec (cols : List Nat) (row : (c : Nat) → Option (BitVec (w c))) (isDelete : Bool) : Rec w where
  ver := none
  sum := fun c => if c ∈ cols then some (if isDelete then -(row c).getD 0#(w c) else (row c).getD 0#(w c)) else none
  other := fun _ => none

end BaikalDB.Merge
