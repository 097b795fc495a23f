/-
Model of auto-increment ids: src/meta_server/auto_incr_state_machine.cpp (the replicated state machine) and
src/physical_plan/auto_inc.cpp (the INSERT side).
-/
namespace BaikalDB.AutoIncr

/-- uint64 arithmetic. -/
def u64 (n : Nat) : Nat := n % 2 ^ 64

/-- `_auto_increment_map` (include/meta_server/auto_incr_state_machine.h): table id -> next id. -/
abbrev Map := Int → Option Nat

def Map.set (m : Map) (t : Int) (v : Option Nat) : Map := fun t' => if t' = t then v else m t'

/-- The raft log entries.  `start`, `inc` and `force` are optional protobuf fields (absent `force` reads as false, L224). -/
inductive Op where
  | add (t : Int) (start : Nat) (force : Bool)
  | drop (t : Int)
  | gen (t : Int) (start : Option Nat) (count : Nat)
  | update (t : Int) (start : Option Nat) (inc : Option Nat) (force : Bool)
deriving DecidableEq, Repr

/-- What the client sees; `range` is a grant [start, end). -/
inductive Resp where
  | ok
  | range (start stop : Nat)
  | error
deriving DecidableEq, Repr

/-- auto_incr_state_machine.cpp L87-118: add_table_id. -/
def addTable (m : Map) (t : Int) (start : Nat) (force : Bool) : Map × Resp :=
  match m t with
  | some _ => (m, if force then .ok else .error)
  | none => (m.set t (some start), .ok)

/-- L119-136: drop_table_id. -/
def dropTable (m : Map) (t : Int) : Map × Resp :=
  match m t with
  | none => (m, .error)
  | some _ => (m.set t none, .ok)

/-- L137-162: gen_id. -/
def genId (m : Map) (t : Int) (start : Option Nat) (count : Nat) : Map × Resp :=
  match m t with
  | none => (m, .error)
  | some old =>
    let old' := match start with
      | some s => if old < u64 (s + 1) then u64 (s + 1) else old
      | none => old
    (m.set t (some (u64 (old' + count))), .range old' (u64 (old' + count)))

/-- L163-208: update. -/
def update (m : Map) (t : Int) (start inc : Option Nat) (force : Bool) : Map × Resp :=
  match m t with
  | none => (m, .error)
  | some old =>
    match start, inc with
    | none, none => (m, .error)
    | some _, some _ => (m, .error)
    | some s, none =>
      if old > u64 (s + 1) ∧ force = false then (m, .error) else (m.set t (some (u64 (s + 1))), .ok)
    | none, some i => (m.set t (some (u64 (old + i))), .ok)

/-- L34-86: on_apply. -/
def apply (m : Map) : Op → Map × Resp
  | .add t s f => addTable m t s f
  | .drop t => dropTable m t
  | .gen t s c => genId m t s c
  | .update t s i f => update m t s i f

/-- A replica applies the log; responses in order. -/
def applyAll (m : Map) : List Op → Map × List Resp
  | [] => (m, [])
  | o :: os =>
    let r := apply m o
    let rest := applyAll r.1 os
    (rest.1, r.2 :: rest.2)

/-- L238-256 (save_auto_increment): the (id, value) pairs in the order the hash map yields them.  The JSON text itself is
not modelled. -/
def IsSnapshot (m : Map) (l : List (Int × Nat)) : Prop :=
  (l.map (·.1)).Nodup ∧ ∀ t v, m t = some v ↔ (t, v) ∈ l

/-- L275-307 (load_auto_increment, parse_json_string): clear, then insert each pair. -/
def load (l : List (Int × Nat)) : Map := l.foldl (fun m x => m.set x.1 (some x.2)) (fun _ => none)

/-! ### INSERT: physical_plan/auto_inc.cpp L51-132 -/

/-- A row's value for the auto-increment column is to be generated: NULL or 0 (L59-62). -/
def needsId : Option Int → Bool
  | none => true
  | some v => decide (v = 0)

/-- L57-70: number of ids to generate, and the largest explicit id (at least 0). -/
def scan : List (Option Int) → Nat × Int → Nat × Int
  | [], a => a
  | r :: rs, (n, mx) =>
    if needsId r then scan rs (n + 1, mx)
    else scan rs (n, match r with | some v => if v > mx then v else mx | none => mx)

/-- L57-103: the request to the meta server, if one is sent.  `noskip` is the column's flag (L71-75); degraded mode
(random start, L81-92) is not modelled. -/
def request (rows : List (Option Int)) (noskip : Bool) : Option (Nat × Int) :=
  let (n, mx) := scan rows (0, 0)
  let mx := if noskip then 0 else mx
  if n = 0 ∧ mx = 0 then none else some (n, mx)

/-- L122-130: fill the rows from the granted start id. -/
def fill : List (Option Int) → Int → List Int
  | [], _ => []
  | r :: rs, next =>
    if needsId r then next :: fill rs (next + 1)
    else (match r with | some v => v | none => 0) :: fill rs next

/-- One INSERT statement executed against the meta server's state: new state, final ids. -/
def insert (m : Map) (t : Int) (noskip : Bool) (rows : List (Option Int)) : Map × Option (List Int) :=
  match request rows noskip with
  | none => (m, some (rows.map fun r => r.getD 0))
  | some (n, mx) =>
    match genId m t (some mx.toNat) n with
    | (m', .range s _) => (m', some (fill rows s))
    | (m', _) => (m', none)

end BaikalDB.AutoIncr
