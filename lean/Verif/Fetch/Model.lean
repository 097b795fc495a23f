import Mathlib.Tactic.Common
import Mathlib.Order.BoundedOrder.Basic
import Mathlib.Order.Lattice.Nat

/-!
# A query over regions that split and merge while it runs

Model of the requests of a SELECT to the regions of a table: src/exec/fetcher_store.cpp (`run_not_set_state` L1796-2008,
`handle_version_old` L676-779, the row part of `handle_single_response` L1040-1114), of the store's answer
(src/store/region.cpp `validate_version` L470-518) and of what a split and a merge change there (`validate_and_add_version`
L4722-4760, `send_complete_to_new_region_for_split` L7739-7756, `start_process_merge` L6014-6173, `adjustkey_and_add_version`
L4683-4708).

Keys are of any linear order with a least element, the empty string, which as an end key stands for no end.  The rows of a region
are their keys (C53 for what a scan of a region returns).  Left out: leaders, retries on network errors, transactions, regions that no longer exist, the
conditions of the query, and the order of the regions' rows.
-/

namespace BaikalDB.Fetch

variable {K : Type} [LinearOrder K] [OrderBot K]

/-- pb::RegionInfo. -/
structure Info (K : Type) where
  id : Nat
  ver : Nat
  start : K
  stop : K
deriving DecidableEq

/-- A region in the store: its info, rows, `_new_region_infos` and `_merge_region_info`. -/
structure Reg (K : Type) where
  info : Info K
  rows : List K
  news : List (Info K)
  merge : Option (Info K)

abbrev World (K : Type) := Nat → Option (Reg K)

/-- table_key.h L22-33: `end_key_compare(a, b) <= 0`. -/
def stopLe (a b : K) : Bool :=
  if a = b then true else if a = ⊥ then false else if b = ⊥ then true else decide (a ≤ b)

/-- The rows that go to a new region: those of its range (C08, C09). -/
def inRange (i : Info K) (x : K) : Bool := decide (i.start ≤ x) && (decide (i.stop = ⊥) || decide (x < i.stop))

/-- What the store answers: rows, or VERSION_OLD with `is_merge` and regions. -/
inductive Answer (K : Type) where
  | rows (l : List K)
  | old (isMerge : Bool) (regions : List (Info K))

/-- region.cpp L470-518 (the new regions' ids and versions are not 0). -/
def Reg.answer (r : Reg K) (ver : Nat) : Answer K :=
  if ver < r.info.ver then
    if r.info.start ≠ ⊥ ∧ r.info.start = r.info.stop then
      .old true (r.info :: (r.merge.elim [] fun m => if m.start = r.info.start then [m] else []))
    else .old false (r.info :: r.news)
  else .rows r.rows

/-- fetcher_store.cpp L676-779: the regions to ask instead; `none` is E_FATAL. -/
def redirect (i : Info K) (isMerge : Bool) (regions : List (Info K)) : Option (List (Info K)) :=
  if 2 ≤ regions.length then
    if isMerge then some (regions.filter fun r => decide (r.id ≠ i.id))
    else some (regions.filter fun r => stopLe r.stop i.stop)
  else if regions.length = 1 ∧ regions.all (fun r => decide (r.id = i.id) && decide (r.start ≤ i.start) && stopLe i.stop r.stop) = true
    then some regions
  else none

/-- The rows of a region as read.  (`info`, what the region was then, is not in the code.) -/
structure Read (K : Type) where
  info : Info K
  rows : List K

/-- The query: the regions still to be asked, the answers with rows under way, `region_batch`, and whether it has failed. -/
structure Client (K : Type) where
  todo : List (Info K)
  flight : List (Read K)
  done : List (Read K)
  failed : Bool

/-- The `n`-th request is executed.  (VERSION_OLD is handled at once: what it adds can wait in `todo`.) -/
def Client.send (w : World K) (c : Client K) (n : Nat) : Client K :=
  match c.todo[n]? with
  | none => c
  | some i =>
    match w i.id with
    | none => c
    | some r =>
      match r.answer i.ver with
      | .rows l => { c with todo := c.todo.eraseIdx n, flight := c.flight ++ [⟨r.info, l⟩] }
      | .old m rs =>
        match redirect i m rs with
        | some ts => { c with todo := c.todo.eraseIdx n ++ ts }
        | none => { c with todo := c.todo.eraseIdx n, failed := true }

/-- L1104-1114: the `n`-th answer arrives: `region_batch[region_id]` is set. -/
def Client.arrive (c : Client K) (n : Nat) : Client K :=
  match c.flight[n]? with
  | none => c
  | some rd =>
    { c with flight := c.flight.eraseIdx n, done := rd :: c.done.filter fun d => decide (d.info.id ≠ rd.info.id) }

/-- The rows of the query: the batches of all regions. -/
def Client.result (c : Client K) : List K := c.done.flatMap Read.rows

/-- L1842-1845, L1937-1955: the query starts with the regions of the SQL node's cache. -/
def Client.start (infos : List (Info K)) : Client K := ⟨infos, [], [], false⟩

/-- The new regions of a split at the keys of `cuts` (L4515-4549, L7750-7756): version 1, each up to the next, the last up to
the old end. -/
def pieces : List (Nat × K) → K → List (Info K)
  | [], _ => []
  | [(j, c)], stop => [⟨j, 1, c, stop⟩]
  | (j, c) :: (j', c') :: t, stop => ⟨j, 1, c, c'⟩ :: pieces ((j', c') :: t) stop

/-- L4722-4760: a region splits at the keys of `cuts`; its rows go where they belong (C08, C09).  (That the new regions can be
read a little earlier is left out.) -/
def split (w : World K) (id : Nat) (cuts : List (Nat × K)) : World K := fun j =>
  match w id, cuts.head? with
  | some r, some (_, c) =>
    if j = id then
      some { r with
        info := { r.info with ver := r.info.ver + 1, stop := c }
        rows := r.rows.filter fun x => decide (x < c)
        news := r.news ++ pieces cuts r.info.stop }
    else
      match (pieces cuts r.info.stop).find? fun p => decide (p.id = j) with
      | some p => some ⟨p, r.rows.filter (inRange p), [], none⟩
      | none => w j
  | _, _ => w j

/-- L6014-6173, L4683-4708: a region without rows merges into the one after it, which is extended, and keeps the info of that. -/
def mergeInto (w : World K) (src dst : Nat) : World K := fun j =>
  match w src, w dst with
  | some s, some d =>
    let info := { d.info with ver := d.info.ver + 1, start := s.info.start }
    if j = dst then some { d with info := info }
    else if j = src then some { s with info := { s.info with ver := s.info.ver + 1, stop := s.info.start }, merge := some info }
    else w j
  | _, _ => w j

/-- on_snapshot_load L5487: a replica that loads a snapshot forgets the regions split off before it; the log after the snapshot
is applied again. -/
def reload (w : World K) (id : Nat) (n : Nat) : World K := fun j =>
  if j = id then (w j).map fun r => { r with news := r.news.drop n } else w j

/-- Rows are written in a region. -/
def write (w : World K) (id : Nat) (rows : List K) : World K := fun j =>
  if j = id then (w j).map fun r => { r with rows := rows } else w j

end BaikalDB.Fetch
