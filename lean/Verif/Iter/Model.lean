import Verif.Basic

/-!
# Reading a key range of one index in one region

`src/engine/table_iterator.cpp`.  The store is a list of entries in key order, `pre` the 16 bytes of region and index id
every key of the index in the region begins with.  RocksDB is taken by its contract: `Seek` with `iterate_upper_bound`
gives the entries from a key on below the bound in order, `SeekForPrev` with `iterate_lower_bound` those up to a key and
not below the bound backwards.
-/

namespace BaikalDB.Iter

abbrev Db := List (Bytes × Bytes)

/-- table_iterator.h:34-83 `IndexRange`, as far as `open` uses it. -/
structure Range where
  left : Bytes
  right : Bytes
  leftOpen : Bool
  rightOpen : Bool
  deriving DecidableEq, Repr

/-- `start_key` and `end_key` of the region; an empty `stop` is no bound. -/
structure Reg where
  start : Bytes
  stop : Bytes
  deriving DecidableEq, Repr

/-- The members `open` sets.  `lower` and `upper` are `_lower_bound` and `_upper_bound` without what is appended for open
and closed ends (`_lower_suffix`, `_upper_sufix`). -/
structure It where
  /-- `_start` -/
  left : Bytes
  /-- `_end` -/
  right : Bytes
  lower : Bytes
  upper : Bytes
  leftOpen : Bool
  rightOpen : Bool
  upperIsEnd : Bool
  deriving DecidableEq, Repr

/-- `p.compare(0, n, …) == 0` for a prefix (`std::string::compare` clamps), `Slice::starts_with`. -/
def startsWith (k p : Bytes) : Bool := p.isPrefixOf k

def blt (a b : Bytes) : Bool := decide (BLt a b)
def ble (a b : Bytes) : Bool := decide (BLe a b)

/-- table_iterator.cpp:158-181: lower bound and whether it is still open. -/
def lowerOf (left : Bytes) (leftOpen : Bool) (reg : Reg) : Bytes × Bool :=
  if ble reg.start left then (left, leftOpen)
  else (reg.start, if left ≠ [] then (if startsWith reg.start left then leftOpen else false) else false)

/-- table_iterator.cpp:186-210. -/
def upperOf (right : Bytes) (rightOpen : Bool) (reg : Reg) : Bytes :=
  if reg.stop = [] ∨ blt right reg.stop = true then
    if right ≠ [] then
      if startsWith reg.stop right then (if !rightOpen then reg.stop else right) else right
    else reg.stop
  else reg.stop

/-- table_iterator.cpp:124-235; `none`: `_valid = false` at once.  `check` is `_need_check_region` and the index being the
primary or a global one. -/
def openIt (pre : Bytes) (check : Bool) (reg : Reg) (rg : Range) : Option It :=
  let lo := if rg.left ≠ [] then rg.leftOpen else false
  let ro := if rg.right ≠ [] then rg.rightOpen else false
  if check then
    let l := lowerOf rg.left lo reg
    let u := upperOf rg.right ro reg
    if blt u l.1 && !startsWith l.1 u then none
    else some ⟨pre ++ rg.left, pre ++ rg.right, pre ++ l.1, pre ++ u, l.2, ro, decide (u = reg.stop)⟩
  else some ⟨pre ++ rg.left, pre ++ rg.right, pre ++ rg.left, pre ++ rg.right, lo, ro, false⟩

def ones (n : Nat) : Bytes := List.replicate n 0xFF#8

/-- table_iterator.cpp:236-240. -/
def seekLow (it : It) : Bytes := if it.leftOpen then it.lower ++ ones 8 else it.lower

/-- table_iterator.cpp:242-250. -/
def seekHigh (it : It) : Bytes := if !it.rightOpen then it.upper ++ ones 24 else it.upper

/-- table_iterator.cpp:385-397. -/
def fitsLeft (it : It) (k : Bytes) : Bool :=
  if !it.leftOpen then ble it.lower k else blt it.lower k && !startsWith k it.left

/-- table_iterator.cpp:414-437; `n` is `_prefix_len`. -/
def fitsRight (n : Nat) (it : It) (k : Bytes) : Bool :=
  if it.rightOpen then blt k it.upper
  else if it.upperIsEnd then
    if it.upper.length = n then startsWith k it.upper else blt k it.upper
  else ble k it.upper || startsWith k it.right

/-- table_iterator.cpp:300-312 and the stop in `get_next` (451-454, 602-607), forward. -/
def forward (n : Nat) (it : It) (db : Db) : Db :=
  let w := db.filter fun e => ble (seekLow it) e.1 && blt e.1 (seekHigh it)
  let w := if it.leftOpen then w.dropWhile fun e => !fitsLeft it e.1 && fitsRight n it e.1 else w
  w.takeWhile fun e => fitsRight n it e.1

/-- table_iterator.cpp:313-320 and the stop in `get_next`, backward. -/
def backward (n : Nat) (it : It) (db : Db) : Db :=
  let w := (db.filter fun e => ble (seekLow it) e.1 && ble e.1 (seekHigh it)).reverse
  let w := w.dropWhile fun e => !fitsRight n it e.1 && fitsLeft it e.1
  w.takeWhile fun e => fitsLeft it e.1

/-- The entries a scan hands out.  `skip` are those passed over one by one: expired ones (455-468, 613-624) and, in local
secondary indexes, those a split left behind (625-634, `fits_region_range`). -/
def scan (pre : Bytes) (check : Bool) (reg : Reg) (rg : Range) (fwd : Bool) (skip : Bytes × Bytes → Bool) (db : Db) : Db :=
  match openIt pre check reg rg with
  | none => []
  | some it => (if fwd then forward pre.length it db else backward pre.length it db).filter fun e => !skip e

end BaikalDB.Iter
