import Verif.Handover.Model
import Mathlib.Data.List.Forall2

/-!
# What the two regions have to contain

Said of a log alone, without regions, snapshots, passes or caches: an entry outside a transaction
takes effect where it stands, a transaction as a whole where it commits.
-/

namespace BaikalDB.Handover.Spec

/-- The primary key is not below `lo` and, if there is an end, below it. -/
def Within (lo : Nat) (hi : Option Nat) (p : Nat) : Prop := lo ≤ p ∧ ∀ e, hi = some e → p < e

/-- The primary key lies in a range whose bounds may be missing. -/
def Inside (lo hi : Option Nat) (p : Nat) : Prop :=
  (∀ s, lo = some s → s ≤ p) ∧ ∀ e, hi = some e → p < e

/-- The transaction that an entry belongs to. -/
def of : Entry → Option Nat
  | .stmt t _ _ => some t
  | .prepare t _ => some t
  | .commit t => some t
  | .rollback t => some t
  | _ => none

/-- The entry ends transaction `t`. -/
def ends (t : Nat) : Entry → Bool
  | .commit u => u == t
  | .rollback u => u == t
  | _ => false

/-- The transaction has an entry. -/
def seen (t : Nat) (log : List Entry) : Bool := log.any fun e => of e == some t

/-- The transaction has ended. -/
def ended (t : Nat) (log : List Entry) : Bool := log.any (ends t)

/-- The transaction has begun and has not ended. -/
def isOpen (t : Nat) (log : List Entry) : Bool := seen t log && !ended t log

/-- The transaction has been prepared. -/
def prepared (t : Nat) (log : List Entry) : Bool :=
  log.any fun
    | .prepare u _ => u == t
    | _ => false

/-- What the statements of transaction `t` write, in order. -/
def ops (t : Nat) (log : List Entry) : List Op :=
  log.flatMap fun
    | .stmt u _ o => if u = t then o else []
    | _ => []

/-- The number that an entry has in transaction `t`. -/
def number (t : Nat) : Entry → Option Nat
  | .stmt u s _ => if u = t then some s else none
  | .prepare u s => if u = t then some s else none
  | _ => none

/-- The number of the last command of transaction `t`; BEGIN has number 1. -/
def lastSeq (t : Nat) (log : List Entry) : Nat := (log.filterMap (number t)).foldl max 1

/-- One operation on the rows. -/
def op : Op → Data → Data
  | .put k v, d => fun x => if x = k then some v else d x
  | .del k, d => fun x => if x = k then none else d x

/-- Several, in order. -/
def opsOn : List Op → Data → Data
  | [], d => d
  | o :: os, d => opsOn os (op o d)

/-- The effect of an entry that follows `past` on the rows. -/
def effect (past : List Entry) (e : Entry) (d : Data) : Data :=
  match e with
  | .write os => opsOn os d
  | .commit t => opsOn (ops t past) d
  | _ => d

/-- The rows after a log: `past` is what came before the entries still to come. -/
def dataFrom (past : List Entry) (d : Data) : List Entry → Data
  | [] => d
  | e :: rest => dataFrom (past ++ [e]) (effect past e d) rest

/-- The rows after a log, of a region that contained `d` before. -/
def data (d : Data) (log : List Entry) : Data := dataFrom [] d log

/-- An entry that may follow `past`: the commands of a transaction are numbered upwards, none
follows its PREPARE or its end, and it commits only once and prepared. -/
def Follows (past : List Entry) : Entry → Prop
  | .stmt t s _ => ended t past = false ∧ prepared t past = false ∧ lastSeq t past < s
  | .prepare t s => ended t past = false ∧ prepared t past = false ∧ lastSeq t past < s
  | .commit t => ended t past = false ∧ prepared t past = true
  | _ => True

/-- A log that may follow `past`. -/
def ValidFrom (past : List Entry) : List Entry → Prop
  | [] => True
  | e :: rest => Follows past e ∧ ValidFrom (past ++ [e]) rest

/-- A log of transactions in two phases. -/
def Valid (log : List Entry) : Prop := ValidFrom [] log

/-- The key an operation is about. -/
def about : Op → Key
  | .put k _ => k
  | .del k => k

/-- The key is that of a row, or of an entry of a KEY index, whose primary key is in `P`. -/
def isRowOf (P : Nat → Prop) : Key → Prop
  | .row p => P p
  | .key _ p => P p
  | _ => False

/-- Two batches do the same, in the same order, to the keys in `K`. -/
inductive SameOn (K : Key → Prop) : List Op → List Op → Prop
  | nil : SameOn K [] []
  | both (o : Op) {l m : List Op} : SameOn K l m → SameOn K (o :: l) (o :: m)
  | left {o : Op} {l m : List Op} : ¬ K (about o) → SameOn K l m → SameOn K (o :: l) m
  | right {o : Op} {l m : List Op} : ¬ K (about o) → SameOn K l m → SameOn K l (o :: m)

/-- The second entry is the part of the first one that a region gets which has the keys `K`: the
same command, with a batch that does the same to these keys. -/
inductive Share (K : Key → Prop) : Entry → Entry → Prop
  | write {l m : List Op} : SameOn K l m → Share K (.write l) (.write m)
  | stmt (t s : Nat) {l m : List Op} : SameOn K l m → Share K (.stmt t s l) (.stmt t s m)
  | prepare (t s : Nat) : Share K (.prepare t s) (.prepare t s)
  | commit (t : Nat) : Share K (.commit t) (.commit t)
  | rollback (t : Nat) : Share K (.rollback t) (.rollback t)
  | conf : Share K .conf .conf
  | admin : Share K .admin .admin

/-- The operations of an entry. -/
def batch : Entry → List Op
  | .write o => o
  | .stmt _ _ o => o
  | _ => []

end BaikalDB.Handover.Spec
