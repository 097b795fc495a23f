import Verif.Recover.Model

/-!
# What a region has to contain

Everything here is said of a log, without disk, memory or restarts: an entry outside a transaction
takes effect where it stands; a transaction takes effect as a whole where it commits.
-/

namespace BaikalDB.Recover.Spec

/-- The transaction that an entry belongs to. -/
def of : Entry → Option Nat
  | .write _ _ => none
  | .other => none
  | .stmt t _ _ _ => some t
  | .prepare t => some t
  | .commit t => some t
  | .rollback t => some t
  | .onePc t => some t

/-- The entry ends transaction `t`. -/
def ends (t : Nat) : Entry → Bool
  | .commit u => u == t
  | .rollback u => u == t
  | .onePc u => u == t
  | _ => false

/-- The transaction has an entry. -/
def seen (t : Nat) (log : List Entry) : Bool := log.any fun e => of e == some t

/-- The transaction has ended. -/
def ended (t : Nat) (log : List Entry) : Bool := log.any (ends t)

/-- The transaction has begun and has not ended. -/
def isOpen (t : Nat) (log : List Entry) : Bool := seen t log && !ended t log

/-- The transaction has been prepared. -/
def prepared (t : Nat) (log : List Entry) : Bool := log.any fun e => e == .prepare t

/-- What the statements of transaction `t` write, in order. -/
def ops (t : Nat) (log : List Entry) : List Op :=
  log.flatMap fun
    | .stmt u _ o _ => if u = t then o else []
    | _ => []

/-- How many rows they add. -/
def rows (t : Nat) (log : List Entry) : Int :=
  (log.map fun
    | .stmt u _ _ r => if u = t then r else 0
    | _ => 0).sum

/-- The number of its last statement. -/
def lastSeq (t : Nat) : List Entry → Nat
  | [] => 0
  | .stmt u s _ _ :: l => if u = t then max s (lastSeq t l) else lastSeq t l
  | _ :: l => lastSeq t l

/-- One operation on the rows. -/
def op : Op → Data → Data
  | .put k v, d => fun x => if x = k then some v else d x
  | .del k, d => fun x => if x = k then none else d x
  | .merge k v, d => fun x => if x = k then some ((d k).getD 0 + v) else d x

/-- Several, in order. -/
def opsOn : List Op → Data → Data
  | [], d => d
  | o :: os, d => opsOn os (op o d)

/-- The effect of an entry that follows `past` on the rows. -/
def effect (past : List Entry) (e : Entry) (d : Data) : Data :=
  match e with
  | .write os _ => opsOn os d
  | .commit t => opsOn (ops t past) d
  | .onePc t => opsOn (ops t past) d
  | _ => d

/-- The rows after a log: `past` is what came before the entries still to come. -/
def dataFrom (past : List Entry) (d : Data) : List Entry → Data
  | [] => d
  | e :: rest => dataFrom (past ++ [e]) (effect past e d) rest

/-- The rows after a log, from an empty region. -/
def data (log : List Entry) : Data := dataFrom [] (fun _ => none) log

/-- The effect of an entry on the number of rows. -/
def gain (past : List Entry) : Entry → Int
  | .write _ r => r
  | .commit t => rows t past
  | .onePc t => rows t past
  | _ => 0

/-- The number of rows after a log. -/
def countFrom (past : List Entry) (n : Int) : List Entry → Int
  | [] => n
  | e :: rest => countFrom (past ++ [e]) (n + gain past e) rest

/-- The number of rows after a log, from an empty region. -/
def count (log : List Entry) : Int := countFrom [] 0 log

/-- An entry that may follow `past`: the statements of a transaction are numbered upwards, it is
prepared once after them, commits only prepared, and nothing follows its end. -/
def Follows (past : List Entry) : Entry → Prop
  | .stmt t s _ _ => ended t past = false ∧ prepared t past = false ∧ lastSeq t past < s
  | .prepare t => isOpen t past = true ∧ prepared t past = false
  | .commit t => isOpen t past = true ∧ prepared t past = true
  | .rollback t => isOpen t past = true
  | .onePc _ => False
  | .write _ _ => True
  | .other => True

/-- A log of transactions in two phases. -/
def Valid (log : List Entry) : Prop :=
  ∀ n e, log[n]? = some e → Follows (log.take n) e

end BaikalDB.Recover.Spec
