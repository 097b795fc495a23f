import Verif.Dml.Model
/-! # What INSERT, REPLACE, UPDATE and DELETE do to a table -/
namespace BaikalDB.Dml
variable {V : Type}

/-- The rows of a table (those of a region), by primary key. -/
abbrev Tab (V : Type) := Key V → Option (Rec V)

/-- The row that a reader finds under a primary key: it belongs to the region, is stored and has not expired. -/
def view (T : Table V) (E : Env V) (S : Store V) : Tab V := fun k =>
  if E.inReg k = true ∧ ∃ e, S.here k = some e ∧ ∀ t ∈ e, E.now ≤ t then
    some fun f =>
      if f ∈ T.pk then ((T.pk.zip k).lookup f).join
      else if f ∈ T.fields then (S.col k f).or (T.dflt f)
      else none
  else none

/-- What a reader of an index finds: under the key `y` an entry that has not expired and leads to row `k` of the region. -/
def finds (E : Env V) (S : Store V) (j : Nat) (y : Key V) (k : Key V) : Prop :=
  ∃ e, S.idx j y = some ⟨k, e⟩ ∧ E.inReg k = true ∧ ∀ t ∈ e, E.now ≤ t

/-- Every index holds the rows of the table and nothing else. -/
def Indexed (T : Table V) (E : Env V) (S : Store V) : Prop :=
  ∀ (j : Nat) (i : Index), T.indexes[j]? = some i → ∀ y k, finds E S j y k ↔
    ∃ x, view T E S k = some x ∧ y = i.fields.map x ++ if i.uniq then [] else T.pk.map x

/-- No two rows agree on the fields of a UNIQUE index, NULL counting as a value. -/
def Unique (T : Table V) (t : Tab V) : Prop :=
  ∀ i ∈ T.indexes, i.uniq = true → ∀ k k' x x', t k = some x → t k' = some x' → i.fields.map x = i.fields.map x' → k = k'

/-- Row `k` is in the way of the record: it has the same primary key or agrees with it on a UNIQUE index. -/
def Clash (T : Table V) (t : Tab V) (r : Rec V) (k : Key V) : Prop :=
  ∃ x, t k = some x ∧ (k = T.pk.map r ∨ ∃ i ∈ T.indexes, i.uniq = true ∧ i.fields.map x = i.fields.map r)

/-- Of the rows in the way, the one with the same primary key comes first, then those found by the UNIQUE indexes in their order. -/
def First (T : Table V) (t : Tab V) (r : Rec V) (k : Key V) : Prop :=
  ∃ x, t k = some x ∧ (k = T.pk.map r ∨ t (T.pk.map r) = none ∧
    ∃ (n : Nat) (i : Index), T.indexes[n]? = some i ∧ i.uniq = true ∧ i.fields.map x = i.fields.map r ∧
      ∀ m < n, ∀ i' : Index, T.indexes[m]? = some i' → i'.uniq = true → ∀ k' x', t k' = some x' → i'.fields.map x' ≠ i'.fields.map r)

variable [DecidableEq V]

def Tab.put (T : Table V) (t : Tab V) (r : Rec V) : Tab V := fun k => if k = T.pk.map r then some r else t k
def Tab.erase (t : Tab V) (k : Key V) : Tab V := fun k' => if k' = k then none else t k'

/-- The row after the assignments: the last one for a field counts; expressions see the old row. -/
def assigned (as : List (Assign V)) (old vals : Rec V) : Rec V := fun f =>
  ((as.filter fun a => a.field = f).getLast?.map fun a => a.fn (a.reads.map old) (a.news.map vals)).getD (old f)

/-- The row `old` under `k` becomes `new`, unless another row is in the way. -/
def Changed (T : Table V) (t : Tab V) (k : Key V) (new : Rec V) (res : Option (Tab V)) : Prop :=
  ((∃ k', k' ≠ k ∧ Clash T t new k') → res = none) ∧
  ((¬ ∃ k', k' ≠ k ∧ Clash T t new k') → res = some ((t.erase k).put T new))

/-- The result of an INSERT of one record: the rows and the number of rows affected, or an error. -/
def Inserted (T : Table V) (t : Tab V) (r : Rec V) (res : Option (Tab V × Nat)) : Mode V → Prop
  | .plain => ((∃ k, Clash T t r k) → res = none) ∧ ((¬ ∃ k, Clash T t r k) → res = some (t.put T r, 1))
  | .ignore => ((∃ k, Clash T t r k) → res = some (t, 0)) ∧ ((¬ ∃ k, Clash T t r k) → res = some (t.put T r, 1))
  | .replace => ∃ l : List (Key V), l.Nodup ∧ (∀ k, k ∈ l ↔ Clash T t r k) ∧
      res = some (Tab.put T (fun k => if k ∈ l then none else t k) r, l.length + 1)
  | .onDup as => (∀ k old, First T t r k → t k = some old →
        ∃ res', Changed T t k (assigned as old r) res' ∧ res = res'.map fun t' => (t', 2)) ∧
      ((¬ ∃ k, Clash T t r k) → res = some (t.put T r, 1))

/-- UPDATE of the row under `k` if the condition holds for it. -/
def Updated (T : Table V) (as : List (Assign V)) (cond : Cond V) (t : Tab V) (k : Key V) (res : Option (Tab V × Nat)) : Prop :=
  (t k = none → res = some (t, 0)) ∧
  ∀ old, t k = some old →
    (cond.fn (cond.reads.map old) = false → res = some (t, 0)) ∧
    (cond.fn (cond.reads.map old) = true →
      ∃ res', Changed T t k (assigned as old fun _ => none) res' ∧ res = res'.map fun t' => (t', 1))

/-- DELETE of the row under `k` if the condition holds for it. -/
def Deleted (cond : Cond V) (t : Tab V) (k : Key V) (res : Option (Tab V × Nat)) : Prop :=
  (t k = none → res = some (t, 0)) ∧
  ∀ old, t k = some old →
    (cond.fn (cond.reads.map old) = false → res = some (t, 0)) ∧ (cond.fn (cond.reads.map old) = true → res = some (t.erase k, 1))

/-- One row after the other; the first error is the statement's. -/
inductive Rows {α : Type} (step : Tab V → α → Option (Tab V × Nat) → Prop) : List α → Tab V → Option (Tab V × Nat) → Prop where
  | nil (t) : Rows step [] t (some (t, 0))
  | error {a as t} : step t a none → Rows step (a :: as) t none
  | cons {a as t t' n res} : step t a (some (t', n)) → Rows step as t' res → Rows step (a :: as) t (res.map fun p => (p.1, n + p.2))

/-- The result of a statement.  Records that belong to other regions are left to these. -/
def Result (T : Table V) (E : Env V) (t : Tab V) (res : Option (Tab V × Nat)) : Stmt V → Prop
  | .insert m rs => Rows (fun t r res => (E.inReg (T.pk.map r) = true → Inserted T t r res m) ∧
      (E.inReg (T.pk.map r) = false → res = some (t, 0))) rs t res
  | .update as _ cond bs => Rows (Updated T as cond) bs.flatten t res
  | .delete _ cond ks => Rows (Deleted cond) ks t res

/-- The number of stored rows changes by `inc`. -/
def Counted (S S' : Store V) (inc : Int) : Prop :=
  ∃ l₀ : List (Key V), (∀ k, k ∉ l₀ → (S'.here k).isSome = (S.here k).isSome) ∧
    ∀ l : List (Key V), l.Nodup → l₀ ⊆ l →
      (l.countP (fun k => (S'.here k).isSome) : Int) - l.countP (fun k => (S.here k).isSome) = inc

/-- What a region holds between statements. -/
structure Sound (T : Table V) (E : Env V) (S : Store V) : Prop where
  indexed : Indexed T E S
  /-- a row and its index entries expire together -/
  together : ∀ (j : Nat), j < T.indexes.length → ∀ y k e, S.idx j y = some ⟨k, e⟩ → E.inReg k = true → (∀ t ∈ e, E.now ≤ t) → S.here k = some e
  /-- a column store keeps no columns without their row -/
  clean : T.cstore = true → ∀ k, E.inReg k = true → S.here k = none → ∀ f, S.col k f = none
  /-- without TTL nothing expires -/
  noexp : T.ttl = false → ∀ k e, E.inReg k = true → S.here k = some e → e = none
  /-- keys have the fields of the primary key -/
  shape : ∀ k e, E.inReg k = true → S.here k = some e → k.length = T.pk.length

/-- Schemas. -/
structure Table.Ok (T : Table V) : Prop where
  pk : T.pk.Nodup
  sub : ∀ f ∈ T.pk, f ∈ T.fields
  idx : ∀ i ∈ T.indexes, ∀ f ∈ i.fields, f ∈ T.fields
  /-- no column store with TTL -/
  cstore : T.cstore = true → T.ttl = false

/-- Rows are written with a time to expire only if the table has a TTL, and never with one that has passed. -/
structure Env.Ok (T : Table V) (E : Env V) : Prop where
  live : ∀ t ∈ E.exp, E.now ≤ t
  ttl : T.ttl = false → E.exp = none

/-- A record to insert: NULLs have been replaced by the default value (`fill_default_value`). -/
def RecOk (T : Table V) (r : Rec V) : Prop :=
  (∀ f ∈ T.fields, f ∉ T.pk → r f = none → T.dflt f = none) ∧ ∀ f, f ∉ T.fields → r f = none

/-- Assignments: no NULL for a column with a default value. -/
def AssignOk (T : Table V) (a : Assign V) : Prop :=
  a.field ∈ T.fields ∧ (a.field ∉ T.pk → T.dflt a.field ≠ none → ∀ x y, a.fn x y ≠ none)

/-- Statements. -/
def Stmt.Ok (T : Table V) (E : Env V) : Stmt V → Prop
  | .insert m rs => (∀ r ∈ rs, RecOk T r) ∧ ∀ as, m = .onDup as → ∀ a ∈ as, AssignOk T a ∧
      -- a column store without TTL: the expressions read only columns of indexes that are changed
      (T.cstore = true → (∀ a ∈ as, a.field ∉ T.pk) →
        ∀ f ∈ a.reads, f ∈ T.pk ∨ f ∉ T.fields ∨ ∃ i ∈ T.indexes, f ∈ i.fields ∧ ∃ b ∈ as, b.field ∈ i.fields) ∧
      -- the primary key is changed only if there is but one region
      (a.field ∈ T.pk → ∀ k, E.inReg k = true)
  | .update as slots cond _ => (∀ a ∈ as, AssignOk T a ∧ a.field ∉ T.pk ∧ ∀ f ∈ a.reads, f ∈ slots) ∧ ∀ f ∈ cond.reads, f ∈ slots
  | .delete slots cond _ => ∀ f ∈ cond.reads, f ∈ slots

end BaikalDB.Dml
