import Verif.Global.Model
/-!
# What statements on a table with global indexes ought to do

A table is a set of rows (a map from primary keys to rows); the indexes do not appear, but for the rule that no two rows may have
the same primary key or the same values of a UNIQUE index (BaikalDB counts NULL as a value).  A statement with several records
takes them one after the other, as MySQL does.
-/
namespace BaikalDB.Global
open BaikalDB.Dml

variable {V : Type} [DecidableEq V]

/-- The rows of a table, by primary key. -/
abbrev Rows (V : Type) := Key V → Option (Rec V)

/-- Two rows that may not be in the table together. -/
def Conf (T : Table V) (a b : Rec V) : Prop :=
  T.pk.map a = T.pk.map b ∨ ∃ i ∈ T.indexes, i.uniq = true ∧ i.fields.map a = i.fields.map b

instance (T : Table V) (a b : Rec V) : Decidable (Conf T a b) := by unfold Conf; infer_instance

/-- Nothing is in the way of a record. -/
def Free (T : Table V) (R : Rows V) (r : Rec V) : Prop := ∀ k old, R k = some old → ¬Conf T old r

/-- The record is added. -/
def put (T : Table V) (R : Rows V) (r : Rec V) : Rows V := fun k => if k = T.pk.map r then some r else R k

/-- Statements that take records one after the other. -/
inductive Each (step : Rows V → Rec V → Rows V → Prop) : Rows V → List (Rec V) → Rows V → Prop where
  | nil (R) : Each step R [] R
  | cons {R R' R'' r rs} : step R r R' → Each step R' rs R'' → Each step R (r :: rs) R''

/-- INSERT -/
def Inserts (T : Table V) : Rows V → List (Rec V) → Rows V → Prop := Each fun R r R' => Free T R r ∧ R' = put T R r

/-- INSERT IGNORE -/
def Ignores (T : Table V) : Rows V → List (Rec V) → Rows V → Prop :=
  Each fun R r R' => (Free T R r ∧ R' = put T R r) ∨ (¬Free T R r ∧ R' = R)

/-- REPLACE of one record: the rows in the way are removed. -/
def replace1 (T : Table V) (R : Rows V) (r : Rec V) : Rows V :=
  fun k => if k = T.pk.map r then some r else (R k).filter fun old => !decide (Conf T old r)

/-- REPLACE -/
def Replaces (T : Table V) : Rows V → List (Rec V) → Rows V → Prop := Each fun R r R' => R' = replace1 T R r

/-- The rows without those with the primary keys `P`. -/
def without (R : Rows V) (P : Key V → Prop) [DecidablePred P] : Rows V := fun k => if P k then none else R k

/-- UPDATE of the rows with primary keys `ks` by `f`: the rows it is to leave behind are these. -/
def Updates (T : Table V) (f : Rec V → Rec V) (R : Rows V) (ks : List (Key V)) (R' : Rows V) : Prop :=
  ∀ k r, R' k = some r ↔ (∃ k0 ∈ ks, ∃ old, R k0 = some old ∧ r = f old ∧ T.pk.map r = k) ∨ (k ∉ ks ∧ R k = some r)

/-- ... and they may be in the table together. -/
def UpdateOk (T : Table V) (f : Rec V → Rec V) (R : Rows V) (ks : List (Key V)) : Prop :=
  (∀ k1 ∈ ks, ∀ k2 ∈ ks, k1 ≠ k2 → ∀ a b, R k1 = some a → R k2 = some b → ¬Conf T (f a) (f b)) ∧
    ∀ k1 ∈ ks, ∀ a, R k1 = some a → ∀ k b, k ∉ ks → R k = some b → ¬Conf T b (f a)

/-- The indexes say what the table says: an entry leads to a row exactly if the row has its values; rows are found under their
primary keys. -/
structure Agree (T : Table V) (S : Store V) : Prop where
  own : ∀ k r, S.rows k = some r → T.pk.map r = k
  idx : ∀ j i, T.indexes[j]? = some i → ∀ x k, S.idx j x = some k ↔
    ∃ r, S.rows k = some r ∧ x = i.fields.map r ++ if i.uniq then [] else k

/-- An empty table. -/
def empty : Store V := ⟨fun _ => none, fun _ _ => none⟩

end BaikalDB.Global
