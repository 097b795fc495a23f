import Verif.Fetch.Model

/-!
# What a query over regions that split should return
-/

namespace BaikalDB.Fetch.Spec
open BaikalDB.Fetch

variable {K : Type} [LinearOrder K] [OrderBot K]

/-- A key belongs to the range of a region. -/
def Covers (i : Info K) (x : K) : Prop := i.start ≤ x ∧ (i.stop = ⊥ ∨ x < i.stop)

instance (i : Info K) (x : K) : Decidable (Covers i x) := by unfold Covers; infer_instance

/-- A split: at increasing keys strictly inside the region, into regions that did not exist. -/
structure Splits (w : World K) (id : Nat) (cuts : List (Nat × K)) : Prop where
  exist : ∃ r, w id = some r ∧ ∀ c ∈ cuts, r.info.start < c.2 ∧ (r.info.stop = ⊥ ∨ c.2 < r.info.stop)
  some : cuts ≠ []
  incr : cuts.Pairwise fun a b => a.2 < b.2
  fresh : ∀ c ∈ cuts, w c.1 = none
  ids : cuts.Pairwise fun a b => a.1 ≠ b.1

/-- Rows are written: distinct keys of the region's range. -/
def Writes (w : World K) (id : Nat) (rows : List K) : Prop :=
  ∃ r, w id = some r ∧ rows.Nodup ∧ ∀ x ∈ rows, Covers r.info x

/-- What can happen to the regions. -/
inductive Change : World K → World K → Prop
  | split {w id cuts} : Splits w id cuts → Change w (split w id cuts)
  | write {w id rows} : Writes w id rows → Change w (write w id rows)

/-- What can happen to the regions while nobody inserts or deletes the key `k`. -/
inductive KeepChange (k : K) : World K → World K → Prop
  | split {w id cuts} : Splits w id cuts → KeepChange k w (split w id cuts)
  | write {w id rows} : Writes w id rows → (∀ r, w id = some r → (k ∈ rows ↔ k ∈ r.rows)) → KeepChange k w (write w id rows)

/-- After any number of changes. -/
inductive Later : World K → World K → Prop
  | refl (w) : Later w w
  | step {u v w} : Later u v → Change v w → Later u w

/-- A table as it is created: regions with non-empty ranges that have not been split. -/
def Created (w : World K) : Prop :=
  ∀ j r, w j = some r → r.info.id = j ∧ r.rows.Nodup ∧ (∀ x ∈ r.rows, Covers r.info x) ∧
    (r.info.stop = ⊥ ∨ r.info.start < r.info.stop) ∧ r.news = []

/-- What the SQL node knows of a region: what it was at some time. -/
def Known (w0 w : World K) (i : Info K) : Prop :=
  ∃ v, Later w0 v ∧ Later v w ∧ (v i.id).map Reg.info = some i

/-- A merge: of a region without rows, which does not begin or end the table, into the one after it. -/
structure Merges (w : World K) (src dst : Nat) : Prop where
  ne : src ≠ dst
  exist : ∃ s d, w src = some s ∧ w dst = some d ∧ s.rows = [] ∧ s.info.start ≠ ⊥ ∧ s.info.start < s.info.stop ∧
    s.info.stop = d.info.start

/-- What can happen to the regions, with merges. -/
inductive MergeChange : World K → World K → Prop
  | change {v w} : Change v w → MergeChange v w
  | merge {w src dst} : Merges w src dst → MergeChange w (mergeInto w src dst)

/-- What can happen to the regions, with replicas that load a snapshot. -/
inductive ReloadChange : World K → World K → Prop
  | change {v w} : Change v w → ReloadChange v w
  | reload {w} (id n) : ReloadChange w (reload w id n)

/-- A query that runs while the regions change by `R`, `P` being so all the time. -/
inductive Run (R : World K → World K → Prop) (P : World K → Prop) (w0 : World K) (c0 : Client K) : World K → Client K → Prop
  | start : P w0 → Run R P w0 c0 w0 c0
  | change {w c w'} : Run R P w0 c0 w c → R w w' → P w' → Run R P w0 c0 w' c
  | send {w c} (n) : Run R P w0 c0 w c → Run R P w0 c0 w (c.send w n)
  | arrive {w c} (n) : Run R P w0 c0 w c → Run R P w0 c0 w (c.arrive n)

/-- The query is finished. -/
def Finished (c : Client K) : Prop := c.todo = [] ∧ c.flight = []

/-- A key is stored. -/
def Stored (k : K) (w : World K) : Prop := ∀ j r, w j = some r → Covers r.info k → k ∈ r.rows

/-- A key is not stored. -/
def Absent (k : K) (w : World K) : Prop := ∀ j r, w j = some r → k ∉ r.rows

/-- No key is in two of the ranges. -/
def Disjoint (infos : List (Info K)) : Prop := infos.Pairwise fun a b => ∀ x, ¬ (Covers a x ∧ Covers b x)

/-- A query while nothing changes. -/
inductive Quiet (w : World K) (c0 : Client K) : Client K → Prop
  | start : Quiet w c0 c0
  | send {c} (n) : Quiet w c0 c → Quiet w c0 (c.send w n)
  | arrive {c} (n) : Quiet w c0 c → Quiet w c0 (c.arrive n)

/-- A number of steps of a query, each with a request to send or an answer to take, while nothing changes. -/
inductive Moves (w : World K) (c0 : Client K) : Nat → Client K → Prop
  | zero : Moves w c0 0 c0
  | send {m c} (n) : Moves w c0 m c → n < c.todo.length → Moves w c0 (m + 1) (c.send w n)
  | arrive {m c} (n) : Moves w c0 m c → n < c.flight.length → Moves w c0 (m + 1) (c.arrive n)

end BaikalDB.Fetch.Spec
