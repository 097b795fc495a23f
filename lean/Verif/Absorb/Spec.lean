/-
What a client expects of two regions of which one is merged into the other.  Nothing here uses
the functions of the model, only its data types.
-/
import Verif.Absorb.Model

namespace BaikalDB.Absorb.Spec

open BaikalDB.Absorb

/-- The key belongs to the range. -/
def Covers (i : Info) (k : Key) : Prop := i.start ≤ k ∧ ∀ e, i.stop = some e → k < e

/-- The value of a key after a history of row changes, newest first. -/
def Value : List Write → Key → Option Val
  | [], _ => none
  | w :: ws, k => if w.key = k then w.val else Value ws k

/-- The rows `rows` have exactly this value for the key. -/
def Holds (rows : List (Key × Val)) (k : Key) (v : Option Val) : Prop :=
  ∀ x, (k, x) ∈ rows ↔ v = some x

/-- The statements of open transactions on a key, oldest first. -/
def Open (l : List Stmt) (k : Key) : List Stmt := l.filter (fun x => decide (x.write.key = k))

/-- Two neighbouring regions `[a, e)` and `[e, c)` before a merge, with the rows and the open
transactions that their clients know of. -/
structure Before (a e : Key) (c : Option Key) (s : Sys) : Prop where
  lt : a < e
  ltc : ∀ x, c = some x → e < x
  src : s.src.info.start = a ∧ s.src.info.stop = some e
  dst : s.dst.info.start = e ∧ s.dst.info.stop = c
  phase : s.phase = .idle
  enabled : s.disabled = false
  idle : s.dstDoing = false
  srcQueue : s.src.queue = []
  dstQueue : s.dst.queue = []
  passed : s.passed = []
  srcViews : ∀ i ∈ s.src.views, i = s.src.info ∨ i.version < s.src.info.version
  dstViews : ∀ i ∈ s.dst.views, i = s.dst.info ∨ i.version < s.dst.info.version
  srcRows : ∀ k, Covers s.src.info k →
    Holds s.src.rows k (Value s.acked k) ∧ Open s.src.txns k = Open s.client k
  dstRows : ∀ k, Covers s.dst.info k →
    Holds s.dst.rows k (Value s.acked k) ∧ Open s.dst.txns k = Open s.client k
  dstOnly : ∀ k, ¬ Covers s.dst.info k → Holds s.dst.rows k none ∧ Open s.dst.txns k = []

/-- The steps that go wrong do not happen: no statement is given to the raft of the source while
its writes are held up, the source has no open transaction when it asks the destination, it loses
neither the answer of the destination nor, at the end, its own leadership. -/
def Clean (s : Sys) : Step → Prop
  | .enter _ => s.disabled = false
  | .ask => s.src.txns = []
  | .lose => False
  | .failSrc => ∀ i q, s.src.queue ≠ .adjust i :: q
  | _ => True

/-- `Clean` for every step of a run. -/
def CleanRun (next : Sys → Step → Option Sys) : Sys → List Step → Prop
  | _, [] => True
  | s, x :: xs => Clean s x ∧ ∀ s', next s x = some s' → CleanRun next s' xs

end BaikalDB.Absorb.Spec
