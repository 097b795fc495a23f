import Verif.Binlog.Model

/-! What a binlog has to be for its readers, in terms of the raft log of a binlog region alone. -/

namespace BaikalDB.Binlog

/-- The transaction started at `s` and committed at `c`, with payload `d`, is in the binlog. -/
def Txn (L : List Entry) (c s : Int) (d : Nat) : Prop :=
  (∃ e ∈ L, e.kind = .commit ∧ e.ts = c ∧ e.start = s) ∧ ∃ e ∈ L, e.kind = .prewrite ∧ e.ts = s ∧ e.data = d

/-- The transaction started at `s` is prewritten and neither committed nor rolled back. -/
def Open (L : List Entry) (s : Int) : Prop :=
  (∃ e ∈ L, e.kind = .prewrite ∧ e.ts = s) ∧ ∀ e ∈ L, (e.kind = .commit ∨ e.kind = .rollback) → e.start ≠ s

/-- The raft log of a binlog region as SQL nodes and stores write it.  Any entry may be repeated. -/
structure Legit (L : List Entry) : Prop where
  /-- Timestamps are positive. -/
  pos : ∀ e ∈ L, 0 < e.ts
  /-- The first entry opens the region. -/
  first : ∀ e : Entry, L[0]? = some e → e.kind = .fake
  /-- A commit comes after its prewrite; its timestamp is taken after the prewrite was answered, and so exceeds the start
  timestamp and all that was in the log before the prewrite. -/
  commit : ∀ (i : Nat) (e : Entry), L[i]? = some e → e.kind = .commit →
    e.start < e.ts ∧ ∃ (j : Nat) (f : Entry), j < i ∧ L[j]? = some f ∧ f.kind = .prewrite ∧ f.ts = e.start ∧
      ∀ (k : Nat) (g : Entry), k < j → L[k]? = some g → g.ts < e.ts
  /-- A transaction has one commit timestamp. -/
  once : ∀ e ∈ L, ∀ f ∈ L, e.kind = .commit → f.kind = .commit → e.start = f.start → e.ts = f.ts
  /-- A transaction is not both committed and rolled back. -/
  decided : ∀ e ∈ L, ∀ f ∈ L, e.kind = .commit → f.kind = .rollback → e.start ≠ f.start
  /-- A timestamp is given out once. -/
  same : ∀ e ∈ L, ∀ f ∈ L, e.ts = f.ts → e.kind = f.kind → e.start = f.start ∧ e.data = f.data
  /-- Only a rollback may have the timestamp of another entry: of its own transaction's prewrite. -/
  apart : ∀ e ∈ L, ∀ f ∈ L, e.ts = f.ts → e.kind ≠ f.kind →
    (e.kind = .prewrite ∧ f.kind = .rollback ∧ f.start = f.ts) ∨ (f.kind = .prewrite ∧ e.kind = .rollback ∧ e.start = e.ts)

/-- The states a peer of the region can be in once it has applied the first `n` entries of the log: it applies the next
one, or again an earlier one; it restarts; it takes over the snapshot of another peer.  The conditions on the written
check point are those without which transactions are lost (`C59_restart_counterexample`, `C59_snapshot_counterexample`,
`C59_reset_counterexample`). -/
inductive Peer (L : List Entry) : Nat → St → Prop
  | fresh : Peer L 0 init
  | apply {n s k e} (save : Bool) : Peer L n s → k ≤ n → L[k]? = some e → Peer L (if k = n then n + 1 else n) (apply s e save)
  | restart {n s} (save : Bool) : Peer L n s → 0 < s.saved → (∀ t, Open (L.take n) t → s.saved ≤ t) → Peer L n (restart s save)
  | load {m own n s s'} (save : Bool) : Peer L m own → Peer L n s → 0 < s.saved → (∀ t, Open (L.take n) t → s.saved ≤ t) →
      own.max ≤ s.saved → load own s save = some s' → Peer L n s'

/-- A reader goes through the binlog: it asks any peer, whatever the peer has applied, from where it stands, and goes on
from the last binlog of the answer. -/
inductive Consume (L : List Entry) (p₀ : Int) : List Item → Int → Prop
  | start : Consume L p₀ [] p₀
  | read {out p n s q x xs} : Consume L p₀ out p → Peer L n s → q.begin = p → read s q = .ok (x :: xs) →
      Consume L p₀ (out ++ x :: xs) ((x :: xs).getLast (by simp)).ts

/-- The answers the capturer may get: nothing, or what some peer of the region answers. -/
def Answers (log : Nat → List Entry) (maxCache : Nat) (gs : List Nat) (c : Cap) (answer : Nat → List Item) : Prop :=
  ∀ g ∈ gs, ∀ b, ask maxCache c g = some b →
    answer g = [] ∨ ∃ n s q, Peer (log g) n s ∧ q.begin = b ∧ read s q = .ok (answer g)

/-- A subscriber calls the capturer, each time from where the last call has left it; `again`: it starts anew somewhere
else. -/
inductive CapRun (log : Nat → List Entry) (maxCache : Nat) (gs : List Nat) : Int → List (Nat × Item) → Int → Cap → Prop
  | start (p x) : CapRun log maxCache gs p [] p ⟨x, fun _ => []⟩
  | again {p₀ out p c} (p') : CapRun log maxCache gs p₀ out p c → CapRun log maxCache gs p' [] p' c
  | failed {p₀ out p c answer c'} : CapRun log maxCache gs p₀ out p c → Answers log maxCache gs (seek c p) answer →
      subscribe maxCache gs c p answer = (none, c') → CapRun log maxCache gs p₀ out p c'
  | got {p₀ out p c answer o p' c'} : CapRun log maxCache gs p₀ out p c → Answers log maxCache gs (seek c p) answer →
      subscribe maxCache gs c p answer = (some (o, p'), c') → CapRun log maxCache gs p₀ (out ++ o) p' c'

end BaikalDB.Binlog
