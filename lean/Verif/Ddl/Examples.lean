import Verif.Ddl.Props

/-!
# An index added while rows are written, and where the guarantees end

One SQL node, one store, one region; the table has one row when ADD INDEX is accepted and gets a second one while the index
is filled.
-/

namespace BaikalDB.Ddl.Ex

def W : World := { dbs := 1, stores := 1, index := 7, regions := [3], range := fun _ _ => True, limit := 10 }

def e (ripe : Bool) : Env :=
  { ripe := ripe, known := [0], busy := false, ask := fun _ => ⟨.ready, .ok 0, false, false⟩, applied := true, maxRetry := 3 }

abbrev S := Sys Nat

def k1 : Bytes := []
def k2 : Bytes := [1#8]

def t (r : Bool) (s : S) : S := { s with m := tick (e r) s.m }
def hd (i : IState) (s : S) : S := { s with db := setAt s.db 0 i }
def hs (i : IState) (s : S) : S := { s with store := setAt s.store 0 i }
def onM (f : Meta → Meta) (s : S) : S := { s with m := f s.m }
def bg (s : S) : S := { s with txn := setAt s.txn 0 (some ⟨0, decide (2 ≤ (s.db 0).rank)⟩) }
def lk (k : Bytes) (s : S) : S := { s with slot := setAt s.slot k ⟨(s.slot k).cur, some (.client 0, (s.slot k).cur)⟩ }
def dm (k : Bytes) (op : Dml Nat) (s : S) : S :=
  { s with slot := setAt s.slot k ⟨exec (s.db 0) (s.store 0) op (s.slot k).cur, some (.client 0, (s.slot k).committed)⟩ }
def cm (s : S) : S := { s with slot := fun y => (s.slot y).commit (.client 0), txn := setAt s.txn 0 none }

def w : RWork := ⟨3, 7, .doing, 1⟩

def s0 : S :=
  { m := startAdd 7 [3] false false, db := fun _ => .none, store := fun _ => .none, txn := fun _ => none,
    slot := fun k => ⟨⟨if k = k1 then some 0 else none, []⟩, none⟩, run := fun _ => none }

def s4 : S := t true (hs .deleteOnly (hd .deleteOnly (t true s0)))
def s8 : S := onM (castDone 0) (onM (castHandOver 0) (t false (hd .writeOnly s4)))
def s12 : S := onM (handOver 0) (t false (hd .writeLocal (t false s8)))

def put (x : Run) (s : S) : S := { s with run := setAt s.run 0 (some x) }
def scan (x : Run) (k : Bytes) (s : S) : S :=
  { s with slot := setAt s.slot k ⟨fill (s.slot k).cur, some (.filler 0, (s.slot k).cur)⟩, run := setAt s.run 0 (some { x with pos := some k, cnt := x.cnt + 1 }) }
def bcm (x : Run) (s : S) : S := { s with slot := fun y => (s.slot y).commit (.filler 0), run := setAt s.run 0 (some (closeBatch x)) }

def x0 : Run := newRun 0 w
def s13 : S := put x0 s12
def x1 : Run := openBatch s13.slot x0
def s14 : S := put x1 s13
/-- the client inserts the second row while the first batch is under way; the store still has `IS_DELETE_ONLY` -/
def s18 : S := cm (dm k2 (.insert 8) (lk k2 (bg s14)))
def s19 : S := scan x1 k1 s18
def x2 : Run := { x1 with pos := some k1, cnt := x1.cnt + 1 }
def s20 : S := bcm x2 s19
def x3 : Run := closeBatch x2
def x4 : Run := openBatch s20.slot x3
def s21 : S := put x4 s20
def s22 : S := scan x4 k2 s21
def x5 : Run := { x4 with pos := some k2, cnt := x4.cnt + 1 }
def s23 : S := bcm x5 s22
def x6 : Run := closeBatch x5
def x7 : Run := openBatch s23.slot x6
def s24 : S := put x7 s23
def s25 : S := bcm x7 s24
def x8 : Run := closeBatch x7
def s26 : S := { s25 with m := report x8.addr { x8.work with status := .done } s25.m, run := setAt s25.run 0 none }
def s27 : S := t false s26
/-- the SQL node hears that the index is public -/
def s28 : S := hd .pub s27

variable {b : Bool} {s : S}

theorem rT (r : Bool) (h : Reach W b s) (hr : r = true → Synced W s) : Reach W b (t r s) := by
  refine .step _ _ h (.tick s (e r) hr (fun d hd => ?_) (by simp [e]))
  have : d = 0 := Nat.lt_one_iff.mp hd
  simp [e, this]

theorem rHd {i : IState} (h : Reach W b s) (hi : s.m.state = some i) : Reach W b (hd i s) := .step _ _ h (.hearDb s 0 i hi)
theorem rHs {i : IState} (h : Reach W b s) (hi : s.m.state = some i) : Reach W b (hs i s) := .step _ _ h (.hearStore s 0 i hi)

theorem sync {i : IState} (h1 : s.m.state = some i) (h2 : s.db 0 = i) (h3 : s.store 0 = i) : Synced W s := by
  intro j hj
  rw [h1] at hj
  have := Option.some.inj hj
  subst this
  refine ⟨fun d hd => ?_, fun n hn => ?_⟩
  · have : d = 0 := Nat.lt_one_iff.mp hd
    rw [this, h2]
  · have : n = 0 := Nat.lt_one_iff.mp hn
    rw [this, h3]

theorem r0 : Reach W b s0 :=
  .init _ ⟨rfl, fun _ => rfl, fun _ => rfl, fun _ => rfl, fun _ => ⟨rfl, rfl⟩, fun _ => rfl⟩

theorem r4 : Reach W b s4 :=
  rT true (rHs (rHd (rT true r0 fun _ => sync (i := .none) rfl rfl rfl) rfl) rfl) fun _ => sync (i := .deleteOnly) rfl rfl rfl

theorem r8 : Reach W b s8 := by
  refine .step _ _ (.step _ _ (rT false (rHd r4 rfl) (by simp)) (.castHandOver _ 0)) (.castDone _ 0 ⟨by decide, ?_⟩)
  intro t' x hx
  exact nomatch hx

theorem r12 : Reach W b s12 := .step _ _ (rT false (rHd (rT false r8 (by simp)) rfl) (by simp)) (.handOver _ 0)

theorem r14 : Reach W b s14 :=
  .step _ _ (.step _ _ r12 (.runStart _ 0 0 w (by decide) rfl)) (.batchStart _ 0 x0 rfl rfl rfl (.inl rfl))

theorem rBg (h : Reach W b s) (ht : s.txn 0 = none) : Reach W b (bg s) := .step _ _ h (.begin s 0 0 (by decide) ht)
theorem rLk {x : Txn} (k : Bytes) (h : Reach W b s) (ht : s.txn 0 = some x) (hl : (s.slot k).lock = none) : Reach W b (lk k s) :=
  .step _ _ h (.lock s 0 x k ht hl)
theorem rDm {f : Bool} {k : Bytes} {c : Cell Nat} {op : Dml Nat} (h : Reach W b s) (ht : s.txn 0 = some ⟨0, f⟩)
    (hl : (s.slot k).lock = some (.client 0, c)) (hn : b = true → NeedsSync (s.db 0) op → 2 ≤ (s.db 0).rank → 2 ≤ (s.store 0).rank) :
    Reach W b (dm k op s) := by
  have := Reach.step _ _ h (Step.dml s 0 ⟨0, f⟩ 0 k c op ht (by decide) hl hn)
  unfold dm
  rw [committed_some hl]; exact this
theorem rCm (h : Reach W b s) : Reach W b (cm s) := .step _ _ h (.commit s 0)

theorem r18 : Reach W b s18 :=
  rCm (rDm (f := true) (c := ⟨none, []⟩) (rLk (x := ⟨0, true⟩) k2 (rBg r14 rfl) rfl rfl) rfl rfl (fun _ hn => by cases hn))

theorem other14 (k : Bytes) (h : x1.snap k = true) : k = k1 := by
  by_contra hk
  have : x1.snap k = (if k = k1 then some 0 else none : Option Nat).isSome := rfl
  rw [this, if_neg hk] at h; cases h

theorem r19 : Reach W b s19 := by
  refine .step _ _ r18 (.scanRow s18 0 x1 k1 rfl rfl (by decide) ⟨rfl, trivial, (fun q hq => nomatch hq), ?_⟩ rfl)
  intro k' h _ _
  rw [other14 k' h]; exact BLe.refl _

theorem r20 : Reach W b s20 := by
  refine .step _ _ r19 (.batchCommit s19 0 x2 rfl rfl (.inr fun k h _ ha => ?_))
  rw [other14 k h] at ha
  exact BLt.irrefl _ (ha k1 rfl)

theorem slot20 (k : Bytes) : (s20.slot k).committed.row.isSome = true → k = k1 ∨ k = k2 := by
  intro h
  by_contra hk
  push Not at hk
  have e1 : s19.slot k = s18.slot k := setAt_ne _ _ hk.1
  have e2 : (dm k2 (.insert 8) (lk k2 (bg s14))).slot k = s14.slot k :=
    (setAt_ne _ _ hk.2).trans (setAt_ne _ _ hk.2)
  have e3 : s14.slot k = ⟨⟨none, []⟩, none⟩ := by
    show (⟨⟨if k = k1 then some 0 else none, []⟩, none⟩ : Slot Nat) = _
    rw [if_neg hk.1]
  have e4 : s18.slot k = ⟨⟨none, []⟩, none⟩ := by
    show ((dm k2 (.insert 8) (lk k2 (bg s14))).slot k).commit (.client 0) = _
    rw [e2, e3]; rfl
  have : s20.slot k = ⟨⟨none, []⟩, none⟩ := by
    show (s19.slot k).commit (.filler 0) = _
    rw [e1, e4]; rfl
  rw [this] at h; cases h

theorem r22 : Reach W b s22 := by
  have h : Reach W b s21 := .step _ _ r20 (.batchStart s20 0 x3 rfl rfl rfl (.inl rfl))
  refine .step _ _ h (.scanRow s21 0 x4 k2 rfl rfl (by decide) ⟨by decide, trivial, ?_, ?_⟩ rfl)
  · intro q hq
    have : k1 = q := Option.some.inj hq
    rw [← this]; decide
  · intro k' h' _ ha
    rcases slot20 k' h' with rfl | rfl
    · exact absurd (ha k1 rfl) (BLt.irrefl _)
    · exact BLe.refl _

theorem r23 : Reach W b s23 := by
  refine .step _ _ r22 (.batchCommit s22 0 x5 rfl rfl (.inr fun k h _ ha => ?_))
  have hb := ha k2 rfl
  rcases slot20 k h with rfl | rfl
  · exact absurd hb (by decide)
  · exact BLt.irrefl _ hb

theorem slot23 (k : Bytes) : (s23.slot k).committed.row.isSome = true → k = k1 ∨ k = k2 := by
  intro h
  by_cases hk : k = k2
  · exact .inr hk
  · have e1 : s22.slot k = s20.slot k := setAt_ne _ _ hk
    have e2 : s23.slot k = (s20.slot k).commit (.filler 0) := by
      show (s22.slot k).commit (.filler 0) = _
      rw [e1]
    rw [e2] at h
    rcases commit_cases (.filler 0) (s20.slot k) with ⟨⟨c, hc⟩, -⟩ | ⟨-, e⟩
    · exfalso
      have : (s20.slot k).lock = ((s19.slot k).commit (.filler 0)).lock := rfl
      rw [this] at hc
      rcases commit_cases (.filler 0) (s19.slot k) with ⟨-, e⟩ | ⟨ne, e⟩
      · rw [e] at hc; cases hc
      · rw [e] at hc; exact ne c hc
    · rw [e] at h; exact slot20 k h

theorem r28 : Reach W b s28 := by
  have h24 : Reach W b s24 := .step _ _ r23 (.batchStart s23 0 x6 rfl rfl rfl (.inl rfl))
  have h25 : Reach W b s25 := by
    refine .step _ _ h24 (.batchCommit s24 0 x7 rfl rfl (.inr fun k h _ ha => ?_))
    have hb := ha k2 rfl
    rcases slot23 k h with rfl | rfl
    · exact absurd hb (by decide)
    · exact BLt.irrefl _ hb
  have h26 : Reach W b s26 := .step _ _ h25 (.runDone s25 0 x8 rfl rfl)
  exact rHd (rT false h26 (by simp)) rfl

/-- What the client does next: UPDATE of the first row. -/
def upd (s : S) : S := cm (dm k1 (.update 5) (lk k1 (bg s)))

/-- The theorem's hypotheses are met: the index has become public, a row was inserted while it was filled and another is
being changed. -/
example : Reach W true (upd (hs .pub s28)) ∧ (upd (hs .pub s28)).db 0 = .pub ∧
    ((upd (hs .pub s28)).slot k1).cur = ⟨some 5, [5]⟩ ∧ ((upd (hs .pub s28)).slot k2).cur = ⟨some 8, [8]⟩ :=
  ⟨rCm (rDm (f := true) (c := ⟨some 0, [0]⟩) (rLk (x := ⟨0, true⟩) k1 (rBg (rHs r28 rfl) rfl) rfl rfl) rfl rfl
    (fun _ _ _ => by decide)), rfl, rfl, rfl⟩

example : ∀ k, ∃ r ∈ W.regions, W.range r k := fun _ => ⟨3, by simp [W], trivial⟩

/-- **C36, counterexample.**  The states in which the index is to be written are announced to the stores, but only the SQL
nodes are waited for.  An UPDATE does not tell the store what the SQL node knows (`ddl_need_write` is set for INSERT only,
insert_node.cpp:175-178), so on a store that has not heard of `IS_WRITE_ONLY` yet it removes the old entry and writes no new
one: the public index has lost the row. -/
theorem C36_update_counterexample : ∃ s : S, Reach W false s ∧ s.db 0 = .pub ∧
    (s.slot k1).committed = ⟨some 5, []⟩ :=
  ⟨upd s28, rCm (rDm (f := true) (c := ⟨some 0, [0]⟩) (rLk (x := ⟨0, true⟩) k1 (rBg r28 rfl) rfl rfl) rfl rfl
    (fun hb => nomatch hb)), rfl, rfl⟩

/-- **C36, counterexample.**  A rollup index whose partition has no range is made public with nothing filled: the visit ends
the traversal without saying that the work is not done (ddl_manager.cpp:1196-1199, 1033-1037). -/
theorem C36_rollup_counterexample : ∃ (m : Meta) (e : Env), m.job = some .add ∧ m.state = some .writeLocal ∧ m.isRollup = true ∧
    m.works = some [⟨3, 7, .idle, 0⟩] ∧ (tick e m).state = some .pub ∧ (tick e m).works = some [⟨3, 7, .idle, 0⟩] :=
  ⟨{ startAdd 7 [3] false true with state := some .writeLocal },
   { ripe := true, known := [0], busy := false, ask := fun _ => ⟨.noRange, .ok 0, false, false⟩, applied := true, maxRetry := 3 },
   rfl, rfl, rfl, rfl, rfl, rfl⟩

/-- The hypotheses of `C36_rollup_means_done` hold in a round that makes an index public. -/
example : ∃ (m : Meta) (e : Env), m.isRollup = true ∧ m.state ≠ some .pub ∧ (tick e m).state = some .pub ∧
    m.works = some [⟨3, 7, .done, 1⟩, ⟨4, 7, .idle, 0⟩] ∧
    (∀ ws, m.works = some ws → ∀ w ∈ ws, w.status = .idle → (e.ask w.region).pre ≠ .noTable ∧ (e.ask w.region).pre ≠ .noRange) :=
  ⟨{ startAdd 7 [3, 4] false true with state := some .writeLocal, works := some [⟨3, 7, .done, 1⟩, ⟨4, 7, .idle, 0⟩] },
   { ripe := true, known := [0], busy := false, ask := fun _ => ⟨.cold, .ok 0, false, false⟩, applied := true, maxRetry := 3 },
   rfl, by decide, rfl, rfl, fun _ _ _ _ _ => ⟨(fun h => nomatch h), (fun h => nomatch h)⟩⟩

/-- **C36, counterexample.**  A meta server that does not know a SQL node (it became leader a moment ago, or the node says it
takes no DDL work) does not wait for its transactions: two rounds after `IS_WRITE_ONLY` the filling begins. -/
theorem C36_unknown_node_counterexample : ∃ (m : Meta) (e : Env), m.job = some .add ∧ m.state = some .writeOnly ∧ e.known = [] ∧
    (tick e (tick e m)).state = some .writeLocal :=
  ⟨{ startAdd 7 [3] false false with state := some .writeOnly },
   { ripe := false, known := [], busy := false, ask := fun _ => ⟨.ready, .ok 0, false, false⟩, applied := true, maxRetry := 3 },
   rfl, rfl, rfl, rfl⟩

/-- **C36, counterexample.**  A report is matched by table and region only: the late report of a task for an earlier index of
the table ends the work of the present one. -/
theorem C36_report_counterexample : ∃ (m : Meta) (old : RWork), old.index = 6 ∧ m.works = some [⟨3, 7, .doing, 1⟩] ∧
    m.doing = [(0, ⟨3, 7, .doing, 1⟩)] ∧ (report 0 old m).works = some [old] ∧ old.status = .done :=
  ⟨{ startAdd 7 [3] false false with works := some [⟨3, 7, .doing, 1⟩], doing := [(0, ⟨3, 7, .doing, 1⟩)] },
   ⟨3, 6, .done, 1⟩, rfl, rfl, rfl, rfl, rfl⟩

/-! ## The hypotheses of the other theorems -/

example : (t false s26).m.state = some .pub ∧ s26.m.isRollup = false ∧ s26.m.state ≠ some .pub := ⟨rfl, rfl, by decide⟩

example : ∃ (m : Meta) (w : RWork), m.job = some .add ∧ m.state = some .writeLocal ∧ m.works = some [⟨2, 7, .doing, 1⟩, w] ∧
    w.status = .dupUniq ∧ (execOrRetry 3 ⟨.ready, .ok 0, false, false⟩ true ⟨2, 7, .doing, 1⟩).go = true :=
  ⟨{ startAdd 7 [3] false false with state := some .writeLocal, works := some [⟨2, 7, .doing, 1⟩, ⟨3, 7, .dupUniq, 1⟩] },
   ⟨3, 7, .dupUniq, 1⟩, rfl, rfl, rfl, rfl, rfl⟩

example : ((tick (e true))^[5] { startAdd 7 [3] false false with job := some .drop, state := some .pub }).state = some .deleteLocal := rfl

end BaikalDB.Ddl.Ex
