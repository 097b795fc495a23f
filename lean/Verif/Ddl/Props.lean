import Verif.Ddl.Steps
import Mathlib.Logic.Function.Iterate

/-!
# What adding and dropping an index guarantees
-/

namespace BaikalDB.Ddl

set_option linter.unusedSectionVars false

variable {V : Type} [DecidableEq V] {W : World} {s : Sys V}

/-- The index holds the key of a row under the row's value and under no other. -/
def Exact (c : Cell V) : Prop := ∀ v, v ∈ c.ents ↔ c.row = some v

/-- **C36.**  Whatever happened since ADD INDEX — any writes by any transactions, any order in which SQL nodes and stores
heard of the states, any hand-outs, failures, repetitions and reports of filling tasks, any change of the meta leader, a
later DROP INDEX — as long as a SQL node takes the index to be public, the index agrees with the rows, committed or not. -/
theorem C36_reader_exact (hcover : ∀ k, ∃ r ∈ W.regions, W.range r k) (hlim : 0 < W.limit) (h : Reach W true s) {d : Nat}
    (hd : d < W.dbs) (hp : s.db d = .pub) (k : Bytes) : Exact (s.slot k).cur ∧ Exact (s.slot k).committed := by
  have inv := inv_reach hcover hlim h
  have p : Pub W s := .inr (.inl ⟨d, hd, hp⟩)
  obtain ⟨o1, o2⟩ := inv.orphan (.inr p) k
  obtain ⟨g1, g2⟩ := inv.good p k
  exact ⟨fun v => ⟨o1 v, g1 v⟩, fun v => ⟨o2 v, g2 v⟩⟩

/-- The moment the meta server declares the index public it is complete, whoever has heard of it. -/
theorem C36_published_exact (hcover : ∀ k, ∃ r ∈ W.regions, W.range r k) (hlim : 0 < W.limit) (h : Reach W true s)
    (hp : s.m.state = some .pub) (k : Bytes) : Exact (s.slot k).cur ∧ Exact (s.slot k).committed := by
  have inv := inv_reach hcover hlim h
  obtain ⟨o1, o2⟩ := inv.orphan (.inr (.inl hp)) k
  obtain ⟨g1, g2⟩ := inv.good (.inl hp) k
  exact ⟨fun v => ⟨o1 v, g1 v⟩, fun v => ⟨o2 v, g2 v⟩⟩

/-- While the index is being added it never holds a value the row does not have, so that nothing has to be removed when it
becomes public. -/
theorem C36_no_orphan (hcover : ∀ k, ∃ r ∈ W.regions, W.range r k) (hlim : 0 < W.limit) (h : Reach W true s)
    (ha : s.m.job = some .add) (k : Bytes) (v : V) :
    (v ∈ (s.slot k).cur.ents → (s.slot k).cur.row = some v) ∧ (v ∈ (s.slot k).committed.ents → (s.slot k).committed.row = some v) := by
  have inv := inv_reach hcover hlim h
  obtain ⟨o1, o2⟩ := inv.orphan (.inl ha) k
  exact ⟨o1 v, o2 v⟩

/-- No SQL node or store takes an index that is still being added to be public, and none is more than one state away from
what the meta server has (stores: two, see `C36_update_counterexample`). -/
theorem C36_views (hcover : ∀ k, ∃ r ∈ W.regions, W.range r k) (hlim : 0 < W.limit) (h : Reach W true s)
    (ha : s.m.job = some .add) {i : IState} (hi : s.m.state = some i) {d n : Nat} (hd : d < W.dbs) (hn : n < W.stores) :
    (s.db d).rank ≤ i.rank ∧ i.rank ≤ (s.db d).rank + 1 ∧ (s.store n).rank ≤ i.rank ∧ i.rank ≤ (s.store n).rank + 2 ∧ i ≠ .pub := by
  have inv := inv_reach hcover hlim h
  have fin : ∀ {j : IState}, s.m.state = some j → j ≠ .pub → ((s.db d).rank ≤ j.rank ∧ j.rank ≤ (s.db d).rank + 1 ∧
      (s.store n).rank ≤ j.rank ∧ j.rank ≤ (s.store n).rank + 2) →
      (s.db d).rank ≤ i.rank ∧ i.rank ≤ (s.db d).rank + 1 ∧ (s.store n).rank ≤ i.rank ∧ i.rank ≤ (s.store n).rank + 2 ∧ i ≠ .pub := by
    intro j b c e
    rw [hi] at b; cases b
    exact ⟨e.1, e.2.1, e.2.2.1, e.2.2.2, c⟩
  rcases inv.shape ha with b | b | b | b <;> refine fin b (by simp) ?_
  · have h1 := (inv.vNone ha b).1 d hd
    have h2 := (inv.vNone ha b).2 n hn
    rw [h1, h2, show IState.none.rank = 0 from rfl]; omega
  · have h1 := (inv.vDel ha b).1 d hd
    have h2 := (inv.vDel ha b).2 n hn
    rw [show IState.deleteOnly.rank = 1 from rfl]; omega
  · have h1 := (inv.vWo ha b).1 d hd
    have h2 := (inv.vWo ha b).2 n hn
    rw [show IState.writeOnly.rank = 2 from rfl]; omega
  · have h1 := (inv.vWl ha b).1 d hd
    have h2 := (inv.vWl ha b).2 n hn
    rw [show IState.writeLocal.rank = 3 from rfl]; omega

/-- Once the index is filled (and after) no transaction is left that does not know it has to write the index. -/
theorem C36_no_old_txn (hcover : ∀ k, ∃ r ∈ W.regions, W.range r k) (hlim : 0 < W.limit) (h : Reach W true s)
    (hst : s.m.state = some .pub ∨ (s.m.job = some .add ∧ s.m.state = some .writeLocal)) {t : Nat} {x : Txn}
    (hx : s.txn t = some x) : x.fresh = true ∧ 2 ≤ (s.db x.db).rank := by
  have inv := inv_reach hcover hlim h
  have k : Kept W s := hst.elim (fun a => .inr (.inl a)) .inl
  exact ⟨inv.allFresh k t x hx, inv.fresh k.live t x hx (inv.allFresh k t x hx)⟩

/-! ## The meta server's state machine by itself -/

/-- The states an index goes through when added, and when dropped. -/
inductive AddNext : IState → IState → Prop
  | del : AddNext .none .deleteOnly
  | write : AddNext .deleteOnly .writeOnly
  | local_ : AddNext .writeOnly .writeLocal
  | pub : AddNext .writeLocal .pub

inductive DropNext : IState → Option IState → Prop
  | pub : DropNext .pub (some .writeOnly)
  | local_ : DropNext .writeLocal (some .writeOnly)
  | write : DropNext .writeOnly (some .deleteOnly)
  | del : DropNext .deleteOnly (some .deleteLocal)
  | delGlobal : DropNext .deleteOnly (some .none)
  | gone : DropNext .none none

theorem setState_state (e : Env) (i : IState) (m : Meta) :
    (setState e i m).state = some i ∨ (setState e i m).state = m.state := by
  unfold setState; split
  · exact .inl rfl
  · exact .inr rfl

theorem updateTxnReady_state (m : Meta) : (updateTxnReady m).state = m.state ∧ (updateTxnReady m).job = m.job := by
  unfold updateTxnReady txnReady
  repeat' split
  all_goals exact ⟨rfl, rfl⟩

theorem waitTick_state (e : Env) (m : Meta) : (waitTick e m).state = some .writeLocal ∨ (waitTick e m).state = m.state := by
  unfold waitTick
  split
  · exact .inr rfl
  · have := (updateTxnReady_state m).1
    simp only
    split
    · rw [← this]; exact setState_state e .writeLocal _
    · exact .inr this
    · exact .inr this

theorem fillTick_state (e : Env) (m : Meta) : (fillTick e m).state = some .pub ∨ (fillTick e m).state = m.state := by
  unfold fillTick
  split
  · exact .inr rfl
  · split
    · exact .inr rfl
    · simp only
      split
      · exact setState_state e .pub _
      · split <;> exact .inr rfl

/-- **C36.**  A round either leaves the state of the index alone or takes it one step along. -/
theorem C36_steps (e : Env) (m : Meta) :
    (tick e m).state = m.state ∨
    (m.job = some .add ∧ ∃ i j, m.state = some i ∧ (tick e m).state = some j ∧ AddNext i j) ∨
    (m.job = some .drop ∧ ∃ i, m.state = some i ∧ DropNext i (tick e m).state) := by
  unfold tick
  cases hj : m.job with
  | none => exact .inl rfl
  | some j =>
    cases j with
    | finished => exact .inl rfl
    | addFailed => exact .inl rfl
    | add =>
      simp only
      unfold addTick
      cases hs : m.state with
      | none => exact .inl hs
      | some i =>
        cases i <;> simp only
        · left; by_cases ha : e.applied = true <;> simp [setState, ha]
        · rcases fillTick_state e m with h | h
          · right; left; exact ⟨by simp, _, _, rfl, h, .pub⟩
          · left; rw [h]; exact hs
        · rcases waitTick_state e m with h | h
          · right; left; exact ⟨by simp, _, _, rfl, h, .local_⟩
          · left; rw [h]; exact hs
        · split
          · rcases setState_state e .writeOnly m with h | h
            · right; left; exact ⟨by simp, _, _, rfl, h, .write⟩
            · left; rw [h]; exact hs
          · exact .inl hs
        · exact .inl hs
        · split
          · rcases setState_state e .deleteOnly m with h | h
            · right; left; exact ⟨by simp, _, _, rfl, h, .del⟩
            · left; rw [h]; exact hs
          · exact .inl hs
    | drop =>
      simp only
      unfold dropTick
      cases hs : m.state with
      | none => exact .inl hs
      | some i =>
        simp only
        split
        · cases i <;> simp only
          · rcases setState_state e .writeOnly m with h | h
            · right; right; exact ⟨by simp, _, rfl, by rw [h]; exact .pub⟩
            · left; rw [h]; exact hs
          · rcases setState_state e .writeOnly m with h | h
            · right; right; exact ⟨by simp, _, rfl, by rw [h]; exact .local_⟩
            · left; rw [h]; exact hs
          · rcases setState_state e .deleteOnly m with h | h
            · right; right; exact ⟨by simp, _, rfl, by rw [h]; exact .write⟩
            · left; rw [h]; exact hs
          · split
            · rcases setState_state e .none m with h | h
              · right; right; exact ⟨by simp, _, rfl, by rw [h]; exact .delGlobal⟩
              · left; rw [h]; exact hs
            · rcases setState_state e .deleteLocal m with h | h
              · right; right; exact ⟨by simp, _, rfl, by rw [h]; exact .del⟩
              · left; rw [h]; exact hs
          · rcases setState_state e .deleteLocal m with h | h
            · left; exact h
            · left; exact h.trans hs
          · by_cases ha : e.applied = true
            · right; right; exact ⟨by simp, _, rfl, by simp only [ha, if_true]; exact .gone⟩
            · left; simp only [ha]; exact hs
        · exact .inl hs

/-- Before each step taken by the clock the round has found the wait to be over: to `IS_DELETE_ONLY` and `IS_WRITE_ONLY` when
adding, and always when dropping. -/
theorem C36_waits (e : Env) (m : Meta) (h : e.ripe = false) (hne : (tick e m).state ≠ m.state) :
    m.job = some .add ∧ (m.state = some .writeOnly ∨ m.state = some .writeLocal) := by
  unfold tick at hne
  cases hj : m.job with
  | none => rw [hj] at hne; exact absurd rfl hne
  | some j =>
    cases j <;> simp only [hj] at hne
    · refine ⟨rfl, ?_⟩
      unfold addTick at hne
      cases hs : m.state with
      | none => rw [hs] at hne; exact absurd hs hne
      | some i =>
        cases i <;> simp [hs, h] at hne ⊢
        · by_cases ha : e.applied = true <;> simp [setState, ha] at hne
    · unfold dropTick at hne
      cases hs : m.state with
      | none => rw [hs] at hne; exact absurd hs hne
      | some i => simp only [hs, h] at hne; exact absurd hs hne
    · exact absurd rfl hne
    · exact absurd rfl hne

/-- **C36.**  A round makes an ordinary index public only if the filling is done for each and every region. -/
theorem C36_public_means_done (e : Env) (m : Meta) (hk : m.isRollup = false) (hn : m.state ≠ some .pub) (h : (tick e m).state = some .pub) :
    m.job = some .add ∧ m.state = some .writeLocal ∧ ∃ ws, m.works = some ws ∧ ∀ w ∈ ws, w.status = .done := by
  rcases C36_steps e m with h' | ⟨hj, i, j, hs, hs', hn'⟩ | ⟨_, i, _, hn'⟩
  · rw [h'] at h; exact absurd h hn
  · rw [h] at hs'
    have := Option.some.inj hs'
    subst this
    cases hn'
    refine ⟨hj, hs, ?_⟩
    unfold tick at h
    simp only [hj, addTick, hs] at h
    unfold fillTick at h
    cases hw : m.works with
    | none => simp only [hw] at h; rw [hs] at h; cases h
    | some ws =>
      refine ⟨ws, rfl, ?_⟩
      simp only [hw] at h
      by_cases hb : e.busy = true
      · rw [if_pos hb, hs] at h; cases h
      · rw [if_neg hb] at h
        have F := traverse_facts e.maxRetry e.ask ws true
        rw [← hk] at F
        by_cases hd : (traverse m.isRollup e.maxRetry e.ask true ws).done = true
        · rw [hk] at hd; rw [hk] at F
          exact (F.2.2.1 hd).2.1
        · rw [if_neg hd] at h
          split at h <;> (simp only at h; rw [hs] at h; cases h)
  · rw [h] at hn'; cases hn'

/-- What the work of a region of a rollup index is worth when the round says all is done: the filling is done, or there is
nothing to fill, the region being gone or its data cold. -/
def Settled (ask : Nat → Ask) (w : RWork) : Prop :=
  w.status = .done ∨ (w.status = .idle ∧ ((ask w.region).pre = .gone ∨ (ask w.region).pre = .cold))

theorem traverse_rollup (n : Nat) (ask : Nat → Ask) (ws : List RWork) (d : Bool)
    (hp : ∀ w ∈ ws, w.status = .idle → (ask w.region).pre ≠ .noTable ∧ (ask w.region).pre ≠ .noRange)
    (h : (traverse true n ask d ws).done = true) :
    d = true ∧ (∀ w ∈ ws, Settled ask w) ∧
      (traverse true n ask d ws).works = ws.map (fun w => { w with status := .done }) := by
  induction ws generalizing d with
  | nil => simp [traverse] at h ⊢; exact h
  | cons w ws ih =>
    have hw := hp w List.mem_cons_self
    have hv : (rollupVisit n (ask w.region) d w).done = true →
        d = true ∧ Settled ask w ∧ (rollupVisit n (ask w.region) d w).go = true ∧
          (rollupVisit n (ask w.region) d w).work = { w with status := .done } := by
      intro hd
      have key : (execOrRetry n (ask w.region) d w).done = true → d = true ∧ Settled ask w ∧
          (execOrRetry n (ask w.region) d w).go = true ∧ (execOrRetry n (ask w.region) d w).work = { w with status := .done } := by
        intro hd
        obtain ⟨k1, k2, k3, k4⟩ := exec_done (n := n) (a := ask w.region) (d := d) (w := w) |>.2.2 hd
        refine ⟨k1, .inl k2, k3, ?_⟩
        rw [k4]; cases w; simp only at k2; rw [k2]
      unfold rollupVisit at hd ⊢
      by_cases hi : w.status = .idle
      · rw [if_pos hi] at hd ⊢
        cases hpre : (ask w.region).pre <;> simp only [hpre] at hd ⊢
        · exact ⟨hd, .inr ⟨hi, .inl hpre⟩, trivial, trivial⟩
        · exact ⟨hd, .inr ⟨hi, .inr hpre⟩, trivial, trivial⟩
        · exact absurd hpre (hw hi).1
        · exact absurd hpre (hw hi).2
        · cases hd
        · cases hd
        · exact key hd
      · rw [if_neg hi] at hd ⊢
        exact key hd
    have hvis : visit true n (ask w.region) d w = rollupVisit n (ask w.region) d w := rfl
    unfold traverse at h ⊢
    simp only [hvis] at h ⊢
    by_cases hg : (rollupVisit n (ask w.region) d w).go = true
    · simp only [hg, if_true] at h ⊢
      obtain ⟨i1, i2, i3⟩ := ih _ (fun w' hw' => hp w' (List.mem_cons_of_mem _ hw')) h
      obtain ⟨j1, j2, -, j4⟩ := hv i1
      refine ⟨j1, ?_, by simp [i3, j4]⟩
      intro w' hw'
      rcases List.mem_cons.mp hw' with rfl | hw'
      · exact j2
      · exact i2 w' hw'
    · simp only [hg] at h
      exact absurd (hv h).2.2.1 hg

/-- **C36.**  If the schema of the table and the ranges of the partitions can be read, a round makes a rollup index public
only if each region is filled, is gone, or is cold. -/
theorem C36_rollup_means_done (e : Env) (m : Meta) (hk : m.isRollup = true)
    (hp : ∀ ws, m.works = some ws → ∀ w ∈ ws, w.status = .idle →
      (e.ask w.region).pre ≠ .noTable ∧ (e.ask w.region).pre ≠ .noRange)
    (hn : m.state ≠ some .pub) (h : (tick e m).state = some .pub) :
    ∃ ws, m.works = some ws ∧ (∀ w ∈ ws, Settled e.ask w) ∧
      (tick e m).works = some (ws.map fun w => { w with status := .done }) := by
  rcases C36_steps e m with h' | ⟨hj, i, j, hs, hs', hn'⟩ | ⟨_, i, _, hn'⟩
  · rw [h'] at h; exact absurd h hn
  · rw [h] at hs'
    have := Option.some.inj hs'
    subst this
    cases hn'
    unfold tick at h ⊢
    simp only [hj, addTick, hs] at h ⊢
    unfold fillTick at h ⊢
    cases hw : m.works with
    | none => simp only [hw] at h; rw [hs] at h; cases h
    | some ws =>
      refine ⟨ws, rfl, ?_⟩
      simp only [hw] at h ⊢
      by_cases hb : e.busy = true
      · rw [if_pos hb, hs] at h; cases h
      · rw [if_neg hb] at h ⊢
        by_cases hd : (traverse m.isRollup e.maxRetry e.ask true ws).done = true
        · rw [if_pos hd]
          rw [hk] at hd
          obtain ⟨-, f2, f3⟩ := traverse_rollup e.maxRetry e.ask ws true (hp ws hw) hd
          refine ⟨f2, ?_⟩
          rw [hk, f3]
          unfold setState
          split <;> rfl
        · rw [if_neg hd] at h
          split at h <;> (simp only at h; rw [hs] at h; cases h)
  · rw [h] at hn'; cases hn'

/-- A region given up on (a duplicate in a unique index, too many failures) is found by the next round that visits it, and
the addition ends; the round after turns it into a drop. -/
theorem C36_failure_drops (e e' : Env) (m : Meta) (ws : List RWork) (hj : m.job = some .add) (hs : m.state = some .writeLocal)
    (hk : m.isRollup = false) (hb : e.busy = false) (hw : m.works = some ws) (w : RWork) (hmem : w ∈ ws)
    (hbad : w.status = .dupUniq ∨ w.status = .error ∨ (w.status = .fail ∧ e.maxRetry ≤ w.retry))
    (hgo : ∀ w' ∈ ws, w' ≠ w → (execOrRetry e.maxRetry (e.ask w'.region) true w').go = true ∧
      (execOrRetry e.maxRetry (e.ask w'.region) false w').go = true) :
    (tick e m).job = some .addFailed ∧ (tick e m).state = some .writeLocal ∧ (tick e' (tick e m)).job = some .drop ∧
      (tick e' (tick e m)).state = some .writeLocal := by
  have bad : ∀ d a, execOrRetry e.maxRetry a d w = ⟨w, false, true, false, none⟩ := by
    intro d a
    unfold execOrRetry
    rcases hbad with h | h | ⟨h, h'⟩ <;> rw [h]
    simp [Nat.not_lt.mpr h']
  have goAny : ∀ d, ∀ w' ∈ ws, w' ≠ w → (execOrRetry e.maxRetry (e.ask w'.region) d w').go = true := by
    intro d w' h1 h2; cases d
    · exact (hgo w' h1 h2).2
    · exact (hgo w' h1 h2).1
  have key : ∀ (l : List RWork) (d : Bool), (∀ w' ∈ l, w' ∈ ws) → w ∈ l →
      (traverse false e.maxRetry e.ask d l).rollback = true ∧ (traverse false e.maxRetry e.ask d l).done = false := by
    intro l
    induction l with
    | nil => intro d _ h; cases h
    | cons x l ih =>
      intro d hl hx
      unfold traverse
      have hv : visit false e.maxRetry (e.ask x.region) d x = execOrRetry e.maxRetry (e.ask x.region) d x := by simp [visit]
      rw [hv]
      by_cases ex : x = w
      · subst ex; rw [bad]; simp
      · have g := goAny d x (hl x List.mem_cons_self) ex
        simp only [g, if_true]
        have hx' : w ∈ l := by
          rcases List.mem_cons.mp hx with h | h
          · exact absurd h.symm ex
          · exact h
        obtain ⟨i1, i2⟩ := ih (execOrRetry e.maxRetry (e.ask x.region) d x).done
          (fun w' h => hl w' (List.mem_cons_of_mem _ h)) hx'
        exact ⟨by simp [i1], i2⟩
  obtain ⟨k1, k2⟩ := key ws true (fun _ h => h) hmem
  have t : (tick e m).job = some .addFailed ∧ (tick e m).state = some .writeLocal := by
    unfold tick
    simp only [hj, addTick, hs, fillTick, hw, hb, hk]
    rw [k1, k2]; simp
  refine ⟨t.1, t.2, ?_⟩
  generalize tick e m = m1 at t
  unfold tick
  simp only [t.1]
  exact ⟨trivial, t.2⟩

/-- If its requests go through and the waits end, the meta server completes a drop: a local index ends disabled, a global one
is gone from the schema, and the table is free for the next operation. -/
theorem C36_drop_ends (e : Env) (hr : e.ripe = true) (ha : e.applied = true) (m : Meta) (hj : m.job = some .drop) {i : IState}
    (hs : m.state = some i) (hg : m.isGlobal = true → i ≠ .deleteLocal) (hl : m.isGlobal = false → i ≠ .none) :
    ∃ n, n ≤ 6 ∧ ((tick e)^[n] m).job = none ∧ ((tick e)^[n] m).state = if m.isGlobal then none else some .deleteLocal := by
  have s1 : ∀ (m : Meta) (i : IState), m.job = some .drop → m.state = some i → i = .pub ∨ i = .writeLocal →
      tick e m = { m with state := some .writeOnly } := by
    intro m i a b c
    rcases c with rfl | rfl <;> simp [tick, a, dropTick, b, hr, setState, ha]
  have s2 : ∀ m : Meta, m.job = some .drop → m.state = some .writeOnly → tick e m = { m with state := some .deleteOnly } := by
    intro m a b; simp [tick, a, dropTick, b, hr, setState, ha]
  have s4 : ∀ m : Meta, m.job = some .drop → m.state = some .none →
      tick e (tick e m) = clearWork { m with state := none, job := some .finished } := by
    intro m a b; simp [tick, a, dropTick, b, hr, ha]
  have s5 : ∀ m : Meta, m.job = some .drop → m.state = some .deleteLocal →
      tick e (tick e m) = clearWork { m with state := some .deleteLocal, job := some .finished } := by
    intro m a b; simp [tick, a, dropTick, b, hr, ha, setState]
  have fromDel : ∀ m : Meta, m.job = some .drop → m.state = some .deleteOnly →
      ((tick e)^[3] m).job = none ∧ ((tick e)^[3] m).state = if m.isGlobal then none else some .deleteLocal := by
    intro m a b
    have : ((tick e)^[3] m) = tick e (tick e (tick e m)) := rfl
    rw [this]
    cases h : m.isGlobal <;> simp [tick, dropTick, setState, clearWork, a, b, hr, ha, h]
  have fromWrite : ∀ m : Meta, m.job = some .drop → m.state = some .writeOnly →
      ((tick e)^[4] m).job = none ∧ ((tick e)^[4] m).state = if m.isGlobal then none else some .deleteLocal := by
    intro m a b
    have : ((tick e)^[4] m) = ((tick e)^[3] (tick e m)) := rfl
    rw [this, s2 m a b]
    exact fromDel _ a rfl
  have fromTop : ∀ (m : Meta) (i : IState), m.job = some .drop → m.state = some i → i = .pub ∨ i = .writeLocal →
      ((tick e)^[5] m).job = none ∧ ((tick e)^[5] m).state = if m.isGlobal then none else some .deleteLocal := by
    intro m i a b c
    have : ((tick e)^[5] m) = ((tick e)^[4] (tick e m)) := rfl
    rw [this, s1 m i a b c]
    exact fromWrite _ a rfl
  cases i with
  | pub => exact ⟨5, by omega, fromTop m _ hj hs (.inl rfl)⟩
  | writeLocal => exact ⟨5, by omega, fromTop m _ hj hs (.inr rfl)⟩
  | writeOnly => exact ⟨4, by omega, fromWrite m hj hs⟩
  | deleteOnly => exact ⟨3, by omega, fromDel m hj hs⟩
  | deleteLocal =>
    have g : m.isGlobal = false := by
      cases h : m.isGlobal
      · rfl
      · exact absurd rfl (hg h)
    refine ⟨2, by omega, ?_⟩
    have : ((tick e)^[2] m) = tick e (tick e m) := rfl
    rw [this, s5 m hj hs, g]; exact ⟨rfl, rfl⟩
  | none =>
    have g : m.isGlobal = true := by
      cases h : m.isGlobal
      · exact absurd rfl (hl h)
      · rfl
    refine ⟨2, by omega, ?_⟩
    have : ((tick e)^[2] m) = tick e (tick e m) := rfl
    rw [this, s4 m hj hs, g]; exact ⟨rfl, rfl⟩

/-- When every region is done the next round makes the index public. -/
theorem C36_all_done_publishes (e : Env) (m : Meta) (ws : List RWork) (hj : m.job = some .add) (hs : m.state = some .writeLocal)
    (hk : m.isRollup = false) (hb : e.busy = false) (ha : e.applied = true) (hw : m.works = some ws)
    (hd : ∀ w ∈ ws, w.status = .done) : (tick e m).state = some .pub ∧ (tick e m).job = some .finished := by
  have key : ∀ l : List RWork, (∀ w ∈ l, w.status = .done) → (traverse false e.maxRetry e.ask true l).done = true := by
    intro l
    induction l with
    | nil => intro _; rfl
    | cons x l ih =>
      intro h
      unfold traverse
      have hx := h x List.mem_cons_self
      have hv : visit false e.maxRetry (e.ask x.region) true x = ⟨x, true, false, true, none⟩ := by
        simp [visit, execOrRetry, hx]
      simp only [hv, if_true]
      exact ih fun w hw => h w (List.mem_cons_of_mem _ hw)
  have k := key ws hd
  unfold tick
  simp only [hj, addTick, hs, fillTick, hw, hb, hk, k]
  simp [setState, ha]

end BaikalDB.Ddl
