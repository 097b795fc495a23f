import Verif.Binlog.Restart

/-! Where the conditions of C59 are met, and what happens where they are not. -/

namespace BaikalDB.Binlog

/-! ## Deciding `Legit` for a given log -/

def commitOk (L : List Entry) (i : Nat) : Bool :=
  (L[i]?).elim true fun e => e.kind != .commit || (decide (e.start < e.ts) && (List.range i).any fun j =>
    (L[j]?).elim false fun f => f.kind == .prewrite && f.ts == e.start && (L.take j).all fun g => decide (g.ts < e.ts))

theorem commit_of {L : List Entry} (h : (List.range L.length).all (commitOk L) = true) :
    ∀ (i : Nat) (e : Entry), L[i]? = some e → e.kind = .commit →
      e.start < e.ts ∧ ∃ (j : Nat) (f : Entry), j < i ∧ L[j]? = some f ∧ f.kind = .prewrite ∧ f.ts = e.start ∧
        ∀ (k : Nat) (g : Entry), k < j → L[k]? = some g → g.ts < e.ts := by
  intro i e hi hk
  have hlen : i < L.length := (List.getElem?_eq_some_iff.mp hi).1
  have h1 := List.all_eq_true.mp h i (List.mem_range.mpr hlen)
  unfold commitOk at h1
  rw [hi] at h1
  simp only [Option.elim_some, hk, bne_self_eq_false, Bool.false_or, Bool.and_eq_true, decide_eq_true_eq] at h1
  refine ⟨h1.1, ?_⟩
  obtain ⟨j, hj, hjf⟩ := List.any_eq_true.mp h1.2
  cases hf : L[j]? with
  | none => rw [hf] at hjf; cases hjf
  | some f =>
    rw [hf] at hjf
    simp only [Option.elim_some, Bool.and_eq_true, beq_iff_eq] at hjf
    refine ⟨j, f, List.mem_range.mp hj, hf, hjf.1.1, hjf.1.2, ?_⟩
    intro k g hkj hg
    have := List.all_eq_true.mp hjf.2 g (mem_take_of_lt hg hkj)
    simpa using this

theorem legit_of {L : List Entry} (h0 : ∀ e ∈ L, 0 < e.ts) (h1 : (L[0]?).elim true (fun e => e.kind == .fake) = true)
    (h2 : (List.range L.length).all (commitOk L) = true)
    (h3 : ∀ e ∈ L, ∀ f ∈ L, e.kind = .commit → f.kind = .commit → e.start = f.start → e.ts = f.ts)
    (h4 : ∀ e ∈ L, ∀ f ∈ L, e.kind = .commit → f.kind = .rollback → e.start ≠ f.start)
    (h5 : ∀ e ∈ L, ∀ f ∈ L, e.ts = f.ts → e.kind = f.kind → e.start = f.start ∧ e.data = f.data)
    (h6 : ∀ e ∈ L, ∀ f ∈ L, e.ts = f.ts → e.kind ≠ f.kind →
      (e.kind = .prewrite ∧ f.kind = .rollback ∧ f.start = f.ts) ∨ (f.kind = .prewrite ∧ e.kind = .rollback ∧ e.start = e.ts)) :
    Legit L := by
  refine ⟨h0, ?_, commit_of h2, h3, h4, h5, h6⟩
  intro e he
  rw [he] at h1
  simpa using h1

def fk (t : Int) : Entry := ⟨.fake, t, -1, 0, 0⟩
def pw (t : Int) (d : Nat) : Entry := ⟨.prewrite, t, t, 1, d⟩
def cm (s c : Int) : Entry := ⟨.commit, c, s, 1, 0⟩
def rb (s t : Int) : Entry := ⟨.rollback, t, s, 0, 0⟩

def ask1 (b : Int) : Query := ⟨b, 100, -1, .multi 2, fun _ => true⟩

/-- Transactions that overlap, one rolled back, an entry repeated. -/
def exLog : List Entry :=
  [fk 10, pw 12 7, pw 13 8, cm 13 15, fk 16, pw 14 9, cm 12 18, cm 12 18, rb 14 14, fk 20, pw 21 5, fk 22]

theorem exLog_legit : Legit exLog :=
  legit_of (by decide +kernel) (by decide +kernel) (by decide +kernel) (by decide +kernel) (by decide +kernel)
    (by decide +kernel) (by decide +kernel)

def steps (l : List Entry) : List (Entry × Bool) := l.map fun e => (e, false)

/-- While the transaction of 12 is open nothing after 12 is handed out; then all is, up to the transaction still open. -/
example : read (run (steps (exLog.take 5))) (ask1 10) = .ok [] ∧
    read (run (steps exLog)) (ask1 10) =
      .ok [⟨15, 13, some 8⟩, ⟨16, 16, none⟩, ⟨18, 12, some 7⟩, ⟨20, 20, none⟩] := by decide +kernel

theorem exPeer (l : List Entry) (h : l <+: exLog) : Peer exLog l.length (run (steps l)) := by
  have h1 : (steps l).map Prod.fst = l := by
    unfold steps; rw [List.map_map]; exact List.map_id _
  have := run_peer (L := exLog) (steps l) (by rw [h1]; exact h)
  simpa [steps] using this

/-- A reader of two peers, one of which is behind and hands out one binlog. -/
example : Consume exLog 10 [⟨15, 13, some 8⟩, ⟨16, 16, none⟩, ⟨18, 12, some 7⟩, ⟨20, 20, none⟩] 20 := by
  have h1 : Consume exLog 10 ([] ++ ⟨15, 13, some 8⟩ :: []) 15 :=
    .read .start (exPeer (exLog.take 9) (List.take_prefix _ _)) (q := ⟨10, 100, -1, .get, fun n => decide (n < 1)⟩) rfl
      (by decide +kernel)
  exact .read h1 (exPeer exLog (List.prefix_refl _)) (q := ask1 15) rfl (by decide +kernel)

/-- A restart that meets the condition of `Peer`: the check point written is 12. -/
example : Peer exLog 3 (restart (apply (run (steps (exLog.take 2))) (pw 13 8) true) false) := by
  have h1 : Peer exLog 2 (run (steps (exLog.take 2))) := exPeer (exLog.take 2) (List.take_prefix _ _)
  have h2 : Peer exLog 3 (apply (run (steps (exLog.take 2))) (pw 13 8) true) := by
    have := Peer.apply (k := 2) (e := pw 13 8) true h1 (Nat.le_refl _) rfl
    simpa using this
  refine .restart false h2 (by decide +kernel) ?_
  rintro t ⟨⟨e, he, hk, rfl⟩, -⟩
  have hs : (apply (run (steps (exLog.take 2))) (pw 13 8) true).saved = 12 := by decide +kernel
  rw [hs]
  revert hk
  revert he
  revert e
  decide +kernel

/-- Two regions of one capturer; nothing is handed out past what the slower one has. -/
def log2 : Nat → List Entry := fun g => if g = 0 then exLog else [fk 10, fk 17]

theorem log2_legit : ∀ g ∈ [0, 1], Legit (log2 g) := by
  intro g hg
  rcases List.mem_cons.mp hg with rfl | hg
  · exact exLog_legit
  · have : g = 1 := by simpa using hg
    subst this
    exact legit_of (by decide +kernel) (by decide +kernel) (by decide +kernel) (by decide +kernel) (by decide +kernel)
      (by decide +kernel) (by decide +kernel)

def ans2 : Nat → List Item := fun g =>
  if g = 0 then [⟨15, 13, some 8⟩, ⟨16, 16, none⟩, ⟨18, 12, some 7⟩, ⟨20, 20, none⟩] else [⟨17, 17, none⟩]

theorem ans2_ok : Answers log2 1000 [0, 1] (seek ⟨0, fun _ => []⟩ 10) ans2 := by
  intro g hg b hb
  rcases List.mem_cons.mp hg with rfl | hg
  · have hb' : b = 10 := by
      have h : ask 1000 (seek ⟨0, fun _ => []⟩ 10) 0 = some 10 := by decide +kernel
      rw [h] at hb; simpa using hb.symm
    subst hb'
    exact Or.inr ⟨_, _, ask1 10, exPeer exLog (List.prefix_refl _), rfl, by decide +kernel⟩
  · have hg1 : g = 1 := by simpa using hg
    subst hg1
    have hb' : b = 10 := by
      have h : ask 1000 (seek ⟨0, fun _ => []⟩ 10) 1 = some 10 := by decide +kernel
      rw [h] at hb; simpa using hb.symm
    subst hb'
    have h1 := run_peer (L := log2 1) (steps [fk 10, fk 17]) (List.prefix_refl _)
    exact Or.inr ⟨_, _, ask1 10, h1, rfl, by decide +kernel⟩

example : CapRun log2 1000 [0, 1] 10 [(0, ⟨15, 13, some 8⟩), (0, ⟨16, 16, none⟩), (1, ⟨17, 17, none⟩)] 17
    (subscribe 1000 [0, 1] ⟨0, fun _ => []⟩ 10 ans2).2 :=
  .got (.start 10 0) ans2_ok (Prod.ext (by decide +kernel) rfl)

/-- `C59_progress`: 21 is open. -/
example : (run (steps exLog)).cp = 21 ∧ Open exLog 21 ∧ (run (steps (exLog.take 10))).cp = 20 := by
  refine ⟨by decide +kernel, ⟨⟨pw 21 5, by decide +kernel, rfl, rfl⟩, by decide +kernel⟩, by decide +kernel⟩

/-! ## Where transactions are lost -/

/-- The answer of `s` goes past a transaction of the log and leaves it out: its reader never gets it. -/
def Loses (L : List Entry) (s : St) (q : Query) : Prop :=
  ∃ items c t d, read s q = .ok items ∧ Txn L c t d ∧ q.begin < c ∧ (∃ x ∈ items, c ≤ x.ts) ∧ ⟨c, t, some d⟩ ∉ items

/-- A prewrite that arrives after the check point written has passed its start timestamp is forgotten by a restart
(region_binlog.cpp:445-475 scans from the check point on). -/
def lateLog : List Entry := [fk 10, fk 20, pw 12 7, fk 30, cm 12 25]

def latePeer : St :=
  apply (restart (apply (apply (apply init (fk 10) false) (fk 20) true) (pw 12 7) false) false) (fk 30) false

theorem C59_restart_counterexample : Legit lateLog ∧ Loses lateLog latePeer (ask1 10) := by
  refine ⟨legit_of (by decide +kernel) (by decide +kernel) (by decide +kernel) (by decide +kernel) (by decide +kernel)
    (by decide +kernel) (by decide +kernel), [⟨20, 20, none⟩, ⟨30, 30, none⟩], 25, 12, 7, by decide +kernel, ?_⟩
  refine ⟨⟨⟨cm 12 25, by decide +kernel, rfl, rfl, rfl⟩, pw 12 7, by decide +kernel, rfl, rfl, rfl⟩, by decide +kernel,
    by decide +kernel, by decide +kernel⟩

/-- A peer that takes over a snapshot skips what is older than what it had applied itself, a prewrite among it
(region_binlog.cpp:606-609 with the `max_ts_applied` from before). -/
def snapLog : List Entry := [fk 10, fk 20, fk 30, pw 25 7, fk 40, cm 25 35]

def snapSrc : St := apply (apply (apply (apply init (fk 10) false) (fk 20) true) (fk 30) false) (pw 25 7) false

def snapOwn : St := apply (apply (apply init (fk 10) false) (fk 20) false) (fk 30) false

theorem C59_snapshot_counterexample : Legit snapLog ∧
    (∃ s, load snapOwn snapSrc false = some s ∧ Loses snapLog (apply s (fk 40) false) (ask1 30)) ∧
    (∃ s, load init snapSrc false = some s ∧ (apply s (fk 40) false).cp = 25) := by
  refine ⟨legit_of (by decide +kernel) (by decide +kernel) (by decide +kernel) (by decide +kernel) (by decide +kernel)
    (by decide +kernel) (by decide +kernel), ⟨_, rfl, [⟨40, 40, none⟩], 35, 25, 7, by decide +kernel, ?_⟩, _, rfl, by decide +kernel⟩
  exact ⟨⟨⟨cm 25 35, by decide +kernel, rfl, rfl, rfl⟩, pw 25 7, by decide +kernel, rfl, rfl, rfl⟩, by decide +kernel,
    by decide +kernel, by decide +kernel⟩

/-- A restart can write -1 as the check point (nothing is in the map and `max_ts_applied` is -1); after another one, the
region opens anew and forgets what is open. -/
def resetLog : List Entry := [fk 10, pw 12 7, cm 12 15, pw 17 8, fk 20, cm 17 18]

def resetPeer : St :=
  let s := restart (apply (apply (apply init (fk 10) false) (pw 12 7) false) (cm 12 15) true) true
  apply (apply (restart (apply s (pw 17 8) false) false) (fk 20) false) (fk 30) false

theorem C59_reset_counterexample : Legit (resetLog ++ [fk 30]) ∧
    (restart (apply (apply (apply init (fk 10) false) (pw 12 7) false) (cm 12 15) true) true).saved = -1 ∧
    resetPeer.oldest = 20 ∧ resetPeer.cp = 30 ∧ Open ((resetLog ++ [fk 30]).take 5) 17 := by
  refine ⟨legit_of (by decide +kernel) (by decide +kernel) (by decide +kernel) (by decide +kernel) (by decide +kernel)
    (by decide +kernel) (by decide +kernel), by decide +kernel, by decide +kernel, by decide +kernel, ?_⟩
  exact ⟨⟨pw 17 8, by decide +kernel, rfl, rfl⟩, by decide +kernel⟩

/-- A prewrite before the first fake record is not in the map (region_binlog.cpp:667-696): the check point passes it. -/
def earlyLog : List Entry := [pw 12 7, fk 14, fk 20, cm 12 18]

theorem C59_unopened_counterexample :
    (∀ (i : Nat) (e : Entry), earlyLog[i]? = some e → e.kind = .commit → ∃ j : Nat, j < i ∧ earlyLog[j]? = some (pw 12 7)) ∧
    Loses earlyLog (run (steps (earlyLog.take 3))) (ask1 14) ∧ read (run (steps (earlyLog))) (ask1 14) = .err := by
  refine ⟨?_, ⟨[⟨20, 20, none⟩], 18, 12, 7, by decide +kernel, ?_⟩, by decide +kernel⟩
  · intro i e hi hk
    refine ⟨0, ?_, rfl⟩
    rcases i with _ | i
    · have : e = pw 12 7 := by simpa [earlyLog] using hi.symm
      rw [this] at hk; cases hk
    · omega
  · exact ⟨⟨⟨cm 12 18, by decide +kernel, rfl, rfl, rfl⟩, pw 12 7, by decide +kernel, rfl, rfl, rfl⟩, by decide +kernel,
      by decide +kernel, by decide +kernel⟩

/-- A commit written by the timeout check with another timestamp than the SQL node's (fetcher_store.cpp:210 and
binlog_context.h:116-123: the last one of all the partitions; region.cpp:731: a new one): the transaction is handed out twice. -/
theorem C59_twice_counterexample :
    read (run (steps [fk 10, pw 12 7, cm 12 15, cm 12 18, fk 20])) (ask1 10) =
      .ok [⟨15, 12, some 7⟩, ⟨18, 12, some 7⟩, ⟨20, 20, none⟩] := by decide +kernel

end BaikalDB.Binlog
