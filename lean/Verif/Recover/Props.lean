import Verif.Recover.Restart

/-!
# C67: a region that crashes and restarts
-/

namespace BaikalDB.Recover

open BaikalDB.Recover.Spec (isOpen seen ended lastSeq Follows Valid)

/-! ## The executions -/

/-- What the theorems ask of a crash: if the mark that a commit or rollback leaves before it
changes the rows (`pre_commit_key`) is on disk when the next entry starts, then that transaction is
prepared, too, before or after the writes that still happen. -/
def Safe (s : Sys) (log : List Entry) (k : Nat) : Prop :=
  ∀ t, s.disk.pre t ≠ none → s.disk.prepared t = true ∨ (s.torn log k).prepared t = true

/-- The states of a region that applies `log`, saves snapshots and dies any number of times, each
time after any number of the writes of an entry. If `quiet`, it dies only while no transaction is
open on its disk. -/
inductive Reach (log : List Entry) (quiet : Bool) : Sys → Prop
  | init : Reach log quiet init
  | step {s : Sys} {e : Entry} : Reach log quiet s → log[s.n]? = some e →
      Reach log quiet (s.step e)
  | save {s : Sys} : Reach log quiet s → Reach log quiet s.save
  | crash {s : Sys} (k : Nat) : Reach log quiet s → Safe s log k →
      (quiet = true → ∀ t, (s.torn log k).begins t = none) →
      Reach log quiet (s.restart log (s.torn log k))

/-- Applying the entries that are left. -/
def feed (s : Sys) (es : List Entry) : Sys := es.foldl Sys.step s

/-! ## The invariant -/

structure Inv (c : Prop) (log : List Entry) (s : Sys) : Prop where
  snap : s.snap ≤ s.n
  disk : DInv c log s.disk (max s.n s.mem.applied)
  applied : s.disk.applied ≤ s.mem.applied
  mem : ∀ t, Rel c t (log.take (max s.n s.mem.applied)) (s.mem.txns t)
  lines : s.mem.lines = s.disk.lines
  prep : ∀ t, s.disk.prepared t = (isOpen t (log.take (max s.n s.mem.applied)) &&
    Spec.prepared t (log.take (max s.n s.mem.applied)))

theorem Inv.init (c : Prop) (log : List Entry) : Inv c log init where
  snap := Nat.le_refl _
  disk := DInv.new rfl (Nat.zero_le _) rfl (fun _ => by rfl) (fun _ => rfl)
  applied := Nat.le_refl _
  mem := fun t => ⟨fun _ => rfl, fun h => by simp [isOpen, seen, Recover.init] at h⟩
  lines := rfl
  prep := fun t => by simp [isOpen, seen, Recover.init]

theorem Inv.save {c : Prop} {log : List Entry} {s : Sys} (h : Inv c log s) : Inv c log s.save :=
  ⟨Nat.le_refl _, h.disk, h.applied, h.mem, h.lines, h.prep⟩

theorem Inv.loc {c : Prop} {log : List Entry} {s : Sys} {e : Entry} (h : Inv c log s)
    (hv : Valid log) (he : log[s.n]? = some e) (hn : s.mem.applied ≤ s.n) (a : Nat) :
    Loc c log s.n e s.disk { s.mem with applied := a } := by
  have hm : max s.n s.mem.applied = s.n := Nat.max_eq_left hn
  have h1 := h.disk
  have h2 := h.mem
  have h3 := h.prep
  rw [hm] at h1 h2 h3
  exact ⟨h1, h2, h.lines, h3, he, hv _ _ he⟩

theorem Inv.step {c : Prop} {log : List Entry} {s : Sys} {e : Entry} (h : Inv c log s)
    (hv : Valid log) (he : log[s.n]? = some e) : Inv c log (s.step e) := by
  by_cases hle : s.n + 1 ≤ s.mem.applied
  · have hs : s.step e = { s with n := s.n + 1 } := by
      simp [Sys.step, doApply, hle, run]
    have hm : max (s.n + 1) s.mem.applied = max s.n s.mem.applied := by omega
    rw [hs]
    refine ⟨Nat.le_succ_of_le h.snap, ?_, h.applied, ?_, h.lines, ?_⟩
    · show DInv c log s.disk (max (s.n + 1) s.mem.applied)
      rw [hm]; exact h.disk
    · intro t
      show Rel c t (log.take (max (s.n + 1) s.mem.applied)) _
      rw [hm]; exact h.mem t
    · intro t
      show s.disk.prepared t = (isOpen t (log.take (max (s.n + 1) s.mem.applied)) &&
        Spec.prepared t (log.take (max (s.n + 1) s.mem.applied)))
      rw [hm]; exact h.prep t
  · have hl := h.loc hv he (by omega) (s.n + 1)
    have hs : s.step e = { s with
        n := s.n + 1
        disk := run (applyE true (s.n + 1) e { s.mem with applied := s.n + 1 }).1 s.disk
        mem := (applyE true (s.n + 1) e { s.mem with applied := s.n + 1 }).2 } := by
      simp [Sys.step, doApply, hle]
    obtain ⟨h1, h2, h3⟩ := hl.disk_after
    have h4 := hl.mem_after
    have ha : (applyE true (s.n + 1) e { s.mem with applied := s.n + 1 }).2.applied = s.n + 1 :=
      applyE_applied
    have hm : max (s.n + 1)
        (applyE true (s.n + 1) e { s.mem with applied := s.n + 1 }).2.applied = s.n + 1 := by
      rw [ha]; simp
    rw [hs]
    refine ⟨Nat.le_succ_of_le h.snap, ?_, ?_, ?_, h2, ?_⟩
    · dsimp only; rw [hm]; exact h1
    · dsimp only; rw [ha]; exact h1.le
    · intro t; dsimp only; rw [hm]; exact h4 t
    · intro t; dsimp only; rw [hm]; exact h3 t

theorem Same.symm {a b : List Entry} (h : Same a b) : Same b a :=
  ⟨fun t => (h.start t).symm, h.data.symm, h.count.symm⟩

/-- A restart from a disk that stands at `P` entries. -/
theorem Inv.restart {c : Prop} {log : List Entry} {s : Sys} {d : Disk} {P : Nat} (hv : Valid log)
    (hP : s.snap ≤ P) (h : Scanned c log d P (scan log d))
    (hc : c → (scan log d).restore = [] ∨ ∀ t s os r, Entry.stmt t s os r ∈ log → r = 0) :
    Inv c log (s.restart log d) ∧ (s.restart log d).disk.data = Spec.data (log.take P) := by
  have hd := h.disk
  generalize hsc : scan log d = sc at h hc
  have hfold : (ids log).foldl (scanTxn log d.prepared d) ⟨[wDrop], d.applied, []⟩ = sc := hsc
  have hD : DInv c log (run sc.ws d) P := h.disk
  obtain ⟨q, hq⟩ : ∃ q, q = max s.snap sc.applied := ⟨_, rfl⟩
  have happ := h.applied
  have hqP : q ≤ P := by rw [hq, happ]; have := hD.le; omega
  have hqa : (run sc.ws d).applied ≤ q := by rw [hq, happ]; omega
  have hsame : Same (log.take q) (log.take P) := hD.same q hqa hqP
  have hDq : DInv c log (run sc.ws d) q :=
    ⟨hqa, Nat.le_trans hqP hD.len,
      fun j h1 h2 => (hD.same j h1 (Nat.le_trans h2 hqP)).trans hsame.symm,
      hD.data.trans hsame.symm.data,
      fun t => (hD.begins t).trans (hsame.symm.start t),
      fun hcc => (hD.lines hcc).trans hsame.symm.count⟩
  have hRopen : ∀ t, t ∈ sc.restore ↔ isOpen t (log.take q) = true := by
    intro t
    rw [h.restore, hDq.begins, start_isSome]
  have hRfirst : ∀ t, t ∈ sc.restore → (run sc.ws d).begins t = first t (log.take q) := by
    intro t ht
    rw [hDq.begins, start, not_ended_of_open ((hRopen t).1 ht)]
    rfl
  have hrl : replayList log d.begins sc.restore q = only sc.restore (log.take q) := by
    apply replayList_eq
    intro t ht
    rw [h.begins t ht, hRfirst t ht]
    have : (first t (log.take q)).isSome = true := by
      rw [first_isSome]; exact seen_of_open ((hRopen t).1 ht)
    obtain ⟨b, hb⟩ := Option.isSome_iff_exists.1 this
    exact ⟨b, hb, hb⟩
  have hre := rebuild (c := c) hv (R := sc.restore) (d := run sc.ws d) (q := q)
    (m0 := ⟨(run sc.ws d).applied, (run sc.ws d).lines, fun _ => none⟩) hDq.len
    (fun t ht => not_ended_of_open ((hRopen t).1 ht)) h.prep (fun _ => rfl) hc q
    (Nat.le_refl _)
  obtain ⟨r, hr⟩ : ∃ r, r = replay (only sc.restore (log.take q))
    ⟨(run sc.ws d).applied, (run sc.ws d).lines, fun _ => none⟩ := ⟨_, rfl⟩
  rw [← hr] at hre
  have hrec : recover log s.snap d = (sc.ws ++ r.1 ++
      (if (only sc.restore (log.take q)).isEmpty then [] else [wIndex (run sc.ws d).applied]),
      r.2) := by
    unfold recover
    rw [hfold]
    dsimp only
    rw [← hq, hrl, ← hr]
  have hdisk : run (recover log s.snap d).1 d
      = { run r.1 (run sc.ws d) with applied := (run sc.ws d).applied } := by
    rw [hrec]
    dsimp only
    rw [run_append, run_append]
    cases he : only sc.restore (log.take q) with
    | nil =>
      rw [he] at hr
      rw [hr]; rfl
    | cons x l => rfl
  have hmem : (recover log s.snap d).2 = r.2 := by rw [hrec]
  have hpos : max s.snap (run sc.ws d).applied = q := by rw [hq, happ]
  have hs : s.restart log d = ⟨s.snap, s.snap,
      { run r.1 (run sc.ws d) with applied := (run sc.ws d).applied }, r.2⟩ := by
    unfold Sys.restart
    dsimp only
    rw [hdisk, hmem]
  have happ2 : r.2.applied = (run sc.ws d).applied := hre.applied
  have hbeg : ∀ t, (run r.1 (run sc.ws d)).begins t = (run sc.ws d).begins t := by
    intro t
    rw [hre.begins t]
    split
    · rename_i k; rw [hRfirst t k.1]
    · rfl
  rw [hs]
  refine ⟨⟨Nat.le_refl _, ?_, ?_, ?_, ?_, ?_⟩, hre.data.trans hD.data⟩
  · dsimp only
    rw [happ2, hpos]
    exact ⟨hDq.le, hDq.len, hDq.same, hre.data.trans hDq.data,
      fun t => (hbeg t).trans (hDq.begins t), fun hcc => hre.dlines.trans (hDq.lines hcc)⟩
  · exact Nat.le_of_eq happ2.symm
  · intro t
    dsimp only
    rw [happ2, hpos]
    by_cases ht : t ∈ sc.restore
    · exact hre.ins t ht
    · rw [hre.out t ht]
      have : isOpen t (log.take q) = false := by
        cases ho : isOpen t (log.take q) with
        | false => rfl
        | true => exact absurd ((hRopen t).2 ho) ht
      exact ⟨fun _ => rfl, fun k => by rw [this] at k; cases k⟩
  · dsimp only
    rw [hre.lines, hre.dlines]
  · intro t
    dsimp only
    rw [happ2, hpos, hre.prep]
    by_cases ht : t ∈ sc.restore
    · rw [(hRopen t).1 ht]; simp [ht]
    · have : isOpen t (log.take q) = false := by
        cases ho : isOpen t (log.take q) with
        | false => rfl
        | true => exact absurd ((hRopen t).2 ho) ht
      rw [this]; simp [ht]

theorem Inv.crash {c : Prop} {log : List Entry} {s : Sys} (h : Inv c log s) (hv : Valid log)
    (k : Nat) (hs : Safe s log k)
    (hc : c → (∀ t, (s.torn log k).begins t = none) ∨
      ∀ t s os r, Entry.stmt t s os r ∈ log → r = 0) :
    Inv c log (s.restart log (s.torn log k)) ∧ ∃ P, max s.n s.mem.applied ≤ P ∧
      P ≤ log.length ∧
      (s.restart log (s.torn log k)).disk.data = Spec.data (log.take P) := by
  have key : ∃ P, max s.n s.mem.applied ≤ P ∧ ((DInv c log (s.torn log k) P ∧ NoPend (s.torn log k)) ∨
      ∃ t l, Window c log (s.torn log k) t l P) := by
    have hstay : s.torn log k = s.disk → ∃ P, max s.n s.mem.applied ≤ P ∧
        ((DInv c log (s.torn log k) P ∧ NoPend (s.torn log k)) ∨
          ∃ t l, Window c log (s.torn log k) t l P) := by
      intro e
      have hs' := hs
      unfold Safe at hs'
      rw [e] at hs' ⊢
      refine ⟨_, Nat.le_refl _, Or.inl ⟨h.disk, ?_⟩⟩
      intro t b x _ hx
      rcases hs' t (by rw [hx]; simp) with y | y <;> exact y
    cases he : log[s.n]? with
    | none => exact hstay (by simp [Sys.torn, he])
    | some e =>
      by_cases hle : s.n + 1 ≤ s.mem.applied
      · exact hstay (by simp [Sys.torn, he, doApply, hle, run])
      · have hl := h.loc hv he (by omega) (s.n + 1)
        have e1 : s.torn log k
            = run ((applyE true (s.n + 1) e { s.mem with applied := s.n + 1 }).1.take k) s.disk := by
          simp [Sys.torn, he, doApply, hle]
        unfold Safe at hs
        rw [e1] at hs ⊢
        obtain ⟨P, h1, h2⟩ := hl.torn k hs
        exact ⟨P, by omega, h2⟩
  obtain ⟨P, hP, hk⟩ := key
  have hsc : Scanned c log (s.torn log k) P (scan log (s.torn log k)) := by
    rcases hk with ⟨h1, h2⟩ | ⟨t, l, h1⟩
    · exact scan_noPend h1 h2
    · exact scan_window h1
  have hr : c → (scan log (s.torn log k)).restore = [] ∨
      ∀ t s os r, Entry.stmt t s os r ∈ log → r = 0 := by
    intro hcc
    rcases hc hcc with hb | hb
    · left
      rw [List.eq_nil_iff_forall_not_mem]
      intro t ht
      have h1 := (hsc.restore t).1 ht
      rw [← hsc.begins t ht, hb t] at h1
      cases h1
    · exact Or.inr hb
  obtain ⟨i1, i2⟩ := Inv.restart (s := s) hv (by have := h.snap; omega) hsc hr
  exact ⟨i1, P, hP, hsc.disk.len, i2⟩

/-- The rows are counted exactly: no crash while a transaction is open, or none that adds rows. -/
def Counted (log : List Entry) (quiet : Bool) : Prop :=
  quiet = true ∨ ∀ t s os r, Entry.stmt t s os r ∈ log → r = 0

theorem Reach.inv {log : List Entry} {quiet : Bool} {s : Sys} (hv : Valid log)
    (h : Reach log quiet s) : Inv (Counted log quiet) log s := by
  induction h with
  | init => exact Inv.init _ _
  | step _ he ih => exact ih.step hv he
  | save _ ih => exact ih.save
  | crash k _ hs hq ih =>
    refine (ih.crash hv k hs ?_).1
    rintro (hc | hc)
    · exact Or.inl (hq hc)
    · exact Or.inr hc

theorem Reach.feed {log : List Entry} {quiet : Bool} {s : Sys} (h : Reach log quiet s) :
    ∀ es, log.drop s.n = es →
    Reach log quiet (feed s es) ∧ (Recover.feed s es).n = s.n + es.length := by
  intro es
  induction es generalizing s with
  | nil => intro _; exact ⟨h, rfl⟩
  | cons e es ih =>
    intro he
    have h1 : log[s.n]? = some e := by
      have : (log.drop s.n)[0]? = some e := by rw [he]; rfl
      rw [List.getElem?_drop] at this
      exact this
    have h2 : log.drop (s.step e).n = es := by
      show log.drop (s.n + 1) = es
      rw [← List.drop_drop, he]; rfl
    obtain ⟨h3, h4⟩ := ih (h.step h1) h2
    refine ⟨h3, ?_⟩
    show (Recover.feed (s.step e) es).n = _
    rw [h4]
    show s.n + 1 + es.length = _
    simp only [List.length_cons]; omega

/-! ## Crash-free executions -/

/-- The states of a region that has not died yet. -/
inductive Run (log : List Entry) : Sys → Prop
  | init : Run log init
  | step {s : Sys} {e : Entry} : Run log s → log[s.n]? = some e → Run log (s.step e)
  | save {s : Sys} : Run log s → Run log s.save

theorem Run.reach {log : List Entry} {quiet : Bool} {s : Sys} (h : Run log s) :
    Reach log quiet s := by
  induction h with
  | init => exact .init
  | step _ he ih => exact .step ih he
  | save _ ih => exact .save ih

theorem applyE_marks {live : Bool} {i : Nat} {e : Entry} {m : Mem} {d : Disk}
    (h : ∀ t, d.pre t = none) (t : Nat) : (run (applyE live i e m).1 d).pre t = none := by
  have hu : ∀ (a : Nat) (x : Int × Nat), upd (upd d.pre a (some x)) a none t = none := by
    intro a x; unfold upd; split
    · rfl
    · exact h t
  cases e with
  | write os r => exact h t
  | other => exact h t
  | stmt u s os r =>
    unfold applyE beginWrite
    dsimp only
    split <;> exact h t
  | prepare u =>
    unfold applyE beginWrite
    dsimp only
    split <;> split <;> exact h t
  | commit u =>
    unfold applyE
    dsimp only
    split
    · exact h t
    · split <;> exact hu u _
  | rollback u =>
    unfold applyE
    dsimp only
    split
    · exact h t
    · split <;> exact hu u _
  | onePc u =>
    unfold applyE beginWrite
    dsimp only
    split <;> split <;> exact hu u _

theorem Run.marks {log : List Entry} {s : Sys} (h : Run log s) (t : Nat) :
    s.disk.pre t = none := by
  induction h generalizing t with
  | init => rfl
  | save _ ih => exact ih t
  | @step s e _ _ ih =>
    unfold Sys.step doApply
    dsimp only
    split
    · exact ih t
    · exact applyE_marks ih t

/-! ## The theorems -/

/-- What a region knows of the transactions that are open after a log. -/
def Knows (m : Mem) (past : List Entry) : Prop :=
  ∀ t, (isOpen t past = false → m.txns t = none) ∧
    (isOpen t past = true → ∃ x, m.txns t = some x ∧ x.ops = Spec.ops t past ∧
      x.seq = lastSeq t past ∧ x.prepared = Spec.prepared t past)

theorem Inv.knows {c : Prop} {log : List Entry} {s : Sys} (h : Inv c log s) :
    Knows s.mem (log.take (max s.n s.mem.applied)) := by
  intro t
  refine ⟨(h.mem t).1, fun ho => ?_⟩
  obtain ⟨x, h1, h2, h3, h4, _⟩ := (h.mem t).2 ho
  exact ⟨x, h1, h2, h3, h4⟩

/-- **C67.** Whatever a region has been through, its rows are those of a prefix of the log that
reaches at least as far as the entries that raft has handed over; the transactions it has in memory
are exactly the open ones of that prefix, with all of their statements. -/
theorem C67_state_is_a_prefix {log : List Entry} {quiet : Bool} {s : Sys} (hv : Valid log)
    (h : Reach log quiet s) :
    ∃ p, s.n ≤ p ∧ p ≤ log.length ∧ s.disk.data = Spec.data (log.take p) ∧
      Knows s.mem (log.take p) :=
  have hi := h.inv hv
  ⟨_, Nat.le_max_left _ _, hi.disk.len, hi.disk.data, hi.knows⟩

/-- **C67.** A crash and restart lose nothing: the rows are those of a prefix that is at least as
long as the one before the crash. -/
theorem C67_restart_keeps_rows {log : List Entry} {quiet : Bool} {s : Sys} {k : Nat}
    (hv : Valid log) (h : Reach log quiet s) (hs : Safe s log k) :
    ∃ p p', s.n ≤ p ∧ p ≤ p' ∧ p' ≤ log.length ∧ s.disk.data = Spec.data (log.take p) ∧
      (s.restart log (s.torn log k)).disk.data = Spec.data (log.take p') := by
  have h' : Reach log false s := by
    clear hs hv
    induction h with
    | init => exact .init
    | step _ he ih => exact .step ih he
    | save _ ih => exact .save ih
    | crash k _ h1 _ ih => exact .crash k ih h1 (fun x => by cases x)
  have hi : Inv False log s := by
    clear h hs
    induction h' with
    | init => exact Inv.init _ _
    | step _ he ih => exact ih.step hv he
    | save _ ih => exact ih.save
    | crash k _ hs _ ih => exact (ih.crash hv k hs (fun x => x.elim)).1
  obtain ⟨_, p', h1, h2, h3⟩ := hi.crash hv k hs (fun x => x.elim)
  exact ⟨_, p', Nat.le_max_left _ _, h1, h2, hi.disk.data, h3⟩

/-- **C67.** Once raft has handed over the rest of the log, the region has exactly the rows of the
log - those of the committed transactions, each once, and none of the others - and exactly the open
transactions. -/
theorem C67_rows_after_the_log {log : List Entry} {quiet : Bool} {s : Sys} (hv : Valid log)
    (h : Reach log quiet s) :
    (feed s (log.drop s.n)).disk.data = Spec.data log ∧
      Knows (feed s (log.drop s.n)).mem log := by
  obtain ⟨h1, h2⟩ := h.feed _ rfl
  have hi := h1.inv hv
  have hn : max (feed s (log.drop s.n)).n (feed s (log.drop s.n)).mem.applied = log.length := by
    have a := hi.disk.len
    have b := (h.inv hv).disk.len
    rw [List.length_drop] at h2
    omega
  have hd := hi.disk.data
  have hk := hi.knows
  rw [hn, List.take_length] at hd hk
  exact ⟨hd, hk⟩

/-- **C67.** The number of rows, too, if no crash happens while a transaction is open or if the
statements of transactions do not change it. -/
theorem C67_row_count_when_quiet {log : List Entry} {quiet : Bool} {s : Sys} (hv : Valid log)
    (h : Reach log quiet s)
    (hq : quiet = true ∨ ∀ t s os r, Entry.stmt t s os r ∈ log → r = 0) :
    (feed s (log.drop s.n)).disk.lines = Spec.count log ∧
      (feed s (log.drop s.n)).mem.lines = Spec.count log := by
  obtain ⟨h1, h2⟩ := h.feed _ rfl
  have hi := h1.inv hv
  have hn : max (feed s (log.drop s.n)).n (feed s (log.drop s.n)).mem.applied = log.length := by
    have a := hi.disk.len
    have b := (h.inv hv).disk.len
    rw [List.length_drop] at h2
    omega
  have hd := hi.disk.lines hq
  rw [hn, List.take_length] at hd
  exact ⟨hd, hi.lines.trans hd⟩

/-- **C67.** The first crash of a region is harmless wherever it happens: between any two writes of
any entry. -/
theorem C67_first_crash {log : List Entry} {s : Sys} (hv : Valid log) (h : Run log s) (k : Nat) :
    (feed (s.restart log (s.torn log k)) (log.drop s.snap)).disk.data = Spec.data log ∧
      Knows (feed (s.restart log (s.torn log k)) (log.drop s.snap)).mem log :=
  C67_rows_after_the_log (s := s.restart log (s.torn log k)) hv
    (Reach.crash (quiet := false) k h.reach (fun t ht => absurd (h.marks t) ht)
      (fun x => by cases x))

/-! ## What the code does not keep -/

/-- A commit is interrupted after its mark is written; the restart finds the transaction prepared
and rebuilds it, but leaves the mark. The region dies again before the PREPARE is applied again:
the mark now stands for a commit that never happened, and the transaction's rows are lost. -/
def staleLog : List Entry := [.stmt 1 1 [.put 7 5] 1, .prepare 1, .commit 1]

/-- The region after the first restart, with the first entry handed over again. -/
def staleOnce : Sys :=
  let s := feed init [.stmt 1 1 [.put 7 5] 1, .prepare 1]
  (s.restart staleLog (s.torn staleLog 1)).step (.stmt 1 1 [.put 7 5] 1)

theorem C67_stale_mark_counterexample :
    let s := staleOnce.restart staleLog (staleOnce.torn staleLog 0)
    (feed s staleLog).disk.data 7 = none ∧ Spec.data staleLog 7 = some 5 := by
  decide +kernel

/-- The region dies while it replays an open transaction: writing the index of its first entry moves
the applied index back, and entries after it are applied twice. -/
def againLog : List Entry := [.stmt 1 1 [] 0, .write [.merge 7 1] 1]

theorem C67_crash_in_restart_counterexample :
    let s := feed init againLog
    let d := run ((recover againLog s.snap s.disk).1.take 2) s.disk
    (feed (s.restart againLog d) againLog).disk.data 7 = some 2 ∧
      Spec.data againLog 7 = some 1 ∧
      (feed (s.restart againLog s.disk) againLog).disk.data 7 = some 1 := by
  decide +kernel

/-- A transaction that commits in one phase: when the region dies between the commit and the write
that records it, the restart finds a PREPARE at the marked index, forgets the transaction, and
applies its later statements and the commit again. -/
def onceLog : List Entry := [.stmt 1 1 [.merge 7 1] 1, .stmt 1 2 [.merge 7 1] 1, .onePc 1]

theorem C67_one_phase_counterexample :
    let s := feed init [.stmt 1 1 [.merge 7 1] 1, .stmt 1 2 [.merge 7 1] 1]
    let r := feed (s.restart onceLog (s.torn onceLog 3)) onceLog
    r.disk.data 7 = some 3 ∧ Spec.data onceLog 7 = some 2 ∧
      r.disk.lines = 1 ∧ Spec.count onceLog = 2 ∧
      (feed init onceLog).disk.data 7 = some 2 ∧ (feed init onceLog).disk.lines = 2 := by
  decide +kernel

/-- Statements that a restart replays do not count their rows. -/
theorem C67_row_count_counterexample :
    let s := feed init [.stmt 1 1 [.put 7 5] 1]
    let r := feed (s.restart staleLog (s.torn staleLog 0)) staleLog
    r.disk.lines = 0 ∧ r.disk.data 7 = some 5 ∧ Spec.count staleLog = 1 := by
  decide +kernel

/-- The leader sends with every statement how many rows the transaction has added so far; the
followers add these up. Two statements that add one row each count three. -/
theorem C67_shipped_row_count_counterexample :
    shipped [1, 1] = [1, 2] ∧
    (feed init [.stmt 1 1 [.put 7 5] 1, .stmt 1 2 [.put 8 5] 2, .prepare 1, .commit 1]).disk.lines
      = 3 ∧
    (feed init [.stmt 1 1 [.put 7 5] 1, .prepare 1, .commit 1]).disk.lines = 1 := by
  decide +kernel

end BaikalDB.Recover
