import Verif.Install.Model
import Verif.Recover.Props

/-!
# C70: a peer that loads the snapshot of the leader has the leader's rows and open transactions
-/

namespace BaikalDB.Install

open BaikalDB.Recover
open BaikalDB.Recover.Spec (isOpen seen ended Follows Valid)

/-! ## The executions -/

/-- The peers of a region whose log is `log`: each applies it, saves snapshots, dies and restarts,
and loads the snapshot of another. Crashes are those of `Recover.Reach` of which the restart
completes no commit that was interrupted. A peer that loads a snapshot is new, or has less of the
log than the snapshot; the log of the leader reaches back to the first entry of every open
transaction; and if the leader does not send its rows, the peer does not remove its own. -/
inductive Peer (log : List Entry) : Node → Prop
  | blank : Peer log blank
  | step {x : Node} {e : Entry} : Peer log x → log[x.sys.n]? = some e → Peer log (x.step e)
  | save {x : Node} : Peer log x → Peer log x.save
  | crash {x : Node} (k : Nat) : Peer log x → Safe x.sys log k →
      (x.crash log k).sys.disk.applied = (x.sys.torn log k).applied → Peer log (x.crash log k)
  | join {l : Node} {kept : Nat} : Peer log l →
      (∀ t b, l.sys.disk.begins t = some b → kept ≤ b) →
      Peer log (install log kept l Install.blank true 0)
  | install {l f : Node} {kept next : Nat} : Peer log l → Peer log f →
      max f.sys.n f.sys.mem.applied < next → next ≤ l.sys.snap →
      (∀ t b, l.sys.disk.begins t = some b → kept ≤ b) →
      (l.memData < next → l.diskData ≤ f.memData) →
      Peer log (install log kept l f false next)

/-! ## The invariant -/

/-- The rows do not change from entry `a` to entry `b`. -/
def Still (log : List Entry) (a b : Nat) : Prop :=
  ∀ j, a ≤ j → j ≤ b → Spec.data (log.take j) = Spec.data (log.take b)

theorem Still.refl (log : List Entry) (a : Nat) : Still log a a := by
  intro j h1 h2
  have : j = a := by omega
  rw [this]

theorem Still.trans {log : List Entry} {a b c : Nat} (h : Still log a b) (k : Still log b c)
    (hbc : b ≤ c) : Still log a c := by
  intro j h1 h2
  rcases Nat.lt_or_ge b j with h3 | h3
  · exact k j (by omega) h2
  · exact (h j h1 h3).trans (k b (Nat.le_refl _) hbc)

/-- An index of an entry that sets `_data_index`, or none. -/
def At (log : List Entry) (i : Nat) : Prop := i = 0 ∨ ∃ e, entryAt log i = some e ∧ e ≠ .other

structure NInv (log : List Entry) (x : Node) : Prop where
  sys : Inv False log x.sys
  memLe : x.memData ≤ max x.sys.n x.sys.mem.applied
  mem : Still log x.memData (max x.sys.n x.sys.mem.applied)
  diskLe : x.diskData ≤ x.sys.disk.applied
  disk : Still log x.diskData x.sys.disk.applied
  le : x.diskData ≤ x.memData
  memAt : At log x.memData
  diskAt : At log x.diskData

theorem NInv.blank (log : List Entry) : NInv log blank :=
  ⟨Inv.init _ _, Nat.le_refl _, Still.refl _ _, Nat.le_refl _, Still.refl _ _, Nat.le_refl _,
    Or.inl rfl, Or.inl rfl⟩

theorem NInv.save {log : List Entry} {x : Node} (h : NInv log x) : NInv log x.save :=
  ⟨h.sys.save, h.memLe, h.mem, h.diskLe, h.disk, h.le, h.memAt, h.diskAt⟩

/-- The applied index on disk after an entry. -/
theorem applied_after {i : Nat} {e : Entry} {m : Mem} {d : Disk} :
    (run (applyE true i e m).1 d).applied = if records m e then i else d.applied := by
  cases e with
  | write os r => rfl
  | other => rfl
  | stmt t s os r =>
    cases hx : m.txns t <;> simp [applyE, beginWrite, records, hx, run, wBegin]
  | prepare t =>
    cases hx : m.txns t with
    | none => simp [applyE, beginWrite, records, hx, run, wBegin, getTxn, wPrepare]
    | some x =>
      by_cases hp : x.prepared = true <;>
        simp [applyE, beginWrite, records, hx, run, getTxn, wPrepare, hp]
  | commit t =>
    cases hx : m.txns t with
    | none => simp [applyE, records, hx, run]
    | some x => by_cases hp : x.prepared = true <;> simp [applyE, records, hx, run, hp, wAfter]
  | rollback t =>
    cases hx : m.txns t with
    | none => simp [applyE, records, hx, run]
    | some x => by_cases hp : x.prepared = true <;> simp [applyE, records, hx, run, hp, wAfter]
  | onePc t =>
    simp [applyE, records, run, wAfter]

/-- The applied index on disk in the middle of an entry. -/
theorem applied_torn {i : Nat} {e : Entry} {m : Mem} {d : Disk} (k : Nat) :
    (run ((applyE true i e m).1.take k) d).applied = d.applied ∨
      (run ((applyE true i e m).1.take k) d).applied = i := by
  have key : ∀ ws : List Write,
      (∀ w, w ∈ ws → ∀ d : Disk, (w d).applied = d.applied ∨ (w d).applied = i) →
      ∀ (k : Nat) (d : Disk), (run (ws.take k) d).applied = d.applied ∨
        (run (ws.take k) d).applied = i := by
    intro ws
    induction ws with
    | nil => intro _ k d; simp [run]
    | cons w ws ih =>
      intro hw k d
      cases k with
      | zero => simp [run]
      | succ k =>
        show (run (ws.take k) (w d)).applied = _ ∨ (run (ws.take k) (w d)).applied = _
        rcases ih (fun v hv => hw v (by simp [hv])) k (w d) with h | h
        · rw [h]; exact hw w (by simp) d
        · exact Or.inr h
  apply key
  intro w hw d
  have hb : ∀ t, w ∈ beginWrite m t i → (w d).applied = i := by
    intro t h
    unfold beginWrite at h
    split at h
    · simp only [List.mem_singleton] at h; subst h; rfl
    · cases h
  cases e with
  | write os r => simp only [applyE, List.mem_singleton] at hw; subst hw; right; rfl
  | other => simp only [applyE, List.mem_singleton] at hw; subst hw; right; rfl
  | stmt t s os r => exact Or.inr (hb t hw)
  | prepare t =>
    rcases List.mem_append.1 hw with h | h
    · exact Or.inr (hb t h)
    · split at h
      · cases h
      · simp only [List.mem_singleton] at h; subst h; left; rfl
  | commit t =>
    simp only [applyE] at hw
    cases hx : m.txns t with
    | none => rw [hx] at hw; cases hw
    | some x =>
      rw [hx] at hw
      dsimp only at hw
      split at hw
      · simp only [List.mem_cons, List.not_mem_nil, or_false] at hw
        rcases hw with h | h | h <;> subst h
        · left; rfl
        · left; rfl
        · right; rfl
      · simp only [List.mem_cons, List.not_mem_nil, or_false] at hw
        rcases hw with h | h <;> subst h
        · left; rfl
        · right; rfl
  | rollback t =>
    simp only [applyE] at hw
    cases hx : m.txns t with
    | none => rw [hx] at hw; cases hw
    | some x =>
      rw [hx] at hw
      dsimp only at hw
      simp only [List.mem_append, List.mem_singleton] at hw
      rcases hw with (h | h) | h
      · subst h; left; rfl
      · split at h
        · simp only [List.mem_singleton] at h; subst h; left; rfl
        · cases h
      · subst h; right; rfl
  | onePc t =>
    simp only [applyE, List.mem_append, List.mem_cons, List.not_mem_nil, or_false] at hw
    rcases hw with (h | h) | h | h | h
    · exact Or.inr (hb t h)
    · split at h
      · cases h
      · simp only [List.mem_singleton] at h; subst h; left; rfl
    · subst h; left; rfl
    · subst h; left; rfl
    · subst h; right; rfl

/-- One more entry: from `_data_index` on the rows do not change. -/
theorem still_next {log : List Entry} {n a : Nat} {e : Entry} (he : log[n]? = some e)
    (hle : a ≤ n) (h : Still log a n) (hat : At log a) :
    dataIndex (n + 1) e a ≤ n + 1 ∧ Still log (dataIndex (n + 1) e a) (n + 1) ∧
      a ≤ dataIndex (n + 1) e a ∧ At log (dataIndex (n + 1) e a) := by
  by_cases ho : e = .other
  · subst ho
    refine ⟨Nat.le_succ_of_le hle, ?_, Nat.le_refl _, hat⟩
    show Still log a (n + 1)
    refine h.trans ?_ (by omega)
    intro j h1 h2
    rcases Nat.lt_or_ge n j with h3 | h3
    · have : j = n + 1 := by omega
      rw [this]
    · have : j = n := by omega
      rw [this, take_snoc he, data_snoc]; rfl
  · have : dataIndex (n + 1) e a = n + 1 := by cases e <;> first | rfl | exact absurd rfl ho
    rw [this]
    exact ⟨Nat.le_refl _, Still.refl _ _, by omega, Or.inr ⟨e, by simpa [entryAt] using he, ho⟩⟩

theorem NInv.step {log : List Entry} {x : Node} {e : Entry} (h : NInv log x) (hv : Valid log)
    (he : log[x.sys.n]? = some e) : NInv log (x.step e) := by
  have hs := h.sys.step hv he
  unfold Node.step
  dsimp only
  by_cases hle : x.sys.n + 1 ≤ x.sys.mem.applied
  · rw [if_pos hle]
    have e1 : x.sys.step e = { x.sys with n := x.sys.n + 1 } := by
      simp [Sys.step, doApply, hle, run]
    have hm : max (x.sys.n + 1) x.sys.mem.applied = max x.sys.n x.sys.mem.applied := by omega
    refine ⟨hs, ?_, ?_, ?_, ?_, h.le, h.memAt, h.diskAt⟩
    · rw [e1]; dsimp only; rw [hm]; exact h.memLe
    · rw [e1]; dsimp only; rw [hm]; exact h.mem
    · rw [e1]; exact h.diskLe
    · rw [e1]; exact h.disk
  · rw [if_neg hle]
    have hm : max x.sys.n x.sys.mem.applied = x.sys.n := by omega
    have h1 := h.memLe
    have h2 := h.mem
    rw [hm] at h1 h2
    obtain ⟨g1, g2, g3, g4⟩ := still_next he h1 h2 h.memAt
    have e1 : x.sys.step e = { x.sys with
        n := x.sys.n + 1
        disk := run (applyE true (x.sys.n + 1) e
          { x.sys.mem with applied := x.sys.n + 1 }).1 x.sys.disk
        mem := (applyE true (x.sys.n + 1) e
          { x.sys.mem with applied := x.sys.n + 1 }).2 } := by
      simp [Sys.step, doApply, hle]
    have e2 : max (x.sys.step e).n (x.sys.step e).mem.applied = x.sys.n + 1 := by
      rw [e1]; dsimp only; rw [applyE_applied]; simp
    have e3 : (x.sys.step e).disk.applied
        = if records x.sys.mem e then x.sys.n + 1 else x.sys.disk.applied := by
      rw [e1]
      show (run (applyE true (x.sys.n + 1) e
          { x.sys.mem with applied := x.sys.n + 1 }).1 x.sys.disk).applied = _
      rw [applied_after]
      have : records { x.sys.mem with applied := x.sys.n + 1 } e = records x.sys.mem e := by
        cases e <;> rfl
      rw [this]
    refine ⟨hs, ?_, ?_, ?_, ?_, ?_, g4, ?_⟩
    · dsimp only; rw [e2]; exact g1
    · dsimp only; rw [e2]; exact g2
    · dsimp only; rw [e3]
      split
      · exact g1
      · exact h.diskLe
    · dsimp only; rw [e3]
      split
      · exact g2
      · exact h.disk
    · dsimp only
      split
      · exact Nat.le_refl _
      · exact Nat.le_trans h.le g3
    · dsimp only
      split
      · exact g4
      · exact h.diskAt

theorem NInv.torn {log : List Entry} {x : Node} (h : NInv log x) (k : Nat) :
    x.tornData log k ≤ (x.sys.torn log k).applied ∧
      Still log (x.tornData log k) (x.sys.torn log k).applied ∧ At log (x.tornData log k) := by
  unfold Node.tornData
  cases he : log[x.sys.n]? with
  | none =>
    have : x.sys.torn log k = x.sys.disk := by simp [Sys.torn, he]
    rw [this]
    exact ⟨h.diskLe, h.disk, h.diskAt⟩
  | some e =>
    dsimp only
    by_cases hd : (x.sys.torn log k).applied = x.sys.disk.applied
    · rw [if_pos hd, hd]
      exact ⟨h.diskLe, h.disk, h.diskAt⟩
    · rw [if_neg hd]
      by_cases hle : x.sys.n + 1 ≤ x.sys.mem.applied
      · exact absurd (by simp [Sys.torn, he, doApply, hle, run]) hd
      · have e1 : x.sys.torn log k = run ((applyE true (x.sys.n + 1) e
            { x.sys.mem with applied := x.sys.n + 1 }).1.take k) x.sys.disk := by
          simp [Sys.torn, he, doApply, hle]
        have e2 : (x.sys.torn log k).applied = x.sys.n + 1 := by
          rcases applied_torn (i := x.sys.n + 1) (e := e)
            (m := { x.sys.mem with applied := x.sys.n + 1 }) (d := x.sys.disk) k with g | g
          · rw [e1] at hd; exact absurd g hd
          · rw [e1]; exact g
        have hm : max x.sys.n x.sys.mem.applied = x.sys.n := by omega
        have h1 := h.memLe
        have h2 := h.mem
        rw [hm] at h1 h2
        rw [e2]
        obtain ⟨g1, g2, _, g4⟩ := still_next he h1 h2 h.memAt
        exact ⟨g1, g2, g4⟩

/-- From the applied index on disk to where the region is, the rows do not change. -/
theorem still_disk {log : List Entry} {s : Sys} (h : Inv False log s) :
    Still log s.disk.applied (max s.n s.mem.applied) :=
  fun j h1 h2 => (h.disk.same j h1 h2).data

theorem NInv.crash {log : List Entry} {x : Node} (h : NInv log x) (hv : Valid log) (k : Nat)
    (hs : Safe x.sys log k)
    (ha : (x.crash log k).sys.disk.applied = (x.sys.torn log k).applied) :
    NInv log (x.crash log k) := by
  have hi := (h.sys.crash hv k hs (fun c => c.elim)).1
  obtain ⟨h1, h2, h6⟩ := h.torn k
  have h3 : Still log (x.tornData log k) (x.crash log k).sys.disk.applied := by rw [ha]; exact h2
  have h4 : x.tornData log k ≤ (x.crash log k).sys.disk.applied := by rw [ha]; exact h1
  have h5 : (x.crash log k).sys.disk.applied ≤
      max (x.crash log k).sys.n (x.crash log k).sys.mem.applied :=
    Nat.le_trans hi.applied (Nat.le_max_right _ _)
  exact ⟨hi, Nat.le_trans h4 h5, h3.trans (still_disk hi) h5, h4, h3,
    Nat.le_refl _, h6, h6⟩

/-! ## Loading a snapshot -/

theorem mem_zip_first {log : List Entry} {q : Nat} {p : Entry × Nat} {t : Nat}
    (hp : p ∈ log.zipIdx 1) (hq : p.2 ≤ q) (ht : Spec.of p.1 = some t) :
    ∃ b, first t (log.take q) = some b ∧ b ≤ p.2 := by
  obtain ⟨h4, h5⟩ := List.mk_mem_zipIdx_iff_le_and_getElem?_sub.1 hp
  have h6 : (log.take q)[p.2 - 1]? = some p.1 := by
    rw [List.getElem?_take_of_lt (by omega)]; exact h5
  obtain ⟨j, h7, h8⟩ := first_le h6 ht
  exact ⟨j, h7, by omega⟩

/-- The entries that are sent are all entries of the transactions that are open. -/
theorem requests_eq {log : List Entry} {kept q : Nat} {begins : Nat → Option Nat} {R : List Nat}
    (hb : ∀ t, begins t = if t ∈ R then first t (log.take q) else none)
    (hk : ∀ t b, begins t = some b → kept ≤ b) :
    requests log kept begins q = only R (log.take q) := by
  have hzip := zip_filter log 1 q (fun e => (txnOf e).any fun t => R.contains t)
  unfold requests only
  rw [← hzip]
  apply List.filter_congr
  intro p hp
  by_cases hq : p.2 ≤ q
  · have e1 : p.2 < 1 + q := by omega
    simp only [hq, e1, decide_true, Bool.and_true, Bool.true_and]
    rw [txnOf_eq]
    cases ho : Spec.of p.1 with
    | none => rfl
    | some t =>
      obtain ⟨b, h1, h2⟩ := mem_zip_first hp hq ho
      show (((begins t).any fun b => decide (b ≤ p.2)) && decide (kept ≤ p.2)) = R.contains t
      by_cases hR : t ∈ R
      · have hbt : begins t = some b := by rw [hb, if_pos hR, h1]
        have := hk t b hbt
        have hkp : kept ≤ p.2 := by omega
        simp [hbt, h2, hkp, hR]
      · have hbt : begins t = none := by rw [hb, if_neg hR]
        simp [hbt, hR]
  · have e1 : ¬ p.2 < 1 + q := by omega
    simp [hq, e1]

/-- A peer that gets the leader's rows, or has rows that are the leader's, is afterwards where the
leader's snapshot is. -/
theorem NInv.install {log : List Entry} {l f : Node} {kept next : Nat} {fresh : Bool}
    (h : NInv log l) (hv : Valid log) (hk : ∀ t b, l.sys.disk.begins t = some b → kept ≤ b)
    (hr : rowsAfter l f fresh next = l.sys.disk.data) :
    NInv log (install log kept l f fresh next) ∧
      (Install.install log kept l f fresh next).sys.disk.data = l.sys.disk.data ∧
      (Install.install log kept l f fresh next).sys.disk.applied = l.sys.disk.applied := by
  have hD := h.sys.disk
  obtain ⟨P, hP⟩ : ∃ P, P = max l.sys.n l.sys.mem.applied := ⟨_, rfl⟩
  rw [← hP] at hD
  obtain ⟨a, ha⟩ : ∃ a, a = l.sys.disk.applied := ⟨_, rfl⟩
  obtain ⟨q, hq⟩ : ∃ q, q = max l.sys.snap a := ⟨_, rfl⟩
  have hqP : q ≤ P := by
    have h1 := h.sys.snap
    have h2 := hD.le
    rw [hq, ha]; omega
  have hqa : l.sys.disk.applied ≤ q := by rw [hq, ha]; omega
  have hsame := hD.same q hqa hqP
  obtain ⟨R, hR⟩ : ∃ R, R = (ids log).filter fun t => isOpen t (log.take q) := ⟨_, rfl⟩
  have hRopen : ∀ t, t ∈ R ↔ isOpen t (log.take q) = true := by
    intro t
    rw [hR, List.mem_filter]
    exact ⟨fun k => k.2, fun k => ⟨mem_ids.2 (seen_take (seen_of_open k)), k⟩⟩
  have hbeg : ∀ t, l.sys.disk.begins t = if t ∈ R then first t (log.take q) else none := by
    intro t
    rw [hD.begins, ← hsame.start]
    by_cases ht : t ∈ R
    · rw [if_pos ht, start, not_ended_of_open ((hRopen t).1 ht)]; rfl
    · rw [if_neg ht]
      have : isOpen t (log.take q) = false := by
        cases ho : isOpen t (log.take q) with
        | false => rfl
        | true => exact absurd ((hRopen t).2 ho) ht
      rw [← start_isSome] at this
      cases hs : start t (log.take q) with
      | none => rfl
      | some b => rw [hs] at this; cases this
  have hes := requests_eq (log := log) (kept := kept) (q := q) hbeg hk
  obtain ⟨lines, hl⟩ : ∃ lines, lines = max 0 l.sys.disk.lines := ⟨_, rfl⟩
  obtain ⟨d, hd⟩ : ∃ d : Disk, d = ⟨l.sys.disk.data, a, lines, fun _ => none, fun _ => none,
    fun _ => false⟩ := ⟨_, rfl⟩
  obtain ⟨r, hrr⟩ : ∃ r, r = replay (only R (log.take q)) ⟨a, lines, fun _ => none⟩ := ⟨_, rfl⟩
  have hre := rebuild (c := False) hv (R := R) (d := d) (q := q)
    (m0 := ⟨a, lines, fun _ => none⟩) (Nat.le_trans hqP hD.len)
    (fun t ht => not_ended_of_open ((hRopen t).1 ht)) (fun t => by rw [hd]) (fun _ => rfl)
    (fun c => c.elim) q (Nat.le_refl _)
  rw [← hrr] at hre
  have hin : Install.install log kept l f fresh next
      = ⟨⟨l.sys.snap, l.sys.snap, { run r.1 d with applied := a }, r.2⟩, l.diskData,
        l.diskData⟩ := by
    unfold Install.install
    dsimp only
    rw [← ha, ← hl, ← hq, hes, hr, ← hd, ← hrr, run_append]
    cases he : only R (log.take q) with
    | nil =>
      rw [he] at hrr
      rw [hrr, hd]; rfl
    | cons x l => rfl
  have happ : r.2.applied = a := hre.applied
  have hpos : max l.sys.snap r.2.applied = q := by rw [happ, hq]
  have hi : Inv False log (Install.install log kept l f fresh next).sys := by
    rw [hin]
    refine ⟨Nat.le_refl _, ?_, ?_, ?_, ?_, ?_⟩
    · dsimp only
      rw [hpos]
      refine ⟨?_, Nat.le_trans hqP hD.len, ?_, ?_, ?_, fun c => c.elim⟩
      · rw [hq]; exact Nat.le_max_right _ _
      · intro j h1 h2
        exact (hD.same j (by rw [← ha]; exact h1) (Nat.le_trans h2 hqP)).trans hsame.symm
      · show (run r.1 d).data = _
        rw [hre.data, hd]
        exact hD.data.trans hsame.symm.data
      · intro t
        show (run r.1 d).begins t = _
        rw [hre.begins t]
        by_cases ht : t ∈ R
        · have ho := (hRopen t).1 ht
          rw [if_pos ⟨ht, seen_of_open ho⟩, start, not_ended_of_open ho]; rfl
        · rw [if_neg (fun k => ht k.1), hd]
          have := hbeg t
          rw [if_neg ht, hD.begins, ← hsame.start] at this
          exact this.symm
    · exact Nat.le_of_eq happ.symm
    · intro t
      dsimp only
      rw [hpos]
      by_cases ht : t ∈ R
      · exact hre.ins t ht
      · rw [hre.out t ht]
        exact ⟨fun _ => rfl, fun k => absurd ((hRopen t).2 k) ht⟩
    · dsimp only
      rw [hre.lines, hre.dlines, hd]
    · intro t
      dsimp only
      rw [hpos, hre.prep]
      by_cases ht : t ∈ R
      · rw [(hRopen t).1 ht]; simp [ht]
      · have : isOpen t (log.take q) = false := by
          cases ho : isOpen t (log.take q) with
          | false => rfl
          | true => exact absurd ((hRopen t).2 ho) ht
        rw [this]; simp [ht]
  have hq1 : Still log l.diskData q := by
    refine h.disk.trans ?_ hqa
    intro j h1 h2
    exact ((hD.same j h1 (Nat.le_trans h2 hqP)).trans hsame.symm).data
  refine ⟨⟨hi, ?_, ?_, ?_, ?_, Nat.le_refl _, h.diskAt, h.diskAt⟩, ?_, ?_⟩
  · rw [hin]; dsimp only; rw [hpos]
    exact Nat.le_trans h.diskLe hqa
  · rw [hin]; dsimp only; rw [hpos]; exact hq1
  · rw [hin]; dsimp only; rw [ha]; exact h.diskLe
  · rw [hin]; dsimp only; rw [ha]; exact h.disk
  · rw [hin]
    show (run r.1 d).data = _
    rw [hre.data, hd]
  · rw [hin]; exact ha

/-- What the peer has afterwards are the leader's rows. -/
theorem rows_join {l : Node} : rowsAfter l Install.blank true 0 = l.sys.disk.data := by
  funext k
  simp [rowsAfter, sends, ingest, Install.blank, Recover.init]

theorem rows_install {log : List Entry} {l f : Node} {next : Nat} (h : NInv log l)
    (hf : NInv log f) (h1 : max f.sys.n f.sys.mem.applied < next) (h2 : next ≤ l.sys.snap)
    (h3 : l.memData < next → l.diskData ≤ f.memData) :
    rowsAfter l f false next = l.sys.disk.data := by
  have hsn := h.sys.snap
  have hstill : Still log l.diskData (max l.sys.n l.sys.mem.applied) :=
    h.disk.trans (still_disk h.sys) (Nat.le_trans h.sys.applied (Nat.le_max_right _ _))
  have hkeep : l.diskData ≤ f.memData → f.sys.disk.data = l.sys.disk.data := by
    intro hle
    rw [hf.sys.disk.data, h.sys.disk.data]
    exact hstill _ (Nat.le_trans hle hf.memLe) (by omega)
  unfold rowsAfter sends
  simp only [Bool.false_eq_true, if_false]
  by_cases hc : f.memData < l.diskData
  · rw [if_pos hc]
    have : ¬ l.memData < next := fun k => by have := h3 k; omega
    funext k
    simp [this, ingest]
  · rw [if_neg hc]
    exact hkeep (by omega)

theorem Peer.inv {log : List Entry} {x : Node} (hv : Valid log) (h : Peer log x) : NInv log x := by
  induction h with
  | blank => exact NInv.blank _
  | step _ he ih => exact ih.step hv he
  | save _ ih => exact ih.save
  | crash k _ hs ha ih => exact ih.crash hv k hs ha
  | join _ hk ih => exact (ih.install hv hk rows_join).1
  | install _ _ h1 h2 hk h3 ihl ihf => exact (ihl.install hv hk (rows_install ihl ihf h1 h2 h3)).1

/-! ## The theorems -/

/-- Applying the entries that are left. -/
def feed (x : Node) (es : List Entry) : Node := es.foldl Node.step x

theorem step_sys (x : Node) (e : Entry) : (x.step e).sys = x.sys.step e := by
  unfold Node.step
  dsimp only
  split <;> rfl

theorem Peer.feed {log : List Entry} {x : Node} (h : Peer log x) :
    ∀ es, log.drop x.sys.n = es →
    Peer log (feed x es) ∧ (Install.feed x es).sys.n = x.sys.n + es.length := by
  intro es
  induction es generalizing x with
  | nil => intro _; exact ⟨h, rfl⟩
  | cons e es ih =>
    intro he
    have h1 : log[x.sys.n]? = some e := by
      have : (log.drop x.sys.n)[0]? = some e := by rw [he]; rfl
      rw [List.getElem?_drop] at this
      exact this
    have hn : (x.step e).sys.n = x.sys.n + 1 := by rw [step_sys]; rfl
    have h2 : log.drop (x.step e).sys.n = es := by
      rw [hn, ← List.drop_drop, he]; rfl
    obtain ⟨h3, h4⟩ := ih (h.step h1) h2
    refine ⟨h3, ?_⟩
    show (Install.feed (x.step e) es).sys.n = _
    rw [h4, hn]
    simp only [List.length_cons]; omega

/-- **C70.** Whatever crashes, restarts and snapshots loaded from other peers a peer has been
through: its rows are those of a prefix of the log at least as long as its raft snapshot, and the
transactions it knows are exactly those open there, each with all it has written, and prepared if
it is. -/
theorem C70_state_is_a_prefix {log : List Entry} {x : Node} (hv : Valid log) (h : Peer log x) :
    ∃ P, x.sys.snap ≤ P ∧ x.sys.n ≤ P ∧ P ≤ log.length ∧
      x.sys.disk.data = Spec.data (log.take P) ∧ Knows x.sys.mem (log.take P) := by
  have hi := (h.inv hv).sys
  exact ⟨_, Nat.le_trans hi.snap (Nat.le_max_left _ _), Nat.le_max_left _ _, hi.disk.len,
    hi.disk.data, hi.knows⟩

/-- **C70.** And after the rest of the log it has exactly the rows and the open transactions of the
whole log. -/
theorem C70_rows_after_the_log {log : List Entry} {x : Node} (hv : Valid log) (h : Peer log x) :
    (feed x (log.drop x.sys.n)).sys.disk.data = Spec.data log ∧
      Knows (feed x (log.drop x.sys.n)).sys.mem log := by
  obtain ⟨h1, h2⟩ := h.feed _ rfl
  have hi := (h1.inv hv).sys
  have hp : log.length ≤ max (Install.feed x (log.drop x.sys.n)).sys.n
      (Install.feed x (log.drop x.sys.n)).sys.mem.applied := by
    rw [h2, List.length_drop]; omega
  have hd := hi.disk.data
  have hk := hi.knows
  rw [List.take_of_length_le hp] at hd hk
  exact ⟨hd, hk⟩

/-- **C70.** A peer that loads a snapshot has exactly the leader's rows at once. -/
theorem C70_rows_of_the_leader {log : List Entry} {l f : Node} {kept next : Nat} (hv : Valid log)
    (hl : Peer log l) (hf : Peer log f) (h1 : max f.sys.n f.sys.mem.applied < next)
    (h2 : next ≤ l.sys.snap) (hk : ∀ t b, l.sys.disk.begins t = some b → kept ≤ b)
    (h3 : l.memData < next → l.diskData ≤ f.memData) :
    (install log kept l f false next).sys.disk.data = l.sys.disk.data ∧
      (install log kept l Install.blank true 0).sys.disk.data = l.sys.disk.data :=
  ⟨((hl.inv hv).install hv hk (rows_install (hl.inv hv) (hf.inv hv) h1 h2 h3)).2.1,
    ((hl.inv hv).install hv hk rows_join).2.1⟩

/-! ## When the rows need not be sent -/

/-- The states of a peer that has neither died nor loaded a snapshot. -/
inductive Calm (log : List Entry) : Node → Prop
  | blank : Calm log blank
  | step {x : Node} {e : Entry} : Calm log x → log[x.sys.n]? = some e → Calm log (x.step e)
  | save {x : Node} : Calm log x → Calm log x.save

theorem Calm.peer {log : List Entry} {x : Node} (h : Calm log x) : Peer log x := by
  induction h with
  | blank => exact .blank
  | step _ he ih => exact .step ih he
  | save _ ih => exact .save ih

theorem Calm.data {log : List Entry} {x : Node} (h : Calm log x) :
    x.sys.mem.applied = x.sys.n ∧ ∀ i, i ≤ x.sys.n → At log i → i ≤ x.memData := by
  induction h with
  | blank => exact ⟨rfl, fun i hi _ => by simpa [Install.blank, Recover.init] using hi⟩
  | save _ ih => exact ih
  | @step x e _ he ih =>
    have hle : ¬ x.sys.n + 1 ≤ x.sys.mem.applied := by omega
    have hm : (x.step e).memData = dataIndex (x.sys.n + 1) e x.memData := by
      simp [Node.step, hle]
    have hn : (x.step e).sys.n = x.sys.n + 1 := by rw [step_sys]; rfl
    refine ⟨?_, ?_⟩
    · rw [step_sys]
      simp [Sys.step, doApply, hle, applyE_applied]
    · intro i hi hat
      rw [hn] at hi
      rw [hm]
      by_cases ho : e = .other
      · subst ho
        show i ≤ x.memData
        rcases Nat.lt_or_ge x.sys.n i with h3 | h3
        · have h4 : i = x.sys.n + 1 := by omega
          subst h4
          rcases hat with k | ⟨e', k1, k2⟩
          · omega
          · have : entryAt log (x.sys.n + 1) = some .other := by simpa [entryAt] using he
            rw [this] at k1
            exact absurd (by simpa using k1.symm) k2
        · exact ih.2 i h3 hat
      · have : dataIndex (x.sys.n + 1) e x.memData = x.sys.n + 1 := by
          cases e <;> first | rfl | exact absurd rfl ho
        rw [this]; exact hi

/-- **C70.** A peer that has neither died nor loaded a snapshot, and has applied all entries that it
has got: if the leader does not send its rows, the peer has them. -/
theorem C70_rows_need_not_be_sent {log : List Entry} {l f : Node} {kept : Nat} (hv : Valid log)
    (hl : Peer log l) (hf : Calm log f) (h2 : f.sys.n + 1 ≤ l.sys.snap)
    (hk : ∀ t b, l.sys.disk.begins t = some b → kept ≤ b) :
    (l.memData < f.sys.n + 1 → l.diskData ≤ f.memData) ∧
      (install log kept l f false (f.sys.n + 1)).sys.disk.data = l.sys.disk.data := by
  have h3 : l.memData < f.sys.n + 1 → l.diskData ≤ f.memData := by
    intro h
    have hi := hl.inv hv
    exact hf.data.2 _ (by have := hi.le; omega) hi.diskAt
  have h1 : max f.sys.n f.sys.mem.applied < f.sys.n + 1 := by rw [hf.data.1]; simp
  exact ⟨h3, (C70_rows_of_the_leader hv hl hf.peer h1 h2 hk h3).1⟩

/-! ## What the code does not keep -/

/-- A peer after `n` entries. -/
def upTo (log : List Entry) (n : Nat) : Node := (log.take n).foldl Node.step blank

theorem upTo_calm {log : List Entry} {n : Nat} : Calm log (upTo log n) := by
  have key : ∀ n, n ≤ log.length → Calm log (upTo log n) ∧ (upTo log n).sys.n = n := by
    intro n
    induction n with
    | zero => intro _; exact ⟨.blank, rfl⟩
    | succ n ih =>
      intro hn
      obtain ⟨h1, h2⟩ := ih (by omega)
      have he : log[n]? = some (log[n]'(by omega)) := List.getElem?_eq_getElem (by omega)
      have : upTo log (n + 1) = (upTo log n).step (log[n]'(by omega)) := by
        unfold upTo
        rw [take_snoc he, List.foldl_append]; rfl
      rw [this]
      refine ⟨h1.step (by rw [h2]; exact he), ?_⟩
      rw [step_sys]
      show (upTo log n).sys.n + 1 = _
      rw [h2]
  rcases Nat.le_total n log.length with h | h
  · exact (key n h).1
  · have : upTo log n = upTo log log.length := by
      unfold upTo; rw [List.take_of_length_le h, List.take_length]
    rw [this]; exact (key _ (Nat.le_refl _)).1

/-- A peer has got the two writes of this log, and has applied only the first, when it has to load
a snapshot. The leader does not send its rows, as the peer has all entries that changed them; the
peer removes its rows, as it has not applied the last of them. -/
def behindLog : List Entry := [.write [.put 7 5] 1, .write [.put 8 6] 1, .other, .other]

theorem C70_peer_behind_counterexample :
    let l := (upTo behindLog 4).save
    let x := install behindLog 1 l (upTo behindLog 1) false 3
    sends l 3 = false ∧ x.sys.n = 4 ∧ x.sys.disk.data 7 = none ∧ x.sys.disk.data 8 = none ∧
      Spec.data behindLog 7 = some 5 := by
  decide +kernel

/-- The same with a peer that has applied all it has, but has died since: its `_data_index` is the
one on disk, which a statement of a transaction does not advance. -/
def restartLog : List Entry :=
  [.write [.put 7 5] 1, .stmt 1 1 [] 0, .stmt 1 2 [] 0, .other, .other]

theorem C70_peer_restarted_counterexample :
    let l := (upTo restartLog 5).save
    let f := (upTo restartLog 3).save.crash restartLog 0
    let x := install restartLog 1 l f false 4
    f.sys.n = 3 ∧ sends l 4 = false ∧ x.sys.disk.data 7 = none ∧
      Spec.data restartLog 7 = some 5 := by
  decide +kernel

/-- The leader has died within a commit; its restart records the index of the commit, but the
`_data_index` of before. It does not send its rows to a peer that has not got the commit: the peer
keeps its rows and takes over the applied index, and the transaction is lost there. -/
def windowLog : List Entry := [.stmt 1 1 [.put 7 5] 1, .prepare 1, .commit 1, .other]

theorem C70_interrupted_commit_counterexample :
    let l := (windowLog.foldl Node.step ((upTo windowLog 2).crash windowLog 2)).save
    let x := install windowLog 1 l (upTo windowLog 2) false 3
    l.sys.disk.data 7 = some 5 ∧ sends l 3 = false ∧ x.sys.n = 4 ∧ x.sys.disk.data 7 = none := by
  decide +kernel

/-- The log of the leader has been cut off behind the first entries of an open transaction: the new
peer gets the others without an error, and when the transaction commits, its row is not there. -/
theorem C70_truncated_log_counterexample :
    let l := (upTo windowLog 2).save
    let x := feed (install windowLog 2 l blank true 0) (windowLog.drop 2)
    (feed l (windowLog.drop 2)).sys.disk.data 7 = some 5 ∧ x.sys.disk.data 7 = none := by
  decide +kernel

end BaikalDB.Install
