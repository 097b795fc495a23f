import Verif.Recover.Lemmas

/-!
# Applying an entry, and dying in the middle of it
-/

namespace BaikalDB.Recover

open BaikalDB.Recover.Spec (isOpen seen ended lastSeq Follows Valid)

/-- The disk holds the rows and the open transactions after `P` entries; between the index that it
has recorded and `P` nothing has happened that it would have to record. `c` says whether the number
of rows is to be right too. -/
structure DInv (c : Prop) (log : List Entry) (d : Disk) (P : Nat) : Prop where
  le : d.applied ≤ P
  len : P ≤ log.length
  same : ∀ j, d.applied ≤ j → j ≤ P → Same (log.take j) (log.take P)
  data : d.data = Spec.data (log.take P)
  begins : ∀ t, d.begins t = start t (log.take P)
  lines : c → d.lines = Spec.count (log.take P)

theorem DInv.extend {c : Prop} {log : List Entry} {d : Disk} {n : Nat} (h : DInv c log d n)
    (hs : Same (log.take n) (log.take (n + 1))) (hn : n + 1 ≤ log.length) :
    DInv c log d (n + 1) where
  le := Nat.le_succ_of_le h.le
  len := hn
  same := fun j h1 h2 => by
    rcases Nat.lt_or_ge n j with h3 | h3
    · have : j = n + 1 := by omega
      subst this; exact Same.refl _
    · exact (h.same j h1 h3).trans hs
  data := h.data.trans hs.data
  begins := fun t => (h.begins t).trans (hs.start t)
  lines := fun hc => (h.lines hc).trans hs.count

theorem DInv.new {c : Prop} {log : List Entry} {d : Disk} {P : Nat} (ha : d.applied = P)
    (hP : P ≤ log.length) (hd : d.data = Spec.data (log.take P))
    (hb : ∀ t, d.begins t = start t (log.take P))
    (hl : c → d.lines = Spec.count (log.take P)) : DInv c log d P where
  le := by omega
  len := hP
  same := fun j h1 h2 => by
    have : j = P := by omega
    subst this; exact Same.refl _
  data := hd
  begins := hb
  lines := hl

/-- A region between two entries, the next of which is `e`. -/
structure Loc (c : Prop) (log : List Entry) (n : Nat) (e : Entry) (d : Disk) (m : Mem) : Prop where
  disk : DInv c log d n
  mem : ∀ t, Rel c t (log.take n) (m.txns t)
  lines : m.lines = d.lines
  prep : ∀ t, d.prepared t = (isOpen t (log.take n) && Spec.prepared t (log.take n))
  at_ : log[n]? = some e
  follows : Follows (log.take n) e

theorem Loc.len {c : Prop} {log : List Entry} {n : Nat} {e : Entry} {d : Disk} {m : Mem}
    (h : Loc c log n e d m) : n + 1 ≤ log.length := (List.getElem?_eq_some_iff.1 h.at_).1

theorem Loc.absent {c : Prop} {log : List Entry} {n : Nat} {e : Entry} {d : Disk} {m : Mem}
    (h : Loc c log n e d m) {t : Nat} (ht : isOpen t (log.take n) = false) : m.txns t = none :=
  (h.mem t).1 ht

/-- The memory after the entry. -/
theorem Loc.mem_after {c : Prop} {log : List Entry} {n : Nat} {e : Entry} {d : Disk} {m : Mem}
    (h : Loc c log n e d m) (t : Nat) :
    Rel c t (log.take (n + 1)) ((applyE true (n + 1) e m).2.txns t) := by
  rw [take_snoc h.at_]
  by_cases ho : Spec.of e = some t
  · have hm := h.mem t
    have hf := h.follows
    cases e with
    | write os r => simp [Spec.of] at ho
    | other => simp [Spec.of] at ho
    | onePc u => exact hf.elim
    | stmt u s os r =>
      simp only [Spec.of, Option.some.injEq] at ho; subst ho
      exact rel_stmt hm hf (fun _ => Or.inl rfl)
    | prepare u =>
      simp only [Spec.of, Option.some.injEq] at ho; subst ho
      exact rel_prepare hm hf
    | commit u =>
      simp only [Spec.of, Option.some.injEq] at ho; subst ho
      obtain ⟨x, hx, _⟩ := hm.2 hf.1
      have hop : isOpen u (log.take n ++ [Entry.commit u]) = false := by
        simp [isOpen, ended_snoc, Spec.ends]
      refine ⟨fun _ => ?_, fun k => by simp [hop] at k⟩
      simp only [applyE, hx]
      split <;> simp [upd]
    | rollback u =>
      simp only [Spec.of, Option.some.injEq] at ho; subst ho
      obtain ⟨x, hx, _⟩ := hm.2 hf
      have hop : isOpen u (log.take n ++ [Entry.rollback u]) = false := by
        simp [isOpen, ended_snoc, Spec.ends]
      refine ⟨fun _ => ?_, fun k => by simp [hop] at k⟩
      simp [applyE, hx, upd]
  · rw [applyE_ne ho]
    exact (h.mem t).ne ho

theorem prep_ne {c : Prop} {log : List Entry} {n : Nat} {e : Entry} {d : Disk} {m : Mem}
    (h : Loc c log n e d m) {t : Nat} (ho : Spec.of e ≠ some t) :
    d.prepared t = (isOpen t (log.take (n + 1)) && Spec.prepared t (log.take (n + 1))) := by
  rw [h.prep, take_snoc h.at_, isOpen_snoc_ne ho, prepared_snoc, prepared_one_ne ho]
  simp

theorem start_end {t : Nat} {l : List Entry} {e : Entry} (h : Spec.ends t e = true) :
    start t (l ++ [e]) = Option.none := by
  simp [start, ended_snoc, h]

theorem open_end {t : Nat} {l : List Entry} {e : Entry} (h : Spec.ends t e = true) :
    isOpen t (l ++ [e]) = false := by
  simp [isOpen, ended_snoc, h]

/-- The disk after the entry. -/
theorem Loc.disk_after {c : Prop} {log : List Entry} {n : Nat} {e : Entry} {d : Disk} {m : Mem}
    (h : Loc c log n e d m) :
    DInv c log (run (applyE true (n + 1) e m).1 d) (n + 1) ∧
    (applyE true (n + 1) e m).2.lines = (run (applyE true (n + 1) e m).1 d).lines ∧
    (∀ t, (run (applyE true (n + 1) e m).1 d).prepared t
      = (isOpen t (log.take (n + 1)) && Spec.prepared t (log.take (n + 1)))) := by
  have hf := h.follows
  have hlen := h.len
  have hts := take_snoc h.at_
  have htl := take_len h.at_
  cases e with
  | onePc u => exact hf.elim
  | write os r =>
    refine ⟨DInv.new rfl hlen ?_ ?_ ?_, rfl, ?_⟩
    · rw [hts, data_snoc]
      show runOps os d.data = _
      rw [runOps_eq, h.disk.data]; rfl
    · intro t
      rw [hts, start_snoc_ne (by simp [Spec.of])]
      exact h.disk.begins t
    · intro hc
      rw [hts, count_snoc, ← h.disk.lines hc, ← h.lines]; rfl
    · intro t
      exact prep_ne h (by simp [Spec.of])
  | other =>
    refine ⟨DInv.new rfl hlen ?_ ?_ ?_, h.lines, ?_⟩
    · rw [hts, data_snoc]; exact h.disk.data
    · intro t
      rw [hts, start_snoc_ne (by simp [Spec.of])]
      exact h.disk.begins t
    · intro hc
      rw [hts, count_snoc]
      simpa [Spec.gain, applyE, run, wIndex] using h.disk.lines hc
    · intro t
      exact prep_ne h (by simp [Spec.of])
  | stmt u s os r =>
    obtain ⟨f1, f2, f3⟩ := hf
    have hprep : ∀ t, d.prepared t
        = (isOpen t (log.take (n + 1)) && Spec.prepared t (log.take (n + 1))) := by
      intro t
      by_cases ho : u = t
      · subst ho
        rw [h.prep, hts, prepared_snoc, f2]; simp
      · exact prep_ne h (by simpa [Spec.of] using ho)
    cases ho : isOpen u (log.take n) with
    | true =>
      obtain ⟨x, hx, _⟩ := (h.mem u).2 ho
      have hw : (applyE true (n + 1) (Entry.stmt u s os r) m).1 = [] := by
        simp [applyE, beginWrite, hx]
      rw [hw]
      refine ⟨h.disk.extend ?_ hlen, h.lines, hprep⟩
      rw [hts]; exact same_stmt (seen_of_open ho)
    | false =>
      have hx := h.absent ho
      have hseen : seen u (log.take n) = false := by simpa [isOpen, f1] using ho
      have hw : (applyE true (n + 1) (Entry.stmt u s os r) m).1 = [wBegin u (n + 1)] := by
        simp [applyE, beginWrite, hx]
      rw [hw]
      refine ⟨DInv.new rfl hlen ?_ ?_ ?_, h.lines, hprep⟩
      · rw [hts, data_snoc]; exact h.disk.data
      · intro t
        show upd d.begins u (some (n + 1)) t = _
        by_cases hu : t = u
        · subst hu
          rw [hts]
          have h1 : first t (log.take n) = Option.none := (first_none _ _).2 hseen
          unfold start
          rw [ended_snoc, first_snoc, f1, h1, htl]
          simp [upd, Spec.ends, Spec.of]
        · have hne : Spec.of (Entry.stmt u s os r) ≠ some t := by
            simp only [Spec.of, ne_eq, Option.some.injEq]; exact fun k => hu k.symm
          rw [hts, start_snoc_ne hne]
          simp only [upd, if_neg hu]
          exact h.disk.begins t
      · intro hc
        rw [hts, count_snoc]
        simpa [Spec.gain, run, wBegin] using h.disk.lines hc
  | prepare u =>
    obtain ⟨f1, f2⟩ := hf
    obtain ⟨x, hx, _, _, hxp, _⟩ := (h.mem u).2 f1
    have hw : (applyE true (n + 1) (Entry.prepare u) m).1 = [wPrepare u] := by
      have hxp' : x.prepared = false := by rw [hxp, f2]
      simp [applyE, beginWrite, hx, getTxn, hxp']
    rw [hw]
    have hd : DInv c log d (n + 1) := h.disk.extend (by
      rw [hts]; exact same_prepare (seen_of_open f1)) hlen
    refine ⟨⟨hd.le, hd.len, hd.same, hd.data, hd.begins, hd.lines⟩, h.lines, ?_⟩
    intro t
    show upd d.prepared u true t = _
    by_cases hu : t = u
    · subst hu
      rw [hts, prepared_snoc]
      simp [upd, isOpen, seen_snoc, ended_snoc, not_ended_of_open f1, Spec.of, Spec.ends]
    · simp only [upd, if_neg hu]
      exact prep_ne h (by simp only [Spec.of, ne_eq, Option.some.injEq]; exact fun k => hu k.symm)
  | commit u =>
    obtain ⟨f1, f2⟩ := hf
    obtain ⟨x, hx, hxo, _, hxp, hxr⟩ := (h.mem u).2 f1
    have hxp' : x.prepared = true := by rw [hxp, f2]
    have hw : applyE true (n + 1) (Entry.commit u) m =
        ([wPre u (m.lines + x.rows) (n + 1), wData u x.ops, wAfter u (m.lines + x.rows) (n + 1)],
          { m with
            lines := m.lines + x.rows
            txns := upd m.txns u none }) := by
      simp [applyE, hx, hxp']
    rw [hw]
    refine ⟨DInv.new rfl hlen ?_ ?_ ?_, rfl, ?_⟩
    · rw [hts, data_snoc]
      show runOps x.ops d.data = _
      rw [runOps_eq, h.disk.data, hxo]; rfl
    · intro t
      show upd d.begins u Option.none t = _
      by_cases hu : t = u
      · subst hu
        rw [hts, start_end (by simp [Spec.ends])]
        simp [upd]
      · have hne : Spec.of (Entry.commit u) ≠ some t := by
          simp only [Spec.of, ne_eq, Option.some.injEq]; exact fun k => hu k.symm
        rw [hts, start_snoc_ne hne]
        simp only [upd, if_neg hu]
        exact h.disk.begins t
    · intro hc
      rw [hts, count_snoc, ← h.disk.lines hc, ← h.lines]
      show m.lines + x.rows = _
      rw [hxr hc]; rfl
    · intro t
      show upd d.prepared u false t = _
      by_cases hu : t = u
      · subst hu
        rw [hts, open_end (by simp [Spec.ends])]
        simp [upd]
      · simp only [upd, if_neg hu]
        exact prep_ne h (by simp only [Spec.of, ne_eq, Option.some.injEq]; exact fun k => hu k.symm)
  | rollback u =>
    obtain ⟨x, hx, _, _, hxp, _⟩ := (h.mem u).2 hf
    have hw : applyE true (n + 1) (Entry.rollback u) m =
        ([wPre u m.lines (n + 1)] ++ (if x.prepared then [wUnprepare u] else [])
            ++ [wAfter u m.lines (n + 1)], { m with txns := upd m.txns u none }) := by
      simp [applyE, hx]
    rw [hw]
    have hrun : ∀ t, (run ([wPre u m.lines (n + 1)] ++ (if x.prepared then [wUnprepare u] else [])
            ++ [wAfter u m.lines (n + 1)]) d).prepared t = upd d.prepared u false t := by
      intro t
      cases hp : x.prepared with
      | true => simp [run, wPre, wUnprepare, wAfter]
      | false =>
        have : d.prepared u = false := by rw [h.prep, ← hxp, hp]; simp
        simp only [run, wPre, wAfter, Bool.false_eq_true, if_false, List.append_nil,
          List.foldl_cons, List.foldl_nil, List.singleton_append, upd]
        split
        · rename_i k; rw [k, this]
        · rfl
    have hrest : ∀ b : Bool, (run ([wPre u m.lines (n + 1)] ++ (if b then [wUnprepare u] else [])
            ++ [wAfter u m.lines (n + 1)]) d).applied = n + 1 ∧
        (run ([wPre u m.lines (n + 1)] ++ (if b then [wUnprepare u] else [])
            ++ [wAfter u m.lines (n + 1)]) d).data = d.data ∧
        (run ([wPre u m.lines (n + 1)] ++ (if b then [wUnprepare u] else [])
            ++ [wAfter u m.lines (n + 1)]) d).lines = m.lines ∧
        (run ([wPre u m.lines (n + 1)] ++ (if b then [wUnprepare u] else [])
            ++ [wAfter u m.lines (n + 1)]) d).begins = upd d.begins u Option.none := by
      intro b
      cases b <;> exact ⟨rfl, rfl, rfl, rfl⟩
    obtain ⟨r1, r2, r3, r4⟩ := hrest x.prepared
    refine ⟨DInv.new r1 hlen ?_ ?_ ?_, r3.symm, ?_⟩
    · rw [hts, data_snoc, r2]; exact h.disk.data
    · intro t
      rw [r4]
      by_cases hu : t = u
      · subst hu
        rw [hts, start_end (by simp [Spec.ends])]
        simp [upd]
      · have hne : Spec.of (Entry.rollback u) ≠ some t := by
          simp only [Spec.of, ne_eq, Option.some.injEq]; exact fun k => hu k.symm
        rw [hts, start_snoc_ne hne]
        simp only [upd, if_neg hu]
        exact h.disk.begins t
    · intro hc
      rw [hts, count_snoc, r3, h.lines]
      simpa [Spec.gain] using h.disk.lines hc
    · intro t
      rw [hrun t]
      by_cases hu : t = u
      · subst hu
        rw [hts, open_end (by simp [Spec.ends])]
        simp [upd]
      · simp only [upd, if_neg hu]
        exact prep_ne h (by simp only [Spec.of, ne_eq, Option.some.injEq]; exact fun k => hu k.symm)

/-- No transaction on disk is marked as about to end without being prepared. -/
def NoPend (d : Disk) : Prop :=
  ∀ t b x, d.begins t = some b → d.pre t = some x → d.prepared t = true

/-- The disk of a region that died between the end of a transaction and recording it. -/
structure Window (c : Prop) (log : List Entry) (d : Disk) (t : Nat) (l : Int) (i : Nat) : Prop where
  entry : entryAt log i = some (.commit t) ∨ entryAt log i = some (.rollback t)
  pre : d.pre t = some (l, i)
  prep : d.prepared t = false
  beg : (d.begins t).isSome = true
  le : d.applied ≤ i
  done : DInv c log (wAfter t l i d) i
  rest : ∀ u b x, u ≠ t → d.begins u = some b → d.pre u = some x → d.prepared u = true

theorem NoPend.of {d d' : Disk} (hp : ∀ t x, d'.pre t = some x → d.pre t = some x)
    (hs : ∀ t, d.pre t ≠ none → d.prepared t = true ∨ d'.prepared t = true)
    (hq : ∀ t b x, d'.begins t = some b → d'.pre t = some x → d.prepared t = true →
      d'.prepared t = true) :
    NoPend d' := by
  intro t b x h1 h2
  rcases hs t (by rw [hp t x h2]; simp) with h | h
  · exact hq t b x h1 h2 h
  · exact h

/-- Dying after `k` of the writes of an entry. -/
theorem Loc.torn {c : Prop} {log : List Entry} {n : Nat} {e : Entry} {d : Disk} {m : Mem}
    (h : Loc c log n e d m) (k : Nat)
    (hs : ∀ t, d.pre t ≠ none →
      d.prepared t = true ∨ (run ((applyE true (n + 1) e m).1.take k) d).prepared t = true) :
    ∃ P, n ≤ P ∧
      ((DInv c log (run ((applyE true (n + 1) e m).1.take k) d) P ∧
        NoPend (run ((applyE true (n + 1) e m).1.take k) d)) ∨
      ∃ t l, Window c log (run ((applyE true (n + 1) e m).1.take k) d) t l P) := by
  have hf := h.follows
  have hlen := h.len
  have hts := take_snoc h.at_
  have hfull := h.disk_after
  have hzero : k = 0 → ∃ P, n ≤ P ∧
      ((DInv c log (run ((applyE true (n + 1) e m).1.take k) d) P ∧
        NoPend (run ((applyE true (n + 1) e m).1.take k) d)) ∨
      ∃ t l, Window c log (run ((applyE true (n + 1) e m).1.take k) d) t l P) := by
    intro hk
    subst hk
    refine ⟨n, Nat.le_refl _, Or.inl ⟨h.disk, ?_⟩⟩
    exact NoPend.of (d := d) (fun _ _ k => k) hs (fun _ _ _ _ _ k => k)
  rcases Nat.eq_zero_or_pos k with hk | hk
  · exact hzero hk
  cases e with
  | onePc u => exact hf.elim
  | write os r =>
    have ht : (applyE true (n + 1) (Entry.write os r) m).1.take k
        = (applyE true (n + 1) (Entry.write os r) m).1 := List.take_of_length_le (by
      show 1 ≤ k; omega)
    rw [ht] at hs ⊢
    exact ⟨n + 1, by omega, Or.inl ⟨hfull.1,
      NoPend.of (d := d) (fun _ _ k => k) hs (fun _ _ _ _ _ k => k)⟩⟩
  | other =>
    have ht : (applyE true (n + 1) Entry.other m).1.take k
        = (applyE true (n + 1) Entry.other m).1 := List.take_of_length_le (by
      show 1 ≤ k; omega)
    rw [ht] at hs ⊢
    exact ⟨n + 1, by omega, Or.inl ⟨hfull.1,
      NoPend.of (d := d) (fun _ _ k => k) hs (fun _ _ _ _ _ k => k)⟩⟩
  | stmt u s os r =>
    have ht : (applyE true (n + 1) (Entry.stmt u s os r) m).1.take k
        = (applyE true (n + 1) (Entry.stmt u s os r) m).1 := List.take_of_length_le (by
      show (beginWrite m u (n + 1)).length ≤ k
      unfold beginWrite
      split
      · show 1 ≤ k; omega
      · simp)
    rw [ht] at hs ⊢
    refine ⟨n + 1, by omega, Or.inl ⟨hfull.1, ?_⟩⟩
    have hsame : (run (applyE true (n + 1) (Entry.stmt u s os r) m).1 d).pre = d.pre ∧
        (run (applyE true (n + 1) (Entry.stmt u s os r) m).1 d).prepared = d.prepared := by
      show (run (beginWrite m u (n + 1)) d).pre = _ ∧ (run (beginWrite m u (n + 1)) d).prepared = _
      unfold beginWrite
      split <;> exact ⟨rfl, rfl⟩
    exact NoPend.of (d := d) (fun t x k => by rwa [hsame.1] at k) hs (fun t b x _ _ k => by rwa [hsame.2])
  | prepare u =>
    obtain ⟨f1, f2⟩ := hf
    obtain ⟨x, hx, _, _, hxp, _⟩ := (h.mem u).2 f1
    have hw : (applyE true (n + 1) (Entry.prepare u) m).1 = [wPrepare u] := by
      have hxp' : x.prepared = false := by rw [hxp, f2]
      simp [applyE, beginWrite, hx, getTxn, hxp']
    rw [hw] at hs hfull ⊢
    have ht : [wPrepare u].take k = [wPrepare u] := List.take_of_length_le (by show 1 ≤ k; omega)
    rw [ht] at hs ⊢
    refine ⟨n + 1, by omega, Or.inl ⟨hfull.1, ?_⟩⟩
    refine NoPend.of (d := d) (fun t x k => k) hs (fun t b x _ _ k => ?_)
    show upd d.prepared u true t = true
    unfold upd
    split
    · rfl
    · exact k
  | commit u =>
    obtain ⟨f1, f2⟩ := hf
    obtain ⟨x, hx, hxo, _, hxp, hxr⟩ := (h.mem u).2 f1
    have hxp' : x.prepared = true := by rw [hxp, f2]
    have hw : (applyE true (n + 1) (Entry.commit u) m).1 =
        [wPre u (m.lines + x.rows) (n + 1), wData u x.ops,
          wAfter u (m.lines + x.rows) (n + 1)] := by
      simp [applyE, hx, hxp']
    rw [hw] at hs hfull ⊢
    have hdp : d.prepared u = true := by rw [h.prep, f1, f2]; rfl
    have hbeg : (d.begins u).isSome = true := by
      rw [h.disk.begins, start_isSome, f1]
    rcases (by omega : k = 1 ∨ k = 2 ∨ 3 ≤ k) with hk1 | hk2 | hk3
    · subst hk1
      refine ⟨n, Nat.le_refl _, Or.inl ⟨?_, ?_⟩⟩
      · exact ⟨h.disk.le, h.disk.len, h.disk.same, h.disk.data, h.disk.begins, h.disk.lines⟩
      · intro t b y h1 h2
        show d.prepared t = true
        by_cases htu : t = u
        · rw [htu]; exact hdp
        · have h2' : d.pre t = some y := by
            have : (run (List.take 1 [wPre u (m.lines + x.rows) (n + 1), wData u x.ops,
              wAfter u (m.lines + x.rows) (n + 1)]) d).pre t = d.pre t := by
              show upd d.pre u _ t = _
              simp [upd, htu]
            rwa [this] at h2
          rcases hs t (by rw [h2']; simp) with k | k
          · exact k
          · exact k
    · subst hk2
      refine ⟨n + 1, by omega, Or.inr ⟨u, m.lines + x.rows, ?_⟩⟩
      refine ⟨Or.inl ?_, ?_, ?_, hbeg, ?_, ?_, ?_⟩
      · simp [entryAt, h.at_]
      · show upd d.pre u _ u = _
        simp [upd]
      · show upd d.prepared u false u = false
        simp [upd]
      · exact Nat.le_succ_of_le h.disk.le
      · exact hfull.1
      · intro t b y htu h1 h2
        show upd d.prepared u false t = true
        have h2' : d.pre t = some y := by
          have : (run (List.take 2 [wPre u (m.lines + x.rows) (n + 1), wData u x.ops,
            wAfter u (m.lines + x.rows) (n + 1)]) d).pre t = d.pre t := by
            show upd d.pre u _ t = _
            simp [upd, htu]
          rwa [this] at h2
        simp only [upd, if_neg htu]
        rcases hs t (by rw [h2']; simp) with k | k
        · exact k
        · have k' : upd d.prepared u false t = true := k
          simpa [upd, htu] using k'
    · rw [List.take_of_length_le (by show 3 ≤ k; omega)] at hs ⊢
      refine ⟨n + 1, by omega, Or.inl ⟨hfull.1, ?_⟩⟩
      intro t b y h1 h2
      have h1' : upd d.begins u Option.none t = some b := h1
      have htu : t ≠ u := fun k => by subst k; simp [upd] at h1'
      have h2' : d.pre t = some y := by
        have : (upd (upd d.pre u (some (m.lines + x.rows, n + 1))) u Option.none) t = some y := h2
        simpa [upd, htu] using this
      show upd d.prepared u false t = true
      simp only [upd, if_neg htu]
      rcases hs t (by rw [h2']; simp) with k | k
      · exact k
      · have k' : upd d.prepared u false t = true := k
        simpa [upd, htu] using k'
  | rollback u =>
    obtain ⟨x, hx, _, _, hxp, _⟩ := (h.mem u).2 hf
    have hbeg : (d.begins u).isSome = true := by
      rw [h.disk.begins, start_isSome, hf]
    have hdp : d.prepared u = x.prepared := by rw [h.prep, hf, hxp]; rfl
    have hw : (applyE true (n + 1) (Entry.rollback u) m).1 =
        [wPre u m.lines (n + 1)] ++ (if x.prepared then [wUnprepare u] else [])
            ++ [wAfter u m.lines (n + 1)] := by
      simp [applyE, hx]
    rw [hw] at hs hfull ⊢
    cases hp : x.prepared with
    | true =>
      rw [hp] at hs hfull hdp
      simp only [if_true, List.cons_append, List.nil_append] at hs hfull ⊢
      rcases (by omega : k = 1 ∨ k = 2 ∨ 3 ≤ k) with hk1 | hk2 | hk3
      · subst hk1
        refine ⟨n, Nat.le_refl _, Or.inl ⟨?_, ?_⟩⟩
        · exact ⟨h.disk.le, h.disk.len, h.disk.same, h.disk.data, h.disk.begins, h.disk.lines⟩
        · intro t b y h1 h2
          show d.prepared t = true
          by_cases htu : t = u
          · rw [htu]; exact hdp
          · have h2' : d.pre t = some y := by
              have h3 : upd d.pre u (some (m.lines, n + 1)) t = some y := h2
              simpa [upd, htu] using h3
            rcases hs t (by rw [h2']; simp) with k | k
            · exact k
            · exact k
      · subst hk2
        refine ⟨n + 1, by omega, Or.inr ⟨u, m.lines, ?_⟩⟩
        refine ⟨Or.inr ?_, ?_, ?_, hbeg, ?_, ?_, ?_⟩
        · simp [entryAt, h.at_]
        · show upd d.pre u _ u = _
          simp [upd]
        · show upd d.prepared u false u = false
          simp [upd]
        · exact Nat.le_succ_of_le h.disk.le
        · exact hfull.1
        · intro t b y htu h1 h2
          show upd d.prepared u false t = true
          have h2' : d.pre t = some y := by
            have h3 : upd d.pre u (some (m.lines, n + 1)) t = some y := h2
            simpa [upd, htu] using h3
          simp only [upd, if_neg htu]
          rcases hs t (by rw [h2']; simp) with k | k
          · exact k
          · have k' : upd d.prepared u false t = true := k
            simpa [upd, htu] using k'
      · rw [List.take_of_length_le (by show 3 ≤ k; omega)] at hs ⊢
        refine ⟨n + 1, by omega, Or.inl ⟨hfull.1, ?_⟩⟩
        intro t b y h1 h2
        have h1' : upd d.begins u Option.none t = some b := h1
        have htu : t ≠ u := fun k => by subst k; simp [upd] at h1'
        have h2' : d.pre t = some y := by
          have : (upd (upd d.pre u (some (m.lines, n + 1))) u Option.none) t = some y := h2
          simpa [upd, htu] using this
        show upd d.prepared u false t = true
        simp only [upd, if_neg htu]
        rcases hs t (by rw [h2']; simp) with k | k
        · exact k
        · have k' : upd d.prepared u false t = true := k
          simpa [upd, htu] using k'
    | false =>
      rw [hp] at hs hfull hdp
      simp only [Bool.false_eq_true, if_false, List.append_nil, List.singleton_append] at hs hfull ⊢
      rcases (by omega : k = 1 ∨ 2 ≤ k) with hk1 | hk2
      · subst hk1
        refine ⟨n + 1, by omega, Or.inr ⟨u, m.lines, ?_⟩⟩
        refine ⟨Or.inr ?_, ?_, ?_, hbeg, ?_, ?_, ?_⟩
        · simp [entryAt, h.at_]
        · show upd d.pre u _ u = _
          simp [upd]
        · exact hdp
        · exact Nat.le_succ_of_le h.disk.le
        · exact hfull.1
        · intro t b y htu h1 h2
          show d.prepared t = true
          have h2' : d.pre t = some y := by
            have h3 : upd d.pre u (some (m.lines, n + 1)) t = some y := h2
            simpa [upd, htu] using h3
          rcases hs t (by rw [h2']; simp) with k | k
          · exact k
          · exact k
      · rw [List.take_of_length_le (by show 2 ≤ k; omega)] at hs ⊢
        refine ⟨n + 1, by omega, Or.inl ⟨hfull.1, ?_⟩⟩
        intro t b y h1 h2
        have h1' : upd d.begins u Option.none t = some b := h1
        have htu : t ≠ u := fun k => by subst k; simp [upd] at h1'
        have h2' : d.pre t = some y := by
          have : (upd (upd d.pre u (some (m.lines, n + 1))) u Option.none) t = some y := h2
          simpa [upd, htu] using this
        show d.prepared t = true
        rcases hs t (by rw [h2']; simp) with k | k
        · exact k
        · exact k

end BaikalDB.Recover
