import Verif.Handover.Send

/-!
# C68: a split hands every write over to the new region
-/

namespace BaikalDB.Handover

open Spec

/-- When the switch is accepted, the new region has been sent every entry of the log between the
snapshot and the switch, once and in order, whatever the passes and their times were, and all of
them are of the term of the split. -/
theorem C68_sends_every_entry {term : Nat} {log : List LogEntry} {a : Nat} {ns : List Nat}
    {ms : List (Nat × Nat)} {es : List Entry} {e at_ tm : Nat}
    (h : sent term log a ns ms = some (es, e)) (hacc : accepts term e tm at_ = true) :
    tm = term ∧ a + 1 ≤ at_ ∧
      es = (((log.take (at_ - 1)).drop a).map (·.entry)).filter (fun x => decide (x ≠ .conf)) ∧
      ∀ x ∈ (log.take (at_ - 1)).drop a, x.term = term ∧ x.entry ≠ .admin := by
  simp only [accepts, Bool.and_eq_true, decide_eq_true_eq] at hacc
  obtain ⟨rfl, rfl⟩ := hacc
  obtain ⟨h1, h2, h3⟩ := sent_some h
  refine ⟨rfl, by omega, ?_, ?_⟩
  · rw [h2, seg, Nat.add_sub_cancel, List.drop_take]
  · intro x hx
    rw [Nat.add_sub_cancel, List.drop_take] at hx
    exact h3 x hx

theorem has_iff {lo : Nat} {hi : Option Nat} {p : Nat} :
    (Range.mk (some lo) hi).has p = true ↔ Within lo hi p := by
  cases hi <;> simp [Range.has, Within]

/-- What the new region is after the switch. -/
theorem split_new {old o n : Region} {log : List LogEntry} {splitKey a : Nat}
    {pend : Nat → List (Nat × Cmd)} {ids ns : List Nat} {ms : List (Nat × Nat)} {term at_ : Nat}
    (h : split old log splitKey a pend ids ns ms term at_ = some (o, n))
    (hold : ∀ t, old.txns t = none) (hver : old.version ≠ 0)
    (hv : Valid ((log.take (at_ - 1)).map (·.entry)))
    (hnd : ids.Nodup)
    (hids : ∀ t, isOpen t ((log.take a).map (·.entry)) = true → t ∈ ids)
    (hp : ∀ t, ∀ c ∈ pend t, (if isOpen t ((log.take a).map (·.entry)) then
      lastSeq t ((log.take a).map (·.entry)) else 0) < c.1) :
    ∃ A B, (log.take (at_ - 1)).map (·.entry) = A ++ B ∧ A = (log.take a).map (·.entry) ∧
      Match ((A ++ B).map (part (fits (newRange old splitKey)))) n ∧
      n.data = dataFrom (A.map (part (fits (newRange old splitKey))))
        (copy (newRange old splitKey) (Spec.data old.data A))
        (B.map (part (fits (newRange old splitKey)))) ∧
      n.version = 1 ∧
      Match (A ++ B) o ∧ o.data = Spec.data old.data (A ++ B) ∧ o.version ≠ 0 := by
  unfold split at h
  cases hs : sent term log a ns ms with
  | none => simp [hs] at h
  | some q =>
    obtain ⟨es, e⟩ := q
    simp only [hs] at h
    cases hx : log[at_ - 1]? with
    | none => simp [hx] at h
    | some x =>
      simp only [hx] at h
      split at h
      · rename_i hacc
        obtain ⟨-, hle, hes, -⟩ := C68_sends_every_entry hs hacc
        simp only [Option.some.injEq, Prod.mk.injEq] at h
        obtain ⟨ho, hn⟩ := h
        set A := (log.take a).map (·.entry) with hA
        set B := ((log.take (at_ - 1)).drop a).map (·.entry) with hB
        have hAB : (log.take (at_ - 1)).map (·.entry) = A ++ B := by
          rw [hA, hB, ← List.map_append]
          congr 1
          have : log.take a = (log.take (at_ - 1)).take a := by
            rw [List.take_take, Nat.min_eq_left (by omega)]
          rw [this, List.take_append_drop]
        rw [hAB] at hv ho
        obtain ⟨hvA, hvB⟩ := (validFrom_append [] A B).1 hv
        rw [List.nil_append] at hvB
        have hm0 : Match [] old := match_empty hold
        obtain ⟨m1, m2, m3, -⟩ := applyAll_serving hm0 hver A hvA
        have hc : Cached ([] ++ A) (old.applyAll A) :=
          cached_all hm0 (fun t x hx => by simp [hold t] at hx) hver A hvA
        rw [List.nil_append] at m1 hc
        obtain ⟨r1, r2, r3, r4⟩ :=
          replay_match hvA m1 hc hnd hids hp (newRange old splitKey)
        have hsh := shares_any (fits (newRange old splitKey)) A
        have hvB' := shares_valid hsh (shares_refl B) hvB
        obtain ⟨s1, s2, -, -⟩ := applyAll_step r1 B hvB'
        obtain ⟨t1, t2, t3, -⟩ := applyAll_serving hm0 hver (A ++ B) hv
        have heff : ((fresh (newRange old splitKey) (old.applyAll A)).applyAll
            (replay (old.applyAll A) pend ids)).eff = part (fits (newRange old splitKey)) := by
          funext e; simp [Region.eff, r3, r4]
        rw [heff] at s1 s2
        rw [hes, applyAll_append, applyAll_conf] at hn
        refine ⟨A, B, hAB, rfl, ?_, ?_, ?_, ?_, ?_, ?_⟩
        · rw [← hn, List.map_append]; exact s1
        · rw [← hn]
          show (Region.applyAll _ B).data = _
          rw [s2, r2, m2]
          rfl
        · rw [← hn]; rfl
        · rw [← ho]; exact t1
        · rw [← ho]; exact t2
        · rw [← ho]; exact Nat.succ_ne_zero _
      · simp at h

theorem fits_row {lo : Nat} {hi : Option Nat} {o : Op} (h : isRowOf (Within lo hi) (about o)) :
    fits ⟨some lo, hi⟩ o = true := by
  cases o with
  | put k v => cases k <;> simp_all [about, isRowOf, fits, has_iff]
  | del k => cases k <;> simp_all [about, isRowOf, fits, has_iff]

theorem fits_not_row {lo : Nat} {hi : Option Nat} {o : Op} {P : Nat → Prop}
    (h : isRowOf P (about o)) (hP : ∀ p, P p → ¬ Within lo hi p) :
    fits ⟨some lo, hi⟩ o = false := by
  have hf : ∀ p, P p → Range.has ⟨some lo, hi⟩ p = false := by
    intro p hp
    cases hh : Range.has ⟨some lo, hi⟩ p with
    | false => rfl
    | true => exact absurd (has_iff.1 hh) (hP p hp)
  cases o with
  | put k v => cases k <;> simp_all [about, isRowOf, fits]
  | del k => cases k <;> simp_all [about, isRowOf, fits]

theorem copy_row {lo : Nat} {hi : Option Nat} {k : Key} (h : isRowOf (Within lo hi) k) (d : Data) :
    copy ⟨some lo, hi⟩ d k = d k := by
  cases k <;> simp_all [isRowOf, copy, has_iff]

theorem copy_not_row {lo : Nat} {hi : Option Nat} {k : Key}
    (h : isRowOf (fun p => ¬ Within lo hi p) k) (d : Data) : copy ⟨some lo, hi⟩ d k = none := by
  cases k <;> simp_all [isRowOf, copy, has_iff]

theorem batch_part (s : Op → Bool) (e : Entry) : batch (part s e) = (batch e).filter s := by
  cases e <;> rfl

theorem data_append (d : Data) (A B : List Entry) :
    Spec.data d (A ++ B) = dataFrom A (Spec.data d A) B := by
  rw [Spec.data, dataFrom_append]; rfl

section
variable {old o n : Region} {log : List LogEntry} {splitKey a : Nat}
    {pend : Nat → List (Nat × Cmd)} {ids ns : List Nat} {ms : List (Nat × Nat)} {term at_ : Nat}

/-- **Rows.** When the split has been carried out, the new region contains exactly the rows and
entries of KEY indexes behind the split key that the whole log before the switch leaves: those of
the snapshot with every later write. The old region contains what the log leaves. -/
theorem C68_rows
    (h : split old log splitKey a pend ids ns ms term at_ = some (o, n))
    (hold : ∀ t, old.txns t = none) (hver : old.version ≠ 0)
    (hv : Valid ((log.take (at_ - 1)).map (·.entry)))
    (hnd : ids.Nodup)
    (hids : ∀ t, isOpen t ((log.take a).map (·.entry)) = true → t ∈ ids)
    (hp : ∀ t, ∀ c ∈ pend t, (if isOpen t ((log.take a).map (·.entry)) then
      lastSeq t ((log.take a).map (·.entry)) else 0) < c.1) (k : Key) :
    (isRowOf (Within splitKey old.range.stop) k →
      n.data k = Spec.data old.data ((log.take (at_ - 1)).map (·.entry)) k) ∧
    (isRowOf (fun p => ¬ Within splitKey old.range.stop p) k → n.data k = none) ∧
    o.data k = Spec.data old.data ((log.take (at_ - 1)).map (·.entry)) k := by
  obtain ⟨A, B, hAB, -, -, hd, -, -, ho, -⟩ := split_new h hold hver hv hnd hids hp
  rw [hAB] at hv ⊢
  obtain ⟨-, hvB⟩ := (validFrom_append [] A B).1 hv
  rw [List.nil_append] at hvB
  refine ⟨fun hk => ?_, fun hk => ?_, by rw [ho]⟩
  · rw [hd, data_append]
    have hsA := shares_part (K := isRowOf (Within splitKey old.range.stop))
      (s := fits (newRange old splitKey)) (fun o ho => fits_row ho) A
    exact (dataFrom_same (fun t => shares_ended hsA t) (fun t _ => shares_ops hsA t)
      (shares_part (fun o ho => fits_row ho) B) hvB
      (fun x hx => (copy_row hx _).symm) k hk).symm
  · rw [hd, dataFrom_untouched]
    · exact copy_not_row hk _
    · intro e he o ho heq
      rw [← List.map_append, List.mem_map] at he
      obtain ⟨e', -, rfl⟩ := he
      rw [batch_part, List.mem_filter] at ho
      subst heq
      have := fits_not_row (lo := splitKey) (hi := old.range.stop) hk (fun _ hq => hq)
      have h2 : fits ⟨some splitKey, old.range.stop⟩ o = true := ho.2
      rw [this] at h2
      cases h2

theorem part_nil (s : Op → Bool) (t : Nat) (l : List Entry) :
    ops t (l.map (part s)) = (ops t l).filter s := by
  induction l with
  | nil => rfl
  | cons e l ih =>
    have h1 : ∀ x m, ops t (x :: m) = ops t [x] ++ ops t m := by simp [ops]
    rw [List.map_cons, h1, ih, h1 e, List.filter_append]
    congr 1
    cases e with
    | stmt u m os =>
      by_cases hu : u = t
      · simp [ops, part, hu]
      · simp [ops, part, hu]
    | _ => rfl

/-- **Transactions.** The new region has just the transactions that are open when the switch is
made, those of before the snapshot and those that began during the split; each has executed the same
commands, is prepared or not, and will write just what its statements wrote within the range. -/
theorem C68_open_transactions
    (h : split old log splitKey a pend ids ns ms term at_ = some (o, n))
    (hold : ∀ t, old.txns t = none) (hver : old.version ≠ 0)
    (hv : Valid ((log.take (at_ - 1)).map (·.entry)))
    (hnd : ids.Nodup)
    (hids : ∀ t, isOpen t ((log.take a).map (·.entry)) = true → t ∈ ids)
    (hp : ∀ t, ∀ c ∈ pend t, (if isOpen t ((log.take a).map (·.entry)) then
      lastSeq t ((log.take a).map (·.entry)) else 0) < c.1) (t : Nat) :
    (isOpen t ((log.take (at_ - 1)).map (·.entry)) = false → n.txns t = none) ∧
    (isOpen t ((log.take (at_ - 1)).map (·.entry)) = true → ∃ x, n.txns t = some x ∧
      x.seq = lastSeq t ((log.take (at_ - 1)).map (·.entry)) ∧
      x.prepared = prepared t ((log.take (at_ - 1)).map (·.entry)) ∧
      SameOn (isRowOf (Within splitKey old.range.stop))
        (ops t ((log.take (at_ - 1)).map (·.entry))) x.ops ∧
      ∀ w ∈ x.ops, w ∈ ops t ((log.take (at_ - 1)).map (·.entry)) ∧
        ¬ isRowOf (fun p => ¬ Within splitKey old.range.stop p) (about w)) := by
  obtain ⟨A, B, hAB, -, hm, -⟩ := split_new h hold hver hv hnd hids hp
  rw [hAB]
  have hsh := shares_any (fits (newRange old splitKey)) (A ++ B)
  refine ⟨fun ht => hm.isNone (by rw [← shares_isOpen hsh, ht]), fun ht => ?_⟩
  obtain ⟨x, hx, h1, h2, h3⟩ := hm.isSome (t := t) (by rw [← shares_isOpen hsh, ht])
  rw [part_nil] at h2
  refine ⟨x, hx, by rw [h1, shares_lastSeq hsh], by rw [h3, shares_prepared hsh], ?_, ?_⟩
  · rw [h2]
    exact sameOn_filter (fun o ho => fits_row ho) _
  · intro w hw
    rw [h2, List.mem_filter] at hw
    refine ⟨hw.1, fun hc => ?_⟩
    have := fits_not_row (lo := splitKey) (hi := old.range.stop) hc (fun _ hq => hq)
    have h4 : fits ⟨some splitKey, old.range.stop⟩ w = true := hw.2
    rw [this] at h4
    cases h4

/-! ## UNIQUE indexes -/

/-- Every entry of a UNIQUE index that points into the range is there. -/
def Keeps (g : Range) (d d' : Data) : Prop :=
  ∀ u v, d (.uniq u) = some v → g.has v = true → d' (.uniq u) = some v

theorem keeps_op {g : Range} {d d' : Data} (h : Keeps g d d') (o : Op) :
    Keeps g (Spec.op o d) (if fits g o then Spec.op o d' else d') := by
  intro u v hu hv
  cases o with
  | put k w =>
    by_cases hk : Key.uniq u = k
    · subst hk
      simp only [Spec.op, if_true, Option.some.injEq] at hu
      subst hu
      simp [fits, hv, Spec.op]
    · have : d (.uniq u) = some v := by simpa [Spec.op, hk] using hu
      have := h u v this hv
      split
      · simpa [Spec.op, hk] using this
      · exact this
  | del k =>
    by_cases hk : Key.uniq u = k
    · subst hk
      simp [Spec.op] at hu
    · have : d (.uniq u) = some v := by simpa [Spec.op, hk] using hu
      have := h u v this hv
      split
      · simpa [Spec.op, hk] using this
      · exact this

theorem keeps_ops {g : Range} {d d' : Data} (h : Keeps g d d') (os : List Op) :
    Keeps g (opsOn os d) (opsOn (os.filter (fits g)) d') := by
  induction os generalizing d d' with
  | nil => exact h
  | cons o os ih =>
    have := keeps_op h o
    by_cases hf : fits g o = true
    · rw [if_pos hf] at this
      rw [List.filter_cons_of_pos hf]
      exact ih this
    · rw [if_neg hf] at this
      rw [List.filter_cons_of_neg hf]
      exact ih this

theorem keeps_from {g : Range} {d d' : Data} (h : Keeps g d d') (p l : List Entry) :
    Keeps g (dataFrom p d l) (dataFrom (p.map (part (fits g))) d' (l.map (part (fits g)))) := by
  induction l generalizing p d d' with
  | nil => exact h
  | cons e l ih =>
    have hs : Keeps g (effect p e d)
        (effect (p.map (part (fits g))) (part (fits g) e) d') := by
      cases e with
      | write os => exact keeps_ops h os
      | commit t =>
        show Keeps g (opsOn (ops t p) d) (opsOn (ops t (p.map (part (fits g)))) d')
        rw [part_nil]
        exact keeps_ops h _
      | _ => exact h
    have := ih hs (p ++ [e])
    rw [List.map_append] at this
    exact this

/-- **UNIQUE indexes.** No entry of a UNIQUE index that belongs to a row of the new region is
missing there. -/
theorem C68_unique_entries_kept
    (h : split old log splitKey a pend ids ns ms term at_ = some (o, n))
    (hold : ∀ t, old.txns t = none) (hver : old.version ≠ 0)
    (hv : Valid ((log.take (at_ - 1)).map (·.entry)))
    (hnd : ids.Nodup)
    (hids : ∀ t, isOpen t ((log.take a).map (·.entry)) = true → t ∈ ids)
    (hp : ∀ t, ∀ c ∈ pend t, (if isOpen t ((log.take a).map (·.entry)) then
      lastSeq t ((log.take a).map (·.entry)) else 0) < c.1) {u v : Nat}
    (hu : Spec.data old.data ((log.take (at_ - 1)).map (·.entry)) (.uniq u) = some v)
    (hw : Within splitKey old.range.stop v) : n.data (.uniq u) = some v := by
  obtain ⟨A, B, hAB, -, -, hd, -⟩ := split_new h hold hver hv hnd hids hp
  rw [hAB, data_append] at hu
  have h0 : Keeps (newRange old splitKey) (Spec.data old.data A)
      (copy (newRange old splitKey) (Spec.data old.data A)) := by
    intro u v hu hv
    simp [copy, hu, hv]
  rw [hd]
  exact keeps_from h0 A B u v hu (has_iff.2 hw)

theorem dataFrom_idle {p l : List Entry} {k : Key}
    (hp : ∀ t, ended t p = false → ∀ o ∈ ops t p, about o ≠ k)
    (hl : ∀ e ∈ l, ∀ o ∈ batch e, about o ≠ k) (hv : ValidFrom p l) (d : Data) :
    dataFrom p d l k = d k := by
  induction l generalizing p d with
  | nil => rfl
  | cons e l ih =>
    show dataFrom (p ++ [e]) (effect p e d) l k = d k
    rw [ih (fun t ht o ho => ?_) (fun x hx => hl x (by simp [hx])) hv.2]
    · cases e with
      | write os => exact opsOn_untouched (hl (.write os) (by simp)) d
      | commit t => exact opsOn_untouched (hp t hv.1.1) d
      | _ => rfl
    · rw [ended_snoc, Bool.or_eq_false_iff] at ht
      rw [ops_snoc, List.mem_append] at ho
      rcases ho with ho | ho
      · exact hp t ht.1 o ho
      · obtain ⟨x, hx, hb⟩ := mem_ops ho
        rw [List.mem_singleton] at hx
        subst hx
        exact hl x (by simp) o hb

/-- **UNIQUE indexes.** An entry that no transaction open at the snapshot and no later entry
touches is in the new region just if the row it belongs to is. -/
theorem C68_unique_entries_untouched
    (h : split old log splitKey a pend ids ns ms term at_ = some (o, n))
    (hold : ∀ t, old.txns t = none) (hver : old.version ≠ 0)
    (hv : Valid ((log.take (at_ - 1)).map (·.entry)))
    (hnd : ids.Nodup)
    (hids : ∀ t, isOpen t ((log.take a).map (·.entry)) = true → t ∈ ids)
    (hp : ∀ t, ∀ c ∈ pend t, (if isOpen t ((log.take a).map (·.entry)) then
      lastSeq t ((log.take a).map (·.entry)) else 0) < c.1) {u : Nat}
    (h1 : ∀ t, ended t ((log.take a).map (·.entry)) = false →
      ∀ w ∈ ops t ((log.take a).map (·.entry)), about w ≠ .uniq u)
    (h2 : ∀ x ∈ (log.take (at_ - 1)).drop a, ∀ w ∈ batch x.entry, about w ≠ .uniq u) (v : Nat) :
    n.data (.uniq u) = some v ↔
      Spec.data old.data ((log.take (at_ - 1)).map (·.entry)) (.uniq u) = some v ∧
        Within splitKey old.range.stop v := by
  obtain ⟨A, B, hAB, hA, -, hd, -⟩ := split_new h hold hver hv hnd hids hp
  have hB : ∀ e ∈ B, ∀ w ∈ batch e, about w ≠ .uniq u := by
    intro e he
    have hle : a + 1 ≤ at_ := by
      unfold split at h
      cases hs : sent term log a ns ms with
      | none => simp [hs] at h
      | some q =>
        simp only [hs] at h
        cases hx : log[at_ - 1]? with
        | none => simp [hx] at h
        | some x =>
          simp only [hx] at h
          split at h
          · rename_i hacc
            exact (C68_sends_every_entry hs hacc).2.1
          · simp at h
    have : B = ((log.take (at_ - 1)).drop a).map (·.entry) := by
      have h3 : (log.take (at_ - 1)).map (·.entry) =
          A ++ ((log.take (at_ - 1)).drop a).map (·.entry) := by
        rw [hA, ← List.map_append]
        congr 1
        have : log.take a = (log.take (at_ - 1)).take a := by
          rw [List.take_take, Nat.min_eq_left (by omega)]
        rw [this, List.take_append_drop]
      exact List.append_cancel_left (hAB.symm.trans h3)
    rw [this, List.mem_map] at he
    obtain ⟨x, hx, rfl⟩ := he
    exact h2 x hx
  rw [← hA] at h1
  rw [hAB] at hv ⊢
  obtain ⟨-, hvB⟩ := (validFrom_append [] A B).1 hv
  rw [List.nil_append] at hvB
  have hsA := shares_any (fits (newRange old splitKey)) A
  have hsB := shares_any (fits (newRange old splitKey)) B
  rw [hd, data_append, dataFrom_idle h1 hB hvB, dataFrom_idle ?_ ?_ (shares_valid hsA hsB hvB)]
  · simp only [copy, Option.filter_eq_some_iff, newRange, has_iff]
  · intro t ht w hw
    rw [part_nil, List.mem_filter] at hw
    exact h1 t (by rw [shares_ended hsA, ht]) w hw.1
  · intro e he w hw
    rw [List.mem_map] at he
    obtain ⟨e', he', rfl⟩ := he
    rw [batch_part, List.mem_filter] at hw
    exact hB e' he' w hw.1

/-! ## As if there had been no split -/

theorem applyAll_range (r : Region) (l : List Entry) : (r.applyAll l).range = r.range := by
  induction l generalizing r with
  | nil => rfl
  | cons e l ih =>
    show ((r.apply e).applyAll l).range = r.range
    rw [ih]
    cases e with
    | commit t => simp only [Region.apply]; split <;> rfl
    | _ => rfl

theorem sameOn_mono {K L : Key → Prop} (hKL : ∀ k, L k → K k) {l m : List Op}
    (h : SameOn K l m) : SameOn L l m := by
  induction h with
  | nil => exact .nil
  | both o _ ih => exact .both o ih
  | left hn _ ih => exact .left (fun hk => hn (hKL _ hk)) ih
  | right hn _ ih => exact .right (fun hk => hn (hKL _ hk)) ih

theorem shares_mono {K L : Key → Prop} (hKL : ∀ k, L k → K k) {l m : List Entry}
    (h : List.Forall₂ (Share K) l m) : List.Forall₂ (Share L) l m := by
  induction h with
  | nil => exact .nil
  | cons a _ ih =>
    refine .cons ?_ ih
    cases a with
    | write hs => exact .write (sameOn_mono hKL hs)
    | stmt t s hs => exact .stmt t s (sameOn_mono hKL hs)
    | prepare t s => exact .prepare t s
    | commit t => exact .commit t
    | rollback t => exact .rollback t
    | conf => exact .conf
    | admin => exact .admin

/-- **Ranges.** The split takes the range of the old region apart at the split key: afterwards each
primary key of it belongs to exactly one of the two regions, and no other key to either. -/
theorem C68_ranges
    (h : split old log splitKey a pend ids ns ms term at_ = some (o, n))
    (hin : Inside old.range.start old.range.stop splitKey) (p : Nat) :
    (Inside old.range.start old.range.stop p ↔
      Inside o.range.start o.range.stop p ∨ Inside n.range.start n.range.stop p) ∧
    ¬ (Inside o.range.start o.range.stop p ∧ Inside n.range.start n.range.stop p) := by
  unfold split at h
  cases hs : sent term log a ns ms with
  | none => simp [hs] at h
  | some q =>
    simp only [hs] at h
    cases hx : log[at_ - 1]? with
    | none => simp [hx] at h
    | some x =>
      simp only [hx] at h
      split at h
      · simp only [Option.some.injEq, Prod.mk.injEq] at h
        obtain ⟨ho, hn⟩ := h
        have hor : o.range = ⟨old.range.start, some splitKey⟩ := by
          rw [← ho]
          show Range.mk (old.applyAll _).range.start (some splitKey) = _
          rw [applyAll_range]
        have hnr : n.range = ⟨some splitKey, old.range.stop⟩ := by
          rw [← hn]
          exact applyAll_range _ _
        rw [hor, hnr]
        simp only [Inside, Option.some.injEq, forall_eq'] at hin ⊢
        obtain ⟨h1, h2⟩ := hin
        refine ⟨⟨fun ⟨g1, g2⟩ => ?_, ?_⟩, fun ⟨⟨_, g1⟩, g2, _⟩ => by omega⟩
        · by_cases hp : p < splitKey
          · exact .inl ⟨g1, hp⟩
          · exact .inr ⟨by omega, g2⟩
        · rintro (⟨g1, g2⟩ | ⟨g1, g2⟩)
          · exact ⟨g1, fun e he => Nat.lt_trans g2 (h2 e he)⟩
          · exact ⟨fun s hs => Nat.le_trans (h1 s hs) g1, g2⟩
      · simp at h

/-- **The table.** Let the entries `more` follow the switch, and let each of the two regions get its
share of them: `olds` does to the rows in front of the split key what `more` does, `news` to those
behind it. Then each row of the table, looked up in the region it is now in, is what it would be
had there been no split, also if it was written by a transaction that was open at the snapshot or
at the switch. -/
theorem C68_as_without_split
    (h : split old log splitKey a pend ids ns ms term at_ = some (o, n))
    (hold : ∀ t, old.txns t = none) (hver : old.version ≠ 0)
    (hv : Valid ((log.take (at_ - 1)).map (·.entry)))
    (hnd : ids.Nodup)
    (hids : ∀ t, isOpen t ((log.take a).map (·.entry)) = true → t ∈ ids)
    (hp : ∀ t, ∀ c ∈ pend t, (if isOpen t ((log.take a).map (·.entry)) then
      lastSeq t ((log.take a).map (·.entry)) else 0) < c.1)
    {more olds news : List Entry}
    (hmore : ValidFrom ((log.take (at_ - 1)).map (·.entry)) more)
    (holds : List.Forall₂ (Share (isRowOf (· < splitKey))) more olds)
    (hnews : List.Forall₂ (Share (isRowOf (Within splitKey old.range.stop))) more news) (k : Key) :
    (isRowOf (· < splitKey) k → (o.applyAll olds).data k =
      Spec.data old.data ((log.take (at_ - 1)).map (·.entry) ++ more) k) ∧
    (isRowOf (Within splitKey old.range.stop) k → (n.applyAll news).data k =
      Spec.data old.data ((log.take (at_ - 1)).map (·.entry) ++ more) k) := by
  have hrows := C68_rows h hold hver hv hnd hids hp
  obtain ⟨A, B, hAB, -, hmn, -, hvn, hmo, hdo, hvo⟩ := split_new h hold hver hv hnd hids hp
  rw [hAB] at hv hmore hrows ⊢
  constructor
  · intro hk
    obtain ⟨-, e2, -⟩ := applyAll_serving hmo hvo olds
      (shares_valid (shares_refl (K := isRowOf (· < splitKey)) (A ++ B)) holds hmore)
    rw [e2, data_append, hdo]
    exact (dataFrom_same (fun _ => rfl) (fun t _ => sameOn_refl _) holds hmore
      (fun _ _ => rfl) k hk).symm
  · intro hk
    have hsh := shares_part (K := isRowOf (Within splitKey old.range.stop))
      (s := fits (newRange old splitKey)) (fun o ho => fits_row ho) (A ++ B)
    obtain ⟨-, e2, -⟩ := applyAll_serving hmn (by rw [hvn]; decide) news
      (shares_valid hsh hnews hmore)
    rw [e2, data_append]
    exact (dataFrom_same (fun t => shares_ended hsh t) (fun t _ => shares_ops hsh t) hnews hmore
      (fun x hx => ((hrows x).1 hx).symm) k hk).symm

end

/-! ## What goes wrong -/

/-- A region in service without rows. -/
def blank : Region := ⟨⟨none, none⟩, 1, fun _ => none, fun _ => none⟩

/-- A row with an entry of a UNIQUE index, both deleted while the region is split. -/
def uniqLog : List LogEntry :=
  [⟨1, .write [.put (.row 8) 80, .put (.uniq 5) 8]⟩, ⟨1, .write [.del (.row 8), .del (.uniq 5)]⟩,
    ⟨1, .admin⟩]

/-- An entry of a UNIQUE index that is deleted while its region is split stays in the new region:
the row is gone, the log leaves no entry, but a later INSERT of the same value is refused as a
duplicate. The delete is shipped without a value, and the new region compares the empty value with
its start key (src/engine/transaction.cpp:326-333, include/engine/transaction.h:632-638). -/
theorem C68_unique_delete_counterexample :
    Valid ((uniqLog.take 2).map (·.entry)) ∧
    Spec.data blank.data ((uniqLog.take 2).map (·.entry)) (.uniq 5) = none ∧
    (split blank uniqLog 5 1 (fun _ => []) [] [] [(2, 2)] 1 3).map
      (fun q => (q.2.data (.uniq 5), q.2.data (.row 8))) = some (some 8, none) := by
  refine ⟨⟨trivial, trivial, trivial⟩, ?_, ?_⟩
  · decide
  · decide +kernel

/-- A row of a column-stored table, with a column that is written while the region is split. -/
def colLog : List LogEntry :=
  [⟨1, .write [.put (.row 8) 0, .put (.col 2 8) 1]⟩, ⟨1, .write [.put (.col 2 8) 7]⟩,
    ⟨1, .write [.put (.row 9) 0, .put (.col 2 9) 4]⟩, ⟨1, .admin⟩]

/-- The columns of a table with engine ROCKSDB_CSTORE that are written while its region is split do
not reach the new region: an updated column has its old value again, and that of a new row is
missing although the row is there. The key of a column does not begin with the id of an index, and
`check_key_fits_region_range` drops what it cannot look up (src/store/region.cpp:3903-3909). -/
theorem C68_columns_counterexample :
    Valid ((colLog.take 3).map (·.entry)) ∧
    Spec.data blank.data ((colLog.take 3).map (·.entry)) (.col 2 8) = some 7 ∧
    Spec.data blank.data ((colLog.take 3).map (·.entry)) (.col 2 9) = some 4 ∧
    (split blank colLog 5 1 (fun _ => []) [] [] [(3, 3)] 1 4).map
      (fun q => (q.2.data (.col 2 8), q.2.data (.row 9), q.2.data (.col 2 9))) =
        some (some 1, some 0, none) := by
  refine ⟨⟨trivial, trivial, trivial, trivial⟩, ?_, ?_, ?_⟩
  · decide
  · decide
  · decide +kernel

/-- When the new region goes into service it reports the rows that its open transactions have
added, so that the old region takes them off its own count (src/store/region.cpp:4917-4930,
src/engine/transaction_pool.cpp:720-733). It never reports any, whatever its transactions have
executed: the flag that some command has been applied is set only when the commands are asked for
(include/engine/transaction.h:388-402). The old region goes on counting these rows. -/
theorem C68_open_row_counts_counterexample (cache : List (Nat × Cmd)) (applied : Nat) :
    planInfos cache applied true = none := by
  unfold planInfos
  split
  · rfl
  · rfl

/-- The commands themselves are sent, once there is one besides BEGIN. -/
theorem C68_commands_are_reported {cache : List (Nat × Cmd)} {applied : Nat}
    (h2 : 2 ≤ cache.length) {c : Nat × Cmd} (hc : c ∈ cache) (ha : c.1 ≤ applied) :
    ∃ l, planInfos cache applied false = some l ∧ ∀ x, x ∈ l ↔ x ∈ cache ∧ x.1 ≤ applied := by
  refine ⟨cache.filter fun c => decide (c.1 ≤ applied), ?_, fun x => by simp⟩
  have hm : c ∈ cache.filter fun c => decide (c.1 ≤ applied) := by simp [hc, ha]
  have hne : (cache.filter fun c => decide (c.1 ≤ applied)).isEmpty = false := by
    cases hl : cache.filter fun c => decide (c.1 ≤ applied) with
    | nil => rw [hl] at hm; simp at hm
    | cons _ _ => rfl
  unfold planInfos
  rw [if_neg (by omega)]
  simp only [Bool.false_eq_true, if_false, hne]

end BaikalDB.Handover
