import Verif.Recover.Spec
import Mathlib.Tactic.Common

/-!
# Facts about logs: what one more entry changes
-/

namespace BaikalDB.Recover

open BaikalDB.Recover.Spec (isOpen seen ended lastSeq Follows Valid)

theorem txnOf_eq (e : Entry) : txnOf e = Spec.of e := by cases e <;> rfl

theorem op_run (o : Op) (d : Data) : o.run d = Spec.op o d := by
  cases o <;> rfl

theorem runOps_eq (os : List Op) (d : Data) : runOps os d = Spec.opsOn os d := by
  unfold runOps
  induction os generalizing d with
  | nil => rfl
  | cons o os ih =>
    rw [List.foldl_cons, ih, op_run]
    rfl

theorem seen_snoc (t : Nat) (l : List Entry) (e : Entry) :
    seen t (l ++ [e]) = (seen t l || Spec.of e == some t) := by simp [seen]

theorem ended_snoc (t : Nat) (l : List Entry) (e : Entry) :
    ended t (l ++ [e]) = (ended t l || Spec.ends t e) := by simp [ended]

theorem prepared_snoc (t : Nat) (l : List Entry) (e : Entry) :
    Spec.prepared t (l ++ [e]) = (Spec.prepared t l || e == .prepare t) := by simp [Spec.prepared]

theorem ops_snoc (t : Nat) (l : List Entry) (e : Entry) :
    Spec.ops t (l ++ [e]) = Spec.ops t l ++ Spec.ops t [e] := by
  simp only [Spec.ops, List.flatMap_append]

theorem rows_snoc (t : Nat) (l : List Entry) (e : Entry) :
    Spec.rows t (l ++ [e]) = Spec.rows t l + Spec.rows t [e] := by
  simp only [Spec.rows, List.map_append, List.sum_append]

theorem lastSeq_snoc (t : Nat) (l : List Entry) (e : Entry) :
    lastSeq t (l ++ [e]) = max (lastSeq t l) (lastSeq t [e]) := by
  induction l with
  | nil => simp [lastSeq]
  | cons a l ih =>
    cases a <;> simp only [List.cons_append, lastSeq, ih]
    split <;> omega

theorem dataFrom_append (l1 l2 past : List Entry) (d : Data) :
    Spec.dataFrom past d (l1 ++ l2) = Spec.dataFrom (past ++ l1) (Spec.dataFrom past d l1) l2 := by
  induction l1 generalizing past d with
  | nil => simp [Spec.dataFrom]
  | cons a l ih =>
    simp only [List.cons_append, Spec.dataFrom, ih, List.append_assoc, List.nil_append]

theorem countFrom_append (l1 l2 past : List Entry) (n : Int) :
    Spec.countFrom past n (l1 ++ l2)
      = Spec.countFrom (past ++ l1) (Spec.countFrom past n l1) l2 := by
  induction l1 generalizing past n with
  | nil => simp [Spec.countFrom]
  | cons a l ih =>
    simp only [List.cons_append, Spec.countFrom, ih, List.append_assoc, List.nil_append]

theorem data_snoc (l : List Entry) (e : Entry) :
    Spec.data (l ++ [e]) = Spec.effect l e (Spec.data l) := by
  simp [Spec.data, dataFrom_append, Spec.dataFrom]

theorem count_snoc (l : List Entry) (e : Entry) :
    Spec.count (l ++ [e]) = Spec.count l + Spec.gain l e := by
  simp [Spec.count, countFrom_append, Spec.countFrom]

/-- The index of the first entry of a transaction. -/
def first (t : Nat) (l : List Entry) : Option Nat :=
  (l.findIdx? fun e => Spec.of e == some t).map (· + 1)

/-- The index of the first entry of an open transaction. -/
def start (t : Nat) (l : List Entry) : Option Nat := if ended t l then none else first t l

theorem first_snoc (t : Nat) (l : List Entry) (e : Entry) :
    first t (l ++ [e]) = (first t l).or (if Spec.of e = some t then some (l.length + 1) else none) := by
  simp only [first, List.findIdx?_append, List.findIdx?_singleton]
  cases List.findIdx? (fun e => Spec.of e == some t) l with
  | some i => simp
  | none => by_cases h : Spec.of e = some t <;> simp [h]

theorem first_isSome (t : Nat) (l : List Entry) : (first t l).isSome = seen t l := by
  simp [first, seen, List.findIdx?_isSome]

theorem start_isSome (t : Nat) (l : List Entry) : (start t l).isSome = isOpen t l := by
  unfold start isOpen
  cases ended t l <;> simp [first_isSome]

theorem first_none (t : Nat) (l : List Entry) : first t l = none ↔ seen t l = false := by
  rw [← first_isSome]; cases first t l <;> simp

theorem take_snoc {log : List Entry} {n : Nat} {e : Entry} (h : log[n]? = some e) :
    log.take (n + 1) = log.take n ++ [e] := by
  rw [List.take_add_one, h]; rfl

theorem take_len {log : List Entry} {n : Nat} {e : Entry} (h : log[n]? = some e) :
    (log.take n).length = n := by
  have := (List.getElem?_eq_some_iff.1 h).1
  simp; omega

/-- What of a log the disk depends on. -/
structure Same (l1 l2 : List Entry) : Prop where
  start : ∀ t, start t l1 = start t l2
  data : Spec.data l1 = Spec.data l2
  count : Spec.count l1 = Spec.count l2

theorem Same.refl (l : List Entry) : Same l l := ⟨fun _ => rfl, rfl, rfl⟩

theorem Same.trans {a b c : List Entry} (h : Same a b) (k : Same b c) : Same a c :=
  ⟨fun t => (h.1 t).trans (k.1 t), h.2.trans k.2, h.3.trans k.3⟩

theorem same_stmt {l : List Entry} {t s : Nat} {os : List Op} {r : Int}
    (hs : seen t l = true) : Same l (l ++ [.stmt t s os r]) := by
  refine ⟨fun u => ?_, by rw [data_snoc]; rfl, by rw [count_snoc]; simp [Spec.gain]⟩
  unfold start
  rw [ended_snoc, first_snoc]
  simp only [Spec.ends, Bool.or_false, Spec.of, Option.some.injEq]
  by_cases h : t = u
  · subst h
    have : (first t l).isSome = true := by rw [first_isSome, hs]
    obtain ⟨i, hi⟩ := Option.isSome_iff_exists.1 this
    simp [hi]
  · simp [h]

theorem same_prepare {l : List Entry} {t : Nat} (hs : seen t l = true) :
    Same l (l ++ [.prepare t]) := by
  refine ⟨fun u => ?_, by rw [data_snoc]; rfl, by rw [count_snoc]; simp [Spec.gain]⟩
  unfold start
  rw [ended_snoc, first_snoc]
  simp only [Spec.ends, Bool.or_false, Spec.of, Option.some.injEq]
  by_cases h : t = u
  · subst h
    have : (first t l).isSome = true := by rw [first_isSome, hs]
    obtain ⟨i, hi⟩ := Option.isSome_iff_exists.1 this
    simp [hi]
  · simp [h]

theorem seen_of_open {t : Nat} {l : List Entry} (h : isOpen t l = true) : seen t l = true := by
  simp only [isOpen, Bool.and_eq_true] at h; exact h.1

theorem not_ended_of_open {t : Nat} {l : List Entry} (h : isOpen t l = true) :
    ended t l = false := by
  simp only [isOpen, Bool.and_eq_true, Bool.not_eq_true'] at h; exact h.2

/-- A transaction that nothing precedes has written nothing. -/
theorem fresh {t : Nat} {l : List Entry} (h : seen t l = false) :
    Spec.ops t l = [] ∧ Spec.rows t l = 0 ∧ lastSeq t l = 0 ∧ Spec.prepared t l = false := by
  induction l with
  | nil => simp [Spec.ops, Spec.rows, lastSeq, Spec.prepared]
  | cons e l ih =>
    simp only [seen, List.any_cons, Bool.or_eq_false_iff] at h
    obtain ⟨h1, h2⟩ := h
    obtain ⟨a, b, c, d⟩ := ih h2
    simp only [Spec.ops, Spec.rows, Spec.prepared] at a b d
    cases e <;>
      simp_all [Spec.ops, Spec.rows, lastSeq, Spec.prepared, Spec.of]

theorem isOpen_snoc_ne {t : Nat} {l : List Entry} {e : Entry} (h : Spec.of e ≠ some t) :
    isOpen t (l ++ [e]) = isOpen t l := by
  unfold isOpen
  rw [seen_snoc, ended_snoc]
  have h1 : (Spec.of e == some t) = false := by simpa using h
  have h2 : Spec.ends t e = false := by
    cases e <;> simp_all [Spec.ends, Spec.of]
  rw [h1, h2]; simp

theorem start_snoc_ne {t : Nat} {l : List Entry} {e : Entry} (h : Spec.of e ≠ some t) :
    start t (l ++ [e]) = start t l := by
  unfold start
  rw [first_snoc, ended_snoc]
  have h2 : Spec.ends t e = false := by
    cases e <;> simp_all [Spec.ends, Spec.of]
  rw [h2, if_neg h]; simp

theorem ops_one_ne {t : Nat} {e : Entry} (h : Spec.of e ≠ some t) : Spec.ops t [e] = [] := by
  cases e <;> simp_all [Spec.ops, Spec.of]

theorem rows_one_ne {t : Nat} {e : Entry} (h : Spec.of e ≠ some t) : Spec.rows t [e] = 0 := by
  cases e <;> simp_all [Spec.rows, Spec.of]

theorem lastSeq_one_ne {t : Nat} {e : Entry} (h : Spec.of e ≠ some t) : lastSeq t [e] = 0 := by
  cases e <;> simp_all [lastSeq, Spec.of]

theorem prepared_one_ne {t : Nat} {e : Entry} (h : Spec.of e ≠ some t) :
    (e == Entry.prepare t) = false := by
  cases e <;> simp_all [Spec.of]

/-! ## A transaction in memory -/

/-- The transaction in memory is the one of the log. -/
def Rel (c : Prop) (t : Nat) (past : List Entry) (o : Option Txn) : Prop :=
  (isOpen t past = false → o = none) ∧
  (isOpen t past = true → ∃ x, o = some x ∧ x.ops = Spec.ops t past ∧ x.seq = lastSeq t past ∧
    x.prepared = Spec.prepared t past ∧ (c → x.rows = Spec.rows t past))

theorem Rel.ne {c : Prop} {t : Nat} {past : List Entry} {o : Option Txn} {e : Entry}
    (h : Rel c t past o) (he : Spec.of e ≠ some t) : Rel c t (past ++ [e]) o := by
  refine ⟨fun k => h.1 (by rwa [isOpen_snoc_ne he] at k), fun k => ?_⟩
  obtain ⟨x, h1, h2, h3, h4, h5⟩ := h.2 (by rwa [isOpen_snoc_ne he] at k)
  refine ⟨x, h1, ?_, ?_, ?_, ?_⟩
  · rw [ops_snoc, ops_one_ne he, h2]; simp
  · rw [lastSeq_snoc, lastSeq_one_ne he, h3]; simp
  · rw [prepared_snoc, prepared_one_ne he, h4]; simp
  · intro hc; rw [rows_snoc, rows_one_ne he, h5 hc]; simp

theorem rel_stmt {c : Prop} {t s : Nat} {os : List Op} {r : Int} {past : List Entry} {m : Mem}
    {live : Bool} {i : Nat} (h : Rel c t past (m.txns t))
    (hf : Follows past (.stmt t s os r)) (hc : c → live = true ∨ r = 0) :
    Rel c t (past ++ [.stmt t s os r]) ((applyE live i (.stmt t s os r) m).2.txns t) := by
  obtain ⟨f1, f2, f3⟩ := hf
  have ho : isOpen t (past ++ [.stmt t s os r]) = true := by
    unfold isOpen
    rw [seen_snoc, ended_snoc, f1]
    simp [Spec.of, Spec.ends]
  refine ⟨fun k => by simp [ho] at k, fun _ => ?_⟩
  have hx : (getTxn m t).ops = Spec.ops t past ∧ (getTxn m t).seq = lastSeq t past ∧
      (getTxn m t).prepared = Spec.prepared t past ∧ (c → (getTxn m t).rows = Spec.rows t past) := by
    cases hs : isOpen t past with
    | true =>
      obtain ⟨x, h1, h2, h3, h4, h5⟩ := h.2 hs
      simp only [getTxn, h1, Option.getD_some]
      exact ⟨h2, h3, h4, h5⟩
    | false =>
      have hn := h.1 hs
      have hseen : seen t past = false := by
        simpa [isOpen, f1] using hs
      obtain ⟨a, b, c', d⟩ := fresh hseen
      rw [a, b, c', d]
      unfold getTxn
      rw [hn]
      exact ⟨rfl, rfl, rfl, fun _ => rfl⟩
  obtain ⟨x1, x2, x3, x4⟩ := hx
  have hlt : ¬ s ≤ (getTxn m t).seq := by rw [x2]; omega
  refine ⟨{ getTxn m t with
      seq := s
      ops := (getTxn m t).ops ++ os
      rows := (getTxn m t).rows + if live then r else 0 }, ?_, ?_, ?_, ?_, ?_⟩
  · simp only [applyE, upd, if_true, if_neg hlt]
  · rw [ops_snoc, ← x1]; simp [Spec.ops]
  · rw [lastSeq_snoc]
    have : lastSeq t [.stmt t s os r] = s := by simp [lastSeq]
    rw [this]; show s = _; omega
  · rw [prepared_snoc, ← x3]; simp
  · intro hcc
    rw [rows_snoc, ← x4 hcc]
    have : Spec.rows t [.stmt t s os r] = r := by simp [Spec.rows]
    rw [this]
    rcases hc hcc with hl | hl
    · simp [hl]
    · simp [hl]

theorem rel_prepare {c : Prop} {t : Nat} {past : List Entry} {m : Mem} {live : Bool} {i : Nat}
    (h : Rel c t past (m.txns t)) (hf : Follows past (.prepare t)) :
    Rel c t (past ++ [.prepare t]) ((applyE live i (.prepare t) m).2.txns t) := by
  obtain ⟨f1, f2⟩ := hf
  have ho : isOpen t (past ++ [.prepare t]) = true := by
    unfold isOpen
    rw [seen_snoc, ended_snoc, not_ended_of_open f1]
    simp [Spec.of, Spec.ends]
  refine ⟨fun k => by simp [ho] at k, fun _ => ?_⟩
  obtain ⟨x, h1, h2, h3, h4, h5⟩ := h.2 f1
  refine ⟨{ x with prepared := true }, ?_, ?_, ?_, ?_, ?_⟩
  · simp only [applyE, upd, if_true, getTxn, h1, Option.getD_some]
  · rw [ops_snoc]; simp [Spec.ops]; simpa [Spec.ops] using h2
  · rw [lastSeq_snoc]; simp [lastSeq, h3]
  · rw [prepared_snoc]; simp
  · intro hcc; rw [rows_snoc]
    have : Spec.rows t [.prepare t] = 0 := by simp [Spec.rows]
    rw [this]; simpa using h5 hcc

/-- The other transactions of the memory stay. -/
theorem applyE_ne {live : Bool} {i : Nat} {e : Entry} {m : Mem} {t : Nat}
    (h : Spec.of e ≠ some t) : (applyE live i e m).2.txns t = m.txns t := by
  cases e with
  | write os r => rfl
  | other => rfl
  | stmt u s os r =>
    have : t ≠ u := fun k => h (by simp [Spec.of, k])
    simp [applyE, upd, this]
  | prepare u =>
    have : t ≠ u := fun k => h (by simp [Spec.of, k])
    simp [applyE, upd, this]
  | commit u =>
    have : t ≠ u := fun k => h (by simp [Spec.of, k])
    simp only [applyE]
    cases m.txns u with
    | none => rfl
    | some x => dsimp only; split <;> simp [upd, this]
  | rollback u =>
    have : t ≠ u := fun k => h (by simp [Spec.of, k])
    simp only [applyE]
    cases m.txns u with
    | none => rfl
    | some x => simp [upd, this]
  | onePc u =>
    have : t ≠ u := fun k => h (by simp [Spec.of, k])
    simp [applyE, upd, this]

theorem applyE_applied {live : Bool} {i : Nat} {e : Entry} {m : Mem} :
    (applyE live i e m).2.applied = m.applied := by
  cases e with
  | write os r => rfl
  | other => rfl
  | stmt u s os r => rfl
  | prepare u => rfl
  | onePc u => rfl
  | commit u =>
    simp only [applyE]
    cases m.txns u with
    | none => rfl
    | some x => dsimp only; split <;> rfl
  | rollback u =>
    simp only [applyE]
    cases m.txns u <;> rfl

end BaikalDB.Recover
