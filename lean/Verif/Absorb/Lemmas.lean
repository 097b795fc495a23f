import Verif.Absorb.Spec

namespace BaikalDB.Absorb

open Spec

theorem covers_iff (i : Info) (k : Key) : i.covers k = true ↔ Covers i k := by
  unfold Info.covers Covers
  cases h : i.stop <;> simp

theorem holds_write {rows : List (Key × Val)} {k : Key} {v : Option Val} (h : Holds rows k v)
    (w : Write) : Holds (write rows w) k (if w.key = k then w.val else v) := by
  intro x
  unfold write
  by_cases hk : w.key = k
  · rw [if_pos hk]
    cases hv : w.val with
    | none => simp [hk]
    | some y =>
      simp only [List.mem_cons, Prod.mk.injEq, List.mem_filter, Option.some.injEq]
      constructor
      · rintro (⟨_, rfl⟩ | ⟨_, h2⟩)
        · rfl
        · simp [hk] at h2
      · rintro rfl
        exact Or.inl ⟨hk.symm, rfl⟩
  · rw [if_neg hk]
    cases hv : w.val with
    | none =>
      simp only [List.mem_filter]
      rw [← h x]
      constructor
      · exact fun a => a.1
      · exact fun a => ⟨a, by simpa using fun c => hk c.symm⟩
    | some y =>
      simp only [List.mem_cons, Prod.mk.injEq, List.mem_filter]
      rw [← h x]
      constructor
      · rintro (⟨h1, _⟩ | ⟨h1, _⟩)
        · exact absurd h1.symm hk
        · exact h1
      · exact fun a => Or.inr ⟨a, by simpa using fun c => hk c.symm⟩

theorem get_eq {rows : List (Key × Val)} {k : Key} {v : Option Val} (h : Holds rows k v) :
    get rows k = v := by
  unfold get
  cases hf : rows.find? (fun r => decide (r.1 = k)) with
  | none =>
    rw [List.find?_eq_none] at hf
    cases v with
    | none => rfl
    | some y =>
      have := (h y).2 rfl
      have := hf _ this
      simp at this
  | some r =>
    have hm := List.mem_of_find?_eq_some hf
    have hp := List.find?_some hf
    simp only [decide_eq_true_eq] at hp
    obtain ⟨r1, r2⟩ := r
    simp only at hp
    subst hp
    rw [(h r2).1 hm]
    rfl

/-- The writes to other keys are of no effect on a key. -/
theorem holds_foldl (k : Key) (ws us : List Write)
    (hf : ws.filter (fun w => decide (w.key = k)) = us.filter (fun w => decide (w.key = k)))
    (rows : List (Key × Val)) (acked : List Write) (h : Holds rows k (Value acked k)) :
    Holds (ws.foldl write rows) k (Value (us.foldl (fun a w => w :: a) acked) k) := by
  have h1 : ∀ (ws : List Write) (rows : List (Key × Val)) (acked : List Write),
      Holds rows k (Value acked k) →
      Holds (ws.foldl write rows) k
        (Value ((ws.filter (fun w => decide (w.key = k))).foldl (fun a w => w :: a) acked) k) := by
    intro ws
    induction ws with
    | nil => exact fun _ _ h => h
    | cons w ws ih =>
      intro rows acked h
      have hw := holds_write h w
      rw [List.foldl_cons]
      by_cases hk : w.key = k
      · rw [List.filter_cons_of_pos (by simpa using hk), List.foldl_cons]
        apply ih
        rw [if_pos hk] at hw
        show Holds _ _ (if w.key = k then w.val else _)
        rw [if_pos hk]
        exact hw
      · rw [List.filter_cons_of_neg (by simpa using hk)]
        apply ih
        rw [if_neg hk] at hw
        exact hw
  have h2 : ∀ (us : List Write) (a b : List Write), Value a k = Value b k →
      Value (us.foldl (fun a w => w :: a) a) k =
      Value ((us.filter (fun w => decide (w.key = k))).foldl (fun a w => w :: a) b) k := by
    intro us
    induction us with
    | nil => exact fun _ _ h => h
    | cons w us ih =>
      intro a b h
      rw [List.foldl_cons]
      by_cases hk : w.key = k
      · rw [List.filter_cons_of_pos (by simpa using hk), List.foldl_cons]
        apply ih
        simp [Value, hk]
      · rw [List.filter_cons_of_neg (by simpa using hk)]
        apply ih
        simp [Value, hk, h]
  rw [h2 us acked acked rfl, ← hf]
  exact h1 ws rows acked h

theorem filter_writes (l : List Stmt) (t : Nat) (k : Key) :
    ((l.filter (fun x => decide (x.txn = t))).map Stmt.write).filter
      (fun w => decide (w.key = k)) =
    ((Open l k).filter (fun x => decide (x.txn = t))).map Stmt.write := by
  unfold Open
  rw [List.filter_map, List.filter_filter, List.filter_filter]
  congr 1
  apply List.filter_congr
  intro x _
  simp [Bool.and_comm]

theorem open_filter (l : List Stmt) (t : Nat) (k : Key) :
    Open (l.filter (fun x => decide (x.txn ≠ t))) k =
    (Open l k).filter (fun x => decide (x.txn ≠ t)) := by
  unfold Open
  rw [List.filter_filter, List.filter_filter]
  apply List.filter_congr
  intro x _
  simp [Bool.and_comm]

theorem open_append (l : List Stmt) (x : Stmt) (k : Key) :
    Open (l ++ [x]) k = Open l k ++ (if x.write.key = k then [x] else []) := by
  unfold Open
  rw [List.filter_append]
  congr 1
  by_cases h : x.write.key = k <;> simp [h]

theorem not_any {l : List Stmt} {t : Nat}
    (h : (l.any (fun x => decide (x.txn = t))) = false) :
    l.filter (fun x => decide (x.txn = t)) = [] ∧
    l.filter (fun x => decide (x.txn ≠ t)) = l := by
  rw [List.any_eq_false] at h
  constructor
  · rw [List.filter_eq_nil_iff]
    exact h
  · rw [List.filter_eq_self]
    intro x hx
    simpa using h x hx

/-- A region has, for a key, what its clients know of. -/
def Agree (r : Region) (acked : List Write) (client : List Stmt) (k : Key) : Prop :=
  Holds r.rows k (Value acked k) ∧ Open r.txns k = Open client k

theorem Agree.put {r : Region} {acked : List Write} {client : List Stmt} {k : Key}
    (h : Agree r acked client k) (w : Write) :
    Holds (write r.rows w) k (Value (w :: acked) k) := holds_write h.1 w

theorem Agree.other {r : Region} {acked : List Write} {client : List Stmt} {k : Key}
    (h : Agree r acked client k) (w : Write) (hk : w.key ≠ k) : Agree r (w :: acked) client k := by
  refine ⟨?_, h.2⟩
  show Holds _ _ (if w.key = k then w.val else _)
  rw [if_neg hk]
  exact h.1

theorem Agree.commit {r : Region} {acked : List Write} {client : List Stmt} {k : Key}
    (h : Agree r acked client k) (t : Nat) :
    Agree (r.commit t)
      (((client.filter (fun x => decide (x.txn = t))).map Stmt.write).foldl
        (fun a w => w :: a) acked)
      (client.filter (fun x => decide (x.txn ≠ t))) k := by
  constructor
  · refine holds_foldl k _ _ ?_ _ _ h.1
    rw [filter_writes, filter_writes, h.2]
  · show Open (r.txns.filter _) k = _
    rw [open_filter, open_filter, h.2]

theorem Agree.commit_none {r : Region} {acked : List Write} {client : List Stmt} {k : Key}
    (h : Agree r acked client k) (t : Nat)
    (hn : r.txns.any (fun x => decide (x.txn = t)) = false) :
    Agree r
      (((client.filter (fun x => decide (x.txn = t))).map Stmt.write).foldl
        (fun a w => w :: a) acked)
      (client.filter (fun x => decide (x.txn ≠ t))) k := by
  have hc := h.commit t
  obtain ⟨h1, h2⟩ := not_any hn
  unfold Region.commit commitRows at hc
  rw [h1, h2] at hc
  exact hc

theorem Agree.stmt {r : Region} {acked : List Write} {client : List Stmt} {k : Key}
    (h : Agree r acked client k) (t : Nat) (w : Write) :
    Agree (r.stmt t w) acked (client ++ [⟨t, w⟩]) k := by
  refine ⟨h.1, ?_⟩
  show Open (r.txns ++ [⟨t, w⟩]) k = _
  rw [open_append, open_append, h.2]

theorem Agree.stmt_other {r : Region} {acked : List Write} {client : List Stmt} {k : Key}
    (h : Agree r acked client k) (t : Nat) (w : Write) (hk : w.key ≠ k) :
    Agree r acked (client ++ [⟨t, w⟩]) k := by
  refine ⟨h.1, ?_⟩
  rw [open_append, if_neg hk, List.append_nil]
  exact h.2

end BaikalDB.Absorb
