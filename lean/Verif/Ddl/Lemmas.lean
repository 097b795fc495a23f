import Verif.Ddl.System
import Mathlib.Data.List.Nodup

/-!
# Facts about single statements and about the meta server's functions
-/

namespace BaikalDB.Ddl

set_option linter.unusedSectionVars false

variable {V : Type} [DecidableEq V]

/-! ## Rows and index entries -/

/-- The index holds nothing the row does not have. -/
def NoOrphan (c : Cell V) : Prop := ∀ v, v ∈ c.ents → c.row = some v

/-- The index holds the row. -/
def Good (c : Cell V) : Prop := ∀ v, c.row = some v → v ∈ c.ents

theorem mem_put (v u : V) (c : Cell V) : u ∈ (c.put v).ents ↔ u = v ∨ u ∈ c.ents := by
  unfold Cell.put
  simp only [List.mem_cons, List.mem_filter, decide_eq_true_eq]
  constructor
  · rintro (h | ⟨h, -⟩) <;> simp [h]
  · rintro (h | h)
    · exact .inl h
    · by_cases e : u = v
      · exact .inl e
      · exact .inr ⟨h, e⟩

theorem mem_drop (v u : V) (c : Cell V) : u ∈ (c.drop v).ents ↔ u ∈ c.ents ∧ u ≠ v := by
  unfold Cell.drop
  simp [List.mem_filter]

theorem row_put (v : V) (c : Cell V) : (c.put v).row = c.row := rfl
theorem row_drop (v : V) (c : Cell V) : (c.drop v).row = c.row := rfl

theorem rank_removes {i : IState} (h : 1 ≤ i.rank) : removes i = true := by
  cases i <;> simp [IState.rank] at h <;> decide

theorem rank_low_removes {i : IState} (h : i.rank = 0) : removes i = false := by
  cases i <;> simp [IState.rank] at h <;> decide

theorem rank_writes {i : IState} (b : Bool) (h : 2 ≤ i.rank) : writes b i = true := by
  cases i <;> simp [IState.rank] at h <;> cases b <;> decide

theorem rank_low_writes {i : IState} (h : i.rank ≤ 1) : writes false i = false := by
  cases i <;> simp [IState.rank] at h <;> decide

theorem rank_low_need {i : IState} (h : i.rank ≤ 1) : needWrite i = false := by
  cases i <;> simp [IState.rank] at h <;> decide

theorem rank_need {i : IState} (h : 2 ≤ i.rank) (h' : i ≠ .pub) : needWrite i = true := by
  cases i <;> simp [IState.rank] at h h' <;> decide

/-- After `remove_row` on a store that has heard of the index the index holds nothing of the row. -/
theorem unindex_ents {i : IState} {c : Cell V} (hi : 1 ≤ i.rank) (hc : NoOrphan c) : (unindex i c).ents = [] := by
  unfold unindex
  cases hr : c.row with
  | none =>
    refine List.eq_nil_iff_forall_not_mem.mpr fun v hv => ?_
    have := hc v hv
    rw [hr] at this; cases this
  | some u =>
    simp only [rank_removes hi, if_true]
    refine List.eq_nil_iff_forall_not_mem.mpr fun v hv => ?_
    rw [mem_drop] at hv
    have := hc v hv.1
    rw [hr] at this
    exact hv.2 (Option.some.inj this).symm

theorem store_orphan {b : Bool} {i : IState} {v : V} {c : Cell V} (h : c.ents = []) : NoOrphan (store' b i v c) := by
  unfold store'
  intro u hu
  by_cases e : writes b i = true
  · simp only [e, if_true] at hu ⊢
    rw [show ({ c.put v with row := some v } : Cell V).ents = (c.put v).ents from rfl, mem_put, h] at hu
    rcases hu with rfl | hu
    · rfl
    · cases hu
  · simp only [if_neg e] at hu
    rw [h] at hu; cases hu

theorem store_good {b : Bool} {i : IState} {v : V} {c : Cell V} (h : writes b i = true) : Good (store' b i v c) := by
  unfold store'
  intro u hu
  simp only [h, if_true] at hu ⊢
  have hu' : v = u := Option.some.inj hu
  subst hu'
  exact (mem_put _ _ _).mpr (.inl rfl)

/-- A statement leaves no index entry behind if the store has heard of the index. -/
theorem exec_orphan {d i : IState} {op : Dml V} {c : Cell V} (hi : 1 ≤ i.rank) (hc : NoOrphan c) : NoOrphan (exec d i op c) := by
  unfold exec
  split
  · next v hr =>
    refine store_orphan (List.eq_nil_iff_forall_not_mem.mpr fun v hv => ?_)
    have := hc v hv
    rw [hr] at this; cases this
  · exact hc
  · exact store_orphan (unindex_ents hi hc)
  · exact store_orphan (unindex_ents hi hc)
  · exact store_orphan (unindex_ents hi hc)
  · exact hc
  · intro v hv
    have : v ∈ (unindex i c).ents := hv
    rw [unindex_ents hi hc] at this; cases this

theorem unindex_nil {i : IState} {c : Cell V} (hc : c.ents = []) : (unindex i c).ents = [] := by
  unfold unindex
  cases c.row with
  | none => exact hc
  | some u =>
    by_cases h : removes i = true
    · simp only [h, if_true, Cell.drop, hc, List.filter_nil]
    · simp only [if_neg h, hc]

theorem store_nil {b : Bool} {i : IState} {v : V} {c : Cell V} (h : writes b i = false) (hc : c.ents = []) :
    (store' b i v c).ents = [] := by
  unfold store'; simp only [h, Bool.false_eq_true, if_false, hc]

/-- As long as nobody has heard of `IS_WRITE_ONLY` nothing is put into the index. -/
theorem exec_nil {d i : IState} {op : Dml V} {c : Cell V} (hd : d.rank ≤ 1) (hi : i.rank ≤ 1) (hc : c.ents = []) :
    (exec d i op c).ents = [] := by
  have hw : writes (needWrite d) i = false := by rw [rank_low_need hd]; exact rank_low_writes hi
  unfold exec
  split
  · exact store_nil hw hc
  · exact hc
  · exact store_nil hw (unindex_nil hc)
  · exact store_nil hw (unindex_nil hc)
  · exact store_nil (rank_low_writes hi) (unindex_nil hc)
  · exact hc
  · exact unindex_nil hc

/-- Once the SQL node has heard of `IS_WRITE_ONLY`, and where it matters the store, a statement keeps the index complete. -/
theorem exec_good {d i : IState} {op : Dml V} {c : Cell V} (hd : 2 ≤ d.rank) (hs : NeedsSync d op → 2 ≤ i.rank) (hc : Good c) :
    Good (exec d i op c) := by
  have hw : op ≠ .delete → (∀ v, op ≠ .update v) → writes (needWrite d) i = true := by
    intro h1 h2
    by_cases h : d = .pub
    · refine rank_writes _ (hs ?_)
      cases op <;> first | exact h | exact absurd rfl h1 | exact absurd rfl (h2 _)
    · rw [rank_need hd h]; rfl
  unfold exec
  split
  · exact store_good (hw (by simp) (by simp))
  · exact hc
  · exact store_good (hw (by simp) (by simp))
  · exact store_good (hw (by simp) (by simp))
  · exact store_good (rank_writes _ (hs trivial))
  · exact hc
  · intro v hv; cases hv

theorem fill_orphan {c : Cell V} (hc : NoOrphan c) : NoOrphan (fill c) := by
  unfold fill
  cases hr : c.row with
  | none => exact hc
  | some v =>
    intro u hu
    simp only [mem_put] at hu
    rcases hu with rfl | hu
    · exact hr
    · exact hc u hu

theorem fill_good (c : Cell V) : Good (fill c) := by
  unfold fill
  cases hr : c.row with
  | none => intro v hv; rw [hr] at hv; cases hv
  | some v =>
    intro u hu
    have : c.row = some u := hu
    rw [hr] at this
    rw [Option.some.inj this] at *
    exact (mem_put _ _ _).mpr (.inl rfl)

theorem good_of_none {c : Cell V} (h : c.row = none) : Good c := by
  intro v hv; rw [h] at hv; cases hv

/-! ## Slots -/

/-- What is in the row now and what was committed both have their place in the index. -/
def GoodS (s : Slot V) : Prop := Good s.cur ∧ Good s.committed

def NoOrphanS (s : Slot V) : Prop := NoOrphan s.cur ∧ NoOrphan s.committed

def EmptyS (s : Slot V) : Prop := s.cur.ents = [] ∧ s.committed.ents = []

theorem committed_none {s : Slot V} (h : s.lock = none) : s.committed = s.cur := by unfold Slot.committed; rw [h]

theorem committed_some {s : Slot V} {h : Holder} {c : Cell V} (e : s.lock = some (h, c)) : s.committed = c := by
  unfold Slot.committed; rw [e]

theorem commit_cases (h : Holder) (s : Slot V) :
    ((∃ c, s.lock = some (h, c)) ∧ s.commit h = ⟨s.cur, none⟩) ∨ ((∀ c, s.lock ≠ some (h, c)) ∧ s.commit h = s) := by
  unfold Slot.commit
  cases e : s.lock with
  | none => right; simp
  | some p =>
    obtain ⟨h', c⟩ := p
    by_cases hh : h' = h
    · left; subst hh; simp
    · right; simp [hh]

theorem rollback_cases (h : Holder) (s : Slot V) :
    (∃ c, s.lock = some (h, c) ∧ s.rollback h = ⟨c, none⟩) ∨ ((∀ c, s.lock ≠ some (h, c)) ∧ s.rollback h = s) := by
  unfold Slot.rollback
  cases e : s.lock with
  | none => right; simp
  | some p =>
    obtain ⟨h', c⟩ := p
    by_cases hh : h' = h
    · left; subst hh; exact ⟨c, rfl, by simp⟩
    · right; simp [hh]

/-- Any property of cells that holds of both sides of a slot holds after the lock is given up. -/
theorem commit_both {P : Cell V → Prop} {h : Holder} {s : Slot V} (hs : P s.cur ∧ P s.committed) :
    P (s.commit h).cur ∧ P (s.commit h).committed := by
  rcases commit_cases h s with ⟨-, e⟩ | ⟨-, e⟩ <;> rw [e]
  · exact ⟨hs.1, by rw [committed_none rfl]; exact hs.1⟩
  · exact hs

theorem rollback_both {P : Cell V → Prop} {h : Holder} {s : Slot V} (hs : P s.cur ∧ P s.committed) :
    P (s.rollback h).cur ∧ P (s.rollback h).committed := by
  rcases rollback_cases h s with ⟨c, e', e⟩ | ⟨-, e⟩ <;> rw [e]
  · have : P c := by rw [← committed_some e']; exact hs.2
    exact ⟨this, by rw [committed_none rfl]; exact this⟩
  · exact hs

theorem setAt_self {α β : Type} [DecidableEq α] (f : α → β) (a : α) (b : β) : setAt f a b a = b := by simp [setAt]

theorem setAt_ne {α β : Type} [DecidableEq α] (f : α → β) {a x : α} (b : β) (h : x ≠ a) : setAt f a b x = f x := by
  simp [setAt, h]

/-! ## The works of the regions -/

theorem exec_done {n : Nat} {a : Ask} {d : Bool} {w : RWork} :
    let v := execOrRetry n a d w
    v.work.region = w.region ∧ (v.work.status = .done → w.status = .done) ∧
      (v.done = true → d = true ∧ w.status = .done ∧ v.go = true ∧ v.work = w) := by
  unfold execOrRetry
  cases hs : w.status
  · cases ha : a.ans <;> simp [handed, hs]
  · simp [hs]
  · simp [hs]
  · by_cases hr : w.retry < n
    · cases ha : a.ans <;> simp [handed, hs, hr]
    · simp [hs, hr]
  · simp [hs]
  · simp [hs]

theorem exec_task {n : Nat} {a : Ask} {d : Bool} {w : RWork} {t : Nat × RWork}
    (h : t ∈ (execOrRetry n a d w).task) : t.2.region = w.region ∧ t.2.status ≠ .done := by
  unfold execOrRetry at h
  cases hs : w.status <;> simp only [hs] at h
  · cases ha : a.ans <;> simp only [ha] at h <;> simp at h
    subst h; simp [handed, hs]
  · simp at h
  · simp at h
  · by_cases hr : w.retry < n
    · simp only [hr, if_true] at h
      cases ha : a.ans <;> simp only [ha] at h <;> simp at h
      subst h; simp [handed, hs]
    · simp only [hr, if_false] at h; simp at h
  · simp at h
  · simp at h

/-- A round over the works of an index that is not a rollup: the regions stay, no work becomes done, and the round says all
is done only if every work is. -/
theorem traverse_facts (n : Nat) (ask : Nat → Ask) (ws : List RWork) (d : Bool) :
    let r := traverse false n ask d ws
    r.works.map (·.region) = ws.map (·.region) ∧
    (∀ w' ∈ r.works, w'.status = .done → w' ∈ ws) ∧
    (r.done = true → d = true ∧ (∀ w ∈ ws, w.status = .done) ∧ r.works = ws ∧ r.rollback = false) ∧
    (∀ t ∈ r.tasks, t.2.status ≠ .done) := by
  induction ws generalizing d with
  | nil => simp [traverse]
  | cons w ws ih =>
    intro r
    have hr : r = traverse false n ask d (w :: ws) := rfl
    unfold traverse at hr
    have hv : visit false n (ask w.region) d w = execOrRetry n (ask w.region) d w := by simp [visit]
    rw [hv] at hr
    obtain ⟨e1, e2, e3⟩ := exec_done (n := n) (a := ask w.region) (d := d) (w := w)
    have e2' : (execOrRetry n (ask w.region) d w).work.status = .done → (execOrRetry n (ask w.region) d w).work = w := by
      intro h
      have := e2 h
      unfold execOrRetry; rw [this]
    have hrb : (execOrRetry n (ask w.region) d w).done = true → (execOrRetry n (ask w.region) d w).rollback = false := by
      intro h
      have := (e3 h).2.1
      unfold execOrRetry; rw [this]
    by_cases hg : (execOrRetry n (ask w.region) d w).go = true
    · simp only [hg, if_true] at hr
      have ih' := ih (execOrRetry n (ask w.region) d w).done
      simp only at ih'
      obtain ⟨i1, i2, i3, i4⟩ := ih'
      rw [hr]
      refine ⟨by simp [e1, i1], ?_, ?_, ?_⟩
      · intro w' hw' hs
        rcases List.mem_cons.mp hw' with rfl | hw'
        · rw [e2' hs]; exact List.mem_cons_self
        · exact List.mem_cons_of_mem _ (i2 w' hw' hs)
      · intro h
        obtain ⟨j1, j2, j3, j4⟩ := i3 h
        obtain ⟨k1, k2, -, k4⟩ := e3 j1
        refine ⟨k1, ?_, by simp [k4, j3], by simp [hrb j1, j4]⟩
        intro w' hw'
        rcases List.mem_cons.mp hw' with rfl | hw'
        · exact k2
        · exact j2 w' hw'
      · intro t ht
        rcases List.mem_append.mp ht with ht | ht
        · exact (exec_task (Option.mem_toList.mp ht)).2
        · exact i4 t ht
    · simp only [hg] at hr
      simp only [Bool.false_eq_true, if_false] at hr
      rw [hr]
      refine ⟨by simp [e1], ?_, ?_, ?_⟩
      · intro w' hw' hs
        rcases List.mem_cons.mp hw' with rfl | hw'
        · rw [e2' hs]; exact List.mem_cons_self
        · exact List.mem_cons_of_mem _ hw'
      · intro h
        exact absurd (e3 h).2.2.1 hg
      · intro t ht
        exact (exec_task (Option.mem_toList.mp ht)).2

/-- `update_index_ddlwork_region_info` keeps every region's work and brings in only the one given. -/
theorem setWork_mem {w w' : RWork} {m : Meta} {ws ws' : List RWork} (h : m.works = some ws) (h' : (setWork w m).works = some ws')
    (hw : w' ∈ ws') : w' ∈ ws ∨ w' = w := by
  unfold setWork at h'
  simp only [h, Option.map_some, Option.some.injEq] at h'
  split at h'
  · rw [← h'] at hw
    obtain ⟨x, hx, e⟩ := List.mem_map.mp hw
    by_cases c : x.region = w.region
    · rw [if_pos c] at e; exact .inr e.symm
    · rw [if_neg c] at e; exact .inl (e ▸ hx)
  · rw [← h'] at hw
    rcases List.mem_append.mp hw with h | h
    · exact .inl h
    · exact .inr (by simpa using h)

theorem setWork_covers {w : RWork} {m : Meta} {ws ws' : List RWork} (h : m.works = some ws) (h' : (setWork w m).works = some ws')
    {r : Nat} (hr : ∃ x ∈ ws, x.region = r) : ∃ x ∈ ws', x.region = r := by
  obtain ⟨x, hx, e⟩ := hr
  unfold setWork at h'
  simp only [h, Option.map_some, Option.some.injEq] at h'
  split at h'
  · rw [← h']
    by_cases c : x.region = w.region
    · exact ⟨w, List.mem_map.mpr ⟨x, hx, by rw [if_pos c]⟩, by rw [← c, e]⟩
    · exact ⟨x, List.mem_map.mpr ⟨x, hx, by rw [if_neg c]⟩, e⟩
  · rw [← h']
    exact ⟨x, List.mem_append_left _ hx, e⟩

theorem setWork_rest (w : RWork) (m : Meta) : setWork w m = { m with works := (setWork w m).works } := rfl

/-- Writing a list of works back, none of them done. -/
theorem foldl_setWork (f : Nat × RWork → RWork) (hf : ∀ t, (f t).status ≠ .done) (l : List (Nat × RWork)) (m : Meta) (ws : List RWork)
    (h : m.works = some ws) :
    ∃ ws', l.foldl (fun m t => setWork (f t) m) m = { m with works := some ws' } ∧
      (∀ r, (∃ x ∈ ws, x.region = r) → ∃ x ∈ ws', x.region = r) ∧ (∀ x ∈ ws', x.status = .done → x ∈ ws) := by
  induction l generalizing m ws with
  | nil => exact ⟨ws, by simp [← h], fun _ h => h, fun _ h _ => h⟩
  | cons t l ih =>
    obtain ⟨ws1, h1⟩ : ∃ ws1, (setWork (f t) m).works = some ws1 := by unfold setWork; simp [h]
    obtain ⟨ws', a, b, c⟩ := ih (setWork (f t) m) ws1 h1
    refine ⟨ws', ?_, fun r hr => b r (setWork_covers h h1 hr), ?_⟩
    · rw [List.foldl_cons, a]; rfl
    · intro x hx hd
      have := c x hx hd
      rcases setWork_mem h h1 this with h' | h'
      · exact h'
      · rw [h'] at hd; exact absurd hd (hf t)

theorem foldl_setWork_none (f : Nat × RWork → RWork) (l : List (Nat × RWork)) (m : Meta) (h : m.works = none) :
    l.foldl (fun m t => setWork (f t) m) m = m := by
  induction l generalizing m with
  | nil => rfl
  | cons t l ih =>
    have : setWork (f t) m = m := by
      unfold setWork; rw [h]; simp only [Option.map_none]; cases m; simp only at h; subst h; rfl
    rw [List.foldl_cons, this]; exact ih m h

/-! ## The SQL nodes asked to wait for their transactions -/

structure Cast.Ok (c : Cast) : Prop where
  todo : c.todo.Nodup
  doing : c.doing.Nodup
  apart : ∀ d ∈ c.todo, d ∉ c.doing
  number : c.number = c.todo.length + c.doing.length

theorem length_filter_ne {a : Nat} {l : List Nat} (h : l.Nodup) : (l.filter (· ≠ a)).length = l.length - (if a ∈ l then 1 else 0) := by
  have : l.filter (· ≠ a) = l.erase a := by
    rw [List.Nodup.erase_eq_filter h a]
    congr 1; funext x
    by_cases e : x = a <;> simp [e]
  rw [this, List.length_erase]
  split <;> simp

theorem broadcast_ok {l : List Nat} (h : l.Nodup) : (broadcast l).Ok := ⟨h, by simp [broadcast], by simp [broadcast], by simp [broadcast]⟩

theorem castHandOver_ok {a : Nat} {c : Cast} (h : c.Ok) :
    (if a ∈ c.todo then (⟨c.todo.filter (· ≠ a), c.doing ++ [a], c.number⟩ : Cast) else c).Ok := by
  by_cases ha : a ∈ c.todo
  · rw [if_pos ha]
    refine ⟨h.todo.filter _, ?_, ?_, ?_⟩
    · rw [List.nodup_append]
      exact ⟨h.doing, by simp, by rintro x hx y hy rfl; simp at hy; subst hy; exact h.apart _ ha hx⟩
    · intro d hd hd'
      rw [List.mem_filter] at hd
      rcases List.mem_append.mp hd' with h1 | h1
      · exact h.apart d hd.1 h1
      · simp at h1; simp [h1] at hd
    · have := length_filter_ne (a := a) h.todo
      have hpos : 0 < c.todo.length := List.length_pos_of_mem ha
      rw [if_pos ha] at this
      simp only [List.length_append, List.length_cons, List.length_nil, this, h.number]
      omega
  · rw [if_neg ha]; exact h

theorem castDone_ok {a : Nat} {c : Cast} (h : c.Ok) (ha : a ∈ c.doing) :
    (⟨c.todo, c.doing.filter (· ≠ a), c.number - 1⟩ : Cast).Ok := by
  refine ⟨h.todo, h.doing.filter _, ?_, ?_⟩
  · intro d hd hd'
    exact h.apart d hd (List.mem_filter.mp hd').1
  · have := length_filter_ne (a := a) h.doing
    have hpos : 0 < c.doing.length := List.length_pos_of_mem ha
    rw [if_pos ha] at this
    simp only [this, h.number]
    omega

theorem castLost_ok {a : Nat} {c : Cast} (h : c.Ok) :
    (⟨c.todo.filter (· ≠ a), c.doing.filter (· ≠ a),
      c.number - (if a ∈ c.todo then 1 else 0) - (if a ∈ c.doing then 1 else 0)⟩ : Cast).Ok := by
  refine ⟨h.todo.filter _, h.doing.filter _, ?_, ?_⟩
  · intro d hd hd'
    exact h.apart d (List.mem_filter.mp hd).1 (List.mem_filter.mp hd').1
  · have h1 := length_filter_ne (a := a) h.todo
    have h2 := length_filter_ne (a := a) h.doing
    simp only [h1, h2, h.number]
    by_cases a1 : a ∈ c.todo
    · have : 0 < c.todo.length := List.length_pos_of_mem a1
      have a2 := h.apart a a1
      simp only [a1, a2, if_true, if_false]; omega
    · by_cases a2 : a ∈ c.doing
      · have : 0 < c.doing.length := List.length_pos_of_mem a2
        simp only [a1, a2, if_true, if_false]; omega
      · simp only [a1, a2, if_false]; omega

theorem Cast.Ok.all_done {c : Cast} (h : c.Ok) (hn : c.number = 0) : c.todo = [] ∧ c.doing = [] := by
  have := h.number
  rw [hn] at this
  exact ⟨List.eq_nil_of_length_eq_zero (by omega), List.eq_nil_of_length_eq_zero (by omega)⟩

end BaikalDB.Ddl
