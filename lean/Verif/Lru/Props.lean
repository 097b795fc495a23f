import Verif.Lru.Model
import Mathlib.Tactic.Common
import Mathlib.Data.List.Perm.Subperm
/-
C16: what a lookup returns, what is kept and what is evicted, for every operation sequence and threshold.
-/
set_option linter.unusedSectionVars false

namespace BaikalDB.Lru

variable {K V : Type} [DecidableEq K]

namespace Spec

/-- The number of entries the cache really holds: one less than the configured threshold, at least one. -/
def capacity (T : Int) : Nat := max 1 (T - 1).toNat

/-- The value of the latest `add` of k in the history that was not deleted since. -/
def latest (k : K) : List (Op K V) → Option V → Option V
  | [], r => r
  | .add k' v :: h, r => latest k h (if k' = k then some v else r)
  | .del k' :: h, r => latest k h (if k' = k then none else r)
  | .clear :: h, _ => latest k h none
  | .find _ :: h, r => latest k h r

/-- Operations that neither use nor remove k. -/
def avoids (k : K) : Op K V → Prop
  | .add k' _ => k' ≠ k
  | .find k' => k' ≠ k
  | .del k' => k' ≠ k
  | .clear => False

/-- The key an operation uses (adds or looks up). -/
def used : Op K V → Option K
  | .add k _ => some k
  | .find k => some k
  | _ => none

def added : Op K V → Option K
  | .add k _ => some k
  | _ => none

def isDel : Op K V → Prop
  | .del _ => True
  | .clear => True
  | _ => False

end Spec
open Spec

def keys (c : Cache K V) : List K := c.map (·.1)

theorem keys_unlink (k : K) (c : Cache K V) : keys (unlink k c) = (keys c).filter (· ≠ k) := by
  simp only [keys, unlink, List.filter_map]; rfl

theorem evict_suffix (T : Int) (c : Cache K V) : ∃ p, c = p ++ evict T c := by
  induction c with
  | nil => exact ⟨[], rfl⟩
  | cons x r ih =>
    unfold evict
    split
    · obtain ⟨p, hp⟩ := ih
      exact ⟨x :: p, by rw [List.cons_append, ← hp]⟩
    · exact ⟨[], rfl⟩

theorem evict_length (T : Int) (c : Cache K V) : (evict T c).length + 1 ≤ capacity T := by
  induction c with
  | nil => simp [evict, capacity]; omega
  | cons x r ih =>
    unfold evict
    split
    · exact ih
    · rename_i h
      simp only [capacity, List.length_cons] at h ⊢
      omega

/-- Nothing is evicted while there is room. -/
theorem evict_id (T : Int) (c : Cache K V) (h : c.length + 1 ≤ capacity T) : evict T c = c := by
  cases c with
  | nil => rfl
  | cons x r =>
    unfold evict
    rw [if_neg]
    simp only [capacity, List.length_cons] at h ⊢
    omega

theorem unlink_id {k : K} {c : Cache K V} (h : k ∉ keys c) : unlink k c = c := by
  unfold unlink
  rw [List.filter_eq_self]
  intro x hx
  simp only [decide_not, Bool.not_eq_true', decide_eq_false_iff_not]
  exact fun e => h (e ▸ List.mem_map_of_mem hx)

theorem mem_keys_unlink {k j : K} {c : Cache K V} : j ∈ keys (unlink k c) ↔ j ∈ keys c ∧ j ≠ k := by
  rw [keys_unlink]; simp [List.mem_filter]

structure Good (T : Int) (c : Cache K V) : Prop where
  nodup : (keys c).Nodup
  size : c.length ≤ capacity T

theorem find_mem {k : K} {c : Cache K V} {x : K × V} (h : c.find? (fun x => x.1 = k) = some x) : x ∈ c ∧ x.1 = k := by
  refine ⟨List.mem_of_find?_eq_some h, ?_⟩
  have := List.find?_some h
  simpa using this

theorem find_none {k : K} {c : Cache K V} (h : c.find? (fun x => x.1 = k) = none) : k ∉ keys c := by
  rw [List.find?_eq_none] at h
  intro hk
  obtain ⟨x, hx, rfl⟩ := List.mem_map.1 hk
  exact h x hx (by simp)

/-- With distinct keys, lookup is membership. -/
theorem find_iff {k : K} {c : Cache K V} {v : V} (h : (keys c).Nodup) : (find k c).1 = some v ↔ (k, v) ∈ c := by
  unfold find
  split
  · rename_i x hx
    obtain ⟨h1, h2⟩ := find_mem hx
    subst h2
    simp only [Option.some.injEq]
    constructor
    · rintro rfl; exact h1
    · intro hv
      by_contra hne
      have : ∀ (c : Cache K V), (keys c).Nodup → x ∈ c → (x.1, v) ∈ c → x.2 = v := by
        intro c
        induction c with
        | nil => intro _ h; cases h
        | cons y r ih =>
          intro hn hx hv
          simp only [keys, List.map_cons, List.nodup_cons] at hn
          rcases List.mem_cons.1 hx with rfl | hx <;> rcases List.mem_cons.1 hv with e | hv
          · rw [← e]
          · exact absurd (List.mem_map.2 ⟨_, hv, rfl⟩) hn.1
          · exact absurd (List.mem_map.2 ⟨_, hx, by rw [← e]⟩) hn.1
          · exact ih hn.2 hx hv
      exact hne (this c h h1 hv)
  · rename_i hx
    have := find_none hx
    simp only [reduceCtorEq, false_iff]
    exact fun hv => this (List.mem_map.2 ⟨_, hv, rfl⟩)

theorem nodup_unlink {k : K} {c : Cache K V} (h : (keys c).Nodup) : (keys (unlink k c)).Nodup := by
  rw [keys_unlink]; exact h.filter _

theorem nodup_append_single {k : K} {v : V} {c : Cache K V} (h : (keys c).Nodup) (hk : k ∉ keys c) :
    (keys (c ++ [(k, v)])).Nodup := by
  simp only [keys, List.map_append, List.map_cons, List.map_nil]
  rw [List.nodup_append]
  exact ⟨h, by simp, by
    intro a ha b hb hab
    simp only [List.mem_singleton] at hb
    subst hb; subst hab; exact hk ha⟩

theorem unlink_length_lt {k : K} {c : Cache K V} (h : k ∈ keys c) : (unlink k c).length + 1 ≤ c.length := by
  obtain ⟨x, hx, rfl⟩ := List.mem_map.1 h
  have := List.length_filter_lt_length_iff_exists (p := fun y : K × V => decide (y.1 ≠ x.1)) (l := c)
  have := this.2 ⟨x, hx, by simp⟩
  unfold unlink
  omega

theorem good_step {T : Int} {c : Cache K V} (h : Good T c) (o : Op K V) : Good T (step T c o) := by
  cases o with
  | add k v =>
    obtain ⟨p, hp⟩ := evict_suffix T (unlink k c)
    refine ⟨?_, by simp only [step, add, List.length_append, List.length_singleton]; exact evict_length T _⟩
    have h1 : (keys (unlink k c)).Nodup := nodup_unlink h.nodup
    apply nodup_append_single
    · rw [hp] at h1
      simp only [keys, List.map_append] at h1
      exact (List.nodup_append.1 h1).2.1
    · intro hk
      have : k ∈ keys (unlink k c) := by rw [hp]; simp only [keys, List.map_append, List.mem_append]; exact .inr hk
      exact (mem_keys_unlink.1 this).2 rfl
  | find k =>
    simp only [step, find]
    split
    · rename_i x hx
      obtain ⟨h1, rfl⟩ := find_mem hx
      refine ⟨nodup_append_single (nodup_unlink h.nodup) (fun e => (mem_keys_unlink.1 e).2 rfl), ?_⟩
      have := unlink_length_lt (List.mem_map.2 ⟨x, h1, rfl⟩ : x.1 ∈ keys c)
      have := h.size
      simp only [List.length_append, List.length_singleton]; omega
    · exact h
  | del k =>
    refine ⟨nodup_unlink h.nodup, Nat.le_trans (List.length_filter_le ..) h.size⟩
  | clear => exact ⟨.nil, by simp [step]⟩

theorem good_run {T : Int} {c : Cache K V} (h : Good T c) (ops : List (Op K V)) : Good T (run T c ops) := by
  induction ops generalizing c with
  | nil => exact h
  | cons o ops ih => exact ih (good_step h o)

theorem good_nil (T : Int) : Good T ([] : Cache K V) := ⟨.nil, by simp⟩

/-- C16: the cache never holds more than its capacity (one less than the configured threshold). -/
theorem C16_size (T : Int) (ops : List (Op K V)) : (run T [] ops).length ≤ capacity T ∧ (keys (run T [] ops)).Nodup :=
  ⟨(good_run (good_nil T) ops).size, (good_run (good_nil T) ops).nodup⟩

theorem mem_evict {T : Int} {c : Cache K V} {x : K × V} (h : x ∈ evict T c) : x ∈ c := by
  obtain ⟨p, hp⟩ := evict_suffix T c
  rw [hp]; exact List.mem_append_right _ h

theorem mem_unlink {k : K} {c : Cache K V} {x : K × V} : x ∈ unlink k c ↔ x ∈ c ∧ x.1 ≠ k := by
  simp [unlink, List.mem_filter]

theorem latest_step (k : K) (T : Int) : ∀ (ops : List (Op K V)) (c : Cache K V) (r : Option V),
    (∀ v, (k, v) ∈ c → r = some v) → ∀ v, (k, v) ∈ run T c ops → latest k ops r = some v := by
  intro ops
  induction ops with
  | nil => intro c r h v hv; exact h v hv
  | cons o ops ih =>
    intro c r h v hv
    cases o with
    | add j w =>
      refine ih (step T c (.add j w)) _ ?_ v hv
      intro u hu
      simp only [step, add, List.mem_append, List.mem_singleton, Prod.mk.injEq] at hu
      rcases hu with hu | ⟨rfl, rfl⟩
      · obtain ⟨h1, h2⟩ := mem_unlink.1 (mem_evict hu)
        rw [if_neg (fun e => h2 e.symm)]
        exact h u h1
      · simp
    | find j =>
      refine ih (step T c (.find j)) _ ?_ v hv
      intro u hu
      simp only [step, find] at hu
      split at hu
      · rename_i x hx
        rcases List.mem_append.1 hu with hu | hu
        · exact h u (mem_unlink.1 hu).1
        · simp only [List.mem_singleton] at hu
          subst hu
          exact h u (find_mem hx).1
      · exact h u hu
    | del j =>
      refine ih (step T c (.del j)) _ ?_ v hv
      intro u hu
      obtain ⟨h1, h2⟩ := mem_unlink.1 (show (k, u) ∈ unlink j c from hu)
      rw [if_neg (fun e => h2 e.symm)]
      exact h u h1
    | clear =>
      refine ih [] _ ?_ v hv
      intro u hu; cases hu

/-- C16: a lookup that hits returns the value of the latest add of that key, and the key was not deleted since. -/
theorem C16_find_latest (T : Int) (ops : List (Op K V)) (k : K) (v : V) (h : (find k (run T [] ops)).1 = some v) :
    latest k ops none = some v := by
  rw [find_iff (C16_size T ops).2] at h
  exact latest_step k T ops [] none (by intro v h; cases h) v h

/-- `check` agrees with `find`, and neither changes what is cached. -/
theorem C16_check (c : Cache K V) (k : K) : check k c = (find k c).1.isSome := by
  unfold check find; split <;> rename_i h <;> rw [h] <;> rfl

theorem C16_find_keeps (c : Cache K V) (hn : (keys c).Nodup) (k j : K) (v : V) :
    (j, v) ∈ (find k c).2 ↔ (j, v) ∈ c := by
  unfold find
  split
  · rename_i x hx
    obtain ⟨h1, rfl⟩ := find_mem hx
    have hfx : (find x.1 c).1 = some x.2 := by unfold find; rw [hx]
    simp only [List.mem_append, mem_unlink, List.mem_singleton]
    constructor
    · rintro (h | h)
      · exact h.1
      · rw [h]; exact h1
    · intro h
      by_cases e : j = x.1
      · right
        subst e
        have := (find_iff hn).2 h
        rw [hfx] at this
        simp only [Option.some.injEq] at this
        rw [← this]
      · exact .inl ⟨h, e⟩
  · rfl

/-- Split of the cache around k: what was used after k is behind it. -/
theorem evict_split (T : Int) (a s : Cache K V) (x : K × V) (h : (x :: s).length + 1 < T) :
    ∃ a', evict T (a ++ x :: s) = a' ++ x :: s := by
  induction a with
  | nil =>
    refine ⟨[], ?_⟩
    simp only [List.nil_append]
    unfold evict
    rw [if_neg]
    omega
  | cons y a ih =>
    simp only [List.cons_append]
    unfold evict
    split
    · exact ih
    · exact ⟨y :: a, rfl⟩

/-- The kept part of a split cache: either it still has x with everything behind it, or x is gone. -/
theorem evict_split' (T : Int) (a s : Cache K V) (x : K × V) :
    (∃ a', evict T (a ++ x :: s) = a' ++ x :: s) ∨ ∃ p, s = p ++ evict T (a ++ x :: s) := by
  induction a with
  | nil =>
    simp only [List.nil_append]
    unfold evict
    split
    · obtain ⟨p, hp⟩ := evict_suffix T s
      exact .inr ⟨p, hp⟩
    · exact .inl ⟨[], rfl⟩
  | cons y a ih =>
    simp only [List.cons_append]
    unfold evict
    split
    · exact ih
    · exact .inl ⟨y :: a, rfl⟩

theorem unlink_append (k : K) (a b : Cache K V) : unlink k (a ++ b) = unlink k a ++ unlink k b := List.filter_append ..

theorem unlink_cons_ne {k : K} {x : K × V} (h : x.1 ≠ k) (s : Cache K V) : unlink k (x :: s) = x :: unlink k s :=
  List.filter_cons_of_pos (by simpa using h)

/-- C16 (recently used entries are kept): after k was used - it is the last node of the list - and then only operations on
other keys followed, using fewer than `capacity` different keys, k is still cached with the same value. -/
theorem kept_aux (T : Int) (k : K) (v : V) : ∀ (ops : List (Op K V)) (a s : Cache K V) (seen : K → Prop),
    (keys (a ++ (k, v) :: s)).Nodup →
    (∀ j ∈ keys s, seen j) → (∀ o ∈ ops, avoids k o) →
    (∀ l : List K, l.Nodup → (∀ j ∈ l, seen j ∨ ∃ o ∈ ops, used o = some j) → l.length < capacity T) →
    ∃ a' s', run T (a ++ (k, v) :: s) ops = a' ++ (k, v) :: s' := by
  intro ops
  induction ops with
  | nil => intro a s _ _ _ _ _; exact ⟨a, s, rfl⟩
  | cons o ops ih =>
    intro a s seen hnd hs hav hcap
    have hav' : ∀ o ∈ ops, avoids k o := fun o ho => hav o (List.mem_cons_of_mem _ ho)
    have ho := hav o (List.mem_cons_self)
    cases o with
    | clear => exact absurd ho id
    | del j =>
      have hne : k ≠ j := fun e => ho e.symm
      have e : step T (a ++ (k, v) :: s) (.del j) = unlink j a ++ (k, v) :: unlink j s := by
        simp only [step, del]; rw [unlink_append, unlink_cons_ne hne]
      show ∃ a' s', run T (step T (a ++ (k, v) :: s) (.del j)) ops = _
      have hg : (keys (step T (a ++ (k, v) :: s) (.del j))).Nodup := nodup_unlink hnd
      rw [e] at hg ⊢
      refine ih _ _ seen hg (fun i hi => hs i (mem_keys_unlink.1 hi).1) hav' ?_
      intro l hl hm
      refine hcap l hl (fun i hi => ?_)
      rcases hm i hi with h | ⟨o, h1, h2⟩
      · exact .inl h
      · exact .inr ⟨o, List.mem_cons_of_mem _ h1, h2⟩
    | find j =>
      have hne : k ≠ j := fun e => ho e.symm
      show ∃ a' s', run T (step T (a ++ (k, v) :: s) (.find j)) ops = _
      have hg : (keys (step T (a ++ (k, v) :: s) (.find j))).Nodup := by
        -- distinctness is kept by any step; use a threshold with room
        have := good_step (T := ((a ++ (k, v) :: s).length : Int) + 1)
          ⟨hnd, by simp only [capacity]; omega⟩ (.find j)
        exact this.nodup
      have hcap' : ∀ l : List K, l.Nodup → (∀ i ∈ l, (seen i ∨ i = j) ∨ ∃ o ∈ ops, used o = some i) → l.length < capacity T := by
        intro l hl hm
        refine hcap l hl (fun i hi => ?_)
        rcases hm i hi with (h | rfl) | ⟨o, h1, h2⟩
        · exact .inl h
        · exact .inr ⟨_, List.mem_cons_self, rfl⟩
        · exact .inr ⟨o, List.mem_cons_of_mem _ h1, h2⟩
      simp only [step, find] at hg ⊢
      split at hg
      · rename_i x hx
        obtain ⟨-, hxj⟩ := find_mem hx
        rw [unlink_append, unlink_cons_ne hne, List.append_assoc, List.cons_append] at hg
        simp only []
        rw [unlink_append, unlink_cons_ne hne, List.append_assoc, List.cons_append]
        refine ih _ _ (fun i => seen i ∨ i = j) hg ?_ hav' hcap'
        intro i hi
        simp only [keys, List.map_append, List.map_cons, List.map_nil, List.mem_append, List.mem_singleton] at hi
        rcases hi with hi | rfl
        · exact .inl (hs i (mem_keys_unlink.1 hi).1)
        · exact .inr hxj
      · exact ih _ _ _ hg (fun i hi => .inl (hs i hi)) hav' hcap'
    | add j w =>
      have hne : k ≠ j := fun e => ho e.symm
      show ∃ a' s', run T (step T (a ++ (k, v) :: s) (.add j w)) ops = _
      have hg : (keys (step T (a ++ (k, v) :: s) (.add j w))).Nodup := by
        obtain ⟨p, hp⟩ := evict_suffix T (unlink j (a ++ (k, v) :: s))
        have h1 := nodup_unlink (k := j) hnd
        apply nodup_append_single
        · rw [hp] at h1
          simp only [keys, List.map_append] at h1
          exact (List.nodup_append.1 h1).2.1
        · intro hk
          have : j ∈ keys (unlink j (a ++ (k, v) :: s)) := by
            rw [hp]; simp only [keys, List.map_append, List.mem_append]; exact .inr hk
          exact (mem_keys_unlink.1 this).2 rfl
      simp only [step, add] at hg ⊢
      rw [unlink_append, unlink_cons_ne hne] at hg ⊢
      -- j and the keys behind k are all among the used ones
      have hsn : (keys s).Nodup := by
        simp only [keys, List.map_append, List.map_cons] at hnd
        exact (List.nodup_cons.1 (List.nodup_append.1 hnd).2.1).2
      have hlen := hcap (j :: keys (unlink j s)) (List.nodup_cons.2 ⟨fun h => (mem_keys_unlink.1 h).2 rfl, nodup_unlink hsn⟩)
        (by
          intro i hi
          rcases List.mem_cons.1 hi with rfl | hi
          · exact .inr ⟨_, List.mem_cons_self, rfl⟩
          · exact .inl (hs i (mem_keys_unlink.1 hi).1))
      have hlt : (((k, v) :: unlink j s).length + 1 : Int) < T := by
        simp only [keys, List.length_cons, List.length_map, capacity] at hlen ⊢
        omega
      obtain ⟨a', ha'⟩ := evict_split T (unlink j a) (unlink j s) (k, v) hlt
      rw [ha'] at hg ⊢
      rw [List.append_assoc, List.cons_append] at hg ⊢
      refine ih _ _ (fun i => seen i ∨ i = j) hg ?_ hav' ?_
      · intro i hi
        simp only [keys, List.map_append, List.map_cons, List.map_nil, List.mem_append, List.mem_singleton] at hi
        rcases hi with hi | rfl
        · exact .inl (hs i (mem_keys_unlink.1 hi).1)
        · exact .inr rfl
      · intro l hl hm
        refine hcap l hl (fun i hi => ?_)
        rcases hm i hi with (h | rfl) | ⟨o, h1, h2⟩
        · exact .inl h
        · exact .inr ⟨_, List.mem_cons_self, rfl⟩
        · exact .inr ⟨o, List.mem_cons_of_mem _ h1, h2⟩

/-- Using a key puts it last. -/
theorem use_last {T : Int} {c : Cache K V} (k : K) (v : V) :
    (∃ a, step T c (.add k v) = a ++ [(k, v)]) ∧ ((find k c).1 = some v → ∃ a, step T c (.find k) = a ++ [(k, v)]) := by
  refine ⟨⟨_, rfl⟩, fun h => ?_⟩
  simp only [step, find] at h ⊢
  split at h
  · rename_i x hx
    obtain ⟨-, rfl⟩ := find_mem hx
    simp only [Option.some.injEq] at h
    subst h
    exact ⟨_, rfl⟩
  · cases h

/-- C16: an entry is kept as long as fewer than `capacity` different keys have been used since it was used last (added, or
found), it was not deleted and the cache not cleared: a lookup then still returns its value. -/
theorem C16_recent_kept (T : Int) (before after : List (Op K V)) (k : K) (v : V) (u : Op K V)
    (hu : u = .add k v ∨ (u = .find k ∧ (find k (run T [] before)).1 = some v))
    (hav : ∀ o ∈ after, avoids k o)
    (hcap : ∀ l : List K, l.Nodup → (∀ j ∈ l, ∃ o ∈ after, used o = some j) → l.length < capacity T) :
    (find k (run T [] (before ++ u :: after))).1 = some v := by
  have hrun : run T [] (before ++ u :: after) = run T (step T (run T [] before) u) after := by
    simp [run, List.foldl_append]
  have hg := good_step (good_run (good_nil T) before) u
  have hlast : ∃ a, step T (run T [] before) u = a ++ [(k, v)] := by
    rcases hu with rfl | ⟨rfl, h⟩
    · exact (use_last k v).1
    · exact (use_last k v).2 h
  obtain ⟨a, ha⟩ := hlast
  have hgr := good_run hg after
  rw [ha] at hg hgr hrun
  obtain ⟨a', s', h'⟩ := kept_aux T k v after a [] (fun _ => False) hg.nodup (by simp [keys]) hav (by
    intro l hl hm
    exact hcap l hl (fun j hj => (hm j hj).resolve_left id))
  rw [find_iff (C16_size T _).2, hrun, h']
  simp

theorem gone_aux (T : Int) (k : K) : ∀ (ops : List (Op K V)) (c : Cache K V), k ∉ keys c → (∀ o ∈ ops, avoids k o) →
    k ∉ keys (run T c ops) := by
  intro ops
  induction ops with
  | nil => intro c h _; exact h
  | cons o ops ih =>
    intro c h hav
    refine ih _ ?_ (fun o ho => hav o (List.mem_cons_of_mem _ ho))
    have ho := hav o List.mem_cons_self
    intro hk
    obtain ⟨⟨k', v⟩, hx, rfl⟩ := List.mem_map.1 hk
    cases o with
    | clear => exact absurd ho id
    | del j => exact h (List.mem_map_of_mem (mem_unlink.1 (show _ ∈ unlink j c from hx)).1)
    | add j w =>
      simp only [step, add, List.mem_append, List.mem_singleton] at hx
      rcases hx with hx | hx
      · exact h (List.mem_map_of_mem (mem_unlink.1 (mem_evict hx)).1)
      · cases hx; exact ho rfl
    | find j =>
      simp only [step, find] at hx
      split at hx
      · rename_i x hx'
        rcases List.mem_append.1 hx with hx | hx
        · exact h (List.mem_map_of_mem (mem_unlink.1 hx).1)
        · simp only [List.mem_singleton] at hx
          subst hx
          exact h (List.mem_map_of_mem (find_mem hx').1)
      · exact h (List.mem_map_of_mem hx)

theorem evicted_aux (T : Int) (k : K) (v : V) : ∀ (ops : List (Op K V)) (a s : Cache K V),
    k ∉ keys a → k ∉ keys s → (∀ o ∈ ops, avoids k o ∧ ¬ isDel o) →
    k ∉ keys (run T (a ++ (k, v) :: s) ops) ∨
    ∃ a' s', run T (a ++ (k, v) :: s) ops = a' ++ (k, v) :: s' ∧ (∀ j ∈ keys s, j ∈ keys s') ∧
      ∀ j, (∃ o ∈ ops, added o = some j) → j ∈ keys s' := by
  intro ops
  induction ops with
  | nil => intro a s _ _ _; exact .inr ⟨a, s, rfl, fun _ h => h, by simp⟩
  | cons o ops ih =>
    intro a s hka hks hav
    have hav' : ∀ o ∈ ops, avoids k o ∧ ¬ isDel o := fun o ho => hav o (List.mem_cons_of_mem _ ho)
    obtain ⟨ho, hd⟩ := hav o List.mem_cons_self
    have hu : ∀ j, k ∉ keys (unlink j a) := fun j h => hka (mem_keys_unlink.1 h).1
    cases o with
    | clear => exact absurd ho id
    | del j => exact absurd trivial hd
    | find j =>
      have hne : k ≠ j := fun e => ho e.symm
      show k ∉ keys (run T (step T (a ++ (k, v) :: s) (.find j)) ops) ∨
        ∃ a' s', run T (step T (a ++ (k, v) :: s) (.find j)) ops = _ ∧ _
      simp only [step, find]
      split
      · rename_i x hx
        obtain ⟨-, hxj⟩ := find_mem hx
        simp only []
        rw [unlink_append, unlink_cons_ne hne, List.append_assoc, List.cons_append]
        rcases ih (unlink j a) (unlink j s ++ [x]) (hu j) (by
            intro h
            simp only [keys, List.map_append, List.map_cons, List.map_nil, List.mem_append, List.mem_singleton] at h
            rcases h with h | h
            · exact hks (mem_keys_unlink.1 h).1
            · exact hne (h.trans hxj)) hav' with h | ⟨a', s', h1, h2, h3⟩
        · exact .inl h
        · refine .inr ⟨a', s', h1, ?_, ?_⟩
          · intro i hi
            apply h2
            simp only [keys, List.map_append, List.map_cons, List.map_nil, List.mem_append, List.mem_singleton]
            by_cases e : i = j
            · exact .inr (e.trans hxj.symm)
            · exact .inl (mem_keys_unlink.2 ⟨hi, e⟩)
          · rintro i ⟨o, ho', hoi⟩
            rcases List.mem_cons.1 ho' with rfl | ho'
            · cases hoi
            · exact h3 i ⟨o, ho', hoi⟩
      · simp only []
        rcases ih a s hka hks hav' with h | ⟨a', s', h1, h2, h3⟩
        · exact .inl h
        · refine .inr ⟨a', s', h1, h2, ?_⟩
          rintro i ⟨o, ho', hoi⟩
          rcases List.mem_cons.1 ho' with rfl | ho'
          · cases hoi
          · exact h3 i ⟨o, ho', hoi⟩
    | add j w =>
      have hne : k ≠ j := fun e => ho e.symm
      show k ∉ keys (run T (step T (a ++ (k, v) :: s) (.add j w)) ops) ∨
        ∃ a' s', run T (step T (a ++ (k, v) :: s) (.add j w)) ops = _ ∧ _
      simp only [step, add]
      rw [unlink_append, unlink_cons_ne hne]
      rcases evict_split' T (unlink j a) (unlink j s) (k, v) with ⟨b, hb⟩ | ⟨p, hp⟩
      · rw [hb, List.append_assoc, List.cons_append]
        have hkb : k ∉ keys b := by
          obtain ⟨q, hq⟩ := evict_suffix T (unlink j a ++ (k, v) :: unlink j s)
          rw [hb, ← List.append_assoc] at hq
          have := List.append_cancel_right hq
          intro h
          apply hu j
          rw [this]
          simp only [keys, List.map_append, List.mem_append]
          exact .inr h
        rcases ih b (unlink j s ++ [(j, w)]) hkb (by
            intro h
            simp only [keys, List.map_append, List.map_cons, List.map_nil, List.mem_append, List.mem_singleton] at h
            rcases h with h | h
            · exact hks (mem_keys_unlink.1 h).1
            · exact hne h) hav' with h | ⟨a', s', h1, h2, h3⟩
        · exact .inl h
        · have hmem : ∀ i, i ∈ keys s ∨ i = j → i ∈ keys s' := by
            intro i hi
            apply h2
            simp only [keys, List.map_append, List.map_cons, List.map_nil, List.mem_append, List.mem_singleton]
            by_cases e : i = j
            · exact .inr e
            · exact .inl (mem_keys_unlink.2 ⟨hi.resolve_right e, e⟩)
          refine .inr ⟨a', s', h1, fun i hi => hmem i (.inl hi), ?_⟩
          rintro i ⟨o, ho', hoi⟩
          rcases List.mem_cons.1 ho' with rfl | ho'
          · simp only [added, Option.some.injEq] at hoi
            exact hmem i (.inr hoi.symm)
          · exact h3 i ⟨o, ho', hoi⟩
      · left
        apply gone_aux
        · intro h
          simp only [keys, List.map_append, List.map_cons, List.map_nil, List.mem_append, List.mem_singleton] at h
          rcases h with h | h
          · have : k ∈ keys (unlink j s) := by
              rw [hp]; simp only [keys, List.map_append, List.mem_append]; exact .inr h
            exact hks (mem_keys_unlink.1 this).1
          · exact hne h
        · exact fun o ho => (hav' o ho).1

/-- C16 (the least recently used entry goes): once `capacity` different other keys were added since k was used last, and
nothing was deleted, k is not cached any more. -/
theorem C16_old_evicted (T : Int) (before after : List (Op K V)) (k : K) (v : V) (u : Op K V)
    (hu : u = .add k v ∨ (u = .find k ∧ (find k (run T [] before)).1 = some v))
    (hav : ∀ o ∈ after, avoids k o ∧ ¬ isDel o)
    (l : List K) (hl : l.Nodup) (hla : ∀ j ∈ l, ∃ o ∈ after, added o = some j) (hlen : capacity T ≤ l.length) :
    (find k (run T [] (before ++ u :: after))).1 = none := by
  have hrun : run T [] (before ++ u :: after) = run T (step T (run T [] before) u) after := by
    simp [run, List.foldl_append]
  have hg := good_step (good_run (good_nil T) before) u
  have hlast : ∃ a, step T (run T [] before) u = a ++ [(k, v)] := by
    rcases hu with rfl | ⟨rfl, h⟩
    · exact (use_last k v).1
    · exact (use_last k v).2 h
  obtain ⟨a, ha⟩ := hlast
  have hgr := good_run hg after
  rw [ha] at hg hgr hrun
  have hka : k ∉ keys a := by
    have := hg.nodup
    simp only [keys, List.map_append, List.map_cons, List.map_nil] at this
    intro h
    exact (List.nodup_append.1 this).2.2 k h k (by simp) rfl
  rw [hrun]
  rcases evicted_aux T k v after a [] hka (by simp [keys]) hav with h | ⟨a', s', h1, h2, h3⟩
  · cases hf : (find k (run T (a ++ [(k, v)]) after)).1 with
    | none => rfl
    | some w =>
      rw [find_iff hgr.nodup] at hf
      exact absurd (List.mem_map_of_mem hf) h
  · exfalso
    have hsz := hgr.size
    rw [h1] at hsz
    have : l.length ≤ (keys s').length := (List.subperm_of_subset hl (fun j hj => h3 j (hla j hj))).length_le
    simp only [keys, List.length_map, List.length_append, List.length_cons] at this hsz
    omega

/-- C16: deleting and clearing. -/
theorem C16_del (c : Cache K V) (k j : K) (v : V) : (j, v) ∈ del k c ↔ (j, v) ∈ c ∧ j ≠ k := mem_unlink

/-- Non-vacuity: threshold 4 keeps three entries. -/
example : run 4 [] [.add 1 'a', .add 2 'b', .find 1, .add 3 'c', .add 4 'd'] = [(1, 'a'), (3, 'c'), (4, 'd')] := by decide
example : (find 2 (run 4 [] [.add 1 'a', .add 2 'b', .find 1, .add 3 'c', .add 4 'd'])).1 = none := by decide
/-- The configured length is never reached: a threshold of 2 keeps one entry, as do 1, 0 and negative ones. -/
example : run 2 [] [.add 1 'a', .add 2 'b'] = [(2, 'b')] ∧ run (-5) [] [.add 1 'a', .add 2 'b'] = [(2, 'b')] := by decide

end BaikalDB.Lru
