import Verif.Dml.Spec
import Mathlib.Data.List.Basic
import Mathlib.Data.List.Induction
import Mathlib.Data.List.Nodup
import Mathlib.Data.List.Perm.Basic
/-! # Lemmas on rows and index entries -/
namespace BaikalDB.Dml
variable {V : Type}

/-! ### Reading -/

theorem dead_false (E : Env V) (e : Option Nat) : E.dead e = false ↔ ∀ t ∈ e, E.now ≤ t := by
  cases e <;> simp [Env.dead]

/-- The row under a key, if there is one. -/
def rowOf (T : Table V) (S : Store V) (k : Key V) : Rec V := fun f =>
  if f ∈ T.pk then T.ofKey k f else if f ∈ T.fields then T.read S k f else none

theorem read_or (T : Table V) (S : Store V) (k : Key V) (f : Nat) : T.read S k f = (S.col k f).or (T.dflt f) := by
  unfold Table.read; cases S.col k f <;> rfl

theorem view_some (T : Table V) (E : Env V) (S : Store V) (k : Key V) (x : Rec V) :
    view T E S k = some x ↔ E.inReg k = true ∧ (∃ e, S.here k = some e ∧ E.dead e = false) ∧ x = rowOf T S k := by
  simp only [view, dead_false]
  have hr : rowOf T S k = fun f => if f ∈ T.pk then ((T.pk.zip k).lookup f).join
      else if f ∈ T.fields then (S.col k f).or (T.dflt f) else none := by
    funext f; simp only [rowOf, read_or, Table.ofKey]
  split
  · rename_i h
    rw [Option.some.injEq, hr]
    constructor
    · intro h'; exact ⟨h.1, h.2, h'.symm⟩
    · intro h'; exact h'.2.2.symm
  · rename_i h
    simp only [reduceCtorEq, false_iff]
    intro h'; exact h ⟨h'.1, h'.2.1⟩

theorem view_none (T : Table V) (E : Env V) (S : Store V) (k : Key V) :
    view T E S k = none ↔ E.inReg k = false ∨ S.here k = none ∨ ∃ e, S.here k = some e ∧ E.dead e = true := by
  simp only [view, ← dead_false]
  split
  · rename_i h
    obtain ⟨h1, e, h2, h3⟩ := h
    simp [h1, h2, h3]
  · rename_i h
    simp only [true_iff]
    by_cases h1 : E.inReg k = true
    · right
      cases h2 : S.here k with
      | none => left; rfl
      | some e =>
        right; refine ⟨e, rfl, ?_⟩
        by_contra h3
        exact h ⟨h1, e, h2, by simpa using h3⟩
    · left; simpa using h1

theorem view_congr (T : Table V) (E : Env V) (S S' : Store V) (k : Key V) (h1 : S'.here k = S.here k) (h2 : S'.col k = S.col k) :
    view T E S' k = view T E S k := by
  simp only [view, h1, h2]

theorem lookup_zip_map (l : List Nat) (r : Rec V) (f : Nat) (h : f ∈ l) : (l.zip (l.map r)).lookup f = some (r f) := by
  induction l with
  | nil => simp at h
  | cons a l ih =>
    simp only [List.map_cons, List.zip_cons_cons, List.lookup_cons]
    by_cases hf : f = a
    · subst hf; simp
    · rw [beq_eq_false_iff_ne.2 hf]
      exact ih (by simpa [hf] using h)

theorem ofKey_keyOf (T : Table V) (r : Rec V) (f : Nat) (h : f ∈ T.pk) : T.ofKey (T.keyOf r) f = r f := by
  simp [Table.ofKey, Table.keyOf, lookup_zip_map _ _ _ h]

theorem map_lookup_zip (l : List Nat) (k : Key V) (h : l.Nodup) (hl : k.length = l.length) :
    l.map (fun f => ((l.zip k).lookup f).join) = k := by
  induction l generalizing k with
  | nil => cases k <;> simp_all
  | cons a l ih =>
    cases k with
    | nil => simp at hl
    | cons v k =>
      rw [List.nodup_cons] at h
      simp only [List.map_cons, List.zip_cons_cons, List.lookup_cons, beq_self_eq_true, Option.join]
      congr 1
      rw [← ih k h.2 (by simpa using hl)]
      apply List.map_congr_left
      intro f hf
      have : f ≠ a := fun e => h.1 (e ▸ hf)
      rw [beq_eq_false_iff_ne.2 this, ih k h.2 (by simpa using hl)]
      cases (List.lookup f (l.zip k)) <;> rfl

theorem keyOf_row (T : Table V) (hT : T.Ok) (S : Store V) (k : Key V) (hl : k.length = T.pk.length) : T.keyOf (rowOf T S k) = k := by
  conv_rhs => rw [← map_lookup_zip T.pk k hT.pk hl]
  apply List.map_congr_left
  intro f hf
  simp [rowOf, hf, Table.ofKey]

theorem mem_nonPk (T : Table V) (f : Nat) : f ∈ T.nonPk ↔ f ∈ T.fields ∧ f ∉ T.pk := by
  simp [Table.nonPk]

theorem all_get (T : Table V) (n : Nat) : T.all[n]? = T.indexes[n]?.map fun i => (n, i) := by
  simp only [Table.all]
  by_cases h : n < T.indexes.length
  · simp [h]
  · rw [List.getElem?_eq_none (by simp; omega), List.getElem?_eq_none (by omega)]; rfl

theorem mem_all (T : Table V) (j : Nat) (i : Index) : (j, i) ∈ T.all ↔ T.indexes[j]? = some i := by
  rw [List.mem_iff_getElem?]
  constructor
  · rintro ⟨n, hn⟩
    rw [all_get] at hn
    cases h : T.indexes[n]? with
    | none => rw [h] at hn; simp at hn
    | some i' => rw [h] at hn; simp at hn; obtain ⟨rfl, rfl⟩ := hn; exact h
  · intro h; exact ⟨j, by rw [all_get, h]; rfl⟩

theorem getPrimary_cases (T : Table V) (E : Env V) (S : Store V) (k : Key V) (fs : List Nat) (base : Rec V) :
    (getPrimary T E S k fs base = .outside ∧ E.inReg k = false ∧ view T E S k = none) ∨
    (getPrimary T E S k fs base = .absent ∧ E.inReg k = true ∧ S.here k = none ∧ view T E S k = none) ∨
    (getPrimary T E S k fs base = .expired ∧ E.inReg k = true ∧ (∃ e, S.here k = some e ∧ E.dead e = true) ∧ view T E S k = none) ∨
    (getPrimary T E S k fs base = .row (fun f => if f ∈ fs then T.read S k f else base f) ∧ E.inReg k = true ∧
      (∃ e, S.here k = some e ∧ E.dead e = false) ∧ view T E S k = some (rowOf T S k)) := by
  unfold getPrimary
  cases h : E.inReg k with
  | false => left; simp [view_none, h]
  | true =>
    right
    cases h2 : S.here k with
    | none => left; simp [view_none, h2]
    | some e =>
      right
      cases h3 : E.dead e with
      | true => left; simp [view_none, h2, h3]
      | false => right; simp [view_some, h, h2, h3]

/-! ### Writing -/
section
variable [DecidableEq V]

theorem fold_remove (T : Table V) (old : Rec V) (is : List (Nat × Index)) (S : Store V) :
    (is.foldl (fun S ji => removeSecondary T S ji.1 ji.2 old) S).here = S.here ∧
    (is.foldl (fun S ji => removeSecondary T S ji.1 ji.2 old) S).col = S.col ∧
    ∀ j y, ((∃ i, (j, i) ∈ is ∧ y = T.ekey i old) → (is.foldl (fun S ji => removeSecondary T S ji.1 ji.2 old) S).idx j y = none) ∧
      ((¬ ∃ i, (j, i) ∈ is ∧ y = T.ekey i old) → (is.foldl (fun S ji => removeSecondary T S ji.1 ji.2 old) S).idx j y = S.idx j y) := by
  induction is generalizing S with
  | nil => simp
  | cons a is ih =>
    obtain ⟨h1, h2, h3⟩ := ih (removeSecondary T S a.1 a.2 old)
    rw [List.foldl_cons]
    refine ⟨h1, h2, fun j y => ⟨?_, ?_⟩⟩
    · rintro ⟨i, hi, hy⟩
      by_cases hh : ∃ i, (j, i) ∈ is ∧ y = T.ekey i old
      · exact (h3 j y).1 hh
      · rw [(h3 j y).2 hh]
        rcases List.mem_cons.1 hi with rfl | hi
        · simp [removeSecondary, hy]
        · exact absurd ⟨i, hi, hy⟩ hh
    · intro hn
      rw [(h3 j y).2 (fun ⟨i, hi, hy⟩ => hn ⟨i, List.mem_cons_of_mem _ hi, hy⟩)]
      unfold removeSecondary
      simp only
      rw [if_neg]
      rintro ⟨rfl, hy⟩
      exact hn ⟨a.2, List.mem_cons_self, hy⟩

theorem fold_put (T : Table V) (E : Env V) (r : Rec V) (is : List (Nat × Index)) (S : Store V) :
    (is.foldl (fun S ji => putSecondary T E S ji.1 ji.2 r) S).here = S.here ∧
    (is.foldl (fun S ji => putSecondary T E S ji.1 ji.2 r) S).col = S.col ∧
    ∀ j y, ((∃ i, (j, i) ∈ is ∧ y = T.ekey i r) →
        (is.foldl (fun S ji => putSecondary T E S ji.1 ji.2 r) S).idx j y = some ⟨T.keyOf r, E.exp⟩) ∧
      ((¬ ∃ i, (j, i) ∈ is ∧ y = T.ekey i r) → (is.foldl (fun S ji => putSecondary T E S ji.1 ji.2 r) S).idx j y = S.idx j y) := by
  induction is generalizing S with
  | nil => simp
  | cons a is ih =>
    obtain ⟨h1, h2, h3⟩ := ih (putSecondary T E S a.1 a.2 r)
    rw [List.foldl_cons]
    refine ⟨h1, h2, fun j y => ⟨?_, ?_⟩⟩
    · rintro ⟨i, hi, hy⟩
      by_cases hh : ∃ i, (j, i) ∈ is ∧ y = T.ekey i r
      · exact (h3 j y).1 hh
      · rw [(h3 j y).2 hh]
        rcases List.mem_cons.1 hi with rfl | hi
        · simp [putSecondary, hy]
        · exact absurd ⟨i, hi, hy⟩ hh
    · intro hn
      rw [(h3 j y).2 (fun ⟨i, hi, hy⟩ => hn ⟨i, List.mem_cons_of_mem _ hi, hy⟩)]
      unfold putSecondary
      simp only
      rw [if_neg]
      rintro ⟨rfl, hy⟩
      exact hn ⟨a.2, List.mem_cons_self, hy⟩

variable (T : Table V) (E : Env V)

theorem remove_here (S : Store V) (is) (old : Rec V) (p : Bool) (k : Key V) :
    (removeRow T S is old p).here k = if p = true ∧ k = T.keyOf old then none else S.here k := by
  unfold removeRow
  rw [(fold_remove T old is _).1]
  cases p <;> simp [removePrimary]

theorem remove_col (S : Store V) (is) (old : Rec V) (p : Bool) (k : Key V) (f : Nat) :
    (removeRow T S is old p).col k f = if p = true ∧ k = T.keyOf old then none else S.col k f := by
  unfold removeRow
  rw [(fold_remove T old is _).2.1]
  cases p <;> simp [removePrimary]

theorem remove_idx_in (S : Store V) (is) (old : Rec V) (p : Bool) (j : Nat) (y : Key V) (h : ∃ i, (j, i) ∈ is ∧ y = T.ekey i old) :
    (removeRow T S is old p).idx j y = none := ((fold_remove T old is _).2.2 j y).1 h

theorem remove_idx_out (S : Store V) (is) (old : Rec V) (p : Bool) (j : Nat) (y : Key V) (h : ¬ ∃ i, (j, i) ∈ is ∧ y = T.ekey i old) :
    (removeRow T S is old p).idx j y = S.idx j y := by
  unfold removeRow
  rw [((fold_remove T old is _).2.2 j y).2 h]
  cases p <;> rfl

theorem write_here (S : Store V) (is) (r : Rec V) (u) (k : Key V) :
    (writeRow T E S is r u).here k = if k = T.keyOf r then some E.exp else S.here k := by
  unfold writeRow putPrimary
  simp only [(fold_put T E r is _).1]

theorem write_col_ne (S : Store V) (is) (r : Rec V) (u) (k : Key V) (h : k ≠ T.keyOf r) :
    (writeRow T E S is r u).col k = S.col k := by
  unfold writeRow putPrimary
  simp only [(fold_put T E r is _).2.1, if_neg h]

theorem write_idx_in (S : Store V) (is) (r : Rec V) (u) (j : Nat) (y : Key V) (h : ∃ i, (j, i) ∈ is ∧ y = T.ekey i r) :
    (writeRow T E S is r u).idx j y = some ⟨T.keyOf r, E.exp⟩ := ((fold_put T E r is _).2.2 j y).1 h

theorem write_idx_out (S : Store V) (is) (r : Rec V) (u) (j : Nat) (y : Key V) (h : ¬ ∃ i, (j, i) ∈ is ∧ y = T.ekey i r) :
    (writeRow T E S is r u).idx j y = S.idx j y := ((fold_put T E r is _).2.2 j y).2 h

theorem removeRow_congr (S : Store V) (is : List (Nat × Index)) (a b : Rec V) (p : Bool) (h1 : ∀ ji ∈ is, T.ekey ji.2 a = T.ekey ji.2 b)
    (h2 : T.keyOf a = T.keyOf b) : removeRow T S is a p = removeRow T S is b p := by
  unfold removeRow
  rw [h2]
  generalize (if p = true then removePrimary S (T.keyOf b) else S) = S'
  clear h2
  induction is generalizing S' with
  | nil => rfl
  | cons x is ih =>
    rw [List.foldl_cons, List.foldl_cons]
    have : removeSecondary T S' x.1 x.2 a = removeSecondary T S' x.1 x.2 b := by
      unfold removeSecondary; rw [h1 x List.mem_cons_self]
    rw [this]
    exact ih (fun ji h => h1 ji (List.mem_cons_of_mem _ h)) _

theorem writeRow_congr (S : Store V) (is : List (Nat × Index)) (a b : Rec V) (u) (h1 : ∀ ji ∈ is, T.ekey ji.2 a = T.ekey ji.2 b)
    (h2 : T.keyOf a = T.keyOf b) (h3 : ∀ f ∈ T.nonPk, (T.cstore = true → ∀ us, u = some us → f ∈ us) → a f = b f) :
    writeRow T E S is a u = writeRow T E S is b u := by
  have hs : is.foldl (fun S ji => putSecondary T E S ji.1 ji.2 a) S = is.foldl (fun S ji => putSecondary T E S ji.1 ji.2 b) S := by
    clear h3
    induction is generalizing S with
    | nil => rfl
    | cons x is ih =>
      rw [List.foldl_cons, List.foldl_cons]
      have : putSecondary T E S x.1 x.2 a = putSecondary T E S x.1 x.2 b := by
        unfold putSecondary; rw [h1 x List.mem_cons_self, h2]
      rw [this]
      exact ih _ (fun ji h => h1 ji (List.mem_cons_of_mem _ h))
  unfold writeRow
  rw [hs]
  unfold putPrimary
  rw [h2]
  congr 1
  funext k f
  by_cases hk : k = T.keyOf b
  · rw [if_pos hk, if_pos hk]
    by_cases hf : f ∈ T.nonPk
    · rw [if_pos hf, if_pos hf]
      have hst : (T.cstore = true → ∀ us, u = some us → f ∈ us) → T.stored a f = T.stored b f := by
        intro h; unfold Table.stored; rw [h3 f hf h]
      by_cases hc : T.cstore = true
      · rw [if_pos hc, if_pos hc]
        cases u with
        | none => simp only; rw [hst (by simp)]
        | some us =>
          simp only
          by_cases hu : f ∈ us
          · rw [if_pos hu, if_pos hu]; exact hst (fun _ us' h => by cases h; exact hu)
          · rw [if_neg hu, if_neg hu]
      · rw [if_neg hc, if_neg hc]; exact hst (fun h => absurd h hc)
    · rw [if_neg hf, if_neg hf]
  · rw [if_neg hk, if_neg hk]

omit [DecidableEq V] in
theorem getUniq_congr (S : Store V) (j : Nat) (i : Index) (a b : Rec V) (h : T.ekey i a = T.ekey i b) :
    getUniq T E S j i a = getUniq T E S j i b := by unfold getUniq; rw [h]

omit [DecidableEq V] in
theorem inWay_congr (S : Store V) (is : List (Nat × Index)) (a b : Rec V) (h1 : ∀ ji ∈ is, T.ekey ji.2 a = T.ekey ji.2 b) :
    inWay T E S a is = inWay T E S b is := by
  induction is with
  | nil => rfl
  | cons x is ih =>
    obtain ⟨j, i⟩ := x
    unfold inWay
    rw [getUniq_congr T E S j i a b (h1 (j, i) List.mem_cons_self), ih (fun ji h => h1 ji (List.mem_cons_of_mem _ h))]

omit [DecidableEq V] in
theorem inWay_none (S : Store V) (r : Rec V) (is : List (Nat × Index)) :
    inWay T E S r is = none ↔ ∀ j i, (j, i) ∈ is → i.uniq = true → getUniq T E S j i r = none := by
  induction is with
  | nil => simp [inWay]
  | cons x is ih =>
    obtain ⟨j, i⟩ := x
    unfold inWay
    cases hu : i.uniq with
    | false =>
      simp only [Bool.false_eq_true, if_false, ih]
      constructor
      · intro h j' i' hm hu'
        rcases List.mem_cons.1 hm with hm | hm
        · cases hm; rw [hu] at hu'; simp at hu'
        · exact h j' i' hm hu'
      · intro h j' i' hm; exact h j' i' (List.mem_cons_of_mem _ hm)
    | true =>
      simp only [if_true]
      cases hg : getUniq T E S j i r with
      | some k =>
        simp only [reduceCtorEq, false_iff]
        intro h
        rw [h j i List.mem_cons_self hu] at hg; simp at hg
      | none =>
        simp only [ih]
        constructor
        · intro h j' i' hm hu'
          rcases List.mem_cons.1 hm with hm | hm
          · cases hm; exact hg
          · exact h j' i' hm hu'
        · intro h j' i' hm; exact h j' i' (List.mem_cons_of_mem _ hm)

omit [DecidableEq V] in
theorem inWay_some (S : Store V) (r : Rec V) (is : List (Nat × Index)) (k : Key V) (h : inWay T E S r is = some k) :
    ∃ (n j : Nat) (i : Index), is[n]? = some (j, i) ∧ i.uniq = true ∧ getUniq T E S j i r = some k ∧
      ∀ m < n, ∀ j' i', is[m]? = some (j', i') → i'.uniq = true → getUniq T E S j' i' r = none := by
  induction is with
  | nil => simp [inWay] at h
  | cons x is ih =>
    obtain ⟨j, i⟩ := x
    have step : inWay T E S r is = some k → (i.uniq = true → getUniq T E S j i r = none) →
        ∃ (n j' : Nat) (i' : Index), ((j, i) :: is)[n]? = some (j', i') ∧ i'.uniq = true ∧ getUniq T E S j' i' r = some k ∧
        ∀ m < n, ∀ j'' i'', ((j, i) :: is)[m]? = some (j'', i'') → i''.uniq = true → getUniq T E S j'' i'' r = none := by
      intro h hz
      obtain ⟨n, j', i', h1, h2, h3, h4⟩ := ih h
      refine ⟨n + 1, j', i', by simpa using h1, h2, h3, ?_⟩
      intro m hm j'' i'' hi hu
      cases m with
      | zero => simp at hi; obtain ⟨rfl, rfl⟩ := hi; exact hz hu
      | succ m => exact h4 m (by omega) j'' i'' (by simpa using hi) hu
    unfold inWay at h
    cases hu : i.uniq with
    | false => exact step (by simpa [hu] using h) (by simp [hu])
    | true =>
      simp only [hu, if_true] at h
      cases hg : getUniq T E S j i r with
      | some k' =>
        simp only [hg, Option.some.injEq] at h
        subst h
        exact ⟨0, j, i, rfl, hu, hg, by simp⟩
      | none => exact step (by simpa [hg] using h) (fun _ => hg)

/-! ### The rows counted -/

omit [DecidableEq V] in
theorem counted_refl (S S' : Store V) (h : S'.here = S.here) : Counted S S' 0 :=
  ⟨[], fun k _ => by rw [h], fun l _ _ => by rw [h]; omega⟩

omit [DecidableEq V] in
theorem counted_trans {S S' S'' : Store V} {a b : Int} (h1 : Counted S S' a) (h2 : Counted S' S'' b) : Counted S S'' (a + b) := by
  obtain ⟨l1, h1, h1'⟩ := h1
  obtain ⟨l2, h2, h2'⟩ := h2
  refine ⟨l1 ++ l2, fun k hk => ?_, fun l hl hs => ?_⟩
  · rw [List.mem_append, not_or] at hk
    rw [h2 k hk.2, h1 k hk.1]
  · have a1 := h1' l hl (fun k hk => hs (List.mem_append_left _ hk))
    have a2 := h2' l hl (fun k hk => hs (List.mem_append_right _ hk))
    omega

theorem counted_one (S S' : Store V) (k : Key V) (h : ∀ k', k' ≠ k → (S'.here k').isSome = (S.here k').isSome) :
    Counted S S' ((if (S'.here k).isSome then 1 else 0) - (if (S.here k).isSome then 1 else 0)) := by
  refine ⟨[k], fun k' hk => h k' (by simpa using hk), fun l hl hs => ?_⟩
  have hk : k ∈ l := hs (by simp)
  have hp := List.perm_cons_erase hk
  rw [hp.countP_eq, hp.countP_eq, List.countP_cons, List.countP_cons]
  have : (l.erase k).countP (fun k => (S'.here k).isSome) = (l.erase k).countP (fun k => (S.here k).isSome) := by
    apply List.countP_congr
    intro k' hk'
    rw [h k' (fun e => by subst e; exact hl.not_mem_erase hk')]
  rw [this]
  push_cast
  split <;> split <;> omega

/-! ### Assignments -/

omit [DecidableEq V] in
theorem assign_eq (as : List (Assign V)) (old vals : Rec V) : assign as old vals = assigned as old vals := by
  funext f
  induction as using List.reverseRecOn with
  | nil => simp [assign, assigned]
  | append_singleton as a ih =>
    unfold assign at ih ⊢
    rw [List.foldl_append, List.foldl_cons, List.foldl_nil]
    unfold assigned at ih ⊢
    by_cases hf : f = a.field
    · rw [if_pos hf, List.filter_append]
      simp [hf]
    · rw [if_neg hf, ih, List.filter_append]
      simp [Ne.symm hf]

omit [DecidableEq V] in
theorem assigned_not (as : List (Assign V)) (old vals : Rec V) (f : Nat) (h : ∀ a ∈ as, a.field ≠ f) : assigned as old vals f = old f := by
  unfold assigned
  rw [List.filter_eq_nil_iff.2 (by simpa using h)]
  rfl

omit [DecidableEq V] in
theorem assigned_in (as : List (Assign V)) (vals : Rec V) (f : Nat) (h : ∃ a ∈ as, a.field = f) :
    ∃ a ∈ as, a.field = f ∧ ∀ old', assigned as old' vals f = a.fn (a.reads.map old') (a.news.map vals) := by
  unfold assigned
  cases hl : (as.filter fun a => a.field = f).getLast? with
  | none =>
    rw [List.getLast?_eq_none_iff, List.filter_eq_nil_iff] at hl
    obtain ⟨a, ha, hf⟩ := h
    exact absurd (by simpa using hf) (hl a ha)
  | some a =>
    have hm := List.mem_of_getLast? hl
    rw [List.mem_filter] at hm
    exact ⟨a, hm.1, by simpa using hm.2, fun old' => rfl⟩

end
end BaikalDB.Dml
