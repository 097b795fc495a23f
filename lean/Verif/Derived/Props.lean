import Verif.Derived.Lemmas

/-!
# C56: conditions and aggregations moved into derived tables and unions

The rows of the derived table that meet the conditions are the same, and so is the result of an aggregation over them.
-/

namespace BaikalDB.Derived
open BaikalDB.Expr (EV)
open BaikalDB.Pred (Row noRow nullV)
open BaikalDB.Corr (groupRows)
open Spec

variable {κ : Type} [DecidableEq κ]

/-- Every column of a derived table, and of its rows, is computed as SQL says. -/
theorem C56_table (key : EV → κ) (truth : EV → Bool) (d : Derived) : d.rows key truth = table key truth d :=
  table_eq key truth d

mutual
theorem mem_subst (t : Nat) (m : List (Nat × Nat)) (ps : List Ex) : ∀ e : Ex, (∀ s ∈ e.slots, tupleOf s = t) →
    ∀ o ∈ e.slots, ∀ s ∈ (projOf m ps o).slots, s ∈ (e.subst t m ps).slots
  | .slot o', h, o, ho, s, hs => by
    have ho' : o = o' := by simpa [Ex.slots] using ho
    subst ho'
    rw [Ex.subst, if_pos (h o ho)]
    exact hs
  | .lit _, _, o, ho, s, hs => by simp [Ex.slots] at ho
  | .fn f args, h, o, ho, s, hs => memL_subst t m ps args h o ho s hs
theorem memL_subst (t : Nat) (m : List (Nat × Nat)) (ps : List Ex) : ∀ es : List Ex, (∀ s ∈ slotsL es, tupleOf s = t) →
    ∀ o ∈ slotsL es, ∀ s ∈ (projOf m ps o).slots, s ∈ slotsL (substL t m ps es)
  | [], _, o, ho, s, hs => by simp [slotsL] at ho
  | e :: es, h, o, ho, s, hs => by
    rw [slotsL] at h ho
    rw [substL, slotsL]
    rcases List.mem_append.1 ho with ho | ho
    · exact List.mem_append_left _ (mem_subst t m ps e (fun s hs => h s (List.mem_append_left _ hs)) o ho s hs)
    · exact List.mem_append_right _ (memL_subst t m ps es (fun s hs => h s (List.mem_append_right _ hs)) o ho s hs)
end

theorem canPush_iff (d : Derived) (e : Ex) : canPush d e = true ↔ d.sub.limit = none ∧ e.slots ≠ [] ∧
    (∀ s ∈ e.slots, tupleOf s = d.tuple) ∧ hasSpecial d e = false ∧
    (∀ g, d.sub.agg = some g → ∀ s ∈ e.innerSlots d.tuple d.mapping d.sub.projs, Ex.slot s ∈ g.groups) ∧
    (d.sub.wins = [] ∨ ∀ s ∈ e.innerSlots d.tuple d.mapping d.sub.projs, s ∈ partitionSlots d.sub.wins) := by
  unfold canPush
  cases d.sub.agg <;> simp [Option.elim, and_assoc, mem_bareSlots]

/-- The slots of a pushed condition are not written by the subquery's aggregate functions and windows. -/
theorem pushed_slots {d : Derived} (hm : Marked d.sub) {e : Ex} (h : canPush d e = true) {s : Nat}
    (hs : s ∈ (e.subst d.tuple d.mapping d.sub.projs).slots) :
    (∀ g, d.sub.agg = some g → ∀ f ∈ g.funcs, f.out ≠ s) ∧ ∀ w ∈ d.sub.wins, w.out ≠ s := by
  obtain ⟨_, _, ht, hsp, _, _⟩ := (canPush_iff d e).1 h
  obtain ⟨o, ho, hso⟩ := slots_subst _ _ _ e ht s hs
  have hsp' : ((d.mapping.lookup (idOf o)).bind fun i => d.sub.special[i]?).getD false = false := by
    unfold hasSpecial at hsp
    simpa using List.any_eq_false.1 hsp o ho
  unfold projOf at hso
  cases hl : d.mapping.lookup (idOf o) with
  | none => rw [hl] at hso; simp [Ex.slots] at hso
  | some i =>
    rw [hl, Option.bind_some] at hso hsp'
    cases hp : d.sub.projs[i]? with
    | none => rw [hp] at hso; simp [Ex.slots] at hso
    | some p =>
      rw [hp] at hso
      obtain ⟨h1, h2⟩ := hm i p hp hsp'
      exact ⟨fun g hg f hf e => h1 g hg f hf (e ▸ hso), fun w hw e => h2 w hw (e ▸ hso)⟩

theorem aggregateRow_other (funcs : List AggF) (x : Row) (rows : List Row) (s : Nat) (h : ∀ f ∈ funcs, f.out ≠ s) :
    aggregateRow funcs x rows s = x s := by
  unfold aggregateRow
  rw [List.find?_eq_none.2 fun f hf => by simpa using h f hf]

theorem holds_append (truth : EV → Bool) (as bs : List Ex) (r : Row) :
    holds truth (as ++ bs) r = (holds truth as r && holds truth bs r) := by
  rw [Bool.eq_iff_iff]
  simp only [holds, List.mem_append, Bool.and_eq_true, decide_eq_true_eq]
  exact ⟨fun h => ⟨fun c hc => h c (.inl hc), fun c hc => h c (.inr hc)⟩, fun h c hc => hc.elim (h.1 c) (h.2 c)⟩

theorem holds_congr (truth : EV → Bool) (cs : List Ex) (a b : Row) (h : ∀ c ∈ cs, c.eval a = c.eval b) :
    holds truth cs a = holds truth cs b := by
  rw [Bool.eq_iff_iff]
  simp only [holds, decide_eq_true_eq]
  exact ⟨fun H c hc => by rw [← h c hc]; exact H c hc, fun H c hc => by rw [h c hc]; exact H c hc⟩

theorem holds_split (truth : EV → Bool) (cs : List Ex) (p : Ex → Bool) (r : Row) :
    (holds truth (cs.filter p) r && holds truth (cs.filter fun e => !p e) r) = holds truth cs r := by
  rw [Bool.eq_iff_iff]
  simp only [holds, List.mem_filter, Bool.and_eq_true, decide_eq_true_eq]
  constructor
  · intro h c hc
    cases hp : p c
    · exact h.2 c ⟨hc, by simp [hp]⟩
    · exact h.1 c ⟨hc, hp⟩
  · exact fun h => ⟨fun c hc => h c hc.1, fun c hc => h c hc.1⟩

theorem holds_pushed (truth : EV → Bool) (d : Derived) (cs : List Ex) (hcs : ∀ e ∈ cs, ∀ s ∈ e.slots, tupleOf s = d.tuple)
    (r : Row) : holds truth (cs.map fun e => e.subst d.tuple d.mapping d.sub.projs) r = holds truth cs (project d r) := by
  rw [Bool.eq_iff_iff]
  simp only [holds, List.mem_map, decide_eq_true_eq, ← outerRow_eq]
  constructor
  · intro h c hc
    rw [eval_subst d r c (hcs c hc)]
    exact h _ ⟨c, hc, rfl⟩
  · rintro h _ ⟨c, hc, rfl⟩
    rw [← eval_subst d r c (hcs c hc)]
    exact h c hc

/-- The rows below the projection with the conditions inside. -/
theorem subRows_pushed (key : EV → κ) (hkey : Function.Injective key) (truth : EV → Bool) (d : Derived) (cs : List Ex)
    (hm : Marked d.sub) (hc : (d.sub.agg = none ∧ d.sub.wins = []) ∨ ∀ e ∈ cs, Composite e)
    (hs : ∀ g, d.sub.agg = some g → g.groups = [] → ∀ e ∈ cs, ∃ o ∈ e.slots, ∃ i p,
      d.mapping.lookup (o % 2 ^ 16) = some i ∧ d.sub.projs[i]? = some p ∧ p.slots ≠ []) :
    subRows key truth (pushInto d cs).1.sub = (subRows key truth d.sub).filter
      (holds truth ((cs.filter (canPush d)).map fun e => e.subst d.tuple d.mapping d.sub.projs)) := by
  by_cases hnil : cs.filter (canPush d) = []
  · have : (pushInto d cs).1 = d := by
      unfold pushInto
      rw [hnil]
      simp
    rw [this, hnil]
    symm
    rw [List.filter_eq_self]
    intro r _
    simp [holds]
  obtain ⟨e0, he0⟩ := List.exists_mem_of_ne_nil _ hnil
  have hlim : d.sub.limit = none := ((canPush_iff d e0).1 (List.mem_filter.1 he0).2).1
  generalize hPs : ((cs.filter (canPush d)).map fun e => e.subst d.tuple d.mapping d.sub.projs) = ps
  have hps : ∀ p ∈ ps, ∃ e ∈ cs, canPush d e = true ∧ p = e.subst d.tuple d.mapping d.sub.projs := by
    intro p hp
    rw [← hPs] at hp
    obtain ⟨e, he, rfl⟩ := List.mem_map.1 hp
    exact ⟨e, (List.mem_filter.1 he).1, (List.mem_filter.1 he).2, rfl⟩
  have hinner : (¬ (d.sub.agg = none ∧ d.sub.wins = [])) → ∀ e ∈ cs, canPush d e = true →
      ∀ s, s ∈ e.innerSlots d.tuple d.mapping d.sub.projs ↔ s ∈ (e.subst d.tuple d.mapping d.sub.projs).slots := by
    intro hn e he hce s
    obtain ⟨f, args, rfl⟩ := (hc.resolve_left hn) e he
    exact innerSlots_fn _ _ _ _ (fun o h => by cases h) ((canPush_iff d _).1 hce).2.2.1 s
  have hwher : d.sub.base.filter (holds truth (d.sub.wher ++ ps)) = (d.sub.base.filter (holds truth d.sub.wher)).filter (holds truth ps) := by
    rw [List.filter_filter]
    apply List.filter_congr
    intro r _
    rw [holds_append, Bool.and_comm]
  have hq : (pushInto d cs).1.sub = { d.sub with wher := d.sub.wher ++ ps } := by
    simp only [pushInto, hPs]
  have hwin : ∀ l, windows key d.sub.wins (l.filter (holds truth ps)) = (windows key d.sub.wins l).filter (holds truth ps) := by
    intro l
    apply windows_filter
    · intro w hw a b hab
      apply holds_congr
      intro p hp
      obtain ⟨e, he, hce, rfl⟩ := hps p hp
      apply eval_congr
      intro s hs'
      have hne : d.sub.wins ≠ [] := fun h => by rw [h] at hw; cases hw
      rw [← hinner (fun h => hne h.2) e he hce s] at hs'
      have hpart := ((canPush_iff d e).1 hce).2.2.2.2.2.resolve_left hne s hs'
      have := (of_decide_eq_true hab) _ (mem_partitionSlots hpart w hw)
      exact hkey this
    · intro w hw x v
      apply holds_congr
      intro p hp
      obtain ⟨e, he, hce, rfl⟩ := hps p hp
      apply eval_congr
      intro s hs'
      rw [if_neg fun h => (pushed_slots hm hce hs').2 w hw h.symm]
  have hhav : ∀ l : List Row, (l.filter (holds truth ps)).filter (holds truth d.sub.having) =
      (l.filter (holds truth d.sub.having)).filter (holds truth ps) := by
    intro l
    rw [List.filter_filter, List.filter_filter]
    apply List.filter_congr
    intro r _
    exact Bool.and_comm _ _
  unfold subRows
  rw [hq]
  simp only [hlim, hwher]
  cases hg : d.sub.agg with
  | none => simp only [hhav, hwin]
  | some g =>
    have hagg : ∀ l, aggregate key g (l.filter (holds truth ps)) = (aggregate key g l).filter (holds truth ps) := by
      intro l
      apply aggregate_filter
      · intro a b hab
        apply holds_congr
        intro p hp
        obtain ⟨e, he, hce, rfl⟩ := hps p hp
        apply eval_congr
        intro s hs'
        rw [← hinner (fun h => by rw [hg] at h; cases h.1) e he hce s] at hs'
        exact hkey ((of_decide_eq_true hab) _ (((canPush_iff d e).1 hce).2.2.2.2.1 g hg s hs'))
      · intro x rows
        apply holds_congr
        intro p hp
        obtain ⟨e, he, hce, rfl⟩ := hps p hp
        apply eval_congr
        intro s hs'
        exact aggregateRow_other _ _ _ _ ((pushed_slots hm hce hs').1 g hg)
      · intro hnog x
        exfalso
        obtain ⟨hc1, hc2⟩ := List.mem_filter.1 he0
        obtain ⟨o, ho, i, p, hi, hp, hne⟩ := hs g hg hnog e0 hc1
        obtain ⟨s, hsp⟩ := List.exists_mem_of_ne_nil _ hne
        have hproj : projOf d.mapping d.sub.projs o = p := by
          have hi' : d.mapping.lookup (idOf o) = some i := hi
          unfold projOf
          rw [hi', Option.bind_some, hp]
          rfl
        have hmem := mem_subst d.tuple d.mapping d.sub.projs e0 ((canPush_iff d e0).1 hc2).2.2.1 o ho s (by rw [hproj]; exact hsp)
        rw [← hinner (fun h => by rw [hg] at h; cases h.1) e0 hc1 hc2 s] at hmem
        have := ((canPush_iff d e0).1 hc2).2.2.2.2.1 g hg s hmem
        rw [hnog] at this
        cases this
    simp only [hagg, hhav, hwin]

/-- **C56**: conditions over a derived table select the same rows, in the same order, when they are moved into its subquery. -/
theorem C56_pushdown (key : EV → κ) (hkey : Function.Injective key) (truth : EV → Bool) (d : Derived) (cs : List Ex)
    (hm : Marked d.sub) (hc : (d.sub.agg = none ∧ d.sub.wins = []) ∨ ∀ e ∈ cs, Composite e)
    (hs : ∀ g, d.sub.agg = some g → g.groups = [] → ∀ e ∈ cs, ∃ o ∈ e.slots, ∃ i p,
      d.mapping.lookup (o % 2 ^ 16) = some i ∧ d.sub.projs[i]? = some p ∧ p.slots ≠ []) :
    scanDerived key truth d cs = (table key truth d).filter (holds truth cs) := by
  unfold scanDerived
  rw [table_eq, passes_eq]
  have hproj : project (pushInto d cs).1 = project d := rfl
  have hcs : ∀ e ∈ cs.filter (canPush d), ∀ s ∈ e.slots, tupleOf s = d.tuple :=
    fun e he => ((canPush_iff d e).1 (List.mem_filter.1 he).2).2.2.1
  unfold table
  rw [subRows_pushed key hkey truth d cs hm hc hs, hproj]
  have hf : holds truth ((cs.filter (canPush d)).map fun e => e.subst d.tuple d.mapping d.sub.projs) =
      holds truth (cs.filter (canPush d)) ∘ project d := by
    funext r
    exact holds_pushed truth d _ hcs r
  rw [hf, ← List.filter_map, List.filter_filter]
  apply List.filter_congr
  intro r _
  rw [Bool.and_comm]
  exact holds_split truth cs (canPush d) r

/-- **C56**: the same for the branches of a UNION ALL. -/
theorem C56_union (key : EV → κ) (hkey : Function.Injective key) (truth : EV → Bool) (ds : List Derived) (cs : List Ex)
    (hm : ∀ d ∈ ds, Marked d.sub) (hc : ∀ d ∈ ds, (d.sub.agg = none ∧ d.sub.wins = []) ∨ ∀ e ∈ cs, Composite e)
    (hs : ∀ d ∈ ds, ∀ g, d.sub.agg = some g → g.groups = [] → ∀ e ∈ cs, ∃ o ∈ e.slots, ∃ i p,
      d.mapping.lookup (o % 2 ^ 16) = some i ∧ d.sub.projs[i]? = some p ∧ p.slots ≠ []) :
    scanUnion key truth ds cs = (ds.flatMap (table key truth)).filter (holds truth cs) := by
  unfold scanUnion
  induction ds with
  | nil => rfl
  | cons d ds ih =>
    rw [List.flatMap_cons, List.flatMap_cons, List.filter_append,
      C56_pushdown key hkey truth d cs (hm d List.mem_cons_self) (hc d List.mem_cons_self) (hs d List.mem_cons_self),
      ih (fun d h => hm d (List.mem_cons_of_mem _ h)) (fun d h => hc d (List.mem_cons_of_mem _ h))
        (fun d h => hs d (List.mem_cons_of_mem _ h))]

end BaikalDB.Derived
