import Verif.Corr.Props

/-!
# C51: the aggregation nodes over any number of regions

AGG_NODE runs in every region and MERGE_AGG_NODE merges what they return.
-/

namespace BaikalDB.Corr
open BaikalDB.Expr (EV)
open BaikalDB.Pred (Row noRow)
open Spec

variable {κ : Type} [DecidableEq κ]

theorem removeAll_eq_filter {β : Type} [BEq β] [LawfulBEq β] (a b : List β) : b.removeAll a = b.filter fun x => !a.contains x := by
  simp [List.removeAll]

theorem eraseDups_append_left {β : Type} [BEq β] [LawfulBEq β] (a b : List β) :
    (a.eraseDups ++ b).eraseDups = (a ++ b).eraseDups := by
  rw [List.eraseDups_append, List.eraseDups_append, eraseDups_of_nodup (nodup_eraseDups a)]
  congr 2
  rw [removeAll_eq_filter, removeAll_eq_filter]
  congr 1
  funext x
  congr 1
  rw [Bool.eq_iff_iff]
  simp [List.mem_eraseDups]

theorem eraseDups_append_right {β : Type} [BEq β] [LawfulBEq β] (a b : List β) :
    (a ++ b.eraseDups).eraseDups = (a ++ b).eraseDups := by
  rw [List.eraseDups_append, List.eraseDups_append]
  congr 1
  rw [removeAll_eq_filter, removeAll_eq_filter, eraseDups_filter, eraseDups_filter, eraseDups_of_nodup (nodup_eraseDups b)]

theorem eraseDups_flatMap {β : Type} [BEq β] [LawfulBEq β] (L : List (List β)) :
    (L.flatMap List.eraseDups).eraseDups = L.flatten.eraseDups := by
  induction L with
  | nil => rfl
  | cons a L ih =>
    rw [List.flatMap_cons, List.flatten_cons, eraseDups_append_left, ← eraseDups_append_right, ih, eraseDups_append_right]

/-- The partial rows of one region with a given key. -/
theorem parts_filter {β : Type} [DecidableEq β] (k : Row → β) (rows : List Row) (v : β) :
    (((groupRows k rows).map fun m => (m.headD noRow, m)).filter fun p => decide (k p.1 = v)) =
      if v ∈ rows.map k then [((rows.filter fun a => k a = v).headD noRow, rows.filter fun a => k a = v)] else [] := by
  split
  next h =>
    obtain ⟨x, hx, rfl⟩ := List.mem_map.1 h
    exact merge_groups k rows hx
  next h =>
    rw [List.filter_eq_nil_iff]
    intro p hp
    obtain ⟨m, hm, rfl⟩ := List.mem_map.1 hp
    obtain ⟨x, hx, rfl⟩ := (mem_groupRows _ _ _).1 hm
    have hk := (head_mem (d := noRow) (p := fun a => decide (k a = k x)) hx (by simp)).2
    simp only [decide_eq_true_eq] at hk ⊢
    rw [hk]
    rintro rfl
    exact h (List.mem_map_of_mem hx)

theorem regions_groups {β : Type} [DecidableEq β] (k : Row → β) (L : List (List Row)) (v : β) :
    ((L.flatMap fun rows => (groupRows k rows).map fun m => (m.headD noRow, m)).filter
        fun p => decide (k p.1 = v)).flatMap Prod.snd = L.flatten.filter (fun a => decide (k a = v)) ∧
      (((L.flatMap fun rows => (groupRows k rows).map fun m => (m.headD noRow, m)).filter
        fun p => decide (k p.1 = v)).map Prod.fst).headD noRow = (L.flatten.filter fun a => decide (k a = v)).headD noRow := by
  induction L with
  | nil => exact ⟨rfl, rfl⟩
  | cons rows L ih =>
    rw [List.flatMap_cons, List.filter_append, parts_filter, List.flatten_cons, List.filter_append]
    split
    next h =>
      obtain ⟨x, hx, rfl⟩ := List.mem_map.1 h
      have hne : ∃ y t, (rows.filter fun a => decide (k a = k x)) = y :: t := by
        cases hf : rows.filter fun a => decide (k a = k x) with
        | nil => simpa using List.filter_eq_nil_iff.1 hf x hx
        | cons y t => exact ⟨y, t, rfl⟩
      obtain ⟨y, t, hyt⟩ := hne
      refine ⟨?_, ?_⟩
      · rw [List.flatMap_append, ih.1]
        simp
      · rw [hyt]
        simp
    next h =>
      have hnil : (rows.filter fun a => decide (k a = v)) = [] := by
        rw [List.filter_eq_nil_iff]
        intro a ha e
        exact h (List.mem_map.2 ⟨a, ha, by simpa using e⟩)
      rw [hnil]
      exact ih

theorem groupRows_regions {β : Type} [DecidableEq β] (k : Row → β) (L : List (List Row)) :
    ((groupRows (fun p => k p.1) (L.flatMap fun rows => (groupRows k rows).map fun m => (m.headD noRow, m))).map
        fun m => ((m.map Prod.fst).headD noRow, m.flatMap Prod.snd)) =
      (groupRows k L.flatten).map fun m => (m.headD noRow, m) := by
  have hkeys : ((L.flatMap fun rows => (groupRows k rows).map fun m => (m.headD noRow, m)).map fun p => k p.1).eraseDups =
      (L.flatten.map k).eraseDups := by
    have h1 : ((L.flatMap fun rows => (groupRows k rows).map fun m => (m.headD noRow, m)).map fun p => k p.1) =
        (L.map (List.map k)).flatMap List.eraseDups := by
      induction L with
      | nil => rfl
      | cons rows L ih =>
        rw [List.flatMap_cons, List.map_append, ih, List.map_cons, List.flatMap_cons]
        congr 1
        rw [List.map_map, map_firsts k rows]
        unfold groupRows
        rw [map_firsts k rows, List.map_map, List.map_map]
        apply List.map_congr_left
        intro x hx
        simp only [Function.comp_apply]
        rw [head_firsts k rows x hx]
    rw [h1, eraseDups_flatMap, List.map_flatten]
  show List.map _ (List.map _ _) = List.map _ (List.map _ _)
  rw [hkeys, List.map_map, List.map_map]
  apply List.map_congr_left
  intro v _
  simp only [Function.comp_apply]
  obtain ⟨h1, h2⟩ := regions_groups k L v
  rw [h1, h2]

/-- **C51**: however the rows are distributed over regions, merging the regions' groups gives the groups of all rows. -/
theorem C51_regions (key : EV → κ) (g : Agg) (hg : g.groups = g.merge) (regions : List (List Row)) :
    g.merged key (regions.flatMap (g.partials key)) = aggregated key g.groups g.funcs regions.flatten := by
  rw [← agg_rows_eq key g hg]
  have hgr := groupRows_regions (slotKey key g.groups) regions
  have hgr' : ((groupRows (fun p => slotKey key g.merge p.1) (regions.flatMap (g.partials key))).map
        fun m => ((m.map Prod.fst).headD noRow, m.flatMap Prod.snd)) = g.partials key regions.flatten := by
    rw [← hg]; exact hgr
  have hnil : regions.flatMap (g.partials key) = [] ↔ g.partials key regions.flatten = [] := by
    rw [← hgr', List.map_eq_nil_iff]
    constructor
    · intro h; rw [h]; rfl
    · intro h
      cases hp : regions.flatMap (g.partials key) with
      | nil => rfl
      | cons p t =>
        rw [hp] at h
        have : (List.filter (fun q => decide (slotKey key g.merge q.1 = slotKey key g.merge p.1)) (p :: t)) ∈
            groupRows (fun p : Row × List Row => slotKey key g.merge p.1) (p :: t) :=
          (mem_groupRows _ _ _).2 ⟨p, List.mem_cons_self, rfl⟩
        rw [h] at this
        cases this
  have hself : ((groupRows (fun p => slotKey key g.merge p.1) (g.partials key regions.flatten)).map
        fun m => ((m.map Prod.fst).headD noRow, m.flatMap Prod.snd)) = g.partials key regions.flatten := by
    have := groupRows_regions (slotKey key g.groups) [regions.flatten]
    simp only [List.flatMap_cons, List.flatMap_nil, List.append_nil, List.flatten_cons, List.flatten_nil] at this
    rw [← hg]
    exact this
  have hfin : ∀ parts : List (Row × List Row), ((groupRows (fun p => slotKey key g.merge p.1) parts).map fun m =>
      finish g.funcs ((m.map Prod.fst).headD noRow) (m.flatMap Prod.snd)) =
      ((groupRows (fun p => slotKey key g.merge p.1) parts).map
        fun m => ((m.map Prod.fst).headD noRow, m.flatMap Prod.snd)).map fun p => finish g.funcs p.1 p.2 := by
    intro parts
    rw [List.map_map]
    rfl
  unfold Agg.rows Agg.merged
  rw [hfin, hfin, hgr', hself]
  by_cases h : g.merge = [] ∧ g.partials key regions.flatten = []
  · rw [if_pos h, if_pos ⟨h.1, hnil.2 h.2⟩]
  · rw [if_neg h, if_neg (fun e => h ⟨e.1, hnil.1 e.2⟩)]

end BaikalDB.Corr
