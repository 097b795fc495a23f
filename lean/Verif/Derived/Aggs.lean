import Verif.Derived.Props

/-!
# C56: aggregations moved into derived tables and unions
-/

namespace BaikalDB.Derived
open BaikalDB.Expr (EV)
open BaikalDB.Pred (Row noRow nullV)
open BaikalDB.Corr (groupRows)
open Spec

variable {κ : Type} [DecidableEq κ]

theorem groupRows_map {α γ β : Type} [DecidableEq β] (k : γ → β) (h : α → γ) (l : List α) :
    groupRows k (l.map h) = (groupRows (fun a => k (h a)) l).map (List.map h) := by
  unfold groupRows
  rw [List.map_map, List.map_map]
  apply List.map_congr_left
  intro v _
  simp only [Function.comp_apply]
  rw [List.filter_map]
  rfl

/-- A group as it arrives above. -/
def arrive (funcs : List AggF) (p : Row × List Row) : Part := ⟨p.1, funcs.map fun f => p.2.map fun r => f.arg.eval r⟩

theorem partRow_eq (funcs : List AggF) (x : Row) (m : List Row) : partRow funcs (arrive funcs (x, m)) = aggRow funcs x m := by
  funext s
  unfold partRow aggRow arrive
  simp only
  induction funcs with
  | nil => rfl
  | cons f fs ih =>
    rw [List.map_cons, List.zip_cons_cons, List.find?_cons, List.find?_cons]
    cases hf : f.out == s
    · exact ih
    · rfl

theorem mergeVals_arrive (funcs : List AggF) (ps : List (Row × List Row)) :
    mergeVals funcs.length (ps.map (arrive funcs)) = funcs.map fun f => (ps.flatMap Prod.snd).map fun r => f.arg.eval r := by
  induction ps with
  | nil => simp [mergeVals, List.map_const']
  | cons p ps ih =>
    rw [List.map_cons, mergeVals, ih, List.flatMap_cons]
    simp [arrive, List.zipWith_map]

omit [DecidableEq κ] in
theorem inner_key (key : EV → κ) (d : Derived) (g : AggE) (h : Over d.tuple g) (r : Row) :
    exKey key (innerAgg d g).groups r = exKey key g.groups (d.outerRow r) := by
  unfold exKey innerAgg
  simp only [List.map_map]
  apply List.map_congr_left
  intro e he
  simp only [Function.comp_apply]
  rw [eval_subst d r e (h.1 e he)]

theorem inner_rows (key : EV → κ) (truth : EV → Bool) (d : Derived) (g : AggE) (h : Over d.tuple g)
    (hne : ¬ (g.groups = [] ∧ d.sub.base.filter (passes truth d.sub.wher) = [])) :
    innerAggRows key truth d g =
      ((groupRows (exKey key g.groups) ((d.sub.base.filter (passes truth d.sub.wher)).map d.outerRow)).map
        fun m => (m.headD noRow, m)).map (arrive g.funcs) := by
  unfold innerAggRows
  simp only
  rw [if_neg hne, groupRows_map, List.map_map, List.map_map]
  have hk : exKey key (innerAgg d g).groups = fun r => exKey key g.groups (d.outerRow r) := by
    funext r
    exact inner_key key d g h r
  rw [hk]
  apply List.map_congr_left
  intro m hm
  simp only [Function.comp_apply, arrive]
  obtain ⟨x, hx, rfl⟩ := (Corr.mem_groupRows _ _ _).1 hm
  cases hf : d.sub.base.filter (passes truth d.sub.wher) |>.filter
      fun a => decide (exKey key g.groups (d.outerRow a) = exKey key g.groups (d.outerRow x)) with
  | nil => simpa using List.filter_eq_nil_iff.1 hf x hx
  | cons y t =>
    congr 1
    unfold innerAgg
    simp only [List.map_map]
    apply List.map_congr_left
    intro f hf'
    simp only [Function.comp_apply]
    apply List.map_congr_left
    intro r _
    simp only [Function.comp_apply]
    rw [eval_subst d r f.arg (h.2.1 f hf')]

theorem canPushAgg_iff (ds : List Derived) (cs : List Ex) (g : AggE) : canPushAgg ds cs g = true ↔
    (∀ c ∈ cs, ∀ s ∈ c.slots, Ex.slot s ∈ g.groups) ∧
    ∀ d ∈ ds, d.sub.agg = none ∧ d.sub.having = [] ∧ d.sub.wins = [] ∧ d.sub.limit = none := by
  unfold canPushAgg
  simp [mem_bareSlots, and_assoc]

/-- The rows of the plain subquery with the conditions inside. -/
theorem plain_rows (key : EV → κ) (truth : EV → Bool) (d : Derived) (cs : List Ex)
    (h : d.sub.agg = none ∧ d.sub.having = [] ∧ d.sub.wins = [] ∧ d.sub.limit = none) :
    (pushInto d cs).1.rows key truth =
      ((pushInto d cs).1.sub.base.filter (passes truth (pushInto d cs).1.sub.wher)).map d.outerRow := by
  obtain ⟨h1, h2, h3, h4⟩ := h
  unfold Derived.rows Sub.rows
  simp only [pushInto, h1, h2, h3, h4, Option.elim, List.foldl_nil]
  congr 1
  rw [List.filter_eq_self]
  intro r _
  rfl

omit [DecidableEq κ] in
theorem rest_determined (key : EV → κ) (hkey : Function.Injective key) (truth : EV → Bool) (cs : List Ex) (g : AggE)
    (h : ∀ c ∈ cs, ∀ s ∈ c.slots, Ex.slot s ∈ g.groups) (a b : Row) (hab : exKey key g.groups a = exKey key g.groups b) :
    passes truth cs a = passes truth cs b := by
  rw [passes_eq]
  apply holds_congr
  intro c hc
  apply eval_congr
  intro s hs
  have := (List.map_inj_left.1 hab) _ (h c hc s hs)
  exact hkey this

theorem agree_exKey (key : EV → κ) (es : List Ex) (a b : Row) : agree key es a b = true ↔ exKey key es a = exKey key es b := by
  rw [agree_eq]; simp

/-- **C56**: an aggregation with GROUP BY over a derived table has the same groups, in the same order, when it is moved into
the subquery. -/
theorem C56_agg_one (key : EV → κ) (hkey : Function.Injective key) (truth : EV → Bool) (d : Derived) (cs : List Ex) (g : AggE)
    (hm : Marked d.sub) (hg : g.groups ≠ []) (ho : Over d.tuple g) (hp : canPushAgg [d] (pushInto d cs).2 g = true) :
    aggOne key truth d cs g = aggregate key g ((table key truth d).filter (holds truth cs)) := by
  obtain ⟨hrest, hplain⟩ := (canPushAgg_iff _ _ _).1 hp
  have hplain := hplain d (by simp)
  rw [← C56_pushdown key hkey truth d cs hm (.inl ⟨hplain.1, hplain.2.2.1⟩) (fun g' hg' => by rw [hplain.1] at hg'; cases hg')]
  unfold scanDerived aggOne
  rw [plain_rows key truth d cs hplain]
  rw [aggregate_filter key g _ (fun a b hab => rest_determined key hkey truth _ g hrest a b ((agree_exKey _ _ _ _).1 hab)) ?_
    (fun h => (hg h).elim)]
  · rw [inner_rows key truth (pushInto d cs).1 g ho (fun h => hg h.1), ← agg_eq]
    congr 1
    unfold AggE.run
    rw [if_neg (fun h => hg h.1), List.map_map, List.map_map]
    apply List.map_congr_left
    intro m _
    exact partRow_eq g.funcs _ m
  · intro x rows
    rw [passes_eq]
    apply holds_congr
    intro c hc
    apply eval_congr
    intro s hs
    apply aggregateRow_other
    rintro f hf rfl
    exact ho.2.2 f hf (ho.1 _ (hrest c hc _ hs) _ (by simp [Ex.slots]))

theorem rest_nil {d : Derived} {cs : List Ex} {g : AggE} (hg : g.groups = []) (hcs : ∀ c ∈ cs, c.slots ≠ [])
    (hrest : ∀ c ∈ (pushInto d cs).2, ∀ s ∈ c.slots, Ex.slot s ∈ g.groups) : (pushInto d cs).2 = [] := by
  rw [List.eq_nil_iff_forall_not_mem]
  intro c hc
  obtain ⟨s, hs⟩ := List.exists_mem_of_ne_nil _ (hcs c (List.mem_filter.1 hc).1)
  have := hrest c hc s hs
  rw [hg] at this
  cases this

theorem passes_nil (truth : EV → Bool) (l : List Row) : l.filter (passes truth []) = l := by
  rw [List.filter_eq_self]
  intro r _
  rfl

/-- **C56**: an aggregation without GROUP BY has one row, with the same values of the functions. -/
theorem C56_agg_scalar (key : EV → κ) (hkey : Function.Injective key) (truth : EV → Bool) (d : Derived) (cs : List Ex) (g : AggE)
    (hm : Marked d.sub) (hg : g.groups = []) (ho : Over d.tuple g) (hcs : ∀ c ∈ cs, c.slots ≠ [])
    (hp : canPushAgg [d] (pushInto d cs).2 g = true) :
    (aggOne key truth d cs g).map (fun r => g.funcs.map fun f => r f.out) =
      (aggregate key g ((table key truth d).filter (holds truth cs))).map fun r => g.funcs.map fun f => r f.out := by
  obtain ⟨hrest, hplain⟩ := (canPushAgg_iff _ _ _).1 hp
  have hplain := hplain d (by simp)
  rw [← C56_pushdown key hkey truth d cs hm (.inl ⟨hplain.1, hplain.2.2.1⟩) (fun g' hg' => by rw [hplain.1] at hg'; cases hg')]
  unfold scanDerived aggOne
  rw [plain_rows key truth d cs hplain, rest_nil hg hcs hrest, passes_nil, passes_nil, ← agg_eq]
  by_cases hr : (pushInto d cs).1.sub.base.filter (passes truth (pushInto d cs).1.sub.wher) = []
  · unfold innerAggRows AggE.run
    simp only [hr, List.map_nil]
    rw [if_pos ⟨hg, trivial⟩, if_pos ⟨hg, trivial⟩]
    simp only [List.map_cons, List.map_nil, List.cons.injEq, and_true]
    apply List.map_congr_left
    intro f hf
    have h1 := partRow_eq g.funcs ((pushInto d cs).1.outerRow noRow) []
    have h2 : arrive g.funcs ((pushInto d cs).1.outerRow noRow, []) =
        ⟨(pushInto d cs).1.outerRow noRow, g.funcs.map fun _ => []⟩ := by simp [arrive]
    rw [← h2, h1]
    unfold aggRow
    cases hfi : g.funcs.find? fun f' => f'.out == f.out with
    | none =>
      have := List.find?_eq_none.1 hfi f hf
      simp at this
    | some f' => rfl
  · rw [inner_rows key truth (pushInto d cs).1 g ho (fun h => hr h.2)]
    unfold AggE.run
    rw [if_neg (fun h => hr (List.map_eq_nil_iff.1 h.2)), List.map_map, List.map_map, List.map_map, List.map_map]
    apply List.map_congr_left
    intro m _
    simp only [Function.comp_apply]
    rw [partRow_eq]

/-! ### Unions -/

theorem groups_head_filter {β : Type} [DecidableEq β] (k : Row → β) (P : Row → Bool) (h : ∀ a b, k a = k b → P a = P b)
    (l : List Row) :
    ((groupRows k l).map fun m => (m.headD noRow, m)).filter (fun p => P p.1) =
      (groupRows k (l.filter P)).map fun m => (m.headD noRow, m) := by
  rw [groupRows_firsts, groupRows_firsts, ← firsts_eq, ← firsts_eq,
    firsts_filter _ P (fun a b hab => h a b (by simpa using hab)), List.filter_map]
  have hc : ((fun p : Row × List Row => P p.1) ∘ fun x => (x, l.filter fun a => decide (k a = k x))) = P := rfl
  rw [hc]
  apply List.map_congr_left
  intro x hx
  rw [filter_same (fun a b => decide (k a = k b)) P (fun a b hab => h a b (by simpa using hab)) l x (List.mem_filter.1 hx).2]

/-- Merging the groups of the branches. -/
theorem merge_branches (key : EV → κ) (g : AggE) (L : List (List Row)) :
    ((groupRows (fun p : Part => exKey key g.groups p.row)
        ((L.flatMap fun l => (groupRows (exKey key g.groups) l).map fun m => (m.headD noRow, m)).map (arrive g.funcs))).map fun m =>
      partRow g.funcs ⟨(m.map Part.row).headD noRow, mergeVals g.funcs.length m⟩) =
      (groupRows (exKey key g.groups) L.flatten).map fun m => aggRow g.funcs (m.headD noRow) m := by
  rw [groupRows_map, List.map_map]
  have hreg := Corr.groupRows_regions (exKey key g.groups) L
  have h2 : ((groupRows (exKey key g.groups) L.flatten).map fun m => aggRow g.funcs (m.headD noRow) m) =
      ((groupRows (exKey key g.groups) L.flatten).map fun m => (m.headD noRow, m)).map fun p => aggRow g.funcs p.1 p.2 := by
    rw [List.map_map]; rfl
  rw [h2, ← hreg, List.map_map]
  apply List.map_congr_left
  intro m _
  simp only [Function.comp_apply, ← partRow_eq]
  rw [mergeVals_arrive, List.map_map]
  rfl

theorem flatMap_groups_nil {β : Type} [DecidableEq β] (k : Row → β) (L : List (List Row)) :
    (L.flatMap fun l => (groupRows k l).map fun m => (m.headD noRow, m)) = [] ↔ L.flatten = [] := by
  rw [List.flatMap_eq_nil_iff, List.flatten_eq_nil_iff]
  constructor
  · intro h l hl
    cases l with
    | nil => rfl
    | cons x t =>
      have : ((x :: t).filter fun a => decide (k a = k x)) ∈ groupRows k (x :: t) :=
        (Corr.mem_groupRows _ _ _).2 ⟨x, List.mem_cons_self, rfl⟩
      rw [List.map_eq_nil_iff.1 (h _ hl)] at this
      cases this
  · intro h l hl
    rw [h l hl]; rfl

/-- **C56**: an aggregation over a UNION ALL has the same result when it is moved into the branches and their results are
merged. -/
theorem C56_agg_union (key : EV → κ) (hkey : Function.Injective key) (truth : EV → Bool) (ds : List Derived) (cs : List Ex)
    (g : AggE) (hm : ∀ d ∈ ds, Marked d.sub) (ho : ∀ d ∈ ds, Over d.tuple g)
    (hs : g.groups = [] → g.funcs ≠ [] ∧ ∀ c ∈ cs, c.slots ≠ [])
    (hp : ∀ d ∈ ds, canPushAgg ds (pushInto d cs).2 g = true) :
    aggUnion key truth ds cs g = aggregate key g ((ds.flatMap (table key truth)).filter (holds truth cs)) := by
  have hplain : ∀ d ∈ ds, d.sub.agg = none ∧ d.sub.having = [] ∧ d.sub.wins = [] ∧ d.sub.limit = none :=
    fun d hd => ((canPushAgg_iff _ _ _).1 (hp d hd)).2 d hd
  rw [← C56_union key hkey truth ds cs hm (fun d hd => .inl ⟨(hplain d hd).1, (hplain d hd).2.2.1⟩)
    (fun d hd g' hg' => by rw [(hplain d hd).1] at hg'; cases hg'), ← agg_eq]
  have hL : scanUnion key truth ds cs = (ds.map fun d => scanDerived key truth d cs).flatten := by
    unfold scanUnion; rw [List.flatMap_def]
  rw [hL]
  have hparts : ∀ d ∈ ds, (if g.groups = [] then
        ((innerAggRows key truth (pushInto d cs).1 g).filter fun p => passes truth (pushInto d cs).2 p.row).filter
          fun p => !(p.vals.all List.isEmpty)
      else (innerAggRows key truth (pushInto d cs).1 g).filter fun p => passes truth (pushInto d cs).2 p.row) =
      ((groupRows (exKey key g.groups) (scanDerived key truth d cs)).map fun m => (m.headD noRow, m)).map (arrive g.funcs) := by
    intro d hd
    obtain ⟨hrest, _⟩ := (canPushAgg_iff _ _ _).1 (hp d hd)
    unfold scanDerived
    rw [plain_rows key truth d cs (hplain d hd)]
    split
    next hg =>
      obtain ⟨hf, hcs⟩ := hs hg
      rw [rest_nil hg hcs hrest, passes_nil]
      have hall : ∀ l : List Part, (l.filter fun p => passes truth [] p.row) = l := by
        intro l
        rw [List.filter_eq_self]
        intro p _
        rfl
      rw [hall]
      obtain ⟨f0, hf0⟩ := List.exists_mem_of_ne_nil _ hf
      by_cases hr : (pushInto d cs).1.sub.base.filter (passes truth (pushInto d cs).1.sub.wher) = []
      · unfold innerAggRows
        simp only [hr]
        rw [if_pos ⟨hg, trivial⟩]
        simp [groupRows]
      · rw [inner_rows key truth (pushInto d cs).1 g (ho d hd) (fun h => hr h.2), List.filter_eq_self.2]
        · rfl
        intro p hp'
        obtain ⟨⟨x, m⟩, hxm, rfl⟩ := List.mem_map.1 hp'
        obtain ⟨m', hm', e⟩ := List.mem_map.1 hxm
        cases e
        obtain ⟨y, hy, rfl⟩ := (Corr.mem_groupRows _ _ _).1 hm'
        rw [Bool.not_eq_true', List.all_eq_false]
        refine ⟨_, List.mem_map.2 ⟨f0, hf0, rfl⟩, ?_⟩
        rw [List.isEmpty_iff, List.map_eq_nil_iff, List.filter_eq_nil_iff]
        intro h
        simpa using h y hy
    next hg =>
      rw [inner_rows key truth (pushInto d cs).1 g (ho d hd) (fun h => hg h.1), List.filter_map]
      congr 1
      exact groups_head_filter (exKey key g.groups) (passes truth (pushInto d cs).2)
        (fun a b => rest_determined key hkey truth _ g hrest a b) _
  have hall : (if g.groups = [] then (ds.flatMap fun d =>
        (innerAggRows key truth (pushInto d cs).1 g).filter fun p => passes truth (pushInto d cs).2 p.row).filter
          fun p => !(p.vals.all List.isEmpty)
      else ds.flatMap fun d => (innerAggRows key truth (pushInto d cs).1 g).filter fun p => passes truth (pushInto d cs).2 p.row) =
      ((ds.map fun d => scanDerived key truth d cs).flatMap fun l =>
        (groupRows (exKey key g.groups) l).map fun m => (m.headD noRow, m)).map (arrive g.funcs) := by
    clear hL hp
    rw [List.flatMap_map]
    induction ds with
    | nil => split <;> rfl
    | cons d ds ih =>
      have ih := ih (fun d h => hm d (List.mem_cons_of_mem _ h)) (fun d h => ho d (List.mem_cons_of_mem _ h))
        (fun d h => hplain d (List.mem_cons_of_mem _ h)) (fun d h => hparts d (List.mem_cons_of_mem _ h))
      have h0 := hparts d List.mem_cons_self
      rw [List.flatMap_cons, List.flatMap_cons, List.map_append, ← ih, ← h0]
      split
      · rw [List.filter_append]
      · rfl
  unfold aggUnion AggE.run
  simp only
  rw [hall, merge_branches]
  have hiff : (((ds.map fun d => scanDerived key truth d cs).flatMap fun l =>
      (groupRows (exKey key g.groups) l).map fun m => (m.headD noRow, m)).map (arrive g.funcs)) = [] ↔
      (ds.map fun d => scanDerived key truth d cs).flatten = [] := by
    rw [List.map_eq_nil_iff, flatMap_groups_nil]
  by_cases h : g.groups = [] ∧ (ds.map fun d => scanDerived key truth d cs).flatten = []
  · rw [if_pos h, if_pos ⟨h.1, hiff.2 h.2⟩]
  · rw [if_neg h, if_neg fun e => h ⟨e.1, hiff.1 e.2⟩]

end BaikalDB.Derived
