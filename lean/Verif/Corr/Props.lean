import Verif.Corr.Lemmas

/-!
# C51: a correlated subquery selects the same rows when its conditions are lifted
-/

namespace BaikalDB.Corr
open BaikalDB.Expr (EV)
open BaikalDB.Pred (Row noRow)
open Spec

variable {ρ κ : Type} [DecidableEq κ]

theorem any_iff_meaning (rows : List Row) (cs : List (Conj ρ)) (o : ρ) :
    (rows.any fun r => cs.all fun c => c.holds o r) = decide (∃ r ∈ rows, ∀ c ∈ cs, c.val o r = some true) := by
  rw [Bool.eq_iff_iff]
  simp [holds_iff]

/-- **C51**: without an aggregation in the subquery, and with no condition on the outer row below a LIMIT, an outer row has a
match after decorrelation exactly if the subquery evaluated for it has a row that meets the conditions.  A subquery
that may return one row only fails for exactly the outer rows it should, if the lifted conditions are equalities between columns
and the condition with the subquery is not one. -/
theorem C51_without_aggregate (key : EV → κ) (a : Apply ρ) (o : ρ) (hagg : a.plan.agg = none)
    (hsort : ∀ n ∈ a.plan.top ++ a.plan.bottom, SortOk n) (hlim : LimitsOk (a.plan.top ++ a.plan.bottom))
    (hone : a.maxOne = true → (∀ c ∈ conjs (a.plan.top ++ a.plan.bottom), c.outer = true → c.hashable = true) ∧
      ∀ c ∈ a.conds, c.hashable = false) :
    (decorrelate a).matches key o = meaning key a o := by
  have hspec := plan_rows_eq key a.plan (fun g h => by rw [hagg] at h; cases h) o
  have hperm := liftNodes_perm o hsort hlim a.plan.base
  have hl2 := liftNodes_append false a.plan.top a.plan.bottom
  have hrows : a.plan.rows key o = evalNodes o (a.plan.top ++ a.plan.bottom) a.plan.base := by
    simp [Plan.rows, hagg, evalNodes_append]
  have hdec : (decorrelate a).plan.rows key o =
      evalNodes o (liftNodes false (a.plan.top ++ a.plan.bottom)).1 a.plan.base := by
    rw [hl2]
    simp [decorrelate, hagg, Plan.rows, evalNodes_append]
  have hconds : (decorrelate a).conds = a.conds ++ (liftNodes false (a.plan.top ++ a.plan.bottom)).2 := by
    rw [hl2]
    simp [decorrelate, hagg]
  have hmax : (decorrelate a).maxOne = a.maxOne := by simp [decorrelate, hagg]
  have hany : ((decorrelate a).plan.rows key o).any (fun r => (decorrelate a).conds.all fun c => c.holds o r) =
      decide (∃ r ∈ a.plan.rows key o, ∀ c ∈ a.conds, c.val o r = some true) := by
    rw [any_iff_meaning, hconds, hdec, hrows]
    congr 1
    apply propext
    constructor
    · rintro ⟨r, hr, hc⟩
      refine ⟨r, hperm.subset (List.mem_filter.2 ⟨hr, ?_⟩), fun c h => hc c (List.mem_append_left _ h)⟩
      exact (allHold_iff _ _ _).2 fun c h => hc c (List.mem_append_right _ h)
    · rintro ⟨r, hr, hc⟩
      have := List.mem_filter.1 (hperm.symm.subset hr)
      refine ⟨r, this.1, fun c h => ?_⟩
      rcases List.mem_append.1 h with h | h
      · exact hc c h
      · exact (allHold_iff _ _ _).1 this.2 c h
  simp only [Apply.matches, meaning, ← hspec]
  rw [hany, hmax]
  cases hm : a.maxOne with
  | false => simp
  | true =>
    obtain ⟨h1, h2⟩ := hone hm
    have hf : (decorrelate a).conds.filter Conj.hashable = (liftNodes false (a.plan.top ++ a.plan.bottom)).2 := by
      rw [hconds, List.filter_append, List.filter_eq_nil_iff.2 (by simpa using h2), List.nil_append, List.filter_eq_self]
      intro c hc
      rw [liftNodes_snd, List.mem_filter] at hc
      exact h1 c hc.1 hc.2
    have hlen : (((decorrelate a).plan.rows key o).filter
        fun r => ((decorrelate a).conds.filter Conj.hashable).all fun c => c.holds o r).length = (a.plan.rows key o).length := by
      rw [hf, hdec, hrows]
      exact hperm.length_eq
    simp only [hlen, Bool.true_and, decide_eq_true_eq, true_and]

/-- What is left of the nodes above an aggregation, and what is taken out of them. -/
theorem top_rows (o : ρ) {top : List (Node ρ)} {l : List Row} (hsort : ∀ n ∈ top, SortOk n)
    (hlim : (∀ n ∈ top, NoLimit n) ∨ ((∀ n ∈ top, KeepsOne n) ∧ l.length ≤ 1)) (r : Row) :
    r ∈ evalNodes o top l ↔
      r ∈ evalNodes o (liftNodes true top).1 l ∧ ∀ c ∈ (liftNodes true top).2, c.val o r = some true := by
  rw [(evalNodes_top o hsort hlim).mem_iff, evalNodes_plain o (liftNodes_plain top), liftNodes_conjs, liftNodes_snd,
    ← allHold_iff, List.mem_filter, List.mem_filter, and_assoc, ← Bool.and_eq_true, Bool.and_comm, allHold_split]

theorem groupRows_const {α β : Type} [DecidableEq β] (k : α → β) (hk : ∀ x y, k x = k y) (l : List α) :
    (groupRows k l).length ≤ 1 := by
  unfold groupRows
  rw [List.length_map]
  cases l with
  | nil => simp
  | cons x t =>
    rw [List.map_cons, List.eraseDups_cons, List.filter_eq_nil_iff.2]
    · simp
    · intro b hb
      obtain ⟨y, _, rfl⟩ := List.mem_map.1 hb
      simp [hk y x]

theorem agg_rows_le_one (key : EV → κ) (g : Agg) (hg : g.groups = g.merge) (h : g.groups = []) (rows : List Row) :
    (g.rows key rows).length ≤ 1 := by
  unfold Agg.rows Agg.merged
  split
  · simp
  · rw [List.length_map]
    refine groupRows_const _ (fun x y => ?_) _
    rw [← hg, h]
    rfl

theorem finish_other {funcs : List (Nat × (List Row → EV))} {first : Row} {rows : List Row} {s : Nat}
    (h : ∀ f ∈ funcs, s ≠ f.1) : finish funcs first rows s = first s := by
  have : funcs.lookup s = none := by
    rw [List.lookup_eq_none_iff]
    intro f hf
    simpa using h f hf
  simp [finish, this]

/-- The rows of the aggregation grouped by the slots of the lifted equalities that meet them are the rows of the aggregation
of the rows that meet them; unless there is nothing to aggregate. -/
theorem agg_lift (key : EV → κ) (g : Agg) (cs : List (Conj ρ)) (o : ρ) (hg : g.groups = g.merge)
    (hc : ∀ c ∈ cs, Equates key c) (hn : NoClash g (cs.flatMap Conj.eqSlots)) (rows : List Row) (r : Row)
    (hr : g.groups = [] → r ≠ finish g.funcs noRow [] ∨ rows.filter (allHold cs o) ≠ []) :
    r ∈ g.rows key (rows.filter (allHold cs o)) ↔
      r ∈ (g.addGroups cs).rows key rows ∧ ∀ c ∈ cs, c.val o r = some true := by
  have hg' : (g.addGroups cs).groups = (g.addGroups cs).merge := by simp [Agg.addGroups, hg]
  rw [mem_agg_rows key g hg, mem_agg_rows key _ hg']
  have hfuncs : (g.addGroups cs).funcs = g.funcs := rfl
  rw [hfuncs]
  -- rows with the keys of a row that meets the equalities
  have hsame : ∀ x y : Row, slotKey key (g.addGroups cs).groups x = slotKey key (g.addGroups cs).groups y →
      ∀ c ∈ cs, c.val o x = c.val o y := by
    intro x y h c hcm
    rw [slotKey_eq_iff] at h
    exact (hc c hcm).determined o x y fun s hs => h s ((mem_addGroups hn s).2 (Or.inr ⟨c, hcm, hs⟩))
  have hfilter : ∀ x, allHold cs o x = true →
      ((rows.filter (allHold cs o)).filter fun a => slotKey key g.groups a = slotKey key g.groups x) =
        rows.filter fun a => slotKey key (g.addGroups cs).groups a = slotKey key (g.addGroups cs).groups x := by
    intro x hx
    rw [List.filter_filter]
    congr 1
    funext y
    rw [Bool.eq_iff_iff, Bool.and_eq_true, decide_eq_true_eq, decide_eq_true_eq, allHold_iff]
    rw [allHold_iff] at hx
    constructor
    · rintro ⟨h1, h2⟩
      rw [slotKey_eq_iff] at h1 ⊢
      intro s hs
      rcases (mem_addGroups hn s).1 hs with hs | ⟨c, hcm, hs⟩
      · exact h1 s hs
      · exact (hc c hcm).pins o y x (h2 c hcm) (hx c hcm) s hs
    · intro h
      refine ⟨?_, fun c hcm => (hsame y x h c hcm).trans (hx c hcm)⟩
      rw [slotKey_eq_iff] at h ⊢
      exact fun s hs => h s ((mem_addGroups hn s).2 (Or.inl hs))
  -- the lifted conditions on a row of the aggregation
  have hval : ∀ x ∈ rows, ∀ m, ∀ c ∈ cs,
      c.val o (finish g.funcs ((rows.filter fun a => slotKey key (g.addGroups cs).groups a =
        slotKey key (g.addGroups cs).groups x).headD noRow) m) = c.val o x := by
    intro x hx m c hcm
    refine (hc c hcm).determined o _ _ fun s hs => ?_
    rw [finish_other (fun f hf e => hn.1 s (List.mem_flatMap.2 ⟨c, hcm, hs⟩) f hf (by rw [e]))]
    have := (head_mem (d := noRow) (p := fun a => decide (slotKey key (g.addGroups cs).groups a =
      slotKey key (g.addGroups cs).groups x)) hx (by simp)).2
    rw [decide_eq_true_eq, slotKey_eq_iff] at this
    exact this s ((mem_addGroups hn s).2 (Or.inr ⟨c, hcm, hs⟩))
  constructor
  · rintro (⟨h1, h2, h3⟩ | ⟨x, hx, rfl⟩)
    · exact ((hr h1).elim (fun h => h h3) fun h => h h2).elim
    · have hxm := List.mem_filter.1 hx
      refine ⟨Or.inr ⟨x, hxm.1, ?_⟩, ?_⟩
      · rw [hfilter x hxm.2]
      · intro c hcm
        rw [hfilter x hxm.2, hval x hxm.1 _ c hcm]
        exact (allHold_iff _ _ _).1 hxm.2 c hcm
  · rintro ⟨⟨h1, h2, h3⟩ | ⟨x, hx, rfl⟩, hcs⟩
    · have hge : g.groups = [] := by
        have : g.groups ++ _ = [] := h1
        exact (List.append_eq_nil_iff.1 this).1
      subst h2
      exact Or.inl ⟨hge, rfl, h3⟩
    · have hxc : allHold cs o x = true := (allHold_iff _ _ _).2 fun c hcm => (hval x hx _ c hcm).symm.trans (hcs c hcm)
      refine Or.inr ⟨x, List.mem_filter.2 ⟨hx, hxc⟩, ?_⟩
      rw [hfilter x hxc]

/-- **C51**: with an aggregation in the subquery, and conditions on the outer row that are equalities with columns of the
subquery, an outer row has a match after decorrelation exactly if the subquery evaluated for it has a row that meets the
conditions: provided that the columns' slot ids do not clash, that a LIMIT drops no row, and that without GROUP BY an
outer row whose subquery has nothing to aggregate is not selected. -/
theorem C51_aggregate (key : EV → κ) (a : Apply ρ) (o : ρ) (g : Agg) (hagg : a.plan.agg = some g)
    (hsel : a.selectField = false) (hcnt : g.countStar = false) (hg : g.groups = g.merge)
    (hplain : ∀ n ∈ a.plan.bottom, Plain n)
    (heq : ∀ c ∈ conjs a.plan.bottom, c.outer = true → Equates key c)
    (hclash : NoClash g ((conjs a.plan.bottom).filter (fun c => c.outer) |>.flatMap Conj.eqSlots))
    (hsort : ∀ n ∈ a.plan.top, SortOk n)
    (htop : ∀ c ∈ conjs a.plan.top, c.outer = true → c.eqSlots = [])
    (hlim : (∀ n ∈ a.plan.top, NoLimit n) ∨ ((∀ n ∈ a.plan.top, KeepsOne n) ∧ g.groups = []))
    (hone : a.maxOne = true → g.groups = [])
    (hempty : g.groups = [] → (∀ x ∈ a.plan.base, ∃ c ∈ conjs a.plan.bottom, c.val o x ≠ some true) →
      ∃ c ∈ a.conds ++ conjs a.plan.top, c.val o (finish g.funcs noRow []) ≠ some true) :
    (decorrelate a).matches key o = meaning key a o := by
  have hspec := plan_rows_eq key a.plan (fun g' h => by rw [hagg] at h; cases h; exact hg) o
  have hb2 := liftNodes_snd true a.plan.bottom
  have ht2 := liftNodes_snd true a.plan.top
  have hslots : ((liftNodes true a.plan.top).2 ++ (liftNodes true a.plan.bottom).2).flatMap Conj.eqSlots =
      ((liftNodes true a.plan.bottom).2).flatMap Conj.eqSlots := by
    rw [List.flatMap_append, List.flatMap_eq_nil_iff.2, List.nil_append]
    intro c hc
    rw [ht2, List.mem_filter] at hc
    exact htop c hc.1 hc.2
  have hadd : g.addGroups ((liftNodes true a.plan.top).2 ++ (liftNodes true a.plan.bottom).2) =
      g.addGroups (liftNodes true a.plan.bottom).2 := by
    simp only [Agg.addGroups, hslots]
  -- the rows below the aggregation
  have hbot : evalNodes o a.plan.bottom a.plan.base =
      (evalNodes o (liftNodes true a.plan.bottom).1 a.plan.base).filter (allHold (liftNodes true a.plan.bottom).2 o) := by
    rw [evalNodes_plain o hplain, evalNodes_plain o (liftNodes_plain _), liftNodes_conjs, hb2, List.filter_filter]
    congr 1
    funext r
    exact (allHold_split _ _ _).symm
  have hrows : a.plan.rows key o = evalNodes o a.plan.top (g.rows key (evalNodes o a.plan.bottom a.plan.base)) := by
    simp [Plan.rows, hagg]
  have hdrows : (decorrelate a).plan.rows key o = evalNodes o (liftNodes true a.plan.top).1
      ((g.addGroups (liftNodes true a.plan.bottom).2).rows key
        (evalNodes o (liftNodes true a.plan.bottom).1 a.plan.base)) := by
    simp [decorrelate, hagg, hsel, hcnt, Plan.rows, hadd]
  have hconds : (decorrelate a).conds =
      a.conds ++ ((liftNodes true a.plan.top).2 ++ (liftNodes true a.plan.bottom).2) := by
    simp [decorrelate, hagg, hsel, hcnt]
  have hmax : (decorrelate a).maxOne = false := by simp [decorrelate, hagg, hsel, hcnt]
  have hlim' : (∀ n ∈ a.plan.top, NoLimit n) ∨ ((∀ n ∈ a.plan.top, KeepsOne n) ∧
      (g.rows key (evalNodes o a.plan.bottom a.plan.base)).length ≤ 1) :=
    hlim.imp id fun h => ⟨h.1, agg_rows_le_one key g hg h.2 _⟩
  have hle : a.maxOne = true → (a.plan.rows key o).length ≤ 1 := by
    intro h
    rw [hrows, (evalNodes_top o hsort hlim').length_eq]
    exact Nat.le_trans (List.length_filter_le _ _) (agg_rows_le_one key g hg (hone h) _)
  have hmem : (∃ r ∈ (decorrelate a).plan.rows key o, ∀ c ∈ (decorrelate a).conds, c.val o r = some true) ↔
      ∃ r ∈ a.plan.rows key o, ∀ c ∈ a.conds, c.val o r = some true := by
    have hkey : ∀ r, (∀ c ∈ a.conds ++ conjs a.plan.top, c.val o r = some true) →
        (r ∈ g.rows key (evalNodes o a.plan.bottom a.plan.base) ↔
          r ∈ (g.addGroups (liftNodes true a.plan.bottom).2).rows key
            (evalNodes o (liftNodes true a.plan.bottom).1 a.plan.base) ∧
            ∀ c ∈ (liftNodes true a.plan.bottom).2, c.val o r = some true) := by
      intro r hr
      rw [hbot]
      refine agg_lift key g _ o hg ?_ ?_ _ r ?_
      · intro c hc
        rw [hb2, List.mem_filter] at hc
        exact heq c hc.1 hc.2
      · rw [hb2]; exact hclash
      · intro hge
        rw [← hbot]
        by_cases hn : evalNodes o a.plan.bottom a.plan.base = []
        · left
          rintro rfl
          obtain ⟨c, hc, hcv⟩ := hempty hge (by
            intro x hx
            by_contra hcon
            have : x ∈ evalNodes o a.plan.bottom a.plan.base := by
              rw [evalNodes_plain o hplain, List.mem_filter, allHold_iff]
              refine ⟨hx, fun c hc => ?_⟩
              by_contra hv
              exact hcon ⟨c, hc, hv⟩
            rw [hn] at this
            cases this)
          exact hcv (hr c hc)
        · exact Or.inr hn
    have htr := fun r => top_rows o hsort hlim' r
    rw [hconds, hdrows, hrows]
    -- rows above the aggregation, as rows of it
    have hplainT : ∀ (l : List Row) (r : Row), r ∈ evalNodes o (liftNodes true a.plan.top).1 l ↔
        r ∈ l ∧ ∀ c ∈ conjs a.plan.top, c.outer = false → c.val o r = some true := by
      intro l r
      rw [evalNodes_plain o (liftNodes_plain _), liftNodes_conjs, List.mem_filter, allHold_iff]
      simp only [List.mem_filter, Bool.not_eq_true', and_imp]
    have hboth : ∀ r, (∀ c ∈ conjs a.plan.top, c.outer = false → c.val o r = some true) →
        (∀ c ∈ (liftNodes true a.plan.top).2, c.val o r = some true) → ∀ c ∈ conjs a.plan.top, c.val o r = some true := by
      intro r h1 h2 c hc
      cases ho : c.outer
      · exact h1 c hc ho
      · exact h2 c (by rw [ht2, List.mem_filter]; exact ⟨hc, ho⟩)
    constructor
    · rintro ⟨r, hr, hc⟩
      rw [hplainT] at hr
      have hA : ∀ c ∈ a.conds, c.val o r = some true := fun c h => hc c (List.mem_append_left _ h)
      have hT : ∀ c ∈ (liftNodes true a.plan.top).2, c.val o r = some true := fun c h =>
        hc c (List.mem_append_right _ (List.mem_append_left _ h))
      have hB : ∀ c ∈ (liftNodes true a.plan.bottom).2, c.val o r = some true := fun c h =>
        hc c (List.mem_append_right _ (List.mem_append_right _ h))
      have hall : ∀ c ∈ a.conds ++ conjs a.plan.top, c.val o r = some true := fun c h =>
        (List.mem_append.1 h).elim (hA c) (hboth r hr.2 hT c)
      refine ⟨r, (htr r).2 ⟨(hplainT _ r).2 ⟨(hkey r hall).2 ⟨hr.1, hB⟩, hr.2⟩, hT⟩, hA⟩
    · rintro ⟨r, hr, hA⟩
      obtain ⟨h1, hT⟩ := (htr r).1 hr
      rw [hplainT] at h1
      have hall : ∀ c ∈ a.conds ++ conjs a.plan.top, c.val o r = some true := fun c h =>
        (List.mem_append.1 h).elim (hA c) (hboth r h1.2 hT c)
      obtain ⟨h2, hB⟩ := (hkey r hall).1 h1.1
      refine ⟨r, (hplainT _ r).2 ⟨h2, h1.2⟩, fun c h => ?_⟩
      rcases List.mem_append.1 h with h | h
      · exact hA c h
      · exact (List.mem_append.1 h).elim (hT c) (hB c)
  simp only [Apply.matches, meaning, ← hspec]
  have hno : ¬ (a.maxOne = true ∧ 1 < (a.plan.rows key o).length) := fun h =>
    Nat.not_lt.2 (hle h.1) h.2
  rw [any_iff_meaning, hmax, if_neg hno]
  simp only [Bool.false_and, Bool.false_eq_true, if_false, hmem]

/-- **C51**: for a subquery in the select list, and with COUNT(*), only the conditions above the aggregation are lifted. -/
theorem C51_aggregate_kept (key : EV → κ) (a : Apply ρ) (o : ρ) (g : Agg) (hagg : a.plan.agg = some g)
    (hsel : a.selectField = true ∨ g.countStar = true) (hg : g.groups = g.merge)
    (hsort : ∀ n ∈ a.plan.top, SortOk n)
    (htop : ∀ c ∈ conjs a.plan.top, c.outer = true → c.eqSlots = [])
    (hlim : (∀ n ∈ a.plan.top, NoLimit n) ∨ ((∀ n ∈ a.plan.top, KeepsOne n) ∧ g.groups = []))
    (hone : a.maxOne = true → g.groups = []) :
    (decorrelate a).matches key o = meaning key a o := by
  have hspec := plan_rows_eq key a.plan (fun g' h => by rw [hagg] at h; cases h; exact hg) o
  have ht2 := liftNodes_snd true a.plan.top
  have hs : (a.selectField || g.countStar) = true := by simpa using hsel
  have hadd : g.addGroups (liftNodes true a.plan.top).2 = g := by
    have : ((liftNodes true a.plan.top).2).flatMap Conj.eqSlots = [] := by
      rw [List.flatMap_eq_nil_iff]
      intro c hc
      rw [ht2, List.mem_filter] at hc
      exact htop c hc.1 hc.2
    simp [Agg.addGroups, this, addSlots]
  have hrows : a.plan.rows key o = evalNodes o a.plan.top (g.rows key (evalNodes o a.plan.bottom a.plan.base)) := by
    simp [Plan.rows, hagg]
  have hdrows : (decorrelate a).plan.rows key o = evalNodes o (liftNodes true a.plan.top).1
      (g.rows key (evalNodes o a.plan.bottom a.plan.base)) := by
    simp only [decorrelate, hagg, hs, if_true, Plan.rows, hadd, Option.elim]
  have hconds : (decorrelate a).conds = a.conds ++ (liftNodes true a.plan.top).2 := by
    simp only [decorrelate, hagg, hs, if_true]
  have hmax : (decorrelate a).maxOne = false := by simp only [decorrelate, hagg, hs, if_true]
  have hlim' : (∀ n ∈ a.plan.top, NoLimit n) ∨ ((∀ n ∈ a.plan.top, KeepsOne n) ∧
      (g.rows key (evalNodes o a.plan.bottom a.plan.base)).length ≤ 1) :=
    hlim.imp id fun h => ⟨h.1, agg_rows_le_one key g hg h.2 _⟩
  have hle : a.maxOne = true → (a.plan.rows key o).length ≤ 1 := by
    intro h
    rw [hrows, (evalNodes_top o hsort hlim').length_eq]
    exact Nat.le_trans (List.length_filter_le _ _) (agg_rows_le_one key g hg (hone h) _)
  have hmem : (∃ r ∈ (decorrelate a).plan.rows key o, ∀ c ∈ (decorrelate a).conds, c.val o r = some true) ↔
      ∃ r ∈ a.plan.rows key o, ∀ c ∈ a.conds, c.val o r = some true := by
    rw [hconds, hdrows, hrows]
    refine exists_congr fun r => ?_
    rw [top_rows o hsort hlim' r]
    constructor
    · rintro ⟨h1, h2⟩
      exact ⟨⟨h1, fun c h => h2 c (List.mem_append_right _ h)⟩, fun c h => h2 c (List.mem_append_left _ h)⟩
    · rintro ⟨⟨h1, h2⟩, h3⟩
      exact ⟨h1, fun c h => (List.mem_append.1 h).elim (h3 c) (h2 c)⟩
  simp only [Apply.matches, meaning, ← hspec]
  have hno : ¬ (a.maxOne = true ∧ 1 < (a.plan.rows key o).length) := fun h =>
    Nat.not_lt.2 (hle h.1) h.2
  rw [any_iff_meaning, hmax, if_neg hno]
  simp only [Bool.false_and, Bool.false_eq_true, if_false, hmem]

theorem evalNodes_closed {ns : List (Node ρ)} (h : ∀ c ∈ conjs ns, ∀ o o' r, c.val o r = c.val o' r) (o o' : ρ) (l : List Row) :
    evalNodes o ns l = evalNodes o' ns l := by
  induction ns with
  | nil => rfl
  | cons n ns ih =>
    rw [conjs_cons] at h
    rw [evalNodes_cons, evalNodes_cons, ih fun c hc => h c (List.mem_append_right _ hc)]
    cases n with
    | filter cs =>
      simp only [Node.eval]
      congr 1
      funext r
      rw [Bool.eq_iff_iff]
      simp only [List.all_eq_true, holds_iff]
      exact forall_congr' fun c => forall_congr' fun hc => by rw [h c (List.mem_append_left _ hc) o o' r]
    | sort f => rfl
    | limit off n => rfl
    | manager => rfl

/-- **C51**: after decorrelation the subquery returns the same rows for every outer row, so that one execution of it is enough. -/
theorem C51_once (key : EV → κ) (a : Apply ρ) (h : ∀ c ∈ conjs (a.plan.top ++ a.plan.bottom), Closed c)
    (hk : ∀ g, a.plan.agg = some g → a.selectField = false ∧ g.countStar = false) (o o' : ρ) :
    (decorrelate a).plan.rows key o = (decorrelate a).plan.rows key o' := by
  rw [conjs_append] at h
  have hT : ∀ b, ∀ c ∈ conjs (liftNodes b a.plan.top).1, ∀ o o' r, c.val o r = c.val o' r := by
    intro b c hc
    rw [liftNodes_conjs, List.mem_filter] at hc
    exact h c (List.mem_append_left _ hc.1) (by simpa using hc.2)
  have hB : ∀ b, ∀ c ∈ conjs (liftNodes b a.plan.bottom).1, ∀ o o' r, c.val o r = c.val o' r := by
    intro b c hc
    rw [liftNodes_conjs, List.mem_filter] at hc
    exact h c (List.mem_append_right _ hc.1) (by simpa using hc.2)
  cases hagg : a.plan.agg with
  | none =>
    simp only [decorrelate, hagg, Plan.rows, Option.elim]
    rw [evalNodes_closed (hB false) o o', evalNodes_closed (hT false) o o']
  | some g =>
    obtain ⟨h1, h2⟩ := hk g hagg
    simp only [decorrelate, hagg, h1, h2, Bool.or_false, Bool.false_eq_true, if_false, Plan.rows, Option.elim]
    rw [evalNodes_closed (hB true) o o', evalNodes_closed (hT true) o o']

end BaikalDB.Corr
