import Verif.Agg.Plan

/-!
# C37: aggregates over regions
-/

namespace BaikalDB.Agg

variable {ρ V D O : Type} {n : Nat} [DecidableEq D]

theorem fin_ub {e : Env V D O} {c : Call ρ V O} {T : V → Prop} (ok : CallOk e c T) (m : Bool) {s : St V D O} {R : List ρ}
    (h : Inv e c s R) (hm : ∀ v ∈ mems e c R, T v) : (finalize e c m s).ub = false := by
  obtain ⟨hub, h⟩ := h
  have set_case : c.kind.isMulti = true →
      (Spec.Distinct e.cmp s.set (mems e c R) ∧
        (s.slot = .null ∨ ∃ l t, s.slot = .str l ∧ unserialize e l = some t ∧ ∀ x ∈ t, ∃ y ∈ s.set, e.cmp y x = 0)) →
      (finalize e c m s).ub = false := by
    intro hk ⟨h1, h2⟩
    obtain ⟨l, hl, hs⟩ := set_rep (D := D) ok hk h1 hm
    unfold finalize
    cases hck : c.kind <;> simp only [hck, Kind.isMulti] at hk <;> try cases hk
    all_goals
      simp only [Kind.isBitmap, Kind.isMulti, Bool.false_eq_true, if_false, if_true]
      cases m
      · simp only [hl, Bool.false_eq_true, if_false]; exact hub
      · simp only [mergeSet_noop h2, hl, if_true]; exact hub
  cases hk : c.kind <;> simp only [hk] at h
  case concat => cases ho : c.order <;> simp [finalize, hk, ho, hub, Kind.isBitmap, Kind.isMulti]
  case avg => cases hs : s.slot <;> simp [finalize, hk, hs, hub, Kind.isBitmap, Kind.isMulti]
  case multiCount => exact set_case (by simp [hk, Kind.isMulti]) h
  case multiSum => exact set_case (by simp [hk, Kind.isMulti]) h
  case multiSumDbl => exact set_case (by simp [hk, Kind.isMulti]) h
  case multiConcat => exact set_case (by simp [hk, Kind.isMulti]) h
  all_goals simp [finalize, hk, hub, Kind.isBitmap, Kind.isMulti]

/-- A merging node and what its rows mean. -/
theorem merge_answer {e : Env V D O} {le : O → O → Prop} {nd : Node n ρ V O} {T : Fin n → V → Prop} (h : NodeOk e nd T) (top : Bool)
    {all : List ρ} {P : List (Part n ρ V D)} (hp : Parts e nd all P) (hP : ∀ x ∈ P, ∀ i, GoodAt e (nd.calls i) i x)
    (hans : ∀ i, AnsOk e le (nd.calls i) all) (hempty : nd.group = [] → all = [] → ∀ i, NoRowsOk (nd.calls i))
    (hlen : (P.flatMap (·.2)).length < 2 ^ 64) :
    (∀ x ∈ runNode e nd true top (P.map (·.1)), x.2 = false) ∧
    ((runNode e nd true top (P.map (·.1))).map fun x => keyOf e nd x.1.cols).Nodup ∧
    (∀ r ∈ all, ∃ x ∈ runNode e nd true top (P.map (·.1)), keyOf e nd x.1.cols = keyOf e nd r) ∧
    (∀ x ∈ runNode e nd true top (P.map (·.1)),
      (nd.group ≠ [] → x.1.cols ∈ groupRows e nd all (keyOf e nd x.1.cols)) ∧
      ∀ i, ∃ S, Spec.Answer e le (nd.calls i) S (x.1.fins i) ∧
        (isD (nd.calls i) = false → S.Perm (groupRows e nd all (keyOf e nd x.1.cols))) ∧
        (isD (nd.calls i) = true → S = (P.filter (fun y => keyOf e nd y.1.cols == keyOf e nd x.1.cols)).map (·.1.cols))) ∧
    (nd.group = [] → (runNode e nd true top (P.map (·.1))).length = 1) := by
  have hgR : ∀ k, (groupRows e nd (P.flatMap (·.2)) k).Perm (groupRows e nd all k) := fun k => hp.rows.filter _
  unfold runNode
  rcases merge_groups h top P hP hlen with ⟨hg, ho, hn, hd⟩ | ⟨m, ho, h1, h2, h3, h4⟩
  · rw [ho]
    have hk : ∀ r, keyOf e nd r = keyOf e nd nd.blank := fun r => keyOf_nil hg _ _
    have hall : ∀ k, k = keyOf e nd nd.blank → groupRows e nd all k = all := by
      intro k hk'
      exact List.filter_eq_self.mpr fun r _ => by simp [hk', hk r]
    have hdef : ∀ i, Spec.Answer e le (nd.calls i) (if isD (nd.calls i) then [] else P.flatMap (·.2))
        (finalize e (nd.calls i) true (initAgg e (nd.calls i) true {}) : St V D O).fin ∧
        (finalize e (nd.calls i) true (initAgg e (nd.calls i) true {}) : St V D O).ub = false := by
      intro i
      refine default_fin _ true ?_ ?_
      · split
        · exact Neutral.nil _ _
        · exact hn i
      · intro hm
        refine ⟨rfl, ?_⟩
        refine (hempty hg ?_ i).multi hm
        have := hn i
        unfold Neutral at this
        have h0 : P.flatMap (·.2) = [] := by
          cases hc : (nd.calls i).kind <;> simp only [hc, Kind.isMulti] at hm this <;> first | exact this | cases hm
        have := hp.rows
        rw [h0] at this
        exact List.nil_perm.mp this
    refine ⟨?_, by simp, ?_, ?_, by simp⟩
    · intro x hx
      simp only [List.map_cons, List.map_nil, List.mem_singleton] at hx
      subst hx
      exact ub_emit fun i => (hdef i).2
    · intro r _
      exact ⟨_, by simp; rfl, by simp only [emit]; rw [hk r]⟩
    · intro x hx
      simp only [List.map_cons, List.map_nil, List.mem_singleton] at hx
      subst hx
      refine ⟨fun hne => absurd hg hne, fun i => ⟨_, (hdef i).1, ?_, ?_⟩⟩
      · intro hi
        rw [if_neg (by simp [hi]), hall _ (by simp [emit])]
        exact hp.rows
      · intro hi
        rw [if_pos hi]
        by_cases hP0 : P = []
        · simp [hP0]
        · have := hd hP0 i
          rw [hi] at this
          cases this
  · rw [ho]
    have hk : ∀ g ∈ m, keyOf e nd g.2.1 = g.1 := by
      intro g hg
      obtain ⟨⟨x, hx, hxc⟩, _⟩ := h2 g hg
      rw [hxc]
      simpa using (List.mem_filter.mp hx).2
    refine ⟨?_, ?_, ?_, ?_, ?_⟩
    · intro x hx
      obtain ⟨g, hg, rfl⟩ := List.mem_map.mp hx
      exact ub_emit fun i => fin_ub (h.call i) true ((h2 g hg).2 i) (h.mems i _)
    · rw [List.map_map]
      have : m.map ((fun x : Row n ρ V D × Bool => keyOf e nd x.1.cols) ∘ emit e nd true) = m.map (·.1) :=
        List.map_congr_left fun g hg => by simp only [Function.comp_apply, emit]; exact hk g hg
      rw [this]
      exact h1
    · intro r hr
      obtain ⟨x, hx, hrx⟩ := List.mem_flatMap.mp (hp.rows.symm.subset hr)
      obtain ⟨g, hg, hgx⟩ := List.mem_map.mp (h3 x hx)
      refine ⟨_, List.mem_map.mpr ⟨g, hg, rfl⟩, ?_⟩
      simp only [emit]
      rw [hk g hg, hgx, hp.key x hx r hrx]
    · intro x hx
      obtain ⟨g, hg, rfl⟩ := List.mem_map.mp hx
      have hkg : keyOf e nd (emit e nd true g).1.cols = g.1 := hk g hg
      rw [hkg]
      obtain ⟨⟨x, hx, hxc⟩, hinv⟩ := h2 g hg
      have hxP := (List.mem_filter.mp hx).1
      have hfp := filter_parts hp.key g.1
      have hmemS : ∀ i, ∀ r ∈ (P.filter (fun x => keyOf e nd x.1.cols == g.1)).flatMap (Sees (nd.calls i)), r ∈ all := by
        intro i r hr
        obtain ⟨y, hy, hry⟩ := List.mem_flatMap.mp hr
        have hyP := (List.mem_filter.mp hy).1
        refine hp.rows.subset (List.mem_flatMap.mpr ⟨y, hyP, ?_⟩)
        unfold Sees at hry
        split at hry
        · simp only [List.mem_singleton] at hry; rw [hry]; exact hp.cols y hyP
        · exact hry
      have hlenS : ∀ i, ((P.filter (fun x => keyOf e nd x.1.cols == g.1)).flatMap (Sees (nd.calls i))).length ≤ all.length := by
        intro i
        rw [← hp.rows.length_eq]
        have : ∀ Q : List (Part n ρ V D), (∀ x ∈ Q, x.2 ≠ []) →
            ((Q.filter (fun x => keyOf e nd x.1.cols == g.1)).flatMap (Sees (nd.calls i))).length ≤ (Q.flatMap (·.2)).length := by
          intro Q
          induction Q with
          | nil => intro _; simp
          | cons y Q ih =>
            intro hne
            have ih := ih fun z hz => hne z (by simp [hz])
            have hy : (Sees (nd.calls i) y).length ≤ y.2.length := by
              unfold Sees
              split
              · exact List.length_pos_of_ne_nil (hne y (by simp))
              · exact Nat.le_refl _
            by_cases hk : (keyOf e nd y.1.cols == g.1) = true
            · rw [List.filter_cons_of_pos (p := fun x : Part n ρ V D => keyOf e nd x.1.cols == g.1) hk, List.flatMap_cons, List.flatMap_cons, List.length_append, List.length_append]
              omega
            · rw [List.filter_cons_of_neg (p := fun x : Part n ρ V D => keyOf e nd x.1.cols == g.1) hk, List.flatMap_cons, List.length_append]
              omega
        exact this P hp.ne
      refine ⟨fun _ => ?_, fun i => ⟨_, answer_fin h.laws (h.call i) (hinv i) (h.mems i _) ((hans i).mono (hmemS i) (hlenS i)) ?_ ?_, ?_, ?_⟩⟩
      · refine (hgR g.1).subset ?_
        rw [← hfp]
        refine List.mem_flatMap.mpr ⟨x, hx, ?_⟩
        simp only [emit]
        rw [hxc]
        exact hp.cols x hxP
      · intro h0
        have := List.flatMap_eq_nil_iff.mp h0 x hx
        unfold Sees at this
        split at this
        · cases this
        · exact hp.ne x hxP this
      · intro hm
        refine ⟨rfl, ?_⟩
        have hd : isD (nd.calls i) = false := by
          by_contra hc
          have hc : isD (nd.calls i) = true := by simpa using hc
          simp [isD, hm] at hc
        have hs : (Sees (nd.calls i) : Part n ρ V D → List ρ) = (·.2) := by funext z; simp [Sees, hd]
        rw [hs]
        refine (Needs.flatMap fun y hy => ?_).2 hm ?_
        · have := hP y (List.mem_filter.mp hy).1 i
          unfold GoodAt at this
          rw [hd] at this
          simp only [Bool.false_eq_true, if_false] at this
          exact this.2.2.1
        · intro h0
          exact hp.ne x hxP (List.flatMap_eq_nil_iff.mp h0 x hx)
      · intro hd
        have hs : (Sees (nd.calls i) : Part n ρ V D → List ρ) = (·.2) := by funext z; simp [Sees, hd]
        rw [hs, hfp]
        exact hgR g.1
      · intro hd
        have hs : (Sees (nd.calls i) : Part n ρ V D → List ρ) = fun x => [x.1.cols] := by funext z; simp [Sees, hd]
        rw [hs]
        exact List.flatMap_pure_eq_map _ _
    · intro hg
      rw [List.length_map]
      exact h4 hg

/-- The rows of a merging node with GROUP BY are parts again, one per key. -/
theorem merge_parts {e : Env V D O} {nd : Node n ρ V O} {T : Fin n → V → Prop} (h : NodeOk e nd T)
    (plain : ∀ i, isD (nd.calls i) = false ∧ (nd.calls i).order = none) (hg : nd.group ≠ [])
    {all : List ρ} {P : List (Part n ρ V D)} (hp : Parts e nd all P) (hP : ∀ x ∈ P, ∀ i, GoodAt e (nd.calls i) i x)
    (hlen : (P.flatMap (·.2)).length < 2 ^ 64) (top : Bool) :
    ∃ Q : List (Part n ρ V D), Q.map (·.1) = (runNode e nd true top (P.map (·.1))).map (·.1) ∧ Parts e nd all Q ∧
      (Q.map fun x => keyOf e nd x.1.cols).Nodup ∧ ∀ x ∈ Q, ∀ i, GoodAt e (nd.calls i) i x := by
  rcases merge_groups h top P hP hlen with ⟨hg', _⟩ | ⟨m, ho, h1, h2, h3, _⟩
  · exact absurd hg' hg
  have hk : ∀ g ∈ m, keyOf e nd g.2.1 = g.1 := by
    intro g hg
    obtain ⟨⟨x, hx, hxc⟩, _⟩ := h2 g hg
    rw [hxc]
    simpa using (List.mem_filter.mp hx).2
  have hs : ∀ i, (Sees (nd.calls i) : Part n ρ V D → List ρ) = (·.2) := fun i => by funext z; simp [Sees, (plain i).1]
  have hne : ∀ g ∈ m, (P.filter (fun x => keyOf e nd x.1.cols == g.1)).flatMap (·.2) ≠ [] := by
    intro g hg h0
    obtain ⟨⟨x, hx, _⟩, _⟩ := h2 g hg
    exact hp.ne x (List.mem_filter.mp hx).1 (List.flatMap_eq_nil_iff.mp h0 x hx)
  refine ⟨m.map fun g => ((emit e nd true g).1, (P.filter (fun x => keyOf e nd x.1.cols == g.1)).flatMap (·.2)), ?_, ⟨?_, ?_, ?_, ?_⟩, ?_, ?_⟩
  · unfold runNode
    rw [ho]
    simp
  · refine List.Perm.trans ?_ hp.rows
    have := perm_by_key (keyOf e nd) (m.map (·.1)) (P.flatMap (·.2)) h1 (by
      intro r hr
      obtain ⟨x, hx, hrx⟩ := List.mem_flatMap.mp hr
      rw [hp.key x hx r hrx]
      exact h3 x hx)
    rw [List.flatMap_map] at this ⊢
    simpa only [filter_parts hp.key, groupRows] using this
  · intro x hx
    obtain ⟨g, hg, rfl⟩ := List.mem_map.mp hx
    exact hne g hg
  · intro x hx r hr
    obtain ⟨g, hg, rfl⟩ := List.mem_map.mp hx
    simp only at hr
    rw [filter_parts hp.key] at hr
    have := (List.mem_filter.mp hr).2
    simp only [emit]
    rw [hk g hg]
    simpa using this
  · intro x hx
    obtain ⟨g, hg, rfl⟩ := List.mem_map.mp hx
    obtain ⟨⟨x, hx, hxc⟩, _⟩ := h2 g hg
    refine List.mem_flatMap.mpr ⟨x, hx, ?_⟩
    simp only [emit]
    rw [hxc]
    exact hp.cols x (List.mem_filter.mp hx).1
  · rw [List.map_map]
    have : m.map ((fun x : Part n ρ V D => keyOf e nd x.1.cols) ∘
        fun g => ((emit e nd true g).1, (P.filter (fun x => keyOf e nd x.1.cols == g.1)).flatMap (·.2))) = m.map (·.1) :=
      List.map_congr_left fun g hg => by simp only [Function.comp_apply, emit]; exact hk g hg
    rw [this]
    exact h1
  · intro x hx i
    obtain ⟨g, hg, rfl⟩ := List.mem_map.mp hx
    have hinv := (h2 g hg).2 i
    rw [hs i] at hinv
    unfold GoodAt
    rw [(plain i).1]
    simp only [Bool.false_eq_true, if_false]
    refine ⟨hne g hg, (rep_fin (h.call i) true hinv (plain i).2 (h.mems i _)).1, Needs.flatMap fun y hy => ?_, ?_⟩
    · have := hP y (List.mem_filter.mp hy).1 i
      unfold GoodAt at this
      rw [(plain i).1] at this
      simp only [Bool.false_eq_true, if_false] at this
      exact this.2.2.1
    · intro o ho
      rw [(plain i).2] at ho
      cases ho

/-! ## The theorems -/

/-- Aggregates computed by the stores, region by region, and merged by the SQL layer, however the table is split into regions
and in whatever order the stores' rows arrive: one row per group, each aggregate the value over all rows of its group; without
GROUP BY exactly one row, even for no rows. -/
theorem C37_regions {e : Env V D O} {le : O → O → Prop} {nd : Node n ρ V O} {T : Fin n → V → Prop} (h : NodeOk e nd T)
    (plain : ∀ i, isD (nd.calls i) = false ∧ (nd.calls i).order = none) (regions : List (List ρ))
    (few : regions.flatten.length < 2 ^ 64) (hans : ∀ i, AnsOk e le (nd.calls i) regions.flatten)
    (hneeds : ∀ R ∈ regions, ∀ i k, Needs e (nd.calls i) (groupRows e nd R k))
    (hempty : nd.group = [] → regions.flatten = [] → ∀ i, NoRowsOk (nd.calls i)) (top : Bool)
    {rows : List (Row n ρ V D)} (hrows : rows.Perm (storeRows e nd regions)) :
    (∀ R ∈ regions, ∀ x ∈ runNode e nd false false (R.map scanned : List (Row n ρ V D)), x.2 = false) ∧
    (∀ x ∈ runNode e nd true top rows, x.2 = false) ∧
    ((runNode e nd true top rows).map fun x => keyOf e nd x.1.cols).Nodup ∧
    (∀ r ∈ regions.flatten, ∃ x ∈ runNode e nd true top rows, keyOf e nd x.1.cols = keyOf e nd r) ∧
    (∀ x ∈ runNode e nd true top rows,
      (nd.group ≠ [] → x.1.cols ∈ groupRows e nd regions.flatten (keyOf e nd x.1.cols)) ∧
      ∀ i, ∃ G, G.Perm (groupRows e nd regions.flatten (keyOf e nd x.1.cols)) ∧ Spec.Answer e le (nd.calls i) G (x.1.fins i)) ∧
    (nd.group = [] → (runNode e nd true top rows).length = 1) := by
  obtain ⟨P0, p1, p2, p3⟩ := stores_parts (D := D) h plain regions hneeds
  rw [← p1] at hrows
  obtain ⟨P, q1, rfl⟩ := perm_map_exists _ hrows P0 rfl
  have hp := parts_perm p2 q1
  obtain ⟨a1, a2, a3, a4, a5⟩ := merge_answer h top hp (fun x hx => p3 x (q1.subset hx)) hans hempty
    (by rw [hp.rows.length_eq]; exact few)
  refine ⟨fun R hR => (region_parts (D := D) h plain R (hneeds R hR)).1, a1, a2, a3, fun x hx => ⟨(a4 x hx).1, fun i => ?_⟩, a5⟩
  obtain ⟨S, s1, s2, _⟩ := (a4 x hx).2 i
  exact ⟨S, s2 (plain i).1, s1⟩

/-- DISTINCT aggregates: the stores and a first merging node group by the GROUP BY columns and the aggregate's argument
(`inner`), the node above (`outer`) by the GROUP BY columns alone, and updates the DISTINCT aggregates from the rows.  Each
of these is the value over one row for every distinct combination in the group, the other aggregates are over all rows. -/
theorem C37_distinct {e : Env V D O} {le : O → O → Prop} {inner outer : Node n ρ V O} {T : Fin n → V → Prop}
    (h : NodeOk e outer T)
    (finer : ∀ r r', keyOf e inner r = keyOf e inner r' → keyOf e outer r = keyOf e outer r') (hgroup : inner.group ≠ [])
    (calls : ∀ i, if isD (outer.calls i) then inner.calls i = { kind := .absent, args := [] }
      else inner.calls i = outer.calls i ∧ (outer.calls i).order = none)
    (regions : List (List ρ)) (few : regions.flatten.length < 2 ^ 64) (hans : ∀ i, AnsOk e le (outer.calls i) regions.flatten)
    (hneeds : ∀ R ∈ regions, ∀ i k, Needs e (inner.calls i) (groupRows e inner R k))
    (hempty : outer.group = [] → regions.flatten = [] → ∀ i, NoRowsOk (outer.calls i)) (top : Bool)
    {rows mid : List (Row n ρ V D)} (hrows : rows.Perm (storeRows e inner regions))
    (hmid : mid.Perm ((runNode e inner true false rows).map (·.1))) :
    (∀ x ∈ runNode e outer true top mid, x.2 = false) ∧
    ((runNode e outer true top mid).map fun x => keyOf e outer x.1.cols).Nodup ∧
    (∀ r ∈ regions.flatten, ∃ x ∈ runNode e outer true top mid, keyOf e outer x.1.cols = keyOf e outer r) ∧
    (∀ x ∈ runNode e outer true top mid, ∀ i,
      if isD (outer.calls i) then
        ∃ S, (∀ r ∈ S, r ∈ groupRows e outer regions.flatten (keyOf e outer x.1.cols)) ∧
          S.Pairwise (fun a b => keyOf e inner a ≠ keyOf e inner b) ∧
          (∀ r ∈ groupRows e outer regions.flatten (keyOf e outer x.1.cols), ∃ r' ∈ S, keyOf e inner r' = keyOf e inner r) ∧
          Spec.Answer e le (outer.calls i) S (x.1.fins i)
      else ∃ G, G.Perm (groupRows e outer regions.flatten (keyOf e outer x.1.cols)) ∧ Spec.Answer e le (outer.calls i) G (x.1.fins i)) ∧
    (outer.group = [] → (runNode e outer true top mid).length = 1) := by
  have hin : ∀ i, isD (inner.calls i) = false ∧ (inner.calls i).order = none := by
    intro i
    have := calls i
    by_cases hd : isD (outer.calls i) = true
    · rw [if_pos hd] at this
      rw [this]
      exact ⟨rfl, rfl⟩
    · rw [if_neg hd] at this
      rw [this.1]
      exact ⟨by simpa using hd, this.2⟩
  have hok : NodeOk e inner T := by
    refine ⟨h.laws, fun i => ?_, fun i r v hv => ?_⟩
    · have := calls i
      by_cases hd : isD (outer.calls i) = true
      · rw [if_pos hd] at this
        rw [this]
        exact ⟨(h.call i).order, fun hc => by cases hc⟩
      · rw [if_neg hd] at this
        rw [this.1]
        exact h.call i
    · have := calls i
      by_cases hd : isD (outer.calls i) = true
      · rw [if_pos hd] at this
        rw [this] at hv
        simp [Spec.scalar, Spec.member] at hv
      · rw [if_neg hd] at this
        rw [this.1] at hv
        exact h.typed i r v hv
  obtain ⟨P0, p1, p2, p3⟩ := stores_parts (D := D) hok hin regions hneeds
  rw [← p1] at hrows
  obtain ⟨P, q1, rfl⟩ := perm_map_exists _ hrows P0 rfl
  have hp := parts_perm p2 q1
  obtain ⟨Q0, r1, r2, r3, r4⟩ := merge_parts hok hin hgroup hp (fun x hx => p3 x (q1.subset hx))
    (by rw [hp.rows.length_eq]; exact few) false
  rw [← r1] at hmid
  obtain ⟨Q, t1, rfl⟩ := perm_map_exists _ hmid Q0 rfl
  have hq := parts_perm r2 t1
  have hqo : Parts e outer regions.flatten Q := ⟨hq.rows, hq.ne, fun x hx r hr => finer _ _ (hq.key x hx r hr), hq.cols⟩
  have hgood : ∀ x ∈ Q, ∀ i, GoodAt e (outer.calls i) i x := by
    intro x hx i
    have hg := r4 x (t1.subset hx) i
    have := calls i
    unfold GoodAt at hg ⊢
    rw [(hin i).1] at hg
    simp only [Bool.false_eq_true, if_false] at hg
    by_cases hd : isD (outer.calls i) = true
    · rw [if_pos hd] at this ⊢
      have hr := hg.2.1
      rw [this] at hr
      exact hr
    · rw [if_neg hd] at this ⊢
      rw [this.1] at hg
      exact hg
  obtain ⟨a1, a2, a3, a4, a5⟩ := merge_answer h top hqo hgood hans hempty (by rw [hq.rows.length_eq]; exact few)
  refine ⟨a1, a2, a3, fun x hx i => ?_, a5⟩
  obtain ⟨S, s1, s2, s3⟩ := (a4 x hx).2 i
  by_cases hd : isD (outer.calls i) = true
  · rw [if_pos hd]
    have hS := s3 hd
    refine ⟨S, ?_, ?_, ?_, s1⟩
    · intro r hr
      rw [hS] at hr
      obtain ⟨y, hy, rfl⟩ := List.mem_map.mp hr
      obtain ⟨hy1, hy2⟩ := List.mem_filter.mp hy
      exact List.mem_filter.mpr ⟨hq.rows.subset (List.mem_flatMap.mpr ⟨y, hy1, hq.cols y hy1⟩), hy2⟩
    · rw [hS, List.pairwise_map]
      refine List.Pairwise.sublist List.filter_sublist ?_
      have : (Q.map fun x => keyOf e inner x.1.cols).Nodup := (t1.map _).nodup_iff.mpr r3
      exact List.pairwise_map.mp this
    · intro r hr
      obtain ⟨hr1, hr2⟩ := List.mem_filter.mp hr
      obtain ⟨y, hy, hry⟩ := List.mem_flatMap.mp (hq.rows.symm.subset hr1)
      refine ⟨y.1.cols, ?_, (hq.key y hy r hry).symm⟩
      rw [hS]
      refine List.mem_map.mpr ⟨y, List.mem_filter.mpr ⟨hy, ?_⟩, rfl⟩
      rw [← hqo.key y hy r hry]
      exact hr2
  · rw [if_neg hd]
    exact ⟨S, s2 (by simpa using hd), s1⟩

/-- A single node that reads the rows itself. -/
theorem C37_single {e : Env V D O} {le : O → O → Prop} {nd : Node n ρ V O} {T : Fin n → V → Prop} (h : NodeOk e nd T)
    (plain : ∀ i, (nd.calls i).distinct = false ∧ (nd.calls i).kind.isMulti = false) (all : List ρ)
    (hans : ∀ i, AnsOk e le (nd.calls i) all) :
    (∀ x ∈ runNode e nd false true (all.map scanned : List (Row n ρ V D)), x.2 = false) ∧
    ((runNode e nd false true (all.map scanned : List (Row n ρ V D))).map fun x => keyOf e nd x.1.cols).Nodup ∧
    (∀ r ∈ all, ∃ x ∈ runNode e nd false true (all.map scanned : List (Row n ρ V D)), keyOf e nd x.1.cols = keyOf e nd r) ∧
    (∀ x ∈ runNode e nd false true (all.map scanned : List (Row n ρ V D)),
      (nd.group ≠ [] → x.1.cols ∈ groupRows e nd all (keyOf e nd x.1.cols)) ∧
      ∀ i, Spec.Answer e le (nd.calls i) (groupRows e nd all (keyOf e nd x.1.cols)) (x.1.fins i)) ∧
    (nd.group = [] → (runNode e nd false true (all.map scanned : List (Row n ρ V D))).length = 1) := by
  obtain ⟨h1, h2, h3⟩ := scan_groups (D := D) h all
  unfold runNode openNode
  generalize hm : ((all.map scanned : List (Row n ρ V D)).foldl (stepRow e nd false) [] : List (Group n ρ V D O)) = m at h1 h2 h3 ⊢
  simp only [Bool.true_or, Bool.and_true]
  by_cases hd : (m.isEmpty && nd.group.isEmpty) = true
  · rw [if_pos hd]
    simp only [Bool.and_eq_true, List.isEmpty_iff] at hd
    have hall : all = [] := by
      cases all with
      | nil => rfl
      | cons r all =>
        have := h3 r (by simp)
        rw [hd.1] at this
        cases this
    subst hall
    have hdef : ∀ i, _ := fun i => default_fin (e := e) (le := le) (D := D) (nd.calls i) false (Neutral.nil e _)
      (fun hc => by rw [(plain i).2] at hc; cases hc)
    refine ⟨?_, by simp, by simp, ?_, by simp⟩
    · intro x hx
      simp only [List.map_cons, List.map_nil, List.mem_singleton] at hx
      subst hx
      exact ub_emit fun i => (hdef i).2
    · intro x hx
      simp only [List.map_cons, List.map_nil, List.mem_singleton] at hx
      subst hx
      exact ⟨fun hne => absurd hd.2 hne, fun i => (hdef i).1⟩
  · rw [if_neg hd]
    have hk : ∀ g ∈ m, keyOf e nd g.2.1 = g.1 := fun g hg => by
      have := (List.mem_filter.mp (h2 g hg).1).2
      simpa using this
    refine ⟨?_, ?_, ?_, ?_, ?_⟩
    · intro x hx
      obtain ⟨g, hg, rfl⟩ := List.mem_map.mp hx
      exact ub_emit fun i => fin_ub (h.call i) false ((h2 g hg).2 i) (h.mems i _)
    · rw [List.map_map]
      have : m.map ((fun x : Row n ρ V D × Bool => keyOf e nd x.1.cols) ∘ emit e nd false) = m.map (·.1) :=
        List.map_congr_left fun g hg => by simp only [Function.comp_apply, emit]; exact hk g hg
      rw [this]
      exact h1
    · intro r hr
      obtain ⟨g, hg, hgr⟩ := List.mem_map.mp (h3 r hr)
      refine ⟨_, List.mem_map.mpr ⟨g, hg, rfl⟩, ?_⟩
      simp only [emit]
      rw [hk g hg, hgr]
    · intro x hx
      obtain ⟨g, hg, rfl⟩ := List.mem_map.mp hx
      have hkg : keyOf e nd (emit e nd false g).1.cols = g.1 := hk g hg
      rw [hkg]
      refine ⟨fun _ => (h2 g hg).1, fun i => ?_⟩
      refine answer_fin h.laws (h.call i) ((h2 g hg).2 i) (h.mems i _) ((hans i).mono ?_ ?_) (List.ne_nil_of_mem (h2 g hg).1) ?_
      · exact fun r hr => (List.mem_filter.mp hr).1
      · exact List.length_filter_le _ _
      · intro hc
        rw [(plain i).2] at hc
        cases hc
    · intro hg
      have hkb : ∀ g ∈ m, g.1 = keyOf e nd nd.blank := fun g hgm => by rw [← hk g hgm]; exact keyOf_nil hg _ _
      clear hm
      rcases m with _ | ⟨g, _ | ⟨g', m'⟩⟩
      · simp [hg] at hd
      · rfl
      · exfalso
        have e1 := hkb g (by simp)
        have e2 := hkb g' (by simp)
        rw [List.map_cons, List.map_cons, List.nodup_cons] at h1
        exact h1.1 (by simp [e1, e2])

end BaikalDB.Agg
