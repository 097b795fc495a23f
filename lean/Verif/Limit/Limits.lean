import Verif.Limit.Lemmas
/-! # Nodes with limits of their own -/
namespace BaikalDB.Limit
variable {V : Type} [DecidableEq V]

/-! ### Plans as `separate` makes them -/

/-- No AGG node. -/
def Pure : Plan V → Prop
  | .scan _ _ => True
  | .filter _ _ p | .having _ _ p | .sort _ _ p | .manager _ _ p => Pure p
  | .agg .. => False
  | .join _ _ _ l r => Pure l ∧ Pure r

/-- The nodes that get a limit are those `limit_ok` below can deal with. -/
def WF : Plan V → Prop
  | .scan _ lim => lim = none
  | .filter cs lim p => lim = none ∧ (cs = [] → WF p)
  | .having _ lim _ => lim = none
  | .sort o lim _ => lim = none ∧ o.Good
  | .agg a m lim p => lim = none ∧ (m = true → ∃ p', p = .manager none none (.agg a false none p'))
  | .manager o lim p => lim = none ∧ WF p ∧ ∀ o' ∈ o, ∃ p', p = .sort o' none p'
  | .join .inner _ lim _ _ => lim = none
  | .join .left _ lim l r => lim = none ∧ WF l ∧ Pure r ∧ ∀ t ∈ l.tables, t ∉ r.tables
  | .join .right _ lim l r => lim = none ∧ WF r ∧ Pure l ∧ ∀ t ∈ l.tables, t ∉ r.tables
  | .join .full _ _ _ _ => False

/-- The order in which a plan hands out its rows. -/
def Deliver : Option (Order V) → Plan V → Prop
  | none, _ => True
  | some o, .sort o' _ _ => o = o'
  | some o, .manager o' _ _ => o' = some o
  | some o, .join .left _ _ l _ => o.Good ∧ (∀ s ∈ o.slots, s.1 ∈ l.tables) ∧ Deliver (some o) l
  | some o, .join .right _ _ _ r => o.Good ∧ (∀ s ∈ o.slots, s.1 ∈ r.tables) ∧ Deliver (some o) r
  | some _, _ => False

omit [DecidableEq V] in
theorem only_owns {D : Data V} (h : Owns D) {t : Nat} {reg : List (Row V)} (hr : reg ∈ D t) : Owns (only D t reg) := by
  intro u reg' hreg' r hr' e he
  unfold only at hreg'
  split at hreg'
  · rename_i hu
    rw [List.mem_singleton] at hreg'
    subst hreg' hu
    exact h _ _ hr r hr' e he
  · exact h u reg' hreg' r hr' e he

omit [DecidableEq V] in
theorem mem_cut {lim : Option Nat} {l : List (Row V)} {x : Row V} (h : x ∈ cut lim l) : x ∈ l := by
  cases lim with
  | none => exact h
  | some k => exact List.mem_of_mem_take h

omit [DecidableEq V] in
theorem mem_joinRows {ty : JoinTy} {on : List (Cond V)} {ls rs : List (Row V)} {x : Row V} (h : x ∈ joinRows ty on ls rs) :
    x ∈ ls ∨ x ∈ rs ∨ ∃ l ∈ ls, ∃ r ∈ rs, x = l ++ r := by
  have key : ∀ l ∈ ls, ∀ x ∈ (rs.map (l ++ ·)).filter (pass on), ∃ l ∈ ls, ∃ r ∈ rs, x = l ++ r := by
    intro l hl x hx
    obtain ⟨r, hr, rfl⟩ := List.mem_map.1 (List.mem_of_mem_filter hx)
    exact ⟨l, hl, r, hr, rfl⟩
  have left : ∀ x ∈ (ls.flatMap fun l =>
      if ((rs.map (l ++ ·)).filter (pass on)).isEmpty then [l] else (rs.map (l ++ ·)).filter (pass on)),
      x ∈ ls ∨ x ∈ rs ∨ ∃ l ∈ ls, ∃ r ∈ rs, x = l ++ r := by
    intro x hx
    obtain ⟨l, hl, hx⟩ := List.mem_flatMap.1 hx
    split at hx
    · rw [List.mem_singleton] at hx; subst hx; exact .inl hl
    · exact .inr (.inr (key l hl x hx))
  cases ty with
  | inner =>
    obtain ⟨l, hl, hx⟩ := List.mem_flatMap.1 h
    exact .inr (.inr (key l hl x hx))
  | left => exact left x h
  | right =>
    obtain ⟨r, hr, hx⟩ := List.mem_flatMap.1 h
    split at hx
    · rw [List.mem_singleton] at hx; subst hx; exact .inr (.inl hr)
    · obtain ⟨l, hl, rfl⟩ := List.mem_map.1 (List.mem_of_mem_filter hx)
      exact .inr (.inr ⟨l, hl, r, hr, rfl⟩)
  | full =>
    rcases List.mem_append.1 h with h | h
    · exact left x h
    · exact .inr (.inl (List.mem_of_mem_filter h))

variable {B : List (Row V) → List (List (Row V))}

/-- The rows of a plan have slots of the plan's tables only. -/
theorem run_owns : ∀ (p : Plan V), Pure p → ∀ {D : Data V}, Owns D → ∀ x ∈ run B D p, ∀ e ∈ x, e.1.1 ∈ p.tables
  | .scan t lim, _, D, hD, x, hx, e, he => by
    simp only [run, List.mem_flatMap] at hx
    obtain ⟨reg, hreg, hx⟩ := hx
    simp [Plan.tables, hD t reg hreg x (mem_cut hx) e he]
  | .filter cs lim p, hp, D, hD, x, hx, e, he => by
    simp only [run] at hx
    exact run_owns p hp hD x (List.mem_of_mem_filter (mem_cut hx)) e he
  | .having cs lim p, hp, D, hD, x, hx, e, he => by
    simp only [run] at hx
    exact run_owns p hp hD x (List.mem_of_mem_filter (mem_cut hx)) e he
  | .sort o lim p, hp, D, hD, x, hx, e, he => by
    simp only [run] at hx
    exact run_owns p hp hD x ((sorted_perm o _).mem_iff.1 (mem_cut hx)) e he
  | .agg .., hp, _, _, _, _, _, _ => hp.elim
  | .manager o lim p, hp, D, hD, x, hx, e, he => by
    simp only [run] at hx
    have hx := mem_cut hx
    have : x ∈ (D p.table).flatMap fun reg => run B (only D p.table reg) p := by
      cases o with
      | none => exact hx
      | some o => exact (sorted_perm o _).mem_iff.1 hx
    obtain ⟨reg, hreg, hx⟩ := List.mem_flatMap.1 this
    exact run_owns p hp (only_owns hD hreg) x hx e he
  | .join ty on lim l r, hp, D, hD, x, hx, e, he => by
    simp only [run] at hx
    simp only [Plan.tables, List.mem_append]
    rcases mem_joinRows (mem_cut hx) with hx | hx | ⟨a, ha, b, hb, rfl⟩
    · exact .inl (run_owns l hp.1 hD x hx e he)
    · exact .inr (run_owns r hp.2 hD x hx e he)
    · rcases List.mem_append.1 he with he | he
      · exact .inl (run_owns l hp.1 hD a ha e he)
      · exact .inr (run_owns r hp.2 hD b hb e he)

/-- What an outer join makes of one row of its driving side. -/
def outL (on : List (Cond V)) (rs : List (Row V)) (l : Row V) : List (Row V) :=
  if ((rs.map (l ++ ·)).filter (pass on)).isEmpty then [l] else (rs.map (l ++ ·)).filter (pass on)
def outR (on : List (Cond V)) (ls : List (Row V)) (r : Row V) : List (Row V) :=
  if ((ls.map (· ++ r)).filter (pass on)).isEmpty then [r] else (ls.map (· ++ r)).filter (pass on)

omit [DecidableEq V] in
theorem outL_ne (on : List (Cond V)) (rs : List (Row V)) (l : Row V) : outL on rs l ≠ [] := by
  unfold outL; split
  · simp
  · rename_i h; simpa [List.isEmpty_iff] using h
omit [DecidableEq V] in
theorem outR_ne (on : List (Cond V)) (ls : List (Row V)) (r : Row V) : outR on ls r ≠ [] := by
  unfold outR; split
  · simp
  · rename_i h; simpa [List.isEmpty_iff] using h

omit [DecidableEq V] in
theorem mem_outL {on : List (Cond V)} {rs : List (Row V)} {l x : Row V} (h : x ∈ outL on rs l) : x = l ∨ ∃ r ∈ rs, x = l ++ r := by
  unfold outL at h; split at h
  · exact .inl (List.mem_singleton.1 h)
  · obtain ⟨r, hr, rfl⟩ := List.mem_map.1 (List.mem_of_mem_filter h)
    exact .inr ⟨r, hr, rfl⟩
omit [DecidableEq V] in
theorem mem_outR {on : List (Cond V)} {ls : List (Row V)} {r x : Row V} (h : x ∈ outR on ls r) : x = r ∨ ∃ l ∈ ls, x = l ++ r := by
  unfold outR at h; split at h
  · exact .inl (List.mem_singleton.1 h)
  · obtain ⟨l, hr, rfl⟩ := List.mem_map.1 (List.mem_of_mem_filter h)
    exact .inr ⟨l, hr, rfl⟩

omit [DecidableEq V] in
/-- Slots of the driving side keep their values. -/
theorem map_get_outL {on : List (Cond V)} {rs : List (Row V)} {l x : Row V} {ss : List Slot} (hs : ∀ s ∈ ss, ∀ r ∈ rs, ∀ e ∈ r, e.1 ≠ s)
    (h : x ∈ outL on rs l) : ss.map (get x) = ss.map (get l) := by
  rcases mem_outL h with rfl | ⟨r, hr, rfl⟩
  · rfl
  · exact List.map_congr_left fun s hs' => get_append_left (hs s hs' r hr)
omit [DecidableEq V] in
theorem map_get_outR {on : List (Cond V)} {ls : List (Row V)} {r x : Row V} {ss : List Slot} (hs : ∀ s ∈ ss, ∀ l ∈ ls, ∀ e ∈ l, e.1 ≠ s)
    (h : x ∈ outR on ls r) : ss.map (get x) = ss.map (get r) := by
  rcases mem_outR h with rfl | ⟨l, hl, rfl⟩
  · rfl
  · exact List.map_congr_left fun s hs' => get_append_right (hs s hs' l hl)

omit [DecidableEq V] in
/-- An outer join keeps the order of its driving side. -/
theorem inOrder_out {o : Order V} (hg : o.Good) {f : Row V → List (Row V)} {l : List (Row V)}
    (hf : ∀ x ∈ l, ∀ z ∈ f x, o.slots.map (get z) = o.slots.map (get x)) (h : l.Pairwise (RLe o)) : (l.flatMap f).Pairwise (RLe o) := by
  rw [List.pairwise_flatMap]
  constructor
  · intro x hx
    rw [List.pairwise_iff_forall_sublist]
    intro a b hab
    have ha : a ∈ f x := hab.subset (by simp)
    have hb : b ∈ f x := hab.subset (by simp)
    show o.le _ _ = true
    rw [hf x hx a ha, hf x hx b hb]
    exact RLe.refl hg x
  · refine h.imp_of_mem fun {x y} hx hy hxy a ha b hb => ?_
    show o.le _ _ = true
    rw [hf x hx a ha, hf y hy b hb]
    exact hxy

omit [DecidableEq V] in
theorem deliver_none (p : Plan V) : Deliver none p := by
  cases p <;> simp [Deliver]

omit [DecidableEq V] in
theorem limit_table (k : Nat) : ∀ p : Plan V, (limitCalc k p).table = p.table
  | .scan .. => rfl
  | .filter cs _ p => by
    simp only [limitCalc, Plan.table]
    split
    · exact limit_table k p
    · rfl
  | .having .. => rfl
  | .sort .. => rfl
  | .agg (.fns ..) m _ p => by cases m <;> rfl
  | .agg (.distinct _) false _ p => rfl
  | .agg (.distinct _) true _ (.manager _ _ c) => limit_table k c
  | .agg (.distinct _) true _ (.scan ..) => rfl
  | .agg (.distinct _) true _ (.filter cs l p) => limit_table k (.filter cs l p)
  | .agg (.distinct _) true _ (.having ..) => rfl
  | .agg (.distinct _) true _ (.sort ..) => rfl
  | .agg (.distinct _) true _ (.agg a m l p) => limit_table k (.agg a m l p)
  | .agg (.distinct _) true _ (.join ty on lim l r) => limit_table k (.join ty on lim l r)
  | .manager _ _ p => limit_table k p
  | .join .inner .. => rfl
  | .join .left _ _ l _ => limit_table k l
  | .join .right .. => rfl
  | .join .full _ _ l _ => limit_table k l

/-- With its limits, a plan first hands out the first `k` rows of some arrangement of all its rows. -/
theorem limit_ok (hB : ∀ l, (B l).flatten = l) (k : Nat) : ∀ (p : Plan V), WF p → ∀ (o : Option (Order V)), Deliver o p →
    ∀ {D : Data V}, Owns D →
    ∃ l : List (Row V), l.Perm (run B D p) ∧ InOrder o l ∧ (run B D (limitCalc k p)).take k = l.take k
  | .scan t lim, hw, o, ho, D, hD => by
    cases o with
    | some o => exact ho.elim
    | none =>
      have : lim = none := hw
      subst this
      refine ⟨_, List.Perm.refl _, by simp [InOrder], ?_⟩
      simp only [limitCalc, run]
      generalize D t = regs
      induction regs with
      | nil => rfl
      | cons r rs ih =>
        rw [List.flatMap_cons, List.flatMap_cons]
        exact take_append_of (by simp [cut, List.take_take]) ih
  | .filter cs lim p, hw, o, ho, D, hD => by
    cases o with
    | some o => exact ho.elim
    | none =>
      obtain ⟨rfl, hw⟩ := hw
      cases hc : cs.isEmpty with
      | true =>
        have : cs = [] := List.isEmpty_iff.1 hc
        subst this
        obtain ⟨l, h1, h2, h3⟩ := limit_ok hB k p (hw rfl) none (deliver_none _) hD
        have hpass : ∀ l : List (Row V), l.filter (pass []) = l := fun l => by simp [pass]
        refine ⟨l, ?_, h2, ?_⟩
        · simp only [run, cut, hpass]; exact h1
        · simp only [limitCalc, run, List.isEmpty_nil, if_true, hpass]
          rw [take_cut _ _ _ (.inl rfl), h3]
      | false =>
        refine ⟨_, List.Perm.refl _, by simp [InOrder], ?_⟩
        simp only [limitCalc, run, hc, Bool.false_eq_true, if_false]
        rw [take_cut _ _ _ (.inl rfl)]; rfl
  | .having cs lim p, hw, o, ho, D, hD => by
    cases o with
    | some o => exact ho.elim
    | none =>
      have : lim = none := hw
      subst this
      refine ⟨_, List.Perm.refl _, by simp [InOrder], ?_⟩
      simp only [limitCalc, run]
      rw [take_cut _ _ _ (.inl rfl)]; rfl
  | .sort o' lim p, hw, o, ho, D, hD => by
    obtain ⟨rfl, hg⟩ := hw
    refine ⟨_, List.Perm.refl _, ?_, ?_⟩
    · cases o with
      | none => simp [InOrder]
      | some o =>
        have : o = o' := ho
        subst this
        intro o'' ho''
        cases ho''
        exact sorted_sorted hg _
    · simp only [limitCalc, run]
      rw [take_cut _ _ _ (.inl rfl)]; rfl
  | .agg (.fns part merge) m lim p, hw, o, ho, D, hD => by
    cases o with
    | some o => exact ho.elim
    | none =>
      obtain ⟨rfl, hw⟩ := hw
      refine ⟨_, List.Perm.refl _, by simp [InOrder], ?_⟩
      cases m <;> simp only [limitCalc, run] <;> rw [take_cut _ _ _ (.inl rfl)] <;> rfl
  | .agg (.distinct ss) false lim p, hw, o, ho, D, hD => by
    cases o with
    | some o => exact ho.elim
    | none =>
      obtain ⟨rfl, hw⟩ := hw
      obtain ⟨g1, g2, g3⟩ := groupLoop_spec ss (some k) (B (run B D p)) [] List.nodup_nil
      obtain ⟨a1, a2, a3⟩ := groupLoop_spec ss none (B (run B D p)) [] List.nodup_nil
      simp only [List.not_mem_nil, false_or, reduceCtorEq, false_and, exists_false, or_false, Option.some.injEq] at g2 g3 a2 a3
      obtain ⟨l, h1, h2⟩ := first_groups (k := k) g1 a1 (fun x hx => a3 x (g2 x hx)) (by
        rcases g3 with g3 | ⟨k', rfl, g3⟩
        · exact .inl fun x hx => g3 x (a2 x hx)
        · exact .inr g3)
      refine ⟨l, h1, by simp [InOrder], ?_⟩
      simp only [limitCalc, run]
      rw [take_cut _ _ _ (.inl rfl), h2]
  | .agg (.distinct ss) true lim p, hw, o, ho, D, hD => by
    cases o with
    | some o => exact ho.elim
    | none =>
      obtain ⟨rfl, hm⟩ := hw
      obtain ⟨p', rfl⟩ := hm rfl
      clear hm
      simp only [limitCalc, run, cut, arrange, Plan.table]
      generalize hX : (fun reg => run B (only D p'.table reg) p') = X
      have hX' : ∀ reg, run B (only D p'.table reg) p' = X reg := fun reg => congrFun hX reg
      simp only [hX']
      generalize D p'.table = regs
      -- the groups of the regions, cut and complete
      obtain ⟨g1, g2, g3⟩ := groupLoop_spec ss (some k)
        (B (regs.flatMap fun reg => (groupLoop ss (some k) [] (B (X reg))).take k)) [] List.nodup_nil
      obtain ⟨a1, a2, a3⟩ := groupLoop_spec ss none
        (B (regs.flatMap fun reg => groupLoop ss none [] (B (X reg)))) [] List.nodup_nil
      simp only [List.not_mem_nil, false_or, reduceCtorEq, false_and, exists_false, or_false, Option.some.injEq, hB] at g2 g3 a2 a3
      have part : ∀ reg, (∀ x ∈ (groupLoop ss (some k) [] (B (X reg))).take k, x ∈ (X reg).map (proj ss)) ∧
          ((groupLoop ss (some k) [] (B (X reg))).take k).Nodup ∧
          ((∀ x ∈ (X reg).map (proj ss), x ∈ (groupLoop ss (some k) [] (B (X reg))).take k) ∨
            k ≤ ((groupLoop ss (some k) [] (B (X reg))).take k).length) := by
        intro reg
        obtain ⟨p1, p2, p3⟩ := groupLoop_spec ss (some k) (B (X reg)) [] List.nodup_nil
        simp only [List.not_mem_nil, false_or, Option.some.injEq, hB] at p2 p3
        refine ⟨fun x hx => p2 x (List.mem_of_mem_take hx), p1.sublist (List.take_sublist _ _), ?_⟩
        by_cases hk : k ≤ (groupLoop ss (some k) [] (B (X reg))).length
        · right; rw [List.length_take]; omega
        · left
          rw [List.take_of_length_le (by omega)]
          rcases p3 with p3 | ⟨k', rfl, p3⟩
          · exact p3
          · exact absurd p3 hk
      have full : ∀ reg x, x ∈ groupLoop ss none [] (B (X reg)) ↔ x ∈ (X reg).map (proj ss) := by
        intro reg x
        obtain ⟨p1, p2, p3⟩ := groupLoop_spec ss none (B (X reg)) [] List.nodup_nil
        simp only [List.not_mem_nil, false_or, reduceCtorEq, false_and, exists_false, or_false, hB] at p2 p3
        exact ⟨p2 x, p3 x⟩
      -- all groups
      have hall : ∀ x, x ∈ groupLoop ss none [] (B (regs.flatMap fun reg => groupLoop ss none [] (B (X reg)))) ↔
          ∃ reg ∈ regs, x ∈ (X reg).map (proj ss) := by
        intro x
        constructor
        · intro hx
          obtain ⟨y, hy, rfl⟩ := List.mem_map.1 (a2 x hx)
          obtain ⟨reg, hreg, hy⟩ := List.mem_flatMap.1 hy
          obtain ⟨z, hz, rfl⟩ := List.mem_map.1 ((full reg y).1 hy)
          exact ⟨reg, hreg, List.mem_map.2 ⟨z, hz, (proj_proj ss z).symm⟩⟩
        · rintro ⟨reg, hreg, hx⟩
          apply a3
          obtain ⟨z, hz, rfl⟩ := List.mem_map.1 hx
          exact List.mem_map.2 ⟨proj ss z, List.mem_flatMap.2 ⟨reg, hreg, (full reg _).2 hx⟩, proj_proj ss z⟩
      obtain ⟨l, h1, h2⟩ := first_groups (k := k) g1 a1 (fun x hx => by
          rw [hall]
          obtain ⟨y, hy, rfl⟩ := List.mem_map.1 (g2 x hx)
          obtain ⟨reg, hreg, hy⟩ := List.mem_flatMap.1 hy
          obtain ⟨z, hz, rfl⟩ := List.mem_map.1 ((part reg).1 y hy)
          exact ⟨reg, hreg, List.mem_map.2 ⟨z, hz, (proj_proj ss z).symm⟩⟩) (by
        rcases g3 with g3 | ⟨k', rfl, g3⟩
        · by_cases hc : ∀ reg ∈ regs, ∀ x ∈ (X reg).map (proj ss), x ∈ (groupLoop ss (some k) [] (B (X reg))).take k
          · left
            intro x hx
            obtain ⟨reg, hreg, hx⟩ := (hall x).1 hx
            apply g3
            obtain ⟨z, hz, rfl⟩ := List.mem_map.1 hx
            exact List.mem_map.2 ⟨proj ss z, List.mem_flatMap.2 ⟨reg, hreg, hc reg hreg _ hx⟩, proj_proj ss z⟩
          · right
            push Not at hc
            obtain ⟨reg, hreg, x, hx, hx'⟩ := hc
            have hlen : k ≤ ((groupLoop ss (some k) [] (B (X reg))).take k).length := by
              rcases (part reg).2.2 with h | h
              · exact absurd (h x hx) hx'
              · exact h
            refine hlen.trans (List.subperm_of_subset (part reg).2.1 ?_).length_le
            intro y hy
            apply g3
            obtain ⟨z, hz, rfl⟩ := List.mem_map.1 ((part reg).1 y hy)
            exact List.mem_map.2 ⟨proj ss z, List.mem_flatMap.2 ⟨reg, hreg, hy⟩, proj_proj ss z⟩
        · exact .inr g3)
      refine ⟨l, h1, by simp [InOrder], ?_⟩
      rw [List.take_take, Nat.min_self, h2]
  | .manager none lim p, hw, o, ho, D, hD => by
    cases o with
    | some o => exact absurd ho (by simp [Deliver])
    | none =>
      obtain ⟨rfl, hw, -⟩ := hw
      have ht : (limitCalc k p).table = p.table := limit_table k p
      simp only [limitCalc, run, arrange, ht]
      rw [take_cut _ _ _ (.inl rfl)]
      have hreg : ∀ reg ∈ D p.table, ∃ l : List (Row V), l.Perm (run B (only D p.table reg) p) ∧ InOrder none l ∧
          (run B (only D p.table reg) (limitCalc k p)).take k = l.take k :=
        fun reg hr => limit_ok hB k p hw none (deliver_none _) (only_owns hD hr)
      clear ht hD
      revert hreg
      generalize D p.table = regs
      intro hreg
      induction regs with
      | nil => exact ⟨[], by simp [cut], by simp [InOrder], by simp⟩
      | cons r rs ih =>
        obtain ⟨l, h1, -, h3⟩ := hreg r (by simp)
        obtain ⟨m, m1, -, m3⟩ := ih fun reg hr => hreg reg (by simp [hr])
        refine ⟨l ++ m, ?_, by simp [InOrder], ?_⟩
        · simp only [cut, List.flatMap_cons] at *; exact h1.append m1
        · rw [List.flatMap_cons]; exact take_append_of h3 m3
  | .manager (some o') lim p, hw, o, ho, D, hD => by
    obtain ⟨rfl, hw, hp⟩ := hw
    obtain ⟨p', rfl⟩ := hp o' rfl
    have hg : o'.Good := hw.2
    obtain ⟨l, h1, h2, h3⟩ := merge_take hg k (D p'.table)
      (fun reg => run B (only D p'.table reg) (.sort o' (some k) p')) (fun reg => run B (only D p'.table reg) (.sort o' none p'))
      (fun reg _ => ⟨_, List.Perm.refl _, sorted_sorted hg _, rfl⟩)
    refine ⟨l, ?_, ?_, ?_⟩
    · simp only [run, cut, arrange, Plan.table] at *
      exact h1.trans (sorted_perm _ _).symm
    · cases o with
      | none => simp [InOrder]
      | some o =>
        have : some o' = some o := ho
        cases this
        intro o'' ho''
        cases ho''
        exact h2
    · simp only [limitCalc]
      rw [← h3]
      simp only [run, arrange, Plan.table]
      rw [take_cut _ _ _ (.inl rfl)]
  | .join .inner on lim l r, hw, o, ho, D, hD => by
    cases o with
    | some o => exact ho.elim
    | none =>
      have : lim = none := hw
      subst this
      refine ⟨_, List.Perm.refl _, by simp [InOrder], ?_⟩
      simp only [limitCalc, run]
      rw [take_cut _ _ _ (.inl rfl)]; rfl
  | .join .full on lim l r, hw, o, ho, D, hD => hw.elim
  | .join .left on lim l r, hw, o, ho, D, hD => by
    obtain ⟨rfl, hl, hpr, hd⟩ := hw
    have hol : Deliver o l := by
      cases o with
      | none => exact deliver_none _
      | some o => exact ho.2.2
    obtain ⟨m, h1, h2, h3⟩ := limit_ok hB k l hl o hol hD
    refine ⟨m.flatMap (outL on (run B D r)), ?_, ?_, ?_⟩
    · exact h1.flatMap_right _
    · cases o with
      | none => simp [InOrder]
      | some o =>
        intro o' ho'
        cases ho'
        refine inOrder_out ho.1 (fun x _ z hz => map_get_outL (fun s hs y hy e he => ?_) hz) (h2 o rfl)
        rintro rfl
        exact hd _ (ho.2.1 _ hs) (run_owns r hpr hD y hy e he)
    · simp only [limitCalc, run]
      rw [take_cut _ _ _ (.inl rfl)]
      show ((run B D (limitCalc k l)).flatMap (outL on (run B D r))).take k = _
      rw [take_flatMap_of_take _ (outL_ne on _), h3, ← take_flatMap_of_take _ (outL_ne on _)]
  | .join .right on lim l r, hw, o, ho, D, hD => by
    obtain ⟨rfl, hr, hpl, hd⟩ := hw
    have hol : Deliver o r := by
      cases o with
      | none => exact deliver_none _
      | some o => exact ho.2.2
    obtain ⟨m, h1, h2, h3⟩ := limit_ok hB k r hr o hol hD
    refine ⟨m.flatMap (outR on (run B D l)), ?_, ?_, ?_⟩
    · exact h1.flatMap_right _
    · cases o with
      | none => simp [InOrder]
      | some o =>
        intro o' ho'
        cases ho'
        refine inOrder_out ho.1 (fun x _ z hz => map_get_outR (fun s hs y hy e he => ?_) hz) (h2 o rfl)
        rintro rfl
        exact hd _ (run_owns l hpl hD y hy e he) (ho.2.1 _ hs)
    · simp only [limitCalc, run]
      rw [take_cut _ _ _ (.inl rfl)]
      show ((run B D (limitCalc k r)).flatMap (outR on (run B D l))).take k = _
      rw [take_flatMap_of_take _ (outR_ne on _), h3, ← take_flatMap_of_take _ (outR_ne on _)]

end BaikalDB.Limit
