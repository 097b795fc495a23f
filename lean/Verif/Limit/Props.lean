import Verif.Limit.Separate
/-! # LIMIT pushed into the plan yields a right answer (C49) -/
namespace BaikalDB.Limit
variable {V : Type} [DecidableEq V] {B : List (Row V) → List (List (Row V))}

omit [DecidableEq V] in
theorem keep_eq (cs : Option (List (Cond V))) (k : List (Cond V) → Link V) (hk : ∀ c, linkPass (k c) = pass c) (l : List (Row V)) :
    keep cs l = l.filter (chainPass (cs.map k).toList) := by
  unfold keep
  refine List.filter_congr fun r _ => ?_
  rw [Bool.eq_iff_iff, decide_eq_true_iff]
  cases cs with
  | none => simp [chainPass]
  | some cs => simp [chainPass, hk, pass_eq]

omit [DecidableEq V] in
theorem keep_perm {cs : Option (List (Cond V))} {l l' : List (Row V)} (h : l.Perm l') : (keep cs l).Perm (keep cs l') := h.filter _

omit [DecidableEq V] in
theorem sort_pass (o : Option (Order V)) (r : Row V) : chainPass (o.map Link.sort).toList r = true := by
  cases o <;> rfl

omit [DecidableEq V] in
theorem upper_filter (q : Query V) (l : List (Row V)) : l.filter (chainPass q.upper) = keep q.having l := by
  rw [keep_eq q.having Link.having (fun _ => rfl)]
  refine List.filter_congr fun r _ => ?_
  rw [Query.upper, chainPass_append, sort_pass, Bool.true_and]

omit [DecidableEq V] in
theorem lower_filter (q : Query V) (l : List (Row V)) : l.filter (chainPass q.lower) = keep q.where_ l :=
  (keep_eq q.where_ Link.filter (fun _ => rfl) l).symm

omit [DecidableEq V] in
theorem chain_filter (q : Query V) (l : List (Row V)) : l.filter (chainPass q.chain) = keep q.having (keep q.where_ l) := by
  rw [← upper_filter, ← lower_filter, List.filter_filter]
  refine List.filter_congr fun r _ => ?_
  rw [show q.chain = q.upper ++ q.lower from rfl, chainPass_append]

omit [DecidableEq V] in
theorem upper_shape (q : Query V) : Shape q.order q.upper := ⟨_, rfl, by cases q.having <;> simp⟩
omit [DecidableEq V] in
theorem chain_shape (q : Query V) : Shape q.order q.chain :=
  ⟨(q.having.map Link.having).toList ++ (q.where_.map Link.filter).toList, by simp [Query.chain], by
    cases q.having <;> cases q.where_ <;> simp⟩

omit [DecidableEq V] in
theorem chain_fine {q : Query V} (h : ∀ o ∈ q.order, o.Good) : Fine q.chain := by
  intro o ho
  refine h o ?_
  simp only [Query.chain, List.mem_append] at ho
  rcases ho with (ho | ho) | ho
  · cases hq : q.order <;> simp_all
  · cases hq : q.having <;> simp_all
  · cases hq : q.where_ <;> simp_all
omit [DecidableEq V] in
theorem upper_fine {q : Query V} (h : ∀ o ∈ q.order, o.Good) : Fine q.upper := by
  intro o ho
  exact chain_fine h o (List.mem_append_left _ ho)

/-- One AGG node without limit makes the groups of SQL. -/
theorem agg_run (hB : ∀ l, (B l).flatten = l) (D : Data V) (a : Agg V) (p : Plan V) :
    (run B D (.agg a false none p)).Perm (Agg.rows (some a) (run B D p)) := by
  cases a with
  | fns part merge => simp [run, cut, Agg.rows]
  | distinct ss =>
    simp only [run, cut, Agg.rows]
    obtain ⟨g1, g2, g3⟩ := groupLoop_spec ss none (B (run B D p)) [] List.nodup_nil
    simp only [List.not_mem_nil, false_or, reduceCtorEq, false_and, exists_false, or_false, hB] at g2 g3
    refine (List.perm_ext_iff_of_nodup g1 (List.nodup_dedup _)).2 fun x => ?_
    rw [List.mem_dedup]
    have hp : (fun r : Row V => r.filter fun e => decide (e.1 ∈ ss)) = proj ss := by
      funext r
      refine List.filter_congr fun e _ => ?_
      rw [Bool.eq_iff_iff]; simp
    rw [hp]
    exact ⟨g2 x, g3 x⟩

theorem aggRows_perm {a : Option (Agg V)} (ha : ∀ a' ∈ a, a'.Good) {l l' : List (Row V)} (h : l.Perm l') :
    (Agg.rows a l).Perm (Agg.rows a l') := by
  cases a with
  | none => exact h
  | some a =>
    cases a with
    | fns part merge => exact (ha _ rfl).1 _ _ h
    | distinct ss =>
      refine (List.perm_ext_iff_of_nodup (List.nodup_dedup _) (List.nodup_dedup _)).2 fun x => ?_
      rw [List.mem_dedup, List.mem_dedup, (h.map _).mem_iff]

/-- AGG in every region and MERGE_AGG of the results make the groups of all rows. -/
theorem mergeAgg_run (hB : ∀ l, (B l).flatten = l) (D : Data V) {a : Agg V} (ha : a.Good) (p : Plan V) :
    (run B D (.agg a true none (.manager none none (.agg a false none p)))).Perm
      (Agg.rows (some a) ((D p.table).flatMap fun reg => run B (only D p.table reg) p)) := by
  cases a with
  | fns part merge =>
    simp only [run, cut, arrange, Plan.table, Agg.rows, if_true, Bool.false_eq_true, if_false]
    have := ha.2 ((D p.table).map fun reg => run B (only D p.table reg) p)
    rwa [List.flatMap_map, ← List.flatMap_def] at this
  | distinct ss =>
    have h1 := agg_run (B := B) hB D (.distinct ss) (.manager none none (.agg (.distinct ss) false none p))
    refine List.Perm.trans h1 ?_
    simp only [Agg.rows]
    refine (List.perm_ext_iff_of_nodup (List.nodup_dedup _) (List.nodup_dedup _)).2 fun x => ?_
    rw [List.mem_dedup, List.mem_dedup]
    have hreg : ∀ reg y, y ∈ run B (only D p.table reg) (.agg (.distinct ss) false none p) ↔
        y ∈ (run B (only D p.table reg) p).map fun r => r.filter fun e => decide (e.1 ∈ ss) := by
      intro reg y
      rw [(agg_run (B := B) hB (only D p.table reg) (.distinct ss) p).mem_iff]
      simp only [Agg.rows, List.mem_dedup]
    have hm : run B D (.manager none none (.agg (.distinct ss) false none p)) =
        (D p.table).flatMap fun reg => run B (only D p.table reg) (.agg (.distinct ss) false none p) := by
      simp only [run, cut, arrange, Plan.table]
    rw [hm]
    constructor
    · intro hx
      obtain ⟨y, hy, rfl⟩ := List.mem_map.1 hx
      obtain ⟨reg, hreg', hy⟩ := List.mem_flatMap.1 hy
      obtain ⟨z, hz, rfl⟩ := List.mem_map.1 ((hreg reg y).1 hy)
      refine List.mem_map.2 ⟨z, List.mem_flatMap.2 ⟨reg, hreg', hz⟩, ?_⟩
      simp
    · intro hx
      obtain ⟨z, hz, rfl⟩ := List.mem_map.1 hx
      obtain ⟨reg, hreg', hz⟩ := List.mem_flatMap.1 hz
      refine List.mem_map.2 ⟨_, List.mem_flatMap.2 ⟨reg, hreg', (hreg reg _).2 (List.mem_map.2 ⟨z, hz, rfl⟩)⟩, ?_⟩
      simp

/-- The plan has the rows of the SELECT. -/
theorem separate_rows (hB : ∀ l, (B l).flatten = l) {D : Data V} (hD : Owns D) {q : Query V} (hq : q.Ok) :
    (run B D (separate q)).Perm (q.rows D) := by
  unfold separate Query.rows
  split
  · rename_i hs
    cases ha : q.agg with
    | some a =>
      simp only
      refine (onTop_run D _ _).trans ?_
      rw [upper_filter]
      refine keep_perm ((mergeAgg_run hB D (hq.agg a ha) _).trans (aggRows_perm (by rw [← ha]; exact hq.agg) ?_))
      rw [onTop_table, ← lower_filter]
      exact single_region D q.frm hs q.lower
    | none =>
      simp only [run, cut, onTop_table, Agg.rows]
      rw [← chain_filter]
      exact (arrange_perm _ _).trans (single_region D q.frm hs q.chain)
  · cases ha : q.agg with
    | some a =>
      simp only
      refine (onTop_run D _ _).trans ?_
      rw [upper_filter]
      refine keep_perm ((agg_run hB D a _).trans (aggRows_perm (by rw [← ha]; exact hq.agg) ?_))
      rw [← lower_filter]
      exact (onTop_run D _ _).trans ((managed_run D q.frm).filter _)
    | none =>
      simp only [Agg.rows]
      rw [← chain_filter]
      refine push_run hD q.frm (chain_shape q) hq.tables ?_ (hq.nested ha)
      intro cs hcs
      refine hq.having ha cs ?_
      simp only [Query.chain, List.mem_append] at hcs
      rcases hcs with (h | h) | h
      · cases ho : q.order <;> simp_all
      · cases ho : q.having <;> simp_all
      · cases ho : q.where_ <;> simp_all

omit [DecidableEq V] in
theorem separate_wf {q : Query V} (hq : q.Ok) : WF (separate q) ∧ Deliver q.order (separate q) := by
  unfold separate
  split
  · rename_i hs
    cases ha : q.agg with
    | some a => exact ⟨onTop_wf (upper_fine hq.order) fun _ => ⟨rfl, fun _ => ⟨_, rfl⟩⟩, (upper_shape q).deliver _⟩
    | none =>
      refine ⟨⟨rfl, onTop_wf (chain_fine hq.order) fun _ => toPlan_wf q.frm hs, (chain_shape q).top _⟩, ?_⟩
      cases ho : q.order with
      | none => exact deliver_none _
      | some o => rfl
  · cases ha : q.agg with
    | some a => exact ⟨onTop_wf (upper_fine hq.order) fun _ => ⟨rfl, by simp⟩, (upper_shape q).deliver _⟩
    | none =>
      refine push_wf q.frm (chain_shape q) (chain_fine hq.order) hq.tables (hq.nested ha) fun hst => hq.full ⟨?_, ?_, ha, ?_⟩
      · cases ho : q.order with
        | none => rfl
        | some o => simp [Query.chain, ho, stops] at hst
      · cases ho : q.order with
        | some o => simp [Query.chain, ho, stops] at hst
        | none =>
          cases hh : q.having with
          | none => rfl
          | some cs => simp [Query.chain, ho, hh, stops] at hst
      · intro cs hcs
        cases ho : q.order with
        | some o => simp [Query.chain, ho, stops] at hst
        | none =>
          cases hh : q.having with
          | some cs => simp [Query.chain, ho, hh, stops] at hst
          | none =>
            have : q.where_ = some cs := hcs
            simpa [Query.chain, ho, hh, this, stops] using hst

/-- **C49.** A SELECT with LIMIT answers with a right choice of its rows, however its tables are split into regions and whatever
batches the nodes hand to each other: the plan is cut into parts for the stores, SORT, HAVING and WHERE are moved below outer joins,
nodes stop when they have handed out as many rows as the LIMIT can need — and the answer consists of the rows number `offset` to
`offset + count` of all rows of the SELECT in an order that its ORDER BY allows. -/
theorem C49_limit (hB : ∀ l, (B l).flatten = l) {D : Data V} (hD : Owns D) {q : Query V} (hq : q.Ok) (offset count : Nat) :
    RightAnswer q.order (q.rows D) offset count (answer B D offset count q) := by
  obtain ⟨hw, hd⟩ := separate_wf hq
  obtain ⟨l, h1, h2, h3⟩ := limit_ok hB (offset + count) (separate q) hw q.order hd hD
  exact ⟨l, h1.trans (separate_rows hB hD hq), h2, drop_take_of h3⟩

/-- **C49.** In particular no row is lost, invented or given twice: the answer has `count` rows, or all rows behind `offset` if these
are fewer, and every row occurs at most as often as in the SELECT without LIMIT. -/
theorem C49_rows (hB : ∀ l, (B l).flatten = l) {D : Data V} (hD : Owns D) {q : Query V} (hq : q.Ok) (offset count : Nat) :
    (answer B D offset count q).length = min count ((q.rows D).length - offset) ∧
      (answer B D offset count q).Subperm (q.rows D) := by
  obtain ⟨l, h1, -, h3⟩ := C49_limit hB hD hq offset count
  rw [h3]
  constructor
  · rw [List.length_take, List.length_drop, h1.length_eq]
  · exact ((List.take_sublist _ _).trans (List.drop_sublist _ _)).subperm.trans h1.subperm

/-- **C49.** Without the LIMIT node nothing is cut off: the plan made for the SELECT has all its rows. -/
theorem C49_separate (hB : ∀ l, (B l).flatten = l) {D : Data V} (hD : Owns D) {q : Query V} (hq : q.Ok) :
    (run B D (separate q)).Perm (q.rows D) := separate_rows hB hD hq

end BaikalDB.Limit
