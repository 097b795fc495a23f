import Verif.Part.Meta

/-!
# Partitioned tables: the properties
-/

namespace BaikalDB.Part

/-! ## Rows go to their partition -/

theorem mem_filter_visible {s : Schema} {u : User} {rt : RType} {read : Bool}
    (hr : reqOf u read = some rt) {p : PInfo} :
    p ∈ (ranges s).filter (isSpecified s rt u.switch) ↔
      p ∈ s.parts ∧ p.ptype ≠ .additional ∧ Wanted s u p := by
  rw [List.mem_filter, mem_ranges, isSpecified_iff hr, and_assoc]

/-- A row is written to the partition that holds its value, and refused if none does. -/
theorem C74_write {s : Schema} (h : Ok s) (hn : NumExpr s) {u : User} (hu : u.switch = false)
    (v : Option Int) (i : Int) :
    writePartition s u (toVal v) = some i ↔ ∃ p, Visible s u false p ∧ Holds s p v ∧ p.id = i := by
  have huq := unique_of_ok h hu
  constructor
  · intro hw
    obtain ⟨rt, hrt⟩ := visible_req (u := u) (read := false) (Or.inl hu)
    have hev : ∀ {p : PInfo}, coversB (evalExpr s (toVal v)) p = true → Holds s p v := by
      intro p hc
      rcases he : evalExpr s (toVal v) with _ | m | t
      · rw [he, coversB_null] at hc; cases hc
      · rw [he] at hc
        exact eval_holds he ((coversB_num m p).1 hc)
      · exfalso
        unfold evalExpr at he
        rcases hx : s.expr with _ | g
        · rw [hx] at he
          rcases v with _ | n <;> cases he
        · rw [hx] at he
          exact hn g hx _ t he
    unfold writePartition calcPartition at hw
    rw [hrt] at hw
    simp only at hw
    rcases ha : u.additional
    · rw [ha] at hw
      simp only [Bool.false_eq_true, if_false] at hw
      obtain ⟨p, hp, hi, hc⟩ := findBack_some hw
      rw [mem_filter_visible hrt] at hp
      refine ⟨p, ⟨hp.1, ?_⟩, hev hc, hi⟩
      rw [ha]
      exact Or.inl hp.2
    · rw [ha] at hw
      simp only [if_true] at hw
      obtain ⟨p, hp, hi, hc⟩ := findBack_some hw
      rw [mem_adds] at hp
      refine ⟨p, ⟨hp.1, ?_⟩, hev hc, hi⟩
      rw [ha]
      exact hp.2
  · rintro ⟨p, hv, hh, rfl⟩
    have hm := mem_addValue huq (Or.inl hu) hv hh []
    unfold writePartition
    have h2 : (calcPartition s u (toVal v) false).2 = none := by
      unfold calcPartition
      split
      · rfl
      · split
        · rfl
        · rfl
    unfold addValue at hm
    generalize calcPartition s u (toVal v) false = g at hm h2
    rcases g with ⟨_ | a, _ | b⟩
    · cases hm
    · cases h2
    · simp only [mem_insertId, List.not_mem_nil, false_or] at hm
      simp only [hm]
    · cases h2

/-- No two partitions a user writes to hold the same value. -/
theorem C74_one {s : Schema} (h : Ok s) {u : User} (hu : u.switch = false) {p q : PInfo}
    {v : Option Int} (hp : Visible s u false p) (hq : Visible s u false q) (h1 : Holds s p v)
    (h2 : Holds s q v) : p = q := by
  obtain ⟨m, hm, hc⟩ := holds_eval h1
  obtain ⟨m', hm', hc'⟩ := holds_eval h2
  rw [hm] at hm'
  cases hm'
  refine unique_of_ok h hu p hp.1 q hq.1 m hc hc' ?_
  obtain ⟨_, hp⟩ := hp
  obtain ⟨_, hq⟩ := hq
  rcases ha : u.additional
  · rw [ha] at hp hq
    simp only [Bool.false_eq_true, if_false, false_and, or_false] at hp hq
    exact Or.inr ⟨hp.1, hq.1, hp.2, hq.2⟩
  · rw [ha] at hp hq
    simp only [if_true] at hp hq
    exact Or.inl ⟨hp, hq⟩

/-- A table under switch takes no row. -/
theorem C74_write_switch (s : Schema) {u : User} (hu : u.switch = true) (v : Val) :
    writePartition s u v = none := by
  unfold writePartition calcPartition reqOf
  simp [hu]

/-! ## A statement reads every partition that can hold a row of its result -/

theorem rangeMatch_of_inv {x : Option Int} {fr : FieldRange} (h : InvR x fr) {n : Int}
    (hx : x = some n) {p : PInfo} (hc : Covers p n) :
    rangeMatch (headVal fr.left) (headVal fr.right) (if fr.right = [] then false else fr.rightOpen)
      p = true := by
  obtain ⟨hl, hr⟩ := h
  obtain ⟨⟨a, ha, han⟩, hb⟩ := hc
  have h1 : ¬ (headVal fr.left ≠ .null ∧ cmpVB (headVal fr.left) p.right ≥ 0) := by
    rcases hfl : fr.left with _ | ⟨y, t⟩
    · simp [headVal]
    · rw [hfl] at hl
      obtain ⟨m, hm, hle⟩ := hl y rfl
      rw [hx] at hm
      cases hm
      simp only [headVal, not_and]
      intro _
      rcases hp : p.right with b | _
      · have := hb b hp
        simp only [cmpVB, ge_iff_le, sgn_nonneg]
        omega
      · simp [cmpVB]
  unfold rangeMatch
  rw [if_neg h1]
  rcases hfr : fr.right with _ | ⟨y, t⟩
  · simp [headVal]
  · rw [hfr] at hr
    obtain ⟨m, hm, hle, hop⟩ := hr y rfl
    rw [hx] at hm
    cases hm
    rw [ha]
    simp only [headVal, ne_eq, reduceCtorEq, not_false_eq_true, if_true, List.cons_ne_nil, if_false,
      cmpVB]
    rcases ho : fr.rightOpen
    · simp only [Bool.false_eq_true, if_false, Bool.not_eq_true', decide_eq_false_iff_not, sgn_neg]
      omega
    · have := hop ho
      simp only [if_true, Bool.not_eq_true', decide_eq_false_iff_not, sgn_nonpos]
      omega

/-- `prune` for any user no two of whose partitions share a value. -/
theorem prune_unique {s : Schema} {u : User} {read : Bool} (huq : Unique s u)
    (hr : u.switch = false ∨ read = true) {f : Nat} {cs : List Cond} {r : Nat → Option Int}
    (hsat : ∀ c ∈ cs, Sat r c) (hplain : ∀ c ∈ cs, Plain f c) {p : PInfo}
    (hv : Visible s u read p) (hh : Holds s p (r f))
    (hx : s.expr = none ∨ p.ptype ≠ .additional) :
    ∃ ids, selectRange s u read f cs = some ids ∧ p.id ∈ ids := by
  obtain ⟨rt, hrt⟩ := visible_req hr
  have hE := hitAll_invE hsat fun c hc => plainHash_of_plain (hplain c hc)
  have hR := hitAll_invR hsat hplain
  have hP := hitAll_invP hplain
  unfold selectRange
  rcases hm : hitAll f cs with _ | fr
  · simp only
    unfold specifiedIds
    rw [hrt]
    simp only
    obtain ⟨hp, hv⟩ := hv
    rcases ha : u.additional
    · rw [ha] at hv
      simp only [Bool.false_eq_true, if_false] at hv ⊢
      rcases hv with hv | ⟨rfl, hv⟩
      · have hmem : p ∈ (ranges s).filter (isSpecified s rt u.switch) :=
          (mem_filter_visible hrt).2 ⟨hp, hv⟩
        split
        · exact ⟨_, rfl, (mem_insertAll ..).2 (Or.inl ((mem_insertAll ..).2 (Or.inr ⟨p, hmem, rfl⟩)))⟩
        · exact ⟨_, rfl, (mem_insertAll ..).2 (Or.inr ⟨p, hmem, rfl⟩)⟩
      · exact ⟨_, rfl, (mem_insertAll ..).2 (Or.inr ⟨p, mem_adds.2 ⟨hp, hv⟩, rfl⟩)⟩
    · rw [ha] at hv
      simp only [if_true] at hv ⊢
      exact ⟨_, rfl, (mem_insertAll ..).2 (Or.inr ⟨p, mem_adds.2 ⟨hp, hv⟩, rfl⟩)⟩
  · simp only
    have hE := hE fr hm
    have hR := hR fr hm
    have hP := hP fr hm
    split
    · rename_i hne
      obtain ⟨n, hn, hmem⟩ := hE hP hne
      refine ⟨_, rfl, foldl_addValue_mem ?_ _ [] hmem⟩
      intro ids
      have := mem_addValue huq hr hv hh ids
      rw [hn] at this
      exact this
    · unfold calcPartitions
      rcases hex : s.expr with _ | g
      · simp only
        rw [hrt]
        simp only
        have hmatch : rangeMatch (headVal fr.left) (headVal fr.right)
            (if fr.right = [] then false else fr.rightOpen) p = true := by
          unfold Holds at hh
          rw [hex] at hh
          rcases hn : r f with _ | n
          · rw [hn] at hh; exact hh.elim
          · rw [hn] at hh
            exact rangeMatch_of_inv hR hn hh
        obtain ⟨hp, hv⟩ := hv
        rcases ha : u.additional
        · rw [ha] at hv
          simp only [Bool.false_eq_true, if_false] at hv ⊢
          rcases hv with hv | ⟨rfl, hv⟩
          · have hmem := List.mem_filter.2 ⟨(mem_filter_visible hrt).2 ⟨hp, hv⟩, hmatch⟩
            split
            · exact ⟨_, rfl,
                (mem_insertAll ..).2 (Or.inl ((mem_insertAll ..).2 (Or.inr ⟨p, hmem, rfl⟩)))⟩
            · exact ⟨_, rfl, (mem_insertAll ..).2 (Or.inr ⟨p, hmem, rfl⟩)⟩
          · exact ⟨_, rfl, (mem_insertAll ..).2
              (Or.inr ⟨p, List.mem_filter.2 ⟨mem_adds.2 ⟨hp, hv⟩, hmatch⟩, rfl⟩)⟩
        · rw [ha] at hv
          simp only [if_true] at hv ⊢
          exact ⟨_, rfl, (mem_insertAll ..).2
            (Or.inr ⟨p, List.mem_filter.2 ⟨mem_adds.2 ⟨hp, hv⟩, hmatch⟩, rfl⟩)⟩
      · simp only
        rw [hex] at hx
        have ht : p.ptype ≠ .additional := by
          rcases hx with hx | hx
          · cases hx
          · exact hx
        exact ⟨_, rfl, (mem_insertAll ..).2 (Or.inr ⟨p, mem_ranges.2 ⟨hv.1, ht⟩, rfl⟩)⟩

/-- Every partition that a user sees and that holds a row of the result is read. -/
theorem C74_prune {s : Schema} (h : Ok s) {u : User} (hu : u.switch = false) (read : Bool)
    {f : Nat} {cs : List Cond} {r : Nat → Option Int} (hsat : ∀ c ∈ cs, Sat r c)
    (hplain : ∀ c ∈ cs, Plain f c) {p : PInfo} (hv : Visible s u read p) (hh : Holds s p (r f))
    (hx : s.expr = none ∨ p.ptype ≠ .additional) :
    ∃ ids, selectRange s u read f cs = some ids ∧ p.id ∈ ids :=
  prune_unique (unique_of_ok h hu) (Or.inl hu) hsat hplain hv hh hx

/-- The same for a read of a table under switch, if no two partitions it is about share a value. -/
theorem C74_prune_switch {s : Schema} {u : User} (huq : Unique s u)
    {f : Nat} {cs : List Cond} {r : Nat → Option Int} (hsat : ∀ c ∈ cs, Sat r c)
    (hplain : ∀ c ∈ cs, Plain f c) {p : PInfo} (hv : Visible s u true p) (hh : Holds s p (r f))
    (hx : s.expr = none ∨ p.ptype ≠ .additional) :
    ∃ ids, selectRange s u true f cs = some ids ∧ p.id ∈ ids :=
  prune_unique huq (Or.inr rfl) hsat hplain hv hh hx

/-- What an account wrote, the same account finds, to read and to change, under any conditions the
row meets. -/
theorem C74_readback {s : Schema} (h : Ok s) (hn : NumExpr s) {u : User} (hu : u.switch = false)
    (read : Bool) {f : Nat} {cs : List Cond} {r : Nat → Option Int} (hsat : ∀ c ∈ cs, Sat r c)
    (hplain : ∀ c ∈ cs, Plain f c) (hx : s.expr = none ∨ u.additional = false) {i : Int}
    (hw : writePartition s u (toVal (r f)) = some i) :
    ∃ ids, selectRange s u read f cs = some ids ∧ i ∈ ids := by
  obtain ⟨p, hv, hh, rfl⟩ := (C74_write h hn hu (r f) i).1 hw
  obtain ⟨hp, hv⟩ := hv
  refine C74_prune h hu read hsat hplain ⟨hp, ?_⟩ hh ?_
  · rcases ha : u.additional
    · rw [ha] at hv
      simp only [Bool.false_eq_true, if_false, false_and, or_false] at hv ⊢
      exact Or.inl hv
    · rw [ha] at hv
      simpa using hv
  · rcases hx with hx | ha
    · exact Or.inl hx
    · rw [ha] at hv
      simp only [Bool.false_eq_true, if_false, false_and, or_false] at hv
      exact Or.inr hv.1

/-- A table partitioned by a column: only partitions the user sees are read, each once. -/
theorem C74_own {s : Schema} (hx : s.expr = none) {u : User} {read : Bool} {f : Nat}
    {cs : List Cond} {ids : List Int} (h : selectRange s u read f cs = some ids) :
    ids.Nodup ∧ ∀ i ∈ ids, ∃ p, Visible s u read p ∧ p.id = i := by
  have hadd : ∀ {p : PInfo}, p ∈ adds s → (u.additional = true ∨ read = true) →
      Visible s u read p := by
    intro p hp hor
    rw [mem_adds] at hp
    refine ⟨hp.1, ?_⟩
    rcases ha : u.additional
    · rw [ha] at hor
      simp only [Bool.false_eq_true, false_or] at hor
      simp [hor, hp.2]
    · simp [hp.2]
  have hrng : ∀ {p : PInfo} {rt : RType}, reqOf u read = some rt → u.additional = false →
      p ∈ (ranges s).filter (isSpecified s rt u.switch) → Visible s u read p := by
    intro p rt hrt ha hp
    rw [mem_filter_visible hrt] at hp
    refine ⟨hp.1, ?_⟩
    rw [ha]
    exact Or.inl hp.2
  unfold selectRange at h
  rcases hm : hitAll f cs with _ | fr
  · rw [hm] at h
    simp only at h
    unfold specifiedIds at h
    rcases hrt : reqOf u read with _ | rt
    · rw [hrt] at h; cases h
    · rw [hrt] at h
      simp only at h
      rcases ha : u.additional
      · rw [ha] at h
        simp only [Bool.false_eq_true, if_false] at h
        rcases hrd : read
        · rw [hrd] at h
          simp only [Bool.false_eq_true, if_false, Option.some.injEq] at h
          subst h
          refine ⟨nodup_insertAll _ .nil, ?_⟩
          intro i hi
          obtain ⟨p, hp, he⟩ := ((mem_insertAll ..).1 hi).resolve_left (by simp)
          exact ⟨p, by rw [← hrd]; exact hrng hrt ha hp, he⟩
        · rw [hrd] at h
          simp only [if_true, Option.some.injEq] at h
          subst h
          refine ⟨nodup_insertAll _ (nodup_insertAll _ .nil), ?_⟩
          intro i hi
          rcases (mem_insertAll ..).1 hi with hi | ⟨p, hp, he⟩
          · obtain ⟨p, hp, he⟩ := ((mem_insertAll ..).1 hi).resolve_left (by simp)
            exact ⟨p, by rw [← hrd]; exact hrng hrt ha hp, he⟩
          · exact ⟨p, by rw [← hrd]; exact hadd hp (Or.inr hrd), he⟩
      · rw [ha] at h
        simp only [if_true, Option.some.injEq] at h
        subst h
        refine ⟨nodup_insertAll _ .nil, ?_⟩
        intro i hi
        obtain ⟨p, hp, he⟩ := ((mem_insertAll ..).1 hi).resolve_left (by simp)
        exact ⟨p, hadd hp (Or.inl ha), he⟩
  · rw [hm] at h
    simp only at h
    split at h
    · simp only [Option.some.injEq] at h
      subst h
      refine ⟨nodup_foldl_addValue _ .nil, ?_⟩
      intro i hi
      exact foldl_addValue_visible _ hi (by simp)
    · unfold calcPartitions at h
      rw [hx] at h
      simp only at h
      rcases hrt : reqOf u read with _ | rt
      · rw [hrt] at h; cases h
      · rw [hrt] at h
        simp only at h
        rcases ha : u.additional
        · rw [ha] at h
          simp only [Bool.false_eq_true, if_false] at h
          rcases hrd : read
          · rw [hrd] at h
            simp only [Bool.false_eq_true, if_false, Option.some.injEq] at h
            subst h
            refine ⟨nodup_insertAll _ .nil, ?_⟩
            intro i hi
            obtain ⟨p, hp, he⟩ := ((mem_insertAll ..).1 hi).resolve_left (by simp)
            exact ⟨p, by rw [← hrd]; exact hrng hrt ha (List.mem_filter.1 hp).1, he⟩
          · rw [hrd] at h
            simp only [if_true, Option.some.injEq] at h
            subst h
            refine ⟨nodup_insertAll _ (nodup_insertAll _ .nil), ?_⟩
            intro i hi
            rcases (mem_insertAll ..).1 hi with hi | ⟨p, hp, he⟩
            · obtain ⟨p, hp, he⟩ := ((mem_insertAll ..).1 hi).resolve_left (by simp)
              exact ⟨p, by rw [← hrd]; exact hrng hrt ha (List.mem_filter.1 hp).1, he⟩
            · exact ⟨p, by rw [← hrd]; exact hadd (List.mem_filter.1 hp).1 (Or.inr hrd), he⟩
        · rw [ha] at h
          simp only [if_true, Option.some.injEq] at h
          subst h
          refine ⟨nodup_insertAll _ .nil, ?_⟩
          intro i hi
          obtain ⟨p, hp, he⟩ := ((mem_insertAll ..).1 hi).resolve_left (by simp)
          exact ⟨p, hadd (List.mem_filter.1 hp).1 (Or.inl ha), he⟩

/-! ## The partitions of a table -/

/-- `CREATE TABLE` gives partitions that do not share a value, each with its own id and name. -/
theorem C74_create {ct : ColType} {primary : RType} {isolation : Option Int}
    {expr : Option (Val → Val)} {ps : List PSpec} {s : Schema}
    (h : create ct primary isolation expr ps = some s) : Ok s := (create_spec h).1

theorem mem_chain : ∀ {l : List PInfo} {b : Bound} {p : PInfo}, p ∈ chain b l →
    ∃ q ∈ l, p = { q with left := p.left }
  | [], _, _, h => by simp [chain] at h
  | q :: l, b, p, h => by
    rcases List.mem_cons.1 h with rfl | h
    · exact ⟨q, List.mem_cons_self .., rfl⟩
    · obtain ⟨q', hq', he⟩ := mem_chain h
      exact ⟨q', List.mem_cons_of_mem _ hq', he⟩

theorem chain_has : ∀ {l : List PInfo} {b : Bound} {q : PInfo}, q ∈ l →
    ∃ p ∈ chain b l, p = { q with left := p.left }
  | [], _, _, h => by simp at h
  | a :: l, b, q, h => by
    rcases List.mem_cons.1 h with rfl | h
    · exact ⟨_, List.mem_cons_self .., rfl⟩
    · obtain ⟨p, hp, he⟩ := chain_has (b := a.right) h
      exact ⟨p, List.mem_cons_of_mem _ hp, he⟩

/-- With `VALUES LESS THAN` no value is left out: from the least value of the type on, a value is
in the partition with the least bound above it. -/
theorem C74_create_cover {ct : ColType} {primary : RType} {isolation : Option Int}
    {expr : Option (Val → Val)} {ps : List PSpec} {s : Schema}
    (h : create ct primary isolation expr ps = some s) (t : RType) {n : Int} (hn : ct.lo ≤ n)
    {sp : PSpec} (hsp : sp ∈ ps) (ht : sp.ptype = t) {b : Bound} (hb : sp.bound = .less b)
    (hbn : Below n b) :
    ∃ p ∈ s.parts, p.ptype = t ∧ Covers p n ∧
      (∃ sp' ∈ ps, sp'.name = p.name ∧ sp'.ptype = t ∧ sp'.bound = .less p.right) ∧
      ∀ sp' ∈ ps, sp'.ptype = t → ∀ b', sp'.bound = .less b' → Below n b' → BoundLe p.right b' := by
  obtain ⟨_, _, _, ⟨g, hg, hin, _⟩, _⟩ := create_spec h
  set ls := (((ps.filter fun p => decide (p.ptype = t)).filter isLess).map (convert ct · 0)) with hls
  have hmem : ∀ {sp' : PSpec} {b' : Bound}, sp' ∈ ps → sp'.ptype = t → sp'.bound = .less b' →
      convert ct sp' 0 ∈ sortBy rightLe ls ∧ (convert ct sp' 0).right = b' := by
    intro sp' b' h1 h2 h3
    refine ⟨(sortBy_perm rightLe ls).mem_iff.2 (List.mem_map.2 ⟨sp', ?_, rfl⟩), ?_⟩
    · rw [List.mem_filter, List.mem_filter]
      exact ⟨⟨h1, by simpa using h2⟩, by simp [isLess, h3]⟩
    · unfold convert; rw [h3]
  obtain ⟨q, hq, hc, ⟨q0, hq0, hqe⟩, hleast⟩ := chain_covers (n := n) (b := ct.lo)
    (sortBy_sorted ls) hn ⟨_, (hmem hsp ht hb).1, by rw [(hmem hsp ht hb).2]; exact hbn⟩
  have hqg : q ∈ g := by
    have : q ∈ group ct ps t := by
      unfold group
      exact List.mem_append_left _ hq
    rw [hg]
    cases t <;> simp [this]
  obtain ⟨p, hp, hpe⟩ := hin q hqg
  have hq0' := (sortBy_perm rightLe ls).mem_iff.1 hq0
  rw [hls] at hq0'
  obtain ⟨sp0, hsp0, rfl⟩ := List.mem_map.1 hq0'
  rw [List.mem_filter, List.mem_filter] at hsp0
  obtain ⟨⟨h1, h2⟩, h3⟩ := hsp0
  have h2 : sp0.ptype = t := by simpa using h2
  obtain ⟨b0, hb0⟩ : ∃ b0, sp0.bound = .less b0 := by
    unfold isLess at h3
    rcases hbd : sp0.bound with b0 | _
    · exact ⟨b0, rfl⟩
    · rw [hbd] at h3; cases h3
  have hq0r : q.right = b0 := by rw [hqe, ← (hmem h1 h2 hb0).2]
  have hqt : q.ptype = t := by
    rw [hqe, ← h2]
    simp only
    unfold convert
    split <;> rfl
  have hqn : q.name = sp0.name := by
    rw [hqe]
    exact convert_name ct sp0 0
  refine ⟨p, hp, by rw [hpe]; exact hqt, covers_congr (by rw [hpe]) (by rw [hpe]) hc,
    ⟨sp0, h1, by rw [hpe]; exact hqn.symm, h2, ?_⟩, ?_⟩
  · rw [hb0, hpe, ← hq0r]
  · intro sp' h1' h2' b' h3' hn'
    have := hleast _ (hmem h1' h2' h3').1 (by rw [(hmem h1' h2' h3').2]; exact hn')
    rw [(hmem h1' h2' h3').2] at this
    rw [hpe]
    exact this

/-- The partitions of the new table are those of the statement: names, types, upper bounds, and
lower bounds where the statement gives them. -/
theorem C74_create_all {ct : ColType} {primary : RType} {isolation : Option Int}
    {expr : Option (Val → Val)} {ps : List PSpec} {s : Schema}
    (h : create ct primary isolation expr ps = some s) :
    (∀ sp ∈ ps, ∃ p ∈ s.parts, p.name = sp.name ∧ p.ptype = sp.ptype ∧ p.cold = sp.cold ∧
      (∀ b, sp.bound = .less b → p.right = b) ∧
      ∀ l r, sp.bound = .range l r → p.left = l ∧ p.right = r) ∧
    (∀ p ∈ s.parts, ∃ sp ∈ ps, p.name = sp.name) ∧
    s.primary = primary ∧ s.isolation = isolation ∧ s.expr = expr := by
  obtain ⟨_, _, _, ⟨g, hg, hin, hout⟩, _, e1, e2, e3⟩ := create_spec h
  refine ⟨?_, ?_, e1, e2, e3⟩
  · intro sp hsp
    have hgr : ∀ q, q ∈ group ct ps sp.ptype → q ∈ g := by
      intro q hq
      rw [hg]
      generalize sp.ptype = t at hq
      cases t <;> simp [hq]
    have hconv : (convert ct sp 0).ptype = sp.ptype ∧ (convert ct sp 0).cold = sp.cold := by
      unfold convert; split <;> exact ⟨rfl, rfl⟩
    rcases hb : sp.bound with b | ⟨l, r⟩
    · have hm : convert ct sp 0 ∈ sortBy rightLe
          ((((ps.filter fun p => decide (p.ptype = sp.ptype)).filter isLess)).map
            (convert ct · 0)) := by
        refine (sortBy_perm rightLe _).mem_iff.2 (List.mem_map.2 ⟨sp, ?_, rfl⟩)
        rw [List.mem_filter, List.mem_filter]
        exact ⟨⟨hsp, by simp⟩, by simp [isLess, hb]⟩
      obtain ⟨q, hq, hqe⟩ := chain_has (b := .num ct.lo) hm
      obtain ⟨p, hp, hpe⟩ := hin q (hgr q (by unfold group; exact List.mem_append_left _ hq))
      refine ⟨p, hp, ?_, ?_, ?_, ?_, by simp⟩
      · rw [hpe, hqe]; exact convert_name ct sp 0
      · rw [hpe, hqe]; exact hconv.1
      · rw [hpe, hqe]; exact hconv.2
      · intro b' hb'
        cases hb'
        rw [hpe, hqe]
        simp only
        unfold convert
        rw [hb]
    · have hm : convert ct sp 0 ∈ group ct ps sp.ptype := by
        unfold group
        refine List.mem_append_right _ (List.mem_map.2 ⟨sp, ?_, rfl⟩)
        rw [List.mem_filter, List.mem_filter]
        exact ⟨⟨hsp, by simp⟩, by simp [isLess, hb]⟩
      obtain ⟨p, hp, hpe⟩ := hin _ (hgr _ hm)
      refine ⟨p, hp, ?_, ?_, ?_, by simp, ?_⟩
      · rw [hpe]; exact convert_name ct sp 0
      · rw [hpe]; exact hconv.1
      · rw [hpe]; exact hconv.2
      · intro l' r' hb'
        cases hb'
        rw [hpe]
        simp only
        unfold convert
        rw [hb]
        exact ⟨rfl, rfl⟩
  · intro p hp
    obtain ⟨q, hq, hpe⟩ := hout p hp
    have hname : q.name ∈ ps.map (·.name) := by
      refine (groups_names ct ps).mem_iff.1 (List.mem_map.2 ⟨q, ?_, rfl⟩)
      rw [← hg]; exact hq
    obtain ⟨sp, hsp, he⟩ := List.mem_map.1 hname
    exact ⟨sp, hsp, by rw [hpe]; exact he.symm⟩

/-- `ADD PARTITION` that is accepted adds the partitions it lists, with new ids, and changes no
other one. -/
theorem C74_add {ct : ColType} {s s' : Schema} (hok : Ok s) {dyn : Bool} {ps : List PSpec}
    (h : addPartition ct s dyn ps = some s') :
    Ok s' ∧ ∃ new, s'.parts.Perm (s.parts ++ new) ∧ (∀ p ∈ new, s.maxId < p.id) ∧
      (dyn = false → List.Forall₂ (Matches ct) ps new) ∧ (∀ p ∈ new, ∃ sp ∈ ps, Matches ct sp p) ∧
      s.maxId ≤ s'.maxId ∧ s'.expr = s.expr ∧ s'.primary = s.primary ∧ s'.isolation = s.isolation := by
  unfold addPartition at h
  rcases hl : addLoop ct dyn (s.parts.map (·.name)) s.parts s.maxId ps with _ | ⟨parts, id⟩
  · rw [hl] at h; cases h
  · rw [hl] at h
    simp only [Option.some.injEq] at h
    subst h
    obtain ⟨h1, h2, new, rfl, h4, h5, h6⟩ := addLoop_ok ps (okL_iff.1 hok) (fun n hn => hn) hl
    refine ⟨okL_iff.2 (h1.perm (sortBy_perm ptrLe _)), new, sortBy_perm ptrLe _, h4, h5, h6, h2,
      rfl, rfl, rfl⟩

/-- `DROP PARTITION` that is accepted removes the partitions it names and no other one; unless it
comes from the server itself, every name must exist. -/
theorem C74_drop {s s' : Schema} (hok : Ok s) {dyn : Bool} {names : List String}
    (h : dropPartition s dyn names = some s') :
    Ok s' ∧ (∀ p, p ∈ s'.parts ↔ p ∈ s.parts ∧ p.name ∉ names) ∧
      (names ≠ [] → s'.parts ≠ []) ∧ (dyn = false → ∀ n ∈ names, ∃ p ∈ s.parts, p.name = n) ∧
      s'.maxId = s.maxId ∧ s'.expr = s.expr ∧ s'.primary = s.primary ∧
      s'.isolation = s.isolation := by
  unfold dropPartition at h
  rcases hd : dropIds s dyn names with _ | ids
  · rw [hd] at h; cases h
  · rw [hd] at h
    simp only at h
    split at h
    · cases h
    · rename_i hne
      split at h
      · cases h
      · simp only [Option.some.injEq] at h
        subst h
        obtain ⟨h1, h2⟩ := dropIds_spec hok hd
        refine ⟨okL_iff.2 ((okL_iff.1 hok).sublist List.filter_sublist), ?_, ?_, h2, rfl, rfl,
          rfl, rfl⟩
        · intro p
          simp only [List.mem_filter, Bool.not_eq_true', List.contains_eq_mem,
            decide_eq_false_iff_not]
          constructor
          · rintro ⟨hp, hi⟩
            exact ⟨hp, fun hn => hi ((h1 p hp).2 hn)⟩
          · rintro ⟨hp, hn⟩
            exact ⟨hp, fun hi => hn ((h1 p hp).1 hi)⟩
        · intro hn he
          exact hne ⟨hn, he⟩

theorem lt_of_minB {m : Int} {x y : Bound} (h : cmpBB (.num m) (minB x y) < 0) {b : Int}
    (hb : x = .num b ∨ y = .num b) : m < b := by
  unfold minB at h
  cases x <;> cases y
  · split at h <;> rename_i h' <;> simp only [cmpBB, sgn_neg, sgn_nonpos] at h h' <;>
      rcases hb with hb | hb <;> cases hb <;> omega
  · split at h <;> rename_i h' <;> simp only [cmpBB, sgn_neg] at h h' <;>
      rcases hb with hb | hb <;> cases hb <;> omega
  · split at h <;> rename_i h' <;> simp only [cmpBB, sgn_neg] at h h' <;>
      rcases hb with hb | hb <;> cases hb <;> omega
  · rcases hb with hb | hb <;> cases hb

theorem le_of_maxB {m : Int} {x y : Bound} (h : maxB x y = .num m) :
    (∃ a, x = .num a ∧ a ≤ m) ∧ ∃ c, y = .num c ∧ c ≤ m := by
  unfold maxB at h
  cases x <;> cases y
  · split at h <;> rename_i h' <;> simp only [cmpBB, sgn_nonpos] at h' <;> cases h
    · exact ⟨⟨_, rfl, h'⟩, _, rfl, Int.le_refl _⟩
    · exact ⟨⟨_, rfl, Int.le_refl _⟩, _, rfl, by omega⟩
  · split at h <;> rename_i h' <;> simp only [cmpBB] at h'
    · cases h
    · omega
  · split at h <;> rename_i h' <;> simp only [cmpBB] at h'
    · omega
    · cases h
  · split at h <;> cases h

theorem cmpBB_max (b : Bound) : 0 ≤ cmpBB .max b := by
  cases b <;> simp [cmpBB]

/-- Ranges that overlap share a value. -/
theorem covers_of_overlap {p q : PInfo}
    (h : cmpBB (maxB p.left q.left) (minB p.right q.right) < 0) : ∃ n, Covers p n ∧ Covers q n := by
  rcases hm : maxB p.left q.left with m | _
  · rw [hm] at h
    obtain ⟨h1, h2⟩ := le_of_maxB hm
    exact ⟨m, ⟨h1, fun b hb => lt_of_minB h (Or.inl hb)⟩, h2, fun b hb => lt_of_minB h (Or.inr hb)⟩
  · rw [hm] at h
    have := cmpBB_max (minB p.right q.right)
    omega

theorem overlapped_covers {l : List PInfo} {q : PInfo} (h : overlapped l q = true) :
    ∃ p ∈ l, p.name ≠ q.name ∧ SameKind p q ∧ ∃ n, Covers p n ∧ Covers q n := by
  unfold overlapped at h
  rw [List.any_eq_true] at h
  obtain ⟨a, ha, hb⟩ := h
  split at hb
  · cases hb
  · rename_i hnm
    split at hb
    · cases hb
    · rename_i hk
      exact ⟨a, ha, hnm, (isSpecifiedPartition_iff a q).1 (by simpa using hk),
        covers_of_overlap (by simpa using hb)⟩

/-- A partition with a new name, within the type and sharing no value with another one of its kind
is added. -/
theorem C74_add_accepted {ct : ColType} {s : Schema} {dyn : Bool} {sp : PSpec} {a b : Int}
    (hb : sp.bound = .range (.num a) (.num b)) (h1 : ct.lo ≤ a) (h2 : a < b) (h3 : b ≤ ct.hi)
    (hname : ∀ p ∈ s.parts, p.name ≠ sp.name)
    (hfree : ∀ p ∈ s.parts, SameKind p ⟨sp.ptype, sp.name, 0, .num a, .num b, sp.cold⟩ →
      ∀ n, a ≤ n → n < b → ¬ Covers p n) :
    ∃ s', addPartition ct s dyn [sp] = some s' ∧
      ⟨sp.ptype, sp.name, s.maxId + 1, .num a, .num b, sp.cold⟩ ∈ s'.parts := by
  have hn : (s.parts.map (·.name)).contains sp.name = false := by
    simp only [List.contains_eq_mem, decide_eq_false_iff_not, List.mem_map, not_exists, not_and]
    exact hname
  have hc : checkBound ct (specBound ct sp) = true := by
    unfold specBound
    rw [hb]
    simp only [checkBound, checkLower, checkUpper, cmpBB, sgn_neg, Bool.and_eq_true,
      Bool.not_eq_true', Bool.or_eq_false_iff, decide_eq_false_iff_not, decide_eq_true_eq]
    omega
  have hcv : convert ct sp (s.maxId + 1) =
      ⟨sp.ptype, sp.name, s.maxId + 1, .num a, .num b, sp.cold⟩ := by
    unfold convert; rw [hb]
  have ho : overlapped s.parts (convert ct sp (s.maxId + 1)) = false := by
    rw [Bool.eq_false_iff]
    intro ht
    obtain ⟨p, hp, _, hk, n, hpn, hqn⟩ := overlapped_covers ht
    rw [hcv] at hk hqn
    obtain ⟨⟨x, hx, hxn⟩, hr⟩ := hqn
    cases hx
    exact hfree p hp hk n hxn (hr b rfl) hpn
  unfold addPartition addLoop
  rw [hn, hc, ho]
  simp only [Bool.false_eq_true, if_false, Bool.not_true, addLoop, Option.some.injEq,
    exists_eq_left']
  rw [(sortBy_perm ptrLe _).mem_iff, hcv]
  simp

/-- Partitions that exist can be dropped unless none would be left. -/
theorem C74_drop_accepted {s : Schema} (hok : Ok s)
    {names : List String} (hex : ∀ n ∈ names, ∃ p ∈ s.parts, p.name = n)
    (hleft : ∃ p ∈ s.parts, p.name ∉ names) : ∃ s', dropPartition s false names = some s' := by
  have hids : ∀ ns : List String, (∀ n ∈ ns, ∃ p ∈ s.parts, p.name = n) →
      ∃ ids, dropIds s false ns = some ids := by
    intro ns
    induction ns with
    | nil => intro _; exact ⟨[], rfl⟩
    | cons n ns ih =>
      intro hx
      obtain ⟨ids, hi⟩ := ih fun m hm => hx m (List.mem_cons_of_mem _ hm)
      unfold dropIds
      rcases hf : s.parts.find? (fun p => decide (p.name = n)) with _ | q
      · rw [List.find?_eq_none] at hf
        obtain ⟨p, hp, he⟩ := hx n (List.mem_cons_self ..)
        exact absurd (by simpa using he) (hf p hp)
      · rw [hf, hi]
        exact ⟨_, rfl⟩
  obtain ⟨ids, hi⟩ := hids names hex
  unfold dropPartition
  rw [hi]
  simp only
  obtain ⟨h1, _⟩ := dropIds_spec hok hi
  obtain ⟨p, hp, hpn⟩ := hleft
  have hmem : p ∈ s.parts.filter fun p => !ids.contains p.id := by
    rw [List.mem_filter]
    refine ⟨hp, ?_⟩
    simp only [Bool.not_eq_true', List.contains_eq_mem, decide_eq_false_iff_not]
    exact fun hx => hpn ((h1 p hp).1 hx)
  rw [if_neg (by rintro ⟨_, he⟩; rw [he] at hmem; cases hmem), if_neg ?_]
  · exact ⟨_, rfl⟩
  · rw [List.any_eq_true]
    rintro ⟨q, hq, ho⟩
    obtain ⟨a, ha, hnm, hk, n, han, hqn⟩ := overlapped_covers ho
    exact hnm (congrArg (·.name)
      (hok.apart a (List.mem_filter.1 ha).1 q (List.mem_filter.1 hq).1 hk n han hqn))

theorem step_ok {ct : ColType} {s : Schema} (hok : Ok s) (op : Op) :
    Ok (step ct s op) ∧ s.maxId ≤ (step ct s op).maxId ∧
      (∀ p ∈ (step ct s op).parts, p.id ≤ s.maxId → p ∈ s.parts) ∧
      (step ct s op).expr = s.expr := by
  cases op with
  | add dyn ps =>
    unfold step
    simp only
    rcases h : addPartition ct s dyn ps with _ | s'
    · exact ⟨hok, Int.le_refl _, fun p hp _ => hp, rfl⟩
    · obtain ⟨h1, new, h2, h3, _, _, h4, h5, _⟩ := C74_add hok h
      refine ⟨h1, h4, ?_, h5⟩
      intro p hp hle
      rcases List.mem_append.1 (h2.mem_iff.1 hp) with h' | h'
      · exact h'
      · have := h3 p h'; omega
  | drop dyn names =>
    unfold step
    simp only
    rcases h : dropPartition s dyn names with _ | s'
    · exact ⟨hok, Int.le_refl _, fun p hp _ => hp, rfl⟩
    · obtain ⟨h1, h2, _, _, h3, h4, _⟩ := C74_drop hok h
      refine ⟨h1, ?_, fun p hp _ => ((h2 p).1 hp).1, h4⟩
      simp only [Option.getD_some]
      omega

/-- Whatever statements follow `CREATE TABLE`, partitions do not share values, ids or names. -/
theorem C74_ok {ct : ColType} {s : Schema} (hok : Ok s) (ops : List Op) : Ok (runOps ct s ops) := by
  induction ops generalizing s with
  | nil => exact hok
  | cons op ops ih => exact ih (step_ok hok op).1

/-- A partition that was dropped does not come back, and one that exists is never altered: a
partition whose id was already given was there with the same name and range. -/
theorem C74_fresh {ct : ColType} {s : Schema} (hok : Ok s) (ops : List Op) :
    ∀ p ∈ (runOps ct s ops).parts, p.id ≤ s.maxId → p ∈ s.parts := by
  induction ops generalizing s with
  | nil => exact fun p hp _ => hp
  | cons op ops ih =>
    intro p hp hle
    obtain ⟨h1, h2, h3, _⟩ := step_ok (ct := ct) hok op
    exact h3 p (ih h1 p hp (by omega)) hle

/-! ## Hash partitions -/

theorem calcHash_lt {t : HashTable} (ht : 0 < t.num) (v : Val) : calcHash t v < t.num := by
  unfold calcHash
  split
  · split
    · exact Int.tmod_lt_of_pos _ ht
    · exact Int.emod_lt_of_pos _ ht
  · exact Int.emod_lt_of_pos _ ht

/-- A row that is accepted goes to one of the partitions of the table. -/
theorem C74_hash_range {t : HashTable} (ht : 0 < t.num) {v : Val} {i : Int}
    (h : writeHash t v = some i) : 0 ≤ i ∧ i < t.num := by
  unfold writeHash at h
  split at h
  · cases h
  · cases h
    exact ⟨by omega, calcHash_lt ht v⟩

/-- A number that is not negative goes to the partition of its remainder. -/
theorem C74_hash_number {t : HashTable} (ht : 0 < t.num) (hn : t.numeric = true) {v : Val} {n : Int}
    (hv : t.expr v = .num n) (h0 : 0 ≤ n) : writeHash t v = some (n % t.num) := by
  have h : calcHash t v = n % t.num := by
    unfold calcHash
    rw [hv]
    simp only [hn, if_true]
    rw [Int.tmod_eq_emod_of_nonneg h0]
  unfold writeHash
  rw [h, if_neg]
  have := Int.emod_nonneg n (show t.num ≠ 0 by omega)
  omega

theorem addHash_spec {t : HashTable} : ∀ {vs : List Val} {ids out : List Int},
    addHash t ids vs = some out → (∀ i ∈ ids, i ∈ out) ∧ ∀ v ∈ vs, calcHash t v ∈ out
  | [], ids, out, h => by
    simp only [addHash, Option.some.injEq] at h
    subst h
    simp
  | v :: vs, ids, out, h => by
    unfold addHash at h
    split at h
    · cases h
    · obtain ⟨h1, h2⟩ := addHash_spec h
      refine ⟨fun i hi => h1 i ((mem_insertId ..).2 (Or.inl hi)), ?_⟩
      intro w hw
      rcases List.mem_cons.1 hw with rfl | hw
      · exact h1 _ ((mem_insertId ..).2 (Or.inr rfl))
      · exact h2 w hw

/-- A statement on a hash partitioned table that is not refused reads the partition of every row of
its result. -/
theorem C74_hash_prune {t : HashTable} (ht : 0 < t.num) {f : Nat} {cs : List Cond}
    {r : Nat → Option Int} (hsat : ∀ c ∈ cs, Sat r c) (hplain : ∀ c ∈ cs, PlainHash f c) {i : Int}
    (hw : writeHash t (toVal (r f)) = some i) {ids : List Int}
    (hs : selectHash t f cs = some ids) : i ∈ ids := by
  have hr := C74_hash_range ht hw
  have hall : i ∈ allHash t := by
    unfold allHash
    rw [List.mem_map]
    exact ⟨i.toNat, by rw [List.mem_range]; omega, by simp only [Int.ofNat_eq_natCast]; omega⟩
  have hi : i = calcHash t (toVal (r f)) := by
    unfold writeHash at hw
    split at hw
    · cases hw
    · cases hw; rfl
  unfold selectHash at hs
  rcases hm : hitAll f cs with _ | fr
  · rw [hm] at hs
    cases hs
    exact hall
  · rw [hm] at hs
    simp only at hs
    split at hs
    · rename_i hc
      split at hs
      · obtain ⟨n, hn, hmem⟩ := hitAll_invE hsat hplain fr hm
          (by rcases hc.1 with h | h | h <;> rw [h] <;> simp) hc.2
        have := (addHash_spec hs).2 _ hmem
        rw [hi, hn]
        exact this
      · rename_i hone
        have hone : t.num = 1 := by simpa using hone
        cases hs
        simp only [List.mem_singleton]
        omega
    · cases hs
      exact hall

/-! ## Where the code does less -/

/-- A table with two partitions of integers, `[0, 5)` and `[5, 10)`. -/
def twoParts : Schema :=
  ⟨[⟨.dflt, "p0", 0, .num 0, .num 5, false⟩, ⟨.dflt, "p1", 1, .num 5, .num 10, false⟩], 1, .dflt, none,
    none⟩

/-- An account without settings. -/
def plainUser : User := ⟨false, .dflt, false⟩

/-- `WHERE (a, b) < (5, 3)` does not read the partition that starts at 5, though the row `(5, 2)` is
in it and meets the condition: the open end of the row is taken for an open end of its first
column. -/
theorem C74_row_lt_counterexample :
    Ok twoParts ∧ writePartition twoParts plainUser (.num 5) = some 1 ∧
      (∃ r : Nat → Option Int, r 0 = some 5 ∧ Sat r (.rowCmp [0, 1] .lt [5, 3])) ∧
      selectRange twoParts plainUser true 0 [.rowCmp [0, 1] .lt [5, 3]] = some [0] := by
  refine ⟨?_, by decide +kernel, ⟨fun i => if i = 0 then some 5 else some 2, rfl, ?_⟩,
    by decide +kernel⟩
  · refine ⟨by decide +kernel, by decide +kernel, by decide +kernel, ?_⟩
    intro p hp q hq _ n h1 h2
    simp only [twoParts, List.mem_cons, List.not_mem_nil, or_false] at hp hq
    rcases hp with rfl | rfl <;> rcases hq with rfl | rfl
    · rfl
    · obtain ⟨_, h1⟩ := h1
      obtain ⟨⟨a, ha, han⟩, _⟩ := h2
      cases ha
      have := h1 5 rfl
      omega
    · obtain ⟨_, h2⟩ := h2
      obtain ⟨⟨a, ha, han⟩, _⟩ := h1
      cases ha
      have := h2 5 rfl
      omega
    · rfl
  · exact ⟨5, rfl, Or.inr ⟨rfl, 2, rfl, Or.inl ⟨by decide, show (2 : Int) < 3 by decide⟩⟩⟩

/-- `WHERE a LIKE '1%'` on the partition column reads no partition at all: the literal part of the
pattern is looked up as a text in ranges of numbers. -/
theorem C74_like_counterexample :
    writePartition twoParts plainUser (.num 1) = some 0 ∧
      (∃ r : Nat → Option Int, r 0 = some 1 ∧
        Sat r (.like 0 .pre ['1'] fun n => decide (n = 1))) ∧
      selectRange twoParts plainUser true 0 [.like 0 .pre ['1'] fun n => decide (n = 1)] =
        some [] := by
  refine ⟨by decide +kernel, ⟨fun _ => some 1, rfl, 1, rfl, by decide⟩, by decide +kernel⟩

/-- A table partitioned by an expression, here the column divided by ten, with a copy of another
type and an additional partition. -/
def exprParts : Schema :=
  ⟨[⟨.dflt, "p0", 0, .num 0, .num 5, false⟩, ⟨.newStats, "p1", 1, .num 0, .num 5, false⟩,
    ⟨.additional, "p2", 2, .num 0, .num 5, false⟩], 2, .dflt, none,
    some fun v => match v with | .num n => .num (n / 10) | w => w⟩

/-- On a table partitioned by an expression a range condition leaves the additional partitions out,
an equality does not. -/
theorem C74_expr_additional_counterexample :
    writePartition exprParts ⟨true, .dflt, false⟩ (.num 12) = some 2 ∧
      selectRange exprParts plainUser true 0 [.cmp 0 .eq 12] = some [0, 2] ∧
      selectRange exprParts plainUser true 0 [.cmp 0 .ge 12] = some [0, 1] ∧
      selectRange exprParts ⟨true, .dflt, false⟩ true 0 [.cmp 0 .ge 12] = some [0, 1] := by
  decide +kernel

/-- The same range condition reads the partitions of the other type too, so that a row loaded in
both copies is returned twice. -/
theorem C74_expr_types_counterexample :
    writePartition exprParts plainUser (.num 12) = some 0 ∧
      writePartition exprParts ⟨false, .newStats, false⟩ (.num 12) = some 1 ∧
      selectRange exprParts plainUser false 0 [.cmp 0 .ge 12] = some [0, 1] := by
  decide +kernel

/-- A negative number has no hash partition: the row is refused, and so is a query for it. -/
theorem C74_hash_negative_counterexample (hash : Val → Nat) :
    writeHash ⟨4, true, hash, id⟩ (.num (-3)) = none ∧
      selectHash ⟨4, true, hash, id⟩ 0 [.cmp 0 .eq (-3)] = none ∧
      writeHash ⟨4, true, hash, id⟩ (.num (-4)) = some 0 := by
  refine ⟨rfl, rfl, rfl⟩

/-- `WHERE a LIKE '15'` on a hash partitioned table: the row with 15 is in partition 3, the text is
hashed and may give another partition. -/
theorem C74_hash_like_counterexample :
    let t : HashTable := ⟨4, true, fun _ => 6, id⟩
    writeHash t (.num 15) = some 3 ∧
      (∃ r : Nat → Option Int, r 0 = some 15 ∧
        Sat r (.like 0 .eq ['1', '5'] fun n => decide (n = 15))) ∧
      selectHash t 0 [.like 0 .eq ['1', '5'] fun n => decide (n = 15)] = some [2] := by
  refine ⟨rfl, ⟨fun _ => some 15, rfl, 15, rfl, by decide⟩, by decide +kernel⟩

/-- `ADD PARTITION (PARTITION p2 VALUES LESS THAN (20))` to a table that ends at 10 is refused: the
new range is taken to start at the least value of the type. -/
theorem C74_add_less_counterexample :
    (addPartition ⟨-128, 127⟩ twoParts false [⟨"p2", .dflt, false, .less (.num 20)⟩]).isNone = true ∧
      (addPartition ⟨-128, 127⟩ twoParts false
        [⟨"p2", .dflt, false, .range (.num 10) (.num 20)⟩]).isSome = true := by
  decide +kernel

end BaikalDB.Part
