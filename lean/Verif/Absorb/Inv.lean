import Verif.Absorb.Lemmas

namespace BaikalDB.Absorb

open Spec

/-- No change of the range in the log. -/
def NoAdj (q : List Entry) : Prop := ∀ i, Entry.adjust i ∉ q

/-- The ranges before the merge. -/
def Pre (a e : Key) (s : Sys) : Prop :=
  s.src.info.start = a ∧ s.src.info.stop = some e ∧ s.dst.info.start = e

/-- The ranges while both regions have the keys of the source. -/
def Win (a e : Key) (s : Sys) : Prop :=
  s.src.info.start = a ∧ s.src.info.stop = some e ∧ s.dst.info.start = a

/-- The ranges after the merge. -/
def Post (a : Key) (s : Sys) : Prop :=
  s.src.info.start = a ∧ s.src.info.stop = some a ∧ s.dst.info.start = a

/-- What holds in each phase. -/
def Stage (a e : Key) (c : Option Key) (s : Sys) : Prop :=
  match s.phase with
  | .idle => s.disabled = false ∧ s.dstDoing = false ∧ NoAdj s.src.queue ∧ NoAdj s.dst.queue ∧
      (Pre a e s ∨ Post a s)
  | .waiting _ => s.disabled = true ∧ s.dstDoing = false ∧ NoAdj s.src.queue ∧
      NoAdj s.dst.queue ∧ Pre a e s
  | .asking _ _ => s.disabled = true ∧ s.dstDoing = false ∧ s.src.queue = [] ∧
      NoAdj s.dst.queue ∧ Pre a e s ∧ seekLines s.src = 0 ∧ s.src.applied = s.lastcycle
  | .sent _ _ => s.disabled = true ∧ s.dstDoing = true ∧ s.src.queue = [] ∧
      (∃ q1 q2 : List Entry, s.dst.queue =
        q1 ++ .adjust ⟨a, c, s.dst.info.version + 1⟩ :: q2 ∧ NoAdj q1 ∧ NoAdj q2) ∧
      Pre a e s ∧ seekLines s.src = 0 ∧ s.src.applied = s.lastcycle ∧ s.src.txns = []
  | .answered i => s.disabled = true ∧ s.dstDoing = false ∧ s.src.queue = [] ∧
      NoAdj s.dst.queue ∧ Win a e s ∧ seekLines s.src = 0 ∧ s.src.applied = s.lastcycle ∧
      s.src.txns = [] ∧ i.start = a
  | .closing => s.disabled = true ∧ s.dstDoing = false ∧
      s.src.queue = [.adjust ⟨a, some a, s.src.info.version + 1⟩] ∧
      NoAdj s.dst.queue ∧ Win a e s ∧ seekLines s.src = 0 ∧ s.src.applied = s.lastcycle ∧
      s.src.txns = []

/-- The invariant of runs in which nothing goes wrong. -/
structure Inv (a e : Key) (c : Option Key) (s : Sys) : Prop where
  lt : a < e
  ltc : ∀ x, c = some x → e < x
  dstop : s.dst.info.stop = c
  srcViews : ∀ i ∈ s.src.views, i = s.src.info ∨ i.version < s.src.info.version
  dstViews : ∀ i ∈ s.dst.views, i = s.dst.info ∨ i.version < s.dst.info.version
  srcPuts : ∀ w, Entry.put w ∈ s.src.queue → Covers s.src.info w.key
  dstPuts : ∀ w, Entry.put w ∈ s.dst.queue → Covers s.dst.info w.key
  passed : ∀ q ∈ s.passed, q.view ∈ s.src.views ∧ Covers q.view q.write.key
  agreeDst : ∀ k, Covers s.dst.info k → Agree s.dst s.acked s.client k
  agreeSrc : ∀ k, Covers s.src.info k → ¬ Covers s.dst.info k → Agree s.src s.acked s.client k
  dstOnly : ∀ k, ¬ Covers s.dst.info k → Holds s.dst.rows k none ∧ Open s.dst.txns k = []
  stage : Stage a e c s

theorem Inv.init {a e : Key} {c : Option Key} {s : Sys} (h : Before a e c s) : Inv a e c s where
  lt := h.lt
  ltc := h.ltc
  dstop := h.dst.2
  srcViews := h.srcViews
  dstViews := h.dstViews
  srcPuts := by rw [h.srcQueue]; simp
  dstPuts := by rw [h.dstQueue]; simp
  passed := by rw [h.passed]; simp
  agreeDst := h.dstRows
  agreeSrc := fun k hk _ => h.srcRows k hk
  dstOnly := h.dstOnly
  stage := by
    unfold Stage
    rw [h.phase]
    refine ⟨h.enabled, h.idle, ?_, ?_, Or.inl ⟨h.src.1, h.src.2, h.dst.1⟩⟩
    · rw [h.srcQueue]; intro i; simp
    · rw [h.dstQueue]; intro i; simp

theorem noAdj_put {q : List Entry} (h : NoAdj q) (w : Write) : NoAdj (q ++ [.put w]) := by
  intro i hi
  rcases List.mem_append.1 hi with hi | hi
  · exact h i hi
  · simp at hi

theorem noAdj_tail {x : Entry} {q : List Entry} (h : NoAdj (x :: q)) : NoAdj q :=
  fun i hi => h i (List.mem_cons_of_mem _ hi)

/-- Keys of the two regions before the merge. -/
theorem pre_disjoint {a e : Key} {s : Sys} (h : Pre a e s) {k : Key} (hk : Covers s.src.info k) :
    ¬ Covers s.dst.info k := by
  intro hd
  have h1 := hk.2 e h.2.1
  have h2 := hd.1
  rw [h.2.2] at h2
  exact absurd h1 (Nat.not_lt.2 h2)

theorem post_none {a : Key} {s : Sys} (h : Post a s) (k : Key) : ¬ Covers s.src.info k := by
  intro hk
  have h1 := hk.2 a h.2.1
  have h2 := hk.1
  rw [h.1] at h2
  exact absurd h1 (Nat.not_lt.2 h2)

/-- What a client sends to a region that accepts it belongs to the range of the region. -/
theorem accepted {r : Region} {q : Req}
    (hv : ∀ i ∈ r.views, i = r.info ∨ i.version < r.info.version)
    (hm : q.view ∈ r.views) (hk : Covers q.view q.write.key) (ha : accepts r q.view = true) :
    Covers r.info q.write.key := by
  rcases hv _ hm with h | h
  · rw [← h]; exact hk
  · simp [accepts] at ha
    omega

theorem sendable_iff (r : Region) (q : Req) :
    sendable r q = true ↔ q.view ∈ r.views ∧ Covers q.view q.write.key := by
  simp [sendable, covers_iff]

/-- The disjunction of ranges at the destination for the steps that change only rows. -/
theorem Stage.pre_or {a e : Key} {c : Option Key} {s : Sys} (h : Stage a e c s) :
    (Pre a e s ∨ Post a s) ∨ (Win a e s ∧ s.disabled = true ∧ s.src.txns = [] ∧
      seekLines s.src = 0 ∧ ∀ w, Entry.put w ∉ s.src.queue) := by
  unfold Stage at h
  split at h
  · exact Or.inl h.2.2.2.2
  · exact Or.inl (Or.inl h.2.2.2.2)
  · exact Or.inl (Or.inl h.2.2.2.2.1)
  · exact Or.inl (Or.inl h.2.2.2.2.1)
  · obtain ⟨h1, _, h3, _, h5, h6, _, h8, _⟩ := h
    exact Or.inr ⟨h5, h1, h8, h6, by simp [h3]⟩
  · obtain ⟨h1, _, h3, _, h5, h6, _, h8⟩ := h
    exact Or.inr ⟨h5, h1, h8, h6, by simp [h3]⟩

/-- A region without rows below its end key. -/
theorem seek_none {r : Region} {e k : Key} (hs : r.info.stop = some e) (h : seekLines r = 0)
    (hk : k < e) : Holds r.rows k none := by
  intro x
  simp only [reduceCtorEq, iff_false]
  intro hx
  unfold seekLines at h
  rw [hs, List.length_eq_zero_iff, List.filter_eq_nil_iff] at h
  have := h _ hx
  simp [hk] at this

theorem holds_unique {rows : List (Key × Val)} {k : Key} {v u : Option Val}
    (h : Holds rows k v) (h' : Holds rows k u) : v = u := by
  rw [← get_eq h, get_eq h']

variable {a e : Key} {c : Option Key} {s s' : Sys}

theorem Inv.dstPut (h : Inv a e c s) (q : Req) (hs : step s (.dstPut q) = some s') :
    Inv a e c s' := by
  simp only [step] at hs
  split at hs
  · rename_i hq
    split at hs
    · rename_i ha
      cases hs
      have hc := accepted h.dstViews ((sendable_iff _ _).1 hq).1 ((sendable_iff _ _).1 hq).2 ha
      refine { h with dstPuts := ?_, stage := ?_ }
      · intro w hw
        rcases List.mem_append.1 hw with hw | hw
        · exact h.dstPuts w hw
        · simp at hw
          rw [hw]
          exact hc
      · have hst := h.stage
        unfold Stage at hst ⊢
        simp only [Region.propose]
        split at hst
        · rename_i hp
          simp only [hp]
          exact ⟨hst.1, hst.2.1, hst.2.2.1, noAdj_put hst.2.2.2.1 _, hst.2.2.2.2⟩
        · rename_i hp
          simp only [hp]
          exact ⟨hst.1, hst.2.1, hst.2.2.1, noAdj_put hst.2.2.2.1 _, hst.2.2.2.2⟩
        · rename_i hp
          simp only [hp]
          exact ⟨hst.1, hst.2.1, hst.2.2.1, noAdj_put hst.2.2.2.1 _, hst.2.2.2.2⟩
        · rename_i hp
          simp only [hp]
          obtain ⟨h1, h2, h3, ⟨q1, q2, h4, h5, h6⟩, h7⟩ := hst
          refine ⟨h1, h2, h3, ⟨q1, q2 ++ [.put q.write], ?_, h5, noAdj_put h6 _⟩, h7⟩
          rw [h4]
          simp
        · rename_i hp
          simp only [hp]
          exact ⟨hst.1, hst.2.1, hst.2.2.1, noAdj_put hst.2.2.2.1 _, hst.2.2.2.2⟩
        · rename_i hp
          simp only [hp]
          exact ⟨hst.1, hst.2.1, hst.2.2.1, noAdj_put hst.2.2.2.1 _, hst.2.2.2.2⟩
    · cases hs
      exact h
  · cases hs

theorem Inv.pass (h : Inv a e c s) (q : Req) (hs : step s (.pass q) = some s') :
    Inv a e c s' := by
  simp only [step] at hs
  split at hs
  · rename_i hq
    cases hs
    rw [Bool.and_eq_true, sendable_iff] at hq
    refine { h with passed := ?_, stage := h.stage }
    intro x hx
    rcases List.mem_cons.1 hx with rfl | hx
    · exact hq.1
    · exact h.passed x hx
  · cases hs

theorem Inv.enter (h : Inv a e c s) (q : Req) (hc : Clean s (.enter q))
    (hs : step s (.enter q) = some s') : Inv a e c s' := by
  simp only [step] at hs
  have hd : s.disabled = false := hc
  split at hs
  · rename_i hq
    have hp := h.passed q hq
    have hpass : ∀ x ∈ s.passed.erase q, x.view ∈ s.src.views ∧ Covers x.view x.write.key :=
      fun x hx => h.passed x (List.mem_of_mem_erase hx)
    split at hs
    · rename_i ha
      cases hs
      have hc := accepted h.srcViews hp.1 hp.2 ha
      refine { h with passed := hpass, srcPuts := ?_, stage := ?_ }
      · intro w hw
        rcases List.mem_append.1 hw with hw | hw
        · exact h.srcPuts w hw
        · simp at hw
          rw [hw]
          exact hc
      · have hst := h.stage
        unfold Stage at hst ⊢
        simp only [Region.propose]
        split at hst
        · rename_i hp
          simp only [hp]
          exact ⟨hst.1, hst.2.1, noAdj_put hst.2.2.1 _, hst.2.2.2⟩
        all_goals
          rw [hst.1] at hd
          cases hd
    · cases hs
      exact { h with passed := hpass, stage := h.stage }
  · cases hs

theorem Inv.srcStmt (h : Inv a e c s) (t : Nat) (q : Req)
    (hs : step s (.stmt true t q) = some s') : Inv a e c s' := by
  simp only [step] at hs
  split at hs
  · rename_i hq
    rw [Bool.and_eq_true, sendable_iff] at hq
    have hd : s.disabled = false := by simpa using hq.2
    split at hs
    · rename_i ha
      cases hs
      have hc := accepted h.srcViews hq.1.1 hq.1.2 ha
      have hst := h.stage
      unfold Stage at hst
      split at hst
      · rename_i hp
        have hpre : Pre a e s := by
          rcases hst.2.2.2.2 with x | x
          · exact x
          · exact absurd hc (post_none x _)
        have hn := pre_disjoint hpre hc
        refine { h with agreeDst := ?_, agreeSrc := ?_, stage := ?_ }
        · intro k hk
          exact (h.agreeDst k hk).stmt_other t _ (fun x => hn (x ▸ hk))
        · intro k hk hk'
          exact (h.agreeSrc k hk hk').stmt t _
        · unfold Stage
          simp only [hp]
          exact hst
      all_goals
        rw [hst.1] at hd
        cases hd
    · cases hs
      exact h
  · cases hs

theorem Inv.dstStmt (h : Inv a e c s) (t : Nat) (q : Req)
    (hs : step s (.stmt false t q) = some s') : Inv a e c s' := by
  simp only [step] at hs
  split at hs
  · rename_i hq
    rw [sendable_iff] at hq
    split at hs
    · rename_i ha
      cases hs
      have hc := accepted h.dstViews hq.1 hq.2 ha
      refine { h with agreeDst := ?_, agreeSrc := ?_, dstOnly := ?_, stage := h.stage }
      · intro k hk
        exact (h.agreeDst k hk).stmt t _
      · intro k hk hk'
        exact (h.agreeSrc k hk hk').stmt_other t _ (fun x => hk' (x ▸ hc))
      · intro k hk
        refine ⟨(h.dstOnly k hk).1, ?_⟩
        show Open (s.dst.txns ++ [⟨t, q.write⟩]) k = []
        have hne : q.write.key ≠ k := fun x => hk (x ▸ hc)
        rw [open_append, (h.dstOnly k hk).2, if_neg hne]
        rfl
    · cases hs
      exact h
  · cases hs

theorem Inv.commit (h : Inv a e c s) (t : Nat)
    (hs : step s (.commit t) = some s') : Inv a e c s' := by
  simp only [step, Absorb.commit] at hs
  split at hs
  · cases hs
  rename_i hg
  cases hs
  have hinfo : ∀ x : Bool, (if x then s.src else s.src.commit t).info = s.src.info := by
    intro x; cases x <;> rfl
  have hviews : ∀ x : Bool, (if x then s.src else s.src.commit t).views = s.src.views := by
    intro x; cases x <;> rfl
  have hqueue : ∀ x : Bool, (if x then s.src else s.src.commit t).queue = s.src.queue := by
    intro x; cases x <;> rfl
  refine {
    lt := h.lt
    ltc := h.ltc
    dstop := h.dstop
    srcViews := by dsimp only; rw [hinfo, hviews]; exact h.srcViews
    dstViews := h.dstViews
    srcPuts := by dsimp only; rw [hinfo, hqueue]; exact h.srcPuts
    dstPuts := h.dstPuts
    passed := by dsimp only; rw [hviews]; exact h.passed
    agreeDst := fun k hk => (h.agreeDst k hk).commit t
    agreeSrc := ?_
    dstOnly := ?_
    stage := ?_ }
  · dsimp only
    rw [hinfo]
    intro k hk hk'
    have hA := h.agreeSrc k hk hk'
    cases hany : s.src.txns.any (fun x => decide (x.txn = t)) with
    | false =>
      simp only [Bool.not_false, Bool.or_true, if_true]
      exact hA.commit_none t hany
    | true =>
      have hm : merged s.src = false := by
        unfold merged
        rw [decide_eq_false_iff_not]
        intro hx
        exact absurd (hk.2 _ hx) (Nat.not_lt.2 hk.1)
      simp only [hm, Bool.not_true, Bool.or_self, Bool.false_eq_true, if_false]
      exact hA.commit t
  · intro k hk
    have hA : Agree s.dst [] [] k := h.dstOnly k hk
    exact hA.commit t
  · have hst := h.stage
    cases hany : s.src.txns.any (fun x => decide (x.txn = t)) with
    | false =>
      simp only [Bool.not_false, Bool.or_true, if_true]
      exact hst
    | true =>
      have hd : s.disabled = false := by
        rw [hany] at hg
        simpa using hg
      unfold Stage at hst
      split at hst
      · rename_i hp
        unfold Stage
        dsimp only
        rw [hp]
        dsimp only
        unfold Pre Post
        dsimp only
        rw [hinfo, hqueue]
        exact hst
      all_goals
        rw [hst.1] at hd
        cases hd

theorem Inv.applySrc (h : Inv a e c s) (hs : step s .applySrc = some s') : Inv a e c s' := by
  simp only [step, Absorb.applySrc] at hs
  split at hs
  · cases hs
  · rename_i w q hq
    cases hs
    have hw : Covers s.src.info w.key := h.srcPuts w (by rw [hq]; simp)
    have hpre : Pre a e s ∧ (s.phase = .idle ∨ ∃ m, s.phase = .waiting m) := by
      have hst := h.stage
      unfold Stage at hst
      split at hst
      · rename_i hp
        rcases hst.2.2.2.2 with x | x
        · exact ⟨x, Or.inl hp⟩
        · exact absurd hw (post_none x _)
      · rename_i m hp
        exact ⟨hst.2.2.2.2, Or.inr ⟨m, hp⟩⟩
      all_goals
        rw [hst.2.2.1] at hq
        cases hq
    have hn := pre_disjoint hpre.1 hw
    refine { h with srcPuts := ?_, agreeDst := ?_, agreeSrc := ?_, stage := ?_ }
    · intro x hx
      exact h.srcPuts x (by rw [hq]; exact List.mem_cons_of_mem _ hx)
    · intro k hk
      exact (h.agreeDst k hk).other w (fun x => hn (x ▸ hk))
    · intro k hk hk'
      exact ⟨(h.agreeSrc k hk hk').put w, (h.agreeSrc k hk hk').2⟩
    · have hst := h.stage
      rcases hpre.2 with hp | ⟨m, hp⟩
      · unfold Stage at hst ⊢
        simp only [hp] at hst ⊢
        rw [hq] at hst
        exact ⟨hst.1, hst.2.1, noAdj_tail hst.2.2.1, hst.2.2.2⟩
      · unfold Stage at hst ⊢
        simp only [hp] at hst ⊢
        rw [hq] at hst
        exact ⟨hst.1, hst.2.1, noAdj_tail hst.2.2.1, hst.2.2.2⟩
  · rename_i i q hq
    cases hs
    have hst := h.stage
    unfold Stage at hst
    split at hst
    · exact absurd (by rw [hq]; simp) (hst.2.2.1 i)
    · exact absurd (by rw [hq]; simp) (hst.2.2.1 i)
    · rw [hst.2.2.1] at hq; cases hq
    · rw [hst.2.2.1] at hq; cases hq
    · rw [hst.2.2.1] at hq; cases hq
    · obtain ⟨h1, h2, h3, h4, h5, h6, h7, h8⟩ := hst
      rw [h3] at hq
      simp only [List.cons.injEq, Entry.adjust.injEq] at hq
      obtain ⟨hi, hq⟩ := hq
      subst hi hq
      refine {
        lt := h.lt
        ltc := h.ltc
        dstop := h.dstop
        srcViews := ?_
        dstViews := h.dstViews
        srcPuts := by simp [release]
        dstPuts := h.dstPuts
        passed := ?_
        agreeDst := h.agreeDst
        agreeSrc := ?_
        dstOnly := h.dstOnly
        stage := ?_ }
      · intro x hx
        rcases List.mem_cons.1 hx with rfl | hx
        · exact Or.inl rfl
        · right
          show x.version < s.src.info.version + 1
          rcases h.srcViews x hx with rfl | hx
          · omega
          · omega
      · intro x hx
        exact ⟨List.mem_cons_of_mem _ (h.passed x hx).1, (h.passed x hx).2⟩
      · intro k hk
        exact absurd (hk.2 a rfl) (Nat.not_lt.2 hk.1)
      · have hn : NoAdj [] := fun x hx => absurd hx List.not_mem_nil
        exact ⟨rfl, h2, hn, h4, Or.inr ⟨rfl, rfl, h5.2.2⟩⟩

theorem Inv.applyDst (h : Inv a e c s) (hs : step s .applyDst = some s') : Inv a e c s' := by
  simp only [step, Absorb.applyDst] at hs
  split at hs
  · cases hs
  · rename_i w q hq
    cases hs
    have hw : Covers s.dst.info w.key := h.dstPuts w (by rw [hq]; simp)
    refine { h with dstPuts := ?_, agreeDst := ?_, agreeSrc := ?_, dstOnly := ?_, stage := ?_ }
    · intro x hx
      exact h.dstPuts x (by rw [hq]; exact List.mem_cons_of_mem _ hx)
    · intro k hk
      exact ⟨(h.agreeDst k hk).put w, (h.agreeDst k hk).2⟩
    · intro k hk hk'
      exact (h.agreeSrc k hk hk').other w (fun x => hk' (x ▸ hw))
    · intro k hk
      refine ⟨?_, (h.dstOnly k hk).2⟩
      have := holds_write (h.dstOnly k hk).1 w
      have hne : w.key ≠ k := fun x => hk (x ▸ hw)
      rwa [if_neg hne] at this
    · have hst := h.stage
      unfold Stage at hst ⊢
      dsimp only
      split at hst <;> rename_i hp <;> simp only [hp]
      · rw [hq] at hst
        exact ⟨hst.1, hst.2.1, hst.2.2.1, noAdj_tail hst.2.2.2.1, hst.2.2.2.2⟩
      · rw [hq] at hst
        exact ⟨hst.1, hst.2.1, hst.2.2.1, noAdj_tail hst.2.2.2.1, hst.2.2.2.2⟩
      · rw [hq] at hst
        exact ⟨hst.1, hst.2.1, hst.2.2.1, noAdj_tail hst.2.2.2.1, hst.2.2.2.2⟩
      · obtain ⟨h1, h2, h3, ⟨q1, q2, h4, h5, h6⟩, h7⟩ := hst
        rw [hq] at h4
        cases q1 with
        | nil => simp at h4
        | cons x q1 =>
          simp only [List.cons_append, List.cons.injEq] at h4
          exact ⟨h1, h2, h3, ⟨q1, q2, h4.2, noAdj_tail h5, h6⟩, h7⟩
      · rw [hq] at hst
        exact ⟨hst.1, hst.2.1, hst.2.2.1, noAdj_tail hst.2.2.2.1, hst.2.2.2.2⟩
      · rw [hq] at hst
        exact ⟨hst.1, hst.2.1, hst.2.2.1, noAdj_tail hst.2.2.2.1, hst.2.2.2.2⟩
  · rename_i i q hq
    cases hs
    have hst := h.stage
    unfold Stage at hst
    split at hst
    · exact absurd (by rw [hq]; simp) (hst.2.2.2.1 i)
    · exact absurd (by rw [hq]; simp) (hst.2.2.2.1 i)
    · exact absurd (by rw [hq]; simp) (hst.2.2.2.1 i)
    · rename_i v n hp
      obtain ⟨h1, h2, h3, ⟨q1, q2, h4, h5, h6⟩, h7, h8, h9, h10⟩ := hst
      rw [hq] at h4
      cases q1 with
      | cons x q1 =>
        simp only [List.cons_append, List.cons.injEq] at h4
        exact absurd (by rw [← h4.1]; simp) (h5 i)
      | nil =>
        simp only [List.nil_append, List.cons.injEq, Entry.adjust.injEq] at h4
        obtain ⟨hi, hq2⟩ := h4
        subst hi hq2
        have hcov : ∀ k, Covers s.dst.info k → Covers ⟨a, c, s.dst.info.version + 1⟩ k := by
          intro k hk
          refine ⟨?_, fun x hx => hk.2 x (by rw [h.dstop]; exact hx)⟩
          have hek := hk.1
          rw [h7.2.2] at hek
          exact Nat.le_trans (Nat.le_of_lt h.lt) hek
        refine {
          lt := h.lt
          ltc := h.ltc
          dstop := rfl
          srcViews := h.srcViews
          dstViews := ?_
          srcPuts := h.srcPuts
          dstPuts := ?_
          passed := h.passed
          agreeDst := ?_
          agreeSrc := ?_
          dstOnly := ?_
          stage := ?_ }
        · intro x hx
          rcases List.mem_cons.1 hx with rfl | hx
          · exact Or.inl rfl
          · right
            show x.version < s.dst.info.version + 1
            rcases h.dstViews x hx with rfl | hx
            · omega
            · omega
        · intro x hx
          exact hcov _ (h.dstPuts x (by rw [hq]; exact List.mem_cons_of_mem _ hx))
        · intro k hk
          by_cases hd : Covers s.dst.info k
          · exact h.agreeDst k hd
          · have hke : k < e := by
              by_contra hke
              refine hd ⟨by rw [h7.2.2]; exact Nat.not_lt.1 hke, fun x hx => hk.2 x ?_⟩
              exact h.dstop.symm.trans hx
            have hks : Covers s.src.info k := by
              refine ⟨by rw [h7.1]; exact hk.1, fun x hx => ?_⟩
              rw [h7.2.1] at hx
              cases hx
              exact hke
            have hA := h.agreeSrc k hks hd
            have hnone := seek_none h7.2.1 h8 hke
            have hval := holds_unique hA.1 hnone
            have hopen := hA.2
            rw [h10] at hopen
            refine ⟨?_, ?_⟩
            · show Holds s.dst.rows k (Value s.acked k)
              rw [hval]
              exact (h.dstOnly k hd).1
            · show Open s.dst.txns k = Open s.client k
              rw [← hopen]
              exact (h.dstOnly k hd).2
        · intro k hk hk'
          exact h.agreeSrc k hk (fun x => hk' (hcov k x))
        · intro k hk
          exact h.dstOnly k (fun x => hk (hcov k x))
        · unfold Stage
          simp only [hp]
          exact ⟨h1, trivial, h3, h6, ⟨h7.1, h7.2.1, rfl⟩, h8, h9, h10, trivial⟩
    · exact absurd (by rw [hq]; simp) (hst.2.2.2.1 i)
    · exact absurd (by rw [hq]; simp) (hst.2.2.2.1 i)

theorem Inv.failSrc (h : Inv a e c s) (hc : Clean s .failSrc)
    (hs : step s .failSrc = some s') : Inv a e c s' := by
  simp only [step, Absorb.failSrc] at hs
  split at hs
  · cases hs
  · rename_i w q hq
    cases hs
    refine { h with srcPuts := ?_, stage := ?_ }
    · intro x hx
      exact h.srcPuts x (by rw [hq]; exact List.mem_cons_of_mem _ hx)
    · have hst := h.stage
      unfold Stage at hst ⊢
      dsimp only
      split at hst <;> rename_i hp <;> simp only [hp]
      · rw [hq] at hst
        exact ⟨hst.1, hst.2.1, noAdj_tail hst.2.2.1, hst.2.2.2⟩
      · rw [hq] at hst
        exact ⟨hst.1, hst.2.1, noAdj_tail hst.2.2.1, hst.2.2.2⟩
      all_goals
        rw [hst.2.2.1] at hq
        cases hq
  · rename_i i q hq
    exact absurd hq (hc i q)

theorem Inv.release (h : Inv a e c s) (hd : s.dstDoing = false) (h1 : NoAdj s.src.queue)
    (h2 : NoAdj s.dst.queue) (h3 : Pre a e s) : Inv a e c (release s) :=
  { h with stage := ⟨rfl, hd, h1, h2, Or.inl h3⟩ }

theorem Inv.failDst (h : Inv a e c s) (hs : step s .failDst = some s') : Inv a e c s' := by
  simp only [step, Absorb.failDst] at hs
  split at hs
  · cases hs
  · rename_i w q hq
    cases hs
    refine { h with dstPuts := ?_, stage := ?_ }
    · intro x hx
      exact h.dstPuts x (by rw [hq]; exact List.mem_cons_of_mem _ hx)
    · have hst := h.stage
      unfold Stage at hst ⊢
      dsimp only
      split at hst <;> rename_i hp <;> simp only [hp]
      · rw [hq] at hst
        exact ⟨hst.1, hst.2.1, hst.2.2.1, noAdj_tail hst.2.2.2.1, hst.2.2.2.2⟩
      · rw [hq] at hst
        exact ⟨hst.1, hst.2.1, hst.2.2.1, noAdj_tail hst.2.2.2.1, hst.2.2.2.2⟩
      · rw [hq] at hst
        exact ⟨hst.1, hst.2.1, hst.2.2.1, noAdj_tail hst.2.2.2.1, hst.2.2.2.2⟩
      · obtain ⟨h1, h2, h3, ⟨q1, q2, h4, h5, h6⟩, h7⟩ := hst
        rw [hq] at h4
        cases q1 with
        | nil => simp at h4
        | cons x q1 =>
          simp only [List.cons_append, List.cons.injEq] at h4
          exact ⟨h1, h2, h3, ⟨q1, q2, h4.2, noAdj_tail h5, h6⟩, h7⟩
      · rw [hq] at hst
        exact ⟨hst.1, hst.2.1, hst.2.2.1, noAdj_tail hst.2.2.2.1, hst.2.2.2.2⟩
      · rw [hq] at hst
        exact ⟨hst.1, hst.2.1, hst.2.2.1, noAdj_tail hst.2.2.2.1, hst.2.2.2.2⟩
  · rename_i i q hq
    have hst := h.stage
    unfold Stage at hst
    split at hst
    · exact absurd (by rw [hq]; simp) (hst.2.2.2.1 i)
    · exact absurd (by rw [hq]; simp) (hst.2.2.2.1 i)
    · exact absurd (by rw [hq]; simp) (hst.2.2.2.1 i)
    · rename_i v n hp
      obtain ⟨h1, h2, h3, ⟨q1, q2, h4, h5, h6⟩, h7, h8, h9, h10⟩ := hst
      rw [hq] at h4
      cases q1 with
      | cons x q1 =>
        simp only [List.cons_append, List.cons.injEq] at h4
        exact absurd (by rw [← h4.1]; simp) (h5 i)
      | nil =>
        simp only [List.nil_append, List.cons.injEq] at h4
        obtain ⟨hi, hq2⟩ := h4
        subst hq2
        have hputs : ∀ w, Entry.put w ∈ q → Covers s.dst.info w.key := fun x hx =>
          h.dstPuts x (by rw [hq]; exact List.mem_cons_of_mem _ hx)
        have hsrc : NoAdj s.src.queue := by rw [h3]; exact fun _ hx => by cases hx
        simp only [hp] at hs
        cases hs
        split
        · exact { h with dstPuts := hputs, stage := ⟨rfl, rfl, hsrc, h6, Or.inl h7⟩ }
        · exact { h with dstPuts := hputs, stage := ⟨h1, rfl, h3, h6, h7, h8, h9⟩ }
    · exact absurd (by rw [hq]; simp) (hst.2.2.2.1 i)
    · exact absurd (by rw [hq]; simp) (hst.2.2.2.1 i)

theorem Inv.tick (h : Inv a e c s) (hs : step s .tick = some s') : Inv a e c s' := by
  simp only [step] at hs
  split at hs
  · rename_i hp
    cases hs
    refine { h with stage := ?_ }
    have hst := h.stage
    unfold Stage at hst ⊢
    simp only [hp] at hst ⊢
    exact hst
  · cases hs

theorem Inv.start (h : Inv a e c s) (m : Meta) (hs : step s (.start m) = some s') :
    Inv a e c s' := by
  simp only [step] at hs
  split at hs
  · rename_i hp
    cases hs
    refine { h with stage := ?_ }
    have hst := h.stage
    unfold Stage at hst
    simp only [hp.1] at hst
    refine ⟨rfl, hst.2.1, hst.2.2.1, hst.2.2.2.1, ?_⟩
    rcases hst.2.2.2.2 with x | x
    · exact x
    · have := hp.2.2
      simp [merged, x.1, x.2.1] at this
  · cases hs

theorem Inv.timeout (h : Inv a e c s) (hs : step s .timeout = some s') : Inv a e c s' := by
  simp only [step] at hs
  split at hs
  · rename_i m hp
    cases hs
    have hst := h.stage
    unfold Stage at hst
    simp only [hp] at hst
    exact h.release hst.2.1 hst.2.2.1 hst.2.2.2.1 hst.2.2.2.2
  · cases hs

theorem Inv.check (h : Inv a e c s) (hs : step s .check = some s') : Inv a e c s' := by
  simp only [step, Absorb.check] at hs
  split at hs
  · rename_i m hp
    have hst := h.stage
    unfold Stage at hst
    simp only [hp] at hst
    have hrel := h.release hst.2.1 hst.2.2.1 hst.2.2.2.1 hst.2.2.2.2
    split at hs
    · rename_i hq
      split at hs
      · cases hs; exact hrel
      · rename_i hap
        split at hs
        · cases hs; exact hrel
        · rename_i hsk
          split at hs
          · cases hs
            refine { h with stage := ?_ }
            refine ⟨hst.1, hst.2.1, hq, hst.2.2.2.1, hst.2.2.2.2, ?_, ?_⟩
            · show seekLines s.src = 0
              omega
            · exact not_not.1 hap
          · cases hs; exact hrel
    · cases hs
  · cases hs

theorem Inv.ask (h : Inv a e c s) (hc : Clean s .ask) (hs : step s .ask = some s') :
    Inv a e c s' := by
  simp only [step, Absorb.ask] at hs
  split at hs
  · rename_i v n hp
    have hst := h.stage
    unfold Stage at hst
    simp only [hp] at hst
    obtain ⟨h1, h2, h3, h4, h5, h6, h7⟩ := hst
    have hsrc : NoAdj s.src.queue := by rw [h3]; exact fun _ hx => by cases hx
    have hrel := h.release h2 hsrc h4 h5
    split at hs
    · cases hs; exact hrel
    · split at hs
      · split at hs
        · cases hs; exact hrel
        · split at hs
          · split at hs
            · rename_i hx
              rw [h5.1, h5.2.2] at hx
              exact absurd h.lt (hx ▸ Nat.lt_irrefl a)
            · cases hs
              exact { h with stage := ⟨h1, h2, h3, h4, h5, h6, h7⟩ }
          · cases hs; exact hrel
      · cases hs
        refine { h with dstPuts := ?_, stage := ?_ }
        · intro w hw
          rcases List.mem_append.1 hw with hw | hw
          · exact h.dstPuts w hw
          · simp at hw
        · refine ⟨h1, rfl, h3, ⟨s.dst.queue, [], ?_, h4, fun _ hx => by cases hx⟩, h5, h6, h7, hc⟩
          show s.dst.queue ++ [Entry.adjust ⟨s.src.info.start, s.dst.info.stop, _⟩] = _
          rw [h5.1, h.dstop]
          rfl
  · cases hs

theorem Inv.finish (h : Inv a e c s) (hs : step s .finish = some s') : Inv a e c s' := by
  simp only [step, Absorb.finish] at hs
  split at hs
  · rename_i i hp
    have hst := h.stage
    unfold Stage at hst
    simp only [hp] at hst
    obtain ⟨h1, h2, h3, h4, h5, h6, h7, h8, h9⟩ := hst
    split at hs
    · cases hs
      refine { h with srcPuts := ?_, stage := ?_ }
      · intro w hw
        simp [Region.propose, h3] at hw
      · refine ⟨h1, h2, ?_, h4, h5, h6, h7, h8⟩
        show s.src.queue ++ [Entry.adjust ⟨s.src.info.start, some s.src.info.start, _⟩] = _
        rw [h5.1, h3]
        rfl
    · rename_i hx
      exact absurd (by rw [h9, h5.1]) hx
  · cases hs

theorem Inv.step (h : Inv a e c s) (x : Step) (hc : Clean s x) (hs : step s x = some s') :
    Inv a e c s' := by
  cases x with
  | dstPut q => exact h.dstPut q hs
  | pass q => exact h.pass q hs
  | enter q => exact h.enter q hc hs
  | applySrc => exact h.applySrc hs
  | applyDst => exact h.applyDst hs
  | failSrc => exact h.failSrc hc hs
  | failDst => exact h.failDst hs
  | stmt b t q => cases b
                  · exact h.dstStmt t q hs
                  · exact h.srcStmt t q hs
  | commit t => exact h.commit t hs
  | tick => exact h.tick hs
  | start m => exact h.start m hs
  | timeout => exact h.timeout hs
  | check => exact h.check hs
  | ask => exact h.ask hc hs
  | lose => exact hc.elim
  | finish => exact h.finish hs

theorem Inv.run {a e : Key} {c : Option Key} {xs : List Step} :
    ∀ {s s' : Sys}, Inv a e c s → CleanRun Absorb.step s xs → run s xs = some s' →
      Inv a e c s' := by
  induction xs with
  | nil =>
    intro s s' h _ hs
    cases hs
    exact h
  | cons x xs ih =>
    intro s s' h hc hs
    simp only [Absorb.run] at hs
    split at hs
    · cases hs
    · rename_i s1 h1
      exact ih (h.step x hc.1 h1) (hc.2 _ h1) hs

end BaikalDB.Absorb
