import Verif.Fetch.Lemmas

/-!
# C64: a query over regions that split while it runs returns every row exactly once
-/

namespace BaikalDB.Fetch
open BaikalDB.Fetch.Spec

variable {K : Type} [LinearOrder K] [OrderBot K]

/-- The SQL node asks the regions it knows of, however old that knowledge is, and regions split and are written to before and
during the query.  When the query is finished it has not failed, and a key that is in the table at the beginning and that nobody
deletes has been returned once, if the regions asked have it in their ranges; otherwise it has not been returned. -/
theorem C64_exactly_once {w0 w1 w : World K} {infos : List (Info K)} {c : Client K} {k : K} (h0 : Created w0)
    (hl : Later w0 w1) (hk : ∀ i ∈ infos, Known w0 w1 i) (hd : Spec.Disjoint infos)
    (hs : Stored k w1) (hrun : Run (KeepChange k) (fun _ => True) w1 (Client.start infos) w c) (hf : Finished c) :
    c.failed = false ∧ c.result.count k = if ∃ i ∈ infos, Covers i k then 1 else 0 := by
  have hr := Run.keep (fun _ _ => Stored.keep) hs hrun
  have hi := Inv.run (N := fun x => cnt x infos) (Q := fun i l => Covers i k → k ∈ l) (cnt_le_one hd)
    (fun w hw j r hr => hw j r hr) (Inv.start h0 hl hk _) hr
  refine ⟨hi.ok, ?_⟩
  have hc := hi.count k
  simp only [hf.1, hf.2, List.nil_append, cnt_nil, Nat.zero_add] at hc
  have hres : c.result.count k = cnt k (c.done.map Read.info) := by
    rw [cnt_sum, Client.result]
    refine count_result k c.done _ fun d hd' => ?_
    obtain ⟨_, _, h3, h4, h5⟩ := hi.reads d (by simp [hd'])
    by_cases hcov : Covers d.info k
    · rw [if_pos hcov, List.count_eq_one_of_mem h3 (h5 hcov)]
    · rw [if_neg hcov, List.count_eq_zero]
      exact fun hm => hcov (h4 k hm)
  rw [hres, hc]
  by_cases he : ∃ i ∈ infos, Covers i k
  · rw [if_pos he]
    obtain ⟨i, hi1, hi2⟩ := he
    exact Nat.le_antisymm (cnt_le_one hd k) (cnt_pos hi1 hi2)
  · rw [if_neg he]
    show cnt k infos = 0
    unfold cnt
    rw [List.countP_eq_zero]
    intro i hi1 hi2
    exact he ⟨i, hi1, by simpa using hi2⟩

/-- A key that is not in the table and that nobody inserts is not returned. -/
theorem C64_absent {w0 w1 w : World K} {infos : List (Info K)} {c : Client K} {k : K} (h0 : Created w0) (hl : Later w0 w1)
    (hk : ∀ i ∈ infos, Known w0 w1 i) (hd : Spec.Disjoint infos)
    (hs : Absent k w1) (hrun : Run (KeepChange k) (fun _ => True) w1 (Client.start infos) w c) : k ∉ c.result := by
  have hr := Run.keep (fun _ _ => Absent.keep) hs hrun
  have hi := Inv.run (N := fun x => cnt x infos) (Q := fun _ l => k ∉ l) (cnt_le_one hd)
    (fun w hw j r hr => hw j r hr) (Inv.start h0 hl hk _) hr
  intro hm
  obtain ⟨d, hd1, hd2⟩ := List.mem_flatMap.1 hm
  exact (hi.reads d (by simp [hd1])).2.2.2.2 hd2

/-- No key is returned twice, also one that is written during the query, and none that is not in the ranges of the regions
asked; the query does not fail. -/
theorem C64_at_most_once {w0 w1 w : World K} {infos : List (Info K)} {c : Client K} (h0 : Created w0) (hl : Later w0 w1)
    (hk : ∀ i ∈ infos, Known w0 w1 i) (hd : Spec.Disjoint infos)
    (hr : Run Change (fun _ => True) w1 (Client.start infos) w c) :
    c.failed = false ∧ c.result.Nodup ∧ ∀ k ∈ c.result, ∃ i ∈ infos, Covers i k := by
  have hi := Inv.run (N := fun x => cnt x infos) (Q := fun _ _ => True) (cnt_le_one hd)
    (fun w hw j r hr => trivial) (Inv.start h0 hl hk _) hr
  have hle : ∀ k, c.result.count k ≤ cnt k (c.done.map Read.info) := by
    intro k
    rw [cnt_sum, Client.result, count_result k c.done _ fun d _ => rfl]
    have : ∀ d ∈ c.done, d.rows.count k ≤ if Covers d.info k then 1 else 0 := by
      intro d hd'
      obtain ⟨_, _, h3, h4, _⟩ := hi.reads d (by simp [hd'])
      by_cases hcov : Covers d.info k
      · rw [if_pos hcov]; exact List.nodup_iff_count.1 h3 k
      · rw [if_neg hcov, List.count_eq_zero.2 fun hm => hcov (h4 k hm)]
    generalize c.done = l at this
    induction l with
    | nil => simp
    | cons a t ih =>
      simp only [List.map_cons, List.sum_cons]
      have h1 := this a (by simp)
      have h2 := ih fun d hd => this d (List.mem_cons_of_mem _ hd)
      omega
  have hcnt : ∀ k, cnt k (c.done.map Read.info) ≤ cnt k infos := by
    intro k
    have := hi.count k
    simp only [List.map_append, cnt_append] at this
    omega
  refine ⟨hi.ok, List.nodup_iff_count.2 fun k => (hle k).trans ((hcnt k).trans (cnt_le_one hd k)), fun k hkm => ?_⟩
  have h1 : 1 ≤ c.result.count k := List.count_pos_iff.2 hkm
  have h2 : 0 < cnt k infos := lt_of_lt_of_le h1 ((hle k).trans (hcnt k))
  obtain ⟨i, hi1, hi2⟩ := List.countP_pos_iff.1 h2
  exact ⟨i, hi1, by simpa using hi2⟩

/-- Once the regions do not change any more, the number of requests and answers is bounded: the query ends. -/
theorem C64_finishes {w0 w1 w : World K} {infos : List (Info K)} {c : Client K} (h0 : Created w0) (hl : Later w0 w1)
    (hk : ∀ i ∈ infos, Known w0 w1 i) (hd : Spec.Disjoint infos)
    (hr : Run Change (fun _ => True) w1 (Client.start infos) w c) : ∃ n, ∀ m c', Moves w c m c' → m ≤ n := by
  have hi := Inv.run (N := fun x => cnt x infos) (Q := fun _ _ => True) (cnt_le_one hd)
    (fun w hw j r hr => trivial) (Inv.start h0 hl hk _) hr
  have he := (h0.ends.later hl).run hr
  obtain ⟨a, ha⟩ : ∃ a, Pot w c.todo a := by
    refine Pot.of_mem fun i hi' => ?_
    obtain ⟨r, h1, _⟩ := hi.todo i hi'
    obtain ⟨a, ha⟩ := he _ r h1
    exact ⟨r, a, h1, ha⟩
  refine ⟨a + c.flight.length, fun m c' hm => ?_⟩
  obtain ⟨_, b, _, h⟩ := Pot.moves (cnt_le_one hd) hi ha hm
  omega

/-! ## A query that begins after a merge -/

/-- Where the request for a region goes at last. -/
def target (s : Info K) (dst : Nat) (i : Info K) : Nat := if i = s then dst else i.id

/-- What is so of a query after a merge: `s` and `d` are the infos of the two regions before it. -/
structure MInv (w : World K) (s d : Info K) (j0 : Nat) (c : Client K) : Prop where
  todo : ∀ i ∈ c.todo, (∃ r, w i.id = some r ∧ r.info = i) ∨ i = s ∨ i = d
  reads : ∀ x ∈ c.flight ++ c.done, ∃ r, w x.info.id = some r ∧ x.rows = r.rows
  ids : (c.done.map fun x => x.info.id).Nodup
  ok : c.failed = false
  got : (∃ i ∈ c.todo, target s d.id i = j0) ∨ (∃ x ∈ c.flight ++ c.done, x.info.id = j0)

omit [OrderBot K] in
theorem MInv.arrive {w : World K} {s d : Info K} {j0 : Nat} {c : Client K} (h : MInv w s d j0 c) (n : Nat) :
    MInv w s d j0 (c.arrive n) := by
  unfold Client.arrive
  cases hn : c.flight[n]? with
  | none => exact h
  | some rd =>
    have hf : rd ∈ c.flight := List.mem_of_getElem? hn
    have hperm := eraseIdx_perm hn
    refine ⟨h.todo, ?_, ?_, h.ok, ?_⟩
    · intro x hx
      simp only [List.mem_append, List.mem_cons, List.mem_filter] at hx
      rcases hx with hx | rfl | hx
      · exact h.reads x (by simp [List.mem_of_mem_eraseIdx hx])
      · exact h.reads x (by simp [hf])
      · exact h.reads x (by simp [hx.1])
    · simp only [List.map_cons, List.nodup_cons]
      refine ⟨?_, (List.filter_sublist.map _).nodup h.ids⟩
      intro hm
      obtain ⟨x, hx, e⟩ := List.mem_map.1 hm
      have := (List.mem_filter.1 hx).2
      simp only [decide_eq_true_eq] at this
      exact this e
    · rcases h.got with h1 | ⟨x, hx, e⟩
      · exact .inl h1
      · right
        by_cases he : rd.info.id = j0
        · exact ⟨rd, by simp, he⟩
        · rcases List.mem_append.1 hx with hx | hx
          · rcases List.mem_cons.1 (hperm.subset hx) with rfl | hx
            · exact absurd e he
            · exact ⟨x, by simp [hx], e⟩
          · refine ⟨x, ?_, e⟩
            simp only [List.mem_append, List.mem_cons, List.mem_filter, decide_eq_true_eq]
            exact .inr (.inr ⟨hx, fun e' => he (e'.symm.trans e)⟩)

omit [LinearOrder K] [OrderBot K] in
theorem merge_dst {w : World K} {src dst : Nat} {s d : Reg K} (hs : w src = some s) (hd : w dst = some d) :
    mergeInto w src dst dst = some { d with info := { d.info with ver := d.info.ver + 1, start := s.info.start } } := by
  simp [mergeInto, hs, hd]

omit [LinearOrder K] [OrderBot K] in
theorem merge_src {w : World K} {src dst : Nat} (hne : src ≠ dst) {s d : Reg K} (hs : w src = some s) (hd : w dst = some d) :
    mergeInto w src dst src = some { s with
      info := { s.info with ver := s.info.ver + 1, stop := s.info.start }
      merge := some { d.info with ver := d.info.ver + 1, start := s.info.start } } := by
  simp [mergeInto, hs, hd, hne]

omit [LinearOrder K] [OrderBot K] in
theorem merge_other {w : World K} {src dst j : Nat} (h1 : j ≠ src) (h2 : j ≠ dst) : mergeInto w src dst j = w j := by
  unfold mergeInto
  cases w src with
  | none => rfl
  | some s => cases w dst with
    | none => rfl
    | some d => simp [h1, h2]

theorem MInv.send {w : World K} (hw : WI w) {src dst : Nat} (hne : src ≠ dst) {s d : Reg K} (hs : w src = some s)
    (hd : w dst = some d) (hb : s.info.start ≠ ⊥) (hlt : s.info.start < s.info.stop) (hadj : s.info.stop = d.info.start)
    {j0 : Nat} {c : Client K} (h : MInv (mergeInto w src dst) s.info d.info j0 c) (n : Nat) :
    MInv (mergeInto w src dst) s.info d.info j0 (c.send (mergeInto w src dst) n) := by
  have ids := (hw src s hs).1
  have idd := (hw dst d hd).1
  have hsd : s.info ≠ d.info := fun e => hne (by rw [← ids, ← idd, e])
  unfold Client.send
  cases hn : c.todo[n]? with
  | none => exact h
  | some i =>
    have hmem : i ∈ c.todo := List.mem_of_getElem? hn
    have hperm := eraseIdx_perm hn
    have hsub : ∀ x ∈ c.todo.eraseIdx n, x ∈ c.todo := fun x hx => List.mem_of_mem_eraseIdx hx
    -- the ways a request is answered
    have hrows : ∀ r, mergeInto w src dst i.id = some r → r.info = i → i ≠ s.info →
        MInv (mergeInto w src dst) s.info d.info j0
          { c with todo := c.todo.eraseIdx n, flight := c.flight ++ [⟨r.info, r.rows⟩] } := by
      intro r hr e hns
      refine ⟨fun x hx => h.todo x (hsub x hx), ?_, h.ids, h.ok, ?_⟩
      · intro x hx
        simp only [List.append_assoc, List.mem_append, List.mem_cons, List.not_mem_nil, or_false] at hx
        rcases hx with hx | rfl | hx
        · exact h.reads x (by simp [hx])
        · exact ⟨r, by rw [e]; exact hr, rfl⟩
        · exact h.reads x (by simp [hx])
      · rcases h.got with ⟨x, hx, ex⟩ | ⟨x, hx, ex⟩
        · rcases List.mem_cons.1 (hperm.subset hx) with rfl | hx
          · right
            refine ⟨⟨r.info, r.rows⟩, by simp, ?_⟩
            rw [target, if_neg hns] at ex
            rw [← ex, e]
          · exact .inl ⟨x, hx, ex⟩
        · right
          refine ⟨x, ?_, ex⟩
          rcases List.mem_append.1 hx with hx | hx <;> simp [hx]
    have hredir : ∀ ni : Info K, (∃ r, mergeInto w src dst ni.id = some r ∧ r.info = ni) → ni ≠ s.info → ni.id = dst →
        target s.info d.info.id i = dst →
        MInv (mergeInto w src dst) s.info d.info j0 { c with todo := c.todo.eraseIdx n ++ [ni] } := by
      intro ni hni hns hid ht
      refine ⟨?_, h.reads, h.ids, h.ok, ?_⟩
      · intro x hx
        rcases List.mem_append.1 hx with hx | hx
        · exact h.todo x (hsub x hx)
        · rw [List.mem_singleton.1 hx]; exact .inl hni
      · rcases h.got with ⟨x, hx, ex⟩ | h2
        · left
          rcases List.mem_cons.1 (hperm.subset hx) with rfl | hx
          · refine ⟨ni, by simp, ?_⟩
            rw [target, if_neg hns, hid, ← ht, ex]
          · exact ⟨x, by simp [hx], ex⟩
        · exact .inr h2
    have hnd : ∃ r, mergeInto w src dst ({ d.info with ver := d.info.ver + 1, start := s.info.start } : Info K).id = some r ∧
        r.info = { d.info with ver := d.info.ver + 1, start := s.info.start } :=
      ⟨_, by simp only [idd]; exact merge_dst hs hd, rfl⟩
    have hnds : ({ d.info with ver := d.info.ver + 1, start := s.info.start } : Info K) ≠ s.info := fun e => by
      have := congrArg Info.id e
      simp only [ids, idd] at this
      exact hne this.symm
    by_cases his : i = s.info
    · subst his
      have hre : redirect s.info true [{ s.info with ver := s.info.ver + 1, stop := s.info.start },
          { d.info with ver := d.info.ver + 1, start := s.info.start }] =
            some [{ d.info with ver := d.info.ver + 1, start := s.info.start }] := by
        simp [redirect, ids, idd, hne.symm]
      have hans : ({ s with
            info := { s.info with ver := s.info.ver + 1, stop := s.info.start }
            merge := some { d.info with ver := d.info.ver + 1, start := s.info.start } } : Reg K).answer s.info.ver =
          .old true [{ s.info with ver := s.info.ver + 1, stop := s.info.start },
            { d.info with ver := d.info.ver + 1, start := s.info.start }] := by
        simp [Reg.answer, hb]
      simp only [show mergeInto w src dst s.info.id = mergeInto w src dst src from congrArg _ ids, merge_src hne hs hd]
      simp only [hans, hre]
      exact hredir _ hnd hnds idd (by simp [target, idd])
    · by_cases hid : i = d.info
      · subst hid
        have hnm : ¬ (s.info.start ≠ ⊥ ∧ s.info.start = d.info.stop) := by
          rintro ⟨_, e⟩
          rcases (hw dst d hd).2.2.2.1 with h4 | h4
          · exact hb (e.trans h4)
          · rw [← e, ← hadj] at h4; exact absurd (hlt.trans h4) (lt_irrefl _)
        have hf : d.news.filter (fun r => stopLe r.stop d.info.stop) = [] := by
          rw [List.filter_eq_nil_iff]
          intro x hx
          simp [((hw dst d hd).2.2.2.2 x hx).2]
        have hle : s.info.start ≤ d.info.start := hadj ▸ hlt.le
        simp only [idd, merge_dst hs hd, Reg.answer, Nat.lt_succ_self, if_true, hnm, if_false]
        have hre : redirect d.info false ({ d.info with ver := d.info.ver + 1, start := s.info.start } :: d.news) =
            some [{ d.info with ver := d.info.ver + 1, start := s.info.start }] := by
          cases hnn : d.news with
          | nil => simp [redirect, hle, stopLe_refl]
          | cons a t =>
            rw [hnn] at hf
            unfold redirect
            rw [if_pos (by simp), if_neg (by simp), List.filter_cons_of_pos (by simp [stopLe_refl]), hf]
        simp only [idd] at hre
        rw [hre]
        simp only [idd] at hnd hnds
        exact hredir _ hnd hnds rfl (by simp [target, idd, Ne.symm hsd])
      · rcases h.todo i hmem with ⟨r, hr, e⟩ | e | e
        · simp only [hr, Reg.answer, e, lt_irrefl, if_false]
          have := hrows r hr e his
          rwa [e] at this
        · exact absurd e his
        · exact absurd e hid

/-- A region without rows has been merged into the one after it and the SQL node does not know: the query returns the rows of all
the regions it asks, each once, and does not fail. -/
theorem C64_merged {w0 w : World K} {src dst : Nat} {infos : List (Info K)} {c : Client K} {k : K} {j0 : Nat} (h0 : Created w0)
    (hl : Later w0 w) (hm : Merges w src dst) (hk : ∀ i ∈ infos, (w i.id).map Reg.info = some i)
    (hj : ∀ j r, w j = some r → (k ∈ r.rows ↔ j = j0)) (hj0 : ∃ i ∈ infos, i.id = j0)
    (hr : Quiet (mergeInto w src dst) (Client.start infos) c) (hf : Finished c) :
    c.failed = false ∧ c.result.count k = 1 := by
  have hw := h0.wi.later hl
  obtain ⟨s, d, hs, hd, hrows, hb, hlt, hadj⟩ := hm.exist
  have hne := hm.ne
  have ids := (hw src s hs).1
  have idd := (hw dst d hd).1
  have hinv : MInv (mergeInto w src dst) s.info d.info j0 c := by
    clear hf
    induction hr with
    | start =>
      refine ⟨?_, by simp [Client.start], by simp [Client.start], rfl, ?_⟩
      · intro i hi
        obtain ⟨r, h1, h2⟩ := Option.map_eq_some_iff.1 (hk i hi)
        by_cases e1 : i.id = src
        · rw [e1, hs] at h1; cases h1; exact .inr (.inl h2.symm)
        · by_cases e2 : i.id = dst
          · rw [e2, hd] at h1; cases h1; exact .inr (.inr h2.symm)
          · exact .inl ⟨r, by rw [merge_other e1 e2]; exact h1, h2⟩
      · left
        obtain ⟨i, hi, e⟩ := hj0
        refine ⟨i, hi, ?_⟩
        have : i ≠ s.info := by
          rintro rfl
          have := (hj src s hs).2 (ids.symm.trans e)
          rw [hrows] at this
          simp at this
        rw [target, if_neg this, e]
    | send n _ ih => exact MInv.send hw hne hs hd hb hlt hadj ih n
    | arrive n _ ih => exact ih.arrive n
  refine ⟨hinv.ok, ?_⟩
  have hrw : ∀ j r, mergeInto w src dst j = some r → ∃ r', w j = some r' ∧ r'.rows = r.rows := by
    intro j r hj
    by_cases e1 : j = src
    · subst e1; rw [merge_src hne hs hd] at hj; cases hj; exact ⟨s, hs, rfl⟩
    · by_cases e2 : j = dst
      · subst e2; rw [merge_dst hs hd] at hj; cases hj; exact ⟨d, hd, rfl⟩
      · rw [merge_other e1 e2] at hj; exact ⟨r, hj, rfl⟩
  have hread : ∀ x ∈ c.done, x.rows.count k = if x.info.id = j0 then 1 else 0 := by
    intro x hx
    obtain ⟨r, h1, h2⟩ := hinv.reads x (by simp [hx])
    obtain ⟨r', h3, h4⟩ := hrw _ r h1
    rw [h2, ← h4]
    by_cases e : x.info.id = j0
    · rw [if_pos e]
      exact List.count_eq_one_of_mem (hw _ r' h3).2.1 ((hj _ r' h3).2 e)
    · rw [if_neg e, List.count_eq_zero]
      exact fun hm => e ((hj _ r' h3).1 hm)
  rw [Client.result, count_result k c.done _ hread]
  have hgot : ∃ x ∈ c.done, x.info.id = j0 := by
    have := hinv.got
    simpa [hf.1, hf.2] using this
  have hidn := hinv.ids
  generalize c.done = l at hidn hgot
  induction l with
  | nil => simp at hgot
  | cons a t ih =>
    simp only [List.map_cons, List.nodup_cons, List.sum_cons] at *
    by_cases e : a.info.id = j0
    · rw [if_pos e]
      have : (t.map fun x => if x.info.id = j0 then 1 else 0).sum = 0 := by
        have hno : ∀ x ∈ t, x.info.id ≠ j0 := fun x hx e' => hidn.1 (List.mem_map.2 ⟨x, hx, e'.trans e.symm⟩)
        clear ih hgot hidn
        induction t with
        | nil => rfl
        | cons b u ih =>
          simp only [List.map_cons, List.sum_cons]
          rw [if_neg (hno b (by simp)), ih fun x hx => hno x (List.mem_cons_of_mem _ hx)]
      omega
    · rw [if_neg e, Nat.zero_add]
      refine ih hidn.2 ?_
      obtain ⟨x, hx, e'⟩ := hgot
      rcases List.mem_cons.1 hx with rfl | hx
      · exact absurd e' e
      · exact ⟨x, hx, e'⟩

end BaikalDB.Fetch
