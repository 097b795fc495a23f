import Verif.Binlog.Capture

/-! # C59: a peer that has restarted does not hold readers back, and one that has loaded a snapshot refuses them -/

namespace BaikalDB.Binlog

/-- A record that ends a transaction. -/
def Ends (r : Rec) : Prop := r.kind = .commit ∨ r.kind = .rollback

/-- The state in the middle of the scan: `done` has been seen. -/
structure Mid (done : List (Int × Rec)) (t : St) : Prop where
  asc : Asc t.pend
  low : ∀ y ∈ t.pend, t.cp ≤ y.1
  pos : ∀ y ∈ t.pend, 0 < y.1
  cp : 0 < t.cp
  max : t.max = -1 ∨ ∃ d ∈ done, d.1 = t.max
  sound : ∀ p, (p, true) ∈ t.pend → ∃ x ∈ done, x.1 = p ∧ x.2.kind = .prewrite ∧ ∀ y ∈ done, Ends y.2 → y.2.start ≠ p
  full : ∀ x ∈ done, x.2.kind = .prewrite → (∀ y ∈ done, Ends y.2 → y.2.start ≠ x.1) → (x.1, true) ∈ t.pend
  seen : ∀ d ∈ done, d.2.kind = .fake ∨ d.2.kind = .prewrite ∨ (Ends d.2 ∧ ∃ x ∈ done, x.1 = d.2.start ∧ x.2.kind = .prewrite) →
    d.1 ≤ t.max

theorem settle_low {s : St} {pd : List (Int × Bool)} {ts : Int} (h : Asc pd) : ∀ y ∈ (settle s pd ts).pend, (settle s pd ts).cp ≤ y.1 := by
  cases pd with
  | nil => intro y hy; cases hy
  | cons x l => exact head_low h

theorem settle_cp {s : St} {pd : List (Int × Bool)} {ts : Int} (h : ∀ y ∈ pd, 0 < y.1) (ht : 0 < ts) : 0 < (settle s pd ts).cp := by
  cases pd with
  | nil => exact ht
  | cons x l => exact h x (by simp)

theorem settle_max {s : St} {pd : List (Int × Bool)} {ts : Int} : s.max ≤ (settle s pd ts).max ∧ ts ≤ (settle s pd ts).max ∧
    ((settle s pd ts).max = s.max ∨ (settle s pd ts).max = ts) := by
  show s.max ≤ (if s.max < ts then ts else s.max) ∧ ts ≤ (if s.max < ts then ts else s.max) ∧ _
  refine ⟨by split <;> omega, by split <;> omega, ?_⟩
  show (if s.max < ts then ts else s.max) = s.max ∨ (if s.max < ts then ts else s.max) = ts
  split
  · exact Or.inr rfl
  · exact Or.inl rfl

theorem mid_step {done : List (Int × Rec)} {t : St} (h : Mid done t) {x : Int × Rec} (hx : 0 < x.1)
    (hlt : ∀ d ∈ done, d.1 < x.1) (hst : ∀ y ∈ done ++ [x], Ends y.2 → y.2.start ≤ y.1)
    (honce : ∀ y ∈ done, Ends y.2 → Ends x.2 → y.2.start ≠ x.2.start) : Mid (done ++ [x]) (scanStep t x) := by
  have hmax : ¬ x.1 < t.max := by
    rcases h.max with hm | ⟨d, hd, hm⟩
    · omega
    · have := hlt d hd; omega
  have hin : x ∈ done ++ [x] := by simp
  have max' : ∀ pd, (settle t pd x.1).max = -1 ∨ ∃ d ∈ done ++ [x], d.1 = (settle t pd x.1).max := by
    intro pd
    rcases (settle_max (s := t) (pd := pd) (ts := x.1)).2.2 with hm | hm
    · rcases h.max with hm' | ⟨d, hd, hm'⟩
      · exact Or.inl (by omega)
      · exact Or.inr ⟨d, by simp [hd], by omega⟩
    · exact Or.inr ⟨x, hin, by omega⟩
  have seen' : ∀ pd, ∀ d ∈ done ++ [x], d.2.kind = .fake ∨ d.2.kind = .prewrite ∨
      (Ends d.2 ∧ ∃ x' ∈ done ++ [x], x'.1 = d.2.start ∧ x'.2.kind = .prewrite) → d.1 ≤ (settle t pd x.1).max := by
    intro pd d hd hk
    have := (settle_max (s := t) (pd := pd) (ts := x.1)).1
    have := (settle_max (s := t) (pd := pd) (ts := x.1)).2.1
    rcases List.mem_append.mp hd with hd' | hd'
    · have := hlt d hd'
      omega
    · rw [List.mem_singleton] at hd'
      rw [hd']; omega
  unfold scanStep
  rw [if_neg hmax]
  have putCase : ∀ b, x.2.kind = (if b = true then .prewrite else .fake) → Mid (done ++ [x]) (settle t (put x.1 b t.pend) x.1) := by
    intro b hb
    have hA : Asc (put x.1 b t.pend) := put_asc h.asc
    have hpos : ∀ y ∈ put x.1 b t.pend, 0 < y.1 := by
      intro y hy
      rcases (mem_put h.asc y).mp hy with rfl | hy
      · exact hx
      · exact h.pos y hy.1
    have hne : ¬ Ends x.2 := by
      rintro (he | he) <;> rw [he] at hb <;> cases b <;> cases hb
    refine ⟨hA, settle_low hA, hpos, settle_cp hpos hx, max' _, ?_, ?_, seen' _⟩
    · intro p hp
      rcases (mem_put h.asc _).mp hp with hp | hp
      · rw [Prod.mk.injEq] at hp
        refine ⟨x, hin, hp.1.symm, ?_, ?_⟩
        · rw [hb, ← hp.2]; rfl
        · intro y hy he hs
          rcases List.mem_append.mp hy with hy' | hy'
          · have := hlt y hy'
            have := hst y hy he
            have := hp.1
            omega
          · rw [List.mem_singleton] at hy'
            exact hne (hy' ▸ he)
      · obtain ⟨z, hz, hz1, hz2, hz3⟩ := h.sound p hp.1
        refine ⟨z, by simp [hz], hz1, hz2, ?_⟩
        intro y hy he
        rcases List.mem_append.mp hy with hy' | hy'
        · exact hz3 y hy' he
        · rw [List.mem_singleton] at hy'
          exact absurd (hy' ▸ he) hne
    · intro z hz hk hno
      refine (mem_put h.asc _).mpr ?_
      rcases List.mem_append.mp hz with hz' | hz'
      · refine Or.inr ⟨h.full z hz' hk fun y hy => hno y (by simp [hy]), ?_⟩
        have := hlt z hz'
        show z.1 ≠ x.1
        omega
      · rw [List.mem_singleton] at hz'
        subst hz'
        cases b with
        | true => exact Or.inl rfl
        | false => rw [hk] at hb; cases hb
  have endCase : Ends x.2 →
      Mid (done ++ [x]) (if x.2.start < t.cp then t else if has x.2.start t.pend then settle t (del x.2.start t.pend) x.1 else t) := by
    intro he
    have hopen : ∀ z ∈ done, z.1 = x.2.start → z.2.kind = .prewrite → (x.2.start, true) ∈ t.pend := by
      intro z hz h1 hk
      rw [← h1]
      exact h.full z hz hk fun y hy hye => by rw [h1]; exact honce y hy hye he
    have hnp : x.2.kind ≠ .prewrite := by rcases he with he | he <;> rw [he] <;> exact (fun h => nomatch h)
    have hnf : x.2.kind ≠ .fake := by rcases he with he | he <;> rw [he] <;> exact (fun h => nomatch h)
    have hskip : (x.2.start, true) ∉ t.pend → Mid (done ++ [x]) t := by
      intro hno
      refine ⟨h.asc, h.low, h.pos, h.cp, ?_, ?_, ?_, ?_⟩
      · rcases h.max with hm | ⟨d, hd, hm⟩
        · exact Or.inl hm
        · exact Or.inr ⟨d, by simp [hd], hm⟩
      · intro p hp
        obtain ⟨z, hz, hz1, hz2, hz3⟩ := h.sound p hp
        refine ⟨z, by simp [hz], hz1, hz2, ?_⟩
        intro y hy hye hs
        rcases List.mem_append.mp hy with hy' | hy'
        · exact hz3 y hy' hye hs
        · rw [List.mem_singleton] at hy'
          subst hy'
          exact hno (hs ▸ hp)
      · intro z hz hk hnoz
        rcases List.mem_append.mp hz with hz' | hz'
        · exact h.full z hz' hk fun y hy => hnoz y (by simp [hy])
        · rw [List.mem_singleton] at hz'
          exact absurd (hz' ▸ hk) hnp
      · intro d hd hk
        rcases List.mem_append.mp hd with hd' | hd'
        · refine h.seen d hd' ?_
          rcases hk with hk | hk | ⟨hke, z, hz, hz1, hz2⟩
          · exact Or.inl hk
          · exact Or.inr (Or.inl hk)
          · refine Or.inr (Or.inr ⟨hke, z, ?_, hz1, hz2⟩)
            rcases List.mem_append.mp hz with hz' | hz'
            · exact hz'
            · rw [List.mem_singleton] at hz'
              exact absurd (hz' ▸ hz2) hnp
        · rw [List.mem_singleton] at hd'
          subst hd'
          rcases hk with hk | hk | ⟨_, z, hz, hz1, hz2⟩
          · exact absurd hk hnf
          · exact absurd hk hnp
          · rcases List.mem_append.mp hz with hz' | hz'
            · exact absurd (hopen z hz' hz1 hz2) hno
            · rw [List.mem_singleton] at hz'
              exact absurd (hz' ▸ hz2) hnp
    split
    · rename_i hlow
      exact hskip fun hp => by have := h.low _ hp; simp only at this; omega
    · split
      · have hA : Asc (del x.2.start t.pend) := del_asc h.asc
        have hpos : ∀ y ∈ del x.2.start t.pend, 0 < y.1 := fun y hy => h.pos y ((mem_del y).mp hy).1
        refine ⟨hA, settle_low hA, hpos, settle_cp hpos hx, max' _, ?_, ?_, seen' _⟩
        · intro p hp
          obtain ⟨hp1, hp2⟩ := (mem_del _).mp hp
          obtain ⟨z, hz, hz1, hz2, hz3⟩ := h.sound p hp1
          refine ⟨z, by simp [hz], hz1, hz2, ?_⟩
          intro y hy hye hs
          rcases List.mem_append.mp hy with hy' | hy'
          · exact hz3 y hy' hye hs
          · rw [List.mem_singleton] at hy'
            subst hy'
            exact hp2 hs.symm
        · intro z hz hk hnoz
          rcases List.mem_append.mp hz with hz' | hz'
          · refine (mem_del _).mpr ⟨h.full z hz' hk fun y hy => hnoz y (by simp [hy]), ?_⟩
            exact fun hh => hnoz x hin he hh.symm
          · rw [List.mem_singleton] at hz'
            exact absurd (hz' ▸ hk) hnp
      · rename_i hno
        exact hskip fun hp => hno (has_iff.mpr ⟨true, hp⟩)
  cases hk : x.2.kind with
  | fake => exact putCase false (by rw [hk]; rfl)
  | prewrite => exact putCase true (by rw [hk]; rfl)
  | commit => exact endCase (Or.inl hk)
  | rollback => exact endCase (Or.inr hk)

theorem mid_all (xs : List (Int × Rec)) (done : List (Int × Rec)) (t : St) (h : Mid done t) (hx : ∀ x ∈ xs, 0 < x.1)
    (hA : Asc (done ++ xs)) (hst : ∀ y ∈ done ++ xs, Ends y.2 → y.2.start ≤ y.1)
    (honce : ∀ y ∈ done ++ xs, ∀ z ∈ done ++ xs, Ends y.2 → Ends z.2 → y.2.start = z.2.start → y = z) :
    Mid (done ++ xs) (xs.foldl scanStep t) := by
  induction xs generalizing done t with
  | nil => simpa using h
  | cons x xs ih =>
    have hlt : ∀ d ∈ done, d.1 < x.1 := fun d hd => (List.pairwise_append.mp hA).2.2 d hd x (by simp)
    have hs : Mid (done ++ [x]) (scanStep t x) := by
      refine mid_step h (hx x (by simp)) hlt (fun y hy => hst y ?_) ?_
      · rcases List.mem_append.mp hy with hy | hy
        · simp [hy]
        · rw [List.mem_singleton] at hy; simp [hy]
      · intro y hy hye hxe hs
        have := honce y (by simp [hy]) x (by simp) hye hxe hs
        have := hlt y hy
        subst y
        omega
    have he : done ++ x :: xs = done ++ [x] ++ xs := by simp
    rw [he] at hA hst honce ⊢
    exact ih (done ++ [x]) (scanStep t x) hs (fun y hy => hx y (by simp [hy])) hA hst honce

/-- A peer that has restarted lets its readers go up to any record it has seen the end of (a fake record, or an ended
transaction that was open at the written check point or later), unless a transaction that is still open lies before it. -/
theorem C59_restart_progress {s : St} (hA : Asc s.recs) (hs : 0 < s.saved)
    (hst : ∀ y ∈ s.recs, Ends y.2 → y.2.start ≤ y.1)
    (honce : ∀ y ∈ s.recs, ∀ z ∈ s.recs, Ends y.2 → Ends z.2 → y.2.start = z.2.start → y = z) (save : Bool)
    {y : Int × Rec} (hy : y ∈ s.recs) (hys : s.saved ≤ y.1)
    (hk : y.2.kind = .fake ∨ (Ends y.2 ∧ ∃ x ∈ s.recs, s.saved ≤ x.1 ∧ x.1 = y.2.start ∧ x.2.kind = .prewrite))
    {b : Int} (hb : b ≤ y.1)
    (hopen : ∀ x ∈ s.recs, s.saved ≤ x.1 → x.2.kind = .prewrite → (∀ z ∈ s.recs, Ends z.2 → z.2.start ≠ x.1) → b ≤ x.1) :
    b ≤ (restart s save).cp := by
  have hcp : (restart s save).cp = (scanAll { s with pend := [], cp := s.saved, max := -1 } save).cp := by
    unfold restart
    simp only
    rw [if_pos hs]
    split <;> rfl
  rw [hcp]
  unfold scanAll
  simp only
  have hmem : ∀ z, z ∈ s.recs.filter (fun x => decide (s.saved ≤ x.1)) ↔ z ∈ s.recs ∧ s.saved ≤ z.1 := by
    intro z; rw [List.mem_filter, decide_eq_true_iff]
  have hAF : Asc (s.recs.filter fun x => decide (s.saved ≤ x.1)) := List.Pairwise.filter _ hA
  generalize s.recs.filter (fun x => decide (s.saved ≤ x.1)) = F at hmem hAF
  have hM : Mid ([] ++ F) (F.foldl scanStep { s with pend := [], cp := s.saved, max := -1 }) := by
    refine mid_all F [] _ ?_ ?_ hAF ?_ ?_
    · exact ⟨List.Pairwise.nil, (fun y hy => nomatch hy), (fun y hy => nomatch hy), hs, Or.inl rfl, (fun p hp => nomatch hp),
        (fun x hx => nomatch hx), (fun d hd => nomatch hd)⟩
    · intro x hx
      have := ((hmem x).mp hx).2
      omega
    · exact fun z hz => hst z ((hmem z).mp hz).1
    · exact fun z hz w hw => honce z ((hmem z).mp hz).1 w ((hmem w).mp hw).1
  rw [List.nil_append] at hM
  generalize F.foldl scanStep { s with pend := [], cp := s.saved, max := -1 } = t at hM
  have hyF : y ∈ F := (hmem y).mpr ⟨hy, hys⟩
  have hmax : y.1 ≤ t.max := by
    refine hM.seen y hyF ?_
    rcases hk with hk | ⟨he, x, hx, hx1, hx2, hx3⟩
    · exact Or.inl hk
    · exact Or.inr (Or.inr ⟨he, x, (hmem x).mpr ⟨hx, hx1⟩, hx2, hx3⟩)
  unfold updateCheck
  rw [if_neg (by have := hM.cp; omega)]
  simp only
  have hfr : b ≤ front t.max (t.pend.dropWhile fun e => !e.2) := by
    cases hq : t.pend.dropWhile fun e => !e.2 with
    | nil => show b ≤ t.max; omega
    | cons p l =>
      show b ≤ p.1
      have hp2 := dropWhile_head hq
      have hpin : p ∈ t.pend := (List.dropWhile_sublist _).subset (by rw [hq]; simp)
      obtain ⟨x, hx, hx1, hx2, hx3⟩ := hM.sound p.1 (by rw [← hp2]; exact hpin)
      rw [← hx1]
      obtain ⟨hxr, hxs⟩ := (hmem x).mp hx
      refine hopen x hxr hxs hx2 ?_
      intro z hz hze hzs
      refine hx3 z ((hmem z).mpr ⟨hz, ?_⟩) hze (by omega)
      have := hst z hz hze
      omega
  split <;> omega

/-- A peer that has loaded a snapshot has not got the payloads, and answers no reader that is behind its check point. -/
theorem C59_load_refuses {own src s : St} {save : Bool} (h : load own src save = some s) {q : Query} (hq : q.begin < s.cp) :
    read s q = .err := by
  unfold load at h
  split at h
  · simp only [Option.some.injEq] at h
    have h1 : s.cp ≤ s.oldest := by
      rw [← h]
      simp only
      split <;> omega
    have h2 : s.oldest ≤ (if q.cfOldest < s.oldest then s.oldest else q.cfOldest) := by split <;> omega
    unfold read
    simp only
    generalize (if q.cfOldest < s.oldest then s.oldest else q.cfOldest) = old at h2
    split
    · rfl
    split
    · rfl
    split
    · rfl
    rw [if_pos (by omega)]
  · cases h

/-! Both are met. -/

example : 30 ≤ (restart { init with recs := [(10, ⟨.fake, 0, 0⟩), (12, ⟨.prewrite, 12, 1⟩), (15, ⟨.commit, 12, 1⟩),
    (20, ⟨.fake, 0, 0⟩), (30, ⟨.fake, 0, 0⟩)], saved := 10 } false).cp :=
  C59_restart_progress (b := 30) (y := (30, ⟨.fake, 0, 0⟩)) (by unfold Asc; simp) (by decide)
    (by simp [Ends]) (by simp [Ends]) _ (by simp) (by decide) (Or.inl rfl) (by decide)
    (by simp [Ends])

/-- One that is open holds readers back. -/
example : (restart { init with recs := [(10, ⟨.fake, 0, 0⟩), (12, ⟨.prewrite, 12, 1⟩), (20, ⟨.fake, 0, 0⟩)], saved := 10 } false).cp = 12 := by
  decide +kernel

end BaikalDB.Binlog
