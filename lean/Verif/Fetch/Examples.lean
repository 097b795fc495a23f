import Verif.Fetch.Props

/-!
# C64: cases that meet the hypotheses, and where merges and reloaded replicas break the claim

Keys are numbers; 0 is the empty string.
-/

namespace BaikalDB.Fetch
open BaikalDB.Fetch.Spec

theorem split_none {w : World Nat} {id : Nat} {cuts : List (Nat × Nat)} {n : Nat} (h : ∀ j, n ≤ j → w j = none) (hid : id < n)
    (hc : ∀ c ∈ cuts, c.1 < n) : ∀ j, n ≤ j → split w id cuts j = none := by
  intro j hj
  cases h0 : w id with
  | none => simp only [split, h0]; exact h j hj
  | some r0 =>
    cases hs : split w id cuts j with
    | none => rfl
    | some r =>
      rcases split_cases h0 hs (by omega) with h1 | ⟨p, hp, e, _⟩
      · rw [h j hj] at h1; cases h1
      · have : p.id ∈ (pieces cuts r0.info.stop).map Info.id := List.mem_map_of_mem hp
        rw [pieces_ids] at this
        obtain ⟨c, hc1, hc2⟩ := List.mem_map.1 this
        have := hc c hc1
        omega

theorem merge_none {w : World Nat} {src dst n : Nat} (h : ∀ j, n ≤ j → w j = none) (h1 : src < n) (h2 : dst < n) :
    ∀ j, n ≤ j → mergeInto w src dst j = none := fun j hj => by
  rw [merge_other (by omega) (by omega)]; exact h j hj

theorem reload_none {w : World Nat} {id m n : Nat} (h : ∀ j, n ≤ j → w j = none) : ∀ j, n ≤ j → reload w id m j = none := by
  intro j hj
  simp only [reload, h j hj]
  split <;> rfl

/-- What is to be seen of the regions with ids below `n` is so of all. -/
theorem stored_of {w : World Nat} {k n : Nat} (h : ∀ j, n ≤ j → w j = none)
    (hb : ((List.range n).all fun j => (w j).elim true fun r => !decide (Covers r.info k) || decide (k ∈ r.rows)) = true) :
    Stored k w := by
  intro j r hr hc
  by_cases hj : n ≤ j
  · rw [h j hj] at hr; cases hr
  · have := List.all_eq_true.1 hb j (by simp; omega)
    rw [hr] at this
    simpa [hc] using this

/-- Two regions: keys from 1, and from 100. -/
def two (a b : List Nat) : World Nat := fun j =>
  if j = 1 then some ⟨⟨1, 1, 1, 100⟩, a, [], none⟩ else if j = 2 then some ⟨⟨2, 1, 100, 0⟩, b, [], none⟩ else none

def twoInfos : List (Info Nat) := [⟨1, 1, 1, 100⟩, ⟨2, 1, 100, 0⟩]

theorem two_none (a b : List Nat) : ∀ j, 6 ≤ j → two a b j = none := fun j hj => by
  simp only [two]; rw [if_neg (by omega), if_neg (by omega)]

theorem two_created {a b : List Nat} (ha : a.Nodup) (hb : b.Nodup) (ha' : ∀ x ∈ a, 1 ≤ x ∧ x < 100) (hb' : ∀ x ∈ b, 100 ≤ x) :
    Created (two a b) := by
  intro j r hr
  simp only [two] at hr
  split at hr
  · cases hr
    exact ⟨by simp [*], ha, fun x hx => ⟨(ha' x hx).1, .inr (ha' x hx).2⟩, (.inr (by show (1:Nat) < 100; decide)), rfl⟩
  · split at hr
    · cases hr
      exact ⟨by simp [*], hb, fun x hx => ⟨hb' x hx, .inl rfl⟩, .inl rfl, rfl⟩
    · cases hr

theorem two_disjoint : Spec.Disjoint twoInfos := by
  simp only [Spec.Disjoint, twoInfos, List.pairwise_cons, List.mem_singleton, forall_eq, List.not_mem_nil, false_implies,
    implies_true, List.Pairwise.nil, and_true]
  rintro x ⟨⟨_, h1⟩, ⟨h2, _⟩⟩
  rcases h1 with h1 | h1
  · cases h1
  · exact absurd h2 (by simp only at *; omega)

theorem two_known (a b : List Nat) : ∀ i ∈ twoInfos, Known (two a b) (two a b) i := by
  intro i hi
  refine ⟨_, .refl _, .refl _, ?_⟩
  simp only [twoInfos, List.mem_cons, List.not_mem_nil, or_false] at hi
  rcases hi with rfl | rfl <;> rfl

/-! ## Splits during a query -/

/-- Region 1 splits at 20 and 50, and then its new region 4 at 70. -/
def w1 : World Nat := split (two [10, 30, 60, 80] [200]) 1 [(3, 20), (4, 50)]
def w2 : World Nat := split w1 4 [(5, 70)]

theorem splits1 : Splits (two [10, 30, 60, 80] [200]) 1 [(3, 20), (4, 50)] :=
  ⟨⟨_, rfl, by simp⟩, by simp, by simp, by simp [two], by simp⟩

theorem splits2 : Splits w1 4 [(5, 70)] := ⟨⟨_, rfl, by simp⟩, by simp, by simp, by simp; decide +kernel, by simp⟩

/-- The second region is asked, then the first splits twice. -/
def c1 : Client Nat := ((Client.start twoInfos).send (two [10, 30, 60, 80] [200]) 1).arrive 0
/-- Then the other requests are answered. -/
def c2 : Client Nat :=
  (((((((((c1.send w2 0).send w2 0).send w2 0).send w2 0).send w2 0).send w2 0).arrive 1).arrive 0).arrive 0).arrive 0

theorem run2 : Run (KeepChange 80) (fun _ => True) (two [10, 30, 60, 80] [200]) (Client.start twoInfos) w2 c2 :=
  .arrive 0 (.arrive 0 (.arrive 0 (.arrive 1 (.send 0 (.send 0 (.send 0 (.send 0 (.send 0 (.send 0
    (.change (.change (.arrive 0 (.send 1 (.start trivial))) (.split splits1) trivial) (.split splits2) trivial))))))))))

theorem finished2 : Finished c2 := by unfold Finished; decide +kernel

/-- The hypotheses of `C64_exactly_once` are met: 80, which has moved twice, is returned once. -/
example : c2.failed = false ∧ c2.result.count 80 = 1 := by
  have := C64_exactly_once (two_created (by decide) (by decide) (by decide) (by decide)) (.refl _) (two_known _ _)
    two_disjoint (stored_of (two_none _ _) (by decide +kernel)) run2 finished2
  simpa [twoInfos, Covers] using this

example : c2.result.Perm [10, 30, 60, 80, 200] := by decide +kernel

/-! ## Merges -/

/-- A region without rows between two others has been merged into the one after it. -/
def empty1 : World Nat := two [] [150, 200]

theorem merges1 : Merges empty1 1 2 := ⟨by decide, _, _, rfl, rfl, rfl, by decide, by decide, rfl⟩

/-- Both regions are asked with what was known before; 150 is returned once, though region 2 is asked twice. -/
def c3 : Client Nat :=
  let w := mergeInto empty1 1 2
  (((((((Client.start twoInfos).send w 0).send w 0).send w 0).send w 0).arrive 0).arrive 0)

theorem quiet3 : Quiet (mergeInto empty1 1 2) (Client.start twoInfos) c3 :=
  .arrive 0 (.arrive 0 (.send 0 (.send 0 (.send 0 (.send 0 .start)))))

example : c3.failed = false ∧ c3.result.count 150 = 1 := by
  refine C64_merged (j0 := 2) (two_created (by decide) (by decide) (by decide) (by decide)) (.refl _) merges1 ?_ ?_ ?_ quiet3
    (by unfold Finished; decide +kernel)
  · intro i hi
    simp only [twoInfos, List.mem_cons, List.not_mem_nil, or_false] at hi
    rcases hi with rfl | rfl <;> rfl
  · intro j r hr
    simp only [two] at hr
    split at hr
    · cases hr; simp [*]
    · split at hr
      · cases hr; simp [*]
      · cases hr
  · exact ⟨⟨2, 1, 100, 0⟩, by simp [twoInfos], rfl⟩

/-- Region 1 splits at 20 and then at 10, and what is left of it is merged into the region of [10, 20). -/
def m1 : World Nat := split (two [60] [200]) 1 [(3, 20)]
def m2 : World Nat := split m1 1 [(4, 10)]
def m3 : World Nat := mergeInto m2 1 4

def c4 : Client Nat := ((((((Client.start twoInfos).send m3 0).send m3 0).send m3 0).arrive 0).arrive 0)

/-- A merged region names only the region it was merged into, not those split off it before: the rows of a region are lost
without an error, if it was split twice and then merged and the SQL node does not know. -/
theorem C64_stale_merge_counterexample : ∃ (w0 w : World Nat) (infos : List (Info Nat)) (c : Client Nat) (k : Nat), Created w0 ∧
    (∀ i ∈ infos, Known w0 w0 i) ∧ Spec.Disjoint infos ∧ (∃ i ∈ infos, Covers i k) ∧
    Run MergeChange (Stored k) w0 (Client.start infos) w c ∧ Finished c ∧ c.failed = false ∧ c.result.count k = 0 := by
  have h0 := two_none [60] [200]
  have h1 : ∀ j, 6 ≤ j → m1 j = none := split_none h0 (by decide) (by decide)
  have h2 : ∀ j, 6 ≤ j → m2 j = none := split_none h1 (by decide) (by decide)
  have h3 : ∀ j, 6 ≤ j → m3 j = none := merge_none h2 (by decide) (by decide)
  refine ⟨two [60] [200], m3, twoInfos, c4, 60, two_created (by decide) (by decide) (by decide) (by decide), two_known _ _,
    two_disjoint, ⟨⟨1, 1, 1, 100⟩, by simp [twoInfos], by decide⟩, ?_, by unfold Finished; decide +kernel, by decide +kernel,
    by decide +kernel⟩
  exact .arrive 0 (.arrive 0 (.send 0 (.send 0 (.send 0
    (.change (.change (.change (.start (stored_of h0 (by decide +kernel)))
      (.change (.split ⟨⟨_, rfl, by simp⟩, by simp, by simp, by simp [two], by simp⟩)) (stored_of h1 (by decide +kernel)))
      (.change (.split ⟨⟨_, rfl, by decide +kernel⟩, by simp, by simp, by decide +kernel, by simp⟩))
        (stored_of h2 (by decide +kernel)))
      (.merge ⟨by decide, _, _, rfl, rfl, by decide +kernel, by decide +kernel, by decide +kernel, by decide +kernel⟩)
      (stored_of h3 (by decide +kernel)))))))

/-- Region 2 splits at 170 and the empty region 1 is merged into what is left of it. -/
def q1 : World Nat := split empty1 2 [(3, 170)]
def q2 : World Nat := mergeInto q1 1 2

/-- Region 2 is read before, region 1 after: it leads to region 2, whose new batch replaces the old one. -/
def c5 : Client Nat := (((((Client.start twoInfos).send empty1 1).arrive 0).send q2 0).send q2 0).arrive 0

theorem q_none : (∀ j, 6 ≤ j → q1 j = none) ∧ ∀ j, 6 ≤ j → q2 j = none :=
  ⟨split_none (two_none _ _) (by decide) (by decide),
    merge_none (split_none (two_none _ _) (by decide) (by decide)) (by decide) (by decide)⟩

/-- Rows are lost, without an error, if a region that has been read splits and then the region before it is merged into it. -/
theorem C64_merge_during_counterexample : ∃ (w0 w : World Nat) (infos : List (Info Nat)) (c : Client Nat) (k : Nat), Created w0 ∧
    (∀ i ∈ infos, Known w0 w0 i) ∧ Spec.Disjoint infos ∧ (∃ i ∈ infos, Covers i k) ∧
    Run MergeChange (Stored k) w0 (Client.start infos) w c ∧ Finished c ∧ c.failed = false ∧ c.result.count k = 0 := by
  refine ⟨empty1, q2, twoInfos, c5, 200, two_created (by decide) (by decide) (by decide) (by decide), two_known _ _,
    two_disjoint, ⟨⟨2, 1, 100, 0⟩, by simp [twoInfos], by decide⟩, ?_, by unfold Finished; decide +kernel, by decide +kernel,
    by decide +kernel⟩
  exact .arrive 0 (.send 0 (.send 0
    (.change (.change (.arrive 0 (.send 1 (.start (stored_of (two_none _ _) (by decide +kernel)))))
      (.change (.split ⟨⟨_, rfl, by simp⟩, by simp, by simp, by decide +kernel, by simp⟩)) (stored_of q_none.1 (by decide +kernel)))
      (.merge ⟨by decide, _, _, rfl, rfl, by decide +kernel, by decide +kernel, by decide +kernel, by decide +kernel⟩)
      (stored_of q_none.2 (by decide +kernel)))))

/-- The empty region 1 is merged into region 2, and then region 2 splits at 170. -/
def p1 : World Nat := mergeInto empty1 1 2
def p2 : World Nat := split p1 2 [(3, 170)]

/-- Region 2 is read; region 1 leads to region 2, which by then has split; the first answer arrives last. -/
def c6 : Client Nat :=
  ((((((((Client.start twoInfos).send empty1 1).send p1 0).send p2 0).send p2 0).send p2 0).arrive 2).arrive 1).arrive 0

/-- Rows are returned twice, if a region that has been read is asked again because of a merge and splits. -/
theorem C64_merge_twice_counterexample : ∃ (w0 w : World Nat) (infos : List (Info Nat)) (c : Client Nat) (k : Nat), Created w0 ∧
    (∀ i ∈ infos, Known w0 w0 i) ∧ Spec.Disjoint infos ∧ (∃ i ∈ infos, Covers i k) ∧
    Run MergeChange (Stored k) w0 (Client.start infos) w c ∧ Finished c ∧ c.failed = false ∧ c.result.count k = 2 := by
  have h1 : ∀ j, 6 ≤ j → p1 j = none := merge_none (two_none _ _) (by decide) (by decide)
  have h2 : ∀ j, 6 ≤ j → p2 j = none := split_none h1 (by decide) (by decide)
  refine ⟨empty1, p2, twoInfos, c6, 200, two_created (by decide) (by decide) (by decide) (by decide), two_known _ _,
    two_disjoint, ⟨⟨2, 1, 100, 0⟩, by simp [twoInfos], by decide⟩, ?_, by unfold Finished; decide +kernel, by decide +kernel,
    by decide +kernel⟩
  exact .arrive 0 (.arrive 1 (.arrive 2 (.send 0 (.send 0 (.send 0
    (.change (.send 0 (.change (.send 1 (.start (stored_of (two_none _ _) (by decide +kernel)))) (.merge merges1)
      (stored_of h1 (by decide +kernel))))
      (.change (.split ⟨⟨_, rfl, by decide +kernel⟩, by simp, by simp, by decide +kernel, by simp⟩))
      (stored_of h2 (by decide +kernel))))))))

/-! ## A replica that loads a snapshot -/

/-- Region 1 splits at 50, the replica loads a snapshot, and region 1 splits at 20. -/
def s1 : World Nat := split (two [10, 60] [200]) 1 [(3, 50)]
def s2 : World Nat := reload s1 1 1
def s3 : World Nat := split s2 1 [(4, 20)]

def c7 : Client Nat :=
  (((((((Client.start twoInfos).send s3 0).send s3 0).send s3 0).send s3 0).arrive 0).arrive 0).arrive 0

/-- A region whose replica has forgotten a split does not name the new region of that split, though it names those of later
splits: rows are lost without an error. -/
theorem C64_reload_counterexample : ∃ (w0 w : World Nat) (infos : List (Info Nat)) (c : Client Nat) (k : Nat), Created w0 ∧
    (∀ i ∈ infos, Known w0 w0 i) ∧ Spec.Disjoint infos ∧ (∃ i ∈ infos, Covers i k) ∧
    Run ReloadChange (Stored k) w0 (Client.start infos) w c ∧ Finished c ∧ c.failed = false ∧ c.result.count k = 0 := by
  have h0 := two_none [10, 60] [200]
  have h1 : ∀ j, 6 ≤ j → s1 j = none := split_none h0 (by decide) (by decide)
  have h2 : ∀ j, 6 ≤ j → s2 j = none := reload_none h1
  have h3 : ∀ j, 6 ≤ j → s3 j = none := split_none h2 (by decide) (by decide)
  refine ⟨two [10, 60] [200], s3, twoInfos, c7, 60, two_created (by decide) (by decide) (by decide) (by decide), two_known _ _,
    two_disjoint, ⟨⟨1, 1, 1, 100⟩, by simp [twoInfos], by decide⟩, ?_, by unfold Finished; decide +kernel, by decide +kernel,
    by decide +kernel⟩
  exact .arrive 0 (.arrive 0 (.arrive 0 (.send 0 (.send 0 (.send 0 (.send 0
    (.change (.change (.change (.start (stored_of h0 (by decide +kernel)))
      (.change (.split ⟨⟨_, rfl, by simp⟩, by simp, by simp, by decide +kernel, by simp⟩)) (stored_of h1 (by decide +kernel)))
      (.reload 1 1) (stored_of h2 (by decide +kernel)))
      (.change (.split ⟨⟨_, rfl, by decide +kernel⟩, by simp, by simp, by decide +kernel, by simp⟩))
      (stored_of h3 (by decide +kernel)))))))))

end BaikalDB.Fetch
