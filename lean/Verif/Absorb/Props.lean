import Verif.Absorb.Inv

/-!
C71: the merge of an empty region into its neighbour.
-/

namespace BaikalDB.Absorb

open Spec

/-- Whatever two neighbouring regions and their clients do, before, during and after a merge, as
long as nothing goes wrong (`Clean`): a key that the destination has is read there with its last
committed value, and a key that only the source has is read at the source with its last committed
value. -/
theorem C71_rows {a e : Key} {c : Option Key} {s s' : Sys} {xs : List Step}
    (h : Before a e c s) (hc : CleanRun step s xs) (hr : run s xs = some s') (k : Key) :
    (Covers s'.dst.info k → get s'.dst.rows k = Value s'.acked k) ∧
    (Covers s'.src.info k → ¬ Covers s'.dst.info k → get s'.src.rows k = Value s'.acked k) := by
  have hi := (Inv.init h).run hc hr
  exact ⟨fun hk => get_eq (hi.agreeDst k hk).1, fun hk hk' => get_eq (hi.agreeSrc k hk hk').1⟩

/-- The same for the statements of open transactions: the region has all of them, in their
order. -/
theorem C71_transactions {a e : Key} {c : Option Key} {s s' : Sys} {xs : List Step}
    (h : Before a e c s) (hc : CleanRun step s xs) (hr : run s xs = some s') (k : Key) :
    (Covers s'.dst.info k → Open s'.dst.txns k = Open s'.client k) ∧
    (Covers s'.src.info k → ¬ Covers s'.dst.info k → Open s'.src.txns k = Open s'.client k) := by
  have hi := (Inv.init h).run hc hr
  exact ⟨fun hk => (hi.agreeDst k hk).2, fun hk hk' => (hi.agreeSrc k hk hk').2⟩

/-- At any time every key of the two regions belongs to one of them. -/
theorem C71_every_key {a e : Key} {c : Option Key} {s s' : Sys} {xs : List Step}
    (h : Before a e c s) (hc : CleanRun step s xs) (hr : run s xs = some s') (k : Key)
    (hk : a ≤ k) (hkc : ∀ x, c = some x → k < x) :
    Covers s'.src.info k ∨ Covers s'.dst.info k := by
  have hi := (Inv.init h).run hc hr
  have hd : s'.dst.info.start = a → Covers s'.dst.info k := fun hx =>
    ⟨by rw [hx]; exact hk, fun x hx => hkc x (hi.dstop ▸ hx)⟩
  rcases hi.stage.pre_or with (hp | hp) | hp
  · by_cases hke : k < e
    · left
      refine ⟨by rw [hp.1]; exact hk, fun x hx => ?_⟩
      rw [hp.2.1] at hx
      cases hx
      exact hke
    · right
      exact ⟨by rw [hp.2.2]; exact Nat.not_lt.1 hke, fun x hx => hkc x (hi.dstop ▸ hx)⟩
  · exact Or.inr (hd hp.2.2)
  · exact Or.inr (hd hp.1.2.2)

/-- As long as a key belongs to both regions, the source has no row of it and no statement of an
open transaction on it, and takes no statement. -/
theorem C71_one_writer {a e : Key} {c : Option Key} {s s' : Sys} {xs : List Step}
    (h : Before a e c s) (hc : CleanRun step s xs) (hr : run s xs = some s') (k : Key)
    (h1 : Covers s'.src.info k) (h2 : Covers s'.dst.info k) :
    get s'.src.rows k = none ∧ Open s'.src.txns k = [] ∧
    (∀ q, step s' (.pass q) = none) ∧ (∀ t q, step s' (.stmt true t q) = none) := by
  have hi := (Inv.init h).run hc hr
  rcases hi.stage.pre_or with (hp | hp) | ⟨hp, hd, ht, hseek, _⟩
  · exact absurd h2 (pre_disjoint hp h1)
  · exact absurd h1 (post_none hp k)
  · refine ⟨get_eq (seek_none hp.2.1 hseek (h1.2 e hp.2.1)), by rw [ht]; rfl, ?_, ?_⟩
    · intro q
      simp [step, hd]
    · intro t q
      simp [step, hd]

/-- A merged region turns away every client that believes it to have a key. -/
theorem C71_closed {a e : Key} {c : Option Key} {s s' : Sys} {xs : List Step}
    (h : Before a e c s) (hc : CleanRun step s xs) (hr : run s xs = some s')
    (hm : s'.src.info.stop = some s'.src.info.start) (i : Info) (hv : i ∈ s'.src.views) (k : Key)
    (hk : Covers i k) :
    accepts s'.src i = false ∧ (∀ k, ¬ Covers s'.src.info k) ∧ s'.disabled = false := by
  have hi := (Inv.init h).run hc hr
  have hno : ∀ k, ¬ Covers s'.src.info k := fun k hx =>
    absurd (hx.2 _ hm) (Nat.not_lt.2 hx.1)
  refine ⟨?_, hno, ?_⟩
  · rcases hi.srcViews i hv with rfl | hlt
    · exact absurd hk (hno k)
    · simp [accepts, hlt]
  · have hlt := hi.lt
    have hst := hi.stage
    unfold Stage at hst
    have hcon : s'.src.info.start = a → s'.src.info.stop = some e → False := by
      intro h1 h2
      rw [h1, h2] at hm
      cases hm
      exact Nat.lt_irrefl _ hlt
    split at hst
    · exact hst.1
    · exact (hcon hst.2.2.2.2.1 hst.2.2.2.2.2.1).elim
    · exact (hcon hst.2.2.2.2.1.1 hst.2.2.2.2.1.2.1).elim
    · exact (hcon hst.2.2.2.2.1.1 hst.2.2.2.2.1.2.1).elim
    · exact (hcon hst.2.2.2.2.1.1 hst.2.2.2.2.1.2.1).elim
    · exact (hcon hst.2.2.2.2.1.1 hst.2.2.2.2.1.2.1).elim

/-- In any state, not only in runs in which nothing goes wrong: a merge goes past its checks only
if the source has no committed row below its end key, nothing of it is still in raft, nothing was
applied since the last round, and the destination begins within or right after the source and
does not end before it. -/
theorem C71_only_empty {s s' : Sys} {v n : Nat} (hs : step s .check = some s')
    (hp : s'.phase = .asking v n) {e : Key} (he : s.src.info.stop = some e) :
    (∀ p ∈ s.src.rows, e ≤ p.1) ∧ s.src.queue = [] ∧ s.src.applied = s.lastcycle ∧ n = 0 ∧
    ∃ m, s.phase = .waiting m ∧ v = m.version ∧ s.src.info.start ≤ m.start ∧ m.start ≤ e ∧
      s.src.info.start ≠ e ∧ m.stop ≠ some m.start ∧ ∀ x, m.stop = some x → e ≤ x := by
  simp only [step, check] at hs
  split at hs
  · rename_i m hm
    split at hs
    · rename_i hq
      split at hs
      · cases hs; cases hp
      · rename_i hap
        split at hs
        · cases hs; cases hp
        · rename_i hsk
          split at hs
          · rename_i hf
            cases hs
            cases hp
            refine ⟨?_, hq, not_not.1 hap, rfl, m, hm, rfl, ?_⟩
            · intro p hp
              by_contra hlt
              have : seekLines s.src = 0 := by omega
              have := seek_none (k := p.1) he this (Nat.not_le.1 hlt)
              have := (this p.2).1 hp
              cases this
            · unfold fits at hf
              rw [he] at hf
              simp only [Bool.not_or, Bool.and_eq_true, Bool.not_eq_true',
                decide_eq_false_iff_not, Bool.not_not, Option.some.injEq] at hf
              obtain ⟨⟨⟨⟨f1, f2⟩, f3⟩, f4⟩, f5⟩ := hf
              refine ⟨Nat.not_lt.1 f4, Nat.not_lt.1 f3, fun x => f1 x.symm, f2, ?_⟩
              intro x hx
              rw [hx] at f5
              simpa [endLe] using f5
          · cases hs; cases hp
    · cases hs
  · cases hs

/-- A region that has a row is not merged, nor is one that was written to since the last round. -/
theorem C71_not_merged {a e : Key} {c : Option Key} {s : Sys} (h : Before a e c s) (m : Meta)
    (hw : s.src.applied ≠ s.lastcycle ∨ ∃ k, Covers s.src.info k ∧ Value s.acked k ≠ none) :
    run s [.start m, .check] = some s := by
  have hne : merged s.src = false := by
    unfold merged
    rw [h.src.1, h.src.2, decide_eq_false_iff_not]
    intro x
    cases x
    exact Nat.lt_irrefl _ h.lt
  have hrel : ∀ p : Phase, release { s with phase := p, disabled := true } = s := by
    intro p
    unfold release
    have h1 := h.phase
    have h2 := h.enabled
    cases s
    simp_all
  have h1 : step s (.start m) = some { s with phase := .waiting m, disabled := true } := by
    simp [step, h.phase, h.src.2, hne]
  have h2 : step { s with phase := .waiting m, disabled := true } .check = some s := by
    simp only [step, check, h.srcQueue, if_true]
    by_cases hap : s.src.applied ≠ s.lastcycle
    · rw [if_pos hap]
      exact congrArg some (hrel _)
    · rw [if_neg hap]
      rcases hw with hw | ⟨k, hk, hv⟩
      · exact absurd hw hap
      · have hsk : seekLines s.src > 0 := by
          by_contra h0
          have h0 : seekLines s.src = 0 := by omega
          have hx := seek_none h.src.2 h0 (hk.2 e h.src.2)
          exact hv (holds_unique (h.srcRows k hk).1 hx)
        rw [if_pos hsk]
        exact congrArg some (hrel _)
  simp only [run, h1, h2]

/-- An empty region that was left alone is merged, if the meta server knows its neighbour, also
when the version that the meta server knows is out of date: afterwards the source has no key and
the destination has the keys of both, and both take statements. -/
theorem C71_completes {a e : Key} {c : Option Key} {s : Sys} (h : Before a e c s)
    (hrows : ∀ p ∈ s.src.rows, ¬ p.1 < e) (hap : s.src.applied = s.lastcycle) (v : Nat) :
    ∃ xs s', xs.length ≤ 7 ∧ run s (.start ⟨e, c, v⟩ :: xs) = some s' ∧
      s'.src.info = ⟨a, some a, s.src.info.version + 1⟩ ∧
      s'.dst.info = ⟨a, c, s.dst.info.version + 1⟩ ∧
      s'.phase = .idle ∧ s'.disabled = false ∧ s'.dstDoing = false ∧
      s'.src.queue = [] ∧ s'.dst.queue = [] ∧ s'.dst.rows = s.dst.rows := by
  have hne : merged s.src = false := by
    unfold merged
    rw [h.src.1, h.src.2, decide_eq_false_iff_not]
    intro x
    cases x
    exact Nat.lt_irrefl _ h.lt
  have hfit : fits s.src.info e c = true := by
    unfold fits
    rw [h.src.1, h.src.2]
    have h1 : ¬ (some e = some a) := by
      intro x
      cases x
      exact Nat.lt_irrefl _ h.lt
    have h2 : ¬ (c = some e) := by
      intro x
      exact Nat.lt_irrefl _ (h.ltc e x)
    have h3 : ¬ (e < a) := Nat.not_lt.2 (Nat.le_of_lt h.lt)
    have h4 : endLe (some e) c = true := by
      cases hc : c with
      | none => rfl
      | some x =>
        have := h.ltc x hc
        simpa [endLe] using Nat.le_of_lt this
    simp [h1, h2, h3, h4]
  have hsk : seekLines s.src = 0 := by
    unfold seekLines
    rw [h.src.2, List.length_eq_zero_iff, List.filter_eq_nil_iff]
    intro p hp
    simpa using hrows p hp
  have hae : ¬ (a = e) := fun x => absurd h.lt (x ▸ Nat.lt_irrefl a)
  have h1 : step s (.start ⟨e, c, v⟩) =
      some { s with phase := .waiting ⟨e, c, v⟩, disabled := true } := by
    simp [step, h.phase, h.src.2, hne]
  have h2 : step { s with phase := .waiting ⟨e, c, v⟩, disabled := true } .check =
      some { s with phase := .asking v 0, disabled := true } := by
    simp [step, check, h.srcQueue, hap, hsk, hfit]
  have hrest : ∀ v n, ¬ (v < s.dst.info.version) →
      ∃ s', run { s with phase := .asking v n, disabled := true }
          [.ask, .applyDst, .finish, .applySrc] = some s' ∧
      s'.src.info = ⟨a, some a, s.src.info.version + 1⟩ ∧
      s'.dst.info = ⟨a, c, s.dst.info.version + 1⟩ ∧
      s'.phase = .idle ∧ s'.disabled = false ∧ s'.dstDoing = false ∧
      s'.src.queue = [] ∧ s'.dst.queue = [] ∧ s'.dst.rows = s.dst.rows := by
    intro v n hv
    simp [run, step, ask, applyDst, finish, applySrc, Region.propose, Region.adjust, release, hv,
      h.idle, h.srcQueue, h.dstQueue, h.src.1, h.dst.2]
  by_cases hv : v < s.dst.info.version
  · obtain ⟨s', hs', hrest⟩ := hrest s.dst.info.version 1 (Nat.lt_irrefl _)
    refine ⟨[.check, .ask, .ask, .applyDst, .finish, .applySrc], s', by simp, ?_, hrest⟩
    have h3 : step { s with phase := .asking v 0, disabled := true } .ask =
        some { s with phase := .asking s.dst.info.version 1, disabled := true } := by
      have hfit' := hfit
      simp [step, ask, h.idle, hv, h.dst.1, h.dst.2, hfit, h.src.1, hae]
    rw [run, h1]
    show run _ _ = _
    rw [run, h2]
    show run _ _ = _
    rw [run, h3]
    exact hs'
  · obtain ⟨s', hs', hrest⟩ := hrest v 0 hv
    refine ⟨[.check, .ask, .applyDst, .finish, .applySrc], s', by simp, ?_, hrest⟩
    rw [run, h1]
    show run _ _ = _
    rw [run, h2]
    exact hs'

end BaikalDB.Absorb
