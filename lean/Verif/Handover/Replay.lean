import Verif.Handover.Apply
import Mathlib.Data.List.Nodup

/-!
# The transactions that were open at the snapshot
-/

namespace BaikalDB.Handover

open Spec

/-- The entries of transaction `t`. -/
def own (t : Nat) (l : List Entry) : List Entry := l.filter fun e => of e == some t

theorem own_append (t : Nat) (l m : List Entry) : own t (l ++ m) = own t l ++ own t m := by
  simp [own]

theorem own_self {t : Nat} {e : Entry} (h : of e = some t) : own t [e] = [e] := by
  simp [own, h]

theorem own_ne {t : Nat} {e : Entry} (h : of e ≠ some t) : own t [e] = [] := by
  simp [own, h]

theorem own_cons (t : Nat) (e : Entry) (l : List Entry) : own t (e :: l) = own t [e] ++ own t l :=
  own_append t [e] l

theorem any_own {t : Nat} {f : Entry → Bool} (hf : ∀ e, of e ≠ some t → f e = false)
    (l : List Entry) : (own t l).any f = l.any f := by
  induction l with
  | nil => rfl
  | cons e l ih =>
    rw [own_cons, List.any_append, ih, List.any_cons]
    by_cases h : of e = some t
    · rw [own_self h]; simp
    · rw [own_ne h, hf e h]; simp

theorem seen_own (t : Nat) (l : List Entry) : seen t (own t l) = seen t l :=
  any_own (fun e h => by simpa using h) l

theorem ended_own (t : Nat) (l : List Entry) : ended t (own t l) = ended t l :=
  any_own (fun _ h => of_ne_ends h) l

theorem prepared_own (t : Nat) (l : List Entry) : prepared t (own t l) = prepared t l :=
  any_own (fun e h => by simpa [prepared] using of_ne_prepared h) l

theorem isOpen_own (t : Nat) (l : List Entry) : isOpen t (own t l) = isOpen t l := by
  simp only [isOpen, seen_own, ended_own]

theorem ops_own (t : Nat) (l : List Entry) : ops t (own t l) = ops t l := by
  induction l with
  | nil => rfl
  | cons e l ih =>
    have h1 : ∀ a b, ops t (a ++ b) = ops t a ++ ops t b := by simp [ops]
    rw [own_cons, h1, ih, show e :: l = [e] ++ l from rfl, h1]
    by_cases h : of e = some t
    · rw [own_self h]
    · rw [own_ne h, of_ne_ops h]; rfl

theorem lastSeq_own (t : Nat) (l : List Entry) : lastSeq t (own t l) = lastSeq t l := by
  have : (own t l).filterMap (number t) = l.filterMap (number t) := by
    induction l with
    | nil => rfl
    | cons e l ih =>
      rw [own_cons, List.filterMap_append, ih, show e :: l = [e] ++ l from rfl,
        List.filterMap_append]
      by_cases h : of e = some t
      · rw [own_self h]
      · rw [own_ne h]; simp [of_ne_number h]
  simp only [lastSeq, this]

/-- What may follow depends only on the entries of the transaction. -/
theorem follows_own {t : Nat} {p q : List Entry} (h : own t p = own t q) {e : Entry}
    (he : of e = some t) (hf : Follows p e) : Follows q e := by
  have h1 : ended t q = ended t p := by rw [← ended_own, ← h, ended_own]
  have h2 : prepared t q = prepared t p := by rw [← prepared_own, ← h, prepared_own]
  have h3 : lastSeq t q = lastSeq t p := by rw [← lastSeq_own, ← h, lastSeq_own]
  cases e <;> simp only [of, Option.some.injEq, reduceCtorEq] at he
  all_goals (subst he; simp_all [Follows])

theorem valid_own {t : Nat} {p q l : List Entry} (h : own t p = own t q) (hv : ValidFrom p l) :
    ValidFrom q (own t l) := by
  induction l generalizing p q with
  | nil => trivial
  | cons e l ih =>
    rw [own_cons]
    by_cases he : of e = some t
    · rw [own_self he]
      refine ⟨follows_own h he hv.1, ih ?_ hv.2⟩
      rw [own_append, own_append, h]
    · rw [own_ne he]
      refine ih ?_ hv.2
      rw [own_append, own_ne he, List.append_nil, h]

theorem own_part (t : Nat) (s : Op → Bool) (l : List Entry) :
    own t (l.map (part s)) = (own t l).map (part s) := by
  induction l with
  | nil => rfl
  | cons e l ih =>
    rw [List.map_cons, own_cons, ih, own_cons t e, List.map_append]
    congr 1
    have hp : of (part s e) = of e := by cases e <;> rfl
    by_cases h : of e = some t
    · rw [own_self (hp.trans h), own_self h]; rfl
    · rw [own_ne (by rwa [hp]), own_ne h]; rfl

/-- The transactions are determined by the entries of each one. -/
theorem match_own {p q : List Entry} {r : Region} (hm : Match p r)
    (ho : ∀ t, isOpen t q = isOpen t p) (h : ∀ t, isOpen t q = true → own t q = own t p) :
    Match q r := by
  intro t
  rw [hm t, ho t]
  by_cases hop : isOpen t p = true
  · have := h t (by rw [ho, hop])
    rw [if_pos hop, if_pos hop, ← lastSeq_own, ← this, lastSeq_own, ← ops_own, ← this, ops_own,
      ← prepared_own, ← this, prepared_own]
  · rw [if_neg hop, if_neg hop]

/-! ## The cached commands -/

/-- The command of an entry of transaction `t`. -/
def cmdOf (t : Nat) : Entry → Option (Nat × Cmd)
  | .stmt u s o => if u = t then some (s, .batch o) else none
  | .prepare u s => if u = t then some (s, .prepare) else none
  | _ => none

/-- The commands of a transaction. -/
def cmds (t : Nat) (h : List Entry) : List (Nat × Cmd) := (1, .begin) :: h.filterMap (cmdOf t)

/-- The region has cached what the history says. -/
def Cached (h : List Entry) (r : Region) : Prop := ∀ t x, r.txns t = some x → x.cache = cmds t h

theorem of_ne_cmdOf {t : Nat} {e : Entry} (h : of e ≠ some t) : cmdOf t e = none := by
  cases e <;> simp_all [of, cmdOf]

theorem cmds_snoc (t : Nat) (h : List Entry) (e : Entry) :
    cmds t (h ++ [e]) = cmds t h ++ (cmdOf t e).toList := by
  cases hc : cmdOf t e <;> simp [cmds, hc]

theorem unseen_cmds {t : Nat} {h : List Entry} (hs : seen t h = false) :
    cmds t h = [(1, .begin)] := by
  have : h.filterMap (cmdOf t) = [] := by
    rw [List.filterMap_eq_nil_iff]
    intro e he
    simp only [seen, List.any_eq_false] at hs
    exact of_ne_cmdOf (by simpa using hs e he)
  simp [cmds, this]

theorem cached_getD {h : List Entry} {r : Region} (hm : Match h r) (hc : Cached h r) {t : Nat}
    (he : ended t h = false) : ((r.txns t).getD newTxn).cache = cmds t h := by
  cases hs : seen t h with
  | true =>
    obtain ⟨x, hx, -⟩ := hm.isSome (t := t) (by simp [isOpen, hs, he])
    rw [hx]
    exact hc t x hx
  | false =>
    rw [hm.isNone (t := t) (by simp [isOpen, hs]), unseen_cmds hs]
    rfl

theorem cached_other {h : List Entry} {r : Region} (hc : Cached h r) {e : Entry} {t : Nat}
    (hne : of e ≠ some t) {x : Txn} (hx : r.txns t = some x) : x.cache = cmds t (h ++ [e]) := by
  rw [cmds_snoc, of_ne_cmdOf hne, hc t x hx]
  simp

theorem cached_step {h : List Entry} {r : Region} (hm : Match h r) (hc : Cached h r) {e : Entry}
    (hf : Follows h e) : Cached (h ++ [e]) (r.apply e) := by
  intro u x hx
  cases e with
  | write os => exact cached_other hc (by simp [of]) hx
  | conf => exact cached_other hc (by simp [of]) hx
  | admin => exact cached_other hc (by simp [of]) hx
  | stmt t s os =>
    by_cases hu : u = t
    · subst hu
      obtain ⟨h1, -⟩ := hm.getD hf.1
      have hlt : ¬ s ≤ ((r.txns u).getD newTxn).seq := by rw [h1]; exact Nat.not_le.2 hf.2.2
      simp only [Region.apply, upd_same, if_neg hlt, Option.some.injEq] at hx
      subst hx
      simp [cmds_snoc, cached_getD hm hc hf.1, cmdOf]
    · refine cached_other hc (by simp [of]; omega) ?_
      simpa [Region.apply, upd_ne _ hu] using hx
  | prepare t s =>
    by_cases hu : u = t
    · subst hu
      obtain ⟨h1, -⟩ := hm.getD hf.1
      have hlt : ¬ s ≤ ((r.txns u).getD newTxn).seq := by rw [h1]; exact Nat.not_le.2 hf.2.2
      simp only [Region.apply, upd_same, if_neg hlt, Option.some.injEq] at hx
      subst hx
      simp [cmds_snoc, cached_getD hm hc hf.1, cmdOf]
    · refine cached_other hc (by simp [of]; omega) ?_
      simpa [Region.apply, upd_ne _ hu] using hx
  | commit t =>
    cases ht : r.txns t with
    | none =>
      simp only [Region.apply, ht] at hx
      by_cases hu : u = t
      · subst hu; simp_all
      · exact cached_other hc (by simp [of]; omega) hx
    | some y =>
      simp only [Region.apply, ht] at hx
      by_cases hu : u = t
      · subst hu; simp [upd_same] at hx
      · exact cached_other hc (by simp [of]; omega) (by simpa [upd_ne _ hu] using hx)
  | rollback t =>
    by_cases hu : u = t
    · subst hu; simp [Region.apply, upd_same] at hx
    · exact cached_other hc (by simp [of]; omega) (by simpa [Region.apply, upd_ne _ hu] using hx)

theorem cached_all {h : List Entry} {r : Region} (hm : Match h r) (hc : Cached h r)
    (hvr : r.version ≠ 0) (l : List Entry) (hv : ValidFrom h l) :
    Cached (h ++ l) (r.applyAll l) := by
  induction l generalizing h r with
  | nil => rw [List.append_nil]; exact hc
  | cons e l ih =>
    obtain ⟨h1, -, h3, -⟩ := apply_step hm hv.1
    rw [eff_serving hvr] at h1
    have := ih h1 (cached_step hm hc hv.1) (by rw [h3]; exact hvr) hv.2
    rw [List.append_assoc] at this
    exact this

/-! ## What is sent for them -/

theorem foldl_max_le (l : List Nat) (a : Nat) : a ≤ l.foldl max a ∧ ∀ x ∈ l, x ≤ l.foldl max a := by
  induction l generalizing a with
  | nil => simp
  | cons y l ih =>
    obtain ⟨h1, h2⟩ := ih (max a y)
    refine ⟨Nat.le_trans (Nat.le_max_left a y) h1, ?_⟩
    intro x hx
    rcases List.mem_cons.1 hx with rfl | hx
    · exact Nat.le_trans (Nat.le_max_right a x) h1
    · exact h2 x hx

theorem cmds_le {t : Nat} {h : List Entry} {c : Nat × Cmd} (hc : c ∈ cmds t h) :
    c.1 ≤ lastSeq t h := by
  obtain ⟨h1, h2⟩ := foldl_max_le (h.filterMap (number t)) 1
  rcases List.mem_cons.1 hc with rfl | hc
  · exact h1
  · rw [List.mem_filterMap] at hc
    obtain ⟨e, he, hce⟩ := hc
    refine h2 _ (List.mem_filterMap.2 ⟨e, he, ?_⟩)
    cases e <;> simp only [cmdOf, reduceCtorEq] at hce
    all_goals
      split at hce
      · simp only [Option.some.injEq] at hce; subst hce; simp_all [number]
      · simp at hce

/-- The requests for the commands are the entries they came with. -/
theorem replay_cmds {t : Nat} {h : List Entry} (he : ended t h = false) :
    (cmds t h).filterMap (replayCmd t) = own t h := by
  show ((1, Cmd.begin) :: h.filterMap (cmdOf t)).filterMap (replayCmd t) = own t h
  rw [List.filterMap_cons]
  show (h.filterMap (cmdOf t)).filterMap (replayCmd t) = own t h
  induction h with
  | nil => rfl
  | cons e h ih =>
    have he' : ends t e = false ∧ ended t h = false := by simpa [ended] using he
    have ih := ih he'.2
    rw [own_cons, ← ih]
    by_cases hof : of e = some t
    · rw [own_self hof]
      cases e <;> simp only [of, Option.some.injEq, reduceCtorEq] at hof
      all_goals first
        | (subst hof; simp [cmdOf, replayCmd]; done)
        | (subst hof; simp [ends] at he')
    · rw [own_ne hof, List.filterMap_cons, of_ne_cmdOf hof]
      rfl

theorem filter_all {α : Type} {f : α → Bool} {l : List α} (h : ∀ x ∈ l, f x = true) :
    l.filter f = l := List.filter_eq_self.2 h

theorem filter_none {α : Type} {f : α → Bool} {l : List α} (h : ∀ x ∈ l, f x = false) :
    l.filter f = [] := List.filter_eq_nil_iff.2 fun x hx => by simp [h x hx]

theorem cmds_two {t : Nat} {h : List Entry} (ho : isOpen t h = true) : 2 ≤ (cmds t h).length := by
  simp only [isOpen, Bool.and_eq_true, Bool.not_eq_true', seen, List.any_eq_true] at ho
  obtain ⟨⟨e, hm, hof⟩, he⟩ := ho
  have hne : ends t e = false := by
    simp only [ended, List.any_eq_false] at he
    simpa using he e hm
  have : (cmdOf t e).isSome := by
    cases e <;> simp_all [of, cmdOf, ends]
  obtain ⟨c, hc⟩ := Option.isSome_iff_exists.1 this
  have hmem : c ∈ h.filterMap (cmdOf t) := List.mem_filterMap.2 ⟨e, hm, hc⟩
  have := List.length_pos_of_mem hmem
  simp [cmds]; omega

/-- What is sent for one transaction. -/
theorem replay_one {h : List Entry} {r : Region} (hm : Match h r) (hc : Cached h r)
    {pend : Nat → List (Nat × Cmd)} {t : Nat}
    (hp : ∀ c ∈ pend t, (if isOpen t h then lastSeq t h else 0) < c.1) :
    ((planInfos (leaderCache r pend t) (appliedSeq r t) false).getD []).filterMap (replayCmd t) =
      if isOpen t h then own t h else [] := by
  by_cases ho : isOpen t h = true
  · obtain ⟨x, hx, h1, -⟩ := hm.isSome ho
    have hca : leaderCache r pend t = cmds t h ++ pend t := by
      simp [leaderCache, hx, hc t x hx]
    have hap : appliedSeq r t = lastSeq t h := by simp [appliedSeq, hx, h1]
    have hpl : (cmds t h ++ pend t).filter (fun c => decide (c.1 ≤ lastSeq t h)) = cmds t h := by
      rw [List.filter_append, filter_all, filter_none, List.append_nil]
      · intro c hcp
        have := hp c hcp
        rw [if_pos ho] at this
        simpa using this
      · intro c hcc
        simpa using cmds_le hcc
    have hlen : ¬ (cmds t h ++ pend t).length < 2 := by
      have := cmds_two ho
      simp; omega
    have hne : (cmds t h).isEmpty = false := rfl
    rw [if_pos ho, hca, hap, planInfos, if_neg hlen]
    simp only [Bool.false_eq_true, if_false, hpl, hne, Option.getD_some]
    exact replay_cmds (by simp [isOpen] at ho; exact ho.2)
  · have hn := hm.isNone (t := t) (by simpa using ho)
    have hap : appliedSeq r t = 0 := by simp [appliedSeq, hn]
    have hpl : (leaderCache r pend t).filter (fun c => decide (c.1 ≤ 0)) = [] := by
      refine filter_none fun c hcc => ?_
      simp only [leaderCache, hn, Option.getD_none, newTxn, List.cons_append, List.nil_append,
        List.mem_cons] at hcc
      rcases hcc with rfl | hcc
      · rfl
      · have := hp c hcc
        rw [if_neg ho] at this
        simp; omega
    rw [if_neg ho, hap]
    unfold planInfos
    split
    · rfl
    · simp only [Bool.false_eq_true, if_false, hpl, List.isEmpty_nil, if_true]
      rfl

/-- What is sent for the open transactions. -/
theorem replay_eq {h : List Entry} {r : Region} (hm : Match h r) (hc : Cached h r)
    {pend : Nat → List (Nat × Cmd)} {ids : List Nat}
    (hp : ∀ t, ∀ c ∈ pend t, (if isOpen t h then lastSeq t h else 0) < c.1) :
    replay r pend ids = ids.flatMap fun t => if isOpen t h then own t h else [] := by
  unfold replay
  induction ids with
  | nil => rfl
  | cons t ids ih => rw [List.flatMap_cons, List.flatMap_cons, ih, replay_one hm hc (hp t)]

theorem own_own (t u : Nat) (h : List Entry) : own t (own u h) = if t = u then own t h else [] := by
  unfold own
  rw [List.filter_filter]
  split
  · subst t; simp
  · rename_i hne
    refine filter_none fun e _ => ?_
    cases ho : of e with
    | none => simp
    | some v =>
      simp only [Option.some_beq_some, Bool.and_eq_false_iff]
      by_cases hv : v = t
      · right; simp; omega
      · left; simpa using hv

/-- The open transactions, one after the other. -/
def openLog (h : List Entry) (ids : List Nat) : List Entry :=
  ids.flatMap fun t => if isOpen t h then own t h else []

theorem own_openLog {h : List Entry} {ids : List Nat} (hnd : ids.Nodup) (t : Nat) :
    own t (openLog h ids) = if t ∈ ids ∧ isOpen t h = true then own t h else [] := by
  induction ids with
  | nil => simp [openLog, own]
  | cons u ids ih =>
    have ih := ih (List.nodup_cons.1 hnd).2
    have hu := (List.nodup_cons.1 hnd).1
    have hc : openLog h (u :: ids) = (if isOpen u h then own u h else []) ++ openLog h ids := by
      simp [openLog]
    rw [hc, own_append, ih]
    by_cases htu : t = u
    · subst htu
      rw [if_neg (by simp [hu] : ¬ (t ∈ ids ∧ isOpen t h = true)), List.append_nil]
      by_cases ho : isOpen t h = true
      · rw [if_pos ho, own_own, if_pos rfl, if_pos (by simp [ho])]
      · rw [if_neg ho, if_neg (by simp [ho])]; rfl
    · have h1 : own t (if isOpen u h then own u h else []) = [] := by
        split
        · rw [own_own, if_neg htu]
        · rfl
      rw [h1, List.nil_append]
      simp [htu]

theorem valid_openLog {h : List Entry} (hv : Valid h) {p : List Entry} {ids : List Nat}
    (hnd : ids.Nodup) (hp : ∀ t ∈ ids, own t p = []) : ValidFrom p (openLog h ids) := by
  induction ids generalizing p with
  | nil => trivial
  | cons u ids ih =>
    have hu := List.nodup_cons.1 hnd
    have hc : openLog h (u :: ids) = (if isOpen u h then own u h else []) ++ openLog h ids := by
      simp [openLog]
    rw [hc, validFrom_append]
    constructor
    · split
      · exact valid_own (p := []) (by rw [hp u (by simp)]; rfl) hv
      · trivial
    · refine ih hu.2 fun t ht => ?_
      rw [own_append, hp t (by simp [ht]), List.nil_append]
      split
      · rw [own_own, if_neg (by rintro rfl; exact hu.1 ht)]
      · rfl

theorem dataFrom_quiet {p l : List Entry} (h : ∀ e ∈ l, ∀ q d, effect q e d = d) (d : Data) :
    dataFrom p d l = d := by
  induction l generalizing p d with
  | nil => rfl
  | cons e l ih =>
    show dataFrom (p ++ [e]) (effect p e d) l = d
    rw [h e (by simp)]
    exact ih (fun x hx => h x (by simp [hx])) d

theorem openLog_quiet {h : List Entry} {ids : List Nat} {e : Entry} (he : e ∈ openLog h ids) :
    (∀ o, e ≠ .write o) ∧ ∀ t, e ≠ .commit t := by
  simp only [openLog, List.mem_flatMap] at he
  obtain ⟨u, -, he⟩ := he
  split at he
  · rename_i ho
    simp only [own, List.mem_filter] at he
    have hne : ends u e = false := by
      simp only [isOpen, Bool.and_eq_true, Bool.not_eq_true'] at ho
      have := ho.2
      simp only [ended, List.any_eq_false] at this
      simpa using this e he.1
    refine ⟨?_, ?_⟩
    · rintro o rfl; simp [of] at he
    · rintro t rfl
      simp [of] at he
      simp [ends, he.2] at hne
  · simp at he

/-- After the copy and the open transactions the new region has the history of the old one up to
the snapshot, with its own part of every batch. -/
theorem replay_match {A : List Entry} (hv : Valid A) {old : Region} (hm : Match A old)
    (hc : Cached A old) {pend : Nat → List (Nat × Cmd)} {ids : List Nat} (hnd : ids.Nodup)
    (hids : ∀ t, isOpen t A = true → t ∈ ids)
    (hp : ∀ t, ∀ c ∈ pend t, (if isOpen t A then lastSeq t A else 0) < c.1) (g : Range) :
    Match (A.map (part (fits g))) ((fresh g old).applyAll (replay old pend ids)) ∧
      ((fresh g old).applyAll (replay old pend ids)).data = copy g old.data ∧
      ((fresh g old).applyAll (replay old pend ids)).version = 0 ∧
      ((fresh g old).applyAll (replay old pend ids)).range = g := by
  have hR : replay old pend ids = openLog A ids := replay_eq hm hc hp
  rw [hR]
  have hmf : Match [] (fresh g old) := match_empty fun _ => rfl
  have heff : (fresh g old).eff = part (fits g) := by funext e; simp [Region.eff, fresh]
  obtain ⟨h1, h2, h3, h4⟩ := applyAll_step hmf (openLog A ids)
    (valid_openLog hv hnd fun _ _ => rfl)
  rw [heff] at h1 h2
  refine ⟨?_, ?_, h3, h4⟩
  · have hop : ∀ l t, isOpen t (l.map (part (fits g))) = isOpen t l := fun l t =>
      (shares_isOpen (shares_any (fits g) l) t).symm
    have hown : ∀ t, isOpen t A = true → own t (openLog A ids) = own t A := fun t ht => by
      rw [own_openLog hnd, if_pos ⟨hids t ht, ht⟩]
    refine match_own h1 (fun t => ?_) (fun t ht => ?_)
    · rw [List.nil_append, hop, hop]
      by_cases ht : isOpen t A = true
      · rw [← isOpen_own t (openLog A ids), hown t ht, isOpen_own]
      · rw [← isOpen_own t (openLog A ids), own_openLog hnd, if_neg (by simp [ht])]
        simpa [isOpen, seen] using ht
    · rw [hop] at ht
      rw [List.nil_append, own_part, own_part, hown t ht]
  · rw [h2]
    refine dataFrom_quiet (fun e he q d => ?_) _
    rw [List.mem_map] at he
    obtain ⟨e', he', rfl⟩ := he
    obtain ⟨g1, g2⟩ := openLog_quiet he'
    cases e' with
    | write o => exact absurd rfl (g1 o)
    | commit t => exact absurd rfl (g2 t)
    | _ => rfl

end BaikalDB.Handover
