import Verif.Handover.Lemmas

/-!
# A region follows its history

The history of a region is the list of entries it has applied, with the operations it has carried
out.
-/

namespace BaikalDB.Handover

open Spec

/-- An entry with some operations of its batch left out. -/
def part (s : Op → Bool) : Entry → Entry
  | .write os => .write (os.filter s)
  | .stmt t n os => .stmt t n (os.filter s)
  | e => e

/-- The entry as the region carries it out. -/
def Region.eff (r : Region) (e : Entry) : Entry :=
  if r.version = 0 then part (fits r.range) e else e

/-- The transactions of the region are those that are open in the history. -/
def Match (h : List Entry) (r : Region) : Prop :=
  ∀ t, (r.txns t).map (fun x => (x.seq, x.ops, x.prepared)) =
    if isOpen t h then some (lastSeq t h, ops t h, prepared t h) else none

theorem Match.isNone {h : List Entry} {r : Region} (hm : Match h r) {t : Nat}
    (ho : isOpen t h = false) : r.txns t = none := by
  have := hm t
  simpa [ho] using this

theorem Match.isSome {h : List Entry} {r : Region} (hm : Match h r) {t : Nat}
    (ho : isOpen t h = true) : ∃ x, r.txns t = some x ∧ x.seq = lastSeq t h ∧ x.ops = ops t h ∧
      x.prepared = prepared t h := by
  have := hm t
  simp only [ho, if_true, Option.map_eq_some_iff, Prod.mk.injEq] at this
  obtain ⟨x, hx, h1, h2, h3⟩ := this
  exact ⟨x, hx, h1, h2, h3⟩

/-- The transaction an entry continues, or the one that BEGIN makes. -/
theorem Match.getD {h : List Entry} {r : Region} (hm : Match h r) {t : Nat}
    (he : ended t h = false) : ((r.txns t).getD newTxn).seq = lastSeq t h ∧
      ((r.txns t).getD newTxn).ops = ops t h ∧
      ((r.txns t).getD newTxn).prepared = prepared t h := by
  cases hs : seen t h with
  | true =>
    obtain ⟨x, hx, h1, h2, h3⟩ := hm.isSome (t := t) (by simp [isOpen, hs, he])
    simp [hx, h1, h2, h3]
  | false =>
    have hn := hm.isNone (t := t) (by simp [isOpen, hs])
    have hp : prepared t h = false := by
      by_contra hc
      have := prepared_seen (t := t) (h := h) (by simpa using hc)
      simp_all
    simp [hn, newTxn, unseen_lastSeq hs, unseen_ops hs, hp]

theorem eff_of (r : Region) (e : Entry) : of (r.eff e) = of e := by
  unfold Region.eff; split <;> cases e <;> rfl

theorem other_txn {h : List Entry} {e : Entry} {t : Nat} (hne : of e ≠ some t) :
    isOpen t (h ++ [e]) = isOpen t h ∧ lastSeq t (h ++ [e]) = lastSeq t h ∧
      ops t (h ++ [e]) = ops t h ∧ prepared t (h ++ [e]) = prepared t h := by
  refine ⟨?_, ?_, ?_, ?_⟩
  · have hb : (of e == some t) = false := by simpa using hne
    simp [isOpen, seen_snoc, ended_snoc, of_ne_ends hne, hb]
  · rw [lastSeq_snoc, of_ne_number hne]; rfl
  · rw [ops_snoc, of_ne_ops hne, List.append_nil]
  · rw [prepared_snoc, of_ne_prepared hne, Bool.or_false]

theorem match_other {h : List Entry} {r r' : Region} (hm : Match h r) {e : Entry} {t : Nat}
    (hne : of e ≠ some t) (hr : r'.txns t = r.txns t) :
    (r'.txns t).map (fun x => (x.seq, x.ops, x.prepared)) =
    if isOpen t (h ++ [e]) then
      some (lastSeq t (h ++ [e]), ops t (h ++ [e]), prepared t (h ++ [e])) else none := by
  obtain ⟨h1, h2, h3, h4⟩ := other_txn (h := h) hne
  rw [hr, hm t, h1, h2, h3, h4]

theorem pick_eff_stmt (r : Region) (t s : Nat) (os : List Op) :
    r.eff (.stmt t s os) = .stmt t s (r.pick os) := by
  unfold Region.eff Region.pick; split <;> rfl

theorem pick_eff_write (r : Region) (os : List Op) : r.eff (.write os) = .write (r.pick os) := by
  unfold Region.eff Region.pick; split <;> rfl

theorem eff_prepare (r : Region) (t s : Nat) : r.eff (.prepare t s) = .prepare t s := by
  unfold Region.eff; split <;> rfl

theorem eff_commit (r : Region) (t : Nat) : r.eff (.commit t) = .commit t := by
  unfold Region.eff; split <;> rfl

theorem eff_rollback (r : Region) (t : Nat) : r.eff (.rollback t) = .rollback t := by
  unfold Region.eff; split <;> rfl

theorem upd_same {β : Type} (f : Nat → β) (t : Nat) (v : β) : upd f t v t = v := if_pos rfl

theorem upd_ne {β : Type} (f : Nat → β) {t u : Nat} (h : u ≠ t) (v : β) : upd f t v u = f u :=
  if_neg h

theorem match_stmt {h : List Entry} {r : Region} (hm : Match h r) {t s : Nat} {os : List Op}
    (hf : Follows h (.stmt t s os)) : Match (h ++ [.stmt t s (r.pick os)]) (r.apply (.stmt t s os)) := by
  intro u
  by_cases hu : u = t
  · subst hu
    obtain ⟨he, hp, hl⟩ := hf
    obtain ⟨h1, h2, h3⟩ := hm.getD he
    have hlt : ¬ s ≤ ((r.txns u).getD newTxn).seq := by omega
    have ho : isOpen u (h ++ [.stmt u s (r.pick os)]) = true := by
      simp [isOpen, seen_snoc, ended_snoc, he, of, ends]
    rw [ho]
    simp only [Region.apply, upd_same, if_neg hlt, Option.map_some, if_true, h2, h3]
    rw [lastSeq_snoc, ops_snoc, prepared_snoc]
    simp [number, ops, prepared, Nat.max_eq_right (Nat.le_of_lt hl)]
  · exact match_other hm (by simp [of]; omega) (by simp [Region.apply, upd_ne _ hu])

theorem match_prepare {h : List Entry} {r : Region} (hm : Match h r) {t s : Nat}
    (hf : Follows h (.prepare t s)) : Match (h ++ [.prepare t s]) (r.apply (.prepare t s)) := by
  intro u
  by_cases hu : u = t
  · subst hu
    obtain ⟨he, hp, hl⟩ := hf
    obtain ⟨h1, h2, h3⟩ := hm.getD he
    have hlt : ¬ s ≤ ((r.txns u).getD newTxn).seq := by omega
    have ho : isOpen u (h ++ [.prepare u s]) = true := by
      simp [isOpen, seen_snoc, ended_snoc, he, of, ends]
    rw [ho]
    simp only [Region.apply, upd_same, if_neg hlt, Option.map_some, if_true, h2]
    rw [lastSeq_snoc, ops_snoc, prepared_snoc]
    simp [number, ops, prepared, Nat.max_eq_right (Nat.le_of_lt hl)]
  · exact match_other hm (by simp [of]; omega) (by simp [Region.apply, upd_ne _ hu])

theorem match_end {h : List Entry} {r r' : Region} (hm : Match h r) {e : Entry} {t : Nat}
    (hof : of e = some t) (hend : ends t e = true) (hr : r'.txns t = none)
    (hr' : ∀ u, u ≠ t → r'.txns u = r.txns u) : Match (h ++ [e]) r' := by
  intro u
  by_cases hu : u = t
  · subst hu
    have ho : isOpen u (h ++ [e]) = false := by simp [isOpen, ended_snoc, hend]
    rw [ho, hr]; rfl
  · exact match_other hm (by rw [hof]; simp; omega) (hr' u hu)

/-- Applying an entry adds it to the history, and has its effect on the rows. -/
theorem apply_step {h : List Entry} {r : Region} (hm : Match h r) {e : Entry}
    (hf : Follows h e) : Match (h ++ [r.eff e]) (r.apply e) ∧
      (r.apply e).data = effect h (r.eff e) r.data ∧ (r.apply e).version = r.version ∧
      (r.apply e).range = r.range := by
  cases e with
  | write os =>
    rw [pick_eff_write]
    refine ⟨fun u => match_other hm (by simp [of]) rfl, ?_, rfl, rfl⟩
    simp [Region.apply, effect, runOps_eq]
  | stmt t s os =>
    rw [pick_eff_stmt]
    exact ⟨match_stmt hm hf, rfl, rfl, rfl⟩
  | prepare t s =>
    rw [eff_prepare]
    exact ⟨match_prepare hm hf, rfl, rfl, rfl⟩
  | commit t =>
    rw [eff_commit]
    obtain ⟨he, hp⟩ := hf
    obtain ⟨x, hx, h1, h2, h3⟩ := hm.isSome (t := t) (by simp [isOpen, prepared_seen hp, he])
    refine ⟨match_end hm rfl (by simp [ends]) ?_ ?_, ?_, ?_, ?_⟩
    · simp [Region.apply, hx, upd_same]
    · intro u hu; simp [Region.apply, hx, upd_ne _ hu]
    · simp [Region.apply, hx, h3, hp, h2, effect, runOps_eq]
    · simp [Region.apply, hx]
    · simp [Region.apply, hx]
  | rollback t =>
    rw [eff_rollback]
    exact ⟨match_end hm rfl (by simp [ends]) (by simp [Region.apply, upd_same])
      (fun u hu => by simp [Region.apply, upd_ne _ hu]), rfl, rfl, rfl⟩
  | conf =>
    have : r.eff .conf = .conf := by unfold Region.eff; split <;> rfl
    rw [this]
    exact ⟨fun u => match_other hm (by simp [of]) rfl, rfl, rfl, rfl⟩
  | admin =>
    have : r.eff .admin = .admin := by unfold Region.eff; split <;> rfl
    rw [this]
    exact ⟨fun u => match_other hm (by simp [of]) rfl, rfl, rfl, rfl⟩

theorem sameOn_filter {K : Key → Prop} {s : Op → Bool} (hs : ∀ o, K (about o) → s o = true)
    (os : List Op) : SameOn K os (os.filter s) := by
  induction os with
  | nil => exact .nil
  | cons o os ih =>
    cases ho : s o with
    | true => rw [List.filter_cons_of_pos ho]; exact .both o ih
    | false =>
      rw [List.filter_cons_of_neg (by simp [ho])]
      exact .left (fun hk => by simp [hs o hk] at ho) ih

theorem share_part {K : Key → Prop} {s : Op → Bool} (hs : ∀ o, K (about o) → s o = true)
    (e : Entry) : Share K e (part s e) := by
  cases e with
  | write os => exact .write (sameOn_filter hs os)
  | stmt t n os => exact .stmt t n (sameOn_filter hs os)
  | prepare t n => exact .prepare t n
  | commit t => exact .commit t
  | rollback t => exact .rollback t
  | conf => exact .conf
  | admin => exact .admin

theorem sameOn_refl {K : Key → Prop} (os : List Op) : SameOn K os os := by
  induction os with
  | nil => exact .nil
  | cons o os ih => exact .both o ih

theorem share_refl {K : Key → Prop} (e : Entry) : Share K e e := by
  cases e with
  | write os => exact .write (sameOn_refl os)
  | stmt t n os => exact .stmt t n (sameOn_refl os)
  | prepare t n => exact .prepare t n
  | commit t => exact .commit t
  | rollback t => exact .rollback t
  | conf => exact .conf
  | admin => exact .admin

theorem shares_refl {K : Key → Prop} (l : List Entry) : List.Forall₂ (Share K) l l := by
  induction l with
  | nil => exact .nil
  | cons e l ih => exact .cons (share_refl e) ih

theorem shares_part {K : Key → Prop} {s : Op → Bool} (hs : ∀ o, K (about o) → s o = true)
    (l : List Entry) : List.Forall₂ (Share K) l (l.map (part s)) := by
  induction l with
  | nil => exact .nil
  | cons e l ih => exact .cons (share_part hs e) ih

/-- Every batch may be cut where no key matters. -/
theorem shares_any (s : Op → Bool) (l : List Entry) :
    List.Forall₂ (Share fun _ => False) l (l.map (part s)) := shares_part (fun _ h => h.elim) l

/-- Applying a log. -/
theorem applyAll_step {h : List Entry} {r : Region} (hm : Match h r) (l : List Entry)
    (hv : ValidFrom h l) : Match (h ++ l.map r.eff) (r.applyAll l) ∧
      (r.applyAll l).data = dataFrom h r.data (l.map r.eff) ∧
      (r.applyAll l).version = r.version ∧ (r.applyAll l).range = r.range := by
  induction l generalizing h r with
  | nil =>
    refine ⟨?_, rfl, rfl, rfl⟩
    rw [List.map_nil, List.append_nil]
    exact hm
  | cons e l ih =>
    obtain ⟨h1, h2, h3, h4⟩ := apply_step hm hv.1
    have heff : ∀ x, (r.apply e).eff x = r.eff x := by
      intro x; simp [Region.eff, h3, h4]
    have hfun : (r.apply e).eff = r.eff := funext heff
    have hshare : List.Forall₂ (Share fun _ => False) (h ++ [e]) (h ++ [r.eff e]) := by
      refine forall₂_append (shares_refl h) (.cons ?_ .nil)
      unfold Region.eff
      split
      · exact share_part (fun _ hk => hk.elim) e
      · exact share_refl e
    obtain ⟨g1, g2, g3, g4⟩ := ih h1 (shares_valid hshare (shares_refl l) hv.2)
    refine ⟨?_, ?_, by rw [← h3]; exact g3, by rw [← h4]; exact g4⟩
    · rw [hfun, List.append_assoc] at g1
      exact g1
    · show ((r.apply e).applyAll l).data = _
      rw [g2, hfun, h2]
      rfl

theorem eff_serving {r : Region} (h : r.version ≠ 0) : r.eff = id := by
  funext e; simp [Region.eff, h]

/-- A region in service does what the log says. -/
theorem applyAll_serving {h : List Entry} {r : Region} (hm : Match h r) (hvr : r.version ≠ 0)
    (l : List Entry) (hv : ValidFrom h l) : Match (h ++ l) (r.applyAll l) ∧
      (r.applyAll l).data = dataFrom h r.data l ∧
      (r.applyAll l).version = r.version ∧ (r.applyAll l).range = r.range := by
  have := applyAll_step hm l hv
  rwa [eff_serving hvr, List.map_id] at this

theorem match_empty {r : Region} (h : ∀ t, r.txns t = none) : Match [] r := by
  intro t; simp [h t, isOpen, seen]

end BaikalDB.Handover
