import Verif.Recover.Apply
import Mathlib.Data.List.Dedup

/-!
# Restarting
-/

namespace BaikalDB.Recover

open BaikalDB.Recover.Spec (isOpen seen ended lastSeq Follows Valid)

theorem run_append (a b : List Write) (d : Disk) : run (a ++ b) d = run b (run a d) := by
  simp [run, List.foldl_append]

/-! ## The loop over the open transactions -/

theorem scan_plain (log : List Entry) (was : Nat → Bool) (d : Disk) (l : List Nat) (s : Scan)
    (h : ∀ t, t ∈ l → ∀ b x, (run s.ws d).begins t = some b → (run s.ws d).pre t = some x →
      was t = true) :
    l.foldl (scanTxn log was d) s = { s with
      restore := s.restore ++ l.filter fun t => ((run s.ws d).begins t).isSome } := by
  induction l generalizing s with
  | nil => simp
  | cons t l ih =>
    have hs : scanTxn log was d s t = { s with
        restore := s.restore ++ if ((run s.ws d).begins t).isSome then [t] else [] } := by
      unfold scanTxn
      cases hb : (run s.ws d).begins t with
      | none => simp
      | some b =>
        dsimp only
        cases hp : (run s.ws d).pre t with
        | none => simp
        | some x =>
          dsimp only
          rw [if_pos (h t (by simp) b x hb hp)]
          simp
    rw [List.foldl_cons, hs, ih]
    · simp only [List.filter_cons, List.append_assoc]
      cases ((run s.ws d).begins t).isSome <;> simp
    · intro u hu
      exact h u (by simp [hu])

theorem mem_ids {log : List Entry} {t : Nat} : t ∈ ids log ↔ seen t log = true := by
  simp only [ids, List.mem_dedup, List.mem_filterMap, seen, List.any_eq_true, beq_iff_eq, txnOf_eq]

theorem seen_take {log : List Entry} {t n : Nat} (h : seen t (log.take n) = true) :
    seen t log = true := by
  simp only [seen, List.any_eq_true] at h ⊢
  obtain ⟨e, h1, h2⟩ := h
  exact ⟨e, List.mem_of_mem_take h1, h2⟩

/-- After the loop: the disk is that of `P` entries, and the transactions to be rebuilt are those
that are open there. -/
structure Scanned (c : Prop) (log : List Entry) (d : Disk) (P : Nat) (s : Scan) : Prop where
  disk : DInv c log (run s.ws d) P
  applied : s.applied = (run s.ws d).applied
  prep : ∀ t, (run s.ws d).prepared t = false
  restore : ∀ t, t ∈ s.restore ↔ ((run s.ws d).begins t).isSome = true
  begins : ∀ t, t ∈ s.restore → d.begins t = (run s.ws d).begins t

/-- The loop of a restart. -/
def scan (log : List Entry) (d : Disk) : Scan :=
  (ids log).foldl (scanTxn log d.prepared d) ⟨[wDrop], d.applied, []⟩

theorem scan_noPend {c : Prop} {log : List Entry} {d : Disk} {P : Nat} (h : DInv c log d P)
    (hp : NoPend d) : Scanned c log d P (scan log d) := by
  have hs := scan_plain log d.prepared d (ids log) ⟨[wDrop], d.applied, []⟩
    (fun t _ b x h1 h2 => hp t b x h1 h2)
  unfold scan
  rw [hs]
  refine ⟨⟨h.le, h.len, h.same, h.data, h.begins, h.lines⟩, rfl, fun _ => rfl, ?_, ?_⟩
  · intro t
    simp only [List.nil_append, List.mem_filter, and_iff_right_iff_imp]
    intro hb
    have hb' : (d.begins t).isSome = true := hb
    rw [h.begins, start_isSome] at hb'
    exact mem_ids.2 (seen_take (seen_of_open hb'))
  · intro t _; rfl

theorem scan_window {c : Prop} {log : List Entry} {d : Disk} {t : Nat} {l : Int} {i : Nat}
    (h : Window c log d t l i) : Scanned c log d i (scan log d) := by
  have hdone := h.done
  have htm : t ∈ ids log := by
    apply mem_ids.2
    simp only [seen, List.any_eq_true]
    have he : ∃ e, entryAt log i = some e ∧ Spec.of e = some t := by
      rcases h.entry with k | k
      · exact ⟨_, k, rfl⟩
      · exact ⟨_, k, rfl⟩
    obtain ⟨e, h1, h2⟩ := he
    refine ⟨e, ?_, by simp [h2]⟩
    unfold entryAt at h1
    split at h1
    · simp at h1
    · exact List.mem_of_getElem? h1
  have hnd : (ids log).Nodup := List.nodup_dedup _
  obtain ⟨l1, l2, hl⟩ := List.append_of_mem htm
  rw [hl] at hnd
  have ht1 : t ∉ l1 := by
    intro k
    have := (List.nodup_append.1 hnd).2.2 t k t (by simp)
    exact this rfl
  have ht2 : t ∉ l2 := by
    have := (List.nodup_append.1 hnd).2.1
    exact (List.nodup_cons.1 this).1
  have hs1 := scan_plain log d.prepared d l1 ⟨[wDrop], d.applied, []⟩
    (fun u hu b x h1 h2 => h.rest u b x (fun k => ht1 (k ▸ hu)) h1 h2)
  obtain ⟨b, hb⟩ := Option.isSome_iff_exists.1 h.beg
  have hnlt : ¬ i < d.applied := by have := h.le; omega
  have hmid : ∀ r, scanTxn log d.prepared d ⟨[wDrop], d.applied, r⟩ t
      = ⟨[wDrop, wAfter t l i, wClear t], max d.applied i, r⟩ := by
    intro r
    unfold scanTxn
    have e1 : (run [wDrop] d).begins t = some b := hb
    have e2 : (run [wDrop] d).pre t = some (l, i) := h.pre
    simp only [e1, e2, h.prep, Bool.false_eq_true, if_false, if_neg hnlt]
    rcases h.entry with k | k <;> simp [k]
  have hD : run [wDrop, wAfter t l i, wClear t] d
      = { wAfter t l i d with
          prepared := fun _ => false
          pre := upd (upd d.pre t none) t none
          begins := upd (upd d.begins t none) t none } := rfl
  have hbeg : ∀ u, (run [wDrop, wAfter t l i, wClear t] d).begins u = (wAfter t l i d).begins u := by
    intro u
    show upd (upd d.begins t none) t none u = upd d.begins t none u
    unfold upd; split <;> simp_all
  have hpre : ∀ u, u ≠ t → (run [wDrop, wAfter t l i, wClear t] d).pre u = d.pre u := by
    intro u hu
    show upd (upd d.pre t none) t none u = _
    simp [upd, hu]
  have hbne : ∀ u, u ≠ t → (run [wDrop, wAfter t l i, wClear t] d).begins u = d.begins u := by
    intro u hu
    rw [hbeg]; show upd d.begins t none u = _
    simp [upd, hu]
  have hbt : (run [wDrop, wAfter t l i, wClear t] d).begins t = none := by
    rw [hbeg]; show upd d.begins t none t = _
    simp [upd]
  have hs2 := fun r => scan_plain log d.prepared d l2
    ⟨[wDrop, wAfter t l i, wClear t], max d.applied i, r⟩
    (fun u hu b x h1 h2 => by
      have hut : u ≠ t := fun k => ht2 (k ▸ hu)
      rw [hbne u hut] at h1
      rw [hpre u hut] at h2
      exact h.rest u b x hut h1 h2)
  have hfin : scan log d = ⟨[wDrop, wAfter t l i, wClear t], max d.applied i,
      (l1.filter fun u => ((run [wDrop] d).begins u).isSome)
      ++ l2.filter fun u => ((run [wDrop, wAfter t l i, wClear t] d).begins u).isSome⟩ := by
    unfold scan
    rw [hl, List.foldl_append, List.foldl_cons, hs1]
    simp only [List.nil_append]
    rw [hmid, hs2]
  rw [hfin]
  refine ⟨?_, ?_, fun _ => rfl, ?_, ?_⟩
  · refine ⟨hdone.le, hdone.len, hdone.same, hdone.data, fun u => ?_, hdone.lines⟩
    rw [hbeg]; exact hdone.begins u
  · show max d.applied i = i
    have := h.le; omega
  · intro u
    simp only [List.mem_append, List.mem_filter]
    constructor
    · rintro (⟨h1, h2⟩ | ⟨_, h2⟩)
      · have hut : u ≠ t := fun k => ht1 (k ▸ h1)
        rw [hbne u hut]; exact h2
      · exact h2
    · intro hu
      have hut : u ≠ t := fun k => by subst k; simp [hbt] at hu
      have hm : u ∈ ids log := by
        rw [hbeg, hdone.begins, start_isSome] at hu
        exact mem_ids.2 (seen_take (seen_of_open hu))
      rw [hl, List.mem_append, List.mem_cons] at hm
      rcases hm with k | k | k
      · left; refine ⟨k, ?_⟩
        rw [hbne u hut] at hu; exact hu
      · exact absurd k hut
      · right; exact ⟨k, hu⟩
  · intro u hu
    have hut : u ≠ t := by
      intro k; subst k
      simp only [List.mem_append, List.mem_filter] at hu
      rcases hu with k | k
      · exact ht1 k.1
      · exact ht2 k.1
    exact (hbne u hut).symm

/-! ## Replaying the open transactions -/

theorem zip_filter (l : List Entry) (k q : Nat) (p : Entry → Bool) :
    (l.zipIdx k).filter (fun x => decide (x.2 < k + q) && p x.1)
      = ((l.take q).zipIdx k).filter fun x => p x.1 := by
  induction l generalizing k q with
  | nil => simp
  | cons a l ih =>
    cases q with
    | zero =>
      simp only [List.take_zero, List.zipIdx_nil, List.filter_nil, List.filter_eq_nil_iff]
      intro x hx
      have := List.le_snd_of_mem_zipIdx hx
      simp; omega
    | succ q =>
      have hih := ih (k + 1) q
      have hk : k + 1 + q = k + (q + 1) := by omega
      rw [hk] at hih
      simp only [List.take_succ_cons, List.zipIdx_cons, List.filter_cons, hih]
      simp

theorem first_prefix {t : Nat} {l : List Entry} {i : Nat} (h : first t l = some i)
    (l2 : List Entry) : first t (l ++ l2) = some i := by
  unfold first at *
  rw [List.findIdx?_append]
  cases hc : List.findIdx? (fun e => Spec.of e == some t) l with
  | none => rw [hc] at h; simp at h
  | some j => rw [hc] at h; simpa using h

theorem first_le {t : Nat} {l : List Entry} {e : Entry} {i : Nat} (h : l[i]? = some e)
    (he : Spec.of e = some t) : ∃ j, first t l = some j ∧ j ≤ i + 1 := by
  have hl : l = l.take (i + 1) ++ l.drop (i + 1) := (List.take_append_drop _ _).symm
  have h1 := take_snoc h
  have h2 : first t (l.take (i + 1)) = (first t (l.take i)).or (some (i + 1)) := by
    rw [h1, first_snoc, if_pos he, take_len h]
  have h4 : ∀ (m : List Entry) j, first t m = some j → j ≤ m.length := by
    intro m j hj
    simp only [first, Option.map_eq_some_iff] at hj
    obtain ⟨a, h5, h6⟩ := hj
    have := (List.findIdx?_eq_some_iff_getElem.1 h5).1
    omega
  cases hc : first t (l.take i) with
  | none =>
    rw [hc] at h2
    exact ⟨i + 1, by rw [hl]; exact first_prefix h2 _, Nat.le_refl _⟩
  | some j =>
    rw [hc] at h2
    refine ⟨j, by rw [hl]; exact first_prefix h2 _, ?_⟩
    have := h4 _ _ hc
    rw [take_len h] at this; omega

theorem ended_mono {t : Nat} {l1 l2 : List Entry} (h : ended t (l1 ++ l2) = false) :
    ended t l1 = false := by
  simp only [ended, List.any_append, Bool.or_eq_false_iff] at h
  exact h.1

theorem replay_snoc (es : List (Entry × Nat)) (p : Entry × Nat) (m : Mem) :
    replay (es ++ [p]) m = ((replay es m).1 ++ (applyE false p.2 p.1 (replay es m).2).1,
      (applyE false p.2 p.1 (replay es m).2).2) := by
  simp [replay, List.foldl_append]

/-- The entries of the transactions `R` in a log. -/
def only (R : List Nat) (l : List Entry) : List (Entry × Nat) :=
  (l.zipIdx 1).filter fun p => (txnOf p.1).any fun t => R.contains t

/-- Replaying the entries of the open transactions rebuilds them and leaves everything else. -/
structure Rebuilt (c : Prop) (R : List Nat) (L : List Entry) (d : Disk) (m0 : Mem)
    (r : List Write × Mem) : Prop where
  applied : r.2.applied = m0.applied
  lines : r.2.lines = m0.lines
  ins : ∀ t, t ∈ R → Rel c t L (r.2.txns t)
  out : ∀ t, t ∉ R → r.2.txns t = none
  data : (run r.1 d).data = d.data
  dlines : (run r.1 d).lines = d.lines
  begins : ∀ t, (run r.1 d).begins t = if t ∈ R ∧ seen t L = true then first t L else d.begins t
  prep : ∀ t, (run r.1 d).prepared t = (decide (t ∈ R) && Spec.prepared t L)

theorem rebuild {c : Prop} {log : List Entry} (hv : Valid log) {R : List Nat} {d : Disk} {q : Nat}
    {m0 : Mem} (hq : q ≤ log.length) (hR : ∀ t, t ∈ R → ended t (log.take q) = false)
    (hp : ∀ t, d.prepared t = false) (hm : ∀ t, m0.txns t = none)
    (hc : c → R = [] ∨ ∀ t s os r, Entry.stmt t s os r ∈ log → r = 0) :
    ∀ j, j ≤ q → Rebuilt c R (log.take j) d m0 (replay (only R (log.take j)) m0) := by
  intro j
  induction j with
  | zero =>
    intro _
    refine ⟨rfl, rfl, ?_, fun t _ => hm t, rfl, rfl, fun t => ?_, ?_⟩
    rotate_left
    · rw [if_neg (by simp [seen])]; rfl
    rotate_left
    · intro t _
      refine ⟨fun _ => hm t, fun k => by simp [isOpen, seen] at k⟩
    · intro t
      show d.prepared t = _
      rw [hp]; simp [Spec.prepared]
  | succ j ih =>
    intro hj
    have h := ih (by omega)
    obtain ⟨e, he⟩ : ∃ e, log[j]? = some e :=
      ⟨log[j]'(by omega), List.getElem?_eq_getElem (by omega)⟩
    have hts := take_snoc he
    have htl := take_len he
    have hf := hv j e he
    have hdrop : log.take q = log.take (j + 1) ++ (log.take q).drop (j + 1) := by
      conv_lhs => rw [← List.take_append_drop (j + 1) (log.take q)]
      rw [List.take_take, Nat.min_eq_left hj]
    have honly : only R (log.take (j + 1)) = only R (log.take j) ++
        (if (txnOf e).any (fun t => R.contains t) then [(e, j + 1)] else []) := by
      unfold only
      rw [hts, List.zipIdx_append, List.filter_append, htl]
      simp only [List.zipIdx_cons, List.zipIdx_nil, List.filter_cons, List.filter_nil]
      rw [Nat.add_comm 1 j]
    by_cases hin : (txnOf e).any (fun t => R.contains t) = true
    · rw [honly, if_pos hin, replay_snoc]
      obtain ⟨u, hu, huR⟩ : ∃ u, Spec.of e = some u ∧ u ∈ R := by
        rw [txnOf_eq] at hin
        cases ho : Spec.of e with
        | none => rw [ho] at hin; simp at hin
        | some u => rw [ho] at hin; exact ⟨u, rfl, by simpa using hin⟩
      have hnend : ended u (log.take (j + 1)) = false := by
        have := hR u huR
        rw [hdrop] at this
        exact ended_mono this
      have hne : ∀ t, t ≠ u → Spec.of e ≠ some t := by
        intro t ht k; rw [hu] at k; exact ht (by simpa using k.symm)
      generalize hr : replay (only R (log.take j)) m0 = r at h
      have hnes : Spec.ends u e = false := by
        rw [hts, ended_snoc, Bool.or_eq_false_iff] at hnend; exact hnend.2
      have hlines : (applyE false (j + 1) e r.2).2.lines = r.2.lines := by
        cases e with
        | write os s => simp [Spec.of] at hu
        | other => rfl
        | stmt v s os rr => rfl
        | prepare v => rfl
        | commit v =>
          simp only [Spec.of, Option.some.injEq] at hu; subst hu
          simp [Spec.ends] at hnes
        | rollback v =>
          simp only [Spec.of, Option.some.injEq] at hu; subst hu
          simp [Spec.ends] at hnes
        | onePc v => exact hf.elim
      have hrel : Rel c u (log.take (j + 1)) ((applyE false (j + 1) e r.2).2.txns u) := by
        rw [hts]
        cases e with
        | write os s => simp [Spec.of] at hu
        | other => simp [Spec.of] at hu
        | stmt v s os rr =>
          simp only [Spec.of, Option.some.injEq] at hu; subst hu
          refine rel_stmt (h.ins v huR) hf (fun hcc => Or.inr ?_)
          rcases hc hcc with k | k
          · rw [k] at huR; simp at huR
          · exact k v s os rr (List.mem_of_getElem? he)
        | prepare v =>
          simp only [Spec.of, Option.some.injEq] at hu; subst hu
          exact rel_prepare (h.ins v huR) hf
        | commit v =>
          simp only [Spec.of, Option.some.injEq] at hu; subst hu
          simp [Spec.ends] at hnes
        | rollback v =>
          simp only [Spec.of, Option.some.injEq] at hu; subst hu
          simp [Spec.ends] at hnes
        | onePc v => exact hf.elim
      have hfirst : seen u (log.take j) = false → first u (log.take (j + 1)) = some (j + 1) := by
        intro hs
        rw [hts, first_snoc, (first_none _ _).2 hs, if_pos hu, htl]
        rfl
      have hkeep : ∀ t, (t = u → seen t (log.take j) = true) →
          (run r.1 d).begins t = if t ∈ R ∧ seen t (log.take (j + 1)) = true then
            first t (log.take (j + 1)) else d.begins t := by
        intro t ht
        rw [h.begins t, hts, seen_snoc, first_snoc]
        by_cases htu : t = u
        · have hs := ht htu
          obtain ⟨b, hb⟩ := Option.isSome_iff_exists.1 ((first_isSome t _).trans hs)
          simp [hs, hb]
        · have := hne t htu
          simp [this]
      have hnew : (u ∈ R ∧ seen u (log.take (j + 1)) = true) := by
        refine ⟨huR, ?_⟩
        rw [hts, seen_snoc, hu]; simp
      have hdisk : (run (applyE false (j + 1) e r.2).1 (run r.1 d)).data = (run r.1 d).data ∧
          (run (applyE false (j + 1) e r.2).1 (run r.1 d)).lines = (run r.1 d).lines ∧
          (∀ t, (run (applyE false (j + 1) e r.2).1 (run r.1 d)).begins t =
            if t ∈ R ∧ seen t (log.take (j + 1)) = true then first t (log.take (j + 1))
            else d.begins t) ∧
          (run (applyE false (j + 1) e r.2).1 (run r.1 d)).prepared =
            fun t => (run r.1 d).prepared t || e == .prepare t := by
        cases e with
        | write os s => simp [Spec.of] at hu
        | other => simp [Spec.of] at hu
        | stmt v s os rr =>
          simp only [Spec.of, Option.some.injEq] at hu; subst hu
          show (run (beginWrite r.2 v (j + 1)) (run r.1 d)).data = _ ∧
            (run (beginWrite r.2 v (j + 1)) (run r.1 d)).lines = _ ∧
            (∀ t, (run (beginWrite r.2 v (j + 1)) (run r.1 d)).begins t = _) ∧
            (run (beginWrite r.2 v (j + 1)) (run r.1 d)).prepared = _
          unfold beginWrite
          split
          · rename_i hno
            refine ⟨rfl, rfl, ?_, ?_⟩
            · intro t
              show upd (run r.1 d).begins v (some (j + 1)) t = _
              unfold upd
              split
              · rename_i htv
                subst htv
                have hs : seen t (log.take j) = false := by
                  cases hsn : seen t (log.take j) with
                  | false => rfl
                  | true =>
                    have ho : isOpen t (log.take j) = true := by
                      simp [isOpen, hsn, hf.1]
                    obtain ⟨x, hx, _⟩ := (h.ins t huR).2 ho
                    rw [hx] at hno; simp at hno
                rw [if_pos hnew, hfirst hs]
              · rename_i htv
                exact hkeep t (fun k => absurd k htv)
            · funext t; show (run r.1 d).prepared t = _; simp
          · rename_i hno
            have hs : seen v (log.take j) = true := by
              cases hsn : seen v (log.take j) with
              | true => rfl
              | false =>
                have := (h.ins v huR).1 (by simp [isOpen, hsn])
                rw [this] at hno; simp at hno
            refine ⟨rfl, rfl, fun t => hkeep t (fun k => k ▸ hs), ?_⟩
            funext t; show (run r.1 d).prepared t = _; simp
        | prepare v =>
          simp only [Spec.of, Option.some.injEq] at hu; subst hu
          obtain ⟨x, hx, _, _, hxp, _⟩ := (h.ins v huR).2 hf.1
          have hxp' : x.prepared = false := by rw [hxp, hf.2]
          have hw : (applyE false (j + 1) (Entry.prepare v) r.2).1 = [wPrepare v] := by
            simp [applyE, beginWrite, hx, getTxn, hxp']
          rw [hw]
          refine ⟨rfl, rfl, fun t => hkeep t (fun k => k ▸ seen_of_open hf.1), ?_⟩
          funext t
          show upd (run r.1 d).prepared v true t = _
          unfold upd
          by_cases htv : t = v
          · subst htv; simp
          · have : v ≠ t := fun k => htv k.symm
            simp [htv, this]
        | commit v =>
          simp only [Spec.of, Option.some.injEq] at hu; subst hu
          simp [Spec.ends] at hnes
        | rollback v =>
          simp only [Spec.of, Option.some.injEq] at hu; subst hu
          simp [Spec.ends] at hnes
        | onePc v => exact hf.elim
      obtain ⟨d1, d2, d3, d4⟩ := hdisk
      refine ⟨?_, ?_, ?_, ?_, ?_, ?_, ?_, ?_⟩
      · rw [applyE_applied]; exact h.applied
      · rw [hlines]; exact h.lines
      · intro t ht
        by_cases htu : t = u
        · rw [htu]; exact hrel
        · rw [applyE_ne (hne t htu), hts]
          exact (h.ins t ht).ne (hne t htu)
      · intro t ht
        have htu : t ≠ u := fun k => ht (k ▸ huR)
        rw [applyE_ne (hne t htu)]; exact h.out t ht
      · rw [run_append, d1]; exact h.data
      · rw [run_append, d2]; exact h.dlines
      · intro t; rw [run_append]; exact d3 t
      · intro t
        rw [run_append, d4, hts, prepared_snoc]
        show ((run r.1 d).prepared t || e == .prepare t) = _
        rw [h.prep]
        by_cases htR : t ∈ R
        · simp [htR]
        · have : (e == Entry.prepare t) = false := by
            apply prepared_one_ne
            intro k; rw [hu] at k
            have : u = t := by simpa using k
            exact htR (this ▸ huR)
          simp [htR, this]
    · rw [honly, if_neg hin, List.append_nil]
      have hne : ∀ t, t ∈ R → Spec.of e ≠ some t := by
        intro t ht k
        apply hin
        rw [txnOf_eq, k]; simpa using ht
      refine ⟨h.applied, h.lines, ?_, h.out, h.data, h.dlines, fun t => ?_, ?_⟩
      rotate_left
      · rw [h.begins t, hts, seen_snoc, first_snoc]
        by_cases htR : t ∈ R
        · simp [hne t htR]
        · simp [htR]
      rotate_left
      · intro t ht; rw [hts]; exact (h.ins t ht).ne (hne t ht)
      · intro t
        rw [h.prep, hts, prepared_snoc]
        by_cases htR : t ∈ R
        · rw [prepared_one_ne (hne t htR)]; simp
        · simp [htR]

theorem replayList_eq {log : List Entry} {begins : Nat → Option Nat} {R : List Nat} {q : Nat}
    (hb : ∀ t, t ∈ R → ∃ b, begins t = some b ∧ first t (log.take q) = some b) :
    replayList log begins R q = only R (log.take q) := by
  have hall : ∀ (p : Entry × Nat), p ∈ log.zipIdx 1 → p.2 ≤ q →
      (txnOf p.1).any (fun t => R.contains t) = true →
      ∃ b, b ∈ R.filterMap begins ∧ b ≤ p.2 := by
    intro p hp hpq hin
    rw [txnOf_eq] at hin
    cases ho : Spec.of p.1 with
    | none => rw [ho] at hin; simp at hin
    | some u =>
      rw [ho] at hin
      have huR : u ∈ R := by simpa using hin
      obtain ⟨b, h1, h2⟩ := hb u huR
      refine ⟨b, List.mem_filterMap.2 ⟨u, huR, h1⟩, ?_⟩
      have h3 := List.mk_mem_zipIdx_iff_le_and_getElem?_sub.1 hp
      obtain ⟨h4, h5⟩ := h3
      have h6 : (log.take q)[p.2 - 1]? = some p.1 := by
        rw [List.getElem?_take_of_lt (by omega)]; exact h5
      obtain ⟨j, h7, h8⟩ := first_le h6 ho
      rw [h2] at h7
      have : b = j := by simpa using h7
      omega
  have hzip := zip_filter log 1 q (fun e => (txnOf e).any fun t => R.contains t)
  unfold replayList only
  rw [← hzip]
  cases hm : (R.filterMap begins).min? with
  | none =>
    dsimp only
    symm
    rw [List.filter_eq_nil_iff]
    intro p hp hpp
    simp only [Bool.and_eq_true, decide_eq_true_eq] at hpp
    obtain ⟨b, h1, _⟩ := hall p hp (by omega) hpp.2
    rw [List.min?_eq_none_iff] at hm
    rw [hm] at h1; simp at h1
  | some st =>
    dsimp only
    apply List.filter_congr
    intro p hp
    have hmin := (List.min?_eq_some_iff.1 hm).2
    by_cases hpq : p.2 ≤ q
    · have e1 : p.2 < 1 + q := by omega
      cases hin : (txnOf p.1).any (fun t => R.contains t) with
      | false => simp
      | true =>
        obtain ⟨b, h1, h2⟩ := hall p hp hpq hin
        have := hmin b h1
        have e2 : st ≤ p.2 := by omega
        simp [hpq, e1, e2]
    · have e1 : ¬ p.2 < 1 + q := by omega
      simp [hpq, e1]

end BaikalDB.Recover
