import Verif.Ddl.Inv

/-!
# Every step keeps the invariant
-/

namespace BaikalDB.Ddl

set_option linter.unusedSectionVars false

variable {V : Type} [DecidableEq V] {W : World} {s : Sys V}

/-! ## Meta server -/

theorem inv_startDrop (h : Inv W s) : Inv W { s with m := startDrop s.m } := by
  unfold startDrop
  cases hj : s.m.job with
  | none => exact h.quiet_notAdding (by simp) rfl rfl
  | some j => exact h

theorem inv_newLeader (h : Inv W s) (back : Nat → Bool) : Inv W { s with m := newLeader back s.m } := by
  refine h.of_meta Iff.rfl rfl rfl (fun _ _ => ⟨rfl, rfl⟩) (fun _ _ => ⟨fun c hc => (nomatch hc), fun hw => (nomatch hw)⟩)
    (fun _ hd => ⟨rfl, by simp [newLeader, hd]⟩) ?_
  intro a ws hws
  refine ⟨_, by simp only [newLeader, hws, Option.map_some]; rfl, ?_, ?_⟩
  · rintro r ⟨w, hw, rfl⟩
    refine ⟨_, List.mem_map_of_mem hw, ?_⟩
    split <;> rfl
  · intro w hw hd
    obtain ⟨w0, hw0, e⟩ := List.mem_map.mp hw
    split at e
    · rw [← e] at hd; cases hd
    · left; rw [← e]; exact hw0

theorem inv_handOver (h : Inv W s) (a : Nat) : Inv W { s with m := handOver a s.m } := by
  cases hws : s.m.works with
  | none =>
    have e := foldl_setWork_none (fun t : Nat × RWork => { t.2 with status := .doing }) (s.m.todo.filter fun t => t.1 = a) s.m hws
    unfold handOver; simp only [e]
    exact h.of_meta Iff.rfl rfl rfl (fun a b => ⟨a, b⟩) (fun a b => ⟨h.castOk a b, h.waitOk a b⟩)
      (fun a b => by simp [a, b]) (fun _ ws hw => by rw [hws] at hw; cases hw)
  | some ws =>
    obtain ⟨ws', e, c1, c2⟩ := foldl_setWork (fun t : Nat × RWork => { t.2 with status := .doing }) (fun t => by simp)
      (s.m.todo.filter fun t => t.1 = a) s.m ws hws
    unfold handOver; simp only [e]
    refine h.of_meta Iff.rfl rfl rfl (fun a b => ⟨a, b⟩) (fun a b => ⟨h.castOk a b, h.waitOk a b⟩)
      (fun a b => by simp [a, b]) (fun _ ws0 hw => ?_)
    rw [hws] at hw; cases hw
    exact ⟨ws', rfl, c1, fun w hw hd => .inl (c2 w hw hd)⟩

theorem inv_giveUp (h : Inv W s) (a r : Nat) : Inv W { s with m := giveUp a r s.m } := by
  cases hws : s.m.works with
  | none =>
    have e := foldl_setWork_none (fun t : Nat × RWork => { t.2 with status := .idle })
      ((s.m.todo ++ s.m.doing).filter fun t => t.1 = a ∧ t.2.region = r) s.m hws
    unfold giveUp; simp only [e]
    exact h.of_meta Iff.rfl rfl rfl (fun a b => ⟨a, b⟩) (fun a b => ⟨h.castOk a b, h.waitOk a b⟩)
      (fun a b => by simp [a, b]) (fun _ ws hw => by rw [hws] at hw; cases hw)
  | some ws =>
    obtain ⟨ws', e, c1, c2⟩ := foldl_setWork (fun t : Nat × RWork => { t.2 with status := .idle }) (fun t => by simp)
      ((s.m.todo ++ s.m.doing).filter fun t => t.1 = a ∧ t.2.region = r) s.m ws hws
    unfold giveUp; simp only [e]
    refine h.of_meta Iff.rfl rfl rfl (fun a b => ⟨a, b⟩) (fun a b => ⟨h.castOk a b, h.waitOk a b⟩)
      (fun a b => by simp [a, b]) (fun _ ws0 hw => ?_)
    rw [hws] at hw; cases hw
    exact ⟨ws', rfl, c1, fun w hw hd => .inl (c2 w hw hd)⟩

/-- Only the waiting for transactions changes. -/
theorem Inv.of_cast (h : Inv W s) (c' : Option Cast) (w' : Option Wait)
    (hcalm : s.m.cast = none → s.m.wait = none → c' = none ∧ w' = none)
    (hcast : Adding s → s.m.state = some .writeOnly →
      (∀ c, c' = some c → c.Ok ∧ ∀ d, d < W.dbs → d ∉ c.todo → d ∉ c.doing → Clear s d) ∧
      (w' = some ⟨true, true⟩ → ∀ d, d < W.dbs → Clear s d)) : Inv W { s with m := { s.m with cast := c', wait := w' } } :=
  h.of_meta (m' := { s.m with cast := c', wait := w' }) Iff.rfl rfl rfl hcalm hcast (fun a b => ⟨a, b⟩)
    (fun _ ws hw => ⟨ws, hw, fun _ h => h, fun _ h _ => .inl h⟩)

theorem inv_castHandOver (h : Inv W s) (a : Nat) : Inv W { s with m := castHandOver a s.m } := by
  refine h.of_cast _ s.m.wait (fun x y => ⟨by rw [x]; rfl, y⟩) (fun ad st => ⟨fun c hc => ?_, h.waitOk ad st⟩)
  cases hc0 : s.m.cast with
  | none => rw [hc0] at hc; cases hc
  | some c0 =>
    rw [hc0] at hc
    have hc' := Option.some.inj hc
    obtain ⟨k1, k2⟩ := h.castOk ad st c0 hc0
    refine ⟨hc' ▸ castHandOver_ok k1, fun d hd n1 n2 => ?_⟩
    subst hc'
    by_cases ha : a ∈ c0.todo
    · simp only [if_pos ha] at n1 n2
      by_cases e : d = a
      · subst e; exact absurd (List.mem_append_right _ (List.mem_singleton.mpr rfl)) n2
      · exact k2 d hd (fun hm => n1 (List.mem_filter.mpr ⟨hm, by simpa using e⟩)) (fun hm => n2 (List.mem_append_left _ hm))
    · simp only [if_neg ha] at n1 n2
      exact k2 d hd n1 n2

theorem inv_castEnd (h : Inv W s) : Inv W { s with m := castEnd s.m } := by
  unfold castEnd
  cases hc : s.m.cast with
  | none => exact h
  | some c =>
    simp only
    by_cases hn : c.number = 0
    · rw [if_pos hn]
      refine h.of_cast none (s.m.wait.map fun _ => ⟨true, true⟩) (fun x => by rw [hc] at x; cases x)
        (fun ad st => ⟨fun c hc => (nomatch hc), fun _ d hd => ?_⟩)
      obtain ⟨k1, k2⟩ := h.castOk ad st c hc
      obtain ⟨t1, t2⟩ := k1.all_done hn
      exact k2 d hd (by rw [t1]; simp) (by rw [t2]; simp)
    · rw [if_neg hn]; exact h

theorem inv_castDone (h : Inv W s) (a : Nat) (hcl : Clear s a) : Inv W { s with m := castDone a s.m } := by
  unfold castDone
  cases hc : s.m.cast with
  | none => exact h
  | some c =>
    simp only
    by_cases ha : a ∈ c.doing
    · rw [if_pos ha]
      have h1 : Inv W { s with m := { s.m with cast := some ⟨c.todo, c.doing.filter (· ≠ a), c.number - 1⟩ } } := by
        refine h.of_cast _ s.m.wait (fun x => by rw [hc] at x; cases x) (fun ad st => ⟨fun c' hc' => ?_, h.waitOk ad st⟩)
        obtain ⟨k1, k2⟩ := h.castOk ad st c hc
        have := Option.some.inj hc'
        subst this
        refine ⟨castDone_ok k1 ha, fun d hd n1 n2 => ?_⟩
        by_cases e : d = a
        · rw [e]; exact hcl
        · exact k2 d hd n1 (fun hm => n2 (List.mem_filter.mpr ⟨hm, by simpa using e⟩))
      exact inv_castEnd h1
    · rw [if_neg ha]; exact inv_castEnd h

theorem inv_castFail (h : Inv W s) : Inv W { s with m := castFail s.m } := by
  unfold castFail
  cases hc : s.m.cast with
  | none => exact h
  | some c =>
    refine h.of_cast none (s.m.wait.map fun _ => ⟨false, true⟩) (fun x => by rw [hc] at x; cases x)
      (fun ad st => ⟨fun c hc => (nomatch hc), fun hw => ?_⟩)
    cases hw' : s.m.wait <;> rw [hw'] at hw <;> simp at hw

theorem inv_castLost (h : Inv W s) (a : Nat) (hcl : Clear s a) : Inv W { s with m := castLost a s.m } := by
  refine h.of_cast _ s.m.wait (fun x y => ⟨by rw [x]; rfl, y⟩) (fun ad st => ⟨fun c hc => ?_, h.waitOk ad st⟩)
  cases hc0 : s.m.cast with
  | none => rw [hc0] at hc; cases hc
  | some c0 =>
    rw [hc0] at hc
    have hc' := Option.some.inj hc
    obtain ⟨k1, k2⟩ := h.castOk ad st c0 hc0
    refine ⟨hc' ▸ castLost_ok k1, fun d hd n1 n2 => ?_⟩
    subst hc'
    by_cases e : d = a
    · rw [e]; exact hcl
    · exact k2 d hd (fun hm => n1 (List.mem_filter.mpr ⟨hm, by simpa using e⟩)) (fun hm => n2 (List.mem_filter.mpr ⟨hm, by simpa using e⟩))

theorem inv_report (h : Inv W s) (a : Nat) (w : RWork)
    (hd : w.status = .done → Adding s → s.m.state = some .writeLocal ∧ ∀ k, W.range w.region k → GoodS (s.slot k)) :
    Inv W { s with m := report a w s.m } := by
  unfold report
  by_cases h1 : w.status = .doing
  · rw [if_pos h1]; exact h
  · rw [if_neg h1]
    by_cases h2 : (s.m.doing.any fun t => t.1 = a ∧ t.2.region = w.region) = true
    · rw [if_pos h2]
      refine h.of_meta Iff.rfl rfl rfl (fun a b => ⟨a, b⟩) (fun a b => ⟨h.castOk a b, h.waitOk a b⟩)
        (fun a b => by simp [setWork, a, b]) (fun ad ws hws => ?_)
      obtain ⟨ws', e⟩ : ∃ ws', (setWork w s.m).works = some ws' := by unfold setWork; simp [hws]
      refine ⟨ws', e, fun r hr => setWork_covers hws e hr, fun w' hw' hd' => ?_⟩
      rcases setWork_mem hws e hw' with h' | h'
      · exact .inl h'
      · subst h'; exact .inr (hd hd' ad)
    · rw [if_neg h2]; exact h

/-! ## Hearing of the state -/

theorem Inv.of_view (h : Inv W s) {i : IState} (hst : s.m.state = some i) {db' store' : Nat → IState}
    (hdb : ∀ d, db' d = s.db d ∨ db' d = i) (hstore : ∀ n, store' n = s.store n ∨ store' n = i) :
    Inv W { s with db := db', store := store' } := by
  have kS : Seen W { s with db := db', store := store' } → Pub W s := by
    rintro (⟨d, hd, e⟩ | ⟨n, hn, e⟩)
    · have e : db' d = .pub := e
      rcases hdb d with h' | h'
      · exact .inr (.inl ⟨d, hd, h' ▸ e⟩)
      · left; rw [hst, ← h', e]
    · have e : store' n = .pub := e
      rcases hstore n with h' | h'
      · exact .inr (.inr ⟨n, hn, h' ▸ e⟩)
      · left; rw [hst, ← h', e]
  have kP : Pub W { s with db := db', store := store' } → Pub W s := fun a => a.elim .inl kS
  have kL : Live W { s with db := db', store := store' } → Live W s := fun a => a.imp_right kP
  have kK : Kept W { s with db := db', store := store' } → Kept W s := fun a => a.imp_right kP
  have pubRank : Pub W s → 2 ≤ i.rank := by
    rintro (a | a)
    · rw [hst] at a; cases a; decide
    · rcases h.noPub a with b | b
      · rw [hst] at b; cases b; decide
      · rw [hst] at b; cases b.1; decide
  have dbP : ∀ (P : Nat → Prop), P i.rank → (∀ d, d < W.dbs → P (s.db d).rank) → ∀ d, d < W.dbs → P (db' d).rank := by
    intro P a b d hd
    rcases hdb d with e | e <;> rw [e]
    · exact b d hd
    · exact a
  have stP : ∀ (P : Nat → Prop), P i.rank → (∀ n, n < W.stores → P (s.store n).rank) → ∀ n, n < W.stores → P (store' n).rank := by
    intro P a b n hn
    rcases hstore n with e | e <;> rw [e]
    · exact b n hn
    · exact a
  have eqi : ∀ {j : IState}, s.m.state = some j → i = j := by
    intro j b; rw [hst] at b; exact Option.some.inj b
  have clear : s.m.state = some .writeOnly → ∀ d, Clear s d → Clear { s with db := db', store := store' } d := by
    intro b d hc
    refine ⟨?_, hc.2⟩
    show 2 ≤ (db' d).rank
    rcases hdb d with e | e <;> rw [e]
    · exact hc.1
    · rw [eqi b]; decide
  exact
  { shape := h.shape
    vNone := fun a b => ⟨dbP (· = 0) (by rw [eqi b]; rfl) (h.vNone a b).1, stP (· = 0) (by rw [eqi b]; rfl) (h.vNone a b).2⟩
    vDel := fun a b => ⟨dbP (· ≤ 1) (by rw [eqi b]; decide) (h.vDel a b).1, stP (· ≤ 1) (by rw [eqi b]; decide) (h.vDel a b).2⟩
    vWo := fun a b => ⟨dbP (fun r => 1 ≤ r ∧ r ≤ 2) (by rw [eqi b]; decide) (h.vWo a b).1,
      stP (fun r => 1 ≤ r ∧ r ≤ 2) (by rw [eqi b]; decide) (h.vWo a b).2⟩
    vWl := fun a b => ⟨dbP (fun r => 2 ≤ r ∧ r ≤ 3) (by rw [eqi b]; decide) (h.vWl a b).1,
      stP (fun r => 1 ≤ r ∧ r ≤ 3) (by rw [eqi b]; decide) (h.vWl a b).2⟩
    vPub := fun a => ⟨dbP (2 ≤ ·) (pubRank (kP a)) (h.vPub (kP a)).1,
      stP (1 ≤ ·) (Nat.le_of_succ_le (pubRank (kP a))) (h.vPub (kP a)).2⟩
    noPub := fun a => (kS a).elim .inl h.noPub
    empty := h.empty
    orphan := fun a => h.orphan (kL a)
    good := fun a => h.good (kP a)
    held := h.held
    txnDb := h.txnDb
    carry := fun a => h.carry (kL a)
    fresh := fun a t x hx hf => by
      show 2 ≤ (db' x.db).rank
      have old := h.fresh (kL a) t x hx hf
      rcases hdb x.db with e | e <;> rw [e]
      · exact old
      · rcases kL a with ad | p
        · rcases h.shape ad with b | b | b | b
          · have := (h.vNone ad b).1 x.db (h.txnDb t x hx); omega
          · have := (h.vDel ad b).1 x.db (h.txnDb t x hx); omega
          · rw [eqi b]; decide
          · rw [eqi b]; decide
        · exact pubRank p
    allFresh := fun a => h.allFresh (kK a)
    calm := h.calm
    castOk := fun a b c hc => ⟨(h.castOk a b c hc).1, fun d hd n1 n2 => clear b d ((h.castOk a b c hc).2 d hd n1 n2)⟩
    waitOk := fun a b hw d hd => clear b d (h.waitOk a b hw d hd)
    idle := h.idle
    kind := h.kind
    works := h.works
    runs := fun a => h.runs (kK a) }

/-! ## Rows -/

theorem Inv.of_data (h : Inv W s) {slot' : Bytes → Slot V} {txn' : Nat → Option Txn} {run' : Nat → Option Run}
    (hE : Adding s → s.m.state = some .none ∨ s.m.state = some .deleteOnly → ∀ k, EmptyS (slot' k))
    (hO : Live W s → ∀ k, NoOrphanS (slot' k))
    (hG : Kept W s → ∀ k, GoodS (s.slot k) → GoodS (slot' k))
    (hheld : ∀ k t c, (slot' k).lock = some (.client t, c) → ∃ x, txn' t = some x)
    (hdb : ∀ t x, txn' t = some x → x.db < W.dbs)
    (hcarry : Live W s → ∀ k h c, (slot' k).lock = some (h, c) → (∀ t x, h = .client t → txn' t = some x → x.fresh = true) →
      Good c → Good (slot' k).cur)
    (hfresh : Live W s → ∀ t x, txn' t = some x → x.fresh = true → 2 ≤ (s.db x.db).rank)
    (hall : Kept W s → ∀ t x, txn' t = some x → x.fresh = true)
    (hclear : ∀ d, Clear s d → ∀ t x, txn' t = some x → x.db = d → x.fresh = true)
    (hidle : Adding s → s.m.state ≠ some .writeLocal → ∀ r, run' r = none)
    (hruns : Kept W s → ∀ r x, run' r = some x → RunOk W slot' r x) :
    Inv W { s with slot := slot', txn := txn', run := run' } :=
  { shape := h.shape, vNone := h.vNone, vDel := h.vDel, vWo := h.vWo, vWl := h.vWl, vPub := h.vPub, noPub := h.noPub
    empty := hE
    orphan := hO
    good := fun a k => hG (.inr a) k (h.good a k)
    held := hheld
    txnDb := hdb
    carry := hcarry
    fresh := hfresh
    allFresh := hall
    calm := h.calm
    castOk := fun a b c hc => ⟨(h.castOk a b c hc).1, fun d hd n1 n2 =>
      have := (h.castOk a b c hc).2 d hd n1 n2
      ⟨this.1, hclear d this⟩⟩
    waitOk := fun a b hw d hd =>
      have := h.waitOk a b hw d hd
      ⟨this.1, hclear d this⟩
    idle := fun a b => ⟨(h.idle a b).1, (h.idle a b).2.1, hidle a b⟩
    kind := h.kind
    works := fun a => by
      obtain ⟨ws, w1, w2, w3⟩ := h.works a
      exact ⟨ws, w1, w2, fun w hw hd => ⟨(w3 w hw hd).1, fun k hk => hG (.inl ⟨a, (w3 w hw hd).1⟩) k ((w3 w hw hd).2 k hk)⟩⟩
    runs := hruns }

/-- A run is not disturbed by what others do. -/
theorem RunOk.mono {slot slot' : Bytes → Slot V} {r : Nat} {x : Run} (h : RunOk W slot r x)
    (hG : ∀ k, GoodS (slot k) → GoodS (slot' k))
    (hL : ∀ k c, (slot k).lock = some (.filler r, c) → slot' k = slot k) : RunOk W slot' r x :=
  { before := fun k a b => hG k (h.before k a b)
    unseen := fun o k a b => hG k (h.unseen o k a b)
    batch := fun o k a b c => by
      rcases h.batch o k a b c with d | ⟨c', d1, d2⟩
      · exact .inl (hG k d)
      · right
        rw [hL k c' d1]
        exact ⟨c', d1, d2⟩
    pos := h.pos
    over := fun o k a => hG k (h.over o k a) }

theorem inv_begin (h : Inv W s) (t d : Nat) (hd : d < W.dbs) (ht : s.txn t = none) :
    Inv W { s with txn := setAt s.txn t (some ⟨d, decide (2 ≤ (s.db d).rank)⟩) } := by
  have cases_ : ∀ t' x, setAt s.txn t (some ⟨d, decide (2 ≤ (s.db d).rank)⟩) t' = some x →
      (t' = t ∧ x = ⟨d, decide (2 ≤ (s.db d).rank)⟩) ∨ (t' ≠ t ∧ s.txn t' = some x) := by
    intro t' x hx
    by_cases e : t' = t
    · subst e; rw [setAt_self] at hx; exact .inl ⟨rfl, (Option.some.inj hx).symm⟩
    · rw [setAt_ne _ _ e] at hx; exact .inr ⟨e, hx⟩
  refine h.of_data (slot' := s.slot) (run' := s.run) h.empty h.orphan (fun _ _ a => a) ?_ ?_ ?_ ?_ ?_ ?_
    (fun a b => (h.idle a b).2.2) h.runs
  · intro k t' c hl
    by_cases e : t' = t
    · subst e; exact ⟨_, setAt_self _ _ _⟩
    · rw [setAt_ne _ _ e]; exact h.held k t' c hl
  · intro t' x hx
    rcases cases_ t' x hx with ⟨-, rfl⟩ | ⟨-, hx⟩
    · exact hd
    · exact h.txnDb t' x hx
  · intro l k hh c hl hf hg
    refine h.carry l k hh c hl (fun t' x e hx => ?_) hg
    by_cases e' : t' = t
    · subst e'; rw [ht] at hx; cases hx
    · exact hf t' x e (by rw [setAt_ne _ _ e']; exact hx)
  · intro l t' x hx hf
    rcases cases_ t' x hx with ⟨-, rfl⟩ | ⟨-, hx⟩
    · exact of_decide_eq_true hf
    · exact h.fresh l t' x hx hf
  · intro l t' x hx
    rcases cases_ t' x hx with ⟨-, rfl⟩ | ⟨-, hx⟩
    · refine decide_eq_true ?_
      rcases l with ⟨a, b⟩ | p
      · exact ((h.vWl a b).1 d hd).1
      · exact (h.vPub p).1 d hd
    · exact h.allFresh l t' x hx
  · intro d' hc t' x hx e
    rcases cases_ t' x hx with ⟨-, rfl⟩ | ⟨-, hx⟩
    · have e : d = d' := e
      rw [← e] at hc; exact decide_eq_true hc.1
    · exact hc.2 t' x hx e

theorem inv_lock (h : Inv W s) (t : Nat) (x : Txn) (k : Bytes) (ht : s.txn t = some x) (hl : (s.slot k).lock = none) :
    Inv W { s with slot := setAt s.slot k ⟨(s.slot k).cur, some (.client t, (s.slot k).cur)⟩ } := by
  have both : ∀ (P : Cell V → Prop) k', P (s.slot k').cur ∧ P (s.slot k').committed →
      P (setAt s.slot k ⟨(s.slot k).cur, some (.client t, (s.slot k).cur)⟩ k').cur ∧
      P (setAt s.slot k ⟨(s.slot k).cur, some (.client t, (s.slot k).cur)⟩ k').committed := by
    intro P k' a
    by_cases e : k' = k
    · subst e; rw [setAt_self]; exact ⟨a.1, by rw [committed_some rfl]; exact a.1⟩
    · rw [setAt_ne _ _ e]; exact a
  have hG : ∀ k', GoodS (s.slot k') → GoodS (setAt s.slot k ⟨(s.slot k).cur, some (.client t, (s.slot k).cur)⟩ k') :=
    fun k' a => both Good k' a
  refine h.of_data (txn' := s.txn) (run' := s.run) (fun a b k' => both (fun c => c.ents = []) k' (h.empty a b k'))
    (fun a k' => both NoOrphan k' (h.orphan a k')) (fun _ k' a => hG k' a) ?_ h.txnDb ?_ h.fresh h.allFresh
    (fun d hc => hc.2) (fun a b => (h.idle a b).2.2) ?_
  · intro k' t' c hl'
    by_cases e : k' = k
    · subst e; rw [setAt_self] at hl'
      simp only [Option.some.injEq, Prod.mk.injEq, Holder.client.injEq] at hl'
      rw [← hl'.1]; exact ⟨x, ht⟩
    · rw [setAt_ne _ _ e] at hl'; exact h.held k' t' c hl'
  · intro l k' hh c hl' hf hg
    by_cases e : k' = k
    · subst e; rw [setAt_self] at hl' ⊢
      simp only [Option.some.injEq, Prod.mk.injEq] at hl'
      rw [hl'.2]; exact hg
    · rw [setAt_ne _ _ e] at hl' ⊢; exact h.carry l k' hh c hl' hf hg
  · intro kp r y hy
    refine (h.runs kp r y hy).mono hG (fun k' c hc => ?_)
    by_cases e : k' = k
    · subst e; rw [hl] at hc; cases hc
    · rw [setAt_ne _ _ e]

theorem inv_dml (h : Inv W s) (t : Nat) (x : Txn) (n : Nat) (k : Bytes) (c : Cell V) (op : Dml V) (ht : s.txn t = some x)
    (hn : n < W.stores) (hl : (s.slot k).lock = some (.client t, c))
    (hs : NeedsSync (s.db x.db) op → 2 ≤ (s.db x.db).rank → 2 ≤ (s.store n).rank) :
    Inv W { s with slot := setAt s.slot k ⟨exec (s.db x.db) (s.store n) op (s.slot k).cur, some (.client t, c)⟩ } := by
  have hcm : (s.slot k).committed = c := committed_some hl
  have good : Live W s → x.fresh = true → Good (s.slot k).cur → Good (exec (s.db x.db) (s.store n) op (s.slot k).cur) := by
    intro l hf hg
    have r := h.fresh l t x ht hf
    exact exec_good r (fun a => hs a r) hg
  have hG : Kept W s → ∀ k', GoodS (s.slot k') →
      GoodS (setAt s.slot k ⟨exec (s.db x.db) (s.store n) op (s.slot k).cur, some (.client t, c)⟩ k') := by
    intro kp k' a
    by_cases e : k' = k
    · subst e; rw [setAt_self]
      exact ⟨good kp.live (h.allFresh kp t x ht) a.1, by rw [committed_some rfl, ← hcm]; exact a.2⟩
    · rw [setAt_ne _ _ e]; exact a
  have hE : Adding s → s.m.state = some .none ∨ s.m.state = some .deleteOnly → ∀ k',
      EmptyS (setAt s.slot k ⟨exec (s.db x.db) (s.store n) op (s.slot k).cur, some (.client t, c)⟩ k') := by
    intro a b k'
    by_cases e : k' = k
    · subst e; rw [setAt_self]
      refine ⟨exec_nil ?_ ?_ (h.empty a b k').1, by rw [committed_some rfl, ← hcm]; exact (h.empty a b k').2⟩
      · rcases b with b | b
        · rw [(h.vNone a b).1 _ (h.txnDb t x ht)]; decide
        · exact (h.vDel a b).1 _ (h.txnDb t x ht)
      · rcases b with b | b
        · rw [(h.vNone a b).2 n hn]; decide
        · exact (h.vDel a b).2 n hn
    · rw [setAt_ne _ _ e]; exact h.empty a b k'
  refine h.of_data (txn' := s.txn) (run' := s.run) hE ?_ hG ?_ h.txnDb ?_ h.fresh h.allFresh
    (fun d hc => hc.2) (fun a b => (h.idle a b).2.2) ?_
  · intro l k'
    by_cases e : k' = k
    · subst e
      have old := h.orphan l k'
      have rest : NoOrphan c := by rw [← hcm]; exact old.2
      have key : 1 ≤ (s.store n).rank ∨ (Adding s ∧ (s.m.state = some .none ∨ s.m.state = some .deleteOnly)) := by
        rcases l with ad | p
        · rcases h.shape ad with b | b | b | b
          · exact .inr ⟨ad, .inl b⟩
          · exact .inr ⟨ad, .inr b⟩
          · exact .inl ((h.vWo ad b).2 n hn).1
          · exact .inl ((h.vWl ad b).2 n hn).1
        · exact .inl ((h.vPub p).2 n hn)
      rcases key with key | ⟨ad, b⟩
      · rw [setAt_self]
        exact ⟨exec_orphan key old.1, by rw [committed_some rfl]; exact rest⟩
      · have := hE ad b k'
        exact ⟨fun v hv => (by rw [this.1] at hv; cases hv), fun v hv => (by rw [this.2] at hv; cases hv)⟩
    · rw [setAt_ne _ _ e]; exact h.orphan l k'
  · intro k' t' c' hl'
    by_cases e : k' = k
    · subst e; rw [setAt_self] at hl'
      simp only [Option.some.injEq, Prod.mk.injEq, Holder.client.injEq] at hl'
      rw [← hl'.1]; exact ⟨x, ht⟩
    · rw [setAt_ne _ _ e] at hl'; exact h.held k' t' c' hl'
  · intro l k' hh c' hl' hf hg
    by_cases e : k' = k
    · subst e; rw [setAt_self] at hl' ⊢
      simp only [Option.some.injEq, Prod.mk.injEq] at hl'
      obtain ⟨rfl, rfl⟩ := hl'
      exact good l (hf t x rfl ht) (h.carry l k' _ c hl hf hg)
    · rw [setAt_ne _ _ e] at hl' ⊢; exact h.carry l k' hh c' hl' hf hg
  · intro kp r y hy
    refine (h.runs kp r y hy).mono (hG kp) (fun k' c' hc => ?_)
    by_cases e : k' = k
    · subst e; rw [hl] at hc; cases hc
    · rw [setAt_ne _ _ e]

/-- A transaction ends: what holds of both sides of each slot holds after. -/
theorem inv_end (h : Inv W s) (t : Nat) (f : Slot V → Slot V)
    (both : ∀ (P : Cell V → Prop) (y : Slot V), P y.cur ∧ P y.committed → P (f y).cur ∧ P (f y).committed)
    (hf : ∀ y : Slot V, ((∃ c, y.lock = some (.client t, c)) ∧ (f y).lock = none) ∨ ((∀ c, y.lock ≠ some (.client t, c)) ∧ f y = y)) :
    Inv W { s with slot := fun y => f (s.slot y), txn := setAt s.txn t none } := by
  have hG : ∀ k', GoodS (s.slot k') → GoodS (f (s.slot k')) := fun k' a => both Good _ a
  have tx : ∀ t' x, setAt s.txn t none t' = some x → t' ≠ t ∧ s.txn t' = some x := by
    intro t' x hx
    by_cases e : t' = t
    · subst e; rw [setAt_self] at hx; cases hx
    · rw [setAt_ne _ _ e] at hx; exact ⟨e, hx⟩
  refine h.of_data (run' := s.run) (fun a b k' => both (fun c => c.ents = []) _ (h.empty a b k'))
    (fun a k' => both NoOrphan _ (h.orphan a k')) (fun _ k' a => hG k' a) ?_ (fun t' x hx => h.txnDb t' x (tx t' x hx).2) ?_
    (fun l t' x hx => h.fresh l t' x (tx t' x hx).2) (fun l t' x hx => h.allFresh l t' x (tx t' x hx).2)
    (fun d hc t' x hx => hc.2 t' x (tx t' x hx).2) (fun a b => (h.idle a b).2.2) ?_
  · intro k' t' c hl
    rcases hf (s.slot k') with ⟨-, e⟩ | ⟨e1, e2⟩
    · rw [e] at hl; cases hl
    · rw [e2] at hl
      have ne : t' ≠ t := fun e => e1 c (e ▸ hl)
      rw [setAt_ne _ _ ne]; exact h.held k' t' c hl
  · intro l k' hh c hl hfr hg
    rcases hf (s.slot k') with ⟨-, e⟩ | ⟨e1, e2⟩
    · rw [e] at hl; cases hl
    · rw [e2] at hl ⊢
      refine h.carry l k' hh c hl (fun t' x e hx => ?_) hg
      have ne : t' ≠ t := fun e' => e1 c (by rw [hl, e, e'])
      exact hfr t' x e (by rw [setAt_ne _ _ ne]; exact hx)
  · intro kp r y hy
    refine (h.runs kp r y hy).mono hG (fun k' c hc => ?_)
    rcases hf (s.slot k') with ⟨⟨c', e⟩, -⟩ | ⟨-, e2⟩
    · rw [hc] at e; cases e
    · exact e2

theorem inv_commit (h : Inv W s) (t : Nat) :
    Inv W { s with slot := fun y => (s.slot y).commit (.client t), txn := setAt s.txn t none } := by
  refine inv_end h t (·.commit (.client t)) (fun P y => commit_both) (fun y => ?_)
  rcases commit_cases (.client t) y with ⟨a, b⟩ | h'
  · exact .inl ⟨a, by rw [b]⟩
  · exact .inr h'

theorem inv_rollback (h : Inv W s) (t : Nat) :
    Inv W { s with slot := fun y => (s.slot y).rollback (.client t), txn := setAt s.txn t none } := by
  refine inv_end h t (·.rollback (.client t)) (fun P y => rollback_both) (fun y => ?_)
  rcases rollback_cases (.client t) y with ⟨c, a, b⟩ | h'
  · exact .inl ⟨⟨c, a⟩, by rw [b]⟩
  · exact .inr h'

/-! ## Filling the index -/

theorem run_cases {f : Nat → Option Run} {r r' : Nat} {y : Option Run} {x : Run} (h : setAt f r y r' = some x) :
    (r' = r ∧ y = some x) ∨ (r' ≠ r ∧ f r' = some x) := by
  by_cases e : r' = r
  · subst e; rw [setAt_self] at h; exact .inl ⟨rfl, h⟩
  · rw [setAt_ne _ _ e] at h; exact .inr ⟨e, h⟩

/-- Only the runs change. -/
theorem Inv.of_run (h : Inv W s) (r : Nat) (y : Option Run)
    (hidle : Adding s → s.m.state ≠ some .writeLocal → y = none) (hy : Kept W s → ∀ x, y = some x → RunOk W s.slot r x) :
    Inv W { s with run := setAt s.run r y } := by
  refine h.of_data (slot' := s.slot) (txn' := s.txn) h.empty h.orphan (fun _ _ a => a) h.held h.txnDb h.carry h.fresh h.allFresh
    (fun d hc => hc.2) (fun a b r' => ?_) (fun kp r' x hx => ?_)
  · by_cases e : r' = r
    · subst e; rw [setAt_self]; exact hidle a b
    · rw [setAt_ne _ _ e]; exact (h.idle a b).2.2 r'
  · rcases run_cases hx with ⟨rfl, e⟩ | ⟨-, e⟩
    · exact hy kp x e
    · exact h.runs kp r' x e

theorem Inv.running (h : Inv W s) {r : Nat} {x : Run} (hr : s.run r = some x) (a : Adding s) : s.m.state = some .writeLocal := by
  by_contra b
  rw [(h.idle a b).2.2 r] at hr; cases hr

theorem inv_runStart (h : Inv W s) (r a : Nat) (w : RWork) (hw : (a, w) ∈ s.m.doing) :
    Inv W { s with run := setAt s.run r (some (newRun a w)) } := by
  refine h.of_run r _ (fun ad b => ?_) (fun _ x hx => ?_)
  · rw [(h.idle ad b).2.1] at hw; cases hw
  · rw [← Option.some.inj hx]
    exact
    { before := fun k _ b => absurd (fun q hq => (nomatch hq)) b
      unseen := fun o => by cases o
      batch := fun o => by cases o
      pos := fun o => by cases o
      over := fun o => by cases o }

/-- A row nobody sees is in no need of an entry, and whoever is writing it will make one. -/
theorem Inv.good_of_unseen (h : Inv W s) (kp : Kept W s) (k : Bytes) (hk : (s.slot k).committed.row.isSome = false) : GoodS (s.slot k) := by
  have g : Good (s.slot k).committed := good_of_none (by simpa using hk)
  refine ⟨?_, g⟩
  cases hl : (s.slot k).lock with
  | none => rw [← committed_none hl]; exact g
  | some p =>
    obtain ⟨hh, c⟩ := p
    refine h.carry kp.live k hh c hl (fun t x _ hx => h.allFresh kp t x hx) ?_
    rw [← committed_some hl]; exact g

theorem inv_batchStart (h : Inv W s) (r : Nat) (x : Run) (hr : s.run r = some x) (hv : x.over = false) :
    Inv W { s with run := setAt s.run r (some (openBatch s.slot x)) } := by
  refine h.of_run r _ (fun ad b => absurd (h.running hr ad) b) (fun kp y hy => ?_)
  rw [← Option.some.inj hy]
  have ok := h.runs kp r x hr
  exact
  { before := ok.before
    unseen := fun _ k _ b => h.good_of_unseen kp k b
    batch := fun _ k a _ c => .inl (ok.before k a c)
    pos := fun _ _ => rfl
    over := fun o => by rw [show x.over = true from o] at hv; cases hv }

theorem inv_scanRow (h : Inv W s) (r : Nat) (x : Run) (k : Bytes) (hr : s.run r = some x) (ho : x.open? = true)
    (hk : NextRow W x k) (hl : (s.slot k).lock = none) :
    Inv W { s with slot := setAt s.slot k ⟨fill (s.slot k).cur, some (.filler r, (s.slot k).cur)⟩,
                   run := setAt s.run r (some { x with pos := some k, cnt := x.cnt + 1 }) } := by
  have hG : ∀ k', GoodS (s.slot k') → GoodS (setAt s.slot k ⟨fill (s.slot k).cur, some (.filler r, (s.slot k).cur)⟩ k') := by
    intro k' a
    by_cases e : k' = k
    · subst e; rw [setAt_self]; exact ⟨fill_good _, by rw [committed_some rfl]; exact a.1⟩
    · rw [setAt_ne _ _ e]; exact a
  refine h.of_data (txn' := s.txn) ?_ ?_ (fun _ => hG) ?_ h.txnDb ?_ h.fresh h.allFresh (fun d hc => hc.2) ?_ ?_
  · intro a b
    rcases b with b | b <;> rw [h.running hr a] at b <;> cases b
  · intro l k'
    by_cases e : k' = k
    · subst e; rw [setAt_self]
      exact ⟨fill_orphan (h.orphan l k').1, by rw [committed_some rfl]; exact (h.orphan l k').1⟩
    · rw [setAt_ne _ _ e]; exact h.orphan l k'
  · intro k' t' c hl'
    by_cases e : k' = k
    · subst e; rw [setAt_self] at hl'; simp at hl'
    · rw [setAt_ne _ _ e] at hl'; exact h.held k' t' c hl'
  · intro l k' hh c hl' hf hg
    by_cases e : k' = k
    · subst e; rw [setAt_self]; exact fill_good _
    · rw [setAt_ne _ _ e] at hl' ⊢; exact h.carry l k' hh c hl' hf hg
  · intro a b; exact absurd (h.running hr a) b
  · intro kp r' y hy
    rcases run_cases hy with ⟨rfl, e⟩ | ⟨ne, e⟩
    · have e := Option.some.inj e
      subst e
      have ok := h.runs kp r' x hr
      exact
      { before := fun k' a b => hG k' (ok.before k' a b)
        unseen := fun o k' a b => hG k' (ok.unseen ho k' a b)
        batch := fun _ k' a b c => by
          by_cases e : k' = k
          · right; subst e; rw [setAt_self]; exact ⟨_, rfl, fill_good _⟩
          · have old : ¬ after x.pos k' := by
              intro af
              have le := hk.2.2.2 k' b a af
              refine c fun q hq => ?_
              have : k = q := Option.some.inj hq
              subst this
              rcases BLe_iff.mp le with h1 | h1
              · exact h1
              · exact absurd h1.symm e
            rcases ok.batch ho k' a b old with d | ⟨c', d1, d2⟩
            · exact .inl (hG k' d)
            · right; rw [setAt_ne _ _ e]; exact ⟨c', d1, d2⟩
        pos := fun _ z => by simp at z
        over := fun o k' a => hG k' (ok.over o k' a) }
    · refine (h.runs kp r' y e).mono hG (fun k' c hc => ?_)
      by_cases e : k' = k
      · subst e; rw [hl] at hc; cases hc
      · rw [setAt_ne _ _ e]

/-- A filler gives up its locks one way or the other. -/
theorem inv_fillerEnd (h : Inv W s) (r : Nat) (x y : Run) (hr : s.run r = some x) (f : Slot V → Slot V)
    (both : ∀ (P : Cell V → Prop) (z : Slot V), P z.cur ∧ P z.committed → P (f z).cur ∧ P (f z).committed)
    (hf : ∀ z : Slot V, ((∃ c, z.lock = some (.filler r, c)) ∧ (f z).lock = none) ∨ ((∀ c, z.lock ≠ some (.filler r, c)) ∧ f z = z))
    (hy : Kept W s → RunOk W (fun k => f (s.slot k)) r y) :
    Inv W { s with slot := fun k => f (s.slot k), run := setAt s.run r (some y) } := by
  have hG : ∀ k', GoodS (s.slot k') → GoodS (f (s.slot k')) := fun k' a => both Good _ a
  refine h.of_data (txn' := s.txn) (fun a b k' => both (fun c => c.ents = []) _ (h.empty a b k'))
    (fun a k' => both NoOrphan _ (h.orphan a k')) (fun _ k' a => hG k' a) ?_ h.txnDb ?_ h.fresh h.allFresh
    (fun d hc => hc.2) (fun a b => absurd (h.running hr a) b) ?_
  · intro k' t' c hl
    rcases hf (s.slot k') with ⟨-, e⟩ | ⟨e1, e2⟩
    · rw [e] at hl; cases hl
    · rw [e2] at hl; exact h.held k' t' c hl
  · intro l k' hh c hl hfr hg
    rcases hf (s.slot k') with ⟨-, e⟩ | ⟨e1, e2⟩
    · rw [e] at hl; cases hl
    · rw [e2] at hl ⊢; exact h.carry l k' hh c hl hfr hg
  · intro kp r' z hz
    rcases run_cases hz with ⟨rfl, e⟩ | ⟨ne, e⟩
    · rw [← Option.some.inj e]; exact hy kp
    · refine (h.runs kp r' z e).mono hG (fun k' c hc => ?_)
      rcases hf (s.slot k') with ⟨⟨c', e'⟩, -⟩ | ⟨-, e2⟩
      · rw [hc] at e'
        simp only [Option.some.injEq, Prod.mk.injEq, Holder.filler.injEq] at e'
        exact absurd e'.1 ne
      · exact e2

theorem inv_batchCommit (h : Inv W s) (hlim : 0 < W.limit) (r : Nat) (x : Run) (hr : s.run r = some x) (ho : x.open? = true)
    (hfull : x.cnt = W.limit ∨ ∀ k, x.snap k = true → W.range x.work.region k → ¬ after x.pos k) :
    Inv W { s with slot := fun y => (s.slot y).commit (.filler r), run := setAt s.run r (some (closeBatch x)) } := by
  refine inv_fillerEnd h r x _ hr (·.commit (.filler r)) (fun P y => commit_both) (fun y => ?_) (fun kp => ?_)
  · rcases commit_cases (.filler r) y with ⟨a, b⟩ | h'
    · exact .inl ⟨a, by rw [b]⟩
    · exact .inr h'
  have ok := h.runs kp r x hr
  have hG : ∀ k', GoodS (s.slot k') → GoodS ((s.slot k').commit (.filler r)) := fun k' a => commit_both (P := Good) a
  have upTo : ∀ k, W.range x.work.region k → ¬ after x.pos k → GoodS ((s.slot k).commit (.filler r)) := by
    intro k a b
    cases hs : x.snap k with
    | false => exact hG k (ok.unseen ho k a hs)
    | true =>
      rcases ok.batch ho k a hs b with d | ⟨c, d1, d2⟩
      · exact hG k d
      · rcases commit_cases (.filler r) (s.slot k) with ⟨-, e⟩ | ⟨e, -⟩
        · rw [e]; exact ⟨d2, by rw [committed_none rfl]; exact d2⟩
        · exact absurd d1 (e c)
  exact
  { before := upTo
    unseen := fun o => by cases o
    batch := fun o => by cases o
    pos := fun o => by cases o
    over := fun o k a => by
      have z : x.cnt = 0 := of_decide_eq_true o
      rcases hfull with f | f
      · omega
      · cases hs : x.snap k with
        | false => exact hG k (ok.unseen ho k a hs)
        | true => exact upTo k a (f k hs a) }

theorem inv_batchAbort (h : Inv W s) (r : Nat) (x : Run) (hr : s.run r = some x) :
    Inv W { s with slot := fun y => (s.slot y).rollback (.filler r), run := setAt s.run r (some { x with open? := false }) } := by
  refine inv_fillerEnd h r x _ hr (·.rollback (.filler r)) (fun P y => rollback_both) (fun y => ?_) (fun kp => ?_)
  · rcases rollback_cases (.filler r) y with ⟨c, a, b⟩ | h'
    · exact .inl ⟨⟨c, a⟩, by rw [b]⟩
    · exact .inr h'
  have ok := h.runs kp r x hr
  have hG : ∀ k', GoodS (s.slot k') → GoodS ((s.slot k').rollback (.filler r)) := fun k' a => rollback_both (P := Good) a
  exact
  { before := fun k a b => hG k (ok.before k a b)
    unseen := fun o => by cases o
    batch := fun o => by cases o
    pos := fun o => by cases o
    over := fun o k a => hG k (ok.over o k a) }

theorem inv_runDone (h : Inv W s) (r : Nat) (x : Run) (hr : s.run r = some x) (ho : x.over = true) :
    Inv W { s with m := report x.addr { x.work with status := .done } s.m, run := setAt s.run r none } := by
  have h1 := h.of_run r none (fun _ _ => rfl) (fun _ _ e => nomatch e)
  refine inv_report h1 x.addr { x.work with status := .done } (fun _ a => ?_)
  have st := h.running hr a
  exact ⟨st, fun k hk => (h.runs (.inl ⟨a, st⟩) r x hr).over ho k hk⟩

/-! ## All steps -/

theorem inv_init (h : Init W s) : Inv W s := by
  have hm := h.meta_
  have hs : s.m.state = some .none := by rw [hm]; rfl
  have nS : ¬ Seen W s := by
    rintro (⟨d, -, e⟩ | ⟨n, -, e⟩)
    · rw [h.db] at e; cases e
    · rw [h.store] at e; cases e
  have nP : ¬ Pub W s := by
    rintro (a | a)
    · rw [hs] at a; cases a
    · exact nS a
  have nK : ¬ Kept W s := by
    rintro (a | a)
    · rw [hs] at a; cases a.2
    · exact nP a
  have cm : ∀ k, (s.slot k).committed = (s.slot k).cur := fun k => committed_none (h.slot k).1
  have em : ∀ k, EmptyS (s.slot k) := fun k => ⟨(h.slot k).2, by rw [cm]; exact (h.slot k).2⟩
  exact
  { shape := fun _ => .inl hs
    vNone := fun _ _ => ⟨fun d _ => by rw [h.db]; rfl, fun n _ => by rw [h.store]; rfl⟩
    vDel := fun _ b => by rw [hs] at b; cases b
    vWo := fun _ b => by rw [hs] at b; cases b
    vWl := fun _ b => by rw [hs] at b; cases b
    vPub := fun a => absurd a nP
    noPub := fun a => absurd a nS
    empty := fun _ _ => em
    orphan := fun _ k => ⟨fun v hv => (by rw [(em k).1] at hv; cases hv), fun v hv => (by rw [(em k).2] at hv; cases hv)⟩
    good := fun a => absurd a nP
    held := fun k t c hl => by rw [(h.slot k).1] at hl; cases hl
    txnDb := fun t x hx => by rw [h.txn] at hx; cases hx
    carry := fun _ k _ _ hl => by rw [(h.slot k).1] at hl; cases hl
    fresh := fun _ t x hx => by rw [h.txn] at hx; cases hx
    allFresh := fun a => absurd a nK
    calm := fun _ _ => by rw [hm]; exact ⟨rfl, rfl⟩
    castOk := fun _ b => by rw [hs] at b; cases b
    waitOk := fun _ b => by rw [hs] at b; cases b
    idle := fun _ _ => by rw [hm]; exact ⟨rfl, rfl, h.run⟩
    kind := by rw [hm]; rfl
    works := fun _ => by
      refine ⟨_, by rw [hm]; rfl, fun r hr => ⟨_, List.mem_map_of_mem hr, rfl⟩, fun w hw hd => ?_⟩
      obtain ⟨r, -, rfl⟩ := List.mem_map.mp hw
      cases hd
    runs := fun a => absurd a nK }

theorem inv_step (hcover : ∀ k, ∃ r ∈ W.regions, W.range r k) (hlim : 0 < W.limit) {s' : Sys V} (h : Inv W s)
    (st : Step W true s s') : Inv W s' := by
  cases st with
  | tick e h1 h2 h3 => exact inv_tick h hcover e h1 h2 h3
  | startDrop => exact inv_startDrop h
  | newLeader back => exact inv_newLeader h back
  | handOver a => exact inv_handOver h a
  | giveUp a r => exact inv_giveUp h a r
  | castHandOver a => exact inv_castHandOver h a
  | castDone a hc => exact inv_castDone h a hc
  | castFail => exact inv_castFail h
  | castLost a hc => exact inv_castLost h a hc
  | hearDb d i hi =>
    exact h.of_view (store' := s.store) hi (fun d' => by unfold setAt; split <;> simp) (fun _ => .inl rfl)
  | hearStore n i hi =>
    exact h.of_view (db' := s.db) hi (fun _ => .inl rfl) (fun n' => by unfold setAt; split <;> simp)
  | begin t d hd ht => exact inv_begin h t d hd ht
  | lock t x k ht hl => exact inv_lock h t x k ht hl
  | dml t x n k c op ht hn hl hs => exact inv_dml h t x n k c op ht hn hl (hs rfl)
  | commit t => exact inv_commit h t
  | rollback t => exact inv_rollback h t
  | runStart r a w hw hr => exact inv_runStart h r a w hw
  | batchStart r x hr ho hv hst => exact inv_batchStart h r x hr hv
  | scanRow r x k hr ho hc hk hl => exact inv_scanRow h r x k hr ho hk hl
  | batchCommit r x hr ho hf => exact inv_batchCommit h hlim r x hr ho hf
  | batchAbort r x hr ho => exact inv_batchAbort h r x hr
  | runDone r x hr ho => exact inv_runDone h r x hr ho
  | runReport a w hw => exact inv_report h a w (fun e => absurd e hw)

theorem inv_reach (hcover : ∀ k, ∃ r ∈ W.regions, W.range r k) (hlim : 0 < W.limit) (h : Reach W true s) : Inv W s := by
  induction h with
  | init s h => exact inv_init h
  | step s s' _ st ih => exact inv_step hcover hlim ih st

end BaikalDB.Ddl
