import Verif.Ddl.Lemmas

/-!
# What holds in every reachable state
-/

namespace BaikalDB.Ddl

set_option linter.unusedSectionVars false

variable {V : Type} [DecidableEq V] {W : World} {s : Sys V}

def Adding (s : Sys V) : Prop := s.m.job = some .add

/-- Some SQL node or store takes the index to be public. -/
def Seen (W : World) (s : Sys V) : Prop := (∃ d, d < W.dbs ∧ s.db d = .pub) ∨ ∃ n, n < W.stores ∧ s.store n = .pub

def Pub (W : World) (s : Sys V) : Prop := s.m.state = some .pub ∨ Seen W s

/-- From here on the index is kept complete by every statement. -/
def Kept (W : World) (s : Sys V) : Prop := (Adding s ∧ s.m.state = some .writeLocal) ∨ Pub W s

def Live (W : World) (s : Sys V) : Prop := Adding s ∨ Pub W s

theorem Kept.live (h : Kept W s) : Live W s := h.elim (fun h => .inl h.1) .inr

structure RunOk (W : World) (slot : Bytes → Slot V) (r : Nat) (x : Run) : Prop where
  before : ∀ k, W.range x.work.region k → ¬ after x.from? k → GoodS (slot k)
  unseen : x.open? = true → ∀ k, W.range x.work.region k → x.snap k = false → GoodS (slot k)
  batch : x.open? = true → ∀ k, W.range x.work.region k → x.snap k = true → ¬ after x.pos k →
    GoodS (slot k) ∨ ∃ c, (slot k).lock = some (.filler r, c) ∧ Good (slot k).cur
  pos : x.open? = true → x.cnt = 0 → x.pos = x.from?
  over : x.over = true → ∀ k, W.range x.work.region k → GoodS (slot k)

structure Inv (W : World) (s : Sys V) : Prop where
  shape : Adding s → s.m.state = some .none ∨ s.m.state = some .deleteOnly ∨ s.m.state = some .writeOnly ∨ s.m.state = some .writeLocal
  vNone : Adding s → s.m.state = some .none → (∀ d, d < W.dbs → (s.db d).rank = 0) ∧ ∀ n, n < W.stores → (s.store n).rank = 0
  vDel : Adding s → s.m.state = some .deleteOnly → (∀ d, d < W.dbs → (s.db d).rank ≤ 1) ∧ ∀ n, n < W.stores → (s.store n).rank ≤ 1
  vWo : Adding s → s.m.state = some .writeOnly →
    (∀ d, d < W.dbs → 1 ≤ (s.db d).rank ∧ (s.db d).rank ≤ 2) ∧ ∀ n, n < W.stores → 1 ≤ (s.store n).rank ∧ (s.store n).rank ≤ 2
  vWl : Adding s → s.m.state = some .writeLocal →
    (∀ d, d < W.dbs → 2 ≤ (s.db d).rank ∧ (s.db d).rank ≤ 3) ∧ ∀ n, n < W.stores → 1 ≤ (s.store n).rank ∧ (s.store n).rank ≤ 3
  vPub : Pub W s → (∀ d, d < W.dbs → 2 ≤ (s.db d).rank) ∧ ∀ n, n < W.stores → 1 ≤ (s.store n).rank
  noPub : Seen W s → s.m.state = some .pub ∨ (s.m.state = some .writeOnly ∧ ¬ Adding s)
  empty : Adding s → s.m.state = some .none ∨ s.m.state = some .deleteOnly → ∀ k, EmptyS (s.slot k)
  orphan : Live W s → ∀ k, NoOrphanS (s.slot k)
  good : Pub W s → ∀ k, GoodS (s.slot k)
  held : ∀ k t c, (s.slot k).lock = some (.client t, c) → ∃ x, s.txn t = some x
  txnDb : ∀ t x, s.txn t = some x → x.db < W.dbs
  carry : Live W s → ∀ k h c, (s.slot k).lock = some (h, c) → (∀ t x, h = .client t → s.txn t = some x → x.fresh = true) →
    Good c → Good (s.slot k).cur
  fresh : Live W s → ∀ t x, s.txn t = some x → x.fresh = true → 2 ≤ (s.db x.db).rank
  allFresh : Kept W s → ∀ t x, s.txn t = some x → x.fresh = true
  calm : Adding s → s.m.state = some .none ∨ s.m.state = some .deleteOnly → s.m.cast = none ∧ s.m.wait = none
  castOk : Adding s → s.m.state = some .writeOnly → ∀ c, s.m.cast = some c → c.Ok ∧ ∀ d, d < W.dbs → d ∉ c.todo → d ∉ c.doing → Clear s d
  waitOk : Adding s → s.m.state = some .writeOnly → s.m.wait = some ⟨true, true⟩ → ∀ d, d < W.dbs → Clear s d
  idle : Adding s → s.m.state ≠ some .writeLocal → s.m.todo = [] ∧ s.m.doing = [] ∧ ∀ r, s.run r = none
  kind : s.m.isRollup = false
  works : Adding s → ∃ ws, s.m.works = some ws ∧ (∀ r ∈ W.regions, ∃ w ∈ ws, w.region = r) ∧
    ∀ w ∈ ws, w.status = .done → s.m.state = some .writeLocal ∧ ∀ k, W.range w.region k → GoodS (s.slot k)
  runs : Kept W s → ∀ r x, s.run r = some x → RunOk W s.slot r x

/-! ## Steps of the meta server that leave the state of the index alone -/

theorem Inv.of_meta (h : Inv W s) {m' : Meta} (hj : m'.job = some .add ↔ s.m.job = some .add) (hs : m'.state = s.m.state)
    (hr : m'.isRollup = s.m.isRollup)
    (hcalm : s.m.cast = none → s.m.wait = none → m'.cast = none ∧ m'.wait = none)
    (hcast : Adding s → s.m.state = some .writeOnly →
      (∀ c, m'.cast = some c → c.Ok ∧ ∀ d, d < W.dbs → d ∉ c.todo → d ∉ c.doing → Clear s d) ∧
      (m'.wait = some ⟨true, true⟩ → ∀ d, d < W.dbs → Clear s d))
    (hidle : s.m.todo = [] → s.m.doing = [] → m'.todo = [] ∧ m'.doing = [])
    (hworks : Adding s → ∀ ws, s.m.works = some ws → ∃ ws', m'.works = some ws' ∧
      (∀ r, (∃ w ∈ ws, w.region = r) → ∃ w ∈ ws', w.region = r) ∧
      ∀ w ∈ ws', w.status = .done → w ∈ ws ∨ (s.m.state = some .writeLocal ∧ ∀ k, W.range w.region k → GoodS (s.slot k))) :
    Inv W { s with m := m' } := by
  have eA : Adding { s with m := m' } ↔ Adding s := hj
  have eS : Seen W { s with m := m' } ↔ Seen W s := Iff.rfl
  have eP : Pub W { s with m := m' } ↔ Pub W s := by
    show m'.state = some .pub ∨ _ ↔ s.m.state = some .pub ∨ _
    rw [hs, eS]
  have eK : Kept W { s with m := m' } ↔ Kept W s := by
    show _ ∧ m'.state = _ ∨ _ ↔ _
    rw [hs, eP, eA]; rfl
  have eL : Live W { s with m := m' } ↔ Live W s := by
    show _ ∨ _ ↔ _
    rw [eP, eA]; rfl
  constructor
  · rw [eA]; show _ → m'.state = _ ∨ m'.state = _ ∨ m'.state = _ ∨ m'.state = _; rw [hs]; exact h.shape
  · rw [eA]; show _ → m'.state = _ → _; rw [hs]; exact h.vNone
  · rw [eA]; show _ → m'.state = _ → _; rw [hs]; exact h.vDel
  · rw [eA]; show _ → m'.state = _ → _; rw [hs]; exact h.vWo
  · rw [eA]; show _ → m'.state = _ → _; rw [hs]; exact h.vWl
  · rw [eP]; exact h.vPub
  · rw [eS, eA]; show _ → m'.state = _ ∨ m'.state = _ ∧ _; rw [hs]; exact h.noPub
  · rw [eA]; show _ → m'.state = _ ∨ m'.state = _ → _; rw [hs]; exact h.empty
  · rw [eL]; exact h.orphan
  · rw [eP]; exact h.good
  · exact h.held
  · exact h.txnDb
  · rw [eL]; exact h.carry
  · rw [eL]; exact h.fresh
  · rw [eK]; exact h.allFresh
  · rw [eA]; show _ → m'.state = _ ∨ m'.state = _ → _; rw [hs]
    intro a b
    exact hcalm (h.calm a b).1 (h.calm a b).2
  · rw [eA]; show _ → m'.state = _ → _; rw [hs]
    intro a b; exact (hcast a b).1
  · rw [eA]; show _ → m'.state = _ → _; rw [hs]
    intro a b; exact (hcast a b).2
  · rw [eA]; show _ → m'.state ≠ _ → _; rw [hs]
    intro a b
    obtain ⟨i1, i2, i3⟩ := h.idle a b
    exact ⟨(hidle i1 i2).1, (hidle i1 i2).2, i3⟩
  · show m'.isRollup = false; rw [hr]; exact h.kind
  · rw [eA]
    show _ → ∃ ws, m'.works = some ws ∧ (∀ r ∈ W.regions, ∃ w ∈ ws, w.region = r) ∧
      ∀ w ∈ ws, w.status = .done → m'.state = some .writeLocal ∧ ∀ k, W.range w.region k → GoodS (s.slot k)
    intro a
    obtain ⟨ws, w1, w2, w3⟩ := h.works a
    obtain ⟨ws', v1, v2, v3⟩ := hworks a ws w1
    refine ⟨ws', v1, fun r hr => v2 r (w2 r hr), fun w hw hd => ?_⟩
    rw [hs]
    rcases v3 w hw hd with h' | h'
    · exact w3 w h' hd
    · exact h'
  · rw [eK]; exact h.runs

/-- When the index is not being added any more only what is public matters. -/
theorem Inv.of_notAdding (h : Inv W s) {m' : Meta} (hna : m'.job ≠ some .add) (hr : m'.isRollup = s.m.isRollup)
    (hp : Pub W { s with m := m' } → Pub W s)
    (hno : Seen W s → m'.state = some .pub ∨ m'.state = some .writeOnly) : Inv W { s with m := m' } := by
  have nA : ¬ Adding { s with m := m' } := hna
  have kL : Live W { s with m := m' } → Live W s := fun a => a.elim (fun a => absurd a nA) fun a => .inr (hp a)
  have kK : Kept W { s with m := m' } → Kept W s := fun a => a.elim (fun a => absurd a.1 nA) fun a => .inr (hp a)
  exact
  { shape := fun a => absurd a nA
    vNone := fun a => absurd a nA
    vDel := fun a => absurd a nA
    vWo := fun a => absurd a nA
    vWl := fun a => absurd a nA
    vPub := fun a => h.vPub (hp a)
    noPub := fun a => (hno a).imp_right fun b => ⟨b, nA⟩
    empty := fun a => absurd a nA
    orphan := fun a => h.orphan (kL a)
    good := fun a => h.good (hp a)
    held := h.held
    txnDb := h.txnDb
    carry := fun a => h.carry (kL a)
    fresh := fun a => h.fresh (kL a)
    allFresh := fun a => h.allFresh (kK a)
    calm := fun a => absurd a nA
    castOk := fun a => absurd a nA
    waitOk := fun a => absurd a nA
    idle := fun a => absurd a nA
    kind := hr.trans h.kind
    works := fun a => absurd a nA
    runs := fun a => h.runs (kK a) }

/-- As long as the index is being added nobody takes it to be public. -/
theorem Inv.unseen (h : Inv W s) (a : Adding s) : ¬ Seen W s := by
  intro b
  rcases h.noPub b with c | c
  · rcases h.shape a with d | d | d | d <;> rw [c] at d <;> cases d
  · exact c.2 a

theorem Inv.notPub (h : Inv W s) (a : Adding s) : ¬ Pub W s := by
  rintro (c | c)
  · rcases h.shape a with d | d | d | d <;> rw [c] at d <;> cases d
  · exact h.unseen a c

theorem Inv.quiet_notAdding (h : Inv W s) {m' : Meta} (hna : m'.job ≠ some .add) (hs : m'.state = s.m.state)
    (hr : m'.isRollup = s.m.isRollup) : Inv W { s with m := m' } := by
  refine h.of_notAdding hna hr ?_ ?_
  · rintro (a | a)
    · left; rw [← hs]; exact a
    · right; exact a
  · intro a; rw [hs]; exact (h.noPub a).imp_right And.left

/-! ## One round of the meta server -/

theorem inv_drop (h : Inv W s) (e : Env) (hripe : e.ripe = true → Synced W s) (hj : s.m.job = some .drop) :
    Inv W { s with m := dropTick e s.m } := by
  unfold dropTick
  cases hst : s.m.state with
  | none =>
    have : ({ s with m := s.m } : Sys V) = s := rfl
    simp only; exact h
  | some i =>
    by_cases hr : e.ripe = true
    · simp only [hr, if_true]
      obtain ⟨y1, y2⟩ := hripe hr i hst
      have seen : Seen W s → i = .pub := by
        rintro (⟨d, hd, e⟩ | ⟨n, hn, e⟩)
        · rw [← e, y1 d hd]
        · rw [← e, y2 n hn]
      cases i with
      | pub =>
        unfold setState
        by_cases ha : e.applied = true
        · simp only [ha, if_true]
          refine h.of_notAdding (by simp [hj]) rfl (fun _ => .inl hst) (fun _ => .inr rfl)
        · simp only [ha]; exact h.quiet_notAdding (by simp [hj]) rfl rfl
      | writeLocal =>
        unfold setState
        by_cases ha : e.applied = true
        · simp only [ha, if_true]
          refine h.of_notAdding (by simp [hj]) rfl ?_ (fun a => by cases seen a)
          rintro (a | a)
          · cases a
          · exact .inr a
        · simp only [ha]; exact h.quiet_notAdding (by simp [hj]) rfl rfl
      | writeOnly =>
        unfold setState
        by_cases ha : e.applied = true
        · simp only [ha, if_true]
          refine h.of_notAdding (by simp [hj]) rfl ?_ (fun a => by cases seen a)
          rintro (a | a)
          · cases a
          · exact .inr a
        · simp only [ha]; exact h.quiet_notAdding (by simp [hj]) rfl rfl
      | deleteOnly =>
        simp only
        by_cases hg : s.m.isGlobal = true
        · simp only [hg, if_true]
          unfold setState
          by_cases ha : e.applied = true
          · simp only [ha, if_true]
            refine h.of_notAdding (by simp [hj]) rfl ?_ (fun a => by cases seen a)
            rintro (a | a)
            · cases a
            · exact .inr a
          · simp only [ha]; exact h.quiet_notAdding (by simp [hj]) rfl rfl
        · simp only [hg]
          unfold setState
          by_cases ha : e.applied = true
          · simp only [ha, if_true]
            refine h.of_notAdding (by simp [hj]) rfl ?_ (fun a => by cases seen a)
            rintro (a | a)
            · cases a
            · exact .inr a
          · simp only [ha]; exact h.quiet_notAdding (by simp [hj]) rfl rfl
      | deleteLocal =>
        unfold setState
        by_cases ha : e.applied = true
        · simp only [ha, if_true]
          refine h.of_notAdding (by simp) rfl ?_ (fun a => by cases seen a)
          rintro (a | a)
          · cases a
          · exact .inr a
        · simp only [ha]; exact h.quiet_notAdding (by simp) rfl rfl
      | none =>
        by_cases ha : e.applied = true
        · simp only [ha, if_true]
          refine h.of_notAdding (by simp) rfl ?_ (fun a => by cases seen a)
          rintro (a | a)
          · cases a
          · exact .inr a
        · simp only [ha]; exact h.quiet_notAdding (by simp) rfl rfl
    · simp only [hr]; exact h

theorem Inv.noDone (h : Inv W s) (a : Adding s) (hst : s.m.state ≠ some .writeLocal) :
    ∃ ws, s.m.works = some ws ∧ (∀ r ∈ W.regions, ∃ w ∈ ws, w.region = r) ∧ ∀ w ∈ ws, w.status ≠ .done := by
  obtain ⟨ws, w1, w2, w3⟩ := h.works a
  exact ⟨ws, w1, w2, fun w hw hd => hst (w3 w hw hd).1⟩

/-- The index goes on to `IS_DELETE_ONLY`. -/
theorem inv_toDel (h : Inv W s) (a : Adding s) (hst : s.m.state = some .none) :
    Inv W { s with m := { s.m with state := some .deleteOnly } } := by
  have ns := h.unseen a
  have nL : ∀ P : Prop, Pub W { s with m := { s.m with state := some IState.deleteOnly } } → P := by
    rintro P (b | b)
    · cases b
    · exact absurd b ns
  have kL : Live W { s with m := { s.m with state := some IState.deleteOnly } } → Live W s := fun _ => .inl a
  obtain ⟨ws, w1, w2, w3⟩ := h.noDone a (by rw [hst]; simp)
  obtain ⟨v1, v2⟩ := h.vNone a hst
  exact
  { shape := fun _ => .inr (.inl rfl)
    vNone := fun _ b => by cases b
    vDel := fun _ _ => ⟨fun d hd => by rw [v1 d hd]; simp, fun n hn => by rw [v2 n hn]; simp⟩
    vWo := fun _ b => by cases b
    vWl := fun _ b => by cases b
    vPub := fun b => nL _ b
    noPub := fun b => absurd b ns
    empty := fun _ _ => h.empty a (.inl hst)
    orphan := fun b => h.orphan (kL b)
    good := fun b => nL _ b
    held := h.held
    txnDb := h.txnDb
    carry := fun b => h.carry (kL b)
    fresh := fun b => h.fresh (kL b)
    allFresh := fun b => b.elim (fun c => by cases c.2) fun c => nL _ c
    calm := fun _ _ => h.calm a (.inl hst)
    castOk := fun _ b => by cases b
    waitOk := fun _ b => by cases b
    idle := fun _ _ => h.idle a (by rw [hst]; simp)
    kind := h.kind
    works := fun _ => ⟨ws, w1, w2, fun w hw hd => absurd hd (w3 w hw)⟩
    runs := fun b => b.elim (fun c => by cases c.2) fun c => nL _ c }

/-- The index goes on to `IS_WRITE_ONLY`. -/
theorem inv_toWrite (h : Inv W s) (a : Adding s) (hst : s.m.state = some .deleteOnly) (hsync : Synced W s) :
    Inv W { s with m := { s.m with state := some .writeOnly } } := by
  have ns := h.unseen a
  have nL : ∀ P : Prop, Pub W { s with m := { s.m with state := some IState.writeOnly } } → P := by
    rintro P (b | b)
    · cases b
    · exact absurd b ns
  have kL : Live W { s with m := { s.m with state := some IState.writeOnly } } → Live W s := fun _ => .inl a
  obtain ⟨ws, w1, w2, w3⟩ := h.noDone a (by rw [hst]; simp)
  obtain ⟨y1, y2⟩ := hsync _ hst
  obtain ⟨c1, c2⟩ := h.calm a (.inr hst)
  exact
  { shape := fun _ => .inr (.inr (.inl rfl))
    vNone := fun _ b => by cases b
    vDel := fun _ b => by cases b
    vWo := fun _ _ => ⟨fun d hd => by rw [y1 d hd]; decide, fun n hn => by rw [y2 n hn]; decide⟩
    vWl := fun _ b => by cases b
    vPub := fun b => nL _ b
    noPub := fun b => absurd b ns
    empty := fun _ b => by rcases b with b | b <;> cases b
    orphan := fun b => h.orphan (kL b)
    good := fun b => nL _ b
    held := h.held
    txnDb := h.txnDb
    carry := fun b => h.carry (kL b)
    fresh := fun b => h.fresh (kL b)
    allFresh := fun b => b.elim (fun c => by cases c.2) fun c => nL _ c
    calm := fun _ b => by rcases b with b | b <;> cases b
    castOk := fun _ _ c hc => by rw [show s.m.cast = none from c1] at hc; cases hc
    waitOk := fun _ _ hw => by rw [show s.m.wait = none from c2] at hw; cases hw
    idle := fun _ _ => h.idle a (by rw [hst]; simp)
    kind := h.kind
    works := fun _ => ⟨ws, w1, w2, fun w hw hd => absurd hd (w3 w hw)⟩
    runs := fun b => b.elim (fun c => by cases c.2) fun c => nL _ c }

/-- The index goes on to `IS_WRITE_LOCAL`. -/
theorem inv_toLocal (h : Inv W s) (a : Adding s) (hst : s.m.state = some .writeOnly) (hclear : ∀ d, d < W.dbs → Clear s d)
    (c' : Option Cast) : Inv W { s with m := { s.m with state := some .writeLocal, wait := none, cast := c' } } := by
  have ns := h.unseen a
  have nL : ∀ P : Prop, Pub W { s with m := { s.m with state := some IState.writeLocal, wait := none, cast := c' } } → P := by
    rintro P (b | b)
    · cases b
    · exact absurd b ns
  have kL : Live W { s with m := { s.m with state := some IState.writeLocal, wait := none, cast := c' } } → Live W s :=
    fun _ => .inl a
  obtain ⟨ws, w1, w2, w3⟩ := h.noDone a (by rw [hst]; simp)
  obtain ⟨v1, v2⟩ := h.vWo a hst
  exact
  { shape := fun _ => .inr (.inr (.inr rfl))
    vNone := fun _ b => by cases b
    vDel := fun _ b => by cases b
    vWo := fun _ b => by cases b
    vWl := fun _ _ => ⟨fun d hd => ⟨(hclear d hd).1, Nat.le_succ_of_le (v1 d hd).2⟩,
      fun n hn => ⟨(v2 n hn).1, Nat.le_succ_of_le (v2 n hn).2⟩⟩
    vPub := fun b => nL _ b
    noPub := fun b => absurd b ns
    empty := fun _ b => by rcases b with b | b <;> cases b
    orphan := fun b => h.orphan (kL b)
    good := fun b => nL _ b
    held := h.held
    txnDb := h.txnDb
    carry := fun b => h.carry (kL b)
    fresh := fun b => h.fresh (kL b)
    allFresh := fun _ t x hx => (hclear x.db (h.txnDb t x hx)).2 t x hx rfl
    calm := fun _ b => by rcases b with b | b <;> cases b
    castOk := fun _ b => by cases b
    waitOk := fun _ b => by cases b
    idle := fun _ b => absurd rfl b
    kind := h.kind
    works := fun _ => ⟨ws, w1, w2, fun w hw hd => absurd hd (w3 w hw)⟩
    runs := fun _ r x hx => by
      rw [show s.run r = none from (h.idle a (by rw [hst]; simp)).2.2 r] at hx; cases hx }

/-- Every region is done: the index becomes public. -/
theorem inv_publish (h : Inv W s) (hcover : ∀ k, ∃ r ∈ W.regions, W.range r k) (a : Adding s) (hst : s.m.state = some .writeLocal)
    {ws : List RWork} (hws : s.m.works = some ws) (hdone : ∀ w ∈ ws, w.status = .done) (m' : Meta) (hj : m'.job ≠ some .add)
    (hr : m'.isRollup = s.m.isRollup) : Inv W { s with m := m' } := by
  have nA : ¬ Adding { s with m := m' } := hj
  have ns := h.unseen a
  have k : Kept W s := .inl ⟨a, hst⟩
  have good : ∀ k, GoodS (s.slot k) := by
    intro k
    obtain ⟨ws', w1, w2, w3⟩ := h.works a
    rw [hws] at w1; cases w1
    obtain ⟨r, hr, hk⟩ := hcover k
    obtain ⟨w, hw, e⟩ := w2 r hr
    exact (w3 w hw (hdone w hw)).2 k (by rw [e]; exact hk)
  obtain ⟨v1, v2⟩ := h.vWl a hst
  exact
  { shape := fun b => absurd b nA
    vNone := fun b => absurd b nA
    vDel := fun b => absurd b nA
    vWo := fun b => absurd b nA
    vWl := fun b => absurd b nA
    vPub := fun _ => ⟨fun d hd => (v1 d hd).1, fun n hn => (v2 n hn).1⟩
    noPub := fun b => absurd b ns
    empty := fun b => absurd b nA
    orphan := fun _ => h.orphan (.inl a)
    good := fun _ => good
    held := h.held
    txnDb := h.txnDb
    carry := fun _ => h.carry (.inl a)
    fresh := fun _ => h.fresh (.inl a)
    allFresh := fun _ => h.allFresh k
    calm := fun b => absurd b nA
    castOk := fun b => absurd b nA
    waitOk := fun b => absurd b nA
    idle := fun b => absurd b nA
    kind := hr.trans h.kind
    works := fun b => absurd b nA
    runs := fun _ => h.runs k }

theorem inv_wait (h : Inv W s) (e : Env) (a : Adding s) (hst : s.m.state = some .writeOnly)
    (hknown : ∀ d, d < W.dbs → d ∈ e.known) (hnd : e.known.Nodup) : Inv W { s with m := waitTick e s.m } := by
  have keep : ∀ ws, s.m.works = some ws → ∃ ws', s.m.works = some ws' ∧ (∀ r, (∃ w ∈ ws, w.region = r) → ∃ w ∈ ws', w.region = r) ∧
      ∀ w ∈ ws', w.status = .done → w ∈ ws ∨ (s.m.state = some .writeLocal ∧ ∀ k, W.range w.region k → GoodS (s.slot k)) :=
    fun ws hws => ⟨ws, hws, fun _ h => h, fun w hw _ => .inl hw⟩
  have notcalm : ∀ {P : Prop}, s.m.state = some .none ∨ s.m.state = some .deleteOnly → P := by
    intro P b; rcases b with b | b <;> rw [hst] at b <;> cases b
  unfold waitTick
  cases hw : s.m.wait with
  | none =>
    simp only
    have h' : Inv W { s with m := { s.m with wait := some ⟨false, false⟩, cast := some (broadcast e.known) } } := by
      -- the state is not one where nothing has been asked
      have nA := h
      refine
      { shape := h.shape, vNone := h.vNone, vDel := h.vDel, vWo := h.vWo, vWl := h.vWl, vPub := h.vPub, noPub := h.noPub
        empty := h.empty, orphan := h.orphan, good := h.good, held := h.held, txnDb := h.txnDb, carry := h.carry, fresh := h.fresh
        allFresh := h.allFresh
        calm := fun _ b => notcalm b
        castOk := ?_
        waitOk := fun _ _ b => by cases b
        idle := h.idle, kind := h.kind, works := h.works, runs := h.runs }
      intro _ _ c hc
      have : c = broadcast e.known := (Option.some.inj hc).symm
      subst this
      exact ⟨broadcast_ok hnd, fun d hd hn _ => absurd (hknown d hd) hn⟩
    exact h'
  | some w0 =>
    simp only
    -- what looking at the answers does
    obtain ⟨c1, w1, hm1, hcok, hwok⟩ : ∃ c1 w1, updateTxnReady s.m = { s.m with cast := c1, wait := w1 } ∧
        (∀ c, c1 = some c → c.Ok ∧ ∀ d, d < W.dbs → d ∉ c.todo → d ∉ c.doing → Clear s d) ∧
        (w1 = some ⟨true, true⟩ → ∀ d, d < W.dbs → Clear s d) := by
      unfold updateTxnReady
      cases hc : s.m.cast with
      | none =>
        refine ⟨none, s.m.wait, ?_, (fun c hc => nomatch hc), h.waitOk a hst⟩
        simp only; rw [← hc]
      | some c =>
        simp only
        obtain ⟨k1, k2⟩ := h.castOk a hst c hc
        by_cases hn : c.number = 0
        · rw [if_pos hn]
          obtain ⟨t1, t2⟩ := k1.all_done hn
          refine ⟨none, s.m.wait.map fun _ => ⟨true, true⟩, rfl, (fun c hc => nomatch hc), fun _ d hd => ?_⟩
          exact k2 d hd (by rw [t1]; simp) (by rw [t2]; simp)
        · rw [if_neg hn]
          refine ⟨some c, s.m.wait, by rw [← hc], ?_, h.waitOk a hst⟩
          intro c' hc'; rw [← Option.some.inj hc']; exact ⟨k1, k2⟩
    rw [hm1]
    have base : ∀ w2, (w2 = some ⟨true, true⟩ → ∀ d, d < W.dbs → Clear s d) → Inv W { s with m := { s.m with cast := c1, wait := w2 } } := by
      intro w2 hw2
      exact
      { shape := h.shape, vNone := h.vNone, vDel := h.vDel, vWo := h.vWo, vWl := h.vWl, vPub := h.vPub, noPub := h.noPub
        empty := h.empty, orphan := h.orphan, good := h.good, held := h.held, txnDb := h.txnDb, carry := h.carry, fresh := h.fresh
        allFresh := h.allFresh
        calm := fun _ b => notcalm b
        castOk := fun _ _ => hcok
        waitOk := fun _ _ => hw2
        idle := h.idle, kind := h.kind, works := h.works, runs := h.runs }
    rcases w1 with _ | ⟨ok, dn⟩
    · exact base none hwok
    · cases dn
      · cases ok <;> exact base _ hwok
      · cases ok
        · exact h.quiet_notAdding (by simp) rfl rfl
        · simp only
          unfold setState
          by_cases ha : e.applied = true
          · simp only [ha, if_true]
            exact inv_toLocal h a hst (hwok rfl) c1
          · simp only [ha]
            exact base none (by simp)

theorem inv_fill (h : Inv W s) (hcover : ∀ k, ∃ r ∈ W.regions, W.range r k) (e : Env) (a : Adding s)
    (hst : s.m.state = some .writeLocal) : Inv W { s with m := fillTick e s.m } := by
  unfold fillTick
  cases hws : s.m.works with
  | none => simp only; exact h
  | some ws =>
    simp only
    by_cases hb : e.busy = true
    · rw [if_pos hb]; exact h
    · rw [if_neg hb]
      generalize hr : traverse s.m.isRollup e.maxRetry e.ask true ws = r
      rw [h.kind] at hr
      have F := traverse_facts e.maxRetry e.ask ws true
      simp only [hr] at F
      obtain ⟨f1, f2, f3, f4⟩ := F
      by_cases hd : r.done = true
      · rw [if_pos hd]
        refine inv_publish h hcover a hst hws (f3 hd).2.1 _ ?_ ?_ <;> unfold setState <;> split <;> simp
      · rw [if_neg hd]
        by_cases hrb : r.rollback = true
        · rw [if_pos hrb]
          exact h.quiet_notAdding (by simp) rfl rfl
        · rw [if_neg hrb]
          have nAny : ∀ {P : Prop} {i : IState}, i ≠ .writeLocal → s.m.state = some i → P := by
            intro P i hi b; rw [hst] at b; exact absurd (Option.some.inj b).symm hi
          exact
          { shape := h.shape, vNone := h.vNone, vDel := h.vDel, vWo := h.vWo, vWl := h.vWl, vPub := h.vPub, noPub := h.noPub
            empty := h.empty, orphan := h.orphan, good := h.good, held := h.held, txnDb := h.txnDb, carry := h.carry
            fresh := h.fresh, allFresh := h.allFresh, calm := h.calm, castOk := h.castOk, waitOk := h.waitOk
            idle := fun _ b => absurd hst b
            kind := h.kind
            works := fun _ => by
              obtain ⟨ws', w1, w2, w3⟩ := h.works a
              rw [hws] at w1; cases w1
              refine ⟨r.works, rfl, fun q hq => ?_, fun w hw hdn => w3 w (f2 w hw hdn) hdn⟩
              obtain ⟨w, hw, e⟩ := w2 q hq
              have : q ∈ r.works.map (·.region) := by
                rw [f1]; exact List.mem_map.mpr ⟨w, hw, e⟩
              obtain ⟨w', hw', e'⟩ := List.mem_map.mp this
              exact ⟨w', hw', e'⟩
            runs := h.runs }

theorem inv_tick (h : Inv W s) (hcover : ∀ k, ∃ r ∈ W.regions, W.range r k) (e : Env) (hripe : e.ripe = true → Synced W s)
    (hknown : ∀ d, d < W.dbs → d ∈ e.known) (hnd : e.known.Nodup) : Inv W { s with m := tick e s.m } := by
  unfold tick
  cases hj : s.m.job with
  | none => simp only; exact h
  | some j =>
    cases j with
    | finished => exact h.quiet_notAdding (by simp [clearWork]) rfl rfl
    | addFailed => exact h.quiet_notAdding (by simp) rfl rfl
    | drop => exact inv_drop h e hripe hj
    | add =>
      have a : Adding s := hj
      show Inv W { s with m := addTick e s.m }
      unfold addTick
      rcases h.shape a with hst | hst | hst | hst <;> simp only [hst]
      · by_cases hr : e.ripe = true
        · rw [if_pos hr]; unfold setState
          by_cases ha : e.applied = true
          · rw [if_pos ha]; exact inv_toDel h a hst
          · rw [if_neg ha]; exact h
        · rw [if_neg hr]; exact h
      · by_cases hr : e.ripe = true
        · rw [if_pos hr]; unfold setState
          by_cases ha : e.applied = true
          · rw [if_pos ha]; exact inv_toWrite h a hst (hripe hr)
          · rw [if_neg ha]; exact h
        · rw [if_neg hr]; exact h
      · exact inv_wait h e a hst hknown hnd
      · exact inv_fill h hcover e a hst

end BaikalDB.Ddl
