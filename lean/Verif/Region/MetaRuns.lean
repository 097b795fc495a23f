import Verif.Region.MetaProps

/-!
# C10: where the reports come from, concrete runs, and histories that break the map
-/

namespace BaikalDB.Region

/-! ## The stores' reports are honest as long as regions only split -/

/-- What a leader's heartbeat says about its region. -/
def Reg.info (r : Reg) (conf peers logIndex : Nat) : RI := ⟨r.id, r.ver, conf, r.start, r.stop, peers, logIndex⟩

/-- Steps of a split strictly inside the region, in any order, interrupted or not. -/
def OnlySplits (st : State) : Ev → Prop
  | .splitBegin p key _ _ => ∀ r, get st p = some r → key ≠ r.start ∧ key ≠ r.stop
  | .splitActivate _ => True
  | .splitFinish _ => True
  | .splitAbort _ => True
  | .interrupted _ => True
  | _ => False

/-- The states the stores go through, newest first. -/
inductive Hist : List State → Prop
  | init (i : Nat) (bounds : List Bytes) : ascending [] bounds = true → Hist [initRegions i [] bounds]
  | step {st st' : State} {h : List State} (e : Ev) : Hist (st :: h) → OnlySplits st e → step st e = some st' →
      Hist (st' :: st :: h)

def NEk (a b : Bytes) : Prop := b = [] ∨ BLt a b

structure HInv (f : Nat → Bytes) (st : State) (h : List State) : Prop where
  regs : ∀ r ∈ st, r.start = f r.id ∧ NEk r.start r.stop
  kids : ∀ r ∈ st, ∀ k ∈ r.job.todo, k.start = f k.id ∧ NEk k.start k.stop
  keys : ∀ r ∈ st, ∀ key ks todo, r.job = .split key ks todo → BLt r.start key
  old : ∀ s ∈ h, ∀ r ∈ s, r.start = f r.id ∧ NEk r.start r.stop ∧ ∃ r' ∈ st, r'.id = r.id

theorem mkKids_ids {stop : Bytes} {bounds : List Bytes} : ∀ {start : Bytes} {ids : List Nat},
    ids.length = bounds.length + 1 → (mkKids stop start ids bounds).map (·.id) = ids := by
  induction bounds with
  | nil =>
    intro start ids h
    match ids, h with
    | [i], _ => rfl
  | cons b bs ih =>
    intro start ids h
    match ids, h with
    | i :: j :: is, h =>
      rw [mkKids]
      · rw [List.map_cons, ih (by simpa using h)]
      · simp

theorem mkKids_ne {stop : Bytes} {bounds : List Bytes} : ∀ {start : Bytes} {ids : List Nat},
    ids.length = bounds.length + 1 → ascending start bounds = true → NEk start stop → (bounds = [] ∨ stop = []) →
    ∀ k ∈ mkKids stop start ids bounds, NEk k.start k.stop := by
  induction bounds with
  | nil =>
    intro start ids h _ hs _ k hk
    match ids, h with
    | [i], _ => rw [mkKids, List.mem_singleton] at hk; subst hk; exact hs
  | cons b bs ih =>
    intro start ids h ha hs hb k hk
    match ids, h with
    | i :: j :: is, h =>
      have hstop : stop = [] := hb.resolve_left (by simp)
      simp only [ascending, Bool.and_eq_true, beq_iff_eq] at ha
      rw [mkKids] at hk
      · rcases List.mem_cons.1 hk with rfl | hk
        · exact .inr ha.1
        · exact ih (by simpa using h) ha.2 (.inl hstop) (.inr hstop) k hk
      · simp

theorem mem_modify_any {st : State} {p : Nat} {g : Reg → Reg} {r : Reg} (h : r ∈ modify st p g) :
    ∃ r0 ∈ st, (r0.id = p ∧ r = g r0) ∨ (r0.id ≠ p ∧ r = r0) := by
  unfold modify at h
  obtain ⟨r0, hr0, rfl⟩ := List.mem_map.1 h
  refine ⟨r0, hr0, ?_⟩
  by_cases hp : r0.id = p
  · exact .inl ⟨hp, by simp [hp]⟩
  · exact .inr ⟨hp, by simp [hp]⟩

theorem modify_has {st : State} {p : Nat} {g : Reg → Reg} (hg : ∀ r, (g r).id = r.id) {r : Reg} (h : r ∈ st) :
    ∃ r' ∈ modify st p g, r'.id = r.id := by
  refine ⟨if r.id == p then g r else r, List.mem_map.2 ⟨r, h, rfl⟩, ?_⟩
  split
  · exact hg r
  · rfl

/-- A step that only changes one region's job, version or end keeps the invariant. -/
theorem hinv_modify {f : Nat → Bytes} {st : State} {h : List State} (hi : HInv f st h) (p : Nat) (g : Reg → Reg)
    (hid : ∀ r, (g r).id = r.id) (hst : ∀ r, (g r).start = r.start)
    (hne : ∀ r ∈ st, r.id = p → NEk r.start (g r).stop)
    (hk : ∀ r ∈ st, r.id = p → ∀ k ∈ (g r).job.todo, k.start = f k.id ∧ NEk k.start k.stop)
    (hkey : ∀ r ∈ st, r.id = p → ∀ key ks todo, (g r).job = .split key ks todo → BLt r.start key) :
    HInv f (modify st p g) (st :: h) := by
  refine ⟨?_, ?_, ?_, ?_⟩
  · intro r hr
    obtain ⟨r0, h0, (⟨hp, rfl⟩ | ⟨_, rfl⟩)⟩ := mem_modify_any hr
    · rw [hid, hst]; exact ⟨(hi.regs r0 h0).1, hne r0 h0 hp⟩
    · exact hi.regs r h0
  · intro r hr
    obtain ⟨r0, h0, (⟨hp, rfl⟩ | ⟨_, rfl⟩)⟩ := mem_modify_any hr
    · exact hk r0 h0 hp
    · exact hi.kids r h0
  · intro r hr key ks todo hj
    obtain ⟨r0, h0, (⟨hp, rfl⟩ | ⟨_, rfl⟩)⟩ := mem_modify_any hr
    · rw [hst]; exact hkey r0 h0 hp key ks todo hj
    · exact hi.keys r h0 key ks todo hj
  · intro s hs r hr
    rcases List.mem_cons.1 hs with rfl | hs
    · exact ⟨(hi.regs r hr).1, (hi.regs r hr).2, modify_has hid hr⟩
    · obtain ⟨a, b, r', hr', he⟩ := hi.old s hs r hr
      obtain ⟨r2, hr2, he2⟩ := modify_has (p := p) hid hr'
      exact ⟨a, b, r2, hr2, he2.trans he⟩

theorem initRegions_ge {bounds : List Bytes} : ∀ {i : Nat} {start : Bytes}, ascending start bounds = true →
    (∀ r ∈ initRegions i start bounds, i ≤ r.id ∧ r.job = .idle ∧ NEk r.start r.stop) ∧
    ((initRegions i start bounds).map (·.id)).Nodup := by
  induction bounds with
  | nil =>
    intro i start _
    refine ⟨?_, by simp [initRegions]⟩
    intro r hr
    rw [initRegions, List.mem_singleton] at hr
    subst hr
    exact ⟨Nat.le_refl _, rfl, .inl rfl⟩
  | cons b bs ih =>
    intro i start ha
    simp only [ascending, Bool.and_eq_true, beq_iff_eq] at ha
    obtain ⟨h1, h2⟩ := ih (i := i + 1) ha.2
    rw [initRegions]
    refine ⟨?_, ?_⟩
    · intro r hr
      rcases List.mem_cons.1 hr with rfl | hr
      · exact ⟨Nat.le_refl _, rfl, .inr ha.1⟩
      · obtain ⟨a, b, c⟩ := h1 r hr; exact ⟨by omega, b, c⟩
    · rw [List.map_cons, List.nodup_cons]
      refine ⟨?_, h2⟩
      intro hin
      obtain ⟨r, hr, he⟩ := List.mem_map.1 hin
      have := (h1 r hr).1
      simp only at he
      omega

theorem get_unique {st : State} (h : (st.map (·.id)).Nodup) {r : Reg} (hr : r ∈ st) : get st r.id = some r := by
  unfold get
  induction st with
  | nil => cases hr
  | cons a t ih =>
    rw [List.map_cons, List.nodup_cons] at h
    rcases List.mem_cons.1 hr with rfl | hr
    · simp
    · rw [List.find?_cons_of_neg]
      · exact ih h.2 hr
      · intro he
        have : a.id = r.id := by simpa using he
        exact h.1 (List.mem_map.2 ⟨r, hr, this.symm⟩)

theorem used_mem {st : State} {r : Reg} (hr : r ∈ st) : r.id ∈ usedIds st :=
  List.mem_flatMap.2 ⟨r, hr, List.mem_cons_self⟩

theorem used_kid {st : State} {r : Reg} {k : Kid} (hr : r ∈ st) (hk : k ∈ r.job.todo) : k.id ∈ usedIds st :=
  List.mem_flatMap.2 ⟨r, hr, List.mem_cons_of_mem _ (List.mem_map.2 ⟨k, hk, rfl⟩)⟩

theorem hist_inv {st : State} {h : List State} (hh : Hist (st :: h)) (hu : ∀ s, s ∈ st :: h → ∀ i, tot (idc i) s ≤ 1) :
    ∃ f, HInv f st h := by
  generalize hl : st :: h = L at hh
  induction hh generalizing st h with
  | init i bounds ha =>
    injection hl with h1 h2
    subst h1; subst h2
    obtain ⟨g1, g2⟩ := initRegions_ge (i := i) ha
    refine ⟨fun j => match get (initRegions i [] bounds) j with | some r => r.start | none => [], ?_, ?_, ?_, by simp⟩
    · intro r hr
      refine ⟨?_, (g1 r hr).2.2⟩
      simp only [get_unique g2 hr]
    · intro r hr k hk
      rw [(g1 r hr).2.1] at hk; cases hk
    · intro r hr key ks todo hj
      rw [(g1 r hr).2.1] at hj; cases hj
  | @step s0 s1 h0 e hprev hsp hstep ih =>
    injection hl with h1 h2
    subst h1; subst h2
    obtain ⟨f, hi⟩ := ih (fun s hs => hu s (List.mem_cons_of_mem _ hs)) rfl
    have hu0 := hu s0 (by simp)
    cases e with
    | mergeBegin => exact hsp.elim
    | mergeExtend => exact hsp.elim
    | mergeFinish => exact hsp.elim
    | mergeAbort => exact hsp.elim
    | interrupted p =>
      simp only [Region.step] at hstep
      injection hstep with hstep; subst hstep
      refine ⟨f, hinv_modify hi p _ (fun _ => rfl) (fun _ => rfl) (fun r hr _ => (hi.regs r hr).2) ?_ ?_⟩
      · intro r _ _ k hk; cases hk
      · intro r _ _ key ks todo hj; cases hj
    | splitAbort p =>
      simp only [Region.step] at hstep
      cases hg : get s0 p with
      | none => simp only [hg] at hstep; cases hstep
      | some r =>
        simp only [hg] at hstep
        split at hstep
        · split at hstep
          · injection hstep with hstep; subst hstep
            refine ⟨f, hinv_modify hi p _ (fun _ => rfl) (fun _ => rfl) (fun r hr _ => (hi.regs r hr).2) ?_ ?_⟩
            · intro r _ _ k hk; cases hk
            · intro r _ _ key ks todo hj; cases hj
          · cases hstep
        · cases hstep
    | splitFinish p =>
      simp only [Region.step] at hstep
      cases hg : get s0 p with
      | none => simp only [hg] at hstep; cases hstep
      | some r =>
        simp only [hg] at hstep
        split at hstep
        · rename_i key ks hjob
          injection hstep with hstep; subst hstep
          obtain ⟨hr, hrid⟩ := get_mem hg
          refine ⟨f, hinv_modify hi p _ (fun _ => rfl) (fun _ => rfl) ?_ ?_ ?_⟩
          · intro q hq hqid
            have : q = r := unique_of_ids hu0 hq hr (hqid.trans hrid.symm)
            subst this
            exact .inr (hi.keys q hq key ks [] hjob)
          · intro r _ _ k hk; cases hk
          · intro r _ _ key ks todo hj; cases hj
        · cases hstep
    | splitActivate p =>
      simp only [Region.step] at hstep
      cases hg : get s0 p with
      | none => simp only [hg] at hstep; cases hstep
      | some r =>
        simp only [hg] at hstep
        split at hstep
        · rename_i key ks k todo hjob
          injection hstep with hstep; subst hstep
          obtain ⟨hr, hrid⟩ := get_mem hg
          have huniq : ∀ q ∈ s0, q.id = p → q = r := fun q hq hqid => unique_of_ids hu0 hq hr (hqid.trans hrid.symm)
          have hkk := hi.kids r hr k (by rw [hjob]; exact List.mem_cons_self)
          have hm := hinv_modify hi p (fun r => { r with job := .split key ks todo }) (fun _ => rfl) (fun _ => rfl)
            (fun r hr _ => (hi.regs r hr).2)
            (fun q hq hqid x hx => by
              have := huniq q hq hqid; subst this
              exact hi.kids q hq x (by rw [hjob]; exact List.mem_cons_of_mem _ hx))
            (fun q hq hqid key' ks' todo' hj => by
              have := huniq q hq hqid; subst this
              injection hj with hj1 hj2 hj3
              subst hj1
              exact hi.keys q hq key ks (k :: todo) hjob)
          refine ⟨f, ?_, ?_, ?_, ?_⟩
          · intro q hq
            rcases List.mem_append.1 hq with hq | hq
            · exact hm.regs q hq
            · rw [List.mem_singleton] at hq; subst hq; exact hkk
          · intro q hq
            rcases List.mem_append.1 hq with hq | hq
            · exact hm.kids q hq
            · rw [List.mem_singleton] at hq; subst hq; intro x hx; cases hx
          · intro q hq
            rcases List.mem_append.1 hq with hq | hq
            · exact hm.keys q hq
            · rw [List.mem_singleton] at hq; subst hq; intro _ _ _ hx; cases hx
          · intro s hs q hq
            obtain ⟨a, b, r', hr', he⟩ := hm.old s hs q hq
            exact ⟨a, b, r', List.mem_append_left _ hr', he⟩
        · cases hstep
    | splitBegin p key ids bounds =>
      simp only [Region.step] at hstep
      cases hg : get s0 p with
      | none => simp only [hg] at hstep; cases hstep
      | some r =>
        simp only [hg] at hstep
        split at hstep
        case isFalse => cases hstep
        rename_i hcond
        injection hstep with hstep; subst hstep
        obtain ⟨hr, hrid⟩ := get_mem hg
        have huniq : ∀ q ∈ s0, q.id = p → q = r := fun q hq hqid => unique_of_ids hu0 hq hr (hqid.trans hrid.symm)
        simp only [Bool.and_eq_true, beq_iff_eq, decide_eq_true_eq, List.all_eq_true, Bool.not_eq_true'] at hcond
        obtain ⟨⟨⟨hidle, hok⟩, hnd⟩, hfresh⟩ := hcond
        have hfresh' : ∀ i ∈ ids, i ∉ usedIds s0 := fun i hi => by simpa using hfresh i hi
        simp only [splitOk, Bool.and_eq_true, bne_iff_ne, ne_eq, Bool.or_eq_true, beq_iff_eq] at hok
        obtain ⟨⟨⟨⟨⟨k1, k2⟩, k3⟩, k4⟩, k5⟩, k6⟩ := hok
        obtain ⟨n1, n2⟩ := hsp r hg
        have hlt1 : BLt r.start key := by
          rcases BLt_trichotomy r.start key with h | h | h
          · exact h
          · exact absurd h.symm n1
          · exact absurd (bcmp_gt_iff.2 h) k2
        have hlt2 : NEk key r.stop := by
          rcases k3 with h | h
          · exact .inl h
          · rcases BLt_trichotomy key r.stop with h' | h' | h'
            · exact .inr h'
            · exact absurd h' n2
            · exact absurd (bcmp_gt_iff.2 h') h
        have kids_id := mkKids_ids (stop := r.stop) (start := key) k4
        have kids_ne := mkKids_ne (stop := r.stop) k4 k6 hlt2 k5
        -- the start keys of the new regions
        let f' : Nat → Bytes := fun i =>
          match (mkKids r.stop key ids bounds).find? (fun k => k.id == i) with
          | some k => k.start
          | none => f i
        have f'_old : ∀ i, i ∈ usedIds s0 → f' i = f i := by
          intro i hi
          have : (mkKids r.stop key ids bounds).find? (fun k => k.id == i) = none := by
            rw [List.find?_eq_none]
            intro k hk he
            have hki : k.id ∈ ids := by rw [← kids_id]; exact List.mem_map.2 ⟨k, hk, rfl⟩
            have : k.id = i := by simpa using he
            exact hfresh' _ hki (this ▸ hi)
          simp only [f', this]
        have f'_new : ∀ k ∈ mkKids r.stop key ids bounds, f' k.id = k.start := by
          intro k hk
          have hnd' : ((mkKids r.stop key ids bounds).map (·.id)).Nodup := by rw [kids_id]; exact hnd
          have : (mkKids r.stop key ids bounds).find? (fun k' => k'.id == k.id) = some k := by
            generalize mkKids r.stop key ids bounds = L at hk hnd'
            induction L with
            | nil => cases hk
            | cons a t ih =>
              rw [List.map_cons, List.nodup_cons] at hnd'
              rcases List.mem_cons.1 hk with rfl | hk
              · simp
              · rw [List.find?_cons_of_neg]
                · exact ih hk hnd'.2
                · intro he
                  have : a.id = k.id := by simpa using he
                  exact hnd'.1 (List.mem_map.2 ⟨k, hk, this.symm⟩)
          simp only [f', this]
        have hi' : HInv f' s0 h0 := by
          refine ⟨?_, ?_, hi.keys, ?_⟩
          · intro q hq; rw [f'_old _ (used_mem hq)]; exact hi.regs q hq
          · intro q hq k hk; rw [f'_old _ (used_kid hq hk)]; exact hi.kids q hq k hk
          · intro s hs q hq
            obtain ⟨a, b, r', hr', he⟩ := hi.old s hs q hq
            rw [f'_old _ (he ▸ used_mem hr')]
            exact ⟨a, b, r', hr', he⟩
        refine ⟨f', hinv_modify hi' p _ (fun _ => rfl) (fun _ => rfl) (fun q hq _ => (hi'.regs q hq).2) ?_ ?_⟩
        · intro q hq hqid k hk
          exact ⟨(f'_new k hk).symm, kids_ne k hk⟩
        · intro q hq hqid key' ks todo hj
          have := huniq q hq hqid; subst this
          injection hj with hj1 _ _
          subst hj1
          exact hlt1

theorem hist_ids {L : List State} (h : Hist L) : ∀ s ∈ L, ∀ i, tot (idc i) s ≤ 1 := by
  induction h with
  | init i bounds ha =>
    intro s hs
    rw [List.mem_singleton] at hs; subst hs
    exact (initRegions_inv ha).2.2.1
  | step e _ _ hs ih =>
    intro s hs'
    rcases List.mem_cons.1 hs' with rfl | hs'
    · exact ids_step (ih _ List.mem_cons_self) hs
    · exact ih s hs'

/-- C10.  While regions only split, every heartbeat sent at any time by any region's leader is `Honest` for one and the
same assignment of start keys: these are the reports `C10_tiling` is about. -/
theorem C10_reports_honest {L : List State} (h : Hist L) :
    ∃ f, ∀ s ∈ L, ∀ r ∈ s, ∀ conf peers logIndex, Honest f (r.info conf peers logIndex) := by
  cases L with
  | nil => cases h
  | cons st h0 =>
    obtain ⟨f, hi⟩ := hist_inv h (hist_ids h)
    refine ⟨f, fun s hs r hr conf peers logIndex => ?_⟩
    rcases List.mem_cons.1 hs with rfl | hs
    · exact hi.regs r hr
    · obtain ⟨a, b, _⟩ := hi.old s hs r hr
      exact ⟨a, b⟩


/-! ## Concrete runs -/

section Runs

private abbrev kb : Bytes := [0x62#8]
private abbrev km : Bytes := [0x6d#8]
private abbrev ks : Bytes := [0x73#8]
private abbrev kw : Bytes := [0x74#8]

/-- Start keys of the regions of the example. -/
def exF : Nat → Bytes := fun i => if i = 2 then km else []

def exR1 : RI := ⟨1, 1, 1, [], [], 7, 1⟩
def exR1' : RI := ⟨1, 2, 1, [], km, 7, 2⟩
def exR2 : RI := ⟨2, 1, 1, km, [], 7, 1⟩

/-- A table is created with one region, which then splits; the stale report of the whole range arrives once more. -/
example : ∃ m P, SplitSys exF m P ∧ m.keys = [([], 1), (km, 2)] ∧ m.infos 1 = some { exR1' with conf := 2 } := by
  have h0 : SplitSys exF _ _ := .report exR1 .init ⟨rfl, .inl rfl⟩
  have h1 : SplitSys exF _ _ := .apply false [exR1] _ _ h0 (by decide) rfl
  have h2 : SplitSys exF _ _ := .report exR2 h1 ⟨rfl, .inl rfl⟩
  have h3 : SplitSys exF _ _ := .report exR1' h2 ⟨rfl, .inr (by decide)⟩
  have h4 : SplitSys exF _ _ := .generate 1 [exR1', exR2] h3 rfl
  have h5 : SplitSys exF _ _ := .apply false [exR1', exR2] _ _ h4 (by decide) rfl
  have h6 : SplitSys exF _ _ := .report exR1 h5 ⟨rfl, .inl rfl⟩
  exact ⟨_, _, h6, rfl, rfl⟩

/-- The same split on the stores. -/
example : ∃ st, Hist [st, (initRegions 1 [] [] : State).map fun r => { r with job := .split km [⟨2, km, []⟩] [⟨2, km, []⟩] },
    initRegions 1 [] []] ∧ st.map (fun r => (r.id, r.start)) = [(1, []), (2, km)] := by
  have h0 := Hist.init 1 [] rfl
  have h1 := Hist.step (.splitBegin 1 km [2] []) h0 (st' := (initRegions 1 [] [] : State).map fun r =>
    { r with job := .split km [⟨2, km, []⟩] [⟨2, km, []⟩] }) (by
      intro r hr
      have : r = ⟨1, 1, [], [], .idle⟩ := by
        have h : get (initRegions 1 [] []) 1 = some ⟨1, 1, [], [], .idle⟩ := by decide
        rw [h] at hr; injection hr with hr; exact hr.symm
      subst this
      decide) (by decide)
  exact ⟨_, Hist.step (.splitActivate 1) h1 trivial rfl, rfl⟩

/-- The map of a table with four regions. -/
def exMeta : Meta where
  infos := fun i => if i = 1 then some ⟨1, 1, 1, [], kb, 7, 1⟩ else if i = 2 then some ⟨2, 1, 1, kb, km, 7, 1⟩
    else if i = 3 then some ⟨3, 1, 1, km, ks, 7, 1⟩ else if i = 4 then some ⟨4, 1, 1, ks, [], 7, 1⟩ else none
  keys := [([], 1), (kb, 2), (km, 3), (ks, 4)]
  newMap := []
  keyMap := fun _ => none
  noneMap := fun _ => none

theorem exMeta_good : Good exMeta.infos exMeta.keys := by
  refine ⟨[⟨1, 1, 1, [], kb, 7, 1⟩, ⟨2, 1, 1, kb, km, 7, 1⟩, ⟨3, 1, 1, km, ks, 7, 1⟩, ⟨4, 1, 1, ks, [], 7, 1⟩], ?_, rfl, ?_⟩
  · exact ⟨rfl, .inr (by decide), rfl, .inr (by decide), rfl, .inr (by decide), rfl, .inl rfl, rfl⟩
  · intro r hr
    simp only [List.mem_cons, List.not_mem_nil, or_false] at hr
    rcases hr with rfl | rfl | rfl | rfl <;> rfl

/-- The hypotheses of `C10_split_completes` are met: region 3 splits at "o". -/
example := C10_split_completes (m := exMeta) (o := ⟨3, 1, 1, km, ks, 7, 1⟩) (r := ⟨3, 2, 1, km, [0x6f#8], 7, 2⟩)
  (n := ⟨5, 1, 1, [0x6f#8], ks, 7, 1⟩) exMeta_good rfl (by decide) rfl rfl (fun _ => rfl) (by decide)
  ⟨by decide, .inr (by decide)⟩ (by decide) true

/-- And those of `C10_merge_completes`: region 2 is merged into region 3. -/
example := C10_merge_completes (m := exMeta) (s := ⟨2, 1, 1, kb, km, 7, 1⟩) (d := ⟨3, 1, 1, km, ks, 7, 1⟩)
  (s' := ⟨2, 2, 1, kb, kb, 7, 2⟩) (d' := ⟨3, 2, 1, kb, ks, 7, 2⟩) exMeta_good rfl rfl (by decide) (by decide)
  (by decide) (fun _ => rfl) (fun _ => rfl) (by decide) (by decide) false

/-- `MergeOk` holds after the reports of that merge. -/
example : MergeOk (report (report exMeta ⟨2, 2, 1, kb, kb, 7, 2⟩).1 ⟨3, 2, 1, kb, ks, 7, 2⟩).1 3 := by
  refine ⟨⟨(km, 3), by decide, rfl⟩, ?_, ?_, ?_, ?_, ?_⟩
  · intro r hr
    have h : (report (report exMeta ⟨2, 2, 1, kb, kb, 7, 2⟩).1 ⟨3, 2, 1, kb, ks, 7, 2⟩).1.keyMap 3 = some ⟨3, 2, 1, kb, ks, 7, 2⟩ := rfl
    rw [h] at hr; injection hr with hr; subst hr
    exact ⟨rfl, .inr (by decide)⟩
  · intro i r hr
    have h : (report (report exMeta ⟨2, 2, 1, kb, kb, 7, 2⟩).1 ⟨3, 2, 1, kb, ks, 7, 2⟩).1.noneMap =
      fun i => if i = 2 then some ⟨2, 2, 1, kb, kb, 7, 2⟩ else none := rfl
    rw [h] at hr
    simp only at hr
    split at hr
    · rename_i hi; injection hr with hr; subst hr; exact ⟨hi.symm, rfl, by decide⟩
    · cases hr
  · intro e he; cases he
  · intro e he; cases he
  · intro r o i e hr ho he
    have h : (report (report exMeta ⟨2, 2, 1, kb, kb, 7, 2⟩).1 ⟨3, 2, 1, kb, ks, 7, 2⟩).1.keyMap 3 = some ⟨3, 2, 1, kb, ks, 7, 2⟩ := rfl
    rw [h] at hr; injection hr with hr; subst hr
    have h2 : (report (report exMeta ⟨2, 2, 1, kb, kb, 7, 2⟩).1 ⟨3, 2, 1, kb, ks, 7, 2⟩).1.infos 3 = some ⟨3, 1, 1, km, ks, 7, 1⟩ := rfl
    rw [h2] at ho; injection ho with ho; subst ho
    have h3 : (report (report exMeta ⟨2, 2, 1, kb, kb, 7, 2⟩).1 ⟨3, 2, 1, kb, ks, 7, 2⟩).1.noneMap =
      fun i => if i = 2 then some ⟨2, 2, 1, kb, kb, 7, 2⟩ else none := rfl
    rw [h3] at he
    simp only at he
    split at he
    · injection he with he; subst he; exact ⟨by decide, .inr (by decide)⟩
    · cases he

/-- All reports in turn, then the request generated for one region is applied. -/
def reportAll (m : Meta) (rs : List RI) : Meta := rs.foldl (fun m r => (report m r).1) m

def applyGen (m : Meta) (id : Nat) : Option ((Nat → Option RI) × List (Bytes × Nat)) :=
  match generate m id with
  | some req => updateRegion m.infos m.keys false req
  | none => none

/-- One region; it splits at "m" (new region 2), then at "b" (new region 3); region 3 is merged into region 2, which then
splits at "m" again (new region 4).  Region 2 was reported before and after, region 4 is refused because region 2's old
report waits under the same start key, and the old report is used: the request lists region 2 twice. -/
def staleReports : List RI :=
  [⟨2, 1, 1, km, [], 7, 1⟩, ⟨2, 3, 1, kb, km, 7, 3⟩, ⟨4, 1, 1, km, [], 7, 1⟩, ⟨1, 3, 1, [], kb, 7, 3⟩]

def oneRegion : Meta := ⟨fun i => if i = 1 then some ⟨1, 1, 1, [], [], 7, 1⟩ else none, [([], 1)], [], fun _ => none, fun _ => none⟩

/-- Every report above is true when it is sent: the stores run through these ranges and versions. -/
example : ((runAll (initRegions 1 [] []) [.splitBegin 1 km [2] [], .splitActivate 1, .splitFinish 1,
    .splitBegin 1 kb [3] [], .splitActivate 1, .splitFinish 1, .mergeBegin 3 2, .mergeExtend 3, .mergeFinish 3,
    .splitBegin 2 km [4] [], .splitActivate 2, .splitFinish 2]).map fun st => st.map fun r => (r.id, r.ver, r.start, r.stop)) =
    some [(1, 3, [], kb), (2, 3, kb, km), (3, 2, kb, kb), (4, 1, km, [])] := by decide

theorem C10_stale_new_region_counterexample :
    (generate (reportAll oneRegion staleReports) 1) =
      some [⟨1, 3, 1, [], kb, 7, 3⟩, ⟨2, 3, 1, kb, km, 7, 3⟩, ⟨2, 1, 1, km, [], 7, 1⟩] ∧
    ∃ infos' keys', applyGen (reportAll oneRegion staleReports) 1 = some (infos', keys') ∧
      keys' = [([], 1), (kb, 2), (km, 2)] ∧ ¬ Tiles infos' keys' := by
  refine ⟨by decide, _, _, rfl, by decide, ?_⟩
  intro h
  obtain ⟨e, he, ⟨r, hr, hc⟩, _⟩ := h kb
  have he' : e ∈ ([([], 1), (kb, 2), (km, 2)] : List (Bytes × Nat)) := he
  simp only [List.mem_cons, List.not_mem_nil, or_false] at he'
  rcases he' with rfl | rfl | rfl
  · have h1 : some (⟨1, 3, 2, [], kb, 7, 3⟩ : RI) = some r := hr
    injection h1 with h1; subst h1
    exact absurd (hc.2.resolve_left (by decide)) (by decide)
  · have h1 : some (⟨2, 1, 1, km, [], 7, 1⟩ : RI) = some r := hr
    injection h1 with h1; subst h1
    exact absurd hc.1 (by decide)
  · have h1 : some (⟨2, 1, 1, km, [], 7, 1⟩ : RI) = some r := hr
    injection h1 with h1; subst h1
    exact absurd hc.1 (by decide)

/-- Regions 1 to 4 of `exMeta`.  Region 2 is merged into region 3, which splits again at "m" (new region 5); region 5 is
merged into region 4, which reports; then region 3, now ["b", "m"), is merged into region 4 and reports itself empty at
"b".  The request built from region 4's older report takes the whole of "b" onwards away and puts only "m" onwards back. -/
def lowReports : List RI := [⟨4, 2, 1, km, [], 7, 2⟩, ⟨3, 4, 1, kb, kb, 7, 4⟩]

example : ((runAll (initRegions 1 [] [kb, km, ks]) [.mergeBegin 2 3, .mergeExtend 2, .mergeFinish 2,
    .splitBegin 3 km [5] [], .splitActivate 3, .splitFinish 3, .mergeBegin 5 4, .mergeExtend 5, .mergeFinish 5]).map
      fun st => st.map fun r => (r.id, r.ver, r.start, r.stop)) =
    some [(1, 1, [], kb), (2, 2, kb, kb), (3, 3, kb, km), (4, 2, km, []), (5, 2, km, km)] := by decide

example : ((runAll (initRegions 1 [] [kb, km, ks]) [.mergeBegin 2 3, .mergeExtend 2, .mergeFinish 2,
    .splitBegin 3 km [5] [], .splitActivate 3, .splitFinish 3, .mergeBegin 5 4, .mergeExtend 5, .mergeFinish 5,
    .mergeBegin 3 4, .mergeExtend 3, .mergeFinish 3]).map
      fun st => st.map fun r => (r.id, r.ver, r.start, r.stop)) =
    some [(1, 1, [], kb), (2, 2, kb, kb), (3, 4, kb, kb), (4, 3, kb, []), (5, 2, km, km)] := by decide

theorem C10_merged_region_counterexample :
    ∃ infos' keys', applyGen (reportAll exMeta lowReports) 4 = some (infos', keys') ∧
      keys' = [([], 1), (km, 4)] ∧ ¬ Tiles infos' keys' := by
  refine ⟨_, _, rfl, by decide, ?_⟩
  intro h
  obtain ⟨e, he, ⟨r, hr, hc⟩, _⟩ := h kb
  have he' : e ∈ ([([], 1), (km, 4)] : List (Bytes × Nat)) := he
  simp only [List.mem_cons, List.not_mem_nil, or_false] at he'
  rcases he' with rfl | rfl
  · have h1 : some (⟨1, 1, 1, [], kb, 7, 1⟩ : RI) = some r := hr
    injection h1 with h1; subst h1
    exact absurd (hc.2.resolve_left (by decide)) (by decide)
  · have h1 : some (⟨4, 2, 2, km, [], 7, 2⟩ : RI) = some r := hr
    injection h1 with h1; subst h1
    exact absurd hc.1 (by decide)

end Runs

/-- A new region waiting to be added under a start key gives way only to a newer report of the same region. -/
theorem C10_waiting_region (m : Meta) (r : RI) (k : Bytes) (o : RI) (h : (mfind r.start m.newMap).head? = some (k, o))
    (hne : addNew m r ≠ m) : r.id = o.id ∧ o.logIndex ≤ r.logIndex ∧ o.ver < r.ver := by
  unfold addNew at hne
  rw [h] at hne
  simp only at hne
  split at hne
  · exact absurd rfl hne
  · rename_i hc
    simp only [Bool.or_eq_true, bne_iff_ne, decide_eq_true_eq, not_or, ne_eq, Decidable.not_not, not_lt, not_le] at hc
    exact ⟨hc.1.1.1, hc.1.1.2, hc.1.2⟩

example : addNew { exMeta with newMap := [(km, ⟨5, 1, 1, km, [], 7, 1⟩)] } ⟨5, 2, 1, km, ks, 7, 2⟩ ≠
    { exMeta with newMap := [(km, ⟨5, 1, 1, km, [], 7, 1⟩)] } := by
  intro h
  have := congrArg Meta.newMap h
  exact absurd this (by decide)

/-- The regions of a presplit table are proposed together only while the partition has no region at all. -/
theorem C10_presplit_empty (m : Meta) (req : List RI) (h : generatePresplit m = some req) : m.keys = [] := by
  unfold generatePresplit at h
  split at h
  · rename_i hk; exact List.isEmpty_iff.mp hk
  · simp at h

end BaikalDB.Region
