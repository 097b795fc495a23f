import Verif.ClientMap.Lemmas

/-!
# The SQL layer's region map: one reported region
-/

namespace BaikalDB.ClientMap

open Region (RI Seg NE endPos PLt PLe ent setInfos mfind minsert seg_append seg_starts seg_cover Covers)
open KeyEnc (endKeyCompare)

/-- The reported regions, in the order of their start keys: non-empty, none deleted, no region twice. -/
structure Batch (xs : List Msg) : Prop where
  sorted : xs.Pairwise fun a b => BLt a.r.start b.r.start
  nonempty : ∀ x ∈ xs, NE x.r
  live : ∀ x ∈ xs, x.deleted = false
  ids : (xs.map (·.r.id)).Nodup

theorem Batch.tail {x : Msg} {xs : List Msg} (h : Batch (x :: xs)) : Batch xs :=
  ⟨(List.pairwise_cons.1 h.sorted).2, fun y hy => h.nonempty y (List.mem_cons_of_mem _ hy),
    fun y hy => h.live y (List.mem_cons_of_mem _ hy), (List.nodup_cons.1 h.ids).2⟩

theorem Batch.head {x : Msg} {xs : List Msg} (h : Batch (x :: xs)) {y : Msg} (hy : y ∈ xs) :
    x.r.id ≠ y.r.id ∧ BLt x.r.start y.r.start :=
  ⟨fun he => (List.nodup_cons.1 h.ids).1 (List.mem_map.2 ⟨y, hy, he.symm⟩), (List.pairwise_cons.1 h.sorted).1 y hy⟩

/-- A chain of regions waits to take the place of `M` and `m`. -/
structure Pend (s : St) (rest : List Msg) (p : Option Bytes) (A M : List RI) (m : RI) (B : List RI) (x : Msg)
    (news : List Msg) (l : Msg) : Prop where
  last : s.last = x :: news
  fin : s.last.getLast? = some l
  before : Seg (some []) A p
  old : Seg p (M ++ [m]) (endPos s.endKey)
  after : Seg (endPos s.endKey) B none
  new : Seg p ((x :: news).map (·.r)) (endPos l.r.stop)
  short : PLt (endPos l.r.stop) (endPos s.endKey)
  same : x.r.id = m.id
  ver : m.ver ≤ x.r.ver
  live : ∀ n ∈ x :: news, n.deleted = false
  ids : ((x :: news).map (·.r.id)).Nodup
  fresh : ∀ n ∈ news, s.t.infos n.r.id = none
  clear : s.clear = (M ++ [m]).map ent ∨ (s.clear = [] ∧ M = [])
  rest : ∀ n ∈ x :: news, ∀ z ∈ rest, n.r.id ≠ z.r.id ∧ BLt n.r.start z.r.start

/-- What holds between two reported regions. -/
structure Inv (s : St) (rest : List Msg) (L : List RI) : Prop where
  shape : Shape s.t L
  known : ∀ x ∈ rest, ∀ o, s.t.infos x.r.id = some o →
    o ∈ L ∧ o.id = x.r.id ∧ (o.ver = x.r.ver → x.r.start = o.start ∧ x.r.stop = o.stop)
  pend : s.last = [] ∨ ∃ p A M m B x news l, L = A ++ (M ++ [m]) ++ B ∧ Pend s rest p A M m B x news l

/-- What holds besides when no new region starts where a known one does. -/
structure Own (s : St) (rest : List Msg) (L : List RI) : Prop where
  placed : ∀ i r, s.t.infos i = some r → r ∈ L ∧ r.id = i
  fresh : ∀ x ∈ rest, s.t.infos x.r.id = none → ∀ r ∈ L, r.start ≠ x.r.start
  low : ∀ x ∈ rest, ∀ o, s.t.infos x.r.id = some o → BLe x.r.start o.start

theorem Inv.reset {s : St} {rest : List Msg} {L : List RI} (h : Inv s rest L) (e : Bytes) (c : List (Bytes × Nat)) :
    Inv ⟨s.t, [], c, e⟩ rest L := ⟨h.shape, h.known, .inl rfl⟩

theorem Inv.skip {s : St} {x : Msg} {rest : List Msg} {L : List RI} (h : Inv s (x :: rest) L) : Inv s rest L := by
  refine ⟨h.shape, fun y hy => h.known y (List.mem_cons_of_mem _ hy), ?_⟩
  rcases h.pend with h | ⟨p, A, M, m, B, x', news, l, e, hp⟩
  · exact .inl h
  · exact .inr ⟨p, A, M, m, B, x', news, l, e, { hp with rest := fun n hn z hz => hp.rest n hn z (List.mem_cons_of_mem _ hz) }⟩

theorem Own.skip {s : St} {x : Msg} {rest : List Msg} {L : List RI} (h : Own s (x :: rest) L) : Own s rest L :=
  ⟨h.placed, fun y hy => h.fresh y (List.mem_cons_of_mem _ hy), fun y hy => h.low y (List.mem_cons_of_mem _ hy)⟩

theorem Own.of_t {s s' : St} {rest : List Msg} {L : List RI} (h : Own s rest L) (e : s'.t = s.t) : Own s' rest L :=
  ⟨by rw [e]; exact h.placed, by rw [e]; exact h.fresh, by rw [e]; exact h.low⟩

/-- The new regions arrive: the map stays as it should be. -/
theorem Inv.replace {s : St} {rest : List Msg} {p q : Option Bytes} {A M : List RI} {m : RI} {B : List RI} {x : Msg}
    {news : List Msg} (h : Inv s rest (A ++ (M ++ [m]) ++ B)) (hr : Repl s.t p q A M m B x news)
    {clear : List (Bytes × Nat)} (hc : clear = (M ++ [m]).map ent ∨ (clear = [] ∧ M = []))
    (hrest : ∀ n ∈ x :: news, ∀ z ∈ rest, n.r.id ≠ z.r.id ∧ BLt n.r.start z.r.start) (c : List (Bytes × Nat)) (e : Bytes) :
    Inv ⟨applyChain s.t clear (x :: news), [], c, e⟩ rest (A ++ (x :: news).map (·.r) ++ B) ∧
    (Own s rest (A ++ (M ++ [m]) ++ B) →
      Own ⟨applyChain s.t clear (x :: news), [], c, e⟩ rest (A ++ (x :: news).map (·.r) ++ B)) := by
  have hinfo := hr.info hc
  have hsh := hr.after_shape hc
  -- what is known of the regions to come
  have hz : ∀ z ∈ rest, ((applyChain s.t clear (x :: news)).infos z.r.id = none ∧ z.r.id ∈ M.map (·.id)) ∨
      ((applyChain s.t clear (x :: news)).infos z.r.id = s.t.infos z.r.id ∧ z.r.id ∉ (M ++ [m]).map (·.id)) := by
    intro z hz
    rcases hinfo z.r.id with ⟨n, hn, hid, _⟩ | ⟨_, h2, h3⟩ | ⟨_, h2, h3⟩
    · exact absurd hid (hrest n hn z hz).1
    · exact .inl ⟨h3, h2⟩
    · exact .inr ⟨h3, h2⟩
  have hkeep : ∀ o, o ∈ A ++ (M ++ [m]) ++ B → o.id ∉ (M ++ [m]).map (·.id) → o ∈ A ++ (x :: news).map (·.r) ++ B := by
    intro o ho hi
    rcases List.mem_append.1 ho with ho | ho
    · rcases List.mem_append.1 ho with ho | ho
      · exact List.mem_append_left _ (List.mem_append_left _ ho)
      · exact absurd (List.mem_map.2 ⟨o, ho, rfl⟩) hi
    · exact List.mem_append_right _ ho
  refine ⟨⟨hsh, ?_, .inl rfl⟩, fun how => ⟨?_, ?_, ?_⟩⟩
  · intro z hz' o ho
    rcases hz z hz' with ⟨h1, _⟩ | ⟨h1, h2⟩
    · exact absurd (h1.symm.trans ho) (by simp)
    · obtain ⟨k1, k2, k3⟩ := h.known z hz' o (h1.symm.trans ho)
      exact ⟨hkeep o k1 (k2 ▸ h2), k2, k3⟩
  · intro i r hi
    rcases hinfo i with ⟨n, hn, hid, h4⟩ | ⟨_, _, h4⟩ | ⟨_, h2, h4⟩
    · have : n.r = r := Option.some.inj (h4.symm.trans hi)
      subst this
      exact ⟨List.mem_append_left _ (List.mem_append_right _ (List.mem_map.2 ⟨n, hn, rfl⟩)), hid⟩
    · exact absurd (h4.symm.trans hi) (by simp)
    · obtain ⟨k1, k2⟩ := how.placed i r (h4.symm.trans hi)
      exact ⟨hkeep r k1 (k2 ▸ h2), k2⟩
  · intro z hz' hnone r hrin heq
    rcases List.mem_append.1 hrin with hrin' | hB
    · rcases List.mem_append.1 hrin' with hA | hN
      · rcases hz z hz' with ⟨_, h2⟩ | ⟨h1, _⟩
        · -- before the place of the change
          have h3 := (seg_starts hr.before).2.1 r hA
          have h4 := (hrest x List.mem_cons_self z hz').2
          rw [← heq] at h4
          rw [hr.new.1] at h3
          exact BLt.asymm h3 h4
        · exact how.fresh z hz' (h1.symm.trans hnone) r (List.mem_append_left _ (List.mem_append_left _ hA)) heq
      · obtain ⟨n, hn, rfl⟩ := List.mem_map.1 hN
        have := (hrest n hn z hz').2
        rw [heq] at this
        exact BLt.irrefl _ this
    · rcases hz z hz' with ⟨_, h2⟩ | ⟨h1, _⟩
      · obtain ⟨o, ho, hid⟩ := List.mem_map.1 h2
        have hoM : o ∈ M ++ [m] := List.mem_append_left _ ho
        have hk := h.shape.infos o (List.mem_append_left _ (List.mem_append_right _ hoM))
        rw [hid] at hk
        have hlow := how.low z hz' o hk
        have h5 := (seg_starts hr.old).2.1 o hoM
        rcases (seg_starts hr.after).1 r hB with h6 | h6
        · rw [h6, heq] at h5
          exact not_BLt.2 hlow h5
        · have := h5.trans h6
          rw [heq] at this
          exact not_BLt.2 hlow this
      · exact how.fresh z hz' (h1.symm.trans hnone) r (List.mem_append_right _ hB) heq
  · intro z hz' o ho
    rcases hz z hz' with ⟨h1, _⟩ | ⟨h1, _⟩
    · exact absurd (h1.symm.trans ho) (by simp)
    · exact how.low z hz' o (h1.symm.trans ho)

/-! ## News of the same version -/

/-- The region's entry in the list is put in the place of the old one. -/
def put (x : RI) (r : RI) : RI := if r.id = x.id then x else r

theorem seg_put {x o : RI} (hs : x.start = o.start) (he : x.stop = o.stop) : ∀ {L : List RI} {p q : Option Bytes},
    (∀ r ∈ L, r.id = x.id → r = o) → Seg p L q → Seg p (L.map (put x)) q := by
  intro L
  induction L with
  | nil => intro p q _ h; exact h
  | cons r L ih =>
    intro p q hu h
    obtain ⟨h1, h2, h3⟩ := h
    have hput : (put x r).start = r.start ∧ (put x r).stop = r.stop := by
      unfold put
      split
      · rename_i hid; rw [hu r List.mem_cons_self hid]; exact ⟨hs, he⟩
      · exact ⟨rfl, rfl⟩
    refine ⟨by rw [hput.1]; exact h1, ?_, ?_⟩
    · unfold NE; rw [hput.1, hput.2]; exact h2
    · rw [hput.2]; exact ih (fun r hr => hu r (List.mem_cons_of_mem _ hr)) h3

theorem ent_put {x o : RI} (hs : x.start = o.start) {L : List RI} (hu : ∀ r ∈ L, r.id = x.id → r = o) :
    (L.map (put x)).map ent = L.map ent := by
  rw [List.map_map]
  apply List.map_congr_left
  intro r hr
  show ent (put x r) = ent r
  unfold put
  split
  · rename_i hid
    have := hu r hr hid
    unfold ent; rw [hid, hs, this]
  · rfl

theorem Inv.same {s : St} {x : Msg} {rest : List Msg} {L : List RI} (hb : Batch (x :: rest)) (h : Inv s (x :: rest) L)
    {o : RI} (ho : s.t.infos x.r.id = some o) (hv : ¬ o.ver < x.r.ver) :
    ∃ L', Inv ⟨updateRegion s.t x, s.last, s.clear, s.endKey⟩ rest L' ∧
      (Own s (x :: rest) L → Own ⟨updateRegion s.t x, s.last, s.clear, s.endKey⟩ rest L') := by
  obtain ⟨k1, k2, k3⟩ := h.known x List.mem_cons_self o ho
  have hdel := hb.live x List.mem_cons_self
  by_cases hlt : x.r.ver < o.ver
  · have : updateRegion s.t x = s.t := by
      unfold updateRegion verOf
      rw [hdel, if_neg (by simp), ho, if_pos hlt]
    rw [this]
    exact ⟨L, h.skip, fun hw => hw.skip⟩
  · have hveq : o.ver = x.r.ver := by omega
    obtain ⟨hs, he⟩ := k3 hveq
    have hu : ∀ r ∈ L, r.id = x.r.id → r = o := fun r hr hid => h.shape.inj hr k1 (hid.trans k2.symm)
    have ht : updateRegion s.t x = ⟨s.t.keys, setInfo s.t.infos x.r.id (some x.r)⟩ := by
      unfold updateRegion
      rw [hdel, if_neg (by simp), if_neg (by unfold verOf; rw [ho]; exact hlt), insertNew_present]
      rw [h.shape.keys]
      exact ⟨ent o, List.mem_map.2 ⟨o, k1, rfl⟩, hs.symm⟩
    have hmem : ∀ r ∈ L, put x.r r ∈ L.map (put x.r) := fun r hr => List.mem_map.2 ⟨r, hr, rfl⟩
    have hputne : ∀ r : RI, r.id ≠ x.r.id → put x.r r = r := fun r hr => by unfold put; rw [if_neg hr]
    have hputid : ∀ r : RI, (put x.r r).id = r.id := fun r => by
      unfold put; split
      · rename_i hh; exact hh.symm
      · rfl
    rw [ht]
    refine ⟨L.map (put x.r), ⟨⟨seg_put hs he hu h.shape.seg, ?_, ?_⟩, ?_, ?_⟩, fun how => ⟨?_, ?_, ?_⟩⟩
    · show s.t.keys = _
      rw [ent_put hs hu, h.shape.keys]
    · intro r hr
      obtain ⟨r', hr', rfl⟩ := List.mem_map.1 hr
      show setInfo _ _ _ _ = _
      rw [hputid]
      unfold setInfo put
      by_cases hid : r'.id = x.r.id
      · rw [if_pos hid, if_pos hid]
      · rw [if_neg hid, if_neg hid]; exact h.shape.infos r' hr'
    · intro z hz o' ho'
      have hne := (hb.head hz).1
      have : s.t.infos z.r.id = some o' := by
        have h0 : setInfo s.t.infos x.r.id (some x.r) z.r.id = some o' := ho'
        unfold setInfo at h0
        rwa [if_neg (fun h => hne h.symm)] at h0
      obtain ⟨j1, j2, j3⟩ := h.known z (List.mem_cons_of_mem _ hz) o' this
      refine ⟨?_, j2, j3⟩
      have := hmem o' j1
      rwa [hputne o' (by rw [j2]; exact fun h => hne h.symm)] at this
    · rcases h.pend with hp | ⟨p, A, M, m, B, y, news, l, e, hp⟩
      · exact .inl hp
      · right
        have hyx := hp.rest y (by simp) x List.mem_cons_self
        have hmx : m.id ≠ x.r.id := by rw [← hp.same]; exact hyx.1
        have hsub : ∀ r, r ∈ A ∨ r ∈ M ++ [m] ∨ r ∈ B → r.id = x.r.id → r = o := fun r hr => hu r (by rw [e]; simp at hr ⊢; tauto)
        have hm' : (M ++ [m]).map (put x.r) = M.map (put x.r) ++ [m] := by
          rw [List.map_append, List.map_cons, List.map_nil, hputne m hmx]
        refine ⟨p, A.map (put x.r), M.map (put x.r), m, B.map (put x.r), y, news, l, ?_, ?_⟩
        · rw [e, List.map_append, List.map_append, hm']
        · refine ⟨hp.last, hp.fin, seg_put hs he (fun r hr => hsub r (.inl hr)) hp.before, ?_,
            seg_put hs he (fun r hr => hsub r (.inr (.inr hr))) hp.after, hp.new, hp.short, hp.same, hp.ver, hp.live, hp.ids,
            ?_, ?_, fun n hn z hz => hp.rest n hn z (List.mem_cons_of_mem _ hz)⟩
          · rw [← hm']; exact seg_put hs he (fun r hr => hsub r (.inr (.inl hr))) hp.old
          · intro n hn
            show setInfo _ _ _ _ = _
            unfold setInfo
            rw [if_neg (hp.rest n (List.mem_cons_of_mem _ hn) x List.mem_cons_self).1]
            exact hp.fresh n hn
          · rcases hp.clear with hc | ⟨hc, hM⟩
            · left
              show s.clear = _
              rw [hc, ← hm', ent_put hs (fun r hr => hsub r (.inr (.inl hr)))]
            · right; exact ⟨hc, by rw [hM]; rfl⟩
    · intro i r hi
      have hi' : setInfo s.t.infos x.r.id (some x.r) i = some r := hi
      unfold setInfo at hi'
      split at hi'
      · rename_i hid
        injection hi' with hi'
        subst hi'
        refine ⟨?_, hid.symm⟩
        have := hmem o k1
        unfold put at this
        rwa [if_pos k2] at this
      · rename_i hid
        obtain ⟨j1, j2⟩ := how.placed i r hi'
        have := hmem r j1
        rw [hputne r (by rw [j2]; exact hid)] at this
        exact ⟨this, j2⟩
    · intro z hz hn r hr heq
      have hne := (hb.head hz).1
      have hn' : s.t.infos z.r.id = none := by
        have h0 : setInfo s.t.infos x.r.id (some x.r) z.r.id = none := hn
        unfold setInfo at h0
        rwa [if_neg (fun h => hne h.symm)] at h0
      obtain ⟨r', hr', rfl⟩ := List.mem_map.1 hr
      refine how.fresh z (List.mem_cons_of_mem _ hz) hn' r' hr' ?_
      rw [← heq]
      unfold put
      split
      · rename_i hid; rw [hu r' hr' hid, hs]
      · rfl
    · intro z hz o' ho'
      have hne := (hb.head hz).1
      have h0 : setInfo s.t.infos x.r.id (some x.r) z.r.id = some o' := ho'
      unfold setInfo at h0
      rw [if_neg (fun h => hne h.symm)] at h0
      exact how.low z (List.mem_cons_of_mem _ hz) o' h0

/-! ## A region not known so far -/

/-- In a map without holes a new region that the one before does not reach into starts where a known region starts. -/
theorem not_overlaps {t : Map} {L : List RI} (h : Shape t L) {k : Bytes} (ho : overlapsPrev t k = false) :
    ∃ r ∈ L, r.start = k := by
  obtain ⟨r, hr, hc⟩ := (seg_cover h.seg (x := k)).1 ⟨BLe_nil k, trivial⟩
  by_cases hk : r.start = k
  · exact ⟨r, hr, hk⟩
  exfalso
  have hlt : BLt r.start k := by
    rcases BLe_iff.1 hc.1 with h | h
    · exact h
    · exact absurd h hk
  obtain ⟨A, B, rfl⟩ := List.append_of_mem hr
  obtain ⟨u, hA, hu, _, hB⟩ := seg_append.1 h.seg
  have htake : (t.keys.takeWhile fun e => bcmp e.1 k == .lt) = (A ++ [r]).map ent := by
    rw [h.keys, show (A ++ r :: B).map ent = (A ++ [r]).map ent ++ B.map ent by simp, List.takeWhile_append_of_pos]
    · cases B with
      | nil => simp
      | cons b B =>
        have hb := hB.1
        have : ¬ bcmp b.start k = .lt := by
          intro hbk
          rcases hc.2 with h0 | h0
          · rw [h0] at hb; simp [endPos] at hb
          · have : r.stop = b.start := by
              unfold endPos at hb; split at hb
              · cases hb
              · injection hb
            rw [this] at h0
            exact BLt.asymm h0 hbk
        simp [ent, this]
    · intro e he
      obtain ⟨a, ha, rfl⟩ := List.mem_map.1 he
      have : BLt a.start k := by
        rcases List.mem_append.1 ha with ha | ha
        · have h2 := (seg_starts hA).2.1 a ha
          rw [hu] at h2
          exact BLt.trans h2 hlt
        · rw [List.mem_singleton] at ha; rw [ha]; exact hlt
      have : bcmp a.start k = .lt := this
      simp [ent, this]
  unfold overlapsPrev at ho
  rw [htake, show ((A ++ [r]).map ent).getLast? = some (ent r) by simp] at ho
  have hi : t.infos (ent r).2 = some r := h.infos r hr
  simp only [hi, beq_eq_false_iff_ne, ne_eq] at ho
  have hk0 : k ≠ [] := by rintro rfl; exact absurd hlt (not_BLt.2 (BLe_nil _))
  apply ho
  unfold endKeyCompare
  rcases hc.2 with h0 | h0
  · rw [h0, if_neg (fun h => hk0 h.symm), if_pos rfl]
  · have h1 : r.stop ≠ k := by intro hh; rw [hh] at h0; exact BLt.irrefl _ h0
    rw [if_neg h1]
    by_cases h2 : r.stop = []
    · rw [if_pos h2]
    · rw [if_neg h2, if_neg hk0]; exact bcmp_gt_iff.2 h0

theorem Inv.unknown {s : St} {x : Msg} {rest : List Msg} {L : List RI} (hb : Batch (x :: rest)) (h : Inv s (x :: rest) L)
    (ho : s.t.infos x.r.id = none) :
    ∃ L', Inv (stepNew s x) rest L' ∧ (Own s (x :: rest) L → Own (stepNew s x) rest L') := by
  have hdel := hb.live x List.mem_cons_self
  rcases h.pend with hp | ⟨p, A, M, m, B, y, news, l, e, hp⟩
  · have hstep : stepNew s x = if overlapsPrev s.t x.r.start then s else ⟨updateRegion s.t x, [], s.clear, s.endKey⟩ := by
      unfold stepNew; rw [hp]; rfl
    rw [hstep]
    cases hov : overlapsPrev s.t x.r.start with
    | true => exact ⟨L, by rw [if_pos rfl]; exact h.skip, fun hw => by rw [if_pos rfl]; exact hw.skip⟩
    | false =>
      rw [if_neg (by simp)]
      obtain ⟨r, hr, hrs⟩ := not_overlaps h.shape hov
      have ht : updateRegion s.t x = ⟨s.t.keys, setInfo s.t.infos x.r.id (some x.r)⟩ := by
        unfold updateRegion
        rw [hdel, if_neg (by simp), if_neg (by unfold verOf; rw [ho]; exact Nat.not_lt_zero _), insertNew_present]
        rw [h.shape.keys]
        exact ⟨ent r, List.mem_map.2 ⟨r, hr, rfl⟩, hrs⟩
      rw [ht]
      have hset : ∀ i, i ≠ x.r.id → setInfo s.t.infos x.r.id (some x.r) i = s.t.infos i := fun i hi => by
        unfold setInfo; rw [if_neg hi]
      refine ⟨L, ⟨⟨h.shape.seg, h.shape.keys, fun r hr => ?_⟩, fun z hz o' ho' => ?_, .inl rfl⟩, fun hw => ?_⟩
      · show setInfo _ _ _ _ = _
        rw [hset]
        · exact h.shape.infos r hr
        · intro hh
          have := h.shape.infos r hr
          rw [hh, ho] at this; cases this
      · have h0 : setInfo s.t.infos x.r.id (some x.r) z.r.id = some o' := ho'
        rw [hset _ (fun hh => (hb.head hz).1 hh.symm)] at h0
        exact h.known z (List.mem_cons_of_mem _ hz) o' h0
      · exact absurd hrs (hw.fresh x List.mem_cons_self ho r hr)
  · have hfin := hp.fin
    have hstep : stepNew s x =
        if l.r.stop != x.r.start then s.reset
        else if x.r.stop == s.endKey then ⟨applyChain s.t s.clear (s.last ++ [x]), [], [], s.endKey⟩
        else if endKeyCompare x.r.stop s.endKey == .gt then s.reset
        else ⟨s.t, s.last ++ [x], s.clear, s.endKey⟩ := by
      unfold stepNew; rw [hfin]
    rw [hstep]
    have hres : ∃ L', Inv s.reset rest L' ∧ (Own s (x :: rest) L → Own s.reset rest L') :=
      ⟨L, h.skip.reset _ _, fun hw => hw.skip.of_t rfl⟩
    by_cases hst : l.r.stop = x.r.start
    · rw [if_neg (by simp [hst])]
      have hne : endPos l.r.stop = some x.r.start := by
        have hs := hp.short
        unfold endPos at hs ⊢
        split
        · rename_i h0; rw [if_pos h0] at hs; exact hs.elim
        · rw [hst]
      -- the longer chain
      have hseg : Seg p ((y :: (news ++ [x])).map (·.r)) (endPos x.r.stop) := by
        have : (y :: (news ++ [x])).map (·.r) = (y :: news).map (·.r) ++ [x.r] := by simp
        rw [this]
        exact seg_append.2 ⟨_, hp.new, hne, hb.nonempty x List.mem_cons_self, rfl⟩
      have hlive : ∀ n ∈ y :: (news ++ [x]), n.deleted = false := by
        intro n hn
        rw [← List.cons_append] at hn
        rcases List.mem_append.1 hn with hn | hn
        · exact hp.live n hn
        · rw [List.mem_singleton] at hn; rw [hn]; exact hdel
      have hids : ((y :: (news ++ [x])).map (·.r.id)).Nodup := by
        rw [← List.cons_append, List.map_append]
        refine List.nodup_append.2 ⟨hp.ids, by simp, ?_⟩
        intro a ha b hb' hab
        obtain ⟨n, hn, rfl⟩ := List.mem_map.1 ha
        rw [List.map_cons, List.map_nil, List.mem_singleton] at hb'
        exact (hp.rest n hn x List.mem_cons_self).1 (hab.trans hb')
      have hfr : ∀ n ∈ news ++ [x], s.t.infos n.r.id = none := by
        intro n hn
        rcases List.mem_append.1 hn with hn | hn
        · exact hp.fresh n hn
        · rw [List.mem_singleton] at hn; rw [hn]; exact ho
      have hrest : ∀ n ∈ y :: (news ++ [x]), ∀ z ∈ rest, n.r.id ≠ z.r.id ∧ BLt n.r.start z.r.start := by
        intro n hn z hz
        rw [← List.cons_append] at hn
        rcases List.mem_append.1 hn with hn | hn
        · exact hp.rest n hn z (List.mem_cons_of_mem _ hz)
        · rw [List.mem_singleton] at hn; rw [hn]; exact hb.head hz
      have hlast : s.last ++ [x] = y :: (news ++ [x]) := by rw [hp.last]; rfl
      by_cases hend : x.r.stop = s.endKey
      · rw [if_pos (by simp [hend]), hlast]
        have hinv := h.skip
        rw [e] at hinv
        have hrepl : Repl s.t p (endPos s.endKey) A M m B y (news ++ [x]) :=
          ⟨hinv.shape, hp.before, hp.old, hp.after, hend ▸ hseg, hp.same, hp.ver, hlive, hids, hfr⟩
        obtain ⟨r1, r2⟩ := hinv.replace hrepl hp.clear hrest [] s.endKey
        exact ⟨_, r1, fun hw => r2 (e ▸ hw.skip)⟩
      · rw [if_neg (by simp [hend])]
        cases hcmp : endKeyCompare x.r.stop s.endKey with
        | gt => exact hres
        | eq => exact absurd (endEq_iff.1 hcmp) hend
        | lt =>
          rw [if_neg (by simp)]
          refine ⟨L, ⟨h.shape, h.skip.known, .inr ⟨p, A, M, m, B, y, news ++ [x], x, e, ?_⟩⟩, fun hw => hw.skip.of_t rfl⟩
          exact ⟨hlast, by simp, hp.before, hp.old, hp.after, hseg, endLt_iff.1 hcmp, hp.same, hp.ver, hlive, hids, hfr,
            hp.clear, hrest⟩
    · rw [if_pos (by simp [hst])]
      exact hres

/-! ## A known region with a higher version -/

theorem Inv.newer {s : St} {x : Msg} {rest : List Msg} {L : List RI} (hb : Batch (x :: rest)) (h : Inv s (x :: rest) L)
    {o : RI} (ho : s.t.infos x.r.id = some o) (hv : o.ver < x.r.ver) :
    ∃ L', Inv (stepNewer s o x) rest L' ∧ (Own s (x :: rest) L → Own (stepNewer s o x) rest L') := by
  have hdel := hb.live x List.mem_cons_self
  obtain ⟨k1, k2, _⟩ := h.known x List.mem_cons_self o ho
  have hres : ∀ c e, ∃ L', Inv ⟨s.t, [], c, e⟩ rest L' ∧ (Own s (x :: rest) L → Own ⟨s.t, [], c, e⟩ rest L') :=
    fun c e => ⟨L, h.skip.reset _ _, fun hw => hw.skip.of_t rfl⟩
  have hnx := hb.nonempty x List.mem_cons_self
  have hids : ([x].map (·.r.id)).Nodup := by simp
  have hlive : ∀ n ∈ [x], n.deleted = false := by simpa using hdel
  have hrest : ∀ n ∈ [x], ∀ z ∈ rest, n.r.id ≠ z.r.id ∧ BLt n.r.start z.r.start := fun n hn z hz => by
    rw [List.mem_singleton] at hn; rw [hn]; exact hb.head hz
  -- the place of the region itself
  have hplace : ∃ A B, L = A ++ ([] ++ [o]) ++ B ∧ Seg (some []) A (some o.start) ∧
      Seg (some o.start) ([] ++ [o]) (endPos o.stop) ∧ Seg (endPos o.stop) B none := by
    obtain ⟨A, B, rfl⟩ := List.append_of_mem k1
    obtain ⟨u, hA, hu, hne, hB⟩ := seg_append.1 h.shape.seg
    exact ⟨A, B, by simp, hu ▸ hA, ⟨rfl, hne, rfl⟩, hB⟩
  unfold stepNewer
  by_cases hs : bcmp x.r.start o.start = .lt
  · -- the start key has become smaller
    have hsb : (bcmp x.r.start o.start == .lt) = true := by simp [hs]
    have hneq : (x.r.start == o.start) = false := by
      simp only [beq_eq_false_iff_ne, ne_eq]
      intro hh; rw [hh] at hs; simp at hs
    simp only [hsb, hneq, Bool.true_and, Bool.false_and, Bool.false_eq_true, if_false]
    have hclear := getClear_spec h.shape k1 (k := x.r.start) hs
    cases hcmp : endKeyCompare x.r.stop o.stop with
    | lt =>
      rw [if_pos (by simp)]
      rcases hclear with hc | ⟨A, M, B, e, hM, hc, hA, hO, hB⟩
      · rw [hc]; exact hres _ _
      · rw [hc, if_neg (by cases M <;> simp at hM ⊢)]
        refine ⟨L, ⟨h.shape, h.skip.known, .inr ⟨some x.r.start, A, M, o, B, x, [], x, e, ?_⟩⟩, fun hw => hw.skip.of_t rfl⟩
        exact ⟨rfl, rfl, hA, hO, hB, ⟨rfl, hnx, rfl⟩, endLt_iff.1 hcmp, k2.symm, Nat.le_of_lt hv, hlive, hids,
          by simp, .inl rfl, hrest⟩
    | eq =>
      rw [if_neg (by simp), if_pos (by simp)]
      rcases hclear with hc | ⟨A, M, B, e, hM, hc, hA, hO, hB⟩
      · rw [hc]; exact hres _ _
      · rw [hc, if_pos (by cases M <;> simp at hM ⊢)]
        have hinv := h.skip
        rw [e] at hinv
        have hrepl : Repl s.t (some x.r.start) (endPos o.stop) A M o B x [] :=
          ⟨hinv.shape, hA, hO, hB, ⟨rfl, hnx, by show endPos x.r.stop = _; rw [endEq_iff.1 hcmp]⟩, k2.symm, Nat.le_of_lt hv, hlive, hids, by simp⟩
        obtain ⟨r1, r2⟩ := hinv.replace hrepl (.inl rfl) hrest ((M ++ [o]).map ent) s.endKey
        exact ⟨_, r1, fun hw => r2 (e ▸ hw.skip)⟩
    | gt =>
      rw [if_neg (by simp), if_neg (by simp)]
      exact hres _ _
  · have hsb : (bcmp x.r.start o.start == .lt) = false := by simp [hs]
    simp only [hsb, Bool.false_and, Bool.false_eq_true, if_false]
    by_cases heq : x.r.start = o.start
    · have hsq : (x.r.start == o.start) = true := by simp [heq]
      simp only [hsq, Bool.true_and]
      obtain ⟨A, B, e, hA, hO, hB⟩ := hplace
      cases hcmp : endKeyCompare x.r.stop o.stop with
      | lt =>
        rw [if_pos (by simp)]
        refine ⟨L, ⟨h.shape, h.skip.known, .inr ⟨some o.start, A, [], o, B, x, [], x, e, ?_⟩⟩, fun hw => hw.skip.of_t rfl⟩
        exact ⟨rfl, rfl, hA, hO, hB, ⟨by rw [heq], hnx, rfl⟩, endLt_iff.1 hcmp, k2.symm, Nat.le_of_lt hv, hlive, hids,
          by simp, .inr ⟨rfl, rfl⟩, hrest⟩
      | eq =>
        have hstop := endEq_iff.1 hcmp
        rw [if_neg (by simp), if_pos (by simp [hstop])]
        have hinv := h.skip
        rw [e] at hinv
        have hrepl : Repl s.t (some o.start) (endPos o.stop) A [] o B x [] :=
          ⟨hinv.shape, hA, hO, hB, ⟨by rw [heq], hnx, by show endPos x.r.stop = _; rw [hstop]⟩, k2.symm, Nat.le_of_lt hv, hlive, hids, by simp⟩
        obtain ⟨r1, r2⟩ := hinv.replace hrepl (.inr ⟨rfl, rfl⟩) hrest [] s.endKey
        exact ⟨_, r1, fun hw => r2 (e ▸ hw.skip)⟩
      | gt =>
        have hne : ¬ x.r.stop = o.stop := fun hh => by rw [endEq_iff.2 hh] at hcmp; cases hcmp
        rw [if_neg (by simp), if_neg (by simpa using hne)]
        exact hres _ _
    · have hsq : (x.r.start == o.start) = false := by simp [heq]
      simp only [hsq, Bool.false_and, Bool.false_eq_true, if_false]
      exact hres _ _

theorem Inv.step {s : St} {x : Msg} {rest : List Msg} {L : List RI} (hb : Batch (x :: rest)) (h : Inv s (x :: rest) L) :
    ∃ L', Inv (step s x) rest L' ∧ (Own s (x :: rest) L → Own (step s x) rest L') := by
  unfold ClientMap.step
  cases ho : s.t.infos x.r.id with
  | none => exact h.unknown hb ho
  | some o =>
    by_cases hv : o.ver < x.r.ver
    · simp only [if_pos hv]; exact h.newer hb ho hv
    · simp only [if_neg hv]; exact h.same hb ho hv

theorem Inv.steps {xs : List Msg} : ∀ {s : St} {L : List RI}, Batch xs → Inv s xs L →
    ∃ L', Inv (xs.foldl ClientMap.step s) [] L' ∧ (Own s xs L → Own (xs.foldl ClientMap.step s) [] L') := by
  induction xs with
  | nil => intro s L _ h; exact ⟨L, h, id⟩
  | cons x xs ih =>
    intro s L hb h
    obtain ⟨L1, h1, w1⟩ := h.step hb
    obtain ⟨L2, h2, w2⟩ := ih hb.tail h1
    exact ⟨L2, h2, fun hw => w2 (w1 hw)⟩

end BaikalDB.ClientMap
