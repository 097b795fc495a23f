import Verif.ClientMap.Model
import Verif.Region.MetaProps
import Mathlib.Data.List.Nodup

/-!
# The SQL layer's region map: replacing consecutive regions by others
-/

namespace BaikalDB.ClientMap

open Region (RI Seg NE endPos PLt PLe ent setInfos mfind minsert seg_append seg_starts seg_find seg_end setInfos_other
  setInfos_mem minsert_mid)
open KeyEnc (endKeyCompare)

theorem endLt_iff {a b : Bytes} : endKeyCompare a b = .lt ↔ PLt (endPos a) (endPos b) := by
  unfold endKeyCompare endPos
  by_cases hab : a = b
  · subst hab
    simp only [if_true, reduceCtorEq, false_iff]
    exact PLt.irrefl _
  · rw [if_neg hab]
    by_cases ha : a = []
    · simp [ha, PLt]
    · by_cases hb : b = []
      · simp [ha, hb, PLt]
      · simp [ha, hb, PLt, BLt]

theorem endEq_iff {a b : Bytes} : endKeyCompare a b = .eq ↔ a = b := by
  unfold endKeyCompare
  by_cases hab : a = b
  · simp [hab]
  · rw [if_neg hab]
    by_cases ha : a = []
    · simp [ha]; intro h; exact hab (by rw [ha, h])
    · by_cases hb : b = []
      · simp [ha, hb]
      · simp only [ha, hb, if_false]; exact bcmp_eq_iff

theorem endPos_inj {a b : Bytes} (h : endPos a = endPos b) : a = b := by
  unfold endPos at h
  by_cases ha : a = [] <;> by_cases hb : b = [] <;> simp_all

/-- The map is what the consecutive regions `L` say. -/
structure Shape (t : Map) (L : List RI) : Prop where
  seg : Seg (some []) L none
  keys : t.keys = L.map ent
  infos : ∀ r ∈ L, t.infos r.id = some r

theorem Shape.inj {t : Map} {L : List RI} (h : Shape t L) {r r' : RI} (hr : r ∈ L) (hr' : r' ∈ L) (hid : r.id = r'.id) :
    r = r' := by
  have h1 := h.infos r hr
  rw [hid, h.infos r' hr'] at h1
  exact (Option.some.inj h1).symm

theorem seg_nodup {p q : Option Bytes} {L : List RI} (h : Seg p L q) : L.Nodup := by
  have := (seg_starts h).2.2
  exact List.Pairwise.imp (fun {a b} hab => by rintro rfl; exact BLt.irrefl _ hab) this

theorem Shape.idsNodup {t : Map} {L : List RI} (h : Shape t L) : (L.map (·.id)).Nodup :=
  (List.nodup_map_iff_inj_on (seg_nodup h.seg)).2 fun _ ha _ hb hab => h.inj ha hb hab

/-! ## Clearing and inserting -/

theorem clearRegion_eq (t : Map) (es : List (Bytes × Nat)) : clearRegion t es =
    ⟨t.keys.filter fun e => decide (e.1 ∉ es.map (·.1)), fun i => if i ∈ es.map (·.2) then none else t.infos i⟩ := by
  induction es generalizing t with
  | nil =>
    rw [clearRegion]
    have : t.keys.filter (fun e => decide (e.1 ∉ ([] : List (Bytes × Nat)).map (·.1))) = t.keys :=
      List.filter_eq_self.2 (by simp)
    rw [this]; simp
  | cons e es ih =>
    rw [clearRegion, ih]
    congr 1
    · rw [eraseKey, List.filter_filter]
      apply List.filter_congr
      intro a _
      simp only [List.map_cons, List.mem_cons, not_or, Bool.decide_and, bne, Bool.and_comm]
      congr 1
      by_cases h : a.1 = e.1 <;> simp [h]
    · funext i
      simp only [List.map_cons, List.mem_cons, setInfo]
      by_cases h1 : i ∈ es.map (·.2)
      · simp [h1]
      · by_cases h2 : i = e.2 <;> simp [h1, h2]

theorem insertNew_absent {k : Bytes} {v : Nat} {m : List (Bytes × Nat)} (h : ∀ e ∈ m, e.1 ≠ k) :
    insertNew k v m = minsert k v m := by
  unfold insertNew
  rw [if_neg]
  simp only [List.any_eq_true, beq_iff_eq, not_exists, not_and]
  exact h

theorem insertNew_present {k : Bytes} {v : Nat} {m : List (Bytes × Nat)} (h : ∃ e ∈ m, e.1 = k) :
    insertNew k v m = m := by
  unfold insertNew
  rw [if_pos]
  obtain ⟨e, he, hk⟩ := h
  exact List.any_eq_true.2 ⟨e, he, by simp [hk]⟩

theorem insert_fold {N : List Msg} {A B : List (Bytes × Nat)} (hN : N.Pairwise fun a b => BLt a.r.start b.r.start)
    (hA : ∀ e ∈ A, ∀ n ∈ N, BLt e.1 n.r.start) (hB : ∀ e ∈ B, ∀ n ∈ N, BLt n.r.start e.1) :
    N.foldl (fun m n => insertNew n.r.start n.r.id m) (A ++ B) = A ++ N.map (fun n => ent n.r) ++ B := by
  induction N generalizing A with
  | nil => simp
  | cons n N ih =>
    have h1 : ∀ e ∈ A, BLt e.1 n.r.start := fun e he => hA e he n List.mem_cons_self
    have h2 : ∀ e ∈ B, BLt n.r.start e.1 := fun e he => hB e he n List.mem_cons_self
    rw [List.foldl_cons, insertNew_absent, minsert_mid h1 h2]
    · rw [show A ++ (n.r.start, n.r.id) :: B = (A ++ [ent n.r]) ++ B by simp [ent]]
      rw [List.pairwise_cons] at hN
      rw [ih hN.2]
      · simp
      · intro e he m hm
        rcases List.mem_append.1 he with he | he
        · exact hA e he m (List.mem_cons_of_mem _ hm)
        · rw [List.mem_singleton] at he; subst he; exact hN.1 m hm
      · exact fun e he m hm => hB e he m (List.mem_cons_of_mem _ hm)
    · intro e he
      rcases List.mem_append.1 he with he | he
      · intro hk; have := h1 e he; rw [hk] at this; exact BLt.irrefl _ this
      · intro hk; have := h2 e he; rw [hk] at this; exact BLt.irrefl _ this

theorem fold_update {ns : List Msg} {t : Map} (hd : ∀ n ∈ ns, n.deleted = false) (hn : (ns.map (·.r.id)).Nodup)
    (hv : ∀ n ∈ ns, verOf t.infos n.r.id ≤ n.r.ver) :
    ns.foldl updateRegion t =
      ⟨ns.foldl (fun m n => insertNew n.r.start n.r.id m) t.keys, setInfos t.infos (ns.map (·.r))⟩ := by
  induction ns generalizing t with
  | nil => rfl
  | cons n ns ih =>
    have h0 : updateRegion t n = ⟨insertNew n.r.start n.r.id t.keys, setInfo t.infos n.r.id (some n.r)⟩ := by
      unfold updateRegion
      rw [hd n List.mem_cons_self, if_neg (by simp), if_neg (by have := hv n List.mem_cons_self; omega)]
    rw [List.map_cons, List.nodup_cons] at hn
    rw [List.foldl_cons, h0, ih (fun m hm => hd m (List.mem_cons_of_mem _ hm)) hn.2]
    · rfl
    · intro m hm
      have hne : m.r.id ≠ n.r.id := fun h => hn.1 (h ▸ List.mem_map.2 ⟨m, hm, rfl⟩)
      have := hv m (List.mem_cons_of_mem _ hm)
      unfold verOf at this ⊢
      simpa [setInfo, hne] using this

/-! ## A chain of regions takes the place of consecutive ones -/

/-- The regions `M` and `m` give way to `x` and `news`. -/
structure Repl (t : Map) (p q : Option Bytes) (A M : List RI) (m : RI) (B : List RI) (x : Msg) (news : List Msg) : Prop where
  shape : Shape t (A ++ (M ++ [m]) ++ B)
  before : Seg (some []) A p
  old : Seg p (M ++ [m]) q
  after : Seg q B none
  new : Seg p ((x :: news).map (·.r)) q
  same : x.r.id = m.id
  ver : m.ver ≤ x.r.ver
  live : ∀ n ∈ x :: news, n.deleted = false
  ids : ((x :: news).map (·.r.id)).Nodup
  fresh : ∀ n ∈ news, t.infos n.r.id = none

theorem Repl.apply {t : Map} {p q : Option Bytes} {A M : List RI} {m : RI} {B : List RI} {x : Msg} {news : List Msg}
    (h : Repl t p q A M m B x news) {clear : List (Bytes × Nat)}
    (hc : clear = (M ++ [m]).map ent ∨ (clear = [] ∧ M = [])) :
    applyChain t clear (x :: news) =
      ⟨(A ++ (x :: news).map (·.r) ++ B).map ent,
       setInfos (fun i => if i ∈ M.map (·.id) then none else t.infos i) ((x :: news).map (·.r))⟩ := by
  have hsA := seg_starts h.before
  have hsM := seg_starts h.old
  have hsB := seg_starts h.after
  have hsN := seg_starts h.new
  have hmm : m ∈ A ++ (M ++ [m]) ++ B := by simp
  -- starts of the parts
  have hp : ∃ k, p = some k := by
    have := h.new.1; exact ⟨_, this⟩
  obtain ⟨k, rfl⟩ := hp
  have hA : ∀ r ∈ A, BLt r.start k := fun r hr => hsA.2.1 r hr
  have hMge : ∀ r ∈ M ++ [m], BLe k r.start := fun r hr => by
    rcases hsM.1 r hr with h | h
    · injection h with h; rw [h]; exact BLe.refl _
    · exact (show BLt k r.start from h).le
  have hNge : ∀ r ∈ (x :: news).map (·.r), BLe k r.start := fun r hr => by
    rcases hsN.1 r hr with h | h
    · injection h with h; rw [h]; exact BLe.refl _
    · exact (show BLt k r.start from h).le
  have hB : ∀ r ∈ B, ∀ y, PLt (some y) q → BLt y r.start := fun r hr y hy => by
    rcases hsB.1 r hr with h | h
    · rw [h] at hy; exact hy
    · exact hy.trans h
  have hxk : x.r.start = k := by
    have := h.new.1; injection this with this; exact this.symm
  unfold applyChain
  have hNpw : (x :: news).Pairwise fun a b => BLt a.r.start b.r.start := 
    (List.pairwise_map (f := fun x : Msg => x.r) (R := fun a b => BLt a.start b.start)).1 hsN.2.2
  rcases hc with rfl | ⟨rfl, rfl⟩
  · rw [clearRegion_eq]
    have hk : t.keys.filter (fun e => decide (e.1 ∉ ((M ++ [m]).map ent).map (·.1))) = A.map ent ++ B.map ent := by
      rw [h.shape.keys, show (A ++ (M ++ [m]) ++ B).map ent = A.map ent ++ (M ++ [m]).map ent ++ B.map ent by simp,
        List.filter_append, List.filter_append]
      have e1 : (A.map ent).filter (fun e => decide (e.1 ∉ ((M ++ [m]).map ent).map (·.1))) = A.map ent := by
        refine List.filter_eq_self.2 fun e he => ?_
        obtain ⟨a, ha, rfl⟩ := List.mem_map.1 he
        simp only [decide_eq_true_eq, List.map_map, List.mem_map, not_exists, not_and, Function.comp]
        intro r hr heq
        have : r.start = a.start := heq
        have h1 := hA a ha
        have h2 := hMge r hr
        rw [this] at h2
        exact not_BLt.2 h2 h1
      have e2 : ((M ++ [m]).map ent).filter (fun e => decide (e.1 ∉ ((M ++ [m]).map ent).map (·.1))) = [] := by
        refine List.filter_eq_nil_iff.2 fun e he => ?_
        simp only [decide_eq_true_eq, not_not]
        exact List.mem_map.2 ⟨e, he, rfl⟩
      have e3 : (B.map ent).filter (fun e => decide (e.1 ∉ ((M ++ [m]).map ent).map (·.1))) = B.map ent := by
        refine List.filter_eq_self.2 fun e he => ?_
        obtain ⟨b, hb, rfl⟩ := List.mem_map.1 he
        simp only [decide_eq_true_eq, List.map_map, List.mem_map, not_exists, not_and, Function.comp]
        intro r hr heq
        have : r.start = b.start := heq
        have h1 := hB b hb r.start (hsM.2.1 r hr)
        rw [this] at h1
        exact BLt.irrefl _ h1
      rw [e1, e2, e3, List.append_nil]
    have hid2 : ((M ++ [m]).map ent).map (·.2) = (M ++ [m]).map (·.id) := by rw [List.map_map]; rfl
    rw [fold_update h.live h.ids]
    · congr 1
      · show (x :: news).foldl _ (t.keys.filter _) = _
        rw [hk, insert_fold hNpw]
        · rw [List.map_append, List.map_append, List.map_map]; rfl
        · intro e he n hn
          obtain ⟨a, ha, rfl⟩ := List.mem_map.1 he
          exact BLt.trans_le (hA a ha) (hNge n.r (List.mem_map.2 ⟨n, hn, rfl⟩))
        · intro e he n hn
          obtain ⟨b, hb, rfl⟩ := List.mem_map.1 he
          exact hB b hb _ (hsN.2.1 n.r (List.mem_map.2 ⟨n, hn, rfl⟩))
      · rw [List.map_cons, setInfos, setInfos]
        congr 1
        funext i
        by_cases hi : i = x.r.id
        · rw [if_pos hi, if_pos hi]
        · rw [if_neg hi, if_neg hi]
          show (if i ∈ ((M ++ [m]).map ent).map (·.2) then none else t.infos i) = _
          have hiff : i ∈ ((M ++ [m]).map ent).map (·.2) ↔ i ∈ M.map (·.id) := by
            rw [hid2, List.map_append, List.mem_append]
            have : i ∉ [m].map (·.id) := by rw [h.same] at hi; simpa using hi
            simp only [this, or_false]
          by_cases hM : i ∈ M.map (·.id)
          · rw [if_pos hM, if_pos (hiff.2 hM)]
          · rw [if_neg hM, if_neg (fun h => hM (hiff.1 h))]
    · intro n hn
      rcases List.mem_cons.1 hn with rfl | hn'
      · have : n.r.id ∈ ((M ++ [m]).map ent).map (·.2) := by rw [hid2, h.same]; simp
        unfold verOf
        simp only [this, if_true]
        omega
      · unfold verOf
        simp only
        split
        · rename_i o ho
          split at ho
          · cases ho
          · rw [h.fresh n hn'] at ho; cases ho
        · omega
  · rw [clearRegion, fold_update h.live h.ids]
    · congr 1
      · rw [h.shape.keys, List.foldl_cons, insertNew_present]
        · have hent : ent m = ent x.r := by
            have := h.old.1; injection this with this
            unfold ent; rw [h.same, hxk, ← this]
          have hl : List.map ent (A ++ ([] ++ [m]) ++ B) = (A.map ent ++ [ent x.r]) ++ B.map ent := by simp [hent]
          rw [hl]
          rw [List.pairwise_cons] at hNpw
          rw [insert_fold hNpw.2]
          · simp
          · intro e he n hn
            rcases List.mem_append.1 he with he | he
            · obtain ⟨a, ha, rfl⟩ := List.mem_map.1 he
              exact BLt.trans_le (hA a ha) (hNge n.r (List.mem_map.2 ⟨n, List.mem_cons_of_mem _ hn, rfl⟩))
            · rw [List.mem_singleton] at he; subst he
              exact hNpw.1 n hn
          · intro e he n hn
            obtain ⟨b, hb, rfl⟩ := List.mem_map.1 he
            exact hB b hb _ (hsN.2.1 n.r (List.mem_map.2 ⟨n, List.mem_cons_of_mem _ hn, rfl⟩))
        · refine ⟨ent m, by simp, ?_⟩
          have := h.old.1; injection this with this
          rw [hxk, this]; rfl
    · intro n hn
      rcases List.mem_cons.1 hn with rfl | hn'
      · have := h.shape.infos m hmm
        unfold verOf; rw [h.same, this]; exact h.ver
      · unfold verOf; rw [h.fresh n hn']; simp

theorem Repl.parts {t : Map} {p q : Option Bytes} {A M : List RI} {m : RI} {B : List RI} {x : Msg} {news : List Msg}
    (h : Repl t p q A M m B x news) {r r' : RI} (hr : r ∈ A ∨ r ∈ B) (hr' : r' ∈ M ++ [m]) : r.id ≠ r'.id := by
  intro hid
  have hin : r ∈ A ++ (M ++ [m]) ++ B := by
    rcases hr with h | h <;> simp [h]
  have hin' : r' ∈ A ++ (M ++ [m]) ++ B := List.mem_append_left _ (List.mem_append_right _ hr')
  have he := h.shape.inj hin hin' hid
  subst he
  have hnd := seg_nodup h.shape.seg
  rw [List.append_assoc] at hnd
  rcases hr with hr | hr
  · exact (List.nodup_append.1 hnd).2.2 r hr r (List.mem_append_left _ hr') rfl
  · exact (List.nodup_append.1 (List.nodup_append.1 hnd).2.1).2.2 r hr' r hr rfl

theorem Repl.other {t : Map} {p q : Option Bytes} {A M : List RI} {m : RI} {B : List RI} {x : Msg} {news : List Msg}
    (h : Repl t p q A M m B x news) {r : RI} (hr : r ∈ A ∨ r ∈ B) : ∀ n ∈ (x :: news).map (·.r), n.id ≠ r.id := by
  intro n hn hid
  obtain ⟨y, hy, rfl⟩ := List.mem_map.1 hn
  have hin : r ∈ A ++ (M ++ [m]) ++ B := by
    rcases hr with h | h <;> simp [h]
  rcases List.mem_cons.1 hy with rfl | hy
  · exact h.parts hr (r' := m) (by simp) (by rw [← hid, h.same])
  · have := h.fresh y hy
    rw [hid, h.shape.infos r hin] at this
    cases this

theorem Repl.after_shape {t : Map} {p q : Option Bytes} {A M : List RI} {m : RI} {B : List RI} {x : Msg} {news : List Msg}
    (h : Repl t p q A M m B x news) {clear : List (Bytes × Nat)}
    (hc : clear = (M ++ [m]).map ent ∨ (clear = [] ∧ M = [])) :
    Shape (applyChain t clear (x :: news)) (A ++ (x :: news).map (·.r) ++ B) := by
  rw [h.apply hc]
  have hnd : (((x :: news).map (·.r)).map (·.id)).Nodup := by
    have := h.ids; rw [List.map_map]; exact this
  refine ⟨?_, rfl, ?_⟩
  · exact seg_append.2 ⟨q, seg_append.2 ⟨p, h.before, h.new⟩, h.after⟩
  · intro r hr
    have hAB : r ∈ A ∨ r ∈ B → setInfos (fun i => if i ∈ M.map (·.id) then none else t.infos i) ((x :: news).map (·.r)) r.id = some r := by
      intro hr
      rw [setInfos_other _ _ _ (h.other hr), if_neg]
      · exact h.shape.infos r (by rcases hr with h | h <;> simp [h])
      · intro hm
        obtain ⟨r', hr', hid⟩ := List.mem_map.1 hm
        exact h.parts hr (r' := r') (by simp [hr']) hid.symm
    rcases List.mem_append.1 hr with hr | hr
    · rcases List.mem_append.1 hr with hr | hr
      · exact hAB (.inl hr)
      · exact setInfos_mem _ _ hnd r hr
    · exact hAB (.inr hr)

/-- What the new map knows of a region. -/
theorem Repl.info {t : Map} {p q : Option Bytes} {A M : List RI} {m : RI} {B : List RI} {x : Msg} {news : List Msg}
    (h : Repl t p q A M m B x news) {clear : List (Bytes × Nat)}
    (hc : clear = (M ++ [m]).map ent ∨ (clear = [] ∧ M = [])) (i : Nat) :
    ((∃ n ∈ x :: news, n.r.id = i ∧ (applyChain t clear (x :: news)).infos i = some n.r) ∨
      ((∀ n ∈ x :: news, n.r.id ≠ i) ∧ i ∈ M.map (·.id) ∧ (applyChain t clear (x :: news)).infos i = none) ∨
      ((∀ n ∈ x :: news, n.r.id ≠ i) ∧ i ∉ (M ++ [m]).map (·.id) ∧
        (applyChain t clear (x :: news)).infos i = t.infos i)) := by
  rw [h.apply hc]
  have hnd : (((x :: news).map (·.r)).map (·.id)).Nodup := by
    have := h.ids; rw [List.map_map]; exact this
  by_cases hn : ∃ n ∈ x :: news, n.r.id = i
  · obtain ⟨n, hn, rfl⟩ := hn
    exact .inl ⟨n, hn, rfl, setInfos_mem _ _ hnd n.r (List.mem_map.2 ⟨n, hn, rfl⟩)⟩
  · push Not at hn
    have ho : setInfos (fun i => if i ∈ M.map (·.id) then none else t.infos i) ((x :: news).map (·.r)) i =
        if i ∈ M.map (·.id) then none else t.infos i := by
      refine setInfos_other _ _ _ fun r hr => ?_
      obtain ⟨n, hn', rfl⟩ := List.mem_map.1 hr
      exact hn n hn'
    right
    by_cases hM : i ∈ M.map (·.id)
    · exact .inl ⟨hn, hM, by rw [if_pos hM] at ho; exact ho⟩
    · refine .inr ⟨hn, ?_, by rw [if_neg hM] at ho; exact ho⟩
      rw [List.map_append, List.mem_append]
      rintro (h' | h')
      · exact hM h'
      · rw [List.map_cons, List.map_nil, List.mem_singleton] at h'
        exact hn x List.mem_cons_self (by rw [h.same, h'])

/-! ## The regions that have been merged away -/

theorem clearLoop_eq {infos : Nat → Option RI} {o : RI} {B : List RI} : ∀ {M : List RI} {key : Bytes} {over : Bool}
    {acc : List (Bytes × Nat)}, Seg (some key) (M ++ o :: B) none → key ≠ [] → (M = [] → over = true) →
    (∀ r ∈ M ++ o :: B, infos r.id = some r) →
    clearLoop infos o.start key over acc ((M ++ o :: B).map ent) = acc ++ (M ++ [o]).map ent := by
  intro M
  induction M with
  | nil =>
    intro key over acc hs hk ho hi
    have hover := ho rfl
    subst hover
    obtain ⟨h1, h2, h3⟩ := hs
    injection h1 with h1
    subst h1
    have hmap : ([] ++ o :: B).map ent = (o.start, o.id) :: B.map ent := rfl
    have hgt : (o.start == [] || bcmp o.start o.start == .gt) = false := by simp [hk]
    rw [hmap, clearLoop, hgt, if_neg (by simp), if_neg (by simp), hi o (by simp)]
    show clearLoop infos o.start o.stop (true || _) (acc ++ [(o.start, o.id)]) (B.map ent) = _
    cases B with
    | nil => rw [List.map_nil, clearLoop]; rfl
    | cons b B =>
      have hb : endPos o.stop = some b.start := h3.1
      have hstop : o.stop = b.start := by
        unfold endPos at hb; split at hb
        · cases hb
        · injection hb
      have hlt : BLt o.start b.start := by
        have := h2.lt; rw [hb] at this; exact this
      have : (o.stop == [] || bcmp o.stop o.start == .gt) = true := by
        rw [hstop, bcmp_gt_iff.2 hlt]; simp
      show clearLoop infos o.start o.stop (true || _) (acc ++ [(o.start, o.id)]) ((b.start, b.id) :: B.map ent) = _
      rw [clearLoop, this, if_pos rfl, Bool.true_or, if_pos rfl]
      rfl
  | cons r M ih =>
    intro key over acc hs hk ho hi
    have hlt : BLt r.start o.start := by
      have := (seg_starts hs).2.2
      rw [List.cons_append, List.pairwise_cons] at this
      exact this.1 o (by simp)
    obtain ⟨h1, h2, h3⟩ := hs
    injection h1 with h1
    subst h1
    have hgt : (r.start == [] || bcmp r.start o.start == .gt) = false := by
      have : bcmp r.start o.start = .lt := hlt
      simp [hk, this]
    show clearLoop infos o.start r.start over acc ((r.start, r.id) :: (M ++ o :: B).map ent) = _
    rw [clearLoop, hgt, if_neg (by simp), if_neg (by simp), hi r (by simp)]
    show clearLoop infos o.start r.stop (over || r.stop == o.start) (acc ++ [(r.start, r.id)]) ((M ++ o :: B).map ent) = _
    have hnext : ∃ c l, M ++ o :: B = c :: l := by cases M <;> simp
    obtain ⟨c, l, hcl⟩ := hnext
    have h4 : endPos r.stop = some r.stop ∧ r.stop ≠ [] := by
      change Seg (endPos r.stop) (M ++ o :: B) none at h3
      rw [hcl] at h3
      have := h3.1
      unfold endPos at this ⊢
      split at this
      · cases this
      · rename_i hne; simp [hne]
    have h3' : Seg (some r.stop) (M ++ o :: B) none := h4.1 ▸ h3
    rw [ih h3' h4.2 ?_ (fun r' hr' => hi r' (List.mem_cons_of_mem _ hr'))]
    · simp [ent]
    · rintro rfl
      have := h3'.1; injection this with this
      rw [this]; simp

/-- `getClear` finds the regions from the new start key up to the region itself, or nothing. -/
theorem getClear_spec {t : Map} {L : List RI} (h : Shape t L) {o : RI} (ho : o ∈ L) {k : Bytes} (hk : BLt k o.start) :
    getClear t k o.start = [] ∨ ∃ A M B, L = A ++ (M ++ [o]) ++ B ∧ M ≠ [] ∧ getClear t k o.start = (M ++ [o]).map ent ∧
      Seg (some []) A (some k) ∧ Seg (some k) (M ++ [o]) (endPos o.stop) ∧ Seg (endPos o.stop) B none := by
  unfold getClear
  by_cases hf : (mfind k t.keys).isEmpty = true
  · left
    rw [List.isEmpty_iff.1 hf, clearLoop]
  · rw [h.keys] at hf ⊢
    obtain ⟨l1, l2, e1, e2, e3, e4, e5, e6⟩ := seg_find h.seg (by simpa using hf)
    rw [e5]
    by_cases hk0 : k = []
    · left
      cases l2 with
      | nil => exact absurd rfl e6
      | cons r l2 =>
        subst hk0
        show clearLoop _ _ _ _ _ ((r.start, r.id) :: _) = _
        rw [clearLoop]; simp
    · right
      have hol2 : o ∈ l2 := by
        rw [e1] at ho
        rcases List.mem_append.1 ho with ho | ho
        · exact absurd hk (BLt.asymm ((seg_starts e2).2.1 o ho))
        · exact ho
      obtain ⟨M, B, rfl⟩ := List.append_of_mem hol2
      have hM : M ≠ [] := by
        rintro rfl
        have := e3.1; injection this with this
        rw [this] at hk; exact BLt.irrefl _ hk
      have hin : ∀ r ∈ M ++ o :: B, t.infos r.id = some r := fun r hr =>
        h.infos r (by rw [e1]; exact List.mem_append_right _ hr)
      obtain ⟨u, hu1, hu2⟩ := seg_append.1 e3
      refine ⟨l1, M, B, by rw [e1]; simp, hM, ?_, e2, ?_, hu2.2.2⟩
      · rw [clearLoop_eq e3 hk0 (fun h => absurd h hM) hin, List.nil_append]
      · exact seg_append.2 ⟨u, hu1, hu2.1, hu2.2.1, rfl⟩

/-- A region that has a start key of its own in the map is found by it. -/
theorem getClear_found {t : Map} {A M B : List RI} {o : RI} (h : Shape t (A ++ (M ++ [o]) ++ B)) {k : Bytes}
    (hM : M ≠ []) (hk : k ≠ []) (hs : Seg (some k) (M ++ [o]) (endPos o.stop)) (hA : Seg (some []) A (some k)) :
    getClear t k o.start = (M ++ [o]).map ent := by
  have hok : BLt k o.start := by
    cases M with
    | nil => exact absurd rfl hM
    | cons r M =>
      have h1 := hs.1; injection h1 with h1
      have := (seg_starts hs).2.2
      rw [List.cons_append, List.pairwise_cons] at this
      rw [h1]; exact this.1 o (by simp)
  have hfind : mfind k t.keys = (M ++ o :: B).map ent := by
    rw [h.keys]
    unfold mfind
    rw [List.append_assoc, List.map_append, List.dropWhile_append_of_pos]
    · cases M with
      | nil => exact absurd rfl hM
      | cons r M =>
        have h1 := hs.1; injection h1 with h1
        simp [ent, h1]
    · intro e he
      obtain ⟨a, ha, rfl⟩ := List.mem_map.1 he
      have : BLt a.start k := (seg_starts hA).2.1 a ha
      simp only [ent, bne_iff_ne, ne_eq]
      intro heq; rw [heq] at this; exact BLt.irrefl _ this
  unfold getClear
  rw [hfind, clearLoop_eq, List.nil_append]
  · have h1 := h.seg
    rw [List.append_assoc] at h1
    obtain ⟨u, hu1, hu2⟩ := seg_append.1 h1
    have hu : u = some k := by
      cases M with
      | nil => exact absurd rfl hM
      | cons r M => rw [hu2.1, hs.1]
    rw [hu] at hu2
    simpa using hu2
  · exact hk
  · exact fun h => absurd h hM
  · intro r hr; exact h.infos r (by simp at hr ⊢; tauto)

end BaikalDB.ClientMap
