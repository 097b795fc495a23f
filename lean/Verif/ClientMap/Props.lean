import Verif.ClientMap.Step
import Verif.Region.RouteProps
import Mathlib.Data.List.Perm.Basic

/-!
# C48: the SQL layer's region map stays whole and follows the regions

"Whole" is what C10 demands of the meta server's map (`Region.Tiles`, `Region.Filed`): every key belongs to exactly one
entry, filed under its region's start key.
-/

namespace BaikalDB.ClientMap

open Region (RI Seg NE endPos PLt PLe ent setInfos mfind minsert seg_append seg_starts seg_cover Covers Good Tiles Filed)
open KeyEnc (endKeyCompare)

/-! ## Specification -/

/-- Every region known by its number is also found by its start key. -/
def Placed (t : Map) : Prop := ∀ i r, t.infos i = some r → r.id = i ∧ (r.start, i) ∈ t.keys

/-- The range is empty: the region has been merged away. -/
def Gone (r : RI) : Prop := r.start ≠ [] ∧ r.start = r.stop

/-- What heartbeats and stores report: ranges that are ranges, no region twice, none deleted, and a version stands for
one range. -/
structure Reported (t : Map) (rs : List Msg) : Prop where
  ranges : ∀ x ∈ rs, NE x.r ∨ Gone x.r
  live : ∀ x ∈ rs, x.deleted = false
  ids : (rs.map (·.r.id)).Nodup
  versions : ∀ x ∈ rs, ∀ o, t.infos x.r.id = some o → o.ver = x.r.ver → x.r.start = o.start ∧ x.r.stop = o.stop

/-- New regions start where no known region does, and start keys do not grow. -/
structure Apart (t : Map) (rs : List Msg) : Prop where
  fresh : ∀ x ∈ rs, ¬ Gone x.r → t.infos x.r.id = none → ∀ e ∈ t.keys, e.1 ≠ x.r.start
  low : ∀ x ∈ rs, ¬ Gone x.r → ∀ o, t.infos x.r.id = some o → BLe x.r.start o.start

/-- How regions change, and what is reported of it.  Read from left to right over the old regions, the reported ones
and the new ones: a region stays as it is and is not reported; or consecutive regions, the last of which is `m`, give
way to `x`, which is `m` with a new range, followed by regions not known before.  With one region for one this is a
change of its version (or other data), with more of them on the left a merge into `m`, with more of them on the right a
split of `m`, with both a merge followed by a split.  (The first region of a table is not merged, store.cpp:2771.) -/
inductive Change (t : Map) : List RI → List Msg → List RI → Prop
  | nil : Change t [] [] []
  | keep {r : RI} {L L' : List RI} {xs : List Msg} : Change t L xs L' → Change t (r :: L) xs (r :: L')
  | change {M L L' : List RI} {m : RI} {x : Msg} {news xs : List Msg} {p q : Option Bytes} :
      Seg p (M ++ [m]) q → Seg p ((x :: news).map (·.r)) q → x.r.id = m.id →
      (m.ver < x.r.ver ∨ (M = [] ∧ news = [] ∧ m.ver = x.r.ver)) → (M ≠ [] → p ≠ some []) →
      (∀ n ∈ news, t.infos n.r.id = none) → Change t L xs L' →
      Change t (M ++ [m] ++ L) (x :: news ++ xs) ((x :: news).map (·.r) ++ L')

/-! ## From a list of reports to the order of start keys -/

theorem minsert_mem {α : Type} {k : Bytes} {v : α} {m : List (Bytes × α)} {e : Bytes × α} (h : e ∈ minsert k v m) :
    e = (k, v) ∨ e ∈ m := Region.mem_minsert h

theorem minsert_sorted {α : Type} {k : Bytes} {v : α} {m : List (Bytes × α)} (h : m.Pairwise fun a b => BLt a.1 b.1) :
    (minsert k v m).Pairwise fun a b => BLt a.1 b.1 := by
  induction m with
  | nil => simp [minsert]
  | cons e m ih =>
    obtain ⟨k', v'⟩ := e
    rw [List.pairwise_cons] at h
    rw [minsert]
    cases hc : bcmp k k' with
    | lt =>
      refine List.pairwise_cons.2 ⟨fun a ha => ?_, List.pairwise_cons.2 h⟩
      rcases List.mem_cons.1 ha with rfl | ha
      · exact hc
      · exact BLt.trans hc (h.1 a ha)
    | eq =>
      have := bcmp_eq_iff.1 hc
      subst this
      exact List.pairwise_cons.2 h
    | gt =>
      refine List.pairwise_cons.2 ⟨fun a ha => ?_, ih h.2⟩
      rcases minsert_mem ha with rfl | ha
      · exact bcmp_gt_iff.1 hc
      · exact h.1 a ha

theorem minsert_perm {α : Type} {k : Bytes} {v : α} {m : List (Bytes × α)} (h : ∀ e ∈ m, e.1 ≠ k) :
    (minsert k v m).Perm ((k, v) :: m) := by
  induction m with
  | nil => exact .refl _
  | cons e m ih =>
    obtain ⟨k', v'⟩ := e
    rw [minsert]
    cases hc : bcmp k k' with
    | lt => exact .refl _
    | eq => exact absurd (bcmp_eq_iff.1 hc).symm (h (k', v') List.mem_cons_self)
    | gt => exact ((ih fun e he => h e (List.mem_cons_of_mem _ he)).cons _).trans (.swap _ _ _)

instance (r : RI) : Decidable (Gone r) := inferInstanceAs (Decidable (_ ∧ _))

theorem gone_test (r : RI) : (r.start != [] && r.start == r.stop) = decide (Gone r) := by
  rw [Bool.eq_iff_iff, decide_eq_true_iff]; unfold Gone; simp

theorem byStart_fold (rs : List Msg) : ∀ m : List (Bytes × Msg), (m.Pairwise fun a b => BLt a.1 b.1) →
    (∀ e ∈ m, e.1 = e.2.r.start) →
    let m' := rs.foldl (fun m x => if x.r.start != [] && x.r.start == x.r.stop then m else minsert x.r.start x m) m
    (m'.Pairwise fun a b => BLt a.1 b.1) ∧ (∀ e ∈ m', e.1 = e.2.r.start) ∧
      ∀ e ∈ m', e ∈ m ∨ (e.2 ∈ rs ∧ ¬ Gone e.2.r) := by
  induction rs with
  | nil => intro m h1 h2; exact ⟨h1, h2, fun e he => .inl he⟩
  | cons x rs ih =>
    intro m h1 h2
    simp only [List.foldl_cons, gone_test]
    by_cases hg : Gone x.r
    · simp only [hg, decide_true, if_true]
      obtain ⟨a, b, c⟩ := ih m h1 h2
      simp only [gone_test] at a b c
      refine ⟨a, b, fun e he => ?_⟩
      rcases c e he with h | ⟨h, h'⟩
      · exact .inl h
      · exact .inr ⟨List.mem_cons_of_mem _ h, h'⟩
    · simp only [hg, decide_false, Bool.false_eq_true, if_false]
      obtain ⟨a, b, c⟩ := ih (minsert x.r.start x m) (minsert_sorted h1) (fun e he => by
        rcases minsert_mem he with rfl | he
        · rfl
        · exact h2 e he)
      simp only [gone_test] at a b c
      refine ⟨a, b, fun e he => ?_⟩
      rcases c e he with h | ⟨h, h'⟩
      · rcases minsert_mem h with rfl | h
        · exact .inr ⟨List.mem_cons_self, hg⟩
        · exact .inl h
      · exact .inr ⟨List.mem_cons_of_mem _ h, h'⟩

theorem byStart_spec (rs : List Msg) : (((byStart rs).map (·.2)).Pairwise fun a b => BLt a.r.start b.r.start) ∧
    ∀ x ∈ (byStart rs).map (·.2), x ∈ rs ∧ ¬ Gone x.r := by
  obtain ⟨h1, h2, h3⟩ := byStart_fold rs [] (by simp) (by simp)
  refine ⟨?_, ?_⟩
  · rw [List.pairwise_map]
    refine List.Pairwise.imp_of_mem (fun {a b} ha hb hab => ?_) h1
    rw [← h2 a ha, ← h2 b hb]; exact hab
  · intro x hx
    obtain ⟨e, he, rfl⟩ := List.mem_map.1 hx
    rcases h3 e he with h | h
    · cases h
    · exact h

theorem Reported.batch {t : Map} {rs : List Msg} (h : Reported t rs) : Batch ((byStart rs).map (·.2)) := by
  obtain ⟨h1, h2⟩ := byStart_spec rs
  refine ⟨h1, fun x hx => (h.ranges x (h2 x hx).1).resolve_right (h2 x hx).2, fun x hx => h.live x (h2 x hx).1, ?_⟩
  refine (List.nodup_map_iff_inj_on ?_).2 ?_
  · exact List.Pairwise.imp (fun {a b} hab => by rintro rfl; exact BLt.irrefl _ hab) h1
  · intro a ha b hb hab
    exact List.inj_on_of_nodup_map h.ids (h2 a ha).1 (h2 b hb).1 hab

/-- The reports by start key, when no two are about the same start. -/
theorem byStart_eq {rs xs : List Msg} (hp : (rs.filter fun x => !decide (Gone x.r)).Perm xs)
    (hs : xs.Pairwise fun a b => BLt a.r.start b.r.start) : (byStart rs).map (·.2) = xs := by
  have hd : ∀ rs : List Msg, ((rs.filter fun x => !decide (Gone x.r)).map (·.r.start)).Nodup →
      ∀ m : List (Bytes × Msg), (∀ e ∈ m, e.1 = e.2.r.start) →
      (∀ e ∈ m, ∀ x ∈ rs, ¬ Gone x.r → e.1 ≠ x.r.start) →
      ((rs.foldl (fun m x => if x.r.start != [] && x.r.start == x.r.stop then m else minsert x.r.start x m) m).map (·.2)).Perm
        (m.map (·.2) ++ rs.filter fun x => !decide (Gone x.r)) := by
    intro rs
    induction rs with
    | nil => intro _ m _ _; simp
    | cons x rs ih =>
      intro hn m hm hx
      simp only [List.foldl_cons, gone_test]
      by_cases hg : Gone x.r
      · simp only [hg, decide_true, if_true]
        rw [List.filter_cons_of_neg (by simp [hg])] at hn ⊢
        have := ih hn m hm (fun e he y hy => hx e he y (List.mem_cons_of_mem _ hy))
        simp only [gone_test] at this
        exact this
      · simp only [hg, decide_false, Bool.false_eq_true, if_false]
        rw [List.filter_cons_of_pos (by simp [hg])] at hn ⊢
        rw [List.map_cons, List.nodup_cons] at hn
        have hpm := minsert_perm (k := x.r.start) (v := x) (m := m) (fun e he => hx e he x List.mem_cons_self hg)
        have := ih hn.2 (minsert x.r.start x m) (fun e he => by
            rcases minsert_mem he with rfl | he
            · rfl
            · exact hm e he) (fun e he y hy hgy => by
            rcases minsert_mem he with rfl | he
            · intro heq
              exact hn.1 (List.mem_map.2 ⟨y, List.mem_filter.2 ⟨hy, by simp [hgy]⟩, heq.symm⟩)
            · exact hx e he y (List.mem_cons_of_mem _ hy) hgy)
        simp only [gone_test] at this
        refine this.trans ?_
        refine ((hpm.map (·.2)).append_right _).trans ?_
        show ((x :: m.map (·.2)) ++ _).Perm _
        rw [List.cons_append]
        exact List.perm_middle.symm
  have hnd : ((rs.filter fun x => !decide (Gone x.r)).map (·.r.start)).Nodup := by
    refine (hp.map _).nodup_iff.2 ?_
    rw [List.Nodup, List.pairwise_map]
    exact List.Pairwise.imp (fun {a b} hab he => by rw [he] at hab; exact BLt.irrefl _ hab) hs
  have h1 := (hd rs hnd [] (by simp) (by simp)).trans (by simpa using hp)
  refine h1.eq_of_pairwise (le := fun a b => BLt a.r.start b.r.start) ?_ (byStart_spec rs).1 hs
  intro a b _ _ hab hba
  exact absurd hba (BLt.asymm hab)

/-! ## The map stays whole -/

theorem Shape.of_good {t : Map} (h : Good t.infos t.keys) : ∃ L, Shape t L := by
  obtain ⟨L, h1, h2, h3⟩ := h; exact ⟨L, h1, h2, h3⟩

theorem Shape.good {t : Map} {L : List RI} (h : Shape t L) : Good t.infos t.keys := ⟨L, h.seg, h.keys, h.infos⟩

theorem Placed.mem {t : Map} {L : List RI} (h : Shape t L) (hp : Placed t) {i : Nat} {r : RI} (hr : t.infos i = some r) :
    r ∈ L ∧ r.id = i := by
  obtain ⟨h1, h2⟩ := hp i r hr
  rw [h.keys] at h2
  obtain ⟨r', hr', he⟩ := List.mem_map.1 h2
  have hid : r'.id = i := congrArg Prod.snd he
  have := h.infos r' hr'
  rw [hid, hr] at this
  injection this with this
  exact ⟨this ▸ hr', h1⟩

theorem start_inv {t : Map} {L : List RI} (hs : Shape t L) (hp : Placed t) {rs : List Msg} (hr : Reported t rs) :
    Inv ⟨t, [], [], []⟩ ((byStart rs).map (·.2)) L := by
  obtain ⟨_, h2⟩ := byStart_spec rs
  refine ⟨hs, fun x hx o ho => ?_, .inl rfl⟩
  obtain ⟨m1, m2⟩ := Placed.mem hs hp ho
  exact ⟨m1, m2, hr.versions x (h2 x hx).1 o ho⟩

/-- Whatever is reported, the map stays whole: one region for every key, and the region filed under the greatest start
key not above the key is the one whose range holds it. -/
theorem C48_tiles {t : Map} (hg : Good t.infos t.keys) (hp : Placed t) {rs : List Msg} (hr : Reported t rs) :
    Good (update t rs).infos (update t rs).keys ∧ Tiles (update t rs).infos (update t rs).keys ∧
    Filed (update t rs).infos (update t rs).keys ∧
    ∀ k, ∃ i r, Route.regionOf k (update t rs).keys = some i ∧ (update t rs).infos i = some r ∧ Covers r.start r.stop k := by
  obtain ⟨L, hs⟩ := Shape.of_good hg
  obtain ⟨L', h', _⟩ := Inv.steps hr.batch (start_inv hs hp hr)
  have hgood : Good (update t rs).infos (update t rs).keys := h'.shape.good
  refine ⟨hgood, hgood.tiles, hgood.filed, fun k => ?_⟩
  have hsorted : Route.Sorted (update t rs).keys := by
    obtain ⟨l, h1, h2, _⟩ := hgood
    rw [h2]
    unfold Route.Sorted
    rw [List.pairwise_map]
    exact (seg_starts h1).2.2
  obtain ⟨r1, r2⟩ := Route.C11_record hsorted k
  have hnil : ∃ e ∈ (update t rs).keys, e.1 = [] := by
    obtain ⟨l, h1, h2, _⟩ := hgood
    cases l with
    | nil => exact absurd h1 (by simp [Seg])
    | cons a l =>
      have := h1.1; injection this with this
      exact ⟨ent a, by rw [h2]; simp, this.symm⟩
  obtain ⟨i, hi⟩ := Option.isSome_iff_exists.1 (r2 hnil)
  obtain ⟨e, he, rfl⟩ := (r1 i).1 hi
  obtain ⟨_, r, hr', hc⟩ := (Route.C11_owner_covers hgood).1 he
  exact ⟨e.2, r, hi, hr', hc⟩

/-- If new regions start apart from known ones, the map also keeps no region that it does not use. -/
theorem C48_placed {t : Map} (hg : Good t.infos t.keys) (hp : Placed t) {rs : List Msg} (hr : Reported t rs)
    (ha : Apart t rs) : Placed (update t rs) := by
  obtain ⟨L, hs⟩ := Shape.of_good hg
  obtain ⟨_, hb2⟩ := byStart_spec rs
  obtain ⟨L', h', hw⟩ := Inv.steps hr.batch (start_inv hs hp hr)
  have how : Own ⟨t, [], [], []⟩ ((byStart rs).map (·.2)) L := by
    refine ⟨fun i r hi => Placed.mem hs hp hi, fun x hx hn r hrL => ?_, fun x hx o ho => ha.low x (hb2 x hx).1 (hb2 x hx).2 o ho⟩
    exact ha.fresh x (hb2 x hx).1 (hb2 x hx).2 hn (ent r) (by rw [hs.keys]; exact List.mem_map.2 ⟨r, hrL, rfl⟩)
  have := (hw how).placed
  intro i r hi
  obtain ⟨m1, m2⟩ := this i r hi
  refine ⟨m2, ?_⟩
  show _ ∈ (update t rs).keys
  have hk : (update t rs).keys = L'.map ent := h'.shape.keys
  rw [hk]
  exact List.mem_map.2 ⟨r, m1, by rw [← m2]; rfl⟩

/-- A history of reports. -/
inductive Runs : Map → List (List Msg) → Map → Prop
  | nil {t : Map} : Runs t [] t
  | cons {t t' : Map} {rs : List Msg} {h : List (List Msg)} : Reported t rs → Apart t rs → Runs (update t rs) h t' →
      Runs t (rs :: h) t'

/-- After any number of reports. -/
theorem C48_run {t t' : Map} {h : List (List Msg)} (hr : Runs t h t') (hg : Good t.infos t.keys) (hp : Placed t) :
    Tiles t'.infos t'.keys ∧ Filed t'.infos t'.keys ∧ Placed t' := by
  induction hr with
  | nil => exact ⟨hg.tiles, hg.filed, hp⟩
  | cons h1 h2 _ ih => exact ih (C48_tiles hg hp h1).1 (C48_placed hg hp h1 h2)

/-! ## The map follows the regions -/

/-- Once the last region of the chain is there, the chain is put in. -/
theorem chain_steps {t : Map} {clear : List (Bytes × Nat)} {endKey : Bytes} : ∀ {todo : List Msg} {x : Msg} {done : List Msg}
    {l : Msg}, (x :: done).getLast? = some l → todo ≠ [] → Seg (endPos l.r.stop) (todo.map (·.r)) (endPos endKey) →
    (∀ n ∈ todo, t.infos n.r.id = none) →
    todo.foldl step ⟨t, x :: done, clear, endKey⟩ = ⟨applyChain t clear (x :: done ++ todo), [], [], endKey⟩ := by
  intro todo
  induction todo with
  | nil => intro x done l _ h; exact absurd rfl h
  | cons n todo ih =>
    intro x done l hl _ hs hn
    obtain ⟨s1, s2, s3⟩ := hs
    have hstop : l.r.stop = n.r.start := by
      unfold endPos at s1; split at s1
      · cases s1
      · injection s1
    have hstep : step ⟨t, x :: done, clear, endKey⟩ n =
        if n.r.stop == endKey then ⟨applyChain t clear (x :: done ++ [n]), [], [], endKey⟩
        else if endKeyCompare n.r.stop endKey == .gt then ⟨t, [], [], endKey⟩
        else ⟨t, x :: done ++ [n], clear, endKey⟩ := by
      unfold step
      simp only [hn n List.mem_cons_self]
      unfold stepNew
      simp only [hl]
      rw [if_neg (by simp [hstop])]
      rfl
    rw [List.foldl_cons, hstep]
    cases todo with
    | nil =>
      have : n.r.stop = endKey := endPos_inj s3
      rw [if_pos (by simp [this])]
      rfl
    | cons c todo =>
      have hlt : PLt (endPos n.r.stop) (endPos endKey) := by
        have h1 := s3.1
        have h2 := (seg_starts s3).2.1 c.r (by simp)
        rw [h1]; exact h2
      have hcmp := endLt_iff.2 hlt
      have hne : ¬ n.r.stop = endKey := fun h => by rw [h] at hlt; exact PLt.irrefl _ hlt
      rw [if_neg (by simpa using hne), if_neg (by rw [hcmp]; decide)]
      have hlast : (x :: (done ++ [n])).getLast? = some n := by
        rw [← List.cons_append, List.getLast?_append]; rfl
      have := ih (x := x) (done := done ++ [n]) (l := n) hlast (by simp) s3
        (fun m hm => hn m (List.mem_cons_of_mem _ hm))
      rw [List.cons_append] 
      rw [this]
      simp

/-- One block of a change is taken over. -/
theorem block_steps {s : St} {p q : Option Bytes} {A M : List RI} {m : RI} {B : List RI} {x : Msg} {news : List Msg}
    (hr : Repl s.t p q A M m B x news) (hl : s.last = []) (hM : M ≠ [] → p ≠ some [])
    (hv : m.ver < x.r.ver ∨ (M = [] ∧ news = [] ∧ m.ver = x.r.ver)) :
    ∃ clear c e, (clear = (M ++ [m]).map ent ∨ (clear = [] ∧ M = [])) ∧
      (x :: news).foldl step s = ⟨applyChain s.t clear (x :: news), [], c, e⟩ := by
  have hkn : s.t.infos x.r.id = some m := by rw [hr.same]; exact hr.shape.infos m (by simp)
  have hp : p = some x.r.start := hr.new.1
  have hq : q = endPos m.stop := by
    obtain ⟨u, _, hu⟩ := seg_append.1 hr.old; exact hu.2.2.symm
  rw [List.foldl_cons]
  have hstep : step s x = if m.ver < x.r.ver then stepNewer s m x else ⟨updateRegion s.t x, s.last, s.clear, s.endKey⟩ := by
    unfold step; simp only [hkn]
  rcases hv with hv | ⟨rfl, rfl, hv⟩
  · rw [hstep, if_pos hv]
    -- the end of `x` against the old end
    have hend : news = [] ∧ x.r.stop = m.stop ∨ news ≠ [] ∧ endKeyCompare x.r.stop m.stop = .lt := by
      cases news with
      | nil => left; exact ⟨rfl, endPos_inj (hr.new.2.2.trans hq)⟩
      | cons n news =>
        right
        refine ⟨by simp, endLt_iff.2 ?_⟩
        have h1 := hr.new.2.2
        have h2 := (seg_starts h1).2.1 n.r (by simp)
        rw [h1.1, ← hq]; exact h2
    have hchain : ∀ clear, news ≠ [] → news.foldl step ⟨s.t, [x], clear, m.stop⟩ =
        ⟨applyChain s.t clear (x :: news), [], [], m.stop⟩ := by
      intro clear hne
      have := chain_steps (t := s.t) (clear := clear) (endKey := m.stop) (todo := news) (x := x) (done := []) (l := x) rfl hne
        (by have := hr.new.2.2; rw [hq] at this; exact this) hr.fresh
      simpa using this
    unfold stepNewer
    by_cases hM0 : M = []
    · subst hM0
      have hms : m.start = x.r.start := by
        have := hr.old.1; rw [hp] at this; injection this with this; exact this.symm
      have hb : (bcmp x.r.start m.start == .lt) = false := by rw [hms]; simp
      have hb2 : (x.r.start == m.start) = true := by rw [hms]; simp
      simp only [hb, hb2, Bool.false_and, Bool.false_eq_true, if_false, Bool.true_and]
      rcases hend with ⟨rfl, he⟩ | ⟨hne, he⟩
      · refine ⟨[], [], s.endKey, .inr ⟨rfl, trivial⟩, ?_⟩
        rw [if_neg (by rw [endEq_iff.2 he]; simp), if_pos (by simp [he])]
        rfl
      · refine ⟨[], [], m.stop, .inr ⟨rfl, trivial⟩, ?_⟩
        rw [if_pos (by simp [he])]
        exact hchain [] hne
    · have hx0 : x.r.start ≠ [] := fun h => hM hM0 (by rw [hp, h])
      have hlt : BLt x.r.start m.start := by
        cases M with
        | nil => exact absurd rfl hM0
        | cons a M =>
          have h1 := hr.old.1; rw [hp] at h1; injection h1 with h1
          have := (seg_starts hr.old).2.2
          rw [List.cons_append, List.pairwise_cons] at this
          rw [h1]; exact this.1 m (by simp)
      have hb : (bcmp x.r.start m.start == .lt) = true := by
        have : bcmp x.r.start m.start = .lt := hlt
        simp [this]
      have hgc : getClear s.t x.r.start m.start = (M ++ [m]).map ent :=
        getClear_found hr.shape hM0 hx0 (hp ▸ hq ▸ hr.old) (hp ▸ hr.before)
      have hlen : 2 ≤ ((M ++ [m]).map ent).length := by
        cases M with
        | nil => exact absurd rfl hM0
        | cons a M => simp
      simp only [hb, Bool.true_and, hgc]
      rcases hend with ⟨rfl, he⟩ | ⟨hne, he⟩
      · refine ⟨(M ++ [m]).map ent, (M ++ [m]).map ent, s.endKey, .inl rfl, ?_⟩
        rw [if_neg (by rw [endEq_iff.2 he]; simp), if_pos (by rw [endEq_iff.2 he]; simp), if_pos hlen]
        rfl
      · refine ⟨(M ++ [m]).map ent, [], m.stop, .inl rfl, ?_⟩
        rw [if_pos (by simp [he]), if_neg (by omega)]
        exact hchain _ hne
  · rw [hstep, if_neg (by omega), hl]
    exact ⟨[], s.clear, s.endKey, .inr ⟨rfl, rfl⟩, rfl⟩

theorem change_steps {t : Map} {L L' : List RI} {xs : List Msg} (hc : Change t L xs L') : ∀ {s : St} {D : List RI},
    s.last = [] → Shape s.t (D ++ L) → (∀ i r, s.t.infos i = some r → r ∈ D ++ L ∧ r.id = i) →
    (∀ x ∈ xs, t.infos x.r.id = none → s.t.infos x.r.id = none) → Batch xs →
    Shape (xs.foldl step s).t (D ++ L') ∧ (∀ i r, (xs.foldl step s).t.infos i = some r → r ∈ D ++ L' ∧ r.id = i) := by
  induction hc with
  | nil => intro s D _ h1 h2 _ _; exact ⟨h1, h2⟩
  | @keep r L L' xs _ ih =>
    intro s D hl h1 h2 h3 hb
    have := ih (s := s) (D := D ++ [r]) hl (by simpa using h1) (by simpa using h2) h3 hb
    simpa using this
  | @change M L L' m x news xs p q ho hn hid hv hM hf _ ih =>
    intro s D hl h1 h2 h3 hb
    have hshape : Shape s.t (D ++ (M ++ [m]) ++ L) := by
      rw [List.append_assoc]; exact h1
    obtain ⟨u, hu1, hu2⟩ := seg_append.1 hshape.seg
    obtain ⟨w, hw1, hw2⟩ := seg_append.1 hu1
    have hw : w = p := by
      cases M with
      | nil => rw [hw2.1, ho.1]
      | cons a M => rw [hw2.1, ho.1]
    subst hw
    have hq : u = q := by
      obtain ⟨v, _, hv1⟩ := seg_append.1 hw2
      obtain ⟨v', _, hv2⟩ := seg_append.1 ho
      rw [← hv1.2.2, ← hv2.2.2]
    subst hq
    have hblive : ∀ n ∈ x :: news, n.deleted = false := fun n hn => hb.live n (List.mem_append_left _ hn)
    have hids := hb.ids
    rw [List.map_append] at hids
    have hr : Repl s.t w u D M m L x news := by
      refine ⟨hshape, hw1, ho, hu2, hn, hid, ?_, hblive, (List.nodup_append.1 hids).1, fun n hn' => ?_⟩
      · rcases hv with hv | ⟨_, _, hv⟩ <;> omega
      · exact h3 n (List.mem_append_left _ (List.mem_cons_of_mem _ hn')) (hf n hn')
    obtain ⟨clear, c, e, hc, hst⟩ := block_steps hr hl hM hv
    have hbtail : Batch xs := by
      refine ⟨(List.pairwise_append.1 hb.sorted).2.1, fun y hy => hb.nonempty y (List.mem_append_right _ hy),
        fun y hy => hb.live y (List.mem_append_right _ hy), (List.nodup_append.1 hids).2.1⟩
    rw [List.foldl_append, hst]
    have hinfo := hr.info hc
    have := ih (s := ⟨applyChain s.t clear (x :: news), [], c, e⟩) (D := D ++ (x :: news).map (·.r)) rfl
      (hr.after_shape hc) (fun i r hi => ?_) (fun y hy hny => ?_) hbtail
    · rw [List.append_assoc] at this; exact this
    · rcases hinfo i with ⟨n, hn', hid', h4⟩ | ⟨_, _, h4⟩ | ⟨_, h5, h4⟩
      · have : n.r = r := Option.some.inj (h4.symm.trans hi)
        subst this
        exact ⟨List.mem_append_left _ (List.mem_append_right _ (List.mem_map.2 ⟨n, hn', rfl⟩)), hid'⟩
      · exact absurd (h4.symm.trans hi) (by simp)
      · obtain ⟨j1, j2⟩ := h2 i r (h4.symm.trans hi)
        refine ⟨?_, j2⟩
        rw [← List.append_assoc] at j1
        rcases List.mem_append.1 j1 with j1 | j1
        · rcases List.mem_append.1 j1 with j1 | j1
          · exact List.mem_append_left _ (List.mem_append_left _ j1)
          · exact absurd (List.mem_map.2 ⟨r, j1, j2⟩) h5
        · exact List.mem_append_right _ j1
    · rcases hinfo y.r.id with ⟨n, hn', hid', _⟩ | ⟨_, _, h4⟩ | ⟨_, _, h4⟩
      · exact absurd hid' ((List.nodup_append.1 hids).2.2 n.r.id (List.mem_map.2 ⟨n, hn', rfl⟩) y.r.id
          (List.mem_map.2 ⟨y, hy, rfl⟩))
      · exact h4
      · exact h4.trans (h3 y (List.mem_append_right _ hy) hny)

/-- Splits, merges and merges followed by splits are taken over: when the reported regions are what has become of the
known ones, whatever order they come in and with regions merged away among them, the map afterwards is the new one,
with what was reported of each region, and nothing is left of the regions that are gone. -/
theorem C48_follows {t : Map} {L L' : List RI} {xs rs : List Msg} (hs : Seg (some []) L none) (hk : t.keys = L.map ent)
    (hi : ∀ r ∈ L, t.infos r.id = some r) (hp : Placed t) (hc : Change t L xs L') (hb : Batch xs)
    (hrs : (rs.filter fun x => !decide (Gone x.r)).Perm xs) :
    (update t rs).keys = L'.map ent ∧ (∀ r ∈ L', (update t rs).infos r.id = some r) ∧
    (∀ i r, (update t rs).infos i = some r → r ∈ L' ∧ r.id = i) ∧ Good (update t rs).infos (update t rs).keys ∧
    Placed (update t rs) := by
  have hsh : Shape t L := ⟨hs, hk, hi⟩
  have heq : update t rs = (xs.foldl step ⟨t, [], [], []⟩).t := by
    unfold update updateTable; rw [byStart_eq hrs hb.sorted]
  obtain ⟨h1, h2⟩ := change_steps hc (s := ⟨t, [], [], []⟩) (D := []) rfl hsh (fun i r hr => Placed.mem hsh hp hr)
    (fun _ _ h => h) hb
  rw [heq]
  refine ⟨h1.keys, h1.infos, h2, h1.good, fun i r hr => ?_⟩
  obtain ⟨m1, m2⟩ := h2 i r hr
  refine ⟨m2, ?_⟩
  rw [h1.keys]
  exact List.mem_map.2 ⟨r, m1, by rw [← m2]; rfl⟩

/-! ## The first reports -/

theorem overlaps_last {t : Map} {D : List RI} (hk : t.keys = D.map ent) (hi : ∀ r ∈ D, t.infos r.id = some r)
    {k : Bytes} (hD : ∀ r ∈ D, BLt r.start k) :
    overlapsPrev t k = match D.getLast? with | none => false | some r => endKeyCompare r.stop k == .gt := by
  unfold overlapsPrev
  have : (t.keys.takeWhile fun e => bcmp e.1 k == .lt) = D.map ent := by
    rw [hk, List.takeWhile_eq_self_iff]
    intro e he
    obtain ⟨r, hr, rfl⟩ := List.mem_map.1 he
    have : bcmp r.start k = .lt := hD r hr
    simp [ent, this]
  rw [this, List.getLast?_map]
  cases hl : D.getLast? with
  | none => rfl
  | some r =>
    have hr : r ∈ D := List.mem_of_getLast? hl
    simp only [Option.map_some]
    have := hi r hr
    simp only [ent, this]

/-- Regions that do not reach into each other, in order. -/
def Disjoint (D : List RI) : Prop := D.Pairwise fun a b => a.stop ≠ [] ∧ BLe a.stop b.start

theorem first_steps {xs : List Msg} : ∀ {s : St} {D : List RI}, s.last = [] → s.t.keys = D.map ent →
    (∀ r ∈ D, s.t.infos r.id = some r) → (∀ r ∈ D, NE r) → Disjoint D → (∀ r ∈ D, ∀ x ∈ xs, BLt r.start x.r.start) →
    (∀ x ∈ xs, s.t.infos x.r.id = none) → Batch xs →
    ∃ D', (xs.foldl step s).t.keys = D'.map ent ∧ (∀ r ∈ D', (xs.foldl step s).t.infos r.id = some r) ∧ Disjoint D' ∧
      (∀ r ∈ D', NE r) ∧ (∀ r ∈ D', r ∈ D ∨ r ∈ xs.map (·.r)) ∧
      (∀ p, Seg (some []) D p → Seg p (xs.map (·.r)) none → D' = D ++ xs.map (·.r)) := by
  induction xs with
  | nil =>
    intro s D _ hk hi hne hd _ _ _
    exact ⟨D, hk, hi, hd, hne, fun r hr => .inl hr, fun _ _ _ => by simp⟩
  | cons x xs ih =>
    intro s D hl hk hi hne hd hlt hun hb
    have hstep : step s x = if overlapsPrev s.t x.r.start then s else ⟨updateRegion s.t x, [], s.clear, s.endKey⟩ := by
      unfold step; simp only [hun x List.mem_cons_self]; unfold stepNew; rw [hl]; rfl
    have hDx : ∀ r ∈ D, BLt r.start x.r.start := fun r hr => hlt r hr x List.mem_cons_self
    have hov := overlaps_last hk hi hDx
    rw [List.foldl_cons, hstep]
    cases hc : overlapsPrev s.t x.r.start with
    | true =>
      rw [if_pos rfl]
      obtain ⟨D', e1, e2, e3, e4, e5, e6⟩ := ih hl hk hi hne hd (fun r hr y hy => hlt r hr y (List.mem_cons_of_mem _ hy))
        (fun y hy => hun y (List.mem_cons_of_mem _ hy)) hb.tail
      refine ⟨D', e1, e2, e3, e4, fun r hr => ?_, fun p h1 h2 => ?_⟩
      · rcases e5 r hr with h | h
        · exact .inl h
        · exact .inr (by rw [List.map_cons]; exact List.mem_cons_of_mem _ h)
      · -- impossible in a chain
        exfalso
        rw [hc] at hov
        cases hg : D.getLast? with
        | none => rw [hg] at hov; simp at hov
        | some r =>
          rw [hg] at hov
          obtain ⟨D0, rfl⟩ := List.getLast?_eq_some_iff.1 hg
          obtain ⟨u, _, hu⟩ := seg_append.1 h1
          have h3 : endPos r.stop = some x.r.start := hu.2.2.trans h2.1
          have h4 : r.stop = x.r.start := by
            unfold endPos at h3; split at h3
            · cases h3
            · injection h3
          simp only [h4, endEq_iff.2 rfl] at hov
          simp at hov
    | false =>
      rw [if_neg (by simp)]
      have habs : ∀ e ∈ s.t.keys, e.1 ≠ x.r.start := by
        intro e he heq
        rw [hk] at he
        obtain ⟨r, hr, rfl⟩ := List.mem_map.1 he
        have := hDx r hr
        rw [show r.start = x.r.start from heq] at this
        exact BLt.irrefl _ this
      have hins : insertNew x.r.start x.r.id s.t.keys = (D ++ [x.r]).map ent := by
        rw [insertNew_absent habs, hk]
        have := Region.minsert_mid (k := x.r.start) (v := x.r.id) (A := D.map ent) (B := []) (fun e he => by
          obtain ⟨r, hr, rfl⟩ := List.mem_map.1 he; exact hDx r hr) (by simp)
        rw [List.append_nil] at this
        rw [this]; simp [ent]
      have ht : updateRegion s.t x = ⟨(D ++ [x.r]).map ent, setInfo s.t.infos x.r.id (some x.r)⟩ := by
        unfold updateRegion
        rw [hb.live x List.mem_cons_self, if_neg (by simp), if_neg, hins]
        unfold verOf; rw [hun x List.mem_cons_self]; exact Nat.not_lt_zero _
      rw [ht]
      have hset : ∀ i, i ≠ x.r.id → setInfo s.t.infos x.r.id (some x.r) i = s.t.infos i := fun i hi => by
        unfold setInfo; rw [if_neg hi]
      obtain ⟨D', e1, e2, e3, e4, e5, e6⟩ := ih
        (s := ⟨⟨(D ++ [x.r]).map ent, setInfo s.t.infos x.r.id (some x.r)⟩, [], s.clear, s.endKey⟩) (D := D ++ [x.r]) rfl rfl
        (fun r hr => by
          rcases List.mem_append.1 hr with hr | hr
          · have : r.id ≠ x.r.id := by
              intro hh
              have h1 := hi r hr
              rw [hh, hun x List.mem_cons_self] at h1; cases h1
            show setInfo _ _ _ _ = _
            rw [hset _ this]; exact hi r hr
          · rw [List.mem_singleton] at hr; subst hr
            show setInfo _ _ _ _ = _
            unfold setInfo; rw [if_pos rfl])
        (fun r hr => by
          rcases List.mem_append.1 hr with hr | hr
          · exact hne r hr
          · rw [List.mem_singleton] at hr; subst hr; exact hb.nonempty x List.mem_cons_self)
        (by
          unfold Disjoint
          refine List.pairwise_append.2 ⟨hd, by simp, fun a ha b hb' => ?_⟩
          rw [List.mem_singleton] at hb'; subst hb'
          -- the last one ends before, so all do
          have hlast : ∀ r, D.getLast? = some r → r.stop ≠ [] ∧ BLe r.stop x.r.start := by
            intro r hg
            have hrD : r ∈ D := List.mem_of_getLast? hg
            have hx0 : x.r.start ≠ [] := by
              intro h0
              have := hDx r hrD
              rw [h0] at this
              exact absurd this (not_BLt.2 (BLe_nil _))
            rw [hc, hg] at hov
            have hov' : endKeyCompare r.stop x.r.start ≠ .gt := by simpa using hov.symm
            unfold endKeyCompare at hov'
            by_cases h1 : r.stop = x.r.start
            · exact ⟨by rw [h1]; exact hx0, by rw [h1]; exact BLe.refl _⟩
            · rw [if_neg h1] at hov'
              by_cases h2 : r.stop = []
              · rw [if_pos h2] at hov'; exact absurd rfl hov'
              · rw [if_neg h2, if_neg hx0] at hov'
                exact ⟨h2, hov'⟩
          cases hg : D.getLast? with
          | none =>
            have : D = [] := by simpa using hg
            rw [this] at ha; cases ha
          | some r =>
            obtain ⟨l1, l2⟩ := hlast r hg
            obtain ⟨D0, rfl⟩ := List.getLast?_eq_some_iff.1 hg
            rcases List.mem_append.1 ha with ha | ha
            · have h3 := (List.pairwise_append.1 hd).2.2 a ha r (by simp)
              have h4 := hDx r (by simp)
              exact ⟨h3.1, BLe.trans h3.2 h4.le⟩
            · rw [List.mem_singleton] at ha; subst ha; exact ⟨l1, l2⟩)
        (fun r hr y hy => by
          rcases List.mem_append.1 hr with hr | hr
          · exact hlt r hr y (List.mem_cons_of_mem _ hy)
          · rw [List.mem_singleton] at hr; subst hr; exact (hb.head hy).2)
        (fun y hy => by
          show setInfo _ _ _ _ = _
          rw [hset _ (fun h => (hb.head hy).1 h.symm)]
          exact hun y (List.mem_cons_of_mem _ hy))
        hb.tail
      refine ⟨D', e1, e2, e3, e4, fun r hr => ?_, fun p h1 h2 => ?_⟩
      · rcases e5 r hr with h | h
        · rcases List.mem_append.1 h with h | h
          · exact .inl h
          · rw [List.mem_singleton] at h; exact .inr (by rw [h]; simp)
        · exact .inr (by rw [List.map_cons]; exact List.mem_cons_of_mem _ h)
      · have := e6 (endPos x.r.stop) (seg_append.2 ⟨p, h1, h2.1, h2.2.1, rfl⟩) h2.2.2
        rw [this]; simp

/-- A node that knows nothing yet takes over what it is told: regions that make up the key space become the map, and
of any other regions those are kept that do not reach into each other. -/
theorem C48_first_load {t : Map} (hk : t.keys = []) (hi : ∀ i, t.infos i = none) {rs xs : List Msg} (hb : Batch xs)
    (hrs : (rs.filter fun x => !decide (Gone x.r)).Perm xs) :
    (∃ D : List RI, (update t rs).keys = D.map ent ∧ (∀ r ∈ D, (update t rs).infos r.id = some r) ∧
      (∀ r ∈ D, r ∈ xs.map (·.r)) ∧ ∀ k, ∀ r ∈ D, ∀ r' ∈ D, Covers r.start r.stop k → Covers r'.start r'.stop k → r = r') ∧
    (Seg (some []) (xs.map (·.r)) none → (update t rs).keys = (xs.map (·.r)).map ent ∧
      Good (update t rs).infos (update t rs).keys) := by
  have heq : update t rs = (xs.foldl step ⟨t, [], [], []⟩).t := by
    unfold update updateTable; rw [byStart_eq hrs hb.sorted]
  obtain ⟨D, e1, e2, e3, e4, e5, e6⟩ := first_steps (s := ⟨t, [], [], []⟩) (D := []) rfl hk (by simp) (by simp)
    (by simp [Disjoint]) (by simp) (fun x _ => hi _) hb
  rw [heq]
  refine ⟨⟨D, e1, e2, fun r hr => (e5 r hr).resolve_left (by simp), fun k r hr r' hr' hc hc' => ?_⟩, fun hs => ?_⟩
  · by_contra hne
    have hex : ∀ a ∈ D, ∀ b ∈ D, (a.stop ≠ [] ∧ BLe a.stop b.start) → Covers a.start a.stop k → Covers b.start b.stop k → False := by
      intro a _ b _ hab ha hb'
      have h1 := ha.2.resolve_left hab.1
      exact not_BLt.2 (BLe.trans hab.2 hb'.1) h1
    rcases List.pairwise_iff_getElem.1 e3 with hpw
    obtain ⟨i, hi', rfl⟩ := List.getElem_of_mem hr
    obtain ⟨j, hj', rfl⟩ := List.getElem_of_mem hr'
    rcases Nat.lt_trichotomy i j with h | h | h
    · exact hex _ hr _ hr' (hpw i j hi' hj' h) hc hc'
    · subst h; exact hne rfl
    · exact hex _ hr' _ hr (hpw j i hj' hi' h) hc' hc
  · have hD := e6 (some []) rfl hs
    rw [List.nil_append] at hD
    subst hD
    exact ⟨e1, _, hs, e1, e2⟩

end BaikalDB.ClientMap
