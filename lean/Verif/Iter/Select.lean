import Verif.Iter.Props
import Verif.Scan.Props

/-!
# From WHERE to the rows: plan, routing and scans together
-/

namespace BaikalDB.Iter
open Route Scan Like Like.Spec KeyEnc.Spec IndexKey

/-- rocksdb_scan_node.cpp:204-237: the range an iterator is opened with. -/
def scanRng (t : Tpl) (r : Rng) : Range := ⟨r.left, if t.isEq then r.left else r.right, t.leftOpen, t.rightOpen⟩

/-- The end key of a region of the table: where the next one begins. -/
def stopOf (m : KeyMap) (e : Bytes × Nat) : Bytes := ((m.dropWhile fun e' => ble e'.1 e.1).head?.map (·.1)).getD []

/-- What each region has stored: the bytes its keys of the index begin with, and its entries. -/
abbrev Cluster := Nat → Bytes × Db

/-- A SELECT on one index of a table without partitions: every region the ranges lead to (schema_factory.cpp:3080-3230)
runs the ranges sent to it one after the other (rocksdb_scan_node.cpp:1340-1420).  The result has the number of the region
with each entry. -/
def select (t : Tpl) (ranges : List Rng) (fwd : Bool) (m : KeyMap) (cl : Cluster) : List (Nat × Bytes × Bytes) :=
  (m.filter fun e => decide (e.2 ∈ regions (some t) ranges false false [(0, m)])).flatMap fun e =>
    (sentTo (some t) ranges false false [(0, m)] e.2).flatMap fun r =>
      (scan (cl e.2).1 true ⟨e.1, stopOf m e⟩ (scanRng t r) fwd (fun _ => false) (cl e.2).2).map fun kv => (e.2, kv)

/-- The regions tile the key space, each stores its entries in order, and what they store of the index are the rows. -/
structure Stores (ix : IndexInfo) (m : KeyMap) (cl : Cluster) (rows : List Row) : Prop where
  sorted : Route.Sorted m
  first : ∃ e ∈ m, e.1 = []
  ids : (m.map (·.2)).Nodup
  db : ∀ e ∈ m, Sorted (cl e.2).2
  entries : ∀ e ∈ m, ∀ x, Owner m x e → ((∃ v, ((cl e.2).1 ++ x, v) ∈ (cl e.2).2) ↔ ∃ row ∈ rows, rowKey ix row = x)

theorem owner_iff {m : KeyMap} (hs : Route.Sorted m) {e : Bytes × Nat} (he : e ∈ m) (x : Bytes) :
    InReg ⟨e.1, stopOf m e⟩ x ↔ Owner m x e := by
  have hd := (sorted_takeWhile hs (fun e' => ble e'.1 e.1) (fun a b hb hab => ble_iff.2 (hab.trans (ble_iff.1 hb))))
  have hds : Route.Sorted (m.dropWhile fun e' => ble e'.1 e.1) :=
    List.Pairwise.sublist (List.dropWhile_sublist _) hs
  unfold InReg Owner stopOf
  cases h : m.dropWhile (fun e' => ble e'.1 e.1) with
  | nil =>
    simp only [List.head?_nil, Option.map_none, Option.getD_none, true_or, and_true]
    constructor
    · intro hx
      refine ⟨he, hx, fun e' he' _ => ?_⟩
      by_contra hc
      have := (hd e').2.2 ⟨he', by simpa [ble] using hc⟩
      rw [h] at this
      cases this
    · exact fun h => h.2.1
  | cons f t =>
    rw [h] at hds
    have hf := (hd f).2.1 (by rw [h]; simp)
    have hlt : BLt e.1 f.1 := by
      have := hf.2
      rw [← Bool.not_eq_true, ble_iff, not_BLe] at this
      exact this
    have hne : f.1 ≠ [] := fun h' => not_lt_nil _ (h' ▸ hlt)
    simp only [List.head?_cons, Option.map_some, Option.getD_some, hne, false_or]
    constructor
    · rintro ⟨h1, h2⟩
      refine ⟨he, h1, fun e' he' hx => ?_⟩
      by_contra hc
      have hm := (hd e').2.2 ⟨he', by simpa [ble] using hc⟩
      rw [h] at hm
      have : BLe f.1 e'.1 := by
        rcases List.mem_cons.1 hm with rfl | hm
        · exact BLe.refl _
        · exact ((List.pairwise_cons.1 hds).1 e' hm).le
      exact not_BLt.2 (this.trans hx) h2
    · rintro ⟨_, h1, h2⟩
      refine ⟨h1, ?_⟩
      by_contra hc
      exact not_BLe.2 hlt (h2 f hf.1 (not_BLt.1 hc))

theorem owner_exists {m : KeyMap} (hf : ∃ e ∈ m, e.1 = []) (x : Bytes) : ∃ e, Owner m x e := by
  obtain ⟨e0, he0, h0⟩ := hf
  have hne : (m.filter fun e => ble e.1 x) ≠ [] := by
    intro h
    have : e0 ∈ m.filter fun e => ble e.1 x := List.mem_filter.2 ⟨he0, by rw [h0]; exact ble_iff.2 (BLe_nil _)⟩
    rw [h] at this; cases this
  have key : ∀ l : KeyMap, l ≠ [] → ∃ e ∈ l, ∀ e' ∈ l, BLe e'.1 e.1 := by
    intro l
    induction l with
    | nil => intro h; exact absurd rfl h
    | cons a t ih =>
      intro _
      by_cases ht : t = []
      · exact ⟨a, by simp, by simp [ht, BLe.refl]⟩
      · obtain ⟨e, he, h⟩ := ih ht
        by_cases hae : BLe a.1 e.1
        · refine ⟨e, by simp [he], fun e' he' => ?_⟩
          rcases List.mem_cons.1 he' with rfl | h'
          · exact hae
          · exact h e' h'
        · refine ⟨a, by simp, fun e' he' => ?_⟩
          rcases List.mem_cons.1 he' with rfl | h'
          · exact BLe.refl _
          · exact (h e' h').trans (not_BLe.1 hae).le
  obtain ⟨e, he, h⟩ := key _ hne
  obtain ⟨h1, h2⟩ := List.mem_filter.1 he
  exact ⟨e, h1, ble_iff.1 h2, fun e' he' hx => h e' (List.mem_filter.2 ⟨he', ble_iff.2 hx⟩)⟩

theorem owner_unique {m : KeyMap} (hs : Route.Sorted m) {x : Bytes} {e e' : Bytes × Nat} (h : Owner m x e) (h' : Owner m x e') : e = e' := by
  have h1 := BLe.antisymm (h'.2.2 e h.1 h.2.1) (h.2.2 e' h'.1 h'.2.1)
  by_contra hne
  have : ∀ l : KeyMap, Route.Sorted l → e ∈ l → e' ∈ l → False := by
    intro l hl
    induction l with
    | nil => intro h; cases h
    | cons a t ih =>
      rw [Route.Sorted, List.pairwise_cons] at hl
      intro he he'
      rcases List.mem_cons.1 he with ha | ha
      · rcases List.mem_cons.1 he' with hb | hb
        · exact hne (ha.trans hb.symm)
        · have := hl.1 e' hb
          rw [← ha, h1] at this
          exact BLt.irrefl _ this
      · rcases List.mem_cons.1 he' with hb | hb
        · have := hl.1 e ha
          rw [← hb, h1] at this
          exact BLt.irrefl _ this
        · exact ih hl.2 ha hb
  exact this m hs h.1 h'.1

section
variable {cs : Charset} {ty : Nat → KeyEnc.PType} {ix : IndexInfo} {conds : List Cond}

/-- A plan by equality has closed ends. -/
theorem plan_eq_closed (hcov : Covered cs ty ix conds) {cfg : Cfg} {p : Plan} (e : mkPlan cfg ix conds = .plan p)
    (heq : p.tpl.isEq = true) : p.tpl.leftOpen = false ∧ p.tpl.rightOpen = false := by
  rcases mkPlan_cases hcov cfg with ⟨_, h⟩ | ⟨m, cols, rest, s1, k1, s, k, hm, hav, hrel, ht, h⟩
  · rw [h] at e; cases e
  rw [h] at e
  cases e
  by_cases hz : s.leftCnt = 0 ∧ s.rightCnt = 0
  · unfold finish at heq
    rw [if_pos hz] at heq
    cases heq
  · rw [finish_tpl hz] at heq ⊢
    simp only at heq ⊢
    cases ht with
    | range f rest hn ht =>
      exfalso
      have h1 : ∀ (ids : List Nat) (r : FR) (s : Scan.St), (rangeLeft ids r s).1.eqOrIn = s.eqOrIn := by
        intro ids r s
        unfold rangeLeft
        dsimp only
        repeat' split
        all_goals rfl
      have h2 : ∀ (ids : List Nat) (r : FR) (p : Scan.St × Nat), (rangeRight ids r p).eqOrIn = p.1.eqOrIn := by
        intro ids r p
        unfold rangeRight
        dsimp only
        repeat' split
        all_goals rfl
      unfold stepRange at heq
      rw [h2, h1] at heq
      cases heq
    | like f rest hn ht hs => cases heq
    | stop => exact ⟨hrel.leftOpen, hrel.rightOpen⟩

theorem wanted_iff (t : Tpl) (ht : t.isEq = true → t.leftOpen = false ∧ t.rightOpen = false) (r : Rng) (x : Bytes) :
    Wanted (scanRng t r) x ↔ InBounds (bounds (some t) r) x := by
  cases he : t.isEq with
  | true =>
    obtain ⟨h1, h2⟩ := ht he
    rw [C11_eq_bounds t r he h1]
    simp only [Wanted, scanRng, he, if_true, h1, h2, LeftOk, RightOk, Bool.false_eq_true, if_false, true_and]
    constructor
    · rintro ⟨ha, hb | hb | hb⟩
      · rw [hb]; exact List.nil_prefix
      · by_cases hl : r.left = []
        · rw [hl]; exact List.nil_prefix
        · exact absurd hb (not_BLt.2 (ha hl))
      · exact hb
    · exact fun h => ⟨fun _ => prefix_le h, .inr (.inr h)⟩
  | false =>
    rw [C11_range_bounds _ _ (fun t' h => by cases h; exact he)]
    simp only [Wanted, scanRng, he, Option.elim, Bool.false_eq_true, if_false]
    constructor
    · rintro ⟨h1, h2⟩
      refine ⟨?_, h2⟩
      by_cases hl : r.left = []
      · exact .inl hl
      · exact .inr (h1 hl)
    · rintro ⟨h1, h2⟩
      exact ⟨fun hl => h1.resolve_left hl, h2⟩

theorem mem_filterMap_get {α : Type} {l : List α} (hl : l.Nodup) {is : List Nat} (hi : is.Nodup) : (is.filterMap fun i => l[i]?).Nodup := by
  refine hi.filterMap ?_
  intro a a' b hb hb'
  obtain ⟨h1, h2⟩ := List.getElem?_eq_some_iff.1 hb
  obtain ⟨h3, h4⟩ := List.getElem?_eq_some_iff.1 hb'
  exact (List.getElem_inj hl).1 (h2.trans h4.symm)

theorem sentTo_nodup {t : Option Tpl} {ranges : List Rng} (h : ranges.Nodup) (ps : Parts) (id : Nat) :
    (sentTo t ranges false false ps id).Nodup := by
  unfold sentTo
  split
  · exact h
  · split
    · exact h
    · exact mem_filterMap_get h (List.Nodup.filter _ List.nodup_range)

theorem nodup_flatMap {α β : Type} {l : List α} {f : α → List β} (h1 : ∀ x ∈ l, (f x).Nodup) (hl : l.Nodup)
    (h2 : ∀ x ∈ l, ∀ y ∈ l, ∀ b, b ∈ f x → b ∈ f y → x = y) : (l.flatMap f).Nodup := by
  rw [List.nodup_flatMap]
  refine ⟨h1, ?_⟩
  refine List.Pairwise.imp_of_mem (S := fun a b => List.Disjoint (f a) (f b)) ?_ hl
  intro a b ha hb hne x hxa hxb
  exact hne (h2 a ha b hb x hxa hxb)

/-- Membership in what a scan hands out, in either direction. -/
theorem mem_scan {pre : Bytes} {check : Bool} {reg : Reg} {rg : Range} {fwd : Bool} {db : Db} (hs : Sorted db)
    (hff : ∀ e ∈ db, ¬ (pre ++ rg.right ++ ones 24) <+: e.1) :
    (∀ e, e ∈ scan pre check reg rg fwd (fun _ => false) db ↔ e ∈ db ∧ Target pre check reg rg e.1) ∧
    (scan pre check reg rg fwd (fun _ => false) db).Nodup := by
  classical
  have hq : ∀ e : Bytes × Bytes, decide (Target pre check reg rg e.1) = true ↔
      Target pre check reg rg e.1 ∧ (fun _ : Bytes × Bytes => false) e = false := by
    intro e; simp
  have hnd : db.Nodup := by
    refine List.Pairwise.imp ?_ hs
    intro a b h hab
    rw [hab] at h
    exact BLt.irrefl _ h
  cases fwd with
  | true =>
    rw [C53_forward hs (fun _ e he _ => hff e he) hq]
    exact ⟨fun e => by rw [List.mem_filter, decide_eq_true_eq], hnd.filter _⟩
  | false =>
    rw [C53_backward hs (fun _ e he _ => hff e he) hq]
    exact ⟨fun e => by rw [List.mem_reverse, List.mem_filter, decide_eq_true_eq], List.nodup_reverse.2 (hnd.filter _)⟩

/-- **C53.** From WHERE to the rows.  The SQL layer turns the conditions into ranges, finds the regions, each region scans
its ranges in its own store, forwards or backwards; a row of the table meets WHERE exactly if its entry is among those
handed out and the conditions evaluated afterwards are true of it.  (The store may not hold keys in which 24 bytes 0xFF
follow the right end of a range; and as in C44, no IN before a LIKE prefix.) -/
theorem C53_select_partial {m : KeyMap} {cl : Cluster} {rows : List Row} (hst : Stores ix m cl rows) (hcov : Covered cs ty ix conds)
    {cfg : Cfg} {p : Plan} (e : mkPlan cfg ix conds = .plan p) (hlike : p.st.likePrefix = true → p.st.inPred = false)
    (hff : ∀ en ∈ m, ∀ r ∈ p.ranges, ∀ kv ∈ (cl en.2).2, ¬ ((cl en.2).1 ++ (scanRng p.tpl r).right ++ ones 24) <+: kv.1) (fwd : Bool)
    {row : Row} (hmem : row ∈ rows) (hrow : RowOk cs ix row) :
    (∀ c ∈ conds, Holds cs row c) ↔
      (∃ en ∈ m, ∃ v, (en.2, (cl en.2).1 ++ rowKey ix row, v) ∈ select p.tpl p.ranges fwd m cl) ∧
      ∀ (i : Nat) c, conds[i]? = some c → i ∉ p.cut → Holds cs row c := by
  rw [C44_plan_exact_partial hcov e hlike hrow]
  refine and_congr_left fun _ => ?_
  have hcl := fun h => plan_eq_closed hcov e h
  constructor
  · rintro ⟨r, hr, hx⟩
    obtain ⟨en, ho⟩ := owner_exists hst.first (rowKey ix row)
    obtain ⟨v, hv⟩ := (hst.entries en ho.1 _ ho).2 ⟨row, hmem, rfl⟩
    refine ⟨en, ho.1, v, ?_⟩
    obtain ⟨hreg, hsent⟩ := C11_ranges (tpl := some p.tpl) (ps := [(0, m)]) (p := 0) (m := m) (by simp) hst.sorted hr
      (.inl (by
        rcases mkPlan_cases hcov cfg with ⟨_, h⟩ | ⟨m', cols, rest, s1, k1, s, k, hm, hav, hrel, ht, h⟩
        · rw [h] at e; cases e
        · rw [h] at e
          cases e
          unfold finish at hr
          split at hr
          · rw [List.mem_singleton.1 hr]
          · dsimp only at hr
            split at hr
            · obtain ⟨q, _, rfl⟩ := List.mem_map.1 hr
              rfl
            · rw [List.mem_singleton.1 hr]
              rfl)) hx ho
    unfold select
    rw [List.mem_flatMap]
    refine ⟨en, List.mem_filter.2 ⟨ho.1, by simpa using hreg⟩, ?_⟩
    rw [List.mem_flatMap]
    refine ⟨r, hsent, ?_⟩
    rw [List.mem_map]
    refine ⟨((cl en.2).1 ++ rowKey ix row, v), ?_, rfl⟩
    rw [(mem_scan (hst.db en ho.1) (hff en ho.1 r hr)).1]
    exact ⟨hv, _, rfl, fun _ => (owner_iff hst.sorted ho.1 _).2 ho, (wanted_iff p.tpl hcl r _).2 hx⟩
  · rintro ⟨en, hen, v, h⟩
    unfold select at h
    rw [List.mem_flatMap] at h
    obtain ⟨en', hen', h⟩ := h
    rw [List.mem_flatMap] at h
    obtain ⟨r, hr, h⟩ := h
    rw [List.mem_map] at h
    obtain ⟨kv, hkv, heq⟩ := h
    have hr' := (C11_ranges_sound hr).1
    have hm' := (List.mem_filter.1 hen').1
    have hid : en'.2 = en.2 := (Prod.ext_iff.1 heq).1
    have hkv2 : kv = ((cl en.2).1 ++ rowKey ix row, v) := (Prod.ext_iff.1 heq).2
    rw [(mem_scan (hst.db en' hm') (hff en' hm' r hr')).1] at hkv
    obtain ⟨_, x, hx, _, hw⟩ := hkv
    rw [hkv2, hid] at hx
    have : rowKey ix row = x := List.append_cancel_left hx
    exact ⟨r, hr', (wanted_iff p.tpl hcl r _).1 (this ▸ hw)⟩

/-- **C53.** No entry is handed out twice, neither by two regions nor for two ranges. -/
theorem C53_select_once_partial {m : KeyMap} {cl : Cluster} {rows : List Row} (hst : Stores ix m cl rows) (hcov : Covered cs ty ix conds)
    (hrows : ∀ row ∈ rows, RowOk cs ix row)
    {cfg : Cfg} {p : Plan} (e : mkPlan cfg ix conds = .plan p)
    (hff : ∀ en ∈ m, ∀ r ∈ p.ranges, ∀ kv ∈ (cl en.2).2, ¬ ((cl en.2).1 ++ (scanRng p.tpl r).right ++ ones 24) <+: kv.1) (fwd : Bool) :
    (select p.tpl p.ranges fwd m cl).Nodup ∧
      ∀ id k v, (id, k, v) ∈ select p.tpl p.ranges fwd m cl → ∃ row ∈ rows, k = (cl id).1 ++ rowKey ix row := by
  have hcl := fun h => plan_eq_closed hcov e h
  obtain ⟨hnd, honce⟩ := C44_once hcov e
  have hmn : m.Nodup := List.Nodup.of_map _ hst.ids
  have hent : ∀ en ∈ m, ∀ r ∈ p.ranges, ∀ kv ∈ scan (cl en.2).1 true ⟨en.1, stopOf m en⟩ (scanRng p.tpl r) fwd (fun _ => false) (cl en.2).2,
      ∃ row ∈ rows, kv.1 = (cl en.2).1 ++ rowKey ix row ∧ Reaches p r (rowKey ix row) := by
    intro en hen r hr kv hkv
    rw [(mem_scan (hst.db en hen) (hff en hen r hr)).1] at hkv
    obtain ⟨hdb, x, hx, hreg, hw⟩ := hkv
    have ho := (owner_iff hst.sorted hen x).1 (hreg rfl)
    obtain ⟨row, hrow, hk⟩ := (hst.entries en hen x ho).1 ⟨kv.2, by rw [← hx]; exact hdb⟩
    refine ⟨row, hrow, by rw [hk]; exact hx, ?_⟩
    rw [hk]
    exact (wanted_iff p.tpl hcl r x).1 hw
  constructor
  · unfold select
    refine nodup_flatMap ?_ (hmn.filter _) ?_
    · intro en hen
      have hen' := (List.mem_filter.1 hen).1
      refine nodup_flatMap ?_ (sentTo_nodup hnd _ _) ?_
      · intro r hr
        have hr' := (C11_ranges_sound hr).1
        exact List.Nodup.map (fun a b h => (Prod.ext_iff.1 h).2) (mem_scan (hst.db en hen') (hff en hen' r hr')).2
      · intro r hr r' hr' b hb hb'
        have h1 := (C11_ranges_sound hr).1
        have h2 := (C11_ranges_sound hr').1
        obtain ⟨kv, hkv, rfl⟩ := List.mem_map.1 hb
        obtain ⟨kv', hkv', hk'⟩ := List.mem_map.1 hb'
        have hkk : kv' = kv := (Prod.ext_iff.1 hk').2
        subst hkk
        obtain ⟨row, hrow, e1, g1⟩ := hent en hen' r h1 kv' hkv
        obtain ⟨row', hrow', e2, g2⟩ := hent en hen' r' h2 kv' hkv'
        have hsame : rowKey ix row = rowKey ix row' := List.append_cancel_left (e1.symm.trans e2)
        exact honce row (hrows row hrow) r h1 r' h2 g1 (hsame ▸ g2)
    · intro en hen en' hen' b hb hb'
      have hen1 := (List.mem_filter.1 hen).1
      have hen2 := (List.mem_filter.1 hen').1
      have hid : en.2 = en'.2 := by
        obtain ⟨r, _, h⟩ := List.mem_flatMap.1 hb
        obtain ⟨kv, _, rfl⟩ := List.mem_map.1 h
        obtain ⟨r', _, h'⟩ := List.mem_flatMap.1 hb'
        obtain ⟨kv', _, hk⟩ := List.mem_map.1 h'
        exact (Prod.ext_iff.1 hk).1.symm
      exact List.inj_on_of_nodup_map hst.ids hen1 hen2 hid
  · intro id k v h
    unfold select at h
    obtain ⟨en, hen, h⟩ := List.mem_flatMap.1 h
    obtain ⟨r, hr, h⟩ := List.mem_flatMap.1 h
    obtain ⟨kv, hkv, heq⟩ := List.mem_map.1 h
    have hid : en.2 = id := (Prod.ext_iff.1 heq).1
    have hk : kv = (k, v) := (Prod.ext_iff.1 heq).2
    obtain ⟨row, hrow, e1, _⟩ := hent en (List.mem_filter.1 hen).1 r (C11_ranges_sound hr).1 kv hkv
    refine ⟨row, hrow, ?_⟩
    rw [hk, hid] at e1
    exact e1

end

/-! ## Example: a table of two regions -/

def exPk : IndexInfo := buildIndex .primary false [⟨9, .int64, false⟩] [⟨9, .int64, false⟩]
def exKey (n : Nat) : Bytes := [0x80#8, 0, 0, 0, 0, 0, 0, BitVec.ofNat 8 n]
def exMap : KeyMap := [([], 11), (exKey 3, 12)]
def exCl : Cluster := fun id => if id = 11 then ([11], [([11] ++ exKey 1, [101])]) else ([12], [([12] ++ exKey 5, [105])])
def exRows : List Row := [exRow 0 0 [] 1, exRow 0 0 [] 5]

example : Stores exPk exMap exCl exRows := by
  have h1 : rowKey exPk (exRow 0 0 [] 1) = exKey 1 := by decide +kernel
  have h5 : rowKey exPk (exRow 0 0 [] 5) = exKey 5 := by decide +kernel
  refine ⟨by unfold Route.Sorted exMap; decide, ⟨_, List.mem_cons_self, rfl⟩, by decide, ?_, ?_⟩
  · intro e he
    simp only [exMap, List.mem_cons, List.not_mem_nil, or_false] at he
    rcases he with rfl | rfl <;> exact List.pairwise_singleton _ _
  · intro e he x ho
    simp only [exMap, List.mem_cons, List.not_mem_nil, or_false] at he
    rcases he with rfl | rfl
    · simp only [exCl, if_true, List.mem_singleton, Prod.mk.injEq, exRows, List.mem_cons, List.not_mem_nil, or_false,
        exists_eq_or_imp, exists_eq_left, h1, h5]
      constructor
      · rintro ⟨v, hx, _⟩
        exact .inl (List.append_cancel_left hx).symm
      · rintro (h | h)
        · exact ⟨[101], by rw [h], rfl⟩
        · exfalso
          have := ho.2.2 (exKey 3, 12) (by simp [exMap]) (by rw [← h]; decide)
          revert this
          decide
    · have hne : ((exKey 3, 12) : Bytes × Nat).2 ≠ 11 := by decide
      simp only [exCl, if_neg hne, List.mem_singleton, Prod.mk.injEq, exRows, List.mem_cons, List.not_mem_nil, or_false,
        exists_eq_or_imp, exists_eq_left, h1, h5]
      constructor
      · rintro ⟨v, hx, _⟩
        exact .inr (List.append_cancel_left hx).symm
      · rintro (h | h)
        · exfalso
          have := ho.2.1
          rw [← h] at this
          revert this
          decide
        · exact ⟨[105], by rw [h], rfl⟩

/-- `WHERE id >= 2`: both regions are asked, the second one has the row. -/
example : ∃ p, mkPlan exCfg exPk [.cmp .ge 9 (some (i 2))] = .plan p ∧
    select p.tpl p.ranges true exMap exCl = [(12, [12] ++ exKey 5, [105])] := ⟨_, rfl, by decide +kernel⟩

end BaikalDB.Iter
