import Verif.Scan.Props

/-!
# ORDER BY answered by the order of an index

`AccessPath::check_sort_use_index` decides whether the order of the keys is the order asked for; the scan then runs in
that order and the sort above it is left out (one range), or each range is cut off after LIMIT rows (several ranges).
-/

namespace BaikalDB.Scan
open KeyEnc KeyEnc.Spec IndexKey Like Like.Spec Route

/-! ## The model -/

/-- The columns of the index and, for a secondary one, those of the primary key (access_path.cpp:99-100). -/
def keyFields (ix : IndexInfo) : List FieldInfo := ix.fields ++ ix.pkFields

/-- access_path.cpp:107-115: the ORDER BY columns go along with the key columns. -/
def along : List Nat → List Nat → Bool
  | [], _ => true
  | _ :: _, [] => false
  | o :: os, f :: fs => if f = o then along os fs else false

/-- access_path.cpp:92-121 `check_sort_use_index`. -/
def checkSort (ix : IndexInfo) (eqCount : Nat) (orders : List Nat) : Bool :=
  match orders with
  | [] => false
  | o :: _ =>
    let ids := (keyFields ix).map (·.id)
    let idx := ids.findIdx (· == o)
    if idx < ids.length ∧ idx ≤ eqCount then along orders (ids.drop idx) else false

/-- sort_node.cpp:72-76 `_monotonic` and sort_node.h:74-80 `sort_property`: columns and directions of ORDER BY, or nothing
if the directions differ. -/
def sortProperty (orders : List (Nat × Bool)) : List (Nat × Bool) :=
  if orders.all fun o => o.2 == (orders.headD (0, true)).2 then orders else []

/-- access_path.cpp:312-321: `sort_index` of the index, with the direction. -/
def sortIndex (ix : IndexInfo) (eqCount : Nat) (orders : List (Nat × Bool)) : Option Bool :=
  let sp := sortProperty orders
  if checkSort ix eqCount (sp.map (·.1)) then some (sp.headD (0, true)).2 else none

/-- The filter node above a scan; `none`: it has no conditions. -/
def postFilter {α : Type} (post : Option (α → Bool)) (l : List α) : List α :=
  match post with
  | none => l
  | some q => l.filter q

/-- What a store does for ORDER BY ... LIMIT on the rows of its ranges (rocksdb_scan_node.cpp:76-98, 1379-1415,
rocksdb_scan_node.h:190-196 `range_reach_limit`, sort_node.cpp:300,364).  `rd` reads the ranges in a direction (conditions
pushed into the scan already applied), `post` are the conditions of the filter node above, `sort` is the sorter of C22.
Not modelled: `_limit` of the scan node itself, which is not set below a sort node (limit_calc.cpp:33-97). -/
def regionRows {α : Type} (sort : List α → List α) (si : Option Bool) (limit : Option Nat) (post : Option (α → Bool))
    (rd : Bool → List (List α)) : List α :=
  match si with
  | none => sort (postFilter post (rd true).flatten)
  | some asc =>
    let ls := rd asc
    if ls.length > 1 then
      match post, limit with
      | none, some n => sort (ls.map (List.take n)).flatten
      | _, _ => sort (postFilter post ls.flatten)
    else postFilter post ls.flatten

/-! ## The specification -/

/-- NULL comes before every value. -/
def optCompare : Option PbVal → Option PbVal → Ordering
  | none, none => .eq
  | none, some _ => .lt
  | some _, none => .gt
  | some x, some y => colCompare x y

/-- Row `a` may stand before row `b`: the first ORDER BY column that differs decides. -/
def OrdLe : List (Nat × Bool) → Row → Row → Prop
  | [], _, _ => True
  | (f, asc) :: os, a, b =>
    let c := if asc then optCompare (a f) (b f) else optCompare (b f) (a f)
    c = .lt ∨ c = .eq ∧ OrdLe os a b

/-! ## Cutting ranges off at LIMIT -/

/-- If every list is sorted, the first `n` of each are enough for the first `n` of all. -/
theorem top_cut {α : Type} {R : α → α → Prop} (total : ∀ a b, R a b ∨ R b a) (trans : ∀ a b c, R a b → R b c → R a c)
    {ls : List (List α)} (hs : ∀ l ∈ ls, l.Pairwise R) (n : Nat) {S : List α}
    (hp : S.Perm (ls.map (List.take n)).flatten) (hS : S.Pairwise R) :
    ∃ L : List α, L.Perm ls.flatten ∧ L.Pairwise R ∧ L.take n = S.take n := by
  classical
  let D := (ls.map (List.drop n)).flatten
  let T := (S.drop n ++ D).mergeSort fun a b => decide (R a b)
  have hT : T.Perm (S.drop n ++ D) := List.mergeSort_perm _ _
  have hTs : T.Pairwise R := by
    have := List.pairwise_mergeSort (le := fun a b => decide (R a b))
      (by intro a b c h1 h2; exact decide_eq_true (trans a b c (of_decide_eq_true h1) (of_decide_eq_true h2)))
      (by intro a b; rcases total a b with h | h <;> simp [h]) (S.drop n ++ D)
    exact this.imp (fun h => of_decide_eq_true h)
  have hsplit : ∀ ls : List (List α), ((ls.map (List.take n)).flatten ++ (ls.map (List.drop n)).flatten).Perm ls.flatten := by
    intro ls
    induction ls with
    | nil => simp
    | cons l ls ih =>
      simp only [List.map_cons, List.flatten_cons]
      calc _ = l.take n ++ ((ls.map (List.take n)).flatten ++ (l.drop n ++ (ls.map (List.drop n)).flatten)) := by simp
        _ |>.Perm (l.take n ++ (l.drop n ++ ((ls.map (List.take n)).flatten ++ (ls.map (List.drop n)).flatten))) := by
            apply List.Perm.append_left
            rw [← List.append_assoc, ← List.append_assoc]
            exact List.Perm.append_right _ List.perm_append_comm
        _ |>.Perm (l ++ ls.flatten) := by
            rw [← List.append_assoc, List.take_append_drop]
            exact List.Perm.append_left _ ih
  have hcut : ∀ d ∈ D, n ≤ S.length ∧ ∀ t ∈ S.take n, R t d := by
    intro d hd
    obtain ⟨l', hl', hd'⟩ := List.mem_flatten.1 hd
    obtain ⟨l, hl, rfl⟩ := List.mem_map.1 hl'
    have hlen : n < l.length := by
      by_contra hc
      rw [List.drop_eq_nil_of_le (by omega)] at hd'
      cases hd'
    have hsub : (l.take n).Sublist (ls.map (List.take n)).flatten :=
      List.sublist_flatten_of_mem (List.mem_map.2 ⟨l, hl, rfl⟩)
    have hn : (l.take n).length = n := by simp; omega
    have hud : ∀ u ∈ l.take n, R u d := by
      have := hs l hl
      rw [← List.take_append_drop n l, List.pairwise_append] at this
      exact fun u hu => this.2.2 u hu d hd'
    refine ⟨by rw [← hn, hp.length_eq]; exact hsub.length_le, fun t ht => ?_⟩
    by_contra hR
    have hcount : n ≤ S.countP fun u => !decide (R t u) := by
      rw [hp.countP_eq]
      refine Nat.le_trans (Nat.le_of_eq ?_) (hsub.countP_le)
      rw [List.countP_eq_length.2, hn]
      intro u hu
      simp only [Bool.not_eq_true', decide_eq_false_iff_not]
      exact fun h => hR (trans _ _ _ h (hud u hu))
    have h0 : (S.drop n).countP (fun u => !decide (R t u)) = 0 := by
      rw [List.countP_eq_zero]
      intro u hu
      have := hS
      rw [← List.take_append_drop n S, List.pairwise_append] at this
      simp [this.2.2 t ht u hu]
    have h1 : (S.take n).countP (fun u => !decide (R t u)) < (S.take n).length := by
      apply lt_of_le_of_ne List.countP_le_length
      intro h
      have := List.countP_eq_length.1 h t ht
      have hrefl : R t t := by rcases total t t with h | h <;> exact h
      simp [hrefl] at this
    rw [← List.take_append_drop n S, List.countP_append, h0] at hcount
    have : (S.take n).length ≤ n := List.length_take_le _ _
    omega
  refine ⟨S.take n ++ T, ?_, ?_, ?_⟩
  · refine List.Perm.trans ?_ (hsplit ls)
    refine (List.Perm.append_left _ hT).trans ?_
    rw [← List.append_assoc, List.take_append_drop]
    exact hp.append_right _
  · rw [List.pairwise_append]
    have h := hS
    rw [← List.take_append_drop n S, List.pairwise_append] at h
    refine ⟨h.1, hTs, fun t ht d hd => ?_⟩
    rcases List.mem_append.1 (hT.mem_iff.1 hd) with hd | hd
    · exact h.2.2 t ht d hd
    · exact (hcut d hd).2 t ht
  · by_cases hlen : n ≤ S.length
    · rw [List.take_append_of_le_length (by simp; omega), List.take_take, Nat.min_self]
    · have hD : D = [] := by
        apply List.eq_nil_iff_forall_not_mem.2
        intro d hd
        exact hlen (hcut d hd).1
      have hT0 : T = [] := by
        have := hT
        rw [hD, List.drop_eq_nil_of_le (by omega)] at this
        exact List.Perm.eq_nil this
      rw [hT0, List.append_nil, List.take_take, Nat.min_self]

/-! ## Rows in key order -/

section
variable {cs : Charset} {ty : Nat → PType} {ix : IndexInfo} {conds : List Cond}

/-- All columns of the index and of the primary key are filled in. -/
def Filled (fs : List FieldInfo) (row : Row) : Prop := ∀ f ∈ fs, ∃ v, row f.id = some v ∧ Valid f.type v

/-- The bytes of the ORDER BY columns. -/
def ordKey (os : List FieldInfo) (row : Row) : Bytes := tk os (vals row os)

theorem ordKey_cmp {os : List FieldInfo} {a b : Row} (ha : Filled os a) (hb : Filled os b) :
    bcmp (ordKey os a) (ordKey os b) = tupleCompare (vals a os) (vals b os) := by
  have h := tk_order (vals_fits ha) (vals_fits hb) (by rw [vals_len, vals_len]) [] []
  rw [vals_len, List.drop_length, List.drop_eq_nil_of_le (by rw [vals_len])] at h
  simp only [tk, List.append_nil] at h
  unfold ordKey
  rw [h]
  cases tupleCompare (vals a os) (vals b os) <;> rfl

theorem ordLe_iff {os : List FieldInfo} {a b : Row} (ha : Filled os a) (hb : Filled os b) (asc : Bool) :
    OrdLe (os.map fun f => (f.id, asc)) a b ↔
      if asc then BLe (ordKey os a) (ordKey os b) else BLe (ordKey os b) (ordKey os a) := by
  have key : ∀ (os : List FieldInfo) (a b : Row), Filled os a → Filled os b →
      (OrdLe (os.map fun f => (f.id, true)) a b ↔ tupleCompare (vals a os) (vals b os) ≠ .gt) ∧
      (OrdLe (os.map fun f => (f.id, false)) b a ↔ tupleCompare (vals a os) (vals b os) ≠ .gt) := by
    intro os
    induction os with
    | nil => intro a b _ _; simp [OrdLe, vals, tupleCompare]
    | cons f os ih =>
      intro a b ha hb
      obtain ⟨x, hx, -⟩ := ha f (by simp)
      obtain ⟨y, hy, -⟩ := hb f (by simp)
      obtain ⟨i1, i2⟩ := ih a b (fun g hg => ha g (by simp [hg])) (fun g hg => hb g (by simp [hg]))
      simp only [List.map_cons, OrdLe, hx, hy, optCompare, if_true, Bool.false_eq_true, if_false, i1, i2, vals, tupleCompare,
        Option.getD_some]
      cases colCompare x y <;> simp [Ordering.then]
  cases asc
  · rw [if_neg (by simp), (key os b a hb ha).2]
    unfold BLe
    rw [ordKey_cmp hb ha]
  · rw [if_pos rfl, (key os a b ha hb).1]
    unfold BLe
    rw [ordKey_cmp ha hb]

theorem along_iff {os ids : List Nat} : along os ids = true ↔ os <+: ids := by
  induction os generalizing ids with
  | nil => simp [along]
  | cons o os ih => cases ids with
    | nil => simp [along]
    | cons f fs =>
      simp only [along, List.cons_prefix_cons]
      split
      · rename_i h; rw [ih]; exact ⟨fun h' => ⟨h.symm, h'⟩, fun h' => h'.2⟩
      · rename_i h; simp; exact fun h' => absurd h'.symm h

theorem checkSort_fields {n : Nat} {orders : List Nat} (h : checkSort ix n orders = true) :
    ∃ idx ≤ n, idx < (keyFields ix).length ∧
      orders = (((keyFields ix).drop idx).take orders.length).map (·.id) := by
  unfold checkSort at h
  cases orders with
  | nil => cases h
  | cons o os =>
    dsimp only at h
    split at h
    · rename_i hi
      rw [along_iff, List.prefix_iff_eq_take] at h
      refine ⟨_, hi.2, by simpa using hi.1, ?_⟩
      rw [List.map_take, List.map_drop]
      exact h
    · cases h

theorem avail_keyFields (ix : IndexInfo) : ∃ extra, keyFields ix = avail ix ++ extra := by
  unfold keyFields avail
  split
  · exact ⟨[], by simp⟩
  · exact ⟨_, rfl⟩

theorem tail_eqCount {m : FMap} {s1 s : St} {k1 k : KSt} {rest : List FieldInfo} (ht : Tail ix m s1 k1 rest s k) :
    s.eqCount = s1.eqCount := by
  have h1 : ∀ (ids : List Nat) (r : FR) (s : St), (rangeLeft ids r s).1.eqCount = s.eqCount := by
    intro ids r s
    unfold rangeLeft
    dsimp only
    repeat' split
    all_goals rfl
  have h2 : ∀ (ids : List Nat) (r : FR) (p : St × Nat), (rangeRight ids r p).eqCount = p.1.eqCount := by
    intro ids r p
    unfold rangeRight
    dsimp only
    repeat' split
    all_goals rfl
  cases ht with
  | stop => rfl
  | range f rest hn ht => unfold stepRange; rw [h2, h1]
  | like f rest hn ht hs => rfl

theorem tail_leftCnt {m : FMap} {s1 s : St} {k1 k : KSt} {rest : List FieldInfo} (ht : Tail ix m s1 k1 rest s k)
    (h : s1.fieldCnt = s1.leftCnt) : s1.leftCnt ≤ s.leftCnt := by
  have h2 : ∀ (ids : List Nat) (r : FR) (p : St × Nat), (rangeRight ids r p).leftCnt = p.1.leftCnt := by
    intro ids r p
    unfold rangeRight
    dsimp only
    repeat' split
    all_goals rfl
  cases ht with
  | stop => exact Nat.le_refl _
  | range f rest hn ht =>
    unfold stepRange
    rw [h2]
    unfold rangeLeft
    dsimp only
    repeat' split
    all_goals simp only []
    all_goals omega
  | like f rest hn ht hs => simp only [stepPrefix, take]; omega

/-- **C52.** If the planner takes an index for ORDER BY, then within a range the rows stand in that order in the index. -/
theorem C52_range_order (hcov : Covered cs ty ix conds) {cfg : Cfg} {p : Plan} (e : mkPlan cfg ix conds = .plan p)
    {orders : List (Nat × Bool)} {asc : Bool} (hsi : sortIndex ix p.st.eqCount orders = some asc) {r : Rng} (hr : r ∈ p.ranges) {a b : Row}
    (ha : RowOk cs ix a) (hb : RowOk cs ix b) (hfa : Filled (keyFields ix) a) (hfb : Filled (keyFields ix) b)
    (hra : Reaches p r (rowKey ix a)) (hrb : Reaches p r (rowKey ix b)) (hlt : BLt (rowKey ix a) (rowKey ix b)) :
    if asc then OrdLe orders a b else OrdLe orders b a := by
  rcases mkPlan_cases hcov cfg with ⟨_, h⟩ | ⟨m, cols, rest, s1, k1, s, k, hm, hav, hrel, ht, h⟩
  · rw [h] at e; cases e
  rw [h] at e
  cases e
  rw [finish_st] at hsi
  -- both keys begin with the same fixed columns
  have hpre : ∃ j, pkey (flag ix) cols j <+: rowKey ix a ∧ pkey (flag ix) cols j <+: rowKey ix b := by
    by_cases hz : s.leftCnt = 0 ∧ s.rightCnt = 0
    · have h0 : cols = [] := by
        have := tail_leftCnt ht (by rw [hrel.cnt, hrel.leftCnt])
        rw [hrel.leftCnt] at this
        exact List.eq_nil_of_length_eq_zero (by omega)
      refine ⟨0, ?_, ?_⟩
      all_goals
        rw [h0, pkey, rowKey_eq (by assumption)]
        simp only [flds, List.map_nil, tk, List.append_nil]
        exact List.prefix_append _ _
    · obtain ⟨G, hG⟩ := ranges_records hrel ht hz
      obtain ⟨j, _, hj⟩ := hG r hr
      exact ⟨j, hj _ hra, hj _ hrb⟩
  obtain ⟨j, hja, hjb⟩ := hpre
  have hcnt : s.eqCount = cols.length := by rw [tail_eqCount ht, hrel.eqCount]
  have hfits := fits_cols hrel.valid (fun c hc => (hrel.div c hc).2.1) j
  have hfix : ∀ row : Row, RowOk cs ix row → pkey (flag ix) cols j <+: rowKey ix row →
      tk (flds cols) (jvals cols j) = tk (flds cols) (vals row (flds cols)) := by
    intro row hrow hp
    have hv : FitsCols (flds cols) (vals row (flds cols)) :=
      vals_fits fun f hf => hrow.cols f (by rw [hav]; exact List.mem_append_left _ hf)
    rw [pkey, rowKey_eq hrow, List.prefix_append_right_inj, hav, vals_append,
      tk_append (by rw [vals_len])] at hp
    have h1 := (prefix_fixed hfits hv (jvals_len _ _) (vals_len _ _) [] _).1 (by simpa using hp)
    have h2 := tk_order hfits hv (by rw [vals_len, jvals_len]) [] []
    rw [h1.1, jvals_len, List.drop_length, List.drop_eq_nil_of_le (by rw [vals_len])] at h2
    simp only [tk, List.append_nil] at h2
    exact bcmp_eq_iff.1 (by rw [h2]; rfl)
  have hfill : ∀ row : Row, RowOk cs ix row → Filled (flds cols) row := fun row hrow f hf =>
    hrow.cols f (by rw [hav]; exact List.mem_append_left _ hf)
  have heq : tupleCompare (vals a (flds cols)) (vals b (flds cols)) = .eq := by
    rw [← ordKey_cmp (hfill a ha) (hfill b hb), bcmp_eq_iff]
    exact (hfix a ha hja).symm.trans (hfix b hb hjb)
  have hcmp : tupleCompare (vals a (avail ix)) (vals b (avail ix)) = .lt := by
    rw [← ordKey_cmp ha.cols hb.cols]
    rw [BLt, rowKey_eq ha, rowKey_eq hb, bcmp_append_left] at hlt
    exact hlt
  -- the ORDER BY columns
  have hsp : sortProperty orders = orders ∧ checkSort ix s.eqCount (orders.map (·.1)) = true ∧
      orders = (orders.map (·.1)).map (fun f => (f, asc)) := by
    unfold sortIndex at hsi
    dsimp only at hsi
    by_cases hc : checkSort ix s.eqCount ((sortProperty orders).map (·.1)) = true
    · rw [if_pos hc] at hsi
      have hall : sortProperty orders = orders ∧ ∀ o ∈ orders, o.2 = (orders.headD (0, true)).2 := by
        unfold sortProperty at hc ⊢
        split at hc
        · rename_i h0
          rw [if_pos h0]
          refine ⟨rfl, ?_⟩
          simpa using h0
        · simp [checkSort] at hc
      rw [hall.1] at hc hsi
      refine ⟨hall.1, hc, ?_⟩
      rw [List.map_map]
      conv_lhs => rw [← List.map_id orders]
      apply List.map_congr_left
      intro o ho
      have := hall.2 o ho
      rw [Option.some.inj hsi] at this
      simp [← this]
    · rw [if_neg hc] at hsi
      cases hsi
  obtain ⟨_, hck, hor⟩ := hsp
  obtain ⟨idx, hidx, hlen, hids⟩ := checkSort_fields hck
  rw [hcnt] at hidx
  obtain ⟨extra, hextra⟩ := avail_keyFields ix
  generalize hN : (orders.map (·.1)).length = N at hids
  have hshape : orders = (((keyFields ix).drop idx).take N).map fun f => (f.id, asc) := by
    rw [hor, hids, List.map_map]; rfl
  have hfo : ∀ row : Row, Filled (keyFields ix) row → Filled (((keyFields ix).drop idx).take N) row := fun row h f hf =>
    h f (List.mem_of_mem_drop (List.mem_of_mem_take hf))
  have hdrop : (keyFields ix).drop idx = (flds cols).drop idx ++ (rest ++ extra) := by
    rw [hextra, hav, List.append_assoc, List.drop_append_of_le_length (by simpa [flds] using hidx)]
  have hmain : tupleCompare (vals a (((keyFields ix).drop idx).take N)) (vals b (((keyFields ix).drop idx).take N)) ≠ .gt := by
    have h1 : tupleCompare (vals a ((keyFields ix).drop idx)) (vals b ((keyFields ix).drop idx)) = .lt := by
      have h2 : tupleCompare (vals a ((flds cols).drop idx)) (vals b ((flds cols).drop idx)) = .eq := by
        have := heq
        rw [← List.take_append_drop idx (flds cols), vals_append, vals_append,
          tupleCompare_append (by rw [vals_len, vals_len])] at this
        revert this
        cases tupleCompare (vals a ((flds cols).take idx)) (vals b ((flds cols).take idx)) <;> simp [Ordering.then]
      have h3 : tupleCompare (vals a rest) (vals b rest) = .lt := by
        have := hcmp
        rw [hav, vals_append, vals_append, tupleCompare_append (by rw [vals_len, vals_len]), heq] at this
        exact this
      rw [hdrop, vals_append, vals_append _ _ (rest ++ extra), tupleCompare_append (by rw [vals_len, vals_len]), h2,
        vals_append, vals_append, tupleCompare_append (by rw [vals_len, vals_len]), h3]
      rfl
    rw [← List.take_append_drop N ((keyFields ix).drop idx), vals_append, vals_append,
      tupleCompare_append (by rw [vals_len, vals_len])] at h1
    intro hgt
    rw [hgt] at h1
    cases h1
  cases asc
  · rw [if_neg (by simp), hshape, ordLe_iff (hfo b hfb) (hfo a hfa), if_neg (by simp)]
    unfold BLe
    rw [ordKey_cmp (hfo a hfa) (hfo b hfb)]
    exact hmain
  · rw [if_pos rfl, hshape, ordLe_iff (hfo a hfa) (hfo b hfb), if_pos rfl]
    unfold BLe
    rw [ordKey_cmp (hfo a hfa) (hfo b hfb)]
    exact hmain

end

end BaikalDB.Scan
