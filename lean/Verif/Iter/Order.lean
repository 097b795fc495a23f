import Verif.Iter.Select
import Verif.Scan.Order

/-!
# ORDER BY in one region
-/

namespace BaikalDB.Iter
open Route Scan Like Like.Spec KeyEnc.Spec IndexKey

/-- The rows of the ranges, each range read in the given direction; `dec` decodes an entry (C07, C41), `skip` and `keep` are
the entries passed over by the iterator and the conditions pushed into the scan. -/
def readRanges (pre : Bytes) (check : Bool) (reg : Reg) (t : Tpl) (ranges : List Rng) (skip : Bytes × Bytes → Bool)
    (dec : Bytes × Bytes → Row) (keep : Row → Bool) (db : Db) (fwd : Bool) : List (List Row) :=
  ranges.map fun r => ((scan pre check reg (scanRng t r) fwd skip db).map dec).filter keep

section
variable {cs : Charset} {ty : Nat → KeyEnc.PType} {ix : IndexInfo} {conds : List Cond}

theorem sortIndex_shape {n : Nat} {orders : List (Nat × Bool)} {asc : Bool} (h : sortIndex ix n orders = some asc) :
    ∃ os : List FieldInfo, (∀ f ∈ os, f ∈ keyFields ix) ∧ orders = os.map fun f => (f.id, asc) := by
  unfold sortIndex at h
  dsimp only at h
  by_cases hc : checkSort ix n ((sortProperty orders).map (·.1)) = true
  · rw [if_pos hc] at h
    have hall : sortProperty orders = orders ∧ ∀ o ∈ orders, o.2 = (orders.headD (0, true)).2 := by
      unfold sortProperty at hc ⊢
      split at hc
      · rename_i h0
        rw [if_pos h0]
        exact ⟨rfl, by simpa using h0⟩
      · simp [checkSort] at hc
    rw [hall.1] at hc h
    obtain ⟨idx, _, _, hids⟩ := checkSort_fields hc
    generalize (orders.map (·.1)).length = N at hids
    refine ⟨((keyFields ix).drop idx).take N,
      fun f hf => List.mem_of_mem_drop (List.mem_of_mem_take hf), ?_⟩
    have h1 : orders = (orders.map (·.1)).map fun f => (f, asc) := by
      rw [List.map_map]
      conv_lhs => rw [← List.map_id orders]
      apply List.map_congr_left
      intro o ho
      have := hall.2 o ho
      rw [Option.some.inj h] at this
      simp [← this]
    rw [h1, hids, List.map_map]
    rfl
  · rw [if_neg hc] at h
    cases h

/-- **C52.** What a region answers to ORDER BY, with the sort left out where the planner takes the order of the index and
ranges cut off at LIMIT: without LIMIT the matching rows in order; under LIMIT n the first n of its rows are the first n of
the matching rows put in order.  (As in C53, no stored key may go on with 24 bytes 0xFF behind the end of a range.) -/
theorem C52_region (hcov : Covered cs ty ix conds) {cfg : Cfg} {p : Plan} (e : mkPlan cfg ix conds = .plan p)
    {pre : Bytes} {check : Bool} {reg : Reg} {skip : Bytes × Bytes → Bool} {dec : Bytes × Bytes → Row} {keep : Row → Bool}
    {db : Db} (hs : Sorted db)
    (hdec : ∀ e ∈ db, ∀ x, e.1 = pre ++ x → x = rowKey ix (dec e) ∧ RowOk cs ix (dec e) ∧ Filled (keyFields ix) (dec e))
    {ranges : List Rng} (hranges : ∀ r ∈ ranges, r ∈ p.ranges)
    (hff : ∀ r ∈ ranges, ∀ kv ∈ db, ¬ (pre ++ (scanRng p.tpl r).right ++ ones 24) <+: kv.1)
    {orders : List (Nat × Bool)} {sort : List Row → List Row}
    (hsort : ∀ l, (∀ row ∈ l, ∃ e ∈ db, dec e = row) → (sort l).Perm l ∧ (sort l).Pairwise (OrdLe orders))
    (limit : Option Nat) (post : Option (Row → Bool)) :
    ∃ L : List Row, L.Perm ((ranges.flatMap fun r =>
          (scan pre check reg (scanRng p.tpl r) true skip db).map dec).filter fun row => keep row && post.elim true fun q => q row) ∧
      L.Pairwise (OrdLe orders) ∧
      match limit with
      | none => regionRows sort (sortIndex ix p.st.eqCount orders) limit post
          (readRanges pre check reg p.tpl ranges skip dec keep db) = L
      | some n => (regionRows sort (sortIndex ix p.st.eqCount orders) limit post
          (readRanges pre check reg p.tpl ranges skip dec keep db)).take n = L.take n := by
  classical
  have hcl := fun h => plan_eq_closed hcov e h
  let q : Rng → Bytes × Bytes → Bool := fun r kv => decide (Target pre check reg (scanRng p.tpl r) kv.1) && !skip kv
  have hq : ∀ r kv, q r kv = true ↔ Target pre check reg (scanRng p.tpl r) kv.1 ∧ skip kv = false := by
    intro r kv; simp [q]
  have hfw : ∀ r ∈ ranges, scan pre check reg (scanRng p.tpl r) true skip db = db.filter (q r) := fun r hr =>
    C53_forward hs (fun _ kv hkv _ => hff r hr kv hkv) (hq r)
  have hbw : ∀ r ∈ ranges, scan pre check reg (scanRng p.tpl r) false skip db = (db.filter (q r)).reverse := fun r hr =>
    C53_backward hs (fun _ kv hkv _ => hff r hr kv hkv) (hq r)
  let one : Rng → List Row := fun r => ((db.filter (q r)).map dec).filter keep
  have hrd : ∀ fwd, readRanges pre check reg p.tpl ranges skip dec keep db fwd =
      ranges.map fun r => if fwd then one r else (one r).reverse := by
    intro fwd
    unfold readRanges
    apply List.map_congr_left
    intro r hr
    cases fwd
    · rw [hbw r hr, List.map_reverse, List.filter_reverse]; rfl
    · rw [hfw r hr]; rfl
  have hperm : ∀ fwd, (readRanges pre check reg p.tpl ranges skip dec keep db fwd).flatten.Perm (ranges.flatMap one) := by
    intro fwd
    rw [hrd, ← List.flatMap_def]
    refine List.Perm.flatMap_left _ fun r _ => ?_
    cases fwd
    · exact List.reverse_perm _
    · exact List.Perm.refl _
  have hall : ((ranges.flatMap fun r => (scan pre check reg (scanRng p.tpl r) true skip db).map dec).filter
      fun row => keep row && post.elim true fun q => q row) = (ranges.flatMap one).filter fun row => post.elim true fun q => q row := by
    have h1 : (ranges.flatMap fun r => (scan pre check reg (scanRng p.tpl r) true skip db).map dec).filter keep =
        ranges.flatMap one := by
      rw [List.filter_flatMap]
      simp only [List.flatMap_def]
      congr 1
      apply List.map_congr_left
      intro r hr
      rw [hfw r hr]
    rw [← h1, List.filter_filter]
    apply List.filter_congr
    intro row _
    rw [Bool.and_comm]
  rw [hall]
  have hkeep : ∀ l : List Row, postFilter post l =
      l.filter fun row => post.elim true fun q => q row := by
    intro l
    cases post with
    | none => simp [postFilter]
    | some q => rfl
  have hmem : ∀ r ∈ ranges, ∀ row ∈ one r, ∃ kv ∈ db, dec kv = row ∧ RowOk cs ix row ∧ Filled (keyFields ix) row ∧
      kv.1 = pre ++ rowKey ix row ∧ Reaches p r (rowKey ix row) := by
    intro r hr row hrow
    obtain ⟨kv, hkv, rfl⟩ := List.mem_map.1 (List.mem_filter.1 hrow).1
    obtain ⟨hdb, hqq⟩ := List.mem_filter.1 hkv
    obtain ⟨⟨x, hx, _, hw⟩, _⟩ := (hq r kv).1 hqq
    obtain ⟨h1, h2, h3⟩ := hdec kv hdb x hx
    refine ⟨kv, hdb, rfl, h2, h3, by rw [← h1]; exact hx, ?_⟩
    rw [← h1]
    exact (wanted_iff p.tpl hcl r x).1 hw
  have hsorted : ∀ l : List Row, l.Perm ((ranges.flatMap one).filter fun row => post.elim true fun q => q row) →
      (sort l).Perm ((ranges.flatMap one).filter fun row => post.elim true fun q => q row) ∧ (sort l).Pairwise (OrdLe orders) := by
    intro l hl
    have h := hsort l (fun row hrow => by
      obtain ⟨r, hr, h1⟩ := List.mem_flatMap.1 (List.mem_filter.1 (hl.mem_iff.1 hrow)).1
      obtain ⟨kv, hkv, h2, _⟩ := hmem r hr row h1
      exact ⟨kv, hkv, h2⟩)
    exact ⟨h.1.trans hl, h.2⟩
  cases hsi : sortIndex ix p.st.eqCount orders with
  | none =>
    have h := hsorted _ ((hperm true).filter _)
    refine ⟨_, h.1, h.2, ?_⟩
    cases limit <;> simp only [regionRows, hkeep]
  | some asc =>
    obtain ⟨os, hos, horders⟩ := sortIndex_shape hsi
    have hpw : ∀ r ∈ ranges, (if asc then one r else (one r).reverse).Pairwise (OrdLe orders) := by
      intro r hr
      have h1 : (one r).Pairwise fun a b => if asc then OrdLe orders a b else OrdLe orders b a := by
        refine List.Pairwise.filter _ ?_
        rw [List.pairwise_map]
        refine List.Pairwise.imp_of_mem ?_ (List.Pairwise.filter (q r) hs)
        intro a b ha hb hlt
        have key : ∀ kv ∈ db.filter (q r), RowOk cs ix (dec kv) ∧ Filled (keyFields ix) (dec kv) ∧
            kv.1 = pre ++ rowKey ix (dec kv) ∧ Reaches p r (rowKey ix (dec kv)) := by
          intro kv hkv
          obtain ⟨hdb, hqq⟩ := List.mem_filter.1 hkv
          obtain ⟨⟨x, hx, _, hw⟩, _⟩ := (hq r kv).1 hqq
          obtain ⟨h1, h2, h3⟩ := hdec kv hdb x hx
          refine ⟨h2, h3, by rw [← h1]; exact hx, ?_⟩
          rw [← h1]
          exact (wanted_iff p.tpl hcl r x).1 hw
        obtain ⟨a1, a2, a3, a4⟩ := key a ha
        obtain ⟨b1, b2, b3, b4⟩ := key b hb
        rw [a3, b3] at hlt
        exact C52_range_order hcov e hsi (hranges r hr) a1 b1 a2 b2 a4 b4 (lt_pre.1 hlt)
      cases asc
      · simp only [Bool.false_eq_true, if_false] at h1 ⊢
        exact List.pairwise_reverse.2 h1
      · simpa using h1
    have hflat := hperm asc
    by_cases hlen : (readRanges pre check reg p.tpl ranges skip dec keep db asc).length > 1
    · cases post with
      | some q' =>
        have h := hsorted _ (hflat.filter _)
        refine ⟨_, h.1, h.2, ?_⟩
        cases limit <;> simp only [regionRows, hlen, if_true, hkeep] <;> rfl
      | none =>
        cases limit with
        | none =>
          have h := hsorted _ (hflat.filter _)
          refine ⟨_, h.1, h.2, ?_⟩
          simp only [regionRows, hlen, if_true, hkeep]
        | some n =>
          have hfill : ∀ row, (∃ r ∈ ranges, row ∈ one r) → Filled os row := by
            rintro row ⟨r, hr, hrow⟩ f hf
            obtain ⟨_, _, _, _, h3, _⟩ := hmem r hr row hrow
            exact h3 f (hos f hf)
          let R : Row → Row → Prop := fun a b => if asc then BLe (ordKey os a) (ordKey os b) else BLe (ordKey os b) (ordKey os a)
          have htot : ∀ a b, R a b ∨ R b a := by
            intro a b
            have : ∀ x y : Bytes, BLe x y ∨ BLe y x := fun x y => by
              by_cases h : BLe x y
              · exact .inl h
              · exact .inr (not_BLe.1 h).le
            cases asc <;> simp only [R, Bool.false_eq_true, if_false, if_true] <;> exact this _ _
          have htr : ∀ a b c, R a b → R b c → R a c := by
            intro a b c h1 h2
            cases asc <;> simp only [R, Bool.false_eq_true, if_false, if_true] at h1 h2 ⊢
            · exact h2.trans h1
            · exact h1.trans h2
          let ls := readRanges pre check reg p.tpl ranges skip dec keep db asc
          have hlsm : ∀ l ∈ ls, ∃ r ∈ ranges, l = if asc then one r else (one r).reverse := by
            intro l hl
            simp only [ls, hrd] at hl
            obtain ⟨r, hr, rfl⟩ := List.mem_map.1 hl
            exact ⟨r, hr, rfl⟩
          have hls1 : ∀ l ∈ ls, ∀ row ∈ l, ∃ r ∈ ranges, row ∈ one r := by
            intro l hl row hrow
            obtain ⟨r, hr, rfl⟩ := hlsm l hl
            refine ⟨r, hr, ?_⟩
            cases asc <;> simpa using hrow
          have hcutm : ∀ row ∈ (ls.map (List.take n)).flatten, ∃ r ∈ ranges, row ∈ one r := by
            intro row hrow
            obtain ⟨l', hl', hrow⟩ := List.mem_flatten.1 hrow
            obtain ⟨l, hl, rfl⟩ := List.mem_map.1 hl'
            exact hls1 l hl row (List.mem_of_mem_take hrow)
          have hS := hsort (ls.map (List.take n)).flatten (fun row hrow => by
            obtain ⟨r, hr, h1⟩ := hcutm row hrow
            obtain ⟨kv, hkv, h2, _⟩ := hmem r hr row h1
            exact ⟨kv, hkv, h2⟩)
          obtain ⟨L, l1, l2, l3⟩ := top_cut htot htr (ls := ls) (fun l hl => by
              obtain ⟨r, hr, rfl⟩ := hlsm l hl
              refine List.Pairwise.imp_of_mem ?_ (hpw r hr)
              intro a b ha hb h
              rw [horders, ordLe_iff (hfill a (hls1 _ hl a ha)) (hfill b (hls1 _ hl b hb))] at h
              exact h) n hS.1 (by
              refine List.Pairwise.imp_of_mem ?_ hS.2
              intro a b ha hb h
              rw [horders, ordLe_iff (hfill a (hcutm a (hS.1.mem_iff.1 ha))) (hfill b (hcutm b (hS.1.mem_iff.1 hb)))] at h
              exact h)
          refine ⟨L, ?_, ?_, ?_⟩
          · simpa using l1.trans hflat
          · refine List.Pairwise.imp_of_mem ?_ l2
            intro a b ha hb h
            have hm : ∀ row ∈ L, Filled os row := fun row hrow => by
              obtain ⟨l, hl, hr⟩ := List.mem_flatten.1 (l1.mem_iff.1 hrow)
              exact hfill row (hls1 l hl row hr)
            rw [horders, ordLe_iff (hm a ha) (hm b hb)]
            exact h
          · simp only [regionRows, hlen, if_true]
            exact l3.symm
    · have hone : (readRanges pre check reg p.tpl ranges skip dec keep db asc).flatten.Pairwise (OrdLe orders) := by
        rw [hrd] at hlen ⊢
        cases ranges with
        | nil => simp
        | cons r rs => cases rs with
          | nil => simpa using hpw r (by simp)
          | cons => simp at hlen
      refine ⟨_, hflat.filter _, List.Pairwise.filter _ hone, ?_⟩
      cases limit <;> simp only [regionRows, hlen, if_false, hkeep]

end

/-! ## Examples -/

/-- `WHERE a = 1 ORDER BY b DESC, c DESC` on KEY (a, b, c): backwards, no sort; with mixed directions, with a column left
out, or without `a = 1`, it is not the order of the index. -/
example : sortIndex exIx 1 [(2, false), (3, false)] = some false ∧ sortIndex exIx 1 [(2, false), (3, true)] = none ∧
    sortIndex exIx 1 [(2, true), (9, true)] = none ∧ sortIndex exIx 0 [(2, true)] = none ∧
    sortIndex exIx 1 [(1, true), (2, true)] = some true := by decide

/-- The columns fixed by the plan of the example: `a IN (..)`, so ORDER BY b can be had within each range. -/
example : ∃ p, mkPlan exCfg exIx exConds = .plan p ∧ p.st.eqCount = 1 ∧ sortIndex exIx p.st.eqCount [(2, true)] = some true :=
  ⟨_, rfl, by decide +kernel, by decide +kernel⟩

example : ¬ OrdLe [(2, false)] (exRow 0 1 [] 0) (exRow 0 2 [] 0) ∧ OrdLe [(2, false)] (exRow 0 2 [] 0) (exRow 0 1 [] 0) ∧
    BLt (rowKey exIx (exRow 0 1 [] 0)) (rowKey exIx (exRow 0 2 [] 0)) := by
  refine ⟨?_, ?_, by decide +kernel⟩ <;> simp [OrdLe, exRow, optCompare, colCompare] <;> decide

/-- Two ranges under LIMIT 2: two rows of each are enough; one range: no sort; with a filter above, ranges are read to
their ends. -/
example (sort : List Nat → List Nat) :
    regionRows sort (some true) (some 2) none (fun _ => [[3, 5, 9], [1, 2, 4]]) = sort [3, 5, 1, 2] ∧
    regionRows sort (some true) (some 2) (some (· > 3)) (fun _ => [[3, 5, 9]]) = [5, 9] ∧
    regionRows sort (some true) (some 2) (some (· > 3)) (fun _ => [[3, 5, 9], [1, 2, 4]]) = sort [5, 9, 4] := by
  refine ⟨?_, ?_, ?_⟩ <;> simp [regionRows, postFilter]

/-- Entries as the theorem wants them: a table of one region with two rows. -/
def exDec (e : Bytes × Bytes) : Row := if e.2 = [101] then exRow 0 0 [] 1 else exRow 0 0 [] 5
def exDb2 : Db := [([7] ++ exKey 1, [101]), ([7] ++ exKey 5, [105])]

example : Sorted exDb2 ∧ ∀ e ∈ exDb2, ∀ x, e.1 = [7] ++ x →
    x = rowKey exPk (exDec e) ∧ RowOk .utf8 exPk (exDec e) ∧ Filled (keyFields exPk) (exDec e) := by
  have hk : avail exPk = [⟨9, .int64, false⟩] ∧ keyFields exPk = [⟨9, .int64, false⟩] := by decide
  refine ⟨by unfold Sorted exDb2; decide, ?_⟩
  intro e he x hx
  have h : ∀ n : Int, RowOk .utf8 exPk (exRow 0 0 [] n) ∧ Filled (keyFields exPk) (exRow 0 0 [] n) := by
    intro n
    have hf : ∀ f : FieldInfo, f ∈ [(⟨9, .int64, false⟩ : FieldInfo)] → ∃ v, exRow 0 0 [] n f.id = some v ∧ Valid f.type v := by
      intro f hf
      rw [List.mem_singleton.1 hf]
      exact ⟨_, rfl, trivial⟩
    refine ⟨⟨by rw [hk.1]; exact hf, ?_⟩, by rw [Filled, hk.2]; exact hf⟩
    intro f t ht
    have : t = [] := by
      unfold exRow at ht
      split at ht
      · cases ht
      · split at ht
        · cases ht
        · split at ht
          · cases ht; rfl
          · split at ht <;> cases ht
    rw [this]
    exact ⟨[], rfl, by simp⟩
  simp only [exDb2, List.mem_cons, List.not_mem_nil, or_false] at he
  rcases he with rfl | rfl
  · refine ⟨?_, h _⟩
    rw [← List.append_cancel_left hx]
    decide +kernel
  · refine ⟨?_, h _⟩
    rw [← List.append_cancel_left hx]
    decide +kernel

end BaikalDB.Iter
