import Verif.SplitFilter.Model
import Verif.Ttl.Props
import Verif.KeyEnc.Props
import Verif.IndexKey.Props
/-!
# Properties of the split compaction filter (C08)
-/
namespace BaikalDB.SplitFilter
open KeyEnc IndexKey IndexKey.Spec Ttl

theorem length_fullKey (r i : BitVec 64) (s : Bytes) : (fullKey r i s).length = 16 + s.length := by
  simp [fullKey, appendI64]; omega

theorem drop_fullKey (r i : BitVec 64) (s : Bytes) : (fullKey r i s).drop 16 = s := by
  have : (appendI64 (appendI64 [] r) i).length = 16 := by simp [appendI64]
  rw [fullKey, ← this, List.drop_left]

theorem extract_region (r i : BitVec 64) (s : Bytes) : extractI64 (fullKey r i s) 0 = some r := by
  have := extractI64_append [] r (memLE 8 (toEndian64 (encodeI64 i)) ++ s)
  rw [fullKey, appendI64, List.append_assoc]
  exact this

theorem extract_index (r i : BitVec 64) (s : Bytes) : extractI64 (fullKey r i s) 8 = some i := by
  have := extractI64_append (appendI64 [] r) i s
  rwa [show (appendI64 [] r).length = 8 by simp [appendI64]] at this

theorem beNat_append (m n a b : Nat) (hb : b < 256 ^ n) : beNat (m + n) (a * 256 ^ n + b) = beNat m a ++ beNat n b := by
  induction m with
  | zero =>
    have h : ∀ n a b, beNat n (a * 256 ^ n + b) = beNat n b := by
      intro n
      induction n with
      | zero => intro a b; rfl
      | succ n ih =>
        intro a b
        rw [beNat, beNat]
        have e : a * 256 ^ (n + 1) + b = (a * 256) * 256 ^ n + b := by rw [Nat.pow_succ]; ac_rfl
        rw [e, ih]
        congr 1
        rw [Nat.mul_comm (a * 256), Nat.mul_add_div (Nat.pow_pos (by decide))]
        apply BitVec.eq_of_toNat_eq
        rw [BitVec.toNat_ofNat, BitVec.toNat_ofNat, show (2:Nat)^8 = 256 from rfl, Nat.mul_comm a, Nat.mul_add_mod]
    simpa [beNat] using h n a b
  | succ m ih =>
    rw [show m + 1 + n = (m + n) + 1 by omega, beNat, ih, beNat, List.cons_append]
    congr 2
    rw [Nat.add_comm m n, Nat.pow_add, ← Nat.div_div_eq_div_mul, Nat.mul_comm a,
      Nat.mul_add_div (Nat.pow_pos (by decide)), Nat.div_eq_of_lt hb, Nat.add_zero]

/-- The index-id slot of a column key, read as a 64-bit id. -/
def columnId (tableId fieldId : BitVec 32) : BitVec 64 := tableId ++ (fieldId ^^^ 0x80000000#32)

theorem appendI32_pair (k : Bytes) (a b : BitVec 32) : appendI32 (appendI32 k a) b = appendI64 k (columnId a b) := by
  rw [appendI32_eq, appendI32_eq, appendI64_eq, List.append_assoc]
  have e : encodeI64 (columnId a b) = encodeI32 a ++ encodeI32 b := by
    unfold encodeI64 columnId encodeI32
    have : (0x8000000000000000#64) = (0x80000000#32 ++ 0#32 : BitVec 64) := by decide
    rw [this]
    have h : ∀ (x y z w : BitVec 32), ((x ++ y : BitVec 64) ^^^ (z ++ w : BitVec 64)) = ((x ^^^ z) ++ (y ^^^ w) : BitVec 64) := by
      intro x y z w
      apply BitVec.eq_of_getLsbD_eq
      intro i hi
      simp only [BitVec.getLsbD_xor, BitVec.getLsbD_append]
      split <;> rfl
    rw [h]; simp
  have hlt : (encodeI32 b).toNat < 256 ^ 4 := (encodeI32 b).isLt
  rw [← beNat_append 4 4 _ _ hlt, e, BitVec.toNat_append, ← Nat.shiftLeft_add_eq_or_of_lt (encodeI32 b).isLt, Nat.shiftLeft_eq]

theorem columnKey_eq (region : BitVec 64) (t f : BitVec 32) (pk : Bytes) :
    columnKey region t f pk = some (fullKey region (columnId t f) pk) := by
  unfold columnKey
  have h1 : (appendI64 [] region).length = 8 := by simp [appendI64]
  have hm : ∀ y : BitVec 64, (memLE 8 y).length = 8 := by simp
  have hm4 : ∀ y : BitVec 32, (memLE 4 y).length = 4 := by simp
  generalize hA : appendI64 [] region = A at *
  simp only [replaceI32, replaceAt, appendI64, hm4]
  rw [if_pos (by simp only [List.length_append, h1, hm]; omega)]
  simp only [Option.bind_some]
  have e1 : List.take 8 (A ++ memLE 8 (toEndian64 (encodeI64 (t.signExtend 64))) ++ pk) = A := by
    rw [List.append_assoc, ← h1, List.take_left]
  rw [e1]
  generalize hB : memLE 8 (toEndian64 (encodeI64 (t.signExtend 64))) = B
  have hBl : B.length = 8 := by rw [← hB]; simp
  generalize hC : memLE 4 (toEndian32 (encodeI32 t)) = C
  have hCl : C.length = 4 := by rw [← hC]; simp
  have e2 : List.drop (8 + 4) (A ++ B ++ pk) = B.drop 4 ++ pk := by
    rw [List.append_assoc, List.drop_append, List.drop_eq_nil_of_le (by omega), List.nil_append, h1,
      show 8 + 4 - 8 = 4 from rfl, List.drop_append, hBl]; simp
  rw [e2, if_pos (by simp only [List.length_append, List.length_drop, h1, hBl, hCl]; omega)]
  have e3 : List.take 12 (A ++ C ++ (B.drop 4 ++ pk)) = A ++ C := by
    rw [show 12 = (A ++ C).length by simp [h1, hCl], List.take_left]
  have e4 : List.drop (12 + 4) (A ++ C ++ (B.drop 4 ++ pk)) = pk := by
    rw [← List.append_assoc]
    rw [show 12 + 4 = (A ++ C ++ B.drop 4).length by simp [h1, hCl, hBl], List.drop_left]
  rw [e3, e4, fullKey, hA, ← appendI32_pair, appendI32, appendI32, hC]

theorem realIndexId_column (t f : BitVec 32) (hf : 0 ≤ f.toInt) : realIndexId (columnId t f) = t.signExtend 64 := by
  have hmsb : f.msb = false := by
    rw [BitVec.msb_eq_false_iff_two_mul_lt]
    rw [BitVec.toInt_eq_toNat_cond] at hf
    have := f.isLt
    split at hf <;> omega
  have hb : (columnId t f &&& 0x80000000#64) ≠ 0#64 := by
    intro h
    have := congrArg (fun x : BitVec 64 => x.getLsbD 31) h
    simp only [columnId, BitVec.getLsbD_and, BitVec.getLsbD_append, BitVec.getLsbD_xor] at this
    have hm : f.getLsbD 31 = false := by rw [BitVec.msb_eq_getLsbD_last] at hmsb; exact hmsb
    rw [hm, if_pos (by decide)] at this
    exact absurd this (by decide)
  rw [realIndexId, if_pos hb]
  apply BitVec.eq_of_getLsbD_eq
  intro i hi
  rw [BitVec.getLsbD_sshiftRight, BitVec.getLsbD_signExtend, columnId]
  simp only [BitVec.getLsbD_append, BitVec.msb_append]
  by_cases h : i < 32
  · have h1 : decide (64 ≤ i) = false := by simp; omega
    have h2 : ¬ (32 + i < 32) := by omega
    have h3 : 32 + i < 64 := by omega
    simp [h1, h2, h3, h, hi]
  · have h3 : ¬ (32 + i < 64) := by omega
    simp [h3, h, hi]

/-- Ids of ordinary (row format) tables and indexes: bit 31 clear, e.g. any id below 2^31. -/
theorem realIndexId_row {i : BitVec 64} (h : i.toNat < 2 ^ 31) : realIndexId i = i := by
  have : i &&& 0x80000000#64 = 0#64 := by
    apply BitVec.eq_of_getLsbD_eq
    intro j hj
    rw [BitVec.getLsbD_and]
    by_cases hj31 : j = 31
    · subst hj31
      have : i.getLsbD 31 = false := by
        rw [BitVec.getLsbD]; exact Nat.testBit_lt_two_pow h
      rw [this]; rfl
    · have : (0x80000000#64).getLsbD j = false := by
        have : ∀ j : Fin 64, j.val ≠ 31 → (0x80000000#64).getLsbD j.val = false := by decide
        exact this ⟨j, hj⟩ hj31
      rw [this]; simp
  rw [realIndexId, if_neg (by simp [this])]

/-- The part of the filter after the lookups. -/
theorem filter_eq {regions : Regions} {indexes : Indexes} {level : Int} (hl : 5 ≤ level) {region id : BitVec 64}
    {fi : FilterRegionInfo} (hr : regions region = some fi) (he : fi.endKey ≠ []) {si : SplitIndex}
    (hi : indexes (realIndexId id) = some si) (k value : Bytes) :
    filter regions indexes level (fullKey region id k) value =
      if si.info.type = .primary ∨ si.info.isGlobal = true then some (bcmp fi.endKey k != .gt)
      else if si.info.type = .uniq ∨ si.info.type = .key then
        match indexes si.pk with
        | none => some false
        | some pki =>
          if fi.useTtl = true then
            match ttlDecode value si.info.type 0 fi.base with
            | .ok _ v => (fitsRegionRange k v none (some fi.endKey) pki.info si.info).map (!·)
            | _ => none
          else (fitsRegionRange k value none (some fi.endKey) pki.info si.info).map (!·)
      else some false := by
  unfold filter
  rw [if_neg (by omega), if_neg (by rw [length_fullKey]; omega)]
  simp only [extract_region, extract_index, hr, hi, drop_fullKey]
  rw [if_neg (by simpa [List.isEmpty_iff] using he)]
  rfl

theorem bne_gt_decide (a b : Bytes) : (bcmp a b != .gt) = decide (BLe a b) := by
  rw [Bool.eq_iff_iff, bne_iff_ne, decide_eq_true_iff]; rfl

/-- Rows of a primary key or global index: removed iff the key is at or beyond the end key. -/
theorem C08_primary_or_global {regions : Regions} {indexes : Indexes} {level : Int} (hl : 5 ≤ level) {region id : BitVec 64}
    (hid : id.toNat < 2 ^ 31) {fi : FilterRegionInfo} (hr : regions region = some fi) (he : fi.endKey ≠ [])
    {si : SplitIndex} (hi : indexes id = some si) (hty : si.info.type = .primary ∨ si.info.isGlobal = true)
    (k value : Bytes) :
    filter regions indexes level (fullKey region id k) value = some (decide (BLe fi.endKey k)) := by
  rw [filter_eq hl hr he (by rw [realIndexId_row hid]; exact hi), if_pos hty]
  congr 1
  exact bne_gt_decide _ _

/-- Columns of a columnar table: removed iff the row's primary key is at or beyond the end key. -/
theorem C08_column {regions : Regions} {indexes : Indexes} {level : Int} (hl : 5 ≤ level) {region : BitVec 64}
    {t f : BitVec 32} (hf : 0 ≤ f.toInt) {fi : FilterRegionInfo} (hr : regions region = some fi) (he : fi.endKey ≠ [])
    {si : SplitIndex} (hi : indexes (t.signExtend 64) = some si) (hty : si.info.type = .primary) (pk value : Bytes) :
    ∃ key, columnKey region t f pk = some key ∧
      filter regions indexes level key value = some (decide (BLe fi.endKey pk)) := by
  refine ⟨_, columnKey_eq region t f pk, ?_⟩
  rw [filter_eq hl hr he (by rw [realIndexId_column t f hf]; exact hi), if_pos (.inl hty)]
  congr 1
  exact bne_gt_decide _ _

/-- Local secondary index entries as written by the write path: removed iff the row's primary key is at or beyond the
end key.  The filter must have been told the TTL setting under which the entry was written. -/
theorem C08_secondary {regions : Regions} {indexes : Indexes} {level : Int} (hl : 5 ≤ level) {region id pkId : BitVec 64}
    (hid : id.toNat < 2 ^ 31) {fi : FilterRegionInfo} (hr : regions region = some fi) (he : fi.endKey ≠ [])
    {ty : IndexType} (hty : ty = .key ∨ ty = .uniq) {fields pk : List FieldInfo} {row : Row} (S : Setup fields pk row)
    (hi : indexes id = some ⟨buildIndex ty false fields pk, pkId⟩) {x : BitVec 64}
    (hp : indexes pkId = some ⟨buildIndex .primary false pk pk, x⟩) {ts : BitVec 64}
    (hts : fi.useTtl = true → 0 < ts.toInt ∧ (fi.base = 0#64 ∨ validTimestampUs ts = true)) :
    ∃ k v pkBytes, secondaryEntry (buildIndex ty false fields pk) row = .ok (k, v) ∧
      encodeKey (buildIndex .primary false pk pk) row [] none false = .ok (pkBytes, true) ∧
      filter regions indexes level (fullKey region id k) (putValue fi.useTtl ts v) =
        some (decide (BLe fi.endKey pkBytes)) := by
  obtain ⟨k, v, p, e1, e2, e3⟩ := C07_entry_follows_row hty S none (some fi.endKey)
  refine ⟨k, v, p, e1, e2, ?_⟩
  have h1 : ¬ (ty = .primary ∨ false = true) := by rcases hty with rfl | rfl <;> simp
  have h2 : ty = .uniq ∨ ty = .key := hty.symm
  rw [filter_eq hl hr he (by rw [realIndexId_row hid]; exact hi)]
  simp only [buildIndex_type, buildIndex_isGlobal, if_neg h1, if_pos h2, hp]
  have hfin : (!decide (InRange p none (some fi.endKey))) = decide (BLe fi.endKey p) := by
    have : InRange p none (some fi.endKey) ↔ BLt p fi.endKey := by simp [InRange, he]
    rw [← decide_not]
    apply decide_eq_decide.2
    rw [this, not_BLt]
  cases hu : fi.useTtl with
  | false => simp only [putValue, Bool.false_eq_true, false_and, if_false, e3, Option.map_some, hfin]
  | true =>
    obtain ⟨hpos, hb⟩ := hts hu
    have hd : ttlDecode (putValue true ts v) ty 0 fi.base = .ok ts v := by
      by_cases hb0 : fi.base = 0#64
      · rw [hb0]; exact C39_roundtrip ts hpos v ty 0
      · have hv := hb.resolve_left hb0
        rcases hty with rfl | rfl
        · have hv0 : v = [] := by
            unfold secondaryEntry at e1
            split at e1
            · cases e1
            · simp only [buildIndex_type, if_true] at e1
              split at e1
              · cases e1
              · injection e1 with e1; injection e1 with _ e; exact e.symm
          rw [hv0]
          exact (C39_online_new_secondary ts fi.base hv hb0 0).1
        · exact (C39_online_new_secondary ts fi.base hv hb0 0).2 v
    simp only [if_true, hd, e3, Option.map_some, hfin]

/-- Nothing else is ever removed: upper levels, foreign keys, unknown or unbounded regions, unknown indexes. -/
theorem C08_keeps_everything_else (regions : Regions) (indexes : Indexes) (level : Int) (region id : BitVec 64) (k value : Bytes)
    (h : level < 5 ∨ regions region = none ∨ (∃ fi, regions region = some fi ∧ fi.endKey = []) ∨
      indexes (realIndexId id) = none) :
    filter regions indexes level (fullKey region id k) value = some false := by
  unfold filter
  by_cases hl : level < 5
  · rw [if_pos hl]
  rw [if_neg hl, if_neg (by rw [length_fullKey]; omega)]
  simp only [extract_region, extract_index]
  rcases h with h | h | ⟨fi, h, he⟩ | h
  · exact absurd h hl
  · rw [h]
  · rw [h]; simp [he]
  · cases hr : regions region with
    | none => rfl
    | some fi =>
      simp only
      split
      · rfl
      · rw [h]

theorem C08_keeps_short_keys (regions : Regions) (indexes : Indexes) (level : Int) (key value : Bytes) (h : key.length < 16) :
    filter regions indexes level key value = some false := by
  unfold filter
  split
  · rfl
  · rfl

/-- The filter learns a new end key, and keeps what it knows of other regions. -/
theorem C08_set_region (regions : Regions) (region r : BitVec 64) (endKey : Bytes) (useTtl : Bool) (base : BitVec 64) :
    (r ≠ region → setFilterRegionInfo regions region endKey useTtl base r = regions r) ∧
    (∃ fi, setFilterRegionInfo regions region endKey useTtl base region = some fi ∧ fi.endKey = endKey ∧
      ((∀ old, regions region = some old → old.endKey ≠ endKey) → fi = ⟨useTtl, endKey, base⟩)) := by
  unfold setFilterRegionInfo
  cases h : regions region with
  | none => exact ⟨fun hne => by simp [hne], _, by simp, rfl, fun _ => rfl⟩
  | some old =>
    simp only
    by_cases he : old.endKey = endKey
    · rw [if_pos he]
      exact ⟨fun _ => rfl, old, h, he, fun hh => absurd he (hh old rfl)⟩
    · rw [if_neg he]
      exact ⟨fun hne => by simp [hne], _, by simp, rfl, fun _ => rfl⟩

/-! The TTL setting is not refreshed while the end key stays the same (split_compaction_filter.h:115-118), although
`Region::update_ttl_info` (region.cpp:8501-8581) switches the write path.  Below: primary key INT, unique index on another
INT column, region end key 100.  TTL is switched on (base expiry 2027), then the row with primary key 5 is written: it
belongs to the region, yet the filter removes its unique index entry. -/
private def cxPk : List FieldInfo := [⟨1, .int32, false⟩]
private def cxFields : List FieldInfo := [⟨2, .int32, false⟩]
private def cxRow : Row := fun i => if i = 1 then some (.i32 5#32) else if i = 2 then some (.i32 9#32) else none
private def cxIndexes : Indexes := fun i =>
  if i = 1#64 then some ⟨buildIndex .primary false cxPk cxPk, 1#64⟩
  else if i = 2#64 then some ⟨buildIndex .uniq false cxFields cxPk, 1#64⟩ else none
private def cxEnd : Bytes := appendI32 [] 100#32
private def cxRegions : Regions :=
  setFilterRegionInfo (setFilterRegionInfo (fun _ => none) 7#64 cxEnd false 0#64) 7#64 cxEnd true 1800000000000000#64

theorem C08_stale_ttl_counterexample :
    ∃ k v pkBytes, secondaryEntry (buildIndex .uniq false cxFields cxPk) cxRow = .ok (k, v) ∧
      encodeKey (buildIndex .primary false cxPk cxPk) cxRow [] none false = .ok (pkBytes, true) ∧
      BLt pkBytes cxEnd ∧
      filter cxRegions cxIndexes 6 (fullKey 7#64 2#64 k) (putValue true 1810000000000000#64 v) = some true := by
  refine ⟨_, _, _, rfl, rfl, ?_, ?_⟩
  · unfold BLt; decide
  · decide

/-- Had the filter been told, it would have kept the entry. -/
example : filter (setFilterRegionInfo (fun _ => none) 7#64 cxEnd true 1800000000000000#64) cxIndexes 6
    (fullKey 7#64 2#64 (0#8 :: appendI32 [] 9#32)) (putValue true 1810000000000000#64 (appendI32 [] 5#32)) = some false := by
  decide
/-- Non-vacuity of `C08_secondary`. -/
example : Setup cxFields cxPk cxRow := by
  refine ⟨?_, ?_, ?_, ?_, ?_, ?_⟩
  all_goals
    simp only [cxFields, cxPk, List.mem_cons, List.not_mem_nil, or_false, forall_eq]
  · refine ⟨by simp, fun v hv => ?_⟩; simp [cxRow] at hv; subst hv; simp [KeyEnc.Spec.Valid, KeyEnc.Spec.NotNegZero]
  · refine ⟨by simp, fun v hv => ?_⟩; simp [cxRow] at hv; subst hv; simp [KeyEnc.Spec.Valid, KeyEnc.Spec.NotNegZero]
  · simp [cxRow]
  · simp
  · simp

end BaikalDB.SplitFilter
