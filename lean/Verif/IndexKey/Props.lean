import Verif.IndexKey.RangeLemmas
/-!
# Properties of index keys (C05, C07)
-/
namespace BaikalDB.IndexKey
open KeyEnc KeyEnc.Spec Spec

/-! ## C05 index keys decode to the row columns they were built from -/

/-- Unique and ordinary secondary indexes: whatever precedes (`p`) and follows (`s`), decoding returns the indexed
columns, leaves out exactly the NULL ones, and stops exactly at the end of what was written. -/
theorem C05_secondary_roundtrip {ty : IndexType} (hty : ty = .key ∨ ty = .uniq) (g : Bool)
    {fields pk : List FieldInfo} {row : Row} (hok : ∀ f ∈ fields, ColOK row f)
    (h8 : (∃ f ∈ fields, f.canNull = true) → fields.length ≤ 8) (p : Bytes) :
    ∃ k, encodeKey (buildIndex ty g fields pk) row p none false = .ok (k, ty == .uniq) ∧
      ∀ s, decodeKey (buildIndex ty g fields pk) (k ++ s) p.length = .ok (project row fields) k.length := by
  refine ⟨_, encodeKey_secondary hty g hok h8 p, fun s => ?_⟩
  have h1 : ¬ ty = .none := by rcases hty with rfl | rfl <;> simp
  have h3 : ty = .key ∨ ty = .uniq ∨ ty = .rollup := by rcases hty with h | h <;> simp [h]
  have hx := extractU8_cons p (nullMask row 0 fields 0#8) (fields.flatMap (colBytes row) ++ s)
  rw [← List.append_assoc] at hx
  simp only [decodeKey, buildIndex_type, buildIndex_fields, if_neg h1, if_pos h3, hx]
  have := decodeKeyLoop_roundtrip fields 0 (p ++ [nullMask row 0 fields 0#8]) s [] hok (flagOK_mask hok h8)
  simpa using this

/-- Primary keys. -/
theorem C05_primary_roundtrip (g : Bool) {fields pk : List FieldInfo} {row : Row} (hok : ∀ f ∈ fields, ColOK row f)
    (hp : ∀ f ∈ fields, (row f.id).isSome) (h8 : (∃ f ∈ fields, f.canNull = true) → fields.length ≤ 8) (p : Bytes) :
    ∃ k, encodeKey (buildIndex .primary g fields pk) row p none false = .ok (k, true) ∧
      ∀ s, decodeKey (buildIndex .primary g fields pk) (k ++ s) p.length = .ok (project row fields) k.length := by
  refine ⟨_, encodeKey_primary hok hp h8 p, fun s => ?_⟩
  simp only [decodeKey, buildIndex_type, buildIndex_fields]
  have := decodeKeyLoop_roundtrip fields 0 p s [] hok (flagOK_present hp 0)
  simpa using this

/-- What the decoded column list says: looking a column up gives its stored value, and NULL columns are absent. -/
theorem C05_project_lookup {row : Row} {fields : List FieldInfo} (hn : (fields.map (·.id)).Nodup) {f : FieldInfo}
    (hf : f ∈ fields) : (project row fields).lookup f.id = stored row f := by
  induction fields with
  | nil => simp at hf
  | cons g gs ih =>
    simp only [List.map_cons, List.nodup_cons, List.mem_map, not_exists, not_and] at hn
    have hnone : ∀ (gs : List FieldInfo), (∀ x ∈ gs, ¬ x.id = f.id) → (project row gs).lookup f.id = none := by
      intro gs h
      rw [List.lookup_eq_none_iff]
      rintro ⟨a, b⟩ hab
      simp only [project, List.mem_filterMap, Option.map_eq_some_iff, Prod.mk.injEq] at hab
      obtain ⟨x, hx, v, _, e, _⟩ := hab
      have := h x hx
      rw [← e]
      cases hb : (f.id == x.id) with
      | false => simp [bne, hb]
      | true => exact absurd (eq_of_beq hb).symm this
    rcases List.mem_cons.1 hf with rfl | hf'
    · cases hs : stored row f with
      | none =>
        have : project row (f :: gs) = project row gs := by simp [project, hs]
        rw [this, hnone gs hn.1]
      | some v =>
        have : project row (f :: gs) = (f.id, v) :: project row gs := by simp [project, hs]
        rw [this]; simp
    · have hne : f.id ≠ g.id := hn.1 f hf'
      cases hs : stored row g with
      | none =>
        have : project row (g :: gs) = project row gs := by simp [project, hs]
        rw [this, ih hn.2 hf']
      | some v =>
        have : project row (g :: gs) = (g.id, v) :: project row gs := by simp [project, hs]
        have hb : (f.id == g.id) = false := by simp [hne]
        rw [this, List.lookup_cons, hb]
        exact ih hn.2 hf'

/-- A scan that needs only some columns gets exactly those, for every choice of needed columns: skipping a column
moves the read position exactly as decoding it would. -/
theorem C05_needed_columns_roundtrip {ty : IndexType} (hty : ty = .key ∨ ty = .uniq) (g : Bool)
    {fields pk : List FieldInfo} {row : Row} (hok : ∀ f ∈ fields, ColOK row f)
    (h8 : (∃ f ∈ fields, f.canNull = true) → fields.length ≤ 8) (needed : Nat → Bool) (p : Bytes) :
    ∃ k, encodeKey (buildIndex ty g fields pk) row p none false = .ok (k, ty == .uniq) ∧
      ∀ s, memRowDecodeKey needed (buildIndex ty g fields pk) (k ++ s) p.length =
        .ok ((project row fields).filter fun c => needed c.1) k.length := by
  refine ⟨_, encodeKey_secondary hty g hok h8 p, fun s => ?_⟩
  have h1 : ¬ ty = .none := by rcases hty with rfl | rfl <;> simp
  have h3 : ty = .key ∨ ty = .uniq ∨ ty = .rollup := by rcases hty with h | h <;> simp [h]
  have hx := extractU8_cons p (nullMask row 0 fields 0#8) (fields.flatMap (colBytes row) ++ s)
  rw [← List.append_assoc] at hx
  simp only [memRowDecodeKey, buildIndex_type, buildIndex_fields, if_neg h1, if_pos h3, hx]
  have := memRowLoop_roundtrip needed fields 0 (p ++ [nullMask row 0 fields 0#8]) s [] hok (flagOK_mask hok h8)
  simpa using this

theorem C05_needed_columns_primary (g : Bool) {fields pk : List FieldInfo} {row : Row}
    (hok : ∀ f ∈ fields, ColOK row f) (hp : ∀ f ∈ fields, (row f.id).isSome)
    (h8 : (∃ f ∈ fields, f.canNull = true) → fields.length ≤ 8) (needed : Nat → Bool) (p : Bytes) :
    ∃ k, encodeKey (buildIndex .primary g fields pk) row p none false = .ok (k, true) ∧
      ∀ s, memRowDecodeKey needed (buildIndex .primary g fields pk) (k ++ s) p.length =
        .ok ((project row fields).filter fun c => needed c.1) k.length := by
  refine ⟨_, encodeKey_primary hok hp h8 p, fun s => ?_⟩
  simp only [memRowDecodeKey, buildIndex_type, buildIndex_fields]
  have := memRowLoop_roundtrip needed fields 0 p s [] hok (flagOK_present hp 0)
  simpa using this

/-- The primary key part of an ordinary index entry decodes to the primary key columns that are not already in the
index, starting where the index columns ended. -/
theorem C05_entry_pk_roundtrip {ty : IndexType} (hty : ty = .key ∨ ty = .uniq) (g : Bool)
    {fields pk : List FieldInfo} {row : Row} (S : Setup fields pk row) (k : Bytes) :
    ∃ k', encodePrimaryKey (buildIndex ty g fields pk) row k = .ok k' ∧
      ∀ s, decodePrimaryKey (buildIndex ty g fields pk) (k' ++ s) k.length =
        .ok (project row (buildIndex ty g fields pk).pkFields) k'.length := by
  have hsub : ∀ f ∈ (buildIndex ty g fields pk).pkFields, f ∈ pk := by
    rw [buildIndex_eq ty g fields pk hty]
    intro f hf
    simp only at hf
    split at hf
    · exact (List.mem_filter.1 hf).1
    · exact hf
  have h1 : ¬ (ty ≠ .key ∧ ty ≠ .uniq) := by rcases hty with rfl | rfl <;> simp
  refine ⟨k ++ (buildIndex ty g fields pk).pkFields.flatMap (colBytes row), ?_, fun s => ?_⟩
  · simp only [encodePrimaryKey, buildIndex_type, if_neg h1]
    exact encodePkLoop_eq _ _ (fun f hf => S.pkOK f (hsub f hf)) (fun f hf => S.pkPresent f (hsub f hf))
  · simp only [decodePrimaryKey, buildIndex_type, if_neg h1]
    have hm : (buildIndex ty g fields pk).pkFields.map (fun f => { f with canNull := false }) =
        (buildIndex ty g fields pk).pkFields := by
      refine (List.map_congr_left (g := id) ?_).trans (List.map_id _)
      intro f hf
      have := S.pkNotNull f (hsub f hf)
      cases f; simp_all
    rw [hm]
    have := decodeKeyLoop_roundtrip (buildIndex ty g fields pk).pkFields 0 k s [] (nf := 0#8)
      (fun f hf => S.pkOK f (hsub f hf)) (flagOK_present (fun f hf => S.pkPresent f (hsub f hf)) 0)
    simpa using this

/-- Rows that cannot be keyed are refused: a missing primary key column, or more than eight columns in an index with
nullable ones. -/
theorem C05_missing_pk_refused (g : Bool) (pre post pk : List FieldInfo) (f : FieldInfo) {row : Row}
    (hok : ∀ x ∈ pre, ColOK row x) (hp : ∀ x ∈ pre, (row x.id).isSome) (hf : row f.id = none)
    (hn : ∀ x ∈ pre ++ f :: post, x.canNull = false) (p : Bytes) :
    encodeKey (buildIndex .primary g (pre ++ f :: post) pk) row p none false = .error (-2) := by
  unfold encodeKey
  have hany : (pre ++ f :: post).any (·.canNull) = false := by
    rw [List.any_eq_false]; intro x hx; simp [hn x hx]
  simp only [buildIndex_type, buildIndex_fields, buildIndex_hasNullable, Option.getD_none, hany]
  rw [if_neg (by simp), if_neg (by simp), List.take_length]
  have key : ∀ (pre : List FieldInfo) (idx : Nat) (k : Bytes) (nf : BitVec 8) (cc : Nat),
      (∀ x ∈ pre, ColOK row x) → (∀ x ∈ pre, (row x.id).isSome) →
      encodeKeyLoop .primary row false cc idx (pre ++ f :: post) k nf = .error (-2) := by
    intro pre
    induction pre with
    | nil => intro idx k nf cc _ _; simp [encodeKeyLoop, hf]
    | cons x xs ih =>
      intro idx k nf cc h1 h2
      obtain ⟨v, hv⟩ := Option.isSome_iff_exists.1 (h2 x (by simp))
      simp only [List.cons_append, encodeKeyLoop, Bool.false_and, hv]
      rw [encodeField_colBytes (h1 x (by simp)) (stored_of_some hv)]
      simp [ih _ _ _ _ (fun y hy => h1 y (by simp [hy])) (fun y hy => h2 y (by simp [hy]))]
  rw [key pre 0 _ _ _ hok hp]

theorem C05_too_many_nullable_refused (ty : IndexType) (g : Bool) (fields pk : List FieldInfo) (row : Row) (p : Bytes)
    (lp : Bool) (h : ∃ f ∈ fields, f.canNull = true) (h8 : 8 < fields.length) :
    encodeKey (buildIndex ty g fields pk) row p none lp = .error (-1) := by
  unfold encodeKey
  simp only [buildIndex_type, buildIndex_fields, buildIndex_hasNullable, Option.getD_none]
  split
  · rfl
  · rw [if_pos (.inr ⟨by rw [List.any_eq_true]; exact h, h8⟩)]

/-- table_record.cpp:210 writes the null flags back only for ordinary and unique indexes.  A rollup index with a NULL
column therefore decodes to something else: here (NULL, 7) comes back as an error. -/
theorem C05_rollup_counterexample :
    ∃ k, encodeKey (buildIndex .rollup false [⟨1, .int32, true⟩, ⟨2, .int32, true⟩] [])
        (fun i => if i = 2 then some (.i32 7#32) else none) [] none false = .ok (k, false) ∧
      decodeKey (buildIndex .rollup false [⟨1, .int32, true⟩, ⟨2, .int32, true⟩] []) k 0 = .err := by
  refine ⟨_, rfl, ?_⟩
  decide

/-- ... and (NULL, 1) and (1, NULL) get the same rollup key, so their aggregates are merged. -/
theorem C05_rollup_collision_counterexample :
    encodeKey (buildIndex .rollup false [⟨1, .int32, true⟩, ⟨2, .int32, true⟩] [])
      (fun i => if i = 2 then some (.i32 1#32) else none) [] none false =
    encodeKey (buildIndex .rollup false [⟨1, .int32, true⟩, ⟨2, .int32, true⟩] [])
      (fun i => if i = 1 then some (.i32 1#32) else none) [] none false := by
  rfl

/-- A three-column index (string, nullable int, bool) and a row with the int NULL meet the hypotheses. -/
private def exFields : List FieldInfo := [⟨1, .string, false⟩, ⟨2, .int32, true⟩, ⟨3, .bool, false⟩]
private def exRow : Row := fun i => if i = 1 then some (.str [65#8]) else if i = 3 then some (.bool true)
  else if i = 9 then some (.i64 5#64) else none
example : (∀ f ∈ exFields, ColOK exRow f) ∧ ((∃ f ∈ exFields, f.canNull = true) → exFields.length ≤ 8) ∧
    project exRow exFields = [(1, .str [65#8]), (3, .bool true)] := by
  refine ⟨?_, ?_, by decide⟩
  · intro f hf
    simp only [exFields, List.mem_cons, List.not_mem_nil, or_false] at hf
    rcases hf with rfl | rfl | rfl <;> refine ⟨by simp, fun v hv => ?_⟩ <;> simp [exRow] at hv <;> subst hv <;>
      simp [Valid, NotNegZero]
  · intro _; simp [exFields]

/-! ## C07 a secondary index entry belongs to the region that owns its row -/

theorem inRange_iff (k : Bytes) (start end_ : Option Bytes) : inRange k start end_ = true ↔ InRange k start end_ := by
  unfold inRange InRange
  simp only [Bool.and_eq_true]
  apply and_congr
  · cases start with
    | none => simp
    | some s =>
      simp only [Option.some.injEq, forall_eq', bne_iff_ne, ne_eq]
      rw [← not_BLt]; rfl
  · cases end_ with
    | none => simp
    | some e => simp [BLt, List.isEmpty_iff]

theorem inRange_decide (k : Bytes) (start end_ : Option Bytes) : inRange k start end_ = decide (InRange k start end_) := by
  have := inRange_iff k start end_
  cases h : inRange k start end_ <;> rw [h] at this <;> simp at this <;> simp [this]

theorem inRange_none (k : Bytes) : inRange k none none = true := by simp [inRange]

/-- The check on a local secondary index entry decides exactly whether the row's primary key lies in the range. -/
theorem C07_entry_follows_row {ty : IndexType} (hty : ty = .key ∨ ty = .uniq) {fields pk : List FieldInfo} {row : Row}
    (S : Setup fields pk row) (start end_ : Option Bytes) :
    ∃ k v pkBytes, secondaryEntry (buildIndex ty false fields pk) row = .ok (k, v) ∧
      encodeKey (buildIndex .primary false pk pk) row [] none false = .ok (pkBytes, true) ∧
      fitsRegionRange k v start end_ (buildIndex .primary false pk pk) (buildIndex ty false fields pk) =
        some (decide (InRange pkBytes start end_)) := by
  have hkey := encodeKey_secondary hty false (pk := pk) S.fieldsOK S.nullable8 []
  have hpkey := encodeKey_primary (pk := pk) (g := false) S.pkOK S.pkPresent
    (fun ⟨f, hf, hc⟩ => by rw [S.pkNotNull f hf] at hc; cases hc) []
  obtain ⟨hlen, hno, hov⟩ := layout_facts hty S
  have hsub : ∀ f ∈ (buildIndex ty false fields pk).pkFields, f ∈ pk := by
    rw [buildIndex_eq ty false fields pk hty]
    intro f hf
    simp only at hf
    split at hf
    · exact (List.mem_filter.1 hf).1
    · exact hf
  have hpk : ∀ k, encodePrimaryKey (buildIndex ty false fields pk) row k =
      .ok (k ++ (buildIndex ty false fields pk).pkFields.flatMap (colBytes row)) := by
    intro k
    have h1 : ¬ (ty ≠ .key ∧ ty ≠ .uniq) := by rcases hty with rfl | rfl <;> simp
    simp only [encodePrimaryKey, buildIndex_type, if_neg h1]
    exact encodePkLoop_eq _ _ (fun f hf => S.pkOK f (hsub f hf)) (fun f hf => S.pkPresent f (hsub f hf))
  simp only [List.nil_append] at hkey hpkey
  simp only [← inRange_decide]
  by_cases hnone : start.isNone = true ∧ end_.isNone = true
  · obtain ⟨h1, h2⟩ := hnone
    rw [Option.isNone_iff_eq_none] at h1 h2
    subst h1; subst h2
    rcases hty with rfl | rfl <;>
    exact ⟨_, _, _, by simp only [secondaryEntry, hkey, buildIndex_type, hpk]; rfl, hpkey,
      by simp [fitsRegionRange, inRange_none]⟩
  rcases hty with rfl | rfl
  · -- ordinary index
    refine ⟨_, _, _, by simp only [secondaryEntry, hkey, buildIndex_type, hpk]; rfl, hpkey, ?_⟩
    unfold fitsRegionRange
    rw [if_neg hnone]
    simp only [buildIndex_type, buildIndex_isGlobal, reduceCtorEq, Bool.false_eq_true, or_self, if_false, if_true,
      buildIndex_fields]
    cases hovl : (buildIndex .key false fields pk).overlap with
    | true =>
      obtain ⟨h1, h2, h3⟩ := hov hovl
      have hpos : (buildIndex .key false fields pk).length > 0 := by rw [h2]; simp
      rw [if_pos ⟨h1, hpos, rfl⟩, h2, if_neg (by simp only [List.length_append]; omega), Int.toNat_natCast, drop_append_len]
      have := h3 ((buildIndex .key false fields pk).pkFields.flatMap (colBytes row)) []
      rw [List.append_nil] at this
      rw [this]; rfl
    | false =>
      have hpf := hno hovl
      rw [if_neg (by simp)]
      rcases hlen with h | h
      · rw [if_neg (by rw [h]; decide)]
        have hx := extractU8_cons [] (nullMask row 0 fields 0#8) (fields.flatMap (colBytes row) ++
          (buildIndex .key false fields pk).pkFields.flatMap (colBytes row))
        simp only [List.nil_append, List.length_nil] at hx
        rw [List.append_assoc, hx]
        have := skipIndexLoop_eq fields 0 [nullMask row 0 fields 0#8]
          ((buildIndex .key false fields pk).pkFields.flatMap (colBytes row)) S.fieldsOK
          (flagOK_mask S.fieldsOK S.nullable8)
        rw [List.append_assoc] at this
        simp only [List.length_cons, List.length_nil, Nat.zero_add] at this
        simp only [this]
        rw [← List.append_assoc, drop_append_len, if_neg (by simp only [List.length_append]; omega), hpf]
      · have hpos : (buildIndex .key false fields pk).length > 0 := by rw [h]; simp
        rw [if_pos hpos, h, if_neg (by simp only [List.length_append]; omega), Int.toNat_natCast, drop_append_len, hpf]
  · -- unique index
    refine ⟨_, _, _, by simp only [secondaryEntry, hkey, buildIndex_type, hpk]; rfl, hpkey, ?_⟩
    unfold fitsRegionRange
    rw [if_neg hnone]
    simp only [buildIndex_type, buildIndex_isGlobal, reduceCtorEq, Bool.false_eq_true, or_self, if_false, if_true,
      List.nil_append]
    cases hovl : (buildIndex .uniq false fields pk).overlap with
    | true =>
      obtain ⟨h1, h2, h3⟩ := hov hovl
      have hpos : (buildIndex .uniq false fields pk).length > 0 := by rw [h2]; simp
      rw [if_pos ⟨h1, hpos, rfl⟩]
      have := h3 [] []
      rw [List.append_nil, List.append_nil] at this
      rw [this]; rfl
    | false =>
      have hpf := hno hovl
      rw [if_neg (by simp), hpf]

/-- Primary and global index entries are ranged by their own key. -/
theorem C07_primary_or_global {ix pkIx : IndexInfo} (h : ix.type = .primary ∨ ix.isGlobal = true) (k v : Bytes)
    (start end_ : Option Bytes) : fitsRegionRange k v start end_ pkIx ix = some (decide (InRange k start end_)) := by
  unfold fitsRegionRange
  rw [← inRange_decide]
  by_cases hnone : start.isNone = true ∧ end_.isNone = true
  · rw [if_pos hnone]
    obtain ⟨h1, h2⟩ := hnone
    rw [Option.isNone_iff_eq_none] at h1 h2
    rw [h1, h2, inRange_none]
  · rw [if_neg hnone, if_pos h]

/-- Two adjacent regions never both own an entry, and together lose none: with `mid` between them, exactly one of
`[start, mid)` and `[mid, end)` accepts an entry that `[start, end)` accepts. -/
theorem C07_split_exactly_one {ty : IndexType} (hty : ty = .key ∨ ty = .uniq) {fields pk : List FieldInfo} {row : Row}
    (S : Setup fields pk row) (start mid end_ : Bytes) (hsm : BLt start mid) (hme : end_ = [] ∨ BLt mid end_) (hm : mid ≠ [])
    {k v : Bytes} (hkv : secondaryEntry (buildIndex ty false fields pk) row = .ok (k, v)) :
    let fits := fun s e => fitsRegionRange k v (some s) (some e) (buildIndex .primary false pk pk) (buildIndex ty false fields pk)
    ∃ a b c, fits start end_ = some a ∧ fits start mid = some b ∧ fits mid end_ = some c ∧ a = xor b c ∧ (a = (b || c)) := by
  intro fits
  obtain ⟨k1, v1, p1, e1, q1, f1⟩ := C07_entry_follows_row hty S (some start) (some end_)
  obtain ⟨k2, v2, p2, e2, q2, f2⟩ := C07_entry_follows_row hty S (some start) (some mid)
  obtain ⟨k3, v3, p3, e3, q3, f3⟩ := C07_entry_follows_row hty S (some mid) (some end_)
  rw [hkv] at e1 e2 e3
  injection e1 with e1; injection e1 with e1 e1'; subst e1; subst e1'
  injection e2 with e2; injection e2 with e2 e2'; subst e2; subst e2'
  injection e3 with e3; injection e3 with e3 e3'; subst e3; subst e3'
  rw [q1] at q2 q3
  injection q2 with q2; injection q2 with q2 _; subst q2
  injection q3 with q3; injection q3 with q3 _; subst q3
  refine ⟨_, _, _, f1, f2, f3, ?_⟩
  have i1 : InRange p1 (some start) (some end_) ↔ BLe start p1 ∧ (end_ = [] ∨ BLt p1 end_) := by simp [InRange]
  have i2 : InRange p1 (some start) (some mid) ↔ BLe start p1 ∧ BLt p1 mid := by simp [InRange, hm]
  have i3 : InRange p1 (some mid) (some end_) ↔ BLe mid p1 ∧ (end_ = [] ∨ BLt p1 end_) := by simp [InRange]
  simp only [i1, i2, i3]
  by_cases hlt : BLt p1 mid
  · have h1 : ¬ BLe mid p1 := fun h => BLt.irrefl _ (hlt.trans_le h)
    have h2 : end_ = [] ∨ BLt p1 end_ := hme.imp id (fun h => hlt.trans h)
    simp [hlt, h1, h2]
  · have h1 : BLe mid p1 := not_BLt.1 hlt
    have h2 : BLe start p1 := hsm.le.trans h1
    simp [hlt, h1, h2]

/-- Non-vacuity: primary key (bigint 9, int 2), index on (2): the primary key is reassembled from both places. -/
private def exPk : List FieldInfo := [⟨9, .int64, false⟩, ⟨2, .int32, false⟩]
private def exIdx : List FieldInfo := [⟨2, .int32, false⟩, ⟨3, .bool, false⟩]
private def exRow2 : Row := fun i => if i = 2 then some (.i32 6#32) else if i = 3 then some (.bool true)
  else if i = 9 then some (.i64 5#64) else none
example : Setup exIdx exPk exRow2 ∧ (buildIndex .key false exIdx exPk).overlap = true := by
  refine ⟨⟨?_, ?_, ?_, ?_, ?_, ?_⟩, by decide⟩
  · intro f hf
    simp only [exIdx, List.mem_cons, List.not_mem_nil, or_false] at hf
    rcases hf with rfl | rfl <;> refine ⟨by simp, fun v hv => ?_⟩ <;> simp [exRow2] at hv <;> subst hv <;>
      simp [Valid, NotNegZero]
  · intro f hf
    simp only [exPk, List.mem_cons, List.not_mem_nil, or_false] at hf
    rcases hf with rfl | rfl <;> refine ⟨by simp, fun v hv => ?_⟩ <;> simp [exRow2] at hv <;> subst hv <;>
      simp [Valid, NotNegZero]
  · intro f hf
    simp only [exPk, List.mem_cons, List.not_mem_nil, or_false] at hf
    rcases hf with rfl | rfl <;> simp [exRow2]
  · intro f hf
    simp only [exPk, List.mem_cons, List.not_mem_nil, or_false] at hf
    rcases hf with rfl | rfl <;> rfl
  · intro f hf g hg h
    simp only [exIdx, exPk, List.mem_cons, List.not_mem_nil, or_false] at hf hg
    rcases hf with rfl | rfl <;> rcases hg with rfl | rfl <;> simp at h ⊢
  · rintro ⟨f, hf, hc⟩
    simp only [exIdx, List.mem_cons, List.not_mem_nil, or_false] at hf
    rcases hf with rfl | rfl <;> cases hc

end BaikalDB.IndexKey
