import Verif.IndexKey.Spec
import Verif.KeyEnc.Lemmas
/-! # Lemmas about index keys -/
namespace BaikalDB.IndexKey
open KeyEnc KeyEnc.Spec Spec

theorem defaultVal_eq_zeroOf (t : PType) : defaultVal t = zeroOf t := by cases t <;> rfl

theorem zeroOf_valid {t : PType} (h : t ≠ .other) : ∃ v, zeroOf t = some v ∧ Valid t v ∧ NotNegZero v := by
  cases t <;> simp [zeroOf, Valid, NotNegZero, IsNaN32, IsNaN64] at h ⊢

/-- What the row holds for a column, as far as `fits` the type. -/
theorem stored_valid {row : Row} {f : FieldInfo} (h : ColOK row f) {v : PbVal} (hv : stored row f = some v) :
    Valid f.type v ∧ NotNegZero v := by
  unfold stored at hv
  split at hv
  · rename_i w hw
    injection hv with e; subst e
    exact h.2 _ hw
  · split at hv
    · cases hv
    · obtain ⟨w, hw, h1⟩ := zeroOf_valid h.1
      rw [hw] at hv
      injection hv with e; subst e; exact h1

/-- Bytes of one column in the key; nothing for NULL. -/
def colBytes (row : Row) (f : FieldInfo) : Bytes :=
  match stored row f with
  | some v => (encodeField f.type v [] false).getD []
  | none => []

theorem encodeField_colBytes {row : Row} {f : FieldInfo} (h : ColOK row f) {v : PbVal} (hv : stored row f = some v)
    (key : Bytes) : encodeField f.type v key false = some (key ++ colBytes row f) := by
  obtain ⟨a, ha⟩ := valid_encodes (stored_valid h hv).1 false
  rw [encodeField_prefix, ha, colBytes, hv]
  simp [ha]

theorem nullShift_of_lt {idx : Nat} (h : idx < 8) : nullShift idx = 7 - idx := by
  unfold nullShift; omega

theorem nullBit_eq {nf : BitVec 8} {idx : Nat} (h : idx < 8) : nullBit nf idx = nf.getLsbD (7 - idx) := by
  unfold nullBit
  rw [nullShift_of_lt h, BitVec.getLsbD, Nat.testBit_eq_decide_div_mod_eq, Nat.shiftRight_eq_div_pow]
  by_cases h : nf.toNat / 2 ^ (7 - idx) % 2 = 1 <;> simp [h]

/-- Is the column NULL in the key (nullable and unset)? -/
def isNullCol (row : Row) (f : FieldInfo) : Bool := f.canNull && (row f.id).isNone

/-- The null flag after the fields from position `idx` on. -/
def nullMask (row : Row) : Nat → List FieldInfo → BitVec 8 → BitVec 8
  | _, [], nf => nf
  | idx, f :: fs, nf => nullMask row (idx + 1) fs
      (if isNullCol row f then nf ||| BitVec.ofNat 8 (1 <<< nullShift idx) else nf)

theorem getLsbD_bit {idx j : Nat} (h : idx < 8) (hj : j < 8) :
    (BitVec.ofNat 8 (1 <<< nullShift idx)).getLsbD (7 - j) = decide (idx = j) := by
  rw [nullShift_of_lt h, BitVec.getLsbD_ofNat, Nat.one_shiftLeft, Nat.testBit_two_pow]
  have : 7 - j < 8 := by omega
  simp only [this, decide_true, Bool.true_and]
  by_cases h2 : idx = j
  · simp [h2]
  · simp [h2]; omega

theorem nullMask_bit (row : Row) (fs : List FieldInfo) (idx : Nat) (nf : BitVec 8) (hlen : idx + fs.length ≤ 8)
    (j : Nat) (hj : j < 8) :
    nullBit (nullMask row idx fs nf) j =
      (nullBit nf j || (decide (idx ≤ j) && (fs[j - idx]?.map (isNullCol row)).getD false)) := by
  induction fs generalizing idx nf with
  | nil => simp [nullMask]
  | cons f fs ih =>
    simp only [List.length_cons] at hlen
    rw [nullMask, ih (idx + 1) _ (by omega)]
    have hb : nullBit (if isNullCol row f = true then nf ||| BitVec.ofNat 8 (1 <<< nullShift idx) else nf) j =
        (nullBit nf j || (decide (idx = j) && isNullCol row f)) := by
      cases hn : isNullCol row f
      · simp
      · rw [if_pos rfl, nullBit_eq hj, nullBit_eq hj, BitVec.getLsbD_or, getLsbD_bit (by omega) hj]; simp
    rw [hb]
    by_cases h1 : idx = j
    · subst h1
      have : ¬ idx + 1 ≤ idx := by omega
      simp [this]
    · by_cases h2 : idx ≤ j
      · have e : j - idx = (j - (idx + 1)) + 1 := by omega
        have : idx + 1 ≤ j := by omega
        simp [h1, h2, e, this]
      · have : ¬ idx + 1 ≤ j := by omega
        simp [h1, h2, this]

/-- `encode_key`'s loop on a secondary index. -/
theorem encodeKeyLoop_secondary {ty : IndexType} (hty : ty = .key ∨ ty = .uniq ∨ ty = .rollup) {row : Row}
    (cc : Nat) (fs : List FieldInfo) (idx : Nat) (key : Bytes) (nf : BitVec 8)
    (hok : ∀ f ∈ fs, ColOK row f) :
    encodeKeyLoop ty row false cc idx fs key nf =
      .ok (key ++ fs.flatMap (colBytes row), nullMask row idx fs nf) := by
  induction fs generalizing idx key nf with
  | nil => simp [encodeKeyLoop, nullMask]
  | cons f fs ih =>
    have h1 := hok f (by simp)
    have h2 : ∀ f ∈ fs, ColOK row f := fun g hg => hok g (by simp [hg])
    have hnp : ¬ (ty = .primary ∨ ty = .fulltext) := by rcases hty with rfl | rfl | rfl <;> simp
    simp only [encodeKeyLoop, if_neg hnp, if_pos hty, Bool.false_and, nullMask, List.flatMap_cons]
    cases hr : row f.id with
    | some v =>
      have hs : stored row f = some v := by simp [stored, hr]
      have hn : isNullCol row f = false := by simp [isNullCol, hr]
      simp [encodeField_colBytes h1 hs, ih (idx+1) _ _ h2, hn]
    | none =>
      cases hc : f.canNull with
      | false =>
        obtain ⟨v, hv, _⟩ := zeroOf_valid h1.1
        have hs : stored row f = some v := by simp [stored, hr, hc, hv]
        have hn : isNullCol row f = false := by simp [isNullCol, hc]
        simp only [Bool.not_false, if_true, defaultVal_eq_zeroOf, hv, Option.bind_some]
        rw [encodeField_colBytes h1 hs]
        simp [ih (idx+1) _ _ h2, hn]
      | true =>
        have hn : isNullCol row f = true := by simp [isNullCol, hr, hc]
        have hcb : colBytes row f = [] := by simp [colBytes, stored, hr, hc]
        simp [ih (idx+1) _ _ h2, hn, hcb]

theorem stored_of_some {row : Row} {f : FieldInfo} {v : PbVal} (h : row f.id = some v) : stored row f = some v := by
  simp [stored, h]

/-- `encode_key`'s loop on a primary key, all columns present. -/
theorem encodeKeyLoop_primary {ty : IndexType} (hty : ty = .primary ∨ ty = .fulltext) {row : Row}
    (cc : Nat) (fs : List FieldInfo) (idx : Nat) (key : Bytes) (nf : BitVec 8)
    (hok : ∀ f ∈ fs, ColOK row f) (hp : ∀ f ∈ fs, (row f.id).isSome) :
    encodeKeyLoop ty row false cc idx fs key nf = .ok (key ++ fs.flatMap (colBytes row), nf) := by
  induction fs generalizing idx key nf with
  | nil => simp [encodeKeyLoop]
  | cons f fs ih =>
    have h1 := hok f (by simp)
    obtain ⟨v, hv⟩ := Option.isSome_iff_exists.1 (hp f (by simp))
    simp only [encodeKeyLoop, if_pos hty, Bool.false_and, hv, List.flatMap_cons]
    rw [encodeField_colBytes h1 (stored_of_some hv)]
    simp [ih (idx+1) _ _ (fun g hg => hok g (by simp [hg])) (fun g hg => hp g (by simp [hg]))]

theorem encodePkLoop_eq {row : Row} (fs : List FieldInfo) (key : Bytes)
    (hok : ∀ f ∈ fs, ColOK row f) (hp : ∀ f ∈ fs, (row f.id).isSome) :
    encodePkLoop row fs key = .ok (key ++ fs.flatMap (colBytes row)) := by
  induction fs generalizing key with
  | nil => simp [encodePkLoop]
  | cons f fs ih =>
    obtain ⟨v, hv⟩ := Option.isSome_iff_exists.1 (hp f (by simp))
    simp only [encodePkLoop, hv, List.flatMap_cons]
    rw [encodeField_colBytes (hok f (by simp)) (stored_of_some hv)]
    simp [ih _ (fun g hg => hok g (by simp [hg])) (fun g hg => hp g (by simp [hg]))]

/-- A null flag byte agrees with the row from field position `idx` on. -/
def FlagOK (row : Row) (nf : BitVec 8) (idx : Nat) (fs : List FieldInfo) : Prop :=
  ∀ j f, fs[j]? = some f → (nullBit nf (idx + j) && f.canNull) = (stored row f).isNone

theorem FlagOK.head {row : Row} {nf : BitVec 8} {idx : Nat} {f : FieldInfo} {fs : List FieldInfo}
    (h : FlagOK row nf idx (f :: fs)) : (nullBit nf idx && f.canNull) = (stored row f).isNone := h 0 f (by simp)

theorem FlagOK.tail {row : Row} {nf : BitVec 8} {idx : Nat} {f : FieldInfo} {fs : List FieldInfo}
    (h : FlagOK row nf idx (f :: fs)) : FlagOK row nf (idx + 1) fs := by
  intro j g hg
  have := h (j+1) g (by simpa using hg)
  rwa [show idx + (j + 1) = idx + 1 + j by omega] at this

theorem isNone_stored {row : Row} {f : FieldInfo} (h : ColOK row f) : (stored row f).isNone = isNullCol row f := by
  unfold stored isNullCol
  cases hr : row f.id with
  | some v => simp
  | none =>
    cases hc : f.canNull with
    | true => simp
    | false =>
      obtain ⟨v, hv, _⟩ := zeroOf_valid h.1
      simp [hv]

theorem flagOK_mask {row : Row} {fs : List FieldInfo} (hok : ∀ f ∈ fs, ColOK row f)
    (h8 : (∃ f ∈ fs, f.canNull = true) → fs.length ≤ 8) : FlagOK row (nullMask row 0 fs 0#8) 0 fs := by
  intro j f hf
  have hmem : f ∈ fs := List.mem_of_getElem? hf
  rw [isNone_stored (hok f hmem)]
  by_cases hn : ∃ f ∈ fs, f.canNull = true
  · have hl := h8 hn
    have hj : j < fs.length := by
      rcases Nat.lt_or_ge j fs.length with h | h
      · exact h
      · rw [List.getElem?_eq_none h] at hf; cases hf
    rw [Nat.zero_add, nullMask_bit row fs 0 _ (by omega) j (by omega)]
    have : nullBit 0#8 j = false := by simp [nullBit]
    simp only [this, Nat.sub_zero, hf, Option.map_some, Option.getD_some, Nat.zero_le, decide_true, Bool.true_and,
      Bool.false_or]
    unfold isNullCol
    cases f.canNull <;> simp
  · have : f.canNull = false := by
      cases hc : f.canNull
      · rfl
      · exact absurd ⟨f, hmem, hc⟩ hn
    simp [this, isNullCol]

theorem flagOK_present {row : Row} {fs : List FieldInfo} (hp : ∀ f ∈ fs, (row f.id).isSome) (idx : Nat) :
    FlagOK row 0#8 idx fs := by
  intro j f hf
  obtain ⟨v, hv⟩ := Option.isSome_iff_exists.1 (hp f (List.mem_of_getElem? hf))
  rw [stored_of_some hv]
  simp [nullBit]

/-- `decode_key`'s loop reads back the columns written, whatever precedes and follows. -/
theorem decodeKeyLoop_roundtrip {row : Row} {nf : BitVec 8} (fs : List FieldInfo) (idx : Nat) (p s : Bytes)
    (acc : List (Nat × PbVal)) (hok : ∀ f ∈ fs, ColOK row f) (hf : FlagOK row nf idx fs) :
    decodeKeyLoop (p ++ fs.flatMap (colBytes row) ++ s) nf idx fs p.length acc =
      .ok (acc ++ project row fs) (p ++ fs.flatMap (colBytes row)).length := by
  induction fs generalizing idx p acc with
  | nil => simp [decodeKeyLoop, project]
  | cons f fs ih =>
    have hh := hf.head
    have ht := hf.tail
    have h1 := hok f (by simp)
    have h2 : ∀ f ∈ fs, ColOK row f := fun g hg => hok g (by simp [hg])
    simp only [decodeKeyLoop, hh, List.flatMap_cons]
    cases hs : stored row f with
    | none =>
      have hcb : colBytes row f = [] := by simp [colBytes, hs]
      have := ih (idx+1) p acc h2 ht
      simp only [hcb, List.nil_append, Option.isNone_none, if_true, this]
      simp [project, hs]
    | some v =>
      have hd := decodeField_encodeField (stored_valid h1 hs).1 (stored_valid h1 hs).2
        (encodeField_colBytes h1 hs p) (fs.flatMap (colBytes row) ++ s)
      have he : p ++ (colBytes row f ++ fs.flatMap (colBytes row)) ++ s =
          p ++ colBytes row f ++ (fs.flatMap (colBytes row) ++ s) := by simp
      have := ih (idx+1) (p ++ colBytes row f) (acc ++ [(f.id, v)]) h2 ht
      rw [List.append_assoc _ (fs.flatMap _) s] at this
      simp only [Option.isNone_some, Bool.false_eq_true, if_false, he, hd, this]
      simp [project, hs]

theorem length_colBytes {row : Row} {f : FieldInfo} (h : ColOK row f) {v : PbVal} (hs : stored row f = some v)
    (hn : f.type ≠ .string) : ((colBytes row f).length : Int) = numSize f.type ∧ 0 < numSize f.type := by
  have hv := (stored_valid h hs).1
  rw [colBytes, hs]
  cases ht : f.type <;> rw [ht] at hv hn <;> cases v <;> simp [Valid] at hv hn <;>
    simp [encodeField, appendI8, appendI16, appendI32, appendI64, appendU8, appendU16, appendU32, appendU64,
      appendFloat, appendDouble, appendBoolean, numSize]

theorem colBytes_string {row : Row} {f : FieldInfo} (h : ColOK row f) {v : PbVal} (hs : stored row f = some v)
    (hn : f.type = .string) : ∃ x, colBytes row f = x ++ [0#8] ∧ 0#8 ∉ x := by
  have hv := (stored_valid h hs).1
  rw [colBytes, hs]
  rw [hn] at hv ⊢
  cases v <;> simp [Valid] at hv
  rename_i x
  exact ⟨x, by simp [encodeField, appendString], hv⟩

theorem drop_append_len (p x : Bytes) : (p ++ x).drop p.length = x := by simp

theorem skipField_colBytes {row : Row} {f : FieldInfo} (h : ColOK row f) {v : PbVal} (hs : stored row f = some v)
    (p s : Bytes) : skipField f.type (p ++ colBytes row f ++ s) p.length = .ok () (p ++ colBytes row f).length := by
  by_cases hn : f.type = .string
  · obtain ⟨x, hx, h0⟩ := colBytes_string h hs hn
    rw [hn, hx]
    unfold skipField
    have hd : (p ++ (x ++ [0#8]) ++ s).drop p.length = x ++ 0#8 :: s := by
      rw [List.append_assoc, drop_append_len]; simp
    simp only [hd, cstr_append h0]
    rw [if_neg (by simp only [List.length_append, List.length_cons, List.length_nil]; omega)]
    simp
  · have hl := (length_colBytes h hs hn).1
    have hv := (stored_valid h hs).1
    have e : (p ++ colBytes row f).length = p.length + (colBytes row f).length := by simp
    rw [e]
    cases ht : f.type <;> rw [ht] at hl hn <;> simp [skipField, numSize] at hl hn ⊢ <;>
      first
        | omega
        | (exact absurd ht h.1)

theorem memRowLoop_roundtrip {row : Row} {nf : BitVec 8} (needed : Nat → Bool) (fs : List FieldInfo) (idx : Nat)
    (p s : Bytes) (acc : List (Nat × PbVal)) (hok : ∀ f ∈ fs, ColOK row f) (hf : FlagOK row nf idx fs) :
    memRowLoop needed (p ++ fs.flatMap (colBytes row) ++ s) nf idx fs p.length acc =
      .ok (acc ++ (project row fs).filter (fun c => needed c.1)) (p ++ fs.flatMap (colBytes row)).length := by
  induction fs generalizing idx p acc with
  | nil => simp [memRowLoop, project]
  | cons f fs ih =>
    have hh := hf.head
    have ht := hf.tail
    have h1 := hok f (by simp)
    have h2 : ∀ f ∈ fs, ColOK row f := fun g hg => hok g (by simp [hg])
    simp only [memRowLoop, hh, List.flatMap_cons]
    cases hs : stored row f with
    | none =>
      have hcb : colBytes row f = [] := by simp [colBytes, hs]
      have := ih (idx+1) p acc h2 ht
      simp only [hcb, List.nil_append, Option.isNone_none, if_true, this]
      simp [project, hs]
    | some v =>
      have hd := decodeField_encodeField (stored_valid h1 hs).1 (stored_valid h1 hs).2
        (encodeField_colBytes h1 hs p) (fs.flatMap (colBytes row) ++ s)
      have hk := skipField_colBytes h1 hs p (fs.flatMap (colBytes row) ++ s)
      have he : p ++ (colBytes row f ++ fs.flatMap (colBytes row)) ++ s =
          p ++ colBytes row f ++ (fs.flatMap (colBytes row) ++ s) := by simp
      cases hnd : needed f.id with
      | false =>
        have := ih (idx+1) (p ++ colBytes row f) acc h2 ht
        rw [List.append_assoc _ (fs.flatMap _) s] at this
        simp only [Option.isNone_some, Bool.false_eq_true, if_false, he, hk, if_true, this]
        simp [project, hs, hnd]
      | true =>
        have := ih (idx+1) (p ++ colBytes row f) (acc ++ [(f.id, v)]) h2 ht
        rw [List.append_assoc _ (fs.flatMap _) s] at this
        simp only [Option.isNone_some, Bool.false_eq_true, if_false, he, hd, Bool.true_eq_false, this]
        simp [project, hs, hnd]

end BaikalDB.IndexKey
