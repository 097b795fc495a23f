import Verif.KeyEnc.Lemmas
/-!
# Properties of the key codec (C01 – C04, C06)

Keys are compared with `bcmp` (`rocksdb::Slice::compare`); values with their numbers.
-/
namespace BaikalDB.KeyEnc
open Spec

/-! ## C01 integer keys sort like integers

`p` is what precedes the column in the key, `s` and `t` what follows. -/

theorem C01_order_i8 (p s t : Bytes) (x y : BitVec 8) :
    bcmp (appendI8 p x ++ s) (appendI8 p y ++ t) = (compare x.toInt y.toInt).then (bcmp s t) := by
  have e1 := toNat_encodeI8 x
  have e2 := toNat_encodeI8 y
  rw [appendI8_eq, appendI8_eq, List.append_assoc, List.append_assoc, bcmp_append_left]
  exact fixed_order (encodeI8 _).isLt (encodeI8 _).isLt (by omega) (by omega) rfl s t

theorem C01_order_i16 (p s t : Bytes) (x y : BitVec 16) :
    bcmp (appendI16 p x ++ s) (appendI16 p y ++ t) = (compare x.toInt y.toInt).then (bcmp s t) := by
  have e1 := toNat_encodeI16 x
  have e2 := toNat_encodeI16 y
  rw [appendI16_eq, appendI16_eq, List.append_assoc, List.append_assoc, bcmp_append_left]
  exact fixed_order (encodeI16 _).isLt (encodeI16 _).isLt (by omega) (by omega) rfl s t

theorem C01_order_i32 (p s t : Bytes) (x y : BitVec 32) :
    bcmp (appendI32 p x ++ s) (appendI32 p y ++ t) = (compare x.toInt y.toInt).then (bcmp s t) := by
  have e1 := toNat_encodeI32 x
  have e2 := toNat_encodeI32 y
  rw [appendI32_eq, appendI32_eq, List.append_assoc, List.append_assoc, bcmp_append_left]
  exact fixed_order (encodeI32 _).isLt (encodeI32 _).isLt (by omega) (by omega) rfl s t

theorem C01_order_i64 (p s t : Bytes) (x y : BitVec 64) :
    bcmp (appendI64 p x ++ s) (appendI64 p y ++ t) = (compare x.toInt y.toInt).then (bcmp s t) := by
  have e1 := toNat_encodeI64 x
  have e2 := toNat_encodeI64 y
  rw [appendI64_eq, appendI64_eq, List.append_assoc, List.append_assoc, bcmp_append_left]
  exact fixed_order (encodeI64 _).isLt (encodeI64 _).isLt (by omega) (by omega) rfl s t

theorem C01_order_u8 (p s t : Bytes) (x y : BitVec 8) :
    bcmp (appendU8 p x ++ s) (appendU8 p y ++ t) = (compare x.toNat y.toNat).then (bcmp s t) := by
  rw [appendU8_eq, appendU8_eq, List.append_assoc, List.append_assoc, bcmp_append_left]
  exact fixed_order_nat x.isLt y.isLt s t

theorem C01_order_u16 (p s t : Bytes) (x y : BitVec 16) :
    bcmp (appendU16 p x ++ s) (appendU16 p y ++ t) = (compare x.toNat y.toNat).then (bcmp s t) := by
  rw [appendU16_eq, appendU16_eq, List.append_assoc, List.append_assoc, bcmp_append_left]
  exact fixed_order_nat x.isLt y.isLt s t

theorem C01_order_u32 (p s t : Bytes) (x y : BitVec 32) :
    bcmp (appendU32 p x ++ s) (appendU32 p y ++ t) = (compare x.toNat y.toNat).then (bcmp s t) := by
  rw [appendU32_eq, appendU32_eq, List.append_assoc, List.append_assoc, bcmp_append_left]
  exact fixed_order_nat x.isLt y.isLt s t

theorem C01_order_u64 (p s t : Bytes) (x y : BitVec 64) :
    bcmp (appendU64 p x ++ s) (appendU64 p y ++ t) = (compare x.toNat y.toNat).then (bcmp s t) := by
  rw [appendU64_eq, appendU64_eq, List.append_assoc, List.append_assoc, bcmp_append_left]
  exact fixed_order_nat x.isLt y.isLt s t

theorem C01_order_bool (p s t : Bytes) (x y : Bool) :
    bcmp (appendBoolean p x ++ s) (appendBoolean p y ++ t) = (compare x.toNat y.toNat).then (bcmp s t) := by
  rw [appendBoolean_eq, appendBoolean_eq, List.append_assoc, List.append_assoc, bcmp_append_left]
  refine fixed_order_nat ?_ ?_ s t <;> cases x <;> cases y <;> simp

/-- A scan between the keys of two 64-bit values meets exactly the values between them. -/
theorem C01_range_scan_i64 (p s : Bytes) (lo x hi : BitVec 64) :
    (BLe (appendI64 p lo) (appendI64 p x ++ s) ∧ BLt (appendI64 p x ++ s) (appendI64 p hi)) ↔
      (lo.toInt ≤ x.toInt ∧ x.toInt < hi.toInt) := by
  have h1 := C01_order_i64 p [] s lo x
  have h2 := C01_order_i64 p s [] x hi
  rw [List.append_nil] at h1 h2
  unfold BLe BLt
  rw [h1, h2]
  constructor
  · rintro ⟨a, b⟩
    constructor
    · apply Int.not_lt.1
      intro h
      rw [Int.compare_eq_gt.2 h] at a
      exact a rfl
    · rcases Int.lt_trichotomy x.toInt hi.toInt with h | h | h
      · exact h
      · rw [Int.compare_eq_eq.2 h] at b
        cases s <;> simp [bcmp] at b
      · rw [Int.compare_eq_gt.2 h] at b
        cases b
  · rintro ⟨a, b⟩
    rw [Int.compare_eq_lt.2 b]
    refine ⟨?_, rfl⟩
    rcases Int.lt_trichotomy lo.toInt x.toInt with h | h | h
    · rw [Int.compare_eq_lt.2 h]; simp [Ordering.then]
    · rw [Int.compare_eq_eq.2 h]
      exact BLe_nil s
    · omega

example : BLe (appendI64 [7#8] (BitVec.ofInt 64 (-5))) (appendI64 [7#8] (BitVec.ofInt 64 (-1)) ++ [9#8]) ∧
    BLt (appendI64 [7#8] (BitVec.ofInt 64 (-1)) ++ [9#8]) (appendI64 [7#8] 3#64) := by decide

/-! ## C02 integer keys decode to the value written -/

theorem C02_roundtrip_i8 (k s : Bytes) (x : BitVec 8) : extractI8 (appendI8 k x ++ s) k.length = some x :=
  extractI8_append k x s
theorem C02_roundtrip_i16 (k s : Bytes) (x : BitVec 16) : extractI16 (appendI16 k x ++ s) k.length = some x :=
  extractI16_append k x s
theorem C02_roundtrip_i32 (k s : Bytes) (x : BitVec 32) : extractI32 (appendI32 k x ++ s) k.length = some x :=
  extractI32_append k x s
theorem C02_roundtrip_i64 (k s : Bytes) (x : BitVec 64) : extractI64 (appendI64 k x ++ s) k.length = some x :=
  extractI64_append k x s
theorem C02_roundtrip_u8 (k s : Bytes) (x : BitVec 8) : extractU8 (appendU8 k x ++ s) k.length = some x :=
  extractU8_append k x s
theorem C02_roundtrip_u16 (k s : Bytes) (x : BitVec 16) : extractU16 (appendU16 k x ++ s) k.length = some x :=
  extractU16_append k x s
theorem C02_roundtrip_u32 (k s : Bytes) (x : BitVec 32) : extractU32 (appendU32 k x ++ s) k.length = some x :=
  extractU32_append k x s
theorem C02_roundtrip_u64 (k s : Bytes) (x : BitVec 64) : extractU64 (appendU64 k x ++ s) k.length = some x :=
  extractU64_append k x s
theorem C02_roundtrip_bool (k s : Bytes) (x : Bool) : extractBoolean (appendBoolean k x ++ s) k.length = some x :=
  extractBoolean_append k x s

/-- Overwriting a fixed-width column in place is the same as having appended the new value in the first place. -/
theorem C02_replace_u8 (k s : Bytes) (x y : BitVec 8) :
    replaceU8 (appendU8 k x ++ s) y k.length = some (appendU8 k y ++ s) := by
  simp [replaceU8, replaceAt, appendU8, List.drop_append]
theorem C02_replace_i32 (k s : Bytes) (x y : BitVec 32) :
    replaceI32 (appendI32 k x ++ s) y k.length = some (appendI32 k y ++ s) := by
  simp [replaceI32, replaceAt, appendI32, List.drop_append]
theorem C02_replace_u32 (k s : Bytes) (x y : BitVec 32) :
    replaceU32 (appendU32 k x ++ s) y k.length = some (appendU32 k y ++ s) := by
  simp [replaceU32, replaceAt, appendU32, List.drop_append]
theorem C02_replace_i64 (k s : Bytes) (x y : BitVec 64) :
    replaceI64 (appendI64 k x ++ s) y k.length = some (appendI64 k y ++ s) := by
  simp [replaceI64, replaceAt, appendI64, List.drop_append]
theorem C02_replace_u64 (k s : Bytes) (x y : BitVec 64) :
    replaceU64 (appendU64 k x ++ s) y k.length = some (appendU64 k y ++ s) := by
  simp [replaceU64, replaceAt, appendU64, List.drop_append]

example : extractI64 (appendI64 [1#8, 2#8] (BitVec.ofInt 64 (-77)) ++ [3#8]) 2 = some (BitVec.ofInt 64 (-77)) := by
  decide

/-! ## C03 floating point keys -/

theorem C03_order_double {x y : BitVec 64} (hx : ¬ IsNaN64 x) (hy : ¬ IsNaN64 y) (p s t : Bytes) :
    bcmp (appendDouble p x ++ s) (appendDouble p y ++ t) = (compare (f64Value x) (f64Value y)).then (bcmp s t) := by
  rw [appendDouble_eq, appendDouble_eq, List.append_assoc, List.append_assoc, bcmp_append_left]
  exact fixed_order (encodeF64 _).isLt (encodeF64 _).isLt (encodeF64_lt hx hy) (encodeF64_lt hy hx) rfl s t

theorem C03_order_float {x y : BitVec 32} (hx : ¬ IsNaN32 x) (hy : ¬ IsNaN32 y) (p s t : Bytes) :
    bcmp (appendFloat p x ++ s) (appendFloat p y ++ t) = (compare (f32Value x) (f32Value y)).then (bcmp s t) := by
  rw [appendFloat_eq, appendFloat_eq, List.append_assoc, List.append_assoc, bcmp_append_left]
  exact fixed_order (encodeF32 _).isLt (encodeF32 _).isLt (encodeF32_lt hx hy) (encodeF32_lt hy hx) rfl s t

theorem C03_roundtrip_double {x : BitVec 64} (h : ¬ IsNaN64 x) (h0 : x ≠ 0x8000000000000000#64)
    (k s : Bytes) : extractDouble (appendDouble k x ++ s) k.length = some x := by
  rw [extractDouble_append, decodeF64_encodeF64 h h0]

theorem C03_roundtrip_float {x : BitVec 32} (h : ¬ IsNaN32 x) (h0 : x ≠ 0x80000000#32)
    (k s : Bytes) : extractFloat (appendFloat k x ++ s) k.length = some x := by
  rw [extractFloat_append, decodeF32_encodeF32 h h0]

/-- 1.5 and -inf meet the hypotheses. -/
example : ¬ IsNaN64 0x3FF8000000000000#64 ∧ (0x3FF8000000000000#64) ≠ 0x8000000000000000#64 ∧
    ¬ IsNaN64 0xFFF0000000000000#64 := by decide
example : ¬ IsNaN32 0x3FC00000#32 ∧ ¬ IsNaN32 0xFF800000#32 := by decide
set_option exponentiation.threshold 2000 in
/-- The value function is the IEEE one on some known patterns: 1.5 = 3/2, -2.0, smallest subnormal. -/
example : f64Value 0x3FF8000000000000#64 = 3 * 2 ^ 1073 ∧ f64Value 0xC000000000000000#64 = - 2 ^ 1075 ∧
    f64Value 1#64 = 1 := by decide
example : f32Value 0x3FC00000#32 = 3 * 2 ^ 148 ∧ f32Value 0xC0000000#32 = - 2 ^ 150 ∧ f32Value 1#32 = 1 := by decide

/-- Negative zero comes back as positive zero (numerically equal, different bits). -/
theorem C03_negzero_counterexample (k s : Bytes) :
    extractDouble (appendDouble k 0x8000000000000000#64 ++ s) k.length = some 0#64 ∧
    extractFloat (appendFloat k 0x80000000#32 ++ s) k.length = some 0#32 := by
  rw [extractDouble_append, extractFloat_append]
  exact ⟨by decide, by decide⟩

/-- A NaN with clear sign bit comes back as a finite (subnormal) number. -/
theorem C03_nan_counterexample_double {x : BitVec 64} (h : IsNaN64 x) (hs : x.toNat < 2 ^ 63) (k s : Bytes) :
    ∃ y, extractDouble (appendDouble k x ++ s) k.length = some y ∧ ¬ IsNaN64 y ∧ y ≠ x := by
  refine ⟨_, extractDouble_append k x s, ?_⟩
  have e : (decodeF64 (encodeF64 x)).toNat = 2 ^ 63 - 1 - x.toNat := by
    rw [toNat_decodeF64]
    have : geZero64 x = false := by
      cases hg : geZero64 x
      · rfl
      · exact absurd h ((geZero64_iff x).1 hg).1
    have e2 : (encodeF64 x).toNat = 2 ^ 64 - 1 - x.toNat := by
      rw [encodeF64, this]; simp [BitVec.toNat_not]
    rw [e2, if_pos (by omega)]; omega
  unfold IsNaN64 at *
  refine ⟨by rw [e]; omega, fun heq => ?_⟩
  rw [heq] at e; omega

theorem C03_nan_counterexample_float {x : BitVec 32} (h : IsNaN32 x) (hs : x.toNat < 2 ^ 31) (k s : Bytes) :
    ∃ y, extractFloat (appendFloat k x ++ s) k.length = some y ∧ ¬ IsNaN32 y ∧ y ≠ x := by
  refine ⟨_, extractFloat_append k x s, ?_⟩
  have e : (decodeF32 (encodeF32 x)).toNat = 2 ^ 31 - 1 - x.toNat := by
    rw [toNat_decodeF32]
    have : geZero32 x = false := by
      cases hg : geZero32 x
      · rfl
      · exact absurd h ((geZero32_iff x).1 hg).1
    have e2 : (encodeF32 x).toNat = 2 ^ 32 - 1 - x.toNat := by
      rw [encodeF32, this]; simp [BitVec.toNat_not]
    rw [e2, if_pos (by omega)]; omega
  unfold IsNaN32 at *
  refine ⟨by rw [e]; omega, fun heq => ?_⟩
  rw [heq] at e; omega

/-- The hypotheses describe actual NaNs: the quiet NaN. -/
example : IsNaN64 0x7FF8000000000000#64 ∧ (0x7FF8000000000000#64).toNat < 2 ^ 63 ∧
    IsNaN32 0x7FC00000#32 ∧ (0x7FC00000#32).toNat < 2 ^ 31 := by decide

/-! ## C04 composite keys sort column by column -/

/-- Key of a tuple of columns: encode_field applied left to right, as in the encode_key loop. -/
def encodeTuple : List PType → List PbVal → Bytes → Option Bytes
  | t :: ts, v :: vs, k => (encodeField t v k false).bind (encodeTuple ts vs)
  | _, _, k => some k

theorem encodeTuple_prefix (ts : List PType) (vs : List PbVal) (k : Bytes) :
    encodeTuple ts vs k = (encodeTuple ts vs []).map (k ++ ·) := by
  induction ts generalizing vs k with
  | nil => simp [encodeTuple]
  | cons t ts ih => cases vs with
    | nil => simp [encodeTuple]
    | cons v vs =>
      simp only [encodeTuple]
      rw [encodeField_prefix]
      cases h : encodeField t v [] false with
      | none => simp
      | some a =>
        simp only [Option.map_some, Option.bind_some]
        rw [ih vs (k ++ a), ih vs a]
        cases encodeTuple ts vs [] <;> simp

theorem C04_tuple_encodes {ts : List PType} {vs : List PbVal} (h : ValidTuple ts vs) (k : Bytes) :
    ∃ a, encodeTuple ts vs k = some (k ++ a) := by
  induction ts generalizing vs k with
  | nil => cases vs with
    | nil => exact ⟨[], by simp [encodeTuple]⟩
    | cons => simp [ValidTuple] at h
  | cons t ts ih => cases vs with
    | nil => simp [ValidTuple] at h
    | cons v vs =>
      obtain ⟨a, ha⟩ := valid_encodes h.1 false
      obtain ⟨b, hb⟩ := ih h.2 (k ++ a)
      refine ⟨a ++ b, ?_⟩
      simp [encodeTuple, encodeField_prefix (key := k), ha, hb]

theorem C04_composite_order {ts : List PType} {vs ws : List PbVal} (hv : ValidTuple ts vs)
    (hw : ValidTuple ts ws) {p a b : Bytes} (ea : encodeTuple ts vs p = some a) (eb : encodeTuple ts ws p = some b)
    (s t : Bytes) :
    bcmp (a ++ s) (b ++ t) = (tupleCompare vs ws).then (bcmp s t) := by
  rw [encodeTuple_prefix] at ea eb
  cases ea' : encodeTuple ts vs [] with
  | none => rw [ea'] at ea; cases ea
  | some a0 => cases eb' : encodeTuple ts ws [] with
    | none => rw [eb'] at eb; cases eb
    | some b0 =>
    rw [ea'] at ea; rw [eb'] at eb
    simp only [Option.map_some, Option.some.injEq] at ea eb
    subst ea; subst eb
    rw [List.append_assoc, List.append_assoc, bcmp_append_left]
    clear p
    induction ts generalizing vs ws a0 b0 with
    | nil =>
      cases vs with
      | cons => simp [ValidTuple] at hv
      | nil => cases ws with
        | cons => simp [ValidTuple] at hw
        | nil =>
          simp only [encodeTuple, Option.some.injEq] at ea' eb'
          subst ea'; subst eb'; simp [tupleCompare, Ordering.then]
    | cons ty ts ih =>
      cases vs with
      | nil => simp [ValidTuple] at hv
      | cons v vs => cases ws with
        | nil => simp [ValidTuple] at hw
        | cons w ws =>
          obtain ⟨x, hx⟩ := valid_encodes hv.1 false
          obtain ⟨y, hy⟩ := valid_encodes hw.1 false
          simp only [encodeTuple, hx, hy, Option.bind_some] at ea' eb'
          rw [encodeTuple_prefix] at ea' eb'
          cases e1 : encodeTuple ts vs [] with
          | none => rw [e1] at ea'; cases ea'
          | some a1 => cases e2 : encodeTuple ts ws [] with
            | none => rw [e2] at eb'; cases eb'
            | some b1 =>
              rw [e1] at ea'; rw [e2] at eb'
              simp only [Option.map_some, Option.some.injEq] at ea' eb'
              subst ea'; subst eb'
              rw [List.append_assoc, List.append_assoc, col_order hv.1 hw.1 hx hy, tupleCompare,
                ih hv.2 hw.2 a1 e1 b1 e2]
              cases colCompare v w <;> rfl

/-- ("ab", -3) < ("ab", 2): a case with a shared string column, decided by the second one. -/
example : ValidTuple [.string, .int32] [.str [97#8, 98#8], .i32 (BitVec.ofInt 32 (-3))] ∧
    ValidTuple [.string, .int32] [.str [97#8, 98#8], .i32 2#32] ∧
    tupleCompare [.str [97#8, 98#8], .i32 (BitVec.ofInt 32 (-3))] [.str [97#8, 98#8], .i32 2#32] = .lt := by
  refine ⟨?_, ?_, ?_⟩ <;> simp [ValidTuple, Valid, tupleCompare, colCompare] <;> decide

/-- Strings may contain NUL in SQL; then the order breaks: the tuples ("", 1) and ("\0", 0) sort the wrong way. -/
theorem C04_embedded_nul_counterexample :
    ∃ a b, encodeTuple [.string, .uint8] [.str [], .u32 1#32] [] = some a ∧
      encodeTuple [.string, .uint8] [.str [0#8], .u32 0#32] [] = some b ∧
      tupleCompare [.str [], .u32 1#32] [.str [0#8], .u32 0#32] = .lt ∧ bcmp a b = .gt := by
  refine ⟨_, _, rfl, rfl, ?_, ?_⟩ <;> decide

/-- ... and two different rows can get the same key: ("\0", "") and ("", "\0"). -/
theorem C04_embedded_nul_collision_counterexample :
    encodeTuple [.string, .string] [.str [0#8], .str []] [] = encodeTuple [.string, .string] [.str [], .str [0#8]] [] := by
  decide

/-- Distinct tuples (no NaN, no NUL, no -0.0) get distinct keys. -/
theorem C04_composite_injective {ts : List PType} {vs ws : List PbVal} (hv : ValidTuple ts vs)
    (hw : ValidTuple ts ws) (nv : ∀ v ∈ vs, NotNegZero v) (nw : ∀ w ∈ ws, NotNegZero w) {p a : Bytes}
    (ea : encodeTuple ts vs p = some a) (eb : encodeTuple ts ws p = some a) : vs = ws := by
  induction ts generalizing vs ws p with
  | nil => cases vs <;> cases ws <;> simp [ValidTuple] at hv hw ⊢
  | cons t ts ih =>
    cases vs with
    | nil => simp [ValidTuple] at hv
    | cons v vs => cases ws with
      | nil => simp [ValidTuple] at hw
      | cons w ws =>
        obtain ⟨x, hx⟩ := valid_encodes hv.1 false
        obtain ⟨y, hy⟩ := valid_encodes hw.1 false
        have hx' : encodeField t v p false = some (p ++ x) := by rw [encodeField_prefix, hx]; rfl
        have hy' : encodeField t w p false = some (p ++ y) := by rw [encodeField_prefix, hy]; rfl
        simp only [encodeTuple, hx', hy', Option.bind_some] at ea eb
        have ea0 := ea; have eb0 := eb
        rw [encodeTuple_prefix] at ea eb
        obtain ⟨u, _, hu⟩ := Option.map_eq_some_iff.1 ea
        obtain ⟨u', _, hu'⟩ := Option.map_eq_some_iff.1 eb
        have d1 := decodeField_encodeField hv.1 (nv v (by simp)) hx' u
        have d2 := decodeField_encodeField hw.1 (nw w (by simp)) hy' u'
        rw [hu] at d1; rw [hu'] at d2
        rw [d1] at d2
        injection d2 with h1 h2
        subst h1
        rw [hx] at hy
        injection hy with hxy
        subst hxy
        rw [ih hv.2 hw.2 (fun v h => nv v (by simp [h])) (fun v h => nw v (by simp [h])) ea0 eb0]

/-- The key built from an expression value (range bounds, routing, partition keys) is the key built from the same
value stored in a row: the union member holding `v` read back by the type. -/
def unionOf : PbVal → BitVec 64 × Bytes
  | .i32 x => (x.setWidth 64, [])
  | .i64 x => (x, [])
  | .u32 x => (x.setWidth 64, [])
  | .u64 x => (x, [])
  | .f32 x => (x.setWidth 64, [])
  | .f64 x => (x, [])
  | .bool b => (if b then 1#64 else 0#64, [])
  | .str s => (0#64, s)

theorem C04_bound_keys_match_row_keys {t : PType} {v : PbVal} (h : Valid t v) (k : Bytes) :
    encodeField t v k false = some (appendValue k t (unionOf v).1 (unionOf v).2) := by
  cases t <;> cases v <;> simp only [Valid] at h <;> simp [encodeField, appendValue, unionOf]
  case bool.bool x => cases x <;> rfl

example : Valid .datetime (.u64 0xFFFF000000000001#64) ∧ Valid .string (.str [1#8]) := by simp [Valid]

/-- A LIKE-prefix bound is a prefix of the key of exactly those strings (NUL-free) that start with it. -/
theorem C04_like_prefix_bound_iff {v q : Bytes} (hv : 0#8 ∉ v) (hq : 0#8 ∉ q) (k s : Bytes) :
    (appendStringPrefix k q <+: appendString k v ++ s) ↔ q <+: v := by
  unfold appendString appendStringPrefix
  rw [List.append_assoc, List.append_assoc, List.prefix_append_right_inj]
  constructor
  · intro h
    induction q generalizing v with
    | nil => simp
    | cons x xs ih => cases v with
      | nil =>
        simp only [List.nil_append, List.singleton_append] at h
        rw [List.cons_prefix_cons] at h
        simp [h.1] at hq
      | cons y ys =>
        simp only [List.cons_append] at h
        rw [List.cons_prefix_cons] at h ⊢
        simp only [List.mem_cons, not_or] at hv hq
        exact ⟨h.1, ih hv.2 hq.2 h.2⟩
  · intro h
    exact h.trans (List.prefix_append _ _)

/-! ## C06 keys of different regions and indexes never mix -/

/-- transaction.cpp:489-490 and many others: key = region id, index id, index bytes. -/
def fullKey (region index : BitVec 64) (suffix : Bytes) : Bytes := appendI64 (appendI64 [] region) index ++ suffix

theorem C06_prefix_order (r i r' i' : BitVec 64) (s t : Bytes) :
    bcmp (fullKey r i s) (fullKey r' i' t) =
      ((compare r.toInt r'.toInt).then (compare i.toInt i'.toInt)).then (bcmp s t) := by
  have e1 := toNat_encodeI64 i
  have e2 := toNat_encodeI64 i'
  have := C01_order_i64 [] (beNat 8 (encodeI64 i).toNat ++ s) (beNat 8 (encodeI64 i').toNat ++ t) r r'
  rw [fullKey, fullKey, appendI64_eq, appendI64_eq (appendI64 [] r'), List.append_assoc, List.append_assoc, this,
    fixed_order (encodeI64 i).isLt (encodeI64 i').isLt (x := i.toInt) (y := i'.toInt) (by omega) (by omega) rfl s t]
  cases compare r.toInt r'.toInt <;> rfl

/-- Anything sorted between two keys of one (region, index) pair carries that pair's prefix. -/
theorem C06_contiguous (r i r' i' : BitVec 64) (s t u : Bytes) (h1 : BLe (fullKey r i s) (fullKey r' i' u))
    (h2 : BLe (fullKey r' i' u) (fullKey r i t)) : r' = r ∧ i' = i := by
  unfold BLe at h1 h2
  rw [C06_prefix_order] at h1 h2
  have hr : r'.toInt = r.toInt := by
    rcases Int.lt_trichotomy r'.toInt r.toInt with h | h | h
    · rw [Int.compare_eq_gt.2 h] at h1; exact absurd rfl h1
    · exact h
    · rw [Int.compare_eq_gt.2 h] at h2; exact absurd rfl h2
  rw [Int.compare_eq_eq.2 hr.symm] at h1
  rw [Int.compare_eq_eq.2 hr] at h2
  have hi : i'.toInt = i.toInt := by
    rcases Int.lt_trichotomy i'.toInt i.toInt with h | h | h
    · rw [Int.compare_eq_gt.2 h] at h1; exact absurd rfl h1
    · exact h
    · rw [Int.compare_eq_gt.2 h] at h2; exact absurd rfl h2
  exact ⟨BitVec.eq_of_toInt_eq hr, BitVec.eq_of_toInt_eq hi⟩

theorem C06_disjoint (r i r' i' : BitVec 64) (s t : Bytes) (h : fullKey r i s = fullKey r' i' t) :
    r = r' ∧ i = i' ∧ s = t := by
  have h' : bcmp (fullKey r i s) (fullKey r' i' t) = .eq := bcmp_eq_iff.2 h
  rw [C06_prefix_order] at h'
  have hh := C06_contiguous r' i' r i t t s (by rw [h]; exact BLe.refl _) (by rw [h]; exact BLe.refl _)
  refine ⟨hh.1, hh.2, ?_⟩
  rw [hh.1, hh.2, Int.compare_eq_eq.2 rfl, Int.compare_eq_eq.2 rfl] at h'
  exact bcmp_eq_iff.1 h'

/-- The region and index ids can be read back from any key. -/
theorem C06_ids_readable (r i : BitVec 64) (s : Bytes) :
    extractI64 (fullKey r i s) 0 = some r ∧ extractI64 (fullKey r i s) 8 = some i := by
  constructor
  · have := extractI64_append [] r (beNat 8 (encodeI64 i).toNat ++ s)
    rw [fullKey, appendI64_eq (appendI64 [] r), List.append_assoc]; exact this
  · have := extractI64_append (appendI64 [] r) i s
    rwa [show (appendI64 [] r).length = 8 by simp [appendI64]] at this

/-- Range-deleting `[region r, region r+1)` removes every key of region `r` and no key of another region
(region.cpp and rocks_wrapper remove_range calls; `r` not the maximal id). -/
theorem C06_region_range (r r' i : BitVec 64) (s : Bytes) (hr : r.toInt < 2 ^ 63 - 1) :
    (BLe (appendI64 [] r) (fullKey r' i s) ∧ BLt (fullKey r' i s) (appendI64 [] (r + 1#64))) ↔ r' = r := by
  have hadd : (r + 1#64).toInt = r.toInt + 1 := by
    rw [BitVec.toInt_add, show (1#64).toInt = 1 from rfl]
    have := r.le_toInt
    have := r.toInt_lt
    rw [Int.bmod_eq_of_le] <;> simp at * <;> omega
  have := C01_range_scan_i64 [] (beNat 8 (encodeI64 i).toNat ++ s) r r' (r + 1#64)
  rw [fullKey, appendI64_eq (appendI64 [] r'), List.append_assoc, this, hadd]
  constructor
  · rintro ⟨a, b⟩; exact BitVec.eq_of_toInt_eq (by omega)
  · rintro rfl; omega

example : (5#64).toInt < 2 ^ 63 - 1 := by decide

/-! ## Region end keys (used by C09 – C11) -/

/-- The comparison of region end keys is a total order in which the empty key is the greatest. -/
theorem C09_end_key_order (a b c : Bytes) :
    (endKeyCompare a b = .eq ↔ a = b) ∧ endKeyCompare b a = (endKeyCompare a b).swap ∧
    (endKeyCompare a b = .lt → endKeyCompare b c = .lt → endKeyCompare a c = .lt) ∧
    (a ≠ [] → endKeyCompare a [] = .lt) ∧ (a ≠ [] → b ≠ [] → endKeyCompare a b = bcmp a b) := by
  refine ⟨?_, ?_, ?_, ?_, ?_⟩
  · unfold endKeyCompare
    split
    · simp [*]
    · rename_i h
      split
      · simp [h]
      · split
        · simp [h]
        · rw [bcmp_eq_iff]
  · unfold endKeyCompare
    by_cases h : a = b
    · simp [h]
    · have h' : ¬ b = a := fun e => h e.symm
      rw [if_neg h, if_neg h']
      by_cases ha : a = []
      · have hb : ¬ b = [] := fun e => h (by rw [ha, e])
        simp [ha, hb]
      · by_cases hb : b = []
        · simp [ha, hb]
        · simp [ha, hb, bcmp_swap]
  · unfold endKeyCompare
    intro h1 h2
    by_cases hab : a = b
    · simp [hab] at h1
    rw [if_neg hab] at h1
    by_cases ha : a = []
    · simp [ha] at h1
    rw [if_neg ha] at h1
    by_cases hbc : b = c
    · simp [hbc] at h2
    rw [if_neg hbc] at h2
    by_cases hb : b = []
    · simp [hb] at h2
    rw [if_neg hb] at h1 h2
    by_cases hc : c = []
    · simp [hc, ha]
    rw [if_neg hc] at h2
    have h3 : BLt a c := BLt.trans h1 h2
    have hac : a ≠ c := fun e => by subst e; exact BLt.irrefl _ h3
    rw [if_neg hac, if_neg ha, if_neg hc]; exact h3
  · intro ha; simp [endKeyCompare, ha]
  · intro ha hb
    unfold endKeyCompare
    split
    · rename_i h; subst h; simp
    · rfl

end BaikalDB.KeyEnc
