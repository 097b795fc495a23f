import Verif.Wire.Frame
import Verif.Datetime.Props
/-! # Binary rows -/
namespace BaikalDB.Wire
open BaikalDB.Expr

/-! ## Dates -/

theorem num_le2 (n : Nat) (h : n < 65536) : Spec.num [byte n, byte (n / 256)] = n := by
  have := num_le 2 n
  simp only [le] at this
  rw [this]; omega

theorem byte_small (n : Nat) (h : n < 256) : (byte n).toNat = n := by rw [byte_toNat]; omega

theorem num_le4 (n : Nat) (h : n < 2 ^ 32) : Spec.num [byte n, byte (n / 256), byte (n / 256 / 256), byte (n / 256 / 256 / 256)] = n := by
  have := num_le 4 n
  simp only [le] at this
  rw [this]; omega

/-- A point of time whose fields fit the bytes they are sent in. -/
structure Clock.Fits (c : Clock) : Prop where
  year : c.year < 65536
  month : c.month < 256
  day : c.day < 256
  hour : c.hour < 256
  minute : c.minute < 256
  second : c.second < 256
  micro : c.micro = 0

theorem dateOf_clock (c : Clock) (h : c.Fits) :
    Spec.dateOf (if c.dateLen = 0 then [] else le 2 c.year ++ [byte c.month, byte c.day] ++
      (if c.dateLen = 4 then [] else [byte c.hour, byte c.minute, byte c.second] ++ (if c.dateLen = 7 then [] else le 4 c.micro))) =
      some (.date c.year c.month c.day c.hour c.minute c.second 0) := by
  obtain ⟨h1, h2, h3, h4, h5, h6, h7⟩ := h
  by_cases hz : c.hour = 0 ∧ c.minute = 0 ∧ c.second = 0
  · by_cases hd : c.year = 0 ∧ c.month = 0 ∧ c.day = 0
    · obtain ⟨a1, a2, a3⟩ := hz
      obtain ⟨b1, b2, b3⟩ := hd
      simp [Clock.dateLen, a1, a2, a3, b1, b2, b3, h7, Spec.dateOf]
    · have e0 : c.dateLen = 4 := by
        unfold Clock.dateLen
        rw [if_neg (fun hc => hd ⟨hc.1, hc.2.1, hc.2.2.1⟩), if_pos ⟨hz.1, hz.2.1, hz.2.2, h7⟩]
      obtain ⟨a1, a2, a3⟩ := hz
      rw [e0, a1, a2, a3]
      simp [le, Spec.dateOf, num_le2 _ h1, byte_small _ h2, byte_small _ h3]
  · have e0 : c.dateLen = 7 := by
      unfold Clock.dateLen
      rw [if_neg (fun hc => hz ⟨hc.2.2.2.1, hc.2.2.2.2.1, hc.2.2.2.2.2.1⟩), if_neg (fun hc => hz ⟨hc.1, hc.2.1, hc.2.2.1⟩),
        if_pos h7]
    rw [e0]
    simp [le, Spec.dateOf, num_le2 _ h1, byte_small _ h2, byte_small _ h3, byte_small _ h4, byte_small _ h5, byte_small _ h6]

theorem clock_datetime (dt : Nat) : (timeStruct dt tDatetime).Fits ∧ timeStruct dt tDatetime =
    { year := (Datetime.unpack dt).year, month := (Datetime.unpack dt).month, day := (Datetime.unpack dt).day,
      hour := (Datetime.unpack dt).hour, minute := (Datetime.unpack dt).minute, second := (Datetime.unpack dt).second } := by
  have e : timeStruct dt tDatetime =
    { year := (Datetime.unpack dt).year, month := (Datetime.unpack dt).month, day := (Datetime.unpack dt).day,
      hour := (Datetime.unpack dt).hour, minute := (Datetime.unpack dt).minute, second := (Datetime.unpack dt).second } := by
    unfold timeStruct
    rw [if_neg (by decide), if_neg (by decide), if_pos rfl]
  refine ⟨?_, e⟩
  rw [e, Datetime.unpack_eq]
  constructor <;> simp only <;> omega

theorem localtime_fits (ts : Nat) (h : ts < 2 ^ 32) : (Datetime.localtime ts 8).fields.year < 65536 ∧
    (Datetime.localtime ts 8).fields.month < 256 ∧ (Datetime.localtime ts 8).fields.day < 256 ∧
    (Datetime.localtime ts 8).fields.hour < 256 ∧ (Datetime.localtime ts 8).fields.minute < 256 ∧
    (Datetime.localtime ts 8).fields.second < 256 := by
  by_cases h0 : ts = 0
  · have e : Datetime.localtime (ts : Int) 8 = ⟨1970, 0, 1, 8, 0, 0, 0, 4⟩ := by rw [h0]; decide
    rw [e]
    simp [Datetime.Tm.fields]
  · have := Datetime.C29_timestamp_fields (ts : Int) (by omega) (by omega)
    simp only [Prod.mk.injEq] at this
    obtain ⟨⟨f1, f2, f3, f4, f5, f6, f7⟩, -, e1, e2, e3, e4, e5, e6, -⟩ := this
    simp only [Datetime.Tm.fields]
    generalize Datetime.localtime (ts : Int) 8 = tm at *
    generalize Datetime.unpack (Datetime.ofTimestamp (ts : Int)) = f at *
    omega

theorem clock_timestamp (ts : Nat) (h : ts < 2 ^ 32) : (timeStruct ts tTimestamp).Fits ∧ timeStruct ts tTimestamp =
    { year := (Datetime.localtime ts 8).fields.year, month := (Datetime.localtime ts 8).fields.month,
      day := (Datetime.localtime ts 8).fields.day, hour := (Datetime.localtime ts 8).fields.hour,
      minute := (Datetime.localtime ts 8).fields.minute, second := (Datetime.localtime ts 8).fields.second } := by
  have e : timeStruct ts tTimestamp =
    { year := (Datetime.localtime ts 8).fields.year, month := (Datetime.localtime ts 8).fields.month,
      day := (Datetime.localtime ts 8).fields.day, hour := (Datetime.localtime ts 8).fields.hour,
      minute := (Datetime.localtime ts 8).fields.minute, second := (Datetime.localtime ts 8).fields.second } := by
    unfold timeStruct
    rw [if_neg (by decide), if_pos rfl]
  refine ⟨?_, e⟩
  obtain ⟨h1, h2, h3, h4, h5, h6⟩ := localtime_fits ts h
  rw [e]
  exact ⟨h1, h2, h3, h4, h5, h6, rfl⟩

/-! ## Values -/

/-- What the client of a binary row reads for a value. -/
def seen (v : EV) : Spec.Val :=
  match v.ty with
  | .bool => .int (Spec.intOf 1 false (v.u.toNat % 256))
  | .int8 | .int16 | .int32 | .int64 | .uint8 | .uint16 | .uint32 | .uint64 => .int ((getInt v).getD 0)
  | .float => .f32 (v.u.toNat % 2 ^ 32)
  | .double => .f64 v.u.toNat
  | .string | .hex | .json => .str v.s
  | .datetime =>
    let f := Datetime.unpack v.u.toNat
    .date f.year f.month f.day f.hour f.minute f.second 0
  | .timestamp =>
    let f := (Datetime.localtime (v.u.toNat % 2 ^ 32 : Nat) 8).fields
    .date f.year f.month f.day f.hour f.minute f.second 0
  | .date =>
    let ym := (v.u.toNat % 2 ^ 32) >>> 5 &&& 0x1FFFF
    .date (ym / 13) (ym % 13) (v.u.toNat % 2 ^ 32 &&& 0x1F) 0 0 0 0
  | .time =>
    let t := v.sget 32
    let h := Datetime.timeHour t
    if h % 24 = 0 ∧ Datetime.timeMin t = 0 ∧ Datetime.timeSec t = 0 then .time false 0 0 0 0 0
    else .time (decide (t < 0)) (h / 24) (h % 24) (Datetime.timeMin t) (Datetime.timeSec t) 0
  | .null | .invalid | .maxvalue | .other => .null

/-- The bytes of a value. -/
def binBytes (v : EV) (type : Nat) : Bytes :=
  if v.isNull then []
  else if isStr v.ty then cellBytes (some v.s)
  else if type = tLonglong then le 8 (num64 v)
  else if type = tDouble then le 8 v.u.toNat
  else if type = tLong ∨ type = tInt24 then le 4 (num64 v)
  else if type = tFloat then le 4 (v.u.setWidth 32).toNat
  else if type = tShort then le 2 (num64 v)
  else if type = tTiny then le 1 (num64 v)
  else [byte (datetimeBuf (num64 v) type).length] ++ datetimeBuf (num64 v) type

/-- A value is sent in a column of its own type, or is NULL. -/
def Typed (v : EV) (type : Nat) : Prop :=
  v.isNull = true ∨ (isStr v.ty = true ∧ Spec.isText type) ∨
    (v.ty ≠ .maxvalue ∧ v.ty ≠ .other ∧ isStr v.ty = false ∧ type = mysqlType v.ty)

theorem intOf_signed (k : Nat) (x : Int) (hk : k = 8 ∨ k = 16 ∨ k = 32 ∨ k = 64) (h : -2 ^ (k - 1) ≤ x ∧ x < 2 ^ (k - 1)) :
    Spec.intOf (k / 8) false ((BitVec.ofInt 64 x).toNat % 256 ^ (k / 8)) = x := by
  have e : ((BitVec.ofInt 64 x).toNat : Int) = x % 2 ^ 64 := by simp [BitVec.toNat_ofInt]; try omega
  unfold Spec.intOf
  rcases hk with rfl | rfl | rfl | rfl <;> simp at h ⊢ <;> split <;> omega

theorem intOf_unsigned (k : Nat) (n : Nat) (hk : k = 8 ∨ k = 16 ∨ k = 32 ∨ k = 64) (h : n < 2 ^ k) :
    Spec.intOf (k / 8) true ((BitVec.ofInt 64 (n : Int)).toNat % 256 ^ (k / 8)) = n := by
  have e : ((BitVec.ofInt 64 (n : Int)).toNat : Int) = (n : Int) % 2 ^ 64 := by simp
  unfold Spec.intOf
  rcases hk with rfl | rfl | rfl | rfl <;> simp at h ⊢ <;> omega

theorem sget_range (v : EV) (k : Nat) (hk : k = 8 ∨ k = 16 ∨ k = 32 ∨ k = 64) : -2 ^ (k - 1) ≤ v.sget k ∧ v.sget k < 2 ^ (k - 1) := by
  have h1 := (v.u.setWidth k).isLt
  simp only [EV.sget, BitVec.toInt_eq_toNat_cond]
  rcases hk with rfl | rfl | rfl | rfl <;> simp at h1 ⊢ <;> split <;> omega

theorem num64_int (v : EV) (x : Int) (h : getInt v = some x) : num64 v = (BitVec.ofInt 64 x).toNat := by simp [num64, h]

theorem binVal_int (t k : Nat) (u : Bool) (n : Nat) (r : Bytes) (hk : Spec.intWidth t = k) (h0 : 0 < k) :
    Spec.binVal t u (le k n ++ r) = some (.int (Spec.intOf k u (n % 256 ^ k)), r) := by
  have hl : ¬ (le k n ++ r).length < k := by simp
  unfold Spec.binVal
  simp only [hk]
  rw [if_pos h0, if_neg hl]
  simp [List.take_append, List.drop_append, num_le]

theorem binVal_date (t : Nat) (u : Bool) (d r : Bytes) (w : Spec.Val) (hk : Spec.isDate t) (hl : d.length < 256)
    (hd : Spec.dateOf d = some w) : Spec.binVal t u ([byte d.length] ++ d ++ r) = some (w, r) := by
  have e := byte_small _ hl
  unfold Spec.binVal
  have h0 : Spec.intWidth t = 0 ∧ t ≠ 4 ∧ t ≠ 5 := by
    unfold Spec.isDate at hk
    rcases hk with rfl | rfl | rfl <;> decide
  simp only [h0.1, Nat.lt_irrefl, if_false, if_neg h0.2.1, if_neg h0.2.2, if_pos hk, List.singleton_append, List.cons_append, e]
  simp [hd]

theorem binVal_time (u : Bool) (d r : Bytes) (w : Spec.Val) (hl : d.length < 256)
    (hd : Spec.timeOf d = some w) : Spec.binVal 11 u ([byte d.length] ++ d ++ r) = some (w, r) := by
  have e := byte_small _ hl
  unfold Spec.binVal
  have h0 : Spec.intWidth 11 = 0 ∧ ¬ Spec.isDate 11 := by decide
  simp only [h0.1, Nat.lt_irrefl, if_false, if_neg h0.2, List.singleton_append, List.cons_append, e]
  simp [hd]

theorem datetimeBuf_short (dt t : Nat) : (datetimeBuf dt t).length < 256 := by
  unfold datetimeBuf
  simp only
  repeat' split
  all_goals simp

theorem and_17 (x : Nat) : x &&& 0x1FFFF = x % 131072 := Nat.and_two_pow_sub_one_eq_mod x 17
theorem and_5 (x : Nat) : x &&& 0x1F = x % 32 := Nat.and_two_pow_sub_one_eq_mod x 5

theorem time_bounds (t : Int) : Datetime.timeHour t < 1024 ∧ Datetime.timeMin t < 64 ∧ Datetime.timeSec t < 64 := by
  have h10 : ∀ x : Nat, x &&& 0x3FF = x % 1024 := fun x => Nat.and_two_pow_sub_one_eq_mod x 10
  have h6 : ∀ x : Nat, x &&& 0x3F = x % 64 := fun x => Nat.and_two_pow_sub_one_eq_mod x 6
  simp only [Datetime.timeHour, Datetime.timeMin, Datetime.timeSec, h10, h6]
  omega

theorem num64_u32 (v : EV) (h : getInt v = some (v.uget 32)) : num64 v = v.u.toNat % 2 ^ 32 := by
  rw [num64_int v _ h]
  simp [EV.uget, BitVec.toNat_ofInt]
  omega

theorem toInt_ofInt64 (t : Int) (h : -2 ^ (32 - 1) ≤ t ∧ t < 2 ^ (32 - 1)) :
    (BitVec.ofNat 32 (BitVec.ofInt 64 t).toNat).toInt = t := by
  have e : ((BitVec.ofInt 64 t).toNat : Int) = t % 2 ^ 64 := by simp [BitVec.toNat_ofInt]; try omega
  rw [BitVec.toInt_eq_toNat_cond, BitVec.toNat_ofNat]
  split <;> omega

theorem binVal_binBytes (v : EV) (type : Nat) (u : Bool) (hn : v.isNull = false) (ht : Typed v type)
    (hu : v.ty.isInt = true → u = v.ty.isUint) (hb : v.ty = .bool → u = false)
    (hs : isStr v.ty = true → v.s.length < 2 ^ 64) (r : Bytes) : Spec.binVal type u (binBytes v type ++ r) = some (seen v, r) := by
  unfold binBytes
  rw [if_neg (by simp [hn])]
  rcases ht with ht | ⟨h1, h2⟩ | ⟨h1, h2, h3, h4⟩
  · simp [hn] at ht
  · rw [if_pos h1]
    have hseen : seen v = .str v.s := by
      unfold seen; cases hv : v.ty <;> simp_all [isStr]
    have ht2 : Spec.intWidth type = 0 ∧ type ≠ 4 ∧ type ≠ 5 ∧ ¬ Spec.isDate type ∧ type ≠ 11 := by
      unfold Spec.isText at h2
      unfold Spec.intWidth Spec.isDate
      refine ⟨?_, by omega, by omega, by omega, by omega⟩
      repeat' split
      all_goals omega
    obtain ⟨a1, a2, a3, a4, a5⟩ := ht2
    unfold Spec.binVal
    simp only [a1, Nat.lt_irrefl, if_false, if_neg a2, if_neg a3, if_neg a4, if_neg a5, if_pos h2]
    rw [item_cellBytes (some v.s) (by intro s h; cases h; exact hs h1), hseen]
  · rw [if_neg (by simp [h3])]
    have S : ∀ k, (k = 8 ∨ k = 16 ∨ k = 32 ∨ k = 64) → getInt v = some (v.sget k) →
        Spec.intOf (k / 8) false (num64 v % 256 ^ (k / 8)) = v.sget k := fun k hk hg => by
      rw [num64_int v _ hg]; exact intOf_signed k _ hk (sget_range v k hk)
    have U : ∀ k, (k = 8 ∨ k = 16 ∨ k = 32 ∨ k = 64) → getInt v = some (v.uget k) →
        Spec.intOf (k / 8) true (num64 v % 256 ^ (k / 8)) = v.uget k := fun k hk hg => by
      rw [num64_int v _ hg]; exact intOf_unsigned k _ hk (v.u.setWidth k).isLt
    cases hv : v.ty <;> simp [hv, isStr] at h1 h2 h3 <;> simp [EV.isNull, hv] at hn <;> simp only [hv, mysqlType] at h4 <;>
      subst h4
    case bool =>
      rw [if_neg (by decide), if_neg (by decide), if_neg (by decide), if_neg (by decide), if_neg (by decide), if_pos (by simp),
        binVal_int tTiny 1 u _ r rfl (by omega), hb hv]
      have : num64 v % 256 ^ 1 = v.u.toNat % 256 := by
        rw [num64_int v (v.uget 8) (by simp [getInt, hv])]
        simp [EV.uget, BitVec.toNat_ofInt]; omega
      rw [this]
      simp [seen, hv]
    case int8 =>
      rw [if_neg (by decide), if_neg (by decide), if_neg (by decide), if_neg (by decide), if_neg (by decide), if_pos (by simp),
        binVal_int tTiny 1 u _ r rfl (by omega), hu (by simp [hv, VTy.isInt])]
      have := S 8 (by simp) (by simp [getInt, hv])
      simp only [hv, VTy.isUint]
      simp at this
      simp [seen, hv, getInt, this]
    case uint8 =>
      rw [if_neg (by decide), if_neg (by decide), if_neg (by decide), if_neg (by decide), if_neg (by decide), if_pos (by simp),
        binVal_int tTiny 1 u _ r rfl (by omega), hu (by simp [hv, VTy.isInt])]
      have := U 8 (by simp) (by simp [getInt, hv])
      simp only [hv, VTy.isUint]
      simp at this
      simp [seen, hv, getInt, this]
    case int16 =>
      rw [if_neg (by decide), if_neg (by decide), if_neg (by decide), if_neg (by decide), if_pos (by simp),
        binVal_int tShort 2 u _ r rfl (by omega), hu (by simp [hv, VTy.isInt])]
      have := S 16 (by simp) (by simp [getInt, hv])
      simp only [hv, VTy.isUint]
      simp at this
      simp [seen, hv, getInt, this]
    case uint16 =>
      rw [if_neg (by decide), if_neg (by decide), if_neg (by decide), if_neg (by decide), if_pos (by simp),
        binVal_int tShort 2 u _ r rfl (by omega), hu (by simp [hv, VTy.isInt])]
      have := U 16 (by simp) (by simp [getInt, hv])
      simp only [hv, VTy.isUint]
      simp at this
      simp [seen, hv, getInt, this]
    case int32 =>
      rw [if_neg (by decide), if_neg (by decide), if_pos (by decide),
        binVal_int tLong 4 u _ r rfl (by omega), hu (by simp [hv, VTy.isInt])]
      have := S 32 (by simp) (by simp [getInt, hv])
      simp only [hv, VTy.isUint]
      simp at this
      simp [seen, hv, getInt, this]
    case uint32 =>
      rw [if_neg (by decide), if_neg (by decide), if_pos (by decide),
        binVal_int tLong 4 u _ r rfl (by omega), hu (by simp [hv, VTy.isInt])]
      have := U 32 (by simp) (by simp [getInt, hv])
      simp only [hv, VTy.isUint]
      simp at this
      simp [seen, hv, getInt, this]
    case int64 =>
      rw [if_pos (by simp), binVal_int tLonglong 8 u _ r rfl (by omega), hu (by simp [hv, VTy.isInt])]
      have := S 64 (by simp) (by simp [getInt, hv])
      simp only [hv, VTy.isUint]
      simp at this
      simp [seen, hv, getInt, this]
    case uint64 =>
      rw [if_pos (by simp), binVal_int tLonglong 8 u _ r rfl (by omega), hu (by simp [hv, VTy.isInt])]
      have := U 64 (by simp) (by simp [getInt, hv])
      simp only [hv, VTy.isUint]
      simp at this
      simp [seen, hv, getInt, this]
    case float =>
      rw [if_neg (by decide), if_neg (by decide), if_neg (by decide), if_pos (by simp)]
      have hm := (v.u.setWidth 32).isLt
      have hl : ¬ (le 4 (v.u.setWidth 32).toNat ++ r).length < 4 := by simp
      have e : Spec.num ((le 4 (v.u.setWidth 32).toNat ++ r).take 4) = v.u.toNat % 2 ^ 32 := by
        rw [List.take_append_of_le_length (by simp), List.take_of_length_le (by simp), num_le]
        simp
      have e2 : (le 4 (v.u.setWidth 32).toNat ++ r).drop 4 = r := by
        rw [List.drop_append_of_le_length (by simp), List.drop_of_length_le (by simp), List.nil_append]
      unfold Spec.binVal
      simp only [show Spec.intWidth tFloat = 0 from rfl, Nat.lt_irrefl, if_false, if_neg hl, if_pos (show tFloat = 4 from rfl), e, e2]
      simp [seen, hv]
    case double =>
      rw [if_neg (by decide), if_pos (by simp)]
      have hm := v.u.isLt
      have hl : ¬ (le 8 v.u.toNat ++ r).length < 8 := by simp
      have e : Spec.num ((le 8 v.u.toNat ++ r).take 8) = v.u.toNat := by
        rw [List.take_append_of_le_length (by simp), List.take_of_length_le (by simp), num_le]
        omega
      have e2 : (le 8 v.u.toNat ++ r).drop 8 = r := by
        rw [List.drop_append_of_le_length (by simp), List.drop_of_length_le (by simp), List.nil_append]
      unfold Spec.binVal
      simp only [show Spec.intWidth tDouble = 0 from rfl, Nat.lt_irrefl, if_false, if_neg hl, if_neg (show ¬ tDouble = 4 by decide),
        if_pos (show tDouble = 5 from rfl), e, e2]
      simp [seen, hv]
    case datetime =>
      rw [if_neg (by decide), if_neg (by decide), if_neg (by decide), if_neg (by decide), if_neg (by decide), if_neg (by decide)]
      apply binVal_date _ _ _ _ _ (by decide) (datetimeBuf_short _ _)
      have hg : num64 v = v.u.toNat := by
        rw [num64_int v (v.uget 64) (by simp [getInt, hv])]
        simp [EV.uget]
      obtain ⟨c1, c2⟩ := clock_datetime v.u.toNat
      have := dateOf_clock _ c1
      unfold datetimeBuf
      rw [if_neg (by decide), if_pos (by decide), hg]
      simp only
      rw [this, c2]
      simp [seen, hv]
    case timestamp =>
      rw [if_neg (by decide), if_neg (by decide), if_neg (by decide), if_neg (by decide), if_neg (by decide), if_neg (by decide)]
      apply binVal_date _ _ _ _ _ (by decide) (datetimeBuf_short _ _)
      have hg : num64 v = v.u.toNat % 2 ^ 32 := num64_u32 v (by simp [getInt, hv])
      obtain ⟨c1, c2⟩ := clock_timestamp (v.u.toNat % 2 ^ 32) (by omega)
      have := dateOf_clock _ c1
      unfold datetimeBuf
      rw [if_neg (by decide), if_pos (by decide), hg]
      simp only
      rw [this, c2]
      simp [seen, hv]
    case date =>
      rw [if_neg (by decide), if_neg (by decide), if_neg (by decide), if_neg (by decide), if_neg (by decide), if_neg (by decide)]
      apply binVal_date _ _ _ _ _ (by decide) (datetimeBuf_short _ _)
      have hg : num64 v = v.u.toNat % 2 ^ 32 := num64_u32 v (by simp [getInt, hv])
      unfold datetimeBuf
      rw [if_pos (by simp), hg]
      simp only [seen, hv, and_17, and_5, le, List.cons_append, List.nil_append, Spec.dateOf, Nat.mod_mod]
      rw [num_le2 _ (by omega), byte_small _ (by omega), byte_small _ (by omega)]
    case time =>
      rw [if_neg (by decide), if_neg (by decide), if_neg (by decide), if_neg (by decide), if_neg (by decide), if_neg (by decide)]
      apply binVal_time _ _ _ _ (datetimeBuf_short _ _)
      have hg : (BitVec.ofNat 32 (num64 v)).toInt = v.sget 32 := by
        rw [num64_int v (v.sget 32) (by simp [getInt, hv])]
        exact toInt_ofInt64 _ (sget_range v 32 (by simp))
      unfold datetimeBuf
      rw [if_neg (by decide), if_neg (by decide), if_pos (by simp)]
      simp only [timeStruct, if_true, hg]
      obtain ⟨b1, b2, b3⟩ := time_bounds (v.sget 32)
      simp only [seen, hv]
      generalize v.sget 32 = t at *
      by_cases hz : Datetime.timeHour t % 24 = 0 ∧ Datetime.timeMin t = 0 ∧ Datetime.timeSec t = 0
      · rw [if_pos hz]
        obtain ⟨z1, z2, z3⟩ := hz
        simp [Clock.timeLen, z1, z2, z3, Spec.timeOf]
      · rw [if_neg hz]
        have hz' : ¬ (Datetime.timeHour t % 24 = 0 ∧ Datetime.timeMin t = 0 ∧ Datetime.timeSec t = 0 ∧ True) := by
          simpa using hz
        simp only [Clock.timeLen]
        rw [if_neg hz']
        simp only [if_true, le, Nat.reduceEqDiff, if_false, List.cons_append, List.nil_append, Spec.timeOf]
        rw [num_le4 _ (by omega), byte_small _ (by omega), byte_small _ (by omega), byte_small _ (by omega)]
        by_cases ht : t < 0 <;> simp [ht, byte]

/-! ## Rows -/

/-- The result of appending to the buffer while filling the bitmap. -/
def AddsM (r : Option (Buf × Bytes)) (b : Buf) (d m : Bytes) : Prop :=
  (b.data.length + d.length ≤ maxAlloc → ∃ b', r = some (b', m) ∧ b'.data = b.data ++ d ∧ b'.Ok) ∧
  (maxAlloc < b.data.length + d.length → r = none)

theorem Adds.map {r : Option Buf} {b : Buf} {d : Bytes} (h : Adds r b d) (m : Bytes) : AddsM (r.map fun b' => (b', m)) b d m := by
  constructor
  · intro hl
    obtain ⟨b', hr, hd, ho⟩ := h.1 hl
    exact ⟨b', by rw [hr]; rfl, hd, ho⟩
  · intro hl
    rw [h.2 hl]; rfl

/-- The bitmap after one value. -/
def mapAfter (m : Bytes) (v : EV) (i : Nat) : Bytes := if v.isNull then setBit m i else m

theorem addsM_appendBinary (b : Buf) (hb : b.Ok) (v : EV) (type : Nat) (ht : Typed v type) (m : Bytes) (idx off : Nat) :
    AddsM (b.appendBinary v type m idx off) b (binBytes v type) (mapAfter m v (idx + off)) := by
  unfold Buf.appendBinary binBytes mapAfter
  by_cases hn : v.isNull = true
  · simp only [if_pos hn]
    have := hb.1; have := hb.2
    exact ⟨fun _ => ⟨b, rfl, by simp, hb⟩, fun h => absurd h (by simp; omega)⟩
  · simp only [if_neg hn]
    by_cases hs : isStr v.ty = true
    · simp only [if_pos hs]
      exact (adds_packStr b hb v.s).map m
    · simp only [if_neg hs]
      by_cases h1 : type = tLonglong
      · simp only [if_pos h1]; exact (adds_append b hb _).map m
      by_cases h2 : type = tDouble
      · simp only [if_neg h1, if_pos h2]; exact (adds_append b hb _).map m
      by_cases h3 : type = tLong ∨ type = tInt24
      · simp only [if_neg h1, if_neg h2, if_pos h3]; exact (adds_append b hb _).map m
      by_cases h4 : type = tFloat
      · simp only [if_neg h1, if_neg h2, if_neg h3, if_pos h4]; exact (adds_append b hb _).map m
      by_cases h5 : type = tShort
      · simp only [if_neg h1, if_neg h2, if_neg h3, if_neg h4, if_pos h5]; exact (adds_append b hb _).map m
      by_cases h6 : type = tTiny
      · simp only [if_neg h1, if_neg h2, if_neg h3, if_neg h4, if_neg h5, if_pos h6]; exact (adds_append b hb _).map m
      have h7 : type = tDate ∨ type = tTimestamp ∨ type = tDatetime ∨ type = tTime := by
        rcases ht with ht | ⟨h, -⟩ | ⟨g1, g2, g3, g4⟩
        · exact absurd ht hn
        · exact absurd h hs
        · subst g4
          cases hv : v.ty <;> simp [hv, EV.isNull, isStr] at g1 g2 g3 hn hs h1 h2 h3 h4 h5 h6 ⊢ <;>
            first | (simp [mysqlType] at h1 h2 h3 h4 h5 h6; done) | simp [mysqlType]
      simp only [if_neg h1, if_neg h2, if_neg h3, if_neg h4, if_neg h5, if_neg h6, if_pos h7]
      exact Adds.map (adds_bind (adds_append b hb _) fun b' _ ho => adds_append b' ho _) m

/-- The bitmap after some values. -/
def mapAfters : List (EV × Nat) → Nat → Bytes → Bytes
  | [], _, m => m
  | (v, _) :: vs, i, m => mapAfters vs (i + 1) (mapAfter m v (i + 2))

theorem addsM_appendBinaries (vs : List (EV × Nat)) (ht : ∀ p ∈ vs, Typed p.1 p.2) (idx : Nat) (b : Buf) (hb : b.Ok) (m : Bytes) :
    AddsM (appendBinaries vs idx b m) b (vs.flatMap fun p => binBytes p.1 p.2) (mapAfters vs idx m) := by
  induction vs generalizing idx b m with
  | nil =>
    have := hb.1; have := hb.2
    exact ⟨fun _ => ⟨b, rfl, by simp, hb⟩, fun h => absurd h (by simp; omega)⟩
  | cons p vs ih =>
    obtain ⟨v, t⟩ := p
    have h1 := addsM_appendBinary b hb v t (ht (v, t) (by simp)) m idx 2
    have h2 := ih fun q hq => ht q (by simp [hq])
    simp only [appendBinaries, List.flatMap_cons, mapAfters]
    constructor
    · intro hl
      rw [List.length_append] at hl
      obtain ⟨b', hr, hd, ho⟩ := h1.1 (by omega)
      obtain ⟨b2, hr2, hd2, ho2⟩ := (h2 (idx + 1) b' ho _).1 (by rw [hd, List.length_append]; omega)
      exact ⟨b2, by rw [hr]; exact hr2, by rw [hd2, hd, List.append_assoc], ho2⟩
    · intro hl
      rw [List.length_append] at hl
      by_cases hl1 : b.data.length + (binBytes v t).length ≤ maxAlloc
      · obtain ⟨b', hr, hd, ho⟩ := h1.1 hl1
        rw [hr]
        exact (h2 (idx + 1) b' ho _).2 (by rw [hd, List.length_append]; omega)
      · rw [h1.2 (by omega)]; rfl

theorem setBit_length (m : Bytes) (i : Nat) : (setBit m i).length = m.length := by simp [setBit]

theorem mapAfters_length (vs : List (EV × Nat)) (i : Nat) (m : Bytes) : (mapAfters vs i m).length = m.length := by
  induction vs generalizing i m with
  | nil => rfl
  | cons p vs ih =>
    simp only [mapAfters, ih, mapAfter]
    split
    · exact setBit_length m _
    · rfl

/-- The length of the bitmap of a row. -/
def mapLen (n : Nat) : Nat := (n + 7 + 2) / 8

/-- The message of a binary row. -/
def binaryMsg (vs : List (EV × Nat)) : Bytes :=
  [0#8] ++ mapAfters vs 0 (List.replicate (mapLen vs.length) 0#8) ++ vs.flatMap fun p => binBytes p.1 p.2

theorem packBinaryRow_sends (b : Buf) (hb : b.Ok) (pid : Nat) (vs : List (EV × Nat)) (ht : ∀ p ∈ vs, Typed p.1 p.2) :
    Sends (packBinaryRow b pid vs) b pid [binaryMsg vs] := by
  set z := List.replicate (mapLen vs.length) 0#8 with hz
  set vals := vs.flatMap fun p => binBytes p.1 p.2 with hvals
  set m := mapAfters vs 0 z with hm
  have hml : m.length = z.length := mapAfters_length vs 0 z
  set hdr : Bytes := [1#8, 0#8, 0#8, byte (pid + 1)] with hhdr
  set body : Bytes := [0#8] ++ m ++ vals with hbody
  have hwl := writeMessage_length (pid + 1) body
  have hmsg : binaryMsg vs = body := rfl
  have hbl : body.length = 1 + z.length + vals.length := by simp [hbody, hml]; omega
  rw [hmsg]
  have hadd : Adds ((b.append hdr).bind fun b1 => b1.append [0#8]) b (hdr ++ [0#8]) :=
    adds_bind (adds_append b hb _) fun b' _ ho => adds_append b' ho _
  have hhl : (hdr ++ [0#8]).length = 5 := rfl
  have hrw : packBinaryRow b pid vs = ((b.append hdr).bind fun b1 => b1.append [0#8]).bind fun b2 =>
      (b2.append z).bind fun b3 => (appendBinaries vs 0 b3 z).bind fun r =>
          frame 0#8 { r.1 with data := writeAt r.1.data b2.data.length r.2 } b.data.length
            (r.1.data.length - b.data.length - 4) (pid + 1) := by
    rw [Option.bind_assoc]
    rfl
  rw [hrw]
  have over : maxAlloc < b.data.length + 4 + body.length → (((b.append hdr).bind fun b1 => b1.append [0#8]).bind fun b2 =>
      (b2.append z).bind fun b3 => (appendBinaries vs 0 b3 z).bind fun r =>
          frame 0#8 { r.1 with data := writeAt r.1.data b2.data.length r.2 } b.data.length
            (r.1.data.length - b.data.length - 4) (pid + 1)) = none := by
    intro hl
    by_cases h1 : b.data.length + (hdr ++ [0#8]).length ≤ maxAlloc
    · obtain ⟨b2, r2, d2, o2⟩ := hadd.1 h1
      rw [r2, Option.bind_some]
      have d2l : b2.data.length = b.data.length + 5 := by rw [d2, List.length_append, hhl]
      by_cases h2 : b2.data.length + z.length ≤ maxAlloc
      · obtain ⟨b3, r3, d3, o3⟩ := (adds_append b2 o2 z).1 h2
        have d3l : b3.data.length = b2.data.length + z.length := by rw [d3, List.length_append]
        rw [r3, Option.bind_some, (addsM_appendBinaries vs ht 0 b3 o3 z).2 (by rw [← hvals]; omega)]
        rfl
      · rw [(adds_append b2 o2 z).2 (by omega)]; rfl
    · rw [hadd.2 (by omega)]; rfl
  by_cases hfit : b.data.length + 4 + body.length ≤ maxAlloc
  · obtain ⟨b2, r2, d2, o2⟩ := hadd.1 (by omega)
    have d2l : b2.data.length = b.data.length + 5 := by rw [d2, List.length_append, hhl]
    obtain ⟨b3, r3, d3, o3⟩ := (adds_append b2 o2 z).1 (by omega)
    have d3l : b3.data.length = b2.data.length + z.length := by rw [d3, List.length_append]
    obtain ⟨b4, r4, d4, o4⟩ := (addsM_appendBinaries vs ht 0 b3 o3 z).1 (by rw [← hvals]; omega)
    rw [← hvals] at d4
    have d4l : b4.data.length = b3.data.length + vals.length := by rw [d4, List.length_append]
    rw [r2, Option.bind_some, r3, Option.bind_some, r4, Option.bind_some]
    have hw : writeAt b4.data b2.data.length m = b.data ++ [1#8, 0#8, 0#8] ++ (byte (pid + 1) :: body) := by
      rw [d4, d3, writeAt_at _ _ _ _ hml, d2]
      simp [hhdr, hbody]
    have hn : b4.data.length - b.data.length - 4 = body.length := by omega
    simp only [hn]
    rw [← hm, hw]
    have := frame_sends 0#8 body.length { b4 with data := b.data ++ [1#8, 0#8, 0#8] ++ (byte (pid + 1) :: body) } b.data
      [1#8, 0#8, 0#8] body pid ⟨by have := o4.1; simp; omega, o4.2⟩ rfl rfl rfl
    exact sends_one _ _ _ _ this.1 this.2
  · rw [over (by omega)]
    exact sends_one _ _ _ _ (fun h => absurd h (by omega)) fun _ => rfl

/-! ### The bitmap -/

theorem bit_setBit (m : Bytes) (i j : Nat) (h : i / 8 < m.length) :
    Spec.bit (setBit m i) j = (Spec.bit m j || decide (j = i)) := by
  unfold Spec.bit setBit
  have hsh : ∀ k, (byte (1 <<< (i % 8))).toNat.testBit k = decide (k = i % 8) := by
    intro k
    have hi : i % 8 < 8 := by omega
    have e : (byte (1 <<< (i % 8))).toNat = 2 ^ (i % 8) := by
      rw [byte_toNat, Nat.one_shiftLeft]
      exact Nat.mod_eq_of_lt (Nat.pow_lt_pow_right (by omega) hi : (2 : Nat) ^ (i % 8) < 2 ^ 8)
    rw [e, Nat.testBit_two_pow]
    simp [eq_comm]
  by_cases hq : j / 8 = i / 8
  · have hg : (m.set (i / 8) (m.getD (i / 8) 0#8 ||| byte (1 <<< (i % 8)))).getD (j / 8) 0#8 = m.getD (i / 8) 0#8 ||| byte (1 <<< (i % 8)) := by
      rw [hq, List.getD_eq_getElem?_getD, List.getElem?_set_self h]
      rfl
    rw [hg, hq, BitVec.toNat_or, Nat.testBit_or, hsh]
    congr 1
    apply decide_eq_decide.2
    omega
  · have hg : (m.set (i / 8) (m.getD (i / 8) 0#8 ||| byte (1 <<< (i % 8)))).getD (j / 8) 0#8 = m.getD (j / 8) 0#8 := by
      rw [List.getD_eq_getElem?_getD, List.getElem?_set_ne (by omega), ← List.getD_eq_getElem?_getD]
    rw [hg]
    have : j ≠ i := fun h => hq (by rw [h])
    simp [this]

theorem bit_mapAfters (vs : List (EV × Nat)) (i : Nat) (m : Bytes) (h : (i + vs.length + 1) / 8 < m.length) (j : Nat) :
    Spec.bit (mapAfters vs i m) j = (Spec.bit m j || (decide (i + 2 ≤ j) && ((vs[j - (i + 2)]?).any fun p => p.1.isNull))) := by
  induction vs generalizing i m with
  | nil => simp [mapAfters]
  | cons p vs ih =>
    obtain ⟨v, t⟩ := p
    simp only [mapAfters]
    have hl : (mapAfter m v (i + 2)).length = m.length := by
      unfold mapAfter; split
      · exact setBit_length m _
      · rfl
    have hidx : (i + 2) / 8 < m.length := by simp at h; omega
    rw [ih (i + 1) _ (by rw [hl]; simp at h; omega)]
    have hb : Spec.bit (mapAfter m v (i + 2)) j = (Spec.bit m j || (decide (j = i + 2) && v.isNull)) := by
      unfold mapAfter
      by_cases hv : v.isNull = true
      · rw [if_pos hv, bit_setBit _ _ _ hidx, hv]; simp
      · simp [hv]
    rw [hb, Bool.or_assoc]
    congr 1
    by_cases h1 : j = i + 2
    · subst h1; simp
    · by_cases h2 : i + 2 ≤ j
      · have e : j - (i + 2) = (j - (i + 1 + 2)) + 1 := by omega
        have h3 : i + 1 + 2 ≤ j := by omega
        simp [h1, h2, h3, e]
      · have h3 : ¬ i + 1 + 2 ≤ j := by omega
        simp [h1, h2, h3]

theorem bit_zeros (n j : Nat) : Spec.bit (List.replicate n 0#8) j = false := by
  have : (List.replicate n (0#8 : Byte)).getD (j / 8) 0#8 = 0#8 := by
    rw [List.getD_eq_getElem?_getD, List.getElem?_replicate]
    split <;> rfl
  unfold Spec.bit
  rw [this]
  simp

theorem bit_row (vs : List (EV × Nat)) (j : Nat) (hj : j < vs.length) :
    Spec.bit (mapAfters vs 0 (List.replicate (mapLen vs.length) 0#8)) (j + 2) = (vs[j]'hj).1.isNull := by
  rw [bit_mapAfters _ _ _ (by simp [mapLen]; omega), bit_zeros]
  simp [hj]

/-- What the client reads for a value that may be NULL. -/
def shown (v : EV) : Spec.Val := if v.isNull then .null else seen v

theorem binVals_flatMap (m : Bytes) (vs : List (EV × Nat)) (us : List Bool) (hul : us.length = vs.length) (i : Nat)
    (ht : ∀ p ∈ vs, Typed p.1 p.2) (hs : ∀ p ∈ vs, isStr p.1.ty = true → p.1.s.length < 2 ^ 64)
    (hu : ∀ q ∈ vs.zip us, (q.1.1.ty.isInt = true → q.2 = q.1.1.ty.isUint) ∧ (q.1.1.ty = .bool → q.2 = false))
    (hm : ∀ j (hj : j < vs.length), Spec.bit m (i + j + 2) = (vs[j]'hj).1.isNull) :
    Spec.binVals m ((vs.map Prod.snd).zip us) i (vs.flatMap fun p => binBytes p.1 p.2) = some (vs.map fun p => shown p.1) := by
  induction vs generalizing us i with
  | nil => simp [Spec.binVals]
  | cons p vs ih =>
    obtain ⟨v, t⟩ := p
    cases us with
    | nil => simp at hul
    | cons u us =>
      have hm0 := hm 0 (by simp)
      simp only [Nat.add_zero, List.getElem_cons_zero] at hm0
      have IH := ih us (by simpa using hul) (i + 1) (fun p hp => ht p (by simp [hp])) (fun p hp => hs p (by simp [hp]))
        (fun q hq => hu q (by simp [hq])) (fun j hj => by
          have := hm (j + 1) (by simpa using hj)
          rw [show i + 1 + j + 2 = i + (j + 1) + 2 by omega, this]
          simp)
      simp only [List.map_cons, List.zip_cons_cons, Spec.binVals, List.flatMap_cons, hm0]
      by_cases hn : v.isNull = true
      · have e : binBytes v t = [] := by simp [binBytes, hn]
        simp [hn, e, IH, shown]
      · have h0 := hu ((v, t), u) (by simp)
        rw [if_neg hn, binVal_binBytes v t u (by simpa using hn) (ht (v, t) (by simp)) h0.1 h0.2 (hs (v, t) (by simp))]
        simp [IH, shown, hn]

end BaikalDB.Wire
