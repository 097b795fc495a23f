import Verif.Wire.Lemmas
import Verif.Expr.Props
/-! # What the server sends: rows, columns and result sets as messages -/
namespace BaikalDB.Wire
open BaikalDB.Expr

/-! ## Numbers in text -/

theorem digitFill_acc (n : Nat) (acc : Bytes) : digitFill n acc = digitFill n [] ++ acc := by
  induction n using Nat.strongRecOn generalizing acc with
  | _ n ih =>
    by_cases h : n = 0
    · subst h; simp [digitFill]
    · rw [digitFill, if_neg h, digitFill.eq_def n [], if_neg h, ih (n / 10) (by omega) (byte _ :: acc), ih (n / 10) (by omega) [byte _]]
      simp

theorem digitFill_eq (n : Nat) (h : n ≠ 0) : digitFill n [] = natDec n := by
  induction n using Nat.strongRecOn with
  | _ n ih =>
    rw [digitFill, if_neg h, digitFill_acc, natDec]
    by_cases h10 : n < 10
    · have : n / 10 = 0 := by omega
      rw [if_pos h10, this, digitFill, if_pos rfl]
      simp [byte, Nat.mod_eq_of_lt h10]
    · rw [if_neg h10, ih (n / 10) (by omega) (by omega)]
      simp [byte]

theorem digitCount_eq (n : Nat) : digitCount n = (digitFill n []).length := by
  induction n using Nat.strongRecOn with
  | _ n ih =>
    by_cases h : n = 0
    · subst h; simp [digitCount, digitFill]
    · rw [digitCount, if_neg h, digitFill, if_neg h, digitFill_acc, ih (n / 10) (by omega)]
      simp

theorem minText_eq : minText = toStr (-9223372036854775808) := by decide +kernel

theorem natDec_zero : natDec 0 = [0x30#8] := by rw [natDec]; rfl

/-- The serialization of a number into enough room is its decimal text. -/
theorem serInt_eq (x : Int) (room : Nat) :
    serInt x room = if room < (toStr x).length then .resize (toStr x).length else .ok (toStr x) := by
  unfold serInt
  by_cases h0 : x = 0
  · subst h0
    simp [toStr, natDec_zero]
  · by_cases hm : x = -9223372036854775808
    · rw [if_neg h0, if_pos hm, hm, ← minText_eq]
      rfl
    · rw [if_neg h0, if_neg hm]
      have hn : x.natAbs ≠ 0 := by omega
      simp only [digitCount_eq, digitFill_eq _ hn, toStr]
      by_cases hneg : x < 0
      · simp only [if_pos hneg, List.length_cons, List.length_nil, List.singleton_append]
      · simp [if_neg hneg]

theorem serUint_eq (n : Nat) (room : Nat) :
    serUint n room = if room < (toStr n).length then .resize (toStr n).length else .ok (toStr n) := by
  have ht : toStr (n : Int) = natDec n := by simp [toStr]
  unfold serUint
  rw [ht]
  by_cases h0 : n = 0
  · subst h0
    simp [natDec_zero]
  · simp only [if_neg h0, digitCount_eq, digitFill_eq _ h0]

theorem natDec_short (n : Nat) (k : Nat) (h : n < 10 ^ k) (hk : 1 ≤ k) : (natDec n).length ≤ k := by
  induction k generalizing n with
  | zero => omega
  | succ k ih =>
    rw [natDec]
    split
    · simp
    · rename_i h10
      rw [List.length_append]
      have : (natDec (n / 10)).length ≤ k := by
        apply ih
        · rw [Nat.pow_succ] at h; omega
        · rcases Nat.eq_zero_or_pos k with rfl | hk'
          · simp at h; omega
          · exact hk'
      simp
      omega

theorem toStr_short (x : Int) (h : x.natAbs < 10 ^ 20) : (toStr x).length ≤ 21 := by
  have := natDec_short x.natAbs 20 h (by omega)
  unfold toStr
  split
  · simp; omega
  · omega

/-! ## Cells -/

/-- The cell a value becomes: NULL, or its text. -/
def cell (F : Fmt) (v : EV) : Option Bytes :=
  match v.ty with
  | .bool | .int8 | .int16 | .int32 | .int64 | .uint8 | .uint16 | .uint32 | .uint64 => some (toStr ((getInt v).getD 0))
  | .float | .double => some (F.float v)
  | .string | .hex | .json => some v.s
  | .datetime | .timestamp | .date | .time => some (dateString F v)
  | .null | .invalid | .maxvalue | .other => none

/-- The texts of floating-point numbers fit the local buffers they are printed into (24 and 50 bytes). -/
def Fmt.Ok (F : Fmt) : Prop := ∀ v, (F.float v).length < 50

theorem getInt_small (v : EV) (h : v.ty = .bool ∨ v.ty.isInt = true) : ((getInt v).getD 0).natAbs < 10 ^ 20 := by
  have e : ∀ n : Nat, n ≤ 64 → (v.uget n).natAbs < 10 ^ 20 := by
    intro n hn
    have h1 := (v.u.setWidth n).isLt
    have h2 : 2 ^ n ≤ 2 ^ 64 := Nat.pow_le_pow_right (by omega) hn
    simp only [EV.uget, Int.natAbs_natCast]
    omega
  have e' : ∀ n : Nat, n ≤ 64 → (v.sget n).natAbs < 10 ^ 20 := by
    intro n hn
    have h1 := (v.u.setWidth n).isLt
    have h2 : 2 ^ n ≤ 2 ^ 64 := Nat.pow_le_pow_right (by omega) hn
    simp only [EV.sget, BitVec.toInt_eq_toNat_cond]
    split <;> omega
  unfold getInt
  cases hv : v.ty <;> simp [hv, VTy.isInt] at h ⊢ <;> first | exact e _ (by omega) | exact e' _ (by omega)

theorem getInt_nonneg (v : EV) (h : v.ty.isUint = true) : ((((getInt v).getD 0).toNat : Nat) : Int) = (getInt v).getD 0 := by
  unfold getInt
  cases hv : v.ty <;> simp [hv, VTy.isUint] at h ⊢ <;> simp [EV.uget] <;> omega

/-- The serialization of a value that is neither a string nor a date. -/
theorem serialize_eq (F : Fmt) (hF : F.Ok) (v : EV) (hs : isStr v.ty = false)
    (hd : ¬ (v.ty = .datetime ∨ v.ty = .timestamp ∨ v.ty = .date ∨ v.ty = .time)) (room : Nat) :
    serialize F v room = if room < 1 then .resize 1
      else if room < (cellBytes (cell F v)).length then .resize (cellBytes (cell F v)).length
      else .ok (cellBytes (cell F v)) := by
  unfold serialize
  by_cases h1 : room < 1
  · simp [h1]
  rw [if_neg h1, if_neg h1]
  have key : ∀ t : Bytes, t.length < 251 → ((if room - 1 < t.length then Ser.resize t.length else Ser.ok t).counted =
      if room < (cellBytes (some t)).length then .resize (cellBytes (some t)).length else .ok (cellBytes (some t))) := by
    intro t ht
    simp only [cellBytes, lenenc_small _ ht, List.length_append, List.length_cons, List.length_nil]
    by_cases hr : room - 1 < t.length
    · rw [if_pos hr, if_pos (by omega)]; simp [Ser.counted]; omega
    · rw [if_neg hr, if_neg (by omega)]; simp [Ser.counted]
  have one : ¬ room < (cellBytes none).length := by simp [cellBytes]; omega
  have hf : ∀ t : Bytes, t.length < 251 → (if room < t.length + 1 then Ser.resize (t.length + 1) else .ok (byte t.length :: t)) =
      if room < (cellBytes (some t)).length then .resize (cellBytes (some t)).length else .ok (cellBytes (some t)) := by
    intro t ht
    simp only [cellBytes, lenenc_small _ ht, List.length_cons, List.singleton_append]
  have small : v.ty = .bool ∨ v.ty.isInt = true → (toStr ((getInt v).getD 0)).length < 251 := fun h => by
    have := toStr_short _ (getInt_small v h); omega
  have un : v.ty.isUint = true → ((((getInt v).getD 0).toNat : Nat) : Int) = (getInt v).getD 0 := getInt_nonneg v
  have fl : (F.float v).length < 251 := by have := hF v; omega
  cases hv : v.ty <;> simp only [hv, cell] <;> simp [hv, isStr] at hs hd <;>
    first
    | (rw [serInt_eq]; exact key _ (small (by simp [hv, VTy.isInt])))
    | (rw [serUint_eq, un (by simp [hv, VTy.isUint])]; exact key _ (small (by simp [hv, VTy.isInt])))
    | exact hf _ fl
    | (rw [if_neg one]; rfl)

theorem cellBytes_pos (c : Option Bytes) : 1 ≤ (cellBytes c).length := by
  cases c with
  | none => simp [cellBytes]
  | some s => have := lenenc_length s.length; simp [cellBytes]; omega

/-- One more value in a text row. -/
theorem adds_appendText (F : Fmt) (hF : F.Ok) (b : Buf) (hb : b.Ok) (v : EV) (fuel : Nat) (hf : 3 ≤ fuel) :
    Adds (b.appendText F v fuel) b (cellBytes (cell F v)) := by
  obtain ⟨f1, rfl⟩ : ∃ f1, fuel = f1 + 3 := ⟨fuel - 3, by omega⟩
  by_cases hs : isStr v.ty = true
  · simp only [Buf.appendText, hs, if_true]
    have : cell F v = some v.s := by
      unfold cell; cases hv : v.ty <;> simp_all [isStr]
    rw [this]
    exact adds_packStr b hb v.s
  · have hs' : isStr v.ty = false := by simpa using hs
    by_cases hd : v.ty = .datetime ∨ v.ty = .timestamp ∨ v.ty = .date ∨ v.ty = .time
    · rw [Buf.appendText, if_neg hs, if_pos hd]
      have : cell F v = some (dateString F v) := by
        rcases hd with h | h | h | h <;> simp [cell, h]
      rw [this]
      exact adds_packStr b hb _
    · have hcap : ∀ c : Buf, c.Ok → ¬ c.cap < c.data.length := fun c hc => by have := hc.1; omega
      set t := cellBytes (cell F v) with ht
      have hpos : 1 ≤ t.length := cellBytes_pos _
      -- a round with room for the value
      have done : ∀ (c : Buf) (k : Nat), c.Ok → c.data.length + t.length ≤ c.cap →
          c.appendText F v (k + 1) = some { c with data := c.data ++ t } := by
        intro c k hc hroom
        rw [Buf.appendText, if_neg hs, if_neg hd, if_neg (hcap c hc), serialize_eq F hF v hs' hd, ← ht, if_neg (by omega),
          if_neg (by omega)]
      -- a round without
      have again : ∀ (c : Buf) (k : Nat), c.Ok → c.cap - c.data.length < t.length → 1 ≤ c.cap - c.data.length →
          c.appendText F v (k + 1) = (c.room t.length).bind fun b' => b'.appendText F v k := by
        intro c k hc hroom h1
        rw [Buf.appendText, if_neg hs, if_neg hd, if_neg (hcap c hc), serialize_eq F hF v hs' hd, ← ht, if_neg (by omega),
          if_pos hroom]
      have empty : ∀ (c : Buf) (k : Nat), c.Ok → c.cap - c.data.length < 1 →
          c.appendText F v (k + 1) = (c.room 1).bind fun b' => b'.appendText F v k := by
        intro c k hc hroom
        rw [Buf.appendText, if_neg hs, if_neg hd, if_neg (hcap c hc), serialize_eq F hF v hs' hd, if_pos hroom]
      have step2 : ∀ (c : Buf) (k : Nat), c.Ok → 1 ≤ c.cap - c.data.length →
          Adds (c.appendText F v (k + 2)) c t := by
        intro c k hc h1
        by_cases hroom : c.data.length + t.length ≤ c.cap
        · rw [done c (k + 1) hc hroom]
          exact ⟨fun _ => ⟨_, rfl, rfl, by simpa using hroom, hc.2⟩, fun h => absurd h (by have := hc.2; omega)⟩
        · rw [again c (k + 1) hc (by omega) h1]
          constructor
          · intro hl
            obtain ⟨c', hr, hdd, ho, hcc⟩ := room_ok c hc t.length hl
            rw [hr]
            simp only [Option.bind_some]
            rw [done c' k ho (by rw [hdd]; exact hcc)]
            exact ⟨_, rfl, by simp [hdd], by simpa [hdd] using hcc, ho.2⟩
          · intro hl
            rw [room_none c hc _ hl]
            rfl
      by_cases h1 : b.cap - b.data.length < 1
      · rw [empty b (f1 + 2) hb h1]
        constructor
        · intro hl
          obtain ⟨c, hr, hdd, ho, hcc⟩ := room_ok b hb 1 (by omega)
          rw [hr]
          have := (step2 c f1 ho (by rw [hdd]; omega)).1 (by rw [hdd]; exact hl)
          simpa [hdd] using this
        · intro hl
          by_cases hl1 : b.data.length + 1 ≤ maxAlloc
          · obtain ⟨c, hr, hdd, ho, hcc⟩ := room_ok b hb 1 hl1
            rw [hr]
            exact (step2 c f1 ho (by rw [hdd]; omega)).2 (by rw [hdd]; exact hl)
          · rw [room_none b hb 1 (by omega)]
            rfl
      · exact step2 b (f1 + 1) hb (by omega)

theorem adds_appendTexts (F : Fmt) (hF : F.Ok) (vs : List EV) (b : Buf) (hb : b.Ok) :
    Adds (appendTexts F vs b) b (vs.flatMap fun v => cellBytes (cell F v)) := by
  induction vs generalizing b with
  | nil => simpa [appendTexts] using adds_some b hb
  | cons v vs ih =>
    simp only [appendTexts, List.flatMap_cons]
    exact adds_bind (adds_appendText F hF b hb v 3 (Nat.le_refl _)) fun b' _ ho => ih b' ho

end BaikalDB.Wire
