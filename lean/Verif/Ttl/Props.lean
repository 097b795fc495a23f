import Verif.Ttl.Model
import Verif.KeyEnc.Lemmas
/-!
# Properties of TTL values (C39)
-/
namespace BaikalDB.Ttl
open KeyEnc IndexKey

theorem decodeFirst8_encode (ts : BitVec 64) (v : Bytes) : decodeFirst8 (ttlEncode ts ++ v) = some ts := by
  have := extractI64_append [] ts v
  simpa [extractI64, appendI64, decodeFirst8, ttlEncode] using this

theorem length_ttlEncode (ts : BitVec 64) : (ttlEncode ts).length = 8 := by simp [ttlEncode]

theorem drop_ttlEncode (ts : BitVec 64) (v : Bytes) : (ttlEncode ts ++ v).drop 8 = v := by
  rw [← length_ttlEncode ts, List.drop_left]

/-- Reading back what was written with a TTL gives the expiry and the value (table created with its TTL). -/
theorem C39_roundtrip (ts : BitVec 64) (h : 0 < ts.toInt) (v : Bytes) (ty : IndexType) (mf : Nat) :
    ttlDecode (putValue true ts v) ty mf 0#64 = .ok ts v := by
  simp [ttlDecode, putValue, h, decodeFirst8_encode, drop_ttlEncode]

/-- Point reads and scans treat an entry as expired iff its expiry is before the read time, and return the written
value otherwise. -/
theorem C39_expired_iff_before_read_time (ts readTs : BitVec 64) (h : 0 < ts.toInt) (hr : 0 < readTs.toInt) (v : Bytes)
    (ty : IndexType) (mf : Nat) :
    readValue true readTs ty mf 0#64 (putValue true ts v) = (if ts.toInt < readTs.toInt then .expired else .found v) ∧
    scanValue true readTs ty mf 0#64 (putValue true ts v) = (if ts.toInt < readTs.toInt then .expired else .found v) := by
  simp only [readValue, scanValue, hr, and_self, if_true, C39_roundtrip ts h v ty mf]

/-- A table without TTL stores and returns the value as is. -/
theorem C39_no_ttl (ts readTs base : BitVec 64) (v : Bytes) (ty : IndexType) (mf : Nat) :
    readValue false readTs ty mf base (putValue false ts v) = .found v ∧
    scanValue false readTs ty mf base (putValue false ts v) = .found v := by
  simp [readValue, scanValue, putValue]

/-- With a TTL table but a non-positive expiry the writer stores no prefix, and the reader takes one off anyway: a value
shorter than eight bytes is read out of bounds, a longer one loses its first eight bytes. -/
theorem C39_nonpositive_expiry_counterexample (ty : IndexType) (mf : Nat) :
    ttlDecode (putValue true 0#64 [1#8]) ty mf 0#64 = .ub ∧
    ttlDecode (putValue true 0#64 [128#8, 0#8, 0#8, 0#8, 0#8, 0#8, 0#8, 0#8, 1#8]) ty mf 0#64 = .ok 0#64 [1#8] := by
  refine ⟨rfl, ?_⟩
  simp only [ttlDecode, if_true]
  decide

/-! ## TTL switched on for a table that has data -/

/-- An entry written after the switch (expiry in the years 2020 to 2120) reads back exactly, for ordinary and unique
indexes. -/
theorem C39_online_new_secondary (ts base : BitVec 64) (hv : validTimestampUs ts = true) (hb : base ≠ 0#64) (mf : Nat) :
    ttlDecode (putValue true ts []) .key mf base = .ok ts [] ∧
    ∀ pk, ttlDecode (putValue true ts pk) .uniq mf base = .ok ts pk := by
  have h : 0 < ts.toInt := by
    simp only [validTimestampUs, Bool.and_eq_true, decide_eq_true_eq] at hv; omega
  have hl : ∀ v, ¬ (ttlEncode ts ++ v).length < 8 := by intro v; simp [length_ttlEncode]
  refine ⟨?_, fun pk => ?_⟩
  · have := hl []
    simp only [ttlDecode, hb, if_false, putValue, h, and_self, if_true, this, decodeFirst8_encode, hv,
      drop_ttlEncode, Bool.true_eq_false]
    rw [if_pos (by simp [length_ttlEncode])]
  · simp only [ttlDecode, hb, if_false, putValue, h, and_self, if_true, hl pk, decodeFirst8_encode, hv,
      drop_ttlEncode, Bool.true_eq_false]

/-- ... and for primary rows whose serialized form the walk accepts, unless the walk over the prefixed bytes never ends. -/
theorem C39_online_new_primary (ts base : BitVec 64) (hv : validTimestampUs ts = true) (hb : base ≠ 0#64) (mf : Nat)
    (v : Bytes) (hg : verifyFields v mf = .good) (hh : verifyFields (ttlEncode ts ++ v) mf ≠ .hang) :
    ttlDecode (putValue true ts v) .primary mf base = .ok ts v := by
  have h : 0 < ts.toInt := by
    simp only [validTimestampUs, Bool.and_eq_true, decide_eq_true_eq] at hv; omega
  have hl : ¬ (ttlEncode ts ++ v).length < 8 := by simp [length_ttlEncode]
  simp only [ttlDecode, hb, if_false, putValue, h, and_self, if_true, hl, decodeFirst8_encode, hv,
    drop_ttlEncode, hg, Bool.true_eq_false]
  cases hw : verifyFields (ttlEncode ts ++ v) mf <;> simp_all

/-- An old entry is recognised as such and keeps the table's base expiry exactly when its first eight bytes do not look
like a timestamp, or (primary rows) when what follows them is not itself a row. -/
theorem C39_online_old (base : BitVec 64) (hb : base ≠ 0#64) (mf : Nat) (v : Bytes) :
    ttlDecode [] .key mf base = .ok base [] ∧
    (ttlDecode v .uniq mf base = .ok base v ↔ ∀ t, decodeFirst8 v = some t → validTimestampUs t = false) ∧
    (verifyFields v mf = .good → (ttlDecode v .primary mf base = .ok base v ↔
      ∀ t, decodeFirst8 v = some t → validTimestampUs t = true → verifyFields (v.drop 8) mf = .bad)) := by
  have hpk : v.length < 8 → decodeFirst8 v = none := by
    intro h; simp only [decodeFirst8, peek]; rw [if_neg (by omega)]; rfl
  have hpk' : ¬ v.length < 8 → ∃ t, decodeFirst8 v = some t := by
    intro h; simp only [decodeFirst8, peek]; rw [if_pos (by omega)]; exact ⟨_, rfl⟩
  have hne : ¬ v.length < 8 → v.drop 8 ≠ v := by
    intro h e; have := congrArg List.length e; rw [List.length_drop] at this; omega
  refine ⟨by simp [ttlDecode, hb], ?_, ?_⟩
  · by_cases hl : v.length < 8
    · simp [ttlDecode, hb, hl, hpk hl]
    · obtain ⟨t, ht⟩ := hpk' hl
      have := hne hl
      simp only [ttlDecode, hb, hl, if_false, ht]
      cases hv : validTimestampUs t <;> simp [this, hv]
  · intro hg
    by_cases hl : v.length < 8
    · simp [ttlDecode, hb, hl, hpk hl]
    · obtain ⟨t, ht⟩ := hpk' hl
      have := hne hl
      simp only [ttlDecode, hb, hl, if_false, ht, hg]
      cases hv : validTimestampUs t <;> cases hd : verifyFields (v.drop 8) mf <;> simp [this, hv]

/-- The guess can be wrong.  A unique index entry of a table with a BIGINT primary key written before the switch:
primary key 1700000000000000 is taken for an expiry and the entry loses its primary key. -/
theorem C39_online_old_uniq_counterexample :
    ttlDecode (appendI64 [] 1700000000000000#64) .uniq 1 1800000000000000#64 = .ok 1700000000000000#64 [] := by
  decide

/-- A primary row written before the switch whose only stored column is number 80 with a suitable value: it is a
well-formed row, yet the reader drops all of it and reports an expiry. -/
theorem C39_online_old_primary_counterexample :
    let row : Bytes := [0x80#8, 0x05#8, 0xB7#8, 0x80#8, 0x80#8, 0x80#8, 0x80#8, 0x01#8]
    verifyFields row 80 = .good ∧ ∃ t, ttlDecode row .primary 80 1800000000000000#64 = .ok t [] := by
  refine ⟨by decide, 1609137423155201#64, by decide⟩

/-- The walk can fail to end: a length that wraps the 64-bit offset back to where it was. -/
theorem C39_verification_hang_counterexample :
    verifyFields [0x0A#8, 0xF5#8, 0xFF#8, 0xFF#8, 0xFF#8, 0xFF#8, 0xFF#8, 0xFF#8, 0xFF#8, 0xFF#8, 0x01#8] 1 = .hang := by
  decide

/-- Non-vacuity: an expiry in 2027, and a row with one string column. -/
example : validTimestampUs 1800000000000000#64 = true ∧ 0 < (1800000000000000#64).toInt ∧
    verifyFields [0x0A#8, 2#8, 65#8, 66#8] 1 = .good ∧
    verifyFields (ttlEncode 1800000000000000#64 ++ [0x0A#8, 2#8, 65#8, 66#8]) 1 ≠ .hang := by decide

end BaikalDB.Ttl
