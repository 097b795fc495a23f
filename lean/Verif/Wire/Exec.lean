import Verif.Wire.Lemmas
import Verif.Expr.Props
import Verif.Datetime.TextProps
/-! # COM_STMT_EXECUTE: what the server reads is what the client bound -/
namespace BaikalDB.Wire
open BaikalDB.Expr

/-- From offset `off` on the packet reads `l`. -/
def At (d : Bytes) (off : Nat) (l : Bytes) : Prop := off ≤ d.length ∧ d.drop off = l

theorem At.length {d : Bytes} {off : Nat} {l : Bytes} (h : At d off l) : d.length = off + l.length := by
  have := congrArg List.length h.2
  simp at this
  have := h.1
  omega

theorem At.skip {d : Bytes} {off : Nat} {x l : Bytes} (h : At d off (x ++ l)) : At d (off + x.length) l := by
  refine ⟨by have := h.length; simp at this; omega, ?_⟩
  rw [← List.drop_drop, h.2, List.drop_left' rfl]

theorem at_append (a l : Bytes) : At (a ++ l) a.length l := ⟨by simp, by simp⟩

theorem getFixed_at {d : Bytes} {off : Nat} {x l : Bytes} (h : At d off (x ++ l)) (k : Nat) (hk : x.length = k) :
    getFixed d off k = .ok (Spec.num x, off + k) := by
  subst hk
  have := h.length
  simp at this
  unfold getFixed
  rw [if_neg (by omega), leSum_eq, h.2, List.take_left' rfl]

theorem getD_at {d : Bytes} {off : Nat} {l : Bytes} (h : At d off l) (i : Nat) : d.getD (off + i) 0#8 = l.getD i 0#8 := by
  rw [← h.2]
  simp [List.getElem?_drop]

theorem getChar_at {d : Bytes} {off : Nat} {c : Byte} {l : Bytes} (h : At d off (c :: l)) : getChar d off = .ok (c, off + 1) := by
  have := h.length
  simp at this
  unfold getChar
  have := getD_at h 0
  rw [if_neg (by omega)]
  simp only [Nat.add_zero] at this
  rw [this]
  rfl

theorem getFixed_enc {d : Bytes} {off : Nat} {l : Bytes} (k n : Nat) (h : At d off (Spec.enc k n ++ l)) (hn : n < 256 ^ k) :
    getFixed d off k = .ok (n, off + k) := by
  rw [getFixed_at h k (by simp), num_enc, Nat.mod_eq_of_lt hn]

theorem At.skip_enc {d : Bytes} {off k n : Nat} {l : Bytes} (h : At d off (Spec.enc k n ++ l)) : At d (off + k) l := by
  simpa using h.skip

theorem getFields_cons {d : Bytes} {off k : Nat} {n : Nat} {ks : List Nat} {ns : List Nat} {o : Nat} {l : Bytes}
    (h : At d off (Spec.enc k n ++ l)) (hn : n < 256 ^ k) (hr : getFields d ks (off + k) = .ok (ns, o)) :
    getFields d (k :: ks) off = .ok (n :: ns, o) := by
  simp [getFields, getFixed_enc k n h hn, Out.bind, hr]

/-! ## Length-encoded integers -/

theorem getLenenc_enc {d : Bytes} {off n : Nat} {l : Bytes} (h : At d off (Spec.encLen n ++ l)) (hn : n < 2 ^ 64) :
    ∃ k, (Spec.encLen n).length = k ∧ getLenenc d off = .ok (some n, off + k) := by
  refine ⟨_, rfl, ?_⟩
  have hlen := h.length
  unfold Spec.encLen at *
  by_cases h1 : n ≤ 250
  · simp only [if_pos h1] at *
    have hc := getD_at h 0
    simp at hlen hc
    unfold getLenenc
    rw [if_neg (by omega)]
    have e : (d.getD off 0#8).toNat = n := by
      rw [List.getD_eq_getElem?_getD, hc]; simp; omega
    simp only [e]
    rw [if_neg (by omega), if_neg (by omega), if_pos h1]
    rfl
  · have go : ∀ (c : Byte) (k : Nat), At d off (c :: (Spec.enc k n ++ l)) → (c.toNat = 252 ∨ c.toNat = 253 ∨ c.toNat = 254) →
        k = (if c.toNat = 252 then 2 else if c.toNat = 253 then 3 else 8) → n < 256 ^ k →
        getLenenc d off = .ok (some n, off + (k + 1)) := by
      intro c k ha hc hk hnk
      have hl2 := ha.length
      have hc2 := getD_at ha 0
      simp at hl2 hc2
      have e : (d.getD off 0#8) = c := by rw [List.getD_eq_getElem?_getD, hc2]
      unfold getLenenc
      rw [if_neg (by omega)]
      simp only [e]
      rw [if_neg (by omega), if_neg (by omega), if_neg (by omega), ← hk]
      have ha2 : At d (off + 1) (Spec.enc k n ++ l) := by
        have : At d off ([c] ++ (Spec.enc k n ++ l)) := ha
        simpa using this.skip
      rw [getFixed_enc k n ha2 hnk]
      simp [Out.bind]
      omega
    simp only [if_neg h1] at *
    by_cases h2 : n < 2 ^ 16
    · simp only [if_pos h2] at *
      simpa using go 0xfc#8 2 (by simpa using h) (by decide) (by decide) (by omega)
    · simp only [if_neg h2] at *
      by_cases h3 : n < 2 ^ 24
      · simp only [if_pos h3] at *
        simpa using go 0xfd#8 3 (by simpa using h) (by decide) (by decide) (by omega)
      · simp only [if_neg h3] at *
        simpa using go 0xfe#8 8 (by simpa using h) (by decide) (by decide) (by omega)

/-! ## Values -/

/-- The type of an integer literal. -/
def litTy (t : Nat) (u : Bool) : VTy :=
  if t = 1 then (if u then .uint8 else .int8) else if t = 2 then (if u then .uint16 else .int16)
  else if t = 8 then (if u then .uint64 else .int64) else (if u then .uint32 else .int32)

/-- The literal the server builds for a parameter. -/
def litOf : Spec.Param → Lit
  | .null _ => .null
  | .long _ s => .str s
  | .str _ s => .str s
  | .int t u n => .int (litTy t u) (n % 2 ^ (8 * Spec.intWidth t)).toNat
  | .f32 b => .f32 b
  | .f64 b => .f64 b
  | .date _ y m d h i s u => .datetime (Datetime.ofBinary ⟨y, m, d, h, i, s, u⟩)
  | .time n d h i s _ => .time (Datetime.packTime n (d * 24 + h) i s)

/-- A TIME of zero is sent as a single zero byte, which the server does not read as such. -/
def NotZeroTime : Spec.Param → Prop
  | .time _ d h i s u => ¬ (d = 0 ∧ h = 0 ∧ i = 0 ∧ s = 0 ∧ u = 0)
  | _ => True

/-- Whether the value is in the packet. -/
def inPacket : Spec.Param → Bool
  | .null _ | .long _ _ => false
  | _ => true

theorem enc_one (n : Nat) : Spec.enc 1 n = [BitVec.ofNat 8 (n % 256)] := rfl

theorem getFixed_cons {d : Bytes} {off : Nat} {c : Byte} {l : Bytes} (h : At d off (c :: l)) : getFixed d off 1 = .ok (c.toNat, off + 1) := by
  have : At d off ([c] ++ l) := h
  rw [getFixed_at this 1 rfl]
  simp [Spec.num]

theorem At.tail {d : Bytes} {off : Nat} {c : Byte} {l : Bytes} (h : At d off (c :: l)) : At d (off + 1) l := by
  have : At d off ([c] ++ l) := h
  exact this.skip

theorem decodeValue_param {d : Bytes} {off : Nat} {l : Bytes} (p : Spec.Param) (hp : p.Legal) (hz : NotZeroTime p)
    (hin : inPacket p = true) (hd : d.length < 2 ^ 63) (h : At d off (p.bytes ++ l)) :
    decodeValue d off p.type.1 p.type.2 = .ok (litOf p, off + p.bytes.length) := by
  have hlen := h.length
  rw [List.length_append] at hlen
  cases p with
  | null t => simp [inPacket] at hin
  | long t s => simp [inPacket] at hin
  | str t s =>
    obtain ⟨ht, hs⟩ := hp
    have ht' : t = tString ∨ t = tBlob ∨ t = tVarString := by unfold tString tBlob tVarString; omega
    simp only [Spec.Param.type, Spec.Param.bytes, litOf] at *
    obtain ⟨k, hk, hg⟩ := getLenenc_enc (by simpa using h : At d off (Spec.encLen s.length ++ (s ++ l))) (by omega)
    rw [List.length_append] at hlen
    have h2 : At d (off + k) (s ++ l) := by
      rw [← hk]; exact At.skip (by simpa using h)
    unfold decodeValue
    rw [if_pos ht', hg]
    simp only [Out.bind]
    rw [Nat.mod_eq_of_lt (by omega), if_neg (by omega), if_neg (by omega), h2.2, List.take_left' rfl, List.length_append, hk]
    congr 2
    omega
  | f32 b =>
    have hb : b < 256 ^ 4 := by have : b < 2 ^ 32 := hp; omega
    simp only [Spec.Param.type, Spec.Param.bytes, litOf] at *
    unfold decodeValue
    simp only [getFixed_enc 4 b h hb, Out.bind, enc_length]
    rfl
  | f64 b =>
    have hb : b < 256 ^ 8 := by have : b < 2 ^ 64 := hp; omega
    simp only [Spec.Param.type, Spec.Param.bytes, litOf] at *
    unfold decodeValue
    simp only [getFixed_enc 8 b h hb, Out.bind, enc_length]
    rfl
  | int t u n =>
    obtain ⟨hw, -⟩ := hp
    simp only [Spec.Param.type, Spec.Param.bytes, litOf] at *
    have ht : t = 1 ∨ t = 2 ∨ t = 3 ∨ t = 9 ∨ t = 8 := by
      unfold Spec.intWidth at hw
      by_contra hc
      rw [if_neg (by omega), if_neg (by omega), if_neg (by omega), if_neg (by omega)] at hw
      omega
    have key : ∀ k, Spec.intWidth t = k → getFixed d off k = .ok ((n % 2 ^ (8 * k)).toNat, off + k) := by
      intro k hk
      rw [hk] at h
      apply getFixed_enc _ _ h
      have h0 : (0 : Int) < 2 ^ (8 * k) := by positivity
      have h1 := Int.emod_lt_of_pos n h0
      have h2 := Int.emod_nonneg n (by omega : (2 : Int) ^ (8 * k) ≠ 0)
      have e : (256 : Nat) ^ k = 2 ^ (8 * k) := by rw [Nat.pow_mul]
      rw [e]
      exact (Int.toNat_lt h2).2 (by push_cast; exact h1)
    unfold decodeValue
    rcases ht with rfl | rfl | rfl | rfl | rfl
    · have := key 1 rfl
      simp [tString, tBlob, tVarString, tTiny, this, Out.bind, litTy, Spec.intWidth]
    · have := key 2 rfl
      simp [tString, tBlob, tVarString, tTiny, tShort, this, Out.bind, litTy, Spec.intWidth]
    · have := key 4 rfl
      simp [tString, tBlob, tVarString, tTiny, tShort, tLong, this, Out.bind, litTy, Spec.intWidth]
    · have := key 4 rfl
      simp [tString, tBlob, tVarString, tTiny, tShort, tLong, tInt24, this, Out.bind, litTy, Spec.intWidth]
    · have := key 8 rfl
      simp [tString, tBlob, tVarString, tTiny, tShort, tLong, tInt24, tLonglong, this, Out.bind, litTy, Spec.intWidth]
  | date t y m dd hh i s u =>
    obtain ⟨ht, b1, b2, b3, b4, b5, b6, b7⟩ := hp
    simp only [Spec.Param.type, litOf] at *
    have ht' : (t = tDate ∨ t = tDatetime ∨ t = tTimestamp) ∧ ¬ (t = tString ∨ t = tBlob ∨ t = tVarString) ∧ t ≠ tTiny ∧
        t ≠ tShort ∧ ¬ (t = tLong ∨ t = tInt24) ∧ t ≠ tLonglong ∧ t ≠ tFloat ∧ t ≠ tDouble := by
      unfold Spec.isDate at ht
      rcases ht with rfl | rfl | rfl <;> decide
    obtain ⟨t0, t1, t2, t3, t4, t5, t6, t7⟩ := ht'
    unfold decodeValue
    rw [if_neg t1, if_neg t2, if_neg t3, if_neg t4, if_neg t5, if_neg t6, if_neg t7, if_pos t0]
    unfold Spec.Param.bytes at h hlen ⊢
    by_cases hu : u ≠ 0
    · simp only [if_pos hu, List.append_assoc, List.singleton_append] at h ⊢
      rw [getFixed_cons h]
      have a1 := h.tail
      have a2 := a1.skip_enc; have a3 := a2.skip_enc; have a4 := a3.skip_enc; have a5 := a4.skip_enc
      have a6 := a5.skip_enc; have a7 := a6.skip_enc
      have g := getFields_cons (ks := [1, 1, 1, 1, 1, 4]) a1 (by omega) (getFields_cons (ks := [1, 1, 1, 1, 4]) a2 (by omega)
        (getFields_cons (ks := [1, 1, 1, 4]) a3 (by omega) (getFields_cons (ks := [1, 1, 4]) a4 (by omega)
        (getFields_cons (ks := [1, 4]) a5 (by omega) (getFields_cons (ks := [4]) a6 (by omega) (getFields_cons (ks := []) a7 (by omega) rfl))))))
      simp [Out.bind, g, clockOfDate, datetimeOfClock]
    · have hu0 : u = 0 := by omega
      subst hu0
      by_cases ht : hh ≠ 0 ∨ i ≠ 0 ∨ s ≠ 0
      · simp only [if_neg hu, if_pos ht, List.append_assoc, List.singleton_append] at h ⊢
        rw [getFixed_cons h]
        have a1 := h.tail
        have a2 := a1.skip_enc; have a3 := a2.skip_enc; have a4 := a3.skip_enc; have a5 := a4.skip_enc
        have a6 := a5.skip_enc
        have g := getFields_cons (ks := [1, 1, 1, 1, 1]) a1 (by omega) (getFields_cons (ks := [1, 1, 1, 1]) a2 (by omega)
          (getFields_cons (ks := [1, 1, 1]) a3 (by omega) (getFields_cons (ks := [1, 1]) a4 (by omega)
          (getFields_cons (ks := [1]) a5 (by omega) (getFields_cons (ks := []) a6 (by omega) rfl)))))
        simp [Out.bind, g, clockOfDate, datetimeOfClock]
      · have z : hh = 0 ∧ i = 0 ∧ s = 0 := by omega
        obtain ⟨rfl, rfl, rfl⟩ := z
        by_cases hd0 : y ≠ 0 ∨ m ≠ 0 ∨ dd ≠ 0
        · simp only [if_neg hu, if_neg ht, if_pos hd0, List.append_assoc, List.singleton_append] at h ⊢
          rw [getFixed_cons h]
          have a1 := h.tail
          have a2 := a1.skip_enc; have a3 := a2.skip_enc
          have g := getFields_cons (ks := [1, 1]) a1 (by omega) (getFields_cons (ks := [1]) a2 (by omega)
            (getFields_cons (ks := []) a3 (by omega) rfl))
          simp [Out.bind, g, clockOfDate, datetimeOfClock]
        · have z : y = 0 ∧ m = 0 ∧ dd = 0 := by omega
          obtain ⟨rfl, rfl, rfl⟩ := z
          simp only [if_neg hu, if_neg ht, if_neg hd0, List.singleton_append] at h ⊢
          rw [getFixed_cons h]
          simp [Out.bind, datetimeOfClock]
  | time n dd hh i s u =>
    obtain ⟨b1, b2, b3, b4, b5⟩ := hp
    simp only [Spec.Param.type, litOf, NotZeroTime] at *
    have hpack : ∀ mic, timeOfClock (clockOfTime n.toNat [dd, hh, i, s, mic]) = Datetime.packTime n (dd * 24 + hh) i s := by
      intro mic
      unfold timeOfClock clockOfTime
      simp only [List.getD_cons_zero, List.getD_cons_succ]
      rw [if_neg (by omega), Nat.mod_eq_of_lt (by omega : dd < 2 ^ 32), Nat.mod_eq_of_lt (by omega)]
      cases n <;> rfl
    have hpack4 : timeOfClock (clockOfTime n.toNat [dd, hh, i, s]) = Datetime.packTime n (dd * 24 + hh) i s := hpack 0
    have hneg : n.toNat < 256 ^ 1 := by cases n <;> decide
    unfold decodeValue
    rw [if_neg (by decide), if_neg (by decide), if_neg (by decide), if_neg (by decide), if_neg (by decide), if_neg (by decide),
      if_neg (by decide), if_neg (by decide), if_pos (by decide)]
    unfold Spec.Param.bytes at h hlen ⊢
    by_cases hu : u ≠ 0
    · simp only [if_pos hu, List.append_assoc, List.singleton_append] at h ⊢
      rw [getFixed_cons h]
      have a1 := h.tail
      have a2 := a1.skip_enc; have a3 := a2.skip_enc; have a4 := a3.skip_enc; have a5 := a4.skip_enc
      have a6 := a5.skip_enc
      have g := getFields_cons (ks := [1, 1, 1, 4]) a2 (by omega)
        (getFields_cons (ks := [1, 1, 4]) a3 (by omega) (getFields_cons (ks := [1, 4]) a4 (by omega)
        (getFields_cons (ks := [4]) a5 (by omega) (getFields_cons (ks := []) a6 (by omega) rfl))))
      simp [Out.bind, getFixed_enc 1 _ a1 hneg, g, hpack]
    · have ht : dd ≠ 0 ∨ hh ≠ 0 ∨ i ≠ 0 ∨ s ≠ 0 := by omega
      simp only [if_neg hu, if_pos ht, List.append_assoc, List.singleton_append] at h ⊢
      rw [getFixed_cons h]
      have a1 := h.tail
      have a2 := a1.skip_enc; have a3 := a2.skip_enc; have a4 := a3.skip_enc; have a5 := a4.skip_enc
      have g := getFields_cons (ks := [1, 1, 1]) a2 (by omega)
        (getFields_cons (ks := [1, 1]) a3 (by omega) (getFields_cons (ks := [1]) a4 (by omega)
        (getFields_cons (ks := []) a5 (by omega) rfl)))
      simp [Out.bind, getFixed_enc 1 _ a1 hneg, g, hpack4]

/-! ## Types and bitmap -/

theorem readTypes_at (ts : List (Nat × Bool)) (ht : ∀ t ∈ ts, t.1 < 256) {d : Bytes} {off : Nat} {l : Bytes}
    (h : At d off (ts.flatMap Spec.typeBytes ++ l)) : readTypes d off ts.length = .ok ts := by
  induction ts generalizing off with
  | nil => rfl
  | cons t ts ih =>
    simp only [List.flatMap_cons, List.append_assoc] at h
    have hl := h.length
    have g0 := getD_at h 0
    have g1 := getD_at h 1
    have h2 := h.skip
    rw [show (Spec.typeBytes t).length = 2 from rfl] at h2
    simp only [List.length_cons, readTypes]
    rw [if_neg (by simp [Spec.typeBytes] at hl; omega), ih (fun q hq => ht q (by simp [hq])) h2]
    simp only [Nat.add_zero, Spec.typeBytes, List.cons_append, List.getD_cons_zero, List.getD_cons_succ] at g0 g1
    rw [g0, g1]
    have := ht t (by simp)
    obtain ⟨a, b⟩ := t
    simp only [Out.bind, BitVec.toNat_ofNat]
    simp only at this
    rw [Nat.mod_eq_of_lt (by omega)]
    cases b <;> simp

theorem bitmapByte_lt (l : List Bool) : Spec.bitmapByte l < 2 ^ l.length := by
  induction l with
  | nil => simp [Spec.bitmapByte]
  | cons b l ih =>
    simp only [Spec.bitmapByte, List.length_cons, Nat.pow_succ]
    cases b <;> simp <;> omega

theorem bitmapByte_testBit (l : List Bool) (j : Nat) : (Spec.bitmapByte l).testBit j = l.getD j false := by
  induction l generalizing j with
  | nil => simp [Spec.bitmapByte]
  | cons b l ih =>
    cases j with
    | zero =>
      simp only [Spec.bitmapByte, List.getD_cons_zero, Nat.testBit_zero]
      cases b <;> simp <;> omega
    | succ j =>
      rw [List.getD_cons_succ, ← ih, Nat.testBit_succ]
      congr 1
      simp only [Spec.bitmapByte]
      cases b <;> simp <;> omega

theorem bitmap_getD (k : Nat) (l : List Bool) (i : Nat) (h : i < k) :
    (Spec.bitmap k l).getD i 0#8 = BitVec.ofNat 8 (Spec.bitmapByte ((l.drop (8 * i)).take 8)) := by
  induction k generalizing l i with
  | zero => omega
  | succ k ih =>
    cases i with
    | zero => simp [Spec.bitmap]
    | succ i =>
      simp only [Spec.bitmap, List.getD_cons_succ]
      rw [ih _ _ (by omega), List.drop_drop, show 8 + 8 * i = 8 * (i + 1) by omega]

theorem bitmap_length (k : Nat) (l : List Bool) : (Spec.bitmap k l).length = k := by
  induction k generalizing l with
  | zero => rfl
  | succ k ih => simp [Spec.bitmap, ih]

theorem bitmap_testBit (l : List Bool) (j : Nat) (h : j < l.length) :
    ((Spec.bitmap ((l.length + 7) / 8) l).getD (j / 8) 0#8).toNat.testBit (j % 8) = l.getD j false := by
  rw [bitmap_getD _ _ _ (by omega), BitVec.toNat_ofNat]
  have hb := bitmapByte_lt ((l.drop (8 * (j / 8))).take 8)
  have hb2 : (2 : Nat) ^ ((l.drop (8 * (j / 8))).take 8).length ≤ 2 ^ 8 := Nat.pow_le_pow_right (by omega) (by simp)
  rw [Nat.mod_eq_of_lt (by omega), bitmapByte_testBit]
  rw [List.getD_eq_getElem?_getD, List.getElem?_take, if_pos (by omega), List.getElem?_drop, List.getD_eq_getElem?_getD]
  congr 2
  omega

/-! ## The parameters -/

/-- The bytes sent beforehand for a parameter, if any. -/
def longOf : Spec.Param → Option Bytes
  | .long _ s => some s
  | _ => none

theorem inPacket_facts (p : Spec.Param) (lg : p.Legal) (hin : inPacket p = true) :
    longOf p = none ∧ p.isNull = false ∧ p.type.1 ≠ tNull := by
  cases p with
  | null t => simp [inPacket] at hin
  | long t s => simp [inPacket] at hin
  | int t u n =>
    refine ⟨rfl, rfl, ?_⟩
    intro hc
    have : t = 6 := hc
    subst this
    simp [Spec.Param.Legal, Spec.intWidth] at lg
  | str t s =>
    refine ⟨rfl, rfl, ?_⟩
    intro hc
    have : t = 6 := hc
    subst this
    simp [Spec.Param.Legal] at lg
  | date t =>
    refine ⟨rfl, rfl, ?_⟩
    intro hc
    have : t = 6 := hc
    subst this
    simp [Spec.Param.Legal, Spec.isDate] at lg
  | f32 b => exact ⟨rfl, rfl, by show (4 : Nat) ≠ 6; decide⟩
  | f64 b => exact ⟨rfl, rfl, by show (5 : Nat) ≠ 6; decide⟩
  | time => exact ⟨rfl, rfl, by show (11 : Nat) ≠ 6; decide⟩

theorem readParams_at (S : Stmt) (d : Bytes) (ps : List Spec.Param) (m : Nat) (hd : d.length < 2 ^ 63)
    (legal : ∀ p ∈ ps, p.Legal ∧ NotZeroTime p)
    (hlong : ∀ i p, ps[i]? = some p → S.long i = longOf p)
    (hbit : ∀ i (p : Spec.Param), ps[i]? = some p → (d.getD (m + i / 8) 0#8).toNat.testBit (i % 8) = p.isNull) :
    ∀ (k i off : Nat) (l : Bytes), i + k = ps.length → At d off ((ps.drop i).flatMap Spec.Param.bytes ++ l) →
      readParams d S (ps.map Spec.Param.type) m k i off = .ok ((ps.drop i).map litOf) := by
  intro k
  induction k with
  | zero =>
    intro i off l hi _
    have : ps.drop i = [] := List.drop_of_length_le (by omega)
    simp [readParams, this]
  | succ k ih =>
    intro i off l hi h
    have hil : i < ps.length := by omega
    have hp : ps[i]? = some ps[i] := List.getElem?_eq_getElem hil
    have hdrop : ps.drop i = ps[i] :: ps.drop (i + 1) := List.drop_eq_getElem_cons hil
    set p := ps[i] with hpe
    rw [hdrop] at h ⊢
    simp only [List.flatMap_cons, List.append_assoc, List.map_cons] at h ⊢
    have hl := hlong i p hp
    have hb := hbit i p hp
    obtain ⟨lg, nz⟩ := legal p (List.getElem_mem hil)
    have ht : (ps.map Spec.Param.type)[i]? = some p.type := by simp [hp]
    have next := ih (i + 1) (off + p.bytes.length) l (by omega) h.skip
    by_cases hin : inPacket p = true
    · have hnl := inPacket_facts p lg hin
      rw [hnl.1] at hl
      simp only [readParams, hl, ht, hb, hnl.2.1]
      rw [if_neg (by simp [hnl.2.2]), decodeValue_param p lg nz hin hd h]
      simp [Out.bind, next]
    · cases hpp : p with
      | null t =>
        rw [hpp] at hl hb next ht
        simp only [readParams, hl, longOf, ht, hb, Spec.Param.isNull]
        rw [if_pos (Or.inl trivial)]
        simp only [Spec.Param.bytes, List.length_nil, Nat.add_zero] at next
        simp [Out.bind, next, litOf]
      | long t s =>
        rw [hpp] at hl next
        simp only [readParams, hl, longOf]
        simp only [Spec.Param.bytes, List.length_nil, Nat.add_zero] at next
        simp [Out.bind, next, litOf]
      | _ => simp [hpp, inPacket] at hin

/-- The whole command. -/
theorem readExecute_execute (find : Nat → Option Stmt) (S : Stmt) (id : Nat) (ps : List Spec.Param) (bind : Bool)
    (hid : id < 2 ^ 32) (hf : find id = some S) (hn : S.n = ps.length) (hb : bind = false → S.types = ps.map Spec.Param.type)
    (hlong : ∀ i p, ps[i]? = some p → S.long i = longOf p)
    (legal : ∀ p ∈ ps, p.Legal ∧ NotZeroTime p) (hd : (Spec.execute id ps bind).length < 2 ^ 62) :
    readExecute find ([0#8, 0#8, 0#8, 0#8] ++ Spec.execute id ps bind) =
      .ok (id, (if ps = [] then S.types else ps.map Spec.Param.type), ps.map litOf) := by
  set d := [0#8, 0#8, 0#8, 0#8] ++ Spec.execute id ps bind with hdd
  have hdl : d.length < 2 ^ 63 := by simp [hdd]; omega
  set tl := (if ps = [] then ([] : Bytes)
     else Spec.bitmap ((ps.length + 7) / 8) (ps.map Spec.Param.isNull) ++ [if bind then 1#8 else 0#8] ++
       (if bind then ps.flatMap fun p => Spec.typeBytes p.type else []) ++ ps.flatMap Spec.Param.bytes) with htl
  have a1 : At d 5 (Spec.enc 4 id ++ (0#8 :: (Spec.enc 4 1 ++ tl))) := by
    have := at_append [0#8, 0#8, 0#8, 0#8, 0x17#8] (Spec.enc 4 id ++ (0#8 :: (Spec.enc 4 1 ++ tl)))
    have e : d = [0#8, 0#8, 0#8, 0#8, 0x17#8] ++ (Spec.enc 4 id ++ (0#8 :: (Spec.enc 4 1 ++ tl))) := by
      simp [hdd, Spec.execute, htl]
    rw [e]
    exact this
  have a2 := a1.skip_enc
  have a3 := a2.tail
  have a4 := a3.skip_enc
  have r1 := getFixed_enc 4 id a1 (by omega)
  have r2 := getChar_at a2
  have r3 := getFixed_enc 4 1 a3 (by omega)
  unfold readExecute
  rw [r1]
  simp only [Out.bind, hf, r2, ne_eq, not_true_eq_false, if_false, r3]
  by_cases hp0 : ps = []
  · have : S.n = 0 := by rw [hn, hp0]; rfl
    simp [this, hp0]
  · have hpl : 0 < ps.length := List.length_pos_iff.2 hp0
    rw [if_neg (by omega), if_neg hp0]
    rw [if_neg hp0] at htl
    have hmap : At d (5 + 4 + 1 + 4) (Spec.bitmap ((ps.length + 7) / 8) (ps.map Spec.Param.isNull) ++
        ((if bind then 1#8 else 0#8) :: ((if bind then ps.flatMap fun p => Spec.typeBytes p.type else []) ++ ps.flatMap Spec.Param.bytes))) := by
      rw [htl] at a4
      simpa using a4
    have a5 := hmap.skip
    rw [bitmap_length] at a5
    have r4 := getChar_at a5
    have a6 := a5.tail
    rw [hn, r4]
    simp only
    have hbit : ∀ i (p : Spec.Param), ps[i]? = some p → (d.getD (5 + 4 + 1 + 4 + i / 8) 0#8).toNat.testBit (i % 8) = p.isNull := by
      intro i p hi
      have hil : i < ps.length := by
        by_contra hc
        rw [List.getElem?_eq_none (by omega)] at hi
        simp at hi
      rw [getD_at hmap, List.getD_eq_getElem?_getD, List.getElem?_append_left (by rw [bitmap_length]; omega), ← List.getD_eq_getElem?_getD]
      have := bitmap_testBit (ps.map Spec.Param.isNull) i (by simpa using hil)
      rw [List.length_map] at this
      rw [this]
      simp [hi]
    have htypes : ∀ t ∈ ps.map Spec.Param.type, t.1 < 256 := by
      intro t ht
      obtain ⟨p, hp, rfl⟩ := List.mem_map.1 ht
      have lg := (legal p hp).1
      cases p <;> simp [Spec.Param.Legal, Spec.Param.type] at lg ⊢
      · exact lg
      · exact lg
      · rename_i t u n
        by_contra hc
        have : Spec.intWidth t = 0 := by
          unfold Spec.intWidth
          rw [if_neg (by omega), if_neg (by omega), if_neg (by omega), if_neg (by omega)]
        omega
      · omega
      · have := lg.1
        unfold Spec.isDate at this
        omega
    have P := readParams_at S d ps (5 + 4 + 1 + 4) hdl legal hlong hbit ps.length 0
    cases bind with
    | true =>
      simp only [if_true] at a6 ⊢
      have hfm : (ps.flatMap fun p => Spec.typeBytes p.type) = (ps.map Spec.Param.type).flatMap Spec.typeBytes := by
        rw [List.flatMap_map]
      rw [hfm] at a6
      have r5 := readTypes_at _ htypes a6
      rw [List.length_map] at r5
      rw [r5]
      have a7 := a6.skip
      have hlt : ((ps.map Spec.Param.type).flatMap Spec.typeBytes).length = 2 * ps.length := by
        clear * -
        induction ps with
        | nil => rfl
        | cons p ps ih => simp only [List.map_cons, List.flatMap_cons, List.length_append, ih, List.length_cons, Spec.typeBytes, List.length_nil]; omega
      rw [hlt] at a7
      simp only [List.length_map]
      rw [if_neg (by omega), P _ [] (by omega) (by simpa using a7)]
      simp
    | false =>
      simp only [Bool.false_eq_true, if_false, List.nil_append] at a6 ⊢
      rw [if_neg (by decide)]
      simp only [hb rfl, List.length_map]
      rw [if_neg (by omega), if_neg (by decide), P _ [] (by omega) (by simpa using a6)]
      simp

end BaikalDB.Wire
