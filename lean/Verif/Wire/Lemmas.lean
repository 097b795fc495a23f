import Verif.Wire.Model
import Verif.Wire.Spec
import Mathlib.Tactic.Common
/-! # Lemmas on numbers, buffers and messages -/
namespace BaikalDB.Wire
open BaikalDB.Expr

/-! ## Numbers -/

theorem byte_mod (n : Nat) : byte (n % 256) = byte n := by
  apply BitVec.eq_of_toNat_eq
  simp [byte]

theorem byte_toNat (n : Nat) : (byte n).toNat = n % 256 := by simp [byte]

theorem le_eq_enc (k n : Nat) : le k n = Spec.enc k n := by
  induction k generalizing n with
  | zero => rfl
  | succ k ih => simp only [le, Spec.enc, ih]; rw [← byte_mod n]; rfl

@[simp] theorem le_length (k n : Nat) : (le k n).length = k := by
  induction k generalizing n with
  | zero => rfl
  | succ k ih => simp [le, ih]

@[simp] theorem enc_length (k n : Nat) : (Spec.enc k n).length = k := by rw [← le_eq_enc]; simp

theorem num_enc (k n : Nat) : Spec.num (Spec.enc k n) = n % 256 ^ k := by
  induction k generalizing n with
  | zero => simp [Spec.enc, Spec.num, Nat.mod_one]
  | succ k ih =>
    simp only [Spec.enc, Spec.num, ih, BitVec.toNat_ofNat]
    have h : n % 256 ^ (k + 1) = n % 256 + 256 * (n / 256 % 256 ^ k) := by
      rw [Nat.pow_succ, Nat.mul_comm, Nat.mod_mul]
    have h2 : n % 256 % 2 ^ 8 = n % 256 := by omega
    rw [h, h2]

theorem num_le (k n : Nat) : Spec.num (le k n) = n % 256 ^ k := by rw [le_eq_enc, num_enc]

theorem leSum_eq (l : Bytes) : leSum l = Spec.num l := by
  induction l with
  | nil => rfl
  | cons c l ih => simp [leSum, Spec.num, ih]

theorem num_lt (l : Bytes) : Spec.num l < 256 ^ l.length := by
  induction l with
  | nil => simp [Spec.num]
  | cons c l ih =>
    have := c.isLt
    simp only [Spec.num, List.length_cons, Nat.pow_succ]
    omega

/-! ## The buffer -/

/-- What every buffer satisfies. -/
def Buf.Ok (b : Buf) : Prop := b.data.length ≤ b.cap ∧ b.cap ≤ maxAlloc

theorem pow2From_ge (a want : Nat) (ha : 0 < a) : want ≤ pow2From a want := by
  fun_induction pow2From a want with
  | case1 a h ih => exact ih (by omega)
  | case2 a h => omega

theorem pow2From_le (k : Nat) (a want : Nat) (hw : want ≤ 2 ^ k) (ha : ∃ i, i ≤ k ∧ a = 2 ^ i) : pow2From a want ≤ 2 ^ k := by
  fun_induction pow2From a want with
  | case1 a h ih =>
    obtain ⟨i, hi, rfl⟩ := ha
    apply ih
    refine ⟨i + 1, ?_, by rw [Nat.pow_succ]; omega⟩
    rcases Nat.lt_or_ge i k with hik | hik
    · exact hik
    · have : i = k := by omega
      subst this
      omega
  | case2 a h =>
    obtain ⟨i, hi, rfl⟩ := ha
    exact Nat.pow_le_pow_right (by omega) hi

theorem room_ok (b : Buf) (hb : b.Ok) (len : Nat) (h : b.data.length + len ≤ maxAlloc) :
    ∃ b', b.room len = some b' ∧ b'.data = b.data ∧ b'.Ok ∧ b.data.length + len ≤ b'.cap := by
  unfold Buf.room
  split
  · exact ⟨b, rfl, rfl, hb, by assumption⟩
  · rw [if_neg (by omega)]
    refine ⟨_, rfl, rfl, ⟨?_, ?_⟩, pow2From_ge _ _ (by omega)⟩
    · have := pow2From_ge 1 (b.data.length + len) (by omega)
      simp only
      omega
    · exact pow2From_le 31 1 _ h ⟨0, by omega, rfl⟩

theorem room_none (b : Buf) (hb : b.Ok) (len : Nat) (h : maxAlloc < b.data.length + len) : b.room len = none := by
  unfold Buf.room
  have := hb.2
  rw [if_neg (by omega), if_pos h]

/-- `r` is the buffer `b` with `d` appended, and fails exactly when the result would exceed the limit. -/
def Adds (r : Option Buf) (b : Buf) (d : Bytes) : Prop :=
  (b.data.length + d.length ≤ maxAlloc → ∃ b', r = some b' ∧ b'.data = b.data ++ d ∧ b'.Ok) ∧
  (maxAlloc < b.data.length + d.length → r = none)

theorem adds_append (b : Buf) (hb : b.Ok) (d : Bytes) : Adds (b.append d) b d := by
  unfold Buf.append
  constructor
  · intro h
    split
    · rename_i h0
      exact ⟨b, rfl, by simp [List.length_eq_zero_iff.mp h0], hb⟩
    · obtain ⟨b', hr, hd, ho, hc⟩ := room_ok b hb d.length h
      rw [hr]
      refine ⟨_, rfl, by simp [hd], ?_, ho.2⟩
      simp only [List.length_append, hd]
      omega
  · intro h
    rw [if_neg ?_, room_none b hb _ h]
    · rfl
    · intro h0
      have := hb.1; have := hb.2
      omega

theorem adds_some (b : Buf) (hb : b.Ok) : Adds (some b) b [] :=
  ⟨fun _ => ⟨b, rfl, by simp, hb⟩, fun h => absurd h (by have := hb.1; have := hb.2; simp; omega)⟩

theorem adds_bind {r : Option Buf} {b : Buf} {d e : Bytes} {f : Buf → Option Buf} (h : Adds r b d)
    (hf : ∀ b', b'.data = b.data ++ d → b'.Ok → Adds (f b') b' e) : Adds (r.bind f) b (d ++ e) := by
  constructor
  · intro hl
    simp only [List.length_append] at hl
    obtain ⟨b', hr, hd, ho⟩ := h.1 (by omega)
    obtain ⟨b'', hr', hd', ho'⟩ := (hf b' hd ho).1 (by rw [hd]; simp; omega)
    exact ⟨b'', by simp [hr, hr'], by simp [hd', hd], ho'⟩
  · intro hl
    simp only [List.length_append] at hl
    by_cases hm : b.data.length + d.length ≤ maxAlloc
    · obtain ⟨b', hr, hd, ho⟩ := h.1 hm
      rw [hr]
      exact (hf b' hd ho).2 (by rw [hd]; simp; omega)
    · rw [h.2 (by omega)]; rfl

/-! ## Length-coded items -/

theorem lenenc_small (n : Nat) (h : n < 251) : lenenc n = [byte n] := by simp [lenenc, h]

theorem lenenc_length (n : Nat) : 1 ≤ (lenenc n).length ∧ (lenenc n).length ≤ 9 := by
  unfold lenenc; split
  · simp
  · split
    · simp
    · split <;> simp

theorem lenenc_zero : lenenc 0 = [0#8] := by simp [lenenc, byte]

theorem spec_lenenc_lenenc (n : Nat) (hn : n < 2 ^ 64) (r : Bytes) : Spec.lenenc (lenenc n ++ r) = some (some n, r) := by
  unfold lenenc
  split
  · rename_i h
    have e : (byte n).toNat = n := by rw [byte_toNat]; omega
    simp [Spec.lenenc, e, h]
  · split
    · rename_i h
      have hk : Spec.num (le 2 n) = n := by rw [num_le]; omega
      simp [Spec.lenenc, List.take_append_of_le_length, hk, List.drop_append_of_le_length]
    · split
      · rename_i h
        have hk : Spec.num (le 3 n) = n := by rw [num_le]; omega
        simp [Spec.lenenc, List.take_append_of_le_length, hk, List.drop_append_of_le_length]
      · have hk : Spec.num (le 8 n) = n := by rw [num_le]; omega
        simp [Spec.lenenc, List.take_append_of_le_length, hk, List.drop_append_of_le_length]

/-- The bytes of a cell: the NULL marker, or length and text. -/
def cellBytes : Option Bytes → Bytes
  | none => [0xfb#8]
  | some s => lenenc s.length ++ s

theorem item_cellBytes (c : Option Bytes) (hc : ∀ s, c = some s → s.length < 2 ^ 64) (r : Bytes) :
    Spec.item (cellBytes c ++ r) = some (c, r) := by
  cases c with
  | none => simp [cellBytes, Spec.item, Spec.lenenc]
  | some s => simp [cellBytes, Spec.item, spec_lenenc_lenenc s.length (hc s rfl) (s ++ r)]

theorem adds_packStr (b : Buf) (hb : b.Ok) (s : Bytes) : Adds (b.packStr s false) b (cellBytes (some s)) := by
  unfold Buf.packStr cellBytes
  simp only [Bool.false_eq_true, if_false]
  split
  · rename_i h0
    rw [List.length_eq_zero_iff.mp h0]
    simpa [lenenc_zero] using adds_append b hb [0#8]
  · exact adds_bind (adds_append b hb _) fun b' hd ho => adds_append b' ho s

theorem adds_packStr_null (b : Buf) (hb : b.Ok) (s : Bytes) : Adds (b.packStr s true) b (cellBytes none) := by
  simpa [Buf.packStr, cellBytes] using adds_append b hb [0xfb#8]

/-! ## Messages -/

/-- The number of packets of a message. -/
def pkts (m : Bytes) : Nat := m.length / Spec.maxPayload + 1

theorem writeMessage_short (seq : Nat) (m : Bytes) (h : m.length < Spec.maxPayload) :
    Spec.writeMessage seq m = Spec.enc 3 m.length ++ [BitVec.ofNat 8 (seq % 256)] ++ m := by
  rw [Spec.writeMessage, dif_pos h]

theorem writeMessage_long (seq : Nat) (m : Bytes) (h : ¬ m.length < Spec.maxPayload) :
    Spec.writeMessage seq m = Spec.enc 3 Spec.maxPayload ++ [BitVec.ofNat 8 (seq % 256)] ++ m.take Spec.maxPayload ++
      Spec.writeMessage (seq + 1) (m.drop Spec.maxPayload) := by
  conv_lhs => rw [Spec.writeMessage, dif_neg h]

theorem maxPayload_pos : 0 < Spec.maxPayload := by decide

theorem writeMessage_length (seq : Nat) (m : Bytes) : 4 + m.length ≤ (Spec.writeMessage seq m).length := by
  by_cases h : m.length < Spec.maxPayload
  · rw [writeMessage_short seq m h]; simp; omega
  · rw [writeMessage_long seq m h]
    have ih := writeMessage_length (seq + 1) (m.drop Spec.maxPayload)
    simp only [List.length_append, enc_length, List.length_cons, List.length_nil, List.length_take, List.length_drop] at *
    omega
termination_by m.length
decreasing_by have := maxPayload_pos; simp only [List.length_drop]; omega

theorem packet_cons (len seq : Nat) (p r : Bytes) (hp : p.length = len) (hl : len ≤ Spec.maxPayload) :
    Spec.packet (Spec.enc 3 len ++ [BitVec.ofNat 8 (seq % 256)] ++ p ++ r) = some (seq % 256, p, r) := by
  have hn : Spec.num (Spec.enc 3 len) = len := by
    rw [num_enc]; unfold Spec.maxPayload at hl; omega
  have he : Spec.enc 3 len = [BitVec.ofNat 8 (len % 256), BitVec.ofNat 8 (len / 256 % 256), BitVec.ofNat 8 (len / 256 / 256 % 256)] := rfl
  rw [he] at hn ⊢
  simp only [Spec.packet, List.cons_append, List.nil_append, hn]
  rw [if_neg (by simp [hp])]
  have hq : (BitVec.ofNat 8 (seq % 256)).toNat = seq % 256 := by simp
  rw [hq, List.take_append_of_le_length (by omega), List.drop_append_of_le_length (by omega), ← hp]
  simp

theorem message_write (m : Bytes) (seq : Nat) (r : Bytes) (fuel : Nat) (hf : pkts m ≤ fuel) :
    Spec.message fuel seq (Spec.writeMessage seq m ++ r) = some (m, seq + pkts m, r) := by
  cases fuel with
  | zero => simp [pkts] at hf
  | succ fuel =>
    by_cases h : m.length < Spec.maxPayload
    · rw [writeMessage_short seq m h, Spec.message, packet_cons _ seq m r rfl (by omega)]
      simp [h, pkts, Nat.div_eq_of_lt h]
    · have hp : pkts m = pkts (m.drop Spec.maxPayload) + 1 := by
        unfold pkts
        rw [List.length_drop, Nat.div_eq_sub_div maxPayload_pos (by omega)]
      rw [writeMessage_long seq m h, Spec.message]
      have e : (m.take Spec.maxPayload).length = Spec.maxPayload := by rw [List.length_take]; omega
      rw [List.append_assoc (Spec.enc 3 Spec.maxPayload ++ [BitVec.ofNat 8 (seq % 256)] ++ m.take Spec.maxPayload),
        packet_cons _ seq _ _ e (Nat.le_refl _)]
      simp only [e, ne_eq, not_true_eq_false, if_false, Nat.lt_irrefl]
      rw [message_write (m.drop Spec.maxPayload) (seq + 1) r fuel (by omega)]
      simp [hp]
      omega
termination_by m.length
decreasing_by have := maxPayload_pos; simp only [List.length_drop]; omega

theorem pkts_le (m : Bytes) : pkts m ≤ m.length + 1 := by
  unfold pkts
  have := Nat.div_le_self m.length Spec.maxPayload
  omega

/-- A message written is read back, whatever follows it. -/
theorem readMessage_write (m : Bytes) (seq : Nat) (r : Bytes) :
    Spec.readMessage seq (Spec.writeMessage seq m ++ r) = some (m, seq + pkts m, r) := by
  apply message_write
  have := pkts_le m
  have := writeMessage_length seq m
  simp only [List.length_append]
  omega

/-- Messages one after the other, with running sequence numbers. -/
def stream : Nat → List Bytes → Bytes
  | _, [] => []
  | seq, m :: ms => Spec.writeMessage seq m ++ stream (seq + pkts m) ms

/-- The sequence number after some messages. -/
def seqAfter (seq : Nat) (ms : List Bytes) : Nat := ms.foldl (fun q m => q + pkts m) seq

theorem stream_append (seq : Nat) (a c : List Bytes) : stream seq (a ++ c) = stream seq a ++ stream (seqAfter seq a) c := by
  induction a generalizing seq with
  | nil => simp [stream, seqAfter]
  | cons m a ih => simp [stream, seqAfter, ih]

theorem stream_length (seq : Nat) (ms : List Bytes) : ms.length ≤ (stream seq ms).length := by
  induction ms generalizing seq with
  | nil => simp
  | cons m ms ih =>
    have := ih (seq + pkts m)
    have := writeMessage_length seq m
    simp only [stream, List.length_cons, List.length_append]
    omega

theorem seqAfter_append (seq : Nat) (a c : List Bytes) : seqAfter seq (a ++ c) = seqAfter (seqAfter seq a) c := by
  simp [seqAfter]

theorem rowsUpTo_stream {α : Type} (row : Bytes → Option α) (ms : List Bytes) (xs : List α) (eof : Bytes)
    (he : Spec.isEof eof = true) (h : List.Forall₂ (fun m x => row m = some x ∧ Spec.isEof m = false) ms xs) (seq : Nat)
    (r : Bytes) (fuel : Nat) (hf : ms.length < fuel) :
    Spec.rowsUpTo row fuel seq (stream seq (ms ++ [eof]) ++ r) = some (xs, seqAfter seq (ms ++ [eof]), r) := by
  induction h generalizing seq fuel with
  | nil =>
    cases fuel with
    | zero => simp at hf
    | succ fuel =>
      simp only [Spec.rowsUpTo, List.nil_append, stream, List.append_nil]
      rw [readMessage_write]
      simp [he, seqAfter]
  | @cons m x ms xs hm _ ih =>
    cases fuel with
    | zero => simp at hf
    | succ fuel =>
      simp only [Spec.rowsUpTo, List.cons_append, stream, List.append_assoc]
      rw [readMessage_write]
      simp only [hm.2, Bool.false_eq_true, if_false, hm.1]
      rw [ih _ fuel (by simp at hf; omega)]
      simp [seqAfter]

theorem readRows_stream {α : Type} (row : Bytes → Option α) (ms : List Bytes) (xs : List α) (eof : Bytes)
    (he : Spec.isEof eof = true) (h : List.Forall₂ (fun m x => row m = some x ∧ Spec.isEof m = false) ms xs) (seq : Nat)
    (r : Bytes) :
    Spec.readRows row seq (stream seq (ms ++ [eof]) ++ r) = some (xs, seqAfter seq (ms ++ [eof]), r) := by
  apply rowsUpTo_stream row ms xs eof he h
  have := stream_length seq (ms ++ [eof])
  simp only [List.length_append, List.length_cons, List.length_nil] at *
  omega

end BaikalDB.Wire
