import Verif.Wire.Result
import Verif.Wire.Recv
import Verif.Datetime.TextProps
/-!
# C33: what the client reads is what the server sent

The client is the one of `Verif.Wire.Spec`, written from the protocol description.
-/
namespace BaikalDB.Wire
open BaikalDB.Expr

/-! ## Numbers and strings -/

/-- C33.  Length-encoded integers: every 64-bit value is read back, and exactly the bytes written are consumed. -/
theorem C33_lenenc (n : Nat) (hn : n < 2 ^ 64) (rest : Bytes) : Spec.lenenc (lenenc n ++ rest) = some (some n, rest) :=
  spec_lenenc_lenenc n hn rest

example : (0xFFFFFFFFFFFFFFFF : Nat) < 2 ^ 64 := by decide
example : Spec.lenenc (lenenc 251 ++ [7#8]) = some (some 251, [7#8]) ∧ lenenc 251 = [252#8, 251#8, 0#8] := by decide

/-- C33.  A string, or NULL, appended to the buffer is read back and exactly its bytes are consumed; it is refused only when
the buffer would exceed 2 GiB. -/
theorem C33_string (b : Buf) (hb : b.Ok) (s : Bytes) (isNull : Bool) :
    (∀ b', b.packStr s isNull = some b' → b'.Ok ∧ ∃ w, b'.data = b.data ++ w ∧
      ∀ rest, Spec.item (w ++ rest) = some (if isNull then none else some s, rest)) ∧
    (b.packStr s isNull = none → maxAlloc < b.data.length + s.length + 9) := by
  set c : Option Bytes := if isNull then none else some s with hc
  have h : Adds (b.packStr s isNull) b (cellBytes c) := by
    cases isNull with
    | true => exact adds_packStr_null b hb s
    | false => exact adds_packStr b hb s
  have hlen : (cellBytes c).length ≤ s.length + 9 := by
    have := lenenc_length s.length
    cases isNull <;> simp [hc, cellBytes]; omega
  constructor
  · intro b' hr
    have hle : b.data.length + (cellBytes c).length ≤ maxAlloc := by
      by_contra hc'
      rw [h.2 (by omega)] at hr
      cases hr
    obtain ⟨b2, e, hd, ho⟩ := h.1 hle
    rw [hr] at e
    cases e
    refine ⟨ho, cellBytes c, hd, fun rest => item_cellBytes c (fun t ht => ?_) rest⟩
    rw [ht] at hle
    unfold maxAlloc at hle
    simp [cellBytes] at hle
    omega
  · intro hr
    by_contra hc'
    obtain ⟨b2, e, -⟩ := h.1 (by omega)
    rw [hr] at e
    cases e

example : ({ data := [1#8], cap := 4 } : Buf).Ok := by unfold Buf.Ok maxAlloc; decide

/-! ## Text cells -/

theorem decimal_toStr (x : Int) : Spec.decimal (toStr x) = some x := by
  obtain ⟨d1, d2, d3⟩ := natDec_digits x.natAbs
  have hall : (natDec x.natAbs).all (fun d => decide (48 ≤ d.toNat ∧ d.toNat ≤ 57)) = true := by
    rw [List.all_eq_true]
    intro c hc
    simpa [isDig] using d1 c hc
  have hdig : Spec.digits (natDec x.natAbs) = x.natAbs := d3
  unfold toStr
  split
  · rename_i h
    simp only [Spec.decimal, if_true]
    rw [if_pos ⟨d2, hall⟩, hdig]
    congr 1; omega
  · rename_i h
    obtain ⟨c, r, hcr⟩ := List.exists_cons_of_ne_nil d2
    have hc : c ≠ 0x2d#8 := by
      rintro rfl
      have := d1 0x2d#8 (by rw [hcr]; exact List.mem_cons_self)
      simp [isDig] at this
    rw [hcr] at hall hdig ⊢
    simp only [Spec.decimal, if_neg hc]
    rw [if_pos hall, hdig]
    congr 1; omega

/-- C33.  The text of a cell: NULL is no text; a whole number is its decimal digits; a string is itself. -/
theorem C33_text_cell (F : Fmt) (v : EV) :
    (v.isNull = true → cell F v = none) ∧
    (∀ x, v.ty = .bool ∨ v.ty.isInt = true → getInt v = some x → ∃ s, cell F v = some s ∧ Spec.decimal s = some x) ∧
    (isStr v.ty = true → cell F v = some v.s) := by
  refine ⟨?_, ?_, ?_⟩
  · intro h
    unfold cell
    cases hv : v.ty <;> simp_all [EV.isNull]
  · intro x ht hx
    refine ⟨toStr x, ?_, decimal_toStr x⟩
    unfold cell
    rw [hx]
    cases hv : v.ty <;> simp_all [VTy.isInt]
  · intro h
    unfold cell
    cases hv : v.ty <;> simp_all [isStr]

example : cell ⟨fun _ => [], fun _ => 0⟩ ⟨.int64, BitVec.ofInt 64 (-9223372036854775808), []⟩ =
    some minText := by decide +kernel

/-- The fields of a DATETIME with the microseconds cut to a precision. -/
def cutMicro (f : Datetime.Fields) (p : Int) : Datetime.Fields :=
  { f with micro := if 0 ≤ p ∧ p ≤ 6 then f.micro / 10 ^ (6 - p.toNat) * 10 ^ (6 - p.toNat) else f.micro }

theorem localtime_ok (ts : Nat) (h : ts < 2 ^ 32) : Datetime.DateTimeOk (Datetime.localtime ts 8).fields := by
  have hl := Datetime.C29_localtime (ts : Int) 8
  simp only at hl
  obtain ⟨l1, l2, l3, l4, l5, l6, l7, l8, -⟩ := hl
  have ye : (1970 : Int) ≤ (Datetime.localtime ts 8).year ∧ (Datetime.localtime ts 8).year ≤ 9999 := by
    generalize Datetime.localtime (ts : Int) 8 = tm at *
    constructor
    · by_contra hc
      have := Datetime.days_lt _ (1970, 1, 1) l1 (by decide) (Or.inl (by simp only; omega))
      have e : Datetime.daysFromCivil 1970 1 1 = 0 := by decide
      simp only [e] at this
      omega
    · by_contra hc
      have := Datetime.days_lt (9999, 12, 31) _ (by decide) l1 (Or.inl (by simp only; omega))
      have e : Datetime.daysFromCivil 9999 12 31 = 2932896 := by decide
      simp only [e] at this
      omega
  have hml := Datetime.monthLen_pos (Datetime.localtime ts 8).year ((Datetime.localtime ts 8).mon + 1)
  obtain ⟨m1, m2, m3, m4⟩ := l1
  simp only at m1 m2 m3 m4
  generalize Datetime.localtime (ts : Int) 8 = tm at *
  constructor <;> simp only [Datetime.Tm.fields] <;> omega

/-- C33.  The text of a date or time, read as SQL reads it, is the value: a DATETIME up to the digits of its precision, a
DATE, a TIME, and a TIMESTAMP as the local time (UTC+8) it stands for, or the zero date for the value zero. -/
theorem C33_text_date (F : Fmt) (v : EV) :
    (∀ f, v.ty = .datetime → v.u.toNat = Datetime.pack f → Datetime.DateTimeOk f → ∃ s, cell F v = some s ∧
      Datetime.ofText s = (Datetime.pack (cutMicro f (F.prec v)), true)) ∧
    (∀ f, v.ty = .date → v.u.toNat % 2 ^ 32 = Datetime.toDate (Datetime.pack f) → Datetime.DateTimeOk f → ∃ s, cell F v = some s ∧
      Datetime.ofText s = (Datetime.ofDate (Datetime.toDate (Datetime.pack f)), true)) ∧
    (∀ minus h m s, v.ty = .time → v.sget 32 = Datetime.packTime minus h m s → Datetime.TimeOk h m s → ∃ t, cell F v = some t ∧
      Datetime.ofTimeText t = Datetime.packTime minus h m s) ∧
    (v.ty = .timestamp → ∃ s, cell F v = some s ∧ Datetime.ofText s =
      (if v.u.toNat % 2 ^ 32 = 0 then 0 else Datetime.pack (Datetime.localtime (v.u.toNat % 2 ^ 32 : Nat) 8).fields, true)) := by
  refine ⟨?_, ?_, ?_, ?_⟩
  · intro f ht hv ho
    refine ⟨_, by unfold cell; rw [ht], ?_⟩
    simp only [dateString, ht, hv]
    exact Datetime.C30_text f ho _
  · intro f ht hv ho
    refine ⟨_, by unfold cell; rw [ht], ?_⟩
    simp only [dateString, ht, BitVec.toNat_setWidth, hv]
    exact Datetime.C30_date_text f ho
  · intro minus h m s ht hv ho
    refine ⟨_, by unfold cell; rw [ht], ?_⟩
    simp only [dateString, ht, hv]
    exact Datetime.C31_text minus h m s ho
  · intro ht
    refine ⟨_, by unfold cell; rw [ht], ?_⟩
    simp only [dateString, ht, BitVec.toNat_setWidth]
    have hlt : v.u.toNat % 2 ^ 32 < 2 ^ 32 := Nat.mod_lt _ (by decide)
    generalize v.u.toNat % 2 ^ 32 = ts at hlt
    unfold timestampText
    have key : ∀ f : Datetime.Fields, Datetime.DateTimeOk f → f.micro = 0 → Datetime.ofText (Datetime.secText f) = (Datetime.pack f, true) := by
      intro f ho hm
      have := Datetime.C30_text f ho 0
      unfold Datetime.toText at this
      simp only [Datetime.C30_fields f ho.fits, Int.lt_irrefl, false_and, if_false, true_or, if_true] at this
      have hts := Datetime.take_sec f ho (0x2e#8 :: Datetime.pad 6 f.micro) 0
      simp only [Nat.add_zero, List.take_zero, List.append_nil] at hts
      rw [hts] at this
      rw [this, hm]
      simp
      rw [← hm]
    by_cases h0 : ts = 0
    · rw [if_pos h0, if_pos h0, key _ (by constructor <;> decide) rfl]
      decide
    · rw [if_neg h0, if_neg h0]
      exact key _ (localtime_ok ts hlt) rfl

/-! ## Messages -/

/-- Whatever was sent as messages is read back. -/
theorem sends_read {r : Option (Buf × Nat)} {b : Buf} {pid : Nat} {ms : List Bytes} (h : Sends r b pid ms) {b' : Buf} {pid' : Nat}
    (hr : r = some (b', pid')) : b'.Ok ∧ b'.data = b.data ++ stream (pid + 1) ms ∧ pid' + 1 = seqAfter (pid + 1) ms ∧
      b.data.length + (stream (pid + 1) ms).length ≤ maxAlloc := by
  have hle : b.data.length + (stream (pid + 1) ms).length ≤ maxAlloc := by
    by_contra hc
    rw [h.2 (by omega)] at hr
    cases hr
  obtain ⟨b2, e, hd, ho⟩ := h.1 hle
  rw [hr] at e
  simp only [Option.some.injEq, Prod.mk.injEq] at e
  obtain ⟨rfl, rfl⟩ := e
  refine ⟨ho, hd, ?_, hle⟩
  have := seqAfter_ge (pid + 1) ms
  omega

theorem sends_none {r : Option (Buf × Nat)} {b : Buf} {pid : Nat} {ms : List Bytes} (h : Sends r b pid ms) :
    r = none ↔ maxAlloc < b.data.length + (stream (pid + 1) ms).length := by
  constructor
  · intro hr
    by_contra hc
    obtain ⟨b2, e, -⟩ := h.1 (by omega)
    rw [hr] at e
    cases e
  · exact h.2

theorem cells_flatMap (F : Fmt) (vs : List EV) : (vs.flatMap fun v => cellBytes (cell F v)) = (vs.map (cell F)).flatMap cellBytes := by
  rw [List.flatMap_map]

theorem mem_flatMap_length {α : Type} (f : α → Bytes) (l : List α) (a : α) (h : a ∈ l) : (f a).length ≤ (l.flatMap f).length := by
  induction l with
  | nil => simp at h
  | cons c l ih =>
    rw [List.flatMap_cons, List.length_append]
    rcases List.mem_cons.1 h with rfl | h
    · omega
    · have := ih h; omega

/-- The strings of a row are shorter than the row. -/
theorem cells_short (cs : List (Option Bytes)) (s : Bytes) (h : some s ∈ cs) : s.length ≤ (cs.flatMap cellBytes).length := by
  have := mem_flatMap_length cellBytes cs _ h
  have e : s.length ≤ (cellBytes (some s)).length := by simp [cellBytes]
  omega

/-- C33.  A row of a text result set arrives as one message, cut into packets when it has 16 MB or more, and the client reads
its cells; the next sequence number is the one the server goes on with. -/
theorem C33_text_row (F : Fmt) (hF : F.Ok) (b : Buf) (hb : b.Ok) (pid : Nat) (vs : List EV) (b' : Buf) (pid' : Nat)
    (h : packTextRow F b pid vs = some (b', pid')) :
    b'.Ok ∧ ∃ w m, b'.data = b.data ++ w ∧ (∀ rest, Spec.readMessage (pid + 1) (w ++ rest) = some (m, pid' + 1, rest)) ∧
      Spec.textRow vs.length m = some (vs.map (cell F)) ∧ Spec.isEof m = false := by
  obtain ⟨ho, hd, hp, hle⟩ := sends_read (packTextRow_sends F hF b hb pid vs) h
  rw [cells_flatMap, stream_one] at *
  refine ⟨ho, _, (vs.map (cell F)).flatMap cellBytes, hd, ?_, ?_, isEof_cells _⟩
  · intro rest
    rw [readMessage_write, hp]
    rfl
  · have := textRow_cells (vs.map (cell F)) (by
      intro s hs
      have h1 := cells_short _ s hs
      have h2 := writeMessage_length (pid + 1) ((vs.map (cell F)).flatMap cellBytes)
      unfold maxAlloc at hle
      omega)
    rwa [List.length_map] at this

/-- C33.  A text result set: the client reads the columns, and for every row the texts of its values.  It is refused only when
the buffer would exceed 2 GiB. -/
theorem C33_result_text (F : Fmt) (hF : F.Ok) (fs : List Field) (hn : fs ≠ []) (hs : ∀ f ∈ fs, f.Short) (rows : List (List EV))
    (hw : ∀ r ∈ rows, r.length = fs.length) (b : Buf) (hb : b.Ok) (pid : Nat) :
    (∀ b' pid', packResult (packTextRow F) fs rows b pid = some (b', pid') → b'.Ok ∧ ∃ w, b'.data = b.data ++ w ∧
      ∀ rest, Spec.resultset (fun cols => Spec.textRow cols.length) (pid + 1) (w ++ rest) =
        some (fs.map Field.col, rows.map (·.map (cell F)), pid' + 1, rest)) ∧
    (packResult (packTextRow F) fs rows b pid = none ↔
      maxAlloc < b.data.length + (stream (pid + 1) (resultMsgs (fun vs => vs.flatMap fun v => cellBytes (cell F v)) fs rows)).length) := by
  have S := packResult_sends (packTextRow F) (fun vs => vs.flatMap fun v => cellBytes (cell F v)) fs rows hn hs
    (fun r _ b pid hb => packTextRow_sends F hF b hb pid r) b hb pid
  refine ⟨?_, sends_none S⟩
  intro b' pid' h
  obtain ⟨ho, hd, hp, hle⟩ := sends_read S h
  have hall := mem_stream_length (pid + 1) (resultMsgs (fun vs => vs.flatMap fun v => cellBytes (cell F v)) fs rows)
  have hcnt := stream_length (pid + 1) (resultMsgs (fun vs => vs.flatMap fun v => cellBytes (cell F v)) fs rows)
  refine ⟨ho, _, hd, fun rest => ?_⟩
  rw [hp]
  apply resultset_stream _ _ _ fs rows hs
  · have : fs.length ≤ (resultMsgs (fun vs => vs.flatMap fun v => cellBytes (cell F v)) fs rows).length := by
      simp [resultMsgs]; omega
    unfold maxAlloc at hle
    omega
  · intro r hr
    simp only [cells_flatMap]
    refine ⟨?_, isEof_cells _⟩
    have hm := hall (r.flatMap fun v => cellBytes (cell F v)) (by
      simp only [resultMsgs, List.mem_append, List.mem_map]
      exact Or.inr (Or.inl ⟨r, hr, rfl⟩))
    have := textRow_cells (r.map (cell F)) (by
      intro s hs
      have h1 := cells_short _ s hs
      rw [cells_flatMap] at hm
      unfold maxAlloc at hle
      omega)
    rw [List.length_map, hw r hr] at this
    rwa [List.length_map]

/-- A column and a row to show that the hypotheses are met. -/
def exampleField : Field := ⟨[0x64#8], [], [], [], [0x61#8], [], 33, 255, 254, 1, 0⟩
example : exampleField.Short ∧ [exampleField] ≠ [] ∧ Fmt.Ok ⟨fun _ => [0x31#8], fun _ => 0⟩ :=
  ⟨by unfold Field.Short exampleField; decide, by simp, fun v => by simp⟩
example : (packResult (packTextRow ⟨fun _ => [0x31#8], fun _ => 0⟩) [exampleField] [[⟨.string, 0, [0x78#8]⟩], [⟨.null, 0, []⟩]] ⟨[], 0⟩ 0).map
    (fun p => (p.1.data, p.2)) =
    some ([1#8, 0#8, 0#8, 1#8, 1#8] ++
      [21#8, 0#8, 0#8, 2#8, 1#8, 0x64#8, 0#8, 0#8, 0#8, 1#8, 0x61#8, 0#8, 0x0c#8, 33#8, 0#8, 255#8, 0#8, 0#8, 0#8, 254#8, 1#8, 0#8, 0#8, 0#8, 0#8] ++
      [5#8, 0#8, 0#8, 3#8, 0xfe#8, 0#8, 0#8, 2#8, 0#8] ++ [2#8, 0#8, 0#8, 4#8, 1#8, 0x78#8] ++ [1#8, 0#8, 0#8, 5#8, 0xfb#8] ++
      [5#8, 0#8, 0#8, 6#8, 0xfe#8, 0#8, 0#8, 2#8, 0#8], 6) := by decide +kernel

/-! ## Columns -/

/-- C33.  The description of a column: the protocol type the client decodes the value with, the unsigned flag exactly for
unsigned integers, the binary flag and the binary character set for binary strings; names and database are kept. -/
theorem C33_column_type (f : Field) (ty : VTy) (binary : Bool) :
    (f.typed ty binary).type.toNat = (if binary ∧ isStr ty then tBlob else mysqlType ty) ∧
    Spec.isUnsigned (f.typed ty binary).flags.toNat = ty.isUint ∧
    ((f.typed ty binary).flags.toNat.testBit 7 = (binary && isStr ty)) ∧
    ((f.typed ty binary).charset = if binary ∧ isStr ty then 0x3f#16 else f.charset) ∧
    ((f.typed ty binary).col.name, (f.typed ty binary).col.orgName, (f.typed ty binary).col.table, (f.typed ty binary).col.orgTable,
      (f.typed ty binary).col.schema, (f.typed ty binary).col.catalog) = (f.name, f.orgName, f.table, f.orgTable, f.db, f.catalog) := by
  have hfl : (f.typed ty binary).flags = (exampleField.typed ty binary).flags := by cases ty <;> cases binary <;> rfl
  refine ⟨?_, ?_, ?_, ?_, ?_⟩
  · cases ty <;> cases binary <;> rfl
  · rw [hfl]; clear hfl; cases ty <;> cases binary <;> decide
  · rw [hfl]; clear hfl; cases ty <;> cases binary <;> decide
  · cases ty <;> cases binary <;> rfl
  · cases ty <;> cases binary <;> rfl

/-- C33.  The types the client is told, by the type of the expression. -/
theorem C33_column_codes : mysqlType .bool = 1 ∧ mysqlType .int8 = 1 ∧ mysqlType .uint8 = 1 ∧ mysqlType .int16 = 2 ∧ mysqlType .uint16 = 2 ∧
    mysqlType .int32 = 3 ∧ mysqlType .uint32 = 3 ∧ mysqlType .int64 = 8 ∧ mysqlType .uint64 = 8 ∧ mysqlType .float = 4 ∧
    mysqlType .double = 5 ∧ mysqlType .timestamp = 7 ∧ mysqlType .date = 10 ∧ mysqlType .time = 11 ∧ mysqlType .datetime = 12 ∧
    mysqlType .json = 245 ∧ mysqlType .string = 254 ∧ tBlob = 252 := by decide

theorem typed_short (f : Field) (ty : VTy) (binary : Bool) : (f.typed ty binary).Short ↔ f.Short := by
  unfold Field.Short
  cases ty <;> cases binary <;> rfl

/-! ## Binary rows -/

/-- A column of a result set with the type of its expression. -/
structure TCol where
  field : Field
  ty : VTy
  binary : Bool

def TCol.sent (c : TCol) : Field := c.field.typed c.ty c.binary

/-- The values of a row have the types of the columns, or are NULL. -/
def RowOk (cols : List TCol) (vs : List EV) : Prop :=
  vs.length = cols.length ∧ ∀ p ∈ vs.zip cols, p.1.isNull = true ∨ (p.1.ty = p.2.ty ∧ p.1.ty ≠ .maxvalue ∧ p.1.ty ≠ .other)

/-- The row as `pack_binary_row` gets it: each value with the type of its column. -/
def withTypes (cols : List TCol) (vs : List EV) : List (EV × Nat) := vs.zip ((cols.map TCol.sent).map fun f => f.type.toNat)

theorem zip_map_mem {α β γ : Type} (f : β → γ) (l : List α) (m : List β) (q : α × γ) (h : q ∈ l.zip (m.map f)) :
    ∃ p ∈ l.zip m, q = (p.1, f p.2) := by
  induction l generalizing m with
  | nil => simp at h
  | cons a l ih =>
    cases m with
    | nil => simp at h
    | cons c m =>
      simp only [List.map_cons, List.zip_cons_cons, List.mem_cons] at h
      rcases h with rfl | h
      · exact ⟨(a, c), by simp, rfl⟩
      · obtain ⟨p, hp, rfl⟩ := ih m h
        exact ⟨p, by simp [hp], rfl⟩

theorem withTypes_typed (cols : List TCol) (vs : List EV) (h : RowOk cols vs) : ∀ q ∈ withTypes cols vs, Typed q.1 q.2 := by
  intro q hq
  unfold withTypes at hq
  rw [List.map_map] at hq
  obtain ⟨p, hp, rfl⟩ := zip_map_mem _ _ _ _ hq
  rcases h.2 p hp with h0 | ⟨h1, h2, h3⟩
  · exact Or.inl h0
  · simp only [Function.comp_def, TCol.sent]
    rw [(C33_column_type p.2.field p.2.ty p.2.binary).1, ← h1]
    by_cases hs : isStr p.1.ty = true
    · refine Or.inr (Or.inl ⟨hs, ?_⟩)
      have : ∀ t, isStr t = true → ∀ bin : Bool, Spec.isText (if bin = true ∧ isStr t = true then tBlob else mysqlType t) := by
        intro t ht bin
        cases t <;> simp [isStr] at ht <;> cases bin <;> decide
      exact this _ hs _
    · refine Or.inr (Or.inr ⟨h2, h3, by simpa using hs, ?_⟩)
      rw [if_neg (by simp [hs])]

theorem withTypes_unsigned (cols : List TCol) (vs : List EV) (h : RowOk cols vs) :
    ∀ p ∈ vs.zip (cols.map TCol.sent), (p.1.ty.isInt = true → Spec.isUnsigned p.2.flags.toNat = p.1.ty.isUint) ∧
      (p.1.ty = .bool → Spec.isUnsigned p.2.flags.toNat = false) := by
  intro q hq
  obtain ⟨p, hp, rfl⟩ := zip_map_mem _ _ _ _ hq
  simp only [TCol.sent, (C33_column_type p.2.field p.2.ty p.2.binary).2.1]
  rcases h.2 p hp with h0 | ⟨h1, h2, h3⟩
  · have : p.1.ty = .null ∨ p.1.ty = .invalid := by
      simpa [EV.isNull] using h0
    rcases this with e | e <;> simp [e, VTy.isInt]
  · rw [← h1]
    exact ⟨fun _ => rfl, fun e => by rw [e]; rfl⟩

theorem binBytes_str (v : EV) (t : Nat) (h : isStr v.ty = true) (hn : v.isNull = false) : v.s.length ≤ (binBytes v t).length := by
  unfold binBytes
  rw [if_neg (by simp [hn]), if_pos h]
  simp [cellBytes]

/-- C33.  A binary result set (the answer to COM_STMT_EXECUTE): the client reads the columns, and for every value of every row
NULL or what `seen` says: integers, floats and strings exactly; for dates and times see `C33_binary_value_partial`.  It is
refused only when the buffer would exceed 2 GiB. -/
theorem C33_result_binary (cols : List TCol) (hn : cols ≠ []) (hs : ∀ c ∈ cols, c.field.Short) (rows : List (List EV))
    (hr : ∀ r ∈ rows, RowOk cols r) (b : Buf) (hb : b.Ok) (pid : Nat) :
    (∀ b' pid', packResult (fun b pid r => packBinaryRow b pid (withTypes cols r)) (cols.map TCol.sent) rows b pid = some (b', pid') →
      b'.Ok ∧ ∃ w, b'.data = b.data ++ w ∧
      ∀ rest, Spec.resultset Spec.binaryRow (pid + 1) (w ++ rest) =
        some (cols.map fun c => c.sent.col, rows.map (·.map shown), pid' + 1, rest)) ∧
    (packResult (fun b pid r => packBinaryRow b pid (withTypes cols r)) (cols.map TCol.sent) rows b pid = none ↔
      maxAlloc < b.data.length +
        (stream (pid + 1) (resultMsgs (fun r => binaryMsg (withTypes cols r)) (cols.map TCol.sent) rows)).length) := by
  have hshort : ∀ f ∈ cols.map TCol.sent, f.Short := by
    intro f hf
    obtain ⟨c, hc, rfl⟩ := List.mem_map.1 hf
    exact (typed_short _ _ _).2 (hs c hc)
  have S := packResult_sends (fun b pid r => packBinaryRow b pid (withTypes cols r)) (fun r => binaryMsg (withTypes cols r))
    (cols.map TCol.sent) rows (by simpa using hn) hshort
    (fun r h b pid hb => packBinaryRow_sends b hb pid _ (withTypes_typed cols r (hr r h))) b hb pid
  refine ⟨?_, sends_none S⟩
  intro b' pid' h
  obtain ⟨ho, hd, hp, hle⟩ := sends_read S h
  have hall := mem_stream_length (pid + 1) (resultMsgs (fun r => binaryMsg (withTypes cols r)) (cols.map TCol.sent) rows)
  have hcnt := stream_length (pid + 1) (resultMsgs (fun r => binaryMsg (withTypes cols r)) (cols.map TCol.sent) rows)
  refine ⟨ho, _, hd, fun rest => ?_⟩
  rw [hp]
  have key := resultset_stream Spec.binaryRow (fun r => binaryMsg (withTypes cols r)) (·.map shown) (cols.map TCol.sent) rows hshort
    (by
      have : cols.length ≤ (resultMsgs (fun r => binaryMsg (withTypes cols r)) (cols.map TCol.sent) rows).length := by
        simp [resultMsgs]; omega
      unfold maxAlloc at hle
      rw [List.length_map]
      omega)
    (by
      intro r h1
      apply binaryRow_msg
      · rw [(hr r h1).1, List.length_map]
      · exact withTypes_typed cols r (hr r h1)
      · intro v hv hsv
        have hnn : v.isNull = false := by cases ht : v.ty <;> simp_all [isStr, EV.isNull]
        have hm := hall (binaryMsg (withTypes cols r)) (by
          simp only [resultMsgs, List.mem_append, List.mem_map]
          exact Or.inr (Or.inl ⟨r, h1, rfl⟩))
        have hq : ∃ t, (v, t) ∈ withTypes cols r := by
          have e : (withTypes cols r).map Prod.fst = r := by
            unfold withTypes
            rw [List.map_fst_zip (by simp [(hr r h1).1])]
          rw [← e] at hv
          obtain ⟨q, hq, rfl⟩ := List.mem_map.1 hv
          exact ⟨q.2, hq⟩
        obtain ⟨t, ht⟩ := hq
        have h2 := mem_flatMap_length (fun p => binBytes p.1 p.2) _ _ ht
        have h3 := binBytes_str v t hsv hnn
        have h4 : ((withTypes cols r).flatMap fun p => binBytes p.1 p.2).length ≤ (binaryMsg (withTypes cols r)).length := by
          unfold binaryMsg; rw [List.length_append]; omega
        simp only at h2
        unfold maxAlloc at hle
        omega
      · exact withTypes_unsigned cols r (hr r h1)) (pid + 1) rest
  rw [List.map_map] at key
  exact key

/-- What a value of the server stands for. -/
def meant (v : EV) : Spec.Val :=
  match v.ty with
  | .bool | .int8 | .int16 | .int32 | .int64 | .uint8 | .uint16 | .uint32 | .uint64 => .int ((getInt v).getD 0)
  | .float => .f32 (v.u.toNat % 2 ^ 32)
  | .double => .f64 v.u.toNat
  | .string | .hex | .json => .str v.s
  | .datetime =>
    let f := Datetime.unpack v.u.toNat
    .date f.year f.month f.day f.hour f.minute f.second f.micro
  | .timestamp =>
    if v.u.toNat % 2 ^ 32 = 0 then .date 0 0 0 0 0 0 0
    else
      let f := (Datetime.localtime (v.u.toNat % 2 ^ 32 : Nat) 8).fields
      .date f.year f.month f.day f.hour f.minute f.second 0
  | .date =>
    let f := Datetime.unpack (Datetime.ofDate (v.u.toNat % 2 ^ 32))
    .date f.year f.month f.day 0 0 0 0
  | .time =>
    let t := v.sget 32
    .time (decide (t < 0)) (Datetime.timeHour t / 24) (Datetime.timeHour t % 24) (Datetime.timeMin t) (Datetime.timeSec t) 0
  | .null | .invalid | .maxvalue | .other => .null

/-- The values for which binary rows are exact: truth values are 0 or 1, a DATETIME has no microseconds, a TIMESTAMP is not zero,
a TIME is not a whole number of days (unless zero). -/
def Exact (v : EV) : Prop :=
  (v.ty = .bool → v.u.toNat % 256 ≤ 1) ∧
  (v.ty = .datetime → (Datetime.unpack v.u.toNat).micro = 0) ∧
  (v.ty = .timestamp → v.u.toNat % 2 ^ 32 ≠ 0) ∧
  (v.ty = .time → v.sget 32 = 0 ∨ ¬ (Datetime.timeHour (v.sget 32) % 24 = 0 ∧ Datetime.timeMin (v.sget 32) = 0 ∧
    Datetime.timeSec (v.sget 32) = 0))

theorem date_fields (d : Nat) : (Datetime.unpack (Datetime.ofDate d)).year = (d >>> 5 &&& 0x1FFFF) / 13 ∧
    (Datetime.unpack (Datetime.ofDate d)).month = (d >>> 5 &&& 0x1FFFF) % 13 ∧ (Datetime.unpack (Datetime.ofDate d)).day = d &&& 0x1F := by
  have hx : Datetime.ofDate d = d * 2 ^ 41 := Nat.shiftLeft_eq d 41
  generalize Datetime.ofDate d = x at hx ⊢
  have e1 : x / 2 ^ 46 = d / 2 ^ 5 := by omega
  have e2 : x / 2 ^ 41 = d := by omega
  rw [and_17, and_5, Nat.shiftRight_eq_div_pow, ← e1, ← e2, Datetime.unpack_eq]
  exact ⟨rfl, rfl, rfl⟩

/-- C33.  Part of the claim that a binary row shows every value: the values of `Exact`.  For the others see
`C33_binary_time_counterexample`, `C33_binary_micro_counterexample` and `C33_binary_timestamp_counterexample`. -/
theorem C33_binary_value_partial (v : EV) (h : Exact v) : shown v = if v.isNull then .null else meant v := by
  unfold shown
  by_cases hn : v.isNull = true
  · rw [if_pos hn, if_pos hn]
  rw [if_neg hn, if_neg hn]
  obtain ⟨h1, h2, h3, h4⟩ := h
  unfold seen meant
  cases hv : v.ty with
  | bool =>
    have := h1 hv
    simp only [getInt, hv, EV.uget, BitVec.toNat_setWidth, Option.getD_some]
    unfold Spec.intOf
    rw [if_pos (by right; omega)]
  | datetime =>
    simp only [h2 hv]
  | timestamp =>
    simp only [if_neg (h3 hv)]
  | date =>
    generalize v.u.toNat % 2 ^ 32 = d
    obtain ⟨e1, e2, e3⟩ := date_fields d
    simp only [e1, e2, e3]
  | time =>
    simp only
    rcases h4 hv with h | h
    · rw [h]
      decide
    · rw [if_neg h]
  | _ => simp only

example : Exact ⟨.time, putLow 32 0 (Datetime.packTime true 838 59 59), []⟩ ∧
    shown ⟨.time, putLow 32 0 (Datetime.packTime true 838 59 59), []⟩ = .time true 34 22 59 59 0 := by
  constructor
  · unfold Exact; decide
  · decide

/-- C33.  The TIME 24:00:00 is sent in binary rows without its fields, which the client reads as 00:00:00; the text row is
right. -/
theorem C33_binary_time_counterexample :
    shown ⟨.time, putLow 32 0 (Datetime.packTime false 24 0 0), []⟩ = .time false 0 0 0 0 0 ∧
    meant ⟨.time, putLow 32 0 (Datetime.packTime false 24 0 0), []⟩ = .time false 1 0 0 0 0 ∧
    Spec.binVal 11 false (binBytes ⟨.time, putLow 32 0 (Datetime.packTime false 24 0 0), []⟩ 11) = some (.time false 0 0 0 0 0, []) := by
  decide

/-- C33.  The microseconds of a DATETIME are not sent in binary rows. -/
theorem C33_binary_micro_counterexample :
    let v : EV := ⟨.datetime, BitVec.ofNat 64 (Datetime.pack ⟨2024, 2, 29, 1, 2, 3, 500000⟩), []⟩
    shown v = .date 2024 2 29 1 2 3 0 ∧ meant v = .date 2024 2 29 1 2 3 500000 := by
  decide

/-- C33.  The TIMESTAMP zero is `0000-00-00 00:00:00` in text rows and 1970-01-01 08:00:00 in binary rows. -/
theorem C33_binary_timestamp_counterexample :
    let v : EV := ⟨.timestamp, 0, []⟩
    shown v = .date 1970 1 1 8 0 0 0 ∧ meant v = .date 0 0 0 0 0 0 0 ∧
    cell ⟨fun _ => [], fun _ => 0⟩ v = some (Datetime.secText ⟨0, 0, 0, 0, 0, 0, 0⟩) := by
  decide +kernel

/-! ## The text loop -/

/-- C33.  The loop that enlarges the buffer ends after at most three rounds, and its outcome does not depend on the bound. -/
theorem C33_text_value (F : Fmt) (hF : F.Ok) (b : Buf) (hb : b.Ok) (v : EV) (fuel : Nat) (hf : 3 ≤ fuel) :
    (∀ b', b.appendText F v fuel = some b' → b'.Ok ∧ ∃ w, b'.data = b.data ++ w ∧
      ∀ rest, Spec.item (w ++ rest) = some (cell F v, rest)) ∧
    (b.appendText F v fuel = none → b.appendText F v 3 = none ∧ maxAlloc < b.data.length + (cellBytes (cell F v)).length) := by
  have h := adds_appendText F hF b hb v fuel hf
  have h3 := adds_appendText F hF b hb v 3 (by omega)
  constructor
  · intro b' hr
    have hle : b.data.length + (cellBytes (cell F v)).length ≤ maxAlloc := by
      by_contra hc'
      rw [h.2 (by omega)] at hr
      cases hr
    obtain ⟨b2, e, hd, ho⟩ := h.1 hle
    rw [hr] at e
    cases e
    refine ⟨ho, _, hd, fun rest => item_cellBytes _ (fun t ht => ?_) rest⟩
    rw [ht] at hle
    unfold maxAlloc at hle
    simp [cellBytes] at hle
    omega
  · intro hr
    have hlt : maxAlloc < b.data.length + (cellBytes (cell F v)).length := by
      by_contra hc'
      obtain ⟨b2, e, -⟩ := h.1 (by omega)
      rw [hr] at e
      cases e
    exact ⟨h3.2 hlt, hlt⟩

/-! ## Commands -/

/-- C33.  A command of the client, whatever its length and however the network cuts it into pieces: when the server stops
reading it has exactly the command (after four bytes it does not use), the sequence number of its last packet, and the rest of
the stream is untouched; and it does stop when enough bytes have arrived. -/
theorem C33_read_chunks (seq : Nat) (m rest : Bytes) (ks : List Nat) :
    (∀ s net, Sock.run {} (Spec.writeMessage seq m ++ rest) ks = some (s, net) →
      s.buf = [0#8, 0#8, 0#8, 0#8] ++ m ∧ s.plen = m.length ∧ net = rest ∧
      (∀ q, Spec.readMessage seq (Spec.writeMessage seq m ++ rest) = some (m, q, rest) → s.pid = (q - 1) % 256)) ∧
    (((Spec.writeMessage seq m) ++ rest).length ≤ (ks.filter (0 < ·)).length →
      ∃ r, Sock.run {} (Spec.writeMessage seq m ++ rest) ks = some r) := by
  obtain ⟨h1, h2⟩ := run_reading seq m rest ks {} _ (reading_start seq m rest)
  refine ⟨?_, h2⟩
  intro s net hr
  obtain ⟨⟨d1, d2, d3, d4, d5⟩, hn⟩ := h1 s net hr
  refine ⟨d1, d2, hn, ?_⟩
  intro q hq
  rw [readMessage_write] at hq
  simp only [Option.some.injEq, Prod.mk.injEq, true_and] at hq
  rw [d3, ← hq.1]

example : (Sock.run {} (Spec.writeMessage 0 [3#8, 0x61#8] ++ [9#8]) [1, 0, 2, 5, 1, 4]).map (fun p => (p.1.buf, p.2)) =
    some ([0#8, 0#8, 0#8, 0#8, 3#8, 0x61#8], [9#8]) := by decide +kernel

/-! ## OK packets -/

/-- C33.  The answer to a statement without rows: the client reads the number of affected rows, the last insert id and the
status flags. -/
theorem C33_ok_packet (affected : Int) (h0 : 0 ≤ affected) (h1 : affected < 2 ^ 31) (id : Nat) (hid : id < 2 ^ 64)
    (inTxn autocommit : Bool) (cap pid : Nat) (hc : cap ≤ maxAlloc) :
    ∃ b', packOk affected id inTxn autocommit cap pid = some (b', pid + 1) ∧ ∀ rest, ∃ m,
      Spec.readMessage (pid + 1) (b'.data ++ rest) = some (m, pid + 2, rest) ∧
      Spec.okMessage m = some (affected.toNat, id, (if inTxn then 1 else 0) + (if autocommit then 2 else 0), 0) := by
  set m := okBody affected id inTxn autocommit with hm
  have l1 := lenenc_length (affected % 2 ^ 64).toNat
  have l2 := lenenc_length id
  have hl : m.length ≤ 23 ∧ 0 < m.length := by
    simp only [hm, okBody, lenenc_zero, List.length_append, le_length, List.length_cons, List.length_nil]
    omega
  have hbuf : ({ data := [], cap := cap } : Buf).Ok := ⟨by simp, hc⟩
  have A : Adds (({ data := [], cap := cap } : Buf).sendAppend m (pid + 1)) { data := [], cap := cap } ((le 3 m.length ++ [byte (pid + 1)]) ++ m) := by
    unfold Buf.sendAppend
    rw [if_neg (by omega)]
    exact adds_bind (adds_append _ hbuf _) fun b' _ ho => adds_append b' ho _
  obtain ⟨b', e, hd, ho⟩ := A.1 (by
    simp only [List.length_append, le_length, List.length_cons, List.length_nil]
    unfold maxAlloc
    omega)
  refine ⟨b', by unfold packOk; rw [← hm, e]; rfl, fun rest => ⟨m, ?_, ?_⟩⟩
  · have hw : Spec.writeMessage (pid + 1) m = (le 3 m.length ++ [byte (pid + 1)]) ++ m := by
      rw [writeMessage_short _ _ (by unfold Spec.maxPayload; omega), le_eq_enc]
      rw [show byte (pid + 1) = BitVec.ofNat 8 ((pid + 1) % 256) from (byte_mod (pid + 1)).symm]
    rw [hd, List.nil_append, ← hw, readMessage_write, pkts_small _ (by unfold Spec.maxPayload; omega)]
  · have hm2 : m = 0#8 :: (lenenc affected.toNat ++ (lenenc id ++
        (le 2 ((if inTxn then 1 else 0) ||| (if autocommit then 2 else 0)) ++ le 2 0))) := by
      have : (affected % 2 ^ 64).toNat = affected.toNat := by omega
      rw [hm, okBody, this, lenenc_zero]
      simp
    rw [hm2]
    unfold Spec.okMessage
    simp only [ne_eq, not_true_eq_false, if_false]
    rw [spec_lenenc_lenenc _ (by omega)]
    simp only
    rw [spec_lenenc_lenenc _ hid]
    cases inTxn <;> cases autocommit <;> rfl

example : (5 : Int) < 2 ^ 31 ∧ (65536 : Nat) ≤ maxAlloc := by decide

/-! ## Rows of SHOW commands -/

theorem adds_showCells (row : List Bytes) (b : Buf) (hb : b.Ok) :
    Adds (showCells row b) b (row.flatMap fun s => if s.length = 0 then [0xfb#8] else lenenc s.length ++ s) := by
  induction row generalizing b with
  | nil => simpa [showCells] using adds_some b hb
  | cons s row ih =>
    simp only [showCells, List.flatMap_cons]
    refine adds_bind ?_ fun b' _ ho => ih b' ho
    split
    · exact adds_append b hb _
    · exact adds_bind (adds_append b hb _) fun b' _ ho => adds_append b' ho _

theorem showRow_sends (b : Buf) (hb : b.Ok) (pid : Nat) (row : List Bytes)
    (hs : (row.flatMap fun s => if s.length = 0 then [0xfb#8] else lenenc s.length ++ s).length < Spec.maxPayload) :
    Sends (showRow b pid row) b pid [row.flatMap fun s => if s.length = 0 then [0xfb#8] else lenenc s.length ++ s] := by
  set m := row.flatMap fun s => if s.length = 0 then [0xfb#8] else lenenc s.length ++ s with hm
  have hadd : Adds ((b.append [1#8, 0#8, 0#8, byte (pid + 1)]).bind (showCells row)) b ([1#8, 0#8, 0#8, byte (pid + 1)] ++ m) :=
    adds_bind (adds_append b hb _) fun b' _ ho => adds_showCells row b' ho
  have hrw : showRow b pid row = ((b.append [1#8, 0#8, 0#8, byte (pid + 1)]).bind (showCells row)).map fun b' =>
      (({ b' with data := writeAt b'.data b.data.length (le 3 (b'.data.length - b.data.length - 4)) } : Buf), pid + 1) := by
    unfold showRow
    simp only [Option.map_bind, Function.comp_def]
  rw [hrw]
  refine header_sends (fun b' => { b' with data := writeAt b'.data b.data.length (le 3 (b'.data.length - b.data.length - 4)) }) hs hadd ?_
  intro b' hd
  have hlen : b'.data.length - b.data.length - 4 = m.length := by
    rw [hd]; simp only [List.length_append, List.length_cons, List.length_nil]; omega
  have h3 : b'.data = b.data ++ [1#8, 0#8, 0#8] ++ (byte (pid + 1) :: m) := by rw [hd]; simp
  simp only [hlen]
  rw [h3, writeAt_at b.data [1#8, 0#8, 0#8] _ (le 3 m.length) (by simp), le_eq_enc]
  simp

/-- C33.  Rows of SHOW commands, of less than 16 MB: the client reads the cells, but an empty one as NULL. -/
theorem C33_show_row_partial (b : Buf) (hb : b.Ok) (pid : Nat) (row : List Bytes) (hs : (row.map fun s => s.length + 9).sum < Spec.maxPayload)
    (b' : Buf) (pid' : Nat) (h : showRow b pid row = some (b', pid')) :
    b'.Ok ∧ ∃ w m, b'.data = b.data ++ w ∧ (∀ rest, Spec.readMessage (pid + 1) (w ++ rest) = some (m, pid' + 1, rest)) ∧
      Spec.textRow row.length m = some (row.map fun s => if s = [] then none else some s) := by
  have hlen : (row.flatMap fun s => if s.length = 0 then [0xfb#8] else lenenc s.length ++ s).length ≤ (row.map fun s => s.length + 9).sum := by
    clear * -
    induction row with
    | nil => simp
    | cons s row ih =>
      have := lenenc_length s.length
      simp only [List.flatMap_cons, List.length_append, List.map_cons, List.sum_cons]
      split
      · simp only [List.length_cons, List.length_nil]; omega
      · simp only [List.length_append]; omega
  obtain ⟨ho, hd, hp, hle⟩ := sends_read (showRow_sends b hb pid row (by omega)) h
  have hmsg : (row.flatMap fun s => if s.length = 0 then [0xfb#8] else lenenc s.length ++ s) =
      (row.map fun s => if s = [] then none else some s).flatMap cellBytes := by
    rw [List.flatMap_map]
    congr 1
    funext s
    cases s <;> simp [cellBytes]
  rw [hmsg] at hd hp hlen
  rw [stream_one] at hd
  refine ⟨ho, _, _, hd, fun rest => by rw [readMessage_write, hp]; rfl, ?_⟩
  have := textRow_cells (row.map fun s => if s = [] then none else some s) (by
    intro s hs'
    have := cells_short _ s hs'
    unfold Spec.maxPayload at hs
    omega)
  rwa [List.length_map] at this

example : (([[0x61#8], []] : List Bytes).map fun s => s.length + 9).sum < Spec.maxPayload := by decide

/-- C33.  An empty string in a row of a SHOW command is sent as NULL. -/
theorem C33_show_empty_counterexample :
    (showRow ⟨[], 64⟩ 0 [[0x61#8], []]).map (fun p => p.1.data) = some [3#8, 0#8, 0#8, 1#8, 1#8, 0x61#8, 0xfb#8] ∧
    Spec.textRow 2 [1#8, 0x61#8, 0xfb#8] = some [some [0x61#8], none] := by
  decide +kernel

/-- C33.  A row of a SHOW command of 16 MB or more (a long statement in SHOW PROCESSLIST) is not cut into packets: its
header says length zero, so the client reads an empty message and takes the text for the next packet. -/
theorem C33_show_long_counterexample (b : Buf) (hb : b.Ok) (hroom : b.data.length + 2 ^ 24 + 4 ≤ maxAlloc) (pid : Nat) (s : Bytes)
    (hl : s.length = 2 ^ 24 - 4) :
    ∃ b' w, showRow b pid [s] = some (b', pid + 1) ∧ b'.data = b.data ++ w ∧
      Spec.readMessage (pid + 1) w = some ([], pid + 2, w.drop 4) := by
  set m := lenenc s.length ++ s with hm
  have hlen4 : (lenenc s.length).length = 4 := by
    have h : s.length = 16777212 := by omega
    unfold lenenc
    rw [if_neg (by omega), if_neg (by omega), if_pos (by omega)]
    simp
  have hml : m.length = 16777216 := by rw [hm, List.length_append, hlen4]; omega
  have hadd : Adds ((b.append [1#8, 0#8, 0#8, byte (pid + 1)]).bind (showCells [s])) b ([1#8, 0#8, 0#8, byte (pid + 1)] ++ m) := by
    refine adds_bind (adds_append b hb _) fun b' _ ho => ?_
    have := adds_showCells [s] b' ho
    rw [List.flatMap_cons, List.flatMap_nil, List.append_nil, if_neg (by omega)] at this
    exact this
  obtain ⟨b2, e, hd, ho⟩ := hadd.1 (by
    rw [List.length_append, hml]
    simp only [List.length_cons, List.length_nil]
    omega)
  have hdl : b2.data.length - b.data.length - 4 = 16777216 := by
    rw [hd]; simp only [List.length_append, List.length_cons, List.length_nil, hml]; omega
  have hd3 : b2.data = b.data ++ [1#8, 0#8, 0#8] ++ (byte (pid + 1) :: m) := by rw [hd]; simp
  refine ⟨{ b2 with data := b.data ++ ([0#8, 0#8, 0#8] ++ (byte (pid + 1) :: m)) }, [0#8, 0#8, 0#8] ++ (byte (pid + 1) :: m), ?_, rfl, ?_⟩
  · unfold showRow
    rw [show ((b.append [1#8, 0#8, 0#8, byte (pid + 1)]).bind fun b1 => (showCells [s] b1).map fun b2 =>
        (({ b2 with data := writeAt b2.data b.data.length (le 3 (b2.data.length - b.data.length - 4)) } : Buf), pid + 1)) =
        (((b.append [1#8, 0#8, 0#8, byte (pid + 1)]).bind (showCells [s])).map fun b2 =>
        (({ b2 with data := writeAt b2.data b.data.length (le 3 (b2.data.length - b.data.length - 4)) } : Buf), pid + 1)) by
      simp only [Option.map_bind, Function.comp_def]]
    rw [e]
    simp only [Option.map_some, hdl]
    rw [hd3, writeAt_at b.data [1#8, 0#8, 0#8] _ _ (by simp)]
    have : le 3 16777216 = [0#8, 0#8, 0#8] := by decide
    rw [this]
    simp
  · unfold Spec.readMessage
    generalize (([0#8, 0#8, 0#8] ++ (byte (pid + 1) :: m)).length) = fuel
    simp only [Spec.message, List.cons_append, List.nil_append, Spec.packet, Spec.num, byte_toNat]
    simp [Spec.maxPayload]

end BaikalDB.Wire
