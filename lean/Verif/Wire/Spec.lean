import Verif.Basic
/-!
# The MySQL client/server protocol, as its documentation defines it

A client written from the protocol description: how it splits the stream into messages, reads a result set and writes a
COM_STMT_EXECUTE.  Nothing here refers to the model of the server.
-/
namespace BaikalDB.Wire.Spec

/-- A little-endian number. -/
def num : Bytes → Nat
  | [] => 0
  | c :: l => c.toNat + 256 * num l

/-- `k` bytes of a number, little-endian. -/
def enc : Nat → Nat → Bytes
  | 0, _ => []
  | k + 1, n => BitVec.ofNat 8 (n % 256) :: enc k (n / 256)

/-- The largest payload of a packet; a longer message goes on in the next packet. -/
def maxPayload : Nat := 2 ^ 24 - 1

/-! ## Packets and messages -/

/-- One packet in front of a stream: three bytes of length, the sequence number, the payload. -/
def packet (s : Bytes) : Option (Nat × Bytes × Bytes) :=
  match s with
  | a :: b :: c :: q :: r => if r.length < num [a, b, c] then none else some (q.toNat, r.take (num [a, b, c]), r.drop (num [a, b, c]))
  | _ => none

/-- The next message of a stream, from a sequence number on: packets of the maximal payload and one shorter packet.  Gives
the message, the next sequence number and the rest of the stream. -/
def message : Nat → Nat → Bytes → Option (Bytes × Nat × Bytes)
  | 0, _, _ => none
  | fuel + 1, seq, s =>
    match packet s with
    | none => none
    | some (q, p, rest) =>
      if q ≠ seq % 256 then none
      else if p.length < maxPayload then some (p, seq + 1, rest)
      else match message fuel (seq + 1) rest with
        | none => none
        | some (m, n, rest') => some (p ++ m, n, rest')

/-- The stream has no more packets than bytes. -/
def readMessage (seq : Nat) (s : Bytes) : Option (Bytes × Nat × Bytes) := message (s.length + 1) seq s

/-- A client writes a message. -/
def writeMessage (seq : Nat) (m : Bytes) : Bytes :=
  if _h : m.length < maxPayload then enc 3 m.length ++ [BitVec.ofNat 8 (seq % 256)] ++ m
  else enc 3 maxPayload ++ [BitVec.ofNat 8 (seq % 256)] ++ m.take maxPayload ++ writeMessage (seq + 1) (m.drop maxPayload)
termination_by m.length
decreasing_by simp only [List.length_drop]; unfold maxPayload at *; omega

/-! ## Length-encoded items -/

/-- A length-encoded integer; `none` inside for the NULL marker. -/
def lenenc : Bytes → Option (Option Nat × Bytes)
  | [] => none
  | c :: r =>
    if c.toNat < 251 then some (some c.toNat, r)
    else if c = 251#8 then some (none, r)
    else
      let k := if c = 252#8 then 2 else if c = 253#8 then 3 else if c = 254#8 then 8 else 0
      if k = 0 ∨ r.length < k then none else some (some (num (r.take k)), r.drop k)

/-- A length-encoded string or NULL. -/
def item (s : Bytes) : Option (Option Bytes × Bytes) :=
  match lenenc s with
  | none => none
  | some (none, r) => some (none, r)
  | some (some n, r) => if r.length < n then none else some (some (r.take n), r.drop n)

/-- `n` items and nothing after them: a text row. -/
def textRow : Nat → Bytes → Option (List (Option Bytes))
  | 0, s => if s = [] then some [] else none
  | n + 1, s =>
    match item s with
    | none => none
    | some (x, r) => (textRow n r).map (x :: ·)

/-- The value of a text of decimal digits. -/
def digits (s : Bytes) : Nat := s.foldl (fun a c => a * 10 + (c.toNat - 48)) 0

/-- A whole number in text: digits, a minus sign in front of them if it is negative. -/
def decimal : Bytes → Option Int
  | [] => none
  | c :: r =>
    if c = 0x2d#8 then (if r ≠ [] ∧ r.all (fun d => decide (48 ≤ d.toNat ∧ d.toNat ≤ 57)) then some (-(digits r : Int)) else none)
    else if (c :: r).all (fun d => decide (48 ≤ d.toNat ∧ d.toNat ≤ 57)) then some (digits (c :: r)) else none

/-! ## OK messages -/

/-- An OK message: affected rows, last insert id, status flags, warnings. -/
def okMessage : Bytes → Option (Nat × Nat × Nat × Nat)
  | [] => none
  | h :: r =>
    if h ≠ 0#8 then none
    else match lenenc r with
      | some (some a, r1) =>
        match lenenc r1 with
        | some (some i, [s0, s1, w0, w1]) => some (a, i, num [s0, s1], num [w0, w1])
        | _ => none
      | _ => none

/-! ## Column definitions -/

/-- Column definition 4.1. -/
structure Col where
  catalog : Bytes
  schema : Bytes
  table : Bytes
  orgTable : Bytes
  name : Bytes
  orgName : Bytes
  charset : Nat
  length : Nat
  type : Nat
  flags : Nat
  decimals : Nat
deriving DecidableEq, Repr

/-- `n` strings in front. -/
def strings : Nat → Bytes → Option (List Bytes × Bytes)
  | 0, s => some ([], s)
  | n + 1, s =>
    match item s with
    | some (some x, r) => (strings n r).map fun q => (x :: q.1, q.2)
    | _ => none

def column (s : Bytes) : Option Col :=
  match strings 6 s with
  | some ([a, b, c, d, e, f], r) =>
    match r with
    | [x0, x1, x2, x3, x4, x5, x6, x7, x8, x9, x10, _, _] =>
      if x0 = 0x0c#8 then
        some ⟨a, b, c, d, e, f, num [x1, x2], num [x3, x4, x5, x6], num [x7], num [x8, x9], num [x10]⟩
      else none
    | _ => none
  | _ => none

/-! ## Result sets -/

/-- The end-of-data message. -/
def isEof (m : Bytes) : Bool := m.head? == some 0xfe#8 && decide (m.length < 9)

/-- Messages up to the end-of-data message, each read by `row`. -/
def rowsUpTo (row : Bytes → Option α) : Nat → Nat → Bytes → Option (List α × Nat × Bytes)
  | 0, _, _ => none
  | fuel + 1, seq, s =>
    match readMessage seq s with
    | none => none
    | some (m, n, rest) =>
      if isEof m then some ([], n, rest)
      else match row m with
        | none => none
        | some x => (rowsUpTo row fuel n rest).map fun q => (x :: q.1, q.2)

def readRows (row : Bytes → Option α) (seq : Nat) (s : Bytes) : Option (List α × Nat × Bytes) :=
  rowsUpTo row (s.length + 1) seq s

/-- A result set: the number of columns, their definitions, end of data, the rows, end of data.  `row` reads one row given
the columns. -/
def resultset (row : List Col → Bytes → Option α) (seq : Nat) (s : Bytes) : Option (List Col × List α × Nat × Bytes) :=
  match readMessage seq s with
  | none => none
  | some (m, n, rest) =>
    match lenenc m with
    | some (some k, []) =>
      match readRows column n rest with
      | none => none
      | some (cols, n', rest') =>
        if cols.length ≠ k then none
        else (readRows (row cols) n' rest').map fun q => (cols, q)
    | _ => none

/-! ## Binary rows -/

/-- A value as the client sees it in a binary row or sends it as a parameter. -/
inductive Val where
  | null
  | int (n : Int)
  | f32 (bits : Nat)
  | f64 (bits : Nat)
  | str (s : Bytes)
  | date (year month day hour minute second micro : Nat)
  | time (neg : Bool) (days hour minute second micro : Nat)
deriving DecidableEq, Repr

/-- An integer of `k` bytes. -/
def intOf (k : Nat) (unsigned : Bool) (n : Nat) : Int := if unsigned ∨ n < 2 ^ (8 * k - 1) then n else (n : Int) - 2 ^ (8 * k)

/-- Width of the integer types: TINY, SHORT, LONG, INT24, LONGLONG. -/
def intWidth (type : Nat) : Nat :=
  if type = 1 then 1 else if type = 2 then 2 else if type = 3 ∨ type = 9 then 4 else if type = 8 then 8 else 0

/-- DATE, DATETIME and TIMESTAMP. -/
def isDate (type : Nat) : Prop := type = 10 ∨ type = 12 ∨ type = 7
instance : DecidablePred isDate := fun _ => inferInstanceAs (Decidable (_ ∨ _))

/-- The types sent as length-encoded strings: VARCHAR, JSON, DECIMAL, ENUM, SET, the BLOBs, the strings. -/
def isText (type : Nat) : Prop := type = 15 ∨ 245 ≤ type
instance : DecidablePred isText := fun _ => inferInstanceAs (Decidable (_ ∨ _))

/-- The bytes of a date: none, or year, month, day, then the time of day, then the microseconds, as far as they go. -/
def dateOf : Bytes → Option Val
  | [] => some (.date 0 0 0 0 0 0 0)
  | [y0, y1, m, d] => some (.date (num [y0, y1]) m.toNat d.toNat 0 0 0 0)
  | [y0, y1, m, d, h, i, s] => some (.date (num [y0, y1]) m.toNat d.toNat h.toNat i.toNat s.toNat 0)
  | [y0, y1, m, d, h, i, s, u0, u1, u2, u3] =>
    some (.date (num [y0, y1]) m.toNat d.toNat h.toNat i.toNat s.toNat (num [u0, u1, u2, u3]))
  | _ => none

/-- The bytes of a time: none, or sign, days, hours, minutes, seconds, then the microseconds. -/
def timeOf : Bytes → Option Val
  | [] => some (.time false 0 0 0 0 0)
  | [n, d0, d1, d2, d3, h, i, s] => some (.time (n != 0#8) (num [d0, d1, d2, d3]) h.toNat i.toNat s.toNat 0)
  | [n, d0, d1, d2, d3, h, i, s, u0, u1, u2, u3] =>
    some (.time (n != 0#8) (num [d0, d1, d2, d3]) h.toNat i.toNat s.toNat (num [u0, u1, u2, u3]))
  | _ => none

/-- One value of a type in front of the bytes. -/
def binVal (type : Nat) (unsigned : Bool) (s : Bytes) : Option (Val × Bytes) :=
  let k := intWidth type
  if 0 < k then if s.length < k then none else some (.int (intOf k unsigned (num (s.take k))), s.drop k)
  else if type = 4 then if s.length < 4 then none else some (.f32 (num (s.take 4)), s.drop 4)
  else if type = 5 then if s.length < 8 then none else some (.f64 (num (s.take 8)), s.drop 8)
  else if isDate type then
    match s with
    | [] => none
    | c :: r => if r.length < c.toNat then none else (dateOf (r.take c.toNat)).map fun v => (v, r.drop c.toNat)
  else if type = 11 then
    match s with
    | [] => none
    | c :: r => if r.length < c.toNat then none else (timeOf (r.take c.toNat)).map fun v => (v, r.drop c.toNat)
  else if isText type then
    match item s with
    | some (some x, r) => some (.str x, r)
    | _ => none
  else none

/-- Bit `i` of a bitmap. -/
def bit (m : Bytes) (i : Nat) : Bool := (m.getD (i / 8) 0#8).toNat.testBit (i % 8)

/-- The values of a binary row; the column number `i` has bit `i + 2` of the bitmap. -/
def binVals (m : Bytes) : List (Nat × Bool) → Nat → Bytes → Option (List Val)
  | [], _, s => if s = [] then some [] else none
  | (t, u) :: ts, i, s =>
    if bit m (i + 2) then (binVals m ts (i + 1) s).map (.null :: ·)
    else match binVal t u s with
      | none => none
      | some (v, r) => (binVals m ts (i + 1) r).map (v :: ·)

/-- Flag of an unsigned column. -/
def isUnsigned (flags : Nat) : Bool := flags.testBit 5

/-- A binary row: a zero byte, the bitmap, the values. -/
def binaryRow (cols : List Col) (m : Bytes) : Option (List Val) :=
  match m with
  | [] => none
  | h :: r =>
    let k := (cols.length + 7 + 2) / 8
    if h ≠ 0#8 ∨ r.length < k then none
    else binVals (r.take k) (cols.map fun c => (c.type, isUnsigned c.flags)) 0 (r.drop k)

/-! ## COM_STMT_EXECUTE -/

/-- A parameter as the client binds it: NULL (with the type it declares), data already sent in pieces, or a value. -/
inductive Param where
  | null (type : Nat)
  | long (type : Nat) (s : Bytes)
  | int (type : Nat) (unsigned : Bool) (n : Int)
  | f32 (bits : Nat)
  | f64 (bits : Nat)
  | str (type : Nat) (s : Bytes)
  | date (type : Nat) (year month day hour minute second micro : Nat)
  | time (neg : Bool) (days hour minute second micro : Nat)
deriving DecidableEq, Repr

/-- The two bytes of a type: code and, for unsigned integers, 0x80. -/
def Param.type : Param → Nat × Bool
  | .null t | .long t _ | .str t _ | .date t .. => (t, false)
  | .int t u _ => (t, u)
  | .f32 _ => (4, false)
  | .f64 _ => (5, false)
  | .time .. => (11, false)

/-- The values a client may bind with each type. -/
def Param.Legal : Param → Prop
  | .null t => t < 256
  | .long t _ => t < 256
  | .int t u n => 0 < intWidth t ∧
      if u then 0 ≤ n ∧ n < 2 ^ (8 * intWidth t) else -2 ^ (8 * intWidth t - 1) ≤ n ∧ n < 2 ^ (8 * intWidth t - 1)
  | .f32 b => b < 2 ^ 32
  | .f64 b => b < 2 ^ 64
  | .str t s => (t = 252 ∨ t = 253 ∨ t = 254) ∧ s.length < 2 ^ 31
  | .date t y m d h i s u =>
      isDate t ∧ y ≤ 9999 ∧ m ≤ 12 ∧ d ≤ 31 ∧ h ≤ 23 ∧ i ≤ 59 ∧ s ≤ 59 ∧ u ≤ 999999
  | .time _ d h i s u => d ≤ 34 ∧ h ≤ 23 ∧ i ≤ 59 ∧ s ≤ 59 ∧ u ≤ 999999

/-- The length-encoded integer a client writes. -/
def encLen (n : Nat) : Bytes :=
  if n ≤ 250 then [BitVec.ofNat 8 n]
  else if n < 2 ^ 16 then 0xfc#8 :: enc 2 n
  else if n < 2 ^ 24 then 0xfd#8 :: enc 3 n
  else 0xfe#8 :: enc 8 n

/-- The bytes of a value: a client leaves out the zero parts of dates and times. -/
def Param.bytes : Param → Bytes
  | .null _ | .long _ _ => []
  | .int t _ n => enc (intWidth t) (n % 2 ^ (8 * intWidth t)).toNat
  | .f32 b => enc 4 b
  | .f64 b => enc 8 b
  | .str _ s => encLen s.length ++ s
  | .date _ y m d h i s u =>
    if u ≠ 0 then [11#8] ++ enc 2 y ++ enc 1 m ++ enc 1 d ++ enc 1 h ++ enc 1 i ++ enc 1 s ++ enc 4 u
    else if h ≠ 0 ∨ i ≠ 0 ∨ s ≠ 0 then [7#8] ++ enc 2 y ++ enc 1 m ++ enc 1 d ++ enc 1 h ++ enc 1 i ++ enc 1 s
    else if y ≠ 0 ∨ m ≠ 0 ∨ d ≠ 0 then [4#8] ++ enc 2 y ++ enc 1 m ++ enc 1 d
    else [0#8]
  | .time n d h i s u =>
    if u ≠ 0 then [12#8] ++ enc 1 n.toNat ++ enc 4 d ++ enc 1 h ++ enc 1 i ++ enc 1 s ++ enc 4 u
    else if d ≠ 0 ∨ h ≠ 0 ∨ i ≠ 0 ∨ s ≠ 0 then [8#8] ++ enc 1 n.toNat ++ enc 4 d ++ enc 1 h ++ enc 1 i ++ enc 1 s
    else [0#8]

def Param.isNull : Param → Bool
  | .null _ => true
  | _ => false

/-- The bitmap of the NULL parameters, eight to a byte, low bit first. -/
def bitmapByte : List Bool → Nat
  | [] => 0
  | b :: l => b.toNat + 2 * bitmapByte l

def bitmap : Nat → List Bool → Bytes
  | 0, _ => []
  | k + 1, l => BitVec.ofNat 8 (bitmapByte (l.take 8)) :: bitmap k (l.drop 8)

/-- The types, two bytes each. -/
def typeBytes (t : Nat × Bool) : Bytes := [BitVec.ofNat 8 t.1, if t.2 then 0x80#8 else 0#8]

/-- COM_STMT_EXECUTE: command, statement, no cursor, one iteration, then, if there are parameters, the bitmap, whether the
types are sent, the types, the values. -/
def execute (id : Nat) (ps : List Param) (bind : Bool) : Bytes :=
  [0x17#8] ++ enc 4 id ++ [0#8] ++ enc 4 1 ++
    (if ps = [] then []
     else bitmap ((ps.length + 7) / 8) (ps.map Param.isNull) ++ [if bind then 1#8 else 0#8] ++
       (if bind then ps.flatMap fun p => typeBytes p.type else []) ++ ps.flatMap Param.bytes)

end BaikalDB.Wire.Spec
