import Mathlib.Tactic.Common

/-!
# String functions of SQL

Model of src/expr/internal_functions.cpp L319-836, L1263-1310 and L2965-3330.  Strings are lists of bytes.  Arguments that
the code reads by `get_numberic<int>()` are integers here, of that type's range.
-/
namespace BaikalDB.StrFn

abbrev Bytes := List Nat

/-- An argument: NULL, a string, or a value of another type with its text. -/
inductive Arg
  | null
  | str (s : Bytes)
  | other (text : Bytes)
  deriving DecidableEq, Repr

/-- `is_null()`. -/
def Arg.isNull : Arg → Bool
  | .null => true
  | _ => false

/-- `get_string()` (include/common/expr_value.h L704-790). -/
def Arg.text : Arg → Bytes
  | .null => []
  | .str s => s
  | .other t => t

/-- The field `str_val`, which only strings fill. -/
def Arg.strVal : Arg → Bytes
  | .str s => s
  | _ => []

/-! ## `std::string` -/

def findIn (d : Bytes) : Bytes → Option Nat
  | [] => if d = [] then some 0 else none
  | c :: r => if d.isPrefixOf (c :: r) then some 0 else (findIn d r).map (· + 1)

/-- `std::string::find(d, pos)`. -/
def find (s d : Bytes) (pos : Nat) : Option Nat :=
  if pos ≤ s.length then (findIn d (s.drop pos)).map (· + pos) else none

/-- `std::string::replace(pos, len, t)`. -/
def splice (s : Bytes) (pos len : Nat) (t : Bytes) : Bytes := s.take pos ++ t ++ s.drop (pos + len)

/-! ## Length and case -/

/-- src/expr/internal_functions.cpp L319-326: `length`. -/
def length (a : Arg) : Option Nat := if a.isNull then none else some a.text.length

/-- src/expr/internal_functions.cpp L328-335: `bit_length`. -/
def bitLength (a : Arg) : Option Nat := if a.isNull then none else some (a.text.length * 8)

/-- `::tolower`, `::toupper` of a byte in the "C" locale. -/
def lowerByte (c : Nat) : Nat := if 65 ≤ c ∧ c ≤ 90 then c + 32 else c
def upperByte (c : Nat) : Nat := if 97 ≤ c ∧ c ≤ 122 then c - 32 else c

/-- src/expr/internal_functions.cpp L352-360: `lower`. -/
def lower (a : Arg) : Option Bytes := if a.isNull then none else some (a.text.map lowerByte)

/-- src/expr/internal_functions.cpp L381-389: `upper`. -/
def upper (a : Arg) : Option Bytes := if a.isNull then none else some (a.text.map upperByte)

/-- src/expr/internal_functions.cpp L369-378: the loop of `lower_gbk`. -/
def gbkLoop : Bytes → Bytes
  | [] => []
  | c :: r =>
    if 128 ≤ c then
      match r with
      | [] => [c]
      | d :: r' => c :: d :: gbkLoop r'
    else lowerByte c :: gbkLoop r

/-- src/expr/internal_functions.cpp L362-379: `lower_gbk`. -/
def lowerGbk (a : Arg) : Option Bytes := if a.isNull then none else some (gbkLoop a.text)

/-- src/expr/internal_functions.cpp L3203-3238: `char_length`, after its cast to a string: the loop's `length` and `bytes`. -/
def charStep (s : Nat × Nat) (c : Nat) : Nat × Nat :=
  let s :=
    if c < 0x80 then (s.1 + 1, 0)
    else if 0xC0 ≤ c ∧ c < 0xE0 then (s.1 + 1, 1)
    else if 0xE0 ≤ c ∧ c < 0xF0 then (s.1, 2)
    else if 0xF0 ≤ c ∧ c < 0xF8 then (s.1, 3)
    else if 0xF8 ≤ c ∧ c < 0xFC then (s.1, 4)
    else if 0xFC ≤ c ∧ c < 0xFE then (s.1, 5)
    else s
  (s.1, if s.2 = 0 then 1 else s.2 - 1)

def charLength (a : Arg) : Option Nat := if a.isNull then none else some (a.text.foldl charStep (0, 0)).1

/-! ## Putting together -/

/-- src/expr/internal_functions.cpp L391-400: the loop of `concat`. -/
def concatLoop (acc : Bytes) : List Arg → Option Bytes
  | [] => some acc
  | a :: as => if a.isNull then none else concatLoop (acc ++ a.text) as

def concat (as : List Arg) : Option Bytes := concatLoop [] as

/-- src/expr/internal_functions.cpp L583-593: the loop of `concat_ws`; `none`: nothing yet. -/
def wsLoop (sep : Bytes) (acc : Option Bytes) : List Arg → Option Bytes
  | [] => acc
  | a :: as =>
    if a.isNull then wsLoop sep acc as
    else wsLoop sep (some (acc.elim a.text fun t => t ++ (sep ++ a.text))) as

/-- src/expr/internal_functions.cpp L572-600: `concat_ws`. -/
def concatWs (sep : Arg) (as : List Arg) : Option Bytes :=
  if as = [] then none else if sep.isNull then none else wsLoop sep.text none as

/-- src/expr/internal_functions.cpp L747-770: `repeat`. -/
def repeatStr (a : Arg) (n : Int) : Option Bytes :=
  if a.isNull then none else if n ≤ 0 then none else some (List.replicate n.toNat a.text).flatten

/-- src/expr/internal_functions.cpp L3138-3154: `space`. -/
def space (n : Int) : Option Bytes := if n < 1 ∨ 1000000 < n then none else some (List.replicate n.toNat 32)

/-- src/expr/internal_functions.cpp L772-786: `reverse`. -/
def reverse (a : Arg) : Option Bytes := if a.isNull then none else some a.text.reverse

/-- src/expr/internal_functions.cpp L536-540, L565-569: the padding. -/
def padding (pad : Bytes) : Nat → Nat → Bytes
  | 0, n => pad.take n
  | fuel + 1, n => if pad.length < n then pad ++ padding pad fuel (n - pad.length) else pad.take n

/-- src/expr/internal_functions.cpp L517-543: `lpad`. -/
def lpad (a : Arg) (n : Int) (p : Arg) : Option Bytes :=
  if n ≤ 0 ∨ 65535 < n then none
  else if n ≤ a.text.length then some (a.text.take n.toNat)
  else if p.text.length = 0 then none
  else some (padding p.text n.toNat (n.toNat - a.text.length) ++ a.text)

/-- src/expr/internal_functions.cpp L544-570: `rpad`. -/
def rpad (a : Arg) (n : Int) (p : Arg) : Option Bytes :=
  if n ≤ 0 ∨ 65535 < n then none
  else if n ≤ a.text.length then some (a.text.take n.toNat)
  else if p.text.length = 0 then none
  else some (a.text ++ padding p.text n.toNat (n.toNat - a.text.length))

/-! ## Cutting -/

/-- src/expr/internal_functions.cpp L402-436: `substr`. -/
def substr (a : Arg) (pos : Int) (len : Option Int) : Option Bytes :=
  if a.isNull then none
  else
    let p : Int := if pos < 0 then a.text.length + pos else pos - 1
    if p < 0 ∨ (a.text.length : Int) ≤ p then some []
    else
      match len with
      | none => some (a.text.drop p.toNat)
      | some n => if n ≤ 0 then some [] else some ((a.text.drop p.toNat).take n.toNat)

/-- src/expr/internal_functions.cpp L438-455: `left`. -/
def left (a : Arg) (n : Int) : Option Bytes :=
  if a.isNull then none else if n ≤ 0 then some [] else some (a.strVal.take n.toNat)

/-- src/expr/internal_functions.cpp L457-478: `right`. -/
def right (a : Arg) (n : Int) : Option Bytes :=
  if a.isNull then none else if n ≤ 0 then some [] else some (a.strVal.drop (a.strVal.length - n.toNat))

/-- `erase(0, find_first_not_of(" "))` and `erase(find_last_not_of(" ") + 1)`. -/
def cutLeft (s : Bytes) : Bytes := s.dropWhile (· == 32)
def cutRight (s : Bytes) : Bytes := (s.reverse.dropWhile (· == 32)).reverse

/-- src/expr/internal_functions.cpp L480-515: `trim`, `ltrim`, `rtrim`. -/
def trim (a : Arg) : Option Bytes := some (cutRight (cutLeft a.strVal))
def ltrim (a : Arg) : Option Bytes := some (cutLeft a.strVal)
def rtrim (a : Arg) : Option Bytes := some (cutRight a.strVal)

/-- src/expr/internal_functions.cpp L688-717: `insert`; where the first argument itself is returned, its text. -/
def insert (a : Arg) (pos len : Int) (t : Arg) : Option Bytes :=
  if a.isNull ∨ t.isNull then none
  else if pos < 1 then some a.text
  else if len ≤ 0 then some a.text
  else if (a.strVal.length : Int) ≤ pos - 1 then some a.strVal
  else some (splice a.strVal (pos - 1).toNat len.toNat t.strVal)

/-! ## Searching -/

/-- src/expr/internal_functions.cpp L734-742: the loop of `replace`; it ends within the length of the string. -/
def replaceLoop (f t : Bytes) : Nat → Bytes → Nat → Bytes
  | 0, s, _ => s
  | fuel + 1, s, pos =>
    match find s f pos with
    | some p => replaceLoop f t fuel (splice s p f.length t) (p + t.length)
    | none => s

/-- src/expr/internal_functions.cpp L719-745: `replace`. -/
def replace (a f t : Arg) : Option Bytes :=
  if a.isNull then none
  else if f.strVal = [] then some a.text
  else some (replaceLoop f.strVal t.strVal (a.strVal.length + 1) a.strVal 0)

/-- The result of `locate` and `instr`: the place counted from 1, 0 for none. -/
def place (p : Option Nat) : Nat := p.elim 0 (· + 1)

/-- src/expr/internal_functions.cpp L788-813: `locate`; a place before the first becomes one beyond the end as a `size_t`. -/
def locate (d s : Arg) (pos : Option Int) : Option Nat :=
  if d.isNull ∨ s.isNull then none
  else
    let b : Int := pos.elim 0 (· - 1)
    if b < 0 then some 0 else some (place (find s.text d.text b.toNat))

/-- src/expr/internal_functions.cpp L815-836: `instr`. -/
def instr (s d : Arg) : Option Nat := if s.isNull ∨ d.isNull then none else some (place (find s.text d.text 0))

/-- src/expr/internal_functions.cpp L630-648: the loop of `split_part`; at most `idx` rounds. -/
def partLoop (s d : Bytes) (idx : Int) : Nat → Nat → Option Nat → Int → Bytes
  | 0, _, _, _ => []
  | fuel + 1, start, some e, cur =>
    if cur = idx then (s.drop start).take (e - start)
    else partLoop s d idx fuel (e + d.length) (find s d (e + d.length)) (cur + 1)
  | _ + 1, start, none, cur => if cur = idx then s.drop start else []

/-- src/expr/internal_functions.cpp L602-650: `split_part`. -/
def splitPart (a d : Arg) (idx : Int) : Option Bytes :=
  if a.isNull ∨ d.isNull then none
  else if idx ≤ 0 then none
  else some (partLoop a.text d.text idx (idx.toNat + 1) 0 (find a.text d.text 0) 1)

/-- src/expr/internal_functions.cpp L1287-1295: the places of `substring_index`. -/
def places (s d : Bytes) : Nat → Nat → List Nat
  | 0, _ => []
  | fuel + 1, last =>
    match find s d last with
    | some p => p :: places s d fuel (p + d.length)
    | none => []

/-- src/expr/internal_functions.cpp L1263-1312: `substring_index`. -/
def substringIndex (a d : Arg) (n : Int) : Option Bytes :=
  if a.isNull ∨ d.isNull then none
  else if n = 0 then some []
  else if d.text.length = 0 then some []
  else
    let v := places a.text d.text (a.text.length + 1) 0
    if 0 < n then
      if n.toNat ≤ v.length then some (a.text.take (v.getD (n.toNat - 1) 0)) else some a.text
    else
      let k := (-n).toNat
      if k ≤ v.length then some (a.text.drop (v.getD (v.length - k) 0 + d.text.length)) else some a.text

/-- `boost::split(set, s, is_any_of(","))`. -/
def commas : Bytes → List Bytes
  | [] => [[]]
  | c :: r =>
    if c = 44 then [] :: commas r
    else
      match commas r with
      | p :: ps => (c :: p) :: ps
      | [] => [[c]]

/-- The loops of `find_in_set` and `field`. -/
def indexLoop (t : Bytes) : List Bytes → Nat → Nat
  | [], _ => 0
  | p :: ps, i => if p = t then i + 1 else indexLoop t ps (i + 1)

/-- src/expr/internal_functions.cpp L2965-2982: `find_in_set`. -/
def findInSet (t set : Arg) : Option Nat :=
  if t.isNull ∨ set.isNull then none else some (indexLoop t.text (commas set.text) 0)

/-- src/expr/internal_functions.cpp L3264-3281: `field`. -/
def field (t : Arg) (as : List Arg) : Option Nat :=
  if t.isNull ∨ as.any (·.isNull) ∨ as = [] then none else some (indexLoop t.text (as.map (·.text)) 0)

/-- src/expr/internal_functions.cpp L3188-3201: `elt`. -/
def elt (n : Int) (as : List Arg) : Option Bytes :=
  if as.any (·.isNull) ∨ as = [] then none
  else if n < 1 ∨ (as.length : Int) < n then none
  else some (as.getD (n.toNat - 1) .null).text

/-! ## Sets of bits -/

/-- src/expr/internal_functions.cpp L336-350: the loop of `bit_count` over a uint64. -/
def bitCount : Nat → Nat → Nat
  | 0, _ => 0
  | fuel + 1, n => if n = 0 then 0 else n % 2 + bitCount fuel (n / 2)

/-- src/expr/internal_functions.cpp L3006-3017: the loop of `export_set`; the number is an int64. -/
def exportLoop (on off sep : Bytes) : Nat → Bool → Int → Bytes
  | 0, _, _ => []
  | k + 1, first, n =>
    (if first then [] else sep) ++ ((if n % 2 = 1 then on else off) ++ exportLoop on off sep k false (n / 2))

/-- src/expr/internal_functions.cpp L2984-3019: `export_set` of arguments that are not NULL. -/
def exportSet (n : Int) (on off sep : Bytes) (len : Option Int) : Bytes :=
  let k : Int := len.elim 64 fun l => if 64 < l ∨ l < 1 then 64 else l
  exportLoop on off sep k.toNat true n

/-- src/expr/internal_functions.cpp L3057-3071: the loop of `make_set`. -/
def makeLoop : List Bytes → Bool → Int → Bytes
  | [], _, _ => []
  | a :: as, flag, n =>
    (if n % 2 = 1 then (if flag then [44] else []) ++ a else []) ++
      (if n / 2 = 0 then [] else makeLoop as (flag || n % 2 = 1) (n / 2))

/-- src/expr/internal_functions.cpp L3047-3073: `make_set` of arguments that are not NULL. -/
def makeSet (n : Int) (as : List Bytes) : Bytes := makeLoop as false n

/-! ## Numbers as text -/

/-- src/expr/internal_functions.cpp L3128-3131: the loop of `bin` over a uint64, lowest bit first. -/
def binLoop : Nat → Nat → Bytes
  | 0, _ => []
  | fuel + 1, u => if u = 0 then [] else (48 + u % 2) :: binLoop fuel (u / 2)

/-- src/expr/internal_functions.cpp L3117-3137: `bin` of the int64 with the bits `u`. -/
def bin (u : Nat) : Bytes := if u = 0 then [48] else (binLoop 64 u).reverse

/-- `"%02X"`. -/
def hexDigit (n : Nat) : Nat := if n < 10 then 48 + n else 55 + n

/-- src/expr/internal_functions.cpp L3103-3113: `hex` of a string. -/
def hexStr (s : Bytes) : Bytes := s.flatMap fun c => [hexDigit (c / 16), hexDigit (c % 16)]

/-- src/expr/internal_functions.cpp L3167-3175. -/
def unhexDigit (c : Nat) : Option Nat :=
  if 48 ≤ c ∧ c ≤ 57 then some (c - 48)
  else if 65 ≤ c ∧ c ≤ 70 then some (c - 65 + 10)
  else if 97 ≤ c ∧ c ≤ 102 then some (c - 97 + 10)
  else none

/-- src/expr/internal_functions.cpp L3163-3185: the loop of `unhex`: what is pending, whether a byte ends here. -/
def unhexLoop : Bytes → Bool → Nat → Option Bytes
  | [], _, num => some (if num ≠ 0 then [num % 256] else [])
  | c :: r, flag, num =>
    (unhexDigit c).bind fun d =>
      if !flag then (unhexLoop r (!flag) 0).map (((num * 16 + d) % 256) :: ·) else unhexLoop r (!flag) (num * 16 + d)

/-- src/expr/internal_functions.cpp L3156-3187: `unhex`. -/
def unhex (s : Bytes) : Option Bytes := unhexLoop s (s.length % 2 == 0) 0

/-- src/expr/internal_functions.cpp L3316-3321: the bytes of one argument of `char`, lowest first. -/
def charLoop : Nat → Nat → Bytes
  | 0, _ => []
  | fuel + 1, u => if u = 0 then [] else (u % 256) :: charLoop fuel (u / 256)

/-- src/expr/internal_functions.cpp L3305-3326: `char` of uint32s (a NULL makes the result NULL). -/
def charFn (us : List Nat) : Bytes := us.flatMap fun u => (charLoop 4 u).reverse

/-- src/expr/internal_functions.cpp L3282-3303: `quote`. -/
def quote (s : Bytes) : Bytes :=
  39 :: (s.flatMap fun c => if c = 39 then [92, 39] else if c = 92 then [92, 92] else [c]) ++ [39]

/-- src/expr/internal_functions.cpp L3255-3257: the loop of `format` that puts the commas in. -/
def commaLoop : Nat → Int → Bytes → Bytes
  | 0, _, s => s
  | fuel + 1, i, s => if 0 < i then commaLoop fuel (i - 3) (splice s i.toNat 0 [44]) else s

/-- src/expr/internal_functions.cpp L3239-3262: `format`, from the text of the number in fixed notation. -/
def formatNum (s : Bytes) : Bytes := commaLoop s.length ((find s [46] 0).getD s.length - 3) s

end BaikalDB.StrFn
