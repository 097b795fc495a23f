import Verif.Like.Model
import Verif.Reverse.Model

/-!
# The terms of a text, and LIKE by a full-text index

Model of the tokenizer of full-text indexes with unigrams and bigrams (src/reverse/reverse_common.cpp `simple_seg_utf8` L875-951,
`simple_seg_gbk` L543-602, `split_str_utf8` L953-990, `split_str_gbk` L674-704; include/reverse/reverse_common.h L116-141), of the
query that a LIKE becomes (include/reverse/reverse_interface.hpp `create_executor` L235-345) and of EXACT LIKE (src/expr/predicate.cpp
`open_by_pattern` L318-357, `get_value_by_pattern` L547-567).

Left out: the weights of the terms, the other tokenizers (ES_STANDARD and those that call a service), EXACT LIKE by RE2
(`FLAGS_like_predicate_use_re2`, off by default) and patterns that are not constant.
-/

namespace BaikalDB.Segment
open BaikalDB.Like BaikalDB.Reverse

/-- reverse_common.h L116-132 `get_utf8_len`; reverse_common.cpp L553, L574 (GBK).  Other charsets are refused (L366, L383): there is
no index then. -/
def charLen (cs : Charset) (c : Byte) : Nat :=
  match cs with
  | .utf8 =>
    if c &&& 0xFE#8 = 0xFC#8 then 6
    else if c &&& 0xFC#8 = 0xF8#8 then 5
    else if c &&& 0xF8#8 = 0xF0#8 then 4
    else if c &&& 0xF0#8 = 0xE0#8 then 3
    else if c &&& 0xE0#8 = 0xC0#8 then 2
    else 1
  | .gbk => if c &&& 0x80#8 ≠ 0#8 then 2 else 1
  | .binary => 1

/-- reverse_common.h L134-141 `get_utf8_bom_len`. -/
def bomLen (cs : Charset) (w : Bytes) : Nat := if cs = .utf8 ∧ w.take 3 = [0xEF#8, 0xBB#8, 0xBF#8] then 3 else 0

/-- L892-894: the bytes to move on from the front of `s`. -/
def adv (cs : Charset) (s : Bytes) : Nat :=
  match s with
  | [] => 0
  | c :: _ => if charLen cs c < s.length then charLen cs c else s.length

/-- `isupper`, `tolower` (in the C locale). -/
def toLower (c : Byte) : Byte := if 0x41 ≤ c.toNat ∧ c.toNat ≤ 0x5A then c + 0x20#8 else c

/-- L896-898, L932-934: a letter becomes lower case. -/
def lowerHead (cs : Charset) : Bytes → Bytes
  | [] => []
  | c :: r => if charLen cs c = 1 then toLower c :: r else c :: r

/-- L887-900: the first `n` characters, and the rest. -/
def first (cs : Charset) : Nat → Bytes → Bytes × Bytes
  | 0, s => ([], s)
  | n + 1, s =>
    if s = [] then ([], [])
    else (lowerHead cs (s.take (adv cs s)) ++ (first cs n (s.drop (adv cs s))).1, (first cs n (s.drop (adv cs s))).2)

/-- L915-942: the loop: the bytes from `slow` to `fast`, and those from `fast` on.  (The number bounds the turns: each takes a byte
at least.) -/
def loop (cs : Charset) : Nat → Bytes → Bytes → List Bytes
  | 0, _, _ => []
  | f + 1, win, rest =>
    if rest = [] then []
    else
      let win' := win.drop (adv cs (win ++ rest)) ++ lowerHead cs (rest.take (adv cs rest))
      win' :: loop cs f win' (rest.drop (adv cs rest))

/-- L875-951, L543-602: the terms of a text (the keys of `term_map`); `punct` is `_punctuation_blank`. -/
def simpleSeg (cs : Charset) (punct : Bytes → Bool) (n : Nat) (w : Bytes) : List Bytes :=
  if w = [] then []
  else
    let s := w.drop (bomLen cs w)
    if (first cs n s).2 = [] then [(first cs n s).1]
    else ((first cs n s).1 :: loop cs (first cs n s).2.length (first cs n s).1 (first cs n s).2).filter fun x => !punct x

/-- L974, L987: a piece that is not empty. -/
def emit (cur : Bytes) : List Bytes := if cur = [] then [] else [cur]

/-- L971-989, L688-703: the pieces between delimiters; `cur` is what there is of the current one.  (In GBK a character cut off by the
end is not clamped by the code: such a text is not valid.) -/
def pieces (cs : Charset) (delim : Byte) : Nat → Bytes → Bytes → List Bytes
  | 0, cur, _ => emit cur
  | f + 1, cur, s =>
    match s with
    | [] => emit cur
    | c :: r =>
      if c = delim then emit cur ++ pieces cs delim f [] r
      else pieces cs delim f (cur ++ s.take (adv cs s)) (s.drop (adv cs s))

/-- L961-969: without the BOM and one '%' at each end. -/
def bare (cs : Charset) (w : Bytes) : Bytes :=
  let s := w.drop (bomLen cs w)
  let s := if s.head? = some 0x25#8 then s.tail else s
  if s.getLast? = some 0x25#8 then s.dropLast else s

/-- L953-990, L674-704: `split_str`. -/
def splitStr (cs : Charset) (delim : Byte) (w : Bytes) : List Bytes :=
  if w = [] then [] else pieces cs delim (bare cs w).length [] (bare cs w)

/-- reverse_interface.hpp L247-255, L277-297: the condition that a LIKE with the pattern `p` becomes: any of the pieces, each with
all its terms. -/
def likeQuery (cs : Charset) (punct : Bytes → Bool) (n : Nat) (p : Bytes) : Query Bytes :=
  .find false ((splitStr cs 0x7C#8 p).map (simpleSeg cs punct n))

/-- predicate.cpp L336 (`boost::split`): the parts between '|' bytes, empty ones too. -/
def splitBar : Bytes → List Bytes
  | [] => [[]]
  | c :: r =>
    if c = 0x7C#8 then [] :: splitBar r
    else
      match splitBar r with
      | [] => [[c]]
      | a :: l => (c :: a) :: l

/-- L341-351: the first part's '%' at its front, and the last's at its end, are put to all parts. -/
def widen (pre post : Bool) (a : Bytes) : Bytes :=
  if a = [] then a
  else
    let a := if pre ∧ a.head? ≠ some 0x25#8 then 0x25#8 :: a else a
    if post ∧ a.getLast? ≠ some 0x25#8 then a ++ [0x25#8] else a

/-- L335-354: `_patterns`. -/
def exactPatterns (p : Bytes) : List Bytes :=
  let l := splitBar p
  if 1 < l.length then
    l.map (widen (decide ((l.head?.bind List.head?) = some 0x25#8)) (decide ((l.getLast?.bind List.getLast?) = some 0x25#8)))
  else []

/-- L547-567: `get_value_by_pattern` of EXACT LIKE. -/
def exactLike (cs : Charset) (t p : Bytes) : Bool :=
  if exactPatterns p = [] then likeOne cs t p else (exactPatterns p).any (likeOne cs t)

/-- access_path.cpp L643-648: what a SELECT finds by a full-text index: for EXACT LIKE the condition is checked again on each row,
otherwise it is not. -/
def select {K : Type} [LinearOrder K] [OrderBot K] (x : Index Bytes K) (rows : K → Option Bytes) (cs : Charset) (punct : Bytes → Bool) (n : Nat)
    (exact : Bool) (p : Bytes) : List K :=
  (x.search (likeQuery cs punct n p)).filter fun k => !exact || (rows k).elim false fun t => exactLike cs t p

end BaikalDB.Segment
