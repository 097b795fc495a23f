import Verif.Segment.Model
import Verif.Like.Spec
import Verif.Reverse.Spec

/-!
# What the terms of a text are, and what LIKE should find
-/

namespace BaikalDB.Segment.Spec
open BaikalDB.Like

/-- A character of a charset that an index can have (in UTF-8 of at most four bytes). -/
def IsChar (cs : Charset) (c : Bytes) : Prop := Like.Spec.IsChar cs c ∧ cs ≠ .binary ∧ (cs = .utf8 → ∀ b ∈ c, b.toNat < 0xF8)

/-- `s` is the text with the characters `l`. -/
def Text (cs : Charset) (s : Bytes) (l : List Bytes) : Prop := s = l.flatten ∧ ∀ c ∈ l, IsChar cs c

/-- How many bytes a character with the first byte `b` has. -/
def leadLen (cs : Charset) (b : Byte) : Nat :=
  match cs with
  | .binary => 1
  | .gbk => if b.toNat < 0x80 then 1 else 2
  | .utf8 =>
    if b.toNat < 0xC0 ∨ 0xFE ≤ b.toNat then 1
    else if b.toNat < 0xE0 then 2
    else if b.toNat < 0xF0 then 3
    else if b.toNat < 0xF8 then 4
    else if b.toNat < 0xFC then 5
    else 6

/-- Any bytes cut into characters by their first bytes; the last one may be cut off. -/
def Cut (cs : Charset) : List Bytes → Prop
  | [] => True
  | c :: l => (∃ b r, c = b :: r ∧ (c.length = leadLen cs b ∨ (l = [] ∧ c.length < leadLen cs b))) ∧ Cut cs l

/-- A character in lower case. -/
def low : Bytes → Bytes
  | [b] => if 0x41 ≤ b.toNat ∧ b.toNat ≤ 0x5A then [b + 0x20#8] else [b]
  | c => c

/-- The characters of a text without a byte order mark, in lower case. -/
def body (cs : Charset) (l : List Bytes) : List Bytes :=
  (if cs = .utf8 ∧ l.head? = some [0xEF#8, 0xBB#8, 0xBF#8] then l.tail else l).map low

/-- The terms of a text of the characters `l`: the whole text if it has at most `n` characters, otherwise every `n` characters in a
row that are not punctuation. -/
def IsTerm (cs : Charset) (punct : Bytes → Bool) (n : Nat) (l : List Bytes) (x : Bytes) : Prop :=
  l ≠ [] ∧
    (((body cs l).length ≤ n ∧ x = (body cs l).flatten) ∨
      (n < (body cs l).length ∧ ∃ c, c <:+: body cs l ∧ c.length = n ∧ x = c.flatten ∧ punct x = false))

/-- A character that means itself in a pattern. -/
def Plain (c : Bytes) : Prop := 0x7C#8 ∉ c ∧ c ≠ [0x25#8] ∧ c ≠ [0x5F#8] ∧ c ≠ [0x5C#8]

/-- A string to search for (without a byte order mark at its front). -/
def Word (cs : Charset) (w : List Bytes) : Prop :=
  w ≠ [] ∧ (∀ c ∈ w, IsChar cs c ∧ Plain c) ∧ (cs = .utf8 → w.head? ≠ some [0xEF#8, 0xBB#8, 0xBF#8])

/-- The strings with '|' between them. -/
def bars : List (List Bytes) → Bytes
  | [] => []
  | [w] => w.flatten
  | w :: v :: r => w.flatten ++ 0x7C#8 :: bars (v :: r)

/-- The pattern for any of the strings, with '%' before and after it if wanted. -/
def pattern (pre post : Bool) (ws : List (List Bytes)) : Bytes :=
  (if pre then [0x25#8] else []) ++ bars ws ++ (if post then [0x25#8] else [])

/-- How a string can be in a text: after anything or at its front, before anything or at its end. -/
def Occurs (pre post : Bool) (w l : List Bytes) : Prop :=
  ∃ a b, l = a ++ w ++ b ∧ (pre = false → a = []) ∧ (post = false → b = [])

/-- A string that an index of `n` characters can be searched for: it has `n` characters in a row that are not punctuation. -/
def Long (cs : Charset) (punct : Bytes → Bool) (n : Nat) (w : List Bytes) : Prop :=
  ∃ c, c <:+: body cs w ∧ c.length = n ∧ punct c.flatten = false

end BaikalDB.Segment.Spec
