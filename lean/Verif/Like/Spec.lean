import Verif.Like.Model
/-!
# What LIKE means

Strings as sequences of characters, patterns as sequences of tokens, and which sequences match.
-/
namespace BaikalDB.Like.Spec

/-- A pattern element: `%`, `_`, or one character. -/
inductive Tok where
  | any | one | lit (c : Bytes)
deriving DecidableEq, Repr

/-- Reading a pattern: a backslash makes the next character literal; a backslash at the end stands for itself. -/
def toks : List Bytes → List Tok
  | [] => []
  | c :: r =>
    if c = [0x25#8] then .any :: toks r
    else if c = [0x5f#8] then .one :: toks r
    else if c = [0x5c#8] then
      match r with
      | [] => [.lit [0x5c#8]]
      | d :: r' => .lit d :: toks r'
    else .lit c :: toks r

/-- `%` matches any run of characters, `_` exactly one, a character itself. -/
def Matches : List Tok → List Bytes → Prop
  | [], t => t = []
  | .any :: p, t => ∃ a b, t = a ++ b ∧ Matches p b
  | .one :: p, t => ∃ c r, t = c :: r ∧ Matches p r
  | .lit d :: p, t => ∃ r, t = d :: r ∧ Matches p r

/-- A continuation byte of UTF-8. -/
def Cont (b : Byte) : Prop := 0x80 ≤ b.toNat ∧ b.toNat ≤ 0xBF

/-- The byte sequences that are one character. -/
def IsChar (cs : Charset) (c : Bytes) : Prop :=
  match cs with
  | .binary => ∃ b, c = [b]
  | .utf8 =>
    (∃ b, c = [b] ∧ b.toNat ≤ 0x7F) ∨
    (∃ b x, c = [b, x] ∧ 0xC0 ≤ b.toNat ∧ b.toNat ≤ 0xDF ∧ Cont x) ∨
    (∃ b x y, c = [b, x, y] ∧ 0xE0 ≤ b.toNat ∧ b.toNat ≤ 0xEF ∧ Cont x ∧ Cont y) ∨
    (∃ b x y z, c = [b, x, y, z] ∧ 0xF0 ≤ b.toNat ∧ Cont x ∧ Cont y ∧ Cont z)
  | .gbk =>
    (∃ b, c = [b] ∧ b.toNat ≤ 0x7F) ∨
    (∃ b x, c = [b, x] ∧ 0x81 ≤ b.toNat ∧ b.toNat ≤ 0xFE ∧
      ((0x40 ≤ x.toNat ∧ x.toNat ≤ 0x7E) ∨ (0x80 ≤ x.toNat ∧ x.toNat ≤ 0xFE)))

/-- `s` is the text with the characters `l`. -/
def Text (cs : Charset) (s : Bytes) (l : List Bytes) : Prop := s = l.flatten ∧ ∀ c ∈ l, IsChar cs c

end BaikalDB.Like.Spec
