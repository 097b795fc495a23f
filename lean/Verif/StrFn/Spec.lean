import Verif.StrFn.Model

/-! What string functions are to compute, in terms of bytes and of occurrences of one string in another. -/
namespace BaikalDB.StrFn

/-- `d` occurs in `s` after the bytes `a`. -/
def Occurs (d s a : Bytes) : Prop := ∃ b, s = a ++ (d ++ b)

/-- `a` and `b` are what is before and after the first occurrence of `d` in `s`. -/
def First (d s a b : Bytes) : Prop := s = a ++ (d ++ b) ∧ ∀ a', Occurs d s a' → a.length ≤ a'.length

/-- `parts` is `s` cut at the occurrences of `d`, from left to right and without overlapping. -/
inductive Split (d : Bytes) : Bytes → List Bytes → Prop
  | last {s} : (∀ a, ¬ Occurs d s a) → Split d s [s]
  | cut {s a b ps} : First d s a b → Split d b ps → Split d s (a :: ps)

/-- The parts with `d` between them. -/
def joined (d : Bytes) : List Bytes → Bytes
  | [] => []
  | [p] => p
  | p :: ps => p ++ (d ++ joined d ps)

/-- UTF-8. -/
def utf8 (cp : Nat) : Bytes :=
  if cp < 0x80 then [cp]
  else if cp < 0x800 then [0xC0 + cp / 64, 0x80 + cp % 64]
  else if cp < 0x10000 then [0xE0 + cp / 4096, 0x80 + cp / 64 % 64, 0x80 + cp % 64]
  else [0xF0 + cp / 262144, 0x80 + cp / 4096 % 64, 0x80 + cp / 64 % 64, 0x80 + cp % 64]

/-- The string that a literal in single quotes denotes, from behind its first quote: a backslash stands before a byte taken
as it is. -/
def literal : Bytes → Option Bytes
  | [] => none
  | 92 :: c :: r => (literal r).map (c :: ·)
  | [92] => none
  | 39 :: r => if r = [] then some [] else none
  | c :: r => (literal r).map (c :: ·)

/-- The number that binary digits denote. -/
def binVal (ds : Bytes) : Nat := ds.foldl (fun n d => 2 * n + (d - 48)) 0

end BaikalDB.StrFn
