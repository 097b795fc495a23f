import Verif.Basic
/-!
# LIKE

Model of the LIKE matcher (include/expr/predicate.h L502-573, src/expr/predicate.cpp L485-565, L690-740) and of the
rewriting of `col LIKE 'p%'` to a range (src/expr/expr_node.cpp L476-543).  A position in a string is represented by
the rest of the string from that position (`next_code_point` only looks forward).  Not modelled: the RE2 mode
(`FLAGS_like_predicate_use_re2`, off by default), EXACT_LIKE and Arrow expressions.
-/
namespace BaikalDB.Like

/-- `pb::Charset` as used by `like_one`. -/
inductive Charset where
  | binary | utf8 | gbk
deriving DecidableEq, Repr

/-- Length of the run of bytes 10xxxxxx at the front. -/
def contRun : Bytes → Nat
  | [] => 0
  | c :: r => if c &&& 0xC0#8 = 0x80#8 then contRun r + 1 else 0

/-- src/expr/predicate.cpp L690-696: `UTF8Charset::get_char_size`, one plus the continuation bytes that follow. -/
def charSize (s : Bytes) : Nat := 1 + contRun (s.drop 1)

/-- include/expr/predicate.h L363-365: `in_range`. -/
def inRange (lo c hi : Byte) : Bool := lo.toNat ≤ c.toNat && c.toNat ≤ hi.toNat

/-- include/expr/predicate.h L350-352, src/expr/predicate.cpp L698-740: `next_code_point`, the size of the slice
(0: empty slice, no valid character here). -/
def nextSize (cs : Charset) (s : Bytes) : Nat :=
  match s with
  | [] => 0
  | c :: r =>
    match cs with
    | .binary => 1
    | .utf8 =>
      if c &&& 0x80#8 = 0#8 then 1
      else if c &&& 0xE0#8 = 0xC0#8 then (if charSize s ≠ 2 then 0 else 2)
      else if c &&& 0xF0#8 = 0xE0#8 then (if charSize s ≠ 3 then 0 else 3)
      else if c &&& 0xF0#8 = 0xF0#8 then (if charSize s ≠ 4 then 0 else 4)
      else 0
    | .gbk =>
      if c &&& 0x80#8 = 0#8 then 1
      else match r with
        | [] => 0
        | d :: _ =>
          if inRange 0x81#8 c 0xFE#8 && (inRange 0x40#8 d 0x7E#8 || inRange 0x80#8 d 0xFE#8) then 2 else 0

/-- The slice returned by `next_code_point`. -/
def nextPoint (cs : Charset) (s : Bytes) : Bytes := s.take (nextSize cs s)

/-- include/expr/predicate.h L519-523, L530-535: the distance `_` and `%` move in the target, 1 on an invalid byte. -/
def offset (cs : Charset) (t : Bytes) : Nat := if nextSize cs t > 0 then nextSize cs t else 1

/-- The loop variables of `like`: rest of the target from `tx`, rest of the pattern from `px`, rest of the target from
`ntx` (`none` when `ntx` is 0 or past the end), rest of the pattern from `npx`. -/
structure St where
  t : Bytes
  p : Bytes
  nt : Option Bytes
  np : Bytes
deriving DecidableEq, Repr

/-- What one turn of the loop does: go on, give up on the character set (`boost::none`), or answer. -/
inductive Turn where
  | go (σ : St) | invalid | answer (b : Bool)
deriving DecidableEq, Repr

/-- include/expr/predicate.h L565-570: fall back to the last `%`. -/
def back (σ : St) : Turn :=
  match σ.nt with
  | some t => .go { σ with t := t, p := σ.np }
  | none => .answer false

/-- include/expr/predicate.h L511-571: one turn of the loop. -/
def turn (cs : Charset) (σ : St) : Turn :=
  if σ.t = [] ∧ σ.p = [] then .answer true
  else if σ.p = [] then back σ
  else if nextPoint cs σ.p = [] then .invalid
  else if nextPoint cs σ.p = [0x5f#8] then
    if σ.t = [] then back σ
    else .go { σ with t := σ.t.drop (offset cs σ.t), p := σ.p.drop 1 }
  else if nextPoint cs σ.p = [0x25#8] then
    .go { t := σ.t, p := σ.p.drop 1, nt := if σ.t = [] then none else some (σ.t.drop (offset cs σ.t)), np := σ.p }
  else if nextPoint cs σ.p = [0x5c#8] ∧ 1 < σ.p.length then
    if nextPoint cs (σ.p.drop 1) = [] then .invalid
    else if σ.t = [] then back σ
    else if nextPoint cs σ.t = [] then .invalid
    else if nextPoint cs (σ.p.drop 1) = nextPoint cs σ.t then
      .go { σ with t := σ.t.drop (nextPoint cs σ.t).length,
                   p := (σ.p.drop 1).drop (nextPoint cs (σ.p.drop 1)).length }
    else back σ
  else
    if σ.t = [] then back σ
    else if nextPoint cs σ.t = [] then .invalid
    else if nextPoint cs σ.p = nextPoint cs σ.t then
      .go { σ with t := σ.t.drop (nextPoint cs σ.t).length, p := σ.p.drop (nextPoint cs σ.p).length }
    else back σ

/-- `n` turns of the loop; `none` if it is still running. -/
def run (cs : Charset) : Nat → St → Option (Option Bool)
  | 0, _ => none
  | n + 1, σ =>
    match turn cs σ with
    | .go σ' => run cs n σ'
    | .invalid => some none
    | .answer b => some (some b)

/-- Enough turns for the loop to end (`run_ends` in Props). -/
def turns (t p : Bytes) : Nat := (t.length + 2) * (p.length + 3) + 1

/-- include/expr/predicate.h L502-573: `like<Charset>(target, pattern)`. -/
def like (cs : Charset) (t p : Bytes) : Option Bool := (run cs (turns t p) ⟨t, p, none, []⟩).join

/-- src/expr/predicate.cpp L509-546: `like_one`; an invalid character makes it start over byte by byte. -/
def likeOne (cs : Charset) (t p : Bytes) : Bool :=
  match cs with
  | .binary => (like .binary t p).getD false
  | cs => match like cs t p with
    | some b => b
    | none => (like .binary t p).getD false

/-- src/expr/predicate.cpp L491-506: the scan of `hit_index`: was a wildcard met, and the bytes before it. -/
def scan : Bool → Bytes → Bool × Bytes
  | _, [] => (true, [])
  | esc, c :: r =>
    if !esc && c == 0x25#8 then (false, [])
    else if !esc && c == 0x5f#8 then (false, [])
    else if !esc && c == 0x5c#8 then scan true r
    else ((scan false r).1, c :: (scan false r).2)

/-- src/expr/predicate.cpp L485-507: `hit_index`: is_eq, is_prefix, prefix_value.  (`pattern[0]` of the empty pattern
is the terminating NUL, so the empty pattern counts as a prefix.) -/
def hitIndex (p : Bytes) : Bool × Bool × Bytes :=
  ((scan false p).1, (match p with | [] => true | c :: _ => c != 0x25#8 && c != 0x5f#8), (scan false p).2)

/-- src/expr/expr_node.cpp L518-527: drop trailing 0xFF bytes, add one to the byte before; on the reversed string. -/
def bumpRev : Bytes → Bytes
  | [] => []
  | c :: r => if c = 0xFF#8 then bumpRev r else (c + 1#8) :: r

/-- src/expr/expr_node.cpp L517-527: the end of the range. -/
def rangeEnd (p : Bytes) : Bytes := (bumpRev p.reverse).reverse

/-- src/expr/expr_node.cpp L476-543: `like_node_optimize` on `col LIKE 'pattern'`: `some (lo, hi)` when the condition
is replaced by `col >= lo AND col < hi`.  `none` when it is kept.  An empty pattern reads `back()` of an empty string;
here it is kept. -/
def likeRange (p : Bytes) : Option (Bytes × Bytes) :=
  if (hitIndex p).2.1 = false ∨ p.length > (hitIndex p).2.2.length + 1 ∨ p.getLast? ≠ some 0x25#8 then none
  else some ((hitIndex p).2.2, rangeEnd (hitIndex p).2.2)

end BaikalDB.Like
