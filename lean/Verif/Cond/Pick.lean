import Verif.Cond.Model

/-!
# ELT, FIELD, FIND_IN_SET, MAKE_SET, GREATEST and LEAST

File: `src/expr/internal_functions.cpp`. The values, their types and the casts are those of
`Verif/Cond/Model.lean`; `ScalarFnCall::get_value` casts the result to the type it has already
(`src/expr/fn_manager.cpp` L123-124, L168, L174, L177, L256).
-/

namespace BaikalDB.Cond

variable {D : Type}

/-- `INPUT_CHECK_NULL` (`src/expr/internal_functions.cpp` L38-43). -/
def hasNull : List (Val D) → Bool
  | [] => false
  | v :: vs => if typeOf v = .null then true else hasNull vs

/-- `cast_to(pb::STRING).str_val` (`include/common/expr_value.h` L502-611). -/
def textOf (o : Ops D) (v : Val D) : String :=
  match castTo o .str v with
  | .str s => s
  | _ => ""

/-- `cast_to(pb::INT64)._u.int64_val` (`include/common/expr_value.h` L502-611). -/
def int64Of (o : Ops D) (v : Val D) : Int :=
  match castTo o (.int .i64) v with
  | .int _ n => n
  | _ => 0

/-- `elt` (`src/expr/internal_functions.cpp` L3188-3201). -/
def elt (o : Ops D) (args : List (Val D)) : Val D :=
  if hasNull args then .null
  else match args with
    | x :: y :: l =>
      if int64Of o x < 1 ∨ int64Of o x > ((y :: l).length : Int) then .null
      else match args[(int64Of o x).toNat]? with
        | some v => .str (textOf o v)
        | none => .null
    | _ => .null

/-- The loop of `field` (`src/expr/internal_functions.cpp` L3272-3278); the number of arguments is
below 2^31. -/
def fieldLoop (o : Ops D) (t : String) (i : Int) : List (Val D) → Int
  | [] => 0
  | v :: vs => if textOf o v = t then i else fieldLoop o t (i + 1) vs

/-- `field` (`src/expr/internal_functions.cpp` L3264-3280). -/
def field (o : Ops D) (args : List (Val D)) : Val D :=
  if hasNull args then .null
  else match args with
    | x :: y :: l => .int .i32 (fieldLoop o (textOf o x) 1 (y :: l))
    | _ => .null

/-- `boost::split` at commas (`src/expr/internal_functions.cpp` L2973). -/
def splitComma : List Char → List (List Char)
  | [] => [[]]
  | c :: cs =>
    if c = ',' then [] :: splitComma cs
    else match splitComma cs with
      | p :: ps => (c :: p) :: ps
      | [] => [[c]]

/-- The loop of `find_in_set` (`src/expr/internal_functions.cpp` L2975-2980). -/
def setLoop (t : List Char) (i : Int) : List (List Char) → Int
  | [] => 0
  | p :: ps => if p = t then i + 1 else setLoop t (i + 1) ps

/-- `find_in_set` (`src/expr/internal_functions.cpp` L2965-2982). -/
def findInSet (o : Ops D) (args : List (Val D)) : Val D :=
  if hasNull args then .null
  else match args with
    | [x, y] => .int .i64 (setLoop (textOf o x).toList 0 (splitComma (textOf o y).toList))
    | _ => .null

/-- The loop of `make_set` (`src/expr/internal_functions.cpp` L3057-3071): the shift of a negative
number keeps the sign. `first` is `!flag`. -/
def makeLoop (o : Ops D) (n : Int) (first : Bool) (res : String) : List (Val D) → String
  | [] => res
  | v :: vs =>
    if n % 2 = 1 then
      if n / 2 = 0 then (if first then res else res ++ ",") ++ textOf o v
      else makeLoop o (n / 2) false ((if first then res else res ++ ",") ++ textOf o v) vs
    else if n / 2 = 0 then res
    else makeLoop o (n / 2) first res vs

/-- `make_set` (`src/expr/internal_functions.cpp` L3047-3073). -/
def makeSet (o : Ops D) (args : List (Val D)) : Val D :=
  if hasNull args then .null
  else match args with
    | x :: y :: l => .str (makeLoop o (int64Of o x) true "" (y :: l))
    | _ => .null

/-- `get_numberic<double>` (`include/common/expr_value.h` L341-383). -/
def dblOf (o : Ops D) (v : Val D) : D :=
  match v with
  | .null => o.ofInt 0
  | .int _ n => o.ofInt n
  | .dbl d => d
  | .str s => o.ofStr s

/-- The loop of `greatest` and `least` (`src/expr/internal_functions.cpp` L268-282, L295-309):
`better` is `>` or `<`, `none` stands for `find_flag` not set. -/
def bestLoop (o : Ops D) (better : D → D → Bool) (ret : Option D) : List (Val D) → Val D
  | [] => match ret with
    | some d => .dbl d
    | none => .null
  | v :: vs =>
    if typeOf v = .null then .null
    else match ret with
      | none => bestLoop o better (some (dblOf o v)) vs
      | some d => bestLoop o better (some (if better (dblOf o v) d then dblOf o v else d)) vs

/-- `greatest` (`src/expr/internal_functions.cpp` L265-290); `lt` is `<` on doubles. -/
def greatest (o : Ops D) (lt : D → D → Bool) (args : List (Val D)) : Val D :=
  bestLoop o (fun a b => lt b a) none args

/-- `least` (`src/expr/internal_functions.cpp` L292-317). -/
def least (o : Ops D) (lt : D → D → Bool) (args : List (Val D)) : Val D :=
  bestLoop o (fun a b => lt a b) none args

/-! ## What is claimed -/

/-- The text of a value. -/
inductive TextOf (o : Ops D) : Val D → String → Prop
  | str (s) : TextOf o (.str s) s
  | int (a n) : TextOf o (.int a n) (o.strOfInt a n)
  | dbl (d) : TextOf o (.dbl d) (o.strOfDbl d)

/-- The double of a value. -/
inductive DblOf (o : Ops D) : Val D → D → Prop
  | str (s) : DblOf o (.str s) (o.ofStr s)
  | int (a n) : DblOf o (.int a n) (o.ofInt n)
  | dbl (d) : DblOf o (.dbl d) d

/-- `k` is the place, from one on, of the first `a` in the list, or zero when there is none. -/
def FirstAt {α : Type} (p : α → Prop) (l : List α) (k : Nat) : Prop :=
  (k = 0 ∧ ∀ x ∈ l, ¬ p x) ∨
  ∃ before x after, l = before ++ x :: after ∧ (∀ y ∈ before, ¬ p y) ∧ p x ∧ k = before.length + 1

/-- Texts with commas between. -/
def joinComma : List String → String
  | [] => ""
  | [a] => a
  | a :: b :: l => a ++ "," ++ joinComma (b :: l)

/-- The same for lists of characters. -/
def joinChars : List (List Char) → List Char
  | [] => []
  | [a] => a
  | a :: b :: l => a ++ ',' :: joinChars (b :: l)

/-- The values at the places of the bits of `n`, where bit `i` of `n` is that of `⌊n / 2^i⌋`. -/
def Bits {α : Type} (n : Int) (l : List α) : List α :=
  (l.zipIdx.filter (fun p => decide (n / 2 ^ p.2 % 2 = 1))).map (·.1)

end BaikalDB.Cond
