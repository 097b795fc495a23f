import Mathlib.Tactic.Common

/-!
# CASE, IF, IFNULL and NULLIF

The functions that choose between values, the type of their result, and the comparison of values of
different types they use.

Files: `src/expr/internal_functions.cpp`, `src/expr/fn_manager.cpp`, `src/expr/scalar_fn_call.cpp`,
`include/common/expr_value.h`, `include/common/type_utils.h`.

Types: integers of all widths, `BOOL`, `DOUBLE`, strings and `NULL`. Not modelled: `FLOAT`, dates and
times, `HEX`, `JSON`, the Arrow execution.
-/

namespace BaikalDB.Cond

/-- The integer types and `BOOL`. -/
inductive ITy
  | bool | i8 | i16 | i32 | i64 | u8 | u16 | u32 | u64
  deriving DecidableEq

/-- `pb::PrimitiveType`. -/
inductive Ty
  | null
  | int (t : ITy)
  | dbl
  | str
  deriving DecidableEq

/-- `ExprValue`; `D` are the doubles. -/
inductive Val (D : Type)
  | null
  | int (t : ITy) (n : Int)
  | dbl (d : D)
  | str (s : String)
  deriving DecidableEq

/-- What the model takes as given: doubles with equality and zero, and the conversions between
integers, doubles and texts. `strInt` is `strtoull` (`include/common/expr_value.h` L373-375). -/
structure Ops (D : Type) where
  eq : D → D → Bool
  isZero : D → Bool
  ofInt : Int → D
  ofStr : String → D
  toInt : ITy → D → Int
  strInt : String → Int
  strOfInt : ITy → Int → String
  strOfDbl : D → String

variable {D : Type}

/-- `ExprValue::type`. -/
def typeOf : Val D → Ty
  | .null => .null
  | .int t _ => .int t
  | .dbl _ => .dbl
  | .str _ => .str

/-- `is_uint` (`include/common/type_utils.h` L211-221). -/
def isUint : Ty → Bool
  | .int .u8 | .int .u16 | .int .u32 | .int .u64 => true
  | _ => false

/-- `is_signed` (`include/common/type_utils.h` L470-480). -/
def isSigned : Ty → Bool
  | .int .i8 | .int .i16 | .int .i32 | .int .i64 => true
  | _ => false

/-- `is_int` (`include/common/type_utils.h` L195-209): `BOOL` is none. -/
def isInt (t : Ty) : Bool := isUint t || isSigned t

/-- `is_double` (`include/common/type_utils.h` L114-122). -/
def isDouble (t : Ty) : Bool := decide (t = .dbl)

/-- A number as a value of an integer type: the conversion of the language. -/
def wrap : ITy → Int → Int
  | .bool, n => if n = 0 then 0 else 1
  | .i8, n => (n + 128) % 256 - 128
  | .i16, n => (n + 32768) % 65536 - 32768
  | .i32, n => (n + 2147483648) % 4294967296 - 2147483648
  | .i64, n => (n + 9223372036854775808) % 18446744073709551616 - 9223372036854775808
  | .u8, n => n % 256
  | .u16, n => n % 65536
  | .u32, n => n % 4294967296
  | .u64, n => n % 18446744073709551616

/-- `ExprValue::cast_to` (`include/common/expr_value.h` L502-611) with `get_numberic` (L341-383):
`NULL` stays `NULL`. -/
def castTo (o : Ops D) (t : Ty) (v : Val D) : Val D :=
  match v, t with
  | .null, _ => .null
  | .int a n, .int b => if a = b then .int a n else .int b (wrap b n)
  | .dbl d, .int b => .int b (o.toInt b d)
  | .str s, .int b => .int b (wrap b (o.strInt s))
  | .int _ n, .dbl => .dbl (o.ofInt n)
  | .dbl d, .dbl => .dbl d
  | .str s, .dbl => .dbl (o.ofStr s)
  | .int a n, .str => .str (o.strOfInt a n)
  | .dbl d, .str => .str (o.strOfDbl d)
  | .str s, .str => .str s
  | _, .null => .null

/-- `compare(other) == 0` (`include/common/expr_value.h` L892-944): the member of the type is read
from both, and `NULL` has zero and the empty text there (L54-56). -/
def cmpEq (o : Ops D) : Val D → Val D → Bool
  | .null, .null => true
  | .null, _ => false
  | .int _ a, .int _ b => decide (a = b)
  | .int _ a, .null => decide (a = 0)
  | .dbl a, .dbl b => o.eq a b
  | .dbl a, .null => o.isZero a
  | .str a, .str b => decide (a = b)
  | .str a, .null => decide (a = "")
  | _, _ => false

/-- The type in which `compare_diff_type` compares (`include/common/expr_value.h` L954-987). -/
def commonType (a b : Ty) : Ty :=
  if isInt a ∧ isInt b then
    if isUint a ∨ isUint b then .int .u64 else .int .i64
  else if isDouble a ∨ isDouble b then .dbl
  else if isInt a ∨ isInt b then .dbl
  else .str

/-- `ExprValue::compare_diff_type` (`include/common/expr_value.h` L954-989): whether the values are
equal, and what has become of the first one, which is cast in place. -/
def compareDiff (o : Ops D) (a b : Val D) : Bool × Val D :=
  if typeOf a = typeOf b then (cmpEq o a b, a)
  else
    (cmpEq o (castTo o (commonType (typeOf a) (typeOf b)) a)
      (castTo o (commonType (typeOf a) (typeOf b)) b),
      castTo o (commonType (typeOf a) (typeOf b)) a)

/-- `get_numberic<bool>` (`include/common/expr_value.h` L341-383): a text is read as an integer. -/
def truthy (o : Ops D) : Val D → Bool
  | .null => false
  | .int _ n => decide (n ≠ 0)
  | .dbl d => !o.isZero d
  | .str s => decide (o.strInt s ≠ 0)

/-- `case_when` (`src/expr/internal_functions.cpp` L2351-2365). -/
def caseWhen (o : Ops D) : List (Val D) → Val D
  | c :: t :: rest => if truthy o c then t else caseWhen o rest
  | [e] => e
  | [] => .null

/-- The loop of `case_expr_when` (`src/expr/internal_functions.cpp` L2368-2381). -/
def caseLoop (o : Ops D) (x : Val D) : List (Val D) → Val D
  | w :: t :: rest => if (compareDiff o x w).1 then t else caseLoop o (compareDiff o x w).2 rest
  | [e] => e
  | [] => .null

/-- `case_expr_when` (`src/expr/internal_functions.cpp` L2367-2381); the parser gives it at least
one argument. -/
def caseExpr (o : Ops D) : List (Val D) → Val D
  | x :: rest => caseLoop o x rest
  | [] => .null

/-- `if_` (`src/expr/internal_functions.cpp` L2383-2388). -/
def ifFn (o : Ops D) : List (Val D) → Val D
  | [c, a, b] => if truthy o c then a else b
  | _ => .null

/-- `ifnull` (`src/expr/internal_functions.cpp` L2390-2395). -/
def ifnull : List (Val D) → Val D
  | [a, b] => if typeOf a = .null then b else a
  | _ => .null

/-- `nullif` (`src/expr/internal_functions.cpp` L2410-2421). -/
def nullif (o : Ops D) : List (Val D) → Val D
  | [a, b] => if (compareDiff o a b).1 then .null else a
  | _ => .null

/-! ## The type of the result -/

/-- `has_merged_type` (`include/common/type_utils.h` L502-564). -/
def merged (ts : List Ty) : Ty :=
  match ts.filter (fun t => decide (t ≠ .null)) with
  | [] => .null
  | f :: l =>
    if (f :: l).all (fun t => decide (t = f)) then f
    else if (f :: l).all (fun t => isDouble t || isInt t || decide (t = .int .bool)) then
      if (f :: l).any isDouble then .dbl
      else if (f :: l).any (fun t => decide (t = .int .u64)) then
        if (f :: l).any isSigned then .dbl else .int .u64
      else .int .i64
    else .str

/-- The types of the `THEN` and `ELSE` arguments (`src/expr/fn_manager.cpp` L475-484). -/
def targets (rem n : Nat) : Nat → List Ty → List Ty
  | _, [] => []
  | i, t :: ts =>
    if i ≠ 0 ∧ (i % 2 = rem ∨ i + 1 = n) then t :: targets rem n (i + 1) ts
    else targets rem n (i + 1) ts

/-- `ret_type` is `STRING` when there is nothing to merge (`src/expr/fn_manager.cpp` L471,
`include/common/type_utils.h` L503-505). -/
def retType (ts : List Ty) : Ty := if ts = [] then .str else merged ts

/-- The functions. -/
inductive Fn
  | caseWhen | caseExpr | iff | ifnull | nullif
  deriving DecidableEq

/-- `complete_common_fn` (`src/expr/fn_manager.cpp` L466-514). -/
def fnType (f : Fn) (ts : List Ty) : Ty :=
  match f with
  | .caseWhen => retType (targets 1 ts.length 0 ts)
  | .caseExpr => retType (targets 0 ts.length 0 ts)
  | .iff => match ts with
    | [_, a, b] => retType [a, b]
    | _ => .str
  | .ifnull | .nullif => match ts with
    | [a, b] => retType [a, b]
    | _ => .str

/-- The function itself. -/
def fnValue (o : Ops D) (f : Fn) (vs : List (Val D)) : Val D :=
  match f with
  | .caseWhen => caseWhen o vs
  | .caseExpr => caseExpr o vs
  | .iff => ifFn o vs
  | .ifnull => ifnull vs
  | .nullif => nullif o vs

/-- `ScalarFnCall::get_value` (`src/expr/scalar_fn_call.cpp` L194-224): arguments with the types of
their expressions; these functions have no argument types to cast to. -/
def call (o : Ops D) (f : Fn) (args : List (Ty × Val D)) : Val D :=
  castTo o (fnType f (args.map (·.1))) (fnValue o f (args.map (·.2)))

end BaikalDB.Cond
