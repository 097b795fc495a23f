import Verif.Cond.Model

/-!
# CASE, IF, IFNULL and NULLIF: what is claimed

Which branch is chosen, and what the value of the branch becomes in the type of the whole
expression.
-/

namespace BaikalDB.Cond

variable {D : Type}

/-- The numbers of an integer type. -/
def InRange : ITy → Int → Prop
  | .bool, n => 0 ≤ n ∧ n ≤ 1
  | .i8, n => -128 ≤ n ∧ n ≤ 127
  | .i16, n => -32768 ≤ n ∧ n ≤ 32767
  | .i32, n => -2147483648 ≤ n ∧ n ≤ 2147483647
  | .i64, n => -9223372036854775808 ≤ n ∧ n ≤ 9223372036854775807
  | .u8, n => 0 ≤ n ∧ n ≤ 255
  | .u16, n => 0 ≤ n ∧ n ≤ 65535
  | .u32, n => 0 ≤ n ∧ n ≤ 4294967295
  | .u64, n => 0 ≤ n ∧ n ≤ 18446744073709551615

/-- The values an expression of a type can have. -/
inductive OfType : Ty → Val D → Prop
  | null (t) : OfType t .null
  | int (t n) : InRange t n → OfType (.int t) (.int t n)
  | dbl (d) : OfType .dbl (.dbl d)
  | str (s) : OfType .str (.str s)

/-- The arguments of `CASE`: conditions and values in turn, and perhaps the value of `ELSE`. -/
def flat : List ((Ty × Val D) × (Ty × Val D)) → Option (Ty × Val D) → List (Ty × Val D)
  | b :: bs, e => b.1 :: b.2 :: flat bs e
  | [], some e => [e]
  | [], none => []

/-- The types of the values a `CASE` chooses from. -/
def branchTypes (bs : List ((Ty × Val D) × (Ty × Val D))) (e : Option (Ty × Val D)) : List Ty :=
  bs.map (fun b => b.2.1) ++ (match e with | some x => [x.1] | none => [])

/-- `CASE` has the value of the first branch whose condition holds, else that of `ELSE`, else
`NULL`. -/
inductive Chosen (holds : Val D → Prop) :
    List ((Ty × Val D) × (Ty × Val D)) → Option (Ty × Val D) → Val D → Prop
  | hit (c v bs e) : holds c.2 → Chosen holds ((c, v) :: bs) e v.2
  | skip (c v bs e r) : ¬ holds c.2 → Chosen holds bs e r → Chosen holds ((c, v) :: bs) e r
  | els (x) : Chosen holds [] (some x) x.2
  | none : Chosen holds [] none .null

/-- A condition that counts as true. -/
inductive IsTrue (o : Ops D) : Val D → Prop
  | int (t n) : n ≠ 0 → IsTrue o (.int t n)
  | dbl (d) : o.isZero d = false → IsTrue o (.dbl d)
  | str (s) : o.strInt s ≠ 0 → IsTrue o (.str s)

/-- Types of whole numbers, and the unknown type of `NULL`. -/
inductive Whole : Ty → Prop
  | null : Whole .null
  | int (t) : Whole (.int t)

/-- The signed integer types. -/
inductive SignedTy : ITy → Prop
  | i8 : SignedTy .i8
  | i16 : SignedTy .i16
  | i32 : SignedTy .i32
  | i64 : SignedTy .i64

/-- `BIGINT UNSIGNED` beside a signed type. -/
def Clash (ts : List Ty) : Prop := .int .u64 ∈ ts ∧ ∃ t, SignedTy t ∧ .int t ∈ ts

/-- The types, apart from `NULL`, are the same. -/
def OneType (ts : List Ty) (t : Ty) : Prop := ∀ x ∈ ts, x = .null ∨ x = t

/-- What the chosen value `v` becomes, when the values to choose from have the types `ts`. -/
structure Result (o : Ops D) (ts : List Ty) (v r : Val D) : Prop where
  /-- `NULL` stays `NULL`, and nothing else becomes `NULL`. -/
  null : r = .null ↔ v = .null
  /-- Branches of one type: the value is unchanged. -/
  one : ∀ t, OneType ts t → r = v
  /-- Whole numbers of several types: the number is unchanged. -/
  whole : ∀ a n, (∀ t ∈ ts, Whole t) → ¬ Clash ts → v = .int a n → ∃ b, r = .int b n
  /-- The type of the result in that case. -/
  wholeTy : ∀ a n, (∀ t ∈ ts, Whole t) → ¬ Clash ts → (¬ ∃ t, OneType ts t) → v = .int a n →
    r = .int (if .int .u64 ∈ ts then .u64 else .i64) n
  /-- `BIGINT UNSIGNED` beside a signed type: a floating point number. -/
  clash : ∀ a n, (∀ t ∈ ts, Whole t) → Clash ts → v = .int a n → r = .dbl (o.ofInt n)
  /-- A `DOUBLE` beside numbers: a floating point number. -/
  real : (∀ t ∈ ts, Whole t ∨ t = .dbl) → .dbl ∈ ts →
    (∀ a n, v = .int a n → r = .dbl (o.ofInt n)) ∧ (∀ d, v = .dbl d → r = .dbl d)
  /-- A text among the branches: the text of the value. -/
  text : .str ∈ ts → (∀ a n, v = .int a n → r = .str (o.strOfInt a n)) ∧
    (∀ d, v = .dbl d → r = .str (o.strOfDbl d)) ∧ (∀ s, v = .str s → r = .str s)

/-- Equal values of one kind: the same number, the same text, doubles that are equal. -/
inductive Same (o : Ops D) : Val D → Val D → Prop
  | int (a b n) : Same o (.int a n) (.int b n)
  | str (s) : Same o (.str s) (.str s)
  | dbl (c d) : o.eq c d = true → Same o (.dbl c) (.dbl d)

/-- Whole numbers of integer types, all of them at least zero. -/
def Natural (v : Val D) : Prop := ∃ a n, v = .int a n ∧ a ≠ .bool ∧ InRange a n ∧ 0 ≤ n

/-- Whole numbers of signed types. -/
def Signed (v : Val D) : Prop := ∃ a n, v = .int a n ∧ SignedTy a ∧ InRange a n

/-- The comparisons that need no rounding and no `NULL` on the right: texts with texts, doubles with
doubles, `BOOL` with `BOOL`, numbers at least zero with each other, numbers of signed types with each
other, and `NULL` with anything that is not `NULL`. -/
def Plain (x : Val D) (ws : List (Val D)) : Prop :=
  (x = .null ∧ ∀ w ∈ ws, w ≠ .null) ∨
  (∀ w ∈ x :: ws, ∃ s, w = .str s) ∨
  (∀ w ∈ x :: ws, ∃ d, w = .dbl d) ∨
  (∀ w ∈ x :: ws, ∃ n, w = .int .bool n) ∨
  (∀ w ∈ x :: ws, Natural w) ∨
  (∀ w ∈ x :: ws, Signed w)

end BaikalDB.Cond
