import Verif.Expr.Value
import Verif.Like.Model
/-!
# WHERE conditions: evaluation, type inference, constant folding

Model of include/expr/predicate.h, src/expr/predicate.cpp, src/expr/scalar_fn_call.cpp, src/expr/operators.cpp,
src/expr/fn_manager.cpp and src/expr/expr_node.cpp for the conditions a WHERE clause is made of: column and constant
operands, the six comparisons, AND, OR, XOR, NOT, IS NULL, IS TRUE, IN and LIKE with a constant pattern.  Function calls
and arithmetic are not modelled.
-/
namespace BaikalDB.Pred
open BaikalDB.Expr (VTy EV)

/-- The conversions that `Expr.castTo` and `Expr.getInt` leave out (dates, floating point): any functions. -/
structure Env where
  castX : EV → VTy → EV
  boolX : EV → Bool

/-- include/common/expr_value.h L502-611: `cast_to`. -/
def cast (E : Env) (v : EV) (t : VTy) : EV := (Expr.castTo v t).getD (E.castX v t)

/-- include/common/expr_value.h L341-410: `get_numberic<bool>()`. -/
def truth (E : Env) (v : EV) : Bool :=
  match Expr.getInt v with
  | some x => decide (x ≠ 0)
  | none => E.boolX v

/-- include/common/expr_value.h L1073-1086: `Null()`, `True()`, `False()`. -/
def nullV : EV := ⟨.null, 0, []⟩
def boolV (b : Bool) : EV := ⟨.bool, if b then 1 else 0, []⟩

/-- The comparison operators. -/
inductive Op where
  | eq | ne | lt | le | gt | ge
deriving DecidableEq, Repr

/-- A literal: `_value` and `_col_type` (include/expr/literal.h). -/
structure Lit where
  v : EV
  ty : VTy
deriving DecidableEq, Repr

/-- Expression nodes.  `cmp` carries the argument type chosen by type inference (`.invalid` before), `isIn` the
`_has_null` flag. -/
inductive PE where
  | lit (l : Lit)
  | slot (i : Nat) (ty : VTy)
  | cmp (op : Op) (arg : VTy) (a b : PE)
  | and (cs : List PE)
  | or (cs : List PE)
  | xor (a b : PE)
  | not (a : PE)
  | isNull (a : PE)
  | isTrue (a : PE)
  | isIn (a : PE) (items : List Lit) (hasNull : Bool)
  | like (cs : Like.Charset) (a : PE) (pat : Bytes)
deriving Repr

/-- A row: the values of the slots.  `SlotRef::get_value(nullptr)` is NULL for every slot. -/
abbrev Row := Nat → EV
/-- The row used to evaluate constant expressions: `get_value(nullptr)`. -/
def noRow : Row := fun _ => nullV

/-- include/expr/literal.h `get_value`: the value cast to the literal's type. -/
def Lit.value (E : Env) (l : Lit) : EV := cast E l.v l.ty

/-- The outcome of an operator given how the operands compare. -/
def Op.holds : Op → Ordering → Bool
  | .eq, o => o == .eq
  | .ne, o => o != .eq
  | .lt, o => o == .lt
  | .le, o => o != .gt
  | .gt, o => o == .gt
  | .ge, o => o != .lt

/-- src/expr/operators.cpp L78-101: the comparison functions, one union member per argument type (IEEE comparison for
DOUBLE: with a NaN only `!=` holds).  Any other argument type has no function registered, which evaluates to NULL. -/
def cmpFn (op : Op) (arg : VTy) (x y : EV) : EV :=
  if x.isNull || y.isNull then nullV
  else match arg with
    | .int64 => boolV (op.holds (Ord.compare (x.sget 64) (y.sget 64)))
    | .uint64 | .datetime => boolV (op.holds (Ord.compare (x.uget 64) (y.uget 64)))
    | .time => boolV (op.holds (Ord.compare (x.sget 32) (y.sget 32)))
    | .date | .timestamp => boolV (op.holds (Ord.compare (x.uget 32) (y.uget 32)))
    | .string => boolV (op.holds (bcmp x.s y.s))
    | .double => boolV (if KeyEnc.Spec.IsNaN64 x.u ∨ KeyEnc.Spec.IsNaN64 y.u then op == .ne
        else op.holds (Ord.compare (KeyEnc.Spec.f64Value x.u) (KeyEnc.Spec.f64Value y.u)))
    | _ => nullV

/-- src/expr/fn_manager.cpp L316-346: the argument type of a comparison. -/
def argTy (a b : VTy) : VTy :=
  if a.isInt && b.isInt then (if a.isUint || b.isUint then .uint64 else .int64)
  else if a = .datetime ∨ b = .datetime then .datetime
  else if a = .timestamp ∨ b = .timestamp then .timestamp
  else if a = .date ∨ b = .date then .date
  else if a = .time ∨ b = .time then .time
  else if a = .double ∨ b = .double ∨ a = .float ∨ b = .float then .double
  else if a.isInt || b.isInt then .double
  else .string

/-- src/expr/predicate.cpp L100-121: `singel_open`, the type under which an IN list is looked up. -/
def inTy (a b : VTy) : VTy :=
  if a.isInt && b.isInt then .int64
  else if a = .datetime ∨ b = .datetime then .datetime
  else if a = .timestamp ∨ b = .timestamp then .timestamp
  else if a = .date ∨ b = .date then .date
  else if a = .time ∨ b = .time then .time
  else if a = .double ∨ b = .double ∨ a = .float ∨ b = .float then .double
  else if a.isInt || b.isInt then .double
  else .string

/-- The key of a value in `_int_set`, `_double_set` or `_str_set` (src/expr/predicate.cpp L128-146): an int64, a double
(compared as `std::set<double>` does: 0.0 and -0.0 are one key; represented by the value, NaN not modelled) or a string. -/
inductive Key where
  | int (b : BitVec 64) | dbl (v : Int) | str (s : Bytes)
deriving DecidableEq, Repr

/-- src/expr/predicate.cpp L128-146, L169-188: cast to the map type, then `get_numberic` or `get_string`. -/
def key (E : Env) (mapTy : VTy) (v : EV) : Key :=
  match mapTy with
  | .double => .dbl (KeyEnc.Spec.f64Value (cast E v .double).u)
  | .string => .str (cast E v .string).s
  | t => .int (BitVec.ofInt 64 ((Expr.getInt (cast E v t)).getD 0))

/-- src/expr/predicate.cpp L153-190: `InPredicate::get_value`, single column. -/
def inFn (E : Env) (mapTy : VTy) (items : List EV) (hasNull : Bool) (x : EV) : EV :=
  if x.isNull then nullV
  else if ((items.filter fun v => !v.isNull).map (key E mapTy)).contains (key E mapTy x) then boolV true
  else if hasNull then nullV else boolV false

/-- include/expr/predicate.h L27-41: the loop of `AndPredicate::get_value`. -/
def andLoop (E : Env) (hasNull : Bool) : List EV → EV
  | [] => if hasNull then nullV else boolV true
  | v :: r => if !v.isNull && !truth E v then boolV false else andLoop E (hasNull || v.isNull) r

/-- include/expr/predicate.h L82-97: the loop of `OrPredicate::get_value`. -/
def orLoop (E : Env) (hasNull : Bool) : List EV → EV
  | [] => if hasNull then nullV else boolV false
  | v :: r => if !v.isNull && truth E v then boolV true else orLoop E (hasNull || v.isNull) r

/-- `col_type()` of a node: predicates are BOOL. -/
def PE.colTy : PE → VTy
  | .lit l => l.ty
  | .slot _ t => t
  | _ => .bool

mutual
/-- `get_value(row)`: include/expr/predicate.h L24-245 and L455-462, include/expr/slot_ref.h L31-40,
src/expr/scalar_fn_call.cpp L215-227, src/expr/predicate.cpp L548-565.  LIKE casts its target to STRING and matches the
bytes, whether or not it is NULL. -/
def eval (E : Env) (r : Row) : PE → EV
  | .lit l => l.value E
  | .slot i t => cast E (r i) t
  | .cmp op arg a b => cmpFn op arg (cast E (eval E r a) arg) (cast E (eval E r b) arg)
  | .and cs => andLoop E false (evalAll E r cs)
  | .or cs => orLoop E false (evalAll E r cs)
  | .xor a b =>
    if (eval E r a).isNull || (eval E r b).isNull then nullV
    else boolV (truth E (eval E r a) != truth E (eval E r b))
  | .not a => if (eval E r a).isNull then eval E r a else boolV (!truth E (eval E r a))
  | .isNull a => boolV (eval E r a).isNull
  | .isTrue a => boolV (truth E (eval E r a))
  | .isIn a items hasNull =>
    inFn E (inTy a.colTy ((items.map Lit.ty).headD .null)) (items.map (Lit.value E)) hasNull (eval E r a)
  | .like cs a pat => boolV (Like.likeOne cs (cast E (eval E r a) .string).s pat)
def evalAll (E : Env) (r : Row) : List PE → List EV
  | [] => []
  | e :: es => eval E r e :: evalAll E r es
end

/-- src/exec/filter_node.cpp L700-708: `need_copy`: a row is kept when every conjunct is non-NULL and true. -/
def keep (E : Env) (r : Row) (cs : List PE) : Bool := cs.all fun c => !(eval E r c).isNull && truth E (eval E r c)

/-- src/exec/filter_node.cpp L710-760: `get_next`: the rows of the child that are kept, in order. -/
def filter (E : Env) (cs : List PE) (rows : List Row) : List Row := rows.filter fun r => keep E r cs

mutual
/-- `is_constant()`: no column below. -/
def isConst : PE → Bool
  | .lit _ => true
  | .slot _ _ => false
  | .cmp _ _ a b => isConst a && isConst b
  | .and cs => isConstAll cs
  | .or cs => isConstAll cs
  | .xor a b => isConst a && isConst b
  | .not a => isConst a
  | .isNull a => isConst a
  | .isTrue a => isConst a
  | .isIn a _ _ => isConst a
  | .like _ a _ => isConst a
def isConstAll : List PE → Bool
  | [] => true
  | c :: cs => isConst c && isConstAll cs
end

def PE.isLit : PE → Bool
  | .lit _ => true
  | _ => false
def PE.isSlot : PE → Bool
  | .slot _ _ => true
  | _ => false

/-- include/expr/literal.h L196-202: `cast_to_col_type`; numbers go to date types through their text. -/
def Lit.castCol (E : Env) (l : Lit) (t : VTy) : Lit :=
  let w := if (t = .datetime ∨ t = .timestamp ∨ t = .date ∨ t = .time) ∧ (l.v.ty.isInt ∨ l.v.ty = .double ∨ l.v.ty = .float)
    then cast E (cast E l.v .string) t else cast E l.v t
  ⟨w, w.ty⟩

/-- A literal child is cast to the argument type (src/expr/scalar_fn_call.cpp L104-109). -/
def castArg (E : Env) (t : VTy) : PE → PE
  | .lit l => .lit (l.castCol E t)
  | e => e

/-- `set_col_type` on a constant operand (src/expr/scalar_fn_call.cpp L66-69).  Only literals keep the new type: the other
constant nodes were folded to literals before. -/
def retype (t : VTy) : PE → PE
  | .lit l => .lit { l with ty := t }
  | e => e

/-- src/expr/scalar_fn_call.cpp L45-110: `type_inferer` on a comparison whose children are done. -/
def inferCmp (E : Env) (op : Op) (a b : PE) : PE :=
  let b' := if a.isSlot && isConst b then retype a.colTy b else b
  let t := argTy a.colTy b'.colTy
  .cmp op t (castArg E t a) (castArg E t b')

mutual
/-- src/expr/scalar_fn_call.cpp L45-110: `type_inferer`.  (An IN has no argument types; the constants of its list only
take the type of the column on the left.) -/
def infer (E : Env) : PE → PE
  | .lit l => .lit l
  | .slot i t => .slot i t
  | .cmp op _ a b => inferCmp E op (infer E a) (infer E b)
  | .and cs => .and (inferAll E cs)
  | .or cs => .or (inferAll E cs)
  | .xor a b => .xor (infer E a) (infer E b)
  | .not a => .not (infer E a)
  | .isNull a => .isNull (infer E a)
  | .isTrue a => .isTrue (infer E a)
  | .isIn a items h =>
    .isIn (infer E a) (if (infer E a).isSlot then items.map fun l => { l with ty := (infer E a).colTy } else items) h
  | .like cs a p => .like cs (infer E a) p
def inferAll (E : Env) : List PE → List PE
  | [] => []
  | c :: cs => infer E c :: inferAll E cs
end

mutual
/-- `has_null()` as `const_pre_calc` leaves it (src/expr/expr_node.cpp L34-48): a NULL literal somewhere below, except
below IS NULL. -/
def nullFlag : PE → Bool
  | .lit l => l.v.isNull
  | .slot _ _ => false
  | .cmp _ _ a b => nullFlag a || nullFlag b
  | .and cs => nullFlagAll cs
  | .or cs => nullFlagAll cs
  | .xor a b => nullFlag a || nullFlag b
  | .not a => nullFlag a
  | .isNull _ => false
  | .isTrue a => nullFlag a
  | .isIn a items _ => nullFlag a || items.any fun l => l.v.isNull
  | .like _ a _ => nullFlag a
def nullFlagAll : List PE → Bool
  | [] => false
  | c :: cs => nullFlag c || nullFlagAll cs
end

/-- src/expr/fn_manager.cpp L45-65: `swap_op`. -/
def Op.swap : Op → Op
  | .lt => .gt | .le => .ge | .gt => .lt | .ge => .le | o => o

/-- src/expr/expr_node.cpp L57-83: a constant child that is not a literal becomes the literal of its value. -/
def foldChild (E : Env) (c : PE) : PE :=
  if isConst c && !c.isLit then .lit ⟨eval E noRow (infer E c), (eval E noRow (infer E c)).ty⟩ else c

mutual
/-- src/expr/expr_node.cpp L27-88: `const_pre_calc`: children first; a constant node is left for its parent; otherwise
constant children are computed, and `const op column` becomes `column op' const`
(src/expr/scalar_fn_call.cpp L114-127). -/
def fold (E : Env) : PE → PE
  | .lit l => .lit l
  | .slot i t => .slot i t
  | .cmp op arg a b =>
    if isConst a && isConst b then .cmp op arg (fold E a) (fold E b)
    else if isConst a && (fold E b).isSlot then .cmp op.swap arg (fold E b) (foldChild E (fold E a))
    else .cmp op arg (foldChild E (fold E a)) (foldChild E (fold E b))
  | .and cs => if isConstAll cs then .and (foldAll E cs) else .and ((foldAll E cs).map (foldChild E))
  | .or cs => if isConstAll cs then .or (foldAll E cs) else .or ((foldAll E cs).map (foldChild E))
  | .xor a b =>
    if isConst a && isConst b then .xor (fold E a) (fold E b) else .xor (foldChild E (fold E a)) (foldChild E (fold E b))
  | .not a => .not (fold E a)
  | .isNull a => .isNull (fold E a)
  | .isTrue a => .isTrue (fold E a)
  | .isIn a items h => .isIn (fold E a) items (h || nullFlag a || items.any fun l => l.v.isNull)
  | .like cs a p => .like cs (fold E a) p
def foldAll (E : Env) : List PE → List PE
  | [] => []
  | c :: cs => fold E c :: foldAll E cs
end

/-- include/expr/expr_node.h L158-161: `expr_optimize`. -/
def prepare (E : Env) (e : PE) : PE := infer E (fold E e)

mutual
/-- The expression a storage node evaluates: `transfer_pb` / `create_tree` (src/expr/expr_node.cpp L400-444,
include/expr/expr_node.h `transfer_pb`) send node kinds, types, functions and literals, but not `_has_null`, and a storage
node never runs `const_pre_calc`. -/
def ship : PE → PE
  | .lit l => .lit l
  | .slot i t => .slot i t
  | .cmp op arg a b => .cmp op arg (ship a) (ship b)
  | .and cs => .and (shipAll cs)
  | .or cs => .or (shipAll cs)
  | .xor a b => .xor (ship a) (ship b)
  | .not a => .not (ship a)
  | .isNull a => .isNull (ship a)
  | .isTrue a => .isTrue (ship a)
  | .isIn a items _ => .isIn (ship a) items false
  | .like cs a p => .like cs (ship a) p
def shipAll : List PE → List PE
  | [] => []
  | c :: cs => ship c :: shipAll cs
end

end BaikalDB.Pred
