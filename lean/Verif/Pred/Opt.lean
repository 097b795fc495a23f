import Verif.Pred.Model
/-!
# Simplification of the WHERE conjuncts

Model of `FilterNode::expr_optimize` (src/exec/filter_node.cpp L346-540) with `predicate_cut` (L106-344),
`ExprNode::or_node_optimize` and `like_node_optimize` (src/expr/expr_node.cpp L461-543).  Row constructors are not
modelled: `(a, b) = (1, 2)`, `(a, b) IN (...)` and the OR of ANDs that becomes a row IN are left alone.  One tuple is
modelled, so a slot is its slot id.
-/
namespace BaikalDB.Pred
open BaikalDB.Expr (VTy EV)

/-- src/expr/expr_node.cpp L461-473, L648-703, L705-729, L769-808: an OR of `column = literal` over one column, whose slot
id is at most 63, becomes an IN.  The new IN is not folded again, so its NULL mark stays off. -/
def eqPair : PE → Option (Nat × VTy × Lit)
  | .cmp .eq _ (.slot i t) (.lit l) => some (i, t, l)
  | _ => none
def orItems (i : Nat) : List PE → Option (List Lit)
  | [] => some []
  | c :: cs =>
    match eqPair c, orItems i cs with
    | some (j, _, l), some ls => if j = i then some (l :: ls) else none
    | _, _ => none
def orToIn : PE → PE
  | .or (c :: cs) =>
    match eqPair c with
    | some (i, t, _) =>
      if i ≤ 63 then
        match orItems i (c :: cs) with
        | some ls => .isIn (.slot i t) ls false
        | none => .or (c :: cs)
      else .or (c :: cs)
    | none => .or (c :: cs)
  | e => e

/-- src/expr/expr_node.cpp L476-543: `column LIKE 'p%'` on a STRING column becomes `column >= lo`, and `column < hi` is
added at the end.  (The code takes the first operand for a column without checking; only columns are modelled.) -/
def strLit (s : Bytes) : PE := .lit ⟨⟨.string, 0, s⟩, .string⟩
def likeLo : PE → PE
  | .like cs (.slot i .string) p =>
    match Like.likeRange p with
    | some (lo, _) => .cmp .ge .string (.slot i .string) (strLit lo)
    | none => .like cs (.slot i .string) p
  | e => e
def likeHi : PE → Option PE
  | .like _ (.slot i .string) p =>
    match Like.likeRange p with
    | some (_, hi) => some (.cmp .lt .string (.slot i .string) (strLit hi))
    | none => none
  | _ => none

/-- The four lists of `SlotPredicate` (src/exec/filter_node.cpp L71-76). -/
inductive Kind where
  | eq | lt | gt | inn
deriving DecidableEq, Repr

/-- src/exec/filter_node.cpp L472-507: the column a conjunct constrains and the list it goes to. -/
def classify : PE → Option (Nat × Kind)
  | .cmp .eq _ (.slot i _) b => if isConst b then some (i, .eq) else none
  | .cmp .lt _ (.slot i _) b => if isConst b then some (i, .lt) else none
  | .cmp .le _ (.slot i _) b => if isConst b then some (i, .lt) else none
  | .cmp .gt _ (.slot i _) b => if isConst b then some (i, .gt) else none
  | .cmp .ge _ (.slot i _) b => if isConst b then some (i, .gt) else none
  | .isIn (.slot i _) _ _ => some (i, .inn)
  | _ => none

def hasKind (i : Nat) (k : Kind) (e : PE) : Bool := decide (classify e = some (i, k))
def onSlot (i : Nat) (e : PE) : Bool := hasKind i .eq e || hasKind i .lt e || hasKind i .gt e || hasKind i .inn e

/-- `children(1)->get_value(nullptr)`. -/
def rhsVal (E : Env) : PE → EV
  | .cmp _ _ _ b => eval E noRow b
  | _ => nullV

/-- src/exec/filter_node.cpp L119-132: `replace_slot`: the column becomes a literal. -/
def subst (v : EV) : PE → PE
  | .cmp op q (.slot _ _) b => .cmp op q (.lit ⟨v, v.ty⟩) b
  | .isIn (.slot _ _) items h => .isIn (.lit ⟨v, v.ty⟩) items (h || v.isNull)
  | e => e

/-- src/exec/filter_node.cpp L134-162: with an equality, its value replaces the column in every other conjunct on that
column (`seen`: the first equality was passed). -/
def cutEq (i : Nat) (v : EV) : Bool → List PE → List PE
  | _, [] => []
  | seen, e :: r =>
    if hasKind i .eq e then (if seen then subst v e else e) :: cutEq i v true r
    else if onSlot i e then subst v e :: cutEq i v seen r
    else e :: cutEq i v seen r

/-- `get_value(nullptr).get_string()` of a list item; the text of the types `Expr.getString` leaves out is not modelled. -/
def itemText (E : Env) (l : Lit) : Bytes := (Expr.getString (l.value E)).getD []

def inItems : PE → List Lit
  | .isIn _ items _ => items
  | _ => []

/-- A conjunct without columns holds: non-NULL and true. -/
def constTrue (E : Env) (e : PE) : Bool := !(eval E noRow e).isNull && truth E (eval E noRow e)

/-- src/exec/filter_node.cpp L185-260: the text `k` survives: it is in every other list, and the item that stands for it
(the last of the first list with that text, as `and_map` is overwritten) satisfies every bound. -/
def survives (E : Env) (items : List Lit) (others bounds : List PE) (k : Bytes) : Bool :=
  (others.all fun o => (inItems o).any fun l => itemText E l == k) &&
  match (items.filter fun l => itemText E l == k).getLast? with
  | some l => bounds.all fun b => constTrue E (subst (l.value E) b)
  | none => false

/-- src/exec/filter_node.cpp L263-272: the items whose text does not survive are deleted from the first IN. -/
def keepItems (f : Lit → Bool) : PE → PE
  | .isIn a items h => .isIn a (items.filter f) h
  | e => e

/-- src/exec/filter_node.cpp L164-290: lists are intersected and filtered by the bounds; the first IN keeps the result,
the other conjuncts on the column go.  (The kept conjunct is put first: order among conjuncts is not modelled.) -/
def cutIn (E : Env) (i : Nat) (first : PE) (others : List PE) (cs : List PE) : Option (List PE) :=
  let bounds := cs.filter fun e => hasKind i .lt e || hasKind i .gt e
  let ok := fun l => survives E (inItems first) others bounds (itemText E l)
  if (inItems first).any ok then some (keepItems ok first :: cs.filter fun e => !onSlot i e) else none

/-- `compare_diff_type`; the conversions `Expr.compareDiff` leaves out are not modelled. -/
def cmpDiff (a b : EV) : Int := (Expr.compareDiff a b).getD 0

def opOf : PE → Op
  | .cmp op _ _ _ => op
  | _ => .ne

/-- src/exec/filter_node.cpp L77-102: `lt_le_less`, `gt_ge_less`. -/
def ltLess (E : Env) (a b : PE) : Bool :=
  cmpDiff (rhsVal E a) (rhsVal E b) < 0 || (cmpDiff (rhsVal E a) (rhsVal E b) == 0 && opOf a == .lt)
def gtLess (E : Env) (a b : PE) : Bool :=
  cmpDiff (rhsVal E a) (rhsVal E b) > 0 || (cmpDiff (rhsVal E a) (rhsVal E b) == 0 && opOf a == .gt)

/-- The element `std::sort` puts first.  Two equal strict bounds are each "less" than the other, which `std::sort` does not
allow; here either is chosen. -/
def best (less : PE → PE → Bool) : PE → List PE → PE
  | b, [] => b
  | b, x :: r => if less x b then best less x r else best less b r

/-- src/exec/filter_node.cpp L322-333: `<=` and `>=` the same value become an equality, typed anew. -/
def toEq (E : Env) : PE → PE
  | .cmp _ _ a b => inferCmp E .eq a b
  | e => e

/-- src/exec/filter_node.cpp L295-341: only bounds: the tightest of each side is kept (put first, as above). -/
def cutRange (E : Env) (i : Nat) (cs : List PE) : Option (List PE) :=
  let rest := cs.filter fun e => !onSlot i e
  match cs.filter (hasKind i .lt), cs.filter (hasKind i .gt) with
  | [], [] => some cs
  | l :: ls, [] => some (best (ltLess E) l ls :: rest)
  | [], g :: gs => some (best (gtLess E) g gs :: rest)
  | l :: ls, g :: gs =>
    let lo := best (gtLess E) g gs
    let hi := best (ltLess E) l ls
    if cmpDiff (rhsVal E hi) (rhsVal E lo) < 0 then none
    else if cmpDiff (rhsVal E hi) (rhsVal E lo) = 0 then
      if opOf hi = .le ∧ opOf lo = .ge then some (toEq E hi :: rest) else none
    else some (hi :: lo :: rest)

/-- src/exec/filter_node.cpp L106-344, L510-520: `predicate_cut` for one column, done when it has two conjuncts or more. -/
def cutSlot (E : Env) (cs : List PE) (i : Nat) : Option (List PE) :=
  if (cs.filter (onSlot i)).length ≤ 1 then some cs
  else match cs.filter (hasKind i .eq) with
    | e :: _ => some (cutEq i (rhsVal E e) false cs)
    | [] => match cs.filter (hasKind i .inn) with
      | f :: os => cutIn E i f os cs
      | [] => cutRange E i cs

/-- The columns with classified conjuncts (`pred_map`; the order of the columns does not matter). -/
def slots (cs : List PE) : List Nat := ((cs.filterMap classify).map Prod.fst).eraseDups

/-- src/exec/filter_node.cpp L530-553: a conjunct without columns empties the result unless it is true, and then goes. -/
def dropConst (E : Env) : List PE → Option (List PE)
  | [] => some []
  | e :: r =>
    if isConst e then (if constTrue E e then dropConst E r else none)
    else (dropConst E r).map (e :: ·)

def cutAll (E : Env) : List Nat → List PE → Option (List PE)
  | [], cs => some cs
  | i :: is, cs =>
    match cutSlot E cs i with
    | some cs' => cutAll E is cs'
    | none => none

/-- src/exec/filter_node.cpp L346-540: `FilterNode::expr_optimize`; `none`: `return_empty`. -/
def simplify (E : Env) (cs : List PE) : Option (List PE) :=
  let c2 := cs.map fun e => orToIn (prepare E e)
  let c3 := c2.map likeLo ++ c2.filterMap likeHi
  match cutAll E (slots c3) c3 with
  | some c4 => dropConst E c4
  | none => none

end BaikalDB.Pred
