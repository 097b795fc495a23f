import Verif.Sort.Model
import Verif.Join.Model

/-!
# Window functions

`WindowFnCall` (src/expr/window_fn_call.cpp), `WindowNode` and its processors (src/exec/window_node.cpp), and what the planner
makes of `OVER (…)` (src/logical_plan/logical_planner.cpp L2167-2488, src/logical_plan/select_planner.cpp L705-760, L1501-1531).
`ρ` are the rows below the window.  Row counts are numbers (the code narrows them to `int`).  The functions of a window have
separate states and are run one after the other here, in turns in the code.  The limit of a processor is -1 (a rewritten
subquery with its limit of 1 has one function, for the first row of which the two agree).
-/

namespace BaikalDB.Window
open Expr (EV VTy)
open BaikalDB.Sort (Key rowCompare)

/-- Doubles, by their bits; the operations of the processor. -/
structure Fp where
  add : BitVec 64 → BitVec 64 → BitVec 64
  div : BitVec 64 → BitVec 64 → BitVec 64
  /-- an integer converted to double -/
  ofInt : Int → BitVec 64
  /-- `cast_to(pb::DOUBLE)` of a value that is not NULL -/
  ofVal : EV → BitVec 64

/-- `ExprValue::Null()`. -/
def nullV : EV := ⟨.null, 0, []⟩
/-- A value of type INT64, of type DOUBLE. -/
def intV (x : BitVec 64) : EV := ⟨.int64, x, []⟩
def dblV (x : BitVec 64) : EV := ⟨.double, x, []⟩

/-- What goes wrong: the statement fails, or the behaviour is undefined. -/
inductive Fault where
  | fail
  | ub
  deriving DecidableEq, Repr

/-- The functions (window_fn_call.h L82-100) with their arguments; `sumDbl` is SUM of a double or string column
(window_fn_call.cpp L219-231).  `dflt`: the third argument of LEAD and LAG. -/
inductive Fn (ρ : Type) where
  | countStar
  | count (args : List (ρ → EV))
  | sum (a : ρ → EV)
  | sumDbl (a : ρ → EV)
  | avg (a : ρ → EV)
  | min (a : ρ → EV)
  | max (a : ρ → EV)
  | rowNumber
  | rank
  | denseRank
  | percentRank
  | cumeDist
  | ntile (n : Int)
  | lead (a : ρ → EV) (offset : Int) (dflt : Option (ρ → EV))
  | lag (a : ρ → EV) (offset : Int) (dflt : Option (ρ → EV))
  | firstValue (a : ρ → EV)
  | lastValue (a : ρ → EV)
  | nthValue (a : ρ → EV) (n : Int)

/-- window_fn_call.cpp L96-191 `open`: the checks of constant arguments. -/
def Fn.opens {ρ : Type} : Fn ρ → Bool
  | .ntile n => decide (0 < n)
  | .lead _ k _ => decide (0 ≤ k)
  | .lag _ k _ => decide (0 ≤ k)
  | .nthValue _ n => decide (0 < n)
  | _ => true

/-- `Intermediate` (window_fn_call.h L22-80); `batch` is `cur_batch`, `none` for `nullptr`. -/
inductive Inter (ρ : Type) where
  | count (cnt : BitVec 64)
  | sum (v : EV)
  | avg (s : BitVec 64) (cnt : BitVec 64)
  | minMax (v : EV)
  | rowNumber (k : Nat)
  | rank (cur last : Nat) (batch : Option (List ρ))
  | ntile (cur group quot rem : Nat)
  | leadLag (cur : Nat) (batch : Option (List ρ))
  | value (v : EV)

variable {ρ : Type}

/-- window_fn_call.cpp L765-833 `partition_reset`. -/
def partitionReset : Fn ρ → Inter ρ
  | .countStar | .count _ => .count 0
  | .sum _ | .sumDbl _ => .sum nullV
  | .avg _ => .avg 0 0
  | .min _ | .max _ => .minMax nullV
  | .rowNumber => .rowNumber 0
  | .rank | .denseRank | .percentRank | .cumeDist => .rank 0 0 none
  | .ntile _ => .ntile 0 1 0 0
  | .lead .. | .lag .. => .leadLag 0 none
  | .firstValue _ | .lastValue _ | .nthValue .. => .value nullV

/-- window_fn_call.cpp L714-763 `frame_reset`. -/
def frameReset (f : Fn ρ) (st : Inter ρ) : Inter ρ :=
  match f with
  | .countStar | .count _ => .count 0
  | .sum _ | .sumDbl _ => .sum nullV
  | .avg _ => .avg 0 0
  | .min _ | .max _ => .minMax nullV
  | .firstValue _ | .lastValue _ | .nthValue .. => .value nullV
  | _ => st

/-- window_fn_call.cpp L379-394. -/
def countRow (args : List (ρ → EV)) (c : BitVec 64) (r : ρ) : BitVec 64 :=
  if args.all fun a => !(a r).isNull then c + 1 else c

/-- `cast_to(INT64)` of a value that is not NULL, as the number added (expr_value.h L341-410, L502-611). -/
def toI64 (v : EV) : BitVec 64 := BitVec.ofInt 64 ((Expr.getInt v).getD 0)

/-- window_fn_call.cpp L395-408 with `ExprValue::add` (expr_value.h L840-880); the sum wraps around. -/
def sumRow (a : ρ → EV) (s : EV) (r : ρ) : EV :=
  if (a r).isNull then s else if s.isNull then intV (toI64 (a r)) else intV (s.u + toI64 (a r))

def sumDblRow (fp : Fp) (a : ρ → EV) (s : EV) (r : ρ) : EV :=
  if (a r).isNull then s else if s.isNull then dblV (fp.ofVal (a r)) else dblV (fp.add s.u (fp.ofVal (a r)))

/-- window_fn_call.cpp L409-419. -/
def avgRow (fp : Fp) (a : ρ → EV) (s : BitVec 64 × BitVec 64) (r : ρ) : BitVec 64 × BitVec 64 :=
  if (a r).isNull then s else (fp.add s.1 (fp.ofVal (a r)), s.2 + 1)

/-- window_fn_call.cpp L420-432, L433-445. -/
def minRow (a : ρ → EV) (m : EV) (r : ρ) : EV :=
  if (a r).isNull then m else if m.isNull ∨ Expr.compare m (a r) > 0 then a r else m

def maxRow (a : ρ → EV) (m : EV) (r : ρ) : EV :=
  if (a r).isNull then m else if m.isNull ∨ Expr.compare m (a r) < 0 then a r else m

/-- The argument of a row of the batch; rows outside are never asked for. -/
def at? (a : ρ → EV) (P : List ρ) (i : Nat) : EV := (P[i]?.map a).getD nullV

/-- The integer `x` as an `int`. -/
def wrap32 (x : Int) : Int := (BitVec.ofInt 32 x).toInt

/-- window_fn_call.cpp L484-491: `int idx = start + n - 1`. -/
def nthCall (a : ρ → EV) (n : Int) (v : EV) (P : List ρ) (s e : Nat) : Except Fault (Inter ρ) :=
  if s + n ≥ 2 ^ 63 then .error .ub
  else if (s : Int) ≤ wrap32 (s + n - 1) ∧ wrap32 (s + n - 1) < e then .ok (.value (at? a P (wrap32 (s + n - 1)).toNat))
  else .ok (.value v)

/-- window_fn_call.cpp L364-498 `call`: the rows from `s` on and before `e`. -/
def call (fp : Fp) (f : Fn ρ) (st : Inter ρ) (P : List ρ) (s e : Nat) : Except Fault (Inter ρ) :=
  if P.length ≤ s ∨ e = 0 ∨ P.length < e then .error .fail
  else
    match f, st with
    | .countStar, .count c => .ok (.count (c + (BitVec.ofNat 64 e - BitVec.ofNat 64 s)))
    | .count args, .count c => .ok (.count (((P.take e).drop s).foldl (countRow args) c))
    | .sum a, .sum v => .ok (.sum (((P.take e).drop s).foldl (sumRow a) v))
    | .sumDbl a, .sum v => .ok (.sum (((P.take e).drop s).foldl (sumDblRow fp a) v))
    | .avg a, .avg x c =>
      .ok (.avg (((P.take e).drop s).foldl (avgRow fp a) (x, c)).1 (((P.take e).drop s).foldl (avgRow fp a) (x, c)).2)
    | .min a, .minMax v => .ok (.minMax (((P.take e).drop s).foldl (minRow a) v))
    | .max a, .minMax v => .ok (.minMax (((P.take e).drop s).foldl (maxRow a) v))
    | .rank, .rank c l _ | .denseRank, .rank c l _ | .percentRank, .rank c l _ | .cumeDist, .rank c l _ => .ok (.rank c l (some P))
    | .ntile n, .ntile c g _ _ => if n ≤ 0 then .error .fail else .ok (.ntile c g (P.length / n.toNat) (P.length % n.toNat))
    | .lead .., .leadLag c _ | .lag .., .leadLag c _ => .ok (.leadLag c (some P))
    | .firstValue a, .value _ => .ok (.value (at? a P s))
    | .lastValue a, .value _ => .ok (.value (at? a P (e - 1)))
    | .nthValue a n, .value v => nthCall a n v P s e
    | _, st => .ok st

/-- window_fn_call.cpp L545-564, L583-598: the rank of the next row.  `dense`: equal rows count once. -/
def nextRank (ks : List (Key ρ)) (dense : Bool) (cur last : Nat) (batch : Option (List ρ)) : Except Fault (Nat × Nat) :=
  if cur + 1 = 1 then .ok (1, 1)
  else
    match batch with
    | none => .error .ub
    | some P =>
      if P.length < cur + 1 then .error .fail
      else
        match P[cur - 1]?, P[cur]? with
        | some x, some y => .ok (cur + 1, if rowCompare ks x y ≠ 0 then (if dense then last + 1 else cur + 1) else last)
        | _, _ => .error .ub

/-- window_fn_call.cpp L627-642. -/
def peersEnd (ks : List (Key ρ)) (P : List ρ) (cur : Nat) : Nat → Nat → Nat
  | 0, last => last
  | fuel + 1, last =>
    match P[cur]?, P[last]? with
    | some x, some y => if rowCompare ks x y ≠ 0 then last else peersEnd ks P cur fuel (last + 1)
    | _, _ => last

/-- window_fn_call.cpp L671-698: the value of the row at `idx`, else the default for the current row, else NULL. -/
def shifted (a : ρ → EV) (dflt : Option (ρ → EV)) (P : List ρ) (cur : Nat) (idx : Int) : Except Fault EV :=
  if 0 ≤ idx ∧ idx < P.length then .ok (at? a P idx.toNat)
  else
    match dflt with
    | none => .ok nullV
    | some d => if P.length ≤ cur then .error .fail else .ok (at? d P cur)

/-- window_fn_call.cpp L500-712 `get_result`. -/
def getResult (fp : Fp) (ks : List (Key ρ)) (f : Fn ρ) (st : Inter ρ) : Except Fault (EV × Inter ρ) :=
  match f, st with
  | .countStar, .count c | .count _, .count c => .ok (intV c, st)
  | .sum _, .sum v | .sumDbl _, .sum v => .ok (v, st)
  | .avg _, .avg s c => .ok (if c ≠ 0 then dblV (fp.div s (fp.ofInt c.toInt)) else nullV, st)
  | .min _, .minMax v | .max _, .minMax v => .ok (v, st)
  | .rowNumber, .rowNumber k => .ok (intV (BitVec.ofNat 64 (k + 1)), .rowNumber (k + 1))
  | .rank, .rank c l b =>
    if ks.isEmpty then .ok (intV 1, st)
    else (nextRank ks false c l b).map fun p => (intV (BitVec.ofNat 64 p.2), .rank p.1 p.2 b)
  | .denseRank, .rank c l b =>
    if ks.isEmpty then .ok (intV 1, st)
    else (nextRank ks true c l b).map fun p => (intV (BitVec.ofNat 64 p.2), .rank p.1 p.2 b)
  | .percentRank, .rank c l b =>
    if ks.isEmpty then .ok (dblV 0, st)
    else
      match b with
      | none => .error .ub
      | some P =>
        if P.length = 0 then .error .fail
        else (nextRank ks false c l b).map fun p =>
          (dblV (if P.length = 1 then 0 else fp.div (fp.ofInt ((p.2 : Int) - 1)) (fp.ofInt ((P.length : Int) - 1))), .rank p.1 p.2 b)
  | .cumeDist, .rank c l b =>
    if ks.isEmpty then .ok (dblV (fp.ofInt 1), st)
    else
      match b with
      | none => .error .ub
      | some P =>
        if P.length ≤ c then .error .fail
        else .ok (dblV (fp.div (fp.ofInt (peersEnd ks P c P.length l)) (fp.ofInt P.length)),
          .rank (c + 1) (peersEnd ks P c P.length l) b)
  | .ntile _, .ntile c g q r =>
    .ok (intV (BitVec.ofNat 64 g),
      if c + 1 = (if g ≤ r then q + 1 else q) then .ntile 0 (g + 1) q r else .ntile (c + 1) g q r)
  | .lead a k d, .leadLag c b =>
    match b with
    | none => .error .ub
    | some P => if c + k ≥ 2 ^ 63 then .error .ub else (shifted a d P c (c + k)).map fun v => (v, .leadLag (c + 1) b)
  | .lag a k d, .leadLag c b =>
    match b with
    | none => .error .ub
    | some P => (shifted a d P c (c - k)).map fun v => (v, .leadLag (c + 1) b)
  | .firstValue _, .value v | .lastValue _, .value v | .nthValue .., .value v => .ok (v, st)
  | _, st => .ok (nullV, st)

/-! ## Frames -/

/-- `pb::BoundType`. -/
inductive BoundTy where
  | preceding
  | following
  | current
  deriving DecidableEq, Repr

/-- `FrameBound` (window_node.h L91-95). -/
structure Bound where
  ty : BoundTy
  unbounded : Bool
  num : Int
  deriving DecidableEq, Repr

/-- window_node.cpp L557-597. -/
def rowsStart (b : Bound) (n i : Nat) : Except Fault Nat :=
  if b.unbounded ∧ b.ty ≠ .preceding then .error .fail
  else if b.unbounded then .ok 0
  else
    match b.ty with
    | .preceding => if b.num ≤ i then .ok (i - b.num).toNat else .ok 0
    | .following => if i + b.num ≥ 2 ^ 31 then .error .ub else if i + b.num < n then .ok (i + b.num).toNat else .ok n
    | .current => .ok i

/-- window_node.cpp L599-640. -/
def rowsEnd (b : Bound) (n i : Nat) : Except Fault Nat :=
  if b.unbounded ∧ b.ty ≠ .following then .error .fail
  else if b.unbounded then .ok n
  else
    match b.ty with
    | .preceding => if b.num ≤ i then .ok (i - b.num + 1).toNat else .ok 0
    | .following => if i + b.num ≥ 2 ^ 31 then .error .ub else if i + b.num < n then .ok (i + b.num + 1).toNat else .ok n
    | .current => .ok (i + 1)

/-- window_node.cpp L663-670: the first of the rows before `i` that equal row `i`, going down from `k`. -/
def peerStart (ks : List (Key ρ)) (P : List ρ) (i : Nat) : Nat → Nat
  | 0 => 0
  | k + 1 =>
    match P[i]?, P[k]? with
    | some x, some y => if rowCompare ks x y ≠ 0 then k + 1 else peerStart ks P i k
    | _, _ => k + 1

/-- window_node.cpp L643-680. -/
def rangeStart (ks : List (Key ρ)) (b : Bound) (P : List ρ) (i : Nat) : Except Fault Nat :=
  if b.unbounded ∧ b.ty ≠ .preceding then .error .fail
  else if b.unbounded then .ok 0
  else match b.ty with | .current => .ok (peerStart ks P i i) | _ => .error .fail

/-- window_node.cpp L682-721; the loop of L704-710 is that of CUME_DIST. -/
def rangeEnd (ks : List (Key ρ)) (b : Bound) (P : List ρ) (i : Nat) : Except Fault Nat :=
  if b.unbounded ∧ b.ty ≠ .following then .error .fail
  else if b.unbounded then .ok P.length
  else match b.ty with | .current => .ok (peersEnd ks P i P.length (i + 1)) | _ => .error .fail

/-- A frame as planned: `pb::WindowFrame`. -/
structure Frame where
  rows : Bool
  lo : Bound
  hi : Bound
  deriving DecidableEq, Repr

/-- window_node.cpp L45-48: the whole partition, the frame needs no processor of its own. -/
def Frame.whole (fr : Frame) : Bool :=
  fr.lo.unbounded && fr.lo.ty == .preceding && (fr.hi.unbounded && fr.hi.ty == .following)

def Frame.start (ks : List (Key ρ)) (fr : Frame) (P : List ρ) (i : Nat) : Except Fault Nat :=
  if fr.rows then rowsStart fr.lo P.length i else rangeStart ks fr.lo P i

def Frame.stop (ks : List (Key ρ)) (fr : Frame) (P : List ρ) (i : Nat) : Except Fault Nat :=
  if fr.rows then rowsEnd fr.hi P.length i else rangeEnd ks fr.hi P i

/-! ## Processors -/

/-- window_node.cpp L484-498: one result for each of the rows left. -/
def results (fp : Fp) (ks : List (Key ρ)) (f : Fn ρ) : Nat → Inter ρ → Except Fault (List EV)
  | 0, _ => .ok []
  | k + 1, st => do
    let p ← getResult fp ks f st
    let vs ← results fp ks f k p.2
    return p.1 :: vs

/-- window_node.cpp L459-500 `NonFrameWindowProcessor::process_one_partition`, one function. -/
def processWhole (fp : Fp) (ks : List (Key ρ)) (f : Fn ρ) (P : List ρ) : Except Fault (List EV) := do
  if P = [] then return []
  let st ← call fp f (partitionReset f) P 0 P.length
  results fp ks f P.length st

/-- window_node.cpp L521-551: the rows from `i` on, `k` of them. -/
def frameLoop (fp : Fp) (ks : List (Key ρ)) (fr : Frame) (f : Fn ρ) (P : List ρ) : Nat → Nat → Inter ρ → Except Fault (List EV)
  | 0, _, _ => .ok []
  | k + 1, i, st => do
    let s ← fr.start ks P i
    let e ← fr.stop ks P i
    let st ← if s < e then call fp f (frameReset f st) P s e else .ok (frameReset f st)
    let p ← getResult fp ks f st
    let vs ← frameLoop fp ks fr f P k (i + 1) p.2
    return p.1 :: vs

/-- window_node.cpp L503-554 `FrameWindowProcessor::process_one_partition`, one function. -/
def processFrame (fp : Fp) (ks : List (Key ρ)) (fr : Frame) (f : Fn ρ) (P : List ρ) : Except Fault (List EV) :=
  if P = [] then .ok [] else frameLoop fp ks fr f P P.length 0 (partitionReset f)

/-- The processor of window_node.cpp L38-59 on one partition. -/
def process (fp : Fp) (ks : List (Key ρ)) (fr : Option Frame) (f : Fn ρ) (P : List ρ) : Except Fault (List EV) :=
  match fr with
  | none => processWhole fp ks f P
  | some fr => if fr.whole then processWhole fp ks f P else processFrame fp ks fr f P

/-! ## The node -/

/-- exec_node.cpp L555-571 `encode_exprs_key`: a byte of flags, then the values that are not NULL.  The flag of the ninth
expression and later ones would be a shift by a negative number; the model shifts by 0. -/
def partKey (part : List (ρ → EV)) (r : ρ) : Bytes :=
  (part.zipIdx.foldl (fun (f : Byte) p => if (p.1 r).isNull then f ||| (1#8 <<< (7 - p.2)) else f) 0#8) ::
    part.flatMap fun a => if (a r).isNull then [] else Join.appendEV [] (a r)

/-- window_node.cpp L290-299: `k` is the key of the rows in `cur`. -/
def cutLoop (key : ρ → Bytes) (k : Bytes) (cur : List ρ) : List ρ → List (List ρ)
  | [] => [cur]
  | r :: rs => if key r ≠ k then cur :: cutLoop key (key r) [r] rs else cutLoop key k (cur ++ [r]) rs

/-- What `split_into_partitions` leaves: the partitions of the batch, whether the first goes on with the one before, and
`_last_partition_key`. -/
structure Split (ρ : Type) where
  parts : List (List ρ)
  belongs : Bool
  last : Option Bytes

/-- window_node.cpp L253-302 `split_into_partitions` of a batch that is not empty. -/
def split (part : List (ρ → EV)) (last : Option Bytes) (b : List ρ) : Split ρ :=
  if part.isEmpty then ⟨[b], true, last⟩
  else
    match b, b.getLast? with
    | r :: rs, some z =>
      ⟨if partKey part r = partKey part z then [r :: rs] else cutLoop (partKey part) (partKey part r) [r] rs,
        decide (last = some (partKey part r)), some (partKey part z)⟩
    | _, _ => ⟨[], false, last⟩

/-- The partitions of the batch not yet taken, `_last_partition_key`, the batches still to come (`_child_eos` when none). -/
structure NodeSt (ρ : Type) where
  cache : List (List ρ)
  last : Option Bytes
  input : List (List ρ)

/-- window_node.cpp L149-176: the partition `cur` ends the batch; does the next one go on?  An empty batch ends the loop
(`end` is not its size). -/
def extend (part : List (ρ → EV)) (cur : List ρ) (last : Option Bytes) : List (List ρ) → List ρ × NodeSt ρ
  | [] => (cur, ⟨[], last, []⟩)
  | b :: bs =>
    if b = [] then (cur, ⟨[], last, bs⟩)
    else if (split part last b).belongs then
      match (split part last b).parts with
      | [] => (cur, ⟨[], last, bs⟩)
      | [p] => extend part (cur ++ p) (split part last b).last bs
      | p :: ps => (cur ++ p, ⟨ps, (split part last b).last, bs⟩)
    else (cur, ⟨(split part last b).parts, (split part last b).last, bs⟩)

/-- window_node.cpp L119-176 with `_child_row_batch` split: one partition. -/
def takeCached (part : List (ρ → EV)) (st : NodeSt ρ) : Option (List ρ × NodeSt ρ) :=
  match st.cache with
  | [] => none
  | [p] => some (extend part p st.last st.input)
  | p :: ps => some (p, ⟨ps, st.last, st.input⟩)

/-- window_node.cpp L115-135: batches are read up to one with rows. -/
def refill (part : List (ρ → EV)) (last : Option Bytes) : List (List ρ) → NodeSt ρ
  | [] => ⟨[], last, []⟩
  | b :: bs => if b = [] then refill part last bs else ⟨(split part last b).parts, (split part last b).last, bs⟩

/-- window_node.cpp L100-191 without the limit: the partitions one after the other. -/
def partitions (part : List (ρ → EV)) : Nat → NodeSt ρ → List (List ρ)
  | 0, _ => []
  | fuel + 1, st =>
    match takeCached part (if st.cache = [] then refill part st.last st.input else st) with
    | none => []
    | some (p, st') => p :: partitions part fuel st'

/-- `func_exprs`, `partition_exprs`, `order_exprs` with their directions, and the frame, as planned. -/
structure Node (ρ : Type) where
  fns : List (Fn ρ)
  part : List (ρ → EV)
  order : List (Key ρ)
  frame : Option Frame

/-- The results of all functions on one partition, row by row. -/
def processAll (fp : Fp) (nd : Node ρ) (P : List ρ) : Except Fault (List (ρ × List EV)) := do
  let cols ← nd.fns.mapM fun f => process fp nd.order nd.frame f P
  return P.zipIdx.map fun x => (x.1, cols.map fun c => c.getD x.2 nullV)

/-- window_node.cpp L69-193: `open`, then `get_next` until `eos`, on the batches of the child (the last comes with `eos`); how
the rows are cut into batches for the parent is not modelled. -/
def Node.run (fp : Fp) (nd : Node ρ) (child : List (List ρ)) : Except Fault (List (ρ × List EV)) :=
  if nd.fns.all Fn.opens then
    (((partitions nd.part (child.flatten.length + 1) ⟨[], none, child⟩).mapM (processAll fp nd)).map List.flatten)
  else .error .fail

/-! ## The planner -/

/-- A bound as written: UNBOUNDED, or with a number (`lit`), or CURRENT ROW. -/
structure WBound where
  ty : BoundTy
  unbounded : Bool
  lit : Option Int
  deriving DecidableEq, Repr

/-- A frame as written; the parser has put CURRENT ROW where there is no BETWEEN (sql_parse.y L3512-3518). -/
structure WFrame where
  rows : Bool
  lo : WBound
  hi : WBound
  deriving DecidableEq, Repr

/-- `OVER (…)`: the items of PARTITION BY, those of ORDER BY (`none`: no such clause), the frame, and the text it prints as
(`to_string`). -/
structure Over (ρ : Type) where
  part : List (ρ → EV)
  order : Option (List (Key ρ))
  frame : Option WFrame
  text : Bytes

/-- The functions for which the planner drops frames (logical_planner.cpp L2267-2272, L2382-2386). -/
def Fn.frameless : Fn ρ → Bool
  | .rowNumber | .rank | .denseRank | .percentRank | .cumeDist | .ntile _ | .lead .. | .lag .. => true
  | _ => false

/-- logical_planner.cpp L2213-2274: the checks of a frame. -/
def checkFrame (f : Fn ρ) (o : Over ρ) : Bool :=
  match o.frame with
  | none => true
  | some w =>
    o.order.isSome && (!(w.lo.ty == .following && w.lo.unbounded) && (!(w.hi.ty == .preceding && w.hi.unbounded) &&
      ((w.rows || ((w.lo.unbounded || w.lo.ty == .current) && (w.hi.unbounded || w.hi.ty == .current))) && !f.frameless)))

/-- window_node.cpp L344-393: the number of a bound is cast to INT32 and must not be negative; without one it is -1.  (This is
done when the node is made, and there only for frames other than the whole partition.) -/
def bound (w : WBound) : Except Fault Bound :=
  match w.lit with
  | none => .ok ⟨w.ty, w.unbounded, -1⟩
  | some x => if wrap32 x < 0 then .error .fail else .ok ⟨w.ty, w.unbounded, wrap32 x⟩

/-- logical_planner.cpp L2384-2437. -/
def planFrame (f : Fn ρ) (o : Over ρ) : Except Fault (Option Frame) :=
  if f.frameless then .ok none
  else
    match o.frame with
    | some w => do
      let lo ← bound w.lo
      let hi ← bound w.hi
      return some ⟨w.rows, lo, hi⟩
    | none =>
      .ok (some ⟨false, ⟨.preceding, true, -1⟩,
        if o.order.isSome then ⟨.current, false, -1⟩ else ⟨.following, true, -1⟩⟩)

/-- logical_planner.cpp L2278-2328: the window of one function. -/
def planOne (f : Fn ρ) (o : Over ρ) : Except Fault (Node ρ) := do
  if checkFrame f o = false then throw .fail
  let fr ← planFrame f o
  return ⟨[f], o.part, o.order.getD [], fr⟩

/-- select_planner.cpp L1501-1531 `merge_window_node`: windows that print alike become one, with the specification of the
first.  (The order of the merged windows is that of an `unordered_map`; here, that of their first functions.) -/
def mergeNodes : List (Bytes × Node ρ) → List (Bytes × Node ρ) → List (Bytes × Node ρ)
  | acc, [] => acc
  | acc, (t, nd) :: rest =>
    mergeNodes (if acc.any (·.1 == t) then acc.map fun x => if x.1 == t then (x.1, { x.2 with fns := x.2.fns ++ nd.fns }) else x
      else acc ++ [(t, nd)]) rest

/-- The windows of a query with the functions `ws`. -/
def plan (ws : List (Fn ρ × Over ρ)) : Except Fault (List (Bytes × Node ρ)) := do
  let nds ← ws.mapM fun w => (planOne w.1 w.2).map fun nd => (w.2.text, nd)
  return mergeNodes [] nds

/-- select_planner.cpp L741-757: the sort below a window, by the partition's expressions and then ORDER BY; PARTITION BY items
ascend, and NULLs come first exactly in ascending columns. -/
def sortKeys (nd : Node ρ) : List (Key ρ) := nd.part.map (fun a => ⟨a, true, true⟩) ++ nd.order

/-! ## Several windows -/

/-- A key, a function, a window on rows of another type, seen through `g`. -/
def keyComap {σ : Type} (g : σ → ρ) (k : Key ρ) : Key σ := ⟨fun s => k.val (g s), k.asc, k.nullFirst⟩
def Fn.comap {σ : Type} (g : σ → ρ) : Fn ρ → Fn σ
  | .countStar => .countStar
  | .count as => .count (as.map fun a s => a (g s))
  | .sum a => .sum fun s => a (g s)
  | .sumDbl a => .sumDbl fun s => a (g s)
  | .avg a => .avg fun s => a (g s)
  | .min a => .min fun s => a (g s)
  | .max a => .max fun s => a (g s)
  | .rowNumber => .rowNumber
  | .rank => .rank
  | .denseRank => .denseRank
  | .percentRank => .percentRank
  | .cumeDist => .cumeDist
  | .ntile n => .ntile n
  | .lead a k d => .lead (fun s => a (g s)) k (d.map fun d s => d (g s))
  | .lag a k d => .lag (fun s => a (g s)) k (d.map fun d s => d (g s))
  | .firstValue a => .firstValue fun s => a (g s)
  | .lastValue a => .lastValue fun s => a (g s)
  | .nthValue a n => .nthValue (fun s => a (g s)) n
def Node.comap {σ : Type} (g : σ → ρ) (nd : Node ρ) : Node σ :=
  ⟨nd.fns.map (Fn.comap g), nd.part.map (fun a s => a (g s)), nd.order.map (keyComap g), nd.frame⟩

/-- A row of the query with the values the windows have put into it so far: those of the first, of the second, … -/
abbrev Wide (ρ : Type) : Type := ρ × List (List EV)

/-- What running a query adds to its plan: the library's sorts, sizes of batches, and how the rows going from one node to the
next are cut into batches. -/
structure Exec (σ : Type) where
  srt : List (Key σ) → List σ → List σ
  srtI : List (Sort.Item σ) → List (Sort.Item σ)
  cap : Nat
  calls : Nat
  cut : List σ → List (List σ)

/-- select_planner.cpp L705-760: below every window is its sort, without a limit, and below that the next window.  `nds` from
the lowest to the highest. -/
def runWindows (fp : Fp) (E : Exec (Wide ρ)) : List (Node ρ) → List (List (Wide ρ)) → Except Fault (List (Wide ρ))
  | [], child => .ok child.flatten
  | nd :: nds, child =>
    match Sort.SortNode.run (sortKeys (nd.comap Prod.fst)) (E.srt (sortKeys (nd.comap Prod.fst))) E.srtI none E.cap E.calls child with
    | none => .error .fail
    | some l => do
      let out ← (nd.comap Prod.fst).run fp (E.cut l)
      runWindows fp E nds (E.cut (out.map fun x => (x.1.1, x.1.2 ++ [x.2])))

end BaikalDB.Window
