import Verif.KeyEnc.Props
import Verif.IndexKey.Model
import Verif.Like.Model
import Verif.Region.Route

/-!
# How the conditions of a query become ranges of an index

`src/physical_plan/index_selector.cpp` collects, for every column, the condition that narrows it best (`FieldRange`);
`src/exec/access_path.cpp` walks the columns of an index along these and produces key ranges, and the set of conditions
that need not be evaluated again because the ranges stand for them.

A conjunct of WHERE is known by its number (`ExprNode*` in the code).  Constants have the type of their column already
(`cast_to`, index_selector.cpp:548, access_path.cpp:82,391,397,436,446,467,506); `none` is NULL.
Not modelled: `date_range_to_in` (off by default), the partition ids of a range, full-text and vector indexes, the
choice between indexes by cost (any choice is covered), and the statistics.
-/

namespace BaikalDB.Scan
open KeyEnc IndexKey Like

/-- The comparisons an index can serve. -/
inductive Op where
  | eq | lt | le | gt | ge
  deriving DecidableEq, Repr

/-- A conjunct, as `hit_field_range` tells them apart (index_selector.cpp:515-539). -/
inductive Cond where
  /-- column op constant -/
  | cmp (op : Op) (f : Nat) (v : Option PbVal)
  /-- column IN (constants) -/
  | inn (f : Nat) (vs : List (Option PbVal))
  /-- column LIKE 'pattern' -/
  | like (f : Nat) (p : Option Bytes)
  /-- (columns) op (constants) -/
  | rcmp (op : Op) (fs : List Nat) (vs : List (Option PbVal))
  /-- (columns) IN ((constants), ...) -/
  | rin (fs : List Nat) (vss : List (List (Option PbVal)))
  /-- MATCH ... AGAINST, or an OR of LIKEs and MATCHes on columns with a full-text index -/
  | full (fs : List Nat) (p : Row → Bool)
  /-- anything else -/
  | other (p : Row → Bool)

/-- range.h:24-37; the four full-text kinds are one here. -/
inductive RT where
  | none | range | eq | like | likeEq | likePrefix | full | inn
  deriving DecidableEq, Repr

/-- range.h:39-54 `FieldRange`. -/
structure FR where
  type : RT := .none
  isRow : Bool := false
  leftOpen : Bool := false
  rightOpen : Bool := false
  leftRow : List Nat := []
  rightRow : List Nat := []
  leftExpr : Nat := 0
  rightExpr : Nat := 0
  left : List PbVal := []
  right : List PbVal := []
  eqIn : List PbVal := []
  conds : List Nat := []
  deriving DecidableEq, Repr

/-- `field_range_map`; `operator[]` makes a `FieldRange` of type NONE, and a column of that type counts as absent: the
code never leaves one behind. -/
abbrev FMap := Nat → FR

def set (m : FMap) (f : Nat) (r : FR) : FMap := fun g => if g = f then r else m g

/-- index_selector.cpp:30-41 `get_field_hit_type_weight`. -/
def weight : RT → Nat
  | .eq | .likeEq => 10
  | .inn => 9
  | .range | .likePrefix => 5
  | _ => 0

/-- The constants that are not NULL. -/
def nonNull : List (Option PbVal) → List PbVal
  | [] => []
  | none :: vs => nonNull vs
  | some v :: vs => v :: nonNull vs

/-- A tuple without NULL (index_selector.cpp:245-258). -/
def tuple : List (Option PbVal) → Option (List PbVal)
  | [] => some []
  | none :: _ => none
  | some v :: vs => (tuple vs).map (v :: ·)

def tuples : List (List (Option PbVal)) → List (List PbVal)
  | [] => []
  | t :: ts => match tuple t with
    | none => tuples ts
    | some v => v :: tuples ts

def insertId (i : Nat) (l : List Nat) : List Nat := if i ∈ l then l else l ++ [i]

/-- index_selector.cpp:571-588. -/
def hitEq (i f : Nat) (vs : List PbVal) (m : FMap) : FMap :=
  if weight (m f).type > weight .eq then m else set m f { type := .eq, eqIn := vs, conds := [i] }

/-- The entry a range condition works on: a fresh one unless there is one of type RANGE (index_selector.cpp:595-597). -/
def rangeBase (r : FR) : FR := if r.type ≠ .range then {} else r

/-- index_selector.cpp:589-606. -/
def hitLeft (i f : Nat) (op : Op) (v : PbVal) (m : FMap) : FMap :=
  if weight (m f).type > weight .range then m
  else if (rangeBase (m f)).left ≠ [] then set m f (rangeBase (m f))
  else set m f { rangeBase (m f) with left := [v], leftOpen := op == .gt, leftExpr := i, type := .range }

/-- index_selector.cpp:607-624. -/
def hitRight (i f : Nat) (op : Op) (v : PbVal) (m : FMap) : FMap :=
  if weight (m f).type > weight .range then m
  else if (rangeBase (m f)).right ≠ [] then set m f (rangeBase (m f))
  else set m f { rangeBase (m f) with right := [v], rightOpen := op == .lt, rightExpr := i, type := .range }

/-- index_selector.cpp:629-654. -/
def hitIn (i f : Nat) (vs : List PbVal) (m : FMap) : FMap :=
  let r := m f
  let doThis := r.type == .none || ((r.type == .eq || r.type == .inn) && !r.isRow && decide (vs.length < r.eqIn.length))
  if !doThis then m
  else if weight r.type > weight .inn then m
  else set m f { eqIn := vs, conds := [i], type := if vs.length = 1 then .eq else .inn }

/-- index_selector.cpp:676-714. -/
def hitLike (i f : Nat) (p : Bytes) (m : FMap) : FMap :=
  let h := hitIndex p
  let t : RT := if h.1 then .likeEq else if h.2.1 then .likePrefix else .like
  if weight (m f).type > weight t then m
  else if h.1 || h.2.1 then set m f { type := t, conds := [i], eqIn := [.str h.2.2] }
  else set m f { type := t, conds := [i] }

/-- index_selector.cpp:273-285: one column of a row equality.  The conditions already there stay. -/
def hitRowEq (i : Nat) (fs : List Nat) (m : FMap) (p : Nat × PbVal) : FMap :=
  set m p.1 { m p.1 with eqIn := [p.2], conds := insertId i (m p.1).conds, type := .eq, isRow := true, leftRow := fs }

/-- index_selector.cpp:286-312. -/
def hitRowLeft (i : Nat) (op : Op) (f : Nat) (fs : List Nat) (vs : List PbVal) (m : FMap) : FMap :=
  if (m f).left ≠ [] then m
  else if weight (m f).type > weight .range then m
  else set m f { rangeBase (m f) with left := (rangeBase (m f)).left ++ vs, leftOpen := op == .gt, leftExpr := i,
                                      type := .range, isRow := true, leftRow := fs }

/-- index_selector.cpp:313-338. -/
def hitRowRight (i : Nat) (op : Op) (f : Nat) (fs : List Nat) (vs : List PbVal) (m : FMap) : FMap :=
  if (m f).right ≠ [] then m
  else if weight (m f).type > weight .range then m
  else set m f { rangeBase (m f) with right := (rangeBase (m f)).right ++ vs, rightOpen := op == .lt, rightExpr := i,
                                      type := .range, isRow := true, rightRow := fs }

/-- index_selector.cpp:343-364: one column of a row IN with the values it has in the tuples. -/
def hitRowIn (i : Nat) (fs : List Nat) (m : FMap) (p : Nat × List PbVal) : FMap :=
  if (m p.1).type ≠ .none ∧ (m p.1).eqIn.length ≤ p.2.length then m
  else set m p.1 { m p.1 with eqIn := p.2, conds := [i], isRow := true, leftRow := fs,
                              type := if p.2.length = 1 then .eq else .inn }

/-- The values of the `k`-th column. -/
def column (ts : List (List PbVal)) (k : Nat) : List PbVal := ts.map fun t => t.getD k (.bool false)

/-- The columns of a row IN with their values. -/
def rowCols (fs : List Nat) (ts : List (List PbVal)) : List (Nat × List PbVal) :=
  fs.zipIdx.map fun p => (p.1, column ts p.2)

/-- index_selector.cpp:450-452,494-496: full-text conditions do not look at what is there. -/
def hitFull (i : Nat) (m : FMap) (f : Nat) : FMap :=
  set m f { m f with type := .full, conds := insertId i (m f).conds }

/-- index_selector.cpp:228-368, 515-725 `hit_field_range` on the `i`-th conjunct; `none`: a condition an index could
serve compares with NULL only (`index_predicate_is_null`). -/
def hit (i : Nat) (c : Cond) (m : FMap) : Option FMap :=
  match c with
  | .cmp _ _ none => none
  | .cmp .eq f (some v) => some (hitEq i f [v] m)
  | .cmp .gt f (some v) => some (hitLeft i f .gt v m)
  | .cmp .ge f (some v) => some (hitLeft i f .ge v m)
  | .cmp .lt f (some v) => some (hitRight i f .lt v m)
  | .cmp .le f (some v) => some (hitRight i f .le v m)
  | .inn f vs => if nonNull vs = [] then none else some (hitIn i f (nonNull vs) m)
  | .like _ none => none
  | .like f (some p) => some (hitLike i f p m)
  | .rcmp op fs vs =>
    match tuple vs with
    | none => none
    | some ws =>
      match op with
      | .eq => some ((fs.zip ws).foldl (hitRowEq i fs) m)
      | .gt | .ge => some (hitRowLeft i op (fs.headD 0) fs ws m)
      | .lt | .le => some (hitRowRight i op (fs.headD 0) fs ws m)
  | .rin fs vss => if tuples vss = [] then none else some ((rowCols fs (tuples vss)).foldl (hitRowIn i fs) m)
  | .full fs _ => some (fs.foldl (hitFull i) m)
  | .other _ => some m

/-- index_selector.cpp:798-814: all conjuncts in turn, numbered from `i`; `none`: the result is empty. -/
def hits : Nat → List Cond → FMap → Option FMap
  | _, [], m => some m
  | i, c :: cs, m => (hit i c m).bind (hits (i + 1) cs)

/-- The flags `max_in_records_num` and `cut_huge_in_filter_size` (access_path.cpp:24-25). -/
structure Cfg where
  maxIn : Nat
  hugeIn : Nat

/-- access_path.cpp:141-144: the columns in the key of an index. -/
def avail (ix : IndexInfo) : List FieldInfo := if ix.type = .key then ix.fields ++ ix.pkFields else ix.fields

/-- What `calc_normal` works out. -/
structure St where
  fieldCnt : Nat := 0
  /-- `in_row_expr_map`: condition, number of columns served (the offset is only needed for the keys) -/
  inMap : List (Nat × Nat) := []
  inSize : Nat := 1
  hitIds : List Nat := []
  leftOpen : Bool := false
  rightOpen : Bool := false
  leftCnt : Nat := 0
  rightCnt : Nat := 0
  likePrefix : Bool := false
  inPred : Bool := false
  eqOrIn : Bool := true
  eqCount : Nat := 0
  /-- `need_cut_index_range_condition` -/
  cut : List Nat := []
  deriving DecidableEq, Repr

/-- `unordered_set::insert` of several. -/
def addAll (l : List Nat) (xs : List Nat) : List Nat := xs.foldl (fun l x => insertId x l) l

/-- access_path.cpp:176-185, 199-208, and 79-87: how many columns of a row go along with the key columns. -/
def matchLen : List Nat → List Nat → Nat
  | r :: rs, a :: as => if a = r then matchLen rs as + 1 else 0
  | _, _ => 0

/-- access_path.cpp:171-193: the lower end; also the `field_idx` it leaves. -/
def rangeLeft (ids : List Nat) (r : FR) (s : St) : St × Nat :=
  if r.left.length = 1 then
    ({ s with leftOpen := r.leftOpen, leftCnt := s.fieldCnt, cut := addAll s.cut [r.leftExpr] }, s.fieldCnt - 1)
  else if r.left.length > 1 then
    let n := matchLen r.leftRow (ids.drop (s.fieldCnt - 1))
    let s1 := { s with hitIds := addAll s.hitIds (r.leftRow.take n), leftCnt := s.fieldCnt - 1 + n }
    if n = r.leftRow.length then
      ({ s1 with leftOpen := r.leftOpen, cut := addAll s.cut [r.leftExpr] }, s.fieldCnt - 1 + n)
    else ({ s1 with leftOpen := false }, s.fieldCnt - 1 + n)
  else (s, s.fieldCnt - 1)

/-- access_path.cpp:194-216: the upper end, from the `field_idx` left over. -/
def rangeRight (ids : List Nat) (r : FR) (p : St × Nat) : St :=
  let s := p.1
  if r.right.length = 1 then
    { s with rightOpen := r.rightOpen, rightCnt := s.fieldCnt, cut := addAll s.cut [r.rightExpr] }
  else if r.right.length > 1 then
    let n := matchLen r.rightRow (ids.drop p.2)
    let s1 := { s with hitIds := addAll s.hitIds (r.rightRow.take n), rightCnt := p.2 + n }
    if n = r.rightRow.length then { s1 with rightOpen := r.rightOpen, cut := addAll s.cut [r.rightExpr] }
    else { s1 with rightOpen := false }
  else s

/-- access_path.cpp:165-218. -/
def stepRange (ids : List Nat) (f : Nat) (r : FR) (s : St) : St :=
  rangeRight ids r (rangeLeft ids r
    { s with fieldCnt := s.fieldCnt + 1, eqOrIn := false, hitIds := insertId f s.hitIds })

/-- access_path.h:161-164 (and the vector version): `all_in_index`. -/
def allIn (fs ids : List Nat) : Bool := fs.all fun f => decide (f ∈ ids)

/-- access_path.cpp:228-233 and 282-289: a column is taken with closed bounds. -/
def take (f : Nat) (s : St) : St :=
  { s with fieldCnt := s.fieldCnt + 1, hitIds := insertId f s.hitIds, leftCnt := s.fieldCnt + 1,
           rightCnt := s.fieldCnt + 1, leftOpen := false, rightOpen := false }

def addCut (cs : List Nat) (s : St) : St := { s with cut := addAll s.cut cs }

/-- access_path.cpp:219-245, EQ and LIKE_EQ. -/
def stepEq (f : Nat) (r : FR) (s : St) : St :=
  let s1 := take f { s with eqCount := s.eqCount + 1 }
  if r.isRow then (if allIn r.leftRow s1.hitIds then addCut r.conds s1 else s1) else addCut r.conds s1

/-- access_path.cpp:222-237, LIKE_PREFIX on a string column. -/
def stepPrefix (f : Nat) (s : St) : St := { take f s with likePrefix := true, eqOrIn := false }

/-- The condition an IN entry comes from (`*range.conditions.begin()`). -/
def condOf (r : FR) : Nat := r.conds.headD 0

/-- How many columns of a row IN are served so far. -/
def bump (i : Nat) (m : List (Nat × Nat)) : List (Nat × Nat) := m.map fun p => if p.1 = i then (p.1, p.2 + 1) else p

/-- access_path.cpp:282-299, after the sizes have been settled. -/
def takeIn (f : Nat) (r : FR) (s : St) : St :=
  let s1 := take f { s with eqCount := s.eqCount + 1, inPred := true }
  if r.isRow then
    (if allIn r.leftRow s1.hitIds && (s1.inMap.lookup (condOf r)).getD 0 == r.leftRow.length
     then addCut r.conds s1 else s1)
  else addCut r.conds s1

/-- access_path.cpp:249-300; `none`: the walk ends before this column. -/
def stepIn (cfg : Cfg) (ix : IndexInfo) (f : Nat) (r : FR) (s : St) : Option St :=
  if r.isRow && (s.inMap.lookup (condOf r)).isSome then
    if r.eqIn.length > 0 ∧ s.inSize % r.eqIn.length = 0 then
      some (takeIn f r { s with inMap := bump (condOf r) s.inMap })
    else none
  else if cfg.hugeIn > 0 ∧ (ix.type = .key ∧ ix.isGlobal = false) ∧ r.eqIn.length > cfg.hugeIn then none
  else if s.inSize > 1 ∧ s.inSize * r.eqIn.length > cfg.maxIn then none
  else
    let s1 := if r.isRow then { s with inMap := s.inMap ++ [(condOf r, 1)] } else s
    some (takeIn f r { s1 with inSize := r.eqIn.length * s.inSize })

/-- access_path.cpp:145-307: the walk of `calc_normal` over the key columns. -/
def walk (cfg : Cfg) (ix : IndexInfo) (m : FMap) : List FieldInfo → St → St
  | [], s => s
  | f :: fs, s =>
    if f.id ∈ s.hitIds then s
    else match (m f.id).type with
      | .none => s
      | .range => stepRange ((avail ix).map (·.id)) f.id (m f.id) s
      | .eq | .likeEq => walk cfg ix m fs (stepEq f.id (m f.id) s)
      | .likePrefix => if f.type ≠ .string then s else stepPrefix f.id s
      | .like => s
      | .inn => match stepIn cfg ix f.id (m f.id) s with
        | none => s
        | some s' => walk cfg ix m fs s'
      | .full => walk cfg ix m fs s

/-- `key.append_value(value.cast_to(type))`. -/
def app (k : Bytes) (t : PType) (v : PbVal) : Bytes := appendValue k t (unionOf v).1 (unionOf v).2

/-- access_path.cpp:66-88 `calc_row_expr_range`, from the given key columns on. -/
def appRow (k : Bytes) : List Nat → List PbVal → List FieldInfo → Bytes
  | r :: rs, v :: vs, a :: as => if a.id = r then appRow (app k a.type v) rs vs as else k
  | _, _, _ => k

/-- access_path.cpp:386-402: both ends of a range behind the key so far; `rest` are the key columns from this one on. -/
def rangeKeys (rest : List FieldInfo) (t : PType) (r : FR) (lr : Bytes × Bytes) : Bytes × Bytes :=
  (match r.left with
   | [] => lr.1
   | [v] => app lr.1 t v
   | vs => appRow lr.1 r.leftRow vs rest,
   match r.right with
   | [] => lr.2
   | [v] => app lr.2 t v
   | vs => appRow lr.2 r.rightRow vs rest)

/-- The keys `calc_index_range` has so far. -/
structure KSt where
  cnt : Nat := 0
  left : Bytes := []
  right : Bytes := []
  /-- `in_records`: left and right key -/
  recs : List (Bytes × Bytes) := []
  /-- `in_row_expr_map`: condition, offset -/
  offs : List (Nat × Nat) := []
  deriving DecidableEq, Repr

def v0 (r : FR) : PbVal := r.eqIn.headD (.bool false)

/-- `get_string()` of the pattern prefix. -/
def strOf : PbVal → Bytes
  | .str s => s
  | _ => []

/-- access_path.cpp:414-450. -/
def keyEq (likePrefix : Bool) (t : PType) (r : FR) (k : KSt) : KSt :=
  if likePrefix && r.type == .likePrefix then
    if k.recs = [] then
      { k with left := appendStringPrefix k.left (strOf (v0 r)), right := appendStringPrefix k.right (strOf (v0 r)) }
    else
      { k with recs := k.recs.map fun p =>
          (appendStringPrefix p.1 (strOf (v0 r)),
           appendStringPrefix (appendStringPrefix p.1 (strOf (v0 r))) (strOf (v0 r))) }
  else if k.recs = [] then { k with left := app k.left t (v0 r), right := app k.right t (v0 r) }
  else { k with recs := k.recs.map fun p => (app p.1 t (v0 r), p.2) }

/-- access_path.cpp:457-472: value number `vi` for `off` records, then the next one. -/
def flatFill (t : PType) (vals : List PbVal) (off : Nat) : Nat → Nat → List (Bytes × Bytes) → List (Bytes × Bytes)
  | _, _, [] => []
  | i, vi, p :: ps =>
    (app p.1 t (vals.getD vi (.bool false)), p.2) ::
      (if i + 1 = off then flatFill t vals off 0 ((vi + 1) % vals.length) ps
       else flatFill t vals off (i + 1) vi ps)

/-- access_path.cpp:492-511: every value with every record, the values outside. -/
def expand (t : PType) (vals : List PbVal) (recs : List (Bytes × Bytes)) : List (Bytes × Bytes) :=
  vals.flatMap fun v => recs.map fun p => (app p.1 t v, [])

/-- access_path.cpp:451-526; `none`: error, no ranges are made. -/
def keyIn (t : PType) (r : FR) (k : KSt) : Option KSt :=
  match (if r.isRow then k.offs.lookup (condOf r) else none) with
  | some off =>
    if r.eqIn.length > 0 ∧ k.recs.length % r.eqIn.length = 0 then
      some { k with recs := flatFill t r.eqIn off 0 0 k.recs }
    else none
  | none =>
    let recs0 := if k.recs = [] then [(k.left, [])] else k.recs
    some { k with recs := expand t r.eqIn recs0,
                  offs := if r.isRow then k.offs ++ [(condOf r, recs0.length)] else k.offs }

/-- access_path.cpp:374-530: the walk of `calc_index_range`.  A RANGE ends it (411). -/
def keys (m : FMap) (likePrefix : Bool) (hitSize : Nat) : List FieldInfo → KSt → Option KSt
  | [], k => some k
  | f :: fs, k =>
    if k.cnt + 1 > hitSize then some k
    else match (m f.id).type with
      | .none => some k
      | .range =>
        some (if k.recs = [] then
          { k with left := (rangeKeys (f :: fs) f.type (m f.id) (k.left, k.right)).1,
                   right := (rangeKeys (f :: fs) f.type (m f.id) (k.left, k.right)).2 }
        else { k with recs := k.recs.map fun p => rangeKeys (f :: fs) f.type (m f.id) (p.1, p.1) })
      | .eq | .likeEq | .likePrefix =>
        keys m likePrefix hitSize fs (keyEq likePrefix f.type (m f.id) { k with cnt := k.cnt + 1 })
      | .inn => (keyIn f.type (m f.id) { k with cnt := k.cnt + 1 }).bind (keys m likePrefix hitSize fs)
      | .like | .full => keys m likePrefix hitSize fs { k with cnt := k.cnt + 1 }

/-- access_path.cpp:357-361: the null flags of a secondary index. -/
def flag (ix : IndexInfo) : Bytes := if ix.type = .key ∨ ix.type = .uniq ∨ ix.type = .rollup then [0#8] else []

/-- access_path.cpp:542-548: one range per left key. -/
def dedupe : List Bytes → List (Bytes × Bytes) → List (Bytes × Bytes)
  | _, [] => []
  | seen, p :: ps => if p.1 ∈ seen then dedupe seen ps else p :: dedupe (p.1 :: seen) ps

/-- access_path.cpp:550-554, 575-579. -/
def leftFull (ix : IndexInfo) (s : St) : Bool :=
  decide (s.leftCnt = (avail ix).length) && (ix.type == .primary || ix.type == .uniq) && !s.likePrefix

def toRng (ix : IndexInfo) (s : St) (p : Bytes × Bytes) : Route.Rng :=
  ⟨p.1, if s.eqOrIn then [] else p.2, leftFull ix s, false, false, []⟩

/-- The ranges of an index and the conditions they stand for. -/
structure Plan where
  tpl : Route.Tpl
  ranges : List Route.Rng
  cut : List Nat
  st : St
  deriving DecidableEq, Repr

/-- access_path.cpp:531-601. -/
def finish (ix : IndexInfo) (s : St) (k : KSt) : Plan :=
  if s.leftCnt = 0 ∧ s.rightCnt = 0 then
    ⟨⟨false, s.leftOpen, s.rightOpen⟩, [⟨[], [], false, false, false, []⟩], s.cut, s⟩
  else
    ⟨⟨s.eqOrIn, s.leftOpen, s.rightOpen⟩,
     if k.recs ≠ [] then (dedupe [] k.recs).map (toRng ix s) else [toRng ix s (k.left, k.right)], s.cut, s⟩

/-- What becomes of a query on one index. -/
inductive Res where
  /-- a condition that cannot be true: the result is empty -/
  | empty
  /-- `calc_index_range` gave up -/
  | error
  | plan (p : Plan)
  deriving DecidableEq, Repr

/-- `calc_normal` and `calc_index_range` on the ranges of the conjuncts. -/
def planOf (cfg : Cfg) (ix : IndexInfo) (m : FMap) : Option Plan :=
  let s := walk cfg ix m (avail ix) {}
  (keys m s.likePrefix s.hitIds.length (avail ix) { left := flag ix, right := flag ix }).map (finish ix s)

def mkPlan (cfg : Cfg) (ix : IndexInfo) (cs : List Cond) : Res :=
  match hits 0 cs (fun _ => {}) with
  | none => .empty
  | some m => match planOf cfg ix m with
    | none => .error
    | some p => .plan p

end BaikalDB.Scan
