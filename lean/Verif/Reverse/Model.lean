import Verif.Sort.Model
import Mathlib.Tactic.Common
import Mathlib.Order.BoundedOrder.Basic
import Mathlib.Order.Lattice.Nat

/-!
# Full-text search

Model of a region's reverse index: include/reverse/reverse_index.hpp (writes, the merges of its three levels), reverse_common.hpp
(iterators and `level_merge`), reverse_interface.hpp (`CommRindexNodeParser`, `NewSchema::create_executor`),
include/reverse/boolean_engine/boolean_executor.hpp and src/reverse/boolean_executor.cpp (the executors), src/reverse/reverse_index.cpp
(conditions on several reverse indexes).

Keys are the encoded primary keys, of any linear order with a least element, the empty string, which in a range stands for no bound.
Terms are of any type; how a text is cut into terms is a parameter.  Left out: weights, the caches, the `is_fast` mode (which does not read
level 1), `WeightedBooleanExecutor` (which nothing creates), RocksDB errors.
-/

namespace BaikalDB.Reverse

variable {K T : Type} [LinearOrder K] [OrderBot K] [DecidableEq T]

/-- pb::CommonReverseNode without the weight; `del` is REVERSE_NODE_DELETE. -/
structure Node (K : Type) where
  key : K
  del : Bool
deriving DecidableEq

/-- reverse_common.h L40 `KeyRange`. -/
structure Range (K : Type) where
  start : K
  stop : K
deriving DecidableEq

/-- An entry of level 1: its key in RocksDB is term, primary key and time. -/
structure Entry (K : Type) where
  key : K
  time : Nat
  del : Bool
deriving DecidableEq

/-- What is stored for a term. -/
structure Levels (K : Type) where
  one : List (Entry K)
  two : List (Node K)
  three : List (Node K)
deriving DecidableEq

/-! ### Levels -/

/-- reverse_index.hpp L641-675 `_insert_one_reverse_node`: `Put` of term, key and time.  (The order of the entries in RocksDB is that of
key and time: no encoded primary key is a prefix of another, C01-C03.) -/
def putEntry (e : Entry K) : List (Entry K) → List (Entry K)
  | [] => [e]
  | x :: t =>
    if e.key < x.key ∨ (e.key = x.key ∧ e.time < x.time) then e :: x :: t
    else if e.key = x.key ∧ e.time = x.time then e :: t
    else x :: putEntry e t

/-- reverse_common.hpp L159-160, negated. -/
def Range.has (r : Range K) (k : K) : Bool :=
  !((decide (r.start ≠ ⊥) && decide (k < r.start)) || (decide (r.stop ≠ ⊥) && decide (r.stop ≤ k)))

/-- Of nodes with the same key one after the other the last: reverse_common.hpp L62-110, L187-194. -/
def lastOfEach : List (Node K) → List (Node K)
  | [] => []
  | [x] => [x]
  | x :: y :: t => if x.key = y.key then lastOfEach (y :: t) else x :: lastOfEach (y :: t)

/-- reverse_common.hpp L62-161: the nodes that `FirstLevelMSIterator` gives. -/
def firstLevel (r : Range K) (l : List (Entry K)) : List (Node K) :=
  lastOfEach ((l.filter fun e => r.has e.key).map fun e => ⟨e.key, e.del⟩)

/-- reverse_common.hpp L178-211: the nodes that `SecondLevelMSIterator` gives. -/
def secondLevel (r : Range K) (l : List (Node K)) : List (Node K) :=
  ((lastOfEach l).filter fun n => !(decide (r.start ≠ ⊥) && decide (n.key < r.start))).takeWhile
    fun n => !(decide (r.stop ≠ ⊥) && decide (r.stop ≤ n.key))

/-- The loop of `levelMerge`, `f` is the number of rounds. -/
def levelMergeLoop (isDel : Bool) : Nat → List (Node K) → List (Node K) → List (Node K)
  | 0, _, _ => []
  | _ + 1, [], [] => []
  | f + 1, n :: ns, [] => (if isDel && n.del then [] else [n]) ++ levelMergeLoop isDel f ns []
  | f + 1, [], o :: os => (if isDel && o.del then [] else [o]) ++ levelMergeLoop isDel f [] os
  | f + 1, n :: ns, o :: os =>
    if n.key < o.key then (if isDel && n.del then [] else [n]) ++ levelMergeLoop isDel f ns (o :: os)
    else if o.key < n.key then (if isDel && o.del then [] else [o]) ++ levelMergeLoop isDel f (n :: ns) os
    else (if isDel && n.del then [] else [n]) ++ levelMergeLoop isDel f ns os

/-- reverse_common.hpp L231-318 `level_merge`. -/
def levelMerge (isDel : Bool) (new old : List (Node K)) : List (Node K) := levelMergeLoop isDel (new.length + old.length + 1) new old

/-- reverse_index.hpp L415-534 `_reverse_merge_to_second_level`: level 1 goes to level 2, and a level 2 of `len` nodes or more to level 3. -/
def mergeLevels (len : Nat) (r : Range K) (lv : Levels K) : Levels K :=
  let two := levelMerge false (firstLevel r lv.one) (secondLevel r lv.two)
  if len ≤ two.length then ⟨[], [], levelMerge true (secondLevel r two) (secondLevel r lv.three)⟩
  else ⟨[], two, lv.three⟩

/-- table_key.h L22-33: `end_key_compare(a, b) < 0`. -/
def stopLt (a b : K) : Bool := if a = b then false else if a = ⊥ then false else if b = ⊥ then true else decide (a < b)

/-- reverse_index.hpp L318-406 `_reverse_remove_range_for_third_level`: the nodes out of the range are removed. -/
def removeRange (r : Range K) (l : List (Node K)) : List (Node K) :=
  match l.head?, l.getLast? with
  | some a, some b => if decide (r.start ≤ a.key) && stopLt b.key r.stop then l else levelMerge false [] (secondLevel r l)
  | _, _ => l

/-- The same for levels 2 and 3 of a term (L18-22). -/
def clean (r : Range K) (lv : Levels K) : Levels K := ⟨lv.one, removeRange r lv.two, removeRange r lv.three⟩

/-! ### The nodes of a term -/

/-- reverse_interface.h L25-78 `CommRindexNodeParser`: the lists from `_curr_ix_new` and `_curr_ix_old` on (empty for -1) and
`_curr_node`. -/
structure Parser (K : Type) where
  new : List (Node K)
  old : List (Node K)
  cur : Option (Node K)
  range : Range K

/-- reverse_interface.hpp L124-138, L211-226: the node to take. -/
def choose (new old : List (Node K)) : Option (Node K) :=
  match new, old with
  | n :: _, o :: _ => if n.key ≤ o.key then some n else some o
  | n :: _, [] => some n
  | [], o :: _ => some o
  | [], [] => none

/-- L139-141, L228-230: no node from the end of the range on. -/
def clip (r : Range K) (n : Option (Node K)) : Option (Node K) :=
  n.bind fun n => if r.stop ≠ ⊥ ∧ r.stop ≤ n.key then none else some n

/-- L99-143 `next`. -/
def Parser.next (p : Parser K) : Parser K :=
  match p.cur with
  | none => p
  | some _ =>
    let q : List (Node K) × List (Node K) :=
      match p.new, p.old with
      | n :: ns, o :: os => if n.key < o.key then (ns, o :: os) else if n.key = o.key then (ns, os) else (n :: ns, os)
      | _ :: ns, [] => (ns, [])
      | [], _ :: os => ([], os)
      | [], [] => ([], [])
    { p with new := q.1, old := q.2, cur := clip p.range (choose q.1 q.2) }

/-- The key of the `i`-th node is less than `t`. -/
def below (t : K) (l : List (Node K)) (i : Nat) : Bool := (l[i]?).elim false fun n => decide (n.key < t)

/-- The key of the `i`-th node is more than `t`. -/
def above (t : K) (l : List (Node K)) (i : Nat) : Bool := (l[i]?).elim false fun n => decide (t < n.key)

/-- L156-159; `f` is the number of rounds. -/
def gallop (t : K) (l : List (Node K)) (off : Nat) : Nat → Nat → Nat
  | 0, j => j
  | f + 1, j => if j ≤ off ∧ below t l j = true then gallop t l off f (j * 2) else j

/-- L168-178; `f` is the number of rounds. -/
def bisect (t : K) (l : List (Node K)) : Nat → Nat → Nat → Nat
  | 0, first, _ => first
  | f + 1, first, last =>
    if first < last then
      let mid := first + (last - first) / 2
      if above t l mid then bisect t l f first mid
      else if below t l mid then bisect t l f (mid + 1) last
      else mid
    else first

/-- L146-180 `binary_search` from the first node of `l`, which is not empty (32-bit overflow left out). -/
def binarySearch (t : K) (l : List (Node K)) : Option Nat :=
  let off := l.length - 1
  let j := gallop t l off l.length 1
  let last := min j off
  if below t l last then none else some (bisect t l (l.length + 1) (j / 2) last)

/-- L189-201: the list from the first node that is not less than `t`. -/
def seek (t : K) (l : List (Node K)) : List (Node K) :=
  if l = [] then [] else (binarySearch t l).elim [] fun i => l.drop i

/-- L182-233 `advance`. -/
def Parser.advance (t : K) (p : Parser K) : Parser K :=
  match p.cur with
  | none => p
  | some _ => { p with new := seek t p.new, old := seek t p.old, cur := clip p.range (choose (seek t p.new) (seek t p.old)) }

/-- L31-68 `_init`. -/
def Parser.init (r : Range K) (new old : List (Node K)) : Parser K :=
  let p : Parser K := ⟨new, old, choose new old, r⟩
  if r.start ≠ ⊥ then p.advance r.start else p

/-- reverse_index.hpp L187-262 `get_reverse_list_two` (not `is_fast`), reverse_interface.hpp L70-88 `init`. -/
def Levels.parser (r : Range K) (lv : Levels K) : Parser K :=
  Parser.init r (levelMerge false (firstLevel r lv.one) (secondLevel r lv.two)) lv.three

/-! ### Executors -/

/-- boolean_executor.h L121-141 `TermBooleanExecutor`. -/
structure Term (K : Type) where
  parser : Parser K
  init : Bool
  cur : Option (Node K)

/-- boolean_executor.hpp L77-99: on to the next node that is not a delete; `f` is the number of rounds. -/
def skipDeleted : Nat → Parser K → Parser K
  | 0, p => p
  | f + 1, p => if p.cur.elim false Node.del then skipDeleted f p.next else p

/-- L75-99 `next`. -/
def Term.next (t : Term K) : Term K :=
  let p := if t.init then t.parser else t.parser.next
  let q := skipDeleted (p.new.length + p.old.length + 1) p
  ⟨q, false, q.cur⟩

/-- L101-127 `advance`. -/
def Term.advance (k : K) (t : Term K) : Term K :=
  match t.cur with
  | none => { t with init := false }
  | some n =>
    if k ≤ n.key then { t with init := false }
    else
      let p := t.parser.advance k
      if p.cur.elim false Node.del then (⟨p, false, p.cur⟩ : Term K).next else ⟨p, false, p.cur⟩

/-- boolean_executor.h L82-100: what an executor can do.  (`size`, which bounds the number of nodes left, is not in the code: it
bounds the rounds of loops.) -/
structure Ops (σ K : Type) where
  curId : σ → Option K
  next : σ → σ
  advance : K → σ → σ
  size : σ → Nat

/-- boolean_executor.h L145-182 `OperatorBooleanExecutor`; `cur` is what `_curr_id_ptr` points to.  (It is the key of a node or of an executor
below that is not moved before `_curr_id_ptr` is set again.) -/
structure OpSt (σ K : Type) where
  subs : List σ
  init : Bool
  null : Bool
  cur : Option K

section
variable {σ : Type} (o : Ops σ K)

/-- The total size of executors. -/
def sizes (l : List σ) : Nat := (l.map o.size).sum

/-- boolean_executor.cpp L101-115; `none` stands for `_is_null_flag`. -/
def andLoop : Nat → List σ → Nat → Nat → K → List σ × Option K
  | 0, subs, _, _, _ => (subs, none)
  | f + 1, subs, fwd, pivot, cur =>
    if fwd ≠ pivot then
      match subs[fwd]? with
      | none => (subs, none)
      | some s =>
        let s' := o.advance cur s
        match o.curId s' with
        | none => (subs.set fwd s', none)
        | some k =>
          let nxt := if fwd = subs.length - 1 then 0 else fwd + 1
          if k ≠ cur then andLoop f (subs.set fwd s') nxt fwd k else andLoop f (subs.set fwd s') nxt pivot cur
    else (subs, subs.head?.bind o.curId)

/-- L91-131 `AndBooleanExecutor::find_next`. -/
def andFind (subs : List σ) : OpSt σ K :=
  match subs.getLast?.bind o.curId with
  | none => ⟨subs, false, true, none⟩
  | some k =>
    let q := andLoop o ((sizes o subs + 1) * (subs.length + 1)) subs 0 (subs.length - 1) k
    ⟨q.1, false, q.2.isNone, q.2⟩

/-- L58-65: `next` of all, up to one that is at its end. -/
def nextAll : List σ → List σ × Bool
  | [] => ([], true)
  | s :: t =>
    let s' := o.next s
    if (o.curId s').isNone then (s' :: t, false)
    else
      let q := nextAll t
      (s' :: q.1, q.2)

/-- L53-70 `AndBooleanExecutor::next`. -/
def andNext (s : OpSt σ K) : OpSt σ K :=
  if s.subs = [] ∨ s.null = true then { s with null := true }
  else if s.init then
    let q := nextAll o s.subs
    if q.2 then andFind o q.1 else ⟨q.1, false, true, s.cur⟩
  else andFind o (s.subs.modify (s.subs.length - 1) o.next)

/-- L71-76: `advance` of all, up to one that is at its end. -/
def advanceAll (k : K) : List σ → List σ × Bool
  | [] => ([], true)
  | s :: t =>
    let s' := o.advance k s
    if (o.curId s').isNone then (s' :: t, false)
    else
      let q := advanceAll k t
      (s' :: q.1, q.2)

/-- L72-89 `AndBooleanExecutor::advance`. -/
def andAdvance (k : K) (s : OpSt σ K) : OpSt σ K :=
  if s.subs = [] ∨ s.null = true then { s with null := true }
  else if s.init then
    let q := advanceAll o k s.subs
    if q.2 then andFind o q.1 else ⟨q.1, false, true, s.cur⟩
  else if s.cur.elim false (fun c => decide (k ≤ c)) then s
  else andFind o (s.subs.modify (s.subs.length - 1) (o.advance k))

/-- boolean_executor.h L102-119 `CompareAsc`. -/
def asc (a b : σ) : Bool :=
  match o.curId a, o.curId b with
  | none, _ => false
  | some _, none => true
  | some x, some y => decide (x < y)

/-- boolean_executor.cpp L255-277 `shiftdown`; `f` is the number of rounds.  (`Sort.pick` is which of a node and its children comes first.) -/
def shiftDown : Nat → List σ → Nat → List σ
  | 0, h, _ => h
  | f + 1, h, i =>
    if h.length ≤ 2 * i + 1 then h
    else if Sort.pick (asc o) h i ≠ i then shiftDown f (Sort.swapAt h (Sort.pick (asc o) h i) i) (Sort.pick (asc o) h i)
    else h

/-- L249-253 `make_heap`: the nodes before `n` are left to do. -/
def makeHeap : Nat → List σ → List σ
  | 0, h => h
  | n + 1, h => makeHeap n (shiftDown o h.length h n)

/-- L221-231, L234-244: as long as the `i`-th has the id `k` it moves on; `f` is the number of rounds. -/
def dropEqual (k : K) (i : Nat) : Nat → List σ → List σ
  | 0, h => h
  | f + 1, h =>
    if (h[i]?).bind o.curId = some k then dropEqual k i f (shiftDown o h.length (h.modify i o.next) i) else h

/-- L199-247 `OrBooleanExecutor::find_next`. -/
def orFind (subs : List σ) : OpSt σ K :=
  match subs.head?.bind o.curId with
  | none => ⟨subs, false, true, none⟩
  | some k =>
    let h1 := if 1 < subs.length then dropEqual o k 1 subs.length subs else subs
    let h2 := if 2 < h1.length then dropEqual o k 2 h1.length h1 else h1
    ⟨h2, false, false, some k⟩

/-- L163-181 `OrBooleanExecutor::next`. -/
def orNext (s : OpSt σ K) : OpSt σ K :=
  if s.subs = [] ∨ s.null = true then { s with null := true }
  else if s.init then orFind o (makeHeap o (s.subs.length / 2) (s.subs.map o.next))
  else orFind o (shiftDown o s.subs.length (s.subs.modify 0 o.next) 0)

/-- L194-197: as long as the first is less than `k` it is advanced; `f` is the number of rounds. -/
def orLoop (k : K) : Nat → List σ → List σ
  | 0, h => h
  | f + 1, h =>
    if (h.head?.bind o.curId).elim false (fun c => decide (c < k)) then orLoop k f (shiftDown o h.length (h.modify 0 (o.advance k)) 0) else h

/-- L183-199 `OrBooleanExecutor::advance`. -/
def orAdvance (k : K) (s : OpSt σ K) : OpSt σ K :=
  if s.subs = [] ∨ s.null = true then { s with null := true }
  else if s.init then orFind o (orLoop o k s.subs.length s.subs)
  else if s.cur.elim true (fun c => decide (k ≤ c)) then s
  else orFind o (orLoop o k s.subs.length s.subs)

end

/-- A tree of executors. -/
inductive Exec (K : Type) where
  | term (t : Term K)
  | and (s : OpSt (Exec K) K)
  | or (s : OpSt (Exec K) K)

/-- `current_id`. -/
def Exec.curId : Exec K → Option K
  | .term t => t.cur.map Node.key
  | .and s => if s.null then none else s.cur
  | .or s => if s.null then none else s.cur

/-- The virtual functions of the executors of depth `n` or less. -/
def ops : Nat → Ops (Exec K) K
  | 0 => ⟨Exec.curId, id, fun _ => id, fun _ => 0⟩
  | n + 1 =>
    { curId := Exec.curId
      next := fun
        | .term t => .term t.next
        | .and s => .and (andNext (ops n) s)
        | .or s => .or (orNext (ops n) s)
      advance := fun k => fun
        | .term t => .term (t.advance k)
        | .and s => .and (andAdvance (ops n) k s)
        | .or s => .or (orAdvance (ops n) k s)
      size := fun
        | .term t => t.parser.new.length + t.parser.old.length
        | .and s => sizes (ops n) s.subs
        | .or s => sizes (ops n) s.subs }

/-- reverse_index.h L122-136, L463-476 `valid` again and again: the keys found; `f` is the number of calls. -/
def drain {σ : Type} (o : Ops σ K) : Nat → σ → List K
  | 0, _ => []
  | f + 1, s => (o.curId (o.next s)).elim [] fun k => k :: drain o f (o.next s)

/-! ### Queries -/

/-- logical_query.h `ExecutorNode`. -/
inductive Tree (T : Type) where
  | term (t : T)
  | and (l : List (Tree T))
  | or (l : List (Tree T))

/-- reverse_interface.hpp L326-352: an item of a search with more than one. -/
def itemTree : List T → Option (Tree T)
  | [] => none
  | [t] => some (.term t)
  | ts => some (.and (ts.map .term))

/-- L236-364 `create_executor`: the search for items, each cut into terms. -/
def matchTree (natural : Bool) (items : List (List T)) : Option (Tree T) :=
  match items with
  | [] => none
  | [[t]] => some (.term t)
  | [ts] => some (if natural then .or (ts.map .term) else .and (ts.map .term))
  | _ => some (.or (items.filterMap itemTree))

section
variable (leaf : T → Exec K)

/-! logical_query.hpp L18-115 `parse_executor_node`: an operator without operands is NULL, a NULL operand is left out. -/
mutual
def parse : Tree T → Option (Exec K)
  | .term t => some (leaf t)
  | .and l => if l.isEmpty then none else some (.and ⟨parseAll l, true, false, some ⊥⟩)
  | .or l => if l.isEmpty then none else some (.or ⟨parseAll l, true, false, some ⊥⟩)
def parseAll : List (Tree T) → List (Exec K)
  | [] => []
  | t :: ts =>
    match parse t with
    | some e => e :: parseAll ts
    | none => parseAll ts
end

end

/-- pb::FulltextIndex: conditions on reverse indexes. -/
inductive Query (T : Type) where
  | find (natural : Bool) (items : List (List T))
  | all (l : List (Query T))
  | any (l : List (Query T))

section
variable (leaf : T → Exec K)

/-! src/reverse/reverse_index.cpp L74-170 `init_operator_executor`, `init_term_executor`: an operand without executor is left out. -/
mutual
def Query.build : Query T → Option (Exec K)
  | .find natural items => (matchTree natural items).bind (parse leaf)
  | .all l => some (.and ⟨Query.buildAll l, true, false, some ⊥⟩)
  | .any l => some (.or ⟨Query.buildAll l, true, false, some ⊥⟩)
def Query.buildAll : List (Query T) → List (Exec K)
  | [] => []
  | q :: qs =>
    match q.build with
    | some e => e :: Query.buildAll qs
    | none => Query.buildAll qs
end

end

/-! How deep the executors of a query are. -/
mutual
def Query.depth : Query T → Nat
  | .find _ _ => 3
  | .all l => Query.depths l + 1
  | .any l => Query.depths l + 1
def Query.depths : List (Query T) → Nat
  | [] => 0
  | q :: qs => max q.depth (Query.depths qs)
end

/-! ### The index of a region -/

/-- The reverse index of a region: its range and what is stored for each term. -/
structure Index (T K : Type) where
  range : Range K
  levels : T → Levels K

/-- logical_query.hpp L66-70 `parse_term_node`. -/
def Index.leaf (x : Index T K) (t : T) : Exec K := .term ⟨(x.levels t).parser x.range, true, none⟩

/-- The keys that a search gives. -/
def Index.search (x : Index T K) (q : Query T) : List K :=
  (q.build x.leaf).elim [] fun e => drain (ops q.depth) ((ops q.depth).size e + 1) e

/-- reverse_index.hpp L99-143 `handle_reverse`: a node for each term of the text, at the time of each. -/
def Index.handle (x : Index T K) (del : Bool) (terms : List T) (k : K) (at_ : T → Nat) : Index T K :=
  { x with
    levels := fun t =>
      if t ∈ terms then { x.levels t with one := putEntry ⟨k, at_ t, del⟩ (x.levels t).one } else x.levels t }

/-- The merge of a term. -/
def Index.merge (x : Index T K) (len : Nat) (t : T) : Index T K :=
  { x with levels := fun u => if u = t then mergeLevels len x.range (x.levels u) else x.levels u }

/-- The nodes out of the range are removed. -/
def Index.clean (x : Index T K) : Index T K := { x with levels := fun t => Reverse.clean x.range (x.levels t) }

/-- The region splits: the index of either part is at first the old one with a smaller range. -/
def Index.narrow (x : Index T K) (r : Range K) : Index T K := { x with range := r }

/-- An index without anything. -/
def Index.empty (r : Range K) : Index T K := ⟨r, fun _ => ⟨[], [], []⟩⟩

end BaikalDB.Reverse
