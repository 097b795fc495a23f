import Verif.Expr.Value
/-!
# ORDER BY and LIMIT on the row engine

Model of src/mem_row/mem_row_compare.cpp, src/runtime/sorter.cpp, src/runtime/topn_sorter.cpp,
src/exec/sort_node.cpp and src/exec/limit_node.cpp.  `ρ` is the type of rows; an order-by expression is any function from
rows to values.  A batch with a cursor is the list of its rows from the cursor on; only batches of `MemRow`s are modelled (not
the Arrow ones).  Row counts are unbounded (the code narrows them to `int`).  Cancellation and errors of the child are not modelled.
-/
namespace BaikalDB.Sort
open Expr

/-- One order-by expression with its direction and NULL placement (`_slot_order_exprs`, `_is_asc`, `_is_null_first`). -/
structure Key (ρ : Type) where
  val : ρ → EV
  asc : Bool
  nullFirst : Bool

/-- src/mem_row/mem_row_compare.cpp L18-38. -/
def rowCompare {ρ : Type} : List (Key ρ) → ρ → ρ → Int
  | [], _, _ => 0
  | k :: ks, a, b =>
    if (k.val a).isNull ∧ (k.val b).isNull then rowCompare ks a b
    else if (k.val a).isNull then (if k.nullFirst then -1 else 1)
    else if (k.val b).isNull then (if k.nullFirst then 1 else -1)
    else
      if compare (k.val a) (k.val b) ≠ 0 then
        (if k.asc then compare (k.val a) (k.val b) else - compare (k.val a) (k.val b))
      else rowCompare ks a b

/-- include/mem_row/mem_row_compare.h L36-38: `less`. -/
def rowLess {ρ : Type} (ks : List (Key ρ)) (a b : ρ) : Bool := decide (rowCompare ks a b < 0)

/-! ### Heaps -/

/-- `less(h[a], h[b])`; never evaluated with an index outside of `h` (the guards of the code come first). -/
def betterAt {α : Type} (better : α → α → Bool) (h : List α) (a b : Nat) : Bool :=
  match h[a]?, h[b]? with
  | some x, some y => better x y
  | _, _ => false

/-- `std::iter_swap(h.begin() + a, h.begin() + b)`. -/
def swapAt {α : Type} (h : List α) (a b : Nat) : List α :=
  match h[a]?, h[b]? with
  | some x, some y => (h.set a y).set b x
  | _, _ => h

/-- The child (or the node itself) that belongs on top: sorter.cpp L94-109, topn_sorter.cpp L64-80. -/
def pick {α : Type} (better : α → α → Bool) (h : List α) (i : Nat) : Nat :=
  let m := if betterAt better h (2 * i + 1) i then 2 * i + 1 else i
  if 2 * i + 2 < h.length ∧ betterAt better h (2 * i + 2) m = true then 2 * i + 2 else m

theorem pick_cases {α : Type} (better : α → α → Bool) (h : List α) (i : Nat) :
    pick better h i = i ∨ pick better h i = 2 * i + 1 ∨ pick better h i = 2 * i + 2 := by
  unfold pick; simp only []
  by_cases h1 : betterAt better h (2 * i + 1) i = true <;> simp only [h1, if_true, Bool.false_eq_true, if_false] <;> split <;> simp

theorem length_swapAt {α : Type} (h : List α) (a b : Nat) : (swapAt h a b).length = h.length := by
  unfold swapAt; split <;> simp

/-- sorter.cpp L93-114 `Sorter::shiftdown` (with `better` = `less`) and topn_sorter.cpp L56-77 `TopNSorter::shiftdown` (with
`better x y` = `less(y, x)`: a heap with the largest element on top). -/
def shiftdown {α : Type} (better : α → α → Bool) (h : List α) (i : Nat) : List α :=
  if _hl : 2 * i + 1 ≥ h.length then h
  else if _hm : pick better h i ≠ i then shiftdown better (swapAt h (pick better h i) i) (pick better h i)
  else h
termination_by h.length - i
decreasing_by
  rw [length_swapAt]
  rcases pick_cases better h i with h1 | h1 | h1
  · exact absurd h1 _hm
  · omega
  · omega

/-- topn_sorter.cpp L79-89 `TopNSorter::shiftup`. -/
def shiftup {α : Type} (better : α → α → Bool) (h : List α) (i : Nat) : List α :=
  if i = 0 then h
  else if betterAt better h i ((i - 1) / 2) then shiftup better (swapAt h i ((i - 1) / 2)) ((i - 1) / 2)
  else h
termination_by i
decreasing_by omega

/-- sorter.cpp L73-77 `make_heap`: `shiftdown` from `size / 2 - 1` down to 0; `n` is the number of nodes left to do. -/
def makeHeapLoop {α : Type} (better : α → α → Bool) : Nat → List α → List α
  | 0, h => h
  | n + 1, h => makeHeapLoop better n (shiftdown better h n)
def makeHeap {α : Type} (better : α → α → Bool) (h : List α) : List α := makeHeapLoop better (h.length / 2) h

/-! ### Sorter -/

/-- `less(a->get_row(), b->get_row())` on two batches; the heap holds no exhausted batch. -/
def headLess {ρ : Type} (ks : List (Key ρ)) : List ρ → List ρ → Bool
  | x :: _, y :: _ => rowLess ks x y
  | _, _ => false

/-- sorter.cpp L65-72 `merge_sort` (`ks = []` is need_not_compare). -/
def mergeSort {ρ : Type} (ks : List (Key ρ)) (heap : List (List ρ)) : List (List ρ) :=
  if ks.isEmpty then heap
  else if heap.length > 1 then makeHeap (headLess ks) heap else heap

/-- sorter.cpp L54-64, L79-91 `sort`; `srt` stands for `std::sort` with `rowLess ks`. -/
def sortBatches {ρ : Type} (ks : List (Key ρ)) (srt : List ρ → List ρ) (heap : List (List ρ)) : List (List ρ) :=
  if ks.isEmpty then heap
  else if heap.length = 1 then heap.map srt
  else if heap.length > 1 then makeHeap (headLess ks) (heap.map srt)
  else heap

/-- sorter.cpp L39-50: take the first row off the top batch; `none` when the heap is empty or its top batch is (the latter
would read past the end). -/
def popRow {ρ : Type} (ks : List (Key ρ)) : List (List ρ) → Option (ρ × List (List ρ))
  | [] => none
  | [] :: _ => none
  | (x :: xs) :: rest =>
    if xs = [] then
      match rest.getLast? with
      | none => some (x, [])
      | some l => some (x, shiftdown (headLess ks) (l :: rest.dropLast) 0)
    else some (x, shiftdown (headLess ks) (xs :: rest) 0)

/-- sorter.cpp L31-51: fill the batch, `room` rows are still free; the result says whether the end was seen. -/
def fillMerge {ρ : Type} (ks : List (Key ρ)) : Nat → List (List ρ) → Option (List ρ × Bool × List (List ρ))
  | 0, heap => some ([], false, heap)
  | room + 1, heap =>
    if heap = [] then some ([], true, heap)
    else match popRow ks heap with
      | none => none
      | some (x, heap') => (fillMerge ks room heap').map fun r => (x :: r.1, r.2)

/-! ### TopNSorter -/

/-- topn_sorter.h L29-32. -/
structure Item (ρ : Type) where
  row : ρ
  idx : Nat

/-- topn_sorter.h L45-57 `get_less_func`. -/
def itemLess {ρ : Type} (ks : List (Key ρ)) (a b : Item ρ) : Bool :=
  decide (rowCompare ks a.row b.row < 0) || (decide (rowCompare ks a.row b.row = 0) && decide (a.idx < b.idx))

/-- `_mem_row_heap` and `_current_idx` (`_current_count` is the size of the heap). -/
structure TopN (ρ : Type) where
  heap : List (Item ρ)
  cur : Nat

/-- topn_sorter.cpp L19-33: one row; `none` is the read of `_mem_row_heap[0]` when the limit is 0. -/
def topnAdd {ρ : Type} (ks : List (Key ρ)) (limit : Nat) (s : TopN ρ) (r : ρ) : Option (TopN ρ) :=
  if s.heap.length < limit then
    if ks.isEmpty then some ⟨s.heap ++ [⟨r, s.cur + 1⟩], s.cur + 1⟩
    else some ⟨shiftup (fun x y => itemLess ks y x) (s.heap ++ [⟨r, s.cur + 1⟩]) s.heap.length, s.cur + 1⟩
  else if ks.isEmpty then some ⟨s.heap, s.cur + 1⟩
  else match s.heap with
    | [] => none
    | top :: rest =>
      if rowLess ks r top.row then
        some ⟨shiftdown (fun x y => itemLess ks y x) (⟨r, s.cur + 1⟩ :: rest) 0, s.cur + 1⟩
      else some ⟨s.heap, s.cur + 1⟩

/-- topn_sorter.cpp L18-38 `add_batch`. -/
def topnAddBatch {ρ : Type} (ks : List (Key ρ)) (limit : Nat) (s : TopN ρ) : List ρ → Option (TopN ρ)
  | [] => some s
  | r :: rs => match topnAdd ks limit s r with
    | none => none
    | some s' => topnAddBatch ks limit s' rs

/-- topn_sorter.cpp L40-46 `sort`; `srt` stands for `std::sort` with `itemLess ks`. -/
def topnSort {ρ : Type} (ks : List (Key ρ)) (srt : List (Item ρ) → List (Item ρ)) (s : TopN ρ) : TopN ρ :=
  if ks.isEmpty then ⟨s.heap, 0⟩ else ⟨srt s.heap, 0⟩

/-- topn_sorter.cpp L48-61 `get_next`: fill the batch, `room` rows are still free. -/
def fillTopN {ρ : Type} : Nat → TopN ρ → List ρ × Bool × TopN ρ
  | 0, s => ([], false, s)
  | room + 1, s =>
    match s.heap[s.cur]? with
    | none => ([], true, s)
    | some it => (it.row :: (fillTopN room ⟨s.heap, s.cur + 1⟩).1, (fillTopN room ⟨s.heap, s.cur + 1⟩).2)

/-! ### SortNode -/

/-- The two sorters, after `sort`. -/
inductive Sorter (ρ : Type) where
  | merge (heap : List (List ρ)) (idx : Nat)
  | topn (s : TopN ρ)

/-- sorter.cpp L18-53 and topn_sorter.cpp L48-61: `get_next` into an empty batch of capacity `cap`; `none` is undefined
behaviour. -/
def Sorter.getNext {ρ : Type} (ks : List (Key ρ)) (cap : Nat) : Sorter ρ → Option (List ρ × Bool × Sorter ρ)
  | .merge heap idx =>
    if heap.length = 0 then some ([], true, .merge heap idx)
    else if ks.isEmpty then
      match heap[idx]? with
      | none => none
      | some b => some (b, decide (idx = heap.length - 1), .merge heap (idx + 1))
    else (fillMerge ks cap heap).map fun r => (r.1, r.2.1, .merge r.2.2 idx)
  | .topn s => some ((fillTopN cap s).1, (fillTopN cap s).2.1, .topn (fillTopN cap s).2.2)

/-- sort_node.cpp L316-340: the batches the child delivers, the last of them with `eos`; reading stops at an empty batch. -/
def readChild {ρ : Type} : List (List ρ) → List (List ρ)
  | [] => []
  | b :: bs => if b.length = 0 then [] else b :: readChild bs

/-- sort_node.cpp L307-345 `open` without an index order: `limit` is `none` for -1. -/
def SortNode.open {ρ : Type} (ks : List (Key ρ)) (srt : List ρ → List ρ) (srtI : List (Item ρ) → List (Item ρ))
    (limit : Option Nat) (child : List (List ρ)) : Option (Sorter ρ) :=
  match limit with
  | none => some (.merge (sortBatches ks srt (readChild child)) 0)
  | some l => (topnAddBatch ks l ⟨[], 0⟩ (readChild child).flatten).map fun s => .topn (topnSort ks srtI s)

/-- exec_node.h L311-313. -/
def reachedLimit (limit : Option Nat) (returned : Nat) : Bool :=
  match limit with
  | none => false
  | some l => decide (returned ≥ l)

/-- sort_node.cpp L348-385 `get_next`; `st` is the sorter and `_num_rows_returned`. -/
def SortNode.getNext {ρ : Type} (ks : List (Key ρ)) (limit : Option Nat) (cap : Nat) (st : Sorter ρ × Nat) :
    Option (List ρ × Bool × (Sorter ρ × Nat)) :=
  if reachedLimit limit st.2 then some ([], true, st)
  else match st.1.getNext ks cap with
    | none => none
    | some (rows, eos, s) =>
      if reachedLimit limit (st.2 + rows.length) then
        some (rows.take (rows.length - (st.2 + rows.length - limit.getD 0)), true, (s, limit.getD 0))
      else some (rows, eos, (s, st.2 + rows.length))

/-- The parent calls `get_next` until `eos` and keeps all rows; `none` when the calls run out or on undefined behaviour. -/
def SortNode.drain {ρ : Type} (ks : List (Key ρ)) (limit : Option Nat) (cap : Nat) : Nat → Sorter ρ × Nat → Option (List ρ)
  | 0, _ => none
  | calls + 1, st =>
    match SortNode.getNext ks limit cap st with
    | none => none
    | some (rows, true, _) => some rows
    | some (rows, false, st') => (SortNode.drain ks limit cap calls st').map fun r => rows ++ r

/-- The whole life of a sort node: open, then at most `calls` calls of `get_next`. -/
def SortNode.run {ρ : Type} (ks : List (Key ρ)) (srt : List ρ → List ρ) (srtI : List (Item ρ) → List (Item ρ))
    (limit : Option Nat) (cap : Nat) (calls : Nat) (child : List (List ρ)) : Option (List ρ) :=
  match SortNode.open ks srt srtI limit child with
  | none => none
  | some s => SortNode.drain ks limit cap calls (s, 0)

/-- select_manager_node.cpp L527-549: the sorter of the node that collects the regions' results, one batch per region in key
order, empty ones left out; each batch comes sorted from its region. -/
def gather {ρ : Type} (ks : List (Key ρ)) (regions : List (List ρ)) : Sorter ρ :=
  .merge (mergeSort ks (regions.filter fun b => b.length != 0)) 0

/-- select_manager_node.cpp L304-344 `get_next`: like the sort node's, but the batch that reaches the limit is handed on whole.
`must_have_one` (a scalar subquery's row of NULLs) and `_return_empty` are not modelled. -/
def Gather.getNext {ρ : Type} (ks : List (Key ρ)) (limit : Option Nat) (cap : Nat) (st : Sorter ρ × Nat) :
    Option (List ρ × Bool × (Sorter ρ × Nat)) :=
  if reachedLimit limit st.2 then some ([], true, st)
  else match st.1.getNext ks cap with
    | none => none
    | some (rows, eos, s) =>
      if reachedLimit limit (st.2 + rows.length) then some (rows, true, (s, limit.getD 0))
      else some (rows, eos, (s, st.2 + rows.length))

/-- The batches the node delivers, up to the one that comes with `eos`. -/
def Gather.batches {ρ : Type} (ks : List (Key ρ)) (limit : Option Nat) (cap : Nat) : Nat → Sorter ρ × Nat → Option (List (List ρ))
  | 0, _ => none
  | calls + 1, st =>
    match Gather.getNext ks limit cap st with
    | none => none
    | some (rows, true, _) => some [rows]
    | some (rows, false, st') => (Gather.batches ks limit cap calls st').map fun r => rows :: r

/-! ### LimitNode -/

/-- The child of a limit node: the batches it will deliver, `eos` comes with the last one. -/
def childNext {ρ : Type} : List (List ρ) → List ρ × Bool × List (List ρ)
  | [] => ([], true, [])
  | [b] => (b, true, [])
  | b :: bs => (b, false, bs)

/-- `_num_rows_skipped`, `_num_rows_returned`. -/
structure LimitSt where
  skipped : Nat
  returned : Nat
deriving DecidableEq, Repr

/-- limit_node.cpp L150-168: the loop that skips `offset` rows, with the batch just read and the batches still to come.  The
first component is false when the function returns at L155.  (A child that has nothing left delivers an empty batch with
`eos`.) -/
def skipLoop {ρ : Type} (offset skipped : Nat) (b : List ρ) (eos : Bool) (rest : List (List ρ)) :
    Bool × List ρ × Bool × List (List ρ) × Nat :=
  if skipped < offset then
    if skipped + b.length ≤ offset then
      if eos then (false, [], true, rest, skipped + b.length)
      else match rest with
        | [] => (decide (offset ≤ skipped + b.length), [], true, [], skipped + b.length)
        | c :: cs => skipLoop offset (skipped + b.length) c cs.isEmpty cs
    else (true, b.drop (offset - skipped), eos, rest, offset)
  else (true, b, eos, rest, skipped)

/-- limit_node.cpp L134-179 `get_next`. -/
def LimitNode.getNext {ρ : Type} (offset : Nat) (limit : Option Nat) (st : LimitSt) (child : List (List ρ)) :
    List ρ × Bool × LimitSt × List (List ρ) :=
  if reachedLimit limit st.returned then ([], true, st, child)
  else
    match skipLoop offset st.skipped (childNext child).1 (childNext child).2.1 (childNext child).2.2 with
    | (false, b, eos, rest, sk) => (b, eos, ⟨sk, st.returned⟩, rest)
    | (true, b, eos, rest, sk) =>
      if reachedLimit limit (st.returned + b.length) then
        (b.take (b.length - (st.returned + b.length - limit.getD 0)), true, ⟨sk, limit.getD 0⟩, rest)
      else (b, eos, ⟨sk, st.returned + b.length⟩, rest)

/-- The parent calls `get_next` until `eos`. -/
def LimitNode.drain {ρ : Type} (offset : Nat) (limit : Option Nat) : Nat → LimitSt → List (List ρ) → Option (List ρ)
  | 0, _, _ => none
  | calls + 1, st, child =>
    match LimitNode.getNext offset limit st child with
    | (rows, true, _, _) => some rows
    | (rows, false, st', child') => (LimitNode.drain offset limit calls st' child').map fun r => rows ++ r

end BaikalDB.Sort
