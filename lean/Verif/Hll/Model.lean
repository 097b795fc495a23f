import Mathlib.Tactic.Common

/-!
HyperLogLog sketches (/repo/src/common/hll_common.cpp, /repo/include/common/hll_common.h): the values behind
`hll_init`, `hll_add`, `hll_merge`, `hll_estimate`, `hll_add_agg` and `hll_merge_agg`, in their three
encodings.

Not modelled: the floating point formula from the histogram of the registers to the estimate (a parameter),
the hash of a value (C28), objects that were not made by these functions (`is_hll_object` checks the magic
and the size of the dense encoding only), failures of allocation.
-/

namespace BaikalDB.Hll

/-- `HLL_P` and `hll_sparse_max_bytes` (/repo/include/common/hll_common.h L186, L200). -/
structure Cfg where
  p : Nat
  maxBytes : Nat
deriving DecidableEq, Repr

/-- The values of the code. -/
def Cfg.code : Cfg := ⟨14, 3000⟩

/-- `HLL_REGISTERS` (/repo/include/common/hll_common.h L203). -/
def Cfg.n (c : Cfg) : Nat := 2 ^ c.p

/-- `HLL_HDR_SIZE` (/repo/include/common/hll_common.h L188-194, L207). -/
def hdrSize : Nat := 16

/-! ### Position and length of the run of zeros -/

/-- The loop of `hll_pat_len` (/repo/src/common/hll_common.cpp L48-53); the fuel is the number of bits. -/
def patLoop (x : Nat) : Nat → Nat → Nat
  | 0, j => j + 1
  | fuel + 1, j => if x.testBit j then j + 1 else patLoop x fuel (j + 1)

/-- The register of a hash (/repo/src/common/hll_common.cpp L44). -/
def index (c : Cfg) (h : Nat) : Nat := h &&& (2 ^ c.p - 1)

/-- `hll_pat_len` (/repo/src/common/hll_common.cpp L41-56). -/
def patLen (c : Cfg) (h : Nat) : Nat := patLoop ((h >>> c.p) ||| (1 <<< (64 - c.p))) 64 0

/-! ### Dense encoding -/

/-- `HLL_DENSE_GET_REGISTER` (/repo/include/common/hll_common.h L218-226).  The byte behind the last one is
the terminator of the string. -/
def denseGet (b : List Nat) (i : Nat) : Nat :=
  ((b.getD (i * 6 / 8) 0 >>> (i * 6 % 8)) ||| (b.getD (i * 6 / 8 + 1) 0 <<< (8 - i * 6 % 8))) &&& 63

/-- `HLL_DENSE_SET_REGISTER` (/repo/include/common/hll_common.h L230-240); `% 256` is the store to a byte. -/
def densePut (b : List Nat) (i v : Nat) : List Nat :=
  let byte := i * 6 / 8
  let fb := i * 6 % 8
  let b1 := b.set byte (((b.getD byte 0 &&& (255 ^^^ (63 <<< fb))) ||| (v <<< fb)) % 256)
  b1.set (byte + 1) (((b1.getD (byte + 1) 0 &&& (255 ^^^ (63 >>> (8 - fb)))) ||| (v >>> (8 - fb))) % 256)

/-- `hll_dense_set` (/repo/src/common/hll_common.cpp L84-94). -/
def denseSet (b : List Nat) (i v : Nat) : List Nat × Bool :=
  if v > denseGet b i then (densePut b i v, true) else (b, false)

/-! ### Sparse encoding -/

/-- An opcode of the sparse encoding: ZERO, XZERO and VAL with value and length. -/
inductive Opc where
  | zero (len : Nat)
  | xzero (len : Nat)
  | val (v len : Nat)
deriving DecidableEq, Repr

/-- `HLL_SPARSE_ZERO_LEN`, `HLL_SPARSE_XZERO_LEN`, `HLL_SPARSE_VAL_LEN`: the registers of an opcode
(/repo/src/common/hll_common.cpp L217-224). -/
def Opc.span : Opc → Nat
  | .zero l => l
  | .xzero l => l
  | .val _ l => l

/-- Bytes of an opcode (`oplen`, /repo/src/common/hll_common.cpp L216-224). -/
def Opc.bytes : Opc → Nat
  | .xzero _ => 2
  | _ => 1

/-- The bytes of an opcode: `HLL_SPARSE_ZERO_SET`, `HLL_SPARSE_XZERO_SET`, `HLL_SPARSE_VAL_SET`
(/repo/include/common/hll_common.h L257-267). -/
def Opc.encode : Opc → List Nat
  | .zero l => [l - 1]
  | .xzero l => [((l - 1) >>> 8) ||| 0x40, (l - 1) &&& 0xff]
  | .val v l => [(((v - 1) <<< 2) ||| (l - 1)) ||| 0x80]

/-- The first opcode of a byte string and the rest: `HLL_SPARSE_IS_ZERO`, `HLL_SPARSE_IS_XZERO` and the
macros of lengths and values (/repo/include/common/hll_common.h L246-252,
/repo/src/common/hll_common.cpp L356-375). -/
def decodeOne : List Nat → Option (Opc × List Nat)
  | [] => none
  | x :: r =>
    if x &&& 0xc0 = 0 then some (.zero ((x &&& 0x3f) + 1), r)
    else if x &&& 0xc0 = 0x40 then
      match r with
      | [] => none
      | y :: r => some (.xzero ((((x &&& 0x3f) <<< 8) ||| y) + 1), r)
    else some (.val (((x >>> 2) &&& 0x1f) + 1) ((x &&& 0x3) + 1), r)

/-- The opcodes of a byte string. -/
def decodeAll : Nat → List Nat → List Opc
  | 0, _ => []
  | fuel + 1, bs =>
    match decodeOne bs with
    | none => []
    | some (o, r) => o :: decodeAll fuel r

/-- Length in bytes of the sparse registers. -/
def size (l : List Opc) : Nat := (l.map Opc.bytes).sum

/-- `hll_sparse_set_update`: adjacent VAL opcodes of one value become one, within the next five steps
(/repo/src/common/hll_common.cpp L168-198).  Simplified: on opcodes instead of bytes. -/
def mergeVals : Nat → List Opc → List Opc
  | 0, l => l
  | _ + 1, [] => []
  | n + 1, .val v1 l1 :: .val v2 l2 :: rest =>
    if v1 = v2 ∧ l1 + l2 ≤ 4 then mergeVals n (.val v1 (l1 + l2) :: rest)
    else .val v1 l1 :: mergeVals n (.val v2 l2 :: rest)
  | n + 1, o :: rest => o :: mergeVals n rest

/-- Where the search of an index ends: the opcodes in front, the one before in `prev`, the one that has the
index, the ones behind it, and the first register of it (/repo/src/common/hll_common.cpp L211-233). -/
structure Found where
  front : List Opc
  prev : Option Opc
  here : Opc
  rest : List Opc
  first : Nat
deriving DecidableEq, Repr

/-- The search of the opcode that has a register (/repo/src/common/hll_common.cpp L215-229); the opcodes in
front are kept in reverse. -/
def locate : List Opc → Option Opc → List Opc → Nat → Nat → Option Found
  | _, _, [], _, _ => none
  | front, prev, o :: rest, first, i =>
    if i < first + o.span then some ⟨front, prev, o, rest, first⟩
    else locate (match prev with | some q => q :: front | none => front) (some o) rest (first + o.span) i

/-- A run of zeros of a length (/repo/src/common/hll_common.cpp L269-278); none if it is empty. -/
def zeros (len : Nat) : List Opc :=
  if len = 0 then [] else if len > 64 then [.xzero len] else [.zero len]

/-- A run of a value (/repo/src/common/hll_common.cpp L293-297); none if it is empty. -/
def vals (v len : Nat) : List Opc := if len = 0 then [] else [.val v len]

/-- The opcodes in place of the one that has the register (/repo/src/common/hll_common.cpp L265-305). -/
def splitOpc (o : Opc) (first i count : Nat) : List Opc :=
  let last := first + o.span - 1
  match o with
  | .val v _ => vals v (i - first) ++ [.val count 1] ++ vals v (last - i)
  | _ => zeros (i - first) ++ [.val count 1] ++ zeros (last - i)

/-- A sketch: its encoding with the registers, and the cached estimate if it is valid (`card`,
/repo/include/common/hll_common.h L188-198).  Simplified: the sparse registers are opcodes. -/
inductive Body where
  | dense (b : List Nat)
  | sparse (l : List Opc)
  | raw (b : List Nat)
deriving DecidableEq, Repr

/-- A sketch with its cached estimate. -/
structure Sketch where
  body : Body
  cache : Option Nat
deriving DecidableEq, Repr

/-- A run of a value written into dense registers (/repo/src/common/hll_common.cpp L369-372). -/
def denseRun (b : List Nat) (i v : Nat) : Nat → List Nat
  | 0 => b
  | k + 1 => denseRun (densePut b i v) (i + 1) v k

/-- The loop of `hll_sparse_to_dense` over the opcodes (/repo/src/common/hll_common.cpp L356-375); the
result has the number of registers that were seen. -/
def toDenseLoop (n : Nat) : List Opc → List Nat → Nat → List Nat × Nat
  | [], b, i => (b, i)
  | .val v l :: rest, b, i =>
    if l + i > n then (b, i) else toDenseLoop n rest (denseRun b i v l) (i + l)
  | .zero l :: rest, b, i => toDenseLoop n rest b (i + l)
  | .xzero l :: rest, b, i => toDenseLoop n rest b (i + l)

/-- Raw registers written into dense ones (/repo/src/common/hll_common.cpp L333-350). -/
def rawIntoDense : List Nat → List Nat → Nat → List Nat
  | [], b, _ => b
  | v :: vs, b, i => rawIntoDense vs (if v = 0 then b else (denseSet b i v).1) (i + 1)

/-- Bytes of the dense registers (/repo/include/common/hll_common.h L208). -/
def denseLen (c : Cfg) : Nat := (c.n * 6 + 7) / 8

/-- `hll_sparse_to_dense` (/repo/src/common/hll_common.cpp L321-384). -/
def toDense (c : Cfg) (h : Sketch) : Option Sketch :=
  match h.body with
  | .dense _ => some h
  | .raw r => some { h with body := .dense (rawIntoDense (r.take c.n) (List.replicate (denseLen c) 0) 0) }
  | .sparse l =>
    match toDenseLoop c.n l (List.replicate (denseLen c) 0) 0 with
    | (b, i) => if i = c.n then some { h with body := .dense b } else none

/-- `hll_sparse_set_promote` (/repo/src/common/hll_common.cpp L154-166). -/
def promote (c : Cfg) (h : Sketch) (i count : Nat) : Option Sketch :=
  match toDense c h with
  | some ⟨.dense b, _⟩ =>
    match denseSet b i count with
    | (b', true) => some ⟨.dense b', none⟩
    | (_, false) => none
  | _ => none

/-- `hll_sparse_set` on a sketch in sparse encoding (/repo/src/common/hll_common.cpp L200-319). -/
def sparseSet (c : Cfg) (h : Sketch) (l : List Opc) (i count : Nat) : Option Sketch :=
  if count > 32 then promote c h i count
  else
    match locate [] none l 0 i with
    | none => none
    | some f =>
      let tail (new : List Opc) : Sketch :=
        match f.prev with
        | some q => ⟨.sparse (f.front.reverse ++ mergeVals 5 (q :: (new ++ f.rest))), none⟩
        | none => ⟨.sparse (mergeVals 5 (new ++ f.rest)), none⟩
      let general : Option Sketch :=
        let seq := splitOpc f.here f.first i count
        if size seq > f.here.bytes ∧ hdrSize + size l + (size seq - f.here.bytes) > c.maxBytes then
          promote c h i count
        else some (tail seq)
      match f.here with
      | .val v len =>
        if v ≥ count then some h
        else if len = 1 then some (tail [.val count 1])
        else general
      | .zero len => if len = 1 then some (tail [.val count 1]) else general
      | .xzero _ => general

/-! ### Operations -/

/-- `hll_sparse_init` (/repo/src/common/hll_common.cpp L807-826).  Simplified: the registers fit into one
XZERO opcode, as in the code.  The cached estimate is zero and valid. -/
def init (c : Cfg) : Sketch := ⟨.sparse [.xzero c.n], some 0⟩

/-- `hll_row_init` (/repo/src/common/hll_common.cpp L834-842). -/
def rawInit (c : Cfg) : Sketch := ⟨.raw (List.replicate c.n 0), some 0⟩

/-- `hll_add` (/repo/src/common/hll_common.cpp L416-456). -/
def add (c : Cfg) (h : Sketch) (hash : Nat) : Option Sketch :=
  let i := index c hash
  let count := patLen c hash
  match h.body with
  | .dense b =>
    match denseSet b i count with
    | (b', true) => some ⟨.dense b', none⟩
    | (_, false) => some h
  | .sparse l => sparseSet c h l i count
  | .raw r => if r.getD i 0 < count then some ⟨.raw (r.set i count), none⟩ else some h

/-- The larger value at a raw register (/repo/src/common/hll_common.cpp L656-660). -/
def rawMax (r : List Nat) (i v : Nat) : List Nat := if v > r.getD i 0 then r.set i v else r

/-- Registers of a sketch in their order, as the loops of `hll_merge` and `hll_merge_agg` see them, `none` if
the opcodes are too long or too short (/repo/src/common/hll_common.cpp L662-699, L727-757).  For sparse registers the
zeros are skipped by the code; here they are listed, which changes no maximum. -/
def sparseRegs (n : Nat) : List Opc → Nat → Option (List Nat)
  | [], i => if i = n then some [] else none
  | .val v l :: rest, i =>
    if l + i > n then none else (sparseRegs n rest (i + l)).map (List.replicate l v ++ ·)
  | .zero l :: rest, i => (sparseRegs n rest (i + l)).map (List.replicate l 0 ++ ·)
  | .xzero l :: rest, i => (sparseRegs n rest (i + l)).map (List.replicate l 0 ++ ·)

/-- The registers of the second sketch (/repo/src/common/hll_common.cpp L644-668, L705-757). -/
def readRegs (c : Cfg) (b : Body) : Option (List Nat) :=
  match b with
  | .dense d => some ((List.range c.n).map (denseGet d))
  | .raw r => some (r.take c.n)
  | .sparse l => sparseRegs c.n l 0

/-- A list of values into raw registers by maximum. -/
def rawMaxAll : List Nat → List Nat → Nat → List Nat
  | [], r, _ => r
  | v :: vs, r, i => rawMaxAll vs (rawMax r i v) (i + 1)

/-- A list of values into dense registers by maximum. -/
def denseMaxAll : List Nat → List Nat → Nat → List Nat
  | [], b, _ => b
  | v :: vs, b, i => denseMaxAll vs (denseSet b i v).1 (i + 1)

/-- Result of an operation: an error, memory written out of bounds, or a sketch. -/
inductive Out where
  | err
  | ub
  | ok (h : Sketch)
deriving DecidableEq, Repr

/-- The first sketch of `hll_merge_agg`, made dense if it is not raw
(/repo/src/common/hll_common.cpp L635-641). -/
def aggStart (c : Cfg) (h1 : Sketch) : Option Sketch :=
  match h1.body with
  | .raw _ => some h1
  | _ => toDense c h1

/-- `hll_merge_agg` (/repo/src/common/hll_common.cpp L630-703): raw registers are merged into the bytes of
dense ones if the first sketch is not raw and the second is (L656-661). -/
def mergeAgg (c : Cfg) (h1 h2 : Sketch) : Out :=
  match aggStart c h1 with
  | none => .err
  | some f =>
    match readRegs c h2.body with
    | none => .err
    | some vs =>
      match f.body, h2.body with
      | .dense _, .raw _ => .ub
      | .dense b, _ => .ok ⟨.dense (denseMaxAll vs b 0), none⟩
      | .raw r, _ => .ok ⟨.raw (rawMaxAll vs r 0), none⟩
      | .sparse _, _ => .err

/-- The sketch of `hll_merge` takes one register; a sketch in raw encoding takes none, and a failure is
ignored (/repo/src/common/hll_common.cpp L785-801). -/
def setOne (c : Cfg) (h : Sketch) (i v : Nat) : Sketch :=
  if v = 0 then h
  else
    match h.body with
    | .dense b => { h with body := .dense (denseSet b i v).1 }
    | .sparse l => (sparseSet c h l i v).getD h
    | .raw _ => h

/-- All registers in turn. -/
def setAll (c : Cfg) : List Nat → Sketch → Nat → Sketch
  | [], h, _ => h
  | v :: vs, h, i => setAll c vs (setOne c h i v) (i + 1)

/-- The encoding is dense. -/
def Body.isDense : Body → Bool
  | .dense _ => true
  | _ => false

/-- `hll_merge` of two sketches (/repo/src/common/hll_common.cpp L760-805). -/
def merge (c : Cfg) (h1 h2 : Sketch) : Out :=
  match readRegs c h1.body, readRegs c h2.body with
  | some v1, some v2 =>
    let max := rawMaxAll v2 (rawMaxAll v1 (List.replicate c.n 0) 0) 0
    let start : Option Sketch := if h1.body.isDense || h2.body.isDense then toDense c h1 else some h1
    match start with
    | none => .err
    | some h => .ok { setAll c max h 0 with cache := none }
  | _, _ => .err

/-- `hll_raw_to_sparse` (/repo/src/common/hll_common.cpp L386-414). -/
def rawToSparse (c : Cfg) (h : Sketch) : Sketch :=
  match h.body with
  | .raw r => setAll c (r.take c.n) (init c) 0
  | _ => h

/-! ### Estimate -/

/-- `reghisto[k] += n`. -/
def bump (g : List Nat) (k n : Nat) : List Nat := g.set k (g.getD k 0 + n)

/-- `hll_dense_reghisto` (/repo/src/common/hll_common.cpp L102-152).  Simplified: four registers in three
bytes at a time; the code has four such groups in its loop. -/
def denseHisto : List Nat → List Nat → List Nat
  | b0 :: b1 :: b2 :: rest, g =>
    let g := bump g (b0 &&& 63) 1
    let g := bump g (((b0 >>> 6) ||| (b1 <<< 2)) &&& 63) 1
    let g := bump g (((b1 >>> 4) ||| (b2 <<< 4)) &&& 63) 1
    let g := bump g ((b2 >>> 2) &&& 63) 1
    denseHisto rest g
  | _, g => g

/-- `hll_sparse_reghisto` (/repo/src/common/hll_common.cpp L475-501). -/
def sparseHisto : List Opc → List Nat → List Nat
  | [], g => g
  | .val v l :: rest, g => sparseHisto rest (bump g v l)
  | .zero l :: rest, g => sparseHisto rest (bump g 0 l)
  | .xzero l :: rest, g => sparseHisto rest (bump g 0 l)

/-- `hll_row_reghisto` (/repo/src/common/hll_common.cpp L503-521).  Simplified: without the short cut for
eight zero bytes. -/
def rawHisto : List Nat → List Nat → List Nat
  | [], g => g
  | v :: rest, g => rawHisto rest (bump g v 1)

/-- The histogram that `hll_estimate` computes (/repo/src/common/hll_common.cpp L567-579). -/
def histo (b : Body) : List Nat :=
  let g := List.replicate 64 0
  match b with
  | .dense d => denseHisto d g
  | .sparse l => sparseHisto l g
  | .raw r => rawHisto r g

/-- `hll_estimate`: the cached estimate, or the formula `est` of the histogram, which is then kept
(/repo/src/common/hll_common.cpp L551-600). -/
def estimate (est : List Nat → Nat) (h : Sketch) : Nat × Sketch :=
  match h.cache with
  | some x => (x, h)
  | none => (est (histo h.body), { h with cache := some (est (histo h.body)) })

/-! ### SQL functions -/

/-- One argument of `hll_init` and `hll_add`: the hash of it, or NULL, which is skipped; a failure is
ignored (/repo/src/expr/internal_functions.cpp L2302-2306, L2315-2319; /repo/src/expr/agg_fn_call.cpp
L584-593). -/
def addArg (c : Cfg) (h : Sketch) : Option Nat → Sketch
  | none => h
  | some x => (add c h x).getD h

/-- `HLL_INIT(a, ...)` (/repo/src/expr/internal_functions.cpp L2310-2321). -/
def fnInit (c : Cfg) (args : List (Option Nat)) : Option Sketch :=
  if args.isEmpty then none else some (args.foldl (addArg c) (init c))

/-- `HLL_ADD(sketch, a, ...)`, with a NULL sketch as an empty one
(/repo/src/expr/internal_functions.cpp L2293-2308). -/
def fnAdd (c : Cfg) (first : Option Sketch) (args : List (Option Nat)) : Sketch :=
  args.foldl (addArg c) (first.getD (init c))

/-- One more argument of `hll_merge`; what is no sketch is skipped, and a failure is ignored
(/repo/src/expr/internal_functions.cpp L2330-2334). -/
def mergeArg (c : Cfg) (h : Sketch) : Option Sketch → Sketch
  | none => h
  | some g =>
    match merge c h g with
    | .ok r => r
    | _ => h

/-- `HLL_MERGE(sketch, ...)` (/repo/src/expr/internal_functions.cpp L2323-2336). -/
def fnMerge (c : Cfg) (first : Option Sketch) (args : List (Option Sketch)) : Sketch :=
  args.foldl (mergeArg c) (first.getD (init c))

/-- `HLL_ESTIMATE(sketch)`, zero for NULL (/repo/src/expr/internal_functions.cpp L2338-2349). -/
def fnEstimate (est : List Nat → Nat) : Option Sketch → Nat
  | none => 0
  | some h => (estimate est h).1

/-- `HLL_ADD_AGG` over the rows of a group (/repo/src/expr/agg_fn_call.cpp L420-436, L584-593). -/
def aggAdd (c : Cfg) (rows : List (Option Nat)) : Sketch := rows.foldl (addArg c) (rawInit c)

/-- One more partial result, or one more row of `HLL_MERGE_AGG` (/repo/src/expr/agg_fn_call.cpp L594-603,
L843-851). -/
def aggArg (c : Cfg) (h : Sketch) : Option Sketch → Sketch
  | none => h
  | some g =>
    match mergeAgg c h g with
    | .ok r => r
    | _ => h

/-- `HLL_MERGE_AGG` over the rows of a group, and the merge of partial results of a group
(/repo/src/expr/agg_fn_call.cpp L420-436, L594-603, L843-851). -/
def aggMerge (c : Cfg) (rows : List (Option Sketch)) : Sketch := rows.foldl (aggArg c) (rawInit c)

end BaikalDB.Hll
