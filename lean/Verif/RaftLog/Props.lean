import Verif.RaftLog.Storage
import Verif.KeyEnc.Props
/-
C18-C20: the raft log storage against a plain list of entries.
-/
namespace BaikalDB.RaftLog
open BaikalDB.KeyEnc

namespace Spec

/-- The log as raft sees it: the index of the first entry, the entries, and the term of the entry before the first one as
far as the storage may still remember it. -/
structure Log where
  first : Int
  ents : List Entry
  before : Nat

def Log.last (a : Log) : Int := a.first + a.ents.length - 1
def Log.lastTerm (a : Log) : Nat := ((a.ents.map (·.term)).getLast?).getD a.before
def Log.get (a : Log) (i : Int) : Option Entry := if a.first ≤ i then a.ents[(i - a.first).toNat]? else none

inductive Op where
  | append (es : List Entry)
  | truncatePrefix (kept : Int)
  | truncateSuffix (kept : Int)
  | reset (next : Int)

/-- Entries raft writes: one of the three types, 63-bit terms, and no payload in a no-op. -/
def OkEntry (e : Entry) : Prop :=
  e.term < 2 ^ 63 ∧ (e.type = 1 ∨ e.type = 2 ∨ e.type = 3) ∧ (e.type = 1 → e.data = [])

/-- Terms never decrease along a raft log; suffixes are truncated down to the start of the log at most; reset is called
with an index inside or above the log. -/
def Log.allows (a : Log) : Op → Prop
  | .append es => (∀ e ∈ es, OkEntry e) ∧ (a.lastTerm :: es.map (·.term)).Pairwise (· ≤ ·)
  | .truncatePrefix _ => True
  | .truncateSuffix k => a.first - 1 ≤ k
  | .reset n => a.first < n

def Log.dropTo (a : Log) (k : Int) : Log :=
  if k ≤ a.first then a
  else ⟨k, a.ents.drop (k - a.first).toNat, (⟨a.first, a.ents.take (k - a.first).toNat, a.before⟩ : Log).lastTerm⟩

def Log.keepTo (a : Log) (k : Int) : Log := { a with ents := a.ents.take (k - a.first + 1).toNat }

def Log.step (a : Log) : Op → Log
  | .append es => { a with ents := a.ents ++ es }
  | .truncatePrefix k => a.dropTo k
  | .truncateSuffix k => a.keepTo k
  | .reset n => ⟨n, [], 0⟩

/-- The log after a crash that let `j` database writes of the operation happen. -/
def Log.crashed (a : Log) (o : Op) (j : Nat) : Log :=
  let b := if j = 0 then a else match o with
    | .reset n => if j ≤ 2 then a.dropTo n else a.step (.reset n)
    | o => a.step o
  { b with before := 0 }

end Spec
open Spec

/-! ### Keys -/

theorem dataKey_eq (r i : BitVec 64) : dataKey r i = appendI64 (appendI64 [] r ++ [0x02#8]) i := rfl

theorem metaKey_eq (r : BitVec 64) : metaKey r = appendI64 [] r ++ [0x01#8] := rfl

theorem appendI64_nil_length (r : BitVec 64) : (appendI64 [] r).length = 8 := by rw [appendI64_eq]; simp

/-- C18: within a region data keys are ordered like their indexes; regions, and data and meta keys, do not mix. -/
theorem C18_key_order (r i j : BitVec 64) : bcmp (dataKey r i) (dataKey r j) = compare i.toInt j.toInt := by
  have := C01_order_i64 (appendI64 [] r ++ [0x02#8]) [] [] i j
  simpa [dataKey_eq] using this

theorem C18_key_decodes (r i : BitVec 64) : decodeDataKey (dataKey r i) = some (r, i) ∧ (dataKey r i).length = 17 := by
  have hl : (dataKey r i).length = 17 := by rw [dataKey_eq, appendI64_eq]; simp [appendI64_nil_length]
  have h1 : extractI64 (dataKey r i) 0 = some r := by
    have := extractI64_append [] r ([0x02#8] ++ memLE 8 (toEndian64 (encodeI64 i)))
    simpa [dataKey, appendI64] using this
  have h2 : extractI64 (dataKey r i) 9 = some i := by
    have := extractI64_append (appendI64 [] r ++ [0x02#8]) i []
    simpa [appendI64_nil_length, dataKey_eq] using this
  exact ⟨by simp [decodeDataKey, hl, h1, h2], hl⟩

/-- The iterator of init is restricted to the 9-byte prefix of its start key: it sees the data keys of this region only. -/
theorem C18_key_prefix (r r' i i' : BitVec 64) :
    ((dataKey r' i').take 9 = (dataKey r i).take 9 ↔ r' = r) ∧ (metaKey r').take 9 ≠ (dataKey r i).take 9 ∧
    (metaKey r).length = 9 := by
  have e : ∀ r i : BitVec 64, (dataKey r i).take 9 = appendI64 [] r ++ [0x02#8] := by
    intro r i
    rw [dataKey_eq, appendI64, List.take_append_of_le_length (by simp [appendI64_nil_length])]
    exact List.take_of_length_le (by simp [appendI64_nil_length])
  have em : (metaKey r').take 9 = appendI64 [] r' ++ [0x01#8] :=
    List.take_of_length_le (by simp [metaKey_eq, appendI64_nil_length])
  refine ⟨?_, ?_, by simp [metaKey_eq, appendI64_nil_length]⟩
  · rw [e, e]
    constructor
    · intro h
      have h' := List.append_inj_left h (by simp [appendI64_nil_length])
      have := extractI64_append [] r' []
      rw [List.append_nil, h'] at this
      have h2 := extractI64_append [] r []
      rw [List.append_nil, this] at h2
      simpa using h2
    · rintro rfl; rfl
  · rw [e, em]
    intro h
    have := List.append_inj_right h (by simp [appendI64_nil_length])
    simp at this

/-! ### Values -/

theorem ok_value {e : Entry} (h : OkEntry e) : ∃ v, buildValue e = some v ∧ 12 ≤ v.length ∧ logHead v = (e.term, e.type) ∧
    v.drop 12 = e.data := by
  obtain ⟨h1, h2, h3⟩ := h
  have key : ∀ d : Bytes, let v := beNat 8 e.term ++ beNat 4 e.type ++ d
      12 ≤ v.length ∧ logHead v = (e.term, e.type) ∧ v.drop 12 = d := by
    intro d
    refine ⟨by simp; omega, ?_, ?_⟩
    · simp only [logHead]
      rw [List.append_assoc, List.take_append_of_le_length (by simp), List.take_of_length_le (by simp),
        List.drop_append_of_le_length (by simp), List.drop_of_length_le (by simp), List.nil_append,
        List.take_append_of_le_length (by simp), List.take_of_length_le (by simp), ofBE_beNat, ofBE_beNat,
        Nat.mod_eq_of_lt (by omega), Nat.mod_eq_of_lt (by omega)]
    · rw [List.drop_append_of_le_length (by simp), List.drop_of_length_le (by simp), List.nil_append]
  rcases h2 with ht | ht | ht
  · refine ⟨beNat 8 e.term ++ beNat 4 e.type, by simp [buildValue, ht, tData, tConf, tNoOp], ?_⟩
    have := key []
    rw [h3 ht]
    simpa using this
  · exact ⟨beNat 8 e.term ++ beNat 4 e.type ++ e.data, by simp [buildValue, ht, tData], key e.data⟩
  · exact ⟨beNat 8 e.term ++ beNat 4 e.type ++ e.data, by simp [buildValue, ht, tData, tConf], key e.data⟩

def value (e : Entry) : Bytes := (buildValue e).getD []

/-- The (index, value) pairs of entries starting at index i. -/
def rows (i : Int) : List Entry → Data
  | [] => []
  | e :: r => (i, value e) :: rows (i + 1) r

def number (i : Int) : List Entry → List (Int × Entry)
  | [] => []
  | e :: r => (i, e) :: number (i + 1) r

theorem rows_append (i : Int) (a b : List Entry) : rows i (a ++ b) = rows i a ++ rows (i + a.length) b := by
  induction a generalizing i with
  | nil => simp [rows]
  | cons e a ih =>
    have : i + 1 + (a.length : Int) = i + ((a.length : Int) + 1) := by omega
    simp [rows, ih, this]

theorem mem_rows {i : Int} {es : List Entry} {x : Int × Bytes} (h : x ∈ rows i es) : i ≤ x.1 ∧ x.1 < i + es.length := by
  induction es generalizing i with
  | nil => cases h
  | cons e r ih =>
    simp only [rows, List.mem_cons] at h
    rcases h with rfl | h
    · simp; omega
    · have := ih h; simp; omega

theorem find_rows {i : Int} {es : List Entry} {j : Int} (hj : i ≤ j) :
    (rows i es).find? (fun x => x.1 = j) = (es[(j - i).toNat]?).map (fun e => (j, value e)) := by
  induction es generalizing i with
  | nil => simp [rows]
  | cons e r ih =>
    by_cases h : i = j
    · subst h; simp [rows]
    · have h1 : (j - i).toNat = (j - (i + 1)).toNat + 1 := by omega
      rw [rows, List.find?_cons_of_neg (by simpa using h), ih (by omega), h1]
      simp

theorem filter_rows_drop (i k : Int) (hk : i ≤ k) (es : List Entry) :
    (rows i es).filter (fun x => k ≤ x.1) = rows k (es.drop (k - i).toNat) := by
  induction es generalizing i with
  | nil => simp [rows]
  | cons e r ih =>
    by_cases h : i = k
    · subst h
      simp only [Int.sub_self, Int.toNat_zero, List.drop_zero]
      rw [List.filter_eq_self]
      intro x hx
      simpa using (mem_rows hx).1
    · have h1 : (k - i).toNat = (k - (i + 1)).toNat + 1 := by omega
      rw [rows, List.filter_cons_of_neg (by simp; omega), ih (i + 1) (by omega), h1, List.drop_succ_cons]

theorem filter_rows_take (i k : Int) (hk : i - 1 ≤ k) (es : List Entry) :
    (rows i es).filter (fun x => ¬ k < x.1) = rows i (es.take (k - i + 1).toNat) := by
  induction es generalizing i with
  | nil => simp [rows]
  | cons e r ih =>
    by_cases h : k = i - 1
    · subst h
      have : (i - 1 - i + 1).toNat = 0 := by omega
      rw [this, List.take_zero, rows, List.filter_eq_nil_iff]
      intro x hx
      have := (mem_rows (es := e :: r) hx).1
      simp; omega
    · have h1 : (k - i + 1).toNat = (k - (i + 1) + 1).toNat + 1 := by omega
      rw [rows, List.filter_cons_of_pos (by simp; omega), ih (i + 1) (by omega), h1, List.take_succ_cons, rows]

/-! ### The invariant -/

structure RepDB (d : DB) (a : Log) : Prop where
  first : d.first = some a.first
  tail : d.data.filter (fun x => a.first ≤ x.1) = rows a.first a.ents

structure GoodLog (a : Log) : Prop where
  pos : 1 ≤ a.first
  ok : ∀ e ∈ a.ents, OkEntry e
  mono : (a.before :: a.ents.map (·.term)).Pairwise (· ≤ ·)

structure RepMem (m : Mem) (a : Log) : Prop where
  first : m.first = a.first
  last : m.last = a.last
  q : Rep m.q a.first (a.ents.map (·.term)) a.before

structure Inv (d : DB) (m : Mem) (a : Log) : Prop where
  db : RepDB d a
  good : GoodLog a
  mem : RepMem m a

theorem le_lastTerm {a : Log} (h : GoodLog a) : a.before ≤ a.lastTerm := by
  unfold Log.lastTerm
  cases ht : (a.ents.map (·.term)).getLast? with
  | none => exact Nat.le_refl _
  | some t => exact (List.pairwise_cons.1 h.mono).1 t (List.mem_of_getLast? ht)

/-! ### Effects of the operations on the database -/

theorem foldl_puts {f : Int} (es : List Entry) : ∀ (d : Data) (i : Int), f ≤ i → (∀ x ∈ d, f ≤ x.1 → x.1 < i) →
    ((rows i es).foldl (fun d x => putKV d x.1 x.2) d).filter (fun x => f ≤ x.1) = d.filter (fun x => f ≤ x.1) ++ rows i es := by
  induction es with
  | nil => intro d i _ _; simp [rows]
  | cons e r ih =>
    intro d i hi hd
    simp only [rows, List.foldl_cons]
    have hput : (putKV d i (value e)).filter (fun x => f ≤ x.1) = d.filter (fun x => f ≤ x.1) ++ [(i, value e)] := by
      unfold putKV
      rw [List.filter_append, List.filter_append, List.filter_filter, List.filter_filter]
      have h1 : d.filter (fun a => decide (f ≤ a.1) && decide (a.1 < i)) = d.filter (fun x => f ≤ x.1) := by
        apply List.filter_congr
        intro x hx
        by_cases h : f ≤ x.1
        · simp [h, hd x hx h]
        · simp [h]
      have h2 : d.filter (fun a => decide (f ≤ a.1) && decide (i < a.1)) = [] := by
        rw [List.filter_eq_nil_iff]
        intro x hx
        simp only [Bool.and_eq_true, decide_eq_true_eq]
        rintro ⟨h3, h4⟩
        have := hd x hx h3
        omega
      rw [h1, h2]
      simp [hi]
    rw [ih (putKV d i (value e)) (i + 1) (by omega), hput, List.append_assoc]
    · rfl
    · intro x hx hf
      have : x ∈ (putKV d i (value e)).filter (fun x => f ≤ x.1) := List.mem_filter.2 ⟨hx, by simpa using hf⟩
      rw [hput] at this
      rcases List.mem_append.1 this with h | h
      · have := hd x (List.mem_filter.1 h).1 hf; omega
      · simp only [List.mem_singleton] at h; subst h; simp; omega

theorem RepDB.below {d : DB} {a : Log} (h : RepDB d a) {x : Int × Bytes} (hx : x ∈ d.data) (hf : a.first ≤ x.1) :
    x.1 ≤ a.last := by
  have : x ∈ d.data.filter (fun x => a.first ≤ x.1) := List.mem_filter.2 ⟨hx, by simpa using hf⟩
  rw [h.tail] at this
  have := (mem_rows this).2
  unfold Log.last; omega

theorem RepDB.puts {d : DB} {a : Log} (h : RepDB d a) (es : List Entry) :
    RepDB (d.write (.puts (rows (a.last + 1) es))) { a with ents := a.ents ++ es } := by
  refine ⟨h.first, ?_⟩
  simp only [DB.write]
  rw [foldl_puts es d.data (a.last + 1) (by unfold Log.last; omega)
    (fun x hx hf => by have := h.below hx hf; omega), h.tail, rows_append]
  congr 2
  unfold Log.last; omega

theorem RepDB.setFirst {d : DB} {a : Log} (h : RepDB d a) {k : Int} (hk : a.first < k) :
    RepDB (d.write (.first k)) (a.dropTo k) := by
  have e : a.dropTo k = ⟨k, a.ents.drop (k - a.first).toNat, (⟨a.first, a.ents.take (k - a.first).toNat, a.before⟩ : Log).lastTerm⟩ := by
    unfold Log.dropTo; rw [if_neg (by omega)]
  rw [e]
  refine ⟨rfl, ?_⟩
  simp only [DB.write]
  rw [← filter_rows_drop a.first k (by omega), ← h.tail, List.filter_filter]
  apply List.filter_congr
  intro x _
  by_cases h1 : k ≤ x.1
  · simp [h1]; omega
  · simp [h1]

theorem RepDB.range {d : DB} {a : Log} (h : RepDB d a) {lo hi : Int} (hk : hi ≤ a.first) : RepDB (d.write (.range lo hi)) a := by
  refine ⟨h.first, ?_⟩
  simp only [DB.write]
  rw [← h.tail, List.filter_filter]
  apply List.filter_congr
  intro x _
  by_cases h1 : a.first ≤ x.1
  · simp [h1]; omega
  · simp [h1]

theorem RepDB.dels {d : DB} {a : Log} (h : RepDB d a) {k : Int} (hk : a.first - 1 ≤ k) :
    RepDB (d.write (.dels (k + 1) a.last)) (a.keepTo k) := by
  refine ⟨h.first, ?_⟩
  simp only [DB.write, Log.keepTo]
  rw [← filter_rows_take a.first k hk, ← h.tail, List.filter_filter, List.filter_filter]
  apply List.filter_congr
  intro x hx
  by_cases h1 : a.first ≤ x.1
  · have := h.below hx h1
    by_cases h2 : k < x.1
    · simp [h1, h2]; omega
    · simp [h1, h2]; omega
  · simp [h1]

/-- Any filtering that only drops entries below the first index is invisible. -/
theorem RepDB.gc {d : DB} {a : Log} (h : RepDB d a) {keep : Int × Bytes → Bool} (hk : ∀ x ∈ d.data, keep x = false → x.1 < a.first) :
    RepDB { d with data := d.data.filter keep } a := by
  refine ⟨h.first, ?_⟩
  rw [← h.tail, List.filter_filter]
  apply List.filter_congr
  intro x hx
  cases hb : keep x with
  | true => simp
  | false => have := hk x hx hb; simp; omega

/-! ### Recovery -/

def confs (i : Int) : List Entry → List (Int × Nat × Bytes)
  | [] => []
  | e :: r => if e.type = 3 then (i, e.term, e.data) :: confs (i + 1) r else confs (i + 1) r

theorem initScan_rows {f : Int} (rest : List Entry) : ∀ (pre : List Entry) (last : Int) (q : TermMap) (cs : List (Int × Nat × Bytes)),
    Rep q f (pre.map (·.term)) 0 → (∀ e ∈ rest, OkEntry e) → ((pre ++ rest).map (·.term)).Pairwise (· ≤ ·) →
    ∃ q', initScan (f + pre.length) last q cs (rows (f + pre.length) rest) =
        some (if rest = [] then last else f + (pre ++ rest).length - 1, q', cs ++ confs (f + pre.length) rest) ∧
      Rep q' f ((pre ++ rest).map (·.term)) 0 := by
  induction rest with
  | nil => intro pre last q cs hr _ _; exact ⟨q, by simp [rows, initScan, confs], by simpa using hr⟩
  | cons e r ih =>
    intro pre last q cs hr hok hmono
    obtain ⟨v, hv, hlen, hhead, hdata⟩ := ok_value (hok e (by simp))
    have hval : value e = v := by simp [value, hv]
    have hterm : (((pre.map (·.term)).getLast?).getD 0) ≤ e.term := by
      cases ht : (pre.map (·.term)).getLast? with
      | none => simp
      | some t =>
        simp only [List.map_append, List.map_cons] at hmono
        exact (List.pairwise_append.1 hmono).2.2 t (List.mem_of_getLast? ht) e.term (by simp)
    obtain ⟨q', hq', hr'⟩ := hr.append hterm
    have hr'' : Rep q' f ((pre ++ [e]).map (·.term)) 0 := by simpa using hr'
    obtain ⟨q2, h2, hr2⟩ := ih (pre ++ [e]) (f + pre.length)
      q' (if e.type = 3 then cs ++ [(f + pre.length, e.term, e.data)] else cs) hr''
      (fun x hx => hok x (by simp [hx])) (by simpa using hmono)
    refine ⟨q2, ?_, by simpa using hr2⟩
    rw [rows, initScan]
    have hl : ¬ (value e).length < 12 := by rw [hval]; omega
    simp only [ne_eq, not_true_eq_false, if_false, hl]
    rw [hval, hhead, hdata]
    rw [List.length_map] at hq'
    simp only [hq']
    have e1 : f + ((pre ++ [e]).length : Int) = f + pre.length + 1 := by simp; omega
    rw [e1] at h2
    rw [show tConf = 3 from rfl]
    refine Eq.trans h2 ?_
    simp only [reduceCtorEq, if_false, Option.some.injEq, Prod.mk.injEq]
    refine ⟨?_, trivial, ?_⟩
    · split
      · rename_i hnil; subst hnil; simp; omega
      · simp [List.append_assoc]
    · simp only [confs]
      split <;> simp

/-- Opening the storage on a database that holds log `a`. -/
theorem init_rep {d : DB} {a : Log} (h : RepDB d a) (hg : GoodLog a) :
    ∃ m, init d = some (d, m, confs a.first a.ents) ∧ Inv d m { a with before := 0 } := by
  obtain ⟨q', h1, h2⟩ := initScan_rows (f := a.first) a.ents [] 0 [] [] (Rep.nil _ _) hg.ok
    (by simpa using (List.pairwise_cons.1 hg.mono).2)
  simp only [List.nil_append, List.length_nil, Int.natCast_zero, Int.add_zero] at h1 h2
  unfold init
  rw [h.first]
  simp only [Option.getD_some]
  rw [h.tail, h1]
  simp only []
  refine ⟨_, rfl, ⟨h.first, h.tail⟩, ⟨hg.pos, hg.ok, ?_⟩, rfl, ?_, h2⟩
  · exact List.pairwise_cons.2 ⟨fun _ _ => Nat.zero_le _, (List.pairwise_cons.1 hg.mono).2⟩
  · simp only [Log.last]
    cases he : a.ents with
    | nil => simp
    | cons e r =>
      have := hg.pos
      simp only [reduceCtorEq, if_false]
      rw [if_neg (by simp; omega)]

/-! ### Operations -/

/-- The calls raft makes; `append` numbers the entries from the end of the log. -/
def exec (m : Mem) : Op → List Write × Mem
  | .append es => ((appendEntries m (number (m.last + 1) es)).1, (appendEntries m (number (m.last + 1) es)).2.1)
  | .truncatePrefix k => truncatePrefix m k
  | .truncateSuffix k => truncateSuffix m k
  | .reset n => reset m n

theorem number_length (i : Int) (es : List Entry) : (number i es).length = es.length := by
  induction es generalizing i with
  | nil => rfl
  | cons e r ih => simp [number, ih]

theorem mapM_number (i : Int) (es : List Entry) (h : ∀ e ∈ es, OkEntry e) :
    (number i es).mapM (fun x => (buildValue x.2).map (fun v => (x.1, v))) = some (rows i es) := by
  induction es generalizing i with
  | nil => rfl
  | cons e r ih =>
    obtain ⟨v, hv, _⟩ := ok_value (h e (by simp))
    rw [number, List.mapM_cons, ih _ (fun x hx => h x (by simp [hx]))]
    simp [rows, value, hv]

theorem appendTerms_rep {f : Int} {b : Nat} (es : List Entry) : ∀ (pre : List Nat) (q : TermMap), Rep q f pre b →
    ((pre.getLast?).getD b :: es.map (·.term)).Pairwise (· ≤ ·) →
    ∃ q', appendTerms q (number (f + pre.length) es) = .ok q' ∧ Rep q' f (pre ++ es.map (·.term)) b := by
  induction es with
  | nil => intro pre q h _; exact ⟨q, rfl, by simpa using h⟩
  | cons e r ih =>
    intro pre q h hm
    obtain ⟨h1, h2⟩ := List.pairwise_cons.1 hm
    obtain ⟨q', hq', hr'⟩ := h.append (h1 e.term (by simp))
    obtain ⟨q2, hq2, hr2⟩ := ih (pre ++ [e.term]) q' hr' (by simpa using h2)
    refine ⟨q2, ?_, by simpa using hr2⟩
    rw [number, appendTerms, hq']
    simp only []
    rw [← hq2]
    congr 2
    simp; omega

theorem append_ok {d : DB} {m : Mem} {a : Log} (h : Inv d m a) {es : List Entry} (ha : a.allows (.append es)) :
    ∃ q', appendEntries m (number (m.last + 1) es) =
      ((if es = [] then [] else [Write.puts (rows (a.last + 1) es)]), (⟨m.first, m.last + es.length, q'⟩ : Mem), (es.length : Int)) ∧
      Rep q' a.first ((a.ents ++ es).map (·.term)) a.before := by
  cases es with
  | nil =>
    refine ⟨m.q, ?_, by simpa using h.mem.q⟩
    simp [number, appendEntries]
  | cons e r =>
    obtain ⟨q', h1, h2⟩ := appendTerms_rep (e :: r) _ m.q h.mem.q ha.2
    refine ⟨q', ?_, by simpa using h2⟩
    have hl : m.last + 1 = a.first + ((a.ents.map (·.term)).length : Int) := by
      rw [h.mem.last, Log.last]; simp
    have hm := mapM_number (m.last + 1) (e :: r) ha.1
    rw [← hl] at h1
    unfold appendEntries
    simp only [number] at hm h1 ⊢
    simp only [ne_eq, not_true_eq_false, if_false]
    rw [hm]
    simp only []
    rw [h1]
    simp only [reduceCtorEq, if_false, List.length_cons, number_length, h.mem.last]

theorem good_append {a : Log} (h : GoodLog a) {es : List Entry} (ha : a.allows (.append es)) : GoodLog { a with ents := a.ents ++ es } := by
  refine ⟨h.pos, ?_, ?_⟩
  · intro e he
    rcases List.mem_append.1 he with he | he
    · exact h.ok e he
    · exact ha.1 e he
  · simp only [List.map_append]
    have h1 := h.mono
    have h2 := List.pairwise_cons.1 ha.2
    rw [← List.cons_append, List.pairwise_append]
    refine ⟨h1, h2.2, ?_⟩
    intro x hx y hy
    have hy' := h2.1 y hy
    have : x ≤ a.lastTerm := by
      rcases List.mem_cons.1 hx with rfl | hx
      · exact le_lastTerm h
      · unfold Log.lastTerm
        cases ht : (a.ents.map (·.term)).getLast? with
        | none => rw [List.getLast?_eq_none_iff] at ht; rw [ht] at hx; cases hx
        | some t =>
          obtain ⟨r, hr⟩ := List.getLast?_eq_some_iff.1 ht
          rw [hr] at hx h1
          rcases List.mem_append.1 hx with hx | hx
          · exact (List.pairwise_append.1 (List.pairwise_cons.1 h1).2).2.2 x hx t (by simp)
          · simp only [List.mem_singleton] at hx; rw [hx]; exact Nat.le_refl _
    omega

theorem good_dropTo {a : Log} (h : GoodLog a) (k : Int) : GoodLog (a.dropTo k) := by
  unfold Log.dropTo
  split
  · exact h
  · rename_i hk
    have hp := h.pos
    refine ⟨by simp only []; omega, fun e he => h.ok e (List.mem_of_mem_drop he), ?_⟩
    have h1 := h.mono
    simp only [Log.lastTerm]
    rw [← List.take_append_drop (k - a.first).toNat a.ents, List.map_append] at h1
    have h1' := List.pairwise_cons.1 h1
    refine List.pairwise_cons.2 ⟨?_, (List.pairwise_append.1 h1'.2).2.1⟩
    intro y hy
    cases ht : ((a.ents.take (k - a.first).toNat).map (·.term)).getLast? with
    | none => exact h1'.1 y (List.mem_append_right _ hy)
    | some t => exact (List.pairwise_append.1 h1'.2).2.2 t (List.mem_of_getLast? ht) y hy

theorem good_keepTo {a : Log} (h : GoodLog a) (k : Int) : GoodLog (a.keepTo k) := by
  refine ⟨h.pos, fun e he => h.ok e (List.mem_of_mem_take he), ?_⟩
  have := h.mono
  simp only [Log.keepTo]
  refine List.Pairwise.sublist ?_ this
  exact List.Sublist.cons_cons _ ((List.take_sublist _ _).map _)

theorem truncatePrefix_mem {m : Mem} {a : Log} (h : RepMem m a) (hg : GoodLog a) (k : Int) : RepMem (truncatePrefix m k).2 (a.dropTo k) ∧
    (truncatePrefix m k).1 = if k ≤ a.first then [] else [.first k, .range a.first k] := by
  unfold truncatePrefix Log.dropTo
  rw [h.first]
  have hp := hg.pos
  by_cases hk : k ≤ a.first
  · simp only [if_pos hk]; exact ⟨h, trivial⟩
  · simp only [if_neg hk, if_neg (show ¬ a.first < 0 by omega)]
    refine ⟨⟨rfl, ?_, ?_⟩, trivial⟩
    · simp only [h.last, Log.last, List.length_drop]
      split <;> omega
    · have := h.q.truncatePrefix (kept := k) (by omega)
      simpa [Log.lastTerm, List.map_take, List.map_drop] using this

theorem truncateSuffix_mem {m : Mem} {a : Log} (h : RepMem m a) {k : Int} (hk : a.first - 1 ≤ k) :
    RepMem (truncateSuffix m k).2 (a.keepTo k) ∧
    (truncateSuffix m k).1 = if k ≥ a.last then [] else [.dels (k + 1) a.last] := by
  unfold truncateSuffix
  rw [h.last]
  by_cases hl : k ≥ a.last
  · simp only [if_pos hl]
    have : a.keepTo k = a := by
      unfold Log.keepTo
      rw [List.take_of_length_le (by unfold Log.last at hl; omega)]
    rw [this]; exact ⟨h, trivial⟩
  · simp only [if_neg hl]
    have hl' := hl
    unfold Log.last at hl'
    refine ⟨⟨h.first, ?_, ?_⟩, trivial⟩
    · simp only [Log.last, Log.keepTo, List.length_take]; omega
    · have := h.q.truncateSuffix (kept := k) hk (by simp only [List.length_map]; omega)
      simpa [Log.keepTo, List.map_take] using this

theorem writes_take_cons (d : DB) (w : Write) (ws : List Write) (j : Nat) :
    d.writes ((w :: ws).take (j + 1)) = (d.write w).writes (ws.take j) := rfl

theorem dropTo_eq {a : Log} {n : Int} (h : a.first < n) :
    a.dropTo n = ⟨n, a.ents.drop (n - a.first).toNat, (⟨a.first, a.ents.take (n - a.first).toNat, a.before⟩ : Log).lastTerm⟩ := by
  unfold Log.dropTo; rw [if_neg (by omega)]

theorem keepTo_before (a : Log) : (a.keepTo (a.first - 1)).ents = [] := by
  unfold Log.keepTo
  have : (a.first - 1 - a.first + 1).toNat = 0 := by omega
  simp [this]

theorem exec_reset {m : Mem} {a : Log} (h : RepMem m a) (hg : GoodLog a) {n : Int} (hn : a.first < n) :
    RepMem (exec m (.reset n)).2 ⟨n, [], 0⟩ ∧
    (exec m (.reset n)).1 = [.first n, .range a.first n] ++ (if n - 1 ≥ (a.dropTo n).last then [] else [.dels (n - 1 + 1) (a.dropTo n).last]) := by
  obtain ⟨h1, h2⟩ := truncatePrefix_mem h hg n
  rw [if_neg (by omega)] at h2
  have hf : (a.dropTo n).first = n := by rw [dropTo_eq hn]
  obtain ⟨h3, h4⟩ := truncateSuffix_mem h1 (k := n - 1) (by rw [hf]; omega)
  simp only [exec, reset]
  rw [h2, h4]
  refine ⟨⟨?_, ?_, Rep.nil _ _⟩, rfl⟩
  · have := h3.first; simpa [Log.keepTo, hf] using this
  · have := h3.last
    simp only [Log.last] at this ⊢
    have hk := keepTo_before (a.dropTo n)
    rw [hf] at hk
    rw [hk] at this
    simpa [Log.keepTo, hf] using this

theorem inv_step {d : DB} {m : Mem} {a : Log} (h : Inv d m a) {o : Op} (ha : a.allows o) :
    Inv (d.writes (exec m o).1) (exec m o).2 (a.step o) := by
  cases o with
  | append es =>
    obtain ⟨q', h1, h2⟩ := append_ok h ha
    simp only [exec, h1]
    refine ⟨?_, good_append h.good ha, h.mem.first, ?_, h2⟩
    · split
      · rename_i he; subst he
        simpa [DB.writes, Log.step] using h.db
      · exact h.db.puts es
    · simp only [h.mem.last, Log.last, Log.step, List.length_append]; omega
  | truncatePrefix k =>
    obtain ⟨h1, h2⟩ := truncatePrefix_mem h.mem h.good k
    simp only [exec, h2]
    refine ⟨?_, good_dropTo h.good k, h1⟩
    split
    · rename_i hk; simp only [Log.step, Log.dropTo, if_pos hk]; exact h.db
    · rename_i hk
      have := (h.db.setFirst (k := k) (by omega)).range (lo := a.first) (hi := k) (by rw [dropTo_eq (by omega)]; exact Int.le_refl _)
      exact this
  | truncateSuffix k =>
    obtain ⟨h1, h2⟩ := truncateSuffix_mem h.mem ha
    simp only [exec, h2]
    refine ⟨?_, good_keepTo h.good k, h1⟩
    split
    · rename_i hl
      have : a.keepTo k = a := by
        unfold Log.keepTo
        rw [List.take_of_length_le (by unfold Log.last at hl; omega)]
      simp only [Log.step]
      rw [this]; exact h.db
    · exact h.db.dels ha
  | reset n =>
    have hn : a.first < n := ha
    obtain ⟨h1, h2⟩ := exec_reset h.mem h.good hn
    have hp := h.good.pos
    refine ⟨?_, ⟨by simp only [Log.step]; omega, by simp [Log.step], by simp [Log.step]⟩, h1⟩
    rw [h2]
    have hf : (a.dropTo n).first = n := by rw [dropTo_eq hn]
    have hdb := (h.db.setFirst hn).range (lo := a.first) (hi := n) (by rw [hf]; exact Int.le_refl _)
    have hd : RepDB (d.writes ([.first n, .range a.first n] ++
        (if n - 1 ≥ (a.dropTo n).last then [] else [.dels (n - 1 + 1) (a.dropTo n).last]))) ((a.dropTo n).keepTo (n - 1)) := by
      split
      · rename_i hl
        have : (a.dropTo n).keepTo (n - 1) = a.dropTo n := by
          unfold Log.keepTo
          rw [List.take_of_length_le (by unfold Log.last at hl; omega)]
        rw [this]
        simpa [DB.writes] using hdb
      · exact hdb.dels (k := n - 1) (by rw [hf]; omega)
    have hk := keepTo_before (a.dropTo n)
    rw [hf] at hk
    exact ⟨by have := hd.first; simpa [Log.keepTo, hf, Log.step] using this, by
      have := hd.tail
      rw [hk] at this
      simp only [Log.keepTo, hf] at this
      exact this⟩

/-- The database after the first `j` writes of an operation holds the log the specification says. -/
theorem crash_rep {d : DB} {m : Mem} {a : Log} (h : Inv d m a) {o : Op} (ha : a.allows o) (j : Nat)
    (hj : j ≤ (exec m o).1.length) :
    ∃ b, RepDB (d.writes ((exec m o).1.take j)) b ∧ GoodLog b ∧ { b with before := 0 } = a.crashed o j := by
  cases j with
  | zero => exact ⟨a, h.db, h.good, by cases o <;> rfl⟩
  | succ j =>
    have full : j + 1 = (exec m o).1.length → (∀ n, o ≠ .reset n ∨ 2 ≤ j) →
        ∃ b, RepDB (d.writes ((exec m o).1.take (j + 1))) b ∧ GoodLog b ∧ { b with before := 0 } = a.crashed o (j + 1) := by
      intro e hne
      have hi := inv_step h ha
      refine ⟨a.step o, ?_, hi.good, ?_⟩
      · rw [e, List.take_length]; exact hi.db
      · cases o with
        | append es => simp [Log.crashed]
        | truncatePrefix k => simp [Log.crashed]
        | truncateSuffix k => simp [Log.crashed]
        | reset n =>
          have := (hne n).resolve_left (by simp)
          obtain ⟨i, rfl⟩ : ∃ i, j = i + 2 := ⟨j - 2, by omega⟩
          simp [Log.crashed]
    cases o with
    | append es =>
      obtain ⟨q', h1, _⟩ := append_ok h ha
      apply full
      · simp only [exec, h1] at hj ⊢
        split at hj
        · simp at hj
        · rename_i he; rw [if_neg he]; simp at hj ⊢; omega
      · simp
    | truncatePrefix k =>
      obtain ⟨h1, h2⟩ := truncatePrefix_mem h.mem h.good k
      simp only [exec] at hj
      rw [h2] at hj
      by_cases hk : k ≤ a.first
      · rw [if_pos hk] at hj; simp at hj
      · rw [if_neg hk] at hj
        cases j with
        | zero =>
          refine ⟨a.dropTo k, ?_, good_dropTo h.good k, rfl⟩
          simp only [exec]
          rw [h2, if_neg hk]
          exact h.db.setFirst (by omega)
        | succ j =>
          apply full
          · simp only [exec]; rw [h2, if_neg hk]; simp at hj ⊢; omega
          · simp
    | truncateSuffix k =>
      obtain ⟨h1, h2⟩ := truncateSuffix_mem h.mem ha
      simp only [exec] at hj
      rw [h2] at hj
      apply full
      · simp only [exec]
        rw [h2]
        split at hj
        · simp at hj
        · rename_i hl; rw [if_neg hl]; simp at hj ⊢; omega
      · simp
    | reset n =>
      have hn : a.first < n := ha
      obtain ⟨h1, h2⟩ := exec_reset h.mem h.good hn
      have hf : (a.dropTo n).first = n := by rw [dropTo_eq hn]
      cases j with
      | zero =>
        refine ⟨a.dropTo n, ?_, good_dropTo h.good n, rfl⟩
        rw [h2]; exact h.db.setFirst hn
      | succ j =>
        cases j with
        | zero =>
          refine ⟨a.dropTo n, ?_, good_dropTo h.good n, rfl⟩
          rw [h2]
          exact (h.db.setFirst hn).range (lo := a.first) (hi := n) (by rw [hf]; exact Int.le_refl _)
        | succ j =>
          apply full
          · rw [h2] at hj ⊢
            split at hj
            · simp at hj
            · rename_i hl; rw [if_neg hl]; simp at hj ⊢; omega
          · intro _; right; omega

/-! ### All executions -/

/-- Executions of one region's log storage on a new database: operations, crashes at any database write followed by
reopening, and background compactions at any time, which may process any part of the data.  `g` is the region's entry in the
compaction filter's map, set when the storage is opened (L226). -/
inductive Reach (r : BitVec 64) : DB → Mem → Log → Int → Prop where
  | start {d m cs} : init {} = some (d, m, cs) → Reach r d m ⟨1, [], 0⟩ m.first
  | op {d m a g} (o : Op) : Reach r d m a g → a.allows o → Reach r (d.writes (exec m o).1) (exec m o).2 (a.step o) g
  | crash {d m a g d' m' cs} (o : Op) (j : Nat) : Reach r d m a g → a.allows o → j ≤ (exec m o).1.length →
      init (d.writes ((exec m o).1.take j)) = some (d', m', cs) → Reach r d' m' (a.crashed o j) m'.first
  | compact {d m a g} (firsts : BitVec 64 → Option Int) (split : BitVec 64 → Int) (sel : Int → Bool) : Reach r d m a g →
      firsts r = some g → (∀ x ∈ d.data, -2 ^ 63 ≤ x.1 ∧ x.1 < 2 ^ 63) →
      Reach r { d with data := d.data.filter (fun x => ¬ (sel x.1 ∧ filterDrop firsts split (dataKey r (BitVec.ofInt 64 x.1)) = true)) } m a g

/-- C20: exactly which keys of the raft log column family compaction drops: data keys of a known region below its first
index and below the split index; never a meta key. -/
theorem C20_filter_exact (firsts : BitVec 64 → Option Int) (split : BitVec 64 → Int) (r i : BitVec 64) :
    (filterDrop firsts split (dataKey r i) = true ↔ ∃ f, firsts r = some f ∧ i.toInt < f ∧ i.toInt < split r) ∧
    filterDrop firsts split (metaKey r) = false := by
  obtain ⟨h1, hl⟩ := C18_key_decodes r i
  refine ⟨?_, ?_⟩
  · unfold decodeDataKey at h1
    rw [if_neg (by omega)] at h1
    unfold filterDrop
    rw [if_neg (by omega)]
    split at h1
    · rename_i r' i' e1 e2
      simp only [Option.some.injEq, Prod.mk.injEq] at h1
      obtain ⟨rfl, rfl⟩ := h1
      cases firsts r' with
      | none => simp
      | some f =>
        simp only [decide_eq_true_eq, Option.some.injEq, exists_eq_left']
        split <;> omega
    · cases h1
  · have hm := (C18_key_prefix r r i i).2.2
    unfold filterDrop
    rw [if_pos (by omega)]

theorem step_first_ge {a : Log} {o : Op} (ha : a.allows o) : a.first ≤ (a.step o).first := by
  cases o with
  | append es => exact Int.le_refl _
  | truncatePrefix k => simp only [Log.step, Log.dropTo]; split <;> (try simp only []) <;> omega
  | truncateSuffix k => exact Int.le_refl _
  | reset n => exact Int.le_of_lt ha

theorem reach_inv {r : BitVec 64} {d : DB} {m : Mem} {a : Log} {g : Int} (h : Reach r d m a g) : Inv d m a ∧ g ≤ a.first := by
  induction h with
  | start hi =>
    simp [init, DB.write, initScan] at hi
    obtain ⟨rfl, rfl, rfl⟩ := hi
    refine ⟨⟨⟨rfl, rfl⟩, ⟨by decide, by simp, by simp⟩, rfl, rfl, Rep.nil _ _⟩, by decide⟩
  | op o _ ha ih => exact ⟨inv_step ih.1 ha, Int.le_trans ih.2 (step_first_ge ha)⟩
  | @crash d m a g d' m' cs o j _ ha hj hi ih =>
    obtain ⟨b, h1, h2, h3⟩ := crash_rep ih.1 ha j hj
    obtain ⟨m2, h4, h5⟩ := init_rep h1 h2
    rw [h4] at hi
    simp only [Option.some.injEq, Prod.mk.injEq] at hi
    obtain ⟨rfl, rfl, rfl⟩ := hi
    rw [← h3]
    exact ⟨h5, by rw [h5.mem.first]; exact Int.le_refl _⟩
  | @compact d m a g firsts split sel _ hg hr ih =>
    refine ⟨⟨ih.1.db.gc ?_, ih.1.good, ih.1.mem⟩, ih.2⟩
    intro x hx hk
    simp only [decide_not, Bool.not_eq_false', decide_eq_true_eq] at hk
    obtain ⟨f, hf, hlt, _⟩ := (C20_filter_exact firsts split r _).1.1 hk.2
    rw [hg] at hf
    simp only [Option.some.injEq] at hf
    subst hf
    obtain ⟨b1, b2⟩ := hr x hx
    rw [BitVec.toInt_ofInt, Int.bmod_eq_of_le (by simpa using b1) (by simpa using b2)] at hlt
    have := ih.2
    omega

theorem find_filter {d : Data} {f i : Int} (h : f ≤ i) :
    d.find? (fun x => x.1 = i) = (d.filter (fun x => f ≤ x.1)).find? (fun x => x.1 = i) := by
  induction d with
  | nil => rfl
  | cons x d ih =>
    by_cases hx : x.1 = i
    · rw [List.find?_cons_of_pos (by simpa using hx), List.filter_cons_of_pos (by simp; omega), List.find?_cons_of_pos (by simpa using hx)]
    · rw [List.find?_cons_of_neg (by simpa using hx), ih]
      by_cases hf : f ≤ x.1
      · rw [List.filter_cons_of_pos (by simpa using hf), List.find?_cons_of_neg (by simpa using hx)]
      · rw [List.filter_cons_of_neg (by simpa using hf)]

theorem getEntry_ok {d : DB} {a : Log} (h : RepDB d a) (hg : GoodLog a) {i : Int} (hi : a.first ≤ i) : getEntry d i = a.get i := by
  unfold getEntry Log.get
  rw [find_filter hi, h.tail, find_rows hi, if_pos hi]
  cases he : a.ents[(i - a.first).toNat]? with
  | none => rfl
  | some e =>
    have hok := hg.ok e (List.mem_of_getElem? he)
    obtain ⟨v, hv, hlen, hhead, hdata⟩ := ok_value hok
    simp only [Option.map_some, value, hv, Option.getD_some]
    rw [if_neg (by omega), hhead, hdata]
    obtain ⟨_, h2, h3⟩ := hok
    rcases h2 with ht | ht | ht
    · simp [ht, tData, tConf, tNoOp, h3 ht]
      cases e; simp_all
    · simp [ht, tData]; cases e; simp_all
    · simp [ht, tData, tConf]; cases e; simp_all

/-- C18: in every execution the storage is the log raft wrote: first and last index, every entry and every term; nothing
is found above the last index, and terms outside the log are reported as 0. -/
theorem C18_storage_is_log {r : BitVec 64} {d : DB} {m : Mem} {a : Log} {g : Int} (h : Reach r d m a g) :
    m.first = a.first ∧ m.last = a.last ∧
    (∀ i, a.first ≤ i → getEntry d i = a.get i) ∧
    ∀ i, getTerm m i = ((a.get i).map (·.term)).getD 0 := by
  obtain ⟨hi, -⟩ := reach_inv h
  refine ⟨hi.mem.first, hi.mem.last, fun i h => getEntry_ok hi.db hi.good h, fun i => ?_⟩
  unfold getTerm
  rw [hi.mem.first, hi.mem.last]
  by_cases hr : i < a.first ∨ i > a.last
  · rw [if_pos hr]
    unfold Log.get
    split
    · rw [List.getElem?_eq_none (by unfold Log.last at hr; omega)]; rfl
    · rfl
  · rw [if_neg hr]
    have hlt : (i - a.first).toNat < a.ents.length := by unfold Log.last at hr; omega
    have ht : termAt a.first (a.ents.map (·.term)) i = some (a.ents[(i - a.first).toNat]).term := by
      unfold termAt
      rw [if_pos (by omega), List.getElem?_map, List.getElem?_eq_getElem hlt]; rfl
    rw [hi.mem.q.get ht]
    unfold Log.get
    rw [if_pos (by omega), List.getElem?_eq_getElem hlt]
    rfl

/-- C18: entries raft may append are accepted, and the number of entries is returned. -/
theorem C18_append_accepted {r : BitVec 64} {d : DB} {m : Mem} {a : Log} {g : Int} (h : Reach r d m a g) {es : List Entry}
    (ha : a.allows (.append es)) : (appendEntries m (number (m.last + 1) es)).2.2 = es.length := by
  obtain ⟨q', h1, _⟩ := append_ok (reach_inv h).1 ha
  rw [h1]

/-- C18: a batch that does not continue the log, or has an entry of unknown type, is refused without any write. -/
theorem C18_gap_refused (m : Mem) (i : Int) (e : Entry) (r : List (Int × Entry)) (h : i ≠ m.last + 1) :
    appendEntries m ((i, e) :: r) = ([], m, -1) := by
  unfold appendEntries
  simp only []
  rw [if_pos (fun x => h x.symm)]

/-- C19: reopening after a crash at any database write of any operation succeeds, and recovers the log as it was before the
operation or after it (for reset: or with only its prefix truncated); the configuration entries handed to raft are exactly
those in the log. -/
theorem C19_recovery {r : BitVec 64} {d : DB} {m : Mem} {a : Log} {g : Int} (h : Reach r d m a g) {o : Op} (ha : a.allows o)
    {j : Nat} (hj : j ≤ (exec m o).1.length) :
    ∃ d' m', init (d.writes ((exec m o).1.take j)) = some (d', m', confs (a.crashed o j).first (a.crashed o j).ents) ∧
      Reach r d' m' (a.crashed o j) m'.first := by
  obtain ⟨b, h1, h2, h3⟩ := crash_rep (reach_inv h).1 ha j hj
  obtain ⟨m2, h4, h5⟩ := init_rep h1 h2
  refine ⟨d.writes ((exec m o).1.take j), m2, ?_, ?_⟩
  · rw [← h3]; exact h4
  · exact Reach.crash o j h ha hj h4

/-- The recovered log is the old or the new one. -/
theorem C19_atomic (a : Log) (o : Op) (j : Nat) :
    (a.crashed o j).ents = a.ents ∧ (a.crashed o j).first = a.first ∨
    (a.crashed o j).ents = (a.step o).ents ∧ (a.crashed o j).first = (a.step o).first ∨
    ∃ n, o = .reset n ∧ (a.crashed o j).ents = (a.dropTo n).ents ∧ (a.crashed o j).first = (a.dropTo n).first := by
  cases j with
  | zero => left; cases o <;> exact ⟨rfl, rfl⟩
  | succ j =>
    cases o with
    | append es => right; left; exact ⟨rfl, rfl⟩
    | truncatePrefix k => right; left; exact ⟨rfl, rfl⟩
    | truncateSuffix k => right; left; exact ⟨rfl, rfl⟩
    | reset n =>
      cases j with
      | zero => right; right; exact ⟨n, rfl, rfl, rfl⟩
      | succ j =>
        cases j with
        | zero => right; right; exact ⟨n, rfl, rfl, rfl⟩
        | succ j => right; left; exact ⟨rfl, rfl⟩

/-- C20: compaction at any time changes neither reads nor recovery (it is a step of `Reach`); in particular no entry of the
log is ever dropped. -/
theorem C20_compaction_safe {r : BitVec 64} {d : DB} {m : Mem} {a : Log} {g : Int} (h : Reach r d m a g)
    (firsts : BitVec 64 → Option Int) (split : BitVec 64 → Int) (hf : firsts r = some g) {i : Int} (hi : a.first ≤ i)
    (hb : -2 ^ 63 ≤ i ∧ i < 2 ^ 63) : filterDrop firsts split (dataKey r (BitVec.ofInt 64 i)) = false := by
  cases hd : filterDrop firsts split (dataKey r (BitVec.ofInt 64 i)) with
  | false => rfl
  | true =>
    obtain ⟨f, hf', hlt, _⟩ := (C20_filter_exact firsts split r _).1.1 hd
    rw [hf] at hf'
    simp only [Option.some.injEq] at hf'
    subst hf'
    rw [BitVec.toInt_ofInt, Int.bmod_eq_of_le (by simpa using hb.1) (by simpa using hb.2)] at hlt
    have := (reach_inv h).2
    omega

/-- Deviation: a batch whose terms go down is written to the database although the call fails; the storage cannot be opened
again. -/
theorem C19_term_order_counterexample :
    let m : Mem := ⟨1, 0, []⟩
    let es := [(1, (⟨5, 2, []⟩ : Entry)), (2, ⟨4, 2, []⟩)]
    (appendEntries m es).2.2 = -1 ∧ init ((DB.write {} (.first 1)).writes (appendEntries m es).1) = none := by decide

/-- Deviation: truncate_suffix ignores a failed delete; the entries are back after a restart, and if shorter entries with a
lower term were appended meanwhile the storage cannot be opened. -/
theorem C19_lost_delete_counterexample :
    let d0 : DB := DB.write {} (.first 1)
    let e1 := appendEntries ⟨1, 0, []⟩ [(1, ⟨1, 2, []⟩), (2, ⟨7, 2, []⟩), (3, ⟨7, 2, []⟩)]
    let d1 := d0.writes e1.1
    let t := truncateSuffix e1.2.1 1
    let e2 := appendEntries t.2 [(2, ⟨8, 2, []⟩)]
    t.2.last = 1 ∧ ((init d1).map (·.2.1.last)) = some 3 ∧ init (d1.writes e2.1) = none := by decide

/-- Deviation: reset to an index at or below the first one leaves the first index behind: entries appended from there are
not found. -/
theorem C18_reset_back_counterexample :
    let m := (reset ⟨10, 12, [(10, 3)]⟩ 5).2
    m = ⟨10, 4, []⟩ ∧ (appendEntries m [(5, ⟨3, 2, []⟩)]).2.1 = ⟨10, 5, [(5, 3)]⟩ ∧
    getTerm (appendEntries m [(5, ⟨3, 2, []⟩)]).2.1 5 = 0 := by decide

/-- Non-vacuity: a reachable execution with appends, truncations on both sides, a crash inside truncate_prefix. -/
example : ∃ d m, Reach 7 d m ⟨2, [⟨1, 2, [9#8]⟩], 0⟩ 2 ∧ getEntry d 2 = some ⟨1, 2, [9#8]⟩ ∧ getTerm m 2 = 1 := by
  have s0 : init {} = some (⟨some 1, []⟩, ⟨1, 0, []⟩, []) := by rfl
  have r0 := Reach.start (r := 7) s0
  have a1 : Log.allows ⟨1, [], 0⟩ (.append [⟨1, 1, []⟩, ⟨1, 2, [9#8]⟩]) := by
    refine ⟨?_, by decide⟩
    intro e he
    simp only [List.mem_cons, List.not_mem_nil, or_false] at he
    rcases he with rfl | rfl <;> simp [OkEntry]
  have r1 := Reach.op _ r0 a1
  have r2 := Reach.crash (.truncatePrefix 2) 1 r1 trivial (by decide)
    (d' := ⟨some 2, [(1, beNat 8 1 ++ beNat 4 1), (2, beNat 8 1 ++ beNat 4 2 ++ [9#8])]⟩) (m' := ⟨2, 2, [(2, 1)]⟩) (cs := []) (by rfl)
  exact ⟨_, _, r2, by decide, by decide⟩

end BaikalDB.RaftLog
