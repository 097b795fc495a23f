import Verif.Iter.Props

/-!
# Reading a column of a columnar table

In a columnar table every column other than the key ones is stored on its own, under the primary key; default values are
not stored.  `TableIterator::get_column` (table_iterator.cpp:522-594) fills a column of a batch of rows by moving an
iterator over the column along with the rows.
-/

namespace BaikalDB.Iter

/-- One column: primary key and stored value, in key order (the 16 bytes in front left out; keys of another column count
as the end, 562-567). -/
abbrev Column := List (Bytes × Bytes)

/-- table_iterator.cpp:555-592: the value for one row and where the iterator is afterwards; `none` is the default. -/
def readOne (fwd : Bool) (pk : Bytes) : Column → Option Bytes × Column
  | [] => (none, [])
  | (k, v) :: t =>
    match bcmp pk k with
    | .eq => (some v, t)
    | .lt => if fwd then (none, (k, v) :: t) else readOne fwd pk t
    | .gt => if fwd then readOne fwd pk t else (none, (k, v) :: t)

/-- `Seek` and `SeekForPrev` (541-552, and 367-377 when the iterator is opened). -/
def seek (fwd : Bool) (col : Column) (pk : Bytes) : Column :=
  if fwd then col.filter fun e => ble pk e.1 else (col.filter fun e => ble e.1 pk).reverse

/-- table_iterator.cpp:535-593: the rows of a batch, each with whether it is filtered out; `n` is `filter_num`.  A row
that is filtered out gets no value. -/
def readRows (fwd : Bool) (col : Column) : Nat → Column → List (Bytes × Bool) → List (Option (Option Bytes)) × Column
  | _, rest, [] => ([], rest)
  | n, rest, (_, true) :: rows =>
    let r := readRows fwd col (n + 1) rest rows
    (none :: r.1, r.2)
  | n, rest, (pk, false) :: rows =>
    let o := readOne fwd pk (if n > 63 then seek fwd col pk else rest)
    let r := readRows fwd col 0 o.2 rows
    (some o.1 :: r.1, r.2)

/-- The batches of a scan one after the other (`get_column` is called once for each). -/
def readBatches (fwd : Bool) (col : Column) : Column → List (List (Bytes × Bool)) → List (List (Option (Option Bytes)))
  | _, [] => []
  | rest, b :: bs =>
    let r := readRows fwd col 0 rest b
    r.1 :: readBatches fwd col r.2 bs

/-- What a row should get: the value stored under its key, or the default. -/
def stored (col : Column) (pk : Bytes) : Option Bytes := (col.find? fun e => e.1 == pk).map (·.2)

/-- Before, in the direction of the scan. -/
def Before (fwd : Bool) (a b : Bytes) : Prop := if fwd then BLt a b else BLt b a

theorem Before.trans {fwd : Bool} {a b c : Bytes} (h1 : Before fwd a b) (h2 : Before fwd b c) : Before fwd a c := by
  unfold Before at *
  cases fwd
  · exact BLt.trans h2 h1
  · exact BLt.trans h1 h2

theorem Before.irrefl {fwd : Bool} {a : Bytes} : ¬ Before fwd a a := by
  unfold Before
  cases fwd <;> exact BLt.irrefl a

/-- Where the iterator may stand before a row with key `pk`: what is left is in order and part of the column, and nothing
from `pk` on has been passed. -/
structure At (fwd : Bool) (col rest : Column) (pk : Bytes) : Prop where
  order : rest.Pairwise fun a b => Before fwd a.1 b.1
  sub : ∀ e ∈ rest, e ∈ col
  all : ∀ e ∈ col, ¬ Before fwd e.1 pk → e ∈ rest

theorem At.later {fwd : Bool} {col rest : Column} {pk pk' : Bytes} (h : At fwd col rest pk) (hb : Before fwd pk pk') :
    At fwd col rest pk' :=
  ⟨h.order, h.sub, fun e he hn => h.all e he fun hc => hn (hc.trans hb)⟩

theorem seek_at {fwd : Bool} {col : Column} (hs : Sorted col) (pk : Bytes) : At fwd col (seek fwd col pk) pk := by
  unfold seek
  cases fwd with
  | true =>
    refine ⟨?_, fun e he => (List.mem_filter.1 he).1, fun e he hn => ?_⟩
    · exact List.Pairwise.filter _ (List.Pairwise.imp (fun {a b} h => by simpa [Before] using h) hs)
    · rw [if_pos rfl]
      exact List.mem_filter.2 ⟨he, ble_iff.2 (not_BLt.1 (by simpa [Before] using hn))⟩
  | false =>
    refine ⟨?_, fun e he => ?_, fun e he hn => ?_⟩
    · rw [if_neg (by simp), List.pairwise_reverse]
      exact List.Pairwise.filter _ (List.Pairwise.imp (fun {a b} h => by simpa [Before] using h) hs)
    · rw [if_neg (by simp), List.mem_reverse] at he
      exact (List.mem_filter.1 he).1
    · rw [if_neg (by simp), List.mem_reverse]
      exact List.mem_filter.2 ⟨he, ble_iff.2 (not_BLt.1 (by simpa [Before] using hn))⟩

theorem stored_none {col : Column} {pk : Bytes} (h : ∀ e ∈ col, e.1 ≠ pk) : stored col pk = none := by
  unfold stored
  rw [List.find?_eq_none.2 (fun e he => by simpa using h e he)]
  rfl

theorem stored_some {col : Column} (hs : Sorted col) {k v : Bytes} (h : (k, v) ∈ col) : stored col k = some v := by
  unfold stored
  induction col with
  | nil => cases h
  | cons a t ih =>
    rw [Sorted, List.pairwise_cons] at hs
    rcases List.mem_cons.1 h with rfl | h
    · simp
    · have hne : a.1 ≠ k := fun he => BLt.irrefl _ (he ▸ hs.1 _ h)
      rw [List.find?_cons_of_neg (by simpa using hne)]
      exact ih hs.2 h

theorem before_or (fwd : Bool) {a b : Bytes} (h : ¬ Before fwd a b) (hne : a ≠ b) : Before fwd b a := by
  unfold Before at *
  cases fwd with
  | true =>
    simp only [if_true] at h ⊢
    rcases BLe_iff.1 (not_BLt.1 h) with h | h
    · exact h
    · exact absurd h.symm hne
  | false =>
    simp only [Bool.false_eq_true, if_false] at h ⊢
    rcases BLe_iff.1 (not_BLt.1 h) with h | h
    · exact h
    · exact absurd h hne

/-- One row: the value stored under its key, and a place from which every later row can be served. -/
theorem readOne_ok {fwd : Bool} {col : Column} (hs : Sorted col) {pk : Bytes} : ∀ {rest : Column}, At fwd col rest pk →
    (readOne fwd pk rest).1 = stored col pk ∧ ∀ pk', Before fwd pk pk' → At fwd col (readOne fwd pk rest).2 pk' := by
  intro rest
  induction rest with
  | nil =>
    intro h
    refine ⟨(stored_none ?_).symm, fun pk' hb => h.later hb⟩
    intro e he hk
    have := h.all e he (by rw [hk]; exact Before.irrefl)
    cases this
  | cons a t ih =>
    intro h
    obtain ⟨k, v⟩ := a
    have hord := List.pairwise_cons.1 h.order
    have pass : Before fwd k pk → At fwd col t pk := by
      intro hb
      refine ⟨hord.2, fun e he => h.sub e (by simp [he]), fun e he hn => ?_⟩
      rcases List.mem_cons.1 (h.all e he hn) with rfl | h'
      · exact absurd hb hn
      · exact h'
    have stop : Before fwd pk k → stored col pk = none := by
      intro hb
      apply stored_none
      intro e he hk
      rcases List.mem_cons.1 (h.all e he (by rw [hk]; exact Before.irrefl)) with h' | h'
      · rw [h'] at hk
        rw [show k = pk from hk] at hb
        exact Before.irrefl hb
      · have := hord.1 e h'
        rw [hk] at this
        exact Before.irrefl (this.trans hb)
    unfold readOne
    cases hc : bcmp pk k with
    | eq =>
      have hk := bcmp_eq_iff.1 hc
      subst hk
      refine ⟨(stored_some hs (h.sub _ (by simp))).symm, fun pk' hb => ?_⟩
      refine ⟨hord.2, fun e he => h.sub e (by simp [he]), fun e he hn => ?_⟩
      rcases List.mem_cons.1 (h.all e he fun hc => hn (hc.trans hb)) with rfl | h'
      · exact absurd hb hn
      · exact h'
    | lt =>
      have hc' : BLt pk k := hc
      cases fwd with
      | true => exact ⟨(stop (by simpa [Before] using hc')).symm, fun pk' hb => h.later hb⟩
      | false => exact ih (pass (by simpa [Before] using hc'))
    | gt =>
      have hc' : BLt k pk := bcmp_gt_iff.1 hc
      cases fwd with
      | true => exact ih (pass (by simpa [Before] using hc'))
      | false => exact ⟨(stop (by simpa [Before] using hc')).symm, fun pk' hb => h.later hb⟩

theorem readRows_ok {fwd : Bool} {col : Column} (hs : Sorted col) (rows : List (Bytes × Bool))
    (hr : rows.Pairwise fun a b => Before fwd a.1 b.1) : ∀ (n : Nat) (rest : Column),
    (∀ r ∈ rows, At fwd col rest r.1) →
    (readRows fwd col n rest rows).1 = rows.map (fun r => if r.2 then none else some (stored col r.1)) ∧
    ∀ pk, (∀ r ∈ rows, Before fwd r.1 pk) → At fwd col rest pk → At fwd col (readRows fwd col n rest rows).2 pk := by
  induction rows with
  | nil => intro n rest _; exact ⟨rfl, fun pk _ h => h⟩
  | cons r rows ih =>
    intro n rest h
    rw [List.pairwise_cons] at hr
    obtain ⟨pk, b⟩ := r
    cases b with
    | true =>
      obtain ⟨i1, i2⟩ := ih hr.2 (n + 1) rest (fun r hr' => h r (by simp [hr']))
      simp only [readRows, List.map_cons, if_true]
      exact ⟨by rw [i1], fun pk' hb hat => i2 pk' (fun r hr' => hb r (by simp [hr'])) hat⟩
    | false =>
      have hat : At fwd col (if n > 63 then seek fwd col pk else rest) pk := by
        split
        · exact seek_at hs pk
        · exact h (pk, false) (by simp)
      obtain ⟨o1, o2⟩ := readOne_ok hs hat
      obtain ⟨i1, i2⟩ := ih hr.2 0 _ (fun r hr' => o2 r.1 (hr.1 r hr'))
      simp only [readRows, List.map_cons]
      exact ⟨by rw [i1, o1]; simp, fun pk' hb _ => i2 pk' (fun r hr' => hb r (by simp [hr'])) (o2 pk' (hb (pk, false) (by simp)))⟩

/-- **C54.** Over any number of batches of any size, in either direction and whatever rows were filtered out before, each
remaining row gets the value stored under its primary key, or the default if none is stored. -/
theorem C54_column_scan {fwd : Bool} {col : Column} (hs : Sorted col) (batches : List (List (Bytes × Bool)))
    (hr : batches.flatten.Pairwise fun a b => Before fwd a.1 b.1) {first : Bytes}
    (hfirst : ∀ r ∈ batches.flatten, r.1 = first ∨ Before fwd first r.1) :
    readBatches fwd col (seek fwd col first) batches =
      batches.map fun b => b.map fun r => if r.2 then none else some (stored col r.1) := by
  have key : ∀ (bs : List (List (Bytes × Bool))) (rest : Column), (bs.flatten.Pairwise fun a b => Before fwd a.1 b.1) →
      (∀ r ∈ bs.flatten, At fwd col rest r.1) →
      readBatches fwd col rest bs = bs.map fun b => b.map fun r => if r.2 then none else some (stored col r.1) := by
    intro bs
    induction bs with
    | nil => intro _ _ _; rfl
    | cons b bs ih =>
      intro rest hp hat
      rw [List.flatten_cons, List.pairwise_append] at hp
      obtain ⟨i1, i2⟩ := readRows_ok hs b hp.1 0 rest (fun r hr' => hat r (by simp [hr']))
      simp only [readBatches, List.map_cons]
      rw [i1, ih _ hp.2.1]
      intro r hr'
      exact i2 r.1 (fun r0 h0 => hp.2.2 r0 h0 r hr') (hat r (by rw [List.flatten_cons]; exact List.mem_append_right _ hr'))
  apply key batches _ hr
  intro r hr'
  rcases hfirst r hr' with h | h
  · rw [h]; exact seek_at hs first
  · exact (seek_at hs first).later h

/-- Three of five rows have a value of their own; the batches go forwards, one row is filtered out. -/
example : readBatches true [([2], [20]), ([3], [30]), ([7], [70])] (seek true [([2], [20]), ([3], [30]), ([7], [70])] [1])
    [[([1], false), ([2], true)], [([3], false), ([5], false)], [([7], false)]] =
    [[some none, none], [some (some [30]), some none], [some (some [70])]] := by decide

example : ([[([1], false), ([2], true)], [([3], false), ([5], false)], [([7], false)]] : List (List (Bytes × Bool))).flatten.Pairwise
    fun a b => Before true a.1 b.1 := by unfold Before; decide

end BaikalDB.Iter
