import Verif.Scan.Map
import Mathlib.Data.List.Induction
import Mathlib.Data.List.Perm.Subperm

/-!
# The columns the ranges fix, and the records of IN conditions
-/

namespace BaikalDB.Scan
open KeyEnc KeyEnc.Spec IndexKey Like Like.Spec Route

/-! ## Numbering the records -/

theorem div_mod_mod {j off n N : Nat} (h : off * n ∣ N) : (j % N / off) % n = (j / off) % n := by
  rw [← Nat.mod_mul_right_div_self, ← Nat.mod_mul_right_div_self, Nat.mod_mod_of_dvd _ h]

theorem divmod_of {a off q r : Nat} (h : a = off * q + r) (hr : r < off) : a % off = r ∧ a / off = q := by
  subst h
  exact ⟨by rw [Nat.mul_add_mod, Nat.mod_eq_of_lt hr],
    by rw [Nat.mul_add_div (by omega), Nat.div_eq_of_lt hr, Nat.add_zero]⟩

theorem flatFill_eq (t : PType) (vs : List PbVal) (off : Nat) (hoff : 0 < off) (hn : 0 < vs.length)
    (recs : List (Bytes × Bytes)) (a : Nat) :
    flatFill t vs off (a % off) ((a / off) % vs.length) recs =
      (recs.zipIdx a).map fun p => (app p.1.1 t (vs.getD ((p.2 / off) % vs.length) (.bool false)), p.1.2) := by
  induction recs generalizing a with
  | nil => rfl
  | cons p ps ih =>
    simp only [flatFill, List.zipIdx_cons, List.map_cons, List.cons.injEq, true_and]
    rw [← ih (a + 1)]
    by_cases h : a % off + 1 = off
    · rw [if_pos h]
      have h3 := Nat.div_add_mod a off
      obtain ⟨h1, h2⟩ := divmod_of (a := a + 1) (off := off) (q := a / off + 1) (r := 0) (by rw [Nat.mul_add]; omega) hoff
      rw [h1, h2, Nat.mod_add_mod]
    · rw [if_neg h]
      have hlt := Nat.mod_lt a hoff
      have h3 := Nat.div_add_mod a off
      obtain ⟨h1, h2⟩ := divmod_of (a := a + 1) (off := off) (q := a / off) (r := a % off + 1) (by omega) (by omega)
      rw [h1, h2]

theorem flatFill_range (t : PType) (vs : List PbVal) (off N : Nat) (hoff : 0 < off) (hn : 0 < vs.length)
    (F : Nat → Bytes × Bytes) :
    flatFill t vs off 0 0 ((List.range N).map F) =
      (List.range N).map fun j => (app (F j).1 t (vs.getD ((j / off) % vs.length) (.bool false)), (F j).2) := by
  have h := flatFill_eq t vs off hoff hn ((List.range N).map F) 0
  simp only [Nat.zero_mod, Nat.zero_div] at h
  rw [h]
  apply List.ext_getElem?
  intro i
  simp only [List.getElem?_map, List.getElem?_zipIdx, List.getElem?_range, Option.map_map]
  by_cases hi : i < N
  · simp [List.getElem?_range, hi]
  · simp [List.getElem?_eq_none_iff.2 (show (List.range N).length ≤ i by simp; omega)]

theorem expand_range (t : PType) (vs : List PbVal) (N : Nat) (hN : 0 < N) (F : Nat → Bytes × Bytes) :
    expand t vs ((List.range N).map F) =
      (List.range (vs.length * N)).map fun j => (app (F (j % N)).1 t (vs.getD (j / N) (.bool false)), []) := by
  induction vs using List.reverseRecOn with
  | nil => simp [expand]
  | append_singleton vs v ih =>
    have hx : expand t (vs ++ [v]) ((List.range N).map F) =
        expand t vs ((List.range N).map F) ++ expand t [v] ((List.range N).map F) := by
      simp [expand]
    rw [hx, ih, List.length_append, List.length_singleton, Nat.add_mul, Nat.one_mul, List.range_add, List.map_append]
    congr 1
    · apply List.map_congr_left
      intro j hj
      have hj' : j / N < vs.length := by
        rw [Nat.div_lt_iff_lt_mul hN]; simpa using hj
      rw [List.getD_eq_getElem?_getD, List.getD_eq_getElem?_getD, List.getElem?_append_left hj']
    · simp only [expand, List.flatMap_cons, List.flatMap_nil, List.append_nil, List.map_map]
      apply List.map_congr_left
      intro j hj
      have hj' : j < N := by simpa using hj
      have h1 : (vs.length * N + j) % N = j := by
        rw [Nat.mul_comm, Nat.mul_add_mod, Nat.mod_eq_of_lt hj']
      have h2 : (vs.length * N + j) / N = vs.length := by
        rw [Nat.mul_comm, Nat.mul_add_div hN, Nat.div_eq_of_lt hj', Nat.add_zero]
      simp [h1, h2]

/-! ## Fixed columns -/

/-- A key column that is fixed; record `j` has the value number `(j / off) % vals.length`. -/
structure Col where
  f : FieldInfo
  vals : List PbVal
  off : Nat
  /-- the row IN it comes from, or its own number -/
  gid : Nat ⊕ Nat

def Col.val (c : Col) (j : Nat) : PbVal := c.vals.getD ((j / c.off) % c.vals.length) (.bool false)

def jvals (cols : List Col) (j : Nat) : List PbVal := cols.map (·.val j)

def flds (cols : List Col) : List FieldInfo := cols.map (·.f)

/-- The row has the values of record `j`. -/
def Matches (cols : List Col) (j : Nat) (row : Row) : Prop :=
  ∀ c ∈ cols, ∃ x, row c.f.id = some x ∧ colCompare x (c.val j) = .eq

def pkey (base : Bytes) (cols : List Col) (j : Nat) : Bytes := base ++ tk (flds cols) (jvals cols j)

theorem pkey_snoc (base : Bytes) (cols : List Col) (c : Col) (j : Nat) :
    pkey base (cols ++ [c]) j = pkey base cols j ++ ck c.f.type (c.val j) := by
  unfold pkey flds jvals
  rw [List.map_append, List.map_append, tk_append (by simp)]
  simp [tk]

/-- Where a fixed column comes from. -/
def ColFrom (m : FMap) (c : Col) : Prop :=
  c.vals = (m c.f.id).eqIn ∧
  (((m c.f.id).type = .eq ∨ (m c.f.id).type = .likeEq) ∧ c.gid = .inr c.f.id ∧ c.vals.length = 1 ∨
   (m c.f.id).type = .inn ∧ c.gid = if (m c.f.id).isRow then .inl (condOf (m c.f.id)) else .inr c.f.id)

/-- What holds while both walks go over fixed columns. -/
structure Rel (cs : Charset) (ix : IndexInfo) (conds : List Cond) (m : FMap) (base : Bytes) (cols : List Col)
    (s : St) (k : KSt) : Prop where
  cnt : s.fieldCnt = cols.length
  kcnt : k.cnt = cols.length
  ids : s.hitIds = cols.map (·.f.id)
  nodup : (cols.map (·.f.id)).Nodup
  leftOpen : s.leftOpen = false
  rightOpen : s.rightOpen = false
  leftCnt : s.leftCnt = cols.length
  rightCnt : s.rightCnt = cols.length
  likePrefix : s.likePrefix = false
  eqOrIn : s.eqOrIn = true
  eqCount : s.eqCount = cols.length
  src : ∀ c ∈ cols, ColFrom m c
  valid : ∀ c ∈ cols, ∀ v ∈ c.vals, Valid c.f.type v
  recs : (s.inPred = false ∧ s.inSize = 1 ∧ k.recs = [] ∧ k.left = pkey base cols 0 ∧ k.right = pkey base cols 0 ∧
      (∀ c ∈ cols, c.vals.length = 1)) ∨
    (s.inPred = true ∧ k.recs = (List.range s.inSize).map fun j => (pkey base cols j, []))
  size : 0 < s.inSize
  div : ∀ c ∈ cols, 0 < c.off ∧ 0 < c.vals.length ∧ c.off * c.vals.length ∣ s.inSize
  complete : ∀ ch : Nat ⊕ Nat → Nat, (∀ c ∈ cols, ch c.gid < c.vals.length) →
    ∃ j < s.inSize, ∀ c ∈ cols, (j / c.off) % c.vals.length = ch c.gid
  offs : ∀ c ∈ cols, ∀ i, c.gid = .inl i → k.offs.lookup i = some c.off
  offs' : ∀ i off, k.offs.lookup i = some off → ∃ c ∈ cols, c.gid = .inl i
  maps : ∀ i, (s.inMap.lookup i).isSome = (k.offs.lookup i).isSome
  count : ∀ i, (s.inMap.lookup i).getD 0 = (cols.filter fun c => decide (c.gid = .inl i)).length
  cut : ∀ i ∈ s.cut, ∃ d, conds[i]? = some d ∧
    ∀ row, RowOk cs ix row → ∀ j, Matches cols j row → Holds cs row d

theorem matches_left {a b : List Col} {j : Nat} {row : Row} (h : Matches (a ++ b) j row) : Matches a j row :=
  fun c hc => h c (by simp [hc])

theorem mem_insertId {i x : Nat} {l : List Nat} : x ∈ insertId i l ↔ x = i ∨ x ∈ l := by
  unfold insertId
  split
  · rename_i h
    constructor
    · exact .inr
    · rintro (rfl | h')
      · exact h
      · exact h'
  · simp [or_comm]

theorem mem_addAll {xs l : List Nat} {x : Nat} : x ∈ addAll l xs ↔ x ∈ l ∨ x ∈ xs := by
  unfold addAll
  induction xs generalizing l with
  | nil => simp
  | cons y ys ih =>
    rw [List.foldl_cons, ih, mem_insertId]
    simp only [List.mem_cons]
    tauto

theorem length_insertId (i : Nat) (l : List Nat) : l.length ≤ (insertId i l).length := by
  unfold insertId; split <;> simp

theorem length_addAll (xs l : List Nat) : l.length ≤ (addAll l xs).length := by
  unfold addAll
  induction xs generalizing l with
  | nil => simp
  | cons y ys ih =>
    rw [List.foldl_cons]
    exact Nat.le_trans (length_insertId y l) (ih _)

theorem val_mem {c : Col} (h : 0 < c.vals.length) (j : Nat) : c.val j ∈ c.vals := by
  unfold Col.val
  rw [List.getD_eq_getElem?_getD, List.getElem?_eq_getElem (Nat.mod_lt _ h), Option.getD_some]
  exact List.getElem_mem _

theorem scan_sub {e : Bool} {p : Bytes} {x : BitVec 8} (h : x ∈ (scan e p).2) : x ∈ p := by
  induction p generalizing e with
  | nil => cases e <;> simp [scan] at h
  | cons c p ih =>
    cases e
    all_goals
      simp only [scan] at h
      repeat' split at h
      all_goals grind

end BaikalDB.Scan
