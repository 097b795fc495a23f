import Verif.AutoIncr.Model
import Mathlib.Tactic.Common
/-
C15: auto-increment ids are never handed out twice.
-/
namespace BaikalDB.AutoIncr

namespace Spec

/-- Operations the guarantee for table `t` covers: the table is not dropped, no forced update, and ids do not exceed 64
bits. -/
def Safe (t : Int) (m : Map) : Op → Prop
  | .add _ _ _ => True
  | .drop t' => t' ≠ t
  | .gen t' s c => t' = t → ∀ old, m t = some old → (∀ x, s = some x → x + 1 + c < 2 ^ 64) ∧ old + c < 2 ^ 64
  | .update t' s i f => t' = t → f = false ∧ (∀ x, s = some x → x + 1 < 2 ^ 64) ∧
      ∀ old x, m t = some old → i = some x → old + x < 2 ^ 64

def SafeAll (t : Int) : Map → List Op → Prop
  | _, [] => True
  | m, o :: os => Safe t m o ∧ SafeAll t (apply m o).1 os

/-- The ranges granted for table `t`, in order. -/
def grants (t : Int) : List Op → List Resp → List (Nat × Nat)
  | .gen t' _ _ :: os, .range a b :: rs => if t' = t then (a, b) :: grants t os rs else grants t os rs
  | _ :: os, _ :: rs => grants t os rs
  | _, _ => []

end Spec
open Spec

theorem Map.set_same (m : Map) (t : Int) (v : Option Nat) : m.set t v t = v := by simp [Map.set]
theorem Map.set_ne (m : Map) {t t' : Int} (v : Option Nat) (h : t' ≠ t) : m.set t v t' = m t' := by simp [Map.set, h]

def Op.table : Op → Int
  | .add t _ _ => t
  | .drop t => t
  | .gen t _ _ => t
  | .update t _ _ _ => t

/-- C15: an operation on one table leaves the ids of all others alone. -/
theorem C15_tables_independent (m : Map) (o : Op) {t : Int} (h : o.table ≠ t) : (apply m o).1 t = m t := by
  cases o <;> simp only [Op.table] at h <;> simp only [apply]
  · unfold addTable; split
    · rfl
    · exact Map.set_ne _ _ (Ne.symm h)
  · unfold dropTable; split
    · rfl
    · exact Map.set_ne _ _ (Ne.symm h)
  · unfold genId; split
    · rfl
    · exact Map.set_ne _ _ (Ne.symm h)
  · unfold update; split
    · rfl
    · split
      · rfl
      · rfl
      · split
        · rfl
        · exact Map.set_ne _ _ (Ne.symm h)
      · exact Map.set_ne _ _ (Ne.symm h)

theorem u64_of_lt {n : Nat} (h : n < 2 ^ 64) : u64 n = n := Nat.mod_eq_of_lt h

/-- C15: a grant has exactly the requested size, starts at or above the counter and above the supplied id, and the
counter moves to its end. -/
theorem C15_grant {m : Map} {t : Int} {s : Option Nat} {c old : Nat} (hm : m t = some old) (hs : Safe t m (.gen t s c)) :
    ∃ a, genId m t s c = (m.set t (some (a + c)), .range a (a + c)) ∧ old ≤ a ∧ (∀ x, s = some x → x < a) ∧
      (a = old ∨ ∃ x, s = some x ∧ a = x + 1) := by
  obtain ⟨h1, h2⟩ := hs rfl old hm
  cases s with
  | none => exact ⟨old, by simp [genId, hm, u64_of_lt h2], Nat.le_refl _, by simp, .inl rfl⟩
  | some x =>
    have h3 := h1 x rfl
    have e : u64 (x + 1) = x + 1 := u64_of_lt (by omega)
    by_cases hlt : old < x + 1
    · exact ⟨x + 1, by simp [genId, hm, e, hlt, u64_of_lt h3], by omega, by simp, .inr ⟨x, rfl, rfl⟩⟩
    · refine ⟨old, by simp [genId, hm, e, hlt, u64_of_lt h2], Nat.le_refl _, ?_, .inl rfl⟩
      intro y hy; cases hy; omega

/-- The counter of a table does not go back. -/
theorem counter_mono {m : Map} {t : Int} {o : Op} {old : Nat} (hm : m t = some old) (hs : Safe t m o) :
    ∃ new, (apply m o).1 t = some new ∧ old ≤ new := by
  by_cases ht : o.table = t
  · cases o <;> simp only [Op.table] at ht <;> subst ht <;> simp only [apply]
    · exact ⟨old, by simp [addTable, hm], Nat.le_refl _⟩
    · exact absurd rfl hs
    · obtain ⟨a, h1, h2, _⟩ := C15_grant hm hs
      exact ⟨_, by rw [h1]; exact Map.set_same _ _ _, by omega⟩
    · rename_i t s i f
      obtain ⟨rfl, h1, h2⟩ := hs rfl
      unfold update
      rw [hm]
      cases s with
      | none =>
        cases i with
        | none => exact ⟨old, hm, Nat.le_refl _⟩
        | some x =>
          have := h2 old x hm rfl
          exact ⟨old + x, by simp [Map.set_same, u64_of_lt this], by omega⟩
      | some x =>
        cases i with
        | some y => exact ⟨old, hm, Nat.le_refl _⟩
        | none =>
          have e := u64_of_lt (h1 x rfl)
          by_cases hgt : old > x + 1
          · exact ⟨old, by simp [e, hgt, hm], Nat.le_refl _⟩
          · exact ⟨x + 1, by simp [e, hgt, Map.set_same], by omega⟩
  · exact ⟨old, by rw [C15_tables_independent m o ht, hm], Nat.le_refl _⟩

theorem grants_cons (t : Int) (o : Op) (r : Resp) (os : List Op) (rs : List Resp) :
    grants t (o :: os) (r :: rs) = (match o, r with
      | .gen t' _ _, .range a b => if t' = t then (a, b) :: grants t os rs else grants t os rs
      | _, _ => grants t os rs) := by
  cases o <;> cases r <;> rfl

theorem grants_ge (t : Int) : ∀ (os : List Op) (m : Map) (old : Nat), m t = some old → SafeAll t m os →
    (∀ g ∈ grants t os (applyAll m os).2, old ≤ g.1 ∧ g.1 ≤ g.2) ∧
      (grants t os (applyAll m os).2).Pairwise (fun a b => a.2 ≤ b.1) := by
  intro os
  induction os with
  | nil => intro m old _ _; simp [grants]
  | cons o os ih =>
    intro m old hm hs
    obtain ⟨hs1, hs2⟩ := hs
    obtain ⟨new, hn, hle⟩ := counter_mono hm hs1
    obtain ⟨i1, i2⟩ := ih _ new hn hs2
    have hother : grants t (o :: os) (applyAll m (o :: os)).2 = grants t os (applyAll (apply m o).1 os).2 →
        (∀ g ∈ grants t (o :: os) (applyAll m (o :: os)).2, old ≤ g.1 ∧ g.1 ≤ g.2) ∧
          (grants t (o :: os) (applyAll m (o :: os)).2).Pairwise (fun a b => a.2 ≤ b.1) := by
      intro e
      rw [e]
      exact ⟨fun g hg => by have := i1 g hg; omega, i2⟩
    simp only [applyAll] at hother ⊢
    cases o with
    | gen t' s c =>
      by_cases ht : t' = t
      · subst ht
        obtain ⟨a, h1, h2, _⟩ := C15_grant hm hs1
        simp only [apply, h1] at hn i1 i2 ⊢
        rw [grants_cons]
        simp only [if_true]
        rw [Map.set_same] at hn
        simp only [Option.some.injEq] at hn
        subst hn
        refine ⟨?_, List.pairwise_cons.2 ⟨fun g hg => (i1 g hg).1, i2⟩⟩
        intro g hg
        rcases List.mem_cons.1 hg with rfl | hg
        · exact ⟨h2, by simp only []; omega⟩
        · have := i1 g hg; omega
      · apply hother
        rw [grants_cons]
        cases (apply m (.gen t' s c)).2 <;> simp [ht]
    | _ => exact hother (by rw [grants_cons])

/-- C15: in any history of the meta server, the ranges granted for one table never overlap and increase. -/
theorem C15_grants_increase {t : Int} {m : Map} {old : Nat} (hm : m t = some old) {os : List Op} (hs : SafeAll t m os) :
    (grants t os (applyAll m os).2).Pairwise (fun a b => a.2 ≤ b.1) ∧
    ∀ g ∈ grants t os (applyAll m os).2, old ≤ g.1 ∧ g.1 ≤ g.2 :=
  ⟨(grants_ge t os m old hm hs).2, (grants_ge t os m old hm hs).1⟩

/-- C15: after an accepted (not forced) update to `x`, all ids granted later are above `x`. -/
theorem C15_update_respected {t : Int} {m : Map} {old x : Nat} (hm : m t = some old) (hx : x + 1 < 2 ^ 64)
    (hok : (update m t (some x) none false).2 = .ok) {os : List Op} (hs : SafeAll t (update m t (some x) none false).1 os) :
    ∀ g ∈ grants t os (applyAll (update m t (some x) none false).1 os).2, x < g.1 := by
  intro g hg
  have e := u64_of_lt hx
  by_cases hgt : old > x + 1
  · simp [update, hm, e, hgt] at hok
  · have hv : (update m t (some x) none false).1 t = some (x + 1) := by simp [update, hm, e, hgt, Map.set_same]
    have := (C15_grants_increase hv hs).2 g hg
    omega

/-- C15: a table that is unknown, or dropped, grants nothing; adding a known table changes nothing. -/
theorem C15_unknown_table {m : Map} {t : Int} (h : m t = none) (s : Option Nat) (c : Nat) :
    genId m t s c = (m, .error) ∧ (dropTable m t) = (m, .error) ∧ ∀ x f, (addTable m t x f).1 t = some x := by
  refine ⟨by simp [genId, h], by simp [dropTable, h], fun x f => by simp [addTable, h, Map.set_same]⟩

theorem C15_readd_keeps_counter {m : Map} {t : Int} {old : Nat} (h : m t = some old) (x : Nat) (f : Bool) :
    addTable m t x f = (m, if f then .ok else .error) := by simp [addTable, h]

theorem load_foldl (l : List (Int × Nat)) : ∀ (m : Map), (l.map (·.1)).Nodup →
    ∀ t, (l.foldl (fun m x => m.set x.1 (some x.2)) m) t = match l.find? (fun x => x.1 = t) with
      | some x => some x.2
      | none => m t := by
  induction l with
  | nil => intro m _ t; rfl
  | cons x l ih =>
    intro m hn t
    simp only [List.map_cons, List.nodup_cons] at hn
    rw [List.foldl_cons, ih _ hn.2 t]
    by_cases hx : x.1 = t
    · have : l.find? (fun y => decide (y.1 = t)) = none := by
        rw [List.find?_eq_none]
        intro y hy hyt
        simp only [decide_eq_true_eq] at hyt
        exact hn.1 (List.mem_map.2 ⟨y, hy, by rw [hyt, hx]⟩)
      rw [this, List.find?_cons_of_pos (by simpa using hx)]
      simp [hx, Map.set_same]
    · rw [List.find?_cons_of_neg (by simpa using hx)]
      split
      · rfl
      · exact Map.set_ne _ _ (fun e => hx e.symm)

/-- C15: a replica restored from a snapshot has exactly the counters of the replica that saved it, in whatever order the
hash map wrote them; so it answers every later request in the same way. -/
theorem C15_snapshot {m : Map} {l : List (Int × Nat)} (h : IsSnapshot m l) : load l = m := by
  funext t
  unfold load
  rw [load_foldl l _ h.1 t]
  split
  · rename_i x hx
    have h1 := List.mem_of_find?_eq_some hx
    have h2 := List.find?_some hx
    simp only [decide_eq_true_eq] at h2
    subst h2
    exact ((h.2 x.1 x.2).2 h1).symm
  · rename_i hx
    cases hm : m t with
    | none => rfl
    | some v =>
      have := (h.2 t v).1 hm
      rw [List.find?_eq_none] at hx
      exact absurd (by simp) (hx _ this)

theorem C15_restore_then_same {m : Map} {l : List (Int × Nat)} (h : IsSnapshot m l) (os : List Op) :
    applyAll (load l) os = applyAll m os := by rw [C15_snapshot h]

/-- Deviation, as designed: a forced update goes back and ids are granted again. -/
theorem C15_forced_update_counterexample :
    (applyAll (fun _ => some 1) [.gen 7 none 10, .update 7 (some 0) none true, .gen 7 none 10]).2 =
      [.range 1 11, .ok, .range 1 11] := by decide

/-- Deviation: id 2^64 - 1 supplied by a user wraps to 0, which does not raise the counter (nor is it refused); and a
counter near the end wraps and starts over. -/
theorem C15_wrap_counterexample :
    (applyAll (fun _ => some 5) [.gen 7 (some (2 ^ 64 - 1)) 1]).2 = [.range 5 6] ∧
    (applyAll (fun _ => some (2 ^ 64 - 1)) [.gen 7 none 3, .gen 7 none 1]).2 = [.range (2 ^ 64 - 1) 2, .range 2 3] := by decide

/-! ### INSERT statements -/

/-- (row, final id) pairs of the rows whose id was generated / given. -/
def generated (rows : List (Option Int)) (ids : List Int) : List Int := ((rows.zip ids).filter (fun x => needsId x.1)).map (·.2)
def explicitIds (rows : List (Option Int)) : List Int := rows.filterMap (fun r => if needsId r then none else r)

theorem scan_spec : ∀ (rows : List (Option Int)) (n : Nat) (mx : Int),
    (scan rows (n, mx)).1 = n + (rows.filter needsId).length ∧ mx ≤ (scan rows (n, mx)).2 ∧
    (∀ v ∈ explicitIds rows, v ≤ (scan rows (n, mx)).2) ∧
    ((scan rows (n, mx)).2 = mx ∨ (scan rows (n, mx)).2 ∈ explicitIds rows) := by
  intro rows
  induction rows with
  | nil => intro n mx; simp [scan, explicitIds]
  | cons r rs ih =>
    intro n mx
    unfold scan
    by_cases h : needsId r = true
    · rw [if_pos h]
      obtain ⟨h1, h2, h3, h4⟩ := ih (n + 1) mx
      have he : explicitIds (r :: rs) = explicitIds rs := by simp [explicitIds, h]
      rw [he]
      exact ⟨by rw [h1]; simp [h]; omega, h2, h3, h4⟩
    · rw [if_neg h]
      cases r with
      | none => exact absurd rfl h
      | some v =>
        simp only []
        have hv : needsId (some v) = false := by simpa using h
        have he : explicitIds (some v :: rs) = v :: explicitIds rs := by simp [explicitIds, hv]
        rw [he]
        obtain ⟨h1, h2, h3, h4⟩ := ih n (if v > mx then v else mx)
        have hm : mx ≤ (if v > mx then v else mx) ∧ v ≤ (if v > mx then v else mx) := by split <;> omega
        refine ⟨by rw [h1]; simp [hv], by omega, ?_, ?_⟩
        · intro w hw
          rcases List.mem_cons.1 hw with rfl | hw
          · omega
          · exact h3 w hw
        · rcases h4 with h4 | h4
          · rw [h4]; split
            · right; simp
            · left; rfl
          · right; simp [h4]

theorem fill_spec : ∀ (rows : List (Option Int)) (next : Int),
    (fill rows next).length = rows.length ∧
    generated rows (fill rows next) = (List.range (rows.filter needsId).length).map (fun i : Nat => next + (i : Int)) ∧
    ∀ x ∈ rows.zip (fill rows next), needsId x.1 = false → x.1 = some x.2 := by
  intro rows
  induction rows with
  | nil => intro next; simp [fill, generated]
  | cons r rs ih =>
    intro next
    unfold fill
    by_cases h : needsId r = true
    · rw [if_pos h]
      obtain ⟨h1, h2, h3⟩ := ih (next + 1)
      refine ⟨by simp [h1], ?_, ?_⟩
      · have : generated (r :: rs) (next :: fill rs (next + 1)) = next :: generated rs (fill rs (next + 1)) := by
          simp [generated, h]
        rw [this, h2]
        simp only [List.filter_cons, h, if_true, List.length_cons, List.range_succ_eq_map, List.map_cons, List.map_map]
        congr 1
        · simp
        · apply List.map_congr_left; intro i _; simp only [Function.comp]; omega
      · intro x hx hn
        simp only [List.zip_cons_cons, List.mem_cons] at hx
        rcases hx with rfl | hx
        · simp only [] at hn; rw [h] at hn; cases hn
        · exact h3 x hx hn
    · rw [if_neg h]
      have h' : needsId r = false := by simpa using h
      obtain ⟨h1, h2, h3⟩ := ih next
      cases r with
      | none => exact absurd rfl h
      | some v =>
        refine ⟨by simp [h1], ?_, ?_⟩
        · simp only [generated, List.zip_cons_cons, List.filter_cons, h', Bool.false_eq_true, if_false] at h2 ⊢
          exact h2
        · intro x hx hn
          simp only [List.zip_cons_cons, List.mem_cons] at hx
          rcases hx with rfl | hx
          · rfl
          · exact h3 x hx hn

/-- The statement's ids stay below 2^64 (`old` is the table's counter). -/
def Fits (old : Nat) (rows : List (Option Int)) : Prop :=
  old + 1 + rows.length < 2 ^ 64 ∧ ∀ v ∈ explicitIds rows, v + 1 + rows.length < 2 ^ 64

/-- C15: one INSERT.  Every row gets an id; given ids are kept; generated ids are consecutive, hence distinct, not below
the counter before, below the counter after, and above every given id of the statement; and the counter ends above all
given ids, too. -/
theorem C15_insert {m : Map} {t : Int} {old : Nat} (hm : m t = some old) {rows : List (Option Int)} (hf : Fits old rows) :
    ∃ m' ids new, insert m t false rows = (m', some ids) ∧ m' t = some new ∧ old ≤ new ∧ ids.length = rows.length ∧
      (∀ x ∈ rows.zip ids, needsId x.1 = false → x.1 = some x.2) ∧
      (generated rows ids).Pairwise (· < ·) ∧
      (∀ g ∈ generated rows ids, (old : Int) ≤ g ∧ g < new ∧ ∀ v ∈ explicitIds rows, v < g) ∧
      (∀ v ∈ explicitIds rows, v < new ∨ v ≤ 0) := by
  obtain ⟨s1, s2, s3, s4⟩ := scan_spec rows 0 0
  have hlen : (rows.filter needsId).length ≤ rows.length := List.length_filter_le ..
  unfold insert request
  generalize hsc : scan rows (0, 0) = sc at *
  obtain ⟨n, mx⟩ := sc
  simp only [Nat.zero_add] at s1 s2 s3 s4
  simp only [Bool.false_eq_true, if_false]
  by_cases h0 : n = 0 ∧ mx = 0
  · rw [if_pos h0]
    obtain ⟨rfl, rfl⟩ := h0
    have hnone : ∀ r ∈ rows, needsId r = false := by
      intro r hr
      have := List.length_eq_zero_iff.1 s1.symm
      rw [List.filter_eq_nil_iff] at this
      simpa using this r hr
    have hz : ∀ x ∈ rows.zip (rows.map fun r => r.getD 0), x.1 ∈ rows ∧ x.2 = x.1.getD 0 := by
      intro x hx
      rw [List.zip_map_right] at hx
      obtain ⟨y, hy, rfl⟩ := List.mem_map.1 hx
      have hyy : y.1 = y.2 ∧ y.1 ∈ rows := by
        have : ∀ (l : List (Option Int)), ∀ y ∈ l.zip l, y.1 = y.2 ∧ y.1 ∈ l := by
          intro l
          induction l with
          | nil => intro y hy; cases hy
          | cons a l ih =>
            intro y hy
            simp only [List.zip_cons_cons, List.mem_cons] at hy
            rcases hy with rfl | hy
            · simp
            · obtain ⟨h1, h2⟩ := ih y hy
              exact ⟨h1, by simp [h2]⟩
        exact this rows y hy
      simp [hyy.1 ▸ hyy.2, hyy.1]
    have hg : generated rows (rows.map fun r => r.getD 0) = [] := by
      simp only [generated, List.map_eq_nil_iff, List.filter_eq_nil_iff]
      intro x hx
      simp [hnone _ (hz x hx).1]
    refine ⟨m, _, old, rfl, hm, Nat.le_refl _, by simp, ?_, ?_, ?_, ?_⟩
    · intro x hx hn
      obtain ⟨h1, h2⟩ := hz x hx
      cases hx1 : x.1 with
      | none => rw [hx1] at hn; cases hn
      | some v => rw [h2, hx1]; rfl
    · rw [hg]; exact .nil
    · rw [hg]; intro g hgm; cases hgm
    · intro v hv; right; exact s3 v hv
  · rw [if_neg h0]
    simp only []
    have hmx : ((mx.toNat : Nat) : Int) = mx := Int.toNat_of_nonneg s2
    have hmxb : mx + 1 + n < 2 ^ 64 := by
      rcases s4 with h | h
      · have := hf.1; omega
      · have := hf.2 mx h; omega
    have hsafe : Safe t m (.gen t (some mx.toNat) n) := by
      intro _ o ho
      have : o = old := by rw [hm] at ho; simpa using ho.symm
      subst this
      refine ⟨?_, ?_⟩
      · intro x hx
        simp only [Option.some.injEq] at hx
        subst hx
        omega
      · have := hf.1; omega
    obtain ⟨a, h1, h2, h3, h4⟩ := C15_grant hm hsafe
    rw [h1]
    simp only []
    obtain ⟨f1, f2, f3⟩ := fill_spec rows a
    have ha := h3 _ rfl
    refine ⟨_, _, a + n, rfl, Map.set_same _ _ _, by omega, f1, f3, ?_, ?_, ?_⟩
    · rw [f2, ← s1, List.pairwise_map]
      exact List.pairwise_lt_range.imp (fun h => by omega)
    · rw [f2, ← s1]
      intro g hg
      obtain ⟨i, hi, rfl⟩ := List.mem_map.1 hg
      rw [List.mem_range] at hi
      refine ⟨by omega, by omega, ?_⟩
      intro v hv
      have := s3 v hv
      omega
    · intro v hv
      have := s3 v hv
      left; omega

/-- A sequence of INSERTs into one table, in the order the meta server serves them: (rows, ids) of each. -/
def inserts (m : Map) (t : Int) : List (List (Option Int)) → List (List (Option Int) × List Int)
  | [] => []
  | rows :: rest =>
    let r := insert m t false rows
    (rows, r.2.getD []) :: inserts r.1 t rest

def FitsAll (t : Int) : Map → List (List (Option Int)) → Prop
  | _, [] => True
  | m, rows :: rest => (∀ old, m t = some old → Fits old rows) ∧ FitsAll t (insert m t false rows).1 rest

theorem inserts_ge (t : Int) : ∀ (stmts : List (List (Option Int))) (m : Map) (old : Nat), m t = some old → FitsAll t m stmts →
    ∀ x ∈ inserts m t stmts, ∀ g ∈ generated x.1 x.2, (old : Int) ≤ g := by
  intro stmts
  induction stmts with
  | nil => intro m old _ _ x hx; cases hx
  | cons rows rest ih =>
    intro m old hm hf x hx g hg
    obtain ⟨m', ids, new, h1, h2, h3, h4, h5, h6, h7, h8⟩ := C15_insert hm (hf.1 old hm)
    simp only [inserts, h1, Option.getD_some, List.mem_cons] at hx
    rcases hx with rfl | hx
    · exact (h7 g hg).1
    · have hf2 := hf.2
      rw [h1] at hf2
      have := ih m' new h2 hf2 x hx g hg
      omega

/-- C15: over any sequence of INSERTs, a generated id is above every id generated before and above every (positive) id
given before; within one statement generated ids are distinct and differ from the given ones (`C15_insert`). -/
theorem C15_inserts {t : Int} : ∀ {stmts : List (List (Option Int))} {m : Map} {old : Nat}, m t = some old → FitsAll t m stmts →
    (inserts m t stmts).Pairwise (fun a b => ∀ g ∈ generated b.1 b.2,
      (∀ g' ∈ generated a.1 a.2, g' < g) ∧ ∀ v ∈ explicitIds a.1, v < g ∨ v ≤ 0) := by
  intro stmts
  induction stmts with
  | nil => intro m old _ _; exact .nil
  | cons rows rest ih =>
    intro m old hm hf
    obtain ⟨m', ids, new, h1, h2, h3, h4, h5, h6, h7, h8⟩ := C15_insert hm (hf.1 old hm)
    have hf2 := hf.2
    rw [h1] at hf2
    simp only [inserts, h1, Option.getD_some]
    refine List.pairwise_cons.2 ⟨?_, ih h2 hf2⟩
    intro b hb g hg
    have hge := inserts_ge t rest m' new h2 hf2 b hb g hg
    refine ⟨fun g' hg' => by have := (h7 g' hg').2.1; omega, fun v hv => ?_⟩
    rcases h8 v hv with h | h
    · left; omega
    · right; exact h

/-- With the column's noskip flag, given ids do not move the counter: a later statement generates an id already in use. -/
theorem C15_noskip_counterexample :
    let r := insert (fun _ => some 1) 7 true [some 2]
    (insert r.1 7 true [none, none]).2 = some [1, 2] := by decide

/-- Non-vacuity. -/
example : inserts (fun _ => some 1) 7 [[none, some 10, some 0], [none], [some 3, none]] =
    [([none, some 10, some 0], [11, 10, 12]), ([none], [13]), ([some 3, none], [3, 14])] := by decide
example : Fits 1 [none, some 10, some 0] := by
  refine ⟨by decide, ?_⟩
  intro v hv
  simp [explicitIds, needsId] at hv
  subst hv; decide
example : SafeAll 7 (fun _ => some 1) [.gen 7 none 10, .update 7 (some 20) none false, .gen 7 (some 4) 2, .drop 8] := by
  refine ⟨?_, ?_, ?_, ?_, trivial⟩
  · intro _ old h; simp at h; subst h; simp
  · intro _; refine ⟨rfl, ?_, ?_⟩ <;> simp
  · intro _ old h
    simp [apply, update, genId, Map.set, u64] at h
    subst h; simp
  · simp [Safe]

end BaikalDB.AutoIncr
