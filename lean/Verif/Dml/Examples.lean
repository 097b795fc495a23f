import Verif.Dml.Props
/-! # C57: the hypotheses are met; where the code does otherwise -/
namespace BaikalDB.Dml.Examples

def mk (l : List (Option Nat)) : Rec Nat := fun f => (l[f]?).join

/-- A row store: `id` primary key, UNIQUE(f1), KEY(f2), f3 DEFAULT 7. -/
def T : Table Nat := ⟨[0, 1, 2, 3], [0], [⟨true, [1]⟩, ⟨false, [2]⟩], fun f => if f = 3 then some 7 else none, false, false⟩
def E : Env Nat := ⟨0, none, fun _ => true⟩
/-- The same with a TTL. -/
def TT : Table Nat := { T with ttl := true }
def ET (now : Nat) : Env Nat := ⟨now, some (now + 10), fun _ => true⟩
/-- The same as a column store. -/
def TC : Table Nat := { T with cstore := true }

theorem T_ok : T.Ok := ⟨by decide, by decide, by decide, by decide⟩
theorem TT_ok : TT.Ok := ⟨by decide, by decide, by decide, by decide⟩
theorem TC_ok : TC.Ok := ⟨by decide, by decide, by decide, by decide⟩
theorem E_ok : E.Ok T := ⟨by decide, by decide⟩
theorem ET_ok (n : Nat) : (ET n).Ok TT := ⟨by simp [ET], by simp [TT]⟩

def ins (rs : List (List (Option Nat))) (m : Mode Nat) : Stmt Nat := .insert m (rs.map mk)

theorem mk_out (l : List (Option Nat)) (f : Nat) (h : l.length ≤ f) : mk l f = none := by
  simp [mk, List.getElem?_eq_none h]

theorem rec_ok (a b c d : Option Nat) (hd : d ≠ none) : RecOk T (mk [a, b, c, d]) := by
  constructor
  · intro f hf hp h
    simp only [T, List.mem_cons, List.not_mem_nil, or_false] at hf
    rcases hf with rfl | rfl | rfl | rfl
    · rfl
    · rfl
    · rfl
    · simp [mk, hd] at h
  · intro f hf
    apply mk_out
    simp only [T, List.mem_cons, List.not_mem_nil, or_false, not_or] at hf
    simp; omega

/-- f1 = VALUES(f2), f2 = f2 + 1 -/
def as1 : List (Assign Nat) := [⟨1, [], [2], fun _ ys => ys.headD none⟩, ⟨2, [2], [], fun xs _ => (xs.headD none).map (· + 1)⟩]
/-- id = id + 100 -/
def asPk : List (Assign Nat) := [⟨0, [0], [], fun xs _ => (xs.headD none).map (· + 100)⟩]

def three : Stmt Nat := ins [[some 1, some 10, some 5, some 7], [some 2, some 20, some 5, some 8], [some 3, some 30, none, some 7]] .plain

theorem three_ok : three.Ok T E := by
  refine ⟨?_, by simp⟩
  intro r hr
  simp only [List.map_cons, List.map_nil, List.mem_cons, List.not_mem_nil, or_false] at hr
  rcases hr with rfl | rfl | rfl <;> exact rec_ok _ _ _ _ (by simp)

theorem rep_ok (m : Mode Nat) (hm : m = .plain ∨ m = .ignore ∨ m = .replace ∨ m = .onDup as1 ∨ m = .onDup asPk) (a b c d : Option Nat) (hd : d ≠ none) :
    (ins [[a, b, c, d]] m).Ok T E := by
  refine ⟨?_, ?_⟩
  · intro r hr
    simp only [List.map_cons, List.map_nil, List.mem_cons, List.not_mem_nil, or_false] at hr
    subst hr; exact rec_ok _ _ _ _ hd
  · intro as has a ha
    have h : as = as1 ∨ as = asPk := by
      rcases hm with rfl | rfl | rfl | h | h
      · cases has
      · cases has
      · cases has
      · rw [h] at has; cases has; exact .inl rfl
      · rw [h] at has; cases has; exact .inr rfl
    refine ⟨?_, by simp [T], fun _ _ => rfl⟩
    rcases h with rfl | rfl
    · simp only [as1, List.mem_cons, List.not_mem_nil, or_false] at ha
      rcases ha with rfl | rfl <;> exact ⟨by decide, by simp [T]⟩
    · simp only [asPk, List.mem_cons, List.not_mem_nil, or_false] at ha
      subst ha; exact ⟨by decide, by simp [T]⟩

/-- A condition `f3 = 7`. -/
def c7 : Cond Nat := ⟨[3], fun l => l == [some 7]⟩
/-- UPDATE … SET f1 = NULL, f2 = f2 + 1 WHERE f3 = 7, in two batches -/
def upd : Stmt Nat := .update [⟨2, [2], [], fun xs _ => (xs.headD none).map (· + 1)⟩] [2, 3] c7 [[[some 1], [some 2]], [[some 3], [some 9]]]
def del : Stmt Nat := .delete [3] c7 [[some 1], [some 2]]

theorem upd_ok : upd.Ok T E := by
  refine ⟨?_, by decide⟩
  intro a ha
  simp only [List.mem_cons, List.not_mem_nil, or_false] at ha
  subst ha
  exact ⟨⟨by decide, by simp [T]⟩, by decide, by decide⟩

theorem del_ok : del.Ok T E := by intro f hf; exact hf

/-- A history with every kind of statement. -/
def hist : List (Env Nat × Stmt Nat) :=
  [(E, three), (E, ins [[some 3, some 10, none, some 1]] .replace), (E, ins [[some 2, some 50, none, some 1]] .ignore),
   (E, ins [[some 4, some 20, some 40, some 1]] (.onDup as1)), (E, ins [[some 5, some 40, some 1, some 1]] (.onDup asPk)), (E, upd), (E, del)]

theorem hist_ok : ∀ p ∈ hist, p.1.Ok T ∧ p.2.Ok T p.1 ∧ p.1.inReg = fun _ => true := by
  intro p hp
  simp only [hist, List.mem_cons, List.not_mem_nil, or_false] at hp
  rcases hp with rfl | rfl | rfl | rfl | rfl | rfl | rfl
  · exact ⟨E_ok, three_ok, rfl⟩
  · exact ⟨E_ok, rep_ok _ (by simp) _ _ _ _ (by simp), rfl⟩
  · exact ⟨E_ok, rep_ok _ (by simp) _ _ _ _ (by simp), rfl⟩
  · exact ⟨E_ok, rep_ok _ (by simp) _ _ _ _ (by simp), rfl⟩
  · exact ⟨E_ok, rep_ok _ (by simp) _ _ _ _ (by simp), rfl⟩
  · exact ⟨E_ok, upd_ok, rfl⟩
  · exact ⟨E_ok, del_ok, rfl⟩

/-- The hypotheses of `C57_history` and so of `C57_exec` are met. -/
example : Sound T E (history T hist (Store.empty, 0)).1 :=
  (C57_history T T_ok (fun _ => true) hist hist_ok (by decide) E rfl (by decide)).1

/-- What a row looks like to a reader. -/
def row (T : Table Nat) (E : Env Nat) (S : Store Nat) (k : Key Nat) : Option (List (Option Nat)) :=
  if E.inReg k then (S.here k).bind fun e => if E.dead e then none else some ([0, 1, 2, 3].map (rowOf T S k)) else none

def after (n : Nat) : Store Nat × Int := history T (hist.take n) (Store.empty, 0)

/-- REPLACE (3, 10, NULL, 1): row 3 by its primary key and row 1 by UNIQUE go. -/
example : row T E (after 2).1 [some 3] = some [some 3, some 10, none, some 1] ∧ row T E (after 2).1 [some 1] = none ∧ (after 2).2 = 2 := by
  decide +kernel
/-- INSERT (4, 20, 40, 1) ON DUPLICATE KEY UPDATE f1 = VALUES(f2), f2 = f2 + 1: row 2 by UNIQUE. -/
example : row T E (after 4).1 [some 2] = some [some 2, some 40, some 6, some 8] ∧ row T E (after 4).1 [some 4] = none := by decide +kernel
/-- INSERT (5, 40, …) ON DUPLICATE KEY UPDATE id = id + 100. -/
example : row T E (after 5).1 [some 102] = some [some 102, some 40, some 6, some 8] ∧ row T E (after 5).1 [some 2] = none ∧ (after 5).2 = 2 := by
  decide +kernel
/-- INSERT of a key that is there is refused; of a UNIQUE value that is there too. -/
example : exec T E (after 2).1 (ins [[some 3, some 99, none, some 1]] .plain) = none := by
  have h : (exec T E (after 2).1 (ins [[some 3, some 99, none, some 1]] .plain)).isNone = true := by decide +kernel
  simpa using h
example : (exec T E (after 2).1 (ins [[some 8, some 10, none, some 1]] .plain)).isNone = true := by decide +kernel
/-- UPDATE that would make two rows agree on UNIQUE is refused. -/
example : (exec T E (after 2).1 (.update [⟨1, [], [], fun _ _ => some 10⟩] [1] Cond.none [[[some 2]]])).isNone = true := by decide +kernel
/-- The UPDATE of the history changes row 1 and 3 of the first three. -/
example : (exec T E (after 1).1 upd).map (fun o => (o.rows, [row T E o.store [some 1], row T E o.store [some 2], row T E o.store [some 3]])) =
    some (2, [some [some 1, some 10, some 6, some 7], some [some 2, some 20, some 5, some 8], some [some 3, some 30, none, some 7]]) := by
  decide +kernel

/-- With a TTL: an expired row does not stand in the way of an INSERT. -/
example : (exec TT (ET 100) (history TT [(ET 0, three)] (Store.empty, 0)).1 (ins [[some 1, some 20, some 6, some 7]] .plain)).map
    (fun o => (o.rows, o.inc, [row TT (ET 100) o.store [some 1], row TT (ET 100) o.store [some 2]])) =
    some (1, 0, [some [some 1, some 20, some 6, some 7], none]) := by decide +kernel
/-- The hypotheses are met with a TTL. -/
example : Sound TT (ET 100) (history TT [(ET 0, three), (ET 3, upd)] (Store.empty, 0)).1 := by
  refine (C57_history TT TT_ok (fun _ => true) _ ?_ (by decide) (ET 100) rfl (by decide)).1
  intro p hp
  simp only [List.mem_cons, List.not_mem_nil, or_false] at hp
  rcases hp with rfl | rfl
  · exact ⟨ET_ok _, three_ok, rfl⟩
  · exact ⟨ET_ok _, upd_ok, rfl⟩

/-- They are met by a column store: ON DUPLICATE KEY UPDATE f1 = VALUES(f2), f2 = f2 + 1 reads f2 because KEY(f2) is changed. -/
example : Sound TC E (history TC [(E, three), (E, ins [[some 4, some 20, some 40, some 1]] (.onDup as1)), (E, upd), (E, del)] (Store.empty, 0)).1 := by
  refine (C57_history TC TC_ok (fun _ => true) _ ?_ (by decide) E rfl (by decide)).1
  intro p hp
  simp only [List.mem_cons, List.not_mem_nil, or_false] at hp
  have hE : E.Ok TC := ⟨by decide, by decide⟩
  rcases hp with rfl | rfl | rfl | rfl
  · exact ⟨hE, ⟨three_ok.1, fun as h => by cases h⟩, rfl⟩
  · refine ⟨hE, ⟨(rep_ok .plain (by simp) (some 4) (some 20) (some 40) (some 1) (by simp)).1, ?_⟩, rfl⟩
    intro as has a ha
    cases has
    simp only [as1, List.mem_cons, List.not_mem_nil, or_false] at ha
    rcases ha with rfl | rfl
    · exact ⟨⟨by decide, by simp [TC, T]⟩, by simp, fun _ _ => rfl⟩
    · refine ⟨⟨by decide, by simp [TC, T]⟩, fun _ _ f hf => ?_, fun _ _ => rfl⟩
      simp only [List.mem_cons, List.not_mem_nil, or_false] at hf
      subst hf
      exact .inr (.inr ⟨⟨false, [2]⟩, by simp [TC, T], by simp, ⟨2, [2], [], fun xs _ => (xs.headD none).map (· + 1)⟩, by simp [as1], by simp⟩)
  · exact ⟨hE, upd_ok, rfl⟩
  · exact ⟨hE, del_ok, rfl⟩

/-! ### Where the code does otherwise -/

/-- A region with the key 1 only. -/
def E1 : Env Nat := ⟨0, none, fun k => k == [some 1]⟩
def one (T : Table Nat) (r : List (Option Nat)) : Store Nat := (history T [(E, ins [r] .plain)] (Store.empty, 0)).1

/-- ON DUPLICATE KEY UPDATE of the primary key to a key of another region: the row is gone (and two affected rows are reported). -/
theorem C57_moved_counterexample : (exec T E1 (one T [some 1, some 10, some 5, some 7]) (ins [[some 1, some 0, some 0, some 1]] (.onDup asPk))).map
    (fun o => (o.rows, (o.store.here [some 1]).isSome, (o.store.here [some 101]).isSome)) = some (2, false, false) := by decide +kernel

/-- Column store: `ON DUPLICATE KEY UPDATE f3 = f3 + 1` does not read f3, and the row gets NULL plus one. -/
theorem C57_column_dup_counterexample :
    (exec TC E (one TC [some 1, some 10, some 5, some 8])
      (ins [[some 1, some 0, some 0, some 1]] (.onDup [⟨3, [3], [], fun xs _ => some ((xs.headD none).elim 0 (· + 1))⟩]))).map
    (fun o => row TC E o.store [some 1]) = some (some [some 1, some 10, some 5, some 0]) ∧
    (exec T E (one T [some 1, some 10, some 5, some 8])
      (ins [[some 1, some 0, some 0, some 1]] (.onDup [⟨3, [3], [], fun xs _ => some ((xs.headD none).elim 0 (· + 1))⟩]))).map
    (fun o => row T E o.store [some 1]) = some (some [some 1, some 10, some 5, some 9]) := by decide +kernel

/-- Column store with TTL: a row inserted over an expired one shows the expired row's value where its own is the default. -/
theorem C57_column_expired_counterexample :
    (exec { TC with ttl := true } (ET 100) (history { TC with ttl := true } [(ET 0, ins [[some 1, some 10, some 5, some 8]] .plain)] (Store.empty, 0)).1
      (ins [[some 1, some 20, some 6, some 7]] .plain)).map (fun o => row { TC with ttl := true } (ET 100) o.store [some 1]) =
    some (some [some 1, some 20, some 6, some 8]) := by decide +kernel

/-- KEY(f3), f3 DEFAULT 7. -/
def TN : Table Nat := ⟨[0, 1, 2, 3], [0], [⟨false, [3]⟩], fun f => if f = 3 then some 7 else none, false, false⟩

/-- `SET f3 = NULL` on a column with a default value: the row shows the default value, the index holds NULL. -/
theorem C57_null_default_counterexample :
    (exec TN E (one TN [some 1, some 10, some 5, some 8]) (.update [⟨3, [], [], fun _ _ => none⟩] [] Cond.none [[[some 1]]])).map
    (fun o => (row TN E o.store [some 1], (o.store.idx 0 [none, some 1]).isSome, (o.store.idx 0 [some 7, some 1]).isSome)) =
    some (some [some 1, some 10, some 5, some 7], true, false) := by decide +kernel

/-- Two rows with NULL are not allowed in a UNIQUE index (in SQL they are). -/
theorem C57_null_unique_counterexample :
    exec T E (one T [some 1, none, some 5, some 7]) (ins [[some 2, none, some 6, some 7]] .plain) = none := by
  have h : (exec T E (one T [some 1, none, some 5, some 7]) (ins [[some 2, none, some 6, some 7]] .plain)).isNone = true := by decide +kernel
  simpa using h

/-- An UPDATE outside of a transaction that fails in its second batch has changed the rows of the first. -/
theorem C57_batches_counterexample :
    exec T E (after 1).1 (.update [⟨1, [], [], fun _ _ => some 99⟩] [1] Cond.none [[[some 1]], [[some 2]]]) = none ∧
    row T E (leaves T E [⟨1, [], [], fun _ _ => some 99⟩] [1] Cond.none [[[some 1]], [[some 2]]] (after 1).1) [some 1] =
      some [some 1, some 99, some 5, some 7] := by
  have h : (exec T E (after 1).1 (.update [⟨1, [], [], fun _ _ => some 99⟩] [1] Cond.none [[[some 1]], [[some 2]]])).isNone = true := by
    decide +kernel
  exact ⟨by simpa using h, by decide +kernel⟩

end BaikalDB.Dml.Examples
