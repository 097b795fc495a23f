import Verif.Join.Lemmas
/-!
# The hash joins of `JoinNode`
-/
namespace BaikalDB.Join

variable {α β : Type}

/-- Limit reached with `n` rows. -/
def Hit (c : Cfg α β) (n : Nat) : Prop := ∃ l, c.limit = some l ∧ l ≤ n

theorem reached_hit {c : Cfg α β} {n : Nat} (h : c.reached n = true) : Hit c n := by
  unfold Cfg.reached at h
  cases hl : c.limit with
  | none => simp [hl] at h
  | some l => exact ⟨l, hl, by simpa [hl] using h⟩

theorem full_le {c : Cfg α β} {out : List (Row α β)} (h : c.full out = true) : c.cap ≤ out.length := by
  simpa [Cfg.full] using h

/-- What one scan over pairs does, in terms of the rows `f` each visited element stands for. -/
structure ScanOk {γ : Type} (c : Cfg α β) (f : γ → List (Row α β)) (xs : List γ) (idx : Nat) (out : List (Row α β)) (num : Nat)
    (r : Scan α β) : Prop where
  cnt : r.num + out.length = num + r.out.length
  done : r.stop = none → r.out = out ++ xs.flatMap f
  limit : ∀ k, r.stop = some (.limit, k) → r.out <+: out ++ xs.flatMap f ∧ Hit c r.num
  full : ∀ k, r.stop = some (.full, k) → c.cap ≤ r.out.length ∧
    ∃ t, k = idx + t ∧ out ++ xs.flatMap f = r.out ++ (xs.drop t).flatMap f
  le : out.length ≤ c.cap → (∀ x, (f x).length ≤ 1) → r.out.length ≤ c.cap

/-- The rows of a pair. -/
def pairRows (c : Cfg α β) (i : β) (o : α) : List (Row α β) := (construct c o i).1

theorem construct_inner {c : Cfg α β} (h : c.ty = .inner) (o : α) (i : β) :
    construct c o i = if c.sat o i then ([(o, some i)], true) else ([], false) := by
  simp [construct, h]

theorem construct_left {c : Cfg α β} (h : c.ty = .left) (o : α) (i : β) :
    construct c o i = if c.sat o i then ([(o, some i)], true) else if c.useHash then ([(o, none)], false) else ([], false) := by
  simp [construct, h]

theorem construct_len (c : Cfg α β) (o : α) (i : β) : (construct c o i).1.length ≤ 1 := by
  unfold construct
  cases c.ty <;> simp only <;> (try split) <;> (try split) <;> simp

theorem scanOuters_ok {c : Cfg α β} (hc : c.ty = .inner) (i : β) (os : List α) (idx : Nat) (out : List (Row α β)) (num : Nat) :
    ScanOk c (pairRows c i) os idx out num (scanOuters c i os idx out num) := by
  induction os generalizing idx out num with
  | nil =>
    refine ⟨rfl, ?_, ?_, ?_, fun h _ => h⟩ <;> simp [scanOuters]
  | cons o os ih =>
    unfold scanOuters
    by_cases h1 : c.reached num
    · simp only [h1, if_true]
      refine ⟨rfl, by simp, ?_, by simp, fun h _ => h⟩
      intro k _
      exact ⟨List.prefix_append _ _, reached_hit h1⟩
    · simp only [h1, Bool.false_eq_true, if_false]
      by_cases h2 : c.full out
      · simp only [h2, if_true]
        refine ⟨rfl, by simp, by simp, ?_, fun h _ => h⟩
        intro k hk
        refine ⟨full_le h2, 0, ?_, by simp⟩
        simp at hk; omega
      · simp only [h2, Bool.false_eq_true, if_false]
        have hlen : (if (construct c o i).2 = true then num + 1 else num) = num + (construct c o i).1.length := by
          rw [construct_inner hc]; by_cases hs : c.sat o i <;> simp [hs]
        obtain ⟨g1, g2, g3, g4, g5⟩ := ih (idx + 1) (out ++ (construct c o i).1) (if (construct c o i).2 then num + 1 else num)
        refine ⟨?_, ?_, ?_, ?_, ?_⟩
        · rw [hlen] at g1 ⊢
          simp only [List.length_append] at g1; omega
        · intro h
          rw [g2 h]; simp [pairRows]
        · intro k hk
          have := g3 k hk
          simpa [pairRows] using this
        · intro k hk
          obtain ⟨e1, t, e2, e3⟩ := g4 k hk
          refine ⟨e1, t + 1, by omega, ?_⟩
          simpa [pairRows] using e3
        · intro _ hf
          refine g5 ?_ hf
          have := construct_len c o i
          have : ¬ c.cap ≤ out.length := by simpa [Cfg.full] using h2
          simp only [List.length_append]; omega

/-- The outer rows an inner row meets. -/
def partners (c : Cfg α β) (m : HMap α) (i : β) : List α := (m.seek (c.ikey i)).getD []

/-- The rows still to come from the current batch. -/
def hiCur (c : Cfg α β) (m : HMap α) : List β → Nat → List (Row α β)
  | [], _ => []
  | i :: is, idx => ((partners c m i).drop idx).flatMap (pairRows c i) ++ is.flatMap fun j => (partners c m j).flatMap (pairRows c j)

theorem hiCur_zero (c : Cfg α β) (m : HMap α) (is : List β) :
    hiCur c m is 0 = is.flatMap fun j => (partners c m j).flatMap (pairRows c j) := by
  cases is <;> simp [hiCur]

theorem hiRows_ok {c : Cfg α β} (hc : c.ty = .inner) (m : HMap α) (cur : List β) (idx : Nat) (out : List (Row α β)) (num : Nat) :
    let r := hiRows c m cur idx out num
    r.1.num + out.length = num + r.1.out.length ∧
    (r.1.stop = none → r.1.out = out ++ hiCur c m cur idx) ∧
    (∀ k, r.1.stop = some (.limit, k) → r.1.out <+: out ++ hiCur c m cur idx ∧ Hit c r.1.num) ∧
    (∀ k, r.1.stop = some (.full, k) → c.cap ≤ r.1.out.length ∧ out ++ hiCur c m cur idx = r.1.out ++ hiCur c m r.2 k) ∧
    (out.length ≤ c.cap → r.1.out.length ≤ c.cap) := by
  induction cur generalizing idx out num with
  | nil => simp [hiRows, hiCur]
  | cons i is ih =>
    unfold hiRows
    have hs := scanOuters_ok hc i (((m.seek (c.ikey i)).getD []).drop idx) idx out num
    set r := scanOuters c i (((m.seek (c.ikey i)).getD []).drop idx) idx out num with hr
    obtain ⟨g1, g2, g3, g4, g5⟩ := hs
    have g5' : out.length ≤ c.cap → r.out.length ≤ c.cap := fun h => g5 h fun x => construct_len c x i
    simp only
    split
    · rename_i s hstop
      refine ⟨g1, by simp [hstop], ?_, ?_, g5'⟩
      · intro k hk
        obtain ⟨p, q⟩ := g3 k hk
        refine ⟨?_, q⟩
        rw [hiCur, ← List.append_assoc]
        exact p.trans (List.prefix_append _ _)
      · intro k hk
        obtain ⟨p, t, q1, q2⟩ := g4 k hk
        refine ⟨p, ?_⟩
        rw [hiCur, hiCur, ← List.append_assoc, ← List.append_assoc]
        congr 1
        rw [partners, q2, List.drop_drop, q1]
    · rename_i hstop
      obtain ⟨i1, i2, i3, i4, i5⟩ := ih 0 r.out r.num
      have e : out ++ hiCur c m (i :: is) idx = r.out ++ hiCur c m is 0 := by
        rw [hiCur, ← List.append_assoc, hiCur_zero, g2 hstop, partners]
      rw [e]
      exact ⟨by omega, i2, i3, i4, fun h => i5 (g5' h)⟩

/-- The rows still to come. -/
def hiRem (c : Cfg α β) (m : HMap α) (s : HIState β) : List (Row α β) :=
  hiCur c m s.cur s.idx ++ s.more.flatten.flatMap fun j => (partners c m j).flatMap (pairRows c j)

theorem hiLoop_ok {c : Cfg α β} (hc : c.ty = .inner) (m : HMap α) (more : List (List β)) (cur : List β) (idx : Nat)
    (out : List (Row α β)) (num : Nat) :
    let r := hiLoop c m more cur idx out num
    (r.2 = none → r.1 <+: out ++ hiRem c m ⟨more, cur, idx, num⟩ ∧
      (r.1 = out ++ hiRem c m ⟨more, cur, idx, num⟩ ∨ ∃ l, c.limit = some l ∧ l + out.length ≤ num + r.1.length)) ∧
    (∀ s', r.2 = some s' → out ++ hiRem c m ⟨more, cur, idx, num⟩ = r.1 ++ hiRem c m s' ∧ c.cap ≤ r.1.length ∧
      s'.num + out.length = num + r.1.length) ∧
    (out.length ≤ c.cap → r.1.length ≤ c.cap) := by
  induction more generalizing cur idx out num with
  | nil =>
    unfold hiLoop
    obtain ⟨g1, g2, g3, g4, g5⟩ := hiRows_ok hc m cur idx out num
    set r := hiRows c m cur idx out num
    rcases hstop : r.1.stop with _ | ⟨_ | _, k⟩
    · simp only [hstop, reduceCtorEq, false_implies, implies_true, true_implies, true_and, hiRem, List.flatten_nil,
        List.flatMap_nil, List.append_nil]
      rw [g2 hstop]
      refine ⟨⟨List.prefix_refl _, Or.inl rfl⟩, fun h => ?_⟩
      have := g5 h; rwa [g2 hstop] at this
    · obtain ⟨p, l, q1, q2⟩ := g3 k hstop
      simp only [hstop, true_implies, reduceCtorEq, false_implies, implies_true, true_and, hiRem, List.flatten_nil,
        List.flatMap_nil, List.append_nil]
      exact ⟨⟨p, Or.inr ⟨l, q1, by omega⟩⟩, g5⟩
    · obtain ⟨p, q⟩ := g4 k hstop
      simp only [hstop, reduceCtorEq, false_implies, true_and, Option.some.injEq, forall_eq', hiRem, List.flatten_nil,
        List.flatMap_nil, List.append_nil]
      exact ⟨⟨q, p, g1⟩, g5⟩
  | cons b bs ih =>
    unfold hiLoop
    obtain ⟨g1, g2, g3, g4, g5⟩ := hiRows_ok hc m cur idx out num
    set r := hiRows c m cur idx out num
    rcases hstop : r.1.stop with _ | ⟨_ | _, k⟩
    · simp only [hstop]
      obtain ⟨i1, i2, i3⟩ := ih b 0 r.1.out r.1.num
      have e : out ++ hiRem c m ⟨b :: bs, cur, idx, num⟩ = r.1.out ++ hiRem c m ⟨bs, b, 0, r.1.num⟩ := by
        simp only [hiRem, hiCur_zero, List.flatten_cons, List.flatMap_append]
        rw [← List.append_assoc, ← g2 hstop]
      rw [e]
      refine ⟨fun h => ?_, fun s' h => ?_, fun h => i3 (g5 h)⟩
      · obtain ⟨a1, a2⟩ := i1 h
        refine ⟨a1, a2.imp_right ?_⟩
        rintro ⟨l, a, b⟩
        exact ⟨l, a, by omega⟩
      · obtain ⟨a1, a2, a3⟩ := i2 s' h
        exact ⟨a1, a2, by omega⟩
    · obtain ⟨p, l, q1, q2⟩ := g3 k hstop
      simp only [hstop, true_implies, reduceCtorEq, false_implies, implies_true, true_and]
      refine ⟨⟨?_, Or.inr ⟨l, q1, by omega⟩⟩, g5⟩
      rw [hiRem, ← List.append_assoc]
      exact p.trans (List.prefix_append _ _)
    · obtain ⟨p, q⟩ := g4 k hstop
      simp only [hstop, reduceCtorEq, false_implies, true_and, Option.some.injEq, forall_eq']
      refine ⟨⟨?_, p, g1⟩, g5⟩
      rw [hiRem, hiRem, ← List.append_assoc, q, List.append_assoc]

theorem hi_refines {c : Cfg α β} (hc : c.ty = .inner) (m : HMap α) :
    Refines (hiNext c m) (hiRem c m) HIState.num c.cap c.limit True (fun _ => True) where
  more s b s' _ h := by
    obtain ⟨_, h2, _⟩ := hiLoop_ok hc m s.more s.cur s.idx [] s.num
    unfold hiNext at h
    rw [h] at h2
    obtain ⟨a1, a2, a3⟩ := h2 s' rfl
    exact ⟨trivial, by simpa using a1, a2, fun _ => by simpa using a3⟩
  last s b _ h := by
    obtain ⟨h1, _, _⟩ := hiLoop_ok hc m s.more s.cur s.idx [] s.num
    unfold hiNext at h
    rw [h] at h1
    obtain ⟨a1, a2⟩ := h1 rfl
    refine ⟨by simpa using a1, ?_⟩
    rcases a2 with a2 | ⟨l, b1, b2⟩
    · exact Or.inl (by simpa using a2)
    · exact Or.inr ⟨l, b1, fun _ => by simpa using b2⟩

theorem hi_cap {c : Cfg α β} (hc : c.ty = .inner) (m : HMap α) (s : HIState β) : (hiNext c m s).1.length ≤ c.cap := by
  obtain ⟨_, _, h⟩ := hiLoop_ok hc m s.more s.cur s.idx [] s.num
  exact h (by simp)

/-- The whole result, before any limit, of the join with the inner rows in the order they arrive. -/
theorem hi_full {c : Cfg α β} (hc : c.ty = .inner) (outer : List α) (batches : List (List β)) :
    (hiRem c (buildMap c.okey outer) ⟨batches, [], 0, 0⟩).Perm
      (sqlInner (fun o i => decide (c.okey o = c.ikey i) && c.sat o i) outer batches.flatten) := by
  have e1 : hiRem c (buildMap c.okey outer) ⟨batches, [], 0, 0⟩ =
      batches.flatten.flatMap fun i => outer.flatMap fun o =>
        if decide (c.okey o = c.ikey i) && c.sat o i then [((o, some i) : Row α β)] else [] := by
    simp only [hiRem, hiCur, List.nil_append, partners, seek_build_getD, bucket, flatMap_filter']
    congr 1; funext i; congr 1; funext o
    by_cases h1 : c.okey o = c.ikey i <;> by_cases h2 : c.sat o i <;> simp [h1, h2, pairRows, construct_inner hc]
  have e2 : sqlInner (fun o i => decide (c.okey o = c.ikey i) && c.sat o i) outer batches.flatten =
      outer.flatMap fun o => batches.flatten.flatMap fun i =>
        if decide (c.okey o = c.ikey i) && c.sat o i then [((o, some i) : Row α β)] else [] := by
    unfold sqlInner
    congr 1; funext o
    rw [← List.flatMap_pure_eq_map, flatMap_filter']
    rfl
  rw [e1, e2]
  exact flatMap_swap _ _ _

/-! ## LEFT JOIN -/

theorem scanInners_ok {c : Cfg α β} (o : α) (is : List β) (idx : Nat) (out : List (Row α β)) (num : Nat)
    (h1 : ∀ i ∈ is, (construct c o i).1.length = 1) :
    ScanOk c (fun i => (construct c o i).1) is idx out num (scanInners c o is idx out num) := by
  induction is generalizing idx out num with
  | nil =>
    refine ⟨rfl, ?_, ?_, ?_, fun h _ => h⟩ <;> simp [scanInners]
  | cons i is ih =>
    unfold scanInners
    by_cases h : c.reached num
    · simp only [h, if_true]
      refine ⟨rfl, by simp, ?_, by simp, fun h _ => h⟩
      intro k _
      exact ⟨List.prefix_append _ _, reached_hit h⟩
    · simp only [h, Bool.false_eq_true, if_false]
      by_cases h2 : c.full out
      · simp only [h2, if_true]
        refine ⟨rfl, by simp, by simp, ?_, fun h _ => h⟩
        intro k hk
        refine ⟨full_le h2, 0, ?_, by simp⟩
        simp at hk; omega
      · simp only [h2, Bool.false_eq_true, if_false]
        have hlen := h1 i (by simp)
        obtain ⟨g1, g2, g3, g4, g5⟩ := ih (idx + 1) (out ++ (construct c o i).1) (num + 1) (fun j hj => h1 j (by simp [hj]))
        refine ⟨?_, ?_, ?_, ?_, ?_⟩
        · simp only [List.length_append, hlen] at g1; omega
        · intro h
          rw [g2 h]; simp
        · intro k hk
          simpa using g3 k hk
        · intro k hk
          obtain ⟨e1, t, e2, e3⟩ := g4 k hk
          refine ⟨e1, t + 1, by omega, ?_⟩
          simpa using e3
        · intro _ hf
          refine g5 ?_ hf
          have : ¬ c.cap ≤ out.length := by simpa [Cfg.full] using h2
          simp only [List.length_append]; omega

/-- The rows an outer row still yields from index `idx` of its bucket. -/
def hoRow (c : Cfg α β) (m : HMap β) (o : α) (idx : Nat) : List (Row α β) :=
  match m.seek (c.okey o) with
  | some is => (is.drop idx).flatMap fun i => (construct c o i).1
  | none => [(o, none)]

def hoRem (c : Cfg α β) (m : HMap β) (s : HOState α) : List (Row α β) :=
  match s.os with
  | [] => []
  | o :: os => hoRow c m o s.idx ++ os.flatMap fun o => hoRow c m o 0

theorem hoRem_zero (c : Cfg α β) (m : HMap β) (os : List α) (n : Nat) :
    hoRem c m ⟨os, 0, n⟩ = os.flatMap fun o => hoRow c m o 0 := by
  cases os <;> simp [hoRem]

theorem construct_left_hash {c : Cfg α β} (hc : c.ty = .left) (hh : c.useHash = true) (o : α) (i : β) :
    (construct c o i).1.length = 1 := by
  rw [construct_left hc]
  by_cases h : c.sat o i <;> simp [h, hh]

theorem hoLoop_ok {c : Cfg α β} (hc : c.ty = .left) (hh : c.useHash = true) (m : HMap β) (os : List α) (idx : Nat)
    (out : List (Row α β)) (num : Nat) :
    let r := hoLoop c m os idx out num
    (r.2 = none → r.1 <+: out ++ hoRem c m ⟨os, idx, num⟩ ∧
      (r.1 = out ++ hoRem c m ⟨os, idx, num⟩ ∨ ∃ l, c.limit = some l ∧ l + out.length ≤ num + r.1.length)) ∧
    (∀ s', r.2 = some s' → out ++ hoRem c m ⟨os, idx, num⟩ = r.1 ++ hoRem c m s' ∧ c.cap ≤ r.1.length ∧
      s'.num + out.length = num + r.1.length) ∧
    (out.length ≤ c.cap → r.1.length ≤ c.cap) := by
  induction os generalizing idx out num with
  | nil => simp [hoLoop, hoRem]
  | cons o os ih =>
    unfold hoLoop
    cases hs : m.seek (c.okey o) with
    | some is =>
      simp only
      obtain ⟨g1, g2, g3, g4, g5⟩ := scanInners_ok (c := c) o (is.drop idx) idx out num
        (fun i _ => construct_left_hash hc hh o i)
      set r := scanInners c o (is.drop idx) idx out num
      have g5' : out.length ≤ c.cap → r.out.length ≤ c.cap := fun h => g5 h fun x => construct_len c o x
      rcases hstop : r.stop with _ | ⟨_ | _, k⟩
      · simp only
        obtain ⟨i1, i2, i3⟩ := ih 0 r.out r.num
        have e : out ++ hoRem c m ⟨o :: os, idx, num⟩ = r.out ++ hoRem c m ⟨os, 0, r.num⟩ := by
          rw [hoRem_zero]
          simp only [hoRem, hoRow, hs]
          rw [← List.append_assoc, ← g2 hstop]
        rw [e]
        refine ⟨fun h => ?_, fun s' h => ?_, fun h => i3 (g5' h)⟩
        · obtain ⟨a1, a2⟩ := i1 h
          refine ⟨a1, a2.imp_right ?_⟩
          rintro ⟨l, a, b⟩
          exact ⟨l, a, by omega⟩
        · obtain ⟨a1, a2, a3⟩ := i2 s' h
          exact ⟨a1, a2, by omega⟩
      · obtain ⟨p, l, q1, q2⟩ := g3 k hstop
        simp only [true_implies, reduceCtorEq, false_implies, implies_true, true_and]
        refine ⟨⟨?_, Or.inr ⟨l, q1, by omega⟩⟩, g5'⟩
        simp only [hoRem, hoRow, hs]
        rw [← List.append_assoc]
        exact p.trans (List.prefix_append _ _)
      · obtain ⟨p, t, q1, q2⟩ := g4 k hstop
        simp only [reduceCtorEq, false_implies, true_and, Option.some.injEq, forall_eq']
        refine ⟨⟨?_, p, g1⟩, g5'⟩
        simp only [hoRem, hoRow, hs]
        rw [← List.append_assoc, q2, List.drop_drop, q1, List.append_assoc]
    | none =>
      simp only
      by_cases h : c.reached num
      · simp only [h, if_true, true_implies, reduceCtorEq, false_implies, implies_true, true_and]
        obtain ⟨l, q1, q2⟩ := reached_hit h
        exact ⟨⟨List.prefix_append _ _, Or.inr ⟨l, q1, by omega⟩⟩, id⟩
      · by_cases h2 : c.full out
        · simp only [h, h2, Bool.false_eq_true, if_false, if_true, reduceCtorEq, false_implies, true_and,
            Option.some.injEq, forall_eq']
          exact ⟨⟨full_le h2, trivial⟩, id⟩
        · simp only [h, h2, Bool.false_eq_true, if_false]
          obtain ⟨i1, i2, i3⟩ := ih 0 (out ++ [(o, none)]) (num + 1)
          have e : out ++ hoRem c m ⟨o :: os, idx, num⟩ = out ++ [(o, none)] ++ hoRem c m ⟨os, 0, num + 1⟩ := by
            rw [hoRem_zero]
            simp only [hoRem, hoRow, hs]
            rw [List.append_assoc]
          rw [e]
          have hl : ¬ c.cap ≤ out.length := by simpa [Cfg.full] using h2
          refine ⟨fun h => ?_, fun s' h => ?_, fun h => i3 (by simp only [List.length_append, List.length_singleton]; omega)⟩
          · obtain ⟨a1, a2⟩ := i1 h
            refine ⟨a1, a2.imp_right ?_⟩
            rintro ⟨l, a, b⟩
            simp only [List.length_append, List.length_singleton] at b
            exact ⟨l, a, by omega⟩
          · obtain ⟨a1, a2, a3⟩ := i2 s' h
            simp only [List.length_append, List.length_singleton] at a3
            exact ⟨a1, a2, by omega⟩

theorem ho_refines {c : Cfg α β} (hc : c.ty = .left) (hh : c.useHash = true) (m : HMap β) :
    Refines (hoNext c m) (hoRem c m) HOState.num c.cap c.limit True (fun _ => True) where
  more s b s' _ h := by
    obtain ⟨_, h2, _⟩ := hoLoop_ok hc hh m s.os s.idx [] s.num
    unfold hoNext at h
    rw [h] at h2
    obtain ⟨a1, a2, a3⟩ := h2 s' rfl
    exact ⟨trivial, by simpa using a1, a2, fun _ => by simpa using a3⟩
  last s b _ h := by
    obtain ⟨h1, _, _⟩ := hoLoop_ok hc hh m s.os s.idx [] s.num
    unfold hoNext at h
    rw [h] at h1
    obtain ⟨a1, a2⟩ := h1 rfl
    refine ⟨by simpa using a1, ?_⟩
    rcases a2 with a2 | ⟨l, b1, b2⟩
    · exact Or.inl (by simpa using a2)
    · exact Or.inr ⟨l, b1, fun _ => by simpa using b2⟩

theorem ho_cap {c : Cfg α β} (hc : c.ty = .left) (hh : c.useHash = true) (m : HMap β) (s : HOState α) :
    (hoNext c m s).1.length ≤ c.cap := by
  obtain ⟨_, _, h⟩ := hoLoop_ok hc hh m s.os s.idx [] s.num
  exact h (by simp)

/-- One outer row's rows, whatever the other conditions: with an empty bucket the NULL row, else one row per key-equal
inner row, with NULLs where the other conditions fail. -/
theorem hoRow_build {c : Cfg α β} (hc : c.ty = .left) (hh : c.useHash = true) (inner : List β) (o : α) :
    hoRow c (buildMap c.ikey inner) o 0 =
      if bucket c.ikey inner (c.okey o) = [] then [(o, none)]
      else (bucket c.ikey inner (c.okey o)).map fun i => (o, if c.sat o i then some i else none) := by
  unfold hoRow
  rw [seek_build]
  by_cases h : bucket c.ikey inner (c.okey o) = []
  · simp [h]
  · simp only [h, if_false, List.drop_zero]
    rw [← List.flatMap_pure_eq_map]
    congr 1; funext i
    rw [construct_left hc]
    by_cases hs : c.sat o i <;> simp [hs, hh]

theorem hoRow_eq {c : Cfg α β} (hc : c.ty = .left) (hh : c.useHash = true) (inner : List β) (o : α)
    (hres : ∀ i ∈ inner, c.okey o = c.ikey i → c.sat o i = true) :
    hoRow c (buildMap c.ikey inner) o 0 = leftRows (fun o i => decide (c.okey o = c.ikey i) && c.sat o i) inner o := by
  rw [hoRow_build hc hh, leftRows]
  have hb : bucket c.ikey inner (c.okey o) = inner.filter fun i => decide (c.okey o = c.ikey i) && c.sat o i := by
    unfold bucket
    refine List.filter_congr fun i hi => ?_
    by_cases h : c.ikey i = c.okey o
    · simp [h, hres i hi h.symm]
    · have : ¬ c.okey o = c.ikey i := fun e => h e.symm
      simp [h, this]
  rw [hb]
  by_cases h : (inner.filter fun i => decide (c.okey o = c.ikey i) && c.sat o i) = []
  · have ha : inner.any (fun i => decide (c.okey o = c.ikey i) && c.sat o i) = false := by
      rw [List.filter_eq_nil_iff] at h
      rw [List.any_eq_false]; exact h
    simp [h, ha]
  · have ha : inner.any (fun i => decide (c.okey o = c.ikey i) && c.sat o i) = true := by
      by_contra hf
      apply h
      rw [List.filter_eq_nil_iff]
      rw [Bool.not_eq_true, List.any_eq_false] at hf
      exact hf
    rw [if_neg h, if_pos ha]
    refine List.map_congr_left fun i hi => ?_
    have := (List.mem_filter.1 hi).2
    simp only [Bool.and_eq_true] at this
    rw [this.2]; rfl

end BaikalDB.Join
