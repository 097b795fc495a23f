import Verif.Join.Hash
/-!
# Nested loops, and subqueries over a hash map of their rows
-/
namespace BaikalDB.Join

variable {α β : Type}

/-- The pairs of one outer row. -/
def nlPairs (c : Cfg α β) (o : α) (is : List β) : List (Row α β) := (is.filter (c.sat o)).map fun i => (o, some i)

theorem nlPairs_cons (c : Cfg α β) (o : α) (i : β) (is : List β) :
    nlPairs c o (i :: is) = (if c.sat o i then [(o, some i)] else []) ++ nlPairs c o is := by
  by_cases h : c.sat o i <;> simp [nlPairs, h]

theorem construct_nl {c : Cfg α β} (hc : c.ty = .inner ∨ c.ty = .left) (hh : c.useHash = false) (o : α) (i : β) :
    construct c o i = (if c.sat o i then [(o, some i)] else [], c.sat o i) := by
  rcases hc with hc | hc <;> by_cases h : c.sat o i <;> simp [construct, hc, h, hh]

theorem nlScan_ok {c : Cfg α β} (hc : c.ty = .inner ∨ c.ty = .left) (hh : c.useHash = false) (o : α) (is : List β)
    (matched : Bool) (out : List (Row α β)) (num : Nat) :
    let r := nlScan c o is matched out num
    (r.stop = none → r.out = out ++ nlPairs c o is ∧ r.matched = (matched || is.any (c.sat o))) ∧
    (∀ is', r.stop = some (.limit, is') → r.out <+: out ++ nlPairs c o is ∧ ∃ l, c.limit = some l) ∧
    (∀ is', r.stop = some (.full, is') → c.cap ≤ r.out.length ∧ out ++ nlPairs c o is = r.out ++ nlPairs c o is') := by
  induction is generalizing matched out num with
  | nil => simp [nlScan, nlPairs]
  | cons i is ih =>
    unfold nlScan
    by_cases h1 : c.reached num
    · simp only [h1, if_true]
      obtain ⟨l, hl, _⟩ := reached_hit h1
      refine ⟨by simp, ?_, by simp⟩
      intro k _
      exact ⟨List.prefix_append _ _, l, hl⟩
    · simp only [h1, Bool.false_eq_true, if_false]
      by_cases h2 : c.full out
      · simp only [h2, if_true]
        refine ⟨by simp, by simp, ?_⟩
        intro is' h
        simp only [Option.some.injEq, Prod.mk.injEq, true_and] at h
        subst h
        exact ⟨full_le h2, rfl⟩
      · simp only [h2, Bool.false_eq_true, if_false]
        rw [construct_nl hc hh, nlPairs_cons]
        simp only
        set num' := if (matched || c.sat o i) = true then num + 1 else num
        have := ih (matched || c.sat o i) (out ++ if c.sat o i then [(o, some i)] else []) num'
        simpa only [List.any_cons, Bool.or_assoc, List.append_assoc] using this

/-- The rows still to come of an INNER JOIN. -/
def nlRem (c : Cfg α β) (inners : List β) (s : NLState α β) : List (Row α β) :=
  match s.os with
  | [] => []
  | o :: os => nlPairs c o s.is ++ os.flatMap fun o => nlPairs c o inners

theorem nlRem_start (c : Cfg α β) (inners : List β) (os : List α) (n : Nat) :
    nlRem c inners ⟨os, inners, n⟩ = os.flatMap fun o => nlPairs c o inners := by
  cases os <;> simp [nlRem]

theorem nlLoop_ok {c : Cfg α β} (hc : c.ty = .inner) (hh : c.useHash = false) (inners : List β) (os : List α) (is : List β)
    (out : List (Row α β)) (num : Nat) :
    let r := nlLoop c inners os is out num
    (r.2 = none → r.1 <+: out ++ nlRem c inners ⟨os, is, num⟩ ∧
      (r.1 = out ++ nlRem c inners ⟨os, is, num⟩ ∨ ∃ l, c.limit = some l)) ∧
    (∀ s', r.2 = some s' → out ++ nlRem c inners ⟨os, is, num⟩ = r.1 ++ nlRem c inners s' ∧ c.cap ≤ r.1.length) := by
  induction os generalizing is out num with
  | nil => simp [nlLoop, nlRem]
  | cons o os ih =>
    unfold nlLoop
    obtain ⟨g1, g2, g3⟩ := nlScan_ok (Or.inl hc) hh o is false out num
    set r := nlScan c o is false out num
    simp only
    rcases hstop : r.stop with _ | ⟨_ | _, k⟩
    · simp only [hc, reduceCtorEq, and_false, if_false]
      have := ih inners r.out r.num
      have e : out ++ nlRem c inners ⟨o :: os, is, num⟩ = r.out ++ nlRem c inners ⟨os, inners, r.num⟩ := by
        rw [nlRem_start]
        simp only [nlRem]
        rw [← List.append_assoc, ← (g1 hstop).1]
      rw [e]
      exact this
    · obtain ⟨p, l, q⟩ := g2 k hstop
      simp only [true_implies, reduceCtorEq, false_implies, implies_true, and_true]
      refine ⟨?_, Or.inr ⟨l, q⟩⟩
      simp only [nlRem]
      rw [← List.append_assoc]
      exact p.trans (List.prefix_append _ _)
    · obtain ⟨p, q⟩ := g3 k hstop
      simp only [reduceCtorEq, false_implies, true_and, Option.some.injEq, forall_eq']
      refine ⟨?_, p⟩
      simp only [nlRem]
      rw [← List.append_assoc, q, List.append_assoc]

theorem nl_refines {c : Cfg α β} (hc : c.ty = .inner) (hh : c.useHash = false) (inners : List β) :
    Refines (nlNext c inners) (nlRem c inners) NLState.num c.cap c.limit False (fun _ => True) where
  more s b s' _ h := by
    obtain ⟨_, h2⟩ := nlLoop_ok hc hh inners s.os s.is [] s.num
    unfold nlNext at h
    rw [h] at h2
    obtain ⟨a1, a2⟩ := h2 s' rfl
    exact ⟨trivial, by simpa using a1, a2, False.elim⟩
  last s b _ h := by
    obtain ⟨h1, _⟩ := nlLoop_ok hc hh inners s.os s.is [] s.num
    unfold nlNext at h
    rw [h] at h1
    obtain ⟨a1, a2⟩ := h1 rfl
    refine ⟨by simpa using a1, ?_⟩
    rcases a2 with a2 | ⟨l, b1⟩
    · exact Or.inl (by simpa using a2)
    · exact Or.inr ⟨l, b1, False.elim⟩

/-- LEFT JOIN, no limit, everything within one batch. -/
theorem nlLoop_left {c : Cfg α β} (hc : c.ty = .left) (hh : c.useHash = false) (hl : c.limit = none) (inners : List β)
    (os : List α) (out : List (Row α β)) (num : Nat) (hcap : (out ++ sqlLeft c.sat os inners).length < c.cap) :
    nlLoop c inners os inners out num = (out ++ sqlLeft c.sat os inners, none) := by
  induction os generalizing out num with
  | nil => simp [nlLoop, sqlLeft]
  | cons o os ih =>
    unfold nlLoop
    obtain ⟨g1, g2, g3⟩ := nlScan_ok (Or.inr hc) hh o inners false out num
    set r := nlScan c o inners false out num
    have hsplit : sqlLeft c.sat (o :: os) inners = leftRows c.sat inners o ++ sqlLeft c.sat os inners := by
      simp [sqlLeft]
    have hle : (nlPairs c o inners).length ≤ (leftRows c.sat inners o).length := by
      unfold leftRows nlPairs
      by_cases h : inners.any (c.sat o)
      · simp [h]
      · rw [Bool.not_eq_true, List.any_eq_false] at h
        have : inners.filter (c.sat o) = [] := List.filter_eq_nil_iff.2 h
        simp [this]
    simp only
    rcases hstop : r.stop with _ | ⟨_ | _, k⟩
    · obtain ⟨e1, e2⟩ := g1 hstop
      simp only [hc, and_true]
      by_cases h : inners.any (c.sat o)
      · have e2' : r.matched = true := by simp [e2, h]
        simp only [e2', Bool.true_eq_false, if_false]
        have e3 : r.out ++ sqlLeft c.sat os inners = out ++ sqlLeft c.sat (o :: os) inners := by
          rw [e1, hsplit, leftRows, if_pos h, List.append_assoc]; rfl
        rw [ih r.out r.num (by rw [e3]; exact hcap), e3]
      · have e2' : r.matched = false := by simp [e2, h]
        simp only [e2', if_true]
        have hn : nlPairs c o inners = [] := by
          rw [Bool.not_eq_true, List.any_eq_false] at h
          have : inners.filter (c.sat o) = [] := List.filter_eq_nil_iff.2 h
          simp [nlPairs, this]
        have e3 : r.out ++ [(o, none)] ++ sqlLeft c.sat os inners = out ++ sqlLeft c.sat (o :: os) inners := by
          rw [e1, hsplit, leftRows, if_neg h, hn]; simp
        rw [ih _ (r.num + 1) (by rw [e3]; exact hcap), e3]
    · obtain ⟨_, l, q⟩ := g2 k hstop
      rw [hl] at q; cases q
    · obtain ⟨p, q⟩ := g3 k hstop
      have : r.out.length ≤ (out ++ nlPairs c o inners).length := by rw [q]; simp
      rw [hsplit] at hcap
      simp only [List.length_append] at hcap this
      omega

/-! ## Subqueries, nested loops -/

theorem construct_semi {c : Cfg α β} (hc : c.ty = .semi) (o : α) (i : β) :
    construct c o i = if c.sat o i then ([(o, some i)], true) else ([], false) := by
  simp [construct, hc]

theorem construct_anti {c : Cfg α β} (hc : c.ty = .anti) (o : α) (i : β) : construct c o i = ([], c.sat o i) := by
  simp [construct, hc]

/-- The rows of one outer row given the rows of its subquery. -/
def anRow (c : Cfg α β) (o : α) (is : List β) : List (Row α β) :=
  match c.ty with
  | .semi => ((is.find? (c.sat o)).toList).map fun i => (o, some i)
  | .anti => if is.any (c.sat o) then [] else [(o, none)]
  | _ => leftRows c.sat is o

/-- What the scan adds by itself, without the NULL row of an outer row that has no match. -/
def anScanRows (c : Cfg α β) (o : α) (is : List β) : List (Row α β) :=
  match c.ty with
  | .semi => ((is.find? (c.sat o)).toList).map fun i => (o, some i)
  | .anti => []
  | _ => nlPairs c o is

theorem anScan_ok {c : Cfg α β} (hc : c.ty = .semi ∨ c.ty = .anti ∨ (c.ty = .left ∧ c.useHash = false)) (o : α) (is : List β)
    (hone : c.ty = .left → is.length ≤ 1) (out : List (Row α β)) (num : Nat) :
    let r := anScan c o is false out num
    r.num + out.length = num + r.out.length ∧
    (r.stop = none → r.out = out ++ anScanRows c o is ∧ r.matched = is.any (c.sat o)) ∧
    (∀ is', r.stop = some (.limit, is') → r.out <+: out ++ anScanRows c o is ∧ Hit c r.num) ∧
    (∀ is', r.stop = some (.full, is') → c.cap ≤ r.out.length ∧ r.out = out ∧ is' ≠ [] ∧
      anRow c o is = anRow c o is' ∧ is'.length ≤ is.length) := by
  induction is generalizing out num with
  | nil =>
    rcases hc with hc | hc | ⟨hc, _⟩ <;> simp [anScan, anScanRows, hc, nlPairs]
  | cons i is ih =>
    unfold anScan
    by_cases h1 : c.reached num
    · simp only [h1, if_true]
      refine ⟨by simp, by simp, ?_, by simp⟩
      intro k _
      exact ⟨List.prefix_append _ _, reached_hit h1⟩
    · simp only [h1, Bool.false_eq_true, if_false]
      by_cases h2 : c.full out
      · simp only [h2, if_true]
        refine ⟨trivial, by simp, by simp, ?_⟩
        intro is' h
        simp only [Option.some.injEq, Prod.mk.injEq, true_and] at h
        subst h
        exact ⟨full_le h2, trivial, by simp, rfl, le_refl _⟩
      · simp only [h2, Bool.false_eq_true, if_false]
        rcases hc with hc | hc | ⟨hc, hh⟩
        · rw [construct_semi hc]
          by_cases hs : c.sat o i
          · simp [hs, hc, anScanRows]; omega
          · obtain ⟨a1, a2, a3, a4⟩ := ih (by simp [hc]) out num
            have e1 : anScanRows c o (i :: is) = anScanRows c o is := by simp [anScanRows, hc, hs]
            have e2 : anRow c o (i :: is) = anRow c o is := by simp [anRow, hc, hs]
            have e3 : (i :: is).any (c.sat o) = is.any (c.sat o) := by simp [hs]
            rw [e1, e2, e3]
            simp only [hs, hc, reduceCtorEq, ne_eq, not_false_eq_true, not_true_eq_false, decide_true, decide_false,
              Bool.and_true, Bool.and_false, Bool.false_and, Bool.or_false, Bool.false_eq_true, if_false, List.append_nil]
            refine ⟨a1, a2, a3, fun is' h => ?_⟩
            obtain ⟨a, b, d, e, f⟩ := a4 is' h
            exact ⟨a, b, d, e, by simp only [List.length_cons]; omega⟩
        · rw [construct_anti hc]
          by_cases hs : c.sat o i
          · simp [hs, hc, anScanRows]
          · obtain ⟨a1, a2, a3, a4⟩ := ih (by simp [hc]) out num
            have e1 : anScanRows c o (i :: is) = anScanRows c o is := by simp [anScanRows, hc, hs]
            have e2 : anRow c o (i :: is) = anRow c o is := by simp [anRow, hc, hs]
            have e3 : (i :: is).any (c.sat o) = is.any (c.sat o) := by simp [hs]
            rw [e1, e2, e3]
            simp only [hs, hc, reduceCtorEq, ne_eq, not_false_eq_true, not_true_eq_false, decide_true, decide_false,
              Bool.and_true, Bool.and_false, Bool.false_and, Bool.or_false, Bool.false_eq_true, if_false, List.append_nil]
            refine ⟨a1, a2, a3, fun is' h => ?_⟩
            obtain ⟨a, b, d, e, f⟩ := a4 is' h
            exact ⟨a, b, d, e, by simp only [List.length_cons]; omega⟩
        · have hnil : is = [] := by
            have := hone hc
            simp only [List.length_cons] at this
            exact List.eq_nil_of_length_eq_zero (by omega)
          subst hnil
          rw [construct_left hc]
          by_cases hs : c.sat o i
          · simp [hs, hc, anScanRows, nlPairs, anScan]; omega
          · simp [hs, hc, hh, anScanRows, nlPairs, anScan]

/-- The rows still to come. -/
def anRem (c : Cfg α β) (sub : α → List β) (s : NLState α β) : List (Row α β) :=
  match s.os with
  | [] => []
  | o :: os => anRow c o (if s.is.isEmpty then sub o else s.is) ++ os.flatMap fun o => anRow c o (sub o)

theorem anRem_start (c : Cfg α β) (sub : α → List β) (os : List α) (n : Nat) :
    anRem c sub ⟨os, [], n⟩ = os.flatMap fun o => anRow c o (sub o) := by
  cases os <;> simp [anRem]

theorem anRow_eq {c : Cfg α β} (hc : c.ty = .semi ∨ c.ty = .anti ∨ c.ty = .left) (o : α) (is : List β) :
    anRow c o is = anScanRows c o is ++
      if is.any (c.sat o) = false ∧ (c.ty = .anti ∨ c.ty = .left) then [(o, none)] else [] := by
  rcases hc with hc | hc | hc
  · simp [anRow, anScanRows, hc]
  · cases h : is.any (c.sat o) <;> simp only [anRow, anScanRows, hc, h] <;> simp
  · by_cases h : is.any (c.sat o)
    · simp [anRow, anScanRows, hc, h, leftRows, nlPairs]
    · simp only [Bool.not_eq_true] at h
      have hn : is.filter (c.sat o) = [] := List.filter_eq_nil_iff.2 (List.any_eq_false.1 h)
      simp [anRow, anScanRows, hc, h, leftRows, nlPairs, hn]

theorem anLoop_ok {c : Cfg α β} (hc : c.ty = .semi ∨ c.ty = .anti ∨ (c.ty = .left ∧ c.useHash = false)) (sub : α → List β)
    (hone : c.ty = .left → ∀ o, (sub o).length ≤ 1) (os : List α) (is : List β) (his : c.ty = .left → is.length ≤ 1)
    (out : List (Row α β)) (num : Nat) :
    let r := anLoop c sub os is out num
    (r.2 = none → r.1 <+: out ++ anRem c sub ⟨os, is, num⟩ ∧
      (r.1 = out ++ anRem c sub ⟨os, is, num⟩ ∨ ∃ l, c.limit = some l ∧ l + out.length ≤ num + r.1.length)) ∧
    (∀ s', r.2 = some s' → out ++ anRem c sub ⟨os, is, num⟩ = r.1 ++ anRem c sub s' ∧ c.cap ≤ r.1.length ∧
      (c.ty = .left → s'.is.length ≤ 1) ∧ s'.num + out.length = num + r.1.length) := by
  induction os generalizing is out num with
  | nil => simp [anLoop, anRem]
  | cons o os ih =>
    have hc' : c.ty = .semi ∨ c.ty = .anti ∨ c.ty = .left := by
      rcases hc with h | h | h
      · exact Or.inl h
      · exact Or.inr (Or.inl h)
      · exact Or.inr (Or.inr h.1)
    unfold anLoop
    set is0 := if is.isEmpty then sub o else is with his0
    have hone0 : c.ty = .left → is0.length ≤ 1 := by
      intro h
      rw [his0]; split
      · exact hone h o
      · exact his h
    obtain ⟨g0, g1, g2, g3⟩ := anScan_ok hc o is0 hone0 out num
    set r := anScan c o is0 false out num
    have hrem : anRem c sub ⟨o :: os, is, num⟩ = anRow c o is0 ++ os.flatMap fun o => anRow c o (sub o) := rfl
    simp only
    rcases hstop : r.stop with _ | ⟨_ | _, k⟩
    · obtain ⟨e1, e2⟩ := g1 hstop
      simp only
      by_cases hm : r.matched = false ∧ (c.ty = .anti ∨ c.ty = .left)
      · simp only [hm, and_self, if_true]
        have hm' : is0.any (c.sat o) = false ∧ (c.ty = .anti ∨ c.ty = .left) := by rw [← e2]; exact hm
        have e : out ++ anRem c sub ⟨o :: os, is, num⟩ = r.out ++ [(o, none)] ++ anRem c sub ⟨os, [], r.num + 1⟩ := by
          rw [anRem_start, hrem, anRow_eq hc', if_pos hm', e1]
          simp only [List.append_assoc]
        obtain ⟨i1, i2⟩ := ih [] (by simp) (r.out ++ [(o, none)]) (r.num + 1)
        rw [e]
        refine ⟨fun h => ?_, fun s' h => ?_⟩
        · obtain ⟨a1, a2⟩ := i1 h
          refine ⟨a1, a2.imp_right ?_⟩
          rintro ⟨l, a, b⟩
          simp only [List.length_append, List.length_singleton] at b
          exact ⟨l, a, by omega⟩
        · obtain ⟨a1, a2, a3, a4⟩ := i2 s' h
          simp only [List.length_append, List.length_singleton] at a4
          exact ⟨a1, a2, a3, by omega⟩
      · simp only [hm, if_false]
        have hm' : ¬ (is0.any (c.sat o) = false ∧ (c.ty = .anti ∨ c.ty = .left)) := by rw [← e2]; exact hm
        have e : out ++ anRem c sub ⟨o :: os, is, num⟩ = r.out ++ anRem c sub ⟨os, [], r.num⟩ := by
          rw [anRem_start, hrem, anRow_eq hc', if_neg hm', e1]
          simp only [List.append_assoc, List.nil_append]
        obtain ⟨i1, i2⟩ := ih [] (by simp) r.out r.num
        rw [e]
        refine ⟨fun h => ?_, fun s' h => ?_⟩
        · obtain ⟨a1, a2⟩ := i1 h
          refine ⟨a1, a2.imp_right ?_⟩
          rintro ⟨l, a, b⟩
          exact ⟨l, a, by omega⟩
        · obtain ⟨a1, a2, a3, a4⟩ := i2 s' h
          exact ⟨a1, a2, a3, by omega⟩
    · obtain ⟨p, l, q1, q2⟩ := g2 k hstop
      simp only [true_implies, reduceCtorEq, false_implies, implies_true, and_true]
      refine ⟨?_, Or.inr ⟨l, q1, by omega⟩⟩
      rw [hrem, anRow_eq hc', List.append_assoc, ← List.append_assoc]
      exact p.trans (List.prefix_append _ _)
    · obtain ⟨p, q1, q2, q3, q4⟩ := g3 k hstop
      simp only [reduceCtorEq, false_implies, true_and, Option.some.injEq, forall_eq']
      refine ⟨?_, p, fun h => le_trans q4 (hone0 h), g0⟩
      rw [hrem, q3, q1]
      simp [anRem, q2]

theorem an_refines {c : Cfg α β} (hc : c.ty = .semi ∨ c.ty = .anti ∨ (c.ty = .left ∧ c.useHash = false)) (sub : α → List β)
    (hone : c.ty = .left → ∀ o, (sub o).length ≤ 1) :
    Refines (anNext c sub) (anRem c sub) NLState.num c.cap c.limit True (fun s => c.ty = .left → s.is.length ≤ 1) where
  more s b s' hi h := by
    obtain ⟨_, h2⟩ := anLoop_ok hc sub hone s.os s.is hi [] s.num
    unfold anNext at h
    rw [h] at h2
    obtain ⟨a1, a2, a3, a4⟩ := h2 s' rfl
    exact ⟨a3, by simpa using a1, a2, fun _ => by simpa using a4⟩
  last s b hi h := by
    obtain ⟨h1, _⟩ := anLoop_ok hc sub hone s.os s.is hi [] s.num
    unfold anNext at h
    rw [h] at h1
    obtain ⟨a1, a2⟩ := h1 rfl
    refine ⟨by simpa using a1, ?_⟩
    rcases a2 with a2 | ⟨l, b1, b2⟩
    · exact Or.inl (by simpa using a2)
    · exact Or.inr ⟨l, b1, fun _ => by simpa using b2⟩

/-! ## Subqueries over a hash map of their rows -/

theorem applyScan_anti {c : Cfg α β} (hc : c.ty = .anti) (o : α) (is : List β) (idx : Nat) (out : List (Row α β)) (num : Nat) :
    let r := applyScan c o is idx false out num
    r.1.out = out ∧ r.1.num = num ∧
    (r.1.stop = none → r.2 = is.any (c.sat o)) ∧
    (∀ k, r.1.stop = some (.limit, k) → Hit c num) ∧
    (∀ k, r.1.stop = some (.full, k) → c.cap ≤ out.length ∧ ∃ t, k = idx + t ∧ is.any (c.sat o) = (is.drop t).any (c.sat o)
      ∧ is ≠ []) := by
  induction is generalizing idx with
  | nil => simp [applyScan]
  | cons i is ih =>
    unfold applyScan
    by_cases h1 : c.reached num
    · simp only [h1, if_true]
      refine ⟨by simp, by simp, by simp, fun k _ => reached_hit h1, by simp⟩
    · simp only [h1, Bool.false_eq_true, if_false]
      by_cases h2 : c.full out
      · simp only [h2, if_true]
        refine ⟨trivial, trivial, by simp, by simp, ?_⟩
        intro k h
        simp only [Option.some.injEq, Prod.mk.injEq, true_and] at h
        exact ⟨full_le h2, 0, by omega, rfl, by simp⟩
      · simp only [h2, Bool.false_eq_true, if_false]
        rw [construct_anti hc]
        by_cases hs : c.sat o i
        · simp [hs, hc]
        · obtain ⟨a1, a2, a3, a4, a5⟩ := ih (idx + 1)
          simp only [hs, hc, decide_true, Bool.and_true, Bool.false_eq_true, if_false, Bool.or_false, List.append_nil]
          refine ⟨a1, a2, ?_, a4, ?_⟩
          · simpa [hs] using a3
          · intro k hk
            obtain ⟨e1, t, e2, e3, _⟩ := a5 k hk
            exact ⟨e1, t + 1, by omega, by simpa [hs] using e3, by simp⟩

/-- The rows of one outer row from index `idx` of its bucket, for a LEFT apply: one row per key-equal row. -/
theorem applyScan_left {c : Cfg α β} (hc : c.ty = .left) (o : α) (is : List β) (hsat : ∀ i ∈ is, c.sat o i = true) (idx : Nat)
    (has : Bool) (out : List (Row α β)) (num : Nat) :
    let r := applyScan c o is idx has out num
    r.1.num + out.length = num + r.1.out.length ∧
    (r.1.stop = none → r.1.out = out ++ is.map (fun i => (o, some i)) ∧ r.2 = (has || !is.isEmpty)) ∧
    (∀ k, r.1.stop = some (.limit, k) → r.1.out <+: out ++ is.map (fun i => (o, some i)) ∧ Hit c r.1.num) ∧
    (∀ k, r.1.stop = some (.full, k) → c.cap ≤ r.1.out.length ∧ ∃ t, k = idx + t ∧ t < is.length ∧
      out ++ is.map (fun i => (o, some i)) = r.1.out ++ (is.drop t).map (fun i => (o, some i))) := by
  induction is generalizing idx has out num with
  | nil => simp [applyScan]
  | cons i is ih =>
    unfold applyScan
    by_cases h1 : c.reached num
    · simp only [h1, if_true]
      refine ⟨by simp, by simp, fun k _ => ⟨List.prefix_append _ _, reached_hit h1⟩, by simp⟩
    · simp only [h1, Bool.false_eq_true, if_false]
      by_cases h2 : c.full out
      · simp only [h2, if_true]
        refine ⟨trivial, by simp, by simp, ?_⟩
        intro k h
        simp only [Option.some.injEq, Prod.mk.injEq, true_and] at h
        exact ⟨full_le h2, 0, by omega, by simp, by simp⟩
      · simp only [h2, Bool.false_eq_true, if_false]
        rw [construct_left hc, hsat i (by simp)]
        simp only [hc, reduceCtorEq, decide_false, Bool.and_false, Bool.false_eq_true, if_false, if_true, Bool.or_true]
        obtain ⟨a1, a2, a3, a4⟩ := ih (fun j hj => hsat j (by simp [hj])) (idx + 1) true (out ++ [(o, some i)]) (num + 1)
        refine ⟨?_, ?_, ?_, ?_⟩
        · simp only [List.length_append, List.length_singleton] at a1; omega
        · intro h
          obtain ⟨e1, e2⟩ := a2 h
          exact ⟨by rw [e1]; simp, by rw [e2]; simp⟩
        · intro k hk
          simpa using a3 k hk
        · intro k hk
          obtain ⟨e1, t, e2, e3, e4⟩ := a4 k hk
          exact ⟨e1, t + 1, by omega, by simpa using e3, by simpa using e4⟩

/-- The rows of one outer row from index `idx` of its bucket. -/
def ahRow (c : Cfg α β) (m : HMap β) (o : α) (idx : Nat) : List (Row α β) :=
  match m.seek (c.okey o) with
  | none => [(o, none)]
  | some is =>
    match c.ty with
    | .anti => if (is.drop idx).any (c.sat o) then [] else [(o, none)]
    | _ => (is.drop idx).map fun i => (o, some i)

def ahRem (c : Cfg α β) (m : HMap β) (s : HOState α) : List (Row α β) :=
  match s.os with
  | [] => []
  | o :: os => ahRow c m o s.idx ++ os.flatMap fun o => ahRow c m o 0

theorem ahRem_zero (c : Cfg α β) (m : HMap β) (os : List α) (n : Nat) :
    ahRem c m ⟨os, 0, n⟩ = os.flatMap fun o => ahRow c m o 0 := by
  cases os <;> simp [ahRem]

/-- What keeps a LEFT apply right: buckets are not empty, the index is inside the bucket, and the remaining conditions
hold on key-equal rows. -/
def AhOk (c : Cfg α β) (m : HMap β) (os : List α) : Prop :=
  c.ty = .left → ∀ o ∈ os, ∀ is, m.seek (c.okey o) = some is → is ≠ [] ∧ ∀ i ∈ is, c.sat o i = true

def AhIdx (c : Cfg α β) (m : HMap β) (os : List α) (idx : Nat) : Prop :=
  c.ty = .left → ∀ o ∈ os.head?, ∀ is, m.seek (c.okey o) = some is → idx < is.length

theorem ahLoop_ok {c : Cfg α β} (hc : c.ty = .anti ∨ c.ty = .left) (m : HMap β) (os : List α) (idx : Nat)
    (hok : AhOk c m os) (hidx : AhIdx c m os idx) (out : List (Row α β)) (num : Nat) :
    let r := ahLoop c m os idx out num
    (r.2 = none → r.1 <+: out ++ ahRem c m ⟨os, idx, num⟩ ∧
      (r.1 = out ++ ahRem c m ⟨os, idx, num⟩ ∨ ∃ l, c.limit = some l ∧ l + out.length ≤ num + r.1.length)) ∧
    (∀ s', r.2 = some s' → out ++ ahRem c m ⟨os, idx, num⟩ = r.1 ++ ahRem c m s' ∧ c.cap ≤ r.1.length ∧
      AhOk c m s'.os ∧ AhIdx c m s'.os s'.idx ∧ s'.num + out.length = num + r.1.length) := by
  induction os generalizing idx out num with
  | nil => simp [ahLoop, ahRem]
  | cons o os ih =>
    have hok' : AhOk c m os := fun h p hp => hok h p (by simp [hp])
    have hidx0 : AhIdx c m os 0 := by
      intro h p hp is hs
      have := (hok h p (by have := List.mem_of_mem_head? hp; simp [this]) is hs).1
      exact List.length_pos_iff.2 this
    -- continuing with the next outer row
    have key : ∀ (out' : List (Row α β)) (num' : Nat), num' + out.length = num + out'.length →
        out ++ ahRem c m ⟨o :: os, idx, num⟩ = out' ++ ahRem c m ⟨os, 0, num'⟩ →
        (let r := ahLoop c m os 0 out' num'
         (r.2 = none → r.1 <+: out ++ ahRem c m ⟨o :: os, idx, num⟩ ∧
            (r.1 = out ++ ahRem c m ⟨o :: os, idx, num⟩ ∨ ∃ l, c.limit = some l ∧ l + out.length ≤ num + r.1.length)) ∧
         (∀ s', r.2 = some s' → out ++ ahRem c m ⟨o :: os, idx, num⟩ = r.1 ++ ahRem c m s' ∧ c.cap ≤ r.1.length ∧
            AhOk c m s'.os ∧ AhIdx c m s'.os s'.idx ∧ s'.num + out.length = num + r.1.length)) := by
      intro out' num' hn e
      obtain ⟨i1, i2⟩ := ih 0 hok' hidx0 out' num'
      simp only
      rw [e]
      refine ⟨fun h => ?_, fun s' h => ?_⟩
      · obtain ⟨a1, a2⟩ := i1 h
        refine ⟨a1, a2.imp_right ?_⟩
        rintro ⟨l, a, b⟩
        exact ⟨l, a, by omega⟩
      · obtain ⟨a1, a2, a3, a4, a5⟩ := i2 s' h
        exact ⟨a1, a2, a3, a4, by omega⟩
    unfold ahLoop
    cases hs : m.seek (c.okey o) with
    | none =>
      simp only
      have e : ahRem c m ⟨o :: os, idx, num⟩ = [(o, none)] ++ os.flatMap fun o => ahRow c m o 0 := by
        simp [ahRem, ahRow, hs]
      by_cases h : c.reached num
      · simp only [h, if_true, true_implies, reduceCtorEq, false_implies, implies_true, and_true]
        obtain ⟨l, q1, q2⟩ := reached_hit h
        exact ⟨List.prefix_append _ _, Or.inr ⟨l, q1, by omega⟩⟩
      · by_cases h2 : c.full out
        · simp only [h, h2, Bool.false_eq_true, if_false, if_true, reduceCtorEq, false_implies, true_and,
            Option.some.injEq, forall_eq']
          exact ⟨full_le h2, hok, hidx, trivial⟩
        · simp only [h, h2, Bool.false_eq_true, if_false]
          refine key _ _ (by simp; omega) ?_
          rw [ahRem_zero, e, List.append_assoc]
    | some is =>
      simp only
      rcases hc with hc | hc
      · obtain ⟨g1, g2, g3, g4, g5⟩ := applyScan_anti hc o (is.drop idx) idx out num
        set r := applyScan c o (is.drop idx) idx false out num
        have e : ahRem c m ⟨o :: os, idx, num⟩ =
            (if (is.drop idx).any (c.sat o) then [] else [(o, none)]) ++ os.flatMap fun o => ahRow c m o 0 := by
          simp [ahRem, ahRow, hs, hc]
        rcases hstop : r.1.stop with _ | ⟨_ | _, k⟩
        · simp only
          have hb := g3 hstop
          by_cases h : r.2
          · simp only [h, if_true]
            rw [hb] at h
            refine key _ _ (by rw [g1, g2]) ?_
            rw [ahRem_zero, e, if_pos h, g1]; simp
          · simp only [h]
            rw [hb] at h
            refine key _ _ (by rw [g1, g2]; simp; omega) ?_
            rw [ahRem_zero, e, if_neg h, g1]; simp
        · obtain ⟨l, q1, q2⟩ := g4 k hstop
          simp only [true_implies, reduceCtorEq, false_implies, implies_true, and_true]
          rw [g1]
          exact ⟨List.prefix_append _ _, Or.inr ⟨l, q1, by omega⟩⟩
        · obtain ⟨p, t, q1, q2, _⟩ := g5 k hstop
          simp only [reduceCtorEq, false_implies, true_and, Option.some.injEq, forall_eq']
          rw [g1, g2]
          refine ⟨?_, p, hok, ?_, rfl⟩
          · rw [e, q2, List.drop_drop, ← q1]
            simp [ahRem, ahRow, hs, hc]
          · intro h; rw [hc] at h; cases h
      · obtain ⟨hne, hsat⟩ := hok hc o (by simp) is hs
        have hlt := hidx hc o (by simp) is hs
        obtain ⟨g1, g2, g3, g4⟩ := applyScan_left hc o (is.drop idx) (fun i hi => hsat i (List.mem_of_mem_drop hi)) idx false out num
        set r := applyScan c o (is.drop idx) idx false out num
        have e : ahRem c m ⟨o :: os, idx, num⟩ =
            (is.drop idx).map (fun i => (o, some i)) ++ os.flatMap fun o => ahRow c m o 0 := by
          simp [ahRem, ahRow, hs, hc]
        rcases hstop : r.1.stop with _ | ⟨_ | _, k⟩
        · obtain ⟨e1, e2⟩ := g2 hstop
          have h : r.2 = true := by
            rw [e2]
            have : ¬ is.length ≤ idx := by omega
            simp [this]
          simp only [h, if_true]
          refine key _ _ g1 ?_
          rw [ahRem_zero, e, e1, List.append_assoc]
        · obtain ⟨p, l, q1, q2⟩ := g3 k hstop
          simp only [true_implies, reduceCtorEq, false_implies, implies_true, and_true]
          refine ⟨?_, Or.inr ⟨l, q1, by omega⟩⟩
          rw [e, ← List.append_assoc]
          exact p.trans (List.prefix_append _ _)
        · obtain ⟨p, t, q1, q2, q3⟩ := g4 k hstop
          simp only [reduceCtorEq, false_implies, true_and, Option.some.injEq, forall_eq']
          refine ⟨?_, p, hok, ?_, g1⟩
          · rw [e, ← List.append_assoc, q3, List.drop_drop, ← q1]
            simp [ahRem, ahRow, hs, hc]
          · intro _ p hp is' hs'
            simp only [List.head?_cons, Option.mem_some_iff] at hp
            subst hp
            rw [hs] at hs'
            cases hs'
            simp only [List.length_drop] at q2
            omega

theorem ah_refines {c : Cfg α β} (hc : c.ty = .anti ∨ c.ty = .left) (m : HMap β) :
    Refines (ahNext c m) (ahRem c m) HOState.num c.cap c.limit True (fun s => AhOk c m s.os ∧ AhIdx c m s.os s.idx) where
  more s b s' hi h := by
    obtain ⟨_, h2⟩ := ahLoop_ok hc m s.os s.idx hi.1 hi.2 [] s.num
    unfold ahNext at h
    rw [h] at h2
    obtain ⟨a1, a2, a3, a4, a5⟩ := h2 s' rfl
    exact ⟨⟨a3, a4⟩, by simpa using a1, a2, fun _ => by simpa using a5⟩
  last s b hi h := by
    obtain ⟨h1, _⟩ := ahLoop_ok hc m s.os s.idx hi.1 hi.2 [] s.num
    unfold ahNext at h
    rw [h] at h1
    obtain ⟨a1, a2⟩ := h1 rfl
    refine ⟨by simpa using a1, ?_⟩
    rcases a2 with a2 | ⟨l, b1, b2⟩
    · exact Or.inl (by simpa using a2)
    · exact Or.inr ⟨l, b1, fun _ => by simpa using b2⟩

end BaikalDB.Join
