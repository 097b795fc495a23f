import Verif.Agg.Props

/-!
# C37: keys of groups, cases the code gets wrong, and examples
-/

namespace BaikalDB.Agg

variable {ρ V D O : Type} {n : Nat} [DecidableEq D]

/-! ## Keys -/

def flagStep (f : Byte) (x : Arg V × Nat) : Byte := if x.1.isNull then f ||| (1#8 <<< (7 - x.2)) else f

theorem bit_one_shift (i j : Nat) (hi : i ≤ 7) (hj : j ≤ 7) : (1#8 <<< i).getLsbD j = decide (i = j) := by
  have : ∀ a : Fin 8, ∀ b : Fin 8, (1#8 <<< a.1).getLsbD b.1 = decide (a.1 = b.1) := by decide
  exact this ⟨i, by omega⟩ ⟨j, by omega⟩

theorem flag_bits (l : List (Arg V)) : ∀ (k : Nat) (f : Byte), k + l.length ≤ 8 → ∀ j, j < 8 →
    ((l.zipIdx k).foldl flagStep f).getLsbD (7 - j) =
      (f.getLsbD (7 - j) || if k ≤ j then (l[j - k]?.map Arg.isNull).getD false else false) := by
  induction l with
  | nil => intro k f _ j _; simp
  | cons v l ih =>
    intro k f hk j hj
    simp only [List.length_cons] at hk
    rw [List.zipIdx_cons, List.foldl_cons, ih (k + 1) _ (by omega) j hj]
    have hstep : (flagStep f (v, k)).getLsbD (7 - j) = (f.getLsbD (7 - j) || (v.isNull && decide (j = k))) := by
      unfold flagStep
      cases v.isNull
      · simp
      · simp only [if_true, BitVec.getLsbD_or, bit_one_shift (7 - k) (7 - j) (by omega) (by omega), Bool.true_and]
        congr 1
        exact decide_eq_decide.mpr (by omega)
    rw [hstep]
    rcases Nat.lt_trichotomy j k with h | h | h
    · have e1 : ¬ k + 1 ≤ j := by omega
      have e2 : ¬ k ≤ j := by omega
      have e3 : j ≠ k := by omega
      simp [e1, e2, e3]
    · subst h
      simp
    · have e1 : k + 1 ≤ j := by omega
      have e2 : k ≤ j := by omega
      have e3 : j ≠ k := by omega
      have e4 : j - k = (j - (k + 1)) + 1 := by omega
      simp [e1, e2, e3, e4]

/-- Values whose encodings can be told apart: integers are of fixed width, strings without NUL end in one. -/
def PrefixFree (e : Env V D O) (T : V → Prop) : Prop := ∀ v w x y, T v → T w → e.enc v ++ x = e.enc w ++ y → v = w ∧ x = y

/-- Group expressions: at most eight, each with values of one type or NULL. -/
structure GroupOk (e : Env V D O) (group : List (ρ → Arg V)) : Prop where
  few : group.length ≤ 8
  typed : ∀ g ∈ group, ∃ T, PrefixFree e T ∧ ∀ r, g r = .null ∨ ∃ v, g r = .sc v ∧ T v

theorem body_inj {e : Env V D O} (r r' : ρ) (group : List (ρ → Arg V))
    (ht : ∀ g ∈ group, ∃ T, PrefixFree e T ∧ ∀ r, g r = .null ∨ ∃ v, g r = .sc v ∧ T v)
    (hnull : ∀ g ∈ group, (g r).isNull = (g r').isNull)
    (h : (group.map (· r)).flatMap (fun v => (v.val?.map e.enc).getD []) = (group.map (· r')).flatMap (fun v => (v.val?.map e.enc).getD [])) :
    group.map (· r) = group.map (· r') := by
  induction group with
  | nil => rfl
  | cons g group ih =>
    obtain ⟨T, hT, hg⟩ := ht g (by simp)
    have hn := hnull g (by simp)
    simp only [List.map_cons, List.flatMap_cons] at h ⊢
    have step : g r = g r' ∧ (group.map (· r)).flatMap (fun v => (v.val?.map e.enc).getD []) =
        (group.map (· r')).flatMap (fun v => (v.val?.map e.enc).getD []) := by
      rcases hg r with h1 | ⟨v, h1, hv⟩ <;> rcases hg r' with h2 | ⟨w, h2, hw⟩
      · rw [h1, h2] at h ⊢; exact ⟨rfl, by simpa [Arg.val?] using h⟩
      · rw [h1, h2] at hn; cases hn
      · rw [h1, h2] at hn; cases hn
      · rw [h1, h2] at h ⊢
        obtain ⟨rfl, hx⟩ := hT v w _ _ hv hw (by simpa [Arg.val?] using h)
        exact ⟨rfl, hx⟩
    rw [step.1, ih (fun g' hg' => ht g' (by simp [hg'])) (fun g' hg' => hnull g' (by simp [hg'])) step.2]

/-- Two rows are in the same group exactly if their GROUP BY values are the same, NULL being one of them. -/
theorem C37_group_key {e : Env V D O} {nd : Node n ρ V O} (h : GroupOk e nd.group) (r r' : ρ) :
    keyOf e nd r = keyOf e nd r' ↔ nd.group.map (· r) = nd.group.map (· r') := by
  refine ⟨fun hk => ?_, fun hv => by simp only [keyOf, hv]⟩
  have hf := h.few
  have hno : ∀ r, ¬ ((nd.group.map (· r)).length > 8 ∧ ((nd.group.map (· r)).drop 8).any (·.isNull) = true) := by
    intro r hc
    simp only [List.length_map] at hc
    omega
  unfold keyOf encodeKey at hk
  rw [if_neg (hno r), if_neg (hno r')] at hk
  simp only [Option.getD_some, List.cons.injEq] at hk
  obtain ⟨hflag, hbody⟩ := hk
  refine body_inj r r' nd.group h.typed ?_ hbody
  intro g hg
  obtain ⟨j, hj, hgj⟩ := List.getElem_of_mem hg
  have b1 := flag_bits (nd.group.map (· r)) 0 0#8 (by simpa using hf) j (by omega)
  have b2 := flag_bits (nd.group.map (· r')) 0 0#8 (by simpa using hf) j (by omega)
  have e1 : ((nd.group.map (· r)).zipIdx 0).foldl flagStep 0#8 = ((nd.group.map (· r')).zipIdx 0).foldl flagStep 0#8 := hflag
  rw [e1] at b1
  rw [b1] at b2
  have hz : (0#8).getLsbD (7 - j) = false := by simp
  simp only [hz, Bool.false_or, Nat.zero_le, if_true, Nat.sub_zero, List.getElem?_map, List.getElem?_eq_getElem hj, Option.map_some,
    Option.getD_some, hgj] at b2
  exact b2

/-! ## Cases the code gets wrong -/

/-- Strings as values, integers as doubles. -/
def demo : Env Bytes Int Int where
  zero := 0
  add := (· + ·)
  div s k := s / k.toNat
  cmp a b := match bcmp a b with | .lt => -1 | .eq => 0 | .gt => 1
  toInt v := BitVec.ofNat 64 v.length
  toDbl v := v.length
  toStr v := v
  toU32 v := v.length
  ofStr v := v
  enc v := v ++ [0#8]
  tag _ := 13#8
  raw v := v
  unraw _ v := v
  sort := id

/-- GROUP BY two string columns: ("a\0b", "c") and ("a", "b\0c") have the same key. -/
theorem C37_group_key_nul_counterexample :
    encodeKey demo [.sc [0x61#8, 0#8, 0x62#8], .sc [0x63#8]] = encodeKey demo [.sc [0x61#8], .sc [0x62#8, 0#8, 0x63#8]] := by decide

/-- A NULL in the ninth GROUP BY column: the flag's shift is undefined. -/
theorem C37_group_key_nine_counterexample : encodeKey demo ((List.replicate 8 (.sc [])) ++ [.null]) = none := by decide

/-- One region has only NULLs in a group, another has {0, 2}: RB_AND_AGG depends on which answers first. -/
theorem C37_rb_and_counterexample :
    ∃ (nd : Node 1 (Arg Bytes) Bytes Int) (regions : List (List (Arg Bytes))) (rows rows' : List (Row 1 (Arg Bytes) Bytes Int)),
      (nd.calls 0).kind = .rbAnd ∧ rows.Perm (storeRows demo nd regions) ∧ rows'.Perm (storeRows demo nd regions) ∧
      (runNode demo nd true true rows).map (·.1.fins 0) = [.bm 0] ∧ (runNode demo nd true true rows').map (·.1.fins 0) = [.bm 5] := by
  refine ⟨⟨[fun _ => .sc [0x31#8]], fun _ => { kind := .rbAnd, args := [id] }, .null⟩, [[.null], [.bm 5]], _, _, rfl,
    .refl _, List.reverse_perm _, ?_, ?_⟩
  · decide
  · decide

/-- One region has only NULLs in a group: merging its set reads outside the string. -/
theorem C37_multi_distinct_counterexample :
    ∃ (nd : Node 1 (Arg Bytes) Bytes Int) (regions : List (List (Arg Bytes))),
      (nd.calls 0).kind = .multiCount ∧ (runNode demo nd true true (storeRows demo nd regions)).map (·.2) = [true] := by
  refine ⟨⟨[fun _ => .sc [0x31#8]], fun _ => { kind := .multiCount, args := [id] }, .null⟩, [[.null], [.sc [0x31#8]]], rfl, ?_⟩
  decide

/-- The sum over a set of no rows is 0, not NULL. -/
theorem C37_multi_sum_counterexample :
    ∃ (nd : Node 1 (Arg Bytes) Bytes Int), (nd.calls 0).kind = .multiSum ∧ nd.group = [] ∧
      (runNode demo nd true true (storeRows demo nd [])).map (·.1.fins 0) = [.int 0] ∧
      ¬ Spec.Answer demo (· ≤ ·) (nd.calls 0) [] (.int 0) := by
  refine ⟨⟨[], fun _ => { kind := .multiSum, args := [id] }, .null⟩, rfl, rfl, by decide, ?_⟩
  simp [Spec.Answer]

/-- GROUP_CONCAT with ORDER BY over '' and 'x' is 'x', without the separator. -/
theorem C37_concat_order_counterexample :
    ∃ (nd : Node 1 (Arg Bytes) Bytes Int), (nd.calls 0).order.isSome ∧ nd.group = [] ∧
      (runNode demo nd false true [scanned (.sc []), scanned (.sc [0x78#8])]).map (·.1.fins 0) = [.str [0x78#8]] ∧
      ¬ Spec.Answer demo (· ≤ ·) (nd.calls 0) [.sc [], .sc [0x78#8]] (.str [0x78#8]) := by
  refine ⟨⟨[], fun _ => { kind := .concat, args := [id], order := some fun _ => 0 }, .null⟩, rfl, rfl, by decide, ?_⟩
  have t1 : Spec.text demo ({ kind := .concat, args := [id], order := some fun _ => 0 } : Call (Arg Bytes) Bytes Int) (.sc []) = some [] := by
    rw [← text_eq]; rfl
  have t2 : Spec.text demo ({ kind := .concat, args := [id], order := some fun _ => 0 } : Call (Arg Bytes) Bytes Int) (.sc [0x78#8]) = some [0x78#8] := by
    rw [← text_eq]; rfl
  intro h
  unfold Spec.Answer at h
  simp only [List.filterMap_cons, t1, t2, List.filterMap_nil, reduceCtorEq, if_false] at h
  obtain ⟨L, hp, hf, _⟩ := h
  have hl := (hp.filterMap (Spec.text demo ({ kind := .concat, args := [id], order := some fun _ => 0 } : Call (Arg Bytes) Bytes Int)))
  simp only [List.filterMap_cons, t1, t2, List.filterMap_nil] at hl
  simp only [Slot.str.injEq] at hf
  generalize L.filterMap _ = M at hf hl
  have hlen := congrArg List.length hf
  match M, hl.length_eq with
  | [a, b], _ =>
    have hs : a.length + b.length = 1 := by
      have := hl.flatten.length_eq
      simpa using this
    simp [List.intercalate, List.intersperse] at hlen
    omega

/-! ## The hypotheses are met -/

/-- A row: a column that is NULL, '1' or '22'. -/
def demoArg : Option Bool → Arg Bytes
  | none => .null
  | some true => .sc [0x31#8]
  | some false => .sc [0x32#8, 0x32#8]

/-- COUNT(*), SUM, AVG, MIN, GROUP_CONCAT and COUNT(DISTINCT) of several. -/
def demoCalls : Fin 6 → Call (Option Bool) Bytes Int := fun i =>
  { kind := [Kind.countStar, .sum, .avg, .min, .concat, .multiCount].get i, args := [demoArg] }

theorem demo_order : Order demo.cmp (fun _ => True) := by
  constructor
  · intro a b _ _
    have := bcmp_swap a b
    simp only [demo]
    cases h1 : bcmp a b <;> cases h2 : bcmp b a <;> simp_all
  · intro a b c _ _ _ h1 h2
    have k : ∀ x y : Bytes, demo.cmp x y ≤ 0 ↔ BLe x y := by
      intro x y
      simp only [demo, BLe]
      cases bcmp x y <;> simp
    rw [k] at *
    exact h1.trans h2

def demoVals : Bytes → Prop := fun v => v ∈ [[0x31#8], [0x32#8, 0x32#8]]

theorem demo_ok (nd : Node 6 (Option Bool) Bytes Int) (h : nd.calls = demoCalls) : NodeOk demo nd (fun _ => demoVals) := by
  refine ⟨⟨?_, ?_, ?_⟩, fun i => ⟨⟨?_, ?_⟩, ?_⟩, ?_⟩
  · intro x; simp [demo]
  · intro x y; simp [demo, Int.add_comm]
  · intro x y z; simp [demo, Int.add_assoc]
  · exact fun a b _ _ => demo_order.flip a b trivial trivial
  · exact fun a b c _ _ _ => demo_order.trans a b c trivial trivial trivial
  · intro _
    refine ⟨13#8, none, by decide, fun v _ => ⟨rfl, rfl, fun w' hw => by cases hw⟩, fun S hS hT => ?_⟩
    have hnd : S.Nodup := hS.imp fun {a b} hab => fun hc => hab (by
      subst hc
      exact demo_order.refl trivial)
    have hlen : S.length ≤ 2 := by
      have := (hnd.subperm (l₂ := [[0x31#8], [0x32#8, 0x32#8]]) hT).length_le
      simpa using this
    have hb : ∀ S : List Bytes, (∀ s ∈ S, demoVals s) → (serBody demo none S).length ≤ 6 * S.length := by
      intro S
      induction S with
      | nil => intro _; simp [serBody]
      | cons v S ih =>
        intro hv
        have := ih fun s hs => hv s (by simp [hs])
        have h1 := hv v (by simp)
        have h2 : v.length ≤ 2 := by
          simp only [demoVals, List.mem_cons, List.not_mem_nil, or_false] at h1
          rcases h1 with rfl | rfl <;> simp
        simp only [serBody, List.flatMap_cons, List.length_append, List.length_cons, demo, le32, List.length_nil] at this ⊢
        omega
    have := hb S hT
    omega
  · intro i r v hv
    rw [h] at hv
    have hm : Spec.member demo (demoCalls i) r = some v → (demoCalls i).kind ≠ .multiConcat → Spec.scalar (demoCalls i) r = some v := by
      intro h1 h2
      simpa [Spec.member, h2] using h1
    have hs : Spec.scalar (demoCalls i) r = some v := by
      rcases hv with hv | hv
      · exact hv
      · exact hm hv (by clear hv hm; revert i; decide)
    rw [arg0_scalar] at hs
    simp only [arg0, demoCalls, List.head?_cons, Option.map_some, Option.getD_some] at hs
    rcases r with _ | _ | _ <;> simp [demoArg, Arg.val?] at hs <;> subst hs <;> simp [demoVals]

theorem demo_ans (R : List (Option Bool)) (hR : R.length < 2 ^ 64) (i : Fin 6) : AnsOk demo (· ≤ ·) (demoCalls i) R :=
  ⟨hR, fun h => absurd rfl h, fun h => by
    rcases h with h | h
    · exact absurd h (by revert i; decide)
    · exact absurd rfl h, fun h => absurd h (by revert i; decide)⟩

/-- Three regions, one of them empty, no GROUP BY. -/
example : (runNode demo ⟨[], demoCalls, none⟩ true true
    (storeRows demo ⟨[], demoCalls, none⟩ [[some true, none], [], [some false, some true]])).length = 1 := by
  refine (C37_regions (le := (· ≤ ·)) (demo_ok _ rfl) (fun i => ⟨by revert i; decide, rfl⟩) [[some true, none], [], [some false, some true]]
    (by decide) (demo_ans _ (by decide)) ?_ ?_ true (.refl _)).2.2.2.2.2 rfl
  · intro R hR i k
    constructor
    · intro h; exact absurd h (by revert i; decide)
    · intro _ hne
      have hall : groupRows demo (⟨[], demoCalls, none⟩ : Node 6 (Option Bool) Bytes Int) R k = R := by
        unfold groupRows at hne ⊢
        obtain ⟨r, hr⟩ := List.exists_mem_of_ne_nil _ hne
        have h1 := (List.mem_filter.mp hr).2
        refine List.filter_eq_self.mpr fun r' _ => ?_
        rw [keyOf_nil rfl r' r]
        exact h1
      rw [hall] at hne ⊢
      have hsome : ∀ b : Bool, (Spec.member demo (demoCalls i) (some b)).isSome = true := by
        intro b
        have hk : ∀ i, (demoCalls i).kind ≠ .multiConcat := by decide
        rw [Spec.member, if_neg (hk i), arg0_scalar]
        simp only [arg0, demoCalls, List.head?_cons, Option.map_some, Option.getD_some]
        cases b <;> rfl
      simp only [List.mem_cons, List.not_mem_nil, or_false] at hR
      rcases hR with rfl | rfl | rfl
      · intro h0
        have := List.filterMap_eq_nil_iff.mp h0 (some true) (by simp)
        have h1 := hsome true
        rw [this] at h1
        cases h1
      · exact absurd rfl hne
      · intro h0
        have := List.filterMap_eq_nil_iff.mp h0 (some true) (by simp)
        have h1 := hsome true
        rw [this] at h1
        cases h1
  · intro _ h0
    simp at h0

/-- and its values: 4 rows, sum 1 + 2 + 1, minimum '1', 2 distinct. -/
example : (runNode demo ⟨[], demoCalls, none⟩ true true
    (storeRows demo ⟨[], demoCalls, none⟩ [[some true, none], [], [some false, some true]])).map
      (fun x => (x.1.fins 0, x.1.fins 1, x.1.fins 3, x.1.fins 5)) = [(.int 4, .int 4, .sc [0x31#8], .int 2)] := by decide

/-- The key of a group: NULL is a group of its own. -/
example : keyOf demo (⟨[demoArg], demoCalls, none⟩ : Node 6 (Option Bool) Bytes Int) none ≠ keyOf demo ⟨[demoArg], demoCalls, none⟩ (some true) := by
  rw [Ne, C37_group_key]
  · decide
  · refine ⟨by simp, fun g hg => ?_⟩
    simp only [List.mem_singleton] at hg
    subst hg
    refine ⟨demoVals, ?_, fun r => ?_⟩
    · intro v w x y hv hw h
      simp only [demoVals, List.mem_cons, List.not_mem_nil, or_false] at hv hw
      rcases hv with rfl | rfl <;> rcases hw with rfl | rfl <;> simp [demo] at h ⊢ <;> exact h
    · rcases r with _ | _ | _
      · exact .inl rfl
      · exact .inr ⟨_, rfl, by simp [demoVals]⟩
      · exact .inr ⟨_, rfl, by simp [demoVals]⟩

/-- COUNT(DISTINCT c), COUNT(*) with the plan of two merging nodes. -/
def demoOuter : Node 2 (Option Bool) Bytes Int :=
  ⟨[], fun i => { kind := [Kind.count, .countStar].get i, args := [demoArg], distinct := i == 0 }, none⟩

def demoInner : Node 2 (Option Bool) Bytes Int :=
  ⟨[demoArg], fun i => if i = 0 then { kind := .absent, args := [] } else demoOuter.calls i, none⟩

example : (runNode demo demoOuter true true ((runNode demo demoInner true false (storeRows demo demoInner
    [[some true, none], [some true, some false]])).map (·.1))).map (fun x => (x.1.fins 0, x.1.fins 1)) = [(.int 2, .int 4)] := by decide

example : (runNode demo demoOuter true true ((runNode demo demoInner true false (storeRows demo demoInner
    [[some true, none], [some true, some false]])).map (·.1))).length = 1 := by
  refine (C37_distinct (le := (· ≤ ·)) (T := fun _ => demoVals) (outer := demoOuter) (inner := demoInner) ?_ (fun _ _ _ => rfl) (by simp [demoInner]) ?_
    [[some true, none], [some true, some false]] (by decide) ?_ ?_ ?_ true (.refl _) (.refl _)).2.2.2.2 rfl
  · have hk : ∀ i, (demoOuter.calls i).kind.isMulti = false := by decide
    refine ⟨(demo_ok ⟨[], demoCalls, none⟩ rfl).laws, fun i => ⟨((demo_ok ⟨[], demoCalls, none⟩ rfl).call 0).order, ?_⟩, ?_⟩
    · intro h; rw [hk i] at h; cases h
    · intro i r v hv
      have hm : (demoOuter.calls i).kind ≠ .multiConcat := by clear hv; revert i; decide
      have hs : Spec.scalar (demoOuter.calls i) r = some v := by
        rcases hv with hv | hv
        · exact hv
        · simpa [Spec.member, hm] using hv
      rw [arg0_scalar] at hs
      simp only [arg0, demoOuter, List.head?_cons, Option.map_some, Option.getD_some] at hs
      rcases r with _ | _ | _ <;> simp [demoArg, Arg.val?] at hs <;> subst hs <;> simp [demoVals]
  · intro i
    by_cases h0 : i = 0
    · subst h0; simp [isD, demoOuter, demoInner, Kind.isMulti]
    · have : i = 1 := by omega
      subst this
      simp [isD, demoOuter, demoInner]
  · intro i
    exact ⟨by decide, fun h => absurd rfl h, fun h => by
      rcases h with h | h
      · exact absurd h (by revert i; decide)
      · exact absurd rfl h, fun h => absurd h (by revert i; decide)⟩
  · intro R _ i k
    exact ⟨fun h => absurd h (by revert i; decide), fun h => absurd h (by revert i; decide)⟩
  · intro _ h0
    simp at h0

end BaikalDB.Agg
