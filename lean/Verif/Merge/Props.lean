import Verif.Merge.Model
namespace BaikalDB.Merge
variable {w : Nat → Nat}

theorem mergeLoop_append (vd : Bool) : ∀ (a : List (Rec w)) (base : Rec w) (b : List (Rec w)),
    mergeLoop vd base (a ++ b) = (mergeLoop vd base a).bind (fun x => mergeLoop vd x b) := by
  intro a
  induction a with
  | nil => intro base b; rfl
  | cons r rs ih =>
    intro base b
    simp only [List.cons_append, mergeLoop]
    cases mergeOne vd base r with
    | none => rfl
    | some x => exact ih x b

/-- Records of versioned tables have a version that is not NULL, other records have none. -/
def HasVer (vd : Bool) (r : Rec w) : Prop := r.ver.isSome = vd

theorem mergeOne_some {vd : Bool} {base r : Rec w} (hb : HasVer vd base) (hr : HasVer vd r) :
    ∃ x, mergeOne vd base r = some x ∧ HasVer vd x := by
  unfold HasVer at *
  unfold mergeOne
  cases vd with
  | false => exact ⟨_, rfl, hb⟩
  | true =>
    cases e1 : base.ver with
    | none => rw [e1] at hb; cases hb
    | some b =>
      cases e2 : r.ver with
      | none => rw [e2] at hr; cases hr
      | some v =>
        simp only [if_true]
        split
        · exact ⟨base, rfl, hb⟩
        · exact ⟨_, rfl, rfl⟩

theorem mergeLoop_some {vd : Bool} : ∀ (l : List (Rec w)) (base : Rec w), HasVer vd base → (∀ r ∈ l, HasVer vd r) →
    ∃ x, mergeLoop vd base l = some x ∧ HasVer vd x := by
  intro l
  induction l with
  | nil => intro base hb _; exact ⟨base, rfl, hb⟩
  | cons r rs ih =>
    intro base hb hl
    obtain ⟨x, hx, hx'⟩ := mergeOne_some hb (hl r (by simp))
    simp only [mergeLoop, hx]
    exact ih x hx' (fun y hy => hl y (by simp [hy]))

/-- All records of a key, oldest first. -/
def Key.recs (k : Key w) : List (Rec w) := k.value.toList ++ k.ops

/-- Reading is folding everything after the first record into it. -/
theorem read_eq {vd : Bool} {k : Key w} (hk : ∀ r ∈ k.recs, HasVer vd r) :
    k.read vd = match k.recs with | [] => none | r :: rs => mergeLoop vd r rs := by
  obtain ⟨v, ops⟩ := k
  cases v with
  | none =>
    cases ops with
    | nil => rfl
    | cons o os =>
      simp only [Key.read, fullMerge, Key.recs, Option.toList, List.nil_append]
      have ho : HasVer vd o := hk o (by simp [Key.recs])
      rw [if_neg (by rintro ⟨h1, h2⟩; unfold HasVer at ho; rw [h2, h1] at ho; cases ho)]
      obtain ⟨x, hx, _⟩ := mergeLoop_some os o ho (fun r hr => hk r (by simp [Key.recs, hr]))
      rw [hx]; rfl
  | some e =>
    have he : HasVer vd e := hk e (by simp [Key.recs])
    obtain ⟨x, hx, _⟩ := mergeLoop_some ops e he (fun r hr => hk r (by simp [Key.recs, hr]))
    cases ops with
    | nil => simp [Key.read, Key.recs, mergeLoop]
    | cons o os =>
      simp only [Key.read, fullMerge, Key.recs, Option.toList, List.cons_append, List.nil_append]
      rw [if_neg (by rintro ⟨h1, h2⟩; unfold HasVer at he; rw [h2, h1] at he; cases he), hx]; rfl

theorem fullMerge_eq {vd : Bool} {v : Option (Rec w)} {o : Rec w} {os : List (Rec w)} (h : ∀ r ∈ v.toList ++ (o :: os), HasVer vd r) :
    fullMerge vd v (o :: os) = match v.toList ++ (o :: os) with | [] => none | r :: rs => mergeLoop vd r rs :=
  read_eq (k := ⟨v, o :: os⟩) h

/-- Full merges of a prefix do not change what is read, whole record included. -/
theorem full_read {vd : Bool} {k : Key w} (hk : ∀ r ∈ k.recs, HasVer vd r) (en : Bool) (cols : List Nat) (n : Nat) :
    (k.compact en cols vd (.full n)).read vd = k.read vd ∧ ∀ r ∈ (k.compact en cols vd (.full n)).recs, HasVer vd r := by
  simp only [Key.compact]
  split
  · rename_i hn
    obtain ⟨v, ops⟩ := k
    simp only [] at hn ⊢
    cases ops with
    | nil => simp at hn
    | cons o os =>
      rw [List.take_succ_cons, List.drop_succ_cons]
      have hall : ∀ r ∈ v.toList ++ (o :: os), HasVer vd r := hk
      have hpre : ∀ r ∈ v.toList ++ (o :: os.take n), HasVer vd r := by
        intro r hr
        apply hall
        simp only [List.mem_append, List.mem_cons] at hr ⊢
        rcases hr with h | h | h
        · exact Or.inl h
        · exact Or.inr (Or.inl h)
        · exact Or.inr (Or.inr (List.mem_of_mem_take h))
      obtain ⟨r0, rs, hrs⟩ : ∃ r0 rs, v.toList ++ (o :: os.take n) = r0 :: rs := by
        cases v <;> simp
      have hfull : v.toList ++ (o :: os) = r0 :: (rs ++ os.drop n) := by
        rw [← List.cons_append, ← hrs, List.append_assoc, List.cons_append, List.take_append_drop]
      have h0 : HasVer vd r0 := hpre r0 (by rw [hrs]; simp)
      obtain ⟨x, hx, hxv⟩ := mergeLoop_some rs r0 h0 (fun r hr => hpre r (by rw [hrs]; simp [hr]))
      have e1 : fullMerge vd v (o :: os.take n) = some x := by
        rw [fullMerge_eq hpre, hrs]; exact hx
      rw [e1]
      have hnew : ∀ r ∈ (⟨some x, os.drop n⟩ : Key w).recs, HasVer vd r := by
        intro r hr
        simp only [Key.recs, Option.toList, List.cons_append, List.nil_append, List.mem_cons] at hr
        rcases hr with rfl | hr
        · exact hxv
        · exact hall r (by simp [List.mem_of_mem_drop hr])
      refine ⟨?_, hnew⟩
      rw [read_eq hnew, read_eq hk]
      simp only [Key.recs] at *
      rw [hfull]
      simp only [Option.toList, List.cons_append, List.nil_append, mergeLoop_append, hx, Option.bind_some]
  · exact ⟨rfl, hk⟩

/-- Two records that agree on version and counters. -/
def Agree (a b : Rec w) : Prop := a.ver = b.ver ∧ a.sum = b.sum

theorem mergeOne_agree {vd : Bool} {a b r s : Rec w} (h : Agree a b) (h' : Agree r s) :
    (mergeOne vd a r = none ∧ mergeOne vd b s = none) ∨ ∃ x y, mergeOne vd a r = some x ∧ mergeOne vd b s = some y ∧ Agree x y := by
  obtain ⟨h1, h2⟩ := h
  obtain ⟨h3, h4⟩ := h'
  unfold mergeOne
  cases vd with
  | false => right; exact ⟨_, _, rfl, rfl, h1, by simp [addAll, h2, h4]⟩
  | true =>
    simp only [if_true]
    rw [h1, h3]
    cases b.ver with
    | none => left; exact ⟨rfl, rfl⟩
    | some bv =>
      cases s.ver with
      | none => left; exact ⟨rfl, rfl⟩
      | some v =>
        simp only []
        split
        · right; exact ⟨a, b, rfl, rfl, h1, h2⟩
        · right; exact ⟨_, _, rfl, rfl, rfl, by simp [addAll, h2, h4]⟩

theorem mergeLoop_agree {vd : Bool} : ∀ (l : List (Rec w)) (a b : Rec w), Agree a b →
    (mergeLoop vd a l = none ∧ mergeLoop vd b l = none) ∨
      ∃ x y, mergeLoop vd a l = some x ∧ mergeLoop vd b l = some y ∧ Agree x y := by
  intro l
  induction l with
  | nil => intro a b h; right; exact ⟨a, b, rfl, rfl, h⟩
  | cons r rs ih =>
    intro a b h
    simp only [mergeLoop]
    rcases mergeOne_agree (vd := vd) h (⟨rfl, rfl⟩ : Agree r r) with ⟨h1, h2⟩ | ⟨x, y, h1, h2, h3⟩
    · left; simp [h1, h2]
    · simp only [h1, h2]; exact ih x y h3

theorem add_comm3 {n : Nat} (a b c : BitVec n) : a + b + c = a + (c + b) := by rw [BitVec.add_assoc, BitVec.add_comm b c]

/-- Records of the table: counters outside `cols` do not occur. -/
def OnCols (cols : List Nat) (r : Rec w) : Prop := ∀ c, c ∉ cols → r.sum c = none

theorem partialMerge_spec {en vd : Bool} {cols : List Nat} {l r m : Rec w} (hm : partialMerge en cols vd l r = some m) :
    m = addLeft cols l r ∧ (vd = true → l.ver = some 0#64 ∧ r.ver = some 0#64) ∧ ∀ c, c ∈ cols → l.sum c ≠ none := by
  unfold partialMerge at hm
  split at hm
  · cases hm
  split at hm
  · cases hm
  rename_i hv
  split at hm
  · cases hm
  rename_i hs
  simp only [Option.some.injEq] at hm
  refine ⟨hm.symm, fun h => ⟨?_, ?_⟩, ?_⟩
  · by_contra h'; exact hv ⟨h, Or.inl h'⟩
  · by_contra h'; exact hv ⟨h, Or.inr h'⟩
  · intro c hc h
    apply hs
    rw [List.any_eq_true]
    exact ⟨c, hc, by simp [h]⟩

theorem addAll_addLeft {cols : List Nat} {l r : Rec w} (hsum : ∀ c, c ∈ cols → l.sum c ≠ none) (hl : OnCols cols l) (hr : OnCols cols r)
    (b : Rec w) : (addAll (addAll b l) r).sum = (addAll b (addLeft cols l r)).sum := by
  funext c
  simp only [addAll, addLeft]
  by_cases hc : c ∈ cols
  · simp only [hc, if_true]
    cases e : l.sum c with
    | none => exact absurd e (hsum c hc)
    | some v =>
      simp only []
      cases e2 : r.sum c with
      | none => simp [addValue]
      | some u => simp [addValue, add_comm3]
  · simp only [hc, if_false, hl c hc, hr c hc]

theorem addLeft_sum {cols : List Nat} {l r : Rec w} (hsum : ∀ c, c ∈ cols → l.sum c ≠ none) (hl : OnCols cols l) (hr : OnCols cols r) :
    (addLeft cols l r).sum = (addAll l r).sum := by
  funext c
  simp only [addAll, addLeft]
  by_cases hc : c ∈ cols
  · simp only [hc, if_true]
    cases e : l.sum c with
    | none => exact absurd e (hsum c hc)
    | some v =>
      simp only []
      cases e2 : r.sum c with
      | none => simp [addValue]
      | some u => simp [addValue, BitVec.add_comm]
  · simp only [hc, if_false, hl c hc, hr c hc]

/-- A successful partial merge is worth its two operands one after the other, as far as version and counters go. -/
theorem partial_two {en vd : Bool} {cols : List Nat} {l r m : Rec w} (hm : partialMerge en cols vd l r = some m)
    (hl : OnCols cols l) (hr : OnCols cols r) (base : Rec w) (hb : HasVer vd base) :
    ∃ x y z, mergeOne vd base l = some x ∧ mergeOne vd x r = some y ∧ mergeOne vd base m = some z ∧ Agree y z := by
  obtain ⟨rfl, hv, hsum⟩ := partialMerge_spec hm
  have key := addAll_addLeft hsum hl hr
  cases vd with
  | false => exact ⟨_, _, _, rfl, rfl, rfl, rfl, key base⟩
  | true =>
    obtain ⟨hl0, hr0⟩ := hv rfl
    have hm0 : (addLeft cols l r).ver = some 0#64 := hr0
    cases hbv : base.ver with
    | none => unfold HasVer at hb; rw [hbv] at hb; cases hb
    | some b =>
      simp only [mergeOne, hbv, hl0, hm0, if_true]
      by_cases hskip : b.toInt ≥ (0#64 : BitVec 64).toInt ∧ ¬ (True ∧ b = 0#64)
      · rw [if_pos hskip]
        refine ⟨base, base, base, rfl, ?_, if_pos hskip, rfl, rfl⟩
        simp only [hbv, hr0]
        rw [if_pos hskip]
      · rw [if_neg hskip]
        refine ⟨_, addAll { addAll { base with ver := some 0#64 } l with ver := some 0#64 } r, _, rfl, ?_, if_neg hskip, rfl, ?_⟩
        · simp [addAll, hr0]
        · exact key { base with ver := some 0#64 }

/-- Reading gives the same version and the same counters. -/
def SameCounters (a b : Option (Rec w)) : Prop :=
  a.map (fun r => (r.ver, r.sum)) = b.map (fun r => (r.ver, r.sum))

theorem sameCounters_of {a b : Option (Rec w)} (h : (a = none ∧ b = none) ∨ ∃ x y, a = some x ∧ b = some y ∧ Agree x y) :
    SameCounters a b := by
  rcases h with ⟨h1, h2⟩ | ⟨x, y, h1, h2, h3, h4⟩
  · rw [h1, h2]; rfl
  · rw [h1, h2]; simp [SameCounters, h3, h4]

/-- Invariant of keys of a table: versions set, counters among the table's. -/
def Good (vd : Bool) (cols : List Nat) (k : Key w) : Prop := ∀ r ∈ k.recs, HasVer vd r ∧ OnCols cols r

theorem partial_good {en vd : Bool} {cols : List Nat} {l r m : Rec w} (hm : partialMerge en cols vd l r = some m)
    (hr : HasVer vd r ∧ OnCols cols r) : HasVer vd m ∧ OnCols cols m := by
  obtain ⟨rfl, -, -⟩ := partialMerge_spec hm
  exact ⟨hr.1, fun c hc => by simp [addLeft, hc, hr.2 c hc]⟩

theorem addAll_onCols {cols : List Nat} {a b : Rec w} (ha : OnCols cols a) (hb : OnCols cols b) : OnCols cols (addAll a b) := by
  intro c hc
  simp [addAll, hb c hc, ha c hc]

theorem mergeOne_onCols {vd : Bool} {cols : List Nat} {a b x : Rec w} (h : mergeOne vd a b = some x) (ha : OnCols cols a) (hb : OnCols cols b) :
    OnCols cols x := by
  unfold mergeOne at h
  split at h
  · split at h
    · split at h
      · simp only [Option.some.injEq] at h; subst h; exact ha
      · simp only [Option.some.injEq] at h; subst h; exact addAll_onCols (fun c hc => ha c hc) hb
    · cases h
  · simp only [Option.some.injEq] at h; subst h; exact addAll_onCols ha hb

theorem mergeLoop_onCols {vd : Bool} {cols : List Nat} : ∀ (l : List (Rec w)) (a x : Rec w), mergeLoop vd a l = some x →
    OnCols cols a → (∀ r ∈ l, OnCols cols r) → OnCols cols x := by
  intro l
  induction l with
  | nil => intro a x h ha _; simp only [mergeLoop, Option.some.injEq] at h; subst h; exact ha
  | cons r rs ih =>
    intro a x h ha hl
    simp only [mergeLoop] at h
    cases hm : mergeOne vd a r with
    | none => rw [hm] at h; cases h
    | some b =>
      rw [hm] at h
      exact ih b x h (mergeOne_onCols hm ha (hl r (by simp))) (fun y hy => hl y (by simp [hy]))

theorem full_good {en vd : Bool} {cols : List Nat} {k : Key w} (hk : Good vd cols k) (n : Nat) :
    Good vd cols (k.compact en cols vd (.full n)) := by
  have hv := (full_read (fun r hr => (hk r hr).1) en cols n).2
  intro r hr
  refine ⟨hv r hr, ?_⟩
  simp only [Key.compact] at hr
  split at hr
  · simp only [Key.recs, List.mem_append] at hr
    rcases hr with hr | hr
    · rw [Option.mem_toList] at hr
      rename_i hn
      obtain ⟨v, ops⟩ := k
      cases ops with
      | nil => simp at hn
      | cons o os =>
        rw [List.take_succ_cons] at hr
        have hsub : ∀ r ∈ v.toList ++ (o :: os.take n), r ∈ (⟨v, o :: os⟩ : Key w).recs := by
          intro r hr
          simp only [Key.recs, List.mem_append, List.mem_cons] at hr ⊢
          rcases hr with h | h | h
          · exact Or.inl h
          · exact Or.inr (Or.inl h)
          · exact Or.inr (Or.inr (List.mem_of_mem_take h))
        rw [fullMerge_eq (fun r h => (hk r (hsub r h)).1)] at hr
        split at hr
        · cases hr
        · rename_i r0 rs heq
          exact mergeLoop_onCols rs r0 r hr (hk r0 (hsub r0 (by rw [heq]; simp))).2
            (fun y hy => (hk y (hsub y (by rw [heq]; simp [hy]))).2)
    · exact (hk r (by simp [Key.recs, List.mem_of_mem_drop hr])).2
  · exact (hk r hr).2

theorem partly_read {en vd : Bool} {cols : List Nat} {k : Key w} (hk : Good vd cols k) (i : Nat) :
    SameCounters ((k.compact en cols vd (.partly i)).read vd) (k.read vd) ∧ Good vd cols (k.compact en cols vd (.partly i)) := by
  simp only [Key.compact]
  split
  · rename_i l r hl hr
    split
    · rename_i m hm
      obtain ⟨v, ops⟩ := k
      simp only [] at hl hr ⊢
      have hops : ops = ops.take i ++ l :: r :: ops.drop (i + 2) := by
        obtain ⟨h1, h2⟩ := List.getElem?_eq_some_iff.1 hl
        obtain ⟨h3, h4⟩ := List.getElem?_eq_some_iff.1 hr
        conv => lhs; rw [← List.take_append_drop i ops]
        congr 1
        rw [List.drop_eq_getElem_cons h1, List.drop_eq_getElem_cons h3, h2, h4]
      have memL : l ∈ (⟨v, ops⟩ : Key w).recs := by simp [Key.recs, List.mem_of_getElem? hl]
      have memR : r ∈ (⟨v, ops⟩ : Key w).recs := by simp [Key.recs, List.mem_of_getElem? hr]
      have hgm := partial_good hm (hk r memR)
      have hnew : Good vd cols (⟨v, ops.take i ++ m :: ops.drop (i + 2)⟩ : Key w) := by
        intro x hx
        simp only [Key.recs, List.mem_append, List.mem_cons] at hx
        rcases hx with h | h | h | h
        · exact hk x (by simp only [Key.recs, List.mem_append]; exact Or.inl h)
        · exact hk x (by simp [Key.recs, List.mem_of_mem_take h])
        · subst h; exact hgm
        · exact hk x (by simp [Key.recs, List.mem_of_mem_drop h])
      refine ⟨?_, hnew⟩
      rw [read_eq (fun x hx => (hnew x hx).1), read_eq (fun x hx => (hk x hx).1)]
      simp only [Key.recs]
      rw [show v.toList ++ ops = (v.toList ++ ops.take i) ++ l :: r :: ops.drop (i + 2) by
        rw [List.append_assoc, ← hops], ← List.append_assoc]
      cases hpre : v.toList ++ ops.take i with
      | nil =>
        -- the merged operands are the oldest records
        simp only [List.nil_append]
        rw [show mergeLoop vd l (r :: ops.drop (i + 2)) = (mergeOne vd l r).bind (fun x => mergeLoop vd x (ops.drop (i + 2))) by
          simp only [mergeLoop]; cases mergeOne vd l r <;> rfl]
        -- l merged with r agrees with m
        obtain ⟨x, hx, -⟩ := mergeOne_some (vd := vd) (hk l memL).1 (hk r memR).1
        have hag : Agree m x := by
          obtain ⟨rfl, hv, hsum⟩ := partialMerge_spec hm
          have key := addLeft_sum hsum (hk l memL).2 (hk r memR).2
          cases vd with
          | false =>
            simp only [mergeOne, Bool.false_eq_true, if_false, Option.some.injEq] at hx
            subst hx
            refine ⟨?_, key⟩
            have h1 := (hk l memL).1
            have h2 := (hk r memR).1
            simp only [HasVer, Option.isSome_eq_false_iff, Option.isNone_iff_eq_none] at h1 h2
            simp [addLeft, addAll, h1, h2]
          | true =>
            obtain ⟨hl0, hr0⟩ := hv rfl
            simp only [mergeOne, hl0, hr0, if_true] at hx
            simp at hx
            subst hx
            exact ⟨by simp [addLeft, addAll, hr0], by rw [key]; rfl⟩
        rw [hx]
        exact sameCounters_of (mergeLoop_agree _ _ _ hag)
      | cons r0 rs =>
        simp only [List.cons_append]
        have h0 := hk r0 (by
          simp only [Key.recs, List.mem_append]
          have : r0 ∈ v.toList ++ ops.take i := by rw [hpre]; simp
          rcases List.mem_append.1 this with h | h
          · exact Or.inl h
          · exact Or.inr (List.mem_of_mem_take h))
        have hrs : ∀ x ∈ rs, HasVer vd x := by
          intro x hx
          have : x ∈ v.toList ++ ops.take i := by rw [hpre]; simp [hx]
          rcases List.mem_append.1 this with h | h
          · exact (hk x (by simp only [Key.recs, List.mem_append]; exact Or.inl h)).1
          · exact (hk x (by simp [Key.recs, List.mem_of_mem_take h])).1
        rw [mergeLoop_append, mergeLoop_append]
        obtain ⟨b, hb, hbv⟩ := mergeLoop_some rs r0 h0.1 hrs
        rw [hb]
        simp only [Option.bind_some, mergeLoop]
        obtain ⟨x, y, z, e1, e2, e3, e4⟩ := partial_two hm (hk l memL).2 (hk r memR).2 b hbv
        rw [e1, e3]
        simp only [e2]
        have hs : Agree z y := ⟨e4.1.symm, e4.2.symm⟩
        exact sameCounters_of (mergeLoop_agree _ _ _ hs)
    · exact ⟨rfl, hk⟩
  · exact ⟨rfl, hk⟩

theorem agree_trans {a b c : Option (Rec w)} (h : SameCounters a b) (h' : SameCounters b c) : SameCounters a c := Eq.trans h h'

/-- C21: whatever compactions happen, with partial merging on or off, the version and the counters read are the same. -/
theorem C21_grouping {en vd : Bool} {cols : List Nat} (hist : List Compact) : ∀ {k : Key w}, Good vd cols k →
    SameCounters ((hist.foldl (fun k c => k.compact en cols vd c) k).read vd) (k.read vd) := by
  induction hist with
  | nil => intro k _; rfl
  | cons c cs ih =>
    intro k hk
    simp only [List.foldl_cons]
    cases c with
    | full n =>
      have h1 := (full_read (fun r hr => (hk r hr).1) en cols n).1
      refine agree_trans (ih (full_good hk n)) ?_
      rw [h1]; rfl
    | partly i =>
      obtain ⟨h1, h2⟩ := partly_read (en := en) hk i
      exact agree_trans (ih h2) h1

/-- C21: with partial merging off, which is the default, the whole record read is the same. -/
theorem C21_grouping_default {vd : Bool} {cols : List Nat} (hist : List Compact) : ∀ {k : Key w}, (∀ r ∈ k.recs, HasVer vd r) →
    (hist.foldl (fun k c => k.compact false cols vd c) k).read vd = k.read vd := by
  induction hist with
  | nil => intro k _; rfl
  | cons c cs ih =>
    intro k hk
    simp only [List.foldl_cons]
    cases c with
    | full n =>
      obtain ⟨h1, h2⟩ := full_read hk false cols n
      rw [ih h2, h1]
    | partly i =>
      have : k.compact false cols vd (.partly i) = k := by
        simp only [Key.compact, partialMerge, if_true]
        split <;> rfl
      rw [this]; exact ih hk

namespace Spec

/-- The sum of the non-NULL values, NULL if there are none. -/
def total {n : Nat} : List (Option (BitVec n)) → Option (BitVec n)
  | [] => none
  | x :: xs => match x, total xs with
    | none, t => t
    | some v, t => some (v + t.getD 0#n)

end Spec
open Spec

theorem total_cons_some {n : Nat} (v : BitVec n) (xs : List (Option (BitVec n))) :
    total (some v :: xs) = some (v + (total xs).getD 0#n) := rfl

theorem total_cons_none {n : Nat} (xs : List (Option (BitVec n))) : total (none :: xs) = total xs := rfl

theorem mergeLoop_total : ∀ (rs : List (Rec w)) (b : Rec w) (c : Nat),
    ∃ x, mergeLoop false b rs = some x ∧ x.sum c = total ((b :: rs).map (·.sum c)) := by
  intro rs
  induction rs with
  | nil =>
    intro b c
    refine ⟨b, rfl, ?_⟩
    simp only [List.map_cons, List.map_nil, total]
    cases b.sum c <;> simp
  | cons r rs ih =>
    intro b c
    obtain ⟨x, h1, h2⟩ := ih (addAll b r) c
    refine ⟨x, by simpa [mergeLoop, mergeOne] using h1, ?_⟩
    rw [h2]
    simp only [List.map_cons, addAll]
    cases e : r.sum c with
    | none =>
      cases b.sum c with
      | none => simp only [total_cons_none]
      | some u => simp only [total_cons_some, total_cons_none]
    | some v =>
      cases b.sum c with
      | none => simp only [addValue, total_cons_some, total_cons_none, Option.getD_none, BitVec.zero_add]
      | some u => simp only [addValue, total_cons_some, Option.getD_some, BitVec.add_assoc]

/-- C21: without versions a counter reads as the sum of its values in all records, however they were grouped. -/
theorem C21_sum {en : Bool} {cols : List Nat} (hist : List Compact) {k : Key w} (hk : Good false cols k) (hne : k.recs ≠ []) (c : Nat) :
    ((hist.foldl (fun k c => k.compact en cols false c) k).read false).map (·.sum c) = some (total (k.recs.map (·.sum c))) := by
  have h := C21_grouping (en := en) hist hk
  have h' : ((hist.foldl (fun k c => k.compact en cols false c) k).read false).map (·.sum c) = (k.read false).map (·.sum c) := by
    have := congrArg (Option.map (fun p : Option (BitVec 64) × ((c : Nat) → Option (BitVec (w c))) => p.2 c)) h
    simpa [Option.map_map, Function.comp_def] using this
  rw [h', read_eq (fun r hr => (hk r hr).1)]
  cases hr : k.recs with
  | nil => exact absurd hr hne
  | cons r rs =>
    obtain ⟨x, h1, h2⟩ := mergeLoop_total rs r c
    simp only [h1, Option.map_some, h2]

/-- The version and counters that a versioned key reads as never go back in version. -/
theorem mergeOne_version {base r x : Rec w} {b v : BitVec 64} (hb : base.ver = some b) (hr : r.ver = some v)
    (h : mergeOne true base r = some x) : ∃ b', x.ver = some b' ∧ b.toInt ≤ b'.toInt ∧ v.toInt ≤ b'.toInt := by
  simp only [mergeOne, hb, hr, if_true] at h
  split at h
  · rename_i hc
    simp only [Option.some.injEq] at h; subst h
    exact ⟨b, hb, Int.le_refl _, hc.1⟩
  · rename_i hc
    simp only [Option.some.injEq] at h; subst h
    refine ⟨v, rfl, ?_, Int.le_refl _⟩
    by_cases hz : v = 0#64 ∧ b = 0#64
    · rw [hz.1, hz.2]; exact Int.le_refl _
    · by_contra hlt
      exact hc ⟨by omega, hz⟩

theorem mergeLoop_version : ∀ (rs : List (Rec w)) (base x : Rec w) (b : BitVec 64), base.ver = some b → (∀ r ∈ rs, HasVer true r) →
    mergeLoop true base rs = some x → ∃ b', x.ver = some b' ∧ b.toInt ≤ b'.toInt ∧
      ∀ r ∈ rs, ∀ v, r.ver = some v → v.toInt ≤ b'.toInt := by
  intro rs
  induction rs with
  | nil =>
    intro base x b hb _ h
    simp only [mergeLoop, Option.some.injEq] at h; subst h
    exact ⟨b, hb, Int.le_refl _, by simp⟩
  | cons r rs ih =>
    intro base x b hb hall h
    simp only [mergeLoop] at h
    cases hm : mergeOne true base r with
    | none => rw [hm] at h; cases h
    | some y =>
      rw [hm] at h
      have hrv := hall r (by simp)
      cases hv : r.ver with
      | none => unfold HasVer at hrv; rw [hv] at hrv; cases hrv
      | some v =>
        obtain ⟨b1, h1, h2, h3⟩ := mergeOne_version hb hv hm
        obtain ⟨b', h4, h5, h6⟩ := ih y x b1 h1 (fun z hz => hall z (by simp [hz])) h
        refine ⟨b', h4, by omega, ?_⟩
        intro z hz u hu
        rcases List.mem_cons.1 hz with rfl | hz
        · rw [hv] at hu; simp only [Option.some.injEq] at hu; subst hu; omega
        · exact h6 z hz u hu

/-- C21: in a versioned table a record with a non-zero version that is delivered again, at any later time, changes
nothing. -/
theorem C21_replay {k : Key w} (hk : ∀ r ∈ k.recs, HasVer true r) {r : Rec w} (hr : r ∈ k.recs) (hv : r.ver ≠ some 0#64) :
    (⟨k.value, k.ops ++ [r]⟩ : Key w).read true = k.read true := by
  have hnew : ∀ x ∈ (⟨k.value, k.ops ++ [r]⟩ : Key w).recs, HasVer true x := by
    intro x hx
    simp only [Key.recs, List.mem_append, List.mem_singleton] at hx
    rcases hx with h | h | h
    · exact hk x (by simp only [Key.recs, List.mem_append]; exact Or.inl h)
    · exact hk x (by simp [Key.recs, h])
    · subst h; exact hk _ hr
  rw [read_eq hnew, read_eq hk]
  have e : (⟨k.value, k.ops ++ [r]⟩ : Key w).recs = k.recs ++ [r] := by simp [Key.recs]
  rw [e]
  cases hrs : k.recs with
  | nil => rw [hrs] at hr; cases hr
  | cons r0 rs =>
    simp only [List.cons_append]
    rw [hrs] at hk hr
    obtain ⟨x, hx, _⟩ := mergeLoop_some rs r0 (hk r0 (by simp)) (fun y hy => hk y (by simp [hy]))
    rw [mergeLoop_append, hx]
    have h0 := hk r0 (by simp)
    cases hv0 : r0.ver with
    | none => unfold HasVer at h0; rw [hv0] at h0; cases h0
    | some b =>
      obtain ⟨b', h1, h2, h3⟩ := mergeLoop_version rs r0 x b hv0 (fun y hy => hk y (by simp [hy])) hx
      have hrv := hk r hr
      cases hvr : r.ver with
      | none => unfold HasVer at hrv; rw [hvr] at hrv; cases hrv
      | some v =>
        have hle : v.toInt ≤ b'.toInt := by
          rcases List.mem_cons.1 hr with rfl | hr
          · rw [hv0] at hvr; simp only [Option.some.injEq] at hvr; subst hvr; exact h2
          · exact h3 r hr v hvr
        have hvne : v ≠ 0#64 := by rintro rfl; exact hv hvr
        simp only [Option.bind_some, mergeLoop, mergeOne, h1, hvr, if_true]
        rw [if_pos ⟨hle, fun h => hvne h.1⟩]

/-- The rollup records of a sequence of row inserts (false) and deletes (true) under one rollup key. -/
def rollupRecs (cols : List Nat) (h : List (((c : Nat) → Option (BitVec (w c))) × Bool)) : List (Rec w) :=
  h.map (fun x => rollupRec cols x.1 x.2)

/-- What a counter of a rollup index should be: inserted values minus deleted ones, NULL counting as 0. -/
def Spec.balance (c : Nat) : List (((c : Nat) → Option (BitVec (w c))) × Bool) → BitVec (w c)
  | [] => 0#(w c)
  | (row, true) :: h => Spec.balance c h - (row c).getD 0#(w c)
  | (row, false) :: h => Spec.balance c h + (row c).getD 0#(w c)

theorem total_rollup {cols : List Nat} {c : Nat} (hc : c ∈ cols) : ∀ (h : List (((c : Nat) → Option (BitVec (w c))) × Bool)), h ≠ [] →
    total ((rollupRecs cols h).map (·.sum c)) = some (Spec.balance c h) := by
  intro h
  induction h with
  | nil => intro h; exact absurd rfl h
  | cons x h ih =>
    intro _
    obtain ⟨row, d⟩ := x
    have e1 : (rollupRec cols row d).sum c = some (if d then -(row c).getD 0#(w c) else (row c).getD 0#(w c)) := by
      simp [rollupRec, hc]
    simp only [rollupRecs, List.map_cons, e1]
    rw [total_cons_some]
    have ht : (total ((rollupRecs cols h).map (·.sum c))).getD 0#(w c) = Spec.balance c h := by
      cases h with
      | nil => rfl
      | cons y h => rw [ih (by simp)]; rfl
    simp only [rollupRecs] at ht
    rw [ht]
    cases d with
    | true => simp only [if_true, Spec.balance]; rw [BitVec.add_comm, ← BitVec.sub_eq_add_neg]
    | false => simp only [Bool.false_eq_true, if_false, Spec.balance]; rw [BitVec.add_comm]

/-- C21: a rollup counter reads as inserted minus deleted, whatever was merged when. -/
theorem C21_rollup {en : Bool} {cols : List Nat} {c : Nat} (hc : c ∈ cols) (hist : List Compact)
    {h : List (((c : Nat) → Option (BitVec (w c))) × Bool)} (hne : h ≠ []) :
    ((hist.foldl (fun k c => k.compact en cols false c) (⟨none, rollupRecs cols h⟩ : Key w)).read false).map (·.sum c) =
      some (some (Spec.balance c h)) := by
  have hg : Good false cols (⟨none, rollupRecs cols h⟩ : Key w) := by
    intro r hr
    simp only [Key.recs, Option.toList, List.nil_append, rollupRecs, List.mem_map] at hr
    obtain ⟨x, _, rfl⟩ := hr
    exact ⟨rfl, fun c hc => by simp [rollupRec, hc]⟩
  have hne' : (⟨none, rollupRecs cols h⟩ : Key w).recs ≠ [] := by
    cases h with
    | nil => exact absurd rfl hne
    | cons x h => simp [Key.recs, rollupRecs]
  rw [C21_sum hist hg hne' c]
  simp only [Key.recs, Option.toList, List.nil_append]
  rw [total_rollup hc h hne]

/-- Deviation: a NULL version makes the operator return the oldest record and drop the others, so the result depends on the
grouping. -/
theorem C21_null_version_counterexample :
    let a : Rec (fun _ => 64) := ⟨some 1, fun _ => some 10, fun _ => none⟩
    let b : Rec (fun _ => 64) := ⟨some 2, fun _ => some 5, fun _ => none⟩
    let c : Rec (fun _ => 64) := ⟨none, fun _ => some 7, fun _ => none⟩
    let k : Key (fun _ => 64) := ⟨some a, [b, c]⟩
    ((k.read true).map (·.sum 0) = some (some 10)) ∧
    (((k.compact false [0] true (.full 0)).read true).map (·.sum 0) = some (some 15)) := by
  decide

/-- Deviation: partial merging keeps the newer record's other columns, full merging the older one's. -/
theorem C21_other_columns_counterexample :
    let a : Rec (fun _ => 64) := ⟨none, fun _ => some 10, fun _ => some [1#8]⟩
    let b : Rec (fun _ => 64) := ⟨none, fun _ => some 5, fun _ => some [2#8]⟩
    let k : Key (fun _ => 64) := ⟨none, [a, b]⟩
    ((k.read false).map (·.other 0) = some (some [1#8])) ∧
    (((k.compact true [0] false (.partly 0)).read false).map (·.other 0) = some (some [2#8])) := by
  decide

/-- Non-vacuity: three versioned records, a partial merge that succeeds and one that is refused. -/
example :
    let r (v s : BitVec 64) : Rec (fun _ => 64) := ⟨some v, fun c => if c = 0 then some s else none, fun _ => none⟩
    let k : Key (fun _ => 64) := ⟨some (r 0 1), [r 0 2, r 0 3, r 7 100, r 7 100]⟩
    Good true [0] k ∧ ((k.compact true [0] true (.partly 0)).ops.length = 3) ∧ ((k.compact true [0] true (.partly 1)).ops.length = 4) ∧
    ((k.read true).map (·.sum 0) = some (some 106)) ∧ k.recs ≠ [] := by
  refine ⟨?_, by decide, by decide, by decide, by decide⟩
  intro x hx
  simp only [Key.recs, Option.toList, List.mem_append, List.mem_cons, List.not_mem_nil, or_false] at hx
  rcases hx with rfl | rfl | rfl | rfl | rfl <;> exact ⟨rfl, fun c hc => by simp at hc; simp [hc]⟩

end BaikalDB.Merge
