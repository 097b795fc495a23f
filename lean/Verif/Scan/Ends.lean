import Verif.Scan.Walk

/-!
# The ends of a range
-/

namespace BaikalDB.Scan
open KeyEnc KeyEnc.Spec IndexKey Like Like.Spec Route

/-- The values that go into a bound. -/
def endVals (vs : List PbVal) (row ids : List Nat) : List PbVal := if vs.length ≤ 1 then vs else vs.take (matchLen row ids)

/-- The bound stands for the whole condition. -/
def FullEnd (vs : List PbVal) (row ids : List Nat) : Prop := vs.length = 1 ∨ (vs.length > 1 ∧ matchLen row ids = row.length)

theorem appRow_eq (k : Bytes) (rs : List Nat) (vs : List PbVal) (as : List FieldInfo) :
    appRow k rs vs as = k ++ tk as (vs.take (matchLen rs (as.map (·.id)))) := by
  induction rs generalizing k vs as with
  | nil => simp [appRow, matchLen, tk_nil]
  | cons r rs ih => cases vs with
    | nil => simp [appRow, tk_nil]
    | cons v vs => cases as with
      | nil => simp [appRow, matchLen, tk_nil]
      | cons a as =>
        simp only [appRow, List.map_cons, matchLen]
        split
        · rw [ih, app_eq]; simp [tk]
        · simp [tk_nil]

theorem rangeKeys_eq (f : FieldInfo) (fs : List FieldInfo) (r : FR) (a b : Bytes) :
    rangeKeys (f :: fs) f.type r (a, b) =
      (a ++ tk (f :: fs) (endVals r.left r.leftRow ((f :: fs).map (·.id))),
       b ++ tk (f :: fs) (endVals r.right r.rightRow ((f :: fs).map (·.id)))) := by
  have key : ∀ (k : Bytes) (vs : List PbVal) (row : List Nat),
      (match vs with | [] => k | [v] => app k f.type v | vs => appRow k row vs (f :: fs)) =
        k ++ tk (f :: fs) (endVals vs row ((f :: fs).map (·.id))) := by
    intro k vs row
    match vs with
    | [] => simp [endVals, tk_nil]
    | [v] => simp [endVals, tk, tk_nil, app_eq]
    | v :: w :: vs =>
      show appRow k row (v :: w :: vs) (f :: fs) = _
      rw [appRow_eq]
      simp [endVals]
  unfold rangeKeys
  rw [← key, ← key]
  rfl

/-- What a RANGE column does to the bounds and the conditions. -/
theorem stepRange_sum {ids : List Nat} {f : Nat} {r : FR} {s : St} {n : Nat} (h1 : s.fieldCnt = n)
    (h2 : s.leftOpen = false) (h3 : s.rightOpen = false) (h4 : s.leftCnt = n) (h5 : s.rightCnt = n)
    (hl : r.left.length > 1 → 1 ≤ matchLen r.leftRow (ids.drop n))
    (hr : r.right.length > 1 → 1 ≤ matchLen r.rightRow (ids.drop n) ∧ r.rightRow ≠ [])
    (hb : r.left.length > 1 → r.right.length > 1 → matchLen r.rightRow (ids.drop (n + matchLen r.leftRow (ids.drop n))) = 0) :
    ∃ uL uR : Bool, (uL = true → FullEnd r.left r.leftRow (ids.drop n)) ∧
      (uR = true → FullEnd r.right r.rightRow (ids.drop n)) ∧
      (stepRange ids f r s).leftOpen = (uL && r.leftOpen) ∧ (stepRange ids f r s).rightOpen = (uR && r.rightOpen) ∧
      (∀ i ∈ (stepRange ids f r s).cut, i ∈ s.cut ∨ (uL = true ∧ i = r.leftExpr) ∨ (uR = true ∧ i = r.rightExpr)) ∧
      (stepRange ids f r s).eqOrIn = false ∧ (stepRange ids f r s).likePrefix = s.likePrefix ∧
      ((stepRange ids f r s).leftCnt = 0 ∧ (stepRange ids f r s).rightCnt = 0 → r.left = [] ∧ r.right = [] ∧ n = 0) := by
  subst h1
  have left : ∃ s1 : St, ∃ uL : Bool, ∃ idx : Nat,
      rangeLeft ids r { s with fieldCnt := s.fieldCnt + 1, eqOrIn := false, hitIds := insertId f s.hitIds } = (s1, idx) ∧
      (uL = true → FullEnd r.left r.leftRow (ids.drop s.fieldCnt)) ∧ s1.leftOpen = (uL && r.leftOpen) ∧
      s1.rightOpen = false ∧ s1.rightCnt = s.fieldCnt ∧ s1.fieldCnt = s.fieldCnt + 1 ∧
      (∀ i ∈ s1.cut, i ∈ s.cut ∨ (uL = true ∧ i = r.leftExpr)) ∧ s1.eqOrIn = false ∧ s1.likePrefix = s.likePrefix ∧
      (s1.leftCnt = 0 → r.left = [] ∧ s.fieldCnt = 0) ∧
      idx = (if r.left.length > 1 then s.fieldCnt + matchLen r.leftRow (ids.drop s.fieldCnt) else s.fieldCnt) := by
    unfold rangeLeft
    by_cases c1 : r.left.length = 1
    · rw [if_pos c1]
      refine ⟨_, true, _, rfl, fun _ => .inl c1, by simp, h3, h5, rfl, ?_, rfl, rfl, ?_, ?_⟩
      · intro i hi
        rcases mem_addAll.1 hi with h | h
        · exact .inl h
        · exact .inr ⟨rfl, by simpa using h⟩
      · intro h; simp at h
      · rw [if_neg (by omega)]; simp
    · rw [if_neg c1]
      by_cases c2 : r.left.length > 1
      · rw [if_pos c2]
        have := hl c2
        dsimp only
        rw [Nat.add_sub_cancel]
        by_cases c3 : matchLen r.leftRow (ids.drop s.fieldCnt) = r.leftRow.length
        · rw [if_pos c3]
          refine ⟨_, true, _, rfl, fun _ => .inr ⟨c2, c3⟩, by simp, h3, h5, rfl, ?_, rfl, rfl, ?_, ?_⟩
          · intro i hi
            rcases mem_addAll.1 hi with h | h
            · exact .inl h
            · exact .inr ⟨rfl, by simpa using h⟩
          · intro h; simp only at h; omega
          · rw [if_pos c2]
        · rw [if_neg c3]
          refine ⟨_, false, _, rfl, by simp, by simp, h3, h5, rfl, fun i hi => .inl hi, rfl, rfl, ?_, ?_⟩
          · intro h; simp only at h; omega
          · rw [if_pos c2]
      · rw [if_neg c2]
        refine ⟨_, false, _, rfl, by simp, by simpa using h2, h3, h5, rfl, fun i hi => .inl hi, rfl, rfl, ?_, ?_⟩
        · intro h
          refine ⟨List.eq_nil_of_length_eq_zero (by omega), ?_⟩
          simp only at h; omega
        · rw [if_neg c2]; simp
  obtain ⟨s1, uL, idx, e1, a1, a2, a3, a4, a5, a6, a7, a8, a9, a10⟩ := left
  have hst : stepRange ids f r s = rangeRight ids r (s1, idx) := by unfold stepRange; rw [e1]
  rw [hst]
  unfold rangeRight
  dsimp only
  by_cases c1 : r.right.length = 1
  · rw [if_pos c1]
    refine ⟨uL, true, a1, fun _ => .inl c1, a2, by simp, ?_, a7, a8, ?_⟩
    · intro i hi
      rcases mem_addAll.1 hi with h | h
      · rcases a6 i h with h | h
        · exact .inl h
        · exact .inr (.inl h)
      · exact .inr (.inr ⟨rfl, by simpa using h⟩)
    · rintro ⟨_, h⟩
      simp only at h; omega
  · rw [if_neg c1]
    by_cases c2 : r.right.length > 1
    · rw [if_pos c2]
      obtain ⟨hr1, hr2⟩ := hr c2
      by_cases c4 : r.left.length > 1
      · rw [if_pos c4] at a10
        rw [a10, hb c4 c2]
        have : r.rightRow.length ≠ 0 := by simpa using hr2
        rw [if_neg (by omega)]
        refine ⟨uL, false, a1, by simp, a2, by simp, ?_, a7, a8, ?_⟩
        · intro i hi
          rcases a6 i hi with h | h
          · exact .inl h
          · exact .inr (.inl h)
        · rintro ⟨_, h⟩
          have := hl c4
          simp only at h; omega
      · rw [if_neg c4] at a10
        rw [a10]
        by_cases c3 : matchLen r.rightRow (ids.drop s.fieldCnt) = r.rightRow.length
        · rw [if_pos c3]
          refine ⟨uL, true, a1, fun _ => .inr ⟨c2, c3⟩, a2, by simp, ?_, a7, a8, ?_⟩
          · intro i hi
            rcases mem_addAll.1 hi with h | h
            · rcases a6 i h with h | h
              · exact .inl h
              · exact .inr (.inl h)
            · exact .inr (.inr ⟨rfl, by simpa using h⟩)
          · rintro ⟨_, h⟩
            simp only at h; omega
        · rw [if_neg c3]
          refine ⟨uL, false, a1, by simp, a2, by simp, ?_, a7, a8, ?_⟩
          · intro i hi
            rcases a6 i hi with h | h
            · exact .inl h
            · exact .inr (.inl h)
          · rintro ⟨_, h⟩
            simp only at h; omega
    · rw [if_neg c2]
      refine ⟨uL, false, a1, by simp, a2, by simpa using a3, ?_, a7, a8, ?_⟩
      · intro i hi
        rcases a6 i hi with h | h
        · exact .inl h
        · exact .inr (.inl h)
      · rintro ⟨h, _⟩
        exact ⟨(a9 h).1, List.eq_nil_of_length_eq_zero (by omega), (a9 h).2⟩

/-! ## A bound against the condition it comes from -/

theorem rowTrue_partial {op : Op} {row : Row} {fs : List Nat} {ws : List PbVal} {as : List FieldInfo}
    (hrow : ∀ f ∈ as, ∃ v, row f.id = some v ∧ Valid f.type v) (h : rowTrue op row fs (ws.map some)) :
    (op = .gt ∨ op = .ge → tupleCompare (vals row as) (ws.take (matchLen fs (as.map (·.id)))) ≠ .lt) ∧
    (op = .lt ∨ op = .le → tupleCompare (vals row as) (ws.take (matchLen fs (as.map (·.id)))) ≠ .gt) := by
  induction fs generalizing ws as with
  | nil => simp [matchLen, tupleCompare_nil_right]
  | cons f fs ih => cases ws with
    | nil => simp [tupleCompare_nil_right]
    | cons w ws => cases as with
      | nil => simp [matchLen, tupleCompare_nil_right]
      | cons a as =>
        simp only [List.map_cons, matchLen]
        by_cases ha : a.id = f
        · subst ha
          obtain ⟨x, y, hx, hy, h⟩ := h
          cases hy
          have hv : vals row (a :: as) = x :: vals row as := by simp [vals, hx]
          rw [if_pos rfl, hv, List.take_succ_cons]
          simp only [tupleCompare]
          rcases h with ⟨he, h⟩ | ⟨hne, h⟩
          · rw [he]
            exact ih (fun g hg => hrow g (by simp [hg])) h
          · cases hc : colCompare x w <;> rw [hc] at h hne <;> cases op <;> simp_all [opOk]
        · rw [if_neg ha]
          simp [tupleCompare_nil_right]

theorem rowTrue_full {op : Op} {row : Row} {fs : List Nat} {ws : List PbVal} {as : List FieldInfo}
    (hrow : ∀ f ∈ as, ∃ v, row f.id = some v ∧ Valid f.type v) (hl : ws.length = fs.length)
    (hm : matchLen fs (as.map (·.id)) = fs.length) :
    rowTrue op row fs (ws.map some) ↔ opOk op (tupleCompare (vals row as) ws) := by
  induction fs generalizing ws as with
  | nil => cases ws with
    | nil => simp [rowTrue, tupleCompare_nil_right]
    | cons => simp at hl
  | cons f fs ih => cases ws with
    | nil => simp at hl
    | cons w ws => cases as with
      | nil => simp [matchLen] at hm
      | cons a as =>
        simp only [List.map_cons, matchLen] at hm
        by_cases ha : a.id = f
        · subst ha
          rw [if_pos rfl] at hm
          obtain ⟨x, hx, _⟩ := hrow a (by simp)
          have hv : vals row (a :: as) = x :: vals row as := by simp [vals, hx]
          rw [hv]
          simp only [List.map_cons, rowTrue, tupleCompare, hx, Option.some.injEq]
          rw [ih (as := as) (fun g hg => hrow g (by simp [hg])) (by simpa using hl) (by simpa using hm)]
          constructor
          · rintro ⟨x', y', rfl, rfl, ⟨he, h⟩ | ⟨hne, h⟩⟩
            · rw [he]; exact h
            · cases hc : colCompare x w <;> rw [hc] at h hne
              · exact h
              · exact absurd rfl hne
              · exact h
          · intro h
            refine ⟨x, w, rfl, rfl, ?_⟩
            cases hc : colCompare x w <;> rw [hc] at h
            · exact .inr ⟨by simp, h⟩
            · exact .inl ⟨rfl, h⟩
            · exact .inr ⟨by simp, h⟩
        · rw [if_neg ha] at hm
          simp at hm

/-- A bound comes from a conjunct. -/
def From (conds : List Cond) (f i : Nat) (op : Op) (fs : List Nat) (vs : List PbVal) : Prop :=
  (∃ v, vs = [v] ∧ conds[i]? = some (.cmp op f (some v))) ∨
  (∃ vs', conds[i]? = some (.rcmp op fs vs') ∧ tuple vs' = some vs ∧ fs.head? = some f)

section
variable {cs : Charset} {ty : Nat → PType} {ix : IndexInfo} {conds : List Cond}

theorem from_len (hcov : Covered cs ty ix conds) {i : Nat} {op : Op} {fs : List Nat} {vs' : List (Option PbVal)}
    {vs : List PbVal} (h : conds[i]? = some (.rcmp op fs vs')) (hw : tuple vs' = some vs) : vs.length = fs.length := by
  have := fitsRow_len (ok_at hcov h).2.1
  rw [this, tuple_some.1 hw, List.length_map]

theorem matchLen_head {f : Nat} {fs ids : List Nat} (h : fs.head? = some f) : 1 ≤ matchLen fs (f :: ids) := by
  cases fs with
  | nil => simp at h
  | cons g fs =>
    simp at h
    subst h
    simp [matchLen]

theorem matchLen_le (fs ids : List Nat) : matchLen fs ids ≤ fs.length := by
  induction fs generalizing ids with
  | nil => simp [matchLen]
  | cons g fs ih => cases ids with
    | nil => simp [matchLen]
    | cons a ids =>
      simp only [matchLen, List.length_cons]
      split
      · have := ih ids; omega
      · omega

/-- In a row comparison the values of a bound are always the matching ones. -/
theorem endVals_row {f : Nat} {fs ids : List Nat} {vs : List PbVal} (hl : vs.length = fs.length) (hh : fs.head? = some f) :
    endVals vs fs (f :: ids) = vs.take (matchLen fs (f :: ids)) := by
  unfold endVals
  split
  · rename_i h
    rw [List.take_of_length_le]
    have := matchLen_head (ids := ids) hh
    omega
  · rfl

theorem fullEnd_row {f : Nat} {fs ids : List Nat} {vs : List PbVal} (hl : vs.length = fs.length) (hh : fs.head? = some f)
    (h : FullEnd vs fs (f :: ids)) : matchLen fs (f :: ids) = fs.length := by
  rcases h with h | h
  · have := matchLen_head (ids := ids) hh
    have := matchLen_le fs (f :: ids)
    omega
  · exact h.2

/-- The condition, as a bound that holds all of it. -/
theorem from_full (hcov : Covered cs ty ix conds) {row : Row} {f : FieldInfo} {rest : List FieldInfo}
    (hrow : ∀ g ∈ f :: rest, ∃ v, row g.id = some v ∧ Valid g.type v) {i : Nat} {op : Op} {fs : List Nat} {vs : List PbVal}
    (h : From conds f.id i op fs vs) (hf : FullEnd vs fs ((f :: rest).map (·.id))) :
    ∃ d, conds[i]? = some d ∧
      (Holds cs row d ↔ opOk op (tupleCompare (vals row (f :: rest)) (endVals vs fs ((f :: rest).map (·.id))))) := by
  obtain ⟨x, hx, _⟩ := hrow f (by simp)
  rcases h with ⟨v, rfl, h⟩ | ⟨vs', h, hw, hh⟩
  · refine ⟨_, h, ?_⟩
    have : tupleCompare (vals row (f :: rest)) (endVals [v] fs ((f :: rest).map (·.id))) = colCompare x v := by
      simp only [vals, List.map_cons, hx, Option.getD_some, endVals, List.length_singleton, Nat.le_refl, if_true,
        tupleCompare, tupleCompare_nil_right]
      cases colCompare x v <;> rfl
    rw [this]
    simp [Holds, hx]
  · have hlen := from_len hcov h hw
    refine ⟨_, h, ?_⟩
    simp only [List.map_cons] at hf ⊢
    have hml := fullEnd_row hlen hh hf
    rw [endVals_row hlen hh, List.take_of_length_le (by omega), ← rowTrue_full hrow hlen hml]
    simp only [Holds]
    rw [tuple_some.1 hw]

/-- The condition implies the bound, whatever part of it the bound holds. -/
theorem from_partial (hcov : Covered cs ty ix conds) {row : Row} {f : FieldInfo} {rest : List FieldInfo}
    (hrow : ∀ g ∈ f :: rest, ∃ v, row g.id = some v ∧ Valid g.type v) {i : Nat} {op : Op} {fs : List Nat} {vs : List PbVal}
    (h : From conds f.id i op fs vs) (hall : ∀ c ∈ conds, Holds cs row c) :
    (op = .gt ∨ op = .ge → tupleCompare (vals row (f :: rest)) (endVals vs fs ((f :: rest).map (·.id))) ≠ .lt) ∧
    (op = .lt ∨ op = .le → tupleCompare (vals row (f :: rest)) (endVals vs fs ((f :: rest).map (·.id))) ≠ .gt) := by
  have hx := h
  rcases h with ⟨v, rfl, h⟩ | ⟨vs', h, hw, hh⟩
  · obtain ⟨d, hd, hd'⟩ := from_full hcov hrow hx (.inl rfl)
    have := hd'.1 (hall d (List.mem_iff_getElem?.2 ⟨i, hd⟩))
    revert this
    generalize tupleCompare (vals row (f :: rest)) (endVals [v] fs ((f :: rest).map (·.id))) = o
    cases op <;> cases o <;> simp [opOk]
  · have hlen := from_len hcov h hw
    have hh' := hall _ (List.mem_iff_getElem?.2 ⟨i, h⟩)
    simp only [Holds] at hh'
    rw [tuple_some.1 hw] at hh'
    have := rowTrue_partial hrow hh'
    rw [List.map_cons, endVals_row hlen hh]
    exact this

theorem fits_take {fs : List Nat} {ws : List PbVal} {as : List FieldInfo} (hty : ∀ f ∈ as, f.type = ty f.id)
    (h : FitsRow ty fs (ws.map some)) : FitsCols as (ws.take (matchLen fs (as.map (·.id)))) := by
  induction fs generalizing ws as with
  | nil => simp [matchLen, FitsCols.nil]
  | cons f fs ih => cases ws with
    | nil => simp [FitsCols.nil]
    | cons w ws => cases as with
      | nil => simp [matchLen, FitsCols]
      | cons a as =>
        simp only [List.map_cons, matchLen]
        by_cases ha : a.id = f
        · subst ha
          rw [if_pos rfl, List.take_succ_cons]
          refine ⟨?_, ih (fun g hg => hty g (by simp [hg])) h.2⟩
          rw [hty a (by simp)]
          exact h.1 w rfl
        · rw [if_neg ha]
          simp [FitsCols.nil]

theorem from_fits (hcov : Covered cs ty ix conds) {f : FieldInfo} {rest : List FieldInfo}
    (hav : ∀ g ∈ f :: rest, g ∈ avail ix) {i : Nat} {op : Op} {fs : List Nat} {vs : List PbVal}
    (h : From conds f.id i op fs vs) : FitsCols (f :: rest) (endVals vs fs ((f :: rest).map (·.id))) := by
  rcases h with ⟨v, rfl, h⟩ | ⟨vs', h, hw, hh⟩
  · simp only [endVals, List.length_singleton, Nat.le_refl, if_true]
    refine ⟨?_, FitsCols.nil _⟩
    rw [hcov.types f (hav f (by simp))]
    exact ok_at hcov h v rfl
  · have hlen := from_len hcov h hw
    rw [List.map_cons, endVals_row hlen hh]
    have := (ok_at hcov h).2.1
    rw [tuple_some.1 hw] at this
    exact fits_take (as := f :: rest) (fun g hg => hcov.types g (hav g hg)) this

/-- The lower bound a column sets on a row. -/
def LB (o : Bool) (w lv : List PbVal) : Prop := if o then tupleCompare w lv = .gt else tupleCompare w lv ≠ .lt

/-- The upper bound. -/
def RB (o : Bool) (w rv : List PbVal) : Prop := if o then tupleCompare w rv = .lt else tupleCompare w rv ≠ .gt

theorem left_sem (hcov : Covered cs ty ix conds) {row : Row} {f : FieldInfo} {rest : List FieldInfo}
    (hrow : ∀ g ∈ f :: rest, ∃ v, row g.id = some v ∧ Valid g.type v) {r : FR} (h : LeftFrom conds f.id r) {u : Bool}
    (hu : u = true → FullEnd r.left r.leftRow ((f :: rest).map (·.id))) :
    ((∀ c ∈ conds, Holds cs row c) →
      LB (u && r.leftOpen) (vals row (f :: rest)) (endVals r.left r.leftRow ((f :: rest).map (·.id)))) ∧
    (u = true → ∃ d, conds[r.leftExpr]? = some d ∧
      (LB (u && r.leftOpen) (vals row (f :: rest)) (endVals r.left r.leftRow ((f :: rest).map (·.id))) → Holds cs row d)) := by
  rcases h with h | ⟨op, hop, ho, h⟩
  · constructor
    · intro _
      have hu' : u = false := by
        cases u
        · rfl
        · rcases hu rfl with h' | h' <;> simp [h] at h'
      simp [h, hu', LB, endVals, tupleCompare_nil_right]
    · intro hu'
      rcases hu hu' with h' | h' <;> simp [h] at h'
  · have hfrom : From conds f.id r.leftExpr op r.leftRow r.left := by
      rcases h with ⟨v, h1, h2⟩ | h
      · exact .inl ⟨v, h1, h2⟩
      · exact .inr h
    constructor
    · intro hall
      cases u
      · have := (from_partial hcov hrow hfrom hall).1 hop
        simpa [LB] using this
      · obtain ⟨d, hd, hd'⟩ := from_full hcov hrow hfrom (hu rfl)
        have := hd'.1 (hall d (List.mem_iff_getElem?.2 ⟨_, hd⟩))
        rw [ho]
        rcases hop with rfl | rfl <;> simpa [LB, opOk] using this
    · intro hu'
      obtain ⟨d, hd, hd'⟩ := from_full hcov hrow hfrom (hu hu')
      refine ⟨d, hd, ?_⟩
      rw [hd', ho, hu']
      rcases hop with rfl | rfl <;> simp [LB, opOk]

theorem right_sem (hcov : Covered cs ty ix conds) {row : Row} {f : FieldInfo} {rest : List FieldInfo}
    (hrow : ∀ g ∈ f :: rest, ∃ v, row g.id = some v ∧ Valid g.type v) {r : FR} (h : RightFrom conds f.id r) {u : Bool}
    (hu : u = true → FullEnd r.right r.rightRow ((f :: rest).map (·.id))) :
    ((∀ c ∈ conds, Holds cs row c) →
      RB (u && r.rightOpen) (vals row (f :: rest)) (endVals r.right r.rightRow ((f :: rest).map (·.id)))) ∧
    (u = true → ∃ d, conds[r.rightExpr]? = some d ∧
      (RB (u && r.rightOpen) (vals row (f :: rest)) (endVals r.right r.rightRow ((f :: rest).map (·.id))) → Holds cs row d)) := by
  rcases h with h | ⟨op, hop, ho, h⟩
  · constructor
    · intro _
      have hu' : u = false := by
        cases u
        · rfl
        · rcases hu rfl with h' | h' <;> simp [h] at h'
      simp [h, hu', RB, endVals, tupleCompare_nil_right]
    · intro hu'
      rcases hu hu' with h' | h' <;> simp [h] at h'
  · have hfrom : From conds f.id r.rightExpr op r.rightRow r.right := by
      rcases h with ⟨v, h1, h2⟩ | h
      · exact .inl ⟨v, h1, h2⟩
      · exact .inr h
    constructor
    · intro hall
      cases u
      · have := (from_partial hcov hrow hfrom hall).2 hop
        simpa [RB] using this
      · obtain ⟨d, hd, hd'⟩ := from_full hcov hrow hfrom (hu rfl)
        have := hd'.1 (hall d (List.mem_iff_getElem?.2 ⟨_, hd⟩))
        rw [ho]
        rcases hop with rfl | rfl <;> simpa [RB, opOk] using this
    · intro hu'
      obtain ⟨d, hd, hd'⟩ := from_full hcov hrow hfrom (hu hu')
      refine ⟨d, hd, ?_⟩
      rw [hd', ho, hu']
      rcases hop with rfl | rfl <;> simp [RB, opOk]

theorem left_fits (hcov : Covered cs ty ix conds) {f : FieldInfo} {rest : List FieldInfo}
    (hav : ∀ g ∈ f :: rest, g ∈ avail ix) {r : FR} (h : LeftFrom conds f.id r) :
    FitsCols (f :: rest) (endVals r.left r.leftRow ((f :: rest).map (·.id))) := by
  rcases h with h | ⟨op, _, _, ⟨v, h1, h2⟩ | h⟩
  · simp [h, endVals, FitsCols.nil]
  · exact from_fits hcov hav (i := r.leftExpr) (op := op) (.inl ⟨v, h1, h2⟩)
  · exact from_fits hcov hav (i := r.leftExpr) (op := op) (.inr h)

theorem right_fits (hcov : Covered cs ty ix conds) {f : FieldInfo} {rest : List FieldInfo}
    (hav : ∀ g ∈ f :: rest, g ∈ avail ix) {r : FR} (h : RightFrom conds f.id r) :
    FitsCols (f :: rest) (endVals r.right r.rightRow ((f :: rest).map (·.id))) := by
  rcases h with h | ⟨op, _, _, ⟨v, h1, h2⟩ | h⟩
  · simp [h, endVals, FitsCols.nil]
  · exact from_fits hcov hav (i := r.rightExpr) (op := op) (.inl ⟨v, h1, h2⟩)
  · exact from_fits hcov hav (i := r.rightExpr) (op := op) (.inr h)

/-- The upper end of a two-sided row comparison finds no columns left. -/
theorem both_zero (hcov : Covered cs ty ix conds) {done rest : List FieldInfo} {f : FieldInfo}
    (hav : avail ix = done ++ f :: rest) {r : FR} (hl : LeftFrom conds f.id r) (hr : RightFrom conds f.id r)
    (h1 : r.left.length > 1) (h2 : r.right.length > 1) :
    matchLen r.rightRow (((avail ix).map (·.id)).drop (done.length +
      matchLen r.leftRow (((avail ix).map (·.id)).drop done.length))) = 0 := by
  rcases hl with h | ⟨opl, hopl, _, ⟨v, h, _⟩ | ⟨vs, hc1, hw1, hh1⟩⟩
  · simp [h] at h1
  · simp [h] at h1
  rcases hr with h | ⟨opr, hopr, _, ⟨v, h, _⟩ | ⟨ws, hc2, hw2, hh2⟩⟩
  · simp [h] at h2
  · simp [h] at h2
  have l1 := from_len hcov hc1 hw1
  have l2 := from_len hcov hc2 hw2
  obtain ⟨fs, hfs⟩ : ∃ fs, r.leftRow = f.id :: fs := by
    cases hx : r.leftRow with
    | nil => rw [hx] at hh1; simp at hh1
    | cons a fs => rw [hx] at hh1; simp at hh1; exact ⟨fs, by rw [hh1]⟩
  obtain ⟨gs, hgs⟩ : ∃ gs, r.rightRow = f.id :: gs := by
    cases hx : r.rightRow with
    | nil => rw [hx] at hh2; simp at hh2
    | cons a fs => rw [hx] at hh2; simp at hh2; exact ⟨fs, by rw [hh2]⟩
  have hnd : ((avail ix).map (·.id)).Nodup := by
    rcases hcov.sides with h | h
    · exact h
    · refine absurd ⟨f.id, fs, gs, vs, ws, opl, opr, ?_, ?_, hopl, hopr, ?_, ?_⟩ h
      · rw [← hfs]; exact List.mem_iff_getElem?.2 ⟨_, hc1⟩
      · rw [← hgs]; exact List.mem_iff_getElem?.2 ⟨_, hc2⟩
      · rintro rfl; rw [hfs] at l1; simp at l1; omega
      · rintro rfl; rw [hgs] at l2; simp at l2; omega
  have hdrop : ((avail ix).map (·.id)).drop done.length = f.id :: rest.map (·.id) := by
    rw [hav, List.map_append]
    simp
  rw [← List.drop_drop, hdrop]
  have hn := matchLen_head (ids := rest.map (·.id)) hh1
  obtain ⟨n, hn'⟩ : ∃ n, matchLen r.leftRow (f.id :: rest.map (·.id)) = n + 1 := ⟨_, (Nat.sub_add_cancel hn).symm⟩
  rw [hn', List.drop_succ_cons, hgs]
  have hnot : f.id ∉ rest.map (·.id) := by
    rw [hav, List.map_append, List.map_cons] at hnd
    exact (List.nodup_cons.1 (List.nodup_append.1 hnd).2.1).1
  cases hd : (rest.map (·.id)).drop n with
  | nil => simp [matchLen]
  | cons a as =>
    have : a ≠ f.id := by
      rintro rfl
      apply hnot
      have : f.id ∈ (rest.map (·.id)).drop n := by rw [hd]; simp
      exact List.mem_of_mem_drop this
    simp [matchLen, this]

end

end BaikalDB.Scan
