import Verif.Scan.Keys

/-!
# What the collected ranges of the columns say
-/

namespace BaikalDB.Scan
open KeyEnc KeyEnc.Spec IndexKey Like Like.Spec Route

/-! ## Constants and NULL -/

theorem mem_nonNull {vs : List (Option PbVal)} {v : PbVal} : v ∈ nonNull vs ↔ some v ∈ vs := by
  induction vs with
  | nil => simp [nonNull]
  | cons a vs ih => cases a <;> simp [nonNull, ih]

theorem tuple_some {vs : List (Option PbVal)} {ws : List PbVal} : tuple vs = some ws ↔ vs = ws.map some := by
  induction vs generalizing ws with
  | nil => cases ws <;> simp [tuple]
  | cons a vs ih => cases a with
    | none => cases ws <;> simp [tuple]
    | some v =>
      simp only [tuple, Option.map_eq_some_iff, ih]
      cases ws with
      | nil => simp
      | cons w ws => simp only [List.cons.injEq, List.map_cons, Option.some.injEq]; grind

theorem tuple_none {vs : List (Option PbVal)} : tuple vs = none ↔ none ∈ vs := by
  induction vs with
  | nil => simp [tuple]
  | cons a vs ih => cases a <;> simp [tuple, ih]

theorem mem_tuples {vss : List (List (Option PbVal))} {ws : List PbVal} : ws ∈ tuples vss ↔ ws.map some ∈ vss := by
  induction vss with
  | nil => simp [tuples]
  | cons t ts ih =>
    unfold tuples
    cases h : tuple t with
    | none =>
      simp only [ih, List.mem_cons]
      constructor
      · exact .inr
      · rintro (h' | h')
        · rw [tuple_none, ← h'] at h; simp at h
        · exact h'
    | some v =>
      rw [tuple_some] at h
      simp only [List.mem_cons, ih, h]
      constructor
      · rintro (h' | h')
        · left; rw [h']
        · right; exact h'
      · rintro (h' | h')
        · left; exact (List.map_inj_right (fun a b h => Option.some.inj h)).1 h'
        · right; exact h'

theorem tuples_length (vss : List (List (Option PbVal))) : (tuples vss).length = (liveTuples vss).length := by
  induction vss with
  | nil => rfl
  | cons t ts ih =>
    unfold liveTuples at ih ⊢
    unfold tuples
    cases h : tuple t with
    | none => have := tuple_none.1 h; simp [ih, this]
    | some v =>
      have : none ∉ t := fun hh => by rw [tuple_none.2 hh] at h; simp at h
      simp [ih, this]

/-! ## Where an entry comes from -/

/-- Conjunct `i` fixes the columns `fs` to the tuple `ws`. -/
def RowEqAt (conds : List Cond) (i : Nat) (fs : List Nat) (ws : List PbVal) : Prop :=
  (∃ vs, conds[i]? = some (.rcmp .eq fs vs) ∧ tuple vs = some ws) ∨
  (∃ vss, conds[i]? = some (.rin fs vss) ∧ tuples vss = [ws])

def EqAt (conds : List Cond) (i f : Nat) (v : PbVal) : Prop :=
  conds[i]? = some (.cmp .eq f (some v)) ∨ ∃ vs, conds[i]? = some (.inn f vs) ∧ nonNull vs = [v]

def LeftFrom (conds : List Cond) (f : Nat) (r : FR) : Prop :=
  r.left = [] ∨ ∃ op, (op = .gt ∨ op = .ge) ∧ r.leftOpen = (op == .gt) ∧
    ((∃ v, r.left = [v] ∧ conds[r.leftExpr]? = some (.cmp op f (some v))) ∨
     (∃ vs, conds[r.leftExpr]? = some (.rcmp op r.leftRow vs) ∧ tuple vs = some r.left ∧ r.leftRow.head? = some f))

def RightFrom (conds : List Cond) (f : Nat) (r : FR) : Prop :=
  r.right = [] ∨ ∃ op, (op = .lt ∨ op = .le) ∧ r.rightOpen = (op == .lt) ∧
    ((∃ v, r.right = [v] ∧ conds[r.rightExpr]? = some (.cmp op f (some v))) ∨
     (∃ vs, conds[r.rightExpr]? = some (.rcmp op r.rightRow vs) ∧ tuple vs = some r.right ∧ r.rightRow.head? = some f))

def Named (n : Nat) (conds : List Cond) (f : Nat) : Prop :=
  ∃ j < n, ∃ d, conds[j]? = some d ∧ f ∈ pointCols d

structure FOk (n : Nat) (conds : List Cond) (f : Nat) (r : FR) : Prop where
  none : r.type = .none → r = {}
  named : r.type ≠ .none → r.type ≠ .range → Named n conds f
  range : r.type = .range → r.conds = [] ∧ r.eqIn = [] ∧ LeftFrom conds f r ∧ RightFrom conds f r
  eq : r.type = .eq → ∃ i v, r.conds = [i] ∧ r.eqIn = [v] ∧
    (r.isRow = false ∧ EqAt conds i f v ∨
     r.isRow = true ∧ ∃ ws, ∃ k : Nat, RowEqAt conds i r.leftRow ws ∧ r.leftRow[k]? = some f ∧ ws[k]? = some v)
  likeEq : r.type = .likeEq → ∃ i p, r.conds = [i] ∧ r.isRow = false ∧ conds[i]? = some (.like f (some p)) ∧
    (hitIndex p).1 = true ∧ r.eqIn = [.str (hitIndex p).2.2]
  likePrefix : r.type = .likePrefix → ∃ i p, r.conds = [i] ∧ r.isRow = false ∧
    conds[i]? = some (.like f (some p)) ∧ (hitIndex p).1 = false ∧ (hitIndex p).2.1 = true ∧
    r.eqIn = [.str (hitIndex p).2.2]
  inn : r.type = .inn → ∃ i, r.conds = [i] ∧ 2 ≤ r.eqIn.length ∧
    (r.isRow = false ∧ (∃ vs, conds[i]? = some (.inn f vs) ∧ r.eqIn = nonNull vs) ∨
     r.isRow = true ∧ ∃ vss, ∃ k : Nat, conds[i]? = some (.rin r.leftRow vss) ∧ r.leftRow[k]? = some f ∧
       r.eqIn = column (tuples vss) k)
  full : r.type = .full → ∃ fs p, Cond.full fs p ∈ conds ∧ f ∈ fs

def IsRowEq (i : Nat) (fs : List Nat) (v : PbVal) (r : FR) : Prop :=
  r.type = .eq ∧ r.isRow = true ∧ r.conds = [i] ∧ r.eqIn = [v] ∧ r.leftRow = fs

structure MInv (n : Nat) (conds : List Cond) (m : FMap) : Prop where
  fok : ∀ f, FOk n conds f (m f)
  row : ∀ i < n, ∀ fs ws, RowEqAt conds i fs ws → ∀ (k : Nat) f v, fs[k]? = some f → ws[k]? = some v →
    (m f).type = .range ∨ IsRowEq i fs v (m f)

theorem Named.mono {n : Nat} {conds : List Cond} {f : Nat} (h : Named n conds f) : Named (n + 1) conds f := by
  obtain ⟨j, hj, d, h⟩ := h
  exact ⟨j, by omega, d, h⟩

theorem FOk.mono {n : Nat} {conds : List Cond} {f : Nat} {r : FR} (h : FOk n conds f r) : FOk (n + 1) conds f r :=
  { h with named := fun a b => (h.named a b).mono }

theorem fok_fresh (n : Nat) (conds : List Cond) (f : Nat) : FOk n conds f {} := by
  constructor <;> intros <;> first | rfl | (rename_i h; cases h) | (rename_i h _; exact absurd rfl h)

theorem minv_zero (conds : List Cond) : MInv 0 conds (fun _ => {}) :=
  ⟨fun f => fok_fresh 0 conds f, fun i hi => absurd hi (Nat.not_lt_zero i)⟩

/-! ## One conjunct -/

theorem set_same (m : FMap) (f : Nat) (r : FR) : set m f r f = r := by simp [set]
theorem set_other {m : FMap} {f g : Nat} {r : FR} (h : g ≠ f) : set m f r g = m g := by simp [set, h]

theorem rowEq_fold_other (i : Nat) (gs : List Nat) (l : List (Nat × PbVal)) (m : FMap) {f : Nat}
    (h : f ∉ l.map (·.1)) : l.foldl (hitRowEq i gs) m f = m f := by
  induction l generalizing m with
  | nil => rfl
  | cons p l ih =>
    simp only [List.map_cons, List.mem_cons, not_or] at h
    rw [List.foldl_cons, ih _ h.2]
    exact set_other h.1

theorem rowEq_fold (i : Nat) (gs : List Nat) (l : List (Nat × PbVal)) (m : FMap) (hn : (l.map (·.1)).Nodup)
    {p : Nat × PbVal} (hp : p ∈ l) : l.foldl (hitRowEq i gs) m p.1 =
      { m p.1 with eqIn := [p.2], conds := insertId i (m p.1).conds, type := .eq, isRow := true, leftRow := gs } := by
  induction l generalizing m with
  | nil => simp at hp
  | cons q l ih =>
    rw [List.map_cons, List.nodup_cons] at hn
    rw [List.foldl_cons]
    rcases List.mem_cons.1 hp with h | h
    · subst h
      rw [rowEq_fold_other _ _ _ _ hn.1]
      exact set_same _ _ _
    · rw [ih _ hn.2 h]
      have : p.1 ≠ q.1 := fun e => hn.1 (e ▸ List.mem_map.2 ⟨p, h, rfl⟩)
      simp [hitRowEq, set_other this]

theorem rowIn_step_other {i : Nat} {gs : List Nat} {p : Nat × List PbVal} {m : FMap} {f : Nat} (h : f ≠ p.1) :
    hitRowIn i gs m p f = m f := by
  unfold hitRowIn
  split
  · rfl
  · exact set_other h

theorem rowIn_fold_other (i : Nat) (gs : List Nat) (l : List (Nat × List PbVal)) (m : FMap) {f : Nat}
    (h : f ∉ l.map (·.1)) : l.foldl (hitRowIn i gs) m f = m f := by
  induction l generalizing m with
  | nil => rfl
  | cons p l ih =>
    simp only [List.map_cons, List.mem_cons, not_or] at h
    rw [List.foldl_cons, ih _ h.2, rowIn_step_other h.1]

theorem rowIn_fold (i : Nat) (gs : List Nat) (l : List (Nat × List PbVal)) (m : FMap) (hn : (l.map (·.1)).Nodup)
    {p : Nat × List PbVal} (hp : p ∈ l) : l.foldl (hitRowIn i gs) m p.1 = hitRowIn i gs m p p.1 := by
  induction l generalizing m with
  | nil => simp at hp
  | cons q l ih =>
    rw [List.map_cons, List.nodup_cons] at hn
    rw [List.foldl_cons]
    rcases List.mem_cons.1 hp with h | h
    · subst h
      exact rowIn_fold_other _ _ _ _ hn.1
    · rw [ih _ hn.2 h]
      have : p.1 ≠ q.1 := fun e => hn.1 (e ▸ List.mem_map.2 ⟨p, h, rfl⟩)
      unfold hitRowIn
      have hq : (hitRowIn i gs m q) p.1 = m p.1 := rowIn_step_other this
      unfold hitRowIn at hq
      rw [hq]
      split
      · exact hq
      · simp [set_same]

/-- What a row IN leaves in an entry it changes. -/
def IsRowIn (i : Nat) (gs : List Nat) (vs : List PbVal) (r : FR) : Prop :=
  r.eqIn = vs ∧ r.conds = [i] ∧ r.isRow = true ∧ r.leftRow = gs ∧ r.type = if vs.length = 1 then .eq else .inn

theorem rowIn_fold_any (i : Nat) (gs : List Nat) (l : List (Nat × List PbVal)) (m : FMap) (f : Nat) :
    l.foldl (hitRowIn i gs) m f = m f ∨ ∃ p ∈ l, p.1 = f ∧ IsRowIn i gs p.2 (l.foldl (hitRowIn i gs) m f) := by
  induction l generalizing m with
  | nil => exact .inl rfl
  | cons q l ih =>
    rw [List.foldl_cons]
    rcases ih (hitRowIn i gs m q) with h | ⟨p, hp, h1, h2⟩
    · rw [h]
      by_cases e : f = q.1
      · subst e
        unfold hitRowIn
        split
        · exact .inl rfl
        · right
          exact ⟨q, by simp, rfl, by simp [set_same, IsRowIn]⟩
      · exact .inl (rowIn_step_other e)
    · exact .inr ⟨p, by simp [hp], h1, h2⟩

theorem full_fold_other (i : Nat) (l : List Nat) (m : FMap) {f : Nat} (h : f ∉ l) : l.foldl (hitFull i) m f = m f := by
  induction l generalizing m with
  | nil => rfl
  | cons p l ih =>
    simp only [List.mem_cons, not_or] at h
    rw [List.foldl_cons, ih _ h.2]
    exact set_other h.1

theorem full_fold (i : Nat) (l : List Nat) (m : FMap) {f : Nat} (h : f ∈ l) : (l.foldl (hitFull i) m f).type = .full := by
  induction l generalizing m with
  | nil => simp at h
  | cons p l ih =>
    rw [List.foldl_cons]
    by_cases e : f ∈ l
    · exact ih _ e
    · rw [full_fold_other _ _ _ e]
      have : f = p := by simpa [e] using h
      subst this
      simp [hitFull, set_same]

theorem rowCols_map_fst (fs : List Nat) (ts : List (List PbVal)) : (rowCols fs ts).map (·.1) = fs := by
  simp [rowCols, List.map_map, Function.comp_def]

theorem mem_rowCols {fs : List Nat} {ts : List (List PbVal)} {p : Nat × List PbVal} :
    p ∈ rowCols fs ts ↔ ∃ k : Nat, fs[k]? = some p.1 ∧ p.2 = column ts k := by
  unfold rowCols
  simp only [List.mem_map, Prod.exists, List.mem_zipIdx_iff_getElem?]
  constructor
  · rintro ⟨a, b, h, rfl⟩; exact ⟨b, h, rfl⟩
  · rintro ⟨k, h, h'⟩; exact ⟨p.1, k, h, by rw [← h']⟩

def likeEntry (i : Nat) (p : Bytes) : FR :=
  { type := if (hitIndex p).1 then .likeEq else if (hitIndex p).2.1 then .likePrefix else .like, conds := [i],
    eqIn := if (hitIndex p).1 || (hitIndex p).2.1 then [.str (hitIndex p).2.2] else [] }

theorem hitLike_cases (i f : Nat) (p : Bytes) (m : FMap) :
    hitLike i f p m = m ∨ hitLike i f p m = set m f (likeEntry i p) := by
  unfold hitLike likeEntry
  generalize hitIndex p = h
  obtain ⟨a, b, q⟩ := h
  cases a <;> cases b <;> simp only [Bool.or_true, Bool.or_false, Bool.false_eq_true,
    if_true, if_false] <;> split <;> simp

/-- A conjunct leaves columns alone that it does not fix: stronger entries stay, ranges stay ranges. -/
theorem hit_other {n : Nat} {c : Cond} {m m' : FMap} (e : hit n c m = some m') {f : Nat} (hf : f ∉ pointCols c) :
    (weight (m f).type > 5 → m' f = m f) ∧ ((m f).type = .range → (m' f).type = .range) := by
  have hleft : ∀ g op v, (weight (m f).type > 5 → hitLeft n g op v m f = m f) ∧
      ((m f).type = .range → (hitLeft n g op v m f).type = .range) := by
    intro g op v
    by_cases e : f = g
    · subst e
      unfold hitLeft
      constructor
      · intro h; rw [if_pos (by simpa [weight] using h)]
      · intro h
        rw [if_neg (by rw [h]; simp [weight])]
        split
        · simp [set_same, rangeBase, h]
        · simp [set_same]
    · unfold hitLeft; split
      · simp
      · split <;> simp [set_other e]
  have hright : ∀ g op v, (weight (m f).type > 5 → hitRight n g op v m f = m f) ∧
      ((m f).type = .range → (hitRight n g op v m f).type = .range) := by
    intro g op v
    by_cases e : f = g
    · subst e
      unfold hitRight
      constructor
      · intro h; rw [if_pos (by simpa [weight] using h)]
      · intro h
        rw [if_neg (by rw [h]; simp [weight])]
        split
        · simp [set_same, rangeBase, h]
        · simp [set_same]
    · unfold hitRight; split
      · simp
      · split <;> simp [set_other e]
  have hrl : ∀ op g gs vs, (weight (m f).type > 5 → hitRowLeft n op g gs vs m f = m f) ∧
      ((m f).type = .range → (hitRowLeft n op g gs vs m f).type = .range) := by
    intro op g gs vs
    by_cases e : f = g
    · subst e
      unfold hitRowLeft
      constructor
      · intro h
        split
        · rfl
        · rw [if_pos (by simpa [weight] using h)]
      · intro h
        split
        · exact h
        · split
          · exact h
          · simp [set_same]
    · unfold hitRowLeft; split
      · simp
      · split <;> simp [set_other e]
  have hrr : ∀ op g gs vs, (weight (m f).type > 5 → hitRowRight n op g gs vs m f = m f) ∧
      ((m f).type = .range → (hitRowRight n op g gs vs m f).type = .range) := by
    intro op g gs vs
    by_cases e : f = g
    · subst e
      unfold hitRowRight
      constructor
      · intro h
        split
        · rfl
        · rw [if_pos (by simpa [weight] using h)]
      · intro h
        split
        · exact h
        · split
          · exact h
          · simp [set_same]
    · unfold hitRowRight; split
      · simp
      · split <;> simp [set_other e]
  cases c with
  | cmp op g v =>
    cases v with
    | none => simp [hit] at e
    | some v =>
      cases op <;> simp only [hit, Option.some.injEq] at e <;> subst e
      · have hne : f ≠ g := by simpa [pointCols] using hf
        unfold hitEq; split <;> simp [set_other hne]
      all_goals first | exact hleft _ _ _ | exact hright _ _ _
  | inn g vs =>
    simp only [hit] at e
    split at e
    · simp at e
    · cases e
      have hne : f ≠ g := by simpa [pointCols] using hf
      unfold hitIn
      split
      · simp
      · split <;> simp [set_other hne]
  | like g p =>
    cases p with
    | none => simp [hit] at e
    | some p =>
      simp only [hit, Option.some.injEq] at e
      subst e
      have hne : f ≠ g := by simpa [pointCols] using hf
      rcases hitLike_cases n g p m with h | h <;> rw [h]
      · simp
      · simp [set_other hne]
  | rcmp op fs vs =>
    simp only [hit] at e
    split at e
    · simp at e
    · rename_i ws _
      cases op <;> simp only [Option.some.injEq] at e <;> subst e
      · have hne : f ∉ (fs.zip ws).map (·.1) := by
          intro h
          obtain ⟨p, hp, rfl⟩ := List.mem_map.1 h
          exact hf (List.of_mem_zip (a := p.1) (b := p.2) hp).1
        rw [rowEq_fold_other _ _ _ _ hne]
        simp
      all_goals first | exact hrl _ _ _ _ | exact hrr _ _ _ _
  | rin fs vss =>
    simp only [hit] at e
    split at e
    · simp at e
    · cases e
      rw [rowIn_fold_other _ _ _ _ (by rw [rowCols_map_fst]; exact hf)]
      simp
  | full fs p =>
    simp only [hit, Option.some.injEq] at e
    subst e
    rw [full_fold_other _ _ _ (show f ∉ fs from hf)]
    simp
  | other p =>
    simp only [hit, Option.some.injEq] at e
    subst e
    simp

theorem rowEq_of_at {conds : List Cond} {i : Nat} {fs : List Nat} {ws : List PbVal} (h : RowEqAt conds i fs ws) :
    ∃ c, conds[i]? = some c ∧ RowEquality c = some fs := by
  rcases h with ⟨vs, h, _⟩ | ⟨vss, h, h'⟩
  · exact ⟨_, h, rfl⟩
  · refine ⟨_, h, ?_⟩
    have := tuples_length vss
    rw [h'] at this
    simp [RowEquality, ← this]

theorem fitsRow_len {ty : Nat → PType} {fs : List Nat} {vs : List (Option PbVal)} (h : FitsRow ty fs vs) :
    fs.length = vs.length := by
  induction fs generalizing vs with
  | nil => cases vs <;> simp [FitsRow] at h ⊢
  | cons f fs ih => cases vs with
    | nil => simp [FitsRow] at h
    | cons v vs => simp [ih h.2]

section step
variable {cs : Charset} {ty : Nat → PType} {n : Nat} {conds : List Cond} {c : Cond} {m m' : FMap}

/-- An entry of type RANGE. -/
theorem fok_range {f : Nat} {r : FR} (ht : r.type = .range) (h1 : r.conds = []) (h2 : r.eqIn = [])
    (h3 : LeftFrom conds f r) (h4 : RightFrom conds f r) : FOk n conds f r := by
  constructor <;> intros <;> simp_all

theorem base_from {f : Nat} {r : FR} (h : FOk n conds f r) :
    (rangeBase r).conds = [] ∧ (rangeBase r).eqIn = [] ∧ LeftFrom conds f (rangeBase r) ∧ RightFrom conds f (rangeBase r) := by
  unfold rangeBase
  split
  · exact ⟨rfl, rfl, .inl rfl, .inl rfl⟩
  · rename_i ht
    exact h.range (by simpa using ht)

theorem fok_left {f i : Nat} {op : Op} {v : PbVal} (hop : op = .gt ∨ op = .ge) (h : FOk n conds f (m f))
    (hc : conds[i]? = some (.cmp op f (some v))) : FOk n conds f (hitLeft i f op v m f) := by
  unfold hitLeft
  split
  · exact h
  · obtain ⟨b1, b2, b3, b4⟩ := base_from h
    split
    · rename_i hb
      rw [set_same]
      have hr : (rangeBase (m f)).type = .range := by
        unfold rangeBase at hb ⊢
        split
        · rename_i ht; rw [if_pos ht] at hb; exact absurd rfl hb
        · rename_i ht; simpa using ht
      exact fok_range hr b1 b2 b3 b4
    · rw [set_same]
      exact fok_range rfl b1 b2 (.inr ⟨op, hop, rfl, .inl ⟨v, rfl, hc⟩⟩) b4

theorem fok_right {f i : Nat} {op : Op} {v : PbVal} (hop : op = .lt ∨ op = .le) (h : FOk n conds f (m f))
    (hc : conds[i]? = some (.cmp op f (some v))) : FOk n conds f (hitRight i f op v m f) := by
  unfold hitRight
  split
  · exact h
  · obtain ⟨b1, b2, b3, b4⟩ := base_from h
    split
    · rename_i hb
      rw [set_same]
      have hr : (rangeBase (m f)).type = .range := by
        unfold rangeBase at hb ⊢
        split
        · rename_i ht; rw [if_pos ht] at hb; exact absurd rfl hb
        · rename_i ht; simpa using ht
      exact fok_range hr b1 b2 b3 b4
    · rw [set_same]
      exact fok_range rfl b1 b2 b3 (.inr ⟨op, hop, rfl, .inl ⟨v, rfl, hc⟩⟩)

theorem base_left {r : FR} (h : r.left = []) : (rangeBase r).left = [] := by
  unfold rangeBase; split <;> simp [h]

theorem base_right {r : FR} (h : r.right = []) : (rangeBase r).right = [] := by
  unfold rangeBase; split <;> simp [h]

theorem fok_rowLeft {f i : Nat} {op : Op} {fs : List Nat} {vs : List (Option PbVal)} {ws : List PbVal}
    (hop : op = .gt ∨ op = .ge) (h : FOk n conds f (m f)) (hc : conds[i]? = some (.rcmp op fs vs))
    (hw : tuple vs = some ws) (hf : fs.head? = some f) : FOk n conds f (hitRowLeft i op f fs ws m f) := by
  unfold hitRowLeft
  split
  · exact h
  · rename_i hl
    split
    · exact h
    · obtain ⟨b1, b2, b3, b4⟩ := base_from h
      rw [set_same, base_left (by simpa using hl)]
      exact fok_range rfl b1 b2 (.inr ⟨op, hop, rfl, .inr ⟨vs, hc, by simpa using hw, hf⟩⟩) b4

theorem fok_rowRight {f i : Nat} {op : Op} {fs : List Nat} {vs : List (Option PbVal)} {ws : List PbVal}
    (hop : op = .lt ∨ op = .le) (h : FOk n conds f (m f)) (hc : conds[i]? = some (.rcmp op fs vs))
    (hw : tuple vs = some ws) (hf : fs.head? = some f) : FOk n conds f (hitRowRight i op f fs ws m f) := by
  unfold hitRowRight
  split
  · exact h
  · rename_i hl
    split
    · exact h
    · obtain ⟨b1, b2, b3, b4⟩ := base_from h
      rw [set_same, base_right (by simpa using hl)]
      exact fok_range rfl b1 b2 b3 (.inr ⟨op, hop, rfl, .inr ⟨vs, hc, by simpa using hw, hf⟩⟩)

theorem insertId_nil (i : Nat) : insertId i [] = [i] := by simp [insertId]

/-- Before a row equality its columns are free or ranges. -/
theorem free_of_alone (hA : RowEqualityAlone conds) (h : MInv n conds m) {c : Cond} {fs : List Nat}
    (hc : conds[n]? = some c) (he : RowEquality c = some fs) {f : Nat} (hf : f ∈ fs) :
    (m f).type = .none ∨ (m f).type = .range := by
  by_contra hcon
  rw [not_or] at hcon
  obtain ⟨j, hj, d, hd, hd'⟩ := (h.fok f).named hcon.1 hcon.2
  exact (hA n c fs hc he).2 j d hd (by omega) f hd' hf

theorem fits_tuples {fs : List Nat} {vss : List (List (Option PbVal))} (h : ∀ t ∈ vss, FitsRow ty fs t) {ws : List PbVal}
    (hw : ws ∈ tuples vss) : ws.length = fs.length := by
  have := fitsRow_len (h _ (mem_tuples.1 hw))
  simpa using this.symm

theorem column_one {ws : List PbVal} {k : Nat} {v : PbVal} (h : ws[k]? = some v) : column [ws] k = [v] := by
  simp [column, List.getD, h]

theorem hit_fok (hA : RowEqualityAlone conds) (hok : CondOk cs ty c) (hn : conds[n]? = some c) (h : MInv n conds m)
    (e : hit n c m = some m') (f : Nat) : FOk (n + 1) conds f (m' f) := by
  have hf := (h.fok f).mono
  have hnamed : ∀ {g}, g ∈ pointCols c → Named (n + 1) conds g := fun hg => ⟨n, by omega, c, hn, hg⟩
  cases c with
  | cmp op g v =>
    cases v with
    | none => simp [hit] at e
    | some v =>
      by_cases hg : f = g
      · subst hg
        cases op <;> simp only [hit, Option.some.injEq] at e <;> subst e
        · unfold hitEq
          rw [if_neg (by cases (m f).type <;> simp [weight]), set_same]
          have := hnamed (g := f) (by simp [pointCols])
          constructor <;> intros <;> simp_all
          exact .inl hn
        · exact fok_right (.inl rfl) hf hn
        · exact fok_right (.inr rfl) hf hn
        · exact fok_left (.inl rfl) hf hn
        · exact fok_left (.inr rfl) hf hn
      · have : m' f = m f := by
          cases op <;> simp only [hit, Option.some.injEq] at e <;> subst e
          · unfold hitEq; split <;> simp [set_other hg]
          · unfold hitRight; split; rfl; split <;> simp [set_other hg]
          · unfold hitRight; split; rfl; split <;> simp [set_other hg]
          · unfold hitLeft; split; rfl; split <;> simp [set_other hg]
          · unfold hitLeft; split; rfl; split <;> simp [set_other hg]
        rw [this]; exact hf
  | inn g vs =>
    simp only [hit] at e
    split at e
    · simp at e
    · rename_i hne
      cases e
      unfold hitIn
      split
      · exact hf
      · split
        · exact hf
        · by_cases hg : f = g
          · subst hg
            rw [set_same]
            have := hnamed (g := f) (by simp [pointCols])
            by_cases h1 : (nonNull vs).length = 1
            · obtain ⟨v, hv⟩ := List.length_eq_one_iff.1 h1
              constructor <;> intros <;> simp_all
              exact .inr ⟨vs, hn, hv⟩
            · have h2 : 2 ≤ (nonNull vs).length := by
                have : (nonNull vs).length ≠ 0 := by simpa using hne
                omega
              constructor <;> intros <;> simp_all
          · rw [set_other hg]; exact hf
  | like g p =>
    cases p with
    | none => simp [hit] at e
    | some p =>
      simp only [hit, Option.some.injEq] at e
      subst e
      rcases hitLike_cases n g p m with h | h <;> rw [h]
      · exact hf
      · by_cases hg : f = g
        · subst hg
          rw [set_same]
          unfold likeEntry
          have := hnamed (g := f) (by simp [pointCols])
          cases h1 : (hitIndex p).1 <;> cases h2 : (hitIndex p).2.1 <;> simp only [Bool.or_true, Bool.or_false,
            Bool.false_eq_true, if_true, if_false]
          all_goals constructor <;> intros <;> simp_all
        · rw [set_other hg]; exact hf
  | rcmp op fs vs =>
    simp only [hit] at e
    split at e
    · simp at e
    · rename_i ws hws
      obtain ⟨hne, hfit, _⟩ := hok
      obtain ⟨g, gs, rfl⟩ : ∃ g gs, fs = g :: gs := by cases fs with
        | nil => exact absurd rfl hne
        | cons g gs => exact ⟨g, gs, rfl⟩
      have hlen : ws.length = (g :: gs).length := by
        rw [fitsRow_len hfit, tuple_some.1 hws, List.length_map]
      cases op with
      | eq =>
        simp only [Option.some.injEq] at e
        subst e
        have hnd := (hA n _ _ hn rfl).1
        have hmap : ((g :: gs).zip ws).map (·.1) = g :: gs := by
          rw [List.map_fst_zip]; omega
        by_cases hmem : f ∈ g :: gs
        · obtain ⟨k, hk⟩ := List.mem_iff_getElem?.1 hmem
          obtain ⟨v, hv⟩ : ∃ v, ws[k]? = some v := by
            have : k < (g :: gs).length := (List.getElem?_eq_some_iff.1 hk).1
            exact ⟨ws[k]'(by omega), List.getElem?_eq_getElem _⟩
          have hz : ((f, v) : Nat × PbVal) ∈ (g :: gs).zip ws := by
            refine List.mem_iff_getElem?.2 ⟨k, ?_⟩
            rw [List.getElem?_zip_eq_some]
            exact ⟨hk, hv⟩
          have hfold := rowEq_fold n (g :: gs) ((g :: gs).zip ws) m (by rw [hmap]; exact hnd) hz
          dsimp only at hfold
          rw [hfold]
          have hcond : (m f).conds = [] := by
            rcases free_of_alone hA h hn rfl hmem with h0 | h0
            · rw [(h.fok f).none h0]
            · exact ((h.fok f).range h0).1
          have hnm := hnamed (g := f) (by simpa [pointCols] using hmem)
          rw [hcond, insertId_nil]
          constructor <;> intro ht <;> try cases ht
          · intros; exact hnm
          · exact ⟨n, v, rfl, rfl, .inr ⟨rfl, ws, k, .inl ⟨vs, hn, hws⟩, hk, hv⟩⟩
        · rw [rowEq_fold_other _ _ _ _ (by rw [hmap]; exact hmem)]
          exact hf
      | lt =>
        simp only [Option.some.injEq, List.headD_cons] at e
        subst e
        by_cases hg : f = g
        · subst hg; exact fok_rowRight (.inl rfl) hf hn hws rfl
        · unfold hitRowRight; split; exact hf; split; exact hf; rw [set_other hg]; exact hf
      | le =>
        simp only [Option.some.injEq, List.headD_cons] at e
        subst e
        by_cases hg : f = g
        · subst hg; exact fok_rowRight (.inr rfl) hf hn hws rfl
        · unfold hitRowRight; split; exact hf; split; exact hf; rw [set_other hg]; exact hf
      | gt =>
        simp only [Option.some.injEq, List.headD_cons] at e
        subst e
        by_cases hg : f = g
        · subst hg; exact fok_rowLeft (.inl rfl) hf hn hws rfl
        · unfold hitRowLeft; split; exact hf; split; exact hf; rw [set_other hg]; exact hf
      | ge =>
        simp only [Option.some.injEq, List.headD_cons] at e
        subst e
        by_cases hg : f = g
        · subst hg; exact fok_rowLeft (.inr rfl) hf hn hws rfl
        · unfold hitRowLeft; split; exact hf; split; exact hf; rw [set_other hg]; exact hf
  | rin fs vss =>
    simp only [hit] at e
    split at e
    · simp at e
    · rename_i hne
      cases e
      rcases rowIn_fold_any n fs (rowCols fs (tuples vss)) m f with h0 | ⟨p, hp, h1, h2⟩
      · rw [h0]; exact hf
      · generalize (rowCols fs (tuples vss)).foldl (hitRowIn n fs) m f = r at h2 ⊢
        obtain ⟨k, hk, hk'⟩ := mem_rowCols.1 hp
        rw [h1] at hk
        have hnm := hnamed (g := f) (List.mem_iff_getElem?.2 ⟨k, hk⟩)
        obtain ⟨e1, e2, e3, e4, e5⟩ := h2
        rw [hk'] at e1 e5
        have hl : (column (tuples vss) k).length = (tuples vss).length := by simp [column]
        rw [hl] at e5
        by_cases hone : (tuples vss).length = 1
        · obtain ⟨ws, hws⟩ := List.length_eq_one_iff.1 hone
          have hlen := fits_tuples hok.2 (ws := ws) (by simp [hws])
          obtain ⟨v, hv⟩ : ∃ v, ws[k]? = some v := by
            have : k < fs.length := (List.getElem?_eq_some_iff.1 hk).1
            exact ⟨ws[k]'(by omega), List.getElem?_eq_getElem _⟩
          rw [if_pos hone] at e5
          rw [hws, column_one hv] at e1
          constructor <;> intro ht <;> rw [e5] at ht <;> try cases ht
          · intros; exact hnm
          · exact ⟨n, v, e2, e1, .inr ⟨e3, ws, k, e4 ▸ .inr ⟨vss, hn, hws⟩, e4 ▸ hk, hv⟩⟩
        · rw [if_neg hone] at e5
          have h2 : 2 ≤ (tuples vss).length := by
            have : (tuples vss).length ≠ 0 := by simpa using hne
            omega
          constructor <;> intro ht <;> rw [e5] at ht <;> try cases ht
          · intros; exact hnm
          · exact ⟨n, e2, by rw [e1, hl]; exact h2, .inr ⟨e3, vss, k, e4 ▸ hn, e4 ▸ hk, e1⟩⟩
  | full fs p =>
    simp only [hit, Option.some.injEq] at e
    subst e
    by_cases hmem : f ∈ fs
    · have ht := full_fold n fs m hmem
      have hnm := hnamed (g := f) (by simpa [pointCols] using hmem)
      constructor <;> intro ht' <;> rw [ht] at ht' <;> try cases ht'
      · intros; exact hnm
      · exact ⟨fs, p, List.mem_iff_getElem?.2 ⟨n, hn⟩, hmem⟩
    · rw [full_fold_other _ _ _ hmem]; exact hf
  | other p =>
    simp only [hit, Option.some.injEq] at e
    subst e
    exact hf

theorem hit_row (hA : RowEqualityAlone conds) (hok : CondOk cs ty c) (hn : conds[n]? = some c) (h : MInv n conds m)
    (e : hit n c m = some m') {fs : List Nat} {ws : List PbVal} (hr : RowEqAt conds n fs ws) {k f : Nat} {v : PbVal}
    (hk : fs[k]? = some f) (hv : ws[k]? = some v) : (m' f).type = .range ∨ IsRowEq n fs v (m' f) := by
  obtain ⟨c', hc', hre⟩ := rowEq_of_at hr
  rw [hn] at hc'
  cases hc'
  have hmem : f ∈ fs := List.mem_iff_getElem?.2 ⟨k, hk⟩
  have hfree := free_of_alone hA h hn hre hmem
  have hnd := (hA n c fs hn hre).1
  rcases hr with ⟨vs, hr, hws⟩ | ⟨vss, hr, hws⟩
  · rw [hn] at hr
    cases hr
    simp only [hit, hws, Option.some.injEq] at e
    subst e
    have hlen : ws.length = fs.length := by
      have := fitsRow_len hok.2.1
      rw [this, tuple_some.1 hws, List.length_map]
    have hmap : (fs.zip ws).map (·.1) = fs := by rw [List.map_fst_zip]; omega
    have hz : ((f, v) : Nat × PbVal) ∈ fs.zip ws := by
      refine List.mem_iff_getElem?.2 ⟨k, ?_⟩
      rw [List.getElem?_zip_eq_some]
      exact ⟨hk, hv⟩
    have hfold := rowEq_fold n fs (fs.zip ws) m (by rw [hmap]; exact hnd) hz
    dsimp only at hfold
    rw [hfold]
    have hcond : (m f).conds = [] := by
      rcases hfree with h0 | h0
      · rw [(h.fok f).none h0]
      · exact ((h.fok f).range h0).1
    exact .inr ⟨rfl, rfl, by rw [hcond]; exact insertId_nil n, rfl, rfl⟩
  · rw [hn] at hr
    cases hr
    simp only [hit, hws, List.cons_ne_nil, if_false, Option.some.injEq] at e
    subst e
    have hp : ((f, [v]) : Nat × List PbVal) ∈ rowCols fs [ws] := mem_rowCols.2 ⟨k, hk, (column_one hv).symm⟩
    have hfold := rowIn_fold n fs (rowCols fs [ws]) m (by rw [rowCols_map_fst]; exact hnd) hp
    dsimp only at hfold
    rw [hfold]
    unfold hitRowIn
    rcases hfree with h0 | h0
    · right
      simp [h0, set_same, IsRowEq]
    · left
      rw [if_pos ⟨by simp [h0], by simp [((h.fok f).range h0).2.1]⟩]
      exact h0

theorem hit_inv (hA : RowEqualityAlone conds) (hok : CondOk cs ty c) (hn : conds[n]? = some c) (h : MInv n conds m)
    (e : hit n c m = some m') : MInv (n + 1) conds m' := by
  refine ⟨hit_fok hA hok hn h e, ?_⟩
  intro i hi fs ws hr k f v hk hv
  rcases Nat.lt_succ_iff_lt_or_eq.1 hi with hi | rfl
  · obtain ⟨c', hc', hre⟩ := rowEq_of_at hr
    have hmem : f ∈ fs := List.mem_iff_getElem?.2 ⟨k, hk⟩
    have hf : f ∉ pointCols c := fun hp => (hA i c' fs hc' hre).2 n c hn (by omega) f hp hmem
    have ho := hit_other e hf
    rcases h.row i hi fs ws hr k f v hk hv with h0 | h0
    · exact .inl (ho.2 h0)
    · rw [ho.1 (by rw [h0.1]; simp [weight])]
      exact .inr h0
  · exact hit_row hA hok hn h e hr hk hv

theorem hits_inv (hA : RowEqualityAlone conds) (hok : ∀ c ∈ conds, CondOk cs ty c) :
    ∀ (l : List Cond) (n : Nat) (m m' : FMap), conds.drop n = l → MInv n conds m → hits n l m = some m' →
      MInv conds.length conds m' ∨ conds.length < n := by
  intro l
  induction l with
  | nil =>
    intro n m m' hd h e
    simp only [hits, Option.some.injEq] at e
    subst e
    have : conds.length ≤ n := List.drop_eq_nil_iff.1 hd
    rcases Nat.eq_or_lt_of_le this with h0 | h0
    · left; rw [h0]; exact h
    · exact .inr h0
  | cons c l ih =>
    intro n m m' hd h e
    have hn : conds[n]? = some c := by
      have := congrArg List.head? hd
      simpa [List.head?_drop] using this
    have hd' : conds.drop (n + 1) = l := by
      rw [← List.drop_drop, hd]; rfl
    simp only [hits, Option.bind_eq_some_iff] at e
    obtain ⟨m1, e1, e2⟩ := e
    have h1 := hit_inv hA (hok c (List.mem_iff_getElem?.2 ⟨n, hn⟩)) hn h e1
    rcases ih (n + 1) m1 m' hd' h1 e2 with h0 | h0
    · exact .inl h0
    · have := (List.getElem?_eq_some_iff.1 hn).1
      omega

/-- What the collected ranges say once all conjuncts have been seen. -/
theorem hits_minv (hA : RowEqualityAlone conds) (hok : ∀ c ∈ conds, CondOk cs ty c)
    (e : hits 0 conds (fun _ => {}) = some m') : MInv conds.length conds m' := by
  rcases hits_inv hA hok conds 0 _ m' rfl (minv_zero conds) e with h | h
  · exact h
  · omega

theorem rowTrue_eq_null {row : Row} {fs : List Nat} {vs : List (Option PbVal)} (hl : fs.length = vs.length)
    (h : rowTrue .eq row fs vs) : none ∉ vs := by
  induction fs generalizing vs with
  | nil => cases vs <;> simp at hl ⊢
  | cons f fs ih => cases vs with
    | nil => simp
    | cons v vs =>
      obtain ⟨x, y, _, hy, h | h⟩ := h
      · subst hy; simp [ih (by simpa using hl) h.2]
      · exact absurd h.2 h.1

/-- The result is declared empty only when no row satisfies the conjunct. -/
theorem hit_none (hok : CondOk cs ty c) (e : hit n c m = none) (row : Row) : ¬ Holds cs row c := by
  cases c with
  | cmp op g v => cases v with
    | none => rintro ⟨x, y, _, h, _⟩; cases h
    | some v => cases op <;> simp [hit] at e
  | inn g vs =>
    simp only [hit] at e
    split at e
    · rename_i h
      rintro ⟨x, y, _, hy, _⟩
      rw [← mem_nonNull, h] at hy
      simp at hy
    · simp at e
  | like g p => cases p with
    | none => rintro ⟨x, y, _, h, _⟩; cases h
    | some p => simp [hit] at e
  | rcmp op fs vs =>
    simp only [hit] at e
    split at e
    · rename_i hw
      rw [tuple_none] at hw
      by_cases ho : op = .eq
      · subst ho
        intro h
        exact rowTrue_eq_null (fitsRow_len hok.2.1) h hw
      · exact absurd hw (hok.2.2 ho)
    · cases op <;> simp at e
  | rin fs vss =>
    simp only [hit] at e
    split at e
    · rename_i hw
      rintro ⟨t, ht, h⟩
      have hn := rowTrue_eq_null (fitsRow_len (hok.2 t ht)) h
      cases htt : tuple t with
      | none => exact hn (tuple_none.1 htt)
      | some ws =>
        have : ws ∈ tuples vss := mem_tuples.2 (by rw [← tuple_some.1 htt]; exact ht)
        rw [hw] at this; simp at this
    · simp at e
  | full fs p => simp [hit] at e
  | other p => simp [hit] at e

theorem hits_none (hok : ∀ c ∈ conds, CondOk cs ty c) (e : hits n conds m = none) (row : Row) :
    ∃ c ∈ conds, ¬ Holds cs row c := by
  induction conds generalizing n m with
  | nil => simp [hits] at e
  | cons c l ih =>
    simp only [hits, Option.bind_eq_none_iff] at e
    cases hh : hit n c m with
    | none => exact ⟨c, by simp, hit_none (hok c (by simp)) hh row⟩
    | some m1 =>
      obtain ⟨d, hd, hd'⟩ := ih (fun c hc => hok c (by simp [hc])) (e m1 hh)
      exact ⟨d, by simp [hd], hd'⟩

end step

end BaikalDB.Scan
