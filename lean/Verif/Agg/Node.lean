import Verif.Agg.Neutral
import Mathlib.Data.List.TakeWhile

/-!
# A node: groups and their rows
-/

namespace BaikalDB.Agg

variable {ρ V D O : Type} {n : Nat} [DecidableEq D]

/-! ## Groups -/

/-- `stepRow` without the test for rows that bring nothing. -/
def stepRow0 (e : Env V D O) (nd : Node n ρ V O) (merger : Bool) (m : List (Group n ρ V D O)) (r : Row n ρ V D) : List (Group n ρ V D O) :=
  let k := keyOf e nd r.cols
  if m.any (·.1 == k) then m.map fun g => if g.1 == k then (g.1, g.2.1, feed e nd merger false g.2.2 r) else g
  else m ++ [(k, r.cols, open1 e nd merger r)]

def skips (e : Env V D O) (nd : Node n ρ V O) (merger : Bool) (r : Row n ρ V D) : Bool := merger && nd.group.isEmpty && allInit e nd r

theorem keyOf_nil {e : Env V D O} {nd : Node n ρ V O} (h : nd.group = []) (r r' : ρ) : keyOf e nd r = keyOf e nd r' := by
  simp [keyOf, h]

theorem foldl_hit {e : Env V D O} {nd : Node n ρ V O} (h : nd.group = []) (merger : Bool) (rows : List (Row n ρ V D)) :
    ∀ m : List (Group n ρ V D O), (∃ g ∈ m, g.1 = keyOf e nd nd.blank) →
      rows.foldl (stepRow e nd merger) m = rows.foldl (stepRow0 e nd merger) m := by
  induction rows with
  | nil => intro m _; rfl
  | cons r rows ih =>
    intro m ⟨g, hg, hk⟩
    have hany : m.any (·.1 == keyOf e nd r.cols) = true :=
      List.any_eq_true.mpr ⟨g, hg, by rw [hk, keyOf_nil h nd.blank r.cols]; simp⟩
    have h1 : stepRow e nd merger m r = stepRow0 e nd merger m r := by
      simp only [stepRow, stepRow0, hany, if_true]
    rw [List.foldl_cons, List.foldl_cons, h1]
    refine ih _ ?_
    simp only [stepRow0, hany, if_true]
    exact ⟨_, List.mem_map.mpr ⟨g, hg, rfl⟩, by split <;> exact hk⟩

theorem foldl_skip (e : Env V D O) (nd : Node n ρ V O) (merger : Bool) (rows : List (Row n ρ V D)) :
    rows.foldl (stepRow e nd merger) [] = (rows.dropWhile (skips e nd merger)).foldl (stepRow0 e nd merger) [] := by
  by_cases hs : (merger && nd.group.isEmpty) = true
  · have hg : nd.group = [] := by simpa using ((Bool.and_eq_true _ _).mp hs).2
    induction rows with
    | nil => rfl
    | cons r rows ih =>
      by_cases hi : allInit e nd r = true
      · have h1 : stepRow e nd merger [] r = [] := by simp [stepRow, hs, hi]
        have h2 : skips e nd merger r = true := by simp [skips, hs, hi]
        rw [List.foldl_cons, h1, ih, List.dropWhile_cons_of_pos h2]
      · have h1 : stepRow e nd merger [] r = stepRow0 e nd merger [] r := by simp [stepRow, stepRow0, hi]
        have h2 : ¬ skips e nd merger r = true := by simp [skips, hi]
        rw [List.dropWhile_cons_of_neg h2, List.foldl_cons, List.foldl_cons, h1]
        exact foldl_hit hg merger rows _ ⟨_, by simp [stepRow0]; rfl, keyOf_nil hg _ _⟩
  · have h1 : stepRow e nd merger = stepRow0 e nd merger := by
      funext m r
      simp [stepRow, stepRow0, hs]
    have h2 : rows.dropWhile (skips e nd merger) = rows := by
      cases rows with
      | nil => rfl
      | cons r rows => exact List.dropWhile_cons_of_neg (by simp [skips, hs])
    rw [h1, h2]

/-- Every key once; a group's row and state come from the rows with its key, in order. -/
def Groups (e : Env V D O) (nd : Node n ρ V O) (merger : Bool) (rows : List (Row n ρ V D)) (m : List (Group n ρ V D O)) : Prop :=
  (m.map (·.1)).Nodup ∧
  (∀ g ∈ m, ∃ x L, rows.filter (fun r => keyOf e nd r.cols == g.1) = x :: L ∧ g.2.1 = x.cols ∧
    g.2.2 = L.foldl (feed e nd merger false) (open1 e nd merger x)) ∧
  ∀ r ∈ rows, keyOf e nd r.cols ∈ m.map (·.1)

theorem groups_snoc {e : Env V D O} {nd : Node n ρ V O} {merger : Bool} {rows : List (Row n ρ V D)} {m : List (Group n ρ V D O)}
    (h : Groups e nd merger rows m) (r : Row n ρ V D) : Groups e nd merger (rows ++ [r]) (stepRow0 e nd merger m r) := by
  obtain ⟨h1, h2, h3⟩ := h
  by_cases hany : m.any (·.1 == keyOf e nd r.cols) = true
  · have hs : stepRow0 e nd merger m r =
        m.map fun g => if g.1 == keyOf e nd r.cols then (g.1, g.2.1, feed e nd merger false g.2.2 r) else g := by
      simp only [stepRow0, hany, if_true]
    have hkeys : (stepRow0 e nd merger m r).map (·.1) = m.map (·.1) := by
      rw [hs, List.map_map]
      refine List.map_congr_left fun g _ => ?_
      simp only [Function.comp_apply]
      split <;> rfl
    refine ⟨by rw [hkeys]; exact h1, ?_, ?_⟩
    · intro g hg
      rw [hs] at hg
      obtain ⟨g', hg', rfl⟩ := List.mem_map.mp hg
      obtain ⟨x, L, hf, hc, hst⟩ := h2 g' hg'
      by_cases hk : g'.1 = keyOf e nd r.cols
      · simp only [hk, beq_self_eq_true, if_true]
        rw [hk] at hf
        exact ⟨x, L ++ [r], by simp [List.filter_append, hf], hc, by simp [List.foldl_append, hst]⟩
      · have hk' : (g'.1 == keyOf e nd r.cols) = false := by simp [hk]
        simp only [hk', Bool.false_eq_true, if_false]
        exact ⟨x, L, by simp [List.filter_append, hf, Ne.symm hk], hc, hst⟩
    · intro r' hr'
      rw [hkeys]
      rcases List.mem_append.mp hr' with h | h
      · exact h3 r' h
      · simp only [List.mem_singleton] at h
        subst h
        obtain ⟨g, hg, hgk⟩ := List.any_eq_true.mp hany
        exact List.mem_map.mpr ⟨g, hg, by simpa using hgk⟩
  · have hno : keyOf e nd r.cols ∉ m.map (·.1) := by
      intro hc
      obtain ⟨g, hg, hgk⟩ := List.mem_map.mp hc
      exact hany (List.any_eq_true.mpr ⟨g, hg, by simp [hgk]⟩)
    have hs : stepRow0 e nd merger m r = m ++ [(keyOf e nd r.cols, r.cols, open1 e nd merger r)] := by
      simp only [stepRow0, hany, Bool.false_eq_true, if_false]
    rw [hs]
    refine ⟨?_, ?_, ?_⟩
    · rw [List.map_append, List.nodup_append]
      refine ⟨h1, by simp, ?_⟩
      intro a ha b hb hab
      simp only [List.map_cons, List.map_nil, List.mem_singleton] at hb
      subst hab hb
      exact hno ha
    · intro g hg
      rcases List.mem_append.mp hg with hg | hg
      · obtain ⟨x, L, hf, hc, hst⟩ := h2 g hg
        have hk : keyOf e nd r.cols ≠ g.1 := fun hk => hno (hk ▸ List.mem_map.mpr ⟨g, hg, rfl⟩)
        exact ⟨x, L, by simp [List.filter_append, hf, hk], hc, hst⟩
      · simp only [List.mem_singleton] at hg
        subst hg
        have : rows.filter (fun r' => keyOf e nd r'.cols == keyOf e nd r.cols) = [] := by
          rw [List.filter_eq_nil_iff]
          intro r' hr' hk
          exact hno ((by simpa using hk : keyOf e nd r'.cols = keyOf e nd r.cols) ▸ h3 r' hr')
        exact ⟨r, [], by simp [List.filter_append, this], rfl, rfl⟩
    · intro r' hr'
      rw [List.map_append]
      rcases List.mem_append.mp hr' with h | h
      · exact List.mem_append_left _ (h3 r' h)
      · simp only [List.mem_singleton] at h
        subst h
        simp

theorem groups_fold (e : Env V D O) (nd : Node n ρ V O) (merger : Bool) (rows : List (Row n ρ V D)) :
    Groups e nd merger rows (rows.foldl (stepRow0 e nd merger) []) := by
  have : ∀ (xs pre : List (Row n ρ V D)) (m : List (Group n ρ V D O)), Groups e nd merger pre m →
      Groups e nd merger (pre ++ xs) (xs.foldl (stepRow0 e nd merger) m) := by
    intro xs
    induction xs with
    | nil => intro pre m h; simpa using h
    | cons x xs ih =>
      intro pre m h
      have := ih (pre ++ [x]) _ (groups_snoc h x)
      simpa using this
  simpa using this rows [] [] ⟨by simp, by simp, by simp⟩

theorem perm_by_key {α : Type} (f : α → Bytes) : ∀ (ks : List Bytes) (l : List α), ks.Nodup → (∀ a ∈ l, f a ∈ ks) →
    (ks.flatMap fun k => l.filter (fun a => f a == k)).Perm l := by
  intro ks
  induction ks with
  | nil =>
    intro l _ h
    cases l with
    | nil => simp
    | cons a l => exact absurd (h a (by simp)) (by simp)
  | cons k ks ih =>
    intro l hn h
    rw [List.nodup_cons] at hn
    rw [List.flatMap_cons]
    have h1 := ih (l.filter fun a => !(f a == k)) hn.2 (by
      intro a ha
      rw [List.mem_filter] at ha
      rcases List.mem_cons.mp (h a ha.1) with h' | h'
      · simp [h'] at ha
      · exact h')
    have h2 : (ks.flatMap fun k' => (l.filter fun a => !(f a == k)).filter (fun a => f a == k')) =
        ks.flatMap fun k' => l.filter (fun a => f a == k') := by
      rw [List.flatMap_def, List.flatMap_def]
      congr 1
      refine List.map_congr_left fun k' hk' => ?_
      rw [List.filter_filter]
      refine List.filter_congr fun a _ => ?_
      by_cases hak : f a = k'
      · have : f a ≠ k := fun hc => hn.1 (by rw [← hc, hak]; exact hk')
        simp [hak, show k' ≠ k from fun hc => this (hak.trans hc)]
      · simp [hak]
    rw [h2] at h1
    exact (h1.append_left _).trans (List.filter_append_perm _ l)

/-! ## Rows and what they stand for -/

/-- A row on its way up, with the rows of the table it stands for. -/
abbrev Part (n : Nat) (ρ V D : Type) := Row n ρ V D × List ρ

def isD (c : Call ρ V O) : Bool := c.distinct && !c.kind.isMulti

/-- What a merging node's aggregate takes a row for: a distinct aggregate takes the row itself. -/
def Sees (c : Call ρ V O) (x : Part n ρ V D) : List ρ := if isD c then [x.1.cols] else x.2

def GoodAt (e : Env V D O) (c : Call ρ V O) (i : Fin n) (x : Part n ρ V D) : Prop :=
  if isD c then x.1.slots i = .null
  else x.2 ≠ [] ∧ Rep e c (x.1.slots i) x.2 ∧ Needs e c x.2 ∧ ∀ o, c.order = some o → ∀ r' ∈ x.2, o r' = o x.1.cols

/-- What is assumed of the aggregates of a node: `T i` are the values of the `i`-th. -/
structure NodeOk (e : Env V D O) (nd : Node n ρ V O) (T : Fin n → V → Prop) : Prop where
  laws : Laws e
  call : ∀ i, CallOk e (nd.calls i) (T i)
  typed : ∀ i r v, Spec.scalar (nd.calls i) r = some v ∨ Spec.member e (nd.calls i) r = some v → T i v

theorem NodeOk.vals {e : Env V D O} {nd : Node n ρ V O} {T : Fin n → V → Prop} (h : NodeOk e nd T) (i : Fin n) (R : List ρ) :
    ∀ v ∈ vals (nd.calls i) R, T i v := by
  intro v hv
  obtain ⟨r, _, hr⟩ := List.mem_filterMap.mp hv
  exact h.typed i r v (.inl hr)

theorem NodeOk.mems {e : Env V D O} {nd : Node n ρ V O} {T : Fin n → V → Prop} (h : NodeOk e nd T) (i : Fin n) (R : List ρ) :
    ∀ v ∈ mems e (nd.calls i) R, T i v := by
  intro v hv
  obtain ⟨r, _, hr⟩ := List.mem_filterMap.mp hv
  exact h.typed i r v (.inr hr)

theorem inv_feed {e : Env V D O} {nd : Node n ρ V O} {T : Fin n → V → Prop} (h : NodeOk e nd T) (i : Fin n) (L : List (Part n ρ V D))
    (hL : ∀ x ∈ L, GoodAt e (nd.calls i) i x) : ∀ (st : Fin n → St V D O) (R : List ρ), Inv e (nd.calls i) (st i) R →
      Inv e (nd.calls i) ((L.map (·.1)).foldl (feed e nd true false) st i) (R ++ L.flatMap (Sees (nd.calls i))) := by
  induction L with
  | nil => intro st R hi; simpa using hi
  | cons x L ih =>
    intro st R hi
    rw [List.map_cons, List.foldl_cons, List.flatMap_cons, ← List.append_assoc]
    refine ih (fun y hy => hL y (by simp [hy])) _ _ ?_
    have hx := hL x (by simp)
    unfold GoodAt at hx
    simp only [feed, if_true, Bool.false_eq_true, if_false]
    by_cases hd : isD (nd.calls i) = true
    · have hs : Sees (nd.calls i) x = [x.1.cols] := by simp [Sees, hd]
      rw [hs]
      unfold isD at hd
      simp only [merge, hd, if_true]
      exact inv_update h.laws (h.call i).order hi (h.vals i _) (h.mems i _)
    · rw [if_neg hd] at hx
      have hs : Sees (nd.calls i) x = x.2 := by simp [Sees, hd]
      rw [hs]
      exact inv_merge h.laws (h.call i) (by simpa [isD] using hd) hi hx.2.1 hx.2.2.1 hx.1 hx.2.2.2 (h.vals i _) (h.mems i _)

theorem inv_open1 {e : Env V D O} {nd : Node n ρ V O} {T : Fin n → V → Prop} (h : NodeOk e nd T) (i : Fin n) (x : Part n ρ V D)
    (hx : GoodAt e (nd.calls i) i x) : Inv e (nd.calls i) (open1 e nd true x.1 i) (Sees (nd.calls i) x) := by
  unfold GoodAt at hx
  simp only [open1, feed, if_true]
  by_cases hd : isD (nd.calls i) = true
  · have hs : Sees (nd.calls i) x = [x.1.cols] := by simp [Sees, hd]
    rw [hs]
    rw [if_pos hd] at hx
    unfold isD at hd
    simp only [merge, hd, if_true]
    have h0 : Inv e (nd.calls i) (initAgg e (nd.calls i) false { slot := x.1.slots i, fin := x.1.fins i }) [] := by
      have := inv_init e (nd.calls i)
      rw [hx]
      unfold Inv initAgg at this ⊢
      cases hk : (nd.calls i).kind <;> simp only [hk] at this ⊢ <;> exact this
    exact inv_update h.laws (h.call i).order h0 (h.vals i _) (h.mems i _)
  · rw [if_neg hd] at hx
    have hs : Sees (nd.calls i) x = x.2 := by simp [Sees, hd]
    rw [hs]
    exact inv_open (h.call i) (by simpa [isD] using hd) hx.2.1 hx.2.2.1 hx.1 hx.2.2.2 (h.mems i _)

theorem inv_scan {e : Env V D O} {nd : Node n ρ V O} {T : Fin n → V → Prop} (h : NodeOk e nd T) (i : Fin n) (r : ρ) (L : List ρ) :
    Inv e (nd.calls i) ((L.map scanned).foldl (feed e nd false false) (open1 e nd false (scanned r : Row n ρ V D)) i) (r :: L) := by
  have key : ∀ (L R : List ρ) (st : Fin n → St V D O), Inv e (nd.calls i) (st i) R →
      Inv e (nd.calls i) ((L.map scanned).foldl (feed e nd false false) st i) (R ++ L) := by
    intro L
    induction L with
    | nil => intro R st hi; simpa using hi
    | cons r' L ih =>
      intro R st hi
      rw [List.map_cons, List.foldl_cons, show R ++ r' :: L = R ++ [r'] ++ L by simp]
      refine ih _ _ ?_
      simp only [feed, Bool.false_eq_true, if_false, scanned]
      exact inv_update h.laws (h.call i).order hi (h.vals i _) (h.mems i _)
  refine key L [r] _ ?_
  simp only [open1, feed, Bool.false_eq_true, if_false, scanned]
  exact inv_update h.laws (h.call i).order (inv_init e (nd.calls i)) (h.vals i _) (h.mems i _)

/-! ## A node on scanned rows -/

theorem scan_groups {e : Env V D O} {nd : Node n ρ V O} {T : Fin n → V → Prop} (h : NodeOk e nd T) (R : List ρ) :
    ((((R.map scanned : List (Row n ρ V D)).foldl (stepRow e nd false) [] : List (Group n ρ V D O))).map (·.1)).Nodup ∧
    (∀ g ∈ ((R.map scanned : List (Row n ρ V D)).foldl (stepRow e nd false) [] : List (Group n ρ V D O)),
      g.2.1 ∈ R.filter (fun r => keyOf e nd r == g.1) ∧ ∀ i, Inv e (nd.calls i) (g.2.2 i) (R.filter (fun r => keyOf e nd r == g.1))) ∧
    ∀ r ∈ R, keyOf e nd r ∈ (((R.map scanned : List (Row n ρ V D)).foldl (stepRow e nd false) [] : List (Group n ρ V D O))).map (·.1) := by
  rw [foldl_skip]
  have hdw : ∀ l : List (Row n ρ V D), l.dropWhile (skips e nd false) = l := by
    intro l
    cases l with
    | nil => rfl
    | cons r l => exact List.dropWhile_cons_of_neg (by simp [skips])
  rw [hdw]
  obtain ⟨h1, h2, h3⟩ := groups_fold (D := D) e nd false (R.map scanned)
  refine ⟨h1, ?_, fun r hr => h3 (scanned r) (List.mem_map.mpr ⟨r, hr, rfl⟩)⟩
  intro g hg
  obtain ⟨x, L, hf, hc, hst⟩ := h2 g hg
  rw [List.filter_map] at hf
  obtain ⟨r, L', hR, hr, hL⟩ := List.map_eq_cons_iff.mp hf
  have hR' : R.filter (fun r => keyOf e nd r == g.1) = r :: L' := hR
  rw [hR', hc, hst, ← hr, ← hL]
  exact ⟨by simp [scanned], fun i => inv_scan h i r L'⟩

theorem Needs.append {e : Env V D O} {c : Call ρ V O} {R R' : List ρ} (h : Needs e c R) (h' : Needs e c R') : Needs e c (R ++ R') := by
  constructor
  · intro hk hne
    simp only [bms, List.filterMap_append]
    by_cases hR : R = []
    · subst hR
      have := h'.1 hk (by simpa using hne)
      simpa using this
    · have := h.1 hk hR
      simp only [bms] at this
      simp [this]
  · intro hk hne
    simp only [Agg.mems, List.filterMap_append]
    by_cases hR : R = []
    · subst hR
      have := h'.2 hk (by simpa using hne)
      simpa using this
    · have := h.2 hk hR
      simp only [Agg.mems] at this
      simp [this]

theorem Needs.flatMap {e : Env V D O} {c : Call ρ V O} {L : List (Part n ρ V D)} (h : ∀ x ∈ L, Needs e c x.2) :
    Needs e c (L.flatMap (·.2)) := by
  induction L with
  | nil => exact ⟨fun _ h => absurd rfl h, fun _ h => absurd rfl h⟩
  | cons x L ih =>
    rw [List.flatMap_cons]
    exact (h x (by simp)).append (ih fun y hy => h y (by simp [hy]))

theorem length_le_flatMap {L : List (Part n ρ V D)} {x : Part n ρ V D} (h : x ∈ L) : x.2.length ≤ (L.flatMap (·.2)).length := by
  induction L with
  | nil => cases h
  | cons y L ih =>
    rw [List.flatMap_cons, List.length_append]
    rcases List.mem_cons.mp h with rfl | h
    · omega
    · have := ih h; omega

/-! ## A merging node -/

/-- A merging node on rows `P`: either it has seen nothing and makes up the row for no rows, or its groups are those of `P`. -/
theorem merge_groups {e : Env V D O} {nd : Node n ρ V O} {T : Fin n → V → Prop} (h : NodeOk e nd T) (top : Bool)
    (P : List (Part n ρ V D)) (hP : ∀ x ∈ P, ∀ i, GoodAt e (nd.calls i) i x) (hlen : (P.flatMap (·.2)).length < 2 ^ 64) :
    (nd.group = [] ∧ openNode e nd true top (P.map (·.1)) = [(keyOf e nd nd.blank, nd.blank, fun i => initAgg e (nd.calls i) true {})] ∧
      (∀ i, Neutral e (nd.calls i) (P.flatMap (·.2))) ∧ (P ≠ [] → ∀ i, isD (nd.calls i) = false)) ∨
    ∃ m : List (Group n ρ V D O), openNode e nd true top (P.map (·.1)) = m ∧ (m.map (·.1)).Nodup ∧
      (∀ g ∈ m, (∃ x ∈ P.filter (fun x => keyOf e nd x.1.cols == g.1), g.2.1 = x.1.cols) ∧
        ∀ i, Inv e (nd.calls i) (g.2.2 i) ((P.filter (fun x => keyOf e nd x.1.cols == g.1)).flatMap (Sees (nd.calls i)))) ∧
      (∀ x ∈ P, keyOf e nd x.1.cols ∈ m.map (·.1)) ∧ (nd.group = [] → m.length = 1) := by
  have hsplit : (P.map (·.1)).dropWhile (skips e nd true) = (P.dropWhile fun x => skips e nd true x.1).map (·.1) := by
    rw [List.dropWhile_map]; rfl
  set B := P.dropWhile fun x => skips e nd true x.1 with hB
  set A := P.takeWhile fun x => skips e nd true x.1 with hA
  have hAB : A ++ B = P := List.takeWhile_append_dropWhile
  have hAskip : ∀ x ∈ A, skips e nd true x.1 = true := fun x hx => by
    simpa using List.mem_takeWhile_imp hx
  have hAgroup : A ≠ [] → nd.group = [] := by
    intro hne
    obtain ⟨x, hx⟩ := List.exists_mem_of_ne_nil _ hne
    have := hAskip x hx
    simp only [skips, Bool.and_eq_true, Bool.true_and] at this
    simpa using this.1
  have hAinit : ∀ x ∈ A, ∀ i, isInit e (nd.calls i) (x.1.slots i) = true := by
    intro x hx i
    have := hAskip x hx
    simp only [skips, Bool.and_eq_true, allInit] at this
    exact List.all_eq_true.mp this.2 i (List.mem_finRange i)
  have hAd : A ≠ [] → ∀ i, isD (nd.calls i) = false := by
    intro hne i
    obtain ⟨x, hx⟩ := List.exists_mem_of_ne_nil _ hne
    have := hAinit x hx i
    unfold isInit at this
    by_contra hc
    have hc : ((nd.calls i).distinct && !(nd.calls i).kind.isMulti) = true := by simpa [isD] using hc
    rw [if_pos hc] at this
    cases this
  have hAn : ∀ i, Neutral e (nd.calls i) (A.flatMap (·.2)) := by
    intro i
    have : ∀ A' : List (Part n ρ V D), (∀ x ∈ A', x ∈ A) → Neutral e (nd.calls i) (A'.flatMap (·.2)) := by
      intro A'
      induction A' with
      | nil => intro _; exact Neutral.nil e _
      | cons x A' ih =>
        intro hsub
        have hx := hsub x (by simp)
        have hxP : x ∈ P := by rw [← hAB]; exact List.mem_append_left _ hx
        have hd := hAd (List.ne_nil_of_mem hx) i
        have hg := hP x hxP i
        unfold GoodAt at hg
        rw [hd] at hg
        simp only [Bool.false_eq_true, if_false] at hg
        have hl : x.2.length < 2 ^ 64 := by
          refine lt_of_le_of_lt ?_ hlen
          exact length_le_flatMap hxP
        rw [List.flatMap_cons]
        exact (neutral_of_isInit hg.2.1 hg.2.2.1 hl (hAinit x hx i)).1.append (ih fun y hy => hsub y (by simp [hy]))
    exact this A fun x hx => hx
  obtain ⟨g1, g2, g3⟩ := groups_fold (D := D) e nd true (B.map (·.1))
  have hopen : openNode e nd true top (P.map (·.1)) =
      if (((B.map (·.1)).foldl (stepRow0 e nd true) [] : List (Group n ρ V D O)).isEmpty && nd.group.isEmpty && (top || true)) = true then
        [(keyOf e nd nd.blank, nd.blank, fun i => initAgg e (nd.calls i) true {})]
      else (B.map (·.1)).foldl (stepRow0 e nd true) [] := by
    unfold openNode
    rw [foldl_skip, hsplit]
  set m : List (Group n ρ V D O) := (B.map (·.1)).foldl (stepRow0 e nd true) [] with hm
  by_cases hdef : (m.isEmpty && nd.group.isEmpty && (top || true)) = true
  · left
    rw [if_pos hdef] at hopen
    simp only [Bool.and_eq_true, List.isEmpty_iff] at hdef
    have hB0 : B = [] := by
      by_contra hne
      obtain ⟨x, hx⟩ := List.exists_mem_of_ne_nil _ hne
      have := g3 x.1 (List.mem_map.mpr ⟨x, hx, rfl⟩)
      rw [hdef.1.1] at this
      cases this
    have hAP : A = P := by rw [← hAB, hB0, List.append_nil]
    exact ⟨hdef.1.2, hopen, by rw [← hAP]; exact hAn, by rw [← hAP]; exact hAd⟩
  · right
    rw [if_neg hdef] at hopen
    have hcov : ∀ x ∈ B, keyOf e nd x.1.cols ∈ m.map (·.1) := fun x hx => g3 x.1 (List.mem_map.mpr ⟨x, hx, rfl⟩)
    have hone : nd.group = [] → m.length = 1 := by
      intro hg
      have hne : m ≠ [] := by
        intro h0
        apply hdef
        simp [h0, hg]
      have hk : ∀ g ∈ m, g.1 = keyOf e nd nd.blank := by
        intro g hgm
        obtain ⟨x, L, hf, hc, _⟩ := g2 g hgm
        have : x ∈ (B.map (·.1)).filter (fun r => keyOf e nd r.cols == g.1) := by rw [hf]; simp
        have := (List.mem_filter.mp this).2
        rw [← (by simpa using this : keyOf e nd x.cols = g.1)]
        exact keyOf_nil hg _ _
      clear_value m
      clear hm
      rcases m with _ | ⟨g, _ | ⟨g', m'⟩⟩
      · exact absurd rfl hne
      · rfl
      · exfalso
        have e1 := hk g (by simp)
        have e2 := hk g' (by simp)
        rw [List.map_cons, List.map_cons, List.nodup_cons] at g1
        exact g1.1 (by simp [e1, e2])
    refine ⟨m, hopen, g1, ?_, ?_, hone⟩
    · intro g hg
      obtain ⟨x, L, hf, hc, hst⟩ := g2 g hg
      rw [List.filter_map] at hf
      obtain ⟨y, L', hR, hr, hL⟩ := List.map_eq_cons_iff.mp hf
      have hR' : B.filter (fun x => keyOf e nd x.1.cols == g.1) = y :: L' := hR
      have hmemB : ∀ z ∈ y :: L', z ∈ P := by
        intro z hz
        rw [← hR'] at hz
        rw [← hAB]
        exact List.mem_append_right _ (List.mem_filter.mp hz).1
      have hPf : P.filter (fun x => keyOf e nd x.1.cols == g.1) = A.filter (fun x => keyOf e nd x.1.cols == g.1) ++ (y :: L') := by
        rw [← hAB, List.filter_append, hR']
      rw [hPf, hc, hst, ← hr, ← hL]
      refine ⟨⟨y, by simp, rfl⟩, fun i => ?_⟩
      have hinv : Inv e (nd.calls i) ((L'.map (·.1)).foldl (feed e nd true false) (open1 e nd true y.1) i)
          ((y :: L').flatMap (Sees (nd.calls i))) := by
        rw [List.flatMap_cons]
        exact inv_feed h i L' (fun z hz => hP z (hmemB z (by simp [hz])) i) _ _ (inv_open1 h i y (hP y (hmemB y (by simp)) i))
      rw [List.flatMap_append]
      by_cases hA0 : A = []
      · rw [hA0]; simpa using hinv
      · refine inv_neutral hinv ?_
        have hgn := hAgroup hA0
        have : A.filter (fun x => keyOf e nd x.1.cols == g.1) = A := by
          rw [List.filter_eq_self]
          intro a _
          have : y ∈ B.filter (fun x => keyOf e nd x.1.cols == g.1) := by rw [hR']; simp
          have := (List.mem_filter.mp this).2
          rw [keyOf_nil hgn a.1.cols y.1.cols]
          exact this
        rw [this]
        have hs : A.flatMap (Sees (nd.calls i)) = A.flatMap (·.2) := by
          have : (Sees (nd.calls i) : Part n ρ V D → List ρ) = (·.2) := by
            funext z
            simp [Sees, hAd hA0 i]
          rw [this]
        rw [hs]
        exact hAn i
    · intro x hx
      rw [← hAB] at hx
      rcases List.mem_append.mp hx with hx | hx
      · have hgn := hAgroup (List.ne_nil_of_mem hx)
        have hl := hone hgn
        obtain ⟨g, hmg⟩ := List.length_eq_one_iff.mp hl
        · obtain ⟨z, L, hf, _, _⟩ := g2 g (by simp [hmg])
          have : z ∈ (B.map (·.1)).filter (fun r => keyOf e nd r.cols == g.1) := by rw [hf]; simp
          have := (List.mem_filter.mp this).2
          rw [keyOf_nil hgn x.1.cols z.cols, (by simpa using this : keyOf e nd z.cols = g.1), hmg]
          simp
      · exact hcov x hx

end BaikalDB.Agg
