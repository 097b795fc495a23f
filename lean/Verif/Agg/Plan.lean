import Verif.Agg.Node

/-!
# Plans: stores below, the SQL layer above
-/

namespace BaikalDB.Agg

variable {ρ V D O : Type} {n : Nat} [DecidableEq D]

/-- The rows of the stores' answers, region by region. -/
def storeRows (e : Env V D O) (nd : Node n ρ V O) (regions : List (List ρ)) : List (Row n ρ V D) :=
  regions.flatMap fun R => (runNode e nd false false (R.map scanned)).map (·.1)

/-- The rows of a group. -/
def groupRows (e : Env V D O) (nd : Node n ρ V O) (rows : List ρ) (k : Bytes) : List ρ := rows.filter fun r => keyOf e nd r == k

/-- What is known of the parts of an answer. -/
structure Parts (e : Env V D O) (nd : Node n ρ V O) (all : List ρ) (P : List (Part n ρ V D)) : Prop where
  rows : (P.flatMap (·.2)).Perm all
  ne : ∀ x ∈ P, x.2 ≠ []
  key : ∀ x ∈ P, ∀ r ∈ x.2, keyOf e nd r = keyOf e nd x.1.cols
  cols : ∀ x ∈ P, x.1.cols ∈ x.2

theorem filter_parts {e : Env V D O} {nd : Node n ρ V O} {P : List (Part n ρ V D)}
    (h : ∀ x ∈ P, ∀ r ∈ x.2, keyOf e nd r = keyOf e nd x.1.cols) (k : Bytes) :
    (P.filter (fun x => keyOf e nd x.1.cols == k)).flatMap (·.2) = groupRows e nd (P.flatMap (·.2)) k := by
  unfold groupRows
  induction P with
  | nil => rfl
  | cons x P ih =>
    have ih := ih fun y hy => h y (by simp [hy])
    rw [List.flatMap_cons, List.filter_append, ← ih]
    have hx := h x (by simp)
    by_cases hk : keyOf e nd x.1.cols = k
    · rw [List.filter_cons_of_pos (by simp [hk]), List.flatMap_cons]
      congr 1
      exact (List.filter_eq_self.mpr fun r hr => by simp [hx r hr, hk]).symm
    · rw [List.filter_cons_of_neg (by simp [hk])]
      have : x.2.filter (fun r => keyOf e nd r == k) = [] := List.filter_eq_nil_iff.mpr fun r hr => by simp [hx r hr, hk]
      rw [this]
      rfl

/-! ## The stores -/

theorem ub_emit {e : Env V D O} {nd : Node n ρ V O} {merger : Bool} {g : Group n ρ V D O}
    (h : ∀ i, (finalize e (nd.calls i) merger (g.2.2 i)).ub = false) : (emit e nd merger g).2 = false := by
  simp only [emit, List.any_eq_false]
  intro i _
  simp [h i]

theorem region_parts {e : Env V D O} {nd : Node n ρ V O} {T : Fin n → V → Prop} (h : NodeOk e nd T)
    (plain : ∀ i, isD (nd.calls i) = false ∧ (nd.calls i).order = none) (R : List ρ)
    (hn : ∀ i k, Needs e (nd.calls i) (groupRows e nd R k)) :
    (∀ x ∈ runNode e nd false false (R.map scanned : List (Row n ρ V D)), x.2 = false) ∧
    ∃ P : List (Part n ρ V D), P.map (·.1) = (runNode e nd false false (R.map scanned)).map (·.1) ∧ Parts e nd R P ∧
      ∀ x ∈ P, ∀ i, GoodAt e (nd.calls i) i x := by
  obtain ⟨h1, h2, h3⟩ := scan_groups h R
  have ho : openNode e nd false false (R.map scanned : List (Row n ρ V D)) = (R.map scanned).foldl (stepRow e nd false) [] := by
    simp [openNode]
  unfold runNode
  rw [ho]
  generalize hm : ((R.map scanned : List (Row n ρ V D)).foldl (stepRow e nd false) [] : List (Group n ρ V D O)) = m at h1 h2 h3
  have hk : ∀ g ∈ m, keyOf e nd g.2.1 = g.1 := fun g hg => by
    have := (List.mem_filter.mp (h2 g hg).1).2
    simpa using this
  refine ⟨?_, m.map fun g => ((emit e nd false g).1, groupRows e nd R g.1), ?_, ⟨?_, ?_, ?_, ?_⟩, ?_⟩
  · intro x hx
    obtain ⟨g, hg, rfl⟩ := List.mem_map.mp hx
    exact ub_emit fun i => (rep_fin (h.call i) false ((h2 g hg).2 i) (plain i).2 (h.mems i _)).2
  · simp
  · have := perm_by_key (keyOf e nd) (m.map (·.1)) R h1 h3
    simpa [List.flatMap_map, groupRows] using this
  · intro x hx
    obtain ⟨g, hg, rfl⟩ := List.mem_map.mp hx
    exact List.ne_nil_of_mem (h2 g hg).1
  · intro x hx r hr
    obtain ⟨g, hg, rfl⟩ := List.mem_map.mp hx
    have := (List.mem_filter.mp hr).2
    simp only [emit]
    rw [hk g hg]
    simpa using this
  · intro x hx
    obtain ⟨g, hg, rfl⟩ := List.mem_map.mp hx
    exact (h2 g hg).1
  · intro x hx i
    obtain ⟨g, hg, rfl⟩ := List.mem_map.mp hx
    unfold GoodAt
    rw [(plain i).1]
    simp only [Bool.false_eq_true, if_false]
    refine ⟨List.ne_nil_of_mem (h2 g hg).1, ?_, hn i g.1, ?_⟩
    · exact (rep_fin (h.call i) false ((h2 g hg).2 i) (plain i).2 (h.mems i _)).1
    · intro o ho
      rw [(plain i).2] at ho
      cases ho

theorem stores_parts {e : Env V D O} {nd : Node n ρ V O} {T : Fin n → V → Prop} (h : NodeOk e nd T)
    (plain : ∀ i, isD (nd.calls i) = false ∧ (nd.calls i).order = none) (regions : List (List ρ))
    (hn : ∀ R ∈ regions, ∀ i k, Needs e (nd.calls i) (groupRows e nd R k)) :
    ∃ P : List (Part n ρ V D), P.map (·.1) = storeRows e nd regions ∧ Parts e nd regions.flatten P ∧
      ∀ x ∈ P, ∀ i, GoodAt e (nd.calls i) i x := by
  induction regions with
  | nil => exact ⟨[], rfl, ⟨by simp, by simp, by simp, by simp⟩, by simp⟩
  | cons R regions ih =>
    obtain ⟨P, p1, p2, p3⟩ := ih fun R' hR' => hn R' (by simp [hR'])
    obtain ⟨_, Q, q1, q2, q3⟩ := region_parts (D := D) h plain R (hn R (by simp))
    have hmem : ∀ x ∈ Q ++ P, x ∈ Q ∨ x ∈ P := fun x hx => List.mem_append.mp hx
    refine ⟨Q ++ P, ?_, ⟨?_, ?_, ?_, ?_⟩, ?_⟩
    · rw [List.map_append, p1, q1]
      simp [storeRows]
    · rw [List.flatMap_append, List.flatten_cons]
      exact q2.rows.append p2.rows
    · exact fun x hx => (hmem x hx).elim (q2.ne x) (p2.ne x)
    · exact fun x hx => (hmem x hx).elim (q2.key x) (p2.key x)
    · exact fun x hx => (hmem x hx).elim (q2.cols x) (p2.cols x)
    · exact fun x hx => (hmem x hx).elim (q3 x) (p3 x)

theorem parts_perm {e : Env V D O} {nd : Node n ρ V O} {all : List ρ} {P Q : List (Part n ρ V D)} (h : Parts e nd all P)
    (hp : Q.Perm P) : Parts e nd all Q :=
  ⟨(hp.flatMap_right _).trans h.rows, fun x hx => h.ne x (hp.subset hx), fun x hx => h.key x (hp.subset hx),
    fun x hx => h.cols x (hp.subset hx)⟩

theorem AnsOk.mono {e : Env V D O} {le : O → O → Prop} {c : Call ρ V O} {R R' : List ρ} (h : AnsOk e le c R) (hs : ∀ r ∈ R', r ∈ R)
    (hl : R'.length ≤ R.length) : AnsOk e le c R' :=
  ⟨lt_of_le_of_lt hl h.few, h.sort, fun hk r hr => h.texts hk r (hs r hr), h.str⟩

/-- Without GROUP BY an aggregate over a set of no rows would have to be NULL. -/
def NoRowsOk (c : Call ρ V O) : Prop := c.kind ≠ .multiSum ∧ c.kind ≠ .multiSumDbl ∧ c.kind ≠ .multiConcat

theorem NoRowsOk.multi {c : Call ρ V O} (h : NoRowsOk c) (hk : c.kind.isMulti = true) : c.kind = .multiCount := by
  obtain ⟨h1, h2, h3⟩ := h
  cases hc : c.kind <;> simp_all [Kind.isMulti]

end BaikalDB.Agg
