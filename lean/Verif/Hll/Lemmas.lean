import Verif.Hll.Sparse

/-! The operations on registers, in every encoding. -/

namespace BaikalDB.Hll

/-- The registers of a sketch. -/
def regs (c : Cfg) : Body → List Nat
  | .dense b => denseRegs c.n b
  | .sparse l => expand l
  | .raw r => r

/-- A well-formed encoding. -/
def Valid (c : Cfg) : Body → Prop
  | .dense b => Bytes b ∧ b.length = denseLen c
  | .sparse l => (∀ o ∈ l, OpcOk o) ∧ (expand l).length = c.n
  | .raw r => r.length = c.n ∧ ∀ x ∈ r, x < 64

theorem regs_length {c : Cfg} {b : Body} (h : Valid c b) : (regs c b).length = c.n := by
  cases b with
  | dense b => simp [regs, denseRegs]
  | sparse l => exact h.2
  | raw r => exact h.1

theorem regs_lt {c : Cfg} {b : Body} (h : Valid c b) : ∀ x ∈ regs c b, x < 64 := by
  cases b with
  | dense b =>
    intro x hx
    obtain ⟨i, _, rfl⟩ := List.mem_map.1 hx
    exact denseGet_lt b i
  | sparse l => intro x hx; have := expand_le h.1 x hx; omega
  | raw r => exact h.2

/-! ### Values into registers by maximum -/

/-- A list of values into registers by maximum. -/
def updAll : List Nat → List Nat → Nat → List Nat
  | [], r, _ => r
  | v :: vs, r, i => updAll vs (upd r i v) (i + 1)

theorem updAll_length (vs r : List Nat) (i : Nat) : (updAll vs r i).length = r.length := by
  induction vs generalizing r i with
  | nil => rfl
  | cons v vs ih => rw [updAll, ih, upd_length]

theorem updAll_getD (vs r : List Nat) (i j : Nat) (hj : j < r.length) :
    (updAll vs r i).getD j 0 = if i ≤ j then max (r.getD j 0) (vs.getD (j - i) 0) else r.getD j 0 := by
  induction vs generalizing r i with
  | nil => simp [updAll]
  | cons v vs ih =>
    rw [updAll, ih _ _ (by rw [upd_length]; exact hj), getD_upd]
    by_cases h1 : i + 1 ≤ j
    · have hne : ¬ (i = j ∧ j < r.length) := by omega
      have hle : i ≤ j := by omega
      rw [if_pos h1, if_neg hne, if_pos hle]
      have : j - i = (j - (i + 1)) + 1 := by omega
      rw [this, List.getD_cons_succ]
    · rw [if_neg h1]
      by_cases h2 : i = j
      · subst h2
        rw [if_pos ⟨rfl, hj⟩, if_pos (Nat.le_refl _)]
        simp
      · rw [if_neg (fun x => h2 x.1), if_neg (by omega)]

theorem upd_zero (r : List Nat) (i : Nat) : upd r i 0 = r := by
  refine ext_getD (by simp [upd]) (fun j hj => ?_)
  rw [getD_upd]
  by_cases h : i = j ∧ j < r.length
  · rw [if_pos h]; simp
  · rw [if_neg h]

theorem upd_le {r : List Nat} {i v : Nat} (h : v ≤ r.getD i 0) : upd r i v = r := by
  refine ext_getD (by simp [upd]) (fun j hj => ?_)
  rw [getD_upd]
  by_cases h' : i = j ∧ j < r.length
  · rw [if_pos h', ← h'.1, Nat.max_eq_left h]
  · rw [if_neg h']

theorem updAll_zeros {vs : List Nat} {n : Nat} (h : vs.length = n) :
    updAll vs (List.replicate n 0) 0 = vs := by
  refine ext_getD (by rw [updAll_length]; simp [h]) (fun j hj => ?_)
  rw [updAll_length] at hj
  rw [updAll_getD _ _ _ _ hj, if_pos (Nat.zero_le _)]
  have : (List.replicate n 0).getD j 0 = 0 := by
    rw [List.getD_eq_getElem?_getD, List.getElem?_replicate]
    by_cases h : j < n <;> simp [h]
  rw [this]
  simp

theorem rawMax_eq (r : List Nat) (i v : Nat) : rawMax r i v = upd r i v := by
  unfold rawMax
  by_cases h : v > r.getD i 0
  · rw [if_pos h, upd, Nat.max_eq_right (by omega)]
  · rw [if_neg h, upd_le (by omega)]

theorem rawMaxAll_eq (vs r : List Nat) (i : Nat) : rawMaxAll vs r i = updAll vs r i := by
  induction vs generalizing r i with
  | nil => rfl
  | cons v vs ih => rw [rawMaxAll, ih, rawMax_eq, updAll]

theorem denseMaxAll_facts {c : Cfg} (vs b : List Nat) (i : Nat) (hv : ∀ v ∈ vs, v < 64)
    (h : Valid c (.dense b)) (hi : i + vs.length ≤ c.n) :
    Valid c (.dense (denseMaxAll vs b i)) ∧
      regs c (.dense (denseMaxAll vs b i)) = updAll vs (regs c (.dense b)) i := by
  induction vs generalizing b i with
  | nil => exact ⟨h, rfl⟩
  | cons v vs ih =>
    simp only [List.length_cons] at hi
    obtain ⟨f1, f2, f3, _⟩ := denseSet_facts h.1 (by rw [h.2]; exact denseLen_le c) (i := i) (v := v)
      (n := c.n) (by omega) (hv v (by simp))
    have := ih (denseSet b i v).1 (i + 1) (fun x hx => hv x (by simp [hx])) ⟨f1, by rw [f2, h.2]⟩
      (by omega)
    refine ⟨this.1, ?_⟩
    rw [denseMaxAll, this.2]
    simp only [regs, f3, updAll]

theorem rawIntoDense_facts {c : Cfg} (vs b : List Nat) (i : Nat) (hv : ∀ v ∈ vs, v < 64)
    (h : Valid c (.dense b)) (hi : i + vs.length ≤ c.n) :
    Valid c (.dense (rawIntoDense vs b i)) ∧
      regs c (.dense (rawIntoDense vs b i)) = updAll vs (regs c (.dense b)) i := by
  induction vs generalizing b i with
  | nil => exact ⟨h, rfl⟩
  | cons v vs ih =>
    simp only [List.length_cons] at hi
    obtain ⟨f1, f2, f3, _⟩ := denseSet_facts h.1 (by rw [h.2]; exact denseLen_le c) (i := i) (v := v)
      (n := c.n) (by omega) (hv v (by simp))
    rw [rawIntoDense]
    by_cases h0 : v = 0
    · rw [if_pos h0]
      have := ih b (i + 1) (fun x hx => hv x (by simp [hx])) h (by omega)
      refine ⟨this.1, ?_⟩
      rw [this.2, updAll, h0, upd_zero]
    · rw [if_neg h0]
      have := ih (denseSet b i v).1 (i + 1) (fun x hx => hv x (by simp [hx])) ⟨f1, by rw [f2, h.2]⟩
        (by omega)
      refine ⟨this.1, ?_⟩
      rw [this.2]
      simp only [regs, f3, updAll]

theorem toDense_facts {c : Cfg} {h : Sketch} (hv : Valid c h.body) :
    ∃ b, toDense c h = some ⟨.dense b, h.cache⟩ ∧ Valid c (.dense b) ∧
      regs c (.dense b) = regs c h.body := by
  obtain ⟨body, cache⟩ := h
  cases body with
  | dense b => exact ⟨b, rfl, hv, rfl⟩
  | sparse l =>
    obtain ⟨b, h1, h2, h3, h4⟩ := toDense_sparse c (h := ⟨.sparse l, cache⟩) rfl hv.1 hv.2
    exact ⟨b, h1, ⟨h2, h3⟩, h4⟩
  | raw r =>
    have hr : r.take c.n = r := List.take_of_length_le (Nat.le_of_eq hv.1)
    have hd : Valid c (.dense (List.replicate (denseLen c) 0)) := ⟨replicate_bytes _, by simp⟩
    obtain ⟨f1, f2⟩ := rawIntoDense_facts r _ 0 hv.2 hd (by rw [hv.1]; omega)
    refine ⟨_, by simp only [toDense, hr], f1, ?_⟩
    rw [f2]
    simp only [regs, denseRegs_zero]
    exact updAll_zeros hv.1

theorem sparseRegs_eq (n : Nat) (l : List Opc) (i : Nat) (h : i + (expand l).length = n) :
    sparseRegs n l i = some (expand l) := by
  induction l generalizing i with
  | nil => simp at h; simp [sparseRegs, h]
  | cons o rest ih =>
    rw [expand_cons] at h
    simp only [List.length_append, List.length_replicate] at h
    have := ih (i + o.span) (by omega)
    cases o with
    | val v k =>
      simp only [Opc.span] at this h
      rw [sparseRegs, if_neg (by omega), this]
      rfl
    | zero k =>
      simp only [Opc.span] at this h
      rw [sparseRegs, this]
      rfl
    | xzero k =>
      simp only [Opc.span] at this h
      rw [sparseRegs, this]
      rfl

theorem readRegs_eq {c : Cfg} {b : Body} (h : Valid c b) : readRegs c b = some (regs c b) := by
  cases b with
  | dense b => rfl
  | sparse l => exact sparseRegs_eq c.n l 0 (by rw [h.2]; omega)
  | raw r => simp [readRegs, regs, List.take_of_length_le (Nat.le_of_eq h.1)]

/-! ### One register -/

/-- The registers, and whether the cached estimate may stay. -/
theorem sparseSet_valid {c : Cfg} {h : Sketch} {l : List Opc} (hb : h.body = .sparse l)
    (hv : Valid c h.body) {i count : Nat} (hi : i < c.n) (h1 : 1 ≤ count) (h63 : count < 64) :
    ∃ h', sparseSet c h l i count = some h' ∧ Valid c h'.body ∧
      regs c h'.body = upd (regs c h.body) i count ∧ (h' = h ∨ h'.cache = none) ∧
      ∀ r, h'.body ≠ .raw r := by
  rw [hb] at hv
  obtain ⟨h', e, hc⟩ := sparseSet_facts c hb hv.1 hv.2 hi h1 h63
  refine ⟨h', e, ?_⟩
  rcases hc with ⟨rfl, hu⟩ | ⟨b, rfl, hb1, hb2, hb3⟩ | ⟨l', rfl, hl1, hl2⟩
  · rw [hb]
    exact ⟨hv, hu.symm, Or.inl rfl, by simp⟩
  · rw [hb]
    exact ⟨⟨hb1, hb2⟩, hb3, Or.inr rfl, by simp⟩
  · rw [hb]
    refine ⟨⟨hl1, by rw [hl2, upd_length]; exact hv.2⟩, hl2, Or.inr rfl, by simp⟩

theorem setOne_facts {c : Cfg} {h : Sketch} (hv : Valid c h.body) (hr : ∀ r, h.body ≠ .raw r) {i v : Nat}
    (hi : i < c.n) (h63 : v < 64) :
    Valid c (setOne c h i v).body ∧ regs c (setOne c h i v).body = upd (regs c h.body) i v ∧
      (∀ r, (setOne c h i v).body ≠ .raw r) ∧
      (h.cache = none ∨ h = init c →
        (setOne c h i v).cache = none ∨ setOne c h i v = init c) := by
  unfold setOne
  by_cases h0 : v = 0
  · rw [if_pos h0, h0, upd_zero]
    exact ⟨hv, rfl, hr, fun h => h⟩
  · rw [if_neg h0]
    obtain ⟨body, cache⟩ := h
    cases body with
    | raw r => exact absurd rfl (hr r)
    | dense b =>
      obtain ⟨f1, f2, f3, _⟩ := denseSet_facts hv.1 (by rw [hv.2]; exact denseLen_le c) (i := i) (v := v)
        (n := c.n) hi h63
      refine ⟨⟨f1, by rw [f2, hv.2]⟩, f3, by simp, fun hc => ?_⟩
      rcases hc with hc | hc
      · exact Or.inl hc
      · simp [init] at hc
    | sparse l =>
      obtain ⟨h', e, g1, g2, g3, g4⟩ := sparseSet_valid (h := ⟨.sparse l, cache⟩) rfl hv hi
        (by omega) h63
      dsimp only
      rw [e, Option.getD_some]
      refine ⟨g1, g2, g4, fun hc => ?_⟩
      rcases g3 with rfl | g3
      · exact hc
      · exact Or.inl g3

theorem setAll_facts {c : Cfg} (vs : List Nat) (h : Sketch) (i : Nat) (hv : Valid c h.body)
    (hr : ∀ r, h.body ≠ .raw r) (hvs : ∀ v ∈ vs, v < 64) (hi : i + vs.length ≤ c.n) :
    Valid c (setAll c vs h i).body ∧ regs c (setAll c vs h i).body = updAll vs (regs c h.body) i ∧
      (∀ r, (setAll c vs h i).body ≠ .raw r) ∧
      (h.cache = none ∨ h = init c →
        (setAll c vs h i).cache = none ∨ setAll c vs h i = init c) := by
  induction vs generalizing h i with
  | nil => exact ⟨hv, rfl, hr, fun h => h⟩
  | cons v vs ih =>
    simp only [List.length_cons] at hi
    obtain ⟨f1, f2, f3, f4⟩ := setOne_facts hv hr (i := i) (v := v) (by omega) (hvs v (by simp))
    obtain ⟨g1, g2, g3, g4⟩ := ih (setOne c h i v) (i + 1) f1 f3 (fun x hx => hvs x (by simp [hx]))
      (by omega)
    rw [setAll]
    exact ⟨g1, by rw [g2, f2, updAll], g3, fun hc => g4 (f4 hc)⟩

/-! ### The whole operations -/

/-- The larger of the values, register by register. -/
def lub (a b : List Nat) : List Nat := updAll b a 0

theorem lub_getD {a b : List Nat} {i : Nat} (h : i < a.length) :
    (lub a b).getD i 0 = max (a.getD i 0) (b.getD i 0) := by
  rw [lub, updAll_getD _ _ _ _ h, if_pos (Nat.zero_le _), Nat.sub_zero]

theorem lub_lt {a b : List Nat} (ha : ∀ x ∈ a, x < 64) (hb : ∀ x ∈ b, x < 64) : ∀ x ∈ lub a b, x < 64 := by
  intro x hx
  obtain ⟨i, hi, rfl⟩ := List.mem_iff_getElem.1 hx
  have hl : i < a.length := by rw [lub, updAll_length] at hi; exact hi
  have e := lub_getD (b := b) hl
  have key : ∀ (l : List Nat), (∀ x ∈ l, x < 64) → l.getD i 0 < 64 := by
    intro l h
    rw [List.getD_eq_getElem?_getD]
    cases hx : l[i]? with
    | none => simp
    | some y => exact h y (List.mem_of_getElem? hx)
  rw [List.getD_eq_getElem?_getD, List.getElem?_eq_getElem hi] at e
  simp only [Option.getD_some] at e
  rw [e]
  exact Nat.max_lt.2 ⟨key a ha, key b hb⟩

theorem mergeAgg_facts {c : Cfg} {h1 h2 : Sketch} (v1 : Valid c h1.body) (v2 : Valid c h2.body)
    (hok : (∃ r, h1.body = .raw r) ∨ ∀ r, h2.body ≠ .raw r) :
    ∃ h, mergeAgg c h1 h2 = .ok h ∧ Valid c h.body ∧
      regs c h.body = lub (regs c h1.body) (regs c h2.body) ∧ h.cache = none := by
  have hl2 := regs_length v2
  have hlt2 := regs_lt v2
  have hdense : (∀ r, h2.body ≠ .raw r) → ∀ b, Valid c (.dense b) → regs c (.dense b) = regs c h1.body →
      toDense c h1 = some ⟨.dense b, h1.cache⟩ → (∀ r, h1.body ≠ .raw r) →
      ∃ h, mergeAgg c h1 h2 = .ok h ∧ Valid c h.body ∧
        regs c h.body = lub (regs c h1.body) (regs c h2.body) ∧ h.cache = none := by
    intro hn b hb hr ht hnr
    obtain ⟨f1, f2⟩ := denseMaxAll_facts (regs c h2.body) b 0 hlt2 hb (by rw [hl2]; omega)
    refine ⟨⟨.dense (denseMaxAll (regs c h2.body) b 0), none⟩, ?_, f1, by rw [f2, hr, lub], rfl⟩
    unfold mergeAgg aggStart
    rw [readRegs_eq v2, ht]
    cases hb1 : h1.body with
    | raw r => exact absurd hb1 (hnr r)
    | dense d =>
      cases hb2 : h2.body with
      | raw r => exact absurd hb2 (hn r)
      | dense d => rfl
      | sparse d => rfl
    | sparse d =>
      cases hb2 : h2.body with
      | raw r => exact absurd hb2 (hn r)
      | dense d => rfl
      | sparse d => rfl
  by_cases hraw : ∃ r, h1.body = .raw r
  · obtain ⟨r, hr⟩ := hraw
    rw [hr] at v1
    refine ⟨⟨.raw (rawMaxAll (regs c h2.body) r 0), none⟩, ?_, ?_, ?_, rfl⟩
    · unfold mergeAgg aggStart
      rw [readRegs_eq v2, hr]
      dsimp only
      rw [hr]
    · rw [rawMaxAll_eq]
      exact ⟨by rw [updAll_length]; exact v1.1, lub_lt v1.2 hlt2⟩
    · rw [rawMaxAll_eq, hr]
      rfl
  · have hn : ∀ r, h2.body ≠ .raw r := by
      rcases hok with hok | hok
      · exact absurd hok hraw
      · exact hok
    obtain ⟨b, t1, t2, t3⟩ := toDense_facts v1
    exact hdense hn b t2 t3 t1 (fun r hr => hraw ⟨r, hr⟩)

theorem lub_self_lub {a b : List Nat} : lub a (lub a b) = lub a b := by
  refine ext_getD (by simp [lub, updAll_length]) (fun j hj => ?_)
  have hl : j < a.length := by simpa [lub, updAll_length] using hj
  rw [lub_getD hl, lub_getD hl]
  omega

theorem merge_facts {c : Cfg} {h1 h2 : Sketch} (v1 : Valid c h1.body) (v2 : Valid c h2.body)
    (hok : (∀ r, h1.body ≠ .raw r) ∨ ∃ b, h2.body = .dense b) :
    ∃ h, merge c h1 h2 = .ok h ∧ Valid c h.body ∧
      regs c h.body = lub (regs c h1.body) (regs c h2.body) ∧ h.cache = none := by
  have hl1 := regs_length v1
  have hl2 := regs_length v2
  obtain ⟨b, t1, t2, t3⟩ := toDense_facts v1
  have hmax : rawMaxAll (regs c h2.body) (rawMaxAll (regs c h1.body) (List.replicate c.n 0) 0) 0 =
      lub (regs c h1.body) (regs c h2.body) := by
    rw [rawMaxAll_eq, rawMaxAll_eq, updAll_zeros hl1, lub]
  have hml : (lub (regs c h1.body) (regs c h2.body)).length = c.n := by rw [lub, updAll_length, hl1]
  have fin : ∀ st : Sketch, Valid c st.body → (∀ r, st.body ≠ .raw r) → regs c st.body = regs c h1.body →
      Valid c (setAll c (lub (regs c h1.body) (regs c h2.body)) st 0).body ∧
        regs c (setAll c (lub (regs c h1.body) (regs c h2.body)) st 0).body =
          lub (regs c h1.body) (regs c h2.body) := by
    intro st s1 s2 s3
    obtain ⟨g1, g2, _⟩ := setAll_facts (lub (regs c h1.body) (regs c h2.body)) st 0 s1 s2
      (lub_lt (regs_lt v1) (regs_lt v2)) (by rw [hml]; omega)
    refine ⟨g1, ?_⟩
    rw [g2, s3, ← lub, lub_self_lub]
  unfold merge
  rw [readRegs_eq v1, readRegs_eq v2]
  dsimp only
  rw [hmax, t1]
  obtain ⟨d1, d2⟩ := fin ⟨.dense b, h1.cache⟩ t2 (by simp) t3
  cases hb1 : h1.body with
  | dense d =>
    simp only [Body.isDense, Bool.true_or, if_true]
    rw [← hb1]
    exact ⟨_, rfl, d1, d2, rfl⟩
  | sparse l =>
    cases hb2 : h2.body with
    | dense d =>
      simp only [Body.isDense, Bool.or_true, if_true]
      rw [← hb1, ← hb2]
      exact ⟨_, rfl, d1, d2, rfl⟩
    | sparse l2 =>
      obtain ⟨s1, s2⟩ := fin h1 v1 (by rw [hb1]; simp) rfl
      simp only [Body.isDense, Bool.or_false, Bool.false_eq_true, if_false]
      rw [← hb1, ← hb2]
      exact ⟨_, rfl, s1, s2, rfl⟩
    | raw r2 =>
      obtain ⟨s1, s2⟩ := fin h1 v1 (by rw [hb1]; simp) rfl
      simp only [Body.isDense, Bool.or_false, Bool.false_eq_true, if_false]
      rw [← hb1, ← hb2]
      exact ⟨_, rfl, s1, s2, rfl⟩
  | raw r =>
    rcases hok with hok | ⟨d, hb2⟩
    · exact absurd hb1 (hok r)
    · rw [hb2]
      simp only [Body.isDense, Bool.or_true, if_true]
      rw [← hb1, ← hb2]
      exact ⟨_, rfl, d1, d2, rfl⟩

theorem merge_not_raw {c : Cfg} {h1 h2 h : Sketch} (v1 : Valid c h1.body) (v2 : Valid c h2.body)
    (hr : ∀ r, h1.body ≠ .raw r) (he : merge c h1 h2 = .ok h) : ∀ r, h.body ≠ .raw r := by
  have hl1 := regs_length v1
  obtain ⟨b, t1, t2, _⟩ := toDense_facts v1
  have hmax : rawMaxAll (regs c h2.body) (rawMaxAll (regs c h1.body) (List.replicate c.n 0) 0) 0 =
      lub (regs c h1.body) (regs c h2.body) := by
    rw [rawMaxAll_eq, rawMaxAll_eq, updAll_zeros hl1, lub]
  have hml : (lub (regs c h1.body) (regs c h2.body)).length = c.n := by rw [lub, updAll_length, hl1]
  have fin : ∀ st : Sketch, Valid c st.body → (∀ r, st.body ≠ .raw r) →
      ∀ r, (setAll c (lub (regs c h1.body) (regs c h2.body)) st 0).body ≠ .raw r := by
    intro st s1 s2
    exact (setAll_facts (lub (regs c h1.body) (regs c h2.body)) st 0 s1 s2
      (lub_lt (regs_lt v1) (regs_lt v2)) (by rw [hml]; omega)).2.2.1
  unfold merge at he
  rw [readRegs_eq v1, readRegs_eq v2] at he
  dsimp only at he
  rw [hmax, t1] at he
  split at he
  · cases he
  · rename_i st hst
    split at hst
    · cases hst
      cases he
      exact fin ⟨.dense b, h1.cache⟩ t2 (by simp)
    · cases hst
      cases he
      exact fin h1 v1 hr

theorem init_valid {c : Cfg} (hc : c.Ok) : Valid c (init c).body := by
  have h1 : 1 ≤ c.n := Nat.one_le_two_pow
  have h2 : c.n ≤ 16384 := by
    have : 2 ^ c.p ≤ 2 ^ 14 := Nat.pow_le_pow_right (by omega) hc.2
    simpa [Cfg.n] using this
  refine ⟨fun o ho => ?_, by simp [expand_cons, Opc.span]⟩
  simp only [List.mem_singleton] at ho
  subst ho
  exact ⟨h1, h2⟩

theorem init_regs (c : Cfg) : regs c (init c).body = List.replicate c.n 0 := by
  simp [regs, init, expand_cons, Opc.span, Opc.value]

theorem rawInit_valid (c : Cfg) : Valid c (rawInit c).body := by
  refine ⟨by simp, fun x hx => ?_⟩
  rw [List.eq_of_mem_replicate hx]
  omega

theorem rawToSparse_facts {c : Cfg} (hc : c.Ok) {h : Sketch} (hv : Valid c h.body) :
    Valid c (rawToSparse c h).body ∧ regs c (rawToSparse c h).body = regs c h.body ∧
      (∀ r, (rawToSparse c h).body ≠ .raw r) ∧
      (rawToSparse c h = h ∨ (rawToSparse c h).cache = none ∨ rawToSparse c h = init c) := by
  unfold rawToSparse
  cases hb : h.body with
  | dense b => rw [hb] at hv; dsimp only; rw [hb]; exact ⟨hv, rfl, by simp, Or.inl rfl⟩
  | sparse l => rw [hb] at hv; dsimp only; rw [hb]; exact ⟨hv, rfl, by simp, Or.inl rfl⟩
  | raw r =>
    rw [hb] at hv
    have hr : r.take c.n = r := List.take_of_length_le (Nat.le_of_eq hv.1)
    dsimp only
    rw [hr]
    obtain ⟨g1, g2, g3, g4⟩ := setAll_facts r (init c) 0 (init_valid hc) (by simp [init]) hv.2
      (by rw [hv.1]; omega)
    refine ⟨g1, ?_, g3, Or.inr (g4 (Or.inr rfl))⟩
    rw [g2, init_regs, updAll_zeros hv.1]
    rfl

/-! ### Ranks -/

theorem patLoop_facts (x : Nat) (fuel j m : Nat) (hm : x.testBit m = true) (h1 : j ≤ m)
    (h2 : m < j + fuel) :
    j + 1 ≤ patLoop x fuel j ∧ patLoop x fuel j ≤ m + 1 ∧ x.testBit (patLoop x fuel j - 1) = true ∧
      ∀ t, j ≤ t → t + 1 < patLoop x fuel j → x.testBit t = false := by
  induction fuel generalizing j with
  | zero => omega
  | succ fuel ih =>
    rw [patLoop]
    by_cases hb : x.testBit j = true
    · rw [if_pos hb]
      exact ⟨by omega, by omega, by simpa using hb, fun t h1 h2 => by omega⟩
    · rw [if_neg hb]
      have hne : j ≠ m := fun h => hb (h ▸ hm)
      obtain ⟨a, b, c, d⟩ := ih (j + 1) (by omega) (by omega)
      refine ⟨by omega, b, c, fun t h1 h2 => ?_⟩
      by_cases ht : t = j
      · subst ht; simpa using hb
      · exact d t (by omega) h2

theorem pat_bit (c : Cfg) (h j : Nat) :
    ((h >>> c.p) ||| (1 <<< (64 - c.p))).testBit j = (h.testBit (c.p + j) || decide (j = 64 - c.p)) := by
  rw [Nat.testBit_or, Nat.testBit_shiftRight, Nat.testBit_shiftLeft]
  congr 1
  by_cases h1 : j = 64 - c.p
  · subst h1; simp
  · by_cases h2 : j ≥ 64 - c.p
    · have : (1:Nat).testBit (j - (64 - c.p)) = false := by
        rw [Nat.testBit_lt_two_pow]
        have : (2:Nat) ^ 1 ≤ 2 ^ (j - (64 - c.p)) := Nat.pow_le_pow_right (by omega) (by omega)
        omega
      simp [h1, this]
    · simp [h1, h2]

theorem patLen_isRank {c : Cfg} (hc : c.Ok) (h : Nat) : IsRank c h (patLen c h) := by
  obtain ⟨hc1, hc2⟩ := hc
  obtain ⟨a, b, e, d⟩ := patLoop_facts ((h >>> c.p) ||| (1 <<< (64 - c.p))) 64 0 (64 - c.p)
    (by rw [pat_bit]; simp) (by omega) (by omega)
  refine ⟨by unfold patLen; omega, by unfold patLen; omega, fun j hj => ?_, ?_⟩
  · have := d j (by omega) hj
    rw [pat_bit] at this
    simp only [Bool.or_eq_false_iff] at this
    exact this.1
  · rw [pat_bit] at e
    simp only [Bool.or_eq_true, decide_eq_true_eq] at e
    unfold patLen
    rcases e with e | e
    · exact Or.inr e
    · left; omega

theorem isRank_unique {c : Cfg} {h k1 k2 : Nat} (h1 : IsRank c h k1) (h2 : IsRank c h k2) : k1 = k2 := by
  obtain ⟨a1, a2, a3, a4⟩ := h1
  obtain ⟨b1, b2, b3, b4⟩ := h2
  rcases Nat.lt_trichotomy k1 k2 with hlt | rfl | hlt
  · rcases a4 with a4 | a4
    · omega
    · have := b3 (k1 - 1) (by omega)
      rw [this] at a4
      cases a4
  · rfl
  · rcases b4 with b4 | b4
    · omega
    · have := a3 (k2 - 1) (by omega)
      rw [this] at b4
      cases b4

theorem index_eq (c : Cfg) (h : Nat) : index c h = h % 2 ^ c.p := by
  unfold index
  exact Nat.and_two_pow_sub_one_eq_mod h c.p

theorem index_lt (c : Cfg) (h : Nat) : index c h < c.n := by
  rw [index_eq]
  exact Nat.mod_lt _ (Nat.two_pow_pos _)

theorem patLen_bounds {c : Cfg} (hc : c.Ok) (h : Nat) : 1 ≤ patLen c h ∧ patLen c h < 64 := by
  have := patLen_isRank hc h
  exact ⟨this.1, by have h1 := this.2.1; have h2 := hc.1; omega⟩

theorem add_facts {c : Cfg} (hc : c.Ok) {h : Sketch} (hv : Valid c h.body) (x : Nat) :
    ∃ h', add c h x = some h' ∧ Valid c h'.body ∧
      regs c h'.body = upd (regs c h.body) (index c x) (patLen c x) ∧ (h' = h ∨ h'.cache = none) := by
  obtain ⟨hp1, hp2⟩ := patLen_bounds hc x
  have hi := index_lt c x
  unfold add
  obtain ⟨body, cache⟩ := h
  cases body with
  | dense b =>
    obtain ⟨f1, f2, f3, f4, f5⟩ := denseSet_facts hv.1 (by rw [hv.2]; exact denseLen_le c)
      (i := index c x) (v := patLen c x) (n := c.n) hi hp2
    dsimp only
    generalize hd : denseSet b (index c x) (patLen c x) = d at *
    obtain ⟨d1, d2⟩ := d
    simp only at f1 f2 f3 f4 f5
    cases d2 with
    | true => exact ⟨_, rfl, ⟨f1, by rw [f2]; exact hv.2⟩, f3, Or.inr rfl⟩
    | false =>
      refine ⟨_, rfl, hv, ?_, Or.inl rfl⟩
      simp only [regs]
      rw [← f3, f5 rfl]
  | sparse l =>
    obtain ⟨h', e, g1, g2, g3, _⟩ := sparseSet_valid (h := ⟨.sparse l, cache⟩) rfl hv hi hp1 hp2
    exact ⟨h', e, g1, g2, g3⟩
  | raw r =>
    dsimp only
    by_cases hlt : r.getD (index c x) 0 < patLen c x
    · rw [if_pos hlt]
      have e : upd r (index c x) (patLen c x) = r.set (index c x) (patLen c x) := by
        rw [upd, Nat.max_eq_right (by omega)]
      refine ⟨_, rfl, ⟨by simp [hv.1], fun y hy => ?_⟩, e.symm, Or.inr rfl⟩
      rcases List.mem_or_eq_of_mem_set hy with hy | rfl
      · exact hv.2 y hy
      · exact hp2
    · rw [if_neg hlt]
      exact ⟨_, rfl, hv, (upd_le (r := r) (by omega)).symm, Or.inl rfl⟩

/-! ### Registers of a set of hashes -/

theorem isReg_append {c : Cfg} {s1 s2 : List Nat} {i r1 r2 : Nat} (h1 : IsReg c s1 i r1)
    (h2 : IsReg c s2 i r2) : IsReg c (s1 ++ s2) i (max r1 r2) := by
  rcases h1 with ⟨a1, rfl⟩ | ⟨⟨x1, m1, e1, k1⟩, u1⟩
  · rw [Nat.zero_max]
    rcases h2 with ⟨b1, rfl⟩ | ⟨⟨x2, m2, e2, k2⟩, u2⟩
    · left
      refine ⟨fun h hm => ?_, rfl⟩
      rcases List.mem_append.1 hm with hm | hm
      · exact a1 h hm
      · exact b1 h hm
    · right
      refine ⟨⟨x2, by simp [m2], e2, k2⟩, fun h hm he => ?_⟩
      rcases List.mem_append.1 hm with hm | hm
      · exact absurd he (a1 h hm)
      · exact u2 h hm he
  · rcases h2 with ⟨b1, rfl⟩ | ⟨⟨x2, m2, e2, k2⟩, u2⟩
    · rw [Nat.max_zero]
      right
      refine ⟨⟨x1, by simp [m1], e1, k1⟩, fun h hm he => ?_⟩
      rcases List.mem_append.1 hm with hm | hm
      · exact u1 h hm he
      · exact absurd he (b1 h hm)
    · right
      constructor
      · rcases Nat.le_total r1 r2 with hle | hle
        · rw [Nat.max_eq_right hle]
          exact ⟨x2, by simp [m2], e2, k2⟩
        · rw [Nat.max_eq_left hle]
          exact ⟨x1, by simp [m1], e1, k1⟩
      · intro h hm he k hk
        rcases List.mem_append.1 hm with hm | hm
        · exact Nat.le_trans (u1 h hm he k hk) (Nat.le_max_left _ _)
        · exact Nat.le_trans (u2 h hm he k hk) (Nat.le_max_right _ _)

theorem sketchOf_nil (c : Cfg) : SketchOf c [] (List.replicate c.n 0) := by
  refine ⟨by simp [Cfg.n], fun i hi => Or.inl ⟨by simp, ?_⟩⟩
  rw [List.getD_eq_getElem?_getD, List.getElem?_replicate]
  by_cases h : i < c.n <;> simp [h]

theorem sketchOf_lub {c : Cfg} {s1 s2 r1 r2 : List Nat} (h1 : SketchOf c s1 r1) (h2 : SketchOf c s2 r2) :
    SketchOf c (s1 ++ s2) (lub r1 r2) := by
  refine ⟨by rw [lub, updAll_length, h1.1], fun i hi => ?_⟩
  rw [lub_getD (by rw [h1.1]; exact hi)]
  exact isReg_append (h1.2 i hi) (h2.2 i hi)

theorem sketchOf_add {c : Cfg} (hc : c.Ok) {s r : List Nat} (h : SketchOf c s r) (x : Nat) :
    SketchOf c (x :: s) (upd r (index c x) (patLen c x)) := by
  refine ⟨by rw [upd_length, h.1], fun i hi => ?_⟩
  rw [getD_upd]
  have hk := patLen_isRank hc x
  have e : x :: s = [x] ++ s := rfl
  by_cases hx : index c x = i
  · rw [if_pos ⟨hx, by rw [h.1]; exact hi⟩, e, Nat.max_comm]
    refine isReg_append (Or.inr ⟨⟨x, by simp, by rw [← index_eq]; exact hx, hk⟩, ?_⟩) (h.2 i hi)
    intro y hy _ k hky
    simp only [List.mem_singleton] at hy
    subst hy
    rw [isRank_unique hky hk]
    exact Nat.le_refl _
  · rw [if_neg (fun y => hx y.1), e]
    have := isReg_append (c := c) (s1 := [x]) (i := i) (r1 := 0) (Or.inl ⟨by
      intro y hy hyi
      simp only [List.mem_singleton] at hy
      subst hy
      exact hx (by rw [index_eq]; exact hyi), rfl⟩) (h.2 i hi)
    rwa [Nat.zero_max] at this

theorem sketchOf_unique {c : Cfg} {s1 s2 r1 r2 : List Nat} (hs : ∀ x, x ∈ s1 ↔ x ∈ s2)
    (h1 : SketchOf c s1 r1) (h2 : SketchOf c s2 r2) : r1 = r2 := by
  refine ext_getD (by rw [h1.1, h2.1]) (fun i hi => ?_)
  rw [h1.1] at hi
  rcases h1.2 i hi with ⟨a1, e1⟩ | ⟨⟨x1, m1, e1, k1⟩, u1⟩ <;>
    rcases h2.2 i hi with ⟨b1, f1⟩ | ⟨⟨x2, m2, f2, k2⟩, u2⟩
  · rw [e1, f1]
  · exact absurd f2 (a1 x2 ((hs x2).2 m2))
  · exact absurd e1 (b1 x1 ((hs x1).1 m1))
  · exact Nat.le_antisymm (u2 x1 ((hs x1).1 m1) e1 _ k1) (u1 x2 ((hs x2).2 m2) f2 _ k2)

/-! ### Histograms -/

/-- `g` with the counts of `r` more. -/
def AddHist (g r g' : List Nat) : Prop :=
  g'.length = g.length ∧ ∀ k, k < g.length → g'.getD k 0 = g.getD k 0 + r.count k

theorem addHist_nil (g : List Nat) : AddHist g [] g := ⟨rfl, by simp⟩

theorem addHist_trans {g r1 g1 r2 g2 : List Nat} (h1 : AddHist g r1 g1) (h2 : AddHist g1 r2 g2) :
    AddHist g (r1 ++ r2) g2 := by
  refine ⟨by rw [h2.1, h1.1], fun k hk => ?_⟩
  rw [h2.2 k (by rw [h1.1]; exact hk), h1.2 k hk, List.count_append]
  omega

theorem addHist_bump (g : List Nat) (k n : Nat) : AddHist g (List.replicate n k) (bump g k n) := by
  refine ⟨by simp [bump], fun j hj => ?_⟩
  rw [bump, getD_set, List.count_replicate]
  by_cases h : k = j
  · subst h
    rw [if_pos ⟨rfl, hj⟩]
    simp
  · rw [if_neg (fun x => h x.1)]
    simp [h]

theorem rawHisto_facts (r g : List Nat) : AddHist g r (rawHisto r g) := by
  induction r generalizing g with
  | nil => exact addHist_nil g
  | cons v rest ih => exact addHist_trans (addHist_bump g v 1) (ih _)

theorem sparseHisto_facts (l : List Opc) (g : List Nat) : AddHist g (expand l) (sparseHisto l g) := by
  induction l generalizing g with
  | nil => exact addHist_nil g
  | cons o rest ih =>
    rw [expand_cons]
    cases o with
    | val v k => exact addHist_trans (addHist_bump g v k) (ih _)
    | zero k => exact addHist_trans (addHist_bump g 0 k) (ih _)
    | xzero k => exact addHist_trans (addHist_bump g 0 k) (ih _)

theorem denseGet_shift (b0 b1 b2 : Nat) (rest : List Nat) (i : Nat) :
    denseGet (b0 :: b1 :: b2 :: rest) (i + 4) = denseGet rest i := by
  unfold denseGet
  have e1 : (i + 4) * 6 / 8 = i * 6 / 8 + 3 := by omega
  have e2 : (i + 4) * 6 % 8 = i * 6 % 8 := by omega
  rw [e1, e2]
  simp [List.getD_eq_getElem?_getD]

theorem denseRegs_group (b0 b1 b2 : Nat) (rest : List Nat) (n : Nat) :
    denseRegs (n + 4) (b0 :: b1 :: b2 :: rest) =
      [b0 &&& 63, ((b0 >>> 6) ||| (b1 <<< 2)) &&& 63, ((b1 >>> 4) ||| (b2 <<< 4)) &&& 63,
        (b2 >>> 2) &&& 63] ++ denseRegs n rest := by
  have e : List.range (n + 4) = [0, 1, 2, 3] ++ (List.range n).map (· + 4) := by
    have : n + 4 = 4 + n := by omega
    rw [this, List.range_add]
    have h4 : List.range 4 = [0, 1, 2, 3] := rfl
    rw [h4]
    congr 1
    exact List.map_congr_left (fun a _ => Nat.add_comm 4 a)
  unfold denseRegs
  rw [e, List.map_append, List.map_map]
  have e2 : (List.range n).map (denseGet (b0 :: b1 :: b2 :: rest) ∘ (· + 4)) =
      (List.range n).map (denseGet rest) :=
    List.map_congr_left (fun i _ => denseGet_shift b0 b1 b2 rest i)
  rw [e2]
  congr 1
  have high : ∀ (x y k : Nat), 6 ≤ k → (x ||| y <<< k) &&& 63 = x &&& 63 := by
    intro x y k hk
    apply Nat.eq_of_testBit_eq
    intro j
    rw [Nat.testBit_and, Nat.testBit_and, Nat.testBit_or, Nat.testBit_shiftLeft, t63]
    by_cases hj : j < 6
    · have : ¬ (j ≥ k) := by omega
      simp [this]
    · simp [hj]
  have e0 : denseGet (b0 :: b1 :: b2 :: rest) 0 = ((b0 >>> 0) ||| (b1 <<< 8)) &&& 63 := rfl
  have e1 : denseGet (b0 :: b1 :: b2 :: rest) 1 = ((b0 >>> 6) ||| (b1 <<< 2)) &&& 63 := rfl
  have e2 : denseGet (b0 :: b1 :: b2 :: rest) 2 = ((b1 >>> 4) ||| (b2 <<< 4)) &&& 63 := rfl
  have e3 : denseGet (b0 :: b1 :: b2 :: rest) 3 = ((b2 >>> 2) ||| (rest.getD 0 0 <<< 6)) &&& 63 := rfl
  rw [List.map_cons, List.map_cons, List.map_cons, List.map_cons, List.map_nil, e0, e1, e2, e3,
    high _ _ 8 (by omega), high _ _ 6 (by omega), Nat.shiftRight_zero]

theorem denseHisto_facts (n : Nat) (b g : List Nat) (hb : Bytes b) (hl : b.length = 3 * n) :
    AddHist g (denseRegs (4 * n) b) (denseHisto b g) := by
  induction n generalizing b g with
  | zero =>
    have : b = [] := List.eq_nil_of_length_eq_zero (by omega)
    subst this
    exact addHist_nil g
  | succ n ih =>
    match b, hl with
    | b0 :: b1 :: b2 :: rest, hl =>
      have hr : Bytes rest := fun x hx => hb x (by simp [hx])
      rw [show 4 * (n + 1) = 4 * n + 4 by omega, denseRegs_group, denseHisto]
      refine addHist_trans ?_ (ih rest _ hr (by simp at hl; omega))
      exact addHist_trans (addHist_trans (addHist_trans (addHist_bump g _ 1) (addHist_bump _ _ 1))
        (addHist_bump _ _ 1)) (addHist_bump _ _ 1)

theorem histo_facts {c : Cfg} (hc : c.Ok) {b : Body} (hv : Valid c b) : Histogram (regs c b) (histo b) := by
  have key : ∀ r g, AddHist (List.replicate 64 0) r g → Histogram r g := by
    intro r g h
    refine ⟨by rw [h.1]; simp, fun k hk => ?_⟩
    rw [h.2 k (by simpa using hk), List.getD_eq_getElem?_getD, List.getElem?_replicate, if_pos hk]
    simp
  cases b with
  | dense b =>
    refine key _ _ ?_
    have hn : c.n = 4 * 2 ^ (c.p - 2) := by
      have h2 := hc.1
      unfold Cfg.n
      rw [show (4:Nat) = 2 ^ 2 from rfl, ← Nat.pow_add]
      congr 1
      omega
    have hl : b.length = 3 * 2 ^ (c.p - 2) := by
      rw [hv.2, denseLen, hn]
      omega
    have := denseHisto_facts (2 ^ (c.p - 2)) b (List.replicate 64 0) hv.1 hl
    rw [← hn] at this
    exact this
  | sparse l => exact key _ _ (sparseHisto_facts l _)
  | raw r => exact key _ _ (rawHisto_facts r _)

theorem histogram_unique {r g1 g2 : List Nat} (h1 : Histogram r g1) (h2 : Histogram r g2) : g1 = g2 := by
  refine ext_getD (by rw [h1.1, h2.1]) (fun i hi => ?_)
  rw [h1.1] at hi
  rw [h1.2 i hi, h2.2 i hi]

end BaikalDB.Hll
