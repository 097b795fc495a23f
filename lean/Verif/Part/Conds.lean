import Verif.Part.Lemmas

/-!
# Partitioned tables: what the conditions leave in the map
-/

namespace BaikalDB.Part

/-- The values of an equality contain the value of the row. -/
def InvE (x : Option Int) (fr : FieldRange) : Prop :=
  fr.type ≠ .likePrefix → fr.eqIn ≠ [] → ∃ n, x = some n ∧ Val.num n ∈ fr.eqIn

/-- The bounds of a range are bounds of the value of the row. -/
def InvR (x : Option Int) (fr : FieldRange) : Prop :=
  (∀ y, fr.left.head? = some y → ∃ n, x = some n ∧ y ≤ n) ∧
    ∀ y, fr.right.head? = some y → ∃ n, x = some n ∧ n ≤ y ∧ (fr.rightOpen = true → n < y)

/-- The literal part of a prefix is not in the map. -/
def InvP (fr : FieldRange) : Prop := fr.type ≠ .likePrefix

theorem invE_default (x : Option Int) : InvE x {} := by intro _ h; exact absurd rfl h
theorem invR_default (x : Option Int) : InvR x {} := ⟨by simp, by simp⟩
theorem invP_default : InvP {} := by simp [InvP]

theorem invE_asRange {x : Option Int} {fr : FieldRange} (h : InvE x fr) : InvE x (asRange fr) := by
  unfold asRange; split
  · exact invE_default x
  · exact h
theorem invR_asRange {x : Option Int} {fr : FieldRange} (h : InvR x fr) : InvR x (asRange fr) := by
  unfold asRange; split
  · exact invR_default x
  · exact h
theorem type_asRange (fr : FieldRange) :
    (asRange fr).type = .range ∨ asRange fr = {} := by
  unfold asRange; split
  · exact Or.inr rfl
  · rename_i h; exact Or.inl (by simpa using h)
theorem invP_asRange (fr : FieldRange) : InvP (asRange fr) := by
  rcases type_asRange fr with h | h
  · simp [InvP, h]
  · rw [h]; exact invP_default

theorem row_eq_zip {r : Nat → Option Int} : ∀ {fs : List Nat} {vs : List Int},
    RowHolds r fs .eq vs → ∀ cv ∈ fs.zip vs, r cv.1 = some cv.2
  | [], [], _, cv, h => by simp at h
  | [], _ :: _, h, _, _ => h.elim
  | _ :: _, [], h, _, _ => h.elim
  | c :: fs, v :: vs, h, cv, hcv => by
    obtain ⟨n, hn, h⟩ := h
    rcases h with ⟨h1, h2⟩ | ⟨rfl, h⟩
    · exact absurd h2 h1
    · rcases List.mem_cons.1 hcv with rfl | hcv
      · exact hn
      · exact row_eq_zip h cv hcv

theorem row_eq_columns {r : Nat → Option Int} : ∀ {fs : List Nat} {t : List Int}
    {ts : List (List Int)}, RowHolds r fs .eq t → t ∈ ts →
    ∀ cv ∈ columns fs ts, ∃ n, r cv.1 = some n ∧ n ∈ cv.2
  | [], _, _, _, _, cv, h => by simp [columns] at h
  | _ :: _, [], _, h, _, _, _ => h.elim
  | c :: fs, v :: vs, ts, h, ht, cv, hcv => by
    obtain ⟨n, hn, h⟩ := h
    rcases h with ⟨h1, h2⟩ | ⟨rfl, h⟩
    · exact absurd h2 h1
    · rcases List.mem_cons.1 hcv with rfl | hcv
      · exact ⟨n, hn, List.mem_filterMap.2 ⟨_, ht, rfl⟩⟩
      · exact row_eq_columns h (List.mem_map.2 ⟨_, ht, rfl⟩) cv hcv

theorem row_head {r : Nat → Option Int} {f : Nat} {fs : List Nat} {op : Cmp} {vs : List Int}
    (h : RowHolds r fs op vs) (hf : fs.head? = some f) :
    ∃ n v vs', r f = some n ∧ vs = v :: vs' ∧
      ((n ≠ v ∧ CmpHolds op n v) ∨ (n = v ∧ (vs' = [] → op = .eq ∨ op = .ge ∨ op = .le))) := by
  rcases fs with _ | ⟨c, fs⟩
  · cases hf
  · cases hf
    rcases vs with _ | ⟨v, vs⟩
    · exact h.elim
    · obtain ⟨n, hn, h⟩ := h
      refine ⟨n, v, vs, hn, rfl, ?_⟩
      rcases h with h | ⟨h1, h2⟩
      · exact Or.inl h
      · refine Or.inr ⟨h1, ?_⟩
        rintro rfl
        rcases fs with _ | ⟨c', fs⟩
        · exact h2
        · exact h2.elim

/-! ### Lifting to the entry -/

def OptInv (P : FieldRange → Prop) (m : Option FieldRange) : Prop := ∀ fr, m = some fr → P fr

theorem OptInv.getD {P : FieldRange → Prop} {m : Option FieldRange} (h : OptInv P m) (hd : P {}) :
    P (m.getD {}) := by
  rcases m with _ | fr
  · exact hd
  · exact h fr rfl

theorem OptInv.some {P : FieldRange → Prop} {fr : FieldRange} (h : P fr) :
    OptInv P (Option.some fr) := by
  intro g hg; cases hg; exact h

theorem foldl_inv {α β : Type} {Q : α → Prop} {g : α → β → α} :
    ∀ (l : List β) (a : α), Q a → (∀ a, ∀ b ∈ l, Q a → Q (g a b)) → Q (l.foldl g a)
  | [], _, h, _ => h
  | b :: l, a, h, hs =>
    foldl_inv l _ (hs a b (List.mem_cons_self ..) h)
      fun a' b' hb => hs a' b' (List.mem_cons_of_mem _ hb)

/-! ### The equalities -/

theorem invE_hitCmp {x : Option Int} {fr : FieldRange} {op : Cmp} {v : Int} (h : InvE x fr)
    (hs : ∃ n, x = some n ∧ CmpHolds op n v) : InvE x (hitCmp fr op v) := by
  obtain ⟨n, hx, hc⟩ := hs
  have ha := invE_asRange h
  have hb : ∀ {fr' : FieldRange}, fr'.type = .range → fr'.eqIn = (asRange fr).eqIn → InvE x fr' := by
    intro fr' h1 h2 h3 h4
    rw [h2] at h4 ⊢
    exact ha (invP_asRange fr) h4
  cases op <;> unfold hitCmp <;> simp only
  · split
    · exact h
    · intro _ _
      simp only [CmpHolds] at hc
      subst hc
      exact ⟨n, hx, by simp⟩
  all_goals
    split
    · exact h
    · split
      · exact ha
      · exact hb rfl rfl

theorem invE_hitIn {x : Option Int} {fr : FieldRange} {vs : List Int} (h : InvE x fr)
    (hs : ∃ n, x = some n ∧ n ∈ vs) : InvE x (hitIn fr vs) := by
  obtain ⟨n, hx, hn⟩ := hs
  unfold hitIn
  split
  · split
    · exact h
    · intro _ _
      exact ⟨n, hx, List.mem_map.2 ⟨n, hn, rfl⟩⟩
  · exact h

theorem invE_hitRowCmp {x : Option Int} {fr : FieldRange} {op : Cmp} {vs : List Int}
    (h : InvE x fr) : InvE x (hitRowCmp fr op vs) := by
  have ha := invE_asRange h
  have hb : ∀ {fr' : FieldRange}, fr'.type = .range → fr'.eqIn = (asRange fr).eqIn → InvE x fr' := by
    intro fr' h1 h2 h3 h4
    rw [h2] at h4 ⊢
    exact ha (invP_asRange fr) h4
  cases op <;> unfold hitRowCmp <;> simp only
  · exact h
  all_goals
    split
    · exact h
    · split
      · exact h
      · exact hb rfl rfl

theorem hit_row_ne {f : Nat} {m : Option FieldRange} {fs : List Nat} {op : Cmp} {vs : List Int}
    (h : op ≠ .eq) : hit f m (.rowCmp fs op vs) =
      if fs.head? = some f then some (hitRowCmp (m.getD {}) op vs) else m := by
  cases op <;> first | exact absurd rfl h | rfl

theorem optE_hit {r : Nat → Option Int} {f : Nat} {m : Option FieldRange} {c : Cond}
    (h : OptInv (InvE (r f)) m) (hs : Sat r c) (hp : PlainHash f c) :
    OptInv (InvE (r f)) (hit f m c) := by
  have hg := h.getD (invE_default (r f))
  rcases c with ⟨c, op, v⟩ | ⟨c, vs⟩ | ⟨fs, op, vs⟩ | ⟨fs, ts⟩ | ⟨c, k, s, a⟩ | _
  · simp only [hit]
    split
    · rename_i hc; subst hc
      exact .some (invE_hitCmp hg hs)
    · exact h
  · simp only [hit]
    split
    · rename_i hc; obtain ⟨rfl, _⟩ := hc
      exact .some (invE_hitIn hg hs)
    · exact h
  · by_cases ho : op = .eq
    · subst ho
      simp only [hit]
      refine foldl_inv (Q := OptInv (InvE (r f))) _ m h ?_
      intro m' cv hcv hm
      unfold hitRowEq
      split
      · rename_i hc
        have := row_eq_zip hs cv hcv
        rw [hc] at this
        exact .some fun _ _ => ⟨cv.2, this, by simp⟩
      · exact hm
    · rw [hit_row_ne ho]
      split
      · exact .some (invE_hitRowCmp hg)
      · exact h
  · simp only [hit]
    split
    · exact h
    · refine foldl_inv (Q := OptInv (InvE (r f))) _ m h ?_
      intro m' cv hcv hm
      obtain ⟨t, ht, hrow⟩ := hs
      obtain ⟨n, hn, hnc⟩ := row_eq_columns hrow ht cv hcv
      unfold hitRowIn
      split
      · rename_i hc
        rw [hc] at hn
        split
        · exact .some (hm.getD (invE_default _))
        · exact .some fun _ _ => ⟨n, hn, List.mem_map.2 ⟨n, hnc, rfl⟩⟩
      · exact hm
  · simp only [hit]
    split
    · rename_i hc
      have hk := hp hc
      refine .some ?_
      cases k
      · exact absurd rfl hk
      · unfold hitLike
        simp only
        split
        · exact hg
        · intro h1; exact absurd rfl h1
      · unfold hitLike
        simp only
        split
        · exact hg
        · intro _ h2; exact absurd rfl h2
    · exact h
  · exact h

/-! ### The bounds -/

theorem invR_hitCmp {x : Option Int} {fr : FieldRange} {op : Cmp} {v : Int} (h : InvR x fr)
    (hs : ∃ n, x = some n ∧ CmpHolds op n v) : InvR x (hitCmp fr op v) := by
  obtain ⟨n, hx, hc⟩ := hs
  have ha := invR_asRange h
  cases op <;> unfold hitCmp <;> simp only [CmpHolds] at hc ⊢
  · split
    · exact h
    · exact invR_default x
  all_goals
    split
    · exact h
    · split
      · exact ha
      · first
          | refine ⟨?_, ha.2⟩
            intro y hy
            simp only [List.head?_cons, Option.some.injEq] at hy
            exact ⟨n, hx, by omega⟩
          | refine ⟨ha.1, ?_⟩
            intro y hy
            simp only [List.head?_cons, Option.some.injEq] at hy
            subst hy
            exact ⟨n, hx, by omega, by simp <;> omega⟩

theorem invR_hitIn {x : Option Int} {fr : FieldRange} {vs : List Int} (h : InvR x fr) :
    InvR x (hitIn fr vs) := by
  unfold hitIn
  split
  · split
    · exact h
    · exact invR_default x
  · exact h

theorem optR_hit {r : Nat → Option Int} {f : Nat} {m : Option FieldRange} {c : Cond}
    (h : OptInv (InvR (r f)) m) (hs : Sat r c) (hp : Plain f c) :
    OptInv (InvR (r f)) (hit f m c) := by
  have hg := h.getD (invR_default (r f))
  rcases c with ⟨c, op, v⟩ | ⟨c, vs⟩ | ⟨fs, op, vs⟩ | ⟨fs, ts⟩ | ⟨c, k, s, a⟩ | _
  · simp only [hit]
    split
    · rename_i hc; subst hc
      exact .some (invR_hitCmp hg hs)
    · exact h
  · simp only [hit]
    split
    · exact .some (invR_hitIn hg)
    · exact h
  · by_cases ho : op = .eq
    · subst ho
      simp only [hit]
      refine foldl_inv (Q := OptInv (InvR (r f))) _ m h ?_
      intro m' cv hcv hm
      unfold hitRowEq
      split
      · exact .some (hm.getD (invR_default _))
      · exact hm
    · rw [hit_row_ne ho]
      split
      · rename_i hf
        refine .some ?_
        obtain ⟨n, v, vs', hn, rfl, hv⟩ := row_head hs hf
        have ha := invR_asRange hg
        cases op
        · exact absurd rfl ho
        all_goals
          unfold hitRowCmp
          simp only
          split
          · exact hg
          · split
            · exact hg
            · first
                | refine ⟨?_, ha.2⟩
                  intro y hy
                  simp only [List.head?_cons, Option.some.injEq] at hy
                  refine ⟨n, hn, ?_⟩
                  rcases hv with ⟨_, hv⟩ | ⟨hv, _⟩
                  · simp only [CmpHolds] at hv; omega
                  · omega
                | refine ⟨ha.1, ?_⟩
                  intro y hy
                  simp only [List.head?_cons, Option.some.injEq] at hy
                  subst hy
                  refine ⟨n, hn, ?_, ?_⟩
                  · rcases hv with ⟨_, hv⟩ | ⟨hv, _⟩
                    · simp only [CmpHolds] at hv; omega
                    · omega
                  · intro hop
                    rcases hv with ⟨_, hv⟩ | ⟨hv, he⟩
                    · simp only [CmpHolds] at hv
                      simp at hop <;> omega
                    · simp only [decide_eq_true_eq, reduceCtorEq] at hop
                      all_goals
                        have hl := hp hf
                        simp only [List.length_cons, Nat.add_eq_right, List.length_eq_zero_iff] at hl
                        have := he hl
                        simp at this
      · exact h
  · simp only [hit]
    split
    · exact h
    · refine foldl_inv (Q := OptInv (InvR (r f))) _ m h ?_
      intro m' cv hcv hm
      unfold hitRowIn
      split
      · split
        · exact .some (hm.getD (invR_default _))
        · exact .some (hm.getD (invR_default _))
      · exact hm
  · simp only [hit]
    split
    · refine .some ?_
      cases k <;> unfold hitLike <;> simp only <;> split <;>
        first | exact hg | exact invR_default _
    · exact h
  · exact h

/-! ### No prefix -/

theorem optP_hit {f : Nat} {m : Option FieldRange} {c : Cond}
    (h : OptInv InvP m) (hp : Plain f c) : OptInv InvP (hit f m c) := by
  have hg := h.getD invP_default
  rcases c with ⟨c, op, v⟩ | ⟨c, vs⟩ | ⟨fs, op, vs⟩ | ⟨fs, ts⟩ | ⟨c, k, s, a⟩ | _
  · simp only [hit]
    split
    · refine .some ?_
      cases op <;> unfold hitCmp <;> simp only <;> split <;> first
        | exact hg
        | (split <;> first | exact invP_asRange _ | simp [InvP])
        | simp [InvP]
    · exact h
  · simp only [hit]
    split
    · refine .some ?_
      unfold hitIn
      split
      · split
        · exact hg
        · unfold InvP; simp only; split <;> simp
      · exact hg
    · exact h
  · by_cases ho : op = .eq
    · subst ho
      simp only [hit]
      refine foldl_inv (Q := OptInv InvP) _ m h ?_
      intro m' cv hcv hm
      unfold hitRowEq
      split
      · exact .some (by simp [InvP])
      · exact hm
    · rw [hit_row_ne ho]
      split
      · refine .some ?_
        cases op <;> unfold hitRowCmp <;> simp only <;> first
          | exact hg
          | (split <;> first | exact hg | (split <;> first | exact hg | simp [InvP]))
      · exact h
  · simp only [hit]
    split
    · exact h
    · refine foldl_inv (Q := OptInv InvP) _ m h ?_
      intro m' cv hcv hm
      unfold hitRowIn
      split
      · split
        · exact .some (hm.getD invP_default)
        · refine .some ?_
          unfold InvP; simp only; split <;> simp
      · exact hm
  · simp only [hit]
    split
    · rename_i hc
      have hk := hp hc
      subst hk
      refine .some ?_
      unfold hitLike
      simp only
      split
      · exact hg
      · simp [InvP]
    · exact h
  · exact h

theorem hitAll_invE {r : Nat → Option Int} {f : Nat} {cs : List Cond} (hs : ∀ c ∈ cs, Sat r c)
    (hp : ∀ c ∈ cs, PlainHash f c) : OptInv (InvE (r f)) (hitAll f cs) :=
  foldl_inv (Q := OptInv (InvE (r f))) cs none (by intro _ h; cases h)
    fun _ c hc h => optE_hit h (hs c hc) (hp c hc)

theorem hitAll_invR {r : Nat → Option Int} {f : Nat} {cs : List Cond} (hs : ∀ c ∈ cs, Sat r c)
    (hp : ∀ c ∈ cs, Plain f c) : OptInv (InvR (r f)) (hitAll f cs) :=
  foldl_inv (Q := OptInv (InvR (r f))) cs none (by intro _ h; cases h)
    fun _ c hc h => optR_hit h (hs c hc) (hp c hc)

theorem hitAll_invP {f : Nat} {cs : List Cond} (hp : ∀ c ∈ cs, Plain f c) :
    OptInv InvP (hitAll f cs) :=
  foldl_inv (Q := OptInv InvP) cs none (by intro _ h; cases h)
    fun _ c hc h => optP_hit h (hp c hc)

theorem plainHash_of_plain {f : Nat} {c : Cond} (h : Plain f c) : PlainHash f c := by
  rcases c with ⟨c, op, v⟩ | ⟨c, vs⟩ | ⟨fs, op, vs⟩ | ⟨fs, ts⟩ | ⟨c, k, s, a⟩ | _ <;>
    try trivial
  intro hc
  rw [h hc]
  simp

end BaikalDB.Part
