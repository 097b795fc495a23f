import Verif.Binlog.Spec

/-! The ordered maps, and what the state of a peer says about what it has applied. -/

namespace BaikalDB.Binlog

/-! ## Ordered maps -/

def Asc {α : Type} (l : List (Int × α)) : Prop := l.Pairwise fun a b => a.1 < b.1

theorem mem_put {α : Type} {k : Int} {v : α} {l : List (Int × α)} (h : Asc l) (e : Int × α) :
    e ∈ put k v l ↔ e = (k, v) ∨ (e ∈ l ∧ e.1 ≠ k) := by
  induction l with
  | nil => simp [put]
  | cons x l ih =>
    obtain ⟨k', v'⟩ := x
    rw [Asc, List.pairwise_cons] at h
    rw [put]
    by_cases h1 : k < k'
    · rw [if_pos h1]
      constructor
      · intro he
        rcases List.mem_cons.mp he with he | he
        · exact Or.inl he
        · refine Or.inr ⟨he, ?_⟩
          rcases List.mem_cons.mp he with rfl | he
          · show k' ≠ k; omega
          · have := h.1 e he; simp only at this; omega
      · rintro (he | he)
        · simp [he]
        · exact List.mem_cons_of_mem _ he.1
    · rw [if_neg h1]
      by_cases h2 : k = k'
      · rw [if_pos h2]
        constructor
        · intro he
          rcases List.mem_cons.mp he with he | he
          · exact Or.inl he
          · refine Or.inr ⟨List.mem_cons_of_mem _ he, ?_⟩
            have := h.1 e he; simp only at this; omega
        · rintro (he | he)
          · simp [he]
          · rcases List.mem_cons.mp he.1 with rfl | he'
            · exact absurd h2.symm he.2
            · exact List.mem_cons_of_mem _ he'
      · rw [if_neg h2, List.mem_cons, ih h.2, List.mem_cons]
        constructor
        · rintro (rfl | he | he)
          · exact Or.inr ⟨Or.inl rfl, fun hh => h2 hh.symm⟩
          · exact Or.inl he
          · exact Or.inr ⟨Or.inr he.1, he.2⟩
        · rintro (he | ⟨he | he, hk⟩)
          · exact Or.inr (Or.inl he)
          · exact Or.inl he
          · exact Or.inr (Or.inr ⟨he, hk⟩)

theorem put_asc {α : Type} {k : Int} {v : α} {l : List (Int × α)} (h : Asc l) : Asc (put k v l) := by
  induction l with
  | nil => exact List.pairwise_singleton _ _
  | cons x l ih =>
    obtain ⟨k', v'⟩ := x
    have h0 := h
    rw [Asc, List.pairwise_cons] at h
    rw [put]
    by_cases h1 : k < k'
    · rw [if_pos h1, Asc, List.pairwise_cons]
      refine ⟨?_, h0⟩
      intro e he
      rcases List.mem_cons.mp he with rfl | he
      · exact h1
      · have := h.1 e he; simp only at this ⊢; omega
    · rw [if_neg h1]
      by_cases h2 : k = k'
      · rw [if_pos h2, Asc, List.pairwise_cons]
        exact ⟨fun e he => by have := h.1 e he; simp only at this ⊢; omega, h.2⟩
      · rw [if_neg h2, Asc, List.pairwise_cons]
        refine ⟨?_, ih h.2⟩
        intro e he
        rcases (mem_put h.2 e).mp he with rfl | he
        · show k' < k; omega
        · exact h.1 e he.1

theorem mem_del {α : Type} {k : Int} {l : List (Int × α)} (e : Int × α) : e ∈ del k l ↔ e ∈ l ∧ e.1 ≠ k := by
  simp [del]

theorem del_asc {α : Type} {k : Int} {l : List (Int × α)} (h : Asc l) : Asc (del k l) := List.Pairwise.filter _ h

theorem asc_unique {α : Type} {l : List (Int × α)} (h : Asc l) {a b : Int × α} (ha : a ∈ l) (hb : b ∈ l) (hk : a.1 = b.1) :
    a = b := by
  induction l with
  | nil => cases ha
  | cons x l ih =>
    rw [Asc, List.pairwise_cons] at h
    rcases List.mem_cons.mp ha with rfl | ha
    · rcases List.mem_cons.mp hb with rfl | hb
      · rfl
      · have := h.1 b hb; omega
    · rcases List.mem_cons.mp hb with rfl | hb
      · have := h.1 a (by assumption); omega
      · exact ih h.2 (by assumption) (by assumption)

theorem has_iff {α : Type} {k : Int} {l : List (Int × α)} : has k l = true ↔ ∃ v, (k, v) ∈ l := by
  unfold has
  rw [List.any_eq_true]
  constructor
  · rintro ⟨⟨k', v⟩, h, hk⟩
    have : k' = k := by simpa using hk
    subst this
    exact ⟨v, h⟩
  · rintro ⟨v, h⟩
    exact ⟨_, h, by simp⟩

/-! ## The state of a peer -/

/-- What the state of a peer that has applied `P` (in some order, some of it again) says about `P`. -/
structure Inv (P : List Entry) (s : St) : Prop where
  ascR : Asc s.recs
  ascP : Asc s.pend
  cpPos : 0 < s.cp
  /-- Records are of entries. -/
  recs : ∀ t r, (t, r) ∈ s.recs → ∃ e ∈ P, e.ts = t ∧ e.kind = r.kind ∧ e.start = r.start
  /-- Each entry has a record, its own or another one's. -/
  kept : ∀ e ∈ P, ∃ r, (e.ts, r) ∈ s.recs
  pend : ∀ x ∈ s.pend, ∃ e ∈ P, e.ts = x.1
  low : ∀ x ∈ s.pend, s.cp ≤ x.1
  /-- What is open is in the map. -/
  opn : ∀ t, Open P t → (t, true) ∈ s.pend
  cpBd : ∀ b, (∀ e ∈ P, e.ts < b) → s.cp < b
  maxBd : ∀ b, (∀ e ∈ P, e.ts < b) → s.max < b
  savBd : ∀ b, (∀ e ∈ P, e.ts < b) → s.saved < b

/-- Payloads are those of prewrites. -/
def Vals (L : List Entry) (s : St) : Prop := ∀ t d, s.vals t = some d → ∃ e ∈ L, e.kind = .prewrite ∧ e.ts = t ∧ e.data = d

theorem head_low {α : Type} {x : Int × α} {l : List (Int × α)} (h : Asc (x :: l)) : ∀ y ∈ x :: l, x.1 ≤ y.1 := by
  rw [Asc, List.pairwise_cons] at h
  intro y hy
  rcases List.mem_cons.mp hy with rfl | hy
  · omega
  · have := h.1 y hy; omega

theorem settle_inv {P : List Entry} {s : St} {pd : List (Int × Bool)} {e : Entry} (he : e ∈ P) (hp : ∀ e ∈ P, 0 < e.ts)
    (hR : Asc s.recs) (hr : ∀ t r, (t, r) ∈ s.recs → ∃ e ∈ P, e.ts = t ∧ e.kind = r.kind ∧ e.start = r.start)
    (hk : ∀ e ∈ P, ∃ r, (e.ts, r) ∈ s.recs) (hA : Asc pd) (hpd : ∀ x ∈ pd, ∃ e ∈ P, e.ts = x.1)
    (ho : ∀ t, Open P t → (t, true) ∈ pd) (hm : ∀ b, (∀ e ∈ P, e.ts < b) → s.max < b)
    (hs : ∀ b, (∀ e ∈ P, e.ts < b) → s.saved < b) : Inv P (settle s pd e.ts) where
  ascR := hR
  ascP := hA
  cpPos := by
    cases pd with
    | nil => exact hp e he
    | cons x l =>
      obtain ⟨f, hf, hfx⟩ := hpd x (by simp)
      show 0 < x.1
      rw [← hfx]; exact hp f hf
  recs := hr
  kept := hk
  pend := hpd
  low := by
    cases pd with
    | nil => intro x hx; cases hx
    | cons x l => exact head_low hA
  opn := ho
  cpBd := by
    intro b hb
    cases pd with
    | nil => exact hb e he
    | cons x l =>
      obtain ⟨f, hf, hfx⟩ := hpd x (by simp)
      show x.1 < b
      rw [← hfx]; exact hb f hf
  maxBd := by
    intro b hb
    show (if s.max < e.ts then e.ts else s.max) < b
    split
    · exact hb e he
    · exact hm b hb
  savBd := hs

theorem mem_dropWhile_true {l : List (Int × Bool)} {x : Int × Bool} (hx : x ∈ l) (ht : x.2 = true) :
    x ∈ l.dropWhile fun e => !e.2 := by
  induction l with
  | nil => cases hx
  | cons y l ih =>
    rw [List.dropWhile_cons]
    by_cases hy : y.2 = true
    · rw [if_neg (by simp [hy])]; exact hx
    · rw [if_pos (by simp [hy])]
      rcases List.mem_cons.mp hx with rfl | hx
      · exact absurd ht hy
      · exact ih hx

theorem updateCheck_inv {P : List Entry} {s : St} (h : Inv P s) (save : Bool) : Inv P (updateCheck s save) := by
  unfold updateCheck
  rw [if_neg (by have := h.cpPos; omega)]
  have hs : (s.pend.dropWhile fun e => !e.2).Sublist s.pend := List.dropWhile_sublist _
  have ho : ∀ t, Open P t → (t, true) ∈ s.pend.dropWhile fun e => !e.2 := fun t ht => mem_dropWhile_true (h.opn t ht) rfl
  generalize (s.pend.dropWhile fun e => !e.2) = pd at hs ho
  have hc : ∀ b, (∀ e ∈ P, e.ts < b) → front s.max pd < b := by
    intro b hb
    cases pd with
    | nil => exact h.maxBd b hb
    | cons y l =>
      obtain ⟨f, hf, hfx⟩ := h.pend y (hs.subset (by simp))
      show y.1 < b
      rw [← hfx]; exact hb f hf
  refine ⟨h.ascR, h.ascP.sublist hs, ?_, h.recs, h.kept, fun x hx => h.pend x (hs.subset hx), ?_, ho, ?_, h.maxBd, ?_⟩
  · show 0 < if s.cp < front s.max pd then front s.max pd else s.cp
    have := h.cpPos
    split
    · omega
    · exact this
  · intro x hx
    show (if s.cp < front s.max pd then front s.max pd else s.cp) ≤ x.1
    cases pd with
    | nil => cases hx
    | cons y l =>
      split
      · exact head_low (h.ascP.sublist hs) x hx
      · exact h.low x (hs.subset hx)
  · intro b hb
    show (if s.cp < front s.max pd then front s.max pd else s.cp) < b
    split
    · exact hc b hb
    · exact h.cpBd b hb
  · intro b hb
    show (if save = true then front s.max pd else s.saved) < b
    split
    · exact hc b hb
    · exact h.savBd b hb

/-- Applying `e`, new or not. -/
theorem apply_inv {L P : List Entry} (hL : Legit L) (hPL : ∀ e ∈ P, e ∈ L) {s : St} (h : Inv P s) {e : Entry} (he : e ∈ L)
    {Q : List Entry} (hQ : ∀ x, x ∈ Q ↔ x = e ∨ x ∈ P) (save : Bool) : Inv Q (apply s e save) := by
  refine updateCheck_inv ?_ save
  have hQL : ∀ x ∈ Q, x ∈ L := by
    intro x hx
    rcases (hQ x).mp hx with rfl | hx
    · exact he
    · exact hPL x hx
  have heQ : e ∈ Q := (hQ e).mpr (Or.inl rfl)
  have hPQ : ∀ x ∈ P, x ∈ Q := fun x hx => (hQ x).mpr (Or.inr hx)
  have hpos : ∀ x ∈ Q, 0 < x.ts := fun x hx => hL.pos x (hQL x hx)
  have hR : Asc (write s e).recs := put_asc h.ascR
  have hr : ∀ t r, (t, r) ∈ (write s e).recs → ∃ e ∈ Q, e.ts = t ∧ e.kind = r.kind ∧ e.start = r.start := by
    intro t r htr
    rcases (mem_put h.ascR _).mp htr with heq | ⟨htr, _⟩
    · rw [Prod.mk.injEq] at heq
      exact ⟨e, heQ, heq.1.symm, by rw [heq.2], by rw [heq.2]⟩
    · obtain ⟨f, hf, h1⟩ := h.recs t r htr
      exact ⟨f, hPQ f hf, h1⟩
  have hk : ∀ f ∈ Q, ∃ r, (f.ts, r) ∈ (write s e).recs := by
    intro f hf
    by_cases hts : f.ts = e.ts
    · exact ⟨⟨e.kind, e.start, e.rows⟩, (mem_put h.ascR _).mpr (Or.inl (by rw [hts]))⟩
    · rcases (hQ f).mp hf with rfl | hf
      · exact absurd rfl hts
      · obtain ⟨r, hr⟩ := h.kept f hf
        exact ⟨r, (mem_put h.ascR _).mpr (Or.inr ⟨hr, hts⟩)⟩
  have hbd : ∀ b, (∀ x ∈ Q, x.ts < b) → ∀ x ∈ P, x.ts < b := fun b hb x hx => hb x (hPQ x hx)
  have hmx : ∀ b, (∀ x ∈ Q, x.ts < b) → (write s e).max < b := fun b hb => h.maxBd b (hbd b hb)
  have hsv : ∀ b, (∀ x ∈ Q, x.ts < b) → (write s e).saved < b := fun b hb => h.savBd b (hbd b hb)
  have hput : ∀ v x, x ∈ put e.ts v s.pend → ∃ f ∈ Q, f.ts = x.1 := by
    intro v x hx
    rcases (mem_put h.ascP x).mp hx with rfl | hx
    · exact ⟨e, heQ, rfl⟩
    · obtain ⟨f, hf, hfx⟩ := h.pend x hx.1
      exact ⟨f, hPQ f hf, hfx⟩
  -- what is open stays open unless `e` says otherwise
  have hop : ∀ t, Open Q t → (e.kind = .prewrite ∧ e.ts = t) ∨ Open P t := by
    intro t ⟨⟨f, hf, hfk, hft⟩, hno⟩
    rcases (hQ f).mp hf with rfl | hf
    · exact Or.inl ⟨hfk, hft⟩
    · exact Or.inr ⟨⟨f, hf, hfk, hft⟩, fun g hg => hno g (hPQ g hg)⟩
  have stay : (∀ t, Open Q t → Open P t) → Inv Q (write s e) := fun hst =>
    ⟨hR, h.ascP, h.cpPos, hr, hk, fun x hx => by obtain ⟨f, hf, hfx⟩ := h.pend x hx; exact ⟨f, hPQ f hf, hfx⟩, h.low,
      fun t ht => h.opn t (hst t ht), fun b hb => h.cpBd b (hbd b hb), hmx, hsv⟩
  have hcp : (write s e).cp ≠ -1 := by have := h.cpPos; show s.cp ≠ -1; omega
  unfold updateMap
  rw [if_neg hcp]
  cases hkd : e.kind with
  | fake =>
    have hst : ∀ t, Open Q t → Open P t := by
      intro t ht
      rcases hop t ht with ⟨h1, _⟩ | h1
      · rw [hkd] at h1; cases h1
      · exact h1
    show Inv Q (if e.ts ≤ s.cp then _ else _)
    split
    · exact stay hst
    · refine settle_inv heQ hpos hR hr hk (put_asc h.ascP) (hput false) ?_ hmx hsv
      intro t ht
      refine (mem_put h.ascP _).mpr (Or.inr ⟨h.opn t (hst t ht), ?_⟩)
      intro hte
      simp only at hte
      obtain ⟨⟨f, hf, hfk, hft⟩, _⟩ := hst t ht
      have hne : e.kind ≠ f.kind := by rw [hkd, hfk]; intro hh; cases hh
      rcases hL.apart e he f (hPL f hf) (by omega) hne with ⟨h1, _⟩ | ⟨_, h1, _⟩
      · rw [hkd] at h1; cases h1
      · rw [hkd] at h1; cases h1
  | prewrite =>
    refine settle_inv heQ hpos hR hr hk (put_asc h.ascP) (hput true) ?_ hmx hsv
    intro t ht
    by_cases hte : t = e.ts
    · exact (mem_put h.ascP _).mpr (Or.inl (by rw [hte]))
    · rcases hop t ht with ⟨_, h1⟩ | h1
      · exact absurd h1.symm hte
      · exact (mem_put h.ascP _).mpr (Or.inr ⟨h.opn t h1, hte⟩)
  | commit =>
    have hst : ∀ t, Open Q t → Open P t ∧ t ≠ e.start := by
      intro t ht
      refine ⟨?_, fun hh => ht.2 e heQ (Or.inl hkd) hh.symm⟩
      rcases hop t ht with ⟨h1, _⟩ | h1
      · rw [hkd] at h1; cases h1
      · exact h1
    show Inv Q (if e.start < s.cp then _ else if has e.start s.pend = true then _ else _)
    split
    · exact stay fun t ht => (hst t ht).1
    · split
      · refine settle_inv heQ hpos hR hr hk (del_asc h.ascP) ?_ ?_ hmx hsv
        · intro x hx
          obtain ⟨f, hf, hfx⟩ := h.pend x ((mem_del x).mp hx).1
          exact ⟨f, hPQ f hf, hfx⟩
        · intro t ht
          exact (mem_del _).mpr ⟨h.opn t (hst t ht).1, (hst t ht).2⟩
      · exact stay fun t ht => (hst t ht).1
  | rollback =>
    have hst : ∀ t, Open Q t → Open P t ∧ t ≠ e.start := by
      intro t ht
      refine ⟨?_, fun hh => ht.2 e heQ (Or.inr hkd) hh.symm⟩
      rcases hop t ht with ⟨h1, _⟩ | h1
      · rw [hkd] at h1; cases h1
      · exact h1
    show Inv Q (if e.start < s.cp then _ else if has e.start s.pend = true then _ else _)
    split
    · exact stay fun t ht => (hst t ht).1
    · split
      · refine settle_inv heQ hpos hR hr hk (del_asc h.ascP) ?_ ?_ hmx hsv
        · intro x hx
          obtain ⟨f, hf, hfx⟩ := h.pend x ((mem_del x).mp hx).1
          exact ⟨f, hPQ f hf, hfx⟩
        · intro t ht
          exact (mem_del _).mpr ⟨h.opn t (hst t ht).1, (hst t ht).2⟩
      · exact stay fun t ht => (hst t ht).1

/-- The first entry. -/
theorem open_inv {e : Entry} (he : e.kind = .fake) (hp : 0 < e.ts) (save : Bool) : Inv [e] (apply init e save) := by
  refine updateCheck_inv ?_ save
  have hu : updateMap (write init e) e = opened (write init e) e.ts := by
    unfold updateMap
    rw [if_pos (show (write init e).cp = -1 from rfl), if_pos he]
  rw [hu]
  refine ⟨List.pairwise_singleton _ _, List.pairwise_singleton _ _, hp, ?_, ?_, ?_, ?_, ?_, ?_, ?_, ?_⟩
  · intro t r htr
    have : (t, r) ∈ [(e.ts, (⟨e.kind, e.start, e.rows⟩ : Rec))] := htr
    rw [List.mem_singleton, Prod.mk.injEq] at this
    exact ⟨e, by simp, this.1.symm, by rw [this.2], by rw [this.2]⟩
  · intro f hf
    rw [List.mem_singleton] at hf
    subst hf
    exact ⟨⟨f.kind, f.start, f.rows⟩, List.mem_singleton.mpr rfl⟩
  · intro x hx
    have : x ∈ [(e.ts, false)] := hx
    rw [List.mem_singleton] at this
    exact ⟨e, by simp, by rw [this]⟩
  · intro x hx
    have : x ∈ [(e.ts, false)] := hx
    rw [List.mem_singleton] at this
    rw [this]; exact Int.le_refl _
  · intro t ⟨⟨f, hf, hfk, _⟩, _⟩
    rw [List.mem_singleton] at hf
    rw [hf, he] at hfk; cases hfk
  · intro b hb; exact hb e (by simp)
  · intro b hb
    have h1 := hb e (by simp)
    show (if (-1 : Int) < e.ts then e.ts else -1) < b
    split <;> omega
  · intro b hb; exact hb e (by simp)

/-! ## Restarts -/

/-- The scan over the records `xs`, which the map has not seen. -/
theorem scan_inv {L P : List Entry} (hL : Legit L) (hPL : ∀ e ∈ P, e ∈ L) (done xs : List (Int × Rec)) (s : St)
    (hA : Asc xs) (hmax : ∀ x ∈ xs, s.max ≤ x.1)
    (hrx : ∀ x ∈ xs, ∃ e ∈ P, e.ts = x.1 ∧ e.kind = x.2.kind ∧ e.start = x.2.start)
    (hR : Asc s.recs) (hr : ∀ t r, (t, r) ∈ s.recs → ∃ e ∈ P, e.ts = t ∧ e.kind = r.kind ∧ e.start = r.start)
    (hk : ∀ e ∈ P, ∃ r, (e.ts, r) ∈ s.recs) (hAp : Asc s.pend) (hpd : ∀ x ∈ s.pend, ∃ e ∈ P, e.ts = x.1) (hpos : 0 < s.cp)
    (hlow : ∀ x ∈ s.pend, s.cp ≤ x.1) (hcb : ∀ b, (∀ e ∈ P, e.ts < b) → s.cp < b)
    (hmb : ∀ b, (∀ e ∈ P, e.ts < b) → s.max < b) (hsb : ∀ b, (∀ e ∈ P, e.ts < b) → s.saved < b)
    (hdone : ∀ t, Open P t → (∃ x ∈ done ++ xs, x.1 = t ∧ x.2.kind = .prewrite))
    (hop : ∀ t, Open P t → (∃ x ∈ done, x.1 = t ∧ x.2.kind = .prewrite) → (t, true) ∈ s.pend) :
    Inv P (xs.foldl scanStep s) := by
  induction xs generalizing done s with
  | nil =>
    refine ⟨hR, hAp, hpos, hr, hk, hpd, hlow, ?_, hcb, hmb, hsb⟩
    intro t ht
    refine hop t ht ?_
    have := hdone t ht
    rwa [List.append_nil] at this
  | cons x xs ih =>
    rw [Asc, List.pairwise_cons] at hA
    rw [List.foldl_cons]
    obtain ⟨e, he, het, hek, hes⟩ := hrx x (by simp)
    have hp : ∀ e ∈ P, 0 < e.ts := fun e he => hL.pos e (hPL e he)
    have hd' : ∀ t, Open P t → ∃ y ∈ (done ++ [x]) ++ xs, y.1 = t ∧ y.2.kind = .prewrite := by
      intro t ht
      obtain ⟨y, hy, h1⟩ := hdone t ht
      exact ⟨y, by simpa using hy, h1⟩
    have hnx : ∀ t, Open P t → (x.2.kind ≠ .prewrite ∨ x.1 ≠ t) → (∃ y ∈ done ++ [x], y.1 = t ∧ y.2.kind = .prewrite) →
        ∃ y ∈ done, y.1 = t ∧ y.2.kind = .prewrite := by
      intro t _ hne ⟨y, hy, h1, h2⟩
      rcases List.mem_append.mp hy with hy | hy
      · exact ⟨y, hy, h1, h2⟩
      · rw [List.mem_singleton] at hy
        subst hy
        rcases hne with hne | hne
        · exact absurd h2 hne
        · exact absurd h1 hne
    -- the step when the map is settled
    have step : ∀ pd, Asc pd → (∀ y ∈ pd, ∃ e ∈ P, e.ts = y.1) →
        (∀ t, Open P t → (∃ y ∈ done ++ [x], y.1 = t ∧ y.2.kind = .prewrite) → (t, true) ∈ pd) →
        Inv P (xs.foldl scanStep (settle s pd x.1)) := by
      intro pd h1 h2 h3
      refine ih (done ++ [x]) (settle s pd x.1) hA.2 ?_ (fun y hy => hrx y (List.mem_cons_of_mem _ hy)) hR hr hk h1 h2
        ?_ ?_ ?_ ?_ hsb hd' h3
      · intro y hy
        show (if s.max < x.1 then x.1 else s.max) ≤ y.1
        have := hA.1 y hy
        have := hmax y (List.mem_cons_of_mem _ hy)
        split <;> omega
      · cases pd with
        | nil => show 0 < x.1; rw [← het]; exact hp e he
        | cons y l =>
          obtain ⟨f, hf, hfy⟩ := h2 y (by simp)
          show 0 < y.1; rw [← hfy]; exact hp f hf
      · cases pd with
        | nil => intro y hy; cases hy
        | cons y l => exact head_low h1
      · intro b hb
        cases pd with
        | nil => show x.1 < b; rw [← het]; exact hb e he
        | cons y l =>
          obtain ⟨f, hf, hfy⟩ := h2 y (by simp)
          show y.1 < b; rw [← hfy]; exact hb f hf
      · intro b hb
        show (if s.max < x.1 then x.1 else s.max) < b
        split
        · rw [← het]; exact hb e he
        · exact hmb b hb
    have stay : x.2.kind ≠ .prewrite → Inv P (xs.foldl scanStep s) := by
      intro hne
      refine ih (done ++ [x]) s hA.2 (fun y hy => hmax y (List.mem_cons_of_mem _ hy))
        (fun y hy => hrx y (List.mem_cons_of_mem _ hy)) hR hr hk hAp hpd hpos hlow hcb hmb hsb hd' ?_
      intro t ht h1
      exact hop t ht (hnx t ht (Or.inl hne) h1)
    have hput : ∀ v y, y ∈ put x.1 v s.pend → ∃ f ∈ P, f.ts = y.1 := by
      intro v y hy
      rcases (mem_put hAp y).mp hy with rfl | hy
      · exact ⟨e, he, het⟩
      · exact hpd y hy.1
    unfold scanStep
    rw [if_neg (by have := hmax x (by simp); omega)]
    cases hkd : x.2.kind with
    | fake =>
      refine step _ (put_asc hAp) (hput false) ?_
      intro t ht h1
      refine (mem_put hAp _).mpr (Or.inr ⟨hop t ht (hnx t ht (Or.inl (by rw [hkd]; intro h; cases h)) h1), ?_⟩)
      intro hte
      simp only at hte
      obtain ⟨⟨f, hf, hfk, hft⟩, _⟩ := ht
      have hne : e.kind ≠ f.kind := by rw [hek, hkd, hfk]; intro hh; cases hh
      rcases hL.apart e (hPL e he) f (hPL f hf) (by omega) hne with ⟨h1, _⟩ | ⟨_, h1, _⟩
      · rw [hek, hkd] at h1; cases h1
      · rw [hek, hkd] at h1; cases h1
    | prewrite =>
      refine step _ (put_asc hAp) (hput true) ?_
      intro t ht h1
      by_cases hte : t = x.1
      · exact (mem_put hAp _).mpr (Or.inl (by rw [hte]))
      · exact (mem_put hAp _).mpr (Or.inr ⟨hop t ht (hnx t ht (Or.inr fun h => hte h.symm) h1), hte⟩)
    | commit =>
      have hne : x.2.kind ≠ .prewrite := by rw [hkd]; intro h; cases h
      simp only
      split
      · exact stay hne
      · split
        · refine step _ (del_asc hAp) (fun y hy => hpd y ((mem_del y).mp hy).1) ?_
          intro t ht h1
          refine (mem_del _).mpr ⟨hop t ht (hnx t ht (Or.inl hne) h1), ?_⟩
          intro hh
          exact ht.2 e he (Or.inl (by rw [hek, hkd])) (by rw [hes]; exact hh.symm)
        · exact stay hne
    | rollback =>
      have hne : x.2.kind ≠ .prewrite := by rw [hkd]; intro h; cases h
      simp only
      split
      · exact stay hne
      · split
        · refine step _ (del_asc hAp) (fun y hy => hpd y ((mem_del y).mp hy).1) ?_
          intro t ht h1
          refine (mem_del _).mpr ⟨hop t ht (hnx t ht (Or.inl hne) h1), ?_⟩
          intro hh
          exact ht.2 e he (Or.inr (by rw [hek, hkd])) (by rw [hes]; exact hh.symm)
        · exact stay hne

theorem scanAll_inv {L P : List Entry} (hL : Legit L) (hPL : ∀ e ∈ P, e ∈ L) {s s' : St} (h : Inv P s) (hs : 0 < s.saved)
    (hopn : ∀ t, Open P t → s.saved ≤ t)
    (hrec : s'.recs = s.recs) (hpend : s'.pend = []) (hcp : s'.cp = s.saved)
    (hsv : s'.saved = s.saved) (hmx : s'.max ≤ s.saved) (save : Bool) : Inv P (scanAll s' save) := by
  refine updateCheck_inv ?_ save
  have hf : Asc (s'.recs.filter fun x => decide (s'.cp ≤ x.1)) := by rw [hrec]; exact List.Pairwise.filter _ h.ascR
  refine scan_inv hL hPL [] _ s' hf ?_ ?_ (by rw [hrec]; exact h.ascR) (by rw [hrec]; exact h.recs)
    (by rw [hrec]; exact h.kept) (by rw [hpend]; exact List.Pairwise.nil) (by rw [hpend]; intro x hx; cases hx)
    (by rw [hcp]; exact hs) (by rw [hpend]; intro x hx; cases hx) (by rw [hcp]; exact h.savBd) ?_
    (by rw [hsv]; exact h.savBd) ?_ ?_
  · intro x hx
    have := (List.mem_filter.mp hx).2
    rw [decide_eq_true_iff, hcp] at this
    omega
  · intro x hx
    have := (List.mem_filter.mp hx).1
    rw [hrec] at this
    exact h.recs x.1 x.2 this
  · intro b hb
    have := h.savBd b hb
    omega
  · intro t ht
    have hle := hopn t ht
    obtain ⟨⟨e, he, hek, het⟩, hno⟩ := ht
    obtain ⟨r, hr⟩ := h.kept e he
    obtain ⟨f, hf, hft, hfk, hfs⟩ := h.recs _ _ hr
    refine ⟨(e.ts, r), ?_, het, ?_⟩
    · rw [List.nil_append]
      refine List.mem_filter.mpr ⟨by rw [hrec]; exact hr, ?_⟩
      rw [decide_eq_true_iff, hcp]
      show s.saved ≤ e.ts
      omega
    · show r.kind = .prewrite
      by_cases hkk : f.kind = e.kind
      · rw [← hfk, hkk, hek]
      · exfalso
        rcases hL.apart f (hPL f hf) e (hPL e he) hft hkk with ⟨_, h1, _⟩ | ⟨_, h1, h2⟩
        · rw [hek] at h1; cases h1
        · exact hno f hf (Or.inr h1) (by omega)
  · intro t _ ⟨x, hx, _⟩
    cases hx

end BaikalDB.Binlog
