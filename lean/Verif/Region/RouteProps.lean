import Verif.Region.Route
import Verif.Region.MetaProps

/-!
# C11: a query goes to the regions that can hold matching keys
-/

namespace BaikalDB.Route

/-! ## Specification -/

/-- Being past an open left bound: greater, and not one of the keys that begin with it. -/
def Beyond (p x : Bytes) : Prop := BLt p x ∧ ¬ p <+: x

/-- The keys a range asks for.  A bound with fewer columns than the index stands for all keys beginning with it. -/
def LeftOk (start : Bytes) (leftOpen : Bool) (x : Bytes) : Prop := if leftOpen then Beyond start x else BLe start x

def RightOk (stop : Bytes) (rightOpen : Bool) (x : Bytes) : Prop :=
  stop = [] ∨ BLt x stop ∨ (rightOpen = false ∧ stop <+: x)

def InBounds (b : Bounds) (x : Bytes) : Prop := LeftOk b.start b.leftOpen x ∧ RightOk b.stop b.rightOpen x

/-- The entry of the region that holds `x`: the last start key not above `x`. -/
def Owner (m : KeyMap) (x : Bytes) (e : Bytes × Nat) : Prop :=
  e ∈ m ∧ BLe e.1 x ∧ ∀ e' ∈ m, BLe e'.1 x → BLe e'.1 e.1

def Sorted (m : KeyMap) : Prop := m.Pairwise fun a b => BLt a.1 b.1

/-! ## Byte strings and prefixes -/

theorem prefix_le {p x : Bytes} (h : p <+: x) : BLe p x := by
  obtain ⟨t, rfl⟩ := h; exact BLe_append p t

theorem BLe_cons {a b : Byte} {x y : Bytes} : BLe (a :: x) (b :: y) ↔ a.toNat < b.toNat ∨ (a = b ∧ BLe x y) := by
  unfold BLe
  rw [bcmp]
  by_cases h1 : a.toNat < b.toNat
  · simp [h1]
  · by_cases h2 : b.toNat < a.toNat
    · have : a ≠ b := fun h => by rw [h] at h2; omega
      simp [h1, h2, this]
    · simp [byte_eq_of_not_lt h1 h2]

/-- What lies between `p` and something beginning with `p` begins with `p`. -/
theorem prefix_between {p y t : Bytes} (h1 : BLe p y) (h2 : BLe y (p ++ t)) : p <+: y := by
  induction p generalizing y with
  | nil => exact List.nil_prefix
  | cons a p ih =>
    cases y with
    | nil => exact absurd (BLe.antisymm h1 (BLe_nil _)) (by simp)
    | cons b y =>
      rw [List.cons_append] at h2
      rw [BLe_cons] at h1 h2
      rcases h1 with h1 | ⟨rfl, h1⟩
      · rcases h2 with h2 | ⟨rfl, _⟩ <;> omega
      · have h2' : BLe y (p ++ t) := by
          rcases h2 with h2 | ⟨_, h2⟩
          · omega
          · exact h2
        exact List.cons_prefix_cons.2 ⟨rfl, ih h1 h2'⟩

theorem Beyond.above {p x : Bytes} (h : Beyond p x) (t : Bytes) : BLt (p ++ t) x := by
  by_contra hc
  exact h.2 (prefix_between h.1.le (not_BLt.1 hc))

theorem Beyond.mono {p x y : Bytes} (h : Beyond p x) (hxy : BLe x y) : Beyond p y := by
  refine ⟨BLt.trans_le h.1 hxy, fun hp => ?_⟩
  obtain ⟨t, rfl⟩ := hp
  exact not_BLt.2 hxy (h.above t)

/-- A key that is neither below `p` nor beginning with it is past it, and conversely. -/
theorem not_beyond {p x : Bytes} : ¬ Beyond p x ↔ BLe x p ∨ p <+: x := by
  unfold Beyond
  rw [not_and_or, not_BLt, not_not]

/-! ## The two sides of the iterator -/

/-- Start keys past the left bound. -/
def After (b : Bounds) (k : Bytes) : Prop := if b.leftOpen then Beyond b.start k else BLt b.start k

theorem After.mono {b : Bounds} {x y : Bytes} (h : After b x) (hxy : BLe x y) : After b y := by
  unfold After at *
  split at h
  · rename_i hl; rw [if_pos hl]; exact h.mono hxy
  · rename_i hl; rw [if_neg hl]; exact BLt.trans_le h hxy

theorem sorted_takeWhile {m : KeyMap} (hs : Sorted m) (p : Bytes × Nat → Bool)
    (hp : ∀ a b, p b = true → BLe a.1 b.1 → p a = true) (e : Bytes × Nat) :
    (e ∈ m.takeWhile p ↔ e ∈ m ∧ p e = true) ∧ (e ∈ m.dropWhile p ↔ e ∈ m ∧ p e = false) := by
  induction m with
  | nil => simp
  | cons a t ih =>
    unfold Sorted at hs
    rw [List.pairwise_cons] at hs
    obtain ⟨i1, i2⟩ := ih hs.2
    by_cases ha : p a = true
    · rw [List.takeWhile_cons, if_pos ha, List.dropWhile_cons, if_pos ha]
      constructor
      · rw [List.mem_cons, List.mem_cons, i1]
        constructor
        · rintro (rfl | h)
          · exact ⟨.inl rfl, ha⟩
          · exact ⟨.inr h.1, h.2⟩
        · rintro ⟨rfl | h, h'⟩
          · exact .inl rfl
          · exact .inr ⟨h, h'⟩
      · rw [i2, List.mem_cons]
        constructor
        · exact fun h => ⟨.inr h.1, h.2⟩
        · rintro ⟨rfl | h, h'⟩
          · rw [ha] at h'; cases h'
          · exact ⟨h, h'⟩
    · rw [List.takeWhile_cons, if_neg ha, List.dropWhile_cons, if_neg ha]
      have hall : ∀ x ∈ a :: t, p x = false := by
        intro x hx
        rcases List.mem_cons.1 hx with rfl | hx
        · simpa using ha
        · by_contra hc
          have hc' : p x = true := by simpa using hc
          exact ha (hp a x hc' (hs.1 x hx).le)
      constructor
      · constructor
        · intro h; cases h
        · rintro ⟨h, h'⟩; rw [hall e h] at h'; cases h'
      · exact ⟨fun h => ⟨h, hall e h⟩, fun h => h.1⟩

/-- The map up to the iterator and from it on. -/
def before (b : Bounds) (m : KeyMap) : KeyMap :=
  if b.leftOpen then (m.takeWhile fun e => bcmp e.1 (sentinel b) != .gt) ++
    (m.dropWhile fun e => bcmp e.1 (sentinel b) != .gt).takeWhile (fun e => b.start.isPrefixOf e.1)
  else m.takeWhile fun e => bcmp e.1 (sentinel b) != .gt

def after (b : Bounds) (m : KeyMap) : KeyMap :=
  if b.leftOpen then (m.dropWhile fun e => bcmp e.1 (sentinel b) != .gt).dropWhile (fun e => b.start.isPrefixOf e.1)
  else m.dropWhile fun e => bcmp e.1 (sentinel b) != .gt

theorem before_after (b : Bounds) (m : KeyMap) : m = before b m ++ after b m := by
  unfold before after
  split
  · rw [List.append_assoc, List.takeWhile_append_dropWhile, List.takeWhile_append_dropWhile]
  · rw [List.takeWhile_append_dropWhile]

theorem le_test {a b : Bytes} : (bcmp a b != .gt) = true ↔ BLe a b := by simp [BLe]

theorem sides {b : Bounds} {m : KeyMap} (hs : Sorted m) :
    (∀ e ∈ before b m, ¬ After b e.1) ∧ (∀ e ∈ after b m, After b e.1) := by
  have hsplit := fun e => sorted_takeWhile hs (fun e => bcmp e.1 (sentinel b) != .gt)
    (fun a c hc hac => by rw [le_test] at hc ⊢; exact BLe.trans hac hc) e
  by_cases hl : b.leftOpen = true
  · have hsen : sentinel b = b.start ∨ sentinel b = b.start ++ [0xFF#8, 0xFF#8] := by
      unfold sentinel; split <;> simp
    have hdrop : Sorted (m.dropWhile fun e => bcmp e.1 (sentinel b) != .gt) :=
      List.Pairwise.sublist (List.dropWhile_sublist _) hs
    have hgt : ∀ e ∈ m.dropWhile (fun e => bcmp e.1 (sentinel b) != .gt), BLt b.start e.1 := by
      intro e he
      have h1 := ((hsplit e).2.1 he).2
      have h2 : BLt (sentinel b) e.1 := by
        by_contra hc
        have : (bcmp e.1 (sentinel b) != .gt) = true := le_test.2 (not_BLt.1 hc)
        rw [this] at h1; cases h1
      rcases hsen with h | h
      · rw [h] at h2; exact h2
      · rw [h] at h2; exact BLe.trans_lt (BLe_append _ _) h2
    -- keys beginning with `start` come first there
    have hpre : ∀ (L : KeyMap), Sorted L → (∀ e ∈ L, BLt b.start e.1) → ∀ e,
        (e ∈ L.dropWhile (fun e => b.start.isPrefixOf e.1) → ¬ b.start <+: e.1) := by
      intro L hL hg
      induction L with
      | nil => intro e he; cases he
      | cons a t ih =>
        intro e he
        unfold Sorted at hL
        rw [List.pairwise_cons] at hL
        rw [List.dropWhile_cons] at he
        split at he
        · exact ih hL.2 (fun e he => hg e (List.mem_cons_of_mem _ he)) e he
        · rename_i hn
          have hn' : ¬ b.start <+: a.1 := fun h => hn (List.isPrefixOf_iff_prefix.2 h)
          have hB : Beyond b.start a.1 := ⟨hg a List.mem_cons_self, hn'⟩
          rcases List.mem_cons.1 he with rfl | he
          · exact hn'
          · exact (hB.mono (hL.1 e he).le).2
    unfold before after After
    rw [if_pos hl, if_pos hl]
    simp only [hl, if_true]
    constructor
    · intro e he
      rw [not_beyond]
      rcases List.mem_append.1 he with he | he
      · have h1 := le_test.1 ((hsplit e).1.1 he).2
        rcases hsen with h | h
        · rw [h] at h1; exact .inl h1
        · rw [h] at h1
          by_cases hle : BLe e.1 b.start
          · exact .inl hle
          · exact .inr (prefix_between (not_BLe.1 hle).le h1)
      · have := List.mem_takeWhile_imp he
        exact .inr (List.isPrefixOf_iff_prefix.1 this)
    · intro e he
      exact ⟨hgt e ((List.dropWhile_sublist _).mem he), hpre _ hdrop hgt e he⟩
  · have hsen : sentinel b = b.start := by unfold sentinel; simp [hl]
    unfold before after After
    rw [if_neg hl, if_neg hl]
    simp only [hl, if_false, Bool.false_eq_true]
    constructor
    · intro e he
      have h1 := le_test.1 ((hsplit e).1.1 he).2
      rw [hsen] at h1
      exact not_BLt.2 h1
    · intro e he
      have h1 := ((hsplit e).2.1 he).2
      by_contra hc
      have : (bcmp e.1 (sentinel b) != .gt) = true := le_test.2 (by rw [hsen]; exact not_BLt.1 hc)
      rw [this] at h1; cases h1

theorem endOk_down {b : Bounds} {x y : Bytes} (h : endOk b y = true) (hxy : BLe x y) : endOk b x = true := by
  unfold endOk at *
  simp only [Bool.or_eq_true, Bool.and_eq_true, beq_iff_eq, Bool.not_eq_true', le_test, List.isPrefixOf_iff_prefix] at *
  rcases h with (h | h) | ⟨h, t, rfl⟩
  · exact .inl (.inl h)
  · exact .inl (.inr (BLe.trans hxy h))
  · by_cases hx : BLe x b.stop
    · exact .inl (.inr hx)
    · exact .inr ⟨h, prefix_between (not_BLe.1 hx).le hxy⟩

/-- Where the walk starts. -/
def fromHere (b : Bounds) (m : KeyMap) : KeyMap :=
  match (before b m).getLast? with | some e => e :: after b m | none => after b m

theorem visit_eq (b : Bounds) (m : KeyMap) : visit b false m = (fromHere b m).takeWhile fun e => endOk b e.1 := by
  unfold visit fromHere before after
  by_cases hl : b.leftOpen = true <;> simp [hl] <;> rfl

theorem fromHere_suffix (b : Bounds) (m : KeyMap) : ∃ pre, m = pre ++ fromHere b m := by
  unfold fromHere
  cases h : (before b m).getLast? with
  | none =>
    have : before b m = [] := by simpa using h
    exact ⟨[], by simp only [List.nil_append]; conv => lhs; rw [before_after b m, this, List.nil_append]⟩
  | some e =>
    obtain ⟨ys, hy⟩ := List.getLast?_eq_some_iff.1 h
    refine ⟨ys, ?_⟩
    conv => lhs; rw [before_after b m, hy]
    simp

theorem mem_fromHere {b : Bounds} {m : KeyMap} (hs : Sorted m) (e : Bytes × Nat) :
    e ∈ fromHere b m ↔ e ∈ m ∧ ∀ e' ∈ m, BLt e.1 e'.1 → After b e'.1 := by
  obtain ⟨s1, s2⟩ := sides (b := b) hs
  have hm := before_after b m
  unfold Sorted at hs
  constructor
  · intro he
    refine ⟨?_, ?_⟩
    · obtain ⟨pre, hp⟩ := fromHere_suffix b m
      rw [hp]; exact List.mem_append_right _ he
    · intro e' he' hlt
      rw [hm] at he' hs
      rcases List.mem_append.1 he' with he' | he'
      · exfalso
        obtain ⟨p1, _, p3⟩ := List.pairwise_append.1 hs
        unfold fromHere at he
        cases hlast : (before b m).getLast? with
        | none =>
          have : before b m = [] := by simpa using hlast
          rw [this] at he'; cases he'
        | some q =>
          rw [hlast] at he
          obtain ⟨ys, hy⟩ := List.getLast?_eq_some_iff.1 hlast
          rcases List.mem_cons.1 he with rfl | he
          · rw [hy] at he' p1
            rcases List.mem_append.1 he' with h | h
            · have := (List.pairwise_append.1 p1).2.2 e' h e (by simp)
              exact BLt.asymm this hlt
            · rw [List.mem_singleton] at h; subst h; exact BLt.irrefl _ hlt
          · exact BLt.asymm (p3 e' he' e he) hlt
      · exact s2 e' he'
  · rintro ⟨he, hall⟩
    rw [hm] at he
    unfold fromHere
    rcases List.mem_append.1 he with he | he
    · cases hlast : (before b m).getLast? with
      | none =>
        have : before b m = [] := by simpa using hlast
        rw [this] at he; cases he
      | some q =>
        obtain ⟨ys, hy⟩ := List.getLast?_eq_some_iff.1 hlast
        have hq : q ∈ before b m := by rw [hy]; simp
        rw [hy] at he
        rcases List.mem_append.1 he with h | h
        · have hs' := hs
          rw [hm, hy] at hs'
          have hlt := (List.pairwise_append.1 (List.pairwise_append.1 hs').1).2.2 e h q (by simp)
          exact absurd (hall q (by rw [hm]; exact List.mem_append_left _ hq) hlt) (s1 q hq)
        · rw [List.mem_singleton] at h; subst h; exact List.mem_cons_self
    · cases hlast : (before b m).getLast? with
      | none => exact he
      | some q => exact List.mem_cons_of_mem _ he

/-- Exactly which entries are visited: the region begins within the right bound and does not end before the left one. -/
theorem visit_iff {b : Bounds} {m : KeyMap} (hs : Sorted m) (e : Bytes × Nat) :
    e ∈ visit b false m ↔ e ∈ m ∧ endOk b e.1 = true ∧ ∀ e' ∈ m, BLt e.1 e'.1 → After b e'.1 := by
  rw [visit_eq]
  obtain ⟨pre, hp⟩ := fromHere_suffix b m
  have hsf : Sorted (fromHere b m) := by
    unfold Sorted at *
    rw [hp] at hs
    exact (List.pairwise_append.1 hs).2.1
  rw [(sorted_takeWhile hsf (fun e => endOk b e.1) (fun _ _ h hle => endOk_down h hle) e).1, mem_fromHere hs]
  constructor
  · rintro ⟨⟨h1, h2⟩, h3⟩; exact ⟨h1, h3, h2⟩
  · rintro ⟨h1, h3, h2⟩; exact ⟨⟨h1, h2⟩, h3⟩

/-! ## C11 -/

/-- C11, completeness: the region that holds a matching key is among those the query goes to. -/
theorem C11_complete {b : Bounds} {m : KeyMap} (hs : Sorted m) {x : Bytes} (hx : InBounds b x) {e : Bytes × Nat}
    (ho : Owner m x e) : e ∈ visit b false m := by
  rw [visit_iff hs]
  obtain ⟨h1, h2, h3⟩ := ho
  refine ⟨h1, ?_, ?_⟩
  · have hxe : endOk b x = true := by
      unfold endOk
      simp only [Bool.or_eq_true, Bool.and_eq_true, beq_iff_eq, Bool.not_eq_true', le_test, List.isPrefixOf_iff_prefix]
      rcases hx.2 with h | h | h
      · exact .inl (.inl h)
      · exact .inl (.inr h.le)
      · exact .inr h
    exact endOk_down hxe h2
  · intro e' he' hlt
    have hxe' : BLt x e'.1 := by
      by_contra hc
      exact not_BLt.2 (h3 e' he' (not_BLt.1 hc)) hlt
    have := hx.1
    unfold LeftOk at this
    unfold After
    split at this
    · rename_i hl; rw [if_pos hl]; exact this.mono hxe'.le
    · rename_i hl; rw [if_neg hl]; exact BLe.trans_lt this hxe'

/-- C11, no needless region (closed left bound, range not empty): a region that is visited contains a key that meets
the left bound and meets the right bound or equals it. -/
theorem C11_sound {b : Bounds} {m : KeyMap} (hs : Sorted m) (hl : b.leftOpen = false)
    (hne : b.stop = [] ∨ BLe b.start b.stop) {e : Bytes × Nat} (he : e ∈ visit b false m) :
    ∃ x, Owner m x e ∧ BLe b.start x ∧ (RightOk b.stop b.rightOpen x ∨ x = b.stop) := by
  rw [visit_iff hs] at he
  obtain ⟨h1, h2, h3⟩ := he
  have hA : ∀ e' ∈ m, BLt e.1 e'.1 → BLt b.start e'.1 := by
    intro e' he' hlt; have := h3 e' he' hlt; unfold After at this; simpa [hl] using this
  have own : ∀ x, BLe e.1 x → (∀ e' ∈ m, BLt e.1 e'.1 → BLt x e'.1) → Owner m x e := by
    intro x hx hn
    refine ⟨h1, hx, fun e' he' hle => ?_⟩
    by_contra hc
    exact not_BLt.2 hle (hn e' he' (not_BLe.1 hc))
  have right : ∀ x, (b.stop = [] ∨ BLe x b.stop ∨ (b.rightOpen = false ∧ b.stop <+: x)) →
      (RightOk b.stop b.rightOpen x ∨ x = b.stop) := by
    rintro x (h | h | h)
    · exact .inl (.inl h)
    · rcases BLe_iff.1 h with h | h
      · exact .inl (.inr (.inl h))
      · exact .inr h
    · exact .inl (.inr (.inr h))
  by_cases hc : BLe e.1 b.start
  · exact ⟨b.start, own _ hc hA, BLe.refl _, right _ (by
      rcases hne with h | h
      · exact .inl h
      · exact .inr (.inl h))⟩
  · refine ⟨e.1, own _ (BLe.refl _) (fun _ _ h => h), (not_BLe.1 hc).le, right _ ?_⟩
    unfold endOk at h2
    simp only [Bool.or_eq_true, Bool.and_eq_true, beq_iff_eq, Bool.not_eq_true', le_test, List.isPrefixOf_iff_prefix] at h2
    rcases h2 with (h | h) | h
    · exact .inl h
    · exact .inr (.inl h)
    · exact .inr (.inr h)

/-- C11, no needless region, open left bound: a visited region ends past the bound and begins within the right one. -/
theorem C11_sound_open {b : Bounds} {m : KeyMap} (hs : Sorted m) (hl : b.leftOpen = true) {e : Bytes × Nat}
    (he : e ∈ visit b false m) :
    (∀ e' ∈ m, BLt e.1 e'.1 → Beyond b.start e'.1) ∧ (RightOk b.stop b.rightOpen e.1 ∨ e.1 = b.stop) := by
  rw [visit_iff hs] at he
  obtain ⟨_, h2, h3⟩ := he
  refine ⟨fun e' he' hlt => by have := h3 e' he' hlt; unfold After at this; simpa [hl] using this, ?_⟩
  unfold endOk at h2
  simp only [Bool.or_eq_true, Bool.and_eq_true, beq_iff_eq, Bool.not_eq_true', le_test, List.isPrefixOf_iff_prefix] at h2
  rcases h2 with (h | h) | h
  · exact .inl (.inl h)
  · rcases BLe_iff.1 h with h | h
    · exact .inl (.inr (.inl h))
    · exact .inr h
  · exact .inl (.inr (.inr h))

/-- C11.  The regions are visited in key order, each once. -/
theorem C11_order {b : Bounds} {m : KeyMap} (hs : Sorted m) : Sorted (visit b false m) := by
  rw [visit_eq]
  obtain ⟨pre, hp⟩ := fromHere_suffix b m
  unfold Sorted at *
  rw [hp] at hs
  exact (List.pairwise_append.1 hs).2.1.sublist (List.takeWhile_sublist _)

/-- C11, full export: of the regions of the range the first one. -/
theorem C11_full_export (b : Bounds) (m : KeyMap) : visit b true m = (visit b false m).take 1 := by
  unfold visit; simp

/-- C11, equality on a key prefix: exactly the keys that begin with it are asked for. -/
theorem C11_eq_bounds (t : Tpl) (r : Rng) (ht : t.isEq = true) (ho : t.leftOpen = false) (x : Bytes) :
    InBounds (bounds (some t) r) x ↔ r.left <+: x := by
  have : bounds (some t) r = ⟨r.left, r.leftFull, false, r.left, false⟩ := by
    unfold bounds; simp [ht, ho]
  rw [this]
  unfold InBounds LeftOk RightOk
  simp only [Bool.false_eq_true, if_false, true_and]
  constructor
  · rintro ⟨h1, h2 | h2 | h2⟩
    · rw [h2]; exact List.nil_prefix
    · exact absurd h2 (not_BLt.2 h1)
    · exact h2
  · intro h
    exact ⟨prefix_le h, .inr (.inr h)⟩

/-- C11: the bounds of a range that is not an equality; a missing bound never excludes a key. -/
theorem C11_range_bounds (t : Option Tpl) (r : Rng) (ht : ∀ t', t = some t' → t'.isEq = false) (x : Bytes) :
    InBounds (bounds t r) x ↔
      (r.left = [] ∨ LeftOk r.left (t.elim r.leftOpen (·.leftOpen)) x) ∧
      RightOk r.right (t.elim r.rightOpen (·.rightOpen)) x := by
  have hb : (bounds t r).start = r.left ∧ (bounds t r).stop = r.right ∧
      (bounds t r).leftOpen = (if r.left == [] then false else t.elim r.leftOpen (·.leftOpen)) ∧
      (bounds t r).rightOpen = (if r.right == [] then false else t.elim r.rightOpen (·.rightOpen)) := by
    unfold bounds
    cases t with
    | none => simp
    | some t' => simp [ht t' rfl]
  unfold InBounds
  rw [hb.1, hb.2.1, hb.2.2.1, hb.2.2.2]
  generalize t.elim r.leftOpen (·.leftOpen) = lo
  generalize t.elim r.rightOpen (·.rightOpen) = ro
  by_cases h : r.left = [] <;> by_cases h' : r.right = [] <;> simp [h, h', LeftOk, RightOk, BLe_nil]

/-! ### Several ranges and partitions -/

/-- C11.  A key of partition `p` that some range asks for: the region holding it receives the query, and in the list of
ranges sent to that region this range is included. -/
theorem C11_ranges {tpl : Option Tpl} {ranges : List Rng} {ps : Parts} {p : Nat} {m : KeyMap} (hp : (p, m) ∈ ps)
    (hs : Sorted m) {r : Rng} (hr : r ∈ ranges) (hpart : r.parts = [] ∨ p ∈ r.parts) {x : Bytes}
    (hx : InBounds (bounds tpl r) x) {e : Bytes × Nat} (ho : Owner m x e) :
    e.2 ∈ regions tpl ranges false false ps ∧ r ∈ sentTo tpl ranges false false ps e.2 := by
  have hv : e.2 ∈ visitParts (bounds tpl r) r.parts false false ps := by
    unfold visitParts
    rw [List.mem_flatMap]
    refine ⟨(p, m), hp, ?_⟩
    rw [if_neg, if_neg (by decide)]
    · exact List.mem_map.2 ⟨e, C11_complete hs hx ho, rfl⟩
    · rcases hpart with h | h
      · simp [h]
      · simp [h]
  constructor
  · exact List.mem_flatMap.2 ⟨r, hr, hv⟩
  · unfold sentTo
    split
    · exact hr
    · split
      · exact hr
      · obtain ⟨i, hi, hir⟩ := List.mem_iff_getElem.1 hr
        rw [List.mem_filterMap]
        refine ⟨i, ?_, by rw [List.getElem?_eq_getElem hi, hir]⟩
        unfold rangesFor
        rw [List.mem_filter]
        refine ⟨List.mem_range.2 hi, ?_⟩
        rw [List.getElem?_eq_getElem hi, hir]
        simpa using hv

/-- C11.  Conversely a region only receives ranges of the query, and when it receives only some of them, those that
reached it in a partition they are meant for. -/
theorem C11_ranges_sound {tpl : Option Tpl} {ranges : List Rng} {ps : Parts} {id : Nat} {r : Rng}
    (h : r ∈ sentTo tpl ranges false false ps id) : r ∈ ranges ∧
      (ranges.length ≤ 1 ∨ (∀ i ∈ regions tpl ranges false false ps, i = id) ∨
        ∃ pm ∈ ps, (r.parts = [] ∨ pm.1 ∈ r.parts) ∧ ∃ e ∈ visit (bounds tpl r) false pm.2, e.2 = id) := by
  unfold sentTo at h
  split at h
  · rename_i hl; exact ⟨h, .inl hl⟩
  · split at h
    · rename_i ha
      refine ⟨h, .inr (.inl fun i hi => ?_)⟩
      simpa using List.all_eq_true.1 ha i hi
    · rw [List.mem_filterMap] at h
      obtain ⟨i, hi, hr⟩ := h
      refine ⟨List.mem_of_getElem? hr, .inr (.inr ?_)⟩
      unfold rangesFor at hi
      rw [List.mem_filter, hr] at hi
      have hv : id ∈ visitParts (bounds tpl r) r.parts false false ps := by simpa using hi.2
      unfold visitParts at hv
      rw [List.mem_flatMap] at hv
      obtain ⟨pm, hpm, hv⟩ := hv
      split at hv
      · cases hv
      · rename_i hc
        rw [if_neg (by decide)] at hv
        obtain ⟨e, he, heid⟩ := List.mem_map.1 hv
        refine ⟨pm, hpm, ?_, e, he, heid⟩
        by_cases hp : r.parts = []
        · exact .inl hp
        · right
          by_contra hn
          exact hc (by simp [hp, hn])

/-- C11.  A binlog query goes to every region of every partition. -/
theorem C11_binlog {tpl : Option Tpl} {ranges : List Rng} {ps : Parts} {fe : Bool} (hne : ranges ≠ []) (id : Nat) :
    id ∈ regions tpl ranges true fe ps ↔ ∃ pm ∈ ps, ∃ e ∈ pm.2, e.2 = id := by
  have hv : ∀ r : Rng, id ∈ visitParts (bounds tpl r) r.parts true fe ps ↔ ∃ pm ∈ ps, ∃ e ∈ pm.2, e.2 = id := by
    intro r
    unfold visitParts
    rw [List.mem_flatMap]
    simp
  unfold regions
  rw [List.mem_flatMap]
  constructor
  · rintro ⟨r, _, h⟩; exact (hv r).1 h
  · intro h
    cases ranges with
    | nil => exact absurd rfl hne
    | cons r t => exact ⟨r, List.mem_cons_self, (hv r).2 h⟩

/-! ### Old regions and records -/

/-- C11, transaction recovery: exactly the regions that overlap `[start, stop)`. -/
theorem C11_recovery {m : KeyMap} (hs : Sorted m) {start stop : Bytes} (hne : stop = [] ∨ BLt start stop) (e : Bytes × Nat) :
    (∃ x, Region.Covers start stop x ∧ Owner m x e) ↔ e ∈ visitOld start stop m := by
  have hv : e ∈ visitOld start stop m ↔ e ∈ m ∧ (stop = [] ∨ BLt e.1 stop) ∧ ∀ e' ∈ m, BLt e.1 e'.1 → BLt start e'.1 := by
    have h0 : visitOld start stop m = (fromHere ⟨start, true, false, [], false⟩ m).takeWhile
        fun e => stop == [] || bcmp e.1 stop == .lt := by
      unfold visitOld fromHere before after sentinel; simp; rfl
    obtain ⟨pre, hp⟩ := fromHere_suffix ⟨start, true, false, [], false⟩ m
    have hsf : Sorted (fromHere ⟨start, true, false, [], false⟩ m) := by
      unfold Sorted at *
      rw [hp] at hs
      exact (List.pairwise_append.1 hs).2.1
    rw [h0, (sorted_takeWhile hsf _ (fun a c h hle => by
      simp only [Bool.or_eq_true, beq_iff_eq] at h ⊢
      rcases h with h | h
      · exact .inl h
      · exact .inr (BLe.trans_lt hle h)) e).1, mem_fromHere hs]
    unfold After
    simp only [Bool.false_eq_true, if_false, Bool.or_eq_true, beq_iff_eq]
    constructor
    · rintro ⟨⟨h1, h2⟩, h3⟩; exact ⟨h1, h3, h2⟩
    · rintro ⟨h1, h3, h2⟩; exact ⟨⟨h1, h2⟩, h3⟩
  rw [hv]
  constructor
  · rintro ⟨x, ⟨c1, c2⟩, o1, o2, o3⟩
    refine ⟨o1, ?_, ?_⟩
    · rcases c2 with h | h
      · exact .inl h
      · exact .inr (BLe.trans_lt o2 h)
    · intro e' he' hlt
      have : BLt x e'.1 := by
        by_contra hc
        exact not_BLt.2 (o3 e' he' (not_BLt.1 hc)) hlt
      exact BLe.trans_lt c1 this
  · rintro ⟨h1, h2, h3⟩
    by_cases hc : BLe e.1 start
    · refine ⟨start, ⟨BLe.refl _, hne⟩, h1, hc, fun e' he' hle => ?_⟩
      by_contra hn
      exact not_BLt.2 hle (h3 e' he' (not_BLe.1 hn))
    · exact ⟨e.1, ⟨(not_BLe.1 hc).le, h2⟩, h1, BLe.refl _, fun e' _ hle => hle⟩

/-- C11, records: the region chosen is the one that holds the key, and there is always one when the map begins at the
empty key. -/
theorem C11_record {m : KeyMap} (hs : Sorted m) (key : Bytes) :
    (∀ id, regionOf key m = some id ↔ ∃ e, Owner m key e ∧ e.2 = id) ∧
    ((∃ e ∈ m, e.1 = []) → (regionOf key m).isSome = true) := by
  have hsplit := fun e => sorted_takeWhile hs (fun e => bcmp e.1 key != .gt)
    (fun a c hc hac => by rw [le_test] at hc ⊢; exact BLe.trans hac hc) e
  have hpw : (m.takeWhile fun e => bcmp e.1 key != .gt).Pairwise fun a b => BLt a.1 b.1 :=
    List.Pairwise.sublist (List.takeWhile_sublist _) hs
  have hown : ∀ e, (m.takeWhile fun e => bcmp e.1 key != .gt).getLast? = some e ↔ Owner m key e := by
    intro e
    constructor
    · intro h
      obtain ⟨ys, hy⟩ := List.getLast?_eq_some_iff.1 h
      have hmem := (hsplit e).1.1 (by rw [hy]; simp)
      refine ⟨hmem.1, le_test.1 hmem.2, fun e' he' hle => ?_⟩
      have h' := (hsplit e').1.2 ⟨he', le_test.2 hle⟩
      rw [hy] at h' hpw
      rcases List.mem_append.1 h' with h' | h'
      · exact ((List.pairwise_append.1 hpw).2.2 e' h' e (by simp)).le
      · rw [List.mem_singleton] at h'; subst h'; exact BLe.refl _
    · rintro ⟨h1, h2, h3⟩
      have hin := (hsplit e).1.2 ⟨h1, le_test.2 h2⟩
      cases hl : (m.takeWhile fun e => bcmp e.1 key != .gt).getLast? with
      | none =>
        have : (m.takeWhile fun e => bcmp e.1 key != .gt) = [] := by simpa using hl
        rw [this] at hin; cases hin
      | some q =>
        obtain ⟨ys, hy⟩ := List.getLast?_eq_some_iff.1 hl
        have hq := (hsplit q).1.1 (by rw [hy]; simp)
        rw [hy] at hin hpw
        rcases List.mem_append.1 hin with h | h
        · have hlt := (List.pairwise_append.1 hpw).2.2 e h q (by simp)
          exact absurd hlt (not_BLt.2 (h3 q hq.1 (le_test.1 hq.2)))
        · rw [List.mem_singleton] at h; rw [h]
  constructor
  · intro id
    unfold regionOf
    rw [Option.map_eq_some_iff]
    constructor
    · rintro ⟨e, he, rfl⟩; exact ⟨e, (hown e).1 he, rfl⟩
    · rintro ⟨e, he, rfl⟩; exact ⟨e, (hown e).2 he, rfl⟩
  · rintro ⟨e, he, he0⟩
    have hin := (hsplit e).1.2 ⟨he, le_test.2 (by rw [he0]; exact BLe_nil _)⟩
    unfold regionOf
    cases hl : (m.takeWhile fun e => bcmp e.1 key != .gt).getLast? with
    | none =>
      have : (m.takeWhile fun e => bcmp e.1 key != .gt) = [] := by simpa using hl
      rw [this] at hin; cases hin
    | some q => rfl

/-- C11.  In a map that tiles the key space (C10) the owner of a key is the region whose range contains it. -/
theorem C11_owner_covers {infos : Nat → Option Region.RI} {m : KeyMap} (hg : Region.Good infos m) {x : Bytes}
    {e : Bytes × Nat} : Owner m x e ↔ e ∈ m ∧ ∃ r, infos e.2 = some r ∧ Region.Covers r.start r.stop x := by
  have fwd : ∀ e, Owner m x e → e ∈ m ∧ ∃ r, infos e.2 = some r ∧ Region.Covers r.start r.stop x := by
    rintro e ⟨h1, h2, h3⟩
    obtain ⟨e0, he0, ⟨r0, hr0, hc0⟩, _⟩ := hg.tiles x
    obtain ⟨r1, hr1, hs1, _⟩ := hg.filed e0 he0
    rw [hr0] at hr1; injection hr1 with hr1; subst hr1
    have hle : BLe e0.1 e.1 := h3 e0 he0 (by rw [← hs1]; exact hc0.1)
    -- otherwise `e0` ends before `e` begins
    have : e0 = e := by
      obtain ⟨r2, hr2, hs2, _⟩ := hg.filed e h1
      obtain ⟨e3, he3, _, hu3⟩ := hg.tiles e.1
      have hne : Region.Covers r2.start r2.stop e.1 := by
        obtain ⟨l, ls, lk, li⟩ := hg
        rw [lk] at h1
        obtain ⟨z, hz, rfl⟩ := List.mem_map.1 h1
        rw [show (Region.ent z).2 = z.id from rfl, li z hz] at hr2
        injection hr2 with hr2; subst hr2
        exact ⟨by rw [hs2]; exact BLe.refl _, by rw [← hs2]; exact Region.seg_ne ls z hz⟩
      have h4 := hu3 e h1 ⟨r2, hr2, hne⟩
      have h5 := hu3 e0 he0 ⟨r0, hr0, by rw [hs1]; exact hle, by
        rcases hc0.2 with h | h
        · exact .inl h
        · exact .inr (BLe.trans_lt h2 h)⟩
      rw [h4, h5]
    subst this
    exact ⟨h1, r0, hr0, hc0⟩
  refine ⟨fwd e, ?_⟩
  rintro ⟨he, r, hr, hc⟩
  obtain ⟨r', hr', hs', _⟩ := hg.filed e he
  rw [hr] at hr'; injection hr' with hr'; subst hr'
  refine ⟨he, by rw [← hs']; exact hc.1, fun e' he' hle => ?_⟩
  obtain ⟨r2, hr2, hs2, _⟩ := hg.filed e' he'
  by_contra hn
  have hlt := not_BLe.1 hn
  obtain ⟨e3, _, _, hu3⟩ := hg.tiles e'.1
  have hne : Region.Covers r2.start r2.stop e'.1 := by
    obtain ⟨l, ls, lk, li⟩ := hg
    rw [lk] at he'
    obtain ⟨z, hz, rfl⟩ := List.mem_map.1 he'
    rw [show (Region.ent z).2 = z.id from rfl, li z hz] at hr2
    injection hr2 with hr2; subst hr2
    exact ⟨by rw [hs2]; exact BLe.refl _, by rw [← hs2]; exact Region.seg_ne ls z hz⟩
  have h4 := hu3 e' he' ⟨r2, hr2, hne⟩
  have h5 := hu3 e he ⟨r, hr, by rw [hs']; exact hlt.le, by
    rcases hc.2 with h | h
    · exact .inl h
    · exact .inr (BLe.trans_lt hle h)⟩
  rw [h4, h5] at hlt
  exact BLt.irrefl _ hlt

/-! ## Concrete cases -/

def exMap : KeyMap := [([], 1), ([0x62#8], 2), ([0x62#8, 0x05#8], 3), ([0x6d#8], 4)]

example : Sorted exMap := by unfold Sorted exMap; simp only [List.pairwise_cons]; decide

/-- `> "b"` on a prefix column skips the regions that hold only keys beginning with "b", but not the last of them. -/
example : visit ⟨[0x62#8], false, true, [], false⟩ false exMap = [([0x62#8, 0x05#8], 3), ([0x6d#8], 4)] := by decide

/-- `<= "b"` reaches the regions of keys beginning with "b". -/
example : visit ⟨[], false, false, [0x62#8], false⟩ false exMap = [([], 1), ([0x62#8], 2), ([0x62#8, 0x05#8], 3)] := by decide

example : InBounds ⟨[0x62#8], false, true, [], false⟩ [0x63#8] ∧ Owner exMap [0x63#8] ([0x62#8, 0x05#8], 3) := by
  refine ⟨⟨⟨by decide, by decide⟩, .inl rfl⟩, by decide, by decide, by decide⟩

/-- Two ranges over two partitions, one of them meant for partition 1 only. -/
example : regions none [⟨[], [0x61#8], false, false, false, [1]⟩, ⟨[0x6d#8], [], false, false, false, []⟩] false false
    [(0, exMap), (1, [([], 7), ([0x6d#8], 8)])] = [7, 4, 8] := by decide

end BaikalDB.Route
