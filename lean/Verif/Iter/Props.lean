import Verif.Iter.Model
import Verif.Region.RouteProps
import Mathlib.Data.List.TakeWhile

/-!
# A scan reads exactly the entries asked for
-/

namespace BaikalDB.Iter
open Route

/-! ## What is asked for -/

/-- The key is in the range: past the left end, not past the right end; an empty end is no bound, and an end with fewer
columns than the key stands for all keys beginning with it. -/
def Wanted (rg : Range) (x : Bytes) : Prop := (rg.left ≠ [] → LeftOk rg.left rg.leftOpen x) ∧ RightOk rg.right rg.rightOpen x

/-- The key belongs to the region. -/
def InReg (reg : Reg) (x : Bytes) : Prop := BLe reg.start x ∧ (reg.stop = [] ∨ BLt x reg.stop)

/-- The key of this index in this region is wanted; in the primary and in global indexes it has to belong to the region. -/
def Target (pre : Bytes) (check : Bool) (reg : Reg) (rg : Range) (k : Bytes) : Prop :=
  ∃ x, k = pre ++ x ∧ (check = true → InReg reg x) ∧ Wanted rg x

def Sorted (db : Db) : Prop := db.Pairwise fun a b => BLt a.1 b.1

/-! ## Byte strings -/

theorem blt_iff {a b : Bytes} : blt a b = true ↔ BLt a b := by simp [blt]
theorem ble_iff {a b : Bytes} : ble a b = true ↔ BLe a b := by simp [ble]
theorem startsWith_iff {k p : Bytes} : startsWith k p = true ↔ p <+: k := by simp [startsWith]

theorem lt_pre {p a b : Bytes} : BLt (p ++ a) (p ++ b) ↔ BLt a b := by simp [BLt, bcmp_append_left]
theorem le_pre {p a b : Bytes} : BLe (p ++ a) (p ++ b) ↔ BLe a b := by simp [BLe, bcmp_append_left]

theorem ones_prefix {n : Nat} {y : Bytes} (h : BLe (ones n) y) : ones n <+: y := by
  induction n generalizing y with
  | zero => exact List.nil_prefix
  | succ n ih =>
    cases y with
    | nil => exact absurd h (by simp [ones, List.replicate_succ, BLe, bcmp])
    | cons b y =>
      rw [ones, List.replicate_succ, BLe_cons] at h
      rcases h with h | ⟨rfl, h⟩
      · have := b.isLt
        simp at h
        omega
      · exact List.cons_prefix_cons.2 ⟨rfl, ih h⟩

theorem below_ones {r x : Bytes} {n : Nat} (hp : r <+: x) (hn : ¬ (r ++ ones n) <+: x) : BLt x (r ++ ones n) := by
  by_contra hc
  obtain ⟨y, rfl⟩ := hp
  have := ones_prefix (le_pre.1 (not_BLt.1 hc))
  exact hn ((List.prefix_append_right_inj r).2 this)

theorem le_nil {a : Bytes} (h : BLe a []) : a = [] := BLe.antisymm h (BLe_nil a)

theorem not_lt_nil (a : Bytes) : ¬ BLt a [] := fun h => not_BLt.2 (BLe_nil a) h

theorem LeftOk.mono {l : Bytes} {o : Bool} {x y : Bytes} (h : LeftOk l o x) (hxy : BLe x y) : LeftOk l o y := by
  unfold LeftOk at *
  split at h
  · rename_i ho; rw [if_pos ho]; exact h.mono hxy
  · rename_i ho; rw [if_neg ho]; exact h.trans hxy

theorem RightOk.anti {r : Bytes} {o : Bool} {x y : Bytes} (h : RightOk r o y) (hxy : BLe x y) : RightOk r o x := by
  rcases h with h | h | ⟨ho, h⟩
  · exact .inl h
  · exact .inr (.inl (hxy.trans_lt h))
  · by_cases hx : BLt x r
    · exact .inr (.inl hx)
    · obtain ⟨t, rfl⟩ := h
      exact .inr (.inr ⟨ho, prefix_between (not_BLt.1 hx) hxy⟩)

/-! ## The bounds `open` works out -/

/-- What `open` sets, before the check that there is anything to read. -/
def itOf (pre : Bytes) (check : Bool) (reg : Reg) (rg : Range) : It :=
  if check then
    ⟨pre ++ rg.left, pre ++ rg.right, pre ++ (lowerOf rg.left (if rg.left ≠ [] then rg.leftOpen else false) reg).1,
     pre ++ upperOf rg.right (if rg.right ≠ [] then rg.rightOpen else false) reg,
     (lowerOf rg.left (if rg.left ≠ [] then rg.leftOpen else false) reg).2,
     if rg.right ≠ [] then rg.rightOpen else false,
     decide (upperOf rg.right (if rg.right ≠ [] then rg.rightOpen else false) reg = reg.stop)⟩
  else ⟨pre ++ rg.left, pre ++ rg.right, pre ++ rg.left, pre ++ rg.right, if rg.left ≠ [] then rg.leftOpen else false,
     if rg.right ≠ [] then rg.rightOpen else false, false⟩

theorem openIt_eq (pre : Bytes) (check : Bool) (reg : Reg) (rg : Range) :
    openIt pre check reg rg = some (itOf pre check reg rg) ∨
    (openIt pre check reg rg = none ∧ check = true ∧ ∃ l u, (itOf pre check reg rg).lower = pre ++ l ∧
      (itOf pre check reg rg).upper = pre ++ u ∧ BLt u l ∧ ¬ u <+: l) := by
  unfold openIt itOf
  cases check with
  | false => exact .inl rfl
  | true =>
    simp only [if_true]
    by_cases h : (blt (upperOf rg.right (if rg.right ≠ [] then rg.rightOpen else false) reg)
        (lowerOf rg.left (if rg.left ≠ [] then rg.leftOpen else false) reg).1 &&
        !startsWith (lowerOf rg.left (if rg.left ≠ [] then rg.leftOpen else false) reg).1
          (upperOf rg.right (if rg.right ≠ [] then rg.rightOpen else false) reg)) = true
    · rw [if_pos h]
      rw [Bool.and_eq_true, blt_iff, Bool.not_eq_true', ← Bool.not_eq_true, startsWith_iff] at h
      exact .inr ⟨rfl, trivial, _, _, rfl, rfl, h.1, h.2⟩
    · rw [if_neg h]
      exact .inl rfl

/-- What the left side of an iterator means. -/
structure LeftSide (pre : Bytes) (check : Bool) (reg : Reg) (rg : Range) (it : It) (l : Bytes) : Prop where
  lower : it.lower = pre ++ l
  left : it.left = pre ++ rg.left
  pfx : it.leftOpen = true → rg.left <+: l
  fits : ∀ x, fitsLeft it (pre ++ x) = true ↔ (check = true → BLe reg.start x) ∧ (rg.left ≠ [] → LeftOk rg.left rg.leftOpen x)

theorem fitsLeft_of {it : It} {pre l lf : Bytes} (h1 : it.lower = pre ++ l) (h2 : it.left = pre ++ lf) (x : Bytes) :
    fitsLeft it (pre ++ x) = true ↔ if it.leftOpen then BLt l x ∧ ¬ lf <+: x else BLe l x := by
  unfold fitsLeft
  rw [h1, h2]
  cases it.leftOpen with
  | false => simp [ble_iff, le_pre]
  | true =>
    simp only [Bool.not_true, Bool.false_eq_true, if_false, if_true, Bool.and_eq_true, blt_iff, lt_pre, Bool.not_eq_true',
      ← Bool.not_eq_true, startsWith_iff, List.prefix_append_right_inj]

theorem leftSide (pre : Bytes) (check : Bool) (reg : Reg) (rg : Range) : ∃ l, LeftSide pre check reg rg (itOf pre check reg rg) l := by
  cases check with
  | false =>
    refine ⟨rg.left, rfl, rfl, fun _ => List.prefix_refl _, fun x => ?_⟩
    rw [fitsLeft_of (l := rg.left) (lf := rg.left) rfl rfl]
    by_cases hl : rg.left = []
    · simp [itOf, hl, BLe_nil]
    · cases ho : rg.leftOpen <;> simp [itOf, hl, ho, LeftOk, Beyond]
  | true =>
    have hlow : ∀ o, (lowerOf rg.left o reg).1 = if ble reg.start rg.left then rg.left else reg.start := by
      intro o; unfold lowerOf; split <;> simp
    refine ⟨(lowerOf rg.left (if rg.left ≠ [] then rg.leftOpen else false) reg).1, rfl, rfl, ?_, fun x => ?_⟩
    · intro ho
      simp only [itOf, if_true] at ho
      unfold lowerOf at ho ⊢
      split
      · exact List.prefix_refl _
      · rename_i h
        rw [if_neg h] at ho
        dsimp only at ho
        split at ho
        · split at ho
          · rename_i hp; exact startsWith_iff.1 hp
          · cases ho
        · cases ho
    · rw [fitsLeft_of (l := (lowerOf rg.left (if rg.left ≠ [] then rg.leftOpen else false) reg).1) (lf := rg.left) rfl rfl]
      simp only [itOf, if_true, true_implies]
      unfold lowerOf
      by_cases hs : BLe reg.start rg.left
      · rw [if_pos (ble_iff.2 hs)]
        by_cases hl : rg.left = []
        · rw [hl] at hs
          simp [hl, le_nil hs, BLe_nil]
        · cases ho : rg.leftOpen with
          | false =>
            simp only [hl, ne_eq, not_false_eq_true, if_true, Bool.false_eq_true, if_false, LeftOk, true_implies]
            exact ⟨fun h => ⟨hs.trans h, h⟩, fun h => h.2⟩
          | true =>
            simp only [hl, ne_eq, not_false_eq_true, if_true, LeftOk, Beyond, true_implies]
            exact ⟨fun h => ⟨hs.trans h.1.le, h⟩, fun h => h.2⟩
      · rw [if_neg (fun h => hs (ble_iff.1 h))]
        have hs' := not_BLe.1 hs
        by_cases hl : rg.left = []
        · simp [hl]
        · by_cases hp : rg.left <+: reg.start
          · rw [if_pos hl, if_pos (startsWith_iff.2 hp)]
            cases ho : rg.leftOpen with
            | false =>
              simp only [hl, ne_eq, not_false_eq_true, if_true, Bool.false_eq_true, if_false, LeftOk, true_implies]
              exact ⟨fun h => ⟨h, hs'.le.trans h⟩, fun h => h.1⟩
            | true =>
              simp only [hl, ne_eq, not_false_eq_true, if_true, LeftOk, Beyond, true_implies]
              constructor
              · exact fun h => ⟨h.1.le, hs'.trans h.1, h.2⟩
              · rintro ⟨h1, h2, h3⟩
                refine ⟨?_, h3⟩
                rcases BLe_iff.1 h1 with h | h
                · exact h
                · exact absurd (h ▸ hp) h3
          · rw [if_pos hl, if_neg (fun h => hp (startsWith_iff.1 h))]
            simp only [hl, ne_eq, not_false_eq_true, Bool.false_eq_true, if_false, true_implies]
            refine ⟨fun h => ⟨h, ?_⟩, fun h => h.1⟩
            have hb : Beyond rg.left reg.start := ⟨hs', hp⟩
            unfold LeftOk
            split
            · exact hb.mono h
            · exact hs'.le.trans h

/-- What the right side of an iterator means. -/
structure RightSide (pre : Bytes) (check : Bool) (reg : Reg) (rg : Range) (it : It) (u : Bytes) : Prop where
  upper : it.upper = pre ++ u
  /-- a closed end that is not the end of the region -/
  closed : it.rightOpen = false → it.upperIsEnd = false ∨ u = [] → u = rg.right
  ro : it.rightOpen = false → rg.right = [] ∨ rg.rightOpen = false
  fits : ∀ x, fitsRight pre.length it (pre ++ x) = true ↔
    (check = true → reg.stop = [] ∨ BLt x reg.stop) ∧ RightOk rg.right rg.rightOpen x
  /-- where such a key lies -/
  below : ∀ x, fitsRight pre.length it (pre ++ x) = true → BLt x u ∨ (it.rightOpen = false ∧ u = rg.right ∧ u <+: x)

theorem fitsRight_of {it : It} {pre u r : Bytes} (h1 : it.upper = pre ++ u) (h2 : it.right = pre ++ r) (x : Bytes) :
    fitsRight pre.length it (pre ++ x) = true ↔
      if it.rightOpen then BLt x u else if it.upperIsEnd then (u = [] ∨ BLt x u) else BLe x u ∨ r <+: x := by
  unfold fitsRight
  rw [h1, h2]
  cases it.rightOpen with
  | true => simp [blt_iff, lt_pre]
  | false =>
    cases it.upperIsEnd with
    | true =>
      simp only [Bool.false_eq_true, if_false, if_true, List.length_append, Nat.add_eq_left, List.length_eq_zero_iff]
      by_cases hu : u = []
      · simp [hu, startsWith]
      · simp [hu, blt_iff, lt_pre]
    | false =>
      simp [ble_iff, le_pre, startsWith_iff, List.prefix_append_right_inj]

theorem rightSide (pre : Bytes) (check : Bool) (reg : Reg) (rg : Range) : ∃ u, RightSide pre check reg rg (itOf pre check reg rg) u := by
  have hle : ∀ {x : Bytes}, BLe x rg.right ∨ rg.right <+: x ↔ BLt x rg.right ∨ rg.right <+: x := by
    intro x
    rw [BLe_iff]
    constructor
    · rintro ((h | h) | h)
      · exact .inl h
      · exact .inr (h ▸ List.prefix_refl _)
      · exact .inr h
    · rintro (h | h)
      · exact .inl (.inl h)
      · exact .inr h
  cases check with
  | false =>
    have hf : ∀ x, fitsRight pre.length (itOf pre false reg rg) (pre ++ x) = true ↔ RightOk rg.right rg.rightOpen x := by
      intro x
      rw [fitsRight_of (u := rg.right) (r := rg.right) rfl rfl]
      by_cases hr : rg.right = []
      · simp [itOf, hr, RightOk]
      · cases ho : rg.rightOpen with
        | true => simp [itOf, hr, ho, RightOk]
        | false =>
          simp only [itOf, hr, ho, RightOk, Bool.false_eq_true, if_false, ne_eq, not_false_eq_true, if_true, false_or, true_and]
          exact hle
    refine ⟨rg.right, rfl, fun _ _ => rfl, ?_, fun x => by simp [hf], ?_⟩
    · simp only [itOf, Bool.false_eq_true, if_false]
      by_cases hr : rg.right = []
      · simp [hr]
      · simp [hr]
    · intro x h
      rw [fitsRight_of (u := rg.right) (r := rg.right) rfl rfl] at h
      split at h
      · exact .inl h
      · rename_i ho
        have : (itOf pre false reg rg).upperIsEnd = false := rfl
        rw [this, if_neg (by simp)] at h
        rcases hle.1 h with h | h
        · exact .inl h
        · exact .inr ⟨by simpa using ho, rfl, h⟩
  | true =>
    by_cases hr : rg.right = []
    · -- no right end: the end of the region
      have hu : upperOf rg.right (if rg.right ≠ [] then rg.rightOpen else false) reg = reg.stop := by
        unfold upperOf
        simp [hr]
      have e : itOf pre true reg rg = ⟨pre ++ rg.left, pre ++ rg.right, pre ++ (lowerOf rg.left (if rg.left ≠ [] then rg.leftOpen else false) reg).1,
          pre ++ reg.stop, (lowerOf rg.left (if rg.left ≠ [] then rg.leftOpen else false) reg).2, false, true⟩ := by
        unfold itOf
        rw [if_pos rfl, hu]
        simp [hr]
      rw [e]
      refine ⟨reg.stop, rfl, ?_, fun _ => .inl hr, fun x => ?_, fun x h => ?_⟩
      · rintro _ (h | h)
        · cases h
        · rw [hr, h]
      · rw [fitsRight_of (u := reg.stop) (r := rg.right) rfl rfl]
        simp [hr, RightOk]
      · rw [fitsRight_of (u := reg.stop) (r := rg.right) rfl rfl] at h
        simp only [Bool.false_eq_true, if_false, if_true] at h
        rcases h with h | h
        · exact .inr ⟨rfl, by rw [hr, h], h ▸ List.nil_prefix⟩
        · exact .inl h
    · have hro : (if rg.right ≠ [] then rg.rightOpen else false) = rg.rightOpen := if_pos hr
      have hrr : ∀ {x}, RightOk rg.right rg.rightOpen x ↔ BLt x rg.right ∨ (rg.rightOpen = false ∧ rg.right <+: x) := by
        intro x; simp [RightOk, hr]
      by_cases hs : reg.stop = [] ∨ BLt rg.right reg.stop
      · by_cases hp : rg.right <+: reg.stop
        · have hstop : reg.stop ≠ [] := by
            rintro h; rw [h] at hp; exact hr (List.prefix_nil.1 hp)
          have hlt : BLt rg.right reg.stop := hs.resolve_left hstop
          cases ho : rg.rightOpen with
          | false =>
            have e : itOf pre true reg rg = ⟨pre ++ rg.left, pre ++ rg.right, pre ++ (lowerOf rg.left (if rg.left ≠ [] then rg.leftOpen else false) reg).1,
                pre ++ reg.stop, (lowerOf rg.left (if rg.left ≠ [] then rg.leftOpen else false) reg).2, false, true⟩ := by
              unfold itOf upperOf
              simp [hr, ho, hs, hp, startsWith, blt_iff]
            rw [e]
            have hf : ∀ x, fitsRight pre.length ⟨pre ++ rg.left, pre ++ rg.right, pre ++ (lowerOf rg.left (if rg.left ≠ [] then rg.leftOpen else false) reg).1,
                pre ++ reg.stop, (lowerOf rg.left (if rg.left ≠ [] then rg.leftOpen else false) reg).2, false, true⟩ (pre ++ x) = true ↔ BLt x reg.stop := by
              intro x
              rw [fitsRight_of (u := reg.stop) (r := rg.right) rfl rfl]
              simp [hstop]
            refine ⟨reg.stop, rfl, ?_, fun _ => .inr ho, fun x => ?_, fun x h => .inl ((hf x).1 h)⟩
            · rintro _ (h | h)
              · cases h
              · exact absurd h hstop
            · rw [hf, hrr]
              simp only [hstop, false_or, true_implies, ho, true_and]
              constructor
              · intro h
                refine ⟨h, ?_⟩
                by_cases hx : BLt x rg.right
                · exact .inl hx
                · obtain ⟨t, ht⟩ := hp
                  rw [← ht] at h
                  exact .inr (prefix_between (not_BLt.1 hx) h.le)
              · exact fun h => h.1
          | true =>
            have e : upperOf rg.right (if rg.right ≠ [] then rg.rightOpen else false) reg = rg.right := by
              unfold upperOf
              simp [hr, ho, hs, hp, startsWith, blt_iff]
            have hop : (itOf pre true reg rg).rightOpen = true := by simp [itOf, hr, ho]
            have hup : (itOf pre true reg rg).upper = pre ++ rg.right := by simp only [itOf, if_true, e]
            refine ⟨rg.right, hup, by simp [hop], by simp [hop], fun x => ?_, fun x h => ?_⟩
            · rw [fitsRight_of (u := rg.right) (r := rg.right) hup rfl, hop, if_pos rfl, hrr]
              simp only [hstop, false_or, true_implies, ho, Bool.true_eq_false, false_and, or_false]
              exact ⟨fun h => ⟨h.trans hlt, h⟩, fun h => h.2⟩
            · rw [fitsRight_of (u := rg.right) (r := rg.right) hup rfl, hop, if_pos rfl] at h
              exact .inl h
        · have e : upperOf rg.right (if rg.right ≠ [] then rg.rightOpen else false) reg = rg.right := by
            unfold upperOf
            simp [hr, hs, hp, startsWith, blt_iff]
          have hne : rg.right ≠ reg.stop := fun h => hp (h ▸ List.prefix_refl _)
          have hop : (itOf pre true reg rg).rightOpen = rg.rightOpen := by simp [itOf, hr]
          have hup : (itOf pre true reg rg).upper = pre ++ rg.right := by simp only [itOf, if_true, e]
          have hend : (itOf pre true reg rg).upperIsEnd = false := by simp only [itOf, if_true, e]; simp [hne]
          have hin : ∀ x, RightOk rg.right rg.rightOpen x → reg.stop = [] ∨ BLt x reg.stop := by
            intro x hx
            rcases hs with hs | hs
            · exact .inl hs
            · refine .inr ?_
              rcases hrr.1 hx with h | ⟨_, h⟩
              · exact h.trans hs
              · obtain ⟨t, rfl⟩ := h
                exact Beyond.above ⟨hs, hp⟩ t
          have hf : ∀ x, fitsRight pre.length (itOf pre true reg rg) (pre ++ x) = true ↔ RightOk rg.right rg.rightOpen x := by
            intro x
            rw [fitsRight_of (u := rg.right) (r := rg.right) hup rfl, hop, hend, hrr]
            cases rg.rightOpen with
            | true => simp
            | false =>
              simp only [Bool.false_eq_true, if_false, true_and]
              exact hle
          refine ⟨rg.right, hup, fun _ _ => rfl, fun h => .inr (hop ▸ h), fun x => ?_, fun x h => ?_⟩
          · rw [hf]
            exact ⟨fun h => ⟨fun _ => hin x h, h⟩, fun h => h.2⟩
          · rcases hrr.1 ((hf x).1 h) with h | ⟨ho, h⟩
            · exact .inl h
            · exact .inr ⟨hop ▸ ho, rfl, h⟩
      · push Not at hs
        have e : upperOf rg.right (if rg.right ≠ [] then rg.rightOpen else false) reg = reg.stop := by
          unfold upperOf
          rw [if_neg]
          rw [blt_iff]
          rintro (h | h)
          · exact hs.1 h
          · exact hs.2 h
        have hge := not_BLt.1 hs.2
        have hop : (itOf pre true reg rg).rightOpen = rg.rightOpen := by simp [itOf, hr]
        have hup : (itOf pre true reg rg).upper = pre ++ reg.stop := by simp only [itOf, if_true, e]
        have hend : (itOf pre true reg rg).upperIsEnd = true := by simp only [itOf, if_true, e]; simp
        have hf : ∀ x, fitsRight pre.length (itOf pre true reg rg) (pre ++ x) = true ↔ BLt x reg.stop := by
          intro x
          rw [fitsRight_of (u := reg.stop) (r := rg.right) hup rfl, hop, hend]
          cases rg.rightOpen <;> simp [hs.1]
        refine ⟨reg.stop, hup, ?_, fun h => .inr (hop ▸ h), fun x => ?_, fun x h => .inl ((hf x).1 h)⟩
        · rintro _ (h | h)
          · rw [hend] at h; cases h
          · exact absurd h hs.1
        · rw [hf, hrr]
          simp only [hs.1, false_or, true_implies]
          exact ⟨fun h => ⟨h, .inl (BLt.trans_le h hge)⟩, fun h => h.1⟩

/-! ## Walking a sorted list -/

theorem while_filter {α : Type} {r : α → α → Prop} {P : α → Bool} {l : List α} (hs : l.Pairwise r)
    (hp : ∀ a ∈ l, ∀ b ∈ l, r a b → P b = true → P a = true) :
    l.takeWhile P = l.filter P ∧ l.dropWhile P = l.filter fun a => !P a := by
  induction l with
  | nil => exact ⟨rfl, rfl⟩
  | cons a t ih =>
    rw [List.pairwise_cons] at hs
    obtain ⟨i1, i2⟩ := ih hs.2 (fun x hx y hy => hp x (by simp [hx]) y (by simp [hy]))
    by_cases ha : P a = true
    · rw [List.takeWhile_cons, if_pos ha, List.dropWhile_cons, if_pos ha, List.filter_cons, if_pos ha, List.filter_cons,
        if_neg (by simp [ha]), i1, i2]
      exact ⟨rfl, rfl⟩
    · rw [List.takeWhile_cons, if_neg ha, List.dropWhile_cons, if_neg ha]
      have hall : ∀ b ∈ a :: t, P b = false := by
        intro b hb
        rcases List.mem_cons.1 hb with rfl | hb
        · simpa using ha
        · by_contra hc
          exact ha (hp a (by simp) b (by simp [hb]) (hs.1 b hb) (by simpa using hc))
      constructor
      · symm
        rw [List.filter_eq_nil_iff]
        intro b hb
        simp [hall b hb]
      · symm
        rw [List.filter_eq_self]
        intro b hb
        simp [hall b hb]

/-! ## The two directions -/

section
variable {pre : Bytes} {check : Bool} {reg : Reg} {rg : Range}

theorem target_fits {it : It} {l u : Bytes} (hl : LeftSide pre check reg rg it l) (hr : RightSide pre check reg rg it u) (k : Bytes) :
    Target pre check reg rg k ↔ ∃ x, k = pre ++ x ∧ fitsLeft it k = true ∧ fitsRight pre.length it k = true := by
  constructor
  · rintro ⟨x, rfl, h1, h2, h3⟩
    exact ⟨x, rfl, (hl.fits x).2 ⟨fun h => (h1 h).1, h2⟩, (hr.fits x).2 ⟨fun h => (h1 h).2, h3⟩⟩
  · rintro ⟨x, rfl, h1, h2⟩
    rw [hl.fits] at h1
    rw [hr.fits] at h2
    exact ⟨x, rfl, fun h => ⟨h1.1 h, h2.1 h⟩, h1.2, h2.2⟩

/-- Keys from the lower to the upper seek key belong to the index in the region. -/
theorem between_pre {it : It} {l u : Bytes} (hl : LeftSide pre check reg rg it l) (hr : RightSide pre check reg rg it u) {k : Bytes}
    (h1 : BLe (seekLow it) k) (h2 : BLe k (seekHigh it)) : ∃ x, k = pre ++ x := by
  have h1' : BLe pre k := by
    refine BLe.trans (b := seekLow it) ?_ h1
    unfold seekLow
    rw [hl.lower]
    split <;> exact prefix_le (by simp [List.append_assoc])
  have h2' : ∃ t, seekHigh it = pre ++ t := by
    unfold seekHigh
    rw [hr.upper]
    split
    · exact ⟨_, List.append_assoc _ _ _⟩
    · exact ⟨_, rfl⟩
  obtain ⟨t, ht⟩ := h2'
  rw [ht] at h2
  obtain ⟨x, hx⟩ := prefix_between h1' h2
  exact ⟨x, hx.symm⟩

/-- What fits on the left is not below the lower seek key. -/
theorem fits_low {it : It} {l : Bytes} (hl : LeftSide pre check reg rg it l) {x : Bytes} (h : fitsLeft it (pre ++ x) = true) :
    BLe (seekLow it) (pre ++ x) := by
  rw [fitsLeft_of hl.lower hl.left] at h
  unfold seekLow
  rw [hl.lower]
  split
  · rename_i ho
    rw [if_pos ho] at h
    obtain ⟨t, ht⟩ := hl.pfx ho
    rw [List.append_assoc, le_pre, ← ht, List.append_assoc]
    have hlt : BLt rg.left x := by
      refine BLe.trans_lt (b := l) ?_ h.1
      exact prefix_le ⟨t, ht⟩
    exact (Beyond.above ⟨hlt, h.2⟩ _).le
  · rename_i ho
    rw [if_neg ho] at h
    exact le_pre.2 h

/-- What fits on the right is below the upper seek key, unless 24 bytes 0xFF follow the right end. -/
theorem fits_high {it : It} {u : Bytes} (hr : RightSide pre check reg rg it u) {x : Bytes} (h : fitsRight pre.length it (pre ++ x) = true)
    (hff : rg.right = [] ∨ rg.rightOpen = false → ¬ (rg.right ++ ones 24) <+: x) : BLt (pre ++ x) (seekHigh it) := by
  unfold seekHigh
  rw [hr.upper]
  rcases hr.below x h with h | ⟨ho, hu, h⟩
  · split
    · rw [List.append_assoc, lt_pre]
      exact BLt.trans_le h (BLe_append _ _)
    · exact lt_pre.2 h
  · rw [ho, if_pos (by rfl), List.append_assoc, lt_pre, hu]
    rw [hu] at h
    exact below_ones h (hff (hr.ro ho))

theorem fitsLeft_mono {it : It} {l : Bytes} (hl : LeftSide pre check reg rg it l) {x y : Bytes} (hxy : BLe x y)
    (h : fitsLeft it (pre ++ x) = true) : fitsLeft it (pre ++ y) = true := by
  rw [hl.fits] at h ⊢
  exact ⟨fun hc => (h.1 hc).trans hxy, fun hne => LeftOk.mono (h.2 hne) hxy⟩

theorem fitsRight_anti {it : It} {u : Bytes} (hr : RightSide pre check reg rg it u) {x y : Bytes} (hxy : BLe x y)
    (h : fitsRight pre.length it (pre ++ y) = true) : fitsRight pre.length it (pre ++ x) = true := by
  rw [hr.fits] at h ⊢
  refine ⟨fun hc => ?_, RightOk.anti h.2 hxy⟩
  rcases h.1 hc with h | h
  · exact .inl h
  · exact .inr (BLe.trans_lt hxy h)

theorem forward_eq {it : It} {l u : Bytes} (hl : LeftSide pre check reg rg it l) (hr : RightSide pre check reg rg it u) {db : Db}
    (hs : Sorted db) :
    forward pre.length it db = db.filter fun e =>
      (ble (seekLow it) e.1 && blt e.1 (seekHigh it)) && (fitsLeft it e.1 && fitsRight pre.length it e.1) := by
  unfold forward
  have hw : Sorted (db.filter fun e => ble (seekLow it) e.1 && blt e.1 (seekHigh it)) := List.Pairwise.filter _ hs
  have hmem : ∀ e ∈ (db.filter fun e => ble (seekLow it) e.1 && blt e.1 (seekHigh it)), ∃ x, e.1 = pre ++ x := by
    intro e he
    have h := (List.mem_filter.1 he).2
    rw [Bool.and_eq_true, ble_iff, blt_iff] at h
    exact between_pre hl hr h.1 h.2.le
  have hR : ∀ a ∈ (db.filter fun e => ble (seekLow it) e.1 && blt e.1 (seekHigh it)),
      ∀ b ∈ (db.filter fun e => ble (seekLow it) e.1 && blt e.1 (seekHigh it)), BLt a.1 b.1 →
        fitsRight pre.length it b.1 = true → fitsRight pre.length it a.1 = true := by
    intro a ha b hb hab h
    obtain ⟨x, hx⟩ := hmem a ha
    obtain ⟨y, hy⟩ := hmem b hb
    rw [hx, hy] at hab
    rw [hy] at h
    rw [hx]
    exact fitsRight_anti hr (lt_pre.1 hab).le h
  have hD : ∀ a ∈ (db.filter fun e => ble (seekLow it) e.1 && blt e.1 (seekHigh it)),
      ∀ b ∈ (db.filter fun e => ble (seekLow it) e.1 && blt e.1 (seekHigh it)), BLt a.1 b.1 →
        (!fitsLeft it b.1 && fitsRight pre.length it b.1) = true → (!fitsLeft it a.1 && fitsRight pre.length it a.1) = true := by
    intro a ha b hb hab h
    rw [Bool.and_eq_true] at h ⊢
    refine ⟨?_, hR a ha b hb hab h.2⟩
    obtain ⟨x, hx⟩ := hmem a ha
    obtain ⟨y, hy⟩ := hmem b hb
    by_contra hc
    have hc' : fitsLeft it (pre ++ x) = true := by rw [← hx]; simpa using hc
    rw [hx, hy] at hab
    have := fitsLeft_mono hl (lt_pre.1 hab).le hc'
    rw [← hy] at this
    simp [this] at h
  dsimp only
  by_cases ho : it.leftOpen = true
  · rw [if_pos ho, (while_filter hw hD).2]
    rw [(while_filter (List.Pairwise.filter _ hw) (fun a ha b hb => hR a (List.mem_filter.1 ha).1 b (List.mem_filter.1 hb).1)).1]
    rw [List.filter_filter, List.filter_filter]
    apply List.filter_congr
    intro e _
    cases fitsLeft it e.1 <;> cases fitsRight pre.length it e.1 <;> simp
  · rw [if_neg ho, (while_filter hw hR).1, List.filter_filter]
    apply List.filter_congr
    intro e _
    by_cases hb : (ble (seekLow it) e.1 && blt e.1 (seekHigh it)) = true
    · have : fitsLeft it e.1 = true := by
        rw [Bool.and_eq_true] at hb
        unfold fitsLeft
        unfold seekLow at hb
        rw [if_neg ho] at hb
        simp [ho, hb.1]
      rw [hb, this]
      simp
    · rw [Bool.not_eq_true] at hb
      rw [hb]
      simp

theorem backward_eq {it : It} {l u : Bytes} (hl : LeftSide pre check reg rg it l) (hr : RightSide pre check reg rg it u) {db : Db}
    (hs : Sorted db) :
    backward pre.length it db = (db.filter fun e =>
      (ble (seekLow it) e.1 && ble e.1 (seekHigh it)) && (fitsLeft it e.1 && fitsRight pre.length it e.1)).reverse := by
  unfold backward
  dsimp only
  rw [← List.filter_reverse]
  have hw : (db.reverse.filter fun e => ble (seekLow it) e.1 && ble e.1 (seekHigh it)).Pairwise fun a b => BLt b.1 a.1 :=
    List.Pairwise.filter _ (List.pairwise_reverse.2 hs)
  have hmem : ∀ e ∈ (db.reverse.filter fun e => ble (seekLow it) e.1 && ble e.1 (seekHigh it)), ∃ x, e.1 = pre ++ x := by
    intro e he
    have h := (List.mem_filter.1 he).2
    rw [Bool.and_eq_true, ble_iff, ble_iff] at h
    exact between_pre hl hr h.1 h.2
  have hL : ∀ a ∈ (db.reverse.filter fun e => ble (seekLow it) e.1 && ble e.1 (seekHigh it)),
      ∀ b ∈ (db.reverse.filter fun e => ble (seekLow it) e.1 && ble e.1 (seekHigh it)), BLt b.1 a.1 →
        fitsLeft it b.1 = true → fitsLeft it a.1 = true := by
    intro a ha b hb hab h
    obtain ⟨x, hx⟩ := hmem a ha
    obtain ⟨y, hy⟩ := hmem b hb
    rw [hx, hy] at hab
    rw [hy] at h
    rw [hx]
    exact fitsLeft_mono hl (lt_pre.1 hab).le h
  have hD : ∀ a ∈ (db.reverse.filter fun e => ble (seekLow it) e.1 && ble e.1 (seekHigh it)),
      ∀ b ∈ (db.reverse.filter fun e => ble (seekLow it) e.1 && ble e.1 (seekHigh it)), BLt b.1 a.1 →
        (!fitsRight pre.length it b.1 && fitsLeft it b.1) = true → (!fitsRight pre.length it a.1 && fitsLeft it a.1) = true := by
    intro a ha b hb hab h
    rw [Bool.and_eq_true] at h ⊢
    refine ⟨?_, hL a ha b hb hab h.2⟩
    obtain ⟨x, hx⟩ := hmem a ha
    obtain ⟨y, hy⟩ := hmem b hb
    by_contra hc
    have hc' : fitsRight pre.length it (pre ++ x) = true := by rw [← hx]; simpa using hc
    rw [hx, hy] at hab
    have := fitsRight_anti hr (lt_pre.1 hab).le hc'
    rw [← hy] at this
    simp [this] at h
  rw [(while_filter hw hD).2]
  rw [(while_filter (List.Pairwise.filter _ hw) (fun a ha b hb => hL a (List.mem_filter.1 ha).1 b (List.mem_filter.1 hb).1)).1]
  rw [List.filter_filter, List.filter_filter, ← List.filter_reverse]
  apply List.filter_congr
  intro e _
  cases fitsLeft it e.1 <;> cases fitsRight pre.length it e.1 <;> simp

/-- Nothing is wanted when `open` gives up. -/
theorem none_target {l u l' u' : Bytes} (hl : LeftSide pre check reg rg (itOf pre check reg rg) l)
    (hr : RightSide pre check reg rg (itOf pre check reg rg) u) (el : (itOf pre check reg rg).lower = pre ++ l')
    (eu : (itOf pre check reg rg).upper = pre ++ u') (h1 : BLt u' l') (h2 : ¬ u' <+: l') (k : Bytes) : ¬ Target pre check reg rg k := by
  have e1 : l' = l := List.append_cancel_left (el.symm.trans hl.lower)
  have e2 : u' = u := List.append_cancel_left (eu.symm.trans hr.upper)
  subst e1 e2
  rw [target_fits hl hr]
  rintro ⟨x, rfl, hfl, hfr⟩
  have hlx : BLe l' x := by
    rw [fitsLeft_of hl.lower hl.left] at hfl
    split at hfl
    · exact hfl.1.le
    · exact hfl
  have hb : Beyond u' x := Beyond.mono ⟨h1, h2⟩ hlx
  rcases hr.below x hfr with h | ⟨_, _, h⟩
  · exact BLt.asymm h hb.1
  · exact hb.2 h

/-- **C53.** A forward scan hands out exactly the entries of the index that belong to the region, lie in the range and are
not passed over, each once and in key order - provided no wanted key goes on with 24 bytes 0xFF after the right end. -/
theorem C53_forward {db : Db} (hs : Sorted db) {skip : Bytes × Bytes → Bool}
    (hff : rg.right = [] ∨ rg.rightOpen = false → ∀ e ∈ db, Target pre check reg rg e.1 → ¬ (pre ++ rg.right ++ ones 24) <+: e.1)
    {q : Bytes × Bytes → Bool} (hq : ∀ e, q e = true ↔ Target pre check reg rg e.1 ∧ skip e = false) :
    scan pre check reg rg true skip db = db.filter q := by
  obtain ⟨l, hl⟩ := leftSide pre check reg rg
  obtain ⟨u, hr⟩ := rightSide pre check reg rg
  unfold scan
  rcases openIt_eq pre check reg rg with e | ⟨e, _, l', u', el, eu, h1, h2⟩
  · rw [e]
    simp only [if_true]
    rw [forward_eq hl hr hs, List.filter_filter]
    apply List.filter_congr
    intro e he
    rw [Bool.eq_iff_iff, hq, target_fits hl hr]
    simp only [Bool.and_eq_true, Bool.not_eq_true', ble_iff, blt_iff]
    constructor
    · rintro ⟨h0, ⟨h1, h2⟩, h3, h4⟩
      obtain ⟨x, hx⟩ := between_pre hl hr h1 h2.le
      exact ⟨⟨x, hx, h3, h4⟩, h0⟩
    · rintro ⟨⟨x, hx, h3, h4⟩, h0⟩
      refine ⟨h0, ⟨?_, ?_⟩, h3, h4⟩
      · rw [hx] at h3 ⊢
        exact fits_low hl h3
      · have ht := (target_fits hl hr e.1).2 ⟨x, hx, h3, h4⟩
        rw [hx] at h4 ⊢
        refine fits_high hr h4 (fun hc hp => ?_)
        refine hff hc e he ht ?_
        rw [hx, List.append_assoc]
        exact (List.prefix_append_right_inj pre).2 hp
  · rw [e]
    symm
    rw [List.filter_eq_nil_iff]
    intro e' _ hqe
    exact none_target hl hr el eu h1 h2 e'.1 ((hq e').1 hqe).1

/-- **C53.** A backward scan hands out the same entries in the opposite order. -/
theorem C53_backward {db : Db} (hs : Sorted db) {skip : Bytes × Bytes → Bool}
    (hff : rg.right = [] ∨ rg.rightOpen = false → ∀ e ∈ db, Target pre check reg rg e.1 → ¬ (pre ++ rg.right ++ ones 24) <+: e.1)
    {q : Bytes × Bytes → Bool} (hq : ∀ e, q e = true ↔ Target pre check reg rg e.1 ∧ skip e = false) :
    scan pre check reg rg false skip db = (db.filter q).reverse := by
  obtain ⟨l, hl⟩ := leftSide pre check reg rg
  obtain ⟨u, hr⟩ := rightSide pre check reg rg
  unfold scan
  rcases openIt_eq pre check reg rg with e | ⟨e, _, l', u', el, eu, h1, h2⟩
  · rw [e]
    simp only [Bool.false_eq_true, if_false]
    rw [backward_eq hl hr hs, List.filter_reverse, List.filter_filter]
    congr 1
    apply List.filter_congr
    intro e he
    rw [Bool.eq_iff_iff, hq, target_fits hl hr]
    simp only [Bool.and_eq_true, Bool.not_eq_true', ble_iff]
    constructor
    · rintro ⟨h0, ⟨h1, h2⟩, h3, h4⟩
      obtain ⟨x, hx⟩ := between_pre hl hr h1 h2
      exact ⟨⟨x, hx, h3, h4⟩, h0⟩
    · rintro ⟨⟨x, hx, h3, h4⟩, h0⟩
      refine ⟨h0, ⟨?_, ?_⟩, h3, h4⟩
      · rw [hx] at h3 ⊢
        exact fits_low hl h3
      · have ht := (target_fits hl hr e.1).2 ⟨x, hx, h3, h4⟩
        rw [hx] at h4 ⊢
        refine (fits_high hr h4 (fun hc hp => ?_)).le
        refine hff hc e he ht ?_
        rw [hx, List.append_assoc]
        exact (List.prefix_append_right_inj pre).2 hp
  · rw [e]
    symm
    rw [List.reverse_eq_nil_iff, List.filter_eq_nil_iff]
    intro e' _ hqe
    exact none_target hl hr el eu h1 h2 e'.1 ((hq e').1 hqe).1

end

end BaikalDB.Iter
