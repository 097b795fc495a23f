import Verif.Sort.Model
import Mathlib.Tactic.Common
import Mathlib.Data.List.Induction
/-! # Binary heaps: `shiftdown`, `shiftup`, `makeHeap` -/
namespace BaikalDB.Sort

variable {α : Type} {better : α → α → Bool}

/-- `better` is a strict weak order on the elements satisfying `P`. -/
structure Weak (better : α → α → Bool) (P : α → Prop) : Prop where
  asymm : ∀ x y, P x → P y → better x y = true → better y x = false
  trans : ∀ x y z, P x → P y → P z → better y x = false → better z y = false → better z x = false

/-- Element `a` may stand above element `b`. -/
def Above (better : α → α → Bool) (h : List α) (a b : Nat) : Prop :=
  ∀ x y, h[a]? = some x → h[b]? = some y → better y x = false

/-- `c` is a child of `a`. -/
def Child (a c : Nat) : Prop := c = 2 * a + 1 ∨ c = 2 * a + 2

/-- Heap order at the nodes from `k` on. -/
def HeapFrom (better : α → α → Bool) (k : Nat) (h : List α) : Prop := ∀ a c, k ≤ a → Child a c → Above better h a c

theorem swapAt_perm (h : List α) (a b : Nat) : (swapAt h a b).Perm h := by
  unfold swapAt
  split
  · rename_i x y hx hy
    obtain ⟨ha, rfl⟩ := List.getElem?_eq_some_iff.1 hx
    obtain ⟨hb, rfl⟩ := List.getElem?_eq_some_iff.1 hy
    exact List.set_set_perm ha hb
  · exact List.Perm.refl _

theorem getElem?_swapAt {h : List α} {a b : Nat} (ha : a < h.length) (hb : b < h.length) (c : Nat) :
    (swapAt h a b)[c]? = if c = b then h[a]? else if c = a then h[b]? else h[c]? := by
  unfold swapAt
  rw [List.getElem?_eq_getElem ha, List.getElem?_eq_getElem hb]
  simp only [List.getElem?_set, List.length_set]
  by_cases h1 : c = b
  · subst h1; simp [hb]
  · by_cases h2 : c = a
    · subst h2; simp [h1, ha, Ne.symm h1]
    · simp [h1, h2, Ne.symm h1, Ne.symm h2]

theorem betterAt_iff {h : List α} {a b : Nat} : betterAt better h a b = true ↔
    ∃ x y, h[a]? = some x ∧ h[b]? = some y ∧ better x y = true := by
  unfold betterAt
  split
  · rename_i x y hx hy
    constructor
    · intro h1; exact ⟨x, y, hx, hy, h1⟩
    · rintro ⟨x', y', e1, e2, h1⟩
      rw [hx] at e1; rw [hy] at e2
      simp only [Option.some.injEq] at e1 e2; subst e1; subst e2; exact h1
  · rename_i hn
    simp only [Bool.false_eq_true, false_iff, not_exists, not_and]
    intro x y e1 e2
    exact absurd e2 (fun e2 => hn x y e1 e2)

theorem betterAt_false {h : List α} {a b : Nat} (hf : ¬ betterAt better h a b = true) : Above better h b a := by
  intro x y hx hy
  cases hb : better y x with
  | false => rfl
  | true => exact absurd (betterAt_iff.2 ⟨y, x, hy, hx, hb⟩) hf

/-- The chosen node may stand above the node and both its children. -/
theorem pick_above {P : α → Prop} (w : Weak better P) {h : List α} (hP : ∀ x ∈ h, P x) (i : Nat) :
    Above better h (pick better h i) i ∧ Above better h (pick better h i) (2 * i + 1) ∧
      Above better h (pick better h i) (2 * i + 2) := by
  have mem : ∀ {j x}, h[j]? = some x → P x := fun hj => hP _ (List.mem_of_getElem? hj)
  have strict : ∀ {a b}, betterAt better h a b = true → Above better h a b := by
    intro a b hb x y hx hy
    obtain ⟨x', y', e1, e2, e3⟩ := betterAt_iff.1 hb
    rw [hx] at e1; rw [hy] at e2
    simp only [Option.some.injEq] at e1 e2; subst e1; subst e2
    exact w.asymm _ _ (mem hx) (mem hy) e3
  have refl : ∀ a, Above better h a a := by
    intro a x y hx hy
    rw [hx] at hy; simp only [Option.some.injEq] at hy; subst hy
    cases hb : better x x with
    | false => rfl
    | true => have := w.asymm x x (mem hx) (mem hx) hb; rw [hb] at this; exact this
  have trans : ∀ {a b c}, b < h.length → Above better h a b → Above better h b c → Above better h a c := by
    intro a b c hb h1 h2 x z hx hz
    have hy := List.getElem?_eq_getElem hb
    exact w.trans _ _ _ (mem hx) (mem hy) (mem hz) (h1 _ _ hx hy) (h2 _ _ hy hz)
  have len : ∀ {a b}, betterAt better h a b = true → a < h.length ∧ b < h.length := by
    intro a b hb
    obtain ⟨x', y', e1, e2, _⟩ := betterAt_iff.1 hb
    exact ⟨(List.getElem?_eq_some_iff.1 e1).1, (List.getElem?_eq_some_iff.1 e2).1⟩
  unfold pick
  simp only []
  by_cases h1 : betterAt better h (2 * i + 1) i = true
  · simp only [h1, if_true]
    split
    · rename_i h2
      have t := len h2.2
      exact ⟨trans t.2 (strict h2.2) (strict h1), strict h2.2, refl _⟩
    · rename_i h2
      refine ⟨strict h1, refl _, ?_⟩
      by_cases hl : 2 * i + 2 < h.length
      · exact betterAt_false (fun hb => h2 ⟨hl, hb⟩)
      · intro x y _ hy
        exact absurd (List.getElem?_eq_some_iff.1 hy).1 hl
  · simp only [h1, Bool.false_eq_true, if_false]
    split
    · rename_i h2
      have t := len h2.2
      exact ⟨strict h2.2, trans t.2 (strict h2.2) (betterAt_false h1), refl _⟩
    · rename_i h2
      refine ⟨refl _, betterAt_false h1, ?_⟩
      by_cases hl : 2 * i + 2 < h.length
      · exact betterAt_false (fun hb => h2 ⟨hl, hb⟩)
      · intro x y _ hy
        exact absurd (List.getElem?_eq_some_iff.1 hy).1 hl

theorem pick_lt {h : List α} {i : Nat} (hl : 2 * i + 1 < h.length) : pick better h i < h.length := by
  unfold pick; simp only []
  by_cases h1 : betterAt better h (2 * i + 1) i = true <;>
    simp only [h1, if_true, Bool.false_eq_true, if_false] <;> split <;> omega

theorem shiftdown_perm (h : List α) (i : Nat) : (shiftdown better h i).Perm h := by
  fun_induction shiftdown better h i with
  | case1 h i hl => exact List.Perm.refl _
  | case2 h i hl hm ih => exact ih.trans (swapAt_perm _ _ _)
  | case3 h i hl hm => exact List.Perm.refl _

/-- Heap order from `k` on, except possibly between `i` and its children. -/
def HeapBut (better : α → α → Bool) (k i : Nat) (h : List α) : Prop :=
  (∀ a c, k ≤ a → a ≠ i → Child a c → Above better h a c) ∧
  (∀ p c, k ≤ p → Child p i → Child i c → Above better h p c)

theorem shiftdown_heap {P : α → Prop} (w : Weak better P) {k : Nat} {h : List α} {i : Nat} (hP : ∀ x ∈ h, P x)
    (hk : k ≤ i) (hb : HeapBut better k i h) : HeapFrom better k (shiftdown better h i) := by
  fun_induction shiftdown better h i with
  | case1 h i hl =>
    intro a c ha hc
    by_cases hai : a = i
    · subst hai
      intro x y _ hy
      have := (List.getElem?_eq_some_iff.1 hy).1
      rcases hc with rfl | rfl <;> omega
    · exact hb.1 a c ha hai hc
  | case2 h i hl hm ih =>
    have hl' : 2 * i + 1 < h.length := by omega
    obtain ⟨p1, p2, p3⟩ := pick_above w hP i
    have hpl := pick_lt (better := better) hl'
    have hil : i < h.length := by omega
    have hch : Child i (pick better h i) := by
      rcases pick_cases better h i with e | e | e
      · exact absurd e hm
      · exact .inl e
      · exact .inr e
    have hpc : ∀ c, Child i c → Above better h (pick better h i) c := by
      rintro c (rfl | rfl)
      · exact p2
      · exact p3
    generalize pick better h i = m at *
    have hmi : i < m := by rcases hch with rfl | rfl <;> omega
    have g := fun c => getElem?_swapAt hpl hil c
    refine ih (fun x hx => hP x ((swapAt_perm _ _ _).mem_iff.1 hx)) (by omega) ⟨?_, ?_⟩
    · intro a c ha ham hc
      unfold Above
      rw [g, g]
      by_cases hai : a = i
      · subst hai
        have hca : c ≠ a := by rcases hc with rfl | rfl <;> omega
        simp only [if_true, if_neg hca]
        by_cases hcm : c = m
        · simp only [hcm, if_true]; exact p1
        · simp only [if_neg hcm]; exact hpc c hc
      · simp only [if_neg hai, if_neg ham]
        by_cases hci : c = i
        · subst hci; simp only [if_true]
          exact hb.2 a m ha hc hch
        · have hcm : c ≠ m := by
            rintro rfl
            apply hai
            rcases hc with e1 | e1 <;> rcases hch with e2 | e2 <;> omega
          simp only [if_neg hci, if_neg hcm]
          exact hb.1 a c ha hai hc
    · intro p c hp hpm hmc
      have hpi : p = i := by rcases hpm with e1 | e1 <;> rcases hch with e2 | e2 <;> omega
      subst hpi
      unfold Above
      rw [g, g]
      have h1 : c ≠ p := by rcases hmc with rfl | rfl <;> omega
      have h2 : c ≠ m := by rcases hmc with rfl | rfl <;> omega
      simp only [if_true, if_neg h1, if_neg h2]
      exact hb.1 m c (by omega) (by omega) hmc
  | case3 h i hl hm =>
    have hm : pick better h i = i := by simpa using hm
    obtain ⟨p1, p2, p3⟩ := pick_above w hP i
    rw [hm] at p2 p3
    intro a c ha hc
    by_cases hai : a = i
    · subst hai
      rcases hc with rfl | rfl
      · exact p2
      · exact p3
    · exact hb.1 a c ha hai hc

theorem makeHeapLoop_perm (n : Nat) (h : List α) : (makeHeapLoop better n h).Perm h := by
  induction n generalizing h with
  | zero => exact List.Perm.refl _
  | succ n ih => exact (ih _).trans (shiftdown_perm _ _)

theorem makeHeap_perm (h : List α) : (makeHeap better h).Perm h := makeHeapLoop_perm _ _

theorem makeHeapLoop_heap {P : α → Prop} (w : Weak better P) (n : Nat) {h : List α} (hP : ∀ x ∈ h, P x)
    (hh : HeapFrom better n h) : HeapFrom better 0 (makeHeapLoop better n h) := by
  induction n generalizing h with
  | zero => exact hh
  | succ n ih =>
    refine ih (fun x hx => hP x ((shiftdown_perm _ _).mem_iff.1 hx)) (shiftdown_heap w hP (Nat.le_refl n) ⟨?_, ?_⟩)
    · intro a c ha hn hc; exact hh a c (by omega) hc
    · intro p c hp hpn hc
      rcases hpn with e | e <;> omega

theorem makeHeap_heap {P : α → Prop} (w : Weak better P) {h : List α} (hP : ∀ x ∈ h, P x) :
    HeapFrom better 0 (makeHeap better h) := by
  refine makeHeapLoop_heap w _ hP ?_
  intro a c ha hc x y _ hy
  have := (List.getElem?_eq_some_iff.1 hy).1
  rcases hc with rfl | rfl <;> omega

/-- The root of a heap may stand above every element. -/
theorem heap_root {P : α → Prop} (w : Weak better P) {h : List α} (hP : ∀ x ∈ h, P x) (hh : HeapFrom better 0 h) (j : Nat) :
    j ≠ 0 → Above better h 0 j := by
  induction j using Nat.strongRecOn with
  | _ j ih =>
    intro hj
    have hc : Child ((j - 1) / 2) j := by unfold Child; omega
    have h1 := hh _ j (Nat.zero_le _) hc
    by_cases hp : (j - 1) / 2 = 0
    · rw [hp] at h1; exact h1
    · have h2 := ih _ (by omega) hp
      intro x z hx hz
      have hjl := (List.getElem?_eq_some_iff.1 hz).1
      have hy := List.getElem?_eq_getElem (l := h) (i := (j - 1) / 2) (by omega)
      have mem : ∀ {j x}, h[j]? = some x → P x := fun hj => hP _ (List.mem_of_getElem? hj)
      exact w.trans _ _ _ (mem hx) (mem hy) (mem hz) (h2 _ _ hx hy) (h1 _ _ hy hz)

theorem shiftup_perm (h : List α) (i : Nat) : (shiftup better h i).Perm h := by
  fun_induction shiftup better h i with
  | case1 h => exact List.Perm.refl _
  | case2 h i hi hm ih => exact ih.trans (swapAt_perm _ _ _)
  | case3 h i hi hm => exact List.Perm.refl _

/-- Heap order except possibly between `i` and its parent. -/
def HeapUp (better : α → α → Bool) (i : Nat) (h : List α) : Prop :=
  (∀ a c, c ≠ i → Child a c → Above better h a c) ∧ (∀ p c, Child p i → Child i c → Above better h p c)

theorem shiftup_heap {P : α → Prop} (w : Weak better P) {h : List α} {i : Nat} (hP : ∀ x ∈ h, P x) (hil : i < h.length)
    (hb : HeapUp better i h) : HeapFrom better 0 (shiftup better h i) := by
  fun_induction shiftup better h i with
  | case1 h =>
    intro a c _ hc
    exact hb.1 a c (by rcases hc with rfl | rfl <;> omega) hc
  | case2 h i hi hm ih =>
    have mem : ∀ {j x}, h[j]? = some x → P x := fun hj => hP _ (List.mem_of_getElem? hj)
    have hch : Child ((i - 1) / 2) i := by unfold Child; omega
    have hup : Above better h i ((i - 1) / 2) := by
      intro x y hx hy
      obtain ⟨x', y', e1, e2, e3⟩ := betterAt_iff.1 hm
      rw [hx] at e1; rw [hy] at e2
      simp only [Option.some.injEq] at e1 e2; subst e1; subst e2
      exact w.asymm _ _ (mem hx) (mem hy) e3
    generalize hp : (i - 1) / 2 = p at *
    have hpi : p < i := by omega
    have hpl : p < h.length := by omega
    have g := fun c => getElem?_swapAt hil hpl c
    have trans : ∀ {a b c}, b < h.length → Above better h a b → Above better h b c → Above better h a c := by
      intro a b c hb h1 h2 x z hx hz
      have hy := List.getElem?_eq_getElem hb
      exact w.trans _ _ _ (mem hx) (mem hy) (mem hz) (h1 _ _ hx hy) (h2 _ _ hy hz)
    refine ih (fun x hx => hP x ((swapAt_perm _ _ _).mem_iff.1 hx)) (by rw [length_swapAt]; exact hpl) ⟨?_, ?_⟩
    · intro a c hcp hc
      unfold Above
      rw [g, g]
      simp only [if_neg hcp]
      by_cases hap : a = p
      · subst hap
        simp only [if_true]
        by_cases hci : c = i
        · simp only [hci, if_true]; exact hup
        · simp only [if_neg hci]
          exact trans hpl hup (hb.1 a c hci hc)
      · simp only [if_neg hap]
        have hci : c ≠ i := by
          rintro rfl
          apply hap
          rcases hc with e1 | e1 <;> rcases hch with e2 | e2 <;> omega
        simp only [if_neg hci]
        by_cases hai : a = i
        · subst hai; simp only [if_true]
          exact hb.2 p c hch hc
        · simp only [if_neg hai]; exact hb.1 a c hci hc
    · intro q c hqp hpc
      have hqi : q ≠ i := by rcases hqp with e | e <;> omega
      have hqp' : q ≠ p := by rcases hqp with e | e <;> omega
      have hcp : c ≠ p := by rcases hpc with e | e <;> omega
      unfold Above
      rw [g, g]
      simp only [if_neg hqi, if_neg hqp', if_neg hcp]
      have h1 : Above better h q p := hb.1 q p (by omega) hqp
      by_cases hci : c = i
      · simp only [hci, if_true]; exact h1
      · simp only [if_neg hci]
        exact trans hpl h1 (hb.1 p c hci hpc)
  | case3 h i hi hm =>
    intro a c _ hc
    by_cases hci : c = i
    · subst hci
      have : a = (c - 1) / 2 := by rcases hc with e | e <;> omega
      rw [this]
      exact betterAt_false hm
    · exact hb.1 a c hci hc

end BaikalDB.Sort
