import Verif.Sort.Spec
import Verif.Sort.Heap
import Verif.Expr.Props
/-! # C22: the row comparison is the ORDER BY order -/
namespace BaikalDB.Sort
open Expr Expr.Spec

theorem sgn_neg (x : Int) : sgn (-x) = (sgn x).swap := by
  unfold sgn
  rcases Int.lt_trichotomy x 0 with h | h | h
  · rw [(int_compare_lt _ _).2 h, (int_compare_gt _ _).2 (by omega)]; rfl
  · subst h; rfl
  · rw [(int_compare_gt _ _).2 h, (int_compare_lt _ _).2 (by omega)]; rfl

theorem sgn_eq {x : Int} : sgn x = .eq ↔ x = 0 := by
  unfold sgn; rw [int_compare_eq]

/-- **C22.** Comparing two rows gives the ORDER BY order: column by column, each in its own direction, NULLs where they
belong. -/
theorem C22_compare_is_order_by {ρ : Type} {ty : Key ρ → VTy} {ks : List (Key ρ)} {a b : ρ} (ha : RowOK ty ks a)
    (hb : RowOK ty ks b) : sgn (rowCompare ks a b) = rowOrd ks a b := by
  induction ks with
  | nil => rfl
  | cons k ks ih =>
    have ih' := ih (fun k hk => ha k (by simp [hk])) (fun k hk => hb k (by simp [hk]))
    obtain ⟨ho, h1⟩ := ha k (by simp)
    obtain ⟨_, h2⟩ := hb k (by simp)
    unfold rowCompare rowOrd colVal
    by_cases n1 : (k.val a).isNull = true <;> by_cases n2 : (k.val b).isNull = true
    · simp [n1, n2, colOrd, ih']
    · obtain ⟨t2, m2⟩ := h2.resolve_left n2
      obtain ⟨_, y, _, e2, _⟩ := C28_compare_is_value_order (a := k.val b) rfl (t2 ▸ ho) m2 m2
      cases hf : k.nullFirst <;> simp [n1, n2, colOrd, e2] <;> rfl
    · obtain ⟨t1, m1⟩ := h1.resolve_left n1
      obtain ⟨x, _, e1, _, _⟩ := C28_compare_is_value_order (a := k.val a) rfl (t1 ▸ ho) m1 m1
      cases hf : k.nullFirst <;> simp [n1, n2, colOrd, e1] <;> rfl
    · obtain ⟨t1, m1⟩ := h1.resolve_left n1
      obtain ⟨t2, m2⟩ := h2.resolve_left n2
      obtain ⟨x, y, e1, e2, e3⟩ := C28_compare_is_value_order (t1.trans t2.symm) (t1 ▸ ho) m1 m2
      simp only [n1, n2, Bool.false_eq_true, and_self, if_false, e1, e2, colOrd]
      by_cases hz : compare (k.val a) (k.val b) = 0
      · rw [if_neg (by simp [hz]), ih']
        rw [hz, show sgn 0 = .eq from rfl] at e3
        have e4 := SVal.cmp_swap x y
        rw [← e3] at e4
        rw [← e3, ← e4]
        cases k.asc <;> rfl
      · rw [if_pos hz]
        have hne : x.cmp y ≠ .eq := by rw [← e3]; intro h; exact hz (sgn_eq.1 h)
        cases k.asc
        · simp only [Bool.false_eq_true, if_false, sgn_neg, e3, SVal.cmp_swap]
          have : y.cmp x ≠ .eq := by rw [← SVal.cmp_swap]; intro h; apply hne; revert h; cases x.cmp y <;> simp
          revert this; cases y.cmp x <;> simp
        · simp only [if_true, e3]
          revert hne; cases x.cmp y <;> simp

instance colOrd_trans (asc nf : Bool) : Std.TransCmp (colOrd asc nf) where
  eq_swap {a b} := by
    cases a <;> cases b <;> cases asc <;> cases nf <;> simp [colOrd, SVal.cmp_swap]
  isLE_trans {a b c} := by
    have h := @SVal.cmp_trans
    have e : ∀ o : Ordering, o.isLE = true ↔ o ≠ .gt := by intro o; cases o <;> simp
    simp only [e]
    cases a <;> cases b <;> cases c <;> cases asc <;> cases nf <;> simp [colOrd] <;>
      first
      | (intro h1 h2; exact h h1 h2)
      | (intro h1 h2; exact h h2 h1)

theorem rowOrd_trans {ρ : Type} (ks : List (Key ρ)) : Std.TransCmp (rowOrd ks) := by
  induction ks with
  | nil => exact { eq_swap := rfl, isLE_trans := fun _ _ => rfl }
  | cons k ks ih =>
    have := ih
    have h1 : Std.TransCmp (fun a b : ρ => colOrd k.asc k.nullFirst (colVal (k.val a)) (colVal (k.val b))) :=
      { eq_swap := Std.OrientedCmp.eq_swap (cmp := colOrd k.asc k.nullFirst)
        isLE_trans := Std.TransCmp.isLE_trans (cmp := colOrd k.asc k.nullFirst) }
    have h2 : rowOrd (k :: ks) = compareLex
        (fun a b : ρ => colOrd k.asc k.nullFirst (colVal (k.val a)) (colVal (k.val b))) (rowOrd ks) := by
      funext a b; rfl
    rw [h2]
    infer_instance

theorem rowOrd_swap {ρ : Type} (ks : List (Key ρ)) (a b : ρ) : (rowOrd ks a b).swap = rowOrd ks b a := by
  have := rowOrd_trans ks
  rw [← Std.OrientedCmp.eq_swap]

/-- **C22.** The ORDER BY order is a total preorder. -/
theorem C22_total_preorder {ρ : Type} (ks : List (Key ρ)) (a b c : ρ) :
    RowLe ks a a ∧ (RowLe ks a b ∨ RowLe ks b a) ∧ (RowLe ks a b → RowLe ks b c → RowLe ks a c) := by
  have := rowOrd_trans ks
  have e : ∀ a b, RowLe ks a b ↔ (rowOrd ks a b).isLE = true := by
    intro a b; unfold RowLe; cases rowOrd ks a b <;> simp
  have s := rowOrd_swap ks
  refine ⟨?_, ?_, ?_⟩
  · unfold RowLe; have := s a a; revert this; cases rowOrd ks a a <;> simp
  · unfold RowLe; have := s a b; revert this; cases rowOrd ks a b <;> cases rowOrd ks b a <;> simp
  · rw [e, e, e]; exact Std.TransCmp.isLE_trans

theorem RowLe.refl {ρ : Type} (ks : List (Key ρ)) (a : ρ) : RowLe ks a a := (C22_total_preorder ks a a a).1
theorem RowLe.trans {ρ : Type} {ks : List (Key ρ)} {a b c : ρ} (h1 : RowLe ks a b) (h2 : RowLe ks b c) : RowLe ks a c :=
  (C22_total_preorder ks a b c).2.2 h1 h2
theorem RowLe.total {ρ : Type} (ks : List (Key ρ)) (a b : ρ) : RowLe ks a b ∨ RowLe ks b a :=
  (C22_total_preorder ks a b a).2.1

section
variable {ρ : Type} {ty : Key ρ → VTy} {ks : List (Key ρ)}

theorem rowLess_iff {a b : ρ} (ha : RowOK ty ks a) (hb : RowOK ty ks b) : rowLess ks a b = true ↔ rowOrd ks a b = .lt := by
  unfold rowLess
  rw [decide_eq_true_iff, ← C22_compare_is_order_by ha hb]
  unfold sgn; rw [int_compare_lt]

theorem rowLess_false {a b : ρ} (ha : RowOK ty ks a) (hb : RowOK ty ks b) : rowLess ks b a = false ↔ RowLe ks a b := by
  rw [← Bool.not_eq_true, rowLess_iff hb ha, ← rowOrd_swap ks a b]
  unfold RowLe
  cases rowOrd ks a b <;> simp

theorem rowLess_weak : Weak (rowLess ks) (RowOK ty ks) where
  asymm x y hx hy h := by
    rw [rowLess_iff hx hy] at h
    rw [rowLess_false hx hy]; unfold RowLe; rw [h]; simp
  trans x y z hx hy hz h1 h2 := by
    rw [rowLess_false hx hy] at h1; rw [rowLess_false hy hz] at h2; rw [rowLess_false hx hz]
    exact h1.trans h2

theorem rowCompare_eq {a b : ρ} (ha : RowOK ty ks a) (hb : RowOK ty ks b) : rowCompare ks a b = 0 ↔ rowOrd ks a b = .eq := by
  rw [← C22_compare_is_order_by ha hb, sgn_eq]

theorem itemLess_iff {a b : Item ρ} (ha : RowOK ty ks a.row) (hb : RowOK ty ks b.row) :
    itemLess ks a b = true ↔ rowOrd ks a.row b.row = .lt ∨ (rowOrd ks a.row b.row = .eq ∧ a.idx < b.idx) := by
  have h := rowLess_iff ha hb
  unfold rowLess at h
  unfold itemLess
  rw [Bool.or_eq_true, Bool.and_eq_true, h, decide_eq_true_iff, decide_eq_true_iff, rowCompare_eq ha hb]

/-- Items in the order `a` then `b`. -/
def ItemLe (ks : List (Key ρ)) (a b : Item ρ) : Prop := RowLe ks a.row b.row ∧ (RowLe ks b.row a.row → a.idx ≤ b.idx)

theorem itemLess_false {a b : Item ρ} (ha : RowOK ty ks a.row) (hb : RowOK ty ks b.row) :
    itemLess ks b a = false ↔ ItemLe ks a b := by
  rw [← Bool.not_eq_true, itemLess_iff hb ha, ← rowOrd_swap ks a.row b.row]
  unfold ItemLe RowLe
  rw [← rowOrd_swap ks a.row b.row]
  cases rowOrd ks a.row b.row <;> simp

theorem ItemLe.trans {a b c : Item ρ} (h1 : ItemLe ks a b) (h2 : ItemLe ks b c) : ItemLe ks a c := by
  refine ⟨h1.1.trans h2.1, fun h => ?_⟩
  have := h1.2 (h2.1.trans h)
  have := h2.2 (h.trans h1.1)
  omega

theorem itemLess_weak : Weak (itemLess ks) (fun i => RowOK ty ks i.row) where
  asymm x y hx hy h := by
    rw [itemLess_iff hx hy] at h
    rw [itemLess_false hx hy]; unfold ItemLe RowLe
    rw [← rowOrd_swap ks x.row y.row]
    rcases h with h | ⟨h, h'⟩
    · rw [h]; simp
    · rw [h]; simp; omega
  trans x y z hx hy hz h1 h2 := by
    rw [itemLess_false hx hy] at h1; rw [itemLess_false hy hz] at h2; rw [itemLess_false hx hz]
    exact h1.trans h2

/-- The reversed order is also one. -/
theorem Weak.flip {α : Type} {less : α → α → Bool} {P : α → Prop} (w : Weak less P) : Weak (fun x y => less y x) P where
  asymm _ _ hx hy h := w.asymm _ _ hy hx h
  trans _ _ _ hx hy hz h1 h2 := w.trans _ _ _ hz hy hx h2 h1

theorem IsSort.apply {α : Type} {less : α → α → Bool} {srt : List α → List α} (h : IsSort less srt) {P : α → Prop}
    (w : Weak less P) {l : List α} (hl : ∀ x ∈ l, P x) :
    (srt l).Perm l ∧ (srt l).Pairwise fun a b => less b a = false :=
  h l (fun x hx y hy => w.asymm x y (hl x hx) (hl y hy))
    (fun x hx y hy z hz => w.trans x y z (hl x hx) (hl y hy) (hl z hz))

end
end BaikalDB.Sort
