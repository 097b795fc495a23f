import Verif.Plan.Model
import Mathlib.Data.List.Basic
import Mathlib.Data.List.Perm.Basic
import Mathlib.Data.List.Flatten

/-! # Lists of rows: filters and joins -/

namespace BaikalDB.Plan

variable {α β γ : Type}

theorem isEmpty_perm {l l' : List γ} (h : l.Perm l') : l.isEmpty = l'.isEmpty := by
  cases l with
  | nil => rw [h.nil_eq]
  | cons a t =>
    cases l' with
    | nil => exact absurd h.symm.nil_eq (by simp)
    | cons b t' => rfl

theorem orElse_perm {x : γ} {l l' : List γ} (h : l.Perm l') : (orElse x l).Perm (orElse x l') := by
  unfold orElse
  rw [isEmpty_perm h]
  split
  · exact .refl _
  · exact h

theorem joinI_perm {m : α → β → γ} {P : γ → Bool} {L L' : List α} {R R' : List β} (hL : L.Perm L') (hR : R.Perm R') :
    (joinI m P L R).Perm (joinI m P L' R') := by
  unfold joinI
  exact (hL.flatMap_right _).trans (List.Perm.flatMap_left _ fun a _ => (hR.map _).filter _)

theorem joinL_perm {m : α → β → γ} {P : γ → Bool} {nul : β} {L L' : List α} {R R' : List β} (hL : L.Perm L') (hR : R.Perm R') :
    (joinL m P nul L R).Perm (joinL m P nul L' R') := by
  unfold joinL
  exact (hL.flatMap_right _).trans (List.Perm.flatMap_left _ fun a _ => orElse_perm ((hR.map _).filter _))

theorem lone_perm {m : α → β → γ} {P : γ → Bool} {L L' : List α} {R R' : List β} (hL : L.Perm L') (hR : R.Perm R') :
    (lone m P L R).Perm (lone m P L' R') := by
  unfold lone
  have : (fun b => !(L.any fun a => P (m a b))) = fun b => !(L'.any fun a => P (m a b)) := by
    funext b
    congr 1
    exact hL.any_eq
  rw [this]
  exact hR.filter _

theorem filter_and (P Q : γ → Bool) (l : List γ) : (l.filter P).filter Q = l.filter fun x => P x && Q x := by
  rw [List.filter_filter]
  congr 1; funext x; exact Bool.and_comm _ _

/-- Filtering one side of nested loops by what the row must meet anyway. -/
theorem joinI_eq {m : α → β → γ} {P Q : γ → Bool} {p : α → Bool} {q : β → Bool} {L : List α} {R : List β}
    (h : ∀ a ∈ L, ∀ b ∈ R, Q (m a b) = (P (m a b) && p a && q b)) :
    joinI m Q L R = joinI m P (L.filter p) (R.filter q) := by
  unfold joinI
  induction L with
  | nil => rfl
  | cons a L ih =>
    have ih := ih fun a ha => h a (List.mem_cons_of_mem _ ha)
    have ha := h a List.mem_cons_self
    simp only [List.flatMap_cons, List.filter_cons]
    by_cases hp : p a = true
    · simp only [hp, if_true, List.flatMap_cons, ih]
      congr 1
      rw [List.filter_map, List.filter_map, List.filter_filter]
      congr 1
      refine List.filter_congr fun b hb => ?_
      simp [ha b hb, hp]
    · simp only [hp, Bool.false_eq_true, if_false, ih]
      rw [show (R.map (m a)).filter Q = [] from ?_]; rfl
      rw [List.filter_eq_nil_iff]
      intro x hx
      obtain ⟨b, hb, rfl⟩ := List.mem_map.mp hx
      simp [ha b hb, hp]

theorem filter_joinI {m : α → β → γ} {P E : γ → Bool} {L : List α} {R : List β} :
    (joinI m P L R).filter E = joinI m (fun x => P x && E x) L R := by
  unfold joinI
  rw [List.filter_flatMap]
  exact List.flatMap_congr fun a _ => filter_and _ _ _

theorem filter_orElse_of {x : γ} {l : List γ} {E : γ → Bool} {c : Bool} (hx : E x = c) (hl : ∀ y ∈ l, E y = c) :
    (orElse x l).filter E = if c then orElse x l else [] := by
  have : ∀ y ∈ orElse x l, E y = c := by
    intro y hy
    unfold orElse at hy
    split at hy
    · rw [List.mem_singleton] at hy; rw [hy]; exact hx
    · exact hl y hy
  cases c with
  | true => exact List.filter_eq_self.mpr this
  | false => simpa using this

/-- A filter on the preserved side of an outer join. -/
theorem filter_joinL {m : α → β → γ} {P E : γ → Bool} {nul : β} {p : α → Bool} {L : List α} {R : List β}
    (h : ∀ a ∈ L, ∀ b ∈ R, E (m a b) = p a) (hn : ∀ a ∈ L, E (m a nul) = p a) :
    (joinL m P nul L R).filter E = joinL m P nul (L.filter p) R := by
  unfold joinL
  induction L with
  | nil => rfl
  | cons a L ih =>
    have ih := ih (fun a ha => h a (List.mem_cons_of_mem _ ha)) (fun a ha => hn a (List.mem_cons_of_mem _ ha))
    simp only [List.flatMap_cons, List.filter_cons, List.filter_append, ih]
    rw [filter_orElse_of (hn a List.mem_cons_self) (c := p a)]
    · cases hp : p a <;> simp
    · intro y hy
      obtain ⟨b, hb, rfl⟩ := List.mem_map.mp (List.mem_filter.mp hy).1
      exact h a List.mem_cons_self b hb

/-- Rows of the preserved side that cannot pass the filter above may be left out. -/
theorem filter_joinL_restrict {m : α → β → γ} {P E : γ → Bool} {nul : β} {p : α → Bool} {L : List α} {R : List β}
    (h : ∀ a ∈ L, ∀ b ∈ R, E (m a b) = true → p a = true) (hn : ∀ a ∈ L, E (m a nul) = true → p a = true) :
    (joinL m P nul L R).filter E = (joinL m P nul (L.filter p) R).filter E := by
  unfold joinL
  induction L with
  | nil => rfl
  | cons a L ih =>
    have ih := ih (fun a ha => h a (List.mem_cons_of_mem _ ha)) (fun a ha => hn a (List.mem_cons_of_mem _ ha))
    simp only [List.flatMap_cons, List.filter_cons, List.filter_append]
    by_cases hp : p a = true
    · simp only [hp, if_true, List.flatMap_cons, List.filter_append, ih]
    · simp only [hp, Bool.false_eq_true, if_false, ih]
      rw [filter_orElse_of (c := false)]
      · rfl
      · rw [← Bool.not_eq_true]; exact fun hE => hp (hn a List.mem_cons_self hE)
      · intro y hy
        obtain ⟨b, hb, rfl⟩ := List.mem_map.mp (List.mem_filter.mp hy).1
        rw [← Bool.not_eq_true]; exact fun hE => hp (h a List.mem_cons_self b hb hE)

/-- Conditions of an outer join on the other side. -/
theorem joinL_inner {m : α → β → γ} {P Q : γ → Bool} {nul : β} {q : β → Bool} {L : List α} {R : List β}
    (h : ∀ a ∈ L, ∀ b ∈ R, Q (m a b) = (P (m a b) && q b)) :
    joinL m Q nul L R = joinL m P nul L (R.filter q) := by
  unfold joinL
  refine List.flatMap_congr fun a ha => ?_
  congr 1
  rw [List.filter_map, List.filter_map, List.filter_filter]
  congr 1
  refine List.filter_congr fun b hb => ?_
  simp [h a ha b hb]

/-- If the filter above takes no row without partner the outer join is an inner join. -/
theorem filter_joinL_reject {m : α → β → γ} {P E : γ → Bool} {nul : β} {L : List α} {R : List β}
    (hn : ∀ a ∈ L, E (m a nul) = false) : (joinL m P nul L R).filter E = (joinI m P L R).filter E := by
  unfold joinL joinI
  rw [List.filter_flatMap, List.filter_flatMap]
  refine List.flatMap_congr fun a ha => ?_
  unfold orElse
  split
  · rename_i he
    rw [List.isEmpty_iff.mp he]
    simp [hn a ha]
  · rfl

theorem orElse_eq {x : γ} (l : List γ) : orElse x l = l ++ if l.isEmpty then [x] else [] := by
  unfold orElse
  cases l <;> simp

/-- An outer join is an inner join and the rows of the preserved side without partner. -/
theorem joinL_split {m : α → β → γ} {P : γ → Bool} {nul : β} (L : List α) (R : List β) :
    (joinL m P nul L R).Perm (joinI m P L R ++ (lone (fun b a => m a b) P R L).map fun a => m a nul) := by
  unfold joinL joinI lone
  have h1 : (L.flatMap fun a => orElse (m a nul) ((R.map (m a)).filter P)) =
      L.flatMap fun a => (R.map (m a)).filter P ++ if ((R.map (m a)).filter P).isEmpty then [m a nul] else [] :=
    List.flatMap_congr fun a _ => orElse_eq _
  rw [h1]
  refine (List.flatMap_append_perm L _ _).symm.trans (List.Perm.append_left _ ?_)
  refine List.Perm.of_eq ?_
  clear h1
  induction L with
  | nil => rfl
  | cons a L ih =>
    simp only [List.flatMap_cons, List.filter_cons, ih]
    have : ((R.map (m a)).filter P).isEmpty = !(R.any fun b => P (m a b)) := by
      rw [Bool.eq_iff_iff, List.isEmpty_iff, List.filter_eq_nil_iff]
      simp
    rw [this]
    cases (R.any fun b => P (m a b)) <;> rfl

/-- The order of the loops does not matter. -/
theorem joinI_swap {m : α → β → γ} {P : γ → Bool} (L : List α) (R : List β) :
    (joinI (fun b a => m a b) P R L).Perm (joinI m P L R) := by
  unfold joinI
  induction L with
  | nil => simp
  | cons a L ih =>
    simp only [List.flatMap_cons, List.map_cons, List.filter_cons]
    have h1 : (R.flatMap fun b => if P (m a b) = true then m a b :: (L.map fun a => m a b).filter P else (L.map fun a => m a b).filter P)
        = R.flatMap fun b => (if P (m a b) = true then [m a b] else []) ++ (L.map fun a => m a b).filter P :=
      List.flatMap_congr fun b _ => by split <;> rfl
    rw [h1]
    refine (List.flatMap_append_perm R _ _).symm.trans (List.Perm.append ?_ ih)
    refine List.Perm.of_eq ?_
    clear ih h1
    induction R with
    | nil => rfl
    | cons b R ih =>
      simp only [List.flatMap_cons, List.map_cons, List.filter_cons, ih]
      split <;> rfl

end BaikalDB.Plan
