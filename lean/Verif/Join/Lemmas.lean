import Verif.Join.Spec
import Mathlib.Data.List.Perm.Basic
import Mathlib.Data.List.Lemmas
import Mathlib.Tactic.Common
/-!
# Hash maps, batches and remaining rows
-/
namespace BaikalDB.Join

variable {α β σ ρ : Type}

/-! ## The hash map -/

theorem seek_push (k k' : Bytes) (r : ρ) (m : HMap ρ) :
    (m.push k r).seek k' = if k = k' then some ((m.seek k).getD [] ++ [r]) else m.seek k' := by
  induction m with
  | nil => by_cases h : k = k' <;> simp [HMap.push, HMap.seek, h]
  | cons e m ih =>
    obtain ⟨a, rs⟩ := e
    by_cases ha : a = k
    · subst ha
      by_cases h : a = k'
      · simp [HMap.push, HMap.seek, h]
      · simp [HMap.push, HMap.seek, h]
    · by_cases h : k = k'
      · subst h
        simp only [HMap.push, ha, if_false, HMap.seek, ih, if_true]
      · simp only [HMap.push, ha, if_false, HMap.seek, ih, h]

/-- The bucket of a key: the rows with that key, in order. -/
def bucket (key : ρ → Bytes) (rows : List ρ) (k : Bytes) : List ρ := rows.filter fun r => decide (key r = k)

theorem seek_foldl (key : ρ → Bytes) (rows : List ρ) (m : HMap ρ) (k : Bytes) :
    (rows.foldl (fun m r => m.push (key r) r) m).seek k =
      if bucket key rows k = [] then m.seek k else some ((m.seek k).getD [] ++ bucket key rows k) := by
  induction rows generalizing m with
  | nil => simp [bucket]
  | cons r rows ih =>
    rw [List.foldl_cons, ih, seek_push]
    by_cases h : key r = k
    · subst h
      by_cases hb : bucket key rows (key r) = []
      · have : bucket key (r :: rows) (key r) = [r] := by simpa [bucket] using hb
        simp [hb, this]
      · have : bucket key (r :: rows) (key r) = r :: bucket key rows (key r) := by simp [bucket]
        simp [hb, this]
    · have : bucket key (r :: rows) k = bucket key rows k := by simp [bucket, h]
      simp [h, this]

theorem seek_build (key : ρ → Bytes) (rows : List ρ) (k : Bytes) :
    (buildMap key rows).seek k = if bucket key rows k = [] then none else some (bucket key rows k) := by
  simp [buildMap, seek_foldl, HMap.seek]

theorem seek_build_getD (key : ρ → Bytes) (rows : List ρ) (k : Bytes) :
    ((buildMap key rows).seek k).getD [] = bucket key rows k := by
  rw [seek_build]
  by_cases h : bucket key rows k = [] <;> simp [h]

/-! ## Remaining rows -/

/-- `R s` are the rows still to come in state `s` when no limit is set, `N s` the count compared with the limit. -/
structure Refines (next : σ → List ρ × Option σ) (R : σ → List ρ) (N : σ → Nat) (cap : Nat) (limit : Option Nat)
    (counted : Prop) (Inv : σ → Prop) : Prop where
  more : ∀ s b s', Inv s → next s = (b, some s') →
    Inv s' ∧ R s = b ++ R s' ∧ cap ≤ b.length ∧ (counted → N s' = N s + b.length)
  last : ∀ s b, Inv s → next s = (b, none) →
    b <+: R s ∧ (b = R s ∨ ∃ l, limit = some l ∧ (counted → l ≤ N s + b.length))

theorem Drain.unique {next : σ → List ρ × Option σ} {s : σ} {bs bs' : List (List ρ)}
    (h : Drain next s bs) (h' : Drain next s bs') : bs = bs' := by
  induction h generalizing bs' with
  | last e =>
    cases h' with
    | last e' => rw [e] at e'; simp_all
    | more e' _ => rw [e] at e'; simp_all
  | more e _ ih =>
    cases h' with
    | last e' => rw [e] at e'; simp_all
    | more e' h2 =>
      rw [e] at e'
      simp only [Prod.mk.injEq, Option.some.injEq] at e'
      obtain ⟨rfl, rfl⟩ := e'
      rw [ih h2]

theorem Refines.drain {next : σ → List ρ × Option σ} {R : σ → List ρ} {N : σ → Nat} {cap : Nat} {limit : Option Nat}
    {counted : Prop} {Inv : σ → Prop} (hr : Refines next R N cap limit counted Inv) {s : σ} {bs : List (List ρ)}
    (hi : Inv s) (h : Drain next s bs) :
    bs.flatten <+: R s ∧ (bs.flatten = R s ∨ ∃ l, limit = some l ∧ (counted → l ≤ N s + bs.flatten.length)) := by
  induction h with
  | last e => simpa using hr.last _ _ hi e
  | more e _ ih =>
    obtain ⟨hi', hR, _, hN⟩ := hr.more _ _ _ hi e
    obtain ⟨h1, h2⟩ := ih hi'
    rw [List.flatten_cons, hR]
    refine ⟨List.prefix_append_right_inj _ |>.2 h1, ?_⟩
    rcases h2 with h2 | ⟨l, hl, hc⟩
    · exact Or.inl (by rw [h2])
    · refine Or.inr ⟨l, hl, fun c => ?_⟩
      have := hc c
      have := hN c
      simp only [List.length_append]
      omega

theorem Refines.exists_drain {next : σ → List ρ × Option σ} {R : σ → List ρ} {N : σ → Nat} {cap : Nat} {limit : Option Nat}
    {counted : Prop} {Inv : σ → Prop} (hr : Refines next R N cap limit counted Inv) (hcap : 0 < cap) {s : σ}
    (hi : Inv s) : ∃ bs, Drain next s bs := by
  generalize hn : (R s).length = n
  induction n using Nat.strong_induction_on generalizing s with
  | _ n ih =>
    rcases hs : next s with ⟨b, _ | s'⟩
    · exact ⟨_, .last hs⟩
    · obtain ⟨hi', hR, hc, _⟩ := hr.more _ _ _ hi hs
      have hl : (R s').length < n := by
        rw [← hn, hR, List.length_append]; omega
      obtain ⟨bs, hb⟩ := ih _ hl hi' rfl
      exact ⟨_, .more hs hb⟩

/-- Every batch is within the capacity. -/
theorem Drain.forall_batch {next : σ → List ρ × Option σ} {P : List ρ → Prop} (hP : ∀ s, P (next s).1) {s : σ}
    {bs : List (List ρ)} (h : Drain next s bs) : ∀ b ∈ bs, P b := by
  induction h with
  | @last s b e =>
    intro x hx
    simp only [List.mem_singleton] at hx
    subst hx
    have := hP s
    rwa [e] at this
  | @more s s' b bs e _ ih =>
    intro x hx
    rcases List.mem_cons.1 hx with rfl | hx
    · have := hP s
      rwa [e] at this
    · exact ih x hx

theorem Refines.answers {next : σ → List ρ × Option σ} {R : σ → List ρ} {N : σ → Nat} {cap : Nat} {limit : Option Nat}
    {counted : Prop} {Inv : σ → Prop} (hr : Refines next R N cap limit counted Inv) {s : σ} {bs : List (List ρ)}
    (hi : Inv s) (h0 : N s = 0) (hc : limit = none ∨ counted) {want : List ρ} (hw : (R s).Perm want)
    (h : Drain next s bs) : Answers limit want bs.flatten := by
  obtain ⟨h1, h2⟩ := hr.drain hi h
  refine ⟨R s, hw, h1, ?_⟩
  rcases h2 with h2 | ⟨l, hl, hh⟩
  · exact Or.inl h2
  · rcases hc with hc | hc
    · rw [hc] at hl; cases hl
    · exact Or.inr ⟨l, hl, by have := hh hc; omega⟩

theorem Answers.nolimit {want got : List ρ} (h : Answers none want got) : got.Perm want := by
  obtain ⟨all, h1, h2, h3⟩ := h
  rcases h3 with rfl | ⟨l, h, _⟩
  · exact h1
  · cases h

theorem flatMap_swap {γ : Type} (xs : List α) (ys : List β) (f : α → β → List γ) :
    (xs.flatMap fun x => ys.flatMap fun y => f x y).Perm (ys.flatMap fun y => xs.flatMap fun x => f x y) := by
  induction xs with
  | nil =>
    simp
  | cons x xs ih =>
    simp only [List.flatMap_cons]
    exact (List.Perm.append_left _ ih).trans (List.flatMap_append_perm _ _ _)

theorem flatMap_filter' {γ : Type} (xs : List α) (p : α → Bool) (f : α → List γ) :
    (xs.filter p).flatMap f = xs.flatMap fun x => if p x then f x else [] := by
  induction xs with
  | nil => rfl
  | cons x xs ih => by_cases h : p x <;> simp [h, ih]

theorem filter_eq_flatMap (xs : List α) (p : α → Bool) : xs.filter p = xs.flatMap fun x => if p x then [x] else [] := by
  induction xs with
  | nil => rfl
  | cons x xs ih => by_cases h : p x <;> simp [h, ih]

end BaikalDB.Join
