import Verif.Binlog.Props
import Mathlib.Data.List.Nodup

/-! # C59: the capturer, which merges the binlogs of several regions; and reads that do not fail -/

namespace BaikalDB.Binlog

/-- A binlog handed out: a committed transaction with its payload, or a fake record. -/
def Good (L : List Entry) (x : Item) : Prop :=
  (x.data = none ∧ x.start = x.ts ∧ ∃ e ∈ L, e.kind = .fake ∧ e.ts = x.ts) ∨ ∃ d, x.data = some d ∧ Txn L x.ts x.start d

theorem put_last {α : Type} {k : Int} {v : α} {l : List (Int × α)} (h : ∀ x ∈ l, x.1 < k) : put k v l = l ++ [(k, v)] := by
  induction l with
  | nil => rfl
  | cons x l ih =>
    obtain ⟨k', v'⟩ := x
    have h1 := h (k', v') (by simp)
    simp only at h1
    rw [put, if_neg (by omega), if_neg (by omega), ih fun y hy => h y (List.mem_cons_of_mem _ hy)]
    rfl

theorem insertAll_last {m : List (Int × Item)} {xs : List Item} (hx : xs.Pairwise fun a b => a.ts < b.ts)
    (h : ∀ x ∈ m, ∀ y ∈ xs, x.1 < y.ts) : insertAll m xs = m ++ xs.map fun y => (y.ts, y) := by
  induction xs generalizing m with
  | nil => simp [insertAll]
  | cons y ys ih =>
    rw [List.pairwise_cons] at hx
    have h1 : insertAll m (y :: ys) = insertAll (put y.ts y m) ys := rfl
    rw [h1, put_last fun x hx => h x hx y (by simp), ih hx.2]
    · simp
    · intro x hxm z hz
      rcases List.mem_append.mp hxm with hxm | hxm
      · exact h x hxm z (List.mem_cons_of_mem _ hz)
      · rw [List.mem_singleton] at hxm
        rw [hxm]; exact hx.1 z hz

/-- The cache of a region: its binlogs after `last`, without a gap. -/
structure Part (L : List Entry) (last : Int) (m : List (Int × Item)) : Prop where
  asc : Asc m
  key : ∀ x ∈ m, x.1 = x.2.ts
  low : ∀ x ∈ m, last < x.1
  good : ∀ x ∈ m, Good L x.2
  full : ∀ c t d, Txn L c t d → last < c → (∃ x ∈ m, c ≤ x.1) → (c, ⟨c, t, some d⟩) ∈ m

theorem Part.nil (L : List Entry) (last : Int) : Part L last [] :=
  ⟨List.Pairwise.nil, (fun _ h => nomatch h), (fun _ h => nomatch h), (fun _ h => nomatch h),
    fun _ _ _ _ _ ⟨_, h, _⟩ => nomatch h⟩

/-- The largest key is the last. -/
theorem getLast_max {α : Type} {m : List (Int × α)} (h : Asc m) {e : Int × α} (he : m.getLast? = some e) : ∀ x ∈ m, x.1 ≤ e.1 := by
  obtain ⟨l, rfl⟩ := List.getLast?_eq_some_iff.mp he
  intro x hx
  rcases List.mem_append.mp hx with hx | hx
  · have := (List.pairwise_append.mp h).2.2 x hx e (by simp); omega
  · rw [List.mem_singleton] at hx; rw [hx]; exact Int.le_refl _

/-- An answer put behind what is cached. -/
theorem Part.answer {L : List Entry} (hL : Legit L) {last : Int} {m : List (Int × Item)} (h : Part L last m) {b : Int}
    (hb : (m = [] ∧ b = last) ∨ ∃ e, m.getLast? = some e ∧ b = e.1) {n : Nat} {s : St} (hP : Peer L n s) {q : Query}
    {xs : List Item} (hq : q.begin = b) (hr : read s q = .ok xs) : Part L last (insertAll m xs) := by
  obtain ⟨r1, r2, r3, r4⟩ := C59_read hL hP hr
  have hmb : ∀ x ∈ m, x.1 ≤ b := by
    rcases hb with ⟨rfl, _⟩ | ⟨e, he, rfl⟩
    · intro x hx; cases hx
    · exact getLast_max h.asc he
  have hlb : last ≤ b := by
    rcases hb with ⟨_, rfl⟩ | ⟨e, he, rfl⟩
    · exact Int.le_refl _
    · have := h.low e (List.mem_of_getLast? he); omega
  have hbm : ∀ c, c ≤ b → last < c → ∃ x ∈ m, c ≤ x.1 := by
    intro c h1 h2
    rcases hb with ⟨_, rfl⟩ | ⟨e, he, rfl⟩
    · omega
    · exact ⟨e, List.mem_of_getLast? he, h1⟩
  have hgt : ∀ y ∈ xs, b < y.ts := fun y hy => by have := (r2 y hy).1; omega
  rw [insertAll_last r1 fun x hx y hy => by have := hmb x hx; have := hgt y hy; omega]
  refine ⟨?_, ?_, ?_, ?_, ?_⟩
  · rw [Asc, List.pairwise_append]
    refine ⟨h.asc, ?_, ?_⟩
    · rw [List.pairwise_map]; exact r1
    · intro x hx y hy
      obtain ⟨z, hz, rfl⟩ := List.mem_map.mp hy
      have := hmb x hx
      have := hgt z hz
      show x.1 < z.ts
      omega
  · intro x hx
    rcases List.mem_append.mp hx with hx | hx
    · exact h.key x hx
    · obtain ⟨z, hz, rfl⟩ := List.mem_map.mp hx; rfl
  · intro x hx
    rcases List.mem_append.mp hx with hx | hx
    · exact h.low x hx
    · obtain ⟨z, hz, rfl⟩ := List.mem_map.mp hx
      have := hgt z hz
      show last < z.ts
      omega
  · intro x hx
    rcases List.mem_append.mp hx with hx | hx
    · exact h.good x hx
    · obtain ⟨z, hz, rfl⟩ := List.mem_map.mp hx
      exact r3 z hz
  · intro c t d ht hlc ⟨x, hx, hcx⟩
    by_cases hcb : c ≤ b
    · exact List.mem_append.mpr (Or.inl (h.full c t d ht hlc (hbm c hcb hlc)))
    · rcases List.mem_append.mp hx with hx | hx
      · have := hmb x hx; omega
      · obtain ⟨z, hz, rfl⟩ := List.mem_map.mp hx
        exact List.mem_append.mpr (Or.inr (List.mem_map.mpr ⟨_, r4 c t d ht (by omega) ⟨z, hz, hcx⟩, rfl⟩))

/-! ## Merging -/

theorem minLast_spec {cache : Nat → List (Int × Item)} {gs : List Nat} {m : Int} (h : minLast cache gs = some m) :
    (∀ g ∈ gs, ∃ e, (cache g).getLast? = some e ∧ m ≤ e.1) ∧ ∃ g ∈ gs, ∃ e, (cache g).getLast? = some e ∧ e.1 = m := by
  induction gs generalizing m with
  | nil => cases h
  | cons g gs ih =>
    cases gs with
    | nil =>
      rw [minLast] at h
      obtain ⟨e, he, hm⟩ := Option.map_eq_some_iff.mp h
      refine ⟨?_, g, by simp, e, he, hm⟩
      intro g' hg'
      rw [List.mem_singleton] at hg'
      exact ⟨e, by rw [hg']; exact he, by omega⟩
    | cons g' gs =>
      rw [minLast] at h
      · cases hg : (cache g).getLast? with
        | none => rw [hg] at h; cases h
        | some e =>
          cases hm : minLast cache (g' :: gs) with
          | none => rw [hg, hm] at h; cases h
          | some m' =>
            rw [hg, hm] at h
            simp only [Option.some.injEq] at h
            obtain ⟨h1, g₂, hg₂, e₂, he₂, hm₂⟩ := ih hm
            have hle : m ≤ e.1 ∧ m ≤ m' := by rw [← h]; split <;> omega
            refine ⟨?_, ?_⟩
            · intro g₃ hg₃
              rcases List.mem_cons.mp hg₃ with rfl | hg₃
              · exact ⟨e, hg, hle.1⟩
              · obtain ⟨e₃, he₃, hm₃⟩ := h1 g₃ hg₃
                exact ⟨e₃, he₃, by omega⟩
            · by_cases hlt : e.1 < m'
              · rw [if_pos hlt] at h
                exact ⟨g, by simp, e, hg, h⟩
              · rw [if_neg hlt] at h
                exact ⟨g₂, List.mem_cons_of_mem _ hg₂, e₂, he₂, by omega⟩
      · intro hh; cases hh

theorem minLast_some {cache : Nat → List (Int × Item)} {gs : List Nat} (hne : gs ≠ []) (h : ∀ g ∈ gs, cache g ≠ []) :
    ∃ m, minLast cache gs = some m := by
  have hl : ∀ g ∈ gs, ∃ e, (cache g).getLast? = some e := fun g hg =>
    ⟨(cache g).getLast (h g hg), List.getLast?_eq_some_getLast (h g hg)⟩
  induction gs with
  | nil => exact absurd rfl hne
  | cons g gs ih =>
    obtain ⟨e, he⟩ := hl g (by simp)
    cases gs with
    | nil => exact ⟨e.1, by rw [minLast, he]; rfl⟩
    | cons g' gs =>
      obtain ⟨m, hm⟩ := ih (by simp) (fun x hx => h x (List.mem_cons_of_mem _ hx)) (fun x hx => hl x (List.mem_cons_of_mem _ hx))
      refine ⟨if e.1 < m then e.1 else m, ?_⟩
      rw [minLast]
      · rw [he, hm]
      · intro hh; cases hh

theorem push_perm (x : Nat × Item) (l : List (Nat × Item)) : (push x l).Perm (x :: l) := by
  induction l with
  | nil => exact List.Perm.refl _
  | cons y l ih =>
    rw [push]
    split
    · exact List.Perm.refl _
    · exact (List.Perm.cons y ih).trans (List.Perm.swap x y l)

theorem push_sorted (x : Nat × Item) {l : List (Nat × Item)} (h : l.Pairwise fun a b => a.2.ts ≤ b.2.ts) :
    (push x l).Pairwise fun a b => a.2.ts ≤ b.2.ts := by
  induction l with
  | nil => exact List.pairwise_singleton _ _
  | cons y l ih =>
    have h0 := h
    rw [List.pairwise_cons] at h
    rw [push]
    by_cases hc : x.2.ts ≤ y.2.ts
    · rw [if_pos hc, List.pairwise_cons]
      refine ⟨?_, h0⟩
      intro z hz
      rcases List.mem_cons.mp hz with rfl | hz
      · exact hc
      · have := h.1 z hz; omega
    · rw [if_neg hc, List.pairwise_cons]
      refine ⟨?_, ih h.2⟩
      intro z hz
      rcases List.mem_cons.mp ((push_perm x l).mem_iff.mp hz) with rfl | hz
      · omega
      · exact h.1 z hz

theorem foldr_push (l : List (Nat × Item)) :
    (l.foldr push []).Perm l ∧ (l.foldr push []).Pairwise fun a b => a.2.ts ≤ b.2.ts := by
  induction l with
  | nil => exact ⟨List.Perm.refl _, List.Pairwise.nil⟩
  | cons x l ih =>
    exact ⟨(push_perm x _).trans (List.Perm.cons x ih.1), push_sorted x ih.2⟩

theorem mem_takeWhile_asc {α : Type} {l : List (Int × α)} (h : Asc l) (m : Int) (x : Int × α) :
    x ∈ l.takeWhile (fun e => decide (e.1 ≤ m)) ↔ x ∈ l ∧ x.1 ≤ m := by
  induction l with
  | nil => simp
  | cons y l ih =>
    rw [Asc, List.pairwise_cons] at h
    rw [List.takeWhile_cons]
    by_cases hy : y.1 ≤ m
    · rw [if_pos (by simpa using hy), List.mem_cons, ih h.2, List.mem_cons]
      constructor
      · rintro (rfl | ⟨h1, h2⟩)
        · exact ⟨Or.inl rfl, hy⟩
        · exact ⟨Or.inr h1, h2⟩
      · rintro ⟨rfl | h1, h2⟩
        · exact Or.inl rfl
        · exact Or.inr ⟨h1, h2⟩
    · rw [if_neg (by simpa using hy)]
      constructor
      · intro hh; cases hh
      · rintro ⟨h1, h2⟩
        exfalso
        rcases List.mem_cons.mp h1 with rfl | h1
        · exact hy h2
        · have := h.1 x h1; omega

theorem mem_dropWhile_asc {α : Type} {l : List (Int × α)} (h : Asc l) (m : Int) (x : Int × α) :
    x ∈ l.dropWhile (fun e => decide (e.1 ≤ m)) ↔ x ∈ l ∧ m < x.1 := by
  induction l with
  | nil => simp
  | cons y l ih =>
    have h0 := h
    rw [Asc, List.pairwise_cons] at h
    rw [List.dropWhile_cons]
    by_cases hy : y.1 ≤ m
    · rw [if_pos (by simpa using hy), ih h.2, List.mem_cons]
      constructor
      · rintro ⟨h1, h2⟩; exact ⟨Or.inr h1, h2⟩
      · rintro ⟨rfl | h1, h2⟩
        · omega
        · exact ⟨h1, h2⟩
    · rw [if_neg (by simpa using hy)]
      constructor
      · intro h1
        have := head_low h0 x h1
        exact ⟨h1, by omega⟩
      · exact fun h1 => h1.1

theorem queue_spec {cache : Nat → List (Int × Item)} {gs : List Nat} (hA : ∀ g ∈ gs, Asc (cache g))
    (hk : ∀ g ∈ gs, ∀ x ∈ cache g, x.1 = x.2.ts) (m : Int) :
    (queue cache m gs).Pairwise (fun a b => a.2.ts ≤ b.2.ts) ∧
    (∀ g x, (g, x) ∈ queue cache m gs ↔ g ∈ gs ∧ (x.ts, x) ∈ cache g ∧ x.ts ≤ m) ∧
    (gs.Nodup → (queue cache m gs).Nodup) := by
  obtain ⟨hp, hs⟩ := foldr_push (gs.flatMap fun g => ((cache g).takeWhile fun e => decide (e.1 ≤ m)).map fun e => (g, e.2))
  refine ⟨hs, ?_, ?_⟩
  · intro g x
    unfold queue
    rw [hp.mem_iff, List.mem_flatMap]
    constructor
    · rintro ⟨g', hg', hx⟩
      obtain ⟨e, he, heq⟩ := List.mem_map.mp hx
      rw [Prod.mk.injEq] at heq
      obtain ⟨rfl, rfl⟩ := heq
      obtain ⟨h1, h2⟩ := (mem_takeWhile_asc (hA g' hg') m e).mp he
      have hke := hk g' hg' e h1
      refine ⟨hg', ?_, by omega⟩
      rw [← hke]; exact h1
    · rintro ⟨hg, hx, hm⟩
      exact ⟨g, hg, List.mem_map.mpr ⟨(x.ts, x), (mem_takeWhile_asc (hA g hg) m _).mpr ⟨hx, hm⟩, rfl⟩⟩
  · intro hn
    unfold queue
    rw [hp.nodup_iff, List.nodup_flatMap]
    constructor
    · intro g hg
      have h1 : ((cache g).takeWhile fun e => decide (e.1 ≤ m)).Pairwise fun a b => a.1 < b.1 :=
        (hA g hg).sublist (List.takeWhile_sublist _)
      unfold List.Nodup
      rw [List.pairwise_map]
      refine h1.imp_of_mem ?_
      intro a b ha hb hlt heq
      rw [Prod.mk.injEq] at heq
      have ha' := (List.takeWhile_sublist _).subset ha
      have hb' := (List.takeWhile_sublist _).subset hb
      have := hk g hg a ha'
      have := hk g hg b hb'
      rw [heq.2] at *
      omega
    · refine hn.imp ?_
      intro a b hab x h1 h2
      obtain ⟨e, _, rfl⟩ := List.mem_map.mp h1
      obtain ⟨f, _, heq⟩ := List.mem_map.mp h2
      rw [Prod.mk.injEq] at heq
      exact hab heq.1.symm

/-! ## A call -/

def CapInv (log : Nat → List Entry) (gs : List Nat) (c : Cap) : Prop := ∀ g ∈ gs, Part (log g) c.last (c.cache g)

theorem seek_spec {log : Nat → List Entry} {gs : List Nat} {c : Cap} (h : CapInv log gs c) (p : Int) :
    (seek c p).last = p ∧ CapInv log gs (seek c p) := by
  unfold seek
  by_cases hp : p = c.last
  · rw [if_pos hp]; exact ⟨hp.symm, h⟩
  · rw [if_neg hp]; exact ⟨rfl, fun g _ => Part.nil _ _⟩

theorem ask_spec {mc : Nat} {c : Cap} {g : Nat} {b : Int} (h : ask mc c g = some b) :
    (c.cache g = [] ∧ b = c.last) ∨ ∃ e, (c.cache g).getLast? = some e ∧ b = e.1 := by
  unfold ask at h
  split at h
  · cases h
  · split at h
    · rename_i hn
      left
      exact ⟨List.getLast?_eq_none_iff.mp hn, by simpa using h.symm⟩
    · rename_i e he
      exact Or.inr ⟨e, he, by simpa using h.symm⟩

theorem filled_part {log : Nat → List Entry} {gs : List Nat} (hL : ∀ g ∈ gs, Legit (log g)) {mc : Nat} {c : Cap}
    {answer : Nat → List Item} (h : CapInv log gs c) (ha : Answers log mc gs c answer)
    (hne : (gs.any fun g => (ask mc c g).isSome && (answer g).isEmpty) = false) :
    ∀ g ∈ gs, Part (log g) c.last (filled mc c answer g) ∧ filled mc c answer g ≠ [] := by
  intro g hg
  unfold filled
  have hne' : ¬ ((ask mc c g).isSome = true ∧ (answer g).isEmpty = true) := by
    intro hh
    have : (gs.any fun g => (ask mc c g).isSome && (answer g).isEmpty) = true :=
      List.any_eq_true.mpr ⟨g, hg, by rw [hh.1, hh.2]; rfl⟩
    rw [this] at hne; cases hne
  cases hk : ask mc c g with
  | none =>
    rw [if_neg (by simp)]
    refine ⟨h g hg, ?_⟩
    unfold ask at hk
    split at hk
    · rename_i hlen
      intro hnil
      rw [hnil] at hlen
      simp at hlen
    · split at hk <;> cases hk
  | some b =>
    rw [if_pos (by simp)]
    rcases ha g hg b hk with h0 | ⟨n, s, q, hP, hq, hr⟩
    · exact absurd ⟨by rw [hk]; rfl, by rw [h0]; rfl⟩ hne'
    · have hp := (h g hg).answer (hL g hg) (ask_spec hk) hP hq hr
      refine ⟨hp, ?_⟩
      have hxs : answer g ≠ [] := fun h0 => hne' ⟨by rw [hk]; rfl, by rw [h0]; rfl⟩
      obtain ⟨r1, r2, -, -⟩ := C59_read (hL g hg) hP hr
      have hmb : ∀ x ∈ c.cache g, x.1 ≤ b := by
        rcases ask_spec hk with ⟨h0, _⟩ | ⟨e, he, rfl⟩
        · intro x hx; rw [h0] at hx; cases hx
        · exact getLast_max (h g hg).asc he
      rw [insertAll_last r1 fun x hx y hy => by have := hmb x hx; have := (r2 y hy).1; omega]
      simp [hxs]

/-- One call of the capturer. -/
theorem subscribe_spec {log : Nat → List Entry} {gs : List Nat} (hL : ∀ g ∈ gs, Legit (log g)) (hn : gs.Nodup) {mc : Nat}
    {c c' : Cap} {p : Int} {answer : Nat → List Item} {r : Option (List (Nat × Item) × Int)} (h : CapInv log gs c)
    (ha : Answers log mc gs (seek c p) answer) (hs : subscribe mc gs c p answer = (r, c')) :
    CapInv log gs c' ∧
    (∀ o p', r = some (o, p') → p < p' ∧ o.Pairwise (fun a b => a.2.ts ≤ b.2.ts) ∧ o.Nodup ∧
      (∀ x ∈ o, x.1 ∈ gs ∧ Good (log x.1) x.2 ∧ p < x.2.ts ∧ x.2.ts ≤ p') ∧
      (∀ g ∈ gs, ∀ c t d, Txn (log g) c t d → p < c → c ≤ p' → (g, ⟨c, t, some d⟩) ∈ o)) ∧
    (gs ≠ [] → (∀ g ∈ gs, (ask mc (seek c p) g).isSome → answer g ≠ []) → r ≠ none) := by
  obtain ⟨hl, hI⟩ := seek_spec h p
  unfold subscribe at hs
  simp only at hs
  split at hs
  · rename_i hany
    rw [Prod.mk.injEq] at hs
    obtain ⟨rfl, rfl⟩ := hs
    refine ⟨hI, (fun o p' h => nomatch h), ?_⟩
    intro _ hall
    exfalso
    obtain ⟨g, hg, hgk⟩ := List.any_eq_true.mp hany
    rw [Bool.and_eq_true] at hgk
    exact hall g hg hgk.1 (List.isEmpty_iff.mp hgk.2)
  · rename_i hany
    have hany : (gs.any fun g => (ask mc (seek c p) g).isSome && (answer g).isEmpty) = false := by simpa using hany
    have hF := filled_part hL hI ha hany
    rw [hl] at hF
    generalize filled mc (seek c p) answer = cache at hF hs
    cases hm : minLast cache gs with
    | none =>
      rw [hm] at hs
      simp only [Prod.mk.injEq] at hs
      obtain ⟨rfl, rfl⟩ := hs
      refine ⟨fun g hg => by rw [hl]; exact (hF g hg).1, (fun o p' h => nomatch h), ?_⟩
      intro hne _
      obtain ⟨m, hm'⟩ := minLast_some hne fun g hg => (hF g hg).2
      rw [hm] at hm'; cases hm'
    | some m =>
      rw [hm] at hs
      simp only at hs
      obtain ⟨m1, g₀, hg₀, e₀, he₀, hm₀⟩ := minLast_spec hm
      obtain ⟨q1, q2, q3⟩ := queue_spec (fun g hg => (hF g hg).1.asc) (fun g hg => (hF g hg).1.key) m
      have hin : (g₀, e₀.2) ∈ queue cache m gs := by
        have hmem := List.mem_of_getLast? he₀
        have hk := (hF g₀ hg₀).1.key e₀ hmem
        refine (q2 _ _).mpr ⟨hg₀, ?_, by omega⟩
        rw [← hk]; exact hmem
      have hpm : p < m := by
        have := (hF g₀ hg₀).1.low e₀ (List.mem_of_getLast? he₀)
        omega
      have hle : ∀ x ∈ queue cache m gs, x.2.ts ≤ m := fun x hx => ((q2 x.1 x.2).mp hx).2.2
      have hts : lastTs p (queue cache m gs) = m := by
        unfold lastTs
        cases hq : (queue cache m gs).getLast? with
        | none => rw [List.getLast?_eq_none_iff.mp hq] at hin; cases hin
        | some x =>
          show x.2.ts = m
          have h1 := hle x (List.mem_of_getLast? hq)
          obtain ⟨l, hl⟩ := List.getLast?_eq_some_iff.mp hq
          have h2 : e₀.2.ts ≤ x.2.ts := by
            rw [hl] at hin q1
            rcases List.mem_append.mp hin with hin | hin
            · exact (List.pairwise_append.mp q1).2.2 _ hin x (by simp)
            · rw [List.mem_singleton] at hin; rw [← hin]; exact Int.le_refl _
          have hk := (hF g₀ hg₀).1.key e₀ (List.mem_of_getLast? he₀)
          omega
      rw [hts, if_neg (by omega)] at hs
      rw [Prod.mk.injEq] at hs
      obtain ⟨rfl, rfl⟩ := hs
      refine ⟨?_, ?_, fun _ _ => by simp⟩
      · intro g hg
        have hp := (hF g hg).1
        show Part (log g) m ((cache g).dropWhile fun e => decide (e.1 ≤ m))
        have hsub : ∀ x ∈ (cache g).dropWhile fun e => decide (e.1 ≤ m), x ∈ cache g :=
          fun x hx => ((mem_dropWhile_asc hp.asc m x).mp hx).1
        refine ⟨hp.asc.sublist (List.dropWhile_sublist _), fun x hx => hp.key x (hsub x hx),
          fun x hx => ((mem_dropWhile_asc hp.asc m x).mp hx).2, fun x hx => hp.good x (hsub x hx), ?_⟩
        intro c t d ht hc ⟨x, hx, hcx⟩
        exact (mem_dropWhile_asc hp.asc m _).mpr ⟨hp.full c t d ht (by omega) ⟨x, hsub x hx, hcx⟩, hc⟩
      · intro o p' ho
        rw [Option.some.injEq, Prod.mk.injEq] at ho
        obtain ⟨rfl, rfl⟩ := ho
        refine ⟨hpm, q1, q3 hn, ?_, ?_⟩
        · rintro ⟨g, x⟩ hx
          obtain ⟨h1, h2, h3⟩ := (q2 g x).mp hx
          exact ⟨h1, (hF g h1).1.good _ h2, (hF g h1).1.low _ h2, h3⟩
        · intro g hg c t d ht h1 h2
          obtain ⟨e, he, hme⟩ := m1 g hg
          have := (hF g hg).1.full c t d ht h1 ⟨e, List.mem_of_getLast? he, by omega⟩
          exact (q2 _ _).mpr ⟨hg, this, h2⟩

/-- The subscriber gets the transactions of all the regions committed after where it started, up to where it is: all of
them, once, in the order of their commit timestamps, each with its payload — whichever peers answer, however much they
hand out, and however calls fail. -/
theorem C59_capturer {log : Nat → List Entry} {gs : List Nat} (hL : ∀ g ∈ gs, Legit (log g)) (hn : gs.Nodup) {mc : Nat}
    {p₀ p : Int} {out : List (Nat × Item)} {c : Cap} (h : CapRun log mc gs p₀ out p c) :
    out.Pairwise (fun a b => a.2.ts ≤ b.2.ts) ∧ out.Nodup ∧
    (∀ x ∈ out, x.1 ∈ gs ∧ ((x.2.data = none ∧ x.2.start = x.2.ts ∧ ∃ e ∈ log x.1, e.kind = .fake ∧ e.ts = x.2.ts) ∨
      ∃ d, x.2.data = some d ∧ Txn (log x.1) x.2.ts x.2.start d)) ∧
    (∀ g ∈ gs, ∀ c t d, (g, ⟨c, t, some d⟩) ∈ out ↔ Txn (log g) c t d ∧ p₀ < c ∧ c ≤ p) := by
  suffices hs : CapInv log gs c ∧ p₀ ≤ p ∧ out.Pairwise (fun a b => a.2.ts ≤ b.2.ts) ∧ out.Nodup ∧
      (∀ x ∈ out, x.1 ∈ gs ∧ Good (log x.1) x.2 ∧ p₀ < x.2.ts ∧ x.2.ts ≤ p) ∧
      (∀ g ∈ gs, ∀ c t d, Txn (log g) c t d → p₀ < c → c ≤ p → (g, ⟨c, t, some d⟩) ∈ out) by
    obtain ⟨_, _, h2, h3, h4, h5⟩ := hs
    refine ⟨h2, h3, fun x hx => ⟨(h4 x hx).1, (h4 x hx).2.1⟩, fun g hg c t d => ⟨fun hx => ?_, fun ⟨a, b, e⟩ => h5 g hg c t d a b e⟩⟩
    obtain ⟨_, hgood, hb⟩ := h4 _ hx
    rcases hgood with ⟨hnone, _⟩ | ⟨d', hd, ht⟩
    · cases hnone
    · simp only [Option.some.injEq] at hd
      subst hd
      exact ⟨ht, hb⟩
  induction h with
  | start p x =>
    exact ⟨fun g _ => Part.nil _ _, Int.le_refl _, List.Pairwise.nil, List.nodup_nil, (fun _ hx => nomatch hx),
      fun _ _ _ _ _ _ h1 h2 => by omega⟩
  | again p' _ ih =>
    exact ⟨ih.1, Int.le_refl _, List.Pairwise.nil, List.nodup_nil, (fun _ hx => nomatch hx),
      fun _ _ _ _ _ _ h1 h2 => by omega⟩
  | failed _ ha hs ih => exact ⟨(subscribe_spec hL hn ih.1 ha hs).1, ih.2⟩
  | @got p₀ out p c answer o p' c' _ ha hs ih =>
    obtain ⟨i0, i1, i2, i3, i4, i5⟩ := ih
    obtain ⟨s1, s2, -⟩ := subscribe_spec hL hn i0 ha hs
    obtain ⟨t1, t2, t3, t4, t5⟩ := s2 o p' rfl
    refine ⟨s1, by omega, ?_, ?_, ?_, ?_⟩
    · rw [List.pairwise_append]
      refine ⟨i2, t2, ?_⟩
      intro a ha' b hb
      have := (i4 a ha').2.2.2
      have := (t4 b hb).2.2.1
      omega
    · rw [List.nodup_append]
      refine ⟨i3, t3, ?_⟩
      intro a ha' b hb hab
      have h1 := (i4 a ha').2.2.2
      have h2 := (t4 b hb).2.2.1
      rw [hab] at h1
      omega
    · intro x hx
      rcases List.mem_append.mp hx with hx | hx
      · have := i4 x hx; exact ⟨this.1, this.2.1, this.2.2.1, by omega⟩
      · have := t4 x hx; exact ⟨this.1, this.2.1, by omega, this.2.2.2⟩
    · intro g hg c t d ht h1 h2
      by_cases hc : c ≤ p
      · exact List.mem_append.mpr (Or.inl (i5 g hg c t d ht h1 hc))
      · exact List.mem_append.mpr (Or.inr (t5 g hg c t d ht (by omega) h2))

/-- When each region that is asked has something to say, the subscriber gets further. -/
theorem C59_capturer_progress {log : Nat → List Entry} {gs : List Nat} (hL : ∀ g ∈ gs, Legit (log g)) (hn : gs.Nodup)
    (hne : gs ≠ []) {mc : Nat} {p₀ p : Int} {out : List (Nat × Item)} {c : Cap} (h : CapRun log mc gs p₀ out p c)
    {answer : Nat → List Item} (ha : Answers log mc gs (seek c p) answer)
    (hall : ∀ g ∈ gs, (ask mc (seek c p) g).isSome → answer g ≠ []) :
    ∃ o p' c', subscribe mc gs c p answer = (some (o, p'), c') ∧ p < p' := by
  have hI : CapInv log gs c := by
    clear ha hall
    induction h with
    | start p x => exact fun g _ => Part.nil _ _
    | again p' _ ih => exact ih
    | failed _ ha hs ih => exact (subscribe_spec hL hn ih ha hs).1
    | got _ ha hs ih => exact (subscribe_spec hL hn ih ha hs).1
  cases hs : subscribe mc gs c p answer with
  | mk r c' =>
    obtain ⟨-, s2, s3⟩ := subscribe_spec hL hn hI ha hs
    cases r with
    | none => exact absurd rfl (s3 hne hall)
    | some r => exact ⟨r.1, r.2, c', rfl, (s2 r.1 r.2 rfl).1⟩

/-! ## Reads that do not fail -/

theorem getValue_total {vals : Int → Option Nat} {q : Query} {batch : List (Int × Int)} {resp : List Item} {p : Int × Int}
    (hb : ∀ x ∈ batch, Found vals x) (hp : Found vals p) :
    getValue vals q batch resp p ≠ .fail ∧ ∀ b r, getValue vals q batch resp p = .more b r → ∀ x ∈ b, Found vals x := by
  have hbp : ∀ x ∈ batch ++ [p], Found vals x := by
    intro x hx
    rcases List.mem_append.mp hx with hx | hx
    · exact hb x hx
    · rw [List.mem_singleton] at hx; rw [hx]; exact hp
  have f1 : found vals [p] = true := found_iff.mpr fun x hx => by rw [List.mem_singleton] at hx; rw [hx]; exact hp
  have f2 : found vals (batch ++ [p]) = true := found_iff.mpr hbp
  unfold getValue
  cases q.mode with
  | get =>
    simp only
    rw [if_neg (by simp [f1])]
    split
    · refine ⟨(fun h => nomatch h), ?_⟩
      intro b r h
      rw [Got.more.injEq] at h
      rw [← h.1]
      intro x hx; cases hx
    · exact ⟨(fun h => nomatch h), fun b r h => nomatch h⟩
  | multi n =>
    simp only
    split
    · refine ⟨(fun h => nomatch h), ?_⟩
      intro b r h
      rw [Got.more.injEq] at h
      rw [← h.1]
      exact hbp
    · rw [if_neg (by simp [f2])]
      split
      · exact ⟨(fun h => nomatch h), fun b r h => nomatch h⟩
      · refine ⟨(fun h => nomatch h), ?_⟩
        intro b r h
        rw [Got.more.injEq] at h
        rw [← h.1]
        intro x hx; cases hx

theorem finish_total {vals : Int → Option Nat} {q : Query} {batch : List (Int × Int)} {resp : List Item}
    (hb : ∀ x ∈ batch, Found vals x) : finish vals q batch resp ≠ .err := by
  unfold finish
  split
  · intro h; cases h
  · rw [if_neg (by simp [found_iff.mpr hb])]
    intro h; cases h

theorem scan_total {vals : Int → Option Nat} {q : Query} {cp oldest : Int} (xs : List (Int × Rec)) (batch : List (Int × Int))
    (resp : List Item) (cnt : Int) (hb : ∀ x ∈ batch, Found vals x)
    (hc : ∀ x ∈ xs, x.2.kind = .commit → oldest ≤ x.2.start ∧ ∃ d, vals x.2.start = some d) :
    scan vals q cp oldest xs batch resp cnt ≠ .err := by
  induction xs generalizing batch resp cnt with
  | nil => rw [scan]; exact finish_total hb
  | cons x xs ih =>
    have hxs : ∀ y ∈ xs, y.2.kind = .commit → oldest ≤ y.2.start ∧ ∃ d, vals y.2.start = some d :=
      fun y hy => hc y (List.mem_cons_of_mem _ hy)
    rw [scan]
    have more : ∀ p cnt', Found vals p → (match getValue vals q batch resp p with
        | .fail => Res.err
        | .stop r => .ok r
        | .more b r => scan vals q cp oldest xs b r cnt') ≠ .err := by
      intro p cnt' hp
      obtain ⟨g1, g2⟩ := getValue_total (q := q) (resp := resp) hb hp
      cases hg : getValue vals q batch resp p with
      | fail => exact absurd hg g1
      | stop r => intro h; cases h
      | more b r => exact ih b r cnt' (g2 b r hg) hxs
    split
    · exact finish_total hb
    · split
      · exact more _ _ (Or.inl rfl)
      · split
        · exact ih batch resp cnt hb hxs
        · rename_i hnc
          have hk : x.2.kind = .commit := by by_contra hh; exact hnc (Or.inl hh)
          obtain ⟨h1, h2⟩ := hc x (by simp) hk
          rw [if_neg (by omega)]
          split
          · exact finish_total hb
          · exact more _ _ (Or.inr h2)

theorem run_vals (xs : List (Entry × Bool)) : ∀ e ∈ xs.map Prod.fst, e.kind = .prewrite → ∃ d, (run xs).vals e.ts = some d := by
  induction xs using List.reverseRecOn with
  | nil => intro e he; cases he
  | append_singleton xs x ih =>
    obtain ⟨f, b⟩ := x
    rw [run_snoc]
    have hv : (apply (run xs) f b).vals = if f.kind = .prewrite then setVal (run xs).vals f.ts f.data else (run xs).vals := by
      unfold apply; rw [updateCheck_vals, updateMap_vals]; rfl
    intro e he hk
    rw [hv]
    rw [List.map_append] at he
    rcases List.mem_append.mp he with he | he
    · obtain ⟨d, hd⟩ := ih e he hk
      split
      · unfold setVal
        split
        · exact ⟨_, rfl⟩
        · exact ⟨d, hd⟩
      · exact ⟨d, hd⟩
    · have : e = f := by simpa using he
      subst this
      rw [if_pos hk]
      exact ⟨e.data, by simp [setVal]⟩

theorem apply_oldest {s : St} (h : s.cp ≠ -1) (e : Entry) (b : Bool) : (apply s e b).oldest = s.oldest := by
  have h1 : ∀ s b, (updateCheck s b).oldest = s.oldest := by
    intro s b; unfold updateCheck; split <;> rfl
  unfold apply
  rw [h1]
  unfold updateMap
  rw [if_neg (show (write s e).cp ≠ -1 from h)]
  split
  · split <;> rfl
  · rfl
  · split
    · rfl
    · split <;> rfl

theorem run_oldest {L : List Entry} (hL : Legit L) (f : Entry × Bool) (xs : List (Entry × Bool))
    (h : (f :: xs).map Prod.fst <+: L) : (run (f :: xs)).oldest = f.1.ts := by
  induction xs using List.reverseRecOn with
  | nil =>
    have hk : f.1.kind = .fake := hL.first f.1 (by obtain ⟨l, hl⟩ := h; rw [← hl]; rfl)
    have hu : updateMap (write init f.1) f.1 = opened (write init f.1) f.1.ts := by
      unfold updateMap
      rw [if_pos (show (write init f.1).cp = -1 from rfl), if_pos hk]
    show (updateCheck (updateMap (write init f.1) f.1) f.2).oldest = _
    rw [hu]
    unfold updateCheck
    split <;> rfl
  | append_singleton xs x ih =>
    have h1 : (f :: xs).map Prod.fst <+: L := by
      refine List.IsPrefix.trans ?_ h
      rw [← List.cons_append, List.map_append]
      exact List.prefix_append _ _
    rw [← List.cons_append, show x = (x.1, x.2) from rfl, run_snoc, apply_oldest]
    · exact ih h1
    · rcases (peer_inv hL (run_peer (f :: xs) h1)).1 with ⟨h0, _⟩ | ⟨_, _, hI⟩
      · simp at h0
      · have := hI.cpPos; omega

/-- A peer that has applied the log from the beginning answers each reader that does not ask for what is too old, if no
transaction it is to hand out is too old. -/
theorem C59_read_answers {L : List Entry} (hL : Legit L) (f : Entry × Bool) (xs : List (Entry × Bool))
    (h : (f :: xs).map Prod.fst <+: L) (q : Query) (hf : f.1.ts ≤ q.begin) (hq : q.cfOldest ≤ q.begin)
    (hc : ∀ e ∈ (f :: xs).map Prod.fst, e.kind = .commit → f.1.ts ≤ e.start ∧ q.cfOldest ≤ e.start) :
    ∃ items, read (run (f :: xs)) q = .ok items := by
  have hP := run_peer (f :: xs) h
  have hsub : ∀ e ∈ (f :: xs).map Prod.fst, e ∈ L := fun e he => h.subset he
  have hfp : 0 < f.1.ts := hL.pos f.1 (hsub f.1 (by simp))
  rcases (peer_inv hL hP).1 with ⟨h0, _⟩ | ⟨_, _, hI⟩
  · simp at h0
  · have htk : L.take (f :: xs).length = (f :: xs).map Prod.fst := by
      obtain ⟨l, hl⟩ := h
      rw [← hl, List.take_append_of_le_length (by simp)]
      exact List.take_of_length_le (by simp)
    rw [htk] at hI
    cases hr : read (run (f :: xs)) q with
    | ok items => exact ⟨items, rfl⟩
    | err =>
      exfalso
      unfold read at hr
      rw [run_oldest hL f xs h] at hr
      simp only at hr
      have ho : ∃ old, (if q.cfOldest < f.1.ts then f.1.ts else q.cfOldest) = old ∧ f.1.ts ≤ old ∧ old ≤ q.begin ∧
          ∀ e ∈ (f :: xs).map Prod.fst, e.kind = .commit → old ≤ e.start := by
        refine ⟨_, rfl, ?_, ?_, ?_⟩
        · split <;> omega
        · split <;> omega
        · intro e he hk
          have := hc e he hk
          split <;> omega
      obtain ⟨old, ho, h1, h2, h3⟩ := ho
      rw [ho] at hr
      have hcp := hI.cpPos
      rw [if_neg (by omega), if_neg (by omega), if_neg (by omega), if_neg (by omega)] at hr
      split at hr
      · cases hr
      · refine scan_total _ [] [] q.cnt (fun _ hx => nomatch hx) ?_ hr
        intro x hx hk
        obtain ⟨e, he, het, hek, hes⟩ := hI.recs x.1 x.2 (List.mem_filter.mp hx).1
        have hke : e.kind = .commit := by rw [hek]; exact hk
        refine ⟨by have := h3 e he hke; omega, ?_⟩
        have heL : e ∈ L.take (f :: xs).length := by rw [htk]; exact he
        obtain ⟨i, hi⟩ := List.mem_iff_getElem?.mp heL
        rw [List.getElem?_take] at hi
        split at hi
        · rename_i hlt
          obtain ⟨_, j, g, hj, hjg, hgk, hgt, _⟩ := hL.commit i e hi hke
          have hg : g ∈ (f :: xs).map Prod.fst := by rw [← htk]; exact mem_take_of_lt hjg (by omega)
          obtain ⟨d, hd⟩ := run_vals (f :: xs) g hg hgk
          exact ⟨d, by rw [← hes, ← hgt]; exact hd⟩
        · cases hi

end BaikalDB.Binlog
