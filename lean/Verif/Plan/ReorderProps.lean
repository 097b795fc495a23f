import Verif.Plan.Reorder
import Mathlib.Data.List.Perm.Basic
import Mathlib.Data.List.Nodup

/-! # C55: inner joins in another order -/

namespace BaikalDB.Plan

variable {F : Fns} {D : Nat → List (Nat → Val)} {ρ : Row}

/-! ## The product of tables in any order -/

/-- All combinations of the rows of several plans, on top of the rows `X`. -/
def cross (X : List Row) : List (List Nat × List Row) → List Row
  | [] => X
  | u :: us => (cross X us).flatMap fun a => u.2.map (merge u.1 a)

theorem map_swap {α β γ : Type} (f : α → β → γ) (L : List α) (R : List β) :
    (L.flatMap fun a => R.map (f a)).Perm (R.flatMap fun b => L.map fun a => f a b) := by
  have h := joinI_swap (m := f) (P := fun _ => true) L R
  unfold joinI at h
  simp only [List.filter_true] at h
  exact h.symm

theorem merge_comm {B C : List Nat} (hd : ∀ t ∈ B, t ∉ C) (a b c : Row) :
    merge B (merge C a c) b = merge C (merge B a b) c := by
  funext t
  unfold merge
  by_cases h1 : t ∈ B
  · simp [h1, hd t h1]
  · simp [h1]

theorem cross_swap {X : List Row} {u v : List Nat × List Row} {us : List (List Nat × List Row)} (hd : ∀ t ∈ u.1, t ∉ v.1) :
    (cross X (u :: v :: us)).Perm (cross X (v :: u :: us)) := by
  simp only [cross, List.flatMap_assoc, List.flatMap_map]
  refine List.Perm.flatMap_left _ fun a _ => ?_
  refine (map_swap (fun c b => merge u.1 (merge v.1 a c) b) v.2 u.2).trans (.of_eq ?_)
  refine List.flatMap_congr fun b _ => ?_
  refine List.map_congr_left fun c _ => ?_
  exact merge_comm hd a b c

def Apart (us : List (List Nat × List Row)) : Prop := us.Pairwise fun u v => ∀ t ∈ u.1, t ∉ v.1

theorem cross_perm {X : List Row} {us vs : List (List Nat × List Row)} (h : us.Perm vs) (hd : Apart us) :
    (cross X us).Perm (cross X vs) := by
  induction h with
  | nil => exact .refl _
  | cons u h ih => exact (ih (List.pairwise_cons.mp hd).2).flatMap_right _
  | swap u v us =>
    have := (List.pairwise_cons.mp hd).1 u List.mem_cons_self
    exact cross_swap this
  | trans h1 h2 ih1 ih2 =>
    have sym : ∀ {u v : List Nat × List Row}, (∀ t ∈ u.1, t ∉ v.1) → ∀ t ∈ v.1, t ∉ u.1 := fun h t ht hu => h t hu ht
    exact (ih1 hd).trans (ih2 ((h1.pairwise_iff sym).mp hd))

theorem cross_append {X : List Row} (us vs : List (List Nat × List Row)) : cross X (us ++ vs) = cross (cross X vs) us := by
  induction us with
  | nil => rfl
  | cons u us ih => simp only [List.cons_append, cross, ih]

theorem merge_congr {B B' : List Nat} (h : ∀ t, t ∈ B ↔ t ∈ B') : merge B = merge B' := by
  funext a b t; unfold merge; simp [h t]

/-- Rows of a product on the right of a join. -/
theorem cross_right (X : List Row) (us : List (List Nat × List Row)) {T : List Nat} (hT : ∀ t, t ∈ T ↔ ∃ u ∈ us, t ∈ u.1) :
    (X.flatMap fun a => (cross [ρ] us).map (merge T a)) = cross X us := by
  induction us generalizing T with
  | nil =>
    have : merge T = merge [] := merge_congr fun t => by simp [hT]
    rw [this]
    have h2 : ∀ a : Row, merge [] a ρ = a := fun a => by funext t; simp [merge]
    simp [cross, h2]
  | cons u us ih =>
    have ih := ih (T := us.flatMap Prod.fst) (fun t => by simp)
    simp only [cross]
    rw [← ih]
    simp only [List.flatMap_assoc, List.flatMap_map, List.map_flatMap, List.map_map]
    refine List.flatMap_congr fun a _ => List.flatMap_congr fun c _ => List.map_congr_left fun b _ => ?_
    show merge T a (merge u.1 c b) = merge u.1 (merge (us.flatMap Prod.fst) a c) b
    funext t
    unfold merge
    have := hT t
    by_cases h1 : t ∈ u.1
    · have : t ∈ T := (hT t).mpr ⟨u, by simp, h1⟩
      simp [h1, this]
    · by_cases h2 : ∃ v ∈ us, t ∈ v.1
      · obtain ⟨v, hv, h3⟩ := h2
        have : t ∈ T := (hT t).mpr ⟨v, by simp [hv], h3⟩
        have h4 : t ∈ us.flatMap Prod.fst := List.mem_flatMap.mpr ⟨v, hv, h3⟩
        simp only [h1, this, h4, if_true, if_false]
      · have h5 : t ∉ T := fun hc => by
          obtain ⟨v, hv, h3⟩ := (hT t).mp hc
          rcases List.mem_cons.mp hv with rfl | hv
          · exact h1 h3
          · exact h2 ⟨v, hv, h3⟩
        have h4 : t ∉ us.flatMap Prod.fst := by
          intro hc
          obtain ⟨v, hv, h3⟩ := List.mem_flatMap.mp hc
          exact h2 ⟨v, hv, h3⟩
        simp only [h1, h5, h4, if_false]

/-! ## Plans as products -/

theorem unit_facts {p : Tree} {t : Nat} (h : unitOf p = some t) :
    tups p = [t] ∧ allInner p = true ∧ (∀ es, CorrOk es p) ∧ Wf p ∧ ∀ r ∈ sem F D ρ p, ∀ u, u ≠ t → r u = ρ u := by
  induction p with
  | scan t' =>
    simp only [unitOf, Option.some.injEq] at h
    subst h
    refine ⟨rfl, rfl, fun _ => trivial, trivial, fun r hr u hu => ?_⟩
    simp only [sem, List.mem_map] at hr
    obtain ⟨x, -, rfl⟩ := hr
    simp [hu]
  | filter cs p ih =>
    obtain ⟨h1, h2, h3, h4, h5⟩ := ih h
    exact ⟨h1, h2, h3, ⟨h4, h3 cs⟩, fun r hr => h5 r (List.mem_of_mem_filter hr)⟩
  | join ty cs l r => cases h

def unitRows (F : Fns) (D : Nat → List (Nat → Val)) (ρ : Row) (u : Nat × Tree) : List Nat × List Row := ([u.1], sem F D ρ u.2)

/-- ON conditions are about the tables of their join. -/
def Scoped : Tree → Prop
  | .scan _ => True
  | .filter _ p => Scoped p
  | .join _ cs l r => (∀ e ∈ cs, within (tups l ++ tups r) e = true) ∧ Scoped l ∧ Scoped r

theorem blockOf_units {p : Tree} {b : Block} (h : blockOf p = some b) :
    b.units.map Prod.fst = tups p ∧ allInner p = true ∧ ∀ u ∈ b.units, unitOf u.2 = some u.1 := by
  induction p generalizing b with
  | scan t => simp only [blockOf, Option.some.injEq] at h; subst h; simp [tups, allInner, unitOf]
  | filter cs p =>
    simp only [blockOf, Option.map_eq_some_iff] at h
    obtain ⟨t, h, rfl⟩ := h
    obtain ⟨h1, h2, -⟩ := unit_facts (F := fun _ _ => none) (D := fun _ => []) (ρ := fun _ _ => none) h
    exact ⟨by simp [tups, h1], h2, by simp [unitOf, h]⟩
  | join ty cs l r ihl ihr =>
    simp only [blockOf] at h
    by_cases hty : ty ≠ .inner
    · rw [if_pos hty] at h; cases h
    rw [if_neg hty] at h
    push Not at hty
    cases hl : blockOf l with
    | none => rw [hl] at h; cases h
    | some a =>
      cases hr : blockOf r with
      | none => rw [hl, hr] at h; cases h
      | some c =>
        rw [hl, hr] at h
        simp only [Option.some.injEq] at h
        subst h
        obtain ⟨l1, l2, l3⟩ := ihl hl
        obtain ⟨r1, r2, r3⟩ := ihr hr
        refine ⟨by simp [tups, l1, r1], by simp [allInner, hty, l2, r2], fun u hu => ?_⟩
        exact (List.mem_append.mp hu).elim (l3 u) (r3 u)

theorem blockOf_join {ty : JType} {cs : List Expr} {l r : Tree} {b : Block} (h : blockOf (.join ty cs l r) = some b) :
    ty = .inner ∧ ∃ a c, blockOf l = some a ∧ blockOf r = some c ∧ b = ⟨a.units ++ c.units,
      a.eqs ++ c.eqs ++ cs.filterMap (eqPair (tups l) (tups r)), a.conds ++ c.conds ++ cs⟩ := by
  simp only [blockOf] at h
  by_cases hty : ty ≠ .inner
  · rw [if_pos hty] at h; cases h
  rw [if_neg hty] at h
  push Not at hty
  cases hl : blockOf l with
  | none => rw [hl] at h; cases h
  | some a =>
    cases hr : blockOf r with
    | none => rw [hl, hr] at h; cases h
    | some c =>
      rw [hl, hr] at h
      simp only [Option.some.injEq] at h
      exact ⟨hty, a, c, rfl, rfl, h.symm⟩

theorem blockOf_conds {p : Tree} {b : Block} (h : blockOf p = some b) (hs : Scoped p) : ∀ e ∈ b.conds, within (tups p) e = true := by
  induction p generalizing b with
  | scan t => simp only [blockOf, Option.some.injEq] at h; subst h; intro e he; cases he
  | filter cs p => 
    simp only [blockOf, Option.map_eq_some_iff] at h
    obtain ⟨t, h, rfl⟩ := h
    intro e he; cases he
  | join ty cs l r ihl ihr =>
    obtain ⟨-, a, c, hl, hr, rfl⟩ := blockOf_join h
    intro e he
    simp only [List.mem_append] at he
    rcases he with (he | he) | he
    · exact within_mono (fun t ht => by simp [tups, ht]) (ihl hl hs.2.1 e he)
    · exact within_mono (fun t ht => by simp [tups, ht]) (ihr hr hs.2.2 e he)
    · exact hs.1 e he

/-- The rows of inner joins: the product of the tables, filtered by all conditions. -/
theorem sem_cross {p : Tree} {b : Block} (h : blockOf p = some b) (hs : Scoped p) (hn : (tups p).Nodup) :
    (sem F D ρ p).Perm ((cross [ρ] (b.units.map (unitRows F D ρ)).reverse).filter (holdsAll F b.conds)) := by
  have unit : ∀ (q : Tree) (t : Nat), unitOf q = some t → sem F D ρ q = (sem F D ρ q).map (merge [t] ρ) := by
    intro q t hq
    obtain ⟨-, -, -, -, h⟩ := unit_facts (F := F) (D := D) (ρ := ρ) hq
    conv_lhs => rw [← List.map_id (sem F D ρ q)]
    refine List.map_congr_left fun r hr => ?_
    funext u
    by_cases hu : u = t
    · simp [merge, hu]
    · simp [merge, hu, h r hr u hu]
  induction p generalizing b with
  | scan t =>
    simp only [blockOf, Option.some.injEq] at h; subst h
    simp only [List.map_cons, List.map_nil, List.reverse_singleton, cross, unitRows, List.flatMap_cons, List.flatMap_nil,
      List.append_nil, filter_true]
    exact .of_eq (unit _ t rfl)
  | filter cs p =>
    simp only [blockOf, Option.map_eq_some_iff] at h
    obtain ⟨t, h, rfl⟩ := h
    simp only [List.map_cons, List.map_nil, List.reverse_singleton, cross, unitRows, List.flatMap_cons, List.flatMap_nil,
      List.append_nil, filter_true]
    exact .of_eq (unit _ t h)
  | join ty cs l r ihl ihr =>
    obtain ⟨rfl, a, c, hl, hr, rfl⟩ := blockOf_join h
    simp only [tups, List.nodup_append] at hn
    have hd : ∀ t ∈ tups l, t ∉ tups r := fun t h1 h2 => hn.2.2 t h1 t h2 rfl
    have hL := ihl hl hs.2.1 hn.1
    have hR := ihr hr hs.2.2 hn.2.1
    simp only [List.map_append, List.reverse_append, cross_append]
    rw [← cross_right (ρ := ρ) (T := tups r) (cross [ρ] (a.units.map (unitRows F D ρ)).reverse)
      (c.units.map (unitRows F D ρ)).reverse (fun t => by
        rw [← (blockOf_units hr).1]; simp [unitRows, eq_comm])]
    have e1 : ∀ X Y : List Row, (X.flatMap fun a => Y.map (merge (tups r) a)) = joinI (merge (tups r)) (fun _ => true) X Y := by
      intro X Y; simp [joinI]
    rw [e1, filter_joinI]
    show (joinI _ _ _ _).Perm _
    refine (joinI_perm hL hR).trans (.of_eq ?_)
    symm
    refine joinI_eq fun x _ y _ => ?_
    rw [holdsAll_append, holdsAll_append, holdsAll_left hd (blockOf_conds hl hs.2.1), holdsAll_right (blockOf_conds hr hs.2.2)]
    simp only [Bool.true_and]
    rw [Bool.and_comm, Bool.and_assoc]

/-! ## The new order -/

theorem mem_insertKey {t u : Nat} {ks : List Nat} : u ∈ insertKey t ks ↔ u = t ∨ u ∈ ks := by
  induction ks with
  | nil => simp [insertKey]
  | cons k ks ih =>
    unfold insertKey
    split
    · simp
    · split
      · rename_i h; subst h; simp
      · simp only [List.mem_cons, ih]
        constructor
        · rintro (h | h | h) <;> simp [h]
        · rintro (h | h | h) <;> simp [h]

theorem sorted_insertKey {t : Nat} {ks : List Nat} (h : ks.Pairwise (· < ·)) : (insertKey t ks).Pairwise (· < ·) := by
  induction ks with
  | nil => simp [insertKey]
  | cons k ks ih =>
    have h' := List.pairwise_cons.mp h
    unfold insertKey
    split
    · rename_i hlt
      refine List.pairwise_cons.mpr ⟨fun x hx => ?_, h⟩
      rcases List.mem_cons.mp hx with rfl | hx
      · exact hlt
      · exact Nat.lt_trans hlt (h'.1 x hx)
    · split
      · exact h
      · rename_i h1 h2
        refine List.pairwise_cons.mpr ⟨fun x hx => ?_, ih h'.2⟩
        rcases mem_insertKey.mp hx with rfl | hx
        · omega
        · exact h'.1 x hx

theorem keysOf_facts (eqs : List (Nat × Nat)) :
    (keysOf eqs).Pairwise (· < ·) ∧ ∀ t, t ∈ keysOf eqs ↔ ∃ p ∈ eqs, t = p.1 ∨ t = p.2 := by
  unfold keysOf
  have gen : ∀ (eqs : List (Nat × Nat)) (ks : List Nat), ks.Pairwise (· < ·) →
      (eqs.foldl (fun ks p => insertKey p.2 (insertKey p.1 ks)) ks).Pairwise (· < ·) ∧
      ∀ t, t ∈ eqs.foldl (fun ks p => insertKey p.2 (insertKey p.1 ks)) ks ↔ t ∈ ks ∨ ∃ p ∈ eqs, t = p.1 ∨ t = p.2 := by
    intro eqs
    induction eqs with
    | nil => intro ks h; exact ⟨h, by simp⟩
    | cons p eqs ih =>
      intro ks h
      obtain ⟨h1, h2⟩ := ih _ (sorted_insertKey (t := p.2) (sorted_insertKey (t := p.1) h))
      refine ⟨h1, fun t => ?_⟩
      rw [List.foldl_cons, h2 t]
      simp only [mem_insertKey, List.mem_cons, exists_eq_or_imp]
      constructor
      · rintro ((h | h | h) | h)
        · exact .inr (.inl (.inr h))
        · exact .inr (.inl (.inl h))
        · exact .inl h
        · exact .inr (.inr h)
      · rintro (h | (h | h) | h)
        · exact .inl (.inr (.inr h))
        · exact .inl (.inr (.inl h))
        · exact .inl (.inl h)
        · exact .inr h
  obtain ⟨h1, h2⟩ := gen eqs [] List.Pairwise.nil
  exact ⟨h1, fun t => by rw [h2 t]; simp⟩

theorem scanOrder_keys {eqs : List (Nat × Nat)} {before rest ks : List Nat} (h : ks.Pairwise (· < ·)) :
    (scanOrder eqs before rest ks).2.Pairwise (· < ·) ∧ (∀ t ∈ ks, t ∈ (scanOrder eqs before rest ks).2) ∧
      ∀ t ∈ (scanOrder eqs before rest ks).2, t ∈ ks ∨ t ∈ rest := by
  induction rest generalizing before ks with
  | nil => exact ⟨h, fun t ht => ht, fun t ht => .inl ht⟩
  | cons u rest ih =>
    unfold scanOrder
    split
    · obtain ⟨h1, h2, h3⟩ := ih (before := before ++ [u]) (sorted_insertKey (t := u) h)
      refine ⟨h1, fun t ht => h2 t (mem_insertKey.mpr (.inr ht)), fun t ht => ?_⟩
      rcases h3 t ht with h | h
      · rcases mem_insertKey.mp h with rfl | h
        · exact .inr List.mem_cons_self
        · exact .inl h
      · exact .inr (List.mem_cons_of_mem _ h)
    · refine ⟨sorted_insertKey h, fun t ht => mem_insertKey.mpr (.inr ht), fun t ht => ?_⟩
      rcases mem_insertKey.mp ht with rfl | h
      · exact .inr List.mem_cons_self
      · exact .inl h

theorem pickAll_perm {eqs : List (Nat × Nat)} {n : Nat} {taken ks os : List Nat} (hn : n = ks.length)
    (h : pickAll eqs n taken ks = some os) : os.Perm (taken ++ ks) := by
  induction n generalizing taken ks with
  | zero =>
    have : ks = [] := List.length_eq_zero_iff.mp hn.symm
    subst this
    simp only [pickAll, Option.some.injEq] at h
    subst h; simp
  | succ n ih =>
    rw [pickAll] at h
    cases ht : nextTable eqs taken ks with
    | none => rw [ht] at h; cases h
    | some t =>
      rw [ht] at h
      have hm : t ∈ ks := by
        unfold nextTable at ht
        obtain ⟨u, -, hu⟩ := List.exists_of_findSome?_eq_some ht
        exact List.mem_of_find?_eq_some hu
      have := ih (by rw [List.length_erase_of_mem hm]; omega) h
      refine this.trans ?_
      rw [List.append_assoc]
      exact List.Perm.append_left _ (List.perm_cons_erase hm).symm

theorem mem_foldl_insertKey {order ks : List Nat} {t : Nat} :
    t ∈ order.foldl (fun ks t => insertKey t ks) ks ↔ t ∈ ks ∨ t ∈ order := by
  induction order generalizing ks with
  | nil => simp
  | cons u order ih =>
    rw [List.foldl_cons, ih, mem_insertKey, List.mem_cons]
    constructor
    · rintro ((h | h) | h) <;> simp [h]
    · rintro (h | h | h) <;> simp [h]

/-- If every table is in an equality, the new order has every table once. -/
theorem newOrder_perm {idx : Nat → Bool} {order os : List Nat} {eqs : List (Nat × Nat)} (hn : order.Nodup)
    (hl : ∀ t ∈ order, ∃ p ∈ eqs, t = p.1 ∨ t = p.2) (he : ∀ p ∈ eqs, p.1 ∈ order ∧ p.2 ∈ order)
    (h : newOrder idx order eqs = some os) : os.Perm order := by
  unfold newOrder at h
  cases order with
  | nil => cases h
  | cons t0 rest =>
    simp only at h
    obtain ⟨k1, k2⟩ := keysOf_facts eqs
    obtain ⟨s1, s2, s3⟩ := scanOrder_keys (eqs := eqs) (before := [t0]) (rest := rest) k1
    have hp : (scanOrder eqs [t0] rest (keysOf eqs)).2.Perm (t0 :: rest) := by
      refine (List.perm_ext_iff_of_nodup (s1.imp (fun h => Nat.ne_of_lt h)) hn).mpr fun t => ⟨fun ht => ?_, fun ht => ?_⟩
      · rcases s3 t ht with h | h
        · obtain ⟨p, hp, h | h⟩ := (k2 t).mp h
          · rw [h]; exact (he p hp).1
          · rw [h]; exact (he p hp).2
        · exact List.mem_cons_of_mem _ h
      · exact s2 t ((k2 t).mpr (hl t ht))
    have done : ∀ t, t ∈ t0 :: rest → pickAll eqs ((scanOrder eqs [t0] rest (keysOf eqs)).2.erase t).length [t]
        ((scanOrder eqs [t0] rest (keysOf eqs)).2.erase t) = some os → os.Perm (t0 :: rest) := by
      intro t ht h
      have := pickAll_perm rfl h
      exact (this.trans (List.perm_cons_erase (hp.mem_iff.mpr ht)).symm).trans hp
    by_cases hc : (idx t0 && (scanOrder eqs [t0] rest (keysOf eqs)).1) = true
    · rw [if_pos hc] at h; cases h
    rw [if_neg hc] at h
    cases hf : ((t0 :: rest).foldl (fun ks t => insertKey t ks) []).find? idx with
    | some t =>
      rw [hf] at h
      have hm : t ∈ t0 :: rest := by
        have := List.mem_of_find?_eq_some hf
        rw [mem_foldl_insertKey] at this
        simpa using this
      exact done t hm h
    | none =>
      rw [hf] at h
      simp only at h
      split at h
      · cases h
      · exact done t0 List.mem_cons_self h

/-! ## The new joins -/

theorem eqs_mem {p : Tree} {b : Block} (h : blockOf p = some b) : ∀ q ∈ b.eqs, q.1 ∈ tups p ∧ q.2 ∈ tups p := by
  induction p generalizing b with
  | scan t => simp only [blockOf, Option.some.injEq] at h; subst h; intro q hq; cases hq
  | filter cs p =>
    simp only [blockOf, Option.map_eq_some_iff] at h
    obtain ⟨t, h, rfl⟩ := h
    intro q hq; cases hq
  | join ty cs l r ihl ihr =>
    obtain ⟨-, a, c, hl, hr, rfl⟩ := blockOf_join h
    intro q hq
    simp only [List.mem_append, List.mem_filterMap] at hq
    simp only [tups, List.mem_append]
    rcases hq with (hq | hq) | ⟨e, -, hq⟩
    · exact ⟨.inl (ihl hl q hq).1, .inl (ihl hl q hq).2⟩
    · exact ⟨.inr (ihr hr q hq).1, .inr (ihr hr q hq).2⟩
    · unfold eqPair at hq
      split at hq
      · split at hq
        · cases hq
        · split at hq
          · rename_i h
            cases hq
            exact ⟨.inl h.1, .inr h.2⟩
          · split at hq
            · rename_i h
              cases hq
              exact ⟨.inl h.2, .inr h.1⟩
            · cases hq
      · cases hq

theorem blockOf_unit {q : Tree} {t : Nat} (h : unitOf q = some t) : blockOf q = some ⟨[(t, q)], [], []⟩ := by
  cases q with
  | scan u => simp only [unitOf, Option.some.injEq] at h; subst h; rfl
  | filter cs p => simp only [unitOf] at h; simp [blockOf, h]
  | join ty cs l r => cases h

theorem scoped_unit {q : Tree} {t : Nat} (h : unitOf q = some t) : Scoped q := by
  induction q with
  | scan u => trivial
  | filter cs p ih => exact ih h
  | join ty cs l r => cases h

/-- The plan for a table. -/
def unitFor (units : List (Nat × Tree)) (t : Nat) : Tree := (units.lookup t).getD (.scan t)

theorem chain_block {units : List (Nat × Tree)} (hu : ∀ t, unitOf (unitFor units t) = some t) (ts : List Nat) {last : Tree}
    {us : List (Nat × Tree)} (h : blockOf last = some ⟨us, [], []⟩) (hs : Scoped last) :
    blockOf (chain units last ts) = some ⟨us ++ ts.map (fun t => (t, unitFor units t)), [], []⟩ ∧ Scoped (chain units last ts) := by
  induction ts generalizing last us with
  | nil => simp [chain, h, hs]
  | cons t ts ih =>
    have := ih (last := .join .inner [] last (unitFor units t)) (us := us ++ [(t, unitFor units t)])
      (by simp [blockOf, h, blockOf_unit (hu t)]) ⟨(fun e he => nomatch he), hs, scoped_unit (hu t)⟩
    simpa [chain, unitFor] using this

theorem lookup_unit {units : List (Nat × Tree)} (h : ∀ u ∈ units, unitOf u.2 = some u.1) (t : Nat) :
    unitOf (unitFor units t) = some t := by
  unfold unitFor
  cases hl : units.lookup t with
  | none => rfl
  | some q =>
    obtain ⟨l1, l2, rfl, -⟩ := List.lookup_eq_some_iff.mp hl
    exact h (t, q) (by simp)

theorem lookup_self {units : List (Nat × Tree)} (hn : (units.map Prod.fst).Nodup) :
    (units.map Prod.fst).map (fun t => (t, unitFor units t)) = units := by
  rw [List.map_map]
  conv_rhs => rw [← List.map_id units]
  refine List.map_congr_left fun u hu => ?_
  have : units.lookup u.1 = some u.2 := by
    obtain ⟨l1, l2, rfl⟩ := List.append_of_mem hu
    refine List.lookup_eq_some_iff.mpr ⟨l1, l2, rfl, fun p hp => ?_⟩
    simp only [List.map_append, List.map_cons, List.nodup_append] at hn
    simp only [bne_iff_ne, ne_eq]
    exact fun hc => hn.2.2 p.1 (List.mem_map_of_mem hp) u.1 (by simp) hc.symm
  simp [unitFor, this]

theorem wf_inner {p : Tree} (hi : allInner p = true) (hd : (tups p).Nodup) : Wf p := by
  induction p with
  | scan t => trivial
  | filter cs p ih =>
    refine ⟨ih hi hd, ?_⟩
    clear hd ih
    induction p with
    | scan t => trivial
    | filter cs' p ih => exact ih hi
    | join ty cs' l r => simp only [allInner, Bool.and_eq_true, decide_eq_true_eq] at hi; exact .inl hi.1.1
  | join ty cs l r ihl ihr =>
    simp only [allInner, Bool.and_eq_true, decide_eq_true_eq] at hi
    obtain ⟨⟨rfl, hl⟩, hr⟩ := hi
    simp only [tups, List.nodup_append] at hd
    refine ⟨ihl hl hd.1, ihr hr hd.2.1, fun t h1 h2 => hd.2.2 t h1 t h2 rfl, ?_, ?_⟩
    · rintro (h | h) <;> cases h
    · rintro (h | h) <;> cases h

theorem corrOk_inner {p : Tree} (hi : allInner p = true) (es : List Expr) : CorrOk es p := by
  induction p with
  | scan t => trivial
  | filter cs p ih => exact ih hi
  | join ty cs l r => simp only [allInner, Bool.and_eq_true, decide_eq_true_eq] at hi; exact .inl hi.1.1

/-- A block of inner joins of which every table is in an equality. -/
theorem reorderBlock_sem {idx : Nat → Bool} {p p' : Tree} {b : Block} (hb : blockOf p = some b) (hs : Scoped p)
    (hn : (tups p).Nodup) (hl : ∀ t ∈ tups p, ∃ q ∈ b.eqs, t = q.1 ∨ t = q.2) (h : reorderBlock idx b p = some p') :
    (tups p').Perm (tups p) ∧ (sem F D ρ p').Perm (sem F D ρ p) := by
  obtain ⟨hu1, hu2, hu3⟩ := blockOf_units hb
  unfold reorderBlock at h
  split at h
  · rename_i t ts ho
    simp only at h
    split at h
    · rename_i he
      cases h
      have hp := newOrder_perm (hu1 ▸ hn) (hu1 ▸ hl) (hu1 ▸ eqs_mem hb) ho
      rw [hu1] at hp
      have hu := lookup_unit hu3
      obtain ⟨c1, c2⟩ := chain_block hu ts (last := unitFor b.units t) (us := [(t, unitFor b.units t)]) (blockOf_unit (hu t))
        (scoped_unit (hu t))
      obtain ⟨d1, d2, d3⟩ := blockOf_units c1
      have ht : tups (chain b.units (unitFor b.units t) ts) = t :: ts := by
        rw [← d1]; simp [Function.comp_def]
      have hn' : (tups (chain b.units (unitFor b.units t) ts)).Nodup := by rw [ht]; exact hp.nodup_iff.mpr hn
      have main := push_sem (F := F) (D := D) (ρ := ρ) (nf := true) false b.conds (chain b.units (unitFor b.units t) ts)
        (wf_inner d2 hn') (corrOk_inner d2 _) (.inl d2)
      refine ⟨?_, ?_⟩
      · rw [tups_push]; show (tups (chain b.units (unitFor b.units t) ts)).Perm _; rw [ht]; exact hp
      · have he' : (push false b.conds (chain b.units (unitFor b.units t) ts)).2 = [] := List.isEmpty_iff.mp he
        rw [he', filter_true] at main
        refine main.trans ?_
        have s1 := sem_cross (F := F) (D := D) (ρ := ρ) c1 c2 hn'
        have s2 := sem_cross (F := F) (D := D) (ρ := ρ) hb hs hn
        simp only [filter_true] at s1
        refine ((s1.filter _).trans ?_).trans s2.symm
        refine List.Perm.filter _ (cross_perm ?_ ?_)
        · refine ((List.reverse_perm _).trans ?_).trans (List.reverse_perm _).symm
          refine List.Perm.map _ ?_
          have : [(t, unitFor b.units t)] ++ ts.map (fun t => (t, unitFor b.units t)) =
              (t :: ts).map fun t => (t, unitFor b.units t) := rfl
          rw [this]
          refine (hp.map _).trans (.of_eq ?_)
          rw [← hu1]; exact lookup_self (hu1 ▸ hn)
        · unfold Apart
          rw [List.pairwise_reverse, List.pairwise_map]
          have hnd : ((t, unitFor b.units t) :: ts.map fun t => (t, unitFor b.units t)).map Prod.fst = t :: ts := by
            simp [Function.comp_def]
          have h3 : (t :: ts).Nodup := hp.nodup_iff.mpr hn
          rw [← hnd, List.Nodup, List.pairwise_map] at h3
          refine h3.imp fun {x y} hxy z hz hz' => ?_
          simp only [unitRows, List.mem_singleton] at hz hz'
          exact hxy (hz'.symm.trans hz)
    · cases h
  · cases h
    exact ⟨.refl _, .refl _⟩

/-- In every block of inner joins, every table is in an equality with another one. -/
def Linked : Tree → Prop
  | .scan _ => True
  | .filter _ p => Linked p
  | .join ty cs l r =>
    match blockOf (.join ty cs l r) with
    | some b => ∀ t ∈ tups l ++ tups r, ∃ q ∈ b.eqs, t = q.1 ∨ t = q.2
    | none => Linked l ∧ Linked r

theorem joinRows_tups {A A' B B' : List Nat} {cs : List Expr} {L R : List Row} {ty : JType} (hA : ∀ t, t ∈ A ↔ t ∈ A')
    (hB : ∀ t, t ∈ B ↔ t ∈ B') : joinRows F ρ A B cs L R ty = joinRows F ρ A' B' cs L R ty := by
  have h1 : merge B = merge B' := merge_congr hB
  have h2 : nulls B ρ = nulls B' ρ := by funext t; simp [nulls, hB t]
  have h3 : nulls A ρ = nulls A' ρ := by funext t; simp [nulls, hA t]
  cases ty <;> simp only [joinRows, h1, h2, h3]

theorem reorder_sem {idx : Nat → Bool} {p p' : Tree} (hs : Scoped p) (hn : (tups p).Nodup) (hl : Linked p)
    (h : reorder idx p = some p') : (tups p').Perm (tups p) ∧ (sem F D ρ p').Perm (sem F D ρ p) := by
  induction p generalizing p' with
  | scan t => simp only [reorder, Option.some.injEq] at h; subst h; exact ⟨.refl _, .refl _⟩
  | filter cs p ih =>
    simp only [reorder, Option.map_eq_some_iff] at h
    obtain ⟨q, hq, rfl⟩ := h
    obtain ⟨h1, h2⟩ := ih hs hn hl hq
    exact ⟨h1, h2.filter _⟩
  | join ty cs l r ihl ihr =>
    simp only [reorder] at h
    simp only [Linked] at hl
    cases hb : blockOf (.join ty cs l r) with
    | some b =>
      rw [hb] at h hl
      exact reorderBlock_sem hb hs hn hl h
    | none =>
      rw [hb] at h hl
      simp only at h hl
      simp only [tups, List.nodup_append] at hn
      cases hl' : reorder idx l with
      | none => rw [hl'] at h; cases h
      | some l' =>
        cases hr' : reorder idx r with
        | none => rw [hl', hr'] at h; cases h
        | some r' =>
          rw [hl', hr'] at h
          simp only [Option.some.injEq] at h
          subst h
          obtain ⟨a1, a2⟩ := ihl hs.2.1 hn.1 hl.1 hl'
          obtain ⟨b1, b2⟩ := ihr hs.2.2 hn.2.1 hl.2 hr'
          refine ⟨a1.append b1, ?_⟩
          show (joinRows F ρ (tups l') (tups r') cs _ _ ty).Perm _
          rw [joinRows_tups (fun t => a1.mem_iff) (fun t => b1.mem_iff)]
          exact joinRows_perm a2 b2

/-- **C55.** Inner joins are executed in another order, and the rows are the same, for every choice of the tables read by an
index. -/
theorem C55_reorder {idx : Nat → Bool} {p p' : Tree} (hs : Scoped p) (hn : (tups p).Nodup) (hl : Linked p)
    (h : reorder idx p = some p') (D : Nat → List (Nat → Val)) (ρ : Row) : (sem F D ρ p').Perm (sem F D ρ p) :=
  (reorder_sem hs hn hl h).2

theorem foreign_false {T : List Nat} {e : Expr} (h : foreign T e = false) : within T e = true := by
  unfold foreign at h
  cases hw : within T e with
  | true => rfl
  | false =>
    rw [hw] at h
    simp only [Bool.not_false, Bool.and_true, Bool.not_eq_false', List.isEmpty_iff] at h
    simp [within, h] at hw

theorem scoped_wrap {es : List Expr} {p : Tree} (h : Scoped p) : Scoped (wrap es p) := by
  unfold wrap; split
  · exact h
  · exact h

theorem scoped_conv {es : List Expr} {p : Tree} (h : Scoped p) : Scoped (conv es p) := by
  induction p generalizing es with
  | scan t => trivial
  | filter cs p => exact h
  | join ty cs l r ihl ihr => exact ⟨by rw [tups_conv, tups_conv]; exact h.1, ihl h.2.1, ihr h.2.2⟩

theorem split_stay {ty : JType} {O I : List Nat} {cs es : List Expr} {e : Expr} (h : e ∈ (split ty O I cs es).stay) :
    e ∈ cs ∨ within (O ++ I) e = true := by
  cases ty with
  | inner =>
    simp only [split, List.mem_append, List.mem_filter, Bool.not_eq_true'] at h
    rcases h with h | h
    · exact .inl h.1
    · exact .inr (foreign_false h.1.2)
  | left => exact .inl (List.mem_filter.mp h).1
  | right => exact .inl (List.mem_filter.mp h).1
  | full => exact .inl (List.mem_filter.mp h).1

theorem scoped_push (pf : Bool) (es : List Expr) : (p : Tree) → Scoped p → Scoped (push pf es p).1
  | .scan t, _ => by
    rw [push]; split
    · trivial
    · exact scoped_wrap trivial
  | .filter cs p, h => by rw [push]; exact scoped_push true (es ++ cs) p h
  | .join ty cs l r, h => by
    rw [push_join]
    split
    · exact ⟨by rw [tups_conv, tups_conv]; exact h.1, scoped_conv h.2.1, scoped_conv h.2.2⟩
    · refine ⟨?_, scoped_wrap (scoped_push _ _ (conv (es ++ cs) l) (scoped_conv h.2.1)),
        scoped_wrap (scoped_push _ _ (conv (es ++ cs) r) (scoped_conv h.2.2))⟩
      simp only [tups_wrap, tups_push, tups_conv]
      intro e he
      have sw : within (tups r ++ tups l) e = true → within (tups l ++ tups r) e = true :=
        within_mono fun t ht => by rcases List.mem_append.mp ht with h | h <;> simp [h]
      split at he
      · rcases split_stay he with he | he
        · exact h.1 e he
        · exact sw he
      · rcases split_stay he with he | he
        · exact h.1 e he
        · exact he
termination_by p => size p
decreasing_by
  all_goals simp only [size, size_conv]; omega

/-- **C55.** A query whose ON conditions are about the tables of their joins is not refused. -/
theorem C55_answered {idx : Nat → Bool} {p : Tree} (hs : Scoped p) (hn : (tups p).Nodup) (hl : Linked p) :
    ∃ p', reorder idx p = some p' := by
  induction p with
  | scan t => exact ⟨_, rfl⟩
  | filter cs p ih =>
    obtain ⟨p', h⟩ := ih hs hn hl
    exact ⟨.filter cs p', by rw [reorder, h]; rfl⟩
  | join ty cs l r ihl ihr =>
    simp only [Linked] at hl
    cases hb : blockOf (.join ty cs l r) with
    | none =>
      rw [hb] at hl
      simp only [tups, List.nodup_append] at hn
      obtain ⟨l', h1⟩ := ihl hs.2.1 hn.1 hl.1
      obtain ⟨r', h2⟩ := ihr hs.2.2 hn.2.1 hl.2
      exact ⟨.join ty cs l' r', by rw [reorder, hb, h1, h2]⟩
    | some b =>
      rw [hb] at hl
      obtain ⟨hu1, hu2, hu3⟩ := blockOf_units hb
      rw [reorder, hb]
      simp only [reorderBlock]
      split
      · rename_i t ts ho
        have hp := newOrder_perm (hu1 ▸ hn) (hu1 ▸ hl) (hu1 ▸ eqs_mem hb) ho
        rw [hu1] at hp
        have hu := lookup_unit hu3
        obtain ⟨c1, c2⟩ := chain_block hu ts (last := unitFor b.units t) (us := [(t, unitFor b.units t)]) (blockOf_unit (hu t))
          (scoped_unit (hu t))
        obtain ⟨d1, d2, -⟩ := blockOf_units c1
        have ht : tups (chain b.units (unitFor b.units t) ts) = t :: ts := by
          rw [← d1]; simp [Function.comp_def]
        have hw : ∀ e ∈ b.conds, within (tups (chain b.units (unitFor b.units t) ts)) e = true := fun e he => by
          rw [ht]
          exact within_mono (fun u hu => hp.mem_iff.mpr hu) (blockOf_conds hb hs e he)
        have back : ∀ q : Tree, allInner q = true → (∀ e ∈ b.conds, within (tups q) e = true) → (push false b.conds q).2 = [] := by
          intro q hq hw
          cases q with
          | scan t => rw [push]; rfl
          | filter cs p => rw [push]
          | join ty cs l r =>
            simp only [allInner, Bool.and_eq_true, decide_eq_true_eq] at hq
            obtain ⟨⟨rfl, -⟩, -⟩ := hq
            have : newType b.conds (tups l) (tups r) .inner = .inner := rfl
            rw [push_join, this, if_neg (by decide)]
            simp only [pushJoin, decide_false, Bool.or_false, reduceCtorEq, Bool.false_eq_true, if_false, split]
            rw [List.filter_eq_nil_iff]
            intro e he hc
            have := hw e he
            simp only [tups] at this
            simp [foreign, this] at hc
        have := back _ d2 hw
        simp only [unitFor] at this
        rw [this]
        exact ⟨_, rfl⟩
      · exact ⟨_, rfl⟩

/-- **C55.** Conditions moved, outer joins converted, inner joins put into another order: the rows are those of the query. -/
theorem C55_select {nf : Bool} {idx : Nat → Bool} {p : Tree} (hw : Wf p) (hf : nf = true → noFull p = true)
    (hp : ∀ e ∈ conds p, Fit F nf e) (hs : Scoped p) (hn : (tups p).Nodup) (hl : Linked (pushDown p))
    (D : Nat → List (Nat → Val)) (ρ : Row) :
    ∃ p', reorder idx (pushDown p) = some p' ∧ (sem F D ρ p').Perm (sem F D ρ p) := by
  have hs' : Scoped (pushDown p) := scoped_wrap (scoped_push false [] p hs)
  have hn' : (tups (pushDown p)).Nodup := by unfold pushDown; rw [tups_wrap, tups_push]; exact hn
  obtain ⟨p', h⟩ := C55_answered (idx := idx) hs' hn' hl
  exact ⟨p', h, (C55_reorder hs' hn' hl h D ρ).trans (C50_pushdown hw hf hp D ρ)⟩

namespace Examples

/-- `a, b, c WHERE a.0 = b.0 AND b.1 = c.1 AND c.2 = 5` -/
def q0 : Tree := .filter [eq (a 0) (b 0), eq (b 1) (c 1), eq (c 2) (n 5)]
  (.join .inner [] (.join .inner [] (.scan 0) (.scan 1)) (.scan 2))

def order : Tree → List Nat := tups

/-- Table 2 is read by an index: it comes first, then table 1, then 0. -/
example : (reorder (fun t => t == 2) (pushDown q0)).map order = some [2, 1, 0] := by decide +kernel

def bothLinked (b : Block) (ts : List Nat) : Bool := ts.all fun t => b.eqs.any fun q => decide (t = q.1 ∨ t = q.2)

theorem linked_of {ty : JType} {cs : List Expr} {l r : Tree}
    (h : (blockOf (.join ty cs l r)).elim false (fun b => bothLinked b (tups l ++ tups r)) = true) :
    Linked (.join ty cs l r) := by
  simp only [Linked]
  cases hb : blockOf (.join ty cs l r) with
  | none => rw [hb] at h; cases h
  | some b =>
    rw [hb] at h
    simp only [Option.elim, bothLinked, List.all_eq_true, List.any_eq_true, decide_eq_true_eq] at h
    exact h

/-- The same as a join tree with its conditions in place. -/
def q1 : Tree := .join .inner [eq (b 1) (c 1)] (.join .inner [eq (a 0) (b 0)] (.scan 0) (.scan 1)) (.filter [eq (c 2) (n 5)] (.scan 2))

theorem q1_linked : Linked q1 := linked_of (by decide +kernel)
theorem q1_scoped : Scoped q1 := by
  refine ⟨?_, ⟨?_, trivial, trivial⟩, trivial⟩ <;> decide

example (D : Nat → List (Nat → Val)) (ρ : Row) :
    ∃ p', reorder (fun t => t == 2) q1 = some p' ∧ (sem Examples.F D ρ p').Perm (sem Examples.F D ρ q1) := by
  obtain ⟨p', h⟩ := C55_answered (idx := fun t => t == 2) q1_scoped (by decide) q1_linked
  exact ⟨p', h, C55_reorder q1_scoped (by decide) q1_linked h D ρ⟩

/-- A table in no equality is lost: `a, b, c WHERE b.0 = c.0 AND b.1 = 5`, table 1 read by an index; two rows in table 0, and
one row comes out instead of two. -/
theorem C55_unlinked_counterexample :
    let p : Tree := .filter [eq (b 0) (c 0), eq (b 1) (n 5)] (.join .inner [] (.join .inner [] (.scan 0) (.scan 1)) (.scan 2))
    let D : Nat → List (Nat → Val) := fun t => if t = 0 then [row [1], row [2]] else [row [1, 5]]
    count D none' p = 2 ∧ (reorder (fun t => t == 1) (pushDown p)).map order = some [1, 2] ∧
      (reorder (fun t => t == 1) (pushDown p)).map (count D none') = some 1 := by decide +kernel

end Examples

end BaikalDB.Plan
