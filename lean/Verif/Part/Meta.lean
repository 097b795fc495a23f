import Verif.Part.Conds
import Mathlib.Data.List.Forall2

/-!
# Partitioned tables: lemmas on the meta server
-/

namespace BaikalDB.Part

/-! ## Sorting -/

theorem insertBy_perm (le : PInfo → PInfo → Bool) (p : PInfo) :
    ∀ l, (insertBy le p l).Perm (p :: l)
  | [] => .refl _
  | q :: l => by
    unfold insertBy
    split
    · exact .refl _
    · exact ((insertBy_perm le p l).cons q).trans (.swap p q l)

theorem sortBy_perm (le : PInfo → PInfo → Bool) : ∀ l, (sortBy le l).Perm l
  | [] => .refl _
  | p :: l => (insertBy_perm le p _).trans ((sortBy_perm le l).cons p)

theorem cmpBB_le {a b : Bound} : cmpBB a b ≤ 0 ↔ BoundLe a b := by
  rcases a with a | _ <;> rcases b with b | _ <;> simp [cmpBB, BoundLe, sgn_nonpos]

theorem boundLe_trans {a b c : Bound} (h1 : BoundLe a b) (h2 : BoundLe b c) : BoundLe a c := by
  rcases a with a | _ <;> rcases b with b | _ <;> rcases c with c | _ <;>
    simp_all [BoundLe]; omega

theorem boundLe_total (a b : Bound) : BoundLe a b ∨ BoundLe b a := by
  rcases a with a | _ <;> rcases b with b | _ <;> simp [BoundLe]; omega

theorem insertBy_sorted (p : PInfo) : ∀ {l : List PInfo},
    l.Pairwise (fun a b => BoundLe a.right b.right) →
    (insertBy rightLe p l).Pairwise (fun a b => BoundLe a.right b.right)
  | [], _ => by simp [insertBy]
  | q :: l, h => by
    unfold insertBy
    rw [List.pairwise_cons] at h
    split
    · rename_i hle
      have hle : BoundLe p.right q.right := cmpBB_le.1 (by simpa [rightLe] using hle)
      rw [List.pairwise_cons]
      refine ⟨?_, List.pairwise_cons.2 h⟩
      intro a ha
      rcases List.mem_cons.1 ha with rfl | ha
      · exact hle
      · exact boundLe_trans hle (h.1 a ha)
    · rename_i hle
      have hle : BoundLe q.right p.right := by
        rcases boundLe_total p.right q.right with h' | h'
        · exact absurd (by simpa [rightLe] using cmpBB_le.2 h') hle
        · exact h'
      rw [List.pairwise_cons]
      refine ⟨?_, insertBy_sorted p h.2⟩
      intro a ha
      rcases List.mem_cons.1 ((insertBy_perm rightLe p l).mem_iff.1 ha) with rfl | ha
      · exact hle
      · exact h.1 a ha

theorem sortBy_sorted : ∀ l : List PInfo,
    (sortBy rightLe l).Pairwise (fun a b => BoundLe a.right b.right)
  | [] => .nil
  | p :: l => insertBy_sorted p (sortBy_sorted l)

/-! ## The parts of a schema -/

/-- `Ok` on a list. -/
structure OkL (parts : List PInfo) (maxId : Int) : Prop where
  ids : (parts.map (·.id)).Nodup
  names : (parts.map (·.name)).Nodup
  bound : ∀ p ∈ parts, p.id ≤ maxId
  apart : ∀ p ∈ parts, ∀ q ∈ parts, SameKind p q → ∀ n, Covers p n → Covers q n → p = q

theorem okL_iff {s : Schema} : Ok s ↔ OkL s.parts s.maxId :=
  ⟨fun h => ⟨h.ids, h.names, h.bound, h.apart⟩, fun h => ⟨h.ids, h.names, h.bound, h.apart⟩⟩

theorem OkL.perm {l l' : List PInfo} {m : Int} (h : OkL l m) (hp : l'.Perm l) : OkL l' m :=
  ⟨((hp.map _).nodup_iff).2 h.ids, ((hp.map _).nodup_iff).2 h.names,
    fun p hm => h.bound p (hp.mem_iff.1 hm),
    fun p h1 q h2 => h.apart p (hp.mem_iff.1 h1) q (hp.mem_iff.1 h2)⟩

theorem OkL.sublist {l l' : List PInfo} {m : Int} (h : OkL l m) (hs : l'.Sublist l) : OkL l' m :=
  ⟨h.ids.sublist (hs.map _), h.names.sublist (hs.map _), fun p hm => h.bound p (hs.subset hm),
    fun p h1 q h2 => h.apart p (hs.subset h1) q (hs.subset h2)⟩

theorem apart_append {parts : List PInfo} {q : PInfo}
    (ha : ∀ p ∈ parts, ∀ r ∈ parts, SameKind p r → ∀ n, Covers p n → Covers r n → p = r)
    (hn : q.name ∉ parts.map (·.name)) (ho : overlapped parts q = false) :
    ∀ p ∈ parts ++ [q], ∀ r ∈ parts ++ [q], SameKind p r → ∀ n, Covers p n → Covers r n → p = r := by
  have key : ∀ p ∈ parts, SameKind p q → ∀ n, Covers p n → Covers q n → False := by
    intro p hp hk n h1 h2
    refine not_overlapped ho hp ?_ hk n h1 h2
    intro he
    exact hn (List.mem_map.2 ⟨p, hp, he⟩)
  intro p hp r hr hk n h1 h2
  rw [List.mem_append, List.mem_singleton] at hp hr
  rcases hp with hp | rfl <;> rcases hr with hr | rfl
  · exact ha p hp r hr hk n h1 h2
  · exact (key p hp hk n h1 h2).elim
  · exact (key r hr hk.symm n h2 h1).elim
  · rfl

@[simp] theorem convert_name (ct : ColType) (p : PSpec) (i : Int) : (convert ct p i).name = p.name := by
  unfold convert; split <;> rfl
@[simp] theorem convert_id (ct : ColType) (p : PSpec) (i : Int) : (convert ct p i).id = i := by
  unfold convert; split <;> rfl
theorem convert_matches (ct : ColType) (p : PSpec) (i : Int) : Matches ct p (convert ct p i) := by
  unfold Matches convert
  rcases p.bound <;> simp

theorem OkL.add {parts : List PInfo} {id : Int} (h : OkL parts id) {ct : ColType} {p : PSpec}
    (hn : p.name ∉ parts.map (·.name)) (ho : overlapped parts (convert ct p (id + 1)) = false) :
    OkL (parts ++ [convert ct p (id + 1)]) (id + 1) := by
  refine ⟨?_, ?_, ?_, apart_append h.apart (by simpa using hn) ho⟩
  · rw [List.map_append, List.nodup_append]
    refine ⟨h.ids, by simp, ?_⟩
    intro a ha b hb
    obtain ⟨q, hq, rfl⟩ := List.mem_map.1 ha
    simp only [List.map_cons, List.map_nil, convert_id, List.mem_singleton] at hb
    have := h.bound q hq
    omega
  · rw [List.map_append, List.nodup_append]
    refine ⟨h.names, by simp, ?_⟩
    intro a ha b hb
    simp only [List.map_cons, List.map_nil, convert_name, List.mem_singleton] at hb
    subst hb
    rintro rfl
    exact hn ha
  · intro q hq
    rw [List.mem_append, List.mem_singleton] at hq
    rcases hq with hq | rfl
    · have := h.bound q hq; omega
    · simp

theorem addLoop_ok {ct : ColType} {dyn : Bool} : ∀ (ps : List PSpec) {names : List String}
    {parts parts' : List PInfo} {id id' : Int}, OkL parts id →
    (∀ n ∈ parts.map (·.name), n ∈ names) →
    addLoop ct dyn names parts id ps = some (parts', id') →
    OkL parts' id' ∧ id ≤ id' ∧ ∃ new, parts' = parts ++ new ∧ (∀ p ∈ new, id < p.id) ∧
      (dyn = false → List.Forall₂ (Matches ct) ps new) ∧
      ∀ p ∈ new, ∃ sp ∈ ps, Matches ct sp p
  | [], names, parts, parts', id, id', h, hn, ha => by
    simp only [addLoop, Option.some.injEq, Prod.mk.injEq] at ha
    obtain ⟨rfl, rfl⟩ := ha
    exact ⟨h, Int.le_refl _, [], by simp, by simp, fun _ => .nil, by simp⟩
  | p :: ps, names, parts, parts', id, id', h, hn, ha => by
    have lift : ∀ {new : List PInfo}, (∀ q ∈ new, ∃ sp ∈ ps, Matches ct sp q) →
        ∀ q ∈ new, ∃ sp ∈ p :: ps, Matches ct sp q := by
      intro new h' q hq
      obtain ⟨sp, hsp, hm⟩ := h' q hq
      exact ⟨sp, List.mem_cons_of_mem _ hsp, hm⟩
    unfold addLoop at ha
    split at ha
    · split at ha
      · rename_i hd
        obtain ⟨h1, h2, new, h3, h4, _, h6⟩ := addLoop_ok ps h hn ha
        exact ⟨h1, h2, new, h3, h4, (fun hf => by rw [hf] at hd; cases hd), lift h6⟩
      · cases ha
    · rename_i hname
      simp only [List.contains_iff_mem] at hname
      split at ha
      · cases ha
      · split at ha
        · split at ha
          · rename_i hd
            obtain ⟨h1, h2, new, h3, h4, _, h6⟩ := addLoop_ok ps h
              (fun n hm => List.mem_cons_of_mem _ (hn n hm)) ha
            exact ⟨h1, h2, new, h3, h4, (fun hf => by rw [hf] at hd; cases hd), lift h6⟩
          · cases ha
        · rename_i ho
          have ho : overlapped parts (convert ct p (id + 1)) = false := by simpa using ho
          have hok := h.add (fun hm => hname (hn _ hm)) ho
          obtain ⟨h1, h2, new, h3, h4, h5, h6⟩ := addLoop_ok ps hok (by
            intro n hm
            rw [List.map_append, List.mem_append] at hm
            rcases hm with hm | hm
            · exact List.mem_cons_of_mem _ (hn n hm)
            · simp only [List.map_cons, List.map_nil, convert_name, List.mem_singleton] at hm
              rw [hm]; exact List.mem_cons_self ..) ha
          refine ⟨h1, by omega, convert ct p (id + 1) :: new, by simp [h3], ?_, ?_, ?_⟩
          · intro q hq
            rcases List.mem_cons.1 hq with rfl | hq
            · rw [convert_id]; omega
            · have := h4 q hq; omega
          · intro hd
            exact .cons (convert_matches ct p _) (h5 hd)
          · intro q hq
            rcases List.mem_cons.1 hq with rfl | hq
            · exact ⟨p, List.mem_cons_self .., convert_matches ct p _⟩
            · exact lift h6 q hq

/-! ## Dropping -/

theorem dropIds_spec' {s : Schema} (hid : (s.parts.map (·.id)).Nodup)
    (hnm : (s.parts.map (·.name)).Nodup) {dyn : Bool} : ∀ {names : List String} {ids : List Int},
    dropIds s dyn names = some ids →
    (∀ p ∈ s.parts, p.id ∈ ids ↔ p.name ∈ names) ∧
      (dyn = false → ∀ n ∈ names, ∃ p ∈ s.parts, p.name = n)
  | [], ids, hd => by
    simp only [dropIds, Option.some.injEq] at hd
    subst hd
    simp
  | n :: ns, ids, hd => by
    unfold dropIds at hd
    rcases hf : s.parts.find? (fun p => decide (p.name = n)) with _ | q
    · rw [hf] at hd
      simp only at hd
      split at hd
      · rename_i hdyn
        obtain ⟨h1, _⟩ := dropIds_spec' hid hnm hd
        refine ⟨?_, fun hf => by rw [hf] at hdyn; cases hdyn⟩
        intro p hp
        rw [h1 p hp, List.mem_cons]
        constructor
        · exact Or.inr
        · rintro (he | he)
          · rw [List.find?_eq_none] at hf
            exact absurd (by simpa using he) (hf p hp)
          · exact he
      · cases hd
    · rw [hf] at hd
      simp only [Option.map_eq_some_iff] at hd
      obtain ⟨ids', hd, rfl⟩ := hd
      obtain ⟨h1, h2⟩ := dropIds_spec' hid hnm hd
      have hq : q ∈ s.parts := List.mem_of_find?_eq_some hf
      have hqn : q.name = n := by simpa using List.find?_some hf
      refine ⟨?_, ?_⟩
      · intro p hp
        rw [List.mem_cons, List.mem_cons, h1 p hp]
        constructor
        · rintro (he | he)
          · refine Or.inl ?_
            rw [List.inj_on_of_nodup_map hid hp hq he, hqn]
          · exact Or.inr he
        · rintro (he | he)
          · refine Or.inl ?_
            rw [List.inj_on_of_nodup_map hnm hp hq (he.trans hqn.symm)]
          · exact Or.inr he
      · intro hf m hm
        rcases List.mem_cons.1 hm with rfl | hm
        · exact ⟨q, hq, hqn⟩
        · exact h2 hf m hm

theorem dropIds_spec {s : Schema} (h : Ok s) {dyn : Bool} {names : List String} {ids : List Int}
    (hd : dropIds s dyn names = some ids) :
    (∀ p ∈ s.parts, p.id ∈ ids ↔ p.name ∈ names) ∧
      (dyn = false → ∀ n ∈ names, ∃ p ∈ s.parts, p.name = n) := dropIds_spec' h.ids h.names hd

/-! ## Creation -/

theorem namesUnique_iff : ∀ {l : List String}, namesUnique l = true ↔ l.Nodup
  | [] => by simp [namesUnique]
  | n :: ns => by
    unfold namesUnique
    rw [Bool.and_eq_true, namesUnique_iff, List.nodup_cons]
    simp

theorem chain_names : ∀ (l : List PInfo) (b : Bound), (chain b l).map (·.name) = l.map (·.name)
  | [], _ => rfl
  | p :: l, b => by simp [chain, chain_names l]

theorem map_convert_names (ct : ColType) (l : List PSpec) :
    (l.map (convert ct · 0)).map (·.name) = l.map (·.name) := by
  rw [List.map_map]
  exact List.map_congr_left fun p _ => convert_name ct p 0

theorem group_names (ct : ColType) (ps : List PSpec) (t : RType) :
    ((group ct ps t).map (·.name)).Perm ((ps.filter fun p => decide (p.ptype = t)).map (·.name)) := by
  unfold group
  simp only
  rw [List.map_append, chain_names, map_convert_names]
  refine (((sortBy_perm rightLe _).map _).append_right _).trans ?_
  rw [map_convert_names, ← List.map_append]
  exact (List.filter_append_perm isLess _).map _

theorem groups_names (ct : ColType) (ps : List PSpec) :
    ((group ct ps .dflt ++ group ct ps .newStats ++ group ct ps .additional).map (·.name)).Perm
      (ps.map (·.name)) := by
  rw [List.map_append, List.map_append]
  refine (((group_names ct ps .dflt).append (group_names ct ps .newStats)).append
    (group_names ct ps .additional)).trans ?_
  rw [← List.map_append, ← List.map_append]
  refine List.Perm.map _ ?_
  induction ps with
  | nil => exact .refl _
  | cons p ps ih =>
    rcases hp : p.ptype
    · simpa [List.filter_cons, hp] using ih
    · simp only [List.filter_cons, hp, reduceCtorEq, decide_false, decide_true, if_true,
        Bool.false_eq_true, if_false]
      refine List.Perm.trans ?_ (ih.cons p)
      rw [List.append_assoc, List.append_assoc]
      exact List.perm_middle
    · simp only [List.filter_cons, hp, reduceCtorEq, decide_false, decide_true, if_true,
        Bool.false_eq_true, if_false]
      exact List.perm_middle.trans (ih.cons p)

theorem createLoop_spec : ∀ (l : List PInfo) {parts out : List PInfo},
    (∀ p ∈ parts, ∀ r ∈ parts, SameKind p r → ∀ n, Covers p n → Covers r n → p = r) →
    ((parts ++ l).map (·.name)).Nodup → createLoop parts l = some out →
    out = parts ++ l ∧
      ∀ p ∈ out, ∀ r ∈ out, SameKind p r → ∀ n, Covers p n → Covers r n → p = r
  | [], parts, out, ha, _, hc => by
    simp only [createLoop, Option.some.injEq] at hc
    subst hc
    exact ⟨by simp, ha⟩
  | q :: l, parts, out, ha, hn, hc => by
    unfold createLoop at hc
    split at hc
    · cases hc
    · rename_i ho
      have ho : overlapped parts q = false := by simpa using ho
      have hn' : ((parts ++ [q] ++ l).map (·.name)).Nodup := by simpa using hn
      have hq : q.name ∉ parts.map (·.name) := by
        rw [List.map_append, List.map_append, List.append_assoc, List.nodup_append] at hn'
        intro hm
        exact hn'.2.2 _ hm q.name (by simp) rfl
      obtain ⟨h1, h2⟩ := createLoop_spec l (apart_append ha hq ho) hn' hc
      exact ⟨by simpa using h1, h2⟩

theorem number_names : ∀ (l : List PInfo) (i : Int), (number i l).map (·.name) = l.map (·.name)
  | [], _ => rfl
  | p :: l, i => by simp [number, number_names l]

theorem number_mem : ∀ {l : List PInfo} {i : Int} {p : PInfo}, p ∈ number i l →
    i ≤ p.id ∧ p.id < i + l.length ∧ ∃ q ∈ l, p = { q with id := p.id }
  | [], _, _, h => by simp [number] at h
  | q :: l, i, p, h => by
    rcases List.mem_cons.1 h with rfl | h
    · refine ⟨Int.le_refl _, ?_, q, List.mem_cons_self .., rfl⟩
      simp only [List.length_cons]; omega
    · obtain ⟨h1, h2, q', hq', h3⟩ := number_mem h
      refine ⟨by omega, ?_, q', List.mem_cons_of_mem _ hq', h3⟩
      simp only [List.length_cons]; omega

theorem number_has : ∀ {l : List PInfo} {i : Int} {q : PInfo}, q ∈ l →
    ∃ p ∈ number i l, p = { q with id := p.id }
  | [], _, _, h => by simp at h
  | a :: l, i, q, h => by
    rcases List.mem_cons.1 h with rfl | h
    · exact ⟨_, List.mem_cons_self .., rfl⟩
    · obtain ⟨p, hp, he⟩ := number_has (i := i + 1) h
      exact ⟨p, List.mem_cons_of_mem _ hp, he⟩

theorem number_ids : ∀ (l : List PInfo) (i : Int), ((number i l).map (·.id)).Nodup
  | [], _ => .nil
  | p :: l, i => by
    simp only [number, List.map_cons, List.nodup_cons]
    refine ⟨?_, number_ids l (i + 1)⟩
    intro h
    obtain ⟨q, hq, he⟩ := List.mem_map.1 h
    have := (number_mem hq).1
    omega

theorem covers_congr {p q : PInfo} {n : Int} (hl : p.left = q.left) (hr : p.right = q.right)
    (h : Covers p n) : Covers q n := by
  unfold Covers at *
  rw [← hl, ← hr]; exact h

theorem sameKind_congr {p q p' q' : PInfo} (h1 : p.ptype = p'.ptype) (h2 : p.cold = p'.cold)
    (h3 : q.ptype = q'.ptype) (h4 : q.cold = q'.cold) (h : SameKind p q) : SameKind p' q' := by
  unfold SameKind at *
  rw [← h1, ← h2, ← h3, ← h4]; exact h

theorem create_spec {ct : ColType} {primary : RType} {isolation : Option Int}
    {expr : Option (Val → Val)} {ps : List PSpec} {s : Schema}
    (h : create ct primary isolation expr ps = some s) :
    Ok s ∧ (ps.map (·.name)).Nodup ∧ (∀ p ∈ ps, checkBound ct p.bound = true) ∧
      (∃ g, g = group ct ps .dflt ++ group ct ps .newStats ++ group ct ps .additional ∧
        (∀ q ∈ g, ∃ p ∈ s.parts, p = { q with id := p.id }) ∧
        (∀ p ∈ s.parts, ∃ q ∈ g, p = { q with id := p.id })) ∧
      s.parts ≠ [] ∧ s.primary = primary ∧ s.isolation = isolation ∧ s.expr = expr := by
  unfold create at h
  split at h
  · cases h
  · rename_i hn
    have hn : (ps.map (·.name)).Nodup := namesUnique_iff.1 (by simpa using hn)
    split at h
    · cases h
    · rename_i hb
      rcases hc : createLoop []
        (group ct ps .dflt ++ group ct ps .newStats ++ group ct ps .additional) with _ | parts
      · rw [hc] at h; cases h
      · rw [hc] at h
        simp only at h
        split at h
        · cases h
        · rename_i hne
          simp only [Option.some.injEq] at h
          subst h
          have hgn := ((groups_names ct ps).nodup_iff).2 hn
          obtain ⟨rfl, hap⟩ := createLoop_spec _ (by simp) (by simpa using hgn) hc
          simp only [List.nil_append] at hap hgn hne ⊢
          generalize group ct ps .dflt ++ group ct ps .newStats ++ group ct ps .additional = g
            at hap hgn hne
          have hperm := sortBy_perm ptrLe g
          have hnn : ((number 0 (sortBy ptrLe g)).map (·.name)).Nodup := by
            rw [number_names]
            exact ((hperm.map _).nodup_iff).2 hgn
          refine ⟨⟨number_ids _ _, hnn, ?_, ?_⟩, hn, by simpa using hb, ⟨g, rfl, ?_, ?_⟩, ?_,
            trivial, trivial, trivial⟩
          · intro p hp
            have := (number_mem hp).2.1
            rw [hperm.length_eq] at this
            simp only
            omega
          · intro p hp q hq hk n h1 h2
            obtain ⟨_, _, p', hp', ep⟩ := number_mem hp
            obtain ⟨_, _, q', hq', eq⟩ := number_mem hq
            have hpq : p' = q' := by
              refine hap p' (hperm.mem_iff.1 hp') q' (hperm.mem_iff.1 hq') ?_ n ?_ ?_
              · exact sameKind_congr (by rw [ep]) (by rw [ep]) (by rw [eq]) (by rw [eq]) hk
              · exact covers_congr (by rw [ep]) (by rw [ep]) h1
              · exact covers_congr (by rw [eq]) (by rw [eq]) h2
            refine List.inj_on_of_nodup_map hnn hp hq ?_
            rw [ep, eq, hpq]
          · intro q hq
            exact number_has (hperm.mem_iff.2 hq)
          · intro p hp
            obtain ⟨_, _, q, hq, he⟩ := number_mem hp
            exact ⟨q, hperm.mem_iff.1 hq, he⟩
          · intro he
            have hl := congrArg (List.map (·.name)) he
            rw [number_names] at hl
            have : (sortBy ptrLe g) = [] := by simpa using hl
            rw [this] at hperm
            exact hne (List.Perm.nil_eq hperm).symm

/-- The value before the first bound above it: the chain covers it, by the least such bound. -/
theorem chain_covers {n : Int} : ∀ {l : List PInfo} {b : Int},
    l.Pairwise (fun a b => BoundLe a.right b.right) → b ≤ n →
    (∃ p ∈ l, Below n p.right) →
    ∃ p ∈ chain (.num b) l, Covers p n ∧ (∃ q ∈ l, p = { q with left := p.left }) ∧
      ∀ q ∈ l, Below n q.right → BoundLe p.right q.right
  | [], _, _, _, h => by obtain ⟨p, hp, _⟩ := h; cases hp
  | p :: l, b, hs, hb, h => by
    rw [List.pairwise_cons] at hs
    by_cases hp : Below n p.right
    · refine ⟨{ p with left := .num b }, List.mem_cons_self .., ⟨⟨b, rfl, hb⟩, ?_⟩,
        ⟨p, List.mem_cons_self .., rfl⟩, ?_⟩
      · intro c hc
        simp only at hc
        rw [hc] at hp
        exact hp
      · intro q hq _
        rcases List.mem_cons.1 hq with rfl | hq
        · simp only
          rcases boundLe_total q.right q.right with h | h <;> exact h
        · exact hs.1 q hq
    · obtain ⟨q, hq, hqn⟩ := h
      rcases hr : p.right with c | _
      · rw [hr] at hp
        simp only [Below, Int.not_lt] at hp
        have hq' : q ∈ l := by
          rcases List.mem_cons.1 hq with rfl | hq
          · rw [hr] at hqn
            simp only [Below] at hqn
            omega
          · exact hq
        obtain ⟨a, ha, hac, ⟨a', ha', hae⟩, hal⟩ := chain_covers hs.2 hp ⟨q, hq', hqn⟩
        refine ⟨a, ?_, hac, ⟨a', List.mem_cons_of_mem _ ha', hae⟩, ?_⟩
        · simp only [chain, hr]
          exact List.mem_cons_of_mem _ ha
        · intro x hx hxn
          rcases List.mem_cons.1 hx with rfl | hx
          · rw [hr] at hxn
            simp only [Below] at hxn
            omega
          · exact hal x hx hxn
      · rw [hr] at hp
        exact absurd trivial hp

end BaikalDB.Part
