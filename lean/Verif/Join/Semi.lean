import Verif.Join.Nested
/-!
# EXISTS and IN over a hash map of the outer rows
-/
namespace BaikalDB.Join

variable {α β ρ : Type}

/-! ## The map -/

theorem set_set (k : Bytes) (a b : List ρ) (ha : a ≠ []) (m : HMap ρ) : (m.set k a).set k b = m.set k b := by
  induction m with
  | nil => rfl
  | cons e m ih =>
    obtain ⟨k', rs⟩ := e
    by_cases h : k' = k
    · simp [HMap.set, h, List.isEmpty_iff, ha]
    · simp [HMap.set, h, ih]

theorem seek_set (k : Bytes) (a rs : List ρ) (ha : a ≠ []) (m : HMap ρ) (h : m.seek k = some rs) :
    (m.set k a).seek k = some a := by
  induction m with
  | nil => simp [HMap.seek] at h
  | cons e m ih =>
    obtain ⟨k', r'⟩ := e
    by_cases hk : k' = k
    · simp [HMap.set, HMap.seek, hk, List.isEmpty_iff, ha]
    · simp only [HMap.seek, hk, if_false] at h
      simp [HMap.set, HMap.seek, hk, ih h]

/-- The keys are distinct. -/
def HMap.Ok (m : HMap ρ) : Prop := (m.map Prod.fst).Nodup

theorem set_keys (k : Bytes) (a : List ρ) (m : HMap ρ) : ((m.set k a).map Prod.fst).Sublist (m.map Prod.fst) := by
  induction m with
  | nil => simp [HMap.set]
  | cons e m ih =>
    obtain ⟨k', rs⟩ := e
    unfold HMap.set
    by_cases h : k' = k
    · rw [if_pos h]; split <;> simp
    · rw [if_neg h]; simpa using ih

theorem set_ok {k : Bytes} {a : List ρ} {m : HMap ρ} (h : m.Ok) : (m.set k a).Ok := h.sublist (set_keys k a m)

theorem push_keys (k : Bytes) (r : ρ) (m : HMap ρ) :
    (m.push k r).map Prod.fst = if k ∈ m.map Prod.fst then m.map Prod.fst else m.map Prod.fst ++ [k] := by
  induction m with
  | nil => simp [HMap.push]
  | cons e m ih =>
    obtain ⟨k', rs⟩ := e
    unfold HMap.push
    by_cases h : k' = k
    · simp [h]
    · have h' : ¬ k = k' := fun e => h e.symm
      rw [if_neg h, List.map_cons, ih]
      by_cases hm : k ∈ m.map Prod.fst
      · rw [if_pos hm, if_pos (by simp only [List.map_cons, List.mem_cons]; exact Or.inr hm), List.map_cons]
      · rw [if_neg hm, if_neg (by simp only [List.map_cons, List.mem_cons]; exact fun x => x.elim h' hm), List.map_cons,
          List.cons_append]

theorem push_ok {k : Bytes} {r : ρ} {m : HMap ρ} (h : m.Ok) : (m.push k r).Ok := by
  unfold HMap.Ok
  rw [push_keys]
  split
  · exact h
  · rename_i hk
    rw [List.nodup_append]
    refine ⟨h, by simp, ?_⟩
    intro a ha b hb
    simp only [List.mem_singleton] at hb
    subst hb
    rintro rfl
    exact hk ha

theorem foldl_ok (key : ρ → Bytes) (rows : List ρ) (m : HMap ρ) (h : m.Ok) :
    (rows.foldl (fun m r => m.push (key r) r) m).Ok := by
  induction rows generalizing m with
  | nil => exact h
  | cons r rows ih => exact ih _ (push_ok h)

theorem build_ok (key : ρ → Bytes) (rows : List ρ) : (buildMap key rows).Ok :=
  foldl_ok key rows [] (by simp [HMap.Ok])

/-- The rows of a map that satisfy a condition on their key and themselves. -/
def HMap.sel (m : HMap ρ) (P : Bytes → ρ → Bool) : List ρ := m.flatMap fun e => e.2.filter (P e.1)

theorem sel_push (k : Bytes) (r : ρ) (m : HMap ρ) (P : Bytes → ρ → Bool) :
    ((m.push k r).sel P).Perm (m.sel P ++ [r].filter (P k)) := by
  induction m with
  | nil => simp [HMap.push, HMap.sel]
  | cons e m ih =>
    obtain ⟨k', rs⟩ := e
    unfold HMap.push
    by_cases h : k' = k
    · subst h
      simp only [if_true, HMap.sel, List.flatMap_cons, List.filter_append]
      rw [List.append_assoc, List.append_assoc]
      exact List.Perm.append_left _ List.perm_append_comm
    · rw [if_neg h]
      simp only [HMap.sel, List.flatMap_cons]
      rw [List.append_assoc]
      exact List.Perm.append_left _ ih

theorem sel_foldl (key : ρ → Bytes) (rows : List ρ) (m : HMap ρ) (P : Bytes → ρ → Bool) :
    ((rows.foldl (fun m r => m.push (key r) r) m).sel P).Perm (m.sel P ++ rows.filter fun r => P (key r) r) := by
  induction rows generalizing m with
  | nil => simp
  | cons r rows ih =>
    rw [List.foldl_cons]
    refine (ih _).trans ?_
    refine ((sel_push (key r) r m P).append_right _).trans ?_
    rw [List.append_assoc]
    refine List.Perm.append_left _ ?_
    by_cases h : P (key r) r <;> simp [h]

theorem sel_build (key : ρ → Bytes) (rows : List ρ) (P : Bytes → ρ → Bool) :
    ((buildMap key rows).sel P).Perm (rows.filter fun r => P (key r) r) := by
  have := sel_foldl key rows [] P
  simpa only [buildMap, HMap.sel, List.flatMap_nil, List.nil_append] using this

/-! ## The scans -/

/-- The rows still to come for the map `m` and the inner rows `is`. -/
def semiRem (c : Cfg α β) : HMap α → List β → List (Row α β)
  | _, [] => []
  | m, i :: is =>
    match m.seek (c.ikey i) with
    | none => semiRem c m is
    | some os => (os.filter fun o => c.sat o i).map (fun o => (o, some i)) ++
        semiRem c (m.set (c.ikey i) (os.filter fun o => !c.sat o i)) is

theorem semiScan_ok {c : Cfg α β} (hc : c.ty = .semi) (i : β) (os kept : List α) (hk : ∀ o ∈ kept, c.sat o i = false)
    (out : List (Row α β)) (num : Nat) :
    let r := semiScan c i kept os out num
    r.2.2.2 + out.length = num + r.2.2.1.length ∧
    (r.1 = none → r.2.2.1 = out ++ (os.filter fun o => c.sat o i).map (fun o => (o, some i)) ∧
      r.2.1 = kept ++ os.filter fun o => !c.sat o i) ∧
    (r.1 = some .limit → r.2.2.1 <+: out ++ (os.filter fun o => c.sat o i).map (fun o => (o, some i)) ∧ Hit c r.2.2.2) ∧
    (r.1 = some .full → c.cap ≤ r.2.2.1.length ∧ r.2.1 ≠ [] ∧
      out ++ (os.filter fun o => c.sat o i).map (fun o => (o, some i)) =
        r.2.2.1 ++ (r.2.1.filter fun o => c.sat o i).map (fun o => (o, some i)) ∧
      (r.2.1.filter fun o => !c.sat o i) = kept ++ os.filter fun o => !c.sat o i) ∧
    (out.length ≤ c.cap → r.2.2.1.length ≤ c.cap) := by
  have hk1 : kept.filter (fun o => c.sat o i) = [] := List.filter_eq_nil_iff.2 (by simpa using hk)
  have hk2 : kept.filter (fun o => !c.sat o i) = kept := List.filter_eq_self.2 (by simpa using hk)
  induction os generalizing kept out num with
  | nil => simp [semiScan]
  | cons o os ih =>
    unfold semiScan
    by_cases h1 : c.reached num
    · simp only [h1, if_true]
      exact ⟨by simp, by simp, fun _ => ⟨List.prefix_append _ _, reached_hit h1⟩, by simp, id⟩
    · simp only [h1, Bool.false_eq_true, if_false]
      by_cases h2 : c.full out
      · simp only [h2, if_true]
        refine ⟨by simp, by simp, by simp, fun _ => ⟨full_le h2, by simp, ?_, ?_⟩, id⟩
        · rw [List.filter_append, hk1, List.nil_append]
        · rw [List.filter_append, hk2]
      · simp only [h2, Bool.false_eq_true, if_false]
        have hlt : ¬ c.cap ≤ out.length := by simpa [Cfg.full] using h2
        rw [construct_semi hc]
        by_cases hs : c.sat o i
        · obtain ⟨a1, a2, a3, a4, a5⟩ := ih kept hk (out ++ [(o, some i)]) (num + 1) hk1 hk2
          simp only [hs, hc, decide_true, Bool.and_true, if_true]
          simp only [List.length_append, List.length_singleton] at a1 a5
          have e1 : ((o :: os).filter fun o => c.sat o i) = o :: os.filter fun o => c.sat o i := by simp [hs]
          have e2 : ((o :: os).filter fun o => !c.sat o i) = os.filter fun o => !c.sat o i := by simp [hs]
          rw [e1, e2]
          simp only [List.map_cons]
          simp only [List.append_assoc, List.singleton_append] at a2 a3 a4
          exact ⟨by omega, a2, a3, a4, fun _ => a5 (by omega)⟩
        · simp only [Bool.not_eq_true] at hs
          have hk' : ∀ p ∈ kept ++ [o], c.sat p i = false := by
            intro p hp
            rcases List.mem_append.1 hp with hp | hp
            · exact hk p hp
            · rw [List.mem_singleton.1 hp]; exact hs
          have := ih (kept ++ [o]) hk' out num
            (List.filter_eq_nil_iff.2 (by simpa using hk')) (List.filter_eq_self.2 (by simpa using hk'))
          have e1 : ((o :: os).filter fun o => c.sat o i) = os.filter fun o => c.sat o i := by simp [hs]
          have e2 : ((o :: os).filter fun o => !c.sat o i) = o :: os.filter fun o => !c.sat o i := by simp [hs]
          rw [e1, e2]
          simp only [hs, Bool.false_eq_true, if_false, Bool.false_and, List.append_nil]
          simpa only [List.append_assoc, List.singleton_append] using this

theorem semiRows_ok {c : Cfg α β} (hc : c.ty = .semi) (m : HMap α) (is : List β) (out : List (Row α β)) (num : Nat) :
    let r := semiRows c m is out num
    r.2.2.2.2 + out.length = num + r.2.2.2.1.length ∧
    (r.1 = none → r.2.2.1 = [] ∧ r.2.2.2.1 ++ semiRem c r.2.1 [] = out ++ semiRem c m is ∧
      ∀ bs, semiRem c m (is ++ bs) = semiRem c m is ++ semiRem c r.2.1 bs) ∧
    (r.1 = some .limit → r.2.2.2.1 <+: out ++ semiRem c m is ∧ Hit c r.2.2.2.2) ∧
    (r.1 = some .full → c.cap ≤ r.2.2.2.1.length ∧ r.2.2.1 ≠ [] ∧
      ∀ bs, out ++ semiRem c m (is ++ bs) = r.2.2.2.1 ++ semiRem c r.2.1 (r.2.2.1 ++ bs)) ∧
    (out.length ≤ c.cap → r.2.2.2.1.length ≤ c.cap) := by
  induction is generalizing m out num with
  | nil => simp [semiRows, semiRem]
  | cons i is ih =>
    unfold semiRows
    cases hs : m.seek (c.ikey i) with
    | none =>
      have e : ∀ bs, semiRem c m (i :: is ++ bs) = semiRem c m (is ++ bs) := by
        intro bs; rw [List.cons_append, semiRem, hs]
      have e0 : semiRem c m (i :: is) = semiRem c m is := by simpa using e []
      obtain ⟨a1, a2, a3, a4, a5⟩ := ih m out num
      simp only
      rw [e0]
      refine ⟨a1, fun h => ⟨(a2 h).1, (a2 h).2.1, fun bs => ?_⟩, a3, fun h => ⟨(a4 h).1, (a4 h).2.1, fun bs => ?_⟩, a5⟩
      · rw [e, (a2 h).2.2]
      · rw [e]; exact (a4 h).2.2 bs
    | some os =>
      simp only
      obtain ⟨g1, g2, g3, g4, g5⟩ := semiScan_ok hc i os [] (by simp) out num
      set r := semiScan c i [] os out num
      have e : ∀ bs, semiRem c m (i :: is ++ bs) = (os.filter fun o => c.sat o i).map (fun o => (o, some i)) ++
          semiRem c (m.set (c.ikey i) (os.filter fun o => !c.sat o i)) (is ++ bs) := by
        intro bs; rw [List.cons_append, semiRem, hs]
      have e0 : semiRem c m (i :: is) = (os.filter fun o => c.sat o i).map (fun o => (o, some i)) ++
          semiRem c (m.set (c.ikey i) (os.filter fun o => !c.sat o i)) is := by simpa using e []
      rcases hstop : r.1 with _ | _ | _
      · obtain ⟨b1, b2⟩ := g2 hstop
        simp only [List.nil_append] at b2
        obtain ⟨a1, a2, a3, a4, a5⟩ := ih (m.set (c.ikey i) r.2.1) r.2.2.1 r.2.2.2
        simp only
        have e1 : out ++ semiRem c m (i :: is) = r.2.2.1 ++ semiRem c (m.set (c.ikey i) r.2.1) is := by
          rw [e0, b1, b2, List.append_assoc]
        rw [e1]
        refine ⟨by omega, fun h => ⟨(a2 h).1, (a2 h).2.1, fun bs => ?_⟩, a3, fun h => ⟨(a4 h).1, (a4 h).2.1, fun bs => ?_⟩,
          fun h => a5 (g5 h)⟩
        · rw [e, e0, ← b2, (a2 h).2.2, List.append_assoc]
        · rw [← (a4 h).2.2 bs, e, b1, b2, List.append_assoc]
      · obtain ⟨b1, b2⟩ := g3 hstop
        refine ⟨g1, by simp, fun _ => ⟨?_, b2⟩, by simp, g5⟩
        rw [e0, ← List.append_assoc]
        exact b1.trans (List.prefix_append _ _)
      · obtain ⟨b1, b2, b3, b4⟩ := g4 hstop
        simp only [List.nil_append] at b4
        refine ⟨g1, by simp, by simp, fun _ => ⟨b1, by simp, fun bs => ?_⟩, g5⟩
        rw [e, List.cons_append, semiRem, seek_set _ _ _ b2 _ hs]
        simp only
        rw [set_set _ _ _ b2, b4, ← List.append_assoc, b3, List.append_assoc]

theorem semiLoop_ok {c : Cfg α β} (hc : c.ty = .semi) (more : List (List β)) (m : HMap α) (cur : List β)
    (out : List (Row α β)) (num : Nat) :
    let r := semiLoop c more m cur out num
    (r.2 = none → r.1 <+: out ++ semiRem c m (cur ++ more.flatten) ∧
      (r.1 = out ++ semiRem c m (cur ++ more.flatten) ∨ ∃ l, c.limit = some l ∧ l + out.length ≤ num + r.1.length)) ∧
    (∀ s', r.2 = some s' → out ++ semiRem c m (cur ++ more.flatten) = r.1 ++ semiRem c s'.map (s'.cur ++ s'.more.flatten) ∧
      c.cap ≤ r.1.length ∧ s'.num + out.length = num + r.1.length) ∧
    (out.length ≤ c.cap → r.1.length ≤ c.cap) := by
  induction more generalizing m cur out num with
  | nil =>
    unfold semiLoop
    obtain ⟨g1, g2, g3, g4, g5⟩ := semiRows_ok hc m cur out num
    set r := semiRows c m cur out num
    simp only [List.flatten_nil, List.append_nil]
    rcases hstop : r.1 with _ | _ | _
    · obtain ⟨_, b2, _⟩ := g2 hstop
      simp only [semiRem, List.append_nil] at b2
      simp only [reduceCtorEq, false_implies, implies_true, true_implies, true_and]
      exact ⟨⟨b2 ▸ List.prefix_refl _, Or.inl b2⟩, g5⟩
    · obtain ⟨b1, l, b2, b3⟩ := g3 hstop
      simp only [reduceCtorEq, false_implies, implies_true, true_implies, true_and]
      exact ⟨⟨b1, Or.inr ⟨l, b2, by omega⟩⟩, g5⟩
    · obtain ⟨b1, _, b2⟩ := g4 hstop
      simp only [reduceCtorEq, false_implies, true_and, Option.some.injEq, forall_eq']
      refine ⟨⟨?_, b1, g1⟩, g5⟩
      simpa using b2 []
  | cons b bs ih =>
    unfold semiLoop
    obtain ⟨g1, g2, g3, g4, g5⟩ := semiRows_ok hc m cur out num
    set r := semiRows c m cur out num
    rcases hstop : r.1 with _ | _ | _
    · obtain ⟨_, b2, b3⟩ := g2 hstop
      simp only [semiRem, List.append_nil] at b2
      obtain ⟨i1, i2, i3⟩ := ih r.2.1 b r.2.2.2.1 r.2.2.2.2
      simp only [hstop]
      have e : out ++ semiRem c m (cur ++ (b :: bs).flatten) = r.2.2.2.1 ++ semiRem c r.2.1 (b ++ bs.flatten) := by
        rw [List.flatten_cons, b3, ← List.append_assoc, b2]
      rw [e]
      refine ⟨fun h => ?_, fun s' h => ?_, fun h => i3 (g5 h)⟩
      · obtain ⟨a1, a2⟩ := i1 h
        refine ⟨a1, a2.imp_right ?_⟩
        rintro ⟨l, a, b⟩
        exact ⟨l, a, by omega⟩
      · obtain ⟨a1, a2, a3⟩ := i2 s' h
        exact ⟨a1, a2, by omega⟩
    · obtain ⟨b1, l, b2, b3⟩ := g3 hstop
      simp only [hstop, reduceCtorEq, false_implies, implies_true, true_implies, true_and]
      refine ⟨⟨?_, Or.inr ⟨l, b2, by omega⟩⟩, g5⟩
      have hp : ∀ (xs ys : List β) (m : HMap α), semiRem c m xs <+: semiRem c m (xs ++ ys) := by
        intro xs ys
        induction xs with
        | nil => intro m; simp [semiRem]
        | cons x xs ihx =>
          intro m
          rw [List.cons_append, semiRem, semiRem]
          split
          · exact ihx m
          · exact List.prefix_append_right_inj _ |>.2 (ihx _)
      exact b1.trans (List.prefix_append_right_inj _ |>.2 (hp _ _ _))
    · obtain ⟨b1, _, b2⟩ := g4 hstop
      simp only [hstop, reduceCtorEq, false_implies, true_and, Option.some.injEq, forall_eq']
      exact ⟨⟨b2 _, b1, g1⟩, g5⟩

theorem semi_refines {c : Cfg α β} (hc : c.ty = .semi) :
    Refines (semiNext c) (fun s : SemiState α β => semiRem c s.map (s.cur ++ s.more.flatten)) SemiState.num c.cap c.limit
      True (fun _ => True) where
  more s b s' _ h := by
    obtain ⟨_, h2, _⟩ := semiLoop_ok hc s.more s.map s.cur [] s.num
    unfold semiNext at h
    rw [h] at h2
    obtain ⟨a1, a2, a3⟩ := h2 s' rfl
    exact ⟨trivial, by simpa using a1, a2, fun _ => by simpa using a3⟩
  last s b _ h := by
    obtain ⟨h1, _, _⟩ := semiLoop_ok hc s.more s.map s.cur [] s.num
    unfold semiNext at h
    rw [h] at h1
    obtain ⟨a1, a2⟩ := h1 rfl
    refine ⟨by simpa using a1, ?_⟩
    rcases a2 with a2 | ⟨l, b1, b2⟩
    · exact Or.inl (by simpa using a2)
    · exact Or.inr ⟨l, b1, fun _ => by simpa using b2⟩

theorem semi_cap {c : Cfg α β} (hc : c.ty = .semi) (s : SemiState α β) : (semiNext c s).1.length ≤ c.cap := by
  obtain ⟨_, _, h⟩ := semiLoop_ok hc s.more s.map s.cur [] s.num
  exact h (by simp)

/-! ## Which outer rows come out -/

/-- Some inner row with this key satisfies the other conditions. -/
def hasPartner (c : Cfg α β) (is : List β) (k : Bytes) (o : α) : Bool := is.any fun i => decide (k = c.ikey i) && c.sat o i

theorem sel_congr {m : HMap ρ} {P Q : Bytes → ρ → Bool} (h : ∀ e ∈ m, ∀ r, P e.1 r = Q e.1 r) : m.sel P = m.sel Q := by
  unfold HMap.sel
  induction m with
  | nil => rfl
  | cons e m ih =>
    rw [List.flatMap_cons, List.flatMap_cons, ih fun e' he' => h e' (by simp [he'])]
    congr 1
    exact List.filter_congr fun r _ => h e (by simp) r

theorem seek_none {m : HMap ρ} {k : Bytes} (h : m.seek k = none) : k ∉ m.map Prod.fst := by
  induction m with
  | nil => simp
  | cons e m ih =>
    obtain ⟨k', rs⟩ := e
    by_cases hk : k' = k
    · simp [HMap.seek, hk] at h
    · simp only [HMap.seek, hk, if_false] at h
      simp only [List.map_cons, List.mem_cons, not_or]
      exact ⟨fun e => hk e.symm, ih h⟩

theorem filter_any_split (os : List ρ) (p q : ρ → Bool) :
    (os.filter fun o => p o || q o).Perm (os.filter p ++ (os.filter fun o => !p o).filter q) := by
  induction os with
  | nil => simp
  | cons o os ih =>
    cases hp : p o <;> cases hq : q o <;> simp [hp, hq, -List.filter_filter]
    · exact ih
    · exact (List.Perm.cons _ ih).trans List.perm_middle.symm
    · exact ih
    · exact ih

theorem sel_step {c : Cfg α β} {m : HMap α} (hok : m.Ok) (i : β) (is : List β) (os : List α)
    (hs : m.seek (c.ikey i) = some os) :
    (m.sel (hasPartner c (i :: is))).Perm
      ((os.filter fun o => c.sat o i) ++ (m.set (c.ikey i) (os.filter fun o => !c.sat o i)).sel (hasPartner c is)) := by
  induction m with
  | nil => simp [HMap.seek] at hs
  | cons e m ih =>
    obtain ⟨k', rs⟩ := e
    have hok' : HMap.Ok m := by
      have := hok
      simp only [HMap.Ok, List.map_cons, List.nodup_cons] at this
      exact this.2
    by_cases hk : k' = c.ikey i
    · simp only [HMap.seek, hk, if_true, Option.some.injEq] at hs
      subst hs
      have hnot : k' ∉ m.map Prod.fst := by
        have := hok
        simp only [HMap.Ok, List.map_cons, List.nodup_cons] at this
        exact this.1
      have e1 : HMap.sel m (hasPartner c (i :: is)) = HMap.sel m (hasPartner c is) := by
        refine sel_congr fun e he r => ?_
        have : e.1 ≠ c.ikey i := by
          rintro h
          apply hnot
          rw [hk, ← h]
          exact List.mem_map_of_mem he
        simp [hasPartner, this]
      have e2 : (HMap.set (c.ikey i) (rs.filter fun o => !c.sat o i) ((k', rs) :: m)).sel (hasPartner c is) =
          (rs.filter fun o => !c.sat o i).filter (hasPartner c is k') ++ HMap.sel m (hasPartner c is) := by
        unfold HMap.set
        rw [if_pos hk]
        by_cases he : (rs.filter fun o => !c.sat o i) = []
        · rw [he]; simp
        · rw [if_neg (by simpa [List.isEmpty_iff] using he)]
          simp [HMap.sel]
      rw [e2]
      have e3 : HMap.sel ((k', rs) :: m) (hasPartner c (i :: is)) =
          rs.filter (hasPartner c (i :: is) k') ++ HMap.sel m (hasPartner c (i :: is)) := by simp [HMap.sel]
      rw [e3, e1, ← List.append_assoc]
      refine List.Perm.append_right _ ?_
      have e4 : rs.filter (hasPartner c (i :: is) k') = rs.filter fun o => c.sat o i || hasPartner c is k' o := by
        refine List.filter_congr fun o _ => ?_
        simp [hasPartner, hk]
      rw [e4]
      exact filter_any_split rs (fun o => c.sat o i) (hasPartner c is k')
    · simp only [HMap.seek, hk, if_false] at hs
      have e2 : (HMap.set (c.ikey i) (os.filter fun o => !c.sat o i) ((k', rs) :: m)).sel (hasPartner c is) =
          rs.filter (hasPartner c is k') ++ (HMap.set (c.ikey i) (os.filter fun o => !c.sat o i) m).sel (hasPartner c is) := by
        conv_lhs => unfold HMap.set
        rw [if_neg hk]
        simp [HMap.sel]
      rw [e2]
      have e3 : HMap.sel ((k', rs) :: m) (hasPartner c (i :: is)) =
          rs.filter (hasPartner c is k') ++ HMap.sel m (hasPartner c (i :: is)) := by
        have : rs.filter (hasPartner c (i :: is) k') = rs.filter (hasPartner c is k') :=
          List.filter_congr fun o _ => by simp [hasPartner, hk]
        rw [← this]; simp [HMap.sel]
      rw [e3]
      refine (List.Perm.append_left _ (ih hok' hs)).trans ?_
      rw [← List.append_assoc, ← List.append_assoc]
      exact List.Perm.append_right _ List.perm_append_comm

theorem semiRem_sel {c : Cfg α β} (is : List β) (m : HMap α) (hok : m.Ok) :
    ((semiRem c m is).map Prod.fst).Perm (m.sel (hasPartner c is)) := by
  induction is generalizing m with
  | nil =>
    have : m.sel (hasPartner c []) = [] := by
      simp [HMap.sel, hasPartner]
    simp [semiRem, this]
  | cons i is ih =>
    rw [semiRem]
    cases hs : m.seek (c.ikey i) with
    | none =>
      simp only
      have e1 : m.sel (hasPartner c (i :: is)) = m.sel (hasPartner c is) := by
        refine sel_congr fun e he r => ?_
        have : e.1 ≠ c.ikey i := by
          rintro h
          apply seek_none hs
          rw [← h]
          exact List.mem_map_of_mem he
        simp [hasPartner, this]
      rw [e1]
      exact ih m hok
    | some os =>
      simp only
      rw [List.map_append, List.map_map]
      have e : ((os.filter fun o => c.sat o i).map (Prod.fst ∘ fun o => ((o, some i) : Row α β))) = os.filter fun o => c.sat o i := by
        simp [Function.comp_def]
      rw [e]
      exact (List.Perm.append_left _ (ih _ (set_ok hok))).trans (sel_step hok i is os hs).symm

theorem semiRem_build {c : Cfg α β} (outer : List α) (is : List β) :
    ((semiRem c (buildMap c.okey outer) is).map Prod.fst).Perm
      (sqlSemi (fun o i => decide (c.okey o = c.ikey i) && c.sat o i) (fun _ => is) outer) :=
  (semiRem_sel is _ (build_ok _ _)).trans (sel_build c.okey outer (hasPartner c is))

/-! ## Chunks of outer rows -/

/-- The rows still to come. -/
def loopRem (c : Cfg α β) (fetch : List α → List β) (plimit : Nat) : Nat → List α → Nat → List (Row α β)
  | 0, _, _ => []
  | fuel + 1, os, loops =>
    if os.isEmpty then []
    else semiRem c (buildMap c.okey (os.take (plimit * 2 ^ loops))) (fetch (os.take (plimit * 2 ^ loops))) ++
      loopRem c fetch plimit fuel (os.drop (plimit * 2 ^ loops)) (loops + 1)

theorem loopRem_fuel {c : Cfg α β} {fetch : List α → List β} {plimit : Nat} (hp : 0 < plimit) (f f' : Nat) (os : List α)
    (loops : Nat) (h : os.length ≤ f) (h' : os.length ≤ f') :
    loopRem c fetch plimit f os loops = loopRem c fetch plimit f' os loops := by
  induction f generalizing f' os loops with
  | zero =>
    have : os = [] := List.eq_nil_of_length_eq_zero (by omega)
    subst this
    cases f' <;> simp [loopRem]
  | succ f ih =>
    cases f' with
    | zero =>
      have : os = [] := List.eq_nil_of_length_eq_zero (by omega)
      subst this
      simp [loopRem]
    | succ f' =>
      unfold loopRem
      by_cases he : os.isEmpty
      · simp [he]
      · simp only [he]
        have hpos : 0 < plimit * 2 ^ loops := Nat.mul_pos hp (Nat.two_pow_pos _)
        have : os.length ≠ 0 := by simpa [List.isEmpty_iff] using he
        rw [ih f' _ _ (by simp only [List.length_drop]; omega) (by simp only [List.length_drop]; omega)]

def loopAll (c : Cfg α β) (fetch : List α → List β) (plimit : Nat) (s : LoopState α β) : List (Row α β) :=
  semiRem c s.map s.cur ++ loopRem c fetch plimit s.os.length s.os s.loops

theorem loop_go {c : Cfg α β} (hc : c.ty = .semi) (fetch : List α → List β) (plimit : Nat) (s : LoopState α β)
    (b : List (Row α β)) (x : Option (LoopState α β))
    (h : loopGo c s = (b, x)) :
    (x = none → b <+: loopAll c fetch plimit s ∧ ∃ l, c.limit = some l ∧ l ≤ s.num + b.length) ∧
    (∀ s', x = some s' → loopAll c fetch plimit s = b ++ loopAll c fetch plimit s' ∧ s'.num = s.num + b.length ∧
      s'.os = s.os ∧ (s'.cur = [] ∨ (s'.cur ≠ [] ∧ c.cap ≤ b.length))) := by
  obtain ⟨g1, g2, g3, g4, g5⟩ := semiRows_ok hc s.map s.cur [] s.num
  unfold loopGo at h
  set r := semiRows c s.map s.cur [] s.num
  simp only [List.length_nil, Nat.add_zero, List.nil_append] at g1 g2 g3 g4
  rcases hstop : r.1 with _ | _ | _
  · obtain ⟨b1, b2, _⟩ := g2 hstop
    simp only [hstop] at h
    simp only [Prod.mk.injEq] at h
    obtain ⟨rfl, rfl⟩ := h
    simp only [reduceCtorEq, false_implies, true_and, Option.some.injEq, forall_eq']
    refine ⟨?_, g1, Or.inl b1⟩
    simp only [semiRem, List.append_nil] at b2
    simp only [loopAll, b1, ← b2]
    simp [semiRem]
  · obtain ⟨b1, l, b2, b3⟩ := g3 hstop
    simp only [hstop] at h
    simp only [Prod.mk.injEq] at h
    obtain ⟨rfl, rfl⟩ := h
    simp only [reduceCtorEq, false_implies, implies_true, and_true, true_implies]
    exact ⟨b1.trans (List.prefix_append _ _), l, b2, by omega⟩
  · obtain ⟨b1, b2, b3⟩ := g4 hstop
    simp only [hstop] at h
    simp only [Prod.mk.injEq] at h
    obtain ⟨rfl, rfl⟩ := h
    simp only [reduceCtorEq, false_implies, true_and, Option.some.injEq, forall_eq']
    refine ⟨?_, g1, Or.inr ⟨b2, b1⟩⟩
    have := b3 []
    simp only [List.append_nil] at this
    simp only [loopAll, this, List.append_assoc]

theorem loopNext_ok {c : Cfg α β} (hc : c.ty = .semi) (fetch : List α → List β) {plimit : Nat} (hp : 0 < plimit)
    (s : LoopState α β) (b : List (Row α β)) (x : Option (LoopState α β)) (h : loopNext c fetch plimit s = (b, x)) :
    (x = none → b <+: loopAll c fetch plimit s ∧
      (b = loopAll c fetch plimit s ∨ ∃ l, c.limit = some l ∧ l ≤ s.num + b.length)) ∧
    (∀ s', x = some s' → loopAll c fetch plimit s = b ++ loopAll c fetch plimit s' ∧ s'.num = s.num + b.length ∧
      (s'.os.length < s.os.length ∨ s'.os = s.os ∧ s.cur ≠ [] ∧ (s'.cur = [] ∨ (s'.cur ≠ [] ∧ c.cap ≤ b.length)))) := by
  unfold loopNext at h
  simp only at h
  by_cases hcur : s.cur.isEmpty
  · rw [if_pos hcur] at h
    by_cases hos : s.os.isEmpty
    · rw [if_pos hos] at h
      simp only [Prod.mk.injEq] at h
      obtain ⟨rfl, rfl⟩ := h
      simp only [List.isEmpty_iff] at hcur hos
      simp [loopAll, hcur, hos, semiRem, loopRem]
    · rw [if_neg hos] at h
      have hne : s.os.length ≠ 0 := by simpa [List.isEmpty_iff] using hos
      have hpos : 0 < plimit * 2 ^ s.loops := Nat.mul_pos hp (Nat.two_pow_pos _)
      obtain ⟨a1, a2⟩ := loop_go hc fetch plimit _ b x h
      have e : loopAll c fetch plimit s = loopAll c fetch plimit
          ⟨buildMap c.okey (s.os.take (plimit * 2 ^ s.loops)), fetch (s.os.take (plimit * 2 ^ s.loops)),
            s.os.drop (plimit * 2 ^ s.loops), s.loops + 1, s.num⟩ := by
        simp only [List.isEmpty_iff] at hcur
        obtain ⟨n, hn⟩ : ∃ n, s.os.length = n + 1 := ⟨s.os.length - 1, by omega⟩
        simp only [loopAll, hcur, semiRem, List.nil_append]
        rw [hn, loopRem, if_neg hos]
        congr 1
        exact loopRem_fuel hp _ _ _ _ (by simp only [List.length_drop]; omega) (le_refl _)
      rw [e]
      refine ⟨fun h => ⟨(a1 h).1, Or.inr (a1 h).2⟩, fun s' h => ?_⟩
      obtain ⟨b1, b2, b3, _⟩ := a2 s' h
      refine ⟨b1, b2, Or.inl ?_⟩
      rw [b3]
      simp only [List.length_drop]; omega
  · rw [if_neg hcur] at h
    obtain ⟨a1, a2⟩ := loop_go hc fetch plimit s b x h
    refine ⟨fun h => ⟨(a1 h).1, Or.inr (a1 h).2⟩, fun s' h => ?_⟩
    obtain ⟨b1, b2, b3, b4⟩ := a2 s' h
    exact ⟨b1, b2, Or.inr ⟨b3, by simpa [List.isEmpty_iff] using hcur, b4⟩⟩

theorem loop_drain {c : Cfg α β} (hc : c.ty = .semi) (fetch : List α → List β) {plimit : Nat} (hp : 0 < plimit)
    {s : LoopState α β} {bs : List (List (Row α β))} (h : Drain (loopNext c fetch plimit) s bs) :
    bs.flatten <+: loopAll c fetch plimit s ∧
      (bs.flatten = loopAll c fetch plimit s ∨ ∃ l, c.limit = some l ∧ l ≤ s.num + bs.flatten.length) := by
  induction h with
  | last e => simpa using (loopNext_ok hc fetch hp _ _ _ e).1 rfl
  | more e _ ih =>
    obtain ⟨hR, hN, _⟩ := (loopNext_ok hc fetch hp _ _ _ e).2 _ rfl
    obtain ⟨h1, h2⟩ := ih
    rw [List.flatten_cons, hR]
    refine ⟨List.prefix_append_right_inj _ |>.2 h1, ?_⟩
    rcases h2 with h2 | ⟨l, hl, hh⟩
    · exact Or.inl (by rw [h2])
    · refine Or.inr ⟨l, hl, ?_⟩
      simp only [List.length_append]
      omega

theorem loop_exists {c : Cfg α β} (hc : c.ty = .semi) (fetch : List α → List β) {plimit : Nat} (hp : 0 < plimit)
    (hcap : 0 < c.cap) (s : LoopState α β) : ∃ bs, Drain (loopNext c fetch plimit) s bs := by
  -- outer rows left, then rows left, then whether inner rows are left
  generalize hn : s.os.length = n
  induction n using Nat.strong_induction_on generalizing s with
  | _ n ihn =>
    generalize hm : 2 * (loopAll c fetch plimit s).length + (if s.cur = [] then 0 else 1) = k
    induction k using Nat.strong_induction_on generalizing s with
    | _ k ihk =>
      rcases hs : loopNext c fetch plimit s with ⟨b, _ | s'⟩
      · exact ⟨_, .last hs⟩
      · obtain ⟨hR, _, hd⟩ := (loopNext_ok hc fetch hp _ _ _ hs).2 _ rfl
        have hlen : (loopAll c fetch plimit s).length = b.length + (loopAll c fetch plimit s').length := by
          rw [hR, List.length_append]
        rcases hd with hd | ⟨ho, hcur, hd⟩
        · obtain ⟨bs, hb⟩ := ihn _ (by omega) s' rfl
          exact ⟨_, .more hs hb⟩
        · rw [if_neg hcur] at hm
          have hlt : 2 * (loopAll c fetch plimit s').length + (if s'.cur = [] then 0 else 1) < k := by
            rcases hd with hd | ⟨hd, hb⟩
            · rw [if_pos hd]; omega
            · rw [if_neg hd]; omega
          obtain ⟨bs, hb⟩ := ihk _ hlt s' (by rw [ho]; exact hn) rfl
          exact ⟨_, .more hs hb⟩

theorem loopRem_perm {c : Cfg α β} (fetch : List α → List β) {plimit : Nat} (hp : 0 < plimit) (P : α → Bool) (whole : List α)
    (hf : ∀ chunk : List α, (∀ o ∈ chunk, o ∈ whole) → ∀ o ∈ chunk,
      (fetch chunk).any (fun i => decide (c.okey o = c.ikey i) && c.sat o i) = P o)
    (f : Nat) (os : List α) (hos : ∀ o ∈ os, o ∈ whole) (h : os.length ≤ f) (loops : Nat) :
    ((loopRem c fetch plimit f os loops).map Prod.fst).Perm (os.filter P) := by
  induction f generalizing os loops with
  | zero =>
    have : os = [] := List.eq_nil_of_length_eq_zero (by omega)
    subst this
    simp [loopRem]
  | succ f ih =>
    unfold loopRem
    by_cases he : os.isEmpty
    · simp only [List.isEmpty_iff] at he
      subst he
      simp
    · rw [if_neg he]
      have hpos : 0 < plimit * 2 ^ loops := Nat.mul_pos hp (Nat.two_pow_pos _)
      have hne : os.length ≠ 0 := by simpa [List.isEmpty_iff] using he
      rw [List.map_append]
      set n := plimit * 2 ^ loops
      have e : os.filter P = (os.take n).filter P ++ (os.drop n).filter P := by
        rw [← List.filter_append, List.take_append_drop]
      rw [e]
      refine List.Perm.append ?_ (ih _ (fun o ho => hos o (List.mem_of_mem_drop ho)) (by simp only [List.length_drop]; omega) _)
      refine (semiRem_build (os.take n) (fetch (os.take n))).trans (List.Perm.of_eq ?_)
      unfold sqlSemi
      exact List.filter_congr fun o ho => hf _ (fun o ho => hos o (List.mem_of_mem_take ho)) o ho

end BaikalDB.Join
