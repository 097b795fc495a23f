import Verif.Agg.Calls

/-!
# Merging partial results of one aggregate
-/

namespace BaikalDB.Agg

variable {ρ V D O : Type}

/-! ## Serialised sets -/

theorem rd32_le32 {n : Nat} (h : n < 2 ^ 32) (l : Bytes) : rd32 (le32 n ++ l) = some (n, l) := by
  simp only [le32, List.cons_append, List.nil_append, rd32, BitVec.toNat_ofNat, Option.some.injEq, Prod.mk.injEq, and_true]
  omega

theorem width_pos {t : Byte} {w : Nat} (h : width t = some (some w)) : 0 < w := by
  unfold width at h
  split at h
  · simp at h; omega
  · split at h
    · simp at h; omega
    · split at h
      · simp at h; omega
      · split at h
        · simp at h; omega
        · split at h <;> simp at h

theorem unserFixed_flatMap (e : Env V D O) (t : Byte) {w : Nat} (hw : 0 < w) :
    ∀ (S : List V) (fuel : Nat), (∀ v ∈ S, e.unraw t (e.raw v) = v ∧ (e.raw v).length = w) → S.length ≤ fuel →
      unserFixed e t w fuel (S.flatMap e.raw) = some S
  | [], fuel, _, _ => by cases fuel <;> simp [unserFixed]
  | v :: S, 0, _, hf => by simp at hf
  | v :: S, fuel + 1, h, hf => by
    have hv := h v (by simp)
    have ih := unserFixed_flatMap e t hw S fuel (fun x hx => h x (by simp [hx])) (by simpa using hf)
    have hne : (v :: S).flatMap e.raw ≠ [] := by
      intro h0
      have := congrArg List.length h0
      simp only [List.flatMap_cons, List.length_append, List.length_nil] at this
      omega
    rw [List.flatMap_cons] at hne ⊢
    unfold unserFixed
    split
    · rename_i h0; exact absurd h0 hne
    · simp at *
    · rename_i hf' _
      cases hf'
      have h1 : ¬ (e.raw v ++ S.flatMap e.raw).length < w := by rw [List.length_append]; omega
      rw [if_neg h1, List.drop_left' hv.2, List.take_left' hv.2, ih]
      simp [hv.1]

theorem unserStr_flatMap (e : Env V D O) (t : Byte) :
    ∀ (S : List V) (fuel : Nat), (∀ v ∈ S, e.unraw t (e.raw v) = v ∧ (e.raw v).length < 2 ^ 32) → S.length ≤ fuel →
      unserStr e t fuel (S.flatMap fun v => le32 (e.raw v).length ++ e.raw v) = some S
  | [], fuel, _, _ => by cases fuel <;> simp [unserStr]
  | v :: S, 0, _, hf => by simp at hf
  | v :: S, fuel + 1, h, hf => by
    have hv := h v (by simp)
    have ih := unserStr_flatMap e t S fuel (fun x hx => h x (by simp [hx])) (by simpa using hf)
    have hne : (v :: S).flatMap (fun v => le32 (e.raw v).length ++ e.raw v) ≠ [] := by
      simp [le32]
    rw [List.flatMap_cons] at hne ⊢
    unfold unserStr
    split
    · rename_i h0; exact absurd h0 hne
    · simp at *
    · rename_i hf' _
      cases hf'
      rw [List.append_assoc, rd32_le32 hv.2]
      simp only
      have h1 : ¬ (e.raw v ++ S.flatMap fun v => le32 (e.raw v).length ++ e.raw v).length < (e.raw v).length := by
        rw [List.length_append]; omega
      rw [if_neg h1, List.drop_left' rfl, List.take_left' rfl, ih]
      simp [hv.1]

theorem unserialize_serialize {e : Env V D O} {T : V → Prop} {τ : Byte} {w : Option Nat} (hw : width τ = some w)
    (hT : ∀ v, T v → e.tag v = τ ∧ e.unraw τ (e.raw v) = v ∧ ∀ w', w = some w' → (e.raw v).length = w')
    {S : List V} (hS : ∀ s ∈ S, T s) (h0 : S ≠ []) (hlen : (serBody e w S).length + 1 < 2 ^ 31) :
    ∃ l, serialize e S = some l ∧ unserialize e l = some S := by
  cases S with
  | nil => exact absurd rfl h0
  | cons v S =>
    have htag := (hT v (hS v (by simp))).1
    refine ⟨le32 (1 + (serBody e w (v :: S)).length) ++ τ :: serBody e w (v :: S), ?_, ?_⟩
    · simp only [serialize, htag, hw]
    · unfold unserialize
      rw [rd32_le32 (by omega)]
      simp only [Nat.add_sub_cancel_left, List.take_length, hw]
      rw [if_neg (by omega)]
      cases w with
      | some w' =>
        simp only [serBody]
        refine unserFixed_flatMap e τ (width_pos hw) _ _ (fun x hx => ?_) ?_
        · exact ⟨(hT x (hS x hx)).2.1, (hT x (hS x hx)).2.2 w' rfl⟩
        · have : ∀ L : List V, (∀ x ∈ L, (e.raw x).length = w') → L.length ≤ (L.flatMap e.raw).length := by
            intro L
            induction L with
            | nil => simp
            | cons a L ih =>
              intro hL
              have := ih (fun x hx => hL x (by simp [hx]))
              have ha := hL a (by simp)
              have := width_pos hw
              simp only [List.flatMap_cons, List.length_append, List.length_cons]
              omega
          exact this _ fun x hx => (hT x (hS x hx)).2.2 w' rfl
      | none =>
        simp only [serBody] at hlen ⊢
        have hle : ∀ L : List V, L.length ≤ (L.flatMap fun v => le32 (e.raw v).length ++ e.raw v).length ∧
            ∀ x ∈ L, (e.raw x).length ≤ (L.flatMap fun v => le32 (e.raw v).length ++ e.raw v).length := by
          intro L
          induction L with
          | nil => simp
          | cons a L ih =>
            simp only [List.flatMap_cons, List.length_append, List.length_cons, le32]
            refine ⟨by simp only [List.length_nil] at *; have := ih.1; simp only [le32, List.length_nil] at this; omega, ?_⟩
            intro x hx
            rcases List.mem_cons.mp hx with rfl | hx
            · simp only [List.length_nil]; omega
            · have := ih.2 x hx; simp only [le32, List.length_nil] at this; simp only [List.length_nil]; omega
        refine unserStr_flatMap e τ _ _ (fun x hx => ?_) (hle _).1
        exact ⟨(hT x (hS x hx)).2.1, by have := (hle _).2 x hx; omega⟩

/-! ## Merging -/

/-- The set aggregates of a node that merges. -/
theorem mergeSet_spec {e : Env V D O} {c : Call ρ V O} {T : V → Prop} (ok : CallOk e c T) (hk : c.kind.isMulti = true) {s : St V D O}
    {R R' : List ρ} {p : Slot V D} (hub : s.ub = false) (hs : Spec.Distinct e.cmp s.set (mems e c R)) (hp : SetIs e c R' p)
    (hn : mems e c R' ≠ []) (hT : ∀ v ∈ mems e c (R ++ R'), T v) :
    (mergeSet e s p).ub = false ∧ (mergeSet e s p).slot = s.slot ∧
      Spec.Distinct e.cmp (mergeSet e s p).set (mems e c (R ++ R')) ∧ (∀ x ∈ s.set, x ∈ (mergeSet e s p).set) ∧
      (∃ l t, p = .str l ∧ unserialize e l = some t ∧ ∀ x ∈ t, ∃ y ∈ (mergeSet e s p).set, e.cmp y x = 0) := by
  obtain ⟨τ, w, hw, hT1, hT2⟩ := ok.wire hk
  have em : mems e c (R ++ R') = mems e c R ++ mems e c R' := by simp [mems]
  rw [em] at hT ⊢
  rcases hp with ⟨h1, rfl⟩ | ⟨S, l, h0, hd, hser, rfl⟩
  · exact absurd h1 hn
  · have hTS : ∀ x ∈ S, T x := fun x hx => hT x (List.mem_append_right _ (hd.1 x hx))
    obtain ⟨l', hl, hu⟩ := unserialize_serialize hw hT1 hTS h0 (hT2 S hd.2.1 hTS)
    rw [hser] at hl
    cases hl
    have hd' := setMerge_distinct ok.order hs (fun x hx => hT x (List.mem_append_left _ hx)) hTS
    refine ⟨by simp [mergeSet, hu, hub], by simp [mergeSet, hu], ?_, ?_, l, S, rfl, hu, ?_⟩
    · simp only [mergeSet, hu]
      exact Distinct.replace ok.order hd' hd hT
    · simp only [mergeSet, hu]
      exact fun x hx => subset_setMerge e S s.set x hx
    · simp only [mergeSet, hu]
      intro x hx
      exact hd'.2.2 x (by simp [hx])

theorem inv_merge {e : Env V D O} (hl : Laws e) {c : Call ρ V O} {T : V → Prop} (ok : CallOk e c T)
    (hd : (c.distinct && !c.kind.isMulti) = false) {s : St V D O} {R R' : List ρ} {r : ρ} {p : Slot V D} (h : Inv e c s R)
    (hp : Rep e c p R') (hn : Needs e c R') (hR : R' ≠ []) (ho : ∀ o, c.order = some o → ∀ r' ∈ R', o r' = o r)
    (hv : ∀ v ∈ vals c (R ++ R'), T v) (hm : ∀ v ∈ mems e c (R ++ R'), T v) :
    Inv e c (merge e c false s r p) (R ++ R') := by
  obtain ⟨hub, h⟩ := h
  have ev : vals c (R ++ R') = vals c R ++ vals c R' := by simp [vals]
  have eb : bms c (R ++ R') = bms c R ++ bms c R' := by simp [bms]
  have et : texts e c (R ++ R') = texts e c R ++ texts e c R' := by simp [texts]
  have ec : cnt c (R ++ R') = cnt c R + cnt c R' := by simp [cnt]
  unfold Inv merge
  rw [hd]
  unfold Rep at hp
  have set_case : c.kind.isMulti = true → SetIs e c R' p →
      (Spec.Distinct e.cmp s.set (mems e c R) ∧
        (s.slot = .null ∨ ∃ l t, s.slot = .str l ∧ unserialize e l = some t ∧ ∀ x ∈ t, ∃ y ∈ s.set, e.cmp y x = 0)) →
      (mergeSet e s p).ub = false ∧ (Spec.Distinct e.cmp (mergeSet e s p).set (mems e c (R ++ R')) ∧
        ((mergeSet e s p).slot = .null ∨ ∃ l t, (mergeSet e s p).slot = .str l ∧ unserialize e l = some t ∧
          ∀ x ∈ t, ∃ y ∈ (mergeSet e s p).set, e.cmp y x = 0)) := by
    intro hk hp ⟨h1, h2⟩
    obtain ⟨g1, g2, g3, g4, _⟩ := mergeSet_spec ok hk hub h1 hp (hn.2 hk hR) hm
    refine ⟨g1, g3, ?_⟩
    rw [g2]
    rcases h2 with h2 | ⟨l, t, a, b, d⟩
    · exact .inl h2
    · refine .inr ⟨l, t, a, b, fun x hx => ?_⟩
      obtain ⟨y, hy, hyx⟩ := d x hx
      exact ⟨y, g4 y hy, hyx⟩
  cases hk : c.kind <;> simp only [hk] at h hp <;> simp only [hk, Kind.isMulti, Kind.isBitmap, Bool.false_eq_true, if_false, if_true]
  case countStar =>
    rw [hp]
    refine ⟨hub, ?_⟩
    rw [h]; simp only [addInt]; rw [← BitVec.ofNat_add]; simp
  case count =>
    rw [hp]
    refine ⟨hub, ?_⟩
    rw [h]; simp only [addInt]; rw [← BitVec.ofNat_add, ec]
  case sum =>
    rw [ev]
    rcases hp with ⟨h1, rfl⟩ | ⟨h1, rfl⟩
    · exact ⟨hub, by simpa [h1] using h⟩
    · exact ⟨hub, h.add h1⟩
  case sumDbl =>
    rw [ev]
    rcases hp with ⟨h1, rfl⟩ | ⟨h1, rfl⟩
    · exact ⟨hub, by simpa [h1] using h⟩
    · exact ⟨hub, h.add hl h1⟩
  case avg =>
    rw [ev]
    rcases hp with hp | ⟨h1, rfl⟩
    · unfold AvgIs at hp h ⊢
      rw [hp]
      simp only [h]
      refine ⟨hub, ?_⟩
      rw [← BitVec.ofNat_add, List.map_append, total_append hl, List.length_append]
    · exact ⟨hub, by simpa [h1] using h⟩
  case min =>
    rw [ev] at hv ⊢
    rcases hp with ⟨h1, rfl⟩ | ⟨v, rfl, h1, h2⟩
    · exact ⟨hub, by simpa [h1] using h⟩
    · exact ⟨hub, h.add ok.order h1 h2 hv⟩
  case max =>
    rw [ev] at hv ⊢
    rcases hp with ⟨h1, rfl⟩ | ⟨v, rfl, h1, h2⟩
    · exact ⟨hub, by simpa [h1] using h⟩
    · exact ⟨hub, h.add ok.order h1 h2 hv⟩
  case rbOr =>
    rcases hp with rfl | ⟨h1, _⟩
    · exact ⟨hub, h.1, by rw [eb, orAll_append]; simp only [h.2]⟩
    · exact absurd h1 hR
  case rbAnd =>
    rcases hp with ⟨h1, _⟩ | ⟨h1, rfl⟩
    · exact absurd h1 (hn.1 hk hR)
    · refine ⟨hub, .inr ⟨by rw [eb]; simp [h1], rfl, ?_⟩⟩
      rw [eb]
      rcases h with ⟨h2, h3⟩ | ⟨h2, h3, h4⟩
      · simp [h2, h3]
      · simp only [h3, if_true, h4, andAll_append h2 h1]
  case rbXor =>
    rcases hp with rfl | ⟨h1, _⟩
    · exact ⟨hub, h.1, by rw [eb, xorAll_append]; simp only [h.2]⟩
    · exact absurd h1 hR
  case rbBuild =>
    rcases hp with rfl | ⟨h1, _⟩
    · exact ⟨hub, h.1, by rw [ev, List.map_append, orAll_append]; simp only [h.2]⟩
    · exact absurd h1 hR
  case concat =>
    cases hord : c.order with
    | none =>
      simp only [hord] at h ⊢
      rw [et]
      rcases hp with ⟨h1, rfl⟩ | ⟨h1, rfl⟩
      · exact ⟨hub, by simpa [h1] using h⟩
      · exact ⟨hub, h.add h1⟩
    | some o =>
      simp only [hord] at h ⊢
      obtain ⟨L, rest, h1, h2, h3, h4⟩ := h
      rcases hp with ⟨h5, rfl⟩ | ⟨h5, rfl⟩
      · refine ⟨hub, L, rest ++ R', h1, h2, ?_, ?_⟩
        · simp only [texts, List.filterMap_append] at h3 h5 ⊢; rw [h3, h5]; rfl
        · rw [← List.append_assoc]; exact h4.append_right _
      · refine ⟨hub, L ++ [(o r, R')], rest, ?_, ?_, h3, ?_⟩
        · simp [h1]
        · intro x hx
          rcases List.mem_append.mp hx with hx | hx
          · exact h2 x hx
          · simp only [List.mem_singleton] at hx; subst hx; exact ⟨h5, ho o hord⟩
        · simp only [List.flatMap_append, List.flatMap_cons, List.flatMap_nil, List.append_nil]
          refine List.Perm.trans ?_ (h4.append_right R')
          simp only [List.append_assoc]
          exact (List.perm_append_comm).append_left _
  case absent => exact ⟨hub, h⟩
  all_goals exact set_case (by simp [hk, Kind.isMulti]) hp h

theorem inv_open {e : Env V D O} {c : Call ρ V O} {T : V → Prop} (ok : CallOk e c T)
    (hd : (c.distinct && !c.kind.isMulti) = false) {R : List ρ} {r : ρ} {p f : Slot V D}
    (hp : Rep e c p R) (hn : Needs e c R) (hR : R ≠ []) (ho : ∀ o, c.order = some o → ∀ r' ∈ R, o r' = o r)
    (hm : ∀ v ∈ mems e c R, T v) :
    Inv e c (merge e c true (initAgg e c false { slot := p, fin := f }) r (initAgg e c false { slot := p, fin := f }).slot) R := by
  unfold Inv merge
  rw [hd]
  unfold Rep at hp
  have set_case : c.kind.isMulti = true → SetIs e c R p → ∀ s : St V D O, s.set = [] → s.ub = false → s.slot = p →
      (mergeSet e s s.slot).ub = false ∧ (Spec.Distinct e.cmp (mergeSet e s s.slot).set (mems e c R) ∧
        ((mergeSet e s s.slot).slot = .null ∨ ∃ l t, (mergeSet e s s.slot).slot = .str l ∧ unserialize e l = some t ∧
          ∀ x ∈ t, ∃ y ∈ (mergeSet e s s.slot).set, e.cmp y x = 0)) := by
    intro hk hp s h1 h2 h3
    rw [h3]
    obtain ⟨g1, g2, g3, g4, g5⟩ := mergeSet_spec (R := []) (s := s) ok hk h2 (by simp [h1, mems, Spec.Distinct]) hp (hn.2 hk hR) (by simpa using hm)
    refine ⟨g1, by simpa using g3, ?_⟩
    rw [g2, h3]
    exact .inr g5
  cases hk : c.kind <;> simp only [hk] at hp <;>
    simp only [initAgg, hk, Kind.isMulti, Kind.isBitmap, Bool.false_eq_true, if_false, if_true]
  case countStar => subst hp; simp
  case count => subst hp; simp
  case sum => exact ⟨trivial, hp⟩
  case sumDbl => exact ⟨trivial, hp⟩
  case avg =>
    rcases hp with hp | ⟨h1, rfl⟩
    · unfold AvgIs at hp ⊢; subst hp; simp
    · simp [h1, AvgIs, Spec.total]
  case min => exact ⟨trivial, hp⟩
  case max => exact ⟨trivial, hp⟩
  case rbOr =>
    rcases hp with rfl | ⟨h1, _⟩
    · simp
    · exact absurd h1 hR
  case rbAnd =>
    rcases hp with ⟨h1, _⟩ | ⟨h1, rfl⟩
    · exact absurd h1 (hn.1 hk hR)
    · simp [h1]
  case rbXor =>
    rcases hp with rfl | ⟨h1, _⟩
    · simp
    · exact absurd h1 hR
  case rbBuild =>
    rcases hp with rfl | ⟨h1, _⟩
    · simp
    · exact absurd h1 hR
  case concat =>
    cases hord : c.order with
    | none => exact ⟨rfl, hp⟩
    | some o =>
      simp only
      rcases hp with ⟨h5, rfl⟩ | ⟨h5, rfl⟩
      · exact ⟨rfl, [], R, by simp, by simp, h5, by simp⟩
      · refine ⟨rfl, [(o r, R)], [], by simp, ?_, rfl, by simp⟩
        intro x hx
        simp only [List.mem_singleton] at hx; subst hx; exact ⟨h5, ho o hord⟩
  case absent => simpa using hp
  all_goals exact set_case (by simp [hk, Kind.isMulti]) hp _ rfl rfl rfl

end BaikalDB.Agg
