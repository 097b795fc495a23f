import Verif.Agg.Merge
import Mathlib.Data.List.Sort

/-!
# The value of one aggregate in the end
-/

namespace BaikalDB.Agg

variable {ρ V D O : Type}

theorem setMerge_noop (e : Env V D O) (t : List V) : ∀ (S : List V), (∀ x ∈ t, ∃ y ∈ S, e.cmp y x = 0) → setMerge e S t = S := by
  induction t with
  | nil => intro S _; rfl
  | cons v t ih =>
    intro S h
    have h1 : setInsert e S v = S := by
      obtain ⟨y, hy, hyv⟩ := h v (by simp)
      unfold setInsert
      rw [if_pos (List.any_eq_true.mpr ⟨y, hy, by simp [hyv]⟩)]
    have := ih S (fun x hx => h x (by simp [hx]))
    simpa [setMerge, h1] using this

theorem mergeSet_noop {e : Env V D O} {s : St V D O}
    (h : s.slot = .null ∨ ∃ l t, s.slot = .str l ∧ unserialize e l = some t ∧ ∀ x ∈ t, ∃ y ∈ s.set, e.cmp y x = 0) :
    mergeSet e s s.slot = s := by
  rcases h with h | ⟨l, t, h, hu, hx⟩
  · simp [mergeSet, h]
  · simp only [mergeSet, h, hu, setMerge_noop e t s.set hx]
    cases s; simp_all

theorem serialize_some {e : Env V D O} {c : Call ρ V O} {T : V → Prop} (ok : CallOk e c T) (hk : c.kind.isMulti = true) {S : List V}
    (hS : ∀ s ∈ S, T s) : ∃ l, serialize e S = some l := by
  obtain ⟨τ, w, hw, hT1, _⟩ := ok.wire hk
  cases S with
  | nil => exact ⟨[], rfl⟩
  | cons v S =>
    refine ⟨le32 (1 + (serBody e w (v :: S)).length) ++ τ :: serBody e w (v :: S), ?_⟩
    simp only [serialize, (hT1 v (hS v (by simp))).1, hw]

theorem set_rep {e : Env V D O} {c : Call ρ V O} {T : V → Prop} (ok : CallOk e c T) (hk : c.kind.isMulti = true) {S : List V}
    {R : List ρ} (hS : Spec.Distinct e.cmp S (mems e c R)) (hT : ∀ v ∈ mems e c R, T v) :
    ∃ l, serialize e S = some l ∧ SetIs e c R (Slot.str l : Slot V D) := by
  obtain ⟨l, hl⟩ := serialize_some ok hk (S := S) fun s hs => hT s (hS.1 s hs)
  refine ⟨l, hl, ?_⟩
  by_cases h0 : S = []
  · subst h0
    simp only [serialize, Option.some.injEq] at hl
    subst hl
    left
    refine ⟨?_, rfl⟩
    by_contra hne
    obtain ⟨v, hv⟩ := List.exists_mem_of_ne_nil _ hne
    obtain ⟨s, hs, _⟩ := hS.2.2 v hv
    cases hs
  · exact .inr ⟨S, l, h0, hS, hl, rfl⟩

/-- A state finalised is a partial result again. -/
theorem rep_fin {e : Env V D O} {c : Call ρ V O} {T : V → Prop} (ok : CallOk e c T) (m : Bool) {s : St V D O} {R : List ρ}
    (h : Inv e c s R) (ho : c.order = none) (hm : ∀ v ∈ mems e c R, T v) :
    Rep e c (finalize e c m s).slot R ∧ (finalize e c m s).ub = false := by
  obtain ⟨hub, h⟩ := h
  have set_case : c.kind.isMulti = true → ∀ k : Kind, k = c.kind →
      (Spec.Distinct e.cmp s.set (mems e c R) ∧
        (s.slot = .null ∨ ∃ l t, s.slot = .str l ∧ unserialize e l = some t ∧ ∀ x ∈ t, ∃ y ∈ s.set, e.cmp y x = 0)) →
      SetIs e c R (finalize e c m s).slot ∧ (finalize e c m s).ub = false := by
    intro hk k hkk ⟨h1, h2⟩
    obtain ⟨l, hl, hs⟩ := set_rep (D := D) ok hk h1 hm
    unfold finalize
    cases hck : c.kind <;> simp only [hck, Kind.isMulti] at hk <;> try cases hk
    all_goals
      simp only [Kind.isBitmap, Kind.isMulti, Bool.false_eq_true, if_false, if_true]
      cases m
      · simp only [hl, Bool.false_eq_true, if_false]; exact ⟨hs, hub⟩
      · simp only [mergeSet_noop h2, hl, if_true]; exact ⟨hs, hub⟩
  unfold Rep
  cases hk : c.kind <;> simp only [hk] at h
  case countStar => simpa [finalize, hk, ho, Kind.isBitmap, Kind.isMulti, hub] using h
  case count => simpa [finalize, hk, ho, Kind.isBitmap, Kind.isMulti, hub] using h
  case sum => simpa [finalize, hk, ho, Kind.isBitmap, Kind.isMulti, hub] using h
  case sumDbl => simpa [finalize, hk, ho, Kind.isBitmap, Kind.isMulti, hub] using h
  case avg =>
    unfold AvgIs at h ⊢
    simp [finalize, hk, ho, Kind.isBitmap, Kind.isMulti, hub, h]
  case min => simpa [finalize, hk, ho, Kind.isBitmap, Kind.isMulti, hub] using h
  case max => simpa [finalize, hk, ho, Kind.isBitmap, Kind.isMulti, hub] using h
  case rbOr => simp [finalize, hk, ho, Kind.isBitmap, hub, h.1, h.2]
  case rbAnd =>
    rcases h with ⟨h1, h2⟩ | ⟨h1, h2, h3⟩
    · simp [finalize, hk, ho, Kind.isBitmap, hub, h1, h2]
    · simp [finalize, hk, ho, Kind.isBitmap, hub, h1, h2, h3]
  case rbXor => simp [finalize, hk, ho, Kind.isBitmap, hub, h.1, h.2]
  case rbBuild => simp [finalize, hk, ho, Kind.isBitmap, hub, h.1, h.2]
  case concat =>
    simp only [ho] at h
    simpa [finalize, hk, ho, Kind.isBitmap, Kind.isMulti, hub] using h
  case absent => simpa [finalize, hk, ho, Kind.isBitmap, Kind.isMulti, hub] using h
  all_goals exact set_case (by simp [hk, Kind.isMulti]) _ rfl h

/-! ## Bits -/

theorem testBit_orAll (l : List Nat) (i : Nat) : (orAll l).testBit i = true ↔ ∃ x ∈ l, x.testBit i = true := by
  induction l with
  | nil => simp [orAll]
  | cons x l ih => simp only [orAll, List.foldr_cons, Nat.testBit_or, Bool.or_eq_true] at ih ⊢; simp [ih]

theorem testBit_andAll {l : List Nat} (h : l ≠ []) (i : Nat) : (andAll l).testBit i = true ↔ ∀ x ∈ l, x.testBit i = true := by
  induction l with
  | nil => exact absurd rfl h
  | cons x l ih =>
    by_cases h0 : l = []
    · subst h0; simp [andAll]
    · rw [andAll_cons x h0, Nat.testBit_and, Bool.and_eq_true, ih h0]; simp

theorem testBit_xorAll (l : List Nat) (i : Nat) : (xorAll l).testBit i = true ↔ (l.filter (·.testBit i)).length % 2 = 1 := by
  induction l with
  | nil => simp [xorAll]
  | cons x l ih =>
    simp only [xorAll, List.foldr_cons, Nat.testBit_xor] at ih ⊢
    cases hx : x.testBit i
    · simp [hx, ih]
    · simp only [List.filter_cons, hx, if_true, List.length_cons, Bool.true_xor]
      have : ∀ b : Bool, (!b) = true ↔ ¬ b = true := by decide
      rw [this, ih]
      omega

/-! ## Texts -/

theorem joinLoop_aux (sep : Bytes) (l : List Bytes) : ∀ acc : Bytes, acc ≠ [] →
    l.foldl (fun acc s => if acc = [] then s else acc ++ sep ++ s) acc = sep.intercalate (acc :: l) := by
  induction l with
  | nil => intro acc _; simp [List.intercalate]
  | cons x l ih =>
    intro acc h
    rw [List.foldl_cons, if_neg h, ih _ (by simp [h])]
    cases l with
    | nil => simp [List.intercalate, List.intersperse]
    | cons y l => simp [List.intercalate, List.intersperse]

theorem joinLoop_eq (sep : Bytes) {l : List Bytes} (h : ∀ x ∈ l, x ≠ []) : joinLoop sep l = sep.intercalate l := by
  cases l with
  | nil => simp [joinLoop, List.intercalate]
  | cons x l =>
    unfold joinLoop
    rw [List.foldl_cons, if_pos rfl]
    exact joinLoop_aux sep l x (h x (by simp))

theorem intercalate_ne_nil (sep : Bytes) {l : List Bytes} (h0 : l ≠ []) (h : ∀ x ∈ l, x ≠ []) : sep.intercalate l ≠ [] := by
  cases l with
  | nil => exact absurd rfl h0
  | cons x l =>
    have := h x (by simp)
    cases l with
    | nil => simpa [List.intercalate] using this
    | cons y l => simp [List.intercalate, List.intersperse, this]

theorem intercalate_flatMap (sep : Bytes) {α : Type} (f : α → List Bytes) {l : List α} (h : ∀ x ∈ l, f x ≠ []) :
    sep.intercalate (l.map fun x => sep.intercalate (f x)) = sep.intercalate (l.flatMap f) := by
  induction l with
  | nil => rfl
  | cons x l ih =>
    have hx := h x (by simp)
    have ih := ih fun y hy => h y (by simp [hy])
    by_cases h0 : l = []
    · subst h0; simp
    · have hne : l.flatMap f ≠ [] := by
        intro hc
        obtain ⟨y, hy⟩ := List.exists_mem_of_ne_nil _ h0
        exact h y (by simp [hy]) (List.flatMap_eq_nil_iff.mp hc y hy)
      rw [List.flatMap_cons, intercalate_append sep hx hne, ← ih, List.map_cons,
        show (sep.intercalate (f x) :: l.map fun x => sep.intercalate (f x)) =
          [sep.intercalate (f x)] ++ l.map fun x => sep.intercalate (f x) from rfl,
        intercalate_append sep (by simp) (by simpa using h0), intercalate_single]

theorem perm_map_exists {α β : Type} (f : α → β) {l l' : List β} (h : l.Perm l') : ∀ L : List α, l' = L.map f →
    ∃ L' : List α, L'.Perm L ∧ l = L'.map f := by
  induction h with
  | nil => intro L hL; exact ⟨L, .refl _, hL⟩
  | cons x _ ih =>
    intro L hL
    cases L with
    | nil => simp at hL
    | cons y L =>
      simp only [List.map_cons, List.cons.injEq] at hL
      obtain ⟨L', h1, h2⟩ := ih L hL.2
      exact ⟨y :: L', h1.cons y, by simp [hL.1, h2]⟩
  | swap x y l =>
    intro L hL
    match L, hL with
    | a :: b :: L, hL =>
      simp only [List.map_cons, List.cons.injEq] at hL
      exact ⟨b :: a :: L, .swap _ _ _, by simp [hL.1, hL.2.1, hL.2.2]⟩
  | trans _ _ ih1 ih2 =>
    intro L hL
    obtain ⟨L1, h1, h2⟩ := ih2 L hL
    obtain ⟨L2, h3, h4⟩ := ih1 L1 h2
    exact ⟨L2, h3.trans h1, h4⟩

theorem textLe_total (a b : Bytes) : (textLe a b || textLe b a) = true := by
  unfold textLe
  by_cases h : a.length = b.length
  · have hs := bcmp_swap a b
    simp only [h, if_true, Bool.or_eq_true]
    cases hc : bcmp a b <;> cases hd : bcmp b a <;> simp_all
  · rw [if_neg h, if_neg (Ne.symm h)]
    simp only [Bool.or_eq_true, decide_eq_true_iff]; omega

theorem textLe_iff (a b : Bytes) : textLe a b = true ↔ a = b ∨ Spec.textLt a b := by
  unfold textLe Spec.textLt
  by_cases h : a.length = b.length
  · rw [if_pos h]
    have he := bcmp_eq_iff (a := a) (b := b)
    simp only [h, Nat.lt_irrefl, false_or, true_and, BLt]
    cases hc : bcmp a b <;> simp_all
  · rw [if_neg h]
    have : a ≠ b := fun hab => h (by rw [hab])
    simp only [decide_eq_true_iff, h, false_and, or_false, this, false_or]

theorem textLt_trans {a b c : Bytes} (h1 : Spec.textLt a b) (h2 : Spec.textLt b c) : Spec.textLt a c := by
  rcases h1 with h1 | ⟨h1, g1⟩ <;> rcases h2 with h2 | ⟨h2, g2⟩
  · left; omega
  · left; omega
  · left; omega
  · right; exact ⟨h1.trans h2, g1.trans g2⟩

theorem textLe_trans (a b c : Bytes) (h1 : textLe a b = true) (h2 : textLe b c = true) : textLe a c = true := by
  rw [textLe_iff] at *
  rcases h1 with rfl | h1
  · exact h2
  · rcases h2 with rfl | h2
    · exact .inr h1
    · exact .inr (textLt_trans h1 h2)

/-! ## The final value -/

/-- What the final value needs beyond `CallOk`: fewer than `2^64` rows; the sorter sorts; texts are not empty where the
code cannot tell "no separator yet" from "nothing yet"; texts are told apart by `compare`. -/
structure AnsOk (e : Env V D O) (le : O → O → Prop) (c : Call ρ V O) (R : List ρ) : Prop where
  few : R.length < 2 ^ 64
  sort : c.order ≠ none → (∀ b, (e.sort b).Perm b ∧ (e.sort b).Pairwise (fun x y => le x.1 y.1)) ∧ ∀ x, le x x
  texts : c.kind = .multiConcat ∨ c.order ≠ none → ∀ r ∈ R, Spec.text e c r ≠ some []
  str : c.kind = .multiConcat → (∀ t, e.toStr (e.ofStr t) = t) ∧ ∀ a b, e.cmp (e.ofStr a) (e.ofStr b) = 0 → a = b

theorem foldl_addInt (f : V → BitVec 64) (l : List V) : ∀ a, l.foldl (fun a v => a + f v) a = a + (l.map f).sum := by
  induction l with
  | nil => intro a; simp
  | cons v l ih => intro a; rw [List.foldl_cons, ih]; simp [BitVec.add_assoc]

theorem foldl_addDbl {e : Env V D O} (hl : Laws e) (l : List V) :
    ∀ a, l.foldl (fun a v => e.add a (e.toDbl v)) a = e.add a (Spec.total e (l.map e.toDbl)) := by
  induction l with
  | nil => intro a; simp [Spec.total, hl.add_zero]
  | cons v l ih =>
    intro a
    rw [List.foldl_cons, ih, hl.add_assoc]
    rfl

theorem answer_fin {e : Env V D O} (hl : Laws e) {le : O → O → Prop} {c : Call ρ V O} {T : V → Prop} (ok : CallOk e c T) {m : Bool}
    {s : St V D O} {R : List ρ} (h : Inv e c s R) (hm : ∀ v ∈ mems e c R, T v) (hok : AnsOk e le c R) (hR : R ≠ [])
    (hmulti : c.kind.isMulti = true → m = true ∧ mems e c R ≠ []) :
    Spec.Answer e le c R (finalize e c m s).fin := by
  obtain ⟨hub, h⟩ := h
  have set_fin : c.kind.isMulti = true →
      (s.slot = .null ∨ ∃ l t, s.slot = .str l ∧ unserialize e l = some t ∧ ∀ x ∈ t, ∃ y ∈ s.set, e.cmp y x = 0) →
      Spec.Distinct e.cmp s.set (mems e c R) →
      (finalize e c m s).fin = (match c.kind with
        | .multiCount => .int (BitVec.ofNat 64 s.set.length)
        | .multiSum => .int (s.set.foldl (fun a v => a + e.toInt v) 0)
        | .multiSumDbl => if s.set = [] then .int 0 else .dbl (s.set.foldl (fun a v => e.add a (e.toDbl v)) e.zero)
        | _ => .str (joinLoop c.sep (if c.asc then (s.set.map e.toStr).mergeSort textLe else ((s.set.map e.toStr).mergeSort textLe).reverse))) := by
    intro hk h2 h1
    obtain ⟨l, hl, hs⟩ := set_rep (D := D) ok hk h1 hm
    have hmt := (hmulti hk).1
    unfold finalize
    cases hck : c.kind <;> simp only [hck, Kind.isMulti] at hk <;> try cases hk
    all_goals simp only [Kind.isBitmap, Kind.isMulti, Bool.false_eq_true, if_false, if_true, hmt, mergeSet_noop h2, hl]
  have set_ne : c.kind.isMulti = true → Spec.Distinct e.cmp s.set (mems e c R) → s.set ≠ [] := by
    intro hk h1 h0
    obtain ⟨v, hv⟩ := List.exists_mem_of_ne_nil _ (hmulti hk).2
    obtain ⟨x, hx, _⟩ := h1.2.2 v hv
    rw [h0] at hx
    cases hx
  unfold Spec.Answer
  cases hk : c.kind <;> simp only [hk] at h ⊢
  case countStar => simpa [finalize, hk, Kind.isBitmap, Kind.isMulti] using h
  case count => simpa [finalize, hk, Kind.isBitmap, Kind.isMulti] using h
  case sum =>
    rcases h with ⟨h1, h2⟩ | ⟨h1, h2⟩
    · rw [if_pos h1]; simpa [finalize, hk, Kind.isBitmap, Kind.isMulti] using h2
    · rw [if_neg h1]; simpa [finalize, hk, Kind.isBitmap, Kind.isMulti] using h2
  case sumDbl =>
    rcases h with ⟨h1, h2⟩ | ⟨h1, h2⟩
    · rw [if_pos h1]; simpa [finalize, hk, Kind.isBitmap, Kind.isMulti] using h2
    · rw [if_neg h1]; simpa [finalize, hk, Kind.isBitmap, Kind.isMulti] using h2
  case avg =>
    unfold AvgIs at h
    have hlen : (vals c R).length < 2 ^ 64 := lt_of_le_of_lt (List.length_filterMap_le _ _) hok.few
    by_cases h0 : vals c R = []
    · rw [if_pos h0]
      simp [finalize, hk, Kind.isBitmap, Kind.isMulti, h, h0]
    · rw [if_neg h0]
      have : BitVec.ofNat 64 (vals c R).length ≠ 0 := by
        intro hc
        have := congrArg BitVec.toNat hc
        simp only [BitVec.toNat_ofNat] at this
        rw [Nat.mod_eq_of_lt hlen] at this
        exact h0 (List.eq_nil_of_length_eq_zero this)
      simp only [finalize, hk, Kind.isBitmap, Kind.isMulti, h, Bool.false_eq_true, if_false, this]
  case min =>
    have hf : (finalize e c m s).fin = s.slot := by simp [finalize, hk, Kind.isBitmap, Kind.isMulti]
    rw [hf]
    rcases h with ⟨h1, h2⟩ | ⟨v, h1, h2, h3⟩
    · rw [if_pos h1]; exact h2
    · rw [if_neg (List.ne_nil_of_mem h2)]; exact ⟨v, h2, h1, by simpa using h3⟩
  case max =>
    have hf : (finalize e c m s).fin = s.slot := by simp [finalize, hk, Kind.isBitmap, Kind.isMulti]
    rw [hf]
    rcases h with ⟨h1, h2⟩ | ⟨v, h1, h2, h3⟩
    · rw [if_pos h1]; exact h2
    · rw [if_neg (List.ne_nil_of_mem h2)]; exact ⟨v, h2, h1, by simpa using h3⟩
  case rbOr =>
    rw [if_neg hR]
    exact ⟨s.side, by simp [finalize, hk, Kind.isBitmap, h.1], fun i => by rw [h.2]; exact testBit_orAll _ i⟩
  case rbAnd =>
    rcases h with ⟨h1, h2⟩ | ⟨h1, h2, h3⟩
    · rw [if_pos h1]; simp [finalize, hk, Kind.isBitmap, h2]
    · rw [if_neg h1]
      exact ⟨s.side, by simp [finalize, hk, Kind.isBitmap, h2], fun i => by rw [h3]; exact testBit_andAll h1 i⟩
  case rbXor =>
    rw [if_neg hR]
    exact ⟨s.side, by simp [finalize, hk, Kind.isBitmap, h.1], fun i => by rw [h.2]; exact testBit_xorAll _ i⟩
  case rbBuild =>
    rw [if_neg hR]
    refine ⟨s.side, by simp [finalize, hk, Kind.isBitmap, h.1], fun i => ?_⟩
    rw [h.2, testBit_orAll]
    simp only [List.mem_map, exists_exists_and_eq_and, Nat.one_shiftLeft, Nat.testBit_two_pow, decide_eq_true_iff]
  case concat =>
    cases hord : c.order with
    | none =>
      simp only [hord] at h
      have hf : (finalize e c m s).fin = s.slot := by simp [finalize, hk, hord, Kind.isBitmap, Kind.isMulti]
      rw [hf]
      rcases h with ⟨h1, h2⟩ | ⟨h1, h2⟩
      · rw [if_pos h1]; exact h2
      · rw [if_neg h1]; exact ⟨R, .refl _, h2, by simp⟩
    | some o =>
      simp only [hord] at h
      obtain ⟨L, rest, h1, h2, h3, h4⟩ := h
      have htx : ∀ r ∈ R, Spec.text e c r ≠ some [] := hok.texts (.inr (by simp [hord]))
      obtain ⟨hs, hrefl⟩ := hok.sort (by simp [hord])
      by_cases h0 : texts e c R = []
      · rw [if_pos h0]
        have hLnil : L = [] := by
          cases L with
          | nil => rfl
          | cons x L =>
            exfalso
            apply (h2 x (by simp)).1
            have hsub : ∀ r ∈ x.2, r ∈ R := fun r hr => h4.subset (by simp [hr])
            refine List.filterMap_eq_nil_iff.mpr fun r hr => List.filterMap_eq_nil_iff.mp h0 r (hsub r hr)
        simp [finalize, hk, hord, h1, hLnil]
      · rw [if_neg h0]
        have hbne : s.batch ≠ [] := by
          intro hb
          rw [hb] at h1
          have hL : L = [] := by simpa using h1.symm
          subst hL
          apply h0
          have := (h4.filterMap (Spec.text e c))
          simp only [List.flatMap_nil, List.nil_append] at this
          rw [show List.filterMap (Spec.text e c) rest = [] from h3] at this
          exact List.nil_perm.mp this
        obtain ⟨L', hp, he⟩ := perm_map_exists _ (hs s.batch).1 L h1
        have hL' : ∀ x ∈ L', texts e c x.2 ≠ [] ∧ ∀ r ∈ x.2, o r = x.1 := fun x hx => h2 x (hp.subset hx)
        have hmem : ∀ x ∈ L', ∀ r ∈ x.2, r ∈ R := fun x hx r hr =>
          h4.subset (List.mem_append_left _ (List.mem_flatMap.mpr ⟨x, hp.subset hx, hr⟩))
        refine ⟨L'.flatMap (·.2) ++ rest, ((hp.flatMap_right _).append_right _).trans h4, ?_, ?_⟩
        · simp only [finalize, hk, hord, hbne, if_false]
          rw [he, List.map_map]
          have hcomp : ((fun x : O × Bytes => x.2) ∘ fun x : O × List ρ => (x.1, c.sep.intercalate (texts e c x.2))) =
              fun x => c.sep.intercalate (texts e c x.2) := rfl
          rw [hcomp, joinLoop_eq, intercalate_flatMap c.sep (fun x : O × List ρ => texts e c x.2) (fun x hx => (hL' x hx).1)]
          · congr 2
            rw [List.filterMap_append, show List.filterMap (Spec.text e c) rest = [] from h3, List.append_nil]
            simp [texts, List.filterMap_flatMap]
          · intro t ht
            obtain ⟨x, hx, rfl⟩ := List.mem_map.mp ht
            refine intercalate_ne_nil _ (hL' x hx).1 fun u hu => ?_
            obtain ⟨r, hr, hru⟩ := List.mem_filterMap.mp hu
            intro hu0
            rw [hu0] at hru
            exact htx r (hmem x hx r hr) hru
        · intro o' ho'
          cases ho'
          have hsorted := (hs s.batch).2
          rw [he, List.pairwise_map] at hsorted
          rw [List.filter_append]
          have hrest : rest.filter (fun r => (Spec.text e c r).isSome) = [] := by
            rw [List.filter_eq_nil_iff]
            intro r hr
            have := List.filterMap_eq_nil_iff.mp h3 r hr
            simp [this]
          rw [hrest, List.append_nil]
          refine List.Pairwise.sublist List.filter_sublist ?_
          rw [List.pairwise_flatMap]
          refine ⟨fun x hx => ?_, ?_⟩
          · refine List.pairwise_of_forall_mem_list fun a ha b hb => ?_
            rw [(hL' x hx).2 a ha, (hL' x hx).2 b hb]
            exact hrefl _
          · refine hsorted.imp_of_mem fun {x y} hx hy hxy a ha b hb => ?_
            rw [(hL' x hx).2 a ha, (hL' y hy).2 b hb]
            exact hxy
  case multiCount =>
    have hkm : c.kind.isMulti = true := by simp [hk, Kind.isMulti]
    exact ⟨s.set, h.1, by rw [set_fin hkm h.2 h.1, hk]⟩
  case multiSum =>
    have hkm : c.kind.isMulti = true := by simp [hk, Kind.isMulti]
    rw [if_neg (hmulti hkm).2]
    refine ⟨s.set, h.1, ?_⟩
    rw [set_fin hkm h.2 h.1, hk]
    simp only
    rw [foldl_addInt]
    simp
  case multiSumDbl =>
    have hkm : c.kind.isMulti = true := by simp [hk, Kind.isMulti]
    rw [if_neg (hmulti hkm).2]
    refine ⟨s.set, h.1, ?_⟩
    rw [set_fin hkm h.2 h.1, hk]
    simp only
    rw [if_neg (set_ne hkm h.1), foldl_addDbl hl, hl.add_comm, hl.add_zero]
  case multiConcat =>
    have hkm : c.kind.isMulti = true := by simp [hk, Kind.isMulti]
    rw [if_neg (hmulti hkm).2]
    obtain ⟨hd, h2⟩ := h
    have hmem : ∀ v ∈ mems e c R, ∃ t ∈ texts e c R, v = e.ofStr t := by
      intro v hv
      obtain ⟨r, hr, hrv⟩ := List.mem_filterMap.mp hv
      simp only [Spec.member, hk, if_true, Option.map_eq_some_iff] at hrv
      obtain ⟨t, ht, rfl⟩ := hrv
      exact ⟨t, List.mem_filterMap.mpr ⟨r, hr, ht⟩, rfl⟩
    have hmem' : ∀ t ∈ texts e c R, e.ofStr t ∈ mems e c R := by
      intro t ht
      obtain ⟨r, hr, hrt⟩ := List.mem_filterMap.mp ht
      exact List.mem_filterMap.mpr ⟨r, hr, by simp [Spec.member, hk, hrt]⟩
    obtain ⟨hs1, hs2⟩ := hok.str hk
    have hin : ∀ t, t ∈ s.set.map e.toStr ↔ t ∈ texts e c R := by
      intro t
      constructor
      · intro ht
        obtain ⟨v, hv, rfl⟩ := List.mem_map.mp ht
        obtain ⟨u, hu, rfl⟩ := hmem v (hd.1 v hv)
        rw [hs1]; exact hu
      · intro ht
        obtain ⟨v, hv, hvt⟩ := hd.2.2 _ (hmem' t ht)
        obtain ⟨u, hu, rfl⟩ := hmem v (hd.1 v hv)
        have := hs2 _ _ hvt
        subst this
        exact List.mem_map.mpr ⟨_, hv, hs1 _⟩
    have hnd : (s.set.map e.toStr).Pairwise (· ≠ ·) := by
      rw [List.pairwise_map]
      refine hd.2.1.imp_of_mem fun {a b} ha hb hab => ?_
      obtain ⟨u, _, rfl⟩ := hmem a (hd.1 a ha)
      obtain ⟨w, _, rfl⟩ := hmem b (hd.1 b hb)
      rw [hs1, hs1]
      intro huw
      subst huw
      exact hab (ok.order.refl (hm _ (hd.1 _ ha)))
    have hsort : ((s.set.map e.toStr).mergeSort textLe).Pairwise Spec.textLt := by
      have p1 := List.pairwise_mergeSort textLe_trans textLe_total (s.set.map e.toStr)
      have p2 : ((s.set.map e.toStr).mergeSort textLe).Pairwise (· ≠ ·) :=
        (List.mergeSort_perm _ _).pairwise_iff (fun {a b} h => Ne.symm h) |>.mpr hnd
      exact (p1.and p2).imp fun {a b} ⟨h1, h2⟩ => ((textLe_iff a b).mp h1).resolve_left h2
    refine ⟨if c.asc then (s.set.map e.toStr).mergeSort textLe else ((s.set.map e.toStr).mergeSort textLe).reverse, ?_, ?_, ?_⟩
    · intro t
      rw [← hin t]
      cases c.asc <;> simp [List.mem_mergeSort]
    · cases c.asc
      · simp only [Bool.false_eq_true, if_false]
        rw [List.pairwise_reverse]
        exact hsort
      · simpa using hsort
    · rw [set_fin hkm h2 hd, hk]
      simp only
      rw [joinLoop_eq]
      intro x hx
      have : x ∈ s.set.map e.toStr := by
        revert hx
        cases c.asc <;> simp [List.mem_mergeSort]
      obtain ⟨r, hr, hrx⟩ := List.mem_filterMap.mp ((hin x).mp this)
      intro h0
      exact hok.texts (.inl hk) r hr (by rw [hrx, h0])

end BaikalDB.Agg
