import Verif.IndexKey.Props
/-! # C43: keys of LIKE 'prefix%' -/
namespace BaikalDB.IndexKey
open KeyEnc KeyEnc.Spec Spec

/-- The loop with the prefix flag: the columns before the last are written as usual, the last string bare. -/
theorem encodeKeyLoop_like {ty : IndexType} (hty : ty = .primary ∨ ty = .key ∨ ty = .uniq) {b : Row}
    (pre : List FieldInfo) (f : FieldInfo) (idx : Nat) (key p : Bytes) (nf : BitVec 8)
    (hok : ∀ g ∈ pre, ColOK b g) (hp : ∀ g ∈ pre, (b g.id).isSome) (hf : f.type = .string) (hv : b f.id = some (.str p)) :
    encodeKeyLoop ty b true (idx + pre.length + 1) idx (pre ++ [f]) key nf =
      .ok (key ++ pre.flatMap (colBytes b) ++ p, nf) := by
  induction pre generalizing idx key with
  | nil =>
    rcases hty with rfl | rfl | rfl <;> simp [encodeKeyLoop, hv, hf, encodeField, appendStringPrefix]
  | cons g gs ih =>
    obtain ⟨v, hv'⟩ := Option.isSome_iff_exists.1 (hp g (by simp))
    have hlast : (idx == idx + (gs.length + 1) + 1 - 1) = false := by simp
    have e := encodeField_colBytes (hok g (by simp)) (stored_of_some hv') key
    have ih' := ih (idx + 1) (key ++ colBytes b g) (fun g hg => hok g (by simp [hg])) (fun g hg => hp g (by simp [hg]))
    rw [show idx + 1 + gs.length + 1 = idx + (gs.length + 1) + 1 by omega] at ih'
    rcases hty with rfl | rfl | rfl <;>
      simp only [List.cons_append, encodeKeyLoop, List.length_cons, hlast, hv', Bool.and_false, e, reduceCtorEq, or_false,
        or_true, if_true, if_false, or_self, ih', List.flatMap_cons, List.append_assoc]

theorem nullMask_present {row : Row} (fs : List FieldInfo) (idx : Nat) (nf : BitVec 8)
    (hp : ∀ f ∈ fs, (row f.id).isSome) : nullMask row idx fs nf = nf := by
  induction fs generalizing idx nf with
  | nil => rfl
  | cons f fs ih =>
    have h : isNullCol row f = false := by
      have := hp f (by simp)
      cases hr : row f.id <;> simp [hr] at this
      simp [isNullCol, hr]
    simp only [nullMask, h]
    exact ih _ _ (fun g hg => hp g (by simp [hg]))

theorem prefix_nul {p s r : Bytes} (hp : 0#8 ∉ p) : p <+: s ++ 0#8 :: r ↔ p <+: s := by
  constructor
  · intro h
    have h2 : s ++ [0#8] <+: s ++ 0#8 :: r := ⟨r, by simp⟩
    rcases List.prefix_or_prefix_of_prefix h h2 with h | h
    · rcases List.prefix_concat_iff.1 h with h | h
      · exact absurd (by rw [h]; simp) hp
      · exact h
    · exact absurd (h.subset (by simp)) hp
  · intro h; exact h.trans (List.prefix_append _ _)

/-- One column: if the bytes of two values lead the same key, the values are equal. -/
theorem colBytes_lead {b row : Row} {x : FieldInfo} (h1 : ColOK b x) (h2 : ColOK row x) (s1 : (b x.id).isSome)
    (s2 : (row x.id).isSome) {A B : Bytes} (h : colBytes b x ++ A = colBytes row x ++ B) : row x.id = b x.id := by
  obtain ⟨v, hv⟩ := Option.isSome_iff_exists.1 s1
  obtain ⟨w, hw⟩ := Option.isSome_iff_exists.1 s2
  have e1 := encodeField_colBytes h1 (stored_of_some hv) []
  have e2 := encodeField_colBytes h2 (stored_of_some hw) []
  have d1 := decodeField_encodeField (h1.2 v hv).1 (h1.2 v hv).2 e1 A
  have d2 := decodeField_encodeField (h2.2 w hw).1 (h2.2 w hw).2 e2 B
  rw [List.nil_append, h] at d1
  rw [List.nil_append] at d2
  rw [d1] at d2
  injection d2 with d2
  rw [hv, hw, d2]

theorem flatMap_lead {b row : Row} (pre : List FieldInfo) (hb : ∀ x ∈ pre, ColOK b x ∧ (b x.id).isSome)
    (hr : ∀ x ∈ pre, ColOK row x ∧ (row x.id).isSome) {A B : Bytes}
    (h : pre.flatMap (colBytes b) ++ A = pre.flatMap (colBytes row) ++ B) : ∀ x ∈ pre, row x.id = b x.id := by
  induction pre with
  | nil => simp
  | cons x xs ih =>
    simp only [List.flatMap_cons, List.append_assoc] at h
    have hx := colBytes_lead (hb x (by simp)).1 (hr x (by simp)).1 (hb x (by simp)).2 (hr x (by simp)).2 h
    have hc : colBytes row x = colBytes b x := by simp [colBytes, stored, hx]
    rw [hc, List.append_cancel_left_eq] at h
    intro y hy
    rcases List.mem_cons.1 hy with rfl | hy
    · exact hx
    · exact ih (fun z hz => hb z (by simp [hz])) (fun z hz => hr z (by simp [hz])) h y hy

/-- **C43.** The key built for `c1 = .. AND .. AND cn LIKE 'p%'` is a byte prefix of the keys of exactly those rows
that agree on the earlier columns and whose column `cn` starts with `p`. -/
theorem C43_like_prefix_key {ty : IndexType} (hty : ty = .primary ∨ ty = .key ∨ ty = .uniq) (g : Bool)
    {pre post pk : List FieldInfo} {f : FieldInfo} {b row : Row} {p s : Bytes}
    (h8 : (∃ x ∈ pre ++ f :: post, x.canNull = true) → (pre ++ f :: post).length ≤ 8)
    (hf : f.type = .string) (hb : ∀ x ∈ pre, ColOK b x ∧ (b x.id).isSome) (hbf : b f.id = some (.str p)) (hp : 0#8 ∉ p)
    (hrow : ∀ x ∈ pre ++ f :: post, ColOK row x ∧ (row x.id).isSome) (hrf : row f.id = some (.str s)) :
    ∃ K q k full, encodeKey (buildIndex ty g (pre ++ f :: post) pk) b [] (some (pre.length + 1)) true = .ok (K, q) ∧
      encodeKey (buildIndex ty g (pre ++ f :: post) pk) row [] none false = .ok (k, full) ∧ (K <+: k ↔ (∀ x ∈ pre, row x.id = b x.id) ∧ p <+: s) := by
  have hloop := fun key => encodeKeyLoop_like hty pre f 0 key p 0#8 (fun x hx => (hb x hx).1) (fun x hx => (hb x hx).2) hf hbf
  have h4 : ¬ (pre.length + 1 > (pre ++ f :: post).length ∨
      (pre ++ f :: post).any (·.canNull) = true ∧ pre.length + 1 > 8) := by
    rintro (h | ⟨h, h'⟩)
    · simp at h
    · rw [List.any_eq_true] at h
      have := h8 h; simp at this; omega
  have htake : (pre ++ f :: post).take (pre.length + 1) = pre ++ [f] := by
    simp [List.take_append, List.take_of_length_le (Nat.le_succ pre.length)]
  have hcb : (∀ x ∈ pre, row x.id = b x.id) → pre.flatMap (colBytes row) = pre.flatMap (colBytes b) := by
    intro heq
    rw [List.flatMap_def, List.flatMap_def]
    congr 1
    exact List.map_congr_left fun x hx => by simp [colBytes, stored, heq x hx]
  have hcf : colBytes row f = s ++ [0#8] := by simp [colBytes, stored, hrf, hf, encodeField, appendString]
  have hpre : ∀ F : Bytes, F ++ (pre.flatMap (colBytes b) ++ p) <+: F ++ (pre ++ f :: post).flatMap (colBytes row) ↔
      (∀ x ∈ pre, row x.id = b x.id) ∧ p <+: s := by
    intro F
    rw [List.flatMap_append, List.flatMap_cons, hcf, List.prefix_append_right_inj]
    constructor
    · intro h
      have heq : ∀ x ∈ pre, row x.id = b x.id := by
        obtain ⟨t, ht⟩ := h
        rw [List.append_assoc] at ht
        exact flatMap_lead pre hb (fun x hx => hrow x (by simp [hx])) ht
      rw [hcb heq, List.prefix_append_right_inj, List.append_assoc] at h
      exact ⟨heq, (prefix_nul hp).1 h⟩
    · rintro ⟨heq, h⟩
      rw [hcb heq, List.prefix_append_right_inj, List.append_assoc]
      exact (prefix_nul hp).2 h
  rw [Nat.zero_add] at hloop
  by_cases hprim : ty = .primary
  · subst hprim
    have h1 : ∃ q, encodeKey (buildIndex .primary g (pre ++ f :: post) pk) b [] (some (pre.length + 1)) true =
        .ok ([] ++ (pre.flatMap (colBytes b) ++ p), q) := by
      unfold encodeKey
      simp only [buildIndex_type, buildIndex_fields, Option.getD_some, buildIndex_hasNullable]
      rw [if_neg (by simp), if_neg h4, htake]
      simp only [reduceCtorEq, or_self, if_false, hloop]
      simp
    obtain ⟨q, h1⟩ := h1
    exact ⟨_, q, _, _, h1, encodeKey_primary (fun x hx => (hrow x hx).1) (fun x hx => (hrow x hx).2) h8 [], hpre []⟩
  · have hty' : ty = .key ∨ ty = .uniq := by rcases hty with h | h | h <;> simp [h] at hprim ⊢
    have hm : nullMask row 0 (pre ++ f :: post) 0#8 = 0#8 := nullMask_present _ _ _ (fun x hx => (hrow x hx).2)
    have e2 := encodeKey_secondary hty' g (pk := pk) (fun x hx => (hrow x hx).1) h8 []
    rw [hm] at e2
    have h1 : ∃ q, encodeKey (buildIndex ty g (pre ++ f :: post) pk) b [] (some (pre.length + 1)) true =
        .ok ([0#8] ++ (pre.flatMap (colBytes b) ++ p), q) := by
      unfold encodeKey
      simp only [buildIndex_type, buildIndex_fields, Option.getD_some, buildIndex_hasNullable]
      have h3 : ty = .key ∨ ty = .uniq ∨ ty = .rollup := by rcases hty' with h | h <;> simp [h]
      rw [if_neg (by rcases hty' with h | h <;> simp [h]), if_neg h4, htake]
      simp only [if_pos h3, hloop, if_pos hty', List.length_nil]
      rcases hty' with h | h <;> subst h <;>
        simp [replaceU8, replaceAt, appendU8, memLE]
    obtain ⟨q, h1⟩ := h1
    exact ⟨_, q, _, _, h1, e2, hpre [0#8]⟩

/-- Index (int, string, int); search `c1 = 5 AND c2 LIKE 'AB%'`; the row (5, 'ABC', 9) matches, (5, 'A', 9) does not. -/
private def exPre : List FieldInfo := [⟨1, .int32, false⟩]
private def exF : FieldInfo := ⟨2, .string, true⟩
private def exPost : List FieldInfo := [⟨3, .int32, false⟩]
private def exRow (s : Bytes) : Row :=
  fun i => if i = 2 then some (.str s) else if i = 1 then some (.i32 5#32) else if i = 3 then some (.i32 9#32) else none
example (s : Bytes) (hs : 0#8 ∉ s) : (∀ x ∈ exPre ++ exF :: exPost, ColOK (exRow s) x ∧ (exRow s x.id).isSome) ∧
    exF.type = .string ∧ exRow s exF.id = some (.str s) ∧ (∀ x ∈ exPre, exRow s x.id = exRow [0x41#8, 0x42#8] x.id) ∧
    (exPre ++ exF :: exPost).length ≤ 8 := by
  refine ⟨?_, rfl, rfl, ?_, by decide⟩
  · intro f hf
    simp only [exPre, exF, exPost, List.cons_append, List.nil_append, List.mem_cons, List.not_mem_nil, or_false] at hf
    rcases hf with rfl | rfl | rfl <;> refine ⟨⟨by simp, fun v hv => ?_⟩, by simp [exRow]⟩ <;>
      simp [exRow] at hv <;> subst hv <;> simp [Valid, NotNegZero, hs]
  · intro x hx; simp only [exPre, List.mem_cons, List.not_mem_nil, or_false] at hx; subst hx; rfl

end BaikalDB.IndexKey
