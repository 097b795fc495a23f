import Verif.Hll.Lemmas

/-! The bytes of opcodes: they read back as the opcodes, and there are never more than the limit. -/

namespace BaikalDB.Hll

/-! ### Reading the bytes back -/

theorem and_c0_zero (k : Nat) (h : k < 64) : k &&& 0xc0 = 0 ∧ k &&& 0x3f = k := by
  have : ∀ k : Fin 64, k.val &&& 0xc0 = 0 ∧ k.val &&& 0x3f = k.val := by decide +kernel
  exact this ⟨k, h⟩

theorem or_40 (k : Nat) (h : k < 64) :
    (k ||| 0x40) &&& 0xc0 = 0x40 ∧ (k ||| 0x40) &&& 0x3f = k ∧ k ||| 0x40 < 256 := by
  have : ∀ k : Fin 64, (k.val ||| 0x40) &&& 0xc0 = 0x40 ∧ (k.val ||| 0x40) &&& 0x3f = k.val ∧
      k.val ||| 0x40 < 256 := by decide +kernel
  exact this ⟨k, h⟩

theorem val_byte (v l : Nat) (hv : v < 32) (hl : l < 4) :
    ((v <<< 2 ||| l) ||| 0x80) &&& 0xc0 ≠ 0 ∧ ((v <<< 2 ||| l) ||| 0x80) &&& 0xc0 ≠ 0x40 ∧
      (((v <<< 2 ||| l) ||| 0x80) >>> 2) &&& 0x1f = v ∧ ((v <<< 2 ||| l) ||| 0x80) &&& 0x3 = l ∧
      (v <<< 2 ||| l) ||| 0x80 < 256 := by
  have : ∀ (v : Fin 32) (l : Fin 4),
      ((v.val <<< 2 ||| l.val) ||| 0x80) &&& 0xc0 ≠ 0 ∧ ((v.val <<< 2 ||| l.val) ||| 0x80) &&& 0xc0 ≠ 0x40 ∧
      (((v.val <<< 2 ||| l.val) ||| 0x80) >>> 2) &&& 0x1f = v.val ∧
      ((v.val <<< 2 ||| l.val) ||| 0x80) &&& 0x3 = l.val ∧
      (v.val <<< 2 ||| l.val) ||| 0x80 < 256 := by decide +kernel
  exact this ⟨v, hv⟩ ⟨l, hl⟩

theorem hi_lo (m : Nat) : ((m >>> 8) <<< 8) ||| (m &&& 0xff) = m := by
  apply Nat.eq_of_testBit_eq
  intro k
  rw [Nat.testBit_or, Nat.testBit_shiftLeft, Nat.testBit_shiftRight, Nat.testBit_and, t255]
  by_cases h : 8 ≤ k
  · have : 8 + (k - 8) = k := by omega
    have h2 : ¬ k < 8 := by omega
    simp [h, this, h2]
  · have h2 : k < 8 := by omega
    simp [h, h2]

theorem decodeOne_encode {o : Opc} (h : OpcOk o) (r : List Nat) :
    decodeOne (o.encode ++ r) = some (o, r) := by
  cases o with
  | zero l =>
    simp only [OpcOk] at h
    obtain ⟨a, b⟩ := and_c0_zero (l - 1) (by omega)
    simp only [Opc.encode, List.cons_append, List.nil_append, decodeOne]
    rw [if_pos a, b]
    congr 3
    omega
  | xzero l =>
    simp only [OpcOk] at h
    have hk : (l - 1) >>> 8 < 64 := by rw [Nat.shiftRight_eq_div_pow]; omega
    obtain ⟨a, b, _⟩ := or_40 _ hk
    simp only [Opc.encode, List.cons_append, List.nil_append, decodeOne]
    rw [if_neg (by rw [a]; omega), if_pos a, b, hi_lo]
    congr 3
    omega
  | val v l =>
    simp only [OpcOk] at h
    obtain ⟨a, b, c, d, _⟩ := val_byte (v - 1) (l - 1) (by omega) (by omega)
    simp only [Opc.encode, List.cons_append, List.nil_append, decodeOne]
    rw [if_neg a, if_neg b, c, d]
    have e1 : v - 1 + 1 = v := by omega
    have e2 : l - 1 + 1 = l := by omega
    rw [e1, e2]

theorem encode_bytes {o : Opc} (h : OpcOk o) : (∀ x ∈ o.encode, x < 256) ∧ o.encode.length = o.bytes := by
  cases o with
  | zero l =>
    simp only [OpcOk] at h
    refine ⟨fun x hx => ?_, rfl⟩
    simp only [Opc.encode, List.mem_singleton] at hx
    omega
  | xzero l =>
    simp only [OpcOk] at h
    have hk : (l - 1) >>> 8 < 64 := by rw [Nat.shiftRight_eq_div_pow]; omega
    refine ⟨fun x hx => ?_, rfl⟩
    simp only [Opc.encode, List.mem_cons, List.not_mem_nil, or_false] at hx
    rcases hx with rfl | rfl
    · exact (or_40 _ hk).2.2
    · exact Nat.lt_of_le_of_lt Nat.and_le_right (by omega)
  | val v l =>
    simp only [OpcOk] at h
    refine ⟨fun x hx => ?_, rfl⟩
    simp only [Opc.encode, List.mem_singleton] at hx
    rw [hx]
    exact (val_byte (v - 1) (l - 1) (by omega) (by omega)).2.2.2.2

theorem decodeAll_encode (l : List Opc) (h : ∀ o ∈ l, OpcOk o) (fuel : Nat) (hf : l.length ≤ fuel) :
    decodeAll fuel (l.flatMap Opc.encode) = l := by
  induction l generalizing fuel with
  | nil => cases fuel <;> rfl
  | cons o rest ih =>
    cases fuel with
    | zero => simp at hf
    | succ fuel =>
      rw [List.flatMap_cons, decodeAll, decodeOne_encode (h o (by simp))]
      dsimp only
      rw [ih (fun x hx => h x (by simp [hx])) fuel (by simpa using hf)]

theorem size_bytes (l : List Opc) (h : ∀ o ∈ l, OpcOk o) : (l.flatMap Opc.encode).length = size l := by
  induction l with
  | nil => rfl
  | cons o rest ih =>
    rw [List.flatMap_cons, List.length_append, ih (fun x hx => h x (by simp [hx])),
      (encode_bytes (h o (by simp))).2]
    simp [size]

theorem size_append (a b : List Opc) : size (a ++ b) = size a + size b := by simp [size]

theorem size_cons (o : Opc) (l : List Opc) : size (o :: l) = o.bytes + size l := by simp [size]

theorem length_le_size (l : List Opc) : l.length ≤ size l := by
  induction l with
  | nil => simp
  | cons o rest ih =>
    have : 1 ≤ o.bytes := by cases o <;> simp [Opc.bytes]
    rw [size_cons, List.length_cons]
    omega

/-! ### The limit -/

theorem mergeVals_size (n : Nat) (l : List Opc) : size (mergeVals n l) ≤ size l := by
  induction n, l using mergeVals.induct with
  | case1 l => simp [mergeVals]
  | case2 => simp [mergeVals]
  | case3 n v1 l1 v2 l2 rest h ih =>
    rw [mergeVals.eq_def]
    dsimp only
    rw [if_pos h]
    simp only [size_cons, Opc.bytes] at ih ⊢
    omega
  | case4 n v1 l1 v2 l2 rest h ih =>
    rw [mergeVals.eq_def]
    dsimp only
    rw [if_neg h]
    simp only [size_cons, Opc.bytes] at ih ⊢
    omega
  | case5 n o rest hne ih =>
    have e : mergeVals (n + 1) (o :: rest) = o :: mergeVals n rest := by
      rw [mergeVals]
      exact hne
    rw [e, size_cons, size_cons]
    omega

/-- A sparse sketch is within the limit. -/
def Small (c : Cfg) (b : Body) : Prop := ∀ l, b = .sparse l → hdrSize + size l ≤ c.maxBytes

theorem promote_small {c : Cfg} {h h' : Sketch} {i count : Nat} (hp : promote c h i count = some h') :
    Small c h'.body := by
  unfold promote at hp
  split at hp
  · split at hp
    · cases hp
      intro l hl
      cases hl
    · cases hp
  · cases hp

theorem sparseSet_small {c : Cfg} {h h' : Sketch} {l : List Opc} (hb : h.body = .sparse l)
    (hs : Small c h.body) (hn : (expand l).length = c.n) {i count : Nat} (hi : i < c.n)
    (he : sparseSet c h l i count = some h') : Small c h'.body := by
  have hl := hs l hb
  unfold sparseSet at he
  by_cases h32 : count > 32
  · rw [if_pos h32] at he
    exact promote_small he
  · rw [if_neg h32] at he
    obtain ⟨f, e1, e2, _⟩ := locate_facts [] none l 0 i (by simp) (by omega) (by omega)
    simp only [List.reverse_nil, List.nil_append, Option.toList_none] at e2
    rw [e1] at he
    dsimp only at he
    have hsz : size l = size (f.front.reverse ++ f.prev.toList) + f.here.bytes + size f.rest := by
      rw [← e2, size_append, size_cons]
      omega
    have tail : ∀ new : List Opc,
        hdrSize + size (f.front.reverse ++ f.prev.toList) + size new + size f.rest ≤ c.maxBytes →
        Small c (match f.prev with
            | some q => (⟨.sparse (f.front.reverse ++ mergeVals 5 (q :: (new ++ f.rest))), none⟩ : Sketch)
            | none => ⟨.sparse (mergeVals 5 (new ++ f.rest)), none⟩).body := by
      intro new hnew l' hl'
      cases hp : f.prev with
      | some q =>
        rw [hp] at hl' hnew
        injection hl' with hl'
        rw [← hl', size_append]
        have := mergeVals_size 5 (q :: (new ++ f.rest))
        rw [size_cons, size_append] at this
        simp only [Option.toList_some, size_append, size_cons] at hnew
        simp only [size, List.map_nil, List.sum_nil] at hnew this ⊢
        omega
      | none =>
        rw [hp] at hl' hnew
        injection hl' with hl'
        rw [← hl']
        have := mergeVals_size 5 (new ++ f.rest)
        rw [size_append] at this
        rw [size_append] at hnew
        omega
    have general : (if size (splitOpc f.here f.first i count) > f.here.bytes ∧
            hdrSize + size l + (size (splitOpc f.here f.first i count) - f.here.bytes) > c.maxBytes then
          promote c h i count
        else some (match f.prev with
            | some q => (⟨.sparse (f.front.reverse ++ mergeVals 5
                (q :: (splitOpc f.here f.first i count ++ f.rest))), none⟩ : Sketch)
            | none => ⟨.sparse (mergeVals 5 (splitOpc f.here f.first i count ++ f.rest)), none⟩)) =
          some h' → Small c h'.body := by
      intro hg
      by_cases hc : size (splitOpc f.here f.first i count) > f.here.bytes ∧
            hdrSize + size l + (size (splitOpc f.here f.first i count) - f.here.bytes) > c.maxBytes
      · rw [if_pos hc] at hg
        exact promote_small hg
      · rw [if_neg hc] at hg
        injection hg with hg
        rw [← hg]
        exact tail _ (by omega)
    have one : some (match f.prev with
            | some q => (⟨.sparse (f.front.reverse ++ mergeVals 5 (q :: ([.val count 1] ++ f.rest))),
                none⟩ : Sketch)
            | none => ⟨.sparse (mergeVals 5 ([.val count 1] ++ f.rest)), none⟩) = some h' →
        Small c h'.body := by
      intro hg
      injection hg with hg
      rw [← hg]
      refine tail _ ?_
      have : 1 ≤ f.here.bytes := by cases f.here <;> simp [Opc.bytes]
      have h1 : size [Opc.val count 1] = 1 := rfl
      omega
    generalize hh : f.here = o at *
    cases o with
    | val v len =>
      dsimp only at he
      by_cases hv : v ≥ count
      · rw [if_pos hv] at he
        cases he
        exact hs
      · rw [if_neg hv] at he
        by_cases hlen : len = 1
        · rw [if_pos hlen] at he
          exact one he
        · rw [if_neg hlen] at he
          exact general he
    | zero len =>
      dsimp only at he
      by_cases hlen : len = 1
      · rw [if_pos hlen] at he
        exact one he
      · rw [if_neg hlen] at he
        exact general he
    | xzero len => exact general he

theorem setAll_small {c : Cfg} (vs : List Nat) (h : Sketch) (i : Nat) (hv : Valid c h.body)
    (hr : ∀ r, h.body ≠ .raw r) (hs : Small c h.body) (hvs : ∀ v ∈ vs, v < 64) (hi : i + vs.length ≤ c.n) :
    Small c (setAll c vs h i).body := by
  induction vs generalizing h i with
  | nil => exact hs
  | cons v vs ih =>
    simp only [List.length_cons] at hi
    obtain ⟨f1, _, f3, _⟩ := setOne_facts hv hr (i := i) (v := v) (by omega) (hvs v (by simp))
    refine ih _ (i + 1) f1 f3 ?_ (fun x hx => hvs x (by simp [hx])) (by omega)
    unfold setOne
    by_cases h0 : v = 0
    · rw [if_pos h0]
      exact hs
    · rw [if_neg h0]
      cases hb : h.body with
      | raw r => exact absurd hb (hr r)
      | dense b => intro l hl; cases hl
      | sparse l =>
        dsimp only
        have hv' := hv
        rw [hb] at hv'
        cases hx : sparseSet c h l i v with
        | none => exact hs
        | some h' => exact sparseSet_small hb hs hv'.2 (by omega) hx

end BaikalDB.Hll
