import Verif.Transfer.Lemmas

/-! ## The order of the meta keys -/

namespace BaikalDB.Transfer

open BaikalDB.KeyEnc (appendI64_eq appendU64_eq toNat_encodeI64 fixed_order_nat)

/-- The common beginning of the meta keys of a region. -/
def common (region : BitVec 64) : Bytes := [0x01#8] ++ beNat 8 (KeyEnc.encodeI64 region).toNat

theorem beginKey_eq (region : BitVec 64) (t : Nat) (h : t < 2 ^ 64) :
    beginKey region t = common region ++ 0x03#8 :: (beNat 8 t ++ []) := by
  rw [beginKey, appendU64_eq, metaKey, appendI64_eq, BitVec.toNat_ofNat, Nat.mod_eq_of_lt h]
  simp [common]

theorem index_enc {i : Nat} (h : i < 2 ^ 63) :
    (KeyEnc.encodeI64 (BitVec.ofNat 64 i)).toNat = 2 ^ 63 + i := by
  have h1 := toNat_encodeI64 (BitVec.ofNat 64 i)
  have h2 : (BitVec.ofNat 64 i).toInt = (i : Int) := by
    rw [BitVec.toInt_ofNat', Int.bmod_eq_of_le] <;> omega
  omega

theorem requestKey_eq (region : BitVec 64) (t i : Nat) (h : t < 2 ^ 64) (hi : i < 2 ^ 63) :
    requestKey region t i = common region ++ 0x04#8 :: (beNat 8 t ++ beNat 8 (2 ^ 63 + i)) := by
  rw [requestKey, appendI64_eq, appendU64_eq, metaKey, appendI64_eq, BitVec.toNat_ofNat,
    Nat.mod_eq_of_lt h, index_enc hi]
  simp [common]

theorem kind_lt {p a b : Bytes} {x y : Byte} (h : x.toNat < y.toNat) :
    BLt (p ++ x :: a) (p ++ y :: b) := by
  unfold BLt
  rw [bcmp_append_left]
  simp [bcmp, h]

theorem kind_le {p a b : Bytes} {x y : Byte} (h : BLt (p ++ x :: a) (p ++ y :: b)) :
    x.toNat ≤ y.toNat := by
  unfold BLt at h
  rw [bcmp_append_left, bcmp] at h
  split at h
  · omega
  · split at h
    · cases h
    · omega

theorem begin_lt {region : BitVec 64} {t u : Nat} (ht : t < 2 ^ 64) (hu : u < 2 ^ 64)
    (h : BLt (beginKey region t) (beginKey region u)) : t < u := by
  unfold BLt at h
  rw [beginKey_eq _ _ ht, beginKey_eq _ _ hu, bcmp_append_left, bcmp] at h
  simp only [Nat.lt_irrefl, if_false] at h
  rw [fixed_order_nat (by simpa using ht) (by simpa using hu), bcmp_self] at h
  have : compare t u = .lt := by
    revert h; cases compare t u <;> simp
  exact Nat.compare_eq_lt.1 this

theorem request_lt {region : BitVec 64} {t u i j : Nat} (ht : t < 2 ^ 64) (hu : u < 2 ^ 64)
    (hi : i < 2 ^ 63) (hj : j < 2 ^ 63) (h : t < u ∨ t = u ∧ i < j) :
    BLt (requestKey region t i) (requestKey region u j) := by
  unfold BLt
  rw [requestKey_eq _ _ _ ht hi, requestKey_eq _ _ _ hu hj, bcmp_append_left, bcmp]
  simp only [Nat.lt_irrefl, if_false]
  rw [fixed_order_nat (by simpa using ht) (by simpa using hu),
    bcmp_beNat (by simp; omega) (by simp; omega)]
  rcases h with h | ⟨h1, h2⟩
  · rw [Nat.compare_eq_lt.2 h]; rfl
  · rw [h1, Nat.compare_eq_eq.2 rfl]
    show compare (2 ^ 63 + i) (2 ^ 63 + j) = .lt
    exact Nat.compare_eq_lt.2 (by omega)

theorem ascending_of_pairwise {l : List Rec} (h : l.Pairwise fun a b => BLt a.1 b.1) :
    Spec.Ascending l := by
  induction l with
  | nil => trivial
  | cons a l ih =>
    cases l with
    | nil => trivial
    | cons b l =>
      rw [List.pairwise_cons] at h
      exact ⟨h.1 b (by simp), ih h.2⟩

theorem mem_ofMeta {entries : Nat → Nat → List (Nat × Bytes)} {key : Nat → Nat → Bytes}
    {l : List MetaKv} {r : Rec} (h : r ∈ Spec.ofMeta entries key l) :
    MetaKv.plain r ∈ l ∨
      ∃ t b e, MetaKv.begin t b ∈ l ∧ e ∈ entries t b ∧ r = (key t e.1, e.2) := by
  induction l with
  | nil => simp [Spec.ofMeta] at h
  | cons m l ih =>
    have lift : (MetaKv.plain r ∈ l ∨
        ∃ t b e, MetaKv.begin t b ∈ l ∧ e ∈ entries t b ∧ r = (key t e.1, e.2)) →
        MetaKv.plain r ∈ m :: l ∨
        ∃ t b e, MetaKv.begin t b ∈ m :: l ∧ e ∈ entries t b ∧ r = (key t e.1, e.2) := by
      rintro (k | ⟨t, b, e, k1, k2, k3⟩)
      · exact Or.inl (by simp [k])
      · exact Or.inr ⟨t, b, e, by simp [k1], k2, k3⟩
    cases m with
    | request x => exact lift (ih h)
    | mark x => exact lift (ih h)
    | plain x =>
      rcases List.mem_cons.1 h with k | k
      · exact Or.inl (by simp [k])
      · exact lift (ih k)
    | begin t b =>
      rcases List.mem_append.1 h with k | k
      · obtain ⟨e, k1, k2⟩ := List.mem_map.1 k
        exact Or.inr ⟨t, b, e, by simp, k1, k2.symm⟩
      · exact lift (ih k)

theorem meta_sorted {region : BitVec 64} {entries : Nat → Nat → List (Nat × Bytes)}
    {l : List MetaKv} (h : Spec.Layout region entries l) :
    (Spec.ofMeta entries (requestKey region) l).Pairwise fun a b => BLt a.1 b.1 := by
  induction l with
  | nil => exact List.Pairwise.nil
  | cons m l ih =>
    have hs := List.pairwise_cons.1 h.sorted
    have hl : Spec.Layout region entries l :=
      ⟨hs.2, fun r hr => h.plain r (by simp [hr]), fun t b hb => h.begins t b (by simp [hb])⟩
    have hpl : ∀ r, MetaKv.plain r ∈ m :: l → ∃ kind rest,
        r.1 = common region ++ kind :: rest ∧ kind.toNat ≠ 3 ∧ kind.toNat ≠ 4 := by
      intro r hr
      obtain ⟨kind, rest, h1, h2, h3⟩ := h.plain r hr
      refine ⟨kind, rest, ?_, ?_, ?_⟩
      · rw [h1, KeyEnc.memLE_toEndian64]; rfl
      · intro k; exact h2 (BitVec.eq_of_toNat_eq (by simpa using k))
      · intro k; exact h3 (BitVec.eq_of_toNat_eq (by simpa using k))
    cases m with
    | request x => exact ih hl
    | mark x => exact ih hl
    | plain x =>
      show (x :: Spec.ofMeta entries (requestKey region) l).Pairwise _
      rw [List.pairwise_cons]
      refine ⟨fun r hr => ?_, ih hl⟩
      rcases mem_ofMeta hr with k | ⟨t, b, e, k1, k2, k3⟩
      · exact hs.1 _ k
      · obtain ⟨kind, rest, g1, g2, g3⟩ := hpl x (by simp)
        obtain ⟨b1, _, b3⟩ := h.begins t b (by simp [k1])
        have hlt : BLt x.1 (beginKey region t) := hs.1 _ k1
        rw [g1, beginKey_eq _ _ b1] at hlt
        have := kind_le hlt
        rw [k3]
        dsimp only
        rw [g1, requestKey_eq _ _ _ b1 (b3 e k2)]
        apply kind_lt
        have h3 : (0x03#8 : Byte).toNat = 3 := rfl
        have h4 : (0x04#8 : Byte).toNat = 4 := rfl
        omega
    | begin t b =>
      show ((entries t b).map (fun e => (requestKey region t e.1, e.2)) ++
        Spec.ofMeta entries (requestKey region) l).Pairwise _
      obtain ⟨b1, b2, b3⟩ := h.begins t b (by simp)
      rw [List.pairwise_append]
      refine ⟨?_, ih hl, ?_⟩
      · rw [List.pairwise_map]
        refine List.Pairwise.imp_of_mem ?_ b2
        intro x y hx hy hxy
        exact request_lt b1 b1 (b3 x hx) (b3 y hy) (Or.inr ⟨rfl, hxy⟩)
      · intro r1 hr1 r2 hr2
        obtain ⟨e, he1, he2⟩ := List.mem_map.1 hr1
        rw [← he2]
        dsimp only
        rcases mem_ofMeta hr2 with k | ⟨u, c, f, k1, k2, k3⟩
        · obtain ⟨kind, rest, g1, g2, g3⟩ := hpl r2 (by simp [k])
          have hlt : BLt (beginKey region t) r2.1 := hs.1 _ k
          rw [g1, beginKey_eq _ _ b1] at hlt
          have := kind_le hlt
          rw [g1, requestKey_eq _ _ _ b1 (b3 e he1)]
          apply kind_lt
          have h3 : (0x03#8 : Byte).toNat = 3 := rfl
          have h4 : (0x04#8 : Byte).toNat = 4 := rfl
          omega
        · obtain ⟨c1, _, c3⟩ := h.begins u c (by simp [k1])
          rw [k3]
          exact request_lt b1 c1 (b3 e he1) (c3 f k2) (Or.inl (begin_lt b1 c1 (hs.1 _ k1)))

end BaikalDB.Transfer
