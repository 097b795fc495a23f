import Verif.Expr.Spec
import Verif.KeyEnc.Lemmas
import Mathlib.Tactic.Common
/-!
# C28: comparing, hashing and shipping values
-/
namespace BaikalDB.Expr
open BaikalDB.KeyEnc.Spec BaikalDB.KeyEnc
open Spec

theorem sget_eq (v : EV) {n : Nat} (_ : n ≤ 64) : v.sget n = Int.bmod (v.u.toNat : Int) (2 ^ n) := by
  unfold EV.sget
  rw [BitVec.toInt_eq_toNat_bmod, BitVec.toNat_setWidth]
  have : ((v.u.toNat % 2 ^ n : Nat) : Int) = (v.u.toNat : Int) % ((2 ^ n : Nat) : Int) := by simp
  rw [this, Int.emod_bmod]

theorem uget_eq (v : EV) (n : Nat) : v.uget n = (v.u.toNat : Int) % 2 ^ n := by
  unfold EV.uget; rw [BitVec.toNat_setWidth]; simp

theorem sgn_sub (x y : Int) : sgn (x - y) = Ord.compare x y := by
  unfold sgn
  simp only [Ord.compare, compareOfLessAndEq]
  split <;> split <;> (try split) <;> (try split) <;> first | rfl | omega

theorem sgn_tern (x y : Int) : sgn (tern x y) = Ord.compare x y := by
  unfold tern
  rcases Int.lt_trichotomy x y with h | h | h
  · rw [if_neg (by omega), if_pos h]
    simp only [Ord.compare, compareOfLessAndEq, h, if_true]; rfl
  · subst h; simp [sgn]
  · rw [if_pos h]
    simp only [Ord.compare, compareOfLessAndEq]
    rw [if_neg (by omega), if_neg (by omega)]; rfl

theorem sgn_strCmp (a b : Bytes) : sgn (strCmp a b) = bcmp a b := by
  unfold strCmp; cases bcmp a b <;> rfl

theorem sgn_gt32 {a b : BitVec 32} (ha : ¬ IsNaN32 a) (hb : ¬ IsNaN32 b) :
    sgn (if gt32 a b then 1 else if gt32 b a then -1 else 0) = Ord.compare (f32Value a) (f32Value b) := by
  have := sgn_tern (f32Value a) (f32Value b)
  simpa [gt32, ha, hb, tern] using this

theorem sgn_gt64 {a b : BitVec 64} (ha : ¬ IsNaN64 a) (hb : ¬ IsNaN64 b) :
    sgn (if gt64 a b then 1 else if gt64 b a then -1 else 0) = Ord.compare (f64Value a) (f64Value b) := by
  have := sgn_tern (f64Value a) (f64Value b)
  simpa [gt64, ha, hb, tern] using this

/-- **C28.** Comparing two values of one type gives the order of the values they stand for, for every pair of values
without a NaN. -/
theorem C28_compare_is_value_order {a b : EV} (h : a.ty = b.ty) (ho : Ordered a.ty) (ha : NotNaN a) (hb : NotNaN b) :
    ∃ x y, sem a = some x ∧ sem b = some y ∧ sgn (compare a b) = SVal.cmp x y := by
  obtain ⟨t, u, s⟩ := a
  obtain ⟨t', u', s'⟩ := b
  simp only at h; subst h
  unfold sem compare
  cases t <;> first
    | (exfalso; revert ho; simp [Ordered]; done)
    | (simp only [intShape]
       refine ⟨_, _, rfl, rfl, ?_⟩
       simp only [reduceCtorEq, or_self, if_false, sget_eq _ (show 8 ≤ 64 by decide),
         sget_eq _ (show 16 ≤ 64 by decide), sget_eq _ (show 32 ≤ 64 by decide), sget_eq _ (show 64 ≤ 64 by decide),
         uget_eq, sgn_sub, sgn_tern, sgn_strCmp, SVal.cmp]
       done)
    | (simp only [intShape]
       refine ⟨_, _, rfl, rfl, ?_⟩
       simp only [reduceCtorEq, or_self, if_false, SVal.cmp]
       first | exact sgn_gt32 (ha.1 rfl) (hb.1 rfl) | exact sgn_gt64 (ha.2 rfl) (hb.2 rfl))

example : Ordered VTy.int32 ∧ NotNaN ⟨.double, 0x3ff0000000000000#64, []⟩ ∧
    compare ⟨.int8, 0xff#64, []⟩ ⟨.int8, 1#64, []⟩ = -2 := by
  refine ⟨by decide, ⟨by simp, by intro _; decide⟩, by decide⟩

theorem SVal.cmp_swap (x y : SVal) : (x.cmp y).swap = y.cmp x := by
  cases x <;> cases y <;> simp [SVal.cmp, bcmp_swap, Int.compare_swap]

theorem int_compare_lt (a b : Int) : Ord.compare a b = .lt ↔ a < b := by
  simp only [Ord.compare, compareOfLessAndEq]; split
  · simp [*]
  · split <;> simp [*]
theorem int_compare_eq (a b : Int) : Ord.compare a b = .eq ↔ a = b := by
  simp only [Ord.compare, compareOfLessAndEq]; split
  · simp; omega
  · split <;> simp [*]
theorem int_compare_gt (a b : Int) : Ord.compare a b = .gt ↔ b < a := by
  simp only [Ord.compare, compareOfLessAndEq]; split
  · simp; omega
  · split <;> simp <;> omega

theorem SVal.cmp_trans {x y z : SVal} (h1 : x.cmp y ≠ .gt) (h2 : y.cmp z ≠ .gt) : x.cmp z ≠ .gt := by
  cases x <;> cases y <;> cases z <;> simp_all [SVal.cmp, int_compare_gt]
  · omega
  · exact BLe.trans h1 h2

theorem SVal.cmp_eq {x y : SVal} : x.cmp y = .eq ↔ x = y := by
  cases x <;> cases y <;> simp [SVal.cmp, bcmp_eq_iff]

/-- **C28.** Within one type `compare` is a total preorder (so sorts, heaps and merges built on it are well defined):
reflexive, antisymmetric in sign, transitive. -/
theorem C28_total_preorder {a b c : EV} (hab : a.ty = b.ty) (hbc : b.ty = c.ty) (ho : Ordered a.ty)
    (ha : NotNaN a) (hb : NotNaN b) (hc : NotNaN c) :
    compare a a = 0 ∧ (compare a b < 0 ↔ 0 < compare b a) ∧ (compare a b ≤ 0 → compare b c ≤ 0 → compare a c ≤ 0) := by
  have le_iff : ∀ x : Int, x ≤ 0 ↔ sgn x ≠ .gt := by
    intro x; unfold sgn; rw [Ne, int_compare_gt]; omega
  have lt_iff : ∀ x : Int, x < 0 ↔ sgn x = .lt := by
    intro x; unfold sgn; rw [int_compare_lt]
  have gt_iff : ∀ x : Int, 0 < x ↔ sgn x = .gt := by
    intro x; unfold sgn; rw [int_compare_gt]
  obtain ⟨x, x', hx, hx', e1⟩ := C28_compare_is_value_order rfl ho ha ha
  obtain ⟨x1, y, hx1, hy, e2⟩ := C28_compare_is_value_order hab ho ha hb
  obtain ⟨y1, x2, hy1, hx2, e3⟩ := C28_compare_is_value_order hab.symm (hab ▸ ho) hb ha
  obtain ⟨y2, z, hy2, hz, e4⟩ := C28_compare_is_value_order hbc (hab ▸ ho) hb hc
  obtain ⟨x3, z1, hx3, hz1, e5⟩ := C28_compare_is_value_order (hab.trans hbc) ho ha hc
  rw [hx] at hx' hx1 hx2 hx3; rw [hy] at hy1 hy2; rw [hz] at hz1
  cases hx'; cases hx1; cases hx2; cases hx3; cases hy1; cases hy2; cases hz1
  refine ⟨?_, ?_, ?_⟩
  · have : sgn (compare a a) = .eq := by rw [e1]; exact SVal.cmp_eq.2 rfl
    unfold sgn at this; rwa [int_compare_eq] at this
  · rw [lt_iff, gt_iff, e2, e3, ← SVal.cmp_swap x y]
    cases SVal.cmp x y <;> simp
  · rw [le_iff, le_iff, le_iff, e2, e4, e5]; exact SVal.cmp_trans

/-- **C28, excluded case.** A NaN compares equal to everything, so equality is not transitive: 1.0 "=" NaN "=" 2.0 but
1.0 < 2.0. -/
theorem C28_nan_counterexample :
    compare ⟨.double, 0x3ff0000000000000#64, []⟩ ⟨.double, 0x7ff8000000000000#64, []⟩ = 0 ∧
    compare ⟨.double, 0x7ff8000000000000#64, []⟩ ⟨.double, 0x4000000000000000#64, []⟩ = 0 ∧
    compare ⟨.double, 0x3ff0000000000000#64, []⟩ ⟨.double, 0x4000000000000000#64, []⟩ < 0 := by
  have n : IsNaN64 0x7ff8000000000000#64 := by decide
  have g : ∀ a b : BitVec 64, gt64 a b = true ↔ ¬ IsNaN64 a ∧ ¬ IsNaN64 b ∧ f64Value a > f64Value b := by
    intro a b; simp [gt64]
  have h1 : gt64 0x3ff0000000000000#64 0x7ff8000000000000#64 = false := by
    rw [← Bool.not_eq_true, g]; exact fun h => h.2.1 n
  have h2 : gt64 0x7ff8000000000000#64 0x3ff0000000000000#64 = false := by
    rw [← Bool.not_eq_true, g]; exact fun h => h.1 n
  have h3 : gt64 0x4000000000000000#64 0x7ff8000000000000#64 = false := by
    rw [← Bool.not_eq_true, g]; exact fun h => h.2.1 n
  have h4 : gt64 0x7ff8000000000000#64 0x4000000000000000#64 = false := by
    rw [← Bool.not_eq_true, g]; exact fun h => h.1 n
  have v : f64Value 0x3ff0000000000000#64 < f64Value 0x4000000000000000#64 := by
    have := magnitude_strictMono 52 (a := 0x3ff0000000000000) (b := 0x4000000000000000) (by decide)
    unfold f64Value
    rw [if_pos (by decide), if_pos (by decide)]
    exact_mod_cast this
  have h5 : gt64 0x3ff0000000000000#64 0x4000000000000000#64 = false := by
    rw [← Bool.not_eq_true, g]; omega
  have h6 : gt64 0x4000000000000000#64 0x3ff0000000000000#64 = true := by
    rw [g]; exact ⟨by decide, by decide, v⟩
  simp [compare, h1, h2, h3, h4, h5, h6]


theorem unionBytes_congr {u w : BitVec 64} {k : Nat} (h : u.setWidth (8 * k) = w.setWidth (8 * k)) :
    unionBytes u k = unionBytes w k := by
  unfold unionBytes
  refine List.map_congr_left fun i hi => ?_
  rw [List.mem_range] at hi
  ext j hj
  have := congrArg (fun b => b.getLsbD (8 * i + j)) h
  simp only [BitVec.getLsbD_setWidth] at this
  rw [decide_eq_true (show 8 * i + j < 8 * k by omega)] at this
  simpa using this

theorem setWidth_of_mod {u w : BitVec 64} {n : Nat} (h : (u.toNat : Int) % 2 ^ n = (w.toNat : Int) % 2 ^ n) :
    u.setWidth n = w.setWidth n := by
  apply BitVec.eq_of_toNat_eq
  rw [BitVec.toNat_setWidth, BitVec.toNat_setWidth]
  have : ((u.toNat % 2 ^ n : Nat) : Int) = ((w.toNat % 2 ^ n : Nat) : Int) := by simpa using h
  exact_mod_cast this

theorem setWidth_of_bmod {u w : BitVec 64} {n : Nat} (h : Int.bmod (u.toNat : Int) (2 ^ n) = Int.bmod (w.toNat : Int) (2 ^ n)) :
    u.setWidth n = w.setWidth n := by
  apply setWidth_of_mod
  have := congrArg (fun z : Int => z % ((2 ^ n : Nat) : Int)) h
  rw [Int.bmod_emod, Int.bmod_emod] at this
  simpa using this

theorem f64Value_inj {a b : BitVec 64} (ha : a ≠ 0x8000000000000000#64) (hb : b ≠ 0x8000000000000000#64)
    (h : f64Value a = f64Value b) : a = b := by
  apply BitVec.eq_of_toNat_eq
  have ha' : a.toNat ≠ 2 ^ 63 := fun e => ha (BitVec.eq_of_toNat_eq (by rw [e]; rfl))
  have hb' : b.toNat ≠ 2 ^ 63 := fun e => hb (BitVec.eq_of_toNat_eq (by rw [e]; rfl))
  have h1 := a.isLt; have h2 := b.isLt
  have hlt := magnitude_lt_iff 52 (a := a.toNat % 2 ^ 63) (b := b.toNat % 2 ^ 63)
  have hgt := magnitude_lt_iff 52 (a := b.toNat % 2 ^ 63) (b := a.toNat % 2 ^ 63)
  have pa := magnitude_pos 52 (a := a.toNat % 2 ^ 63)
  have pb := magnitude_pos 52 (a := b.toNat % 2 ^ 63)
  unfold f64Value at h
  generalize magnitude 52 (a.toNat % 2 ^ 63) = va at *
  generalize magnitude 52 (b.toNat % 2 ^ 63) = vb at *
  split at h <;> split at h <;> omega

theorem f32Value_inj {a b : BitVec 32} (ha : a ≠ 0x80000000#32) (hb : b ≠ 0x80000000#32)
    (h : f32Value a = f32Value b) : a = b := by
  apply BitVec.eq_of_toNat_eq
  have ha' : a.toNat ≠ 2 ^ 31 := fun e => ha (BitVec.eq_of_toNat_eq (by rw [e]; rfl))
  have hb' : b.toNat ≠ 2 ^ 31 := fun e => hb (BitVec.eq_of_toNat_eq (by rw [e]; rfl))
  have h1 := a.isLt; have h2 := b.isLt
  have hlt := magnitude_lt_iff 23 (a := a.toNat % 2 ^ 31) (b := b.toNat % 2 ^ 31)
  have hgt := magnitude_lt_iff 23 (a := b.toNat % 2 ^ 31) (b := a.toNat % 2 ^ 31)
  have pa := magnitude_pos 23 (a := a.toNat % 2 ^ 31)
  have pb := magnitude_pos 23 (a := b.toNat % 2 ^ 31)
  unfold f32Value at h
  generalize magnitude 23 (a.toNat % 2 ^ 31) = va at *
  generalize magnitude 23 (b.toNat % 2 ^ 31) = vb at *
  split at h <;> split at h <;> omega

/-- Equal values of one type have the same stored bits (low bits for narrow types) and the same text. -/
theorem stored_of_sem_eq {a b : EV} (h : a.ty = b.ty) (na : ¬ NegZero a) (nb : ¬ NegZero b) (hs : sem a = sem b) :
    (∀ n g, intShape a.ty = some (n, g) → a.u.setWidth n = b.u.setWidth n) ∧
    (a.ty = .float → a.u.setWidth 32 = b.u.setWidth 32) ∧ (a.ty = .double → a.u = b.u) ∧
    (a.ty = .string ∨ a.ty = .hex ∨ a.ty = .json → a.s = b.s) := by
  refine ⟨?_, ?_, ?_, ?_⟩
  · intro n g hn
    unfold sem at hs
    rw [← h, hn] at hs
    cases g
    · simp only [Option.some.injEq, SVal.num.injEq] at hs; exact setWidth_of_mod hs
    · simp only [Option.some.injEq, SVal.num.injEq] at hs; exact setWidth_of_bmod hs
  · intro ht
    unfold sem at hs
    rw [← h, ht] at hs
    simp only [intShape, Option.some.injEq, SVal.num.injEq] at hs
    refine f32Value_inj (fun e => na (.inl ⟨ht, e⟩)) (fun e => nb (.inl ⟨h ▸ ht, e⟩)) hs
  · intro ht
    unfold sem at hs
    rw [← h, ht] at hs
    simp only [intShape, Option.some.injEq, SVal.num.injEq] at hs
    refine f64Value_inj (fun e => na (.inr ⟨ht, e⟩)) (fun e => nb (.inr ⟨h ▸ ht, e⟩)) hs
  · rintro (ht | ht | ht) <;>
    · unfold sem at hs
      rw [← h, ht] at hs
      simpa only [intShape, Option.some.injEq, SVal.str.injEq] using hs

theorem sem_eq_of_compare {a b : EV} (h : a.ty = b.ty) (ho : Ordered a.ty) (ha : NotNaN a) (hb : NotNaN b)
    (he : compare a b = 0) : sem a = sem b := by
  obtain ⟨x, y, hx, hy, e⟩ := C28_compare_is_value_order h ho ha hb
  rw [he] at e
  have : SVal.cmp x y = .eq := by rw [← e]; rfl
  rw [hx, hy, SVal.cmp_eq.1 this]

/-- **C28.** Values of one type that compare equal have the same `hash`, whatever the hash function and whatever the
unused bytes of the union hold. -/
theorem C28_equal_values_equal_hash (murmur : Bytes → BitVec 64) {a b : EV} (h : a.ty = b.ty) (ho : Ordered a.ty)
    (ha : NotNaN a) (hb : NotNaN b) (na : ¬ NegZero a) (nb : ¬ NegZero b) (he : compare a b = 0) :
    hash murmur a = hash murmur b := by
  have hs := stored_of_sem_eq h na nb (sem_eq_of_compare h ho ha hb he)
  obtain ⟨h1, h2, h3, h4⟩ := hs
  unfold hash
  rw [← h]
  obtain ⟨t, u, s⟩ := a
  obtain ⟨t', u', s'⟩ := b
  simp only at h; subst h
  cases t <;> first
    | (simp only []; rw [unionBytes_congr (k := 1) (h1 8 _ rfl)])
    | (simp only []; rw [unionBytes_congr (k := 2) (h1 16 _ rfl)])
    | (simp only []; rw [unionBytes_congr (k := 4) (h1 32 _ rfl)])
    | (simp only []; rw [unionBytes_congr (k := 8) (h1 64 _ rfl)])
    | (simp only []; rw [unionBytes_congr (k := 4) (h2 rfl)])
    | (simp only []; rw [show u = u' from h3 rfl])
    | (simp only []; rw [show s = s' from h4 (by simp)])
    | rfl

/-- **C28.** The hash used by the value sets agrees on equal values when the unused bytes of the union are zero (as in
values read from rows and in 64-bit values). -/
theorem C28_flat_hash (murmur : Bytes → BitVec 64) {a b : EV} (h : a.ty = b.ty) (ho : Ordered a.ty)
    (ha : NotNaN a) (hb : NotNaN b) (na : ¬ NegZero a) (nb : ¬ NegZero b) (he : eqOp a b = true)
    (ca : ∀ n g, intShape a.ty = some (n, g) → a.u.toNat < 2 ^ n) (cb : ∀ n g, intShape a.ty = some (n, g) → b.u.toNat < 2 ^ n)
    (fa : a.ty = .float → a.u.toNat < 2 ^ 32) (fb : a.ty = .float → b.u.toNat < 2 ^ 32) :
    flatHash murmur a = flatHash murmur b := by
  have he' : compare b a = 0 := by simpa [eqOp] using he
  have hs := stored_of_sem_eq h na nb (sem_eq_of_compare h.symm (h ▸ ho) hb ha he').symm
  obtain ⟨h1, h2, h3, h4⟩ := hs
  unfold flatHash
  rw [← h]
  split
  · rename_i ht; rw [h4 ht]
  · rename_i ht
    have key : ∀ n, n ≤ 64 → a.u.toNat < 2 ^ n → b.u.toNat < 2 ^ n → a.u.setWidth n = b.u.setWidth n → a.u = b.u := by
      intro n _ x y z
      have := congrArg BitVec.toNat z
      rw [BitVec.toNat_setWidth, BitVec.toNat_setWidth, Nat.mod_eq_of_lt x, Nat.mod_eq_of_lt y] at this
      exact BitVec.eq_of_toNat_eq this
    cases hi : intShape a.ty with
    | some p =>
      obtain ⟨n, g⟩ := p
      have hn : n ≤ 64 := by
        revert hi; cases a.ty <;> simp [intShape] <;> omega
      exact key n hn (ca n g hi) (cb n g hi) (h1 n g hi)
    | none =>
      by_cases hf : a.ty = .float
      · exact key 32 (by decide) (fa hf) (fb hf) (h2 hf)
      · by_cases hd : a.ty = .double
        · exact h3 hd
        · exfalso; revert hi ht hf hd ho
          cases a.ty <;> simp [intShape, Ordered]

/-- **C28, excluded case.** Casting BIGINT 4294967301 to INT gives 5, equal to a plain INT 5, but the value-set hash of
the two differs because the cast leaves the upper bytes of the union in place. -/
theorem C28_flat_hash_counterexample (murmur : Bytes → BitVec 64) :
    ∃ v, castTo ⟨.int64, 4294967301#64, []⟩ .int32 = some v ∧ eqOp v ⟨.int32, 5#64, []⟩ = true ∧
      flatHash murmur v ≠ flatHash murmur ⟨.int32, 5#64, []⟩ := by
  refine ⟨⟨.int32, 4294967301#64, []⟩, by rfl, by decide, ?_⟩
  simp [flatHash]

/-- **C28, excluded case.** 0.0 and -0.0 are equal but hash differently as soon as the hash function separates their
bytes. -/
theorem C28_negzero_counterexample (murmur : Bytes → BitVec 64)
    (hm : murmur [0#8, 0#8, 0#8, 0#8, 0#8, 0#8, 0#8, 0#8] ≠ murmur [0#8, 0#8, 0#8, 0#8, 0#8, 0#8, 0#8, 0x80#8]) :
    compare ⟨.double, 0#64, []⟩ ⟨.double, 0x8000000000000000#64, []⟩ = 0 ∧
    hash murmur ⟨.double, 0#64, []⟩ ≠ hash murmur ⟨.double, 0x8000000000000000#64, []⟩ := by
  refine ⟨by decide, ?_⟩
  exact hm

/-! ## Values of different types -/

/-- The integer stored in a value of an integer type. -/
theorem sem_int {v : EV} (h : IntTy v.ty) : ∃ x, sem v = some (.num x) ∧ getInt v = some x ∧ Fits v.ty x := by
  obtain ⟨t, u, s⟩ := v
  have hu := u.isLt
  simp only [IntTy, List.mem_cons, List.not_mem_nil, or_false] at h
  rcases h with h | h | h | h | h | h | h | h <;> subst h <;>
    simp only [sem, intShape, getInt, sget_eq _ (show 8 ≤ 64 by decide),
         sget_eq _ (show 16 ≤ 64 by decide), sget_eq _ (show 32 ≤ 64 by decide), sget_eq _ (show 64 ≤ 64 by decide),
         uget_eq, Fits, range] <;>
    refine ⟨_, rfl, rfl, ?_⟩ <;> constructor <;> (try rw [Int.bmod_def]) <;> (try split) <;> omega


theorem toNat_putLow (n : Nat) (hn : n ≤ 64) (u : BitVec 64) (x : Int) :
    ((putLow n u x).setWidth n) = BitVec.ofInt n x := by
  ext j hj
  simp only [putLow, BitVec.getElem_setWidth, BitVec.getLsbD_or, BitVec.getLsbD_shiftLeft, BitVec.getLsbD_setWidth]
  rw [decide_eq_true hj, decide_eq_true (show j < 64 by omega)]
  simp [BitVec.getLsbD_eq_getElem hj]

/-- Reading back what a narrow store wrote, signed. -/
theorem sget_putLow {n : Nat} (hn : n ≤ 64) (t : VTy) (u : BitVec 64) (s : Bytes) (x : Int) :
    (EV.mk t (putLow n u x) s).sget n = Int.bmod x (2 ^ n) := by
  simp only [EV.sget, toNat_putLow n hn, BitVec.toInt_ofInt]

/-- Reading back what a narrow store wrote, unsigned. -/
theorem uget_putLow {n : Nat} (hn : n ≤ 64) (t : VTy) (u : BitVec 64) (s : Bytes) (x : Int) :
    (EV.mk t (putLow n u x) s).uget n = x % 2 ^ n := by
  simp only [EV.uget, toNat_putLow n hn, BitVec.toNat_ofInt]
  have : (0 : Int) ≤ x % ((2 ^ n : Nat) : Int) := Int.emod_nonneg _ (by have := Nat.two_pow_pos n; omega)
  rw [Int.toNat_of_nonneg this]
  simp

theorem bmod_of_fits {x : Int} {n : Nat} (hn : 0 < n) (h : - 2 ^ (n - 1) ≤ x ∧ x < 2 ^ (n - 1)) : Int.bmod x (2 ^ n) = x := by
  have e : (2 : Int) ^ n = 2 * 2 ^ (n - 1) := by
    obtain ⟨m, rfl⟩ : ∃ m, n = m + 1 := ⟨n - 1, by omega⟩
    simp [Int.pow_succ, Int.mul_comm]
  apply Int.bmod_eq_of_le_mul_two <;> (push_cast; omega)

/-- The value of `v` as an integer, when it is one. -/
theorem castTo_int {v w : EV} {t : VTy} {x : Int} (hv : v.isNull = false) (hm : v.ty ≠ .maxvalue) (ht : IntTy t)
    (hx : getInt v = some x) (hne : v.ty ≠ t) (hc : castTo v t = some w) :
    w = { v with ty := t, u := putLow t.width v.u x } := by
  unfold castTo at hc
  rw [if_neg (by simp [hv, hm, hne])] at hc
  simp only [IntTy, List.mem_cons, List.not_mem_nil, or_false] at ht
  rcases ht with h | h | h | h | h | h | h | h <;> subst h <;> simp only [hx, Option.map_some, Option.some.injEq] at hc <;>
    exact hc.symm

/-- **C28.** Casting an integer to an integer type keeps its value when the target type can hold it, and otherwise
reduces it modulo the width of the target. -/
theorem C28_int_cast {v : EV} {t : VTy} {x : Int} (hv : IntTy v.ty) (ht : IntTy t) (hx : sem v = some (.num x)) :
    ∃ w y, castTo v t = some w ∧ w.ty = t ∧ sem w = some (.num y) ∧ (2 ^ t.width : Int) ∣ y - x ∧ Fits t y ∧
      (Fits t x → y = x) := by
  obtain ⟨x', e1, e2, e3⟩ := sem_int hv
  rw [e1] at hx; simp only [Option.some.injEq, SVal.num.injEq] at hx; subst hx
  by_cases hne : v.ty = t
  · refine ⟨v, x', ?_, hne, e1, ⟨0, by omega⟩, hne ▸ e3, fun _ => rfl⟩
    unfold castTo; rw [if_pos (by simp [hne])]
  · have hnn : v.isNull = false := by
      revert hv; unfold EV.isNull; generalize v.ty = q; revert q
      intro q; cases q <;> simp [IntTy]
    have hm : v.ty ≠ .maxvalue := by
      revert hv; generalize v.ty = q; cases q <;> simp [IntTy]
    have hc : castTo v t = some { v with ty := t, u := putLow t.width v.u x' } := by
      unfold castTo
      rw [if_neg (by simp [hnn, hm, hne])]
      have ht' := ht
      simp only [IntTy, List.mem_cons, List.not_mem_nil, or_false] at ht'
      rcases ht' with h | h | h | h | h | h | h | h <;> subst h <;> simp only [e2, Option.map_some]
    refine ⟨{ v with ty := t, u := putLow t.width v.u x' }, ?_⟩
    obtain ⟨y, f1, f2, f3⟩ := sem_int (v := { v with ty := t, u := putLow t.width v.u x' }) ht
    refine ⟨y, hc, rfl, f1, ?_, f3, ?_⟩
    · have ht' := ht
      simp only [IntTy, List.mem_cons, List.not_mem_nil, or_false] at ht'
      rcases ht' with h | h | h | h | h | h | h | h <;> subst h <;> simp only [getInt, VTy.width] at f2 ⊢ <;>
        first
        | (rw [sget_putLow (by decide)] at f2
           simp only [Option.some.injEq] at f2
           rw [Int.bmod_def] at f2
           split at f2 <;> omega)
        | (rw [uget_putLow (by decide)] at f2
           simp only [Option.some.injEq] at f2
           omega)
    · intro hf
      have ht' := ht
      simp only [IntTy, List.mem_cons, List.not_mem_nil, or_false] at ht'
      rcases ht' with h | h | h | h | h | h | h | h <;> subst h <;> simp only [getInt, VTy.width, Fits, range] at f2 hf <;>
        first
        | (rw [sget_putLow (by decide)] at f2
           simp only [Option.some.injEq] at f2
           rw [Int.bmod_def] at f2
           split at f2 <;> omega)
        | (rw [uget_putLow (by decide)] at f2
           simp only [Option.some.injEq] at f2
           omega)

example : IntTy VTy.int16 ∧ sem ⟨.int16, 0xff80#64, []⟩ = some (.num (-128)) ∧ Fits .int8 (-128) := by
  refine ⟨by simp [IntTy], by decide, by unfold Fits range; decide⟩

/-- **C28.** Comparing two integers of different types compares the integers, as long as no negative number meets an
unsigned type. -/
theorem C28_mixed_integers {a b : EV} {x y : Int} (ha : IntTy a.ty) (hb : IntTy b.ty) (hx : sem a = some (.num x))
    (hy : sem b = some (.num y)) (hs : (a.ty.isUint = false ∧ b.ty.isUint = false) ∨ (0 ≤ x ∧ 0 ≤ y)) :
    ∃ c, compareDiff a b = some c ∧ sgn c = Ord.compare x y := by
  have nn : ∀ t, IntTy t → Ordered t := by intro t; cases t <;> simp [IntTy, Ordered]
  have nan : ∀ v : EV, IntTy v.ty → NotNaN v := by
    intro v h; constructor <;> (intro e; rw [e] at h; simp [IntTy] at h)
  have isInt : ∀ t, IntTy t → t.isInt = true := by intro t; cases t <;> simp [IntTy, VTy.isInt]
  obtain ⟨x', a1, a2, a3⟩ := sem_int ha
  obtain ⟨y', b1, b2, b3⟩ := sem_int hb
  rw [a1] at hx; rw [b1] at hy
  simp only [Option.some.injEq, SVal.num.injEq] at hx hy; subst hx; subst hy
  unfold compareDiff
  by_cases he : a.ty = b.ty
  · rw [if_pos he]
    obtain ⟨p, q, hp, hq, e⟩ := C28_compare_is_value_order he (nn _ ha) (nan _ ha) (nan _ hb)
    rw [a1] at hp; rw [b1] at hq; cases hp; cases hq
    exact ⟨_, rfl, e⟩
  · rw [if_neg he, if_pos ⟨isInt _ ha, isInt _ hb⟩]
    have fin : ∀ t, IntTy t → Fits t x' → Fits t y' →
        ∃ u w, castTo a t = some u ∧ castTo b t = some w ∧ sgn (compare u w) = Ord.compare x' y' := by
      intro t ht fx fy
      obtain ⟨u, p, c1, c2, c3, _, _, c4⟩ := C28_int_cast ha ht a1
      obtain ⟨w, q, d1, d2, d3, _, _, d4⟩ := C28_int_cast hb ht b1
      refine ⟨u, w, c1, d1, ?_⟩
      obtain ⟨p', q', hp, hq, e⟩ := C28_compare_is_value_order (a := u) (b := w) (by rw [c2, d2]) (by rw [c2]; exact nn _ ht)
        (nan _ (by rw [c2]; exact ht)) (nan _ (by rw [d2]; exact ht))
      rw [c3] at hp; rw [d3] at hq; cases hp; cases hq
      rw [e, c4 fx, d4 fy]; rfl
    by_cases hu : a.ty.isUint = true ∨ b.ty.isUint = true
    · rw [if_pos hu]
      have h0 : 0 ≤ x' ∧ 0 ≤ y' := by
        rcases hs with h | h
        · rw [h.1, h.2] at hu; simp at hu
        · exact h
      have up : ∀ t z, IntTy t → Fits t z → 0 ≤ z → Fits .uint64 z := by
        intro t z ht hf h0
        cases t <;> simp [IntTy] at ht <;> simp only [Fits, range] at hf ⊢ <;> omega
      obtain ⟨u, w, c1, d1, e⟩ := fin .uint64 (by simp [IntTy]) (up _ _ ha a3 h0.1) (up _ _ hb b3 h0.2)
      rw [c1, d1]; exact ⟨_, rfl, e⟩
    · rw [if_neg hu]
      have up : ∀ t z, IntTy t → t.isUint ≠ true → Fits t z → Fits .int64 z := by
        intro t z ht hn hf
        cases t <;> simp [IntTy] at ht <;> simp [VTy.isUint] at hn <;> simp only [Fits, range] at hf ⊢ <;> omega
      obtain ⟨u, w, c1, d1, e⟩ := fin .int64 (by simp [IntTy]) (up _ _ ha (fun h => hu (.inl h)) a3)
        (up _ _ hb (fun h => hu (.inr h)) b3)
      rw [c1, d1]; exact ⟨_, rfl, e⟩

/-- **C28, excluded case.** A negative INT compares greater than an unsigned 1. -/
theorem C28_mixed_sign_counterexample :
    sem ⟨.int32, 0xffffffff#64, []⟩ = some (.num (-1)) ∧ sem ⟨.uint32, 1#64, []⟩ = some (.num 1) ∧
    compareDiff ⟨.int32, 0xffffffff#64, []⟩ ⟨.uint32, 1#64, []⟩ = some 1 := by
  refine ⟨by decide, by decide, by decide⟩

/-- **C28.** Text, hex and JSON values of different string types compare byte by byte. -/
theorem C28_mixed_strings {a b : EV} (ha : a.ty = .string ∨ a.ty = .hex ∨ a.ty = .json)
    (hb : b.ty = .string ∨ b.ty = .hex ∨ b.ty = .json) : ∃ c, compareDiff a b = some c ∧ sgn c = bcmp a.s b.s := by
  obtain ⟨t, u, s⟩ := a
  obtain ⟨t', u', s'⟩ := b
  simp only at ha hb
  rcases ha with h | h | h <;> rcases hb with h' | h' | h' <;> subst h <;> subst h' <;>
    refine ⟨_, rfl, ?_⟩ <;> exact sgn_strCmp _ _

/-! ## Shipping values between nodes -/

/-- **C28.** A value sent to another node as a protobuf message arrives with the same type and the same value,
whatever the receiver's memory held before. -/
theorem C28_proto_round_trip (junk : BitVec 64) (v : EV) :
    (ofProto junk (toProto v)).ty = v.ty ∧ sem (ofProto junk (toProto v)) = sem v := by
  obtain ⟨t, u, s⟩ := v
  have hS : ∀ n x, n ≤ 64 → ((putLow n junk x).toNat : Int).bmod (2 ^ n) = x.bmod (2 ^ n) := by
    intro n x hn
    have := sget_putLow hn .int64 junk [] x
    rwa [sget_eq _ hn] at this
  have hU : ∀ n x, n ≤ 64 → ((putLow n junk x).toNat : Int) % 2 ^ n = x % 2 ^ n := by
    intro n x hn
    have := uget_putLow hn .int64 junk [] x
    rwa [uget_eq] at this
  have hu := u.isLt
  cases t <;> refine ⟨rfl, ?_⟩ <;> simp only [toProto, ofProto, sem, intShape] <;>
    simp only [hS 8 _ (by decide), hS 16 _ (by decide), hS 32 _ (by decide), hU 8 _ (by decide), hU 16 _ (by decide),
      hU 32 _ (by decide), EV.sget, EV.uget, BitVec.toInt_eq_toNat_bmod, BitVec.toNat_ofInt, BitVec.toNat_setWidth,
      Option.some.injEq, SVal.num.injEq]
  all_goals first
    | omega
    | (simp only [Int.bmod_def]; split <;> (try split) <;> (try split) <;> (try split) <;> omega)
    | (rw [toNat_putLow 32 (by decide)]
       congr 1
       apply BitVec.eq_of_toNat_eq
       rw [BitVec.toNat_ofInt, BitVec.toNat_setWidth]
       omega)


/-! ## Integers as text -/

theorem natDec_digits (n : Nat) : (∀ c ∈ natDec n, isDig c = true) ∧ natDec n ≠ [] ∧ decVal (natDec n) = n := by
  have dig : ∀ m, m < 10 → isDig (BitVec.ofNat 8 (0x30 + m)) = true ∧ (BitVec.ofNat 8 (0x30 + m)).toNat = 0x30 + m := by
    intro m hm
    have : (BitVec.ofNat 8 (0x30 + m)).toNat = 0x30 + m := by rw [BitVec.toNat_ofNat]; omega
    refine ⟨?_, this⟩
    simp only [isDig, this, Bool.and_eq_true, decide_eq_true_eq]; omega
  induction n using Nat.strongRecOn with
  | ind n ih =>
    unfold natDec
    split
    · rename_i h
      have d := dig n h
      refine ⟨by simpa using d.1, by simp, ?_⟩
      simp only [decVal, List.foldl_cons, List.foldl_nil, d.2]; omega
    · rename_i h
      obtain ⟨i1, i2, i3⟩ := ih (n / 10) (by omega)
      have d := dig (n % 10) (by omega)
      refine ⟨?_, by simp, ?_⟩
      · intro c hc
        rw [List.mem_append] at hc
        rcases hc with hc | hc
        · exact i1 c hc
        · rw [List.mem_singleton] at hc; rw [hc]; exact d.1
      · unfold decVal at i3 ⊢
        rw [List.foldl_append, i3]
        simp only [List.foldl_cons, List.foldl_nil, d.2]; omega

theorem strtoull_toStr {x : Int} (h : x.natAbs < 2 ^ 64) : strtoull (toStr x) = BitVec.ofInt 64 x := by
  obtain ⟨d1, d2, d3⟩ := natDec_digits x.natAbs
  have tw : (natDec x.natAbs).takeWhile isDig = natDec x.natAbs := by
    have := List.takeWhile_append_of_pos d1 (l₂ := []); simpa using this
  unfold toStr
  split
  · rename_i hx
    unfold strtoull
    rw [show (0x2d#8 :: natDec x.natAbs).dropWhile isSpace = 0x2d#8 :: natDec x.natAbs from by
      rw [List.dropWhile_cons_of_neg (by decide)]]
    simp only [if_true, tw, d3, if_pos h]
    have : x = -((x.natAbs : Nat) : Int) := by omega
    conv => rhs; rw [this, BitVec.ofInt_neg]
    rw [BitVec.ofInt_natCast]
  · rename_i hx
    obtain ⟨c, r, hc⟩ := List.exists_cons_of_ne_nil d2
    have hd : isDig c = true := d1 c (by rw [hc]; exact List.mem_cons_self)
    have hd' : 0x30 ≤ c.toNat ∧ c.toNat ≤ 0x39 := by simpa [isDig] using hd
    have hsp : isSpace c = false := by
      have : c ≠ 0x20#8 := by rintro rfl; simp at hd'
      simp [isSpace, this]; omega
    unfold strtoull
    rw [hc, List.dropWhile_cons_of_neg (by simp [hsp])]
    simp only []
    rw [if_neg (by rintro rfl; simp at hd'), if_neg (by rintro rfl; simp at hd'), ← hc, tw, d3, if_pos h]
    have : x = ((x.natAbs : Nat) : Int) := by omega
    conv => rhs; rw [this]
    rw [BitVec.ofInt_natCast]

/-- **C42.** Casting any integer to text and the text back to an integer type that can hold it gives the same integer;
the text carries the value on its own (the union behind it may be anything). -/
theorem C42_integer_text_round_trip {v : EV} {t : VTy} {x : Int} (hv : IntTy v.ty) (ht : IntTy t)
    (hx : sem v = some (.num x)) (hf : Fits t x) :
    ∃ s, castTo v .string = some s ∧ s.ty = .string ∧
      ∀ junk, ∃ w, castTo { s with u := junk } t = some w ∧ w.ty = t ∧ sem w = some (.num x) := by
  obtain ⟨x', e1, e2, e3⟩ := sem_int hv
  rw [e1] at hx; simp only [Option.some.injEq, SVal.num.injEq] at hx; subst hx
  have hn : x'.natAbs < 2 ^ 64 := by
    revert ht hf; cases t <;> simp [IntTy, Fits, range] <;> omega
  have hstr : castTo v .string = some { v with ty := .string, s := toStr x' } := by
    obtain ⟨q, u, s⟩ := v
    simp only [IntTy, List.mem_cons, List.not_mem_nil, or_false] at hv
    rcases hv with h | h | h | h | h | h | h | h <;> subst h <;>
      simp only [getInt, Option.some.injEq] at e2 <;> subst e2 <;> rfl
  refine ⟨_, hstr, rfl, fun junk => ?_⟩
  have hg : getInt { ty := VTy.string, u := junk, s := toStr x' } = some ((BitVec.ofInt 64 x').toNat : Int) := by
    simp only [getInt, strtoull_toStr hn]
  have hc : castTo { ty := VTy.string, u := junk, s := toStr x' } t =
      some { ty := t, u := putLow t.width junk ((BitVec.ofInt 64 x').toNat : Int), s := toStr x' } := by
    unfold castTo
    have ht' := ht
    simp only [IntTy, List.mem_cons, List.not_mem_nil, or_false] at ht'
    rw [if_neg (by rcases ht' with h | h | h | h | h | h | h | h <;> subst h <;> simp [EV.isNull])]
    rcases ht' with h | h | h | h | h | h | h | h <;> subst h <;> simp only [hg, Option.map_some]
  refine ⟨_, hc, rfl, ?_⟩
  obtain ⟨y, f1, f2, f3⟩ := sem_int (v := { ty := t, u := putLow t.width junk ((BitVec.ofInt 64 x').toNat : Int), s := toStr x' }) ht
  rw [f1]
  simp only [Option.some.injEq, SVal.num.injEq]
  have ht' := ht
  simp only [IntTy, List.mem_cons, List.not_mem_nil, or_false] at ht'
  rcases ht' with h | h | h | h | h | h | h | h <;> subst h <;> simp only [getInt, VTy.width, Fits, range] at f2 hf <;>
    first
    | (rw [sget_putLow (by decide), BitVec.toNat_ofInt] at f2
       simp only [Option.some.injEq] at f2
       rw [Int.bmod_def] at f2
       split at f2 <;> omega)
    | (rw [uget_putLow (by decide), BitVec.toNat_ofInt] at f2
       simp only [Option.some.injEq] at f2
       omega)

example : castTo ⟨.int32, 0xffffff85#64, []⟩ .string = some ⟨.string, 0xffffff85#64, [0x2d#8, 0x31#8, 0x32#8, 0x33#8]⟩ := by
  simp [castTo, EV.isNull, getString, EV.sget, toStr, natDec]

/-- **C42.** Text that starts with a number casts to that number: leading blanks and anything after the digits are
ignored. -/
theorem C42_text_prefix (sp : Bytes) (hsp : ∀ c ∈ sp, isSpace c = true) (n : Nat) (hn : n < 2 ^ 64) (c : Byte) (rest : Bytes)
    (hc : isDig c = false) : strtoull (sp ++ natDec n) = BitVec.ofNat 64 n ∧ strtoull (sp ++ natDec n ++ c :: rest) = BitVec.ofNat 64 n := by
  obtain ⟨d1, d2, d3⟩ := natDec_digits n
  obtain ⟨d, r, hd⟩ := List.exists_cons_of_ne_nil d2
  have hdg : isDig d = true := d1 d (by rw [hd]; exact List.mem_cons_self)
  have hd' : 0x30 ≤ d.toNat ∧ d.toNat ≤ 0x39 := by simpa [isDig] using hdg
  have hns : isSpace d = false := by
    have : d ≠ 0x20#8 := by rintro rfl; simp at hd'
    simp [isSpace, this]; omega
  have main : ∀ tail : Bytes, (natDec n ++ tail).takeWhile isDig = natDec n →
      strtoull (sp ++ natDec n ++ tail) = BitVec.ofNat 64 n := by
    intro tail ht
    unfold strtoull
    rw [List.append_assoc, List.dropWhile_append_of_pos hsp, hd, List.cons_append, List.dropWhile_cons_of_neg (by simp [hns])]
    simp only []
    rw [if_neg (by rintro rfl; simp at hd'), if_neg (by rintro rfl; simp at hd'), ← List.cons_append, ← hd, ht, d3, if_pos hn]
  constructor
  · have := main [] (by have := List.takeWhile_append_of_pos d1 (l₂ := []); simpa using this)
    simpa using this
  · refine main (c :: rest) ?_
    rw [List.takeWhile_append_of_pos d1, List.takeWhile_cons_of_neg (by simp [hc]), List.append_nil]

/-! ### NULL, MAXVALUE, BOOL, hex literals, wire values -/

/-- **C28.** NULL equals NULL and comes before every other value. -/
theorem C28_null_first (n v : EV) (hn : n.ty = .null) :
    (v.ty = .null → compare n v = 0) ∧ (v.ty ≠ .null → compare n v < 0) := by
  unfold compare
  rw [hn]
  constructor
  · intro hv; simp [hv]
  · intro hv
    by_cases hm : v.ty = .maxvalue <;> simp [hm, hv]

/-- **C28 (counterexample).** With the NULL on the right the comparison reads the NULL's unused union: -1 also comes before
NULL, so NULL and -1 come before each other. -/
theorem C28_null_right_counterexample :
    compare ⟨.null, 0, []⟩ ⟨.int64, BitVec.ofInt 64 (-1), []⟩ < 0 ∧ compare ⟨.int64, BitVec.ofInt 64 (-1), []⟩ ⟨.null, 0, []⟩ < 0 := by
  decide

/-- **C28.** MAXVALUE equals itself and comes after everything else, on either side. -/
theorem C28_maxvalue_last (m v : EV) (hm : m.ty = .maxvalue) :
    (v.ty = .maxvalue → compare m v = 0) ∧ (v.ty ≠ .maxvalue → compare m v > 0 ∧ compare v m < 0) := by
  unfold compare
  constructor
  · intro hv; simp [hm, hv]
  · intro hv; simp [hm, hv]

/-- **C28.** A cast to BOOL gives 1 for every number other than 0 and 0 for 0. -/
theorem C28_bool_cast {v w : EV} (hv : IntTy v.ty) (h : castTo v .bool = some w) (x : Int) (hx : sem v = some (.num x)) :
    w.ty = .bool ∧ sem w = some (.num (if x = 0 then 0 else 1)) := by
  obtain ⟨x', e1, e2, _⟩ := sem_int hv
  rw [e1] at hx
  simp only [Option.some.injEq, SVal.num.injEq] at hx
  subst hx
  unfold castTo at h
  have hv' := hv
  simp only [IntTy, List.mem_cons, List.not_mem_nil, or_false] at hv'
  rw [if_neg (by rcases hv' with h | h | h | h | h | h | h | h <;> simp [EV.isNull, h])] at h
  simp only [e2, Option.map_some, Option.some.injEq] at h
  subst h
  refine ⟨rfl, ?_⟩
  have := uget_putLow (n := 8) (by decide) .bool v.u v.s (if x' = 0 then 0 else 1)
  simp only [EV.uget, BitVec.toNat_setWidth] at this
  simp only [sem, intShape, Option.some.injEq, SVal.num.injEq]
  generalize (putLow 8 v.u (if x' = 0 then 0 else 1)).toNat = q at this ⊢
  split at this <;> rename_i h0 <;> simp only [h0, if_true, if_false] <;> omega

example : castTo ⟨.int16, 0x100#64, []⟩ .bool = some ⟨.bool, 0x101#64, []⟩ := by decide

/-- **C42.** A hex literal stands for the number its bytes spell in base 256, modulo 2^64. -/
theorem C42_hex_literal (s : Bytes) : (hexVal s).toNat = ofBE s % 2 ^ 64 := by
  suffices h : ∀ (s : Bytes) (a : BitVec 64) (n : Nat), a.toNat = n % 2 ^ 64 →
      (s.foldl (fun a c => a * 256 + c.setWidth 64) a).toNat = s.foldl (fun a b => a * 256 + b.toNat) n % 2 ^ 64 from
    h s 0 0 rfl
  intro s
  induction s with
  | nil => intro a n h; exact h
  | cons c s ih =>
    intro a n h
    refine ih _ _ ?_
    have hc := c.isLt
    have h256 : (256 : BitVec 64).toNat = 256 := rfl
    simp only [BitVec.toNat_add, BitVec.toNat_mul, BitVec.toNat_setWidth, h, h256]
    omega

example : hexVal [0x01#8, 0x00#8] = 256#64 := by decide

/-- The number a wire field carries. -/
def Spec.wireNum : PbEV → Option Int
  | .bool b => some b.toNat
  | .i32 x => some x.toInt
  | .i64 x => some x.toInt
  | .u32 x => some x.toNat
  | .u64 x => some x.toNat
  | _ => none

/-- **C28.** The number sent to another node is the value itself, sign included (other readers of the message, such as the
planner, use it as it is). -/
theorem C28_wire_number {v : EV} {x : Int} (hi : (intShape v.ty).isSome) (hx : sem v = some (.num x)) :
    (toProto v).1 = v.ty ∧ wireNum (toProto v).2 = some x := by
  refine ⟨rfl, ?_⟩
  obtain ⟨t, u, s⟩ := v
  cases t <;> simp only [intShape, Option.isSome_none, Bool.false_eq_true] at hi <;>
    simp only [sem, intShape, Option.some.injEq, SVal.num.injEq] at hx <;> subst hx <;>
    simp only [toProto, wireNum, EV.sget, EV.uget, Option.some.injEq, BitVec.toNat_ofInt,
      BitVec.toInt_eq_toNat_bmod, BitVec.toNat_setWidth] <;>
    (try simp only [Int.bmod_def]) <;> (try split) <;> (try split) <;> omega

example : toProto ⟨.int16, 0xfffe#64, []⟩ = (.int16, .i32 (BitVec.ofInt 32 (-2))) := by decide

end BaikalDB.Expr
