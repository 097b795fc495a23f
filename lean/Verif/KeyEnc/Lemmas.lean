import Verif.KeyEnc.Spec
/-! # Lemmas about the key codec -/
namespace BaikalDB.KeyEnc
open Spec

theorem ofNat_div_pow {w : Nat} (x : BitVec w) (k m: Nat) (h : 2^k = m) : BitVec.ofNat 8 (x.toNat / m) = (x >>> k).setWidth 8 := by
  subst h
  apply BitVec.eq_of_toNat_eq
  simp [BitVec.toNat_ushiftRight, Nat.shiftRight_eq_div_pow]

theorem bits8 (a b : BitVec 8) (h : a.getLsbD 0 = b.getLsbD 0 ∧ a.getLsbD 1 = b.getLsbD 1 ∧ a.getLsbD 2 = b.getLsbD 2 ∧ a.getLsbD 3 = b.getLsbD 3 ∧ a.getLsbD 4 = b.getLsbD 4 ∧ a.getLsbD 5 = b.getLsbD 5 ∧ a.getLsbD 6 = b.getLsbD 6 ∧ a.getLsbD 7 = b.getLsbD 7) : a = b := by
  apply BitVec.eq_of_getLsbD_eq
  intro i hi
  match i, hi with
  | 0, _ => exact h.1
  | 1, _ => exact h.2.1
  | 2, _ => exact h.2.2.1
  | 3, _ => exact h.2.2.2.1
  | 4, _ => exact h.2.2.2.2.1
  | 5, _ => exact h.2.2.2.2.2.1
  | 6, _ => exact h.2.2.2.2.2.2.1
  | 7, _ => exact h.2.2.2.2.2.2.2

theorem memLE_toEndian16 (x : BitVec 16) : memLE 2 (toEndian16 x) = beNat 2 x.toNat := by
  simp only [memLE, beNat, toEndian16]
  rw [ofNat_div_pow x 8 _ rfl, ofNat_div_pow x 0 _ rfl]
  congr 1
  · apply bits8; simp
  · congr 1; apply bits8; simp
theorem memLE_toEndian32 (x : BitVec 32) : memLE 4 (toEndian32 x) = beNat 4 x.toNat := by
  simp only [memLE, beNat, toEndian32]
  rw [ofNat_div_pow x 24 _ rfl, ofNat_div_pow x 16 _ rfl, ofNat_div_pow x 8 _ rfl, ofNat_div_pow x 0 _ rfl]
  simp only [List.cons.injEq, and_true]
  refine ⟨?_, ?_, ?_, ?_⟩ <;> apply bits8 <;> simp
theorem memLE_toEndian64 (x : BitVec 64) : memLE 8 (toEndian64 x) = beNat 8 x.toNat := by
  simp only [memLE, beNat, toEndian64]
  rw [ofNat_div_pow x 56 _ rfl, ofNat_div_pow x 48 _ rfl, ofNat_div_pow x 40 _ rfl, ofNat_div_pow x 32 _ rfl, ofNat_div_pow x 24 _ rfl, ofNat_div_pow x 16 _ rfl, ofNat_div_pow x 8 _ rfl, ofNat_div_pow x 0 _ rfl]
  simp only [List.cons.injEq, and_true]
  refine ⟨?_, ?_, ?_, ?_, ?_, ?_, ?_, ?_⟩ <;> apply bits8 <;> simp

theorem getLsbD_loadLE_memLE {w : Nat} (n : Nat) (x : BitVec w) (i : Nat) :
    (loadLE w (memLE n x)).getLsbD i = (decide (i < 8 * n) && x.getLsbD i) := by
  induction n generalizing x i with
  | zero => simp [memLE, loadLE]
  | succ n ih =>
    simp only [memLE, loadLE, BitVec.getLsbD_or, BitVec.getLsbD_shiftLeft, ih, BitVec.getLsbD_setWidth,
      BitVec.getLsbD_ushiftRight]
    by_cases hw : i < w
    · by_cases h8 : i < 8
      · have : i < 8 * (n+1) := by omega
        simp [hw, h8, this]
      · have e : 8 + (i - 8) = i := by omega
        have e2 : (i - 8 < 8 * n) ↔ i < 8 * (n+1) := by omega
        simp [hw, h8, e, e2]
    · have : x.getLsbD i = false := BitVec.getLsbD_of_ge x i (by omega)
      simp [hw, this]

theorem loadLE_memLE {w n : Nat} (h : w ≤ 8 * n) (x : BitVec w) : loadLE w (memLE n x) = x := by
  apply BitVec.eq_of_getLsbD_eq
  intro i hi
  rw [getLsbD_loadLE_memLE]
  have : i < 8 * n := by omega
  simp [this]

theorem toEndian16_invol (x : BitVec 16) : toEndian16 (toEndian16 x) = x := by
  ext i hi
  simp only [toEndian16]
  have : i = 0 ∨ i = 1 ∨ i = 2 ∨ i = 3 ∨ i = 4 ∨ i = 5 ∨ i = 6 ∨ i = 7 ∨ i = 8 ∨ i = 9 ∨ i = 10 ∨ i = 11 ∨ i = 12 ∨ i = 13 ∨ i = 14 ∨ i = 15 := by omega
  rcases this with h|h|h|h|h|h|h|h|h|h|h|h|h|h|h|h <;> subst h <;> simp

theorem memLE_inj {w n : Nat} (h : w ≤ 8 * n) {x y : BitVec w} (e : memLE n x = memLE n y) : x = y := by
  rw [← loadLE_memLE h x, e, loadLE_memLE h y]

theorem xor_pow_of_lt {x k : Nat} (h : x < 2 ^ k) : x ^^^ 2 ^ k = 2 ^ k + x := by
  apply Nat.eq_of_testBit_eq
  intro i
  rw [Nat.testBit_xor, Nat.testBit_two_pow]
  by_cases h1 : k = i
  · subst h1
    rw [Nat.testBit_two_pow_add_eq]; simp
  · by_cases h2 : i < k
    · rw [Nat.testBit_two_pow_add_gt h2]; simp [h1]
    · have e1 : 2 ^ (k+1) ≤ 2 ^ i := Nat.pow_le_pow_right (by omega) (by omega)
      have e2 : 2 ^ (k+1) = 2 * 2 ^ k := by rw [Nat.pow_succ]; omega
      rw [Nat.testBit_lt_two_pow (x := x) (by omega), Nat.testBit_lt_two_pow (x := 2^k + x) (by omega)]
      simp [h1]

theorem xor_pow_of_ge {x k : Nat} (h : x < 2 ^ (k+1)) (h2 : 2 ^ k ≤ x) : x ^^^ 2 ^ k = x - 2 ^ k := by
  obtain ⟨y, rfl⟩ := Nat.exists_eq_add_of_le h2
  have : y < 2 ^ k := by rw [Nat.pow_succ] at h; omega
  rw [← xor_pow_of_lt this, Nat.xor_assoc, Nat.xor_self, Nat.xor_zero, xor_pow_of_lt this]; omega

/-- Flipping the sign bit of a two's-complement word adds `2^k` to its signed value. -/
theorem toNat_xor_sign {k : Nat} (x : BitVec (k+1)) (m : BitVec (k+1)) (hm : m.toNat = 2 ^ k) :
    ((x ^^^ m).toNat : Int) = x.toInt + 2 ^ k := by
  rw [BitVec.toNat_xor, hm, BitVec.toInt_eq_toNat_cond]
  have hx := x.isLt
  have e : 2 ^ (k+1) = 2 * 2 ^ k := by rw [Nat.pow_succ]; omega
  have ec : ((2 ^ k : Nat) : Int) = 2 ^ k := by simp
  by_cases h : x.toNat < 2 ^ k
  · rw [xor_pow_of_lt h, if_pos (by omega)]; omega
  · rw [xor_pow_of_ge hx (by omega), if_neg (by omega)]; omega

theorem beNat_succ' (n v : Nat) : beNat (n+1) v = beNat n (v / 256) ++ [BitVec.ofNat 8 v] := by
  induction n with
  | zero => simp [beNat]
  | succ n ih =>
    rw [beNat, ih, beNat, Nat.div_div_eq_div_mul, Nat.pow_succ, Nat.mul_comm, List.cons_append]

theorem memLE_eq_reverse {w : Nat} (n : Nat) (x : BitVec w) : memLE n x = (beNat n x.toNat).reverse := by
  induction n generalizing x with
  | zero => rfl
  | succ n ih =>
    rw [memLE, beNat_succ', List.reverse_append, ih]
    have : (x >>> 8).toNat = x.toNat / 256 := by
      rw [BitVec.toNat_ushiftRight, Nat.shiftRight_eq_div_pow]
    rw [this]; simp

theorem toEndian32_invol (x : BitVec 32) : toEndian32 (toEndian32 x) = x := by
  apply memLE_inj (n := 4) (by omega)
  rw [memLE_toEndian32, memLE_eq_reverse, ← memLE_toEndian32 x, memLE_eq_reverse, List.reverse_reverse]

theorem toEndian64_invol (x : BitVec 64) : toEndian64 (toEndian64 x) = x := by
  apply memLE_inj (n := 8) (by omega)
  rw [memLE_toEndian64, memLE_eq_reverse, ← memLE_toEndian64 x, memLE_eq_reverse, List.reverse_reverse]

@[simp] theorem length_memLE {w : Nat} (n : Nat) (x : BitVec w) : (memLE n x).length = n := by
  rw [memLE_eq_reverse]; simp

theorem memLE_one (x : BitVec 8) : memLE 1 x = beNat 1 x.toNat := by
  simp [memLE, beNat]

/-! ### Floats -/

theorem pow_strict {a b : Nat} (h : a < b) : 2 ^ a < 2 ^ b := Nat.pow_lt_pow_right (by omega) h

theorem magnitude_strictMono (mb : Nat) {a b : Nat} (h : a < b) : magnitude mb a < magnitude mb b := by
  unfold magnitude
  have hp : 0 < 2 ^ mb := Nat.pow_pos (by omega)
  have ma := Nat.mod_lt a hp
  have mbb := Nat.mod_lt b hp
  have da := Nat.div_add_mod a (2 ^ mb)
  have db := Nat.div_add_mod b (2 ^ mb)
  have hle : a / 2 ^ mb ≤ b / 2 ^ mb := Nat.div_le_div_right (by omega)
  generalize a / 2 ^ mb = ea at *
  generalize b / 2 ^ mb = eb at *
  generalize a % 2 ^ mb = xa at *
  generalize b % 2 ^ mb = xb at *
  generalize 2 ^ mb = M at *
  by_cases he : ea = eb
  · subst he
    have : xa < xb := by omega
    split
    · exact this
    · exact Nat.mul_lt_mul_of_pos_right (by omega) (Nat.pow_pos (by omega))
  · have hlt : ea < eb := by omega
    rw [if_neg (by omega : eb ≠ 0)]
    split
    · have : 1 ≤ 2 ^ (eb - 1) := Nat.pow_pos (by omega)
      calc xa < M + xb := by omega
        _ = (M + xb) * 1 := by omega
        _ ≤ _ := Nat.mul_le_mul_left _ this
    · have h1 : 2 * 2 ^ (ea - 1) ≤ 2 ^ (eb - 1) := by
        have : 2 * 2 ^ (ea - 1) = 2 ^ (ea - 1 + 1) := by rw [Nat.pow_succ]; omega
        rw [this]; exact Nat.pow_le_pow_right (by omega) (by omega)
      calc (M + xa) * 2 ^ (ea - 1) < (2 * M) * 2 ^ (ea - 1) :=
            Nat.mul_lt_mul_of_pos_right (by omega) (Nat.pow_pos (by omega))
        _ = M * (2 * 2 ^ (ea - 1)) := by rw [Nat.mul_comm 2 M, Nat.mul_assoc]
        _ ≤ M * 2 ^ (eb - 1) := Nat.mul_le_mul_left _ h1
        _ ≤ (M + xb) * 2 ^ (eb - 1) := Nat.mul_le_mul_right _ (by omega)

theorem magnitude_zero (mb : Nat) : magnitude mb 0 = 0 := by simp [magnitude]

theorem magnitude_lt_iff (mb : Nat) {a b : Nat} : magnitude mb a < magnitude mb b ↔ a < b := by
  constructor
  · intro h
    by_cases h2 : b < a
    · have := magnitude_strictMono mb h2; omega
    · by_cases h3 : a = b
      · subst h3; omega
      · omega
  · exact magnitude_strictMono mb

theorem magnitude_pos (mb : Nat) {a : Nat} : 0 < magnitude mb a ↔ 0 < a := by
  have := magnitude_lt_iff mb (a := 0) (b := a)
  rwa [magnitude_zero] at this

theorem or_pow_of_lt {x k : Nat} (h : x < 2 ^ k) : x ||| 2 ^ k = 2 ^ k + x := by
  have := Nat.two_pow_add_eq_or_of_lt h 1
  rw [Nat.mul_one] at this
  rw [Nat.or_comm, this]

theorem geZero64_iff (x : BitVec 64) : geZero64 x = true ↔ ¬ IsNaN64 x ∧ 0 ≤ f64Value x := by
  have hx := x.isLt
  have e : (x &&& 0x7FFFFFFFFFFFFFFF#64).toNat = x.toNat % 2 ^ 63 := by
    rw [BitVec.toNat_and]; exact Nat.and_two_pow_sub_one_eq_mod x.toNat 63
  have e2 : (x = 0x8000000000000000#64) ↔ x.toNat = 2 ^ 63 := by
    rw [← BitVec.toNat_inj]; simp
  unfold geZero64 IsNaN64 f64Value
  rw [e]
  simp only [Bool.and_eq_true, Bool.or_eq_true, decide_eq_true_eq, e2]
  have hp := magnitude_pos 52 (a := x.toNat % 2 ^ 63)
  constructor
  · rintro ⟨h1, h2⟩
    refine ⟨by omega, ?_⟩
    split
    · omega
    · have : ¬ 0 < x.toNat % 2 ^ 63 := by omega
      rw [← hp] at this; omega
  · rintro ⟨h1, h2⟩
    refine ⟨by omega, ?_⟩
    split at h2
    · left; omega
    · right
      have : ¬ 0 < x.toNat % 2 ^ 63 := by rw [← hp]; omega
      omega

theorem geZero32_iff (x : BitVec 32) : geZero32 x = true ↔ ¬ IsNaN32 x ∧ 0 ≤ f32Value x := by
  have hx := x.isLt
  have e : (x &&& 0x7FFFFFFF#32).toNat = x.toNat % 2 ^ 31 := by
    rw [BitVec.toNat_and]; exact Nat.and_two_pow_sub_one_eq_mod x.toNat 31
  have e2 : (x = 0x80000000#32) ↔ x.toNat = 2 ^ 31 := by
    rw [← BitVec.toNat_inj]; simp
  unfold geZero32 IsNaN32 f32Value
  rw [e]
  simp only [Bool.and_eq_true, Bool.or_eq_true, decide_eq_true_eq, e2]
  have hp := magnitude_pos 23 (a := x.toNat % 2 ^ 31)
  constructor
  · rintro ⟨h1, h2⟩
    refine ⟨by omega, ?_⟩
    split
    · omega
    · have : ¬ 0 < x.toNat % 2 ^ 31 := by omega
      rw [← hp] at this; omega
  · rintro ⟨h1, h2⟩
    refine ⟨by omega, ?_⟩
    split at h2
    · left; omega
    · right
      have : ¬ 0 < x.toNat % 2 ^ 31 := by rw [← hp]; omega
      omega

theorem toNat_encodeF64 {x : BitVec 64} (h : ¬ IsNaN64 x) :
    (encodeF64 x).toNat = if 0 ≤ f64Value x then 2 ^ 63 + x.toNat % 2 ^ 63 else 2 ^ 63 - 1 - x.toNat % 2 ^ 63 := by
  have hx := x.isLt
  unfold encodeF64
  by_cases hz : geZero64 x = true
  · have hz' := (geZero64_iff x).1 hz
    rw [if_pos hz, if_pos hz'.2]
    have : x.toNat < 2 ^ 63 ∨ x.toNat = 2 ^ 63 := by
      by_cases hlt : x.toNat < 2 ^ 63
      · exact .inl hlt
      · have h2 := hz'.2
        unfold f64Value at h2
        rw [if_neg hlt] at h2
        have hp := magnitude_pos 52 (a := x.toNat % 2 ^ 63)
        have : ¬ 0 < x.toNat % 2 ^ 63 := by rw [← hp]; omega
        right; omega
    rw [BitVec.toNat_or, show (0x8000000000000000#64).toNat = 2 ^ 63 from rfl]
    rcases this with h1 | h1
    · rw [or_pow_of_lt h1]; omega
    · rw [h1, Nat.or_self]
  · have hz' : ¬ 0 ≤ f64Value x := fun h0 => hz ((geZero64_iff x).2 ⟨h, h0⟩)
    rw [if_neg hz, if_neg hz', BitVec.toNat_not]
    have : ¬ x.toNat < 2 ^ 63 := by
      intro hlt
      apply hz'
      unfold f64Value
      rw [if_pos hlt]; omega
    omega

theorem toNat_encodeF32 {x : BitVec 32} (h : ¬ IsNaN32 x) :
    (encodeF32 x).toNat = if 0 ≤ f32Value x then 2 ^ 31 + x.toNat % 2 ^ 31 else 2 ^ 31 - 1 - x.toNat % 2 ^ 31 := by
  have hx := x.isLt
  unfold encodeF32
  by_cases hz : geZero32 x = true
  · have hz' := (geZero32_iff x).1 hz
    rw [if_pos hz, if_pos hz'.2]
    have : x.toNat < 2 ^ 31 ∨ x.toNat = 2 ^ 31 := by
      by_cases hlt : x.toNat < 2 ^ 31
      · exact .inl hlt
      · have h2 := hz'.2
        unfold f32Value at h2
        rw [if_neg hlt] at h2
        have hp := magnitude_pos 23 (a := x.toNat % 2 ^ 31)
        have : ¬ 0 < x.toNat % 2 ^ 31 := by rw [← hp]; omega
        right; omega
    rw [BitVec.toNat_or, show (0x80000000#32).toNat = 2 ^ 31 from rfl]
    rcases this with h1 | h1
    · rw [or_pow_of_lt h1]; omega
    · rw [h1, Nat.or_self]
  · have hz' : ¬ 0 ≤ f32Value x := fun h0 => hz ((geZero32_iff x).2 ⟨h, h0⟩)
    rw [if_neg hz, if_neg hz', BitVec.toNat_not]
    have : ¬ x.toNat < 2 ^ 31 := by
      intro hlt
      apply hz'
      unfold f32Value
      rw [if_pos hlt]; omega
    omega

theorem compare_eq_of_lt_iff {a b : Nat} {x y : Int} (h1 : a < b ↔ x < y) (h2 : b < a ↔ y < x) :
    compare a b = compare x y := by
  by_cases h : a < b
  · rw [Nat.compare_eq_lt.2 h, Int.compare_eq_lt.2 (h1.1 h)]
  · by_cases h' : b < a
    · rw [Nat.compare_eq_gt.2 h', Int.compare_eq_gt.2 (h2.1 h')]
    · rw [Nat.compare_eq_eq.2 (by omega), Int.compare_eq_eq.2 (by omega)]

theorem encodeF64_lt {x y : BitVec 64} (hx : ¬ IsNaN64 x) (hy : ¬ IsNaN64 y) :
    (encodeF64 x).toNat < (encodeF64 y).toNat ↔ f64Value x < f64Value y := by
  rw [toNat_encodeF64 hx, toNat_encodeF64 hy]
  have mx := x.isLt
  have my := y.isLt
  have hlt := magnitude_lt_iff 52 (a := x.toNat % 2 ^ 63) (b := y.toNat % 2 ^ 63)
  have hgt := magnitude_lt_iff 52 (a := y.toNat % 2 ^ 63) (b := x.toNat % 2 ^ 63)
  have px := magnitude_pos 52 (a := x.toNat % 2 ^ 63)
  have py := magnitude_pos 52 (a := y.toNat % 2 ^ 63)
  unfold f64Value
  generalize magnitude 52 (x.toNat % 2 ^ 63) = vx at *
  generalize magnitude 52 (y.toNat % 2 ^ 63) = vy at *
  split <;> split <;> (split at * <;> split at * <;> omega)

theorem encodeF32_lt {x y : BitVec 32} (hx : ¬ IsNaN32 x) (hy : ¬ IsNaN32 y) :
    (encodeF32 x).toNat < (encodeF32 y).toNat ↔ f32Value x < f32Value y := by
  rw [toNat_encodeF32 hx, toNat_encodeF32 hy]
  have mx := x.isLt
  have my := y.isLt
  have hlt := magnitude_lt_iff 23 (a := x.toNat % 2 ^ 31) (b := y.toNat % 2 ^ 31)
  have hgt := magnitude_lt_iff 23 (a := y.toNat % 2 ^ 31) (b := x.toNat % 2 ^ 31)
  have px := magnitude_pos 23 (a := x.toNat % 2 ^ 31)
  have py := magnitude_pos 23 (a := y.toNat % 2 ^ 31)
  unfold f32Value
  generalize magnitude 23 (x.toNat % 2 ^ 31) = vx at *
  generalize magnitude 23 (y.toNat % 2 ^ 31) = vy at *
  split <;> split <;> (split at * <;> split at * <;> omega)

theorem and_pow_high {x k : Nat} (h : x < 2 ^ (k+1)) : x &&& 2 ^ k = if x < 2 ^ k then 0 else 2 ^ k := by
  apply Nat.eq_of_testBit_eq
  intro i
  rw [Nat.testBit_and, Nat.testBit_two_pow]
  by_cases hi : k = i
  · subst hi
    split
    · rename_i h2; simp [Nat.testBit_lt_two_pow h2]
    · rename_i h2
      obtain ⟨y, rfl⟩ := Nat.exists_eq_add_of_le (Nat.not_lt.1 h2)
      have : y < 2 ^ k := by rw [Nat.pow_succ] at h; omega
      rw [Nat.testBit_two_pow_add_eq, Nat.testBit_lt_two_pow this]; simp
  · split <;> simp [hi]

theorem toNat_decodeF64 (x : BitVec 64) :
    (decodeF64 x).toNat = if 2 ^ 63 ≤ x.toNat then x.toNat - 2 ^ 63 else 2 ^ 64 - 1 - x.toNat := by
  have hx := x.isLt
  unfold decodeF64
  have e : ((x &&& 0x8000000000000000#64) >>> 63).toNat = if x.toNat < 2 ^ 63 then 0 else 1 := by
    rw [BitVec.toNat_ushiftRight, BitVec.toNat_and, show (0x8000000000000000#64).toNat = 2 ^ 63 from rfl,
      and_pow_high (k := 63) hx]
    split <;> simp
  rw [e]
  by_cases h : x.toNat < 2 ^ 63
  · rw [if_pos h, if_neg (by omega), if_neg (by omega), BitVec.toNat_not]
  · rw [if_neg h, if_pos (by omega), if_pos (by omega)]
    have e1 : ((x &&& ~~~0x8000000000000000#64)).toNat = x.toNat % 2 ^ 63 := by
      rw [BitVec.toNat_and]; exact Nat.and_two_pow_sub_one_eq_mod x.toNat 63
    have := e1
    omega

theorem toNat_decodeF32 (x : BitVec 32) :
    (decodeF32 x).toNat = if 2 ^ 31 ≤ x.toNat then x.toNat - 2 ^ 31 else 2 ^ 32 - 1 - x.toNat := by
  have hx := x.isLt
  unfold decodeF32
  have e : ((x &&& 0x80000000#32) >>> 31).toNat = if x.toNat < 2 ^ 31 then 0 else 1 := by
    rw [BitVec.toNat_ushiftRight, BitVec.toNat_and, show (0x80000000#32).toNat = 2 ^ 31 from rfl,
      and_pow_high (k := 31) hx]
    split <;> simp
  rw [e]
  by_cases h : x.toNat < 2 ^ 31
  · rw [if_pos h, if_neg (by omega), if_neg (by omega), BitVec.toNat_not]
  · rw [if_neg h, if_pos (by omega), if_pos (by omega)]
    have e1 : ((x &&& ~~~0x80000000#32)).toNat = x.toNat % 2 ^ 31 := by
      rw [BitVec.toNat_and]; exact Nat.and_two_pow_sub_one_eq_mod x.toNat 31
    have := e1
    omega

theorem decodeF64_encodeF64 {x : BitVec 64} (h : ¬ IsNaN64 x) (h0 : x ≠ 0x8000000000000000#64) :
    decodeF64 (encodeF64 x) = x := by
  apply BitVec.eq_of_toNat_eq
  have hx := x.isLt
  rw [toNat_decodeF64, toNat_encodeF64 h]
  have h0' : x.toNat ≠ 2 ^ 63 := fun e => h0 (BitVec.eq_of_toNat_eq (by rw [e]; rfl))
  have hp := magnitude_pos 52 (a := x.toNat % 2 ^ 63)
  unfold f64Value
  split <;> split <;> split at * <;> omega

theorem decodeF32_encodeF32 {x : BitVec 32} (h : ¬ IsNaN32 x) (h0 : x ≠ 0x80000000#32) :
    decodeF32 (encodeF32 x) = x := by
  apply BitVec.eq_of_toNat_eq
  have hx := x.isLt
  rw [toNat_decodeF32, toNat_encodeF32 h]
  have h0' : x.toNat ≠ 2 ^ 31 := fun e => h0 (BitVec.eq_of_toNat_eq (by rw [e]; rfl))
  have hp := magnitude_pos 23 (a := x.toNat % 2 ^ 31)
  unfold f32Value
  split <;> split <;> split at * <;> omega


/-! ### Typed columns -/

theorem appendI8_eq (k : Bytes) (x : BitVec 8) : appendI8 k x = k ++ beNat 1 (encodeI8 x).toNat := by
  rw [appendI8, memLE_one]
theorem appendU8_eq (k : Bytes) (x : BitVec 8) : appendU8 k x = k ++ beNat 1 x.toNat := by
  rw [appendU8, memLE_one]
theorem appendI16_eq (k : Bytes) (x : BitVec 16) : appendI16 k x = k ++ beNat 2 (encodeI16 x).toNat := by
  rw [appendI16, memLE_toEndian16]
theorem appendU16_eq (k : Bytes) (x : BitVec 16) : appendU16 k x = k ++ beNat 2 x.toNat := by
  rw [appendU16, memLE_toEndian16]
theorem appendI32_eq (k : Bytes) (x : BitVec 32) : appendI32 k x = k ++ beNat 4 (encodeI32 x).toNat := by
  rw [appendI32, memLE_toEndian32]
theorem appendU32_eq (k : Bytes) (x : BitVec 32) : appendU32 k x = k ++ beNat 4 x.toNat := by
  rw [appendU32, memLE_toEndian32]
theorem appendI64_eq (k : Bytes) (x : BitVec 64) : appendI64 k x = k ++ beNat 8 (encodeI64 x).toNat := by
  rw [appendI64, memLE_toEndian64]
theorem appendU64_eq (k : Bytes) (x : BitVec 64) : appendU64 k x = k ++ beNat 8 x.toNat := by
  rw [appendU64, memLE_toEndian64]
theorem appendFloat_eq (k : Bytes) (x : BitVec 32) : appendFloat k x = k ++ beNat 4 (encodeF32 x).toNat := by
  rw [appendFloat, memLE_toEndian32]
theorem appendDouble_eq (k : Bytes) (x : BitVec 64) : appendDouble k x = k ++ beNat 8 (encodeF64 x).toNat := by
  rw [appendDouble, memLE_toEndian64]
theorem appendBoolean_eq (k : Bytes) (x : Bool) : appendBoolean k x = k ++ beNat 1 x.toNat := by
  cases x <;> rfl

theorem toNat_encodeI8 (x : BitVec 8) : ((encodeI8 x).toNat : Int) = x.toInt + 2 ^ 7 :=
  toNat_xor_sign (k := 7) x _ rfl
theorem toNat_encodeI16 (x : BitVec 16) : ((encodeI16 x).toNat : Int) = x.toInt + 2 ^ 15 :=
  toNat_xor_sign (k := 15) x _ rfl
theorem toNat_encodeI32 (x : BitVec 32) : ((encodeI32 x).toNat : Int) = x.toInt + 2 ^ 31 :=
  toNat_xor_sign (k := 31) x _ rfl
theorem toNat_encodeI64 (x : BitVec 64) : ((encodeI64 x).toNat : Int) = x.toInt + 2 ^ 63 :=
  toNat_xor_sign (k := 63) x _ rfl

theorem toInt_setWidth8 {x : BitVec 32} (h : -128 ≤ x.toInt ∧ x.toInt < 128) : (x.setWidth 8).toInt = x.toInt := by
  have hx := x.isLt
  rw [BitVec.toInt_eq_toNat_cond] at h ⊢
  rw [BitVec.toInt_eq_toNat_cond (x := x), BitVec.toNat_setWidth]
  split <;> split <;> split at h <;> omega

theorem toInt_setWidth16 {x : BitVec 32} (h : -32768 ≤ x.toInt ∧ x.toInt < 32768) :
    (x.setWidth 16).toInt = x.toInt := by
  have hx := x.isLt
  rw [BitVec.toInt_eq_toNat_cond] at h ⊢
  rw [BitVec.toInt_eq_toNat_cond (x := x), BitVec.toNat_setWidth]
  split <;> split <;> split at h <;> omega

/-- Bytes appended for one column. -/
theorem encodeField_prefix {t : PType} {v : PbVal} {key : Bytes} {lp : Bool} :
    encodeField t v key lp = (encodeField t v [] lp).map (key ++ ·) := by
  cases t <;> cases v <;> cases lp <;>
    simp [encodeField, appendI8, appendI16, appendI32, appendI64, appendU8, appendU16, appendU32, appendU64,
      appendFloat, appendDouble, appendBoolean, appendString, appendStringPrefix]

theorem valid_encodes {t : PType} {v : PbVal} (h : Valid t v) (lp : Bool) : ∃ a, encodeField t v [] lp = some a := by
  cases t <;> cases v <;> simp [Valid, encodeField] at h ⊢

theorem fixed_order {n p q : Nat} {x y : Int} {o : Ordering} (hp : p < 256 ^ n) (hq : q < 256 ^ n)
    (h1 : p < q ↔ x < y) (h2 : q < p ↔ y < x) (ho : o = compare x y) (s t : Bytes) :
    bcmp (beNat n p ++ s) (beNat n q ++ t) = o.then (bcmp s t) := by
  rw [bcmp_append_of_length_eq (by simp), bcmp_beNat hp hq, compare_eq_of_lt_iff h1 h2, ho]

theorem fixed_order_nat {n p q : Nat} (hp : p < 256 ^ n) (hq : q < 256 ^ n) (s t : Bytes) :
    bcmp (beNat n p ++ s) (beNat n q ++ t) = (compare p q).then (bcmp s t) := by
  rw [bcmp_append_of_length_eq (by simp), bcmp_beNat hp hq]

theorem cstring_order {a b : Bytes} (ha : 0#8 ∉ a) (hb : 0#8 ∉ b) (s t : Bytes) :
    bcmp (a ++ [0#8] ++ s) (b ++ [0#8] ++ t) = (bcmp a b).then (bcmp s t) := by
  have pos : ∀ c : Byte, c ≠ 0#8 → 0 < c.toNat := by
    intro c hc
    rcases Nat.eq_zero_or_pos c.toNat with h | h
    · exact absurd (BitVec.eq_of_toNat_eq (by simpa using h)) hc
    · exact h
  induction a generalizing b with
  | nil => cases b with
    | nil => simp [bcmp]
    | cons y ys =>
      simp only [List.mem_cons, not_or] at hb
      have := pos y (fun h => hb.1 h.symm)
      simp [bcmp, this]
  | cons x xs ih => cases b with
    | nil =>
      simp only [List.mem_cons, not_or] at ha
      have := pos x (fun h => ha.1 h.symm)
      simp [bcmp, this]
    | cons y ys =>
      simp only [List.mem_cons, not_or] at ha hb
      simp only [List.cons_append, bcmp]
      split
      · simp
      · split
        · simp
        · exact ih ha.2 hb.2

theorem col_order {t : PType} {v w : PbVal} {a b : Bytes} (hv : Valid t v) (hw : Valid t w)
    (ea : encodeField t v [] false = some a) (eb : encodeField t w [] false = some b) (s s' : Bytes) :
    bcmp (a ++ s) (b ++ s') = (colCompare v w).then (bcmp s s') := by
  cases t <;> cases v <;> (try simp only [Valid] at hv) <;> cases w <;> (try simp only [Valid] at hw) <;>
    simp only [encodeField, Option.some.injEq] at ea eb <;> subst ea <;> subst eb <;>
    simp only [appendI8_eq, appendI16_eq, appendI32_eq, appendI64_eq, appendU8_eq, appendU16_eq, appendU32_eq,
      appendU64_eq, appendFloat_eq, appendDouble_eq, appendBoolean_eq, List.nil_append, colCompare,
      Bool.false_eq_true, if_false]
  case bool.bool.bool x y => 
    refine fixed_order_nat ?_ ?_ s s' <;> cases x <;> cases y <;> simp
  case int8.i32.i32 x y =>
    have e1 := toNat_encodeI8 (x.setWidth 8)
    have e2 := toNat_encodeI8 (y.setWidth 8)
    rw [toInt_setWidth8 hv] at e1
    rw [toInt_setWidth8 hw] at e2
    exact fixed_order (encodeI8 _).isLt (encodeI8 _).isLt (by omega) (by omega) rfl s s'
  case int16.i32.i32 x y =>
    have e1 := toNat_encodeI16 (x.setWidth 16)
    have e2 := toNat_encodeI16 (y.setWidth 16)
    rw [toInt_setWidth16 hv] at e1
    rw [toInt_setWidth16 hw] at e2
    exact fixed_order (encodeI16 _).isLt (encodeI16 _).isLt (by omega) (by omega) rfl s s'
  case int32.i32.i32 x y =>
    have e1 := toNat_encodeI32 x
    have e2 := toNat_encodeI32 y
    exact fixed_order (encodeI32 _).isLt (encodeI32 _).isLt (by omega) (by omega) rfl s s'
  case time.i32.i32 x y =>
    have e1 := toNat_encodeI32 x
    have e2 := toNat_encodeI32 y
    exact fixed_order (encodeI32 _).isLt (encodeI32 _).isLt (by omega) (by omega) rfl s s'
  case int64.i64.i64 x y =>
    have e1 := toNat_encodeI64 x
    have e2 := toNat_encodeI64 y
    exact fixed_order (encodeI64 _).isLt (encodeI64 _).isLt (by omega) (by omega) rfl s s'
  case uint8.u32.u32 x y =>
    have e1 : (x.setWidth 8).toNat = x.toNat := by rw [BitVec.toNat_setWidth]; omega
    have e2 : (y.setWidth 8).toNat = y.toNat := by rw [BitVec.toNat_setWidth]; omega
    rw [e1, e2]
    exact fixed_order_nat hv hw s s'
  case uint16.u32.u32 x y =>
    have e1 : (x.setWidth 16).toNat = x.toNat := by rw [BitVec.toNat_setWidth]; omega
    have e2 : (y.setWidth 16).toNat = y.toNat := by rw [BitVec.toNat_setWidth]; omega
    rw [e1, e2]
    exact fixed_order_nat hv hw s s'
  case uint32.u32.u32 x y => exact fixed_order_nat x.isLt y.isLt s s'
  case timestamp.u32.u32 x y => exact fixed_order_nat x.isLt y.isLt s s'
  case date.u32.u32 x y => exact fixed_order_nat x.isLt y.isLt s s'
  case uint64.u64.u64 x y => exact fixed_order_nat x.isLt y.isLt s s'
  case datetime.u64.u64 x y => exact fixed_order_nat x.isLt y.isLt s s'
  case float.f32.f32 x y =>
    exact fixed_order (encodeF32 _).isLt (encodeF32 _).isLt (encodeF32_lt hv hw) (encodeF32_lt hw hv) rfl s s'
  case double.f64.f64 x y =>
    exact fixed_order (encodeF64 _).isLt (encodeF64 _).isLt (encodeF64_lt hv hw) (encodeF64_lt hw hv) rfl s s'
  case string.str.str x y => exact cstring_order hv hw s s'

/-! ### Reading back -/

theorem peek_mid (p m s : Bytes) : peek (p ++ m ++ s) p.length m.length = some m := by
  unfold peek
  rw [if_pos (by simp)]
  simp

theorem peek_mid' {p m s : Bytes} {n : Nat} (h : m.length = n) : peek (p ++ m ++ s) p.length n = some m := by
  subst h; exact peek_mid p m s

theorem decodeI8_encodeI8 (x : BitVec 8) : decodeI8 (encodeI8 x) = x := by
  rw [decodeI8, encodeI8, BitVec.xor_assoc, BitVec.xor_self, BitVec.xor_zero]
theorem decodeI16_encodeI16 (x : BitVec 16) : decodeI16 (encodeI16 x) = x := by
  rw [decodeI16, encodeI16, BitVec.xor_assoc, BitVec.xor_self, BitVec.xor_zero]
theorem decodeI32_encodeI32 (x : BitVec 32) : decodeI32 (encodeI32 x) = x := by
  rw [decodeI32, encodeI32, BitVec.xor_assoc, BitVec.xor_self, BitVec.xor_zero]
theorem decodeI64_encodeI64 (x : BitVec 64) : decodeI64 (encodeI64 x) = x := by
  rw [decodeI64, encodeI64, BitVec.xor_assoc, BitVec.xor_self, BitVec.xor_zero]

theorem extractI8_append (k : Bytes) (x : BitVec 8) (s : Bytes) :
    extractI8 (appendI8 k x ++ s) k.length = some x := by
  rw [extractI8, appendI8, peek_mid' (by simp)]
  simp [loadLE_memLE, decodeI8_encodeI8]
theorem extractU8_append (k : Bytes) (x : BitVec 8) (s : Bytes) :
    extractU8 (appendU8 k x ++ s) k.length = some x := by
  rw [extractU8, appendU8, peek_mid' (by simp)]
  simp [loadLE_memLE]
theorem extractI16_append (k : Bytes) (x : BitVec 16) (s : Bytes) :
    extractI16 (appendI16 k x ++ s) k.length = some x := by
  rw [extractI16, appendI16, peek_mid' (by simp)]
  simp [loadLE_memLE, toEndian16_invol, decodeI16_encodeI16]
theorem extractU16_append (k : Bytes) (x : BitVec 16) (s : Bytes) :
    extractU16 (appendU16 k x ++ s) k.length = some x := by
  rw [extractU16, appendU16, peek_mid' (by simp)]
  simp [loadLE_memLE, toEndian16_invol]
theorem extractI32_append (k : Bytes) (x : BitVec 32) (s : Bytes) :
    extractI32 (appendI32 k x ++ s) k.length = some x := by
  rw [extractI32, appendI32, peek_mid' (by simp)]
  simp [loadLE_memLE, toEndian32_invol, decodeI32_encodeI32]
theorem extractU32_append (k : Bytes) (x : BitVec 32) (s : Bytes) :
    extractU32 (appendU32 k x ++ s) k.length = some x := by
  rw [extractU32, appendU32, peek_mid' (by simp)]
  simp [loadLE_memLE, toEndian32_invol]
theorem extractI64_append (k : Bytes) (x : BitVec 64) (s : Bytes) :
    extractI64 (appendI64 k x ++ s) k.length = some x := by
  rw [extractI64, appendI64, peek_mid' (by simp)]
  simp [loadLE_memLE, toEndian64_invol, decodeI64_encodeI64]
theorem extractU64_append (k : Bytes) (x : BitVec 64) (s : Bytes) :
    extractU64 (appendU64 k x ++ s) k.length = some x := by
  rw [extractU64, appendU64, peek_mid' (by simp)]
  simp [loadLE_memLE, toEndian64_invol]
theorem extractFloat_append (k : Bytes) (x : BitVec 32) (s : Bytes) :
    extractFloat (appendFloat k x ++ s) k.length = some (decodeF32 (encodeF32 x)) := by
  rw [extractFloat, appendFloat, peek_mid' (by simp)]
  simp [loadLE_memLE, toEndian32_invol]
theorem extractDouble_append (k : Bytes) (x : BitVec 64) (s : Bytes) :
    extractDouble (appendDouble k x ++ s) k.length = some (decodeF64 (encodeF64 x)) := by
  rw [extractDouble, appendDouble, peek_mid' (by simp)]
  simp [loadLE_memLE, toEndian64_invol]
theorem extractBoolean_append (k : Bytes) (x : Bool) (s : Bytes) :
    extractBoolean (appendBoolean k x ++ s) k.length = some x := by
  rw [extractBoolean, appendBoolean, peek_mid' (by simp)]
  cases x <;> simp [loadLE_memLE]

theorem cstr_append {a : Bytes} (h : 0#8 ∉ a) (s : Bytes) : cstr (a ++ 0#8 :: s) = some a := by
  induction a with
  | nil => simp [cstr]
  | cons x xs ih =>
    simp only [List.mem_cons, not_or] at h
    have : x ≠ 0#8 := fun e => h.1 e.symm
    simp [cstr, this, ih h.2]

theorem extractString_append (k : Bytes) {x : Bytes} (h : 0#8 ∉ x) (s : Bytes) :
    extractString (appendString k x ++ s) k.length = some x := by
  rw [extractString, appendString]
  have : (k ++ x ++ [0#8] ++ s).drop k.length = x ++ 0#8 :: s := by simp [List.append_assoc]
  rw [this, cstr_append h]

theorem fixedRd_map {α : Type} {d : Bytes} {pos n : Nat} {g : Option α} {x : α} {f : α → PbVal} (hg : g = some x)
    (h : pos + n ≤ d.length) : fixedRd d pos n (g.map f) = .ok (f x) (pos + n) := by
  subst hg
  unfold fixedRd
  rw [if_neg (by omega)]; rfl

/-- Round trip of one typed column at its place in a key. -/
theorem decodeField_encodeField {t : PType} {v : PbVal} {k k' : Bytes} (h : Valid t v) (h0 : NotNegZero v)
    (e : encodeField t v k false = some k') (s : Bytes) :
    decodeField t (k' ++ s) k.length = .ok v k'.length := by
  cases t <;> cases v <;> simp only [Valid] at h <;>
    simp only [encodeField, Option.some.injEq] at e <;> subst e <;> unfold decodeField
  case bool.bool x =>
    rw [fixedRd_map (extractBoolean_append k x s) (by simp [appendBoolean])]; simp [appendBoolean]
  case int8.i32 x =>
    rw [fixedRd_map (extractI8_append k _ s) (by simp [appendI8])]; simp [appendI8]
    apply BitVec.eq_of_toInt_eq
    rw [BitVec.toInt_signExtend_of_le (by omega), toInt_setWidth8 h]
  case int16.i32 x =>
    rw [fixedRd_map (extractI16_append k _ s) (by simp [appendI16])]; simp [appendI16]
    apply BitVec.eq_of_toInt_eq
    rw [BitVec.toInt_signExtend_of_le (by omega), toInt_setWidth16 h]
  case int32.i32 x =>
    rw [fixedRd_map (extractI32_append k x s) (by simp [appendI32])]; simp [appendI32]
  case time.i32 x =>
    rw [fixedRd_map (extractI32_append k x s) (by simp [appendI32])]; simp [appendI32]
  case int64.i64 x =>
    rw [fixedRd_map (extractI64_append k x s) (by simp [appendI64])]; simp [appendI64]
  case uint8.u32 x =>
    rw [fixedRd_map (extractU8_append k _ s) (by simp [appendU8])]; simp [appendU8]
    apply BitVec.eq_of_toNat_eq; simp; omega
  case uint16.u32 x =>
    rw [fixedRd_map (extractU16_append k _ s) (by simp [appendU16])]; simp [appendU16]
    apply BitVec.eq_of_toNat_eq; simp; omega
  case uint32.u32 x =>
    rw [fixedRd_map (extractU32_append k x s) (by simp [appendU32])]; simp [appendU32]
  case timestamp.u32 x =>
    rw [fixedRd_map (extractU32_append k x s) (by simp [appendU32])]; simp [appendU32]
  case date.u32 x =>
    rw [fixedRd_map (extractU32_append k x s) (by simp [appendU32])]; simp [appendU32]
  case uint64.u64 x =>
    rw [fixedRd_map (extractU64_append k x s) (by simp [appendU64])]; simp [appendU64]
  case datetime.u64 x =>
    rw [fixedRd_map (extractU64_append k x s) (by simp [appendU64])]; simp [appendU64]
  case float.f32 x =>
    rw [fixedRd_map (extractFloat_append k x s) (by simp [appendFloat]), decodeF32_encodeF32 h h0]; simp [appendFloat]
  case double.f64 x =>
    rw [fixedRd_map (extractDouble_append k x s) (by simp [appendDouble]), decodeF64_encodeF64 h h0]; simp [appendDouble]
  case string.str x =>
    simp only [Bool.false_eq_true, if_false]
    rw [extractString_append k h, if_neg (by simp [appendString]; omega)]
    simp [appendString]; omega

end BaikalDB.KeyEnc
