/-!
# Byte strings

Shared vocabulary: a byte is `BitVec 8`, a byte string (`std::string`, `rocksdb::Slice`) a list of bytes.
-/
namespace BaikalDB

abbrev Byte := BitVec 8
abbrev Bytes := List Byte

/-- `rocksdb::Slice::compare` / `memcmp` on unsigned bytes, the shorter string first on a tie. -/
def bcmp : Bytes → Bytes → Ordering
  | [], [] => .eq
  | [], _ :: _ => .lt
  | _ :: _, [] => .gt
  | a :: as, b :: bs => if a.toNat < b.toNat then .lt else if b.toNat < a.toNat then .gt else bcmp as bs

/-- Strict byte order. -/
def BLt (a b : Bytes) : Prop := bcmp a b = .lt
/-- Non-strict byte order. -/
def BLe (a b : Bytes) : Prop := bcmp a b ≠ .gt

instance (a b : Bytes) : Decidable (BLt a b) := inferInstanceAs (Decidable (_ = _))
instance (a b : Bytes) : Decidable (BLe a b) := inferInstanceAs (Decidable (_ ≠ _))

theorem byte_eq_of_not_lt {a b : Byte} (h1 : ¬ a.toNat < b.toNat) (h2 : ¬ b.toNat < a.toNat) : a = b :=
  BitVec.eq_of_toNat_eq (by omega)

@[simp] theorem bcmp_self (a : Bytes) : bcmp a a = .eq := by
  induction a with
  | nil => rfl
  | cons x xs ih => simp [bcmp, ih]

theorem bcmp_eq_iff {a b : Bytes} : bcmp a b = .eq ↔ a = b := by
  constructor
  · intro h
    induction a generalizing b with
    | nil => cases b with
      | nil => rfl
      | cons => simp [bcmp] at h
    | cons x xs ih => cases b with
      | nil => simp [bcmp] at h
      | cons y ys =>
        simp only [bcmp] at h
        split at h
        · simp at h
        · split at h
          · simp at h
          · rename_i h1 h2
            rw [byte_eq_of_not_lt h1 h2, ih h]
  · rintro rfl; simp

theorem bcmp_swap (a b : Bytes) : (bcmp a b).swap = bcmp b a := by
  induction a generalizing b with
  | nil => cases b <;> rfl
  | cons x xs ih => cases b with
    | nil => rfl
    | cons y ys =>
      simp only [bcmp]
      by_cases h1 : x.toNat < y.toNat
      · have : ¬ y.toNat < x.toNat := by omega
        simp [h1, this]
      · by_cases h2 : y.toNat < x.toNat
        · simp [h1, h2]
        · simp [h1, h2, ih]

theorem bcmp_gt_iff {a b : Bytes} : bcmp a b = .gt ↔ BLt b a := by
  rw [BLt, ← bcmp_swap b a]; cases bcmp b a <;> simp

theorem BLt.trans {a b c : Bytes} (h1 : BLt a b) (h2 : BLt b c) : BLt a c := by
  unfold BLt at *
  induction a generalizing b c with
  | nil => cases b with
    | nil => simp [bcmp] at h1
    | cons y ys => cases c with
      | nil => simp [bcmp] at h2
      | cons z zs => simp [bcmp]
  | cons x xs ih => cases b with
    | nil => simp [bcmp] at h1
    | cons y ys => cases c with
      | nil => simp [bcmp] at h2
      | cons z zs =>
        simp only [bcmp] at *
        split at h1
        · split at h2
          · rw [if_pos (by omega)]
          · split at h2
            · simp at h2
            · rw [if_pos (by omega)]
        · split at h1
          · simp at h1
          · split at h2
            · rw [if_pos (by omega)]
            · split at h2
              · simp at h2
              · rw [if_neg (by omega), if_neg (by omega)]
                exact ih h1 h2

theorem BLt.irrefl (a : Bytes) : ¬ BLt a a := by simp [BLt]

theorem BLt.asymm {a b : Bytes} (h : BLt a b) : ¬ BLt b a := fun h' => BLt.irrefl a (h.trans h')

theorem BLe_iff {a b : Bytes} : BLe a b ↔ BLt a b ∨ a = b := by
  unfold BLe BLt
  rw [← bcmp_eq_iff]
  cases bcmp a b <;> simp

theorem not_BLt {a b : Bytes} : ¬ BLt a b ↔ BLe b a := by
  unfold BLe BLt
  rw [← bcmp_swap b a]
  cases bcmp b a <;> simp

theorem not_BLe {a b : Bytes} : ¬ BLe a b ↔ BLt b a := by
  rw [← not_BLt]; exact ⟨Classical.not_not.mp, fun h => not_not_intro h⟩

theorem BLe.refl (a : Bytes) : BLe a a := by simp [BLe]
theorem BLt.le {a b : Bytes} (h : BLt a b) : BLe a b := BLe_iff.2 (.inl h)

theorem BLe.trans {a b c : Bytes} (h1 : BLe a b) (h2 : BLe b c) : BLe a c := by
  rw [BLe_iff] at *
  rcases h1 with h1 | rfl
  · rcases h2 with h2 | rfl
    · exact .inl (h1.trans h2)
    · exact .inl h1
  · exact h2

theorem BLt.trans_le {a b c : Bytes} (h1 : BLt a b) (h2 : BLe b c) : BLt a c := by
  rw [BLe_iff] at h2
  rcases h2 with h2 | rfl
  · exact h1.trans h2
  · exact h1

theorem BLe.trans_lt {a b c : Bytes} (h1 : BLe a b) (h2 : BLt b c) : BLt a c := by
  rw [BLe_iff] at h1
  rcases h1 with h1 | rfl
  · exact h1.trans h2
  · exact h2

theorem BLe.antisymm {a b : Bytes} (h1 : BLe a b) (h2 : BLe b a) : a = b := by
  rw [BLe_iff] at h1 h2
  rcases h1 with h1 | h1
  · rcases h2 with h2 | h2
    · exact absurd h2 h1.asymm
    · exact h2.symm
  · exact h1

theorem BLe.total (a b : Bytes) : BLe a b ∨ BLe b a := by
  by_cases h : BLt a b
  · exact .inl h.le
  · exact .inr (not_BLt.1 h)

theorem BLt_trichotomy (a b : Bytes) : BLt a b ∨ a = b ∨ BLt b a := by
  by_cases h : BLt a b
  · exact .inl h
  · have := not_BLt.1 h
    rw [BLe_iff] at this
    rcases this with h | h
    · exact .inr (.inr h)
    · exact .inr (.inl h.symm)

@[simp] theorem bcmp_append_left (p a b : Bytes) : bcmp (p ++ a) (p ++ b) = bcmp a b := by
  induction p with
  | nil => rfl
  | cons x xs ih => simp [bcmp, ih]

/-- Two strings of equal length decide the comparison unless they are equal. -/
theorem bcmp_append_of_length_eq {a b : Bytes} (h : a.length = b.length) (s t : Bytes) :
    bcmp (a ++ s) (b ++ t) = (bcmp a b).then (bcmp s t) := by
  induction a generalizing b with
  | nil => cases b with
    | nil => simp [bcmp]
    | cons => simp at h
  | cons x xs ih => cases b with
    | nil => simp at h
    | cons y ys =>
      simp only [List.cons_append, bcmp]
      split
      · simp
      · split
        · simp
        · exact ih (by simpa using h)

theorem BLe_nil (a : Bytes) : BLe [] a := by cases a <;> simp [BLe, bcmp]

theorem BLe_append (a s : Bytes) : BLe a (a ++ s) := by
  have := bcmp_append_left a [] s
  simp only [List.append_nil] at this
  rw [BLe, this]; exact BLe_nil s

/-- Big-endian digits: the `n` low-order bytes of `x`, most significant first. -/
def beNat : Nat → Nat → Bytes
  | 0, _ => []
  | n + 1, x => BitVec.ofNat 8 (x / 256 ^ n) :: beNat n x

@[simp] theorem length_beNat (n x : Nat) : (beNat n x).length = n := by
  induction n with
  | zero => rfl
  | succ n ih => simp [beNat, ih]

/-- Value of a big-endian byte string. -/
def ofBE (bs : Bytes) : Nat := bs.foldl (fun a b => a * 256 + b.toNat) 0

theorem foldl_be (bs : Bytes) (a : Nat) :
    bs.foldl (fun a b => a * 256 + b.toNat) a = a * 256 ^ bs.length + ofBE bs := by
  induction bs generalizing a with
  | nil => simp [ofBE]
  | cons b bs ih =>
    have h1 := ih (a * 256 + b.toNat)
    have h2 := ih b.toNat
    simp only [List.foldl_cons, ofBE, Nat.zero_mul, Nat.zero_add, List.length_cons] at *
    rw [h1, h2, Nat.pow_succ, Nat.add_mul]
    rw [Nat.mul_assoc, Nat.mul_comm 256]; omega

theorem ofBE_cons (b : Byte) (bs : Bytes) : ofBE (b :: bs) = b.toNat * 256 ^ bs.length + ofBE bs := by
  have := foldl_be bs b.toNat
  simpa [ofBE] using this

theorem ofBE_beNat (n x : Nat) : ofBE (beNat n x) = x % 256 ^ n := by
  induction n with
  | zero => simp [beNat, ofBE, Nat.mod_one]
  | succ n ih =>
    rw [beNat, ofBE_cons, ih, length_beNat, BitVec.toNat_ofNat, show (2:Nat)^8 = 256 from rfl,
      show 256 ^ (n+1) = 256 ^ n * 256 from rfl, Nat.mod_mul, Nat.mul_comm]
    omega

theorem ofBE_lt (bs : Bytes) : ofBE bs < 256 ^ bs.length := by
  induction bs with
  | nil => simp [ofBE]
  | cons b bs ih =>
    rw [ofBE_cons, List.length_cons, Nat.pow_succ]
    have : b.toNat < 256 := b.isLt
    have h2 : b.toNat * 256 ^ bs.length ≤ 255 * 256 ^ bs.length := Nat.mul_le_mul_right _ (by omega)
    omega

theorem beNat_ofBE (bs : Bytes) : beNat bs.length (ofBE bs) = bs := by
  suffices h : ∀ n a, bs.length = n → beNat n (a * 256 ^ n + ofBE bs) = bs by
    have := h bs.length 0 rfl; simpa using this
  induction bs with
  | nil => intro n a h; subst h; rfl
  | cons b bs ih =>
    intro n a h
    subst h
    rw [List.length_cons, beNat]
    have hl := ofBE_lt bs
    have hb : b.toNat < 256 := b.isLt
    congr 1
    · apply BitVec.eq_of_toNat_eq
      rw [BitVec.toNat_ofNat, ofBE_cons, ← Nat.add_assoc]
      have : (a * 256 ^ (bs.length + 1) + b.toNat * 256 ^ bs.length + ofBE bs) =
          ofBE bs + 256 ^ bs.length * (a * 256 + b.toNat) := by
        rw [Nat.pow_succ, Nat.mul_add, Nat.mul_comm b.toNat, Nat.mul_comm (256 ^ bs.length) 256,
          ← Nat.mul_assoc, Nat.mul_comm (256 ^ bs.length) (a * 256)]; omega
      rw [this, Nat.add_mul_div_left _ _ (Nat.pow_pos (by omega)), Nat.div_eq_of_lt hl]
      have : (2:Nat)^8 = 256 := rfl
      omega
    · have := ih bs.length (a * 256 + b.toNat) rfl
      rw [ofBE_cons, ← Nat.add_assoc]
      rw [Nat.add_mul, Nat.mul_assoc] at this
      rw [Nat.pow_succ, Nat.mul_comm (256 ^ bs.length) 256]
      exact this

/-- Big-endian fixed-width strings compare like the numbers they denote. -/
theorem bcmp_ofBE {a b : Bytes} (h : a.length = b.length) : bcmp a b = compare (ofBE a) (ofBE b) := by
  induction a generalizing b with
  | nil => cases b with
    | nil => rfl
    | cons => simp at h
  | cons x xs ih => cases b with
    | nil => simp at h
    | cons y ys =>
      have hl : xs.length = ys.length := by simpa using h
      have h1 := ofBE_lt xs
      have h2 := ofBE_lt ys
      rw [ofBE_cons, ofBE_cons, bcmp]
      rw [hl] at h1 ⊢
      have key : ∀ p q : Nat, p < q → p * 256 ^ ys.length + 256 ^ ys.length ≤ q * 256 ^ ys.length := by
        intro p q hpq
        calc p * 256 ^ ys.length + 256 ^ ys.length = (p + 1) * 256 ^ ys.length := by rw [Nat.add_mul]; omega
          _ ≤ q * 256 ^ ys.length := Nat.mul_le_mul_right _ hpq
      split
      · rename_i hlt
        have := key _ _ hlt
        rw [eq_comm, Nat.compare_eq_lt]; omega
      · split
        · rename_i hlt
          have := key _ _ hlt
          rw [eq_comm, Nat.compare_eq_gt]; omega
        · rename_i n1 n2
          have : x = y := byte_eq_of_not_lt n1 n2
          subst this
          rw [ih hl]
          simp only [Nat.compare_eq_ite_lt]
          have e1 : (x.toNat * 256 ^ ys.length + ofBE xs < x.toNat * 256 ^ ys.length + ofBE ys) ↔ ofBE xs < ofBE ys := by omega
          have e2 : (x.toNat * 256 ^ ys.length + ofBE ys < x.toNat * 256 ^ ys.length + ofBE xs) ↔ ofBE ys < ofBE xs := by omega
          simp only [e1, e2]

theorem bcmp_beNat {n x y : Nat} (hx : x < 256 ^ n) (hy : y < 256 ^ n) :
    bcmp (beNat n x) (beNat n y) = compare x y := by
  rw [bcmp_ofBE (by simp), ofBE_beNat, ofBE_beNat, Nat.mod_eq_of_lt hx, Nat.mod_eq_of_lt hy]

end BaikalDB
