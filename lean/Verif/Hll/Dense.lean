import Verif.Hll.Spec
import Mathlib.Data.List.Basic

/-! Six-bit registers in bytes: a register that is read is the one that was written, and writing one changes
no other. -/

namespace BaikalDB.Hll

/-- Bit `n` of a byte string. -/
def bit (b : List Nat) (n : Nat) : Bool := (b.getD (n / 8) 0).testBit (n % 8)

/-- All elements are bytes. -/
def Bytes (b : List Nat) : Prop := ∀ x ∈ b, x < 256

theorem getD_lt {b : List Nat} (h : Bytes b) (i : Nat) : b.getD i 0 < 256 := by
  rw [List.getD_eq_getElem?_getD]
  cases hx : b[i]? with
  | none => simp
  | some x => exact h x (List.mem_of_getElem? hx)

theorem byte_high {x k : Nat} (h : x < 256) (hk : 8 ≤ k) : x.testBit k = false := by
  apply Nat.testBit_lt_two_pow
  exact Nat.lt_of_lt_of_le h (by
    have : (2:Nat) ^ 8 ≤ 2 ^ k := Nat.pow_le_pow_right (by omega) hk
    simpa using this)

theorem t63 (k : Nat) : (63 : Nat).testBit k = decide (k < 6) := by
  have := Nat.testBit_two_pow_sub_one 6 k
  simpa using this

theorem t255 (k : Nat) : (255 : Nat).testBit k = decide (k < 8) := by
  have := Nat.testBit_two_pow_sub_one 8 k
  simpa using this

theorem denseGet_bit {b : List Nat} (hb : Bytes b) (i k : Nat) :
    (denseGet b i).testBit k = (decide (k < 6) && bit b (i * 6 + k)) := by
  unfold denseGet bit
  rw [Nat.testBit_and, t63, Nat.testBit_or, Nat.testBit_shiftRight, Nat.testBit_shiftLeft]
  by_cases hk : k < 6
  · simp only [hk, decide_true, Bool.and_true, Bool.true_and]
    by_cases h8 : i * 6 % 8 + k < 8
    · have h1 : (i * 6 + k) / 8 = i * 6 / 8 := by omega
      have h2 : (i * 6 + k) % 8 = i * 6 % 8 + k := by omega
      have h3 : ¬ (k ≥ 8 - i * 6 % 8) := by omega
      rw [h1, h2]
      simp [h3]
    · have h1 : (i * 6 + k) / 8 = i * 6 / 8 + 1 := by omega
      have h2 : (i * 6 + k) % 8 = k - (8 - i * 6 % 8) := by omega
      have h3 : k ≥ 8 - i * 6 % 8 := by omega
      rw [h1, h2, byte_high (getD_lt hb _) (by omega)]
      simp [h3]
  · simp [hk]

theorem denseGet_lt (b : List Nat) (i : Nat) : denseGet b i < 64 := by
  unfold denseGet
  exact Nat.lt_of_le_of_lt Nat.and_le_right (by omega)

theorem getD_set {b : List Nat} {i j v : Nat} :
    (b.set i v).getD j 0 = if i = j ∧ j < b.length then v else b.getD j 0 := by
  rw [List.getD_eq_getElem?_getD, List.getD_eq_getElem?_getD, List.getElem?_set]
  by_cases h : i = j
  · subst h
    by_cases hl : i < b.length
    · simp [hl]
    · simp [hl]
  · simp [h]

theorem mod256_bit (x k : Nat) : (x % 256).testBit k = (decide (k < 8) && x.testBit k) := by
  have := Nat.testBit_mod_two_pow x 8 k
  simpa using this

theorem densePut_length (b : List Nat) (i v : Nat) : (densePut b i v).length = b.length := by
  simp [densePut]

theorem densePut_bytes {b : List Nat} (h : Bytes b) (i v : Nat) : Bytes (densePut b i v) := by
  have key : ∀ {b : List Nat} (_ : Bytes b) (j x : Nat), Bytes (b.set j (x % 256)) := by
    intro b hb j x y hy
    rcases List.mem_or_eq_of_mem_set hy with hy | rfl
    · exact hb y hy
    · omega
  exact key (key h _ _) _ _

theorem densePut_bit {b : List Nat} {i v n : Nat} (hv : v < 64)
    (hn : n < 8 * b.length) :
    bit (densePut b i v) n = if i * 6 ≤ n ∧ n < i * 6 + 6 then v.testBit (n - i * 6) else bit b n := by
  have hvhigh : ∀ k, 6 ≤ k → v.testBit k = false := by
    intro k hk
    apply Nat.testBit_lt_two_pow
    have : (2:Nat) ^ 6 ≤ 2 ^ k := Nat.pow_le_pow_right (by omega) hk
    have h6 : (2:Nat) ^ 6 = 64 := rfl
    omega
  have hnl : n / 8 < b.length := by omega
  have hm8 : n % 8 < 8 := Nat.mod_lt _ (by omega)
  unfold densePut bit
  dsimp only
  rw [getD_set]
  simp only [List.length_set]
  by_cases h1 : i * 6 / 8 + 1 = n / 8
  · have h0 : ¬ (i * 6 / 8 = n / 8 ∧ n / 8 < b.length) := by omega
    have h0' : ¬ (i * 6 / 8 = i * 6 / 8 + 1 ∧ i * 6 / 8 + 1 < b.length) := by omega
    rw [if_pos ⟨h1, hnl⟩, getD_set, if_neg h0', mod256_bit, Nat.testBit_or, Nat.testBit_and,
      Nat.testBit_xor, t255, Nat.testBit_shiftRight, Nat.testBit_shiftRight, t63, ← h1]
    simp only [hm8, decide_true, Bool.true_and]
    by_cases hr : i * 6 ≤ n ∧ n < i * 6 + 6
    · have e : 8 - i * 6 % 8 + n % 8 = n - i * 6 := by omega
      have e2 : n - i * 6 < 6 := by omega
      rw [if_pos hr, e]
      simp [e2]
    · have e2 : ¬ (8 - i * 6 % 8 + n % 8 < 6) := by omega
      rw [if_neg hr, hvhigh _ (by omega)]
      simp [e2]
  · rw [if_neg (by omega), getD_set]
    by_cases h2 : i * 6 / 8 = n / 8
    · rw [if_pos ⟨h2, hnl⟩, mod256_bit, Nat.testBit_or, Nat.testBit_and, Nat.testBit_xor, t255,
        Nat.testBit_shiftLeft, Nat.testBit_shiftLeft, t63, ← h2]
      simp only [hm8, decide_true, Bool.true_and]
      by_cases hr : i * 6 ≤ n ∧ n < i * 6 + 6
      · have e : n % 8 - i * 6 % 8 = n - i * 6 := by omega
        have e2 : n - i * 6 < 6 := by omega
        have e3 : n % 8 ≥ i * 6 % 8 := by omega
        rw [if_pos hr, e]
        simp [e2, e3]
      · rw [if_neg hr]
        by_cases e3 : n % 8 ≥ i * 6 % 8
        · have e4 : ¬ (n % 8 - i * 6 % 8 < 6) := by omega
          rw [hvhigh _ (by omega)]
          simp [e4]
        · simp [e3]
    · rw [if_neg (by omega), if_neg (by omega)]

theorem denseGet_put {b : List Nat} (hb : Bytes b) {i j v : Nat} (hv : v < 64)
    (hj : j * 6 + 6 ≤ 8 * b.length) :
    denseGet (densePut b i v) j = if i = j then v else denseGet b j := by
  apply Nat.eq_of_testBit_eq
  intro k
  rw [denseGet_bit (densePut_bytes hb i v)]
  by_cases hk : k < 6
  · rw [densePut_bit hv (by omega)]
    by_cases hij : i = j
    · subst hij
      have : i * 6 ≤ i * 6 + k ∧ i * 6 + k < i * 6 + 6 := by omega
      rw [if_pos this, if_pos rfl]
      simp [hk]
    · have : ¬ (i * 6 ≤ j * 6 + k ∧ j * 6 + k < i * 6 + 6) := by omega
      rw [if_neg this, if_neg hij, denseGet_bit hb]
  · by_cases hij : i = j
    · rw [if_pos hij]
      have h6 : v.testBit k = false := by
        apply Nat.testBit_lt_two_pow
        have : (2:Nat) ^ 6 ≤ 2 ^ k := Nat.pow_le_pow_right (by omega) (by omega)
        have h6 : (2:Nat) ^ 6 = 64 := rfl
        omega
      simp [hk, h6]
    · rw [if_neg hij, denseGet_bit hb]
      simp [hk]

/-- The registers of dense bytes. -/
def denseRegs (n : Nat) (b : List Nat) : List Nat := (List.range n).map (denseGet b)

/-- The register `i` becomes at least `v`. -/
def upd (r : List Nat) (i v : Nat) : List Nat := r.set i (max (r.getD i 0) v)

theorem upd_length (r : List Nat) (i v : Nat) : (upd r i v).length = r.length := by simp [upd]

theorem getD_upd (r : List Nat) (i v j : Nat) :
    (upd r i v).getD j 0 = if i = j ∧ j < r.length then max (r.getD j 0) v else r.getD j 0 := by
  unfold upd
  rw [getD_set]
  by_cases h : i = j ∧ j < r.length
  · rw [if_pos h, if_pos h, h.1]
  · rw [if_neg h, if_neg h]

theorem ext_getD {a b : List Nat} (hl : a.length = b.length) (h : ∀ i, i < a.length → a.getD i 0 = b.getD i 0) :
    a = b := by
  refine List.ext_getElem hl (fun i h1 h2 => ?_)
  have := h i h1
  rw [List.getD_eq_getElem?_getD, List.getD_eq_getElem?_getD, List.getElem?_eq_getElem h1,
    List.getElem?_eq_getElem h2] at this
  simpa using this

theorem denseRegs_getD {n : Nat} {b : List Nat} {i : Nat} (h : i < n) :
    (denseRegs n b).getD i 0 = denseGet b i := by
  simp [denseRegs, List.getD_eq_getElem?_getD, h]

theorem denseRegs_put {n : Nat} {b : List Nat} (hb : Bytes b) (hn : n * 6 ≤ 8 * b.length) {i v : Nat}
    (hv : v < 64) : denseRegs n (densePut b i v) = (denseRegs n b).set i v := by
  refine ext_getD (by simp [denseRegs]) (fun j hj => ?_)
  have hj' : j < n := by simpa [denseRegs] using hj
  rw [denseRegs_getD hj', denseGet_put hb hv (by omega), getD_set, denseRegs_getD hj']
  have hl : (denseRegs n b).length = n := by simp [denseRegs]
  by_cases hij : i = j
  · rw [if_pos hij, if_pos ⟨hij, by rw [hl]; exact hj'⟩]
  · rw [if_neg hij, if_neg (fun x => hij x.1)]

theorem denseSet_facts {n : Nat} {b : List Nat} (hb : Bytes b) (hn : n * 6 ≤ 8 * b.length) {i v : Nat}
    (hi : i < n) (hv : v < 64) :
    Bytes (denseSet b i v).1 ∧ (denseSet b i v).1.length = b.length ∧
      denseRegs n (denseSet b i v).1 = upd (denseRegs n b) i v ∧
      ((denseSet b i v).2 = true ↔ denseGet b i < v) ∧
      ((denseSet b i v).2 = false → (denseSet b i v).1 = b) := by
  unfold denseSet
  by_cases h : v > denseGet b i
  · rw [if_pos h]
    refine ⟨densePut_bytes hb i v, densePut_length b i v, ?_, by simpa using h, by simp⟩
    rw [denseRegs_put hb hn hv, upd, denseRegs_getD hi, Nat.max_eq_right (Nat.le_of_lt h)]
  · rw [if_neg h]
    refine ⟨hb, rfl, ?_, by simpa using h, fun _ => rfl⟩
    rw [upd, denseRegs_getD hi, Nat.max_eq_left (Nat.not_lt.1 h), ← denseRegs_getD hi]
    refine ext_getD (by simp) (fun j hj => ?_)
    rw [getD_set]
    by_cases hij : i = j ∧ j < (denseRegs n b).length
    · rw [if_pos hij, hij.1]
    · rw [if_neg hij]

end BaikalDB.Hll
