import Verif.Join.Spec
import Verif.Pred.Props
import Verif.KeyEnc.Lemmas
import Mathlib.Data.List.Forall2
/-!
# Join keys: the bytes under which rows meet in the hash map, and the IN filter sent to the inner side
-/
namespace BaikalDB.Join
open BaikalDB.Expr (VTy EV toStr)
open BaikalDB.Expr.Spec
open BaikalDB.Pred (cast nullV)
open BaikalDB.Pred.Spec

/-! ## Equality of join columns -/

/-- The two columns are of integer types (any widths and signs), or of one type among strings, dates and doubles. -/
def PairOk (p : Pair) : Prop := (IntTy p.oty ∧ IntTy p.ity) ∨ (p.oty = p.ity ∧ Direct p.oty)

/-- A value of a column of type `t`: NULL, or of that type; no NaN, no negative zero, no NUL byte in a string. -/
def ValOk (t : VTy) (v : EV) : Prop := v.ty = .null ∨ (v.ty = t ∧ NotNaN v ∧ ¬ NegZero v ∧ (t = .string → 0#8 ∉ v.s))

/-- SQL `v = w` is true: neither is NULL and they are the same value. -/
def sqlEq (v w : EV) : Bool := decide (sem v ≠ none ∧ sem v = sem w)

/-- All the column equalities of the ON clause are true. -/
def keysEq : List EV → List EV → Bool
  | [], [] => true
  | v :: vs, w :: ws => sqlEq v w && keysEq vs ws
  | _, _ => false

/-! ## Encodings -/

theorem appendEV_eq (k : Bytes) (v : EV) : appendEV k v = k ++ appendEV [] v := by
  unfold appendEV KeyEnc.appendValue
  cases toP v.ty <;>
    simp [KeyEnc.appendI8_eq, KeyEnc.appendU8_eq, KeyEnc.appendI16_eq, KeyEnc.appendU16_eq, KeyEnc.appendI32_eq,
      KeyEnc.appendU32_eq, KeyEnc.appendI64_eq, KeyEnc.appendU64_eq, KeyEnc.appendFloat_eq, KeyEnc.appendDouble_eq,
      KeyEnc.appendBoolean_eq, KeyEnc.appendString]

theorem encodeHashKey_eq (E : Env) (vs : List EV) : ∀ (ts : List VTy) (k : Bytes),
    encodeHashKey E ts vs k = k ++ encodeHashKey E ts vs [] := by
  induction vs with
  | nil => intro ts k; cases ts <;> simp [encodeHashKey]
  | cons v vs ih =>
    intro ts k
    cases ts with
    | nil =>
      simp only [encodeHashKey]
      rw [ih, ih [] (appendEV [] _), appendEV_eq k, List.append_assoc]
    | cons t ts =>
      simp only [encodeHashKey]
      rw [ih, ih ts (appendEV [] _), appendEV_eq k, List.append_assoc]

theorem encodeHashKey_cons (E : Env) (t : VTy) (ts : List VTy) (v : EV) (vs : List EV) :
    encodeHashKey E (t :: ts) (v :: vs) [] = appendEV [] (cast E.toEnv v t) ++ encodeHashKey E ts vs [] := by
  rw [encodeHashKey, encodeHashKey_eq]

theorem beNat_inj {n x y : Nat} (hx : x < 256 ^ n) (hy : y < 256 ^ n) (h : beNat n x = beNat n y) : x = y := by
  have := congrArg ofBE h
  rwa [ofBE_beNat, ofBE_beNat, Nat.mod_eq_of_lt hx, Nat.mod_eq_of_lt hy] at this

/-- Bytes of a type's key. -/
def bytesOf : VTy → Nat
  | .int8 | .uint8 => 1
  | .int16 | .uint16 => 2
  | .int32 | .uint32 | .timestamp | .date | .time => 4
  | _ => 8

/-- Fixed-width key types. -/
def Fixed (t : VTy) : Prop := (IntTy t ∨ Direct t) ∧ t ≠ .string
instance (t : VTy) : Decidable (Fixed t) := inferInstanceAs (Decidable (_ ∧ _))

theorem bytesOf_pos (t : VTy) : 0 < bytesOf t := by cases t <;> simp [bytesOf]

theorem fixed_cases {t : VTy} (h : Fixed t) : t = .int8 ∨ t = .int16 ∨ t = .int32 ∨ t = .int64 ∨ t = .uint8 ∨ t = .uint16 ∨
    t = .uint32 ∨ t = .uint64 ∨ t = .datetime ∨ t = .timestamp ∨ t = .date ∨ t = .time ∨ t = .double := by
  cases t <;> simp [Fixed, IntTy, Direct] at h ⊢

theorem fixed_len {v : EV} (h : Fixed v.ty) : (appendEV [] v).length = bytesOf v.ty := by
  obtain ⟨t, u, s⟩ := v
  simp only at h
  rcases fixed_cases h with h | h | h | h | h | h | h | h | h | h | h | h | h <;> subst h <;>
    simp [appendEV, toP, KeyEnc.appendValue, KeyEnc.appendI8_eq, KeyEnc.appendU8_eq, KeyEnc.appendI16_eq, KeyEnc.appendU16_eq,
      KeyEnc.appendI32_eq, KeyEnc.appendU32_eq, KeyEnc.appendI64_eq, KeyEnc.appendU64_eq, KeyEnc.appendDouble_eq, bytesOf]

theorem bmod_toInt (u : BitVec 64) (n : Nat) (hn : n ≤ 64) : (u.setWidth n).toInt = Int.bmod (u.toNat : Int) (2 ^ n) := by
  have := Expr.sget_eq ⟨.int8, u, []⟩ hn
  simpa [EV.sget] using this

theorem fixed_inj {v w : EV} (h : Fixed v.ty) (e : v.ty = w.ty) (nv : NotNaN v) (nw : NotNaN w)
    (hk : appendEV [] v = appendEV [] w) : sem v = sem w := by
  obtain ⟨t, u, s⟩ := v
  obtain ⟨t', u', s'⟩ := w
  simp only at h e
  subst e
  rcases fixed_cases h with h | h | h | h | h | h | h | h | h | h | h | h | h <;> subst h <;>
    simp only [appendEV, toP, KeyEnc.appendValue, KeyEnc.appendI8_eq, KeyEnc.appendU8_eq, KeyEnc.appendI16_eq, KeyEnc.appendU16_eq,
      KeyEnc.appendI32_eq, KeyEnc.appendU32_eq, KeyEnc.appendI64_eq, KeyEnc.appendU64_eq, KeyEnc.appendDouble_eq,
      List.nil_append] at hk
  · have := beNat_inj (by have := (KeyEnc.encodeI8 (u.setWidth 8)).isLt; omega) (by have := (KeyEnc.encodeI8 (u'.setWidth 8)).isLt; omega) hk
    have a := KeyEnc.toNat_encodeI8 (u.setWidth 8)
    have b := KeyEnc.toNat_encodeI8 (u'.setWidth 8)
    rw [bmod_toInt u 8 (by omega)] at a
    rw [bmod_toInt u' 8 (by omega)] at b
    simp only [sem, intShape, Option.some.injEq, SVal.num.injEq]
    omega
  · have := beNat_inj (by have := (KeyEnc.encodeI16 (u.setWidth 16)).isLt; omega) (by have := (KeyEnc.encodeI16 (u'.setWidth 16)).isLt; omega) hk
    have a := KeyEnc.toNat_encodeI16 (u.setWidth 16)
    have b := KeyEnc.toNat_encodeI16 (u'.setWidth 16)
    rw [bmod_toInt u 16 (by omega)] at a
    rw [bmod_toInt u' 16 (by omega)] at b
    simp only [sem, intShape, Option.some.injEq, SVal.num.injEq]
    omega
  · have := beNat_inj (by have := (KeyEnc.encodeI32 (u.setWidth 32)).isLt; omega) (by have := (KeyEnc.encodeI32 (u'.setWidth 32)).isLt; omega) hk
    have a := KeyEnc.toNat_encodeI32 (u.setWidth 32)
    have b := KeyEnc.toNat_encodeI32 (u'.setWidth 32)
    rw [bmod_toInt u 32 (by omega)] at a
    rw [bmod_toInt u' 32 (by omega)] at b
    simp only [sem, intShape, Option.some.injEq, SVal.num.injEq]
    omega
  · have := beNat_inj (by have := (KeyEnc.encodeI64 u).isLt; omega) (by have := (KeyEnc.encodeI64 u').isLt; omega) hk
    have a := KeyEnc.toNat_encodeI64 u
    have b := KeyEnc.toNat_encodeI64 u'
    have c := bmod_toInt u 64 (by omega)
    have d := bmod_toInt u' 64 (by omega)
    rw [BitVec.setWidth_eq] at c d
    simp only [sem, intShape, Option.some.injEq, SVal.num.injEq]
    omega
  · have := beNat_inj (by have := (u.setWidth 8).isLt; omega) (by have := (u'.setWidth 8).isLt; omega) hk
    simp only [BitVec.toNat_setWidth] at this
    simp only [sem, intShape, Option.some.injEq, SVal.num.injEq]
    omega
  · have := beNat_inj (by have := (u.setWidth 16).isLt; omega) (by have := (u'.setWidth 16).isLt; omega) hk
    simp only [BitVec.toNat_setWidth] at this
    simp only [sem, intShape, Option.some.injEq, SVal.num.injEq]
    omega
  · have := beNat_inj (by have := (u.setWidth 32).isLt; omega) (by have := (u'.setWidth 32).isLt; omega) hk
    simp only [BitVec.toNat_setWidth] at this
    simp only [sem, intShape, Option.some.injEq, SVal.num.injEq]
    omega
  · have := beNat_inj (by have := u.isLt; omega) (by have := u'.isLt; omega) hk
    simp only [sem, intShape, Option.some.injEq, SVal.num.injEq]
    omega
  · have := beNat_inj (by have := u.isLt; omega) (by have := u'.isLt; omega) hk
    simp only [sem, intShape, Option.some.injEq, SVal.num.injEq]
    omega
  · have := beNat_inj (by have := (u.setWidth 32).isLt; omega) (by have := (u'.setWidth 32).isLt; omega) hk
    simp only [BitVec.toNat_setWidth] at this
    simp only [sem, intShape, Option.some.injEq, SVal.num.injEq]
    omega
  · have := beNat_inj (by have := (u.setWidth 32).isLt; omega) (by have := (u'.setWidth 32).isLt; omega) hk
    simp only [BitVec.toNat_setWidth] at this
    simp only [sem, intShape, Option.some.injEq, SVal.num.injEq]
    omega
  · have := beNat_inj (by have := (KeyEnc.encodeI32 (u.setWidth 32)).isLt; omega) (by have := (KeyEnc.encodeI32 (u'.setWidth 32)).isLt; omega) hk
    have a := KeyEnc.toNat_encodeI32 (u.setWidth 32)
    have b := KeyEnc.toNat_encodeI32 (u'.setWidth 32)
    rw [bmod_toInt u 32 (by omega)] at a
    rw [bmod_toInt u' 32 (by omega)] at b
    simp only [sem, intShape, Option.some.injEq, SVal.num.injEq]
    omega
  · have := beNat_inj (by have := (KeyEnc.encodeF64 u).isLt; omega) (by have := (KeyEnc.encodeF64 u').isLt; omega) hk
    have a := KeyEnc.encodeF64_lt (nv.2 rfl) (nw.2 rfl)
    have b := KeyEnc.encodeF64_lt (nw.2 rfl) (nv.2 rfl)
    simp only at a b
    simp only [sem, intShape, Option.some.injEq, SVal.num.injEq]
    omega

/-- Equal values of one type have one key. -/
theorem enc_congr {v w : EV} (e : v.ty = w.ty) (ht : IntTy v.ty ∨ Direct v.ty) (nv : ¬ NegZero v) (nw : ¬ NegZero w)
    (hs : sem v = sem w) : appendEV [] v = appendEV [] w := by
  obtain ⟨h1, h2, h3, h4⟩ := Expr.stored_of_sem_eq e nv nw hs
  obtain ⟨t, u, s⟩ := v
  obtain ⟨t', u', s'⟩ := w
  simp only at e
  subst e
  have h1' := fun n g h => h1 n g h
  cases t <;> simp [IntTy, Direct] at ht <;>
    simp [intShape] at h1 h3 h4 <;>
    simp_all [appendEV, toP, KeyEnc.appendValue]

theorem string_enc (v : EV) (h : v.ty = .string) : appendEV [] v = v.s ++ [0#8] := by
  simp [appendEV, h, toP, KeyEnc.appendValue, KeyEnc.appendString]

theorem null_enc (v : EV) (h : v.ty = .null) : appendEV [] v = [] := by
  simp [appendEV, h, toP, KeyEnc.appendValue]

theorem nul_split : ∀ {a b x y : Bytes}, 0#8 ∉ a → 0#8 ∉ b → a ++ 0#8 :: x = b ++ 0#8 :: y → a = b ∧ x = y
  | [], [], _, _, _, _, h => by simpa using h
  | [], c :: b, _, _, _, hb, h => by
    simp only [List.nil_append, List.cons_append, List.cons.injEq] at h
    exact absurd h.1.symm (fun e => hb (by simp [e]))
  | c :: a, [], _, _, ha, _, h => by
    simp only [List.nil_append, List.cons_append, List.cons.injEq] at h
    exact absurd h.1 (fun e => ha (by simp [e]))
  | c :: a, d :: b, x, y, ha, hb, h => by
    simp only [List.cons_append, List.cons.injEq] at h
    obtain ⟨h1, h2⟩ := nul_split (a := a) (b := b) (by simp_all) (by simp_all) h.2
    exact ⟨by rw [h.1, h1], h2⟩

/-- A key value: of type `t`, with no NaN, no negative zero, no NUL byte. -/
def Good (t : VTy) (v : EV) : Prop := v.ty = t ∧ NotNaN v ∧ ¬ NegZero v ∧ (t = .string → 0#8 ∉ v.s)

theorem good_split {t : VTy} (ht : IntTy t ∨ Direct t) {v w : EV} (hv : Good t v) (hw : Good t w) {x y : Bytes} :
    appendEV [] v ++ x = appendEV [] w ++ y ↔ sem v = sem w ∧ x = y := by
  obtain ⟨v1, v2, v3, v4⟩ := hv
  obtain ⟨w1, w2, w3, w4⟩ := hw
  constructor
  · intro h
    by_cases hs : t = .string
    · rw [string_enc v (v1.trans hs), string_enc w (w1.trans hs)] at h
      simp only [List.append_assoc, List.singleton_append] at h
      obtain ⟨h1, h2⟩ := nul_split (v4 hs) (w4 hs) h
      refine ⟨?_, h2⟩
      simp [sem, v1, w1, hs, intShape, h1]
    · have f : Fixed v.ty := by rw [v1]; exact ⟨ht, hs⟩
      have f' : Fixed w.ty := by rw [w1]; exact ⟨ht, hs⟩
      have hl : (appendEV [] v).length = (appendEV [] w).length := by rw [fixed_len f, fixed_len f', v1, w1]
      obtain ⟨h1, h2⟩ := List.append_inj h hl
      exact ⟨fixed_inj f (v1.trans w1.symm) v2 w2 h1, h2⟩
  · rintro ⟨h1, h2⟩
    rw [h2, enc_congr (v1.trans w1.symm) (by rw [v1]; exact ht) v3 w3 h1]

/-! ## Conversions to the common type -/

theorem natDec_inj {m n : Nat} (h : Expr.natDec m = Expr.natDec n) : m = n := by
  rw [← (Expr.natDec_digits m).2.2, ← (Expr.natDec_digits n).2.2, h]

theorem toStr_inj {x y : Int} (h : toStr x = toStr y) : x = y := by
  have key : ∀ n m : Nat, 0x2d#8 :: Expr.natDec n ≠ Expr.natDec m := by
    intro n m e
    have := (Expr.natDec_digits m).1 0x2d#8 (by rw [← e]; simp)
    exact absurd this (by decide)
  unfold toStr at h
  split at h <;> split at h
  · have := natDec_inj (List.cons.inj h).2
    omega
  · exact absurd h (key _ _)
  · exact absurd h.symm (key _ _)
  · have := natDec_inj h
    omega

theorem toStr_no_nul (x : Int) : 0#8 ∉ toStr x := by
  have key : ∀ n, 0#8 ∉ Expr.natDec n := fun n h => absurd ((Expr.natDec_digits n).1 _ h) (by decide)
  unfold toStr
  split
  · simp [key]
  · exact key _

theorem cast_string (E : Pred.Env) {v : EV} (h : IntTy v.ty) {x : Int} (hx : sem v = some (.num x)) :
    cast E v .string = ⟨.string, v.u, toStr x⟩ := by
  obtain ⟨t, u, s⟩ := v
  have hg : Expr.getString ⟨t, u, s⟩ = some (toStr x) := by
    obtain ⟨y, hy, hg, _⟩ := Expr.sem_int h
    rw [hx] at hy
    obtain rfl : x = y := by simpa using hy
    simp only [IntTy, List.mem_cons, List.not_mem_nil, or_false] at h
    rcases h with h | h | h | h | h | h | h | h <;> subst h <;> simp only [Expr.getInt, Option.some.injEq] at hg <;>
      simp only [Expr.getString, hg]
  simp only [IntTy, List.mem_cons, List.not_mem_nil, or_false] at h
  rcases h with h | h | h | h | h | h | h | h <;> subst h <;> simp [Pred.cast, Expr.castTo, EV.isNull, hg]

theorem negZero_int {v : EV} (h : IntTy v.ty ∨ v.ty = .string) : ¬ NegZero v := by
  obtain ⟨t, u, s⟩ := v
  rintro (⟨h', _⟩ | ⟨h', _⟩) <;> simp only at h' <;> subst h' <;> simp [IntTy] at h

theorem notNaN_int {v : EV} (h : IntTy v.ty ∨ v.ty = .string) : NotNaN v := by
  obtain ⟨t, u, s⟩ := v
  constructor <;> intro h' <;> simp only at h' <;> subst h' <;> simp [IntTy] at h

/-- How the common type relates to the two columns. -/
theorem castTy_cases {p : Pair} (h : PairOk p) :
    (castTy p = p.oty ∧ castTy p = p.ity ∧ (IntTy p.oty ∨ Direct p.oty)) ∨
    (IntTy p.oty ∧ IntTy p.ity ∧ castTy p = .int64 ∧ isSigned p.oty ∧ isSigned p.ity) ∨
    (IntTy p.oty ∧ IntTy p.ity ∧ castTy p = .uint64 ∧ p.oty.isUint ∧ p.ity.isUint) ∨
    (IntTy p.oty ∧ IntTy p.ity ∧ castTy p = .string) := by
  obtain ⟨a, b⟩ := p
  rcases h with ⟨h1, h2⟩ | ⟨h1, h2⟩
  · simp only at h1 h2
    by_cases e : a = b
    · subst e; left; simp [castTy, h1]
    · by_cases s : (isSigned a && isSigned b) = true
      · right; left
        simp only [Bool.and_eq_true] at s
        simp [castTy, e, s, h1, h2]
      · by_cases s' : (a.isUint && b.isUint) = true
        · right; right; left
          simp only [Bool.and_eq_true] at s'
          simp only [castTy, e, if_false, s, s', Bool.and_self, if_true]
          simp [h1, h2, s']
        · right; right; right
          simp only [castTy, e, if_false, s, s']
          simp [h1, h2]
  · simp only at h1 h2
    subst h1; left; simp [castTy, h2]

theorem castTy_ok {p : Pair} (h : PairOk p) : IntTy (castTy p) ∨ Direct (castTy p) := by
  rcases castTy_cases h with ⟨h1, _, h2⟩ | ⟨_, _, h1, _⟩ | ⟨_, _, h1, _⟩ | ⟨_, _, h1⟩
  · rw [h1]; exact h2
  · rw [h1]; left; simp [IntTy]
  · rw [h1]; left; simp [IntTy]
  · rw [h1]; right; simp [Direct]

theorem fits_int64 {t : VTy} (h : isSigned t = true) {x : Int} (hx : Fits t x) : Fits .int64 x := by
  cases t <;> simp [isSigned] at h <;> simp only [Fits, range] at hx ⊢ <;> omega
theorem fits_uint64 {t : VTy} (h : t.isUint = true) {x : Int} (hx : Fits t x) : Fits .uint64 x := by
  cases t <;> simp [VTy.isUint] at h <;> simp only [Fits, range] at hx ⊢ <;> omega

/-- After the conversion to the common type both sides are values of that type, equal exactly if they were. -/
theorem cast_pair (E : Pred.Env) {p : Pair} (h : PairOk p) {v w : EV} (hv : Good p.oty v) (hw : Good p.ity w) :
    Good (castTy p) (cast E v (castTy p)) ∧ Good (castTy p) (cast E w (castTy p)) ∧
    (sem (cast E v (castTy p)) = sem (cast E w (castTy p)) ↔ sem v = sem w) := by
  have hv0 := hv.1
  have hw0 := hw.1
  rcases castTy_cases h with ⟨h1, h2, _⟩ | ⟨i1, i2, h1, s1, s2⟩ | ⟨i1, i2, h1, s1, s2⟩ | ⟨i1, i2, h1⟩
  · rw [Pred.cast_same' E (hv0.trans h1.symm), Pred.cast_same' E (hw0.trans h2.symm)]
    exact ⟨h1 ▸ hv, h2 ▸ hw, Iff.rfl⟩
  · rw [← hv0] at i1 s1
    rw [← hw0] at i2 s2
    obtain ⟨x, hx, _, fx⟩ := Expr.sem_int i1
    obtain ⟨y, hy, _, fy⟩ := Expr.sem_int i2
    have hi : IntTy .int64 := by simp [IntTy]
    obtain ⟨a1, a2⟩ := Pred.cast_int E i1 hi hx (fits_int64 s1 fx)
    obtain ⟨b1, b2⟩ := Pred.cast_int E i2 hi hy (fits_int64 s2 fy)
    rw [h1]
    refine ⟨⟨a1, notNaN_int (by simp [a1, hi]), negZero_int (by simp [a1, hi]), by simp⟩,
      ⟨b1, notNaN_int (by simp [b1, hi]), negZero_int (by simp [b1, hi]), by simp⟩, ?_⟩
    rw [a2, b2, hx, hy]
  · rw [← hv0] at i1 s1
    rw [← hw0] at i2 s2
    obtain ⟨x, hx, _, fx⟩ := Expr.sem_int i1
    obtain ⟨y, hy, _, fy⟩ := Expr.sem_int i2
    have hi : IntTy .uint64 := by simp [IntTy]
    obtain ⟨a1, a2⟩ := Pred.cast_int E i1 hi hx (fits_uint64 s1 fx)
    obtain ⟨b1, b2⟩ := Pred.cast_int E i2 hi hy (fits_uint64 s2 fy)
    rw [h1]
    refine ⟨⟨a1, notNaN_int (by simp [a1, hi]), negZero_int (by simp [a1, hi]), by simp⟩,
      ⟨b1, notNaN_int (by simp [b1, hi]), negZero_int (by simp [b1, hi]), by simp⟩, ?_⟩
    rw [a2, b2, hx, hy]
  · rw [← hv0] at i1
    rw [← hw0] at i2
    obtain ⟨x, hx, _, fx⟩ := Expr.sem_int i1
    obtain ⟨y, hy, _, fy⟩ := Expr.sem_int i2
    rw [h1, cast_string E i1 hx, cast_string E i2 hy]
    refine ⟨⟨rfl, notNaN_int (.inr rfl), negZero_int (.inr rfl), fun _ => toStr_no_nul x⟩,
      ⟨rfl, notNaN_int (.inr rfl), negZero_int (.inr rfl), fun _ => toStr_no_nul y⟩, ?_⟩
    rw [hx, hy]
    simp only [sem, intShape, Option.some.injEq, SVal.str.injEq, SVal.num.injEq]
    exact ⟨toStr_inj, fun e => by rw [e]⟩

/-! ## Whole keys -/

/-- The values of a row's join columns. -/
abbrev RowOk (ts : List VTy) (vs : List EV) : Prop := List.Forall₂ ValOk ts vs
/-- None of them NULL. -/
abbrev RowGood (ts : List VTy) (vs : List EV) : Prop := List.Forall₂ Good ts vs

theorem good_of_ok {t : VTy} {v : EV} (h : ValOk t v) (hn : v.ty ≠ .null) : Good t v := h.resolve_left hn
theorem Good.ok {t : VTy} {v : EV} (h : Good t v) : ValOk t v := .inr h

theorem good_sem {t : VTy} (ht : IntTy t ∨ Direct t) {v : EV} (h : Good t v) : ∃ x, sem v = some x :=
  Pred.sem_of_ordered (by rw [h.1]; exact ht.elim Pred.ordered_of_int Pred.ordered_of_direct)

theorem key_good (E : Env) {ps : List Pair} (hp : ∀ p ∈ ps, PairOk p) : ∀ {vs ws : List EV}, RowGood (ps.map (·.oty)) vs →
    RowGood (ps.map (·.ity)) ws → (encodeHashKey E (ps.map castTy) vs [] = encodeHashKey E (ps.map castTy) ws [] ↔ keysEq vs ws = true) := by
  induction ps with
  | nil =>
    intro vs ws hv hw
    cases hv; cases hw
    simp [keysEq]
  | cons p ps ih =>
    intro vs ws hv hw
    simp only [List.map_cons] at hv hw
    cases hv with
    | cons v1 hv =>
    cases hw with
    | cons w1 hw =>
    have hpo := hp p (by simp)
    obtain ⟨g1, g2, g3⟩ := cast_pair E.toEnv hpo v1 w1
    have hov : IntTy p.oty ∨ Direct p.oty := hpo.elim (fun h => .inl h.1) (fun h => .inr h.2)
    obtain ⟨x, hx⟩ := good_sem hov v1
    rw [List.map_cons, encodeHashKey_cons, encodeHashKey_cons, good_split (castTy_ok hpo) g1 g2, g3,
      ih (fun q hq => hp q (by simp [hq])) hv hw]
    simp [keysEq, sqlEq, hx]

/-- Outer NULLs cannot be mistaken for values: no NULL in the row, or the key columns all have fixed width, or are all
strings; in particular whenever there is one column. -/
def NullSafe (ps : List Pair) (vs : List EV) : Prop :=
  (∀ v ∈ vs, v.ty ≠ .null) ∨ (∀ p ∈ ps, Fixed (castTy p)) ∨ (∀ p ∈ ps, castTy p = .string)

theorem rowGood_of {ts : List VTy} {vs : List EV} (h : RowOk ts vs) (hn : ∀ v ∈ vs, v.ty ≠ .null) : RowGood ts vs := by
  induction h with
  | nil => exact .nil
  | cons h1 _ ih => exact .cons (good_of_ok h1 (hn _ (by simp))) (ih fun v hv => hn v (by simp [hv]))

theorem keysEq_null {vs ws : List EV} (h : ∃ v ∈ vs, v.ty = .null) : keysEq vs ws = false := by
  induction vs generalizing ws with
  | nil => simp at h
  | cons v vs ih =>
    cases ws with
    | nil => rfl
    | cons w ws =>
      simp only [keysEq, Bool.and_eq_false_iff]
      obtain ⟨u, hu, hn⟩ := h
      rcases List.mem_cons.mp hu with rfl | hu
      · left; simp [sqlEq, Pred.sem_null hn]
      · right; exact ih ⟨u, hu, hn⟩

/-- The conversion of one outer value. -/
theorem cast_outer (E : Pred.Env) {p : Pair} (h : PairOk p) {v : EV} (hv : Good p.oty v) : Good (castTy p) (cast E v (castTy p)) := by
  have hv0 := hv.1
  rcases castTy_cases h with ⟨h1, h2, _⟩ | ⟨i1, i2, h1, s1, s2⟩ | ⟨i1, i2, h1, s1, s2⟩ | ⟨i1, i2, h1⟩
  · rw [Pred.cast_same' E (hv0.trans h1.symm)]
    exact h1 ▸ hv
  · rw [← hv0] at i1 s1
    obtain ⟨x, hx, _, fx⟩ := Expr.sem_int i1
    have hi : IntTy .int64 := by simp [IntTy]
    obtain ⟨a1, a2⟩ := Pred.cast_int E i1 hi hx (fits_int64 s1 fx)
    rw [h1]
    exact ⟨a1, notNaN_int (by simp [a1, hi]), negZero_int (by simp [a1, hi]), by simp⟩
  · rw [← hv0] at i1 s1
    obtain ⟨x, hx, _, fx⟩ := Expr.sem_int i1
    have hi : IntTy .uint64 := by simp [IntTy]
    obtain ⟨a1, a2⟩ := Pred.cast_int E i1 hi hx (fits_uint64 s1 fx)
    rw [h1]
    exact ⟨a1, notNaN_int (by simp [a1, hi]), negZero_int (by simp [a1, hi]), by simp⟩
  · rw [← hv0] at i1
    obtain ⟨x, hx, _, fx⟩ := Expr.sem_int i1
    rw [h1, cast_string E i1 hx]
    exact ⟨rfl, notNaN_int (.inr rfl), negZero_int (.inr rfl), fun _ => toStr_no_nul x⟩

theorem cast_inner (E : Pred.Env) {p : Pair} (h : PairOk p) {v : EV} (hv : Good p.ity v) : Good (castTy p) (cast E v (castTy p)) := by
  have h' : PairOk ⟨p.ity, p.oty⟩ := by
    rcases h with ⟨a, b⟩ | ⟨a, b⟩
    · exact .inl ⟨b, a⟩
    · exact .inr ⟨a.symm, a ▸ b⟩
  have e : castTy ⟨p.ity, p.oty⟩ = castTy p := by
    unfold castTy
    by_cases q : p.oty = p.ity
    · simp [q]
    · simp only [q, Ne.symm q, if_false, Bool.and_comm]
  have := cast_outer E h' hv
  rwa [e] at this

/-- Bytes of the key of a row whose columns have fixed width: NULLs shorten it. -/
theorem key_len (E : Env) {ps : List Pair} (hp : ∀ p ∈ ps, PairOk p) (hf : ∀ p ∈ ps, Fixed (castTy p)) :
    ∀ {vs : List EV}, RowOk (ps.map (·.oty)) vs →
      (encodeHashKey E (ps.map castTy) vs []).length ≤ (ps.map fun p => bytesOf (castTy p)).sum ∧
      ((∃ v ∈ vs, v.ty = .null) → (encodeHashKey E (ps.map castTy) vs []).length < (ps.map fun p => bytesOf (castTy p)).sum) := by
  induction ps with
  | nil => intro vs hv; cases hv; simp [encodeHashKey]
  | cons p ps ih =>
    intro vs hv
    simp only [List.map_cons] at hv
    cases hv with
    | cons v1 hv =>
    obtain ⟨a, b⟩ := ih (fun q hq => hp q (by simp [hq])) (fun q hq => hf q (by simp [hq])) hv
    rw [List.map_cons, encodeHashKey_cons, List.map_cons, List.sum_cons, List.length_append]
    have hpos := bytesOf_pos (castTy p)
    rcases v1 with hn | hg
    · rw [Pred.cast_null _ hn, null_enc _ hn, List.length_nil]
      exact ⟨by omega, fun _ => by omega⟩
    · have g := cast_outer E.toEnv (hp p (by simp)) hg
      have hl := fixed_len (v := cast E.toEnv _ (castTy p)) (by rw [g.1]; exact hf p (by simp))
      rw [g.1] at hl
      refine ⟨by omega, ?_⟩
      rintro ⟨u, hu, hn⟩
      rcases List.mem_cons.mp hu with rfl | hu
      · exfalso
        have h1 := hg.1
        rw [hn] at h1
        have := hp p (by simp)
        rw [PairOk, ← h1] at this
        simp [IntTy, Direct] at this
      · have := b ⟨u, hu, hn⟩; omega

theorem key_len_good (E : Env) {ps : List Pair} (hp : ∀ p ∈ ps, PairOk p) (hf : ∀ p ∈ ps, Fixed (castTy p)) :
    ∀ {vs : List EV}, RowGood (ps.map (·.ity)) vs →
      (encodeHashKey E (ps.map castTy) vs []).length = (ps.map fun p => bytesOf (castTy p)).sum := by
  induction ps with
  | nil => intro vs hv; cases hv; simp [encodeHashKey]
  | cons p ps ih =>
    intro vs hv
    simp only [List.map_cons] at hv
    cases hv with
    | cons v1 hv =>
    have a := ih (fun q hq => hp q (by simp [hq])) (fun q hq => hf q (by simp [hq])) hv
    rw [List.map_cons, encodeHashKey_cons, List.map_cons, List.sum_cons, List.length_append]
    have g := cast_inner E.toEnv (hp p (by simp)) v1
    have hl := fixed_len (v := cast E.toEnv _ (castTy p)) (by rw [g.1]; exact hf p (by simp))
    rw [g.1] at hl
    omega

theorem string_count {t : VTy} (ht : t = .string) {v : EV} (g : Good t v) : (appendEV [] v).count 0#8 = 1 := by
  rw [string_enc _ (g.1.trans ht), List.count_append, List.count_eq_zero_of_not_mem (g.2.2.2 ht)]
  simp

/-- The number of NUL bytes in the key of a row of strings is its number of non-NULL columns. -/
theorem key_nuls (E : Env) {ps : List Pair} (hp : ∀ p ∈ ps, PairOk p) (hf : ∀ p ∈ ps, castTy p = .string) :
    ∀ {vs : List EV}, RowOk (ps.map (·.oty)) vs →
      (encodeHashKey E (ps.map castTy) vs []).count 0#8 ≤ ps.length ∧
      ((∃ v ∈ vs, v.ty = .null) → (encodeHashKey E (ps.map castTy) vs []).count 0#8 < ps.length) := by
  induction ps with
  | nil => intro vs hv; cases hv; simp [encodeHashKey]
  | cons p ps ih =>
    intro vs hv
    simp only [List.map_cons] at hv
    cases hv with
    | cons v1 hv =>
    obtain ⟨a, b⟩ := ih (fun q hq => hp q (by simp [hq])) (fun q hq => hf q (by simp [hq])) hv
    rw [List.map_cons, encodeHashKey_cons, List.count_append, List.length_cons]
    rcases v1 with hn | hg
    · rw [Pred.cast_null _ hn, null_enc _ hn, List.count_nil]
      exact ⟨by omega, fun _ => by omega⟩
    · have g := cast_outer E.toEnv (hp p (by simp)) hg
      have hst := hf p (by simp)
      have hc := string_count hst g
      refine ⟨by omega, ?_⟩
      rintro ⟨u, hu, hn⟩
      rcases List.mem_cons.mp hu with rfl | hu
      · exfalso
        have h1 := hg.1
        rw [hn] at h1
        have := hp p (by simp)
        rw [PairOk, ← h1] at this
        simp [IntTy, Direct] at this
      · have := b ⟨u, hu, hn⟩; omega

theorem key_nuls_good (E : Env) {ps : List Pair} (hp : ∀ p ∈ ps, PairOk p) (hf : ∀ p ∈ ps, castTy p = .string) :
    ∀ {vs : List EV}, RowGood (ps.map (·.ity)) vs → (encodeHashKey E (ps.map castTy) vs []).count 0#8 = ps.length := by
  induction ps with
  | nil => intro vs hv; cases hv; simp [encodeHashKey]
  | cons p ps ih =>
    intro vs hv
    simp only [List.map_cons] at hv
    cases hv with
    | cons v1 hv =>
    have a := ih (fun q hq => hp q (by simp [hq])) (fun q hq => hf q (by simp [hq])) hv
    rw [List.map_cons, encodeHashKey_cons, List.count_append, List.length_cons]
    have g := cast_inner E.toEnv (hp p (by simp)) v1
    have hst := hf p (by simp)
    have hc := string_count hst g
    omega

/-- **C38.** Two rows meet in the hash map exactly if all the column equalities of the ON clause are true, for integer
columns of any widths and signs and for strings, dates, times and doubles; NULL equals nothing. -/
theorem C38_key_is_equality (E : Env) {ps : List Pair} (hp : ∀ p ∈ ps, PairOk p) {vs ws : List EV}
    (hv : RowOk (ps.map (·.oty)) vs) (hw : RowGood (ps.map (·.ity)) ws) (hs : NullSafe ps vs) :
    encodeHashKey E (ps.map castTy) vs [] = encodeHashKey E (ps.map castTy) ws [] ↔ keysEq vs ws = true := by
  by_cases hn : ∃ v ∈ vs, v.ty = .null
  · rw [keysEq_null hn]
    simp only [Bool.false_eq_true, iff_false]
    intro e
    rcases hs with h | h | h
    · obtain ⟨v, hv, hn⟩ := hn
      exact h v hv hn
    · have a := (key_len E hp h hv).2 hn
      rw [e, key_len_good E hp h hw] at a
      omega
    · have a := (key_nuls E hp h hv).2 hn
      rw [e, key_nuls_good E hp h hw] at a
      omega
  · push Not at hn
    exact key_good E hp (rowGood_of hv hn) hw

end BaikalDB.Join
