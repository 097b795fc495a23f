import Verif.Ops.Spec
import Verif.Expr.Props
/-!
# Operators: lemmas
-/
namespace BaikalDB.Ops
open BaikalDB.Expr BaikalDB.KeyEnc.Spec BaikalDB.Ops.Spec

theorem intTy_cases {t : VTy} (h : Expr.Spec.IntTy t) : t = .int8 ∨ t = .int16 ∨ t = .int32 ∨ t = .int64 ∨ t = .uint8 ∨
    t = .uint16 ∨ t = .uint32 ∨ t = .uint64 := by
  simpa [Expr.Spec.IntTy] using h

theorem isUint_eq (t : VTy) : t.isUint = UnsignedTy t := by cases t <;> decide
theorem isInt_iff (t : VTy) : t.isInt = true ↔ Expr.Spec.IntTy t := by cases t <;> simp [VTy.isInt, Expr.Spec.IntTy]

theorem intTy_not_null {v : EV} (h : Expr.Spec.IntTy v.ty) : v.isNull = false := by
  revert h; unfold EV.isNull; generalize v.ty = q; cases q <;> simp [Expr.Spec.IntTy]

theorem intOf_null {v : EV} (h : v.ty = .null) : intOf v = none := by
  simp [intOf, Expr.Spec.sem, Expr.Spec.intShape, h]

theorem intOf_sem {v : EV} {x : Int} : intOf v = some x ↔ Expr.Spec.sem v = some (.num x) := by
  unfold intOf
  split
  · rename_i y h; rw [h]; simp
  · rename_i h
    constructor
    · simp
    · intro e; exact absurd e (h x)

theorem intOf_some {v : EV} (h : Expr.Spec.IntTy v.ty) : ∃ x, intOf v = some x := by
  obtain ⟨x, h1, _⟩ := sem_int h
  exact ⟨x, intOf_sem.2 h1⟩

theorem putLow64 (u : BitVec 64) (x : Int) : putLow 64 u x = BitVec.ofInt 64 x := by
  have := toNat_putLow 64 (Nat.le_refl _) u x
  simpa using this

theorem ofInt_bmod (u : BitVec 64) : BitVec.ofInt 64 (Int.bmod (u.toNat : Int) (2 ^ 64)) = u := by
  apply BitVec.eq_of_toInt_eq
  rw [BitVec.toInt_ofInt, Int.bmod_bmod, BitVec.toInt_eq_toNat_bmod]

theorem ofInt_emod (u : BitVec 64) : BitVec.ofInt 64 ((u.toNat : Int) % 2 ^ 64) = u := by
  have hu := u.isLt
  apply BitVec.eq_of_toNat_eq
  rw [BitVec.toNat_ofInt]
  omega

theorem cast_null (fp : FP) {v : EV} (t : VTy) (h : v.ty = .null) : cast fp v t = .ok v := by
  unfold cast; rw [if_pos (by simp [EV.isNull, h])]

theorem cast_same (fp : FP) {v : EV} {t : VTy} (h : v.ty = t) : cast fp v t = .ok v := by
  unfold cast; rw [if_pos (by simp [h])]

/-- An integer converted to one of the two 64-bit types. -/
theorem cast_int (fp : FP) {v : EV} {t : VTy} {x : Int} (ht : t = .int64 ∨ t = .uint64) (hv : Expr.Spec.IntTy v.ty)
    (hx : intOf v = some x) : ∃ w, cast fp v t = .ok w ∧ w.ty = t ∧ w.u = BitVec.ofInt 64 x := by
  obtain ⟨x', e1, e2, e3⟩ := sem_int hv
  rw [intOf_sem, e1] at hx
  simp only [Option.some.injEq, Expr.Spec.SVal.num.injEq] at hx
  subst hx
  by_cases he : v.ty = t
  · refine ⟨v, cast_same fp he, he, ?_⟩
    rcases ht with ht | ht <;> rw [ht] at he <;> simp only [Expr.Spec.sem, he, Expr.Spec.intShape, Option.some.injEq,
      Expr.Spec.SVal.num.injEq] at e1 <;> rw [← e1]
    · exact (ofInt_bmod _).symm
    · exact (ofInt_emod _).symm
  · have hn := intTy_not_null hv
    have hm : v.ty ≠ .maxvalue := by intro h; rw [h] at hv; simp [Expr.Spec.IntTy] at hv
    have hd : v.ty ≠ .double ∧ v.ty ≠ .float := by
      constructor <;> (intro h; rw [h] at hv; simp [Expr.Spec.IntTy] at hv)
    have hc : castTo v t = some { v with ty := t, u := putLow 64 v.u x' } := by
      unfold castTo
      rw [if_neg (by simp [hn, hm, he])]
      rcases ht with rfl | rfl <;> simp [e2, VTy.width]
    refine ⟨{ v with ty := t, u := putLow 64 v.u x' }, ?_, rfl, putLow64 _ _⟩
    unfold cast
    rw [if_neg (by simp [hn, hm, he])]
    rcases ht with rfl | rfl <;> simp [hd.1, hd.2, hc]

/-- An integer converted to a double: no failure. -/
theorem cast_double (fp : FP) {v : EV} (hv : Expr.Spec.IntTy v.ty) :
    ∃ w, cast fp v .double = .ok w ∧ w.ty = .double := by
  obtain ⟨x', e1, e2, e3⟩ := sem_int hv
  have hn := intTy_not_null hv
  rcases intTy_cases hv with h | h | h | h | h | h | h | h <;>
    (refine ⟨{ v with ty := .double, u := fp.ofInt x' }, ?_, rfl⟩
     unfold cast
     rw [if_neg (by simp [EV.isNull, h])]
     simp [h, e2])

/-- `tn` stands for the integer expression `e` on the row. -/
structure Rep (fp : FP) (row : Nat → EV) (e : Node) (tn : TNode) (v : EV) : Prop where
  ev : eval fp row tn = .ok v
  is : Is v (value row e)
  vty : Expr.Spec.IntTy v.ty ∨ v.ty = .null
  tty : Expr.Spec.IntTy tn.ty ∨ tn.ty = .null
  kind : ∀ x, value row e = some x → v.ty.isUint = Unsigned e ∧ Expr.Spec.IntTy tn.ty ∧ tn.ty.isUint = Unsigned e

theorem Rep.null {fp row e tn v} (h : Rep fp row e tn v) (hn : value row e = none) : v.ty = .null := by
  have := h.is; rw [hn] at this; exact this

theorem Rep.some {fp row e tn v x} (h : Rep fp row e tn v) (hn : value row e = some x) :
    intOf v = Option.some x ∧ Expr.Spec.IntTy v.ty := by
  have := h.is; rw [hn] at this
  have h1 : intOf v = Option.some x := this
  refine ⟨h1, ?_⟩
  rcases h.vty with h2 | h2
  · exact h2
  · rw [intOf_null h2] at h1; exact absurd h1 (by simp)

/-- The operand after both conversions. -/
theorem operand {fp row e tn v} (h : Rep fp row e tn v) {T : VTy}
    (hT : T = .int64 ∨ T = .uint64 ∨ T = .double ∨ (T = .string ∧ tn.ty = .null)) :
    ∃ c v' w, castChild fp T tn = .ok c ∧ eval fp row c = .ok v' ∧ cast fp v' T = .ok w ∧
      (value row e = none → w.ty = .null) ∧ (∀ x, value row e = some x → w.ty = T) ∧
      (∀ x, value row e = some x → T ≠ .double → w.u = BitVec.ofInt 64 x) := by
  -- the value of `tn` itself converts
  have key : ∃ w, cast fp v T = .ok w ∧ (value row e = none → w.ty = .null) ∧ (∀ x, value row e = some x → w.ty = T) ∧
      (∀ x, value row e = some x → T ≠ .double → w.u = BitVec.ofInt 64 x) := by
    cases hv : value row e with
    | none =>
      have := h.null hv
      exact ⟨v, cast_null fp T this, fun _ => this, by simp, by simp⟩
    | some x =>
      obtain ⟨h1, h2⟩ := h.some hv
      rcases hT with hT | hT | hT | hT
      · obtain ⟨w, a, b, c⟩ := cast_int fp (t := T) (Or.inl hT) h2 h1
        exact ⟨w, a, by simp, fun _ _ => b, fun y hy _ => by simp only [Option.some.injEq] at hy; rw [c, hy]⟩
      · obtain ⟨w, a, b, c⟩ := cast_int fp (t := T) (Or.inr hT) h2 h1
        exact ⟨w, a, by simp, fun _ _ => b, fun y hy _ => by simp only [Option.some.injEq] at hy; rw [c, hy]⟩
      · subst hT
        obtain ⟨w, a, b⟩ := cast_double fp h2
        exact ⟨w, a, by simp, fun _ _ => b, fun y hy hd => absurd rfl hd⟩
      · have := (h.kind x hv).2.1
        rw [hT.2] at this
        simp [Expr.Spec.IntTy] at this
  obtain ⟨w, k1, k2, k3, k4⟩ := key
  cases tn with
  | lit u =>
    have e1 := h.ev
    simp only [eval, Except.ok.injEq] at e1
    subst e1
    have hl : litCast fp u T = cast fp u T := by
      unfold litCast
      rw [if_neg]
      rcases hT with hT | hT | hT | hT <;> simp [hT]
    refine ⟨.lit w, w, w, ?_, rfl, ?_, k2, k3, k4⟩
    · simp [castChild, hl, k1, Except.map]
    · cases hv : value row e with
      | none => exact cast_null fp T (k2 hv)
      | some x => exact cast_same fp (k3 x hv)
  | slot i t => exact ⟨_, v, w, rfl, h.ev, k1, k2, k3, k4⟩
  | un op a b c => exact ⟨_, v, w, rfl, h.ev, k1, k2, k3, k4⟩
  | bin op a b c d => exact ⟨_, v, w, rfl, h.ev, k1, k2, k3, k4⟩

theorem toInt_ofInt64 {x : Int} (h : -2 ^ 63 ≤ x ∧ x < 2 ^ 63) : (BitVec.ofInt 64 x).toInt = x := by
  rw [BitVec.toInt_ofInt, Int.bmod_def]
  split <;> omega

theorem toNat_ofInt64 {x : Int} (h : 0 ≤ x ∧ x < 2 ^ 64) : (BitVec.ofInt 64 x).toNat = x.toNat := by
  rw [BitVec.toNat_ofInt]
  omega

theorem intOf_int64 {w : EV} {x : Int} (ht : w.ty = .int64) (hu : w.u = BitVec.ofInt 64 x) (h : -2 ^ 63 ≤ x ∧ x < 2 ^ 63) :
    intOf w = some x := by
  have := toInt_ofInt64 h
  rw [intOf_sem]
  simp only [Expr.Spec.sem, ht, Expr.Spec.intShape, hu]
  rw [BitVec.toInt_eq_toNat_bmod] at this
  exact congrArg (fun q => some (Expr.Spec.SVal.num q)) (by simpa using this)

theorem intOf_uint64 {w : EV} {x : Int} (ht : w.ty = .uint64) (hu : w.u = BitVec.ofInt 64 x) (h : 0 ≤ x ∧ x < 2 ^ 64) :
    intOf w = some x := by
  have := toNat_ofInt64 h
  rw [intOf_sem]
  simp only [Expr.Spec.sem, ht, Expr.Spec.intShape, hu, this]
  congr 2; omega

theorem nullV_null : nullV.isNull = true := rfl

theorem boolV_is (b : Bool) (p : Prop) (h : b = true ↔ p) : IsBool (boolV b) p := by
  refine ⟨rfl, fun hp => ?_, fun hp => ?_⟩
  · rw [h.2 hp]; decide
  · have : b = false := by
      cases b
      · rfl
      · exact absurd (h.1 rfl) hp
    rw [this]; decide

theorem predInt_is {op : BOp} (hop : IsCmp op) (x y : Int) : IsBool (predInt op x y) (Cmp op x y) := by
  unfold predInt
  apply boolV_is
  simp only [IsCmp, List.mem_cons, List.not_mem_nil, or_false] at hop
  rcases hop with h | h | h | h | h | h <;> subst h <;> simp [predOf, Cmp] <;> omega

theorem argTy_arith {op : BOp} (h : IsArith op ∨ IsBit op) {ts : List VTy} (hts : ∀ t ∈ ts, Expr.Spec.IntTy t ∨ t = .null) :
    argTy op ts = if decide (IsBit op) || ts.any VTy.isUint then .uint64 else .int64 := by
  have hd : ts.any isDouble = false := by
    rw [List.any_eq_false]
    intro t ht
    rcases hts t ht with h | h
    · rcases intTy_cases h with h | h | h | h | h | h | h | h <;> subst h <;> simp [isDouble]
    · subst h; simp [isDouble]
  simp only [IsArith, IsBit, List.mem_cons, List.not_mem_nil, or_false] at h
  rcases h with (h | h | h | h) | (h | h | h | h | h) <;> subst h <;> simp [argTy, hd, IsBit]

theorem not_pred {op : BOp} (h : IsArith op ∨ IsBit op) : op.isPred = false := by
  revert h; cases op <;> simp [IsArith, IsBit, BOp.isPred]

/-- The function computes the integer result. -/
theorem binFn_arith (fp : FP) {op : BOp} (hop : IsArith op ∨ IsBit op) {u : Bool} {a b : EV} {x y : Int}
    (hbit : IsBit op → u = true)
    (ha : a.ty = if u then .uint64 else .int64) (hb : b.ty = if u then .uint64 else .int64)
    (hau : a.u = BitVec.ofInt 64 x) (hbu : b.u = BitVec.ofInt 64 y)
    (hx : u = false → -2 ^ 63 ≤ x ∧ x < 2 ^ 63) (hy : u = false → -2 ^ 63 ≤ y ∧ y < 2 ^ 63)
    (hx64 : u = true → x < 2 ^ 64) (hy64 : u = true → y < 2 ^ 64)
    (hT : Takes op u x y) (hR : ∀ z, intOp op x y = some z → InRange u z) :
    ∃ r, binFn fp op (if u then .uint64 else .int64) a b = .ok r ∧
      ((intOp op x y = none ∧ r = nullV) ∨
       (∃ z, intOp op x y = some z ∧ r.ty = (if u then .uint64 else .int64) ∧ r.u = BitVec.ofInt 64 z)) := by
  have hna : a.isNull = false := by unfold EV.isNull; rw [ha]; cases u <;> rfl
  have hnb : b.isNull = false := by unfold EV.isNull; rw [hb]; cases u <;> rfl
  have hn : ¬ (a.isNull = true ∨ b.isNull = true) := by simp [hna, hnb]
  have hsig : ∀ z, InRange false z → signed z = .ok ⟨.int64, BitVec.ofInt 64 z, []⟩ := by
    intro z hz
    unfold signed
    simp only [InRange] at hz
    rw [if_neg]
    simp at hz ⊢; omega
  cases u with
  | false =>
    have hnb' : ¬ IsBit op := fun h => absurd (hbit h) (by simp)
    have hx' := toInt_ofInt64 (hx rfl)
    have hy' := toInt_ofInt64 (hy rfl)
    have hop' : IsArith op := by rcases hop with h | h; exact h; exact absurd h hnb'
    simp only [IsArith, List.mem_cons, List.not_mem_nil, or_false] at hop'
    unfold binFn
    rw [if_neg hn]
    rcases hop' with h | h | h | h <;> subst h
    · simp only [intOp, Option.some.injEq, forall_eq', Bool.false_eq_true, if_false, hau, hbu, hx', hy'] at hR ⊢
      exact ⟨_, hsig _ hR, Or.inr ⟨_, rfl, rfl, rfl⟩⟩
    · simp only [intOp, Option.some.injEq, forall_eq', Bool.false_eq_true, if_false, hau, hbu, hx', hy'] at hR ⊢
      exact ⟨_, hsig _ hR, Or.inr ⟨_, rfl, rfl, rfl⟩⟩
    · simp only [intOp, Option.some.injEq, forall_eq', Bool.false_eq_true, if_false, hau, hbu, hx', hy'] at hR ⊢
      exact ⟨_, hsig _ hR, Or.inr ⟨_, rfl, rfl, rfl⟩⟩
    · simp only [intOp, Bool.false_eq_true, if_false, hau, hbu, hx', hy'] at hR ⊢
      simp only [Takes, Bool.false_eq_true, if_false] at hT
      by_cases hz : y = 0
      · simp only [hz, if_true]
        exact ⟨_, rfl, Or.inl ⟨trivial, rfl⟩⟩
      · simp only [hz, if_false]
        have : ¬ (x = -2 ^ 63 ∧ y = -1) := by
          rintro ⟨h1, h2⟩
          have := hT hz
          subst h1 h2
          revert this; decide
        simp only [this, if_false]
        exact ⟨_, rfl, Or.inr ⟨_, rfl, rfl, rfl⟩⟩
  | true =>
    unfold binFn
    rw [if_neg hn]
    simp only [IsArith, IsBit, List.mem_cons, List.not_mem_nil, or_false] at hop
    have h64 := hx64 rfl
    have h64' := hy64 rfl
    rcases hop with (h | h | h | h) | (h | h | h | h | h) <;> subst h
    · exact ⟨_, rfl, Or.inr ⟨_, rfl, rfl, by simp only [hau, hbu]; rw [BitVec.ofInt_add]⟩⟩
    · exact ⟨_, rfl, Or.inr ⟨_, rfl, rfl, by
        simp only [hau, hbu]; rw [Int.sub_eq_add_neg, BitVec.ofInt_add, BitVec.ofInt_neg, BitVec.sub_eq_add_neg]⟩⟩
    · exact ⟨_, rfl, Or.inr ⟨_, rfl, rfl, by simp only [hau, hbu]; rw [BitVec.ofInt_mul]⟩⟩
    · simp only [Takes, if_true] at hT
      have e1 := toNat_ofInt64 ⟨hT.1, h64⟩
      have e2 := toNat_ofInt64 ⟨hT.2, h64'⟩
      simp only [intOp, if_true, hau, hbu]
      by_cases hz : y = 0
      · subst hz
        exact ⟨_, rfl, Or.inl ⟨by simp, rfl⟩⟩
      · have : ¬ (BitVec.ofInt 64 y = 0) := by
          intro h
          have := congrArg BitVec.toNat h
          rw [e2] at this
          have h0 : (0 : BitVec 64).toNat = 0 := rfl
          omega
        simp only [this, hz, if_false]
        refine ⟨_, rfl, Or.inr ⟨_, rfl, rfl, ?_⟩⟩
        apply BitVec.eq_of_toNat_eq
        simp only [BitVec.toNat_umod, e1, e2]
        have hm : x.tmod y = ((x.toNat % y.toNat : Nat) : Int) := by
          rw [Int.tmod_eq_emod_of_nonneg hT.1]
          push_cast
          rw [Int.toNat_of_nonneg hT.1, Int.toNat_of_nonneg hT.2]
        rw [hm]
        have : x.toNat % y.toNat < 2 ^ 64 := Nat.lt_of_le_of_lt (Nat.mod_le _ _) (by omega)
        rw [toNat_ofInt64 ⟨by omega, by omega⟩]
        omega
    · simp only [Takes] at hT
      have e1 := toNat_ofInt64 ⟨hT.1, h64⟩
      have e2 := toNat_ofInt64 ⟨hT.2, h64'⟩
      refine ⟨_, rfl, Or.inr ⟨_, rfl, rfl, ?_⟩⟩
      apply BitVec.eq_of_toNat_eq
      have : x.toNat &&& y.toNat < 2 ^ 64 := Nat.and_lt_two_pow _ (by omega)
      simp only [hau, hbu, BitVec.toNat_and, e1, e2]
      rw [toNat_ofInt64 ⟨by omega, by omega⟩]
      omega
    · simp only [Takes] at hT
      have e1 := toNat_ofInt64 ⟨hT.1, h64⟩
      have e2 := toNat_ofInt64 ⟨hT.2, h64'⟩
      refine ⟨_, rfl, Or.inr ⟨_, rfl, rfl, ?_⟩⟩
      apply BitVec.eq_of_toNat_eq
      have : x.toNat ||| y.toNat < 2 ^ 64 := Nat.or_lt_two_pow (by omega) (by omega)
      simp only [hau, hbu, BitVec.toNat_or, e1, e2]
      rw [toNat_ofInt64 ⟨by omega, by omega⟩]
      omega
    · simp only [Takes] at hT
      have e1 := toNat_ofInt64 ⟨hT.1, h64⟩
      have e2 := toNat_ofInt64 ⟨hT.2, h64'⟩
      refine ⟨_, rfl, Or.inr ⟨_, rfl, rfl, ?_⟩⟩
      apply BitVec.eq_of_toNat_eq
      have : x.toNat ^^^ y.toNat < 2 ^ 64 := Nat.xor_lt_two_pow (by omega) (by omega)
      simp only [hau, hbu, BitVec.toNat_xor, e1, e2]
      rw [toNat_ofInt64 ⟨by omega, by omega⟩]
      omega
    · simp only [Takes] at hT
      have e1 := toNat_ofInt64 ⟨hT.1, h64⟩
      have e2 := toNat_ofInt64 ⟨hT.2.1, h64'⟩
      simp only [if_true, hau, hbu, e2, intOp]
      rw [if_neg (by omega)]
      refine ⟨_, rfl, Or.inr ⟨_, rfl, rfl, ?_⟩⟩
      apply BitVec.eq_of_toNat_eq
      rw [toNat_ofInt64 ⟨Int.emod_nonneg _ (by decide), Int.emod_lt_of_pos _ (by decide)⟩]
      simp only [BitVec.toNat_shiftLeft, e1, Nat.shiftLeft_eq]
      have : x * 2 ^ y.toNat = ((x.toNat * 2 ^ y.toNat : Nat) : Int) := by
        push_cast
        rw [show ((x.toNat : Nat) : Int) = x by omega]
      rw [this]
      omega
    · simp only [Takes] at hT
      have e1 := toNat_ofInt64 ⟨hT.1, h64⟩
      have e2 := toNat_ofInt64 ⟨hT.2.1, h64'⟩
      simp only [if_true, hau, hbu, e2, intOp]
      rw [if_neg (by omega)]
      refine ⟨_, rfl, Or.inr ⟨_, rfl, rfl, ?_⟩⟩
      apply BitVec.eq_of_toNat_eq
      have hd : x / 2 ^ y.toNat = ((x.toNat / 2 ^ y.toNat : Nat) : Int) := by
        push_cast
        rw [show ((x.toNat : Nat) : Int) = x by omega]
      have : x.toNat / 2 ^ y.toNat < 2 ^ 64 := Nat.lt_of_le_of_lt (Nat.div_le_self _ _) (by omega)
      rw [hd, toNat_ofInt64 ⟨Int.natCast_nonneg _, by exact_mod_cast this⟩]
      simp only [BitVec.toNat_ushiftRight, e1, Nat.shiftRight_eq_div_pow, Int.toNat_natCast]

end BaikalDB.Ops
