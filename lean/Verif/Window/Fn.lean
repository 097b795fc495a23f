import Verif.Window.Order
import Verif.Expr.Props
import Mathlib.Tactic.Ring

/-! # The functions on one partition -/

namespace BaikalDB.Window
open Expr (EV VTy)
open Expr.Spec
open Spec
open BaikalDB.Sort (Key rowCompare rowOrd RowLe RowOK rowCompare_eq)

variable {ρ : Type} {ks : List (Key ρ)} {oty : Key ρ → VTy} {P : List ρ} {fp : Fp}

/-! ## Folds -/

theorem isInt_intV (x : BitVec 64) : IsInt (intV x) x.toInt := by
  refine ⟨rfl, ?_⟩
  have := Expr.sget_eq (intV x) (Nat.le_refl 64)
  simp only [sem, intShape, intV, Option.some.injEq, SVal.num.injEq] at this ⊢
  rw [← this]
  simp [EV.sget]

theorem isInt_ofNat {n : Nat} (h : n < 2 ^ 63) : IsInt (intV (BitVec.ofNat 64 n)) n := by
  have := isInt_intV (BitVec.ofNat 64 n)
  have e : (BitVec.ofNat 64 n).toInt = n := by
    rw [← BitVec.ofInt_natCast, BitVec.toInt_ofInt]
    exact Int.bmod_eq_of_le (by omega) (by omega)
  rwa [e] at this

theorem args_cons (a : ρ → EV) (r : ρ) (F : List ρ) : args a (r :: F) = if (a r).isNull then args a F else a r :: args a F := by
  unfold args
  rw [List.map_cons, List.filter_cons]
  cases (a r).isNull <;> simp

theorem isNull_nullV : nullV.isNull = true := by rfl
theorem isNull_intV (x : BitVec 64) : (intV x).isNull = false := by rfl
theorem isNull_dblV (x : BitVec 64) : (dblV x).isNull = false := by rfl

theorem count_fold (as : List (ρ → EV)) (F : List ρ) : ∀ c : BitVec 64,
    F.foldl (countRow as) c = c + BitVec.ofNat 64 (F.countP fun r => as.all fun a => !(a r).isNull) := by
  induction F with
  | nil => intro c; simp
  | cons r F ih =>
    intro c
    rw [List.foldl_cons, ih, List.countP_cons]
    unfold countRow
    cases hc : (as.all fun a => !(a r).isNull)
    · simp
    · simp only [if_true]
      rw [show (F.countP fun r => as.all fun a => !(a r).isNull) + 1 = 1 + (F.countP fun r => as.all fun a => !(a r).isNull) by omega,
        BitVec.ofNat_add]
      rw [← BitVec.add_assoc]
      rfl

theorem sum_fold_args (a : ρ → EV) (F : List ρ) : ∀ s : EV,
    F.foldl (sumRow a) s = (args a F).foldl (fun s v => if s.isNull then intV (toI64 v) else intV (s.u + toI64 v)) s := by
  induction F with
  | nil => intro s; rfl
  | cons r F ih =>
    intro s
    rw [List.foldl_cons, ih, args_cons]
    unfold sumRow
    cases hc : (a r).isNull <;> simp

theorem sum_fold_int (vs : List EV) : ∀ x : BitVec 64,
    vs.foldl (fun s v => if EV.isNull s then intV (toI64 v) else intV (s.u + toI64 v)) (intV x) =
      intV (vs.foldl (fun x v => x + toI64 v) x) := by
  induction vs with
  | nil => intro x; rfl
  | cons v vs ih =>
    intro x
    rw [List.foldl_cons, List.foldl_cons]
    simp only [isNull_intV, Bool.false_eq_true, if_false]
    exact ih (x + toI64 v)

theorem toI64_sum (vs : List EV) (xs : List Int) : (∀ v ∈ vs, IntTy v.ty) → vs.map sem = xs.map (fun x => some (SVal.num x)) →
    ∀ x : BitVec 64, (2 ^ 64 : Int) ∣ (vs.foldl (fun x v => x + toI64 v) x).toInt - (x.toInt + xs.sum) := by
  induction vs generalizing xs with
  | nil =>
    intro _ h x
    cases xs with
    | nil => simp
    | cons y ys => simp at h
  | cons v vs ih =>
    intro ht h x
    cases xs with
    | nil => simp at h
    | cons y ys =>
      simp only [List.map_cons, List.cons.injEq] at h
      obtain ⟨z, e1, e2, _⟩ := Expr.sem_int (ht v List.mem_cons_self)
      rw [e1] at h
      simp only [Option.some.injEq, SVal.num.injEq] at h
      obtain ⟨rfl, h⟩ := h
      have := ih ys (fun w hw => ht w (List.mem_cons_of_mem _ hw)) h (x + toI64 v)
      rw [List.foldl_cons]
      have hm : (2 ^ 64 : Int) ∣ (x + toI64 v).toInt - (x.toInt + z) := by
        unfold toI64
        rw [e2, BitVec.toInt_add]
        simp only [Option.getD_some, BitVec.toInt_ofInt]
        have a1 := Int.bmod_emod (x := z) (m := 2 ^ 64)
        have a2 := Int.bmod_emod (x := x.toInt + z.bmod (2 ^ 64)) (m := 2 ^ 64)
        omega
      rw [List.sum_cons]
      omega

/-- SUM of integers. -/
theorem sum_value {a : ρ → EV} {F : List ρ} (ht : ∀ r ∈ F, (a r).isNull = true ∨ IntTy (a r).ty) (Q : List ρ) (x : ρ) (i : Nat) :
    Value fp ks (.sum a) Q x i F (F.foldl (sumRow a) nullV) := by
  simp only [Value]
  rw [sum_fold_args]
  have htys : ∀ v ∈ args a F, IntTy v.ty := by
    intro v hv
    unfold args at hv
    obtain ⟨h1, h2⟩ := List.mem_filter.1 hv
    obtain ⟨r, hr, rfl⟩ := List.mem_map.1 h1
    rcases ht r hr with h | h
    · simp [h] at h2
    · exact h
  generalize args a F = vs at htys
  constructor
  · intro h; subst h; rfl
  · intro hne xs hxs
    cases vs with
    | nil => exact absurd rfl hne
    | cons v vs =>
      rw [List.foldl_cons]
      simp only [isNull_nullV, if_true]
      rw [sum_fold_int]
      refine ⟨_, isInt_intV _, ?_⟩
      have h0 := toI64_sum (v :: vs) xs htys hxs 0
      rw [List.foldl_cons, show (0 : BitVec 64) + toI64 v = toI64 v from BitVec.zero_add _,
        show (0 : BitVec 64).toInt = 0 from rfl, Int.zero_add] at h0
      refine ⟨h0, fun h1 h2 => ?_⟩
      have b1 := BitVec.toInt_lt (x := vs.foldl (fun x v => x + toI64 v) (toI64 v))
      have b2 := BitVec.le_toInt (x := vs.foldl (fun x v => x + toI64 v) (toI64 v))
      omega

theorem sumDbl_fold (a : ρ → EV) (F : List ρ) : ∀ s : EV,
    F.foldl (sumDblRow fp a) s = ((args a F).map fp.ofVal).foldl (fun s x => if s.isNull then dblV x else dblV (fp.add s.u x)) s := by
  induction F with
  | nil => intro s; rfl
  | cons r F ih =>
    intro s
    rw [List.foldl_cons, ih, args_cons]
    unfold sumDblRow
    cases hc : (a r).isNull <;> simp

theorem sumDbl_value (a : ρ → EV) (F : List ρ) (Q : List ρ) (x : ρ) (i : Nat) :
    Value fp ks (.sumDbl a) Q x i F (F.foldl (sumDblRow fp a) nullV) := by
  simp only [Value]
  rw [sumDbl_fold]
  generalize (args a F).map fp.ofVal = xs
  cases xs with
  | nil => rfl
  | cons y ys =>
    simp only [List.foldl_cons, isNull_nullV, if_true]
    have : ∀ (ys : List (BitVec 64)) (y : BitVec 64), ys.foldl (fun s x => if EV.isNull s then dblV x else dblV (fp.add s.u x)) (dblV y) =
        dblV (ys.foldl fp.add y) := by
      intro ys
      induction ys with
      | nil => intro y; rfl
      | cons z zs ih =>
        intro y
        rw [List.foldl_cons, List.foldl_cons]
        simp only [isNull_dblV, Bool.false_eq_true, if_false]
        exact ih (fp.add y z)
    rw [this]
    exact ⟨rfl, rfl⟩

theorem avg_fold (a : ρ → EV) (F : List ρ) : ∀ s : BitVec 64 × BitVec 64,
    F.foldl (avgRow fp a) s = (((args a F).map fp.ofVal).foldl fp.add s.1, s.2 + BitVec.ofNat 64 (args a F).length) := by
  induction F with
  | nil => intro s; simp [args]
  | cons r F ih =>
    intro s
    rw [List.foldl_cons, ih, args_cons]
    unfold avgRow
    cases hc : (a r).isNull
    · simp only [Bool.false_eq_true, if_false, List.map_cons, List.foldl_cons, List.length_cons]
      rw [show (args a F).length + 1 = 1 + (args a F).length by omega, BitVec.ofNat_add, ← BitVec.add_assoc]
      rfl
    · simp

theorem avg_value (a : ρ → EV) {F : List ρ} (hF : F.length < 2 ^ 31) (Q : List ρ) (x : ρ) (i : Nat) :
    Value fp ks (.avg a) Q x i F
      (if (F.foldl (avgRow fp a) (0, 0)).2 ≠ 0 then dblV (fp.div (F.foldl (avgRow fp a) (0, 0)).1 (fp.ofInt (F.foldl (avgRow fp a) (0, 0)).2.toInt))
        else nullV) := by
  have hlen : (args a F).length ≤ F.length := by
    unfold args
    exact Nat.le_trans (List.length_filter_le _ _) (by simp)
  rw [avg_fold]
  have z : ∀ x : BitVec 64, (0 : BitVec 64) + x = x := BitVec.zero_add
  simp only [z, Value]
  cases hx : args a F with
  | nil => simp [IsNull, nullV]
  | cons v vs =>
    rw [hx, List.length_cons] at hlen
    simp only [List.map_cons]
    have hn : BitVec.ofNat 64 (v :: vs).length ≠ 0 := by
      intro hc
      have := congrArg BitVec.toNat hc
      simp only [List.length_cons, BitVec.toNat_ofNat] at this
      have h2 : (vs.length + 1) % 2 ^ 64 = vs.length + 1 := Nat.mod_eq_of_lt (by omega)
      rw [h2] at this
      simp at this
    rw [if_pos hn]
    have ht : (BitVec.ofNat 64 (v :: vs).length).toInt = ((fp.ofVal v :: vs.map fp.ofVal).length : Nat) := by
      rw [← BitVec.ofInt_natCast, BitVec.toInt_ofInt]
      simp only [List.length_cons, List.length_map]
      exact Int.bmod_eq_of_le (by omega) (by omega)
    rw [ht]
    exact ⟨rfl, rfl⟩

/-! MIN and MAX. -/

theorem isNull_ordered {v : EV} {t : VTy} (h : v.ty = t) (ho : Expr.Spec.Ordered t) : v.isNull = false := by
  unfold EV.isNull
  rw [h]
  cases t <;> simp_all [Expr.Spec.Ordered]

/-- A fold that keeps the best value so far. -/
theorem best_fold {t : VTy} (ho : Expr.Spec.Ordered t) (step : EV → EV → Bool) (le : SVal → SVal → Prop) (hrefl : ∀ x, le x x)
    (htr : ∀ x y z, le x y → le y z → le x z)
    (hst : ∀ m v, m.ty = t → NotNaN m → v.ty = t → NotNaN v → ∃ x y, sem m = some x ∧ sem v = some y ∧ (step m v = true → le y x) ∧ (step m v = false → le x y))
    (vs : List EV) : (∀ v ∈ vs, v.ty = t ∧ NotNaN v) → ∀ m, m.ty = t → NotNaN m →
      ∃ b, vs.foldl (fun m v => if m.isNull = true ∨ step m v = true then v else m) m = b ∧ b ∈ m :: vs ∧ b.ty = t ∧
        ∃ x, sem b = some x ∧ ∀ w ∈ m :: vs, ∃ y, sem w = some y ∧ le x y := by
  induction vs with
  | nil =>
    intro _ m hm hn
    obtain ⟨x, y, h1, _⟩ := hst m m hm hn hm hn
    exact ⟨m, rfl, List.mem_cons_self, hm, x, h1, fun w hw => by
      simp only [List.mem_cons, List.not_mem_nil, or_false] at hw; subst hw; exact ⟨x, h1, hrefl x⟩⟩
  | cons v vs ih =>
    intro hv m hm hn
    obtain ⟨vt, vn⟩ := hv v List.mem_cons_self
    obtain ⟨x, y, h1, h2, h3, h4⟩ := hst m v hm hn vt vn
    rw [List.foldl_cons]
    have hnn : m.isNull = false := isNull_ordered hm ho
    by_cases hs : step m v = true
    · rw [if_pos (Or.inr hs)]
      obtain ⟨b, e, hb, hbt, z, hz, hall⟩ := ih (fun w hw => hv w (List.mem_cons_of_mem _ hw)) v vt vn
      refine ⟨b, e, List.mem_cons_of_mem _ hb, hbt, z, hz, fun w hw => ?_⟩
      rcases List.mem_cons.1 hw with rfl | hw
      · obtain ⟨y', e', hle⟩ := hall v List.mem_cons_self
        rw [h2] at e'
        injection e' with e'
        subst e'
        exact ⟨x, h1, htr _ _ _ hle (h3 hs)⟩
      · exact hall w hw
    · have hs' : step m v = false := by simpa using hs
      rw [if_neg (by simp [hnn, hs'])]
      obtain ⟨b, e, hb, hbt, z, hz, hall⟩ := ih (fun w hw => hv w (List.mem_cons_of_mem _ hw)) m hm hn
      refine ⟨b, e, ?_, hbt, z, hz, fun w hw => ?_⟩
      · rcases List.mem_cons.1 hb with rfl | hb
        · exact List.mem_cons_self
        · exact List.mem_cons_of_mem _ (List.mem_cons_of_mem _ hb)
      · rcases List.mem_cons.1 hw with rfl | hw
        · exact hall _ List.mem_cons_self
        · rcases List.mem_cons.1 hw with rfl | hw
          · obtain ⟨x', e', hle⟩ := hall m List.mem_cons_self
            rw [h1] at e'
            injection e' with e'
            subst e'
            exact ⟨y, h2, htr _ _ _ hle (h4 hs')⟩
          · exact hall w (List.mem_cons_of_mem _ hw)

theorem min_fold_args (a : ρ → EV) (F : List ρ) : ∀ m : EV,
    F.foldl (minRow a) m = (args a F).foldl (fun m v => if m.isNull = true ∨ decide (Expr.compare m v > 0) = true then v else m) m := by
  induction F with
  | nil => intro s; rfl
  | cons r F ih =>
    intro s
    rw [List.foldl_cons, ih, args_cons]
    unfold minRow
    cases hc : (a r).isNull <;> simp

theorem max_fold_args (a : ρ → EV) (F : List ρ) : ∀ m : EV,
    F.foldl (maxRow a) m = (args a F).foldl (fun m v => if m.isNull = true ∨ decide (Expr.compare m v < 0) = true then v else m) m := by
  induction F with
  | nil => intro s; rfl
  | cons r F ih =>
    intro s
    rw [List.foldl_cons, ih, args_cons]
    unfold maxRow
    cases hc : (a r).isNull <;> simp

theorem args_typed {a : ρ → EV} {F : List ρ} {t : VTy} (ht : ∀ r ∈ F, (a r).isNull = true ∨ ((a r).ty = t ∧ NotNaN (a r))) :
    ∀ v ∈ args a F, v.ty = t ∧ NotNaN v := by
  intro v hv
  unfold args at hv
  obtain ⟨h1, h2⟩ := List.mem_filter.1 hv
  obtain ⟨r, hr, rfl⟩ := List.mem_map.1 h1
  rcases ht r hr with h | h
  · simp [h] at h2
  · exact h

theorem cmp_refl (x : SVal) : SVal.cmp x x ≠ .gt := by
  have : SVal.cmp x x = .eq := Expr.SVal.cmp_eq.2 rfl
  simp [this]

theorem min_value {a : ρ → EV} {F : List ρ} {t : VTy} (ho : Expr.Spec.Ordered t)
    (ht : ∀ r ∈ F, (a r).isNull = true ∨ ((a r).ty = t ∧ NotNaN (a r))) (Q : List ρ) (x : ρ) (i : Nat) :
    Value fp ks (.min a) Q x i F (F.foldl (minRow a) nullV) := by
  simp only [Value]
  rw [min_fold_args]
  have hty := args_typed ht
  generalize args a F = vs at hty
  constructor
  · intro h; subst h; rfl
  · intro hne
    cases vs with
    | nil => exact absurd rfl hne
    | cons v vs =>
      rw [List.foldl_cons, if_pos (Or.inl isNull_nullV)]
      obtain ⟨vt, vn⟩ := hty v List.mem_cons_self
      obtain ⟨b, e, hb, _, z, hz, hall⟩ := best_fold ho (fun m v => decide (Expr.compare m v > 0)) (fun x y => SVal.cmp x y ≠ .gt) cmp_refl
        (fun _ _ _ => Expr.SVal.cmp_trans)
        (fun m v h1 h2 h3 h4 => by
          obtain ⟨x, y, e1, e2, e3⟩ := Expr.C28_compare_is_value_order (h1.trans h3.symm) (by rw [h1]; exact ho) h2 h4
          refine ⟨x, y, e1, e2, fun hp => ?_, fun hp => ?_⟩
          · have hg : sgn (Expr.compare m v) = .gt := Expr.int_compare_gt _ _ |>.2 (by simpa using hp)
            rw [e3] at hg
            rw [← Expr.SVal.cmp_swap, hg]
            simp
          · rw [← e3]
            intro hg
            have := (Expr.int_compare_gt _ _).1 hg
            simp at hp
            omega)
        vs (fun w hw => hty w (List.mem_cons_of_mem _ hw)) v vt vn
      rw [e]
      exact ⟨hb, z, hz, hall⟩

theorem max_value {a : ρ → EV} {F : List ρ} {t : VTy} (ho : Expr.Spec.Ordered t)
    (ht : ∀ r ∈ F, (a r).isNull = true ∨ ((a r).ty = t ∧ NotNaN (a r))) (Q : List ρ) (x : ρ) (i : Nat) :
    Value fp ks (.max a) Q x i F (F.foldl (maxRow a) nullV) := by
  simp only [Value]
  rw [max_fold_args]
  have hty := args_typed ht
  generalize args a F = vs at hty
  constructor
  · intro h; subst h; rfl
  · intro hne
    cases vs with
    | nil => exact absurd rfl hne
    | cons v vs =>
      rw [List.foldl_cons, if_pos (Or.inl isNull_nullV)]
      obtain ⟨vt, vn⟩ := hty v List.mem_cons_self
      obtain ⟨b, e, hb, _, z, hz, hall⟩ := best_fold ho (fun m v => decide (Expr.compare m v < 0)) (fun x y => SVal.cmp y x ≠ .gt) cmp_refl
        (fun _ _ _ h1 h2 => Expr.SVal.cmp_trans h2 h1)
        (fun m v h1 h2 h3 h4 => by
          obtain ⟨x, y, e1, e2, e3⟩ := Expr.C28_compare_is_value_order (h1.trans h3.symm) (by rw [h1]; exact ho) h2 h4
          refine ⟨x, y, e1, e2, fun hp => ?_, fun hp => ?_⟩
          · have hg : sgn (Expr.compare m v) = .lt := (Expr.int_compare_lt _ _).2 (by simpa using hp)
            rw [e3] at hg
            rw [hg]
            simp
          · rw [← Expr.SVal.cmp_swap, ← e3]
            intro hg
            have h5 : sgn (Expr.compare m v) = .lt := by
              revert hg
              cases sgn (Expr.compare m v) <;> simp
            have := (Expr.int_compare_lt _ _).1 h5
            simp at hp
            omega)
        vs (fun w hw => hty w (List.mem_cons_of_mem _ hw)) v vt vn
      rw [e]
      exact ⟨hb, z, hz, hall⟩

/-! ## Functions of a frame -/

theorem at?_eq (a : ρ → EV) {i : Nat} {x : ρ} (h : P[i]? = some x) : at? a P i = a x := by
  unfold at?; rw [h]; rfl

theorem stretch_getElem? {s e : Nat} (k : Nat) : ((P.take e).drop s)[k]? = if s + k < e then P[s + k]? else none := by
  rw [List.getElem?_drop, List.getElem?_take]

theorem stretch_length {s e : Nat} (he : e ≤ P.length) : ((P.take e).drop s).length = e - s := by
  rw [List.length_drop, List.length_take]; omega

theorem wrap32_small {x : Int} (h0 : -2 ^ 31 ≤ x) (h1 : x < 2 ^ 31) : wrap32 x = x := by
  unfold wrap32
  rw [BitVec.toInt_ofInt]
  exact Int.bmod_eq_of_le (by omega) (by omega)

theorem wrap32_over {x : Int} (h0 : 2 ^ 31 ≤ x) (h1 : x < 2 ^ 32) : wrap32 x < 0 := by
  unfold wrap32
  rw [BitVec.toInt_ofInt]
  have h2 : x.bmod (2 ^ 32) = x - 2 ^ 32 := by
    have a := Int.bmod_emod (x := x) (m := 2 ^ 32)
    have b := Int.bmod_lt (x := x) (m := 2 ^ 32) (by decide)
    have c := Int.le_bmod (x := x) (m := 2 ^ 32) (by decide)
    omega
  omega

/-- A function of the frame: the rows of the frame are called, and then the result does not change. -/
theorem frame_value {f : Fn ρ} (hf : f.frameless = false) (hok : FnOk P f) (hP : P.length < 2 ^ 31) (st : Inter ρ) {s e : Nat}
    (he : e ≤ P.length) (x : ρ) (i : Nat) :
    ∃ st' v, (if s < e then call fp f (frameReset f st) P s e else .ok (frameReset f st)) = .ok st' ∧ getResult fp ks f st' = .ok (v, st') ∧
      Value fp ks f P x i ((P.take e).drop s) v := by
  have hlen := stretch_length (P := P) (s := s) he
  have hmem : ∀ r ∈ (P.take e).drop s, r ∈ P := fun r hr => List.mem_of_mem_take (List.mem_of_mem_drop hr)
  have hg : s < e → ¬ (P.length ≤ s ∨ e = 0 ∨ P.length < e) := fun h => by omega
  have hempty : ¬ s < e → (P.take e).drop s = [] := fun h => List.length_eq_zero_iff.1 (by omega)
  cases f with
  | countStar =>
    by_cases hse : s < e
    · simp only [if_pos hse, call, if_neg (hg hse), frameReset]
      refine ⟨_, _, rfl, rfl, ?_⟩
      · simp only [Value]
        rw [show ∀ x : BitVec 64, (0 : BitVec 64) + x = x from BitVec.zero_add, hlen]
        have : BitVec.ofNat 64 e - BitVec.ofNat 64 s = BitVec.ofNat 64 (e - s) := by
          apply BitVec.eq_of_toNat_eq
          simp only [BitVec.toNat_sub, BitVec.toNat_ofNat]
          omega
        rw [this]
        exact isInt_ofNat (by omega)
    · simp only [if_neg hse, frameReset]
      refine ⟨_, _, rfl, rfl, ?_⟩
      · rw [hempty hse]
        exact isInt_ofNat (n := 0) (by omega)
  | count as =>
    have hcl := List.countP_le_length (p := fun r => as.all fun a => !(a r).isNull) (l := (P.take e).drop s)
    by_cases hse : s < e
    · simp only [if_pos hse, call, if_neg (hg hse), frameReset]
      refine ⟨_, _, rfl, rfl, ?_⟩
      · simp only [Value]
        rw [count_fold, show ∀ x : BitVec 64, (0 : BitVec 64) + x = x from BitVec.zero_add]
        exact isInt_ofNat (by omega)
    · simp only [if_neg hse, frameReset]
      refine ⟨_, _, rfl, rfl, ?_⟩
      · rw [hempty hse]
        exact isInt_ofNat (n := 0) (by omega)
  | sum a =>
    have hv := sum_value (fp := fp) (ks := ks) (a := a) (F := (P.take e).drop s) (fun r hr => hok r (hmem r hr)) P x i
    by_cases hse : s < e
    · simp only [if_pos hse, call, if_neg (hg hse), frameReset]
      exact ⟨_, _, rfl, rfl, hv⟩
    · simp only [if_neg hse, frameReset]
      refine ⟨_, _, rfl, rfl, ?_⟩
      · rw [hempty hse] at hv ⊢
        exact hv
  | sumDbl a =>
    have hv := sumDbl_value (fp := fp) (ks := ks) a ((P.take e).drop s) P x i
    by_cases hse : s < e
    · simp only [if_pos hse, call, if_neg (hg hse), frameReset]
      exact ⟨_, _, rfl, rfl, hv⟩
    · simp only [if_neg hse, frameReset]
      refine ⟨_, _, rfl, rfl, ?_⟩
      · rw [hempty hse] at hv ⊢
        exact hv
  | avg a =>
    have hv := avg_value (fp := fp) (ks := ks) a (F := (P.take e).drop s) (by omega) P x i
    by_cases hse : s < e
    · simp only [if_pos hse, call, if_neg (hg hse), frameReset]
      exact ⟨_, _, rfl, rfl, hv⟩
    · simp only [if_neg hse, frameReset]
      refine ⟨_, _, rfl, rfl, ?_⟩
      · rw [hempty hse] at hv ⊢
        exact hv
  | min a =>
    obtain ⟨t, ho, ht⟩ := hok
    have hv := min_value (fp := fp) (ks := ks) (a := a) (F := (P.take e).drop s) ho (fun r hr => ht r (hmem r hr)) P x i
    by_cases hse : s < e
    · simp only [if_pos hse, call, if_neg (hg hse), frameReset]
      exact ⟨_, _, rfl, rfl, hv⟩
    · simp only [if_neg hse, frameReset]
      refine ⟨_, _, rfl, rfl, ?_⟩
      · rw [hempty hse] at hv ⊢
        exact hv
  | max a =>
    obtain ⟨t, ho, ht⟩ := hok
    have hv := max_value (fp := fp) (ks := ks) (a := a) (F := (P.take e).drop s) ho (fun r hr => ht r (hmem r hr)) P x i
    by_cases hse : s < e
    · simp only [if_pos hse, call, if_neg (hg hse), frameReset]
      exact ⟨_, _, rfl, rfl, hv⟩
    · simp only [if_neg hse, frameReset]
      refine ⟨_, _, rfl, rfl, ?_⟩
      · rw [hempty hse] at hv ⊢
        exact hv
  | firstValue a =>
    by_cases hse : s < e
    · simp only [if_pos hse, call, if_neg (hg hse), frameReset]
      refine ⟨_, _, rfl, rfl, ?_⟩
      · simp only [Value, at?]
        rw [List.head?_eq_getElem?, stretch_getElem?, Nat.add_zero, if_pos hse]
    · simp only [if_neg hse, frameReset]
      refine ⟨_, _, rfl, rfl, ?_⟩
      · rw [hempty hse]
        rfl
  | lastValue a =>
    by_cases hse : s < e
    · simp only [if_pos hse, call, if_neg (hg hse), frameReset]
      refine ⟨_, _, rfl, rfl, ?_⟩
      · simp only [Value, at?]
        rw [List.getLast?_eq_getElem?, stretch_getElem?, hlen, if_pos (by omega), show s + (e - s - 1) = e - 1 by omega]
    · simp only [if_neg hse, frameReset]
      refine ⟨_, _, rfl, rfl, ?_⟩
      · rw [hempty hse]
        rfl
  | nthValue a n =>
    obtain ⟨hn0, hn1⟩ := hok
    by_cases hse : s < e
    · rw [if_pos hse]
      have hcall : call fp (.nthValue a n) (frameReset (.nthValue a n) st) P s e = nthCall a n nullV P s e := by
        unfold call; rw [if_neg (hg hse)]; rfl
      rw [hcall]
      unfold nthCall
      rw [if_neg (by omega)]
      rcases (by omega : (s : Int) + n - 1 < 2 ^ 31 ∨ 2 ^ 31 ≤ (s : Int) + n - 1) with hw | hw
      · rw [wrap32_small (by omega) hw]
        by_cases hc : (s : Int) + n - 1 < e
        · refine ⟨_, _, if_pos ⟨by omega, hc⟩, rfl, ?_⟩
          simp only [Value, at?]
          rw [stretch_getElem?, if_pos (by omega), show s + (n - 1).toNat = ((s : Int) + n - 1).toNat by omega]
        · refine ⟨_, _, if_neg (by omega), rfl, ?_⟩
          simp only [Value]
          rw [stretch_getElem?, if_neg (by omega)]
          rfl
      · have hneg := wrap32_over hw (by omega)
        refine ⟨_, _, if_neg (by omega), rfl, ?_⟩
        simp only [Value]
        rw [stretch_getElem?, if_neg (by omega)]
        rfl
    · simp only [if_neg hse, frameReset]
      refine ⟨_, _, rfl, rfl, ?_⟩
      · rw [hempty hse]
        rfl
  | _ => simp [Fn.frameless] at hf

end BaikalDB.Window
