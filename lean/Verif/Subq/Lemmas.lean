import Verif.Subq.Model
import Verif.Subq.Spec
import Verif.Pred.Props
import Verif.Window.Fn

namespace BaikalDB.Subq
open BaikalDB.Expr (VTy EV)
open BaikalDB.Expr.Spec
open BaikalDB.Pred
open BaikalDB.Pred.Spec
open BaikalDB.Subq.Spec

/-! ## Truth values -/

theorem means_of_rep {E : Env} {r : Row} {e : PE} {b : Option Bool} (h : Rep E (eval E r (prepare E e)) b) : Means E r e b := by
  cases b with
  | none => exact ⟨h.1, by simp⟩
  | some c => exact ⟨h.1, by rintro _ ⟨⟩; exact h.2⟩

theorem selects_of_rep {E : Env} {r : Row} {e : PE} {b : Option Bool} (h : Rep E (eval E r (prepare E e)) b) : Selects E r e b := by
  unfold Selects keep
  simp only [List.all_cons, List.all_nil, Bool.and_true]
  exact rep_iff_true h

theorem selects_congr {E : Env} {r : Row} {e : PE} {b c : Option Bool} (h : Selects E r e b) (hbc : b = some true ↔ c = some true) :
    Selects E r e c := h.trans hbc

theorem or3_fold (L : List (Option Bool)) : L.foldr or3 (some false) =
    if ∃ y ∈ L, y = some true then some true else if ∀ y ∈ L, y = some false then some false else none := by
  induction L with
  | nil => simp
  | cons a L ih =>
    rw [List.foldr_cons, ih]
    by_cases h1 : ∃ y ∈ L, y = some true
    · rw [if_pos h1, if_pos (by obtain ⟨y, hy, e⟩ := h1; exact ⟨y, List.mem_cons_of_mem _ hy, e⟩)]
      rcases a with _ | _ | _ <;> rfl
    · rw [if_neg h1]
      by_cases h2 : ∀ y ∈ L, y = some false
      · rw [if_pos h2]
        rcases a with _ | _ | _
        · rw [if_neg (by
            rintro ⟨y, hy, e⟩
            rcases List.mem_cons.1 hy with rfl | hy
            · simp at e
            · exact h1 ⟨y, hy, e⟩), if_neg (by intro h; have := h none List.mem_cons_self; simp at this)]; rfl
        · rw [if_neg (by
            rintro ⟨y, hy, e⟩
            rcases List.mem_cons.1 hy with rfl | hy
            · simp at e
            · exact h1 ⟨y, hy, e⟩), if_pos (by
            intro y hy
            rcases List.mem_cons.1 hy with rfl | hy
            · rfl
            · exact h2 y hy)]; rfl
        · rw [if_pos ⟨_, List.mem_cons_self, rfl⟩]; rfl
      · rw [if_neg h2]
        rcases a with _ | _ | _
        · rw [if_neg (by
            rintro ⟨y, hy, e⟩
            rcases List.mem_cons.1 hy with rfl | hy
            · simp at e
            · exact h1 ⟨y, hy, e⟩), if_neg (by intro h; have := h none List.mem_cons_self; simp at this)]; rfl
        · rw [if_neg (by
            rintro ⟨y, hy, e⟩
            rcases List.mem_cons.1 hy with rfl | hy
            · simp at e
            · exact h1 ⟨y, hy, e⟩), if_neg (fun h => h2 fun y hy => h y (List.mem_cons_of_mem _ hy))]; rfl
        · rw [if_pos ⟨_, List.mem_cons_self, rfl⟩]; rfl

theorem anyVal_fold (op : Op) (x : Option SVal) (S : List (Option SVal)) :
    (S.map (cmp3 op x)).foldr or3 (some false) = anyVal op x S := by
  rw [or3_fold]
  simp only [anyVal, List.mem_map, exists_exists_and_eq_and, forall_exists_index, and_imp, forall_apply_eq_imp_iff₂]

theorem rel_ne (x y : SVal) : rel .ne x y = !rel .eq x y := by simp [rel]

theorem cmp3_ne (x y : Option SVal) : cmp3 .ne x y = not3 (cmp3 .eq x y) := by
  cases x <;> cases y <;> simp [cmp3, not3, rel_ne]

theorem not3_eq {b : Option Bool} {c : Bool} : not3 b = some c ↔ b = some (!c) := by
  rcases b with _ | _ | _ <;> cases c <;> simp [not3]

theorem allVal_ne (x : Option SVal) (S : List (Option SVal)) : allVal .ne x S = not3 (anyVal .eq x S) := by
  unfold allVal anyVal
  simp only [cmp3_ne, not3_eq, Bool.not_false, Bool.not_true]
  by_cases h1 : ∃ y ∈ S, cmp3 .eq x y = some true
  · rw [if_pos h1, if_pos h1]; rfl
  · rw [if_neg h1, if_neg h1]
    by_cases h2 : ∀ y ∈ S, cmp3 .eq x y = some false
    · rw [if_pos h2, if_pos h2]; rfl
    · rw [if_neg h2, if_neg h2]; rfl

theorem anyVal_true {op : Op} {x : Option SVal} {S : List (Option SVal)} :
    anyVal op x S = some true ↔ ∃ y ∈ S, cmp3 op x y = some true := by
  unfold anyVal
  split
  · simp [*]
  · rename_i h
    split <;> simp [h]

theorem allVal_true {op : Op} {x : Option SVal} {S : List (Option SVal)} :
    allVal op x S = some true ↔ ∀ y ∈ S, cmp3 op x y = some true := by
  unfold allVal
  split
  · rename_i h
    obtain ⟨y, hy, e⟩ := h
    simp only [Option.some.injEq, Bool.false_eq_true, false_iff]
    intro h'
    rw [h' y hy] at e
    simp at e
  · split
    · rename_i h
      simpa using h
    · rename_i h
      simpa using h

/-! ## Literals -/

/-- A value of a subquery whose literal a column of type `t` can be compared with. -/
def FitV (t u : VTy) (v : EV) : Prop :=
  ((IntTy t ∧ IntTy u) ∨ (Direct t ∧ u = t)) ∧
  (v.ty = .null ∨ (v.ty = u ∧ NotNaN v ∧ (IntTy t → Fits t (numOf v) ∧ Fits .int64 (numOf v))))

theorem Fitting.mem {t u : VTy} {vals : List EV} (h : Fitting t u vals) {v : EV} (hv : v ∈ vals) : FitV t u v :=
  ⟨h.1, h.2 v hv⟩

theorem direct_not_int {t : VTy} (h : Direct t) : t.isInt = false := by
  simp only [Direct, List.mem_cons, List.not_mem_nil, or_false] at h
  rcases h with h | h | h | h | h | h <;> subst h <;> rfl

theorem isInt_of_intTy {t : VTy} (h : IntTy t) : t.isInt = true := by
  simp only [IntTy, List.mem_cons, List.not_mem_nil, or_false] at h
  rcases h with h | h | h | h | h | h | h | h <;> subst h <;> rfl

theorem intTy_not_direct {t : VTy} (h : IntTy t) : ¬ Direct t := by
  intro hd
  have := direct_not_int hd
  rw [isInt_of_intTy h] at this
  simp at this

theorem fits_int64 {t : VTy} {x : Int} (ht : IntTy t) (h : Fits t x) (h' : Fits .int64 x) :
    if t.isUint then 0 ≤ x else Fits .int64 x := by
  simp only [IntTy, List.mem_cons, List.not_mem_nil, or_false] at ht
  rcases ht with ht | ht | ht | ht | ht | ht | ht | ht <;> subst ht <;> simp [VTy.isUint, Fits, range] at h h' ⊢ <;> omega

theorem lit_null {E : Env} {v : EV} (h : v.ty = .null) : lit E v = ⟨nullV, .null⟩ := by
  simp [lit, h, VTy.isInt]

theorem sem_int64 {x : Int} (h : Fits .int64 x) : sem ⟨.int64, BitVec.ofInt 64 x, []⟩ = some (.num x) := by
  simp only [Fits, range] at h
  simp only [sem, intShape, Option.some.injEq, SVal.num.injEq]
  rw [BitVec.toNat_ofInt]
  rw [Int.bmod_def]
  omega

theorem lit_fit (E : Env) {t u : VTy} {v : EV} (h : FitV t u v) :
    sem (lit E v).v = sem v ∧ listable t (lit E v).v ∧ litOk t (lit E v).v ∧
    ((lit E v).v.ty = .null ∨ Ordered (lit E v).v.ty) := by
  obtain ⟨h1, h2⟩ := h
  rcases h2 with h2 | ⟨h2, h3, h4⟩
  · rw [lit_null h2, sem_null h2]
    exact ⟨rfl, .inl rfl, .inl rfl, .inl rfl⟩
  · subst h2
    rcases h1 with ⟨h1, h5⟩ | ⟨h1, h5⟩
    · obtain ⟨h6, h7⟩ := h4 h1
      obtain ⟨x, hx, hg, _⟩ := Expr.sem_int h5
      rw [numOf_eq hx] at h6 h7
      have e : lit E v = ⟨⟨.int64, BitVec.ofInt 64 x, []⟩, v.ty⟩ := by
        simp [lit, isInt_of_intTy h5, hg]
      rw [e]
      have hs := sem_int64 h7
      have i64 : IntTy .int64 := by decide
      refine ⟨hs.trans hx.symm, .inr (.inl ⟨h1, i64, ?_⟩), .inr (.inl ⟨h1, i64, ?_⟩), .inr (show Ordered .int64 by decide)⟩
      · rw [numOf_eq hs]; exact h6
      · rw [numOf_eq hs]; exact fits_int64 h1 h6 h7
    · have key : sem (lit E v).v = sem v ∧ (lit E v).v.ty = v.ty ∧ NotNaN (lit E v).v := by
        obtain ⟨ty, uu, s⟩ := v
        simp only at h5
        subst h5
        have hd := h1
        simp only [Direct, List.mem_cons, List.not_mem_nil, or_false] at hd
        rcases hd with hd | hd | hd | hd | hd | hd <;> subst hd
        · exact ⟨rfl, rfl, by simp [lit, VTy.isInt], by simp [lit, VTy.isInt]⟩
        · exact ⟨rfl, rfl, by simp [lit, VTy.isInt], by simp [lit, VTy.isInt]⟩
        · refine ⟨?_, rfl, by simp [lit, VTy.isInt], by simp [lit, VTy.isInt]⟩
          simp [lit, VTy.isInt, sem, intShape]
        · refine ⟨?_, rfl, by simp [lit, VTy.isInt], by simp [lit, VTy.isInt]⟩
          simp [lit, VTy.isInt, sem, intShape]
        · refine ⟨?_, rfl, by simp [lit, VTy.isInt], by simp [lit, VTy.isInt]⟩
          simp only [lit, VTy.isInt, sem, intShape, Bool.false_eq_true, if_false, Option.some.injEq, SVal.num.injEq,
            BitVec.toNat_setWidth]
          rw [Int.bmod_def, Int.bmod_def]
          omega
        · exact ⟨rfl, rfl, h3⟩
      obtain ⟨k1, k2, k3⟩ := key
      refine ⟨k1, .inr (.inr ⟨h1, k2.trans h5, k3⟩), .inr (.inr ⟨h1, k2.trans h5, k3⟩), .inr ?_⟩
      rw [k2, h5]
      simp only [Direct, List.mem_cons, List.not_mem_nil, or_false] at h1
      rcases h1 with hd | hd | hd | hd | hd | hd <;> subst hd <;> decide

theorem ordered_of {t u : VTy} (h : (IntTy t ∧ IntTy u) ∨ (Direct t ∧ u = t)) : Ordered t ∧ Ordered u := by
  rcases h with ⟨h1, h2⟩ | ⟨h1, rfl⟩
  · simp only [IntTy, List.mem_cons, List.not_mem_nil, or_false] at h1 h2
    constructor
    · rcases h1 with h | h | h | h | h | h | h | h <;> subst h <;> decide
    · rcases h2 with h | h | h | h | h | h | h | h <;> subst h <;> decide
  · simp only [Direct, List.mem_cons, List.not_mem_nil, or_false] at h1
    constructor <;> rcases h1 with hd | hd | hd | hd | hd | hd <;> subst hd <;> decide

/-! ## The conditions built -/

/-- The type noted with a literal does not matter when it is compared with a column. -/
theorem prepare_cmp_lit (E : Env) (op : Op) (i : Nat) (t : VTy) (l : Lit) :
    prepare E (.cmp op .invalid (.slot i t) (.lit l)) = prepare E (.cmp op .invalid (.slot i t) (.lit ⟨l.v, l.v.ty⟩)) := by
  simp [prepare, fold, foldChild, isConst, PE.isLit, infer, inferCmp, PE.isSlot, retype]

theorem cmp_lit_rep (E : Env) {S : Schema} {r : Row} (hr : RowOk S r) (op : Op) (i : Nat) {u : VTy} {v : EV}
    (hv : FitV (S i).1 u v) :
    Rep E (eval E r (prepare E (.cmp op .invalid (.slot i (S i).1) (.lit (lit E v))))) (cmp3 op (sem (r i)) (sem v)) := by
  obtain ⟨h1, _, h3, h4⟩ := lit_fit E hv
  rw [prepare_cmp_lit, ← h1]
  have hd : denote S (.cmp op .invalid (.slot i (S i).1) (.lit ⟨(lit E v).v, (lit E v).v.ty⟩)) =
      some (.cmp op (.col i) (.const (sem (lit E v).v))) := by
    simp only [denote]
    rw [if_pos (show comparable (.slot i (S i).1) (.lit ⟨(lit E v).v, (lit E v).v.ty⟩) from h3)]
    simp only [term]
    rw [if_pos ⟨trivial, (ordered_of hv.1).1⟩, if_pos ⟨trivial, h4⟩]
  exact prep_rep E hr _ _ hd

theorem in_rep' (E : Env) {S : Schema} {r : Row} (hr : RowOk S r) (i : Nat) {vals : List EV} (ho : Ordered (S i).1)
    (hne : vals ≠ []) (hv : ∀ v ∈ vals, ∃ u, FitV (S i).1 u v) :
    Rep E (eval E r (prepare E (.isIn (.slot i (S i).1) (vals.map (lit E)) false))) (anyVal .eq (sem (r i)) (vals.map sem)) ∧
    Rep E (eval E r (prepare E (.not (.isIn (.slot i (S i).1) (vals.map (lit E)) false))))
      (allVal .ne (sem (r i)) (vals.map sem)) := by
  have hi : ∀ l ∈ vals.map (lit E), listable (S i).1 l.v := by
    intro l hl
    obtain ⟨v, hm, rfl⟩ := List.mem_map.1 hl
    obtain ⟨u, hu⟩ := hv v hm
    exact (lit_fit E hu).2.1
  have hd := denote_in (S := S) ho (by simpa using hne) hi
  have es : (vals.map (lit E)).map (fun l => sem l.v) = vals.map sem := by
    rw [List.map_map]
    apply List.map_congr_left
    intro v hm
    obtain ⟨u, hu⟩ := hv v hm
    exact (lit_fit E hu).1
  rw [es] at hd
  refine ⟨?_, ?_⟩
  · have := prep_rep E hr _ _ hd
    simp only [Cond.val, Term.val, rowOf] at this
    rw [anyVal_fold] at this
    exact this
  · have hd' : denote S (.not (.isIn (.slot i (S i).1) (vals.map (lit E)) false)) =
        some (.not (.isIn (.col i) (vals.map sem))) := by
      rw [show denote S (.not (.isIn (.slot i (S i).1) (vals.map (lit E)) false)) =
        (denote S (.isIn (.slot i (S i).1) (vals.map (lit E)) false)).map .not from rfl, hd]; rfl
    have := prep_rep E hr _ _ hd'
    simp only [Cond.val, Term.val, rowOf] at this
    rw [anyVal_fold] at this
    rw [allVal_ne]
    exact this

theorem boolLit_rep (E : Env) (r : Row) (b : Bool) : Rep E (eval E r (prepare E (boolLit b))) (some b) := by
  have : eval E r (prepare E (boolLit b)) = boolV b := by
    simp only [boolLit, prepare, fold, infer, eval, Lit.value]
    exact cast_same' E rfl
  rw [this]
  exact rep_bool E b

theorem prepare_null_in_rep (E : Env) {S : Schema} {r : Row} (hr : RowOk S r) (i : Nat) (ho : Ordered (S i).1) :
    Rep E (eval E r (prepare E (.isIn (.slot i (S i).1) [⟨nullV, .null⟩] false))) none ∧
    Rep E (eval E r (prepare E (.not (.isIn (.slot i (S i).1) [⟨nullV, .null⟩] false)))) none := by
  have hd := denote_in (S := S) (items := [⟨nullV, .null⟩]) ho (by simp) (by simp [listable, nullV])
  have hn : ((Cond.isIn (.col i) [none]).val Like.likeOne (rowOf r)) = none := by
    simp only [Cond.val, Term.val, rowOf, List.map_cons, List.map_nil, List.foldr]
    cases sem (r i) <;> rfl
  refine ⟨?_, ?_⟩
  · have := prep_rep E hr _ _ hd
    simp only [List.map_cons, List.map_nil, show sem nullV = none from rfl] at this
    rw [hn] at this
    exact this
  · have hd' : denote S (.not (.isIn (.slot i (S i).1) [⟨nullV, .null⟩] false)) =
        some (.not (.isIn (.col i) [none])) := by
      rw [show denote S (.not (.isIn (.slot i (S i).1) [⟨nullV, .null⟩] false)) =
        (denote S (.isIn (.slot i (S i).1) [⟨nullV, .null⟩] false)).map .not from rfl, hd]; rfl
    have := prep_rep E hr _ _ hd'
    rw [show (Cond.not (.isIn (.col i) [none])).val Like.likeOne (rowOf r) = not3 ((Cond.isIn (.col i) [none]).val Like.likeOne (rowOf r)) from by
      simp only [Cond.val], hn] at this
    exact this

end BaikalDB.Subq
