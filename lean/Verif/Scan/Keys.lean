import Verif.Scan.Spec
import Mathlib.Tactic.Common

/-!
# Bounds of several columns against the key of a row
-/

namespace BaikalDB.Scan
open KeyEnc KeyEnc.Spec IndexKey Like Like.Spec Route

/-- The bytes of one column value. -/
def ck (t : PType) (v : PbVal) : Bytes := app [] t v

theorem app_eq (k : Bytes) (t : PType) (v : PbVal) : app k t v = k ++ ck t v := by
  unfold ck app
  cases t <;> simp [appendValue, appendBoolean, appendI8, appendI16, appendI32, appendI64, appendU8, appendU16, appendU32,
    appendU64, appendFloat, appendDouble, appendString]

theorem ck_encode {t : PType} {v : PbVal} (h : Valid t v) : encodeField t v [] false = some (ck t v) :=
  C04_bound_keys_match_row_keys h []

theorem ck_order {t : PType} {v w : PbVal} (hv : Valid t v) (hw : Valid t w) (s u : Bytes) :
    bcmp (ck t v ++ s) (ck t w ++ u) = (colCompare v w).then (bcmp s u) := by
  have h := C04_composite_order (ts := [t]) (vs := [v]) (ws := [w]) ⟨hv, trivial⟩ ⟨hw, trivial⟩ (p := [])
    (a := ck t v) (b := ck t w) (by simp [encodeTuple, ck_encode hv]) (by simp [encodeTuple, ck_encode hw]) s u
  rw [h]
  simp only [tupleCompare]
  cases colCompare v w <;> rfl

/-- The bytes of the first columns of a key. -/
def tk : List FieldInfo → List PbVal → Bytes
  | f :: fs, v :: vs => ck f.type v ++ tk fs vs
  | _, _ => []

/-- Values that fit the first of the columns. -/
def FitsCols : List FieldInfo → List PbVal → Prop
  | f :: fs, v :: vs => Valid f.type v ∧ FitsCols fs vs
  | _, [] => True
  | [], _ :: _ => False

theorem FitsCols.nil (fs : List FieldInfo) : FitsCols fs [] := by cases fs <;> simp [FitsCols]

theorem FitsCols.len {fs : List FieldInfo} {vs : List PbVal} (h : FitsCols fs vs) : vs.length ≤ fs.length := by
  induction fs generalizing vs with
  | nil => cases vs <;> simp [FitsCols] at h ⊢
  | cons f fs ih => cases vs with
    | nil => simp
    | cons v vs => have := ih h.2; simp; omega

theorem tk_nil (fs : List FieldInfo) : tk fs [] = [] := by cases fs <;> rfl

theorem tupleCompare_nil_left (ws : List PbVal) : tupleCompare [] ws = .eq := by simp [tupleCompare]
theorem tupleCompare_nil_right (ws : List PbVal) : tupleCompare ws [] = .eq := by cases ws <;> simp [tupleCompare]

theorem tk_order {fs : List FieldInfo} {vs ws : List PbVal} (hv : FitsCols fs vs) (hw : FitsCols fs ws)
    (hl : vs.length ≤ ws.length) (s x : Bytes) :
    bcmp (tk fs vs ++ s) (tk fs ws ++ x) =
      (tupleCompare vs ws).then (bcmp s (tk (fs.drop vs.length) (ws.drop vs.length) ++ x)) := by
  induction fs generalizing vs ws with
  | nil =>
    cases vs with
    | nil => cases ws with
      | nil => simp [tk, tupleCompare]
      | cons => simp [FitsCols] at hw
    | cons => simp [FitsCols] at hv
  | cons f fs ih =>
    cases vs with
    | nil => simp [tk_nil, tupleCompare_nil_left]
    | cons v vs => cases ws with
      | nil => simp at hl
      | cons w ws =>
        simp only [tk, List.append_assoc, List.length_cons, List.drop_succ_cons, tupleCompare]
        rw [ck_order hv.1 hw.1, ih hv.2 hw.2 (by simpa using hl)]
        cases colCompare v w <;> rfl

theorem colCompare_swap (x y : PbVal) : (colCompare x y).swap = colCompare y x := by
  cases x <;> cases y <;> simp only [colCompare, Ordering.swap_eq]
  all_goals first
    | exact bcmp_swap _ _
    | (exact Std.OrientedCmp.eq_swap.symm)

theorem tupleCompare_swap (vs ws : List PbVal) : (tupleCompare vs ws).swap = tupleCompare ws vs := by
  induction vs generalizing ws with
  | nil => simp [tupleCompare_nil_left, tupleCompare_nil_right]
  | cons v vs ih => cases ws with
    | nil => simp [tupleCompare_nil_left, tupleCompare_nil_right]
    | cons w ws =>
      simp only [tupleCompare]
      rw [← ih ws, ← colCompare_swap v w]
      cases colCompare v w <;> simp [Ordering.then]

theorem tupleCompare_append {a c : List PbVal} (h : a.length = c.length) (b d : List PbVal) :
    tupleCompare (a ++ b) (c ++ d) = (tupleCompare a c).then (tupleCompare b d) := by
  induction a generalizing c with
  | nil => cases c with
    | nil => simp [tupleCompare]
    | cons => simp at h
  | cons x a ih => cases c with
    | nil => simp at h
    | cons y c =>
      simp only [List.cons_append, tupleCompare]
      rw [ih (by simpa using h)]
      cases colCompare x y <;> rfl

section bounds
variable {base : Bytes} {fs : List FieldInfo} {vs ws : List PbVal}

theorem cmp_key (hv : FitsCols fs vs) (hw : FitsCols fs ws) (hl : vs.length ≤ ws.length) :
    bcmp (base ++ tk fs vs) (base ++ tk fs ws) =
      (tupleCompare vs ws).then (bcmp [] (tk (fs.drop vs.length) (ws.drop vs.length))) := by
  rw [bcmp_append_left]
  have := tk_order hv hw hl [] []
  simpa using this

theorem le_key (hv : FitsCols fs vs) (hw : FitsCols fs ws) (hl : vs.length ≤ ws.length) :
    BLe (base ++ tk fs vs) (base ++ tk fs ws) ↔ tupleCompare vs ws ≠ .gt := by
  unfold BLe
  rw [cmp_key hv hw hl]
  cases tupleCompare vs ws <;> simp [Ordering.then]
  cases tk (List.drop vs.length fs) (List.drop vs.length ws) <;> simp [bcmp]

theorem prefix_key (hv : FitsCols fs vs) (hw : FitsCols fs ws) (hl : vs.length ≤ ws.length) :
    base ++ tk fs vs <+: base ++ tk fs ws ↔ tupleCompare vs ws = .eq := by
  rw [List.prefix_append_right_inj]
  constructor
  · rintro ⟨t, ht⟩
    have h := tk_order hv hw hl t []
    rw [ht] at h
    simp only [List.append_nil, bcmp_self] at h
    cases hc : tupleCompare vs ws <;> rw [hc] at h <;> simp [Ordering.then] at h ⊢
  · intro h
    refine ⟨tk (fs.drop vs.length) (ws.drop vs.length), ?_⟩
    have := tk_order hv hw hl (tk (fs.drop vs.length) (ws.drop vs.length)) []
    rw [h] at this
    simp only [List.append_nil, bcmp_self, Ordering.then] at this
    exact bcmp_eq_iff.1 this

theorem beyond_key (hv : FitsCols fs vs) (hw : FitsCols fs ws) (hl : vs.length ≤ ws.length) :
    Beyond (base ++ tk fs vs) (base ++ tk fs ws) ↔ tupleCompare vs ws = .lt := by
  unfold Beyond
  rw [prefix_key hv hw hl]
  unfold BLt
  rw [cmp_key hv hw hl]
  cases tupleCompare vs ws <;> simp [Ordering.then]

theorem lt_key (hv : FitsCols fs vs) (hw : FitsCols fs ws) (hl : vs.length ≤ ws.length) :
    BLt (base ++ tk fs ws) (base ++ tk fs vs) ↔ tupleCompare ws vs = .lt := by
  rw [← not_BLe, le_key hv hw hl, ← tupleCompare_swap vs ws]
  cases tupleCompare vs ws <;> simp

/-- The lower end. -/
theorem left_key (hv : FitsCols fs vs) (hw : FitsCols fs ws) (hl : vs.length ≤ ws.length) (o : Bool) :
    LeftOk (base ++ tk fs vs) o (base ++ tk fs ws) ↔
      (if o then tupleCompare ws vs = .gt else tupleCompare ws vs ≠ .lt) := by
  unfold LeftOk
  rw [← tupleCompare_swap vs ws]
  cases o
  · simp only [Bool.false_eq_true, if_false, le_key hv hw hl]
    cases tupleCompare vs ws <;> simp
  · simp only [if_true, beyond_key hv hw hl]
    cases tupleCompare vs ws <;> simp

/-- The upper end. -/
theorem right_key (hv : FitsCols fs vs) (hw : FitsCols fs ws) (hl : vs.length ≤ ws.length) (o : Bool)
    (ho : base ++ tk fs vs = [] → o = false) :
    RightOk (base ++ tk fs vs) o (base ++ tk fs ws) ↔
      (if o then tupleCompare ws vs = .lt else tupleCompare ws vs ≠ .gt) := by
  unfold RightOk
  rw [lt_key hv hw hl, prefix_key hv hw hl, ← tupleCompare_swap vs ws]
  have hnil : base ++ tk fs vs = [] → tupleCompare vs ws = .eq := by
    intro h
    refine (prefix_key hv hw hl (base := base)).1 ?_
    rw [h]; exact List.nil_prefix
  cases o
  · simp only [Bool.false_eq_true, if_false, true_and]
    constructor
    · rintro (h | h | h)
      · rw [hnil h]; simp
      · rw [h]; simp
      · rw [h]; simp
    · cases tupleCompare vs ws <;> simp
  · have : base ++ tk fs vs ≠ [] := fun h => by have := ho h; cases this
    simp only [if_true, reduceCtorEq, false_and, or_false]
    constructor
    · rintro (h | h)
      · exact absurd h this
      · exact h
    · exact .inr

end bounds

theorem tk_append {fs gs : List FieldInfo} {vs ws : List PbVal} (h : vs.length = fs.length) :
    tk (fs ++ gs) (vs ++ ws) = tk fs vs ++ tk gs ws := by
  induction fs generalizing vs with
  | nil => cases vs with
    | nil => simp [tk]
    | cons => simp at h
  | cons f fs ih => cases vs with
    | nil => simp at h
    | cons v vs => simp [tk, ih (by simpa using h)]

theorem fitsCols_append {fs gs : List FieldInfo} {vs ws : List PbVal} (hl : vs.length = fs.length) (hv : FitsCols fs vs)
    (hw : FitsCols gs ws) : FitsCols (fs ++ gs) (vs ++ ws) := by
  induction fs generalizing vs with
  | nil => cases vs with
    | nil => simpa using hw
    | cons => simp at hl
  | cons f fs ih => cases vs with
    | nil => simp at hl
    | cons v vs => exact ⟨hv.1, ih (by simpa using hl) hv.2⟩

/-- The key of a row by its values. -/
def vals (row : Row) (fs : List FieldInfo) : List PbVal := fs.map fun f => (row f.id).getD (.bool false)

theorem vals_fits {row : Row} {fs : List FieldInfo} (h : ∀ f ∈ fs, ∃ v, row f.id = some v ∧ Valid f.type v) :
    FitsCols fs (vals row fs) := by
  induction fs with
  | nil => trivial
  | cons f fs ih =>
    obtain ⟨v, hv, hv'⟩ := h f (by simp)
    simp only [vals, List.map_cons, FitsCols, hv, Option.getD_some]
    exact ⟨hv', ih fun g hg => h g (by simp [hg])⟩

theorem rowKey_eq {cs : Charset} {ix : IndexInfo} {row : Row} (h : RowOk cs ix row) :
    rowKey ix row = flag ix ++ tk (avail ix) (vals row (avail ix)) := by
  unfold rowKey
  congr 1
  have hc := h.cols
  clear h
  generalize avail ix = l at hc ⊢
  induction l with
  | nil => rfl
  | cons f fs ih =>
    obtain ⟨v, hv, hv'⟩ := hc f (by simp)
    simp only [List.flatMap_cons, vals, List.map_cons, tk, hv, Option.bind_some, ck_encode hv', Option.getD_some]
    rw [ih fun g hg => hc g (by simp [hg])]
    rfl

end BaikalDB.Scan
