import Verif.IndexKey.Lemmas
/-! # Lemmas about the layout of an index and the region check -/
namespace BaikalDB.IndexKey
open KeyEnc KeyEnc.Spec Spec

/-- Total width of fixed-width fields. -/
def widths (fs : List FieldInfo) : Nat := (fs.map fun f => (numSize f.type).toNat).sum

theorem numSize_cases (t : PType) : numSize t = -1 ∨ 0 < numSize t := by cases t <;> simp [numSize]

theorem numSize_string {t : PType} (h : numSize t ≠ -1) : t ≠ .string ∧ t ≠ .other := by
  constructor <;> rintro rfl <;> simp [numSize] at h

theorem layoutLoop_fst (fs : List FieldInfo) (len : Int) (nul : Bool) (m : List (Nat × Int)) (hl : 0 ≤ len ∨ len = -1) :
    (layoutLoop fs len nul m).1 =
      if len ≠ -1 ∧ (∀ f ∈ fs, numSize f.type ≠ -1) then len + widths fs else -1 := by
  induction fs generalizing len nul m with
  | nil =>
    simp only [layoutLoop, List.not_mem_nil, false_implies, implies_true, and_true, widths, List.map_nil, List.sum_nil]
    split <;> simp_all
  | cons f fs ih =>
    have hc := numSize_cases f.type
    simp only [layoutLoop]
    rw [ih _ _ _ (by split <;> (try split) <;> omega)]
    by_cases h1 : numSize f.type = -1
    · have : ¬ ∀ g ∈ f :: fs, numSize g.type ≠ -1 := fun h => h f (by simp) h1
      simp [h1]
    · rw [if_neg h1]
      by_cases h2 : len = -1
      · simp [h2]
      · rw [if_pos h2]
        have hp : 0 < numSize f.type := by omega
        have hne : len + numSize f.type ≠ -1 := by omega
        simp only [ne_eq, hne, not_false_eq_true, true_and, h2, List.mem_cons, forall_eq_or_imp, h1, widths, List.map_cons,
          List.sum_cons]
        split <;> omega

theorem layoutLoop_nul (fs : List FieldInfo) (len : Int) (nul : Bool) (m : List (Nat × Int)) :
    (layoutLoop fs len nul m).2.1 = (nul || fs.any (·.canNull)) := by
  induction fs generalizing len nul m with
  | nil => simp [layoutLoop]
  | cons f fs ih => simp [layoutLoop, ih, Bool.or_assoc]

theorem lookup_append_single (m : List (Nat × Int)) (k : Nat) (v : Int) (id : Nat) :
    (m ++ [(k, v)]).lookup id = (m.lookup id).or (if id = k then some v else none) := by
  induction m with
  | nil =>
    simp only [List.nil_append, List.lookup_cons, List.lookup_nil]
    by_cases h : id = k
    · simp [h]
    · have : (id == k) = false := by simp [h]
      simp [h, this]
  | cons x xs ih =>
    obtain ⟨a, b⟩ := x
    simp only [List.cons_append, List.lookup_cons]
    by_cases h : id == a
    · simp [h]
    · simp only [Bool.not_eq_true] at h
      simp [h, ih]

theorem layoutLoop_map (fs : List FieldInfo) (len : Int) (nul : Bool) (m : List (Nat × Int)) (hl : 0 ≤ len)
    (hfix : ∀ f ∈ fs, numSize f.type ≠ -1) (id : Nat) (p : Int)
    (h : (layoutLoop fs len nul m).2.2.lookup id = some p) :
    m.lookup id = some p ∨ ∃ pre f post, fs = pre ++ f :: post ∧ f.id = id ∧ p = len + widths pre := by
  induction fs generalizing len nul m with
  | nil => exact .inl h
  | cons f fs ih =>
    have h1 := hfix f (by simp)
    have hp := (numSize_cases f.type).resolve_left h1
    simp only [layoutLoop, if_neg h1, if_pos (show len ≠ -1 by omega)] at h
    rcases ih _ _ _ (by omega) (fun g hg => hfix g (by simp [hg])) h with h2 | ⟨pre, g, post, e, hg, hpp⟩
    · split at h2
      · exact .inl h2
      · rw [lookup_append_single] at h2
        cases hm : m.lookup id with
        | some q =>
          rw [hm] at h2
          exact .inl h2
        | none =>
          rw [hm] at h2
          simp only [Option.none_or] at h2
          split at h2
          · rename_i hid
            injection h2 with e
            exact .inr ⟨[], f, fs, rfl, hid.symm, by simp [widths, e]⟩
          · cases h2
    · refine .inr ⟨f :: pre, g, post, by rw [e]; rfl, hg, ?_⟩
      rw [hpp]
      simp only [widths, List.map_cons, List.sum_cons]
      omega

/-- Positions recorded by `pkLoop`. -/
def posList (m : List (Nat × Int)) : List FieldInfo → Int → List (Int × Int)
  | [], _ => []
  | f :: fs, len => match m.lookup f.id with
    | some p => (1, p) :: posList m fs len
    | none => (-1, len) :: posList m fs (len + numSize f.type)

/-- The pk fields not found in the index. -/
def rest (m : List (Nat × Int)) (pk : List FieldInfo) : List FieldInfo := pk.filter fun f => (m.lookup f.id).isNone

theorem pkLoop_eq (m : List (Nat × Int)) (pk : List FieldInfo) (len : Int) (pf : List FieldInfo) (pp : List (Int × Int)) :
    pkLoop m pk len pf pp =
      if ∀ f ∈ pk, numSize f.type ≠ -1 then some (pf ++ rest m pk, pp ++ posList m pk len) else none := by
  induction pk generalizing len pf pp with
  | nil => simp [pkLoop, rest, posList]
  | cons f fs ih =>
    unfold pkLoop
    by_cases h : numSize f.type = -1
    · simp [h]
    · simp only [h, if_false, List.mem_cons, forall_eq_or_imp, ne_eq, not_false_eq_true, true_and]
      cases hm : m.lookup f.id with
      | some p => simp [ih, rest, posList, hm]
      | none => simp [ih, rest, posList, hm]

theorem rest_nil (pk : List FieldInfo) : rest [] pk = pk := by
  unfold rest
  rw [List.filter_eq_self]
  intro a _; rfl

theorem rest_eq_of_length {m : List (Nat × Int)} {pk : List FieldInfo} (h : (rest m pk).length = pk.length) :
    rest m pk = pk := by
  unfold rest at *
  rw [List.length_filter_eq_length_iff] at h
  exact List.filter_eq_self.2 h

/-- Assembling the primary key from the two places gives the whole key. -/
theorem fullPkLoop_eq {row : Row} (ib pb : Bytes) (m : List (Nat × Int)) (pk : List FieldInfo) (q s : Bytes) (buf : Bytes)
    (hib : ∀ f ∈ pk, ∀ p, m.lookup f.id = some p → peek ib p.toNat (numSize f.type).toNat = some (colBytes row f))
    (hfix : ∀ f ∈ pk, (colBytes row f).length = (numSize f.type).toNat ∧ 0 < numSize f.type)
    (hpb : pb = q ++ (rest m pk).flatMap (colBytes row) ++ s) :
    fullPkLoop ib pb pk (posList m pk q.length) buf = some (buf ++ pk.flatMap (colBytes row)) := by
  induction pk generalizing q buf with
  | nil => simp [posList, fullPkLoop]
  | cons f fs ih =>
    have h1 := hib f (by simp)
    have h2 := hfix f (by simp)
    have h3 := fun g (hg : g ∈ fs) => hib g (by simp [hg])
    have h4 := fun g (hg : g ∈ fs) => hfix g (by simp [hg])
    cases hm : m.lookup f.id with
    | some p =>
      have hr : rest m (f :: fs) = rest m fs := by simp [rest, hm]
      simp only [posList, hm, fullPkLoop, if_true, h1 p hm]
      rw [ih q _ h3 h4 (by rw [hpb, hr])]
      simp
    | none =>
      have hr : rest m (f :: fs) = f :: rest m fs := by simp [rest, hm]
      have hpk : peek pb q.length (numSize f.type).toNat = some (colBytes row f) := by
        rw [hpb, hr, List.flatMap_cons, ← h2.1]
        have := peek_mid q (colBytes row f) ((rest m fs).flatMap (colBytes row) ++ s)
        simpa using this
      have hne : ¬ ((-1 : Int) = 1) := by decide
      simp only [posList, hm, fullPkLoop, if_neg hne, if_true, Int.toNat_natCast, hpk]
      have hl : (q.length : Int) + numSize f.type = ((q ++ colBytes row f).length : Int) := by
        rw [List.length_append, h2.1]; omega
      rw [hl, ih (q ++ colBytes row f) _ h3 h4 (by rw [hpb, hr]; simp)]
      simp

theorem length_flatMap_colBytes {row : Row} {fs : List FieldInfo} (hok : ∀ f ∈ fs, ColOK row f)
    (hst : ∀ f ∈ fs, (stored row f).isSome) (hfix : ∀ f ∈ fs, numSize f.type ≠ -1) :
    (fs.flatMap (colBytes row)).length = widths fs := by
  induction fs with
  | nil => rfl
  | cons f fs ih =>
    obtain ⟨v, hv⟩ := Option.isSome_iff_exists.1 (hst f (by simp))
    have := length_colBytes (hok f (by simp)) hv (numSize_string (hfix f (by simp))).1
    rw [List.flatMap_cons, List.length_append, ih (fun g hg => hok g (by simp [hg])) (fun g hg => hst g (by simp [hg]))
      (fun g hg => hfix g (by simp [hg]))]
    simp only [widths, List.map_cons, List.sum_cons]
    omega

theorem stored_isSome_of_notNull {row : Row} {f : FieldInfo} (h : ColOK row f) (hn : f.canNull = false) :
    (stored row f).isSome := by
  have := isNone_stored h
  rw [isNullCol, hn, Bool.false_and] at this
  cases hs : stored row f with
  | none => rw [hs] at this; simp at this
  | some v => rfl

theorem skipIndexLoop_eq {row : Row} {nf : BitVec 8} (fs : List FieldInfo) (idx : Nat) (p s : Bytes)
    (hok : ∀ f ∈ fs, ColOK row f) (hf : FlagOK row nf idx fs) :
    skipIndexLoop (p ++ fs.flatMap (colBytes row) ++ s) nf idx fs p.length =
      some (p ++ fs.flatMap (colBytes row)).length := by
  induction fs generalizing idx p with
  | nil => simp [skipIndexLoop]
  | cons f fs ih =>
    have hh := hf.head
    have ht := hf.tail
    have h1 := hok f (by simp)
    have h2 : ∀ f ∈ fs, ColOK row f := fun g hg => hok g (by simp [hg])
    simp only [skipIndexLoop, hh, List.flatMap_cons]
    cases hs : stored row f with
    | none =>
      have hcb : colBytes row f = [] := by simp [colBytes, hs]
      have := ih (idx+1) p h2 ht
      simp only [hcb, List.nil_append, Option.isNone_none, if_true, this]
    | some v =>
      have he : p ++ (colBytes row f ++ fs.flatMap (colBytes row)) ++ s =
          p ++ colBytes row f ++ fs.flatMap (colBytes row) ++ s := by simp
      have := ih (idx+1) (p ++ colBytes row f) h2 ht
      simp only [Option.isNone_some, Bool.false_eq_true, if_false, he]
      by_cases hn : f.type = .string
      · obtain ⟨x, hx, h0⟩ := colBytes_string h1 hs hn
        rw [if_pos hn]
        have hd : (p ++ colBytes row f ++ fs.flatMap (colBytes row) ++ s).drop p.length =
            x ++ 0#8 :: (fs.flatMap (colBytes row) ++ s) := by
          rw [List.append_assoc, List.append_assoc, drop_append_len, hx]; simp
        rw [hd, cstr_append h0]
        have hl : p.length + x.length + 1 = (p ++ colBytes row f).length := by rw [hx]; simp; omega
        simp only [hl, this]
        simp
      · rw [if_neg hn]
        have := length_colBytes h1 hs hn
        have hl : p.length + (numSize f.type).toNat = (p ++ colBytes row f).length := by
          rw [List.length_append]; omega
        rw [hl, ih (idx+1) (p ++ colBytes row f) h2 ht]
        simp

/-- The facts about a table, one of its secondary indexes and a row, under which the region check is exact. -/
structure Setup (fields pk : List FieldInfo) (row : Row) : Prop where
  fieldsOK : ∀ f ∈ fields, ColOK row f
  pkOK : ∀ f ∈ pk, ColOK row f
  /-- primary key columns are NOT NULL -/
  pkPresent : ∀ f ∈ pk, (row f.id).isSome
  pkNotNull : ∀ f ∈ pk, f.canNull = false
  /-- a column id has one definition -/
  consistent : ∀ f ∈ fields, ∀ g ∈ pk, f.id = g.id → f = g
  /-- at most eight columns in an index with nullable columns -/
  nullable8 : (∃ f ∈ fields, f.canNull = true) → fields.length ≤ 8

theorem buildIndex_eq (ty : IndexType) (g : Bool) (fields pk : List FieldInfo) (hty : ty = .key ∨ ty = .uniq) :
    let L := layoutLoop fields 1 false []
    let len := if L.2.1 then (-1) else L.1
    let m := if len = -1 then [] else L.2.2
    let r := if ∀ f ∈ pk, numSize f.type ≠ -1 then (rest m pk, posList m pk 0) else (pk, [])
    buildIndex ty g fields pk = ⟨ty, g, fields, L.2.1, len,
      (if len = -1 then false else if r.1.length = pk.length then false else true), r.1, r.2⟩ := by
  intro L len m r
  have hl : (if ty = .key ∨ ty = .uniq then (1 : Int) else 0) = 1 := if_pos hty
  unfold buildIndex
  simp only [if_pos hty, pkLoop_eq, List.nil_append]
  rw [show layoutLoop fields 1 false [] = L from rfl]
  by_cases hfix : ∀ f ∈ pk, numSize f.type ≠ -1
  · rw [if_pos hfix, show r = (rest m pk, posList m pk 0) from if_pos hfix]
  · rw [if_neg hfix, show r = (pk, []) from if_neg hfix]

@[simp] theorem buildIndex_type (ty : IndexType) (g : Bool) (fields pk : List FieldInfo) :
    (buildIndex ty g fields pk).type = ty := by
  unfold buildIndex; split <;> rfl
@[simp] theorem buildIndex_fields (ty : IndexType) (g : Bool) (fields pk : List FieldInfo) :
    (buildIndex ty g fields pk).fields = fields := by
  unfold buildIndex; split <;> rfl
@[simp] theorem buildIndex_isGlobal (ty : IndexType) (g : Bool) (fields pk : List FieldInfo) :
    (buildIndex ty g fields pk).isGlobal = g := by
  unfold buildIndex; split <;> rfl
@[simp] theorem buildIndex_hasNullable (ty : IndexType) (g : Bool) (fields pk : List FieldInfo) :
    (buildIndex ty g fields pk).hasNullable = fields.any (·.canNull) := by
  unfold buildIndex; split <;> simp [layoutLoop_nul]

/-- The key of a secondary index entry: null flags, then the columns. -/
theorem encodeKey_secondary {ty : IndexType} (hty : ty = .key ∨ ty = .uniq) (g : Bool) {fields pk : List FieldInfo}
    {row : Row} (hok : ∀ f ∈ fields, ColOK row f) (h8 : (∃ f ∈ fields, f.canNull = true) → fields.length ≤ 8)
    (p : Bytes) :
    encodeKey (buildIndex ty g fields pk) row p none false =
      .ok (p ++ [nullMask row 0 fields 0#8] ++ fields.flatMap (colBytes row), ty == .uniq) := by
  unfold encodeKey
  have h1 : ¬ ty = .none := by rcases hty with rfl | rfl <;> simp
  have h3 : ty = .key ∨ ty = .uniq ∨ ty = .rollup := by rcases hty with h | h <;> simp [h]
  simp only [buildIndex_type, if_neg h1, if_pos h3, buildIndex_fields, Option.getD_none, buildIndex_hasNullable]
  have h4 : ¬ (fields.length > fields.length ∨ fields.any (·.canNull) = true ∧ fields.length > 8) := by
    rintro (h | ⟨h, h'⟩)
    · omega
    · rw [List.any_eq_true] at h
      have := h8 h; omega
  rw [if_neg h4, List.take_length, encodeKeyLoop_secondary h3 _ _ _ _ _ hok]
  simp only [if_pos hty]
  have : replaceU8 (appendU8 p 0#8 ++ fields.flatMap (colBytes row)) (nullMask row 0 fields 0#8) p.length =
      some (appendU8 p (nullMask row 0 fields 0#8) ++ fields.flatMap (colBytes row)) := by
    simp [replaceU8, replaceAt, appendU8, List.drop_append]
  rw [this]
  rcases hty with rfl | rfl <;> simp [appendU8, memLE]

theorem encodeKey_primary {fields pk : List FieldInfo} {g : Bool} {row : Row} (hok : ∀ f ∈ fields, ColOK row f)
    (hp : ∀ f ∈ fields, (row f.id).isSome) (h8 : (∃ f ∈ fields, f.canNull = true) → fields.length ≤ 8) (p : Bytes) :
    encodeKey (buildIndex .primary g fields pk) row p none false = .ok (p ++ fields.flatMap (colBytes row), true) := by
  unfold encodeKey
  simp only [buildIndex_type, buildIndex_fields, Option.getD_none, buildIndex_hasNullable]
  have h4 : ¬ (fields.length > fields.length ∨ fields.any (·.canNull) = true ∧ fields.length > 8) := by
    rintro (h | ⟨h, h'⟩)
    · omega
    · rw [List.any_eq_true] at h
      have := h8 h; omega
  rw [if_neg (by simp), if_neg h4, List.take_length, encodeKeyLoop_primary (.inl rfl) _ _ _ _ _ hok hp]
  simp

theorem extractU8_cons (p : Bytes) (x : BitVec 8) (s : Bytes) : extractU8 (p ++ [x] ++ s) p.length = some x := by
  have := extractU8_append p x s
  simpa [appendU8, memLE] using this

/-- What the region check needs to know about the layout. -/
theorem layout_facts {ty : IndexType} (hty : ty = .key ∨ ty = .uniq) {fields pk : List FieldInfo} {row : Row}
    (S : Setup fields pk row) :
    let ix := buildIndex ty false fields pk
    let key := [nullMask row 0 fields 0#8] ++ fields.flatMap (colBytes row)
    (ix.length = -1 ∨ ix.length = (key.length : Int)) ∧
    (ix.overlap = false → ix.pkFields = pk) ∧
    (ix.overlap = true → 0 < (buildIndex .primary false pk pk).length ∧ ix.length = (key.length : Int) ∧
      ∀ s t, getFullPrimaryKey (key ++ s) (ix.pkFields.flatMap (colBytes row) ++ t)
        (buildIndex .primary false pk pk) ix = some (pk.flatMap (colBytes row))) := by
  intro ix key
  have hb := buildIndex_eq ty false fields pk hty
  simp only [layoutLoop_nul, layoutLoop_fst _ _ _ _ (.inl (by decide : (0:Int) ≤ 1)), Bool.false_or] at hb
  have hpkp : ∀ f ∈ pk, (stored row f).isSome := fun f hf => by
    obtain ⟨v, hv⟩ := Option.isSome_iff_exists.1 (S.pkPresent f hf)
    rw [stored_of_some hv]; rfl
  by_cases hvar : fields.any (·.canNull) = true ∨ ¬ ∀ f ∈ fields, numSize f.type ≠ -1
  · -- variable-length or nullable: no overlap
    have hlen : (if fields.any (·.canNull) = true then (-1 : Int) else
        if (1 : Int) ≠ -1 ∧ (∀ f ∈ fields, numSize f.type ≠ -1) then 1 + widths fields else -1) = -1 := by
      rcases hvar with h | h
      · rw [if_pos h]
      · split
        · rfl
        · rw [if_neg (fun hh => h hh.2)]
    rw [hlen] at hb
    simp only [if_true, rest_nil] at hb
    have hix : ix = _ := hb
    refine ⟨.inl (by rw [hix]), fun _ => ?_, fun h => ?_⟩
    · rw [hix]
      simp only
      split <;> rfl
    · rw [hix] at h; cases h
  · simp only [not_or, Bool.not_eq_true, Classical.not_not] at hvar
    obtain ⟨hnn, hfix⟩ := hvar
    have hlen : (if fields.any (·.canNull) = true then (-1 : Int) else
        if (1 : Int) ≠ -1 ∧ (∀ f ∈ fields, numSize f.type ≠ -1) then 1 + widths fields else -1) = 1 + widths fields := by
      rw [if_neg (by simp [hnn]), if_pos ⟨by decide, hfix⟩]
    rw [hlen] at hb
    have hne : ¬ (1 + (widths fields : Int) = -1) := by omega
    simp only [if_neg hne] at hb
    have hnn' : ∀ f ∈ fields, f.canNull = false := by
      intro f hf
      have := List.any_eq_false.1 hnn f hf
      simpa using this
    have hst : ∀ f ∈ fields, (stored row f).isSome := fun f hf => stored_isSome_of_notNull (S.fieldsOK f hf) (hnn' f hf)
    have hkl : (key.length : Int) = 1 + widths fields := by
      simp only [key, List.length_append, List.length_cons, List.length_nil,
        length_flatMap_colBytes S.fieldsOK hst hfix]; omega
    have hix : ix = _ := hb
    have hlenix : ix.length = 1 + widths fields := by rw [hix]
    refine ⟨.inr (by rw [hlenix, hkl]), ?_, ?_⟩
    · intro h
      by_cases hpf : ∀ f ∈ pk, numSize f.type ≠ -1
      · rw [if_pos hpf] at hix
        rw [hix] at h ⊢
        simp only at h ⊢
        split at h
        · rename_i hh; exact rest_eq_of_length hh
        · cases h
      · rw [if_neg hpf] at hix
        rw [hix]
    · intro h
      by_cases hpf : ∀ f ∈ pk, numSize f.type ≠ -1
      · rw [if_pos hpf] at hix
        have hpk : pk ≠ [] := by
          intro e
          rw [hix] at h
          simp [e, rest] at h
        have hpl : (buildIndex .primary false pk pk).length = widths pk := by
          have hpn : pk.any (·.canNull) = false := by
            rw [List.any_eq_false]
            intro f hf; simp [S.pkNotNull f hf]
          have hl := layoutLoop_fst pk 0 false [] (.inl (by decide : (0:Int) ≤ 0))
          rw [if_pos ⟨by decide, hpf⟩] at hl
          unfold buildIndex
          simp [layoutLoop_nul, hpn, hl]
        have hpw : 0 < widths pk := by
          cases pk with
          | nil => exact absurd rfl hpk
          | cons f fs =>
            have := (numSize_cases f.type).resolve_left (hpf f (by simp))
            simp only [widths, List.map_cons, List.sum_cons]; omega
        refine ⟨by rw [hpl]; omega, by rw [hlenix, hkl], fun s t => ?_⟩
        unfold getFullPrimaryKey
        rw [buildIndex_fields]
        rw [hix]
        simp only
        have hcol : ∀ f ∈ pk, (colBytes row f).length = (numSize f.type).toNat ∧ 0 < numSize f.type := by
          intro f hf
          obtain ⟨v, hv⟩ := Option.isSome_iff_exists.1 (hpkp f hf)
          have := length_colBytes (S.pkOK f hf) hv (numSize_string (hpf f hf)).1
          omega
        have := fullPkLoop_eq (row := row) (key ++ s) ((rest (layoutLoop fields 1 false []).2.2 pk).flatMap (colBytes row) ++ t)
          (layoutLoop fields 1 false []).2.2 pk [] t [] ?_ hcol (by simp)
        · simpa using this
        · intro f hf p hp
          rcases layoutLoop_map fields 1 false [] (by decide) hfix f.id p hp with h0 | ⟨pre, g, post, e, hg, hpp⟩
          · simp at h0
          · have hgm : g ∈ fields := by rw [e]; simp
            have hgf : g = f := S.consistent g hgm f hf hg
            subst hgf
            have hpre : (pre.flatMap (colBytes row)).length = widths pre :=
              length_flatMap_colBytes (fun x hx => S.fieldsOK x (by rw [e]; simp [hx]))
                (fun x hx => hst x (by rw [e]; simp [hx])) (fun x hx => hfix x (by rw [e]; simp [hx]))
            have hks : key ++ s = ([nullMask row 0 fields 0#8] ++ pre.flatMap (colBytes row)) ++ colBytes row g ++
                (post.flatMap (colBytes row) ++ s) := by
              have e2 : fields.flatMap (colBytes row) = (pre ++ g :: post).flatMap (colBytes row) := by rw [← e]
              simp only [key, e2]
              simp
            rw [hks, hpp]
            have hpt : (1 + (widths pre : Int)).toNat =
                ([nullMask row 0 fields 0#8] ++ pre.flatMap (colBytes row)).length := by
              simp [hpre]; omega
            rw [hpt, ← (hcol g hf).1]
            exact peek_mid _ _ _
      · rw [if_neg hpf] at hix
        rw [hix] at h
        simp at h

end BaikalDB.IndexKey
