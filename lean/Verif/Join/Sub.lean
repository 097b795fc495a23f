import Verif.Join.Props
/-!
# C38: the subquery run for one outer row
-/
namespace BaikalDB.Join
open BaikalDB.Expr (VTy EV toStr)
open BaikalDB.Expr.Spec
open BaikalDB.Pred (nullV)
open BaikalDB.Pred.Spec

variable {α β : Type}

/-- The outer value is representable in the inner column's type. -/
def FitsIn (p : Pair) (v : EV) : Prop := v.ty = .null ∨ Direct p.ity ∨ Fits p.ity (numOf v)

theorem cast_fits (E : Pred.Env) {p : Pair} (h : PairOk p) {v : EV} (hv : Good p.oty v) (hf : FitsIn p v) :
    Good p.ity (Pred.cast E v p.ity) ∧ sem (Pred.cast E v p.ity) = sem v := by
  have hnn : v.ty ≠ .null := by
    intro e
    have := good_notNull (pair_oty h) hv
    simp [EV.isNull, e] at this
  rcases h with ⟨i1, i2⟩ | ⟨e, d⟩
  · rw [← hv.1] at i1
    obtain ⟨x, hx, _, _⟩ := Expr.sem_int i1
    have fx : Fits p.ity x := by
      rcases hf with hf | hf | hf
      · exact absurd hf hnn
      · exfalso
        cases hp : p.ity <;> rw [hp] at i2 hf <;> simp [IntTy, Direct] at i2 hf
      · rwa [Pred.numOf_eq hx] at hf
    obtain ⟨a1, a2⟩ := Pred.cast_int E i1 i2 hx fx
    refine ⟨⟨a1, notNaN_int (by simp [a1, i2]), negZero_int (by simp [a1, i2]), ?_⟩, a2.trans hx.symm⟩
    intro hs; rw [hs] at i2; simp [IntTy] at i2
  · rw [Pred.cast_same' E (hv.1.trans e)]
    exact ⟨e ▸ hv, rfl⟩

theorem in_key_iff (E : Pred.Env) {t : VTy} (ht : IntTy t ∨ Direct t) {v w : EV} (hv : Good t v) (hw : Good t w) :
    Pred.key E (Pred.inTy t t) v = Pred.key E (Pred.inTy t t) w ↔ sem v = sem w := by
  rcases ht with i | d
  · have iv : IntTy v.ty := by rw [hv.1]; exact i
    have iw : IntTy w.ty := by rw [hw.1]; exact i
    obtain ⟨x, hx, _, fx⟩ := Expr.sem_int iv
    obtain ⟨y, hy, _, fy⟩ := Expr.sem_int iw
    rw [Pred.inTy_int i i]
    exact Pred.int_key_iff E i iv iw (by rw [Pred.numOf_eq hx]; exact hv.1 ▸ fx) (by rw [Pred.numOf_eq hy]; exact hw.1 ▸ fy)
  · rw [Pred.inTy_direct d]
    exact Pred.direct_key_iff E d hv.1 hw.1

/-- The text of a component of a row key; doubles, printed with twelve digits, are left out. -/
theorem row_text_iff (E : Env) {t : VTy} (ht : IntTy t ∨ Direct t) (hd : t ≠ .double) {v w : EV} (hv : Good t v) (hw : Good t w) :
    0#8 ∉ getIntString E (Pred.cast E.toEnv v (Pred.inTy t t)) ∧
    (getIntString E (Pred.cast E.toEnv v (Pred.inTy t t)) = getIntString E (Pred.cast E.toEnv w (Pred.inTy t t)) ↔ sem v = sem w) := by
  rcases ht with i | d
  · have hi : IntTy .int64 := by simp [IntTy]
    rw [Pred.inTy_int i i]
    have key : ∀ {v : EV}, Good t v → ∃ x y, sem v = some (.num x) ∧ (2 ^ 64 : Int) ∣ y - x ∧ Fits t x ∧
        getIntString E (Pred.cast E.toEnv v .int64) = toStr y := by
      intro v hv
      have iv : IntTy v.ty := by rw [hv.1]; exact i
      obtain ⟨x, hx, _, fx⟩ := Expr.sem_int iv
      obtain ⟨w, y, h1, h2, h3, h4, h5, _⟩ := Expr.C28_int_cast iv hi hx
      have hc : Pred.cast E.toEnv v .int64 = w := by simp [Pred.cast, h1]
      obtain ⟨z, hz, hg, fz⟩ := Expr.sem_int (v := w) (by rw [h2]; exact hi)
      have : z = y := by rw [h3] at hz; simpa using hz.symm
      subst this
      refine ⟨x, z, hx, h4, hv.1 ▸ fx, ?_⟩
      rw [hc]
      have : Expr.getInt w = some (w.sget 64) := by simp [Expr.getInt, h2]
      rw [this] at hg
      have hg := Option.some.inj hg
      simp [getIntString, h2, hg]
    obtain ⟨x, y, hx, d1, f1, e1⟩ := key hv
    obtain ⟨x', y', hx', d2, f2, e2⟩ := key hw
    refine ⟨by rw [e1]; exact toStr_no_nul y, ?_⟩
    constructor
    · intro h
      rw [e1, e2] at h
      have := toStr_inj h
      rw [hx, hx']
      have : x = x' := by
        simp only [IntTy, List.mem_cons, List.not_mem_nil, or_false] at i
        rcases i with rfl | rfl | rfl | rfl | rfl | rfl | rfl | rfl <;> simp only [Fits, range] at f1 f2 <;> omega
      rw [this]
    · intro h
      exact int_text E (by rw [hv.1]; exact i) (by rw [hw.1]; exact i) h
  · refine ⟨?_, fun h => ?_, fun h => row_text E (.inr d) hv hw h⟩
    · rw [Pred.inTy_direct d, Pred.cast_same' _ hv.1]
      obtain ⟨hv1, _, _, hs⟩ := hv
      obtain ⟨tv, u, s⟩ := v
      simp only at hv1 hs
      subst hv1
      cases tv <;> simp [Direct] at d hd hs <;> simp only [getIntString] <;> first | exact toStr_no_nul _ | exact hs
    · rw [Pred.inTy_direct d, Pred.cast_same' _ hv.1, Pred.cast_same' _ hw.1] at h
      have hv1 := hv.1
      have hw1 := hw.1
      obtain ⟨tv, u, s⟩ := v
      obtain ⟨tw, u', s'⟩ := w
      simp only at hv1 hw1
      subst hv1 hw1
      cases tw <;> simp [Direct] at d hd <;> simp only [getIntString] at h <;>
        simp only [sem, intShape, Option.some.injEq, SVal.str.injEq, SVal.num.injEq] <;>
        first
        | (have := toStr_inj h
           rwa [Expr.uget_eq, Expr.uget_eq] at this)
        | (have := toStr_inj h
           rwa [Expr.sget_eq _ (show 32 ≤ 64 by decide), Expr.sget_eq _ (show 32 ≤ 64 by decide)] at this)
        | exact h

theorem rowKey_iff (E : Env) {ps : List Pair} (hp : ∀ p ∈ ps, PairOk p) (hd : ∀ p ∈ ps, p.ity ≠ .double) :
    ∀ {v w : List EV}, RowGood (ps.map (·.oty)) v → List.Forall₂ FitsIn ps v → RowGood (ps.map (·.ity)) w →
    (rowKey E (ps.map fun p => Pred.inTy p.ity p.ity) (List.zipWith (fun p x => Pred.cast E.toEnv x p.ity) ps v) =
      rowKey E (ps.map fun p => Pred.inTy p.ity p.ity) w ↔ keysEq v w = true) ∧
    (rowKey E (ps.map fun p => Pred.inTy p.ity p.ity) w).isSome = true ∧
    (rowKey E (ps.map fun p => Pred.inTy p.ity p.ity) (List.zipWith (fun p x => Pred.cast E.toEnv x p.ity) ps v)).isSome = true := by
  induction ps with
  | nil =>
    intro v w hv _ hw
    cases hv; cases hw
    simp [rowKey, keysEq]
  | cons p ps ih =>
    intro v w hv hf hw
    simp only [List.map_cons] at hv hw
    cases hv with
    | cons v1 hv =>
    cases hf with
    | cons f1 hf =>
    cases hw with
    | cons w1 hw =>
    obtain ⟨i1, i2, i3⟩ := ih (fun q hq => hp q (by simp [hq])) (fun q hq => hd q (by simp [hq])) hv hf hw
    have hpo := hp p (by simp)
    obtain ⟨g, e⟩ := cast_fits E.toEnv hpo v1 f1
    obtain ⟨t1, t2⟩ := row_text_iff E (pair_ity hpo) (hd p (by simp)) g w1
    obtain ⟨t3, _⟩ := row_text_iff E (pair_ity hpo) (hd p (by simp)) w1 g
    obtain ⟨x, hx⟩ := good_sem (pair_oty hpo) v1
    obtain ⟨k, hk⟩ := Option.isSome_iff_exists.mp i2
    obtain ⟨k', hk'⟩ := Option.isSome_iff_exists.mp i3
    simp only [List.map_cons, List.zipWith_cons_cons, rowKey, good_notNull (pair_ity hpo) g, good_notNull (pair_ity hpo) w1,
      Bool.false_eq_true, if_false, hk, hk', Option.map_some, Option.isSome_some, and_true, Option.some.injEq, keysEq, sqlEq,
      Bool.and_eq_true, decide_eq_true_eq]
    rw [hk, hk'] at i1
    simp only [Option.some.injEq] at i1
    constructor
    · intro h
      obtain ⟨a, b⟩ := nul_split t1 t3 h
      exact ⟨⟨by simp [hx], by rw [← e]; exact t2.mp a⟩, i1.mp b⟩
    · rintro ⟨⟨_, a⟩, b⟩
      rw [t2.mpr (e.trans a), i1.mpr b]

theorem rowKey_null {E : Env} {ts : List VTy} {v : List EV} (hl : ts.length = v.length) (h : ∃ x ∈ v, x.isNull = true) : rowKey E ts v = none := by
  cases hr : rowKey E ts v with
  | none => rfl
  | some k =>
    obtain ⟨x, hx, hn⟩ := h
    have := (rowKey_isSome (E := E) hl).mp (by rw [hr]; rfl) x hx
    rw [hn] at this; cases this

theorem exists_null_of_not {v : List EV} (h : ¬ ∀ x ∈ v, x.ty ≠ .null) : ∃ x ∈ v, x.ty = .null := by
  push Not at h; exact h

theorem zipWith_null (E : Env) {ps : List Pair} {v : List EV} (hl : ps.length = v.length) (h : ∃ x ∈ v, x.ty = .null) :
    ∃ x ∈ List.zipWith (fun p x => Pred.cast E.toEnv x p.ity) ps v, x.isNull = true := by
  induction ps generalizing v with
  | nil => cases v <;> simp_all
  | cons p ps ih =>
    cases v with
    | nil => simp at h
    | cons x v =>
      obtain ⟨y, hy, hn⟩ := h
      simp only [List.zipWith_cons_cons]
      rcases List.mem_cons.mp hy with rfl | hy
      · refine ⟨_, List.mem_cons_self, ?_⟩
        rw [Pred.cast_null _ hn]
        simp [EV.isNull, hn]
      · obtain ⟨z, hz, hzn⟩ := ih (by simpa using hl) ⟨y, hy, hn⟩
        exact ⟨z, List.mem_cons_of_mem _ hz, hzn⟩

theorem keysEq_null' {vs ws : List EV} (h : ∃ v ∈ ws, v.ty = .null) : keysEq vs ws = false := by
  induction ws generalizing vs with
  | nil => simp at h
  | cons w ws ih =>
    cases vs with
    | nil => rfl
    | cons v vs =>
      simp only [keysEq, Bool.and_eq_false_iff]
      obtain ⟨u, hu, hn⟩ := h
      rcases List.mem_cons.mp hu with rfl | hu
      · left
        simp only [sqlEq, Pred.sem_null hn, decide_eq_false_iff_not]
        rintro ⟨a, b⟩; exact a b
      · right; exact ih ⟨u, hu, hn⟩

/-- **C38.** When a subquery is run for one outer row, the filter alone enforces the column equalities: it lets through exactly
the inner rows equal to the outer one, if the outer values are representable in the inner columns' types
(`C38_subquery_overflow_counterexample` is the other case) and, for several columns, none is a double. -/
theorem C38_subquery_filter (E : Env) {ps : List Pair} (hne : ps ≠ []) (hp : ∀ p ∈ ps, PairOk p)
    (hd : 1 < ps.length → ∀ p ∈ ps, p.ity ≠ .double) {v w : List EV} (hv : RowOk (ps.map (·.oty)) v)
    (hf : List.Forall₂ FitsIn ps v) (hw : RowOk (ps.map (·.ity)) w) : runtimeFilter E ps [v] w = keysEq v w := by
  by_cases hwn : ∀ x ∈ w, x.ty ≠ .null
  swap
  · have hwn := exists_null_of_not hwn
    rw [keysEq_null' hwn]
    have h := C38_filter_drops_null E (fun _ => 0) (ps := ps) (outer := [v]) (by simp) hw
    rw [show equalValues (fun _ => 0) [v] = [v] from rfl] at h
    cases hr : runtimeFilter E ps [v] w with
    | false => rfl
    | true =>
      obtain ⟨x, hx, hn⟩ := hwn
      exact absurd hn (h hr x hx)
  have gw := rowGood_of hw hwn
  rcases ps with _ | ⟨p, _ | ⟨q, ps⟩⟩
  · exact absurd rfl hne
  · have hpo := hp p (by simp)
    cases hv with
    | @cons _ v0 _ _ v1 hv =>
    cases hv
    cases gw with
    | @cons _ w0 _ _ w1 gw =>
    cases gw
    cases hf with
    | cons f1 hf =>
    cases hf
    have wn := good_notNull (pair_ity hpo) w1
    simp only [runtimeFilter, List.isEmpty_cons, Bool.false_or, List.headD_cons, List.map_cons, List.map_nil, keysEq, Bool.and_true]
    rcases v1 with hn | hg
    · rw [Pred.cast_null _ hn]
      have : v0.isNull = true := by simp [EV.isNull, hn]
      simp only [Pred.inFn, wn, this, List.filter_cons, List.filter_nil, Bool.not_true, Bool.false_eq_true, if_false, List.map_nil,
        List.contains_nil]
      simp [sqlEq, Pred.sem_null hn, Pred.boolV, EV.isNull, Pred.truth, Expr.getInt, EV.uget]
    · obtain ⟨g, e⟩ := cast_fits E.toEnv hpo hg f1
      have gn := good_notNull (pair_ity hpo) g
      have hk := in_key_iff E.toEnv (pair_ity hpo) g w1
      rw [e] at hk
      obtain ⟨x, hx⟩ := good_sem (pair_oty hpo) hg
      simp only [Pred.inFn, wn, Bool.false_eq_true, if_false, List.filter_cons, gn, Bool.not_false, if_true, List.filter_nil,
        List.map_cons, List.map_nil, List.contains_cons, List.contains_nil, Bool.or_false, beq_iff_eq]
      by_cases hs : sem v0 = sem w0
      · rw [if_pos (hk.mpr hs).symm]
        simp [sqlEq, hs, hs ▸ hx, Pred.boolV, EV.isNull, Pred.truth, Expr.getInt, EV.uget]
      · rw [if_neg (fun h => hs (hk.mp h.symm))]
        simp [sqlEq, hs, Pred.boolV, EV.isNull, Pred.truth, Expr.getInt, EV.uget]
  · have hlv := hv.length_eq
    by_cases hvn : ∀ x ∈ v, x.ty ≠ .null
    · have gv := rowGood_of hv hvn
      obtain ⟨r1, r2, r3⟩ := rowKey_iff E hp (hd (by simp)) gv hf gw
      obtain ⟨k, hk⟩ := Option.isSome_iff_exists.mp r2
      obtain ⟨k', hk'⟩ := Option.isSome_iff_exists.mp r3
      rw [hk, hk', Option.some.injEq] at r1
      simp only [runtimeFilter, List.isEmpty_cons, Bool.false_or, hk, List.filterMap_cons, hk', List.filterMap_nil,
        List.contains_cons, List.contains_nil, Bool.or_false]
      rw [Bool.eq_iff_iff, beq_iff_eq, ← r1]
      exact eq_comm
    · have hvn := exists_null_of_not hvn
      rw [keysEq_null hvn]
      have hl : (p :: q :: ps).length = v.length := by simpa using hlv
      have hz := rowKey_null (E := E) (ts := (p :: q :: ps).map fun p => Pred.inTy p.ity p.ity)
        (by simp only [List.length_map, List.length_zipWith]; omega) (zipWith_null E hl hvn)
      simp only [runtimeFilter, List.isEmpty_cons, Bool.false_or, List.filterMap_cons, hz, List.filterMap_nil, List.contains_nil]
      cases rowKey E ((p :: q :: ps).map fun p => Pred.inTy p.ity p.ity) w <;> rfl

/-- The rows of the subquery run for the outer row `o`. -/
def Query.sub (q : Query α β) (inner : List β) (o : α) : List β := inner.filter fun i => runtimeFilter q.E q.ps [q.okv o] (q.ikv i)

theorem Query.sub_any {q : Query α β} {outer : List α} {inner : List β} (hne : q.ps ≠ []) (h : q.Ok outer inner)
    (hd : 1 < q.ps.length → ∀ p ∈ q.ps, p.ity ≠ .double) (hf : ∀ o ∈ outer, List.Forall₂ FitsIn q.ps (q.okv o)) {o : α} (ho : o ∈ outer) :
    (q.sub inner o).any (q.sat o) = inner.any (q.on o) := by
  unfold sub
  rw [List.any_filter]
  rw [Bool.eq_iff_iff, List.any_eq_true, List.any_eq_true]
  refine exists_congr fun i => and_congr_right fun hi => ?_
  rw [C38_subquery_filter q.E hne h.pairs hd (h.left o ho) (hf o ho) (h.right i hi)]
  rfl

/-- **C38.** A correlated subquery with column equalities, run once per outer row. -/
theorem C38_semi_per_row {q : Query α β} {outer : List α} {inner : List β} (hne : q.ps ≠ []) (h : q.Ok outer inner)
    (hd : 1 < q.ps.length → ∀ p ∈ q.ps, p.ity ≠ .double) (hf : ∀ o ∈ outer, List.Forall₂ FitsIn q.ps (q.okv o))
    {bs : List (List (Row α β))} (hdr : Drain (anNext (q.cfg .semi) (q.sub inner)) ⟨outer, [], 0⟩ bs) :
    Answers q.limit (sqlSemi q.on (fun _ => inner) outer) (bs.flatten.map Prod.fst) := by
  have := C38_semi_nested (c := q.cfg .semi) rfl _ _ hdr
  have e : sqlSemi (q.cfg .semi).sat (q.sub inner) outer = sqlSemi q.on (fun _ => inner) outer :=
    List.filter_congr fun o ho => Query.sub_any hne h hd hf ho
  rwa [e] at this

theorem C38_anti_per_row {q : Query α β} {outer : List α} {inner : List β} (hne : q.ps ≠ []) (h : q.Ok outer inner)
    (hd : 1 < q.ps.length → ∀ p ∈ q.ps, p.ity ≠ .double) (hf : ∀ o ∈ outer, List.Forall₂ FitsIn q.ps (q.okv o))
    {bs : List (List (Row α β))} (hdr : Drain (anNext (q.cfg .anti) (q.sub inner)) ⟨outer, [], 0⟩ bs) :
    Answers q.limit ((sqlAnti q.on (fun _ => inner) outer).map fun o => (o, none)) bs.flatten := by
  have := C38_anti_nested (c := q.cfg .anti) rfl _ _ hdr
  have e : sqlAnti (q.cfg .anti).sat (q.sub inner) outer = sqlAnti q.on (fun _ => inner) outer :=
    List.filter_congr fun o ho => congrArg (!·) (Query.sub_any hne h hd hf ho)
  rwa [e] at this

/-! ## Examples -/

/-- Conversions that are never used below. -/
def demoE : Env where
  castX v _ := v
  boolX _ := false
  dblStr _ := []

/-- An INT64 value. -/
def i64 (n : Int) : EV := ⟨.int64, BitVec.ofInt 64 n, []⟩
/-- A UINT32 value. -/
def u32 (n : Nat) : EV := ⟨.uint32, BitVec.ofNat 64 n, []⟩
/-- A string. -/
def str (s : Bytes) : EV := ⟨.string, 0, s⟩

/-- `FROM (VALUES …) a JOIN (VALUES …) b ON a.0 = b.0` with a BIGINT on the left and an INT UNSIGNED on the right. -/
def demoQ (cap : Nat) (limit : Option Nat) : Query EV EV where
  E := demoE
  bucket v := v.length
  ps := [⟨.int64, .uint32⟩]
  okv o := [o]
  ikv i := [i]
  sat _ _ := true
  cap := cap
  limit := limit

theorem demo_ok (cap : Nat) (limit : Option Nat) : (demoQ cap limit).Ok [i64 1, i64 2, i64 1] [u32 1, ⟨.null, 0, []⟩, u32 3, u32 1] where
  pairs p hp := by
    obtain rfl : p = ⟨.int64, .uint32⟩ := by simpa [demoQ] using hp
    left; constructor <;> simp [IntTy]
  left o ho := by
    refine .cons ?_ .nil
    right
    simp only [List.mem_cons, List.not_mem_nil, or_false] at ho
    rcases ho with rfl | rfl | rfl <;> refine ⟨rfl, notNaN_int ?_, negZero_int ?_, ?_⟩ <;> simp [i64, IntTy]
  right i hi := by
    refine .cons ?_ .nil
    simp only [List.mem_cons, List.not_mem_nil, or_false] at hi
    rcases hi with rfl | rfl | rfl | rfl
    · right; refine ⟨rfl, notNaN_int ?_, negZero_int ?_, ?_⟩ <;> simp [u32, IntTy]
    · left; rfl
    · right; refine ⟨rfl, notNaN_int ?_, negZero_int ?_, ?_⟩ <;> simp [u32, IntTy]
    · right; refine ⟨rfl, notNaN_int ?_, negZero_int ?_, ?_⟩ <;> simp [u32, IntTy]
  nulls o ho := by
    right; right
    intro p hp
    obtain rfl : p = ⟨.int64, .uint32⟩ := by simpa [demoQ] using hp
    rfl
  clash := by
    apply noClash_of_notNull
    intro a ha v hv
    obtain ⟨o, ho, rfl⟩ := List.mem_map.mp ha
    obtain rfl : v = o := by simpa [demoQ] using hv
    simp only [List.mem_cons, List.not_mem_nil, or_false] at ho
    rcases ho with rfl | rfl | rfl <;> simp [i64]

/-- Two batches of two rows. -/
example : Drain (hiNext ((demoQ 2 none).cfg .inner) (buildMap ((demoQ 2 none).cfg .inner).okey [i64 1, i64 2, i64 1]))
    ⟨[[u32 1], [u32 1]], [], 0, 0⟩
    [[(i64 1, some (u32 1)), (i64 1, some (u32 1))], [(i64 1, some (u32 1)), (i64 1, some (u32 1))]] := by
  refine .more (s' := ⟨[], [u32 1], 0, 2⟩) ?_ (.last ?_)
  · decide +kernel
  · decide +kernel

example : (demoQ 2 none).fetched [i64 1, i64 2, i64 1] [u32 1, ⟨.null, 0, []⟩, u32 3, u32 1] = [u32 1, u32 1] := by decide +kernel

example : sqlInner (demoQ 2 none).on [i64 1, i64 2, i64 1] [u32 1, ⟨.null, 0, []⟩, u32 3, u32 1] =
    [(i64 1, some (u32 1)), (i64 1, some (u32 1)), (i64 1, some (u32 1)), (i64 1, some (u32 1))] := by decide +kernel

/-- LEFT JOIN, SEMI and ANTI on the same tables. -/
example : hoNext ((demoQ 9 none).cfg .left) (buildMap ((demoQ 9 none).cfg .left).ikey [u32 1, u32 1]) ⟨[i64 1, i64 2, i64 1], 0, 0⟩ =
    ([(i64 1, some (u32 1)), (i64 1, some (u32 1)), (i64 2, none), (i64 1, some (u32 1)), (i64 1, some (u32 1))], none) := by decide +kernel
example : semiNext ((demoQ 9 none).cfg .semi) ⟨buildMap ((demoQ 9 none).cfg .semi).okey [i64 1, i64 2, i64 1], [[u32 1], [u32 1]], [], 0⟩ =
    ([(i64 1, some (u32 1)), (i64 1, some (u32 1))], none) := by decide +kernel
example : ahNext ((demoQ 9 none).cfg .anti) (buildMap ((demoQ 9 none).cfg .anti).ikey [u32 1, u32 1]) ⟨[i64 1, i64 2, i64 1], 0, 0⟩ =
    ([(i64 2, none)], none) := by decide +kernel

/-- The configuration of a join without column equalities. -/
def plain (ty : JTy) (sat : Nat → Nat → Bool) (cap : Nat) (limit : Option Nat) (useHash : Bool) : Cfg Nat Nat :=
  ⟨ty, fun _ => [], fun _ => [], sat, cap, limit, useHash⟩

/-- In chunks of one row, then two. -/
example : Drain (loopNext ((demoQ 9 none).cfg .semi) (fun chunk => (demoQ 9 none).fetched chunk [u32 1, u32 3, u32 1]) 1)
    ⟨[], [], [i64 1, i64 2, i64 1], 0, 0⟩ [[(i64 1, some (u32 1))], [(i64 1, some (u32 1))], []] := by
  refine .more (s' := ⟨[], [], [i64 2, i64 1], 1, 1⟩) ?_ (.more (s' := ⟨[([0x32#8, 0#8], [i64 2])], [], [], 2, 2⟩) ?_ (.last ?_))
  · decide +kernel
  · decide +kernel
  · decide +kernel

/-- Run per outer row: 2 fits an unsigned column. -/
example : List.Forall₂ FitsIn [⟨.int64, .uint32⟩] [i64 2] := .cons (.inr (.inr (by decide +kernel))) .nil
example : anNext ((demoQ 9 (some 1)).cfg .semi) ((demoQ 9 (some 1)).sub [u32 1, u32 3, u32 1]) ⟨[i64 1, i64 2, i64 1], [], 0⟩ =
    ([(i64 1, some (u32 1))], none) := by decide +kernel
example : anNext (plain .left (fun _ i => i == 1) 9 none false) (fun o => if o = 5 then [1] else []) ⟨[5, 6], [], 0⟩ =
    ([(5, some 1), (6, none)], none) := by decide +kernel
example : nlNext (plain .inner (fun o i => o == i) 9 none false) [1, 2, 2] ⟨[2, 3], [1, 2, 2], 0⟩ =
    ([(2, some 2), (2, some 2)], none) := by decide +kernel
example : nlNext (plain .left (fun o i => o == i) 9 none false) [1, 2, 2] ⟨[2, 3], [1, 2, 2], 0⟩ =
    ([(2, some 2), (2, some 2), (3, none)], none) := by decide +kernel

/-! ## Cases the code gets wrong -/

/-- A hash LEFT JOIN with another ON condition (`a.k = b.k AND b.x = 2`, here all keys equal): the row that fails it adds a
NULL row beside the match. -/
theorem C38_hash_left_counterexample :
    let c := plain .left (fun _ i => i == 2) 1024 none true
    hoNext c (buildMap c.ikey [1, 2]) ⟨[7], 0, 0⟩ = ([(7, none), (7, some 2)], none) ∧
    sqlLeft (fun o i => decide (c.okey o = c.ikey i) && c.sat o i) [7] [1, 2] = [(7, some 2)] := by decide +kernel

/-- A nested-loop LEFT JOIN whose batch fills right after a match: when the scan of the inner rows resumes and finds no
other match, a NULL row is added for the row that had one.  So for every batch size. -/
theorem C38_nested_left_counterexample (cap : Nat) (hcap : 0 < cap) :
    ∃ outer inner, ∃ b s, nlNext (plain .left (fun _ i => i == 1) cap none false) inner ⟨outer, inner, 0⟩ = (b, some s) ∧
      (nlNext (plain .left (fun _ i => i == 1) cap none false) inner s).1 = [(7, none)] ∧
      b ++ [(7, none)] ≠ sqlLeft (fun _ i => i == 1) outer inner := by
  have scan : ∀ (k : Nat) (m : Bool) (out : List (Row Nat Nat)) (num : Nat), out.length + k = cap → 0 < k →
      nlScan (plain .left (fun _ i => i == 1) cap none false) 7 (List.replicate k 1 ++ [0]) m out num =
        ⟨some (.full, [0]), true, out ++ List.replicate k (7, some 1), num + k⟩ := by
    intro k
    induction k with
    | zero => intro _ _ _ _ h; omega
    | succ k ih =>
      intro m out num hk _
      rw [List.replicate_succ, List.cons_append, nlScan]
      simp only [Cfg.reached, plain, Bool.false_eq_true, if_false, construct, beq_self_eq_true, if_true, Bool.or_true]
      have hf' : decide (cap ≤ out.length) = false := by simp only [decide_eq_false_iff_not]; omega
      simp only [Cfg.full, hf', Bool.false_eq_true, if_false]
      by_cases hz : k = 0
      · subst hz
        simp only [List.replicate_zero, List.nil_append, nlScan, Cfg.reached, Bool.false_eq_true, if_false, Cfg.full,
          List.length_append, List.length_cons, List.length_nil]
        have : decide (cap ≤ out.length + (0 + 1)) = true := by simp; omega
        simp [this]
      · have := ih true (out ++ [(7, some 1)]) (num + 1) (by simp; omega) (by omega)
        simp only [plain] at this
        rw [this]
        simp only [List.append_assoc, List.singleton_append, NScan.mk.injEq, true_and]
        exact ⟨by rw [List.replicate_succ], by omega⟩
  refine ⟨[7], List.replicate cap 1 ++ [0], List.replicate cap (7, some 1), ⟨[7], [0], cap⟩, ?_, ?_, ?_⟩
  · have := scan cap false [] 0 (by simp) hcap
    simp only [nlNext, nlLoop, this]
    simp
  · have hz : cap ≠ 0 := by omega
    simp [nlNext, nlLoop, nlScan, plain, Cfg.reached, Cfg.full, construct, hz]
  · have : (sqlLeft (fun _ i => i == 1) [7] (List.replicate cap 1 ++ [0]) : List (Row Nat Nat)) = List.replicate cap (7, some 1) := by
      have h1 : (List.replicate cap 1 ++ [0]).any (fun i => i == 1) = true := by
        rw [List.any_append]; simp
        omega
      simp [sqlLeft, leftRows, h1, List.filter_append]
    rw [this]
    intro e
    have := congrArg List.length e
    simp at this

/-- A nested-loop INNER JOIN under LIMIT 2: inner rows that do not match are counted after the first match, and one row of
the two comes back. -/
theorem C38_nested_inner_limit_counterexample :
    let c := plain .inner (fun _ i => i == 1 || i == 3) 1024 (some 2) false
    nlNext c [1, 2, 3] ⟨[7], [1, 2, 3], 0⟩ = ([(7, some 1)], none) ∧
    sqlInner c.sat [7] [1, 2, 3] = [(7, some 1), (7, some 3)] := by decide +kernel

/-- A LEFT apply over the inner hash map with another condition: the row that fails it gives two NULL rows. -/
theorem C38_apply_left_counterexample :
    let c := plain .left (fun _ i => i == 2) 1024 none true
    ahNext c (buildMap c.ikey [1]) ⟨[7], 0, 0⟩ = ([(7, none), (7, none)], none) ∧
    sqlLeft (fun o i => decide (c.okey o = c.ikey i) && c.sat o i) [7] [1] = [(7, none)] := by decide +kernel

/-- Two columns, BIGINT and VARCHAR: the outer key (NULL, "abcdefgh") meets the inner key (6a number, ""). -/
theorem C38_null_key_counterexample :
    let ps : List Pair := [⟨.int64, .int64⟩, ⟨.string, .string⟩]
    let v := [⟨.null, 0, []⟩, str [0xE1#8, 0x62#8, 0x63#8, 0x64#8, 0x65#8, 0x66#8, 0x67#8, 0x68#8]]
    let w := [⟨.int64, 0x6162636465666768#64, []⟩, str []]
    encodeHashKey demoE (ps.map castTy) v [] = encodeHashKey demoE (ps.map castTy) w [] ∧ keysEq v w = false := by decide +kernel

/-- Two VARCHAR columns: ("a\0b", "c") meets ("a", "b\0c"). -/
theorem C38_nul_key_counterexample :
    let ps : List Pair := [⟨.string, .string⟩, ⟨.string, .string⟩]
    let v := [str [0x61#8, 0#8, 0x62#8], str [0x63#8]]
    let w := [str [0x61#8], str [0x62#8, 0#8, 0x63#8]]
    encodeHashKey demoE (ps.map castTy) v [] = encodeHashKey demoE (ps.map castTy) w [] ∧ keysEq v w = false := by decide +kernel

/-- Two JSON columns: every row meets every row. -/
theorem C38_json_key_counterexample (E : Env) (s s' : Bytes) :
    encodeHashKey E [castTy ⟨.json, .json⟩] [⟨.json, 0, s⟩] [] = encodeHashKey E [castTy ⟨.json, .json⟩] [⟨.json, 0, s'⟩] [] := by
  simp [encodeHashKey, castTy, Pred.cast, Expr.castTo, appendEV, toP, KeyEnc.appendValue]

/-- BIGINT against VARCHAR: 1 does not meet '01', although `1 = '01'` is true. -/
theorem C38_text_key_counterexample (E : Env) :
    encodeHashKey E [castTy ⟨.int64, .string⟩] [i64 1] [] ≠ encodeHashKey E [castTy ⟨.int64, .string⟩] [str [0x30#8, 0x31#8]] [] := by
  have h1 : Pred.cast E.toEnv (i64 1) .string = ⟨.string, 1, [0x31#8]⟩ := by
    have : Expr.castTo (i64 1) .string = some ⟨.string, 1, [0x31#8]⟩ := by decide +kernel
    simp [Pred.cast, this]
  have h2 : Pred.cast E.toEnv (str [0x30#8, 0x31#8]) .string = str [0x30#8, 0x31#8] := Pred.cast_same' _ rfl
  have h3 : castTy ⟨.int64, .string⟩ = .string := by decide
  simp only [h3, encodeHashKey, h1, h2]
  decide +kernel

/-- The outer keys NULL and 0 in one bucket of the set: 0 is left out, and the inner row 0 does not pass the filter. -/
theorem C38_set_null_counterexample :
    let outer := [[⟨.null, 0, []⟩], [i64 0]]
    equalValues (fun _ => 0) outer = [[⟨.null, 0, []⟩]] ∧
    runtimeFilter demoE [⟨.int64, .int64⟩] (equalValues (fun _ => 0) outer) [i64 0] = false ∧ keysEq [i64 0] [i64 0] = true := by
  decide +kernel

/-- A subquery run for the outer value 300 on a TINYINT column returns the rows with 44. -/
theorem C38_subquery_overflow_counterexample :
    runtimeFilter demoE [⟨.int64, .int8⟩] [[i64 300]] [⟨.int8, 44#64, []⟩] = true ∧ keysEq [i64 300] [⟨.int8, 44#64, []⟩] = false := by
  decide +kernel

/-- Two DOUBLE columns in one key: 0.0 and -0.0, printed "0" and "-0", are filtered out though equal. -/
theorem C38_negzero_counterexample :
    let E : Env := { demoE with dblStr := fun b => if b = 0 then [0x30#8] else [0x2d#8, 0x30#8] }
    let ps : List Pair := [⟨.double, .double⟩, ⟨.int64, .int64⟩]
    let v : List EV := [⟨.double, 0, []⟩, i64 1]
    let w : List EV := [⟨.double, 0x8000000000000000#64, []⟩, i64 1]
    runtimeFilter E ps [v] w = false ∧ sem ⟨.double, 0, []⟩ = sem ⟨.double, 0x8000000000000000#64, []⟩ := by
  refine ⟨by decide +kernel, by decide +kernel⟩

/-- `x NOT IN (SELECT …)` runs as an ANTI apply whose condition `x = y` is UNKNOWN, hence not satisfied, for a NULL `y`: the
row comes out although NOT IN is UNKNOWN. -/
theorem C38_not_in_null_counterexample :
    let eq3 : Option Nat → Option Nat → Option Bool := fun x y => match x, y with | some a, some b => some (a == b) | _, _ => none
    let c : Cfg (Option Nat) (Option Nat) := ⟨.anti, fun _ => [], fun _ => [], fun o i => eq3 o i == some true, 1024, none, false⟩
    anNext c (fun _ => [none]) ⟨[some 1], [], 0⟩ = ([(some 1, none)], none) ∧
    ([none].map fun y => eq3 (some 1) y).any (· == none) = true := by decide +kernel

end BaikalDB.Join
