import Verif.Scan.Ends

/-!
# The ranges against the conditions
-/

namespace BaikalDB.Scan
open KeyEnc KeyEnc.Spec IndexKey Like Like.Spec Route

section
variable {cs : Charset} {ty : Nat → PType} {ix : IndexInfo} {conds : List Cond} {m : FMap}

/-! ## The record of a row that meets all conditions -/

theorem getD_index {l : List PbVal} {y : PbVal} (h : y ∈ l) : ∃ n < l.length, l.getD n (.bool false) = y := by
  obtain ⟨n, hn, rfl⟩ := List.getElem_of_mem h
  exact ⟨n, hn, by rw [List.getD_eq_getElem?_getD, List.getElem?_eq_getElem hn]; rfl⟩

theorem rowTrue_tuple {row : Row} {fs : List Nat} {t : List (Option PbVal)} (hf : FitsRow ty fs t)
    (h : rowTrue .eq row fs t) : ∃ ws : List PbVal, t = ws.map some ∧ ws.length = fs.length ∧
      ∀ (k : Nat) f v, fs[k]? = some f → ws[k]? = some v → ∃ x, row f = some x ∧ colCompare x v = .eq := by
  have hl := fitsRow_len hf
  have hn := rowTrue_eq_null hl h
  cases hw : tuple t with
  | none => exact absurd (tuple_none.1 hw) hn
  | some ws =>
    have e := tuple_some.1 hw
    have hlen : ws.length = fs.length := by rw [hl, e, List.length_map]
    refine ⟨ws, e, hlen, ?_⟩
    rw [e] at h
    exact (rowTrue_eq_iff hlen).1 h

/-- The value of a column fixed by EQ. -/
theorem select_eq (hcov : Covered cs ty ix conds) (hm : MInv conds.length conds m) {row : Row} (hrow : RowOk cs ix row)
    (hall : ∀ c ∈ conds, Holds cs row c) {c : Col} (hav : c.f ∈ avail ix)
    (ht : (m c.f.id).type = .eq ∨ (m c.f.id).type = .likeEq) :
    ∃ v x, (m c.f.id).eqIn = [v] ∧ row c.f.id = some x ∧ colCompare x v = .eq := by
  have hok := hm.fok c.f.id
  have at' : ∀ {i : Nat} {d : Cond}, conds[i]? = some d → Holds cs row d := fun h => hall _ (List.mem_iff_getElem?.2 ⟨_, h⟩)
  rcases ht with h | h
  · obtain ⟨i', v, _, he, ⟨_, h⟩ | ⟨_, ws, k, h1, h2, h3⟩⟩ := hok.eq h
    · rcases h with h | ⟨vs, h, h'⟩
      · obtain ⟨x, y, hx, hy, hc⟩ := at' h
        cases hy
        exact ⟨v, x, he, hx, hc⟩
      · obtain ⟨x, y, hx, hy, hc⟩ := at' h
        have := mem_nonNull.2 hy
        rw [h'] at this
        simp only [List.mem_singleton] at this
        subst this
        exact ⟨_, x, he, hx, hc⟩
    · have hr : rowTrue .eq row (m c.f.id).leftRow (ws.map some) := by
        rcases h1 with ⟨vs, h, hw⟩ | ⟨vss, h, hw⟩
        · have := at' h
          simp only [Holds] at this
          rw [tuple_some.1 hw] at this
          exact this
        · obtain ⟨t, ht, htr⟩ := at' h
          obtain ⟨ws', rfl, _, _⟩ := rowTrue_tuple ((ok_at hcov h).2 t ht) htr
          have := mem_tuples.2 ht
          rw [hw] at this
          simp only [List.mem_singleton] at this
          subst this
          exact htr
      obtain ⟨x, hx, hc⟩ := (rowTrue_eq_iff (rowEqAt_len hcov h1)).1 hr k c.f.id v h2 h3
      exact ⟨v, x, he, hx, hc⟩
  · obtain ⟨i', p, _, _, hcp, h1, he⟩ := hok.likeEq h
    obtain ⟨t, q, hx, hq, hl⟩ := at' hcp
    cases hq
    obtain ⟨_, P, hP, hcl⟩ := (ok_at hcov hcp).2 _ rfl
    obtain ⟨T, hT⟩ := hrow.text _ t hx
    rw [C26_index_eq hcov.charset hT hP hcl h1] at hl
    exact ⟨_, _, he, hx, bcmp_eq_iff.2 hl⟩

/-- One value for all the columns of a group. -/
theorem select_group (hcov : Covered cs ty ix conds) (hm : MInv conds.length conds m) {row : Row} (hrow : RowOk cs ix row)
    (hall : ∀ c ∈ conds, Holds cs row c) {cols : List Col} (hav : ∀ c ∈ cols, c.f ∈ avail ix)
    (hsrc : ∀ c ∈ cols, ColFrom m c) (g : Nat ⊕ Nat) :
    ∃ n : Nat, ∀ c ∈ cols, c.gid = g → n < c.vals.length ∧
      ∃ x, row c.f.id = some x ∧ colCompare x (c.vals.getD n (.bool false)) = .eq := by
  have at' : ∀ {i : Nat} {d : Cond}, conds[i]? = some d → Holds cs row d := fun h => hall _ (List.mem_iff_getElem?.2 ⟨_, h⟩)
  by_cases hex : ∃ c ∈ cols, c.gid = g
  · obtain ⟨c0, hc0, hg0⟩ := hex
    cases g with
    | inl i =>
      obtain ⟨vss, _, hcd, _, _, _⟩ := rowCol hm (hsrc c0 hc0) hg0
      obtain ⟨t, ht, htr⟩ := at' hcd
      obtain ⟨ws, rfl, hlen, hws⟩ := rowTrue_tuple ((ok_at hcov hcd).2 t ht) htr
      obtain ⟨n, hn, hnw⟩ := List.getElem_of_mem (mem_tuples.2 ht)
      refine ⟨n, ?_⟩
      intro c hc hg
      obtain ⟨vss', k, hcd', hk, hv, _⟩ := rowCol hm (hsrc c hc) hg
      rw [hcd] at hcd'
      simp only [Option.some.injEq, Cond.rin.injEq] at hcd'
      obtain ⟨hrow', rfl⟩ := hcd'
      rw [hv]
      refine ⟨by simpa [column] using hn, ?_⟩
      rw [← hrow'] at hk
      have hk' : k < ws.length := by rw [hlen]; exact (List.getElem?_eq_some_iff.1 hk).1
      obtain ⟨x, hx, hxc⟩ := hws k c.f.id ws[k] hk (List.getElem?_eq_getElem hk')
      refine ⟨x, hx, ?_⟩
      have : (column (tuples vss) k).getD n (.bool false) = ws[k] := by
        rw [List.getD_eq_getElem?_getD, column, List.getElem?_map, List.getElem?_eq_getElem hn, hnw]
        simp [List.getD, List.getElem?_eq_getElem hk']
      rw [this]
      exact hxc
    | inr f =>
      have hid : ∀ c ∈ cols, c.gid = .inr f → c.f.id = f := by
        intro c hc hg
        rcases (hsrc c hc).2 with ⟨_, h, _⟩ | ⟨_, h⟩
        · rw [h] at hg; exact Sum.inr.inj hg
        · rw [h] at hg
          split at hg
          · cases hg
          · exact Sum.inr.inj hg
      have one : ∃ n : Nat, n < (m f).eqIn.length ∧ ∃ x, row f = some x ∧
          colCompare x ((m f).eqIn.getD n (.bool false)) = .eq := by
        have hf0 := hid c0 hc0 hg0
        rcases (hsrc c0 hc0).2 with ⟨h, _, _⟩ | ⟨h, hgd⟩
        · obtain ⟨v, x, he, hx, hc⟩ := select_eq hcov hm hrow hall (hav c0 hc0) h
          rw [hf0] at he hx
          exact ⟨0, by simp [he], x, hx, by simpa [he] using hc⟩
        · obtain ⟨i, hcd, _, h' | ⟨h', _⟩⟩ := (hm.fok c0.f.id).inn h
          · obtain ⟨_, vs, hcv, he⟩ := h'
            obtain ⟨x, y, hx, hy, hc⟩ := at' hcv
            obtain ⟨n, hn, hny⟩ := getD_index (mem_nonNull.2 hy)
            rw [hf0] at he hx
            exact ⟨n, by rw [he]; exact hn, x, hx, by rw [he, hny]; exact hc⟩
          · rw [hgd, h'] at hg0
            simp at hg0
      obtain ⟨n, hn, hx⟩ := one
      refine ⟨n, ?_⟩
      intro c hc hg
      have := hid c hc hg
      rw [(hsrc c hc).1, this]
      exact ⟨hn, hx⟩
  · exact ⟨0, fun c hc hg => absurd ⟨c, hc, hg⟩ hex⟩

theorem select (hcov : Covered cs ty ix conds) (hm : MInv conds.length conds m) {row : Row} (hrow : RowOk cs ix row)
    (hall : ∀ c ∈ conds, Holds cs row c) {base : Bytes} {cols : List Col} {s : St} {k : KSt}
    (hav : ∀ c ∈ cols, c.f ∈ avail ix) (h : Rel cs ix conds m base cols s k) : ∃ j < s.inSize, Matches cols j row := by
  choose ch hch using fun g => select_group hcov hm hrow hall hav h.src g
  obtain ⟨j, hj, hjc⟩ := h.complete ch (fun c hc => (hch c.gid c hc rfl).1)
  refine ⟨j, hj, ?_⟩
  intro c hc
  obtain ⟨_, x, hx, hxc⟩ := hch c.gid c hc rfl
  refine ⟨x, hx, ?_⟩
  unfold Col.val
  rw [hjc c hc]
  exact hxc

/-! ## Matching, on the values -/

theorem matches_iff {cols : List Col} {row : Row} (hrow : ∀ c ∈ cols, ∃ v, row c.f.id = some v ∧ Valid c.f.type v) (j : Nat) :
    Matches cols j row ↔ tupleCompare (vals row (flds cols)) (jvals cols j) = .eq := by
  induction cols with
  | nil => simp [Matches, vals, flds, tupleCompare_nil_left]
  | cons c cols ih =>
    obtain ⟨x, hx, _⟩ := hrow c (by simp)
    have hi := ih (fun d hd => hrow d (by simp [hd]))
    have hm : Matches (c :: cols) j row ↔ colCompare x (c.val j) = .eq ∧ Matches cols j row := by
      unfold Matches
      simp only [List.mem_cons, forall_eq_or_imp, hx, Option.some.injEq]
      simp
    rw [hm, hi]
    simp only [vals, flds, jvals, List.map_cons, hx, Option.getD_some, tupleCompare]
    cases colCompare x (c.val j) <;> simp [Ordering.then]

theorem fits_cols {cols : List Col} (h : ∀ c ∈ cols, ∀ v ∈ c.vals, Valid c.f.type v) (h0 : ∀ c ∈ cols, 0 < c.vals.length)
    (j : Nat) : FitsCols (flds cols) (jvals cols j) := by
  induction cols with
  | nil => trivial
  | cons c cols ih =>
    exact ⟨h c (by simp) _ (val_mem (h0 c (by simp)) j), ih (fun d hd => h d (by simp [hd])) (fun d hd => h0 d (by simp [hd]))⟩

theorem jvals_len (cols : List Col) (j : Nat) : (jvals cols j).length = (flds cols).length := by simp [jvals, flds]

theorem vals_append (row : Row) (a b : List FieldInfo) : vals row (a ++ b) = vals row a ++ vals row b := by simp [vals]

theorem vals_len (row : Row) (a : List FieldInfo) : (vals row a).length = a.length := by simp [vals]

theorem ck_ne_nil {t : PType} {v : PbVal} (h : Valid t v) : ck t v ≠ [] := by
  have hml : ∀ {w : Nat} (n : Nat) (x : BitVec w), memLE (n + 1) x ≠ [] := by
    intro w n x e
    have := congrArg List.length e
    simp [memLE] at this
  unfold ck app
  cases t <;> cases v <;> simp_all [Valid, appendValue, appendBoolean, appendI8, appendI16, appendI32, appendI64, appendU8,
    appendU16, appendU32, appendU64, appendFloat, appendDouble, appendString, unionOf]
  all_goals exact hml _ _

/-! ## The records of the keys -/

/-- The keys that become ranges. -/
def pairs (k : KSt) : List (Bytes × Bytes) := if k.recs ≠ [] then k.recs else [(k.left, k.right)]

theorem mem_dedupe {l : List (Bytes × Bytes)} (h : ∀ p ∈ l, ∀ q ∈ l, p.1 = q.1 → p = q) {seen : List Bytes}
    {p : Bytes × Bytes} : p ∈ dedupe seen l ↔ p ∈ l ∧ p.1 ∉ seen := by
  induction l generalizing seen with
  | nil => simp [dedupe]
  | cons q l ih =>
    have hi := @ih (fun a ha b hb => h a (by simp [ha]) b (by simp [hb]))
    unfold dedupe
    split
    · rename_i hq
      rw [hi]
      constructor
      · rintro ⟨h1, h2⟩; exact ⟨by simp [h1], h2⟩
      · rintro ⟨h1, h2⟩
        rcases List.mem_cons.1 h1 with rfl | h1
        · exact absurd hq h2
        · exact ⟨h1, h2⟩
    · rename_i hq
      rw [List.mem_cons, hi, List.mem_cons, List.mem_cons, not_or]
      constructor
      · rintro (rfl | ⟨h1, h2⟩)
        · exact ⟨.inl rfl, hq⟩
        · exact ⟨.inr h1, h2.2⟩
      · rintro ⟨h1 | h1, h2⟩
        · exact .inl h1
        · by_cases e : p.1 = q.1
          · exact .inl (h p (by simp [h1]) q (by simp) e)
          · exact .inr ⟨h1, e, h2⟩

theorem dedupe_nodup (l : List (Bytes × Bytes)) (seen : List Bytes) :
    ((dedupe seen l).map (·.1)).Nodup ∧ ∀ p ∈ dedupe seen l, p.1 ∉ seen := by
  induction l generalizing seen with
  | nil => simp [dedupe]
  | cons q l ih =>
    unfold dedupe
    split
    · exact ih seen
    · rename_i hq
      obtain ⟨h1, h2⟩ := ih (q.1 :: seen)
      constructor
      · rw [List.map_cons, List.nodup_cons]
        refine ⟨?_, h1⟩
        intro hm
        obtain ⟨p, hp, e⟩ := List.mem_map.1 hm
        have := h2 p hp
        rw [e] at this
        simp at this
      · intro p hp
        rcases List.mem_cons.1 hp with rfl | hp
        · exact hq
        · have := h2 p hp
          simp at this
          exact this.2

theorem finish_ranges {s : St} {k : KSt} (hz : ¬ (s.leftCnt = 0 ∧ s.rightCnt = 0)) {a b : Bytes → Bytes}
    (ha : ∀ x y, a x = a y → x = y) {N : Nat} {K : Nat → Bytes}
    (hp : pairs k = (List.range N).map fun j => (a (K j), b (K j))) (P : Rng → Prop) :
    (∃ r ∈ (finish ix s k).ranges, P r) ↔ ∃ j < N, P (toRng ix s (a (K j), b (K j))) := by
  have h1 : (∃ r ∈ (finish ix s k).ranges, P r) ↔ ∃ p ∈ pairs k, P (toRng ix s p) := by
    unfold finish
    rw [if_neg hz]
    dsimp only
    unfold pairs at hp ⊢
    split
    · rename_i hr
      rw [if_pos hr] at hp
      have hinj : ∀ p ∈ k.recs, ∀ q ∈ k.recs, p.1 = q.1 → p = q := by
        rw [hp]
        intro p hp q hq e
        obtain ⟨i, _, rfl⟩ := List.mem_map.1 hp
        obtain ⟨j, _, rfl⟩ := List.mem_map.1 hq
        rw [ha _ _ e]
      simp only [List.mem_map, mem_dedupe hinj, List.not_mem_nil, not_false_eq_true, and_true]
      constructor
      · rintro ⟨r, ⟨p, hp, rfl⟩, h⟩; exact ⟨p, hp, h⟩
      · rintro ⟨p, hp, h⟩; exact ⟨_, ⟨p, hp, rfl⟩, h⟩
    · simp
  rw [h1, hp]
  simp only [List.mem_map, List.mem_range]
  constructor
  · rintro ⟨p, ⟨j, hj, rfl⟩, h⟩; exact ⟨j, hj, h⟩
  · rintro ⟨j, hj, h⟩; exact ⟨_, ⟨j, hj, rfl⟩, h⟩

/-! ## The three ways to end -/

/-- What the plan has to satisfy for a row. -/
def ExactFor (cs : Charset) (ix : IndexInfo) (conds : List Cond) (p : Plan) (row : Row) : Prop :=
  (∀ c ∈ conds, Holds cs row c) ↔
    (∃ r ∈ p.ranges, Reaches p r (rowKey ix row)) ∧
    ∀ (i : Nat) c, conds[i]? = some c → i ∉ p.cut → Holds cs row c

theorem exact_of {cols : List Col} {p : Plan} {row : Row} (X : Prop) (N : Nat)
    (ha : (∃ r ∈ p.ranges, Reaches p r (rowKey ix row)) ↔ ∃ j < N, Matches cols j row ∧ X)
    (hs : (∀ c ∈ conds, Holds cs row c) → ∃ j < N, Matches cols j row) (hb : (∀ c ∈ conds, Holds cs row c) → X)
    (hc : ∀ i ∈ p.cut, ∃ d, conds[i]? = some d ∧ ∀ j, Matches cols j row → X → Holds cs row d) :
    ExactFor cs ix conds p row := by
  unfold ExactFor
  constructor
  · intro h
    obtain ⟨j, hj, hm⟩ := hs h
    exact ⟨ha.2 ⟨j, hj, hm, hb h⟩, fun i c hi _ => h c (List.mem_iff_getElem?.2 ⟨i, hi⟩)⟩
  · rintro ⟨h1, h2⟩ c hcm
    obtain ⟨i, hi⟩ := List.mem_iff_getElem?.1 hcm
    by_cases hcut : i ∈ p.cut
    · obtain ⟨d, hd, hh⟩ := hc i hcut
      rw [hi] at hd
      cases hd
      obtain ⟨j, _, hm, hx⟩ := ha.1 h1
      exact hh j hm hx
    · exact h2 i c hi hcut

theorem finish_tpl {s : St} {k : KSt} (hz : ¬ (s.leftCnt = 0 ∧ s.rightCnt = 0)) :
    (finish ix s k).tpl = ⟨s.eqOrIn, s.leftOpen, s.rightOpen⟩ := by
  unfold finish; rw [if_neg hz]

theorem finish_cut (s : St) (k : KSt) : (finish ix s k).cut = s.cut := by unfold finish; split <;> rfl

theorem finish_st (s : St) (k : KSt) : (finish ix s k).st = s := by unfold finish; split <;> rfl

/-- No bounds at all. -/
theorem finish_whole {s : St} {k : KSt} (hz : s.leftCnt = 0 ∧ s.rightCnt = 0) (x : Bytes) :
    ∃ r ∈ (finish ix s k).ranges, Reaches (finish ix s k) r x := by
  unfold finish Reaches
  rw [if_pos hz]
  refine ⟨_, List.mem_singleton.2 rfl, ?_⟩
  dsimp only
  rw [C11_range_bounds _ _ (by simp)]
  simp [RightOk]

theorem pairs_fixed {base : Bytes} {cols : List Col} {s : St} {k : KSt} (h : Rel cs ix conds m base cols s k)
    (s' : St) (he : s'.eqOrIn = true) (K : KSt) (hr : K.recs = k.recs) (hl : K.left = k.left) :
    (pairs K).map (toRng ix s') = (List.range s.inSize).map fun j => toRng ix s' (pkey base cols j, []) := by
  unfold pairs
  rw [hr, hl]
  rcases h.recs with ⟨_, h2, h3, h4, _, _⟩ | ⟨_, h2⟩
  · rw [h3, h4, h2]; simp [toRng, he]
  · have hne : k.recs ≠ [] := by rw [h2]; simp; exact Nat.pos_iff_ne_zero.1 h.size
    rw [if_pos hne, h2, List.map_map]
    rfl

variable (hcov : Covered cs ty ix conds) (hm : MInv conds.length conds m) {cols : List Col} {s1 : St} {k1 : KSt}
  {rest : List FieldInfo}

include hcov hm in
theorem exact_stop (hav : avail ix = flds cols ++ rest) (h : Rel cs ix conds m (flag ix) cols s1 k1) {row : Row}
    (hrow : RowOk cs ix row) : ExactFor cs ix conds (finish ix s1 k1) row := by
  have hcav : ∀ c ∈ cols, c.f ∈ avail ix := by
    intro c hc; rw [hav]; exact List.mem_append_left _ (List.mem_map.2 ⟨c, hc, rfl⟩)
  refine exact_of (cols := cols) True s1.inSize ?_ (fun hall => select hcov hm hrow hall hcav h) (fun _ => trivial) ?_
  · by_cases hz : s1.leftCnt = 0 ∧ s1.rightCnt = 0
    · have : cols = [] := List.eq_nil_of_length_eq_zero (by rw [← h.leftCnt]; exact hz.1)
      subst this
      refine iff_of_true (finish_whole hz _) ⟨0, h.size, ?_, trivial⟩
      intro c hc
      simp at hc
    · have hreach : ∀ j, Reaches (finish ix s1 k1) (toRng ix s1 (pkey (flag ix) cols j, [])) (rowKey ix row) ↔ Matches cols j row := by
        intro j
        unfold Reaches
        rw [finish_tpl hz, C11_eq_bounds _ _ h.eqOrIn h.leftOpen, rowKey_eq hrow]
        have hvf := fits_cols h.valid (fun c hc => (h.div c hc).2.1) j
        have hw := vals_fits hrow.cols
        have hj : tk (avail ix) (jvals cols j) = tk (flds cols) (jvals cols j) := by
          have := tk_append (gs := rest) (ws := []) (jvals_len cols j)
          rw [hav]
          simpa [tk_nil] using this
        have hfit : FitsCols (avail ix) (jvals cols j) := by
          have := fitsCols_append (gs := rest) (ws := []) (jvals_len cols j) hvf (FitsCols.nil _)
          rw [hav]
          simpa using this
        show pkey (flag ix) cols j <+: _ ↔ _
        unfold pkey
        rw [← hj, prefix_key hfit hw (by rw [jvals_len, vals_len, hav]; simp),
          matches_iff (fun c hc => hrow.cols c.f (hcav c hc)), hav, vals_append]
        have := tupleCompare_append (a := jvals cols j) (c := vals row (flds cols)) (by rw [jvals_len, vals_len]) [] (vals row rest)
        rw [List.append_nil, tupleCompare_nil_left] at this
        rw [this, ← tupleCompare_swap (vals row (flds cols))]
        cases tupleCompare (vals row (flds cols)) (jvals cols j) <;> simp [Ordering.then]
      have hrng : ∀ P : Rng → Prop, (∃ r ∈ (finish ix s1 k1).ranges, P r) ↔
          ∃ j < s1.inSize, P (toRng ix s1 (pkey (flag ix) cols j, [])) := by
        intro P
        have he : ∀ p : Bytes × Bytes, toRng ix s1 p = toRng ix s1 (p.1, []) := by
          intro p; simp [toRng, h.eqOrIn]
        rcases h.recs with ⟨_, h2, h3, h4, h5, _⟩ | ⟨_, h2⟩
        · have := finish_ranges (ix := ix) hz (a := id) (b := id) (fun _ _ h => h) (N := s1.inSize) (K := pkey (flag ix) cols)
            (k := k1) (by simp [pairs, h2, h3, h4, h5]) P
          rw [this]
          simp only [id]
          constructor
          · rintro ⟨j, hj, hp⟩; exact ⟨j, hj, by rw [he] at hp; exact hp⟩
          · rintro ⟨j, hj, hp⟩; exact ⟨j, hj, by rw [he]; exact hp⟩
        · have hne : k1.recs ≠ [] := by rw [h2]; simp; exact Nat.pos_iff_ne_zero.1 h.size
          exact finish_ranges (ix := ix) hz (a := id) (b := fun _ => []) (fun _ _ h => h) (N := s1.inSize)
            (K := pkey (flag ix) cols) (by unfold pairs; rw [if_pos hne]; exact h2) P
      rw [hrng]
      simp only [hreach, and_true]
  · intro i hi
    rw [finish_cut] at hi
    obtain ⟨d, hd, hh⟩ := h.cut i hi
    exact ⟨d, hd, fun j hmj _ => hh row hrow j hmj⟩

/-- The keys of a range after the fixed columns. -/
theorem pairs_range {base : Bytes} {s : St} {k : KSt} (h : Rel cs ix conds m base cols s k) (f : FieldInfo) (r : FR) :
    pairs (rangeK f rest r k) = (List.range s.inSize).map fun j =>
      (pkey base cols j ++ tk (f :: rest) (endVals r.left r.leftRow ((f :: rest).map (·.id))),
       pkey base cols j ++ tk (f :: rest) (endVals r.right r.rightRow ((f :: rest).map (·.id)))) := by
  unfold rangeK
  rcases h.recs with ⟨_, h2, h3, h4, h5, _⟩ | ⟨_, h2⟩
  · rw [if_pos h3, h4, h5, h2, rangeKeys_eq]
    simp [pairs, h3]
  · have hne : k.recs ≠ [] := by rw [h2]; simp; exact Nat.pos_iff_ne_zero.1 h.size
    rw [if_neg hne]
    unfold pairs
    dsimp only
    rw [if_pos (by simpa using hne), h2, List.map_map]
    apply List.map_congr_left
    intro j _
    exact rangeKeys_eq _ _ _ _ _

/-- Both bounds together leave the fixed columns fixed. -/
theorem bounds_split {w0 w jv lv rv : List PbVal} (hl : w0.length = jv.length) (o o' : Bool) :
    (LB o (w0 ++ w) (jv ++ lv) ∧ RB o' (w0 ++ w) (jv ++ rv)) ↔
      tupleCompare w0 jv = .eq ∧ LB o w lv ∧ RB o' w rv := by
  unfold LB RB
  rw [tupleCompare_append hl, tupleCompare_append hl]
  cases o <;> cases o' <;> cases tupleCompare w0 jv <;> simp [Ordering.then]

theorem head_fits_ne {base : Bytes} {f : FieldInfo} {vs : List PbVal} (h : FitsCols (f :: rest) vs) (hne : vs ≠ []) :
    base ++ tk (f :: rest) vs ≠ [] := by
  cases vs with
  | nil => exact absurd rfl hne
  | cons v vs =>
    have := ck_ne_nil h.1
    simp [tk, this]

include hcov hm in
theorem exact_range {f : FieldInfo} (hav : avail ix = flds cols ++ f :: rest) (h : Rel cs ix conds m (flag ix) cols s1 k1)
    (ht : (m f.id).type = .range) {row : Row} (hrow : RowOk cs ix row) :
    ExactFor cs ix conds
      (finish ix (stepRange ((avail ix).map (·.id)) f.id (m f.id) s1) (rangeK f rest (m f.id) k1)) row := by
  have hcav : ∀ c ∈ cols, c.f ∈ avail ix := by
    intro c hc; rw [hav]; exact List.mem_append_left _ (List.mem_map.2 ⟨c, hc, rfl⟩)
  have hgav : ∀ g ∈ f :: rest, g ∈ avail ix := by
    intro g hg; rw [hav]; exact List.mem_append_right _ hg
  obtain ⟨_, _, hL, hR⟩ := (hm.fok f.id).range ht
  have hdrop : ((avail ix).map (·.id)).drop cols.length = (f :: rest).map (·.id) := by
    rw [hav, List.map_append, List.drop_left' (by simp [flds])]
  have hrow' : ∀ g ∈ f :: rest, ∃ v, row g.id = some v ∧ Valid g.type v := fun g hg => hrow.cols g (hgav g hg)
  have hheadL : (m f.id).left.length > 1 → 1 ≤ matchLen (m f.id).leftRow (((avail ix).map (·.id)).drop cols.length) := by
    intro hlen
    rw [hdrop]
    rcases hL with h | ⟨_, _, _, ⟨v, h, _⟩ | ⟨_, _, _, h⟩⟩
    · simp [h] at hlen
    · simp [h] at hlen
    · exact matchLen_head h
  have hheadR : (m f.id).right.length > 1 → 1 ≤ matchLen (m f.id).rightRow (((avail ix).map (·.id)).drop cols.length) ∧
      (m f.id).rightRow ≠ [] := by
    intro hlen
    rw [hdrop]
    rcases hR with h | ⟨_, _, _, ⟨v, h, _⟩ | ⟨_, _, _, h⟩⟩
    · simp [h] at hlen
    · simp [h] at hlen
    · exact ⟨matchLen_head h, by rintro e; rw [e] at h; simp at h⟩
  have hflen : (flds cols).length = cols.length := by simp [flds]
  obtain ⟨uL, uR, b1, b2, b3, b4, b5, b6, b7, b8⟩ := stepRange_sum (f := f.id) h.cnt h.leftOpen h.rightOpen h.leftCnt h.rightCnt
    hheadL hheadR (fun a b => by
      have := both_zero hcov hav hL hR a b
      rwa [hflen] at this)
  rw [hdrop] at b1 b2
  have hfull_ne : ∀ (vs : List PbVal) (row : List Nat), FullEnd vs row ((f :: rest).map (·.id)) →
      (vs.length > 1 → 1 ≤ matchLen row ((f :: rest).map (·.id))) → endVals vs row ((f :: rest).map (·.id)) ≠ [] := by
    intro vs row hfe hh
    unfold endVals
    rcases hfe with e | ⟨e, e'⟩
    · rw [if_pos (by omega)]; rintro rfl; simp at e
    · rw [if_neg (by omega)]
      intro hnil
      have := hh e
      have := congrArg List.length hnil
      simp only [List.length_take, List.length_nil] at this
      omega
  rw [hdrop] at hheadL hheadR
  set s2 := stepRange ((avail ix).map (·.id)) f.id (m f.id) s1 with hs2
  set lv := endVals (m f.id).left (m f.id).leftRow ((f :: rest).map (·.id)) with hlv
  set rv := endVals (m f.id).right (m f.id).rightRow ((f :: rest).map (·.id)) with hrv
  have hlf : FitsCols (f :: rest) lv := left_fits hcov hgav hL
  have hrf : FitsCols (f :: rest) rv := right_fits hcov hgav hR
  have hls := left_sem hcov hrow' hL b1
  have hrs := right_sem hcov hrow' hR b2
  rw [← hlv] at hls
  rw [← hrv] at hrs
  refine exact_of (cols := cols) (LB (uL && (m f.id).leftOpen) (vals row (f :: rest)) lv ∧
      RB (uR && (m f.id).rightOpen) (vals row (f :: rest)) rv) s1.inSize ?_
    (fun hall => select hcov hm hrow hall hcav h) (fun hall => ⟨hls.1 hall, hrs.1 hall⟩) ?_
  · by_cases hz : s2.leftCnt = 0 ∧ s2.rightCnt = 0
    · obtain ⟨e1, e2, e3⟩ := b8 hz
      have : cols = [] := List.eq_nil_of_length_eq_zero e3
      subst this
      have hu1 : uL = false := by
        cases uL
        · rfl
        · rcases b1 rfl with h' | h' <;> simp [e1] at h'
      have hu2 : uR = false := by
        cases uR
        · rfl
        · rcases b2 rfl with h' | h' <;> simp [e2] at h'
      refine iff_of_true (finish_whole hz _) ⟨0, h.size, ?_, ?_, ?_⟩
      · intro c hc; simp at hc
      · simp [LB, hu1, hlv, e1, endVals, tupleCompare_nil_right]
      · simp [RB, hu2, hrv, e2, endVals, tupleCompare_nil_right]
    · have hreach : ∀ j, Reaches (finish ix s2 (rangeK f rest (m f.id) k1))
          (toRng ix s2 (pkey (flag ix) cols j ++ tk (f :: rest) lv, pkey (flag ix) cols j ++ tk (f :: rest) rv)) (rowKey ix row) ↔
          Matches cols j row ∧ LB (uL && (m f.id).leftOpen) (vals row (f :: rest)) lv ∧
            RB (uR && (m f.id).rightOpen) (vals row (f :: rest)) rv := by
        intro j
        unfold Reaches
        rw [finish_tpl hz, C11_range_bounds _ _ (by intro t' e; cases e; exact b6), rowKey_eq hrow]
        simp only [Option.elim_some, toRng, b6, Bool.false_eq_true, if_false, b3, b4]
        have hvf := fits_cols h.valid (fun c hc => (h.div c hc).2.1) j
        have hw := vals_fits hrow.cols
        have hjl : pkey (flag ix) cols j ++ tk (f :: rest) lv = flag ix ++ tk (avail ix) (jvals cols j ++ lv) := by
          rw [hav, tk_append (jvals_len cols j), pkey, List.append_assoc]
        have hjr : pkey (flag ix) cols j ++ tk (f :: rest) rv = flag ix ++ tk (avail ix) (jvals cols j ++ rv) := by
          rw [hav, tk_append (jvals_len cols j), pkey, List.append_assoc]
        have hfl : FitsCols (avail ix) (jvals cols j ++ lv) := by
          rw [hav]; exact fitsCols_append (jvals_len cols j) hvf hlf
        have hfr : FitsCols (avail ix) (jvals cols j ++ rv) := by
          rw [hav]; exact fitsCols_append (jvals_len cols j) hvf hrf
        have hoL : pkey (flag ix) cols j ++ tk (f :: rest) lv = [] → (uL && (m f.id).leftOpen) = false := by
          intro e
          cases hu : uL
          · rfl
          · exact absurd e (head_fits_ne hlf (hfull_ne _ _ (b1 hu) hheadL))
        have hoR : pkey (flag ix) cols j ++ tk (f :: rest) rv = [] → (uR && (m f.id).rightOpen) = false := by
          intro e
          cases hu : uR
          · rfl
          · exact absurd e (head_fits_ne hrf (hfull_ne _ _ (b2 hu) (fun hh => (hheadR hh).1)))
        have hor : (pkey (flag ix) cols j ++ tk (f :: rest) lv = [] ∨
            LeftOk (pkey (flag ix) cols j ++ tk (f :: rest) lv) (uL && (m f.id).leftOpen)
              (flag ix ++ tk (avail ix) (vals row (avail ix)))) ↔
            LeftOk (pkey (flag ix) cols j ++ tk (f :: rest) lv) (uL && (m f.id).leftOpen)
              (flag ix ++ tk (avail ix) (vals row (avail ix))) := by
          constructor
          · rintro (e | e)
            · rw [hoL e, e]
              simp [LeftOk, BLe]
              cases flag ix ++ tk (avail ix) (vals row (avail ix)) <;> simp [bcmp]
            · exact e
          · exact .inr
        rw [hor]
        rw [hjr] at hoR
        rw [hjl, hjr, left_key hfl hw (by rw [vals_len]; exact hfl.len), right_key hfr hw (by rw [vals_len]; exact hfr.len) _ hoR,
          matches_iff (fun c hc => hrow.cols c.f (hcav c hc))]
        have := bounds_split (w0 := vals row (flds cols)) (w := vals row (f :: rest)) (jv := jvals cols j) (lv := lv) (rv := rv)
          (by rw [jvals_len, vals_len]) (uL && (m f.id).leftOpen) (uR && (m f.id).rightOpen)
        rw [← vals_append, ← hav] at this
        exact this
      have hrng := finish_ranges (ix := ix) (s := s2) (k := rangeK f rest (m f.id) k1) hz
        (a := fun x => x ++ tk (f :: rest) lv) (b := fun x => x ++ tk (f :: rest) rv)
        (fun x y e => List.append_cancel_right e) (pairs_range h f (m f.id))
        (fun r => Reaches (finish ix s2 (rangeK f rest (m f.id) k1)) r (rowKey ix row))
      rw [hrng]
      simp only [hreach]
  · intro i hi
    rw [finish_cut] at hi
    rcases b5 i hi with hi | ⟨hu, rfl⟩ | ⟨hu, rfl⟩
    · obtain ⟨d, hd, hh⟩ := h.cut i hi
      exact ⟨d, hd, fun j hmj _ => hh row hrow j hmj⟩
    · obtain ⟨d, hd, hh⟩ := hls.2 hu
      exact ⟨d, hd, fun j _ hx => hh hx.1⟩
    · obtain ⟨d, hd, hh⟩ := hrs.2 hu
      exact ⟨d, hd, fun j _ hx => hh hx.2⟩

theorem prefix_step {t : PType} {v w : PbVal} (hv : Valid t v) (hw : Valid t w) (q y : Bytes) :
    ck t v ++ q <+: ck t w ++ y ↔ colCompare v w = .eq ∧ q <+: y := by
  have same : colCompare v w = .eq → ck t v = ck t w := by
    intro e
    have := ck_order hv hw [] []
    rw [e] at this
    simp only [List.append_nil, bcmp_self, Ordering.then] at this
    exact bcmp_eq_iff.1 this
  constructor
  · rintro ⟨z, hz⟩
    have := ck_order hv hw (q ++ z) y
    rw [← List.append_assoc, hz, bcmp_self] at this
    have he : colCompare v w = .eq := by
      cases hc : colCompare v w <;> rw [hc] at this <;> simp [Ordering.then] at this ⊢
    refine ⟨he, z, ?_⟩
    rw [← same he, List.append_assoc] at hz
    exact List.append_cancel_left hz
  · rintro ⟨he, h⟩
    rw [same he, List.prefix_append_right_inj]
    exact h

theorem prefix_fixed {fs : List FieldInfo} {vs ws : List PbVal} (hv : FitsCols fs vs) (hw : FitsCols fs ws)
    (h1 : vs.length = fs.length) (h2 : ws.length = fs.length) (q y : Bytes) :
    tk fs vs ++ q <+: tk fs ws ++ y ↔ tupleCompare vs ws = .eq ∧ q <+: y := by
  induction fs generalizing vs ws with
  | nil =>
    cases vs with
    | nil => simp [tk, tupleCompare_nil_left]
    | cons => simp at h1
  | cons f fs ih => cases vs with
    | nil => simp at h1
    | cons v vs => cases ws with
      | nil => simp at h2
      | cons w ws =>
        simp only [tk, List.append_assoc]
        rw [prefix_step hv.1 hw.1, ih hv.2 hw.2 (by simpa using h1) (by simpa using h2)]
        simp only [tupleCompare]
        cases colCompare v w <;> simp [Ordering.then]

include hcov hm in
theorem exact_like {f : FieldInfo} (hav : avail ix = flds cols ++ f :: rest) (h : Rel cs ix conds m (flag ix) cols s1 k1)
    (ht : (m f.id).type = .likePrefix) (hst : f.type = .string) (hin : s1.inPred = false) {row : Row}
    (hrow : RowOk cs ix row) :
    ExactFor cs ix conds
      (finish ix (stepPrefix f.id s1) (keyEq true f.type (m f.id) { k1 with cnt := k1.cnt + 1 })) row := by
  have hcav : ∀ c ∈ cols, c.f ∈ avail ix := by
    intro c hc; rw [hav]; exact List.mem_append_left _ (List.mem_map.2 ⟨c, hc, rfl⟩)
  have hfav : f ∈ avail ix := by rw [hav]; simp
  obtain ⟨i0, p, _, _, hcp, _, _, he⟩ := (hm.fok f.id).likePrefix ht
  have hq0 : 0#8 ∉ (hitIndex p).2.2 := hit_zero ((ok_at hcov hcp).2 p rfl).1
  obtain ⟨x, hx, hxv⟩ := hrow.cols f hfav
  obtain ⟨t, rfl, ht0⟩ := str_of_valid hxv hst
  obtain ⟨h2, h3, h4, h5, _⟩ : s1.inSize = 1 ∧ k1.recs = [] ∧ k1.left = pkey (flag ix) cols 0 ∧
      k1.right = pkey (flag ix) cols 0 ∧ (∀ c ∈ cols, c.vals.length = 1) := by
    rcases h.recs with ⟨_, h⟩ | ⟨h, _⟩
    · exact h
    · rw [hin] at h; cases h
  have hk : keyEq true f.type (m f.id) { k1 with cnt := k1.cnt + 1 } =
      { k1 with cnt := k1.cnt + 1, left := pkey (flag ix) cols 0 ++ (hitIndex p).2.2, right := pkey (flag ix) cols 0 ++ (hitIndex p).2.2 } := by
    unfold keyEq
    rw [ht]
    simp [h3, h4, h5, v0_one he, strOf, appendStringPrefix]
  rw [hk]
  have hz : ¬ ((stepPrefix f.id s1).leftCnt = 0 ∧ (stepPrefix f.id s1).rightCnt = 0) := by
    simp [stepPrefix, take]
  refine exact_of (cols := cols) ((hitIndex p).2.2 <+: t) s1.inSize ?_
    (fun hall => select hcov hm hrow hall hcav h) ?_ ?_
  · set L := pkey (flag ix) cols 0 ++ (hitIndex p).2.2 with hL
    have hrng := finish_ranges (ix := ix) (s := stepPrefix f.id s1) (k := { k1 with cnt := k1.cnt + 1, left := L, right := L }) hz
      (a := id) (b := id) (fun _ _ h => h) (N := 1) (K := fun _ => L) (by simp [pairs, h3])
      (fun r => Reaches (finish ix (stepPrefix f.id s1) { k1 with cnt := k1.cnt + 1, left := L, right := L }) r (rowKey ix row))
    rw [hrng, h2]
    have hreach : Reaches (finish ix (stepPrefix f.id s1) { k1 with cnt := k1.cnt + 1, left := L, right := L })
        (toRng ix (stepPrefix f.id s1) (L, L)) (rowKey ix row) ↔ L <+: rowKey ix row := by
      unfold Reaches
      rw [finish_tpl hz, C11_range_bounds _ _ (by intro t' e; cases e; rfl)]
      simp only [Option.elim_some, toRng, stepPrefix, take, Bool.false_eq_true, if_false, LeftOk, RightOk, true_and]
      constructor
      · rintro ⟨h1, h2⟩
        rcases h2 with h2 | h2 | h2
        · rw [h2]; exact List.nil_prefix
        · rcases h1 with h1 | h1
          · rw [h1]; exact List.nil_prefix
          · exact absurd h2 (not_BLt.2 h1)
        · exact h2
      · intro hp
        exact ⟨.inr (prefix_le hp), .inr (.inr hp)⟩
    have hpre : L <+: rowKey ix row ↔ Matches cols 0 row ∧ (hitIndex p).2.2 <+: t := by
      rw [rowKey_eq hrow, hL, pkey, List.append_assoc, List.prefix_append_right_inj, hav, vals_append,
        tk_append (by rw [vals_len])]
      have hvf := fits_cols h.valid (fun c hc => (h.div c hc).2.1) 0
      have hwf : FitsCols (flds cols) (vals row (flds cols)) :=
        vals_fits (fun g hg => hrow.cols g (by rw [hav]; exact List.mem_append_left _ hg))
      rw [prefix_fixed hvf hwf (jvals_len cols 0) (vals_len _ _), matches_iff (fun c hc => hrow.cols c.f (hcav c hc)),
        ← tupleCompare_swap (vals row (flds cols))]
      have hck : tk (f :: rest) (vals row (f :: rest)) = appendString [] t ++ tk rest (vals row rest) := by
        simp only [vals, List.map_cons, hx, Option.getD_some, tk, ck, app, hst, unionOf]
        rfl
      have := C04_like_prefix_bound_iff ht0 hq0 [] (tk rest (vals row rest))
      rw [← hck] at this
      simp only [appendStringPrefix, List.nil_append] at this
      rw [this]
      cases tupleCompare (vals row (flds cols)) (jvals cols 0) <;> simp
    constructor
    · rintro ⟨j, hj, hr⟩
      exact ⟨0, by omega, hpre.1 (hreach.1 hr)⟩
    · rintro ⟨j, hj, hr⟩
      have : j = 0 := by omega
      subst this
      exact ⟨0, by omega, hreach.2 (hpre.2 hr)⟩
  · intro hall
    obtain ⟨t', q, hx', hq, hl⟩ := hall _ (List.mem_iff_getElem?.2 ⟨_, hcp⟩)
    cases hq
    rw [hx] at hx'
    cases hx'
    obtain ⟨_, P, hP, _⟩ := (ok_at hcov hcp).2 p rfl
    obtain ⟨T, hT⟩ := hrow.text _ t hx
    exact C26_index_prefix hcov.charset hT hP hl
  · intro i hi
    rw [finish_cut] at hi
    obtain ⟨d, hd, hh⟩ := h.cut i hi
    exact ⟨d, hd, fun j hmj _ => hh row hrow j hmj⟩

end

end BaikalDB.Scan
