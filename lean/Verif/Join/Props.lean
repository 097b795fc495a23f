import Verif.Join.Filter
import Verif.Join.Hash
import Verif.Join.Nested
import Verif.Join.Semi
/-!
# C38: joins and correlated subqueries return the rows SQL defines
-/
namespace BaikalDB.Join
open BaikalDB.Expr (VTy EV)
open BaikalDB.Expr.Spec
open BaikalDB.Pred.Spec

variable {α β : Type}

/-- A join on column equalities `ps` and a residual condition `sat`. -/
structure Query (α β : Type) where
  E : Env
  bucket : List EV → Nat
  ps : List Pair
  okv : α → List EV
  ikv : β → List EV
  sat : α → β → Bool
  cap : Nat
  limit : Option Nat

/-- The ON clause. -/
def Query.on (q : Query α β) (o : α) (i : β) : Bool := keysEq (q.okv o) (q.ikv i) && q.sat o i

/-- How the node is configured when it joins by key. -/
def Query.cfg (q : Query α β) (ty : JTy) : Cfg α β where
  ty := ty
  okey o := encodeHashKey q.E (q.ps.map castTy) (q.okv o) []
  ikey i := encodeHashKey q.E (q.ps.map castTy) (q.ikv i) []
  sat := q.sat
  cap := q.cap
  limit := q.limit
  useHash := true

/-- The inner rows the IN filter built from the outer rows lets through. -/
def Query.fetched (q : Query α β) (outer : List α) (inner : List β) : List β :=
  inner.filter fun i => runtimeFilter q.E q.ps (equalValues q.bucket (outer.map q.okv)) (q.ikv i)

/-- What the theorems ask of the tables: column types that meet without loss, values of those types, outer NULLs that cannot
be mistaken for values. -/
structure Query.Ok (q : Query α β) (outer : List α) (inner : List β) : Prop where
  pairs : ∀ p ∈ q.ps, PairOk p
  left : ∀ o ∈ outer, RowOk (q.ps.map (·.oty)) (q.okv o)
  right : ∀ i ∈ inner, RowOk (q.ps.map (·.ity)) (q.ikv i)
  nulls : ∀ o ∈ outer, NullSafe q.ps (q.okv o)
  clash : NoClash q.bucket (outer.map q.okv)

theorem Query.Ok.sub {q : Query α β} {outer chunk : List α} {inner : List β} (h : q.Ok outer inner)
    (hs : ∀ o ∈ chunk, o ∈ outer) : q.Ok chunk inner where
  pairs := h.pairs
  left o ho := h.left o (hs o ho)
  right := h.right
  nulls o ho := h.nulls o (hs o ho)
  clash a ha b hb := by
    have : ∀ a, a ∈ chunk.map q.okv → a ∈ outer.map q.okv := by
      intro a ha
      obtain ⟨o, ho, rfl⟩ := List.mem_map.mp ha
      exact List.mem_map.mpr ⟨o, hs o ho, rfl⟩
    exact h.clash a (this a ha) b (this b hb)

/-- For an outer row, joining by key over the rows let through is the ON clause over all rows. -/
theorem Query.filter_eq {q : Query α β} {outer : List α} {inner : List β} (h : q.Ok outer inner) (ty : JTy) {o : α} (ho : o ∈ outer) :
    (q.fetched outer inner).filter (fun i => decide ((q.cfg ty).okey o = (q.cfg ty).ikey i) && (q.cfg ty).sat o i) =
      inner.filter (q.on o) := by
  have hne : outer.map q.okv ≠ [] := by
    intro e
    have := List.map_eq_nil_iff.mp e
    rw [this] at ho; simp at ho
  unfold fetched
  rw [List.filter_filter]
  apply List.filter_congr
  intro i hi
  simp only [cfg, on]
  have h1 : RowOk (q.ps.map (·.ity)) (q.ikv i) := h.right i hi
  have ho' : ∀ v ∈ outer.map q.okv, RowOk (q.ps.map (·.oty)) v := by
    intro v hv
    obtain ⟨o, ho, rfl⟩ := List.mem_map.mp hv
    exact h.left o ho
  cases hf : runtimeFilter q.E q.ps (equalValues q.bucket (outer.map q.okv)) (q.ikv i) with
  | true =>
    have hn := C38_filter_drops_null q.E q.bucket hne h1 hf
    have hk := C38_key_is_equality q.E h.pairs (h.left o ho) (rowGood_of h1 hn) (h.nulls o ho)
    rw [Bool.and_true]
    congr 1
    exact Bool.eq_iff_iff.mpr (Iff.trans decide_eq_true_iff hk)
  | false =>
    rw [Bool.and_false]
    cases hke : keysEq (q.okv o) (q.ikv i) with
    | false => simp
    | true =>
      rw [C38_filter_keeps_partners q.E q.bucket h.pairs ho' h.clash (List.mem_map.mpr ⟨o, ho, rfl⟩) h1 hke] at hf
      cases hf

theorem any_of_filter {γ : Type} {xs ys : List γ} {p p' : γ → Bool} (h : xs.filter p = ys.filter p') : xs.any p = ys.any p' := by
  rw [Bool.eq_iff_iff, List.any_eq_true, List.any_eq_true]
  constructor
  · rintro ⟨x, hx, hp⟩
    have : x ∈ xs.filter p := List.mem_filter.mpr ⟨hx, hp⟩
    rw [h] at this
    exact ⟨x, (List.mem_filter.mp this).1, (List.mem_filter.mp this).2⟩
  · rintro ⟨x, hx, hp⟩
    have : x ∈ ys.filter p' := List.mem_filter.mpr ⟨hx, hp⟩
    rw [← h] at this
    exact ⟨x, (List.mem_filter.mp this).1, (List.mem_filter.mp this).2⟩

theorem any_perm {γ : Type} {xs ys : List γ} {p : γ → Bool} (h : xs.Perm ys) : xs.any p = ys.any p := by
  rw [Bool.eq_iff_iff, List.any_eq_true, List.any_eq_true]
  simp only [h.mem_iff]

theorem flatMap_perm {γ δ : Type} {xs : List γ} {f g : γ → List δ} (h : ∀ x ∈ xs, (f x).Perm (g x)) : (xs.flatMap f).Perm (xs.flatMap g) := by
  induction xs with
  | nil => simp
  | cons x xs ih =>
    simp only [List.flatMap_cons]
    exact (h x (by simp)).append (ih fun y hy => h y (by simp [hy]))

/-! ## INNER JOIN -/

/-- **C38.** A hash INNER JOIN returns the pairs that satisfy the ON clause (or at least LIMIT many of them), whatever the
batches in which the inner rows arrive and the size of the output batches. -/
theorem C38_hash_inner {q : Query α β} {outer : List α} {inner : List β} (h : q.Ok outer inner) {batches : List (List β)}
    (hb : batches.flatten.Perm (q.fetched outer inner)) {bs : List (List (Row α β))}
    (hd : Drain (hiNext (q.cfg .inner) (buildMap (q.cfg .inner).okey outer)) ⟨batches, [], 0, 0⟩ bs) :
    Answers q.limit (sqlInner q.on outer inner) bs.flatten ∧ ∀ b ∈ bs, b.length ≤ q.cap := by
  have hc : (q.cfg .inner).ty = .inner := rfl
  refine ⟨(hi_refines hc _).answers trivial rfl (.inr trivial) ((hi_full hc outer batches).trans ?_) hd,
    hd.forall_batch fun s => hi_cap hc _ s⟩
  unfold sqlInner
  refine flatMap_perm fun o ho => ?_
  rw [← Query.filter_eq h .inner ho]
  exact (hb.filter _).map _

/-- The calls end. -/
theorem C38_hash_inner_ends (q : Query α β) (hcap : 0 < q.cap) (outer : List α) (batches : List (List β)) :
    ∃ bs, Drain (hiNext (q.cfg .inner) (buildMap (q.cfg .inner).okey outer)) ⟨batches, [], 0, 0⟩ bs :=
  (hi_refines (c := q.cfg .inner) rfl _).exists_drain hcap trivial

/-- **C38.** A nested-loop INNER JOIN without LIMIT returns the pairs that satisfy the ON clause, in order. -/
theorem C38_nested_inner {c : Cfg α β} (hc : c.ty = .inner) (hh : c.useHash = false) (hl : c.limit = none) (outer : List α)
    (inner : List β) {bs : List (List (Row α β))} (hd : Drain (nlNext c inner) ⟨outer, inner, 0⟩ bs) :
    bs.flatten = sqlInner c.sat outer inner := by
  obtain ⟨_, h | ⟨l, h, _⟩⟩ := (nl_refines hc hh inner).drain trivial hd
  · rw [h, nlRem_start]; rfl
  · rw [hl] at h; cases h

/-- With a LIMIT every row returned is one the query asks for, none twice too often; see
`C38_nested_inner_limit_counterexample` for what is missing. -/
theorem C38_nested_inner_limit_partial {c : Cfg α β} (hc : c.ty = .inner) (hh : c.useHash = false) (outer : List α)
    (inner : List β) {bs : List (List (Row α β))} (hd : Drain (nlNext c inner) ⟨outer, inner, 0⟩ bs) :
    bs.flatten <+: sqlInner c.sat outer inner := by
  have := ((nl_refines hc hh inner).drain trivial hd).1
  rwa [nlRem_start] at this

theorem C38_nested_inner_ends {c : Cfg α β} (hc : c.ty = .inner) (hh : c.useHash = false) (hcap : 0 < c.cap) (outer : List α)
    (inner : List β) : ∃ bs, Drain (nlNext c inner) ⟨outer, inner, 0⟩ bs := (nl_refines hc hh inner).exists_drain hcap trivial

/-! ## LEFT JOIN -/

theorem leftRows_perm {θ θ' : α → β → Bool} {xs ys zs : List β} (hp : xs.Perm ys) {o : α} (h : ys.filter (θ o) = zs.filter (θ' o)) :
    (leftRows θ xs o).Perm (leftRows θ' zs o) := by
  unfold leftRows
  rw [any_perm hp, any_of_filter h]
  split
  · rw [← h]; exact (hp.filter _).map _
  · exact .refl _

/-- **C38.** A hash LEFT JOIN whose other ON conditions hold on every pair with equal keys — in particular one with column
equalities only — returns what SQL defines.  `C38_hash_left_counterexample` is the other case. -/
theorem C38_hash_left_partial {q : Query α β} {outer : List α} {inner : List β} (h : q.Ok outer inner)
    (hres : ∀ o ∈ outer, ∀ i ∈ inner, keysEq (q.okv o) (q.ikv i) = true → q.sat o i = true) {rows : List β}
    (hb : rows.Perm (q.fetched outer inner)) {bs : List (List (Row α β))}
    (hd : Drain (hoNext (q.cfg .left) (buildMap (q.cfg .left).ikey rows)) ⟨outer, 0, 0⟩ bs) :
    Answers q.limit (sqlLeft q.on outer inner) bs.flatten ∧ ∀ b ∈ bs, b.length ≤ q.cap := by
  have hc : (q.cfg .left).ty = .left := rfl
  have hh : (q.cfg .left).useHash = true := rfl
  refine ⟨(ho_refines hc hh _).answers trivial rfl (.inr trivial) ?_ hd, hd.forall_batch fun s => ho_cap hc hh _ s⟩
  rw [hoRem_zero]
  refine flatMap_perm fun o ho => ?_
  rw [hoRow_eq hc hh]
  · exact leftRows_perm hb (Query.filter_eq h .left ho)
  · intro i hi hk
    have hi' := hb.mem_iff.mp hi
    obtain ⟨hin, hf⟩ := List.mem_filter.mp hi'
    have hne : outer.map q.okv ≠ [] := by
      intro e
      have := List.map_eq_nil_iff.mp e
      rw [this] at ho; simp at ho
    have hn := C38_filter_drops_null q.E q.bucket hne (h.right i hin) hf
    exact hres o ho i hin ((C38_key_is_equality q.E h.pairs (h.left o ho) (rowGood_of (h.right i hin) hn) (h.nulls o ho)).mp hk)

theorem C38_hash_left_ends (q : Query α β) (hcap : 0 < q.cap) (outer : List α) (rows : List β) :
    ∃ bs, Drain (hoNext (q.cfg .left) (buildMap (q.cfg .left).ikey rows)) ⟨outer, 0, 0⟩ bs :=
  (ho_refines (c := q.cfg .left) rfl rfl _).exists_drain hcap trivial

/-- **C38.** A nested-loop LEFT JOIN without LIMIT returns what SQL defines as long as the result is smaller than a batch.
`C38_nested_left_counterexample` is the other case. -/
theorem C38_nested_left_partial {c : Cfg α β} (hc : c.ty = .left) (hh : c.useHash = false) (hl : c.limit = none) (outer : List α)
    (inner : List β) (hcap : (sqlLeft c.sat outer inner).length < c.cap) :
    Drain (nlNext c inner) ⟨outer, inner, 0⟩ [sqlLeft c.sat outer inner] := by
  refine .last ?_
  have := nlLoop_left hc hh hl inner outer [] 0 (by simpa using hcap)
  simpa [nlNext] using this

/-! ## Subqueries -/

theorem Answers.map {ρ τ : Type} {limit : Option Nat} {all got : List ρ} {want : List τ} (f : ρ → τ) (hp : (all.map f).Perm want)
    (h1 : got <+: all) (h2 : got = all ∨ ∃ l, limit = some l ∧ l ≤ got.length) : Answers limit want (got.map f) := by
  refine ⟨all.map f, hp, h1.map f, ?_⟩
  rcases h2 with rfl | ⟨l, h, h'⟩
  · exact .inl rfl
  · exact .inr ⟨l, h, by simpa using h'⟩

/-- **C38.** `WHERE EXISTS (…)` / `IN (SELECT …)` executed with a hash map over the outer rows keeps each outer row that has a
partner, once. -/
theorem C38_semi_hash {q : Query α β} {outer : List α} {inner : List β} (h : q.Ok outer inner) {batches : List (List β)}
    (hb : batches.flatten.Perm (q.fetched outer inner)) {bs : List (List (Row α β))}
    (hd : Drain (semiNext (q.cfg .semi)) ⟨buildMap (q.cfg .semi).okey outer, batches, [], 0⟩ bs) :
    Answers q.limit (sqlSemi q.on (fun _ => inner) outer) (bs.flatten.map Prod.fst) ∧ ∀ b ∈ bs, b.length ≤ q.cap := by
  have hc : (q.cfg .semi).ty = .semi := rfl
  obtain ⟨h1, h2⟩ := (semi_refines hc).drain trivial hd
  refine ⟨Answers.map (f := Prod.fst) ?_ h1 ?_, hd.forall_batch fun s => semi_cap hc s⟩
  · refine (semiRem_build outer _).trans (.of_eq ?_)
    unfold sqlSemi
    refine List.filter_congr fun o ho => ?_
    rw [List.nil_append, any_perm hb]
    exact any_of_filter (Query.filter_eq h .semi ho)
  · rcases h2 with h2 | ⟨l, hl, h3⟩
    · exact .inl h2
    · exact .inr ⟨l, hl, by simpa using h3 trivial⟩

theorem C38_semi_hash_ends (q : Query α β) (hcap : 0 < q.cap) (m : HMap α) (batches : List (List β)) :
    ∃ bs, Drain (semiNext (q.cfg .semi)) ⟨m, batches, [], 0⟩ bs :=
  (semi_refines (c := q.cfg .semi) rfl).exists_drain hcap trivial

/-- **C38.** The same when a LIMIT above makes the node work through the outer rows in growing chunks, fetching inner rows for
each chunk. -/
theorem C38_semi_chunks {q : Query α β} {outer : List α} {inner : List β} (h : q.Ok outer inner) {plimit : Nat} (hp : 0 < plimit)
    {bs : List (List (Row α β))}
    (hd : Drain (loopNext (q.cfg .semi) (fun chunk => q.fetched chunk inner) plimit) ⟨[], [], outer, 0, 0⟩ bs) :
    Answers q.limit (sqlSemi q.on (fun _ => inner) outer) (bs.flatten.map Prod.fst) := by
  have hc : (q.cfg .semi).ty = .semi := rfl
  obtain ⟨h1, h2⟩ := loop_drain hc _ hp hd
  refine Answers.map (f := Prod.fst) ?_ h1 ?_
  · simp only [loopAll, semiRem, List.nil_append]
    refine (loopRem_perm _ hp (fun o => inner.any (q.on o)) outer ?_ _ outer (fun _ h => h) (Nat.le_refl _) 0).trans (.of_eq rfl)
    intro chunk hs o ho
    exact any_of_filter (Query.filter_eq (h.sub hs) .semi ho)
  · rcases h2 with h2 | ⟨l, hl, h3⟩
    · exact .inl h2
    · exact .inr ⟨l, hl, by simpa using h3⟩

theorem C38_semi_chunks_ends (q : Query α β) (hcap : 0 < q.cap) {plimit : Nat} (hp : 0 < plimit) (fetch : List α → List β)
    (outer : List α) : ∃ bs, Drain (loopNext (q.cfg .semi) fetch plimit) ⟨[], [], outer, 0, 0⟩ bs :=
  loop_exists (c := q.cfg .semi) rfl fetch hp hcap _

/-- **C38.** `WHERE NOT EXISTS (…)` executed with a hash map over the inner rows keeps each outer row without a partner. -/
theorem C38_anti_hash {q : Query α β} {outer : List α} {inner : List β} (h : q.Ok outer inner) {rows : List β}
    (hb : rows.Perm (q.fetched outer inner)) {bs : List (List (Row α β))}
    (hd : Drain (ahNext (q.cfg .anti) (buildMap (q.cfg .anti).ikey rows)) ⟨outer, 0, 0⟩ bs) :
    Answers q.limit ((sqlAnti q.on (fun _ => inner) outer).map fun o => (o, none)) bs.flatten := by
  have hc : (q.cfg .anti).ty = .anti := rfl
  have hnl : (q.cfg .anti).ty = .left → False := by rw [hc]; simp
  refine (ah_refines (.inl hc) _).answers ⟨fun e => (hnl e).elim, fun e => (hnl e).elim⟩ rfl (.inr trivial) ?_ hd
  rw [ahRem_zero]
  unfold sqlAnti
  rw [filter_eq_flatMap, List.map_flatMap]
  refine .of_eq ?_
  rw [List.flatMap_def, List.flatMap_def]
  congr 1
  refine List.map_congr_left fun o ho => ?_
  have hany := any_of_filter (Query.filter_eq h .anti ho)
  rw [← any_perm hb] at hany
  simp only [ahRow, seek_build, hc]
  by_cases he : bucket (q.cfg .anti).ikey rows ((q.cfg .anti).okey o) = []
  · have : rows.any (fun i => decide ((q.cfg .anti).okey o = (q.cfg .anti).ikey i) && (q.cfg .anti).sat o i) = false := by
      rw [List.any_eq_false]
      intro i hi hk
      have : i ∈ bucket (q.cfg .anti).ikey rows ((q.cfg .anti).okey o) := by
        simp only [Bool.and_eq_true, decide_eq_true_eq] at hk
        exact List.mem_filter.mpr ⟨hi, by simp [hk.1]⟩
      rw [he] at this; simp at this
    rw [← hany, this, he]; simp
  · have : (bucket (q.cfg .anti).ikey rows ((q.cfg .anti).okey o)).any ((q.cfg .anti).sat o) = inner.any (q.on o) := by
      rw [← hany, bucket, List.any_filter]
      congr 1
      funext i
      congr 1
      exact decide_eq_decide.mpr eq_comm
    rw [if_neg he]
    simp only [List.drop_zero, this]
    cases inner.any (q.on o) <;> simp

theorem C38_anti_hash_ends (q : Query α β) (hcap : 0 < q.cap) (m : HMap β) (outer : List α) :
    ∃ bs, Drain (ahNext (q.cfg .anti) m) ⟨outer, 0, 0⟩ bs :=
  (ah_refines (c := q.cfg .anti) (.inl rfl) m).exists_drain hcap
    ⟨fun e => (nomatch e), fun e => (nomatch e)⟩

/-- **C38.** One outer row of a correlated subquery against its bucket, whatever the residual condition: when the scan
neither stops at the limit nor at a full batch, the row counts as matched exactly when one of the inner rows satisfies the
condition, so the row completed with NULL is added after the scan exactly when none does. -/
theorem C38_apply_matched (c : Cfg α β) (o : α) (is : List β) (idx : Nat) (has : Bool) (out : List (Row α β)) (num : Nat)
    (h : (applyScan c o is idx has out num).1.stop = none) :
    (applyScan c o is idx has out num).2 = (has || is.any (c.sat o)) := by
  have hsat : ∀ i, (construct c o i).2 = c.sat o i := by
    intro i
    unfold construct
    cases c.ty <;> simp only <;> (repeat' split) <;> simp_all
  induction is generalizing idx has out num with
  | nil => simp [applyScan]
  | cons i is ih =>
    unfold applyScan at h ⊢
    split at h
    · cases h
    · rename_i h1
      rw [if_neg h1]
      split at h
      · cases h
      · rename_i h2
        rw [if_neg h2]
        simp only [hsat] at h ⊢
        split at h
        · rename_i h3
          rw [if_pos h3]
          simp only [Bool.and_eq_true] at h3
          simp [h3.1]
        · rename_i h3
          rw [if_neg h3]
          rw [ih _ _ _ _ h]
          simp [Bool.or_assoc]

/-- **C38.** A scalar subquery joined through the inner hash map whose conditions are column equalities only: each outer row
with its rows, or with NULL. `C38_apply_left_counterexample` is the other case. -/
theorem C38_apply_left_hash_partial {q : Query α β} {outer : List α} {inner : List β} (h : q.Ok outer inner)
    (hres : ∀ o i, q.sat o i = true) {rows : List β} (hb : rows.Perm (q.fetched outer inner)) {bs : List (List (Row α β))}
    (hd : Drain (ahNext (q.cfg .left) (buildMap (q.cfg .left).ikey rows)) ⟨outer, 0, 0⟩ bs) :
    Answers q.limit (sqlLeft q.on outer inner) bs.flatten := by
  have hc : (q.cfg .left).ty = .left := rfl
  have hseek : ∀ o is, (buildMap (q.cfg .left).ikey rows).seek ((q.cfg .left).okey o) = some is → is ≠ [] := by
    intro o is hs
    rw [seek_build] at hs
    split at hs
    · cases hs
    · rename_i hne
      exact Option.some.inj hs ▸ hne
  refine (ah_refines (.inr hc) _).answers ⟨fun _ o _ is hs => ⟨hseek o is hs, fun i _ => hres o i⟩, fun _ o _ is hs => ?_⟩ rfl
    (.inr trivial) ?_ hd
  · exact List.length_pos_iff.mpr (hseek o is hs)
  · rw [ahRem_zero]
    refine flatMap_perm fun o ho => ?_
    refine .trans (.of_eq ?_) (leftRows_perm (θ := fun o i => decide ((q.cfg .left).okey o = (q.cfg .left).ikey i) && (q.cfg .left).sat o i)
      hb (Query.filter_eq h .left ho))
    simp only [ahRow, seek_build, hc]
    have e : rows.filter (fun i => decide ((q.cfg .left).okey o = (q.cfg .left).ikey i) && (q.cfg .left).sat o i) =
        bucket (q.cfg .left).ikey rows ((q.cfg .left).okey o) := by
      unfold bucket
      refine List.filter_congr fun i _ => ?_
      rw [show (q.cfg .left).sat o i = true from hres o i, Bool.and_true]
      exact decide_eq_decide.mpr eq_comm
    unfold leftRows
    by_cases he : bucket (q.cfg .left).ikey rows ((q.cfg .left).okey o) = []
    · rw [if_pos he, if_neg]
      rw [Bool.not_eq_true, ← Bool.not_eq_true, List.any_eq_true]
      rintro ⟨i, hi, hk⟩
      have : i ∈ rows.filter (fun i => decide ((q.cfg .left).okey o = (q.cfg .left).ikey i) && (q.cfg .left).sat o i) :=
        List.mem_filter.mpr ⟨hi, hk⟩
      rw [e, he] at this
      simp at this
    · rw [if_neg he, if_pos, e]
      · simp
      · obtain ⟨i, hi⟩ := List.exists_mem_of_ne_nil _ he
        rw [← e] at hi
        exact List.any_eq_true.mpr ⟨i, (List.mem_filter.mp hi).1, (List.mem_filter.mp hi).2⟩

/-- **C38.** Nested execution, the subquery run for each outer row: SEMI keeps each outer row whose subquery returns a row that
satisfies the condition, once. -/
theorem C38_semi_nested {c : Cfg α β} (hc : c.ty = .semi) (sub : α → List β) (outer : List α) {bs : List (List (Row α β))}
    (hd : Drain (anNext c sub) ⟨outer, [], 0⟩ bs) : Answers c.limit (sqlSemi c.sat sub outer) (bs.flatten.map Prod.fst) := by
  have hnl : c.ty = .left → False := by rw [hc]; simp
  obtain ⟨h1, h2⟩ := (an_refines (.inl hc) sub fun e => (hnl e).elim).drain (fun e => (hnl e).elim) hd
  refine Answers.map (f := Prod.fst) ?_ h1 ?_
  · rw [anRem_start]
    unfold sqlSemi
    rw [filter_eq_flatMap, List.map_flatMap]
    refine .of_eq ?_
    rw [List.flatMap_def, List.flatMap_def]
    congr 1
    refine List.map_congr_left fun o _ => ?_
    simp only [anRow, hc]
    cases hf : (sub o).find? (c.sat o) with
    | none =>
      have : (sub o).any (c.sat o) = false := by
        rw [List.any_eq_false]
        intro i hi
        simpa using List.find?_eq_none.mp hf i hi
      simp [this]
    | some i =>
      have : (sub o).any (c.sat o) = true :=
        List.any_eq_true.mpr ⟨i, List.mem_of_find?_eq_some hf, List.find?_some hf⟩
      simp [this]
  · rcases h2 with h2 | ⟨l, hl, h3⟩
    · exact .inl h2
    · exact .inr ⟨l, hl, by simpa using h3 trivial⟩

/-- **C38.** ANTI keeps each outer row whose subquery returns no row that satisfies the condition. -/
theorem C38_anti_nested {c : Cfg α β} (hc : c.ty = .anti) (sub : α → List β) (outer : List α) {bs : List (List (Row α β))}
    (hd : Drain (anNext c sub) ⟨outer, [], 0⟩ bs) :
    Answers c.limit ((sqlAnti c.sat sub outer).map fun o => (o, none)) bs.flatten := by
  have hnl : c.ty = .left → False := by rw [hc]; simp
  refine (an_refines (.inr (.inl hc)) sub fun e => (hnl e).elim).answers (fun e => (hnl e).elim) rfl (.inr trivial) ?_ hd
  rw [anRem_start]
  unfold sqlAnti
  rw [filter_eq_flatMap, List.map_flatMap]
  refine .of_eq ?_
  rw [List.flatMap_def, List.flatMap_def]
  congr 1
  refine List.map_congr_left fun o _ => ?_
  simp only [anRow, hc]
  cases (sub o).any (c.sat o) <;> simp

/-- **C38.** A scalar subquery, which returns at most one row: the outer row with that row, or with NULL. -/
theorem C38_scalar_nested {c : Cfg α β} (hc : c.ty = .left) (hh : c.useHash = false) (sub : α → List β)
    (hone : ∀ o, (sub o).length ≤ 1) (outer : List α) {bs : List (List (Row α β))} (hd : Drain (anNext c sub) ⟨outer, [], 0⟩ bs) :
    Answers c.limit (outer.flatMap fun o => leftRows c.sat (sub o) o) bs.flatten := by
  refine (an_refines (.inr (.inr ⟨hc, hh⟩)) sub fun _ => hone).answers (fun _ => by simp) rfl (.inr trivial) ?_ hd
  rw [anRem_start]
  simp only [anRow, hc]
  exact .refl _

theorem C38_nested_apply_ends {c : Cfg α β} (hc : c.ty = .semi ∨ c.ty = .anti ∨ (c.ty = .left ∧ c.useHash = false)) (hcap : 0 < c.cap)
    (sub : α → List β) (hone : c.ty = .left → ∀ o, (sub o).length ≤ 1) (outer : List α) :
    ∃ bs, Drain (anNext c sub) ⟨outer, [], 0⟩ bs := (an_refines hc sub hone).exists_drain hcap fun _ => by simp

end BaikalDB.Join
