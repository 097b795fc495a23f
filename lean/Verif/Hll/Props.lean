import Verif.Hll.Size

/-!
C73: a HyperLogLog sketch depends on the set of values alone.

A sketch has, in each of its encodings and after any sequence of operations, the registers of the set of
hashes that went in; so the estimate is the same whatever the order, the repetitions, the encodings and the
way in which the rows were split over regions and merged.
-/

namespace BaikalDB.Hll

/-- The histogram of registers that are all zero. -/
theorem zero_histogram (n : Nat) : Histogram (List.replicate n 0) (n :: List.replicate 63 0) := by
  refine ⟨by simp, fun k hk => ?_⟩
  cases k with
  | zero => simp
  | succ k =>
    rw [List.getD_cons_succ, List.getD_eq_getElem?_getD, List.getElem?_replicate, if_pos (by omega),
      List.count_replicate]
    simp

/-- What holds of every sketch that is built. -/
structure Inv (c : Cfg) (est : List Nat → Nat) (h : Sketch) (s : List Nat) : Prop where
  valid : Valid c h.body
  sketch : SketchOf c s (regs c h.body)
  cache : ∀ x g, h.cache = some x → Histogram (regs c h.body) g → x = est g

theorem inv_zero {c : Cfg} {est : List Nat → Nat} (hest : est (2 ^ c.p :: List.replicate 63 0) = 0)
    {h : Sketch} (hv : Valid c h.body) (hr : regs c h.body = List.replicate c.n 0) (hc : h.cache = some 0) :
    Inv c est h [] := by
  refine ⟨hv, by rw [hr]; exact sketchOf_nil c, fun x g hx hg => ?_⟩
  rw [hc] at hx
  cases hx
  rw [hr] at hg
  rw [histogram_unique hg (zero_histogram c.n)]
  exact hest.symm

theorem built_inv {c : Cfg} (hc : c.Ok) {est : List Nat → Nat}
    (hest : est (2 ^ c.p :: List.replicate 63 0) = 0) {h : Sketch} {s : List Nat} (hb : Built c est h s) :
    Inv c est h s := by
  induction hb with
  | init => exact inv_zero hest (init_valid hc) (init_regs c) rfl
  | rawInit => exact inv_zero hest (rawInit_valid c) rfl rfl
  | @add h h' s x _ _ he ih =>
    obtain ⟨h2, e, f1, f2, f3⟩ := add_facts hc ih.valid x
    rw [e] at he
    cases he
    refine ⟨f1, by rw [f2]; exact sketchOf_add hc ih.sketch x, fun y g hy hg => ?_⟩
    rcases f3 with rfl | f3
    · exact ih.cache y g hy hg
    · rw [f3] at hy; cases hy
  | @mergeAgg h1 h2 h' s1 s2 _ _ hok he ih1 ih2 =>
    obtain ⟨h3, e, f1, f2, f3⟩ := mergeAgg_facts ih1.valid ih2.valid hok
    rw [e] at he
    cases he
    exact ⟨f1, by rw [f2]; exact sketchOf_lub ih1.sketch ih2.sketch, fun y g hy => by rw [f3] at hy; cases hy⟩
  | @merge h1 h2 h' s1 s2 _ _ hok he ih1 ih2 =>
    obtain ⟨h3, e, f1, f2, f3⟩ := merge_facts ih1.valid ih2.valid hok
    rw [e] at he
    cases he
    exact ⟨f1, by rw [f2]; exact sketchOf_lub ih1.sketch ih2.sketch, fun y g hy => by rw [f3] at hy; cases hy⟩
  | @toDense h h' s _ he ih =>
    obtain ⟨b, e, f1, f2⟩ := toDense_facts ih.valid
    rw [e] at he
    cases he
    exact ⟨f1, by rw [f2]; exact ih.sketch, fun y g hy hg => ih.cache y g hy (by rw [f2] at hg; exact hg)⟩
  | @rawToSparse h s _ ih =>
    obtain ⟨f1, f2, _, f4⟩ := rawToSparse_facts hc ih.valid
    refine ⟨f1, by rw [f2]; exact ih.sketch, fun y g hy hg => ?_⟩
    rcases f4 with f4 | f4 | f4
    · rw [f4] at hy hg
      exact ih.cache y g hy hg
    · rw [f4] at hy; cases hy
    · rw [f4] at hy hg
      exact (inv_zero hest (init_valid hc) (init_regs c) rfl).cache y g hy hg
  | @estimate h s _ ih =>
    unfold estimate
    cases hx : h.cache with
    | some x =>
      dsimp only
      exact ih
    | none =>
      refine ⟨ih.valid, ih.sketch, fun y g hy hg => ?_⟩
      cases hy
      rw [histogram_unique hg (histo_facts hc ih.valid)]

/-- The registers that a sketch has, read by the merge functions, are those of the hashes that went in. -/
theorem C73_registers {c : Cfg} (hc : c.Ok) {est : List Nat → Nat}
    (hest : est (2 ^ c.p :: List.replicate 63 0) = 0) {h : Sketch} {s : List Nat} (hb : Built c est h s) :
    ∃ r, readRegs c h.body = some r ∧ SketchOf c s r :=
  have hi := built_inv hc hest hb
  ⟨_, readRegs_eq hi.valid, hi.sketch⟩

/-- The estimate, cached or not, is that of the histogram of the registers of the hashes that went in. -/
theorem C73_estimate {c : Cfg} (hc : c.Ok) {est : List Nat → Nat}
    (hest : est (2 ^ c.p :: List.replicate 63 0) = 0) {h : Sketch} {s : List Nat} (hb : Built c est h s) :
    (∃ r g, SketchOf c s r ∧ Histogram r g) ∧
      ∀ r g, SketchOf c s r → Histogram r g → (estimate est h).1 = est g := by
  have hi := built_inv hc hest hb
  refine ⟨⟨_, _, hi.sketch, histo_facts hc hi.valid⟩, fun r g hr hg => ?_⟩
  rw [sketchOf_unique (fun _ => Iff.rfl) hr hi.sketch] at hg
  unfold estimate
  cases hx : h.cache with
  | some x => exact hi.cache x g hx hg
  | none =>
    dsimp only
    rw [histogram_unique hg (histo_facts hc hi.valid)]

/-- Two sketches of the same hashes have the same estimate: the order, the repetitions, the encodings and
the merges do not matter. -/
theorem C73_same {c : Cfg} (hc : c.Ok) {est : List Nat → Nat}
    (hest : est (2 ^ c.p :: List.replicate 63 0) = 0) {h1 h2 : Sketch} {s1 s2 : List Nat}
    (b1 : Built c est h1 s1) (b2 : Built c est h2 s2) (hs : ∀ x, x ∈ s1 ↔ x ∈ s2) :
    (estimate est h1).1 = (estimate est h2).1 := by
  obtain ⟨⟨r1, g1, hr1, hg1⟩, e1⟩ := C73_estimate hc hest b1
  obtain ⟨⟨r2, g2, hr2, hg2⟩, e2⟩ := C73_estimate hc hest b2
  rw [e1 r1 g1 hr1 hg1, e2 r2 g2 hr2 hg2]
  rw [sketchOf_unique hs hr1 hr2] at hg1
  rw [histogram_unique hg1 hg2]

/-- No operation on sketches that were built fails. -/
theorem C73_total {c : Cfg} (hc : c.Ok) {est : List Nat → Nat}
    (hest : est (2 ^ c.p :: List.replicate 63 0) = 0) {h1 h2 : Sketch} {s1 s2 : List Nat}
    (b1 : Built c est h1 s1) (b2 : Built c est h2 s2) :
    (∀ x, ∃ h, add c h1 x = some h) ∧ (∃ h, toDense c h1 = some h) ∧
      (((∃ r, h1.body = .raw r) ∨ ∀ r, h2.body ≠ .raw r) → ∃ h, mergeAgg c h1 h2 = .ok h) ∧
      (((∀ r, h1.body ≠ .raw r) ∨ ∃ b, h2.body = .dense b) → ∃ h, merge c h1 h2 = .ok h) := by
  have i1 := built_inv hc hest b1
  have i2 := built_inv hc hest b2
  refine ⟨fun x => ?_, ?_, fun hok => ?_, fun hok => ?_⟩
  · obtain ⟨h, e, _⟩ := add_facts hc i1.valid x
    exact ⟨h, e⟩
  · obtain ⟨b, e, _⟩ := toDense_facts i1.valid
    exact ⟨_, e⟩
  · obtain ⟨h, e, _⟩ := mergeAgg_facts i1.valid i2.valid hok
    exact ⟨h, e⟩
  · obtain ⟨h, e, _⟩ := merge_facts i1.valid i2.valid hok
    exact ⟨h, e⟩

/-- The bytes of a sparse sketch read back as its opcodes. -/
theorem C73_codec {c : Cfg} (hc : c.Ok) {est : List Nat → Nat}
    (hest : est (2 ^ c.p :: List.replicate 63 0) = 0) {h : Sketch} {s : List Nat} {l : List Opc}
    (hb : Built c est h s) (hl : h.body = .sparse l) :
    (∀ x ∈ l.flatMap Opc.encode, x < 256) ∧ (l.flatMap Opc.encode).length = size l ∧
      decodeAll (size l) (l.flatMap Opc.encode) = l := by
  have hv := (built_inv hc hest hb).valid
  rw [hl] at hv
  refine ⟨fun x hx => ?_, size_bytes l hv.1, decodeAll_encode l hv.1 _ (length_le_size l)⟩
  obtain ⟨o, ho, hx⟩ := List.mem_flatMap.1 hx
  exact (encode_bytes (hv.1 o ho)).1 x hx

/-- A sparse sketch never has more bytes than the limit, and the other encodings have a fixed size. -/
theorem C73_size {c : Cfg} (hc : c.Ok) (hm : 18 ≤ c.maxBytes) {est : List Nat → Nat}
    (hest : est (2 ^ c.p :: List.replicate 63 0) = 0) {h : Sketch} {s : List Nat} (hb : Built c est h s) :
    (∀ l, h.body = .sparse l → hdrSize + size l ≤ c.maxBytes) ∧
      (∀ b, h.body = .dense b → b.length = 2 ^ c.p * 6 / 8) ∧ ∀ b, h.body = .raw b → b.length = 2 ^ c.p := by
  have hi := built_inv hc hest hb
  refine ⟨?_, ?_, ?_⟩
  · change Small c h.body
    have hinit : Small c (init c).body := by
      intro l hl
      simp only [init, Body.sparse.injEq] at hl
      subst hl
      simp only [hdrSize, size, List.map_cons, List.map_nil, Opc.bytes, List.sum_cons, List.sum_nil]
      omega
    clear hi
    induction hb with
    | init => exact hinit
    | rawInit => intro l hl; cases hl
    | @add h h' s x hbb _ he ih =>
      have hv := (built_inv hc hest hbb).valid
      unfold add at he
      dsimp only at he
      cases hbd : h.body with
      | dense b =>
        rw [hbd] at he
        dsimp only at he
        split at he <;> cases he
        · intro l hl; cases hl
        · intro l hl; rw [hbd] at hl; cases hl
      | sparse l =>
        rw [hbd] at he hv
        exact sparseSet_small hbd ih hv.2 (index_lt c x) he
      | raw r =>
        rw [hbd] at he
        dsimp only at he
        split at he <;> cases he
        · intro l hl; cases hl
        · intro l hl; rw [hbd] at hl; cases hl
    | @mergeAgg h1 h2 h' s1 s2 _ _ _ he _ _ =>
      unfold mergeAgg at he
      cases hfirst : aggStart c h1 with
      | none => rw [hfirst] at he; cases he
      | some f =>
        rw [hfirst] at he
        dsimp only at he
        cases hr : readRegs c h2.body with
        | none => rw [hr] at he; cases he
        | some vs =>
          rw [hr] at he
          dsimp only at he
          split at he <;> first | (cases he; intro l hl; cases hl) | cases he
    | @merge h1 h2 h' s1 s2 bb1 bb2 hok he ih1 ih2 =>
      have v1 := (built_inv hc hest bb1).valid
      have v2 := (built_inv hc hest bb2).valid
      have hmax : rawMaxAll (regs c h2.body) (rawMaxAll (regs c h1.body) (List.replicate c.n 0) 0) 0 =
          lub (regs c h1.body) (regs c h2.body) := by
        rw [rawMaxAll_eq, rawMaxAll_eq, updAll_zeros (regs_length v1), lub]
      have hml : (lub (regs c h1.body) (regs c h2.body)).length = c.n := by
        rw [lub, updAll_length, regs_length v1]
      have fin : ∀ st : Sketch, Valid c st.body → (∀ r, st.body ≠ .raw r) → Small c st.body →
          Small c (setAll c (lub (regs c h1.body) (regs c h2.body)) st 0).body :=
        fun st s1 s2 s3 => setAll_small _ st 0 s1 s2 s3 (lub_lt (regs_lt v1) (regs_lt v2))
          (by rw [hml]; omega)
      obtain ⟨b, t1, t2, _⟩ := toDense_facts v1
      have d := fin ⟨.dense b, h1.cache⟩ t2 (by simp) (by intro l hl; cases hl)
      unfold merge at he
      rw [readRegs_eq v1, readRegs_eq v2] at he
      dsimp only at he
      rw [hmax, t1] at he
      split at he
      · cases he
      · rename_i st hst
        split at hst
        · cases hst
          cases he
          exact d
        · rename_i hnd
          cases hst
          cases he
          refine fin h1 v1 (fun r hr => ?_) ih1
          rcases hok with hok | ⟨b2, hb2⟩
          · exact hok r hr
          · rw [hb2] at hnd
            simp [Body.isDense] at hnd
    | @toDense h h' s hbb he ih =>
      obtain ⟨b, e, _⟩ := toDense_facts (built_inv hc hest hbb).valid
      rw [e] at he
      cases he
      intro l hl
      cases hl
    | @rawToSparse h s hbb ih =>
      have hv := (built_inv hc hest hbb).valid
      unfold rawToSparse
      cases hbd : h.body with
      | dense b => exact ih
      | sparse l => exact ih
      | raw r =>
        rw [hbd] at hv
        have hr : r.take c.n = r := List.take_of_length_le (Nat.le_of_eq hv.1)
        dsimp only
        rw [hr]
        exact setAll_small r (init c) 0 (init_valid hc) (by simp [init]) hinit hv.2 (by rw [hv.1]; omega)
    | @estimate h s _ ih =>
      unfold estimate
      cases h.cache <;> exact ih
  · intro b hbd
    have hv := hi.valid
    rw [hbd] at hv
    rw [hv.2, denseLen]
    have hn : c.n = 4 * 2 ^ (c.p - 2) := by
      have h2 := hc.1
      unfold Cfg.n
      rw [show (4:Nat) = 2 ^ 2 from rfl, ← Nat.pow_add]
      congr 1
      omega
    have hn' : 2 ^ c.p = 4 * 2 ^ (c.p - 2) := hn
    rw [hn, hn']
    omega
  · intro b hbd
    have hv := hi.valid
    rw [hbd] at hv
    exact hv.1

/-! ### SQL functions -/

theorem foldl_addArg {c : Cfg} (hc : c.Ok) {est : List Nat → Nat}
    (hest : est (2 ^ c.p :: List.replicate 63 0) = 0) (args : List (Option Nat))
    (ha : ∀ x, some x ∈ args → x < 2 ^ 64) {h : Sketch} {s : List Nat} (hb : Built c est h s) :
    ∃ s', Built c est (args.foldl (addArg c) h) s' ∧ ∀ x, x ∈ s' ↔ x ∈ s ∨ some x ∈ args := by
  induction args generalizing h s with
  | nil => exact ⟨s, hb, by simp⟩
  | cons a rest ih =>
    have ha' : ∀ x, some x ∈ rest → x < 2 ^ 64 := fun x hx => ha x (by simp [hx])
    cases a with
    | none =>
      obtain ⟨s', h1, h2⟩ := ih ha' hb
      exact ⟨s', h1, fun x => by rw [h2]; simp⟩
    | some y =>
      obtain ⟨h', e, _⟩ := add_facts hc (built_inv hc hest hb).valid y
      obtain ⟨s', h1, h2⟩ := ih ha' (Built.add hb (ha y (by simp)) e)
      refine ⟨s', ?_, fun x => ?_⟩
      · rw [List.foldl_cons, addArg, e]
        exact h1
      · rw [h2]
        simp only [List.mem_cons, Option.some.injEq]
        tauto

/-- `HLL_INIT`, `HLL_ADD` and `HLL_ADD_AGG` make the sketch of the arguments that are not NULL. -/
theorem C73_values {c : Cfg} (hc : c.Ok) {est : List Nat → Nat}
    (hest : est (2 ^ c.p :: List.replicate 63 0) = 0) (args : List (Option Nat))
    (ha : ∀ x, some x ∈ args → x < 2 ^ 64) :
    (∃ s, Built c est (aggAdd c args) s ∧ ∀ x, x ∈ s ↔ some x ∈ args) ∧
      (args ≠ [] → ∃ h s, fnInit c args = some h ∧ Built c est h s ∧ ∀ x, x ∈ s ↔ some x ∈ args) ∧
      (∃ s, Built c est (fnAdd c none args) s ∧ ∀ x, x ∈ s ↔ some x ∈ args) ∧
      ∀ h s, Built c est h s →
        ∃ s', Built c est (fnAdd c (some h) args) s' ∧ ∀ x, x ∈ s' ↔ x ∈ s ∨ some x ∈ args := by
  obtain ⟨s1, a1, a2⟩ := foldl_addArg hc hest args ha (Built.rawInit (c := c) (est := est))
  obtain ⟨s2, b1, b2⟩ := foldl_addArg hc hest args ha (Built.init (c := c) (est := est))
  refine ⟨⟨s1, a1, by simpa using a2⟩, fun hne => ⟨_, s2, ?_, b1, by simpa using b2⟩,
    ⟨s2, b1, by simpa using b2⟩, fun h s hb => foldl_addArg hc hest args ha hb⟩
  unfold fnInit
  rw [if_neg (by simpa using hne)]

/-- `HLL_MERGE` and `HLL_MERGE_AGG` make the sketch of all values of their arguments, NULL left out; the
first argument of `HLL_MERGE` must not be raw. -/
theorem C73_merged {c : Cfg} (hc : c.Ok) {est : List Nat → Nat}
    (hest : est (2 ^ c.p :: List.replicate 63 0) = 0) (args : List (Option Sketch)) (sets : Sketch → List Nat)
    (ha : ∀ g, some g ∈ args → Built c est g (sets g)) :
    (∃ s, Built c est (aggMerge c args) s ∧ ∀ x, x ∈ s ↔ ∃ g, some g ∈ args ∧ x ∈ sets g) ∧
      (∃ s, Built c est (fnMerge c none args) s ∧ ∀ x, x ∈ s ↔ ∃ g, some g ∈ args ∧ x ∈ sets g) ∧
      ∀ h s, Built c est h s → (∀ r, h.body ≠ .raw r) →
        ∃ s', Built c est (fnMerge c (some h) args) s' ∧
          ∀ x, x ∈ s' ↔ x ∈ s ∨ ∃ g, some g ∈ args ∧ x ∈ sets g := by
  have agg : ∀ (args : List (Option Sketch)) (_ : ∀ g, some g ∈ args → Built c est g (sets g)) (h : Sketch)
      (s : List Nat), Built c est h s → (∃ r, h.body = .raw r) →
      ∃ s', Built c est (args.foldl (aggArg c) h) s' ∧
        ∀ x, x ∈ s' ↔ x ∈ s ∨ ∃ g, some g ∈ args ∧ x ∈ sets g := by
    intro args ha
    induction args with
    | nil => intro h s hb _; exact ⟨s, hb, by simp⟩
    | cons a rest ih =>
      intro h s hb hr
      have ih' := ih (fun g hg => ha g (by simp [hg]))
      cases a with
      | none =>
        obtain ⟨s', h1, h2⟩ := ih' h s hb hr
        exact ⟨s', h1, fun x => by rw [h2]; simp⟩
      | some g =>
        have hg := ha g (by simp)
        obtain ⟨h', e, _⟩ := mergeAgg_facts (built_inv hc hest hb).valid (built_inv hc hest hg).valid
          (Or.inl hr)
        have hr' : ∃ r, h'.body = .raw r := by
          obtain ⟨r, hr⟩ := hr
          unfold mergeAgg aggStart at e
          rw [readRegs_eq (built_inv hc hest hg).valid, hr] at e
          dsimp only at e
          rw [hr] at e
          dsimp only at e
          cases e
          exact ⟨_, rfl⟩
        obtain ⟨s', h1, h2⟩ := ih' h' (s ++ sets g) (Built.mergeAgg hb hg (Or.inl hr) e) hr'
        refine ⟨s', ?_, fun x => ?_⟩
        · rw [List.foldl_cons, aggArg, e]
          exact h1
        · rw [h2]
          simp only [List.mem_append, List.mem_cons, Option.some.injEq, or_and_right, exists_or,
            exists_eq_left]
          tauto
  have mrg : ∀ (args : List (Option Sketch)) (_ : ∀ g, some g ∈ args → Built c est g (sets g)) (h : Sketch)
      (s : List Nat), Built c est h s → (∀ r, h.body ≠ .raw r) →
      ∃ s', Built c est (args.foldl (mergeArg c) h) s' ∧
        ∀ x, x ∈ s' ↔ x ∈ s ∨ ∃ g, some g ∈ args ∧ x ∈ sets g := by
    intro args ha
    induction args with
    | nil => intro h s hb _; exact ⟨s, hb, by simp⟩
    | cons a rest ih =>
      intro h s hb hr
      have ih' := ih (fun g hg => ha g (by simp [hg]))
      cases a with
      | none =>
        obtain ⟨s', h1, h2⟩ := ih' h s hb hr
        exact ⟨s', h1, fun x => by rw [h2]; simp⟩
      | some g =>
        have hg := ha g (by simp)
        have v1 := (built_inv hc hest hb).valid
        have v2 := (built_inv hc hest hg).valid
        obtain ⟨h', e, _⟩ := merge_facts v1 v2 (Or.inl hr)
        have hr' : ∀ r, h'.body ≠ .raw r := merge_not_raw v1 v2 hr e
        obtain ⟨s', h1, h2⟩ := ih' h' (s ++ sets g) (Built.merge hb hg (Or.inl hr) e) hr'
        refine ⟨s', ?_, fun x => ?_⟩
        · rw [List.foldl_cons, mergeArg, e]
          exact h1
        · rw [h2]
          simp only [List.mem_append, List.mem_cons, Option.some.injEq, or_and_right, exists_or,
            exists_eq_left]
          tauto
  obtain ⟨s1, a1, a2⟩ := agg args ha _ _ (Built.rawInit (c := c) (est := est)) ⟨_, rfl⟩
  obtain ⟨s2, b1, b2⟩ := mrg args ha _ _ (Built.init (c := c) (est := est)) (by simp [init])
  exact ⟨⟨s1, a1, by simpa using a2⟩, ⟨s2, b1, by simpa using b2⟩, fun h s hb hr => mrg args ha h s hb hr⟩

/-- `HLL_ESTIMATE` of NULL is zero, and of a sketch the estimate of its set of values. -/
theorem C73_estimate_fn {c : Cfg} (hc : c.Ok) {est : List Nat → Nat}
    (hest : est (2 ^ c.p :: List.replicate 63 0) = 0) :
    fnEstimate est none = 0 ∧ ∀ h s r g, Built c est h s → SketchOf c s r → Histogram r g →
      fnEstimate est (some h) = est g :=
  ⟨rfl, fun _ _ r g hb hr hg => (C73_estimate hc hest hb).2 r g hr hg⟩

/-- Rows spread over regions in any way: the estimate of the merged partial results is the one of all rows
in one place. -/
theorem C73_regions {c : Cfg} (hc : c.Ok) {est : List Nat → Nat}
    (hest : est (2 ^ c.p :: List.replicate 63 0) = 0) (parts : List (List (Option Nat)))
    (ha : ∀ p ∈ parts, ∀ x, some x ∈ p → x < 2 ^ 64) (rows : List (Option Nat))
    (hp : ∀ x, some x ∈ rows ↔ ∃ p ∈ parts, some x ∈ p) :
    fnEstimate est (some (aggMerge c (parts.map (fun p => some (aggAdd c p))))) =
      fnEstimate est (some (aggAdd c rows)) := by
  have hrows : ∀ x, some x ∈ rows → x < 2 ^ 64 := by
    intro x hx
    obtain ⟨p, hp1, hp2⟩ := (hp x).1 hx
    exact ha p hp1 x hp2
  obtain ⟨⟨s, hs1, hs2⟩, _⟩ := C73_values hc hest rows hrows
  -- the same by induction over the parts
  have key : ∀ (parts : List (List (Option Nat))) (_ : ∀ p ∈ parts, ∀ x, some x ∈ p → x < 2 ^ 64)
      (h : Sketch) (t : List Nat), Built c est h t → (∃ r, h.body = .raw r) →
      ∃ t', Built c est ((parts.map (fun p => some (aggAdd c p))).foldl (aggArg c) h) t' ∧
        ∀ x, x ∈ t' ↔ x ∈ t ∨ ∃ p ∈ parts, some x ∈ p := by
    intro parts ha
    induction parts with
    | nil => intro h t hb _; exact ⟨t, hb, by simp⟩
    | cons p rest ih =>
      intro h t hb hr
      obtain ⟨⟨sp, hg, hsp⟩, _⟩ := C73_values hc hest p (ha p (by simp))
      obtain ⟨h', e, _⟩ := mergeAgg_facts (built_inv hc hest hb).valid (built_inv hc hest hg).valid
        (Or.inl hr)
      have hr' : ∃ r, h'.body = .raw r := by
        obtain ⟨r, hr⟩ := hr
        unfold mergeAgg aggStart at e
        rw [readRegs_eq (built_inv hc hest hg).valid, hr] at e
        dsimp only at e
        rw [hr] at e
        dsimp only at e
        cases e
        exact ⟨_, rfl⟩
      obtain ⟨t', h1, h2⟩ := ih (fun q hq => ha q (by simp [hq])) h' (t ++ sp)
        (Built.mergeAgg hb hg (Or.inl hr) e) hr'
      refine ⟨t', ?_, fun x => ?_⟩
      · rw [List.map_cons, List.foldl_cons, aggArg, e]
        exact h1
      · rw [h2]
        simp only [List.mem_append, List.mem_cons, exists_eq_or_imp, hsp]
        tauto
  obtain ⟨t, ht1, ht2⟩ := key parts ha _ _ (Built.rawInit (c := c) (est := est)) ⟨_, rfl⟩
  exact C73_same hc hest ht1 hs1 (fun x => by rw [ht2, hs2, hp]; simp)

/-! ### Defects -/

/-- `hll_merge` into a raw sketch, such as the result of `HLL_ADD_AGG`, ignores a second sketch that is
not dense (/repo/src/common/hll_common.cpp L785-801). -/
theorem C73_merge_raw_counterexample {c : Cfg} {h1 h2 : Sketch} {r : List Nat}
    (v1 : Valid c h1.body) (v2 : Valid c h2.body) (hr : h1.body = .raw r) (hd : ∀ b, h2.body ≠ .dense b) :
    merge c h1 h2 = .ok { h1 with cache := none } := by
  have key : ∀ (vs : List Nat) (h : Sketch) (i : Nat), h.body = .raw r → setAll c vs h i = h := by
    intro vs
    induction vs with
    | nil => intro h i _; rfl
    | cons v vs ih =>
      intro h i hb
      have : setOne c h i v = h := by
        unfold setOne
        rw [hb]
        split <;> rfl
      rw [setAll, this, ih h _ hb]
  unfold merge
  rw [readRegs_eq v1, readRegs_eq v2, hr]
  cases hb2 : h2.body with
  | dense b => exact absurd hb2 (hd b)
  | sparse l => simp [Body.isDense, key _ h1 _ hr, hr]
  | raw r2 => simp [Body.isDense, key _ h1 _ hr, hr]

/-- `hll_merge_agg` of a raw sketch into one that is not raw writes the registers over the dense bytes and
beyond them (/repo/src/common/hll_common.cpp L635-661).  The aggregates start from a raw sketch, so they do
not do that. -/
theorem C73_merge_agg_counterexample {c : Cfg} {h1 h2 : Sketch} {r : List Nat}
    (v1 : Valid c h1.body) (v2 : Valid c h2.body) (hn : ∀ r, h1.body ≠ .raw r) (hr : h2.body = .raw r) :
    mergeAgg c h1 h2 = .ub := by
  obtain ⟨b, t1, _, _⟩ := toDense_facts v1
  unfold mergeAgg aggStart
  rw [readRegs_eq v2, t1, hr]
  cases hb : h1.body with
  | raw r => exact absurd hb (hn r)
  | dense b => rfl
  | sparse l => rfl

end BaikalDB.Hll
