import Verif.Transfer.Order

/-!
# C69: the snapshot of a region arrives as it was sent
-/

namespace BaikalDB.Transfer

/-! ## What arrives -/

theorem sent_data (kvs : List Rec) : sent (kvs.map dataItem) = kvs := by
  induction kvs with
  | nil => rfl
  | cons r l ih =>
    show [r] ++ sent (l.map dataItem) = r :: l
    rw [ih]; rfl

theorem lost_data (kvs : List Rec) : Item.lost ∉ kvs.map dataItem := by
  intro h
  obtain ⟨r, _, k⟩ := List.mem_map.1 h
  cases k

theorem sent_meta {entries : Nat → Nat → List (Nat × Bytes)} {key : Nat → Nat → Bytes}
    (l : List MetaKv) :
    sent (l.map (metaItem (fun t b => some (entries t b)) key)) = Spec.ofMeta entries key l := by
  induction l with
  | nil => rfl
  | cons m l ih =>
    have : sent ((m :: l).map (metaItem (fun t b => some (entries t b)) key)) =
        sent [metaItem (fun t b => some (entries t b)) key m] ++
          sent (l.map (metaItem (fun t b => some (entries t b)) key)) := by
      rw [← sent_append]; rfl
    rw [this, ih]
    cases m <;> simp [sent, metaItem, Spec.ofMeta]

theorem lost_meta {entries : Nat → Nat → List (Nat × Bytes)} {key : Nat → Nat → Bytes}
    (l : List MetaKv) : Item.lost ∉ l.map (metaItem (fun t b => some (entries t b)) key) := by
  intro h
  obtain ⟨m, _, k⟩ := List.mem_map.1 h
  cases m <;> cases k

theorem Spec.Ascending.prefix {a b : List Rec} (h : Spec.Ascending (a ++ b)) : Spec.Ascending a := by
  induction a with
  | nil => trivial
  | cons x a ih =>
    cases a with
    | nil => trivial
    | cons y a => exact ⟨h.1, ih (Spec.Ascending.tail h)⟩

theorem arrives {src : List Item} {isMeta needCopy : Bool} {full : List Rec → Bool}
    {all : List Rec} (hs : sent src = all) (hn : isMeta = true ∨ needCopy = true)
    (ha : Spec.Ascending all) (hf : Spec.Fits all) (evs : List Ev) :
    ∃ files rest, install full isMeta (transfer src isMeta needCopy evs).2.packets = some files ∧
      files.flatten ++ rest = all ∧ (∀ f, f ∈ files → f ≠ []) ∧
      (isMeta = true → files.length ≤ 1) ∧
      ∀ n, Spec.Steady n evs → Item.lost ∉ src → Spec.bytes all + n < 2 ^ 63 - 1 →
        (transfer src isMeta needCopy evs).2.eof = true → rest = [] := by
  by_cases hp : ∃ n, Spec.Steady n evs ∧ Item.lost ∉ src ∧ Spec.bytes all + n < 2 ^ 63 - 1
  · obtain ⟨n, h1, h2, h3⟩ := hp
    obtain ⟨rss, B, g1, g2, g3⟩ := (transfer_inv (p := True) (n := n) hn evs
      (fun _ => ⟨h1, h2⟩) (fun _ => by rw [hs]; exact h3)).got
    rw [hs] at g2
    obtain ⟨files, k1, k2, k3, k4⟩ := install_spec (full := full) (isMeta := isMeta) (rss := rss)
      (by rw [← g2] at ha; exact ha.prefix) (fun r hr => hf r (by rw [← g2]; simp [hr]))
    rw [← g1] at k1
    exact ⟨files, B, k1, by rw [k2, g2], k3, k4, fun _ _ _ _ he => g3 trivial he⟩
  · obtain ⟨rss, B, g1, g2, _⟩ := (transfer_inv (p := False) (n := 0) hn evs
      (fun k => k.elim) (fun k => k.elim)).got
    rw [hs] at g2
    obtain ⟨files, k1, k2, k3, k4⟩ := install_spec (full := full) (isMeta := isMeta) (rss := rss)
      (by rw [← g2] at ha; exact ha.prefix) (fun r hr => hf r (by rw [← g2]; simp [hr]))
    rw [← g1] at k1
    exact ⟨files, B, k1, by rw [k2, g2], k3, k4,
      fun n h1 h2 h3 _ => absurd ⟨n, h1, h2, h3⟩ hp⟩

/-- **C69.** Whatever requests a leader gets, in whatever order and of whatever sizes, with answers
that get lost and requests that come late: what the receiver writes are the first rows of the
snapshot, in order, none of them twice, none left out, none changed. -/
theorem C69_rows_in_order {kvs : List Rec} (ha : Spec.Ascending kvs) (hf : Spec.Fits kvs)
    (full : List Rec → Bool) (evs : List Ev) :
    ∃ files rest,
      install full false (transfer (kvs.map dataItem) false true evs).2.packets = some files ∧
      files.flatten ++ rest = kvs ∧ ∀ f, f ∈ files → f ≠ [] := by
  obtain ⟨files, rest, h1, h2, h3, _⟩ := arrives (full := full) (isMeta := false) (needCopy := true)
    (sent_data kvs) (Or.inr rfl) ha hf evs
  exact ⟨files, rest, h1, h2, h3⟩

/-- **C69.** If all requests ask for the same number of bytes, the receiver does not take the
transfer for finished before it has all rows of the snapshot. -/
theorem C69_all_rows {kvs : List Rec} (ha : Spec.Ascending kvs) (hf : Spec.Fits kvs)
    (full : List Rec → Bool) {evs : List Ev} {n : Nat} (hs : Spec.Steady n evs)
    (hb : Spec.bytes kvs + n < 2 ^ 63 - 1)
    (he : (transfer (kvs.map dataItem) false true evs).2.eof = true) :
    ∃ files,
      install full false (transfer (kvs.map dataItem) false true evs).2.packets = some files ∧
      files.flatten = kvs := by
  obtain ⟨files, rest, h1, h2, _, _, h5⟩ := arrives (full := full) (isMeta := false)
    (needCopy := true) (sent_data kvs) (Or.inr rfl) ha hf evs
  have := h5 n hs (lost_data kvs) hb he
  subst this
  exact ⟨files, h1, by simpa using h2⟩

/-- **C69.** The same for the meta keys: they arrive in one file, in which each open transaction has
all of its requests, and nothing else is left out but marks and requests of others. -/
theorem C69_all_meta_keys {region : BitVec 64} {entries : Nat → Nat → List (Nat × Bytes)}
    {l : List MetaKv} (hl : Spec.Layout region entries l)
    (hf : Spec.Fits (Spec.ofMeta entries (requestKey region) l))
    (full : List Rec → Bool) (needCopy : Bool) {evs : List Ev} {n : Nat} (hs : Spec.Steady n evs)
    (hb : Spec.bytes (Spec.ofMeta entries (requestKey region) l) + n < 2 ^ 63 - 1)
    (he : (transfer (l.map (metaItem (fun t b => some (entries t b)) (requestKey region))) true
      needCopy evs).2.eof = true) :
    ∃ files, install full true (transfer (l.map (metaItem (fun t b => some (entries t b))
        (requestKey region))) true needCopy evs).2.packets = some files ∧
      files.length ≤ 1 ∧ files.flatten = Spec.ofMeta entries (requestKey region) l := by
  obtain ⟨files, rest, h1, h2, _, h4, h5⟩ := arrives (full := full) (isMeta := true)
    (needCopy := needCopy) (sent_meta l) (Or.inl rfl) (ascending_of_pairwise (meta_sorted hl)) hf evs
  have := h5 n hs (lost_meta l) hb he
  subst this
  exact ⟨files, h1, h4 rfl, by simpa using h2⟩

/-! ## Asking again -/

theorem fill_again {size : Nat} {is : List Item} {done : Bool}
    (h : (fill size is 0 done).1 = []) (hs : 0 < size) : (fill size is 0 done).2.1 = [] := by
  obtain ⟨a, b, h1, h2, h3, _⟩ := fill_spec size is 0 done
  have e1 : (fill size is 0 done).1 = enc (sent a) := congrArg Prod.fst h2
  have e2 : (fill size is 0 done).2.1 = b := congrArg (fun x => x.2.1) h2
  rw [e2]
  rcases h3 with k | k
  · rw [e1] at h
    have := enc_length (sent a)
    rw [h] at this
    simp at this; omega
  · exact k

/-- The answer to a request that has just been answered by going on with the iterator. -/
theorem readOn_again (src : List Item) (isMeta : Bool) (r : Reader) (q : Req)
    (h0 : (!isMeta && !r.ctx.needCopy) = false) (ho : q.offset = r.ctx.offset) :
    (read src isMeta (readOn r q).2 q).1 = (readOn r q).1 ∧
      (q.size = 0 ∨ (readOn r q).1 = some [] ∨
        (read src isMeta (readOn r q).2 q).2 = (readOn r q).2) := by
  generalize hf : fill q.size r.ctx.rest 0 r.ctx.done = f
  have hr : readOn r q = (some f.1, ⟨⟨f.2.1, r.ctx.offset + f.1.length, f.2.2, r.ctx.needCopy⟩,
      q.offset, f.1⟩) := by
    unfold readOn; rw [hf]
  rw [hr]
  unfold read
  rw [h0]
  simp only [Bool.false_eq_true, if_false]
  rw [if_neg (by omega)]
  by_cases hz : f.1.length = 0
  · have hz' : f.1 = [] := List.eq_nil_iff_length_eq_zero.2 hz
    rw [if_neg (by omega)]
    refine ⟨?_, Or.inr (Or.inl (by rw [hz']))⟩
    unfold readOn
    dsimp only
    rw [hz']
    congr 1
    by_cases hs : q.size = 0
    · cases hrest : f.2.1 with
      | nil => rw [fill.eq_def]; simp [hs]
      | cons i is => rw [fill.eq_def]; simp [hs]
    · have := fill_again (size := q.size) (is := r.ctx.rest) (done := r.ctx.done)
        (by rw [hf]; exact hz') (by omega)
      rw [hf] at this
      rw [this, fill.eq_def]
      dsimp only
      split <;> rfl
  · rw [if_pos (by omega), if_pos trivial]
    exact ⟨rfl, Or.inr (Or.inr rfl)⟩

/-- **C69.** An answer that got lost is given again: the same request right afterwards gets the same
bytes. -/
theorem C69_lost_answer (src : List Item) (isMeta : Bool) (r : Reader) (q : Req) {b : Bytes}
    (h : (read src isMeta r q).1 = some b) :
    (read src isMeta (read src isMeta r q).2 q).1 = some b := by
  cases h0 : (!isMeta && !r.ctx.needCopy) with
  | true =>
    have e : read src isMeta r q = (some [], { r with ctx := { r.ctx with done := true } }) := by
      unfold read; rw [h0]; rfl
    rw [e] at h ⊢
    have e2 : read src isMeta { r with ctx := { r.ctx with done := true } } q =
        (some [], { r with ctx := { r.ctx with done := true } }) := by
      unfold read
      dsimp only
      rw [h0]; rfl
    rw [e2]; exact h
  | false =>
    by_cases h1 : r.ctx.offset < q.offset
    · have : read src isMeta r q = (none, r) := by
        unfold read; rw [h0]; simp [h1]
      rw [this] at h; cases h
    · by_cases h2 : q.offset < r.ctx.offset
      · by_cases h3 : r.lastOffset = q.offset
        · have e : read src isMeta r q = (some r.lastPackage, r) := by
            unfold read; rw [h0]; simp [h1, h2, h3]
          rw [e] at h ⊢
          rw [e]; exact h
        · by_cases h4 : (q.offset = 0 && q.late) = true
          · have e : read src isMeta r q =
                readOn ⟨⟨src, 0, false, r.ctx.needCopy⟩, 0, r.lastPackage⟩ q := by
              unfold read; rw [h0]; simp only [Bool.false_eq_true, if_false]
              rw [if_neg h1, if_pos h2, if_neg h3, if_pos h4]
            have h5 : q.offset = 0 := by
              simp only [Bool.and_eq_true, decide_eq_true_eq] at h4; exact h4.1
            rw [e] at h ⊢
            rw [(readOn_again src isMeta ⟨⟨src, 0, false, r.ctx.needCopy⟩, 0, r.lastPackage⟩ q h0 h5).1]
            exact h
          · have e : read src isMeta r q = (none, r) := by
              unfold read; rw [h0]; simp only [Bool.false_eq_true, if_false]
              rw [if_neg h1, if_pos h2, if_neg h3, if_neg h4]
            rw [e] at h; cases h
      · have e : read src isMeta r q = readOn r q := by
          unfold read; rw [h0]; simp [h1, h2]
        rw [e] at h ⊢
        rw [(readOn_again src isMeta r q h0 (by omega)).1]; exact h

/-! ## The transfer ends -/

theorem foldl_eof {src : List Item} {isMeta : Bool} (k : Nat) (n : Nat) (s : Reader × Client)
    (h : s.2.eof = true) :
    (List.replicate k (Ev.ask n false true)).foldl (step src isMeta) s = s := by
  induction k with
  | zero => rfl
  | succ k ih =>
    rw [List.replicate_succ, List.foldl_cons]
    have : step src isMeta s (.ask n false true) = s := by simp [step, h]
    rw [this]; exact ih

theorem asks_end {src : List Item} {isMeta : Bool} {n : Nat} (hn : 0 < n) (m : Nat) :
    ∀ (s : Reader × Client), s.1.ctx.rest.length ≤ m → s.2.offset = s.1.ctx.offset →
    (isMeta = true ∨ s.1.ctx.needCopy = true) →
    ((List.replicate (m + 1) (Ev.ask n false true)).foldl (step src isMeta) s).2.eof = true := by
  induction m with
  | zero =>
    intro s hm ho hc
    by_cases he : s.2.eof = true
    · rw [foldl_eof _ _ _ he]; exact he
    · have h0 : (!isMeta && !s.1.ctx.needCopy) = false := by rcases hc with k | k <;> simp [k]
      have hr : s.1.ctx.rest = [] := List.eq_nil_iff_length_eq_zero.2 (by omega)
      simp [step, he, serve, read, h0, ho, readOn, hr, fill, hn]
  | succ m ih =>
    intro s hm ho hc
    by_cases he : s.2.eof = true
    · rw [foldl_eof _ _ _ he]; exact he
    · have h0 : (!isMeta && !s.1.ctx.needCopy) = false := by rcases hc with k | k <;> simp [k]
      rw [List.replicate_succ, List.foldl_cons]
      have hrd : read src isMeta s.1 ⟨s.2.offset, n, false⟩
          = readOn s.1 ⟨s.2.offset, n, false⟩ := by
        unfold read; rw [h0]; simp [ho]
      have hst : step src isMeta s (.ask n false true) =
          ((readOn s.1 ⟨s.2.offset, n, false⟩).2,
            ⟨s.2.packets ++ [(fill n s.1.ctx.rest 0 s.1.ctx.done).1],
              decide ((fill n s.1.ctx.rest 0 s.1.ctx.done).1.length < n) ||
                (readOn s.1 ⟨s.2.offset, n, false⟩).2.size == s.2.offset + n⟩) := by
        simp only [step, he, Bool.false_eq_true, if_false, serve, hrd]
        simp [readOn]
      rw [hst]
      apply ih
      · show (fill n s.1.ctx.rest 0 s.1.ctx.done).2.1.length ≤ m
        obtain ⟨a, b, h1, h2, h3, _⟩ := fill_spec n s.1.ctx.rest 0 s.1.ctx.done
        have e2 : (fill n s.1.ctx.rest 0 s.1.ctx.done).2.1 = b := congrArg (fun x => x.2.1) h2
        rw [e2]
        rcases h3 with k | k
        · have ha : a ≠ [] := by
            intro k2; rw [k2] at k; simp [sent, Spec.bytes] at k; omega
          have hl : s.1.ctx.rest.length = a.length + b.length := by rw [h1, List.length_append]
          have : 0 < a.length := List.length_pos_iff.2 ha
          omega
        · rw [k]; simp
      · simp [Client.offset, readOn] at ho ⊢; omega
      · exact hc

/-- **C69.** If no request and no answer gets lost, the transfer ends, with any number of bytes per
request, after at most one request for each key and one more. -/
theorem C69_ends (src : List Item) (isMeta needCopy : Bool) {n : Nat} (hn : 0 < n)
    (hc : isMeta = true ∨ needCopy = true) :
    (transfer src isMeta needCopy
      (List.replicate (src.length + 1) (Ev.ask n false true))).2.eof = true :=
  asks_end hn src.length (opened src needCopy, ⟨[], false⟩) (Nat.le_refl _) rfl hc

/-- **C69.** If the rows are not to be sent, the receiver gets an empty file with the first answer
and nothing else. -/
theorem C69_rows_not_sent (src : List Item) {n : Nat} (hn : 0 < n) (late : Bool) (evs : List Ev) :
    (transfer src false false (.ask n late true :: evs)).2 = ⟨[[]], true⟩ := by
  have h1 : step src false (opened src false, ⟨[], false⟩) (.ask n late true) =
      ({ opened src false with ctx := { (opened src false).ctx with done := true } },
        ⟨[[]], true⟩) := by
    simp [step, serve, read, opened, hn]
  have h2 : ∀ (l : List Ev) (s : Reader × Client), s.2.eof = true →
      (l.foldl (step src false) s).2 = s.2 := by
    intro l
    induction l with
    | nil => intro s _; rfl
    | cons e l ih =>
      intro s hs
      rw [List.foldl_cons]
      have : (step src false s e).2 = s.2 := by
        cases e with
        | ask a b c => simp [step, hs]
        | stray q => rfl
      rw [ih _ (by rw [this]; exact hs), this]
  unfold transfer
  rw [List.foldl_cons, h1, h2 _ _ rfl]

/-! ## What the code does not keep -/

/-- Two rows of 17 bytes each. -/
def tiny : List Rec := [([1#8], []), ([2#8], [])]

/-- A request for few bytes is answered with one row; the answer gets lost and the request is
repeated with a larger size. It gets the kept packet, which is shorter than what it asks for: the
receiver takes it for the end of the file, and the second row is missing. -/
theorem C69_larger_retry_counterexample :
    (transfer (tiny.map dataItem) false true [.ask 10 false false, .ask 100 false true]).2
        = ⟨[putRec ([1#8], [])], true⟩ ∧
      install (fun _ => false) false
        (transfer (tiny.map dataItem) false true [.ask 10 false false, .ask 100 false true]).2.packets
        = some [[([1#8], [])]] := by
  decide +kernel

/-- The log entries of an open transaction cannot be read: the transfer goes on without the
transaction, and it even ends before the last keys if a packet happens to be exactly as long as was
asked for. -/
theorem C69_lost_transaction_counterexample :
    let items := [MetaKv.begin 1 5, .plain ([1#8], []), .plain ([2#8], [])].map
      (metaItem (fun _ _ => none) (requestKey 7#64))
    (transfer items true true (List.replicate 4 (.ask 100 false true))).2
        = ⟨[putRec ([1#8], []) ++ putRec ([2#8], [])], true⟩ ∧
      (transfer items true true (List.replicate 4 (.ask 17 false true))).2
        = ⟨[putRec ([1#8], [])], true⟩ := by
  decide +kernel

end BaikalDB.Transfer
