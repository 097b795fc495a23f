import Verif.Transfer.Spec
import Verif.KeyEnc.Lemmas
import Mathlib.Data.List.Infix

namespace BaikalDB.Transfer

open BaikalDB.KeyEnc (memLE loadLE length_memLE loadLE_memLE)

/-! ## The format -/

/-- The bytes of some pairs. -/
def enc (l : List Rec) : Bytes := l.flatMap putRec

theorem enc_append (a b : List Rec) : enc (a ++ b) = enc a ++ enc b := by simp [enc]

theorem putSlice_length (s : Bytes) : (putSlice s).length = 8 + s.length := by simp [putSlice]

theorem putRec_length (r : Rec) : (putRec r).length = r.1.length + r.2.length + 16 := by
  simp only [putRec, List.length_append, putSlice_length]; omega

theorem enc_length (l : List Rec) : (enc l).length = Spec.bytes l := by
  induction l with
  | nil => rfl
  | cons r l ih =>
    have : enc (r :: l) = putRec r ++ enc l := rfl
    rw [this, List.length_append, putRec_length, ih]; rfl

theorem getSlice_putSlice {s : Bytes} (h : s.length < 2 ^ 64) (b : Bytes) :
    getSlice (putSlice s ++ b) = some (s, b) := by
  have hl : (memLE 8 (BitVec.ofNat 64 s.length)).length = 8 := length_memLE _ _
  have ht : (putSlice s ++ b).take 8 = memLE 8 (BitVec.ofNat 64 s.length) := by
    rw [putSlice, List.append_assoc, List.take_left' hl]
  have hd : (putSlice s ++ b).drop 8 = s ++ b := by
    rw [putSlice, List.append_assoc, List.drop_left' hl]
  have hn : (loadLE 64 (memLE 8 (BitVec.ofNat 64 s.length))).toNat = s.length := by
    rw [loadLE_memLE (by omega), BitVec.toNat_ofNat, Nat.mod_eq_of_lt h]
  unfold getSlice
  rw [if_neg (by rw [List.length_append, putSlice_length]; omega)]
  dsimp only
  rw [ht, hd, hn, if_neg (by rw [List.length_append]; omega)]
  simp

theorem parse_enc (l : List Rec) (h : Spec.Fits l) :
    ∀ n, l.length ≤ n → parse n (enc l) = some l := by
  induction l with
  | nil => intro n _; cases n <;> rfl
  | cons r l ih =>
    intro n hn
    have hr := h r (by simp)
    have hl : Spec.Fits l := fun x hx => h x (by simp [hx])
    cases n with
    | zero => simp at hn
    | succ n =>
      have he : enc (r :: l) = putSlice r.1 ++ (putSlice r.2 ++ enc l) := by
        simp [enc, putRec]
      have hne : enc (r :: l) ≠ [] := by
        intro k
        have := enc_length (r :: l)
        rw [k] at this
        simp only [Spec.bytes, List.length_nil] at this
        omega
      obtain ⟨x, y, hxy⟩ := List.exists_cons_of_ne_nil hne
      have hp : parse (n + 1) (enc (r :: l)) = (match getSlice (enc (r :: l)) with
        | none => none
        | some (k, b1) =>
          match getSlice b1 with
          | none => none
          | some (v, b2) => (parse n b2).map ((k, v) :: ·)) := by
        rw [hxy]; rfl
      rw [hp, he, getSlice_putSlice hr.1]
      dsimp only
      rw [getSlice_putSlice hr.2]
      dsimp only
      rw [ih hl n (by simpa using hn)]
      rfl

theorem bytes_append (a b : List Rec) : Spec.bytes (a ++ b) = Spec.bytes a + Spec.bytes b := by
  rw [← enc_length, enc_append, List.length_append, enc_length, enc_length]

theorem bytes_zero {a : List Rec} (h : Spec.bytes a = 0) : a = [] := by
  cases a with
  | nil => rfl
  | cons r l => simp [Spec.bytes] at h

theorem length_le_bytes (a : List Rec) : a.length ≤ Spec.bytes a := by
  induction a with
  | nil => simp
  | cons r l ih => simp only [List.length_cons, Spec.bytes]; omega

/-- The offset tells which pairs came before. -/
theorem split_unique {a b c d : List Rec} (h : a ++ b = c ++ d)
    (hl : Spec.bytes a = Spec.bytes c) : a = c ∧ b = d := by
  rcases List.append_eq_append_iff.1 h with ⟨e, h1, h2⟩ | ⟨e, h1, h2⟩
  · rw [h1, bytes_append] at hl
    have := bytes_zero (a := e) (by omega)
    subst this
    simp only [List.append_nil, List.nil_append] at h1 h2
    exact ⟨h1.symm, h2⟩
  · rw [h1, bytes_append] at hl
    have := bytes_zero (a := e) (by omega)
    subst this
    simp only [List.append_nil, List.nil_append] at h1 h2
    exact ⟨h1, h2.symm⟩

/-! ## The loop of the reader -/

/-- The pairs of some items. -/
def sent (l : List Item) : List Rec := l.flatMap fun
  | .send rs => rs
  | .lost => []

theorem sent_append (a b : List Item) : sent (a ++ b) = sent a ++ sent b := by simp [sent]

theorem fill_spec (size : Nat) (is : List Item) (count : Nat) (done : Bool) :
    ∃ a b, is = a ++ b ∧ fill size is count done = (enc (sent a), b, (fill size is count done).2.2) ∧
      (size ≤ count + Spec.bytes (sent a) ∨ b = []) ∧
      ((fill size is count done).2.2 = true → done = true ∨ b = [] ∨ Item.lost ∈ a) := by
  induction is generalizing count done with
  | nil =>
    refine ⟨[], [], rfl, ?_, Or.inr rfl, fun _ => Or.inr (Or.inl rfl)⟩
    unfold fill
    split <;> rfl
  | cons i is ih =>
    by_cases hc : count < size
    · cases i with
      | lost =>
        obtain ⟨a, b, h1, h2, h3, _⟩ := ih count true
        have he : fill size (.lost :: is) count done = fill size is count true := by
          rw [fill]; simp [hc]
        rw [he]
        refine ⟨.lost :: a, b, by rw [h1]; rfl, ?_, h3, fun _ => Or.inr (Or.inr (by simp))⟩
        exact h2
      | send rs =>
        obtain ⟨a, b, h1, h2, h3, h4⟩ := ih (count + (rs.flatMap putRec).length) done
        generalize hf : fill size is (count + (rs.flatMap putRec).length) done = f at h2 h4
        have he : fill size (.send rs :: is) count done = (rs.flatMap putRec ++ f.1, f.2) := by
          rw [fill.eq_def]
          dsimp only
          rw [if_pos hc, hf]
        rw [he]
        have hs : sent (.send rs :: a) = rs ++ sent a := rfl
        refine ⟨.send rs :: a, b, by rw [h1]; rfl, ?_, ?_, ?_⟩
        · rw [hs, enc_append]
          have e1 : f.1 = enc (sent a) := congrArg Prod.fst h2
          have e2 : f.2.1 = b := congrArg (fun x => x.2.1) h2
          rw [e1, ← e2]
          rfl
        · rw [hs, bytes_append]
          have : (rs.flatMap putRec).length = Spec.bytes rs := enc_length rs
          rw [this] at h3
          rcases h3 with h3 | h3
          · left; omega
          · exact Or.inr h3
        · intro hd
          rcases h4 hd with k | k | k
          · exact Or.inl k
          · exact Or.inr (Or.inl k)
          · exact Or.inr (Or.inr (by simp [k]))
    · refine ⟨[], i :: is, rfl, ?_, Or.inl (by simp [sent, Spec.bytes]; omega), ?_⟩
      · rw [fill.eq_def]
        dsimp only
        rw [if_neg hc]
        rfl
      · rw [fill.eq_def]
        dsimp only
        rw [if_neg hc]
        exact Or.inl

/-! ## The reader -/

/-- What holds of a reader all the time. `p`: all requests have asked for `n` bytes, and all log
entries could be read. -/
structure RInv (p : Prop) (n : Nat) (src : List Item) (r : Reader) : Prop where
  ctx : ∃ A, A ++ sent r.ctx.rest = sent src ∧ r.ctx.offset = Spec.bytes A
  suff : r.ctx.rest <:+ src
  done : p → r.ctx.done = true → r.ctx.rest = []
  cache : r.lastOffset < r.ctx.offset → ∃ A rs B, A ++ (rs ++ B) = sent src ∧
    r.lastOffset = Spec.bytes A ∧ r.lastPackage = enc rs ∧ (p → n ≤ Spec.bytes rs ∨ B = [])

theorem RInv.opened {p : Prop} {n : Nat} (src : List Item) (nc : Bool) :
    RInv p n src (opened src nc) where
  ctx := ⟨[], by simp [Transfer.opened], rfl⟩
  suff := List.suffix_refl _
  done := fun _ h => by simp [Transfer.opened] at h
  cache := fun h => by simp [Transfer.opened] at h

theorem readOn_spec {p : Prop} {n : Nat} {src : List Item} {r : Reader} {q : Req}
    (h : RInv p n src r) (ho : q.offset = r.ctx.offset)
    (hp : p → q.size = n ∧ Item.lost ∉ src) :
    RInv p n src (readOn r q).2 ∧ (readOn r q).2.ctx.needCopy = r.ctx.needCopy ∧
      ∃ A rs B, A ++ (rs ++ B) = sent src ∧ q.offset = Spec.bytes A ∧
        (readOn r q).1 = some (enc rs) ∧ (p → n ≤ Spec.bytes rs ∨ B = []) := by
  obtain ⟨A, hA, hAo⟩ := h.ctx
  obtain ⟨a, b, h1, h2, h3, h4⟩ := fill_spec q.size r.ctx.rest 0 r.ctx.done
  generalize hf : fill q.size r.ctx.rest 0 r.ctx.done = f at h2 h4
  have e1 : f.1 = enc (sent a) := congrArg Prod.fst h2
  have e2 : f.2.1 = b := congrArg (fun x => x.2.1) h2
  have hr : readOn r q = (some f.1, ⟨⟨f.2.1, r.ctx.offset + f.1.length, f.2.2, r.ctx.needCopy⟩,
      q.offset, f.1⟩) := by
    unfold readOn; rw [hf]
  have hsrc : A ++ (sent a ++ sent b) = sent src := by
    rw [← hA, h1, sent_append]
  have hfin : p → n ≤ Spec.bytes (sent a) ∨ sent b = [] := by
    intro hpp
    rcases h3 with k | k
    · left; rw [← (hp hpp).1]; omega
    · right; rw [k]; rfl
  have hcache : ∃ A rs B, A ++ (rs ++ B) = sent src ∧ q.offset = Spec.bytes A ∧
      f.1 = enc rs ∧ (p → n ≤ Spec.bytes rs ∨ B = []) :=
    ⟨A, sent a, sent b, hsrc, by rw [ho, hAo], e1, hfin⟩
  rw [hr]
  refine ⟨⟨⟨A ++ sent a, ?_, ?_⟩, ?_, ?_, fun _ => hcache⟩, rfl, ?_⟩
  · show A ++ sent a ++ sent f.2.1 = _
    rw [e2, List.append_assoc]; exact hsrc
  · show r.ctx.offset + f.1.length = _
    rw [e1, enc_length, bytes_append, hAo]
  · show f.2.1 <:+ src
    rw [e2]
    exact List.IsSuffix.trans ⟨a, h1.symm⟩ h.suff
  · intro hpp hd
    show f.2.1 = []
    rw [e2]
    rcases h4 hd with k | k | k
    · have := h.done hpp k
      rw [h1] at this
      exact (List.append_eq_nil_iff.1 this).2
    · exact k
    · exact absurd (h.suff.subset (by rw [h1]; simp [k])) (hp hpp).2
  · obtain ⟨A, rs, B, k1, k2, k3, k4⟩ := hcache
    exact ⟨A, rs, B, k1, k2, by rw [k3], k4⟩

/-- Every answer of the reader is the pairs that follow the offset. -/
theorem read_spec {p : Prop} {n : Nat} {src : List Item} {isMeta : Bool} {r : Reader} {q : Req}
    (h : RInv p n src r) (hc : isMeta = true ∨ r.ctx.needCopy = true)
    (hp : p → q.size = n ∧ Item.lost ∉ src) :
    RInv p n src (read src isMeta r q).2 ∧
      (read src isMeta r q).2.ctx.needCopy = r.ctx.needCopy ∧
      ∀ b, (read src isMeta r q).1 = some b → ∃ A rs B, A ++ (rs ++ B) = sent src ∧
        q.offset = Spec.bytes A ∧ b = enc rs ∧ (p → n ≤ Spec.bytes rs ∨ B = []) := by
  have h0 : (!isMeta && !r.ctx.needCopy) = false := by
    rcases hc with k | k <;> simp [k]
  unfold read
  rw [h0]
  simp only [Bool.false_eq_true, if_false]
  split
  · exact ⟨h, rfl, fun b hb => by simp at hb⟩
  · rename_i h1
    split
    · rename_i h2
      split
      · rename_i h3
        refine ⟨h, rfl, fun b hb => ?_⟩
        obtain ⟨A, rs, B, k1, k2, k3, k4⟩ := h.cache (by omega)
        refine ⟨A, rs, B, k1, by omega, ?_, k4⟩
        simp only [Option.some.injEq] at hb
        rw [← hb, k3]
      · split
        · rename_i h4
          have h5 : q.offset = 0 := by
            simp only [Bool.and_eq_true, decide_eq_true_eq] at h4; exact h4.1
          have hi : RInv p n src ⟨⟨src, 0, false, r.ctx.needCopy⟩, 0, r.lastPackage⟩ :=
            ⟨⟨[], rfl, rfl⟩, List.suffix_refl _, fun _ k => by simp at k,
              fun k => absurd k (Nat.lt_irrefl 0)⟩
          obtain ⟨k1, k2, A, rs, B, k3, k4, k5, k6⟩ := readOn_spec (q := q) hi h5 hp
          refine ⟨k1, k2, fun b hb => ⟨A, rs, B, k3, k4, ?_, k6⟩⟩
          rw [k5] at hb
          simpa using hb.symm
        · exact ⟨h, rfl, fun b hb => by simp at hb⟩
    · rename_i h2
      obtain ⟨k1, k2, A, rs, B, k3, k4, k5, k6⟩ := readOn_spec (q := q) h (by omega) hp
      refine ⟨k1, k2, fun b hb => ⟨A, rs, B, k3, k4, ?_, k6⟩⟩
      rw [k5] at hb
      simpa using hb.symm

/-! ## The transfer -/

/-- The receiver has whole pairs, in order, from the start. -/
structure CInv (p : Prop) (src : List Item) (c : Client) : Prop where
  got : ∃ (rss : List (List Rec)) (B : List Rec), c.packets = rss.map enc ∧ rss.flatten ++ B = sent src ∧ (p → c.eof = true → B = [])

theorem flatten_map_enc (rss : List (List Rec)) : (rss.map enc).flatten = enc rss.flatten := by
  induction rss with
  | nil => rfl
  | cons a l ih => simp only [List.map_cons, List.flatten_cons, ih, enc_append]

theorem serve_eof {p : Prop} {n : Nat} {src : List Item} {isMeta : Bool} {r : Reader} {q : Req}
    (h : RInv p n src r) (hc : isMeta = true ∨ r.ctx.needCopy = true)
    (hp : p → q.size = n ∧ Item.lost ∉ src) (hb : p → q.offset + q.size < 2 ^ 63 - 1)
    {b : Bytes} {e : Bool} (ha : (serve src isMeta r q).1 = some (b, e)) :
    ∃ A rs B, A ++ (rs ++ B) = sent src ∧ q.offset = Spec.bytes A ∧ b = enc rs ∧
      (p → e = true → B = []) := by
  obtain ⟨k1, _, k3⟩ := read_spec (q := q) h hc hp
  unfold serve at ha
  dsimp only at ha
  cases hr : (read src isMeta r q).1 with
  | none => rw [hr] at ha; simp at ha
  | some b' =>
    rw [hr] at ha
    simp only [Option.map_some, Option.some.injEq, Prod.mk.injEq] at ha
    obtain ⟨rfl, ha2⟩ := ha
    obtain ⟨A, rs, B, m1, m2, m3, m4⟩ := k3 _ hr
    refine ⟨A, rs, B, m1, m2, m3, fun hpp he => ?_⟩
    rw [he, Bool.or_eq_true, decide_eq_true_eq, beq_iff_eq] at ha2
    rcases m4 hpp with k | k
    · rcases ha2 with a | a
      · rw [m3, enc_length, (hp hpp).1] at a; omega
      · unfold Reader.size at a
        split at a
        · rename_i hd
          obtain ⟨A', hA', hAo⟩ := k1.ctx
          rw [k1.done hpp hd] at hA'
          have : A' = sent src := by rw [← hA']; simp [sent]
          rw [this, ← m1, bytes_append, bytes_append] at hAo
          have hs := (hp hpp).1
          exact bytes_zero (by omega)
        · have := hb hpp; omega
    · exact k

theorem step_inv {p : Prop} {n : Nat} {src : List Item} {isMeta : Bool} {s : Reader × Client}
    {e : Ev} (hr : RInv p n src s.1) (hn : isMeta = true ∨ s.1.ctx.needCopy = true)
    (hcl : CInv p src s.2) (hp : p → Spec.Steady n [e] ∧ Item.lost ∉ src)
    (hb : p → Spec.bytes (sent src) + n < 2 ^ 63 - 1) :
    RInv p n src (step src isMeta s e).1 ∧
      (isMeta = true ∨ (step src isMeta s e).1.ctx.needCopy = true) ∧
      CInv p src (step src isMeta s e).2 := by
  cases e with
  | stray q =>
    obtain ⟨k1, k2, _⟩ := read_spec (q := q) hr hn (fun hpp => ⟨(hp hpp).1.1, (hp hpp).2⟩)
    refine ⟨k1, ?_, hcl⟩
    show isMeta = true ∨ (read src isMeta s.1 q).2.ctx.needCopy = true
    rw [k2]; exact hn
  | ask size late arrives =>
    unfold step
    dsimp only
    split
    · exact ⟨hr, hn, hcl⟩
    · rename_i hne
      have hpq : p → size = n ∧ Item.lost ∉ src := fun hpp => ⟨(hp hpp).1.1, (hp hpp).2⟩
      obtain ⟨k1, k2, _⟩ := read_spec (q := ⟨s.2.offset, size, late⟩) hr hn hpq
      refine ⟨k1, ?_, ?_⟩
      · show isMeta = true ∨ (read src isMeta s.1 _).2.ctx.needCopy = true
        rw [k2]; exact hn
      · obtain ⟨rss, B, g1, g2, g3⟩ := hcl.got
        have hoff : s.2.offset = Spec.bytes rss.flatten := by
          rw [Client.offset, g1, flatten_map_enc, enc_length]
        cases ha : (serve src isMeta s.1 ⟨s.2.offset, size, late⟩).1 with
        | none => exact hcl
        | some x =>
          obtain ⟨b, eo⟩ := x
          dsimp only
          cases arrives with
          | false => exact hcl
          | true =>
            have hle : p → s.2.offset + size < 2 ^ 63 - 1 := by
              intro hpp
              have h1 := hb hpp
              rw [← g2, bytes_append] at h1
              have h2 := (hpq hpp).1
              omega
            obtain ⟨A, rs, B', m1, m2, m3, m4⟩ := serve_eof (q := ⟨s.2.offset, size, late⟩) hr hn
              hpq hle ha
            have hsp := split_unique (m1.trans g2.symm) (by rw [← m2, ← hoff])
            refine ⟨rss ++ [rs], B', ?_, ?_, m4⟩
            · show s.2.packets ++ [b] = _
              rw [g1, m3]; simp
            · rw [List.flatten_append, ← hsp.1]
              simpa using m1

theorem Spec.Steady.mem {n : Nat} {l : List Ev} (h : Spec.Steady n l) {e : Ev} (he : e ∈ l) :
    Spec.Steady n [e] := by
  induction l with
  | nil => simp at he
  | cons a l ih =>
    have ha : Spec.Steady n [a] ∧ Spec.Steady n l := by
      cases a with
      | ask s _ _ => exact ⟨⟨h.1, trivial⟩, h.2⟩
      | stray q => exact ⟨⟨h.1, trivial⟩, h.2⟩
    rcases List.mem_cons.1 he with k | k
    · rw [k]; exact ha.1
    · exact ih ha.2 k

theorem transfer_inv {p : Prop} {n : Nat} {src : List Item} {isMeta needCopy : Bool}
    (hn : isMeta = true ∨ needCopy = true) (evs : List Ev)
    (hp : p → Spec.Steady n evs ∧ Item.lost ∉ src)
    (hb : p → Spec.bytes (sent src) + n < 2 ^ 63 - 1) :
    CInv p src (transfer src isMeta needCopy evs).2 := by
  have key : ∀ (l : List Ev) (s : Reader × Client), (∀ e, e ∈ l → e ∈ evs) → RInv p n src s.1 →
      (isMeta = true ∨ s.1.ctx.needCopy = true) → CInv p src s.2 →
      CInv p src (l.foldl (step src isMeta) s).2 := by
    intro l
    induction l with
    | nil => intro s _ _ _ h; exact h
    | cons e l ih =>
      intro s hm h1 h2 h3
      obtain ⟨k1, k2, k3⟩ := step_inv (e := e) h1 h2 h3
        (fun hpp => ⟨Spec.Steady.mem (hp hpp).1 (hm e (by simp)), (hp hpp).2⟩) hb
      exact ih _ (fun x hx => hm x (by simp [hx])) k1 k2 k3
  exact key evs _ (fun _ h => h) (RInv.opened src needCopy) hn
    ⟨⟨[], sent src, rfl, rfl, fun _ h => by simp at h⟩⟩

/-! ## The writer -/

theorem Spec.Ascending.tail {a : Rec} {l : List Rec} (h : Spec.Ascending (a :: l)) :
    Spec.Ascending l := by
  cases l with
  | nil => trivial
  | cons b l => exact h.2

theorem putKeys {rs : List Rec} : ∀ {file : List Rec} {A : List Rec},
    Spec.Ascending (A ++ file ++ rs) → rs.foldlM putKey file = some (file ++ rs) := by
  induction rs with
  | nil => intro file A _; simp
  | cons r rs ih =>
    intro file A h
    have hput : putKey file r = some (file ++ [r]) := by
      unfold putKey
      cases hl : file.getLast? with
      | none => rfl
      | some l =>
        obtain ⟨f, hf⟩ := List.getLast?_eq_some_iff.1 hl
        dsimp only
        rw [if_pos]
        have h' : Spec.Ascending ((A ++ f) ++ l :: r :: rs) := by
          rw [hf] at h; simpa using h
        clear h
        generalize A ++ f = z at h'
        induction z with
        | nil => exact h'.1
        | cons x y ihx => exact ihx (Spec.Ascending.tail h')
    rw [List.foldlM_cons, hput]
    show rs.foldlM putKey (file ++ [r]) = _
    rw [ih (A := A) (by simpa using h)]
    simp

theorem write_all {full : List Rec → Bool} {isMeta : Bool} (rss : List (List Rec)) :
    ∀ (w : Writer), Spec.Ascending (w.files.flatten ++ w.cur ++ rss.flatten) →
    Spec.Fits rss.flatten →
    ∃ w', (rss.map enc).foldlM (Writer.write full isMeta) w = some w' ∧
      w'.files.flatten ++ w'.cur = w.files.flatten ++ w.cur ++ rss.flatten ∧
      ((∀ f, f ∈ w.files → f ≠ []) → ∀ f, f ∈ w'.files → f ≠ []) ∧
      (isMeta = true → w'.files = w.files) := by
  induction rss with
  | nil => intro w _ _; exact ⟨w, rfl, by simp, fun h => h, fun _ => rfl⟩
  | cons rs rss ih =>
    intro w h hf
    have hp : parse (enc rs).length (enc rs) = some rs := by
      refine parse_enc rs (fun r hr => hf r (by simp [hr])) _ ?_
      rw [enc_length]; exact length_le_bytes rs
    have hk : rs.foldlM putKey w.cur = some (w.cur ++ rs) := by
      refine putKeys (A := w.files.flatten) ?_
      have h' : Spec.Ascending ((w.files.flatten ++ w.cur ++ rs) ++ rss.flatten) := by
        simpa using h
      generalize w.files.flatten ++ w.cur ++ rs = l at h'
      induction l with
      | nil => trivial
      | cons a l ihl =>
        cases l with
        | nil => trivial
        | cons b l => exact ⟨h'.1, ihl (Spec.Ascending.tail h')⟩
    obtain ⟨w1, hw1, hw2, hw3, hw4⟩ : ∃ w1, Writer.write full isMeta w (enc rs) = some w1 ∧
        w1.files.flatten ++ w1.cur = w.files.flatten ++ w.cur ++ rs ∧
        ((∀ f, f ∈ w.files → f ≠ []) → ∀ f, f ∈ w1.files → f ≠ []) ∧
        (isMeta = true → w1.files = w.files) := by
      unfold Writer.write
      rw [hp]
      dsimp only
      rw [hk]
      dsimp only
      split
      · rename_i hfull
        refine ⟨_, rfl, ?_, ?_, ?_⟩
        · unfold Writer.finish
          split
          · simp
          · rename_i hz
            have hz' : w.cur ++ rs = [] := by
              rw [List.eq_nil_iff_length_eq_zero]
              have : ¬ (w.cur ++ rs).length > 0 := hz
              omega
            rw [List.append_assoc, hz']
        · intro h1
          unfold Writer.finish
          split
          · rename_i hz
            intro f hf1
            rcases List.mem_append.1 hf1 with k | k
            · exact h1 f k
            · rw [List.mem_singleton.1 k]
              intro k2
              rw [k2] at hz; simp at hz
          · exact h1
        · intro hm; rw [hm] at hfull; simp at hfull
      · exact ⟨_, rfl, by simp, fun h => h, fun _ => rfl⟩
    obtain ⟨w2, k1, k2, k3, k4⟩ := ih w1 (by rw [hw2]; simpa using h)
      (fun r hr => hf r (by simp at hr ⊢; exact Or.inr hr))
    refine ⟨w2, ?_, ?_, fun h1 => k3 (hw3 h1), fun hm => (k4 hm).trans (hw4 hm)⟩
    · rw [List.map_cons, List.foldlM_cons, hw1]
      exact k1
    · rw [k2, hw2]; simp

theorem install_spec {full : List Rec → Bool} {isMeta : Bool} {rss : List (List Rec)}
    (ha : Spec.Ascending rss.flatten) (hf : Spec.Fits rss.flatten) :
    ∃ files, install full isMeta (rss.map enc) = some files ∧ files.flatten = rss.flatten ∧
      (∀ f, f ∈ files → f ≠ []) ∧ (isMeta = true → files.length ≤ 1) := by
  obtain ⟨w, h1, h2, h3, h4⟩ := write_all (full := full) (isMeta := isMeta) rss ⟨[], []⟩
    (by simpa using ha) hf
  refine ⟨w.finish.files, by rw [install, h1]; rfl, ?_, ?_, ?_⟩
  · have h2' : w.files.flatten ++ w.cur = rss.flatten := by simpa using h2
    rw [← h2']
    unfold Writer.finish
    split
    · simp
    · rename_i hz
      have : w.cur = [] := by
        rw [List.eq_nil_iff_length_eq_zero]; omega
      rw [this]; simp
  · have h3' := h3 (by simp)
    unfold Writer.finish
    split
    · rename_i hz
      intro f hf1
      rcases List.mem_append.1 hf1 with k | k
      · exact h3' f k
      · rw [List.mem_singleton.1 k]
        intro k2
        rw [k2] at hz; simp at hz
    · exact h3'
  · intro hm
    have := h4 hm
    unfold Writer.finish
    split <;> simp [this]

end BaikalDB.Transfer
