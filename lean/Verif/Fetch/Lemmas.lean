import Verif.Fetch.Spec

/-!
# Splits keep what a stale region info leads to
-/

namespace BaikalDB.Fetch
open BaikalDB.Fetch.Spec

variable {K : Type} [LinearOrder K] [OrderBot K]

/-- `x` is below the end `s`. -/
def Below (s x : K) : Prop := s = ⊥ ∨ x < s

instance (s x : K) : Decidable (Below s x) := by unfold Below; infer_instance

theorem stopLe_iff (a b : K) : stopLe a b = true ↔ b = ⊥ ∨ (a ≠ ⊥ ∧ a ≤ b) := by
  unfold stopLe
  by_cases h : a = b
  · subst h; simp; exact em _
  · by_cases ha : a = ⊥
    · simp [ha]; exact eq_comm
    · by_cases hb : b = ⊥
      · simp [hb]
      · simp [h, ha, hb]

theorem stopLe_refl (a : K) : stopLe a a = true := by simp [stopLe]

theorem stopLe_trans {a b c : K} (h1 : stopLe a b = true) (h2 : stopLe b c = true) : stopLe a c = true := by
  rw [stopLe_iff] at *
  rcases h2 with h | ⟨h, h'⟩
  · exact .inl h
  · rcases h1 with h1 | ⟨h1, h1'⟩
    · exact absurd h1 h
    · exact .inr ⟨h1, h1'.trans h'⟩

theorem stopLe_of_below {c s : K} (hc : c ≠ ⊥) (h : Below s c) : stopLe c s = true := by
  rw [stopLe_iff]
  rcases h with h | h
  · exact .inl h
  · exact .inr ⟨hc, h.le⟩

theorem not_stopLe_of_below {c s : K} (hc : c ≠ ⊥) (h : Below s c) : stopLe s c = false := by
  rw [Bool.eq_false_iff, Ne, stopLe_iff]
  rintro (h' | ⟨h1, h2⟩)
  · exact hc h'
  · rcases h with h | h
    · exact h1 h
    · exact absurd h (not_lt.2 h2)

theorem Below.mono {a b x : K} (h : stopLe a b = true) (hx : Below a x) : Below b x := by
  rw [stopLe_iff] at h
  rcases h with h | ⟨h, h'⟩
  · exact .inl h
  · rcases hx with hx | hx
    · exact absurd hx h
    · exact .inr (lt_of_lt_of_le hx h')

theorem ne_bot_of_lt' {a b : K} (h : a < b) : b ≠ ⊥ := fun e => by rw [e] at h; exact absurd h (not_lt.2 bot_le)

/-- How many infos of a list have the key in their range. -/
def cnt (x : K) (l : List (Info K)) : Nat := l.countP fun i => decide (Covers i x)

@[simp] theorem cnt_nil (x : K) : cnt x [] = 0 := rfl

@[simp] theorem cnt_cons (x : K) (i : Info K) (l : List (Info K)) :
    cnt x (i :: l) = (if Covers i x then 1 else 0) + cnt x l := by
  simp [cnt, List.countP_cons, Nat.add_comm]

@[simp] theorem cnt_append (x : K) (l m : List (Info K)) : cnt x (l ++ m) = cnt x l + cnt x m := by
  simp [cnt]

theorem cnt_pos {x : K} {i : Info K} {l : List (Info K)} (h : i ∈ l) (hc : Covers i x) : 1 ≤ cnt x l := by
  unfold cnt
  exact List.countP_pos_iff.2 ⟨i, h, by simpa using hc⟩

theorem cnt_perm {x : K} {l m : List (Info K)} (h : l.Perm m) : cnt x l = cnt x m := h.countP_eq _

theorem eraseIdx_perm {α : Type} {l : List α} {n : Nat} {a : α} (h : l[n]? = some a) : l.Perm (a :: l.eraseIdx n) := by
  induction l generalizing n with
  | nil => simp at h
  | cons b t ih =>
    cases n with
    | zero => simp at h; subst h; simp
    | succ n =>
      simp at h
      simp only [List.eraseIdx_cons_succ]
      exact ((ih h).cons b).trans (.swap _ _ _)

/-! ## The new regions of a split -/

omit [OrderBot K] in
theorem pieces_mem {cuts : List (Nat × K)} {s : K} {p : Info K} (hi : cuts.Pairwise fun a b => a.2 < b.2)
    (h : p ∈ pieces cuts s) :
    ∃ c ∈ cuts, p.id = c.1 ∧ p.start = c.2 ∧ p.ver = 1 ∧ (p.stop = s ∨ ∃ c' ∈ cuts, p.stop = c'.2 ∧ c.2 < c'.2) := by
  induction cuts with
  | nil => simp [pieces] at h
  | cons a t ih =>
    obtain ⟨j, c⟩ := a
    cases t with
    | nil => simp [pieces] at h; subst h; exact ⟨(j, c), by simp, rfl, rfl, rfl, .inl rfl⟩
    | cons b t =>
      obtain ⟨j', c'⟩ := b
      simp only [pieces, List.mem_cons] at h
      rcases h with h | h
      · subst h
        exact ⟨(j, c), by simp, rfl, rfl, rfl, .inr ⟨(j', c'), by simp, rfl, (List.pairwise_cons.1 hi).1 _ (by simp)⟩⟩
      · obtain ⟨q, hq, e1, e2, e3, e4⟩ := ih (List.pairwise_cons.1 hi).2 (by simpa using h)
        refine ⟨q, List.mem_cons_of_mem _ hq, e1, e2, e3, ?_⟩
        rcases e4 with e4 | ⟨c2, h2, e4⟩
        · exact .inl e4
        · exact .inr ⟨c2, List.mem_cons_of_mem _ h2, e4⟩

omit [LinearOrder K] [OrderBot K] in
theorem pieces_ids (cuts : List (Nat × K)) (s : K) : (pieces cuts s).map Info.id = cuts.map Prod.fst := by
  induction cuts with
  | nil => rfl
  | cons a t ih =>
    obtain ⟨j, c⟩ := a
    cases t with
    | nil => rfl
    | cons b t => obtain ⟨j', c'⟩ := b; simp only [pieces, List.map_cons] at *; rw [ih]

omit [LinearOrder K] [OrderBot K] in
theorem pieces_ne_nil {cuts : List (Nat × K)} (h : cuts ≠ []) (s : K) : pieces cuts s ≠ [] := by
  intro e
  have := pieces_ids cuts s
  rw [e] at this
  simp at this
  exact h this

theorem pieces_cnt (j : Nat) (c : K) (t : List (Nat × K)) (s x : K) (hi : ((j, c) :: t).Pairwise fun a b => a.2 < b.2)
    (hb : ∀ a ∈ (j, c) :: t, Below s a.2) :
    cnt x (pieces ((j, c) :: t) s) = if c ≤ x ∧ Below s x then 1 else 0 := by
  induction t generalizing j c with
  | nil =>
    have hcov : Covers (⟨j, 1, c, s⟩ : Info K) x ↔ c ≤ x ∧ Below s x := Iff.rfl
    simp [pieces, hcov]
  | cons b t ih =>
    obtain ⟨j', c'⟩ := b
    simp only [pieces, cnt_cons]
    rw [ih j' c' (List.pairwise_cons.1 hi).2 (fun a ha => hb a (List.mem_cons_of_mem _ ha))]
    have hlt : c < c' := (List.pairwise_cons.1 hi).1 (j', c') (by simp)
    have hc' : c' ≠ ⊥ := ne_bot_of_lt' hlt
    have hs : Below s c' := hb (j', c') (by simp)
    have hcov : Covers (⟨j, 1, c, c'⟩ : Info K) x ↔ c ≤ x ∧ x < c' := by simp [Covers, hc']
    by_cases h1 : x < c'
    · have hbel : Below s x := hs.elim .inl fun h => .inr (h1.trans h)
      simp only [hcov, h1, hbel, and_true, not_le.2 h1, if_false, Nat.add_zero]
    · have h2 : c' ≤ x := not_lt.1 h1
      simp only [hcov, h1, and_false, if_false, Nat.zero_add, h2, true_and, hlt.le.trans h2]

/-! ## What a region info leads to -/

/-- Region `i.id` still starts where `i` does and it is as `i` says, or what it has lost since is split among its new regions. -/
def Acc (w : World K) (i : Info K) : Prop :=
  ∃ r, w i.id = some r ∧ i.start = r.info.start ∧ (i = r.info ∨ (i.ver < r.info.ver ∧ r.news ≠ [] ∧
    stopLe r.info.stop i.stop = true ∧ r.info.stop ≠ ⊥ ∧
    ∀ x, cnt x (r.news.filter fun n => stopLe n.stop i.stop) = if r.info.stop ≤ x ∧ Below i.stop x then 1 else 0))

/-- What is always so of the regions when none has been merged. -/
def WI (w : World K) : Prop :=
  ∀ j r, w j = some r → r.info.id = j ∧ r.rows.Nodup ∧ (∀ x ∈ r.rows, Covers r.info x) ∧
    Below r.info.stop r.info.start ∧ ∀ n ∈ r.news, Acc w n ∧ stopLe n.stop r.info.stop = false

theorem Spec.Created.wi {w : World K} (h : Created w) : WI w := by
  intro j r hr
  obtain ⟨h1, h2, h3, h4, h5⟩ := h j r hr
  exact ⟨h1, h2, h3, h4, by rw [h5]; simp⟩

theorem split_self {w : World K} {id : Nat} {r : Reg K} {j : Nat} {c : K} {t : List (Nat × K)} (hr : w id = some r) :
    split w id ((j, c) :: t) id = some { r with
        info := { r.info with ver := r.info.ver + 1, stop := c }
        rows := r.rows.filter fun x => decide (x < c)
        news := r.news ++ pieces ((j, c) :: t) r.info.stop } := by
  simp [split, hr]

theorem split_other {w : World K} {id : Nat} {cuts : List (Nat × K)} (h : Splits w id cuts) {i : Nat} (hne : i ≠ id)
    {r : Reg K} (hr : w i = some r) : split w id cuts i = some r := by
  obtain ⟨r0, h0, _⟩ := h.exist
  cases cuts with
  | nil => exact absurd rfl h.some
  | cons a t =>
    obtain ⟨j, c⟩ := a
    have : (pieces ((j, c) :: t) r0.info.stop).find? (fun p => decide (p.id = i)) = none := by
      rw [List.find?_eq_none]
      intro p hp
      simp only [decide_eq_true_eq]
      rintro rfl
      have : p.id ∈ (pieces ((j, c) :: t) r0.info.stop).map Info.id := List.mem_map_of_mem hp
      rw [pieces_ids] at this
      obtain ⟨q, hq, e⟩ := List.mem_map.1 this
      have := h.fresh q hq
      rw [e, hr] at this
      cases this
    simp only [split, h0, List.head?_cons, if_neg hne, this, hr]

omit [LinearOrder K] [OrderBot K] in
theorem find_of_nodup {l : List (Info K)} (h : (l.map Info.id).Nodup) {p : Info K} (hp : p ∈ l) :
    l.find? (fun q => decide (q.id = p.id)) = some p := by
  induction l with
  | nil => simp at hp
  | cons a t ih =>
    simp only [List.map_cons, List.nodup_cons] at h
    rcases List.mem_cons.1 hp with rfl | hp
    · simp
    · have : a.id ≠ p.id := fun e => h.1 (e ▸ List.mem_map_of_mem hp)
      rw [List.find?_cons_of_neg (by simpa using this)]
      exact ih h.2 hp

theorem Spec.Splits.nodup {w : World K} {id : Nat} {cuts : List (Nat × K)} (h : Splits w id cuts) (s : K) :
    ((pieces cuts s).map Info.id).Nodup := by
  rw [pieces_ids]
  unfold List.Nodup
  rw [List.pairwise_map]
  exact h.ids

theorem split_new {w : World K} {id : Nat} {cuts : List (Nat × K)} (h : Splits w id cuts) {r : Reg K} (hr : w id = some r)
    {p : Info K} (hp : p ∈ pieces cuts r.info.stop) :
    split w id cuts p.id = some ⟨p, r.rows.filter (inRange p), [], none⟩ := by
  cases cuts with
  | nil => exact absurd rfl h.some
  | cons a t =>
    obtain ⟨j, c⟩ := a
    have hne : p.id ≠ id := by
      intro e
      have : p.id ∈ (pieces ((j, c) :: t) r.info.stop).map Info.id := List.mem_map_of_mem hp
      rw [pieces_ids] at this
      obtain ⟨q, hq, e'⟩ := List.mem_map.1 this
      have := h.fresh q hq
      rw [e', e, hr] at this
      cases this
    simp only [split, hr, List.head?_cons, if_neg hne, find_of_nodup (h.nodup _) hp]

/-- Every region after a split is the one that split, a new one, or as before. -/
theorem split_cases {w : World K} {id : Nat} {cuts : List (Nat × K)} {r0 : Reg K} (h0 : w id = some r0) {i : Nat} {r : Reg K}
    (hr : split w id cuts i = some r) (hne : i ≠ id) :
    w i = some r ∨ ∃ p ∈ pieces cuts r0.info.stop, p.id = i ∧ r = ⟨p, r0.rows.filter (inRange p), [], none⟩ := by
  unfold split at hr
  rw [h0] at hr
  cases cuts with
  | nil => exact .inl (by simpa using hr)
  | cons a t =>
    simp only [List.head?_cons, if_neg hne] at hr
    cases hf : (pieces (a :: t) r0.info.stop).find? (fun p => decide (p.id = i)) with
    | none => rw [hf] at hr; exact .inl hr
    | some p =>
      rw [hf] at hr
      simp only [Option.some.injEq] at hr
      exact .inr ⟨p, List.mem_of_find?_eq_some hf, by simpa using List.find?_some hf, hr.symm⟩

theorem Acc.split {w : World K} (hw : WI w) {id : Nat} {cuts : List (Nat × K)} (h : Splits w id cuts) {i : Info K}
    (hi : Acc w i) : Acc (split w id cuts) i := by
  obtain ⟨r, hr, hs, hc⟩ := hi
  by_cases hid : i.id = id
  · obtain ⟨r0, h0, hin⟩ := h.exist
    subst hid
    rw [hr] at h0
    cases h0
    have hids := h.ids
    have hincr := h.incr
    have hsome := h.some
    cases cuts with
    | nil => exact absurd rfl hsome
    | cons a t =>
      obtain ⟨j, c⟩ := a
      have hin' := hin (j, c) (by simp)
      have hcb : c ≠ ⊥ := ne_bot_of_lt' hin'.1
      have hcs : stopLe c r.info.stop = true := stopLe_of_below hcb hin'.2
      refine ⟨_, split_self hr, hs, .inr ?_⟩
      have hnews : ∀ n ∈ r.news, stopLe n.stop r.info.stop = false := fun n hn => ((hw _ r hr).2.2.2.2 n hn).2
      have hkeep : ∀ s, stopLe r.info.stop s = true →
          (pieces ((j, c) :: t) r.info.stop).filter (fun n => stopLe n.stop s) = pieces ((j, c) :: t) r.info.stop := by
        intro s hle
        rw [List.filter_eq_self]
        intro p hp
        obtain ⟨c1, _, _, _, _, e⟩ := pieces_mem hincr hp
        rcases e with e | ⟨c2, h2, e, hl⟩
        · rw [e]; exact hle
        · rw [e]
          exact stopLe_trans (stopLe_of_below (ne_bot_of_lt' hl) (hin c2 h2).2) hle
      have hpc := fun x => pieces_cnt j c t r.info.stop x hincr (fun a ha => (hin a ha).2)
      rcases hc with rfl | ⟨hv, hn, hle, hnb, hcount⟩
      · refine ⟨Nat.lt_succ_self _, by simp [pieces_ne_nil hsome], hcs, hcb, fun x => ?_⟩
        rw [List.filter_append, hkeep _ (stopLe_refl _), List.filter_eq_nil_iff.2 (fun n hn => by simp [hnews n hn])]
        simpa using hpc x
      · refine ⟨Nat.lt_succ_of_lt hv, by simp [hn], stopLe_trans hcs hle, hcb, fun x => ?_⟩
        rw [List.filter_append, hkeep _ hle, cnt_append, hcount, hpc]
        have hlt : c < r.info.stop := hin'.2.resolve_left hnb
        by_cases h1 : r.info.stop ≤ x
        · have h2 : c ≤ x := hlt.le.trans h1
          have h3 : ¬ Below r.info.stop x := by rintro (h | h); exact hnb h; exact absurd h (not_lt.2 h1)
          simp [h1, h2, h3]
        · have h3 : Below r.info.stop x := .inr (not_le.1 h1)
          have h4 : Below i.stop x := h3.mono hle
          simp [h1, h3, h4]
  · exact ⟨r, split_other h hid hr, hs, hc⟩

theorem WI.split {w : World K} (hw : WI w) {id : Nat} {cuts : List (Nat × K)} (h : Splits w id cuts) :
    WI (split w id cuts) := by
  intro i r hr
  obtain ⟨r0, h0, hin⟩ := h.exist
  obtain ⟨w1, w2, w3, w4, w5⟩ := hw id r0 h0
  by_cases hid : i = id
  · subst hid
    have hsome := h.some
    have hincr := h.incr
    obtain ⟨⟨j, c⟩, t, rfl⟩ := List.exists_cons_of_ne_nil hsome
    have hin' := hin (j, c) (by simp)
    have hcb : c ≠ ⊥ := ne_bot_of_lt' hin'.1
    have hcs : stopLe c r0.info.stop = true := stopLe_of_below hcb hin'.2
    rw [split_self h0] at hr
    cases hr
    refine ⟨w1, w2.filter _, ?_, .inr hin'.1, ?_⟩
    · intro x hx
      simp only [List.mem_filter, decide_eq_true_eq] at hx
      exact ⟨(w3 x hx.1).1, .inr hx.2⟩
    · intro n hn
      simp only [List.mem_append] at hn
      rcases hn with hn | hn
      · refine ⟨(w5 n hn).1.split hw h, ?_⟩
        rw [Bool.eq_false_iff]
        intro e
        have := stopLe_trans e hcs
        rw [(w5 n hn).2] at this
        cases this
      · refine ⟨⟨_, split_new h h0 hn, rfl, .inl rfl⟩, ?_⟩
        obtain ⟨c1, hc1, _, _, _, e⟩ := pieces_mem hincr hn
        rcases e with e | ⟨c2, h2, e, hl⟩
        · rw [e]; exact not_stopLe_of_below hcb hin'.2
        · rw [e]
          refine not_stopLe_of_below hcb (.inr (lt_of_le_of_lt ?_ hl))
          rcases List.mem_cons.1 hc1 with rfl | hc1
          · exact le_refl _
          · exact ((List.pairwise_cons.1 hincr).1 _ hc1).le
  · rcases split_cases h0 hr hid with hr' | ⟨p, hp, e, rfl⟩
    · obtain ⟨x1, x2, x3, x4, x5⟩ := hw i r hr'
      exact ⟨x1, x2, x3, x4, fun n hn => ⟨(x5 n hn).1.split hw h, (x5 n hn).2⟩⟩
    · refine ⟨e, w2.filter _, ?_, ?_, by simp⟩
      · intro x hx
        have := (List.mem_filter.1 hx).2
        simp only [inRange, Bool.and_eq_true, Bool.or_eq_true, decide_eq_true_eq] at this
        exact this
      · obtain ⟨c1, hc1, _, e1, _, e2⟩ := pieces_mem h.incr hp
        simp only
        rw [e1]
        rcases e2 with e2 | ⟨c2, _, e2, hl⟩
        · rw [e2]; exact (hin c1 hc1).2
        · rw [e2]; exact .inr hl

omit [LinearOrder K] [OrderBot K] in
theorem write_get {w : World K} {id : Nat} {rows : List K} {i : Nat} {r : Reg K} (h : w i = some r) :
    ∃ l, write w id rows i = some { r with rows := l } ∧ (i = id ∧ l = rows ∨ i ≠ id ∧ l = r.rows) := by
  by_cases hid : i = id
  · subst hid; exact ⟨rows, by simp [write, h], .inl ⟨rfl, rfl⟩⟩
  · exact ⟨r.rows, by simp [write, hid, h], .inr ⟨hid, rfl⟩⟩

omit [LinearOrder K] [OrderBot K] in
theorem write_back {w : World K} {id : Nat} {rows : List K} {i : Nat} {r : Reg K} (h : write w id rows i = some r) :
    ∃ r0, w i = some r0 ∧ r0.info = r.info ∧ r0.news = r.news ∧ (i = id ∧ r.rows = rows ∨ i ≠ id ∧ r.rows = r0.rows) := by
  by_cases hid : i = id
  · simp only [write, if_pos hid, Option.map_eq_some_iff] at h
    obtain ⟨r0, h0, rfl⟩ := h
    exact ⟨r0, h0, rfl, rfl, .inl ⟨hid, rfl⟩⟩
  · simp only [write, if_neg hid] at h
    exact ⟨r, h, rfl, rfl, .inr ⟨hid, rfl⟩⟩

theorem Acc.write {w : World K} {id : Nat} {rows : List K} {i : Info K} (hi : Acc w i) : Acc (write w id rows) i := by
  obtain ⟨r, hr, hs, hc⟩ := hi
  obtain ⟨l, hl, _⟩ := write_get (id := id) (rows := rows) hr
  exact ⟨_, hl, hs, hc⟩

theorem WI.write {w : World K} (hw : WI w) {id : Nat} {rows : List K} (h : Writes w id rows) : WI (write w id rows) := by
  intro i r hr
  obtain ⟨r0, h0, e1, e2, e3⟩ := write_back hr
  obtain ⟨x1, x2, x3, x4, x5⟩ := hw i r0 h0
  rw [← e1, ← e2]
  have hacc : ∀ n ∈ r0.news, Acc (BaikalDB.Fetch.write w id rows) n ∧ stopLe n.stop r0.info.stop = false :=
    fun n hn => ⟨(x5 n hn).1.write, (x5 n hn).2⟩
  rcases e3 with ⟨rfl, e3⟩ | ⟨_, e3⟩
  · obtain ⟨r1, h1, hnd, hcov⟩ := h
    rw [h0] at h1
    cases h1
    rw [e3]
    exact ⟨x1, hnd, hcov, x4, hacc⟩
  · rw [e3]
    exact ⟨x1, x2, x3, x4, hacc⟩

theorem WI.change {v w : World K} (hv : WI v) (h : Change v w) : WI w := by
  cases h with
  | split h => exact hv.split h
  | write h => exact hv.write h

theorem Acc.change {v w : World K} (hv : WI v) (h : Change v w) {i : Info K} (hi : Acc v i) : Acc w i := by
  cases h with
  | split h => exact hi.split hv h
  | write h => exact hi.write

theorem WI.later {v w : World K} (hv : WI v) (h : Later v w) : WI w := by
  induction h with
  | refl => exact hv
  | step _ hc ih => exact ih.change hc

theorem Acc.later {v w : World K} (hv : WI v) (h : Later v w) {i : Info K} (hi : Acc v i) : Acc w i := by
  induction h with
  | refl => exact hi
  | step hl hc ih => exact ih.change (hv.later hl) hc

theorem Spec.Known.acc {w0 w : World K} (h0 : Created w0) {i : Info K} (h : Known w0 w i) : Acc w i := by
  obtain ⟨v, h1, h2, h3⟩ := h
  have hv := h0.wi.later h1
  obtain ⟨r, hr, e⟩ := Option.map_eq_some_iff.1 h3
  exact Acc.later hv h2 ⟨r, hr, by rw [e], .inl e.symm⟩

/-- A region keeps its start. -/
theorem start_change {v w : World K} (hv : WI v) (h : Change v w) {i : Nat} {r : Reg K} (hr : v i = some r) :
    ∃ r', w i = some r' ∧ r'.info.start = r.info.start := by
  have hid := (hv i r hr).1
  obtain ⟨r', h1, h2, _⟩ := Acc.change hv h (i := r.info) ⟨r, by rw [hid]; exact hr, rfl, .inl rfl⟩
  exact ⟨r', by rw [hid] at h1; exact h1, h2.symm⟩

/-! ## The query -/

/-- What holds of a query at any time. `Q` is what is known of the rows read. -/
structure Inv (N : K → Nat) (Q : Info K → List K → Prop) (w : World K) (c : Client K) : Prop where
  wi : WI w
  todo : ∀ i ∈ c.todo, Acc w i
  reads : ∀ d ∈ c.flight ++ c.done, (∃ r, w d.info.id = some r ∧ d.info.start = r.info.start) ∧
    Below d.info.stop d.info.start ∧ d.rows.Nodup ∧ (∀ x ∈ d.rows, Covers d.info x) ∧ Q d.info d.rows
  ok : c.failed = false
  count : ∀ x, cnt x c.todo + cnt x ((c.flight ++ c.done).map Read.info) = N x

theorem Inv.change {N : K → Nat} {Q : Info K → List K → Prop} {v w : World K} {c : Client K} (h : Inv N Q v c)
    (hc : Change v w) : Inv N Q w c := by
  refine ⟨h.wi.change hc, fun i hi => (h.todo i hi).change h.wi hc, fun d hd => ?_, h.ok, h.count⟩
  obtain ⟨⟨r, h1, h2⟩, h3⟩ := h.reads d hd
  obtain ⟨r', h4, h5⟩ := start_change h.wi hc h1
  exact ⟨⟨r', h4, h2.trans h5.symm⟩, h3⟩

theorem Inv.send {N : K → Nat} {Q : Info K → List K → Prop} {w : World K} {c : Client K} (h : Inv N Q w c)
    (hq : ∀ j r, w j = some r → Q r.info r.rows) (n : Nat) : Inv N Q w (c.send w n) := by
  unfold Client.send
  cases hn : c.todo[n]? with
  | none => exact h
  | some i =>
    have hmem : i ∈ c.todo := List.mem_of_getElem? hn
    have hperm := eraseIdx_perm hn
    have hsub : ∀ x ∈ c.todo.eraseIdx n, x ∈ c.todo := fun x hx => List.mem_of_mem_eraseIdx hx
    obtain ⟨r, hr, hs, hcase⟩ := h.todo i hmem
    obtain ⟨w1, w2, w3, w4, w5⟩ := h.wi _ r hr
    simp only [hr]
    have hcount : ∀ x, (if Covers i x then 1 else 0) + cnt x (c.todo.eraseIdx n) +
        cnt x ((c.flight ++ c.done).map Read.info) = N x := by
      intro x
      rw [← h.count x, cnt_perm hperm, cnt_cons]
    rcases hcase with rfl | ⟨hv, hne, hle, hnb, hnews⟩
    · simp only [Reg.answer, lt_irrefl, if_false]
      refine ⟨h.wi, fun x hx => h.todo x (hsub x hx), ?_, h.ok, ?_⟩
      · intro d hd
        simp only [List.append_assoc, List.mem_append, List.mem_cons, List.not_mem_nil, or_false] at hd
        have hold : ∀ d ∈ c.flight ++ c.done, _ := h.reads
        rcases hd with hd | rfl | hd
        · exact hold d (by simp [hd])
        · exact ⟨⟨r, hr, rfl⟩, w4, w2, w3, hq _ _ hr⟩
        · exact hold d (by simp [hd])
      · intro x
        rw [← hcount x]
        simp only [List.map_append, List.map_cons, List.map_nil, cnt_append, cnt_cons, cnt_nil]
        omega
    · have hnm : ¬ (r.info.start ≠ ⊥ ∧ r.info.start = r.info.stop) := by
        rintro ⟨e1, e2⟩
        rcases w4 with w4 | w4
        · exact hnb w4
        · exact absurd e2 w4.ne
      have hlen : 2 ≤ (r.info :: r.news).length := by
        cases hnn : r.news with
        | nil => exact absurd hnn hne
        | cons a t => simp
      simp only [Reg.answer, hv, if_true, hnm, if_false, redirect, hlen, Bool.false_eq_true]
      rw [List.filter_cons_of_pos (by simpa using hle)]
      refine ⟨h.wi, ?_, h.reads, h.ok, ?_⟩
      · intro x hx
        simp only [List.mem_append, List.mem_cons, List.mem_filter] at hx
        rcases hx with hx | rfl | hx
        · exact h.todo x (hsub x hx)
        · exact ⟨r, by rw [w1]; exact hr, rfl, .inl rfl⟩
        · exact (w5 x hx.1).1
      · intro x
        rw [← hcount x]
        simp only [cnt_append, cnt_cons, hnews]
        have hrl : r.info.start < r.info.stop := w4.resolve_left hnb
        have hci : Covers i x ↔ r.info.start ≤ x ∧ Below i.stop x := by unfold Covers Below; rw [hs]
        have hcr : Covers r.info x ↔ r.info.start ≤ x ∧ Below r.info.stop x := Iff.rfl
        simp only [hci, hcr]
        by_cases h1 : r.info.stop ≤ x
        · have h3 : ¬ Below r.info.stop x := by rintro (h | h); exact hnb h; exact absurd h (not_lt.2 h1)
          have h2 : r.info.start ≤ x := hrl.le.trans h1
          simp only [h1, h2, h3, true_and, and_false, if_false]
          omega
        · have h3 : Below r.info.stop x := .inr (not_le.1 h1)
          have h4 : Below i.stop x := h3.mono hle
          simp only [h1, h3, h4, and_true, if_false]
          omega

theorem Inv.arrive {N : K → Nat} (hN : ∀ x, N x ≤ 1) {Q : Info K → List K → Prop} {w : World K} {c : Client K}
    (h : Inv N Q w c) (n : Nat) : Inv N Q w (c.arrive n) := by
  unfold Client.arrive
  cases hn : c.flight[n]? with
  | none => exact h
  | some rd =>
    have hperm := eraseIdx_perm hn
    have hfmem : rd ∈ c.flight := List.mem_of_getElem? hn
    have hkeep : c.done.filter (fun d => decide (d.info.id ≠ rd.info.id)) = c.done := by
      rw [List.filter_eq_self]
      intro d hd
      simp only [decide_eq_true_eq]
      intro e
      obtain ⟨⟨r1, a1, a2⟩, a3, _⟩ := h.reads d (by simp [hd])
      obtain ⟨⟨r2, b1, b2⟩, b3, _⟩ := h.reads rd (by simp [hfmem])
      rw [e, b1] at a1
      cases a1
      have es : d.info.start = rd.info.start := a2.trans b2.symm
      have c1 : Covers d.info rd.info.start := ⟨es.le, by rw [← es]; exact a3⟩
      have c2 : Covers rd.info rd.info.start := ⟨le_refl _, b3⟩
      have n1 := cnt_pos (l := c.flight.map Read.info) (List.mem_map_of_mem hfmem) c2
      have n2 := cnt_pos (l := c.done.map Read.info) (List.mem_map_of_mem hd) c1
      have n3 := h.count rd.info.start
      have n4 := hN rd.info.start
      rw [List.map_append, cnt_append] at n3
      omega
    simp only [hkeep]
    have hp2 : (c.flight.eraseIdx n ++ rd :: c.done).Perm (c.flight ++ c.done) :=
      List.perm_middle.trans (hperm.symm.append_right c.done)
    refine ⟨h.wi, h.todo, fun d hd => h.reads d (hp2.subset hd), h.ok, fun x => ?_⟩
    rw [← h.count x]
    simp only [cnt_perm (hp2.map Read.info)]

theorem Inv.run {P : World K → Prop} {N : K → Nat} (hN : ∀ x, N x ≤ 1) {Q : Info K → List K → Prop}
    (hq : ∀ w, P w → ∀ j r, w j = some r → Q r.info r.rows) {w0 w : World K} {c0 c : Client K} (h0 : Inv N Q w0 c0)
    (h : Run Change P w0 c0 w c) : Inv N Q w c := by
  have : Inv N Q w c ∧ P w := by
    induction h with
    | start hp => exact ⟨h0, hp⟩
    | change _ hc hp ih => exact ⟨ih.1.change hc, hp⟩
    | send n _ ih => exact ⟨ih.1.send (hq _ ih.2) n, ih.2⟩
    | arrive n _ ih => exact ⟨ih.1.arrive hN n, ih.2⟩
  exact this.1

theorem Inv.start {w0 w1 : World K} (h0 : Created w0) (hl : Later w0 w1) {infos : List (Info K)}
    (hk : ∀ i ∈ infos, Known w0 w1 i) (Q : Info K → List K → Prop) :
    Inv (fun x => cnt x infos) Q w1 (Client.start infos) :=
  ⟨h0.wi.later hl, fun i hi => (hk i hi).acc h0, by simp [Client.start], rfl, by simp [Client.start]⟩

/-- Disjoint ranges have each key at most once. -/
theorem cnt_le_one {infos : List (Info K)} (h : Spec.Disjoint infos) (x : K) :
    cnt x infos ≤ 1 := by
  induction infos with
  | nil => simp
  | cons a t ih =>
    rw [Spec.Disjoint, List.pairwise_cons] at h
    rw [cnt_cons]
    by_cases hc : Covers a x
    · have : cnt x t = 0 := by
        unfold cnt
        rw [List.countP_eq_zero]
        intro b hb hb'
        exact h.1 b hb x ⟨hc, by simpa using hb'⟩
      simp [hc, this]
    · simpa [hc] using ih h.2

omit [OrderBot K] in
theorem count_result (k : K) (l : List (Read K)) (f : Read K → Nat) (h : ∀ d ∈ l, d.rows.count k = f d) :
    (l.flatMap Read.rows).count k = (l.map f).sum := by
  induction l with
  | nil => rfl
  | cons a t ih =>
    simp only [List.flatMap_cons, List.count_append, List.map_cons, List.sum_cons]
    rw [ih fun d hd => h d (List.mem_cons_of_mem _ hd), h a (by simp)]

theorem cnt_sum (k : K) (l : List (Read K)) :
    cnt k (l.map Read.info) = (l.map fun d => if Covers d.info k then 1 else 0).sum := by
  induction l with
  | nil => rfl
  | cons a t ih => simp [ih]

/-! ## A key that is neither inserted nor deleted -/

theorem Spec.KeepChange.change {k : K} {v w : World K} (h : KeepChange k v w) : Change v w := by
  cases h with
  | split h => exact .split h
  | write h _ => exact .write h

theorem Spec.Stored.keep {k : K} {v w : World K} (h : KeepChange k v w) (hs : Stored k v) : Stored k w := by
  intro j r hr hc
  cases h with
  | @split id cuts h =>
    obtain ⟨r0, h0, hin⟩ := h.exist
    by_cases hid : j = id
    · subst hid
      obtain ⟨⟨j', c⟩, t, rfl⟩ := List.exists_cons_of_ne_nil h.some
      have hin' := hin (j', c) (by simp)
      have hcb : c ≠ ⊥ := ne_bot_of_lt' hin'.1
      rw [split_self h0] at hr
      cases hr
      have hlt : k < c := hc.2.resolve_left hcb
      have hc0 : Covers r0.info k := ⟨hc.1, hin'.2.elim .inl fun h => .inr (hlt.trans h)⟩
      exact List.mem_filter.2 ⟨hs j r0 h0 hc0, by simpa using hlt⟩
    · rcases split_cases h0 hr hid with h1 | ⟨p, hp, e, rfl⟩
      · exact hs j r h1 hc
      · obtain ⟨c1, hc1, _, e1, _, e2⟩ := pieces_mem h.incr hp
        have hc' : p.start ≤ k ∧ (p.stop = ⊥ ∨ k < p.stop) := hc
        have hst : stopLe p.stop r0.info.stop = true := by
          rcases e2 with e2 | ⟨c2, h2, e2, hl⟩
          · rw [e2]; exact stopLe_refl _
          · rw [e2]; exact stopLe_of_below (ne_bot_of_lt' hl) (hin c2 h2).2
        have hc0 : Covers r0.info k := ⟨(hin c1 hc1).1.le.trans (e1 ▸ hc'.1), Below.mono hst hc'.2⟩
        refine List.mem_filter.2 ⟨hs id r0 h0 hc0, ?_⟩
        simp only [inRange, Bool.and_eq_true, Bool.or_eq_true, decide_eq_true_eq]
        exact hc'
  | @write id rows h hk =>
    obtain ⟨r0, h0, e1, _, e3⟩ := write_back hr
    have := hs j r0 h0 (e1 ▸ hc)
    rcases e3 with ⟨rfl, e3⟩ | ⟨_, e3⟩
    · rw [e3]; exact (hk r0 h0).2 this
    · rw [e3]; exact this

theorem Spec.Absent.keep {k : K} {v w : World K} (h : KeepChange k v w) (hs : Absent k v) : Absent k w := by
  intro j r hr hm
  cases h with
  | @split id cuts h =>
    obtain ⟨r0, h0, hin⟩ := h.exist
    by_cases hid : j = id
    · subst hid
      obtain ⟨⟨j', c⟩, t, rfl⟩ := List.exists_cons_of_ne_nil h.some
      rw [split_self h0] at hr
      cases hr
      exact hs j r0 h0 (List.mem_filter.1 hm).1
    · rcases split_cases h0 hr hid with h1 | ⟨p, _, _, rfl⟩
      · exact hs j r h1 hm
      · exact hs id r0 h0 (List.mem_filter.1 hm).1
  | @write id rows h hk =>
    obtain ⟨r0, h0, _, _, e3⟩ := write_back hr
    rcases e3 with ⟨rfl, e3⟩ | ⟨_, e3⟩
    · exact hs j r0 h0 ((hk r0 h0).1 (e3 ▸ hm))
    · exact hs j r0 h0 (e3 ▸ hm)

theorem Run.keep {k : K} {P : World K → Prop} (hP : ∀ v w, KeepChange k v w → P v → P w) {w0 w : World K} {c0 c : Client K}
    (h0 : P w0) (h : Run (KeepChange k) (fun _ => True) w0 c0 w c) : Run Change P w0 c0 w c := by
  have : Run Change P w0 c0 w c ∧ P w := by
    induction h with
    | start _ => exact ⟨.start h0, h0⟩
    | change _ hc _ ih => exact ⟨.change ih.1 hc.change (hP _ _ hc ih.2), hP _ _ hc ih.2⟩
    | send n _ ih => exact ⟨.send n ih.1, ih.2⟩
    | arrive n _ ih => exact ⟨.arrive n ih.1, ih.2⟩
  exact this.1

/-! ## The query ends -/

/-- How many steps the requests for the regions of a list can still take. -/
inductive Pot (w : World K) : List (Info K) → Nat → Prop
  | nil : Pot w [] 0
  | cons {i r t a b} : w i.id = some r → Pot w r.news a → Pot w t b → Pot w (i :: t) ((if i.ver < r.info.ver then 3 + a else 2) + b)

omit [LinearOrder K] [OrderBot K] in
theorem Pot.append {w : World K} {l m : List (Info K)} {a b : Nat} (h1 : Pot w l a) (h2 : Pot w m b) :
    Pot w (l ++ m) (a + b) := by
  induction h1 with
  | nil => simpa using h2
  | @cons i r t a1 b1 hr hn _ _ ih =>
    have := Pot.cons hr hn ih
    rwa [← Nat.add_assoc] at this

omit [LinearOrder K] [OrderBot K] in
theorem Pot.perm {w : World K} {l m : List (Info K)} (h : l.Perm m) {a : Nat} (h1 : Pot w l a) : Pot w m a := by
  induction h generalizing a with
  | nil => exact h1
  | cons x _ ih => cases h1 with | cons hr hn ht => exact .cons hr hn (ih ht)
  | swap x y l =>
    cases h1 with
    | @cons _ r1 _ a1 b1 hr hn ht =>
      cases ht with
      | @cons _ r2 _ a2 b2 hr2 hn2 ht2 =>
        have := Pot.cons hr2 hn2 (Pot.cons hr hn ht2)
        rwa [Nat.add_left_comm] at this
  | trans _ _ ih1 ih2 => exact ih2 (ih1 h1)

omit [LinearOrder K] [OrderBot K] in
theorem Pot.filter {w : World K} {l : List (Info K)} {a : Nat} (h : Pot w l a) (p : Info K → Bool) :
    ∃ b, b ≤ a ∧ Pot w (l.filter p) b := by
  induction h with
  | nil => exact ⟨0, le_refl _, .nil⟩
  | @cons i r t a1 b1 hr hn _ _ ih =>
    obtain ⟨b2, h1, h2⟩ := ih
    by_cases hp : p i = true
    · rw [List.filter_cons_of_pos hp]
      exact ⟨_, by omega, .cons hr hn h2⟩
    · rw [List.filter_cons_of_neg hp]
      exact ⟨_, by omega, h2⟩

omit [LinearOrder K] [OrderBot K] in
/-- Where every region has new regions it knows all of, a list of regions has an end. -/
theorem Pot.of_mem {w : World K} {l : List (Info K)} (h : ∀ i ∈ l, ∃ r a, w i.id = some r ∧ Pot w r.news a) :
    ∃ a, Pot w l a := by
  induction l with
  | nil => exact ⟨0, .nil⟩
  | cons i t ih =>
    obtain ⟨b, hb⟩ := ih fun j hj => h j (List.mem_cons_of_mem _ hj)
    obtain ⟨r, a, hr, ha⟩ := h i (by simp)
    exact ⟨_, .cons hr ha hb⟩

/-- Following the new regions of a region comes to an end. -/
def Ends (w : World K) : Prop := ∀ j r, w j = some r → ∃ a, Pot w r.news a

theorem Pot.split {w : World K} {id : Nat} {cuts : List (Nat × K)} (h : Splits w id cuts) {l : List (Info K)} {a : Nat}
    (hp : Pot w l a) : ∃ b, Pot (Fetch.split w id cuts) l b := by
  induction hp with
  | nil => exact ⟨0, .nil⟩
  | @cons i r t a1 b1 hr hn _ ih1 ih2 =>
    obtain ⟨a2, h1⟩ := ih1
    obtain ⟨b2, h2⟩ := ih2
    by_cases hid : i.id = id
    · subst hid
      have hpc : ∃ c, Pot (Fetch.split w i.id cuts) (pieces cuts r.info.stop) c := by
        refine Pot.of_mem fun p hp => ⟨_, 0, split_new h hr hp, .nil⟩
      obtain ⟨c, hc⟩ := hpc
      obtain ⟨⟨j, k⟩, u, rfl⟩ := List.exists_cons_of_ne_nil h.some
      exact ⟨_, .cons (split_self hr) (h1.append hc) h2⟩
    · exact ⟨_, .cons (split_other h hid hr) h1 h2⟩

omit [LinearOrder K] [OrderBot K] in
theorem Pot.write {w : World K} {id : Nat} {rows : List K} {l : List (Info K)} {a : Nat} (hp : Pot w l a) :
    Pot (Fetch.write w id rows) l a := by
  induction hp with
  | nil => exact .nil
  | cons hr _ _ ih1 ih2 =>
    obtain ⟨l, hl, _⟩ := write_get (id := id) (rows := rows) hr
    have := Pot.cons hl ih1 ih2
    exact this

theorem Ends.change {v w : World K} (he : Ends v) (h : Change v w) : Ends w := by
  intro j r hr
  cases h with
  | @split id cuts h =>
    obtain ⟨r0, h0, _⟩ := h.exist
    by_cases hid : j = id
    · subst hid
      obtain ⟨a, ha⟩ := he j r0 h0
      obtain ⟨b, hb⟩ := ha.split h
      have hpc : ∃ c, Pot (split v j cuts) (pieces cuts r0.info.stop) c := by
        refine Pot.of_mem fun p hp => ⟨_, 0, split_new h h0 hp, .nil⟩
      obtain ⟨c, hc⟩ := hpc
      obtain ⟨⟨j', k⟩, u, rfl⟩ := List.exists_cons_of_ne_nil h.some
      rw [split_self h0] at hr
      cases hr
      exact ⟨_, hb.append hc⟩
    · rcases split_cases h0 hr hid with h1 | ⟨p, _, _, rfl⟩
      · obtain ⟨a, ha⟩ := he j r h1
        exact ha.split h
      · exact ⟨0, .nil⟩
  | write h =>
    obtain ⟨r0, h0, _, e, _⟩ := write_back hr
    obtain ⟨a, ha⟩ := he j r0 h0
    exact ⟨a, e ▸ ha.write⟩

theorem Spec.Created.ends {w : World K} (h : Created w) : Ends w := by
  intro j r hr
  rw [(h j r hr).2.2.2.2]
  exact ⟨0, .nil⟩

theorem Ends.later {v w : World K} (hv : Ends v) (h : Later v w) : Ends w := by
  induction h with
  | refl => exact hv
  | step _ hc ih => exact ih.change hc

theorem Ends.run {P : World K → Prop} {v w : World K} {c0 c : Client K} (hv : Ends v) (h : Run Change P v c0 w c) : Ends w := by
  induction h with
  | start => exact hv
  | change _ hc _ ih => exact ih.change hc
  | send _ _ ih => exact ih
  | arrive _ _ ih => exact ih

theorem Pot.send {N : K → Nat} {Q : Info K → List K → Prop} {w : World K} {c : Client K} (h : Inv N Q w c) {a : Nat}
    (hp : Pot w c.todo a) {n : Nat} (hn : n < c.todo.length) :
    ∃ b, Pot w (c.send w n).todo b ∧ b + (c.send w n).flight.length + 1 ≤ a + c.flight.length := by
  have hg : c.todo[n]? = some c.todo[n] := List.getElem?_eq_getElem hn
  generalize c.todo[n] = i at hg
  have hp' := hp.perm (eraseIdx_perm hg)
  cases hp' with
  | @cons _ r _ a1 b1 hr hnews ht =>
    obtain ⟨r', hr', hs, hcase⟩ := h.todo i (List.mem_of_getElem? hg)
    rw [hr] at hr'
    cases hr'
    obtain ⟨w1, w2, w3, w4, w5⟩ := h.wi _ r hr
    unfold Client.send
    rw [hg]
    simp only [hr]
    rcases hcase with rfl | ⟨hv, hne, hle, hnb, _⟩
    · simp only [Reg.answer, lt_irrefl, if_false]
      exact ⟨b1, ht, by simp; omega⟩
    · have hnm : ¬ (r.info.start ≠ ⊥ ∧ r.info.start = r.info.stop) := by
        rintro ⟨e1, e2⟩
        rcases w4 with w4 | w4
        · exact hnb w4
        · exact absurd e2 w4.ne
      have hlen : 2 ≤ (r.info :: r.news).length := by
        cases hnn : r.news with
        | nil => exact absurd hnn hne
        | cons a t => simp
      simp only [Reg.answer, hv, if_true, hnm, if_false, redirect, hlen, Bool.false_eq_true]
      rw [List.filter_cons_of_pos (by simpa using hle)]
      obtain ⟨b2, hb2, hf⟩ := hnews.filter fun x => stopLe x.stop i.stop
      have hr2 : w r.info.id = some r := by rw [w1]; exact hr
      refine ⟨_, ht.append (Pot.cons hr2 hnews hf), ?_⟩
      simp only [lt_irrefl, if_false]
      omega

theorem Pot.moves {N : K → Nat} (hN : ∀ x, N x ≤ 1) {w : World K} {c : Client K} {a : Nat}
    (hi : Inv N (fun _ _ => True) w c) (hp : Pot w c.todo a) {m : Nat} {c' : Client K} (h : Moves w c m c') :
    Inv N (fun _ _ => True) w c' ∧ ∃ b, Pot w c'.todo b ∧ b + c'.flight.length + m ≤ a + c.flight.length := by
  induction h with
  | zero => exact ⟨hi, a, hp, by omega⟩
  | send n _ hn ih =>
    obtain ⟨h1, b, h2, h3⟩ := ih
    obtain ⟨b', h4, h5⟩ := h2.send h1 hn
    exact ⟨h1.send (fun _ _ _ => trivial) n, b', h4, by omega⟩
  | @arrive m c' n _ hn ih =>
    obtain ⟨h1, b, h2, h3⟩ := ih
    refine ⟨h1.arrive hN n, b, ?_, ?_⟩
    · unfold Client.arrive
      rw [List.getElem?_eq_getElem hn]
      exact h2
    · unfold Client.arrive
      rw [List.getElem?_eq_getElem hn]
      simp only [List.length_eraseIdx, hn, if_true]
      omega

end BaikalDB.Fetch
