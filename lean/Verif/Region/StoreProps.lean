import Verif.Region.Store
import Verif.KeyEnc.Props
import Mathlib.Tactic.Common
import Mathlib.Tactic.Ring

/-!
# C09: each key belongs to exactly one region, through splits and merges
-/

namespace BaikalDB.Region

open KeyEnc (endKeyCompare)

/-! ## Specification -/

/-- `x` lies in `[start, stop)`, an empty `stop` being plus infinity. -/
def Covers (start stop x : Bytes) : Prop := BLe start x ∧ (stop = [] ∨ BLt x stop)

theorem inRange_iff (s e x : Bytes) : inRange s e x = true ↔ Covers s e x := by
  simp only [inRange, Covers, Bool.and_eq_true, bne_iff_ne, ne_eq, Bool.or_eq_true, beq_iff_eq]
  constructor
  · rintro ⟨h1, h2⟩; exact ⟨not_BLt.1 h1, h2⟩
  · rintro ⟨h1, h2⟩; exact ⟨not_BLt.2 h1, h2⟩

/-- The fitness test of a region is the half-open interval of its start and end key. -/
theorem C09_fits (s e x : Bytes) : inRange s e x = true ↔ BLe s x ∧ (e = [] ∨ BLt x e) := inRange_iff s e x

def cov (s e x : Bytes) : Nat := if inRange s e x then 1 else 0

theorem cov_pos {s e x : Bytes} (h : Covers s e x) : cov s e x = 1 := by simp [cov, (inRange_iff s e x).2 h]
theorem cov_zero {s e x : Bytes} (h : ¬ Covers s e x) : cov s e x = 0 := by
  simp [cov, mt (inRange_iff s e x).1 h]

theorem cov_cases (s e x : Bytes) : (Covers s e x ∧ cov s e x = 1) ∨ (¬ Covers s e x ∧ cov s e x = 0) := by
  by_cases h : Covers s e x
  · exact .inl ⟨h, cov_pos h⟩
  · exact .inr ⟨h, cov_zero h⟩

/-- Cutting `[a, c)` at `b`. -/
theorem cov_cut {a b c : Bytes} (hb : b ≠ []) (hab : BLe a b) (hbc : c = [] ∨ BLe b c) (x : Bytes) :
    cov a c x = cov a b x + cov b c x := by
  rcases BLt_trichotomy x b with h | h | h
  · have h3 : ¬ Covers b c x := fun hh => not_BLt.2 hh.1 h
    rw [cov_zero h3]
    by_cases ha : BLe a x
    · rw [cov_pos (s := a) (e := b) ⟨ha, .inr h⟩, cov_pos (s := a) (e := c) ⟨ha, hbc.imp id fun hc => h.trans_le hc⟩]
    · rw [cov_zero (s := a) (e := b) fun hh => ha hh.1, cov_zero (s := a) (e := c) fun hh => ha hh.1]
  · subst h
    have h3 : ¬ Covers a x x := fun hh => hh.2.elim hb fun hx => BLt.irrefl x hx
    rw [cov_zero h3]
    by_cases hc : c = [] ∨ BLt x c
    · rw [cov_pos (s := x) (e := c) ⟨BLe.refl x, hc⟩, cov_pos (s := a) (e := c) ⟨hab, hc⟩]
    · rw [cov_zero (s := x) (e := c) fun hh => hc hh.2, cov_zero (s := a) (e := c) fun hh => hc hh.2]
  · have h3 : ¬ Covers a b x := fun hh => hh.2.elim hb fun hx => BLt.asymm h hx
    rw [cov_zero h3]
    by_cases hc : c = [] ∨ BLt x c
    · rw [cov_pos (s := b) (e := c) ⟨h.le, hc⟩, cov_pos (s := a) (e := c) ⟨hab.trans h.le, hc⟩]
    · rw [cov_zero (s := b) (e := c) fun hh => hc hh.2, cov_zero (s := a) (e := c) fun hh => hc hh.2]

theorem cov_empty {a x : Bytes} (ha : a ≠ []) : cov a a x = 0 :=
  cov_zero fun h => h.2.elim ha fun hx => not_BLt.2 h.1 hx

/-! ## Sums over the state -/

def tot (g : Reg → Nat) (st : State) : Nat := (st.map g).sum

theorem tot_append (g : Reg → Nat) (a b : State) : tot g (a ++ b) = tot g a + tot g b := by simp [tot]
theorem tot_cons (g : Reg → Nat) (r : Reg) (b : State) : tot g (r :: b) = g r + tot g b := by simp [tot]

theorem modify_of_not_mem {st : State} {p : Nat} {f : Reg → Reg} (h : ∀ r ∈ st, r.id ≠ p) : modify st p f = st := by
  unfold modify
  induction st with
  | nil => rfl
  | cons a t ih =>
    rw [List.map_cons, ih fun r hr => h r (List.mem_cons_of_mem _ hr)]
    simp [h a List.mem_cons_self]

/-- The occurrences of an id, as region or as region to be created. -/
def idc (i : Nat) (r : Reg) : Nat := (if r.id = i then 1 else 0) + (r.job.todo.map (·.id)).count i

theorem tot_le_of_mem {g : Reg → Nat} {st : State} {r : Reg} (h : r ∈ st) : g r ≤ tot g st := by
  induction st with
  | nil => cases h
  | cons a t ih =>
    rw [tot_cons]
    rcases List.mem_cons.1 h with rfl | h
    · omega
    · have := ih h; omega

theorem get_mem {st : State} {p : Nat} {r : Reg} (h : get st p = some r) : r ∈ st ∧ r.id = p := by
  unfold get at h
  exact ⟨List.mem_of_find?_eq_some h, by simpa using List.find?_some h⟩

theorem split_at {st : State} {p : Nat} {r : Reg} (hu : ∀ i, tot (idc i) st ≤ 1) (h : get st p = some r) :
    ∃ l l', st = l ++ r :: l' ∧ (∀ q ∈ l, q.id ≠ p) ∧ (∀ q ∈ l', q.id ≠ p) := by
  obtain ⟨hm, hid⟩ := get_mem h
  obtain ⟨l, l', rfl⟩ := List.append_of_mem hm
  refine ⟨l, l', rfl, fun q hq he => ?_, fun q hq he => ?_⟩
  · have h1 := hu p
    rw [tot_append, tot_cons] at h1
    have h2 := tot_le_of_mem (g := idc p) hq
    simp only [idc, he, hid, if_true] at h1 h2
    omega
  · have h1 := hu p
    rw [tot_append, tot_cons] at h1
    have h2 := tot_le_of_mem (g := idc p) hq
    simp only [idc, he, hid, if_true] at h1 h2
    omega

theorem modify_at {l l' : State} {p : Nat} {r : Reg} (f : Reg → Reg) (hr : r.id = p) (hl : ∀ q ∈ l, q.id ≠ p)
    (hl' : ∀ q ∈ l', q.id ≠ p) : modify (l ++ r :: l') p f = l ++ f r :: l' := by
  have h : modify (l ++ r :: l') p f = modify l p f ++ (if r.id == p then f r else r) :: modify l' p f := by
    simp [modify]
  rw [h, modify_of_not_mem hl, modify_of_not_mem hl']; simp [hr]

/-! ## The invariant -/

def kidsCov (l : List Kid) (x : Bytes) : Nat := (l.map fun k => cov k.start k.stop x).sum

/-- What a region stands for once its current job is done: a splitting region keeps the part below the split key and
still has to hand out the regions in `todo`; a region whose range has been taken over stands for nothing. -/
def eff (x : Bytes) (r : Reg) : Nat :=
  match r.job with
  | .idle => cov r.start r.stop x
  | .split key _ todo => cov r.start key x + kidsCov todo x
  | .merge _ ext => if ext then 0 else cov r.start r.stop x

def WFReg (r : Reg) : Prop :=
  (r.stop = [] ∨ BLe r.start r.stop) ∧
  match r.job with
  | .idle => True
  | .split key kids todo =>
      key ≠ [] ∧ BLe r.start key ∧ (∃ pre, kids = pre ++ todo) ∧
      (∀ x, cov r.start r.stop x = cov r.start key x + kidsCov kids x) ∧
      ∀ k ∈ kids, k.stop = [] ∨ BLe k.start k.stop
  | .merge dst ext => dst ≠ r.id ∧ (ext = true → r.start ≠ [])

structure Inv (st : State) : Prop where
  one : ∀ x, tot (eff x) st = 1
  wf : ∀ r ∈ st, WFReg r
  ids : ∀ i, tot (idc i) st ≤ 1

theorem ascending_le {a : Bytes} {bs : List Bytes} (h : ascending a bs = true) : ∀ b ∈ bs, BLt a b := by
  induction bs generalizing a with
  | nil => simp
  | cons b bs ih =>
    simp only [ascending, Bool.and_eq_true, beq_iff_eq] at h
    intro c hc
    rcases List.mem_cons.1 hc with rfl | hc
    · exact h.1
    · exact BLt.trans h.1 (ih h.2 c hc)

theorem BLt_ne_nil {a b : Bytes} (h : BLt a b) : b ≠ [] := by
  rintro rfl; exact not_BLt.2 (BLe_nil a) h

theorem mkKids_cov {stop : Bytes} {bounds : List Bytes} : ∀ {start : Bytes} {ids : List Nat},
    ids.length = bounds.length + 1 → ascending start bounds = true → (bounds = [] ∨ stop = []) →
    (∀ x, kidsCov (mkKids stop start ids bounds) x = cov start stop x) ∧
    (stop = [] ∨ BLe start stop → ∀ k ∈ mkKids stop start ids bounds, k.stop = [] ∨ BLe k.start k.stop) ∧
    (mkKids stop start ids bounds).map (·.id) = ids := by
  induction bounds with
  | nil =>
    intro start ids hl _ _
    match ids, hl with
    | [i], _ => exact ⟨fun x => by simp [mkKids, kidsCov], fun h k hk => by simp [mkKids] at hk; subst hk; exact h, by simp [mkKids]⟩
  | cons b bs ih =>
    intro start ids hl ha hs
    have hst : stop = [] := by simpa using hs
    subst hst
    match ids, hl with
    | i :: j :: is, hl =>
      simp only [ascending, Bool.and_eq_true, beq_iff_eq] at ha
      have hb : BLt start b := ha.1
      obtain ⟨h1, h2, h3⟩ := ih (start := b) (ids := j :: is) (by simpa using hl) ha.2 (.inr rfl)
      refine ⟨fun x => ?_, fun _ k hk => ?_, ?_⟩
      · show cov start b x + kidsCov (mkKids [] b (j :: is) bs) x = _
        rw [h1, ← cov_cut (BLt_ne_nil hb) hb.le (.inl rfl)]
      · rw [show mkKids ([] : Bytes) start (i :: j :: is) (b :: bs) = ⟨i, start, b⟩ :: mkKids [] b (j :: is) bs from rfl] at hk
        rcases List.mem_cons.1 hk with rfl | hk
        · exact .inr hb.le
        · exact h2 (.inl rfl) k hk
      · show i :: (mkKids [] b (j :: is) bs).map (·.id) = _
        rw [h3]

/-- `interrupted` is harmless unless a new region has been switched on or the other region extended already. -/
def Harmless (st : State) : Ev → Prop
  | .interrupted p => ∀ r, get st p = some r → match r.job with
      | .idle => True
      | .split _ kids todo => kids = todo
      | .merge _ ext => ext = false
  | _ => True

theorem usedIds_zero {st : State} {i : Nat} (h : i ∉ usedIds st) : tot (idc i) st = 0 := by
  induction st with
  | nil => rfl
  | cons a t ih =>
    simp only [usedIds, List.flatMap_cons, List.mem_append, not_or, List.mem_cons] at h
    rw [tot_cons, ih h.2, idc, if_neg (fun e => h.1.1 e.symm), List.count_eq_zero.2 h.1.2]

theorem tot_change {st : State} {p : Nat} {r : Reg} (hu : ∀ i, tot (idc i) st ≤ 1) (h : get st p = some r)
    (f : Reg → Reg) (g : Reg → Nat) : tot g (modify st p f) + g r = tot g st + g (f r) := by
  obtain ⟨l, l', rfl, hl, hl'⟩ := split_at hu h
  rw [modify_at f (get_mem h).2 hl hl']
  simp only [tot_append, tot_cons]; omega

theorem mem_modify {st : State} {p : Nat} {f : Reg → Reg} {r : Reg} (hu : ∀ i, tot (idc i) st ≤ 1)
    (h : get st p = some r) {q : Reg} (hq : q ∈ modify st p f) : (q ∈ st ∧ q.id ≠ p) ∨ q = f r := by
  obtain ⟨l, l', rfl, hl, hl'⟩ := split_at hu h
  rw [modify_at f (get_mem h).2 hl hl'] at hq
  simp only [List.mem_append, List.mem_cons] at hq ⊢
  rcases hq with hq | hq | hq
  · exact .inl ⟨.inl hq, hl q hq⟩
  · exact .inr hq
  · exact .inl ⟨.inr (.inr hq), hl' q hq⟩

/-- Replacing one region by one that stands for the same keys and uses the same ids keeps the invariant. -/
theorem inv_modify {st : State} {p : Nat} {r : Reg} (hi : Inv st) (h : get st p = some r) (f : Reg → Reg)
    (h1 : ∀ x, eff x (f r) = eff x r) (h2 : WFReg (f r)) (h3 : ∀ i, idc i (f r) ≤ idc i r) : Inv (modify st p f) := by
  refine ⟨fun x => ?_, fun q hq => ?_, fun i => ?_⟩
  · have := tot_change hi.ids h f (eff x)
    have h0 := hi.one x
    rw [h1] at this; omega
  · rcases mem_modify hi.ids h hq with hq | rfl
    · exact hi.wf q hq.1
    · exact h2
  · have := tot_change hi.ids h f (idc i)
    have h0 := hi.ids i
    have := h3 i; omega

theorem tot_two {g : Reg → Nat} {st : State} {a b : Reg} (ha : a ∈ st) (hb : b ∈ st) (hne : a ≠ b) :
    g a + g b ≤ tot g st := by
  obtain ⟨l, l', rfl⟩ := List.append_of_mem ha
  rw [tot_append, tot_cons]
  simp only [List.mem_append, List.mem_cons] at hb
  rcases hb with hb | hb | hb
  · have := tot_le_of_mem (g := g) hb; omega
  · exact absurd hb.symm hne
  · have := tot_le_of_mem (g := g) hb; omega

/-- In a state where every key has one owner, two idle regions that may be merged are neighbours. -/
theorem merge_adjacent {st : State} (hi : Inv st) {src dst : Reg} (hs : src ∈ st) (hd : dst ∈ st) (hne : src ≠ dst)
    (hsj : ∀ x, eff x src = cov src.start src.stop x) (hdj : ∀ x, eff x dst = cov dst.start dst.stop x)
    (hok : mergeOk src dst = true) :
    src.start ≠ [] ∧ src.stop = dst.start ∧ BLt src.start src.stop ∧ (dst.stop = [] ∨ BLe src.stop dst.stop) := by
  simp only [mergeOk, Bool.and_eq_true, bne_iff_ne, ne_eq, Bool.not_eq_true', Bool.or_eq_false_iff, beq_eq_false_iff_ne] at hok
  obtain ⟨⟨hs0, he0⟩, ⟨⟨⟨hse, hde⟩, h1⟩, h2⟩, h3⟩ := hok
  have hsle := (hi.wf src hs).1.resolve_left he0
  have hslt : BLt src.start src.stop := (BLe_iff.1 hsle).resolve_right hse
  have hdw := (hi.wf dst hd).1
  have hdst : BLe dst.start src.stop := not_BLt.1 h1
  have hdsrc : BLe src.start dst.start := not_BLt.1 h2
  have hstop : dst.stop = [] ∨ BLe src.stop dst.stop := by
    by_cases hd0 : dst.stop = []
    · exact .inl hd0
    · refine .inr ?_
      unfold endKeyCompare at h3
      by_cases he : src.stop = dst.stop
      · rw [he]; exact BLe.refl _
      · rw [if_neg he, if_neg he0, if_neg hd0] at h3; exact h3
  refine ⟨hs0, ?_, hslt, hstop⟩
  by_contra hcon
  have hlt : BLt dst.start src.stop := (BLe_iff.1 hdst).resolve_right (fun e => hcon e.symm)
  -- the key dst.start is covered by both
  have c1 : Covers src.start src.stop dst.start := ⟨hdsrc, .inr hlt⟩
  have c2 : Covers dst.start dst.stop dst.start := by
    refine ⟨BLe.refl _, ?_⟩
    rcases hdw with h | h
    · exact .inl h
    · exact .inr ((BLe_iff.1 h).resolve_right hde)
  have := tot_two (g := eff dst.start) hs hd hne
  rw [hi.one, hsj, hdj, cov_pos c1, cov_pos c2] at this
  omega

theorem inv_step {st st' : State} {e : Ev} (hi : Inv st) (hh : Harmless st e) (hs : step st e = some st') : Inv st' := by
  cases e with
  | splitBegin p key ids bounds =>
    simp only [step] at hs
    cases hg : get st p with
    | none => rw [hg] at hs; cases hs
    | some r =>
      rw [hg] at hs; simp only at hs
      split at hs
      swap
      · cases hs
      rename_i hc
      simp only [Bool.and_eq_true, beq_iff_eq, decide_eq_true_eq, List.all_eq_true, Bool.not_eq_true',
        List.contains_eq_mem, decide_eq_false_iff_not] at hc
      obtain ⟨⟨⟨hj, hok⟩, hnd⟩, hfresh⟩ := hc
      simp only [splitOk, Bool.and_eq_true, bne_iff_ne, ne_eq, beq_iff_eq, Bool.or_eq_true] at hok
      obtain ⟨⟨⟨⟨⟨hk0, hk1⟩, hk2⟩, hlen⟩, hb⟩, hasc⟩ := hok
      injection hs with hs; subst hs
      obtain ⟨hm, hid⟩ := get_mem hg
      have hw := hi.wf r hm
      have hks : BLe r.start key := hk1
      have hke : r.stop = [] ∨ BLe key r.stop := hk2
      obtain ⟨hcov, hkw, hkid⟩ := mkKids_cov (stop := r.stop) hlen hasc hb
      have hcut := fun x => cov_cut hk0 hks hke x
      have heff : ∀ x, eff x { r with job := .split key (mkKids r.stop key ids bounds) (mkKids r.stop key ids bounds) } = eff x r := by
        intro x; simp only [eff, hj]; rw [hcov, ← hcut]
      refine ⟨fun x => ?_, fun q hq => ?_, fun i => ?_⟩
      · have h0 := hi.one x
        have h1 := heff x
        show tot (eff x) (modify st p (fun q => { q with job := .split key (mkKids r.stop key ids bounds) (mkKids r.stop key ids bounds) })) = 1
        have h2 := tot_change hi.ids hg (fun q => { q with job := .split key (mkKids r.stop key ids bounds) (mkKids r.stop key ids bounds) }) (eff x)
        rw [h1] at h2; omega
      · rcases mem_modify hi.ids hg hq with hq | rfl
        · exact hi.wf q hq.1
        · exact ⟨hw.1, hk0, hks, ⟨[], rfl⟩, fun x => by rw [hcov, ← hcut], hkw hke⟩
      · have h2 := tot_change hi.ids hg (fun q => { q with job := .split key (mkKids r.stop key ids bounds) (mkKids r.stop key ids bounds) }) (idc i)
        simp only [idc, Job.todo, hkid, hj, List.map_nil, List.count_nil] at h2
        by_cases hmem : i ∈ ids
        · have h3 := usedIds_zero (hfresh i hmem)
          have h4 : List.count i ids ≤ 1 := List.nodup_iff_count.1 hnd i
          omega
        · rw [List.count_eq_zero.2 hmem] at h2
          have := hi.ids i
          omega
  | splitActivate p =>
    simp only [step] at hs
    cases hg : get st p with
    | none => rw [hg] at hs; cases hs
    | some r =>
      rw [hg] at hs; simp only at hs
      obtain ⟨hm, hid⟩ := get_mem hg
      have hw := hi.wf r hm
      split at hs
      swap
      · cases hs
      rename_i key kids k todo hj
      injection hs with hs; subst hs
      unfold WFReg at hw
      rw [hj] at hw; simp only at hw
      obtain ⟨hw1, hk0, hks, ⟨pre, hpre⟩, hc, hkw⟩ := hw
      refine ⟨fun x => ?_, fun q hq => ?_, fun i => ?_⟩
      · have h2 := tot_change hi.ids hg (fun r => { r with job := .split key kids todo }) (eff x)
        have h0 := hi.one x
        rw [tot_append, tot_cons]
        simp only [eff, hj, kidsCov, List.map_cons, List.sum_cons] at h2 h0 ⊢
        simp only [tot, List.map_nil, List.sum_nil] at h2 h0 ⊢
        omega
      · rw [List.mem_append, List.mem_singleton] at hq
        rcases hq with hq | rfl
        · rcases mem_modify hi.ids hg hq with hq | rfl
          · exact hi.wf q hq.1
          · exact ⟨hw1, hk0, hks, ⟨pre ++ [k], by simp [hpre]⟩, hc, hkw⟩
        · exact ⟨hkw k (by rw [hpre]; simp), trivial⟩
      · have h2 := tot_change hi.ids hg (fun r => { r with job := .split key kids todo }) (idc i)
        have h0 := hi.ids i
        rw [tot_append, tot_cons]
        simp only [idc, Job.todo, hj, List.map_cons, List.count_cons, List.map_nil, List.count_nil, beq_iff_eq] at h2 h0 ⊢
        simp only [tot, List.map_nil, List.sum_nil] at h2 h0 ⊢
        omega
  | splitFinish p =>
    simp only [step] at hs
    cases hg : get st p with
    | none => rw [hg] at hs; cases hs
    | some r =>
      rw [hg] at hs; simp only at hs
      obtain ⟨hm, hid⟩ := get_mem hg
      have hw := hi.wf r hm
      split at hs
      swap
      · cases hs
      rename_i key kids hj
      injection hs with hs; subst hs
      unfold WFReg at hw
      rw [hj] at hw; simp only at hw
      refine inv_modify hi hg _ (fun x => ?_) ⟨.inr hw.2.2.1, trivial⟩ (fun i => ?_)
      · simp [eff, hj, kidsCov]
      · simp [idc, hj, Job.todo]
  | splitAbort p =>
    simp only [step] at hs
    cases hg : get st p with
    | none => rw [hg] at hs; cases hs
    | some r =>
      rw [hg] at hs; simp only at hs
      obtain ⟨hm, hid⟩ := get_mem hg
      have hw := hi.wf r hm
      split at hs
      swap
      · cases hs
      rename_i key kids todo hj
      split at hs
      swap
      · cases hs
      rename_i hkt
      simp only [beq_iff_eq] at hkt; subst hkt
      injection hs with hs; subst hs
      unfold WFReg at hw
      rw [hj] at hw; simp only at hw
      refine inv_modify hi hg _ (fun x => ?_) ⟨hw.1, trivial⟩ (fun i => ?_)
      · simp only [eff, hj]; exact hw.2.2.2.2.1 x
      · simp [idc, Job.todo]
  | mergeBegin s d =>
    simp only [step] at hs
    cases hg : get st s with
    | none => rw [hg] at hs; cases hs
    | some r =>
      rw [hg] at hs; simp only at hs
      obtain ⟨hm, hid⟩ := get_mem hg
      have hw := hi.wf r hm
      split at hs
      swap
      · cases hs
      rename_i hc
      simp only [Bool.and_eq_true, beq_iff_eq, bne_iff_ne, ne_eq] at hc
      injection hs with hs; subst hs
      refine inv_modify hi hg _ (fun x => ?_) ⟨hw.1, fun h => ?_, by intro h; cases h⟩ (fun i => ?_)
      · simp [eff, hc.1]
      · exact hc.2 (hid.symm.trans h.symm)
      · simp [idc, Job.todo]
  | mergeExtend s =>
    simp only [step] at hs
    cases hg : get st s with
    | none => rw [hg] at hs; cases hs
    | some r =>
      rw [hg] at hs; simp only at hs
      obtain ⟨hm, hid⟩ := get_mem hg
      have hw := hi.wf r hm
      split at hs
      swap
      · cases hs
      rename_i d hj
      cases hd : get st d with
      | none => rw [hd] at hs; cases hs
      | some t =>
        rw [hd] at hs; simp only at hs
        obtain ⟨htm, htid⟩ := get_mem hd
        split at hs
        swap
        · cases hs
        rename_i hok
        simp only [Bool.and_eq_true, beq_iff_eq] at hok
        obtain ⟨hok, htj⟩ := hok
        have hr : ∀ x, eff x r = cov r.start r.stop x := fun x => by simp [eff, hj]
        have ht : ∀ x, eff x t = cov t.start t.stop x := fun x => by simp [eff, htj]
        have hdid : d ≠ r.id := by unfold WFReg at hw; rw [hj] at hw; exact hw.2.1
        have hne : r ≠ t := by rintro rfl; exact hdid htid.symm
        obtain ⟨hs0, hadj, hlt, hstop⟩ := merge_adjacent hi hm htm hne hr ht hok
        have hneq : r.start ≠ t.start := by
          intro h; rw [hadj, ← h] at hlt; exact BLt.irrefl _ hlt
        rw [if_neg (by simpa using hneq)] at hs
        injection hs with hs; subst hs
        -- state with the source marked
        have hgd : get (modify st s fun r => { r with job := .merge d true }) d = some t := by
          obtain ⟨l, l', rfl, hl, hl'⟩ := split_at hi.ids hg
          rw [modify_at _ hid hl hl']
          unfold get at hd ⊢
          rw [List.find?_append, List.find?_cons_of_neg (by simpa using hdid.symm)] at hd ⊢
          exact hd
        have hids : ∀ i, tot (idc i) (modify st s fun r => { r with job := .merge d true }) ≤ 1 := by
          intro i
          have h2 := tot_change hi.ids hg (fun r => { r with job := .merge d true }) (idc i)
          have h0 := hi.ids i
          simp only [idc, Job.todo, hj, List.map_nil, List.count_nil] at h2 h0 ⊢
          omega
        refine ⟨fun x => ?_, fun q hq => ?_, fun i => ?_⟩
        · have h1 := tot_change hi.ids hg (fun r => { r with job := .merge d true }) (eff x)
          have h2 := tot_change hids hgd (fun t => { t with ver := t.ver + 1, start := r.start }) (eff x)
          have h0 := hi.one x
          have h3 := cov_cut (a := r.start) (b := r.stop) (c := t.stop) (x := x) (BLt_ne_nil hlt) hlt.le hstop
          rw [hr] at h1; rw [ht] at h2
          simp only [eff, htj, if_true] at h1 h2
          rw [← hadj] at h2
          omega
        · rcases mem_modify hids hgd hq with hq | rfl
          · rcases mem_modify hi.ids hg hq.1 with hq | rfl
            · exact hi.wf q hq.1
            · exact ⟨hw.1, hdid, fun _ => hs0⟩
          · refine ⟨?_, by rw [htj]; trivial⟩
            rcases hstop with h | h
            · exact .inl h
            · exact .inr (hlt.le.trans h)
        · have h2 := tot_change hids hgd (fun t => { t with ver := t.ver + 1, start := r.start }) (idc i)
          have h0 := hids i
          simp only [idc] at h2 h0 ⊢
          omega
  | mergeFinish s =>
    simp only [step] at hs
    cases hg : get st s with
    | none => rw [hg] at hs; cases hs
    | some r =>
      rw [hg] at hs; simp only at hs
      obtain ⟨hm, hid⟩ := get_mem hg
      have hw := hi.wf r hm
      split at hs
      swap
      · cases hs
      rename_i d hj
      injection hs with hs; subst hs
      unfold WFReg at hw
      rw [hj] at hw; simp only at hw
      refine inv_modify hi hg _ (fun x => ?_) ⟨.inr (BLe.refl _), trivial⟩ (fun i => ?_)
      · simp only [eff, hj, if_true]; exact cov_empty (hw.2.2 trivial)
      · simp [idc, hj, Job.todo]
  | mergeAbort s =>
    simp only [step] at hs
    cases hg : get st s with
    | none => rw [hg] at hs; cases hs
    | some r =>
      rw [hg] at hs; simp only at hs
      obtain ⟨hm, hid⟩ := get_mem hg
      have hw := hi.wf r hm
      split at hs
      swap
      · cases hs
      rename_i d hj
      injection hs with hs; subst hs
      refine inv_modify hi hg _ (fun x => ?_) ⟨hw.1, trivial⟩ (fun i => ?_)
      · simp [eff, hj]
      · simp [idc, hj, Job.todo]
  | interrupted p =>
    simp only [step] at hs
    injection hs with hs; subst hs
    cases hg : get st p with
    | none =>
      rw [modify_of_not_mem]
      · exact hi
      · intro r hr he
        unfold get at hg
        exact absurd (List.find?_eq_none.1 hg r hr) (by simp [he])
    | some r =>
      obtain ⟨hm, hid⟩ := get_mem hg
      have hw := hi.wf r hm
      have hh' := hh r hg
      refine inv_modify hi hg _ (fun x => ?_) ⟨hw.1, trivial⟩ (fun i => ?_)
      · unfold WFReg at hw
        cases hj : r.job with
        | idle => simp [eff, hj]
        | split key kids todo =>
          rw [hj] at hw hh'; simp only at hw hh'
          simp only [eff, hj]; rw [← hh']; exact hw.2.2.2.2.1 x
        | merge d ext =>
          rw [hj] at hh'; simp only at hh'
          simp [eff, hj, hh']
      · simp [idc, Job.todo]

/-! ## Reachable states -/

/-- Runs from a freshly created table in which no interruption hits the last phase of a split or merge. -/
inductive Reach : State → Prop
  | init (i : Nat) (bounds : List Bytes) (h : ascending [] bounds = true) : Reach (initRegions i [] bounds)
  | step {st st' : State} {e : Ev} : Reach st → Harmless st e → step st e = some st' → Reach st'

theorem initRegions_inv {bounds : List Bytes} : ∀ {i : Nat} {start : Bytes}, ascending start bounds = true →
    (∀ x, tot (eff x) (initRegions i start bounds) = cov start [] x) ∧ (∀ r ∈ initRegions i start bounds, WFReg r) ∧
    (∀ j, tot (idc j) (initRegions i start bounds) ≤ 1) ∧ (∀ j, j < i → tot (idc j) (initRegions i start bounds) = 0) := by
  induction bounds with
  | nil =>
    intro i start _
    refine ⟨fun x => by simp [initRegions, tot, eff], fun r hr => ?_, fun j => ?_, fun j hj => ?_⟩
    · simp [initRegions] at hr; subst hr; exact ⟨.inl rfl, trivial⟩
    · simp [initRegions, tot, idc, Job.todo]; split <;> omega
    · simp [initRegions, tot, idc, Job.todo]; omega
  | cons b bs ih =>
    intro i start h
    simp only [ascending, Bool.and_eq_true, beq_iff_eq] at h
    have hb : BLt start b := h.1
    obtain ⟨h1, h2, h3, h4⟩ := ih (i := i + 1) h.2
    refine ⟨fun x => ?_, fun r hr => ?_, fun j => ?_, fun j hj => ?_⟩
    · rw [initRegions, tot_cons, h1]
      simp only [eff]
      rw [← cov_cut (BLt_ne_nil hb) hb.le (.inl rfl)]
    · rw [initRegions] at hr
      rcases List.mem_cons.1 hr with rfl | hr
      · exact ⟨.inr hb.le, trivial⟩
      · exact h2 r hr
    · rw [initRegions, tot_cons]
      have := h3 j
      by_cases hj : i = j
      · subst hj; have := h4 i (by omega); simp [idc, Job.todo]; omega
      · simp [idc, Job.todo, hj]; omega
    · rw [initRegions, tot_cons, h4 j (by omega)]
      simp [idc, Job.todo]; omega

theorem Reach.inv {st : State} (h : Reach st) : Inv st := by
  induction h with
  | init i bounds h =>
    obtain ⟨h1, h2, h3, _⟩ := initRegions_inv (i := i) h
    exact ⟨fun x => by rw [h1]; exact cov_pos ⟨BLe_nil x, .inl rfl⟩, h2, h3⟩
  | step _ hh hs ih => exact inv_step ih hh hs

/-! ## C09 -/

/-- Regions that would execute a write of key `x` now. -/
def writers (st : State) (x : Bytes) : List Reg := st.filter fun r => r.writable && inRange r.start r.stop x

/-- Regions whose range holds key `x` (they serve reads of it). -/
def holders (st : State) (x : Bytes) : List Reg := st.filter fun r => inRange r.start r.stop x

theorem filter_length_le {p : Reg → Bool} {g : Reg → Nat} {st : State} (h : ∀ r ∈ st, p r = true → 1 ≤ g r) :
    (st.filter p).length ≤ tot g st := by
  induction st with
  | nil => simp
  | cons a t ih =>
    have ih' := ih fun r hr => h r (List.mem_cons_of_mem _ hr)
    rw [tot_cons, List.filter_cons]
    split
    · rename_i hp; have := h a List.mem_cons_self hp; simp; omega
    · omega

theorem tot_pos {g : Reg → Nat} {st : State} (h : 1 ≤ tot g st) : ∃ r ∈ st, 1 ≤ g r := by
  by_contra hc
  have : ∀ r ∈ st, g r = 0 := fun r hr => by
    by_contra h0; exact hc ⟨r, hr, by omega⟩
  have h2 : tot g st = 0 := by
    clear h hc
    induction st with
    | nil => rfl
    | cons a t ih =>
      rw [tot_cons, this a List.mem_cons_self, ih fun r hr => this r (List.mem_cons_of_mem _ hr)]
  omega

theorem kidsCov_pos {l : List Kid} {x : Bytes} (h : 1 ≤ kidsCov l x) (pre : List Kid) : 1 ≤ kidsCov (pre ++ l) x := by
  simp only [kidsCov, List.map_append, List.sum_append] at h ⊢; omega

/-- At every moment of every run no key can be written at two regions. -/
theorem C09_one_writer {st : State} (h : Reach st) (x : Bytes) : (writers st x).length ≤ 1 := by
  have h1 := h.inv.one x
  rw [← h1]
  refine filter_length_le fun r _ hp => ?_
  simp only [Bool.and_eq_true, Reg.writable, beq_iff_eq] at hp
  simp [eff, hp.1, cov, hp.2]

/-- At every moment of every run every key is in the range of some region. -/
theorem C09_no_gap {st : State} (h : Reach st) (x : Bytes) : ∃ r ∈ st, Covers r.start r.stop x := by
  obtain ⟨r, hr, he⟩ := tot_pos (g := eff x) (st := st) (by rw [h.inv.one x])
  refine ⟨r, hr, ?_⟩
  have hw := h.inv.wf r hr
  have hpos : ∀ {s e : Bytes}, 1 ≤ cov s e x → Covers s e x := fun {s e} hc => by
    rcases cov_cases s e x with ⟨hh, _⟩ | ⟨_, h0⟩
    · exact hh
    · omega
  unfold WFReg at hw
  cases hj : r.job with
  | idle => simp only [eff, hj] at he; exact hpos he
  | split key kids todo =>
    rw [hj] at hw; simp only at hw
    obtain ⟨_, _, _, ⟨pre, hpre⟩, hc, _⟩ := hw
    simp only [eff, hj] at he
    apply hpos
    rw [hc]
    by_cases h0 : 1 ≤ kidsCov todo x
    · have := kidsCov_pos h0 pre; rw [hpre]; omega
    · omega
  | merge d ext =>
    simp only [eff, hj] at he
    split at he
    · omega
    · exact hpos he

/-- Whenever no split or merge is in progress, every key belongs to exactly one region. -/
theorem C09_partition {st : State} (h : Reach st) (hidle : ∀ r ∈ st, r.job = .idle) (x : Bytes) :
    (holders st x).length = 1 := by
  have h1 : holders st x = writers st x := by
    unfold holders writers
    refine List.filter_congr fun r hr => ?_
    simp [Reg.writable, hidle r hr]
  rw [h1]
  have h2 := C09_one_writer h x
  obtain ⟨r, hr, hc⟩ := C09_no_gap h x
  have h3 : r ∈ writers st x := by
    rw [← h1]; exact List.mem_filter.2 ⟨hr, (inRange_iff _ _ _).2 hc⟩
  have := List.length_pos_of_mem h3
  omega

/-- During a split or merge the key stays writable at its owner, or at nobody while the owner's writes are off: a key
with no writer belongs to a region that is busy. -/
theorem C09_blocked_only_when_busy {st : State} (h : Reach st) (x : Bytes) (h0 : writers st x = []) :
    ∃ r ∈ st, Covers r.start r.stop x ∧ r.job ≠ .idle := by
  obtain ⟨r, hr, hc⟩ := C09_no_gap h x
  refine ⟨r, hr, hc, fun hj => ?_⟩
  have : r ∈ writers st x := List.mem_filter.2 ⟨hr, by simp [Reg.writable, hj, (inRange_iff _ _ _).2 hc]⟩
  rw [h0] at this; cases this

/-- The split itself: the parent's new range and the new regions' ranges cut the old range exactly. -/
theorem C09_split_exact (r : Reg) (key : Bytes) (ids : List Nat) (bounds : List Bytes)
    (hok : splitOk r key ids bounds = true) (x : Bytes) :
    (if inRange r.start r.stop x then 1 else 0) =
      (if inRange r.start key x then 1 else 0) +
        ((mkKids r.stop key ids bounds).filter fun k => inRange k.start k.stop x).length := by
  simp only [splitOk, Bool.and_eq_true, bne_iff_ne, ne_eq, beq_iff_eq, Bool.or_eq_true] at hok
  obtain ⟨⟨⟨⟨⟨hk0, hk1⟩, hk2⟩, hlen⟩, hb⟩, hasc⟩ := hok
  have h1 := (mkKids_cov (stop := r.stop) hlen hasc hb).1 x
  have h2 := cov_cut hk0 hk1 hk2 x
  have h3 : ∀ l : List Kid, (l.filter fun k => inRange k.start k.stop x).length = kidsCov l x := by
    intro l
    induction l with
    | nil => rfl
    | cons a t ih =>
      rw [List.filter_cons]
      simp only [kidsCov, List.map_cons, List.sum_cons, cov] at ih ⊢
      split
      · simp [ih, Nat.add_comm]
      · simp [ih]
  rw [h3, h1]; exact h2

/-! ## Versions -/

theorem ids_step {st st' : State} {e : Ev} (hi : ∀ i, tot (idc i) st ≤ 1) (hs : step st e = some st') :
    ∀ i, tot (idc i) st' ≤ 1 := by
  have hmod : ∀ {p r} (f : Reg → Reg), get st p = some r → (∀ i, idc i (f r) ≤ idc i r) →
      ∀ i, tot (idc i) (modify st p f) ≤ 1 := by
    intro p r f hg h3 i
    have := tot_change hi hg f (idc i)
    have := hi i
    have := h3 i
    omega
  cases e with
  | splitBegin p key ids bounds =>
    simp only [step] at hs
    cases hg : get st p with
    | none => rw [hg] at hs; cases hs
    | some r =>
      rw [hg] at hs; simp only at hs
      split at hs
      swap
      · cases hs
      rename_i hc
      simp only [Bool.and_eq_true, beq_iff_eq, decide_eq_true_eq, List.all_eq_true, Bool.not_eq_true',
        List.contains_eq_mem, decide_eq_false_iff_not] at hc
      obtain ⟨⟨⟨hj, hok⟩, hnd⟩, hfresh⟩ := hc
      simp only [splitOk, Bool.and_eq_true, bne_iff_ne, ne_eq, beq_iff_eq, Bool.or_eq_true] at hok
      obtain ⟨⟨⟨⟨⟨_, _⟩, _⟩, hlen⟩, hb⟩, hasc⟩ := hok
      injection hs with hs; subst hs
      have hkid := (mkKids_cov (stop := r.stop) hlen hasc hb).2.2
      intro i
      have h2 := tot_change hi hg (fun q => { q with job := .split key (mkKids r.stop key ids bounds) (mkKids r.stop key ids bounds) }) (idc i)
      simp only [idc, Job.todo, hkid, hj, List.map_nil, List.count_nil] at h2
      by_cases hmem : i ∈ ids
      · have h3 := usedIds_zero (hfresh i hmem)
        have h4 : List.count i ids ≤ 1 := List.nodup_iff_count.1 hnd i
        omega
      · rw [List.count_eq_zero.2 hmem] at h2
        have := hi i
        omega
  | splitActivate p =>
    simp only [step] at hs
    cases hg : get st p with
    | none => rw [hg] at hs; cases hs
    | some r =>
      rw [hg] at hs; simp only at hs
      split at hs
      swap
      · cases hs
      rename_i key kids k todo hj
      injection hs with hs; subst hs
      intro i
      have h2 := tot_change hi hg (fun r => { r with job := .split key kids todo }) (idc i)
      have h0 := hi i
      rw [tot_append, tot_cons]
      simp only [idc, Job.todo, hj, List.map_cons, List.count_cons, List.map_nil, List.count_nil, beq_iff_eq] at h2 h0 ⊢
      simp only [tot, List.map_nil, List.sum_nil] at h2 h0 ⊢
      omega
  | splitFinish p =>
    simp only [step] at hs
    cases hg : get st p with
    | none => rw [hg] at hs; cases hs
    | some r =>
      rw [hg] at hs; simp only at hs
      split at hs
      swap
      · cases hs
      injection hs with hs; subst hs
      exact hmod _ hg fun i => by simp [idc, Job.todo]
  | splitAbort p =>
    simp only [step] at hs
    cases hg : get st p with
    | none => rw [hg] at hs; cases hs
    | some r =>
      rw [hg] at hs; simp only at hs
      split at hs
      swap
      · cases hs
      split at hs
      swap
      · cases hs
      injection hs with hs; subst hs
      exact hmod _ hg fun i => by simp [idc, Job.todo]
  | mergeBegin s d =>
    simp only [step] at hs
    cases hg : get st s with
    | none => rw [hg] at hs; cases hs
    | some r =>
      rw [hg] at hs; simp only at hs
      split at hs
      swap
      · cases hs
      injection hs with hs; subst hs
      exact hmod _ hg fun i => by simp [idc, Job.todo]
  | mergeExtend s =>
    simp only [step] at hs
    cases hg : get st s with
    | none => rw [hg] at hs; cases hs
    | some r =>
      rw [hg] at hs; simp only at hs
      split at hs
      swap
      · cases hs
      rename_i d hj
      have h1 := hmod (fun r => { r with job := .merge d true }) hg fun i => by simp [idc, Job.todo]
      cases hd : get st d with
      | none => rw [hd] at hs; cases hs
      | some t =>
        rw [hd] at hs; simp only at hs
        split at hs
        swap
        · cases hs
        split at hs
        · injection hs with hs; subst hs; exact h1
        · injection hs with hs; subst hs
          cases hd' : get (modify st s fun r => { r with job := .merge d true }) d with
          | none =>
            rw [modify_of_not_mem (p := d)]
            · exact h1
            · intro r hr he
              unfold get at hd'
              exact absurd (List.find?_eq_none.1 hd' r hr) (by simp [he])
          | some t' =>
            intro i
            have h2 := tot_change h1 hd' (fun t => { t with ver := t.ver + 1, start := r.start }) (idc i)
            have h0 := h1 i
            have : idc i { t' with ver := t'.ver + 1, start := r.start } = idc i t' := rfl
            omega
  | mergeFinish s =>
    simp only [step] at hs
    cases hg : get st s with
    | none => rw [hg] at hs; cases hs
    | some r =>
      rw [hg] at hs; simp only at hs
      split at hs
      swap
      · cases hs
      injection hs with hs; subst hs
      exact hmod _ hg fun i => by simp [idc, Job.todo]
  | mergeAbort s =>
    simp only [step] at hs
    cases hg : get st s with
    | none => rw [hg] at hs; cases hs
    | some r =>
      rw [hg] at hs; simp only at hs
      split at hs
      swap
      · cases hs
      injection hs with hs; subst hs
      exact hmod _ hg fun i => by simp [idc, Job.todo]
  | interrupted p =>
    simp only [step] at hs
    injection hs with hs; subst hs
    cases hg : get st p with
    | none =>
      rw [modify_of_not_mem]
      · exact hi
      · intro r hr he
        unfold get at hg
        exact absurd (List.find?_eq_none.1 hg r hr) (by simp [he])
    | some r => exact hmod _ hg fun i => by simp [idc, Job.todo]

/-- Same region, later: the version never goes down, and an unchanged version means an unchanged range. -/
def Later (r r' : Reg) : Prop :=
  r'.id = r.id ∧ ((r'.ver = r.ver ∧ r'.start = r.start ∧ r'.stop = r.stop) ∨ r.ver < r'.ver)

theorem Later.refl (r : Reg) : Later r r := ⟨rfl, .inl ⟨rfl, rfl, rfl⟩⟩

theorem Later.trans {a b c : Reg} (h1 : Later a b) (h2 : Later b c) : Later a c := by
  obtain ⟨i1, h1⟩ := h1
  obtain ⟨i2, h2⟩ := h2
  refine ⟨i2.trans i1, ?_⟩
  rcases h1 with ⟨a1, a2, a3⟩ | a1 <;> rcases h2 with ⟨b1, b2, b3⟩ | b1
  · exact .inl ⟨b1.trans a1, b2.trans a2, b3.trans a3⟩
  · exact .inr (by omega)
  · exact .inr (by omega)
  · exact .inr (by omega)

theorem later_modify {st : State} {p : Nat} {f : Reg → Reg} (hf : ∀ r, r.id = p → Later r (f r)) {r : Reg} (hr : r ∈ st) :
    ∃ r' ∈ modify st p f, Later r r' := by
  refine ⟨if r.id == p then f r else r, List.mem_map.2 ⟨r, hr, rfl⟩, ?_⟩
  split
  · rename_i h; exact hf r (by simpa using h)
  · exact Later.refl r

theorem later_step {st st' : State} {e : Ev} (hs : step st e = some st') {r : Reg} (hr : r ∈ st) :
    ∃ r' ∈ st', Later r r' := by
  have hsame : ∀ (j : Job) (r : Reg), Later r { r with job := j } := fun j r => ⟨rfl, .inl ⟨rfl, rfl, rfl⟩⟩
  cases e with
  | splitBegin p key ids bounds =>
    simp only [step] at hs
    split at hs
    · split at hs
      · injection hs with hs; subst hs; exact later_modify (fun r _ => hsame _ r) hr
      · cases hs
    · cases hs
  | splitActivate p =>
    simp only [step] at hs
    split at hs
    · split at hs
      · injection hs with hs; subst hs
        rename_i key kids k todo _
        obtain ⟨r', h1, h2⟩ := later_modify (p := p) (f := fun r => { r with job := .split key kids todo }) (fun r _ => hsame _ r) hr
        exact ⟨r', List.mem_append_left _ h1, h2⟩
      · cases hs
    · cases hs
  | splitFinish p =>
    simp only [step] at hs
    split at hs
    · split at hs
      · injection hs with hs; subst hs; refine later_modify (fun r _ => ?_) hr; exact ⟨rfl, .inr (Nat.lt_succ_self r.ver)⟩
      · cases hs
    · cases hs
  | splitAbort p =>
    simp only [step] at hs
    split at hs
    · split at hs
      · split at hs
        · injection hs with hs; subst hs; exact later_modify (fun r _ => hsame _ r) hr
        · cases hs
      · cases hs
    · cases hs
  | mergeBegin s d =>
    simp only [step] at hs
    split at hs
    · split at hs
      · injection hs with hs; subst hs; exact later_modify (fun r _ => hsame _ r) hr
      · cases hs
    · cases hs
  | mergeExtend s =>
    simp only [step] at hs
    split at hs
    · rename_i rs _
      split at hs
      · rename_i d _
        split at hs
        · split at hs
          · split at hs
            · injection hs with hs; subst hs; exact later_modify (fun r _ => hsame _ r) hr
            · injection hs with hs; subst hs
              obtain ⟨r1, h1, h2⟩ := later_modify (p := s) (f := fun r => { r with job := .merge d true }) (fun r _ => hsame _ r) hr
              obtain ⟨r2, h3, h4⟩ := later_modify (p := d) (f := fun t => { t with ver := t.ver + 1, start := rs.start })
                (fun r _ => ⟨rfl, .inr (Nat.lt_succ_self r.ver)⟩) h1
              exact ⟨r2, h3, h2.trans h4⟩
          · cases hs
        · cases hs
      · cases hs
    · cases hs
  | mergeFinish s =>
    simp only [step] at hs
    split at hs
    · split at hs
      · injection hs with hs; subst hs; refine later_modify (fun r _ => ?_) hr; exact ⟨rfl, .inr (Nat.lt_succ_self r.ver)⟩
      · cases hs
    · cases hs
  | mergeAbort s =>
    simp only [step] at hs
    split at hs
    · split at hs
      · injection hs with hs; subst hs; exact later_modify (fun r _ => hsame _ r) hr
      · cases hs
    · cases hs
  | interrupted p =>
    simp only [step] at hs
    injection hs with hs; subst hs; exact later_modify (fun r _ => hsame _ r) hr

/-- Any run, interruptions at any point included. -/
inductive Run : State → State → Prop
  | refl (st : State) : Run st st
  | step {st st' st'' : State} {e : Ev} : Run st st' → step st' e = some st'' → Run st st''

/-- Runs from a fresh table, interruptions at any point included. -/
def AnyReach (st : State) : Prop := ∃ i bounds, ascending [] bounds = true ∧ Run (initRegions i [] bounds) st

theorem Run.ids {st st' : State} (h : Run st st') (hi : ∀ i, tot (idc i) st ≤ 1) : ∀ i, tot (idc i) st' ≤ 1 := by
  induction h with
  | refl => exact hi
  | step _ hs ih => exact ids_step ih hs

theorem Run.later {st st' : State} (h : Run st st') {r : Reg} (hr : r ∈ st) : ∃ r' ∈ st', Later r r' := by
  induction h with
  | refl => exact ⟨r, hr, Later.refl r⟩
  | step _ hs ih =>
    obtain ⟨r1, h1, h2⟩ := ih
    obtain ⟨r2, h3, h4⟩ := later_step hs h1
    exact ⟨r2, h3, h2.trans h4⟩

theorem unique_of_ids {st : State} (hi : ∀ i, tot (idc i) st ≤ 1) {a b : Reg} (ha : a ∈ st) (hb : b ∈ st)
    (h : a.id = b.id) : a = b := by
  by_contra hne
  have h1 := tot_two (g := idc a.id) ha hb hne
  have h2 := hi a.id
  simp only [idc, h, if_true] at h1 h2
  omega

/-- A region's version determines its range: whatever happens between two moments (interruptions included), the
version does not decrease, and if it is the same at both moments so is the range. -/
theorem C09_version_fixes_range {st st' : State} (h0 : AnyReach st) (h : Run st st') {r r' : Reg} (hr : r ∈ st)
    (hr' : r' ∈ st') (hid : r'.id = r.id) :
    r.ver ≤ r'.ver ∧ (r.ver = r'.ver → r'.start = r.start ∧ r'.stop = r.stop) := by
  obtain ⟨i, bounds, hb, hrun⟩ := h0
  have hi := h.ids (hrun.ids (initRegions_inv hb).2.2.1)
  obtain ⟨r1, h1, h2, h3⟩ := h.later hr
  have : r1 = r' := unique_of_ids hi h1 hr' (h2.trans hid.symm)
  subst this
  rcases h3 with ⟨a, b, c⟩ | h3
  · exact ⟨by omega, fun _ => ⟨b, c⟩⟩
  · exact ⟨by omega, fun _ => by omega⟩

/-- A request carries the version of the region the client knew.  If the region executes it, the region's range is
still the one the client used to choose the region; if the range has changed, the request is refused. -/
theorem C09_stale_request {st st' : State} (h0 : AnyReach st) (h : Run st st') {r r' : Reg} (hr : r ∈ st)
    (hr' : r' ∈ st') (hid : r'.id = r.id) (hv : validateVersion r.ver r'.ver = true) (x : Bytes) :
    inRange r'.start r'.stop x = inRange r.start r.stop x := by
  obtain ⟨h1, h2⟩ := C09_version_fixes_range h0 h hr hr' hid
  simp only [validateVersion, Bool.not_eq_true', decide_eq_false_iff_not] at hv
  obtain ⟨ha, hb⟩ := h2 (by omega)
  rw [ha, hb]

/-- An up-to-date client is never refused. -/
theorem C09_current_request (v : Nat) : validateVersion v v = true := by simp [validateVersion]

theorem Reach.any {st : State} (h : Reach st) : AnyReach st := by
  induction h with
  | init i bounds h => exact ⟨i, bounds, h, Run.refl _⟩
  | step _ _ hs ih =>
    obtain ⟨i, b, hb, hr⟩ := ih
    exact ⟨i, b, hb, hr.step hs⟩

/-! ## Boundaries of a tail split into several regions -/

/-- Smallest and largest value of an integer column that the computation can represent (it is done in `int64_t`, so
the upper half of a 64-bit unsigned column is out of reach). -/
def intMin : KeyEnc.PType → Int
  | .int8 => -2 ^ 7 | .int16 => -2 ^ 15 | .int32 => -2 ^ 31 | .int64 => -2 ^ 63 | _ => 0
def intMax : KeyEnc.PType → Int
  | .int8 => 2 ^ 7 - 1 | .int16 => 2 ^ 15 - 1 | .int32 => 2 ^ 31 - 1 | .int64 => 2 ^ 63 - 1
  | .uint8 => 2 ^ 8 - 1 | .uint16 => 2 ^ 16 - 1 | .uint32 => 2 ^ 32 - 1 | .uint64 => 2 ^ 63 - 1 | _ => 0
def isInt : KeyEnc.PType → Bool
  | .int8 | .int16 | .int32 | .int64 | .uint8 | .uint16 | .uint32 | .uint64 => true
  | _ => false

theorem toNat_ofInt64 (a : Int) : ((BitVec.ofInt 64 a).toNat : Int) = a % 18446744073709551616 := by
  rw [BitVec.toNat_ofInt, Int.toNat_of_nonneg (Int.emod_nonneg _ (by decide))]; rfl

theorem narrow8 {a : Int} (h1 : -128 ≤ a) (h2 : a ≤ 127) : ((BitVec.ofInt 64 a).setWidth 8).toInt = a := by
  have := toNat_ofInt64 a
  rw [BitVec.toInt_eq_toNat_cond, BitVec.toNat_setWidth]
  split <;> omega

theorem narrow16 {a : Int} (h1 : -32768 ≤ a) (h2 : a ≤ 32767) : ((BitVec.ofInt 64 a).setWidth 16).toInt = a := by
  have := toNat_ofInt64 a
  rw [BitVec.toInt_eq_toNat_cond, BitVec.toNat_setWidth]
  split <;> omega

theorem narrow32 {a : Int} (h1 : -2147483648 ≤ a) (h2 : a ≤ 2147483647) : ((BitVec.ofInt 64 a).setWidth 32).toInt = a := by
  have := toNat_ofInt64 a
  rw [BitVec.toInt_eq_toNat_cond, BitVec.toNat_setWidth]
  split <;> omega

theorem narrow64 {a : Int} (h1 : -9223372036854775808 ≤ a) (h2 : a ≤ 9223372036854775807) : (BitVec.ofInt 64 a).toInt = a := by
  have := toNat_ofInt64 a
  rw [BitVec.toInt_eq_toNat_cond]
  split <;> omega

theorem appendValue_int_order (t : KeyEnc.PType) (ht : isInt t = true) {a b : Int} (ha : intMin t ≤ a) (hab : a < b)
    (hb : b ≤ intMax t) (s u : Bytes) :
    BLt (KeyEnc.appendValue [] t (BitVec.ofInt 64 a) [] ++ s) (KeyEnc.appendValue [] t (BitVec.ofInt 64 b) [] ++ u) := by
  have hcmp : ∀ {x y : Int}, x < y → compare x y = .lt := fun h => by rw [Int.compare_eq_lt]; exact h
  have hcmpn : ∀ {x y : Nat}, x < y → compare x y = .lt := fun h => by rw [Nat.compare_eq_lt]; exact h
  have na := toNat_ofInt64 a
  have nb := toNat_ofInt64 b
  cases t <;> simp only [isInt, intMin, intMax] at ht ha hb <;> try exact absurd ht (by decide)
  all_goals unfold BLt KeyEnc.appendValue; simp only
  · rw [KeyEnc.C01_order_i8, narrow8 (by omega) (by omega), narrow8 (by omega) (by omega), hcmp hab]; rfl
  · rw [KeyEnc.C01_order_i16, narrow16 (by omega) (by omega), narrow16 (by omega) (by omega), hcmp hab]; rfl
  · rw [KeyEnc.C01_order_i32, narrow32 (by omega) (by omega), narrow32 (by omega) (by omega), hcmp hab]; rfl
  · rw [KeyEnc.C01_order_i64, narrow64 (by omega) (by omega), narrow64 (by omega) (by omega), hcmp hab]; rfl
  · rw [KeyEnc.C01_order_u8, BitVec.toNat_setWidth, BitVec.toNat_setWidth, hcmpn (by omega)]; rfl
  · rw [KeyEnc.C01_order_u16, BitVec.toNat_setWidth, BitVec.toNat_setWidth, hcmpn (by omega)]; rfl
  · rw [KeyEnc.C01_order_u32, BitVec.toNat_setWidth, BitVec.toNat_setWidth, hcmpn (by omega)]; rfl
  · rw [KeyEnc.C01_order_u64, hcmpn (by omega)]; rfl

/-- A tail split into several regions: as long as the first key column does not run past its type's range, the
boundaries computed from the last row ascend from the split key on, so `C09_split_exact` applies. -/
theorem C09_multi_bounds_ascend (t : KeyEnc.PType) (ht : isInt t = true) (f step : Int) (rest tail : Bytes) (n : Nat)
    (hf : intMin t ≤ f) (hstep : 0 < step) (hmax : f + step * n ≤ intMax t) :
    ascending (KeyEnc.appendValue [] t (BitVec.ofInt 64 f) [] ++ tail) (multiBounds t f step rest n) = true := by
  induction n generalizing f tail with
  | zero => rfl
  | succ n ih =>
    have h0 : multiBounds t f step rest (n + 1) =
        (KeyEnc.appendValue [] t (BitVec.ofInt 64 (f + step)) [] ++ rest) :: multiBounds t (f + step) step rest n := by
      simp only [multiBounds, List.range_succ_eq_map, List.map_cons, List.map_map]
      congr 1
      · simp
      · apply List.map_congr_left
        intro i _
        simp only [Function.comp]
        rw [show f + step * (((i + 1 : Nat) : Int) + 1) = f + step + step * ((i : Int) + 1) by push_cast; ring]
    rw [h0]
    have hnn : (0 : Int) ≤ step * n := Int.mul_nonneg hstep.le (Int.natCast_nonneg n)
    have h1 : f + step * ((n + 1 : Nat) : Int) = f + step + step * n := by push_cast; ring
    rw [h1] at hmax
    simp only [ascending, Bool.and_eq_true, beq_iff_eq]
    exact ⟨appendValue_int_order t ht hf (b := f + step) (by omega) (by omega) tail rest, ih (f + step) rest (by omega) hmax⟩

/-- At the end of the type's range the boundaries wrap around and do not ascend: the second new region would be given
`[2^31-1, -2^31+9)`, an empty range, and the third everything from `-2^31+9` on. -/
theorem C09_multi_bounds_wrap_counterexample :
    ascending (KeyEnc.appendValue [] .int32 (BitVec.ofInt 64 (2 ^ 31 - 11)) [] ++ [0xFF#8])
      (multiBounds .int32 (2 ^ 31 - 11) 10 [] 2) = false := by decide

/-! ## Concrete cases -/

/-- A table with regions 1 = ["", "m") and 2 = ["m", ""). -/
def twoRegions : State := initRegions 1 [] [[0x6d#8]]

def runAll : State → List Ev → Option State
  | st, [] => some st
  | st, e :: es => (step st e).bind fun st' => runAll st' es

theorem runAll_run {st0 st st' : State} {es : List Ev} (h0 : Run st0 st) (h : runAll st es = some st') : Run st0 st' := by
  induction es generalizing st with
  | nil => simp only [runAll, Option.some.injEq] at h; subst h; exact h0
  | cons e es ih =>
    simp only [runAll] at h
    cases hs : step st e with
    | none => rw [hs] at h; cases h
    | some s1 => rw [hs] at h; exact ih (h0.step hs) h

theorem runAll_reach {st st' : State} {es : List Ev} (h0 : Reach st) (hn : ∀ e ∈ es, ∀ p, e ≠ .interrupted p)
    (h : runAll st es = some st') : Reach st' := by
  induction es generalizing st with
  | nil => simp only [runAll, Option.some.injEq] at h; subst h; exact h0
  | cons e es ih =>
    simp only [runAll] at h
    cases hs : step st e with
    | none => rw [hs] at h; cases h
    | some s1 =>
      rw [hs] at h
      refine ih (h0.step ?_ hs) (fun e he => hn e (List.mem_cons_of_mem _ he)) h
      cases e with
      | interrupted p => exact absurd rfl (hn _ List.mem_cons_self p)
      | _ => trivial

/-- Region 1 is split at "d", then its part between "d" and "m" is merged into region 2. -/
def splitThenMerge : List Ev :=
  [.splitBegin 1 [0x64#8] [3] [], .splitActivate 1, .splitFinish 1, .mergeBegin 3 2, .mergeExtend 3, .mergeFinish 3]

example : runAll twoRegions splitThenMerge = some
    [⟨1, 2, [], [0x64#8], .idle⟩, ⟨2, 2, [0x64#8], [], .idle⟩, ⟨3, 2, [0x64#8], [0x64#8], .idle⟩] := by decide

example : ∃ st, Reach st ∧ (∀ r ∈ st, r.job = .idle) ∧ st.length = 3 ∧ (holders st [0x65#8]).map (·.id) = [2] :=
  ⟨[⟨1, 2, [], [0x64#8], .idle⟩, ⟨2, 2, [0x64#8], [], .idle⟩, ⟨3, 2, [0x64#8], [0x64#8], .idle⟩],
    runAll_reach (Reach.init 1 [[0x6d#8]] (by decide)) (es := splitThenMerge) (by simp [splitThenMerge])
      (by decide : runAll twoRegions splitThenMerge = some _),
    by decide, by decide, by decide⟩

/-- A three-way tail split of region 2 at its last row 100 (one INT32 key column), step 10. -/
example : (runAll twoRegions
      [.splitBegin 2 [0x80#8, 0, 0, 100, 0xFF] [3, 4, 5] (multiBounds .int32 100 10 [] 2), .splitActivate 2,
        .splitActivate 2, .splitActivate 2, .splitFinish 2]).map (fun st => st.map fun r => (r.id, r.start, r.stop)) = some
    [(1, [], [0x6d#8]), (2, [0x6d#8], [0x80#8, 0, 0, 100, 0xFF]), (3, [0x80#8, 0, 0, 100, 0xFF], [0x80#8, 0, 0, 110]),
      (4, [0x80#8, 0, 0, 110], [0x80#8, 0, 0, 120]), (5, [0x80#8, 0, 0, 120], [])] := by decide

/-- A stale client: it saw region 1 at version 1 and is refused after the split. -/
example : validateVersion 1 2 = false ∧ validateVersion 2 2 = true := by decide

/-- If the leader of the splitting region is lost (or its last log entry refused) after the new region was switched
on, the old and the new region both take writes for the keys above the split key. -/
theorem C09_split_interrupted_counterexample :
    ∃ st, AnyReach st ∧ (writers st [0x65#8]).map (·.id) = [1, 3] :=
  ⟨[⟨1, 1, [], [0x6d#8], .idle⟩, ⟨2, 1, [0x6d#8], [], .idle⟩, ⟨3, 1, [0x64#8], [0x6d#8], .idle⟩],
    ⟨1, [[0x6d#8]], by decide, runAll_run (Run.refl _) (es := [.splitBegin 1 [0x64#8] [3] [], .splitActivate 1, .interrupted 1])
    (by decide : runAll twoRegions _ = some _)⟩, by decide⟩

/-- If the last step of a merge fails after the other region was extended, both regions take writes for the keys of
the region that was to be emptied. -/
theorem C09_merge_interrupted_counterexample :
    ∃ st, AnyReach st ∧ (writers st [0x65#8]).map (·.id) = [2, 3] :=
  ⟨[⟨1, 2, [], [0x64#8], .idle⟩, ⟨2, 2, [0x64#8], [], .idle⟩, ⟨3, 1, [0x64#8], [0x6d#8], .idle⟩],
    ⟨1, [[0x6d#8]], by decide, runAll_run (Run.refl _)
    (es := [.splitBegin 1 [0x64#8] [3] [], .splitActivate 1, .splitFinish 1, .mergeBegin 3 2, .mergeExtend 3, .interrupted 3])
    (by decide : runAll twoRegions _ = some _)⟩, by decide⟩

/-- Retrying the interrupted merge repairs it (if nothing was written in between, region.cpp:6006-6020). -/
example : ((runAll twoRegions
      [.splitBegin 1 [0x64#8] [3] [], .splitActivate 1, .splitFinish 1, .mergeBegin 3 2, .mergeExtend 3, .interrupted 3,
        .mergeBegin 3 2, .mergeExtend 3, .mergeFinish 3]).map fun st => (writers st [0x65#8]).map (·.id)) = some [2] := by decide

end BaikalDB.Region
