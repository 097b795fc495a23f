import Verif.Reverse.And
import Verif.Sort.Heap

/-! # The executors of OR -/

namespace BaikalDB.Reverse
open BaikalDB.Sort (Weak Above Child HeapFrom HeapBut)

variable {K : Type} [LinearOrder K]

section
variable {σ : Type} {o : Ops σ K} {I R : σ → List K → Prop}

theorem asc_weak : Weak (asc o) fun _ => True where
  asymm := by
    intro x y _ _ h
    unfold asc at h ⊢
    cases hx : o.curId x <;> cases hy : o.curId y <;> simp only [hx, hy] at h ⊢ <;> try cases h
    · simp only [decide_eq_true_eq, decide_eq_false_iff_not, not_lt] at h ⊢; exact le_of_lt h
  trans := by
    intro x y z _ _ _ h1 h2
    unfold asc at h1 h2 ⊢
    cases hx : o.curId x <;> cases hy : o.curId y <;> cases hz : o.curId z <;> simp only [hx, hy, hz] at h1 h2 ⊢ <;> try cases h1
    all_goals try cases h2
    simp only [decide_eq_false_iff_not, not_lt] at h1 h2 ⊢; exact le_trans h1 h2

theorem shiftDown_eq (f : Nat) (h : List σ) (i : Nat) (hf : h.length ≤ f + i) : shiftDown o f h i = Sort.shiftdown (asc o) h i := by
  induction f generalizing h i with
  | zero =>
    rw [Sort.shiftdown, dif_pos (by omega)]; rfl
  | succ f ih =>
    rw [Sort.shiftdown]
    unfold shiftDown
    by_cases h1 : h.length ≤ 2 * i + 1
    · rw [if_pos h1, dif_pos h1]
    · rw [if_neg h1, dif_neg h1]
      by_cases h2 : Sort.pick (asc o) h i ≠ i
      · rw [if_pos h2, dif_pos h2]
        refine ih _ _ ?_
        rw [Sort.length_swapAt]
        rcases Sort.pick_cases (asc o) h i with e | e | e
        · exact absurd e h2
        · omega
        · omega
      · rw [if_neg h2, dif_neg h2]

theorem makeHeap_eq (n : Nat) (h : List σ) : makeHeap o n h = Sort.makeHeapLoop (asc o) n h := by
  induction n generalizing h with
  | zero => rfl
  | succ n ih =>
    unfold makeHeap Sort.makeHeapLoop
    rw [shiftDown_eq _ _ _ (by omega), ih]

theorem shiftdown_before {α : Type} {better : α → α → Bool} (h : List α) (i : Nat) (j : Nat) (hj : j < i) :
    (Sort.shiftdown better h i)[j]? = h[j]? := by
  fun_induction Sort.shiftdown better h i with
  | case1 h i hl => rfl
  | case2 h i hl hm ih =>
    have hpl := Sort.pick_lt (better := better) (h := h) (i := i) (by omega)
    have hgt : i < Sort.pick better h i := by
      rcases Sort.pick_cases better h i with e | e | e
      · exact absurd e hm
      · omega
      · omega
    rw [ih (by omega), Sort.getElem?_swapAt hpl (by omega), if_neg (by omega), if_neg (by omega)]
  | case3 h i hl hm => rfl

/-- The executor will give this id. -/
def Has (R : σ → List K → Prop) (s : σ) (x : K) : Prop := ∃ l, R s l ∧ x ∈ l

theorem Sound.unique (hs : Sound o I R) {s : σ} {l l' : List K} (h : R s l) (h' : R s l') : l = l' := by
  induction l generalizing s l' with
  | nil =>
    have := (hs.cur h).symm.trans (hs.cur h')
    cases l' with
    | nil => rfl
    | cons a t => simp at this
  | cons a t ih =>
    have := (hs.cur h).symm.trans (hs.cur h')
    cases l' with
    | nil => simp at this
    | cons b t' =>
      simp only [List.head?_cons, Option.some.injEq] at this
      subst this
      congr 1
      exact ih (hs.next h) (hs.next h')

theorem Sound.cur_has (hs : Sound o I R) {s : σ} (v : ∃ l, R s l) {k : K} (hk : o.curId s = some k) : Has R s k := by
  obtain ⟨l, h⟩ := v
  exact ⟨l, h, List.mem_of_head? ((hs.cur h).symm.trans hk)⟩

theorem Sound.cur_le (hs : Sound o I R) {s : σ} {k x : K} (hk : o.curId s = some k) (hx : Has R s x) : k ≤ x := by
  obtain ⟨l, h, hx⟩ := hx
  exact head_le (hs.rSorted h) ((hs.cur h).symm.trans hk) hx

theorem Sound.cur_none (hs : Sound o I R) {s : σ} {x : K} (hk : o.curId s = none) (hx : Has R s x) : False := by
  obtain ⟨l, h, hx⟩ := hx
  have := (hs.cur h).symm.trans hk
  cases l with
  | nil => simp at hx
  | cons a t => simp at this

theorem Sound.has_next (hs : Sound o I R) {s : σ} (v : ∃ l, R s l) {k : K} (hk : o.curId s = some k) (x : K) :
    Has R (o.next s) x ↔ Has R s x ∧ x ≠ k := by
  obtain ⟨l, h⟩ := v
  have e := mem_tail (hs.rSorted h) ((hs.cur h).symm.trans hk) x
  constructor
  · rintro ⟨l', h', hx⟩
    rw [hs.unique h' (hs.next h)] at hx
    exact ⟨⟨l, h, (e.1 hx).1⟩, (e.1 hx).2⟩
  · rintro ⟨⟨l', h', hx⟩, hne⟩
    rw [hs.unique h' h] at hx
    exact ⟨_, hs.next h, e.2 ⟨hx, hne⟩⟩

theorem Sound.has_adv (hs : Sound o I R) {s : σ} (v : ∃ l, R s l) (t x : K) : Has R (o.advance t s) x ↔ Has R s x ∧ t ≤ x := by
  obtain ⟨l, h⟩ := v
  have e := mem_dropWhile (hs.rSorted h) t x
  constructor
  · rintro ⟨l', h', hx⟩
    rw [hs.unique h' (hs.adv t h)] at hx
    exact ⟨⟨l, h, (e.1 hx).1⟩, (e.1 hx).2⟩
  · rintro ⟨⟨l', h', hx⟩, hne⟩
    rw [hs.unique h' h] at hx
    exact ⟨_, hs.adv t h, e.2 ⟨hx, hne⟩⟩

/-- All executors are in order, and they form a heap. -/
def HeapOk (o : Ops σ K) (R : σ → List K → Prop) (h : List σ) : Prop := (∀ s ∈ h, ∃ l, R s l) ∧ HeapFrom (asc o) 0 h

theorem HeapOk.min {h : List σ} (hh : HeapOk o R h) {s0 : σ} (h0 : h[0]? = some s0) {s : σ} (hsm : s ∈ h) :
    (∀ k k', o.curId s0 = some k → o.curId s = some k' → k ≤ k') ∧ (o.curId s0 = none → o.curId s = none) := by
  obtain ⟨j, hj, rfl⟩ := List.mem_iff_getElem.1 hsm
  by_cases hj0 : j = 0
  · subst hj0
    rw [List.getElem?_eq_getElem hj, Option.some.injEq] at h0
    subst h0
    exact ⟨fun k k' e1 e2 => by rw [e1, Option.some.injEq] at e2; exact le_of_eq e2, fun e => e⟩
  · have := Sort.heap_root asc_weak (fun _ _ => trivial) hh.2 j hj0 s0 h[j] h0 (List.getElem?_eq_getElem hj)
    unfold asc at this
    constructor
    · intro k k' e1 e2
      simp only [e1, e2, decide_eq_false_iff_not, not_lt] at this
      exact this
    · intro e
      cases hc : o.curId h[j] with
      | none => rfl
      | some k => simp [e, hc] at this

/-- The root may stand above all when its id is the least. -/
theorem root_above {h : List σ} {s0 : σ} {k : K} (h0 : h[0]? = some s0) (hk : o.curId s0 = some k)
    (hmin : ∀ s ∈ h, ∀ k', o.curId s = some k' → k ≤ k') (c : Nat) : Above (asc o) h 0 c := by
  intro x y hx hy
  rw [h0, Option.some.injEq] at hx
  subst hx
  unfold asc
  cases hc : o.curId y with
  | none => rfl
  | some k' => simp only [hk, decide_eq_false_iff_not, not_lt]; exact hmin y (List.mem_of_getElem? hy) k' hc

theorem countP_modify {α : Type} {p : α → Bool} {g : α → α} (l : List α) (i : Nat) (hi : i < l.length) (h1 : p l[i] = true)
    (h2 : p (g l[i]) = false) : (l.modify i g).countP p + 1 = l.countP p := by
  induction l generalizing i with
  | nil => simp at hi
  | cons a l ih =>
    cases i with
    | zero => simp only [List.getElem_cons_zero] at h1 h2; simp [List.modify_cons, h1, h2]
    | succ i =>
      simp only [List.getElem_cons_succ, List.length_cons] at h1 h2 hi
      simp only [List.modify_succ_cons, List.countP_cons]
      have := ih i (by omega) h1 h2
      omega

theorem dropStep (hs : Sound o I R) (k : K) (i : Nat) (hi : i = 1 ∨ i = 2) {h : List σ} (hh : HeapOk o R h) {s0 : σ}
    (h0 : h[0]? = some s0) (hk : o.curId s0 = some k) (hil : i < h.length) (he : (h[i]?).bind o.curId = some k) :
    HeapOk o R (Sort.shiftdown (asc o) (h.modify i o.next) i) ∧
      (Sort.shiftdown (asc o) (h.modify i o.next) i).countP (fun s => decide (o.curId s = some k)) + 1 =
        h.countP (fun s => decide (o.curId s = some k)) ∧
      (∀ j < i, (Sort.shiftdown (asc o) (h.modify i o.next) i)[j]? = h[j]?) ∧
      ∀ x, (∃ s ∈ Sort.shiftdown (asc o) (h.modify i o.next) i, Has R s x) ↔ ∃ s ∈ h, Has R s x := by
  rw [List.getElem?_eq_getElem hil, Option.bind_some] at he
  have hv := hh.1 h[i] (List.getElem_mem hil)
  have hperm := Sort.shiftdown_perm (better := asc o) (h.modify i o.next) i
  have hgk : o.curId (o.next h[i]) ≠ some k := by
    intro e
    have := (hs.has_next hv he k).1 (hs.cur_has (by obtain ⟨l, hl⟩ := hv; exact ⟨_, hs.next hl⟩) e)
    exact this.2 rfl
  have hg0 : (h.modify i o.next)[0]? = some s0 := by
    rw [List.getElem?_modify_ne, h0]; omega
  have hmin : ∀ s ∈ h.modify i o.next, ∀ k', o.curId s = some k' → k ≤ k' := by
    intro s hsm k' e
    rcases (mem_modify hil).1 hsm with rfl | ⟨j, hj, _, rfl⟩
    · have h1 := (hs.has_next hv he k').1 (hs.cur_has (by obtain ⟨l, hl⟩ := hv; exact ⟨_, hs.next hl⟩) e)
      exact hs.cur_le he h1.1
    · exact (hh.min h0 (List.getElem_mem hj)).1 k k' hk e
  have hval : ∀ s ∈ h.modify i o.next, ∃ l, R s l := by
    intro s hsm
    rcases (mem_modify hil).1 hsm with rfl | ⟨j, hj, _, rfl⟩
    · obtain ⟨l, hl⟩ := hv; exact ⟨_, hs.next hl⟩
    · exact hh.1 _ (List.getElem_mem hj)
  refine ⟨⟨fun s hsm => hval s (hperm.mem_iff.1 hsm), ?_⟩, ?_, ?_, ?_⟩
  · refine Sort.shiftdown_heap asc_weak (fun _ _ => trivial) (Nat.zero_le i) ⟨?_, ?_⟩
    · intro a c _ hai hac
      by_cases hci : c = i
      · have ha0 : a = 0 := by rcases hac with e | e <;> omega
        subst ha0
        exact root_above hg0 hk hmin c
      · intro x y hx hy
        rw [List.getElem?_modify_ne _ _ (Ne.symm hai)] at hx
        rw [List.getElem?_modify_ne _ _ (Ne.symm hci)] at hy
        exact hh.2 a c (Nat.zero_le _) hac x y hx hy
    · intro p c _ hpi _
      have hp0 : p = 0 := by rcases hpi with e | e <;> omega
      subst hp0
      exact root_above hg0 hk hmin c
  · rw [hperm.countP_eq]
    exact countP_modify h i hil (by simp [he]) (by simp [hgk])
  · intro j hj
    rw [shiftdown_before _ _ _ hj, List.getElem?_modify_ne]; omega
  · intro x
    constructor
    · rintro ⟨s, hsm, hx⟩
      rcases (mem_modify hil).1 (hperm.mem_iff.1 hsm) with rfl | ⟨j, hj, _, rfl⟩
      · exact ⟨h[i], List.getElem_mem hil, ((hs.has_next hv he x).1 hx).1⟩
      · exact ⟨_, List.getElem_mem hj, hx⟩
    · rintro ⟨s, hsm, hx⟩
      by_cases hxk : x = k
      · subst hxk
        refine ⟨s0, hperm.mem_iff.2 (List.mem_of_getElem? hg0), hs.cur_has (hh.1 s0 (List.mem_of_getElem? h0)) hk⟩
      · obtain ⟨j, hj, rfl⟩ := List.mem_iff_getElem.1 hsm
        by_cases hji : j = i
        · subst hji
          exact ⟨_, hperm.mem_iff.2 ((mem_modify hil).2 (.inl rfl)), (hs.has_next hv he x).2 ⟨hx, hxk⟩⟩
        · exact ⟨_, hperm.mem_iff.2 ((mem_modify hil).2 (.inr ⟨j, hj, hji, rfl⟩)), hx⟩

theorem dropEqual_spec (hs : Sound o I R) (k : K) (i : Nat) (hi : i = 1 ∨ i = 2) (f : Nat) {h : List σ} (hh : HeapOk o R h) {s0 : σ}
    (h0 : h[0]? = some s0) (hk : o.curId s0 = some k) (hil : i < h.length)
    (hc : h.countP (fun s => decide (o.curId s = some k)) ≤ f + 1) :
    HeapOk o R (dropEqual o k i f h) ∧ (dropEqual o k i f h).length = h.length ∧
      (∀ j < i, (dropEqual o k i f h)[j]? = h[j]?) ∧ ((dropEqual o k i f h)[i]?).bind o.curId ≠ some k ∧
      ∀ x, (∃ s ∈ dropEqual o k i f h, Has R s x) ↔ ∃ s ∈ h, Has R s x := by
  have hi0 : 0 < i := by omega
  induction f generalizing h with
  | zero =>
    have hno : (h[i]?).bind o.curId ≠ some k := by
      intro he
      obtain ⟨_, h2, h3, _⟩ := dropStep hs k i hi hh h0 hk hil he
      have hz : (Sort.shiftdown (asc o) (h.modify i o.next) i).countP (fun s => decide (o.curId s = some k)) = 0 := by omega
      rw [List.countP_eq_zero] at hz
      have := hz s0 (List.mem_of_getElem? ((h3 0 hi0).trans h0))
      simp [hk] at this
    exact ⟨hh, rfl, fun _ _ => rfl, hno, fun _ => Iff.rfl⟩
  | succ f ih =>
    unfold dropEqual
    by_cases he : (h[i]?).bind o.curId = some k
    · rw [if_pos he]
      obtain ⟨h1, h2, h3, h4⟩ := dropStep hs k i hi hh h0 hk hil he
      have hlen : (Sort.shiftdown (asc o) (h.modify i o.next) i).length = h.length := by
        rw [(Sort.shiftdown_perm _ _).length_eq, List.length_modify]
      rw [shiftDown_eq _ _ _ (by rw [List.length_modify]; omega)]
      have h0' := (h3 0 hi0).trans h0
      obtain ⟨g1, g2, g3, g4, g5⟩ := ih h1 h0' (by rw [hlen]; exact hil) (by omega)
      exact ⟨g1, g2.trans hlen, fun j hj => (g3 j hj).trans (h3 j hj), g4, fun x => (g5 x).trans (h4 x)⟩
    · rw [if_neg he]
      exact ⟨hh, rfl, fun _ _ => rfl, he, fun _ => Iff.rfl⟩

/-- What an OR is at: its heap, with the least id `k` only at the root. -/
def Top (o : Ops σ K) (R : σ → List K → Prop) (h : List σ) (k : K) (L : List K) : Prop :=
  HeapOk o R h ∧ (∃ s0, h[0]? = some s0 ∧ o.curId s0 = some k) ∧ (∀ j s, 0 < j → h[j]? = some s → o.curId s ≠ some k) ∧
    ∀ x, x ∈ L ↔ ∃ s ∈ h, Has R s x

/-- What an OR gives. -/
def OrR (o : Ops σ K) (R : σ → List K → Prop) (s : OpSt σ K) (L : List K) : Prop :=
  L.Pairwise (· < ·) ∧ ((s.null = true ∧ L = []) ∨ (s.null = false ∧ s.init = false ∧ ∃ k, s.cur = some k ∧ Top o R s.subs k L))

/-- What a new OR will give. -/
def OrI (I : σ → List K → Prop) (s : OpSt σ K) (L : List K) : Prop :=
  L.Pairwise (· < ·) ∧ s.init = true ∧ s.null = false ∧ ∃ ls, List.Forall₂ I s.subs ls ∧ ∀ x, x ∈ L ↔ ∃ l ∈ ls, x ∈ l

theorem orFind_spec (hs : Sound o I R) {h : List σ} {L : List K} (hh : HeapOk o R h) (hne : h ≠ []) (hL : L.Pairwise (· < ·))
    (hmem : ∀ x, x ∈ L ↔ ∃ s ∈ h, Has R s x) : OrR o R (orFind o h) L := by
  have hpos : 0 < h.length := List.length_pos_iff.2 hne
  have h0 : h[0]? = some h[0] := List.getElem?_eq_getElem hpos
  have hhead : h.head? = some h[0] := by rw [List.head?_eq_getElem?, h0]
  unfold orFind
  rw [hhead, Option.bind_some]
  cases hk : o.curId h[0] with
  | none =>
    refine ⟨hL, .inl ⟨rfl, List.eq_nil_iff_forall_not_mem.2 fun x hx => ?_⟩⟩
    obtain ⟨s, hsm, hx⟩ := (hmem x).1 hx
    exact hs.cur_none ((hh.min h0 hsm).2 hk) hx
  | some k =>
    -- after both loops
    have key : ∀ h2 : List σ, HeapOk o R h2 → h2[0]? = some h[0] → (∀ x, (∃ s ∈ h2, Has R s x) ↔ ∃ s ∈ h, Has R s x) →
        (h2[1]?).bind o.curId ≠ some k → (h2[2]?).bind o.curId ≠ some k → OrR o R ⟨h2, false, false, some k⟩ L := by
      intro h2 g1 g2 g3 g4 g5
      refine ⟨hL, .inr ⟨rfl, rfl, k, rfl, g1, ⟨_, g2, hk⟩, ?_, fun x => (hmem x).trans (g3 x).symm⟩⟩
      intro j
      induction j using Nat.strongRecOn with
      | _ j ih =>
        intro s hj hjs e
        by_cases h1 : j = 1
        · subst h1; rw [hjs] at g4; exact g4 e
        · by_cases h2' : j = 2
          · subst h2'; rw [hjs] at g5; exact g5 e
          · have hjl := (List.getElem?_eq_some_iff.1 hjs).1
            have hjl : j < h2.length := hjl
            have hpl : (j - 1) / 2 < h2.length := by omega
            have hp := ih ((j - 1) / 2) (by omega) _ (by omega) (List.getElem?_eq_getElem hpl)
            have hc : Child ((j - 1) / 2) j := by unfold Child; omega
            have ha := g1.2 _ j (Nat.zero_le _) hc _ _ (List.getElem?_eq_getElem hpl) hjs
            unfold asc at ha
            rw [e] at ha
            cases hq : o.curId h2[(j - 1) / 2] with
            | none => rw [hq] at ha; simp at ha
            | some c =>
              rw [hq] at ha
              simp only [decide_eq_false_iff_not, not_lt] at ha
              have := (g1.min g2 (List.getElem_mem hpl)).1 k c hk hq
              exact hp (by rw [hq, le_antisymm this ha])
    simp only []
    by_cases h1l : 1 < h.length
    · rw [if_pos h1l]
      obtain ⟨a1, a2, a3, a4, a5⟩ := dropEqual_spec hs k 1 (.inl rfl) h.length hh h0 hk h1l (by
        have := List.countP_le_length (l := h) (p := fun s => decide (o.curId s = some k)); omega)
      have a0 := (a3 0 (by omega)).trans h0
      by_cases h2l : 2 < h.length
      · rw [if_pos (by rw [a2]; exact h2l)]
        obtain ⟨b1, b2, b3, b4, b5⟩ := dropEqual_spec hs k 2 (.inr rfl) (dropEqual o k 1 h.length h).length a1 a0 hk (by rw [a2]; exact h2l) (by
          have := List.countP_le_length (l := dropEqual o k 1 h.length h) (p := fun s => decide (o.curId s = some k)); omega)
        refine key _ b1 ((b3 0 (by omega)).trans a0) (fun x => (b5 x).trans (a5 x)) ?_ b4
        rw [b3 1 (by omega)]; exact a4
      · rw [if_neg (by rw [a2]; exact h2l)]
        refine key _ a1 a0 a5 a4 ?_
        rw [List.getElem?_eq_none (by rw [a2]; omega)]; simp
    · rw [if_neg h1l, if_neg (by omega)]
      refine key _ hh h0 (fun _ => Iff.rfl) ?_ ?_
      · rw [List.getElem?_eq_none (by omega)]; simp
      · rw [List.getElem?_eq_none (by omega)]; simp

theorem Top.head (hs : Sound o I R) {h : List σ} {k : K} {L : List K} (hL : L.Pairwise (· < ·)) (ht : Top o R h k L) : L.head? = some k := by
  obtain ⟨hh, ⟨s0, h0, hk⟩, _, hmem⟩ := ht
  have hs0 := List.mem_of_getElem? h0
  refine head_of_le hL ((hmem k).2 ⟨s0, hs0, hs.cur_has (hh.1 s0 hs0) hk⟩) fun x hx => ?_
  obtain ⟨s, hsm, hx⟩ := (hmem x).1 hx
  cases hc : o.curId s with
  | none => exact absurd hx fun h => hs.cur_none hc h
  | some c => exact le_trans ((hh.min h0 hsm).1 k c hk hc) (hs.cur_le hc hx)

theorem modifyRoot_heap {g : σ → σ} {h : List σ} (hh : HeapOk o R h) (hne : 0 < h.length) (hg : ∀ {s l}, R s l → ∃ l', R (g s) l') :
    HeapOk o R (shiftDown o h.length (h.modify 0 g) 0) ∧
      ∀ s, s ∈ shiftDown o h.length (h.modify 0 g) 0 ↔ s ∈ h.modify 0 g := by
  rw [shiftDown_eq _ _ _ (by simp)]
  have hperm := Sort.shiftdown_perm (better := asc o) (h.modify 0 g) 0
  refine ⟨⟨fun s hsm => ?_, ?_⟩, fun s => hperm.mem_iff⟩
  · rcases (mem_modify hne).1 (hperm.mem_iff.1 hsm) with rfl | ⟨j, hj, _, rfl⟩
    · obtain ⟨l, hl⟩ := hh.1 _ (List.getElem_mem hne); exact hg hl
    · exact hh.1 _ (List.getElem_mem hj)
  · refine Sort.shiftdown_heap asc_weak (fun _ _ => trivial) (Nat.le_refl 0) ⟨?_, ?_⟩
    · intro a c _ ha hac x y hx hy
      have hc0 : c ≠ 0 := by rcases hac with e | e <;> omega
      rw [List.getElem?_modify_ne _ _ (Ne.symm ha)] at hx
      rw [List.getElem?_modify_ne _ _ (Ne.symm hc0)] at hy
      exact hh.2 a c (Nat.zero_le _) hac x y hx hy
    · intro p c _ hp0 _
      rcases hp0 with e | e <;> omega

theorem orNext_R (hs : Sound o I R) {s : OpSt σ K} {L : List K} (h : OrR o R s L) : OrR o R (orNext o s) L.tail := by
  obtain ⟨hL, ⟨hn, rfl⟩ | ⟨hn, hi, k, hk, ht⟩⟩ := h
  · unfold orNext
    rw [if_pos (.inr hn)]
    exact ⟨by simp, .inl ⟨rfl, rfl⟩⟩
  · have hkL := ht.head hs hL
    obtain ⟨hh, ⟨s0, h0, hk0⟩, hoth, hmem⟩ := ht
    have hpos := (List.getElem?_eq_some_iff.1 h0).1
    have hsne : s.subs ≠ [] := List.length_pos_iff.1 hpos
    unfold orNext
    rw [if_neg (by rintro (h1 | h1); exacts [hsne h1, by rw [hn] at h1; cases h1]), hi]
    simp only [Bool.false_eq_true, if_false]
    obtain ⟨g1, g2⟩ := modifyRoot_heap hh hpos fun hl => ⟨_, hs.next hl⟩
    have e0 : s.subs[0] = s0 := (List.getElem?_eq_some_iff.1 h0).2
    have hv0 := hh.1 s0 (List.mem_of_getElem? h0)
    refine orFind_spec hs g1 ?_ (sorted_tail hL) ?_
    · intro e
      have := (g2 (o.next s.subs[0])).2 ((mem_modify hpos).2 (.inl rfl))
      rw [e] at this; simp at this
    · intro x
      rw [mem_tail hL hkL, hmem x]
      constructor
      · rintro ⟨⟨u, hu, hx⟩, hxk⟩
        obtain ⟨j, hj, rfl⟩ := List.mem_iff_getElem.1 hu
        by_cases hj0 : j = 0
        · subst hj0
          exact ⟨_, (g2 _).2 ((mem_modify hpos).2 (.inl rfl)), (hs.has_next (by rw [e0]; exact hv0) (by rw [e0]; exact hk0) x).2 ⟨hx, hxk⟩⟩
        · exact ⟨_, (g2 _).2 ((mem_modify hpos).2 (.inr ⟨j, hj, hj0, rfl⟩)), hx⟩
      · rintro ⟨u, hu, hx⟩
        rcases (mem_modify hpos).1 ((g2 u).1 hu) with rfl | ⟨j, hj, hj0, rfl⟩
        · have := (hs.has_next (by rw [e0]; exact hv0) (by rw [e0]; exact hk0) x).1 hx
          exact ⟨⟨_, List.getElem_mem hpos, this.1⟩, this.2⟩
        · refine ⟨⟨_, List.getElem_mem hj, hx⟩, ?_⟩
          rintro rfl
          have h1 := hoth j _ (by omega) (List.getElem?_eq_getElem hj)
          cases hc : o.curId s.subs[j] with
          | none => exact hs.cur_none hc hx
          | some c =>
            have h2 := (hh.min h0 (List.getElem_mem hj)).1 x c hk0 hc
            have h3 := hs.cur_le hc hx
            exact h1 (by rw [hc, le_antisymm h2 h3])

theorem orLoop_stop (hs : Sound o I R) (t : K) {h : List σ} (hh : HeapOk o R h) (hpos : 0 < h.length)
    (hst : ((o.curId h[0]).elim false fun c => decide (c < t)) = false) (x : K) :
    (∃ s ∈ h, Has R s x) ↔ (∃ s ∈ h, Has R s x) ∧ t ≤ x := by
  have h0 : h[0]? = some h[0] := List.getElem?_eq_getElem hpos
  refine ⟨fun hx => ⟨hx, ?_⟩, fun hx => hx.1⟩
  obtain ⟨s, hsm, hx⟩ := hx
  cases hk : o.curId h[0] with
  | none => exact absurd hx fun hx => hs.cur_none ((hh.min h0 hsm).2 hk) hx
  | some k =>
    rw [hk] at hst
    simp only [Option.elim_some, decide_eq_false_iff_not, not_lt] at hst
    cases hc : o.curId s with
    | none => exact absurd hx fun h => hs.cur_none hc h
    | some c => exact le_trans hst (le_trans ((hh.min h0 hsm).1 k c hk hc) (hs.cur_le hc hx))

theorem orLoop_spec (hs : Sound o I R) (t : K) (f : Nat) {h : List σ} (hh : HeapOk o R h) (hne : h ≠ [])
    (hc : h.countP (fun s => (o.curId s).elim false fun c => decide (c < t)) ≤ f) :
    HeapOk o R (orLoop o t f h) ∧ orLoop o t f h ≠ [] ∧
      ∀ x, (∃ s ∈ orLoop o t f h, Has R s x) ↔ (∃ s ∈ h, Has R s x) ∧ t ≤ x := by
  induction f generalizing h with
  | zero =>
    have hpos : 0 < h.length := List.length_pos_iff.2 hne
    have hz := List.countP_eq_zero.1 (Nat.le_zero.1 hc) h[0] (List.getElem_mem hpos)
    exact ⟨hh, hne, orLoop_stop (h := h) hs t hh hpos (by simpa using hz)⟩
  | succ f ih =>
    have hpos : 0 < h.length := List.length_pos_iff.2 hne
    have h0 : h[0]? = some h[0] := List.getElem?_eq_getElem hpos
    have hhead : h.head? = some h[0] := by rw [List.head?_eq_getElem?, h0]
    unfold orLoop
    rw [hhead, Option.bind_some]
    by_cases hlt : ((o.curId h[0]).elim false fun c => decide (c < t)) = true
    · rw [if_pos hlt]
      obtain ⟨g1, g2⟩ := modifyRoot_heap (g := o.advance t) hh hpos fun hl => ⟨_, hs.adv t hl⟩
      have hv0 := hh.1 h[0] (List.getElem_mem hpos)
      have hge : ((o.curId (o.advance t h[0])).elim false fun c => decide (c < t)) = false := by
        cases hc : o.curId (o.advance t h[0]) with
        | none => rfl
        | some c =>
          have := (hs.has_adv hv0 t c).1 (hs.cur_has (by obtain ⟨l, hl⟩ := hv0; exact ⟨_, hs.adv t hl⟩) hc)
          simpa using this.2
      have hne' : shiftDown o h.length (h.modify 0 (o.advance t)) 0 ≠ [] := by
        intro e
        have := (g2 (o.advance t h[0])).2 ((mem_modify hpos).2 (.inl rfl))
        rw [e] at this; simp at this
      have hcnt : (shiftDown o h.length (h.modify 0 (o.advance t)) 0).countP (fun s => (o.curId s).elim false fun c => decide (c < t)) ≤ f := by
        rw [shiftDown_eq _ _ _ (by simp), (Sort.shiftdown_perm _ _).countP_eq]
        have := countP_modify (p := fun s => (o.curId s).elim false fun c => decide (c < t)) (g := o.advance t) h 0 hpos hlt hge
        omega
      obtain ⟨r1, r2, r3⟩ := ih g1 hne' hcnt
      refine ⟨r1, r2, fun x => (r3 x).trans ?_⟩
      constructor
      · rintro ⟨⟨u, hu, hx⟩, hle⟩
        refine ⟨?_, hle⟩
        rcases (mem_modify hpos).1 ((g2 u).1 hu) with rfl | ⟨j, hj, hj0, rfl⟩
        · exact ⟨_, List.getElem_mem hpos, ((hs.has_adv hv0 t x).1 hx).1⟩
        · exact ⟨_, List.getElem_mem hj, hx⟩
      · rintro ⟨⟨u, hu, hx⟩, hle⟩
        refine ⟨?_, hle⟩
        obtain ⟨j, hj, rfl⟩ := List.mem_iff_getElem.1 hu
        by_cases hj0 : j = 0
        · subst hj0
          exact ⟨_, (g2 _).2 ((mem_modify hpos).2 (.inl rfl)), (hs.has_adv hv0 t x).2 ⟨hx, hle⟩⟩
        · exact ⟨_, (g2 _).2 ((mem_modify hpos).2 (.inr ⟨j, hj, hj0, rfl⟩)), hx⟩
    · rw [if_neg hlt]
      exact ⟨hh, hne, orLoop_stop hs t hh hpos (by simpa using hlt)⟩

theorem orAdvance_R (hs : Sound o I R) (t : K) {s : OpSt σ K} {L : List K} (h : OrR o R s L) :
    OrR o R (orAdvance o t s) (L.dropWhile fun y => decide (y < t)) := by
  obtain ⟨hL, ⟨hn, rfl⟩ | ⟨hn, hi, k, hk, ht⟩⟩ := h
  · unfold orAdvance
    rw [if_pos (.inr hn)]
    exact ⟨by simp, .inl ⟨rfl, rfl⟩⟩
  · have hkL := ht.head hs hL
    have hL' := sorted_dropWhile hL fun y => decide (y < t)
    have ht' := ht
    obtain ⟨hh, ⟨s0, h0, hk0⟩, hoth, hmem⟩ := ht
    have hpos := (List.getElem?_eq_some_iff.1 h0).1
    have hsne : s.subs ≠ [] := List.length_pos_iff.1 hpos
    unfold orAdvance
    rw [if_neg (by rintro (h1 | h1); exacts [hsne h1, by rw [hn] at h1; cases h1]), hi]
    simp only [Bool.false_eq_true, if_false, hk, Option.elim_some, decide_eq_true_eq]
    by_cases htk : t ≤ k
    · rw [if_pos htk]
      have e : L.dropWhile (fun y => decide (y < t)) = L := by
        refine sorted_ext hL' hL fun x => ?_
        rw [mem_dropWhile hL]
        exact ⟨fun h => h.1, fun h => ⟨h, le_trans htk (head_le hL hkL h)⟩⟩
      rw [e]
      exact ⟨hL, .inr ⟨hn, hi, k, hk, ht'⟩⟩
    · rw [if_neg htk]
      obtain ⟨r1, r2, r3⟩ := orLoop_spec hs t s.subs.length hh hsne List.countP_le_length
      refine orFind_spec hs r1 r2 hL' fun x => ?_
      rw [mem_dropWhile hL, hmem x, r3 x]

theorem orNext_I (hs : Sound o I R) {s : OpSt σ K} {L : List K} (h : OrI I s L) : OrR o R (orNext o s) L := by
  obtain ⟨hL, hi, hn, ls, hf, hmem⟩ := h
  unfold orNext
  by_cases hsne : s.subs = []
  · rw [if_pos (.inl hsne)]
    refine ⟨hL, .inl ⟨rfl, List.eq_nil_iff_forall_not_mem.2 fun x hx => ?_⟩⟩
    rw [hsne] at hf
    cases hf
    obtain ⟨l, hl, _⟩ := (hmem x).1 hx
    simp at hl
  · rw [if_neg (by rintro (h1 | h1); exacts [hsne h1, by rw [hn] at h1; cases h1]), hi]
    simp only [if_true]
    rw [makeHeap_eq]
    have hlen : s.subs.length / 2 = (s.subs.map o.next).length / 2 := by simp
    rw [hlen]
    have hperm := Sort.makeHeap_perm (better := asc o) (s.subs.map o.next)
    have hheap := Sort.makeHeap_heap (better := asc o) asc_weak (h := s.subs.map o.next) (fun _ _ => trivial)
    have hf' : List.Forall₂ R (s.subs.map o.next) ls := by
      rw [List.forall₂_map_left_iff]
      exact hf.imp fun _ _ h => hs.start h
    have both : ∀ {as : List σ} {bs : List (List K)}, List.Forall₂ R as bs →
        (∀ a ∈ as, ∃ l ∈ bs, R a l) ∧ (∀ l ∈ bs, ∃ a ∈ as, R a l) := by
      intro as bs hfb
      induction hfb with
      | nil => simp
      | cons h1 h2 ih =>
        constructor
        · intro a ha
          rcases List.mem_cons.1 ha with rfl | ha
          · exact ⟨_, List.mem_cons_self, h1⟩
          · obtain ⟨l, hl, hr⟩ := ih.1 a ha; exact ⟨l, List.mem_cons_of_mem _ hl, hr⟩
        · intro l hl
          rcases List.mem_cons.1 hl with rfl | hl
          · exact ⟨_, List.mem_cons_self, h1⟩
          · obtain ⟨a, ha, hr⟩ := ih.2 l hl; exact ⟨a, List.mem_cons_of_mem _ ha, hr⟩
    obtain ⟨b1, b2⟩ := both hf'
    refine orFind_spec hs ⟨fun u hu => ?_, hheap⟩ ?_ hL fun x => ?_
    · obtain ⟨l, _, hr⟩ := b1 u (hperm.mem_iff.1 hu); exact ⟨l, hr⟩
    · intro e
      have := hperm.length_eq
      unfold Sort.makeHeap at this
      rw [e] at this
      simp only [List.length_nil, List.length_map] at this
      exact hsne (List.length_eq_zero_iff.1 this.symm)
    · rw [hmem x]
      constructor
      · rintro ⟨l, hl, hx⟩
        obtain ⟨u, hu, hr⟩ := b2 l hl
        exact ⟨u, hperm.mem_iff.2 hu, l, hr, hx⟩
      · rintro ⟨u, hu, l, hr, hx⟩
        obtain ⟨l', hl', hr'⟩ := b1 u (hperm.mem_iff.1 hu)
        exact ⟨l', hl', by rw [hs.unique hr' hr]; exact hx⟩

theorem or_cur (hs : Sound o I R) {s : OpSt σ K} {L : List K} (h : OrR o R s L) : (if s.null then none else s.cur) = L.head? := by
  obtain ⟨hL, ⟨hn, rfl⟩ | ⟨hn, hi, k, hk, ht⟩⟩ := h
  · simp [hn]
  · rw [hn, hk, ht.head hs hL]; rfl

theorem or_size (hs : Sound o I R) {h : List σ} {k : K} {L : List K} (hL : L.Pairwise (· < ·)) (ht : Top o R h k L) : L.length ≤ sizes o h := by
  obtain ⟨hh, _, _, hmem⟩ := ht
  have : ∀ h : List σ, (∀ s ∈ h, ∃ l, R s l) → ∃ ls, List.Forall₂ R h ls := by
    intro h
    induction h with
    | nil => intro _; exact ⟨[], .nil⟩
    | cons a h ih =>
      intro hv
      obtain ⟨l, hl⟩ := hv a List.mem_cons_self
      obtain ⟨ls, hls⟩ := ih fun s hs => hv s (List.mem_cons_of_mem _ hs)
      exact ⟨l :: ls, .cons hl hls⟩
  obtain ⟨ls, hf⟩ := this h hh.1
  refine le_trans (sorted_length_le hL fun x hx => ?_) (length_flatten_le hs.rSize hf)
  obtain ⟨s, hsm, l, hr, hx⟩ := (hmem x).1 hx
  obtain ⟨i, hi, rfl⟩ := List.mem_iff_getElem.1 hsm
  obtain ⟨l', hl', hr'⟩ := forall₂_get hf (List.getElem?_eq_getElem hi)
  rw [hs.unique hr hr'] at hx
  exact List.mem_flatten.2 ⟨l', List.mem_of_getElem? hl', hx⟩

end

end BaikalDB.Reverse
