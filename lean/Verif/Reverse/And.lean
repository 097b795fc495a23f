import Verif.Reverse.Model
import Mathlib.Data.List.Forall2
import Mathlib.Data.List.Perm.Subperm
import Mathlib.Data.List.Nodup

/-! # The executors of AND -/

namespace BaikalDB.Reverse

variable {K : Type} [LinearOrder K]

theorem mem_dropWhile {l : List K} (h : l.Pairwise (· < ·)) (t x : K) : x ∈ l.dropWhile (fun y => decide (y < t)) ↔ x ∈ l ∧ t ≤ x := by
  induction l with
  | nil => simp
  | cons a l ih =>
    rw [List.pairwise_cons] at h
    rw [List.dropWhile_cons]
    by_cases ha : a < t
    · simp only [ha, decide_true, if_true, ih h.2, List.mem_cons]
      constructor
      · rintro ⟨h1, h2⟩; exact ⟨.inr h1, h2⟩
      · rintro ⟨rfl | h1, h2⟩
        · exact absurd ha (not_lt.2 h2)
        · exact ⟨h1, h2⟩
    · simp only [ha, decide_false, Bool.false_eq_true, if_false]
      refine ⟨fun hx => ⟨hx, ?_⟩, fun hx => hx.1⟩
      rcases List.mem_cons.1 hx with rfl | hx
      · exact not_lt.1 ha
      · exact le_trans (not_lt.1 ha) (le_of_lt (h.1 x hx))

theorem sorted_dropWhile {l : List K} (h : l.Pairwise (· < ·)) (p : K → Bool) : (l.dropWhile p).Pairwise (· < ·) :=
  h.sublist (List.dropWhile_sublist p)

theorem sorted_tail {l : List K} (h : l.Pairwise (· < ·)) : l.tail.Pairwise (· < ·) := h.sublist (List.tail_sublist l)

theorem sorted_ext {l l' : List K} (h : l.Pairwise (· < ·)) (h' : l'.Pairwise (· < ·)) (e : ∀ x, x ∈ l ↔ x ∈ l') : l = l' := by
  induction l generalizing l' with
  | nil =>
    cases l' with
    | nil => rfl
    | cons b l' => exact absurd ((e b).2 List.mem_cons_self) (List.not_mem_nil)
  | cons a l ih =>
    cases l' with
    | nil => exact absurd ((e a).1 List.mem_cons_self) (List.not_mem_nil)
    | cons b l' =>
      rw [List.pairwise_cons] at h h'
      have hab : a = b := by
        rcases List.mem_cons.1 ((e a).1 List.mem_cons_self) with h1 | h1
        · exact h1
        · rcases List.mem_cons.1 ((e b).2 List.mem_cons_self) with h2 | h2
          · exact h2.symm
          · exact absurd (h.1 b h2) (not_lt.2 (le_of_lt (h'.1 a h1)))
      subst hab
      congr 1
      refine ih h.2 h'.2 fun x => ⟨fun hx => ?_, fun hx => ?_⟩
      · rcases List.mem_cons.1 ((e x).1 (List.mem_cons_of_mem _ hx)) with rfl | h1
        · exact absurd (h.1 x hx) (lt_irrefl _)
        · exact h1
      · rcases List.mem_cons.1 ((e x).2 (List.mem_cons_of_mem _ hx)) with rfl | h1
        · exact absurd (h'.1 x hx) (lt_irrefl _)
        · exact h1

theorem head_le {l : List K} (h : l.Pairwise (· < ·)) {k x : K} (hk : l.head? = some k) (hx : x ∈ l) : k ≤ x := by
  cases l with
  | nil => simp at hk
  | cons a l =>
    simp only [List.head?_cons, Option.some.injEq] at hk; subst hk
    rcases List.mem_cons.1 hx with rfl | hx
    · exact le_refl _
    · exact le_of_lt ((List.pairwise_cons.1 h).1 x hx)

theorem head_of_le {l : List K} (h : l.Pairwise (· < ·)) {k : K} (hk : k ∈ l) (hle : ∀ x ∈ l, k ≤ x) : l.head? = some k := by
  cases l with
  | nil => simp at hk
  | cons a l =>
    rcases List.mem_cons.1 hk with rfl | hk
    · rfl
    · exact absurd ((List.pairwise_cons.1 h).1 k hk) (not_lt.2 (hle a List.mem_cons_self))

theorem mem_tail {l : List K} (h : l.Pairwise (· < ·)) {k : K} (hk : l.head? = some k) (x : K) : x ∈ l.tail ↔ x ∈ l ∧ x ≠ k := by
  cases l with
  | nil => simp at hk
  | cons a l =>
    simp only [List.head?_cons, Option.some.injEq] at hk; subst hk
    simp only [List.tail_cons, List.mem_cons]
    constructor
    · intro hx; exact ⟨.inr hx, fun e => lt_irrefl _ (e ▸ (List.pairwise_cons.1 h).1 x hx)⟩
    · rintro ⟨h1 | h1, h2⟩
      · exact absurd h1 h2
      · exact h1

/-- An executor gives increasing ids: `R s l` when `l` are those from the current one on, `I s l` when `l` are those that a new executor will give. -/
structure Sound {σ : Type} (o : Ops σ K) (I R : σ → List K → Prop) : Prop where
  rSorted : ∀ {s l}, R s l → l.Pairwise (· < ·)
  iSorted : ∀ {s l}, I s l → l.Pairwise (· < ·)
  cur : ∀ {s l}, R s l → o.curId s = l.head?
  next : ∀ {s l}, R s l → R (o.next s) l.tail
  adv : ∀ {s l} (t : K), R s l → R (o.advance t s) (l.dropWhile fun y => decide (y < t))
  start : ∀ {s l}, I s l → R (o.next s) l
  rSize : ∀ {s l}, R s l → l.length ≤ o.size s
  iSize : ∀ {s l}, I s l → l.length ≤ o.size s

/-! ### AND -/

/-- `d` places on in a ring of `n`. -/
def cyc (n p d : Nat) : Nat := if p + d < n then p + d else p + d - n

theorem cyc_next {n p d : Nat} (hp : p < n) (hd : d < n) : cyc n p (d + 1) = if cyc n p d = n - 1 then 0 else cyc n p d + 1 := by
  unfold cyc; split <;> split <;> split <;> omega

theorem cyc_lt {n p d : Nat} (hp : p < n) (hd : d ≤ n) : cyc n p d < n := by
  unfold cyc; split <;> omega

theorem cyc_ne {n p d : Nat} (h0 : 0 < d) (hd : d < n) : cyc n p d ≠ p := by
  unfold cyc; split <;> omega

theorem cyc_full {n p : Nat} : cyc n p n = p := by
  unfold cyc; split <;> omega

theorem cyc_onto {n p i : Nat} (hp : p < n) (hi : i < n) : ∃ d < n, cyc n p d = i := by
  by_cases h : p ≤ i
  · exact ⟨i - p, by omega, by unfold cyc; split <;> omega⟩
  · exact ⟨i + n - p, by omega, by unfold cyc; split <;> omega⟩

theorem filter_gt_lt {U : List K} {c k : K} (hck : c < k) (hk : k ∈ U) :
    (U.filter fun x => decide (k < x)).length < (U.filter fun x => decide (c < x)).length := by
  have mono : ∀ V : List K, (V.filter fun x => decide (k < x)).length ≤ (V.filter fun x => decide (c < x)).length := by
    intro V
    induction V with
    | nil => simp
    | cons a V ih =>
      rw [List.filter_cons, List.filter_cons]
      by_cases h1 : k < a
      · simp only [h1, decide_true, if_true, lt_trans hck h1, List.length_cons]; omega
      · by_cases h2 : c < a <;> simp only [h1, h2, decide_true, decide_false, if_true, Bool.false_eq_true, if_false, List.length_cons] <;> omega
  induction U with
  | nil => simp at hk
  | cons a U ih =>
    rw [List.filter_cons, List.filter_cons]
    rcases List.mem_cons.1 hk with rfl | hk
    · simp only [lt_irrefl, decide_false, Bool.false_eq_true, if_false, hck, decide_true, if_true, List.length_cons]
      have := mono U; omega
    · have := ih hk
      by_cases h1 : k < a
      · simp only [h1, decide_true, if_true, lt_trans hck h1, List.length_cons]; omega
      · by_cases h2 : c < a <;> simp only [h1, h2, decide_true, decide_false, if_true, Bool.false_eq_true, if_false, List.length_cons] <;> omega

section
variable {σ : Type} {o : Ops σ K} {I R : σ → List K → Prop}

/-- All executors are at the same id, and `L` are the ids of all. -/
def Agree (R : σ → List K → Prop) (subs : List σ) (k : K) (L : List K) : Prop :=
  ∃ ls, List.Forall₂ R subs ls ∧ ls ≠ [] ∧ (∀ l ∈ ls, l.head? = some k) ∧ ∀ x, x ∈ L ↔ ∀ l ∈ ls, x ∈ l

theorem forall₂_set {α β : Type} {P : α → β → Prop} {as : List α} {bs : List β} (h : List.Forall₂ P as bs) {a : α} {b : β} (hp : P a b) (i : Nat) :
    List.Forall₂ P (as.set i a) (bs.set i b) := by
  induction h generalizing i with
  | nil => simp
  | cons h1 h2 ih =>
    cases i with
    | zero => exact .cons hp h2
    | succ i => exact .cons h1 (ih i)

theorem forall₂_get {α β : Type} {P : α → β → Prop} {as : List α} {bs : List β} (h : List.Forall₂ P as bs) {i : Nat} {a : α} (ha : as[i]? = some a) :
    ∃ b, bs[i]? = some b ∧ P a b := by
  induction h generalizing i with
  | nil => simp at ha
  | cons h1 h2 ih =>
    cases i with
    | zero => simp only [List.getElem?_cons_zero, Option.some.injEq] at ha; subst ha; exact ⟨_, rfl, h1⟩
    | succ i => simp only [List.getElem?_cons_succ] at ha ⊢; exact ih ha

theorem andLoop_spec (hs : Sound o I R) (U : List K) (f : Nat) (subs : List σ) (ls : List (List K)) (fwd pivot d : Nat) (cur : K) (L : List K)
    (hf : List.Forall₂ R subs ls) (hmem : ∀ x, x ∈ L ↔ ∀ l ∈ ls, x ∈ l) (hU : ∀ l ∈ ls, ∀ x ∈ l, x ∈ U)
    (hp : pivot < subs.length) (hd0 : 0 < d) (hd : d ≤ subs.length) (hfwd : fwd = cyc subs.length pivot d)
    (hagree : ∀ e < d, ∃ l, ls[cyc subs.length pivot e]? = some l ∧ l.head? = some cur)
    (hfuel : (U.filter fun x => decide (cur < x)).length * subs.length + (subs.length - d) < f) :
    let q := andLoop o f subs fwd pivot cur
    (q.2 = none ∧ L = []) ∨ (∃ k, q.2 = some k ∧ Agree R q.1 k L) := by
  induction f generalizing subs ls fwd pivot d cur with
  | zero => omega
  | succ f ih =>
    simp only []
    unfold andLoop
    have hlen := hf.length_eq
    by_cases hdn : d = subs.length
    · -- all agree
      have e1 : fwd = pivot := by rw [hfwd, hdn, cyc_full]
      rw [if_neg (by simpa using e1)]
      have hall : ∀ l ∈ ls, l.head? = some cur := by
        intro l hl
        obtain ⟨i, hi, rfl⟩ := List.mem_iff_getElem.1 hl
        obtain ⟨e, he, hc⟩ := cyc_onto (i := i) hp (by omega)
        obtain ⟨l', h1, h2⟩ := hagree e (by omega)
        rw [hc, List.getElem?_eq_getElem hi, Option.some.injEq] at h1
        rw [h1]; exact h2
      have hne : subs ≠ [] := by rintro rfl; simp at hp
      have hlne : ls ≠ [] := by rintro rfl; rw [List.length_nil] at hlen; exact hne (List.length_eq_zero_iff.1 hlen)
      right
      refine ⟨cur, ?_, ls, hf, hlne, hall, hmem⟩
      cases hf with
      | nil => exact absurd rfl hne
      | cons h1 h2 =>
        simp only [List.head?_cons, Option.bind_some]
        rw [hs.cur h1]
        exact hall _ List.mem_cons_self
    · have hdl : d < subs.length := by omega
      have hne : fwd ≠ pivot := by rw [hfwd]; exact cyc_ne hd0 hdl
      have hfl : fwd < subs.length := by rw [hfwd]; exact cyc_lt hp hd
      rw [if_pos hne, List.getElem?_eq_getElem hfl]
      simp only []
      obtain ⟨li, hli, hR⟩ := forall₂_get hf (List.getElem?_eq_getElem hfl)
      have hlimem : li ∈ ls := List.mem_of_getElem? hli
      have hlis := hs.rSorted hR
      have hR' := hs.adv cur hR
      have hcur' := hs.cur hR'
      have hlis' := hs.rSorted hR'
      -- everything in `L` is from `cur` on
      have hLge : ∀ x ∈ L, cur ≤ x := by
        intro x hx
        obtain ⟨l0, h1, h2⟩ := hagree 0 hd0
        have hl0 := List.mem_of_getElem? h1
        obtain ⟨i, hi, e⟩ := List.mem_iff_getElem.1 hl0
        have hR0 : ∃ s0, R s0 l0 := by
          obtain ⟨b, hb, hp'⟩ := forall₂_get hf.flip h1
          exact ⟨b, hp'⟩
        obtain ⟨s0, hR0⟩ := hR0
        exact head_le (hs.rSorted hR0) h2 ((hmem x).1 hx l0 hl0)
      have hf' := forall₂_set hf hR' fwd
      have hmem' : ∀ x, x ∈ L ↔ ∀ l ∈ ls.set fwd (li.dropWhile fun y => decide (y < cur)), x ∈ l := by
        intro x
        constructor
        · intro hx l hl
          rcases List.mem_or_eq_of_mem_set hl with h1 | rfl
          · exact (hmem x).1 hx l h1
          · exact (mem_dropWhile hlis cur x).2 ⟨(hmem x).1 hx li hlimem, hLge x hx⟩
        · intro h
          rw [hmem x]
          intro l hl
          obtain ⟨i, hi, rfl⟩ := List.mem_iff_getElem.1 hl
          by_cases hif : i = fwd
          · subst hif
            have h1 := h _ (List.mem_set hi _)
            rw [List.getElem?_eq_getElem hi, Option.some.injEq] at hli
            rw [hli]
            exact ((mem_dropWhile hlis cur x).1 h1).1
          · refine h _ ?_
            rw [List.mem_iff_getElem]
            refine ⟨i, by simpa using hi, ?_⟩
            rw [List.getElem_set_ne (Ne.symm hif)]
      have hU' : ∀ l ∈ ls.set fwd (li.dropWhile fun y => decide (y < cur)), ∀ x ∈ l, x ∈ U := by
        intro l hl x hx
        rcases List.mem_or_eq_of_mem_set hl with h1 | rfl
        · exact hU l h1 x hx
        · exact hU li hlimem x ((mem_dropWhile hlis cur x).1 hx).1
      cases hc : o.curId (o.advance cur subs[fwd]) with
      | none =>
        left
        refine ⟨rfl, ?_⟩
        have : li.dropWhile (fun y => decide (y < cur)) = [] := by
          rw [hc] at hcur'
          cases hz : li.dropWhile (fun y => decide (y < cur)) with
          | nil => rfl
          | cons a t => rw [hz] at hcur'; simp at hcur'
        apply List.eq_nil_iff_forall_not_mem.2
        intro x hx
        have h1 := (mem_dropWhile hlis cur x).2 ⟨(hmem x).1 hx li hlimem, hLge x hx⟩
        rw [this] at h1; simp at h1
      | some k =>
        rw [hc] at hcur'
        have hkmem : k ∈ li.dropWhile (fun y => decide (y < cur)) := List.mem_of_head? hcur'.symm
        have hk := (mem_dropWhile hlis cur k).1 hkmem
        simp only []
        have hsl : (subs.set fwd (o.advance cur subs[fwd])).length = subs.length := by simp
        have hnxt : (if fwd = subs.length - 1 then 0 else fwd + 1) = cyc subs.length pivot (d + 1) := by
          rw [cyc_next hp hdl, hfwd]
        by_cases hkc : k = cur
        · -- agrees
          rw [if_neg (by simpa using hkc)]
          refine ih _ _ _ _ (d + 1) _ hf' hmem' hU' (by rw [hsl]; exact hp) (by omega) (by rw [hsl]; omega) ?_ ?_ ?_
          · rw [hsl]; exact hnxt
          · intro e he
            rw [hsl]
            rw [List.getElem?_set]
            by_cases hce : fwd = cyc subs.length pivot e
            · rw [if_pos hce, if_pos (by omega)]
              exact ⟨_, rfl, by rw [← hcur', hkc]⟩
            · rw [if_neg hce]
              refine hagree e ?_
              rcases Nat.lt_or_ge e d with h1 | h1
              · exact h1
              · have : e = d := by omega
                rw [this, ← hfwd] at hce; exact absurd rfl hce
          · rw [hsl]; omega
        · have hlt : cur < k := lt_of_le_of_ne hk.2 (Ne.symm hkc)
          rw [if_pos hkc]
          have hcnt := filter_gt_lt hlt (hU li hlimem k hk.1)
          refine ih _ _ _ _ 1 _ hf' hmem' hU' (by rw [hsl]; exact hfl) (by omega) (by rw [hsl]; omega) ?_ ?_ ?_
          · rw [hsl]
            have : cyc subs.length fwd 1 = if fwd = subs.length - 1 then 0 else fwd + 1 := by
              unfold cyc; split <;> split <;> omega
            rw [this]
          · intro e he
            have he0 : e = 0 := by omega
            subst he0
            rw [hsl, List.getElem?_set]
            have : fwd = cyc subs.length fwd 0 := by unfold cyc; split <;> omega
            rw [if_pos this, if_pos (by omega)]
            exact ⟨_, rfl, hcur'.symm⟩
          · rw [hsl]
            have h3 : ((U.filter fun x => decide (k < x)).length + 1) * subs.length ≤ (U.filter fun x => decide (cur < x)).length * subs.length :=
              Nat.mul_le_mul_right _ hcnt
            rw [Nat.add_mul, Nat.one_mul] at h3
            omega

/-- What an AND gives. -/
def AndR (R : σ → List K → Prop) (s : OpSt σ K) (L : List K) : Prop :=
  L.Pairwise (· < ·) ∧ ((s.null = true ∧ L = []) ∨ (s.null = false ∧ s.init = false ∧ ∃ k, s.cur = some k ∧ Agree R s.subs k L))

/-- What a new AND will give. -/
def AndI (I : σ → List K → Prop) (s : OpSt σ K) (L : List K) : Prop :=
  L.Pairwise (· < ·) ∧ s.init = true ∧ s.null = false ∧ ((s.subs = [] ∧ L = []) ∨
    ∃ ls, List.Forall₂ I s.subs ls ∧ ls ≠ [] ∧ ∀ x, x ∈ L ↔ ∀ l ∈ ls, x ∈ l)

omit [LinearOrder K] in
theorem length_flatten_le (hs : ∀ {s l}, R s l → l.length ≤ o.size s) {subs : List σ} {ls : List (List K)} (h : List.Forall₂ R subs ls) :
    ls.flatten.length ≤ sizes o subs := by
  induction h with
  | nil => simp
  | cons h1 h2 ih =>
    simp only [List.flatten_cons, List.length_append, sizes, List.map_cons, List.sum_cons] at ih ⊢
    have := hs h1
    omega

theorem andFind_spec (hs : Sound o I R) {subs : List σ} {ls : List (List K)} {L : List K} (hf : List.Forall₂ R subs ls) (hne : subs ≠ [])
    (hL : L.Pairwise (· < ·)) (hmem : ∀ x, x ∈ L ↔ ∀ l ∈ ls, x ∈ l) : AndR R (andFind o subs) L := by
  have hpos : 0 < subs.length := List.length_pos_iff.2 hne
  have hlast : subs.getLast? = some (subs[subs.length - 1]'(by omega)) := by
    rw [List.getLast?_eq_getElem?, List.getElem?_eq_getElem (by omega)]
  obtain ⟨ll, hll, hRl⟩ := forall₂_get hf (List.getElem?_eq_getElem (show subs.length - 1 < subs.length by omega))
  have hc := hs.cur hRl
  unfold andFind
  rw [hlast, Option.bind_some]
  cases hk : o.curId (subs[subs.length - 1]'(by omega)) with
  | none =>
    refine ⟨hL, .inl ⟨rfl, ?_⟩⟩
    rw [hk] at hc
    have : ll = [] := by cases ll with
      | nil => rfl
      | cons a t => simp at hc
    apply List.eq_nil_iff_forall_not_mem.2
    intro x hx
    have h1 := (hmem x).1 hx ll (List.mem_of_getElem? hll)
    rw [this] at h1; simp at h1
  | some k =>
    rw [hk] at hc
    have hfl := length_flatten_le hs.rSize hf
    have key := andLoop_spec hs ls.flatten ((sizes o subs + 1) * (subs.length + 1)) subs ls 0 (subs.length - 1) 1 k L hf hmem
      (fun l hl x hx => List.mem_flatten.2 ⟨l, hl, hx⟩) (by omega) (by omega) (by omega)
      (by unfold cyc; split <;> omega)
      (fun e he => ⟨ll, by
        have : cyc subs.length (subs.length - 1) e = subs.length - 1 := by unfold cyc; split <;> omega
        rw [this]; exact hll, hc.symm⟩)
      (by
        have h1 : (ls.flatten.filter fun x => decide (k < x)).length ≤ sizes o subs := le_trans (List.length_filter_le _ _) hfl
        have h2 := Nat.mul_le_mul_right subs.length h1
        have h3 : (sizes o subs + 1) * (subs.length + 1) = sizes o subs * subs.length + sizes o subs + subs.length + 1 := by
          rw [Nat.add_mul, Nat.mul_add]; omega
        rw [h3]; omega)
    simp only [] at key ⊢
    rcases key with ⟨h1, h2⟩ | ⟨c, h1, h2⟩
    · exact ⟨hL, .inl ⟨by rw [h1]; rfl, h2⟩⟩
    · exact ⟨hL, .inr ⟨by rw [h1]; rfl, rfl, c, h1, h2⟩⟩

theorem nextAll_spec (hs : Sound o I R) {subs : List σ} {ls : List (List K)} (hf : List.Forall₂ I subs ls) :
    ((nextAll o subs).2 = true → List.Forall₂ R (nextAll o subs).1 ls) ∧ ((nextAll o subs).2 = false → [] ∈ ls) := by
  induction hf with
  | nil => exact ⟨fun _ => .nil, fun h => by simp [nextAll] at h⟩
  | @cons s l ss ls h1 h2 ih =>
    have hR := hs.start h1
    have hc := hs.cur hR
    simp only [nextAll]
    by_cases hn : (o.curId (o.next s)).isNone = true
    · rw [if_pos hn]
      refine ⟨fun h => by simp at h, fun _ => ?_⟩
      rw [hc] at hn
      cases l with
      | nil => exact List.mem_cons_self
      | cons a t => simp at hn
    · rw [if_neg hn]
      exact ⟨fun h => .cons hR (ih.1 h), fun h => List.mem_cons_of_mem _ (ih.2 h)⟩

theorem modify_last {α β : Type} {P : α → β → Prop} {as : List α} {bs : List β} (h : List.Forall₂ P as bs) {g : α → α} {g' : β → β}
    (hg : ∀ {a b}, P a b → P (g a) (g' b)) (i : Nat) : List.Forall₂ P (as.modify i g) (bs.modify i g') := by
  induction h generalizing i with
  | nil => simp
  | cons h1 h2 ih =>
    cases i with
    | zero => simpa using ⟨hg h1, h2⟩
    | succ i => simpa using ⟨h1, ih i⟩

theorem mem_modify {α : Type} {l : List α} {i : Nat} {g : α → α} {x : α} (hi : i < l.length) :
    x ∈ l.modify i g ↔ x = g l[i] ∨ ∃ j, ∃ (hj : j < l.length), j ≠ i ∧ x = l[j] := by
  rw [List.mem_iff_getElem]
  constructor
  · rintro ⟨j, hj, rfl⟩
    simp only [List.length_modify] at hj
    rw [List.getElem_modify]
    by_cases h : i = j
    · subst h; left; simp
    · right; exact ⟨j, hj, Ne.symm h, by simp [h]⟩
  · rintro (rfl | ⟨j, hj, hji, rfl⟩)
    · exact ⟨i, by simpa using hi, by simp⟩
    · exact ⟨j, by simpa using hj, by rw [List.getElem_modify]; simp [Ne.symm hji]⟩

theorem agree_sorted (hs : Sound o I R) {subs : List σ} {ls : List (List K)} (hf : List.Forall₂ R subs ls) {l : List K} (hl : l ∈ ls) :
    l.Pairwise (· < ·) := by
  induction hf with
  | nil => simp at hl
  | cons h1 h2 ih =>
    rcases List.mem_cons.1 hl with rfl | hl
    · exact hs.rSorted h1
    · exact ih hl

theorem andNext_R (hs : Sound o I R) {s : OpSt σ K} {L : List K} (h : AndR R s L) : AndR R (andNext o s) L.tail := by
  obtain ⟨hL, hcase⟩ := h
  unfold andNext
  rcases hcase with ⟨hn, rfl⟩ | ⟨hn, hi, k, hk, ls, hf, hlne, hheads, hmem⟩
  · rw [if_pos (.inr hn)]
    exact ⟨by simp, .inl ⟨rfl, rfl⟩⟩
  · have hlen := hf.length_eq
    have hsne : s.subs ≠ [] := by
      intro e; rw [e, List.length_nil] at hlen; exact hlne (List.length_eq_zero_iff.1 hlen.symm)
    have hpos : 0 < s.subs.length := List.length_pos_iff.2 hsne
    rw [if_neg (by rintro (h1 | h1); exacts [hsne h1, by rw [hn] at h1; cases h1]), hi]
    simp only [Bool.false_eq_true, if_false]
    refine andFind_spec hs (modify_last hf hs.next (s.subs.length - 1)) ?_ (sorted_tail hL) ?_
    · intro e
      have := congrArg List.length e
      simp only [List.length_modify, List.length_nil] at this; omega
    · have hkL : L.head? = some k :=
        head_of_le hL ((hmem k).2 fun l hl => List.mem_of_head? (hheads l hl))
          fun x hx => by
            have hl0 := List.getElem_mem (l := ls) (n := 0) (by omega)
            exact head_le (agree_sorted hs hf hl0) (hheads _ hl0) ((hmem x).1 hx _ hl0)
      have hil : s.subs.length - 1 < ls.length := by omega
      intro x
      rw [mem_tail hL hkL, hmem x]
      constructor
      · rintro ⟨h1, h2⟩ l hl
        rcases (mem_modify hil).1 hl with rfl | ⟨j, hj, _, rfl⟩
        · have hm := List.getElem_mem hil
          exact (mem_tail (agree_sorted hs hf hm) (hheads _ hm) x).2 ⟨h1 _ hm, h2⟩
        · exact h1 _ (List.getElem_mem hj)
      · intro h1
        have hm := List.getElem_mem hil
        have h2 := (mem_tail (agree_sorted hs hf hm) (hheads _ hm) x).1 (h1 _ ((mem_modify hil).2 (.inl rfl)))
        refine ⟨fun l hl => ?_, h2.2⟩
        obtain ⟨j, hj, rfl⟩ := List.mem_iff_getElem.1 hl
        by_cases hji : j = s.subs.length - 1
        · subst hji; exact h2.1
        · exact h1 _ ((mem_modify hil).2 (.inr ⟨j, hj, hji, rfl⟩))

theorem andAdvance_R (hs : Sound o I R) (t : K) {s : OpSt σ K} {L : List K} (h : AndR R s L) :
    AndR R (andAdvance o t s) (L.dropWhile fun y => decide (y < t)) := by
  obtain ⟨hL, hcase⟩ := h
  have hL' := sorted_dropWhile hL fun y => decide (y < t)
  unfold andAdvance
  rcases hcase with ⟨hn, rfl⟩ | ⟨hn, hi, k, hk, ls, hf, hlne, hheads, hmem⟩
  · rw [if_pos (.inr hn)]
    exact ⟨by simp, .inl ⟨rfl, rfl⟩⟩
  · have hlen := hf.length_eq
    have hsne : s.subs ≠ [] := by
      intro e; rw [e, List.length_nil] at hlen; exact hlne (List.length_eq_zero_iff.1 hlen.symm)
    have hpos : 0 < s.subs.length := List.length_pos_iff.2 hsne
    rw [if_neg (by rintro (h1 | h1); exacts [hsne h1, by rw [hn] at h1; cases h1]), hi]
    simp only [Bool.false_eq_true, if_false, hk, Option.elim_some, decide_eq_true_eq]
    have hkL : L.head? = some k :=
      head_of_le hL ((hmem k).2 fun l hl => List.mem_of_head? (hheads l hl))
        fun x hx => by
          have hl0 := List.getElem_mem (l := ls) (n := 0) (by omega)
          exact head_le (agree_sorted hs hf hl0) (hheads _ hl0) ((hmem x).1 hx _ hl0)
    by_cases htk : t ≤ k
    · rw [if_pos htk]
      have e : L.dropWhile (fun y => decide (y < t)) = L := by
        refine sorted_ext hL' hL fun x => ?_
        rw [mem_dropWhile hL]
        exact ⟨fun h => h.1, fun h => ⟨h, le_trans htk (head_le hL hkL h)⟩⟩
      rw [e]
      exact ⟨hL, .inr ⟨hn, hi, k, hk, ls, hf, hlne, hheads, hmem⟩⟩
    · rw [if_neg htk]
      refine andFind_spec hs (modify_last hf (hs.adv t) (s.subs.length - 1)) ?_ hL' ?_
      · intro e
        have := congrArg List.length e
        simp only [List.length_modify, List.length_nil] at this; omega
      · have hil : s.subs.length - 1 < ls.length := by omega
        intro x
        rw [mem_dropWhile hL, hmem x]
        constructor
        · rintro ⟨h1, h2⟩ l hl
          rcases (mem_modify hil).1 hl with rfl | ⟨j, hj, _, rfl⟩
          · have hm := List.getElem_mem hil
            exact (mem_dropWhile (agree_sorted hs hf hm) t x).2 ⟨h1 _ hm, h2⟩
          · exact h1 _ (List.getElem_mem hj)
        · intro h1
          have hm := List.getElem_mem hil
          have h2 := (mem_dropWhile (agree_sorted hs hf hm) t x).1 (h1 _ ((mem_modify hil).2 (.inl rfl)))
          refine ⟨fun l hl => ?_, h2.2⟩
          obtain ⟨j, hj, rfl⟩ := List.mem_iff_getElem.1 hl
          by_cases hji : j = s.subs.length - 1
          · subst hji; exact h2.1
          · exact h1 _ ((mem_modify hil).2 (.inr ⟨j, hj, hji, rfl⟩))

theorem andNext_I (hs : Sound o I R) {s : OpSt σ K} {L : List K} (h : AndI I s L) : AndR R (andNext o s) L := by
  obtain ⟨hL, hi, hn, ⟨hsub, rfl⟩ | ⟨ls, hf, hlne, hmem⟩⟩ := h
  · unfold andNext
    rw [if_pos (.inl hsub)]
    exact ⟨hL, .inl ⟨rfl, rfl⟩⟩
  · have hlen := hf.length_eq
    have hsne : s.subs ≠ [] := by
      intro e; rw [e, List.length_nil] at hlen; exact hlne (List.length_eq_zero_iff.1 hlen.symm)
    unfold andNext
    rw [if_neg (by rintro (h1 | h1); exacts [hsne h1, by rw [hn] at h1; cases h1]), hi]
    simp only [if_true]
    obtain ⟨h1, h2⟩ := nextAll_spec hs hf
    cases hb : (nextAll o s.subs).2 with
    | true =>
      simp only [if_true]
      refine andFind_spec hs (h1 hb) ?_ hL hmem
      intro e
      have := (h1 hb).length_eq
      rw [e, List.length_nil] at this
      exact hlne (List.length_eq_zero_iff.1 this.symm)
    | false =>
      simp only [Bool.false_eq_true, if_false]
      refine ⟨hL, .inl ⟨rfl, List.eq_nil_iff_forall_not_mem.2 fun x hx => ?_⟩⟩
      exact absurd ((hmem x).1 hx [] (h2 hb)) List.not_mem_nil

theorem and_cur (hs : Sound o I R) {s : OpSt σ K} {L : List K} (h : AndR R s L) : (if s.null then none else s.cur) = L.head? := by
  obtain ⟨hL, ⟨hn, rfl⟩ | ⟨hn, hi, k, hk, ls, hf, hlne, hheads, hmem⟩⟩ := h
  · simp [hn]
  · rw [hn, hk]
    have hpos : 0 < ls.length := List.length_pos_iff.2 hlne
    refine (head_of_le hL ((hmem k).2 fun l hl => List.mem_of_head? (hheads l hl)) fun x hx => ?_).symm
    have hl0 := List.getElem_mem (l := ls) (n := 0) hpos
    exact head_le (agree_sorted hs hf hl0) (hheads _ hl0) ((hmem x).1 hx _ hl0)

theorem sorted_length_le {l l' : List K} (h : l.Pairwise (· < ·)) (hsub : ∀ x ∈ l, x ∈ l') : l.length ≤ l'.length := by
  have hnd : l.Nodup := h.imp fun h => ne_of_lt h
  exact (hnd.subperm hsub).length_le

theorem and_size (hs : ∀ {s l}, R s l → l.length ≤ o.size s) {subs : List σ} {ls : List (List K)} {L : List K} (hL : L.Pairwise (· < ·))
    (hf : List.Forall₂ R subs ls) (hne : ls ≠ []) (hmem : ∀ x, x ∈ L ↔ ∀ l ∈ ls, x ∈ l) : L.length ≤ sizes o subs := by
  refine le_trans (sorted_length_le hL fun x hx => ?_) (length_flatten_le hs hf)
  cases ls with
  | nil => exact absurd rfl hne
  | cons l ls => exact List.mem_flatten.2 ⟨l, List.mem_cons_self, (hmem x).1 hx l List.mem_cons_self⟩

end

end BaikalDB.Reverse
