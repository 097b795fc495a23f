import Verif.Binlog.Read
import Mathlib.Data.List.Induction

/-! # C59: readers get each committed transaction once, in the order of commits -/

namespace BaikalDB.Binlog

/-! ## One answer -/

theorem Asc.map_pair {xs : List (Int × Rec)} (h : Asc xs) (b cp : Int) :
    (vis b cp xs).Pairwise fun a b => a.1 < b.1 := by
  unfold vis
  rw [List.pairwise_map]
  exact List.Pairwise.filter _ h

theorem item_inj {vals : Int → Option Nat} {c s : Int} {d : Option Nat} {p : Int × Int} (h : item vals p = ⟨c, s, d⟩) :
    p.1 = c ∧ p.2 = s ∧ d = if c = s then none else vals s := by
  unfold item at h
  rw [Item.mk.injEq] at h
  obtain ⟨h1, h2, h3⟩ := h
  exact ⟨h1, h2, by rw [← h3, h1, h2]⟩

/-- An answer is what the records say: a beginning of the commits and fake records after `begin`. -/
theorem read_ok {s : St} {q : Query} {items : List Item} (hR : Asc s.recs) (h : read s q = .ok items) :
    ∃ l, l <+: vis q.begin s.cp s.recs ∧ items = l.map (item s.vals) ∧ (∀ p ∈ l, Found s.vals p) ∧
      (q.accept 0 = true → 0 ≤ q.cnt → vis q.begin s.cp s.recs ≠ [] → l ≠ []) := by
  unfold read at h
  simp only at h
  generalize (if q.cfOldest < s.oldest then s.oldest else q.cfOldest) = old at h
  split at h
  · cases h
  split at h
  · cases h
  split at h
  · cases h
  split at h
  · cases h
  split at h
  · rename_i hcp
    rw [Res.ok.injEq] at h
    refine ⟨[], List.nil_prefix, by rw [← h]; rfl, (fun p hp => nomatch hp), ?_⟩
    intro _ _ hne
    exfalso
    apply hne
    unfold vis
    rw [List.map_eq_nil_iff, List.filter_eq_nil_iff]
    intro y _
    simp only [decide_eq_true_eq]
    intro hv
    have := hv.1
    have := hv.2.1
    omega
  · have hf : vis q.begin s.cp (s.recs.filter fun x => decide (q.begin ≤ x.1)) = vis q.begin s.cp s.recs := by
      unfold vis
      rw [List.filter_filter]
      congr 1
      refine List.filter_congr ?_
      intro x _
      rw [Bool.and_eq_left_iff_imp]
      intro hv
      rw [decide_eq_true_iff] at hv ⊢
      have := hv.1
      omega
    obtain ⟨l, h1, h2, h3, h4⟩ := scan_spec _ [] [] q.cnt (fun x hx => by simpa using (List.mem_filter.mp hx).2)
      (List.Pairwise.filter _ hR) (fun _ => rfl) h
    rw [List.nil_append, hf] at h1
    rw [hf] at h4
    exact ⟨l, h1, by rw [h2]; simp, h3, fun ha hc hne => h4 ha (Or.inr ⟨hne, hc⟩)⟩

/-- What is in an answer: binlogs after `begin`, in the order of their timestamps, each a committed transaction of the log
with its payload or a fake record; and no transaction of the log is left out between `begin` and the last of them, even
if it comes to the log later. -/
theorem C59_read {L : List Entry} (hL : Legit L) {n : Nat} {s : St} (hP : Peer L n s) {q : Query} {items : List Item}
    (h : read s q = .ok items) :
    items.Pairwise (fun x y => x.ts < y.ts) ∧
    (∀ x ∈ items, q.begin < x.ts ∧ x.ts ≤ s.cp) ∧
    (∀ x ∈ items, (x.data = none ∧ x.start = x.ts ∧ ∃ e ∈ L, e.kind = .fake ∧ e.ts = x.ts) ∨
      ∃ d, x.data = some d ∧ Txn L x.ts x.start d) ∧
    (∀ c t d, Txn L c t d → q.begin < c → (∃ x ∈ items, c ≤ x.ts) → ⟨c, t, some d⟩ ∈ items) := by
  obtain ⟨hI, hV⟩ := peer_inv hL hP
  rcases hI with ⟨_, rfl⟩ | ⟨hn, _, hI⟩
  · have : read init q = .err := by unfold read; simp [init]
    rw [this] at h; cases h
  have hsub : ∀ e ∈ L.take n, e ∈ L := fun e he => List.mem_of_mem_take he
  obtain ⟨l, h1, h2, h3, -⟩ := read_ok hI.ascR h
  have hasc : l.Pairwise fun a b => a.1 < b.1 := (hI.ascR.map_pair q.begin s.cp).sublist h1.sublist
  have hmem : ∀ p ∈ l, ∃ x, x ∈ s.recs ∧ Vis q.begin s.cp x ∧ pair x = p := by
    intro p hp
    have := h1.subset hp
    unfold vis at this
    obtain ⟨x, hx, hxp⟩ := List.mem_map.mp this
    have := List.mem_filter.mp hx
    exact ⟨x, this.1, by simpa using this.2, hxp⟩
  refine ⟨?_, ?_, ?_, ?_⟩
  · rw [h2, List.pairwise_map]
    exact hasc
  · intro x hx
    rw [h2] at hx
    obtain ⟨p, hp, rfl⟩ := List.mem_map.mp hx
    obtain ⟨y, _, hv, rfl⟩ := hmem p hp
    exact ⟨hv.1, hv.2.1⟩
  · intro x hx
    rw [h2] at hx
    obtain ⟨p, hp, rfl⟩ := List.mem_map.mp hx
    obtain ⟨⟨t, r⟩, hy, hv, rfl⟩ := hmem p hp
    obtain ⟨e, he, het, hek, hes⟩ := hI.recs t r hy
    rcases hv.2.2 with hk | hk
    · left
      have hp2 : pair (t, r) = (t, t) := by unfold pair; rw [if_pos hk]
      rw [hp2]
      exact ⟨by simp [item], rfl, e, hsub e he, by rw [hek]; exact hk, het⟩
    · right
      have hp2 : pair (t, r) = (t, r.start) := by
        unfold pair
        rw [if_neg (by rw [hk]; intro h; cases h)]
      have hlt : r.start < t := by
        obtain ⟨i, hi⟩ := List.mem_iff_getElem?.mp (hsub e he)
        have := (hL.commit i e hi (by rw [hek]; exact hk)).1
        omega
      have hne : t ≠ r.start := by omega
      rw [hp2] at hp ⊢
      rcases h3 _ hp with h4 | ⟨d, h4⟩
      · exact absurd h4 hne
      · simp only at h4
        refine ⟨d, ?_, ⟨e, hsub e he, by rw [hek]; exact hk, het, hes⟩, hV _ _ h4⟩
        show (if t = r.start then none else s.vals r.start) = some d
        rw [if_neg hne]; exact h4
  · intro c t d ⟨⟨e, he, hek, hec, hes⟩, f, hf, hfk, hft, hfd⟩ hb ⟨x, hx, hcx⟩
    rw [h2] at hx
    obtain ⟨p, hp, rfl⟩ := List.mem_map.mp hx
    obtain ⟨y, hy, hv, rfl⟩ := hmem p hp
    have hcx' : c ≤ y.1 := hcx
    obtain ⟨r, hr, hrk, hrs⟩ := commit_seen hL hI he hek (by have := hv.2.1; omega)
    have hlt : t < c := by
      obtain ⟨i, hi⟩ := List.mem_iff_getElem?.mp he
      have := (hL.commit i e hi hek).1
      omega
    have hpr : pair (e.ts, r) = (c, t) := by
      unfold pair
      rw [if_neg (by rw [hrk]; intro h; cases h), hrs, hec, hes]
    have hin : (c, t) ∈ vis q.begin s.cp s.recs := by
      unfold vis
      refine List.mem_map.mpr ⟨(e.ts, r), List.mem_filter.mpr ⟨hr, ?_⟩, hpr⟩
      rw [decide_eq_true_iff]
      exact ⟨by show q.begin < e.ts; omega, by show e.ts ≤ s.cp; have := hv.2.1; omega, Or.inr hrk⟩
    have hl : (c, t) ∈ l := by
      obtain ⟨l', hl'⟩ := h1
      rw [← hl'] at hin
      rcases List.mem_append.mp hin with h5 | h5
      · exact h5
      · exfalso
        have hall := hI.ascR.map_pair q.begin s.cp
        rw [← hl', List.pairwise_append] at hall
        have := hall.2.2 _ hp _ h5
        have hy1 : (pair y).1 = y.1 := rfl
        simp only [hy1] at this
        omega
    rw [h2]
    refine List.mem_map.mpr ⟨(c, t), hl, ?_⟩
    rcases h3 _ hl with h4 | ⟨d', h4⟩
    · simp only at h4; omega
    · simp only at h4
      obtain ⟨g, hg, hgk, hgt, hgd⟩ := hV _ _ h4
      have := (hL.same g hg f hf (by omega) (by rw [hgk, hfk])).2
      show (⟨c, t, if c = t then none else s.vals t⟩ : Item) = _
      rw [if_neg (by omega), h4, ← hgd, this, hfd]

/-- A reader behind the check point gets something if something is to be read. -/
theorem C59_read_nonempty {L : List Entry} (hL : Legit L) {n : Nat} {s : St} (hP : Peer L n s) {q : Query} {items : List Item}
    (h : read s q = .ok items) (ha : q.accept 0 = true) (hc : 0 ≤ q.cnt) {e : Entry} (he : e ∈ L.take n)
    (hk : e.kind = .commit ∨ e.kind = .fake) (hb : q.begin < e.ts) (hcp : e.ts ≤ s.cp) : items ≠ [] := by
  obtain ⟨hI, -⟩ := peer_inv hL hP
  rcases hI with ⟨hn, _⟩ | ⟨_, _, hI⟩
  · rw [hn] at he; cases he
  have hsub : ∀ e ∈ L.take n, e ∈ L := fun e he => List.mem_of_mem_take he
  obtain ⟨l, h1, h2, -, h4⟩ := read_ok hI.ascR h
  have hne : vis q.begin s.cp s.recs ≠ [] := by
    obtain ⟨r, hr⟩ := hI.kept e he
    obtain ⟨f, hf, hft, hfk, hfs⟩ := hI.recs _ _ hr
    have hkk : f.kind = e.kind := by
      by_contra hne
      rcases hL.apart f (hsub f hf) e (hsub e he) hft hne with ⟨_, h1, _⟩ | ⟨h1, _, _⟩ <;>
        · rcases hk with hk | hk <;> · rw [hk] at h1; cases h1
    have : pair (e.ts, r) ∈ vis q.begin s.cp s.recs := by
      unfold vis
      refine List.mem_map.mpr ⟨(e.ts, r), List.mem_filter.mpr ⟨hr, ?_⟩, rfl⟩
      rw [decide_eq_true_iff]
      refine ⟨hb, hcp, ?_⟩
      show r.kind = .fake ∨ r.kind = .commit
      rw [← hfk, hkk]
      exact hk.symm
    intro hnil
    rw [hnil] at this
    cases this
  have := h4 ha hc hne
  rw [h2]
  simpa using this

/-! ## A reader -/

/-- A reader that asks any peers, as far as they are, gets the transactions of the log committed after where it started, up
to where it is: all of them, once, in the order of their commit timestamps, each with its payload. -/
theorem C59_consumer {L : List Entry} (hL : Legit L) {p₀ p : Int} {out : List Item} (h : Consume L p₀ out p) :
    out.Pairwise (fun x y => x.ts < y.ts) ∧
    (∀ x ∈ out, (x.data = none ∧ x.start = x.ts ∧ ∃ e ∈ L, e.kind = .fake ∧ e.ts = x.ts) ∨
      ∃ d, x.data = some d ∧ Txn L x.ts x.start d) ∧
    (∀ c t d, ⟨c, t, some d⟩ ∈ out ↔ Txn L c t d ∧ p₀ < c ∧ c ≤ p) := by
  suffices hs : out.Pairwise (fun x y => x.ts < y.ts) ∧ p₀ ≤ p ∧ (∀ x ∈ out, p₀ < x.ts ∧ x.ts ≤ p) ∧
      (∀ x ∈ out, (x.data = none ∧ x.start = x.ts ∧ ∃ e ∈ L, e.kind = .fake ∧ e.ts = x.ts) ∨
        ∃ d, x.data = some d ∧ Txn L x.ts x.start d) ∧
      (∀ c t d, Txn L c t d → p₀ < c → c ≤ p → ⟨c, t, some d⟩ ∈ out) by
    obtain ⟨h1, _, h3, h4, h5⟩ := hs
    refine ⟨h1, h4, fun c t d => ⟨fun hx => ?_, fun ⟨a, b, c'⟩ => h5 c t d a b c'⟩⟩
    have hb := h3 _ hx
    rcases h4 _ hx with ⟨hn, _⟩ | ⟨d', hd, ht⟩
    · cases hn
    · simp only [Option.some.injEq] at hd
      subst hd
      exact ⟨ht, hb⟩
  induction h with
  | start => exact ⟨List.Pairwise.nil, Int.le_refl _, (fun x hx => nomatch hx), (fun x hx => nomatch hx), fun _ _ _ _ h1 h2 => by omega⟩
  | @read out p n s q x xs _ hP hq hr ih =>
    obtain ⟨i1, i2, i3, i4, i5⟩ := ih
    obtain ⟨r1, r2, r3, r4⟩ := C59_read hL hP hr
    have hlast : ∀ y ∈ x :: xs, y.ts ≤ ((x :: xs).getLast (by simp)).ts := by
      intro y hy
      have hne : x :: xs ≠ [] := by simp
      rw [← List.dropLast_concat_getLast hne] at hy r1
      rcases List.mem_append.mp hy with hy | hy
      · have := (List.pairwise_append.mp r1).2.2 y hy _ (List.mem_singleton.mpr rfl)
        omega
      · rw [List.mem_singleton] at hy
        rw [hy]; exact Int.le_refl _
    have hlm : (x :: xs).getLast (by simp) ∈ x :: xs := List.getLast_mem _
    have hpl : p < ((x :: xs).getLast (by simp)).ts := by
      have := (r2 _ hlm).1
      omega
    refine ⟨?_, by omega, ?_, ?_, ?_⟩
    · rw [List.pairwise_append]
      refine ⟨i1, r1, ?_⟩
      intro a ha b hb
      have := (i3 a ha).2
      have := (r2 b hb).1
      omega
    · intro y hy
      rcases List.mem_append.mp hy with hy | hy
      · have := i3 y hy; exact ⟨this.1, by omega⟩
      · have h1 := (r2 y hy).1; have h2 := hlast y hy; exact ⟨by omega, h2⟩
    · intro y hy
      rcases List.mem_append.mp hy with hy | hy
      · exact i4 y hy
      · exact r3 y hy
    · intro c t d ht h1 h2
      by_cases hc : c ≤ p
      · exact List.mem_append.mpr (Or.inl (i5 c t d ht h1 hc))
      · exact List.mem_append.mpr (Or.inr (r4 c t d ht (by omega) ⟨_, hlm, h2⟩))

/-! ## The check point moves on -/

/-- A peer that applies the log from the beginning. -/
def run (xs : List (Entry × Bool)) : St := xs.foldl (fun s x => apply s x.1 x.2) init

/-- No prewrite comes after its transaction was decided. -/
def NoLate (L : List Entry) : Prop :=
  ∀ (i j : Nat) (e f : Entry), i < j → L[i]? = some e → L[j]? = some f → (e.kind = .commit ∨ e.kind = .rollback) →
    f.kind = .prewrite → e.start ≠ f.ts

theorem run_snoc (xs : List (Entry × Bool)) (e : Entry) (b : Bool) : run (xs ++ [(e, b)]) = apply (run xs) e b := by
  unfold run; rw [List.foldl_append]; rfl

theorem run_peer {L : List Entry} (xs : List (Entry × Bool)) (h : xs.map Prod.fst <+: L) : Peer L xs.length (run xs) := by
  induction xs using List.reverseRecOn with
  | nil => exact .fresh
  | append_singleton xs x ih =>
    obtain ⟨e, b⟩ := x
    rw [run_snoc]
    have h1 : xs.map Prod.fst <+: L := (List.prefix_append _ _).trans (by rwa [List.map_append] at h)
    have hx : L[xs.length]? = some e := by
      obtain ⟨l, hl⟩ := h
      rw [← hl, List.map_append, List.append_assoc, List.getElem?_append_right (by simp)]
      simp
    have := Peer.apply b (ih h1) (Nat.le_refl _) hx
    rw [if_pos rfl] at this
    simpa using this

theorem mem_settle_pend (s : St) (pd : List (Int × Bool)) (ts : Int) : (settle s pd ts).pend = pd := rfl

theorem updateCheck_pend_sub (s : St) (save : Bool) : ∀ x ∈ (updateCheck s save).pend, x ∈ s.pend := by
  intro x hx
  unfold updateCheck at hx
  split at hx
  · exact hx
  · exact (List.dropWhile_sublist _).subset hx

/-- The map holds no transaction that is decided. -/
theorem run_pend {L : List Entry} (hL : Legit L) (hN : NoLate L) (xs : List (Entry × Bool)) (h : xs.map Prod.fst <+: L) :
    ∀ t, (t, true) ∈ (run xs).pend → Open (xs.map Prod.fst) t := by
  induction xs using List.reverseRecOn with
  | nil => intro t ht; cases ht
  | append_singleton xs x ih =>
    obtain ⟨e, b⟩ := x
    have h1 : xs.map Prod.fst <+: L := (List.prefix_append _ _).trans (by rwa [List.map_append] at h)
    have ih := ih h1
    have hP := run_peer xs h1
    have hx : L[xs.length]? = some e := by
      obtain ⟨l, hl⟩ := h
      rw [← hl, List.map_append, List.append_assoc, List.getElem?_append_right (by simp)]
      simp
    have he : e ∈ L := List.mem_of_getElem? hx
    have htk : L.take xs.length = xs.map Prod.fst := by
      obtain ⟨l, hl⟩ := h1
      rw [← hl, List.take_append_of_le_length (by simp)]
      exact List.take_of_length_le (by simp)
    intro t ht
    rw [run_snoc] at ht
    have ht := updateCheck_pend_sub _ _ _ ht
    rw [List.map_append]
    show Open (xs.map Prod.fst ++ [e]) t
    -- a transaction open before stays open unless `e` decides it
    have keep : Open (xs.map Prod.fst) t → ((e.kind = .commit ∨ e.kind = .rollback) → e.start ≠ t) →
        Open (xs.map Prod.fst ++ [e]) t := by
      rintro ⟨⟨f, hf, hfk, hft⟩, hno⟩ hne
      refine ⟨⟨f, List.mem_append.mpr (Or.inl hf), hfk, hft⟩, ?_⟩
      intro g hg
      rcases List.mem_append.mp hg with hg | hg
      · exact hno g hg
      · rw [List.mem_singleton] at hg; subst hg; exact hne
    rcases (peer_inv hL hP).1 with ⟨hz, hi⟩ | ⟨hpos, _, hI⟩
    · have hnil : xs = [] := List.length_eq_zero_iff.mp hz
      subst hnil
      have hk : e.kind = .fake := hL.first e hx
      exfalso
      have hu : updateMap (write init e) e = opened (write init e) e.ts := by
        unfold updateMap
        rw [if_pos (show (write init e).cp = -1 from rfl), if_pos hk]
      rw [show run [] = init from rfl, hu] at ht
      have : (t, true) ∈ [(e.ts, false)] := ht
      simp at this
    · have hcp : (write (run xs) e).cp ≠ -1 := by have := hI.cpPos; show (run xs).cp ≠ -1; omega
      rw [updateMap, if_neg hcp] at ht
      cases hk : e.kind with
      | fake =>
        have hnr : (e.kind = .commit ∨ e.kind = .rollback) → e.start ≠ t := by rw [hk]; rintro (h | h) <;> cases h
        rw [hk] at ht
        simp only at ht
        split at ht
        · exact keep (ih t ht) hnr
        · rcases (mem_put hI.ascP _).mp ht with heq | ⟨ht, _⟩
          · simp at heq
          · exact keep (ih t ht) hnr
      | prewrite =>
        have hnr : (e.kind = .commit ∨ e.kind = .rollback) → e.start ≠ t := by rw [hk]; rintro (h | h) <;> cases h
        rw [hk] at ht
        rcases (mem_put hI.ascP _).mp ht with heq | ⟨ht, _⟩
        · simp only [Prod.mk.injEq, and_true] at heq
          refine ⟨⟨e, by simp, hk, heq.symm⟩, ?_⟩
          intro g hg hgk
          rcases List.mem_append.mp hg with hg | hg
          · rw [← htk] at hg
            obtain ⟨i, hi⟩ := List.mem_iff_getElem?.mp hg
            rw [List.getElem?_take] at hi
            split at hi
            · rename_i hlt
              rw [heq]
              exact hN i xs.length g e hlt hi hx hgk hk
            · cases hi
          · rw [List.mem_singleton] at hg
            subst hg
            exact hnr hgk
        · exact keep (ih t ht) hnr
      | commit =>
        rw [hk] at ht
        simp only at ht
        split at ht
        · rename_i hlt
          refine keep (ih t ht) fun _ hst => ?_
          have := hI.low _ ht
          simp only at this
          have hlt' : e.start < (run xs).cp := hlt
          omega
        · split at ht
          · have := (mem_del _).mp ht
            exact keep (ih t this.1) fun _ hst => this.2 hst.symm
          · rename_i hno
            refine keep (ih t ht) fun _ hst => hno ?_
            exact has_iff.mpr ⟨true, by rw [hst]; exact ht⟩
      | rollback =>
        rw [hk] at ht
        simp only at ht
        split at ht
        · rename_i hlt
          refine keep (ih t ht) fun _ hst => ?_
          have := hI.low _ ht
          simp only at this
          have hlt' : e.start < (run xs).cp := hlt
          omega
        · split at ht
          · have := (mem_del _).mp ht
            exact keep (ih t this.1) fun _ hst => this.2 hst.symm
          · rename_i hno
            refine keep (ih t ht) fun _ hst => hno ?_
            exact has_iff.mpr ⟨true, by rw [hst]; exact ht⟩

theorem dropWhile_head {l l' : List (Int × Bool)} {x : Int × Bool} (h : l.dropWhile (fun e => !e.2) = x :: l') : x.2 = true := by
  induction l with
  | nil => cases h
  | cons y l ih =>
    rw [List.dropWhile_cons] at h
    by_cases hy : y.2 = true
    · rw [if_neg (by simp [hy])] at h
      rw [List.cons.injEq] at h
      rw [← h.1]; exact hy
    · rw [if_pos (by simp [hy])] at h
      exact ih h

/-- With the next fake record, the check point is the start of the oldest open transaction, or that record if none is
open: nothing else holds readers back. -/
theorem C59_progress {L : List Entry} (hL : Legit L) (hN : NoLate L) (xs : List (Entry × Bool)) (f : Entry) (b : Bool)
    (h : xs.map Prod.fst ++ [f] <+: L) (hf : f.kind = .fake) (hgt : ∀ e ∈ xs.map Prod.fst, e.ts < f.ts) :
    ((∀ t, ¬ Open (xs.map Prod.fst) t) → (run (xs ++ [(f, b)])).cp = f.ts) ∧
    (∀ t, Open (xs.map Prod.fst) t → (∀ t', Open (xs.map Prod.fst) t' → t ≤ t') → (run (xs ++ [(f, b)])).cp = t) := by
  have h' : (xs ++ [(f, b)]).map Prod.fst <+: L := by simpa using h
  have h1 : xs.map Prod.fst <+: L := (List.prefix_append _ _).trans h
  have hfL : f ∈ L := h.subset (by simp)
  have hP := run_peer (xs ++ [(f, b)]) h'
  have hI : Inv (xs.map Prod.fst ++ [f]) (run (xs ++ [(f, b)])) := by
    rcases (peer_inv hL hP).1 with ⟨h0, _⟩ | ⟨_, _, hI⟩
    · simp at h0
    · have : L.take (xs ++ [(f, b)]).length = xs.map Prod.fst ++ [f] := by
        obtain ⟨l, hl⟩ := h
        rw [← hl, List.take_append_of_le_length (by simp)]
        exact List.take_of_length_le (by simp)
      rwa [this] at hI
  have hopen : ∀ t, Open (xs.map Prod.fst ++ [f]) t ↔ Open (xs.map Prod.fst) t := by
    intro t
    constructor
    · rintro ⟨⟨e, he, hek, het⟩, hno⟩
      refine ⟨⟨e, ?_, hek, het⟩, fun g hg => hno g (List.mem_append.mpr (Or.inl hg))⟩
      rcases List.mem_append.mp he with he | he
      · exact he
      · rw [List.mem_singleton] at he; rw [he, hf] at hek; cases hek
    · rintro ⟨⟨e, he, hek, het⟩, hno⟩
      refine ⟨⟨e, List.mem_append.mpr (Or.inl he), hek, het⟩, ?_⟩
      intro g hg hgk
      rcases List.mem_append.mp hg with hg | hg
      · exact hno g hg hgk
      · rw [List.mem_singleton] at hg
        rw [hg, hf] at hgk
        rcases hgk with h | h <;> cases h
  have hpend : ∀ t, (t, true) ∈ (run (xs ++ [(f, b)])).pend → Open (xs.map Prod.fst) t := by
    intro t ht
    have := run_pend hL hN (xs ++ [(f, b)]) h' t ht
    rw [List.map_append] at this
    exact (hopen t).mp this
  -- before the check point is taken
  obtain ⟨s, hs, hmid⟩ : ∃ s : St, run (xs ++ [(f, b)]) = updateCheck s b ∧ s.cp ≠ -1 ∧ s.max = f.ts ∧ s.cp ≤ f.ts := by
    refine ⟨updateMap (write (run xs) f) f, run_snoc xs f b, ?_⟩
    rcases (peer_inv hL (run_peer xs h1)).1 with ⟨hz, hi⟩ | ⟨hpos, _, hJ⟩
    · have hnil : xs = [] := List.length_eq_zero_iff.mp hz
      subst hnil
      have hu : updateMap (write init f) f = opened (write init f) f.ts := by
        unfold updateMap
        rw [if_pos (show (write init f).cp = -1 from rfl), if_pos hf]
      rw [show run [] = init from rfl, hu]
      have hp := hL.pos f hfL
      refine ⟨?_, ?_, Int.le_refl _⟩
      · show f.ts ≠ -1; omega
      · show (if (-1 : Int) < f.ts then f.ts else -1) = f.ts
        rw [if_pos (by omega)]
    · have htk : L.take xs.length = xs.map Prod.fst := by
        obtain ⟨l, hl⟩ := h1
        rw [← hl, List.take_append_of_le_length (by simp)]
        exact List.take_of_length_le (by simp)
      rw [htk] at hJ
      have c1 : (run xs).cp < f.ts := hJ.cpBd _ hgt
      have c2 : (run xs).max < f.ts := hJ.maxBd _ hgt
      have hcp : (write (run xs) f).cp ≠ -1 := by have := hJ.cpPos; show (run xs).cp ≠ -1; omega
      rw [updateMap, if_neg hcp, hf]
      rw [if_neg (by show ¬ f.ts ≤ (run xs).cp; omega)]
      have hA : Asc (put f.ts false (run xs).pend) := put_asc hJ.ascP
      have hin : (f.ts, false) ∈ put f.ts false (run xs).pend := (mem_put hJ.ascP _).mpr (Or.inl rfl)
      have hkeys : ∀ x ∈ put f.ts false (run xs).pend, 0 < x.1 := by
        intro x hx
        rcases (mem_put hJ.ascP x).mp hx with rfl | hx
        · exact hL.pos f hfL
        · obtain ⟨e, he, hex⟩ := hJ.pend x hx.1
          rw [← hex]
          exact hL.pos e (h1.subset he)
      refine ⟨?_, ?_, ?_⟩
      · show front f.ts (put f.ts false (run xs).pend) ≠ -1
        cases hq : put f.ts false (run xs).pend with
        | nil => rw [hq] at hin; cases hin
        | cons x l =>
          have := hkeys x (by rw [hq]; simp)
          show x.1 ≠ -1; omega
      · show (if (run xs).max < f.ts then f.ts else (run xs).max) = f.ts
        rw [if_pos c2]
      · show front f.ts (put f.ts false (run xs).pend) ≤ f.ts
        cases hq : put f.ts false (run xs).pend with
        | nil => rw [hq] at hin; cases hin
        | cons x l =>
          rw [hq] at hin hA
          exact head_low hA _ hin
  obtain ⟨m1, m2, m3⟩ := hmid
  have hcpe : (run (xs ++ [(f, b)])).cp =
      if s.cp < front s.max (run (xs ++ [(f, b)])).pend then front s.max (run (xs ++ [(f, b)])).pend else s.cp := by
    rw [hs]
    unfold updateCheck
    rw [if_neg m1]
  have hhead : ∀ x l, (run (xs ++ [(f, b)])).pend = x :: l → x.2 = true := by
    intro x l hxl
    rw [hs] at hxl
    unfold updateCheck at hxl
    rw [if_neg m1] at hxl
    exact dropWhile_head hxl
  constructor
  · intro hno
    have hp : (run (xs ++ [(f, b)])).pend = [] := by
      cases hq : (run (xs ++ [(f, b)])).pend with
      | nil => rfl
      | cons x l =>
        exfalso
        have := hhead x l hq
        exact hno x.1 (hpend x.1 (by rw [hq, ← this]; simp))
    rw [hcpe, hp]
    show (if s.cp < s.max then s.max else s.cp) = f.ts
    split <;> omega
  · intro t ht hmin
    have hin := hI.opn t ((hopen t).mpr ht)
    cases hq : (run (xs ++ [(f, b)])).pend with
    | nil => rw [hq] at hin; cases hin
    | cons x l =>
      have hx2 := hhead x l hq
      have hxo := hpend x.1 (by rw [hq, ← hx2]; simp)
      have hle : x.1 ≤ t := by
        have hA := hI.ascP
        rw [hq] at hA hin
        exact head_low hA _ hin
      have := hmin x.1 hxo
      have hcx : (run (xs ++ [(f, b)])).cp ≤ x.1 := hI.low x (by rw [hq]; simp)
      rw [hcpe, hq] at hcx ⊢
      have e1 : front s.max (x :: l) = x.1 := rfl
      rw [e1] at hcx ⊢
      split
      · omega
      · rename_i hlt
        rw [if_neg hlt] at hcx
        omega

end BaikalDB.Binlog
