import Verif.Binlog.Lemmas

/-! Peers, and what an answer to a read is. -/

namespace BaikalDB.Binlog

/-! ## Peers -/

theorem Inv.oldest {P : List Entry} {s : St} (h : Inv P s) (x : Int) : Inv P { s with oldest := x } :=
  ⟨h.ascR, h.ascP, h.cpPos, h.recs, h.kept, h.pend, h.low, h.opn, h.cpBd, h.maxBd, h.savBd⟩

theorem Inv.vals {P : List Entry} {s : St} (h : Inv P s) (v : Int → Option Nat) : Inv P { s with vals := v } :=
  ⟨h.ascR, h.ascP, h.cpPos, h.recs, h.kept, h.pend, h.low, h.opn, h.cpBd, h.maxBd, h.savBd⟩

theorem updateCheck_vals (s : St) (save : Bool) : (updateCheck s save).vals = s.vals := by
  unfold updateCheck; split <;> rfl

theorem updateMap_vals (s : St) (e : Entry) : (updateMap s e).vals = s.vals := by
  unfold updateMap
  split
  · split <;> rfl
  · split
    · split <;> rfl
    · rfl
    · split
      · rfl
      · split <;> rfl

theorem scanStep_vals (s : St) (x : Int × Rec) : (scanStep s x).vals = s.vals := by
  unfold scanStep
  split
  · rfl
  · split
    · rfl
    · rfl
    · split
      · rfl
      · split <;> rfl

theorem foldl_vals (xs : List (Int × Rec)) (s : St) : (xs.foldl scanStep s).vals = s.vals := by
  induction xs generalizing s with
  | nil => rfl
  | cons x xs ih => rw [List.foldl_cons, ih, scanStep_vals]

theorem scanAll_vals (s : St) (save : Bool) : (scanAll s save).vals = s.vals := by
  unfold scanAll; rw [updateCheck_vals, foldl_vals]

theorem apply_vals {L : List Entry} {s : St} (h : Vals L s) {e : Entry} (he : e ∈ L) (save : Bool) :
    Vals L (apply s e save) := by
  intro t d htd
  have h1 : (apply s e save).vals = (write s e).vals := by
    unfold apply; rw [updateCheck_vals, updateMap_vals]
  rw [h1] at htd
  have h2 : (write s e).vals = if e.kind = .prewrite then setVal s.vals e.ts e.data else s.vals := rfl
  rw [h2] at htd
  split at htd
  · rename_i hk
    unfold setVal at htd
    split at htd
    · rename_i ht
      exact ⟨e, he, hk, ht.symm, by simpa using htd⟩
    · exact h t d htd
  · exact h t d htd

theorem take_succ_mem {L : List Entry} {n : Nat} {e : Entry} (h : L[n]? = some e) (x : Entry) :
    x ∈ L.take (n + 1) ↔ x = e ∨ x ∈ L.take n := by
  rw [List.take_add_one, h]
  simp [or_comm]

theorem mem_take_of_lt {L : List Entry} {k n : Nat} {e : Entry} (h : L[k]? = some e) (hk : k < n) : e ∈ L.take n := by
  rw [List.mem_iff_getElem?]
  exact ⟨k, by rw [List.getElem?_take]; simp [hk, h]⟩

/-- A peer has applied nothing, or its state says what it has applied. -/
theorem peer_inv {L : List Entry} (hL : Legit L) {n : Nat} {s : St} (h : Peer L n s) :
    ((n = 0 ∧ s = init) ∨ (0 < n ∧ n ≤ L.length ∧ Inv (L.take n) s)) ∧ Vals L s := by
  have hsub : ∀ n, ∀ e ∈ L.take n, e ∈ L := fun n e he => List.mem_of_mem_take he
  induction h with
  | fresh => exact ⟨Or.inl ⟨rfl, rfl⟩, (fun t d h => nomatch h)⟩
  | @apply n s k e save _ hk hke ih =>
    have he : e ∈ L := List.mem_of_getElem? hke
    have hlen : k < L.length := (List.getElem?_eq_some_iff.mp hke).1
    refine ⟨Or.inr ?_, apply_vals ih.2 he save⟩
    rcases ih.1 with ⟨hn, hs⟩ | ⟨hn, hnl, hI⟩
    · subst hn; subst hs
      obtain rfl : k = 0 := by omega
      rw [if_pos rfl]
      refine ⟨by omega, by omega, ?_⟩
      have h1 : L.take (0 + 1) = [e] := by rw [List.take_add_one, hke]; rfl
      rw [h1]
      exact open_inv (hL.first e hke) (hL.pos e he) save
    · by_cases hkn : k = n
      · rw [if_pos hkn]
        subst hkn
        exact ⟨by omega, by omega, apply_inv hL (hsub k) hI he (take_succ_mem hke) save⟩
      · rw [if_neg hkn]
        refine ⟨hn, hnl, apply_inv hL (hsub n) hI he ?_ save⟩
        intro x
        constructor
        · exact Or.inr
        · rintro (rfl | hx)
          · exact mem_take_of_lt hke (by omega)
          · exact hx
  | @restart n s save _ hs ho ih =>
    rcases ih.1 with ⟨_, rfl⟩ | ⟨hn, hnl, hI⟩
    · exact absurd hs (by decide)
    · have h1 : Inv (L.take n) (scanAll { s with pend := [], cp := s.saved, max := -1 } save) :=
        scanAll_inv (s := s) (s' := { s with pend := [], cp := s.saved, max := -1 }) hL (hsub n) hI hs ho rfl rfl rfl rfl
          (by show (-1 : Int) ≤ s.saved; omega) save
      refine ⟨Or.inr ⟨hn, hnl, ?_⟩, ?_⟩
      · unfold restart
        simp only [if_pos hs]
        split
        · exact h1.oldest _
        · exact h1
      · have hv : (restart s save).vals = s.vals := by
          unfold restart
          simp only [if_pos hs]
          split
          · show (scanAll _ save).vals = _; rw [scanAll_vals]
          · rw [scanAll_vals]
        intro t d htd
        rw [hv] at htd
        exact ih.2 t d htd
  | @load m own n s s' save _ _ hs ho hm hl ihm ih =>
    rcases ih.1 with ⟨_, rfl⟩ | ⟨hn, hnl, hI⟩
    · exact absurd hs (by decide)
    · have h1 : Inv (L.take n) (scanAll { s with vals := own.vals, pend := [], cp := s.saved, max := own.max } save) :=
        scanAll_inv (s := s) (s' := { s with vals := own.vals, pend := [], cp := s.saved, max := own.max }) hL (hsub n) hI hs
          ho rfl rfl rfl rfl hm save
      unfold load at hl
      rw [if_pos hs] at hl
      simp only [Option.some.injEq] at hl
      refine ⟨Or.inr ⟨hn, hnl, ?_⟩, ?_⟩
      · rw [← hl]
        refine ⟨h1.ascR, h1.ascP, h1.cpPos, h1.recs, h1.kept, h1.pend, h1.low, h1.opn, h1.cpBd, ?_, h1.savBd⟩
        intro b hb
        have := h1.cpBd b hb
        have := h1.maxBd b hb
        show (if _ < _ then _ else _) < b
        split <;> assumption
      · intro t d htd
        have hv : s'.vals = own.vals := by
          rw [← hl]
          show (scanAll _ save).vals = _
          rw [scanAll_vals]
        rw [hv] at htd
        exact ihm.2 t d htd

/-- What is committed at or below the check point of a peer is among what the peer has applied. -/
theorem commit_seen {L : List Entry} (hL : Legit L) {n : Nat} {s : St} (hI : Inv (L.take n) s) {e : Entry} (he : e ∈ L)
    (hk : e.kind = .commit) (hle : e.ts ≤ s.cp) :
    ∃ r : Rec, (e.ts, r) ∈ s.recs ∧ r.kind = .commit ∧ r.start = e.start := by
  have hsub : ∀ e ∈ L.take n, e ∈ L := fun e he => List.mem_of_mem_take he
  obtain ⟨i, hi⟩ := List.mem_iff_getElem?.mp he
  obtain ⟨hlt, j, f, hj, hjf, hfk, hft, hbefore⟩ := hL.commit i e hi hk
  have key : ∃ g ∈ L.take n, g.kind = .commit ∧ g.ts = e.ts ∧ g.start = e.start := by
    by_cases hin : i < n
    · exact ⟨e, mem_take_of_lt hi hin, hk, rfl, rfl⟩
    · by_cases hjn : j < n
      · by_contra hno
        have hopen : Open (L.take n) e.start := by
          refine ⟨⟨f, mem_take_of_lt hjf hjn, hfk, hft⟩, ?_⟩
          rintro g hg (hgk | hgk) hgs
          · exact hno ⟨g, hg, hgk, hL.once g (hsub g hg) e he hgk hk hgs, hgs⟩
          · exact hL.decided e he g (hsub g hg) hk hgk hgs.symm
        have := hI.low _ (hI.opn _ hopen)
        simp only at this
        omega
      · have : s.cp < e.ts := by
          refine hI.cpBd e.ts ?_
          intro g hg
          obtain ⟨k, hk'⟩ := List.mem_iff_getElem?.mp hg
          rw [List.getElem?_take] at hk'
          split at hk'
          · exact hbefore k g (by omega) hk'
          · cases hk'
        omega
  obtain ⟨g, hg, hgk, hgt, hgs⟩ := key
  obtain ⟨r, hr⟩ := hI.kept g hg
  obtain ⟨f, hf, hft, hfk, hfs⟩ := hI.recs _ _ hr
  have hkk : f.kind = g.kind := by
    by_contra hne
    rcases hL.apart f (hsub f hf) g (hsub g hg) hft hne with ⟨_, h1, _⟩ | ⟨h1, _, _⟩
    · rw [hgk] at h1; cases h1
    · rw [hgk] at h1; cases h1
  refine ⟨r, by rw [← hgt]; exact hr, by rw [← hfk, hkk, hgk], ?_⟩
  rw [← hfs, (hL.same f (hsub f hf) g (hsub g hg) hft hkk).1, hgs]

/-! ## Answers -/

/-- What of the records an answer from `b` on may hold: commits and fake records after `b` up to the check point. -/
def Vis (b cp : Int) (x : Int × Rec) : Prop := b < x.1 ∧ x.1 ≤ cp ∧ (x.2.kind = .fake ∨ x.2.kind = .commit)

instance (b cp : Int) (x : Int × Rec) : Decidable (Vis b cp x) := by unfold Vis; infer_instance

def pair (x : Int × Rec) : Int × Int := (x.1, if x.2.kind = .fake then x.1 else x.2.start)

def vis (b cp : Int) (xs : List (Int × Rec)) : List (Int × Int) := (xs.filter fun x => decide (Vis b cp x)).map pair

def Found (vals : Int → Option Nat) (p : Int × Int) : Prop := p.1 = p.2 ∨ ∃ d, vals p.2 = some d

theorem found_iff {vals : Int → Option Nat} {l : List (Int × Int)} : found vals l = true ↔ ∀ p ∈ l, Found vals p := by
  unfold found Found
  rw [List.all_eq_true]
  simp only [Bool.or_eq_true, beq_iff_eq, Option.isSome_iff_exists]

theorem addAll_spec (vals : Int → Option Nat) (accept : Nat → Bool) (l : List (Int × Int)) (resp : List Item) :
    ∃ l', l' <+: l ∧ (addAll vals accept resp l).1 = resp ++ l'.map (item vals) ∧
      ((addAll vals accept resp l).2 = false → l' = l) ∧ (accept resp.length = true → l ≠ [] → l' ≠ []) := by
  induction l generalizing resp with
  | nil => exact ⟨[], List.nil_prefix, by simp [addAll], fun _ => rfl, fun _ h => absurd rfl h⟩
  | cons p ps ih =>
    rw [addAll]
    by_cases ha : accept resp.length = true
    · rw [if_pos ha]
      obtain ⟨l', h1, h2, h3, _⟩ := ih (resp ++ [item vals p])
      exact ⟨p :: l', List.cons_prefix_cons.mpr ⟨rfl, h1⟩, by rw [h2]; simp, fun h => by rw [h3 h], fun _ _ => by simp⟩
    · rw [if_neg ha]
      exact ⟨[], List.nil_prefix, by simp, (fun h => nomatch h), fun h => absurd h ha⟩

theorem finish_spec {vals : Int → Option Nat} {q : Query} {batch : List (Int × Int)} {resp r : List Item}
    (h : finish vals q batch resp = .ok r) :
    ∃ l, l <+: batch ∧ r = resp ++ l.map (item vals) ∧ (∀ p ∈ l, Found vals p) ∧
      (q.accept resp.length = true → batch ≠ [] → l ≠ []) := by
  unfold finish at h
  by_cases hb : batch.isEmpty = true
  · rw [if_pos hb] at h
    rw [Res.ok.injEq] at h
    exact ⟨[], List.nil_prefix, by simp [h], (fun p hp => nomatch hp),
      fun _ hne => absurd (List.isEmpty_iff.mp hb) hne⟩
  · rw [if_neg hb] at h
    by_cases hf : found vals batch = true
    · rw [if_neg (by simp [hf]), Res.ok.injEq] at h
      obtain ⟨l, h1, h2, _, h4⟩ := addAll_spec vals q.accept batch resp
      exact ⟨l, h1, by rw [← h, h2], fun p hp => found_iff.mp hf p (h1.subset hp), h4⟩
    · rw [if_pos (by simp [hf])] at h
      cases h

/-- What `getValue` makes of the batch and the answer. -/
theorem getValue_spec {vals : Int → Option Nat} {q : Query} {batch : List (Int × Int)} {resp : List Item} {p : Int × Int}
    (hb : q.mode = .get → batch = []) :
    (∀ r, getValue vals q batch resp p = .stop r → ∃ l, l <+: batch ++ [p] ∧ r = resp ++ l.map (item vals) ∧
      (∀ x ∈ l, Found vals x) ∧ (q.accept resp.length = true → l ≠ [])) ∧
    (∀ b r, getValue vals q batch resp p = .more b r → (q.mode = .get → b = []) ∧ ∃ l, batch ++ [p] = l ++ b ∧
      r = resp ++ l.map (item vals) ∧ (∀ x ∈ l, Found vals x)) := by
  unfold getValue
  cases hm : q.mode with
  | get =>
    have hbe := hb hm
    subst hbe
    simp only
    by_cases hf : found vals [p] = true
    · rw [if_neg (by simp [hf])]
      by_cases ha : q.accept resp.length = true
      · rw [if_pos ha]
        refine ⟨(fun r h => nomatch h), ?_⟩
        intro b r h
        rw [Got.more.injEq] at h
        exact ⟨fun _ => h.1.symm, [p], by simp [← h.1], by simp [← h.2], found_iff.mp hf⟩
      · rw [if_neg ha]
        refine ⟨?_, (fun b r h => nomatch h)⟩
        intro r h
        rw [Got.stop.injEq] at h
        exact ⟨[], List.nil_prefix, by simp [h], (fun x hx => nomatch hx), fun h => absurd h ha⟩
    · rw [if_pos (by simp [hf])]
      exact ⟨(fun r h => nomatch h), (fun b r h => nomatch h)⟩
  | multi n =>
    simp only
    by_cases hn : (batch ++ [p]).length < n
    · rw [if_pos hn]
      refine ⟨(fun r h => nomatch h), ?_⟩
      intro b r h
      rw [Got.more.injEq] at h
      exact ⟨(fun h => nomatch h), [], by simp [h.1], by simp [h.2], (fun x hx => nomatch hx)⟩
    · rw [if_neg hn]
      by_cases hf : found vals (batch ++ [p]) = true
      · rw [if_neg (by simp [hf])]
        obtain ⟨l, h1, h2, h3, h4⟩ := addAll_spec vals q.accept (batch ++ [p]) resp
        have hfl : ∀ x ∈ l, Found vals x := fun x hx => found_iff.mp hf x (h1.subset hx)
        cases had : addAll vals q.accept resp (batch ++ [p]) with
        | mk r₀ fl =>
          rw [had] at h2 h3
          cases fl with
          | true =>
            refine ⟨?_, (fun b r h => nomatch h)⟩
            intro r h
            rw [Got.stop.injEq] at h
            exact ⟨l, h1, by rw [← h]; exact h2, hfl, fun ha => h4 ha (by simp)⟩
          | false =>
            refine ⟨(fun r h => nomatch h), ?_⟩
            intro b r h
            rw [Got.more.injEq] at h
            have := h3 rfl
            subst this
            exact ⟨(fun h => nomatch h), batch ++ [p], by simp [← h.1], by rw [← h.2]; exact h2, hfl⟩
      · rw [if_pos (by simp [hf])]
        exact ⟨(fun r h => nomatch h), (fun b r h => nomatch h)⟩

theorem vis_cons_pos {b cp : Int} {x : Int × Rec} {xs : List (Int × Rec)} (h : Vis b cp x) :
    vis b cp (x :: xs) = pair x :: vis b cp xs := by
  unfold vis
  rw [List.filter_cons_of_pos (by simp [h]), List.map_cons]

theorem vis_cons_neg {b cp : Int} {x : Int × Rec} {xs : List (Int × Rec)} (h : ¬ Vis b cp x) :
    vis b cp (x :: xs) = vis b cp xs := by
  unfold vis
  rw [List.filter_cons_of_neg (by simp [h])]

/-- The answer is a beginning of what is to be read. -/
theorem scan_spec {vals : Int → Option Nat} {q : Query} {cp oldest : Int} (xs : List (Int × Rec)) (batch : List (Int × Int))
    (resp : List Item) (cnt : Int) (hx : ∀ x ∈ xs, q.begin ≤ x.1) (hA : Asc xs) (hb : q.mode = .get → batch = [])
    {r : List Item} (h : scan vals q cp oldest xs batch resp cnt = .ok r) :
    ∃ l, l <+: batch ++ vis q.begin cp xs ∧ r = resp ++ l.map (item vals) ∧ (∀ p ∈ l, Found vals p) ∧
      (q.accept resp.length = true → (batch ≠ [] ∨ (vis q.begin cp xs ≠ [] ∧ 0 ≤ cnt)) → l ≠ []) := by
  induction xs generalizing batch resp cnt with
  | nil =>
    rw [scan] at h
    obtain ⟨l, h1, h2, h3, h4⟩ := finish_spec h
    refine ⟨l, h1.trans (List.prefix_append _ _), h2, h3, ?_⟩
    rintro ha (hne | ⟨hne, _⟩)
    · exact h4 ha hne
    · exact absurd rfl hne
  | cons x xs ih =>
    have hx1 := hx x (by simp)
    rw [Asc, List.pairwise_cons] at hA
    have hxs : ∀ y ∈ xs, q.begin ≤ y.1 := fun y hy => hx y (List.mem_cons_of_mem _ hy)
    rw [scan] at h
    -- one more binlog
    have more : ∀ p cnt', Vis q.begin cp x → pair x = p →
        (match getValue vals q batch resp p with
          | .fail => Res.err
          | .stop r => .ok r
          | .more b r => scan vals q cp oldest xs b r cnt') = .ok r →
        ∃ l, l <+: batch ++ vis q.begin cp (x :: xs) ∧ r = resp ++ l.map (item vals) ∧ (∀ p ∈ l, Found vals p) ∧
          (q.accept resp.length = true → l ≠ []) := by
      intro p cnt' hv hp hm
      rw [vis_cons_pos hv, hp]
      obtain ⟨g1, g2⟩ := getValue_spec (vals := vals) (resp := resp) (p := p) hb
      cases hg : getValue vals q batch resp p with
      | fail => rw [hg] at hm; cases hm
      | stop r₀ =>
        rw [hg] at hm
        simp only [Res.ok.injEq] at hm
        subst hm
        obtain ⟨l, h1, h2, h3, h4⟩ := g1 r₀ hg
        refine ⟨l, h1.trans ?_, h2, h3, h4⟩
        exact ⟨vis q.begin cp xs, by simp⟩
      | more b r₀ =>
        rw [hg] at hm
        simp only at hm
        obtain ⟨hb', l₀, h1, h2, h3⟩ := g2 b r₀ hg
        obtain ⟨l, k1, k2, k3, k4⟩ := ih b r₀ cnt' hxs hA.2 hb' hm
        refine ⟨l₀ ++ l, ?_, ?_, ?_, ?_⟩
        · rw [List.append_cons, h1, List.append_assoc]
          exact (List.prefix_append_right_inj l₀).mpr k1
        · rw [k2, h2]; simp
        · intro y hy
          rcases List.mem_append.mp hy with hy | hy
          · exact h3 y hy
          · exact k3 y hy
        · intro ha
          by_cases hl : l₀ = []
          · subst hl
            rw [List.nil_append] at h1
            have hr : r₀ = resp := by simpa using h2
            rw [hr] at k4
            rw [List.nil_append]
            exact k4 ha (Or.inl (by rw [← h1]; simp))
          · simp [hl]
    by_cases c1 : x.1 < q.begin ∨ cp < x.1
    · rw [if_pos c1] at h
      obtain ⟨l, h1, h2, h3, h4⟩ := finish_spec h
      refine ⟨l, h1.trans (List.prefix_append _ _), h2, h3, ?_⟩
      rintro ha (hne | ⟨hne, _⟩)
      · exact h4 ha hne
      · exfalso
        apply hne
        unfold vis
        rw [List.map_eq_nil_iff, List.filter_eq_nil_iff]
        intro y hy
        have : cp < y.1 := by
          rcases List.mem_cons.mp hy with rfl | hy
          · omega
          · have := hA.1 y hy; omega
        simp only [decide_eq_true_eq]
        intro hv
        have := hv.2.1
        omega
    · rw [if_neg c1] at h
      by_cases c2 : x.2.kind = .fake ∧ q.begin < x.1
      · rw [if_pos c2] at h
        obtain ⟨l, h1, h2, h3, h4⟩ := more (x.1, x.1) cnt ⟨c2.2, by omega, Or.inl c2.1⟩ (by simp [pair, c2.1]) h
        exact ⟨l, h1, h2, h3, fun ha _ => h4 ha⟩
      · rw [if_neg c2] at h
        by_cases c3 : x.2.kind ≠ .commit ∨ x.1 = q.begin
        · rw [if_pos c3] at h
          have hnv : ¬ Vis q.begin cp x := by
            rintro ⟨h1, h2, h3⟩
            rcases h3 with h3 | h3
            · exact c2 ⟨h3, h1⟩
            · rcases c3 with c3 | c3
              · exact c3 h3
              · omega
          rw [vis_cons_neg hnv]
          exact ih batch resp cnt hxs hA.2 hb h
        · rw [if_neg c3] at h
          have c3' : x.2.kind = .commit ∧ x.1 ≠ q.begin := by
            constructor
            · by_contra hh; exact c3 (Or.inl hh)
            · exact fun hh => c3 (Or.inr hh)
          by_cases c4 : x.2.start < oldest
          · rw [if_pos c4] at h; cases h
          · rw [if_neg c4] at h
            by_cases c5 : cnt < 0
            · rw [if_pos c5] at h
              obtain ⟨l, h1, h2, h3, h4⟩ := finish_spec h
              refine ⟨l, h1.trans (List.prefix_append _ _), h2, h3, ?_⟩
              rintro ha (hne | ⟨_, hne⟩)
              · exact h4 ha hne
              · omega
            · rw [if_neg c5] at h
              obtain ⟨l, h1, h2, h3, h4⟩ := more (x.1, x.2.start) _ ⟨by omega, by omega, Or.inr c3'.1⟩
                (by simp [pair, c3'.1]) h
              exact ⟨l, h1, h2, h3, fun ha _ => h4 ha⟩

end BaikalDB.Binlog
