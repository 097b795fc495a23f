import Verif.Global.OnDup
/-! # C61: ON DUPLICATE KEY UPDATE of several records, on a table without UNIQUE indexes -/
namespace BaikalDB.Global
open BaikalDB.Dml

variable {V : Type} [DecidableEq V]

/-! ### What it ought to do -/

/-- INSERT ... ON DUPLICATE KEY UPDATE on a table whose only unique key is the primary key: the records one after the other, each
of them is inserted if its key is not there and updates the row if it is. -/
def DupUpdates (T : Table V) (up : Rec V → Rec V → Rec V) : Rows V → List (Rec V) → Rows V → Prop :=
  Each fun R r R' => (R (T.pk.map r) = none ∧ R' = put T R r) ∨
    ∃ old, R (T.pk.map r) = some old ∧ R' = fun k => if k = T.pk.map r then some (up old r) else R k

/-- The row that the records with one key lead to. -/
def chain (up : Rec V → Rec V → Rec V) (o : Option (Rec V)) (rs : List (Rec V)) : Option (Rec V) :=
  rs.foldl (fun o r => some (o.elim r fun o => up o r)) o

omit [DecidableEq V] in
theorem chain_some (up : Rec V → Rec V → Rec V) (o : Rec V) (rs : List (Rec V)) : chain up (some o) rs = some (rs.foldl up o) := by
  induction rs generalizing o with
  | nil => rfl
  | cons r rs ih => exact ih (up o r)

omit [DecidableEq V] in
theorem chain_key {T : Table V} {up : Rec V → Rec V → Rec V} (hup : ∀ o r, T.keyOf (up o r) = T.keyOf o) {k : Key V} :
    ∀ (rs : List (Rec V)) (o : Option (Rec V)), (∀ r ∈ rs, T.keyOf r = k) → (∀ a, o = some a → T.keyOf a = k) →
      ∀ x, chain up o rs = some x → T.keyOf x = k
  | [], o, _, h2, x, h => h2 x h
  | r :: rs, o, h1, h2, x, h => by
    refine chain_key hup rs _ (fun r hr => h1 r (List.mem_cons_of_mem _ hr)) ?_ x h
    intro a ha
    cases o with
    | none => cases ha; exact h1 r List.mem_cons_self
    | some o => cases ha; rw [Option.elim, hup]; exact h2 o rfl

/-- The records of a key. -/
def ofKey (T : Table V) (rs : List (Rec V)) (k : Key V) : List (Rec V) := rs.filter fun r => decide (T.pk.map r = k)

theorem dupUpdates_chain {T : Table V} {up : Rec V → Rec V → Rec V} (rs : List (Rec V)) (R : Rows V) :
    DupUpdates T up R rs fun k => chain up (R k) (ofKey T rs k) := by
  induction rs generalizing R with
  | nil => exact Each.nil R
  | cons r rs ih =>
    have hs : ∀ k, chain up (R k) (ofKey T (r :: rs) k) =
        chain up (if k = T.pk.map r then some ((R k).elim r fun o => up o r) else R k) (ofKey T rs k) := by
      intro k
      by_cases e : T.pk.map r = k
      · rw [if_pos e.symm]
        simp only [ofKey, List.filter_cons, e, decide_true, if_true]
        rfl
      · rw [if_neg fun h => e h.symm]
        simp only [ofKey, List.filter_cons, e, decide_false, Bool.false_eq_true, if_false]
    rw [show (fun k => chain up (R k) (ofKey T (r :: rs) k)) =
      fun k => chain up (if k = T.pk.map r then some ((R k).elim r fun o => up o r) else R k) (ofKey T rs k) from funext hs]
    refine Each.cons ?_ (ih fun k => if k = T.pk.map r then some ((R k).elim r fun o => up o r) else R k)
    cases h : R (T.pk.map r) with
    | none =>
      refine Or.inl ⟨rfl, ?_⟩
      funext k
      unfold put
      by_cases e : k = T.pk.map r
      · rw [if_pos e, if_pos e, e, h]; rfl
      · rw [if_neg e, if_neg e]
    | some old =>
      refine Or.inr ⟨old, rfl, ?_⟩
      funext k
      by_cases e : k = T.pk.map r
      · rw [if_pos e, if_pos e, e, h]; rfl
      · rw [if_neg e, if_neg e]

/-! ### The loops -/

theorem filter_erase_notin {l : List Nat} (hl : l.Nodup) (n : Nat) (ns : List Nat) :
    (l.erase n).filter (fun a => decide (a ∉ ns)) = l.filter fun a => decide (a ∉ n :: ns) := by
  rw [List.Nodup.erase_eq_filter hl, List.filter_filter]
  apply List.filter_congr
  intro a _
  by_cases h1 : a = n <;> by_cases h2 : a ∈ ns <;> simp [h1, h2]

theorem filter_ids_erase {l ns : List Nat} (hl : l.Nodup) {n : Nat} (hn : n ∉ ns) :
    (ns.filter fun a => decide (a ∈ l.erase n)) = ns.filter fun a => decide (a ∈ l) := by
  apply List.filter_congr
  intro a ha
  have : a ≠ n := fun e => hn (e ▸ ha)
  rw [List.Nodup.erase_eq_filter hl]
  simp [this]

theorem hitLoop_eq {T : Table V} {up : Rec V → Rec V → Rec V} {k : Key V} : ∀ (ns : List Nat) (d : Dup V), d.ids.Nodup → ns.Nodup →
    (∀ n ∈ ns, n < d.origin.length) →
      hitLoop T up (some k) ns d = some ⟨d.ids.filter fun a => decide (a ∉ ns), d.origin,
        fun k' => if k' = k then
          (d.row k).map fun o => ((ns.filter fun a => decide (a ∈ d.ids)).filterMap fun n => d.origin[n]?).foldl up o else d.row k'⟩
  | [], d, _, _, _ => by
    simp only [hitLoop, List.not_mem_nil, not_false_iff, decide_true, List.filter_true, List.filter_nil, List.filterMap_nil,
      List.foldl_nil, Option.map_id']
    congr 1
    obtain ⟨a, b, c⟩ := d
    simp only [Dup.mk.injEq, true_and]
    funext k'
    by_cases e : k' = k
    · rw [if_pos e, e]
    · rw [if_neg e]
  | n :: ns, d, h1, h2, h3 => by
    have hn : n ∉ ns := (List.nodup_cons.1 h2).1
    have hlt : n < d.origin.length := h3 n List.mem_cons_self
    unfold hitLoop
    by_cases hm : n ∈ d.ids
    · rw [if_pos hm, List.getElem?_eq_getElem hlt]
      simp only
      refine (hitLoop_eq ns ⟨d.ids.erase n, d.origin, _⟩ (h1.erase n) (List.nodup_cons.1 h2).2 fun m hm => h3 m (List.mem_cons_of_mem _ hm)).trans ?_
      simp only [filter_erase_notin h1, if_true, filter_ids_erase h1 hn, Option.map_map]
      congr 2
      funext k'
      by_cases e : k' = k
      · rw [if_pos e, if_pos e]
        simp [hm, List.getElem?_eq_getElem hlt, Function.comp_def]
      · rw [if_neg e, if_neg e, if_neg e]
    · rw [if_neg hm, hitLoop_eq ns d h1 (List.nodup_cons.1 h2).2 fun m hm => h3 m (List.mem_cons_of_mem _ hm)]
      have e1 : (d.ids.filter fun a => decide (a ∉ ns)) = d.ids.filter fun a => decide (a ∉ n :: ns) := by
        apply List.filter_congr
        intro a ha
        have : a ≠ n := fun e => hm (e ▸ ha)
        simp [this]
      simp only [e1, List.filter_cons, hm, decide_false, Bool.false_eq_true, if_false]

omit [DecidableEq V] in
theorem selfLoop_eq {up : Rec V → Rec V → Rec V} {m : Nat} : ∀ (ns : List Nat) (d : Dup V) (a : Rec V), d.ids.Nodup → ns.Nodup → m ∉ ns →
    (∀ n ∈ ns, n < d.origin.length) → d.origin[m]? = some a →
      selfLoop up m ns d = ⟨d.ids.filter fun a => decide (a ∉ ns),
        d.origin.set m (((ns.filter fun a => decide (a ∈ d.ids)).filterMap fun n => d.origin[n]?).foldl up a), d.row⟩
  | [], d, a, _, _, _, _, h4 => by
    obtain ⟨hm, e⟩ := List.getElem?_eq_some_iff.1 h4
    simp [selfLoop, ← e]
  | n :: ns, d, a, h1, h2, hmn, h3, h4 => by
    have hn : n ∉ ns := (List.nodup_cons.1 h2).1
    have hlt : n < d.origin.length := h3 n List.mem_cons_self
    have hm1 : m ∉ ns := fun h => hmn (List.mem_cons_of_mem _ h)
    have hm2 : m ≠ n := fun h => hmn (h ▸ List.mem_cons_self)
    have hml : m < d.origin.length := (List.getElem?_eq_some_iff.1 h4).1
    unfold selfLoop
    by_cases hm : n ∈ d.ids
    · rw [if_pos hm, h4, List.getElem?_eq_getElem hlt]
      simp only
      rw [selfLoop_eq ns _ (up a d.origin[n]) (h1.erase n) (List.nodup_cons.1 h2).2 hm1
        (fun m hm => by simpa using h3 m (List.mem_cons_of_mem _ hm)) (by simp [hml])]
      simp only [filter_erase_notin h1, filter_ids_erase h1 hn, List.set_set]
      have e2 : ((ns.filter fun a => decide (a ∈ d.ids)).filterMap fun n' => (d.origin.set m (up a d.origin[n]))[n']?) =
          (ns.filter fun a => decide (a ∈ d.ids)).filterMap fun n => d.origin[n]? := by
        apply List.filterMap_congr
        intro x hx
        have : m ≠ x := fun e => hm1 (e ▸ (List.mem_filter.1 hx).1)
        rw [List.getElem?_set_ne this]
      rw [e2]
      simp [hm, List.getElem?_eq_getElem hlt]
    · rw [if_neg hm, selfLoop_eq ns d a h1 (List.nodup_cons.1 h2).2 hm1 (fun m hm => h3 m (List.mem_cons_of_mem _ hm)) h4]
      have e1 : (d.ids.filter fun a => decide (a ∉ ns)) = d.ids.filter fun a => decide (a ∉ n :: ns) := by
        apply List.filter_congr
        intro a ha
        have : a ≠ n := fun e => hm (e ▸ ha)
        simp [this]
      simp only [e1, List.filter_cons, hm, decide_false, Bool.false_eq_true, if_false]

theorem idsOf_records (T : Table V) (rs : List (Rec V)) (k : Key V) :
    (idsOf T rs none k).filterMap (fun n => rs[n]?) = ofKey T rs k := by
  unfold idsOf ofKey
  have h : ∀ (l : List (Rec V × Nat)), (∀ p ∈ l, rs[p.2]? = some p.1) → (l.map (·.2)).filterMap (fun n => rs[n]?) = l.map (·.1) := by
    intro l hl
    induction l with
    | nil => rfl
    | cons p l ih =>
      rw [List.map_cons, List.filterMap_cons, hl p List.mem_cons_self]
      simp only [List.map_cons, ih fun q hq => hl q (List.mem_cons_of_mem _ hq)]
  rw [h _ fun p hp => List.mem_zipIdx_iff_getElem?.1 (List.mem_filter.1 hp).1]
  have e : (rs.zipIdx.map (·.1)) = rs := by simp
  conv => rhs; rw [← e]
  rw [List.filter_map]
  rfl

theorem idsOf_nodup (T : Table V) (rs : List (Rec V)) (k : Key V) : (idsOf T rs none k).Nodup :=
  (idsOf_sorted T rs none k).imp fun h => Nat.ne_of_lt h

theorem mem_idsOf' {T : Table V} {rs : List (Rec V)} {k : Key V} {n : Nat} : n ∈ idsOf T rs none k ↔ ∃ r, rs[n]? = some r ∧ T.keyOf r = k :=
  mem_idsOf

theorem idsOf_lt {T : Table V} {rs : List (Rec V)} {k : Key V} {n : Nat} (h : n ∈ idsOf T rs none k) : n < rs.length := by
  obtain ⟨r, h, _⟩ := mem_idsOf'.1 h
  exact (List.getElem?_eq_some_iff.1 h).1

theorem idsOf_filter_range {T : Table V} {rs : List (Rec V)} {k : Key V} {l : List Nat} (h : ∀ n ∈ idsOf T rs none k, n ∈ l) :
    ((idsOf T rs none k).filter fun a => decide (a ∈ l)) = idsOf T rs none k :=
  List.filter_eq_self.2 fun a ha => by simp [h a ha]

theorem idsOf_filter_none {T : Table V} {rs : List (Rec V)} {k : Key V} {l : List Nat} (h : ∀ n ∈ idsOf T rs none k, n ∉ l) :
    ((idsOf T rs none k).filter fun a => decide (a ∈ l)) = [] :=
  List.filter_eq_nil_iff.2 fun a ha => by simp [h a ha]

/-! ### The records that meet a stored row -/

/-- The state after the rows with the keys `K` were treated. -/
structure Hit (T : Table V) (S : Store V) (up : Rec V → Rec V → Rec V) (rs : List (Rec V)) (K : List (Key V)) (d : Dup V) : Prop where
  nodup : d.ids.Nodup
  origin : d.origin = rs
  ids : ∀ n, n ∈ d.ids ↔ ∃ r, rs[n]? = some r ∧ T.keyOf r ∉ K
  row : ∀ k, d.row k = if k ∈ K then chain up (S.rows k) (ofKey T rs k) else S.rows k

theorem hit_step {T : Table V} {S : Store V} {up : Rec V → Rec V → Rec V} {rs : List (Rec V)} {K : List (Key V)} {d : Dup V}
    (h : Hit T S up rs K d) {o : Rec V} (ho : S.rows (T.keyOf o) = some o) :
    ∃ d', hitLoop T up (some (T.keyOf o)) (idsOf T rs none (T.keyOf o)) d = some d' ∧ Hit T S up rs (T.keyOf o :: K) d' := by
  rw [hitLoop_eq _ d h.nodup (idsOf_nodup T rs _) fun n hn => by rw [h.origin]; exact idsOf_lt hn]
  refine ⟨_, rfl, h.nodup.filter _, h.origin, ?_, ?_⟩
  · intro n
    simp only [List.mem_filter, decide_eq_true_eq, h.ids n, mem_idsOf', List.mem_cons, not_or]
    constructor
    · rintro ⟨⟨r, h1, h2⟩, h3⟩
      exact ⟨r, h1, fun e => h3 ⟨r, h1, e⟩, h2⟩
    · rintro ⟨r, h1, h2, h3⟩
      refine ⟨⟨r, h1, h3⟩, ?_⟩
      rintro ⟨r', h4, h5⟩
      rw [h1] at h4
      cases h4
      exact h2 h5
  · intro k
    simp only [List.mem_cons]
    by_cases e : k = T.keyOf o
    · rw [if_pos e, if_pos (Or.inl e), e, h.row, h.origin]
      by_cases hk : T.keyOf o ∈ K
      · rw [if_pos hk, idsOf_filter_none]
        · simp
        · intro n hn hm
          obtain ⟨r, h1, h2⟩ := mem_idsOf'.1 hn
          obtain ⟨r', h3, h4⟩ := (h.ids n).1 hm
          rw [h1] at h3
          cases h3
          exact h4 (h2 ▸ hk)
      · rw [if_neg hk, idsOf_filter_range, idsOf_records, ho, chain_some]
        · rfl
        · intro n hn
          obtain ⟨r, h1, h2⟩ := mem_idsOf'.1 hn
          exact (h.ids n).2 ⟨r, h1, h2 ▸ hk⟩
    · rw [if_neg e, h.row]
      simp only [e, false_or]

theorem hit_fold {T : Table V} {S : Store V} {up : Rec V → Rec V → Rec V} {rs : List (Rec V)} (own : Key V → Option (Key V)) :
    ∀ (os : List (Rec V)) (K : List (Key V)) (d : Dup V), Hit T S up rs K d →
      (∀ o ∈ os, S.rows (T.keyOf o) = some o ∧ own (T.keyOf o) = some (T.keyOf o)) →
      ∃ d', os.foldlM (fun d o => hitLoop T up (own (T.keyOf o)) (idsOf T rs none (T.keyOf o)) d) d = some d' ∧
        Hit T S up rs (os.map T.keyOf ++ K) d'
  | [], K, d, h, _ => ⟨d, rfl, h⟩
  | o :: os, K, d, h, hos => by
    obtain ⟨h1, h2⟩ := hos o List.mem_cons_self
    obtain ⟨d1, h3, h4⟩ := hit_step h h1
    obtain ⟨d2, h5, h6⟩ := hit_fold own os _ d1 h4 fun o ho => hos o (List.mem_cons_of_mem _ ho)
    refine ⟨d2, ?_, ⟨h6.nodup, h6.origin, ?_, ?_⟩⟩
    · rw [List.foldlM_cons, h2, h3]
      exact h5
    · intro n
      rw [h6.ids n]
      simp only [List.map_cons, List.cons_append, List.mem_append, List.mem_cons, List.mem_map, not_or]
      constructor <;> rintro ⟨r, a, b, c⟩
      · exact ⟨r, a, c.1, b, c.2⟩
      · exact ⟨r, a, c.1, b, c.2⟩
    · intro k
      rw [h6.row k]
      congr 1
      simp only [List.map_cons, List.cons_append, List.mem_append, List.mem_cons, eq_iff_iff]
      constructor
      · rintro (a | a | a)
        · exact Or.inr (Or.inl a)
        · exact Or.inl a
        · exact Or.inr (Or.inr a)
      · rintro (a | a | a)
        · exact Or.inr (Or.inl a)
        · exact Or.inl a
        · exact Or.inr (Or.inr a)

/-! ### The records that meet each other -/

/-- The state after the records with the keys `K` were treated. -/
structure Met (T : Table V) (S : Store V) (up : Rec V → Rec V → Rec V) (rs : List (Rec V)) (row : Key V → Option (Rec V))
    (K : List (Key V)) (d : Dup V) : Prop where
  nodup : d.ids.Nodup
  length : d.origin.length = rs.length
  row : d.row = row
  ids : ∀ n, n ∈ d.ids ↔ ∃ r, rs[n]? = some r ∧ S.rows (T.keyOf r) = none ∧
    (T.keyOf r ∈ K → (idsOf T rs none (T.keyOf r)).head? = some n)
  origin : ∀ n r, rs[n]? = some r → d.origin[n]? =
    if T.keyOf r ∈ K ∧ S.rows (T.keyOf r) = none ∧ (idsOf T rs none (T.keyOf r)).head? = some n then
      chain up none (ofKey T rs (T.keyOf r)) else some r

theorem met_step {T : Table V} {S : Store V} {up : Rec V → Rec V → Rec V} {rs : List (Rec V)} {row : Key V → Option (Rec V)} {K : List (Key V)}
    {d : Dup V} (h : Met T S up rs row K d) {k : Key V} {m : Nat} {ns : List Nat} (hk : idsOf T rs none k = m :: ns) :
    Met T S up rs row (k :: K) (selfLoop up m ns d) := by
  have hnd := idsOf_nodup T rs k
  rw [hk] at hnd
  obtain ⟨hmns, hns⟩ := List.nodup_cons.1 hnd
  have hin : ∀ n, n = m ∨ n ∈ ns ↔ ∃ r, rs[n]? = some r ∧ T.keyOf r = k := by
    intro n
    rw [← mem_idsOf', hk, List.mem_cons]
  obtain ⟨rm, hrm, hrk⟩ := (hin m).1 (Or.inl rfl)
  have hml : m < rs.length := (List.getElem?_eq_some_iff.1 hrm).1
  have hnl : ∀ n ∈ ns, n < d.origin.length := fun n hn => by
    rw [h.length]
    obtain ⟨r, h1, _⟩ := (hin n).1 (Or.inr hn)
    exact (List.getElem?_eq_some_iff.1 h1).1
  obtain ⟨a, ha⟩ : ∃ a, d.origin[m]? = some a := ⟨d.origin[m]'(by rw [h.length]; exact hml), List.getElem?_eq_getElem _⟩
  rw [selfLoop_eq ns d a h.nodup hns hmns hnl ha]
  have hids : ∀ n, n ∈ d.ids ∧ n ∉ ns ↔ ∃ r, rs[n]? = some r ∧ S.rows (T.keyOf r) = none ∧
      (T.keyOf r ∈ k :: K → (idsOf T rs none (T.keyOf r)).head? = some n) := by
    intro n
    rw [h.ids n]
    constructor
    · rintro ⟨⟨r, h1, h2, h3⟩, h4⟩
      refine ⟨r, h1, h2, fun h5 => ?_⟩
      rcases List.mem_cons.1 h5 with e | h5
      · rcases (hin n).2 ⟨r, h1, e⟩ with h6 | h6
        · rw [e, hk, h6]; rfl
        · exact absurd h6 h4
      · exact h3 h5
    · rintro ⟨r, h1, h2, h3⟩
      refine ⟨⟨r, h1, h2, fun h4 => h3 (List.mem_cons_of_mem _ h4)⟩, fun h4 => ?_⟩
      obtain ⟨r', h5, h6⟩ := (hin n).1 (Or.inr h4)
      rw [h1] at h5
      cases h5
      have := h3 (h6 ▸ List.mem_cons_self)
      rw [h6, hk] at this
      cases this
      exact hmns h4
  refine ⟨h.nodup.filter _, by simp [h.length], h.row, fun n => by simpa using hids n, ?_⟩
  intro n r hr
  -- the records that are still there
  by_cases hl : k ∉ K ∧ S.rows k = none
  · have hall : (ns.filter fun a => decide (a ∈ d.ids)) = ns := List.filter_eq_self.2 fun b hb => by
      obtain ⟨r', h1, h2⟩ := (hin b).1 (Or.inr hb)
      simpa using (h.ids b).2 ⟨r', h1, by rw [h2]; exact hl.2, fun h3 => absurd (h2 ▸ h3) hl.1⟩
    have hsame : ∀ b, b = m ∨ b ∈ ns → d.origin[b]? = rs[b]? := by
      intro b hb
      obtain ⟨r', h1, h2⟩ := (hin b).1 hb
      rw [h.origin b r' h1, if_neg (by rw [h2]; exact fun h3 => hl.1 h3.1), h1]
    have hch : chain up none (ofKey T rs k) = some ((ns.filterMap fun n => d.origin[n]?).foldl up a) := by
      rw [← idsOf_records, hk, List.filterMap_cons, hrm]
      have e1 : a = rm := by
        have := hsame m (Or.inl rfl)
        rw [ha, hrm] at this
        exact Option.some.inj this
      have e2 : (ns.filterMap fun n => d.origin[n]?) = ns.filterMap fun n => rs[n]? :=
        List.filterMap_congr fun b hb => hsame b (Or.inr hb)
      rw [e1, e2]
      exact chain_some up rm _
    rw [hall]
    by_cases e : n = m
    · subst e
      rw [hrm] at hr
      cases hr
      rw [if_pos ⟨hrk ▸ List.mem_cons_self, by rw [hrk]; exact hl.2, by rw [hrk, hk]; rfl⟩, hrk, hch,
        List.getElem?_set_self (by rw [h.length]; exact hml)]
    · rw [List.getElem?_set_ne fun h => e h.symm, h.origin n r hr]
      by_cases hkk : T.keyOf r = k
      · rw [if_neg (by rw [hkk]; exact fun h3 => hl.1 h3.1), if_neg]
        rw [hkk, hk]
        rintro ⟨_, _, h3⟩
        cases h3
        exact e rfl
      · simp only [List.mem_cons, hkk, false_or]
  · have hnone : (ns.filter fun a => decide (a ∈ d.ids)) = [] := List.filter_eq_nil_iff.2 fun b hb => by
      simp only [decide_eq_true_eq]
      intro hm
      obtain ⟨r', h1, h2, h3⟩ := (h.ids b).1 hm
      obtain ⟨r'', h4, h5⟩ := (hin b).1 (Or.inr hb)
      rw [h1] at h4
      cases h4
      rw [h5] at h2 h3
      have h6 : k ∈ K := Classical.byContradiction fun hc => hl ⟨hc, h2⟩
      have := h3 h6
      rw [hk] at this
      cases this
      exact hmns hb
    have hset : d.origin.set m a = d.origin := by
      obtain ⟨hm, e⟩ := List.getElem?_eq_some_iff.1 ha
      rw [← e, List.set_getElem_self]
    rw [hnone, List.filterMap_nil, List.foldl_nil, hset, h.origin n r hr]
    congr 1
    simp only [List.mem_cons, eq_iff_iff]
    constructor
    · rintro ⟨h1, h2⟩
      exact ⟨Or.inr h1, h2⟩
    · rintro ⟨h1 | h1, h2, h3⟩
      · exact ⟨Classical.byContradiction fun hc => hl ⟨h1 ▸ hc, h1 ▸ h2⟩, h2, h3⟩
      · exact ⟨h1, h2, h3⟩

/-- One record of `process_records`. -/
def meetOne (T : Table V) (up : Rec V → Rec V → Rec V) (rs : List (Rec V)) (d : Dup V) (r : Rec V) : Dup V :=
  match idsOf T rs none (keyAt T none r) with
  | m :: ns => selfLoop up m ns d
  | [] => d

theorem met_fold {T : Table V} {S : Store V} {up : Rec V → Rec V → Rec V} {rs : List (Rec V)} {row : Key V → Option (Rec V)} :
    ∀ (qs : List (Rec V)) (K : List (Key V)) (d : Dup V), Met T S up rs row K d → (∀ q ∈ qs, q ∈ rs) →
      Met T S up rs row (qs.reverse.map T.keyOf ++ K) (qs.foldl (meetOne T up rs) d)
  | [], K, d, h, _ => h
  | q :: qs, K, d, h, hq => by
    have hne : idsOf T rs none (T.keyOf q) ≠ [] := by
      obtain ⟨n, hn⟩ := List.mem_iff_getElem?.1 (hq q List.mem_cons_self)
      exact List.ne_nil_of_mem (mem_idsOf'.2 ⟨q, hn, rfl⟩)
    obtain ⟨m, ns, e⟩ := List.exists_cons_of_ne_nil hne
    have h1 : meetOne T up rs d q = selfLoop up m ns d := by
      unfold meetOne
      rw [show keyAt T none q = T.keyOf q from rfl, e]
    have := met_fold qs _ _ (met_step h e) fun q hq' => hq q (List.mem_cons_of_mem _ hq')
    rw [List.foldl_cons, h1]
    simpa using this

/-! ### The statement -/

theorem lookup_self {α β : Type} [BEq β] [LawfulBEq β] (f : α → β) {g : α → Option Nat × β} (hg : ∀ a, g a = (none, f a)) :
    ∀ (l : List α) (a : α), a ∈ l → (l.map fun a => (g a, f a)).lookup (none, f a) = some (f a)
  | b :: l, a, h => by
    rw [List.map_cons, hg b]
    by_cases e : f a = f b
    · rw [e, List.lookup_cons_self]
    · rw [List.lookup_cons]
      have : ((none, f a) == ((none : Option Nat), f b)) = false := by simp [e]
      rw [this]
      rcases List.mem_cons.1 h with h | h
      · exact absurd (h ▸ rfl) e
      · exact lookup_self f hg l a h

/-- **C61.** INSERT ... ON DUPLICATE KEY UPDATE of any number of records, on a table whose only unique key is its primary key (it may
have any number of global KEYs), with an update that keeps the primary key: the records count one after the other, whether they meet
a row of the table or each other, and all global indexes agree with the table afterwards. -/
theorem C61_on_dup_many {T : Table V} {S : Store V} (hA : Agree T S) (hu : ∀ i ∈ T.indexes, i.uniq = false)
    (up : Rec V → Rec V → Rec V) (hup : ∀ o r, T.pk.map (up o r) = T.pk.map o) (rs : List (Rec V)) :
    ∃ S', insertDup T S up rs = some (some S') ∧ DupUpdates T up S.rows rs S'.rows ∧ Agree T S' := by
  have htags : tags T = [none] := by
    unfold tags
    rw [List.filter_eq_nil_iff.2]
    · rfl
    · rintro ⟨j, i⟩ hji
      simp [hu i (List.mem_of_getElem? ((mem_all T j i).1 hji))]
  have hconf : ∀ a b, Conf T a b ↔ T.pk.map a = T.pk.map b := by
    intro a b
    constructor
    · rintro (h | ⟨i, hi, h, _⟩)
      · exact h
      · rw [hu i hi] at h; exact nomatch h
    · exact Or.inl
  have hst : ∀ o ∈ getPrimary T S rs, S.rows (T.keyOf o) = some o := by
    intro o ho
    obtain ⟨r, _, h⟩ := List.mem_filterMap.1 ho
    rw [show T.keyOf o = T.keyOf r from hA.own _ _ h]
    exact h
  have hown : ∀ o ∈ getPrimary T S rs, (owners T S rs).lookup (none, T.keyOf o) = some (T.keyOf o) := by
    intro o ho
    unfold owners
    simp only [htags, List.flatMap_cons, List.flatMap_nil, getUniq, Option.elim, List.map_nil, List.append_nil, List.foldl_nil]
    exact lookup_self T.keyOf (g := fun o => (none, T.keyOf o)) (fun _ => rfl) _ o ho
  have h0 : Hit T S up rs [] ⟨List.range rs.length, rs, S.rows⟩ := by
    refine ⟨List.nodup_range, rfl, fun n => ?_, fun k => by simp⟩
    simp only [List.mem_range, List.not_mem_nil, not_false_iff, and_true]
    constructor
    · intro h; exact ⟨rs[n], List.getElem?_eq_getElem h⟩
    · rintro ⟨r, h⟩; exact (List.getElem?_eq_some_iff.1 h).1
  obtain ⟨d1, h1, h2⟩ := hit_fold (fun k => (owners T S rs).lookup (none, k)) (getPrimary T S rs) [] _ h0
    fun o ho => ⟨hst o ho, hown o ho⟩
  rw [List.append_nil] at h2
  have hkeys : ∀ r ∈ rs, T.keyOf r ∈ (getPrimary T S rs).map T.keyOf ↔ S.rows (T.keyOf r) ≠ none := by
    intro r hr
    constructor
    · intro h
      obtain ⟨o, ho, e⟩ := List.mem_map.1 h
      rw [← e, hst o ho]
      simp
    · intro h
      obtain ⟨o, ho⟩ := Option.ne_none_iff_exists'.1 h
      exact List.mem_map.2 ⟨o, List.mem_filterMap.2 ⟨r, hr, ho⟩, hA.own _ _ ho⟩
  have h3 : Met T S up rs d1.row [] d1 := by
    refine ⟨h2.nodup, by rw [h2.origin], rfl, fun n => ?_, fun n r hr => ?_⟩
    · rw [h2.ids n]
      constructor
      · rintro ⟨r, a, b⟩
        refine ⟨r, a, Classical.byContradiction fun hc => b ((hkeys r (List.mem_of_getElem? a)).2 hc), fun h => nomatch h⟩
      · rintro ⟨r, a, b, _⟩
        exact ⟨r, a, fun h => (hkeys r (List.mem_of_getElem? a)).1 h b⟩
    · rw [h2.origin, if_neg (fun h => nomatch h.1), hr]
  have h4 := met_fold rs [] d1 h3 fun q h => h
  generalize hd2 : rs.foldl (meetOne T up rs) d1 = d2 at h4
  have hK : ∀ r ∈ rs, T.keyOf r ∈ rs.reverse.map T.keyOf ++ [] := fun r hr => by
    rw [List.append_nil]
    exact List.mem_map.2 ⟨r, List.mem_reverse.2 hr, rfl⟩
  have hrun : (tags T).foldlM (dupTag T S up rs) ⟨List.range rs.length, rs, S.rows⟩ = some d2 := by
    rw [htags, List.foldlM_cons]
    have : dupTag T S up rs ⟨List.range rs.length, rs, S.rows⟩ none = some d2 := by
      unfold dupTag
      rw [show stored T S none rs = getPrimary T S rs from rfl,
        show ((getPrimary T S rs).foldlM (fun d o => hitLoop T up ((owners T S rs).lookup (none, keyAt T none o))
          (idsOf T rs none (keyAt T none o)) d) ⟨List.range rs.length, rs, S.rows⟩) = some d1 from h1, Option.map_some, ← hd2]
      rfl
    rw [this]
    rfl
  obtain ⟨del, h5, h6⟩ := rowsInWay_some hA rs
  have hd : ∀ d ∈ del, S.rows (T.pk.map d) = some d := fun d hd => ((h6 d).1 hd).1
  have hdel : ∀ k, k ∈ del.map T.keyOf ↔ S.rows k ≠ none ∧ ∃ r ∈ rs, T.keyOf r = k := by
    intro k
    rw [List.mem_map]
    constructor
    · rintro ⟨o, h7, e⟩
      obtain ⟨h8, r, hr, hc⟩ := (h6 o).1 h7
      have e' : T.pk.map o = k := e
      rw [e'] at h8
      exact ⟨by rw [h8]; simp, r, hr, by rw [← e]; exact ((hconf o r).1 hc).symm⟩
    · rintro ⟨h7, r, hr, e⟩
      obtain ⟨o, ho⟩ := Option.ne_none_iff_exists'.1 h7
      have := hA.own k o ho
      exact ⟨o, (h6 o).2 ⟨by rw [this]; exact ho, r, hr, (hconf o r).2 (by rw [this]; exact e.symm)⟩, this⟩
  -- the rows that are inserted
  let new : List (Rec V) := ((List.range rs.length).filter fun n => d2.ids.contains n).filterMap fun n => d2.origin[n]?
  let old : List (Rec V) := (del.map T.keyOf).dedup.filterMap d2.row
  have hkey : ∀ k x, chain up (S.rows k) (ofKey T rs k) = some x → T.keyOf x = k := by
    intro k x h
    refine chain_key hup (ofKey T rs k) (S.rows k) (fun r hr => ?_) (fun a ha => hA.own k a ha) x h
    exact of_decide_eq_true (List.mem_filter.1 hr).2
  have hn : ∀ n x, n ∈ d2.ids → d2.origin[n]? = some x → ∃ r, rs[n]? = some r ∧ S.rows (T.keyOf r) = none ∧
      (idsOf T rs none (T.keyOf r)).head? = some n ∧ chain up none (ofKey T rs (T.keyOf r)) = some x := by
    intro n x hn hx
    obtain ⟨r, a, b, c⟩ := (h4.ids n).1 hn
    have c' := c (hK r (List.mem_of_getElem? a))
    refine ⟨r, a, b, c', ?_⟩
    rw [h4.origin n r a, if_pos ⟨hK r (List.mem_of_getElem? a), b, c'⟩] at hx
    exact hx
  have hkn : ∀ (n : Nat) x r, rs[n]? = some r → S.rows (T.keyOf r) = none → chain up none (ofKey T rs (T.keyOf r)) = some x →
      T.keyOf x = T.keyOf r := by
    intro n x r _ a b
    exact hkey (T.keyOf r) x (by rw [a]; exact b)
  have hor : ∀ k x, k ∈ del.map T.keyOf → d2.row k = some x → chain up (S.rows k) (ofKey T rs k) = some x ∧ T.keyOf x = k := by
    intro k x hk hx
    obtain ⟨a, r, hr, e⟩ := (hdel k).1 hk
    rw [h4.row, h2.row k, if_pos (by rw [← e]; exact (hkeys r hr).2 (by rw [e]; exact a))] at hx
    exact ⟨hx, hkey k x hx⟩
  have hnewm : ∀ x, x ∈ new ↔ ∃ r ∈ rs, S.rows (T.keyOf r) = none ∧ chain up none (ofKey T rs (T.keyOf r)) = some x := by
    intro x
    simp only [new, List.mem_filterMap, List.mem_filter, List.mem_range, List.contains_iff_mem]
    constructor
    · rintro ⟨n, ⟨_, a⟩, b⟩
      obtain ⟨r, c, e, _, f⟩ := hn n x a b
      exact ⟨r, List.mem_of_getElem? c, e, f⟩
    · rintro ⟨r, hr, a, b⟩
      obtain ⟨n0, hn0⟩ := List.mem_iff_getElem?.1 hr
      obtain ⟨m, ns, e⟩ := List.exists_cons_of_ne_nil (List.ne_nil_of_mem (mem_idsOf'.2 ⟨r, hn0, rfl⟩))
      obtain ⟨rm, hm, hmk⟩ := mem_idsOf'.1 (show m ∈ idsOf T rs none (T.keyOf r) by rw [e]; exact List.mem_cons_self)
      have hhead : (idsOf T rs none (T.keyOf rm)).head? = some m := by rw [hmk, e]; rfl
      have hK' := hK rm (List.mem_of_getElem? hm)
      refine ⟨m, ⟨(List.getElem?_eq_some_iff.1 hm).1, (h4.ids m).2 ⟨rm, hm, by rw [hmk]; exact a, fun _ => hhead⟩⟩, ?_⟩
      rw [h4.origin m rm hm, if_pos ⟨hK', by rw [hmk]; exact a, hhead⟩, hmk]
      exact b
  have holdm : ∀ x, x ∈ old ↔ ∃ k, S.rows k ≠ none ∧ (∃ r ∈ rs, T.keyOf r = k) ∧ chain up (S.rows k) (ofKey T rs k) = some x := by
    intro x
    simp only [old, List.mem_filterMap, List.mem_dedup]
    constructor
    · rintro ⟨k, a, b⟩
      obtain ⟨c, e⟩ := (hdel k).1 a
      exact ⟨k, c, e, (hor k x a b).1⟩
    · rintro ⟨k, a, ⟨r, hr, e⟩, c⟩
      refine ⟨k, (hdel k).2 ⟨a, r, hr, e⟩, ?_⟩
      rw [h4.row, h2.row k, if_pos (by rw [← e]; exact (hkeys r hr).2 (by rw [e]; exact a))]
      exact c
  have hins : ∀ x, x ∈ new ++ old ↔ ∃ k, (∃ r ∈ rs, T.keyOf r = k) ∧ chain up (S.rows k) (ofKey T rs k) = some x := by
    intro x
    rw [List.mem_append, hnewm, holdm]
    constructor
    · rintro (⟨r, hr, a, b⟩ | ⟨k, _, a, b⟩)
      · exact ⟨_, ⟨r, hr, rfl⟩, by rw [a]; exact b⟩
      · exact ⟨k, a, b⟩
    · rintro ⟨k, ⟨r, hr, e⟩, b⟩
      by_cases hk : S.rows k = none
      · exact Or.inl ⟨r, hr, by rw [e]; exact hk, by rw [e, ← hk]; exact b⟩
      · exact Or.inr ⟨k, hk, ⟨r, hr, e⟩, b⟩
  have hfits : Fits T S.rows del (new ++ old) := by
    constructor
    · rw [List.pairwise_append]
      refine ⟨?_, ?_, ?_⟩
      · simp only [new, List.pairwise_filterMap]
        refine List.Pairwise.imp_of_mem ?_ (List.nodup_range.filter _)
        intro a b ha hb hab x hx y hy hc
        simp only [List.mem_filter, List.contains_iff_mem] at ha hb
        obtain ⟨r1, p1, q1, s1, t1⟩ := hn a x ha.2 hx
        obtain ⟨r2, p2, q2, s2, t2⟩ := hn b y hb.2 hy
        have e : T.keyOf r1 = T.keyOf r2 := by
          rw [← hkn a x r1 p1 q1 t1, ← hkn b y r2 p2 q2 t2]
          exact (hconf x y).1 hc
        rw [e, s2] at s1
        cases s1
        exact hab rfl
      · simp only [old, List.pairwise_filterMap]
        refine List.Pairwise.imp_of_mem ?_ (List.nodup_dedup (del.map T.keyOf))
        intro a b ha hb hab x hx y hy hc
        refine hab ?_
        rw [← (hor a x (List.mem_dedup.1 ha) hx).2, ← (hor b y (List.mem_dedup.1 hb) hy).2]
        exact (hconf x y).1 hc
      · intro x hx y hy hc
        obtain ⟨r, hr, a, b⟩ := (hnewm x).1 hx
        obtain ⟨k, c, _, e⟩ := (holdm y).1 hy
        have e1 := hkey _ x (show chain up (S.rows (T.keyOf r)) _ = some x by rw [a]; exact b)
        have e2 := hkey k y e
        have : T.keyOf r = k := by rw [← e1, ← e2]; exact (hconf x y).1 hc
        exact c (this ▸ a)
    · intro x hx k o hk ho hc
      obtain ⟨k1, ⟨r, hr, e⟩, b⟩ := (hins x).1 hx
      have e1 := hkey k1 x b
      have e2 := hA.own k o ho
      have : k = k1 := by rw [← e2, ← e1]; exact (hconf o x).1 hc
      exact hk ((hdel k).2 ⟨by rw [ho]; simp, r, hr, by rw [this]; exact e⟩)
  obtain ⟨S', h7⟩ := dml_ok hA hd hfits (check := true) (List.Sublist.refl T.all)
  obtain ⟨h8, h9, _⟩ := dml_some hA hd h7
  refine ⟨S', ?_, ?_, h8⟩
  · unfold insertDup
    rw [hrun, h5]
    simp only [Option.map_some, Option.bind_some, Option.some.injEq]
    exact h7
  · have : S'.rows = fun k => chain up (S.rows k) (ofKey T rs k) := by
      funext k
      apply Option.ext
      intro x
      rw [h9 k x]
      by_cases hk : ∃ r ∈ rs, T.keyOf r = k
      · have hsome : ∃ y, chain up (S.rows k) (ofKey T rs k) = some y := by
          obtain ⟨r, hr, e⟩ := hk
          have hmem : r ∈ ofKey T rs k := List.mem_filter.2 ⟨hr, decide_eq_true e⟩
          cases hl : ofKey T rs k with
          | nil => rw [hl] at hmem; exact nomatch hmem
          | cons a l => exact ⟨_, chain_some up ((S.rows k).elim a fun o => up o a) l⟩
        constructor
        · rintro (⟨a, e⟩ | ⟨a, _⟩)
          · obtain ⟨k1, _, b⟩ := (hins x).1 a
            have := hkey k1 x b
            have e' : T.keyOf x = k := e
            rw [← this, e'] at b
            exact b
          · obtain ⟨y, hy⟩ := hsome
            exact absurd (List.mem_map.2 ⟨y, (hins y).2 ⟨k, hk, hy⟩, hkey k y hy⟩) a
        · intro h
          exact Or.inl ⟨(hins x).2 ⟨k, hk, h⟩, hkey k x h⟩
      · have hnil : ofKey T rs k = [] := List.filter_eq_nil_iff.2 fun r hr h => hk ⟨r, hr, of_decide_eq_true h⟩
        rw [hnil]
        constructor
        · rintro (⟨a, e⟩ | ⟨_, _, a⟩)
          · obtain ⟨k1, h10, b⟩ := (hins x).1 a
            have e' : T.keyOf x = k := e
            exact absurd (by rw [← e', hkey k1 x b]; exact h10) hk
          · exact a
        · intro a
          refine Or.inr ⟨fun h => ?_, fun h => ?_, a⟩
          · obtain ⟨y, b, e⟩ := List.mem_map.1 h
            obtain ⟨k1, h10, c⟩ := (hins y).1 b
            have e' : T.keyOf y = k := e
            exact hk (by rw [← e', hkey k1 y c]; exact h10)
          · exact hk ((hdel k).1 h).2
    rw [this]
    exact dupUpdates_chain rs S.rows

end BaikalDB.Global
