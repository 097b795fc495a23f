import Verif.Part.Manage
import Verif.Part.Props
import Verif.Part.Examples

/-!
# Named partitions and partitions that turn cold: the properties
-/

namespace BaikalDB.Part

/-! ## What a user relies on -/

/-- Whether a partition is cold after the entries of a `MODIFY PARTITION`: only one of the primary
type turns cold, any turns hot. -/
def coldAfter (primary : RType) (reqs : List (String × Bool)) (p : PInfo) : Bool :=
  reqs.foldl (fun c e =>
    if e.1 = p.name then (if e.2 = true then c || decide (p.ptype = primary) else false) else c) p.cold

/-- A partition is a copy of one of the primary type that is to turn cold. -/
def Replaced (s : Schema) (reqs : List (String × Bool)) (p : PInfo) : Prop :=
  p.ptype ≠ .additional ∧ ∃ p0 ∈ s.parts, (p0.name, true) ∈ reqs ∧ p0.ptype = s.primary ∧
    p0.left = p.left ∧ p0.right = p.right ∧ p0.name ≠ p.name

/-! ## Lemmas -/

/-- The partitions with other marks. -/
def marked (l : List PInfo) (f : PInfo → Bool) : List PInfo := l.map fun p => { p with cold := f p }

theorem marked_congr {l : List PInfo} {f g : PInfo → Bool} (h : ∀ p ∈ l, f p = g p) :
    marked l f = marked l g :=
  List.map_congr_left fun p hp => by rw [h p hp]

theorem marked_names (l : List PInfo) (f : PInfo → Bool) :
    (marked l f).map (·.name) = l.map (·.name) := by
  unfold marked; rw [List.map_map]; rfl

theorem marked_ids (l : List PInfo) (f : PInfo → Bool) :
    (marked l f).map (·.id) = l.map (·.id) := by
  unfold marked; rw [List.map_map]; rfl

theorem mem_marked {l : List PInfo} {f : PInfo → Bool} {q : PInfo} :
    q ∈ marked l f ↔ ∃ p ∈ l, q = { p with cold := f p } := by
  unfold marked
  rw [List.mem_map]
  exact ⟨fun ⟨p, h, e⟩ => ⟨p, h, e.symm⟩, fun ⟨p, h, e⟩ => ⟨p, h, e.symm⟩⟩

theorem setCold_marked (n : String) (b : Bool) (f : PInfo → Bool) : ∀ {l : List PInfo},
    (l.map (·.name)).Nodup →
    setCold n b (marked l f) = marked l (fun p => if p.name = n then b else f p)
  | [], _ => rfl
  | p :: l, h => by
    rw [List.map_cons, List.nodup_cons] at h
    have ih := setCold_marked n b f h.2
    have hcons : ∀ g : PInfo → Bool,
        marked (p :: l) g = { p with cold := g p } :: marked l g := fun _ => rfl
    rw [hcons, hcons]
    unfold setCold
    by_cases hn : p.name = n
    · rw [if_pos hn]
      simp only [hn, if_true]
      congr 1
      refine marked_congr (l := l) fun q hq => ?_
      rw [if_neg]
      intro he
      exact h.1 (List.mem_map.2 ⟨q, hq, by rw [he, hn]⟩)
    · rw [if_neg hn, ih]
      simp only [hn, if_false]

theorem find_marked (l : List PInfo) (f : PInfo → Bool) (n : String) :
    (marked l f).find? (fun p => decide (p.name = n)) =
      (l.find? (fun p => decide (p.name = n))).map fun p => { p with cold := f p } := by
  unfold marked
  rw [List.find?_map]
  rfl

/-- The mark after one entry. -/
def markStep (primary : RType) (p : PInfo) (c : Bool) (e : String × Bool) : Bool :=
  if e.1 = p.name then (if e.2 = true then c || decide (p.ptype = primary) else false) else c

theorem modifyOne_marked {orig : List PInfo} (hn : (orig.map (·.name)).Nodup) (primary : RType)
    (f : PInfo → Bool) (d : List String) (e : String × Bool) :
    ∃ d', modifyOne orig primary (marked orig f, d) e =
        (marked orig (fun p => markStep primary p (f p) e), d') ∧
      ∀ n, n ∈ d' ↔ n ∈ d ∨ (e.2 = true ∧ ∃ p ∈ orig, p.name = e.1 ∧ p.ptype = primary ∧
        n ∈ copies orig p) := by
  unfold modifyOne
  simp only
  rw [find_marked]
  rcases hf : orig.find? (fun p => decide (p.name = e.1)) with _ | p
  · rw [hf, Option.map_none]
    rw [List.find?_eq_none] at hf
    refine ⟨d, ?_, ?_⟩
    · refine Prod.ext ?_ rfl
      refine marked_congr fun p hp => ?_
      unfold markStep
      rw [if_neg]
      intro he
      exact hf p hp (by simpa using he.symm)
    · intro n
      constructor
      · exact Or.inl
      · rintro (h | ⟨_, p, hp, he, _⟩)
        · exact h
        · exact absurd (by simpa using he) (hf p hp)
  · have hp : p ∈ orig := List.mem_of_find?_eq_some hf
    have hpn : p.name = e.1 := by simpa using List.find?_some hf
    have huniq : ∀ q ∈ orig, q.name = e.1 → q = p := fun q hq he =>
      List.inj_on_of_nodup_map hn hq hp (he.trans hpn.symm)
    rw [hf, Option.map_some]
    dsimp only
    by_cases h2 : e.2 = true
    · rw [if_pos h2]
      by_cases ht : p.ptype = primary
      · rw [if_pos ht, setCold_marked _ _ _ hn]
        refine ⟨d ++ copies orig p, ?_, ?_⟩
        · simp only [Prod.mk.injEq]
          refine ⟨marked_congr fun q hq => ?_, rfl⟩
          unfold markStep
          by_cases hq' : q.name = e.1
          · rw [if_pos hq', if_pos hq'.symm, if_pos h2, huniq q hq hq', ht]
            simp
          · rw [if_neg hq', if_neg (Ne.symm hq')]
        · intro n
          rw [List.mem_append]
          constructor
          · rintro (h | h)
            · exact Or.inl h
            · exact Or.inr ⟨h2, p, hp, hpn, ht, h⟩
          · rintro (h | ⟨_, q, hq, he, _, h⟩)
            · exact Or.inl h
            · rw [huniq q hq he] at h; exact Or.inr h
      · rw [if_neg ht]
        refine ⟨d, ?_, ?_⟩
        · simp only [Prod.mk.injEq, and_true]
          refine marked_congr fun q hq => ?_
          unfold markStep
          by_cases hq' : q.name = e.1
          · rw [if_pos hq'.symm, if_pos h2, huniq q hq hq']
            simp [ht]
          · rw [if_neg (Ne.symm hq')]
        · intro n
          constructor
          · exact Or.inl
          · rintro (h | ⟨_, q, hq, he, h, _⟩)
            · exact h
            · rw [huniq q hq he] at h; exact absurd h ht
    · rw [if_neg h2, setCold_marked _ _ _ hn]
      refine ⟨d, ?_, ?_⟩
      · simp only [Prod.mk.injEq, and_true]
        refine marked_congr fun q hq => ?_
        unfold markStep
        by_cases hq' : q.name = e.1
        · rw [if_pos hq', if_pos hq'.symm, if_neg h2]
        · rw [if_neg hq', if_neg (Ne.symm hq')]
      · intro n
        constructor
        · exact Or.inl
        · rintro (h | ⟨h, _⟩)
          · exact h
          · exact absurd h h2

theorem foldl_modify {orig : List PInfo} (hn : (orig.map (·.name)).Nodup) (primary : RType) :
    ∀ (reqs : List (String × Bool)) (f : PInfo → Bool) (d : List String),
    ∃ d', reqs.foldl (modifyOne orig primary) (marked orig f, d) =
        (marked orig (fun p => reqs.foldl (markStep primary p) (f p)), d') ∧
      ∀ n, n ∈ d' ↔ n ∈ d ∨ ∃ e ∈ reqs, e.2 = true ∧ ∃ p ∈ orig, p.name = e.1 ∧
        p.ptype = primary ∧ n ∈ copies orig p
  | [], f, d => ⟨d, rfl, by simp⟩
  | e :: reqs, f, d => by
    obtain ⟨d1, h1, h2⟩ := modifyOne_marked hn primary f d e
    obtain ⟨d2, h3, h4⟩ := foldl_modify hn primary reqs (fun p => markStep primary p (f p) e) d1
    refine ⟨d2, ?_, ?_⟩
    · rw [List.foldl_cons, h1, h3]
      rfl
    · intro n
      rw [h4, h2, or_assoc]
      simp only [List.mem_cons, exists_eq_or_imp]

theorem mem_copies {l : List PInfo} {p : PInfo} {n : String} :
    n ∈ copies l p ↔ ∃ q ∈ l, q.name = n ∧ q.ptype ≠ .additional ∧ q.left = p.left ∧
      q.right = p.right ∧ q.name ≠ p.name := by
  unfold copies
  simp only [List.mem_map, List.mem_filter, decide_eq_true_eq]
  constructor
  · rintro ⟨q, ⟨h1, h2⟩, h3⟩
    exact ⟨q, h1, h3, h2⟩
  · rintro ⟨q, h1, h3, h2⟩
    exact ⟨q, ⟨h1, h2⟩, h3⟩

theorem marked_self (l : List PInfo) : marked l (·.cold) = l := by
  unfold marked
  exact List.map_id' l

/-- The partitions and names with which `modify` goes on. -/
theorem modify_eq {s : Schema} (hn : (s.parts.map (·.name)).Nodup) (dyn : Bool)
    (reqs : List (String × Bool)) :
    ∃ d, modify s dyn reqs =
        dropPartition { s with parts := marked s.parts (coldAfter s.primary reqs) } dyn d ∧
      ∀ n, n ∈ d ↔ ∃ p ∈ s.parts, p.name = n ∧ Replaced s reqs p := by
  obtain ⟨d, h1, h2⟩ := foldl_modify hn s.primary reqs (·.cold) []
  rw [marked_self] at h1
  refine ⟨d, ?_, ?_⟩
  · unfold modify
    rw [h1]
    rfl
  · intro n
    rw [h2]
    simp only [List.not_mem_nil, false_or]
    constructor
    · rintro ⟨⟨en, eb⟩, he, h3, p0, hp0, h4, h5, h6⟩
      obtain ⟨q, hq, hqn, h7, h8, h9, h10⟩ := mem_copies.1 h6
      simp only at h3 h4
      subst h3
      subst h4
      exact ⟨q, hq, hqn, h7, p0, hp0, he, h5, h8.symm, h9.symm, Ne.symm h10⟩
    · rintro ⟨q, hq, hqn, h7, p0, hp0, he, h5, h8, h9, h10⟩
      exact ⟨_, he, rfl, p0, hp0, rfl, h5, mem_copies.2 ⟨q, hq, hqn, h7, h8.symm, h9.symm, Ne.symm h10⟩⟩

theorem drop_core {s s' : Schema} (hid : (s.parts.map (·.id)).Nodup)
    (hnm : (s.parts.map (·.name)).Nodup) (hb : ∀ p ∈ s.parts, p.id ≤ s.maxId) {dyn : Bool}
    {names : List String} (h : dropPartition s dyn names = some s') :
    Ok s' ∧ (∀ p, p ∈ s'.parts ↔ p ∈ s.parts ∧ p.name ∉ names) ∧ s'.maxId = s.maxId ∧
      s'.expr = s.expr ∧ s'.primary = s.primary ∧ s'.isolation = s.isolation := by
  unfold dropPartition at h
  rcases hd : dropIds s dyn names with _ | ids
  · rw [hd] at h; cases h
  · rw [hd] at h
    simp only at h
    split at h
    · cases h
    · split at h
      · cases h
      · rename_i hov
        simp only [Option.some.injEq] at h
        subst h
        obtain ⟨h1, _⟩ := dropIds_spec' hid hnm hd
        have hsub : (s.parts.filter fun p => !ids.contains p.id).Sublist s.parts :=
          List.filter_sublist
        refine ⟨⟨hid.sublist (hsub.map _), hnm.sublist (hsub.map _),
          fun p hp => hb p (hsub.subset hp), ?_⟩, ?_, rfl, rfl, rfl, rfl⟩
        · intro p hp q hq hk n hpn hqn
          by_contra hne
          have hnn : p.name ≠ q.name := fun he =>
            hne (List.inj_on_of_nodup_map hnm (hsub.subset hp) (hsub.subset hq) he)
          refine hov (List.any_eq_true.2 ⟨q, hq, ?_⟩)
          by_contra ho
          exact not_overlapped (by simpa using ho) hp hnn hk n hpn hqn
        · intro p
          simp only [List.mem_filter, Bool.not_eq_true', List.contains_eq_mem,
            decide_eq_false_iff_not]
          constructor
          · rintro ⟨hp, hi⟩
            exact ⟨hp, fun hn => hi ((h1 p hp).2 hn)⟩
          · rintro ⟨hp, hn⟩
            exact ⟨hp, fun hi => hn ((h1 p hp).1 hi)⟩

/-! ## Partitions that turn cold -/

/-- `MODIFY PARTITION` that is accepted sets the marks it lists, drops the copies of what turns cold,
and changes nothing else. -/
theorem C74_modify {s s' : Schema} (hok : Ok s) {dyn : Bool} {reqs : List (String × Bool)}
    (h : modify s dyn reqs = some s') :
    Ok s' ∧ (∀ q, q ∈ s'.parts ↔ ∃ p ∈ s.parts,
        q = { p with cold := coldAfter s.primary reqs p } ∧ ¬ Replaced s reqs p) ∧
      s'.maxId = s.maxId ∧ s'.expr = s.expr ∧ s'.primary = s.primary ∧
      s'.isolation = s.isolation := by
  obtain ⟨d, h1, h2⟩ := modify_eq hok.names dyn reqs
  rw [h1] at h
  obtain ⟨h3, h4, h5⟩ := drop_core (by rw [marked_ids]; exact hok.ids)
    (by rw [marked_names]; exact hok.names)
    (fun q hq => by
      obtain ⟨p, hp, rfl⟩ := mem_marked.1 hq
      exact hok.bound p hp) h
  refine ⟨h3, ?_, h5⟩
  intro q
  rw [h4]
  simp only
  rw [mem_marked]
  constructor
  · rintro ⟨⟨p, hp, he⟩, hn⟩
    refine ⟨p, hp, he, fun hr => hn ((h2 _).2 ⟨p, hp, ?_, hr⟩)⟩
    rw [he]
  · rintro ⟨p, hp, he, hr⟩
    refine ⟨⟨p, hp, he⟩, fun hn => ?_⟩
    obtain ⟨p', hp', hn', hr'⟩ := (h2 _).1 hn
    rw [he] at hn'
    rw [List.inj_on_of_nodup_map hok.names hp' hp hn'] at hr'
    exact hr hr'

/-- No partition of the primary type is lost: all stay, with their id, name and range. -/
theorem C74_modify_primary {s s' : Schema} (hok : Ok s) {dyn : Bool} {reqs : List (String × Bool)}
    (h : modify s dyn reqs = some s') {p : PInfo} (hp : p ∈ s.parts) (ht : p.ptype = s.primary)
    {n : Int} (hc : Covers p n) : { p with cold := coldAfter s.primary reqs p } ∈ s'.parts := by
  refine ((C74_modify hok h).2.1 _).2 ⟨p, hp, rfl, ?_⟩
  rintro ⟨ha, p0, hp0, _, ht0, hl, hr, hn⟩
  refine hn (congrArg (·.name) (hok.apart p0 hp0 p hp (Or.inr ⟨?_, ha, Or.inl ?_⟩) n ?_ hc))
  · rw [ht0, ← ht]; exact ha
  · rw [ht0, ht]
  · exact covers_congr hl.symm hr.symm hc

/-- Once a partition is cold, it is for every account the only one of its values. -/
theorem C74_modify_cold {s s' : Schema} (hok : Ok s) {dyn : Bool} {p : PInfo} (hp : p ∈ s.parts)
    (ht : p.ptype = s.primary) (ha : p.ptype ≠ .additional)
    (h : modify s dyn [(p.name, true)] = some s') {u : User} (hu : u.additional = false) {v : Int}
    (hc : Covers p v) (q : PInfo) :
    (Visible s' u false q ∧ Covers q v) ↔ q = { p with cold := true } := by
  have hm := C74_modify_primary hok h hp ht hc
  have hcold : coldAfter s.primary [(p.name, true)] p = true := by
    simp [coldAfter, ht]
  rw [hcold] at hm
  constructor
  · rintro ⟨⟨hq, hv⟩, hqc⟩
    rw [hu] at hv
    simp only [Bool.false_eq_true, if_false, false_and, or_false] at hv
    exact (C74_modify hok h).1.apart q hq _ hm (Or.inr ⟨hv.1, ha, Or.inr (Or.inr rfl)⟩) v hqc
      (covers_congr rfl rfl hc)
  · rintro rfl
    refine ⟨⟨hm, ?_⟩, covers_congr rfl rfl hc⟩
    rw [hu]
    exact Or.inl ⟨ha, Or.inl rfl⟩

/-- A partition of the primary type can turn cold if the copies that share a value with it have its
range. -/
theorem C74_modify_accepted {s : Schema} (hok : Ok s) {p : PInfo} (hp : p ∈ s.parts)
    (ht : p.ptype = s.primary) (ha : p.ptype ≠ .additional)
    (hfree : ∀ q ∈ s.parts, q.ptype ≠ .additional → ∀ n, Covers p n → Covers q n →
      q.left = p.left ∧ q.right = p.right) :
    ∃ s', modify s false [(p.name, true)] = some s' := by
  obtain ⟨d, h1, h2⟩ := modify_eq hok.names false [(p.name, true)]
  rw [h1]
  have hex : ∀ n ∈ d, ∃ q ∈ marked s.parts (coldAfter s.primary [(p.name, true)]), q.name = n := by
    intro n hn
    obtain ⟨q, hq, he, _⟩ := (h2 n).1 hn
    exact ⟨_, mem_marked.2 ⟨q, hq, rfl⟩, he⟩
  have hids : ∀ ns : List String,
      (∀ n ∈ ns, ∃ q ∈ marked s.parts (coldAfter s.primary [(p.name, true)]), q.name = n) →
      ∃ ids, dropIds { s with parts := marked s.parts (coldAfter s.primary [(p.name, true)]) } false
        ns = some ids := by
    intro ns
    induction ns with
    | nil => intro _; exact ⟨[], rfl⟩
    | cons n ns ih =>
      intro hx
      obtain ⟨ids, hi⟩ := ih fun m hm => hx m (List.mem_cons_of_mem _ hm)
      unfold dropIds
      simp only
      rcases hf : (marked s.parts (coldAfter s.primary [(p.name, true)])).find?
          (fun p => decide (p.name = n)) with _ | q
      · rw [List.find?_eq_none] at hf
        obtain ⟨q, hq, he⟩ := hx n (List.mem_cons_self ..)
        exact absurd (by simpa using he) (hf q hq)
      · rw [hf, hi]
        exact ⟨_, rfl⟩
  obtain ⟨ids, hi⟩ := hids d hex
  obtain ⟨h3, _⟩ := dropIds_spec' (by rw [marked_ids]; exact hok.ids)
    (by rw [marked_names]; exact hok.names) hi
  simp only at h3
  have hkeep : ∀ q, q ∈ (marked s.parts (coldAfter s.primary [(p.name, true)])).filter
      (fun p => !ids.contains p.id) ↔
        q ∈ marked s.parts (coldAfter s.primary [(p.name, true)]) ∧ q.name ∉ d := by
    intro q
    simp only [List.mem_filter, Bool.not_eq_true', List.contains_eq_mem, decide_eq_false_iff_not]
    constructor
    · rintro ⟨hq, hn⟩
      exact ⟨hq, fun hx => hn ((h3 q hq).2 hx)⟩
    · rintro ⟨hq, hn⟩
      exact ⟨hq, fun hx => hn ((h3 q hq).1 hx)⟩
  have hsame : ∀ {q : PInfo}, q.name ≠ p.name →
      coldAfter s.primary [(p.name, true)] q = q.cold := by
    intro q hq
    simp [coldAfter, Ne.symm hq]
  have hdrop : ∀ q ∈ s.parts, q.ptype ≠ .additional → q.name ≠ p.name → ∀ n, Covers p n →
      Covers q n → q.name ∈ d := by
    intro q hq hqa hqn n hpn hqc
    obtain ⟨hl, hr⟩ := hfree q hq hqa n hpn hqc
    exact (h2 _).2 ⟨q, hq, rfl, hqa, p, hp, by simp, ht, hl.symm, hr.symm, Ne.symm hqn⟩
  have hpd : p.name ∉ d := by
    intro hx
    obtain ⟨q, hq, he, _, p0, hp0, hm, _, _, _, hne⟩ := (h2 _).1 hx
    simp only [List.mem_singleton, Prod.mk.injEq, and_true] at hm
    exact hne (hm.trans he.symm)
  unfold dropPartition
  rw [hi]
  simp only
  rw [if_neg, if_neg]
  · exact ⟨_, rfl⟩
  · rw [List.any_eq_true]
    rintro ⟨r, hr, ho⟩
    obtain ⟨a, har, hnm, hk, n, han, hrn⟩ := overlapped_covers ho
    rw [hkeep] at hr har
    obtain ⟨hr, hrd⟩ := hr
    obtain ⟨har, had⟩ := har
    obtain ⟨r0, hr0, rfl⟩ := mem_marked.1 hr
    obtain ⟨a0, ha0, rfl⟩ := mem_marked.1 har
    have han : Covers a0 n := covers_congr rfl rfl han
    have hrn : Covers r0 n := covers_congr rfl rfl hrn
    simp only at hnm hrd had
    by_cases h1 : r0.name = p.name
    · have hrp : r0 = p := List.inj_on_of_nodup_map hok.names hr0 hp h1
      subst hrp
      have haa : a0.ptype ≠ .additional := by
        rcases hk with ⟨_, hk⟩ | ⟨hk, _⟩
        · exact absurd hk ha
        · exact hk
      exact had (hdrop a0 ha0 haa hnm n hrn han)
    · by_cases h4 : a0.name = p.name
      · have hap : a0 = p := List.inj_on_of_nodup_map hok.names ha0 hp h4
        subst hap
        have hra : r0.ptype ≠ .additional := by
          rcases hk with ⟨hk, _⟩ | ⟨_, hk, _⟩
          · exact absurd hk ha
          · exact hk
        exact hrd (hdrop r0 hr0 hra (Ne.symm hnm) n han hrn)
      · rw [hsame h1, hsame h4] at hk
        exact hnm (congrArg (·.name) (hok.apart a0 ha0 r0 hr0 hk n han hrn))
  · rintro ⟨_, he⟩
    have : ({ p with cold := coldAfter s.primary [(p.name, true)] p } : PInfo) ∈
        (marked s.parts (coldAfter s.primary [(p.name, true)])).filter
          (fun p => !ids.contains p.id) := (hkeep _).2 ⟨mem_marked.2 ⟨p, hp, rfl⟩, hpd⟩
    rw [he] at this
    cases this

theorem stepAll_ok {ct : ColType} {s : Schema} (hok : Ok s) (st : Stmt) :
    Ok (stepAll ct s st) ∧ s.maxId ≤ (stepAll ct s st).maxId ∧
      ∀ q ∈ (stepAll ct s st).parts, q.id ≤ s.maxId → ∃ p ∈ s.parts, q = { p with cold := q.cold } := by
  cases st with
  | op o =>
    obtain ⟨h1, h2, h3, _⟩ := step_ok (ct := ct) hok o
    exact ⟨h1, h2, fun q hq hi => ⟨q, h3 q hq hi, rfl⟩⟩
  | modify dyn reqs =>
    unfold stepAll
    simp only
    rcases h : modify s dyn reqs with _ | s'
    · exact ⟨hok, Int.le_refl _, fun q hq _ => ⟨q, hq, rfl⟩⟩
    · obtain ⟨h1, h2, h3, _⟩ := C74_modify hok h
      refine ⟨h1, by simp only [Option.getD_some]; omega, ?_⟩
      intro q hq _
      obtain ⟨p, hp, he, _⟩ := (h2 q).1 hq
      exact ⟨p, hp, by rw [he]⟩

/-- Whatever `ADD`, `DROP` and `MODIFY PARTITION` follow, partitions of a kind share no value and no
id or name; an id is not given twice, and what has kept its id has kept its name, type and range. -/
theorem C74_all {ct : ColType} {s : Schema} (hok : Ok s) (sts : List Stmt) :
    Ok (sts.foldl (stepAll ct) s) ∧ ∀ q ∈ (sts.foldl (stepAll ct) s).parts, q.id ≤ s.maxId →
      ∃ p ∈ s.parts, q = { p with cold := q.cold } := by
  induction sts generalizing s with
  | nil => exact ⟨hok, fun q hq _ => ⟨q, hq, rfl⟩⟩
  | cons st sts ih =>
    obtain ⟨h1, h2, h3⟩ := stepAll_ok (ct := ct) hok st
    obtain ⟨h4, h5⟩ := ih h1
    refine ⟨h4, fun q hq hi => ?_⟩
    obtain ⟨r, hr, he⟩ := h5 q hq (by omega)
    obtain ⟨p, hp, he'⟩ := h3 r hr (by rw [he] at hi; exact hi)
    exact ⟨p, hp, by rw [he, he']⟩

/-! ## Named partitions -/

/-- No two partitions have names that differ by case only. -/
def CaseUnique (low : String → String) (s : Schema) : Prop :=
  (s.parts.map fun p => low p.name).Nodup

theorem byName_some {low : String → String} {s : Schema} (h : CaseUnique low s) {n : String}
    {i : Int} : byName low s n = some i ↔ ∃ p ∈ s.parts, low p.name = n ∧ p.id = i := by
  unfold byName
  rw [Option.map_eq_some_iff]
  constructor
  · rintro ⟨p, hf, rfl⟩
    exact ⟨p, List.mem_reverse.1 (List.mem_of_find?_eq_some hf), by simpa using List.find?_some hf,
      rfl⟩
  · rintro ⟨p, hp, hn, rfl⟩
    rcases hf : s.parts.reverse.find? (fun p => decide (low p.name = n)) with _ | q
    · rw [List.find?_eq_none] at hf
      exact absurd (by simpa using hn) (hf p (List.mem_reverse.2 hp))
    · have hq := List.mem_reverse.1 (List.mem_of_find?_eq_some hf)
      have hqn : low q.name = n := by simpa using List.find?_some hf
      exact ⟨q, hf, by rw [List.inj_on_of_nodup_map h hq hp (hqn.trans hn.symm)]⟩

theorem namedIds_spec {low : String → String} {s : Schema} (h : CaseUnique low s) :
    ∀ {ns : List String} {ids out : List Int}, namedIds low s ns ids = some out → ids.Nodup →
    out.Nodup ∧ (∀ n ∈ ns, ∃ p ∈ s.parts, low p.name = n) ∧
      ∀ i, i ∈ out ↔ i ∈ ids ∨ ∃ p ∈ s.parts, low p.name ∈ ns ∧ p.id = i
  | [], ids, out, hs, hn => by
    simp only [namedIds, Option.some.injEq] at hs
    subst hs
    simp [hn]
  | n :: ns, ids, out, hs, hn => by
    unfold namedIds at hs
    rcases hb : byName low s n with _ | i
    · rw [hb] at hs; cases hs
    · rw [hb] at hs
      simp only at hs
      obtain ⟨h1, h2, h3⟩ := namedIds_spec h hs (nodup_insertId hn i)
      obtain ⟨p, hp, hpn, hpi⟩ := (byName_some h).1 hb
      refine ⟨h1, ?_, ?_⟩
      · intro m hm
        rcases List.mem_cons.1 hm with rfl | hm
        · exact ⟨p, hp, hpn⟩
        · exact h2 m hm
      · intro j
        rw [h3, mem_insertId]
        constructor
        · rintro ((hj | rfl) | ⟨q, hq, hqn, hqi⟩)
          · exact Or.inl hj
          · exact Or.inr ⟨p, hp, by rw [hpn]; exact List.mem_cons_self .., hpi⟩
          · exact Or.inr ⟨q, hq, List.mem_cons_of_mem _ hqn, hqi⟩
        · rintro (hj | ⟨q, hq, hqn, hqi⟩)
          · exact Or.inl (Or.inl hj)
          · rcases List.mem_cons.1 hqn with he | hqn
            · refine Or.inl (Or.inr ?_)
              rw [← hqi, ← hpi, List.inj_on_of_nodup_map h hq hp (he.trans hpn.symm)]
            · exact Or.inr ⟨q, hq, hqn, hqi⟩

theorem namedIds_total {low : String → String} {s : Schema} (h : CaseUnique low s) :
    ∀ {ns : List String} (ids : List Int), (∀ n ∈ ns, ∃ p ∈ s.parts, low p.name = n) →
    ∃ out, namedIds low s ns ids = some out
  | [], ids, _ => ⟨ids, rfl⟩
  | n :: ns, ids, hx => by
    obtain ⟨p, hp, hn⟩ := hx n (List.mem_cons_self ..)
    unfold namedIds
    rw [(byName_some h).2 ⟨p, hp, hn, rfl⟩]
    exact namedIds_total h _ fun m hm => hx m (List.mem_cons_of_mem _ hm)

/-- A statement with `PARTITION (...)` reads the partitions it names, whatever the case of the names
and the account, and no other; it is refused only if a name does not exist. -/
theorem C74_named {low : String → String} {s : Schema} (h : CaseUnique low s) (ns : List String) :
    (selectNamed low s ns = none ↔ ∃ n ∈ ns, ∀ p ∈ s.parts, low p.name ≠ low n) ∧
    ∀ ids, selectNamed low s ns = some ids → ids.Nodup ∧
      ∀ i, i ∈ ids ↔ ∃ p ∈ s.parts, (∃ n ∈ ns, low p.name = low n) ∧ p.id = i := by
  constructor
  · constructor
    · intro hs
      by_contra hne
      push Not at hne
      obtain ⟨out, ho⟩ := namedIds_total h (ns := ns.map low) [] (by
        intro n hn
        obtain ⟨m, hm, rfl⟩ := List.mem_map.1 hn
        exact hne m hm)
      unfold selectNamed at hs
      rw [ho] at hs
      cases hs
    · rintro ⟨n, hn, hx⟩
      rcases hs : selectNamed low s ns with _ | out
      · rfl
      · obtain ⟨_, h2, _⟩ := namedIds_spec h hs .nil
        obtain ⟨p, hp, he⟩ := h2 (low n) (List.mem_map.2 ⟨n, hn, rfl⟩)
        exact absurd he (hx p hp)
  · intro ids hs
    obtain ⟨h1, _, h3⟩ := namedIds_spec h hs .nil
    refine ⟨h1, fun i => ?_⟩
    rw [h3]
    simp only [List.not_mem_nil, false_or, List.mem_map]
    constructor
    · rintro ⟨p, hp, ⟨n, hn, he⟩, hi⟩
      exact ⟨p, hp, ⟨n, hn, he.symm⟩, hi⟩
    · rintro ⟨p, hp, ⟨n, hn, he⟩, hi⟩
      exact ⟨p, hp, ⟨n, hn, he.symm⟩, hi⟩

theorem mapM_forall₂ {f : Val → Option Int} : ∀ {vs : List Val} {is : List Int},
    vs.mapM f = some is ↔ List.Forall₂ (fun v i => f v = some i) vs is
  | [], is => by
    rw [List.mapM_nil]
    constructor
    · intro h; cases h; exact .nil
    · intro h; cases h; rfl
  | v :: vs, is => by
    rw [List.mapM_cons]
    constructor
    · intro h
      rcases hv : f v with _ | i
      · rw [hv] at h; cases h
      · rcases hr : vs.mapM f with _ | js
        · rw [hv, hr] at h; cases h
        · rw [hv, hr] at h
          cases h
          exact .cons hv (mapM_forall₂.1 hr)
    · intro h
      cases h with
      | cons h1 h2 =>
        rw [h1, mapM_forall₂.2 h2]
        rfl

/-- `INSERT ... PARTITION (...)` writes each row to its partition, and is accepted exactly if each
row has one and it is among those named. -/
theorem C74_insert_named {low : String → String} {s : Schema} (h : CaseUnique low s) (u : User)
    (ns : List String) (vs : List Val) (is : List Int) :
    insertNamed low s u ns vs = some is ↔
      List.Forall₂ (fun v i => writePartition s u v = some i) vs is ∧
      (∀ n ∈ ns, ∃ p ∈ s.parts, low p.name = low n) ∧
      ∀ i ∈ is, ∃ p ∈ s.parts, (∃ n ∈ ns, low p.name = low n) ∧ p.id = i := by
  obtain ⟨h1, h2⟩ := C74_named h ns
  unfold insertNamed
  rw [← mapM_forall₂]
  rcases hm : vs.mapM (writePartition s u) with _ | js
  · simp
  · simp only
    rcases hs : selectNamed low s ns with _ | ids
    · obtain ⟨n, hn, hx⟩ := h1.1 hs
      constructor
      · intro hc; cases hc
      · rintro ⟨_, hc, _⟩
        obtain ⟨p, hp, he⟩ := hc n hn
        exact absurd he (hx p hp)
    · obtain ⟨_, h3⟩ := h2 ids hs
      have hex : ∀ n ∈ ns, ∃ p ∈ s.parts, low p.name = low n := by
        by_contra hc
        push Not at hc
        rw [h1.2 hc] at hs
        cases hs
      simp only
      constructor
      · intro hc
        split at hc
        · rename_i hall
          cases hc
          refine ⟨rfl, hex, fun i hi => (h3 i).1 ?_⟩
          have := List.all_eq_true.1 hall i hi
          simpa using this
        · cases hc
      · rintro ⟨hj, _, hi⟩
        cases hj
        rw [if_pos]
        rw [List.all_eq_true]
        intro i hx
        simpa using (h3 i).2 (hi i hx)

/-- `TRUNCATE TABLE` empties every partition, `TRUNCATE ... PARTITION (...)` those it names. -/
theorem C74_truncate {low : String → String} {s : Schema} (h : CaseUnique low s) (ns : List String)
    {ids : List Int} (ht : truncateIds low s ns = some ids) (i : Int) :
    i ∈ ids ↔ ∃ p ∈ s.parts, (ns = [] ∨ ∃ n ∈ ns, low p.name = low n) ∧ p.id = i := by
  unfold truncateIds at ht
  split at ht
  · rename_i he
    cases ht
    rw [mem_insertAll]
    simp [he]
  · rename_i he
    rw [((C74_named h ns).2 ids ht).2 i]
    simp [he]

/-- Names that differ by case only are accepted by the meta server, and `PARTITION (P1)` then reads
the other partition. -/
theorem C74_named_case_counterexample :
    let low : String → String := fun n => if n = "P1" then "p1" else n
    let s : Schema := ⟨[⟨.dflt, "P1", 0, .num 0, .num 5, false⟩,
      ⟨.dflt, "p1", 1, .num 5, .num 10, false⟩], 1, .dflt, none, none⟩
    (create ⟨0, 127⟩ .dflt none none [⟨"P1", .dflt, false, .less (.num 5)⟩,
      ⟨"p1", .dflt, false, .less (.num 10)⟩]).map (·.parts) = some s.parts ∧
    selectNamed low s ["P1"] = some [1] := by
  decide +kernel

/-! ## Concrete cases -/

/-- `p1` of the table turns cold: its copy `q1` is dropped; `p0` has none; `q1` cannot turn cold as
it is not of the primary type; `c` turns hot. -/
example : ((modify tab false [("p1", true), ("p0", true), ("c", false)]).map (·.parts)) =
      some [⟨.dflt, "p0", 0, .num (-128), .num 5, true⟩, ⟨.dflt, "p1", 1, .num 5, .num 10, true⟩,
        ⟨.additional, "x", 3, .num (-128), .num 100, false⟩,
        ⟨.newStats, "c", 4, .num 20, .max, false⟩] ∧
    ((modify tab false [("q1", true), ("y", true)]).map (·.parts)) = some tab.parts := by
  decide +kernel

example : ∃ s', modify tab false [("p1", true)] = some s' := by
  refine C74_modify_accepted ok_tab (p := ⟨.dflt, "p1", 1, .num 5, .num 10, false⟩)
    (by decide +kernel) rfl (by decide) ?_
  intro q hq ha n h1 h2
  have h1r := h1.2 10 rfl
  obtain ⟨⟨a, hl, h1l⟩, _⟩ := h1
  cases hl
  simp only [tab, List.mem_cons, List.not_mem_nil, or_false] at hq
  rcases hq with rfl | rfl | rfl | rfl | rfl
  · have := h2.2 5 rfl; omega
  · exact ⟨rfl, rfl⟩
  · exact ⟨rfl, rfl⟩
  · exact absurd rfl ha
  · obtain ⟨⟨a, hl, h3⟩, _⟩ := h2
    cases hl
    omega

/-- A sequence of all three statements. -/
example : ((([.modify false [("p1", true)],
      .op (.add false [⟨"q1", .newStats, false, .range (.num 5) (.num 10)⟩]),
      .op (.drop false ["p1"]),
      .op (.add false [⟨"q1", .newStats, false, .range (.num 5) (.num 10)⟩])] : List Stmt).foldl
        (stepAll tiny) tab).parts.map fun p => (p.name, p.id)) =
    [("p0", 0), ("q1", 5), ("x", 3), ("c", 4)] := by decide +kernel

/-- A partition whose copies have other ranges does not turn cold. -/
example : (modify ⟨[⟨.dflt, "a", 0, .num 0, .num 10, false⟩, ⟨.newStats, "b", 1, .num 0, .num 5, false⟩],
    1, .dflt, none, none⟩ false [("a", true)]).isNone = true := by decide +kernel

example : CaseUnique id tab ∧ selectNamed id tab ["q1", "p0", "q1"] = some [2, 0] ∧
    selectNamed id tab ["q1", "y"] = none ∧
    insertNamed id tab u0 ["p0", "p1"] [.num 7, .num 2, .num 8] = some [1, 0, 1] ∧
    insertNamed id tab u0 ["p0"] [.num 7, .num 2] = none ∧
    truncateIds id tab [] = some [0, 1, 2, 3, 4] ∧ truncateIds id tab ["x"] = some [3] := by
  unfold CaseUnique
  decide +kernel

end BaikalDB.Part
