import Verif.Dml.Insert
import Mathlib.Data.Nat.Find
/-! # C57: statements change exactly the rows they should, and the indexes with them -/
namespace BaikalDB.Dml
variable {V : Type} [DecidableEq V]

/-- **C57.** A statement on a sound region fails exactly when it should; otherwise the rows afterwards, the number of affected rows and
the change of the number of stored rows are what the statement says, and the region is sound again. -/
theorem C57_exec (T : Table V) (E : Env V) (S : Store V) (s : Stmt V) (hT : T.Ok) (hE : E.Ok T) (hS : Sound T E S) (hs : s.Ok T E) :
    (exec T E S s = none → Result T E (view T E S) none s) ∧
    ∀ o, exec T E S s = some o →
      Sound T E o.store ∧ Result T E (view T E S) (some (view T E o.store, o.rows)) s ∧ Counted S o.store o.inc := by
  have h := exec_refines hT hE (sound_good hS) s hs
  cases ho : exec T E S s with
  | none => rw [ho] at h; exact ⟨fun _ => h, by simp⟩
  | some o =>
    rw [ho] at h
    refine ⟨by simp, fun o' h' => ?_⟩
    cases h'
    exact ⟨good_sound h.1, h.2.1, h.2.2⟩

omit [DecidableEq V] in
/-- **C57.** In a sound region no two rows agree on a UNIQUE index. -/
theorem C57_unique (T : Table V) (E : Env V) (S : Store V) (hS : Sound T E S) : Unique T (view T E S) := by
  intro i hi hu k k' x x' hx hx' hf
  obtain ⟨j, hj⟩ := List.mem_iff_getElem?.1 hi
  exact ents_inj (sound_good hS).ents hx hx' hj (by rw [ekey_uniq hu, ekey_uniq hu]; exact hf)

omit [DecidableEq V] in
/-- **C57.** A region stays sound while time passes and rows expire. -/
theorem C57_later (T : Table V) (E E' : Env V) (S : Store V) (hS : Sound T E S) (hr : E'.inReg = E.inReg) (hn : E.now ≤ E'.now) :
    Sound T E' S := by
  have hview : ∀ k x, view T E' S k = some x → view T E S k = some x := by
    intro k x h
    obtain ⟨h1, ⟨e, h2, h3⟩, h4⟩ := (view_some T E' S k x).1 h
    rw [dead_false] at h3
    exact (view_some T E S k x).2 ⟨hr ▸ h1, ⟨e, h2, (dead_false E e).2 fun t ht => Nat.le_trans hn (h3 t ht)⟩, h4⟩
  have hg := (sound_good hS).ents
  refine ⟨?_, ?_, ?_, ?_, ?_⟩
  · intro j i hi y k
    constructor
    · rintro ⟨e, h1, h2, h3⟩
      rw [hr] at h2
      have h3' : ∀ t ∈ e, E.now ≤ t := fun t ht => Nat.le_trans hn (h3 t ht)
      obtain ⟨x, hx, hy⟩ := (hS.indexed j i hi y k).1 ⟨e, h1, h2, h3'⟩
      have hh := hS.together j (List.getElem?_eq_some_iff.1 hi).1 y k e h1 h2 h3'
      refine ⟨x, ?_, hy⟩
      exact (view_some T E' S k x).2 ⟨hr ▸ h2, ⟨e, hh, (dead_false E' e).2 h3⟩, ((view_some T E S k x).1 hx).2.2⟩
    · rintro ⟨x, hx, hy⟩
      obtain ⟨e, h1, h2⟩ := hg.row_ent k x (hview k x hx) j i hi
      obtain ⟨h3, ⟨e', h4, h5⟩, _⟩ := (view_some T E' S k x).1 hx
      rw [h1] at h4; cases h4
      exact ⟨e, by rw [hy]; exact h2, h3, (dead_false E' e).1 h5⟩
  · intro j hj y k e h1 h2 h3
    exact hS.together j hj y k e h1 (hr ▸ h2) fun t ht => Nat.le_trans hn (h3 t ht)
  · intro hc k hk; exact hS.clean hc k (hr ▸ hk)
  · intro hc k e hk; exact hS.noexp hc k e (hr ▸ hk)
  · intro k e hk; exact hS.shape k e (hr ▸ hk)

/-- An empty region. -/
def Store.empty : Store V := ⟨fun _ => none, fun _ _ => none, fun _ _ => none⟩

omit [DecidableEq V] in
theorem empty_sound (T : Table V) (E : Env V) : Sound T E (Store.empty : Store V) := by
  refine ⟨?_, ?_, ?_, ?_, ?_⟩
  · intro j i _ y k
    constructor
    · rintro ⟨e, h, _⟩; simp [Store.empty] at h
    · rintro ⟨x, hx, _⟩
      obtain ⟨_, ⟨e, h, _⟩, _⟩ := (view_some T E _ k x).1 hx
      simp [Store.empty] at h
  · intro j _ y k e h; simp [Store.empty] at h
  · intro _ k _ _ f; rfl
  · intro _ k e _ h; simp [Store.empty] at h
  · intro k e _ h; simp [Store.empty] at h

/-- Statements one after the other, each with its time; a statement that fails is rolled back.  The store and the sum of the changes of
the number of rows. -/
def history (T : Table V) : List (Env V × Stmt V) → Store V × Int → Store V × Int
  | [], p => p
  | (E, s) :: l, p =>
    match exec T E p.1 s with
    | some o => history T l (o.store, p.2 + o.inc)
    | none => history T l p

/-- **C57.** After any history of statements the indexes hold the rows and nothing else, UNIQUE indexes are respected, and the number
of rows kept for the region is the number of rows stored. -/
theorem C57_history (T : Table V) (hT : T.Ok) (reg : Key V → Bool) (l : List (Env V × Stmt V))
    (hok : ∀ p ∈ l, p.1.Ok T ∧ p.2.Ok T p.1 ∧ p.1.inReg = reg) (htime : (l.map fun p => p.1.now).Pairwise (· ≤ ·))
    (E : Env V) (hE : E.inReg = reg) (hlast : ∀ p ∈ l, p.1.now ≤ E.now) :
    Sound T E (history T l (Store.empty, 0)).1 ∧ Unique T (view T E (history T l (Store.empty, 0)).1) ∧
    Counted Store.empty (history T l (Store.empty, 0)).1 (history T l (Store.empty, 0)).2 := by
  have main : ∀ (l : List (Env V × Stmt V)) (S : Store V) (c : Int) (now : Nat),
      (∀ p ∈ l, p.1.Ok T ∧ p.2.Ok T p.1 ∧ p.1.inReg = reg) → (l.map fun p => p.1.now).Pairwise (· ≤ ·) → (∀ p ∈ l, p.1.now ≤ E.now) →
      Sound T ⟨now, none, reg⟩ S → now ≤ E.now → (∀ p ∈ l, now ≤ p.1.now) → Counted Store.empty S c →
      Sound T E (history T l (S, c)).1 ∧ Counted Store.empty (history T l (S, c)).1 (history T l (S, c)).2 := by
    intro l
    induction l with
    | nil =>
      intro S c now _ _ _ hS hle _ hc
      exact ⟨C57_later T _ E S hS hE hle, hc⟩
    | cons p l ih =>
      intro S c now hok htime hlast hS hle hge hc
      obtain ⟨E1, s⟩ := p
      obtain ⟨k1, k2, k3⟩ := hok _ List.mem_cons_self
      simp only at k1 k2 k3
      have hS1 : Sound T E1 S := C57_later T _ E1 S hS k3 (hge _ List.mem_cons_self)
      rw [List.map_cons, List.pairwise_cons] at htime
      have hge' : ∀ q ∈ l, E1.now ≤ q.1.now := fun q hq => htime.1 _ (List.mem_map.2 ⟨q, hq, rfl⟩)
      obtain ⟨_, x⟩ := C57_exec T E1 S s hT k1 hS1 k2
      unfold history
      simp only
      cases ho : exec T E1 S s with
      | none =>
        exact ih S c E1.now (fun q hq => hok q (List.mem_cons_of_mem _ hq)) htime.2 (fun q hq => hlast q (List.mem_cons_of_mem _ hq))
          (C57_later T E1 ⟨E1.now, none, reg⟩ S hS1 k3.symm (Nat.le_refl _)) (hlast _ List.mem_cons_self) hge' hc
      | some o =>
        obtain ⟨x1, _, x3⟩ := x o ho
        exact ih o.store (c + o.inc) E1.now (fun q hq => hok q (List.mem_cons_of_mem _ hq)) htime.2
          (fun q hq => hlast q (List.mem_cons_of_mem _ hq))
          (C57_later T E1 ⟨E1.now, none, reg⟩ o.store x1 k3.symm (Nat.le_refl _)) (hlast _ List.mem_cons_self) hge' (counted_trans hc x3)
  obtain ⟨h1, h2⟩ := main l Store.empty 0 0 hok htime hlast (empty_sound T _) (Nat.zero_le _) (fun _ _ => Nat.zero_le _) (counted_refl _ _ rfl)
  exact ⟨h1, C57_unique T E _ h1, h2⟩

/-! ### The specification determines the result -/

omit [DecidableEq V] in
theorem first_exists (T : Table V) (t : Tab V) (r : Rec V) (h : ∃ k, Clash T t r k) : ∃ k, First T t r k := by
  classical
  cases hp : t (T.pk.map r) with
  | some x => exact ⟨_, x, hp, .inl rfl⟩
  | none =>
    have hex : ∃ n : Nat, ∃ i : Index, T.indexes[n]? = some i ∧ i.uniq = true ∧ ∃ k x, t k = some x ∧ i.fields.map x = i.fields.map r := by
      obtain ⟨k, x, hx, h | ⟨i, hi, hu, hf⟩⟩ := h
      · rw [h, hp] at hx; simp at hx
      · obtain ⟨n, hn⟩ := List.mem_iff_getElem?.1 hi
        exact ⟨n, i, hn, hu, k, x, hx, hf⟩
    obtain ⟨i, hi, hu, k, x, hx, hf⟩ := Nat.find_spec hex
    refine ⟨k, x, hx, .inr ⟨hp, _, i, hi, hu, hf, ?_⟩⟩
    intro m hm i' hi' hu' k' x' hx' hf'
    exact Nat.find_min hex hm ⟨i', hi', hu', k', x', hx', hf'⟩

theorem changed_unique (T : Table V) (t : Tab V) (k : Key V) (new : Rec V) {a b : Option (Tab V)} (ha : Changed T t k new a)
    (hb : Changed T t k new b) : a = b := by
  by_cases h : ∃ k', k' ≠ k ∧ Clash T t new k'
  · rw [ha.1 h, hb.1 h]
  · rw [ha.2 h, hb.2 h]

theorem inserted_unique (T : Table V) (t : Tab V) (r : Rec V) (m : Mode V) {a b : Option (Tab V × Nat)} (ha : Inserted T t r a m)
    (hb : Inserted T t r b m) : a = b := by
  cases m with
  | plain =>
    by_cases h : ∃ k, Clash T t r k
    · rw [ha.1 h, hb.1 h]
    · rw [ha.2 h, hb.2 h]
  | ignore =>
    by_cases h : ∃ k, Clash T t r k
    · rw [ha.1 h, hb.1 h]
    · rw [ha.2 h, hb.2 h]
  | replace =>
    obtain ⟨l, h1, h2, rfl⟩ := ha
    obtain ⟨l', h1', h2', rfl⟩ := hb
    have hm : ∀ k, k ∈ l ↔ k ∈ l' := fun k => (h2 k).trans (h2' k).symm
    have hp : l.Perm l' := (List.perm_ext_iff_of_nodup h1 h1').2 hm
    simp only [hm, hp.length_eq]
  | onDup as =>
    by_cases h : ∃ k, Clash T t r k
    · obtain ⟨k, hk⟩ := first_exists T t r h
      have hk' := hk
      obtain ⟨x, hx, _⟩ := hk'
      obtain ⟨r1, c1, rfl⟩ := ha.1 k x hk hx
      obtain ⟨r2, c2, rfl⟩ := hb.1 k x hk hx
      rw [changed_unique T t k _ c1 c2]
    · rw [ha.2 h, hb.2 h]

omit [DecidableEq V] in
theorem rows_unique {α : Type} {step : Tab V → α → Option (Tab V × Nat) → Prop} (hs : ∀ t a r r', step t a r → step t a r' → r = r')
    {l : List α} {t : Tab V} {a b : Option (Tab V × Nat)} (ha : Rows step l t a) (hb : Rows step l t b) : a = b := by
  induction ha generalizing b with
  | nil => cases hb; rfl
  | error h =>
    cases hb with
    | error h' => rfl
    | cons h' _ => cases hs _ _ _ _ h h'
  | cons h hr ih =>
    cases hb with
    | error h' => cases hs _ _ _ _ h h'
    | cons h' hr' =>
      cases hs _ _ _ _ h h'
      rw [ih hr']

/-- **C57.** The specification leaves no choice: there is but one result. -/
theorem C57_determined (T : Table V) (E : Env V) (t : Tab V) (s : Stmt V) (a b : Option (Tab V × Nat)) (ha : Result T E t a s)
    (hb : Result T E t b s) : a = b := by
  cases s with
  | insert m rs =>
    refine rows_unique ?_ ha hb
    intro t r x y hx hy
    cases hin : E.inReg (T.pk.map r) with
    | true => exact inserted_unique T t r m (hx.1 hin) (hy.1 hin)
    | false => rw [hx.2 hin, hy.2 hin]
  | update as slots cond bs =>
    refine rows_unique ?_ ha hb
    intro t k x y hx hy
    cases hk : t k with
    | none => rw [hx.1 hk, hy.1 hk]
    | some old =>
      cases hc : cond.fn (cond.reads.map old) with
      | false => rw [(hx.2 old hk).1 hc, (hy.2 old hk).1 hc]
      | true =>
        obtain ⟨r1, c1, rfl⟩ := (hx.2 old hk).2 hc
        obtain ⟨r2, c2, rfl⟩ := (hy.2 old hk).2 hc
        rw [changed_unique T t k _ c1 c2]
  | delete slots cond ks =>
    refine rows_unique ?_ ha hb
    intro t k x y hx hy
    cases hk : t k with
    | none => rw [hx.1 hk, hy.1 hk]
    | some old =>
      cases hc : cond.fn (cond.reads.map old) with
      | false => rw [(hx.2 old hk).1 hc, (hy.2 old hk).1 hc]
      | true => rw [(hx.2 old hk).2 hc, (hy.2 old hk).2 hc]

/-! ### Batches of an UPDATE outside of a transaction -/

omit [DecidableEq V] in
theorem each_append {α : Type} (f : Store V → α → Option (Out V)) (l l' : List α) (o : Out V) :
    each f (l ++ l') o = (each f l o).bind (each f l') := by
  induction l generalizing o with
  | nil => rfl
  | cons a l ih =>
    rw [List.cons_append, each, each]
    cases f o.store a with
    | none => rfl
    | some o' => exact ih _

omit [DecidableEq V] in
theorem each_shift {α : Type} (f : Store V → α → Option (Out V)) (l : List α) (o : Out V) (a : Nat) (b : Int) :
    (each f l o).map Out.store = (each f l ⟨o.store, a, b⟩).map Out.store := by
  induction l generalizing o a b with
  | nil => rfl
  | cons x l ih =>
    rw [each, each]
    cases f o.store x with
    | none => rfl
    | some o' => exact ih ⟨o'.store, o.rows + o'.rows, o.inc + o'.inc⟩ _ _

/-- **C57.** An UPDATE that commits every batch on its own leaves the same behind as one that commits once, if no batch fails. -/
theorem C57_batches (T : Table V) (E : Env V) (as : List (Assign V)) (slots : List Nat) (cond : Cond V) (bs : List (List (Key V)))
    (S : Store V) (o : Out V) (h : exec T E S (.update as slots cond bs) = some o) : leaves T E as slots cond bs S = o.store := by
  induction bs generalizing S o with
  | nil => simp [exec, each] at h; subst h; rfl
  | cons b bs ih =>
    simp only [exec, List.flatten_cons, each_append] at h
    unfold leaves
    simp only [exec, List.flatten_cons, List.flatten_nil, List.append_nil]
    cases hb : each (fun S k => updateRow T E S as false slots cond k fun _ => none) b ⟨S, 0, 0⟩ with
    | none => rw [hb] at h; simp at h
    | some o1 =>
      rw [hb, Option.bind_some] at h
      simp only
      have hs := each_shift (fun S k => updateRow T E S as false slots cond k fun _ => none) bs.flatten o1 0 0
      rw [h] at hs
      cases h2 : each (fun S k => updateRow T E S as false slots cond k fun _ => none) bs.flatten ⟨o1.store, 0, 0⟩ with
      | none => rw [h2] at hs; simp at hs
      | some o2 =>
        rw [h2] at hs
        simp only [Option.map_some, Option.some.injEq] at hs
        rw [hs]
        exact ih o1.store o2 h2

end BaikalDB.Dml
