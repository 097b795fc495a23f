import Verif.Dml.Rows
/-! # INSERT and REPLACE of one record, and statements -/
namespace BaikalDB.Dml
variable {V : Type} {T : Table V} {E : Env V} {S : Store V} {t : Tab V}
variable [DecidableEq V]

/-! ### REPLACE -/

/-- The rows that the UNIQUE indexes `is` find. -/
def Hit (t : Tab V) (r : Rec V) (is : List (Nat × Index)) (k : Key V) : Prop :=
  ∃ x, t k = some x ∧ ∃ ji ∈ is, ji.2.uniq = true ∧ ji.2.fields.map x = ji.2.fields.map r

def Tab.without (t : Tab V) (l : List (Key V)) : Tab V := fun k => if k ∈ l then none else t k

theorem replace_loop (hT : T.Ok) (r : Rec V) (is : List (Nat × Index)) (hs : ∀ ji ∈ is, ji ∈ T.all) (o : Out V) (t : Tab V)
    (he : Ents T E o.store t) (hB : Base T E o.store) :
    ∃ l : List (Key V), l.Nodup ∧ (∀ k, k ∈ l ↔ Hit t r is k) ∧
      Ents T E (replaceLoop T E r is o).store (t.without l) ∧ Base T E (replaceLoop T E r is o).store ∧
      (∀ k, (replaceLoop T E r is o).store.here k = if k ∈ l then none else o.store.here k) ∧
      (∀ k f, (replaceLoop T E r is o).store.col k f = if k ∈ l then none else o.store.col k f) ∧
      (replaceLoop T E r is o).rows = o.rows + l.length ∧
      Counted o.store (replaceLoop T E r is o).store ((replaceLoop T E r is o).inc - o.inc) := by
  induction is generalizing o t with
  | nil =>
    refine ⟨[], List.nodup_nil, ?_, ?_, hB, ?_, ?_, rfl, ?_⟩
    · intro k; simp [Hit]
    · have : t.without [] = t := by funext k; simp [Tab.without]
      rw [this]; exact he
    · intro k; simp [replaceLoop]
    · intro k f; simp [replaceLoop]
    · simp only [replaceLoop, Int.sub_self]; exact counted_refl _ _ rfl
  | cons x is ih =>
    obtain ⟨j, i⟩ := x
    have hj := (mem_all T j i).1 (hs _ List.mem_cons_self)
    have hs' : ∀ ji ∈ is, ji ∈ T.all := fun ji h => hs ji (List.mem_cons_of_mem _ h)
    have skip : (i.uniq = true → getUniq T E o.store j i r = none) → replaceLoop T E r ((j, i) :: is) o = replaceLoop T E r is o →
        ∃ l : List (Key V), l.Nodup ∧ (∀ k, k ∈ l ↔ Hit t r ((j, i) :: is) k) ∧
        Ents T E (replaceLoop T E r ((j, i) :: is) o).store (t.without l) ∧ Base T E (replaceLoop T E r ((j, i) :: is) o).store ∧
        (∀ k, (replaceLoop T E r ((j, i) :: is) o).store.here k = if k ∈ l then none else o.store.here k) ∧
        (∀ k f, (replaceLoop T E r ((j, i) :: is) o).store.col k f = if k ∈ l then none else o.store.col k f) ∧
        (replaceLoop T E r ((j, i) :: is) o).rows = o.rows + l.length ∧
        Counted o.store (replaceLoop T E r ((j, i) :: is) o).store ((replaceLoop T E r ((j, i) :: is) o).inc - o.inc) := by
      intro hno heq
      rw [heq]
      obtain ⟨l, h1, h2, h3⟩ := ih hs' o t he hB
      refine ⟨l, h1, fun k => ?_, h3⟩
      rw [h2 k]
      constructor
      · rintro ⟨x, hx, ji, hji, h⟩; exact ⟨x, hx, ji, List.mem_cons_of_mem _ hji, h⟩
      · rintro ⟨x, hx, ji, hji, hu, hf⟩
        rcases List.mem_cons.1 hji with rfl | hji
        · exact absurd hf ((getUniq_none he hj hu r).1 (hno hu) k x hx)
        · exact ⟨x, hx, ji, hji, hu, hf⟩
    cases hu : i.uniq with
    | false => exact skip (by simp [hu]) (by rw [replaceLoop]; simp [hu])
    | true =>
      cases hg : getUniq T E o.store j i r with
      | none => exact skip (fun _ => hg) (by rw [replaceLoop]; simp [hu, hg])
      | some k =>
        clear skip
        obtain ⟨x, hx, hxf⟩ := (getUniq_iff he hj hu r k).1 hg
        have hv := he.sub k x hx
        have hkx := keyOf_view hT hB hv
        have hdel : deleteRow T E o.store [] Cond.none k r = ⟨removeRow T o.store T.all x true, 1, -1⟩ := by
          rw [delete_row hT [] Cond.none r hv (by simp [Cond.none]) (.inr rfl)]
          simp [Cond.none]
        have heq : replaceLoop T E r ((j, i) :: is) o = replaceLoop T E r is ⟨removeRow T o.store T.all x true, o.rows + 1, o.inc + -1⟩ := by
          rw [replaceLoop]; simp only [hu, if_true, hg, hdel]
        rw [heq]
        obtain ⟨l, h1, h2, h3, h4, h5, h6, h7, h8⟩ := ih hs' ⟨removeRow T o.store T.all x true, o.rows + 1, o.inc + -1⟩ (t.erase k)
          (remove_ents he x true hx hkx) (remove_base hB _ _ _)
        have hkl : k ∉ l := by
          rw [h2 k]
          rintro ⟨y, hy, _⟩
          simp [Tab.erase] at hy
        refine ⟨k :: l, List.nodup_cons.2 ⟨hkl, h1⟩, fun k' => ?_, ?_, h4, ?_, ?_, ?_, ?_⟩
        · rw [List.mem_cons, h2 k']
          constructor
          · rintro (rfl | ⟨y, hy, ji, hji, h⟩)
            · exact ⟨x, hx, (j, i), List.mem_cons_self, hu, hxf⟩
            · unfold Tab.erase at hy
              by_cases hk' : k' = k
              · rw [if_pos hk'] at hy; simp at hy
              · rw [if_neg hk'] at hy
                exact ⟨y, hy, ji, List.mem_cons_of_mem _ hji, h⟩
          · rintro ⟨y, hy, ji, hji, hu', hf⟩
            by_cases hk' : k' = k
            · exact .inl hk'
            · right
              refine ⟨y, by unfold Tab.erase; rw [if_neg hk']; exact hy, ?_⟩
              rcases List.mem_cons.1 hji with rfl | hji
              · exact absurd (ents_inj he hy hx hj (by rw [ekey_uniq hu, ekey_uniq hu]; exact hf.trans hxf.symm)) hk'
              · exact ⟨ji, hji, hu', hf⟩
        · have : t.without (k :: l) = (t.erase k).without l := by
            funext k'
            simp only [Tab.without, Tab.erase, List.mem_cons]
            by_cases a : k' = k <;> by_cases b : k' ∈ l <;> simp [a, b]
          rw [this]; exact h3
        · intro k'
          rw [h5 k']
          simp only [remove_here, hkx, List.mem_cons, true_and]
          by_cases a : k' = k <;> by_cases b : k' ∈ l <;> simp [a, b]
        · intro k' f
          rw [h6 k' f]
          simp only [remove_col, hkx, List.mem_cons, true_and]
          by_cases a : k' = k <;> by_cases b : k' ∈ l <;> simp [a, b]
        · rw [h7, List.length_cons]; simp only; omega
        · have := counted_trans (remove_counted hT hB hv) h8
          simp only at this
          convert this using 1
          omega

/-- The end of REPLACE: what is left after the loop is written to. -/
theorem replace_end (hT : T.Ok) (hE : E.Ok T) (r : Rec V) (hr : RecOk T r) (hin : E.inReg (T.keyOf r) = true) (S₀ : Store V) (o : Out V)
    (t : Tab V) (he : Ents T E o.store t) (hB : Base T E o.store) (u) (b c c' : Int)
    (ht : ∀ k, k ≠ T.keyOf r → t k = view T E o.store k) (hn : t (T.keyOf r) = none)
    (hfit : u = none ∧ (T.cstore = true → o.store.here (T.keyOf r) = none) ∨ u = some T.nonPk)
    (hc : Counted S₀ o.store b) (hci : c = 1 - (if (o.store.here (T.keyOf r)).isSome then 1 else 0)) (hoi : o.inc + c' = b + c) :
    ∃ l : List (Key V), l.Nodup ∧ (∀ k, k ∈ l ↔ Hit t r T.all k) ∧
      Good T E (writeRow T E (replaceLoop T E r T.all o).store T.all r u) ∧
      view T E (writeRow T E (replaceLoop T E r T.all o).store T.all r u) = (t.without l).put T r ∧
      (replaceLoop T E r T.all o).rows = o.rows + l.length ∧
      Counted S₀ (writeRow T E (replaceLoop T E r T.all o).store T.all r u) ((replaceLoop T E r T.all o).inc + c') := by
  obtain ⟨l, h1, h2, h3, h4, h5, h6, h7, h8⟩ := replace_loop hT r T.all (fun _ h => h) o t he hB
  have hkl : T.keyOf r ∉ l := by
    rw [h2]; rintro ⟨y, hy, _⟩; rw [hn] at hy; simp at hy
  generalize replaceLoop T E r T.all o = o' at *
  have hfree : Free T (t.without l) r := by
    intro j i hi hu k x hx hf
    unfold Tab.without at hx
    by_cases hk : k ∈ l
    · rw [if_pos hk] at hx; simp at hx
    · rw [if_neg hk] at hx
      exact hk ((h2 k).2 ⟨x, hx, (j, i), (mem_all T j i).2 hi, hu, hf⟩)
  have hfit' : Fits T o'.store r u := by
    rcases hfit with ⟨rfl, h⟩ | rfl
    · intro hcs f
      rw [h6, if_neg hkl]
      exact hB.clean hcs _ hin (h hcs) f
    · intro _ f hf hnu; exact absurd hf hnu
  obtain ⟨g1, g2⟩ := write_good hT hE h4 h3 r u (fun k hk => by
    unfold Tab.without
    by_cases hkk : k ∈ l
    · rw [if_pos hkk]; symm; rw [view_none]; right; left; rw [h5, if_pos hkk]
    · rw [if_neg hkk, ht k hk]
      symm
      apply view_congr
      · rw [h5, if_neg hkk]
      · funext f; rw [h6, if_neg hkk]) (by unfold Tab.without; rw [if_neg hkl]; exact hn) hfree hr hin hfit'
  refine ⟨l, h1, h2, g1, g2, h7, ?_⟩
  have := counted_trans (counted_trans hc h8) (counted_one o'.store (writeRow T E o'.store T.all r u) (T.keyOf r)
    (fun k' hk' => by rw [write_here, if_neg hk']))
  rw [write_here, if_pos rfl, h5, if_neg hkl] at this
  simp only [Option.isSome_some, if_true] at this
  rw [← hci] at this
  convert this using 1
  omega

omit [DecidableEq V] in
theorem hit_clash (t : Tab V) (r : Rec V) (k : Key V) (h : t (T.keyOf r) = none) : Hit t r T.all k ↔ Clash T t r k := by
  rw [clash_iff]
  constructor
  · rintro ⟨x, hx, ji, hji, hu, hf⟩
    exact ⟨x, hx, .inr ⟨ji.1, ji.2, (mem_all T _ _).1 hji, hu, hf⟩⟩
  · rintro ⟨x, hx, rfl | ⟨j, i, hi, hu, hf⟩⟩
    · rw [h] at hx; simp at hx
    · exact ⟨x, hx, (j, i), (mem_all T j i).2 hi, hu, hf⟩

/-! ### INSERT -/

omit [DecidableEq V] in
theorem first_unique (hG : Good T E S) (r : Rec V) {k k' : Key V} (h : First T (view T E S) r k) (h' : First T (view T E S) r k') : k = k' := by
  obtain ⟨x, hx, h⟩ := h
  obtain ⟨x', hx', h'⟩ := h'
  rcases h with rfl | ⟨h1, n, i, hi, hu, hf, hmin⟩
  · rcases h' with rfl | ⟨h1', _⟩
    · rfl
    · rw [hx] at h1'; simp at h1'
  · rcases h' with rfl | ⟨h1', n', i', hi', hu', hf', hmin'⟩
    · rw [hx'] at h1; simp at h1
    · rcases Nat.lt_trichotomy n n' with hlt | rfl | hlt
      · exact absurd hf (hmin' n hlt i hi hu k x hx)
      · rw [hi] at hi'; cases hi'
        exact ents_inj hG.ents hx hx' hi (by rw [ekey_uniq hu, ekey_uniq hu]; exact hf.trans hf'.symm)
      · exact absurd hf' (hmin n' hlt i' hi' hu' k' x' hx')

theorem dup_refines (hT : T.Ok) (hE : E.Ok T) (hG : Good T E S) (as : List (Assign V)) (r : Rec V)
    (ha : ∀ a ∈ as, AssignOk T a) (hreads : ∀ a ∈ as, ∀ f ∈ a.reads, f ∈ T.pk ∨ f ∈ T.fieldIds as true [] ∨ f ∉ T.fields)
    (hpk : T.affectPk as = true → ∀ k, E.inReg k = true) {k : Key V} (hk : First T (view T E S) r k) :
    Refines T E S (fun res => Inserted T (view T E S) r res (.onDup as)) (dupRow T E S as k r) := by
  have h := update_refines hT hE hG as true [] Cond.none k r ha hreads (by simp [Cond.none]) hpk
  obtain ⟨x, hx, hkk⟩ := hk
  have hk : First T (view T E S) r k := ⟨x, hx, hkk⟩
  have hcl : ∃ k, Clash T (view T E S) r k := by
    refine ⟨k, x, hx, ?_⟩
    rcases hkk with h | ⟨_, n, i, hi, hu, hf, _⟩
    · exact .inl h
    · exact .inr ⟨i, List.mem_iff_getElem?.2 ⟨n, hi⟩, hu, hf⟩
  unfold dupRow
  cases hu : updateRow T E S as true [] Cond.none k r with
  | none =>
    rw [hu] at h
    refine ⟨fun k' old hf ho => ?_, fun hn => absurd hcl hn⟩
    rw [← first_unique hG r hk hf] at ho ⊢
    obtain ⟨res', h1, h2⟩ := (h.2 old ho).2 rfl
    cases res' with
    | none => exact ⟨none, h1, rfl⟩
    | some _ => simp at h2
  | some o =>
    rw [hu] at h
    obtain ⟨g, h, hc⟩ := h
    have key : ∃ t', Changed T (view T E S) k (assigned as x r) (some t') ∧ view T E o.store = t' ∧ o.rows = 1 := by
      obtain ⟨res', h1, h2⟩ := (h.2 x hx).2 rfl
      cases res' with
      | none => simp at h2
      | some t' =>
        simp only [Option.map_some, Option.some.injEq, Prod.mk.injEq] at h2
        exact ⟨t', h1, h2.1, h2.2⟩
    obtain ⟨t', h1, h2, h3⟩ := key
    refine ⟨g, ⟨fun k' old hf ho => ?_, fun hn => absurd hcl hn⟩, hc⟩
    rw [← first_unique hG r hk hf] at ho ⊢
    rw [hx] at ho; cases ho
    exact ⟨some t', h1, by simp [h2, h3]⟩

theorem insert_refines (hT : T.Ok) (hE : E.Ok T) (hG : Good T E S) (m : Mode V) (r : Rec V) (hr : RecOk T r)
    (hd : ∀ as, m = .onDup as → (∀ a ∈ as, AssignOk T a) ∧
      (∀ a ∈ as, ∀ f ∈ a.reads, f ∈ T.pk ∨ f ∈ T.fieldIds as true [] ∨ f ∉ T.fields) ∧
      (T.affectPk as = true → ∀ k, E.inReg k = true)) :
    Refines T E S (fun res => (E.inReg (T.pk.map r) = true → Inserted T (view T E S) r res m) ∧
      (E.inReg (T.pk.map r) = false → res = some (view T E S, 0))) (insertRow T E S m r) := by
  have hkey : T.pk.map r = T.keyOf r := rfl
  -- no row under the primary key
  have rest : ∀ inc : Int, E.inReg (T.keyOf r) = true → view T E S (T.keyOf r) = none →
      (T.cstore = true → S.here (T.keyOf r) = none) → inc = 1 - (if (S.here (T.keyOf r)).isSome then 1 else 0) →
      Refines T E S (fun res => (E.inReg (T.pk.map r) = true → Inserted T (view T E S) r res m) ∧
        (E.inReg (T.pk.map r) = false → res = some (view T E S, 0))) (insertRest T E S m r inc) := by
    intro inc hin hv hcl hinc
    have hfree := free_clash (T := T) (view T E S) r hv
    have lift : ∀ out, Refines T E S (fun res => Inserted T (view T E S) r res m) out →
        Refines T E S (fun res => (E.inReg (T.pk.map r) = true → Inserted T (view T E S) r res m) ∧
        (E.inReg (T.pk.map r) = false → res = some (view T E S, 0))) out := by
      intro out h
      have hf : E.inReg (T.pk.map r) = false → False := by rw [hkey, hin]; simp
      cases out with
      | none => exact ⟨fun _ => h, fun h => (hf h).elim⟩
      | some o => exact ⟨h.1, ⟨fun _ => h.2.1, fun h => (hf h).elim⟩, h.2.2⟩
    apply lift
    clear lift
    -- written
    have wr : inWay T E S r T.all = none → m ≠ .replace →
        Refines T E S (fun res => Inserted T (view T E S) r res m) (some ⟨writeRow T E S T.all r none, 1, inc⟩) := by
      intro hw hm
      have hf := (inWay_free hG.ents r).1 hw
      obtain ⟨g1, g2⟩ := write_good hT hE hG.base hG.ents r none (fun _ _ => rfl) hv hf hr hin
        (fun hcs f => hG.base.clean hcs _ hin (hcl hcs) f)
      have hno := hfree.1 hf
      refine ⟨g1, ?_, ?_⟩
      · simp only [g2]
        cases m with
        | plain => exact ⟨fun h => absurd h hno, fun _ => rfl⟩
        | ignore => exact ⟨fun h => absurd h hno, fun _ => rfl⟩
        | replace => exact absurd rfl hm
        | onDup as =>
          refine ⟨fun k old hF _ => absurd ?_ hno, fun _ => rfl⟩
          obtain ⟨x, hx, h | ⟨_, n, i, hi, hu, hff, _⟩⟩ := hF
          · exact ⟨k, x, hx, .inl h⟩
          · exact ⟨k, x, hx, .inr ⟨i, List.mem_iff_getElem?.2 ⟨n, hi⟩, hu, hff⟩⟩
      · have := counted_one S (writeRow T E S T.all r none) (T.keyOf r) (fun k' hk' => by rw [write_here, if_neg hk'])
        rw [write_here, if_pos rfl] at this
        simp only [Option.isSome_some, if_true] at this
        rw [← hinc] at this
        exact this
    have clash : ∀ k, inWay T E S r T.all = some k → First T (view T E S) r k ∧ ∃ k, Clash T (view T E S) r k := by
      intro k hw
      constructor
      · obtain ⟨n, j, i, h1, h2, h3, h4⟩ := inWay_some T E S r T.all k hw
        have h1' := h1
        rw [all_get] at h1
        cases hi : T.indexes[n]? with
        | none => rw [hi] at h1; simp at h1
        | some i' =>
          rw [hi] at h1
          simp only [Option.map_some, Option.some.injEq, Prod.mk.injEq] at h1
          obtain ⟨rfl, rfl⟩ := h1
          obtain ⟨x, hx, hf⟩ := (getUniq_iff hG.ents hi h2 r k).1 h3
          refine ⟨x, hx, .inr ⟨hv, n, i', hi, h2, hf, ?_⟩⟩
          intro m' hm' i'' hi'' hu'' k' x' hx'
          exact (getUniq_none hG.ents hi'' hu'' r).1 (h4 m' hm' m' i'' (by rw [all_get, hi'']; rfl) hu'') k' x' hx'
      · by_contra hno
        rw [(inWay_free hG.ents r).2 (hfree.2 hno)] at hw; simp at hw
    unfold insertRest
    cases m with
    | replace =>
      simp only
      obtain ⟨l, h1, h2, h3, h4, h5, h6⟩ := replace_end hT hE r hr hin S ⟨S, 0, 0⟩ (view T E S) hG.ents hG.base none 0 inc inc
        (fun _ _ => rfl) hv (.inl ⟨rfl, hcl⟩) (counted_refl _ _ rfl) hinc rfl
      refine ⟨h3, ⟨l, h1, fun k => by rw [h2 k, hit_clash _ _ _ hv], ?_⟩, h6⟩
      simp only [h4, h5, Nat.zero_add]
      rfl
    | plain =>
      simp only
      cases hw : inWay T E S r T.all with
      | none => exact wr hw (by simp)
      | some k => exact ⟨fun _ => rfl, fun h => absurd (clash k hw).2 h⟩
    | ignore =>
      simp only
      cases hw : inWay T E S r T.all with
      | none => exact wr hw (by simp)
      | some k => exact ⟨hG, ⟨fun _ => rfl, fun h => absurd (clash k hw).2 h⟩, counted_refl _ _ rfl⟩
    | onDup as =>
      simp only
      obtain ⟨a1, a2, a3⟩ := hd as rfl
      cases hw : inWay T E S r T.all with
      | none => exact wr hw (by simp)
      | some k => exact dup_refines hT hE hG as r a1 a2 a3 (clash k hw).1
  unfold insertRow
  rcases getPrimary_cases T E S (T.keyOf r) (T.idxFields T.indexes) r with ⟨h, hin, hv⟩ | ⟨h, hin, hh, hv⟩ | ⟨h, hin, ⟨e, hh, hdd⟩, hv⟩ | ⟨h, hin, ⟨e, hh, hdd⟩, hv⟩
  · rw [h]
    exact ⟨hG, ⟨fun h' => by rw [hkey, hin] at h'; simp at h', fun _ => rfl⟩, counted_refl _ _ rfl⟩
  · rw [h]
    exact rest 1 hin hv (fun _ => hh) (by simp [hh])
  · rw [h]
    refine rest 0 hin hv (fun hcs => ?_) (by simp [hh])
    have := hG.base.noexp (hT.cstore hcs) _ _ hin hh
    subst this
    simp [Env.dead] at hdd
  · rw [h]
    clear rest
    have hcl : ∃ k, Clash T (view T E S) r k := ⟨T.keyOf r, _, hv, .inl rfl⟩
    have hf : E.inReg (T.pk.map r) = false → ∀ {p : Prop}, p := by rw [hkey, hin]; simp
    cases m with
    | plain => exact ⟨fun _ => ⟨fun _ => rfl, fun h => absurd hcl h⟩, fun h => hf h⟩
    | ignore => exact ⟨hG, ⟨fun _ => ⟨fun _ => rfl, fun h => absurd hcl h⟩, fun h => hf h⟩, counted_refl _ _ rfl⟩
    | onDup as =>
      obtain ⟨a1, a2, a3⟩ := hd as rfl
      have := dup_refines hT hE hG as r a1 a2 a3 (k := T.keyOf r) ⟨_, hv, .inl rfl⟩
      simp only
      cases ho : dupRow T E S as (T.keyOf r) r with
      | none => rw [ho] at this; exact ⟨fun _ => this, fun h => hf h⟩
      | some o => rw [ho] at this; exact ⟨this.1, ⟨fun _ => this.2.1, fun h => hf h⟩, this.2.2⟩
    | replace =>
      simp only
      generalize hx : rowOf T S (T.keyOf r) = x at hv
      have hkx : T.keyOf x = T.keyOf r := keyOf_view hT hG.base hv
      have hfsub : ∀ f ∈ T.idxFields T.indexes, f ∈ T.nonPk := by
        intro f hf
        rw [mem_idxFields] at hf
        obtain ⟨⟨i, hi, hf⟩, hp⟩ := hf
        exact (mem_nonPk T f).2 ⟨hT.idx i hi f hf, hp⟩
      have hrem : removeRow T S T.all (fun f => if f ∈ T.idxFields T.indexes then T.read S (T.keyOf r) f else r f) false =
          removeRow T S T.all x false := by
        have hag : ∀ f, f ∈ T.pk ∨ f ∈ T.idxFields T.indexes →
            (if f ∈ T.idxFields T.indexes then T.read S (T.keyOf r) f else r f) = x f := by
          intro f hf
          have := old_agree (T := T) S (T.keyOf r) (T.idxFields T.indexes) hfsub r f (hf.imp id .inl)
          rw [hx] at this
          rw [← this]
          by_cases h1 : f ∈ T.idxFields T.indexes
          · simp [h1]
          · have h2 := hf.resolve_right h1
            simp [h1, h2, ofKey_keyOf]
        have hko : T.keyOf (fun f => if f ∈ T.idxFields T.indexes then T.read S (T.keyOf r) f else r f) = T.keyOf x :=
          map_congr' fun f hf => hag f (.inl hf)
        apply removeRow_congr _ _ _ _ _ _ _ hko
        intro ji hji
        apply ekey_congr _ _ hko
        intro f hf
        apply hag
        by_cases hp : f ∈ T.pk
        · exact .inl hp
        · right; rw [mem_idxFields]; exact ⟨⟨ji.2, all_idx ji hji, hf⟩, hp⟩
      rw [hrem]
      have hE1 := remove_ents hG.ents x false hv hkx
      have hB1 := remove_base hG.base T.all x false
      have hh1 : ∀ k, (removeRow T S T.all x false).here k = S.here k := fun k => by rw [remove_here]; simp
      obtain ⟨l, h1, h2, h3, h4, h5, h6⟩ := replace_end hT hE r hr hin S ⟨removeRow T S T.all x false, 1, -1⟩
        ((view T E S).erase (T.keyOf r)) hE1 hB1 (some T.nonPk) 0 0 1
        (fun k hk => by unfold Tab.erase; rw [if_neg hk, remove_view_false]) (by simp [Tab.erase]) (.inr rfl)
        (counted_refl _ _ (funext hh1)) (by simp [hh1, hh]) (by simp)
      have hkl : T.keyOf r ∉ l := by
        rw [h2]; rintro ⟨y, hy, _⟩; simp [Tab.erase] at hy
      refine ⟨h3, ⟨fun _ => ⟨T.keyOf r :: l, List.nodup_cons.2 ⟨hkl, h1⟩, fun k => ?_, ?_⟩, fun h => hf h⟩, h6⟩
      · rw [List.mem_cons, h2 k, hit_clash _ _ _ (by simp [Tab.erase])]
        constructor
        · rintro (rfl | ⟨y, hy, h⟩)
          · exact ⟨x, hv, .inl rfl⟩
          · unfold Tab.erase at hy
            by_cases hk : k = T.keyOf r
            · rw [if_pos hk] at hy; simp at hy
            · rw [if_neg hk] at hy; exact ⟨y, hy, h⟩
        · rintro ⟨y, hy, h⟩
          by_cases hk : k = T.keyOf r
          · exact .inl hk
          · exact .inr ⟨y, by unfold Tab.erase; rw [if_neg hk]; exact hy, h⟩
      · simp only [h4, h5, List.length_cons]
        congr 2
        · funext k
          simp only [Tab.put, Tab.without, Tab.erase, List.mem_cons, hkey]
          by_cases a : k = T.keyOf r <;> by_cases b : k ∈ l <;> simp [a, b]
        · omega

/-! ### Statements -/

omit [DecidableEq V] in
theorem each_refines {α : Type} (step : Tab V → α → Option (Tab V × Nat) → Prop) (f : Store V → α → Option (Out V)) (l : List α)
    (h : ∀ a ∈ l, ∀ S, Good T E S → Refines T E S (step (view T E S) a) (f S a)) (o : Out V) (hG : Good T E o.store) :
    (each f l o = none → Rows step l (view T E o.store) none) ∧
    ∀ o', each f l o = some o' → ∃ n, o'.rows = o.rows + n ∧ Good T E o'.store ∧
      Rows step l (view T E o.store) (some (view T E o'.store, n)) ∧ Counted o.store o'.store (o'.inc - o.inc) := by
  induction l generalizing o with
  | nil =>
    refine ⟨by simp [each], ?_⟩
    intro o' ho
    simp only [each, Option.some.injEq] at ho
    subst ho
    exact ⟨0, rfl, hG, .nil _, by rw [Int.sub_self]; exact counted_refl _ _ rfl⟩
  | cons a l ih =>
    have h1 := h a List.mem_cons_self o.store hG
    rw [each]
    cases hf : f o.store a with
    | none =>
      rw [hf] at h1
      exact ⟨fun _ => .error h1, by simp⟩
    | some o1 =>
      rw [hf] at h1
      obtain ⟨g, s, c⟩ := h1
      obtain ⟨i1, i2⟩ := ih (fun b hb => h b (List.mem_cons_of_mem _ hb)) ⟨o1.store, o.rows + o1.rows, o.inc + o1.inc⟩ g
      refine ⟨fun hn => ?_, fun o' ho => ?_⟩
      · exact Rows.cons (res := none) s (i1 hn)
      · obtain ⟨n, e1, e2, e3, e4⟩ := i2 o' ho
        refine ⟨o1.rows + n, by rw [e1]; simp only; omega, e2, Rows.cons (res := some _) s e3, ?_⟩
        have := counted_trans c e4
        simp only at this
        convert this using 1
        omega

omit [DecidableEq V] in
theorem reads_dup (as : List (Assign V)) (f : Nat) (h : T.cstore = true → (∀ a ∈ as, a.field ∉ T.pk) →
    f ∈ T.pk ∨ f ∉ T.fields ∨ ∃ i ∈ T.indexes, f ∈ i.fields ∧ ∃ b ∈ as, b.field ∈ i.fields) :
    f ∈ T.pk ∨ f ∈ T.fieldIds as true [] ∨ f ∉ T.fields := by
  by_cases hp : f ∈ T.pk
  · exact .inl hp
  · by_cases hf : f ∈ T.fields
    · right; left
      unfold Table.fieldIds
      split
      · rename_i hb
        simp only [Bool.and_eq_true, Bool.not_eq_true'] at hb
        obtain ⟨i, hi, h1, b, hb1, hb2⟩ := ((h hb.2 (affectPk_false hb.1.1)).resolve_left hp).resolve_left (fun h => h hf)
        apply List.mem_append_left
        rw [mem_idxFields]
        refine ⟨⟨i, ?_, h1⟩, hp⟩
        obtain ⟨j, hj⟩ := List.mem_iff_getElem?.1 hi
        refine List.mem_map.2 ⟨(j, i), ?_, rfl⟩
        unfold Table.affected
        rw [hb.1.1, hb.1.2]
        simp only [Bool.or_self, Bool.false_eq_true, if_false]
        rw [List.mem_filter]
        refine ⟨(mem_all T j i).2 hj, ?_⟩
        rw [List.any_eq_true]
        refine ⟨b.field, hb2, ?_⟩
        rw [List.any_eq_true]
        exact ⟨b, hb1, by simp⟩
      · exact (mem_nonPk T f).2 ⟨hf, hp⟩
    · exact .inr (.inr hf)

omit [DecidableEq V] in
theorem reads_slots (as : List (Assign V)) (slots : List Nat) (f : Nat) (h : f ∈ slots) :
    f ∈ T.pk ∨ f ∈ T.fieldIds as false slots ∨ f ∉ T.fields := by
  by_cases hp : f ∈ T.pk
  · exact .inl hp
  · by_cases hf : f ∈ T.fields
    · right; left
      have hn := (mem_nonPk T f).2 ⟨hf, hp⟩
      unfold Table.fieldIds
      split
      · apply List.mem_append_right
        simp only [Bool.false_eq_true, if_false]
        rw [List.mem_filter]
        exact ⟨hn, by simpa using h⟩
      · exact hn
    · exact .inr (.inr hf)

theorem exec_refines (hT : T.Ok) (hE : E.Ok T) (hG : Good T E S) (s : Stmt V) (hs : s.Ok T E) :
    Refines T E S (fun res => Result T E (view T E S) res s) (exec T E S s) := by
  have fin : ∀ (spec : Option (Tab V × Nat) → Prop) (out : Option (Out V)),
      (out = none → spec none) → (∀ o', out = some o' → ∃ n, o'.rows = 0 + n ∧ Good T E o'.store ∧
      spec (some (view T E o'.store, n)) ∧ Counted S o'.store (o'.inc - 0)) → Refines T E S spec out := by
    intro spec out h1 h2
    cases out with
    | none => exact h1 rfl
    | some o' =>
      obtain ⟨n, e1, e2, e3, e4⟩ := h2 o' rfl
      refine ⟨e2, ?_, by simpa using e4⟩
      rw [e1, Nat.zero_add]; exact e3
  cases s with
  | insert m rs =>
    obtain ⟨h1, h2⟩ := hs
    have := each_refines (T := T) (E := E) (fun t r res => (E.inReg (T.pk.map r) = true → Inserted T t r res m) ∧
      (E.inReg (T.pk.map r) = false → res = some (t, 0))) (fun S r => insertRow T E S m r) rs (fun r hr S' hG' =>
        insert_refines hT hE hG' m r (h1 r hr) (fun as has => ⟨fun a ha => (h2 as has a ha).1,
          fun a ha f hf => reads_dup as f (fun hc hp => (h2 as has a ha).2.1 hc hp f hf), fun hp => by
            obtain ⟨a, ha, hap⟩ := affectPk_true hp
            exact (h2 as has a ha).2.2 hap⟩)) ⟨S, 0, 0⟩ hG
    exact fin _ _ this.1 this.2
  | update as slots cond bs =>
    obtain ⟨h1, h2⟩ := hs
    have := each_refines (T := T) (E := E) (Updated T as cond) (fun S k => updateRow T E S as false slots cond k fun _ => none) bs.flatten
      (fun k _ S' hG' => update_refines hT hE hG' as false slots cond k (fun _ => none) (fun a ha => (h1 a ha).1)
        (fun a ha f hf => reads_slots as slots f ((h1 a ha).2.2 f hf)) (fun f hf => reads_slots as slots f (h2 f hf))
        (fun hp => by
          obtain ⟨a, ha, hap⟩ := affectPk_true hp
          exact absurd hap (h1 a ha).2.1)) ⟨S, 0, 0⟩ hG
    exact fin _ _ this.1 this.2
  | delete slots cond ks =>
    have := each_refines (T := T) (E := E) (Deleted cond) (fun S k => some (deleteRow T E S slots cond k fun _ => none)) ks
      (fun k _ S' hG' => delete_refines hT hG' slots cond k hs) ⟨S, 0, 0⟩ hG
    exact fin _ _ this.1 this.2

end BaikalDB.Dml
