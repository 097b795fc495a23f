import Verif.Corr.Spec
import Mathlib.Tactic.Common
import Mathlib.Data.List.Perm.Basic
import Mathlib.Data.List.Nodup

namespace BaikalDB.Corr
open BaikalDB.Expr (EV)
open BaikalDB.Pred (Row noRow)
open Spec

variable {ρ κ : Type} [DecidableEq κ]

def allHold (cs : List (Conj ρ)) (o : ρ) (r : Row) : Bool := cs.all fun c => c.holds o r

theorem holds_iff (c : Conj ρ) (o : ρ) (r : Row) : c.holds o r = true ↔ c.val o r = some true := by
  simp [Conj.holds]

theorem allHold_iff (cs : List (Conj ρ)) (o : ρ) (r : Row) :
    allHold cs o r = true ↔ ∀ c ∈ cs, c.val o r = some true := by
  simp [allHold, holds_iff]

theorem allHold_append (cs ds : List (Conj ρ)) (o : ρ) (r : Row) :
    allHold (cs ++ ds) o r = (allHold cs o r && allHold ds o r) := by
  simp [allHold]

theorem filter_nil_conds (o : ρ) (l : List Row) : l.filter (allHold [] o) = l :=
  List.filter_eq_self.2 fun _ _ => rfl

theorem allHold_split (cs : List (Conj ρ)) (o : ρ) (r : Row) :
    (allHold (cs.filter fun c => c.outer) o r && allHold (cs.filter fun c => !c.outer) o r) = allHold cs o r := by
  rw [Bool.eq_iff_iff]
  simp only [Bool.and_eq_true, allHold_iff, List.mem_filter]
  constructor
  · rintro ⟨h1, h2⟩ c hc
    cases h : c.outer
    · exact h2 c ⟨hc, by simp [h]⟩
    · exact h1 c ⟨hc, h⟩
  · intro h
    exact ⟨fun c hc => h c hc.1, fun c hc => h c hc.1⟩

/-! ### Chains of nodes -/

theorem conjs_cons (n : Node ρ) (ns : List (Node ρ)) :
    conjs (n :: ns) = (match n with | .filter cs => cs | _ => []) ++ conjs ns := by
  cases n <;> rfl

theorem conjs_append (ns ms : List (Node ρ)) : conjs (ns ++ ms) = conjs ns ++ conjs ms := by
  simp [conjs]

theorem evalNodes_cons (o : ρ) (n : Node ρ) (ns : List (Node ρ)) (l : List Row) :
    evalNodes o (n :: ns) l = n.eval o (evalNodes o ns l) := rfl

theorem evalNodes_append (o : ρ) (ns ms : List (Node ρ)) (l : List Row) :
    evalNodes o (ns ++ ms) l = evalNodes o ns (evalNodes o ms l) := by
  simp [evalNodes]

theorem evalNodes_plain (o : ρ) {ns : List (Node ρ)} (h : ∀ n ∈ ns, Plain n) (l : List Row) :
    evalNodes o ns l = l.filter (allHold (conjs ns) o) := by
  induction ns with
  | nil => rw [show conjs ([] : List (Node ρ)) = [] from rfl, filter_nil_conds]; rfl
  | cons n ns ih =>
    have ih := ih fun m hm => h m (List.mem_cons_of_mem _ hm)
    have hn := h n List.mem_cons_self
    rw [evalNodes_cons, ih, conjs_cons]
    cases n with
    | filter cs =>
      show List.filter (allHold cs o) _ = _
      rw [List.filter_filter]
      congr 1
      funext r
      exact (allHold_append _ _ _ _).symm
    | sort f => exact hn.elim
    | limit off n => exact hn.elim
    | manager => rfl

theorem limit_id {off n : Nat} (h : off = 0 ∧ 0 < n) {l : List Row} (hl : l.length ≤ 1) : (l.drop off).take n = l := by
  obtain ⟨rfl, hn⟩ := h
  exact List.take_of_length_le (by simpa using by omega)

/-- What sorts and harmless limits leave. -/
theorem evalNodes_top (o : ρ) {ns : List (Node ρ)} {l : List Row} (hs : ∀ n ∈ ns, SortOk n)
    (hl : (∀ n ∈ ns, NoLimit n) ∨ ((∀ n ∈ ns, KeepsOne n) ∧ l.length ≤ 1)) :
    (evalNodes o ns l).Perm (l.filter (allHold (conjs ns) o)) := by
  induction ns with
  | nil => rw [show conjs ([] : List (Node ρ)) = [] from rfl, filter_nil_conds]; exact List.Perm.refl _
  | cons n ns ih =>
    have ih := ih (fun m hm => hs m (List.mem_cons_of_mem _ hm))
      (hl.imp (fun h m hm => h m (List.mem_cons_of_mem _ hm))
        (fun h => ⟨fun m hm => h.1 m (List.mem_cons_of_mem _ hm), h.2⟩))
    have hsn := hs n List.mem_cons_self
    rw [evalNodes_cons, conjs_cons]
    cases n with
    | filter cs =>
      refine (List.Perm.filter (allHold cs o) ih).trans (List.Perm.of_eq ?_)
      rw [List.filter_filter]
      congr 1
      funext r
      exact (allHold_append _ _ _ _).symm
    | sort f => exact (hsn _).trans ih
    | limit off n =>
      rcases hl with hl | ⟨hl, hlen⟩
      · exact (hl _ List.mem_cons_self).elim
      · have h1 : (evalNodes o ns l).length ≤ 1 := by
          rw [ih.length_eq]
          exact Nat.le_trans (List.length_filter_le _ _) hlen
        show (((evalNodes o ns l).drop off).take n).Perm _
        rw [limit_id (hl _ List.mem_cons_self) h1]
        exact ih
    | manager => exact ih

theorem liftNodes_append (b : Bool) (ns ms : List (Node ρ)) :
    liftNodes b (ns ++ ms) = ((liftNodes b ns).1 ++ (liftNodes b ms).1, (liftNodes b ns).2 ++ (liftNodes b ms).2) := by
  induction ns with
  | nil => simp [liftNodes]
  | cons n ns ih =>
    cases n with
    | filter cs => simp only [List.cons_append, liftNodes, ih]; split <;> simp
    | sort f => cases b <;> simp [liftNodes, ih]
    | limit off n => cases b <;> simp [liftNodes, ih]
    | manager => simp [liftNodes, ih]

theorem liftNodes_snd (b : Bool) (ns : List (Node ρ)) :
    (liftNodes b ns).2 = (conjs ns).filter fun c => c.outer := by
  induction ns with
  | nil => rfl
  | cons n ns ih =>
    rw [conjs_cons]
    cases n <;> simp [liftNodes, ih]

theorem liftNodes_conjs (b : Bool) (ns : List (Node ρ)) :
    conjs (liftNodes b ns).1 = (conjs ns).filter fun c => !c.outer := by
  induction ns with
  | nil => rfl
  | cons n ns ih =>
    rw [conjs_cons]
    cases n with
    | filter cs =>
      simp only [liftNodes, List.filter_append]
      split
      next h => rw [ih, List.isEmpty_iff.1 h, List.nil_append]
      next h => rw [conjs_cons, ih]
    | sort f => cases b <;> simp [liftNodes, ih, conjs_cons]
    | limit off n => cases b <;> simp [liftNodes, ih, conjs_cons]
    | manager => simp [liftNodes, ih, conjs_cons]

theorem liftNodes_plain (ns : List (Node ρ)) : ∀ n ∈ (liftNodes true ns).1, Plain n := by
  induction ns with
  | nil => simp [liftNodes]
  | cons n ns ih =>
    cases n with
    | filter cs =>
      simp only [liftNodes]
      split
      · exact ih
      · intro m hm
        rcases List.mem_cons.1 hm with rfl | hm
        · trivial
        · exact ih m hm
    | sort f => simpa [liftNodes] using ih
    | limit off n => simpa [liftNodes] using ih
    | manager =>
      intro m hm
      rcases List.mem_cons.1 hm with rfl | hm
      · trivial
      · exact ih m hm

/-- Taking nothing out changes nothing. -/
theorem liftNodes_same (o : ρ) {ns : List (Node ρ)} (h : ∀ c ∈ conjs ns, c.outer = false) (l : List Row) :
    evalNodes o (liftNodes false ns).1 l = evalNodes o ns l := by
  induction ns with
  | nil => rfl
  | cons n ns ih =>
    rw [conjs_cons] at h
    have ih := ih fun c hc => h c (List.mem_append_right _ hc)
    rw [evalNodes_cons, ← ih]
    cases n with
    | filter cs =>
      have hcs : cs.filter (fun c => !c.outer) = cs :=
        List.filter_eq_self.2 fun c hc => by simp [h c (List.mem_append_left _ hc)]
      simp only [liftNodes, hcs]
      split
      next he =>
        have := List.isEmpty_iff.1 he
        subst this
        simp [Node.eval]
      next => rfl
    | sort f => rfl
    | limit off n => rfl
    | manager => rfl

/-- Without aggregation: the rows that meet the conditions taken out are the rows of the subquery. -/
theorem liftNodes_perm (o : ρ) {ns : List (Node ρ)} (hs : ∀ n ∈ ns, SortOk n) (hl : LimitsOk ns) (l : List Row) :
    ((evalNodes o (liftNodes false ns).1 l).filter (allHold (liftNodes false ns).2 o)).Perm (evalNodes o ns l) := by
  induction ns with
  | nil => rw [show (liftNodes false ([] : List (Node ρ))).2 = [] from rfl, filter_nil_conds]; exact List.Perm.refl _
  | cons n ns ih =>
    have ih := ih (fun m hm => hs m (List.mem_cons_of_mem _ hm)) hl.1
    have hsn := hs n List.mem_cons_self
    have hln := hl.2
    rw [evalNodes_cons]
    cases n with
    | filter cs =>
      refine List.Perm.trans (List.Perm.of_eq ?_) (List.Perm.filter (allHold cs o) ih)
      have hlow : evalNodes o (liftNodes false (Node.filter cs :: ns)).1 l =
          (evalNodes o (liftNodes false ns).1 l).filter (allHold (cs.filter fun c => !c.outer) o) := by
        simp only [liftNodes]
        split
        next he => rw [List.isEmpty_iff.1 he, filter_nil_conds]
        next => rfl
      have hup : (liftNodes false (Node.filter cs :: ns)).2 = (cs.filter fun c => c.outer) ++ (liftNodes false ns).2 := rfl
      rw [hlow, hup, List.filter_filter, List.filter_filter]
      congr 1
      funext r
      rw [allHold_append, ← allHold_split cs]
      cases allHold (cs.filter fun c => c.outer) o r <;> cases allHold (cs.filter fun c => !c.outer) o r <;>
        cases allHold (liftNodes false ns).2 o r <;> rfl
    | sort f =>
      exact ((hsn _).filter _).trans (ih.trans (hsn _).symm)
    | limit off n =>
      rcases hln with hln | hln
      · exact hln.elim
      · have he : (liftNodes false ns).2 = [] := by
          rw [liftNodes_snd, List.filter_eq_nil_iff]
          intro c hc
          simp [hln c hc]
        show (((evalNodes o (liftNodes false ns).1 l).drop off).take n |>.filter (allHold (liftNodes false ns).2 o)).Perm _
        rw [he, liftNodes_same o hln l, filter_nil_conds]
        exact List.Perm.refl _
    | manager => exact ih

/-! ### Grouping -/

theorem mem_groupRows {α β : Type} [DecidableEq β] (k : α → β) (l : List α) (m : List α) :
    m ∈ groupRows k l ↔ ∃ x ∈ l, m = l.filter fun a => k a = k x := by
  simp only [groupRows, List.mem_map, List.mem_eraseDups]
  constructor
  · rintro ⟨v, ⟨x, hx, rfl⟩, rfl⟩; exact ⟨x, hx, rfl⟩
  · rintro ⟨x, hx, rfl⟩; exact ⟨k x, ⟨x, hx, rfl⟩, rfl⟩

omit [DecidableEq κ] in
theorem slotKey_eq_iff (key : EV → κ) (gs : List Nat) (r r' : Row) :
    slotKey key gs r = slotKey key gs r' ↔ ∀ s ∈ gs, key (r s) = key (r' s) := by
  simp [slotKey]

theorem head_mem {α : Type} {l : List α} {p : α → Bool} {x d : α} (hx : x ∈ l) (hp : p x = true) :
    (l.filter p).headD d ∈ l ∧ p ((l.filter p).headD d) = true := by
  have hm : x ∈ l.filter p := List.mem_filter.2 ⟨hx, hp⟩
  cases h : l.filter p with
  | nil => rw [h] at hm; cases hm
  | cons a t =>
    have : a ∈ l.filter p := by rw [h]; exact List.mem_cons_self
    simpa using List.mem_filter.1 this

theorem nodup_eraseDups {β : Type} [BEq β] [LawfulBEq β] (l : List β) : l.eraseDups.Nodup := by
  induction hn : l.length using Nat.strongRecOn generalizing l with
  | ind n ih =>
    cases l with
    | nil => simp
    | cons a t =>
      rw [List.eraseDups_cons, List.nodup_cons]
      refine ⟨fun h => ?_, ih _ ?_ _ rfl⟩
      · have := List.mem_filter.1 (List.mem_eraseDups.1 h)
        simp at this
      · subst hn
        exact Nat.lt_succ_of_le (List.length_filter_le _ _)

/-- The groups of a list of groups, by a key of their first elements: each alone. -/
theorem merge_groups {β : Type} [DecidableEq β] (k : Row → β) (rows : List Row) {x : Row} (hx : x ∈ rows) :
    (((groupRows k rows).map fun m => (m.headD noRow, m)).filter
        fun p => k p.1 = k x) =
      [((rows.filter fun a => k a = k x).headD noRow,
        rows.filter fun a => k a = k x)] := by
  simp only [groupRows, List.map_map, List.filter_map]
  have hnd : ((rows.map k).eraseDups).Nodup := nodup_eraseDups _
  have hmem : k x ∈ (rows.map k).eraseDups :=
    List.mem_eraseDups.2 (List.mem_map_of_mem hx)
  have hkey : ∀ v ∈ (rows.map k).eraseDups,
      k ((rows.filter fun a => k a = v).headD noRow) = v := by
    intro v hv
    obtain ⟨y, hy, rfl⟩ := List.mem_map.1 (List.mem_eraseDups.1 hv)
    have := (head_mem (d := noRow) (p := fun a => decide (k a = k y)) hy (by simp)).2
    simpa using this
  generalize (rows.map k).eraseDups = vs at *
  have hf : vs.filter ((fun p : Row × List Row => decide (k p.1 = k x)) ∘
      (fun m : List Row => (m.headD noRow, m)) ∘ fun v => rows.filter fun a => k a = v) =
      [k x] := by
    rw [List.filter_congr (q := fun v => decide (v = k x))]
    · clear hkey
      induction vs with
      | nil => cases hmem
      | cons v vs ih =>
        rw [List.nodup_cons] at hnd
        by_cases h : v = k x
        · rw [List.filter_cons_of_pos (by simp [h]), h, List.filter_eq_nil_iff.2]
          intro w hw hwe
          have : w = k x := by simpa using hwe
          exact hnd.1 (by rw [h, ← this]; exact hw)
        · rw [List.filter_cons_of_neg (by simp [h])]
          exact ih hnd.2 ((List.mem_cons.1 hmem).resolve_left fun e => h e.symm)
    · intro v hv
      simp only [Function.comp_apply, hkey v hv]
  rw [hf]
  rfl

/-- The rows of the pair of aggregation nodes. -/
theorem mem_agg_rows (key : EV → κ) (g : Agg) (hg : g.groups = g.merge) (rows : List Row) (r : Row) :
    r ∈ g.rows key rows ↔ (g.groups = [] ∧ rows = [] ∧ r = finish g.funcs noRow []) ∨
      ∃ x ∈ rows, r = finish g.funcs ((rows.filter fun a => slotKey key g.groups a = slotKey key g.groups x).headD noRow)
        (rows.filter fun a => slotKey key g.groups a = slotKey key g.groups x) := by
  have hparts : g.partials key rows = [] ↔ rows = [] := by
    constructor
    · intro h
      cases rows with
      | nil => rfl
      | cons x t =>
        have : (List.filter (fun a => slotKey key g.groups a = slotKey key g.groups x) (x :: t)) ∈
            groupRows (slotKey key g.groups) (x :: t) := (mem_groupRows _ _ _).2 ⟨x, List.mem_cons_self, rfl⟩
        rw [Agg.partials, List.map_eq_nil_iff] at h
        rw [h] at this
        cases this
    · rintro rfl; rfl
  unfold Agg.rows Agg.merged
  by_cases h : g.merge = [] ∧ g.partials key rows = []
  · rw [if_pos h]
    have hr := hparts.1 h.2
    subst hr
    simp [hg, h.1]
  · rw [if_neg h]
    have h' : ¬ (g.groups = [] ∧ rows = []) := fun e => h ⟨hg ▸ e.1, hparts.2 e.2⟩
    simp only [List.mem_map, mem_groupRows]
    constructor
    · rintro ⟨m, ⟨p, hp, rfl⟩, rfl⟩
      right
      obtain ⟨q, hq, rfl⟩ := List.mem_map.1 hp
      obtain ⟨x, hx, rfl⟩ := (mem_groupRows _ _ _).1 hq
      refine ⟨x, hx, ?_⟩
      have hk : slotKey key g.groups ((rows.filter fun a => slotKey key g.groups a = slotKey key g.groups x).headD noRow) =
          slotKey key g.groups x := by
        simpa using (head_mem (d := noRow) (p := fun a => decide (slotKey key g.groups a = slotKey key g.groups x)) hx
          (by simp)).2
      have := merge_groups (slotKey key g.groups) rows hx
      rw [← hg]
      simp only [hk]
      rw [Agg.partials, this]
      simp
    · rintro (⟨h1, h2, _⟩ | ⟨x, hx, rfl⟩)
      · exact (h' ⟨h1, h2⟩).elim
      · have hk : slotKey key g.groups ((rows.filter fun a => slotKey key g.groups a = slotKey key g.groups x).headD noRow) =
            slotKey key g.groups x := by
          simpa using (head_mem (d := noRow) (p := fun a => decide (slotKey key g.groups a = slotKey key g.groups x)) hx
            (by simp)).2
        refine ⟨_, ⟨((rows.filter fun a => slotKey key g.groups a = slotKey key g.groups x).headD noRow,
          rows.filter fun a => slotKey key g.groups a = slotKey key g.groups x),
          List.mem_map.2 ⟨_, (mem_groupRows _ _ _).2 ⟨x, hx, rfl⟩, rfl⟩, rfl⟩, ?_⟩
        have := merge_groups (slotKey key g.groups) rows hx
        rw [← hg]
        simp only [hk]
        rw [Agg.partials, this]
        simp

/-! ### The rows of a plan are those of the query -/

theorem clause_eq (o : ρ) (l : List Row) (n : Node ρ) : n.eval o l = clause o l n := by
  cases n with
  | filter cs =>
    simp only [Node.eval, clause]
    congr 1
    funext r
    rw [Bool.eq_iff_iff]
    simp [holds_iff]
  | sort f => rfl
  | limit off n =>
    simp only [Node.eval, clause]
    induction n with
    | zero => simp
    | succ n ih =>
      rw [List.take_add_one, ih, List.range_succ, List.filterMap_append]
      congr 1
      rw [List.getElem?_drop]
      cases h : l[off + n]? <;> simp [h]
  | manager => rfl

theorem clauses_eq (o : ρ) (ns : List (Node ρ)) (l : List Row) : evalNodes o ns l = clauses o ns l := by
  induction ns with
  | nil => rfl
  | cons n ns ih => rw [evalNodes_cons, ih, clause_eq]; rfl

theorem eraseDups_filter {β : Type} [BEq β] [LawfulBEq β] (p : β → Bool) (l : List β) :
    (l.filter p).eraseDups = l.eraseDups.filter p := by
  induction hn : l.length using Nat.strongRecOn generalizing l with
  | ind n ih =>
    cases l with
    | nil => simp
    | cons a t =>
      have hlt : (t.filter fun b => !b == a).length < n := by
        subst hn
        exact Nat.lt_succ_of_le (List.length_filter_le _ _)
      have ih' := ih _ hlt (t.filter fun b => !b == a) rfl
      rw [List.eraseDups_cons]
      by_cases hp : p a = true
      · rw [List.filter_cons_of_pos hp, List.filter_cons_of_pos hp, List.eraseDups_cons, ← ih', List.filter_filter,
          List.filter_filter]
        congr 3
        funext b
        exact Bool.and_comm _ _
      · rw [List.filter_cons_of_neg hp, List.filter_cons_of_neg hp, ← ih', List.filter_filter]
        congr 1
        apply List.filter_congr
        intro b _
        by_cases hb : b = a
        · subst hb
          simp [hp]
        · simp [hb]

theorem map_firsts {β : Type} [DecidableEq β] (k : Row → β) (l : List Row) :
    (l.map k).eraseDups = (firsts (fun a b => decide (k a = k b)) l).map k := by
  induction l with
  | nil => simp [firsts]
  | cons x t ih =>
    rw [List.map_cons, List.eraseDups_cons, eraseDups_filter, ih, firsts, List.map_cons, List.filter_map]
    congr 3

theorem nodup_firsts {β : Type} [DecidableEq β] (k : Row → β) (l : List Row) :
    ((firsts (fun a b => decide (k a = k b)) l).map k).Nodup := by
  rw [← map_firsts]
  exact nodup_eraseDups _

theorem head_firsts {β : Type} [DecidableEq β] (k : Row → β) (l : List Row) :
    ∀ x ∈ firsts (fun a b => decide (k a = k b)) l, (l.filter fun a => k a = k x).headD noRow = x := by
  induction l with
  | nil => simp [firsts]
  | cons y t ih =>
    intro x hx
    rw [firsts, List.mem_cons] at hx
    rcases hx with rfl | hx
    · simp
    · rw [List.mem_filter] at hx
      have : ¬ k y = k x := fun e => by simp [e] at hx
      rw [List.filter_cons_of_neg (by simpa using this)]
      exact ih x hx.1

theorem eraseDups_of_nodup {β : Type} [BEq β] [LawfulBEq β] {l : List β} (h : l.Nodup) : l.eraseDups = l := by
  induction l with
  | nil => simp
  | cons a t ih =>
    rw [List.nodup_cons] at h
    rw [List.eraseDups_cons, List.filter_eq_self.2, ih h.2]
    intro b hb
    have : b ≠ a := fun e => h.1 (e ▸ hb)
    simpa using this

theorem groupRows_of_nodup {α β : Type} [DecidableEq β] (k : α → β) {l : List α} (h : (l.map k).Nodup) :
    groupRows k l = l.map fun a => [a] := by
  unfold groupRows
  rw [eraseDups_of_nodup h, List.map_map]
  induction l with
  | nil => rfl
  | cons a t ih =>
    rw [List.map_cons, List.nodup_cons] at h
    rw [List.map_cons, List.map_cons]
    have ih := ih h.2
    congr 1
    · simp only [Function.comp_apply]
      rw [List.filter_cons_of_pos (by simp), List.filter_eq_nil_iff.2]
      intro b hb e
      exact h.1 (by rw [← (by simpa using e : k b = k a)]; exact List.mem_map_of_mem hb)
    · rw [← ih]
      apply List.map_congr_left
      intro b hb
      simp only [Function.comp_apply]
      rw [List.filter_cons_of_neg]
      intro e
      exact h.1 (by rw [(by simpa using e : k a = k b)]; exact List.mem_map_of_mem hb)

theorem agg_rows_eq (key : EV → κ) (g : Agg) (hg : g.groups = g.merge) (l : List Row) :
    g.rows key l = aggregated key g.groups g.funcs l := by
  have hsame : sameGroup key g.groups = fun a b => decide (slotKey key g.groups a = slotKey key g.groups b) := by
    funext a b
    simp only [sameGroup, slotKey_eq_iff]
  have hparts : g.partials key l = (firsts (fun a b => decide (slotKey key g.groups a = slotKey key g.groups b)) l).map
      fun x => (x, l.filter fun a => slotKey key g.groups a = slotKey key g.groups x) := by
    unfold Agg.partials groupRows
    rw [map_firsts (slotKey key g.groups) l, List.map_map, List.map_map]
    apply List.map_congr_left
    intro x hx
    simp only [Function.comp_apply]
    rw [head_firsts (slotKey key g.groups) l x hx]
  have hnil : g.partials key l = [] ↔ l = [] := by
    rw [hparts]
    cases l <;> simp [firsts]
  unfold Agg.rows Agg.merged aggregated
  by_cases h : g.groups = [] ∧ l = []
  · rw [if_pos ⟨hg ▸ h.1, hnil.2 h.2⟩, if_pos h]
    rfl
  · rw [if_neg (fun e => h ⟨hg.trans e.1, hnil.1 e.2⟩), if_neg h, groupRows_of_nodup, hparts, List.map_map, List.map_map, hsame]
    · apply List.map_congr_left
      intro x _
      funext s
      simp [finish]
    · rw [hparts, List.map_map, ← hg]
      show ((firsts _ l).map (slotKey key g.groups)).Nodup
      exact nodup_firsts _ _

theorem plan_rows_eq (key : EV → κ) (p : Plan ρ) (hg : ∀ g, p.agg = some g → g.groups = g.merge) (o : ρ) :
    p.rows key o = Spec.rows key p o := by
  unfold Plan.rows Spec.rows
  cases h : p.agg with
  | none => simp only [Option.elim, clauses_eq]
  | some g => simp only [Option.elim, clauses_eq, agg_rows_eq key g (hg g h)]

/-! ### Group expressions added -/

theorem mem_addSlots {ids ss : List Nat} (hn : ∀ s ∈ ss, slotId s ∉ ids)
    (hd : ∀ s ∈ ss, ∀ t ∈ ss, slotId s = slotId t → s = t) (s : Nat) : s ∈ addSlots ids ss ↔ s ∈ ss := by
  suffices h : ∀ (ss ids : List Nat), (∀ s ∈ ss, ∀ t ∈ ss, slotId s = slotId t → s = t) →
      ∀ s, (s ∈ addSlots ids ss ↔ s ∈ ss ∧ slotId s ∉ ids) by
    rw [h ss ids hd s]
    exact ⟨fun e => e.1, fun e => ⟨e, hn s e⟩⟩
  clear hn hd s ids ss
  intro ss
  induction ss with
  | nil => simp [addSlots]
  | cons a ss ih =>
    intro ids hd s
    have hd' : ∀ s ∈ ss, ∀ t ∈ ss, slotId s = slotId t → s = t := fun s hs t ht =>
      hd s (List.mem_cons_of_mem _ hs) t (List.mem_cons_of_mem _ ht)
    simp only [addSlots]
    split
    next h =>
      rw [ih ids hd']
      have h' : slotId a ∈ ids := by simpa using h
      constructor
      · rintro ⟨h1, h2⟩; exact ⟨List.mem_cons_of_mem _ h1, h2⟩
      · rintro ⟨h1, h2⟩
        rcases List.mem_cons.1 h1 with rfl | h1
        · exact (h2 h').elim
        · exact ⟨h1, h2⟩
    next h =>
      have h' : slotId a ∉ ids := by simpa using h
      rw [List.mem_cons, ih _ hd']
      constructor
      · rintro (rfl | ⟨h1, h2⟩)
        · exact ⟨List.mem_cons_self, h'⟩
        · exact ⟨List.mem_cons_of_mem _ h1, fun e => h2 (List.mem_cons_of_mem _ e)⟩
      · rintro ⟨h1, h2⟩
        rcases List.mem_cons.1 h1 with rfl | h1
        · exact Or.inl rfl
        · by_cases he : slotId s = slotId a
          · exact Or.inl (hd s (List.mem_cons_of_mem _ h1) a List.mem_cons_self he)
          · exact Or.inr ⟨h1, fun e => (List.mem_cons.1 e).elim he h2⟩

theorem mem_addGroups {g : Agg} {cs : List (Conj ρ)} (h : NoClash g (cs.flatMap Conj.eqSlots)) (s : Nat) :
    s ∈ (g.addGroups cs).groups ↔ s ∈ g.groups ∨ ∃ c ∈ cs, s ∈ c.eqSlots := by
  show s ∈ g.groups ++ addSlots _ _ ↔ _
  rw [List.mem_append, mem_addSlots]
  · simp [List.mem_flatMap]
  · intro s hs hm
    obtain ⟨f, hf, he⟩ := List.mem_map.1 hm
    exact h.1 s hs f hf he.symm
  · exact fun s hs t ht e => h.2 s hs t ht e

end BaikalDB.Corr
