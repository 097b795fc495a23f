import Verif.Tso.Model
import Mathlib.Tactic.Common
/-
C12, C13: the timestamp oracle never hands out the same timestamp twice.
-/
namespace BaikalDB.Tso

namespace Spec

/-- The 64-bit timestamps of a granted range: clients compute `(physical << 18) + logical` and count up
(src/session/binlog_context.cpp L114, src/store/store.cpp L2422). -/
def Covers (x : Issue) (v : Int) : Prop := ∃ j, 0 ≤ j ∧ j < x.count ∧ v = x.phys * 262144 + x.start + j

/-- All timestamps of `x` are below all timestamps of `y`. -/
def Below (x y : Issue) : Prop := ∀ v w, Covers x v → Covers y w → v < w

/-- Executions the guarantee is about.  Excluded are exactly:
* a request whose loop continues after its node has stopped being leader (`attempt` needs `_is_leader`),
* requests with a negative count,
* a node whose on_leader_start thread sets `_is_leader` after leadership was lost,
* operator resets that are forced, that do not move the clock forward, whose save point is below the new time, or that
  overlap with another change in flight.
Each exclusion is necessary, see the counterexamples. -/
def careful (s : Sys) : Act → Prop
  | .attempt i c => 0 < c ∧ (s.nodes i).flag = true
  | .tick i _ => (s.nodes i).role = some s.term →
      (∀ e ∈ s.pend, e.kind = .update) ∧ ∀ x ∈ s.log.drop (s.nodes i).applied, x.2.kind = .update
  | .reset i f p l sv => (s.nodes i).role = some s.term →
      f = false ∧ 0 ≤ l ∧ p ≤ sv ∧ (s.nodes i).obj.phys < p ∧ s.pend = [] ∧ (s.nodes i).applied = s.log.length
  | .flagUp i => (s.nodes i).role ≠ none
  | _ => True

/-- Careful executions. -/
inductive Run : Sys → Sys → Prop where
  | refl (s) : Run s s
  | step {s s' s'' a} : Run s s' → careful s' a → step s' a = some s'' → Run s s''

end Spec
open Spec

/-! ### The replicated state -/

def applyE (o : Obj) (x : Nat × Entry) : Obj := (applyEntry o x.2).2

/-- State after replaying a log from scratch. -/
def canon (l : List (Nat × Entry)) : Obj := l.foldl applyE Obj.init

def Sane (e : Entry) : Prop := e.phys ≤ e.save ∧ 0 ≤ e.logical ∧ e.kind ≠ .reset true

theorem applyEntry_eq {o : Obj} {e : Entry} (h : e.kind ≠ .reset true) :
    applyEntry o e = if e.save < o.save ∨ e.phys < o.phys then (false, o) else (true, ⟨e.phys, e.logical, e.save⟩) := by
  unfold applyEntry
  cases hk : e.kind with
  | update => rfl
  | reset f =>
    cases f with
    | true => exact absurd hk h
    | false => simp [resetTso]

theorem applyE_mono {o : Obj} {x : Nat × Entry} (h : Sane x.2) : o.phys ≤ (applyE o x).phys ∧ o.save ≤ (applyE o x).save := by
  unfold applyE; rw [applyEntry_eq h.2.2]
  split
  · simp
  · simp; omega

theorem applyE_phys_le_save {o : Obj} {x : Nat × Entry} (h : Sane x.2) (ho : o.phys ≤ o.save) :
    (applyE o x).phys ≤ (applyE o x).save := by
  unfold applyE; rw [applyEntry_eq h.2.2]
  split
  · exact ho
  · exact h.1

/-- A node that lost part of its state (snapshot) stays on the safe side of the replicated state. -/
theorem applyE_sim {c o : Obj} {x : Nat × Entry} (h : Sane x.2) (h1 : c.save ≤ o.save) (h2 : o.phys ≤ c.phys) :
    (applyE c x).save ≤ (applyE o x).save ∧ (applyE o x).phys ≤ (applyE c x).phys := by
  unfold applyE; rw [applyEntry_eq h.2.2, applyEntry_eq h.2.2]
  split <;> split <;> simp <;> omega

theorem foldl_mono : ∀ (l : List (Nat × Entry)) (o : Obj), (∀ x ∈ l, Sane x.2) →
    o.phys ≤ (l.foldl applyE o).phys ∧ o.save ≤ (l.foldl applyE o).save := by
  intro l
  induction l with
  | nil => intro o _; simp
  | cons x l ih =>
    intro o h
    have h1 := applyE_mono (o := o) (h x (by simp))
    have h2 := ih (applyE o x) (fun y hy => h y (by simp [hy]))
    simp only [List.foldl_cons]; omega

theorem canon_append (l m : List (Nat × Entry)) : canon (l ++ m) = m.foldl applyE (canon l) := by
  unfold canon; rw [List.foldl_append]

theorem canon_mono {l m : List (Nat × Entry)} (h : ∀ x ∈ m, Sane x.2) :
    (canon l).phys ≤ (canon (l ++ m)).phys ∧ (canon l).save ≤ (canon (l ++ m)).save := by
  rw [canon_append]; exact foldl_mono m _ h

theorem canon_phys_le_save : ∀ {l : List (Nat × Entry)}, (∀ x ∈ l, Sane x.2) → (canon l).phys ≤ (canon l).save := by
  have : ∀ (l : List (Nat × Entry)) (o : Obj), o.phys ≤ o.save → (∀ x ∈ l, Sane x.2) →
      (l.foldl applyE o).phys ≤ (l.foldl applyE o).save := by
    intro l
    induction l with
    | nil => intro o ho _; exact ho
    | cons x l ih =>
      intro o ho h
      exact ih _ (applyE_phys_le_save (h x (by simp)) ho) (fun y hy => h y (by simp [hy]))
  intro l h
  exact this l _ (by simp [Obj.init]) h

theorem canon_nonneg {l : List (Nat × Entry)} (h : ∀ x ∈ l, Sane x.2) : 0 ≤ (canon l).phys ∧ 0 ≤ (canon l).save := by
  have := foldl_mono l Obj.init h
  simpa [canon, Obj.init] using this

/-- Entries of terms before `t`. -/
def before (l : List (Nat × Entry)) (t : Nat) : List (Nat × Entry) := l.filter (fun x => x.1 < t)

theorem before_append (l m : List (Nat × Entry)) (t : Nat) : before (l ++ m) t = before l t ++ before m t := by
  simp [before]

theorem mem_before {l : List (Nat × Entry)} {t : Nat} {x : Nat × Entry} (h : x ∈ before l t) : x ∈ l :=
  (List.mem_filter.1 h).1

theorem before_all {l : List (Nat × Entry)} {t : Nat} (h : ∀ x ∈ l, x.1 < t) : before l t = l := by
  unfold before; rw [List.filter_eq_self]; intro x hx; simpa using h x hx

theorem before_none {l : List (Nat × Entry)} {t : Nat} (h : ∀ x ∈ l, t ≤ x.1) : before l t = [] := by
  unfold before; rw [List.filter_eq_nil_iff]; intro x hx; have := h x hx; simp; omega

/-- In a log sorted by term, earlier terms are a prefix. -/
theorem before_prefix : ∀ {l : List (Nat × Entry)}, l.Pairwise (fun a b => a.1 ≤ b.1) → ∀ {t t' : Nat}, t ≤ t' →
    ∃ m, before l t' = before l t ++ m ∧ ∀ x ∈ m, x ∈ l := by
  intro l
  induction l with
  | nil => intro _ t t' _; exact ⟨[], by simp [before], by simp⟩
  | cons a l ih =>
    intro h t t' ht
    rw [List.pairwise_cons] at h
    by_cases ha : a.1 < t
    · obtain ⟨m, h1, h2⟩ := ih h.2 ht
      refine ⟨m, ?_, fun x hx => by simp [h2 x hx]⟩
      have h1' : l.filter (fun x => decide (x.1 < t')) = l.filter (fun x => decide (x.1 < t)) ++ m := h1
      simp [before, ha, show a.1 < t' by omega, h1']
    · have : before (a :: l) t = [] := before_none (by
        intro x hx
        rcases List.mem_cons.1 hx with rfl | hx
        · omega
        · have := h.1 x hx; omega)
      exact ⟨before (a :: l) t', by rw [this]; rfl, fun x hx => mem_before hx⟩

theorem canon_before_mono {l : List (Nat × Entry)} (hs : l.Pairwise (fun a b => a.1 ≤ b.1)) (hl : ∀ x ∈ l, Sane x.2)
    {t t' : Nat} (ht : t ≤ t') :
    (canon (before l t)).phys ≤ (canon (before l t')).phys ∧ (canon (before l t)).save ≤ (canon (before l t')).save := by
  obtain ⟨m, h1, h2⟩ := before_prefix hs ht
  rw [h1]; exact canon_mono (fun x hx => hl x (h2 x hx))

/-! ### The invariant -/

/-- Proposals of term `t` that node `i` has not applied yet. -/
def own (s : Sys) (i : Nat) (t : Nat) : List Entry :=
  ((s.log.drop (s.nodes i).applied).filter (fun x => x.1 = t)).map (·.2) ++ (if t = s.term then s.pend else [])

def LexLe (p l p' l' : Int) : Prop := p < p' ∨ (p = p' ∧ l ≤ l')

structure NodeInv (s : Sys) (i : Nat) : Prop where
  app : (s.nodes i).applied ≤ s.log.length
  save : (canon (s.log.take (s.nodes i).applied)).save ≤ (s.nodes i).obj.save
  phys : (s.nodes i).obj.phys ≤ (canon (s.log.take (s.nodes i).applied)).phys
  logical : 0 ≤ (s.nodes i).obj.logical

structure RoleInv (s : Sys) (i t : Nat) : Prop where
  le : t ≤ s.term
  taken : ∀ x ∈ s.log.take (s.nodes i).applied, x.1 ≤ t
  dropped : ∀ x ∈ s.log.drop (s.nodes i).applied, t ≤ x.1
  one : (own s i t).length ≤ 1
  start : (s.nodes i).starting = some .waiting → (∀ x ∈ s.log.take (s.nodes i).applied, x.1 < t) ∧
    ∀ e ∈ own s i t, e.kind = .update ∧ (s.nodes i).obj.save < e.phys
  serve : (s.nodes i).starting ≠ some .waiting → (canon (before s.log t)).save < (s.nodes i).obj.phys ∧
    ∀ e ∈ own s i t, (s.nodes i).obj.phys < e.phys ∧ (e.kind = .update → (s.nodes i).wait = true)

structure IssueInv (s : Sys) (x : Issue) (t : Nat) : Prop where
  term : x.term = some t
  le : t ≤ s.term
  low : (canon (before s.log t)).save < x.phys
  high : x.phys ≤ (canon (before s.log (t + 1))).phys
  start : 0 ≤ x.start
  count : 0 < x.count
  max : x.start + x.count ≤ 262144
  leader : ∀ i, (s.nodes i).role = some t → LexLe x.phys (x.start + x.count) (s.nodes i).obj.phys (s.nodes i).obj.logical

/-- `y` was issued after `x` by the same leader: it starts at or above the end of `x`. -/
def After (y x : Issue) : Prop := y.term = x.term → LexLe x.phys (x.start + x.count) y.phys y.start

structure Inv (s : Sys) : Prop where
  sorted : s.log.Pairwise (fun a b => a.1 ≤ b.1)
  terms : ∀ x ∈ s.log, x.1 ≤ s.term
  sane : ∀ x ∈ s.log, Sane x.2
  saneP : ∀ e ∈ s.pend, Sane e
  node : ∀ i, NodeInv s i
  snap : ∀ x ∈ s.snaps, x.1 ≤ s.log.length ∧ (canon (s.log.take x.1)).save ≤ x.2
  role : ∀ i t, (s.nodes i).role = some t → RoleInv s i t
  uniq : ∀ i j t, (s.nodes i).role = some t → (s.nodes j).role = some t → i = j
  flag : ∀ i, (s.nodes i).flag = true → (s.nodes i).role ≠ none ∧ (s.nodes i).starting ≠ some .waiting
  issue : ∀ x ∈ s.issued, ∃ t, IssueInv s x t
  order : s.issued.Pairwise After

theorem inv_init : Inv Sys.init := by
  constructor <;> simp [Sys.init, Node.init, canon, Obj.init]
  intro i
  constructor <;> simp [canon, Obj.init]

theorem take_sane {s : Sys} (h : Inv s) (n : Nat) : ∀ x ∈ s.log.take n, Sane x.2 :=
  fun x hx => h.sane x (List.mem_of_mem_take hx)

/-- In-memory time never exceeds the save point known to the node. -/
theorem phys_le_save {s : Sys} (h : Inv s) (i : Nat) : (s.nodes i).obj.phys ≤ (s.nodes i).obj.save := by
  have h1 := (h.node i).phys
  have h2 := (h.node i).save
  have h3 := canon_phys_le_save (take_sane h (s.nodes i).applied)
  omega

theorem save_nonneg {s : Sys} (h : Inv s) (i : Nat) : 0 ≤ (s.nodes i).obj.save := by
  have h2 := (h.node i).save
  have h3 := (canon_nonneg (take_sane h (s.nodes i).applied)).2
  omega

@[simp] theorem setNode_same (f : Nat → Node) (i : Nat) (n : Node) : setNode f i n i = n := by simp [setNode]
theorem setNode_ne (f : Nat → Node) {i j : Nat} (n : Node) (h : j ≠ i) : setNode f i n j = f j := by simp [setNode, h]

theorem inv_admitted {s : Sys} (h : Inv s) (ad : List (Nat × Int)) : Inv { s with admitted := ad } := by
  obtain ⟨a, b, c, d, e, f, g, u, k, l, m⟩ := h
  exact ⟨a, b, c, d, fun i => ⟨(e i).1, (e i).2, (e i).3, (e i).4⟩, f,
    fun i t ht => ⟨(g i t ht).1, (g i t ht).2, (g i t ht).3, (g i t ht).4, (g i t ht).5, (g i t ht).6⟩, u, k,
    fun x hx => by
      obtain ⟨t, ht⟩ := l x hx
      exact ⟨t, ht.1, ht.2, ht.3, ht.4, ht.5, ht.6, ht.7, ht.8⟩, m⟩

/-- Steps that change one node only. -/
theorem inv_setNode {s : Sys} (h : Inv s) (i : Nat) (n : Node)
    (hn : NodeInv { s with nodes := setNode s.nodes i n } i)
    (hrole : n.role = none ∨ n.role = (s.nodes i).role)
    (hr : ∀ t, n.role = some t → RoleInv { s with nodes := setNode s.nodes i n } i t)
    (hf : n.flag = true → n.role ≠ none ∧ n.starting ≠ some .waiting)
    (hx : ∀ t, n.role = some t → ∀ x ∈ s.issued, x.term = some t →
      LexLe x.phys (x.start + x.count) n.obj.phys n.obj.logical) :
    Inv { s with nodes := setNode s.nodes i n } := by
  have hro : ∀ j t, (setNode s.nodes i n j).role = some t → (s.nodes j).role = some t := by
    intro j t hj
    by_cases hji : j = i
    · subst hji
      rw [setNode_same] at hj
      rcases hrole with e | e
      · rw [e] at hj; cases hj
      · rw [← e]; exact hj
    · rw [setNode_ne _ _ hji] at hj; exact hj
  refine ⟨h.sorted, h.terms, h.sane, h.saneP, ?_, h.snap, ?_, ?_, ?_, ?_, h.order⟩
  · intro j
    by_cases hji : j = i
    · subst hji; exact hn
    · have := h.node j
      constructor <;> simp only [setNode_ne _ _ hji]
      exacts [this.app, this.save, this.phys, this.logical]
  · intro j t hj
    by_cases hji : j = i
    · subst hji; simp only [setNode_same] at hj; exact hr t hj
    · have hj' := hj
      simp only [setNode_ne _ _ hji] at hj'
      have r := h.role j t hj'
      have ho : own { s with nodes := setNode s.nodes i n } j t = own s j t := by
        simp only [own, setNode_ne _ _ hji]
      constructor <;> simp only [ho, setNode_ne _ _ hji]
      exacts [r.le, r.taken, r.dropped, r.one, r.start, r.serve]
  · intro j k t hj hk; exact h.uniq j k t (hro j t hj) (hro k t hk)
  · intro j hj
    by_cases hji : j = i
    · subst hji; simp only [setNode_same] at hj ⊢; exact hf hj
    · simp only [setNode_ne _ _ hji] at hj ⊢; exact h.flag j hj
  · intro x hxm
    obtain ⟨t, ht⟩ := h.issue x hxm
    refine ⟨t, ht.term, ht.le, ht.low, ht.high, ht.start, ht.count, ht.max, ?_⟩
    intro j hj
    by_cases hji : j = i
    · subst hji; simp only [setNode_same] at hj ⊢; exact hx t hj x hxm ht.term
    · simp only [setNode_ne _ _ hji] at hj ⊢; exact ht.leader j hj

/-- Issues of the term a node leads are below the node's clock. -/
theorem issue_le {s : Sys} (h : Inv s) {i t : Nat} (hr : (s.nodes i).role = some t) {x : Issue} (hx : x ∈ s.issued)
    (ht : x.term = some t) : LexLe x.phys (x.start + x.count) (s.nodes i).obj.phys (s.nodes i).obj.logical := by
  obtain ⟨t', h'⟩ := h.issue x hx
  have : t' = t := by have := h'.term; rw [ht] at this; simpa using this.symm
  subst this
  exact h'.leader i hr

theorem inv_attempt {s s' : Sys} (h : Inv s) {i : Nat} {c : Int} (hc : careful s (.attempt i c))
    (hs : step s (.attempt i c) = some s') : Inv s' := by
  obtain ⟨hc0, hfl⟩ := hc
  simp only [step] at hs
  split at hs
  case isFalse => cases hs
  case isTrue hmem =>
    unfold genTry at hs
    split at hs
    · rename_i p l o heq
      split at heq
      case isFalse => cases heq
      case isTrue hp =>
        split at heq
        case isFalse => cases heq
        case isTrue hlt =>
          simp only [Prod.mk.injEq, Option.some.injEq] at heq
          obtain ⟨⟨rfl, rfl⟩, rfl⟩ := heq
          cases hs
          obtain ⟨hro, hst⟩ := h.flag i hfl
          obtain ⟨t, hr⟩ := Option.ne_none_iff_exists'.1 hro
          have R := h.role i t hr
          have N := h.node i
          have hx0 := fun x hx ht => issue_le h hr (x := x) hx ht
          have I1 := inv_setNode h i { s.nodes i with obj := { (s.nodes i).obj with logical := (s.nodes i).obj.logical + c } }
            (by constructor <;> simp only [setNode_same]
                exacts [N.app, N.save, N.phys, by have := N.logical; omega])
            (.inr rfl)
            (by
              intro t' ht'
              simp only [hr, Option.some.injEq] at ht'; subst ht'
              constructor <;> simp only [own, setNode_same]
              exacts [R.le, R.taken, R.dropped, R.one, R.start, R.serve])
            (fun hf => h.flag i hf)
            (by
              intro t' ht' x hx hxt
              simp only [hr, Option.some.injEq] at ht'; subst ht'
              rcases hx0 x hx hxt with h1 | ⟨h1, h2⟩
              · exact .inl h1
              · exact .inr ⟨h1, by simp only []; omega⟩)
          have I2 := inv_admitted I1 (s.admitted.erase (i, c))
          obtain ⟨a1, a2, a3, a4, a5, a6, a7, a8, a9, a10, a11⟩ := I2
          refine ⟨a1, a2, a3, a4, fun j => ⟨(a5 j).1, (a5 j).2, (a5 j).3, (a5 j).4⟩, a6,
            fun j t ht => ⟨(a7 j t ht).1, (a7 j t ht).2, (a7 j t ht).3, (a7 j t ht).4, (a7 j t ht).5, (a7 j t ht).6⟩,
            a8, a9, ?_, ?_⟩
          · intro x hx
            rcases List.mem_cons.1 hx with rfl | hx
            · refine ⟨t, rfl.trans hr, R.le, (R.serve hst).1, ?_, N.logical, hc0, ?_, ?_⟩
              · have h1 := N.phys
                have h2 : before s.log (t + 1) = s.log.take (s.nodes i).applied ++
                    before (s.log.drop (s.nodes i).applied) (t + 1) := by
                  conv => lhs; rw [← List.take_append_drop (s.nodes i).applied s.log, before_append]
                  rw [before_all (fun x hx => by have := R.taken x hx; omega)]
                have h3 := (canon_mono (l := s.log.take (s.nodes i).applied)
                  (m := before (s.log.drop (s.nodes i).applied) (t + 1))
                  (fun x hx => h.sane x (List.mem_of_mem_drop (mem_before hx)))).1
                simp only [h2]; omega
              · have : maxLogical = 262144 := rfl
                simp only []; omega
              · intro j hj
                have hji : j = i := a8 j i t hj (by simp [hr])
                subst hji
                simp only [setNode_same]
                exact .inr ⟨rfl, by omega⟩
            · obtain ⟨t', ht'⟩ := a10 x hx
              exact ⟨t', ht'.1, ht'.2, ht'.3, ht'.4, ht'.5, ht'.6, ht'.7, ht'.8⟩
          · refine List.pairwise_cons.2 ⟨?_, a11⟩
            intro x hx hxt
            exact hx0 x hx (by rw [← hxt]; exact hr)
    · cases hs; exact h

theorem own_nil_of {s : Sys} {i t : Nat} (h1 : (s.nodes i).applied = s.log.length) (h2 : t = s.term → s.pend = []) :
    own s i t = [] := by
  unfold own
  rw [h1, List.drop_length]
  by_cases h : t = s.term
  · simp [h, h2 h]
  · simp [h]

/-- Adding a proposal of the current leader. -/
theorem inv_propose {s : Sys} (h : Inv s) {i : Nat} {n : Node} {e : Entry} (he : Sane e)
    (hr : (s.nodes i).role = some s.term) (hown : own s i s.term = []) (hst : (s.nodes i).starting ≠ some .waiting)
    (hp : (s.nodes i).obj.phys < e.phys) (hw : e.kind = .update → n.wait = true)
    (hn : n.obj = (s.nodes i).obj ∧ n.applied = (s.nodes i).applied ∧ n.role = (s.nodes i).role ∧ n.flag = (s.nodes i).flag ∧
      n.starting = (s.nodes i).starting) :
    Inv { s with nodes := setNode s.nodes i n, pend := s.pend ++ [e] } := by
  obtain ⟨n1, n2, n3, n4, n5⟩ := hn
  have hother : ∀ j t, j ≠ i → (s.nodes j).role = some t → t ≠ s.term := by
    intro j t hj hjr ht
    subst ht
    exact hj (h.uniq j i _ hjr hr)
  refine ⟨h.sorted, h.terms, h.sane, ?_, ?_, h.snap, ?_, ?_, ?_, ?_, h.order⟩
  · intro x hx
    rcases List.mem_append.1 hx with hx | hx
    · exact h.saneP x hx
    · rw [List.mem_singleton.1 hx]; exact he
  · intro j
    have N := h.node j
    by_cases hji : j = i
    · subst hji
      constructor <;> simp only [setNode_same, n1, n2]
      exacts [N.app, N.save, N.phys, N.logical]
    · constructor <;> simp only [setNode_ne _ _ hji]
      exacts [N.app, N.save, N.phys, N.logical]
  · intro j t hj
    by_cases hji : j = i
    · subst hji
      simp only [setNode_same, n3, hr, Option.some.injEq] at hj
      subst hj
      have R := h.role j _ hr
      have ho : own { s with nodes := setNode s.nodes j n, pend := s.pend ++ [e] } j s.term = [e] := by
        simp only [own, setNode_same, n2, if_true]
        simp only [own, if_true] at hown
        rw [← List.append_assoc, hown]; rfl
      constructor <;> simp only [ho, setNode_same, n1, n2, n5]
      · exact R.le
      · exact R.taken
      · exact R.dropped
      · simp
      · exact fun hh => absurd hh hst
      · intro _
        refine ⟨(R.serve hst).1, ?_⟩
        intro e' he'
        rw [List.mem_singleton.1 he']
        exact ⟨hp, hw⟩
    · simp only [setNode_ne _ _ hji] at hj
      have R := h.role j t hj
      have ho : own { s with nodes := setNode s.nodes i n, pend := s.pend ++ [e] } j t = own s j t := by
        simp only [own, setNode_ne _ _ hji, if_neg (hother j t hji hj)]
      constructor <;> simp only [ho, setNode_ne _ _ hji]
      exacts [R.le, R.taken, R.dropped, R.one, R.start, R.serve]
  · have hro : ∀ j, (setNode s.nodes i n j).role = (s.nodes j).role := by
      intro j
      by_cases hji : j = i
      · subst hji; rw [setNode_same, n3]
      · rw [setNode_ne _ _ hji]
    intro j k t hj hk
    simp only [hro] at hj hk
    exact h.uniq j k t hj hk
  · intro j hj
    by_cases hji : j = i
    · subst hji; simp only [setNode_same, n3, n4, n5] at hj ⊢; exact h.flag j hj
    · simp only [setNode_ne _ _ hji] at hj ⊢; exact h.flag j hj
  · intro x hx
    obtain ⟨t, ht⟩ := h.issue x hx
    refine ⟨t, ht.term, ht.le, ht.low, ht.high, ht.start, ht.count, ht.max, ?_⟩
    intro j hj
    by_cases hji : j = i
    · subst hji; simp only [setNode_same, n1, n3] at hj ⊢; exact ht.leader j hj
    · simp only [setNode_ne _ _ hji] at hj ⊢; exact ht.leader j hj

theorem updateTimestamp_sane {o : Obj} {now : Int} {e : Entry} (h : updateTimestamp o now = some e) :
    Sane e ∧ o.phys < e.phys ∧ e.kind = .update := by
  unfold updateTimestamp at h
  have g1 : guardMs = 1 := rfl
  have g2 : saveIntervalMs = 3000 := rfl
  have key : ∀ next : Int, o.phys < next →
      some (Entry.mk .update next 0 (if o.save - next ≤ guardMs then next + saveIntervalMs else o.save)) = some e →
      Sane e ∧ o.phys < e.phys ∧ e.kind = .update := by
    intro next hn he
    simp only [Option.some.injEq] at he
    subst he
    refine ⟨⟨?_, by simp, by simp⟩, hn, rfl⟩
    simp only []
    split <;> omega
  by_cases h1 : now - o.phys > guardMs
  · simp only [if_pos h1] at h; exact key now (by omega) h
  · simp only [if_neg h1] at h
    by_cases h2 : o.logical > maxLogical / 2
    · simp only [if_pos h2] at h; exact key _ (by omega) h
    · simp only [if_neg h2] at h; cases h

theorem inv_tick {s s' : Sys} (h : Inv s) {i : Nat} {now : Int} (hc : careful s (.tick i now))
    (hs : step s (.tick i now) = some s') : Inv s' := by
  simp only [step] at hs
  split at hs
  case isFalse => cases hs
  case isTrue hcond =>
    obtain ⟨hf, hw⟩ := hcond
    obtain ⟨hro, hst⟩ := h.flag i hf
    split at hs
    · cases hs; exact h
    · rename_i e he
      obtain ⟨hsane, hlt, hk⟩ := updateTimestamp_sane he
      cases hs
      by_cases hr : (s.nodes i).role = some s.term
      · rw [if_pos hr]
        have R := h.role i _ hr
        obtain ⟨c1, c2⟩ := hc hr
        have hown : own s i s.term = [] := by
          rw [List.eq_nil_iff_forall_not_mem]
          intro e' he'
          have h1 := (R.serve hst).2 e' he'
          have : e'.kind = .update := by
            simp only [own, if_true, List.mem_append, List.mem_map, List.mem_filter] at he'
            rcases he' with ⟨x, ⟨hx, _⟩, rfl⟩ | he'
            · exact c2 x hx
            · exact c1 e' he'
          have := h1.2 this
          rw [hw] at this; cases this
        exact inv_propose h hsane hr hown hst hlt (fun _ => rfl) ⟨rfl, rfl, rfl, rfl, rfl⟩
      · rw [if_neg hr]
        have N := h.node i
        refine inv_setNode h i _ ⟨?_, ?_, ?_, ?_⟩ (.inr rfl) ?_ (fun hf => h.flag i hf) ?_
        · simp only [setNode_same]; exact N.app
        · simp only [setNode_same]; exact N.save
        · simp only [setNode_same]; exact N.phys
        · simp only [setNode_same]; exact N.logical
        · intro t ht
          have R := h.role i t ht
          constructor <;> simp only [own, setNode_same]
          · exact R.le
          · exact R.taken
          · exact R.dropped
          · exact R.one
          · exact R.start
          · intro hh; exact ⟨(R.serve hh).1, fun e he => ⟨((R.serve hh).2 e he).1, fun _ => trivial⟩⟩
        · intro t ht x hx hxt; exact issue_le h ht hx hxt

theorem setNode_self (f : Nat → Node) (i : Nat) : setNode f i (f i) = f := by
  funext j; unfold setNode; split
  · rename_i h; rw [h]
  · rfl

theorem inv_reset {s s' : Sys} (h : Inv s) {i : Nat} {f : Bool} {p l sv : Int} (hc : careful s (.reset i f p l sv))
    (hs : step s (.reset i f p l sv) = some s') : Inv s' := by
  simp only [step] at hs
  split at hs
  case isFalse => cases hs
  case isTrue hf =>
    cases hs
    obtain ⟨hro, hst⟩ := h.flag i hf
    by_cases hr : (s.nodes i).role = some s.term
    · rw [if_pos hr]
      obtain ⟨c1, c2, c3, c4, c5, c6⟩ := hc hr
      subst c1
      have := inv_propose h (i := i) (n := s.nodes i) (e := ⟨.reset false, p, l, sv⟩) ⟨c3, c2, by simp⟩ hr
        (own_nil_of c6 (fun _ => c5)) hst c4 (by simp) ⟨rfl, rfl, rfl, rfl, rfl⟩
      rwa [setNode_self] at this
    · rw [if_neg hr]; exact h

theorem inv_commit {s s' : Sys} (h : Inv s) {k : Nat} (hs : step s (.commit k) = some s') : Inv s' := by
  simp only [step] at hs
  split at hs
  · cases hs
  · rename_i e he
    cases hs
    have hmem : e ∈ s.pend := List.mem_of_getElem? he
    have hsane := h.saneP e hmem
    have htake : ∀ i, (s.log ++ [(s.term, e)]).take (s.nodes i).applied = s.log.take (s.nodes i).applied := by
      intro i
      rw [List.take_append_of_le_length (h.node i).app]
    have hdrop : ∀ i, (s.log ++ [(s.term, e)]).drop (s.nodes i).applied = s.log.drop (s.nodes i).applied ++ [(s.term, e)] := by
      intro i
      rw [List.drop_append_of_le_length (h.node i).app]
    have hbef : ∀ t, t ≤ s.term → before (s.log ++ [(s.term, e)]) t = before s.log t := by
      intro t ht
      rw [before_append, before_none (l := [(s.term, e)]) (by simpa using ht), List.append_nil]
    have hlogsane : ∀ x ∈ s.log ++ [(s.term, e)], Sane x.2 := by
      intro x hx
      rcases List.mem_append.1 hx with hx | hx
      · exact h.sane x hx
      · rw [List.mem_singleton.1 hx]; exact hsane
    have hownEq : ∀ i t, (s.nodes i).role = some t →
        own { s with log := s.log ++ [(s.term, e)], pend := s.pend.eraseIdx k } i t = own s i t := by
      intro i t hr
      have R := h.role i t hr
      by_cases ht : t = s.term
      · subst ht
        have h1 := R.one
        simp only [own, if_true, List.length_append] at h1
        have hp : s.pend = [e] := by
          match hpend : s.pend with
          | [] => rw [hpend] at hmem; cases hmem
          | [a] => rw [hpend] at hmem; rw [List.mem_singleton.1 hmem]
          | a :: b :: c => rw [hpend] at h1; simp only [List.length_cons] at h1; omega
        have hk : k = 0 := by
          rw [hp] at he
          cases k with
          | zero => rfl
          | succ k => simp at he
        subst hk
        have hnil : ((s.log.drop (s.nodes i).applied).filter (fun x => decide (x.1 = s.term))).map (·.2) = [] := by
          rw [hp] at h1
          simp only [List.length_singleton] at h1
          exact List.length_eq_zero_iff.1 (by omega)
        simp only [own, if_true, hdrop, List.filter_append, List.map_append, hnil, hp]
        simp
      · have : ¬ s.term = t := fun e => ht e.symm
        simp [own, ht, hdrop, this]
    refine ⟨?_, ?_, hlogsane, ?_, ?_, ?_, ?_, h.uniq, h.flag, ?_, h.order⟩
    · rw [List.pairwise_append]
      refine ⟨h.sorted, by simp, ?_⟩
      intro a ha b hb
      rw [List.mem_singleton.1 hb]
      exact h.terms a ha
    · intro x hx
      rcases List.mem_append.1 hx with hx | hx
      · exact h.terms x hx
      · rw [List.mem_singleton.1 hx]; exact Nat.le_refl _
    · intro x hx; exact h.saneP x (List.mem_of_mem_eraseIdx hx)
    · intro i
      have N := h.node i
      constructor <;> simp only [htake]
      · have := N.app; simp only [List.length_append]; omega
      · exact N.save
      · exact N.phys
      · exact N.logical
    · intro x hx
      obtain ⟨h1, h2⟩ := h.snap x hx
      simp only [List.length_append]
      refine ⟨by omega, ?_⟩
      rw [List.take_append_of_le_length h1]; exact h2
    · intro i t hr
      have R := h.role i t hr
      constructor <;> simp only [htake, hdrop, hownEq i t hr]
      · exact R.le
      · exact R.taken
      · intro x hx
        rcases List.mem_append.1 hx with hx | hx
        · exact R.dropped x hx
        · rw [List.mem_singleton.1 hx]; exact R.le
      · exact R.one
      · exact R.start
      · rw [hbef t R.le]; exact R.serve
    · intro x hx
      obtain ⟨t, ht⟩ := h.issue x hx
      refine ⟨t, ht.term, ht.le, ?_, ?_, ht.start, ht.count, ht.max, ht.leader⟩
      · simp only [hbef t ht.le]; exact ht.low
      · have h1 := ht.high
        have h2 := (canon_mono (l := before s.log (t + 1)) (m := before [(s.term, e)] (t + 1))
          (fun x hx => by have := mem_before hx; rw [List.mem_singleton.1 this]; exact hsane)).1
        simp only [before_append]; omega

theorem drop_eq_cons {α : Type _} {l : List α} {n : Nat} {a : α} (h : l[n]? = some a) : l.drop n = a :: l.drop (n + 1) := by
  obtain ⟨hn, rfl⟩ := List.getElem?_eq_some_iff.1 h
  exact List.drop_eq_getElem_cons hn

theorem take_succ_eq {α : Type _} {l : List α} {n : Nat} {a : α} (h : l[n]? = some a) : l.take (n + 1) = l.take n ++ [a] := by
  rw [List.take_add_one, h]; rfl

theorem inv_apply {s s' : Sys} (h : Inv s) {i : Nat} (hs : step s (.apply i) = some s') : Inv s' := by
  simp only [step] at hs
  split at hs
  · cases hs
  · rename_i t e hget
    split at hs
    · cases hs
    · rename_i hrole
      cases hs
      have hmem : (t, e) ∈ s.log := List.mem_of_getElem? hget
      have hsane : Sane e := h.sane _ hmem
      have N := h.node i
      have hd := drop_eq_cons hget
      have ht := take_succ_eq hget
      have hlt : (s.nodes i).applied < s.log.length := (List.getElem?_eq_some_iff.1 hget).1
      have hsim := applyE_sim (x := (t, e)) hsane N.save N.phys
      have hcan : canon (s.log.take ((s.nodes i).applied + 1)) = applyE (canon (s.log.take (s.nodes i).applied)) (t, e) := by
        rw [ht, canon_append]; rfl
      have hps := phys_le_save h i
      -- facts for a leader: the entry is its own
      have hlead : ∀ r, (s.nodes i).role = some r → t = r ∧ own s i r = [e] ∧
          (s.nodes i).obj.phys < e.phys ∧ ((s.nodes i).starting = some .waiting → e.kind = .update ∧ (s.nodes i).obj.save < e.phys) := by
        intro r hr
        have R := h.role i r hr
        have h1 : r ≤ t := R.dropped (t, e) (by rw [hd]; simp)
        have h2 : ¬ r < t := by
          intro hlt'
          apply hrole
          rw [hr]; simpa [newer] using hlt'
        have h3 : t = r := by omega
        subst h3
        have h4 : own s i t = [e] := by
          have := R.one
          have hm : own s i t = e :: (((s.log.drop ((s.nodes i).applied + 1)).filter (fun x => decide (x.1 = t))).map (·.2) ++
              (if t = s.term then s.pend else [])) := by
            unfold own; rw [hd]; simp
          rw [hm] at this ⊢
          simp only [List.length_cons] at this
          rw [List.length_eq_zero_iff.1 (by omega :
            (((s.log.drop ((s.nodes i).applied + 1)).filter (fun x => decide (x.1 = t))).map (·.2) ++
              (if t = s.term then s.pend else [])).length = 0)]
        refine ⟨rfl, h4, ?_, ?_⟩
        · by_cases hw : (s.nodes i).starting = some .waiting
          · have := ((R.start hw).2 e (by rw [h4]; simp)).2; omega
          · exact ((R.serve hw).2 e (by rw [h4]; simp)).1
        · intro hw; exact (R.start hw).2 e (by rw [h4]; simp)
      have hown' : ∀ r, (s.nodes i).role = some r → ∀ n : Node, n.applied = (s.nodes i).applied + 1 →
          own { s with nodes := setNode s.nodes i n } i r = [] := by
        intro r hr n hn
        obtain ⟨rfl, h4, _⟩ := hlead r hr
        have hm : own s i t = e :: own { s with nodes := setNode s.nodes i n } i t := by
          simp only [own, setNode_same, hn]; rw [hd]; simp
        rw [hm] at h4
        simpa using h4
      have hobj : ∀ o : Obj, o.phys ≤ e.phys → o.save ≤ e.save → (applyEntry o e) = (true, ⟨e.phys, e.logical, e.save⟩) := by
        intro o h1 h2
        rw [applyEntry_eq hsane.2.2, if_neg (by omega)]
      refine inv_setNode h i _ ?_ (.inr rfl) ?_ ?_ ?_
      · constructor <;> simp only [setNode_same, hcan]
        · omega
        · exact hsim.1
        · exact hsim.2
        · rw [applyEntry_eq hsane.2.2]
          split
          · exact N.logical
          · exact hsane.2.1
      · intro r hr
        have R := h.role i r hr
        obtain ⟨rfl, h4, h5, h6⟩ := hlead r hr
        have ho := hown' t hr
        have hr' : decide ((s.nodes i).role = some t) = true := by simpa using hr
        constructor
        · exact R.le
        · simp only [setNode_same, ht]
          intro x hx
          rcases List.mem_append.1 hx with hx | hx
          · exact R.taken x hx
          · rw [List.mem_singleton.1 hx]; exact Nat.le_refl _
        · simp only [setNode_same]
          intro x hx
          exact R.dropped x (by rw [hd]; simp [hx])
        · rw [ho _ rfl]; simp
        · intro hw
          exfalso
          simp only [setNode_same, hr', Bool.true_and] at hw
          by_cases hw0 : (s.nodes i).starting = some .waiting
          · have hk := (h6 hw0).1
            simp only [hk, hw0, decide_true, Bool.and_self, if_true] at hw
            split at hw <;> simp at hw
          · simp only [decide_eq_false hw0, Bool.and_false, Bool.false_eq_true, if_false] at hw
            exact hw0 hw
        · intro hw
          rw [ho _ rfl]
          refine ⟨?_, by simp⟩
          simp only [setNode_same]
          by_cases hw0 : (s.nodes i).starting = some .waiting
          · -- the start entry is accepted
            obtain ⟨hk, hsv⟩ := h6 hw0
            rw [hobj _ (by omega) (by have := hsane.1; omega)]
            have hb : before s.log t = s.log.take (s.nodes i).applied := by
              conv => lhs; rw [← List.take_append_drop (s.nodes i).applied s.log, before_append]
              rw [before_all (R.start hw0).1, before_none R.dropped, List.append_nil]
            have := N.save
            simp only [hb]; omega
          · have h7 := (R.serve hw0).1
            have := (applyE_mono (o := (s.nodes i).obj) (x := (t, e)) hsane).1
            simp only [applyE] at this
            omega
      · intro hf
        have := h.flag i hf
        refine ⟨this.1, ?_⟩
        simp only [decide_eq_false this.2, Bool.and_false, Bool.false_eq_true, if_false]
        exact this.2
      · intro r hr x hx hxt
        obtain ⟨rfl, h4, h5, h6⟩ := hlead r hr
        have hl := issue_le h hr hx hxt
        simp only []
        rw [applyEntry_eq hsane.2.2]
        split
        · exact hl
        · left
          rcases hl with hl | hl <;> simp only [] <;> omega

theorem leaderStart_sane (o : Obj) (now : Int) : Sane (leaderStart o now) ∧ o.save < (leaderStart o now).phys ∧
    (leaderStart o now).kind = .update := by
  have g1 : guardMs = 1 := rfl
  have g2 : saveIntervalMs = 3000 := rfl
  refine ⟨⟨?_, by simp [leaderStart], by simp [leaderStart]⟩, ?_, rfl⟩
  · simp only [leaderStart]; omega
  · simp only [leaderStart]; split <;> omega

theorem inv_elect {s s' : Sys} (h : Inv s) {i : Nat} {now : Int} (hs : step s (.elect i now) = some s') : Inv s' := by
  simp only [step] at hs
  split at hs
  case isFalse => cases hs
  case isTrue hcond =>
    obtain ⟨happ, hr0, hst0⟩ := hcond
    cases hs
    have hle : ∀ j t, (s.nodes j).role = some t → t ≠ s.term + 1 := by
      intro j t hj e; have := (h.role j t hj).le; omega
    obtain ⟨l1, l2, l3⟩ := leaderStart_sane (s.nodes i).obj now
    refine ⟨h.sorted, fun x hx => Nat.le_succ_of_le (h.terms x hx), h.sane, ?_, ?_, h.snap, ?_, ?_, ?_, ?_, h.order⟩
    · intro e he; rw [List.mem_singleton.1 he]; exact l1
    · intro j
      have N := h.node j
      by_cases hji : j = i
      · subst hji
        constructor <;> simp only [setNode_same]
        exacts [N.app, N.save, N.phys, N.logical]
      · constructor <;> simp only [setNode_ne _ _ hji]
        exacts [N.app, N.save, N.phys, N.logical]
    · intro j t hj
      by_cases hji : j = i
      · subst hji
        simp only [setNode_same, Option.some.injEq] at hj
        subst hj
        have ho : own { s with nodes := setNode s.nodes j { s.nodes j with role := some (s.term + 1), starting := some .waiting, wait := true }, term := s.term + 1, pend := [leaderStart (s.nodes j).obj now] } j (s.term + 1)
              = [leaderStart (s.nodes j).obj now] := by
          simp only [own, setNode_same, happ, List.drop_length, if_true]; rfl
        constructor
        · exact Nat.le_refl _
        · simp only [setNode_same]
          intro x hx; have := h.terms x (List.mem_of_mem_take hx); omega
        · simp only [setNode_same, happ, List.drop_length]; simp
        · rw [ho]; simp
        · intro _
          rw [ho]
          simp only [setNode_same]
          refine ⟨fun x hx => by have := h.terms x (List.mem_of_mem_take hx); omega, ?_⟩
          intro e he
          rw [List.mem_singleton.1 he]
          exact ⟨l3, l2⟩
        · intro hh; simp at hh
      · simp only [setNode_ne _ _ hji] at hj
        have R := h.role j t hj
        have hne := hle j t hj
        have hown : ∀ e ∈ own { s with nodes := setNode s.nodes i { s.nodes i with role := some (s.term + 1), starting := some .waiting, wait := true }, term := s.term + 1, pend := [leaderStart (s.nodes i).obj now] } j t,
            e ∈ own s j t := by
          intro e he
          simp only [own, setNode_ne _ _ hji, if_neg hne, List.append_nil] at he
          simp only [own, List.mem_append]; exact .inl he
        constructor <;> try simp only [setNode_ne _ _ hji]
        · have := R.le; omega
        · exact R.taken
        · exact R.dropped
        · have h1 := R.one
          simp only [own, List.length_append] at h1
          simp only [own, setNode_ne _ _ hji, if_neg hne, List.append_nil]; omega
        · exact fun hh => ⟨(R.start hh).1, fun e he => (R.start hh).2 e (hown e he)⟩
        · exact fun hh => ⟨(R.serve hh).1, fun e he => (R.serve hh).2 e (hown e he)⟩
    · intro j k t hj hk
      by_cases hji : j = i <;> by_cases hki : k = i
      · rw [hji, hki]
      · subst hji
        simp only [setNode_same, Option.some.injEq] at hj
        simp only [setNode_ne _ _ hki] at hk
        exact absurd hj.symm (hle k t hk)
      · subst hki
        simp only [setNode_same, Option.some.injEq] at hk
        simp only [setNode_ne _ _ hji] at hj
        exact absurd hk.symm (hle j t hj)
      · simp only [setNode_ne _ _ hji] at hj
        simp only [setNode_ne _ _ hki] at hk
        exact h.uniq j k t hj hk
    · intro j hj
      by_cases hji : j = i
      · subst hji
        simp only [setNode_same] at hj
        exact absurd hr0 (h.flag j hj).1
      · simp only [setNode_ne _ _ hji] at hj ⊢
        exact h.flag j hj
    · intro x hx
      obtain ⟨t, ht⟩ := h.issue x hx
      refine ⟨t, ht.term, Nat.le_succ_of_le ht.le, ht.low, ht.high, ht.start, ht.count, ht.max, ?_⟩
      intro j hj
      by_cases hji : j = i
      · subst hji
        simp only [setNode_same, Option.some.injEq] at hj
        have := ht.le; omega
      · simp only [setNode_ne _ _ hji] at hj ⊢; exact ht.leader j hj

theorem inv_flagUp {s s' : Sys} (h : Inv s) {i : Nat} (hc : careful s (.flagUp i))
    (hs : step s (.flagUp i) = some s') : Inv s' := by
  simp only [step] at hs
  have key : ∀ hl : Bool, (s.nodes i).starting ≠ some .waiting →
      Inv { s with nodes := setNode s.nodes i { s.nodes i with flag := true, healthy := hl, starting := none } } := by
    intro hl hst
    have N := h.node i
    refine inv_setNode h i _ ?_ (.inr rfl) ?_ (fun _ => ⟨hc, by simp⟩) (fun t ht x hx hxt => issue_le h ht hx hxt)
    · constructor <;> simp only [setNode_same]
      exacts [N.app, N.save, N.phys, N.logical]
    · intro t ht
      have R := h.role i t ht
      constructor <;> simp only [own, setNode_same]
      · exact R.le
      · exact R.taken
      · exact R.dropped
      · exact R.one
      · simp
      · exact fun _ => R.serve hst
  split at hs
  · rename_i h1; cases hs; exact key _ (by rw [h1]; simp)
  · rename_i h1; cases hs; exact key _ (by rw [h1]; simp)
  · cases hs

theorem inv_stop {s s' : Sys} (h : Inv s) {i : Nat} (hs : step s (.stop i) = some s') : Inv s' := by
  simp only [step] at hs
  split at hs
  · cases hs
  · cases hs
    have N := h.node i
    refine inv_setNode h i _ ?_ (.inl rfl) (by simp) (by simp) (by simp)
    constructor <;> simp only [setNode_same]
    exacts [N.app, N.save, N.phys, N.logical]

theorem inv_snapSave {s s' : Sys} (h : Inv s) {i : Nat} (hs : step s (.snapSave i) = some s') : Inv s' := by
  simp only [step] at hs
  cases hs
  obtain ⟨a, b, c, d, e, f, g, u, k, l, m⟩ := h
  refine ⟨a, b, c, d, fun i => ⟨(e i).1, (e i).2, (e i).3, (e i).4⟩, ?_,
    fun i t ht => ⟨(g i t ht).1, (g i t ht).2, (g i t ht).3, (g i t ht).4, (g i t ht).5, (g i t ht).6⟩, u, k,
    fun x hx => by
      obtain ⟨t, ht⟩ := l x hx
      exact ⟨t, ht.1, ht.2, ht.3, ht.4, ht.5, ht.6, ht.7, ht.8⟩, m⟩
  intro x hx
  rcases List.mem_append.1 hx with hx | hx
  · exact f x hx
  · rw [List.mem_singleton.1 hx]; exact ⟨(e i).app, (e i).save⟩

theorem inv_restart {s s' : Sys} (h : Inv s) {i k : Nat} (hs : step s (.restart i k) = some s') : Inv s' := by
  simp only [step] at hs
  split at hs
  · cases hs
  · rename_i a sv hget
    cases hs
    obtain ⟨h1, h2⟩ := h.snap (a, sv) (List.mem_of_getElem? hget)
    refine inv_admitted (inv_setNode h i _ ?_ (.inl rfl) (by simp [Node.init]) (by simp [Node.init]) (by simp [Node.init])) _
    constructor <;> simp only [setNode_same, loadSnapshot, Obj.init]
    · exact h1
    · exact h2
    · exact (canon_nonneg (take_sane h a)).1
    · omega

theorem inv_install {s s' : Sys} (h : Inv s) {i k : Nat} (hs : step s (.install i k) = some s') : Inv s' := by
  simp only [step] at hs
  split at hs
  · cases hs
  · rename_i a sv hget
    split at hs
    case isFalse => cases hs
    case isTrue hcond =>
      obtain ⟨hr, hlt⟩ := hcond
      cases hs
      obtain ⟨h1, h2⟩ := h.snap (a, sv) (List.mem_of_getElem? hget)
      have N := h.node i
      refine inv_setNode h i _ ?_ (.inl hr) (by simp [hr]) ?_ (by simp [hr])
      · constructor <;> simp only [setNode_same, loadSnapshot]
        · exact h1
        · exact h2
        · have h3 := N.phys
          have h4 : s.log.take a = s.log.take (s.nodes i).applied ++ (s.log.take a).drop (s.nodes i).applied := by
            conv => lhs; rw [← List.take_append_drop (s.nodes i).applied (s.log.take a)]
            rw [List.take_take, Nat.min_eq_left (by omega)]
          have h5 := (canon_mono (l := s.log.take (s.nodes i).applied) (m := (s.log.take a).drop (s.nodes i).applied)
            (fun x hx => take_sane h a x (List.mem_of_mem_drop hx))).1
          rw [h4]; omega
        · exact N.logical
      · intro hf; exact absurd hr (h.flag i hf).1

theorem inv_step {s s' : Sys} (h : Inv s) {a : Act} (hc : careful s a) (hs : step s a = some s') : Inv s' := by
  cases a with
  | admit i c =>
    simp only [step] at hs
    split at hs
    · cases hs; exact inv_admitted h _
    · cases hs
  | attempt i c => exact inv_attempt h hc hs
  | giveUp i c =>
    simp only [step] at hs
    split at hs
    · cases hs; exact inv_admitted h _
    · cases hs
  | tick i now => exact inv_tick h hc hs
  | reset i f p l sv => exact inv_reset h hc hs
  | commit k => exact inv_commit h hs
  | apply i => exact inv_apply h hs
  | elect i now => exact inv_elect h hs
  | flagUp i => exact inv_flagUp h hc hs
  | stop i => exact inv_stop h hs
  | snapSave i => exact inv_snapSave h hs
  | restart i k => exact inv_restart h hs
  | install i k => exact inv_install h hs

theorem inv_run {s : Sys} (h : Run Sys.init s) : Inv s := by
  induction h with
  | refl => exact inv_init
  | step _ hc hs ih => exact inv_step ih hc hs

theorem below_of_lex {x y : Issue} (hx : x.start + x.count ≤ 262144) (hy : 0 ≤ y.start)
    (h : LexLe x.phys (x.start + x.count) y.phys y.start) : Below x y := by
  rintro v w ⟨j, j0, j1, rfl⟩ ⟨k, k0, k1, rfl⟩
  rcases h with h | ⟨h, h'⟩ <;> omega

/-- C12: under one leader, timestamps granted later are above all timestamps granted earlier. -/
theorem C12_increasing_under_one_leader {s : Sys} (h : Run Sys.init s) {later earlier : Issue} {mid old new : List Issue}
    (hi : s.issued = new ++ later :: mid ++ earlier :: old) (ht : later.term = earlier.term) : Below earlier later := by
  have I := inv_run h
  have ho := I.order
  rw [hi, List.append_assoc, List.pairwise_append] at ho
  have ho := ho.2.1
  rw [List.cons_append, List.pairwise_cons] at ho
  have ha := ho.1 earlier (by simp) ht
  obtain ⟨t1, i1⟩ := I.issue earlier (by rw [hi]; simp)
  obtain ⟨t2, i2⟩ := I.issue later (by rw [hi]; simp)
  exact below_of_lex i1.max i2.start ha

/-- C12: every grant was made by a leader, is not empty, and fits the 18 bits of the logical part. -/
theorem C12_grants_well_formed {s : Sys} (h : Run Sys.init s) {x : Issue} (hx : x ∈ s.issued) :
    x.term ≠ none ∧ 0 ≤ x.start ∧ 0 < x.count ∧ x.start + x.count ≤ 262144 ∧ 0 < x.phys := by
  have I := inv_run h
  obtain ⟨t, i⟩ := I.issue x hx
  have := (canon_nonneg (l := before s.log t) (fun x hx => I.sane x (mem_before hx))).2
  have := i.low
  exact ⟨by rw [i.term]; simp, i.start, i.count, i.max, by omega⟩

/-- C13: all timestamps of a leader are above all timestamps of earlier leaders, no matter when they were granted, what
the clocks said, who crashed, and from which snapshot they restarted. -/
theorem C13_new_leader_above {s : Sys} (h : Run Sys.init s) {x y : Issue} (hx : x ∈ s.issued) (hy : y ∈ s.issued)
    {t t' : Nat} (ht : x.term = some t) (ht' : y.term = some t') (hlt : t < t') : Below x y := by
  have I := inv_run h
  obtain ⟨t1, i1⟩ := I.issue x hx
  obtain ⟨t2, i2⟩ := I.issue y hy
  have e1 : t1 = t := by have := i1.term; rw [ht] at this; simpa using this.symm
  have e2 : t2 = t' := by have := i2.term; rw [ht'] at this; simpa using this.symm
  subst e1 e2
  have h1 := i1.high
  have h2 := canon_phys_le_save (l := before s.log (t1 + 1)) (fun x hx => I.sane x (mem_before hx))
  have h3 := (canon_before_mono I.sorted I.sane (show t1 + 1 ≤ t2 by omega)).2
  have h4 := i2.low
  exact below_of_lex i1.max i2.start (.inl (by omega))

/-- C12, C13: no timestamp is ever granted twice. -/
theorem C13_never_twice {s : Sys} (h : Run Sys.init s) {v : Int} {x y : Issue} {new mid old : List Issue}
    (hi : s.issued = new ++ x :: mid ++ y :: old) (hx : Covers x v) (hy : Covers y v) : False := by
  have hxm : x ∈ s.issued := by rw [hi]; simp
  have hym : y ∈ s.issued := by rw [hi]; simp
  have I := inv_run h
  obtain ⟨t1, i1⟩ := I.issue x hxm
  obtain ⟨t2, i2⟩ := I.issue y hym
  rcases Nat.lt_trichotomy t1 t2 with hlt | heq | hlt
  · exact absurd (C13_new_leader_above h hxm hym i1.term i2.term hlt v v hx hy) (by omega)
  · exact absurd (C12_increasing_under_one_leader h hi (by rw [i1.term, i2.term, heq]) v v hy hx) (by omega)
  · exact absurd (C13_new_leader_above h hym hxm i2.term i1.term hlt v v hy hx) (by omega)

/-! ### What `careful` excludes is really wrong in the code -/

/-- Two grants share a timestamp. -/
def overlap (x y : Issue) : Bool :=
  decide (x.phys = y.phys ∧ x.start < y.start + y.count ∧ y.start < x.start + x.count ∧ 0 < x.count ∧ 0 < y.count)

theorem overlap_covers {x y : Issue} (h : overlap x y = true) : ∃ v, Covers x v ∧ Covers y v := by
  simp only [overlap, decide_eq_true_eq] at h
  obtain ⟨h1, h2, h3, h4, h5⟩ := h
  by_cases hl : x.start ≤ y.start
  · exact ⟨y.phys * 262144 + y.start + 0, ⟨y.start - x.start, by omega, by omega, by omega⟩, ⟨0, by omega, by omega, rfl⟩⟩
  · exact ⟨x.phys * 262144 + x.start + 0, ⟨0, by omega, by omega, rfl⟩, ⟨x.start - y.start, by omega, by omega, by omega⟩⟩

/-- Node `i` becomes leader with clock `now` and starts to serve. -/
def becomeLeader (i : Nat) (now : Int) : List Act := [.elect i now, .commit 0, .apply i, .flagUp i]

/-- A request that is sleeping in the gen_tso loop (the logical part was used up) survives the loss of leadership: the
loop never looks at `_is_leader` again.  When the node, now a follower, applies the new leader's clock, the request is
served from it, and gets timestamps the new leader hands out as well. -/
def retryTrace : List Act :=
  becomeLeader 0 1000 ++ [.admit 0 200000, .attempt 0 200000, .admit 0 100000, .attempt 0 100000, .stop 0, .apply 1] ++
  becomeLeader 1 5000 ++ [.admit 1 10, .attempt 1 10, .apply 0, .attempt 0 100000]

theorem C13_retry_after_step_down_counterexample :
    (run Sys.init retryTrace).map (·.issued) =
      some [⟨none, 5000, 0, 100000⟩, ⟨some 2, 5000, 0, 10⟩, ⟨some 1, 1000, 0, 200000⟩] ∧
    ∃ v, Covers ⟨none, 5000, 0, 100000⟩ v ∧ Covers ⟨some 2, 5000, 0, 10⟩ v :=
  ⟨by decide, overlap_covers (by decide)⟩

/-- The thread of on_leader_start sets `_is_leader` after on_leader_stop cleared it: a follower that serves requests. -/
def flagTrace : List Act :=
  [.elect 0 1000, .commit 0, .apply 0, .stop 0, .flagUp 0, .apply 1] ++
  becomeLeader 1 5000 ++ [.admit 1 10, .attempt 1 10, .apply 0, .admit 0 5, .attempt 0 5]

theorem C13_late_flag_counterexample :
    (run Sys.init flagTrace).map (·.issued) = some [⟨none, 5000, 0, 5⟩, ⟨some 2, 5000, 0, 10⟩] ∧
    ∃ v, Covers ⟨none, 5000, 0, 5⟩ v ∧ Covers ⟨some 2, 5000, 0, 10⟩ v :=
  ⟨by decide, overlap_covers (by decide)⟩

/-- A reset to the current millisecond is accepted although it takes the logical part back. -/
def resetTrace : List Act :=
  becomeLeader 0 1000 ++ [.admit 0 10, .attempt 0 10, .reset 0 false 1000 0 4000, .commit 0, .apply 0, .admit 0 10, .attempt 0 10]

theorem C12_reset_same_ms_counterexample :
    (run Sys.init resetTrace).map (·.issued) = some [⟨some 1, 1000, 0, 10⟩, ⟨some 1, 1000, 0, 10⟩] ∧
    ∃ v, Covers ⟨some 1, 1000, 0, 10⟩ v ∧ Covers ⟨some 1, 1000, 0, 10⟩ v :=
  ⟨by decide, overlap_covers (by decide)⟩

/-- A reset that moves forward, overtaken by a clock update computed before it. -/
def resetRaceTrace : List Act :=
  becomeLeader 0 1000 ++ [.tick 0 1500, .reset 0 false 1500 0 4000, .commit 1, .apply 0, .admit 0 10, .attempt 0 10,
    .commit 0, .apply 0, .admit 0 10, .attempt 0 10]

theorem C12_reset_race_counterexample :
    (run Sys.init resetRaceTrace).map (·.issued) = some [⟨some 1, 1500, 0, 10⟩, ⟨some 1, 1500, 0, 10⟩] := by decide

/-- A reset whose save point is behind its clock: a leader restored from a snapshot starts behind timestamps that were
already granted. -/
def resetSaveTrace : List Act :=
  becomeLeader 0 1000 ++ [.reset 0 false 9000 0 4000, .commit 0, .apply 0, .admit 0 10, .attempt 0 10, .stop 0,
    .apply 1, .apply 1, .snapSave 1, .restart 1 1] ++ becomeLeader 1 100 ++
    [.tick 1 9000, .commit 0, .apply 1, .admit 1 10, .attempt 1 10]

theorem C13_reset_save_counterexample :
    (run Sys.init resetSaveTrace).map (·.issued) = some [⟨some 2, 9000, 0, 10⟩, ⟨some 1, 9000, 0, 10⟩] ∧
    ∃ v, Covers ⟨some 2, 9000, 0, 10⟩ v ∧ Covers ⟨some 1, 9000, 0, 10⟩ v :=
  ⟨by decide, overlap_covers (by decide)⟩

/-- Only a count of 0 is refused: a negative count takes the logical part back. -/
def negativeTrace : List Act :=
  becomeLeader 0 1000 ++ [.admit 0 10, .attempt 0 10, .admit 0 (-10), .attempt 0 (-10), .admit 0 10, .attempt 0 10]

theorem C12_negative_count_counterexample :
    (run Sys.init negativeTrace).map (·.issued) =
      some [⟨some 1, 1000, 0, 10⟩, ⟨some 1, 1000, 10, -10⟩, ⟨some 1, 1000, 0, 10⟩] := by decide

/-- A node that loses leadership while starting is marked unhealthy, and stays so when it later becomes leader
properly: it refuses every request until an operator resets the oracle. -/
def unhealthyTrace : List Act :=
  [.elect 0 1000, .stop 0, .flagUp 0] ++ becomeLeader 0 2000

theorem C13_stays_unhealthy_counterexample :
    (run Sys.init unhealthyTrace).map (fun s => ((s.nodes 0).flag, (s.nodes 0).role, (s.nodes 0).obj.phys,
      (s.nodes 0).healthy)) = some (true, some 2, 2000, false) := by decide

/-! ### The guarantee is about real executions -/

instance (s : Sys) (a : Act) : Decidable (careful s a) := by
  cases a <;> unfold careful <;> infer_instance

def carefulRun (s : Sys) : List Act → Option Sys
  | [] => some s
  | a :: as => if careful s a then (match step s a with
    | none => none
    | some s' => carefulRun s' as) else none

theorem run_of_carefulRun : ∀ (as : List Act) (s s' : Sys), carefulRun s as = some s' → ∀ s0, Run s0 s → Run s0 s' := by
  intro as
  induction as with
  | nil => intro s s' h s0 hr; cases h; exact hr
  | cons a as ih =>
    intro s s' h s0 hr
    simp only [carefulRun] at h
    split at h
    · rename_i hc
      split at h
      · cases h
      · rename_i s1 hs; exact ih s1 s' h s0 (.step hr hc hs)
    · cases h

/-- A careful history with two leaders, a clock that jumps back, a clock update, a snapshot, a restart and four grants. -/
def goodTrace : List Act :=
  becomeLeader 0 1000 ++ [.admit 0 10, .attempt 0 10, .tick 0 1200, .commit 0, .apply 0, .admit 0 5, .attempt 0 5, .apply 1,
    .snapSave 1, .restart 1 1, .apply 1] ++ becomeLeader 1 7 ++ [.admit 1 10, .attempt 1 10, .admit 0 1, .attempt 0 1]

example : ∃ s, Run Sys.init s ∧ s.issued =
    [⟨some 1, 1200, 5, 1⟩, ⟨some 2, 4001, 0, 10⟩, ⟨some 1, 1200, 0, 5⟩, ⟨some 1, 1000, 0, 10⟩] := by
  have h : (carefulRun Sys.init goodTrace).map (·.issued) =
      some [⟨some 1, 1200, 5, 1⟩, ⟨some 2, 4001, 0, 10⟩, ⟨some 1, 1200, 0, 5⟩, ⟨some 1, 1000, 0, 10⟩] := by decide
  cases hr : carefulRun Sys.init goodTrace with
  | none => rw [hr] at h; cases h
  | some s =>
    rw [hr] at h
    exact ⟨s, run_of_carefulRun _ _ _ hr _ (.refl _), by simpa using h⟩

/-! ### Progress -/

/-- C12: the timer acts whenever the clock has moved or half of the logical part is used; what it sends is accepted
(also when more was granted meanwhile) and then there is room for any request below 2^18. -/
theorem C12_timer_makes_room {o : Obj} {now : Int} (h : o.phys + 1 < now ∨ 131072 < o.logical) (hp : 0 ≤ o.phys) :
    ∃ e, updateTimestamp o now = some e ∧ ∀ l c, c < 262144 → ∃ o', applyEntry { o with logical := l } e = (true, o') ∧
      (genTry o' c).1 = some (e.phys, 0) := by
  have g1 : guardMs = 1 := rfl
  have g2 : saveIntervalMs = 3000 := rfl
  have g3 : maxLogical = 262144 := rfl
  have : ∃ e, updateTimestamp o now = some e ∧ o.phys < e.phys ∧ e.logical = 0 ∧ o.save ≤ e.save := by
    unfold updateTimestamp
    by_cases h1 : now - o.phys > guardMs
    · simp only [if_pos h1]
      refine ⟨_, rfl, ?_, rfl, ?_⟩
      · simp only []; omega
      · simp only []; split <;> omega
    · have h2 : o.logical > maxLogical / 2 := by omega
      simp only [if_neg h1, if_pos h2]
      refine ⟨_, rfl, ?_, rfl, ?_⟩
      · simp only []; omega
      · simp only []; split <;> omega
  obtain ⟨e, he, h1, h2, h3⟩ := this
  refine ⟨e, he, fun l c hc => ⟨⟨e.phys, e.logical, e.save⟩, ?_, ?_⟩⟩
  · rw [applyEntry_eq (by rw [(updateTimestamp_sane he).2.2]; simp), if_neg (by simp only []; omega)]
  · simp only [genTry, h2]
    rw [if_pos (by omega), if_pos (by omega)]

example : (1000 : Int) + 1 < 1200 ∨ (131072 : Int) < 5 := by omega

end BaikalDB.Tso
