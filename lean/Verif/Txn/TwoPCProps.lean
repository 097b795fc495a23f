import Verif.Txn.TwoPC

namespace BaikalDB.Txn

/-! ## Specification -/

def committedAt (s : St) (r : Nat) : Prop := (s.regs r).outcome = some true
def rolledBackAt (s : St) (r : Nat) : Prop := (s.regs r).outcome = some false

/-- The events the guarantee covers: no statement of the transaction fails with a duplicate key, no finished-transaction
mark is lost, and a query saying "not prepared" is not answered after the region has prepared.  Everything else is
free: any delay, loss, repetition and reordering of messages, crashes and kills of the coordinator, timeouts at the
primary, recovery queries and leader changes at any moment. -/
def Good (s : St) : Ev → Prop
  | .dupKey _ => False
  | .forget _ => False
  | .deliver (.query r false) => ∀ t, (s.regs r).tx = some t → t.prepared = false
  | _ => True

inductive Reach : St → Prop
  | init : Reach .init
  | step {s s' : St} (e : Ev) : Reach s → Good s e → step s e = some s' → Reach s'

/-! ## The invariant -/

def started (x : Reg) : Prop := x.tx ≠ none ∨ x.outcome ≠ none
def PD (x : Reg) : Prop := (∃ t, x.tx = some t ∧ t.prepared = true) ∨ x.outcome ≠ none

/-- A region is untouched, open (with writes), committed once, or rolled back with the mark. -/
inductive WF : Reg → Prop
  | fresh : WF .fresh
  | open (b : Bool) : WF ⟨some ⟨b, true⟩, false, false, none, 0⟩
  | committed : WF ⟨none, false, true, some true, 1⟩
  | rolled : WF ⟨none, true, true, some false, 0⟩

def CC (s : St) : Prop := s.ph ≠ .run ∧ s.ph ≠ .prep ∧ 0 ∈ s.contacted ∧ ∀ r ∈ s.contacted, PD (s.regs r)

def NoC (s : St) : Prop :=
  rolledBackAt s 0 ∨ (.req .commit 0 ∉ s.msgs ∧ (s.ph = .abort ∨ s.ph = .abortRest ∨ s.ph = .dead))

def MsgOK (s : St) : Msg → Prop
  | .req .dml r => r ∈ s.contacted ∧ (r ≠ 0 → started (s.regs 0))
  | .req .prepare r => r ∈ s.contacted ∧ (r ≠ 0 → started (s.regs 0))
  | .req .commit r => r ∈ s.contacted ∧ CC s ∧ (r ≠ 0 → committedAt s 0)
  | .req .rollback r => r ≠ 0 → NoC s
  | .reply .dml r false => started (s.regs r)
  | .reply .prepare r false => PD (s.regs r)
  | .reply .commit r rb => r = 0 → if rb then rolledBackAt s 0 else committedAt s 0
  | .reply _ _ _ => True
  | .query r p => r ≠ 0 ∧ started (s.regs r) ∧ (p = true → PD (s.regs r))
  | .answer r true => r ≠ 0 ∧ committedAt s 0 ∧ PD (s.regs r)
  | .answer r false => r ≠ 0 ∧ (rolledBackAt s 0 ∨ (s.regs r).outcome ≠ none)

structure Inv (s : St) : Prop where
  wf : ∀ r, WF (s.regs r)
  part : ∀ r, started (s.regs r) → r ∈ s.contacted ∧ started (s.regs 0)
  up : s.up = true → started (s.regs 0)
  acked : ∀ r ∈ s.acked, PD (s.regs r)
  outT : ∀ r, committedAt s r → committedAt s 0
  outF : ∀ r, rolledBackAt s r → NoC s
  p6 : committedAt s 0 → .req .commit 0 ∈ s.msgs
  phC : s.ph = .commit ∨ s.ph = .killed ∨ s.ph = .commitRest → CC s
  phR : s.ph = .commitRest → committedAt s 0
  phA : s.ph = .abort ∨ s.ph = .abortRest → NoC s
  toldT : s.told = some true → committedAt s 0
  toldF : s.told = some false → NoC s
  phP : s.ph = .prep → 0 ∈ s.contacted
  msgs : ∀ m ∈ s.msgs, MsgOK s m

/-- What never goes back. -/
structure Le (s s' : St) : Prop where
  reg : ∀ r, (started (s.regs r) → started (s'.regs r)) ∧ (PD (s.regs r) → PD (s'.regs r)) ∧
    (∀ b, (s.regs r).outcome = some b → (s'.regs r).outcome = some b)
  con : ∀ r ∈ s.contacted, r ∈ s'.contacted
  cc : CC s → CC s'
  noc : NoC s → NoC s'

theorem Le.out {s s' : St} (h : Le s s') {r : Nat} (hr : (s.regs r).outcome ≠ none) : (s'.regs r).outcome ≠ none := by
  cases ho : (s.regs r).outcome with
  | none => exact absurd ho hr
  | some b => rw [(h.reg r).2.2 b ho]; simp

theorem MsgOK.mono {s s' : St} (h : Le s s') {m : Msg} (hm : MsgOK s m) : MsgOK s' m := by
  match m, hm with
  | .req .dml r, hm => exact ⟨h.con _ hm.1, fun hr => (h.reg 0).1 (hm.2 hr)⟩
  | .req .prepare r, hm => exact ⟨h.con _ hm.1, fun hr => (h.reg 0).1 (hm.2 hr)⟩
  | .req .commit r, hm => exact ⟨h.con _ hm.1, h.cc hm.2.1, fun hr => (h.reg 0).2.2 _ (hm.2.2 hr)⟩
  | .req .rollback r, hm => exact fun hr => h.noc (hm hr)
  | .reply .dml r false, hm => exact (h.reg r).1 hm
  | .reply .dml r true, hm => trivial
  | .reply .prepare r false, hm => exact (h.reg r).2.1 hm
  | .reply .prepare r true, hm => trivial
  | .reply .commit r true, hm => exact fun hr => (h.reg 0).2.2 _ (hm hr)
  | .reply .commit r false, hm => exact fun hr => (h.reg 0).2.2 _ (hm hr)
  | .reply .rollback r b, hm => trivial
  | .query r p, hm => exact ⟨hm.1, (h.reg r).1 hm.2.1, fun hp => (h.reg r).2.1 (hm.2.2 hp)⟩
  | .answer r true, hm => exact ⟨hm.1, (h.reg 0).2.2 _ hm.2.1, (h.reg r).2.1 hm.2.2⟩
  | .answer r false, hm => exact ⟨hm.1, hm.2.imp ((h.reg 0).2.2 _) h.out⟩

theorem Inv.initial : Inv St.init := by
  refine ⟨fun r => .fresh, ?_, ?_, ?_, ?_, ?_, ?_, ?_, ?_, ?_, ?_, ?_, ?_, ?_⟩ <;>
    simp [St.init, started, Reg.fresh, committedAt, rolledBackAt]

theorem PD_started {x : Reg} (h : PD x) : started x := by
  rcases h with ⟨t, h, _⟩ | h
  · left; simp [h]
  · right; exact h

/-! ### Sending a message -/

theorem Le.send {s : St} {m : Msg} (hm : m = .req .commit 0 → s.ph = .commit ∨ s.ph = .commitRest) :
    Le s (send s m) := by
  refine ⟨fun r => ⟨id, id, fun b => id⟩, fun r => id, id, ?_⟩
  rintro (h | ⟨h1, h2⟩)
  · exact Or.inl h
  · refine Or.inr ⟨?_, h2⟩
    simp only [BaikalDB.Txn.send, List.mem_cons, not_or]
    refine ⟨fun he => ?_, h1⟩
    have := hm he.symm
    rcases h2 with h2 | h2 | h2 <;> rw [h2] at this <;> simp at this

theorem Inv.send {s : St} (h : Inv s) {m : Msg} (hm : MsgOK s m)
    (hc : m = .req .commit 0 → s.ph = .commit ∨ s.ph = .commitRest) : Inv (send s m) := by
  have hl := Le.send (s := s) (m := m) hc
  refine ⟨h.wf, h.part, h.up, h.acked, h.outT, fun r hr => hl.noc (h.outF r hr), fun h0 => List.mem_cons_of_mem _ (h.p6 h0),
    h.phC, h.phR, fun hp => hl.noc (h.phA hp), h.toldT, fun ht => hl.noc (h.toldF ht), h.phP, ?_⟩
  intro m' hm'
  rcases List.mem_cons.mp hm' with rfl | hm'
  · exact hm.mono hl
  · exact (h.msgs m' hm').mono hl

/-! ### A region changing -/

theorem setReg_same (s : St) (r : Nat) (x : Reg) : (setReg s r x).regs r = x := by simp [setReg]
theorem setReg_ne (s : St) {r i : Nat} (x : Reg) (h : i ≠ r) : (setReg s r x).regs i = s.regs i := by simp [setReg, h]

theorem Le.setReg {s : St} {r : Nat} {x : Reg}
    (h : (started (s.regs r) → started x) ∧ (PD (s.regs r) → PD x) ∧ (∀ b, (s.regs r).outcome = some b → x.outcome = some b)) :
    Le s (setReg s r x) := by
  have hreg : ∀ i, (started (s.regs i) → started ((BaikalDB.Txn.setReg s r x).regs i)) ∧
      (PD (s.regs i) → PD ((BaikalDB.Txn.setReg s r x).regs i)) ∧
      (∀ b, (s.regs i).outcome = some b → ((BaikalDB.Txn.setReg s r x).regs i).outcome = some b) := by
    intro i
    by_cases hi : i = r
    · subst hi; rw [setReg_same]; exact h
    · rw [setReg_ne s x hi]; exact ⟨id, id, fun b => id⟩
  refine ⟨hreg, fun r => id, ?_, ?_⟩
  · rintro ⟨h1, h2, h3, h4⟩
    exact ⟨h1, h2, h3, fun i hi => (hreg i).2.1 (h4 i hi)⟩
  · rintro (h1 | h1)
    · exact Or.inl ((hreg 0).2.2 _ h1)
    · exact Or.inr h1

theorem Inv.setReg {s : St} (h : Inv s) {r : Nat} {x : Reg} (hx : WF x)
    (hle : (started (s.regs r) → started x) ∧ (PD (s.regs r) → PD x) ∧ (∀ b, (s.regs r).outcome = some b → x.outcome = some b))
    (hs : started x → r ∈ s.contacted ∧ (r ≠ 0 → started (s.regs 0)))
    (hT : x.outcome = some true → (r = 0 → .req .commit 0 ∈ s.msgs) ∧ (r ≠ 0 → committedAt s 0))
    (hF : x.outcome = some false → r ≠ 0 → NoC s) : Inv (setReg s r x) := by
  have hl := Le.setReg hle
  have h0 : started ((BaikalDB.Txn.setReg s r x).regs 0) ∨ ¬ started (s.regs 0) := by
    by_cases hs0 : started (s.regs 0)
    · exact Or.inl ((hl.reg 0).1 hs0)
    · exact Or.inr hs0
  refine ⟨?_, ?_, fun hu => (hl.reg 0).1 (h.up hu), fun i hi => (hl.reg i).2.1 (h.acked i hi), ?_, ?_, ?_,
    fun hp => hl.cc (h.phC hp), fun hp => (hl.reg 0).2.2 _ (h.phR hp), fun hp => hl.noc (h.phA hp),
    fun ht => (hl.reg 0).2.2 _ (h.toldT ht), fun ht => hl.noc (h.toldF ht), h.phP, fun m hm => (h.msgs m hm).mono hl⟩
  · intro i
    by_cases hi : i = r
    · subst hi; rw [setReg_same]; exact hx
    · rw [setReg_ne s x hi]; exact h.wf i
  · intro i hi
    by_cases hir : i = r
    · subst hir
      rw [setReg_same] at hi
      refine ⟨(hs hi).1, ?_⟩
      by_cases h0 : i = 0
      · subst h0; rw [setReg_same]; exact hi
      · exact (hl.reg 0).1 ((hs hi).2 h0)
    · rw [setReg_ne s x hir] at hi
      exact ⟨(h.part i hi).1, (hl.reg 0).1 (h.part i hi).2⟩
  · intro i hi
    by_cases hir : i = r
    · subst hir
      unfold committedAt at hi
      rw [setReg_same] at hi
      by_cases h0 : i = 0
      · subst h0; unfold committedAt; rw [setReg_same]; exact hi
      · exact (hl.reg 0).2.2 _ ((hT hi).2 h0)
    · unfold committedAt at hi
      rw [setReg_ne s x hir] at hi
      exact (hl.reg 0).2.2 _ (h.outT i hi)
  · intro i hi
    by_cases hir : i = r
    · subst hir
      have hi' := hi
      unfold rolledBackAt at hi
      rw [setReg_same] at hi
      by_cases h0 : i = 0
      · subst h0; exact Or.inl hi'
      · exact hl.noc (hF hi h0)
    · unfold rolledBackAt at hi
      rw [setReg_ne s x hir] at hi
      exact hl.noc (h.outF i hi)
  · intro h0
    unfold committedAt at h0
    by_cases hr : 0 = r
    · subst hr
      rw [setReg_same] at h0
      exact (hT h0).1 rfl
    · rw [setReg_ne s x hr] at h0
      exact h.p6 h0

/-! ### The regions' reactions -/

theorem WF.rollback {x : Reg} (h : WF x) {t : Tx} (ht : x.tx = some t) :
    doRollback x t = ⟨none, true, true, some false, 0⟩ := by
  cases h with
  | fresh => simp [Reg.fresh] at ht
  | «open» b => injection ht with ht; subst ht; rfl
  | committed => simp at ht
  | rolled => simp at ht

theorem WF.commit {x : Reg} (h : WF x) {t : Tx} (ht : x.tx = some t) (hp : t.prepared = true) :
    doCommit x t = (⟨none, false, true, some true, 1⟩, true) := by
  cases h with
  | fresh => simp [Reg.fresh] at ht
  | «open» b => injection ht with ht; subst ht; simp only at hp; subst hp; rfl
  | committed => simp at ht
  | rolled => simp at ht

theorem WF.open_out {x : Reg} (h : WF x) {t : Tx} (ht : x.tx = some t) : x.outcome = none := by
  cases h with
  | fresh => simp [Reg.fresh] at ht
  | «open» b => rfl
  | committed => simp at ht
  | rolled => simp at ht

theorem WF.open_eq {x : Reg} (h : WF x) {t : Tx} (ht : x.tx = some t) :
    x = ⟨some ⟨t.prepared, true⟩, false, false, none, 0⟩ ∧ t.writes = true := by
  cases h with
  | fresh => simp [Reg.fresh] at ht
  | «open» b => injection ht with ht; subst ht; simp
  | committed => simp at ht
  | rolled => simp at ht

/-- An open region that must be prepared is prepared. -/
theorem PD.prepared {x : Reg} (hp : PD x) (h : WF x) {t : Tx} (ht : x.tx = some t) : t.prepared = true := by
  rcases hp with ⟨t', h1, h2⟩ | h1
  · rw [ht] at h1; injection h1 with h1; rw [h1]; exact h2
  · exact absurd (h.open_out ht) h1

theorem Inv.doRollback {s : St} (h : Inv s) {r : Nat} {t : Tx} (ht : (s.regs r).tx = some t) (hn : r ≠ 0 → NoC s) :
    Inv (BaikalDB.Txn.setReg s r (doRollback (s.regs r) t)) := by
  rw [(h.wf r).rollback ht]
  have hst : started (s.regs r) := Or.inl (by simp [ht])
  refine h.setReg .rolled ⟨fun _ => Or.inr (by simp), fun _ => Or.inr (by simp), ?_⟩
    (fun _ => ⟨(h.part r hst).1, fun _ => (h.part r hst).2⟩) (by simp) (fun _ => hn)
  intro b hb
  rw [(h.wf r).open_out ht] at hb; simp at hb

theorem Inv.doCommit {s : St} (h : Inv s) {r : Nat} {t : Tx} (ht : (s.regs r).tx = some t) (hp : PD (s.regs r))
    (h0 : r = 0 → .req .commit 0 ∈ s.msgs) (hn : r ≠ 0 → committedAt s 0) :
    Inv (BaikalDB.Txn.setReg s r (doCommit (s.regs r) t).1) := by
  rw [(h.wf r).commit ht (hp.prepared (h.wf r) ht)]
  have hst : started (s.regs r) := Or.inl (by simp [ht])
  refine h.setReg .committed ⟨fun _ => Or.inr (by simp), fun _ => Or.inr (by simp), ?_⟩
    (fun _ => ⟨(h.part r hst).1, fun _ => (h.part r hst).2⟩) (fun _ => ⟨h0, hn⟩) (by simp)
  intro b hb
  rw [(h.wf r).open_out ht] at hb; simp at hb

/-- A request changes a region only in the ways the invariant allows, and the reply tells the truth. -/
theorem Inv.handle {s : St} (h : Inv s) {op : Op} {r : Nat} (hm : MsgOK s (.req op r)) (hmem : .req op r ∈ s.msgs) :
    Inv (BaikalDB.Txn.setReg s r (handle (s.regs r) op).1) ∧
      ∀ rb, (handle (s.regs r) op).2 = some rb →
        MsgOK (BaikalDB.Txn.setReg s r (handle (s.regs r) op).1) (.reply op r rb) := by
  have hself : BaikalDB.Txn.setReg s r (s.regs r) = s := by
    unfold BaikalDB.Txn.setReg
    have : (fun i => if i = r then s.regs r else s.regs i) = s.regs := by
      funext i; by_cases hi : i = r <;> simp [hi]
    rw [this]
  cases op with
  | dml =>
    have hb : ∀ b, (s.regs r) = ⟨some ⟨b, true⟩, false, false, none, 0⟩ →
        { s.regs r with tx := some ⟨b, true⟩ } = s.regs r := fun b hb => by rw [hb]
    cases htx : (s.regs r).tx with
    | some t =>
      obtain ⟨h1, h2⟩ := (h.wf r).open_eq htx
      have : { s.regs r with tx := some { t with writes := true } } = s.regs r := by
        have := hb _ h1
        simpa using this
      simp only [BaikalDB.Txn.handle, htx, this, hself]
      refine ⟨h, fun rb hrb => ?_⟩
      injection hrb with hrb; subst hrb
      exact Or.inl (by simp [htx])
    | none =>
      have hw := h.wf r
      generalize hx : s.regs r = x at hw htx
      cases hw with
      | fresh =>
        have hinv : Inv (BaikalDB.Txn.setReg s r ⟨some ⟨false, true⟩, false, false, none, 0⟩) := by
          refine h.setReg (.open false) ?_ (fun _ => hm) (by simp) (by simp)
          rw [hx]
          exact ⟨fun _ => Or.inl (by simp), by simp [PD, Reg.fresh], by simp [Reg.fresh]⟩
        refine ⟨hinv, fun rb hrb => ?_⟩
        simp [BaikalDB.Txn.handle, Reg.fresh] at hrb; subst hrb
        simp only [MsgOK, setReg_same]
        exact Or.inl (by simp [BaikalDB.Txn.handle, Reg.fresh])
      | «open» b => simp at htx
      | committed =>
        rw [hx] at hself
        have : (BaikalDB.Txn.handle ⟨none, false, true, some true, 1⟩ .dml) = (⟨none, false, true, some true, 1⟩, some false) := rfl
        rw [this]
        simp only [hself]
        refine ⟨h, fun rb hrb => ?_⟩
        injection hrb with hrb; subst hrb
        exact Or.inr (by simp [hx])
      | rolled =>
        rw [hx] at hself
        have : (BaikalDB.Txn.handle ⟨none, true, true, some false, 0⟩ .dml) = (⟨none, true, true, some false, 0⟩, some true) := rfl
        rw [this]
        simp only [hself]
        refine ⟨h, fun rb hrb => ?_⟩
        injection hrb with hrb; subst hrb
        trivial
  | prepare =>
    have hw := h.wf r
    have hcon : ∀ {x : Reg}, WF x → started x → (started (s.regs r) → started x) := fun _ hx _ => hx
    generalize hx : s.regs r = x at hw
    cases hw with
    | fresh =>
      have hinv : Inv (BaikalDB.Txn.setReg s r ⟨some ⟨true, true⟩, false, false, none, 0⟩) := by
        refine h.setReg (.open true) ?_ (fun _ => hm) (by simp) (by simp)
        rw [hx]
        exact ⟨fun _ => Or.inl (by simp), by simp [PD, Reg.fresh], by simp [Reg.fresh]⟩
      refine ⟨hinv, fun rb hrb => ?_⟩
      simp [BaikalDB.Txn.handle, Reg.fresh] at hrb; subst hrb
      simp only [MsgOK, setReg_same]
      exact Or.inl ⟨⟨true, true⟩, by simp [BaikalDB.Txn.handle, Reg.fresh]⟩
    | «open» b =>
      have hinv : Inv (BaikalDB.Txn.setReg s r ⟨some ⟨true, true⟩, false, false, none, 0⟩) := by
        refine h.setReg (.open true) ?_ (fun _ => hm) (by simp) (by simp)
        rw [hx]
        exact ⟨fun _ => Or.inl (by simp), fun _ => Or.inl ⟨⟨true, true⟩, by simp⟩, by simp⟩
      refine ⟨hinv, fun rb hrb => ?_⟩
      simp [BaikalDB.Txn.handle] at hrb; subst hrb
      simp only [MsgOK, setReg_same]
      exact Or.inl ⟨⟨true, true⟩, by simp [BaikalDB.Txn.handle]⟩
    | committed =>
      rw [hx] at hself
      have : (BaikalDB.Txn.handle ⟨none, false, true, some true, 1⟩ .prepare) = (⟨none, false, true, some true, 1⟩, some false) := rfl
      rw [this]
      simp only [hself]
      refine ⟨h, fun rb hrb => ?_⟩
      injection hrb with hrb; subst hrb
      exact Or.inr (by simp [hx])
    | rolled =>
      rw [hx] at hself
      have : (BaikalDB.Txn.handle ⟨none, true, true, some false, 0⟩ .prepare) = (⟨none, true, true, some false, 0⟩, some true) := rfl
      rw [this]
      simp only [hself]
      refine ⟨h, fun rb hrb => ?_⟩
      injection hrb with hrb; subst hrb
      trivial
  | commit =>
    have hpd : PD (s.regs r) := hm.2.1.2.2.2 r hm.1
    cases htx : (s.regs r).tx with
    | some t =>
      have hc := (h.wf r).commit htx (hpd.prepared (h.wf r) htx)
      have hi := h.doCommit htx hpd (fun h0 => by subst h0; exact hmem) hm.2.2
      simp only [BaikalDB.Txn.handle, htx, hc] at hi ⊢
      refine ⟨hi, fun rb hrb => ?_⟩
      simp at hrb; subst hrb
      intro h0
      subst h0
      simp [committedAt, setReg_same]
    | none =>
      have hw := h.wf r
      generalize hx : s.regs r = x at hw htx
      cases hw with
      | fresh => rw [hx] at hpd; simp [PD, Reg.fresh] at hpd
      | «open» b => simp at htx
      | committed =>
        rw [hx] at hself
        have : (BaikalDB.Txn.handle ⟨none, false, true, some true, 1⟩ .commit) = (⟨none, false, true, some true, 1⟩, some false) := rfl
        rw [this]
        simp only [hself]
        refine ⟨h, fun rb hrb => ?_⟩
        injection hrb with hrb; subst hrb
        intro h0; subst h0
        simp [committedAt, hx]
      | rolled =>
        rw [hx] at hself
        have : (BaikalDB.Txn.handle ⟨none, true, true, some false, 0⟩ .commit) = (⟨none, true, true, some false, 0⟩, some true) := rfl
        rw [this]
        simp only [hself]
        refine ⟨h, fun rb hrb => ?_⟩
        injection hrb with hrb; subst hrb
        intro h0; subst h0
        simp [rolledBackAt, hx]
  | rollback =>
    cases htx : (s.regs r).tx with
    | some t =>
      simp only [BaikalDB.Txn.handle, htx]
      exact ⟨h.doRollback htx hm, fun rb hrb => trivial⟩
    | none =>
      have : (BaikalDB.Txn.handle (s.regs r) .rollback).1 = s.regs r := by
        simp only [BaikalDB.Txn.handle, htx]; split <;> rfl
      rw [this, hself]
      exact ⟨h, fun rb hrb => trivial⟩

/-! ### Every step -/

theorem Le.refl_of {s s' : St} (h1 : s'.regs = s.regs) (h2 : ∀ r ∈ s.contacted, r ∈ s'.contacted) (hc : CC s → CC s')
    (hn : NoC s → NoC s') : Le s s' :=
  ⟨fun r => by rw [h1]; exact ⟨id, id, fun b => id⟩, h2, hc, hn⟩

theorem Inv.noCommit {s : St} (h : Inv s) (hp : s.ph = .run ∨ s.ph = .prep) : .req .commit 0 ∉ s.msgs := by
  intro hm
  have := (h.msgs _ hm).2.1
  rcases hp with hp | hp
  · exact this.1 hp
  · exact this.2.1 hp

theorem Inv.step {s s' : St} (h : Inv s) {e : Ev} (hg : Good s e) (hs : step s e = some s') : Inv s' := by
  cases e with
  | sendDml r =>
    simp only [BaikalDB.Txn.step] at hs
    split at hs
    · rename_i hc
      injection hs with hs; subst hs
      have hl : Le s { BaikalDB.Txn.send s (.req .dml r) with contacted := r :: s.contacted } := by
        refine Le.refl_of rfl (fun i hi => List.mem_cons_of_mem _ hi) (fun hcc => absurd hc.1 hcc.1) ?_
        rintro (hn | hn)
        · exact Or.inl hn
        · rw [hc.1] at hn; simp at hn
      refine ⟨h.wf, fun i hi => ⟨List.mem_cons_of_mem _ (h.part i hi).1, (h.part i hi).2⟩, h.up, h.acked, h.outT,
        fun i hi => hl.noc (h.outF i hi), fun h0 => List.mem_cons_of_mem _ (h.p6 h0), ?_, ?_, ?_, h.toldT,
        fun ht => hl.noc (h.toldF ht), fun hp => List.mem_cons_of_mem _ (h.phP hp), ?_⟩
      · intro hp; simp only [BaikalDB.Txn.send, hc.1] at hp; simp at hp
      · exact h.phR
      · intro hp; simp only [BaikalDB.Txn.send, hc.1] at hp; simp at hp
      · intro m hm
        rcases List.mem_cons.mp hm with rfl | hm
        · refine ⟨List.mem_cons_self, fun hr => ?_⟩
          exact h.up (hc.2.resolve_left hr)
        · exact (h.msgs m hm).mono hl
    · simp at hs
  | startPrepare more =>
    simp only [BaikalDB.Txn.step] at hs
    split at hs
    · rename_i hc
      injection hs with hs; subst hs
      have hl : Le s { s with ph := .prep, contacted := 0 :: more ++ s.contacted } := by
        refine Le.refl_of rfl (fun i hi => by simp [hi]) (fun hcc => absurd hc hcc.1) ?_
        rintro (hn | hn)
        · exact Or.inl hn
        · rw [hc] at hn; simp at hn
      refine ⟨h.wf, fun i hi => ⟨hl.con i (h.part i hi).1, (h.part i hi).2⟩, h.up, h.acked, h.outT,
        fun i hi => hl.noc (h.outF i hi), h.p6, ?_, ?_, ?_, h.toldT,
        fun ht => hl.noc (h.toldF ht), by simp, fun m hm => (h.msgs m hm).mono hl⟩ <;> simp
    · simp at hs
  | sendPrepare r =>
    simp only [BaikalDB.Txn.step] at hs
    split at hs
    · rename_i hc
      injection hs with hs; subst hs
      exact h.send ⟨hc.2.2, fun hr => h.up (hc.2.1.resolve_left hr)⟩ (by simp)
    · simp at hs
  | decideCommit =>
    simp only [BaikalDB.Txn.step] at hs
    split at hs
    · rename_i hc
      injection hs with hs; subst hs
      have hnoc : NoC s → NoC { s with ph := .commit } := by
        rintro (hn | hn)
        · exact Or.inl hn
        · rw [hc.1] at hn; simp at hn
      have hl : Le s { s with ph := .commit } :=
        Le.refl_of rfl (fun i hi => hi) (fun hcc => absurd hc.1 hcc.2.1) hnoc
      refine ⟨h.wf, h.part, h.up, h.acked, h.outT, fun i hi => hl.noc (h.outF i hi), h.p6, ?_, by simp, by simp, h.toldT,
        fun ht => hl.noc (h.toldF ht), by simp, fun m hm => (h.msgs m hm).mono hl⟩
      intro _
      exact ⟨by simp, by simp, h.phP hc.1, fun r hr => h.acked r (hc.2 r hr)⟩
    · simp at hs
  | decideAbort =>
    simp only [BaikalDB.Txn.step] at hs
    split at hs
    · rename_i hc
      injection hs with hs; subst hs
      have hna : NoC { s with ph := .abort } := Or.inr ⟨h.noCommit hc, Or.inl rfl⟩
      have hl : Le s { s with ph := .abort } := by
        refine Le.refl_of rfl (fun i hi => hi) (fun hcc => ?_) fun _ => hna
        rcases hc with hc | hc
        · exact absurd hc hcc.1
        · exact absurd hc hcc.2.1
      exact ⟨h.wf, h.part, h.up, h.acked, h.outT, fun _ _ => hna, h.p6, by simp, by simp, fun _ => hna, h.toldT,
        fun _ => hna, by simp, fun m hm => (h.msgs m hm).mono hl⟩
    · simp at hs
  | sendCommit r =>
    simp only [BaikalDB.Txn.step] at hs
    split at hs
    · rename_i hc
      injection hs with hs; subst hs
      refine h.send ?_ (fun _ => ?_)
      · rcases hc with ⟨hp, rfl⟩ | ⟨hp, hr⟩
        · have := h.phC (Or.inl hp)
          exact ⟨this.2.2.1, this, by simp⟩
        · exact ⟨hr, h.phC (Or.inr (Or.inr hp)), fun _ => h.phR hp⟩
      · exact hc.imp And.left And.left
    · simp at hs
  | sendRollback r =>
    simp only [BaikalDB.Txn.step] at hs
    split at hs
    · rename_i hc
      injection hs with hs; subst hs
      refine h.send (fun hr => ?_) (by simp)
      rcases hc with ⟨_, h0⟩ | hp
      · exact absurd h0 hr
      · exact h.phA (Or.inr hp)
    · simp at hs
  | kill =>
    simp only [BaikalDB.Txn.step] at hs
    split at hs
    · rename_i hc
      injection hs with hs; subst hs
      have hcc := h.phC (Or.inl hc)
      have hcc' : CC { s with ph := .killed } := ⟨by simp, by simp, hcc.2.2⟩
      have hl : Le s { s with ph := .killed } := by
        refine Le.refl_of rfl (fun i hi => hi) (fun _ => hcc') ?_
        rintro (hn | hn)
        · exact Or.inl hn
        · rw [hc] at hn; simp at hn
      exact ⟨h.wf, h.part, h.up, h.acked, h.outT, fun i hi => hl.noc (h.outF i hi), h.p6, fun _ => hcc', by simp, by simp,
        h.toldT, fun ht => hl.noc (h.toldF ht), by simp, fun m hm => (h.msgs m hm).mono hl⟩
    · simp at hs
  | crash =>
    simp only [BaikalDB.Txn.step] at hs
    injection hs with hs; subst hs
    have hl : Le s { s with ph := .dead } := by
      refine Le.refl_of rfl (fun i hi => hi) (fun hcc => ⟨by simp, by simp, hcc.2.2⟩) ?_
      rintro (hn | hn)
      · exact Or.inl hn
      · exact Or.inr ⟨hn.1, by simp⟩
    exact ⟨h.wf, h.part, h.up, h.acked, h.outT, fun i hi => hl.noc (h.outF i hi), h.p6, by simp, by simp, by simp,
      h.toldT, fun ht => hl.noc (h.toldF ht), by simp, fun m hm => (h.msgs m hm).mono hl⟩
  | recv m =>
    simp only [BaikalDB.Txn.step] at hs
    split at hs
    · rename_i hmem
      have hm := h.msgs m hmem
      match m, hm, hs with
      | .reply .dml r rb, hm, hs =>
        simp only at hs
        split at hs
        · rename_i hc
          injection hs with hs; subst hs
          obtain ⟨rfl, rfl⟩ := hc
          exact ⟨h.wf, h.part, fun _ => hm, h.acked, h.outT, h.outF, h.p6, h.phC, h.phR, h.phA, h.toldT, h.toldF, h.phP,
            fun m' hm' => (h.msgs m' hm').mono (Le.refl_of rfl (fun _ h => h) id id)⟩
        · injection hs with hs; subst hs; exact h
      | .reply .prepare r rb, hm, hs =>
        simp only at hs
        split at hs
        · rename_i hc
          injection hs with hs; subst hs
          subst hc
          refine ⟨h.wf, h.part, ?_, ?_, h.outT, h.outF, h.p6, h.phC, h.phR, h.phA, h.toldT, h.toldF, h.phP,
            fun m' hm' => (h.msgs m' hm').mono (Le.refl_of rfl (fun _ h => h) id id)⟩
          · intro hu
            simp only [Bool.or_eq_true, beq_iff_eq] at hu
            rcases hu with hu | rfl
            · exact h.up hu
            · exact PD_started hm
          · intro i hi
            rcases List.mem_cons.mp hi with rfl | hi
            · exact hm
            · exact h.acked i hi
        · injection hs with hs; subst hs; exact h
      | .reply .commit r rb, hm, hs =>
        simp only at hs
        split at hs
        · rename_i hc
          have hm := hm hc.1
          cases rb with
          | true =>
            simp only [if_true] at hs hm
            injection hs with hs; subst hs
            have hn : NoC { s with ph := .abort } := Or.inl hm
            have hl : Le s { s with ph := .abort } :=
              Le.refl_of rfl (fun i hi => hi) (fun hcc => ⟨by simp, by simp, hcc.2.2⟩) fun _ => hn
            exact ⟨h.wf, h.part, h.up, h.acked, h.outT, fun _ _ => hn, h.p6, by simp, by simp, fun _ => hn,
              h.toldT, fun ht => hl.noc (h.toldF ht), by simp, fun m hm => (h.msgs m hm).mono hl⟩
          | false =>
            simp only [Bool.false_eq_true, if_false] at hs hm
            injection hs with hs; subst hs
            have hcc := h.phC (Or.inl hc.2)
            have hl : Le s { s with ph := .commitRest, told := some true } := by
              refine Le.refl_of rfl (fun i hi => hi) (fun hcc => ⟨by simp, by simp, hcc.2.2⟩) ?_
              rintro (hn | hn)
              · exact Or.inl hn
              · rw [hc.2] at hn; simp at hn
            exact ⟨h.wf, h.part, h.up, h.acked, h.outT, fun i hi => hl.noc (h.outF i hi), h.p6,
              fun _ => hl.cc hcc, fun _ => hm, by simp, fun _ => hm, by simp, by simp, fun m hm => (h.msgs m hm).mono hl⟩
        · injection hs with hs; subst hs; exact h
      | .reply .rollback r rb, hm, hs =>
        simp only at hs
        split at hs
        · rename_i hc
          injection hs with hs; subst hs
          have hn : NoC { s with ph := .abortRest, told := some false } := by
            rcases h.phA (Or.inl hc.2) with hn | hn
            · exact Or.inl hn
            · exact Or.inr ⟨hn.1, by simp⟩
          have hl : Le s { s with ph := .abortRest, told := some false } :=
            Le.refl_of rfl (fun i hi => hi) (fun hcc => ⟨by simp, by simp, hcc.2.2⟩) fun _ => hn
          exact ⟨h.wf, h.part, h.up, h.acked, h.outT, fun _ _ => hn, h.p6, by simp, by simp, fun _ => hn,
            by simp, fun _ => hn, by simp, fun m hm => (h.msgs m hm).mono hl⟩
        · injection hs with hs; subst hs; exact h
      | .req op r, hm, hs => simp at hs
      | .query r p, hm, hs => simp at hs
      | .answer r c, hm, hs => simp at hs
    · simp at hs
  | deliver m =>
    simp only [BaikalDB.Txn.step] at hs
    split at hs
    · rename_i hmem
      have hm := h.msgs m hmem
      match m, hm, hs, hg with
      | .req op r, hm, hs, hg =>
        simp only at hs
        obtain ⟨h1, h2⟩ := h.handle hm hmem
        cases ha : (BaikalDB.Txn.handle (s.regs r) op).2 with
        | some rb =>
          simp only [ha] at hs
          injection hs with hs; subst hs
          exact h1.send (h2 rb ha) (by simp)
        | none =>
          simp only [ha] at hs
          injection hs with hs; subst hs
          exact h1
      | .query r p, hm, hs, hg =>
        simp only at hs
        cases hv : verdict (s.regs 0) p with
        | none => simp only [hv] at hs; injection hs with hs; subst hs; exact h
        | some c =>
          simp only [hv] at hs; injection hs with hs; subst hs
          refine h.send ?_ (by simp)
          have hst := (h.part r hm.2.1).2
          have hw := h.wf 0
          have hc0 : committedAt s 0 → PD (s.regs r) := by
            intro hc
            have := (h.msgs _ (h.p6 hc)).2.1.2.2.2
            exact this r (h.part r hm.2.1).1
          generalize hx : s.regs 0 = x at hw
          rw [hx] at hv hst
          cases hw with
          | fresh => simp [started, Reg.fresh] at hst
          | «open» b => simp [verdict] at hv
          | committed =>
            have hcom : committedAt s 0 := by simp [committedAt, hx]
            cases p with
            | true =>
              simp [verdict] at hv; subst hv
              exact ⟨hm.1, hcom, hm.2.2 rfl⟩
            | false =>
              simp [verdict] at hv; subst hv
              refine ⟨hm.1, Or.inr ?_⟩
              rcases hc0 hcom with ⟨t, ht, hp⟩ | ho
              · have := hg t ht
                rw [hp] at this; simp at this
              · exact ho
          | rolled =>
            simp [verdict] at hv; subst hv
            exact ⟨hm.1, Or.inl (by simp [rolledBackAt, hx])⟩
      | .answer r c, hm, hs, hg =>
        simp only at hs
        cases ht : (s.regs r).tx with
        | none => simp only [ht] at hs; injection hs with hs; subst hs; exact h
        | some t =>
          simp only [ht] at hs; injection hs with hs; subst hs
          cases c with
          | true =>
            simp only [if_true]
            exact h.doCommit ht hm.2.2 (fun h0 => absurd h0 hm.1) fun _ => hm.2.1
          | false =>
            simp only [Bool.false_eq_true, if_false]
            refine h.doRollback ht fun _ => ?_
            rcases hm.2 with h0 | h0
            · exact Or.inl h0
            · exact absurd ((h.wf r).open_out ht) h0
      | .reply op r rb, hm, hs, hg => simp at hs
    · simp at hs
  | dupKey r => exact absurd hg (by simp [Good])
  | timeout =>
    simp only [BaikalDB.Txn.step] at hs
    cases ht : (s.regs 0).tx with
    | none => simp [ht] at hs
    | some t =>
      simp only [ht] at hs; injection hs with hs; subst hs
      exact h.doRollback ht (by simp)
  | ask r =>
    simp only [BaikalDB.Txn.step] at hs
    cases ht : (s.regs r).tx with
    | none => simp [ht] at hs
    | some t =>
      simp only [ht] at hs
      split at hs
      · simp at hs
      · rename_i hr
        injection hs with hs; subst hs
        exact h.send ⟨hr, Or.inl (by simp [ht]), fun hp => Or.inl ⟨t, ht, hp⟩⟩ (by simp)
  | leaderChange r =>
    simp only [BaikalDB.Txn.step] at hs
    cases ht : (s.regs r).tx with
    | none => simp only [ht] at hs; injection hs with hs; subst hs; exact h
    | some t =>
      simp only [ht, ((h.wf r).open_eq ht).2, if_true] at hs
      injection hs with hs; subst hs; exact h
  | forget r => exact absurd hg (by simp [Good])

theorem Reach.inv {s : St} (h : Reach s) : Inv s := by
  induction h with
  | init => exact Inv.initial
  | step e _ hg hs ih => exact ih.step hg hs

theorem Inv.noc_not_committed {s : St} (h : Inv s) (hn : NoC s) : ¬ committedAt s 0 := by
  intro hc
  rcases hn with hn | hn
  · simp [committedAt, rolledBackAt] at hn hc; rw [hc] at hn; simp at hn
  · exact hn.1 (h.p6 hc)

theorem run_append (s : St) (a b : List Ev) : run s (a ++ b) = (run s a).bind fun s' => run s' b := by
  induction a generalizing s with
  | nil => rfl
  | cons e a ih =>
    simp only [List.cons_append, run]
    cases step s e with
    | none => rfl
    | some s1 => exact ih s1

/-! ## The theorems -/

/-- No region commits the transaction while another rolls it back, at no moment of any run. -/
theorem C34_agreement {s : St} (h : Reach s) (a b : Nat) : ¬ (committedAt s a ∧ rolledBackAt s b) := by
  rintro ⟨ha, hb⟩
  exact h.inv.noc_not_committed (h.inv.outF b hb) (h.inv.outT a ha)

/-- Once any region has committed, every region the transaction was sent to has committed or holds it prepared,
and the client has not been told that it failed. -/
theorem C34_commit_all {s : St} (h : Reach s) (a : Nat) (ha : committedAt s a) :
    (∀ r ∈ s.contacted, committedAt s r ∨ ∃ t, (s.regs r).tx = some t ∧ t.prepared = true) ∧ s.told ≠ some false := by
  have hi := h.inv
  have h0 := hi.outT a ha
  refine ⟨fun r hr => ?_, fun ht => hi.noc_not_committed (hi.toldF ht) h0⟩
  rcases (hi.msgs _ (hi.p6 h0)).2.1.2.2.2 r hr with ht | ho
  · exact Or.inr ht
  · left
    cases hc : (s.regs r).outcome with
    | none => exact absurd hc ho
    | some b =>
      cases b with
      | true => exact hc
      | false => exact absurd h0 (hi.noc_not_committed (hi.outF r hc))

/-- The client is told "committed" only when the primary has committed, and then no region has rolled back. -/
theorem C34_client_commit {s : St} (h : Reach s) (ht : s.told = some true) :
    committedAt s 0 ∧ ∀ r, ¬ rolledBackAt s r :=
  ⟨h.inv.toldT ht, fun r hr => C34_agreement h 0 r ⟨h.inv.toldT ht, hr⟩⟩

/-- The client is told "rolled back" only if no region has committed.  (Nor ever will: `C34_final` and the same at every later moment.) -/
theorem C34_client_abort {s : St} (h : Reach s) (ht : s.told = some false) (r : Nat) : ¬ committedAt s r := fun hr =>
  h.inv.noc_not_committed (h.inv.toldF ht) (h.inv.outT r hr)

theorem Reach.run {s s' : St} (h : Reach s) (es : List Ev)
    (hg : ∀ pre e post s1, es = pre ++ e :: post → run s pre = some s1 → Good s1 e) (hr : run s es = some s') : Reach s' := by
  induction es generalizing s with
  | nil => simp only [BaikalDB.Txn.run] at hr; injection hr with hr; subst hr; exact h
  | cons e es ih =>
    simp only [BaikalDB.Txn.run] at hr
    cases hs : BaikalDB.Txn.step s e with
    | none => rw [hs] at hr; simp at hr
    | some s1 =>
      rw [hs] at hr
      refine ih (h.step e (hg [] e es s rfl rfl) hs) ?_ hr
      intro pre e' post s2 he h2
      refine hg (e :: pre) e' post s2 (by rw [he]; rfl) ?_
      simp only [BaikalDB.Txn.run, hs]
      exact h2

theorem step_final {s s' : St} (h : Inv s) {e : Ev} (hg : Good s e) (hs : step s e = some s') :
    (∀ r b, (s.regs r).outcome = some b → s'.regs r = s.regs r) ∧ (∀ b, s.told = some b → s'.told = some b) := by
  have hset : ∀ r x m, ((s.regs r).tx ≠ none ∨ s.regs r = .fresh ∨ x = s.regs r) →
      (∀ i b, (s.regs i).outcome = some b → (send (setReg s r x) m).regs i = s.regs i) ∧
      (∀ i b, (s.regs i).outcome = some b → (setReg s r x).regs i = s.regs i) := by
    intro r x m hr
    have : ∀ i b, (s.regs i).outcome = some b → (setReg s r x).regs i = s.regs i := by
      intro i b hb
      by_cases hi : i = r
      · subst hi
        rcases hr with hr | hr | hr
        · cases ht : (s.regs i).tx with
          | none => exact absurd ht hr
          | some t => rw [(h.wf i).open_out ht] at hb; simp at hb
        · rw [hr] at hb; simp [Reg.fresh] at hb
        · rw [setReg_same, hr]
      · exact setReg_ne s x hi
    exact ⟨this, this⟩
  have hhandle : ∀ r op, (s.regs r).tx ≠ none ∨ s.regs r = .fresh ∨ (handle (s.regs r) op).1 = s.regs r := by
    intro r op
    have hw := h.wf r
    generalize s.regs r = x at hw
    cases hw with
    | fresh => right; left; rfl
    | «open» b => left; simp
    | committed => right; right; cases op <;> rfl
    | rolled => right; right; cases op <;> rfl
  cases e with
  | sendDml r => simp only [step] at hs; split at hs <;> [(injection hs with hs; subst hs; exact ⟨fun _ _ _ => rfl, fun _ h => h⟩); simp at hs]
  | startPrepare r => simp only [step] at hs; split at hs <;> [(injection hs with hs; subst hs; exact ⟨fun _ _ _ => rfl, fun _ h => h⟩); simp at hs]
  | sendPrepare r => simp only [step] at hs; split at hs <;> [(injection hs with hs; subst hs; exact ⟨fun _ _ _ => rfl, fun _ h => h⟩); simp at hs]
  | decideCommit => simp only [step] at hs; split at hs <;> [(injection hs with hs; subst hs; exact ⟨fun _ _ _ => rfl, fun _ h => h⟩); simp at hs]
  | decideAbort => simp only [step] at hs; split at hs <;> [(injection hs with hs; subst hs; exact ⟨fun _ _ _ => rfl, fun _ h => h⟩); simp at hs]
  | sendCommit r => simp only [step] at hs; split at hs <;> [(injection hs with hs; subst hs; exact ⟨fun _ _ _ => rfl, fun _ h => h⟩); simp at hs]
  | sendRollback r => simp only [step] at hs; split at hs <;> [(injection hs with hs; subst hs; exact ⟨fun _ _ _ => rfl, fun _ h => h⟩); simp at hs]
  | kill => simp only [step] at hs; split at hs <;> [(injection hs with hs; subst hs; exact ⟨fun _ _ _ => rfl, fun _ h => h⟩); simp at hs]
  | crash => simp only [step] at hs; injection hs with hs; subst hs; exact ⟨fun _ _ _ => rfl, fun _ h => h⟩
  | recv m =>
    simp only [step] at hs
    split at hs
    · rename_i hmem
      match m, hs with
      | .reply .dml r rb, hs =>
        simp only at hs
        split at hs <;> (injection hs with hs; subst hs; exact ⟨fun _ _ _ => rfl, fun _ h => h⟩)
      | .reply .prepare r rb, hs =>
        simp only at hs
        split at hs <;> (injection hs with hs; subst hs; exact ⟨fun _ _ _ => rfl, fun _ h => h⟩)
      | .reply .commit r rb, hs =>
        simp only at hs
        split at hs
        · rename_i hc
          cases rb with
          | true => simp only [if_true] at hs; injection hs with hs; subst hs; exact ⟨fun _ _ _ => rfl, fun _ h => h⟩
          | false =>
            simp only [Bool.false_eq_true, if_false] at hs; injection hs with hs; subst hs
            refine ⟨fun _ _ _ => rfl, fun b hb => ?_⟩
            cases b with
            | true => rfl
            | false =>
              have hm := h.msgs _ hmem hc.1
              exact absurd hm (h.noc_not_committed (h.toldF hb))
        · injection hs with hs; subst hs; exact ⟨fun _ _ _ => rfl, fun _ h => h⟩
      | .reply .rollback r rb, hs =>
        simp only at hs
        split at hs
        · rename_i hc
          injection hs with hs; subst hs
          refine ⟨fun _ _ _ => rfl, fun b hb => ?_⟩
          cases b with
          | false => rfl
          | true => exact absurd (h.toldT hb) (h.noc_not_committed (h.phA (Or.inl hc.2)))
        · injection hs with hs; subst hs; exact ⟨fun _ _ _ => rfl, fun _ h => h⟩
      | .req op r, hs => simp at hs
      | .query r p, hs => simp at hs
      | .answer r c, hs => simp at hs
    · simp at hs
  | deliver m =>
    simp only [step] at hs
    split at hs
    · match m, hs with
      | .req op r, hs =>
        simp only at hs
        cases ha : (handle (s.regs r) op).2 with
        | some rb =>
          simp only [ha] at hs; injection hs with hs; subst hs
          exact ⟨(hset _ _ _ (hhandle r op)).1, fun _ h => h⟩
        | none =>
          simp only [ha] at hs; injection hs with hs; subst hs
          exact ⟨(hset _ _ (.answer 0 true) (hhandle r op)).2, fun _ h => h⟩
      | .query r p, hs =>
        simp only at hs
        cases hv : verdict (s.regs 0) p <;> simp only [hv] at hs <;> injection hs with hs <;> subst hs <;>
          exact ⟨fun _ _ _ => rfl, fun _ h => h⟩
      | .answer r c, hs =>
        simp only at hs
        cases ht : (s.regs r).tx with
        | none => simp only [ht] at hs; injection hs with hs; subst hs; exact ⟨fun _ _ _ => rfl, fun _ h => h⟩
        | some t =>
          simp only [ht] at hs; injection hs with hs; subst hs
          exact ⟨(hset _ _ (.answer 0 true) (Or.inl (by simp [ht]))).2, fun _ h => h⟩
      | .reply op r rb, hs => simp at hs
    · simp at hs
  | dupKey r => exact absurd hg (by simp [Good])
  | timeout =>
    simp only [step] at hs
    cases ht : (s.regs 0).tx with
    | none => simp [ht] at hs
    | some t =>
      simp only [ht] at hs; injection hs with hs; subst hs
      exact ⟨(hset _ _ (.answer 0 true) (Or.inl (by simp [ht]))).2, fun _ h => h⟩
  | ask r =>
    simp only [step] at hs
    cases ht : (s.regs r).tx with
    | none => simp [ht] at hs
    | some t =>
      simp only [ht] at hs
      split at hs
      · simp at hs
      · injection hs with hs; subst hs; exact ⟨fun _ _ _ => rfl, fun _ h => h⟩
  | leaderChange r =>
    simp only [step] at hs
    cases ht : (s.regs r).tx with
    | none => simp only [ht] at hs; injection hs with hs; subst hs; exact ⟨fun _ _ _ => rfl, fun _ h => h⟩
    | some t =>
      simp only [ht, ((h.wf r).open_eq ht).2, if_true] at hs
      injection hs with hs; subst hs; exact ⟨fun _ _ _ => rfl, fun _ h => h⟩
  | forget r => exact absurd hg (by simp [Good])

/-- Decisions are final: once a region has committed or rolled back, nothing changes in it any more, whatever
messages still arrive; and the client's answer is not changed either. -/
theorem C34_final {s s' : St} (h : Reach s) {e : Ev} (hg : Good s e) (hs : step s e = some s') :
    (∀ r b, (s.regs r).outcome = some b → s'.regs r = s.regs r) ∧ (∀ b, s.told = some b → s'.told = some b) :=
  step_final h.inv hg hs

/-- The writes of a transaction are applied at most once in a region; exactly once if it committed there and not at
all if it was rolled back or is still open. -/
theorem C35_once {s : St} (h : Reach s) (r : Nat) :
    (s.regs r).commits = if (s.regs r).outcome = some true then 1 else 0 := by
  have hw := h.inv.wf r
  generalize s.regs r = x at hw
  cases hw <;> rfl

/-! ### Recovery without the coordinator -/

/-- What the regions do on their own. -/
def regionEv : Ev → Bool
  | .timeout => true
  | .ask _ => true
  | .deliver (.query _ _) => true
  | .deliver (.answer _ _) => true
  | _ => false

theorem finish_primary {s : St} (h : Reach s) :
    ∃ es s', (∀ e ∈ es, regionEv e = true) ∧ run s es = some s' ∧ Reach s' ∧ (s'.regs 0).tx = none ∧
      (∀ r, r ≠ 0 → s'.regs r = s.regs r) ∧ s'.contacted = s.contacted ∧ ((s.regs 0).tx = none → s'.regs 0 = s.regs 0) := by
  cases ht : (s.regs 0).tx with
  | none => exact ⟨[], s, by simp, rfl, h, ht, fun _ _ => rfl, rfl, fun _ => rfl⟩
  | some t =>
    have hs : step s .timeout = some (setReg s 0 (doRollback (s.regs 0) t)) := by simp only [step, ht]
    refine ⟨[.timeout], _, by simp [regionEv], by simp [run, hs], h.step .timeout trivial hs, ?_,
      fun r hr => setReg_ne s _ hr, rfl, by simp⟩
    rw [setReg_same, (h.inv.wf 0).rollback ht]

/-- A region that still holds the transaction when the primary has decided learns the decision by asking, whatever
it was. -/
theorem C34_recovers {s : St} (h : Reach s) (r : Nat) (t : Tx) (hr : r ≠ 0) (ht : (s.regs r).tx = some t)
    (h0 : (s.regs 0).tx = none) :
    ∃ c s', run s [.ask r, .deliver (.query r t.prepared), .deliver (.answer r c)] = some s' ∧ Reach s' ∧
      (s.regs 0).outcome = some c ∧ (s'.regs r).outcome = some c ∧ (s'.regs r).tx = none ∧
      (∀ i, i ≠ r → s'.regs i = s.regs i) ∧ s'.contacted = s.contacted := by
  have hi := h.inv
  have hst := hi.part r (Or.inl (by simp [ht]))
  have hw0 := hi.wf 0
  obtain ⟨c, hc, hv⟩ : ∃ c, (s.regs 0).outcome = some c ∧ verdict (s.regs 0) t.prepared = some c := by
    have h1 := hst.2
    have hpr : committedAt s 0 → t.prepared = true := by
      intro hc
      exact ((hi.msgs _ (hi.p6 hc)).2.1.2.2.2 r hst.1).prepared (hi.wf r) ht
    generalize hx : s.regs 0 = x at hw0 h0 h1
    cases hw0 with
    | fresh => simp [started, Reg.fresh] at h1
    | «open» b => simp at h0
    | committed =>
      refine ⟨true, rfl, ?_⟩
      simp [verdict, hpr (by simp [committedAt, hx])]
    | rolled => exact ⟨false, rfl, by simp [verdict]⟩
  have s1 : step s (.ask r) = some (send s (.query r t.prepared)) := by simp [step, ht, hr]
  have r1 := h.step (.ask r) trivial s1
  have s2 : step (send s (.query r t.prepared)) (.deliver (.query r t.prepared)) =
      some (send (send s (.query r t.prepared)) (.answer r c)) := by
    simp only [step]
    rw [if_pos (by simp [send])]
    simp only [show (send s (.query r t.prepared)).regs 0 = s.regs 0 from rfl, hv]
  have g2 : Good (send s (.query r t.prepared)) (.deliver (.query r t.prepared)) := by
    cases hp : t.prepared with
    | true => trivial
    | false =>
      intro t' ht'
      have : (s.regs r).tx = some t' := ht'
      rw [ht] at this; injection this with this; rw [← this]; exact hp
  have r2 := r1.step _ g2 s2
  have s3 : step (send (send s (.query r t.prepared)) (.answer r c)) (.deliver (.answer r c)) =
      some (setReg (send (send s (.query r t.prepared)) (.answer r c)) r
        (if c then (doCommit (s.regs r) t).1 else doRollback (s.regs r) t)) := by
    simp only [step]
    rw [if_pos (by simp [send])]
    simp only [show (send (send s (.query r t.prepared)) (.answer r c)).regs r = s.regs r from rfl, ht]
  have r3 := r2.step (.deliver (.answer r c)) trivial s3
  refine ⟨c, _, ?_, r3, hc, ?_⟩
  · simp only [run, s1, s2, s3, Option.bind_some]
  · have hreg : (if c then (doCommit (s.regs r) t).1 else doRollback (s.regs r) t).outcome = some c ∧
        (if c then (doCommit (s.regs r) t).1 else doRollback (s.regs r) t).tx = none := by
      cases c with
      | false => simp [(hi.wf r).rollback ht]
      | true =>
        have hpr : t.prepared = true := ((hi.msgs _ (hi.p6 hc)).2.1.2.2.2 r hst.1).prepared (hi.wf r) ht
        simp [(hi.wf r).commit ht hpr]
    refine ⟨?_, ?_, fun i hi => setReg_ne _ _ hi, rfl⟩
    · rw [setReg_same]; exact hreg.1
    · rw [setReg_same]; exact hreg.2

/-- While the primary holds the transaction open, a region asking learns nothing and stays as it is. -/
theorem C34_waits {s s' : St} (h : Reach s) (r : Nat) (p : Bool) (t : Tx) (ht : (s.regs 0).tx = some t)
    (hs : step s (.deliver (.query r p)) = some s') : s' = s := by
  have _ := h
  simp only [step] at hs
  split at hs
  · simp only [verdict, ht] at hs
    injection hs with hs; exact hs.symm
  · simp at hs

/-- No region is blocked for ever: from any moment of any run (the coordinator may be gone, messages lost) the regions
can finish the transaction everywhere by themselves; what has been decided before is kept. -/
theorem C34_no_blocking {s : St} (h : Reach s) :
    ∃ es s', (∀ e ∈ es, regionEv e = true) ∧ run s es = some s' ∧ Reach s' ∧ ∀ r, (s'.regs r).tx = none := by
  obtain ⟨es0, s0, he0, hr0, h0, ht0, hne0, hcon0, _⟩ := finish_primary h
  suffices hmain : ∀ l : List Nat, ∃ es s', (∀ e ∈ es, regionEv e = true) ∧ run s0 es = some s' ∧ Reach s' ∧
      (s'.regs 0).tx = none ∧ (∀ r ∈ l, (s'.regs r).tx = none) ∧ s'.contacted = s0.contacted by
    obtain ⟨es, s', he, hr, hre, _, hl, hcon⟩ := hmain s0.contacted
    refine ⟨es0 ++ es, s', ?_, by rw [run_append, hr0]; exact hr, hre, fun r => ?_⟩
    · intro e hm
      rcases List.mem_append.mp hm with hm | hm
      · exact he0 e hm
      · exact he e hm
    · cases ht : (s'.regs r).tx with
      | none => rfl
      | some t =>
        have := (hre.inv.part r (Or.inl (by simp [ht]))).1
        rw [hcon] at this
        rw [hl r this] at ht; simp at ht
  intro l
  induction l with
  | nil => exact ⟨[], s0, by simp, rfl, h0, ht0, by simp, rfl⟩
  | cons r l ih =>
    obtain ⟨es, s1, he, hr1, hre, hp, hl, hcon⟩ := ih
    cases ht : (s1.regs r).tx with
    | none =>
      refine ⟨es, s1, he, hr1, hre, hp, ?_, hcon⟩
      intro i hi
      rcases List.mem_cons.mp hi with rfl | hi
      · exact ht
      · exact hl i hi
    | some t =>
      have hr : r ≠ 0 := fun h0 => by subst h0; rw [hp] at ht; simp at ht
      obtain ⟨c, s2, hr2, hre2, _, _, htx, hne, hcon2⟩ := C34_recovers hre r t hr ht hp
      refine ⟨es ++ [.ask r, .deliver (.query r t.prepared), .deliver (.answer r c)], s2, ?_, by rw [run_append, hr1]; exact hr2,
        hre2, ?_, ?_, by rw [hcon2, hcon]⟩
      · intro e hm
        rcases List.mem_append.mp hm with hm | hm
        · exact he e hm
        · simp only [List.mem_cons, List.not_mem_nil, or_false] at hm
          rcases hm with rfl | rfl | rfl <;> rfl
      · rw [hne 0 (Ne.symm hr)]; exact hp
      · intro i hi
        by_cases hir : i = r
        · subst hir; exact htx
        · rw [hne i hir]
          exact hl i ((List.mem_cons.mp hi).resolve_left hir)

/-! ### The undisturbed runs -/

def dmlTo (r : Nat) : List Ev := [.sendDml r, .deliver (.req .dml r)]
def prepareAt (r : Nat) : List Ev := [.sendPrepare r, .deliver (.req .prepare r), .recv (.reply .prepare r false)]
def commitAt (r : Nat) : List Ev := [.sendCommit r, .deliver (.req .commit r)]
def rollbackAt (r : Nat) : List Ev := [.sendRollback r, .deliver (.req .rollback r)]

/-- One statement per region, then COMMIT, with every message delivered once and in time. -/
def normalRun (rs : List Nat) : List Ev :=
  dmlTo 0 ++ [.recv (.reply .dml 0 false)] ++ rs.flatMap dmlTo ++ [.startPrepare []] ++ (0 :: rs).flatMap prepareAt ++
    [.decideCommit] ++ commitAt 0 ++ [.recv (.reply .commit 0 false)] ++ rs.flatMap commitAt

/-- The same, ending in a ROLLBACK. -/
def rollbackRun (rs : List Nat) : List Ev :=
  dmlTo 0 ++ [.recv (.reply .dml 0 false)] ++ rs.flatMap dmlTo ++ [.decideAbort] ++ rollbackAt 0 ++
    [.recv (.reply .rollback 0 false)] ++ rs.flatMap rollbackAt

def opn (b : Bool) : Reg := ⟨some ⟨b, true⟩, false, false, none, 0⟩

theorem dml_run (rs : List Nat) (s : St) (hp : s.ph = .run) (hu : s.up = true)
    (hreg : ∀ i, s.regs i = .fresh ∨ s.regs i = opn false) :
    ∃ s', run s (rs.flatMap dmlTo) = some s' ∧ s'.ph = .run ∧ s'.up = true ∧
      (∀ i, s'.regs i = .fresh ∨ s'.regs i = opn false) ∧ (∀ i, s.regs i = opn false → s'.regs i = opn false) ∧
      (∀ r ∈ rs, s'.regs r = opn false) ∧ (∀ i, i ∈ s'.contacted ↔ i ∈ s.contacted ∨ i ∈ rs) ∧ s'.acked = s.acked ∧
      s'.told = s.told := by
  induction rs generalizing s with
  | nil => exact ⟨s, rfl, hp, hu, hreg, fun _ h => h, by simp, by simp, rfl, rfl⟩
  | cons r rs ih =>
    have h1 : run s (dmlTo r) = some (send (setReg { send s (.req .dml r) with contacted := r :: s.contacted } r (opn false))
        (.reply .dml r false)) := by
      simp only [dmlTo, run, step, hp, hu]
      rcases hreg r with hr | hr <;> simp [send, hr, handle, Reg.fresh, opn, setReg]
    obtain ⟨s', h2, h3, h4, h5, h6, h7, h8, h9, h10⟩ := ih (send (setReg { send s (.req .dml r) with contacted := r :: s.contacted } r (opn false))
        (.reply .dml r false)) hp hu (by
          intro i
          by_cases hi : i = r
          · right; simp [send, setReg, hi]
          · simpa [send, setReg, hi] using hreg i)
    have hmono : ∀ i, s.regs i = opn false → s'.regs i = opn false := by
      intro i hi
      refine h6 i ?_
      by_cases hir : i = r <;> simp [send, setReg, hir]
      exact hi
    refine ⟨s', by rw [List.flatMap_cons, run_append, h1]; exact h2, h3, h4, h5, hmono, ?_, ?_, h9, h10⟩
    · intro i hi
      rcases List.mem_cons.mp hi with rfl | hi
      · exact h6 i (by simp [send, setReg])
      · exact h7 i hi
    · intro i
      rw [h8]
      simp [send, setReg]
      tauto

theorem prepare_run (rs : List Nat) (s : St) (hp : s.ph = .prep) (hu : s.up = true) (hc : ∀ r ∈ rs, r ∈ s.contacted)
    (hreg : ∀ r ∈ rs, s.regs r = opn false ∨ s.regs r = opn true) :
    ∃ s', run s (rs.flatMap prepareAt) = some s' ∧ s'.ph = .prep ∧ s'.up = true ∧
      (∀ i, s.regs i = opn true → s'.regs i = opn true) ∧
      (∀ r ∈ rs, s'.regs r = opn true ∧ r ∈ s'.acked) ∧ (∀ i ∈ s.acked, i ∈ s'.acked) ∧ s'.contacted = s.contacted ∧
      s'.told = s.told := by
  induction rs generalizing s with
  | nil => exact ⟨s, rfl, hp, hu, fun _ h => h, by simp, fun _ h => h, rfl, rfl⟩
  | cons r rs ih =>
    have hcr := hc r List.mem_cons_self
    have h1 : run s (prepareAt r) = some { send (setReg (send s (.req .prepare r)) r (opn true)) (.reply .prepare r false) with
        up := true, acked := r :: s.acked } := by
      simp only [prepareAt, run, step, hp, hu]
      rcases hreg r List.mem_cons_self with hr | hr <;> simp [send, hr, handle, opn, setReg, hcr, hu]
    obtain ⟨s', h2, h3, h4, h5, h6, h7, h8, h9⟩ := ih { send (setReg (send s (.req .prepare r)) r (opn true)) (.reply .prepare r false) with
        up := true, acked := r :: s.acked } hp rfl (fun i hi => hc i (List.mem_cons_of_mem _ hi)) (by
          intro i hi
          by_cases hir : i = r
          · right; simp [send, setReg, hir]
          · simpa [send, setReg, hir] using hreg i (List.mem_cons_of_mem _ hi))
    refine ⟨s', by rw [List.flatMap_cons, run_append, h1]; exact h2, h3, h4, ?_, ?_, ?_, h8, h9⟩
    · intro i hi
      refine h5 i ?_
      by_cases hir : i = r <;> simp [send, setReg, hir]
      exact hi
    · intro i hi
      rcases List.mem_cons.mp hi with rfl | hi
      · exact ⟨h5 i (by simp [send, setReg]), h7 i (by simp)⟩
      · exact h6 i hi
    · intro i hi
      exact h7 i (List.mem_cons_of_mem _ hi)

def comm : Reg := ⟨none, false, true, some true, 1⟩
def rolled : Reg := ⟨none, true, true, some false, 0⟩

theorem commit_run (rs : List Nat) (s : St) (hp : s.ph = .commitRest) (hc : ∀ r ∈ rs, r ∈ s.contacted)
    (hreg : ∀ r ∈ rs, s.regs r = opn true ∨ s.regs r = comm) :
    ∃ s', run s (rs.flatMap commitAt) = some s' ∧ (∀ i, s.regs i = comm → s'.regs i = comm) ∧
      (∀ r ∈ rs, s'.regs r = comm) ∧ s'.told = s.told := by
  induction rs generalizing s with
  | nil => exact ⟨s, rfl, fun _ h => h, by simp, rfl⟩
  | cons r rs ih =>
    have hcr := hc r List.mem_cons_self
    have h1 : run s (commitAt r) = some (send (setReg (send s (.req .commit r)) r comm) (.reply .commit r false)) := by
      simp only [commitAt, run, step, hp]
      rcases hreg r List.mem_cons_self with hr | hr <;> simp [send, hr, handle, opn, comm, setReg, hcr, doCommit]
    obtain ⟨s', h2, h3, h4, h5⟩ := ih (send (setReg (send s (.req .commit r)) r comm) (.reply .commit r false)) hp
      (fun i hi => hc i (List.mem_cons_of_mem _ hi)) (by
          intro i hi
          by_cases hir : i = r
          · right; simp [send, setReg, hir]
          · simpa [send, setReg, hir] using hreg i (List.mem_cons_of_mem _ hi))
    refine ⟨s', by rw [List.flatMap_cons, run_append, h1]; exact h2, ?_, ?_, h5⟩
    · intro i hi
      refine h3 i ?_
      by_cases hir : i = r <;> simp [send, setReg, hir]
      exact hi
    · intro i hi
      rcases List.mem_cons.mp hi with rfl | hi
      · exact h3 i (by simp [send, setReg])
      · exact h4 i hi

theorem rollback_run (rs : List Nat) (s : St) (hp : s.ph = .abortRest)
    (hreg : ∀ r ∈ rs, s.regs r = opn false ∨ s.regs r = rolled) :
    ∃ s', run s (rs.flatMap rollbackAt) = some s' ∧ (∀ i, s.regs i = rolled → s'.regs i = rolled) ∧
      (∀ r ∈ rs, s'.regs r = rolled) ∧ s'.told = s.told := by
  induction rs generalizing s with
  | nil => exact ⟨s, rfl, fun _ h => h, by simp, rfl⟩
  | cons r rs ih =>
    obtain ⟨b, h1⟩ : ∃ b, run s (rollbackAt r) = some (send (setReg (send s (.req .rollback r)) r rolled) (.reply .rollback r b)) := by
      simp only [rollbackAt, run, step, hp]
      rcases hreg r List.mem_cons_self with hr | hr <;> simp [send, hr, handle, opn, rolled, setReg, doRollback]
    obtain ⟨s', h2, h3, h4, h5⟩ := ih (send (setReg (send s (.req .rollback r)) r rolled) (.reply .rollback r b)) hp (by
          intro i hi
          by_cases hir : i = r
          · right; simp [send, setReg, hir]
          · simpa [send, setReg, hir] using hreg i (List.mem_cons_of_mem _ hi))
    refine ⟨s', by rw [List.flatMap_cons, run_append, h1]; exact h2, ?_, ?_, h5⟩
    · intro i hi
      refine h3 i ?_
      by_cases hir : i = r <;> simp [send, setReg, hir]
      exact hi
    · intro i hi
      rcases List.mem_cons.mp hi with rfl | hi
      · exact h3 i (by simp [send, setReg])
      · exact h4 i hi

theorem first_run : ∃ s, run .init (dmlTo 0 ++ [.recv (.reply .dml 0 false)]) = some s ∧ s.ph = .run ∧ s.up = true ∧
    s.regs 0 = opn false ∧ (∀ i, s.regs i = .fresh ∨ s.regs i = opn false) ∧ s.contacted = [0] ∧ s.acked = [] := by
  refine ⟨_, by simp only [dmlTo, List.cons_append, List.nil_append, run, step, send, handle, setReg, St.init, Reg.fresh]; rfl, rfl, rfl, rfl, ?_, rfl, rfl⟩
  intro i
  by_cases hi : i = 0
  · right; simp [hi, opn]
  · left; simp [hi, Reg.fresh]

/-- The undisturbed run commits everywhere and says so. -/
theorem C34_commits (rs : List Nat) : ∃ s, run .init (normalRun rs) = some s ∧ s.told = some true ∧
    ∀ r ∈ 0 :: rs, committedAt s r ∧ (s.regs r).commits = 1 := by
  obtain ⟨s1, h1, p1, u1, r0, f1, c1, a1⟩ := first_run
  obtain ⟨s2, h2, p2, u2, f2, m2, d2, c2, a2, _⟩ := dml_run rs s1 p1 u1 f1
  have h3 : run s2 [.startPrepare []] = some { s2 with ph := .prep, contacted := 0 :: s2.contacted } := by
    simp [run, step, p2]
  obtain ⟨s4, h4, p4, u4, m4, d4, a4, c4, t4⟩ := prepare_run (0 :: rs) { s2 with ph := .prep, contacted := 0 :: s2.contacted } rfl u2
    (by intro r hr
        rcases List.mem_cons.mp hr with rfl | hr
        · simp
        · simp only [List.mem_cons]; right; rw [c2]; exact Or.inr hr)
    (by intro r hr
        left
        rcases List.mem_cons.mp hr with rfl | hr
        · exact m2 0 r0
        · exact d2 r hr)
  have hall : ∀ r ∈ s4.contacted, r ∈ s4.acked := by
    intro r hr
    rw [c4] at hr
    refine (d4 r ?_).2
    simp only [List.mem_cons] at hr ⊢
    rcases hr with hr | hr
    · exact Or.inl hr
    · rw [c2, c1] at hr
      simpa using hr
  have h5 : run s4 [.decideCommit] = some { s4 with ph := .commit } := by
    simp only [run, step, p4, true_and]
    rw [if_pos hall]; rfl
  have r40 := (d4 0 List.mem_cons_self).1
  have h6 : run { s4 with ph := .commit } (commitAt 0 ++ [.recv (.reply .commit 0 false)]) =
      some { send (setReg (send { s4 with ph := .commit } (.req .commit 0)) 0 comm) (.reply .commit 0 false) with
        ph := .commitRest, told := some true } := by
    simp [commitAt, run, step, send, setReg, handle, r40, opn, doCommit, comm]
  obtain ⟨s7, h7, m7, d7, t7⟩ := commit_run rs { send (setReg (send { s4 with ph := .commit } (.req .commit 0)) 0 comm) (.reply .commit 0 false) with
        ph := .commitRest, told := some true } rfl
    (by intro r hr
        show r ∈ s4.contacted
        rw [c4]; simp only [List.mem_cons]; right; rw [c2]; exact Or.inr hr)
    (by intro r hr
        by_cases hr0 : r = 0
        · right; simp [send, setReg, hr0]
        · left; simpa [send, setReg, hr0] using (d4 r (List.mem_cons_of_mem _ hr)).1)
  refine ⟨s7, ?_, t7, ?_⟩
  · have e : normalRun rs = (dmlTo 0 ++ [.recv (.reply .dml 0 false)]) ++ (rs.flatMap dmlTo ++ ([.startPrepare []] ++
        ((0 :: rs).flatMap prepareAt ++ ([.decideCommit] ++ ((commitAt 0 ++ [.recv (.reply .commit 0 false)]) ++ rs.flatMap commitAt))))) := by
      simp only [normalRun, List.append_assoc]
    rw [e, run_append, h1, Option.bind_some, run_append, h2, Option.bind_some, run_append, h3, Option.bind_some, run_append, h4,
      Option.bind_some, run_append, h5, Option.bind_some, run_append, h6, Option.bind_some, h7]
  · intro r hr
    have : s7.regs r = comm := by
      rcases List.mem_cons.mp hr with rfl | hr
      · exact m7 0 (by simp [send, setReg])
      · exact d7 r hr
    simp [committedAt, this, comm]

/-- The undisturbed ROLLBACK rolls back everywhere, leaves the mark and says so. -/
theorem C34_rolls_back (rs : List Nat) : ∃ s, run .init (rollbackRun rs) = some s ∧ s.told = some false ∧
    ∀ r ∈ 0 :: rs, rolledBackAt s r ∧ (s.regs r).tag = true ∧ (s.regs r).commits = 0 := by
  obtain ⟨s1, h1, p1, u1, r0, f1, c1, a1⟩ := first_run
  obtain ⟨s2, h2, p2, u2, f2, m2, d2, c2, a2, _⟩ := dml_run rs s1 p1 u1 f1
  have h3 : run s2 [.decideAbort] = some { s2 with ph := .abort } := by
    simp [run, step, p2]
  have r20 := m2 0 r0
  have h6 : run { s2 with ph := .abort } (rollbackAt 0 ++ [.recv (.reply .rollback 0 false)]) =
      some { send (setReg (send { s2 with ph := .abort } (.req .rollback 0)) 0 rolled) (.reply .rollback 0 false) with
        ph := .abortRest, told := some false } := by
    simp [rollbackAt, run, step, send, setReg, handle, r20, opn, doRollback, rolled]
  obtain ⟨s7, h7, m7, d7, t7⟩ := rollback_run rs { send (setReg (send { s2 with ph := .abort } (.req .rollback 0)) 0 rolled) (.reply .rollback 0 false) with
        ph := .abortRest, told := some false } rfl
    (by intro r hr
        by_cases hr0 : r = 0
        · right; simp [send, setReg, hr0]
        · left; simpa [send, setReg, hr0] using d2 r hr)
  refine ⟨s7, ?_, t7, ?_⟩
  · have e : rollbackRun rs = (dmlTo 0 ++ [.recv (.reply .dml 0 false)]) ++ (rs.flatMap dmlTo ++ ([.decideAbort] ++
        ((rollbackAt 0 ++ [.recv (.reply .rollback 0 false)]) ++ rs.flatMap rollbackAt))) := by
      simp only [rollbackRun, List.append_assoc]
    rw [e, run_append, h1, Option.bind_some, run_append, h2, Option.bind_some, run_append, h3, Option.bind_some, run_append, h6,
      Option.bind_some, h7]
  · intro r hr
    have : s7.regs r = rolled := by
      rcases List.mem_cons.mp hr with rfl | hr
      · exact m7 0 (by simp [send, setReg])
      · exact d7 r hr
    simp [rolledBackAt, this, rolled]

/-! ### What the excluded events do -/

/-- A region asks the primary before it has prepared; the question is answered after the primary has committed: the
region, prepared in between, is told to roll back. -/
theorem C34_stale_query_counterexample :
    ∃ s, run .init (dmlTo 0 ++ [.recv (.reply .dml 0 false)] ++ dmlTo 1 ++ [.ask 1, .startPrepare []] ++
        [0, 1].flatMap prepareAt ++ [.decideCommit] ++ commitAt 0 ++
        [.deliver (.query 1 false), .deliver (.answer 1 false)]) = some s ∧
      committedAt s 0 ∧ rolledBackAt s 1 :=
  ⟨_, rfl, rfl, rfl⟩

/-- The first statement fails with a duplicate key, so the primary holds a transaction without writes.  Its rollback
leaves no mark: a region that has prepared, and whose ROLLBACK is lost, is told to commit when it asks; the client was
told that the transaction was rolled back. -/
theorem C34_empty_primary_counterexample :
    ∃ s, run .init ([.sendDml 0, .dupKey 0, .recv (.reply .dml 0 false)] ++ [1, 2].flatMap dmlTo ++ [.startPrepare []] ++
        prepareAt 1 ++ [.decideAbort] ++ rollbackAt 0 ++ [.recv (.reply .rollback 0 false)] ++ rollbackAt 2 ++
        [.ask 1, .deliver (.query 1 true), .deliver (.answer 1 true)]) = some s ∧
      s.told = some false ∧ committedAt s 1 ∧ rolledBackAt s 2 :=
  ⟨_, rfl, rfl, rfl, rfl⟩

/-- The same if the primary's leader changes instead: the transaction without writes is dropped there. -/
theorem C34_empty_primary_leader_counterexample :
    ∃ s, run .init ([.sendDml 0, .dupKey 0, .recv (.reply .dml 0 false)] ++ [1, 2].flatMap dmlTo ++ [.startPrepare []] ++
        prepareAt 1 ++ [.leaderChange 0, .ask 1, .deliver (.query 1 true), .deliver (.answer 1 true),
          .ask 2, .deliver (.query 2 false), .deliver (.answer 2 false)]) = some s ∧
      committedAt s 1 ∧ rolledBackAt s 2 :=
  ⟨_, rfl, rfl, rfl⟩

/-- The list of finished transactions is cleared every ten minutes; a PREPARE repeated after that executes the
transaction again, and the writes are applied twice. -/
theorem C35_forgotten_counterexample :
    ∃ s, run .init (normalRun [1] ++ [.forget 1, .deliver (.req .prepare 1), .ask 1, .deliver (.query 1 true),
        .deliver (.answer 1 true)]) = some s ∧ (s.regs 1).commits = 2 :=
  ⟨_, rfl, rfl⟩

/-! ### The hypotheses are met -/

/-- A run with lost, late and repeated messages in which the coordinator disappears after the primary has committed;
region 2 finishes by asking. -/
def lossyRun : List Ev :=
  dmlTo 0 ++ [.recv (.reply .dml 0 false), .deliver (.req .dml 0)] ++ [1, 2].flatMap dmlTo ++ [.startPrepare []] ++
    [0, 1, 2].flatMap prepareAt ++ [.ask 2, .deliver (.query 2 true), .deliver (.req .dml 2), .decideCommit] ++ commitAt 0 ++
    [.recv (.reply .commit 0 false), .deliver (.req .prepare 0)] ++ commitAt 1 ++ [.crash, .deliver (.req .dml 1),
      .deliver (.query 2 true), .deliver (.answer 2 true), .deliver (.answer 2 true), .deliver (.req .commit 0)]

def goodB (s : St) : Ev → Bool
  | .dupKey _ => false
  | .forget _ => false
  | .deliver (.query r false) => ((s.regs r).tx.map Tx.prepared).getD false = false
  | _ => true

def goodRun : St → List Ev → Bool
  | _, [] => true
  | s, e :: es => goodB s e && (match step s e with | some s' => goodRun s' es | none => false)

theorem goodB_good {s : St} {e : Ev} (h : goodB s e = true) : Good s e := by
  unfold Good
  split
  · simp [goodB] at h
  · simp [goodB] at h
  · intro t ht
    simpa [goodB, ht] using h
  · trivial

theorem goodRun_reach {s : St} (hs : Reach s) (es : List Ev) (h : goodRun s es = true) : ∃ s', run s es = some s' ∧ Reach s' := by
  induction es generalizing s with
  | nil => exact ⟨s, rfl, hs⟩
  | cons e es ih =>
    simp only [goodRun, Bool.and_eq_true] at h
    cases h1 : step s e with
    | none => rw [h1] at h; simp at h
    | some s1 =>
      rw [h1] at h
      obtain ⟨s', h2, h3⟩ := ih (hs.step e (goodB_good h.1) h1) h.2
      exact ⟨s', by simp [run, h1, h2], h3⟩

example : ∃ s, run .init lossyRun = some s ∧ Reach s ∧ s.ph = .dead ∧ s.told = some true ∧
    committedAt s 0 ∧ committedAt s 1 ∧ committedAt s 2 := by
  obtain ⟨s, h1, h2⟩ := goodRun_reach Reach.init lossyRun rfl
  have h3 : (run .init lossyRun).map (fun s => (s.ph, s.told, (s.regs 0).outcome, (s.regs 1).outcome, (s.regs 2).outcome)) =
    some (.dead, some true, some true, some true, some true) := rfl
  rw [h1] at h3
  simp at h3
  exact ⟨s, h1, h2, h3.1, h3.2.1, h3.2.2.1, h3.2.2.2.1, h3.2.2.2.2⟩

/-- The primary times out while the other regions are prepared; they roll back by asking, and the late COMMIT is refused. -/
def timeoutRun : List Ev :=
  dmlTo 0 ++ [.recv (.reply .dml 0 false)] ++ dmlTo 1 ++ [.startPrepare [2]] ++ [0, 1, 2].flatMap prepareAt ++
    [.decideCommit, .timeout] ++ commitAt 0 ++ [.ask 1, .deliver (.query 1 true), .recv (.reply .commit 0 true),
      .deliver (.answer 1 false), .sendRollback 0, .deliver (.req .rollback 0), .recv (.reply .rollback 0 true)] ++ rollbackAt 2

example : ∃ s, run .init timeoutRun = some s ∧ Reach s ∧ s.told = some false ∧
    rolledBackAt s 0 ∧ rolledBackAt s 1 ∧ rolledBackAt s 2 := by
  obtain ⟨s, h1, h2⟩ := goodRun_reach Reach.init timeoutRun rfl
  have h3 : (run .init timeoutRun).map (fun s => (s.told, (s.regs 0).outcome, (s.regs 1).outcome, (s.regs 2).outcome)) =
    some (some false, some false, some false, some false) := rfl
  rw [h1] at h3
  simp at h3
  exact ⟨s, h1, h2, h3.1, h3.2.1, h3.2.2.1, h3.2.2.2⟩

/-- **C34.** Whatever state a region is in, COMMIT applies the writes of a transaction only if it was prepared; one that was
not is dropped and the coordinator gets an error. -/
theorem C34_commit_needs_prepare (x : Reg) (t : Tx) (ht : x.tx = some t) (hw : t.writes = true) :
    ((handle x .commit).1.commits = x.commits + 1 ↔ t.prepared = true) ∧
      (t.prepared = false → (handle x .commit).1.outcome = some false ∧ (handle x .commit).1.commits = x.commits ∧
        (handle x .commit).2 = none) := by
  cases hp : t.prepared <;> simp [handle, ht, doCommit, hw, hp]

example : (handle ⟨some ⟨false, true⟩, false, false, none, 0⟩ .commit).2 = none :=
  (C34_commit_needs_prepare _ ⟨false, true⟩ rfl rfl).2 rfl |>.2.2

end BaikalDB.Txn
