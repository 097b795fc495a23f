import Verif.Agg.Spec
import Mathlib.Data.List.Perm.Subperm
import Mathlib.Tactic.Ring

/-!
# One aggregate, row by row and partial by partial

`Inv`: what an aggregate's state means for the rows it has seen.  `Rep`: what a partial result in a row's slot means.
-/

namespace BaikalDB.Agg

variable {ρ V D O : Type}

/-- Doubles are added as real numbers are: rounding is left out. -/
structure Laws (e : Env V D O) : Prop where
  add_zero : ∀ x, e.add x e.zero = x
  add_comm : ∀ x y, e.add x y = e.add y x
  add_assoc : ∀ x y z, e.add (e.add x y) z = e.add x (e.add y z)

/-- `compare` orders the values of a column (`C28_total_preorder`). -/
structure Order (cmp : V → V → Int) (T : V → Prop) : Prop where
  flip : ∀ a b, T a → T b → (0 < cmp a b ↔ cmp b a < 0)
  trans : ∀ a b c, T a → T b → T c → cmp a b ≤ 0 → cmp b c ≤ 0 → cmp a c ≤ 0

theorem Order.refl {cmp : V → V → Int} {T : V → Prop} (h : Order cmp T) {a : V} (ha : T a) : cmp a a = 0 := by
  have := h.flip a a ha ha; omega

theorem Order.symm {cmp : V → V → Int} {T : V → Prop} (h : Order cmp T) {a b : V} (ha : T a) (hb : T b) (hab : cmp a b = 0) :
    cmp b a = 0 := by
  have := h.flip a b ha hb; have := h.flip b a hb ha; omega

theorem Order.eqv_trans {cmp : V → V → Int} {T : V → Prop} (h : Order cmp T) {a b c : V} (ha : T a) (hb : T b) (hc : T c)
    (hab : cmp a b = 0) (hbc : cmp b c = 0) : cmp a c = 0 := by
  have h1 := h.trans a b c ha hb hc (by omega) (by omega)
  have h2 := h.trans c b a hc hb ha (by rw [h.symm hb hc hbc]) (by rw [h.symm ha hb hab])
  have := h.flip c a hc ha; have := h.flip a c ha hc
  omega

/-! ## Arguments -/

theorem arg0_scalar (c : Call ρ V O) (r : ρ) : Spec.scalar c r = (arg0 c r).val? := by
  unfold Spec.scalar arg0
  cases c.args <;> simp [Arg.val?]

theorem arg0_bitmap (c : Call ρ V O) (r : ρ) : Spec.bitmap c r = (arg0 c r).bits? := by
  unfold Spec.bitmap arg0
  cases c.args <;> simp [Arg.bits?]

theorem text_eq (e : Env V D O) (c : Call ρ V O) (r : ρ) : text e c r = Spec.text e c r := by
  unfold text Spec.text
  have key : ∀ l : List (ρ → Arg V),
      ((l.filterMap fun a => (a r).val?.map e.toStr) = [] ↔ ¬ ∃ a ∈ l, (a r).val?.isSome) ∧
        (l.filterMap fun a => (a r).val?.map e.toStr).flatten = l.flatMap fun a => ((a r).val?.map e.toStr).getD [] := by
    intro l
    induction l with
    | nil => simp
    | cons a l ih =>
      cases ha : (a r).val? with
      | some v =>
        refine ⟨by simp [ha], ?_⟩
        simp [List.filterMap_cons, ha, ih.2]
      | none =>
        refine ⟨?_, by simp [List.filterMap_cons, ha, ih.2]⟩
        rw [List.filterMap_cons, ha]
        simp only [Option.map_none]
        rw [ih.1]
        simp [ha]
  have h := key c.args
  by_cases hc : ∃ a ∈ c.args, (a r).val?.isSome
  · rw [if_pos hc, ← h.2]
    have : (c.args.filterMap fun a => (a r).val?.map e.toStr) ≠ [] := fun h0 => h.1.mp h0 hc
    simp only [List.isEmpty_iff, this, if_false]
  · rw [if_neg hc]
    simp only [List.isEmpty_iff, h.1.mpr hc, if_true]

open Classical in
theorem counted_eq (c : Call ρ V O) (r : ρ) : (c.args.all (fun a => !(a r).isNull)) = decide (Spec.counted c r) := by
  rw [Bool.eq_iff_iff, List.all_eq_true, decide_eq_true_iff]
  refine forall₂_congr fun a _ => ?_
  cases a r <;> simp [Arg.isNull]

abbrev vals (c : Call ρ V O) (R : List ρ) : List V := R.filterMap (Spec.scalar c)
abbrev bms (c : Call ρ V O) (R : List ρ) : List Nat := R.filterMap (Spec.bitmap c)
noncomputable abbrev texts (e : Env V D O) (c : Call ρ V O) (R : List ρ) : List Bytes := R.filterMap (Spec.text e c)
noncomputable abbrev mems (e : Env V D O) (c : Call ρ V O) (R : List ρ) : List V := R.filterMap (Spec.member e c)
open Classical in
noncomputable abbrev cnt (c : Call ρ V O) (R : List ρ) : Nat := (R.filter (fun r => decide (Spec.counted c r))).length

def orAll (l : List Nat) : Nat := l.foldr (· ||| ·) 0
def xorAll (l : List Nat) : Nat := l.foldr (· ^^^ ·) 0
def andAll : List Nat → Nat
  | [] => 0
  | [x] => x
  | x :: l => x &&& andAll l

/-! ## Meaning of partials and states -/

def SumIs (f : V → BitVec 64) (vs : List V) (p : Slot V D) : Prop :=
  (vs = [] ∧ p = .null) ∨ (vs ≠ [] ∧ p = .int (vs.map f).sum)

def DblIs (e : Env V D O) (vs : List V) (p : Slot V D) : Prop :=
  (vs = [] ∧ p = .null) ∨ (vs ≠ [] ∧ p = .dbl (Spec.total e (vs.map e.toDbl)))

def AvgIs (e : Env V D O) (vs : List V) (p : Slot V D) : Prop :=
  p = .avg (Spec.total e (vs.map e.toDbl)) (BitVec.ofNat 64 vs.length)

def BestIs (e : Env V D O) (isMin : Bool) (vs : List V) (p : Slot V D) : Prop :=
  (vs = [] ∧ p = .null) ∨ ∃ v, p = .sc v ∧ v ∈ vs ∧ ∀ w ∈ vs, if isMin then e.cmp v w ≤ 0 else e.cmp w v ≤ 0

def TextIs (sep : Bytes) (ts : List Bytes) (p : Slot V D) : Prop :=
  (ts = [] ∧ p = .null) ∨ (ts ≠ [] ∧ p = .str (sep.intercalate ts))

/-- The batch of an aggregate with ORDER BY: each entry stands for some rows with the same sort key. -/
def BatchIs (e : Env V D O) (c : Call ρ V O) (o : ρ → O) (R : List ρ) (b : List (O × Bytes)) : Prop :=
  ∃ (L : List (O × List ρ)) (rest : List ρ), b = L.map (fun x => (x.1, c.sep.intercalate (texts e c x.2))) ∧
    (∀ x ∈ L, texts e c x.2 ≠ [] ∧ ∀ r ∈ x.2, o r = x.1) ∧ texts e c rest = [] ∧ (L.flatMap (·.2) ++ rest).Perm R

def Inv (e : Env V D O) (c : Call ρ V O) (s : St V D O) (R : List ρ) : Prop :=
  s.ub = false ∧
  match c.kind with
  | .countStar => s.slot = .int (BitVec.ofNat 64 R.length)
  | .count => s.slot = .int (BitVec.ofNat 64 (cnt c R))
  | .sum => SumIs e.toInt (vals c R) s.slot
  | .sumDbl => DblIs e (vals c R) s.slot
  | .avg => AvgIs e (vals c R) s.slot
  | .min => BestIs e true (vals c R) s.slot
  | .max => BestIs e false (vals c R) s.slot
  | .rbOr => s.assigned = true ∧ s.side = orAll (bms c R)
  | .rbAnd => (bms c R = [] ∧ s.assigned = false) ∨ (bms c R ≠ [] ∧ s.assigned = true ∧ s.side = andAll (bms c R))
  | .rbXor => s.assigned = true ∧ s.side = xorAll (bms c R)
  | .rbBuild => s.assigned = true ∧ s.side = orAll ((vals c R).map fun v => 1 <<< e.toU32 v)
  | .concat => match c.order with | none => TextIs c.sep (texts e c R) s.slot | some o => BatchIs e c o R s.batch
  | .multiCount | .multiSum | .multiSumDbl | .multiConcat =>
    Spec.Distinct e.cmp s.set (mems e c R) ∧
      (s.slot = .null ∨ ∃ l t, s.slot = .str l ∧ unserialize e l = some t ∧ ∀ x ∈ t, ∃ y ∈ s.set, e.cmp y x = 0)
  | .absent => s.slot = .null

def SetIs (e : Env V D O) (c : Call ρ V O) (R : List ρ) (p : Slot V D) : Prop :=
  (mems e c R = [] ∧ p = .str []) ∨ ∃ S l, S ≠ [] ∧ Spec.Distinct e.cmp S (mems e c R) ∧ serialize e S = some l ∧ p = .str l

def Rep (e : Env V D O) (c : Call ρ V O) (p : Slot V D) (R : List ρ) : Prop :=
  match c.kind with
  | .countStar => p = .int (BitVec.ofNat 64 R.length)
  | .count => p = .int (BitVec.ofNat 64 (cnt c R))
  | .sum => SumIs e.toInt (vals c R) p
  | .sumDbl => DblIs e (vals c R) p
  | .avg => AvgIs e (vals c R) p ∨ (vals c R = [] ∧ p = .null)
  | .min => BestIs e true (vals c R) p
  | .max => BestIs e false (vals c R) p
  | .rbOr => p = .bm (orAll (bms c R)) ∨ (R = [] ∧ p = .null)
  | .rbAnd => (bms c R = [] ∧ p = .null) ∨ (bms c R ≠ [] ∧ p = .bm (andAll (bms c R)))
  | .rbXor => p = .bm (xorAll (bms c R)) ∨ (R = [] ∧ p = .null)
  | .rbBuild => p = .bm (orAll ((vals c R).map fun v => 1 <<< e.toU32 v)) ∨ (R = [] ∧ p = .null)
  | .concat => TextIs c.sep (texts e c R) p
  | .multiCount | .multiSum | .multiSumDbl | .multiConcat => SetIs e c R p
  | .absent => p = .null

/-- For RB_AND_AGG and the set aggregates: rows are only there together with a value that is not NULL. -/
def Needs (e : Env V D O) (c : Call ρ V O) (R : List ρ) : Prop :=
  (c.kind = .rbAnd → R ≠ [] → bms c R ≠ []) ∧ (c.kind.isMulti = true → R ≠ [] → mems e c R ≠ [])

/-! ## Lists -/

theorem total_append {e : Env V D O} (h : Laws e) (a b : List D) : Spec.total e (a ++ b) = e.add (Spec.total e a) (Spec.total e b) := by
  induction a with
  | nil => simp only [Spec.total, List.nil_append, List.foldr_nil]; rw [h.add_comm, h.add_zero]
  | cons x a ih => simp only [Spec.total, List.cons_append, List.foldr_cons] at ih ⊢; rw [ih, h.add_assoc]

theorem total_single {e : Env V D O} (h : Laws e) (x : D) : Spec.total e [x] = x := by
  simp [Spec.total, h.add_zero]

theorem orAll_append (a b : List Nat) : orAll (a ++ b) = orAll a ||| orAll b := by
  induction a with
  | nil => simp [orAll]
  | cons x a ih => simp only [orAll, List.cons_append, List.foldr_cons] at ih ⊢; rw [ih, Nat.or_assoc]

theorem xorAll_append (a b : List Nat) : xorAll (a ++ b) = xorAll a ^^^ xorAll b := by
  induction a with
  | nil => simp [xorAll]
  | cons x a ih => simp only [xorAll, List.cons_append, List.foldr_cons] at ih ⊢; rw [ih, Nat.xor_assoc]

theorem andAll_cons (x : Nat) {l : List Nat} (h : l ≠ []) : andAll (x :: l) = x &&& andAll l := by
  cases l with
  | nil => exact absurd rfl h
  | cons y l => rfl

theorem andAll_append {a b : List Nat} (ha : a ≠ []) (hb : b ≠ []) : andAll (a ++ b) = andAll a &&& andAll b := by
  induction a with
  | nil => exact absurd rfl ha
  | cons x a ih =>
    by_cases h0 : a = []
    · subst h0; simp only [List.cons_append, List.nil_append]; rw [andAll_cons x hb]; rfl
    · rw [List.cons_append, andAll_cons _ (by simp [h0]), andAll_cons _ h0, ih h0, Nat.and_assoc]

theorem intercalate_append (sep : Bytes) {a b : List Bytes} (ha : a ≠ []) (hb : b ≠ []) :
    sep.intercalate (a ++ b) = sep.intercalate a ++ sep ++ sep.intercalate b := by
  induction a with
  | nil => exact absurd rfl ha
  | cons x a ih =>
    cases a with
    | nil =>
      cases b with
      | nil => exact absurd rfl hb
      | cons y b => simp [List.intercalate, List.intersperse]
    | cons y a =>
      have := ih (by simp)
      simp only [List.intercalate, List.cons_append, List.intersperse, List.flatten_cons] at this ⊢
      rw [this]
      simp

theorem intercalate_single (sep x : Bytes) : sep.intercalate [x] = x := by simp [List.intercalate]

theorem bv_succ (n : Nat) : BitVec.ofNat 64 n + 1 = BitVec.ofNat 64 (n + 1) := by
  rw [show (1 : BitVec 64) = BitVec.ofNat 64 1 from rfl, ← BitVec.ofNat_add]

/-! ## Rows -/

theorem SumIs.add {f : V → BitVec 64} {vs ws : List V} {p : Slot V D} (h : SumIs f vs p) (hw : ws ≠ []) :
    SumIs f (vs ++ ws) (addInt p (ws.map f).sum) := by
  right
  refine ⟨by simp [hw], ?_⟩
  rcases h with ⟨rfl, rfl⟩ | ⟨_, rfl⟩
  · simp [addInt]
  · simp [addInt]

theorem DblIs.add {e : Env V D O} (hl : Laws e) {vs ws : List V} {p : Slot V D} (h : DblIs e vs p) (hw : ws ≠ []) :
    DblIs e (vs ++ ws) (addDbl e p (Spec.total e (ws.map e.toDbl))) := by
  right
  refine ⟨by simp [hw], ?_⟩
  rcases h with ⟨rfl, rfl⟩ | ⟨_, rfl⟩
  · simp [addDbl]
  · simp only [addDbl, List.map_append, total_append hl]

theorem BestIs.add {e : Env V D O} {T : V → Prop} (ho : Order e.cmp T) {b : Bool} {vs ws : List V} {p : Slot V D} (h : BestIs e b vs p)
    {v : V} (hv : v ∈ ws) (hb : ∀ w ∈ ws, if b then e.cmp v w ≤ 0 else e.cmp w v ≤ 0) (hT : ∀ x ∈ vs ++ ws, T x) :
    BestIs e b (vs ++ ws) (better e b p v) := by
  right
  have hTv : T v := hT v (by simp [hv])
  rcases h with ⟨rfl, rfl⟩ | ⟨u, rfl, hu, hub⟩
  · exact ⟨v, by simp [better], by simpa using hv, by simpa using hb⟩
  · have hTu : T u := hT u (by simp [hu])
    have f1 := ho.flip u v hTu hTv
    have f2 := ho.flip v u hTv hTu
    cases b
    · by_cases hc : e.cmp u v < 0
      · refine ⟨v, by simp [better, hc], by simp [hv], ?_⟩
        intro w hw
        rcases List.mem_append.mp hw with hw | hw
        · have := hub w hw
          simp only [Bool.false_eq_true, if_false] at this ⊢
          exact ho.trans w u v (hT w (by simp [hw])) hTu hTv this (by omega)
        · exact hb w hw
      · refine ⟨u, by simp [better, hc], by simp [hu], ?_⟩
        intro w hw
        rcases List.mem_append.mp hw with hw | hw
        · exact hub w hw
        · have := hb w hw
          simp only [Bool.false_eq_true, if_false] at this ⊢
          exact ho.trans w v u (hT w (by simp [hw])) hTv hTu this (by omega)
    · by_cases hc : e.cmp u v > 0
      · refine ⟨v, by simp [better, hc], by simp [hv], ?_⟩
        intro w hw
        rcases List.mem_append.mp hw with hw | hw
        · have := hub w hw
          simp only [if_true] at this ⊢
          exact ho.trans v u w hTv hTu (hT w (by simp [hw])) (by omega) this
        · exact hb w hw
      · refine ⟨u, by simp [better, hc], by simp [hu], ?_⟩
        intro w hw
        rcases List.mem_append.mp hw with hw | hw
        · exact hub w hw
        · have := hb w hw
          simp only [if_true] at this ⊢
          exact ho.trans u v w hTu hTv (hT w (by simp [hw])) (by omega) this

theorem TextIs.add {sep : Bytes} {ts us : List Bytes} {p : Slot V D} (h : TextIs sep ts p) (hu : us ≠ []) :
    TextIs sep (ts ++ us) (concatTo sep p (sep.intercalate us)) := by
  right
  refine ⟨by simp [hu], ?_⟩
  rcases h with ⟨rfl, rfl⟩ | ⟨h0, rfl⟩
  · simp [concatTo]
  · simp only [concatTo]; rw [intercalate_append sep h0 hu]

theorem setInsert_distinct {e : Env V D O} {T : V → Prop} (ho : Order e.cmp T) {S vs : List V} {v : V} (h : Spec.Distinct e.cmp S vs)
    (hT : ∀ x ∈ vs, T x) (hv : T v) : Spec.Distinct e.cmp (setInsert e S v) (vs ++ [v]) := by
  obtain ⟨h1, h2, h3⟩ := h
  unfold setInsert
  by_cases hc : S.any (fun x => e.cmp x v == 0)
  · rw [if_pos hc]
    refine ⟨fun s hs => by simp [h1 s hs], h2, fun w hw => ?_⟩
    rcases List.mem_append.mp hw with hw | hw
    · exact h3 w hw
    · simp only [List.mem_singleton] at hw
      subst hw
      simpa using hc
  · rw [if_neg hc]
    refine ⟨fun s hs => ?_, ?_, fun w hw => ?_⟩
    · rcases List.mem_append.mp hs with hs | hs
      · simp [h1 s hs]
      · simp only [List.mem_singleton] at hs; simp [hs]
    · rw [List.pairwise_append]
      refine ⟨h2, by simp, fun a ha b hb => ?_⟩
      simp only [List.mem_singleton] at hb
      subst hb
      intro h0
      exact hc (List.any_eq_true.mpr ⟨a, ha, by simp [h0]⟩)
    · rcases List.mem_append.mp hw with hw | hw
      · obtain ⟨s, hs, hsw⟩ := h3 w hw
        exact ⟨s, by simp [hs], hsw⟩
      · simp only [List.mem_singleton] at hw
        subst hw
        exact ⟨w, by simp, ho.refl hv⟩

theorem subset_setInsert (e : Env V D O) (S : List V) (v : V) : ∀ x ∈ S, x ∈ setInsert e S v := by
  intro x hx
  unfold setInsert
  split
  · exact hx
  · simp [hx]

theorem subset_setMerge (e : Env V D O) (t : List V) : ∀ (S : List V), ∀ x ∈ S, x ∈ setMerge e S t := by
  induction t with
  | nil => intro S x hx; exact hx
  | cons v t ih => intro S x hx; exact ih _ x (subset_setInsert e S v x hx)

theorem setMerge_distinct {e : Env V D O} {T : V → Prop} (ho : Order e.cmp T) {t : List V} :
    ∀ {S vs : List V}, Spec.Distinct e.cmp S vs → (∀ x ∈ vs, T x) → (∀ x ∈ t, T x) → Spec.Distinct e.cmp (setMerge e S t) (vs ++ t) := by
  induction t with
  | nil => intro S vs h _ _; simpa [setMerge] using h
  | cons v t ih =>
    intro S vs h hv ht
    have h1 := setInsert_distinct ho h hv (ht v (by simp))
    have := ih h1 (by
      intro x hx
      rcases List.mem_append.mp hx with hx | hx
      · exact hv x hx
      · simp only [List.mem_singleton] at hx; rw [hx]; exact ht v (by simp)) (fun x hx => ht x (by simp [hx]))
    simpa [setMerge] using this

/-- A list of representatives may stand for the values themselves. -/
theorem Distinct.replace {cmp : V → V → Int} {T : V → Prop} (ho : Order cmp T) {S vs t ws : List V} (h : Spec.Distinct cmp S (vs ++ t))
    (ht : Spec.Distinct cmp t ws) (hT : ∀ x ∈ vs ++ ws, T x) : Spec.Distinct cmp S (vs ++ ws) := by
  obtain ⟨h1, h2, h3⟩ := h
  refine ⟨fun s hs => ?_, h2, fun w hw => ?_⟩
  · rcases List.mem_append.mp (h1 s hs) with h | h
    · simp [h]
    · simp [ht.1 s h]
  · rcases List.mem_append.mp hw with h | h
    · exact h3 w (by simp [h])
    · obtain ⟨x, hx, hxw⟩ := ht.2.2 w h
      obtain ⟨s, hs, hsx⟩ := h3 x (by simp [hx])
      refine ⟨s, hs, ho.eqv_trans ?_ (hT x (by simp [ht.1 x hx])) (hT w hw) hsx hxw⟩
      rcases List.mem_append.mp (h1 s hs) with h | h
      · exact hT s (by simp [h])
      · exact hT s (by simp [ht.1 s h])

/-- What is assumed of the values of one aggregate: `compare` orders them, sets survive serialisation (`T`: the values). -/
structure CallOk (e : Env V D O) (c : Call ρ V O) (T : V → Prop) : Prop where
  order : Order e.cmp T
  wire : c.kind.isMulti = true → ∃ τ w, width τ = some w ∧
    (∀ v, T v → e.tag v = τ ∧ e.unraw τ (e.raw v) = v ∧ ∀ w', w = some w' → (e.raw v).length = w') ∧
    ∀ S : List V, S.Pairwise (fun a b => e.cmp a b ≠ 0) → (∀ s ∈ S, T s) → (serBody e w S).length + 1 < 2 ^ 31

/-- A state just after `initAgg` on a scanned row has seen nothing. -/
theorem inv_init (e : Env V D O) (c : Call ρ V O) : Inv e c (initAgg e c false { slot := .null, fin := .null }) [] := by
  unfold Inv initAgg
  cases hk : c.kind <;> simp [SumIs, DblIs, AvgIs, BestIs, TextIs, orAll, xorAll, Spec.total, Spec.Distinct, cnt]
  case concat => cases ho : c.order with
    | none => trivial
    | some o => exact ⟨[], [], by simp⟩

theorem inv_update {e : Env V D O} (hl : Laws e) {c : Call ρ V O} {T : V → Prop} (ho : Order e.cmp T) {s : St V D O} {R : List ρ}
    {r : ρ} (h : Inv e c s R) (hv : ∀ v ∈ vals c (R ++ [r]), T v) (hm : ∀ v ∈ mems e c (R ++ [r]), T v) :
    Inv e c (update e c s r) (R ++ [r]) := by
  obtain ⟨hub, h⟩ := h
  have sc := arg0_scalar c r
  have bmp := arg0_bitmap c r
  have tx := text_eq e c r
  have ev : vals c (R ++ [r]) = vals c R ++ (Spec.scalar c r).toList := by
    simp only [vals, List.filterMap_append]; cases hs : Spec.scalar c r <;> simp [hs]
  have eb : bms c (R ++ [r]) = bms c R ++ (Spec.bitmap c r).toList := by
    simp only [bms, List.filterMap_append]; cases hs : Spec.bitmap c r <;> simp [hs]
  have et : texts e c (R ++ [r]) = texts e c R ++ (Spec.text e c r).toList := by
    simp only [texts, List.filterMap_append]; cases hs : Spec.text e c r <;> simp [hs]
  have em : mems e c (R ++ [r]) = mems e c R ++ (Spec.member e c r).toList := by
    simp only [mems, List.filterMap_append]; cases hs : Spec.member e c r <;> simp [hs]
  have set_case : ∀ (s' : St V D O), s'.ub = s.ub → s'.slot = s.slot →
      s'.set = (match Spec.member e c r with | some v => setInsert e s.set v | none => s.set) →
      (Spec.Distinct e.cmp s.set (mems e c R) ∧
        (s.slot = .null ∨ ∃ l t, s.slot = .str l ∧ unserialize e l = some t ∧ ∀ x ∈ t, ∃ y ∈ s.set, e.cmp y x = 0)) →
      s'.ub = false ∧ (Spec.Distinct e.cmp s'.set (mems e c (R ++ [r])) ∧
        (s'.slot = .null ∨ ∃ l t, s'.slot = .str l ∧ unserialize e l = some t ∧ ∀ x ∈ t, ∃ y ∈ s'.set, e.cmp y x = 0)) := by
    intro s' h1 h2 h3 ⟨h4, h5⟩
    refine ⟨h1.trans hub, ?_, ?_⟩
    · rw [em, h3]
      cases hmem : Spec.member e c r with
      | none => simpa using h4
      | some v =>
        refine setInsert_distinct ho h4 (fun x hx => hm x (by rw [em]; exact List.mem_append_left _ hx)) (hm v (by rw [em, hmem]; simp))
    · rw [h2]
      rcases h5 with h5 | ⟨l, t, a, b, d⟩
      · exact .inl h5
      · refine .inr ⟨l, t, a, b, fun x hx => ?_⟩
        obtain ⟨y, hy, hyx⟩ := d x hx
        refine ⟨y, ?_, hyx⟩
        rw [h3]
        cases Spec.member e c r with
        | none => exact hy
        | some v => exact subset_setInsert e _ v y hy
  unfold Inv
  cases hk : c.kind <;> simp only [hk] at h
  case countStar =>
    simp only [update, hk]
    refine ⟨hub, ?_⟩
    rw [h]; simp only [addInt]; rw [bv_succ]; simp
  case count =>
    simp only [update, hk]
    rw [counted_eq]
    by_cases hc : Spec.counted c r
    · simp only [hc, decide_true, if_true]
      refine ⟨hub, ?_⟩
      rw [h]; simp only [addInt]; rw [bv_succ]; simp [cnt, List.filter_append, hc]
    · simp only [hc, decide_false, Bool.false_eq_true, if_false]
      refine ⟨hub, ?_⟩
      rw [h]; simp [cnt, List.filter_append, hc]
  case sum =>
    simp only [update, hk]
    rw [ev, sc]
    cases (arg0 c r).val? with
    | some v => exact ⟨hub, by simpa using h.add (ws := [v]) (by simp)⟩
    | none => exact ⟨hub, by simpa using h⟩
  case sumDbl =>
    simp only [update, hk]
    rw [ev, sc]
    cases (arg0 c r).val? with
    | some v => exact ⟨hub, by simpa [total_single hl] using h.add hl (ws := [v]) (by simp)⟩
    | none => exact ⟨hub, by simpa using h⟩
  case avg =>
    simp only [update, hk]
    rw [ev, sc]
    cases (arg0 c r).val? with
    | some v =>
      simp only [AvgIs] at h ⊢
      simp only [h]
      refine ⟨hub, ?_⟩
      simp only [Option.toList, List.map_append, total_append hl, List.length_append, List.map_cons, List.map_nil, total_single hl]
      rw [bv_succ]; simp
    | none => exact ⟨hub, by simpa using h⟩
  case min =>
    simp only [update, hk]
    rw [ev, sc] at hv ⊢
    cases ha : (arg0 c r).val? with
    | some v =>
      rw [ha] at hv
      exact ⟨hub, h.add ho (by simp) (by simp [ho.refl (hv v (by simp))]) hv⟩
    | none => exact ⟨hub, by simpa using h⟩
  case max =>
    simp only [update, hk]
    rw [ev, sc] at hv ⊢
    cases ha : (arg0 c r).val? with
    | some v =>
      rw [ha] at hv
      exact ⟨hub, h.add ho (by simp) (by simp [ho.refl (hv v (by simp))]) hv⟩
    | none => exact ⟨hub, by simpa using h⟩
  case rbOr =>
    simp only [update, hk]
    rw [eb, bmp]
    cases (arg0 c r).bits? with
    | some b => exact ⟨hub, h.1, by simp only [h.2, orAll_append]; simp [orAll]⟩
    | none => exact ⟨hub, by simpa using h⟩
  case rbAnd =>
    simp only [update, hk]
    rw [eb, bmp]
    cases (arg0 c r).bits? with
    | some b =>
      refine ⟨hub, .inr ⟨by simp, rfl, ?_⟩⟩
      rcases h with ⟨h1, h2⟩ | ⟨h1, h2, h3⟩
      · simp [h1, h2, andAll]
      · simp only [h2, h3, if_true, Option.toList]; rw [andAll_append h1 (by simp)]; rfl
    | none => exact ⟨hub, by simpa using h⟩
  case rbXor =>
    simp only [update, hk]
    rw [eb, bmp]
    cases (arg0 c r).bits? with
    | some b => exact ⟨hub, h.1, by simp only [h.2, xorAll_append]; simp [xorAll]⟩
    | none => exact ⟨hub, by simpa using h⟩
  case rbBuild =>
    simp only [update, hk]
    rw [ev, sc]
    cases (arg0 c r).val? with
    | some v => exact ⟨hub, h.1, by simp only [h.2, List.map_append, orAll_append]; simp [orAll]⟩
    | none => exact ⟨hub, by simpa using h⟩
  case concat =>
    simp only [update, hk]
    rw [tx]
    cases hord : c.order with
    | none =>
      simp only [hord] at h
      rw [et]
      cases Spec.text e c r with
      | none => exact ⟨hub, by simpa using h⟩
      | some t => exact ⟨hub, by simpa [intercalate_single] using h.add (us := [t]) (by simp)⟩
    | some o =>
      simp only [hord] at h
      obtain ⟨L, rest, h1, h2, h3, h4⟩ := h
      cases ht : Spec.text e c r with
      | none =>
        refine ⟨hub, L, rest ++ [r], h1, h2, by simp [texts, List.filterMap_append, ht] at h3 ⊢; exact h3, ?_⟩
        rw [← List.append_assoc]; exact h4.append_right _
      | some t =>
        refine ⟨hub, L ++ [(o r, [r])], rest, ?_, ?_, h3, ?_⟩
        · simp [h1, texts, ht, intercalate_single]
        · intro x hx
          rcases List.mem_append.mp hx with hx | hx
          · exact h2 x hx
          · simp only [List.mem_singleton] at hx; subst hx; simp [texts, ht]
        · simp only [List.flatMap_append, List.flatMap_cons, List.flatMap_nil, List.append_nil]
          refine List.Perm.trans ?_ (h4.append_right [r])
          simp only [List.append_assoc]
          exact (List.perm_append_comm).append_left _
  case absent => simpa [update, hk, hub] using h
  case multiConcat =>
    have : Spec.member e c r = (Spec.text e c r).map e.ofStr := by simp [Spec.member, hk]
    refine set_case _ ?_ ?_ ?_ h <;> simp only [update, hk, this, tx] <;> cases Spec.text e c r <;> rfl
  all_goals
    have : Spec.member e c r = Spec.scalar c r := by simp [Spec.member, hk]
    refine set_case _ ?_ ?_ ?_ h <;> simp only [update, hk, this, sc] <;> cases (arg0 c r).val? <;> rfl

end BaikalDB.Agg
