import Verif.Limit.Limits
/-! # The plan below the LIMIT node has the rows of the SELECT -/
namespace BaikalDB.Limit
variable {V : Type} [DecidableEq V]

/-! ### Joins -/

theorem flatMap_swap {α β γ : Type} (f : α → β → γ) (as : List α) (bs : List β) :
    (as.flatMap fun a => bs.map (f a)).Perm (bs.flatMap fun b => as.map fun a => f a b) := by
  induction as with
  | nil => simp
  | cons a as ih =>
    rw [List.flatMap_cons]
    refine (ih.append_left _).trans ?_
    have := List.flatMap_append_perm bs (fun b => [f a b]) (fun b => as.map fun a => f a b)
    rw [List.map_eq_flatMap]
    exact this

theorem flatMap_if {α : Type} (c : α → Bool) (l : List α) : (l.flatMap fun x => if c x then [x] else []) = l.filter c := by
  induction l with
  | nil => rfl
  | cons x xs ih => rw [List.flatMap_cons, ih, List.filter_cons]; split <;> simp

omit [DecidableEq V] in
theorem outL_eq (on : List (Cond V)) (rs : List (Row V)) (l : Row V) :
    outL on rs l = (rs.map (l ++ ·)).filter (pass on) ++ (if decide (∀ r ∈ rs, ¬ Holds on (l ++ r)) then [l] else []) := by
  have hiff : ((rs.map (l ++ ·)).filter (pass on)).isEmpty = decide (∀ r ∈ rs, ¬ Holds on (l ++ r)) := by
    rw [Bool.eq_iff_iff, List.isEmpty_iff, List.filter_eq_nil_iff, decide_eq_true_iff]
    simp [pass_eq]
  unfold outL
  rw [← hiff]
  split
  · rename_i h; rw [List.isEmpty_iff.1 h]; rfl
  · simp

omit [DecidableEq V] in
theorem outR_eq (on : List (Cond V)) (ls : List (Row V)) (r : Row V) :
    outR on ls r = (ls.map (· ++ r)).filter (pass on) ++ (if decide (∀ l ∈ ls, ¬ Holds on (l ++ r)) then [r] else []) := by
  have hiff : ((ls.map (· ++ r)).filter (pass on)).isEmpty = decide (∀ l ∈ ls, ¬ Holds on (l ++ r)) := by
    rw [Bool.eq_iff_iff, List.isEmpty_iff, List.filter_eq_nil_iff, decide_eq_true_iff]
    simp [pass_eq]
  unfold outR
  rw [← hiff]
  split
  · rename_i h; rw [List.isEmpty_iff.1 h]; rfl
  · simp

omit [DecidableEq V] in
theorem matching_eq (on : List (Cond V)) (ls rs : List (Row V)) :
    matching on ls rs = ls.flatMap fun l => (rs.map (l ++ ·)).filter (pass on) := by
  unfold matching
  simp only [List.map_flatMap, List.filter_flatMap, List.map_map, Function.comp_def]
  congr 1
  funext l
  congr 1
  funext x
  exact (pass_eq on x).symm

omit [DecidableEq V] in
theorem matching_swap (on : List (Cond V)) (ls rs : List (Row V)) :
    (rs.flatMap fun r => (ls.map (· ++ r)).filter (pass on)).Perm (matching on ls rs) := by
  rw [matching_eq, ← List.filter_flatMap, ← List.filter_flatMap]
  exact ((flatMap_swap (fun l r => l ++ r) ls rs).filter _).symm

omit [DecidableEq V] in
theorem flatMap_outL (on : List (Cond V)) (ls rs : List (Row V)) :
    (ls.flatMap (outL on rs)).Perm (matching on ls rs ++ aloneL on ls rs) := by
  have h : outL on rs = fun l => (rs.map (l ++ ·)).filter (pass on) ++ (if decide (∀ r ∈ rs, ¬ Holds on (l ++ r)) then [l] else []) :=
    funext (outL_eq on rs)
  rw [h, matching_eq, aloneL, ← flatMap_if]
  exact (List.flatMap_append_perm ls _ _).symm

omit [DecidableEq V] in
theorem flatMap_outR (on : List (Cond V)) (ls rs : List (Row V)) :
    (rs.flatMap (outR on ls)).Perm (matching on ls rs ++ aloneR on ls rs) := by
  have h : outR on ls = fun r => (ls.map (· ++ r)).filter (pass on) ++ (if decide (∀ l ∈ ls, ¬ Holds on (l ++ r)) then [r] else []) :=
    funext (outR_eq on ls)
  rw [h, aloneR, ← flatMap_if]
  exact (List.flatMap_append_perm rs _ _).symm.trans ((matching_swap on ls rs).append_right _)

omit [DecidableEq V] in
/-- The rows of a join are those of SQL. -/
theorem joinRows_joined (ty : JoinTy) (on : List (Cond V)) (ls rs : List (Row V)) :
    (joinRows ty on ls rs).Perm (joined ty on ls rs) := by
  cases ty with
  | inner => exact List.Perm.of_eq (matching_eq on ls rs).symm
  | left => exact flatMap_outL on ls rs
  | right => exact flatMap_outR on ls rs
  | full =>
    refine (flatMap_outL on ls rs).append ?_
    refine List.Perm.of_eq (List.filter_congr fun r _ => ?_)
    rw [Bool.eq_iff_iff, List.isEmpty_iff, List.filter_eq_nil_iff, decide_eq_true_iff]
    simp [pass_eq]

omit [DecidableEq V] in
theorem joined_perm (ty : JoinTy) (on : List (Cond V)) {ls ls' rs rs' : List (Row V)} (hl : ls.Perm ls') (hr : rs.Perm rs') :
    (joined ty on ls rs).Perm (joined ty on ls' rs') := by
  have hm : (matching on ls rs).Perm (matching on ls' rs') := by
    refine List.Perm.filter _ (List.Perm.map _ ?_)
    exact (hl.flatMap_right _).trans (perm_flatMap fun l _ => hr.map _)
  have ha : (aloneL on ls rs).Perm (aloneL on ls' rs') := by
    unfold aloneL
    refine (hl.filter _).trans (List.Perm.of_eq (List.filter_congr fun l _ => ?_))
    simp only [hr.mem_iff]
  have hb : (aloneR on ls rs).Perm (aloneR on ls' rs') := by
    unfold aloneR
    refine (hr.filter _).trans (List.Perm.of_eq (List.filter_congr fun r _ => ?_))
    simp only [hl.mem_iff]
  cases ty with
  | inner => exact hm
  | left => exact hm.append ha
  | right => exact hm.append hb
  | full => exact (hm.append ha).append hb

/-! ### The chain -/

/-- The row passes all filters of the chain. -/
def linkPass : Link V → Row V → Bool
  | .sort _, _ => true
  | .having cs, r => pass cs r
  | .filter cs, r => pass cs r
def chainPass (ks : List (Link V)) (r : Row V) : Bool := ks.all fun k => linkPass k r

omit [DecidableEq V] in
theorem chainPass_append (ks ks' : List (Link V)) (r : Row V) : chainPass (ks ++ ks') r = (chainPass ks r && chainPass ks' r) := by
  simp [chainPass, List.all_append]

variable {B : List (Row V) → List (List (Row V))}

omit [DecidableEq V] in
theorem chainPass_nil (l : List (Row V)) : l.filter (chainPass []) = l := by
  rw [List.filter_eq_self]; intro a _; rfl

theorem onTop_run (D : Data V) (p : Plan V) : ∀ ks : List (Link V), (run B D (onTop ks p)).Perm ((run B D p).filter (chainPass ks))
  | [] => List.Perm.of_eq (chainPass_nil _).symm
  | k :: ks => by
    have ih := onTop_run D p ks
    have hsplit : ∀ l : List (Row V), l.filter (chainPass (k :: ks)) = (l.filter (chainPass ks)).filter (linkPass k) := by
      intro l
      rw [List.filter_filter]
      refine List.filter_congr fun r _ => ?_
      simp [chainPass]
    rw [hsplit]
    cases k with
    | sort o =>
      simp only [onTop, Link.on, run, cut]
      refine (sorted_perm o _).trans (ih.trans (List.Perm.of_eq ?_))
      exact (List.filter_eq_self.2 fun a _ => rfl).symm
    | having cs => simp only [onTop, Link.on, run, cut]; exact ih.filter _
    | filter cs => simp only [onTop, Link.on, run, cut]; exact ih.filter _

omit [DecidableEq V] in
theorem onTop_tables (p : Plan V) : ∀ ks : List (Link V), (onTop ks p).tables = p.tables
  | [] => rfl
  | k :: ks => by cases k <;> simp only [onTop, Link.on, Plan.tables, onTop_tables p ks]
omit [DecidableEq V] in
theorem onTop_table (p : Plan V) : ∀ ks : List (Link V), (onTop ks p).table = p.table
  | [] => rfl
  | k :: ks => by cases k <;> simp only [onTop, Link.on, Plan.table, onTop_table p ks]
omit [DecidableEq V] in
theorem onTop_pure {p : Plan V} (h : Pure p) : ∀ ks : List (Link V), Pure (onTop ks p)
  | [] => h
  | k :: ks => by cases k <;> exact onTop_pure h ks

/-- The chain has a node at which the limit stops. -/
def stops : List (Link V) → Bool
  | [] => false
  | .filter cs :: ks => !cs.isEmpty || stops ks
  | _ => true

def Fine (ks : List (Link V)) : Prop := ∀ o, Link.sort o ∈ ks → o.Good

omit [DecidableEq V] in
theorem onTop_wf {p : Plan V} : ∀ {ks : List (Link V)}, Fine ks → (stops ks = false → WF p) → WF (onTop ks p)
  | [], _, h => h rfl
  | .sort o :: ks, hf, _ => ⟨rfl, hf o (by simp)⟩
  | .having cs :: ks, _, _ => rfl
  | .filter cs :: ks, hf, h => by
    refine ⟨rfl, fun hc => ?_⟩
    subst hc
    exact onTop_wf (fun o ho => hf o (by simp [ho])) (fun hs => h (by simpa [stops] using hs))

omit [DecidableEq V] in
theorem stops_append (ks : List (Link V)) (cs : List (Cond V)) : stops (ks ++ [.filter cs]) = (stops ks || !cs.isEmpty) := by
  induction ks with
  | nil => simp [stops]
  | cons k ks ih =>
    cases k with
    | sort o => simp [stops]
    | having c => simp [stops]
    | filter c => simp only [List.cons_append, stops, ih, Bool.or_assoc]

/-! ### Tables -/

omit [DecidableEq V] in
theorem toPlan_tables : ∀ f : From V, f.toPlan.tables = f.tables
  | .scan t => rfl
  | .filter _ f => toPlan_tables f
  | .join _ _ l r => by simp only [From.toPlan, Plan.tables, From.tables, toPlan_tables l, toPlan_tables r]
omit [DecidableEq V] in
theorem toPlan_pure : ∀ f : From V, Pure f.toPlan
  | .scan t => trivial
  | .filter _ f => toPlan_pure f
  | .join _ _ l r => ⟨toPlan_pure l, toPlan_pure r⟩
omit [DecidableEq V] in
theorem managed_tables : ∀ f : From V, f.managed.tables = f.tables
  | .scan t => rfl
  | .filter _ f => by
    unfold From.managed
    split
    · exact toPlan_tables f
    · exact managed_tables f
  | .join _ _ l r => by simp only [From.managed, Plan.tables, From.tables, managed_tables l, managed_tables r]
omit [DecidableEq V] in
theorem managed_pure : ∀ f : From V, Pure f.managed
  | .scan t => trivial
  | .filter _ f => by
    unfold From.managed
    split
    · exact toPlan_pure f
    · exact managed_pure f
  | .join _ _ l r => ⟨managed_pure l, managed_pure r⟩

omit [DecidableEq V] in
theorem holds_filter (cs : List (Cond V)) (l : List (Row V)) : (l.filter fun r => decide (Holds cs r)) = l.filter (pass cs) :=
  List.filter_congr fun r _ => (pass_eq cs r).symm

/-- A single table's rows, region by region. -/
theorem single_run (D : Data V) : ∀ f : From V, f.single = true →
    run B D f.toPlan = f.rows D ∧ f.rows D = (D f.toPlan.table).flatMap fun reg => f.rows (only D f.toPlan.table reg)
  | .scan t, _ => by
    constructor
    · simp only [From.toPlan, run, From.rows]
      rw [List.flatMap_def]
      congr 1
      exact List.map_id _
    · simp only [From.toPlan, From.rows, Plan.table, only, if_true, List.flatten_cons, List.flatten_nil, List.append_nil]
      simp [List.flatMap_def]
  | .filter cs f, h => by
    obtain ⟨h1, h2⟩ := single_run D f h
    constructor
    · simp only [From.toPlan, run, From.rows, cut]
      rw [h1, holds_filter]
    · simp only [From.toPlan, From.rows, Plan.table]
      rw [← List.filter_flatMap, ← h2]

theorem single_region (D : Data V) (f : From V) (h : f.single = true) (ks : List (Link V)) :
    ((D f.toPlan.table).flatMap fun reg => run B (only D f.toPlan.table reg) (onTop ks f.toPlan)).Perm ((f.rows D).filter (chainPass ks)) := by
  rw [(single_run (B := B) D f h).2, List.filter_flatMap]
  refine perm_flatMap fun reg _ => (onTop_run _ _ ks).trans (List.Perm.of_eq ?_)
  rw [(single_run (B := B) (only D f.toPlan.table reg) f h).1]

omit [DecidableEq V] in
theorem arrange_perm (o : Option (Order V)) (l : List (Row V)) : (arrange o l).Perm l := by
  cases o with
  | none => exact List.Perm.refl _
  | some o => exact sorted_perm o l

theorem managed_run (D : Data V) : ∀ f : From V, (run B D f.managed).Perm (f.rows D)
  | .scan t => by
    have h := single_region (B := B) D (.scan t) rfl []
    rw [chainPass_nil] at h
    exact h
  | .filter cs f => by
    unfold From.managed
    split
    · rename_i hs
      have h := single_region (B := B) D (.filter cs f) hs []
      rw [chainPass_nil] at h
      exact h
    · simp only [run, cut, From.rows]
      rw [holds_filter]
      exact (managed_run D f).filter _
  | .join ty on l r => by
    simp only [From.managed, run, cut, From.rows]
    exact (joinRows_joined ty on _ _).trans (joined_perm ty on (managed_run D l) (managed_run D r))

/-! ### Moving the chain below outer joins -/

/-- SORT can only be the first node of the chain. -/
def Shape (o : Option (Order V)) (ks : List (Link V)) : Prop :=
  ∃ rest, ks = (o.map Link.sort).toList ++ rest ∧ ∀ o', Link.sort o' ∉ rest

omit [DecidableEq V] in
theorem sortOf_none : ∀ {ks : List (Link V)}, (∀ o', Link.sort o' ∉ ks) → sortOf ks = none
  | [], _ => rfl
  | .sort o :: ks, h => absurd (by simp) (h o)
  | .having _ :: ks, h => sortOf_none (ks := ks) fun o ho => h o (by simp [ho])
  | .filter _ :: ks, h => sortOf_none (ks := ks) fun o ho => h o (by simp [ho])

omit [DecidableEq V] in
theorem Shape.sortOf {o : Option (Order V)} {ks : List (Link V)} (h : Shape o ks) : sortOf ks = o := by
  obtain ⟨rest, rfl, h⟩ := h
  cases o with
  | none => simpa using sortOf_none h
  | some o => rfl

omit [DecidableEq V] in
theorem Shape.snoc {o : Option (Order V)} {ks : List (Link V)} (h : Shape o ks) (cs : List (Cond V)) : Shape o (ks ++ [.filter cs]) := by
  obtain ⟨rest, rfl, h⟩ := h
  exact ⟨rest ++ [.filter cs], by rw [List.append_assoc], by simpa using h⟩

omit [DecidableEq V] in
theorem Shape.top {o : Option (Order V)} {ks : List (Link V)} (h : Shape o ks) (p : Plan V) :
    ∀ o' ∈ o, ∃ p', onTop ks p = .sort o' none p' := by
  obtain ⟨rest, rfl, -⟩ := h
  rintro o' rfl
  exact ⟨_, rfl⟩

omit [DecidableEq V] in
theorem Shape.deliver {o : Option (Order V)} {ks : List (Link V)} (h : Shape o ks) (p : Plan V) : Deliver o (onTop ks p) := by
  cases o with
  | none => exact deliver_none _
  | some o =>
    obtain ⟨p', hp'⟩ := h.top p o rfl
    rw [hp']
    rfl

/-- The conditions of HAVING read tables among `ts` only. -/
def HavingIn (ts : List Nat) (ks : List (Link V)) : Prop :=
  ∀ cs, Link.having cs ∈ ks → ∀ c ∈ cs, ∀ s ∈ c.slots, s.1 ∈ ts

omit [DecidableEq V] in
theorem HavingIn.snoc {ts : List Nat} {ks : List (Link V)} (h : HavingIn ts ks) (cs : List (Cond V)) : HavingIn ts (ks ++ [.filter cs]) := by
  intro cs' hcs'
  exact h cs' (by simpa using hcs')

omit [DecidableEq V] in
/-- A chain without WHERE conditions looks at the tables of HAVING only. -/
theorem chainPass_congr {ks : List (Link V)} (hn : noFilter ks = true) {ts : List Nat} (hh : HavingIn ts ks) {x y : Row V}
    (hxy : ∀ s : Slot, s.1 ∈ ts → get x s = get y s) : chainPass ks x = chainPass ks y := by
  induction ks with
  | nil => rfl
  | cons k ks ih =>
    have hh' : HavingIn ts ks := fun cs hcs => hh cs (by simp [hcs])
    cases k with
    | sort o =>
      have := ih hn hh'
      simpa [chainPass, linkPass] using this
    | filter cs =>
      simp only [noFilter, Bool.and_eq_true, List.isEmpty_iff] at hn
      have := ih hn.2 hh'
      simpa [chainPass, linkPass, hn.1, pass] using this
    | having cs =>
      have := ih hn hh'
      have hc : pass cs x = pass cs y := by
        unfold pass
        rw [Bool.eq_iff_iff, List.all_eq_true, List.all_eq_true]
        refine forall₂_congr fun c hc => ?_
        unfold Cond.holds
        rw [List.map_congr_left fun s hs => hxy s (hh cs (by simp) c hc s hs)]
      simp only [chainPass, List.all_cons, linkPass] at this ⊢
      rw [hc, this]

omit [DecidableEq V] in
theorem kept_tables : ∀ f : From V, ∀ t ∈ f.kept, t ∈ f.tables
  | .scan t, u, h => h
  | .filter _ f, u, h => kept_tables f u h
  | .join .left _ l r, u, h => List.mem_append_left _ (kept_tables l u h)
  | .join .right _ l r, u, h => List.mem_append_right _ (kept_tables r u h)
  | .join .inner _ l r, u, h => h
  | .join .full _ l r, u, h => h

omit [DecidableEq V] in
theorem driven_none : ∀ f : From V, f.outer = false → driven (peel f.managed).2 = none
  | .scan t, _ => rfl
  | .filter cs f, h => by
    unfold From.managed
    split
    · rfl
    · exact driven_none f h
  | .join .inner _ l r, _ => rfl
  | .join .full _ l r, _ => rfl
  | .join .left _ l r, h => by simp [From.outer] at h
  | .join .right _ l r, h => by simp [From.outer] at h

omit [DecidableEq V] in
theorem sortOf_append (ks ks' : List (Link V)) (h : sortOf ks = none) : sortOf (ks ++ ks') = sortOf ks' := by
  induction ks with
  | nil => rfl
  | cons k ks ih =>
    cases k with
    | sort o => simp [sortOf] at h
    | having _ => exact ih h
    | filter _ => exact ih h

omit [DecidableEq V] in
theorem sortOf_peel : ∀ p : Plan V, sortOf (peel p).1 = none
  | .filter _ _ p => sortOf_peel p
  | .scan .. => rfl
  | .having .. => rfl
  | .sort .. => rfl
  | .agg .. => rfl
  | .manager .. => rfl
  | .join .. => rfl

omit [DecidableEq V] in
/-- How `pushChain` treats a RIGHT JOIN, the case of a nested outer join below a SORT left aside. -/
theorem push_right {limited : Bool} {o : Option (Order V)} {ks : List (Link V)} (hs : Shape o ks) (on : List (Cond V)) (lim : Option Nat)
    (l : Plan V) (r : From V) (h : o ≠ none → r.outer = false) :
    pushChain limited ks (.join .right on lim l r.managed) =
      if canPush limited ks r.tables then
        .join .right on lim l (if r.outer then onTop ks r.managed else pushChain false ks r.managed)
      else onTop ks (.join .right on lim l r.managed) := by
  simp only [pushChain, managed_tables]
  by_cases hc : canPush limited ks r.tables = true
  · rw [if_pos hc, if_pos hc]
    cases hout : r.outer with
    | false =>
      rw [driven_none r hout]
      simp
    | true =>
      have ho : o = none := by
        by_contra hne
        rw [h hne] at hout; cases hout
      have hso : sortOf ks = none := by rw [hs.sortOf, ho]
      have : canPush false (ks ++ (peel r.managed).1) (drivingTables (peel r.managed).2) = false := by
        simp [canPush, sortOf_append _ _ hso, sortOf_peel]
      cases hd : driven (peel r.managed).2 with
      | some dc => simp only [this, Bool.false_eq_true, if_false, if_true]
      | none =>
        exfalso
        clear hc h hs this
        revert hout hd
        induction r with
        | scan t => intro h; simp [From.outer] at h
        | filter cs f ih =>
          unfold From.managed
          split
          · rename_i hsing
            intro h
            exfalso
            have : ∀ f : From V, f.single = true → f.outer = false := by
              intro f
              induction f with
              | scan => intros; rfl
              | filter _ f ih => exact ih
              | join => intro h; cases h
            rw [From.outer, this f hsing] at h
            cases h
          · exact ih
        | join ty on l r _ _ =>
          intro h
          cases ty with
          | inner => simp [From.outer] at h
          | full => simp [From.outer] at h
          | left =>
            simp only [From.managed, peel]
            cases l.managed <;> simp [driven]
          | right =>
            simp only [From.managed, peel]
            cases r.managed <;> simp [driven]
  · rw [if_neg hc, if_neg hc]

omit [DecidableEq V] in
theorem push_tables {o : Option (Order V)} : ∀ (f : From V) {limited : Bool} {ks : List (Link V)}, Shape o ks →
    (o ≠ none → f.nested = false) → (pushChain limited ks f.managed).tables = f.tables
  | .scan t, limited, ks, hs, hn => by simp [From.managed, pushChain, Plan.tables, onTop_tables, From.tables]
  | .filter cs f, limited, ks, hs, hn => by
    unfold From.managed
    split
    · simp [pushChain, Plan.tables, onTop_tables, From.tables, toPlan_tables]
    · exact push_tables f (hs.snoc cs) hn
  | .join .left on l r, limited, ks, hs, hn => by
    simp only [From.managed, pushChain]
    split
    · simp only [Plan.tables, From.tables]
      rw [push_tables l hs hn, managed_tables]
    · simp [onTop_tables, Plan.tables, From.tables, managed_tables]
  | .join .right on l r, limited, ks, hs, hn => by
    have hn' : o ≠ none → r.outer = false ∧ r.nested = false := fun h => by simpa [From.nested] using hn h
    simp only [From.managed]
    rw [push_right hs on none l.managed r fun h => (hn' h).1]
    split
    · split
      · simp [onTop_tables, Plan.tables, From.tables, managed_tables]
      · simp only [Plan.tables, From.tables]
        rw [push_tables r hs fun h => (hn' h).2, managed_tables]
    · simp [onTop_tables, Plan.tables, From.tables, managed_tables]
  | .join .inner on l r, limited, ks, hs, hn => by
    simp [From.managed, pushChain, onTop_tables, Plan.tables, From.tables, managed_tables]
  | .join .full on l r, limited, ks, hs, hn => by
    simp [From.managed, pushChain, onTop_tables, Plan.tables, From.tables, managed_tables]

omit [DecidableEq V] in
theorem canPush_iff {limited : Bool} {ks : List (Link V)} {ts : List Nat} (h : canPush limited ks ts = true) :
    noFilter ks = true ∧ sortIn ts (sortOf ks) = true := by
  simp only [canPush, Bool.and_eq_true] at h
  exact ⟨h.1.1.2, h.1.2⟩

omit [DecidableEq V] in
theorem filter_flatMap_of {f : Row V → List (Row V)} {h : Row V → Bool} {l : List (Row V)}
    (hf : ∀ x ∈ l, ∀ z ∈ f x, h z = h x) : (l.flatMap f).filter h = (l.filter h).flatMap f := by
  induction l with
  | nil => rfl
  | cons x xs ih =>
    rw [List.flatMap_cons, List.filter_append, ih fun y hy => hf y (by simp [hy]), List.filter_cons]
    by_cases hx : h x = true
    · rw [if_pos hx, List.flatMap_cons, List.filter_eq_self.2 fun z hz => (hf x (by simp) z hz).trans hx]
    · rw [if_neg hx, List.filter_eq_nil_iff.2 fun z hz => by rw [hf x (by simp) z hz]; exact hx]
      rfl

/-- Moving the chain keeps the rows. -/
theorem push_run {D : Data V} (hD : Owns D) {o : Option (Order V)} : ∀ (f : From V) {limited : Bool} {ks : List (Link V)}, Shape o ks →
    f.tables.Nodup → HavingIn f.kept ks → (o ≠ none → f.nested = false) →
    (run B D (pushChain limited ks f.managed)).Perm ((f.rows D).filter (chainPass ks))
  | .scan t, limited, ks, hs, ht, hh, hn => by
    simp only [From.managed, pushChain, run, cut, onTop_table]
    exact (arrange_perm _ _).trans (single_region D (.scan t) rfl ks)
  | .filter cs f, limited, ks, hs, ht, hh, hn => by
    unfold From.managed
    split
    · rename_i hsing
      simp only [pushChain, run, cut, onTop_table]
      exact (arrange_perm _ _).trans (single_region D (.filter cs f) hsing ks)
    · simp only [pushChain]
      refine (push_run hD f (hs.snoc cs) ht (hh.snoc cs) hn).trans (List.Perm.of_eq ?_)
      simp only [From.rows]
      rw [holds_filter, List.filter_filter]
      refine List.filter_congr fun r _ => ?_
      rw [chainPass_append]
      simp [chainPass, linkPass]
  | .join .left on l r, limited, ks, hs, ht, hh, hn => by
    have hM : (run B D (From.join .left on l r).managed).Perm ((From.join .left on l r).rows D) := managed_run D _
    simp only [From.managed, pushChain]
    split
    · rename_i hc
      obtain ⟨hc1, hc2⟩ := canPush_iff hc
      have ih := push_run hD l (limited := false) hs (List.nodup_append.1 ht).1 hh hn
      refine List.Perm.trans ?_ (hM.filter _)
      simp only [From.managed, run, cut]
      show ((run B D (pushChain false ks l.managed)).flatMap (outL on (run B D r.managed))).Perm
        (((run B D l.managed).flatMap (outL on (run B D r.managed))).filter (chainPass ks))
      rw [filter_flatMap_of fun x hx z hz => chainPass_congr hc1 hh fun s hs' => ?_]
      · exact (ih.trans ((managed_run D l).symm.filter _)).flatMap_right _
      · have := map_get_outL (ss := [s]) (fun s' hs'' y hy e he => ?_) hz
        · simpa using this
        · simp only [List.mem_singleton] at hs''
          subst hs''
          rintro rfl
          have h1 := run_owns r.managed (managed_pure r) hD y hy e he
          rw [managed_tables] at h1
          exact (List.nodup_append.1 ht).2.2 _ (kept_tables l _ hs') _ h1 rfl
    · exact (onTop_run D _ ks).trans (hM.filter _)
  | .join .right on l r, limited, ks, hs, ht, hh, hn => by
    have hM : (run B D (From.join .right on l r).managed).Perm ((From.join .right on l r).rows D) := managed_run D _
    have hn' : o ≠ none → r.outer = false ∧ r.nested = false := fun h => by simpa [From.nested] using hn h
    simp only [From.managed]
    rw [push_right hs on none l.managed r fun h => (hn' h).1]
    split
    · rename_i hc
      obtain ⟨hc1, hc2⟩ := canPush_iff hc
      have ih : (run B D (if r.outer then onTop ks r.managed else pushChain false ks r.managed)).Perm ((r.rows D).filter (chainPass ks)) := by
        split
        · exact (onTop_run D _ ks).trans ((managed_run D r).filter _)
        · exact push_run hD r (limited := false) hs (List.nodup_append.1 ht).2.1 hh fun h => (hn' h).2
      refine List.Perm.trans ?_ (hM.filter _)
      simp only [From.managed, run, cut]
      show ((run B D (if r.outer then onTop ks r.managed else pushChain false ks r.managed)).flatMap (outR on (run B D l.managed))).Perm
        (((run B D r.managed).flatMap (outR on (run B D l.managed))).filter (chainPass ks))
      rw [filter_flatMap_of fun x hx z hz => chainPass_congr hc1 hh fun s hs' => ?_]
      · exact (ih.trans ((managed_run D r).symm.filter _)).flatMap_right _
      · have := map_get_outR (ss := [s]) (fun s' hs'' y hy e he => ?_) hz
        · simpa using this
        · simp only [List.mem_singleton] at hs''
          subst hs''
          rintro rfl
          have h1 := run_owns l.managed (managed_pure l) hD y hy e he
          rw [managed_tables] at h1
          exact (List.nodup_append.1 ht).2.2 _ h1 _ (kept_tables r _ hs') rfl
    · exact (onTop_run D _ ks).trans (hM.filter _)
  | .join .inner on l r, limited, ks, hs, ht, hh, hn => by
    simp only [From.managed, pushChain]
    exact (onTop_run D _ ks).trans ((managed_run D (.join .inner on l r)).filter _)
  | .join .full on l r, limited, ks, hs, ht, hh, hn => by
    simp only [From.managed, pushChain]
    exact (onTop_run D _ ks).trans ((managed_run D (.join .full on l r)).filter _)

omit [DecidableEq V] in
theorem toPlan_wf : ∀ f : From V, f.single = true → WF f.toPlan
  | .scan t, _ => rfl
  | .filter _ f, h => ⟨rfl, fun _ => toPlan_wf f h⟩

omit [DecidableEq V] in
theorem managed_wf : ∀ f : From V, f.tables.Nodup → f.fullOnTop = false → WF f.managed
  | .scan t, _, _ => ⟨rfl, rfl, by simp⟩
  | .filter cs f, ht, hf => by
    unfold From.managed
    split
    · rename_i hs
      exact ⟨rfl, ⟨rfl, fun _ => toPlan_wf f hs⟩, by simp⟩
    · refine ⟨rfl, fun hc => ?_⟩
      subst hc
      exact managed_wf f ht (by simpa [From.fullOnTop] using hf)
  | .join .inner on l r, _, _ => rfl
  | .join .full on l r, _, hf => by simp [From.fullOnTop] at hf
  | .join .left on l r, ht, hf => by
    refine ⟨rfl, managed_wf l (List.nodup_append.1 ht).1 hf, managed_pure r, ?_⟩
    rw [managed_tables, managed_tables]
    exact fun t h1 h2 => (List.nodup_append.1 ht).2.2 t h1 t h2 rfl
  | .join .right on l r, ht, hf => by
    refine ⟨rfl, managed_wf r (List.nodup_append.1 ht).2.1 hf, managed_pure l, ?_⟩
    rw [managed_tables, managed_tables]
    exact fun t h1 h2 => (List.nodup_append.1 ht).2.2 t h1 t h2 rfl

omit [DecidableEq V] in
theorem Fine.snoc {ks : List (Link V)} (h : Fine ks) (cs : List (Cond V)) : Fine (ks ++ [.filter cs]) := by
  intro o ho
  exact h o (by simpa using ho)

omit [DecidableEq V] in
/-- After the chain has been moved, the plan is one that can deal with limits, and its rows come in the order of the SORT node. -/
theorem push_wf {o : Option (Order V)} : ∀ (f : From V) {limited : Bool} {ks : List (Link V)}, Shape o ks → Fine ks →
    f.tables.Nodup → (o ≠ none → f.nested = false) → (stops ks = false → f.fullOnTop = false) →
    WF (pushChain limited ks f.managed) ∧ Deliver o (pushChain limited ks f.managed)
  | .scan t, limited, ks, hs, hf, ht, hn, hfull => by
    refine ⟨⟨rfl, onTop_wf hf fun _ => rfl, ?_⟩, ?_⟩
    · rw [hs.sortOf]; exact hs.top _
    · cases o with
      | none => exact deliver_none _
      | some o => exact hs.sortOf
  | .filter cs f, limited, ks, hs, hf, ht, hn, hfull => by
    unfold From.managed
    split
    · rename_i hsing
      refine ⟨⟨rfl, onTop_wf hf fun _ => ⟨rfl, fun _ => toPlan_wf f hsing⟩, ?_⟩, ?_⟩
      · rw [hs.sortOf]; exact hs.top _
      · cases o with
        | none => exact deliver_none _
        | some o => exact hs.sortOf
    · refine push_wf f (hs.snoc cs) (hf.snoc cs) ht hn fun hst => ?_
      rw [stops_append, Bool.or_eq_false_iff] at hst
      have := hfull hst.1
      simp only [From.fullOnTop, Bool.and_eq_false_iff] at this
      rcases this with h | h
      · rw [h] at hst; simp at hst
      · exact h
  | .join .left on l r, limited, ks, hs, hf, ht, hn, hfull => by
    have hd := fun t h1 h2 => (List.nodup_append.1 ht).2.2 t h1 t h2 rfl
    simp only [From.managed, pushChain]
    split
    · rename_i hc
      obtain ⟨hc1, hc2⟩ := canPush_iff hc
      obtain ⟨h1, h2⟩ := push_wf l (limited := false) hs hf (List.nodup_append.1 ht).1 hn hfull
      have htab : (pushChain false ks l.managed).tables = l.tables := push_tables l hs hn
      refine ⟨⟨rfl, h1, managed_pure r, ?_⟩, ?_⟩
      · rw [htab, managed_tables]; exact hd
      · cases o with
        | none => exact deliver_none _
        | some o =>
          refine ⟨?_, ?_, h2⟩
          · obtain ⟨rest, rfl, -⟩ := hs
            exact hf o (by simp)
          · rw [htab]
            rw [hs.sortOf, managed_tables] at hc2
            simpa [sortIn] using hc2
    · refine ⟨onTop_wf hf fun hst => ?_, hs.deliver _⟩
      exact managed_wf (.join .left on l r) ht (hfull hst)
  | .join .right on l r, limited, ks, hs, hf, ht, hn, hfull => by
    have hd := fun t h1 h2 => (List.nodup_append.1 ht).2.2 t h1 t h2 rfl
    have hn' : o ≠ none → r.outer = false ∧ r.nested = false := fun h => by simpa [From.nested] using hn h
    simp only [From.managed]
    rw [push_right hs on none l.managed r fun h => (hn' h).1]
    split
    · rename_i hc
      obtain ⟨hc1, hc2⟩ := canPush_iff hc
      have key : WF (if r.outer then onTop ks r.managed else pushChain false ks r.managed) ∧
          Deliver o (if r.outer then onTop ks r.managed else pushChain false ks r.managed) ∧
          (if r.outer then onTop ks r.managed else pushChain false ks r.managed).tables = r.tables := by
        split
        · exact ⟨onTop_wf hf fun hst => managed_wf r (List.nodup_append.1 ht).2.1 (hfull hst), hs.deliver _,
            by rw [onTop_tables, managed_tables]⟩
        · obtain ⟨h1, h2⟩ := push_wf r (limited := false) hs hf (List.nodup_append.1 ht).2.1 (fun h => (hn' h).2) hfull
          exact ⟨h1, h2, push_tables r hs fun h => (hn' h).2⟩
      obtain ⟨h1, h2, htab⟩ := key
      refine ⟨⟨rfl, h1, managed_pure l, ?_⟩, ?_⟩
      · rw [htab, managed_tables]; exact hd
      · cases o with
        | none => exact deliver_none _
        | some o =>
          refine ⟨?_, ?_, h2⟩
          · obtain ⟨rest, rfl, -⟩ := hs
            exact hf o (by simp)
          · rw [htab]
            rw [hs.sortOf] at hc2
            simpa [sortIn] using hc2
    · refine ⟨onTop_wf hf fun hst => ?_, hs.deliver _⟩
      exact managed_wf (.join .right on l r) ht (hfull hst)
  | .join .inner on l r, limited, ks, hs, hf, ht, hn, hfull => ⟨onTop_wf hf fun _ => rfl, hs.deliver _⟩
  | .join .full on l r, limited, ks, hs, hf, ht, hn, hfull =>
    ⟨onTop_wf hf fun hst => absurd (hfull hst) (by simp [From.fullOnTop]), hs.deliver _⟩

end BaikalDB.Limit
