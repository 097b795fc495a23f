import Verif.Cond.Spec
import Mathlib.Tactic.Common

/-!
# CASE, IF, IFNULL and NULLIF: proofs
-/

namespace BaikalDB.Cond

variable {D : Type}

/-! ## The type of the result -/

theorem isSigned_iff (t : Ty) : isSigned t = true ↔ ∃ a, SignedTy a ∧ t = .int a := by
  constructor
  · intro h
    rcases t with _ | a | _ | _
    · simp [isSigned] at h
    · refine ⟨a, ?_, rfl⟩
      cases a <;> simp [isSigned] at h <;> constructor
    · simp [isSigned] at h
    · simp [isSigned] at h
  · rintro ⟨a, ha, rfl⟩
    cases ha <;> rfl

theorem num_iff (t : Ty) :
    (isDouble t || isInt t || decide (t = .int .bool)) = true ↔ (∃ a, t = .int a) ∨ t = .dbl := by
  rcases t with _ | a | _ | _
  · simp [isDouble, isInt, isUint, isSigned]
  · cases a <;> simp [isDouble, isInt, isUint, isSigned]
  · simp [isDouble]
  · simp [isDouble, isInt, isUint, isSigned]

/-- The types that are not `NULL`. -/
theorem filter_cases (ts : List Ty) {f : Ty} {l : List Ty}
    (h : ts.filter (fun t => decide (t ≠ .null)) = f :: l) (x : Ty) :
    x ∈ f :: l ↔ x ∈ ts ∧ x ≠ .null := by
  rw [← h, List.mem_filter]; simp

theorem wrap_of_inRange {t : ITy} {n : Int} (h : InRange t n) : wrap t n = n := by
  cases t <;> simp only [InRange] at h <;> simp only [wrap]
  · by_cases h0 : n = 0
    · simp [h0]
    · simp [h0]; omega
  all_goals omega

theorem inRange_i64 {a : ITy} {n : Int} (h : InRange a n) (ha : a ≠ .u64) : InRange .i64 n := by
  cases a <;> simp only [InRange] at h ⊢ <;> first | omega | exact absurd rfl ha

theorem inRange_u64 {a : ITy} {n : Int} (h : InRange a n) (ha : ¬ SignedTy a) : InRange .u64 n := by
  cases a <;> simp only [InRange] at h ⊢ <;>
    first | omega | exact absurd (by constructor) ha

theorem castTo_null (o : Ops D) (t : Ty) : castTo o t .null = .null := by
  cases t <;> rfl

/-- The cast of a value of its own type. -/
theorem castTo_self (o : Ops D) {t : Ty} {v : Val D} (h : OfType t v) : castTo o t v = v := by
  cases h with
  | null => exact castTo_null o t
  | int a n _ => simp [castTo]
  | dbl => rfl
  | str => rfl

theorem castTo_whole (o : Ops D) {a b : ITy} {n : Int} (h : InRange b n) :
    castTo o (.int b) (.int a n) = .int b n := by
  by_cases hab : a = b
  · subst hab; simp [castTo]
  · simp [castTo, hab, wrap_of_inRange h]

theorem merged_eq (ts : List Ty) {t : Ty} (ht : t ∈ ts) (hn : t ≠ .null) :
    (OneType ts t ∧ merged ts = t) ∨
    ((¬ ∃ u, OneType ts u) ∧
      (((∀ u ∈ ts, Whole u ∨ u = .dbl) ∧ .dbl ∈ ts ∧ merged ts = .dbl) ∨
       ((∀ u ∈ ts, Whole u) ∧ Clash ts ∧ merged ts = .dbl) ∨
       ((∀ u ∈ ts, Whole u) ∧ ¬ Clash ts ∧ .int .u64 ∈ ts ∧ merged ts = .int .u64) ∨
       ((∀ u ∈ ts, Whole u) ∧ .int .u64 ∉ ts ∧ merged ts = .int .i64) ∨
       (.str ∈ ts ∧ merged ts = .str))) := by
  rcases hf : ts.filter (fun t => decide (t ≠ .null)) with _ | ⟨f, l⟩
  · have : t ∈ ts.filter (fun t => decide (t ≠ .null)) := by
      rw [List.mem_filter]; exact ⟨ht, by simpa using hn⟩
    rw [hf] at this; cases this
  have hm := filter_cases ts hf
  have hmer : merged ts = if (f :: l).all (fun t => decide (t = f)) then f
      else if (f :: l).all (fun t => isDouble t || isInt t || decide (t = .int .bool)) then
        if (f :: l).any isDouble then .dbl
        else if (f :: l).any (fun t => decide (t = .int .u64)) then
          if (f :: l).any isSigned then .dbl else .int .u64
        else .int .i64
      else .str := by
    unfold merged; rw [hf]
  have hmt : t ∈ f :: l := (hm t).2 ⟨ht, hn⟩
  by_cases h1 : (f :: l).all (fun t => decide (t = f)) = true
  · left
    rw [hmer, if_pos h1]
    simp only [List.all_eq_true, decide_eq_true_eq] at h1
    have htf := h1 t hmt
    refine ⟨?_, htf.symm⟩
    intro x hx
    by_cases hxn : x = .null
    · exact Or.inl hxn
    · right; rw [htf]; exact h1 x ((hm x).2 ⟨hx, hxn⟩)
  right
  have hone : ¬ ∃ u, OneType ts u := by
    rintro ⟨u, hu⟩
    apply h1
    simp only [List.all_eq_true, decide_eq_true_eq]
    have key : ∀ y ∈ f :: l, y = u := by
      intro y hy
      have hy' := (hm y).1 hy
      rcases hu y hy'.1 with h | h
      · exact absurd h hy'.2
      · exact h
    intro x hx
    rw [key x hx, key f (List.mem_cons_self ..)]
  refine ⟨hone, ?_⟩
  rw [hmer, if_neg h1]
  by_cases h2 : (f :: l).all (fun t => isDouble t || isInt t || decide (t = .int .bool)) = true
  · rw [if_pos h2]
    rw [List.all_eq_true] at h2
    have hnum : ∀ u ∈ ts, Whole u ∨ u = .dbl := by
      intro u hu
      by_cases hun : u = .null
      · subst hun; exact Or.inl .null
      · rcases (num_iff u).1 (h2 u ((hm u).2 ⟨hu, hun⟩)) with ⟨a, rfl⟩ | h
        · exact Or.inl (.int a)
        · exact Or.inr h
    by_cases h3 : (f :: l).any isDouble = true
    · left
      rw [if_pos h3]
      rw [List.any_eq_true] at h3
      obtain ⟨x, hx, hxd⟩ := h3
      have : x = .dbl := by simpa [isDouble] using hxd
      subst this
      exact ⟨hnum, ((hm _).1 hx).1, rfl⟩
    · rw [if_neg h3]
      have hw : ∀ u ∈ ts, Whole u := by
        intro u hu
        rcases hnum u hu with h | h
        · exact h
        · exfalso; apply h3
          rw [List.any_eq_true]
          exact ⟨u, (hm u).2 ⟨hu, by rw [h]; simp⟩, by simp [isDouble, h]⟩
      by_cases h4 : (f :: l).any (fun t => decide (t = .int .u64)) = true
      · rw [if_pos h4]
        have h64 : .int .u64 ∈ ts := by
          rw [List.any_eq_true] at h4
          obtain ⟨x, hx, hxd⟩ := h4
          have : x = .int .u64 := by simpa using hxd
          subst this
          exact ((hm _).1 hx).1
        have hcl : (f :: l).any isSigned = true ↔ Clash ts := by
          rw [List.any_eq_true]
          constructor
          · rintro ⟨x, hx, hs⟩
            obtain ⟨a, ha, rfl⟩ := (isSigned_iff x).1 hs
            exact ⟨h64, a, ha, ((hm _).1 hx).1⟩
          · rintro ⟨_, a, ha, hma⟩
            exact ⟨.int a, (hm _).2 ⟨hma, by simp⟩, (isSigned_iff _).2 ⟨a, ha, rfl⟩⟩
        by_cases h5 : (f :: l).any isSigned = true
        · rw [if_pos h5]
          exact Or.inr (Or.inl ⟨hw, hcl.1 h5, rfl⟩)
        · rw [if_neg h5]
          exact Or.inr (Or.inr (Or.inl ⟨hw, fun h => h5 (hcl.2 h), h64, rfl⟩))
      · rw [if_neg h4]
        refine Or.inr (Or.inr (Or.inr (Or.inl ⟨hw, ?_, rfl⟩)))
        intro h64
        apply h4
        rw [List.any_eq_true]
        exact ⟨_, (hm _).2 ⟨h64, by simp⟩, by simp⟩
  · rw [if_neg h2]
    refine Or.inr (Or.inr (Or.inr (Or.inr ⟨?_, rfl⟩)))
    have : ∃ x ∈ f :: l, ¬ ((isDouble x || isInt x || decide (x = .int .bool)) = true) := by
      by_contra hc
      apply h2
      rw [List.all_eq_true]
      intro x hx
      by_contra hx'
      exact hc ⟨x, hx, hx'⟩
    obtain ⟨x, hx, hxn⟩ := this
    rw [num_iff] at hxn
    have hx' := (hm x).1 hx
    rcases x with _ | a | _ | _
    · exact absurd rfl hx'.2
    · exact absurd (Or.inl ⟨a, rfl⟩) hxn
    · exact absurd (Or.inr rfl) hxn
    · exact hx'.1

theorem result_null (o : Ops D) (ts : List Ty) : Result o ts .null .null where
  null := by simp
  one := fun _ _ => rfl
  whole := by intro a n _ _ h; cases h
  wholeTy := by intro a n _ _ _ h; cases h
  clash := by intro a n _ _ h; cases h
  real := by intro _ _; exact ⟨fun a n h => (by cases h), fun d h => (by cases h)⟩
  text := by
    intro _
    exact ⟨fun a n h => (by cases h), fun d h => (by cases h), fun s h => (by cases h)⟩

theorem not_whole_dbl {ts : List Ty} (h : .dbl ∈ ts) (hw : ∀ t ∈ ts, Whole t) : False := by
  cases hw _ h

theorem not_whole_str {ts : List Ty} (h : .str ∈ ts) (hw : ∀ t ∈ ts, Whole t) : False := by
  cases hw _ h

theorem not_num_str {ts : List Ty} (h : .str ∈ ts) (hw : ∀ t ∈ ts, Whole t ∨ t = .dbl) : False := by
  rcases hw _ h with h | h <;> cases h

/-- The cast to the type of the result. -/
theorem result_cast (o : Ops D) (ts : List Ty) (t : Ty) (v : Val D) (ht : t ∈ ts)
    (hv : OfType t v) : Result o ts v (castTo o (retType ts) v) := by
  have hne : ts ≠ [] := by intro h; rw [h] at ht; cases ht
  have hr : retType ts = merged ts := by simp [retType, hne]
  rw [hr]
  by_cases hvn : v = .null
  · subst hvn; rw [castTo_null]; exact result_null o ts
  have htn : t ≠ .null := by
    intro h; subst h; cases hv; exact hvn rfl
  rcases merged_eq ts ht htn with ⟨ho, hm⟩ | ⟨hno, hc⟩
  · rw [hm, castTo_self o hv]
    have hself : ∀ u, u ∈ ts → u ≠ .null → u = t := by
      intro u hu hn; rcases ho u hu with h | h
      · exact absurd h hn
      · exact h
    constructor
    · exact Iff.rfl
    · intro _ _; rfl
    · intro a n _ _ h; exact ⟨a, h⟩
    · intro a n _ _ h _; exact absurd ⟨t, ho⟩ h
    · rintro a n _ ⟨h64, b, hb, hbm⟩ _
      have h1 := hself _ h64 (by simp)
      have h2 := hself _ hbm (by simp)
      rw [← h1] at h2
      cases h2; cases hb
    · intro _ hd
      have h1 := hself _ hd (by simp)
      subst h1
      refine ⟨fun a n h => ?_, fun d h => h⟩
      subst h; cases hv
    · intro hs
      have h1 := hself _ hs (by simp)
      subst h1
      refine ⟨fun a n h => ?_, fun d h => ?_, fun s h => h⟩ <;> (subst h; cases hv)
  · have one : ∀ (r : Val D) (u : Ty), OneType ts u → r = v := fun r u h => absurd ⟨u, h⟩ hno
    rcases hc with ⟨hn, hd, hm⟩ | ⟨hw, hcl, hm⟩ | ⟨hw, hcl, h64, hm⟩ | ⟨hw, h64, hm⟩ | ⟨hs, hm⟩
    · rw [hm]
      refine ⟨?_, one _, ?_, ?_, ?_, ?_, ?_⟩
      · cases hv <;> simp [castTo]
      · intro a n hw; exact (not_whole_dbl hd hw).elim
      · intro a n hw; exact (not_whole_dbl hd hw).elim
      · intro a n hw; exact (not_whole_dbl hd hw).elim
      · intro _ _
        exact ⟨fun a n h => by subst h; rfl, fun d h => by subst h; rfl⟩
      · intro hs; exact (not_num_str hs hn).elim
    · rw [hm]
      refine ⟨?_, one _, ?_, ?_, ?_, ?_, ?_⟩
      · cases hv <;> simp [castTo]
      · intro a n _ h; exact absurd hcl h
      · intro a n _ h; exact absurd hcl h
      · intro a n _ _ h; subst h; rfl
      · intro _ hd; exact (not_whole_dbl hd hw).elim
      · intro hs; exact (not_whole_str hs hw).elim
    · rw [hm]
      cases hv with
      | null => exact absurd rfl hvn
      | int a n hin =>
        have hsn : ¬ SignedTy a := fun h => hcl ⟨h64, a, h, ht⟩
        rw [castTo_whole o (inRange_u64 hin hsn)]
        refine ⟨by simp, one _, ?_, ?_, ?_, ?_, ?_⟩
        · intro a' n' _ _ h; cases h; exact ⟨_, rfl⟩
        · intro a' n' _ _ _ h; cases h; rw [if_pos h64]
        · intro a' n' _ h; exact absurd h hcl
        · intro _ hd; exact (not_whole_dbl hd hw).elim
        · intro hs; exact (not_whole_str hs hw).elim
      | dbl => exact (not_whole_dbl ht hw).elim
      | str => exact (not_whole_str ht hw).elim
    · rw [hm]
      cases hv with
      | null => exact absurd rfl hvn
      | int a n hin =>
        have hsn : a ≠ .u64 := by intro h; subst h; exact h64 ht
        rw [castTo_whole o (inRange_i64 hin hsn)]
        refine ⟨by simp, one _, ?_, ?_, ?_, ?_, ?_⟩
        · intro a' n' _ _ h; cases h; exact ⟨_, rfl⟩
        · intro a' n' _ _ _ h; cases h; rw [if_neg h64]
        · intro a' n' _ h; exact absurd h.1 h64
        · intro _ hd; exact (not_whole_dbl hd hw).elim
        · intro hs; exact (not_whole_str hs hw).elim
      | dbl => exact (not_whole_dbl ht hw).elim
      | str => exact (not_whole_str ht hw).elim
    · rw [hm]
      refine ⟨?_, one _, ?_, ?_, ?_, ?_, ?_⟩
      · cases hv <;> simp [castTo]
      · intro a n hw; exact (not_whole_str hs hw).elim
      · intro a n hw; exact (not_whole_str hs hw).elim
      · intro a n hw; exact (not_whole_str hs hw).elim
      · intro hn; exact (not_num_str hs hn).elim
      · intro _
        exact ⟨fun a n h => by subst h; rfl, fun d h => by subst h; rfl,
          fun s h => by subst h; rfl⟩

/-! ## Which branch -/

theorem truthy_iff (o : Ops D) (v : Val D) : truthy o v = true ↔ IsTrue o v := by
  constructor
  · intro h
    cases v with
    | null => simp [truthy] at h
    | int t n => exact .int t n (by simpa [truthy] using h)
    | dbl d => exact .dbl d (by simpa [truthy] using h)
    | str s => exact .str s (by simpa [truthy] using h)
  · intro h
    cases h with
    | int t n h => simpa [truthy] using h
    | dbl d h => simpa [truthy] using h
    | str s h => simpa [truthy] using h

theorem targets_flat (rem n : Nat) (hrem : rem ≤ 1) :
    ∀ (bs : List ((Ty × Val D) × (Ty × Val D))) (e : Option (Ty × Val D)) (i : Nat),
      i % 2 ≠ rem → (i ≠ 0 ∨ bs ≠ []) → i + (flat bs e).length = n →
      targets rem n i ((flat bs e).map (·.1)) = branchTypes bs e
  | [], some x, i, _, h0, hn => by
    have hi : i ≠ 0 := by rcases h0 with h | h; exact h; exact absurd rfl h
    simp only [flat, List.length_cons, List.length_nil] at hn
    have : i + 1 = n := by omega
    simp [flat, branchTypes, targets, hi, this]
  | [], none, i, _, _, _ => by simp [flat, branchTypes, targets]
  | b :: bs, e, i, hi, _, hn => by
    simp only [flat, List.length_cons] at hn
    have ih := targets_flat rem n hrem bs e (i + 1 + 1) (by omega) (Or.inl (by omega)) (by omega)
    have h1 : ¬ (i ≠ 0 ∧ (i % 2 = rem ∨ i + 1 = n)) := by omega
    have h2 : i + 1 ≠ 0 ∧ ((i + 1) % 2 = rem ∨ i + 1 + 1 = n) := by omega
    simp only [flat, List.map_cons, targets]
    rw [if_neg h1, if_pos h2, ih]
    simp [branchTypes]

theorem caseWhen_chosen (o : Ops D) {bs : List ((Ty × Val D) × (Ty × Val D))}
    {e : Option (Ty × Val D)} {v : Val D} (h : Chosen (IsTrue o) bs e v) :
    caseWhen o ((flat bs e).map (·.2)) = v := by
  induction h with
  | hit c v bs e hc => simp [flat, caseWhen, (truthy_iff o c.2).2 hc]
  | skip c v bs e r hc _ ih =>
    have : truthy o c.2 = false := by
      rw [← Bool.not_eq_true, truthy_iff]; exact hc
    simp only [flat, List.map_cons, caseWhen, this]
    simpa using ih
  | els x => simp [flat, caseWhen]
  | none => simp [flat, caseWhen]

/-- The chosen value is one of a branch, with its type, or `NULL`. -/
theorem chosen_type {holds : Val D → Prop} {bs : List ((Ty × Val D) × (Ty × Val D))}
    {e : Option (Ty × Val D)} {v : Val D} (h : Chosen holds bs e v)
    (hty : ∀ b ∈ bs, OfType b.2.1 b.2.2) (he : ∀ x, e = some x → OfType x.1 x.2) :
    v = .null ∨ ∃ t ∈ branchTypes bs e, OfType t v := by
  induction h with
  | hit c v bs e _ =>
    exact Or.inr ⟨v.1, by simp [branchTypes], hty (c, v) (List.mem_cons_self ..)⟩
  | skip c v bs e r _ _ ih =>
    rcases ih (fun b hb => hty b (List.mem_cons_of_mem _ hb)) he with h | ⟨t, ht, hv⟩
    · exact Or.inl h
    · refine Or.inr ⟨t, ?_, hv⟩
      simp only [branchTypes, List.map_cons, List.cons_append, List.mem_cons]
      exact Or.inr ht
  | els x => exact Or.inr ⟨x.1, by simp [branchTypes], he x rfl⟩
  | none => exact Or.inl rfl

theorem result_of_chosen (o : Ops D) {ts : List Ty} {v : Val D}
    (h : v = .null ∨ ∃ t ∈ ts, OfType t v) : Result o ts v (castTo o (retType ts) v) := by
  rcases h with h | ⟨t, ht, hv⟩
  · subst h; rw [castTo_null]; exact result_null o ts
  · exact result_cast o ts t v ht hv

/-- There is always exactly one choice. -/
theorem C75_choice (holds : Val D → Prop) :
    ∀ (bs : List ((Ty × Val D) × (Ty × Val D))) (e : Option (Ty × Val D)),
      ∃ v, Chosen holds bs e v ∧ ∀ w, Chosen holds bs e w → w = v
  | [], some x => ⟨x.2, .els x, by intro w h; cases h; rfl⟩
  | [], none => ⟨.null, .none, by intro w h; cases h; rfl⟩
  | (c, v) :: bs, e => by
    by_cases hc : holds c.2
    · refine ⟨v.2, .hit c v bs e hc, ?_⟩
      intro w h
      cases h with
      | hit => rfl
      | skip _ _ _ _ _ hn => exact absurd hc hn
    · obtain ⟨r, hr, hu⟩ := C75_choice holds bs e
      refine ⟨r, .skip c v bs e r hc hr, ?_⟩
      intro w h
      cases h with
      | hit _ _ _ _ hh => exact absurd hh hc
      | skip _ _ _ _ _ _ hw => exact hu w hw

/-- `CASE WHEN c THEN v … ELSE e END` is the value of the first branch whose condition is true. -/
theorem C75_case_when (o : Ops D) (bs : List ((Ty × Val D) × (Ty × Val D)))
    (e : Option (Ty × Val D)) (v : Val D) (hne : bs ≠ [])
    (hty : ∀ b ∈ bs, OfType b.2.1 b.2.2) (he : ∀ x, e = some x → OfType x.1 x.2)
    (h : Chosen (IsTrue o) bs e v) :
    Result o (branchTypes bs e) v (call o .caseWhen (flat bs e)) := by
  have ht := targets_flat 1 (flat bs e).length (by omega) bs e 0 (by omega) (Or.inr hne) (by omega)
  simp only [call, fnType, fnValue, List.length_map]
  rw [ht, caseWhen_chosen o h]
  exact result_of_chosen o (chosen_type h hty he)

/-- `IF(c, a, b)` is `a` when `c` is true and `b` otherwise, also when `c` is `NULL`. -/
theorem C75_if (o : Ops D) (c a b : Ty × Val D) (ha : OfType a.1 a.2) (hb : OfType b.1 b.2) :
    (IsTrue o c.2 → Result o [a.1, b.1] a.2 (call o .iff [c, a, b])) ∧
    (¬ IsTrue o c.2 → Result o [a.1, b.1] b.2 (call o .iff [c, a, b])) := by
  constructor
  · intro hc
    simp only [call, fnType, fnValue, List.map_cons, List.map_nil, ifFn,
      (truthy_iff o c.2).2 hc, if_true]
    exact result_cast o _ a.1 a.2 (by simp) ha
  · intro hc
    have : truthy o c.2 = false := by rw [← Bool.not_eq_true, truthy_iff]; exact hc
    simp only [call, fnType, fnValue, List.map_cons, List.map_nil, ifFn, this]
    exact result_cast o _ b.1 b.2 (by simp) hb

/-- `IFNULL(a, b)` is `a` unless that is `NULL`, and then `b`. -/
theorem C75_ifnull (o : Ops D) (a b : Ty × Val D) (ha : OfType a.1 a.2) (hb : OfType b.1 b.2) :
    (a.2 ≠ .null → Result o [a.1, b.1] a.2 (call o .ifnull [a, b])) ∧
    (a.2 = .null → Result o [a.1, b.1] b.2 (call o .ifnull [a, b])) := by
  constructor
  · intro hc
    have : typeOf a.2 ≠ .null := by
      intro h; apply hc; rcases hv : a.2 with _ | _ | _ | _ <;> rw [hv] at h <;> simp_all [typeOf]
    simp only [call, fnType, fnValue, List.map_cons, List.map_nil, ifnull, if_neg this]
    exact result_cast o _ a.1 a.2 (by simp) ha
  · intro hc
    have : typeOf a.2 = .null := by rw [hc]; rfl
    simp only [call, fnType, fnValue, List.map_cons, List.map_nil, ifnull, if_pos this]
    exact result_cast o _ b.1 b.2 (by simp) hb

/-! ## Comparing -/

theorem isUint_natural {a : ITy} (hb : a ≠ .bool) (hu : isUint (.int a) = false) : SignedTy a := by
  cases a <;> simp [isUint] at hu hb <;> constructor

theorem isInt_of_ne_bool {a : ITy} (hb : a ≠ .bool) : isInt (.int a) = true := by
  cases a <;> first | rfl | exact absurd rfl hb

theorem compareDiff_natural (o : Ops D) {x w : Val D} (hx : Natural x) (hw : Natural w) :
    ((compareDiff o x w).1 = true ↔ Same o x w) ∧ Natural (compareDiff o x w).2 ∧
      ∀ y, Same o (compareDiff o x w).2 y ↔ Same o x y := by
  obtain ⟨a, n, rfl, ha, hr, h0⟩ := hx
  obtain ⟨b, m, rfl, hb, hs, h1⟩ := hw
  have same : ∀ (a b : ITy) (n m : Int), Same o (.int a n) (.int b m) ↔ n = m := by
    intro a b n m
    constructor
    · intro h; cases h; rfl
    · intro h; subst h; exact .int _ _ _
  have cong : ∀ (a c : ITy) (n : Int) (y : Val D), Same o (.int a n) y ↔ Same o (.int c n) y := by
    intro a c n y
    constructor <;> (intro h; cases h; exact .int _ _ _)
  by_cases hab : a = b
  · subst hab
    simp only [compareDiff, typeOf, if_true, cmpEq, decide_eq_true_eq, same]
    exact ⟨trivial, ⟨a, n, rfl, ha, hr, h0⟩, fun _ => trivial⟩
  · have hne : Ty.int a ≠ Ty.int b := fun h => hab (by cases h; rfl)
    have hct : commonType (.int a) (.int b) = .int .u64 ∨
        (commonType (.int a) (.int b) = .int .i64 ∧ SignedTy a ∧ SignedTy b) := by
      simp only [commonType, isInt_of_ne_bool ha, isInt_of_ne_bool hb, and_self, if_true]
      by_cases hu : isUint (.int a) = true ∨ isUint (.int b) = true
      · rw [if_pos hu]; exact Or.inl rfl
      · rw [if_neg hu]
        have h1 : isUint (.int a) = false := by
          rw [← Bool.not_eq_true]; exact fun h => hu (Or.inl h)
        have h2 : isUint (.int b) = false := by
          rw [← Bool.not_eq_true]; exact fun h => hu (Or.inr h)
        exact Or.inr ⟨rfl, isUint_natural ha h1, isUint_natural hb h2⟩
    rcases hct with hct | ⟨hct, sa, sb⟩
    · have up : ∀ (a : ITy) (n : Int), InRange a n → 0 ≤ n → InRange .u64 n := by
        intro a n h h0; cases a <;> simp only [InRange] at h ⊢ <;> omega
      simp only [compareDiff, typeOf, if_neg hne, hct]
      rw [castTo_whole o (up a n hr h0), castTo_whole o (up b m hs h1)]
      simp only [cmpEq, decide_eq_true_eq, same]
      exact ⟨trivial, ⟨.u64, n, rfl, by simp, up a n hr h0, h0⟩, fun y => cong _ _ _ y⟩
    · have ra := inRange_i64 hr (by intro h; subst h; cases sa)
      have rb := inRange_i64 hs (by intro h; subst h; cases sb)
      simp only [compareDiff, typeOf, if_neg hne, hct]
      rw [castTo_whole o ra, castTo_whole o rb]
      simp only [cmpEq, decide_eq_true_eq, same]
      exact ⟨trivial, ⟨.i64, n, rfl, by simp, ra, h0⟩, fun y => cong _ _ _ y⟩

theorem compareDiff_signed (o : Ops D) {x w : Val D} (hx : Signed x) (hw : Signed w) :
    ((compareDiff o x w).1 = true ↔ Same o x w) ∧ Signed (compareDiff o x w).2 ∧
      ∀ y, Same o (compareDiff o x w).2 y ↔ Same o x y := by
  obtain ⟨a, n, rfl, ha, hr⟩ := hx
  obtain ⟨b, m, rfl, hb, hs⟩ := hw
  have same : ∀ (a b : ITy) (n m : Int), Same o (.int a n) (.int b m) ↔ n = m := by
    intro a b n m
    constructor
    · intro h; cases h; rfl
    · intro h; subst h; exact .int _ _ _
  have cong : ∀ (a c : ITy) (n : Int) (y : Val D), Same o (.int a n) y ↔ Same o (.int c n) y := by
    intro a c n y
    constructor <;> (intro h; cases h; exact .int _ _ _)
  by_cases hab : a = b
  · subst hab
    simp only [compareDiff, typeOf, if_true, cmpEq, decide_eq_true_eq, same]
    exact ⟨trivial, ⟨a, n, rfl, ha, hr⟩, fun _ => trivial⟩
  · have hne : Ty.int a ≠ Ty.int b := fun h => hab (by cases h; rfl)
    have hct : commonType (.int a) (.int b) = .int .i64 := by
      cases ha <;> cases hb <;> rfl
    have ra := inRange_i64 hr (by intro h; subst h; cases ha)
    have rb := inRange_i64 hs (by intro h; subst h; cases hb)
    simp only [compareDiff, typeOf, if_neg hne, hct]
    rw [castTo_whole o ra, castTo_whole o rb]
    simp only [cmpEq, decide_eq_true_eq, same]
    exact ⟨trivial, ⟨.i64, n, rfl, .i64, ra⟩, fun y => cong _ _ _ y⟩

theorem compareDiff_null (o : Ops D) {w : Val D} (hw : w ≠ .null) :
    compareDiff o .null w = (false, .null) := by
  cases w with
  | null => exact absurd rfl hw
  | int t n => cases t <;> simp [compareDiff, typeOf, commonType, isInt, isUint, isSigned,
      isDouble, castTo, cmpEq]
  | dbl d => simp [compareDiff, typeOf, commonType, isInt, isUint, isSigned, isDouble, castTo,
      cmpEq]
  | str s => simp [compareDiff, typeOf, commonType, isInt, isUint, isSigned, isDouble, castTo,
      cmpEq]

/-- One comparison: it is right, and the first value keeps comparing as before. -/
theorem compareDiff_plain (o : Ops D) {x w : Val D} {ws : List (Val D)} (h : Plain x (w :: ws)) :
    ((compareDiff o x w).1 = true ↔ Same o x w) ∧ Plain (compareDiff o x w).2 ws ∧
      ∀ y, Same o (compareDiff o x w).2 y ↔ Same o x y := by
  have hw : w ∈ x :: w :: ws := by simp
  have hx : x ∈ x :: w :: ws := by simp
  have hsub : ∀ {y}, y ∈ ws → y ∈ x :: w :: ws := by intro y hy; simp [hy]
  rcases h with ⟨rfl, hn⟩ | hs | hd | hb | hn | hg
  · rw [compareDiff_null o (hn w (List.mem_cons_self ..))]
    refine ⟨⟨fun h => (by cases h), fun h => (by cases h)⟩, Or.inl ⟨rfl, ?_⟩, fun _ => Iff.rfl⟩
    exact fun y hy => hn y (List.mem_cons_of_mem _ hy)
  · obtain ⟨s, rfl⟩ := hs _ hx
    obtain ⟨s', rfl⟩ := hs _ hw
    simp only [compareDiff, typeOf, if_true, cmpEq, decide_eq_true_eq]
    refine ⟨⟨?_, ?_⟩, Or.inr (Or.inl ?_), fun _ => trivial⟩
    · intro h; subst h; exact .str _
    · intro h; cases h; rfl
    · intro y hy
      rcases List.mem_cons.1 hy with rfl | hy
      · exact ⟨s, rfl⟩
      · exact hs y (hsub hy)
  · obtain ⟨c, rfl⟩ := hd _ hx
    obtain ⟨c', rfl⟩ := hd _ hw
    simp only [compareDiff, typeOf, if_true, cmpEq]
    refine ⟨⟨fun h => .dbl _ _ h, fun h => (by cases h; assumption)⟩, Or.inr (Or.inr (Or.inl ?_)),
      fun _ => trivial⟩
    intro y hy
    rcases List.mem_cons.1 hy with rfl | hy
    · exact ⟨c, rfl⟩
    · exact hd y (hsub hy)
  · obtain ⟨n, rfl⟩ := hb _ hx
    obtain ⟨m, rfl⟩ := hb _ hw
    simp only [compareDiff, typeOf, if_true, cmpEq, decide_eq_true_eq]
    refine ⟨⟨?_, ?_⟩, Or.inr (Or.inr (Or.inr (Or.inl ?_))), fun _ => trivial⟩
    · intro h; subst h; exact .int _ _ _
    · intro h; cases h; rfl
    · intro y hy
      rcases List.mem_cons.1 hy with rfl | hy
      · exact ⟨n, rfl⟩
      · exact hb y (hsub hy)
  · obtain ⟨h1, h2, h3⟩ := compareDiff_natural o (hn _ hx) (hn _ hw)
    refine ⟨h1, Or.inr (Or.inr (Or.inr (Or.inr (Or.inl ?_)))), h3⟩
    intro y hy
    rcases List.mem_cons.1 hy with rfl | hy
    · exact h2
    · exact hn y (hsub hy)
  · obtain ⟨h1, h2, h3⟩ := compareDiff_signed o (hg _ hx) (hg _ hw)
    refine ⟨h1, Or.inr (Or.inr (Or.inr (Or.inr (Or.inr ?_)))), h3⟩
    intro y hy
    rcases List.mem_cons.1 hy with rfl | hy
    · exact h2
    · exact hg y (hsub hy)

theorem chosen_congr {p q : Val D → Prop} (h : ∀ y, p y ↔ q y)
    {bs : List ((Ty × Val D) × (Ty × Val D))} {e : Option (Ty × Val D)} {v : Val D}
    (hc : Chosen p bs e v) : Chosen q bs e v := by
  induction hc with
  | hit c v bs e hp => exact .hit c v bs e ((h _).1 hp)
  | skip c v bs e r hp _ ih => exact .skip c v bs e r (fun hq => hp ((h _).2 hq)) ih
  | els x => exact .els x
  | none => exact .none

theorem caseLoop_chosen (o : Ops D) (e : Option (Ty × Val D)) (v : Val D) :
    ∀ (bs : List ((Ty × Val D) × (Ty × Val D))) (x : Val D), Plain x (bs.map (fun b => b.1.2)) →
      Chosen (Same o x) bs e v → caseLoop o x ((flat bs e).map (·.2)) = v
  | [], x, _, h => by
    cases h with
    | els y => simp [flat, caseLoop]
    | none => simp [flat, caseLoop]
  | b :: bs, x, hp, h => by
    obtain ⟨h1, h2, h3⟩ := compareDiff_plain o hp
    cases h with
    | hit c v bs e hs => simp [flat, caseLoop, h1.2 hs]
    | skip c v' bs e r hs hc =>
      have : (compareDiff o x c.2).1 = false := by
        rw [← Bool.not_eq_true]; exact fun hh => hs (h1.1 hh)
      simp only [flat, List.map_cons, caseLoop, this]
      exact caseLoop_chosen o e v bs _ h2 (chosen_congr (fun y => (h3 y).symm) hc)

/-- `CASE x WHEN w THEN v … ELSE e END` is the value of the first branch equal to `x`, when all are
texts, all doubles, all `BOOL`, all numbers at least zero or all of signed types; `NULL` is equal to
none. -/
theorem C75_case_expr (o : Ops D) (x : Ty × Val D) (bs : List ((Ty × Val D) × (Ty × Val D)))
    (e : Option (Ty × Val D)) (v : Val D)
    (hty : ∀ b ∈ bs, OfType b.2.1 b.2.2) (he : ∀ y, e = some y → OfType y.1 y.2)
    (hp : Plain x.2 (bs.map (fun b => b.1.2))) (h : Chosen (Same o x.2) bs e v) :
    Result o (branchTypes bs e) v (call o .caseExpr (x :: flat bs e)) := by
  have ht := targets_flat 0 ((flat bs e).length + 1) (by omega) bs e 1 (by omega)
    (Or.inl (by omega)) (by omega)
  simp only [call, fnType, fnValue, List.map_cons, List.length_cons, List.length_map, targets,
    caseExpr]
  rw [if_neg (by omega), Nat.zero_add, ht, caseLoop_chosen o e v bs x.2 hp h]
  exact result_of_chosen o (chosen_type h hty he)

/-- `NULLIF(a, b)` is `NULL` when `a` is equal to `b`, and `a` otherwise. -/
theorem C75_nullif (o : Ops D) (a b : Ty × Val D) (ha : OfType a.1 a.2) (hp : Plain a.2 [b.2]) :
    (Same o a.2 b.2 → call o .nullif [a, b] = .null) ∧
    (¬ Same o a.2 b.2 → Result o [a.1, b.1] a.2 (call o .nullif [a, b])) := by
  obtain ⟨h1, _, _⟩ := compareDiff_plain o hp
  constructor
  · intro hs
    simp only [call, fnType, fnValue, List.map_cons, List.map_nil, nullif, h1.2 hs, if_true]
    exact castTo_null o _
  · intro hs
    have : (compareDiff o a.2 b.2).1 = false := by
      rw [← Bool.not_eq_true]; exact fun hh => hs (h1.1 hh)
    simp only [call, fnType, fnValue, List.map_cons, List.map_nil, nullif, this]
    exact result_cast o _ a.1 a.2 (by simp) ha

/-- `NULLIF(a, NULL)` is `a`, when `a` is neither zero nor the empty text; a `BOOL` is compared by
its text, which is not empty. -/
theorem C75_nullif_null (o : Ops D) (a : Ty × Val D) (t : Ty) (ha : OfType a.1 a.2)
    (hi : ∀ s n, a.2 = .int s n → s ≠ .bool → o.isZero (o.ofInt n) = false)
    (hb : ∀ n, a.2 = .int .bool n → o.strOfInt .bool n ≠ "")
    (hd : ∀ d, a.2 = .dbl d → o.isZero d = false) (hs : a.2 ≠ .str "") :
    Result o [a.1, t] a.2 (call o .nullif [a, (t, .null)]) := by
  obtain ⟨ta, va⟩ := a
  by_cases hn : va = .null
  · subst hn
    have : call o .nullif [(ta, .null), (t, .null)] = .null := by
      simp [call, fnType, fnValue, nullif, compareDiff, typeOf, cmpEq, castTo_null]
    rw [this]; exact result_null o _
  have : (compareDiff o va .null).1 = false := by
    cases va with
    | null => exact absurd rfl hn
    | int s n =>
      by_cases hb' : s = .bool
      · subst hb'
        have := hb n rfl
        simp [compareDiff, typeOf, commonType, isInt, isUint, isSigned, isDouble, castTo, cmpEq,
          this]
      have hz := hi s n rfl hb'
      have hc : commonType (.int s) .null = .dbl := by
        simp [commonType, isInt_of_ne_bool hb', isDouble, show isInt .null = false from rfl]
      simp [compareDiff, typeOf, hc, castTo, cmpEq, hz]
    | dbl d =>
      simp [compareDiff, typeOf, commonType, isInt, isUint, isSigned, isDouble, castTo, cmpEq,
        hd d rfl]
    | str s =>
      have : s ≠ "" := fun h => hs (by rw [h])
      simp [compareDiff, typeOf, commonType, isInt, isUint, isSigned, isDouble, castTo, cmpEq,
        this]
  simp only [call, fnType, fnValue, List.map_cons, List.map_nil, nullif, this]
  exact result_cast o _ ta va (by simp) ha

/-- `IF(c, a, b)` is `CASE WHEN c THEN a ELSE b END`, and `NULLIF(a, b)` is, for arguments of one
type, `CASE a WHEN b THEN NULL ELSE a END`. -/
theorem C75_same_as_case (o : Ops D) (c a b : Ty × Val D) :
    call o .iff [c, a, b] = call o .caseWhen [c, a, b] ∧
    (a.1 = b.1 → OfType a.1 a.2 →
      call o .nullif [a, b] = call o .caseExpr [a, b, (.null, .null), a]) := by
  constructor
  · simp [call, fnType, fnValue, ifFn, caseWhen, targets]
  · intro hab ha
    have h1 : call o .nullif [a, b] =
        castTo o (retType [a.1, b.1]) (if (compareDiff o a.2 b.2).1 then .null else a.2) := rfl
    have h2 : call o .caseExpr [a, b, (.null, .null), a] =
        castTo o (retType [.null, a.1]) (if (compareDiff o a.2 b.2).1 then .null else a.2) := by
      simp [call, fnType, fnValue, caseExpr, caseLoop, targets]
    rw [h1, h2, ← hab]
    by_cases hc : (compareDiff o a.2 b.2).1 = true
    · rw [if_pos hc, castTo_null, castTo_null]
    · rw [if_neg hc]
      have r1 := (result_cast o [a.1, a.1] a.1 a.2 (by simp) ha).one a.1 (by
        intro x hx; simp at hx; exact Or.inr hx)
      have r2 := (result_cast o [.null, a.1] a.1 a.2 (by simp) ha).one a.1 (by
        intro x hx; simpa using hx)
      rw [r1, r2]

/-- A wrong number of arguments gives `NULL`. -/
theorem C75_arity (o : Ops D) (args : List (Ty × Val D)) :
    (args.length ≠ 3 → call o .iff args = .null) ∧
    (args.length ≠ 2 → call o .ifnull args = .null ∧ call o .nullif args = .null) := by
  constructor
  · intro h
    rcases args with _ | ⟨_, _ | ⟨_, _ | ⟨_, _ | ⟨_, _⟩⟩⟩⟩ <;>
      first | exact absurd rfl h | simp [call, fnValue, ifFn, castTo_null]
  · intro h
    rcases args with _ | ⟨_, _ | ⟨_, _ | ⟨_, _⟩⟩⟩ <;>
      first | exact absurd rfl h | simp [call, fnValue, ifnull, nullif, castTo_null]

/-! ## Where the claim fails -/

/-- `NULL` in a `WHEN` is equal to `NULL`, to the empty text and to zero; and `NULLIF` of these and
`NULL` is `NULL`. -/
theorem C75_null_counterexample (o : Ops D) (hz : o.isZero (o.ofInt 0) = true) :
    call o .caseExpr [(.str, .null), (.null, .null), (.str, .str "a"), (.str, .str "b")] = .str "a" ∧
    call o .caseExpr [(.str, .str ""), (.null, .null), (.str, .str "a"), (.str, .str "b")] =
      .str "a" ∧
    call o .caseExpr [(.int .i64, .int .i64 0), (.null, .null), (.str, .str "a"),
      (.str, .str "b")] = .str "a" ∧
    call o .nullif [(.int .i64, .int .i64 0), (.null, .null)] = .null ∧
    call o .nullif [(.str, .str ""), (.null, .null)] = .null := by
  refine ⟨?_, ?_, ?_, ?_, ?_⟩
  all_goals
    simp [call, fnType, fnValue, caseExpr, caseLoop, nullif, compareDiff, typeOf, commonType, isInt,
      isUint, isSigned, isDouble, castTo, cmpEq, hz, retType, targets, merged]

/-- A comparison with a number changes `x` for the comparisons that follow: `'01'` is not `'1'`, but
`CASE '01' WHEN 5 THEN 'a' WHEN '1' THEN 'b' ELSE 'c' END` is `'b'`. -/
theorem C75_in_place_counterexample (o : Ops D) (h1 : o.eq (o.ofStr "01") (o.ofInt 5) = false)
    (h2 : o.eq (o.ofStr "01") (o.ofStr "1") = true) :
    call o .caseExpr [(.str, .str "01"), (.int .i64, .int .i64 5), (.str, .str "a"),
      (.str, .str "1"), (.str, .str "b"), (.str, .str "c")] = .str "b" ∧
    call o .caseExpr [(.str, .str "01"),
      (.str, .str "1"), (.str, .str "b"), (.str, .str "c")] = .str "c" := by
  constructor
  all_goals
    simp [call, fnType, fnValue, caseExpr, caseLoop, compareDiff, typeOf, commonType, isInt,
      isUint, isSigned, isDouble, castTo, cmpEq, h1, h2, retType, targets, merged]

/-- Beside an unsigned number, `-1` is 18446744073709551615. -/
theorem C75_unsigned_counterexample (o : Ops D) :
    call o .caseExpr [(.int .i64, .int .i64 (-1)), (.int .u64, .int .u64 18446744073709551615),
      (.str, .str "a"), (.str, .str "b")] = .str "a" ∧
    call o .nullif [(.int .u64, .int .u64 18446744073709551615), (.int .i64, .int .i64 (-1))] =
      .null := by
  constructor
  all_goals
    simp [call, fnType, fnValue, caseExpr, caseLoop, nullif, compareDiff, typeOf, commonType, isInt,
      isUint, isSigned, castTo, cmpEq, wrap, retType, targets, merged]

/-- `BIGINT UNSIGNED` beside a signed branch becomes a `DOUBLE`: two numbers the doubles cannot tell
apart give the same result. -/
theorem C75_bigint_unsigned_counterexample (o : Ops D)
    (h : o.ofInt 9007199254740993 = o.ofInt 9007199254740992) :
    call o .ifnull [(.int .u64, .int .u64 9007199254740993), (.int .i64, .int .i64 0)] =
    call o .ifnull [(.int .u64, .int .u64 9007199254740992), (.int .i64, .int .i64 0)] := by
  simp [call, fnType, fnValue, ifnull, typeOf, castTo, h, retType, merged, isDouble, isInt, isUint,
    isSigned]

/-- A text as a condition is read as an integer: `IF('0.5', 'a', 'b')` is `'b'`, though
`IF(0.5, 'a', 'b')` is `'a'`. -/
theorem C75_text_condition_counterexample (o : Ops D) (d : D) (h : o.strInt "0.5" = 0)
    (hd : o.isZero d = false) :
    call o .iff [(.str, .str "0.5"), (.str, .str "a"), (.str, .str "b")] = .str "b" ∧
    call o .iff [(.dbl, .dbl d), (.str, .str "a"), (.str, .str "b")] = .str "a" := by
  simp [call, fnType, fnValue, ifFn, truthy, h, hd, retType, merged, castTo]

end BaikalDB.Cond
