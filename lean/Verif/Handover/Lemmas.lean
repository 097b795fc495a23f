import Verif.Handover.Spec

/-!
# Histories and what they leave
-/

namespace BaikalDB.Handover

open Spec

theorem run_eq (d : Data) (o : Op) : o.run d = Spec.op o d := by cases o <;> rfl

theorem runOps_eq (os : List Op) (d : Data) : runOps os d = opsOn os d := by
  induction os generalizing d with
  | nil => rfl
  | cons o os ih =>
    show runOps os (o.run d) = opsOn os (Spec.op o d)
    rw [ih, run_eq]

/-! ## Entries at the end of a log -/

theorem seen_snoc (t : Nat) (h : List Entry) (e : Entry) :
    seen t (h ++ [e]) = (seen t h || of e == some t) := by simp [seen]

theorem ended_snoc (t : Nat) (h : List Entry) (e : Entry) :
    ended t (h ++ [e]) = (ended t h || ends t e) := by simp [ended]

theorem prepared_snoc (t : Nat) (h : List Entry) (e : Entry) :
    prepared t (h ++ [e]) = (prepared t h || prepared t [e]) := by simp [prepared]

theorem ops_snoc (t : Nat) (h : List Entry) (e : Entry) :
    ops t (h ++ [e]) = ops t h ++ ops t [e] := by simp [ops]

theorem lastSeq_snoc (t : Nat) (h : List Entry) (e : Entry) :
    lastSeq t (h ++ [e]) = (number t e).elim (lastSeq t h) (max (lastSeq t h)) := by
  unfold lastSeq
  rw [List.filterMap_append, List.foldl_append]
  cases hn : number t e <;> simp [hn]

/-! ## An entry of another transaction -/

theorem of_ne_ends {t : Nat} {e : Entry} (h : of e ≠ some t) : ends t e = false := by
  cases e <;> simp_all [of, ends]

theorem of_ne_prepared {t : Nat} {e : Entry} (h : of e ≠ some t) : prepared t [e] = false := by
  cases e <;> simp_all [of, prepared]

theorem of_ne_ops {t : Nat} {e : Entry} (h : of e ≠ some t) : ops t [e] = [] := by
  cases e <;> simp_all [of, ops]

theorem of_ne_number {t : Nat} {e : Entry} (h : of e ≠ some t) : number t e = none := by
  cases e <;> simp_all [of, number]

/-! ## Transactions that have not been seen -/

theorem ended_seen {t : Nat} {h : List Entry} (he : ended t h = true) : seen t h = true := by
  simp only [ended, List.any_eq_true] at he
  obtain ⟨e, hm, hx⟩ := he
  simp only [seen, List.any_eq_true]
  refine ⟨e, hm, ?_⟩
  cases e <;> simp_all [ends, of]

theorem prepared_seen {t : Nat} {h : List Entry} (he : prepared t h = true) : seen t h = true := by
  simp only [prepared, List.any_eq_true] at he
  obtain ⟨e, hm, hx⟩ := he
  simp only [seen, List.any_eq_true]
  refine ⟨e, hm, ?_⟩
  cases e <;> simp_all [of]

theorem unseen_ops {t : Nat} {h : List Entry} (hs : seen t h = false) : ops t h = [] := by
  simp only [seen, List.any_eq_false] at hs
  simp only [ops, List.flatMap_eq_nil_iff]
  intro e he
  have := hs e he
  cases e <;> simp_all [of]

theorem unseen_lastSeq {t : Nat} {h : List Entry} (hs : seen t h = false) : lastSeq t h = 1 := by
  have : h.filterMap (number t) = [] := by
    rw [List.filterMap_eq_nil_iff]
    intro e he
    simp only [seen, List.any_eq_false] at hs
    have := hs e he
    exact of_ne_number (by simpa using this)
  simp [lastSeq, this]

/-! ## Logs in two parts -/

theorem dataFrom_append (p : List Entry) (d : Data) (l m : List Entry) :
    dataFrom p d (l ++ m) = dataFrom (p ++ l) (dataFrom p d l) m := by
  induction l generalizing p d with
  | nil => simp [dataFrom]
  | cons e l ih => simp [dataFrom, ih]

theorem validFrom_append (p l m : List Entry) :
    ValidFrom p (l ++ m) ↔ ValidFrom p l ∧ ValidFrom (p ++ l) m := by
  induction l generalizing p with
  | nil => simp [ValidFrom]
  | cons e l ih => simp [ValidFrom, ih, and_assoc]

/-! ## Entries that differ in their batches -/

theorem Spec.Share.of_eq {K : Key → Prop} {e f : Entry} (h : Share K e f) : of e = of f := by
  cases h <;> rfl

theorem Spec.Share.ends_eq {K : Key → Prop} {e f : Entry} (h : Share K e f) (t : Nat) :
    ends t e = ends t f := by
  cases h <;> rfl

theorem Spec.Share.number_eq {K : Key → Prop} {e f : Entry} (h : Share K e f) (t : Nat) :
    number t e = number t f := by
  cases h <;> rfl

theorem Spec.Share.prepared_eq {K : Key → Prop} {e f : Entry} (h : Share K e f) (t : Nat) :
    prepared t [e] = prepared t [f] := by
  cases h <;> rfl

theorem shares_ended {K : Key → Prop} {l m : List Entry} (h : List.Forall₂ (Share K) l m)
    (t : Nat) : ended t l = ended t m := by
  induction h with
  | nil => rfl
  | cons a _ ih => simp only [ended, List.any_cons] at ih ⊢; rw [a.ends_eq t, ih]

theorem shares_seen {K : Key → Prop} {l m : List Entry} (h : List.Forall₂ (Share K) l m)
    (t : Nat) : seen t l = seen t m := by
  induction h with
  | nil => rfl
  | cons a _ ih => simp only [seen, List.any_cons] at ih ⊢; rw [a.of_eq, ih]

theorem shares_isOpen {K : Key → Prop} {l m : List Entry} (h : List.Forall₂ (Share K) l m)
    (t : Nat) : isOpen t l = isOpen t m := by
  simp only [isOpen, shares_seen h, shares_ended h]

theorem shares_prepared {K : Key → Prop} {l m : List Entry} (h : List.Forall₂ (Share K) l m)
    (t : Nat) : prepared t l = prepared t m := by
  induction h with
  | nil => rfl
  | @cons e f l m a _ ih =>
    have h1 : prepared t (e :: l) = (prepared t [e] || prepared t l) := by simp [prepared]
    have h2 : prepared t (f :: m) = (prepared t [f] || prepared t m) := by simp [prepared]
    rw [h1, h2, a.prepared_eq t, ih]

theorem shares_lastSeq {K : Key → Prop} {l m : List Entry} (h : List.Forall₂ (Share K) l m)
    (t : Nat) : lastSeq t l = lastSeq t m := by
  have : l.filterMap (number t) = m.filterMap (number t) := by
    induction h with
    | nil => rfl
    | cons a _ ih => simp only [List.filterMap_cons, a.number_eq t, ih]
  simp only [lastSeq, this]

theorem Spec.SameOn.append {K : Key → Prop} {a b c d : List Op} (h : SameOn K a b) (g : SameOn K c d) :
    SameOn K (a ++ c) (b ++ d) := by
  induction h with
  | nil => exact g
  | both o _ ih => exact .both o ih
  | left hn _ ih => exact .left hn ih
  | right hn _ ih => exact .right hn ih

theorem shares_ops {K : Key → Prop} {l m : List Entry} (h : List.Forall₂ (Share K) l m)
    (t : Nat) : SameOn K (ops t l) (ops t m) := by
  induction h with
  | nil => exact .nil
  | @cons e f l m a _ ih =>
    have h1 : ops t (e :: l) = ops t [e] ++ ops t l := by simp [ops]
    have h2 : ops t (f :: m) = ops t [f] ++ ops t m := by simp [ops]
    rw [h1, h2]
    refine Spec.SameOn.append ?_ ih
    cases a with
    | stmt u s hs =>
      by_cases hu : u = t
      · simpa [ops, hu] using hs
      · simpa [ops, hu] using SameOn.nil
    | _ => exact .nil

theorem shares_follows {K : Key → Prop} {p q : List Entry} (h : List.Forall₂ (Share K) p q)
    {e f : Entry} (a : Share K e f) (hf : Follows p e) : Follows q f := by
  cases a <;> simp_all [Follows, shares_ended h, shares_prepared h, shares_lastSeq h]

theorem forall₂_append {α β : Type} {R : α → β → Prop} {a : List α} {b : List β} {c : List α}
    {d : List β} (h : List.Forall₂ R a b) (g : List.Forall₂ R c d) :
    List.Forall₂ R (a ++ c) (b ++ d) := by
  induction h with
  | nil => exact g
  | cons x _ ih => exact .cons x ih

theorem shares_valid {K : Key → Prop} {p q l m : List Entry} (hp : List.Forall₂ (Share K) p q)
    (h : List.Forall₂ (Share K) l m) (hv : ValidFrom p l) : ValidFrom q m := by
  induction h generalizing p q with
  | nil => trivial
  | cons a _ ih =>
    exact ⟨shares_follows hp a hv.1, ih (forall₂_append hp (.cons a .nil)) hv.2⟩

theorem op_other {o : Op} {k : Key} (h : about o ≠ k) (d : Data) : Spec.op o d k = d k := by
  cases o <;> simp_all [Spec.op, about, eq_comm]

theorem op_congr {o : Op} {k : Key} {d d' : Data} (h : d k = d' k) :
    Spec.op o d k = Spec.op o d' k := by
  cases o <;> simp [Spec.op, h]

theorem sameOn_opsOn {K : Key → Prop} {a b : List Op} (h : SameOn K a b) {d d' : Data}
    (hd : ∀ k, K k → d k = d' k) (k : Key) (hk : K k) : opsOn a d k = opsOn b d' k := by
  induction h generalizing d d' with
  | nil => exact hd k hk
  | both o _ ih => exact ih fun x hx => op_congr (hd x hx)
  | left hn _ ih =>
    refine ih fun x hx => ?_
    rw [op_other (by rintro rfl; exact hn hx)]
    exact hd x hx
  | right hn _ ih =>
    refine ih fun x hx => ?_
    rw [op_other (by rintro rfl; exact hn hx)]
    exact hd x hx

/-- Two histories that do the same to the keys in `K`; of the past only the transactions that have
not ended matter. -/
theorem dataFrom_same {K : Key → Prop} {p q l m : List Entry}
    (hend : ∀ t, ended t p = ended t q)
    (hops : ∀ t, ended t p = false → SameOn K (ops t p) (ops t q))
    (h : List.Forall₂ (Share K) l m) (hv : ValidFrom p l) {d d' : Data}
    (hd : ∀ k, K k → d k = d' k) (k : Key) (hk : K k) :
    dataFrom p d l k = dataFrom q d' m k := by
  induction h generalizing p q d d' with
  | nil => exact hd k hk
  | @cons e f l m a _ ih =>
    refine ih (fun t => ?_) (fun t ht => ?_) hv.2 (fun x hx => ?_)
    · rw [ended_snoc, ended_snoc, hend, a.ends_eq]
    · rw [ended_snoc] at ht
      rw [ops_snoc, ops_snoc]
      exact (hops t (by simp_all)).append (shares_ops (.cons a .nil) t)
    · cases a with
      | write hs => exact sameOn_opsOn hs hd x hx
      | commit t => exact sameOn_opsOn (hops t hv.1.1) hd x hx
      | _ => exact hd x hx

theorem opsOn_untouched {os : List Op} {k : Key} (h : ∀ o ∈ os, about o ≠ k) (d : Data) :
    opsOn os d k = d k := by
  induction os generalizing d with
  | nil => rfl
  | cons o os ih =>
    show opsOn os (Spec.op o d) k = d k
    rw [ih (fun x hx => h x (by simp [hx])), op_other (h o (by simp))]

theorem mem_ops {t : Nat} {l : List Entry} {o : Op} (h : o ∈ ops t l) :
    ∃ e ∈ l, o ∈ batch e := by
  simp only [ops, List.mem_flatMap] at h
  obtain ⟨e, he, ho⟩ := h
  refine ⟨e, he, ?_⟩
  cases e with
  | stmt u s os =>
    by_cases hu : u = t
    · simpa [hu, batch] using ho
    · simp [hu] at ho
  | _ => simp at ho

/-- A key that no operation is about keeps its value. -/
theorem dataFrom_untouched {p l : List Entry} {k : Key}
    (h : ∀ e ∈ p ++ l, ∀ o ∈ batch e, about o ≠ k) (d : Data) : dataFrom p d l k = d k := by
  induction l generalizing p d with
  | nil => rfl
  | cons e l ih =>
    show dataFrom (p ++ [e]) (effect p e d) l k = d k
    rw [ih (by simpa using h)]
    cases e with
    | write os => exact opsOn_untouched (fun o ho => h (.write os) (by simp) o ho) d
    | commit t =>
      refine opsOn_untouched (fun o ho => ?_) d
      obtain ⟨e', he', ho'⟩ := mem_ops ho
      exact h e' (by simp [he']) o ho'
    | _ => rfl

end BaikalDB.Handover
