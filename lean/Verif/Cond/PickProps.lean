import Verif.Cond.Pick
import Verif.Cond.Props
import Mathlib.Tactic.Common

/-!
# ELT, FIELD, FIND_IN_SET, MAKE_SET, GREATEST and LEAST: proofs
-/

namespace BaikalDB.Cond

variable {D : Type}

theorem hasNull_iff (vs : List (Val D)) : hasNull vs = true ↔ .null ∈ vs := by
  induction vs with
  | nil => simp [hasNull]
  | cons v vs ih =>
    cases v <;> simp [hasNull, typeOf, ih]

theorem hasNull_false {vs : List (Val D)} (h : .null ∉ vs) : hasNull vs = false := by
  rw [← Bool.not_eq_true, hasNull_iff]; exact h

theorem textOf_iff (o : Ops D) {v : Val D} (hv : v ≠ .null) (s : String) :
    TextOf o v s ↔ textOf o v = s := by
  cases v with
  | null => exact absurd rfl hv
  | int a n =>
    constructor
    · intro h; cases h; rfl
    · intro h; subst h; exact .int a n
  | dbl d =>
    constructor
    · intro h; cases h; rfl
    · intro h; subst h; exact .dbl d
  | str t =>
    constructor
    · intro h; cases h; rfl
    · intro h; subst h; exact .str t

theorem int64Of_int (o : Ops D) {a : ITy} {n : Int} (h : InRange .i64 n) :
    int64Of o (.int a n) = n := by
  simp only [int64Of, castTo_whole o h]

/-- A `NULL` argument makes the result `NULL`. -/
theorem C76_null (o : Ops D) (lt : D → D → Bool) (args : List (Val D)) (h : .null ∈ args) :
    elt o args = .null ∧ field o args = .null ∧ findInSet o args = .null ∧
      makeSet o args = .null ∧ greatest o lt args = .null ∧ least o lt args = .null := by
  have hn := (hasNull_iff args).2 h
  have best : ∀ (better : D → D → Bool) (r : Option D) (l : List (Val D)), .null ∈ l →
      bestLoop o better r l = .null := by
    intro better r l hl
    induction l generalizing r with
    | nil => cases hl
    | cons v vs ih =>
      simp only [bestLoop]
      by_cases hv : typeOf v = .null
      · rw [if_pos hv]
      · rw [if_neg hv]
        have : .null ∈ vs := by
          rcases List.mem_cons.1 hl with h | h
          · exact absurd (by rw [← h]; rfl) hv
          · exact h
        cases r <;> exact ih _ this
  simp only [elt, field, findInSet, makeSet, hn, if_true, greatest, least]
  exact ⟨trivial, trivial, trivial, trivial, best _ _ _ h, best _ _ _ h⟩

/-- `ELT(n, a, b, …)` is the text of the `n`th of `a, b, …`, and `NULL` when there is none. -/
theorem C76_elt (o : Ops D) (t : ITy) (n : Int) (vs : List (Val D)) (hn : InRange .i64 n)
    (hv : .null ∉ vs) :
    (∀ before v after s, vs = before ++ v :: after → n = before.length + 1 → TextOf o v s →
      elt o (.int t n :: vs) = .str s) ∧
    ((n < 1 ∨ n > vs.length) → elt o (.int t n :: vs) = .null) := by
  have h0 : hasNull (.int t n :: vs) = false := hasNull_false (by simp [hv])
  have hi := int64Of_int o (a := t) hn
  constructor
  · intro before v after s hvs hk hs
    have hvn : v ≠ .null := by
      intro h; subst h; apply hv; rw [hvs]; simp
    have htx := (textOf_iff o hvn s).1 hs
    rcases hvs' : vs with _ | ⟨y, l⟩
    · rw [hvs'] at hvs; simp at hvs
    rw [hvs'] at h0
    have hlen : ((y :: l).length : Int) = before.length + 1 + after.length := by
      rw [← hvs', hvs]; simp; omega
    have hr : ¬ (int64Of o (.int t n) < 1 ∨ int64Of o (.int t n) > ((y :: l).length : Int)) := by
      rw [hi, hlen]; omega
    have hidx : (Val.int t n :: y :: l)[(int64Of o (.int t n)).toNat]? = some v := by
      rw [hi, hk, show ((before.length : Int) + 1).toNat = before.length + 1 by omega,
        List.getElem?_cons_succ, ← hvs', hvs]
      simp
    simp only [elt, h0, Bool.false_eq_true, if_false]
    rw [if_neg hr, hidx]
    simp [htx]
  · intro hr
    simp only [elt, h0, Bool.false_eq_true, if_false]
    rcases vs with _ | ⟨y, l⟩
    · rfl
    · simp only
      rw [if_pos (by rw [hi]; exact hr)]

theorem fieldLoop_spec (o : Ops D) (t : String) :
    ∀ (vs : List (Val D)) (i : Int),
      (fieldLoop o t i vs = 0 ∧ ∀ x ∈ vs, textOf o x ≠ t) ∨
      ∃ before x after, vs = before ++ x :: after ∧ (∀ y ∈ before, textOf o y ≠ t) ∧
        textOf o x = t ∧ fieldLoop o t i vs = i + before.length
  | [], i => Or.inl ⟨rfl, by simp⟩
  | v :: vs, i => by
    by_cases h : textOf o v = t
    · exact Or.inr ⟨[], v, vs, rfl, by simp, h, by simp [fieldLoop, h]⟩
    · rcases fieldLoop_spec o t vs (i + 1) with ⟨h1, h2⟩ | ⟨b, x, a, h1, h2, h3, h4⟩
      · refine Or.inl ⟨by simp [fieldLoop, h, h1], ?_⟩
        intro x hx
        rcases List.mem_cons.1 hx with rfl | hx
        · exact h
        · exact h2 x hx
      · refine Or.inr ⟨v :: b, x, a, by simp [h1], ?_, h3, ?_⟩
        · intro y hy
          rcases List.mem_cons.1 hy with rfl | hy
          · exact h
          · exact h2 y hy
        · simp only [fieldLoop, if_neg h, h4, List.length_cons]; push_cast; omega

/-- `FIELD(x, a, b, …)` is the place of the first of `a, b, …` with the text of `x`, else zero. -/
theorem C76_field (o : Ops D) (x : Val D) (vs : List (Val D)) (s : String) (hx : TextOf o x s)
    (hv : .null ∉ vs) (hne : vs ≠ []) :
    ∃ k : Nat, FirstAt (fun v => TextOf o v s) vs k ∧ field o (x :: vs) = .int .i32 k := by
  have hxn : x ≠ .null := by intro h; subst h; cases hx
  have h0 : hasNull (x :: vs) = false := hasNull_false (by simp [hv, Ne.symm hxn])
  have ht := (textOf_iff o hxn s).1 hx
  have hf : field o (x :: vs) = .int .i32 (fieldLoop o s 1 vs) := by
    simp only [field, h0, Bool.false_eq_true, if_false]
    rcases vs with _ | ⟨y, l⟩
    · exact absurd rfl hne
    · simp [ht]
  have hnn : ∀ y ∈ vs, y ≠ .null := fun y hy h => hv (h ▸ hy)
  rcases fieldLoop_spec o s vs 1 with ⟨h1, h2⟩ | ⟨b, y, a, h1, h2, h3, h4⟩
  · refine ⟨0, Or.inl ⟨rfl, ?_⟩, by rw [hf, h1]; rfl⟩
    intro y hy hc
    exact h2 y hy ((textOf_iff o (hnn y hy) s).1 hc)
  · refine ⟨b.length + 1, Or.inr ⟨b, y, a, h1, ?_, ?_, rfl⟩, ?_⟩
    · intro z hz hc
      exact h2 z hz ((textOf_iff o (hnn z (by rw [h1]; simp [hz])) s).1 hc)
    · exact (textOf_iff o (hnn y (by rw [h1]; simp)) s).2 h3
    · rw [hf, h4]; push_cast; congr 1; omega

/-- `ELT` undoes `FIELD`: `ELT(FIELD(x, a, b, …), a, b, …)` is the text of `x` when that is among
`a, b, …`, and `NULL` when it is not. -/
theorem C76_elt_field (o : Ops D) (x : Val D) (vs : List (Val D)) (s : String) (hx : TextOf o x s)
    (hv : .null ∉ vs) (hne : vs ≠ []) (hlen : vs.length ≤ 2147483647) :
    ((∃ v ∈ vs, TextOf o v s) → elt o (field o (x :: vs) :: vs) = .str s) ∧
    ((∀ v ∈ vs, ¬ TextOf o v s) → elt o (field o (x :: vs) :: vs) = .null) := by
  obtain ⟨k, hk, hf⟩ := C76_field o x vs s hx hv hne
  rw [hf]
  rcases hk with ⟨rfl, hk⟩ | ⟨b, y, a, h1, h2, h3, rfl⟩
  · refine ⟨fun ⟨v, hv', hs⟩ => absurd hs (hk v hv'), fun _ => ?_⟩
    exact (C76_elt o .i32 _ vs (by simp [InRange]) hv).2 (Or.inl (by simp))
  · refine ⟨fun _ => ?_, fun h => absurd h3 (h y (by rw [h1]; simp))⟩
    have hl : b.length + 1 ≤ vs.length := by rw [h1]; simp
    exact (C76_elt o .i32 _ vs (by simp only [InRange]; push_cast; omega) hv).1 b y a s h1
      (by push_cast; rfl) h3

theorem splitComma_plain : ∀ p : List Char, ',' ∉ p → splitComma p = [p]
  | [], _ => rfl
  | c :: cs, h => by
    have hc : c ≠ ',' := fun e => h (by rw [e]; simp)
    have := splitComma_plain cs (fun e => h (List.mem_cons_of_mem _ e))
    simp [splitComma, hc, this]

theorem splitComma_append : ∀ (p : List Char) (rest : List Char), ',' ∉ p →
    splitComma (p ++ ',' :: rest) = p :: splitComma rest
  | [], rest, _ => by simp [splitComma]
  | c :: cs, rest, h => by
    have hc : c ≠ ',' := fun e => h (by rw [e]; simp)
    have := splitComma_append cs rest (fun e => h (List.mem_cons_of_mem _ e))
    simp [splitComma, hc, this]

theorem splitComma_join : ∀ ps : List (List Char), ps ≠ [] → (∀ p ∈ ps, ',' ∉ p) →
    splitComma (joinChars ps) = ps
  | [], h, _ => absurd rfl h
  | [a], _, h => splitComma_plain a (h a (by simp))
  | a :: b :: l, _, h => by
    simp only [joinChars]
    rw [splitComma_append a _ (h a (by simp)),
      splitComma_join (b :: l) (by simp) (fun p hp => h p (List.mem_cons_of_mem _ hp))]

theorem setLoop_spec (t : List Char) : ∀ (ps : List (List Char)) (i : Int), ∃ k : Nat,
    FirstAt (fun p => p = t) ps k ∧ ((k = 0 ∧ setLoop t i ps = 0) ∨
      (k ≠ 0 ∧ setLoop t i ps = i + k))
  | [], i => ⟨0, Or.inl ⟨rfl, by simp⟩, Or.inl ⟨rfl, rfl⟩⟩
  | p :: ps, i => by
    by_cases h : p = t
    · exact ⟨1, Or.inr ⟨[], p, ps, rfl, by simp, h, rfl⟩, Or.inr ⟨by simp, by simp [setLoop, h]⟩⟩
    · obtain ⟨k, hk, hs⟩ := setLoop_spec t ps (i + 1)
      rcases hk with ⟨rfl, hk⟩ | ⟨b, x, a, h1, h2, h3, rfl⟩
      · refine ⟨0, Or.inl ⟨rfl, ?_⟩, Or.inl ⟨rfl, ?_⟩⟩
        · intro x hx
          rcases List.mem_cons.1 hx with rfl | hx
          · exact h
          · exact hk x hx
        · rcases hs with hs | hs
          · simp [setLoop, h, hs.2]
          · exact absurd rfl hs.1
      · refine ⟨b.length + 2, Or.inr ⟨p :: b, x, a, by simp [h1], ?_, h3, by simp⟩,
          Or.inr ⟨by simp, ?_⟩⟩
        · intro y hy
          rcases List.mem_cons.1 hy with rfl | hy
          · exact h
          · exact h2 y hy
        · rcases hs with hs | hs
          · exact absurd hs.1 (by simp)
          · simp only [setLoop, if_neg h, hs.2]; push_cast; omega

/-- `FIND_IN_SET(x, 'a,b,…')` is the place of the first of `a, b, …` that is `x`, else zero. -/
theorem C76_find_in_set (o : Ops D) (t : List Char) (ps : List (List Char)) (hne : ps ≠ [])
    (hp : ∀ p ∈ ps, ',' ∉ p) :
    ∃ k : Nat, FirstAt (fun p => p = t) ps k ∧
      findInSet o [.str (String.ofList t), .str (String.ofList (joinChars ps))] = .int .i64 k := by
  obtain ⟨k, hk, hs⟩ := setLoop_spec t ps 0
  refine ⟨k, hk, ?_⟩
  have h0 : hasNull [Val.str (D := D) (String.ofList t), .str (String.ofList (joinChars ps))] =
      false := hasNull_false (by simp)
  have ht : ∀ s : String, textOf o (.str s) = s := fun _ => rfl
  simp only [findInSet, h0, Bool.false_eq_true, if_false, ht, String.toList_ofList]
  rw [splitComma_join ps hne hp]
  rcases hs with ⟨h1, h2⟩ | ⟨_, h2⟩
  · rw [h2, h1]; rfl
  · rw [h2]; simp

/-- A number or other value is searched by its text. -/
theorem C76_find_in_set_text (o : Ops D) (x y : Val D) (s u : String) (hx : TextOf o x s)
    (hy : TextOf o y u) : findInSet o [x, y] = findInSet o [.str s, .str u] := by
  have hxn : x ≠ .null := by intro h; subst h; cases hx
  have hyn : y ≠ .null := by intro h; subst h; cases hy
  have h0 : hasNull [x, y] = false := hasNull_false (by simp [Ne.symm hxn, Ne.symm hyn])
  have h1 : hasNull [Val.str (D := D) s, .str u] = false := hasNull_false (by simp)
  simp only [findInSet, h0, h1, Bool.false_eq_true, if_false, (textOf_iff o hxn s).1 hx,
    (textOf_iff o hyn u).1 hy]
  rfl

/-! ## MAKE_SET -/

theorem bits_cons {α : Type} (n : Int) (v : α) (vs : List α) :
    Bits n (v :: vs) = (if n % 2 = 1 then [v] else []) ++ Bits (n / 2) vs := by
  have key : ∀ i : Nat, n / 2 ^ (i + 1) = n / 2 / 2 ^ i := by
    intro i
    rw [Int.pow_succ, Int.mul_comm, Int.ediv_ediv_of_nonneg (by omega)]
  have : vs.zipIdx 1 = (vs.zipIdx 0).map (fun p => (p.1, p.2 + 1)) := by
    rw [List.zipIdx_succ]
  simp only [Bits, List.zipIdx_cons, Nat.zero_add, List.filter_cons, Int.pow_zero, Int.ediv_one]
  rw [this, List.filter_map]
  by_cases h : n % 2 = 1
  · simp [h, Function.comp_def, key]
  · simp [h, Function.comp_def, key]

theorem bits_zero {α : Type} (vs : List α) : Bits 0 vs = [] := by
  simp [Bits]

/-- Texts appended with a comma before each. -/
def tailComma : List String → String
  | [] => ""
  | a :: l => "," ++ a ++ tailComma l

theorem joinComma_cons : ∀ (a : String) (l : List String), joinComma (a :: l) = a ++ tailComma l
  | a, [] => by simp [joinComma, tailComma]
  | a, b :: l => by
    simp only [joinComma, tailComma, joinComma_cons b l, String.append_assoc]

theorem makeLoop_spec (o : Ops D) : ∀ (vs : List (Val D)) (n : Int) (res : String),
    makeLoop o n false res vs = res ++ tailComma ((Bits n vs).map (textOf o)) ∧
    makeLoop o n true res vs = res ++ joinComma ((Bits n vs).map (textOf o))
  | [], n, res => by simp [makeLoop, Bits, tailComma, joinComma]
  | v :: vs, n, res => by
    rw [bits_cons]
    by_cases h : n % 2 = 1
    · by_cases h2 : n / 2 = 0
      · simp [makeLoop, h, h2, bits_zero, tailComma, joinComma, String.append_assoc]
      · simp only [makeLoop, if_pos h, if_neg h2, (makeLoop_spec o vs (n / 2) _).1,
          List.singleton_append, List.map_cons, joinComma_cons, tailComma, String.append_assoc]
        simp [String.append_assoc]
    · by_cases h2 : n / 2 = 0
      · simp [makeLoop, h, h2, bits_zero, tailComma, joinComma]
      · simp [makeLoop, h, h2, (makeLoop_spec o vs (n / 2) _).1, (makeLoop_spec o vs (n / 2) _).2]

/-- `MAKE_SET(n, a, b, …)` has the texts of those of `a, b, …` whose bit is set in `n`, with commas
between. -/
theorem C76_make_set (o : Ops D) (t : ITy) (n : Int) (vs : List (Val D)) (ss : List String)
    (hn : InRange .i64 n) (hne : vs ≠ []) (hs : List.Forall₂ (TextOf o) vs ss) :
    makeSet o (.int t n :: vs) = .str (joinComma (Bits n ss)) := by
  have hmap : .null ∉ vs ∧ ss = vs.map (textOf o) := by
    clear hne
    induction hs with
    | nil => simp
    | @cons v s vs ss hv _ ih =>
      have hvn : v ≠ .null := by intro h; subst h; cases hv
      refine ⟨by simp [Ne.symm hvn, ih.1], ?_⟩
      rw [List.map_cons, ← ih.2, (textOf_iff o hvn s).1 hv]
  have h0 : hasNull (.int t n :: vs) = false := hasNull_false (by simp [hmap.1])
  have hb : ∀ (l : List (Val D)) (n : Int), Bits n (l.map (textOf o)) = (Bits n l).map (textOf o) := by
    intro l
    induction l with
    | nil => intro n; simp [Bits]
    | cons v l ih =>
      intro n
      rw [List.map_cons, bits_cons, bits_cons, ih]
      by_cases h : n % 2 = 1 <;> simp [h]
  have hf : makeSet o (.int t n :: vs) = .str (makeLoop o n true "" vs) := by
    simp only [makeSet, h0, Bool.false_eq_true, if_false]
    rcases vs with _ | ⟨y, l⟩
    · exact absurd rfl hne
    · simp [int64Of_int o hn]
  rw [hf, (makeLoop_spec o vs n "").2, hmap.2, hb]
  simp

/-! ## GREATEST and LEAST -/

theorem dblOf_iff (o : Ops D) {v : Val D} (hv : v ≠ .null) (d : D) :
    DblOf o v d ↔ dblOf o v = d := by
  cases v with
  | null => exact absurd rfl hv
  | int a n => exact ⟨fun h => by cases h; rfl, fun h => h ▸ .int a n⟩
  | dbl e => exact ⟨fun h => by cases h; rfl, fun h => h ▸ .dbl e⟩
  | str s => exact ⟨fun h => by cases h; rfl, fun h => h ▸ .str s⟩

theorem bestLoop_spec (o : Ops D) (better : D → D → Bool) (hirr : ∀ a, better a a = false)
    (htr : ∀ a b c, better a b = false → better b c = false → better a c = false)
    (has : ∀ a b, better a b = true → better b a = false) :
    ∀ (vs : List (Val D)) (d : D), .null ∉ vs → ∃ r,
      bestLoop o better (some d) vs = .dbl r ∧ (r = d ∨ ∃ v ∈ vs, r = dblOf o v) ∧
      better d r = false ∧ ∀ v ∈ vs, better (dblOf o v) r = false
  | [], d, _ => ⟨d, rfl, Or.inl rfl, hirr d, by simp⟩
  | v :: vs, d, h => by
    have hv : typeOf v ≠ .null := by
      intro e; apply h
      cases v <;> simp_all [typeOf]
    have hvs : .null ∉ vs := fun e => h (List.mem_cons_of_mem _ e)
    simp only [bestLoop, if_neg hv]
    by_cases hb : better (dblOf o v) d = true
    · rw [if_pos hb]
      obtain ⟨r, h1, h2, h3, h4⟩ := bestLoop_spec o better hirr htr has vs (dblOf o v) hvs
      refine ⟨r, h1, ?_, htr _ _ _ (has _ _ hb) h3, ?_⟩
      · rcases h2 with h2 | ⟨w, hw, h2⟩
        · exact Or.inr ⟨v, by simp, h2⟩
        · exact Or.inr ⟨w, by simp [hw], h2⟩
      · intro w hw
        rcases List.mem_cons.1 hw with rfl | hw
        · exact h3
        · exact h4 w hw
    · rw [if_neg hb]
      obtain ⟨r, h1, h2, h3, h4⟩ := bestLoop_spec o better hirr htr has vs d hvs
      refine ⟨r, h1, ?_, h3, ?_⟩
      · rcases h2 with h2 | ⟨w, hw, h2⟩
        · exact Or.inl h2
        · exact Or.inr ⟨w, by simp [hw], h2⟩
      · intro w hw
        rcases List.mem_cons.1 hw with rfl | hw
        · exact htr _ _ _ (by simpa using hb) h3
        · exact h4 w hw

theorem best_all (o : Ops D) (better : D → D → Bool) (hirr : ∀ a, better a a = false)
    (htr : ∀ a b c, better a b = false → better b c = false → better a c = false)
    (has : ∀ a b, better a b = true → better b a = false) (vs : List (Val D)) (hne : vs ≠ [])
    (hv : .null ∉ vs) :
    ∃ r, bestLoop o better none vs = .dbl r ∧ (∃ v ∈ vs, DblOf o v r) ∧
      ∀ v ∈ vs, ∀ d, DblOf o v d → better d r = false := by
  have hnn : ∀ y ∈ vs, y ≠ .null := fun y hy h => hv (h ▸ hy)
  rcases vs with _ | ⟨v, vs⟩
  · exact absurd rfl hne
  have hv0 : typeOf v ≠ .null := by
    intro e; have := hnn v (by simp); cases v <;> simp_all [typeOf]
  obtain ⟨r, h1, h2, h3, h4⟩ := bestLoop_spec o better hirr htr has vs (dblOf o v)
    (fun e => hv (List.mem_cons_of_mem _ e))
  refine ⟨r, by simp only [bestLoop, if_neg hv0, h1], ?_, ?_⟩
  · rcases h2 with h2 | ⟨w, hw, h2⟩
    · exact ⟨v, by simp, (dblOf_iff o (hnn v (by simp)) r).2 h2.symm⟩
    · exact ⟨w, by simp [hw], (dblOf_iff o (hnn w (by simp [hw])) r).2 h2.symm⟩
  · intro w hw d hd
    have := (dblOf_iff o (hnn w hw) d).1 hd
    subst this
    rcases List.mem_cons.1 hw with rfl | hw
    · exact h3
    · exact h4 w hw

/-- `GREATEST` is the double of one of its arguments, and none is above it: for doubles of which any
two are ordered (there is no NaN). -/
theorem C76_greatest (o : Ops D) (lt : D → D → Bool) (hirr : ∀ a, lt a a = false)
    (htr : ∀ a b c, lt a b = false → lt b c = false → lt a c = false)
    (has : ∀ a b, lt a b = true → lt b a = false) (vs : List (Val D)) (hne : vs ≠ [])
    (hv : .null ∉ vs) :
    ∃ r, greatest o lt vs = .dbl r ∧ (∃ v ∈ vs, DblOf o v r) ∧
      ∀ v ∈ vs, ∀ d, DblOf o v d → lt r d = false :=
  best_all o (fun a b => lt b a) hirr (fun a b c h1 h2 => htr c b a h2 h1)
    (fun a b h => has b a h) vs hne hv

/-- `LEAST` is the double of one of its arguments, and none is below it. -/
theorem C76_least (o : Ops D) (lt : D → D → Bool) (hirr : ∀ a, lt a a = false)
    (htr : ∀ a b c, lt a b = false → lt b c = false → lt a c = false)
    (has : ∀ a b, lt a b = true → lt b a = false) (vs : List (Val D)) (hne : vs ≠ [])
    (hv : .null ∉ vs) :
    ∃ r, least o lt vs = .dbl r ∧ (∃ v ∈ vs, DblOf o v r) ∧
      ∀ v ∈ vs, ∀ d, DblOf o v d → lt d r = false :=
  best_all o (fun a b => lt a b) hirr htr has vs hne hv

/-- Without the arguments they need, the functions are `NULL`. -/
theorem C76_arity (o : Ops D) (lt : D → D → Bool) (x : Val D) :
    elt o [x] = .null ∧ field o [x] = .null ∧ makeSet o [x] = .null ∧ elt o [] = .null ∧
    field o [] = .null ∧ makeSet o [] = .null ∧ greatest o lt [] = .null ∧ least o lt [] = .null ∧
    ∀ args, args.length ≠ 2 → findInSet o args = .null := by
  refine ⟨by simp [elt], by simp [field], by simp [makeSet], by simp [elt, hasNull],
    by simp [field, hasNull], by simp [makeSet, hasNull], rfl, rfl, ?_⟩
  intro args h
  rcases args with _ | ⟨_, _ | ⟨_, _ | ⟨_, _⟩⟩⟩ <;> first | exact absurd rfl h | simp [findInSet]

/-! ## Where they differ from what is expected -/

/-- A `NULL` that is not chosen makes the result `NULL` too: `ELT(1, 'a', NULL)` and
`MAKE_SET(1, 'a', NULL)` are not `'a'`, and `FIELD(NULL, 'a')` is not zero. -/
theorem C76_unused_null_counterexample (o : Ops D) :
    elt o [.int .i64 1, .str "a", .null] = .null ∧
    makeSet o [.int .i64 1, .str "a", .null] = .null ∧ field o [.null, .str "a"] = .null := by
  simp [elt, makeSet, field, hasNull, typeOf]

/-- `GREATEST` and `LEAST` read texts as numbers, so of two texts that are no numbers neither is
returned; and numbers that doubles do not tell apart are the same. -/
theorem C76_greatest_counterexample (o : Ops D) (lt : D → D → Bool) (zero : D)
    (ha : o.ofStr "a" = zero) (hb : o.ofStr "b" = zero)
    (hi : o.ofInt 9007199254740993 = o.ofInt 9007199254740992) :
    greatest o lt [.str "a", .str "b"] = .dbl zero ∧
    greatest o lt [.int .i64 9007199254740993] = greatest o lt [.int .i64 9007199254740992] := by
  simp [greatest, bestLoop, typeOf, dblOf, ha, hb, hi]

/-- The empty text is found in the empty set. -/
theorem C76_empty_set_counterexample (o : Ops D) :
    findInSet o [.str "", .str ""] = .int .i64 1 := by
  simp [findInSet, hasNull, typeOf, textOf, castTo, splitComma, setLoop]

end BaikalDB.Cond
