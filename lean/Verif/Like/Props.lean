import Verif.Like.Lemmas
/-! # C26: LIKE matches exactly the strings its pattern describes -/
namespace BaikalDB.Like
open Spec

/-- A loop state with the characters it stands for. -/
structure Dec (cs : Charset) (σ : St) (T P : List Bytes) (NT : Option (List Bytes)) (NP : List Bytes) : Prop where
  t : Text cs σ.t T
  p : Text cs σ.p P
  nt : σ.nt = NT.map List.flatten
  ntx : ∀ U, NT = some U → Text cs U.flatten U
  np : Text cs σ.np NP

/-- What can still succeed from a state. -/
def Acc (T P : List Bytes) (NT : Option (List Bytes)) (NP : List Bytes) : Prop :=
  Matches (toks P) T ∨ ∃ U, NT = some U ∧ Matches (toks NP) U

/-- How the resume point relates to the current position. -/
inductive Link (T P : List Bytes) (NT : Option (List Bytes)) (NP : List Bytes) : Prop where
  | start (h : NT = none)
  | again (r : List Tok) (h : NT = some T) (hp : P = NP) (ha : toks NP = .any :: r)
  | fwd (q : List Tok) (T0 : List Bytes) (hq : .any ∉ q) (ha : toks NP = .any :: (q ++ toks P))
      (ht : T = T0.drop q.length) (hn : NT = if T0 = [] then none else some T0.tail)

theorem matches_any {p : List Tok} {t : List Bytes} :
    Matches (.any :: p) t ↔ Matches p t ∨ (t ≠ [] ∧ Matches (.any :: p) t.tail) := by
  constructor
  · rintro ⟨a, b, rfl, h⟩
    cases a with
    | nil => exact .inl (by simpa using h)
    | cons c a => exact .inr ⟨by simp, a, b, by simp, h⟩
  · rintro (h | ⟨hne, a, b, e, h⟩)
    · exact ⟨[], t, rfl, h⟩
    · cases t with
      | nil => exact absurd rfl hne
      | cons c t => exact ⟨c :: a, b, by simp at e; simp [e], h⟩

/-- Tokens without `%` use up exactly as many characters as there are tokens. -/
theorem matches_append {q p : List Tok} {t : List Bytes} (hq : .any ∉ q) (h : Matches (q ++ p) t) :
    Matches p (t.drop q.length) := by
  induction q generalizing t with
  | nil => simpa using h
  | cons x q ih =>
    have hq' : .any ∉ q := fun h => hq (by simp [h])
    cases x with
    | any => exact absurd (by simp) hq
    | one => obtain ⟨c, r, rfl, h⟩ := h; simpa using ih hq' h
    | lit d => obtain ⟨r, rfl, h⟩ := h; simpa using ih hq' h

/-- A later `%` makes the earlier resume point useless. -/
theorem earlier_resume {q ps : List Tok} {T0 U : List Bytes} (hq : .any ∉ q) (hU : U = T0.tail)
    (h : Matches (.any :: (q ++ .any :: ps)) U) : Matches (.any :: ps) (T0.drop q.length) := by
  obtain ⟨a, b, e, h⟩ := h
  obtain ⟨a', b', e', h'⟩ := matches_append hq h
  have hb : b = T0.tail.drop a.length := by rw [← hU, e]; simp
  refine ⟨(T0.drop q.length).take (1 + a.length + a'.length), b', ?_, h'⟩
  have e2 : b' = (T0.drop q.length).drop (1 + a.length + a'.length) := by
    have : b' = (b.drop q.length).drop a'.length := by rw [e']; simp
    rw [this, hb, ← List.drop_one, List.drop_drop, List.drop_drop, List.drop_drop, List.drop_drop]
    congr 1
    omega
  rw [e2, List.take_append_drop]

theorem back_step {cs : Charset} {σ : St} {T P : List Bytes} {NT : Option (List Bytes)} {NP : List Bytes}
    (d : Dec cs σ T P NT NP) (l : Link T P NT NP) (hno : ¬ Matches (toks P) T) :
    match back σ with
    | .answer b => (b = true ↔ Acc T P NT NP)
    | .invalid => False
    | .go σ' => ∃ T' P' NT' NP', Dec cs σ' T' P' NT' NP' ∧ Link T' P' NT' NP' ∧ (Acc T P NT NP ↔ Acc T' P' NT' NP') := by
  unfold back
  rw [d.nt]
  cases NT with
  | none => simp [Acc, hno]
  | some U =>
    refine ⟨U, NP, some U, NP, ⟨d.ntx U rfl, d.np, rfl, d.ntx, d.np⟩, ?_, ?_⟩
    · cases l with
      | start h => cases h
      | again r h hp ha => exact .again r rfl rfl ha
      | fwd q T0 hq ha ht hn => exact .again _ rfl rfl ha
    · constructor
      · rintro (h | h)
        · exact absurd h hno
        · exact .inr h
      · rintro (h | h)
        · exact .inr ⟨U, rfl, h⟩
        · exact .inr h

/-- Both sides move one character. -/
theorem move_step {cs : Charset} {σ : St} {T P P' : List Bytes} {c : Bytes} {NT : Option (List Bytes)} {NP : List Bytes}
    {x : Tok} {σ' : St} (d : Dec cs σ (c :: T) P NT NP) (l : Link (c :: T) P NT NP) (hx : x ≠ .any)
    (hP : toks P = x :: toks P') (hm : Matches (toks P) (c :: T) ↔ Matches (toks P') T)
    (ht : σ'.t = T.flatten) (hp : Text cs σ'.p P') (hnt : σ'.nt = σ.nt) (hnp : σ'.np = σ.np) :
    ∃ T' P' NT' NP', Dec cs σ' T' P' NT' NP' ∧ Link T' P' NT' NP' ∧ (Acc (c :: T) P NT NP ↔ Acc T' P' NT' NP') := by
  have hT : Text cs σ'.t T := ⟨ht, fun e he => d.t.2 e (by simp [he])⟩
  refine ⟨T, P', NT, NP, ⟨hT, hp, hnt.trans d.nt, d.ntx, by rw [hnp]; exact d.np⟩, ?_, ?_⟩
  · cases l with
    | start h => exact .start h
    | again r h hp ha =>
      rw [hp, ha] at hP
      injection hP with hP
      exact absurd hP.symm hx
    | fwd q T0 hq ha ht hn =>
      refine .fwd (q ++ [x]) T0 ?_ ?_ ?_ hn
      · simp only [List.mem_append, List.mem_singleton, not_or]
        exact ⟨hq, fun e => hx e.symm⟩
      · rw [ha, hP]; simp
      · have := congrArg List.tail ht
        simp at this
        rw [this]; simp
  · unfold Acc; rw [hm]

theorem turn_step {cs : Charset} {σ : St} {T P : List Bytes} {NT : Option (List Bytes)} {NP : List Bytes}
    (d : Dec cs σ T P NT NP) (l : Link T P NT NP) :
    match turn cs σ with
    | .answer b => (b = true ↔ Acc T P NT NP)
    | .invalid => False
    | .go σ' => ∃ T' P' NT' NP', Dec cs σ' T' P' NT' NP' ∧ Link T' P' NT' NP' ∧ (Acc T P NT NP ↔ Acc T' P' NT' NP') := by
  have htnil : σ.t = [] ↔ T = [] := by
    constructor
    · intro h; exact text_nil (h ▸ d.t)
    · rintro rfl; simpa using d.t.1
  unfold turn
  cases P with
  | nil =>
    have hp : σ.p = [] := by simpa using d.p.1
    by_cases hT : T = []
    · rw [if_pos ⟨htnil.2 hT, hp⟩]
      simp [Acc, toks, Matches, hT]
    · rw [if_neg (by simp [htnil, hT]), if_pos hp]
      exact back_step d l (by simpa [toks, Matches] using hT)
  | cons c R =>
    obtain ⟨hc, hdrop, hR⟩ := nextPoint_text d.p
    have hcc : IsChar cs c := d.p.2 c (by simp)
    have hp : σ.p ≠ [] := by rintro e; have := text_nil (e ▸ d.p); simp at this
    rw [if_neg (by simp [hp]), if_neg hp, hc, if_neg hcc.ne_nil]
    by_cases h1 : c = [0x5f#8]
    · subst h1
      have htoks : toks ([0x5f#8] :: R) = .one :: toks R := by rw [toks.eq_def]; simp
      rw [if_pos rfl]
      cases T with
      | nil =>
        rw [if_pos (htnil.2 rfl)]
        exact back_step d l (by rw [htoks]; simp [Matches])
      | cons e T =>
        rw [if_neg (by simp [htnil])]
        obtain ⟨he, hdt, hT⟩ := nextPoint_text d.t
        have hec : IsChar cs e := d.t.2 e (by simp)
        refine move_step (P' := R) (x := .one) d l (by simp) htoks (by rw [htoks]; simp [Matches]) ?_ ?_ rfl rfl
        · show σ.t.drop _ = _
          rw [offset_eq (by rw [he]; exact hec.ne_nil), he, hdt]
        · show Text cs (σ.p.drop 1) R
          rw [show (1 : Nat) = [0x5f#8].length from rfl, hdrop]; exact hR
    rw [if_neg h1]
    by_cases h2 : c = [0x25#8]
    · subst h2
      have htoks : toks ([0x25#8] :: R) = .any :: toks R := by rw [toks.eq_def]; simp
      rw [if_pos rfl]
      refine ⟨T, R, if T = [] then none else some T.tail, [0x25#8] :: R, ⟨d.t, ?_, ?_, ?_, d.p⟩, ?_, ?_⟩
      · show Text cs (σ.p.drop 1) R
        rw [show (1 : Nat) = [0x25#8].length from rfl, hdrop]; exact hR
      · show (if σ.t = [] then none else some (σ.t.drop (offset cs σ.t))) = _
        cases T with
        | nil => rw [if_pos (htnil.2 rfl)]; rfl
        | cons e T =>
          obtain ⟨he, hdt, hT⟩ := nextPoint_text d.t
          have hec : IsChar cs e := d.t.2 e (by simp)
          rw [if_neg (by simp [htnil]), offset_eq (by rw [he]; exact hec.ne_nil), he, hdt]; simp
      · intro U hU
        cases T with
        | nil => simp at hU
        | cons e T => simp at hU; subst hU; exact (nextPoint_text d.t).2.2
      · exact .fwd [] T (by simp) (by simpa using htoks) (by simp) rfl
      · have key : Acc T R (if T = [] then none else some T.tail) ([0x25#8] :: R) ↔ Matches (.any :: toks R) T := by
          rw [matches_any, ← htoks]
          unfold Acc
          refine or_congr Iff.rfl ?_
          by_cases hT : T = [] <;> simp [hT]
        rw [key]
        constructor
        · rintro (h | ⟨U, hU, h⟩)
          · rwa [htoks] at h
          · cases l with
            | start h' => rw [hU] at h'; cases h'
            | again r h' hp' ha =>
              rw [hU] at h'; injection h' with h'; subst h'
              rw [← hp', htoks] at h; exact h
            | fwd q T0 hq ha ht hn =>
              rw [ha, htoks] at h
              by_cases hT0 : T0 = []
              · rw [hU, if_pos hT0] at hn; cases hn
              · rw [hU, if_neg hT0] at hn
                injection hn with hn
                rw [ht]
                exact earlier_resume hq hn h
        · intro h; left; rw [htoks]; exact h
    rw [if_neg h2]
    by_cases h3 : c = [0x5c#8]
    · subst h3
      cases R with
      | nil =>
        have htoks : toks [[0x5c#8]] = .lit [0x5c#8] :: toks [] := by simp [toks]
        have hpe : σ.p = [0x5c#8] := by simpa using d.p.1
        rw [if_neg (by simp [hpe])]
        cases T with
        | nil =>
          rw [if_pos (htnil.2 rfl)]
          exact back_step d l (by rw [htoks]; simp [Matches])
        | cons e T =>
          rw [if_neg (by simp [htnil])]
          obtain ⟨he, hdt, hT⟩ := nextPoint_text d.t
          have hec : IsChar cs e := d.t.2 e (by simp)
          rw [he, if_neg hec.ne_nil]
          by_cases h4 : [0x5c#8] = e
          · rw [if_pos h4]
            refine move_step (P' := []) (x := .lit [0x5c#8]) d l (by simp) htoks
              (by rw [htoks]; simp [Matches, h4]) hdt ?_ rfl rfl
            show Text cs (σ.p.drop [0x5c#8].length) []
            rw [hdrop]; exact hR
          · rw [if_neg h4]
            exact back_step d l (by rw [htoks]; simp only [Matches]; rintro ⟨r, e', _⟩; simp at e'; exact h4 e'.1.symm)
      | cons f R =>
        have htoks : toks ([0x5c#8] :: f :: R) = .lit f :: toks R := by simp [toks]
        have hd1 : σ.p.drop 1 = (f :: R).flatten := by
          rw [show (1 : Nat) = [0x5c#8].length from rfl, hdrop]
        obtain ⟨hf, hdf, hRf⟩ := nextPoint_text hR
        have hfc : IsChar cs f := d.p.2 f (by simp)
        have hlen : 1 < σ.p.length := by
          have h := List.length_pos_iff.2 hfc.ne_nil
          have := congrArg List.length hd1
          simp at this
          omega
        rw [if_pos ⟨rfl, hlen⟩, hd1, hf, if_neg hfc.ne_nil]
        cases T with
        | nil =>
          rw [if_pos (htnil.2 rfl)]
          exact back_step d l (by rw [htoks]; simp [Matches])
        | cons e T =>
          rw [if_neg (by simp [htnil])]
          obtain ⟨he, hdt, hT⟩ := nextPoint_text d.t
          have hec : IsChar cs e := d.t.2 e (by simp)
          rw [he, if_neg hec.ne_nil]
          by_cases h4 : f = e
          · rw [if_pos h4]
            refine move_step (P' := R) (x := .lit f) d l (by simp) htoks (by rw [htoks]; simp [Matches, h4]) hdt ?_ rfl rfl
            show Text cs ((f :: R).flatten.drop f.length) R
            rw [hdf]; exact hRf
          · rw [if_neg h4]
            exact back_step d l (by rw [htoks]; simp only [Matches]; rintro ⟨r, e', _⟩; simp at e'; exact h4 e'.1.symm)
    · rw [if_neg (by simp [h3])]
      have htoks : toks (c :: R) = .lit c :: toks R := by rw [toks.eq_def]; simp [h1, h2, h3]
      cases T with
      | nil =>
        rw [if_pos (htnil.2 rfl)]
        exact back_step d l (by rw [htoks]; simp [Matches])
      | cons e T =>
        rw [if_neg (by simp [htnil])]
        obtain ⟨he, hdt, hT⟩ := nextPoint_text d.t
        have hec : IsChar cs e := d.t.2 e (by simp)
        rw [he, if_neg hec.ne_nil]
        by_cases h4 : c = e
        · rw [if_pos h4]
          refine move_step (P' := R) (x := .lit c) d l (by simp) htoks (by rw [htoks]; simp [Matches, h4]) hdt ?_ rfl rfl
          show Text cs (σ.p.drop c.length) R
          rw [hdrop]; exact hR
        · rw [if_neg h4]
          exact back_step d l (by rw [htoks]; simp only [Matches]; rintro ⟨r, e', _⟩; simp at e'; exact h4 e'.1.symm)

theorem run_correct {cs : Charset} (n : Nat) : ∀ {σ : St} {T P : List Bytes} {NT : Option (List Bytes)} {NP : List Bytes},
    Dec cs σ T P NT NP → Link T P NT NP → ∀ r, run cs n σ = some r → ∃ b, r = some b ∧ (b = true ↔ Acc T P NT NP) := by
  induction n with
  | zero => intro σ T P NT NP _ _ r h; cases h
  | succ n ih =>
    intro σ T P NT NP d l r h
    have hs := turn_step d l
    unfold run at h
    cases ht : turn cs σ with
    | go σ' =>
      rw [ht] at hs h
      obtain ⟨T', P', NT', NP', d', l', e⟩ := hs
      obtain ⟨b, hb, h2⟩ := ih d' l' r h
      exact ⟨b, hb, h2.trans e.symm⟩
    | invalid => rw [ht] at hs; exact hs.elim
    | answer b =>
      rw [ht] at hs h
      injection h with h
      exact ⟨b, h.symm, hs⟩

theorem like_correct {cs : Charset} {t p : Bytes} {T P : List Bytes} (ht : Text cs t T) (hp : Text cs p P) :
    ∃ b, like cs t p = some b ∧ (b = true ↔ Matches (toks P) T) := by
  unfold like
  cases hr : run cs (turns t p) ⟨t, p, none, []⟩ with
  | none => exact absurd hr (run_ends cs t p)
  | some r =>
    obtain ⟨b, hb, h2⟩ := run_correct (NT := none) (NP := []) _ ⟨ht, hp, rfl, by simp, rfl, by simp⟩ (.start rfl) r hr
    exact ⟨b, by simp [hb], by simpa [Acc] using h2⟩

/-- **C26.** On valid text, in each of the three character sets, LIKE is true exactly for the strings described by the
pattern, and the matcher always ends. -/
theorem C26_like {cs : Charset} {t p : Bytes} {T P : List Bytes} (ht : Text cs t T) (hp : Text cs p P) :
    likeOne cs t p = true ↔ Matches (toks P) T := by
  obtain ⟨b, hb, h⟩ := like_correct ht hp
  cases cs <;> simp [likeOne, hb, h]

theorem text_binary (s : Bytes) : Text .binary s (s.map fun b => [b]) :=
  ⟨by induction s with
    | nil => rfl
    | cons c s ih => simp only [List.map_cons, List.flatten_cons, ← ih]; rfl, by simp [IsChar]⟩

/-- **C26.** Without a character set every byte string is valid text. -/
theorem C26_like_binary (t p : Bytes) :
    likeOne .binary t p = true ↔ Matches (toks (p.map fun b => [b])) (t.map fun b => [b]) :=
  C26_like (text_binary t) (text_binary p)

/-- **C26.** The answer never depends on the bytes after an invalid character being misread: if the matcher meets one,
the whole comparison is done byte by byte. -/
theorem C26_fallback {cs : Charset} {t p : Bytes} (h : like cs t p = none) :
    likeOne cs t p = true ↔ Matches (toks (p.map fun b => [b])) (t.map fun b => [b]) := by
  rw [← C26_like_binary]
  cases cs <;> simp [likeOne, h]

/-! ## Index prefixes -/

/-- Not one of the three bytes with a meaning in patterns. -/
def Plain (b : Byte) : Prop := b ≠ 0x25#8 ∧ b ≠ 0x5f#8 ∧ b ≠ 0x5c#8

theorem scan_plain {c : Bytes} (hc : ∀ b ∈ c, Plain b) (r : Bytes) :
    scan false (c ++ r) = ((scan false r).1, c ++ (scan false r).2) := by
  induction c with
  | nil => rfl
  | cons b c ih =>
    obtain ⟨h1, h2, h3⟩ := hc b (by simp)
    have e1 : (b == 0x25#8) = false := by simpa using h1
    have e2 : (b == 0x5f#8) = false := by simpa using h2
    have e3 : (b == 0x5c#8) = false := by simpa using h3
    simp only [List.cons_append, scan, e1, e2, e3, Bool.and_false, Bool.false_eq_true, if_false]
    rw [ih fun b hb => hc b (by simp [hb])]

/-- Outside GBK the bytes of a character are either its only byte or none of the special ones. -/
theorem char_bytes {cs : Charset} (hcs : cs ≠ .gbk) {c : Bytes} (h : IsChar cs c) :
    ∃ b r, c = b :: r ∧ (∀ x ∈ r, Plain x) ∧ (r = [] ∨ Plain b) := by
  have hi : ∀ x : Byte, 0x80 ≤ x.toNat → Plain x := by
    intro x hx
    refine ⟨?_, ?_, ?_⟩ <;> rintro rfl <;> simp at hx
  cases cs with
  | binary => obtain ⟨b, rfl⟩ := h; exact ⟨b, [], rfl, by simp, .inl rfl⟩
  | gbk => exact absurd rfl hcs
  | utf8 =>
    rcases h with ⟨b, rfl, _⟩ | ⟨b, x, rfl, h1, _, h2⟩ | ⟨b, x, y, rfl, h1, _, h2, h3⟩ | ⟨b, x, y, z, rfl, h1, h2, h3, h4⟩
    · exact ⟨b, [], rfl, by simp, .inl rfl⟩
    · exact ⟨b, _, rfl, by simp; exact hi x h2.1, .inr (hi b (by omega))⟩
    · exact ⟨b, _, rfl, by simp; exact ⟨hi x h2.1, hi y h3.1⟩, .inr (hi b (by omega))⟩
    · exact ⟨b, _, rfl, by simp; exact ⟨hi x h2.1, hi y h3.1, hi z h4.1⟩, .inr (hi b (by omega))⟩

theorem scan_char {cs : Charset} (hcs : cs ≠ .gbk) {c : Bytes} (h : IsChar cs c) (h1 : c ≠ [0x25#8]) (h2 : c ≠ [0x5f#8])
    (h3 : c ≠ [0x5c#8]) (r : Bytes) : scan false (c ++ r) = ((scan false r).1, c ++ (scan false r).2) := by
  obtain ⟨b, q, rfl, hq, hb⟩ := char_bytes hcs h
  refine scan_plain (fun x hx => ?_) r
  rcases List.mem_cons.1 hx with rfl | hx
  · rcases hb with rfl | hb
    · exact ⟨fun e => h1 (by rw [e]), fun e => h2 (by rw [e]), fun e => h3 (by rw [e])⟩
    · exact hb
  · exact hq x hx

theorem scan_escaped {cs : Charset} (hcs : cs ≠ .gbk) {c : Bytes} (h : IsChar cs c) (r : Bytes) :
    scan true (c ++ r) = ((scan false r).1, c ++ (scan false r).2) := by
  obtain ⟨b, q, rfl, hq, _⟩ := char_bytes hcs h
  simp only [List.cons_append, scan, Bool.not_true, Bool.false_and, Bool.false_eq_true, if_false]
  rw [scan_plain hq]

/-- The pattern does not end with a backslash that escapes nothing. -/
def Closed : List Bytes → Prop
  | [] => True
  | c :: r => if c = [0x5c#8] then (match r with | [] => False | _ :: r' => Closed r') else Closed r

/-- The literal characters before the first wildcard, and whether there is no wildcard. -/
def literals : List Tok → Bool × List Bytes
  | .lit c :: p => ((literals p).1, c :: (literals p).2)
  | [] => (true, [])
  | _ :: _ => (false, [])

theorem literals_prefix {p : List Tok} {t : List Bytes} (h : Matches p t) : (literals p).2 <+: t := by
  induction p generalizing t with
  | nil => simp [literals]
  | cons x p ih =>
    cases x with
    | any => simp [literals]
    | one => simp [literals]
    | lit c =>
      obtain ⟨r, rfl, h⟩ := h
      simp only [literals]
      exact List.cons_prefix_cons.2 ⟨rfl, ih h⟩

theorem literals_eq {p : List Tok} {t : List Bytes} (hw : (literals p).1 = true) : Matches p t ↔ t = (literals p).2 := by
  induction p generalizing t with
  | nil => simp [literals, Matches]
  | cons x p ih =>
    cases x with
    | any => simp [literals] at hw
    | one => simp [literals] at hw
    | lit c =>
      simp only [literals] at hw ⊢
      simp only [Matches]
      constructor
      · rintro ⟨r, rfl, h⟩; rw [(ih hw).1 h]
      · rintro rfl; exact ⟨_, rfl, (ih hw).2 rfl⟩

theorem scan_toks {cs : Charset} (hcs : cs ≠ .gbk) {P : List Bytes} (hp : ∀ c ∈ P, IsChar cs c) :
    (scan false P.flatten).2 <+: (literals (toks P)).2.flatten ∧
    (Closed P → scan false P.flatten = ((literals (toks P)).1, (literals (toks P)).2.flatten)) := by
  induction hn : P.length using Nat.strongRecOn generalizing P with
  | ind n ih =>
    cases P with
    | nil => simp [scan, toks, literals]
    | cons c R =>
      have hR : ∀ d ∈ R, IsChar cs d := fun d hd => hp d (by simp [hd])
      by_cases h1 : c = [0x25#8]
      · subst h1
        rw [toks.eq_def]
        simp [scan, literals]
      by_cases h2 : c = [0x5f#8]
      · subst h2
        rw [toks.eq_def]
        simp [scan, literals]
      by_cases h3 : c = [0x5c#8]
      · subst h3
        cases R with
        | nil => simp [scan, toks, literals, Closed]
        | cons d R =>
          have e : scan false ([0x5c#8] :: d :: R).flatten = ((scan false R.flatten).1, d ++ (scan false R.flatten).2) := by
            rw [← scan_escaped hcs (hR d (by simp))]
            simp [scan]
          obtain ⟨i1, i2⟩ := ih R.length (by simp at hn; omega) (fun x hx => hR x (by simp [hx])) rfl
          rw [e]
          have ht : toks ([0x5c#8] :: d :: R) = .lit d :: toks R := by rw [toks.eq_def]; simp
          rw [ht]
          simp only [literals, List.flatten_cons]
          refine ⟨(List.prefix_append_right_inj d).2 i1, fun hc => ?_⟩
          rw [i2 (by simpa [Closed] using hc)]
      · have e := scan_char hcs (hp c (by simp)) h1 h2 h3 R.flatten
        obtain ⟨i1, i2⟩ := ih R.length (by simp at hn; omega) hR rfl
        have ht : toks (c :: R) = .lit c :: toks R := by rw [toks.eq_def]; simp [h1, h2, h3]
        rw [List.flatten_cons, e, ht]
        simp only [literals, List.flatten_cons]
        refine ⟨(List.prefix_append_right_inj c).2 i1, fun hc => ?_⟩
        rw [Closed.eq_def] at hc
        simp only [h3, if_false] at hc
        rw [i2 hc]

theorem prefix_flatten {a b : List Bytes} (h : a <+: b) : a.flatten <+: b.flatten := by
  obtain ⟨r, rfl⟩ := h; simp

/-- **C26.** The prefix handed to the index is a prefix of every string the pattern matches, so an index scan over that
prefix misses no row. -/
theorem C26_index_prefix {cs : Charset} (hcs : cs ≠ .gbk) {t p : Bytes} {T P : List Bytes} (ht : Text cs t T)
    (hp : Text cs p P) (h : likeOne cs t p = true) : (hitIndex p).2.2 <+: t := by
  have hm := (C26_like ht hp).1 h
  obtain ⟨rfl, hp⟩ := hp
  rw [ht.1]
  exact ((scan_toks hcs hp).1).trans (prefix_flatten (literals_prefix hm))

theorem text_inj {cs : Charset} {a b : List Bytes} (ha : Text cs a.flatten a) (hb : Text cs b.flatten b)
    (h : a.flatten = b.flatten) : a = b := by
  induction a generalizing b with
  | nil => rw [← h] at hb; exact (text_nil hb).symm
  | cons c a ih =>
    cases b with
    | nil => rw [h] at ha; exact text_nil ha
    | cons d b =>
      obtain ⟨e1, e2, e3⟩ := nextPoint_text ha
      obtain ⟨f1, f2, f3⟩ := nextPoint_text hb
      have hcd : c = d := by rw [← e1, ← f1, h]
      subst hcd
      rw [ih e3 f3 (by rw [← e2, ← f2, h])]

theorem literals_chars {cs : Charset} {P : List Bytes} (hp : ∀ c ∈ P, IsChar cs c) :
    ∀ c ∈ (literals (toks P)).2, IsChar cs c := by
  induction hn : P.length using Nat.strongRecOn generalizing P with
  | ind n ih =>
    rw [toks.eq_def]
    split
    · simp [literals]
    · rename_i c R
      split
      · simp [literals]
      split
      · simp [literals]
      split
      · rename_i h3
        split
        · simp only [literals, List.mem_singleton]; rintro c rfl; rw [← h3]; exact hp _ (by simp)
        · rename_i d R'
          simp only [literals, List.mem_cons]
          rintro x (rfl | hx)
          · exact hp _ (by simp)
          · exact ih R'.length (by simp at hn; omega) (fun y hy => hp y (by simp [hy])) rfl x hx
      · simp only [literals, List.mem_cons]
        rintro x (rfl | hx)
        · exact hp _ (by simp)
        · exact ih R.length (by simp at hn; omega) (fun y hy => hp y (by simp [hy])) rfl x hx

/-- **C26.** When the pattern is reported to be a plain string, LIKE is equality with that string. -/
theorem C26_index_eq {cs : Charset} (hcs : cs ≠ .gbk) {t p : Bytes} {T P : List Bytes} (ht : Text cs t T)
    (hp : Text cs p P) (hc : Closed P) (he : (hitIndex p).1 = true) : likeOne cs t p = true ↔ t = (hitIndex p).2.2 := by
  rw [C26_like ht hp]
  obtain ⟨rfl, hpc⟩ := hp
  obtain ⟨rfl, htc⟩ := ht
  have e := (scan_toks hcs hpc).2 hc
  have he' : (literals (toks P)).1 = true := by rw [← congrArg Prod.fst e]; exact he
  have hpre : (hitIndex P.flatten).2.2 = (literals (toks P)).2.flatten := congrArg Prod.snd e
  rw [literals_eq he', hpre]
  constructor
  · rintro rfl; rfl
  · intro h
    exact text_inj ⟨rfl, htc⟩ ⟨rfl, literals_chars hpc⟩ h

/-- A backslash at the end matches itself, but the index is asked for the string without it: `c LIKE 'a\'` looks up
`a` and finds nothing. -/
theorem C26_dangling_escape_counterexample :
    likeOne .utf8 [0x61#8, 0x5c#8] [0x61#8, 0x5c#8] = true ∧
    hitIndex [0x61#8, 0x5c#8] = (true, true, [0x61#8]) ∧ ¬ [0x61#8, 0x5c#8] = [0x61#8] := by
  refine ⟨by decide, by decide, by decide⟩

/-- In GBK a character can end in a backslash byte; the index prefix then lacks that byte and misses the row. -/
theorem C26_gbk_prefix_counterexample :
    likeOne .gbk [0x81#8, 0x5c#8, 0x61#8] [0x81#8, 0x5c#8, 0x61#8, 0x25#8] = true ∧
    ¬ (hitIndex [0x81#8, 0x5c#8, 0x61#8, 0x25#8]).2.2 <+: [0x81#8, 0x5c#8, 0x61#8] := by
  refine ⟨by decide, by decide⟩

/-! ## The range that replaces `LIKE 'p%'` -/

theorem bumpRev_append (a b : Bytes) : bumpRev (a ++ b) = if bumpRev a = [] then bumpRev b else bumpRev a ++ b := by
  induction a with
  | nil => simp [bumpRev]
  | cons c a ih =>
    simp only [List.cons_append, bumpRev]
    split
    · exact ih
    · simp

theorem rangeEnd_cons (x : Byte) (r : Bytes) :
    rangeEnd (x :: r) = if rangeEnd r = [] then (if x = 0xFF#8 then [] else [x + 1#8]) else x :: rangeEnd r := by
  unfold rangeEnd
  rw [List.reverse_cons, bumpRev_append]
  by_cases h : bumpRev r.reverse = []
  · simp [h, bumpRev]
    split <;> rfl
  · simp [h]

theorem prefix_iff_range (lo t : Bytes) : lo <+: t ↔ BLe lo t ∧ (rangeEnd lo = [] ∨ BLt t (rangeEnd lo)) := by
  induction lo generalizing t with
  | nil => simp [rangeEnd, bumpRev, BLe]; cases t <;> simp [bcmp]
  | cons x r ih =>
    cases t with
    | nil => simp [BLe, bcmp]
    | cons y s =>
      rw [List.cons_prefix_cons, ih, rangeEnd_cons]
      have hx := x.isLt
      have hy := y.isLt
      rcases Nat.lt_trichotomy y.toNat x.toNat with h | h | h
      · have : x ≠ y := by rintro rfl; omega
        have h' : ¬ x.toNat < y.toNat := by omega
        simp [this, BLe, bcmp, h, h']
      · have : x = y := BitVec.eq_of_toNat_eq h.symm
        subst this
        have e1 : BLe (x :: r) (x :: s) ↔ BLe r s := by simp [BLe, bcmp]
        rw [e1]
        by_cases hr : rangeEnd r = []
        · simp only [hr, if_true, true_or, and_true, true_and]
          by_cases hf : x = 0xFF#8
          · simp [hf]
          · have hlt : x.toNat < (x + 1#8).toNat := by
              rw [BitVec.toNat_add]
              have : x.toNat ≠ 255 := fun e => hf (BitVec.eq_of_toNat_eq (by simpa using e))
              simp; omega
            rw [if_neg hf]
            simp only [BLt, bcmp, if_pos hlt, or_true, and_true]
        · simp [hr, BLt, bcmp]
      · have hne : x ≠ y := by rintro rfl; omega
        have hle : BLe (x :: r) (y :: s) := by simp [BLe, bcmp, h]
        simp only [hne, false_and, false_iff, not_and, not_or]
        intro _
        by_cases hr : rangeEnd r = []
        · simp only [hr, if_true]
          have hf : x ≠ 0xFF#8 := by rintro rfl; simp at h; omega
          have e : (x + 1#8).toNat = x.toNat + 1 := by
            rw [BitVec.toNat_add]
            have : x.toNat ≠ 255 := fun e => hf (BitVec.eq_of_toNat_eq (by simpa using e))
            simp; omega
          simp only [hf, if_false, List.cons_ne_nil, not_false_eq_true, true_and, BLt, bcmp, e]
          have : ¬ y.toNat < x.toNat + 1 := by omega
          rw [if_neg this]
          split
          · simp
          · cases s <;> simp [bcmp]
        · simp only [hr, if_false, List.cons_ne_nil, not_false_eq_true, true_and, BLt, bcmp]
          have : ¬ y.toNat < x.toNat := by omega
          simp [this, h]

/-- The shape of the patterns that are rewritten. -/
theorem likeRange_shape {p lo hi : Bytes} (h : likeRange p = some (lo, hi)) :
    hi = rangeEnd lo ∧ lo ≠ [] ∧
    ((p = lo ++ [0x25#8] ∧ ∀ b ∈ lo, Plain b) ∨
     (∃ a, (∀ b ∈ a, Plain b) ∧ lo = a ++ [0x25#8] ∧ p = a ++ [0x5c#8, 0x25#8])) := by
  unfold likeRange at h
  split at h
  · cases h
  rename_i hc
  simp only [not_or, Bool.not_eq_false, Nat.not_lt, ne_eq, Decidable.not_not] at hc
  obtain ⟨h1, h2, h3⟩ := hc
  simp only [Option.some.injEq, Prod.mk.injEq] at h
  obtain ⟨rfl, rfl⟩ := h
  refine ⟨rfl, ?_⟩
  have key : ∀ s : Bytes, s.length ≤ (scan false s).2.length + 1 → s.getLast? = some 0x25#8 →
      ((s = (scan false s).2 ++ [0x25#8] ∧ ∀ b ∈ (scan false s).2, Plain b) ∨
       (∃ a, (∀ b ∈ a, Plain b) ∧ (scan false s).2 = a ++ [0x25#8] ∧ s = a ++ [0x5c#8, 0x25#8])) := by
    have hesc : ∀ (e : Bool) (s : Bytes), (scan e s).2.length ≤ s.length ∧
        ((scan e s).2.length = s.length → (scan e s).2 = s ∧ (e = false → ∀ b ∈ s, Plain b)  ∧ (e = true → ∀ b ∈ s.tail, Plain b)) := by
      intro e s
      induction s generalizing e with
      | nil => simp [scan]
      | cons c r ih =>
        unfold scan
        split
        · simp
        split
        · simp
        split
        · have := (ih true).1; simp; omega
        · rename_i g1 g2 g3
          have i := ih false
          refine ⟨by simp; exact i.1, fun hl => ?_⟩
          simp at hl
          obtain ⟨i1, i2, _⟩ := i.2 hl
          refine ⟨by simp [i1], fun he b hb => ?_, fun he => by simpa using i2 rfl⟩
          subst he
          rcases List.mem_cons.1 hb with rfl | hb
          · simp at g1 g2 g3; exact ⟨g1, g2, g3⟩
          · exact i2 rfl b hb
    intro s
    induction s with
    | nil => simp
    | cons c r ih =>
      intro hl hlast
      have hlast' : r ≠ [] → r.getLast? = some 0x25#8 := by
        intro hr; rw [List.getLast?_cons_of_ne_nil hr] at hlast; exact hlast
      unfold scan at hl ⊢
      by_cases g1 : (!false && c == 0x25#8) = true
      · rw [if_pos g1] at hl ⊢
        have : r = [] := by simpa using hl
        subst this
        simp at g1
        exact .inl ⟨by simp [g1], by simp⟩
      rw [if_neg g1] at hl ⊢
      by_cases g2 : (!false && c == 0x5f#8) = true
      · rw [if_pos g2] at hl
        have : r = [] := by simpa using hl
        subst this
        simp at g2 hlast
        rw [g2] at hlast
        exact absurd hlast (by decide)
      rw [if_neg g2] at hl ⊢
      by_cases g3 : (!false && c == 0x5c#8) = true
      · rw [if_pos g3] at hl ⊢
        obtain ⟨j1, j2⟩ := hesc true r
        simp at hl
        obtain ⟨k1, _, k3⟩ := j2 (by omega)
        simp at g3
        subst g3
        have hr : r ≠ [] := by rintro rfl; simp at hlast
        have hk := hlast' hr
        rw [k1]
        cases r with
        | nil => exact absurd rfl hr
        | cons d r =>
          have k3' := k3 rfl
          simp at k3'
          cases r with
          | nil =>
            simp at hk
            subst hk
            exact .inr ⟨[], by simp, rfl, rfl⟩
          | cons d' r =>
            exfalso
            have hmem : (0x25#8 : Byte) ∈ d' :: r := by
              rw [List.getLast?_cons_of_ne_nil (by simp)] at hk
              exact List.mem_of_getLast? hk
            have := k3' _ hmem
            exact this.1 rfl
      · rw [if_neg g3] at hl ⊢
        have hpl : Plain c := by simp at g1 g2 g3; exact ⟨g1, g2, g3⟩
        have hr : r ≠ [] := by
          rintro rfl; simp at hlast; exact hpl.1 hlast
        simp at hl
        rcases ih (by omega) (hlast' hr) with ⟨e1, e2⟩ | ⟨a, e1, e2, e3⟩
        · refine .inl ⟨by simp [← e1], ?_⟩
          intro b hb
          rcases List.mem_cons.1 hb with rfl | hb
          · exact hpl
          · exact e2 b hb
        · refine .inr ⟨c :: a, ?_, by simp [e2], by simp [e3]⟩
          intro b hb
          rcases List.mem_cons.1 hb with rfl | hb
          · exact hpl
          · exact e1 b hb
  have hk := key p h2 h3
  refine ⟨?_, hk⟩
  intro he
  have he' : (scan false p).2 = [] := he
  rcases hk with ⟨e, _⟩ | ⟨a, _, e, _⟩
  · rw [he'] at e
    have e : p = [0x25#8] := e
    rw [e] at h1
    simp [hitIndex] at h1
  · rw [he'] at e; simp at e

/-- **C26.** Replacing `c LIKE 'p%'` by a range keeps the meaning: for a pattern without backslash whose prefix is not
made of 0xFF bytes only, the rewritten condition is true on exactly the strings that match. -/
theorem C26_range {cs : Charset} (hcs : cs ≠ .gbk) {t p lo hi : Bytes} {T P : List Bytes} (ht : Text cs t T)
    (hp : Text cs p P) (h : likeRange p = some (lo, hi)) (hb : 0x5c#8 ∉ p) (hf : ∃ b ∈ lo, b ≠ 0xFF#8) :
    (BLe lo t ∧ BLt t hi) ↔ likeOne cs t p = true := by
  obtain ⟨rfl, hne, hs⟩ := likeRange_shape h
  have hpl : p = lo ++ [0x25#8] ∧ ∀ b ∈ lo, Plain b := by
    rcases hs with hs | ⟨a, _, _, e⟩
    · exact hs
    · exact absurd (by rw [e]; simp) hb
  have hend : rangeEnd lo ≠ [] := by
    clear h hs hpl hne ht hp
    induction lo with
    | nil => simp at hf
    | cons x r ih =>
      rw [rangeEnd_cons]
      split
      · split
        · rename_i h1 h2
          obtain ⟨b, hb, hb'⟩ := hf
          rcases List.mem_cons.1 hb with rfl | hb
          · exact absurd h2 hb'
          · exact absurd h1 (ih ⟨b, hb, hb'⟩)
        · simp
      · simp
  have hr := prefix_iff_range lo t
  simp only [hend, false_or] at hr
  rw [← hr]
  constructor
  · rintro ⟨w, rfl⟩
    rw [C26_like ht hp]
    obtain ⟨rfl, hpc⟩ := hp
    obtain ⟨e, htc⟩ := ht
    -- split the pattern into characters: the last one is `%`, the others are literal
    have hPne : P ≠ [] := by rintro rfl; have := congrArg List.length hpl.1; simp at this
    obtain ⟨Q, c, rfl⟩ : ∃ Q c, P = Q ++ [c] := ⟨P.dropLast, P.getLast hPne, (List.dropLast_concat_getLast hPne).symm⟩
    have hc : c = [0x25#8] ∧ Q.flatten = lo := by
      have e1 : Q.flatten ++ c = lo ++ [0x25#8] := by rw [← hpl.1]; simp
      obtain ⟨b, q, rfl, hq, hbq⟩ := char_bytes hcs (hpc c (by simp))
      have hqn : q = [] := by
        rcases List.eq_nil_or_concat q with rfl | ⟨q', y, rfl⟩
        · rfl
        · exfalso
          have e2 := congrArg List.getLast? e1
          rw [show Q.flatten ++ b :: q'.concat y = (Q.flatten ++ b :: q') ++ [y] by simp, List.getLast?_concat,
            List.getLast?_concat] at e2
          injection e2 with e2
          exact (hq y (by simp)).1 e2
      subst hqn
      have := List.append_inj' e1 rfl
      exact ⟨this.2, this.1⟩
    obtain ⟨rfl, rfl⟩ := hc
    have hQ : ∀ c ∈ Q, IsChar cs c ∧ c ≠ [0x25#8] ∧ c ≠ [0x5f#8] ∧ c ≠ [0x5c#8] := by
      intro c hc
      refine ⟨hpc c (by simp [hc]), ?_, ?_, ?_⟩ <;> rintro rfl
      · exact (hpl.2 0x25#8 (List.mem_flatten.2 ⟨_, hc, by simp⟩)).1 rfl
      · exact (hpl.2 0x5f#8 (List.mem_flatten.2 ⟨_, hc, by simp⟩)).2.1 rfl
      · exact (hpl.2 0x5c#8 (List.mem_flatten.2 ⟨_, hc, by simp⟩)).2.2 rfl
    have htoks : toks (Q ++ [[0x25#8]]) = Q.map Tok.lit ++ [.any] := by
      clear e hpl hpc hPne hr hf hne hend h hb hs
      induction Q with
      | nil => rfl
      | cons c Q ih =>
        have hc := hQ c (by simp)
        rw [List.cons_append, toks.eq_def]
        simp only [hc.2.1, hc.2.2.1, hc.2.2.2, if_false]
        rw [ih fun d hd => hQ d (by simp [hd])]
        rfl
    rw [htoks]
    -- the target starts with the same characters
    have hT : ∃ R, T = Q ++ R := by
      clear htoks hpl hpc hPne hr hf hne hend h hb hs
      induction Q generalizing T with
      | nil => exact ⟨T, rfl⟩
      | cons c Q ih =>
        have hc := hQ c (by simp)
        cases T with
        | nil =>
          exfalso
          have := hc.1.ne_nil
          simp at e
          exact this e.1
        | cons d T =>
          -- the next code point is determined by the bytes
          have hd : IsChar cs d := htc d (by simp)
          obtain ⟨b1, q1, rfl, _, _⟩ := char_bytes hcs hc.1
          obtain ⟨b2, q2, rfl, _, _⟩ := char_bytes hcs hd
          have hb12 : b1 = b2 := by simp at e; exact e.1
          have hlen : (b1 :: q1).length = (b2 :: q2).length := by
            cases cs with
            | gbk => exact absurd rfl hcs
            | binary =>
              obtain ⟨_, h1⟩ := hc.1
              obtain ⟨_, h2⟩ := hd
              rw [h1, h2]; rfl
            | utf8 =>
              subst hb12
              rcases hc.1 with ⟨b, e1, g1⟩ | ⟨b, x, e1, g1, g2, _⟩ | ⟨b, x, y, e1, g1, g2, _⟩ | ⟨b, x, y, z, e1, g1, _⟩ <;>
              rcases hd with ⟨b', e2, k1⟩ | ⟨b', x', e2, k1, k2, _⟩ | ⟨b', x', y', e2, k1, k2, _⟩ | ⟨b', x', y', z', e2, k1, _⟩ <;>
              rw [e1, e2] <;> (try rfl) <;>
              (exfalso; simp at e1 e2; have := e1.1; have := e2.1; subst_vars; omega)
          have e' : (b1 :: q1) ++ (Q.flatten ++ w) = (b2 :: q2) ++ T.flatten := by
            simpa using e
          obtain ⟨e1, e2⟩ := List.append_inj e' hlen
          obtain ⟨R, rfl⟩ := ih (T := T) (fun c hc => htc c (by simp [hc])) e2 (fun c hc => hQ c (by simp [hc]))
          exact ⟨R, by rw [← e1]; rfl⟩
    obtain ⟨R, rfl⟩ := hT
    clear htoks hpl hpc hPne hr hf hne hend h hb hs e htc hQ
    induction Q with
    | nil => exact ⟨R, [], by simp, rfl⟩
    | cons c Q ih => exact ⟨Q ++ R, rfl, ih⟩
  · intro hl
    have hpre := C26_index_prefix hcs ht hp hl
    have e : (hitIndex p).2.2 = lo := by
      unfold likeRange at h
      split at h
      · cases h
      · simp at h; exact h.1
    rwa [e] at hpre

/-- **C26.** The rewrite happens for `'p%'` and, wrongly, for `'p\%'`. -/
theorem C26_range_shape {p lo hi : Bytes} (h : likeRange p = some (lo, hi)) :
    (p = lo ++ [0x25#8] ∧ ∀ b ∈ lo, Plain b) ∨
     (∃ a, (∀ b ∈ a, Plain b) ∧ lo = a ++ [0x25#8] ∧ p = a ++ [0x5c#8, 0x25#8]) := (likeRange_shape h).2.2

/-- `c LIKE 'a\%'` should match only the string `a%`, but is rewritten to the range of all strings starting with `a%`. -/
theorem C26_range_escape_counterexample :
    likeRange [0x61#8, 0x5c#8, 0x25#8] = some ([0x61#8, 0x25#8], [0x61#8, 0x26#8]) ∧
    likeOne .utf8 [0x61#8, 0x25#8, 0x62#8] [0x61#8, 0x5c#8, 0x25#8] = false ∧
    BLe [0x61#8, 0x25#8] [0x61#8, 0x25#8, 0x62#8] ∧ BLt [0x61#8, 0x25#8, 0x62#8] [0x61#8, 0x26#8] := by
  refine ⟨by decide, by decide, by decide, by decide⟩

/-- A prefix of 0xFF bytes only gives the empty string as end of the range: no row is found. -/
theorem C26_range_ff_counterexample :
    likeRange [0xFF#8, 0x25#8] = some ([0xFF#8], []) ∧ likeOne .binary [0xFF#8, 0x61#8] [0xFF#8, 0x25#8] = true ∧
    ∀ t, ¬ BLt t [] := by
  refine ⟨by decide, by decide, ?_⟩
  intro t
  cases t <;> simp [BLt, bcmp]

/-! ## What counts as a character -/

theorem contRun_iff (r : Bytes) (k : Nat) :
    contRun r = k ↔ ∃ x y, r = x ++ y ∧ x.length = k ∧ (∀ b ∈ x, Cont b) ∧ (∀ b y', y = b :: y' → ¬ Cont b) := by
  induction r generalizing k with
  | nil =>
    constructor
    · rintro rfl; exact ⟨[], [], rfl, rfl, by simp, by simp⟩
    · rintro ⟨x, y, h, rfl, _⟩
      have : x = [] := by cases x <;> simp_all
      rw [this]; rfl
  | cons b r ih =>
    unfold contRun
    split
    · rename_i h
      rw [maskC0] at h
      cases k with
      | zero =>
        simp only [Nat.succ_ne_zero, false_iff]
        rintro ⟨x, y, e, hx, _, hy⟩
        have : x = [] := List.length_eq_zero_iff.1 hx
        subst this
        exact hy b r e.symm h
      | succ k =>
        rw [Nat.add_right_cancel_iff, ih]
        constructor
        · rintro ⟨x, y, rfl, rfl, h1, h2⟩
          exact ⟨b :: x, y, rfl, rfl, by simpa using ⟨h, h1⟩, h2⟩
        · rintro ⟨x, y, e, hx, h1, h2⟩
          cases x with
          | nil => simp at hx
          | cons b' x =>
            simp only [List.cons_append, List.cons.injEq] at e
            exact ⟨x, y, e.2, by simpa using hx, fun b hb => h1 b (by simp [hb]), h2⟩
    · rename_i h
      rw [maskC0] at h
      constructor
      · rintro rfl
        exact ⟨[], b :: r, rfl, rfl, by simp, by rintro b' y' e; injection e with e _; subst e; exact h⟩
      · rintro ⟨x, y, e, rfl, h1, h2⟩
        cases x with
        | nil => rfl
        | cons b' x =>
          simp only [List.cons_append, List.cons.injEq] at e
          exact absurd (h1 b' (by simp)) (by rw [← e.1]; exact h)

/-- **C26.** The next character of a string: the bytes at its front that form one character of the charset (in UTF-8, a
multi-byte character followed by one more continuation byte is not accepted); nothing otherwise. -/
theorem C26_char (cs : Charset) (s c : Bytes) (hc : c ≠ []) :
    nextPoint cs s = c ↔
      ∃ r, s = c ++ r ∧ IsChar cs c ∧ (cs = .utf8 → 1 < c.length → ∀ b r', r = b :: r' → ¬ Cont b) := by
  cases s with
  | nil =>
    have : nextPoint cs [] = [] := by simp [nextPoint]
    rw [this]
    constructor
    · intro h; exact absurd h.symm hc
    · rintro ⟨r, e, _⟩; exact absurd (List.append_eq_nil_iff.1 e.symm).1 hc
  | cons a r =>
    cases cs with
    | binary =>
      simp only [nextPoint, nextSize, IsChar]
      constructor
      · rintro rfl; exact ⟨r, rfl, ⟨a, rfl⟩, by simp⟩
      · rintro ⟨w, e, ⟨b, rfl⟩, _⟩; simp_all
    | gbk =>
      simp only [nextPoint, nextSize, IsChar, mask80]
      have ha := a.isLt
      by_cases h0 : a.toNat ≤ 0x7F
      · rw [if_pos h0]
        constructor
        · rintro rfl; exact ⟨r, rfl, .inl ⟨a, rfl, h0⟩, by simp⟩
        · rintro ⟨w, e, ⟨b, rfl, _⟩ | ⟨b, x, rfl, h1, _⟩, _⟩
          · simp_all
          · simp at e; rw [← e.1] at h1; omega
      · rw [if_neg h0]
        cases r with
        | nil =>
          constructor
          · intro h; exact absurd h.symm hc
          · rintro ⟨w, e, ⟨b, rfl, h1⟩ | ⟨b, x, rfl, h1, _⟩, _⟩
            · simp at e; rw [← e.1] at h1; omega
            · simp at e
        | cons d r =>
          simp only [inRange, Bool.and_eq_true, Bool.or_eq_true, decide_eq_true_eq]
          split
          · rename_i h
            constructor
            · rintro rfl; exact ⟨r, rfl, .inr ⟨a, d, rfl, by simpa using h.1.1, by simpa using h.1.2, by simpa using h.2⟩, by simp⟩
            · rintro ⟨w, e, ⟨b, rfl, h1⟩ | ⟨b, x, rfl, h1, _⟩, _⟩
              · simp at e; rw [← e.1] at h1; omega
              · simp at e; simp [e]
          · rename_i h
            constructor
            · intro h; exact absurd h.symm hc
            · rintro ⟨w, e, ⟨b, rfl, h1⟩ | ⟨b, x, rfl, h1, h2, h3⟩, _⟩
              · simp at e; rw [← e.1] at h1; omega
              · simp at e
                rw [e.1, e.2.1] at h
                exact absurd (by simpa using ⟨⟨h1, h2⟩, h3⟩) h
    | utf8 =>
      have key : ∀ k, contRun r = k → ∃ x y, r = x ++ y ∧ x.length = k ∧ (∀ b ∈ x, Cont b) ∧ (∀ b y', y = b :: y' → ¬ Cont b) :=
        fun k => (contRun_iff r k).1
      have back : ∀ x y, r = x ++ y → (∀ b ∈ x, Cont b) → (∀ b y', y = b :: y' → ¬ Cont b) → contRun r = x.length :=
        fun x y h1 h2 h3 => (contRun_iff r _).2 ⟨x, y, h1, rfl, h2, h3⟩
      constructor
      · intro h
        simp only [nextPoint, nextSize, mask80, maskE0, maskF0, maskF0', charSize, List.drop_succ_cons, List.drop_zero] at h
        split at h
        · rename_i h0
          subst h
          exact ⟨r, rfl, .inl ⟨a, rfl, h0⟩, by simp⟩
        split at h
        · rename_i h1
          split at h
          · exact absurd h.symm hc
          · obtain ⟨x, y, rfl, hx, g1, g2⟩ := key 1 (by omega)
            match x, hx with
            | [x0], _ =>
              simp at h; subst h
              exact ⟨y, rfl, .inr (.inl ⟨a, x0, rfl, h1.1, h1.2, g1 x0 (by simp)⟩), fun _ _ => g2⟩
        split at h
        · rename_i h1
          split at h
          · exact absurd h.symm hc
          · obtain ⟨x, y, rfl, hx, g1, g2⟩ := key 2 (by omega)
            match x, hx with
            | [x0, x1], _ =>
              simp at h; subst h
              exact ⟨y, rfl, .inr (.inr (.inl ⟨a, x0, x1, rfl, h1.1, h1.2, g1 x0 (by simp), g1 x1 (by simp)⟩)), fun _ _ => g2⟩
        split at h
        · rename_i h1
          split at h
          · exact absurd h.symm hc
          · obtain ⟨x, y, rfl, hx, g1, g2⟩ := key 3 (by omega)
            match x, hx with
            | [x0, x1, x2], _ =>
              simp at h; subst h
              exact ⟨y, rfl, .inr (.inr (.inr ⟨a, x0, x1, x2, rfl, h1, g1 x0 (by simp), g1 x1 (by simp), g1 x2 (by simp)⟩)),
                fun _ _ => g2⟩
        · exact absurd h.symm hc
      · rintro ⟨w, e, hch, hw⟩
        simp only [nextPoint, nextSize, mask80, maskE0, maskF0, maskF0', charSize, List.drop_succ_cons, List.drop_zero]
        rcases hch with ⟨b, rfl, h1⟩ | ⟨b, x, rfl, h1, h1', h2⟩ | ⟨b, x, y, rfl, h1, h1', h2, h3⟩ | ⟨b, x, y, z, rfl, h1, h2, h3, h4⟩ <;>
          simp only [List.cons_append, List.nil_append, List.cons.injEq] at e <;> obtain ⟨rfl, rfl⟩ := e
        · rw [if_pos h1]; rfl
        · have hn := back [x] w rfl (by simpa using h2) (hw rfl (by simp))
          rw [if_neg (by omega), if_pos ⟨h1, h1'⟩, hn]; rfl
        · have hn := back [x, y] w rfl (by simpa using ⟨h2, h3⟩) (hw rfl (by simp))
          rw [if_neg (by omega), if_neg (by omega), if_pos ⟨h1, h1'⟩, hn]; rfl
        · have hn := back [x, y, z] w rfl (by simpa using ⟨h2, h3, h4⟩) (hw rfl (by simp))
          rw [if_neg (by omega), if_neg (by omega), if_neg (by omega), if_pos h1, hn]; rfl

/-- **C26.** The index prefix is refused exactly for patterns that start with a wildcard. -/
theorem C26_is_prefix (p : Bytes) : (hitIndex p).2.1 = false ↔ ∃ r, p = 0x25#8 :: r ∨ p = 0x5f#8 :: r := by
  unfold hitIndex
  cases p with
  | nil => simp
  | cons c r =>
    have : ∀ a b : Bool, (a && b) = false ↔ (a = false ∨ b = false) := by decide
    simp only [this, bne_eq_false_iff_eq, List.cons.injEq]
    constructor
    · rintro (h | h)
      · exact ⟨r, .inl ⟨h, rfl⟩⟩
      · exact ⟨r, .inr ⟨h, rfl⟩⟩
    · rintro ⟨_, ⟨h, _⟩ | ⟨h, _⟩⟩
      · exact .inl h
      · exact .inr h

namespace Ex
/-- "é" in UTF-8. -/
def eAcute : Bytes := [0xC3#8, 0xA9#8]
/-- `'_%\_'` against `é__`, by characters and with an escaped wildcard. -/
example : likeOne .utf8 (eAcute ++ [0x5f#8, 0x5f#8]) [0x5f#8, 0x25#8, 0x5c#8, 0x5f#8] = true := by decide
example : Text .utf8 (eAcute ++ [0x5f#8]) [eAcute, [0x5f#8]] := by
  refine ⟨rfl, ?_⟩
  simp only [List.mem_cons, List.not_mem_nil, or_false]
  rintro c (rfl | rfl)
  · exact .inr (.inl ⟨0xC3#8, 0xA9#8, rfl, by decide, by decide, by unfold Cont; decide⟩)
  · exact .inl ⟨0x5f#8, rfl, by decide⟩
/-- `'a%b%c'` needs to go back to the second `%`. -/
example : likeOne .binary [0x61#8, 0x62#8, 0x63#8, 0x78#8, 0x63#8] [0x61#8, 0x25#8, 0x62#8, 0x25#8, 0x63#8] = true := by decide
example : likeRange [0x61#8, 0x25#8] = some ([0x61#8], [0x62#8]) := by decide
example : likeRange [0x61#8, 0xFF#8, 0x25#8] = some ([0x61#8, 0xFF#8], [0x62#8]) := by decide
example : likeRange [0x61#8, 0x5f#8, 0x25#8] = none := by decide
end Ex

end BaikalDB.Like
