import Verif.StrFn.Lemmas

/-! # C46: string functions -/
namespace BaikalDB.StrFn

/-! ## Cutting at a delimiter -/

/-- A string can be cut at a delimiter in one way, and is put together from the parts again. -/
theorem C46_split_exists {d : Bytes} (hd : d ≠ []) (s : Bytes) : ∃ ps, Split d s ps ∧ joined d ps = s ∧ ∀ qs, Split d s qs → qs = ps := by
  obtain ⟨ps, h⟩ := Split.total hd s.length s (Nat.le_refl _)
  exact ⟨ps, h, h.joined, fun qs h' => h'.unique h⟩

/-- `REPLACE` puts the new string in the place of each occurrence. -/
theorem C46_replace {s f t : Bytes} (hf : f ≠ []) {ps : List Bytes} (h : Split f s ps) :
    replace (.str s) (.str f) (.str t) = some (joined t ps) := by
  rw [replace, if_neg (by simp [Arg.isNull]), if_neg (by simpa [Arg.strVal] using hf)]
  congr 1
  exact (replaceLoop_spec hf h _ s 0 (Nat.zero_le _) rfl (by simp [Arg.strVal])).trans (by simp [Arg.strVal])

/-- `SPLIT_PART` gives the part asked for, and the empty string behind the last. -/
theorem C46_split_part {s d : Bytes} {ps : List Bytes} (h : Split d s ps) {i : Nat} (hi : 0 < i) :
    splitPart (.str s) (.str d) i = some (ps.getD (i - 1) []) := by
  rw [splitPart, if_neg (by simp [Arg.isNull]), if_neg (by omega)]
  congr 1
  refine (partLoop_spec h s i _ 0 1 (Nat.zero_le _) rfl (by omega) (by omega)).trans ?_
  congr 1
  omega

/-- `SUBSTRING_INDEX` with a positive number gives what is before the delimiter of that number, all of it if there are
fewer; with a negative number what is behind the last delimiters. -/
theorem C46_substring_index {s d : Bytes} (hd : d ≠ []) {ps : List Bytes} (h : Split d s ps) {n : Nat} (hn : 0 < n) :
    substringIndex (.str s) (.str d) n = some (joined d (ps.take n)) ∧
    substringIndex (.str s) (.str d) (-n) = some (joined d (ps.drop (ps.length - n))) := by
  obtain ⟨h1, h2⟩ := places_spec hd h s (s.length + 1) 0 (Nat.zero_le _) rfl (by omega)
  have e1 : Arg.text (.str s) = s := rfl
  have e2 : Arg.text (.str d) = d := rfl
  have hl : d.length ≠ 0 := fun h0 => hd (List.length_eq_zero_iff.mp h0)
  constructor
  · rw [substringIndex, if_neg (by simp [Arg.isNull]), if_neg (by omega), e1, e2, if_neg hl]
    simp only
    rw [if_pos (by omega), Int.toNat_natCast]
    split
    · obtain ⟨j1, _⟩ := h2 (n - 1) (by omega)
      rw [j1, show n - 1 + 1 = n by omega]; simp
    · rw [List.take_of_length_le (by omega), h.joined]
  · rw [substringIndex, if_neg (by simp [Arg.isNull]), if_neg (by omega), e1, e2, if_neg hl]
    simp only
    rw [if_neg (by omega), show (- -(n : Int)).toNat = n by omega]
    split
    · obtain ⟨_, j2⟩ := h2 ((places s d (s.length + 1) 0).length - n) (by omega)
      rw [j2]
      congr 3
      omega
    · rw [show ps.length - n = 0 by omega, List.drop_zero, h.joined]

theorem split_byte_count {c : Nat} {s : Bytes} {ps : List Bytes} (h : Split [c] s ps) : ∀ p ∈ ps, c ∉ p := by
  have hno : ∀ {a s : Bytes}, (∀ a', Occurs [c] s a' → a.length ≤ a'.length) → ∀ b, s = a ++ b → c ∉ a := by
    intro a s hmin b hs hc
    obtain ⟨x, y, rfl⟩ := List.append_of_mem hc
    have := hmin x ⟨y ++ b, by rw [hs]; simp⟩
    simp only [List.length_append, List.length_cons] at this
    omega
  induction h with
  | @last s hn =>
    intro p hp hc
    rw [List.mem_singleton] at hp
    subst hp
    obtain ⟨x, y, rfl⟩ := List.append_of_mem hc
    exact hn x ⟨y, by simp⟩
  | cut hF _ ih =>
    intro p hp
    rcases List.mem_cons.mp hp with rfl | hp
    · exact hno hF.2 _ hF.1
    · exact ih p hp

theorem joined_count {c : Nat} {ps : List Bytes} (h : ∀ p ∈ ps, c ∉ p) : (joined [c] ps).count c = ps.length - 1 := by
  induction ps with
  | nil => rfl
  | cons p ps ih =>
    have hp : p.count c = 0 := List.count_eq_zero.mpr (h p (by simp))
    by_cases hps : ps = []
    · subst hps; exact hp
    · rw [joined_cons hps, List.count_append, List.count_append, hp, ih fun q hq => h q (by simp [hq])]
      have := List.length_pos_iff.mpr hps
      simp only [List.count_singleton_self, List.length_cons]
      omega

theorem joined_append {d : Bytes} {ps qs : List Bytes} (hp : ps ≠ []) (hq : qs ≠ []) :
    joined d (ps ++ qs) = joined d ps ++ (d ++ joined d qs) := by
  induction ps with
  | nil => exact absurd rfl hp
  | cons p ps ih =>
    by_cases hps : ps = []
    · subst hps; exact joined_cons hq
    · rw [List.cons_append, joined_cons (by simp [hps]), ih hps, joined_cons hps]
      simp only [List.append_assoc]

/-- With a delimiter of one byte the delimiters are counted from either end: `SUBSTRING_INDEX(s, d, n)` is followed by the
`n`th delimiter of `s`, `SUBSTRING_INDEX(s, d, -n)` follows the `n`th one from the end. -/
theorem C46_substring_index_byte (s : Bytes) (c n : Nat) (hn : 0 < n) :
    (∃ r, substringIndex (.str s) (.str [c]) n = some r ∧
      ((n ≤ s.count c ∧ ∃ b, s = r ++ (c :: b) ∧ r.count c + 1 = n) ∨ (s.count c < n ∧ r = s))) ∧
    (∃ r, substringIndex (.str s) (.str [c]) (-n) = some r ∧
      ((n ≤ s.count c ∧ ∃ a, s = a ++ (c :: r) ∧ r.count c + 1 = n) ∨ (s.count c < n ∧ r = s))) := by
  obtain ⟨ps, h⟩ := Split.total (d := [c]) (by simp) s.length s (Nat.le_refl _)
  obtain ⟨h1, h2⟩ := C46_substring_index (by simp) h hn
  have hc := split_byte_count h
  have hcnt : s.count c = ps.length - 1 := by
    rw [← joined_count hc, h.joined]
  have hpos := List.length_pos_iff.mpr h.ne_nil
  refine ⟨⟨_, h1, ?_⟩, ⟨_, h2, ?_⟩⟩
  · by_cases hle : n ≤ s.count c
    · refine Or.inl ⟨hle, joined [c] (ps.drop n), ?_, ?_⟩
      · have := joined_append (d := [c]) (ps := ps.take n) (qs := ps.drop n)
          (fun h0 => by have := congrArg List.length h0; simp only [List.length_take, List.length_nil] at this; omega)
          (fun h0 => by have := congrArg List.length h0; simp only [List.length_drop, List.length_nil] at this; omega)
        rw [List.take_append_drop, h.joined] at this
        exact this
      · rw [joined_count fun p hp => hc p (List.mem_of_mem_take hp), List.length_take]; omega
    · exact Or.inr ⟨by omega, by rw [List.take_of_length_le (by omega), h.joined]⟩
  · by_cases hle : n ≤ s.count c
    · refine Or.inl ⟨hle, joined [c] (ps.take (ps.length - n)), ?_, ?_⟩
      · have := joined_append (d := [c]) (ps := ps.take (ps.length - n)) (qs := ps.drop (ps.length - n))
          (fun h0 => by have := congrArg List.length h0; simp only [List.length_take, List.length_nil] at this; omega)
          (fun h0 => by have := congrArg List.length h0; simp only [List.length_drop, List.length_nil] at this; omega)
        rw [List.take_append_drop, h.joined] at this
        exact this
      · rw [joined_count fun p hp => hc p (List.mem_of_mem_drop hp), List.length_drop]; omega
    · exact Or.inr ⟨by omega, by rw [show ps.length - n = 0 by omega, List.drop_zero, h.joined]⟩

/-- A longer delimiter that overlaps itself is not counted from the end: `SUBSTRING_INDEX('aaa', 'aa', -1)` is 'a', though
'aa' ends the string. -/
theorem C46_substring_index_counterexample :
    substringIndex (.str [97, 97, 97]) (.str [97, 97]) (-1) = some [97] ∧ Occurs [97, 97] [97, 97, 97] [97] :=
  ⟨by decide +kernel, [], rfl⟩

example : Split [44] [49, 44, 50, 50, 44] [[49], [50, 50], []] := commas_split [49, 44, 50, 50, 44]
example : replace (.str [97, 98, 97, 98]) (.str [98]) (.str [99, 99]) = some [97, 99, 99, 97, 99, 99] := by decide +kernel
example : substringIndex (.str [49, 46, 50, 46, 51]) (.str [46]) 2 = some [49, 46, 50] := by decide +kernel

/-! ## Finding -/

/-- `LOCATE(d, s, pos)` is the first place at or after `pos` (counted from 1) where `d` stands in `s`, 0 if there is none. -/
theorem C46_locate {s d : Bytes} (pos : Option Nat) :
    ∃ p, locate (.str d) (.str s) (pos.map (Nat.cast : Nat → Int)) = some p ∧
      ((p = 0 ∧ (pos = some 0 ∨ ∀ a, Occurs d s a → a.length + 1 < pos.getD 1)) ∨
        (0 < p ∧ pos.getD 1 ≤ p ∧ (∃ a, Occurs d s a ∧ a.length + 1 = p) ∧
          ∀ a, Occurs d s a → pos.getD 1 ≤ a.length + 1 → p ≤ a.length + 1)) := by
  have hdrop : ∀ (k : Nat) (a : Bytes), Occurs d s a → k ≤ a.length → Occurs d (s.drop k) (a.drop k) := by
    rintro k a ⟨b, rfl⟩ hk
    exact ⟨b, List.drop_append_of_le_length hk⟩
  have main : ∀ k : Nat, (place (find s d k) = 0 ∧ ∀ a, Occurs d s a → a.length < k) ∨
      (0 < place (find s d k) ∧ k + 1 ≤ place (find s d k) ∧ (∃ a, Occurs d s a ∧ a.length + 1 = place (find s d k)) ∧
        ∀ a, Occurs d s a → k ≤ a.length → place (find s d k) ≤ a.length + 1) := by
    intro k
    cases hf : find s d k with
    | none =>
      refine Or.inl ⟨rfl, ?_⟩
      intro a ha
      by_cases hk : k ≤ s.length
      · by_cases hka : k ≤ a.length
        · exact absurd (hdrop k a ha hka) (find_none hk hf _)
        · omega
      · obtain ⟨b, rfl⟩ := ha
        simp only [List.length_append] at hk
        omega
    | some p =>
      obtain ⟨hk, a, b, hF, rfl⟩ := find_some hf
      refine Or.inr ⟨by simp [place], by simp only [place, Option.elim_some]; omega, ⟨s.take k ++ a, ⟨b, ?_⟩, ?_⟩, ?_⟩
      · rw [List.append_assoc, ← hF.1, List.take_append_drop]
      · simp only [place, Option.elim_some, List.length_append, List.length_take]; omega
      · intro a' ha' hka
        have := hF.2 _ (hdrop k a' ha' hka)
        rw [List.length_drop] at this
        simp only [place, Option.elim_some]; omega
  cases pos with
  | none =>
    refine ⟨place (find s d 0), rfl, ?_⟩
    rcases main 0 with ⟨h1, h2⟩ | ⟨h1, h2, h3, h4⟩
    · exact Or.inl ⟨h1, Or.inr fun a ha => absurd (h2 a ha) (by omega)⟩
    · exact Or.inr ⟨h1, h2, h3, fun a ha _ => h4 a ha (Nat.zero_le _)⟩
  | some q =>
    by_cases hq : q = 0
    · subst hq
      exact ⟨0, by rw [locate, if_neg (by simp [Arg.isNull])]; rfl, Or.inl ⟨rfl, Or.inl rfl⟩⟩
    · refine ⟨place (find s d (q - 1)), ?_, ?_⟩
      · rw [locate, if_neg (by simp [Arg.isNull])]
        show (if (q : Int) - 1 < 0 then some 0 else some (place (find s d ((q : Int) - 1).toNat))) = _
        rw [if_neg (by omega), show ((q : Int) - 1).toNat = q - 1 by omega]
      · rcases main (q - 1) with ⟨h1, h2⟩ | ⟨h1, h2, h3, h4⟩
        · refine Or.inl ⟨h1, Or.inr fun a ha => ?_⟩
          have := h2 a ha
          simp only [Option.getD_some]; omega
        · refine Or.inr ⟨h1, by simp only [Option.getD_some]; omega, h3, fun a ha hk => ?_⟩
          simp only [Option.getD_some] at hk
          exact h4 a ha (by omega)

/-- `INSTR(s, d)` is `LOCATE(d, s)`. -/
theorem C46_instr (s d : Arg) : instr s d = locate d s none := by
  unfold instr locate
  by_cases h : s.isNull = true ∨ d.isNull = true
  · rw [if_pos h, if_pos h.symm]
  · rw [if_neg h, if_neg fun h' => h h'.symm]; rfl

example : locate (.str [98]) (.str [97, 98, 97, 98]) (some 3) = some 4 := by decide +kernel

theorem indexLoop_spec (t : Bytes) (ps : List Bytes) (i : Nat) :
    (indexLoop t ps i = 0 ∧ t ∉ ps) ∨
    ∃ (k : Nat), indexLoop t ps i = i + k + 1 ∧ ps[k]? = some t ∧ ∀ j : Nat, j < k → ps[j]? ≠ some t := by
  induction ps generalizing i with
  | nil => exact Or.inl ⟨rfl, by simp⟩
  | cons p ps ih =>
    rw [indexLoop]
    by_cases h : p = t
    · rw [if_pos h]
      exact Or.inr ⟨0, rfl, by simp [h], fun j hj => by omega⟩
    · rw [if_neg h]
      rcases ih (i + 1) with ⟨h1, h2⟩ | ⟨k, h1, h2, h3⟩
      · exact Or.inl ⟨h1, by simp [h2, Ne.symm h]⟩
      · refine Or.inr ⟨k + 1, by omega, by simpa using h2, ?_⟩
        intro j hj
        cases j with
        | zero => simpa using h
        | succ j => simpa using h3 j (by omega)

/-- `FIND_IN_SET` is the place (from 1) of the first part between commas that equals the string, 0 if there is none. -/
theorem C46_find_in_set {t s : Bytes} {ps : List Bytes} (h : Split [44] s ps) :
    (findInSet (.str t) (.str s) = some 0 ∧ t ∉ ps) ∨
    ∃ (k : Nat), findInSet (.str t) (.str s) = some (k + 1) ∧ ps[k]? = some t ∧ ∀ j : Nat, j < k → ps[j]? ≠ some t := by
  have he : findInSet (.str t) (.str s) = some (indexLoop t ps 0) := by
    rw [h.unique (commas_split s)]; rfl
  rw [he]
  rcases indexLoop_spec t ps 0 with ⟨h1, h2⟩ | ⟨k, h1, h2⟩
  · exact Or.inl ⟨by rw [h1], h2⟩
  · exact Or.inr ⟨k, by rw [h1, Nat.zero_add], h2⟩

/-- The empty list counts as a list of one empty string. -/
theorem C46_find_in_set_counterexample : findInSet (.str []) (.str []) = some 1 := by decide +kernel

/-- `FIELD` and `ELT` are inverse to each other: the place of the first argument that equals the string, and the argument of
a place. -/
theorem C46_field (t : Bytes) (ss : List Bytes) (hne : ss ≠ []) :
    (field (.str t) (ss.map .str) = some 0 ∧ t ∉ ss) ∨
    ∃ (k : Nat), field (.str t) (ss.map .str) = some (k + 1) ∧ ss[k]? = some t ∧ elt (k + 1) (ss.map .str) = some t ∧
      ∀ j : Nat, j < k → ss[j]? ≠ some t := by
  have hn : ((ss.map Arg.str).any fun a => a.isNull) = false := by
    rw [List.any_eq_false]
    intro a ha
    obtain ⟨s, _, rfl⟩ := List.mem_map.mp ha
    simp [Arg.isNull]
  have hm : (ss.map Arg.str).map (fun a => a.text) = ss := by
    rw [List.map_map]
    exact List.map_id ss
  have he : field (.str t) (ss.map .str) = some (indexLoop t ss 0) := by
    rw [field, if_neg (by simp [Arg.isNull, hne]), hm]; rfl
  rw [he]
  rcases indexLoop_spec t ss 0 with ⟨h1, h2⟩ | ⟨k, h1, h2, h3⟩
  · exact Or.inl ⟨by rw [h1], h2⟩
  · refine Or.inr ⟨k, by rw [h1, Nat.zero_add], h2, ?_, h3⟩
    have hk : k < ss.length := by
      rcases Nat.lt_or_ge k ss.length with hlt | hge
      · exact hlt
      · rw [List.getElem?_eq_none hge] at h2; cases h2
    rw [elt, if_neg (by simp [hn, hne]), if_neg (by simp only [List.length_map]; omega),
      show ((k : Int) + 1).toNat - 1 = k by omega, List.getD_eq_getElem?_getD, List.getElem?_map, h2]
    rfl

/-- `ELT` beyond its arguments is NULL. -/
theorem C46_elt_null (n : Int) (as : List Arg) (h : n < 1 ∨ (as.length : Int) < n) : elt n as = none := by
  unfold elt
  rw [if_pos h]
  split <;> rfl

/-! ## Cutting by number -/

/-- `SUBSTR` from a place counted from 1, or from the end if negative: the bytes from there on, at most as many as asked;
the empty string if the place is not in the string. -/
theorem C46_substr (s : Bytes) (pos : Int) (len : Option Int) :
    ∃ r, substr (.str s) pos len = some r ∧
      (((0 < pos ∧ pos ≤ s.length) ∨ (pos < 0 ∧ -pos ≤ s.length)) →
        ∃ x y, s = x ++ (r ++ y) ∧ (x.length : Int) = (if pos < 0 then s.length + pos else pos - 1) ∧
          (len = none → y = []) ∧ (∀ n, len = some n → (r.length : Int) ≤ n ∨ r = []) ∧
          (∀ n, len = some n → y ≠ [] → (r.length : Int) = n ∨ n ≤ 0)) ∧
      (pos = 0 ∨ (s.length : Int) < pos ∨ (s.length : Int) < -pos → r = []) := by
  have e1 : Arg.text (.str s) = s := rfl
  unfold substr
  rw [if_neg (by simp [Arg.isNull]), e1]
  simp only
  generalize hp : (if pos < 0 then (s.length : Int) + pos else pos - 1) = p
  by_cases hin : p < 0 ∨ (s.length : Int) ≤ p
  · rw [if_pos hin]
    refine ⟨[], rfl, ?_, fun _ => rfl⟩
    intro h
    split at hp <;> omega
  · rw [if_neg hin]
    have hout : ¬ (pos = 0 ∨ (s.length : Int) < pos ∨ (s.length : Int) < -pos) := by split at hp <;> omega
    cases len with
    | none =>
      refine ⟨s.drop p.toNat, rfl, ?_, fun h => absurd h hout⟩
      intro _
      refine ⟨s.take p.toNat, [], by simp, ?_, fun _ => rfl, (fun _ h => nomatch h), (fun _ h => nomatch h)⟩
      rw [List.length_take]; omega
    | some n =>
      by_cases hn : n ≤ 0
      · simp only [if_pos hn]
        refine ⟨[], rfl, ?_, fun _ => rfl⟩
        intro _
        refine ⟨s.take p.toNat, s.drop p.toNat, by simp, by rw [List.length_take]; omega, (fun h => nomatch h), ?_, ?_⟩
        · exact fun m _ => Or.inr rfl
        · intro m hm _; rw [Option.some.injEq] at hm; exact Or.inr (by omega)
      · simp only [if_neg hn]
        refine ⟨(s.drop p.toNat).take n.toNat, rfl, ?_, fun h => absurd h hout⟩
        intro _
        refine ⟨s.take p.toNat, (s.drop p.toNat).drop n.toNat, ?_, by rw [List.length_take]; omega, (fun h => nomatch h), ?_, ?_⟩
        · rw [List.take_append_drop, List.take_append_drop]
        · intro m hm; rw [Option.some.injEq] at hm
          refine Or.inl ?_
          rw [List.length_take]; omega
        · intro m hm hy; rw [Option.some.injEq] at hm
          refine Or.inl ?_
          have := List.length_pos_iff.mpr hy
          rw [List.length_drop] at this
          rw [List.length_take]; omega

example : substr (.str [97, 98, 99, 100]) (-3) (some 2) = some [98, 99] := by decide +kernel

/-- `LEFT` and `RIGHT` give the first and the last bytes. -/
theorem C46_left_right (s : Bytes) (n : Nat) :
    (∃ l y, left (.str s) n = some l ∧ s = l ++ y ∧ l.length = min n s.length) ∧
    (∃ x r, right (.str s) n = some r ∧ s = x ++ r ∧ r.length = min n s.length) := by
  have e1 : Arg.strVal (.str s) = s := rfl
  have e2 : Arg.isNull (.str s) = false := rfl
  unfold left right
  rw [e1, e2, Int.toNat_natCast]
  simp only [Bool.false_eq_true, if_false]
  by_cases hn : (n : Int) ≤ 0
  · rw [if_pos hn, if_pos hn]
    exact ⟨⟨[], s, rfl, rfl, by simp only [List.length_nil]; omega⟩, ⟨s, [], rfl, by simp, by simp only [List.length_nil]; omega⟩⟩
  · rw [if_neg hn, if_neg hn]
    exact ⟨⟨_, s.drop n, rfl, by simp, by rw [List.length_take]⟩,
      ⟨s.take (s.length - n), _, rfl, by simp, by rw [List.length_drop]; omega⟩⟩

/-- Of a number `LEFT` and `RIGHT` give nothing. -/
theorem C46_left_number_counterexample : left (.other [49, 50, 51]) 2 = some [] ∧ right (.other [49, 50, 51]) 2 = some [] := by
  decide +kernel

/-- Bytes are counted, not characters: `LEFT('é', 1)` is half of a character, `REVERSE('é')` is none. -/
theorem C46_bytes_counterexample : left (.str (utf8 0xE9)) 1 = some [0xC3] ∧ reverse (.str (utf8 0xE9)) = some [0xA9, 0xC3] ∧
    utf8 0xE9 = [0xC3, 0xA9] := by decide +kernel

theorem dropWhile_spaces (s : Bytes) : ∃ i r, s.dropWhile (· == 32) = r ∧ s = List.replicate i 32 ++ r ∧ r.head? ≠ some 32 := by
  induction s with
  | nil => exact ⟨0, [], rfl, rfl, by simp⟩
  | cons c s ih =>
    by_cases h : c = 32
    · obtain ⟨i, r, h1, h2, h3⟩ := ih
      refine ⟨i + 1, r, ?_, ?_, h3⟩
      · rw [List.dropWhile_cons, if_pos (by simp [h]), h1]
      · rw [List.replicate_succ, List.cons_append, ← h2, h]
    · refine ⟨0, c :: s, ?_, rfl, by simpa using h⟩
      rw [List.dropWhile_cons, if_neg (by simp [h])]

theorem cutRight_spec (s : Bytes) : ∃ j r, cutRight s = r ∧ s = r ++ List.replicate j 32 ∧ r.getLast? ≠ some 32 := by
  obtain ⟨j, r, h1, h2, h3⟩ := dropWhile_spaces s.reverse
  refine ⟨j, r.reverse, by rw [cutRight, h1], ?_, by rwa [List.getLast?_reverse]⟩
  have := congrArg List.reverse h2
  rw [List.reverse_reverse, List.reverse_append, List.reverse_replicate] at this
  exact this

/-- `TRIM` takes the spaces away at both ends and nothing else; `LTRIM`, `RTRIM` at one. -/
theorem C46_trim (s : Bytes) :
    (∃ i j r, trim (.str s) = some r ∧ s = List.replicate i 32 ++ (r ++ List.replicate j 32) ∧ r.head? ≠ some 32 ∧ r.getLast? ≠ some 32) ∧
    (∃ i r, ltrim (.str s) = some r ∧ s = List.replicate i 32 ++ r ∧ r.head? ≠ some 32) ∧
    (∃ j r, rtrim (.str s) = some r ∧ s = r ++ List.replicate j 32 ∧ r.getLast? ≠ some 32) := by
  obtain ⟨i, r, h1, h2, h3⟩ := dropWhile_spaces s
  obtain ⟨j, q, g1, g2, g3⟩ := cutRight_spec r
  obtain ⟨j', q', k1, k2, k3⟩ := cutRight_spec s
  refine ⟨⟨i, j, q, ?_, by rw [← g2, ← h2], ?_, g3⟩, ⟨i, r, by rw [ltrim, cutLeft]; exact congrArg some h1, h2, h3⟩,
    ⟨j', q', congrArg some k1, k2, k3⟩⟩
  · rw [trim, cutLeft]
    show some (cutRight (s.dropWhile (· == 32))) = some q
    rw [h1, g1]
  · intro hq
    refine h3 ?_
    rw [g2]
    cases q with
    | nil => cases hq
    | cons c q => simpa using hq

/-- NULL is trimmed to the empty string. -/
theorem C46_trim_null_counterexample : trim .null = some [] ∧ ltrim .null = some [] ∧ rtrim .null = some [] := by decide +kernel

/-- `INSERT` puts a string in the place of some bytes. -/
theorem C46_insert {s x y z t : Bytes} (hs : s = x ++ (y ++ z)) (hy : y ≠ []) :
    insert (.str s) (x.length + 1) y.length (.str t) = some (x ++ (t ++ z)) := by
  have hpos := List.length_pos_iff.mpr hy
  have hl : s.length = x.length + (y.length + z.length) := by rw [hs]; simp
  unfold insert
  rw [if_neg (by simp [Arg.isNull]), if_neg (by omega), if_neg (by omega)]
  have e1 : Arg.strVal (.str s) = s := rfl
  have e2 : Arg.strVal (.str t) = t := rfl
  rw [e1, e2, if_neg (by omega), show ((x.length : Int) + 1 - 1).toNat = x.length by omega, Int.toNat_natCast, splice]
  congr 1
  have h1 : s.take x.length = x := by rw [hs]; exact List.take_left' rfl
  have h2 : s.drop (x.length + y.length) = z := by
    rw [hs, ← List.append_assoc]
    exact List.drop_left' (by rw [List.length_append])
  rw [h1, h2, List.append_assoc]

/-- More bytes than there are: the rest is replaced; a place outside of the string: nothing is. -/
theorem C46_insert_end (s t : Bytes) :
    (∀ (pos len : Int), (pos < 1 ∨ (s.length : Int) < pos) → insert (.str s) pos len (.str t) = some s) ∧
    (∀ x y (len : Int), s = x ++ y → y ≠ [] → (y.length : Int) ≤ len →
      insert (.str s) (x.length + 1) len (.str t) = some (x ++ t)) := by
  have e1 : Arg.strVal (.str s) = s := rfl
  have e2 : Arg.strVal (.str t) = t := rfl
  have e3 : Arg.text (.str s) = s := rfl
  constructor
  · intro pos len h
    unfold insert
    rw [if_neg (by simp [Arg.isNull]), e1, e3]
    split
    · rfl
    split
    · rfl
    rw [if_pos (by omega)]
  · intro x y len hs hy hlen
    have hpos := List.length_pos_iff.mpr hy
    have hl : s.length = x.length + y.length := by rw [hs]; simp
    unfold insert
    rw [if_neg (by simp [Arg.isNull]), if_neg (by omega), if_neg (by omega), e1, e2, if_neg (by omega),
      show ((x.length : Int) + 1 - 1).toNat = x.length by omega, splice]
    congr 1
    have h1 : s.take x.length = x := by rw [hs]; exact List.take_left' rfl
    rw [h1, List.drop_of_length_le (by omega), List.append_nil]

/-- Without bytes to be replaced nothing is inserted, whereas `INSERT('ac', 2, 0, 'b')` should be 'abc'. -/
theorem C46_insert_counterexample : insert (.str [97, 99]) 2 0 (.str [98]) = some [97, 99] := by decide +kernel

/-! ## Putting together -/

theorem concatLoop_spec (acc : Bytes) (as : List Arg) :
    concatLoop acc as = if as.any (·.isNull) then none else some (acc ++ as.flatMap (·.text)) := by
  induction as generalizing acc with
  | nil => simp [concatLoop]
  | cons a as ih =>
    rw [concatLoop, List.any_cons, List.flatMap_cons]
    cases h : a.isNull
    · rw [if_neg (by simp), ih, Bool.false_or, List.append_assoc]
    · simp

/-- `CONCAT` of texts is their sequence, NULL if one is NULL. -/
theorem C46_concat (as : List Arg) :
    (Arg.null ∈ as → concat as = none) ∧ (Arg.null ∉ as → concat as = some (as.map Arg.text).flatten) := by
  have hnull : (as.any fun a => a.isNull) = true ↔ Arg.null ∈ as := by
    rw [List.any_eq_true]
    constructor
    · rintro ⟨a, ha, hn⟩
      cases a with
      | null => exact ha
      | str s => cases hn
      | other s => cases hn
    · exact fun h => ⟨_, h, rfl⟩
  rw [concat, concatLoop_spec]
  constructor
  · intro h; rw [if_pos (hnull.mpr h)]
  · intro h; rw [if_neg fun h' => h (hnull.mp h'), List.nil_append, List.flatMap_def]

theorem joined_snoc {d p : Bytes} {ps : List Bytes} (h : ps ≠ []) : joined d (ps ++ [p]) = joined d ps ++ (d ++ p) := by
  rw [joined_append h (by simp)]; rfl

theorem wsLoop_spec (sep : Bytes) (done : List Bytes) (as : List Arg) :
    wsLoop sep (if done = [] then none else some (joined sep done)) as =
      if done ++ (as.filter fun a => !a.isNull).map Arg.text = [] then none
      else some (joined sep (done ++ (as.filter fun a => !a.isNull).map Arg.text)) := by
  induction as generalizing done with
  | nil => simp [wsLoop]
  | cons a as ih =>
    rw [wsLoop]
    cases h : a.isNull
    · have hfc : (a :: as).filter (fun a => !a.isNull) = a :: as.filter (fun a => !a.isNull) := by
        rw [List.filter_cons, h]; rfl
      rw [hfc, List.map_cons]
      have := ih (done ++ [a.text])
      rw [if_neg (by simp), List.append_assoc, List.singleton_append] at this
      rw [← this]
      by_cases hd : done = []
      · subst hd; simp [joined]
      · rw [if_neg hd, joined_snoc hd]; rfl
    · have hfc : (a :: as).filter (fun a => !a.isNull) = as.filter (fun a => !a.isNull) := by
        rw [List.filter_cons, h]; rfl
      rw [hfc]
      exact ih done

/-- `CONCAT_WS` puts the separator between those that are not NULL; with none of them it is NULL. -/
theorem C46_concat_ws (sep : Bytes) (as : List Arg) :
    concatWs .null as = none ∧
    ((∀ a ∈ as, a = .null) → concatWs (.str sep) as = none) ∧
    ((∃ a ∈ as, a ≠ .null) → concatWs (.str sep) as = some (joined sep ((as.filter (· ≠ .null)).map Arg.text))) := by
  have hf : as.filter (fun a => !a.isNull) = as.filter (· ≠ .null) := by
    refine List.filter_congr ?_
    intro a _
    cases a <;> simp [Arg.isNull]
  have hws : as ≠ [] → concatWs (.str sep) as = wsLoop sep none as := by
    intro h
    rw [concatWs, if_neg h, if_neg (by simp [Arg.isNull])]; rfl
  have hsp := wsLoop_spec sep [] as
  rw [if_pos rfl, List.nil_append, hf] at hsp
  refine ⟨?_, ?_, ?_⟩
  · unfold concatWs; split <;> rfl
  · intro h
    by_cases hn : as = []
    · rw [concatWs, if_pos hn]
    · rw [hws hn, hsp, if_pos]
      rw [List.map_eq_nil_iff, List.filter_eq_nil_iff]
      intro a ha; simp [h a ha]
  · rintro ⟨a, ha, hna⟩
    rw [hws (List.ne_nil_of_mem ha), hsp, if_neg]
    rw [List.map_eq_nil_iff, List.filter_eq_nil_iff]
    intro h
    exact h a ha (by simpa using hna)

/-- `REPEAT` and `SPACE` repeat. -/
theorem C46_repeat (s : Bytes) (n : Nat) (hn : 0 < n) :
    ∃ r, repeatStr (.str s) n = some r ∧ r.length = n * s.length ∧ ∀ i : Nat, i < n * s.length → r[i]? = s[i % s.length]? := by
  refine ⟨(List.replicate n s).flatten, ?_, ?_, ?_⟩
  · rw [repeatStr, if_neg (by simp [Arg.isNull]), if_neg (by omega), Int.toNat_natCast]; rfl
  · simp
  · clear hn
    intro i hi
    induction n generalizing i with
    | zero => rw [Nat.zero_mul] at hi; omega
    | succ n ih =>
      rw [List.replicate_succ, List.flatten_cons]
      by_cases hlt : i < s.length
      · rw [List.getElem?_append_left hlt, Nat.mod_eq_of_lt hlt]
      · rw [List.getElem?_append_right (by omega), ih _ (by rw [Nat.succ_mul] at hi; omega), ← Nat.mod_eq_sub_mod (by omega)]

theorem C46_space (n : Nat) (hn : 0 < n) (hm : n ≤ 1000000) : ∃ r, space n = some r ∧ r.length = n ∧ ∀ c ∈ r, c = 32 := by
  refine ⟨List.replicate n 32, ?_, by simp, fun c hc => List.eq_of_mem_replicate hc⟩
  rw [space, if_neg (by omega), Int.toNat_natCast]

/-- Repeating 0 times gives NULL, not the empty string. -/
theorem C46_repeat_counterexample : repeatStr (.str [97]) 0 = none ∧ space 0 = none := by decide +kernel

/-- `REVERSE` twice is the string itself; the first byte becomes the last. -/
theorem C46_reverse (s : Bytes) : ∃ r, reverse (.str s) = some r ∧ r.length = s.length ∧
    ∀ i : Nat, i < s.length → r[i]? = s[s.length - 1 - i]? :=
  ⟨s.reverse, rfl, by simp, fun i hi => List.getElem?_reverse hi⟩

/-- `LPAD` and `RPAD` give as many bytes as asked: the first ones of the string, or the string with the padding, repeated,
before or behind it. -/
theorem C46_pad (s p : Bytes) (n : Nat) (hn : 0 < n) (hm : n ≤ 65535) :
    (n ≤ s.length → lpad (.str s) n (.str p) = some (s.take n) ∧ rpad (.str s) n (.str p) = some (s.take n)) ∧
    (s.length < n → p = [] → lpad (.str s) n (.str p) = none ∧ rpad (.str s) n (.str p) = none) ∧
    (s.length < n → p ≠ [] → ∃ q, lpad (.str s) n (.str p) = some (q ++ s) ∧ rpad (.str s) n (.str p) = some (s ++ q) ∧
      q.length + s.length = n ∧ ∀ i : Nat, i < q.length → q[i]? = p[i % p.length]?) := by
  have e1 : Arg.text (.str s) = s := rfl
  have e2 : Arg.text (.str p) = p := rfl
  have hc : ¬ ((n : Int) ≤ 0 ∨ 65535 < (n : Int)) := by omega
  unfold lpad rpad
  simp only [if_neg hc, e1, e2, Int.toNat_natCast]
  refine ⟨?_, ?_, ?_⟩
  · intro h
    simp only [if_pos (show (n : Int) ≤ s.length by omega), and_self]
  · intro h hp
    simp only [if_neg (show ¬ (n : Int) ≤ s.length by omega), hp, List.length_nil, if_true, and_self]
  · intro h hp
    simp only [if_neg (show ¬ (n : Int) ≤ s.length by omega), if_neg (show ¬ p.length = 0 by simpa using hp)]
    obtain ⟨h1, h2⟩ := padding_spec hp n (n - s.length) (by omega)
    exact ⟨_, rfl, rfl, by omega, fun i hi => h2 i (by omega)⟩

/-- NULL is padded like the empty string. -/
theorem C46_pad_null_counterexample : lpad .null 2 (.str [120]) = some [120, 120] := by decide +kernel

example : rpad (.str [97]) 4 (.str [120, 121]) = some [97, 120, 121, 120] := by decide +kernel

end BaikalDB.StrFn
