import Verif.Segment.Split
import Verif.Reverse.Props

/-!
# C66: LIKE by a full-text index
-/

namespace BaikalDB.Segment
open BaikalDB.Like (Charset)
open BaikalDB.Segment.Spec (IsChar Text Cut low body IsTerm Plain Word bars pattern Occurs Long)
open BaikalDB.Reverse (Index Query)
open BaikalDB.Reverse.Spec (Run Ready Rows Finds Holds Ok)

variable {K : Type} [LinearOrder K] [OrderBot K]

theorem body_word {cs : Charset} {w : List Bytes} (h : Word cs w) : body cs w = w.map low := by
  unfold body
  rw [if_neg (fun hh => h.2.2 hh.1 hh.2)]

theorem body_char {cs : Charset} {l : List Bytes} (h : ∀ c ∈ l, IsChar cs c) : ∀ c ∈ body cs l, IsChar cs c := by
  intro c hc
  unfold body at hc
  obtain ⟨d, hd, rfl⟩ := List.mem_map.1 hc
  refine low_char ?_
  split at hd
  · exact h d (List.mem_of_mem_tail hd)
  · exact h d hd

/-- A string that is in a text is in its characters without byte order mark. -/
theorem body_infix {cs : Charset} {w l : List Bytes} (h : Word cs w) (hw : w <:+: l) : w.map low <:+: body cs l := by
  unfold body
  refine List.IsInfix.map low ?_
  split
  · rename_i hb
    obtain ⟨a, b, rfl⟩ := hw
    cases a with
    | nil =>
      exfalso
      rw [List.nil_append, List.head?_append_of_ne_nil _ h.1] at hb
      exact h.2.2 hb.1 hb.2
    | cons x a => exact ⟨a, b, by simp⟩
  · exact hw

/-- All the terms of a string are terms of a text that has the string. -/
theorem terms_infix {cs : Charset} {punct : Bytes → Bool} {n : Nat} {w l : List Bytes} (hw : Word cs w) (hlong : Long cs punct n w)
    (hin : w.map low <:+: body cs l) (hl : l ≠ []) {x : Bytes} (hx : IsTerm cs punct n w x) : IsTerm cs punct n l x := by
  obtain ⟨_, hx⟩ := hx
  rw [body_word hw] at hx
  refine ⟨hl, ?_⟩
  have hle := hin.length_le
  rcases hx with ⟨h1, rfl⟩ | ⟨h1, c, hc, h2, h3, h4⟩
  · obtain ⟨c, hc, h2, h3⟩ := hlong
    rw [body_word hw] at hc
    have h5 : c = w.map low := hc.eq_of_length (by have := hc.length_le; omega)
    subst h5
    by_cases h6 : (body cs l).length ≤ n
    · exact .inl ⟨h6, by rw [hin.eq_of_length (by omega)]⟩
    · exact .inr ⟨by omega, _, hin, h2, rfl, h3⟩
  · exact .inr ⟨by omega, c, hc.trans hin, h2, h3, h4⟩

theorem long_term {cs : Charset} {punct : Bytes → Bool} {n : Nat} {w : List Bytes} (hw : Word cs w) (hlong : Long cs punct n w) :
    ∃ x, IsTerm cs punct n w x := by
  obtain ⟨c, hc, h1, h2⟩ := hlong
  by_cases h : (body cs w).length ≤ n
  · exact ⟨_, hw.1, .inl ⟨h, rfl⟩⟩
  · exact ⟨c.flatten, hw.1, .inr ⟨by omega, c, hc, h1, rfl, h2⟩⟩

theorem likeQuery_holds {cs : Charset} (punct : Bytes → Bool) {n : Nat} (hn : 0 < n) {ws : List (List Bytes)} (hne : ws ≠ [])
    (h : ∀ w ∈ ws, Word cs w) (pre post : Bool) {t : Bytes} {l : List Bytes} (ht : Text cs t l) :
    Holds (fun x => x ∈ simpleSeg cs punct n t) (likeQuery cs punct n (pattern pre post ws)) ↔
      ∃ w ∈ ws, (∃ x, IsTerm cs punct n w x) ∧ ∀ x, IsTerm cs punct n w x → IsTerm cs punct n l x := by
  unfold likeQuery
  rw [splitStr_pattern hne h, ht.1, Holds]
  have key : ∀ w ∈ ws, (simpleSeg cs punct n w.flatten ≠ [] ∧ ∀ x ∈ simpleSeg cs punct n w.flatten, x ∈ simpleSeg cs punct n l.flatten) ↔
      ((∃ x, IsTerm cs punct n w x) ∧ ∀ x, IsTerm cs punct n w x → IsTerm cs punct n l x) := by
    intro w hw
    have hwc : ∀ c ∈ w, IsChar cs c := fun c hc => ((h w hw).2.1 c hc).1
    simp only [simpleSeg_mem punct hn (cut_of_chars hwc), simpleSeg_mem punct hn (cut_of_chars ht.2)]
    refine and_congr_left fun _ => ?_
    simp only [← simpleSeg_mem punct hn (cut_of_chars hwc)]
    exact ⟨fun hne => List.exists_mem_of_ne_nil _ hne, fun ⟨y, hy⟩ he => by rw [he] at hy; simp at hy⟩
  constructor
  · rintro ⟨ts, hts, h1⟩
    rw [List.map_map] at hts
    obtain ⟨w, hw, rfl⟩ := List.mem_map.1 hts
    exact ⟨w, hw, (key w hw).1 h1⟩
  · rintro ⟨w, hw, h1⟩
    exact ⟨_, by rw [List.map_map]; exact List.mem_map.2 ⟨w, hw, rfl⟩, (key w hw).2 h1⟩

theorem likeQuery_ok (cs : Charset) (punct : Bytes → Bool) (n : Nat) (p : Bytes) : Ok (likeQuery cs punct n p) := by
  unfold likeQuery Ok
  intro h
  cases h

/-- **C66**: the terms of any bytes, valid text or not, cut into characters by their first bytes: the whole in lower case if it has at
most `n` characters, otherwise every `n` characters in a row in lower case that are not punctuation. -/
theorem C66_terms {cs : Charset} (punct : Bytes → Bool) {n : Nat} (hn : 0 < n) {l : List Bytes} (h : Cut cs l) (x : Bytes) :
    x ∈ simpleSeg cs punct n l.flatten ↔ IsTerm cs punct n l x := simpleSeg_mem punct hn h x

/-- **C66**: any bytes can be cut into characters, in one way; valid text is cut into its characters. -/
theorem C66_cut (cs : Charset) : (∀ t : Bytes, ∃ l, l.flatten = t ∧ Cut cs l) ∧
    (∀ l m : List Bytes, Cut cs l → Cut cs m → l.flatten = m.flatten → l = m) ∧ ∀ t l, Text cs t l → Cut cs l := by
  refine ⟨fun t => ?_, fun l => ?_, fun t l h => cut_of_chars h.2⟩
  · obtain ⟨n, hn⟩ : ∃ n, t.length ≤ n := ⟨_, le_refl _⟩
    induction n generalizing t with
    | zero => exact ⟨[], by rw [List.length_eq_zero_iff.1 (Nat.le_zero.1 hn)]; rfl, trivial⟩
    | succ n ih =>
      cases t with
      | nil => exact ⟨[], rfl, trivial⟩
      | cons b r =>
        have hp := leadLen_pos cs b
        obtain ⟨l, hl, hc⟩ := ih (r.drop (Spec.leadLen cs b - 1)) (by
          simp only [List.length_cons] at hn
          rw [List.length_drop]; omega)
        refine ⟨(b :: r.take (Spec.leadLen cs b - 1)) :: l, by rw [List.flatten_cons, hl]; simp, ⟨b, _, rfl, ?_⟩, hc⟩
        rw [List.length_cons, List.length_take]
        by_cases hlen : Spec.leadLen cs b - 1 ≤ r.length
        · left; omega
        · right
          refine ⟨?_, by omega⟩
          rw [List.drop_of_length_le (by omega)] at hl
          exact (cut_eq_nil hc).1 hl
  · induction l with
    | nil =>
      intro m _ hm he
      exact ((cut_eq_nil hm).1 he.symm).symm
    | cons c l ih =>
      intro m hl hm he
      cases m with
      | nil => exact absurd ((cut_eq_nil hl).1 he) (by simp)
      | cons d m =>
        have h1 := take_cut hl
        have h2 := take_cut hm
        have h3 := drop_cut hl
        have h4 := drop_cut hm
        rw [List.flatten_cons, List.flatten_cons] at he
        rw [he, h2] at h1
        rw [he, h4] at h3
        rw [h1, ih m hl.2 hm.2 h3.symm]

/-- **C66**: the pattern of a LIKE is split into the strings between its '|', without '%' at the ends. -/
theorem C66_pieces {cs : Charset} {ws : List (List Bytes)} (hne : ws ≠ []) (h : ∀ w ∈ ws, Word cs w) (pre post : Bool) :
    splitStr cs 0x7C#8 (pattern pre post ws) = ws.map List.flatten := splitStr_pattern hne h pre post

/-- **C66**: what EXACT LIKE says: one of the strings is in the text, at its front if the pattern does not begin with '%', at its end if
the pattern does not end with '%'. -/
theorem C66_exact_pattern {cs : Charset} {ws : List (List Bytes)} (hne : ws ≠ []) (h : ∀ w ∈ ws, Word cs w) {t : Bytes} {l : List Bytes}
    (ht : Text cs t l) (pre post : Bool) : exactLike cs t (pattern pre post ws) = true ↔ ∃ w ∈ ws, Occurs pre post w l :=
  exactLike_pattern hne h ht pre post

/-- **C66**: what a LIKE by a full-text index finds: the rows whose texts have all the terms of one of the strings. -/
theorem C66_like {cs : Charset} {punct : Bytes → Bool} {n : Nat} (hn : 0 < n) {x : Index Bytes K} {tb : Rows K Bytes} {c : Nat} {d : Bool}
    (hrun : Run (simpleSeg cs punct n) x tb c d) (hr : Ready x.range d) (hv : ∀ k t, tb k = some t → ∃ l, Text cs t l)
    {ws : List (List Bytes)} (hne : ws ≠ []) (h : ∀ w ∈ ws, Word cs w) (pre post : Bool) :
    (select x tb cs punct n false (pattern pre post ws)).Pairwise (· < ·) ∧
      ∀ k, k ∈ select x tb cs punct n false (pattern pre post ws) ↔ ∃ t l, tb k = some t ∧ Text cs t l ∧
        ∃ w ∈ ws, (∃ y, IsTerm cs punct n w y) ∧ ∀ y, IsTerm cs punct n w y → IsTerm cs punct n l y := by
  have hs := Reverse.C65_search hrun _ (likeQuery_ok cs punct n (pattern pre post ws)) hr
  have e : select x tb cs punct n false (pattern pre post ws) = x.search (likeQuery cs punct n (pattern pre post ws)) := by
    unfold select
    simp
  rw [e]
  refine ⟨hs.1, fun k => ?_⟩
  rw [hs.2]
  constructor
  · rintro ⟨t, ht, hq⟩
    obtain ⟨l, hl⟩ := hv k t ht
    exact ⟨t, l, ht, hl, (likeQuery_holds punct hn hne h pre post hl).1 hq⟩
  · rintro ⟨t, l, ht, hl, hq⟩
    exact ⟨t, ht, (likeQuery_holds punct hn hne h pre post hl).2 hq⟩

/-- **C66**: a LIKE by a full-text index loses no row: every row that has one of the strings, whatever the case of its letters, is
found. -/
theorem C66_none_lost {cs : Charset} {punct : Bytes → Bool} {n : Nat} (hn : 0 < n) {x : Index Bytes K} {tb : Rows K Bytes} {c : Nat} {d : Bool}
    (hrun : Run (simpleSeg cs punct n) x tb c d) (hr : Ready x.range d) (hv : ∀ k t, tb k = some t → ∃ l, Text cs t l)
    {ws : List (List Bytes)} (h : ∀ w ∈ ws, Word cs w) (pre post : Bool) {w : List Bytes} (hw : w ∈ ws) (hlong : Long cs punct n w)
    {k : K} {t : Bytes} {l : List Bytes} (htb : tb k = some t) (ht : Text cs t l) (hin : w.map low <:+: body cs l) :
    k ∈ select x tb cs punct n false (pattern pre post ws) := by
  have hne : ws ≠ [] := by rintro rfl; simp at hw
  refine ((C66_like hn hrun hr hv hne h pre post).2 k).2 ⟨t, l, htb, ht, w, hw, long_term (h w hw) hlong, fun y hy => ?_⟩
  refine terms_infix (h w hw) hlong hin ?_ hy
  rintro rfl
  have := hin.length_le
  simp [body] at this
  exact (h w hw).1 this

/-- **C66**: EXACT LIKE by a full-text index finds exactly the rows for which the condition holds, each once and in the order of the
primary key. -/
theorem C66_exact_like {cs : Charset} {punct : Bytes → Bool} {n : Nat} (hn : 0 < n) {x : Index Bytes K} {tb : Rows K Bytes} {c : Nat} {d : Bool}
    (hrun : Run (simpleSeg cs punct n) x tb c d) (hr : Ready x.range d) (hv : ∀ k t, tb k = some t → ∃ l, Text cs t l)
    {ws : List (List Bytes)} (hne : ws ≠ []) (h : ∀ w ∈ ws, Word cs w) (hlong : ∀ w ∈ ws, Long cs punct n w) (pre post : Bool) :
    (select x tb cs punct n true (pattern pre post ws)).Pairwise (· < ·) ∧
      ∀ k, k ∈ select x tb cs punct n true (pattern pre post ws) ↔ ∃ t l, tb k = some t ∧ Text cs t l ∧ ∃ w ∈ ws, Occurs pre post w l := by
  have hs := Reverse.C65_search hrun _ (likeQuery_ok cs punct n (pattern pre post ws)) hr
  have hsel : ∀ k, k ∈ select x tb cs punct n true (pattern pre post ws) ↔
      k ∈ select x tb cs punct n false (pattern pre post ws) ∧ (tb k).elim false (fun t => exactLike cs t (pattern pre post ws)) = true := by
    intro k
    unfold select
    simp
  refine ⟨by unfold select; exact hs.1.sublist List.filter_sublist, fun k => ?_⟩
  rw [hsel]
  constructor
  · rintro ⟨_, h1⟩
    cases htb : tb k with
    | none => rw [htb] at h1; simp at h1
    | some t =>
      rw [htb] at h1
      obtain ⟨l, hl⟩ := hv k t htb
      exact ⟨t, l, rfl, hl, (C66_exact_pattern hne h hl pre post).1 h1⟩
  · rintro ⟨t, l, htb, ht, w, hw, ho⟩
    refine ⟨?_, by rw [htb]; exact (C66_exact_pattern hne h ht pre post).2 ⟨w, hw, ho⟩⟩
    obtain ⟨a, b, hab, _⟩ := ho
    exact C66_none_lost hn hrun hr hv h pre post hw (hlong w hw) htb ht (body_infix (h w hw) ⟨a, b, hab.symm⟩)

/-- **C66**: for strings of as many characters as the index's terms have, a LIKE that is not checked again finds exactly the rows that
have one of the strings, whatever the case of its letters. -/
theorem C66_like_short {cs : Charset} {punct : Bytes → Bool} {n : Nat} (hn : 0 < n) {x : Index Bytes K} {tb : Rows K Bytes} {c : Nat} {d : Bool}
    (hrun : Run (simpleSeg cs punct n) x tb c d) (hr : Ready x.range d) (hv : ∀ k t, tb k = some t → ∃ l, Text cs t l)
    {ws : List (List Bytes)} (hne : ws ≠ []) (h : ∀ w ∈ ws, Word cs w) (hlong : ∀ w ∈ ws, Long cs punct n w ∧ w.length = n) (pre post : Bool)
    (k : K) :
    k ∈ select x tb cs punct n false (pattern pre post ws) ↔
      ∃ t l, tb k = some t ∧ Text cs t l ∧ ∃ w ∈ ws, w.map low <:+: body cs l := by
  constructor
  · intro hk
    obtain ⟨t, l, htb, ht, w, hw, _, hall⟩ := ((C66_like hn hrun hr hv hne h pre post).2 k).1 hk
    refine ⟨t, l, htb, ht, w, hw, ?_⟩
    have hwb := body_word (h w hw)
    have hlen := (hlong w hw).2
    have hwc : ∀ c ∈ w.map low, IsChar cs c := by
      rw [← hwb]; exact body_char fun c hc => ((h w hw).2.1 c hc).1
    have hlc := body_char ht.2
    have hterm := hall (w.map low).flatten ⟨(h w hw).1, .inl ⟨by rw [hwb, List.length_map]; omega, by rw [hwb]⟩⟩
    have hinj : ∀ m : List Bytes, (∀ c ∈ m, IsChar cs c) → (w.map low).flatten = m.flatten → w.map low = m := fun m hm he =>
      Like.text_inj (cs := cs) ⟨rfl, fun c hc => (hwc c hc).1⟩ ⟨rfl, fun c hc => (hm c hc).1⟩ he
    rcases hterm.2 with ⟨_, he⟩ | ⟨_, m, hm, _, he, _⟩
    · rw [hinj _ hlc he]
    · rw [hinj m (fun c hc => hlc c (hm.subset hc)) he]
      exact hm
  · rintro ⟨t, l, htb, ht, w, hw, hin⟩
    exact C66_none_lost hn hrun hr hv h pre post hw (hlong w hw).1 htb ht hin

/-! ### Where it fails -/

/-- The blanks that are always punctuation. -/
def blank (x : Bytes) : Bool := x = [0x20#8] || x = [0x09#8] || x = [0x0D#8] || x = [0x0A#8]

/-- A table with one row. -/
def oneRow (t : Bytes) : Rows Nat Bytes := Rows.put (fun _ => none) 7 (some t)

/-- Its index. -/
def oneIndex (n : Nat) (t : Bytes) : Index Bytes Nat := (Index.empty ⟨0, 0⟩).handle false (simpleSeg .utf8 blank n t) 7 fun _ => 1

theorem oneIndex_run (n : Nat) (t : Bytes) : Run (simpleSeg .utf8 blank n) (oneIndex n t) (oneRow t) 1 false :=
  Run.insert 7 t (fun _ => 1) 1 (Run.start _) ⟨Nat.zero_le _, .inl rfl⟩ rfl ⟨by decide, fun _ _ => ⟨Nat.zero_le _, Nat.le_refl _⟩⟩

/-- **C66**, where LIKE fails: `LIKE '%aba%'` by an index of bigrams finds the text `ba ab`. -/
theorem C66_like_counterexample :
    select (oneIndex 2 [0x62#8, 0x61#8, 0x20#8, 0x61#8, 0x62#8]) (oneRow [0x62#8, 0x61#8, 0x20#8, 0x61#8, 0x62#8]) .utf8 blank 2 false
        [0x25#8, 0x61#8, 0x62#8, 0x61#8, 0x25#8] = [7] ∧
      Like.likeOne .utf8 [0x62#8, 0x61#8, 0x20#8, 0x61#8, 0x62#8] [0x25#8, 0x61#8, 0x62#8, 0x61#8, 0x25#8] = false := by decide +kernel

/-- **C66**, where LIKE fails: `LIKE 'ab'`, without '%', finds the text `cab`. -/
theorem C66_equal_counterexample :
    select (oneIndex 2 [0x63#8, 0x61#8, 0x62#8]) (oneRow [0x63#8, 0x61#8, 0x62#8]) .utf8 blank 2 false [0x61#8, 0x62#8] = [7] ∧
      Like.likeOne .utf8 [0x63#8, 0x61#8, 0x62#8] [0x61#8, 0x62#8] = false := by decide +kernel

/-- **C66**, where it fails: a string shorter than the terms: `EXACT LIKE '%a%'` by an index of bigrams does not find the text `abc`. -/
theorem C66_short_counterexample :
    select (oneIndex 2 [0x61#8, 0x62#8, 0x63#8]) (oneRow [0x61#8, 0x62#8, 0x63#8]) .utf8 blank 2 true [0x25#8, 0x61#8, 0x25#8] = [] ∧
      exactLike .utf8 [0x61#8, 0x62#8, 0x63#8] [0x25#8, 0x61#8, 0x25#8] = true := by decide +kernel

/-- **C66**, where it fails: punctuation: `EXACT LIKE '% %'` by an index of unigrams does not find the text `a b`. -/
theorem C66_blank_counterexample :
    select (oneIndex 1 [0x61#8, 0x20#8, 0x62#8]) (oneRow [0x61#8, 0x20#8, 0x62#8]) .utf8 blank 1 true [0x25#8, 0x20#8, 0x25#8] = [] ∧
      exactLike .utf8 [0x61#8, 0x20#8, 0x62#8] [0x25#8, 0x20#8, 0x25#8] = true := by decide +kernel

/-- **C66**, where it fails: wildcards: `EXACT LIKE '%a_c%'` by an index of unigrams does not find the text `abc`. -/
theorem C66_wildcard_counterexample :
    select (oneIndex 1 [0x61#8, 0x62#8, 0x63#8]) (oneRow [0x61#8, 0x62#8, 0x63#8]) .utf8 blank 1 true [0x25#8, 0x61#8, 0x5F#8, 0x63#8, 0x25#8] = [] ∧
      exactLike .utf8 [0x61#8, 0x62#8, 0x63#8] [0x25#8, 0x61#8, 0x5F#8, 0x63#8, 0x25#8] = true := by decide +kernel

/-- **C66**, where it fails: `EXACT LIKE '%'` holds for every text and finds none. -/
theorem C66_empty_counterexample :
    select (oneIndex 1 [0x61#8]) (oneRow [0x61#8]) .utf8 blank 1 true [0x25#8] = [] ∧ exactLike .utf8 [0x61#8] [0x25#8] = true := by decide +kernel

/-- **C66**, where it fails: a GBK character with the byte of '|' is cut in two by EXACT LIKE: the condition holds for every text. -/
theorem C66_gbk_counterexample : exactLike .gbk [0x61#8] [0x25#8, 0x81#8, 0x7C#8, 0x25#8] = true ∧
    Spec.IsChar .gbk [0x81#8, 0x7C#8] ∧ ¬ Occurs true true [[0x81#8, 0x7C#8]] [[0x61#8]] := by
  refine ⟨by decide +kernel, ⟨.inr ⟨_, _, rfl, by decide⟩, by simp, by simp⟩, ?_⟩
  rintro ⟨a, b, h, _⟩
  have : [0x81#8, 0x7C#8] ∈ [[0x61#8]] := by rw [h]; simp
  simp at this

/-- An empty string between two '|' stays empty when '%' is put to the others: `EXACT LIKE '%ab||cd%'` holds of the empty text, which
has none of the strings and no term by which the index could find it, and of no other text without them. -/
theorem C66_empty_string_counterexample :
    exactLike .utf8 [] [0x25#8, 0x61#8, 0x62#8, 0x7C#8, 0x7C#8, 0x63#8, 0x64#8, 0x25#8] = true ∧
    exactLike .utf8 [0x78#8] [0x25#8, 0x61#8, 0x62#8, 0x7C#8, 0x7C#8, 0x63#8, 0x64#8, 0x25#8] = false ∧
    exactLike .utf8 [0x78#8, 0x63#8, 0x64#8] [0x25#8, 0x61#8, 0x62#8, 0x7C#8, 0x7C#8, 0x63#8, 0x64#8, 0x25#8] = true := by
  decide +kernel

end BaikalDB.Segment
