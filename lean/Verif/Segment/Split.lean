import Verif.Segment.Terms
import Verif.Like.Props

/-!
# The pieces of a pattern, and what EXACT LIKE selects
-/

namespace BaikalDB.Segment
open BaikalDB.Like (Charset)
open BaikalDB.Segment.Spec (IsChar Text low body IsTerm Plain Word bars pattern Occurs Long)

/-- The '%' and '|' bytes are characters by themselves only. -/
theorem char_head {cs : Charset} {c : Bytes} (h : IsChar cs c) {x : Byte} (hx : x.toNat ≤ 0x7F) (hh : c.head? = some x) : c = [x] := by
  obtain ⟨h, hb, h8⟩ := h
  cases cs with
  | binary => exact absurd rfl hb
  | utf8 =>
    rcases h with ⟨b, rfl, h⟩ | ⟨b, y, rfl, h, h', _⟩ | ⟨b, y, z, rfl, h, h', _⟩ | ⟨b, y, z, w, rfl, h, _⟩ <;>
      simp only [List.head?_cons, Option.some.injEq] at hh <;> subst hh
    · rfl
    all_goals omega
  | gbk =>
    rcases h with ⟨b, rfl, h⟩ | ⟨b, y, rfl, h, _⟩ <;>
      simp only [List.head?_cons, Option.some.injEq] at hh <;> subst hh
    · rfl
    all_goals omega

theorem char_last {cs : Charset} {c : Bytes} (h : IsChar cs c) {x : Byte} (hx : x.toNat < 0x40) (hh : c.getLast? = some x) : c = [x] := by
  obtain ⟨h, hb, h8⟩ := h
  cases cs with
  | binary => exact absurd rfl hb
  | utf8 =>
    rcases h with ⟨b, rfl, h⟩ | ⟨b, y, rfl, h, h', h1⟩ | ⟨b, y, z, rfl, h, h', _, h1⟩ | ⟨b, y, z, w, rfl, h, _, _, h1⟩
    · simp at hh; rw [hh]
    all_goals
      simp [List.getLast?_cons] at hh
      subst hh
      unfold Like.Spec.Cont at h1
      omega
  | gbk =>
    rcases h with ⟨b, rfl, h⟩ | ⟨b, y, rfl, h, h', h1⟩
    · simp at hh; rw [hh]
    all_goals
      simp [List.getLast?_cons] at hh
      subst hh
      omega

theorem word_head {cs : Charset} {w : List Bytes} (h : Word cs w) (s : Bytes) : (w.flatten ++ s).head? ≠ some 0x25#8 := by
  obtain ⟨hne, h, _⟩ := h
  cases w with
  | nil => exact absurd rfl hne
  | cons c w =>
    obtain ⟨hc, hp⟩ := h c (by simp)
    intro hh
    rw [List.flatten_cons, List.append_assoc, List.head?_append_of_ne_nil _ (char_ne hc)] at hh
    exact hp.2.1 (char_head hc (by decide) hh)

theorem word_flatten_ne {cs : Charset} {w : List Bytes} (h : Word cs w) : w.flatten ≠ [] := by
  intro he
  exact h.1 ((flatten_eq_nil fun c hc => (h.2.1 c hc).1).1 he)

theorem word_last {cs : Charset} {w : List Bytes} (h : Word cs w) : w.flatten.getLast? ≠ some 0x25#8 := by
  obtain ⟨hne, h, _⟩ := h
  obtain ⟨v, c, rfl⟩ := List.eq_nil_or_concat w |>.resolve_left hne
  obtain ⟨hc, hp⟩ := h c (by simp)
  intro hh
  rw [List.concat_eq_append, List.flatten_append, List.flatten_singleton, List.getLast?_append_of_ne_nil _ (char_ne hc)] at hh
  exact hp.2.1 (char_last hc (by decide) hh)

theorem word_noBar {cs : Charset} {w : List Bytes} (h : Word cs w) : 0x7C#8 ∉ w.flatten := by
  intro hm
  obtain ⟨c, hc, hb⟩ := List.mem_flatten.1 hm
  exact (h.2.1 c hc).2.1 hb

/-! ### split_str -/

/-- Characters that are not the delimiter are added to the piece. -/
theorem pieces_word {cs : Charset} {w : List Bytes} (hc : ∀ c ∈ w, IsChar cs c ∧ 0x7C#8 ∉ c) (f : Nat) (cur s : Bytes)
    (hf : (w.flatten ++ s).length ≤ f) :
    ∃ f', s.length ≤ f' ∧ pieces cs 0x7C#8 f cur (w.flatten ++ s) = pieces cs 0x7C#8 f' (cur ++ w.flatten) s := by
  induction w generalizing f cur with
  | nil => exact ⟨f, by simpa using hf, by simp⟩
  | cons c w ih =>
    obtain ⟨h1, h2⟩ := hc c (by simp)
    obtain ⟨b, r, hbr, _⟩ := char_len h1
    have hlen := List.length_pos_iff.2 (char_ne h1)
    rw [List.flatten_cons, List.append_assoc] at hf ⊢
    cases f with
    | zero => simp at hf; exact absurd hf.1 (char_ne h1)
    | succ f =>
      have e : pieces cs 0x7C#8 (f + 1) cur (c ++ (w.flatten ++ s)) = pieces cs 0x7C#8 f (cur ++ c) (w.flatten ++ s) := by
        have hb : b ≠ 0x7C#8 := by
          rintro rfl
          exact h2 (by rw [hbr]; simp)
        have e1 : pieces cs 0x7C#8 (f + 1) cur (c ++ (w.flatten ++ s)) =
            pieces cs 0x7C#8 f (cur ++ (c ++ (w.flatten ++ s)).take (adv cs (c ++ (w.flatten ++ s))))
              ((c ++ (w.flatten ++ s)).drop (adv cs (c ++ (w.flatten ++ s)))) := by
          subst hbr
          show (if b = 0x7C#8 then _ else _) = _
          rw [if_neg hb]
        rw [e1, take_char h1, drop_char h1]
      rw [e]
      obtain ⟨f', h3, h4⟩ := ih (fun d hd => hc d (by simp [hd])) f (cur ++ c) (by
        rw [List.length_append] at hf
        omega)
      exact ⟨f', h3, by rw [h4, List.append_assoc]⟩

theorem pieces_bars {cs : Charset} {ws : List (List Bytes)} (hne : ws ≠ []) (h : ∀ w ∈ ws, Word cs w) (f : Nat) (hf : (bars ws).length ≤ f) :
    pieces cs 0x7C#8 f [] (bars ws) = ws.map List.flatten := by
  induction ws generalizing f with
  | nil => exact absurd rfl hne
  | cons w ws ih =>
    have hw := h w (by simp)
    have hp : ∀ c ∈ w, IsChar cs c ∧ 0x7C#8 ∉ c := fun c hc => ⟨(hw.2.1 c hc).1, (hw.2.1 c hc).2.1⟩
    have hemit : emit w.flatten = [w.flatten] := if_neg (word_flatten_ne hw)
    cases ws with
    | nil =>
      have e : bars [w] = w.flatten ++ [] := by simp [bars]
      rw [e] at hf ⊢
      obtain ⟨f', _, h4⟩ := pieces_word hp f [] [] hf
      rw [h4, List.nil_append]
      cases f' <;> simp [pieces, hemit]
    | cons v ws =>
      have e : bars (w :: v :: ws) = w.flatten ++ (0x7C#8 :: bars (v :: ws)) := rfl
      rw [e] at hf ⊢
      obtain ⟨f', h3, h4⟩ := pieces_word hp f [] _ hf
      rw [h4, List.nil_append]
      cases f' with
      | zero => simp at h3
      | succ f' =>
        have e2 : pieces cs 0x7C#8 (f' + 1) w.flatten (0x7C#8 :: bars (v :: ws)) = emit w.flatten ++ pieces cs 0x7C#8 f' [] (bars (v :: ws)) := by
          simp [pieces]
        rw [e2, hemit, ih (by simp) (fun u hu => h u (by simp [hu])) f' (by simpa using h3)]
        rfl

theorem bars_ne {cs : Charset} {ws : List (List Bytes)} (hne : ws ≠ []) (h : ∀ w ∈ ws, Word cs w) : bars ws ≠ [] := by
  cases ws with
  | nil => exact absurd rfl hne
  | cons w ws =>
    cases ws with
    | nil => exact word_flatten_ne (h w (by simp))
    | cons v ws => simp [bars]

theorem bars_head {cs : Charset} {ws : List (List Bytes)} (hne : ws ≠ []) (h : ∀ w ∈ ws, Word cs w) (s : Bytes) :
    (bars ws ++ s).head? ≠ some 0x25#8 := by
  cases ws with
  | nil => exact absurd rfl hne
  | cons w ws =>
    cases ws with
    | nil => exact word_head (h w (by simp)) s
    | cons v ws =>
      have e : bars (w :: v :: ws) ++ s = w.flatten ++ ((0x7C#8 :: bars (v :: ws)) ++ s) := by simp [bars]
      rw [e]
      exact word_head (h w (by simp)) _

theorem bars_last {cs : Charset} {ws : List (List Bytes)} (hne : ws ≠ []) (h : ∀ w ∈ ws, Word cs w) :
    (bars ws).getLast? ≠ some 0x25#8 := by
  induction ws with
  | nil => exact absurd rfl hne
  | cons w ws ih =>
    cases ws with
    | nil => exact word_last (h w (by simp))
    | cons v ws =>
      have hv := bars_ne (ws := v :: ws) (by simp) (fun u hu => h u (by simp [hu]))
      have e : bars (w :: v :: ws) = (w.flatten ++ [0x7C#8]) ++ bars (v :: ws) := by simp [bars]
      rw [e, List.getLast?_append_of_ne_nil _ hv]
      exact ih (by simp) (fun u hu => h u (by simp [hu]))

theorem bars_bom {cs : Charset} {ws : List (List Bytes)} (hne : ws ≠ []) (h : ∀ w ∈ ws, Word cs w) (s : Bytes) :
    bomLen cs (bars ws ++ s) = 0 := by
  unfold bomLen
  refine if_neg ?_
  rintro ⟨rfl, he⟩
  cases ws with
  | nil => exact absurd rfl hne
  | cons w ws =>
    obtain ⟨hw, hc, hb⟩ := h w (by simp)
    cases w with
    | nil => exact absurd rfl hw
    | cons c w =>
      have hcc := (hc c (by simp)).1
      obtain ⟨s', e⟩ : ∃ s', bars ((c :: w) :: ws) ++ s = c ++ s' := by
        cases ws with
        | nil => exact ⟨w.flatten ++ s, by simp [bars]⟩
        | cons v ws => exact ⟨w.flatten ++ (0x7C#8 :: bars (v :: ws)) ++ s, by simp [bars]⟩
      rw [e] at he
      obtain ⟨b, r, rfl, hlen⟩ := char_len hcc
      have hb' : b = 0xEF#8 := by
        rw [List.cons_append, List.take_succ_cons] at he
        exact (List.cons.inj he).1
      subst hb'
      have h3 : (0xEF#8 :: r).length = 3 := by rw [← hlen]; decide
      have : ((0xEF#8 :: r) ++ s').take 3 = 0xEF#8 :: r := by rw [← h3, List.take_left]
      rw [this] at he
      exact hb rfl (by rw [he]; rfl)

/-- What is cut off a pattern. -/
theorem bare_pattern {cs : Charset} {ws : List (List Bytes)} (hne : ws ≠ []) (h : ∀ w ∈ ws, Word cs w) (pre post : Bool) :
    bare cs (pattern pre post ws) = bars ws := by
  have hb : bomLen cs (pattern pre post ws) = 0 := by
    unfold pattern
    cases pre with
    | false => simpa using bars_bom hne h (if post = true then [0x25#8] else [])
    | true =>
      unfold bomLen
      refine if_neg ?_
      rintro ⟨_, he⟩
      simp at he
  unfold bare
  simp only [hb, List.drop_zero]
  have h1 : (if (pattern pre post ws).head? = some 0x25#8 then (pattern pre post ws).tail else pattern pre post ws) =
      bars ws ++ (if post = true then [0x25#8] else []) := by
    unfold pattern
    cases pre with
    | false =>
      simp only [Bool.false_eq_true, if_false, List.nil_append]
      rw [if_neg (bars_head hne h _)]
    | true => simp
  rw [h1]
  cases post with
  | false => simp [bars_last hne h]
  | true => simp

theorem splitStr_pattern {cs : Charset} {ws : List (List Bytes)} (hne : ws ≠ []) (h : ∀ w ∈ ws, Word cs w) (pre post : Bool) :
    splitStr cs 0x7C#8 (pattern pre post ws) = ws.map List.flatten := by
  unfold splitStr
  rw [bare_pattern hne h, if_neg, pieces_bars hne h _ (le_refl _)]
  unfold pattern
  simp [bars_ne hne h]

/-! ### EXACT LIKE -/

theorem splitBar_ne (s : Bytes) : splitBar s ≠ [] := by
  cases s with
  | nil => simp [splitBar]
  | cons c r =>
    unfold splitBar
    split
    · simp
    · split <;> simp

theorem splitBar_app {a : Bytes} (ha : 0x7C#8 ∉ a) (s : Bytes) : splitBar (a ++ 0x7C#8 :: s) = a :: splitBar s := by
  induction a with
  | nil => simp [splitBar]
  | cons c a ih =>
    have hc : c ≠ 0x7C#8 := fun he => ha (by rw [he]; simp)
    rw [List.cons_append, splitBar, if_neg hc, ih (fun hm => ha (by simp [hm]))]

theorem splitBar_self {a : Bytes} (ha : 0x7C#8 ∉ a) : splitBar a = [a] := by
  induction a with
  | nil => simp [splitBar]
  | cons c a ih =>
    have hc : c ≠ 0x7C#8 := fun he => ha (by rw [he]; simp)
    rw [splitBar, if_neg hc, ih (fun hm => ha (by simp [hm]))]

/-- The parts of a pattern. -/
def parts (post : Bool) : List (List Bytes) → List Bytes
  | [] => []
  | [w] => [w.flatten ++ (if post then [0x25#8] else [])]
  | w :: v :: r => w.flatten :: parts post (v :: r)

theorem splitBar_bars {cs : Charset} {ws : List (List Bytes)} (hne : ws ≠ []) (h : ∀ w ∈ ws, Word cs w) (post : Bool) :
    splitBar (bars ws ++ (if post = true then [0x25#8] else [])) = parts post ws := by
  induction ws with
  | nil => exact absurd rfl hne
  | cons w ws ih =>
    have hw := word_noBar (h w (by simp))
    cases ws with
    | nil =>
      simp only [bars, parts]
      refine splitBar_self ?_
      intro hm
      rcases List.mem_append.1 hm with hm | hm
      · exact hw hm
      · cases post <;> simp at hm
    | cons v ws =>
      simp only [bars, parts, List.append_assoc, List.cons_append]
      rw [splitBar_app hw, ih (by simp) (fun u hu => h u (by simp [hu]))]

/-- '%' or nothing. -/
def pct (b : Bool) : Bytes := if b then [0x25#8] else []

theorem widen_word {cs : Charset} {w : List Bytes} (h : Word cs w) (pre post a b : Bool) (ha : a = true → pre = true) (hb : b = true → post = true) :
    widen pre post (pct a ++ w.flatten ++ pct b) = pct pre ++ w.flatten ++ pct post := by
  have hne := word_flatten_ne h
  have hh : ∀ s : Bytes, (w.flatten ++ s).head? ≠ some 0x25#8 := word_head h
  have hl := word_last h
  have hl' : ∀ s : Bytes, (s ++ w.flatten).getLast? ≠ some 0x25#8 := by
    intro s
    rw [List.getLast?_append_of_ne_nil _ hne]; exact hl
  have h0 : (w.flatten).head? ≠ some 0x25#8 := by simpa using hh []
  unfold widen
  rw [if_neg (by simp [hne])]
  have e1 : (if pre = true ∧ (pct a ++ w.flatten ++ pct b).head? ≠ some 0x25#8 then 0x25#8 :: (pct a ++ w.flatten ++ pct b)
      else pct a ++ w.flatten ++ pct b) = pct pre ++ w.flatten ++ pct b := by
    cases pre with
    | false =>
      have : a = false := by cases a with | false => rfl | true => exact absurd (ha rfl) (by simp)
      subst this
      simp
    | true =>
      cases a with
      | true => simp [pct]
      | false =>
        have := hh (pct b)
        have e : pct false ++ w.flatten ++ pct b = w.flatten ++ pct b := by simp [pct]
        rw [e, if_pos ⟨rfl, this⟩]
        simp [pct]
  simp only [e1]
  cases post with
  | false =>
    have : b = false := by cases b with | false => rfl | true => exact absurd (hb rfl) (by simp)
    subst this
    simp
  | true =>
    cases b with
    | true => simp [pct]
    | false =>
      have e : pct pre ++ w.flatten ++ pct false = pct pre ++ w.flatten := by simp [pct]
      rw [e, if_pos ⟨rfl, hl' _⟩]
      simp [pct]

theorem parts_length (post : Bool) (ws : List (List Bytes)) : (parts post ws).length = ws.length := by
  induction ws with
  | nil => rfl
  | cons w ws ih =>
    cases ws with
    | nil => rfl
    | cons v ws => simp only [parts, List.length_cons] at ih ⊢; omega

theorem parts_last {cs : Charset} {ws : List (List Bytes)} (hne : ws ≠ []) (h : ∀ w ∈ ws, Word cs w) (post : Bool) :
    ((parts post ws).getLast?.bind List.getLast? = some 0x25#8) ↔ post = true := by
  induction ws with
  | nil => exact absurd rfl hne
  | cons w ws ih =>
    cases ws with
    | nil =>
      have hl := word_last (h w (by simp))
      cases post with
      | false => simp [parts, hl]
      | true => simp [parts]
    | cons v ws =>
      have hi := ih (by simp) (fun u hu => h u (by simp [hu]))
      have hp : parts post (v :: ws) ≠ [] := by
        intro he
        have := parts_length post (v :: ws)
        rw [he] at this
        simp at this
      have e : parts post (w :: v :: ws) = [w.flatten] ++ parts post (v :: ws) := rfl
      rw [e, List.getLast?_append_of_ne_nil _ hp]
      exact hi

theorem parts_widen {cs : Charset} {ws : List (List Bytes)} (h : ∀ w ∈ ws, Word cs w) (pre post : Bool) :
    (parts post ws).map (widen pre post) = ws.map fun w => pct pre ++ w.flatten ++ pct post := by
  induction ws with
  | nil => rfl
  | cons w ws ih =>
    have hw := h w (by simp)
    cases ws with
    | nil =>
      have := widen_word hw pre post false post (by simp) id
      simp only [parts, List.map_cons, List.map_nil, List.cons.injEq, and_true]
      simpa [pct] using this
    | cons v ws =>
      have := widen_word hw pre post false false (by simp) (by simp)
      have hi := ih (fun u hu => h u (by simp [hu]))
      simp only [parts, List.map_cons] at hi ⊢
      rw [hi]
      simp only [List.cons.injEq, and_true]
      simpa [pct] using this

/-- The patterns of EXACT LIKE: one for each string. -/
theorem exactPatterns_pattern {cs : Charset} {ws : List (List Bytes)} (hne : ws ≠ []) (h : ∀ w ∈ ws, Word cs w) (pre post : Bool) :
    exactPatterns (pattern pre post ws) = if ws.length = 1 then [] else ws.map fun w => pct pre ++ w.flatten ++ pct post := by
  cases ws with
  | nil => exact absurd rfl hne
  | cons w ws =>
    have hw := h w (by simp)
    have hbar : 0x7C#8 ∉ pct pre ++ w.flatten := by
      intro hm
      rcases List.mem_append.1 hm with hm | hm
      · cases pre <;> simp [pct] at hm
      · exact word_noBar hw hm
    cases ws with
    | nil =>
      rw [if_pos (show [w].length = 1 from rfl)]
      have e : pattern pre post [w] = pct pre ++ w.flatten ++ pct post := rfl
      have hs : splitBar (pattern pre post [w]) = [pattern pre post [w]] := by
        refine splitBar_self ?_
        rw [e]
        intro hm
        rcases List.mem_append.1 hm with hm | hm
        · exact hbar hm
        · cases post <;> simp [pct] at hm
      unfold exactPatterns
      simp [hs]
    | cons v ws =>
      rw [if_neg (by simp)]
      have hs : splitBar (pattern pre post (w :: v :: ws)) = (pct pre ++ w.flatten) :: parts post (v :: ws) := by
        have e : pattern pre post (w :: v :: ws) = (pct pre ++ w.flatten) ++ 0x7C#8 :: (bars (v :: ws) ++ (if post = true then [0x25#8] else [])) := by
          simp [pattern, bars, pct]
        rw [e, splitBar_app hbar, splitBar_bars (by simp) (fun u hu => h u (by simp [hu]))]
      have hplen := parts_length post (v :: ws)
      have hp : parts post (v :: ws) ≠ [] := by
        intro he
        rw [he] at hplen
        simp at hplen
      unfold exactPatterns
      simp only [hs]
      rw [if_pos (by rw [List.length_cons, hplen]; simp)]
      have e1 : decide (((pct pre ++ w.flatten) :: parts post (v :: ws)).head?.bind List.head? = some 0x25#8) = pre := by
        have h0 : (w.flatten).head? ≠ some 0x25#8 := by simpa using word_head hw []
        cases pre with
        | false => simpa [pct] using h0
        | true => simp [pct]
      have e2 : decide (((pct pre ++ w.flatten) :: parts post (v :: ws)).getLast?.bind List.getLast? = some 0x25#8) = post := by
        have e : (pct pre ++ w.flatten) :: parts post (v :: ws) = [pct pre ++ w.flatten] ++ parts post (v :: ws) := rfl
        rw [e, List.getLast?_append_of_ne_nil _ hp]
        have := parts_last (ws := v :: ws) (by simp) (fun u hu => h u (by simp [hu])) post
        cases post with
        | false => simpa using this
        | true => simpa using this
      rw [e1, e2, List.map_cons, parts_widen (fun u hu => h u (by simp [hu]))]
      have := widen_word hw pre post pre false id (by simp)
      simp only [pct, Bool.false_eq_true, if_false, List.append_nil] at this
      simp only [List.map_cons, List.cons.injEq, and_true]
      simpa [pct] using this

open BaikalDB.Like.Spec in
theorem toks_any (r : List Bytes) : toks ([0x25#8] :: r) = .any :: toks r := by
  rw [toks.eq_def]
  simp

open BaikalDB.Like.Spec in
theorem toks_plain {c : Bytes} (h : Plain c) (r : List Bytes) : toks (c :: r) = .lit c :: toks r := by
  obtain ⟨_, h1, h2, h3⟩ := h
  rw [toks.eq_def]
  simp [h1, h2, h3]

open BaikalDB.Like.Spec in
theorem matches_word (w p : List Bytes) (t : List Bytes) (hw : ∀ c ∈ w, Plain c) :
    Matches (toks (w ++ p)) t ↔ ∃ r, t = w ++ r ∧ Matches (toks p) r := by
  induction w generalizing t with
  | nil => simp
  | cons c w ih =>
    rw [List.cons_append, toks_plain (hw c (by simp))]
    simp only [Matches]
    constructor
    · rintro ⟨r, rfl, hr⟩
      obtain ⟨r', rfl, hr'⟩ := (ih r (fun d hd => hw d (by simp [hd]))).1 hr
      exact ⟨r', by simp, hr'⟩
    · rintro ⟨r, rfl, hr⟩
      exact ⟨w ++ r, by simp, (ih _ (fun d hd => hw d (by simp [hd]))).2 ⟨r, rfl, hr⟩⟩

open BaikalDB.Like.Spec (Matches toks) in
theorem likeOne_word {cs : Charset} {w l : List Bytes} {t : Bytes} (h : Word cs w) (ht : Text cs t l) (pre post : Bool) :
    Like.likeOne cs t (pct pre ++ w.flatten ++ pct post) = true ↔ Occurs pre post w l := by
  have hpct : Like.Spec.IsChar cs [0x25#8] := by
    cases cs
    · exact ⟨_, rfl⟩
    · exact .inl ⟨_, rfl, by decide⟩
    · exact .inl ⟨_, rfl, by decide⟩
  let P : List Bytes := (if pre then [[0x25#8]] else []) ++ (w ++ (if post then [[0x25#8]] else []))
  have hP : Like.Spec.Text cs (pct pre ++ w.flatten ++ pct post) P := by
    constructor
    · cases pre <;> cases post <;> simp [P, pct]
    · intro c hc
      simp only [P, List.mem_append] at hc
      rcases hc with hc | hc | hc
      · cases pre <;> simp at hc
        subst hc; exact hpct
      · exact (h.2.1 c hc).1.1
      · cases post <;> simp at hc
        subst hc; exact hpct
  have hT : Like.Spec.Text cs t l := ⟨ht.1, fun c hc => (ht.2 c hc).1⟩
  rw [Like.C26_like hT hP]
  have hplain : ∀ c ∈ w, Plain c := fun c hc => (h.2.1 c hc).2
  have hend : ∀ r, Matches (toks (if post then [[0x25#8]] else [])) r ↔ (post = false → r = []) := by
    intro r
    cases post with
    | false => simp [toks, Matches]
    | true =>
      simp only [if_true, toks_any, toks, Matches, Bool.true_eq_false, false_imp_iff, iff_true]
      exact ⟨r, [], by simp, rfl⟩
  have hmid : ∀ s, Matches (toks (w ++ (if post then [[0x25#8]] else []))) s ↔ ∃ b, s = w ++ b ∧ (post = false → b = []) := by
    intro s
    rw [matches_word w _ s hplain]
    simp only [hend]
  unfold Occurs
  cases pre with
  | false =>
    simp only [P, Bool.false_eq_true, if_false, List.nil_append, hmid]
    constructor
    · rintro ⟨b, rfl, hb⟩
      exact ⟨[], b, by simp, fun _ => rfl, hb⟩
    · rintro ⟨a, b, rfl, ha, hb⟩
      obtain rfl := ha trivial
      exact ⟨b, by simp, hb⟩
  | true =>
    have e : toks P = .any :: toks (w ++ (if post then [[0x25#8]] else [])) := by simp [P, toks_any]
    rw [e]
    simp only [Matches, hmid]
    constructor
    · rintro ⟨a, s, rfl, b, rfl, hb⟩
      exact ⟨a, b, by simp, by simp, hb⟩
    · rintro ⟨a, b, rfl, _, hb⟩
      exact ⟨a, w ++ b, by simp, b, rfl, hb⟩

theorem exactLike_pattern {cs : Charset} {ws : List (List Bytes)} (hne : ws ≠ []) (h : ∀ w ∈ ws, Word cs w) {t : Bytes} {l : List Bytes}
    (ht : Text cs t l) (pre post : Bool) : exactLike cs t (pattern pre post ws) = true ↔ ∃ w ∈ ws, Occurs pre post w l := by
  unfold exactLike
  rw [exactPatterns_pattern hne h]
  by_cases h1 : ws.length = 1
  · obtain ⟨w, rfl⟩ := List.length_eq_one_iff.1 h1
    rw [if_pos h1, if_pos rfl]
    have e : pattern pre post [w] = pct pre ++ w.flatten ++ pct post := rfl
    rw [e, likeOne_word (h w (by simp)) ht]
    simp
  · rw [if_neg h1, if_neg (by simpa using hne), List.any_eq_true]
    constructor
    · rintro ⟨x, hx, hl⟩
      obtain ⟨w, hw, rfl⟩ := List.mem_map.1 hx
      exact ⟨w, hw, (likeOne_word (h w hw) ht pre post).1 hl⟩
    · rintro ⟨w, hw, ho⟩
      exact ⟨_, List.mem_map.2 ⟨w, hw, rfl⟩, (likeOne_word (h w hw) ht pre post).2 ho⟩

end BaikalDB.Segment
