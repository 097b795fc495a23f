import Verif.Segment.Spec
import Mathlib.Tactic.Common
import Mathlib.Data.List.Basic
import Mathlib.Data.List.Infix

/-!
# The terms of a text: the loop over its windows
-/

namespace BaikalDB.Segment
open BaikalDB.Like (Charset)
open BaikalDB.Segment.Spec (IsChar Text Cut low body IsTerm)

theorem charLen_eq (cs : Charset) (b : Byte) : charLen cs b = Spec.leadLen cs b := by
  cases cs <;> revert b <;> decide +kernel

theorem leadLen_pos (cs : Charset) (b : Byte) : 0 < Spec.leadLen cs b := by
  cases cs <;> revert b <;> decide +kernel

/-- A character is as long as its first byte says. -/
theorem char_len {cs : Charset} {c : Bytes} (h : IsChar cs c) : ∃ b r, c = b :: r ∧ charLen cs b = c.length := by
  obtain ⟨h, hb, h8⟩ := h
  simp only [charLen_eq]
  cases cs with
  | binary => exact absurd rfl hb
  | utf8 =>
    simp only [Spec.leadLen]
    rcases h with ⟨b, rfl, h⟩ | ⟨b, x, rfl, h, h', _⟩ | ⟨b, x, y, rfl, h, h', _⟩ | ⟨b, x, y, z, rfl, h, _⟩
    · exact ⟨b, _, rfl, by rw [if_pos (by omega)]; rfl⟩
    · exact ⟨b, _, rfl, by rw [if_neg (by omega), if_pos (by omega)]; rfl⟩
    · exact ⟨b, _, rfl, by rw [if_neg (by omega), if_neg (by omega), if_pos (by omega)]; rfl⟩
    · have := h8 rfl b (by simp)
      exact ⟨b, _, rfl, by rw [if_neg (by omega), if_neg (by omega), if_neg (by omega), if_pos (by omega)]; rfl⟩
  | gbk =>
    simp only [Spec.leadLen]
    rcases h with ⟨b, rfl, h⟩ | ⟨b, x, rfl, h, _⟩
    · exact ⟨b, _, rfl, by rw [if_pos (by omega)]; rfl⟩
    · exact ⟨b, _, rfl, by rw [if_neg (by omega)]; rfl⟩

theorem char_ne {cs : Charset} {c : Bytes} (h : IsChar cs c) : c ≠ [] := by
  obtain ⟨b, r, rfl, _⟩ := char_len h
  simp

theorem adv_char {cs : Charset} {c : Bytes} (h : IsChar cs c) (s : Bytes) : adv cs (c ++ s) = c.length := by
  obtain ⟨b, r, rfl, hl⟩ := char_len h
  show (if charLen cs b < ((b :: r) ++ s).length then charLen cs b else ((b :: r) ++ s).length) = (b :: r).length
  rw [hl]
  simp only [List.length_append]
  split <;> omega

theorem take_char {cs : Charset} {c : Bytes} (h : IsChar cs c) (s : Bytes) : (c ++ s).take (adv cs (c ++ s)) = c := by
  rw [adv_char h, List.take_left]

theorem drop_char {cs : Charset} {c : Bytes} (h : IsChar cs c) (s : Bytes) : (c ++ s).drop (adv cs (c ++ s)) = s := by
  rw [adv_char h, List.drop_left]

/-- Characters are a cut of their text. -/
theorem cut_of_chars {cs : Charset} {l : List Bytes} (h : ∀ c ∈ l, IsChar cs c) : Cut cs l := by
  induction l with
  | nil => exact trivial
  | cons c l ih =>
    obtain ⟨b, r, hbr, hl⟩ := char_len (h c (by simp))
    exact ⟨⟨b, r, hbr, .inl (by rw [← hl, charLen_eq])⟩, ih fun d hd => h d (by simp [hd])⟩

theorem cut_ne {cs : Charset} {c : Bytes} {l : List Bytes} (h : Cut cs (c :: l)) : c ≠ [] := by
  obtain ⟨⟨b, r, rfl, _⟩, _⟩ := h
  simp

theorem adv_cut {cs : Charset} {c : Bytes} {l : List Bytes} (h : Cut cs (c :: l)) : adv cs (c ++ l.flatten) = c.length := by
  obtain ⟨⟨b, r, rfl, hl⟩, _⟩ := h
  show (if charLen cs b < ((b :: r) ++ l.flatten).length then charLen cs b else ((b :: r) ++ l.flatten).length) = (b :: r).length
  rw [charLen_eq]
  rcases hl with hl | ⟨rfl, hl⟩
  · rw [← hl]
    simp only [List.length_append]
    split <;> omega
  · simp only [List.flatten_nil, List.append_nil]
    split <;> omega

theorem take_cut {cs : Charset} {c : Bytes} {l : List Bytes} (h : Cut cs (c :: l)) :
    (c ++ l.flatten).take (adv cs (c ++ l.flatten)) = c := by
  rw [adv_cut h, List.take_left]

theorem drop_cut {cs : Charset} {c : Bytes} {l : List Bytes} (h : Cut cs (c :: l)) :
    (c ++ l.flatten).drop (adv cs (c ++ l.flatten)) = l.flatten := by
  rw [adv_cut h, List.drop_left]

theorem toLower_small (b : Byte) (h : b.toNat ≤ 0x7F) : (toLower b).toNat ≤ 0x7F := by
  revert b; decide +kernel

theorem low_one (b : Byte) : low [b] = [toLower b] := by
  show (if 0x41 ≤ b.toNat ∧ b.toNat ≤ 0x5A then [b + 0x20#8] else [b]) = [toLower b]
  unfold toLower
  split <;> rfl

theorem low_long {c : Bytes} (h : c.length ≠ 1) : low c = c := by
  unfold low
  split
  · simp at h
  · rfl

theorem toLower_lead (cs : Charset) (b : Byte) (h : Spec.leadLen cs b ≠ 1) : toLower b = b := by
  cases cs <;> revert b <;> decide +kernel

theorem lowerHead_cut {cs : Charset} {c : Bytes} {l : List Bytes} (h : Cut cs (c :: l)) : lowerHead cs c = low c := by
  obtain ⟨⟨b, r, rfl, hl⟩, _⟩ := h
  show (if charLen cs b = 1 then toLower b :: r else b :: r) = _
  rw [charLen_eq]
  cases r with
  | nil =>
    rw [low_one]
    split
    · rfl
    · rename_i hne
      rw [toLower_lead cs b hne]
  | cons d r =>
    have h2 : (b :: d :: r).length ≠ 1 := by simp
    have h3 : Spec.leadLen cs b ≠ 1 := by
      simp only [List.length_cons] at hl
      omega
    rw [if_neg h3, low_long h2]

theorem low_char {cs : Charset} {c : Bytes} (h : IsChar cs c) : IsChar cs (low c) := by
  by_cases h1 : c.length = 1
  · obtain ⟨b, rfl⟩ := List.length_eq_one_iff.1 h1
    rw [low_one]
    obtain ⟨h, hb, h8⟩ := h
    cases cs with
    | binary => exact absurd rfl hb
    | utf8 =>
      have hs : b.toNat ≤ 0x7F := by
        rcases h with ⟨b', he, h⟩ | ⟨b', x, he, _⟩ | ⟨b', x, y, he, _⟩ | ⟨b', x, y, z, he, _⟩
        · simp only [List.cons.injEq, and_true] at he; subst he; exact h
        all_goals simp at he
      have hs' := toLower_small b hs
      exact ⟨.inl ⟨_, rfl, hs'⟩, hb, fun _ x hx => by
        rw [List.mem_singleton] at hx; subst hx; omega⟩
    | gbk =>
      have hs : b.toNat ≤ 0x7F := by
        rcases h with ⟨b', he, h⟩ | ⟨b', x, he, _⟩
        · simp only [List.cons.injEq, and_true] at he; subst he; exact h
        all_goals simp at he
      exact ⟨.inl ⟨_, rfl, toLower_small b hs⟩, hb, fun hh => by cases hh⟩
  · rw [low_long h1]; exact h

theorem leadLen_toLower (cs : Charset) (b : Byte) : Spec.leadLen cs (toLower b) = Spec.leadLen cs b := by
  cases cs <;> revert b <;> decide +kernel

theorem low_head {c : Bytes} {b : Byte} {r : Bytes} (h : c = b :: r) :
    ∃ b' r', low c = b' :: r' ∧ (low c).length = c.length ∧ (b' = b ∨ b' = toLower b) := by
  subst h
  cases r with
  | nil => exact ⟨toLower b, [], low_one b, by rw [low_one]; rfl, .inr rfl⟩
  | cons d r => exact ⟨b, d :: r, low_long (by simp), by rw [low_long (by simp)], .inl rfl⟩

/-- The first characters. -/
theorem first_eq {cs : Charset} (n : Nat) {l : List Bytes} (h : Cut cs l) :
    first cs n l.flatten = (((l.take n).map low).flatten, (l.drop n).flatten) := by
  induction n generalizing l with
  | zero => simp [first]
  | succ n ih =>
    cases l with
    | nil => simp [first]
    | cons c l =>
      have ht := ih (l := l) h.2
      unfold first
      rw [List.flatten_cons, if_neg (by simp [cut_ne h]), take_cut h, drop_cut h, ht, lowerHead_cut h]
      simp

theorem infix_tail {α : Type} {a c r : List α} (ha : a ≠ []) (hl : c.length = a.length) :
    c <:+: a ++ r ↔ c = a ∨ c <:+: (a ++ r).tail := by
  cases a with
  | nil => exact absurd rfl ha
  | cons x a =>
    rw [List.cons_append, List.infix_cons_iff, List.tail_cons]
    refine or_congr_left ⟨fun h => ?_, fun h => ?_⟩
    · rw [← List.cons_append] at h
      have h2 := List.prefix_of_prefix_length_le h (List.prefix_append (x :: a) r) (le_of_eq hl)
      exact h2.eq_of_length hl
    · subst h
      rw [← List.cons_append]
      exact List.prefix_append _ _

theorem cut_right {cs : Charset} {a b : List Bytes} (h : Cut cs (a ++ b)) : Cut cs b := by
  induction a with
  | nil => exact h
  | cons c a ih => exact ih h.2

/-- A character in lower case is cut off the same way. -/
theorem cut_low {cs : Charset} {a b : List Bytes} {d : Bytes} (h : Cut cs (a ++ d :: b)) : Cut cs (a ++ ([low d] ++ b)) := by
  induction a with
  | nil =>
    obtain ⟨⟨x, r, hd, hl⟩, h2⟩ := h
    obtain ⟨x', r', e, elen, hx⟩ := low_head hd
    have hlead : Spec.leadLen cs x' = Spec.leadLen cs x := by
      rcases hx with rfl | rfl
      · rfl
      · exact leadLen_toLower cs x
    refine ⟨⟨x', r', e, ?_⟩, h2⟩
    rw [elen, hlead]
    exact hl
  | cons c a ih =>
    obtain ⟨⟨x, r, hd, hl⟩, h2⟩ := h
    refine ⟨⟨x, r, hd, hl.imp id fun hh => ?_⟩, ih h2⟩
    exact absurd hh.1 (by simp)

theorem cut_map {cs : Charset} {a b : List Bytes} (h : Cut cs (a ++ b)) : Cut cs (a.map low ++ b) := by
  induction a with
  | nil => exact h
  | cons c a ih =>
    have h1 := cut_low (a := []) (d := c) (b := a ++ b) h
    obtain ⟨⟨x, r, hd, hl⟩, h2⟩ := h1
    refine ⟨⟨x, r, hd, hl.imp id fun hh => ⟨?_, hh.2⟩⟩, ih h.2⟩
    have : a ++ b = [] := hh.1
    have h3 := List.append_eq_nil_iff.1 this
    simp [h3.1, h3.2]

/-- The windows after the first. -/
theorem loop_mem {cs : Charset} (f : Nat) {a b : List Bytes} (ha : a ≠ []) (hcut : Cut cs (a ++ b)) (hf : b.flatten.length ≤ f)
    (x : Bytes) : x ∈ loop cs f a.flatten b.flatten ↔ ∃ c, c <:+: (a ++ b.map low).tail ∧ c.length = a.length ∧ x = c.flatten := by
  induction f generalizing a b with
  | zero =>
    have hb : b = [] := by
      cases b with
      | nil => rfl
      | cons c b =>
        have := cut_ne (cut_right hcut)
        have := List.length_pos_iff.2 this
        rw [List.flatten_cons, List.length_append] at hf
        omega
    subst hb
    simp only [loop, List.not_mem_nil, List.map_nil, List.append_nil, false_iff]
    rintro ⟨c, hc, hl, _⟩
    have := hc.length_le
    have hp := List.length_pos_iff.2 ha
    rw [List.length_tail] at this
    omega
  | succ f ih =>
    cases b with
    | nil =>
      simp only [loop, List.flatten_nil, if_true, List.not_mem_nil, List.map_nil, List.append_nil, false_iff]
      rintro ⟨c, hc, hl, _⟩
      have := hc.length_le
      have hp := List.length_pos_iff.2 ha
      rw [List.length_tail] at this
      omega
    | cons d b =>
      cases a with
      | nil => exact absurd rfl ha
      | cons y a =>
        have hd : Cut cs (d :: b) := cut_right hcut
        have hy : Cut cs (y :: (a ++ d :: b)) := hcut
        unfold loop
        simp only [List.flatten_cons]
        rw [if_neg (by simp [cut_ne hd]), take_cut hd, drop_cut hd, lowerHead_cut hd]
        have e : (y ++ a.flatten).drop (adv cs (y ++ a.flatten ++ (d ++ b.flatten))) = a.flatten := by
          have : y ++ a.flatten ++ (d ++ b.flatten) = y ++ (a ++ d :: b).flatten := by simp
          rw [this, adv_cut hy, List.drop_left]
        rw [e]
        have e2 : a.flatten ++ low d = (a ++ [low d]).flatten := by simp
        rw [e2, List.mem_cons]
        have hcut' : Cut cs (a ++ [low d] ++ b) := by
          rw [List.append_assoc]
          exact cut_low hy.2
        have hlen : b.flatten.length ≤ f := by
          have := List.length_pos_iff.2 (cut_ne hd)
          rw [List.flatten_cons, List.length_append] at hf
          omega
        rw [ih (a := a ++ [low d]) (b := b) (by simp) hcut' hlen]
        have e3 : ((y :: a) ++ (d :: b).map low).tail = (a ++ [low d]) ++ b.map low := by simp
        rw [e3]
        have hl : (a ++ [low d]).length = (y :: a).length := by simp
        rw [← hl]
        constructor
        · rintro (rfl | ⟨c, hc, h1, h2⟩)
          · exact ⟨a ++ [low d], (infix_tail (by simp) rfl).2 (.inl rfl), rfl, rfl⟩
          · exact ⟨c, (infix_tail (by simp) h1).2 (.inr hc), h1, h2⟩
        · rintro ⟨c, hc, h1, h2⟩
          rcases (infix_tail (by simp) h1).1 hc with rfl | hc
          · exact .inl h2
          · exact .inr ⟨c, hc, h1, h2⟩

/-- A text begins with the bytes of a byte order mark if its first character is one. -/
theorem bom_eq {cs : Charset} {l : List Bytes} (h : Cut cs l) :
    l.flatten.drop (bomLen cs l.flatten) = (if cs = .utf8 ∧ l.head? = some [0xEF#8, 0xBB#8, 0xBF#8] then l.tail else l).flatten := by
  unfold bomLen
  by_cases hcs : cs = .utf8
  · subst hcs
    cases l with
    | nil => simp
    | cons c l =>
      have hiff : ((c :: l).flatten.take 3 = [0xEF#8, 0xBB#8, 0xBF#8]) ↔ c = [0xEF#8, 0xBB#8, 0xBF#8] := by
        rw [List.flatten_cons]
        constructor
        · intro he
          obtain ⟨⟨b, r, rfl, hlen⟩, _⟩ := h
          have hb : b = 0xEF#8 := by
            rw [List.cons_append, List.take_succ_cons] at he
            exact (List.cons.inj he).1
          subst hb
          have hl3 : Spec.leadLen .utf8 0xEF#8 = 3 := by decide
          rw [hl3] at hlen
          have h3 : (0xEF#8 :: r).length = 3 := by
            rcases hlen with hlen | ⟨rfl, hlen⟩
            · exact hlen
            · have := congrArg List.length he
              rw [List.flatten_nil, List.append_nil, List.length_take] at this
              simp only [List.length_cons, List.length_nil] at this hlen ⊢
              omega
          have : ((0xEF#8 :: r) ++ l.flatten).take 3 = 0xEF#8 :: r := by rw [← h3, List.take_left]
          rw [this] at he
          exact he
        · rintro rfl
          rfl
      by_cases hbom : c = [0xEF#8, 0xBB#8, 0xBF#8]
      · rw [if_pos ⟨rfl, hiff.2 hbom⟩, if_pos ⟨rfl, by rw [hbom]; rfl⟩]
        subst hbom
        rfl
      · rw [if_neg (fun hh => hbom (hiff.1 hh.2)), if_neg (by
          rintro ⟨_, hh⟩
          rw [List.head?_cons, Option.some.injEq] at hh
          exact hbom hh)]
        rfl
  · rw [if_neg (fun hh => hcs hh.1), if_neg (fun hh => hcs hh.1)]
    rfl

theorem cut_eq_nil {cs : Charset} {l : List Bytes} (h : Cut cs l) : l.flatten = [] ↔ l = [] := by
  cases l with
  | nil => simp
  | cons c l => simp [cut_ne h]

theorem flatten_eq_nil {cs : Charset} {l : List Bytes} (h : ∀ c ∈ l, IsChar cs c) : l.flatten = [] ↔ l = [] := by
  cases l with
  | nil => simp
  | cons c l => simp [char_ne (h c (by simp))]

theorem simpleSeg_mem {cs : Charset} (punct : Bytes → Bool) {n : Nat} (hn : 0 < n) {l : List Bytes} (h : Cut cs l) (x : Bytes) :
    x ∈ simpleSeg cs punct n l.flatten ↔ IsTerm cs punct n l x := by
  unfold simpleSeg IsTerm
  by_cases hl : l = []
  · subst hl; simp
  rw [if_neg (fun he => hl ((cut_eq_nil h).1 he))]
  simp only [bom_eq h]
  unfold body
  generalize hm : (if cs = .utf8 ∧ l.head? = some [0xEF#8, 0xBB#8, 0xBF#8] then l.tail else l) = m
  have hmc : Cut cs m := by
    rw [← hm]
    split
    · cases l with
      | nil => exact trivial
      | cons c l => exact h.2
    · exact h
  rw [first_eq n hmc]
  have hmc' : Cut cs (m.take n ++ m.drop n) := by rw [List.take_append_drop]; exact hmc
  have hd : Cut cs (m.drop n) := cut_right hmc'
  simp only [cut_eq_nil hd, List.drop_eq_nil_iff, List.length_map]
  by_cases hle : m.length ≤ n
  · rw [if_pos hle, List.take_of_length_le hle]
    simp [hl, hle]
  · rw [if_neg hle]
    have hlt : n < m.length := by omega
    have hlen : ((m.take n).map low).length = n := by simp; omega
    have hne : (m.take n).map low ≠ [] := by
      intro he
      rw [he] at hlen
      simp at hlen
      omega
    rw [List.mem_filter, List.mem_cons, loop_mem _ hne (cut_map hmc') (le_refl _)]
    have e : (m.take n).map low ++ (m.drop n).map low = m.map low := by
      rw [← List.map_append, List.take_append_drop]
    simp only [hl, ne_eq, not_false_eq_true, true_and, hlt, Bool.not_eq_true', hlen]
    have hno : ¬ m.length ≤ n := hle
    simp only [hno, false_and, false_or]
    rw [e]
    constructor
    · rintro ⟨rfl | ⟨c, hc, h1, h2⟩, hp⟩
      · refine ⟨_, ?_, hlen, rfl, hp⟩
        rw [← e]
        exact ⟨[], _, rfl⟩
      · refine ⟨c, ?_, h1, h2, hp⟩
        rw [← e, infix_tail hne (by rw [h1, hlen]), e]
        exact .inr hc
    · rintro ⟨c, hc, h1, h2, hp⟩
      rw [← e, infix_tail hne (by rw [h1, hlen]), e] at hc
      rcases hc with rfl | hc
      · exact ⟨.inl h2, hp⟩
      · exact ⟨.inr ⟨c, hc, h1, h2⟩, hp⟩

end BaikalDB.Segment
