import Verif.Segment.Props

/-!
# C66: concrete cases
-/

namespace BaikalDB.Segment
open BaikalDB.Like (Charset)
open BaikalDB.Segment.Spec (IsChar Text low body IsTerm Plain Word bars pattern Occurs Long)

/-- `xABé` in UTF-8. -/
def sample : List Bytes := [[0x78#8], [0x41#8], [0x42#8], [0xC3#8, 0xA9#8]]

theorem sample_text : Text .utf8 sample.flatten sample := by
  refine ⟨rfl, fun c hc => ?_⟩
  simp only [sample, List.mem_cons, List.not_mem_nil, or_false] at hc
  rcases hc with rfl | rfl | rfl | rfl
  · exact ⟨.inl ⟨_, rfl, by decide⟩, by simp, fun _ => by decide⟩
  · exact ⟨.inl ⟨_, rfl, by decide⟩, by simp, fun _ => by decide⟩
  · exact ⟨.inl ⟨_, rfl, by decide⟩, by simp, fun _ => by decide⟩
  · exact ⟨.inr (.inl ⟨_, _, rfl, by decide, by decide, by unfold Like.Spec.Cont; decide⟩), by simp, fun _ => by decide⟩

/-- Its bigrams: `xa`, `ab`, `bé`. -/
example : simpleSeg .utf8 blank 2 sample.flatten = [[0x78#8, 0x61#8], [0x61#8, 0x62#8], [0x62#8, 0xC3#8, 0xA9#8]] := by decide +kernel

/-- The same with a byte order mark; its unigrams; and a text with blanks. -/
example : simpleSeg .utf8 blank 2 (0xEF#8 :: 0xBB#8 :: 0xBF#8 :: sample.flatten) = simpleSeg .utf8 blank 2 sample.flatten := by decide +kernel
example : simpleSeg .utf8 blank 1 [0x61#8, 0x20#8, 0x42#8] = [[0x61#8], [0x62#8]] := by decide +kernel
example : simpleSeg .gbk blank 1 [0x81#8, 0x41#8, 0x42#8] = [[0x81#8, 0x41#8], [0x62#8]] := by decide +kernel

/-- The strings `ABé` and `zz`. -/
def needles : List (List Bytes) := [[[0x41#8], [0x42#8], [0xC3#8, 0xA9#8]], [[0x7A#8], [0x7A#8]]]

theorem needles_word : ∀ w ∈ needles, Word .utf8 w := by
  intro w hw
  simp only [needles, List.mem_cons, List.not_mem_nil, or_false] at hw
  rcases hw with rfl | rfl
  · refine ⟨by simp, fun c hc => ⟨sample_text.2 c ?_, ?_⟩, by simp⟩
    · simp only [List.mem_cons, List.not_mem_nil, or_false] at hc
      simp only [sample, List.mem_cons, List.not_mem_nil, or_false]
      exact .inr hc
    · simp only [List.mem_cons, List.not_mem_nil, or_false] at hc
      rcases hc with rfl | rfl | rfl <;> exact ⟨by decide, by decide, by decide, by decide⟩
  · refine ⟨by simp, fun c hc => ?_, by simp⟩
    simp only [List.mem_cons, List.not_mem_nil, or_false, or_self] at hc
    subst hc
    exact ⟨⟨.inl ⟨_, rfl, by decide⟩, by simp, fun _ => by decide⟩, by decide, by decide, by decide, by decide⟩

theorem needles_long : ∀ w ∈ needles, Long .utf8 blank 2 w := by
  intro w hw
  simp only [needles, List.mem_cons, List.not_mem_nil, or_false] at hw
  rcases hw with rfl | rfl
  · exact ⟨[[0x61#8], [0x62#8]], ⟨[], [[0xC3#8, 0xA9#8]], by decide +kernel⟩, rfl, by decide +kernel⟩
  · exact ⟨[[0x7A#8], [0x7A#8]], ⟨[], [], by decide +kernel⟩, rfl, by decide +kernel⟩

/-- The pattern `%ABé|zz%`. -/
example : pattern true true needles = [0x25#8, 0x41#8, 0x42#8, 0xC3#8, 0xA9#8, 0x7C#8, 0x7A#8, 0x7A#8, 0x25#8] := by decide

/-- The conditions of `C66_exact_like` are met, and the row is found. -/
example : 7 ∈ select (oneIndex 2 sample.flatten) (oneRow sample.flatten) .utf8 blank 2 true (pattern true true needles) := by
  refine ((C66_exact_like (by decide) (oneIndex_run 2 sample.flatten) (.inr (.inl rfl)) ?_ (by decide) needles_word needles_long true true).2 7).2
    ⟨_, _, rfl, sample_text, _, by unfold needles; exact List.mem_cons_self, [[0x78#8]], [], by decide +kernel, by simp, by simp⟩
  intro k t h
  unfold oneRow Reverse.Spec.Rows.put at h
  split at h
  · cases h
    exact ⟨sample, sample_text⟩
  · cases h

/-- Not if the string must be at the front. -/
example : select (oneIndex 2 sample.flatten) (oneRow sample.flatten) .utf8 blank 2 true (pattern false true needles) = [] := by decide +kernel

/-- LIKE without EXACT, in other letters: `%ab%`. -/
example : select (oneIndex 2 sample.flatten) (oneRow sample.flatten) .utf8 blank 2 false (pattern true true [[[0x61#8], [0x62#8]]]) = [7] := by
  decide +kernel

end BaikalDB.Segment
