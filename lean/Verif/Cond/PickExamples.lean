import Verif.Cond.PickProps
import Verif.Cond.Examples

/-!
# ELT, FIELD, FIND_IN_SET, MAKE_SET, GREATEST and LEAST: cases that meet the hypotheses
-/

namespace BaikalDB.Cond

/-- `C76_elt`: the second of two texts. -/
example : elt demo [.int .u8 2, .str "a", .str "b"] = .str "b" :=
  (C76_elt demo .u8 2 [.str "a", .str "b"] (by simp [InRange]) (by simp)).1
    [.str "a"] (.str "b") [] "b" rfl (by simp) (.str _)

/-- `C76_elt`: there is no third. -/
example : elt demo [.int .u8 3, .str "a", .str "b"] = .null :=
  (C76_elt demo .u8 3 [.str "a", .str "b"] (by simp [InRange]) (by simp)).2 (by simp)

/-- `C76_elt_field`. -/
example : elt demo (field demo [.str "b", .str "a", .str "b"] :: [.str "a", .str "b"]) = .str "b" :=
  (C76_elt_field demo (.str "b") [.str "a", .str "b"] "b" (.str _) (by simp) (by simp)
    (by simp)).1 ⟨.str "b", by simp, .str _⟩

/-- `C76_field`, `C76_find_in_set`: the second place is the first with the text. -/
example : FirstAt (fun v => TextOf demo v "b") [.str "a", .str "b", .str "b"] 2 :=
  Or.inr ⟨[.str "a"], .str "b", [.str "b"], rfl, (by
    intro y hy h
    simp only [List.mem_cons, List.not_mem_nil, or_false] at hy
    subst hy
    exact absurd ((textOf_iff demo (by simp) "b").1 h) (by decide)), .str _, rfl⟩

example : ∃ k : Nat, FirstAt (fun p => p = ['b']) [['a'], ['b']] k ∧
    findInSet demo [.str (String.ofList ['b']),
      .str (String.ofList (joinChars [['a'], ['b']]))] = .int .i64 k :=
  C76_find_in_set demo ['b'] [['a'], ['b']] (by simp) (by simp)

/-- `C76_make_set`: the bits of 5 and of -2. -/
example : makeSet demo [.int .i64 5, .str "a", .str "b", .str "c"] = .str "a,c" :=
  C76_make_set demo .i64 5 [.str "a", .str "b", .str "c"] ["a", "b", "c"] (by simp [InRange])
    (by simp) (.cons (.str _) (.cons (.str _) (.cons (.str _) .nil)))

example : makeSet demo [.int .i64 (-2), .str "a", .str "b", .str "c"] = .str "b,c" :=
  C76_make_set demo .i64 (-2) [.str "a", .str "b", .str "c"] ["a", "b", "c"] (by simp [InRange])
    (by simp) (.cons (.str _) (.cons (.str _) (.cons (.str _) .nil)))

/-- `C76_greatest`, `C76_least`: the hypotheses on the order. -/
example : (∀ a : Int, decide (a < a) = false) ∧
    (∀ a b c : Int, decide (a < b) = false → decide (b < c) = false → decide (a < c) = false) ∧
    (∀ a b : Int, decide (a < b) = true → decide (b < a) = false) := by
  refine ⟨by simp, ?_, ?_⟩
  · intro a b c h1 h2
    simp only [decide_eq_false_iff_not] at *; omega
  · intro a b h
    simp only [decide_eq_true_eq, decide_eq_false_iff_not] at *; omega

example : greatest demo (fun a b => decide (a < b)) [.int .i8 3, .dbl 7, .int .u8 5] = .dbl 7 ∧
    least demo (fun a b => decide (a < b)) [.int .i8 3, .dbl 7, .int .u8 5] = .dbl 3 := by decide

end BaikalDB.Cond
