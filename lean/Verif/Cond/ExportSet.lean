import Verif.Cond.PickExamples

/-!
# EXPORT_SET

File: `src/expr/internal_functions.cpp`.
-/

namespace BaikalDB.Cond

variable {D : Type}

/-- The number of bits shown (`src/expr/internal_functions.cpp` L2997-3005). -/
def exportLen (n : Int) : Nat := if n > 64 ∨ n < 1 then 64 else n.toNat

/-- The loop of `export_set` (`src/expr/internal_functions.cpp` L3007-3017): the number of rounds
that are left, and whether this is the first. -/
def exportLoop (on off sep : String) : Nat → Bool → Int → String → String
  | 0, _, _, res => res
  | k + 1, first, n, res =>
    exportLoop on off sep k false (n / 2)
      ((if first then res else res ++ sep) ++ (if n % 2 = 1 then on else off))

/-- `export_set` (`src/expr/internal_functions.cpp` L2984-3019). -/
def exportSet (o : Ops D) (args : List (Val D)) : Val D :=
  if hasNull args then .null
  else match args with
    | [n, on, off, sep] =>
      .str (exportLoop (textOf o on) (textOf o off) (textOf o sep) 64 true (int64Of o n) "")
    | [n, on, off, sep, len] =>
      .str (exportLoop (textOf o on) (textOf o off) (textOf o sep) (exportLen (int64Of o len)) true
        (int64Of o n) "")
    | _ => .null

/-! ## What is claimed -/

/-- Texts with a separator between. -/
def joinSep (sep : String) : List String → String
  | [] => ""
  | [a] => a
  | a :: b :: l => a ++ sep ++ joinSep sep (b :: l)

/-- One text for each of the lowest `k` bits of `n`. -/
def bitTexts (on off : String) (n : Int) (k : Nat) : List String :=
  (List.range k).map (fun i => if n / 2 ^ i % 2 = 1 then on else off)

/-! ## Proofs -/

theorem bitTexts_succ (on off : String) (n : Int) (k : Nat) :
    bitTexts on off n (k + 1) = (if n % 2 = 1 then on else off) :: bitTexts on off (n / 2) k := by
  have key : ∀ i : Nat, n / 2 ^ (i + 1) = n / 2 / 2 ^ i := by
    intro i
    rw [Int.pow_succ, Int.mul_comm, Int.ediv_ediv_of_nonneg (by omega)]
  simp [bitTexts, List.range_succ_eq_map, Function.comp_def, key]

/-- Texts appended with the separator before each. -/
def tailSep (sep : String) : List String → String
  | [] => ""
  | a :: l => sep ++ a ++ tailSep sep l

theorem joinSep_cons (sep : String) : ∀ (a : String) (l : List String),
    joinSep sep (a :: l) = a ++ tailSep sep l
  | a, [] => by simp [joinSep, tailSep]
  | a, b :: l => by simp only [joinSep, tailSep, joinSep_cons sep b l, String.append_assoc]

theorem exportLoop_tail (on off sep : String) : ∀ (k : Nat) (n : Int) (res : String),
    exportLoop on off sep k false n res = res ++ tailSep sep (bitTexts on off n k)
  | 0, n, res => by simp [exportLoop, bitTexts, tailSep]
  | k + 1, n, res => by
    simp only [exportLoop, exportLoop_tail on off sep k, bitTexts_succ, tailSep]
    simp [String.append_assoc]

theorem exportLoop_join (on off sep : String) (k : Nat) (n : Int) :
    exportLoop on off sep k true n "" = joinSep sep (bitTexts on off n k) := by
  cases k with
  | zero => simp [exportLoop, bitTexts, joinSep]
  | succ k =>
    rw [bitTexts_succ, joinSep_cons]
    simp [exportLoop, exportLoop_tail]

/-- `EXPORT_SET(n, on, off, sep, len)` shows the lowest `len` bits of `n`, from the lowest on: `on`
for each that is set and `off` for each that is not, with `sep` between; 64 bits when `len` is not
given or not from 1 to 64. A `NULL` argument makes the result `NULL`, and so does a wrong number of
arguments. -/
theorem C76_export_set (o : Ops D) (t : ITy) (n : Int) (on off sep : Val D) (son soff ssep : String)
    (hn : InRange .i64 n) (hon : TextOf o on son) (hoff : TextOf o off soff)
    (hsep : TextOf o sep ssep) :
    exportSet o [.int t n, on, off, sep] = .str (joinSep ssep (bitTexts son soff n 64)) ∧
    (∀ (u : ITy) (k : Nat), 1 ≤ k → k ≤ 64 →
      exportSet o [.int t n, on, off, sep, .int u k] =
        .str (joinSep ssep (bitTexts son soff n k))) ∧
    (∀ (u : ITy) (k : Int), InRange .i64 k → (k < 1 ∨ 64 < k) →
      exportSet o [.int t n, on, off, sep, .int u k] =
        .str (joinSep ssep (bitTexts son soff n 64))) ∧
    (∀ args : List (Val D), .null ∈ args ∨ (args.length ≠ 4 ∧ args.length ≠ 5) →
      exportSet o args = .null) := by
  have n1 : on ≠ .null := by intro h; subst h; cases hon
  have n2 : off ≠ .null := by intro h; subst h; cases hoff
  have n3 : sep ≠ .null := by intro h; subst h; cases hsep
  have t1 := (textOf_iff o n1 son).1 hon
  have t2 := (textOf_iff o n2 soff).1 hoff
  have t3 := (textOf_iff o n3 ssep).1 hsep
  have h4 : hasNull [.int t n, on, off, sep] = false :=
    hasNull_false (by simp [Ne.symm n1, Ne.symm n2, Ne.symm n3])
  have h5 : ∀ (u : ITy) (k : Int), hasNull [.int t n, on, off, sep, .int u k] = false :=
    fun u k => hasNull_false (by simp [Ne.symm n1, Ne.symm n2, Ne.symm n3])
  have hi := int64Of_int o (a := t) hn
  refine ⟨?_, ?_, ?_, ?_⟩
  · simp only [exportSet, h4, Bool.false_eq_true, if_false, hi, t1, t2, t3, exportLoop_join]
  · intro u k hk1 hk2
    have hk := int64Of_int o (a := u) (n := (k : Int)) (by simp only [InRange]; omega)
    have he : exportLen (k : Int) = k := by
      unfold exportLen
      rw [if_neg (by omega)]; simp
    simp only [exportSet, h5, Bool.false_eq_true, if_false, hi, hk, he, t1, t2, t3, exportLoop_join]
  · intro u k hr hk
    have hk' := int64Of_int o (a := u) hr
    have he : exportLen k = 64 := by
      unfold exportLen
      rw [if_pos (by omega)]
    simp only [exportSet, h5, Bool.false_eq_true, if_false, hi, hk', he, t1, t2, t3,
      exportLoop_join]
  · rintro args (h | ⟨h, h'⟩)
    · simp [exportSet, (hasNull_iff args).2 h]
    · rcases args with _ | ⟨_, _ | ⟨_, _ | ⟨_, _ | ⟨_, _ | ⟨_, _ | ⟨_, _⟩⟩⟩⟩⟩⟩ <;>
        first | exact absurd rfl h | exact absurd rfl h' | simp [exportSet]

/-- The bits of 6, of which four are shown. -/
example : exportSet demo [.int .i64 6, .str "Y", .str "N", .str ",", .int .i64 (4 : Nat)] =
    .str "N,Y,Y,N" :=
  (C76_export_set demo .i64 6 (.str "Y") (.str "N") (.str ",") "Y" "N" "," (by simp [InRange])
    (.str _) (.str _) (.str _)).2.1 .i64 4 (by decide) (by decide)

/-- All 64 bits of -1 are set. -/
example : exportSet demo [.int .i64 (-1), .str "1", .str "0", .str ""] =
    .str (joinSep "" (List.replicate 64 "1")) :=
  ((C76_export_set demo .i64 (-1) (.str "1") (.str "0") (.str "") "1" "0" "" (by simp [InRange])
    (.str _) (.str _) (.str _)).1).trans (congrArg _ (congrArg _ (by decide +kernel)))

end BaikalDB.Cond
