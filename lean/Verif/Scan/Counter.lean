import Verif.Scan.Props

/-!
# Queries whose ranges do not stand for the conditions they replace
-/

namespace BaikalDB.Scan
open KeyEnc KeyEnc.Spec IndexKey Like Like.Spec Route

/-- KEY (a, b) on a table with primary key (id), all BIGINT. -/
def abIx : IndexInfo := buildIndex .key false [⟨1, .int64, false⟩, ⟨2, .int64, false⟩] [⟨9, .int64, false⟩]

/-- KEY (a, c) on the same table, c is text. -/
def acIx : IndexInfo := buildIndex .key false [⟨1, .int64, false⟩, ⟨3, .string, false⟩] [⟨9, .int64, false⟩]

/-- KEY (c, b) on a table with primary key (c, id): the primary key follows whole, since c is text. -/
def dupIx : IndexInfo := buildIndex .key false [⟨3, .string, false⟩, ⟨2, .int64, false⟩] [⟨3, .string, false⟩, ⟨9, .int64, false⟩]

example : (avail dupIx).map (·.id) = [3, 2, 3, 9] := by decide

/-- The plan returns the row: a range reaches its key and every condition left to evaluate is true of it. -/
def Returned (cs : Charset) (ix : IndexInfo) (conds : List Cond) (p : Plan) (row : Row) : Prop :=
  (∃ r ∈ p.ranges, Reaches p r (rowKey ix row)) ∧
    ∀ (n : Nat) c, conds[n]? = some c → n ∉ p.cut → Holds cs row c

instance (p x : Bytes) : Decidable (Beyond p x) := by unfold Beyond BLt; infer_instance
instance (s : Bytes) (o : Bool) (x : Bytes) : Decidable (LeftOk s o x) := by unfold LeftOk BLe; infer_instance
instance (s : Bytes) (o : Bool) (x : Bytes) : Decidable (RightOk s o x) := by unfold RightOk BLt; infer_instance
instance (b : Bounds) (x : Bytes) : Decidable (InBounds b x) := by unfold InBounds; infer_instance
instance (p : Plan) (r : Rng) (k : Bytes) : Decidable (Reaches p r k) := by unfold Reaches; infer_instance

def reached (p : Plan) (k : Bytes) : Bool := p.ranges.any fun r => decide (Reaches p r k)

/-- The plan drops the conditions `cut`, and whether it reaches the key is `b`. -/
def check (cut : List Nat) (k : Bytes) (b : Bool) : Res → Bool
  | .plan p => decide (p.cut = cut) && reached p k == b
  | _ => false

theorem check_yes {cut : List Nat} {k : Bytes} {R : Res} (h : check cut k true R = true) :
    ∃ p, R = .plan p ∧ p.cut = cut ∧ ∃ r ∈ p.ranges, Reaches p r k := by
  cases R with
  | plan p =>
    simp only [check, Bool.and_eq_true, decide_eq_true_eq, beq_iff_eq, reached, List.any_eq_true] at h
    exact ⟨p, rfl, h.1, h.2⟩
  | _ => cases h

theorem check_no {cut : List Nat} {k : Bytes} {R : Res} (h : check cut k false R = true) :
    ∃ p, R = .plan p ∧ p.cut = cut ∧ ∀ r ∈ p.ranges, ¬ Reaches p r k := by
  cases R with
  | plan p =>
    simp only [check, Bool.and_eq_true, decide_eq_true_eq, beq_iff_eq, reached, List.any_eq_false] at h
    exact ⟨p, rfl, h.1, h.2⟩
  | _ => cases h

/-- All conditions are dropped. -/
theorem returned_of {cs : Charset} {ix : IndexInfo} {conds : List Cond} {p : Plan} {row : Row} {cut : List Nat} (hc : p.cut = cut)
    (hall : ∀ n < conds.length, n ∈ cut) (h : ∃ r ∈ p.ranges, Reaches p r (rowKey ix row)) : Returned cs ix conds p row :=
  ⟨h, fun n c hn hnot => absurd (hall n (List.getElem?_eq_some_iff.1 hn).1) (hc ▸ hnot)⟩

/-- **C44.** `WHERE b = 5 AND (a, b) = (1, 2)`: the row equality takes the place of `b = 5` but keeps it among the
conditions its range stands for; the row a = 1, b = 2 comes back. -/
theorem C44_row_equality_after_counterexample :
    ∃ p, mkPlan exCfg abIx [.cmp .eq 2 (some (i 5)), .rcmp .eq [1, 2] [some (i 1), some (i 2)]] = .plan p ∧
      Returned .utf8 abIx [.cmp .eq 2 (some (i 5)), .rcmp .eq [1, 2] [some (i 1), some (i 2)]] p (exRow 1 2 [] 7) ∧
      ¬ Holds .utf8 (exRow 1 2 [] 7) (.cmp .eq 2 (some (i 5))) := by
  obtain ⟨p, h, hc, hr⟩ := check_yes (cut := [0, 1]) (k := rowKey abIx (exRow 1 2 [] 7))
    (R := mkPlan exCfg abIx [.cmp .eq 2 (some (i 5)), .rcmp .eq [1, 2] [some (i 1), some (i 2)]]) (by decide +kernel)
  refine ⟨p, h, returned_of hc (by decide) hr, ?_⟩
  rintro ⟨x, y, hx, hy, ho⟩
  cases hx; cases hy
  revert ho
  unfold opOk
  decide

/-- **C44.** `WHERE (a, b) = (1, 2) AND a = 5`: `a = 5` replaces one column of the row equality only, the other column
still counts for the whole of it; the row a = 5, b = 2 comes back. -/
theorem C44_row_equality_before_counterexample :
    ∃ p, mkPlan exCfg abIx [.rcmp .eq [1, 2] [some (i 1), some (i 2)], .cmp .eq 1 (some (i 5))] = .plan p ∧
      Returned .utf8 abIx [.rcmp .eq [1, 2] [some (i 1), some (i 2)], .cmp .eq 1 (some (i 5))] p (exRow 5 2 [] 7) ∧
      ¬ Holds .utf8 (exRow 5 2 [] 7) (.rcmp .eq [1, 2] [some (i 1), some (i 2)]) := by
  obtain ⟨p, h, hc, hr⟩ := check_yes (cut := [1, 0]) (k := rowKey abIx (exRow 5 2 [] 7))
    (R := mkPlan exCfg abIx [.rcmp .eq [1, 2] [some (i 1), some (i 2)], .cmp .eq 1 (some (i 5))]) (by decide +kernel)
  refine ⟨p, h, returned_of hc (by decide) hr, ?_⟩
  rintro ⟨x, y, hx, hy, ho⟩
  cases hx; cases hy
  revert ho
  unfold opOk
  rintro (⟨ho, _⟩ | ⟨_, ho⟩) <;> revert ho <;> decide

/-- **C44.** The same with a row IN of one tuple: `WHERE (a, b) IN ((1, 2)) AND a = 5`. -/
theorem C44_row_in_counterexample :
    ∃ p, mkPlan exCfg abIx [.rin [1, 2] [[some (i 1), some (i 2)]], .cmp .eq 1 (some (i 5))] = .plan p ∧
      Returned .utf8 abIx [.rin [1, 2] [[some (i 1), some (i 2)]], .cmp .eq 1 (some (i 5))] p (exRow 5 2 [] 7) ∧
      ¬ Holds .utf8 (exRow 5 2 [] 7) (.rin [1, 2] [[some (i 1), some (i 2)]]) := by
  obtain ⟨p, h, hc, hr⟩ := check_yes (cut := [1, 0]) (k := rowKey abIx (exRow 5 2 [] 7))
    (R := mkPlan exCfg abIx [.rin [1, 2] [[some (i 1), some (i 2)]], .cmp .eq 1 (some (i 5))]) (by decide +kernel)
  refine ⟨p, h, returned_of hc (by decide) hr, ?_⟩
  rintro ⟨t, ht, hb⟩
  have ht' : t = [some (i 1), some (i 2)] := by simpa using ht
  subst ht'
  obtain ⟨x, y, hx, hy, ho⟩ := hb
  cases hx; cases hy
  revert ho
  unfold opOk
  rintro (⟨ho, _⟩ | ⟨_, ho⟩) <;> revert ho <;> decide

/-- **C44.** `WHERE (a, a) = (1, 2)`, true of no row, returns the rows with a = 2. -/
theorem C44_row_repeated_column_counterexample :
    ∃ p, mkPlan exCfg abIx [.rcmp .eq [1, 1] [some (i 1), some (i 2)]] = .plan p ∧
      Returned .utf8 abIx [.rcmp .eq [1, 1] [some (i 1), some (i 2)]] p (exRow 2 2 [] 7) ∧
      ¬ Holds .utf8 (exRow 2 2 [] 7) (.rcmp .eq [1, 1] [some (i 1), some (i 2)]) := by
  obtain ⟨p, h, hc, hr⟩ := check_yes (cut := [0]) (k := rowKey abIx (exRow 2 2 [] 7))
    (R := mkPlan exCfg abIx [.rcmp .eq [1, 1] [some (i 1), some (i 2)]]) (by decide +kernel)
  refine ⟨p, h, returned_of hc (by decide) hr, ?_⟩
  rintro ⟨x, y, hx, hy, ho⟩
  cases hx; cases hy
  revert ho
  unfold opOk
  rintro (⟨ho, _⟩ | ⟨_, ho⟩) <;> revert ho <;> decide

/-- **C44.** `WHERE a IN (1, 2) AND c LIKE 'x%'` on KEY (a, c): the upper end of each range has the prefix twice, rows
like (1, 'xz') are not found. -/
theorem C44_in_before_like_counterexample :
    ∃ p, mkPlan exCfg acIx [.inn 1 [some (i 1), some (i 2)], .like 3 (some [0x78#8, 0x25#8])] = .plan p ∧
      (∀ r ∈ p.ranges, ¬ Reaches p r (rowKey acIx (exRow 1 0 [0x78#8, 0x7A#8] 7))) ∧
      ∀ c ∈ [Cond.inn 1 [some (i 1), some (i 2)], .like 3 (some [0x78#8, 0x25#8])],
        Holds .utf8 (exRow 1 0 [0x78#8, 0x7A#8] 7) c := by
  obtain ⟨p, h, hc, hr⟩ := check_no (cut := [0]) (k := rowKey acIx (exRow 1 0 [0x78#8, 0x7A#8] 7))
    (R := mkPlan exCfg acIx [.inn 1 [some (i 1), some (i 2)], .like 3 (some [0x78#8, 0x25#8])]) (by decide +kernel)
  refine ⟨p, h, hr, ?_⟩
  intro c hc
  simp only [List.mem_cons, List.not_mem_nil, or_false] at hc
  rcases hc with rfl | rfl
  · exact ⟨i 1, i 1, rfl, by simp, by decide⟩
  · exact ⟨_, _, rfl, rfl, by decide +kernel⟩

/-- **C44.** `WHERE (c, b) > ('x', 1) AND (c, id) < ('x', 5)` on KEY (c, b) of a table with primary key (c, id): the upper
end is counted as if its columns followed those of the lower end, but only `c` goes into the key, as an open end; the
row ('x', 2, 3) is not found. -/
theorem C44_both_row_ends_counterexample :
    ∃ p, mkPlan exCfg dupIx [.rcmp .gt [3, 2] [some (.str [0x78#8]), some (i 1)], .rcmp .lt [3, 9] [some (.str [0x78#8]), some (i 5)]] = .plan p ∧
      (∀ r ∈ p.ranges, ¬ Reaches p r (rowKey dupIx (exRow 0 2 [0x78#8] 3))) ∧
      ∀ c ∈ [Cond.rcmp .gt [3, 2] [some (.str [0x78#8]), some (i 1)], .rcmp .lt [3, 9] [some (.str [0x78#8]), some (i 5)]],
        Holds .utf8 (exRow 0 2 [0x78#8] 3) c := by
  obtain ⟨p, h, hc, hr⟩ := check_no (cut := [0, 1]) (k := rowKey dupIx (exRow 0 2 [0x78#8] 3))
    (R := mkPlan exCfg dupIx [.rcmp .gt [3, 2] [some (.str [0x78#8]), some (i 1)], .rcmp .lt [3, 9] [some (.str [0x78#8]), some (i 5)]])
    (by decide +kernel)
  refine ⟨p, h, hr, ?_⟩
  intro c hc
  simp only [List.mem_cons, List.not_mem_nil, or_false] at hc
  rcases hc with rfl | rfl
  · exact ⟨_, _, rfl, rfl, .inl ⟨by decide, _, _, rfl, rfl, .inr ⟨by decide, by unfold opOk; decide⟩⟩⟩
  · exact ⟨_, _, rfl, rfl, .inl ⟨by decide, _, _, rfl, rfl, .inr ⟨by decide, by unfold opOk; decide⟩⟩⟩

/-- **C44.** `WHERE MATCH (a) … AND b = 1` on KEY (a, b), a also having a full-text index: the walk over the columns
passes `a` without counting it, so the key gets neither column and `b = 1` is not evaluated again. -/
theorem C44_full_text_counterexample (q : Row → Bool) (hq : q (exRow 1 2 [] 7) = true) :
    ∃ p, mkPlan exCfg abIx [.full [1] q, .cmp .eq 2 (some (i 1))] = .plan p ∧
      Returned .utf8 abIx [.full [1] q, .cmp .eq 2 (some (i 1))] p (exRow 1 2 [] 7) ∧
      ¬ Holds .utf8 (exRow 1 2 [] 7) (.cmp .eq 2 (some (i 1))) := by
  have hx : mkPlan exCfg abIx [.full [1] q, .cmp .eq 2 (some (i 1))] =
    mkPlan exCfg abIx [.full [1] fun _ => true, .cmp .eq 2 (some (i 1))] := rfl
  obtain ⟨p, h, hc, hr⟩ := check_yes (cut := [1]) (k := rowKey abIx (exRow 1 2 [] 7))
    (R := mkPlan exCfg abIx [.full [1] fun _ => true, .cmp .eq 2 (some (i 1))]) (by decide +kernel)
  rw [hx]
  refine ⟨p, h, ⟨hr, ?_⟩, ?_⟩
  · intro n c hn hnot
    rw [hc] at hnot
    match n, hn with
    | 0, hn => cases hn; exact hq
    | 1, _ => simp at hnot
  · rintro ⟨x, y, hx, hy, ho⟩
    cases hx; cases hy
    revert ho
    unfold opOk
    decide

/-- **C44.** `WHERE (a, b) > (1, NULL)` is answered with no rows, though it is true of those with a = 2. -/
theorem C44_row_null_counterexample :
    mkPlan exCfg abIx [.rcmp .gt [1, 2] [some (i 1), none]] = .empty ∧
      Holds .utf8 (exRow 2 0 [] 7) (.rcmp .gt [1, 2] [some (i 1), none]) := by
  refine ⟨rfl, _, _, rfl, rfl, .inr ⟨by decide, by unfold opOk; decide⟩⟩

end BaikalDB.Scan
