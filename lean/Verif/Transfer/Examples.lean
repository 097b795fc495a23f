import Verif.Transfer.Props

/-!
# A transfer

Three rows, requests of 20 bytes, an answer that is lost, a late request that nobody waits for.
-/

namespace BaikalDB.Transfer

def demoRows : List Rec := [([1#8, 1#8], [5#8]), ([1#8, 2#8], []), ([2#8], [6#8, 7#8])]

def demoEvs : List Ev :=
  [.ask 20 false true, .ask 20 false false, .stray ⟨0, 20, false⟩, .ask 20 false true,
    .ask 20 false true]

theorem demoRows_ascending : Spec.Ascending demoRows := by
  refine ⟨?_, ?_, trivial⟩ <;> (unfold BLt; decide)

theorem demoRows_fits : Spec.Fits demoRows := by
  intro r hr
  simp only [demoRows, List.mem_cons, List.not_mem_nil, or_false] at hr
  rcases hr with h | h | h <;> subst h <;> decide

theorem demoEvs_steady : Spec.Steady 20 demoEvs := ⟨rfl, rfl, rfl, rfl, rfl, trivial⟩

/-- `C69_rows_in_order` applies; the first answer and the lost one are two rows. -/
example : ∃ files rest,
    install (fun _ => true) false
      (transfer (demoRows.map dataItem) false true (demoEvs.take 2)).2.packets = some files ∧
    files.flatten ++ rest = demoRows ∧ ∀ f, f ∈ files → f ≠ [] :=
  C69_rows_in_order demoRows_ascending demoRows_fits _ _

/-- `C69_all_rows` applies: the transfer is taken for finished. -/
example : ∃ files,
    install (fun _ => true) false
      (transfer (demoRows.map dataItem) false true demoEvs).2.packets = some files ∧
    files.flatten = demoRows :=
  C69_all_rows demoRows_ascending demoRows_fits _ demoEvs_steady (by decide) (by decide +kernel)

example : install (fun _ => true) false
    (transfer (demoRows.map dataItem) false true demoEvs).2.packets
      = some [[([1#8, 1#8], [5#8]), ([1#8, 2#8], [])], [([2#8], [6#8, 7#8])]] := by decide +kernel

/-- The applied index, one open transaction with two requests, a mark, the region. -/
def demoMeta : List MetaKv :=
  [.plain (metaKey 7#64 0x01#8, [9#8]),
    .begin 5 3,
    .request (requestKey 7#64 4 2, [1#8]),
    .mark (metaKey 7#64 0x05#8, [8#8]),
    .plain (metaKey 7#64 0x06#8, [2#8])]

def demoEntries : Nat → Nat → List (Nat × Bytes) := fun t b =>
  if t = 5 then [(b, [3#8]), (b + 4, [4#8])] else []

theorem demoMeta_layout : Spec.Layout 7#64 demoEntries demoMeta := by
  refine ⟨?_, ?_, ?_⟩
  · unfold demoMeta BLt; decide +kernel
  · intro r hr
    simp only [demoMeta, List.mem_cons, List.not_mem_nil, or_false, reduceCtorEq, false_or,
      MetaKv.plain.injEq] at hr
    rcases hr with h | h <;> subst h
    · exact ⟨0x01#8, [], by decide +kernel, by decide, by decide⟩
    · exact ⟨0x06#8, [], by decide +kernel, by decide, by decide⟩
  · intro t b h
    simp only [demoMeta, List.mem_cons, List.not_mem_nil, or_false, reduceCtorEq, false_or,
      MetaKv.begin.injEq] at h
    obtain ⟨rfl, rfl⟩ := h
    decide

/-- `C69_all_meta_keys` applies. -/
example : ∃ files, install (fun _ => true) true (transfer (demoMeta.map (metaItem
      (fun t b => some (demoEntries t b)) (requestKey 7#64))) true false
        (List.replicate 6 (.ask 30 false true))).2.packets = some files ∧
    files.length ≤ 1 ∧ files.flatten = Spec.ofMeta demoEntries (requestKey 7#64) demoMeta :=
  C69_all_meta_keys (n := 30) demoMeta_layout
    (by intro r hr; revert r hr; decide +kernel) _ _ ⟨rfl, rfl, rfl, rfl, rfl, rfl, trivial⟩
    (by decide +kernel) (by decide +kernel)

example : Spec.ofMeta demoEntries (requestKey 7#64) demoMeta =
    [(metaKey 7#64 0x01#8, [9#8]), (requestKey 7#64 5 3, [3#8]), (requestKey 7#64 5 7, [4#8]),
      (metaKey 7#64 0x06#8, [2#8])] := by decide +kernel

/-- `C69_lost_answer` applies to the second request. -/
example : (read (demoRows.map dataItem) false
    (transfer (demoRows.map dataItem) false true (demoEvs.take 1)).1 ⟨37, 20, false⟩).1
      = some (putRec ([2#8], [6#8, 7#8])) := by decide +kernel

/-- `C69_ends` and `C69_rows_not_sent`. -/
example : (transfer (demoRows.map dataItem) false true (List.replicate 4 (.ask 1 false true))).2.eof
    = true := C69_ends _ _ _ (by decide) (Or.inr rfl)

example : (transfer (demoRows.map dataItem) false false [.ask 9 true true, .ask 9 true true]).2
    = ⟨[[]], true⟩ := C69_rows_not_sent _ (by decide) _ _

end BaikalDB.Transfer
