import Verif.Hll.Props

/-! Concrete sketches with four registers. -/

namespace BaikalDB.Hll

/-- Four registers, and a limit that keeps sketches of a few values sparse. -/
def c4 : Cfg := ⟨2, 40⟩

/-- A formula: the registers that are not zero, weighted. -/
def est4 (g : List Nat) : Nat := (g.zipIdx.map (fun p => p.1 * p.2)).sum

example : c4.Ok ∧ Cfg.code.Ok ∧ 18 ≤ c4.maxBytes ∧ 18 ≤ Cfg.code.maxBytes := by
  simp [Cfg.Ok, c4, Cfg.code]

example : est4 (2 ^ c4.p :: List.replicate 63 0) = 0 := by decide +kernel

/-- Hash 5 has register 1 and rank 1, hash 9 register 1 and rank 2, hash 3 register 3 and no one-bit. -/
example : index c4 5 = 1 ∧ patLen c4 5 = 1 ∧ index c4 9 = 1 ∧ patLen c4 9 = 2 ∧ index c4 3 = 3 ∧
    patLen c4 3 = 63 := by decide +kernel

/-- Sparse, then dense because of a rank above 32. -/
example : (fnAdd c4 none [some 5, none, some 9, some 6]).body = .sparse [.zero 1, .val 2 1, .val 1 1, .zero 1] ∧
    (fnAdd c4 none [some 5, some 9, some 3]).body = .dense [128, 0, 252] := by decide +kernel

/-- The same set in three ways has one estimate. -/
example : fnEstimate est4 (some (fnAdd c4 none [some 9, some 5, some 6, some 9])) = 3 ∧
    fnEstimate est4 (some (aggMerge c4 [some (aggAdd c4 [some 6]), some (aggAdd c4 [some 5, some 9])])) = 3 ∧
    fnEstimate est4 (some (fnMerge c4 (fnInit c4 [some 5]) [fnInit c4 [some 6, some 9], none])) = 3 ∧
    fnEstimate est4 (some (rawToSparse c4 (aggAdd c4 [some 6, some 5, some 9]))) = 3 := by decide +kernel

/-- A built sketch that meets the hypotheses of the theorems. -/
example : ∃ h, Built c4 est4 h [6, 9] ∧ h.body = .sparse [.zero 1, .val 2 1, .val 1 1, .zero 1] := by
  have h1 : add c4 (init c4) 9 = some ⟨.sparse [.zero 1, .val 2 1, .zero 2], none⟩ := by decide +kernel
  have h2 : add c4 ⟨.sparse [.zero 1, .val 2 1, .zero 2], none⟩ 6 =
      some ⟨.sparse [.zero 1, .val 2 1, .val 1 1, .zero 1], none⟩ := by decide +kernel
  exact ⟨_, Built.add (Built.add Built.init (by decide) h1) (by decide) h2, rfl⟩

/-- `HLL_MERGE(HLL_ADD_AGG(x), sketch)` forgets the sketch: the value 6 is lost. -/
example : fnEstimate est4 (some (fnMerge c4 (some (aggAdd c4 [some 5])) [fnInit c4 [some 6]])) = 1 ∧
    fnEstimate est4 (some (fnMerge c4 (fnInit c4 [some 6]) [some (aggAdd c4 [some 5])])) = 2 := by
  decide +kernel

/-- The registers in bytes, with a limit that is too small for sparse sketches of two values. -/
example : (fnAdd ⟨2, 18⟩ none [some 5, some 6]).body = .dense [64, 16, 0] ∧
    ([Opc.zero 1, .xzero 300, .val 32 4].flatMap Opc.encode) = [0, 65, 43, 255] := by decide +kernel

end BaikalDB.Hll
