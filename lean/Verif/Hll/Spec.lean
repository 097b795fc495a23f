import Verif.Hll.Model

/-!
What a sketch is: for each register, the largest rank among the hashes that belong to it, and zero if there
are none.  The rank of a hash is the position of the lowest one-bit above the bits of the register, at most
one more than the number of these bits.  Only the set of hashes matters.
-/

namespace BaikalDB.Hll

/-- `k` is the rank of the hash. -/
def IsRank (c : Cfg) (h k : Nat) : Prop :=
  1 ≤ k ∧ k ≤ 65 - c.p ∧ (∀ j, j + 1 < k → h.testBit (c.p + j) = false) ∧
    (k = 65 - c.p ∨ h.testBit (c.p + (k - 1)) = true)

/-- `r` is the register `i` of a set of hashes. -/
def IsReg (c : Cfg) (s : List Nat) (i r : Nat) : Prop :=
  ((∀ h ∈ s, h % 2 ^ c.p ≠ i) ∧ r = 0) ∨
    ((∃ h ∈ s, h % 2 ^ c.p = i ∧ IsRank c h r) ∧ ∀ h ∈ s, h % 2 ^ c.p = i → ∀ k, IsRank c h k → k ≤ r)

/-- The registers of a set of hashes. -/
def SketchOf (c : Cfg) (s : List Nat) (r : List Nat) : Prop :=
  r.length = 2 ^ c.p ∧ ∀ i, i < 2 ^ c.p → IsReg c s i (r.getD i 0)

/-- How many registers have each value from 0 to 63. -/
def Histogram (r g : List Nat) : Prop := g.length = 64 ∧ ∀ k, k < 64 → g.getD k 0 = r.count k

/-- The sizes for which the encodings are made: the code has `p = 14`. -/
def Cfg.Ok (c : Cfg) : Prop := 2 ≤ c.p ∧ c.p ≤ 14

/-- Sketches that the functions make, with the hashes that went in.  A merge with `hll_merge` is only
counted if the first sketch is not raw, or the second is dense; one with `hll_merge_agg` if the first is raw
or the second is not. -/
inductive Built (c : Cfg) (est : List Nat → Nat) : Sketch → List Nat → Prop where
  | init : Built c est (init c) []
  | rawInit : Built c est (rawInit c) []
  | add {h h' s x} : Built c est h s → x < 2 ^ 64 → add c h x = some h' → Built c est h' (x :: s)
  | mergeAgg {h1 h2 h' s1 s2} : Built c est h1 s1 → Built c est h2 s2 →
      ((∃ r, h1.body = .raw r) ∨ ∀ r, h2.body ≠ .raw r) → mergeAgg c h1 h2 = .ok h' →
      Built c est h' (s1 ++ s2)
  | merge {h1 h2 h' s1 s2} : Built c est h1 s1 → Built c est h2 s2 →
      ((∀ r, h1.body ≠ .raw r) ∨ ∃ b, h2.body = .dense b) → merge c h1 h2 = .ok h' →
      Built c est h' (s1 ++ s2)
  | toDense {h h' s} : Built c est h s → toDense c h = some h' → Built c est h' s
  | rawToSparse {h s} : Built c est h s → Built c est (rawToSparse c h) s
  | estimate {h s} : Built c est h s → Built c est (estimate est h).2 s

end BaikalDB.Hll
