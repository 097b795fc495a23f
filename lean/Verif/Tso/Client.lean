import Verif.Tso.Props
/-
C14: clients of the timestamp oracle: the batching proxy (src/common/tso_proxy.cpp), the store's cache
(src/store/store.cpp L2415-2452) and the degraded local mode (src/session/binlog_context.cpp L44-89).
-/
namespace BaikalDB.Tso

/-- tso_proxy.cpp L57-74 (send_requests): the count asked for. -/
def batchCount (counts : List Int) : Int := counts.foldl (· + ·) 0

/-- tso_proxy.cpp L76-107 (process_response, success): (physical, logical, count) of each response, in request order. -/
def splitResponse (phys : Int) : Int → List Int → List (Int × Int × Int)
  | _, [] => []
  | logical, c :: cs => (phys, logical, c) :: splitResponse phys (logical + c) cs

/-- tso_proxy.cpp L76-95: the return code each caller sees. -/
def callerRet (ret : Int) (success : Bool) : Int := if ret ≠ 0 then ret else if success then 0 else -1

/-- State of the store's cache: store.h L557-559. -/
structure Cache where
  phys : Int
  logical : Int
  count : Int
deriving DecidableEq, Repr

/-- store.cpp L2421-2423: a timestamp from the cache, `fresh` says that the cache is younger than gen_tso_interval_us,
`n` is FLAGS_gen_tso_count. -/
def cacheHit (n : Int) (c : Cache) (fresh : Bool) : Option (Int × Cache) :=
  if c.phys ≠ 0 ∧ c.logical ≠ 0 ∧ c.count > 0 ∧ fresh = true then
    some (c.phys * 262144 + c.logical + n - c.count, { c with count := c.count - 1 })
  else none

/-- store.cpp L2425-2451: refill from a granted range starting at (phys, logical), of n timestamps. -/
def cacheFill (n : Int) (phys logical : Int) : Int × Cache :=
  (phys * 262144 + logical + n - n, ⟨phys, logical, n - 1⟩)

/-- A history of the store: `some (phys, logical)` is a call that had to ask the oracle and was granted this range, `none`
a call served from the cache (skipped when the cache cannot serve). -/
def storeRun (n : Int) (c : Cache) : List (Option (Int × Int)) → List Int
  | [] => []
  | some (p, l) :: rest => (cacheFill n p l).1 :: storeRun n (cacheFill n p l).2 rest
  | none :: rest => match cacheHit n c true with
    | some (v, c') => v :: storeRun n c' rest
    | none => storeRun n c rest

/-- Degraded mode, binlog_context.cpp L73-89, `inst` is the instance id.  As in C++, `logical & 0x3FF >= 1 << 10` is
`logical & (0x3FF >= (1 << 10))` and `mast_id << 10 + count` is `mast_id << (10 + count)`. -/
def degradedGet (inst : Nat) (o : Int × Nat) (count : Nat) : Int × (Int × Nat) :=
  let mast := inst &&& 0xFF
  let l := o.2 + count
  let o' : Int × Nat :=
    if l &&& (if 0x3FF ≥ 1 <<< 10 then 1 else 0) ≠ 0 then (o.1 + 1, mast <<< (10 + count)) else (o.1, l)
  (o'.1 * 262144 + o'.2 - count, o')

/-- Degraded mode, binlog_context.cpp L44-71 (the timer). -/
def degradedTick (o : Int × Nat) (now : Int) : Int × Nat :=
  let delta := now - o.1
  if delta > guardMs then (now, 0)
  else if (o.2 : Int) > maxLogical / 2 then (now + guardMs, 0)
  else o

/-! ### Batches -/

theorem foldl_add (l : List Int) : ∀ a : Int, l.foldl (· + ·) a = a + l.foldl (· + ·) 0 := by
  induction l with
  | nil => intro a; simp
  | cons x l ih =>
    intro a
    simp only [List.foldl_cons]
    rw [ih (a + x), ih (0 + x)]; omega

theorem batchCount_cons (c : Int) (cs : List Int) : batchCount (c :: cs) = c + batchCount cs := by
  unfold batchCount; rw [List.foldl_cons, foldl_add]; omega

/-- What a caller may use: `count` consecutive timestamps from its response. -/
def respCovers (r : Int × Int × Int) (v : Int) : Prop := ∃ j, 0 ≤ j ∧ j < r.2.2 ∧ v = r.1 * 262144 + r.2.1 + j

theorem split_lower {phys : Int} : ∀ {cs : List Int} {l : Int}, (∀ c ∈ cs, 0 < c) → ∀ {r}, r ∈ splitResponse phys l cs →
    r.1 = phys ∧ l ≤ r.2.1 ∧ r.2.1 + r.2.2 ≤ l + batchCount cs ∧ 0 < r.2.2 := by
  intro cs
  induction cs with
  | nil => intro l _ r hr; cases hr
  | cons c cs ih =>
    intro l hc r hr
    rw [batchCount_cons]
    have hc0 := hc c (by simp)
    have hnn : 0 ≤ batchCount cs := by
      clear ih hr
      have hc' : ∀ c ∈ cs, 0 < c := fun x hx => hc x (by simp [hx])
      clear hc
      induction cs with
      | nil => simp [batchCount]
      | cons d cs ih2 =>
        rw [batchCount_cons]
        have := hc' d (by simp)
        have := ih2 (fun x hx => hc' x (by simp [hx]))
        omega
    rcases List.mem_cons.1 hr with rfl | hr
    · refine ⟨rfl, Int.le_refl _, ?_, hc0⟩
      simp only []; omega
    · obtain ⟨h1, h2, h3, h4⟩ := ih (fun x hx => hc x (by simp [hx])) hr
      exact ⟨h1, by omega, by omega, h4⟩

/-- C14: each caller of a batch gets a response, with the count it asked for, in order. -/
theorem C14_counts (phys : Int) : ∀ (cs : List Int) (l : Int), (splitResponse phys l cs).map (·.2.2) = cs := by
  intro cs
  induction cs with
  | nil => intro l; rfl
  | cons c cs ih => intro l; simp only [splitResponse, List.map_cons, ih]

/-- C14: callers of one batch get pairwise disjoint, increasing ranges. -/
theorem C14_disjoint {phys : Int} : ∀ {cs : List Int} {l : Int}, (∀ c ∈ cs, 0 < c) →
    (splitResponse phys l cs).Pairwise (fun a b => ∀ v w, respCovers a v → respCovers b w → v < w) := by
  intro cs
  induction cs with
  | nil => intro l _; exact .nil
  | cons c cs ih =>
    intro l hc
    refine List.pairwise_cons.2 ⟨?_, ih (fun x hx => hc x (by simp [hx]))⟩
    rintro b hb v w ⟨j, j0, j1, rfl⟩ ⟨k, k0, k1, rfl⟩
    obtain ⟨h1, h2, h3, h4⟩ := split_lower (fun x hx => hc x (by simp [hx])) hb
    simp only [] at j1 ⊢
    rw [h1]; omega

/-- C14: together they get exactly the granted range. -/
theorem C14_cover {phys : Int} : ∀ {cs : List Int} {l : Int}, (∀ c ∈ cs, 0 < c) → ∀ v,
    (∃ r ∈ splitResponse phys l cs, respCovers r v) ↔ Spec.Covers ⟨none, phys, l, batchCount cs⟩ v := by
  intro cs
  induction cs with
  | nil =>
    intro l _ v
    constructor
    · rintro ⟨r, hr, _⟩; cases hr
    · rintro ⟨j, j0, j1, _⟩; simp [batchCount] at j1; omega
  | cons c cs ih =>
    intro l hc v
    have hc0 := hc c (by simp)
    have := ih (l := l + c) (fun x hx => hc x (by simp [hx])) v
    constructor
    · rintro ⟨r, hr, j, j0, j1, rfl⟩
      obtain ⟨h1, h2, h3, h4⟩ := split_lower hc hr
      refine ⟨r.2.1 + j - l, by omega, ?_, ?_⟩
      · simp only []; omega
      · simp only []; rw [h1]; omega
    · rintro ⟨j, j0, j1, rfl⟩
      simp only [batchCount_cons] at j1
      by_cases hj : j < c
      · exact ⟨(phys, l, c), by simp [splitResponse], j, j0, hj, rfl⟩
      · obtain ⟨r, hr, hv⟩ := this.2 ⟨j - c, by omega, by simp only []; omega, by simp only []; omega⟩
        exact ⟨r, by simp [splitResponse, hr], hv⟩

/-- C14: a caller is told success exactly if the call and the oracle succeeded. -/
theorem C14_error_reported (ret : Int) (success : Bool) : callerRet ret success = 0 ↔ ret = 0 ∧ success = true := by
  unfold callerRet
  split
  · rename_i h; simp [h]
  · rename_i h
    cases success <;> simp at h ⊢
    all_goals omega

example : (∀ c ∈ [3, 1, 2], (0 : Int) < c) ∧ splitResponse 7 100 [3, 1, 2] = [(7, 100, 3), (7, 103, 1), (7, 104, 2)] := by
  decide

/-! ### The store's cache -/

/-- Invariant: what the cache may still hand out lies in the range it was filled with. -/
def CacheOk (n : Int) (c : Cache) : Prop := c.count ≤ n

/-- C14: every timestamp the store hands out lies in a range granted to it, at an offset below the granted count. -/
theorem C14_store_within_grants {n : Int} (hn : 0 < n) : ∀ (h : List (Option (Int × Int))) (c : Cache) (v : Int),
    c.count ≤ n → v ∈ storeRun n c h →
    (∃ p l, some (p, l) ∈ h ∧ p * 262144 + l ≤ v ∧ v < p * 262144 + l + n) ∨
      (c.phys * 262144 + c.logical + (n - c.count) ≤ v ∧ v < c.phys * 262144 + c.logical + n) := by
  intro h
  induction h with
  | nil => intro c v _ hv; cases hv
  | cons a h ih =>
    intro c v hc hv
    cases a with
    | some pl =>
      obtain ⟨p, l⟩ := pl
      simp only [storeRun, List.mem_cons] at hv
      rcases hv with rfl | hv
      · refine .inl ⟨p, l, by simp, ?_, ?_⟩ <;> simp only [cacheFill] <;> omega
      · rcases ih _ v (by simp only [cacheFill]; omega) hv with ⟨p', l', h1, h2⟩ | h2
        · exact .inl ⟨p', l', by simp [h1], h2⟩
        · simp only [cacheFill] at h2
          exact .inl ⟨p, l, by simp, by omega, by omega⟩
    | none =>
      simp only [storeRun] at hv
      split at hv
      · rename_i v' c' hh
        unfold cacheHit at hh
        split at hh
        case isFalse => cases hh
        case isTrue hcond =>
          simp only [Option.some.injEq, Prod.mk.injEq] at hh
          obtain ⟨rfl, rfl⟩ := hh
          rcases List.mem_cons.1 hv with rfl | hv
          · right; omega
          · rcases ih _ v (by simp only []; omega) hv with ⟨p', l', h1, h2⟩ | h2
            · exact .inl ⟨p', l', by simp [h1], h2⟩
            · simp only [] at h2; right; omega
      · rcases ih _ v hc hv with ⟨p', l', h1, h2⟩ | h2
        · exact .inl ⟨p', l', by simp [h1], h2⟩
        · exact .inr h2

/-- C14: if the ranges granted to the store increase (C12, C13), all timestamps the store hands out increase strictly. -/
theorem C14_store_increasing {n : Int} (hn : 0 < n) : ∀ (h : List (Option (Int × Int))) (c : Cache), c.count ≤ n →
    (h.filterMap id).Pairwise (fun a b => a.1 * 262144 + a.2 + n ≤ b.1 * 262144 + b.2) →
    (∀ a ∈ h.filterMap id, c.count > 0 → c.phys * 262144 + c.logical + n ≤ a.1 * 262144 + a.2) →
    (storeRun n c h).Pairwise (· < ·) := by
  intro h
  induction h with
  | nil => intro c _ _ _; exact .nil
  | cons a h ih =>
    intro c hc hp hb
    cases a with
    | some pl =>
      obtain ⟨p, l⟩ := pl
      simp only [List.filterMap_cons, id, List.pairwise_cons] at hp
      simp only [storeRun]
      refine List.pairwise_cons.2 ⟨?_, ih _ (by simp only [cacheFill]; omega) hp.2 ?_⟩
      · intro v hv
        rcases C14_store_within_grants hn h _ v (by simp only [cacheFill]; omega) hv with ⟨p', l', h1, h2, h3⟩ | h2
        · have := hp.1 (p', l') (by simpa using h1)
          simp only [cacheFill] at this ⊢; omega
        · simp only [cacheFill] at h2 ⊢; omega
      · intro b hbm _
        have := hp.1 b hbm
        simp only [cacheFill] at this ⊢; omega
    | none =>
      simp only [List.filterMap_cons, id] at hp
      have hb' : ∀ a ∈ h.filterMap id, c.count > 0 → c.phys * 262144 + c.logical + n ≤ a.1 * 262144 + a.2 := by
        intro a ha; exact hb a (by simpa [List.filterMap_cons] using ha)
      simp only [storeRun]
      split
      · rename_i v' c' hh
        unfold cacheHit at hh
        split at hh
        case isFalse => cases hh
        case isTrue hcond =>
          simp only [Option.some.injEq, Prod.mk.injEq] at hh
          obtain ⟨rfl, rfl⟩ := hh
          refine List.pairwise_cons.2 ⟨?_, ih _ (by simp only []; omega) hp ?_⟩
          · intro v hv
            rcases C14_store_within_grants hn h _ v (by simp only []; omega) hv with ⟨p', l', h1, h2, h3⟩ | h2
            · have := hb' (p', l') (by simpa using h1) hcond.2.2.1
              simp only [] at this; omega
            · simp only [] at h2; omega
          · intro a ha _
            exact hb' a ha hcond.2.2.1
      · exact ih c hc hp hb'

/-- Non-vacuity: two refills, cached calls in between. -/
example : storeRun 3 ⟨0, 0, 0⟩ [none, some (10, 5), none, none, none, some (11, 8), none] =
    [2621445, 2621446, 2621447, 2883592, 2883593] := by decide

/-! ### Degraded mode -/

theorem degradedGet_eq (inst : Nat) (o : Int × Nat) (count : Nat) :
    degradedGet inst o count = (o.1 * 262144 + o.2, (o.1, o.2 + count)) := by
  have h : ((0x3FF : Nat) ≥ 1 <<< 10) = False := by decide
  simp only [degradedGet, h, if_false, Nat.and_zero]
  simp only [ne_eq, not_true_eq_false, if_false, Prod.mk.injEq, and_true]
  omega

/-- C14: between two timer runs of one process, degraded timestamps do not repeat. -/
theorem C14_degraded_increasing (inst : Nat) (o : Int × Nat) (c d : Nat) :
    (degradedGet inst o c).1 + c = (degradedGet inst (degradedGet inst o c).2 d).1 := by
  simp only [degradedGet_eq]; omega

/-- Deviation: the instance id that is to keep processes apart never gets in (operator precedence), so two database
processes in degraded mode return the same timestamps. -/
theorem C14_degraded_two_processes_counterexample (inst inst' : Nat) (o : Int × Nat) (c : Nat) :
    degradedGet inst o c = degradedGet inst' o c := by
  rw [degradedGet_eq, degradedGet_eq]

/-- Deviation: with a clock behind the last value the timer goes to `now + 1` and not to `previous + 1`: here it returns
to a millisecond in use and starts over. -/
theorem C14_degraded_clock_back_counterexample :
    (degradedGet 7 (degradedTick (degradedGet 7 (1000, 0) 140000).2 999) 1).1 = (degradedGet 7 (1000, 0) 140000).1 := by
  simp only [degradedGet_eq]; decide

/-- Deviation: the logical part is not bounded, so it runs into the next millisecond. -/
theorem C14_degraded_overflow_counterexample :
    (degradedGet 7 (degradedGet 7 (1000, 0) 262144).2 1).1 = (degradedGet 7 (1001, 0) 1).1 := by
  simp only [degradedGet_eq]; decide

end BaikalDB.Tso
