import Verif.Region.Meta
import Verif.Region.StoreProps
import Mathlib.Data.List.TakeWhile

/-!
# C10: the meta server's region map tiles the key space
-/

namespace BaikalDB.Region

open KeyEnc (endKeyCompare)

/-! ## Specification -/

/-- Every key belongs to exactly one entry of the map, judged by the range of the region the entry names. -/
def Tiles (infos : Nat → Option RI) (keys : List (Bytes × Nat)) : Prop :=
  ∀ x, ∃ e ∈ keys, (∃ r, infos e.2 = some r ∧ Covers r.start r.stop x) ∧
    ∀ e' ∈ keys, (∃ r, infos e'.2 = some r ∧ Covers r.start r.stop x) → e' = e

/-- Each entry is filed under its region's start key. -/
def Filed (infos : Nat → Option RI) (keys : List (Bytes × Nat)) : Prop :=
  ∀ e ∈ keys, ∃ r, infos e.2 = some r ∧ r.start = e.1 ∧ r.id = e.2

/-! ## Consecutive regions -/

/-- Position of an end key: `none` is plus infinity. -/
def endPos (k : Bytes) : Option Bytes := if k = [] then none else some k

/-- The region's range is not empty. -/
def NE (r : RI) : Prop := r.stop = [] ∨ BLt r.start r.stop

/-- The regions of the list follow each other without gap from position `p` to position `q`. -/
def Seg : Option Bytes → List RI → Option Bytes → Prop
  | p, [], q => p = q
  | p, r :: t, q => p = some r.start ∧ NE r ∧ Seg (endPos r.stop) t q

def ent (r : RI) : Bytes × Nat := (r.start, r.id)

theorem seg_append {l1 l2 : List RI} {p q : Option Bytes} :
    Seg p (l1 ++ l2) q ↔ ∃ m, Seg p l1 m ∧ Seg m l2 q := by
  induction l1 generalizing p with
  | nil => simp [Seg]
  | cons r t ih => simp only [List.cons_append, Seg, ih]; constructor
                   · rintro ⟨h1, h2, m, h3, h4⟩; exact ⟨m, ⟨h1, h2, h3⟩, h4⟩
                   · rintro ⟨m, ⟨h1, h2, h3⟩, h4⟩; exact ⟨h1, h2, m, h3, h4⟩

/-- Order of positions. -/
def PLe : Option Bytes → Option Bytes → Prop
  | _, none => True
  | none, some _ => False
  | some a, some b => BLe a b

def PLt : Option Bytes → Option Bytes → Prop
  | none, _ => False
  | some _, none => True
  | some a, some b => BLt a b

theorem NE.lt {r : RI} (h : NE r) : PLt (some r.start) (endPos r.stop) := by
  unfold endPos
  split
  · trivial
  · rename_i hne; exact h.resolve_left hne

theorem PLt.trans {a b c : Option Bytes} (h1 : PLt a b) (h2 : PLt b c) : PLt a c := by
  cases a <;> cases b <;> cases c <;> simp_all [PLt]
  exact BLt.trans h1 h2

theorem PLt.irrefl (a : Option Bytes) : ¬ PLt a a := by
  cases a with
  | none => simp [PLt]
  | some a => exact BLt.irrefl a

/-- In a segment every start lies between the two ends, and starts ascend. -/
theorem seg_starts {l : List RI} {p q : Option Bytes} (h : Seg p l q) :
    (∀ r ∈ l, p = some r.start ∨ PLt p (some r.start)) ∧ (∀ r ∈ l, PLt (some r.start) q) ∧
    l.Pairwise (fun a b => BLt a.start b.start) := by
  induction l generalizing p with
  | nil => simp
  | cons r t ih =>
    obtain ⟨h1, h2, h3⟩ := h
    obtain ⟨i1, i2, i3⟩ := ih h3
    have hlt := h2.lt
    have hx : ∀ x ∈ t, PLt (some r.start) (some x.start) := fun x hx => by
      rcases i1 x hx with h | h
      · rw [← h]; exact hlt
      · exact hlt.trans h
    refine ⟨fun x hx' => ?_, fun x hx' => ?_, ?_⟩
    · rcases List.mem_cons.1 hx' with rfl | hx'
      · exact .inl h1
      · subst h1; exact .inr (hx x hx')
    · rcases List.mem_cons.1 hx' with rfl | hx'
      · cases t with
        | nil => rw [← (show endPos x.stop = q from h3)]; exact hlt
        | cons y t => exact (hx y List.mem_cons_self).trans (i2 y List.mem_cons_self)
      · exact i2 x hx'
    · exact List.pairwise_cons.2 ⟨fun x hx' => hx x hx', i3⟩

theorem covers_iff_pos {r : RI} {x : Bytes} : Covers r.start r.stop x ↔ BLe r.start x ∧ PLt (some x) (endPos r.stop) := by
  unfold Covers endPos
  split
  · rename_i h; simp [h, PLt]
  · rename_i h; simp [h, PLt]

/-- A segment covers the keys between its ends, each exactly once. -/
theorem seg_cover {l : List RI} {p q : Option Bytes} (h : Seg p l q) {x : Bytes} :
    (PLe p (some x) ∧ PLt (some x) q → ∃ r ∈ l, Covers r.start r.stop x) ∧
    (∀ r ∈ l, Covers r.start r.stop x → PLe p (some x) ∧ PLt (some x) q) ∧
    (∀ r ∈ l, ∀ r' ∈ l, Covers r.start r.stop x → Covers r'.start r'.stop x → r = r') := by
  induction l generalizing p with
  | nil =>
    refine ⟨fun ⟨h1, h2⟩ => ?_, by simp, by simp⟩
    have hpq : p = q := h
    subst hpq
    cases p with
    | none => exact absurd h1 (by simp [PLe])
    | some a => exact absurd h2 (not_BLt.2 h1)
  | cons r t ih =>
    obtain ⟨h1, h2, h3⟩ := h
    subst h1
    obtain ⟨i1, i2, i3⟩ := ih h3
    have hs := seg_starts h3
    have hlt := h2.lt
    have hex : Covers r.start r.stop x → ∀ r' ∈ t, ¬ Covers r'.start r'.stop x := by
      intro hc r' hr' hc'
      have hb := (i2 r' hr' hc').1
      have hc2 := (covers_iff_pos.1 hc).2
      cases he : endPos r.stop with
      | none => rw [he] at hb; exact hb
      | some e => rw [he] at hb hc2; exact not_BLt.2 hb hc2
    have hq : PLt (some r.start) q ∧ (∀ y, PLt (some y) (endPos r.stop) → PLt (some y) q) := by
      cases t with
      | nil => rw [← (show endPos r.stop = q from h3)]; exact ⟨hlt, fun _ h => h⟩
      | cons a t =>
        have ha : endPos r.stop = some a.start := h3.1
        have haq := hs.2.1 a List.mem_cons_self
        rw [ha] at hlt ⊢
        exact ⟨hlt.trans haq, fun _ h => h.trans haq⟩
    refine ⟨fun ⟨hp, hx⟩ => ?_, fun r' hr' hc => ?_, fun a ha b hb hca hcb => ?_⟩
    · by_cases hc : PLt (some x) (endPos r.stop)
      · exact ⟨r, List.mem_cons_self, covers_iff_pos.2 ⟨hp, hc⟩⟩
      · obtain ⟨r', hr', hc'⟩ := i1 ⟨by
          cases he : endPos r.stop with
          | none => rw [he] at hc; exact absurd trivial hc
          | some e => rw [he] at hc; exact not_BLt.1 hc, hx⟩
        exact ⟨r', List.mem_cons_of_mem _ hr', hc'⟩
    · rcases List.mem_cons.1 hr' with rfl | hr'
      · have := covers_iff_pos.1 hc; exact ⟨this.1, hq.2 x this.2⟩
      · have := i2 r' hr' hc
        refine ⟨?_, this.2⟩
        have h5 := this.1
        cases he : endPos r.stop with
        | none => rw [he] at h5; exact h5.elim
        | some e => rw [he] at h5 hlt; exact (BLt.trans_le hlt h5).le
    · rcases List.mem_cons.1 ha with ha | ha <;> rcases List.mem_cons.1 hb with hb | hb
      · rw [ha, hb]
      · rw [ha] at hca; exact absurd hcb (hex hca b hb)
      · rw [hb] at hcb; exact absurd hca (hex hcb a ha)
      · exact i3 a ha b hb hca hcb

/-- The shape of a good map: consecutive regions from the empty key to infinity, filed under their start keys. -/
def Good (infos : Nat → Option RI) (keys : List (Bytes × Nat)) : Prop :=
  ∃ l, Seg (some []) l none ∧ keys = l.map ent ∧ ∀ r ∈ l, infos r.id = some r

theorem Good.tiles {infos : Nat → Option RI} {keys : List (Bytes × Nat)} (h : Good infos keys) : Tiles infos keys := by
  obtain ⟨l, hs, rfl, hi⟩ := h
  intro x
  obtain ⟨h1, _, h3⟩ := seg_cover hs (x := x)
  obtain ⟨r, hr, hc⟩ := h1 ⟨BLe_nil x, trivial⟩
  refine ⟨ent r, List.mem_map.2 ⟨r, hr, rfl⟩, ⟨r, hi r hr, hc⟩, ?_⟩
  rintro e' he' ⟨r', hr', hc'⟩
  obtain ⟨r2, hr2, rfl⟩ := List.mem_map.1 he'
  rw [show (ent r2).2 = r2.id from rfl, hi r2 hr2] at hr'
  injection hr' with hr'; subst hr'
  rw [h3 r hr r2 hr2 hc hc']

theorem Good.filed {infos : Nat → Option RI} {keys : List (Bytes × Nat)} (h : Good infos keys) : Filed infos keys := by
  obtain ⟨l, hs, rfl, hi⟩ := h
  intro e he
  obtain ⟨r, hr, rfl⟩ := List.mem_map.1 he
  exact ⟨r, hi r hr, rfl, rfl⟩

/-! ## Ordered maps -/

theorem minsert_mid {α : Type} {k : Bytes} {v : α} {A B : List (Bytes × α)} (hA : ∀ e ∈ A, BLt e.1 k)
    (hB : ∀ e ∈ B, BLt k e.1) : minsert k v (A ++ B) = A ++ (k, v) :: B := by
  induction A with
  | nil =>
    cases B with
    | nil => rfl
    | cons b B => 
      have : bcmp k b.1 = .lt := hB b List.mem_cons_self
      simp [minsert, this]
  | cons a A ih =>
    have : bcmp k a.1 = .gt := bcmp_gt_iff.2 (hA a List.mem_cons_self)
    simp only [List.cons_append, minsert, this]
    rw [ih fun e he => hA e (List.mem_cons_of_mem _ he)]

theorem minsert_fold {N A B : List (Bytes × Nat)} (hN : N.Pairwise fun a b => BLt a.1 b.1)
    (hA : ∀ e ∈ A, ∀ n ∈ N, BLt e.1 n.1) (hB : ∀ e ∈ B, ∀ n ∈ N, BLt n.1 e.1) :
    N.foldl (fun m e => minsert e.1 e.2 m) (A ++ B) = A ++ N ++ B := by
  induction N generalizing A with
  | nil => simp
  | cons n N ih =>
    rw [List.foldl_cons, minsert_mid (fun e he => hA e he n List.mem_cons_self) (fun e he => hB e he n List.mem_cons_self)]
    rw [show A ++ (n.1, n.2) :: B = (A ++ [n]) ++ B by simp]
    rw [List.pairwise_cons] at hN
    rw [ih hN.2]
    · simp
    · intro e he m hm
      rcases List.mem_append.1 he with he | he
      · exact hA e he m (List.mem_cons_of_mem _ hm)
      · rw [List.mem_singleton] at he; subst he; exact hN.1 m hm
    · exact fun e he m hm => hB e he m (List.mem_cons_of_mem _ hm)

theorem keyIds_eq {req : List RI} (h : ((req.filter fun r => !r.isNone).map ent).Pairwise fun a b => BLt a.1 b.1) :
    keyIds req = (req.filter fun r => !r.isNone).map ent := by
  have gen : ∀ (req : List RI) (A : List (Bytes × Nat)),
      (A ++ (req.filter fun r => !r.isNone).map ent).Pairwise (fun a b => BLt a.1 b.1) →
      req.foldl (fun m r => if r.isNone then m else minsert r.start r.id m) A =
        A ++ (req.filter fun r => !r.isNone).map ent := by
    intro req
    induction req with
    | nil => intro A _; simp
    | cons r t ih =>
      intro A hA
      rw [List.foldl_cons]
      by_cases hr : r.isNone = true
      · rw [if_pos hr]
        simp only [List.filter_cons, hr, Bool.not_true] at hA ⊢
        exact ih A hA
      · simp only [Bool.not_eq_true] at hr
        simp only [List.filter_cons, hr, Bool.not_false, if_true, List.map_cons] at hA ⊢
        rw [if_neg (by decide)]
        have h1 : ∀ e ∈ A, BLt e.1 r.start := fun e he =>
          (List.pairwise_append.1 hA).2.2 e he (ent r) List.mem_cons_self
        have h2 := minsert_mid (k := r.start) (v := r.id) (A := A) (B := []) h1 (by simp)
        rw [List.append_nil] at h2
        rw [h2, ih (A ++ [(r.start, r.id)]) (by simpa [ent] using hA)]
        simp [ent]
  have := gen req [] (by simpa using h)
  simpa [keyIds] using this

/-! ## Smallest start and largest end of a request -/

theorem minStart_spec (t : List RI) (k lo : Bytes) (hk : BLe lo k) (ht : ∀ r ∈ t, BLe lo r.start)
    (hex : k = lo ∨ ∃ r ∈ t, r.start = lo) : minStart t k = lo := by
  induction t generalizing k with
  | nil => simpa [minStart] using hex
  | cons r t ih =>
    rw [minStart]
    have hr := ht r List.mem_cons_self
    apply ih
    · split
      · exact hk
      · exact hr
    · exact fun x hx => ht x (List.mem_cons_of_mem _ hx)
    · rcases hex with rfl | ⟨x, hx, rfl⟩
      · left
        split
        · rfl
        · rename_i hn
          have hn' : ¬ BLt k r.start := by simpa [BLt] using hn
          exact BLe.antisymm (not_BLt.1 hn') hr
      · rcases List.mem_cons.1 hx with rfl | hx
        · left
          split
          · rename_i hn
            have hn' : BLt k x.start := by simpa [BLt] using hn
            exact absurd hn' (not_BLt.2 hk)
          · rfl
        · exact .inr ⟨x, hx, rfl⟩

/-- `a` is not after `b` as an end key. -/
def EndLe (a b : Bytes) : Prop := b = [] ∨ (a ≠ [] ∧ BLe a b)

theorem endCmp_gt {a b : Bytes} : endKeyCompare a b = .gt ↔ ¬ EndLe a b := by
  unfold endKeyCompare EndLe
  by_cases h : a = b
  · subst h
    simp only [if_true]
    constructor
    · intro h; cases h
    · intro h; exact absurd (by by_cases ha : a = [] <;> simp [ha, BLe.refl]) h
  · rw [if_neg h]
    by_cases ha : a = []
    · rw [if_pos ha]; simp [ha]; rintro rfl; exact h ha
    · rw [if_neg ha]
      by_cases hb : b = []
      · simp [hb]
      · rw [if_neg hb, bcmp_gt_iff]; simp [hb, ha, not_BLe]

theorem EndLe.antisymm {a b : Bytes} (h1 : EndLe a b) (h2 : EndLe b a) : a = b := by
  unfold EndLe at h1 h2
  rcases h1 with h1 | ⟨h1, h1'⟩ <;> rcases h2 with h2 | ⟨h2, h2'⟩
  · rw [h1, h2]
  · exact absurd h1 h2
  · exact absurd h2 h1
  · exact BLe.antisymm h1' h2'

theorem maxEnd_spec (t : List RI) (k hi : Bytes) (hk : EndLe k hi) (ht : ∀ r ∈ t, EndLe r.stop hi)
    (hex : k = hi ∨ ∃ r ∈ t, r.stop = hi) : maxEnd t k = hi := by
  induction t generalizing k with
  | nil => simpa [maxEnd] using hex
  | cons r t ih =>
    rw [maxEnd]
    have hr := ht r List.mem_cons_self
    apply ih
    · split
      · exact hk
      · exact hr
    · exact fun x hx => ht x (List.mem_cons_of_mem _ hx)
    · rcases hex with rfl | ⟨x, hx, rfl⟩
      · left
        split
        · rfl
        · rename_i hn
          have hn' : EndLe k r.stop := by
            by_contra hc; exact hn (by simp [endCmp_gt.2 hc])
          exact EndLe.antisymm hr hn'
      · rcases List.mem_cons.1 hx with rfl | hx
        · left
          split
          · rename_i hn
            simp only [beq_iff_eq] at hn
            exact absurd hk (endCmp_gt.1 hn)
          · rfl
        · exact .inr ⟨x, hx, rfl⟩

/-! ## Theorem A: applying a consistent request -/

/-- A request whose non-empty regions follow each other from `lo` to `hi` and whose empty ones lie within. -/
structure Consistent (infos : Nat → Option RI) (keys : List (Bytes × Nat)) (req : List RI) (lo hi : Bytes) : Prop where
  chain : Seg (some lo) (req.filter fun r => !r.isNone) (endPos hi)
  some : (req.filter fun r => !r.isNone) ≠ []
  empties : ∀ r ∈ req, r.isNone = true → BLe lo r.start ∧ EndLe r.stop hi
  ids : (req.map (·.id)).Nodup
  /-- a region of the request that is listed is listed inside the interval being replaced -/
  inside : ∀ r ∈ req, ∀ e ∈ keys, e.2 = r.id → BLe lo e.1 ∧ PLt (.some e.1) (endPos hi)

theorem adjConf_id (infos : Nat → Option RI) (r : RI) : (adjConf infos r).id = r.id := by
  unfold adjConf; split <;> rfl

theorem adjConf_start (infos : Nat → Option RI) (r : RI) : (adjConf infos r).start = r.start := by
  unfold adjConf; split <;> rfl

theorem adjConf_stop (infos : Nat → Option RI) (r : RI) : (adjConf infos r).stop = r.stop := by
  unfold adjConf; split <;> rfl

theorem adjConf_isNone (infos : Nat → Option RI) (r : RI) : (adjConf infos r).isNone = r.isNone := by
  simp [RI.isNone, adjConf_start, adjConf_stop]

theorem seg_adj (infos : Nat → Option RI) {l : List RI} {p q : Option Bytes} (h : Seg p l q) :
    Seg p (l.map (adjConf infos)) q := by
  induction l generalizing p with
  | nil => exact h
  | cons r t ih =>
    obtain ⟨h1, h2, h3⟩ := h
    refine ⟨by rw [adjConf_start]; exact h1, ?_, by rw [adjConf_stop]; exact ih h3⟩
    unfold NE; rw [adjConf_start, adjConf_stop]; exact h2

theorem filter_adj (infos : Nat → Option RI) (l : List RI) :
    (l.map (adjConf infos)).filter (fun r => !r.isNone) = (l.filter fun r => !r.isNone).map (adjConf infos) := by
  induction l with
  | nil => rfl
  | cons r t ih => simp only [List.map_cons, List.filter_cons, adjConf_isNone, ih]; split <;> simp

theorem setInfos_other (infos : Nat → Option RI) (l : List RI) (i : Nat) (h : ∀ r ∈ l, r.id ≠ i) :
    setInfos infos l i = infos i := by
  induction l generalizing infos with
  | nil => rfl
  | cons r t ih =>
    rw [setInfos, ih _ fun r hr => h r (List.mem_cons_of_mem _ hr),
      if_neg fun he => h r List.mem_cons_self he.symm]

theorem setInfos_mem (infos : Nat → Option RI) (l : List RI) (hn : (l.map (·.id)).Nodup) (r : RI) (hr : r ∈ l) :
    setInfos infos l r.id = some r := by
  induction l generalizing infos with
  | nil => cases hr
  | cons a t ih =>
    rw [List.map_cons, List.nodup_cons] at hn
    rw [setInfos]
    rcases List.mem_cons.1 hr with rfl | hr
    · rw [setInfos_other]
      · simp
      · exact fun x hx he => hn.1 (List.mem_map.2 ⟨x, hx, he⟩)
    · exact ih _ hn.2 hr

theorem seg_find {l : List RI} {p q : Option Bytes} {k : Bytes} (h : Seg p l q)
    (hk : (mfind k (l.map ent)).isEmpty = false) :
    ∃ l1 l2, l = l1 ++ l2 ∧ Seg p l1 (some k) ∧ Seg (some k) l2 q ∧
      (l.map ent).takeWhile (fun e => e.1 != k) = l1.map ent ∧ mfind k (l.map ent) = l2.map ent ∧ l2 ≠ [] := by
  induction l generalizing p with
  | nil => simp [mfind] at hk
  | cons r t ih =>
    obtain ⟨h1, h2, h3⟩ := h
    by_cases hr : r.start = k
    · refine ⟨[], r :: t, rfl, ?_, ?_, ?_, ?_, by simp⟩
      · rw [h1, hr]; rfl
      · exact ⟨by rw [hr], h2, h3⟩
      · simp [ent, hr]
      · simp [mfind, ent, hr]
    · have hne : ((ent r).1 != k) = true := by simpa [ent] using hr
      have hm : mfind k ((r :: t).map ent) = mfind k (t.map ent) := by
        simp [mfind, hne]
      rw [hm] at hk
      obtain ⟨l1, l2, e1, e2, e3, e4, e5, e6⟩ := ih h3 hk
      refine ⟨r :: l1, l2, by rw [e1]; rfl, ⟨h1, h2, e2⟩, e3, ?_, by rw [hm, e5], e6⟩
      rw [List.map_cons, List.takeWhile_cons, if_pos hne, e4]; rfl

theorem seg_end {l : List RI} {p : Option Bytes} {hi : Bytes} (h : Seg p l (endPos hi)) (hne : l ≠ []) :
    (∀ r ∈ l, EndLe r.stop hi) ∧ ∃ r ∈ l, r.stop = hi := by
  induction l generalizing p with
  | nil => exact absurd rfl hne
  | cons r t ih =>
    obtain ⟨h1, h2, h3⟩ := h
    cases t with
    | nil =>
      have he : endPos r.stop = endPos hi := h3
      have : r.stop = hi := by
        unfold endPos at he
        by_cases ha : r.stop = [] <;> by_cases hb : hi = [] <;> simp_all
      refine ⟨fun x hx => ?_, r, by simp, this⟩
      rw [List.mem_singleton] at hx; subst hx; subst this
      by_cases h : x.stop = [] <;> simp [EndLe, h, BLe.refl]
    | cons a t =>
      obtain ⟨i1, x, hx, i2⟩ := ih h3 (by simp)
      refine ⟨fun y hy => ?_, x, List.mem_cons_of_mem _ hx, i2⟩
      rcases List.mem_cons.1 hy with rfl | hy
      · have ha : endPos y.stop = some a.start := h3.1
        have hlt := (seg_starts h3).2.1 a List.mem_cons_self
        unfold endPos at ha hlt
        by_cases hb : hi = []
        · exact .inl hb
        · rw [if_neg hb] at hlt
          right
          by_cases hc : y.stop = []
          · rw [if_pos hc] at ha; cases ha
          · rw [if_neg hc] at ha
            injection ha with ha
            exact ⟨hc, ha ▸ (show BLt a.start hi from hlt).le⟩
      · exact i1 y hy

theorem seg_start {l : List RI} {lo : Bytes} {q : Option Bytes} (h : Seg (some lo) l q) (hne : l ≠ []) :
    (∀ r ∈ l, BLe lo r.start) ∧ ∃ r ∈ l, r.start = lo := by
  constructor
  · intro r hr
    rcases (seg_starts h).1 r hr with h | h
    · injection h with h; subst h; exact BLe.refl _
    · exact (show BLt lo r.start from h).le
  · cases l with
    | nil => exact absurd rfl hne
    | cons r t => obtain ⟨h1, _⟩ := h; injection h1 with h1; exact ⟨r, by simp, h1.symm⟩

theorem Consistent.bounds {infos : Nat → Option RI} {keys : List (Bytes × Nat)} {r : RI} {t : List RI} {lo hi : Bytes}
    (hc : Consistent infos keys (r :: t) lo hi) : minStart t r.start = lo ∧ maxEnd t r.stop = hi := by
  obtain ⟨a1, x, hx, a2⟩ := seg_start hc.chain hc.some
  obtain ⟨b1, y, hy, b2⟩ := seg_end hc.chain hc.some
  have hlo : ∀ z ∈ r :: t, BLe lo z.start := fun z hz => by
    by_cases hn : z.isNone = true
    · exact (hc.empties z hz hn).1
    · exact a1 z (List.mem_filter.2 ⟨hz, by simpa using hn⟩)
  have hhi : ∀ z ∈ r :: t, EndLe z.stop hi := fun z hz => by
    by_cases hn : z.isNone = true
    · exact (hc.empties z hz hn).2
    · exact b1 z (List.mem_filter.2 ⟨hz, by simpa using hn⟩)
  constructor
  · apply minStart_spec
    · exact hlo r List.mem_cons_self
    · exact fun z hz => hlo z (List.mem_cons_of_mem _ hz)
    · rcases List.mem_cons.1 (List.mem_filter.1 hx).1 with rfl | h
      · exact .inl a2
      · exact .inr ⟨x, h, a2⟩
  · apply maxEnd_spec
    · exact hhi r List.mem_cons_self
    · exact fun z hz => hhi z (List.mem_cons_of_mem _ hz)
    · rcases List.mem_cons.1 (List.mem_filter.1 hy).1 with rfl | h
      · exact .inl b2
      · exact .inr ⟨y, h, b2⟩

theorem prop_regroup {A B C N R : Prop} (h1 : A → ¬ R) (h3 : C → ¬ R) (h2 : B → R) :
    (A ∨ N) ∨ C ↔ ((A ∨ B ∨ C) ∧ ¬ R) ∨ N := by
  constructor
  · rintro ((h | h) | h)
    · exact .inl ⟨.inl h, h1 h⟩
    · exact .inr h
    · exact .inl ⟨.inr (.inr h), h3 h⟩
  · rintro (⟨h | h | h, hr⟩ | h)
    · exact .inl (.inl h)
    · exact absurd (h2 h) hr
    · exact .inr h
    · exact .inl (.inr h)

/-- Applying a consistent request to a good map gives a good map, in which exactly the entries of the interval are
replaced by those of the request. -/
theorem good_update_exact {infos infos' : Nat → Option RI} {keys keys' : List (Bytes × Nat)} {req : List RI} {lo hi : Bytes}
    (hg : Good infos keys) (hc : Consistent infos keys req lo hi)
    (hu : updateRegion infos keys false req = some (infos', keys')) : Good infos' keys' ∧
      ∀ e, e ∈ keys' ↔ (e ∈ keys ∧ ¬ (BLe lo e.1 ∧ PLt (some e.1) (endPos hi))) ∨
        ∃ r ∈ req, r.isNone = false ∧ e = (r.start, r.id) := by
  obtain ⟨l, hs, rfl, hi'⟩ := hg
  cases req with
  | nil => cases hu
  | cons r t =>
    have hb := hc.bounds
    have hl : l ≠ [] := by rintro rfl; cases (show some [] = none from hs)
    rw [updateRegion] at hu
    split at hu
    · cases hu
    simp only [Bool.false_eq_true, if_false, hb.1, hb.2] at hu
    split at hu
    case isFalse => cases hu
    rename_i hchk
    injection hu with hu
    injection hu with hu1 hu2
    have hlt : PLt (some lo) (endPos hi) := by
      obtain ⟨_, x, hx, rfl⟩ := seg_start hc.chain hc.some
      exact (seg_starts hc.chain).2.1 x hx
    have hemp : (l.map ent).isEmpty = false := by cases l <;> simp_all
    have hck : (mfind lo (l.map ent)).isEmpty = false ∧ (hi = [] ∨ (mfind hi (l.map ent)).isEmpty = false) := by
      simpa [checkUpdate, hemp] using hchk
    obtain ⟨l1, l2, e1, e2, e3, e4, e5, e6⟩ := seg_find hs hck.1
    -- what remains behind the replaced interval
    obtain ⟨m, l3, f1, f2, f3, f4⟩ : ∃ m l3, l2 = m ++ l3 ∧ Seg (some lo) m (endPos hi) ∧ Seg (endPos hi) l3 none ∧
        (mfind lo (l.map ent)).dropWhile (fun e => !(hi != [] && e.1 == hi)) = l3.map ent := by
      by_cases hh : hi = []
      · refine ⟨l2, [], by simp, ?_, ?_, ?_⟩
        · simpa [endPos, hh] using e3
        · simp [endPos, hh, Seg]
        · have : ∀ L : List (Bytes × Nat), L.dropWhile (fun _ => true) = [] := fun L => by
            induction L <;> simp_all
          simp [hh, this]
      · have h2 := hck.2.resolve_left hh
        have hlt' : BLt lo hi := by simpa [endPos, hh, PLt] using hlt
        have h3 : (mfind hi (l2.map ent)).isEmpty = false := by
          rw [e1, List.map_append] at h2
          have : mfind hi (l1.map ent ++ l2.map ent) = mfind hi (l2.map ent) := by
            unfold mfind
            rw [List.dropWhile_append_of_pos]
            intro e he
            obtain ⟨x, hx, rfl⟩ := List.mem_map.1 he
            have : BLt x.start lo := (seg_starts e2).2.1 x hx
            simp only [ent, bne_iff_ne, ne_eq]
            rintro rfl
            exact (this.trans hlt').irrefl
          rwa [this] at h2
        obtain ⟨m, l3, g1, g2, g3, g4, g5, g6⟩ := seg_find e3 h3
        refine ⟨m, l3, g1, by simpa [endPos, hh] using g2, by simpa [endPos, hh] using g3, ?_⟩
        rw [e5, ← g5]
        unfold mfind
        congr 1
        funext e
        simp [hh, bne]
    -- the regions inserted
    have hn := seg_adj infos hc.chain
    rw [← filter_adj] at hn
    have hst := seg_starts hn
    have hpw : ((((r :: t).map (adjConf infos)).filter fun r => !r.isNone).map ent).Pairwise fun a b => BLt a.1 b.1 :=
      List.pairwise_map.2 hst.2.2
    have hne : (((r :: t).map (adjConf infos)).filter fun r => !r.isNone) ≠ [] := by
      rw [filter_adj]; simpa using hc.some
    rw [keyIds_eq hpw, updateKeys, if_neg (by simpa using hne), if_neg (by simpa using hl),
      if_neg (by simp [hck.1]), f4, e4] at hu2
    have hss := seg_start hn hne
    rw [minsert_fold hpw] at hu2
    · have hexact : ∀ e, e ∈ keys' ↔ (e ∈ l.map ent ∧ ¬ (BLe lo e.1 ∧ PLt (some e.1) (endPos hi))) ∨
          ∃ r' ∈ r :: t, r'.isNone = false ∧ e = (r'.start, r'.id) := by
        intro e
        have hN : e ∈ (((r :: t).map (adjConf infos)).filter fun r => !r.isNone).map ent ↔
            ∃ r' ∈ r :: t, r'.isNone = false ∧ e = (r'.start, r'.id) := by
          rw [filter_adj, List.map_map, List.mem_map]
          constructor
          · rintro ⟨x, hx, rfl⟩
            rw [List.mem_filter] at hx
            exact ⟨x, hx.1, by simpa using hx.2, by simp [ent, adjConf_start, adjConf_id]⟩
          · rintro ⟨x, hx, hn, rfl⟩
            exact ⟨x, List.mem_filter.2 ⟨hx, by simp [hn]⟩, by simp [ent, adjConf_start, adjConf_id]⟩
        rw [← hu2, List.mem_append, List.mem_append, hN]
        have h1 : e ∈ l1.map ent → ¬ (BLe lo e.1 ∧ PLt (some e.1) (endPos hi)) := by
          intro he hh
          obtain ⟨a, ha, rfl⟩ := List.mem_map.1 he
          exact not_BLt.2 hh.1 ((seg_starts e2).2.1 a ha)
        have h3 : e ∈ l3.map ent → ¬ (BLe lo e.1 ∧ PLt (some e.1) (endPos hi)) := by
          intro he hh
          obtain ⟨a, ha, rfl⟩ := List.mem_map.1 he
          rcases (seg_starts f3).1 a ha with h' | h'
          · rw [h'] at hh; exact PLt.irrefl _ hh.2
          · exact PLt.irrefl _ (h'.trans hh.2)
        have h2 : e ∈ m.map ent → BLe lo e.1 ∧ PLt (some e.1) (endPos hi) := by
          intro he
          obtain ⟨a, ha, rfl⟩ := List.mem_map.1 he
          exact ⟨(seg_start f2 (List.ne_nil_of_mem ha)).1 a ha, (seg_starts f2).2.1 a ha⟩
        rw [e1, f1, List.map_append, List.map_append, List.mem_append, List.mem_append]
        exact prop_regroup h1 h3 h2
      refine ⟨⟨l1 ++ (((r :: t).map (adjConf infos)).filter fun r => !r.isNone) ++ l3, ?_, ?_, ?_⟩, hexact⟩
      · exact seg_append.2 ⟨_, seg_append.2 ⟨_, e2, hn⟩, f3⟩
      · rw [← hu2]; simp
      · intro x hx
        rw [← hu1]
        have hids : (((r :: t).map (adjConf infos)).map (·.id)).Nodup := by
          have : ((r :: t).map (adjConf infos)).map (·.id) = (r :: t).map (·.id) := by
            rw [List.map_map]; exact List.map_congr_left fun z _ => adjConf_id infos z
          rw [this]; exact hc.ids
        have hout : x ∈ l → ¬ (BLe lo x.start ∧ PLt (some x.start) (endPos hi)) →
            setInfos infos ((r :: t).map (adjConf infos)) x.id = some x := by
          intro hxl hno
          rw [setInfos_other]
          · exact hi' x hxl
          · intro z hz he
            obtain ⟨z', hz', rfl⟩ := List.mem_map.1 hz
            rw [adjConf_id] at he
            exact hno (hc.inside z' hz' (ent x) (List.mem_map.2 ⟨x, hxl, rfl⟩) he.symm)
        rcases List.mem_append.1 hx with hx | hx
        · rcases List.mem_append.1 hx with hx | hx
          · refine hout (by rw [e1]; exact List.mem_append_left _ hx) fun h => ?_
            exact not_BLt.2 h.1 ((seg_starts e2).2.1 x hx)
          · exact setInfos_mem _ _ hids x (List.mem_filter.1 hx).1
        · refine hout (by rw [e1, f1]; simp [hx]) fun h => ?_
          rcases (seg_starts f3).1 x hx with h' | h'
          · rw [h'] at h; exact PLt.irrefl _ h.2
          · exact PLt.irrefl _ (h'.trans h.2)
    · intro e he n hn'
      obtain ⟨a, ha, rfl⟩ := List.mem_map.1 he
      obtain ⟨b, hb, rfl⟩ := List.mem_map.1 hn'
      exact BLt.trans_le ((seg_starts e2).2.1 a ha) (hss.1 b hb)
    · intro e he n hn'
      obtain ⟨a, ha, rfl⟩ := List.mem_map.1 he
      obtain ⟨b, hb, rfl⟩ := List.mem_map.1 hn'
      have h1 := hst.2.1 b hb
      rcases (seg_starts f3).1 a ha with h' | h'
      · rw [h'] at h1; exact h1
      · exact h1.trans h'

theorem good_update {infos infos' : Nat → Option RI} {keys keys' : List (Bytes × Nat)} {req : List RI} {lo hi : Bytes}
    (hg : Good infos keys) (hc : Consistent infos keys req lo hi)
    (hu : updateRegion infos keys false req = some (infos', keys')) : Good infos' keys' :=
  (good_update_exact hg hc hu).1

/-! ## Requests built from heartbeats -/

theorem NE.not_isNone {r : RI} (h : NE r) : r.isNone = false := by
  by_cases hs : r.start = r.stop
  · rcases h with h | h
    · simp [RI.isNone, hs, h]
    · rw [hs] at h; exact absurd h (BLt.irrefl _)
  · simp [RI.isNone, hs]

theorem seg_ne {l : List RI} {p q : Option Bytes} (h : Seg p l q) : ∀ r ∈ l, NE r := by
  induction l generalizing p with
  | nil => simp
  | cons r t ih =>
    obtain ⟨_, h2, h3⟩ := h
    intro x hx
    rcases List.mem_cons.1 hx with rfl | hx
    · exact h2
    · exact ih h3 x hx

theorem seg_filter {l : List RI} {p q : Option Bytes} (h : Seg p l q) : l.filter (fun r => !r.isNone) = l :=
  List.filter_eq_self.2 fun r hr => by simp [(seg_ne h r hr).not_isNone]

theorem endPos_of_not_gt {a b : Bytes} (hne : a ≠ b) (h : endKeyCompare a b ≠ .gt) : endPos a = some a := by
  unfold endPos
  split
  · rename_i ha
    have : EndLe a b := by by_contra hc; exact h (endCmp_gt.2 hc)
    rcases this with hb | ⟨hb, _⟩
    · exact absurd (ha.trans hb.symm) hne
    · exact absurd ha hb
  · rfl

theorem splitLoop_seg {origin : Bytes} : ∀ {L : List (Bytes × RI)} {key : Bytes} {ss : List RI},
    (∀ e ∈ L, NE e.2) → splitLoop origin key L = some ss →
    Seg (some key) ss (endPos origin) ∧ ss ≠ [] ∧ ∀ r ∈ ss, ∃ k, (k, r) ∈ L := by
  intro L
  induction L with
  | nil => intro key ss _ h; cases h
  | cons e t ih =>
    obtain ⟨k, r⟩ := e
    intro key ss hne h
    rw [splitLoop] at h
    split at h
    · cases h
    · rename_i hk
      have hk' : key = r.start := by simpa using hk
      have hr : NE r := hne _ List.mem_cons_self
      split at h
      · rename_i ho
        injection h with h; subst h
        have ho' : r.stop = origin := by simpa using ho
        exact ⟨⟨by rw [hk'], hr, by rw [ho']; rfl⟩, by simp, fun x hx => ⟨k, by
          rw [List.mem_singleton] at hx; subst hx; exact List.mem_cons_self⟩⟩
      · rename_i ho
        have ho' : r.stop ≠ origin := by simpa using ho
        split at h
        · cases h
        · rename_i hg
          have hg' : endKeyCompare r.stop origin ≠ .gt := by simpa using hg
          cases hl : splitLoop origin r.stop t with
          | none => rw [hl] at h; cases h
          | some s2 =>
            rw [hl] at h
            injection h with h; subst h
            obtain ⟨i1, i2, i3⟩ := ih (fun e he => hne e (List.mem_cons_of_mem _ he)) hl
            refine ⟨⟨by rw [hk'], hr, by rw [endPos_of_not_gt ho' hg']; exact i1⟩, by simp, fun x hx => ?_⟩
            rcases List.mem_cons.1 hx with rfl | hx
            · exact ⟨k, List.mem_cons_self⟩
            · obtain ⟨k', hk'⟩ := i3 x hx; exact ⟨k', List.mem_cons_of_mem _ hk'⟩

theorem presplitLoop_seg : ∀ {L : List (Bytes × RI)} {key : Bytes} {ss : List RI},
    (∀ e ∈ L, NE e.2) → presplitLoop key L = some ss →
    Seg (some key) ss none ∧ ss ≠ [] ∧ ∀ r ∈ ss, ∃ k, (k, r) ∈ L := by
  intro L
  induction L with
  | nil => intro key ss _ h; cases h
  | cons e t ih =>
    obtain ⟨k, r⟩ := e
    intro key ss hne h
    rw [presplitLoop] at h
    split at h
    · cases h
    · rename_i hk
      have hk' : key = r.start := by simpa using hk
      have hr : NE r := hne _ List.mem_cons_self
      split at h
      · rename_i ho
        injection h with h; subst h
        have ho' : r.stop = [] := by simpa using ho
        exact ⟨⟨by rw [hk'], hr, by rw [ho']; rfl⟩, by simp, fun x hx => ⟨k, by
          rw [List.mem_singleton] at hx; subst hx; exact List.mem_cons_self⟩⟩
      · rename_i ho
        have ho' : r.stop ≠ [] := by simpa using ho
        cases hl : presplitLoop r.stop t with
        | none => rw [hl] at h; cases h
        | some s2 =>
          rw [hl] at h
          injection h with h; subst h
          obtain ⟨i1, i2, i3⟩ := ih (fun e he => hne e (List.mem_cons_of_mem _ he)) hl
          refine ⟨⟨by rw [hk'], hr, by rw [endPos, if_neg ho']; exact i1⟩, by simp, fun x hx => ?_⟩
          rcases List.mem_cons.1 hx with rfl | hx
          · exact ⟨k, List.mem_cons_self⟩
          · obtain ⟨k', hk'⟩ := i3 x hx; exact ⟨k', List.mem_cons_of_mem _ hk'⟩

theorem mfind_mem {α : Type} {k : Bytes} {m : List (Bytes × α)} {e : Bytes × α} (h : e ∈ mfind k m) : e ∈ m :=
  (List.dropWhile_sublist _).mem h

theorem mfind_head {α : Type} {k : Bytes} {m : List (Bytes × α)} {e : Bytes × α} {t : List (Bytes × α)}
    (h : mfind k m = e :: t) : e.1 = k := by
  induction m with
  | nil => cases h
  | cons a m ih =>
    unfold mfind at h ih
    rw [List.dropWhile_cons] at h
    split at h
    · exact ih h
    · rename_i hn
      injection h with h1 h2
      subst h1
      simpa using hn

theorem getSplit_seg {m : Meta} {newEnd origin : Bytes} {ss : List RI} (hne : ∀ e ∈ m.newMap, NE e.2)
    (h : getSplit m newEnd origin = some ss) :
    Seg (endPos newEnd) ss (endPos origin) ∧ ∀ r ∈ ss, ∃ k, (k, r) ∈ m.newMap := by
  unfold getSplit at h
  split at h
  · rename_i he
    injection h with h; subst h
    have : newEnd = origin := by simpa using he
    exact ⟨by rw [this]; rfl, by simp⟩
  · rename_i he
    have he' : newEnd ≠ origin := by simpa using he
    split at h
    · cases h
    · rename_i hg
      have hg' : endKeyCompare newEnd origin ≠ .gt := by simpa using hg
      obtain ⟨i1, _, i3⟩ := splitLoop_seg (fun e he => hne e (mfind_mem he)) h
      exact ⟨by rw [endPos_of_not_gt he' hg']; exact i1, fun r hr => by
        obtain ⟨k, hk⟩ := i3 r hr; exact ⟨k, mfind_mem hk⟩⟩

/-- What a request proposed by `generate` consists of. -/
theorem generate_spec {m : Meta} {id : Nat} {req : List RI} (h : generate m id = some req) :
    ∃ r o ms ss, m.keyMap id = some r ∧ m.infos id = some o ∧ o.ver < r.ver ∧ req = ms ++ r :: ss ∧
      getMerge m r.start o.start = some ms ∧ getSplit m r.stop o.stop = some ss := by
  unfold generate at h
  split at h
  · rename_i r o h1 h2
    split at h
    · cases h
    · rename_i hv
      split at h
      · cases h
      · split at h
        · cases h
        · rename_i ms hm
          cases hs : getSplit m r.stop o.stop with
          | none => rw [hs] at h; cases h
          | some ss =>
            rw [hs] at h
            injection h with h
            exact ⟨r, o, ms, ss, h1, h2, Nat.lt_of_not_le hv, h.symm, hm, hs⟩
  · cases h

/-! ## Histories with splits, presplit and peer changes only

`f i` is the start key of region `i`, which a split never changes.  Heartbeats may arrive late, repeatedly and in any
order, requests may be applied late, repeatedly or never: nothing is assumed about versions or end keys. -/

/-- The regions a heartbeat may report. -/
def Honest (f : Nat → Bytes) (r : RI) : Prop := r.start = f r.id ∧ NE r

def emptyMeta : Meta := ⟨fun _ => none, [], [], fun _ => none, fun _ => none⟩

inductive SplitSys (f : Nat → Bytes) : Meta → List (Bool × List RI) → Prop
  | init : SplitSys f emptyMeta []
  | report {m P} (r : RI) : SplitSys f m P → Honest f r → SplitSys f (report m r).1 (P ++ (report m r).2.toList)
  | generate {m P} (id : Nat) (req : List RI) : SplitSys f m P → generate m id = some req → SplitSys f m (P ++ [(false, req)])
  | presplit {m P} (req : List RI) : SplitSys f m P → generatePresplit m = some req → SplitSys f m (P ++ [(false, req)])
  | recycle {m P} (ids : List Nat) : SplitSys f m P → SplitSys f (recycle m ids) P
  | apply {m P} (b : Bool) (req : List RI) (infos' : Nat → Option RI) (keys' : List (Bytes × Nat)) : SplitSys f m P →
      (b, req) ∈ P → updateRegion m.infos m.keys b req = some (infos', keys') →
      SplitSys f { m with infos := infos', keys := keys' } P

def Chain (f : Nat → Bytes) (req : List RI) (lo hi : Bytes) : Prop :=
  req ≠ [] ∧ Seg (some lo) req (endPos hi) ∧ ∀ r ∈ req, r.start = f r.id

structure SInv (f : Nat → Bytes) (m : Meta) (P : List (Bool × List RI)) : Prop where
  map : (m.keys = [] ∧ (∀ i, m.infos i = none) ∧ ∀ e ∈ P, Chain f e.2 [] []) ∨ Good m.infos m.keys
  infos : ∀ i r, m.infos i = some r → r.id = i ∧ Honest f r
  keyMap : ∀ i r, m.keyMap i = some r → r.id = i ∧ Honest f r
  newMap : ∀ e ∈ m.newMap, e.1 = e.2.start ∧ Honest f e.2
  props : ∀ e ∈ P, e.1 = false ∧ ∃ lo hi, Chain f e.2 lo hi

theorem mem_minsert {α : Type} {k : Bytes} {v : α} {m : List (Bytes × α)} {e : Bytes × α} (h : e ∈ minsert k v m) :
    e = (k, v) ∨ e ∈ m := by
  induction m with
  | nil => left; simpa [minsert] using h
  | cons a t ih =>
    rw [minsert] at h
    split at h
    · rcases List.mem_cons.1 h with h | h
      · exact .inl h
      · exact .inr h
    · rcases List.mem_cons.1 h with h | h
      · exact .inl h
      · exact .inr (List.mem_cons_of_mem _ h)
    · rcases List.mem_cons.1 h with h | h
      · exact .inr (h ▸ List.mem_cons_self)
      · rcases ih h with h | h
        · exact .inl h
        · exact .inr (List.mem_cons_of_mem _ h)

theorem chain_single {f : Nat → Bytes} {r : RI} (h : Honest f r) : Chain f [r] r.start r.stop :=
  ⟨by simp, ⟨rfl, h.2, rfl⟩, fun x hx => by rw [List.mem_singleton] at hx; subst hx; exact h.1⟩

/-- In a good map the predecessor of a key never ends at or before it. -/
theorem good_not_exist {m : Meta} (hg : Good m.infos m.keys) (start : Bytes) : addRegionIsExist m start = false := by
  obtain ⟨l, hs, hk, hi⟩ := hg
  unfold addRegionIsExist
  have hne : l ≠ [] := by rintro rfl; cases (show some [] = none from hs)
  split
  · rename_i h0
    have h0' : start = [] := by simpa using h0
    subst h0'
    rw [hk]
    cases l with
    | nil => exact absurd rfl hne
    | cons a t =>
      have : a.start = [] := by have := hs.1; injection this with this; exact this.symm
      simp [mfind, ent, this]
  · split
    · rfl
    rename_i hnf
    split
    · rfl
    · rename_i e he
      obtain ⟨r, hr, hrs⟩ : ∃ r ∈ l, ent r = e := by
        have := List.mem_of_getLast? he
        rw [hk] at this
        exact List.mem_map.1 ((List.takeWhile_sublist _).mem this)
      subst hrs
      rw [show (ent r).2 = r.id from rfl, hi r hr]
      simp only
      by_contra hc
      have hc' : r.stop ≠ [] ∧ BLe r.stop start := by
        simp only [Bool.not_eq_false, Bool.and_eq_true, bne_iff_ne, ne_eq] at hc
        exact ⟨hc.1, BLe_iff.2 (by
          cases hb : bcmp r.stop start
          · exact .inl hb
          · exact .inr (bcmp_eq_iff.1 hb)
          · exact absurd hb hc.2)⟩
      -- the successor of `r` is also before `start`
      obtain ⟨l1, l2, hl⟩ := List.append_of_mem hr
      rw [hl] at hs
      obtain ⟨p, s1, s2⟩ := seg_append.1 hs
      obtain ⟨s3, s4, s5⟩ := s2
      cases l2 with
      | nil => have : endPos r.stop = none := s5; simp [endPos, hc'.1] at this
      | cons a t =>
        obtain ⟨s6, s7, s8⟩ := s5
        have ha : a.start = r.stop := by
          simp [endPos, hc'.1] at s6; exact s6.symm
        have hane : a.start ≠ start := by
          intro h
          apply hnf
          have : (mfind start m.keys).isEmpty = false := by
            rw [hk, hl]
            cases hm : mfind start ((l1 ++ r :: a :: t).map ent) with
            | cons _ _ => rfl
            | nil =>
              have := List.dropWhile_eq_nil_iff.1 hm (ent a) (by simp)
              simp [ent, h] at this
          simp [this]
        have halt : BLt a.start start := by
          rcases BLe_iff.1 (ha ▸ hc'.2) with h | h
          · exact h
          · exact absurd h hane
        have hlast : ((l1 ++ r :: a :: t).map ent).takeWhile (fun e => bcmp e.1 start == .lt) =
            (l1.map ent ++ [ent r, ent a]) ++ (t.map ent).takeWhile (fun e => bcmp e.1 start == .lt) := by
          rw [show (l1 ++ r :: a :: t).map ent = (l1.map ent ++ [ent r, ent a]) ++ t.map ent by simp]
          rw [List.takeWhile_append_of_pos]
          intro e he
          have hbr : BLt r.start start := by
            have := s4.lt
            simp only [endPos, hc'.1, if_false, PLt] at this
            exact BLt.trans_le this hc'.2
          rcases List.mem_append.1 he with he | he
          · obtain ⟨x, hx, rfl⟩ := List.mem_map.1 he
            have := (seg_starts s1).2.1 x hx
            rw [s3] at this
            have : BLt x.start start := BLt.trans this hbr
            exact beq_iff_eq.2 this
          · simp only [List.mem_cons, List.not_mem_nil, or_false] at he
            rcases he with rfl | rfl
            · exact beq_iff_eq.2 hbr
            · exact beq_iff_eq.2 halt
        rw [hk, hl, hlast] at he
        -- so the last entry comes after `r`
        have hmem : ent r ∈ (ent a :: (t.map ent).takeWhile (fun e => bcmp e.1 start == .lt)) := by
          have : (l1.map ent ++ [ent r, ent a]) ++ (t.map ent).takeWhile (fun e => bcmp e.1 start == .lt) =
              (l1.map ent ++ [ent r]) ++ (ent a :: (t.map ent).takeWhile (fun e => bcmp e.1 start == .lt)) := by simp
          rw [this, List.getLast?_append] at he
          cases hq : (ent a :: (t.map ent).takeWhile (fun e => bcmp e.1 start == .lt)).getLast? with
          | none => simp at hq
          | some q =>
            rw [hq] at he
            injection he with he
            rw [← he]; exact List.mem_of_getLast? hq
        have hpw := (seg_starts (show Seg (some r.start) (r :: a :: t) none from ⟨rfl, s4, s6, s7, s8⟩)).2.2
        have hlt := (List.pairwise_cons.1 hpw).1
        have : ∃ x ∈ a :: t, ent x = ent r := by
          rcases List.mem_cons.1 hmem with h | h
          · exact ⟨a, by simp, h.symm⟩
          · obtain ⟨x, hx, hx'⟩ := List.mem_map.1 ((List.takeWhile_sublist _).mem h)
            exact ⟨x, by simp [hx], hx'⟩
        obtain ⟨x, hx, hxe⟩ := this
        have hxs : x.start = r.start := congrArg Prod.fst hxe
        have := hlt x hx
        rw [hxs] at this
        exact BLt.irrefl _ this


/-- A request made of consecutive regions filed under their fixed start keys is consistent with every good map. -/
theorem chain_consistent {f : Nat → Bytes} {infos : Nat → Option RI} {keys : List (Bytes × Nat)} {req : List RI}
    {lo hi : Bytes} (hg : Good infos keys) (hi' : ∀ i r, infos i = some r → r.id = i ∧ Honest f r)
    (hc : Chain f req lo hi) : Consistent infos keys req lo hi := by
  obtain ⟨h1, h2, h3⟩ := hc
  refine ⟨by rw [seg_filter h2]; exact h2, by rw [seg_filter h2]; exact h1, fun r hr hn => ?_, ?_, ?_⟩
  · rw [(seg_ne h2 r hr).not_isNone] at hn; cases hn
  · have := (seg_starts h2).2.2
    rw [List.nodup_iff_pairwise_ne, List.pairwise_map]
    refine this.imp_of_mem fun {a b} ha hb hlt he => ?_
    rw [h3 a ha, h3 b hb, he] at hlt
    exact BLt.irrefl _ hlt
  · intro r hr e he hid
    obtain ⟨x, hx, hs, _⟩ := hg.filed e he
    have hx' := hi' _ _ hx
    have : e.1 = r.start := by rw [← hs, hx'.2.1, hx'.1, h3 r hr, hid]
    rw [this]
    exact ⟨(seg_start h2 h1).1 r hr, (seg_starts h2).2.1 r hr⟩

theorem full_apply {f : Nat → Bytes} {infos infos' : Nat → Option RI} {keys' : List (Bytes × Nat)} {req : List RI}
    (hc : Chain f req [] []) (hu : updateRegion infos [] false req = some (infos', keys')) : Good infos' keys' := by
  obtain ⟨h1, h2, h3⟩ := hc
  cases req with
  | nil => exact absurd rfl h1
  | cons r t =>
    rw [updateRegion] at hu
    split at hu
    · cases hu
    simp only [Bool.false_eq_true, if_false] at hu
    split at hu
    case isFalse => cases hu
    injection hu with hu
    injection hu with hu1 hu2
    have hn := seg_adj infos h2
    have hst := seg_starts hn
    have hf := seg_filter hn
    have hpw : ((((r :: t).map (adjConf infos)).filter fun r => !r.isNone).map ent).Pairwise fun a b => BLt a.1 b.1 := by
      rw [hf]; exact List.pairwise_map.2 hst.2.2
    rw [keyIds_eq hpw, updateKeys, hf] at hu2
    rw [if_neg (by simp), if_pos (by rfl)] at hu2
    rw [hf] at hpw
    have hmf := minsert_fold (A := []) (B := []) hpw (by simp) (by simp)
    rw [show ([] : List (Bytes × Nat)) ++ [] = [] from rfl] at hmf
    rw [hmf] at hu2
    refine ⟨(r :: t).map (adjConf infos), hn, by rw [← hu2]; simp, fun x hx => ?_⟩
    rw [← hu1]
    apply setInfos_mem _ _ _ x hx
    rw [List.map_map]
    have hids : (r :: t).map (RI.id ∘ adjConf infos) = (r :: t).map (·.id) :=
      List.map_congr_left fun z _ => adjConf_id infos z
    rw [show ((fun x : RI => x.id) ∘ adjConf infos) = (RI.id ∘ adjConf infos) from rfl, hids,
      List.nodup_iff_pairwise_ne, List.pairwise_map]
    refine (seg_starts h2).2.2.imp_of_mem fun {a b} ha hb hlt he => ?_
    rw [h3 a ha, h3 b hb, he] at hlt
    exact BLt.irrefl _ hlt

theorem setInfos_some {infos : Nat → Option RI} {l : List RI} {i : Nat} {r : RI} (h : setInfos infos l i = some r) :
    infos i = some r ∨ (r ∈ l ∧ r.id = i) := by
  induction l generalizing infos with
  | nil => exact .inl h
  | cons a t ih =>
    rw [setInfos] at h
    rcases ih h with h | h
    · split at h
      · rename_i he; injection h with h; subst h; exact .inr ⟨List.mem_cons_self, he.symm⟩
      · exact .inl h
    · exact .inr ⟨List.mem_cons_of_mem _ h.1, h.2⟩

theorem update_infos {infos infos' : Nat → Option RI} {keys keys' : List (Bytes × Nat)} {b : Bool} {req : List RI}
    (hu : updateRegion infos keys b req = some (infos', keys')) :
    infos' = setInfos infos (req.map (adjConf infos)) ∧ req.all (versionOk infos) = true := by
  cases req with
  | nil => cases hu
  | cons r t =>
    rw [updateRegion] at hu
    split at hu
    · cases hu
    · rename_i hv
      have hv' : (r :: t).all (versionOk infos) = true := by simpa using hv
      refine ⟨?_, hv'⟩
      simp only at hu
      split at hu
      · injection hu with hu; injection hu with h1 h2; exact h1.symm
      · split at hu
        · injection hu with hu; injection hu with h1 h2; exact h1.symm
        · cases hu

theorem addUpdateTo_some {g : Nat → Option RI} {r : RI} {i : Nat} {x : RI} (h : addUpdateTo g r i = some x) :
    g i = some x ∨ (i = r.id ∧ x = r) := by
  unfold addUpdateTo at h
  cases hg : g r.id with
  | some o =>
    rw [hg] at h
    simp only at h
    by_cases hc : (decide (r.logIndex < o.logIndex) || decide (r.ver ≤ o.ver)) = true
    · rw [if_pos hc] at h; exact .inl h
    · rw [if_neg hc] at h
      split at h
      · rename_i he; injection h with h; exact .inr ⟨he, h.symm⟩
      · exact .inl h
  | none =>
    rw [hg] at h
    simp only at h
    split at h
    · rename_i he; injection h with h; exact .inr ⟨he, h.symm⟩
    · exact .inl h

theorem addNew_spec (m : Meta) (r : RI) : (addNew m r).infos = m.infos ∧ (addNew m r).keys = m.keys ∧
    (addNew m r).keyMap = m.keyMap ∧ ∀ e ∈ (addNew m r).newMap, e = (r.start, r) ∨ e ∈ m.newMap := by
  unfold addNew
  rcases (mfind r.start m.newMap).head? with _ | ⟨_, o⟩
  · exact ⟨rfl, rfl, rfl, fun e he => mem_minsert he⟩
  · simp only
    split
    · exact ⟨rfl, rfl, rfl, fun e he => .inr he⟩
    · exact ⟨rfl, rfl, rfl, fun e he => mem_minsert he⟩

theorem sinv_of_report {f : Nat → Bytes} {m : Meta} {P : List (Bool × List RI)} (h : SInv f m P) {r : RI}
    (hr : Honest f r) : SInv f (report m r).1 (P ++ (report m r).2.toList) := by
  have hexist : addRegionIsExist m r.start = false := by
    rcases h.map with ⟨hk, _, _⟩ | hg
    · unfold addRegionIsExist; simp [hk, mfind]
    · exact good_not_exist hg r.start
  have same : ∀ m' : Meta, m'.infos = m.infos → m'.keys = m.keys →
      (∀ i x, m'.keyMap i = some x → m.keyMap i = some x ∨ (i = r.id ∧ x = r)) →
      (∀ e ∈ m'.newMap, e = (r.start, r) ∨ e ∈ m.newMap) → SInv f m' (P ++ (none : Option (Bool × List RI)).toList) := by
    intro m' h1 h2 h3 h4
    refine ⟨?_, ?_, ?_, ?_, ?_⟩
    · rw [h1, h2]; simpa using h.map
    · rw [h1]; exact h.infos
    · intro i x hx
      rcases h3 i x hx with hx | ⟨rfl, rfl⟩
      · exact h.keyMap i x hx
      · exact ⟨rfl, hr⟩
    · intro e he
      rcases h4 e he with rfl | he
      · exact ⟨rfl, hr⟩
      · exact h.newMap e he
    · simpa using h.props
  have id' : SInv f m (P ++ (none : Option (Bool × List RI)).toList) :=
    same m rfl rfl (fun _ _ h => .inl h) (fun _ h => .inr h)
  have prop : ∀ req : List RI, (∃ lo hi, Chain f req lo hi) → (m.keys = [] → (∀ i, m.infos i = none) → Chain f req [] []) →
      SInv f m (P ++ (some (false, req)).toList) := by
    intro req hc hfull
    refine ⟨?_, h.infos, h.keyMap, h.newMap, ?_⟩
    · rcases h.map with ⟨h1, h2, h3⟩ | hg
      · refine .inl ⟨h1, h2, fun e he => ?_⟩
        rcases List.mem_append.1 he with he | he
        · exact h3 e he
        · rw [Option.toList_some, List.mem_singleton] at he; subst he; exact hfull h1 h2
      · exact .inr hg
    · intro e he
      rcases List.mem_append.1 he with he | he
      · exact h.props e he
      · rw [Option.toList_some, List.mem_singleton] at he; subst he; exact ⟨rfl, hc⟩
  unfold report
  split
  · rw [hexist]
    split
    · rename_i he
      have he' : r.start = [] ∧ r.stop = [] := by simpa using he
      have hcs : Chain f [r] [] [] := by
        have := chain_single hr; rwa [he'.1, he'.2] at this
      exact prop [r] ⟨_, _, hcs⟩ fun _ _ => hcs
    · rw [if_neg (by decide)]
      obtain ⟨a1, a2, a3, a4⟩ := addNew_spec m r
      exact same _ a1 a2 (fun i x hx => .inl (by rw [a3] at hx; exact hx)) a4
  · rename_i o ho
    split
    · exact id'
    · split
      · exact id'
      · split
        · split
          · exact same _ rfl rfl (fun _ _ h => .inl h) (fun _ h => .inr h)
          · exact same _ rfl rfl (fun i x hx => addUpdateTo_some hx) (fun _ h => .inr h)
        · split
          · have := h.infos _ _ ho
            have hh : Honest f { o with peers := r.peers, logIndex := r.logIndex } := this.2
            exact prop _ ⟨_, _, chain_single hh⟩ fun _ hn => by rw [hn] at ho; cases ho
          · exact id'

theorem SplitSys.inv {f : Nat → Bytes} {m : Meta} {P : List (Bool × List RI)} (h : SplitSys f m P) : SInv f m P := by
  induction h with
  | init => exact ⟨.inl ⟨rfl, fun _ => rfl, by simp⟩, by simp [emptyMeta], by simp [emptyMeta], by simp [emptyMeta], by simp⟩
  | report r _ hr ih => exact sinv_of_report ih hr
  | @generate m P id req _ hg ih =>
    obtain ⟨r, o, ms, ss, h1, h2, _, rfl, h4, h5⟩ := generate_spec hg
    have hr := ih.keyMap _ _ h1
    have ho := ih.infos _ _ h2
    have hstart : r.start = o.start := by rw [hr.2.1, ho.2.1, hr.1, ho.1]
    have hms : ms = [] := by
      rw [hstart, getMerge, bcmp_eq_iff.2 rfl] at h4
      injection h4 with h4; exact h4.symm
    obtain ⟨i1, i2⟩ := getSplit_seg (fun e he => (ih.newMap e he).2.2) h5
    subst hms
    refine ⟨?_, ih.infos, ih.keyMap, ih.newMap, ?_⟩
    · rcases ih.map with ⟨_, hn, _⟩ | hgood
      · rw [hn] at h2; cases h2
      · exact .inr hgood
    · intro e he
      rcases List.mem_append.1 he with he | he
      · exact ih.props e he
      · rw [List.mem_singleton] at he; subst he
        refine ⟨rfl, r.start, o.stop, by simp, ⟨rfl, hr.2.2, i1⟩, fun x hx => ?_⟩
        rcases List.mem_cons.1 hx with rfl | hx
        · exact hr.2.1
        · obtain ⟨k, hk⟩ := i2 x hx
          exact (ih.newMap _ hk).2.1
  | @presplit m P req _ hg ih =>
    unfold generatePresplit at hg
    split at hg
    case isFalse => cases hg
    obtain ⟨i1, i2, i3⟩ := presplitLoop_seg (fun e he => (ih.newMap e (mfind_mem he)).2.2) hg
    have hch : Chain f req [] [] := ⟨i2, i1, fun x hx => by
      obtain ⟨k, hk⟩ := i3 x hx
      exact (ih.newMap _ (mfind_mem hk)).2.1⟩
    refine ⟨?_, ih.infos, ih.keyMap, ih.newMap, ?_⟩
    · rcases ih.map with ⟨h1, h2, h3⟩ | hgood
      · refine .inl ⟨h1, h2, fun e he => ?_⟩
        rcases List.mem_append.1 he with he | he
        · exact h3 e he
        · rw [List.mem_singleton] at he; subst he; exact hch
      · exact .inr hgood
    · intro e he
      rcases List.mem_append.1 he with he | he
      · exact ih.props e he
      · rw [List.mem_singleton] at he; subst he; exact ⟨rfl, _, _, hch⟩
  | @recycle m P ids _ ih =>
    have hkm : ∀ i x, (match m.keyMap i, m.infos i with
        | some r, some o => if r.ver ≤ o.ver then none else some r
        | x, _ => x) = some x → m.keyMap i = some x := by
      intro i x hx
      split at hx
      · rename_i r o h1 h2
        split at hx
        · cases hx
        · rw [h1]; exact hx
      · exact hx
    unfold Region.recycle
    simp only
    split
    · exact ⟨ih.map, ih.infos, fun i x hx => ih.keyMap i x (hkm i x hx), by simp, ih.props⟩
    · exact ⟨ih.map, ih.infos, fun i x hx => ih.keyMap i x (hkm i x hx), ih.newMap, ih.props⟩
  | @apply m P b req infos' keys' _ hmem hu ih =>
    obtain ⟨hb, lo, hi, hch⟩ := ih.props _ hmem
    simp only at hb hch
    subst hb
    obtain ⟨hinf, _⟩ := update_infos hu
    refine ⟨.inr ?_, ?_, ih.keyMap, ih.newMap, ih.props⟩
    · rcases ih.map with ⟨h1, h2, h3⟩ | hgood
      · rw [h1] at hu
        exact full_apply (h3 _ hmem) hu
      · exact good_update hgood (chain_consistent hgood ih.infos hch) hu
    · intro i r hr
      simp only at hr
      rw [hinf] at hr
      rcases setInfos_some hr with hr | ⟨hr, hid⟩
      · exact ih.infos i r hr
      · obtain ⟨x, hx, rfl⟩ := List.mem_map.1 hr
        refine ⟨hid, ?_, ?_⟩
        · rw [adjConf_start, adjConf_id]; exact hch.2.2 x hx
        · unfold NE; rw [adjConf_start, adjConf_stop]; exact seg_ne hch.2.1 x hx

/-- C10.  Whatever the order, loss, repetition or delay of heartbeats and of the application of requests: as long as
regions are only created, split and moved between stores, the map is empty or sends every key to exactly one region,
filed under that region's start key. -/
theorem C10_tiling {f : Nat → Bytes} {m : Meta} {P : List (Bool × List RI)} (h : SplitSys f m P) :
    (m.keys = [] ∧ ∀ i, m.infos i = none) ∨ (Tiles m.infos m.keys ∧ Filed m.infos m.keys) := by
  rcases h.inv.map with ⟨h1, h2, _⟩ | hg
  · exact .inl ⟨h1, h2⟩
  · exact .inr ⟨hg.tiles, hg.filed⟩

/-- The path that inserts a region without replacing anything is never taken in such histories. -/
theorem C10_no_blind_insert {f : Nat → Bytes} {m : Meta} {P : List (Bool × List RI)} (h : SplitSys f m P) :
    ∀ e ∈ P, e.1 = false := fun e he => (h.inv.props e he).1


/-! ## Any history: a request built from a good map -/

/-- What `generate` needs beyond a good map, when merges happen too. -/
structure MergeOk (m : Meta) (id : Nat) : Prop where
  listed : ∃ e ∈ m.keys, e.2 = id
  keyMap : ∀ r, m.keyMap id = some r → r.id = id ∧ NE r
  noneMap : ∀ i r, m.noneMap i = some r → r.id = i ∧ r.start = r.stop ∧ r.start ≠ []
  newMap : ∀ e ∈ m.newMap, NE e.2 ∧ m.infos e.2.id = none
  newIds : ∀ e ∈ m.newMap, ∀ e' ∈ m.newMap, e.2.id = e'.2.id → e.2 = e'.2
  /-- a region merged away began no earlier than the region that now holds its keys, and ends within -/
  within : ∀ r o i e, m.keyMap id = some r → m.infos id = some o → m.noneMap i = some e → BLe r.start e.start ∧ EndLe e.stop o.stop

theorem mergeLoop_spec {noneMap : Nat → Option RI} {origin : Bytes} : ∀ {L : List (Bytes × Nat)} {ms : List RI},
    mergeLoop noneMap origin L = some ms →
    ∃ pre x rest, L = pre ++ (origin, x) :: rest ∧ (∀ e ∈ pre, BLt e.1 origin) ∧
      ms.map some = pre.map fun e => noneMap e.2 := by
  intro L
  induction L with
  | nil => intro ms h; cases h
  | cons e t ih =>
    obtain ⟨k, i⟩ := e
    intro ms h
    rw [mergeLoop] at h
    split at h
    · cases h
    · rename_i hk
      injection h with h; subst h
      rw [bcmp_eq_iff] at hk
      subst hk
      exact ⟨[], i, t, rfl, by simp, by simp⟩
    · rename_i hk
      cases hn : noneMap i with
      | none => simp only [hn] at h; cases h
      | some r =>
        simp only [hn] at h
        cases hm : mergeLoop noneMap origin t with
        | none => rw [hm] at h; cases h
        | some ms' =>
          rw [hm] at h
          injection h with h; subst h
          obtain ⟨pre, x, rest, h1, h2, h3⟩ := ih hm
          refine ⟨(k, i) :: pre, x, rest, by rw [h1]; rfl, ?_, by simp [hn, h3]⟩
          intro e he
          rcases List.mem_cons.1 he with rfl | he
          · exact hk
          · exact h2 e he

theorem good_sorted {infos : Nat → Option RI} {keys : List (Bytes × Nat)} (hg : Good infos keys) :
    keys.Pairwise fun a b => BLt a.1 b.1 := by
  obtain ⟨l, hs, rfl, _⟩ := hg
  exact List.pairwise_map.2 (seg_starts hs).2.2

theorem good_id_unique {infos : Nat → Option RI} {keys : List (Bytes × Nat)} (hg : Good infos keys) {a b : Bytes × Nat}
    (ha : a ∈ keys) (hb : b ∈ keys) (hid : a.2 = b.2) : a = b := by
  obtain ⟨x, hx, hx1, _⟩ := hg.filed a ha
  obtain ⟨y, hy, hy1, _⟩ := hg.filed b hb
  rw [hid, hy] at hx
  injection hx with hx
  subst hx
  exact Prod.ext (hx1.symm.trans hy1) hid

theorem getMerge_spec {m : Meta} (hg : Good m.infos m.keys) {a b : Bytes} {ms : List RI} (h : getMerge m a b = some ms) :
    BLe a b ∧ ∃ pre : List (Bytes × Nat), (∀ e ∈ pre, e ∈ m.keys ∧ BLe a e.1 ∧ BLt e.1 b) ∧ pre.Nodup ∧
      ms.map some = pre.map fun e => m.noneMap e.2 := by
  unfold getMerge at h
  split at h
  · rename_i he
    rw [bcmp_eq_iff] at he
    injection h with h; subst h; subst he
    exact ⟨BLe.refl _, [], by simp, by simp, by simp⟩
  · cases h
  · rename_i hlt
    obtain ⟨pre, x, rest, h1, h2, h3⟩ := mergeLoop_spec h
    have hsub : (mfind a m.keys).Sublist m.keys := List.dropWhile_sublist _
    have hpw := (good_sorted hg).sublist hsub
    refine ⟨(show BLt a b from hlt).le, pre, fun e he => ⟨hsub.mem (by rw [h1]; simp [he]), ?_, h2 e he⟩, ?_, h3⟩
    · cases hm : mfind a m.keys with
      | nil => rw [hm] at h1; simp at h1
      | cons y t =>
        have hy := mfind_head hm
        rw [hm] at hpw h1
        have hey : e ∈ y :: t := by rw [h1]; simp [he]
        rcases List.mem_cons.1 hey with rfl | hey
        · rw [hy]; exact BLe.refl _
        · have := (List.pairwise_cons.1 hpw).1 e hey
          rw [hy] at this
          exact this.le
    · rw [h1] at hpw
      have := (List.pairwise_append.1 hpw).1
      exact this.imp fun {x y} h he => by subst he; exact BLt.irrefl _ h

theorem consistent_of_generate {m : Meta} {id : Nat} {req : List RI} (hg : Good m.infos m.keys) (hm : MergeOk m id)
    (hgen : generate m id = some req) : ∃ lo hi, Consistent m.infos m.keys req lo hi := by
  obtain ⟨r, o, ms, ss, h1, h2, _, rfl, h4, h5⟩ := generate_spec hgen
  obtain ⟨hrid, hrne⟩ := hm.keyMap r h1
  obtain ⟨hle, pre, p1, p2, p3⟩ := getMerge_spec hg h4
  obtain ⟨q1, q2⟩ := getSplit_seg (fun e he => (hm.newMap e he).1) h5
  have hchain : Seg (some r.start) (r :: ss) (endPos o.stop) := ⟨rfl, hrne, q1⟩
  have hms : ∀ e ∈ ms, ∃ k ∈ pre, m.noneMap k.2 = some e := fun e he => by
    have : some e ∈ ms.map some := List.mem_map.2 ⟨e, he, rfl⟩
    rw [p3] at this
    obtain ⟨k, hk, hk'⟩ := List.mem_map.1 this
    exact ⟨k, hk, hk'⟩
  have hmsNone : ∀ e ∈ ms, e.isNone = true := fun e he => by
    obtain ⟨k, _, hk⟩ := hms e he
    obtain ⟨_, a, b⟩ := hm.noneMap _ _ hk
    have b' : e.stop ≠ [] := a ▸ b
    simp [RI.isNone, a, b']
  have hfilter : (ms ++ r :: ss).filter (fun r => !r.isNone) = r :: ss := by
    rw [List.filter_append, seg_filter hchain, List.filter_eq_nil_iff.2 fun e he => by simp [hmsNone e he]]
    rfl
  have hssnew : ∀ s ∈ ss, m.infos s.id = none := fun s hs => by
    obtain ⟨k, hk⟩ := q2 s hs; exact (hm.newMap _ hk).2
  have hmsid : ms.map (·.id) = pre.map (·.2) := by
    have hl : ms.length = pre.length := by simpa using congrArg List.length p3
    apply List.ext_getElem (by simpa using hl)
    intro n hn1 hn2
    simp only [List.length_map] at hn1 hn2
    have : (ms.map some)[n]'(by simpa using hn1) = (pre.map fun e => m.noneMap e.2)[n]'(by simpa using hn2) := by
      simp only [p3]
    simp only [List.getElem_map] at this ⊢
    exact (hm.noneMap _ _ this.symm).1
  have hlisted : ∀ e ∈ m.keys, ∃ x, m.infos e.2 = some x := fun e he => by
    obtain ⟨x, hx, _⟩ := hg.filed e he; exact ⟨x, hx⟩
  refine ⟨r.start, o.stop, by rw [hfilter]; exact hchain, by rw [hfilter]; simp, ?_, ?_, ?_⟩
  · intro e he hn
    rcases List.mem_append.1 he with he | he
    · obtain ⟨k, _, hk⟩ := hms e he
      exact hm.within r o k.2 e h1 h2 hk
    · rw [(seg_ne hchain e he).not_isNone] at hn; cases hn
  · rw [List.map_append, List.map_cons, hmsid]
    have hpre2 : (pre.map (·.2)).Nodup := by
      rw [List.nodup_iff_pairwise_ne, List.pairwise_map]
      rw [List.nodup_iff_pairwise_ne] at p2
      exact p2.imp_of_mem fun {a b} ha hb hne he => hne (good_id_unique hg (p1 a ha).1 (p1 b hb).1 he)
    have hss2 : (ss.map (·.id)).Nodup := by
      rw [List.nodup_iff_pairwise_ne, List.pairwise_map]
      refine (seg_starts q1).2.2.imp_of_mem fun {a b} ha hb hlt he => ?_
      obtain ⟨k, hk⟩ := q2 a ha
      obtain ⟨k', hk'⟩ := q2 b hb
      have := hm.newIds _ hk _ hk' he
      simp only at this
      subst this
      exact BLt.irrefl _ hlt
    rw [List.nodup_append]
    refine ⟨hpre2, List.nodup_cons.2 ⟨?_, hss2⟩, ?_⟩
    · intro hin
      obtain ⟨s, hs, he⟩ := List.mem_map.1 hin
      have := hssnew s hs
      rw [he, hrid, h2] at this; cases this
    · intro i hi j hj hij
      subst hij
      obtain ⟨k, hk, rfl⟩ := List.mem_map.1 hi
      obtain ⟨kr, kx, ks, _⟩ := hg.filed k (p1 k hk).1
      rcases List.mem_cons.1 hj with hj | hj
      · -- the region itself is filed at its old start, behind the regions merged into it
        rw [hrid] at hj
        rw [hj, h2] at kx
        injection kx with kx; subst kx
        have := (p1 k hk).2.2
        rw [← ks] at this
        exact BLt.irrefl _ this
      · obtain ⟨s, hs, he⟩ := List.mem_map.1 hj
        have := hssnew s hs
        rw [he, kx] at this; cases this
  · intro x hx e he hid
    obtain ⟨er, ex, es, eid⟩ := hg.filed e he
    have hlt : ∀ y : Bytes, BLe y o.start → (∃ k ∈ m.keys, m.infos k.2 = some o) → PLt (some y) (endPos o.stop) := by
      intro y hy ⟨k, hk, ho⟩
      obtain ⟨l, ls, lk, li⟩ := hg
      rw [lk] at hk
      obtain ⟨z, hz, rfl⟩ := List.mem_map.1 hk
      rw [show (ent z).2 = z.id from rfl, li z hz] at ho
      injection ho with ho; subst ho
      have := (seg_ne ls z hz).lt
      cases hp : endPos z.stop with
      | none => trivial
      | some q => rw [hp] at this; exact BLe.trans_lt hy this
    rcases List.mem_append.1 hx with hx | hx
    · obtain ⟨k, hk, hk'⟩ := hms x hx
      have hxk : x.id = k.2 := (hm.noneMap _ _ hk').1
      have hek : e = k := good_id_unique hg he (p1 k hk).1 (hid.trans hxk)
      subst hek
      refine ⟨(p1 e hk).2.1, ?_⟩
      obtain ⟨q, hq, hqid⟩ := hm.listed
      exact hlt e.1 (p1 e hk).2.2.le ⟨q, hq, by rw [hqid]; exact h2⟩
    · rcases List.mem_cons.1 hx with rfl | hx
      · rw [hid, hrid, h2] at ex
        injection ex with ex; subst ex
        refine ⟨by rw [← es]; exact hle, ?_⟩
        exact hlt e.1 (by rw [es]; exact BLe.refl _) ⟨e, he, by rw [hid, hrid]; exact h2⟩
      · have := hssnew x hx
        rw [← hid, ex] at this; cases this


/-- C10, with merges: a request that `generate` builds from a good map, applied to it, gives a good map again, provided
the regions waiting in the temporary maps are as `MergeOk` says. -/
theorem C10_merge_tiling {m : Meta} {id : Nat} {req : List RI} {infos' : Nat → Option RI} {keys' : List (Bytes × Nat)}
    (hg : Good m.infos m.keys) (hm : MergeOk m id) (hgen : generate m id = some req)
    (hu : updateRegion m.infos m.keys false req = some (infos', keys')) :
    Good infos' keys' ∧ Tiles infos' keys' ∧ Filed infos' keys' := by
  obtain ⟨lo, hi, hc⟩ := consistent_of_generate hg hm hgen
  have := good_update hg hc hu
  exact ⟨this, this.tiles, this.filed⟩

/-- A good map is exactly one that is sorted, filed, without empty regions, and tiles the key space. -/
theorem C10_good_of_tiles {infos : Nat → Option RI} {keys : List (Bytes × Nat)} (ht : Tiles infos keys)
    (hf : Filed infos keys) (hs : keys.Pairwise fun a b => BLt a.1 b.1)
    (hne : ∀ e ∈ keys, ∀ r, infos e.2 = some r → NE r) : Good infos keys := by
  -- the regions listed, in order
  have hl : ∃ l : List RI, keys = l.map ent ∧ ∀ r ∈ l, infos r.id = some r ∧ NE r := by
    clear ht hs
    induction keys with
    | nil => exact ⟨[], rfl, by simp⟩
    | cons e t ih =>
      obtain ⟨l, h1, h2⟩ := ih (fun e he => hf e (List.mem_cons_of_mem _ he)) (fun e he => hne e (List.mem_cons_of_mem _ he))
      obtain ⟨r, hr, hr1, hr2⟩ := hf e List.mem_cons_self
      refine ⟨r :: l, by rw [h1]; simp [ent, hr1, hr2], fun x hx => ?_⟩
      rcases List.mem_cons.1 hx with rfl | hx
      · exact ⟨by rw [hr2]; exact hr, hne e List.mem_cons_self _ hr⟩
      · exact h2 x hx
  obtain ⟨l, rfl, hl⟩ := hl
  refine ⟨l, ?_, rfl, fun r hr => (hl r hr).1⟩
  -- coverage from a position on
  have key : ∀ (l : List RI) (p : Bytes), (∀ r ∈ l, NE r) → (l.Pairwise fun a b => BLt a.start b.start) →
      (∀ r ∈ l, BLe p r.start) →
      (∀ x, BLe p x → ∃ r ∈ l, Covers r.start r.stop x) →
      (∀ x, ∀ r ∈ l, ∀ r' ∈ l, Covers r.start r.stop x → Covers r'.start r'.stop x → r = r') → Seg (some p) l none := by
    intro l
    induction l with
    | nil => intro p _ _ _ hc _; obtain ⟨r, hr, _⟩ := hc p (BLe.refl p); cases hr
    | cons a t ih =>
      intro p hne hpw hge hc hu
      rw [List.pairwise_cons] at hpw
      have hpa : p = a.start := by
        obtain ⟨r, hr, hcr⟩ := hc p (BLe.refl p)
        have h1 := hge r hr
        have h2 : r.start = p := BLe.antisymm hcr.1 h1
        rcases List.mem_cons.1 hr with rfl | hr
        · exact h2.symm
        · have h3 := hpw.1 r hr
          rw [h2] at h3
          exact absurd h3 (not_BLt.2 (hge a List.mem_cons_self))
      subst hpa
      have hNa := hne a List.mem_cons_self
      refine ⟨rfl, hNa, ?_⟩
      have hcova : ∀ r ∈ t, endPos a.stop ≠ none ∧ ∀ q, endPos a.stop = some q → BLe q r.start := by
        intro r hr
        have hlt := hpw.1 r hr
        have hNr := hne r (List.mem_cons_of_mem _ hr)
        have hcr : Covers r.start r.stop r.start := ⟨BLe.refl _, hNr⟩
        by_cases h : Covers a.start a.stop r.start
        · have := hu r.start a List.mem_cons_self r (List.mem_cons_of_mem _ hr) h hcr
          subst this
          exact absurd hlt (BLt.irrefl _)
        · have hx : ¬ (a.stop = [] ∨ BLt r.start a.stop) := fun hx => h ⟨hlt.le, hx⟩
          have hx1 : a.stop ≠ [] := fun h => hx (.inl h)
          refine ⟨by simp [endPos, hx1], fun q hq => ?_⟩
          simp [endPos, hx1] at hq
          subst hq
          exact not_BLt.1 fun h => hx (.inr h)
      by_cases hst : a.stop = []
      · cases t with
        | nil => simp [Seg, endPos, hst]
        | cons b t => exact absurd (by simp [endPos, hst]) (hcova b List.mem_cons_self).1
      · have hlt : BLt a.start a.stop := hNa.resolve_left hst
        rw [endPos, if_neg hst]
        apply ih a.stop (fun r hr => hne r (List.mem_cons_of_mem _ hr)) hpw.2
        · exact fun r hr => (hcova r hr).2 _ (by rw [endPos, if_neg hst])
        · intro x hx
          obtain ⟨r, hr, hcr⟩ := hc x (BLt.trans_le hlt hx).le
          rcases List.mem_cons.1 hr with rfl | hr
          · rcases hcr.2 with h | h
            · exact absurd h hst
            · exact absurd h (not_BLt.2 hx)
          · exact ⟨r, hr, hcr⟩
        · exact fun x r hr r' hr' => hu x r (List.mem_cons_of_mem _ hr) r' (List.mem_cons_of_mem _ hr')
  have inj : ∀ r ∈ l, ∀ r' ∈ l, ent r = ent r' → r = r' := by
    intro r hr r' hr' he
    have h1 := (hl r hr).1
    have h2 := (hl r' hr').1
    rw [show r.id = r'.id from congrArg Prod.snd he, h2] at h1
    injection h1 with h1; exact h1.symm
  apply key l []
  · exact fun r hr => (hl r hr).2
  · exact (List.pairwise_map (f := ent) (R := fun a b => BLt a.1 b.1)).1 hs
  · exact fun r _ => BLe_nil _
  · intro x _
    obtain ⟨e, he, ⟨r, hr, hc⟩, _⟩ := ht x
    obtain ⟨r', hr', rfl⟩ := List.mem_map.1 he
    rw [show (ent r').2 = r'.id from rfl, (hl r' hr').1] at hr
    injection hr with hr; subst hr
    exact ⟨r', hr', hc⟩
  · intro x r hr r' hr' hc hc'
    obtain ⟨e, he, _, huniq⟩ := ht x
    have h1 := huniq (ent r) (List.mem_map.2 ⟨r, hr, rfl⟩) ⟨r, (hl r hr).1, hc⟩
    have h2 := huniq (ent r') (List.mem_map.2 ⟨r', hr', rfl⟩) ⟨r', (hl r' hr').1, hc'⟩
    exact inj r hr r' hr' (h1.trans h2.symm)

/-! ## Versions -/

/-- C10.  The version known for a region never goes down, and a region is never forgotten by an update. -/
theorem C10_versions_grow {infos infos' : Nat → Option RI} {keys keys' : List (Bytes × Nat)} {b : Bool} {req : List RI}
    (hu : updateRegion infos keys b req = some (infos', keys')) {i : Nat} {o : RI} (ho : infos i = some o) :
    ∃ o', infos' i = some o' ∧ o.ver ≤ o'.ver := by
  obtain ⟨h1, h2⟩ := update_infos hu
  have gen : ∀ (L : List RI) (g : Nat → Option RI), (∀ r ∈ L, r.id = i → o.ver ≤ r.ver) →
      (∃ o', g i = some o' ∧ o.ver ≤ o'.ver) → ∃ o', setInfos g L i = some o' ∧ o.ver ≤ o'.ver := by
    intro L
    induction L with
    | nil => intro g _ h; exact h
    | cons a t ih =>
      intro g hv h
      rw [setInfos]
      apply ih
      · exact fun r hr => hv r (List.mem_cons_of_mem _ hr)
      · by_cases ha : i = a.id
        · exact ⟨a, by simp [ha], hv a List.mem_cons_self ha.symm⟩
        · obtain ⟨o', h3, h4⟩ := h; exact ⟨o', by simp [ha, h3], h4⟩
  rw [h1]
  apply gen
  · intro r hr hid
    obtain ⟨x, hx, rfl⟩ := List.mem_map.1 hr
    have hvx := List.all_eq_true.1 h2 x hx
    rw [adjConf_id] at hid
    have : (adjConf infos x).ver = x.ver := by unfold adjConf; split <;> rfl
    rw [this]
    unfold versionOk at hvx
    rw [hid, ho] at hvx
    simp at hvx
    exact hvx.1
  · exact ⟨o, ho, Nat.le_refl _⟩

/-- C10.  A request that carries one region older than the one known is refused as a whole. -/
theorem C10_stale_refused {infos : Nat → Option RI} {keys : List (Bytes × Nat)} {b : Bool} {req : List RI} {r o : RI}
    (hr : r ∈ req) (ho : infos r.id = some o) (hv : r.ver < o.ver ∨ (r.ver = o.ver ∧ r.conf ≤ o.conf ∧ r.peers = o.peers)) :
    updateRegion infos keys b req = none := by
  cases hu : updateRegion infos keys b req with
  | none => rfl
  | some p =>
    obtain ⟨_, h2⟩ := update_infos (infos' := p.1) (keys' := p.2) (by rw [hu])
    have := List.all_eq_true.1 h2 r hr
    unfold versionOk at this
    rw [ho] at this
    simp at this
    rcases hv with h | ⟨h, h', h''⟩
    · omega
    · rcases this.2 with (h1 | h1) | h1
      · exact absurd h h1
      · omega
      · exact absurd h'' h1

/-! ## Progress: a split or merge that has been reported completely is applied -/

theorem updateRegion_accepts {infos : Nat → Option RI} {keys : List (Bytes × Nat)} {req : List RI} {lo hi : Bytes}
    (hc : Consistent infos keys req lo hi) (hv : ∀ r ∈ req, ∀ o, infos r.id = some o → o.ver < r.ver)
    (hlo : ∃ e ∈ keys, e.1 = lo) (hhi : hi = [] ∨ ∃ e ∈ keys, e.1 = hi) :
    ∃ infos' keys', updateRegion infos keys false req = some (infos', keys') := by
  have hfind : ∀ k : Bytes, (∃ e ∈ keys, e.1 = k) → (mfind k keys).isEmpty = false := by
    rintro k ⟨e, he, rfl⟩
    cases hm : mfind e.1 keys with
    | cons _ _ => rfl
    | nil =>
      have := List.dropWhile_eq_nil_iff.1 hm e he
      simp at this
  cases req with
  | nil => exact absurd rfl hc.some
  | cons r t =>
    obtain ⟨b1, b2⟩ := hc.bounds
    have hall : (r :: t).all (versionOk infos) = true := by
      rw [List.all_eq_true]
      intro x hx
      unfold versionOk
      cases ho : infos x.id with
      | none => rfl
      | some o =>
        have := hv x hx o ho
        simp
        exact ⟨by omega, by omega⟩
    have hck : checkUpdate keys lo hi = true := by
      unfold checkUpdate
      rcases hhi with h | h
      · simp [hfind lo hlo, h]
      · simp [hfind lo hlo, hfind hi h]
    rw [updateRegion]
    simp only [hall, Bool.not_true, Bool.false_eq_true, if_false, b1, b2, hck, if_true]
    exact ⟨_, _, rfl⟩

/-- In a good map the end of a region is the start of another one. -/
theorem good_next {infos : Nat → Option RI} {keys : List (Bytes × Nat)} (hg : Good infos keys) {o : RI}
    (ho : infos o.id = some o) (hin : (o.start, o.id) ∈ keys) : o.stop = [] ∨ ∃ e ∈ keys, e.1 = o.stop := by
  obtain ⟨l, hs, rfl, hi⟩ := hg
  obtain ⟨z, hz, he⟩ := List.mem_map.1 hin
  have hzo : z = o := by
    have h1 := hi z hz
    rw [show z.id = o.id from congrArg Prod.snd he, ho] at h1
    injection h1 with h1; exact h1.symm
  subst hzo
  obtain ⟨l1, l2, rfl⟩ := List.append_of_mem hz
  obtain ⟨p, _, s2⟩ := seg_append.1 hs
  obtain ⟨_, _, s3⟩ := s2
  by_cases hst : z.stop = []
  · exact .inl hst
  · right
    rw [endPos, if_neg hst] at s3
    cases l2 with
    | nil => cases s3
    | cons a t =>
      obtain ⟨s4, _⟩ := s3
      injection s4 with s4
      exact ⟨ent a, by simp, s4.symm⟩

/-- C10.  A listed region `o` has split: its leader reports the shorter range with a newer version, the new region's
leader reports the rest; nothing else is waiting.  Then, after the two heartbeats in either order, the update is
proposed and accepted; afterwards exactly these two regions are listed in place of `o`, with the reported ranges. -/
theorem C10_split_completes {m : Meta} {o r n : RI} (hg : Good m.infos m.keys) (ho : m.infos o.id = some o)
    (hin : (o.start, o.id) ∈ m.keys) (hn : m.infos n.id = none) (hq1 : m.newMap = []) (hq2 : ∀ i, m.keyMap i = none)
    (hr : r.id = o.id ∧ r.start = o.start ∧ o.ver < r.ver ∧ o.logIndex ≤ r.logIndex)
    (hmid : BLt o.start r.stop ∧ (o.stop = [] ∨ BLt r.stop o.stop)) (hnr : n.start = r.stop ∧ n.stop = o.stop)
    (first : Bool) :
    let m' := if first then (report (report m r).1 n).1 else (report (report m n).1 r).1
    m'.infos = m.infos ∧ m'.keys = m.keys ∧ generate m' o.id = some [r, n] ∧
    ∃ infos' keys', updateRegion m.infos m.keys false [r, n] = some (infos', keys') ∧ Good infos' keys' ∧
      (∀ e, e ∈ keys' ↔ e ∈ m.keys ∨ e = (n.start, n.id)) ∧
      infos' o.id = some { r with conf := o.conf + 1 } ∧ infos' n.id = some n ∧
      ∀ i, i ≠ o.id → i ≠ n.id → infos' i = m.infos i := by
  obtain ⟨r1, r2, r3, r4⟩ := hr
  have hstop : r.stop ≠ [] := BLt_ne_nil hmid.1
  have hne : n.id ≠ o.id := fun h => by rw [h, ho] at hn; cases hn
  have hNr : NE r := .inr (r2 ▸ hmid.1)
  have hNn : NE n := by
    rcases hmid.2 with h | h
    · exact .inl (hnr.2.trans h)
    · right; rw [hnr.1, hnr.2]; exact h
  have hss : r.start ≠ r.stop := fun h => by
    have h1 := hmid.1
    rw [← r2, h] at h1
    exact BLt.irrefl _ h1
  have rep_r : ∀ m2 : Meta, m2.infos = m.infos → (∀ i, m2.keyMap i = none) →
      (report m2 r).1 = { m2 with keyMap := fun i => if i = r.id then some r else m2.keyMap i } := by
    intro m2 h1 h2
    unfold report
    rw [h1, r1, ho]
    simp only
    rw [if_neg (by omega), if_neg (by simp; omega), if_pos r3, if_neg (by simpa using hss)]
    simp [addUpdateTo, h2, r1]
  have rep_n : ∀ m2 : Meta, m2.infos = m.infos → m2.keys = m.keys → m2.newMap = [] →
      (report m2 n).1 = { m2 with newMap := [(n.start, n)] } := by
    intro m2 h1 h2 h3
    unfold report
    rw [h1, hn]
    simp only
    have hgm : Good m2.infos m2.keys := by rw [h1, h2]; exact hg
    rw [if_neg (by simp [hnr.1, hstop]), if_neg (by rw [good_not_exist hgm]; decide)]
    simp [addNew, h3, mfind, minsert, h1]
  have hm' : (if first then (report (report m r).1 n).1 else (report (report m n).1 r).1) =
      { m with newMap := [(n.start, n)], keyMap := fun i => if i = r.id then some r else m.keyMap i } := by
    cases first
    · rw [if_neg (by decide), rep_n m rfl rfl hq1]
      exact rep_r { m with newMap := [(n.start, n)] } rfl hq2
    · rw [if_pos rfl, rep_r m rfl hq2]
      exact rep_n { m with keyMap := fun i => if i = r.id then some r else m.keyMap i } rfl rfl hq1
  simp only [hm']
  refine ⟨trivial, trivial, ?_, ?_⟩
  · unfold generate
    simp only [ho, r1, if_true]
    rw [if_neg (by omega), if_neg (by
      have : bcmp r.stop o.start ≠ .lt := fun h => BLt.asymm hmid.1 h
      simp [this])]
    simp only [getMerge, r2, bcmp_eq_iff.2 rfl]
    have hso : r.stop ≠ o.stop := by
      rcases hmid.2 with h | h
      · rw [h]; exact hstop
      · intro he; rw [he] at h; exact BLt.irrefl _ h
    have hend : endKeyCompare r.stop o.stop ≠ .gt := by
      intro h
      apply endCmp_gt.1 h
      rcases hmid.2 with h | h
      · exact .inl h
      · exact .inr ⟨hstop, h.le⟩
    simp [getSplit, hso, hend, mfind, hnr.1, hnr.2, splitLoop]
  · have hseg : Seg (some o.start) [r, n] (endPos o.stop) :=
      ⟨by rw [r2], hNr, by rw [endPos, if_neg hstop, hnr.1], hNn, by rw [hnr.2]; rfl⟩
    have hcons : Consistent m.infos m.keys [r, n] o.start o.stop := by
      refine ⟨by rw [seg_filter hseg]; exact hseg, by rw [seg_filter hseg]; simp, fun x hx hx' => ?_, ?_, ?_⟩
      · rw [(seg_ne hseg x hx).not_isNone] at hx'; cases hx'
      · simp [r1, Ne.symm hne]
      · intro x hx e he hid
        simp only [List.mem_cons, List.not_mem_nil, or_false] at hx
        rcases hx with rfl | rfl
        · have : e = (o.start, o.id) := good_id_unique hg he hin (hid.trans r1)
          subst this
          refine ⟨BLe.refl _, ?_⟩
          have := hNr.lt
          rw [r2, endPos, if_neg hstop] at this
          unfold endPos
          rcases hmid.2 with h | h
          · simp [h, PLt]
          · split
            · trivial
            · exact BLt.trans this h
        · obtain ⟨y, hy, _⟩ := hg.filed e he
          rw [hid, hn] at hy; cases hy
    obtain ⟨infos', keys', hu⟩ := updateRegion_accepts hcons (by
      intro x hx q hq
      simp only [List.mem_cons, List.not_mem_nil, or_false] at hx
      rcases hx with rfl | rfl
      · rw [r1, ho] at hq; injection hq with hq; subst hq; exact r3
      · rw [hn] at hq; cases hq) ⟨_, hin, rfl⟩ (good_next hg ho hin)
    obtain ⟨g1, g2⟩ := good_update_exact hg hcons hu
    refine ⟨infos', keys', hu, g1, ?_, ?_⟩
    · intro e
      rw [g2 e]
      constructor
      · rintro (h | ⟨x, hx, _, rfl⟩)
        · exact .inl h.1
        · simp only [List.mem_cons, List.not_mem_nil, or_false] at hx
          rcases hx with rfl | rfl
          · left; rw [r1, r2]; exact hin
          · exact .inr rfl
      · rintro (h | rfl)
        · by_cases hl : BLe o.start e.1 ∧ PLt (some e.1) (endPos o.stop)
          · right
            -- only `o` itself is listed inside
            obtain ⟨y, hy, hy1, hy2⟩ := hg.filed e h
            have heo : e = (o.start, o.id) := by
              obtain ⟨e0, he0, _, huniq⟩ := hg.tiles e.1
              have hcy : Covers y.start y.stop e.1 := by
                obtain ⟨l, ls, lk, li⟩ := hg
                rw [lk] at h
                obtain ⟨z, hz, rfl⟩ := List.mem_map.1 h
                rw [show (ent z).2 = z.id from rfl, li z hz] at hy
                injection hy with hy; subst hy
                exact ⟨by rw [hy1]; exact BLe.refl _, by rw [← hy1]; exact seg_ne ls z hz⟩
              have h1 := huniq e h ⟨y, hy, hcy⟩
              have h2 := huniq (o.start, o.id) hin ⟨o, ho, covers_iff_pos.2 hl⟩
              rw [h1, h2]
            exact ⟨r, by simp, hNr.not_isNone, by rw [heo, r1, r2]⟩
          · exact .inl ⟨h, hl⟩
        · exact .inr ⟨n, by simp, hNn.not_isNone, rfl⟩
    · obtain ⟨u1, _⟩ := update_infos hu
      rw [u1]
      have ar : adjConf m.infos r = { r with conf := o.conf + 1 } := by simp [adjConf, r1, ho]
      have an : adjConf m.infos n = n := by simp [adjConf, hn]
      simp only [List.map_cons, List.map_nil, setInfos, ar, an, r1]
      refine ⟨by simp [Ne.symm hne], by simp, fun i h1 h2 => by simp [h1, h2]⟩


/-- C10.  Region `s` has been merged into its right neighbour `d`: `s` reports an empty range, `d` reports the longer
one.  After the two heartbeats in either order the update is proposed and accepted; afterwards `d` alone is listed in
place of the two, from the start of `s` on. -/
theorem C10_merge_completes {m : Meta} {s d s' d' : RI} (hg : Good m.infos m.keys) (hs : m.infos s.id = some s)
    (hd : m.infos d.id = some d) (hsin : (s.start, s.id) ∈ m.keys) (hdin : (d.start, d.id) ∈ m.keys)
    (hadj : s.stop = d.start ∧ s.start ≠ [] ∧ d.start ≠ []) (hq1 : ∀ i, m.keyMap i = none) (hq2 : ∀ i, m.noneMap i = none)
    (hs' : s'.id = s.id ∧ s'.start = s.start ∧ s'.stop = s.start ∧ s.ver < s'.ver ∧ s.logIndex ≤ s'.logIndex)
    (hd' : d'.id = d.id ∧ d'.start = s.start ∧ d'.stop = d.stop ∧ d.ver < d'.ver ∧ d.logIndex ≤ d'.logIndex)
    (first : Bool) :
    let m' := if first then (report (report m s').1 d').1 else (report (report m d').1 s').1
    m'.infos = m.infos ∧ m'.keys = m.keys ∧ generate m' d.id = some [s', d'] ∧
    ∃ infos' keys', updateRegion m.infos m.keys false [s', d'] = some (infos', keys') ∧ Good infos' keys' ∧
      (∀ e, e ∈ keys' ↔ (e ∈ m.keys ∧ e ≠ (s.start, s.id) ∧ e ≠ (d.start, d.id)) ∨ e = (s.start, d.id)) ∧
      infos' d.id = some { d' with conf := d.conf + 1 } ∧ infos' s.id = some { s' with conf := s.conf + 1 } ∧
      ∀ i, i ≠ d.id → i ≠ s.id → infos' i = m.infos i := by
  obtain ⟨s1, s2, s3, s4, s5⟩ := hs'
  obtain ⟨d1, d2, d3, d4, d5⟩ := hd'
  obtain ⟨a1, a2, a3⟩ := hadj
  obtain ⟨l, ls, lk, li⟩ := id hg
  have hreg : ∀ x : RI, m.infos x.id = some x → (x.start, x.id) ∈ m.keys → x ∈ l := by
    intro x hx hin
    rw [lk] at hin
    obtain ⟨z, hz, he⟩ := List.mem_map.1 hin
    have := li z hz
    rw [show z.id = x.id from congrArg Prod.snd he, hx] at this
    injection this with this; subst this; exact hz
  have hNs := seg_ne ls s (hreg s hs hsin)
  have hNd := seg_ne ls d (hreg d hd hdin)
  have hsd : BLt s.start d.start := by
    rcases hNs with h | h
    · rw [a1] at h; exact absurd h a3
    · rw [← a1]; exact h
  have hdne : PLt (some d.start) (endPos d.stop) := hNd.lt
  have hne : s.id ≠ d.id := fun h => by
    rw [h, hd] at hs; injection hs with hs; rw [hs] at hsd; exact BLt.irrefl _ hsd
  have hNd' : NE d' := by
    rcases hNd with h | h
    · exact .inl (d3.trans h)
    · right; rw [d2, d3]; exact hsd.trans h
  have hns' : s'.isNone = true := by simp [RI.isNone, s2, s3, a2]
  have hdd : d'.start ≠ d'.stop := by
    intro h
    have := hNd'.not_isNone
    rw [RI.isNone] at this
    simp [h] at this
    rw [← h, d2] at this
    exact a2 this
  have rep_s : ∀ m2 : Meta, m2.infos = m.infos → (∀ i, m2.noneMap i = none) →
      (report m2 s').1 = { m2 with noneMap := fun i => if i = s'.id then some s' else m2.noneMap i } := by
    intro m2 h1 h2
    unfold report
    rw [h1, s1, hs]
    simp only
    rw [if_neg (by omega), if_neg (by simp; omega), if_pos s4, if_pos (by simp [s2, s3])]
    simp [addUpdateTo, h2, s1]
  have rep_d : ∀ m2 : Meta, m2.infos = m.infos → (∀ i, m2.keyMap i = none) →
      (report m2 d').1 = { m2 with keyMap := fun i => if i = d'.id then some d' else m2.keyMap i } := by
    intro m2 h1 h2
    unfold report
    rw [h1, d1, hd]
    simp only
    rw [if_neg (by omega), if_neg (by simp; omega), if_pos d4, if_neg (by simpa using hdd)]
    simp [addUpdateTo, h2, d1]
  have hm' : (if first then (report (report m s').1 d').1 else (report (report m d').1 s').1) =
      { m with keyMap := fun i => if i = d'.id then some d' else m.keyMap i, noneMap := fun i => if i = s'.id then some s' else m.noneMap i } := by
    cases first
    · rw [if_neg (by decide), rep_d m rfl hq1]
      exact rep_s { m with keyMap := fun i => if i = d'.id then some d' else m.keyMap i } rfl hq2
    · rw [if_pos rfl, rep_s m rfl hq2]
      exact rep_d { m with noneMap := fun i => if i = s'.id then some s' else m.noneMap i } rfl hq1
  -- `d` follows `s` in the map
  have hnext : ∃ t, mfind s.start m.keys = (s.start, s.id) :: (d.start, d.id) :: t := by
    have hf : (mfind s.start (l.map ent)).isEmpty = false := by
      cases hm : mfind s.start (l.map ent) with
      | cons _ _ => rfl
      | nil =>
        have := List.dropWhile_eq_nil_iff.1 hm (ent s) (List.mem_map.2 ⟨s, hreg s hs hsin, rfl⟩)
        simp [ent] at this
    obtain ⟨l1, l2, e1, e2, e3, _, e5, e6⟩ := seg_find ls hf
    have hstart : ∀ x ∈ l, ∀ y ∈ l, x.start = y.start → x = y := by
      intro x hx y hy hxy
      have hu := (seg_cover ls (x := x.start)).2.2 x hx y hy
      exact hu ⟨BLe.refl _, seg_ne ls x hx⟩ ⟨by rw [hxy]; exact BLe.refl _, by rw [hxy]; exact seg_ne ls y hy⟩
    cases l2 with
    | nil => exact absurd rfl e6
    | cons x l2 =>
      obtain ⟨g1, g2, g3⟩ := e3
      injection g1 with g1
      have hx : x = s := hstart x (by rw [e1]; simp) s (hreg s hs hsin) g1.symm
      subst hx
      rw [endPos, if_neg (by rw [a1]; exact a3), a1] at g3
      cases l2 with
      | nil => cases g3
      | cons y l2 =>
        obtain ⟨g4, _, _⟩ := g3
        injection g4 with g4
        have hy : y = d := hstart y (by rw [e1]; simp) d (hreg d hd hdin) g4.symm
        subst hy
        exact ⟨l2.map ent, by rw [lk, e5]; rfl⟩
  simp only [hm']
  refine ⟨trivial, trivial, ?_, ?_⟩
  · obtain ⟨t, ht⟩ := hnext
    unfold generate
    simp only [hd, d1, if_true]
    rw [if_neg (by omega), if_neg (by
      rw [d3]
      rcases hNd with h | h
      · simp [h]
      · have : bcmp d.stop d.start ≠ .lt := fun h' => BLt.asymm h h'
        simp [this])]
    have hlt1 : bcmp s.start d.start = .lt := hsd
    have hloop : mergeLoop (fun i => if i = s.id then some s' else m.noneMap i) d.start
        ((s.start, s.id) :: (d.start, d.id) :: t) = some [s'] := by
      rw [mergeLoop, hlt1]
      simp only [if_true]
      rw [mergeLoop, bcmp_eq_iff.2 rfl]
      rfl
    simp only [getMerge, d2, hlt1, ht, s1, hloop]
    simp [getSplit, d3]
  · have hfil : [s', d'].filter (fun r => !r.isNone) = [d'] := by simp [hns', hNd'.not_isNone]
    have hseg : Seg (some s.start) [d'] (endPos d.stop) := ⟨by rw [d2], hNd', by rw [d3]; rfl⟩
    have hcons : Consistent m.infos m.keys [s', d'] s.start d.stop := by
      refine ⟨by rw [hfil]; exact hseg, by rw [hfil]; simp, fun x hx hx' => ?_, ?_, ?_⟩
      · simp only [List.mem_cons, List.not_mem_nil, or_false] at hx
        rcases hx with rfl | rfl
        · refine ⟨by rw [s2]; exact BLe.refl _, ?_⟩
          rw [s3]
          rcases hNd with h | h
          · exact .inl h
          · exact .inr ⟨a2, (hsd.trans h).le⟩
        · rw [hNd'.not_isNone] at hx'; cases hx'
      · simp [s1, d1, hne]
      · intro x hx e he hid
        simp only [List.mem_cons, List.not_mem_nil, or_false] at hx
        rcases hx with rfl | rfl
        · have : e = (s.start, s.id) := good_id_unique hg he hsin (hid.trans s1)
          subst this
          exact ⟨BLe.refl _, PLt.trans (b := some d.start) hsd hdne⟩
        · have : e = (d.start, d.id) := good_id_unique hg he hdin (hid.trans d1)
          subst this
          exact ⟨hsd.le, hdne⟩
    obtain ⟨infos', keys', hu⟩ := updateRegion_accepts hcons (by
      intro x hx q hq
      simp only [List.mem_cons, List.not_mem_nil, or_false] at hx
      rcases hx with rfl | rfl
      · rw [s1, hs] at hq; injection hq with hq; subst hq; exact s4
      · rw [d1, hd] at hq; injection hq with hq; subst hq; exact d4) ⟨_, hsin, rfl⟩ (good_next hg hd hdin)
    obtain ⟨g1, g2⟩ := good_update_exact hg hcons hu
    refine ⟨infos', keys', hu, g1, ?_, ?_⟩
    · intro e
      rw [g2 e]
      have hinside : e ∈ m.keys → ((BLe s.start e.1 ∧ PLt (some e.1) (endPos d.stop)) ↔ e = (s.start, s.id) ∨ e = (d.start, d.id)) := by
        intro he
        constructor
        · rintro ⟨h1, h2⟩
          obtain ⟨e0, he0, _, huniq⟩ := hg.tiles e.1
          rw [lk] at he
          obtain ⟨z, hz, rfl⟩ := List.mem_map.1 he
          have hcz : Covers z.start z.stop z.start := ⟨BLe.refl _, seg_ne ls z hz⟩
          have hez := huniq (ent z) (by rw [lk]; exact he) ⟨z, li z hz, hcz⟩
          by_cases hlt : BLt z.start d.start
          · have := huniq (s.start, s.id) hsin ⟨s, hs, h1, .inr (by rw [a1]; exact hlt)⟩
            exact .inl (hez.trans this.symm)
          · have := huniq (d.start, d.id) hdin ⟨d, hd, covers_iff_pos.2 ⟨not_BLt.1 hlt, h2⟩⟩
            exact .inr (hez.trans this.symm)
        · rintro (rfl | rfl)
          · exact ⟨BLe.refl _, PLt.trans (b := some d.start) hsd hdne⟩
          · exact ⟨hsd.le, hdne⟩
      constructor
      · rintro (⟨h, hn⟩ | ⟨x, hx, hxn, rfl⟩)
        · rw [hinside h] at hn
          exact .inl ⟨h, fun h' => hn (.inl h'), fun h' => hn (.inr h')⟩
        · simp only [List.mem_cons, List.not_mem_nil, or_false] at hx
          rcases hx with rfl | rfl
          · rw [hns'] at hxn; cases hxn
          · right; rw [d1, d2]
      · rintro (⟨h, h1, h2⟩ | rfl)
        · exact .inl ⟨h, fun h' => by rcases (hinside h).1 h' with h' | h'; exacts [h1 h', h2 h']⟩
        · exact .inr ⟨d', by simp, hNd'.not_isNone, by rw [d1, d2]⟩
    · obtain ⟨u1, _⟩ := update_infos hu
      rw [u1]
      have as : adjConf m.infos s' = { s' with conf := s.conf + 1 } := by simp [adjConf, s1, hs]
      have ad : adjConf m.infos d' = { d' with conf := d.conf + 1 } := by simp [adjConf, d1, hd]
      simp only [List.map_cons, List.map_nil, setInfos, as, ad, d1, s1]
      refine ⟨by simp, by simp [hne], fun i h1 h2 => by simp [h1, h2]⟩

/-- C10.  A heartbeat that is older than what is known, or that changes a range without a newer version, changes nothing. -/
theorem C10_report_ignored {m : Meta} {r o : RI} (ho : m.infos r.id = some o)
    (h : r.logIndex < o.logIndex ∨ (r.ver ≤ o.ver ∧ (r.start ≠ o.start ∨ r.stop ≠ o.stop))) : report m r = (m, none) := by
  unfold report
  rw [ho]
  simp only
  by_cases hl : r.logIndex < o.logIndex
  · rw [if_pos hl]
  · rw [if_neg hl, if_pos]
    have := h.resolve_left hl
    simp [this.1]
    simpa using this.2

/-- C10.  A waiting report that is newer than what is known survives the clean-up, and so do the regions waiting with it. -/
theorem C10_recycle_keeps {m : Meta} {ids : List Nat} {i : Nat} {r o : RI} (hi : i ∈ ids) (hr : m.keyMap i = some r)
    (ho : m.infos i = some o) (hv : o.ver < r.ver) :
    (recycle m ids).keyMap i = some r ∧ (recycle m ids).newMap = m.newMap ∧ (recycle m ids).noneMap = m.noneMap := by
  unfold recycle
  simp only
  rw [if_neg]
  · refine ⟨?_, rfl, rfl⟩
    simp only [hr, ho]
    rw [if_neg (by omega)]
  · intro h
    rw [Bool.and_eq_true, List.all_eq_true] at h
    have := h.1 i hi
    simp only [hr, ho] at this
    rw [if_neg (by omega)] at this
    cases this

/-- C10.  One that is not newer is dropped; when none is left nothing waits any more. -/
theorem C10_recycle_drops {m : Meta} {ids : List Nat}
    (hold : ∀ i r, m.keyMap i = some r → ∃ o, m.infos i = some o ∧ r.ver ≤ o.ver) (hk : m.keys ≠ []) :
    (∀ i, (recycle m ids).keyMap i = none) ∧ (recycle m ids).newMap = [] ∧ ∀ i, (recycle m ids).noneMap i = none := by
  have hkm : ∀ i, (match m.keyMap i, m.infos i with
        | some r, some o => if r.ver ≤ o.ver then none else some r
        | x, _ => x) = none := by
    intro i
    cases h : m.keyMap i with
    | none => rfl
    | some r =>
      obtain ⟨o, ho, hv⟩ := hold i r h
      simp [ho, hv]
  unfold recycle
  simp only
  rw [if_pos]
  · exact ⟨hkm, rfl, fun _ => rfl⟩
  · rw [Bool.and_eq_true, List.all_eq_true]
    refine ⟨fun i _ => Option.isNone_iff_eq_none.2 (hkm i), ?_⟩
    have : m.keys.isEmpty = false := by cases h : m.keys <;> simp_all
    simp [this]

end BaikalDB.Region
