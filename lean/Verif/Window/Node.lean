import Verif.Window.Rank
import Verif.Join.Keys

/-! # Partitions: their keys, and cutting the rows of the child into them -/

namespace BaikalDB.Window
open Expr (EV VTy)
open Expr.Spec
open Spec
open BaikalDB.Pred.Spec (Direct)
open BaikalDB.Sort (Key rowCompare rowOrd RowLe RowOK colVal colOrd)

variable {ρ : Type} {ty : Key ρ → VTy} {part : List (ρ → EV)} {ks : List (Key ρ)}

/-! ## Keys -/

theorem bit_one_shift (i j : Nat) (hi : i ≤ 7) (hj : j ≤ 7) : (1#8 <<< i).getLsbD j = decide (i = j) := by
  have : ∀ a : Fin 8, ∀ b : Fin 8, (1#8 <<< a.1).getLsbD b.1 = decide (a.1 = b.1) := by decide
  exact this ⟨i, by omega⟩ ⟨j, by omega⟩

theorem flags_bits (r : ρ) (l : List (ρ → EV)) : ∀ (k : Nat) (f : Byte), k + l.length ≤ 8 → ∀ j, j < 8 →
    ((l.zipIdx k).foldl (fun (f : Byte) p => if (p.1 r).isNull then f ||| (1#8 <<< (7 - p.2)) else f) f).getLsbD (7 - j) =
      (f.getLsbD (7 - j) || if k ≤ j then (l[j - k]?.map fun a => (a r).isNull).getD false else false) := by
  induction l with
  | nil => intro k f _ j _; simp
  | cons v l ih =>
    intro k f hk j hj
    simp only [List.length_cons] at hk
    rw [List.zipIdx_cons, List.foldl_cons, ih (k + 1) _ (by omega) j hj]
    have hstep : (if (v r).isNull then f ||| (1#8 <<< (7 - k)) else f).getLsbD (7 - j) = (f.getLsbD (7 - j) || ((v r).isNull && decide (j = k))) := by
      cases (v r).isNull
      · simp
      · simp only [if_true, BitVec.getLsbD_or, bit_one_shift (7 - k) (7 - j) (by omega) (by omega), Bool.true_and]
        congr 1
        exact decide_eq_decide.mpr (by omega)
    simp only [hstep]
    rcases Nat.lt_trichotomy j k with h | h | h
    · have e1 : ¬ k + 1 ≤ j := by omega
      have e2 : ¬ k ≤ j := by omega
      have e3 : j ≠ k := by omega
      simp [e1, e2, e3]
    · subst h
      simp
    · have e1 : k + 1 ≤ j := by omega
      have e2 : k ≤ j := by omega
      have e3 : j ≠ k := by omega
      have e4 : j - k = (j - (k + 1)) + 1 := by omega
      simp [e1, e2, e3, e4]

/-- The bytes of the values that are not NULL. -/
def valBytes (part : List (ρ → EV)) (r : ρ) : Bytes := part.flatMap fun a => if (a r).isNull then [] else Join.appendEV [] (a r)

theorem valBytes_eq {r r' : ρ} : ∀ (part : List (ρ → EV)), (∀ a ∈ part, (a r).isNull = (a r').isNull) →
    (∀ a ∈ part, ∃ t, (IntTy t ∨ Direct t) ∧ ((a r).isNull = true ∨ Join.Good t (a r)) ∧ ((a r').isNull = true ∨ Join.Good t (a r'))) →
    (valBytes part r = valBytes part r' ↔ ∀ a ∈ part, colVal (a r) = colVal (a r')) := by
  intro part
  induction part with
  | nil => intro _ _; simp [valBytes]
  | cons a part ih =>
    intro hn hg
    have ih' := ih (fun b hb => hn b (List.mem_cons_of_mem _ hb)) (fun b hb => hg b (List.mem_cons_of_mem _ hb))
    have hna := hn a List.mem_cons_self
    obtain ⟨t, ht, g1, g2⟩ := hg a List.mem_cons_self
    have hcons : ∀ r, valBytes (a :: part) r = (if (a r).isNull then [] else Join.appendEV [] (a r)) ++ valBytes part r := by
      intro r; simp [valBytes]
    rw [hcons, hcons]
    simp only [List.forall_mem_cons]
    cases h : (a r).isNull with
    | true =>
      rw [h] at hna
      rw [← hna]
      simp only [if_true, List.nil_append, ih', colVal, h, ← hna, true_and]
    | false =>
      rw [h] at hna
      rw [← hna]
      rw [h] at g1
      rw [← hna] at g2
      simp only [Bool.false_eq_true, false_or] at g1 g2
      have e1 : colVal (a r) = sem (a r) := by unfold colVal; rw [h]; simp
      have e2 : colVal (a r') = sem (a r') := by unfold colVal; rw [← hna]; simp
      rw [e1, e2]
      simp only [Bool.false_eq_true, if_false]
      rw [Join.good_split ht g1 g2, ih']

theorem colVal_isNull {v w : EV} {t : VTy} (ht : Expr.Spec.Ordered t) (hv : v.isNull = true ∨ v.ty = t) (hw : w.isNull = true ∨ w.ty = t)
    (h : colVal v = colVal w) : v.isNull = w.isNull := by
  have hs : ∀ v : EV, v.ty = t → v.isNull = false → (sem v).isSome := by
    intro v hv _
    unfold sem
    rw [hv]
    cases t <;> simp_all [Expr.Spec.Ordered, intShape]
  unfold colVal at h
  cases h1 : v.isNull with
  | true =>
    cases h2 : w.isNull with
    | true => rfl
    | false =>
      rw [h1, h2] at h
      have := hs w (hw.resolve_left (by rw [h2]; simp)) h2
      rw [← (show none = sem w from by simpa using h)] at this
      cases this
  | false =>
    cases h2 : w.isNull with
    | false => rfl
    | true =>
      rw [h1, h2] at h
      have := hs v (hv.resolve_left (by rw [h1]; simp)) h1
      rw [(show sem v = none from by simpa using h)] at this
      cases this

theorem direct_ordered {t : VTy} (h : IntTy t ∨ Direct t) : Expr.Spec.Ordered t := by
  cases t <;> simp_all [IntTy, Direct, Expr.Spec.Ordered]

/-- Rows have the same key exactly when they agree on the PARTITION BY items. -/
theorem partKey_eq (h8 : part.length ≤ 8) {r r' : ρ} (hr : SpecOk ty part ks r) (hr' : SpecOk ty part ks r') :
    partKey part r = partKey part r' ↔ samePart part r r' = true := by
  have hgood : ∀ a ∈ part, ∃ t, (IntTy t ∨ Direct t) ∧ ((a r).isNull = true ∨ Join.Good t (a r)) ∧ ((a r').isNull = true ∨ Join.Good t (a r')) := by
    intro a ha
    exact ⟨_, (hr.1 a ha).1, (hr.1 a ha).2, (hr'.1 a ha).2⟩
  unfold samePart
  rw [List.all_eq_true]
  simp only [decide_eq_true_iff]
  have hflag : ∀ a ∈ part, ∀ j, part[j]? = some a → j < 8 → ∀ r : ρ,
      (part.zipIdx.foldl (fun (f : Byte) p => if (p.1 r).isNull then f ||| (1#8 <<< (7 - p.2)) else f) 0#8).getLsbD (7 - j) = (a r).isNull := by
    intro a _ j hj hj8 r
    rw [flags_bits r part 0 0#8 (by omega) j hj8]
    simp [hj]
  constructor
  · intro he
    unfold partKey at he
    injection he with h1 h2
    have hn : ∀ a ∈ part, (a r).isNull = (a r').isNull := by
      intro a ha
      obtain ⟨j, hj, e⟩ := List.getElem_of_mem ha
      have hj' : part[j]? = some a := by rw [List.getElem?_eq_getElem hj, e]
      rw [← hflag a ha j hj' (by omega) r, ← hflag a ha j hj' (by omega) r', h1]
    exact (valBytes_eq part hn hgood).1 h2
  · intro hs
    have hn : ∀ a ∈ part, (a r).isNull = (a r').isNull := by
      intro a ha
      refine colVal_isNull (direct_ordered (hr.1 a ha).1) ?_ ?_ (hs a ha)
      · rcases (hr.1 a ha).2 with h | h
        · exact Or.inl h
        · exact Or.inr h.1
      · rcases (hr'.1 a ha).2 with h | h
        · exact Or.inl h
        · exact Or.inr h.1
    unfold partKey
    congr 1
    · apply List.foldl_ext
      intro f p hp
      have : p.1 ∈ part := by
        have := List.mem_zipIdx' hp
        obtain ⟨h1, h2⟩ := this
        rw [h2]
        exact List.getElem_mem h1
      simp only [hn p.1 this]
    · exact (valBytes_eq part hn hgood).2 hs

/-! ## Cutting -/

/-- Stretches of rows with one key each, neighbours with different ones. -/
def Segs (key : ρ → Bytes) : List (List ρ) → Prop
  | [] => True
  | p :: ps => p ≠ [] ∧ (∀ x ∈ p, ∀ y ∈ p, key x = key y) ∧ (∀ x ∈ p, ∀ y ∈ ps.flatten.head?, key x ≠ key y) ∧ Segs key ps

theorem cutLoop_spec (key : ρ → Bytes) : ∀ (rs : List ρ) (k : Bytes) (cur : List ρ), cur ≠ [] → (∀ x ∈ cur, key x = k) →
    Segs key (cutLoop key k cur rs) ∧ (cutLoop key k cur rs).flatten = cur ++ rs := by
  intro rs
  induction rs with
  | nil =>
    intro k cur hne hk
    unfold cutLoop
    refine ⟨⟨hne, fun x hx y hy => (hk x hx).trans (hk y hy).symm, by simp, trivial⟩, by simp⟩
  | cons r rs ih =>
    intro k cur hne hk
    unfold cutLoop
    by_cases hc : key r ≠ k
    · rw [if_pos hc]
      obtain ⟨h1, h2⟩ := ih (key r) [r] (by simp) (by simp)
      refine ⟨⟨hne, fun x hx y hy => (hk x hx).trans (hk y hy).symm, ?_, h1⟩, by simp [h2]⟩
      intro x hx y hy
      rw [h2] at hy
      simp only [List.cons_append, List.nil_append, List.head?_cons, Option.mem_def, Option.some.injEq] at hy
      subst hy
      rw [hk x hx]
      exact fun h => hc h.symm
    · rw [if_neg hc]
      have hr : key r = k := by simpa using hc
      obtain ⟨h1, h2⟩ := ih k (cur ++ [r]) (by simp) (by
        intro x hx
        rcases List.mem_append.1 hx with hx | hx
        · exact hk x hx
        · simp only [List.mem_singleton] at hx; subst hx; exact hr)
      exact ⟨h1, by rw [h2]; simp⟩

/-- The key of the last row is remembered (there is nothing to remember without PARTITION BY). -/
def LastOk (part : List (ρ → EV)) (last : Option Bytes) (k : Bytes) : Prop := (part = [] ∧ k = [0#8]) ∨ (part ≠ [] ∧ last = some k)

theorem Segs.single {key : ρ → Bytes} {b : List ρ} (hne : b ≠ []) (h : ∀ x ∈ b, ∀ y ∈ b, key x = key y) : Segs key [b] :=
  ⟨hne, h, by simp, trivial⟩

/-- Rows with one key lie together. -/
def Together (key : ρ → Bytes) (L : List ρ) : Prop :=
  ∀ (i j k : Nat) (x y z : ρ), i ≤ j → j ≤ k → L[i]? = some x → L[j]? = some y → L[k]? = some z → key x = key z → key y = key x

theorem Together.infix {key : ρ → Bytes} {A B C : List ρ} (h : Together key (A ++ B ++ C)) : Together key B := by
  intro i j k x y z hij hjk hx hy hz he
  have hlen := (List.getElem?_eq_some_iff.1 hz).1
  have sh : ∀ n w, B[n]? = some w → (A ++ B ++ C)[A.length + n]? = some w := by
    intro n w hw
    have := (List.getElem?_eq_some_iff.1 hw).1
    rw [List.getElem?_append_left (by rw [List.length_append]; omega), List.getElem?_append_right (by omega),
      show A.length + n - A.length = n by omega]
    exact hw
  exact h _ _ _ x y z (by omega) (by omega) (sh i x hx) (sh j y hy) (sh k z hz) he

theorem split_spec (last : Option Bytes) {b : List ρ} {r : ρ} {rs : List ρ} (hb : b = r :: rs) (ht : Together (partKey part) b) {z : ρ}
    (hz : b.getLast? = some z) :
    Segs (partKey part) (split part last b).parts ∧ (split part last b).parts.flatten = b ∧
    (∀ k, LastOk part last k → (split part last b).belongs = decide (k = partKey part r)) ∧
    LastOk part (split part last b).last (partKey part z) := by
  by_cases hpe : part = []
  · subst hpe
    have hk : ∀ x : ρ, partKey [] x = [0#8] := fun x => rfl
    have hs : split [] last b = ⟨[b], true, last⟩ := by unfold split; simp
    rw [hs]
    refine ⟨Segs.single (by rw [hb]; simp) (fun x _ y _ => rfl), by simp, fun k hl => ?_, Or.inl ⟨rfl, hk z⟩⟩
    rcases hl with hl | hl
    · rw [hl.2, hk]; simp
    · exact absurd rfl hl.1
  · have hie : part.isEmpty = false := by
      cases part with
      | nil => exact absurd rfl hpe
      | cons => rfl
    have hs : split part last b = ⟨if partKey part r = partKey part z then [r :: rs] else cutLoop (partKey part) (partKey part r) [r] rs,
        decide (last = some (partKey part r)), some (partKey part z)⟩ := by
      subst hb
      unfold split
      rw [hie, if_neg (by simp), hz]
    rw [hs]
    refine ⟨?_, ?_, fun k hl => ?_, Or.inr ⟨hpe, rfl⟩⟩
    · dsimp only
      split
      · next he =>
        apply Segs.single (by simp)
        have hconst : ∀ x ∈ b, partKey part x = partKey part r := by
          intro x hx
          obtain ⟨j, hj, rfl⟩ := List.getElem_of_mem hx
          rw [List.getLast?_eq_getElem?] at hz
          exact ht 0 j (b.length - 1) r _ z (by omega) (by omega) (by rw [hb]; rfl) (List.getElem?_eq_getElem hj) hz he
        rw [← hb]
        exact fun x hx y hy => (hconst x hx).trans (hconst y hy).symm
      · exact (cutLoop_spec _ rs _ [r] (by simp) (by simp)).1
    · dsimp only
      split
      · simp [hb]
      · rw [(cutLoop_spec _ rs _ [r] (by simp) (by simp)).2, hb]; rfl
    · rcases hl with hl | hl
      · exact absurd hl.1 hpe
      · dsimp only
        rw [hl.2]
        apply decide_eq_decide.2
        simp

/-! ## Taking partitions -/

/-- The rows of the state. -/
def NodeSt.rows (st : NodeSt ρ) : List ρ := st.cache.flatten ++ st.input.flatten

/-- A state between partitions. -/
structure StOk (part : List (ρ → EV)) (st : NodeSt ρ) : Prop where
  segs : Segs (partKey part) st.cache
  batches : ∀ b ∈ st.input.dropLast, b ≠ []
  last : ∀ z, st.cache.flatten.getLast? = some z → LastOk part st.last (partKey part z)

theorem dropLast_tail {α : Type} {b : List α} {bs : List (List α)} (h : ∀ x ∈ (b :: bs).dropLast, x ≠ []) : ∀ x ∈ bs.dropLast, x ≠ [] := by
  intro x hx
  cases bs with
  | nil => simp at hx
  | cons c cs => exact h x (by simp only [List.dropLast_cons_cons]; exact List.mem_cons_of_mem _ hx)

theorem extend_spec : ∀ (input : List (List ρ)) (cur : List ρ) (last : Option Bytes) (k : Bytes), cur ≠ [] → (∀ x ∈ cur, partKey part x = k) →
    LastOk part last k → (∀ b ∈ input.dropLast, b ≠ []) → Together (partKey part) input.flatten →
    (extend part cur last input).1 ++ (extend part cur last input).2.rows = cur ++ input.flatten ∧ (extend part cur last input).1 ≠ [] ∧
    (∀ x ∈ (extend part cur last input).1, partKey part x = k) ∧ StOk part (extend part cur last input).2 ∧
    (∀ y, (extend part cur last input).2.rows.head? = some y → k ≠ partKey part y) := by
  intro input
  induction input with
  | nil =>
    intro cur last k hne hk _ _ _
    unfold extend
    exact ⟨by simp [NodeSt.rows], hne, hk, ⟨trivial, by simp, by simp⟩, by simp [NodeSt.rows]⟩
  | cons b bs ih =>
    intro cur last k hne hk hl hb ht
    unfold extend
    by_cases he : b = []
    · rw [if_pos he]
      subst he
      have hbs : bs = [] := by
        cases bs with
        | nil => rfl
        | cons c cs => exact absurd rfl (hb [] (by simp))
      subst hbs
      exact ⟨by simp [NodeSt.rows], hne, hk, ⟨trivial, by simp, by simp⟩, by simp [NodeSt.rows]⟩
    · rw [if_neg he]
      obtain ⟨r, rs, hbr⟩ : ∃ r rs, b = r :: rs := by
        cases b with
        | nil => exact absurd rfl he
        | cons r rs => exact ⟨r, rs, rfl⟩
      obtain ⟨z, hz⟩ : ∃ z, b.getLast? = some z := ⟨b.getLast he, List.getLast?_eq_some_getLast he⟩
      have htb : Together (partKey part) b := by
        apply Together.infix (A := []) (C := bs.flatten)
        simpa using ht
      have htbs : Together (partKey part) bs.flatten := by
        apply Together.infix (A := b) (C := [])
        simpa using ht
      obtain ⟨s1, s2, s3, s4⟩ := split_spec (part := part) last hbr htb hz
      have hbel := s3 k hl
      have hdrop := dropLast_tail hb
      have hfl : (b :: bs).flatten = b ++ bs.flatten := rfl
      by_cases hc : k = partKey part r
      · rw [if_pos (by rw [hbel]; simpa using hc)]
        cases hps : (split part last b).parts with
        | nil => rw [hps] at s2; exact absurd s2.symm he
        | cons p ps =>
          rw [hps] at s1 s2
          obtain ⟨p1, p2, p3, p4⟩ := s1
          have hpk : ∀ x ∈ p, partKey part x = k := by
            intro x hx
            have hrp : r ∈ p := by
              cases p with
              | nil => exact absurd rfl p1
              | cons q qs =>
                rw [hbr] at s2
                simp only [List.flatten_cons, List.cons_append, List.cons.injEq] at s2
                rw [s2.1]
                exact List.mem_cons_self
            rw [hc]
            exact p2 x hx r hrp
          cases ps with
          | nil =>
            have hpb : p = b := by simpa using s2
            subst hpb
            have := ih (cur ++ p) (split part last p).last k (by simp [hne]) (by
              intro x hx
              rcases List.mem_append.1 hx with hx | hx
              · exact hk x hx
              · exact hpk x hx) (by
                have hzk : partKey part z = k := hpk z (List.mem_of_getLast? hz)
                rw [hzk] at s4
                exact s4) hdrop htbs
            simpa [List.append_assoc] using this
          | cons q qs =>
            refine ⟨?_, by simp [hne], ?_, ⟨p4, hdrop, fun z' hz' => ?_⟩, ?_⟩
            · simp only [NodeSt.rows]
              rw [hfl, ← s2]
              simp
            · intro x hx
              rcases List.mem_append.1 hx with hx | hx
              · exact hk x hx
              · exact hpk x hx
            · have : z' = z := by
                have h1 : b.getLast? = some z' := by
                  rw [← s2, List.flatten_cons, List.getLast?_append, hz']
                  rfl
                rw [hz] at h1
                injection h1 with h1
                exact h1.symm
              rw [this]
              exact s4
            · intro y hy
              simp only [NodeSt.rows] at hy
              have hq : q ≠ [] := p4.1
              have hy' : (q :: qs).flatten.head? = some y := by
                cases q with
                | nil => exact absurd rfl hq
                | cons u us => simpa using hy
              obtain ⟨x, hx⟩ := List.exists_mem_of_ne_nil p p1
              rw [← hpk x hx]
              exact p3 x hx y hy'
      · rw [if_neg (by rw [hbel]; simpa using hc)]
        refine ⟨?_, hne, hk, ⟨s1, hdrop, fun z' hz' => ?_⟩, fun y hy => ?_⟩
        · simp only [NodeSt.rows]
          rw [s2, hfl]
        · rw [s2, hz] at hz'
          injection hz' with hz'
          subst hz'
          exact s4
        · simp only [NodeSt.rows] at hy
          rw [s2, hbr] at hy
          simp only [List.cons_append, List.head?_cons, Option.some.injEq] at hy
          subst hy
          exact hc

theorem refill_spec : ∀ (input : List (List ρ)) (last : Option Bytes), (∀ b ∈ input.dropLast, b ≠ []) → Together (partKey part) input.flatten →
    StOk part (refill part last input) ∧ (refill part last input).rows = input.flatten ∧
    ((refill part last input).cache = [] → input.flatten = []) := by
  intro input
  induction input with
  | nil => intro last _ _; exact ⟨⟨trivial, by simp [refill], by simp [refill]⟩, rfl, fun _ => rfl⟩
  | cons b bs ih =>
    intro last hb ht
    have htb : Together (partKey part) b := by
      apply Together.infix (A := []) (C := bs.flatten)
      simpa using ht
    have htbs : Together (partKey part) bs.flatten := by
      apply Together.infix (A := b) (C := [])
      simpa using ht
    unfold refill
    by_cases he : b = []
    · rw [if_pos he]
      subst he
      simpa using ih last (dropLast_tail hb) htbs
    · rw [if_neg he]
      obtain ⟨r, rs, hbr⟩ : ∃ r rs, b = r :: rs := by
        cases b with
        | nil => exact absurd rfl he
        | cons r rs => exact ⟨r, rs, rfl⟩
      obtain ⟨z, hz⟩ : ∃ z, b.getLast? = some z := ⟨b.getLast he, List.getLast?_eq_some_getLast he⟩
      obtain ⟨s1, s2, _, s4⟩ := split_spec (part := part) last hbr htb hz
      refine ⟨⟨s1, dropLast_tail hb, fun z' hz' => ?_⟩, ?_, fun hc => ?_⟩
      · rw [s2, hz] at hz'
        injection hz' with hz'
        subst hz'
        exact s4
      · simp only [NodeSt.rows]
        rw [s2]
        rfl
      · simp only at hc
        rw [hc] at s2
        exact absurd s2.symm he

/-- One partition is taken off. -/
theorem take_spec {st : NodeSt ρ} (h : StOk part st) (ht : Together (partKey part) st.rows) (hc : st.cache ≠ []) :
    ∃ p st', takeCached part st = some (p, st') ∧ p ≠ [] ∧ p ++ st'.rows = st.rows ∧ (∀ x ∈ p, ∀ y ∈ p, partKey part x = partKey part y) ∧
      (∀ x ∈ p, ∀ y, st'.rows.head? = some y → partKey part x ≠ partKey part y) ∧ StOk part st' := by
  obtain ⟨cache, last, input⟩ := st
  obtain ⟨h1, h2, h3⟩ := h
  simp only at h1 h2 h3 hc
  cases cache with
  | nil => exact absurd rfl hc
  | cons p ps =>
    obtain ⟨p1, p2, p3, p4⟩ := h1
    cases ps with
    | nil =>
      obtain ⟨x0, hx0⟩ := List.exists_mem_of_ne_nil p p1
      have hlast : LastOk part last (partKey part x0) := by
        have hz : p.getLast? = some (p.getLast p1) := List.getLast?_eq_some_getLast p1
        have := h3 (p.getLast p1) (by simpa using hz)
        rw [p2 x0 hx0 _ (List.getLast_mem p1)]
        exact this
      have hti : Together (partKey part) input.flatten := by
        apply Together.infix (A := p) (C := [])
        simpa [NodeSt.rows] using ht
      obtain ⟨e1, e2, e3, e4, e5⟩ := extend_spec input p last (partKey part x0) p1 (fun x hx => p2 x hx x0 hx0) hlast h2 hti
      refine ⟨_, _, rfl, e2, by simpa [NodeSt.rows] using e1, fun x hx y hy => (e3 x hx).trans (e3 y hy).symm, fun x hx y hy => ?_, e4⟩
      rw [e3 x hx]
      exact e5 y hy
    | cons q qs =>
      refine ⟨p, ⟨q :: qs, last, input⟩, rfl, p1, by simp [NodeSt.rows], p2, fun x hx y hy => ?_, ⟨p4, h2, fun z hz => h3 z ?_⟩⟩
      · have hq : q ≠ [] := p4.1
        refine p3 x hx y ?_
        cases q with
        | nil => exact absurd rfl hq
        | cons u us => simpa [NodeSt.rows] using hy
      · rw [List.flatten_cons, List.getLast?_append]
        simp only at hz
        rw [hz]
        rfl

theorem partitions_spec (fuel : Nat) : ∀ (st : NodeSt ρ), StOk part st → Together (partKey part) st.rows → st.rows.length < fuel →
    Segs (partKey part) (partitions part fuel st) ∧ (partitions part fuel st).flatten = st.rows := by
  induction fuel with
  | zero => intro st _ _ h; omega
  | succ fuel ih =>
    intro st hst ht hf
    have key : ∀ st : NodeSt ρ, StOk part st → Together (partKey part) st.rows → st.rows.length < fuel + 1 →
        (st.cache = [] → st.rows = []) →
        Segs (partKey part) (match takeCached part st with | none => [] | some (p, st') => p :: partitions part fuel st') ∧
        (match takeCached part st with | none => [] | some (p, st') => p :: partitions part fuel st').flatten = st.rows := by
      intro st hst ht hf hemp
      by_cases hc : st.cache = []
      · have : takeCached part st = none := by unfold takeCached; rw [hc]
        rw [this, hemp hc]
        exact ⟨trivial, rfl⟩
      · obtain ⟨p, st', e1, e2, e3, e4, e5, e6⟩ := take_spec hst ht hc
        rw [e1]
        have hp : 0 < p.length := List.length_pos_iff.2 e2
        have hlen : st'.rows.length < fuel := by
          have := congrArg List.length e3
          rw [List.length_append] at this
          omega
        obtain ⟨i1, i2⟩ := ih st' e6 (by
          apply Together.infix (A := p) (C := [])
          rw [List.append_nil, e3]
          exact ht) hlen
        refine ⟨⟨e2, e4, fun x hx y hy => e5 x hx y ?_, i1⟩, ?_⟩
        · rw [i2] at hy; exact hy
        · rw [List.flatten_cons, i2, e3]
    unfold partitions
    by_cases hc : st.cache = []
    · rw [if_pos hc]
      have hrows : st.rows = st.input.flatten := by unfold NodeSt.rows; rw [hc]; rfl
      obtain ⟨r1, r2, r3⟩ := refill_spec (part := part) st.input st.last hst.batches (by rw [← hrows]; exact ht)
      have := key (refill part st.last st.input) r1 (by rw [r2, ← hrows]; exact ht) (by rw [r2, ← hrows]; exact hf)
        (fun h => by rw [r2]; exact r3 h)
      rw [r2, ← hrows] at this
      exact this
    · rw [if_neg hc]
      exact key st hst ht hf (fun h => absurd h hc)

end BaikalDB.Window
