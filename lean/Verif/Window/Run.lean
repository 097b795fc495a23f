import Verif.Window.Node
import Verif.Sort.Props

/-! # A window node gives every row the values of its functions -/

namespace BaikalDB.Window
open Expr (EV VTy)
open Expr.Spec
open Spec
open BaikalDB.Pred.Spec (Direct)
open BaikalDB.Sort (Key rowCompare rowOrd RowLe RowOK colVal colOrd)

variable {ρ : Type} {ty : Key ρ → VTy} {part : List (ρ → EV)} {ks : List (Key ρ)} {fp : Fp}

/-! ## The order of the sort below -/

theorem rowOrd_append (A B : List (Key ρ)) (a b : ρ) : rowOrd (A ++ B) a b = (rowOrd A a b).then (rowOrd B a b) := by
  induction A with
  | nil => rfl
  | cons k A ih =>
    simp only [List.cons_append, rowOrd, ih]
    cases colOrd k.asc k.nullFirst (colVal (k.val a)) (colVal (k.val b)) <;> rfl

theorem colOrd_eq {x y : Option SVal} : colOrd true true x y = .eq ↔ x = y := by
  cases x <;> cases y <;> simp [colOrd, Expr.SVal.cmp_eq]

/-- PARTITION BY as the sort sees it. -/
def partKeys (part : List (ρ → EV)) : List (Key ρ) := part.map fun a => ⟨a, true, true⟩

theorem samePart_iff (part : List (ρ → EV)) (a b : ρ) : samePart part a b = true ↔ rowOrd (partKeys part) a b = .eq := by
  induction part with
  | nil => simp [samePart, partKeys, rowOrd]
  | cons p part ih =>
    unfold samePart at ih ⊢
    simp only [List.all_cons, Bool.and_eq_true, decide_eq_true_iff, partKeys, List.map_cons, rowOrd]
    rw [ih, ← colOrd_eq]
    unfold partKeys
    cases colOrd true true (colVal (p a)) (colVal (p b)) <;> simp [Ordering.then]

theorem le_left {A B : List (Key ρ)} {a b : ρ} (h : RowLe (A ++ B) a b) : RowLe A a b := by
  unfold RowLe at *
  rw [rowOrd_append] at h
  intro hc
  rw [hc] at h
  exact h rfl

theorem le_right {A B : List (Key ρ)} {a b : ρ} (h : RowLe (A ++ B) a b) (he : rowOrd A a b = .eq) : RowLe B a b := by
  unfold RowLe at *
  rw [rowOrd_append, he] at h
  exact h

theorem samePart_refl (x : ρ) : samePart part x x = true := by
  unfold samePart; simp

/-! ## Rows of one partition lie together -/

theorem together {L : List ρ} (h8 : part.length ≤ 8) (hs : L.Pairwise (RowLe (partKeys part ++ ks))) (hok : ∀ r ∈ L, SpecOk ty part ks r) :
    Together (partKey part) L := by
  intro i j k x y z hij hjk hx hy hz he
  have hle : ∀ (a b : Nat) (u v : ρ), a ≤ b → L[a]? = some u → L[b]? = some v → RowLe (partKeys part) u v := by
    intro a b u v hab hu hv
    obtain ⟨h1, rfl⟩ := List.getElem?_eq_some_iff.1 hu
    obtain ⟨h2, rfl⟩ := List.getElem?_eq_some_iff.1 hv
    rcases Nat.lt_or_ge a b with h | h
    · exact le_left (List.pairwise_iff_getElem.1 hs a b h1 h2 h)
    · have : a = b := by omega
      subst this
      exact Sort.RowLe.refl _ _
  have hmx := hok x (List.mem_of_getElem? hx)
  have hmy := hok y (List.mem_of_getElem? hy)
  have hmz := hok z (List.mem_of_getElem? hz)
  have hxz := (samePart_iff part x z).1 ((partKey_eq h8 hmx hmz).1 he)
  have hxy := hle i j x y hij hx hy
  have hyz := hle j k y z hjk hy hz
  have hzx : RowLe (partKeys part) z x := (eq_iff_le_le.1 hxz).2
  have hyx : RowLe (partKeys part) y x := hyz.trans hzx
  exact (partKey_eq h8 hmy hmx).2 ((samePart_iff part y x).2 (eq_iff_le_le.2 ⟨hyx, hxy⟩))

theorem segs_apart {key : ρ → Bytes} {p : List ρ} {ps : List (List ρ)} (h : Segs key (p :: ps)) (ht : Together key (p ++ ps.flatten)) :
    ∀ x ∈ p, ∀ y ∈ ps.flatten, key x ≠ key y := by
  intro x hx y hy he
  obtain ⟨_, _, h3, _⟩ := h
  obtain ⟨i, hi, rfl⟩ := List.getElem_of_mem hx
  obtain ⟨j, hj, rfl⟩ := List.getElem_of_mem hy
  have hpos : 0 < ps.flatten.length := by omega
  have hhead : ps.flatten.head? = some ps.flatten[0] := by
    rw [List.head?_eq_getElem?, List.getElem?_eq_getElem hpos]
  have := ht i p.length (p.length + j) p[i] ps.flatten[0] ps.flatten[j] (by omega) (by omega)
    (by rw [List.getElem?_append_left hi, List.getElem?_eq_getElem hi])
    (by rw [List.getElem?_append_right (by omega)]; simp)
    (by rw [List.getElem?_append_right (by omega)]; simp) he
  exact h3 _ (List.getElem_mem hi) _ hhead this.symm

/-! ## Functions on a partition -/

theorem FnOk.sub {L P : List ρ} {f : Fn ρ} (h : FnOk L f) (hsub : ∀ r ∈ P, r ∈ L) (hlen : P.length ≤ L.length) : FnOk P f := by
  cases f with
  | sum a => exact fun r hr => h r (hsub r hr)
  | min a => obtain ⟨t, h1, h2⟩ := h; exact ⟨t, h1, fun r hr => h2 r (hsub r hr)⟩
  | max a => obtain ⟨t, h1, h2⟩ := h; exact ⟨t, h1, fun r hr => h2 r (hsub r hr)⟩
  | lead a k d => obtain ⟨h1, h2⟩ := h; exact ⟨h1, by omega⟩
  | _ => exact h

theorem FnOk.opens {L : List ρ} {f : Fn ρ} (h : FnOk L f) : f.opens = true := by
  cases f with
  | lead a k d => simpa [Fn.opens] using h.1
  | lag a k d => exact decide_eq_true (show 0 ≤ k from h)
  | ntile n => exact decide_eq_true (show 0 < n from h)
  | nthValue a n => simpa [Fn.opens] using h.1
  | _ => rfl

theorem mapM_ok {α β : Type} {g : α → Except Fault β} {R : α → β → Prop} : ∀ (l : List α), (∀ a ∈ l, ∃ b, g a = .ok b ∧ R a b) →
    ∃ bs, l.mapM g = .ok bs ∧ List.Forall₂ R l bs := by
  intro l
  induction l with
  | nil => intro _; exact ⟨[], rfl, .nil⟩
  | cons a l ih =>
    intro h
    obtain ⟨b, e, hr⟩ := h a List.mem_cons_self
    obtain ⟨bs, e', hrs⟩ := ih fun x hx => h x (List.mem_cons_of_mem _ hx)
    refine ⟨b :: bs, ?_, .cons hr hrs⟩
    rw [List.mapM_cons, e]
    simp only [bind, Except.bind, e']
    rfl

/-- The functions of the node can be computed, with these frames. -/
def FnsFit (N : Nat) (L : List ρ) (nd : Node ρ) (fs : List (Fn ρ × Extent)) : Prop :=
  nd.fns = fs.map (·.1) ∧ ∀ x ∈ fs, FnOk L x.1 ∧ FrameFits N x.1 nd.frame x.2

theorem forall2_get {α β : Type} {R : α → β → Prop} {l : List α} {l' : List β} (h : List.Forall₂ R l l') :
    l.length = l'.length ∧ ∀ (i : Nat) (a : α), l[i]? = some a → ∃ b, l'[i]? = some b ∧ R a b := by
  induction h with
  | nil => exact ⟨rfl, fun i a hi => by simp at hi⟩
  | cons hr _ ih =>
    refine ⟨by simp [ih.1], fun i a hi => ?_⟩
    cases i with
    | zero =>
      simp only [List.getElem?_cons_zero, Option.some.injEq] at hi
      subst hi
      exact ⟨_, rfl, hr⟩
    | succ i => simpa using ih.2 i a (by simpa using hi)

theorem processAll_spec {oty : Key ρ → VTy} {nd : Node ρ} {P : List ρ} (h : Ordered oty nd.order P) (hfp : FpOk fp) {fs : List (Fn ρ × Extent)}
    {N : Nat} (hfit : FnsFit N P nd fs) (hP : P.length < 2 ^ 31) (hN : P.length ≤ N) :
    ∃ out, processAll fp nd P = .ok out ∧ out.map (·.1) = P ∧ ∀ (i : Nat) (x : ρ) (vs : List EV), out[i]? = some (x, vs) →
      vs.length = fs.length ∧ ∀ (j : Nat) (f : Fn ρ) (w : Extent), fs[j]? = some (f, w) → ∃ v : EV, vs[j]? = some v ∧
        Value fp nd.order f P x i (frameOf nd.order w P x i) v := by
  have hm : ∃ cols, nd.fns.mapM (fun f => process fp nd.order nd.frame f P) = .ok cols ∧
      List.Forall₂ (fun x c => Right fp nd.order x.1 x.2 P c) fs cols := by
    rw [hfit.1]
    obtain ⟨cols, e1, e2⟩ := mapM_ok (g := fun x : Fn ρ × Extent => process fp nd.order nd.frame x.1 P)
      (R := fun x c => Right fp nd.order x.1 x.2 P c) fs (fun x hx => process_spec h hfp (hfit.2 x hx).1 hP hN (hfit.2 x hx).2)
    refine ⟨cols, ?_, e2⟩
    rw [← e1, List.mapM_map]
    rfl
  obtain ⟨cols, e1, e2⟩ := hm
  obtain ⟨hl, hg⟩ := forall2_get e2
  refine ⟨P.zipIdx.map fun x => (x.1, cols.map fun c => c.getD x.2 nullV), ?_, ?_, ?_⟩
  · unfold processAll
    simp only [bind, Except.bind, pure, Except.pure, e1]
  · rw [List.map_map]
    exact List.zipIdx_map_fst 0 P
  · intro i x vs hi
    simp only [List.getElem?_map, List.getElem?_zipIdx, Option.map_map, Option.map_eq_some_iff, Function.comp] at hi
    obtain ⟨y, hy, he⟩ := hi
    obtain ⟨rfl, rfl⟩ := Prod.mk.inj he
    refine ⟨by simp [hl], fun j f w hj => ?_⟩
    obtain ⟨c, hc, hr⟩ := hg j (f, w) hj
    obtain ⟨v, hv, hval⟩ := hr.2 i y hy
    refine ⟨v, ?_, hval⟩
    simp [hc, List.getD_eq_getElem?_getD, hv]

/-! ## The node -/

/-- Values that are right within each stretch are right in the whole. -/
theorem answers_of_segs {oty : Key ρ → VTy} {nd : Node ρ} (h8 : nd.part.length ≤ 8) (hfp : FpOk fp) {fs : List (Fn ρ × Extent)} {N : Nat} :
    ∀ (ps : List (List ρ)) (D : List ρ), Segs (partKey nd.part) ps → (∀ r ∈ D, ∀ y ∈ ps.flatten, samePart nd.part y r = false) →
    (ps.flatten.Pairwise (RowLe (partKeys nd.part ++ nd.order))) → (∀ r ∈ ps.flatten, SpecOk oty nd.part nd.order r) →
    FnsFit N ps.flatten nd fs → ps.flatten.length < 2 ^ 31 → ps.flatten.length ≤ N →
    ∃ outs, ps.mapM (processAll fp nd) = .ok outs ∧ outs.flatten.map (·.1) = ps.flatten ∧
      ∀ (A B : List (ρ × List EV)) (x : ρ) (vs : List EV), outs.flatten = A ++ (x, vs) :: B →
        vs.length = fs.length ∧ ∀ (j : Nat) (f : Fn ρ) (w : Extent), fs[j]? = some (f, w) → ∃ v : EV, vs[j]? = some v ∧
          Value fp nd.order f ((D ++ ps.flatten).filter (samePart nd.part x)) x ((D ++ A.map (·.1)).countP (samePart nd.part x))
            (frameOf nd.order w ((D ++ ps.flatten).filter (samePart nd.part x)) x ((D ++ A.map (·.1)).countP (samePart nd.part x))) v := by
  intro ps
  induction ps with
  | nil =>
    intro D _ _ _ _ _ _ _
    exact ⟨[], rfl, rfl, fun A B x vs h => by simp at h⟩
  | cons p ps ih =>
    intro D hsegs hD hsort hok hfit hlen hN
    rw [List.flatten_cons] at hsort hok hfit hlen hN hD
    rw [List.length_append] at hlen hN
    have ht : Together (partKey nd.part) (p ++ ps.flatten) := together h8 hsort hok
    have hap := segs_apart hsegs ht
    obtain ⟨p1, p2, p3, p4⟩ := hsegs
    have hsp : ∀ x ∈ p, ∀ y ∈ p, samePart nd.part x y = true := fun x hx y hy =>
      (partKey_eq h8 (hok x (by simp [hx])) (hok y (by simp [hy]))).1 (p2 x hx y hy)
    have hnp : ∀ x ∈ p, ∀ y ∈ ps.flatten, samePart nd.part x y = false ∧ samePart nd.part y x = false := by
      intro x hx y hy
      have hx' := hok x (List.mem_append_left _ hx)
      have hy' := hok y (List.mem_append_right _ hy)
      constructor
      · rw [Bool.eq_false_iff]
        intro hc
        exact hap x hx y hy ((partKey_eq h8 hx' hy').2 hc)
      · rw [Bool.eq_false_iff]
        intro hc
        exact hap x hx y hy ((partKey_eq h8 hy' hx').2 hc).symm
    have hord : Ordered oty nd.order p := by
      refine ⟨?_, fun r hr => (hok r (by simp [hr])).2⟩
      have h1 := (List.pairwise_append.1 hsort).1
      rw [List.pairwise_iff_getElem] at h1 ⊢
      intro i j hi hj hij
      exact le_right (h1 i j hi hj hij) ((samePart_iff _ _ _).1 (hsp _ (List.getElem_mem hi) _ (List.getElem_mem hj)))
    obtain ⟨o, eo, ho1, ho2⟩ := processAll_spec (fp := fp) hord hfp (fs := fs) (N := N)
      ⟨hfit.1, fun x hx => ⟨FnOk.sub (hfit.2 x hx).1 (fun r hr => by simp [hr]) (by rw [List.length_append]; omega), (hfit.2 x hx).2⟩⟩ (by omega) (by omega)
    obtain ⟨os, eos, hos1, hos2⟩ := ih (D ++ p) p4 (by
      intro r hr y hy
      rcases List.mem_append.1 hr with hr | hr
      · exact hD r hr y (List.mem_append_right _ hy)
      · exact (hnp r hr y hy).2) (List.pairwise_append.1 hsort).2.1 (fun r hr => hok r (by simp [hr]))
      ⟨hfit.1, fun x hx => ⟨FnOk.sub (hfit.2 x hx).1 (fun r hr => by simp [hr]) (by rw [List.length_append]; omega), (hfit.2 x hx).2⟩⟩ (by omega) (by omega)
    refine ⟨o :: os, ?_, by simp [ho1, hos1], ?_⟩
    · rw [List.mapM_cons, eo]
      simp only [bind, Except.bind, eos]
      rfl
    · intro A B x vs he
      rw [List.flatten_cons] at he
      rcases List.append_eq_append_iff.1 he with ⟨A', h1, h2⟩ | ⟨C, h1, h2⟩
      · -- the row is in a later stretch
        subst h1
        have := hos2 A' B x vs h2
        have e1 : D ++ (p :: ps).flatten = D ++ p ++ ps.flatten := by simp
        have e2 : D ++ (o ++ A').map (·.1) = D ++ p ++ A'.map (·.1) := by simp [ho1]
        rw [e1, e2]
        exact this
      · cases C with
        | nil =>
          simp only [List.nil_append] at h2
          simp only [List.append_nil] at h1
          subst h1
          have := hos2 [] B x vs h2.symm
          have e1 : D ++ (p :: ps).flatten = D ++ p ++ ps.flatten := by simp
          have e2 : D ++ o.map (·.1) = D ++ p ++ ([] : List (ρ × List EV)).map (·.1) := by simp [ho1]
          rw [e1, e2]
          exact this
        | cons c C =>
          simp only [List.cons_append, List.cons.injEq] at h2
          obtain ⟨rfl, rfl⟩ := h2
          have hget : o[A.length]? = some (x, vs) := by
            rw [h1, List.getElem?_append_right (Nat.le_refl _)]
            simp
          have hxp : x ∈ p := by
            rw [← ho1]
            exact List.mem_map.2 ⟨(x, vs), List.mem_of_getElem? hget, rfl⟩
          have hAp : ∀ r ∈ A.map (·.1), r ∈ p := by
            intro r hr
            rw [← ho1, h1, List.map_append]
            exact List.mem_append_left _ hr
          have e1 : (D ++ (p :: ps).flatten).filter (samePart nd.part x) = p := by
            rw [List.flatten_cons, List.filter_append, List.filter_append]
            have a1 : D.filter (samePart nd.part x) = [] := by
              rw [List.filter_eq_nil_iff]
              intro r hr
              rw [hD r hr x (List.mem_append_left _ hxp)]
              simp
            have a2 : p.filter (samePart nd.part x) = p := List.filter_eq_self.2 fun y hy => hsp x hxp y hy
            have a3 : ps.flatten.filter (samePart nd.part x) = [] := by
              rw [List.filter_eq_nil_iff]
              intro r hr
              rw [(hnp x hxp r hr).1]
              simp
            rw [a1, a2, a3]
            simp
          have e2 : (D ++ A.map (·.1)).countP (samePart nd.part x) = A.length := by
            rw [List.countP_append]
            have a1 : D.countP (samePart nd.part x) = 0 := by
              rw [List.countP_eq_zero]
              intro r hr
              rw [hD r hr x (List.mem_append_left _ hxp)]
              simp
            have a2 : (A.map (·.1)).countP (samePart nd.part x) = (A.map (·.1)).length :=
              List.countP_eq_length.2 fun y hy => hsp x hxp y (hAp y hy)
            rw [a1, a2]
            simp
          rw [e1, e2]
          exact ho2 A.length x vs hget

/-- On sorted rows the node gives every row the values of its functions. -/
theorem run_spec {nd : Node ρ} {child : List (List ρ)} (hne : ∀ b ∈ child.dropLast, b ≠ []) (h8 : nd.part.length ≤ 8)
    (hsort : child.flatten.Pairwise (RowLe (sortKeys nd))) (hok : ∀ r ∈ child.flatten, SpecOk ty nd.part nd.order r)
    (hlen : child.flatten.length < 2 ^ 31) (hfp : FpOk fp) {fs : List (Fn ρ × Extent)} {N : Nat} (hN : child.flatten.length ≤ N)
    (hfit : FnsFit N child.flatten nd fs) :
    ∃ out, nd.run fp child = .ok out ∧ out.map (·.1) = child.flatten ∧ Answers fp nd.part nd.order fs out := by
  have ht : Together (partKey nd.part) child.flatten := together h8 hsort hok
  obtain ⟨hp1, hp2⟩ := partitions_spec (part := nd.part) (child.flatten.length + 1) ⟨[], none, child⟩ ⟨trivial, hne, by simp⟩
    (by simpa [NodeSt.rows] using ht) (by simp [NodeSt.rows])
  have hrows : (⟨[], none, child⟩ : NodeSt ρ).rows = child.flatten := by simp [NodeSt.rows]
  rw [hrows] at hp2
  obtain ⟨outs, e1, e2, e3⟩ := answers_of_segs (fp := fp) (nd := nd) h8 hfp (fs := fs) (N := N)
    (partitions nd.part (child.flatten.length + 1) ⟨[], none, child⟩) [] hp1 (by simp) (by rw [hp2]; exact hsort) (by rw [hp2]; exact hok)
    (by rw [hp2]; exact hfit) (by rw [hp2]; exact hlen) (by rw [hp2]; exact hN)
  have hop : nd.fns.all Fn.opens = true := by
    rw [hfit.1, List.all_eq_true]
    intro f hf
    obtain ⟨x, hx, rfl⟩ := List.mem_map.1 hf
    exact FnOk.opens (hfit.2 x hx).1
  refine ⟨outs.flatten, ?_, by rw [e2, hp2], fun A B x vs he => ?_⟩
  · unfold Node.run
    rw [if_pos hop, e1]
    rfl
  · have := e3 A B x vs he
    rw [e2, hp2]
    rw [hp2] at this
    simpa using this

end BaikalDB.Window
