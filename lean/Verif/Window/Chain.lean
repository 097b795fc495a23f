import Verif.Window.Run

/-! # Several windows, each with its sort -/

namespace BaikalDB.Window
open Expr (EV VTy)
open Expr.Spec
open Spec
open BaikalDB.Pred.Spec (Direct)
open BaikalDB.Sort (Key rowCompare rowOrd RowLe RowOK colVal colOrd IsSort rowLess)

variable {ρ σ : Type} {ty : Key ρ → VTy} {fp : Fp} (g : σ → ρ)

/-! ## Rows seen through a function -/

theorem rowOrd_comap (ks : List (Key ρ)) (a b : σ) : rowOrd (ks.map (keyComap g)) a b = rowOrd ks (g a) (g b) := by
  induction ks with
  | nil => rfl
  | cons k ks ih => simp only [List.map_cons, rowOrd, ih]; rfl

theorem RowLe_comap (ks : List (Key ρ)) (a b : σ) : RowLe (ks.map (keyComap g)) a b ↔ RowLe ks (g a) (g b) := by
  unfold RowLe; rw [rowOrd_comap]

theorem samePart_comap (part : List (ρ → EV)) (a b : σ) : samePart (part.map fun p s => p (g s)) a b = samePart part (g a) (g b) := by
  unfold samePart; rw [List.all_map]; rfl

theorem sortKeys_comap (nd : Node ρ) : sortKeys (nd.comap g) = (sortKeys nd).map (keyComap g) := by
  unfold sortKeys Node.comap
  simp [keyComap]

theorem has_comap (ks : List (Key ρ)) (w : Extent) (x y : σ) (i j : Nat) :
    w.has (ks.map (keyComap g)) x i y j = w.has ks (g x) i (g y) j := by
  unfold Extent.has
  have h1 : ∀ e : Edge, e.rangeFrom (ks.map (keyComap g)) x y = e.rangeFrom ks (g x) (g y) := by
    intro e; cases e <;> simp [Edge.rangeFrom, RowLe_comap]
  have h2 : ∀ e : Edge, e.rangeUpto (ks.map (keyComap g)) x y = e.rangeUpto ks (g x) (g y) := by
    intro e; cases e <;> simp [Edge.rangeUpto, RowLe_comap]
  rw [h1, h2]

theorem frameOf_comap (ks : List (Key ρ)) (w : Extent) (P : List σ) (x : σ) (i : Nat) :
    (frameOf (ks.map (keyComap g)) w P x i).map g = frameOf ks w (P.map g) (g x) i := by
  unfold frameOf
  rw [List.zipIdx_map, List.filter_map, List.map_map, List.map_map]
  simp only [Function.comp_def, has_comap, Prod.map]
  rfl

theorem args_comap (a : ρ → EV) (F : List σ) : args (fun s => a (g s)) F = args a (F.map g) := by
  unfold args; rw [List.map_map]; rfl

theorem before_comap (ks : List (Key ρ)) (P : List σ) (x : σ) : before (ks.map (keyComap g)) P x = before ks (P.map g) (g x) := by
  unfold before
  rw [List.countP_map]
  simp only [Function.comp_def, rowOrd_comap]

theorem upTo_comap (ks : List (Key ρ)) (P : List σ) (x : σ) : upTo (ks.map (keyComap g)) P x = upTo ks (P.map g) (g x) := by
  unfold upTo
  rw [List.countP_map]
  simp only [Function.comp_def, RowLe_comap]

theorem Value_comap {ks : List (Key ρ)} {f : Fn ρ} {P : List σ} {x : σ} {i : Nat} {F : List σ} {v : EV}
    (h : Value fp (ks.map (keyComap g)) (f.comap g) P x i F v) : Value fp ks f (P.map g) (g x) i (F.map g) v := by
  cases f with
  | countStar => simpa [Value, Fn.comap] using h
  | count as =>
    simp only [Value, Fn.comap] at h ⊢
    rw [List.countP_map]
    simpa [Function.comp_def, List.all_map] using h
  | sum a => simpa only [Value, Fn.comap, args_comap] using h
  | sumDbl a => simpa only [Value, Fn.comap, args_comap] using h
  | avg a => simpa only [Value, Fn.comap, args_comap] using h
  | min a => simpa only [Value, Fn.comap, args_comap] using h
  | max a => simpa only [Value, Fn.comap, args_comap] using h
  | rowNumber => exact h
  | rank => simpa only [Value, Fn.comap, before_comap] using h
  | denseRank =>
    simp only [Value, Fn.comap] at h ⊢
    obtain ⟨reps, h1, h2, h3, h4⟩ := h
    refine ⟨reps.map g, ?_, ?_, ?_, by simpa using h4⟩
    · intro q hq
      obtain ⟨s, hs, rfl⟩ := List.mem_map.1 hq
      have := h1 s hs
      rw [rowOrd_comap] at this
      exact ⟨List.mem_map.2 ⟨s, this.1, rfl⟩, this.2⟩
    · rw [List.pairwise_map]
      exact h2.imp fun {a b} h => by rw [rowOrd_comap] at h; exact h
    · intro r hr hlt
      obtain ⟨s, hs, rfl⟩ := List.mem_map.1 hr
      obtain ⟨q, hq, he⟩ := h3 s hs (by rw [rowOrd_comap]; exact hlt)
      rw [rowOrd_comap] at he
      exact ⟨g q, List.mem_map.2 ⟨q, hq, rfl⟩, he⟩
  | percentRank => simpa only [Value, Fn.comap, before_comap, List.length_map] using h
  | cumeDist => simpa only [Value, Fn.comap, upTo_comap, List.length_map] using h
  | ntile n => simpa only [Value, Fn.comap, List.length_map] using h
  | lead a k d => simpa [Value, Fn.comap, List.getElem?_map, Option.map_map, Function.comp_def] using h
  | lag a k d => simpa [Value, Fn.comap, List.getElem?_map, Option.map_map, Function.comp_def] using h
  | firstValue a => simpa [Value, Fn.comap, List.head?_map, Option.map_map, Function.comp_def] using h
  | lastValue a => simpa [Value, Fn.comap, List.getLast?_map, Option.map_map, Function.comp_def] using h
  | nthValue a n => simpa [Value, Fn.comap, List.getElem?_map, Option.map_map, Function.comp_def] using h

theorem Answers_comap {part : List (ρ → EV)} {ks : List (Key ρ)} {fs : List (Fn ρ × Extent)} {out : List (σ × List EV)}
    (h : Answers fp (part.map fun p s => p (g s)) (ks.map (keyComap g)) (fs.map fun x => (x.1.comap g, x.2)) out) :
    Answers fp part ks fs (out.map fun x => (g x.1, x.2)) := by
  intro A B x vs he
  obtain ⟨A', B', rfl, hA, hB⟩ := List.map_eq_append_iff.1 he
  obtain ⟨⟨y, vs'⟩, B'', rfl, hy, hB''⟩ := List.map_eq_cons_iff.1 hB
  obtain ⟨rfl, rfl⟩ := Prod.mk.inj hy
  subst hA
  obtain ⟨h1, h2⟩ := h A' B'' y vs' rfl
  refine ⟨by simpa using h1, fun j f w hj => ?_⟩
  obtain ⟨v, hv, hval⟩ := h2 j (f.comap g) w (by rw [List.getElem?_map, hj]; rfl)
  refine ⟨v, hv, ?_⟩
  have hval := Value_comap g hval
  rw [frameOf_comap] at hval
  have e1 : ∀ l : List (σ × List EV), ((l.map (·.1)).filter (samePart (part.map fun p s => p (g s)) y)).map g =
      ((l.map fun x => (g x.1, x.2)).map (·.1)).filter (samePart part (g y)) := by
    intro l
    rw [List.map_map, List.filter_map, List.filter_map, List.map_map]
    congr 1
    apply List.filter_congr
    intro z _
    simp [samePart_comap]
  have e2 : ∀ l : List (σ × List EV), (l.map (·.1)).countP (samePart (part.map fun p s => p (g s)) y) =
      ((l.map fun x => (g x.1, x.2)).map (·.1)).countP (samePart part (g y)) := by
    intro l
    rw [List.map_map, List.countP_map, List.countP_map]
    congr 1
    funext z
    simp [samePart_comap]
  rw [e1, e2] at hval
  exact hval

/-! ## What is assumed carries over -/

/-- Types of keys on wide rows. -/
def wideTy (ty : Key ρ → VTy) (k : Key (Wide ρ)) : VTy := ty ⟨fun r => k.val (r, []), k.asc, k.nullFirst⟩

theorem wideTy_comap (ty : Key ρ → VTy) (k : Key ρ) : wideTy ty (keyComap Prod.fst k) = ty k := rfl

theorem RowOK_wide {ks : List (Key ρ)} {s : Wide ρ} (h : RowOK ty ks s.1) : RowOK (wideTy ty) (ks.map (keyComap Prod.fst)) s := by
  intro k hk
  obtain ⟨k', hk', rfl⟩ := List.mem_map.1 hk
  rw [wideTy_comap]
  exact h k' hk'

theorem SpecOk_wide {part : List (ρ → EV)} {ks : List (Key ρ)} {s : Wide ρ} (h : SpecOk ty part ks s.1) :
    SpecOk (wideTy ty) (part.map fun p (s : Wide ρ) => p s.1) (ks.map (keyComap Prod.fst)) s := by
  refine ⟨fun a ha => ?_, RowOK_wide h.2⟩
  obtain ⟨a', ha', rfl⟩ := List.mem_map.1 ha
  exact h.1 a' ha'

theorem SpecOk_sort {part : List (ρ → EV)} {ks : List (Key ρ)} {r : ρ} (h : SpecOk ty part ks r) : RowOK ty (partKeys part ++ ks) r := by
  intro k hk
  rcases List.mem_append.1 hk with hk | hk
  · obtain ⟨a, ha, rfl⟩ := List.mem_map.1 hk
    obtain ⟨h1, h2⟩ := h.1 a ha
    refine ⟨direct_ordered h1, ?_⟩
    rcases h2 with h2 | h2
    · exact Or.inl h2
    · exact Or.inr ⟨h2.1, h2.2.1⟩
  · exact h.2 k hk

theorem FnOk_comap {f : Fn ρ} {rows : List σ} (h : FnOk (rows.map g) f) : FnOk rows (f.comap g) := by
  have hm : ∀ r ∈ rows, g r ∈ rows.map g := fun r hr => List.mem_map.2 ⟨r, hr, rfl⟩
  cases f with
  | sum a => exact fun r hr => h (g r) (hm r hr)
  | min a => obtain ⟨t, h1, h2⟩ := h; exact ⟨t, h1, fun r hr => h2 (g r) (hm r hr)⟩
  | max a => obtain ⟨t, h1, h2⟩ := h; exact ⟨t, h1, fun r hr => h2 (g r) (hm r hr)⟩
  | lead a k d => simpa [FnOk, Fn.comap] using h
  | _ => exact h

theorem FrameFits_comap {N : Nat} {f : Fn ρ} {fr : Option Frame} {w : Extent} (h : FrameFits N f fr w) : FrameFits N (f.comap g) fr w := by
  have : (f.comap g).frameless = f.frameless := by cases f <;> rfl
  unfold FrameFits at *
  rw [this]
  exact h

theorem FnsFit_comap {N : Nat} {rows : List σ} {nd : Node ρ} {fs : List (Fn ρ × Extent)} (h : FnsFit N (rows.map g) nd fs) :
    FnsFit N rows (nd.comap g) (fs.map fun x => (x.1.comap g, x.2)) := by
  refine ⟨?_, fun x hx => ?_⟩
  · show nd.fns.map (Fn.comap g) = _
    rw [h.1, List.map_map, List.map_map]; rfl
  · obtain ⟨y, hy, rfl⟩ := List.mem_map.1 hx
    exact ⟨FnOk_comap g (h.2 y hy).1, FrameFits_comap g (h.2 y hy).2⟩

theorem FnOk.perm {L L' : List ρ} (hp : L.Perm L') {f : Fn ρ} (h : FnOk L f) : FnOk L' f :=
  FnOk.sub h (fun _ hr => hp.mem_iff.2 hr) (by rw [hp.length_eq])

theorem FnsFit.perm {L L' : List ρ} (hp : L.Perm L') {N : Nat} {nd : Node ρ} {fs : List (Fn ρ × Extent)} (h : FnsFit N L nd fs) : FnsFit N L' nd fs :=
  ⟨h.1, fun x hx => ⟨FnOk.perm hp (h.2 x hx).1, (h.2 x hx).2⟩⟩

/-! ## The chain -/

theorem perm_lift {α β : Type} (d : α → β) {A L : List β} (h : A.Perm L) : ∀ N : List α, N.map d = A → ∃ L' : List α, L'.Perm N ∧ L'.map d = L := by
  induction h with
  | nil => intro N hN; exact ⟨N, .refl _, hN⟩
  | cons b _ ih =>
    intro N hN
    obtain ⟨x, N', rfl, rfl, h2⟩ := List.map_eq_cons_iff.1 hN
    obtain ⟨L', h3, h4⟩ := ih N' h2
    exact ⟨x :: L', h3.cons x, by simp [h4]⟩
  | swap b c l =>
    intro N hN
    obtain ⟨x, N', rfl, rfl, h2⟩ := List.map_eq_cons_iff.1 hN
    obtain ⟨y, N'', rfl, rfl, rfl⟩ := List.map_eq_cons_iff.1 h2
    exact ⟨y :: x :: N'', .swap _ _ _, by simp⟩
  | trans _ _ ih1 ih2 =>
    intro N hN
    obtain ⟨L1, h1, h2⟩ := ih1 N hN
    obtain ⟨L2, h3, h4⟩ := ih2 L1 h2
    exact ⟨L2, h3.trans h1, h4⟩

/-- The library sorts; batches have rows, but for the last. -/
structure Exec.Ok (E : Exec σ) : Prop where
  sorts : ∀ ks, IsSort (rowLess ks) (E.srt ks)
  cap : 0 < E.cap
  cut : ∀ l, (E.cut l).flatten = l
  batches : ∀ l, ∀ b ∈ (E.cut l).dropLast, b ≠ []

/-- What is assumed of the windows on the rows `rows`. -/
structure NodeOk (N : Nat) (ty : Key ρ → VTy) (rows : List ρ) (nd : Node ρ) (fs : List (Fn ρ × Extent)) : Prop where
  parts : nd.part.length ≤ 8
  spec : ∀ r ∈ rows, SpecOk ty nd.part nd.order r
  fits : FnsFit N rows nd fs

theorem sort_spec {E : Exec (Wide ρ)} (hE : E.Ok) {nd : Node ρ} {child : List (List (Wide ρ))} (hne : ∀ b ∈ child.dropLast, b ≠ [])
    (hok : ∀ r ∈ child.flatten.map (·.1), SpecOk ty nd.part nd.order r) (hcalls : child.flatten.length < E.calls) :
    ∃ l, Sort.SortNode.run (sortKeys (nd.comap Prod.fst)) (E.srt (sortKeys (nd.comap Prod.fst))) E.srtI none E.cap E.calls child = some l ∧
      l.Perm child.flatten ∧ l.Pairwise (RowLe (sortKeys (nd.comap Prod.fst))) := by
  by_cases hk : sortKeys (nd.comap (Prod.fst : Wide ρ → ρ)) = []
  · rw [hk, Sort.C22_no_columns hne hcalls]
    refine ⟨_, rfl, .refl _, List.pairwise_iff_getElem.2 fun i j _ _ _ => ?_⟩
    simp [RowLe, rowOrd]
  · refine Sort.C22_order_by (ty := wideTy ty) (hE.sorts _) hk hE.cap hne (fun r hr => ?_) hcalls
    rw [sortKeys_comap]
    apply RowOK_wide
    exact SpecOk_sort (hok r.1 (List.mem_map.2 ⟨r, hr, rfl⟩))

theorem windows_spec {E : Exec (Wide ρ)} (hE : E.Ok) (hfp : FpOk fp) {N : Nat} (hN : N < 2 ^ 31) : ∀ (nds : List (Node ρ)) (fss : List (List (Fn ρ × Extent)))
    (m : Nat) (child : List (List (Wide ρ))), (∀ b ∈ child.dropLast, b ≠ []) → (∀ s ∈ child.flatten, s.2.length = m) →
    child.flatten.length ≤ N → child.flatten.length < E.calls →
    List.Forall₂ (NodeOk N ty (child.flatten.map (·.1))) nds fss →
    ∃ out, runWindows fp E nds child = .ok out ∧ (out.map fun s => (s.1, s.2.take m)).Perm child.flatten ∧
      (∀ s ∈ out, s.2.length = m + nds.length) ∧
      ∀ (k : Nat) (nd : Node ρ) (fs : List (Fn ρ × Extent)), nds[k]? = some nd → fss[k]? = some fs →
        ∃ L : List (Wide ρ), L.Perm out ∧ (L.map (·.1)).Pairwise (RowLe (sortKeys nd)) ∧
          Answers fp nd.part nd.order fs (L.map fun s => (s.1, s.2.getD (m + k) [])) := by
  intro nds
  induction nds with
  | nil =>
    intro fss m child _ hm _ _ _
    refine ⟨child.flatten, rfl, ?_, by simpa using hm, fun k nd fs hk => by simp at hk⟩
    have : child.flatten.map (fun s => (s.1, s.2.take m)) = child.flatten.map id := by
      apply List.map_congr_left
      intro s hs
      rw [← hm s hs, List.take_length]
      rfl
    rw [this, List.map_id]
  | cons nd nds ih =>
    intro fss m child hne hm hN' hcalls hall
    cases hall with
    | cons hnd hrest =>
    rename_i fs fss
    obtain ⟨l, es, hp, hs⟩ := sort_spec (ty := ty) hE hne hnd.spec hcalls
    have hlen := hp.length_eq
    obtain ⟨out0, e0, ho1, ho2⟩ := run_spec (ty := wideTy ty) (fp := fp) (nd := nd.comap (Prod.fst : Wide ρ → ρ)) (child := E.cut l) (hE.batches l)
      (by simpa [Node.comap] using hnd.parts) (by rw [hE.cut]; exact hs)
      (by
        rw [hE.cut]
        intro r hr
        exact SpecOk_wide (hnd.spec r.1 (List.mem_map.2 ⟨r, hp.mem_iff.1 hr, rfl⟩)))
      (by rw [hE.cut, hlen]; omega) hfp (fs := fs.map fun x => (x.1.comap Prod.fst, x.2)) (N := N) (by rw [hE.cut, hlen]; omega)
      (by rw [hE.cut]; exact FnsFit_comap _ (hnd.fits.perm ((hp.map (·.1)).symm)))
    rw [hE.cut] at ho1
    let rows1 : List (Wide ρ) := out0.map fun x => (x.1.1, x.1.2 ++ [x.2])
    have hfst : rows1.map (·.1) = l.map (·.1) := by
      simp only [rows1]
      rw [← ho1, List.map_map, List.map_map]
      rfl
    have hl1 : rows1.length = child.flatten.length := by
      have := congrArg List.length hfst
      simp only [List.length_map] at this
      omega
    have hperm1 : (child.flatten.map (·.1)).Perm (rows1.map (·.1)) := by
      rw [hfst]
      exact (hp.map _).symm
    have hlm : ∀ x ∈ out0, x.1.2.length = m := by
      intro x hx
      apply hm
      apply hp.mem_iff.1
      rw [← ho1]
      exact List.mem_map.2 ⟨x, hx, rfl⟩
    obtain ⟨out, e, hout1, hout2, hout3⟩ := ih fss (m + 1) (E.cut rows1) (hE.batches _)
      (by
        rw [hE.cut]
        intro s hs
        obtain ⟨x, hx, rfl⟩ := List.mem_map.1 hs
        simp [hlm x hx])
      (by rw [hE.cut, hl1]; exact hN') (by rw [hE.cut, hl1]; exact hcalls)
      (by
        rw [hE.cut]
        refine List.Forall₂.imp (fun a b hab => ?_) hrest
        exact ⟨hab.parts, fun r hr => hab.spec r (hperm1.mem_iff.2 hr), hab.fits.perm hperm1⟩)
    rw [hE.cut] at hout1
    refine ⟨out, ?_, ?_, ?_, ?_⟩
    · unfold runWindows
      rw [es]
      simp only [bind, Except.bind, e0]
      exact e
    · have h1 : (out.map fun s => (s.1, s.2.take m)).Perm (rows1.map fun s => (s.1, s.2.take m)) := by
        have := hout1.map (fun s : Wide ρ => (s.1, s.2.take m))
        rw [List.map_map] at this
        refine List.Perm.trans (List.Perm.of_eq ?_) this
        apply List.map_congr_left
        intro s _
        simp [List.take_take]
      refine h1.trans ?_
      have h2 : (rows1.map fun s => (s.1, s.2.take m)) = l := by
        simp only [rows1]
        rw [List.map_map]
        refine Eq.trans ?_ ho1
        apply List.map_congr_left
        intro x hx
        simp [← hlm x hx]
      rw [h2]
      exact hp
    · intro s hs
      rw [hout2 s hs, List.length_cons]
      omega
    · intro k nd' fs' hk hk'
      cases k with
      | succ k =>
        obtain ⟨L, h1, h2, h3⟩ := hout3 k nd' fs' (by simpa using hk) (by simpa using hk')
        refine ⟨L, h1, h2, ?_⟩
        rw [show m + (k + 1) = m + 1 + k by omega]
        exact h3
      | zero =>
        simp only [List.getElem?_cons_zero, Option.some.injEq] at hk hk'
        subst hk hk'
        obtain ⟨L, h1, h2⟩ := perm_lift (fun s : Wide ρ => (s.1, s.2.take (m + 1))) hout1 out rfl
        have hf : L.map (·.1) = l.map (·.1) := by
          rw [← hfst, ← h2, List.map_map]
          rfl
        refine ⟨L, h1, ?_, ?_⟩
        · rw [hf, List.pairwise_map]
          refine hs.imp fun {a b} h => ?_
          rw [sortKeys_comap, RowLe_comap] at h
          exact h
        · have := Answers_comap (Prod.fst : Wide ρ → ρ) ho2
          have he : (L.map fun s => (s.1, s.2.getD (m + 0) [])) = out0.map fun x => (x.1.1, x.2) := by
            have h4 : (L.map fun s => (s.1, s.2.getD (m + 0) [])) = rows1.map fun s => (s.1, s.2.getD m []) := by
              rw [← h2, List.map_map]
              apply List.map_congr_left
              intro s _
              simp [List.getD_eq_getElem?_getD]
            rw [h4]
            simp only [rows1]
            rw [List.map_map]
            apply List.map_congr_left
            intro x hx
            simp [List.getD_eq_getElem?_getD, ← hlm x hx]
          rw [he]
          exact this

end BaikalDB.Window
