import Verif.Window.Chain

/-! # From OVER (…) to the values -/

namespace BaikalDB.Window
open Expr (EV VTy)
open Expr.Spec
open Spec
open BaikalDB.Sort (Key rowCompare rowOrd RowLe RowOK colVal colOrd)

variable {ρ : Type} {ty : Key ρ → VTy} {fp : Fp}

theorem looks_eq (f : Fn ρ) : looks f = !f.frameless := by cases f <;> rfl

/-! ## One window -/

theorem bound_says {N : Nat} {b : WBound} {c : Bound} (hok : WBound.Ok N b) (h : bound b = .ok c) : Says c (edge b) := by
  obtain ⟨t, u, lit⟩ := b
  obtain ⟨h1, h2, h3⟩ := hok
  simp only at h1 h2 h3
  cases hu : u with
  | true =>
    subst hu
    have hl : lit = none := h3 (Or.inl rfl)
    subst hl
    unfold bound at h
    injection h with h
    subst h
    cases t with
    | preceding => exact ⟨rfl, rfl⟩
    | current => exact absurd (h1 rfl) (by simp)
    | following => exact ⟨rfl, rfl⟩
  | false =>
    subst hu
    cases t with
    | current =>
      have hl : lit = none := h3 (Or.inr rfl)
      subst hl
      unfold bound at h
      injection h with h
      subst h
      exact ⟨rfl, rfl⟩
    | preceding =>
      obtain ⟨x, hx, h0, hlt⟩ := h2 rfl (by simp)
      subst hx
      unfold bound at h
      simp only at h
      by_cases hw : wrap32 x < 0
      · rw [if_pos hw] at h; cases h
      · rw [if_neg hw] at h
        injection h with h
        subst h
        have hx : x < 2 ^ 31 := by
          by_contra hc
          exact hw (wrap32_over (by omega) (by omega))
        refine ⟨rfl, rfl, ?_, by simpa using h0⟩
        simp only [wrap32_small (by omega : -2 ^ 31 ≤ x) hx, Option.getD_some]
    | following =>
      obtain ⟨x, hx, h0, hlt⟩ := h2 rfl (by simp)
      subst hx
      unfold bound at h
      simp only at h
      by_cases hw : wrap32 x < 0
      · rw [if_pos hw] at h; cases h
      · rw [if_neg hw] at h
        injection h with h
        subst h
        have hx : x < 2 ^ 31 := by
          by_contra hc
          exact hw (wrap32_over (by omega) (by omega))
        refine ⟨rfl, rfl, ?_, by simpa using h0⟩
        simp only [wrap32_small (by omega : -2 ^ 31 ≤ x) hx, Option.getD_some]

theorem following_small {N : Nat} {b : WBound} (hok : WBound.Ok N b) {n : Int} (h : edge b = .following n) : n + N ≤ 2 ^ 31 := by
  obtain ⟨t, u, lit⟩ := b
  obtain ⟨_, h2, _⟩ := hok
  cases t <;> cases u <;> simp only [edge, reduceCtorEq, Edge.following.injEq] at h
  obtain ⟨x, hx, _, hlt⟩ := h2 rfl (by simp)
  simp only at hx
  subst hx
  simp only [Option.getD_some] at h
  omega

theorem bound_ok {N : Nat} {b : WBound} (hN : 0 < N) (hok : WBound.Ok N b) : ∃ c, bound b = .ok c := by
  obtain ⟨t, u, lit⟩ := b
  cases lit with
  | none => exact ⟨_, rfl⟩
  | some x =>
    obtain ⟨_, h2, h3⟩ := hok
    simp only at h2 h3
    have hu : ¬ (u = true ∨ t = .current) := fun hc => by simpa using h3 hc
    obtain ⟨y, hy, h0, hlt⟩ := h2 (by cases u <;> simp_all) (fun hc => hu (Or.inr hc))
    injection hy with hy
    subst hy
    unfold bound
    simp only
    rw [wrap32_small (by omega) (by omega), if_neg (by omega)]
    exact ⟨_, rfl⟩

theorem checkFrame_iff (f : Fn ρ) (o : Over ρ) (hok : ∀ w, o.frame = some w → (w.lo.ty = .current → w.lo.unbounded = false) ∧ (w.hi.ty = .current → w.hi.unbounded = false)) :
    checkFrame f o = true ↔ Legal f o := by
  unfold checkFrame Legal
  cases ho : o.frame with
  | none => simp
  | some w =>
    obtain ⟨hl, hh⟩ := hok w ho
    obtain ⟨rows, ⟨t1, u1, l1⟩, ⟨t2, u2, l2⟩⟩ := w
    simp only at hl hh
    simp only [looks_eq, Option.some.injEq, forall_eq']
    cases f.frameless <;> cases o.order.isSome <;> cases rows <;> cases t1 <;> cases t2 <;> cases u1 <;> cases u2 <;>
      simp_all [edge]

/-- The plan of one function. -/
theorem planOne_spec {N : Nat} {f : Fn ρ} {o : Over ρ} {nd : Node ρ} (hok : Over.Ok N o) (h : planOne f o = .ok nd) :
    checkFrame f o = true ∧ nd.fns = [f] ∧ nd.part = o.part ∧ nd.order = o.order.getD [] ∧
    (f.frameless = true → nd.frame = none) ∧ (f.frameless = false → ∃ fr, nd.frame = some fr ∧ FrameSays N fr (extent o)) := by
  unfold planOne at h
  cases hc : checkFrame f o with
  | false => rw [hc] at h; simp [throw, throwThe, MonadExceptOf.throw, bind, Except.bind] at h
  | true =>
    rw [hc] at h
    simp only [Bool.true_eq_false, if_false, bind, Except.bind, pure, Except.pure] at h
    cases hp : planFrame f o with
    | error e => rw [hp] at h; cases h
    | ok fr =>
      rw [hp] at h
      simp only [Except.ok.injEq] at h
      subst h
      refine ⟨rfl, rfl, rfl, rfl, fun hf => ?_, fun hf => ?_⟩
      · unfold planFrame at hp
        rw [if_pos hf] at hp
        injection hp with hp
        exact hp.symm
      · unfold planFrame at hp
        rw [if_neg (by simp [hf])] at hp
        have hleg := (checkFrame_iff f o (fun w hw => ⟨(hok w hw).1.1, (hok w hw).2.1⟩)).1 hc
        cases ho : o.frame with
        | none =>
          rw [ho] at hp
          injection hp with hp
          refine ⟨_, hp.symm, ?_⟩
          unfold extent
          rw [ho]
          cases o.order with
          | none => exact ⟨rfl, ⟨rfl, rfl⟩, ⟨rfl, rfl⟩, by simp, by simp, by simp, by simp⟩
          | some ks => exact ⟨rfl, ⟨rfl, rfl⟩, ⟨rfl, rfl⟩, by simp, by simp, by simp, by simp⟩
        | some w =>
          rw [ho] at hp
          simp only [bind, Except.bind, pure, Except.pure] at hp
          cases hlo : bound w.lo with
          | error e => rw [hlo] at hp; cases hp
          | ok lo =>
            cases hhi : bound w.hi with
            | error e => rw [hlo, hhi] at hp; cases hp
            | ok hi =>
              rw [hlo, hhi] at hp
              simp only [Except.ok.injEq] at hp
              refine ⟨_, hp.symm, ?_⟩
              have e : extent o = ⟨w.rows, edge w.lo, edge w.hi⟩ := by unfold extent; rw [ho]
              rw [e]
              obtain ⟨_, g1, g2, g3, _⟩ := hleg w ho
              refine ⟨rfl, bound_says (hok w ho).1 hlo, bound_says (hok w ho).2 hhi, g1, g2, g3, ?_⟩
              intro n hn
              rcases hn with hn | hn
              · exact following_small (hok w ho).1 hn
              · exact following_small (hok w ho).2 hn

/-! ## Merging -/

/-- After the functions `W`: one window for each text, with the functions of that text, as the first of them was planned. -/
structure Merged (acc : List (Bytes × Node ρ)) (W : List (Fn ρ × Over ρ)) : Prop where
  nodup : (acc.map (·.1)).Nodup
  texts : ∀ t, t ∈ acc.map (·.1) ↔ ∃ w ∈ W, w.2.text = t
  nodes : ∀ x ∈ acc, x.2.fns = (W.filter fun w => decide (w.2.text = x.1)).map (·.1) ∧
    ∃ A w B nd, W = A ++ w :: B ∧ w.2.text = x.1 ∧ (∀ a ∈ A, a.2.text ≠ x.1) ∧ planOne w.1 w.2 = .ok nd ∧
      x.2.part = nd.part ∧ x.2.order = nd.order ∧ x.2.frame = nd.frame

theorem planOne_fns {f : Fn ρ} {o : Over ρ} {nd : Node ρ} (h : planOne f o = .ok nd) : nd.fns = [f] := by
  unfold planOne at h
  cases hc : checkFrame f o with
  | false => rw [hc] at h; simp [throw, throwThe, MonadExceptOf.throw, bind, Except.bind] at h
  | true =>
    rw [hc] at h
    simp only [Bool.true_eq_false, if_false, bind, Except.bind, pure, Except.pure] at h
    cases hp : planFrame f o with
    | error e => rw [hp] at h; cases h
    | ok fr =>
      rw [hp] at h
      simp only [Except.ok.injEq] at h
      subst h
      rfl

theorem Merged.step {acc : List (Bytes × Node ρ)} {W : List (Fn ρ × Over ρ)} (h : Merged acc W) {w : Fn ρ × Over ρ} {nd : Node ρ}
    (hp : planOne w.1 w.2 = .ok nd) :
    Merged (if acc.any (·.1 == w.2.text) then acc.map fun x => if x.1 == w.2.text then (x.1, { x.2 with fns := x.2.fns ++ nd.fns }) else x
      else acc ++ [(w.2.text, nd)]) (W ++ [w]) := by
  have hfns := planOne_fns hp
  by_cases hm : acc.any (·.1 == w.2.text) = true
  · rw [if_pos hm]
    have hmem : w.2.text ∈ acc.map (·.1) := by
      obtain ⟨x, hx, he⟩ := List.any_eq_true.1 hm
      simp only [beq_iff_eq] at he
      exact List.mem_map.2 ⟨x, hx, he⟩
    have hfst : (acc.map fun x => if x.1 == w.2.text then (x.1, { x.2 with fns := x.2.fns ++ nd.fns }) else x).map (·.1) = acc.map (·.1) := by
      rw [List.map_map]
      apply List.map_congr_left
      intro x _
      simp only [Function.comp]
      split <;> rfl
    refine ⟨by rw [hfst]; exact h.nodup, fun t => ?_, fun x hx => ?_⟩
    · rw [hfst, h.texts]
      constructor
      · rintro ⟨a, ha, he⟩
        exact ⟨a, List.mem_append_left _ ha, he⟩
      · rintro ⟨a, ha, he⟩
        rcases List.mem_append.1 ha with ha | ha
        · exact ⟨a, ha, he⟩
        · simp only [List.mem_singleton] at ha
          subst ha
          rw [he] at hmem
          exact (h.texts t).1 hmem
    · obtain ⟨y, hy, rfl⟩ := List.mem_map.1 hx
      obtain ⟨g1, A, w', B, nd', g2, g3, g4, g5, g6, g7, g8⟩ := h.nodes y hy
      by_cases he : (y.1 == w.2.text) = true
      · rw [if_pos he]
        simp only [beq_iff_eq] at he
        refine ⟨?_, A, w', B ++ [w], nd', by rw [g2]; simp, g3, g4, g5, g6, g7, g8⟩
        simp only
        rw [List.filter_append, List.map_append, ← g1, hfns]
        simp [he]
      · rw [if_neg he]
        simp only [beq_iff_eq] at he
        refine ⟨?_, A, w', B ++ [w], nd', by rw [g2]; simp, g3, g4, g5, g6, g7, g8⟩
        rw [List.filter_append, List.map_append, ← g1]
        simp [Ne.symm he]
  · rw [if_neg hm]
    have hmem : w.2.text ∉ acc.map (·.1) := by
      intro hc
      apply hm
      obtain ⟨x, hx, he⟩ := List.mem_map.1 hc
      exact List.any_eq_true.2 ⟨x, hx, by simpa using he⟩
    refine ⟨?_, fun t => ?_, fun x hx => ?_⟩
    · rw [List.map_append, List.nodup_append]
      refine ⟨h.nodup, by simp, ?_⟩
      intro a ha b hb
      simp only [List.map_cons, List.map_nil, List.mem_singleton] at hb
      subst hb
      exact fun hc => hmem (hc ▸ ha)
    · rw [List.map_append, List.mem_append, h.texts]
      constructor
      · rintro (⟨a, ha, he⟩ | ha)
        · exact ⟨a, List.mem_append_left _ ha, he⟩
        · simp only [List.map_cons, List.map_nil, List.mem_singleton] at ha
          exact ⟨w, by simp, ha.symm⟩
      · rintro ⟨a, ha, he⟩
        rcases List.mem_append.1 ha with ha | ha
        · exact Or.inl ⟨a, ha, he⟩
        · simp only [List.mem_singleton] at ha
          subst ha
          right
          simp [he]
    · rcases List.mem_append.1 hx with hx | hx
      · obtain ⟨g1, A, w', B, nd', g2, g3, g4, g5, g6, g7, g8⟩ := h.nodes x hx
        have hne : x.1 ≠ w.2.text := fun hc => hmem (hc ▸ List.mem_map.2 ⟨x, hx, rfl⟩)
        refine ⟨?_, A, w', B ++ [w], nd', by rw [g2]; simp, g3, g4, g5, g6, g7, g8⟩
        rw [List.filter_append, List.map_append, ← g1]
        simp [Ne.symm hne]
      · simp only [List.mem_singleton] at hx
        subst hx
        have hno : ∀ a ∈ W, a.2.text ≠ w.2.text := fun a ha he => hmem ((h.texts _).2 ⟨a, ha, he⟩)
        refine ⟨?_, W, w, [], nd, rfl, rfl, hno, hp, rfl, rfl, rfl⟩
        rw [hfns, List.filter_append, List.map_append]
        have : W.filter (fun a => decide (a.2.text = w.2.text)) = [] := by
          rw [List.filter_eq_nil_iff]
          intro a ha
          simp [hno a ha]
        simp [this]

theorem merge_spec : ∀ (ws : List (Fn ρ × Over ρ)) (nds : List (Bytes × Node ρ)) (acc : List (Bytes × Node ρ)) (W : List (Fn ρ × Over ρ)),
    ws.mapM (fun w => (planOne w.1 w.2).map fun nd => (w.2.text, nd)) = .ok nds → Merged acc W → Merged (mergeNodes acc nds) (W ++ ws) := by
  intro ws
  induction ws with
  | nil =>
    intro nds acc W h hm
    rw [List.mapM_nil] at h
    injection h with h
    subst h
    unfold mergeNodes
    simpa using hm
  | cons w ws ih =>
    intro nds acc W h hm
    rw [List.mapM_cons] at h
    cases hp : planOne w.1 w.2 with
    | error e => rw [hp] at h; simp [Except.map, bind, Except.bind] at h
    | ok nd =>
      rw [hp] at h
      simp only [Except.map, bind, Except.bind] at h
      cases hr : ws.mapM (fun w => (planOne w.1 w.2).map fun nd => (w.2.text, nd)) with
      | error e => simp only [Except.map] at hr; rw [hr] at h; cases h
      | ok rest =>
        have hr' := hr
        simp only [Except.map] at hr'
        rw [hr'] at h
        simp only [pure, Except.pure, Except.ok.injEq] at h
        subst h
        have := ih rest _ (W ++ [w]) hr (Merged.step hm hp)
        unfold mergeNodes
        simpa using this

theorem plan_spec {ws : List (Fn ρ × Over ρ)} {nds : List (Bytes × Node ρ)} (h : plan ws = .ok nds) : Merged nds ws := by
  unfold plan at h
  cases hr : ws.mapM (fun w => (planOne w.1 w.2).map fun nd => (w.2.text, nd)) with
  | error e => rw [hr] at h; cases h
  | ok l =>
    rw [hr] at h
    simp only [bind, Except.bind, pure, Except.pure, Except.ok.injEq] at h
    subst h
    exact merge_spec ws l [] [] hr ⟨by simp, by simp, by simp⟩

theorem plan_each : ∀ {ws : List (Fn ρ × Over ρ)} {nds : List (Bytes × Node ρ)}, plan ws = .ok nds → ∀ w ∈ ws, ∃ nd, planOne w.1 w.2 = .ok nd := by
  intro ws nds h
  unfold plan at h
  cases hr : ws.mapM (fun w => (planOne w.1 w.2).map fun nd => (w.2.text, nd)) with
  | error e => rw [hr] at h; cases h
  | ok l =>
    clear h
    induction ws generalizing l with
    | nil => simp
    | cons w ws ih =>
      rw [List.mapM_cons] at hr
      cases hp : planOne w.1 w.2 with
      | error e => rw [hp] at hr; simp [Except.map, bind, Except.bind] at hr
      | ok nd =>
        rw [hp] at hr
        simp only [bind, Except.bind] at hr
        cases hr' : ws.mapM (fun w => (planOne w.1 w.2).map fun nd => (w.2.text, nd)) with
        | error e => rw [hr'] at hr; cases hr
        | ok rest =>
          intro x hx
          rcases List.mem_cons.1 hx with rfl | hx
          · exact ⟨nd, hp⟩
          · exact ih rest hr' x hx

/-- The merged windows fit all their functions. -/
theorem merged_fits {N : Nat} {ws : List (Fn ρ × Over ρ)} {nds : List (Bytes × Node ρ)} (hplan : plan ws = .ok nds)
    (hok : ∀ w ∈ ws, Over.Ok N w.2) (ha : Apart ws) {x : Bytes × Node ρ} (hx : x ∈ nds) {w : Fn ρ × Over ρ} (hw : w ∈ ws) (ht : w.2.text = x.1) :
    x.2.part = w.2.part ∧ x.2.order = w.2.order.getD [] ∧ FrameFits N w.1 x.2.frame (extent w.2) := by
  obtain ⟨_, A, w0, B, nd, h2, h3, h4, h5, h6, h7, h8⟩ := (plan_spec hplan).nodes x hx
  have hw0 : w0 ∈ ws := by rw [h2]; simp
  obtain ⟨e1, e2, e3⟩ := ha.1 w hw w0 hw0 (ht.trans h3.symm)
  obtain ⟨p1, _, p3, p4, p5, p6⟩ := planOne_spec (hok w0 hw0) h5
  obtain ⟨nd', h5'⟩ := plan_each hplan w hw
  obtain ⟨q1, _⟩ := planOne_spec (hok w hw) h5'
  have hext : extent w.2 = extent w0.2 := by unfold extent; rw [e2, e3]
  refine ⟨by rw [h6, p3, e1], by rw [h7, p4, e2], ?_⟩
  have hl := (checkFrame_iff w.1 w.2 (fun v hv => ⟨(hok w hw v hv).1.1, (hok w hw v hv).2.1⟩)).1 q1
  have hl0 := (checkFrame_iff w0.1 w0.2 (fun v hv => ⟨(hok w0 hw0 v hv).1.1, (hok w0 hw0 v hv).2.1⟩)).1 p1
  rw [h8]
  cases hf0 : w0.1.frameless with
  | true =>
    rw [p5 hf0]
    cases hf : w.1.frameless with
    | true => exact Or.inl hf
    | false =>
      have hfr : w.2.frame = none := by
        cases hfr : w.2.frame with
        | none => rfl
        | some v =>
          have := (hl0 v (by rw [← e3]; exact hfr)).2.2.2.2
          rw [looks_eq, hf0] at this
          exact absurd this (by simp)
      have hB : w ∈ B := by
        rw [h2] at hw
        rcases List.mem_append.1 hw with hw | hw
        · exact absurd ht (h4 w hw)
        · rcases List.mem_cons.1 hw with hw | hw
          · rw [hw, hf0] at hf; exact absurd hf (by simp)
          · exact hw
      have hpw := ha.2
      rw [h2] at hpw
      have hord := (List.pairwise_cons.1 (List.pairwise_append.1 hpw).2.1).1 w hB (h3.trans ht.symm) (by rw [looks_eq, hf0]; rfl) (by rw [looks_eq, hf]; rfl)
      right
      unfold extent
      rw [hfr, hord]
      exact ⟨rfl, rfl⟩
  | false =>
    obtain ⟨fr, g1, g2⟩ := p6 hf0
    rw [g1]
    left
    refine ⟨by rw [hext]; exact g2, fun hf => ?_⟩
    cases hfr : w.2.frame with
    | none =>
      unfold extent
      rw [hfr]
      cases w.2.order <;> rfl
    | some v =>
      have := (hl v hfr).2.2.2.2
      rw [looks_eq, hf] at this
      exact absurd this (by simp)

end BaikalDB.Window
