import Verif.Window.Plan

/-! # C62: window functions -/

namespace BaikalDB.Window
open Expr (EV VTy)
open Expr.Spec
open Spec
open BaikalDB.Sort (Key rowCompare rowOrd RowLe RowOK colVal colOrd)

variable {ρ : Type} {ty : Key ρ → VTy} {fp : Fp}

/-- Where the query finds the value of the function at `a` among `ws`: in the part of its window, after the functions before it
in the same window. -/
def valueAt (ws : List (Fn ρ × Over ρ)) (ord : List (Bytes × Node ρ)) (a : Nat) (o : Over ρ) (s : Wide ρ) : Option EV :=
  (s.2[(ord.map (·.1)).idxOf o.text]?).bind fun vs => vs[(ws.take a).countP fun w => decide (w.2.text = o.text)]?

theorem filter_take_get {α : Type} (p : α → Bool) : ∀ (l : List α) (a : Nat) (x : α), l[a]? = some x → p x = true →
    (l.filter p)[(l.take a).countP p]? = some x := by
  intro l
  induction l with
  | nil => intro a x h; simp at h
  | cons y l ih =>
    intro a x h hp
    cases a with
    | zero =>
      simp only [List.getElem?_cons_zero, Option.some.injEq] at h
      subst h
      simp [hp]
    | succ a =>
      have := ih a x (by simpa using h) hp
      by_cases hy : p y = true
      · simpa [hy] using this
      · simpa [hy] using this

/-- **C62.** A query with the window functions `ws`: whatever the order of the windows in the plan and however the rows are cut
into batches, every row comes out once; and for each window there is an order of the rows, by PARTITION BY and then ORDER BY, in
which every function of that window has for each row the value SQL gives it. -/
theorem C62_windows {E : Exec (Wide ρ)} (hE : E.Ok) (hfp : FpOk fp) {ws : List (Fn ρ × Over ρ)} {nds ord : List (Bytes × Node ρ)}
    (hplan : plan ws = .ok nds) (hord : ord.Perm nds) (ha : Apart ws) {rows : List ρ} {child : List (List (Wide ρ))}
    (hne : ∀ b ∈ child.dropLast, b ≠ []) (hchild : child.flatten = rows.map fun r => (r, []))
    (hrows : rows.length < 2 ^ 31) (hcalls : rows.length < E.calls)
    (hw : ∀ w ∈ ws, w.2.part.length ≤ 8 ∧ Over.Ok rows.length w.2 ∧ FnOk rows w.1 ∧ ∀ r ∈ rows, SpecOk ty w.2.part (w.2.order.getD []) r) :
    ∃ out, runWindows fp E (ord.map (·.2)) child = .ok out ∧ (out.map (·.1)).Perm rows ∧
      ∀ t, ∃ L : List (Wide ρ), L.Perm out ∧ ∀ (a : Nat) (f : Fn ρ) (o : Over ρ), ws[a]? = some (f, o) → o.text = t →
        Computes fp f o (·.1) (valueAt ws ord a o) L := by
  have hM := plan_spec hplan
  let fssOf : Bytes × Node ρ → List (Fn ρ × Extent) := fun x => (ws.filter fun w => decide (w.2.text = x.1)).map fun w => (w.1, extent w.2)
  have hrow1 : child.flatten.map (·.1) = rows := by rw [hchild, List.map_map]; simp [Function.comp_def]
  have hlen : child.flatten.length = rows.length := by rw [hchild, List.length_map]
  have hall : List.Forall₂ (NodeOk rows.length ty (child.flatten.map (·.1))) (ord.map (·.2)) (ord.map fssOf) := by
    rw [hrow1]
    have : ∀ x ∈ ord, NodeOk rows.length ty rows x.2 (fssOf x) := by
      intro x hx
      have hxn : x ∈ nds := hord.mem_iff.1 hx
      obtain ⟨w, hww, hwt⟩ := (hM.texts x.1).1 (List.mem_map.2 ⟨x, hxn, rfl⟩)
      obtain ⟨m1, m2, _⟩ := merged_fits hplan (fun w hw' => (hw w hw').2.1) ha hxn hww hwt
      refine ⟨by rw [m1]; exact (hw w hww).1, fun r hr => by rw [m1, m2]; exact (hw w hww).2.2.2 r hr, ?_, ?_⟩
      · rw [(hM.nodes x hxn).1]
        simp [fssOf]
      · intro y hy
        obtain ⟨w', hw', rfl⟩ := List.mem_map.1 hy
        obtain ⟨hm', ht'⟩ := List.mem_filter.1 hw'
        simp only [decide_eq_true_iff] at ht'
        exact ⟨(hw w' hm').2.2.1, (merged_fits hplan (fun w hw' => (hw w hw').2.1) ha hxn hm' ht').2.2⟩
    clear hord
    induction ord with
    | nil => exact .nil
    | cons x ord ih => exact .cons (this x List.mem_cons_self) (ih fun y hy => this y (List.mem_cons_of_mem _ hy))
  obtain ⟨out, e, hp, hl, hk⟩ := windows_spec (ty := ty) (E := E) hE hfp (N := rows.length) hrows (ord.map (·.2)) (ord.map fssOf) 0 child hne
    (by rw [hchild]; intro s hs; obtain ⟨r, _, rfl⟩ := List.mem_map.1 hs; rfl) (by rw [hlen]) (by rw [hlen]; exact hcalls) hall
  refine ⟨out, e, ?_, fun t => ?_⟩
  · have := hp.map (·.1)
    rw [List.map_map, hrow1] at this
    exact this
  by_cases ht : t ∈ ord.map (·.1)
  · have hidx : (ord.map (·.1)).idxOf t < ord.length := by
      have := List.idxOf_lt_length_of_mem ht
      simpa using this
    generalize hkk : (ord.map (·.1)).idxOf t = k at hidx
    have hget : ord[k]? = some ord[k] := List.getElem?_eq_getElem hidx
    have htx : (ord[k]).1 = t := by
      have h1 : (ord.map (·.1))[(ord.map (·.1)).idxOf t]? = some t := List.getElem?_idxOf ht
      rw [hkk, List.getElem?_map, hget] at h1
      simpa using h1
    have hxn : ord[k] ∈ nds := hord.mem_iff.1 (List.getElem_mem hidx)
    obtain ⟨L, h1, h2, h3⟩ := hk k (ord[k]).2 (fssOf ord[k]) (by rw [List.getElem?_map, hget]; rfl) (by rw [List.getElem?_map, hget]; rfl)
    refine ⟨L, h1, fun a f o hao hot => ?_⟩
    have hmem : (f, o) ∈ ws := List.mem_of_getElem? hao
    obtain ⟨m1, m2, _⟩ := merged_fits hplan (fun w hw' => (hw w hw').2.1) ha hxn hmem (hot.trans htx.symm)
    simp only at m1 m2
    refine ⟨?_, fun A B s hs => ?_⟩
    · have : sortKeys (ord[k]).2 = o.part.map (fun a => ⟨a, true, true⟩) ++ o.order.getD [] := by unfold sortKeys; rw [m1, m2]
      rw [← this]
      exact h2
    · obtain ⟨g1, g2⟩ := h3 (A.map fun s => (s.1, s.2.getD (0 + k) [])) (B.map fun s => (s.1, s.2.getD (0 + k) [])) s.1 (s.2.getD (0 + k) [])
        (by rw [hs]; simp)
      have hpos : (fssOf ord[k])[(ws.take a).countP fun w => decide (w.2.text = o.text)]? = some (f, extent o) := by
        have := filter_take_get (fun w : Fn ρ × Over ρ => decide (w.2.text = o.text)) ws a (f, o) hao (by simp)
        simp only [fssOf, htx, ← hot, List.getElem?_map, this, Option.map_some]
      obtain ⟨v, hv, hval⟩ := g2 _ f (extent o) hpos
      refine ⟨v, ?_, ?_⟩
      · unfold valueAt
        rw [hot, hkk, ← hot]
        have hlk : k < s.2.length := by
          have := hl s (h1.mem_iff.1 (by rw [hs]; simp))
          rw [this]
          simpa using hidx
        rw [Nat.zero_add, List.getD_eq_getElem?_getD, List.getElem?_eq_getElem hlk, Option.getD_some] at hv
        rw [List.getElem?_eq_getElem hlk]
        exact hv
      · rw [m1, m2] at hval
        simpa [List.map_map, Function.comp_def] using hval
  · refine ⟨out, .refl _, fun a f o hao hot => ?_⟩
    exact absurd (hord.map (·.1) |>.mem_iff.2 ((hM.texts t).2 ⟨(f, o), List.mem_of_getElem? hao, hot⟩)) ht

/-- One value per place: different functions of the query are found in different places. -/
theorem C62_places {ws : List (Fn ρ × Over ρ)} {nds ord : List (Bytes × Node ρ)} (hplan : plan ws = .ok nds) (hord : ord.Perm nds)
    {a b : Nat} {x y : Fn ρ × Over ρ} (hx : ws[a]? = some x) (hy : ws[b]? = some y) (hab : a ≠ b) :
    ((ord.map (·.1)).idxOf x.2.text, (ws.take a).countP fun w => decide (w.2.text = x.2.text)) ≠
      ((ord.map (·.1)).idxOf y.2.text, (ws.take b).countP fun w => decide (w.2.text = y.2.text)) := by
  intro h
  obtain ⟨h1, h2⟩ := Prod.mk.inj h
  have hM := plan_spec hplan
  have mem : ∀ (c : Nat) (z : Fn ρ × Over ρ), ws[c]? = some z → z.2.text ∈ ord.map (·.1) := fun c z hz =>
    (hord.map (·.1)).mem_iff.2 ((hM.texts _).2 ⟨z, List.mem_of_getElem? hz, rfl⟩)
  have ht : x.2.text = y.2.text := by
    have e1 := List.getElem?_idxOf (mem a x hx)
    have e2 := List.getElem?_idxOf (mem b y hy)
    rw [h1, e2] at e1
    injection e1 with e1
    exact e1.symm
  rw [ht] at h2
  have key : ∀ (a b : Nat) (z : Fn ρ × Over ρ), a < b → ws[a]? = some z → z.2.text = y.2.text →
      (ws.take a).countP (fun w => decide (w.2.text = y.2.text)) < (ws.take b).countP fun w => decide (w.2.text = y.2.text) := by
    intro a b z hlt hz hzt
    have hsplit : ws.take b = ws.take a ++ ((ws.drop a).take (b - a)) := by
      rw [← List.take_append_drop a (ws.take b), List.take_take, Nat.min_eq_left (by omega), List.drop_take]
    rw [hsplit, List.countP_append]
    have : 0 < ((ws.drop a).take (b - a)).countP fun w => decide (w.2.text = y.2.text) := by
      rw [List.countP_pos_iff]
      refine ⟨z, ?_, by simpa using hzt⟩
      rw [List.mem_iff_getElem?]
      exact ⟨0, by rw [List.getElem?_take, if_pos (by omega), List.getElem?_drop, Nat.add_zero]; exact hz⟩
    omega
  rcases Nat.lt_or_gt_of_ne hab with hlt | hlt
  · have := key a b x hlt hx ht
    omega
  · have := key b a y hlt hy rfl
    omega

/-- The windows the planner takes are the legal ones (on `N > 0` rows, numbers in range). -/
theorem C62_planned {N : Nat} (hN : 0 < N) {f : Fn ρ} {o : Over ρ} (hok : Over.Ok N o) : (∃ nd, planOne f o = .ok nd) ↔ Legal f o := by
  have hc := checkFrame_iff f o (fun w hw => ⟨(hok w hw).1.1, (hok w hw).2.1⟩)
  constructor
  · rintro ⟨nd, h⟩
    exact hc.1 (planOne_spec hok h).1
  · intro h
    have h' := hc.2 h
    have hp : ∃ fr, planFrame f o = .ok fr := by
      unfold planFrame
      by_cases hf : f.frameless = true
      · rw [if_pos hf]; exact ⟨_, rfl⟩
      · rw [if_neg hf]
        cases ho : o.frame with
        | none => exact ⟨_, rfl⟩
        | some w =>
          obtain ⟨lo, e1⟩ := bound_ok hN (hok w ho).1
          obtain ⟨hi, e2⟩ := bound_ok hN (hok w ho).2
          exact ⟨_, by simp only [bind, Except.bind, e1, e2]; rfl⟩
    obtain ⟨fr, e⟩ := hp
    unfold planOne
    rw [h']
    exact ⟨_, by simp only [Bool.true_eq_false, if_false, bind, Except.bind, e]; rfl⟩

/-- A query is planned when all its windows are legal. -/
theorem C62_plan_total {N : Nat} (hN : 0 < N) {ws : List (Fn ρ × Over ρ)} (hok : ∀ w ∈ ws, Over.Ok N w.2) :
    (∃ nds, plan ws = .ok nds) ↔ ∀ w ∈ ws, Legal w.1 w.2 := by
  constructor
  · rintro ⟨nds, h⟩ w hw
    exact (C62_planned hN (hok w hw)).1 (plan_each h w hw)
  · intro h
    obtain ⟨bs, e, _⟩ := mapM_ok (g := fun w : Fn ρ × Over ρ => (planOne w.1 w.2).map fun nd => (w.2.text, nd)) (R := fun _ _ => True) ws (by
      intro w hw
      obtain ⟨nd, hnd⟩ := (C62_planned hN (hok w hw)).2 (h w hw)
      exact ⟨_, by rw [hnd]; rfl, trivial⟩)
    unfold plan
    rw [e]
    exact ⟨_, rfl⟩

end BaikalDB.Window
