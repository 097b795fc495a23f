import Verif.Hll.Dense

/-! Sparse registers: what the opcodes say, setting one register, and the change to dense registers. -/

namespace BaikalDB.Hll

/-- The limits of the opcodes (/repo/include/common/hll_common.h L253-256). -/
def OpcOk : Opc → Prop
  | .zero l => 1 ≤ l ∧ l ≤ 64
  | .xzero l => 1 ≤ l ∧ l ≤ 16384
  | .val v l => (1 ≤ v ∧ v ≤ 32) ∧ 1 ≤ l ∧ l ≤ 4

/-- The value of the registers of an opcode. -/
def Opc.value : Opc → Nat
  | .val v _ => v
  | _ => 0

/-- The registers of opcodes. -/
def expand (l : List Opc) : List Nat := l.flatMap (fun o => List.replicate o.span o.value)

@[simp] theorem expand_nil : expand [] = [] := rfl

theorem expand_cons (o : Opc) (l : List Opc) :
    expand (o :: l) = List.replicate o.span o.value ++ expand l := rfl

theorem expand_append (a b : List Opc) : expand (a ++ b) = expand a ++ expand b := by
  simp [expand]

theorem expand_le {l : List Opc} (h : ∀ o ∈ l, OpcOk o) : ∀ x ∈ expand l, x ≤ 32 := by
  intro x hx
  simp only [expand, List.mem_flatMap] at hx
  obtain ⟨o, ho, hx⟩ := hx
  have := List.eq_of_mem_replicate hx
  have hk := h o ho
  cases o <;> simp_all [Opc.value, OpcOk]

theorem mergeVals_facts (n : Nat) (l : List Opc) :
    expand (mergeVals n l) = expand l ∧ ((∀ o ∈ l, OpcOk o) → ∀ o ∈ mergeVals n l, OpcOk o) := by
  induction n, l using mergeVals.induct with
  | case1 l => simp [mergeVals]
  | case2 => simp [mergeVals]
  | case3 n v1 l1 v2 l2 rest h ih =>
    rw [mergeVals.eq_def]
    dsimp only
    rw [if_pos h]
    refine ⟨?_, fun hk => ih.2 ?_⟩
    · rw [ih.1]
      simp [expand_cons, Opc.span, Opc.value, ← h.1, ← List.append_assoc, List.replicate_append_replicate]
    · intro o ho
      rcases List.mem_cons.1 ho with rfl | ho
      · have h1 := hk (.val v1 l1) (by simp)
        have h2 := hk (.val v2 l2) (by simp)
        simp only [OpcOk] at h1 h2 ⊢
        omega
      · exact hk o (by simp [ho])
  | case4 n v1 l1 v2 l2 rest h ih =>
    rw [mergeVals.eq_def]
    dsimp only
    rw [if_neg h]
    refine ⟨by rw [expand_cons, ih.1, ← expand_cons], fun hk o ho => ?_⟩
    rcases List.mem_cons.1 ho with rfl | ho
    · exact hk _ (by simp)
    · exact ih.2 (fun o ho => hk o (by simp_all)) o ho
  | case5 n o rest hne ih =>
    have e : mergeVals (n + 1) (o :: rest) = o :: mergeVals n rest := by
      rw [mergeVals]
      exact hne
    rw [e]
    refine ⟨by rw [expand_cons, ih.1, ← expand_cons], fun hk x hx => ?_⟩
    rcases List.mem_cons.1 hx with rfl | hx
    · exact hk _ (by simp)
    · exact ih.2 (fun o ho => hk o (by simp [ho])) x hx

theorem locate_cons (front : List Opc) (prev : Option Opc) (o : Opc) (rest : List Opc) (first i : Nat) :
    locate front prev (o :: rest) first i =
      if i < first + o.span then some ⟨front, prev, o, rest, first⟩
      else locate (match prev with | some q => q :: front | none => front) (some o) rest
        (first + o.span) i := by
  cases prev <;> rfl

theorem locate_facts (front : List Opc) (prev : Option Opc) (l : List Opc) (first i : Nat)
    (hf : first = (expand (front.reverse ++ prev.toList)).length) (h1 : first ≤ i)
    (h2 : i < first + (expand l).length) :
    ∃ f, locate front prev l first i = some f ∧
      f.front.reverse ++ f.prev.toList ++ f.here :: f.rest = front.reverse ++ prev.toList ++ l ∧
      f.first = (expand (f.front.reverse ++ f.prev.toList)).length ∧
      f.first ≤ i ∧ i < f.first + f.here.span := by
  induction l generalizing front prev first with
  | nil => simp at h2; omega
  | cons o rest ih =>
    rw [locate_cons]
    by_cases h : i < first + o.span
    · rw [if_pos h]
      exact ⟨_, rfl, rfl, hf, h1, h⟩
    · rw [if_neg h]
      have e : ((match prev with | some q => q :: front | none => front).reverse ++ (some o).toList) =
          front.reverse ++ prev.toList ++ [o] := by
        cases prev <;> simp
      revert e
      generalize (match prev with | some q => q :: front | none => front) = fr
      intro e
      have hl : (expand [o]).length = o.span := by simp [expand_cons]
      obtain ⟨f, hf1, hf2, hf3⟩ := ih fr (some o)
        (first + o.span) (by rw [e, expand_append, List.length_append, ← hf, hl]) (by omega)
        (by rw [expand_cons] at h2; simp at h2; omega)
      refine ⟨f, hf1, ?_, hf3⟩
      rw [hf2, e]
      simp

theorem zeros_facts {k : Nat} (hk : k ≤ 16384) :
    expand (zeros k) = List.replicate k 0 ∧ ∀ o ∈ zeros k, OpcOk o := by
  unfold zeros
  by_cases h0 : k = 0
  · simp [h0]
  · rw [if_neg h0]
    by_cases h1 : k > 64
    · rw [if_pos h1]
      refine ⟨by simp [expand_cons, Opc.span, Opc.value], fun o ho => ?_⟩
      simp only [List.mem_singleton] at ho
      subst ho
      simp only [OpcOk]
      omega
    · rw [if_neg h1]
      refine ⟨by simp [expand_cons, Opc.span, Opc.value], fun o ho => ?_⟩
      simp only [List.mem_singleton] at ho
      subst ho
      simp only [OpcOk]
      omega

theorem vals_facts {v k : Nat} (hv : 1 ≤ v ∧ v ≤ 32) (hk : k ≤ 4) :
    expand (vals v k) = List.replicate k v ∧ ∀ o ∈ vals v k, OpcOk o := by
  unfold vals
  by_cases h0 : k = 0
  · simp [h0]
  · rw [if_neg h0]
    refine ⟨by simp [expand_cons, Opc.span, Opc.value], fun o ho => ?_⟩
    simp only [List.mem_singleton] at ho
    subst ho
    simp only [OpcOk]
    omega

theorem set_replicate {k i v x : Nat} (h : i < k) :
    (List.replicate k v).set i x = List.replicate i v ++ [x] ++ List.replicate (k - 1 - i) v := by
  have e : List.replicate k v = List.replicate i v ++ v :: List.replicate (k - 1 - i) v := by
    rw [← List.replicate_succ, List.replicate_append_replicate]
    congr 1
    omega
  rw [e, List.set_append]
  simp

theorem splitOpc_facts {o : Opc} (ho : OpcOk o) {first i count : Nat} (h1 : first ≤ i)
    (h2 : i < first + o.span) (hc : 1 ≤ count ∧ count ≤ 32) :
    expand (splitOpc o first i count) = (List.replicate o.span o.value).set (i - first) count ∧
      ∀ x ∈ splitOpc o first i count, OpcOk x := by
  rw [set_replicate (by omega)]
  have e : o.span - 1 - (i - first) = first + o.span - 1 - i := by omega
  rw [e]
  have hm : expand [Opc.val count 1] = [count] := by simp [expand_cons, Opc.span, Opc.value]
  have hm2 : OpcOk (.val count 1) := by simp only [OpcOk]; omega
  cases o with
  | val v l =>
    simp only [OpcOk] at ho
    simp only [Opc.span, Opc.value, splitOpc] at h2 ⊢
    obtain ⟨a1, a2⟩ := vals_facts (v := v) (k := i - first) ho.1 (by omega)
    obtain ⟨b1, b2⟩ := vals_facts (v := v) (k := first + l - 1 - i) ho.1 (by omega)
    refine ⟨by rw [expand_append, expand_append, a1, b1, hm], fun x hx => ?_⟩
    simp only [List.mem_append, List.mem_singleton] at hx
    rcases hx with (hx | rfl) | hx
    · exact a2 x hx
    · exact hm2
    · exact b2 x hx
  | zero l =>
    simp only [OpcOk] at ho
    simp only [Opc.span, Opc.value, splitOpc] at h2 ⊢
    obtain ⟨a1, a2⟩ := zeros_facts (k := i - first) (by omega)
    obtain ⟨b1, b2⟩ := zeros_facts (k := first + l - 1 - i) (by omega)
    refine ⟨by rw [expand_append, expand_append, a1, b1, hm], fun x hx => ?_⟩
    simp only [List.mem_append, List.mem_singleton] at hx
    rcases hx with (hx | rfl) | hx
    · exact a2 x hx
    · exact hm2
    · exact b2 x hx
  | xzero l =>
    simp only [OpcOk] at ho
    simp only [Opc.span, Opc.value, splitOpc] at h2 ⊢
    obtain ⟨a1, a2⟩ := zeros_facts (k := i - first) (by omega)
    obtain ⟨b1, b2⟩ := zeros_facts (k := first + l - 1 - i) (by omega)
    refine ⟨by rw [expand_append, expand_append, a1, b1, hm], fun x hx => ?_⟩
    simp only [List.mem_append, List.mem_singleton] at hx
    rcases hx with (hx | rfl) | hx
    · exact a2 x hx
    · exact hm2
    · exact b2 x hx

/-! ### To dense registers -/

theorem denseRun_facts {n : Nat} (k : Nat) (b : List Nat) (done tail : List Nat) (v : Nat)
    (hb : Bytes b) (hn : n * 6 ≤ 8 * b.length) (hv : v < 64)
    (h : denseRegs n b = done ++ List.replicate k 0 ++ tail) :
    Bytes (denseRun b done.length v k) ∧ (denseRun b done.length v k).length = b.length ∧
      denseRegs n (denseRun b done.length v k) = done ++ List.replicate k v ++ tail := by
  induction k generalizing b done with
  | zero => exact ⟨hb, rfl, by simpa [denseRun] using h⟩
  | succ k ih =>
    rw [denseRun]
    have h' : denseRegs n (densePut b done.length v) = (done ++ [v]) ++ List.replicate k 0 ++ tail := by
      rw [denseRegs_put hb hn hv, h, List.replicate_succ]
      simp
    have := ih (densePut b done.length v) (done ++ [v]) (densePut_bytes hb _ _)
      (by rw [densePut_length]; exact hn) h'
    rw [densePut_length] at this
    simp only [List.length_append, List.length_singleton] at this
    refine ⟨this.1, this.2.1, ?_⟩
    rw [this.2.2, List.replicate_succ]
    simp

theorem toDenseLoop_facts {n : Nat} (l : List Opc) (b : List Nat) (done : List Nat) (m : Nat)
    (hl : ∀ o ∈ l, OpcOk o) (hb : Bytes b) (hn : n * 6 ≤ 8 * b.length)
    (h : denseRegs n b = done ++ List.replicate m 0) (hm : (expand l).length = m) :
    ∃ b', toDenseLoop n l b done.length = (b', n) ∧ Bytes b' ∧ b'.length = b.length ∧
      denseRegs n b' = done ++ expand l := by
  induction l generalizing b done m with
  | nil =>
    simp only [expand_nil, List.length_nil] at hm
    subst hm
    simp only [List.replicate_zero, List.append_nil] at h
    have : done.length = n := by rw [← h]; simp [denseRegs]
    exact ⟨b, by rw [toDenseLoop, this], hb, rfl, by simpa using h⟩
  | cons o rest ih =>
    have hl' : ∀ x ∈ rest, OpcOk x := fun x hx => hl x (by simp [hx])
    have ho := hl o (by simp)
    rw [expand_cons] at hm
    simp only [List.length_append, List.length_replicate] at hm
    have hr : List.replicate m 0 = List.replicate o.span 0 ++ List.replicate (expand rest).length 0 := by
      rw [List.replicate_append_replicate, hm]
    have hlen : done.length + m = n := by
      have := congrArg List.length h
      simp [denseRegs] at this
      omega
    have step0 : o.value = 0 → ∃ b', toDenseLoop n rest b (done.length + o.span) = (b', n) ∧ Bytes b' ∧
        b'.length = b.length ∧ denseRegs n b' = done ++ expand (o :: rest) := by
      intro hv
      have := ih b (done ++ List.replicate o.span 0) _ hl' hb hn
        (by rw [h, hr, List.append_assoc]) rfl
      simp only [List.length_append, List.length_replicate] at this
      obtain ⟨b', h1, h2, h3, h4⟩ := this
      exact ⟨b', h1, h2, h3, by rw [h4, expand_cons, hv, List.append_assoc]⟩
    cases o with
    | zero k => exact step0 rfl
    | xzero k => exact step0 rfl
    | val v k =>
      simp only [OpcOk] at ho
      simp only [Opc.span] at hm hr
      rw [toDenseLoop, if_neg (by omega)]
      obtain ⟨r1, r2, r3⟩ := denseRun_facts k b done (List.replicate (expand rest).length 0) v hb hn
        (by omega) (by rw [h, hr, List.append_assoc])
      have := ih (denseRun b done.length v k) (done ++ List.replicate k v) _ hl' r1
        (by rw [r2]; exact hn) r3 rfl
      simp only [List.length_append, List.length_replicate] at this
      obtain ⟨b', h1, h2, h3, h4⟩ := this
      exact ⟨b', h1, h2, by rw [h3, r2], by
        rw [h4, expand_cons, List.append_assoc]
        rfl⟩

theorem replicate_bytes (n : Nat) : Bytes (List.replicate n 0) := by
  intro x hx
  rw [List.eq_of_mem_replicate hx]
  omega

theorem denseLen_le (c : Cfg) : c.n * 6 ≤ 8 * denseLen c := by
  unfold denseLen
  omega

theorem denseGet_zero (n i : Nat) : denseGet (List.replicate n 0) i = 0 := by
  unfold denseGet
  have : ∀ j, (List.replicate n 0).getD j 0 = 0 := by
    intro j
    rw [List.getD_eq_getElem?_getD, List.getElem?_replicate]
    by_cases h : j < n <;> simp [h]
  rw [this, this]
  simp

theorem denseRegs_zero (n k : Nat) : denseRegs n (List.replicate k 0) = List.replicate n 0 := by
  unfold denseRegs
  rw [List.eq_replicate_iff]
  refine ⟨by simp, fun x hx => ?_⟩
  obtain ⟨i, _, rfl⟩ := List.mem_map.1 hx
  exact denseGet_zero k i

theorem toDense_sparse (c : Cfg) {h : Sketch} {l : List Opc} (hb : h.body = .sparse l)
    (hl : ∀ o ∈ l, OpcOk o) (hn : (expand l).length = c.n) :
    ∃ b, toDense c h = some ⟨.dense b, h.cache⟩ ∧ Bytes b ∧ b.length = denseLen c ∧
      denseRegs c.n b = expand l := by
  obtain ⟨b, h1, h2, h3, h4⟩ := toDenseLoop_facts (n := c.n) l (List.replicate (denseLen c) 0) [] c.n hl
    (replicate_bytes _) (by simpa using denseLen_le c) (by rw [denseRegs_zero]; simp) hn
  simp only [List.length_nil] at h1
  refine ⟨b, ?_, h2, by simpa using h3, by simpa using h4⟩
  unfold toDense
  rw [hb]
  simp [h1]

theorem promote_facts (c : Cfg) {h : Sketch} {l : List Opc} (hb : h.body = .sparse l)
    (hl : ∀ o ∈ l, OpcOk o) (hn : (expand l).length = c.n) {i count : Nat} (hi : i < c.n)
    (hc : (expand l).getD i 0 < count) (h63 : count < 64) :
    ∃ b, promote c h i count = some ⟨.dense b, none⟩ ∧ Bytes b ∧ b.length = denseLen c ∧
      denseRegs c.n b = upd (expand l) i count := by
  obtain ⟨b, h1, h2, h3, h4⟩ := toDense_sparse c hb hl hn
  have hl6 : c.n * 6 ≤ 8 * b.length := by rw [h3]; exact denseLen_le c
  obtain ⟨f1, f2, f3, f4, _⟩ := denseSet_facts h2 hl6 hi h63
  refine ⟨(denseSet b i count).1, ?_, f1, by rw [f2, h3], by rw [f3, h4]⟩
  have ht : (denseSet b i count).2 = true := f4.2 (by rw [← denseRegs_getD hi, h4]; exact hc)
  unfold promote
  rw [h1]
  dsimp only
  generalize hd : denseSet b i count = d at *
  obtain ⟨d1, d2⟩ := d
  simp only at ht
  subst ht
  rfl

/-! ### Setting a register -/

theorem getD_append_mid {a m t : List Nat} {i : Nat} (h1 : a.length ≤ i) (h2 : i < a.length + m.length) :
    (a ++ m ++ t).getD i 0 = m.getD (i - a.length) 0 := by
  rw [List.getD_eq_getElem?_getD, List.getD_eq_getElem?_getD, List.append_assoc,
    List.getElem?_append_right h1, List.getElem?_append_left (by omega)]

theorem set_append_mid {a m t : List Nat} {i v : Nat} (h1 : a.length ≤ i) (h2 : i < a.length + m.length) :
    (a ++ m ++ t).set i v = a ++ m.set (i - a.length) v ++ t := by
  rw [List.append_assoc, List.set_append, if_neg (by omega), List.set_append, if_pos (by omega),
    List.append_assoc]

theorem sparseSet_facts (c : Cfg) {h : Sketch} {l : List Opc} (hb : h.body = .sparse l)
    (hl : ∀ o ∈ l, OpcOk o) (hn : (expand l).length = c.n) {i count : Nat} (hi : i < c.n)
    (h1 : 1 ≤ count) (h63 : count < 64) :
    ∃ h', sparseSet c h l i count = some h' ∧
      ((h' = h ∧ upd (expand l) i count = expand l) ∨
       (∃ b, h' = ⟨.dense b, none⟩ ∧ Bytes b ∧ b.length = denseLen c ∧
          denseRegs c.n b = upd (expand l) i count) ∨
       (∃ l', h' = ⟨.sparse l', none⟩ ∧ (∀ o ∈ l', OpcOk o) ∧ expand l' = upd (expand l) i count)) := by
  unfold sparseSet
  by_cases h32 : count > 32
  · rw [if_pos h32]
    have hlt : (expand l).getD i 0 < count := by
      rw [List.getD_eq_getElem?_getD, List.getElem?_eq_getElem (by omega)]
      have := expand_le hl _ (List.getElem_mem (l := expand l) (n := i) (by omega))
      simp only [Option.getD_some]
      omega
    obtain ⟨b, hp, hrest⟩ := promote_facts c hb hl hn hi hlt h63
    exact ⟨_, hp, Or.inr (Or.inl ⟨b, rfl, hrest⟩)⟩
  · rw [if_neg h32]
    obtain ⟨f, e1, e2, e3, e4, e5⟩ := locate_facts [] none l 0 i (by simp) (by omega) (by omega)
    simp only [List.reverse_nil, List.nil_append, Option.toList_none] at e2
    rw [e1]
    dsimp only
    have ho : OpcOk f.here := hl _ (by rw [← e2]; simp)
    have hx : expand l = expand (f.front.reverse ++ f.prev.toList) ++
        List.replicate f.here.span f.here.value ++ expand f.rest := by
      rw [← e2, expand_append, expand_cons, List.append_assoc]
    have hval : (expand l).getD i 0 = f.here.value := by
      rw [hx, getD_append_mid (by omega) (by simp; omega), List.getD_eq_getElem?_getD,
        List.getElem?_replicate, if_pos (by omega)]
      rfl
    have hset : ∀ v, (expand l).set i v = expand (f.front.reverse ++ f.prev.toList) ++
        (List.replicate f.here.span f.here.value).set (i - f.first) v ++ expand f.rest := by
      intro v
      rw [hx, set_append_mid (by omega) (by simp; omega), e3]
    -- what the tail makes
    have tail : ∀ new : List Opc, (∀ o ∈ new, OpcOk o) → f.here.value < count →
        expand new = (List.replicate f.here.span f.here.value).set (i - f.first) count →
        ∃ l', (match f.prev with
            | some q => (⟨.sparse (f.front.reverse ++ mergeVals 5 (q :: (new ++ f.rest))), none⟩ : Sketch)
            | none => ⟨.sparse (mergeVals 5 (new ++ f.rest)), none⟩) = ⟨.sparse l', none⟩ ∧
          (∀ o ∈ l', OpcOk o) ∧ expand l' = upd (expand l) i count := by
      intro new hnew hlt hexp
      have hrest : ∀ o ∈ f.rest, OpcOk o := fun o hm => hl o (by rw [← e2]; simp [hm])
      have hu : upd (expand l) i count = (expand l).set i count := by
        rw [upd, hval, Nat.max_eq_right (by omega)]
      cases hp : f.prev with
      | some q =>
        rw [hp] at hset e2
        refine ⟨_, rfl, ?_, ?_⟩
        · intro o hm
          rcases List.mem_append.1 hm with hm | hm
          · exact hl o (by rw [← e2]; simp only [List.mem_append]; exact Or.inl (Or.inl hm))
          · refine (mergeVals_facts _ _).2 (fun o hm => ?_) o hm
            rcases List.mem_cons.1 hm with rfl | hm
            · exact hl _ (by rw [← e2]; simp)
            · rcases List.mem_append.1 hm with hm | hm
              · exact hnew o hm
              · exact hrest o hm
        · rw [expand_append, (mergeVals_facts _ _).1, hu, hset, expand_cons, expand_append, hexp,
            expand_append]
          simp [expand_cons]
      | none =>
        rw [hp] at hset e2
        have hfr : f.front = [] := by
          have : ∀ (front : List Opc) (prev : Option Opc) (l : List Opc) (a : Nat) (f : Found),
              (prev = none → front = []) → locate front prev l a i = some f →
              f.prev = none → f.front = [] := by
            intro front prev l a f hfp hloc hfn
            induction l generalizing front prev a with
            | nil => simp [locate] at hloc
            | cons o rest ih =>
              rw [locate_cons] at hloc
              by_cases hh : i < a + o.span
              · rw [if_pos hh] at hloc
                cases hloc
                exact hfp hfn
              · rw [if_neg hh] at hloc
                exact ih _ (some o) _ (by simp) hloc
          exact this [] none l 0 f (fun _ => rfl) e1 hp
        refine ⟨_, rfl, ?_, ?_⟩
        · intro o hm
          refine (mergeVals_facts _ _).2 (fun o hm => ?_) o hm
          rcases List.mem_append.1 hm with hm | hm
          · exact hnew o hm
          · exact hrest o hm
        · rw [(mergeVals_facts _ _).1, hu, hset, expand_append, hexp, hfr]
          simp
    have general : f.here.value < count → ∃ h',
        (if size (splitOpc f.here f.first i count) > f.here.bytes ∧
            hdrSize + size l + (size (splitOpc f.here f.first i count) - f.here.bytes) > c.maxBytes then
          promote c h i count
        else some (match f.prev with
            | some q => (⟨.sparse (f.front.reverse ++ mergeVals 5
                (q :: (splitOpc f.here f.first i count ++ f.rest))), none⟩ : Sketch)
            | none => ⟨.sparse (mergeVals 5 (splitOpc f.here f.first i count ++ f.rest)), none⟩)) =
          some h' ∧
        ((h' = h ∧ upd (expand l) i count = expand l) ∨
         (∃ b, h' = ⟨.dense b, none⟩ ∧ Bytes b ∧ b.length = denseLen c ∧
            denseRegs c.n b = upd (expand l) i count) ∨
         (∃ l', h' = ⟨.sparse l', none⟩ ∧ (∀ o ∈ l', OpcOk o) ∧ expand l' = upd (expand l) i count)) := by
      intro hlt
      by_cases hs : size (splitOpc f.here f.first i count) > f.here.bytes ∧
            hdrSize + size l + (size (splitOpc f.here f.first i count) - f.here.bytes) > c.maxBytes
      · rw [if_pos hs]
        obtain ⟨b, hp, hrest⟩ := promote_facts c hb hl hn hi (by rw [hval]; exact hlt) h63
        exact ⟨_, hp, Or.inr (Or.inl ⟨b, rfl, hrest⟩)⟩
      · rw [if_neg hs]
        obtain ⟨s1, s2⟩ := splitOpc_facts ho e4 e5 ⟨h1, by omega⟩
        obtain ⟨l', t1, t2⟩ := tail _ s2 hlt s1
        exact ⟨_, rfl, Or.inr (Or.inr ⟨l', t1, t2⟩)⟩
    have one : f.here.span = 1 → f.here.value < count → ∃ h',
        some (match f.prev with
            | some q => (⟨.sparse (f.front.reverse ++ mergeVals 5 (q :: ([.val count 1] ++ f.rest))),
                none⟩ : Sketch)
            | none => ⟨.sparse (mergeVals 5 ([.val count 1] ++ f.rest)), none⟩) = some h' ∧
        ((h' = h ∧ upd (expand l) i count = expand l) ∨
         (∃ b, h' = ⟨.dense b, none⟩ ∧ Bytes b ∧ b.length = denseLen c ∧
            denseRegs c.n b = upd (expand l) i count) ∨
         (∃ l', h' = ⟨.sparse l', none⟩ ∧ (∀ o ∈ l', OpcOk o) ∧ expand l' = upd (expand l) i count)) := by
      intro hs hlt
      obtain ⟨l', t1, t2⟩ := tail [.val count 1] (by
        intro o hm
        simp only [List.mem_singleton] at hm
        subst hm
        simp only [OpcOk]
        omega) hlt (by
        have hz : i - f.first = 0 := by omega
        rw [hs, hz]
        simp [expand_cons, Opc.span, Opc.value])
      exact ⟨_, rfl, Or.inr (Or.inr ⟨l', t1, t2⟩)⟩
    generalize hh : f.here = o at *
    cases o with
    | val v len =>
      dsimp only
      by_cases hv : v ≥ count
      · rw [if_pos hv]
        refine ⟨h, rfl, Or.inl ⟨rfl, ?_⟩⟩
        refine ext_getD (by simp [upd]) (fun j hj => ?_)
        rw [getD_upd]
        by_cases hij : i = j ∧ j < (expand l).length
        · rw [if_pos hij, ← hij.1, hval]
          exact Nat.max_eq_left hv
        · rw [if_neg hij]
      · rw [if_neg hv]
        by_cases hlen : len = 1
        · rw [if_pos hlen]
          exact one hlen (by simp only [Opc.value]; omega)
        · rw [if_neg hlen]
          exact general (by simp only [Opc.value]; omega)
    | zero len =>
      dsimp only
      by_cases hlen : len = 1
      · rw [if_pos hlen]
        exact one hlen (by simp only [Opc.value]; omega)
      · rw [if_neg hlen]
        exact general (by simp only [Opc.value]; omega)
    | xzero len => exact general (by simp only [Opc.value]; omega)

end BaikalDB.Hll
