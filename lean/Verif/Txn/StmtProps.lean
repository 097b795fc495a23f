import Verif.Txn.Stmt
import Mathlib.Data.List.TakeWhile

namespace BaikalDB.Stmt

inductive Reach : Sys → Prop
  | init : Reach .init
  | step {s s' : Sys} (e : Ev) : Reach s → step s e = some s' → Reach s'

/-! ## Shapes of a transaction -/

/-- One save point per statement in the write batch. -/
def savesOf : List Nat → List (Nat × Nat)
  | [] => []
  | x :: L => (x, L.length) :: savesOf L

def shape (q : Nat) (c L : List Nat) : T := ⟨q, savesOf L, c, L⟩

/-- No request is under way. -/
def settled (q : Nat) (L : List Nat) : T := shape q [q] L

abbrev Desc (L : List Nat) : Prop := L.Pairwise (· > ·)

def cut (R L : List Nat) : List Nat := L.dropWhile fun x => decide (x ∈ R)

theorem cut_desc {R L : List Nat} (h : Desc L) : Desc (cut R L) := h.sublist (List.dropWhile_sublist _)

theorem cut_mem {R L : List Nat} {x : Nat} (h : x ∈ cut R L) : x ∈ L := (List.dropWhile_sublist _).subset h

theorem cut_cut {A B L : List Nat} (h : ∀ x ∈ A, x ∈ B) : cut B (cut A L) = cut B L := by
  induction L with
  | nil => rfl
  | cons x L ih =>
    unfold cut at ih ⊢
    by_cases hx : x ∈ A
    · rw [List.dropWhile_cons_of_pos (by simpa using hx), List.dropWhile_cons_of_pos (by simpa using h x hx)]
      exact ih
    · rw [List.dropWhile_cons_of_neg (by simpa using hx)]

theorem cut_cons_not {R L : List Nat} {x : Nat} (h : x ∉ R) : cut R (x :: L) = x :: L :=
  List.dropWhile_cons_of_neg (by simpa using h)

theorem cut_cons {R L : List Nat} {x : Nat} (h : x ∈ R) : cut R (x :: L) = cut R L :=
  List.dropWhile_cons_of_pos (by simpa using h)

theorem rollbackToPoint_shape (q : Nat) (c : List Nat) (x : Nat) (L : List Nat) (p : Nat) :
    rollbackToPoint (shape q c (x :: L)) p = if x = p then shape q c L else shape q c (x :: L) := by
  simp only [rollbackToPoint, shape, savesOf]
  split <;> simp

theorem fold_rollback {R L : List Nat} (hR : Desc R) (hL : Desc L) (q : Nat) (c : List Nat) :
    R.foldl rollbackToPoint (shape q c L) = shape q c (cut R L) := by
  induction R generalizing L with
  | nil =>
    have : cut [] L = L := by cases L <;> simp [cut]
    rw [this]; rfl
  | cons p R ih =>
    replace hR := List.pairwise_cons.mp hR
    cases L with
    | nil =>
      have : rollbackToPoint (shape q c []) p = shape q c [] := rfl
      rw [List.foldl_cons, this, ih hR.2 hL]; rfl
    | cons x L =>
      rw [List.foldl_cons, rollbackToPoint_shape]
      have hL' := List.pairwise_cons.mp hL
      have key : ∀ M : List Nat, (∀ y ∈ M, y < p) → cut (p :: R) M = cut R M := by
        intro M hM
        unfold cut
        induction M with
        | nil => rfl
        | cons y M ih =>
          have hy : y ≠ p := Nat.ne_of_lt (hM y List.mem_cons_self)
          have hiff : decide (y ∈ p :: R) = decide (y ∈ R) := by simp [hy]
          rw [List.dropWhile_cons, List.dropWhile_cons, hiff, ih fun z hz => hM z (List.mem_cons_of_mem _ hz)]
      by_cases hxp : x = p
      · subst hxp
        rw [if_pos rfl, ih hR.2 hL'.2, cut_cons List.mem_cons_self, key L fun y hy => hL'.1 y hy]
      · rw [if_neg hxp, ih hR.2 hL]
        rcases Nat.lt_or_gt_of_ne hxp with hlt | hgt
        · rw [key]
          intro y hy
          rcases List.mem_cons.mp hy with rfl | hy
          · exact hlt
          · exact Nat.lt_trans (hL'.1 y hy) hlt
        · rw [cut_cons_not, cut_cons_not]
          · intro hm
            rcases List.mem_cons.mp hm with h | h
            · exact hxp h
            · have := hR.1 x h; omega
          · intro hm
            have := hR.1 x hm; omega

/-- The state between the save point and the end of the execution. -/
theorem setSavePoint_shape {q n : Nat} {c L : List Nat} (hq : q < n) (hL : ∀ x ∈ L, x ≤ q) :
    setSavePoint (setSeq (shape q c L) n) = ⟨n, (n, L.length) :: savesOf L, ins n c, L⟩ := by
  have h1 : setSeq (shape q c L) n = shape n c L := by simp [setSeq, shape, Nat.not_lt.mpr (Nat.le_of_lt hq)]
  rw [h1]
  cases L with
  | nil => rfl
  | cons x L =>
    have := hL x List.mem_cons_self
    have hx : x < n := by omega
    simp [setSavePoint, shape, savesOf, hx]

theorem execStmt_ok {q n : Nat} {c L R : List Nat} {env : Env} (hR : Desc R) (hL : Desc L) (hq : q < n) (hLq : ∀ x ∈ L, x ≤ q)
    (hn : n ∉ R) (he : env n = none) : execStmt (shape q c L) n R env = (shape n (ins n c) (n :: cut R L), true) := by
  unfold execStmt
  rw [fold_rollback hR hL]
  simp only [hn, if_false]
  rw [setSavePoint_shape hq fun x hx => hLq x (cut_mem hx), he]
  rfl

theorem execStmt_fail {q n k : Nat} {c L R : List Nat} {env : Env} (hR : Desc R) (hL : Desc L) (hq : q < n) (hLq : ∀ x ∈ L, x ≤ q)
    (hn : n ∉ R) (he : env n = some k) :
    execStmt (shape q c L) n R env =
      (⟨n, (n, (cut R L).length) :: savesOf (cut R L), ins n c, List.replicate k n ++ cut R L⟩, false) := by
  unfold execStmt
  rw [fold_rollback hR hL]
  simp only [hn, if_false]
  rw [setSavePoint_shape hq fun x hx => hLq x (cut_mem hx), he]

theorem ins_single {q n : Nat} (h : q < n) : ins n [q] = [q, n] := by
  simp [ins, Nat.not_lt.mpr (Nat.le_of_lt h), Nat.ne_of_gt h]

/-- A failed statement leaves nothing behind. -/
theorem rollbackCurrent_one {q n : Nat} {L G : List Nat} (h : q < n) :
    rollbackCurrent ⟨n, (n, L.length) :: savesOf L, [q, n], G ++ L⟩ = settled q L := by
  have hne : q ≠ n := Nat.ne_of_lt h
  simp [rollbackCurrent, rollbackLoop, hne, rollbackToPoint, settled, shape]

theorem rollbackCurrent_settled (q : Nat) (L : List Nat) : rollbackCurrent (settled q L) = settled q L := by
  simp [rollbackCurrent, settled, shape]

/-! ## The replicas' reactions -/

theorem applyReq_stmt {q : Nat} {L : List Nat} {rq : Req} (hp : rq.prep = false) (hc : rq.cached = []) (hR : Desc rq.drop)
    (hL : Desc L) (hq : q < rq.seq) (hLq : ∀ x ∈ L, x ≤ q) (hn : rq.seq ∉ rq.drop) :
    applyReq (settled q L) rq = settled rq.seq (rq.seq :: cut rq.drop L) := by
  unfold applyReq
  have h1 : (if (settled q L).seq < rq.seq - 1 then
      (execCached (settled q L).seq rq.drop (fun _ => none) rq.cached (settled q L)).1 else settled q L) = settled q L := by
    rw [hc]; simp [execCached]
  simp only [h1, hp]
  rw [if_pos (by exact hq)]
  simp only [Bool.false_eq_true, if_false]
  unfold settled
  rw [execStmt_ok hR hL hq hLq hn rfl]
  rfl

theorem leaderExec_stmt {q : Nat} {L : List Nat} {rq : Req} {env : Env} (hp : rq.prep = false) (hc : rq.cached = [])
    (hR : Desc rq.drop) (hL : Desc L) (hq : q < rq.seq) (hLq : ∀ x ∈ L, x ≤ q) (hn : rq.seq ∉ rq.drop) :
    leaderExec (settled q L) rq env = (shape rq.seq [q, rq.seq] (rq.seq :: cut rq.drop L), some true) ∨
    leaderExec (settled q L) rq env = (settled q (cut rq.drop L), some false) := by
  unfold leaderExec
  have h1 : (if (settled q L).seq < rq.seq - 1 then
      execCached (settled q L).seq rq.drop env rq.cached (settled q L) else (settled q L, true)) = (settled q L, true) := by
    rw [hc]; simp [execCached]
  rw [if_neg (by exact Nat.not_le.mpr hq)]
  simp only [h1, hp, Bool.not_true, Bool.false_eq_true, if_false]
  cases he : env rq.seq with
  | none =>
    left
    have := execStmt_ok (c := [q]) hR hL hq hLq hn he
    rw [ins_single hq] at this
    unfold settled
    rw [this]
  | some k =>
    right
    have := execStmt_fail (c := [q]) hR hL hq hLq hn he
    rw [ins_single hq] at this
    rw [show settled q L = shape q [q] L from rfl, this]
    simp only [rollbackCurrent_one hq]

theorem execPrepare_shape {q p : Nat} {c L R : List Nat} (hR : Desc R) (hL : Desc L) (hq : q < p) :
    execPrepare (shape q c L) p R = shape p c (cut R L) := by
  unfold execPrepare
  rw [fold_rollback hR hL]
  simp [setSeq, shape, Nat.not_lt.mpr (Nat.le_of_lt hq)]

theorem applyReq_prep {q : Nat} {L : List Nat} {rq : Req} (hp : rq.prep = true) (hc : rq.cached = []) (hR : Desc rq.drop)
    (hL : Desc L) (hq : q < rq.seq) : applyReq (settled q L) rq = settled rq.seq (cut rq.drop L) := by
  unfold applyReq
  have h1 : (if (settled q L).seq < rq.seq - 1 then
      (execCached (settled q L).seq rq.drop (fun _ => none) rq.cached (settled q L)).1 else settled q L) = settled q L := by
    rw [hc]; simp [execCached]
  simp only [h1, hp, if_true]
  rw [if_pos (by exact hq)]
  unfold settled
  rw [execPrepare_shape hR hL hq]
  rfl

theorem leaderExec_prep {q : Nat} {L : List Nat} {rq : Req} {env : Env} (hp : rq.prep = true) (hc : rq.cached = [])
    (hq : q < rq.seq) : leaderExec (settled q L) rq env = (settled q L, some true) := by
  unfold leaderExec
  have h1 : (if (settled q L).seq < rq.seq - 1 then
      execCached (settled q L).seq rq.drop env rq.cached (settled q L) else (settled q L, true)) = (settled q L, true) := by
    rw [hc]; simp [execCached]
  rw [if_neg (by exact Nat.not_le.mpr hq)]
  simp only [h1, hp, Bool.not_true, Bool.false_eq_true, if_false, if_true]

theorem applyReq_cached {q c : Nat} {L : List Nat} {rq : Req} (hp : rq.prep = true) (hc : rq.cached = [c])
    (hs : rq.seq = c + 1) (hR : Desc rq.drop) (hL : Desc L) (hq : q < c) (hLq : ∀ x ∈ L, x ≤ q) (hn : c ∉ rq.drop) :
    applyReq (settled q L) rq = settled rq.seq (c :: cut rq.drop L) := by
  unfold applyReq
  have h1 : (if (settled q L).seq < rq.seq - 1 then
      (execCached (settled q L).seq rq.drop (fun _ => none) rq.cached (settled q L)).1 else settled q L) =
      shape c [q, c] (c :: cut rq.drop L) := by
    rw [hc, hs, if_pos (by show q < c + 1 - 1; omega)]
    have := execStmt_ok (c := [q]) (env := fun _ => none) hR hL hq hLq hn rfl
    rw [ins_single hq] at this
    simp only [execCached]
    rw [if_neg (by exact Nat.not_le.mpr hq), show settled q L = shape q [q] L from rfl, this]
  have hd : Desc (c :: cut rq.drop L) :=
    List.pairwise_cons.mpr ⟨fun y hy => by have := hLq y (cut_mem hy); omega, cut_desc hL⟩
  simp only [h1, hp, if_true]
  rw [if_pos (by show q < rq.seq; omega), execPrepare_shape hR hd (by omega), cut_cons_not hn]
  rfl

theorem applyReq_cached_mid {q c : Nat} {L : List Nat} {rq : Req} (hp : rq.prep = true)
    (hs : rq.seq = c + 1) (hR : Desc rq.drop) (hd : Desc (c :: L)) (hn : c ∉ rq.drop) :
    applyReq (shape c [q, c] (c :: L)) rq = settled rq.seq (c :: L) := by
  unfold applyReq
  have hsq : (shape c [q, c] (c :: L)).seq = c := rfl
  have g1 : ¬ (shape c [q, c] (c :: L)).seq < rq.seq - 1 := by rw [hsq]; omega
  have g2 : (shape c [q, c] (c :: L)).seq < rq.seq := by rw [hsq]; omega
  simp only [hp, if_true, g1, g2, if_false]
  rw [execPrepare_shape hR hd (by omega), cut_cons_not hn]
  rfl

theorem leaderExec_cached {q c : Nat} {L : List Nat} {rq : Req} {env : Env} (hp : rq.prep = true) (hc : rq.cached = [c])
    (hs : rq.seq = c + 1) (hR : Desc rq.drop) (hL : Desc L) (hq : q < c) (hLq : ∀ x ∈ L, x ≤ q) (hn : c ∉ rq.drop) :
    leaderExec (settled q L) rq env = (shape c [q, c] (c :: cut rq.drop L), some true) ∨
    leaderExec (settled q L) rq env = (settled q (cut rq.drop L), some false) := by
  unfold leaderExec
  have hsq : (settled q L).seq = q := rfl
  have g1 : ¬ rq.seq ≤ (settled q L).seq := by rw [hsq]; omega
  have g2 : (settled q L).seq < rq.seq - 1 := by rw [hsq]; omega
  have g3 : ¬ c ≤ q := by omega
  simp only [g1, g2, if_false, if_true, hc, hp]
  cases he : env c with
  | none =>
    left
    have := execStmt_ok (c := [q]) hR hL hq hLq hn he
    rw [ins_single hq] at this
    have h2 : execCached (settled q L).seq rq.drop env [c] (settled q L) = (shape c [q, c] (c :: cut rq.drop L), true) := by
      simp only [execCached, hsq, g3, if_false]
      rw [show settled q L = shape q [q] L from rfl, this]
    simp [h2]
  | some k =>
    right
    have := execStmt_fail (c := [q]) hR hL hq hLq hn he
    rw [ins_single hq] at this
    have h2 : execCached (settled q L).seq rq.drop env [c] (settled q L) =
        (⟨c, (c, (cut rq.drop L).length) :: savesOf (cut rq.drop L), [q, c], List.replicate k c ++ cut rq.drop L⟩, false) := by
      simp only [execCached, hsq, g3, if_false]
      rw [show settled q L = shape q [q] L from rfl, this]
    simp [h2, rollbackCurrent_one hq]

theorem rollbackCurrent_shape {q n : Nat} {L : List Nat} (h : q < n) :
    rollbackCurrent (shape n [q, n] (n :: L)) = settled q L :=
  rollbackCurrent_one (G := [n]) h

theorem applyReq_stmt_mid {q n : Nat} {L : List Nat} {rq : Req} (hs : rq.seq = n) :
    applyReq (shape n [q, n] L) rq = settled n L := by
  unfold applyReq
  have hsq : (shape n [q, n] L).seq = n := rfl
  simp only [hsq]
  rw [if_neg (by omega), if_neg (by omega)]
  rfl

/-! ## The invariant -/

def MsgOK (s : Sys) (q : Nat) (rq : Req) : Prop :=
  Desc rq.drop ∧ (∀ x ∈ rq.drop, x ∈ s.drop ∧ x < rq.seq) ∧ rq.seq ≤ s.n ∧
  (rq.prep = false → rq.cached = [] ∧ rq.seq ∈ s.dest ∧
    (rq.seq ∈ s.drop ∨ rq.seq ≤ q ∨ (s.wait = true ∧ rq.seq = s.n ∧ rq.drop = s.drop))) ∧
  (rq.prep = true → s.prepared = true ∧ rq.seq = s.n ∧ rq.drop = s.drop ∧
    (rq.cached = [] ∧ (∀ d ∈ s.dest, d ∉ s.drop → d ≤ q) ∨
      ∃ c, rq.cached = [c] ∧ s.n = c + 1 ∧ c ∉ s.drop ∧ q ≠ c ∧ ∃ D, s.dest = c :: D ∧ ∀ d ∈ D, d ∉ s.drop → d ≤ q))

structure Inv (s : Sys) (q : Nat) (L1 L2 : List Nat) : Prop where
  lead : s.lead = settled q L1
  repl : s.repl = settled q L2
  d1 : Desc L1
  d2 : Desc L2
  le1 : ∀ x ∈ L1, x ≤ q
  le2 : ∀ x ∈ L2, x ≤ q
  qn : q ≤ s.n
  dropD : Desc s.drop
  dropM : ∀ x ∈ s.drop, x < s.m
  mn : s.m ≤ s.n + 1
  waitM : s.wait = true → s.m ≤ s.n
  destD : Desc s.dest
  destN : ∀ x ∈ s.dest, x ≤ s.n
  tgt1 : cut s.drop L1 = s.dest.filter fun d => decide (d ∉ s.drop ∧ d ≤ q)
  tgt2 : cut s.drop L2 = s.dest.filter fun d => decide (d ∉ s.drop ∧ d ≤ q)
  done : ∀ d ∈ s.dest, d ∉ s.drop → d ≤ q ∨ (s.wait = true ∧ d = s.n) ∨ (s.prepared = true ∧ d + 1 = s.n)
  acks : ∀ a ∈ s.acks, a ≤ q
  prepM : s.prepared = true → s.m ≤ s.n ∧ s.wait = false ∧ (∀ d ∈ s.dest, d < s.n)
  prepQ : s.prepared = true → q = s.n → cut s.drop L1 = L1 ∧ cut s.drop L2 = L2
  msgs : ∀ rq ∈ s.msgs, MsgOK s q rq

theorem filter_congr' {L : List Nat} {p r : Nat → Bool} (h : ∀ x ∈ L, p x = r x) : L.filter p = L.filter r :=
  List.filter_congr h

theorem Inv.initial : Inv Sys.init 1 [] [] := by
  constructor <;> simp [Sys.init, settled, shape, savesOf, T.begin, cut]

theorem range_mem {m n x : Nat} : x ∈ range m n ↔ m ≤ x ∧ x ≤ n := by
  simp only [range, List.mem_reverse, List.mem_map, List.mem_range]
  constructor
  · rintro ⟨a, h1, rfl⟩; omega
  · intro h; exact ⟨x - m, by omega, by omega⟩

theorem range_desc (m n : Nat) : Desc (range m n) := by
  unfold range Desc
  rw [List.pairwise_reverse, List.pairwise_map]
  exact List.pairwise_lt_range.imp fun h => by omega

/-- What giving up the numbers from `m` on does to the target. -/
theorem cut_range {R L : List Nat} {m n : Nat} (hL : Desc L) (hn : ∀ x ∈ L, x ≤ n) (K : List Nat) (hK : cut R L = K)
    (hKR : ∀ x ∈ K, x ∉ R) : cut (range m n ++ R) L = K.filter fun x => decide (x < m) := by
  rw [← cut_cut (A := R) (B := range m n ++ R) (fun x hx => List.mem_append_right _ hx), hK]
  have hKd : Desc K := hK ▸ cut_desc hL
  have hKn : ∀ x ∈ K, x ≤ n := fun x hx => hn x (cut_mem (hK ▸ hx))
  clear hK
  induction K with
  | nil => rfl
  | cons x K ih =>
    have hx := hKn x List.mem_cons_self
    have hxR := hKR x List.mem_cons_self
    have hd := List.pairwise_cons.mp hKd
    by_cases hm : m ≤ x
    · rw [cut_cons (List.mem_append_left _ (range_mem.mpr ⟨hm, hx⟩)), List.filter_cons_of_neg (by simpa using hm)]
      exact ih (fun y hy => hKR y (List.mem_cons_of_mem _ hy)) hd.2 (fun y hy => hKn y (List.mem_cons_of_mem _ hy))
    · rw [cut_cons_not, List.filter_cons_of_pos (by simpa using hm), List.filter_eq_self.mpr]
      · intro y hy; have := hd.1 y hy; simp; omega
      · intro h
        rcases List.mem_append.mp h with h | h
        · exact hm (range_mem.mp h).1
        · exact hxR h

theorem Inv.notR1 {s : Sys} {q : Nat} {L1 L2 : List Nat} (h : Inv s q L1 L2) : ∀ x ∈ cut s.drop L1, x ∉ s.drop := by
  intro x hx; rw [h.tgt1] at hx; simp only [List.mem_filter, decide_eq_true_eq] at hx; exact hx.2.1

theorem Inv.notR2 {s : Sys} {q : Nat} {L1 L2 : List Nat} (h : Inv s q L1 L2) : ∀ x ∈ cut s.drop L2, x ∉ s.drop := by
  intro x hx; rw [h.tgt2] at hx; simp only [List.mem_filter, decide_eq_true_eq] at hx; exact hx.2.1

theorem Inv.issue {s s' : Sys} {q : Nat} {L1 L2 : List Nat} (h : Inv s q L1 L2) (hs : step s .issue = some s') :
    Inv s' q L1 L2 := by
  simp only [BaikalDB.Stmt.step] at hs
  split at hs
  · rename_i hc
    injection hs with hs; subst hs
    have hnd : s.n + 1 ∉ s.drop := fun hm => by have := h.dropM _ hm; have := h.mn; omega
    have hqn := h.qn
    have htgt : (List.filter (fun d => decide (d ∉ s.drop ∧ d ≤ q)) ((s.n + 1) :: s.dest)) =
        s.dest.filter fun d => decide (d ∉ s.drop ∧ d ≤ q) := by
      rw [List.filter_cons_of_neg]; simp; intro _; omega
    refine ⟨h.lead, h.repl, h.d1, h.d2, h.le1, h.le2, by show q ≤ s.n + 1; omega, h.dropD, h.dropM,
      by show s.m ≤ s.n + 1 + 1; have := h.mn; omega, fun _ => h.mn, ?_, ?_, ?_, ?_, ?_, h.acks, ?_, ?_, ?_⟩
    · exact List.pairwise_cons.mpr ⟨fun y hy => by have := h.destN y hy; omega, h.destD⟩
    · intro x hx
      rcases List.mem_cons.mp hx with rfl | hx
      · exact Nat.le_refl _
      · have := h.destN x hx; show x ≤ s.n + 1; omega
    · rw [htgt]; exact h.tgt1
    · rw [htgt]; exact h.tgt2
    · intro d hd hdr
      rcases List.mem_cons.mp hd with rfl | hd
      · right; left; exact ⟨rfl, rfl⟩
      · rcases h.done d hd hdr with h1 | h1 | h1
        · left; exact h1
        · rw [hc.1] at h1; simp at h1
        · rw [hc.2] at h1; simp at h1
    · intro hp; rw [show ({ s with n := s.n + 1, wait := true, dest := (s.n + 1) :: s.dest, msgs := ⟨s.n + 1, false, [], s.drop⟩ :: s.msgs } : Sys).prepared = s.prepared from rfl, hc.2] at hp; simp at hp
    · intro hp; rw [show ({ s with n := s.n + 1, wait := true, dest := (s.n + 1) :: s.dest, msgs := ⟨s.n + 1, false, [], s.drop⟩ :: s.msgs } : Sys).prepared = s.prepared from rfl, hc.2] at hp; simp at hp
    · intro rq hrq
      rcases List.mem_cons.mp hrq with rfl | hrq
      · refine ⟨h.dropD, fun x hx => ⟨hx, ?_⟩, Nat.le_refl _, fun _ => ⟨rfl, List.mem_cons_self, Or.inr (Or.inr ⟨rfl, rfl, rfl⟩)⟩, by simp⟩
        have := h.dropM x hx; have := h.mn; show x < s.n + 1; omega
      · obtain ⟨h1, h2, h3, h4, h5⟩ := h.msgs rq hrq
        refine ⟨h1, h2, by show rq.seq ≤ s.n + 1; omega, fun hp => ?_, fun hp => ?_⟩
        · obtain ⟨a, b, c⟩ := h4 hp
          refine ⟨a, List.mem_cons_of_mem _ b, ?_⟩
          rcases c with c | c | c
          · exact Or.inl c
          · exact Or.inr (Or.inl c)
          · rw [hc.1] at c; simp at c
        · have := (h5 hp).1; rw [hc.2] at this; simp at this
  · simp at hs

theorem Inv.elsewhere {s s' : Sys} {q : Nat} {L1 L2 : List Nat} (h : Inv s q L1 L2) (hs : step s .elsewhere = some s') :
    Inv s' q L1 L2 := by
  simp only [BaikalDB.Stmt.step] at hs
  split at hs
  · rename_i hc
    injection hs with hs; subst hs
    have hqn := h.qn
    refine ⟨h.lead, h.repl, h.d1, h.d2, h.le1, h.le2, by show q ≤ s.n + 1; omega, h.dropD, h.dropM,
      by show s.m ≤ s.n + 1 + 1; have := h.mn; omega, fun _ => h.mn, h.destD, ?_, h.tgt1, h.tgt2, ?_, h.acks, ?_, ?_, ?_⟩
    · intro x hx; have := h.destN x hx; show x ≤ s.n + 1; omega
    · intro d hd hdr
      rcases h.done d hd hdr with h1 | h1 | h1
      · left; exact h1
      · rw [hc.1] at h1; simp at h1
      · rw [hc.2] at h1; simp at h1
    · intro hp
      have hp : s.prepared = true := hp
      rw [hc.2] at hp; simp at hp
    · intro hp
      have hp : s.prepared = true := hp
      rw [hc.2] at hp; simp at hp
    · intro rq hrq
      obtain ⟨h1, h2, h3, h4, h5⟩ := h.msgs rq hrq
      refine ⟨h1, h2, by show rq.seq ≤ s.n + 1; omega, fun hp => ?_, fun hp => ?_⟩
      · obtain ⟨a, b, c⟩ := h4 hp
        refine ⟨a, b, ?_⟩
        rcases c with c | c | c
        · exact Or.inl c
        · exact Or.inr (Or.inl c)
        · rw [hc.1] at c; simp at c
      · have := (h5 hp).1; rw [hc.2] at this; simp at this
  · simp at hs

theorem Inv.finish {s s' : Sys} {q : Nat} {L1 L2 : List Nat} (h : Inv s q L1 L2) (hs : step s .finish = some s') :
    Inv s' q L1 L2 := by
  simp only [BaikalDB.Stmt.step] at hs
  split at hs
  · rename_i hc
    injection hs with hs; subst hs
    have hnq := h.acks _ hc.2
    refine ⟨h.lead, h.repl, h.d1, h.d2, h.le1, h.le2, h.qn, h.dropD, h.dropM, h.mn, by simp, h.destD, h.destN, h.tgt1, h.tgt2, ?_, h.acks, ?_, h.prepQ, ?_⟩
    · intro d hd hdr
      rcases h.done d hd hdr with h1 | h1 | h1
      · left; exact h1
      · left; rw [h1.2]; exact hnq
      · right; right; exact h1
    · intro hp
      exact ⟨(h.prepM hp).1, rfl, (h.prepM hp).2.2⟩
    · intro rq hrq
      obtain ⟨h1, h2, h3, h4, h5⟩ := h.msgs rq hrq
      refine ⟨h1, h2, h3, fun hp => ?_, h5⟩
      obtain ⟨a, b, c⟩ := h4 hp
      refine ⟨a, b, ?_⟩
      rcases c with c | c | c
      · exact Or.inl c
      · exact Or.inr (Or.inl c)
      · exact Or.inr (Or.inl (by rw [c.2.1]; exact hnq))
  · simp at hs

theorem Inv.sqlEnd {s s' : Sys} {q : Nat} {L1 L2 : List Nat} (h : Inv s q L1 L2) (hs : step s .sqlEnd = some s') :
    Inv s' q L1 L2 := by
  simp only [BaikalDB.Stmt.step] at hs
  split at hs
  · rename_i hc
    injection hs with hs; subst hs
    refine ⟨h.lead, h.repl, h.d1, h.d2, h.le1, h.le2, h.qn, h.dropD, ?_, Nat.le_refl _, ?_, h.destD, h.destN, h.tgt1, h.tgt2, h.done, h.acks, ?_, h.prepQ, h.msgs⟩
    · intro x hx; have := h.dropM x hx; have := h.mn; show x < s.n + 1; omega
    · intro hw
      have hw : s.wait = true := hw
      rw [hc.1] at hw; simp at hw
    · intro hp
      have hp : s.prepared = true := hp
      rw [hc.2] at hp; simp at hp
  · simp at hs

theorem Inv.cancel {s s' : Sys} {q : Nat} {L1 L2 : List Nat} (h : Inv s q L1 L2) (hs : step s .cancel = some s') :
    Inv s' q L1 L2 := by
  simp only [BaikalDB.Stmt.step] at hs
  split at hs
  · rename_i hc
    injection hs with hs; subst hs
    have hnotin : ∀ d, d ∉ range s.m s.n ++ s.drop ↔ (d ∉ s.drop ∧ ¬ (s.m ≤ d ∧ d ≤ s.n)) := by
      intro d; simp only [List.mem_append, range_mem, not_or]; tauto
    have key : ∀ L, Desc L → (∀ x ∈ L, x ≤ q) → cut s.drop L = (s.dest.filter fun d => decide (d ∉ s.drop ∧ d ≤ q)) →
        cut (range s.m s.n ++ s.drop) L = s.dest.filter fun d => decide (d ∉ range s.m s.n ++ s.drop ∧ d ≤ q) := by
      intro L hL hLq hcut
      rw [cut_range hL (fun x hx => Nat.le_trans (hLq x hx) h.qn) _ hcut, List.filter_filter]
      · refine List.filter_congr fun d hd => ?_
        have hn := h.destN d hd
        have : (d ∉ range s.m s.n ++ s.drop) ↔ (d ∉ s.drop ∧ d < s.m) := by rw [hnotin]; constructor <;> (intro h; refine ⟨h.1, ?_⟩; omega)
        simp only [this, ← Bool.decide_and]
        congr 1
        apply propext; constructor
        · rintro ⟨a, b, c⟩; exact ⟨⟨b, a⟩, c⟩
        · rintro ⟨⟨a, b⟩, c⟩; exact ⟨b, a, c⟩
      · intro x hx
        simp only [List.mem_filter, decide_eq_true_eq] at hx; exact hx.2.1
    refine ⟨h.lead, h.repl, h.d1, h.d2, h.le1, h.le2, h.qn, ?_, ?_, Nat.le_refl _, by simp, h.destD, h.destN,
      key L1 h.d1 h.le1 h.tgt1, key L2 h.d2 h.le2 h.tgt2, ?_, h.acks, ?_, ?_, ?_⟩
    · refine List.pairwise_append.mpr ⟨range_desc _ _, h.dropD, ?_⟩
      intro a ha b hb
      have := (range_mem.mp ha).1; have := h.dropM b hb; omega
    · intro x hx
      show x < s.n + 1
      rcases List.mem_append.mp hx with hx | hx
      · have := (range_mem.mp hx).2; omega
      · have := h.dropM x hx; have := h.mn; omega
    · intro d hd hdr
      have hdr := (hnotin d).mp hdr
      rcases h.done d hd hdr.1 with h1 | h1 | h1
      · left; exact h1
      · have := h.waitM h1.1; exact absurd ⟨by omega, by omega⟩ hdr.2
      · rw [hc] at h1; simp at h1
    · intro hp
      have hp : s.prepared = true := hp
      rw [hc] at hp; simp at hp
    · intro hp
      have hp : s.prepared = true := hp
      rw [hc] at hp; simp at hp
    · intro rq hrq
      obtain ⟨h1, h2, h3, h4, h5⟩ := h.msgs rq hrq
      refine ⟨h1, fun x hx => ⟨List.mem_append_right _ (h2 x hx).1, (h2 x hx).2⟩, h3, fun hp => ?_, fun hp => ?_⟩
      · obtain ⟨a, b, c⟩ := h4 hp
        refine ⟨a, b, ?_⟩
        rcases c with c | c | c
        · exact Or.inl (List.mem_append_right _ c)
        · exact Or.inr (Or.inl c)
        · left
          have := h.waitM c.1
          exact List.mem_append_left _ (range_mem.mpr ⟨by omega, by omega⟩)
      · have := (h5 hp).1; rw [hc] at this; simp at this
  · simp at hs

theorem Inv.prepare {s s' : Sys} {q : Nat} {L1 L2 : List Nat} (h : Inv s q L1 L2) (hs : step s .prepare = some s') :
    Inv s' q L1 L2 := by
  simp only [BaikalDB.Stmt.step] at hs
  split at hs
  · rename_i hc
    injection hs with hs; subst hs
    have hqn := h.qn
    have hdone : ∀ d ∈ s.dest, d ∉ s.drop → d ≤ q := by
      intro d hd hdr
      rcases h.done d hd hdr with h1 | h1 | h1
      · exact h1
      · rw [hc.1] at h1; simp at h1
      · rw [hc.2] at h1; simp at h1
    refine ⟨h.lead, h.repl, h.d1, h.d2, h.le1, h.le2, by show q ≤ s.n + 1; omega, h.dropD, h.dropM,
      by show s.m ≤ s.n + 1 + 1; have := h.mn; omega, fun _ => h.mn, h.destD, ?_, h.tgt1, h.tgt2, fun d hd hdr => Or.inl (hdone d hd hdr), h.acks, ?_, ?_, ?_⟩
    · intro x hx; have := h.destN x hx; show x ≤ s.n + 1; omega
    · intro _
      exact ⟨h.mn, hc.1, fun d hd => Nat.lt_succ_of_le (h.destN d hd)⟩
    · intro _ hq
      have hq : q = s.n + 1 := hq
      omega
    · intro rq hrq
      rcases List.mem_cons.mp hrq with rfl | hrq
      · refine ⟨h.dropD, fun x hx => ⟨hx, ?_⟩, Nat.le_refl _, by simp, fun _ => ⟨rfl, rfl, rfl, Or.inl ⟨rfl, hdone⟩⟩⟩
        have := h.dropM x hx; have := h.mn; show x < s.n + 1; omega
      · obtain ⟨h1, h2, h3, h4, h5⟩ := h.msgs rq hrq
        refine ⟨h1, h2, by show rq.seq ≤ s.n + 1; omega, fun hp => ?_, fun hp => ?_⟩
        · obtain ⟨a, b, c⟩ := h4 hp
          refine ⟨a, b, ?_⟩
          rcases c with c | c | c
          · exact Or.inl c
          · exact Or.inr (Or.inl c)
          · rw [hc.1] at c; simp at c
        · have := (h5 hp).1; rw [hc.2] at this; simp at this
  · simp at hs

theorem Inv.prepareCached {s s' : Sys} {q : Nat} {L1 L2 : List Nat} (h : Inv s q L1 L2) (hs : step s .prepareCached = some s') :
    Inv s' q L1 L2 := by
  simp only [BaikalDB.Stmt.step] at hs
  split at hs
  · rename_i hc
    injection hs with hs; subst hs
    have hqn := h.qn
    have hnd : s.n + 1 ∉ s.drop := fun hm => by have := h.dropM _ hm; have := h.mn; omega
    have hdone : ∀ d ∈ s.dest, d ∉ s.drop → d ≤ q := by
      intro d hd hdr
      rcases h.done d hd hdr with h1 | h1 | h1
      · exact h1
      · rw [hc.1] at h1; simp at h1
      · rw [hc.2] at h1; simp at h1
    have htgt : (List.filter (fun d => decide (d ∉ s.drop ∧ d ≤ q)) ((s.n + 1) :: s.dest)) =
        s.dest.filter fun d => decide (d ∉ s.drop ∧ d ≤ q) := by
      rw [List.filter_cons_of_neg]; simp; intro _; omega
    refine ⟨h.lead, h.repl, h.d1, h.d2, h.le1, h.le2, by show q ≤ s.n + 2; omega, h.dropD, h.dropM,
      by show s.m ≤ s.n + 2 + 1; have := h.mn; omega, fun _ => by show s.m ≤ s.n + 2; have := h.mn; omega, ?_, ?_, ?_, ?_, ?_, h.acks, ?_, ?_, ?_⟩
    · exact List.pairwise_cons.mpr ⟨fun y hy => by have := h.destN y hy; omega, h.destD⟩
    · intro x hx
      show x ≤ s.n + 2
      rcases List.mem_cons.mp hx with rfl | hx
      · omega
      · have := h.destN x hx; omega
    · rw [htgt]; exact h.tgt1
    · rw [htgt]; exact h.tgt2
    · intro d hd hdr
      rcases List.mem_cons.mp hd with rfl | hd
      · right; right; exact ⟨rfl, rfl⟩
      · left; exact hdone d hd hdr
    · intro _
      refine ⟨by show s.m ≤ s.n + 2; have := h.mn; omega, hc.1, fun d hd => ?_⟩
      show d < s.n + 2
      rcases List.mem_cons.mp hd with rfl | hd
      · omega
      · have := h.destN d hd; omega
    · intro _ hq
      have hq : q = s.n + 2 := hq
      omega
    · intro rq hrq
      rcases List.mem_cons.mp hrq with rfl | hrq
      · refine ⟨h.dropD, fun x hx => ⟨hx, ?_⟩, Nat.le_refl _, by simp, fun _ => ⟨rfl, rfl, rfl, Or.inr ⟨s.n + 1, rfl, rfl, hnd, by omega, s.dest, rfl, hdone⟩⟩⟩
        have := h.dropM x hx; have := h.mn; show x < s.n + 2; omega
      · obtain ⟨h1, h2, h3, h4, h5⟩ := h.msgs rq hrq
        refine ⟨h1, h2, by show rq.seq ≤ s.n + 2; omega, fun hp => ?_, fun hp => ?_⟩
        · obtain ⟨a, b, c⟩ := h4 hp
          refine ⟨a, List.mem_cons_of_mem _ b, ?_⟩
          rcases c with c | c | c
          · exact Or.inl c
          · exact Or.inr (Or.inl c)
          · rw [hc.1] at c; simp at c
        · have := (h5 hp).1; rw [hc.2] at this; simp at this
  · simp at hs

/-- Giving up writes of given-up statements early changes nothing that matters. -/
theorem Inv.cutLead {s : Sys} {q : Nat} {L1 L2 : List Nat} (h : Inv s q L1 L2) {R : List Nat} (hR : ∀ x ∈ R, x ∈ s.drop) :
    Inv { s with lead := settled q (cut R L1) } q (cut R L1) L2 := by
  refine ⟨rfl, h.repl, cut_desc h.d1, h.d2, fun x hx => h.le1 x (cut_mem hx), h.le2, h.qn, h.dropD, h.dropM, h.mn, h.waitM,
    h.destD, h.destN, ?_, h.tgt2, h.done, h.acks, h.prepM, ?_, h.msgs⟩
  · show cut s.drop (cut R L1) = _
    rw [cut_cut hR]; exact h.tgt1
  · intro hp hq
    have := h.prepQ hp hq
    refine ⟨?_, this.2⟩
    show cut s.drop (cut R L1) = cut R L1
    have h1 : cut R L1 = L1 := by
      cases hL : L1 with
      | nil => rfl
      | cons x L =>
        refine cut_cons_not fun hx => ?_
        have hnr := h.notR1 x
        rw [this.1] at hnr
        exact hnr (by rw [hL]; exact List.mem_cons_self) (hR x hx)
    rw [h1]; exact this.1

/-- A statement's writes enter the write batch. -/
theorem Inv.stmt {s : Sys} {q : Nat} {L1 L2 : List Nat} (h : Inv s q L1 L2) {rq : Req} (hm : MsgOK s q rq)
    (hp : rq.prep = false) (hq : q < rq.seq) (acks : List Nat) (ha : ∀ a ∈ acks, a ≤ rq.seq) :
    Inv { s with lead := settled rq.seq (rq.seq :: cut rq.drop L1), repl := settled rq.seq (rq.seq :: cut rq.drop L2), acks := acks }
      rq.seq (rq.seq :: cut rq.drop L1) (rq.seq :: cut rq.drop L2) := by
  obtain ⟨h1, h2, h3, h4, h5⟩ := hm
  obtain ⟨hc, hdest, hcase⟩ := h4 hp
  have hsub : ∀ x ∈ rq.drop, x ∈ s.drop := fun x hx => (h2 x hx).1
  have hdesc : ∀ L, Desc L → (∀ x ∈ L, x ≤ q) → Desc (rq.seq :: cut rq.drop L) := fun L hL hLq =>
    List.pairwise_cons.mpr ⟨fun y hy => by have := hLq y (cut_mem hy); omega, cut_desc hL⟩
  have hle : ∀ L : List Nat, (∀ x ∈ L, x ≤ q) → ∀ x ∈ rq.seq :: cut rq.drop L, x ≤ rq.seq := by
    intro L hLq x hx
    rcases List.mem_cons.mp hx with rfl | hx
    · exact Nat.le_refl _
    · have := hLq x (cut_mem hx); omega
  have hprepN : s.prepared = true → rq.seq ≠ s.n := fun hp he => by
    have := (h.prepM hp).2.2 _ hdest; omega
  have htgt : ∀ L, cut s.drop L = (s.dest.filter fun d => decide (d ∉ s.drop ∧ d ≤ q)) →
      cut s.drop (rq.seq :: cut rq.drop L) = s.dest.filter fun d => decide (d ∉ s.drop ∧ d ≤ rq.seq) := by
    intro L hcut
    rcases hcase with hin | hle | ⟨hw, hn, hdr⟩
    · rw [cut_cons hin, cut_cut hsub, hcut]
      refine List.filter_congr fun d hd => ?_
      congr 1
      apply propext
      constructor
      · rintro ⟨a, b⟩; exact ⟨a, by omega⟩
      · rintro ⟨a, b⟩
        refine ⟨a, ?_⟩
        rcases h.done d hd a with h6 | ⟨h6, h7⟩ | ⟨h6, h7⟩
        · exact h6
        · have := h.waitM h6; have := h.dropM _ hin; omega
        · have := (h.prepM h6).2.2 _ hdest
          have : rq.seq = d := by omega
          rw [this] at hin; exact absurd hin a
    · omega
    · have hnd : rq.seq ∉ s.drop := fun hx => by have := h.waitM hw; have := h.dropM _ hx; omega
      rw [hdr, cut_cons_not hnd, hcut]
      -- the newest statement sent here is `rq.seq`
      cases hD : s.dest with
      | nil => rw [hD] at hdest; simp at hdest
      | cons d D =>
        have hdD := List.pairwise_cons.mp (hD ▸ h.destD)
        have hd : d = rq.seq := by
          have h6 := h.destN d (by rw [hD]; exact List.mem_cons_self)
          rw [hD] at hdest
          rcases List.mem_cons.mp hdest with h7 | h7
          · exact h7.symm
          · have := hdD.1 _ h7; omega
        rw [hd, List.filter_cons_of_neg (by simp only [decide_eq_true_eq, not_and, Nat.not_le]; intro _; exact hq),
          List.filter_cons_of_pos (by simpa using hnd)]
        congr 1
        refine List.filter_congr fun x hx => ?_
        congr 1
        apply propext
        have hxn := hdD.1 x hx
        constructor
        · rintro ⟨a, b⟩; exact ⟨a, by omega⟩
        · rintro ⟨a, b⟩
          refine ⟨a, ?_⟩
          rcases h.done x (by rw [hD]; exact List.mem_cons_of_mem _ hx) a with h6 | ⟨h6, h7⟩ | ⟨h6, h7⟩
          · exact h6
          · omega
          · have := (h.prepM h6).2.1; rw [hw] at this; simp at this
  refine ⟨rfl, rfl, hdesc _ h.d1 h.le1, hdesc _ h.d2 h.le2, hle _ h.le1, hle _ h.le2, h3, h.dropD, h.dropM, h.mn, h.waitM,
    h.destD, h.destN, htgt L1 h.tgt1, htgt L2 h.tgt2, ?_, ha, h.prepM, fun hp he => absurd he (hprepN hp), ?_⟩
  · intro d hd hdr
    rcases h.done d hd hdr with h6 | h6 | h6
    · left; omega
    · right; left; exact h6
    · right; right; exact h6
  · intro r hr
    obtain ⟨g1, g2, g3, g4, g5⟩ := h.msgs r hr
    refine ⟨g1, g2, g3, fun hp => ?_, fun hp => ?_⟩
    · obtain ⟨a, b, c⟩ := g4 hp
      refine ⟨a, b, ?_⟩
      rcases c with c | c | c
      · exact Or.inl c
      · exact Or.inr (Or.inl (by omega))
      · exact Or.inr (Or.inr c)
    · obtain ⟨a, b, c, d⟩ := g5 hp
      refine ⟨a, b, c, ?_⟩
      rcases d with ⟨d1, d2⟩ | ⟨c', d1, d2, d3, d4, D, d5, d6⟩
      · exact Or.inl ⟨d1, fun x hx hxr => by have := d2 x hx hxr; omega⟩
      · refine Or.inr ⟨c', d1, d2, d3, ?_, D, d5, fun x hx hxr => by have := d6 x hx hxr; omega⟩
        intro he
        rcases hcase with hin | hle | ⟨hw, _⟩
        · rw [he] at hin; exact d3 hin
        · omega
        · have := (h.prepM a).2.1; rw [hw] at this; simp at this

/-- PREPARE settles the write batch. -/
theorem Inv.prep {s : Sys} {q : Nat} {L1 L2 : List Nat} (h : Inv s q L1 L2) {rq : Req} (hm : MsgOK s q rq)
    (hp : rq.prep = true) (hq : q < rq.seq) (acks : List Nat) (ha : ∀ a ∈ acks, a ≤ rq.seq) (K1 K2 : List Nat)
    (hK : (rq.cached = [] ∧ K1 = cut rq.drop L1 ∧ K2 = cut rq.drop L2) ∨
      ∃ c, rq.cached = [c] ∧ K1 = c :: cut rq.drop L1 ∧ K2 = c :: cut rq.drop L2) :
    Inv { s with lead := settled rq.seq K1, repl := settled rq.seq K2, acks := acks } rq.seq K1 K2 := by
  obtain ⟨h1, h2, h3, h4, h5⟩ := hm
  obtain ⟨hprep, hn, hdr, hcase⟩ := h5 hp
  have hall : ∀ L, cut s.drop L = (s.dest.filter fun d => decide (d ∉ s.drop ∧ d ≤ q)) → ∀ K,
      ((rq.cached = [] ∧ K = cut rq.drop L) ∨ ∃ c, rq.cached = [c] ∧ K = c :: cut rq.drop L) →
      cut s.drop K = K ∧ K = s.dest.filter fun d => decide (d ∉ s.drop ∧ d ≤ rq.seq) := by
    intro L hcut K hK
    have hcc : cut s.drop (cut s.drop L) = cut s.drop L := cut_cut fun x hx => hx
    rcases hcase with ⟨hc, hdone⟩ | ⟨c, hc, hcn, hcd, hqc, D, hD, hdone⟩
    · rcases hK with ⟨_, rfl⟩ | ⟨c, hc', _⟩
      · rw [hdr]
        refine ⟨hcc, ?_⟩
        rw [hcut]
        refine List.filter_congr fun d hd => ?_
        congr 1
        apply propext
        constructor
        · rintro ⟨a, b⟩; exact ⟨a, by omega⟩
        · rintro ⟨a, b⟩; exact ⟨a, hdone d hd a⟩
      · rw [hc] at hc'; simp at hc'
    · rcases hK with ⟨hc', _⟩ | ⟨c', hc', rfl⟩
      · rw [hc] at hc'; simp at hc'
      · rw [hc] at hc'; injection hc' with hc'; subst hc'
        rw [hdr]
        refine ⟨cut_cons_not hcd, ?_⟩
        rw [hcut, hD, List.filter_cons_of_neg (by simp only [decide_eq_true_eq, not_and, Nat.not_le]; intro _; omega),
          List.filter_cons_of_pos (by simp only [decide_eq_true_eq]; exact ⟨hcd, by omega⟩)]
        congr 1
        refine List.filter_congr fun d hd => ?_
        congr 1
        apply propext
        constructor
        · rintro ⟨a, b⟩; exact ⟨a, by omega⟩
        · rintro ⟨a, b⟩; exact ⟨a, hdone d hd a⟩
  have hk1 := hall L1 h.tgt1 K1 (hK.imp (fun x => ⟨x.1, x.2.1⟩) fun ⟨c, x⟩ => ⟨c, x.1, x.2.1⟩)
  have hk2 := hall L2 h.tgt2 K2 (hK.imp (fun x => ⟨x.1, x.2.2⟩) fun ⟨c, x⟩ => ⟨c, x.1, x.2.2⟩)
  have hdesc : ∀ K : List Nat, K = (s.dest.filter fun d => decide (d ∉ s.drop ∧ d ≤ rq.seq)) →
      Desc K ∧ ∀ x ∈ K, x ≤ rq.seq := by
    rintro K rfl
    refine ⟨h.destD.sublist List.filter_sublist, fun x hx => ?_⟩
    simp only [List.mem_filter, decide_eq_true_eq] at hx; exact hx.2.2
  refine ⟨rfl, rfl, (hdesc _ hk1.2).1, (hdesc _ hk2.2).1, (hdesc _ hk1.2).2, (hdesc _ hk2.2).2, h3, h.dropD, h.dropM, h.mn,
    h.waitM, h.destD, h.destN, by rw [hk1.1]; exact hk1.2, by rw [hk2.1]; exact hk2.2, ?_, ha, h.prepM,
    fun _ _ => ⟨hk1.1, hk2.1⟩, ?_⟩
  · intro d hd hdr'
    left
    have := h.destN d hd
    show d ≤ rq.seq
    omega
  · intro r hr
    obtain ⟨g1, g2, g3, g4, g5⟩ := h.msgs r hr
    refine ⟨g1, g2, g3, fun hp => ?_, fun hp => ?_⟩
    · obtain ⟨a, b, c⟩ := g4 hp
      exact ⟨a, b, Or.inr (Or.inl (by omega))⟩
    · obtain ⟨a, b, c, d⟩ := g5 hp
      refine ⟨a, b, c, ?_⟩
      have hge : ∀ d ∈ s.dest, d ≤ rq.seq := fun d hd => by have := h.destN d hd; omega
      rcases d with ⟨d1, d2⟩ | ⟨c', d1, d2, d3, d4, D, d5, d6⟩
      · exact Or.inl ⟨d1, fun x hx _ => hge x hx⟩
      · exact Or.inr ⟨c', d1, d2, d3, by omega, D, d5, fun x hx _ => hge x (by rw [d5]; exact List.mem_cons_of_mem _ hx)⟩

theorem Inv.step {s s' : Sys} {q : Nat} {L1 L2 : List Nat} (h : Inv s q L1 L2) {e : Ev} (hs : step s e = some s') :
    ∃ q' M1 M2, Inv s' q' M1 M2 := by
  cases e with
  | issue => exact ⟨_, _, _, h.issue hs⟩
  | elsewhere => exact ⟨_, _, _, h.elsewhere hs⟩
  | finish => exact ⟨_, _, _, h.finish hs⟩
  | sqlEnd => exact ⟨_, _, _, h.sqlEnd hs⟩
  | cancel => exact ⟨_, _, _, h.cancel hs⟩
  | prepare => exact ⟨_, _, _, h.prepare hs⟩
  | prepareCached => exact ⟨_, _, _, h.prepareCached hs⟩
  | leaderChange =>
    simp only [BaikalDB.Stmt.step] at hs
    injection hs with hs; subst hs
    refine ⟨q, L2, L2, h.repl, h.repl, h.d2, h.d2, h.le2, h.le2, h.qn, h.dropD, h.dropM, h.mn, h.waitM, h.destD, h.destN,
      h.tgt2, h.tgt2, h.done, h.acks, h.prepM, fun a b => ⟨(h.prepQ a b).2, (h.prepQ a b).2⟩, h.msgs⟩
  | deliver rq env fate =>
    simp only [BaikalDB.Stmt.step] at hs
    split at hs
    · rename_i hmem
      have hm := h.msgs rq hmem
      have hm' := hm
      obtain ⟨h1, h2, h3, h4, h5⟩ := hm'
      have hsub : ∀ x ∈ rq.drop, x ∈ s.drop := fun x hx => (h2 x hx).1
      by_cases hq : rq.seq ≤ q
      · have : leaderExec s.lead rq env = (s.lead, none) := by
          unfold leaderExec; rw [if_pos (by rw [h.lead]; exact hq)]
        rw [this] at hs
        simp only at hs
        injection hs with hs; subst hs
        refine ⟨q, L1, L2, h.lead, h.repl, h.d1, h.d2, h.le1, h.le2, h.qn, h.dropD, h.dropM, h.mn, h.waitM, h.destD, h.destN,
          h.tgt1, h.tgt2, h.done, ?_, h.prepM, h.prepQ, h.msgs⟩
        intro a ha
        rcases List.mem_cons.mp ha with rfl | ha
        · exact hq
        · exact h.acks a ha
      · have hq : q < rq.seq := Nat.lt_of_not_le hq
        have hacks : ∀ a ∈ rq.seq :: s.acks, a ≤ rq.seq := by
          intro a ha
          rcases List.mem_cons.mp ha with rfl | ha
          · exact Nat.le_refl _
          · have := h.acks a ha; omega
        have hacks' : ∀ a ∈ s.acks, a ≤ rq.seq := fun a ha => hacks a (List.mem_cons_of_mem _ ha)
        have hcutL : ∀ x ∈ cut rq.drop L1, x ≤ q := fun x hx => h.le1 x (cut_mem hx)
        have hcutcut : cut rq.drop (cut rq.drop L1) = cut rq.drop L1 := cut_cut fun x hx => hx
        cases hp : rq.prep with
        | false =>
          have hc := (h4 hp).1
          have hn : rq.seq ∉ rq.drop := fun hx => Nat.lt_irrefl _ (h2 _ hx).2
          rw [h.lead, h.repl] at hs
          rcases leaderExec_stmt (env := env) hp hc h1 h.d1 hq h.le1 hn with he | he <;> rw [he] at hs <;> simp only at hs
          · cases fate with
            | done =>
              simp only at hs
              rw [applyReq_stmt_mid rfl, applyReq_stmt hp hc h1 h.d2 hq h.le2 hn] at hs
              injection hs with hs; subst hs
              exact ⟨_, _, _, h.stmt hm hp hq _ hacks⟩
            | lost =>
              simp only at hs
              rw [rollbackCurrent_shape hq] at hs
              injection hs with hs; subst hs
              have g := h.cutLead hsub
              rw [h.repl] at g
              exact ⟨_, _, _, g⟩
            | late =>
              simp only at hs
              rw [rollbackCurrent_shape hq, applyReq_stmt hp hc h1 (cut_desc h.d1) hq hcutL hn,
                applyReq_stmt hp hc h1 h.d2 hq h.le2 hn, hcutcut] at hs
              injection hs with hs; subst hs
              exact ⟨_, _, _, h.stmt hm hp hq _ hacks'⟩
          · injection hs with hs; subst hs
            have g := h.cutLead hsub
            rw [h.repl] at g
            exact ⟨_, _, _, g⟩
        | true =>
          have h5' := h5 hp
          rcases h5'.2.2.2 with ⟨hc, hdone⟩ | ⟨c, hc, hcn, hcd, hqc, D, hD, hdone⟩
          · rw [h.lead, h.repl, leaderExec_prep hp hc hq] at hs
            simp only at hs
            cases fate with
            | done =>
              simp only at hs
              rw [applyReq_prep hp hc h1 h.d1 hq, applyReq_prep hp hc h1 h.d2 hq] at hs
              injection hs with hs; subst hs
              exact ⟨_, _, _, h.prep hm hp hq _ hacks _ _ (Or.inl ⟨hc, rfl, rfl⟩)⟩
            | lost =>
              simp only at hs
              rw [rollbackCurrent_settled, ← h.lead, ← h.repl] at hs
              injection hs with hs; subst hs
              exact ⟨_, _, _, h⟩
            | late =>
              simp only at hs
              rw [rollbackCurrent_settled, applyReq_prep hp hc h1 h.d1 hq, applyReq_prep hp hc h1 h.d2 hq] at hs
              injection hs with hs; subst hs
              exact ⟨_, _, _, h.prep hm hp hq _ hacks' _ _ (Or.inl ⟨hc, rfl, rfl⟩)⟩
          · have hs1 : rq.seq = c + 1 := by omega
            have hcq : q < c := by omega
            have hcd' : c ∉ rq.drop := fun hx => hcd (hsub c hx)
            have hdc : Desc (c :: cut rq.drop L1) :=
              List.pairwise_cons.mpr ⟨fun y hy => by have := hcutL y hy; omega, cut_desc h.d1⟩
            rw [h.lead, h.repl] at hs
            rcases leaderExec_cached (env := env) hp hc hs1 h1 h.d1 hcq h.le1 hcd' with he | he <;> rw [he] at hs <;>
              simp only at hs
            · cases fate with
              | done =>
                simp only at hs
                rw [applyReq_cached_mid hp hs1 h1 hdc hcd', applyReq_cached hp hc hs1 h1 h.d2 hcq h.le2 hcd'] at hs
                injection hs with hs; subst hs
                exact ⟨_, _, _, h.prep hm hp hq _ hacks _ _ (Or.inr ⟨c, hc, rfl, rfl⟩)⟩
              | lost =>
                simp only at hs
                rw [rollbackCurrent_shape hcq] at hs
                injection hs with hs; subst hs
                have g := h.cutLead hsub
                rw [h.repl] at g
                exact ⟨_, _, _, g⟩
              | late =>
                simp only at hs
                rw [rollbackCurrent_shape hcq, applyReq_cached hp hc hs1 h1 (cut_desc h.d1) hcq hcutL hcd',
                  applyReq_cached hp hc hs1 h1 h.d2 hcq h.le2 hcd', hcutcut] at hs
                injection hs with hs; subst hs
                exact ⟨_, _, _, h.prep hm hp hq _ hacks' _ _ (Or.inr ⟨c, hc, rfl, rfl⟩)⟩
            · injection hs with hs; subst hs
              have g := h.cutLead hsub
              rw [h.repl] at g
              exact ⟨_, _, _, g⟩
    · simp at hs

theorem Reach.inv {s : Sys} (h : Reach s) : ∃ q L1 L2, Inv s q L1 L2 := by
  induction h with
  | init => exact ⟨_, _, _, Inv.initial⟩
  | step e _ hs ih =>
    obtain ⟨q, L1, L2, hi⟩ := ih
    exact hi.step hs

/-! ## Any number of cached statements -/

theorem cut_append {R B M : List Nat} (h : ∀ x ∈ B, x ∉ R) : cut R (B ++ M) = B ++ cut R M ∨ (B ≠ [] ∧ cut R (B ++ M) = B ++ M) := by
  cases B with
  | nil => left; rfl
  | cons x B => right; exact ⟨by simp, cut_cons_not (h x List.mem_cons_self)⟩

theorem ins_snoc {n : Nat} : ∀ {c : List Nat}, (∀ x ∈ c, x < n) → ins n c = c ++ [n]
  | [], _ => rfl
  | a :: c, h => by
    have h1 := h a List.mem_cons_self
    have h2 := ins_snoc (n := n) (c := c) fun x hx => h x (List.mem_cons_of_mem _ hx)
    simp only [ins, h2]
    rw [if_neg (by omega), if_neg (by omega)]; rfl

theorem rollbackLoop_shape {q r : Nat} {c M : List Nat} : ∀ {B : List Nat}, q ∉ B →
    rollbackLoop q (B ++ [q]) (shape r c (B ++ M)) = shape r c M
  | [], _ => by simp [rollbackLoop]
  | b :: B, h => by
    have hb : q ≠ b := fun e => h (e ▸ List.mem_cons_self)
    show (if q = b then _ else rollbackLoop q (B ++ [q]) (rollbackToPoint (shape r c (b :: (B ++ M))) b)) = _
    rw [if_neg hb, rollbackToPoint_shape, if_pos rfl]
    exact rollbackLoop_shape fun hm => h (List.mem_cons_of_mem _ hm)

theorem rollbackCurrent_mid {q r : Nat} {A M : List Nat} (hq : q ∉ A) :
    rollbackCurrent (shape r (q :: A) (A.reverse ++ M)) = if A = [] then shape r [q] M else settled q M := by
  by_cases hA : A = []
  · subst hA; simp [rollbackCurrent, shape]
  · have hl : (q :: A).length ≠ 1 := by
      cases A with
      | nil => exact absurd rfl hA
      | cons a A => simp
    have := rollbackLoop_shape (q := q) (r := r) (c := q :: A) (M := M) (B := A.reverse) (by simpa using hq)
    rw [if_neg hA]
    unfold rollbackCurrent
    rw [if_neg (by exact hl)]
    have h2 : (shape r (q :: A) (A.reverse ++ M)).cur.reverse = A.reverse ++ [q] := by simp [shape]
    have h3 : (shape r (q :: A) (A.reverse ++ M)).cur.headD 0 = q := rfl
    simp only [h2, h3, this]
    rfl

theorem rollbackCurrent_mid_fail {q n : Nat} {A M G : List Nat} (hq : q ∉ A) (hn : q ≠ n) :
    rollbackCurrent ⟨n, (n, (A.reverse ++ M).length) :: savesOf (A.reverse ++ M), q :: A ++ [n], G ++ (A.reverse ++ M)⟩ =
      settled q M := by
  have := rollbackLoop_shape (q := q) (r := n) (c := q :: A ++ [n]) (M := M) (B := A.reverse) (by simpa using hq)
  unfold rollbackCurrent
  simp only [List.length_append, List.length_cons, List.length_nil, List.cons_append, List.headD_cons]
  rw [if_neg (by omega)]
  have h2 : (q :: (A ++ [n])).reverse = n :: (A.reverse ++ [q]) := by simp
  rw [h2]
  simp only [rollbackLoop]
  rw [if_neg hn]
  have h3 : rollbackToPoint ⟨n, (n, A.reverse.length + M.length) :: savesOf (A.reverse ++ M), q :: (A ++ [n]), G ++ (A.reverse ++ M)⟩ n =
      shape n (q :: A ++ [n]) (A.reverse ++ M) := by
    simp [rollbackToPoint, shape]
  rw [h3, this]
  rfl

/-- Where a request stands: the statements `A` of it have been executed, on top of `M`. -/
structure Mid (q : Nat) (R L : List Nat) (t : T) (r : Nat) (A M : List Nat) : Prop where
  eq : t = shape r (q :: A) (A.reverse ++ M)
  qr : q ≤ r
  asc : (q :: A).Pairwise (· < ·)
  le : ∀ x ∈ A, x ≤ r
  notR : ∀ x ∈ A, x ∉ R
  md : Desc M
  mq : ∀ x ∈ M, x ≤ q
  mc : cut R M = cut R L
  am : A ≠ [] → cut R M = M
  ml : M = L ∨ M = cut R L

theorem Mid.desc {q r : Nat} {R L A M : List Nat} {t : T} (h : Mid q R L t r A M) : Desc (A.reverse ++ M) := by
  have h1 := List.pairwise_cons.mp h.asc
  refine List.pairwise_append.mpr ⟨List.pairwise_reverse.mpr h1.2, h.md, ?_⟩
  intro a ha b hb
  have := h1.1 a (by simpa using ha); have := h.mq b hb; omega

theorem Mid.notin {q r : Nat} {R L A M : List Nat} {t : T} (h : Mid q R L t r A M) : q ∉ A := fun hm =>
  Nat.lt_irrefl _ ((List.pairwise_cons.mp h.asc).1 q hm)

theorem Mid.fold {q r : Nat} {R L A M : List Nat} {t : T} (hR : Desc R) (h : Mid q R L t r A M) :
    R.foldl rollbackToPoint t = shape r (q :: A) (A.reverse ++ cut R L) := by
  rw [h.eq, fold_rollback hR h.desc]
  congr 1
  rcases cut_append (R := R) (B := A.reverse) (M := M) (fun x hx => h.notR x (by simpa using hx)) with e | ⟨e1, e⟩
  · rw [e, h.mc]
  · rw [e, ← h.mc, h.am (by simpa using e1)]

theorem Mid.cutM {q r : Nat} {R L A M : List Nat} {t : T} (h : Mid q R L t r A M) :
    Mid q R L (shape r (q :: A) (A.reverse ++ cut R L)) r A (cut R L) :=
  ⟨rfl, h.qr, h.asc, h.le, h.notR, h.mc ▸ cut_desc h.md, fun x hx => h.mq x (cut_mem (h.mc ▸ hx : x ∈ cut R M)),
    cut_cut fun x hx => hx, fun _ => cut_cut fun x hx => hx, Or.inr rfl⟩

/-- One more statement. -/
theorem Mid.exec {q r n : Nat} {R L A M : List Nat} {t : T} {env : Env} (hR : Desc R) (h : Mid q R L t r A M) (hn : r < n) :
    (n ∈ R ∧ ∃ t', execStmt t n R env = (t', true) ∧ Mid q R L t' n A (cut R L)) ∨
    (n ∉ R ∧ ∃ t', execStmt t n R env = (t', true) ∧ Mid q R L t' n (A ++ [n]) (cut R L)) ∨
    (n ∉ R ∧ env n ≠ none ∧ ∃ t', execStmt t n R env = (t', false) ∧ rollbackCurrent t' = settled q (cut R L)) := by
  have hm := h.cutM
  have hqn : q < n := Nat.lt_of_le_of_lt h.qr hn
  by_cases hnR : n ∈ R
  · left
    refine ⟨hnR, shape n (q :: A) (A.reverse ++ cut R L), ?_, ⟨rfl, Nat.le_of_lt hqn, hm.asc, fun x hx => Nat.le_of_lt (Nat.lt_of_le_of_lt (h.le x hx) hn),
      hm.notR, hm.md, hm.mq, hm.mc, hm.am, hm.ml⟩⟩
    unfold execStmt
    rw [h.fold hR]
    simp only [hnR, if_true]
    simp [setSeq, shape, Nat.not_lt.mpr (Nat.le_of_lt hn)]
  · right
    have hall : ∀ x ∈ A.reverse ++ cut R L, x ≤ r := by
      intro x hx
      rcases List.mem_append.mp hx with hx | hx
      · exact h.le x (by simpa using hx)
      · exact Nat.le_trans (hm.mq x hx) h.qr
    have hins : ins n (q :: A) = q :: A ++ [n] := ins_snoc (by
      intro x hx
      rcases List.mem_cons.mp hx with rfl | hx
      · exact hqn
      · exact Nat.lt_of_le_of_lt (h.le x hx) hn)
    cases he : env n with
    | none =>
      left
      refine ⟨hnR, shape n (q :: (A ++ [n])) (n :: (A.reverse ++ cut R L)), ?_, ⟨by simp, Nat.le_of_lt hqn, ?_, ?_, ?_, hm.md, hm.mq, hm.mc,
        fun _ => cut_cut fun x hx => hx, hm.ml⟩⟩
      · unfold execStmt
        rw [h.fold hR]
        simp only [hnR, if_false]
        rw [setSavePoint_shape hn hall, he, hins]
        rfl
      · have : (q :: A ++ [n]).Pairwise (· < ·) := by
          refine List.pairwise_append.mpr ⟨h.asc, by simp, ?_⟩
          intro a ha b hb
          rw [List.mem_singleton] at hb; subst hb
          rcases List.mem_cons.mp ha with rfl | ha
          · exact hqn
          · exact Nat.lt_of_le_of_lt (h.le a ha) hn
        exact this
      · intro x hx
        rcases List.mem_append.mp hx with hx | hx
        · exact Nat.le_of_lt (Nat.lt_of_le_of_lt (h.le x hx) hn)
        · exact Nat.le_of_eq (List.mem_singleton.mp hx)
      · intro x hx
        rcases List.mem_append.mp hx with hx | hx
        · exact h.notR x hx
        · rw [List.mem_singleton.mp hx]; exact hnR
    | some k =>
      right
      refine ⟨hnR, by simp, _, ?_, rollbackCurrent_mid_fail (G := List.replicate k n) h.notin (Nat.ne_of_lt hqn)⟩
      unfold execStmt
      rw [h.fold hR]
      simp only [hnR, if_false]
      rw [setSavePoint_shape hn hall, he, hins]

/-- The statements of a request that are to be executed on top of number `q`. -/
def todo (q : Nat) (rq : Req) : List Nat := rq.cached.filter fun n => decide (q < n ∧ n ∉ rq.drop)

theorem execCached_mid {q : Nat} {R L : List Nat} {env : Env} (hR : Desc R) : ∀ (l : List Nat) {t : T} {r : Nat} {A M : List Nat},
    Mid q R L t r A M → l.Pairwise (· < ·) → (∀ n ∈ l, q < n → r < n) →
    (∃ t' r' M', execCached q R env l t = (t', true) ∧
      Mid q R L t' r' (A ++ l.filter fun n => decide (q < n ∧ n ∉ R)) M' ∧ (r' = r ∨ r' ∈ l) ∧ r ≤ r' ∧ ∀ n ∈ l, n ≤ r') ∨
    ((∃ n ∈ l, env n ≠ none) ∧ ∃ t', execCached q R env l t = (t', false) ∧ rollbackCurrent t' = settled q (cut R L))
  | [], t, r, A, M, h, _, _ => by left; exact ⟨t, r, M, rfl, by simpa using h, Or.inl rfl, Nat.le_refl _, by simp⟩
  | n :: l, t, r, A, M, h, hl, hr => by
    have hl' := List.pairwise_cons.mp hl
    simp only [execCached]
    by_cases hq : n ≤ q
    · rw [if_pos hq]
      rcases execCached_mid (env := env) hR l h hl'.2 (fun x hx => hr x (List.mem_cons_of_mem _ hx)) with ⟨t', r', M', h1, h2, h3, h4, h5⟩ | ⟨⟨x, hx, he⟩, h2⟩
      · left
        refine ⟨t', r', M', h1, ?_, h3.imp_right (List.mem_cons_of_mem _), h4, ?_⟩
        · rw [List.filter_cons_of_neg (by simp; omega)]; exact h2
        · intro x hx
          rcases List.mem_cons.mp hx with rfl | hx
          · have := h.qr; omega
          · exact h5 x hx
      · right; exact ⟨⟨x, List.mem_cons_of_mem _ hx, he⟩, h2⟩
    · rw [if_neg hq]
      have hqn : q < n := Nat.lt_of_not_le hq
      rcases h.exec (env := env) hR (hr n List.mem_cons_self hqn) with ⟨hnR, t', he, hm⟩ | ⟨hnR, t', he, hm⟩ | ⟨hnR, hen, t', he, hm⟩
      · rw [he]
        rcases execCached_mid (env := env) hR l hm hl'.2 (fun x hx _ => hl'.1 x hx) with ⟨t', r', M', h1, h2, h3, h4, h5⟩ | ⟨⟨x, hx, he⟩, h2⟩
        · left
          have hrn := hr n List.mem_cons_self hqn
          refine ⟨t', r', M', h1, ?_, Or.inr ?_, by omega, fun x hx => (List.mem_cons.mp hx).elim (fun e => e ▸ h4) (h5 x)⟩
          · rw [List.filter_cons_of_neg (by simp [hnR])]; exact h2
          · rcases h3 with rfl | h3
            · exact List.mem_cons_self
            · exact List.mem_cons_of_mem _ h3
        · right; exact ⟨⟨x, List.mem_cons_of_mem _ hx, he⟩, h2⟩
      · rw [he]
        rcases execCached_mid (env := env) hR l hm hl'.2 (fun x hx _ => hl'.1 x hx) with ⟨t', r', M', h1, h2, h3, h4, h5⟩ | ⟨⟨x, hx, he⟩, h2⟩
        · left
          have hrn := hr n List.mem_cons_self hqn
          refine ⟨t', r', M', h1, ?_, Or.inr ?_, by omega, fun x hx => (List.mem_cons.mp hx).elim (fun e => e ▸ h4) (h5 x)⟩
          · rw [List.filter_cons_of_pos (by simp [hqn, hnR])]
            rw [List.append_assoc] at h2; exact h2
          · rcases h3 with rfl | h3
            · exact List.mem_cons_self
            · exact List.mem_cons_of_mem _ h3
        · right; exact ⟨⟨x, List.mem_cons_of_mem _ hx, he⟩, h2⟩
      · rw [he]
        right; exact ⟨⟨n, List.mem_cons_self, hen⟩, t', rfl, hm⟩

theorem Mid.start {q : Nat} {R L : List Nat} (hL : Desc L) (hLq : ∀ x ∈ L, x ≤ q) : Mid q R L (settled q L) q [] L :=
  ⟨rfl, Nat.le_refl _, by simp, by simp, by simp, hL, hLq, rfl, fun h => absurd rfl h, Or.inl rfl⟩

/-- The cached part, with the shortcut when nothing can be missing. -/
theorem cached_mid {q : Nat} {L : List Nat} {rq : Req} {env : Env} (hR : Desc rq.drop) (hL : Desc L) (hLq : ∀ x ∈ L, x ≤ q)
    (hc : rq.cached.Pairwise (· < ·)) (hcs : ∀ n ∈ rq.cached, n < rq.seq) (hq : q < rq.seq) :
    (∃ t' r' M', (if (settled q L).seq < rq.seq - 1 then execCached (settled q L).seq rq.drop env rq.cached (settled q L) else
        (settled q L, true)) = (t', true) ∧ Mid q rq.drop L t' r' (todo q rq) M' ∧ r' < rq.seq ∧ ∀ n ∈ rq.cached, n ≤ r') ∨
    ((∃ n ∈ rq.cached, env n ≠ none) ∧ ∃ t', (if (settled q L).seq < rq.seq - 1 then
        execCached (settled q L).seq rq.drop env rq.cached (settled q L) else (settled q L, true)) = (t', false) ∧
        rollbackCurrent t' = settled q (cut rq.drop L)) := by
  have hsq : (settled q L).seq = q := rfl
  rw [hsq]
  by_cases hlt : q < rq.seq - 1
  · rw [if_pos hlt]
    rcases execCached_mid (env := env) hR rq.cached (Mid.start hL hLq) hc (fun n _ h => h) with ⟨t', r', M', h1, h2, h3, h4, h5⟩ | h
    · left
      refine ⟨t', r', M', h1, h2, ?_, h5⟩
      rcases h3 with rfl | h3
      · exact hq
      · exact hcs _ h3
    · right; exact h
  · rw [if_neg hlt]
    left
    refine ⟨_, q, L, rfl, ?_, hq, fun n hn => by have := hcs n hn; omega⟩
    have : todo q rq = [] := by
      unfold todo
      rw [List.filter_eq_nil_iff]
      intro n hn
      have := hcs n hn
      simp; omega
    rw [this]; exact Mid.start hL hLq

/-- The statements a request adds to the write batch, newest first. -/
def added (q : Nat) (rq : Req) : List Nat :=
  (if rq.prep ∨ rq.seq ∈ rq.drop then [] else [rq.seq]) ++ (todo q rq).reverse

/-- The write batch after a request. -/
def after (q : Nat) (rq : Req) (L : List Nat) : List Nat := added q rq ++ cut rq.drop L

theorem Mid.prepare {q r p : Nat} {R L A M : List Nat} {t : T} (hR : Desc R) (h : Mid q R L t r A M) (hp : r < p) :
    execPrepare t p R = shape p (q :: A) (A.reverse ++ cut R L) := by
  unfold execPrepare
  rw [h.fold hR]
  simp [setSeq, shape, Nat.not_lt.mpr (Nat.le_of_lt hp)]

theorem Mid.finish {q r : Nat} {L A M : List Nat} {t : T} {rq : Req} (hR : Desc rq.drop) (h : Mid q rq.drop L t r A M)
    (hA : A = todo q rq) (hr : r < rq.seq) :
    (if rq.prep then execPrepare t rq.seq rq.drop else (execStmt t rq.seq rq.drop fun _ => none).1) =
      shape rq.seq (q :: (if rq.prep ∨ rq.seq ∈ rq.drop then A else A ++ [rq.seq])) (after q rq L) := by
  unfold after added
  cases hp : rq.prep with
  | true => simp only [if_true, true_or, h.prepare hR hr, hA, List.nil_append]
  | false =>
    simp only [Bool.false_eq_true, if_false, false_or]
    rcases h.exec (env := fun _ => none) hR hr with ⟨hnR, t', he, hm⟩ | ⟨hnR, t', he, hm⟩ | ⟨_, hen, _⟩
    · rw [he, hm.eq, if_pos hnR, if_pos hnR, hA]; rfl
    · rw [he, hm.eq, if_neg hnR, if_neg hnR, hA]; simp
    · exact absurd rfl hen

/-! ## C35 -/

/-- **C35.** What a request does to a replica's write batch: the newest statements given up meanwhile leave it, the cached
statements not seen before enter it in order, each once and none that was given up, and so does the request's own
statement. -/
theorem C35_apply {q : Nat} {L : List Nat} {rq : Req} (hR : Desc rq.drop) (hL : Desc L) (hLq : ∀ x ∈ L, x ≤ q)
    (hc : rq.cached.Pairwise (· < ·)) (hcs : ∀ n ∈ rq.cached, n < rq.seq) (hq : q < rq.seq) :
    applyReq (settled q L) rq = settled rq.seq (after q rq L) := by
  rcases cached_mid (env := fun _ => none) hR hL hLq hc hcs hq with ⟨t', r', M', h1, h2, h3, _⟩ | ⟨⟨_, _, hen⟩, _⟩
  · have h1' : (if (settled q L).seq < rq.seq - 1 then
        (execCached (settled q L).seq rq.drop (fun _ => none) rq.cached (settled q L)).1 else settled q L) = t' := by
      split at h1
      · rw [if_pos ‹_›, h1]
      · rw [if_neg ‹_›]; exact congrArg Prod.fst h1
    unfold applyReq
    simp only [h1']
    have hq' : (settled q L).seq < rq.seq := hq
    simp only [hq', if_true]
    rw [h2.finish hR rfl h3]
    rfl
  · exact absurd rfl hen

theorem execCached_seen {r : Nat} {R : List Nat} {env : Env} {t : T} : ∀ {l : List Nat}, (∀ n ∈ l, n ≤ r) →
    execCached r R env l t = (t, true)
  | [], _ => rfl
  | n :: l, h => by
    simp only [execCached]
    rw [if_pos (h n List.mem_cons_self)]
    exact execCached_seen fun x hx => h x (List.mem_cons_of_mem _ hx)

/-- **C35.** The leader, which executes before the request is replicated and only settles it afterwards, ends with the same
write batch as the replicas that execute it when they apply it. -/
theorem C35_leader {q : Nat} {L : List Nat} {rq : Req} {env : Env} {t' : T} (hR : Desc rq.drop) (hL : Desc L)
    (hLq : ∀ x ∈ L, x ≤ q) (hc : rq.cached.Pairwise (· < ·)) (hcs : ∀ n ∈ rq.cached, n < rq.seq) (hq : q < rq.seq)
    (he : leaderExec (settled q L) rq env = (t', some true)) : applyReq t' rq = settled rq.seq (after q rq L) := by
  unfold leaderExec at he
  rw [if_neg (by exact Nat.not_le.mpr hq)] at he
  rcases cached_mid (env := env) hR hL hLq hc hcs hq with ⟨t1, r', M', h1, h2, h3, h4⟩ | ⟨_, t1, h1, _⟩
  · simp only [h1, Bool.not_true, Bool.false_eq_true, if_false] at he
    have hfin := h2.finish hR rfl h3
    cases hp : rq.prep with
    | true =>
      simp only [hp, if_true, Prod.mk.injEq, and_true] at he
      subst he
      have hsq : t1.seq = r' := by rw [h2.eq]; rfl
      unfold applyReq
      have h5 : (if t1.seq < rq.seq - 1 then (execCached t1.seq rq.drop (fun _ => none) rq.cached t1).1 else t1) = t1 := by
        split
        · rw [hsq, execCached_seen h4]
        · rfl
      have h6 : t1.seq < rq.seq := by rw [hsq]; exact h3
      simp only [h5, h6, if_true, hfin]
      rfl
    | false =>
      simp only [hp, Bool.false_eq_true, if_false] at he
      have key : ∀ (s : T) (c : List Nat), s = shape rq.seq c (after q rq L) → applyReq s rq = settled rq.seq (after q rq L) := by
        rintro s c rfl
        unfold applyReq
        have hsq : (shape rq.seq c (after q rq L)).seq = rq.seq := rfl
        have g1 : ¬ (shape rq.seq c (after q rq L)).seq < rq.seq - 1 := by rw [hsq]; omega
        have g2 : ¬ (shape rq.seq c (after q rq L)).seq < rq.seq := by rw [hsq]; omega
        simp only [g1, g2, if_false]
        rfl
      rcases h2.exec (env := env) hR h3 with ⟨hnR, t2, he2, hm⟩ | ⟨hnR, t2, he2, hm⟩ | ⟨_, _, t2, he2, hm⟩
      · rw [he2] at he
        simp only [Prod.mk.injEq, and_true] at he
        subst he
        refine key _ (q :: todo q rq) (hm.eq.trans ?_)
        simp [after, added, hp, hnR]
      · rw [he2] at he
        simp only [Prod.mk.injEq, and_true] at he
        subst he
        refine key _ (q :: (todo q rq ++ [rq.seq])) (hm.eq.trans ?_)
        simp [after, added, hp, hnR]
      · rw [he2] at he; simp at he
  · simp only [h1, Bool.not_false, if_true, Prod.mk.injEq, Option.some.injEq, Bool.false_eq_true, and_false] at he

/-- **C35.** A request that fails, however many of its statements had been executed and however many writes the failing one
left, leaves only that: the statements given up meanwhile are gone. -/
theorem C35_failed {q : Nat} {L : List Nat} {rq : Req} {env : Env} {t' : T} (hR : Desc rq.drop) (hL : Desc L)
    (hLq : ∀ x ∈ L, x ≤ q) (hc : rq.cached.Pairwise (· < ·)) (hcs : ∀ n ∈ rq.cached, n < rq.seq) (hq : q < rq.seq)
    (he : leaderExec (settled q L) rq env = (t', some false)) : t' = settled q (cut rq.drop L) := by
  unfold leaderExec at he
  rw [if_neg (by exact Nat.not_le.mpr hq)] at he
  rcases cached_mid (env := env) hR hL hLq hc hcs hq with ⟨t1, r', M', h1, h2, h3, h4⟩ | ⟨_, t1, h1, h2⟩
  · simp only [h1, Bool.not_true, Bool.false_eq_true, if_false] at he
    cases hp : rq.prep with
    | true => simp [hp] at he
    | false =>
      simp only [hp, Bool.false_eq_true, if_false] at he
      rcases h2.exec (env := env) hR h3 with ⟨hnR, t2, he2, hm⟩ | ⟨hnR, t2, he2, hm⟩ | ⟨_, _, t2, he2, hm⟩
      · rw [he2] at he; simp at he
      · rw [he2] at he; simp at he
      · rw [he2] at he
        simp only [Prod.mk.injEq, and_true] at he
        rw [← he, hm]
  · simp only [h1, Bool.not_false, if_true, Prod.mk.injEq, and_true] at he
    rw [← he, h2]

/-- **C35.** The same for a request that was executed but whose replication failed. -/
theorem C35_lost {q : Nat} {L : List Nat} {rq : Req} {env : Env} {t' : T} (hR : Desc rq.drop) (hL : Desc L)
    (hLq : ∀ x ∈ L, x ≤ q) (hc : rq.cached.Pairwise (· < ·)) (hcs : ∀ n ∈ rq.cached, n < rq.seq) (hq : q < rq.seq)
    (he : leaderExec (settled q L) rq env = (t', some true)) :
    (rollbackCurrent t').effs = L ∨ (rollbackCurrent t').effs = cut rq.drop L := by
  have key : ∀ {t : T} {r : Nat} {A M : List Nat}, Mid q rq.drop L t r A M →
      (rollbackCurrent t).effs = L ∨ (rollbackCurrent t).effs = cut rq.drop L := by
    intro t r A M h
    have : (rollbackCurrent t).effs = M := by
      rw [h.eq, rollbackCurrent_mid h.notin]
      split <;> rfl
    rw [this]; exact h.ml
  unfold leaderExec at he
  rw [if_neg (by exact Nat.not_le.mpr hq)] at he
  rcases cached_mid (env := env) hR hL hLq hc hcs hq with ⟨t1, r', M', h1, h2, h3, h4⟩ | ⟨_, t1, h1, h2⟩
  · simp only [h1, Bool.not_true, Bool.false_eq_true, if_false] at he
    cases hp : rq.prep with
    | true =>
      simp only [hp, if_true, Prod.mk.injEq, and_true] at he
      subst he; exact key h2
    | false =>
      simp only [hp, Bool.false_eq_true, if_false] at he
      rcases h2.exec (env := env) hR h3 with ⟨hnR, t2, he2, hm⟩ | ⟨hnR, t2, he2, hm⟩ | ⟨_, _, t2, he2, hm⟩
      · rw [he2] at he; simp only [Prod.mk.injEq, and_true] at he; subst he; exact key hm
      · rw [he2] at he; simp only [Prod.mk.injEq, and_true] at he; subst he; exact key hm
      · rw [he2] at he; simp at he
  · simp only [h1, Bool.not_false, if_true, Prod.mk.injEq, Option.some.injEq, Bool.false_eq_true, and_false] at he

/-- A request with two cached statements, one of them given up meanwhile; 3 is given up too. -/
example : applyReq (settled 3 [3, 2]) ⟨7, false, [2, 4, 5, 6], [5, 3]⟩ = settled 7 [7, 6, 4, 2] := by decide
/-- The same, 7 failing after two writes. -/
example : leaderExec (settled 3 [3, 2]) ⟨7, false, [2, 4, 5, 6], [5, 3]⟩ (fun n => if n = 7 then some 2 else none) =
    (settled 3 [2], some false) := by decide

/-- **C35.** A request sent again, or arriving late, finds its number used up and changes nothing on any replica; it is
answered. -/
theorem C35_repeat {s : Sys} {rq : Req} (hm : rq ∈ s.msgs) (h : rq.seq ≤ s.lead.seq) (env : Env) (f : Fate) :
    step s (.deliver rq env f) = some { s with acks := rq.seq :: s.acks } := by
  simp only [step, hm, if_true]
  have : leaderExec s.lead rq env = (s.lead, none) := by unfold leaderExec; rw [if_pos h]
  rw [this]

/-- **C35.** No statement's writes are ever in a write batch twice, whatever is repeated, lost, late or failing, and whoever
leads; and the replicas agree on the last number executed. -/
theorem C35_no_duplicate {s : Sys} (h : Reach s) : s.lead.effs.Nodup ∧ s.repl.effs.Nodup ∧ s.lead.seq = s.repl.seq := by
  obtain ⟨q, L1, L2, hi⟩ := h.inv
  have nd : ∀ L : List Nat, Desc L → L.Nodup := fun L h => h.imp fun h => Nat.ne_of_gt h
  rw [hi.lead, hi.repl]
  exact ⟨nd _ hi.d1, nd _ hi.d2, rfl⟩

/-- **C35.** While the transaction is open and no answer is outstanding: apart from given-up statements at the newest end,
which the next request removes, both replicas hold exactly the statements sent here and not given up, in order. -/
theorem C35_open {s : Sys} (h : Reach s) (hw : s.wait = false) (hp : s.prepared = false) :
    (s.lead.effs.dropWhile fun x => decide (x ∈ s.drop)) = s.dest.filter (fun d => decide (d ∉ s.drop)) ∧
    (s.repl.effs.dropWhile fun x => decide (x ∈ s.drop)) = s.dest.filter (fun d => decide (d ∉ s.drop)) := by
  obtain ⟨q, L1, L2, hi⟩ := h.inv
  have hd : (s.dest.filter fun d => decide (d ∉ s.drop ∧ d ≤ q)) = s.dest.filter fun d => decide (d ∉ s.drop) := by
    refine List.filter_congr fun d hd => ?_
    congr 1
    apply propext
    refine ⟨fun h => h.1, fun h => ⟨h, ?_⟩⟩
    rcases hi.done d hd h with h1 | h1 | h1
    · exact h1
    · rw [hw] at h1; simp at h1
    · rw [hp] at h1; simp at h1
  have h1 := hi.tgt1
  have h2 := hi.tgt2
  rw [hd] at h1 h2
  rw [hi.lead, hi.repl]
  exact ⟨h1, h2⟩

/-- **C35.** Once PREPARE has been answered every replica's write batch holds exactly the statements sent to this region and
not given up, each once, in the order the client issued them, and nothing else: this is what COMMIT makes visible. -/
theorem C35_exact {s : Sys} (h : Reach s) (hp : s.prepared = true) (ha : s.n ∈ s.acks) :
    s.lead.effs = s.dest.filter (fun d => decide (d ∉ s.drop)) ∧ s.repl.effs = s.dest.filter (fun d => decide (d ∉ s.drop)) := by
  obtain ⟨q, L1, L2, hi⟩ := h.inv
  have hq : q = s.n := Nat.le_antisymm hi.qn (hi.acks _ ha)
  have hd : (s.dest.filter fun d => decide (d ∉ s.drop ∧ d ≤ q)) = s.dest.filter fun d => decide (d ∉ s.drop) := by
    refine List.filter_congr fun d hd => ?_
    congr 1
    apply propext
    exact ⟨fun h => h.1, fun h => ⟨h, hq ▸ hi.destN d hd⟩⟩
  have hc := hi.prepQ hp hq
  have h1 := hi.tgt1
  have h2 := hi.tgt2
  rw [hd] at h1 h2
  rw [hc.1] at h1
  rw [hc.2] at h2
  rw [hi.lead, hi.repl]
  exact ⟨h1, h2⟩

/-- **C35.** From then on no request still under way changes the write batches. -/
theorem C35_exact_stable {s s' : Sys} (h : Reach s) (_ : s.prepared = true) (ha : s.n ∈ s.acks) {rq : Req} {env : Env} {f : Fate}
    (hs : step s (.deliver rq env f) = some s') : s'.lead = s.lead ∧ s'.repl = s.repl := by
  obtain ⟨q, L1, L2, hi⟩ := h.inv
  have hq : s.n ≤ q := hi.acks _ ha
  by_cases hm : rq ∈ s.msgs
  · have h1 : rq.seq ≤ s.lead.seq := by
      have h2 := (hi.msgs rq hm).2.2.1
      rw [hi.lead]
      exact Nat.le_trans h2 hq
    rw [C35_repeat hm h1] at hs
    injection hs with hs; subst hs
    exact ⟨rfl, rfl⟩
  · simp [step, hm] at hs

/-- **C35.** A statement the client has had answered, and that was not given up, is in the write batches. -/
theorem C35_acked {s : Sys} (h : Reach s) {d : Nat} (hd : d ∈ s.dest) (hr : d ∉ s.drop) (ha : d ∈ s.acks) :
    d ∈ s.lead.effs ∧ d ∈ s.repl.effs := by
  obtain ⟨q, L1, L2, hi⟩ := h.inv
  have hm : d ∈ s.dest.filter fun d => decide (d ∉ s.drop ∧ d ≤ q) := by
    simp only [List.mem_filter, decide_eq_true_eq]; exact ⟨hd, hr, hi.acks d ha⟩
  rw [hi.lead, hi.repl]
  exact ⟨cut_mem (hi.tgt1 ▸ hm), cut_mem (hi.tgt2 ▸ hm)⟩

theorem Reach.run {s s' : Sys} {es : List Ev} (h : Reach s) (hr : run s es = some s') : Reach s' := by
  induction es generalizing s with
  | nil => simp only [BaikalDB.Stmt.run, Option.some.injEq] at hr; exact hr ▸ h
  | cons e es ih =>
    cases he : BaikalDB.Stmt.step s e with
    | none => simp [BaikalDB.Stmt.run, he] at hr
    | some t => simp only [BaikalDB.Stmt.run, he, Option.bind_some] at hr; exact ih (.step e h he) hr

/-- Statement 2 executed and answered; 3 executed but its replication fails, is sent again, applied late, then answered; its
SQL statement is given up; the leader changes; 4 fails once, then succeeds; PREPARE carries 5; request 2 arrives again. -/
def stmtRun : List Ev :=
  let ok : Env := fun _ => none
  [.issue, .deliver ⟨2, false, [], []⟩ ok .done, .finish, .sqlEnd,
   .issue, .deliver ⟨3, false, [], []⟩ ok .lost, .deliver ⟨3, false, [], []⟩ ok .late, .cancel, .leaderChange,
   .deliver ⟨3, false, [], []⟩ ok .done,
   .issue, .deliver ⟨4, false, [], [3]⟩ (fun _ => some 2) .done, .deliver ⟨4, false, [], [3]⟩ ok .done, .finish, .sqlEnd,
   .prepareCached, .deliver ⟨6, true, [5], [3]⟩ ok .done, .deliver ⟨2, false, [], []⟩ ok .done]

/-- It ends in a state that meets the hypotheses of `C35_exact`, with 2, 4 and 5 written. -/
theorem stmtRun_result : (run Sys.init stmtRun).map (fun s => (s.prepared, decide (s.n ∈ s.acks), s.dest, s.drop, s.lead.effs, s.repl.effs)) =
    some (true, true, [5, 4, 3, 2], [3], [5, 4, 2], [5, 4, 2]) := by rfl

example : ∃ s, Reach s ∧ s.prepared = true ∧ s.n ∈ s.acks ∧ s.repl.effs = [5, 4, 2] := by
  have h := stmtRun_result
  cases hr : run Sys.init stmtRun with
  | none => rw [hr] at h; simp at h
  | some s =>
    rw [hr] at h
    simp only [Option.map_some, Option.some.injEq, Prod.mk.injEq, decide_eq_true_eq] at h
    exact ⟨s, Reach.init.run hr, h.1, h.2.1, h.2.2.2.2.2⟩

/-- **C35.** A save point undoes exactly what was written after it: whatever the transaction holds when a statement sets its
save point, and whatever the statement then writes, rolling back to it gives back the writes and save points of before. -/
theorem C35_save_point (t : T) (ws : List Nat) (h : ∀ p ∈ t.saves.head?, p.1 < t.seq) :
    let u := rollbackToPoint { setSavePoint t with effs := ws ++ t.effs } t.seq
    u.effs = t.effs ∧ u.saves = t.saves ∧ u.seq = t.seq := by
  obtain ⟨seq, saves, cur, effs⟩ := t
  cases saves with
  | nil => simp [setSavePoint, rollbackToPoint]
  | cons p l =>
    have := h p (by simp)
    simp only at this
    simp [setSavePoint, rollbackToPoint, this]

example : (rollbackToPoint { setSavePoint ⟨3, [], [2], [2, 1]⟩ with effs := [3, 3] ++ [2, 1] } 3).effs = [2, 1] :=
  (C35_save_point ⟨3, [], [2], [2, 1]⟩ [3, 3] (by simp)).1

end BaikalDB.Stmt
