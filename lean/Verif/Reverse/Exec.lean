import Verif.Reverse.Parser

/-! # Trees of executors -/

namespace BaikalDB.Reverse

variable {K T : Type} [LinearOrder K] [OrderBot K]

/-- What an executor that has begun still gives. -/
def ExR : Nat → Exec K → List K → Prop
  | 0, _, _ => False
  | _ + 1, .term t, l => TermR t l
  | n + 1, .and s, l => AndR (ExR n) s l
  | n + 1, .or s, l => OrR (ops n) (ExR n) s l

/-- What a new executor will give. -/
def ExI : Nat → Exec K → List K → Prop
  | 0, _, _ => False
  | _ + 1, .term t, l => TermI t l
  | n + 1, .and s, l => AndI (ExI n) s l
  | n + 1, .or s, l => OrI (ExI n) s l

theorem ops_sound (n : Nat) : Sound (ops n : Ops (Exec K) K) (ExI n) (ExR n) := by
  induction n with
  | zero =>
    exact ⟨fun h => h.elim, fun h => h.elim, fun h => h.elim, fun h => h.elim, fun _ h => h.elim, fun h => h.elim, fun h => h.elim, fun h => h.elim⟩
  | succ n ih =>
    constructor
    · intro s l h
      cases s with
      | term t => exact termR_sorted h
      | and s => exact h.1
      | or s => exact h.1
    · intro s l h
      cases s with
      | term t => exact termI_sorted h
      | and s => exact h.1
      | or s => exact h.1
    · intro s l h
      cases s with
      | term t => exact term_cur h
      | and s => exact and_cur ih h
      | or s => exact or_cur ih h
    · intro s l h
      cases s with
      | term t => exact term_next h
      | and s => exact andNext_R ih h
      | or s => exact orNext_R ih h
    · intro s l k h
      cases s with
      | term t => exact term_adv h k
      | and s => exact andAdvance_R ih k h
      | or s => exact orAdvance_R ih k h
    · intro s l h
      cases s with
      | term t => exact term_start h
      | and s => exact andNext_I ih h
      | or s => exact orNext_I ih h
    · intro s l h
      cases s with
      | term t => exact termR_size h
      | and s =>
        obtain ⟨hL, ⟨_, e⟩ | ⟨_, _, k, _, ls, hf, hne, _, hm⟩⟩ := h
        · rw [e]; exact Nat.zero_le _
        · exact and_size ih.rSize hL hf hne hm
      | or s =>
        obtain ⟨hL, ⟨_, e⟩ | ⟨_, _, k, _, ht⟩⟩ := h
        · rw [e]; exact Nat.zero_le _
        · exact or_size ih hL ht
    · intro s l h
      cases s with
      | term t => exact termI_size h
      | and s =>
        obtain ⟨hL, _, _, ⟨_, e⟩ | ⟨ls, hf, hne, hm⟩⟩ := h
        · rw [e]; exact Nat.zero_le _
        · exact and_size ih.iSize hL hf hne hm
      | or s =>
        obtain ⟨hL, _, _, ls, hf, hm⟩ := h
        refine le_trans (sorted_length_le hL fun x hx => ?_) (length_flatten_le ih.iSize hf)
        obtain ⟨l, h1, h2⟩ := (hm x).1 hx
        exact List.mem_flatten.2 ⟨l, h1, h2⟩

omit [OrderBot K] in
theorem drain_R {σ : Type} {o : Ops σ K} {I R : σ → List K → Prop} (hs : Sound o I R) (f : Nat) {s : σ} {l : List K} (h : R s l)
    (hf : l.tail.length < f) : drain o f s = l.tail := by
  induction f generalizing s l with
  | zero => omega
  | succ f ih =>
    unfold drain
    have hn := hs.next h
    rw [hs.cur hn]
    cases hl : l.tail with
    | nil => rfl
    | cons a m =>
      rw [hl] at hn hf
      simp only [List.head?_cons, Option.elim_some]
      rw [ih hn (by simp only [List.length_cons] at hf; simp only [List.tail_cons]; omega)]; rfl

omit [OrderBot K] in
theorem drain_I {σ : Type} {o : Ops σ K} {I R : σ → List K → Prop} (hs : Sound o I R) {s : σ} {l : List K} (h : I s l) :
    drain o (o.size s + 1) s = l := by
  unfold drain
  have hn := hs.start h
  rw [hs.cur hn]
  cases l with
  | nil => rfl
  | cons a m =>
    simp only [List.head?_cons, Option.elim_some]
    have := hs.iSize h
    rw [drain_R hs _ hn (by simp only [List.length_cons] at this; simp only [List.tail_cons]; omega)]; rfl

end BaikalDB.Reverse
