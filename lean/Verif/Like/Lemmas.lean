import Verif.Like.Spec
import Mathlib.Tactic.Common
/-! # The LIKE matcher: characters, the loop's end, the loop's answer -/
namespace BaikalDB.Like
open Spec

theorem mask80 : ∀ b : Byte, (b &&& 0x80#8 = 0#8 ↔ b.toNat ≤ 0x7F) := by decide
theorem maskC0 : ∀ b : Byte, (b &&& 0xC0#8 = 0x80#8 ↔ 0x80 ≤ b.toNat ∧ b.toNat ≤ 0xBF) := by decide
theorem maskE0 : ∀ b : Byte, (b &&& 0xE0#8 = 0xC0#8 ↔ 0xC0 ≤ b.toNat ∧ b.toNat ≤ 0xDF) := by decide
theorem maskF0 : ∀ b : Byte, (b &&& 0xF0#8 = 0xE0#8 ↔ 0xE0 ≤ b.toNat ∧ b.toNat ≤ 0xEF) := by decide
theorem maskF0' : ∀ b : Byte, (b &&& 0xF0#8 = 0xF0#8 ↔ 0xF0 ≤ b.toNat) := by decide

/-- A character never starts with a continuation byte. -/
theorem contRun_text {cs : Charset} {s : Bytes} {l : List Bytes} (hcs : cs = .utf8) (h : Text cs s l) : contRun s = 0 := by
  subst hcs
  obtain ⟨rfl, hl⟩ := h
  cases l with
  | nil => rfl
  | cons c l =>
    have hc := hl c (by simp)
    rcases hc with ⟨b, rfl, h⟩ | ⟨b, x, rfl, h1, h2, _⟩ | ⟨b, x, y, rfl, h1, h2, _⟩ | ⟨b, x, y, z, rfl, h1, _⟩ <;>
      (have hb := b.isLt; simp [contRun, maskC0]; intros; omega)

theorem Spec.IsChar.ne_nil {cs : Charset} {c : Bytes} (h : IsChar cs c) : c ≠ [] := by
  cases cs with
  | binary => obtain ⟨b, rfl⟩ := h; simp
  | utf8 => rcases h with ⟨b, rfl, _⟩ | ⟨b, x, rfl, _⟩ | ⟨b, x, y, rfl, _⟩ | ⟨b, x, y, z, rfl, _⟩ <;> simp
  | gbk => rcases h with ⟨b, rfl, _⟩ | ⟨b, x, rfl, _⟩ <;> simp

/-- On text the next code point is the first character. -/
theorem nextPoint_text {cs : Charset} {s : Bytes} {c : Bytes} {l : List Bytes} (h : Text cs s (c :: l)) :
    nextPoint cs s = c ∧ s.drop c.length = l.flatten ∧ Text cs l.flatten l := by
  have ht : Text cs l.flatten l := ⟨rfl, fun d hd => h.2 d (by simp [hd])⟩
  obtain ⟨rfl, hl⟩ := h
  refine ⟨?_, by simp, ht⟩
  have hc := hl c (by simp)
  unfold nextPoint
  cases cs with
  | binary =>
    obtain ⟨b, rfl⟩ := hc
    simp [nextSize]
  | utf8 =>
    have h0 : contRun l.flatten = 0 := contRun_text rfl ht
    rcases hc with ⟨b, rfl, h1⟩ | ⟨b, x, rfl, h1, h2, h3⟩ | ⟨b, x, y, rfl, h1, h2, h3, h4⟩ | ⟨b, x, y, z, rfl, h1, h3, h4, h5⟩
    · simp [nextSize, (mask80 b).2 h1]
    · have e1 : ¬ b &&& 0x80#8 = 0#8 := by rw [mask80]; omega
      simp [nextSize, e1, (maskE0 b).2 ⟨h1, h2⟩, charSize, contRun, (maskC0 x).2 h3, h0]
    · have e1 : ¬ b &&& 0x80#8 = 0#8 := by rw [mask80]; omega
      have e2 : ¬ b &&& 0xE0#8 = 0xC0#8 := by rw [maskE0]; omega
      simp [nextSize, e1, e2, (maskF0 b).2 ⟨h1, h2⟩, charSize, contRun, (maskC0 x).2 h3, (maskC0 y).2 h4, h0]
    · have e1 : ¬ b &&& 0x80#8 = 0#8 := by rw [mask80]; omega
      have e2 : ¬ b &&& 0xE0#8 = 0xC0#8 := by rw [maskE0]; omega
      simp [nextSize, e1, e2, (maskF0' b).2 h1, charSize, contRun, (maskC0 x).2 h3, (maskC0 y).2 h4,
        (maskC0 z).2 h5, h0]
  | gbk =>
    rcases hc with ⟨b, rfl, h1⟩ | ⟨b, x, rfl, h1, h2, h3⟩
    · simp [nextSize, (mask80 b).2 h1]
    · have e1 : ¬ b &&& 0x80#8 = 0#8 := by rw [mask80]; omega
      have e2 : (inRange 0x81#8 b 0xFE#8 && (inRange 0x40#8 x 0x7E#8 || inRange 0x80#8 x 0xFE#8)) = true := by
        simp [inRange, h1, h2, h3]
      simp [nextSize, e1, e2]

theorem text_nil {cs : Charset} {l : List Bytes} (h : Text cs [] l) : l = [] := by
  obtain ⟨h, hl⟩ := h
  cases l with
  | nil => rfl
  | cons c l =>
    exfalso
    have := IsChar.ne_nil (hl c (by simp))
    simp at h
    exact this h.1

theorem nextSize_le (cs : Charset) (s : Bytes) : nextSize cs s ≤ s.length := by
  have hrun : ∀ r : Bytes, contRun r ≤ r.length := by
    intro r
    induction r with
    | nil => simp [contRun]
    | cons c r ih => simp only [contRun]; split <;> simp <;> omega
  cases s with
  | nil => simp [nextSize]
  | cons c r =>
    have := hrun r
    cases cs <;> simp only [nextSize, charSize, List.drop_one, List.tail_cons, List.length_cons]
    · omega
    · split
      · omega
      · repeat' (split <;> try omega)
    · split
      · omega
      · cases r with
        | nil => simp
        | cons d r => simp only [List.length_cons]; split <;> omega

theorem length_nextPoint (cs : Charset) (s : Bytes) : (nextPoint cs s).length = nextSize cs s := by
  simp [nextPoint, nextSize_le]

theorem nextPoint_eq_nil {cs : Charset} {s : Bytes} : nextPoint cs s = [] ↔ nextSize cs s = 0 := by
  rw [← List.length_eq_zero_iff, length_nextPoint]

theorem offset_pos (cs : Charset) (t : Bytes) : 0 < offset cs t := by unfold offset; split <;> omega
theorem offset_eq {cs : Charset} {t : Bytes} (h : nextPoint cs t ≠ []) : offset cs t = (nextPoint cs t).length := by
  rw [length_nextPoint]
  rw [Ne, nextPoint_eq_nil] at h
  unfold offset; split <;> omega

/-! ## The loop ends -/

/-- Where the last `%` would resume. -/
def resume (cs : Charset) (t : Bytes) : Option Bytes := if t = [] then none else some (t.drop (offset cs t))

/-- How much target is left for the last `%`. -/
def resumeLen : Option Bytes → Nat
  | some u => u.length + 1
  | none => 0

theorem resumeLen_le (cs : Charset) (t : Bytes) : resumeLen (resume cs t) ≤ t.length := by
  unfold resume
  have h1 := offset_pos cs t
  split
  · simp [resumeLen]
  · rename_i ht
    have h2 := List.length_pos_iff.2 ht
    show (t.drop _).length + 1 ≤ _
    rw [List.length_drop]
    omega

/-- The part of a loop state that bounds its running time: `seen` tells whether a `%` was met. -/
inductive Phase (cs : Charset) (K : Nat) : St → Nat → Prop where
  /-- no `%` yet -/
  | start {σ : St} {m : Nat} (h : σ.nt = none) (hp : σ.p.length + 2 ≤ K) (hm : (σ.t.length + 1) * K + σ.p.length + 1 ≤ m) :
      Phase cs K σ m
  /-- after a `%`, moving forward -/
  | fwd {σ : St} {m : Nat} (h : σ.nt = resume cs σ.t ∨ ∃ u, σ.nt = some u ∧ σ.t.length ≤ u.length)
      (hn : nextPoint cs σ.np = [0x25#8]) (hnp : σ.np.length + 2 ≤ K)
      (hp : σ.p.length < σ.np.length)
      (hm : resumeLen σ.nt * K + σ.p.length + 1 ≤ m) : Phase cs K σ m
  /-- just fallen back -/
  | again {σ : St} {m : Nat} (h : σ.nt = some σ.t) (hn : nextPoint cs σ.np = [0x25#8])
      (hp : σ.p = σ.np) (hnp : σ.np.length + 2 ≤ K)
      (hm : σ.t.length * K + σ.p.length + 2 ≤ m) : Phase cs K σ m

theorem turn_cases (cs : Charset) (σ : St) :
    (∃ b, turn cs σ = .answer b) ∨ turn cs σ = .invalid ∨ turn cs σ = back σ ∨
    (nextPoint cs σ.p = [0x25#8] ∧ σ.p ≠ [] ∧ turn cs σ = .go ⟨σ.t, σ.p.drop 1, resume cs σ.t, σ.p⟩) ∨
    (∃ p', p'.length < σ.p.length ∧ σ.t ≠ [] ∧
      turn cs σ = .go { σ with t := σ.t.drop (offset cs σ.t), p := p' }) := by
  unfold turn
  by_cases h1 : σ.t = [] ∧ σ.p = []
  · rw [if_pos h1]; exact .inl ⟨_, rfl⟩
  rw [if_neg h1]
  by_cases h2 : σ.p = []
  · rw [if_pos h2]; exact .inr (.inr (.inl rfl))
  rw [if_neg h2]
  have hlen : 0 < σ.p.length := List.length_pos_iff.2 h2
  by_cases h3 : nextPoint cs σ.p = []
  · rw [if_pos h3]; exact .inr (.inl rfl)
  rw [if_neg h3]
  by_cases h4 : nextPoint cs σ.p = [0x5f#8]
  · rw [if_pos h4]
    by_cases h5 : σ.t = []
    · rw [if_pos h5]; exact .inr (.inr (.inl rfl))
    · rw [if_neg h5]; exact .inr (.inr (.inr (.inr ⟨_, by simp; omega, h5, rfl⟩)))
  rw [if_neg h4]
  by_cases h6 : nextPoint cs σ.p = [0x25#8]
  · rw [if_pos h6]; exact .inr (.inr (.inr (.inl ⟨h6, h2, rfl⟩)))
  rw [if_neg h6]
  by_cases h7 : nextPoint cs σ.p = [0x5c#8] ∧ 1 < σ.p.length
  · rw [if_pos h7]
    by_cases h8 : nextPoint cs (σ.p.drop 1) = []
    · rw [if_pos h8]; exact .inr (.inl rfl)
    rw [if_neg h8]
    by_cases h5 : σ.t = []
    · rw [if_pos h5]; exact .inr (.inr (.inl rfl))
    rw [if_neg h5]
    by_cases h9 : nextPoint cs σ.t = []
    · rw [if_pos h9]; exact .inr (.inl rfl)
    rw [if_neg h9]
    by_cases h10 : nextPoint cs (σ.p.drop 1) = nextPoint cs σ.t
    · rw [if_pos h10, ← offset_eq h9]
      exact .inr (.inr (.inr (.inr ⟨_, by simp; omega, h5, rfl⟩)))
    · rw [if_neg h10]; exact .inr (.inr (.inl rfl))
  rw [if_neg h7]
  by_cases h5 : σ.t = []
  · rw [if_pos h5]; exact .inr (.inr (.inl rfl))
  rw [if_neg h5]
  by_cases h9 : nextPoint cs σ.t = []
  · rw [if_pos h9]; exact .inr (.inl rfl)
  rw [if_neg h9]
  by_cases h10 : nextPoint cs σ.p = nextPoint cs σ.t
  · rw [if_pos h10, ← offset_eq h9]
    have := List.length_pos_iff.2 h3
    exact .inr (.inr (.inr (.inr ⟨_, by rw [List.length_drop]; omega, h5, rfl⟩)))
  · rw [if_neg h10]; exact .inr (.inr (.inl rfl))

/-- On a `%` the loop moves past it. -/
theorem turn_percent {cs : Charset} {σ : St} (h : nextPoint cs σ.p = [0x25#8]) :
    turn cs σ = .go ⟨σ.t, σ.p.drop 1, resume cs σ.t, σ.p⟩ := by
  have hp : σ.p ≠ [] := by rintro e; rw [e] at h; simp [nextPoint] at h
  unfold turn
  rw [if_neg (by simp [hp]), if_neg hp, if_neg (by simp [h]), if_neg (by simp [h]), if_pos h]
  rfl

theorem phase_step {cs : Charset} {K m : Nat} {σ σ' : St} (h : Phase cs K σ m) (hs : turn cs σ = .go σ') :
    ∃ m', m' < m ∧ Phase cs K σ' m' := by
  rcases turn_cases cs σ with ⟨b, e⟩ | e | e | ⟨hp, hne, e⟩ | ⟨p', hp', ht, e⟩
  · rw [e] at hs; cases hs
  · rw [e] at hs; cases hs
  · rw [e] at hs
    unfold back at hs
    cases h with
    | start h hp hm => rw [h] at hs; cases hs
    | fwd h hn hnp hp hm =>
      cases hnt : σ.nt with
      | none => rw [hnt] at hs; cases hs
      | some u =>
        rw [hnt] at hs hm
        injection hs with hs
        subst hs
        refine ⟨u.length * K + σ.np.length + 2, ?_, .again rfl hn rfl hnp (Nat.le_refl _)⟩
        simp only [resumeLen, Nat.add_mul, Nat.one_mul] at hm
        omega
    | again h hn hp hnp hm =>
      have := turn_percent (σ := σ) (by rw [hp]; exact hn)
      rw [this] at e
      unfold back at e
      rw [h] at e
      injection e with e
      have := congrArg St.p e
      simp only [hp] at this
      have h2 := congrArg List.length this
      have h3 : σ.np ≠ [] := by rintro e; rw [e] at hn; simp [nextPoint] at hn
      have := List.length_pos_iff.2 h3
      simp at h2
      omega
  · rw [e] at hs
    injection hs with hs
    subst hs
    have hpl := List.length_pos_iff.2 hne
    cases h with
    | start h hp2 hm =>
      refine ⟨resumeLen (resume cs σ.t) * K + (σ.p.drop 1).length + 1, ?_,
        .fwd (.inl rfl) hp hp2 (by simp; omega) (Nat.le_refl _)⟩
      have : resumeLen (resume cs σ.t) ≤ σ.t.length := resumeLen_le cs σ.t
      have := Nat.mul_le_mul_right K this
      rw [Nat.add_mul] at hm
      simp only [List.length_drop]
      omega
    | fwd h hn hnp hp2 hm =>
      refine ⟨resumeLen (resume cs σ.t) * K + (σ.p.drop 1).length + 1, ?_,
        .fwd (.inl rfl) hp (by show σ.p.length + 2 ≤ K; omega) (by simp; omega) (Nat.le_refl _)⟩
      have : resumeLen (resume cs σ.t) ≤
          resumeLen σ.nt := by
        rcases h with h | ⟨u, hu, hl⟩
        · exact Nat.le_of_eq (by rw [h])
        · have := resumeLen_le cs σ.t
          rw [hu]
          show _ ≤ u.length + 1
          omega
      have := Nat.mul_le_mul_right K this
      simp only [List.length_drop]
      omega
    | again h hn hp2 hnp hm =>
      refine ⟨resumeLen (resume cs σ.t) * K + (σ.p.drop 1).length + 1, ?_,
        .fwd (.inl rfl) hp (by rw [hp2]; omega) (by simp; omega) (Nat.le_refl _)⟩
      have : resumeLen (resume cs σ.t) ≤ σ.t.length := resumeLen_le cs σ.t
      have := Nat.mul_le_mul_right K this
      simp only [List.length_drop]
      omega
  · rw [e] at hs
    injection hs with hs
    subst hs
    have htl := List.length_pos_iff.2 ht
    have hoff := offset_pos cs σ.t
    cases h with
    | start h hp hm =>
      refine ⟨((σ.t.drop (offset cs σ.t)).length + 1) * K + p'.length + 1, ?_, .start h (by simp; omega) (Nat.le_refl _)⟩
      have : (σ.t.drop (offset cs σ.t)).length + 1 ≤ σ.t.length + 1 := by simp
      have := Nat.mul_le_mul_right K this
      omega
    | fwd h hn hnp hp hm =>
      refine ⟨resumeLen σ.nt * K + p'.length + 1, by omega,
        .fwd (.inr ?_) hn hnp (by simp; omega) (Nat.le_refl _)⟩
      rcases h with h | ⟨u, hu, hl⟩
      · refine ⟨_, by rw [h]; unfold resume; rw [if_neg ht], Nat.le_refl _⟩
      · exact ⟨u, hu, by simp; omega⟩
    | again h hn hp hnp hm =>
      have := turn_percent (σ := σ) (by rw [hp]; exact hn)
      rw [this] at e
      injection e with e
      have h1 := congrArg St.t e
      have h2 := congrArg List.length h1
      simp at h2
      omega

theorem run_of_phase {cs : Charset} {K : Nat} (n : Nat) : ∀ {m : Nat} {σ : St}, Phase cs K σ m → m ≤ n → run cs n σ ≠ none := by
  induction n with
  | zero =>
    intro m σ h hm
    exfalso
    cases h <;> omega
  | succ n ih =>
    intro m σ h hm
    unfold run
    cases ht : turn cs σ with
    | go σ' =>
      obtain ⟨m', hlt, h'⟩ := phase_step h ht
      exact ih h' (by omega)
    | invalid => simp
    | answer b => simp

/-- The loop ends on every target and every pattern, within `turns` turns. -/
theorem run_ends (cs : Charset) (t p : Bytes) : run cs (turns t p) ⟨t, p, none, []⟩ ≠ none := by
  refine run_of_phase (K := p.length + 3) (m := turns t p) _ (.start rfl (by simp) ?_) (Nat.le_refl _)
  unfold turns
  simp only [Nat.add_mul, Nat.one_mul]
  omega

end BaikalDB.Like
