import Verif.StrFn.Spec

/-! Searching, and the loops that search. -/
namespace BaikalDB.StrFn

theorem prefix_iff {d s : Bytes} : d.isPrefixOf s = true ↔ ∃ b, s = d ++ b := by
  rw [List.isPrefixOf_iff_prefix]
  constructor
  · rintro ⟨b, h⟩; exact ⟨b, h.symm⟩
  · rintro ⟨b, h⟩; exact ⟨b, h.symm⟩

theorem findIn_none {d s : Bytes} (h : findIn d s = none) : ∀ a, ¬ Occurs d s a := by
  induction s with
  | nil =>
    rw [findIn] at h
    split at h
    · cases h
    · rename_i hd
      rintro a ⟨b, hb⟩
      have := congrArg List.length hb
      simp only [List.length_nil, List.length_append] at this
      exact hd (List.length_eq_zero_iff.mp (by omega))
  | cons c r ih =>
    rw [findIn] at h
    split at h
    · cases h
    · rename_i hp
      rw [Option.map_eq_none_iff] at h
      rintro a ⟨b, hb⟩
      cases a with
      | nil => exact hp (prefix_iff.mpr ⟨b, hb⟩)
      | cons x a =>
        rw [List.cons_append, List.cons.injEq] at hb
        exact ih h a ⟨b, hb.2⟩

theorem findIn_some {d s : Bytes} {i : Nat} (h : findIn d s = some i) : ∃ a b, First d s a b ∧ a.length = i := by
  induction s generalizing i with
  | nil =>
    rw [findIn] at h
    split at h
    · rename_i hd
      rw [Option.some.injEq] at h
      exact ⟨[], [], ⟨by simp [hd], fun a' _ => Nat.zero_le _⟩, h⟩
    · cases h
  | cons c r ih =>
    rw [findIn] at h
    split at h
    · rename_i hp
      rw [Option.some.injEq] at h
      obtain ⟨b, hb⟩ := prefix_iff.mp hp
      exact ⟨[], b, ⟨hb, fun a' _ => Nat.zero_le _⟩, h⟩
    · rename_i hp
      obtain ⟨j, hj, rfl⟩ := Option.map_eq_some_iff.mp h
      obtain ⟨a, b, ⟨h1, h2⟩, h3⟩ := ih hj
      refine ⟨c :: a, b, ⟨by rw [h1]; rfl, ?_⟩, by simp [h3]⟩
      rintro a' ⟨b', hb'⟩
      cases a' with
      | nil => exact absurd (prefix_iff.mpr ⟨b', hb'⟩) hp
      | cons x a' =>
        rw [List.cons_append, List.cons.injEq] at hb'
        have := h2 a' ⟨b', hb'.2⟩
        simp only [List.length_cons]
        omega

theorem First.unique {d s a b a' b' : Bytes} (h : First d s a b) (h' : First d s a' b') : a = a' ∧ b = b' := by
  have hl : a.length = a'.length := by
    have h1 := h.2 a' ⟨b', h'.1⟩
    have h2 := h'.2 a ⟨b, h.1⟩
    omega
  have := List.append_inj (h.1.symm.trans h'.1) hl
  exact ⟨this.1, List.append_cancel_left this.2⟩

theorem First.length {d s a b : Bytes} (h : First d s a b) : s.length = a.length + d.length + b.length := by
  rw [h.1]; simp only [List.length_append]; omega

theorem First.take {d s a b : Bytes} (h : First d s a b) : s.take a.length = a := by
  rw [h.1]; exact List.take_left' rfl

theorem First.drop {d s a b : Bytes} (h : First d s a b) : s.drop (a.length + d.length) = b := by
  rw [h.1, ← List.append_assoc]
  exact List.drop_left' (by rw [List.length_append])

theorem Split.total {d : Bytes} (hd : d ≠ []) (n : Nat) (s : Bytes) (hn : s.length ≤ n) : ∃ ps, Split d s ps := by
  induction n generalizing s with
  | zero =>
    have : s = [] := List.length_eq_zero_iff.mp (by omega)
    subst this
    refine ⟨[[]], .last ?_⟩
    rintro a ⟨b, hb⟩
    have := congrArg List.length hb
    simp only [List.length_nil, List.length_append] at this
    exact hd (List.length_eq_zero_iff.mp (by omega))
  | succ n ih =>
    cases h : findIn d s with
    | none => exact ⟨[s], .last (findIn_none h)⟩
    | some i =>
      obtain ⟨a, b, hf, _⟩ := findIn_some h
      have := hf.length
      have hpos : 0 < d.length := List.length_pos_iff.mpr hd
      obtain ⟨ps, hps⟩ := ih b (by omega)
      exact ⟨a :: ps, .cut hf hps⟩

theorem Split.unique {d s : Bytes} {ps qs : List Bytes} (h : Split d s ps) (h' : Split d s qs) : ps = qs := by
  induction h generalizing qs with
  | last hno =>
    cases h' with
    | last => rfl
    | cut hf _ => exact absurd ⟨_, hf.1⟩ (hno _)
  | cut hf _ ih =>
    cases h' with
    | last hno => exact absurd ⟨_, hf.1⟩ (hno _)
    | cut hf' h2 =>
      obtain ⟨rfl, rfl⟩ := hf.unique hf'
      rw [ih h2]

theorem Split.ne_nil {d s : Bytes} {ps : List Bytes} (h : Split d s ps) : ps ≠ [] := by
  cases h <;> simp

theorem joined_cons {d p : Bytes} {ps : List Bytes} (h : ps ≠ []) : joined d (p :: ps) = p ++ (d ++ joined d ps) := by
  cases ps with
  | nil => exact absurd rfl h
  | cons q qs => rfl

theorem Split.joined {d s : Bytes} {ps : List Bytes} (h : Split d s ps) : joined d ps = s := by
  induction h with
  | last _ => rfl
  | cut hf h ih => rw [joined_cons h.ne_nil, ih, hf.1]

theorem find_none {s d : Bytes} {pos : Nat} (hp : pos ≤ s.length) (h : find s d pos = none) : ∀ a, ¬ Occurs d (s.drop pos) a := by
  rw [find, if_pos hp, Option.map_eq_none_iff] at h
  exact findIn_none h

theorem find_some {s d : Bytes} {pos p : Nat} (h : find s d pos = some p) :
    pos ≤ s.length ∧ ∃ a b, First d (s.drop pos) a b ∧ p = pos + a.length := by
  rw [find] at h
  split at h
  · rename_i hp
    obtain ⟨i, hi, rfl⟩ := Option.map_eq_some_iff.mp h
    obtain ⟨a, b, hf, rfl⟩ := findIn_some hi
    exact ⟨hp, a, b, hf, by omega⟩
  · cases h

theorem find_first {s d a b : Bytes} {pos : Nat} (hp : pos ≤ s.length) (h : First d (s.drop pos) a b) :
    find s d pos = some (pos + a.length) := by
  cases hf : find s d pos with
  | none => exact absurd ⟨b, h.1⟩ (find_none hp hf a)
  | some p =>
    obtain ⟨_, a', b', hf', rfl⟩ := find_some hf
    obtain ⟨rfl, rfl⟩ := hf'.unique h
    rfl

theorem find_last {s d : Bytes} {pos : Nat} (h : ∀ a, ¬ Occurs d (s.drop pos) a) : find s d pos = none := by
  cases hf : find s d pos with
  | none => rfl
  | some p =>
    obtain ⟨_, a, b, hf', _⟩ := find_some hf
    exact absurd ⟨b, hf'.1⟩ (h a)

/-! ## `replace` -/

theorem replaceLoop_spec {f t : Bytes} (hf : f ≠ []) {r : Bytes} {ps : List Bytes} (h : Split f r ps) :
    ∀ (fuel : Nat) (s : Bytes) (pos : Nat), pos ≤ s.length → s.drop pos = r → r.length < fuel →
      replaceLoop f t fuel s pos = s.take pos ++ joined t ps := by
  induction h with
  | last hno =>
    intro fuel s pos hp hr hfu
    cases fuel with
    | zero => omega
    | succ fuel =>
      rw [replaceLoop, find_last (by rw [hr]; exact hno)]
      show s = s.take pos ++ _
      rw [StrFn.joined, ← hr, List.take_append_drop]
  | @cut r a b ps hF hS ih =>
    intro fuel s pos hp hr hfu
    cases fuel with
    | zero => omega
    | succ fuel =>
      have hpos : 0 < f.length := List.length_pos_iff.mpr hf
      have hlen := hF.length
      have hrl : r.length = s.length - pos := by rw [← hr, List.length_drop]
      rw [replaceLoop, find_first hp (by rw [hr]; exact hF)]
      show replaceLoop f t fuel (splice s (pos + a.length) f.length t) (pos + a.length + t.length) = _
      have htk : s.take (pos + a.length) = s.take pos ++ a := by
        rw [List.take_add, hr, hF.take]
      have hdr : s.drop (pos + a.length + f.length) = b := by
        rw [Nat.add_assoc, ← List.drop_drop, hr, hF.drop]
      have hsp : splice s (pos + a.length) f.length t = s.take pos ++ a ++ t ++ b := by
        rw [splice, htk, hdr]
      have hl1 : (s.take pos ++ a ++ t).length = pos + a.length + t.length := by
        simp only [List.length_append, List.length_take]; omega
      rw [ih fuel _ _ ?_ ?_ (by omega), hsp, List.take_left' hl1, joined_cons hS.ne_nil]
      · simp only [List.append_assoc]
      · rw [hsp]; simp only [List.length_append, List.length_take]; omega
      · rw [hsp]; exact List.drop_left' hl1

/-! ## `split_part` -/

theorem partLoop_spec {d : Bytes} {r : Bytes} {ps : List Bytes} (h : Split d r ps) (s : Bytes) (idx : Int) :
    ∀ (fuel start : Nat) (cur : Int), start ≤ s.length → s.drop start = r → cur ≤ idx → (idx - cur).toNat < fuel →
      partLoop s d idx fuel start (find s d start) cur = ps.getD (idx - cur).toNat [] := by
  induction h with
  | last hno =>
    intro fuel start cur hp hr hc hfu
    cases fuel with
    | zero => omega
    | succ fuel =>
      rw [find_last (by rw [hr]; exact hno), partLoop]
      by_cases hci : cur = idx
      · rw [if_pos hci, hr, hci]; simp
      · rw [if_neg hci]
        obtain ⟨k, hk⟩ : ∃ k, (idx - cur).toNat = k + 1 := ⟨(idx - cur).toNat - 1, by omega⟩
        rw [hk]; rfl
  | @cut r a b ps hF hS ih =>
    intro fuel start cur hp hr hc hfu
    cases fuel with
    | zero => omega
    | succ fuel =>
      have hlen := hF.length
      have hrl : r.length = s.length - start := by rw [← hr, List.length_drop]
      rw [find_first hp (by rw [hr]; exact hF), partLoop]
      by_cases hci : cur = idx
      · rw [if_pos hci, hr, show start + a.length - start = a.length by omega, hF.take, hci]; simp
      · rw [if_neg hci, ih fuel _ (cur + 1) (by omega) ?_ (by omega) (by omega)]
        · obtain ⟨k, hk⟩ : ∃ k, (idx - cur).toNat = k + 1 := ⟨(idx - cur).toNat - 1, by omega⟩
          rw [hk, show (idx - (cur + 1)).toNat = k by omega]; rfl
        · rw [Nat.add_assoc, ← List.drop_drop, hr, hF.drop]

/-! ## `substring_index` -/

theorem places_spec {d : Bytes} (hd : d ≠ []) {r : Bytes} {ps : List Bytes} (h : Split d r ps) (s : Bytes) :
    ∀ (fuel start : Nat), start ≤ s.length → s.drop start = r → r.length < fuel →
      (places s d fuel start).length + 1 = ps.length ∧
      ∀ (k : Nat), k < (places s d fuel start).length →
        s.take ((places s d fuel start).getD k 0) = s.take start ++ joined d (ps.take (k + 1)) ∧
        s.drop ((places s d fuel start).getD k 0 + d.length) = joined d (ps.drop (k + 1)) := by
  induction h with
  | last hno =>
    intro fuel start hp hr hfu
    cases fuel with
    | zero => omega
    | succ fuel =>
      rw [places, find_last (by rw [hr]; exact hno)]
      exact ⟨rfl, fun k hk => nomatch hk⟩
  | @cut r a b ps hF hS ih =>
    intro fuel start hp hr hfu
    cases fuel with
    | zero => omega
    | succ fuel =>
      have hpos : 0 < d.length := List.length_pos_iff.mpr hd
      have hlen := hF.length
      have hrl : r.length = s.length - start := by rw [← hr, List.length_drop]
      have htk : s.take (start + a.length) = s.take start ++ a := by
        rw [List.take_add, hr, hF.take]
      have hdr : s.drop (start + a.length + d.length) = b := by
        rw [Nat.add_assoc, ← List.drop_drop, hr, hF.drop]
      obtain ⟨i1, i2⟩ := ih fuel (start + a.length + d.length) (by omega) hdr (by omega)
      rw [places, find_first hp (by rw [hr]; exact hF)]
      refine ⟨by simp only [List.length_cons]; omega, ?_⟩
      intro k hk
      cases k with
      | zero =>
        show s.take (start + a.length) = s.take start ++ joined d [a] ∧ s.drop (start + a.length + d.length) = joined d ps
        exact ⟨htk, by rw [hdr, hS.joined]⟩
      | succ k =>
        simp only [List.length_cons] at hk
        obtain ⟨j1, j2⟩ := i2 k (by omega)
        have hd1 : ((start + a.length) :: places s d fuel (start + a.length + d.length)).getD (k + 1) 0 =
            (places s d fuel (start + a.length + d.length)).getD k 0 := rfl
        refine ⟨?_, ?_⟩
        · show s.take (List.getD ((start + a.length) :: _) (k + 1) 0) = _
          rw [hd1, j1, List.take_succ_cons, joined_cons (by
            intro h0
            have := congrArg List.length h0
            rw [List.length_take, List.length_nil] at this
            have := List.length_pos_iff.mpr hS.ne_nil
            omega)]
          have : s.take (start + a.length + d.length) = s.take start ++ a ++ d := by
            rw [List.take_add, htk, ← List.drop_drop, hr, hF.1, List.drop_left' rfl, List.take_left' rfl]
          rw [this]
          simp only [List.append_assoc]
        · show s.drop (List.getD ((start + a.length) :: _) (k + 1) 0 + d.length) = _
          rw [hd1, j2, List.drop_succ_cons]

/-! ## Lists cut at commas -/

theorem commas_ne (s : Bytes) : commas s ≠ [] := by
  cases s with
  | nil => simp [commas]
  | cons c r =>
    rw [commas]
    split
    · simp
    · split <;> simp

theorem split_byte_cons {c x : Nat} {r : Bytes} {p : Bytes} {ps : List Bytes} (hx : x ≠ c) (h : Split [c] r (p :: ps)) :
    Split [c] (x :: r) ((x :: p) :: ps) := by
  cases h with
  | last hno =>
    refine .last ?_
    rintro a ⟨b, hb⟩
    cases a with
    | nil => exact hx (by simpa using congrArg List.head? hb)
    | cons y a =>
      rw [List.cons_append, List.cons.injEq] at hb
      exact hno a ⟨b, hb.2⟩
  | @cut _ a b ps hF hS =>
    refine .cut ⟨?_, ?_⟩ hS
    · rw [hF.1]; rfl
    · rintro a' ⟨b', hb'⟩
      cases a' with
      | nil => exact absurd (by simpa using congrArg List.head? hb') hx
      | cons y a' =>
        rw [List.cons_append, List.cons.injEq] at hb'
        have := hF.2 a' ⟨b', hb'.2⟩
        simp only [List.length_cons]; omega

theorem commas_split (s : Bytes) : Split [44] s (commas s) := by
  induction s with
  | nil =>
    refine .last ?_
    rintro a ⟨b, hb⟩
    have := congrArg List.length hb
    simp at this
  | cons c r ih =>
    rw [commas]
    by_cases h : c = 44
    · rw [if_pos h]
      exact .cut ⟨by rw [h]; rfl, fun a' _ => Nat.zero_le _⟩ ih
    · rw [if_neg h]
      cases hc : commas r with
      | nil => exact absurd hc (commas_ne r)
      | cons p ps => rw [hc] at ih; exact split_byte_cons h ih

/-! ## Padding -/

theorem padding_spec {p : Bytes} (hp : p ≠ []) (fuel n : Nat) (hf : n ≤ fuel) :
    (padding p fuel n).length = n ∧ ∀ i : Nat, i < n → (padding p fuel n)[i]? = p[i % p.length]? := by
  have hpos : 0 < p.length := List.length_pos_iff.mpr hp
  induction fuel generalizing n with
  | zero =>
    have : n = 0 := by omega
    subst this
    exact ⟨by simp [padding], fun i hi => by omega⟩
  | succ fuel ih =>
    rw [padding]
    split
    · obtain ⟨h1, h2⟩ := ih (n - p.length) (by omega)
      refine ⟨by rw [List.length_append, h1]; omega, ?_⟩
      intro i hi
      by_cases hlt : i < p.length
      · rw [List.getElem?_append_left hlt, Nat.mod_eq_of_lt hlt]
      · rw [List.getElem?_append_right (by omega), h2 _ (by omega)]
        congr 1
        rw [← Nat.mod_eq_sub_mod (by omega)]
    · refine ⟨by rw [List.length_take]; omega, ?_⟩
      intro i hi
      rw [List.getElem?_take_of_lt hi, Nat.mod_eq_of_lt (by omega)]

end BaikalDB.StrFn
