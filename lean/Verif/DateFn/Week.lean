import Verif.DateFn.Lemmas

namespace BaikalDB.DateFn
open BaikalDB.Datetime
open BaikalDB.Datetime.Spec (Valid later epoch yearLen Leap Date)
open Spec

theorem weekEnd_eq (f : Flags) (y doy fw contain : Int) (h0 : 0 ≤ fw)
    (hd : 0 ≤ if notFirst f fw contain = true then doy - contain - 1 else doy - contain - 1 + 7) :
    weekEnd f y doy fw contain =
      let days := if notFirst f fw contain then doy - contain - 1 else doy - contain - 1 + 7
      if !f.zero && decide (days ≥ 52 * 7) &&
        ((f.four && decide (contain ≥ 4)) || (!f.four && decide ((fw + yearLen y) % 7 = 0))) then (y + 1, 1)
      else (y, days / 7 + 1) := by
  have := yearLen_vals y
  unfold weekEnd
  simp only
  rw [daysInYear_eq, tmod7 _ (by omega), tdiv7 _ hd]

/-- The weekday of January 1st in weeks as the mode has them. -/
def fwOf (mon : Bool) (y : Int) : Int := (jan1 y + 4 - (if mon then 1 else 0)) % 7

theorem one_eq (mon four : Bool) (y : Int) : one mon four y =
    if notFirst ⟨mon, true, four⟩ (fwOf mon y) (7 - fwOf mon y) then jan1 y - fwOf mon y + 7 else jan1 y - fwOf mon y := by
  unfold one fwOf notFirst
  generalize (jan1 y + 4 - (if mon then 1 else 0)) % 7 = r
  cases four <;> simp
  · split <;> omega
  · by_cases h : r ≤ 3
    · rw [if_pos h, if_neg (by omega)]
    · rw [if_neg h, if_pos (by omega)]

theorem notFirst_zero (mon z z' four : Bool) (a b : Int) : notFirst ⟨mon, z, four⟩ a b = notFirst ⟨mon, z', four⟩ a b := rfl

theorem fw_prev (mon : Bool) (y : Int) :
    (fwOf mon y + 53 * 7 - daysInYear (y - 1)).tmod 7 = fwOf mon (y - 1) := by
  have := yearLen_vals (y - 1)
  have e := jan1_succ (y - 1)
  rw [show y - 1 + 1 = y by omega] at e
  rw [daysInYear_eq, tmod7 _ (by unfold fwOf; omega)]
  unfold fwOf
  omega

theorem fw_next (mon : Bool) (y : Int) : (fwOf mon y + yearLen y) % 7 = fwOf mon (y + 1) := by
  have e := jan1_succ y
  unfold fwOf
  omega

theorem fw_range (mon : Bool) (y : Int) : 0 ≤ fwOf mon y ∧ fwOf mon y < 7 := by unfold fwOf; omega

/-- The code on a day of the calendar. -/
theorem weekOf_eq (f : Flags) (y m d n : Int) (hs : Setting y m d n) :
    weekOf f y m d (n - jan1 y + 1) (dayOfWeek (jan1 y)) =
      if n < one f.monday f.four y then
        (if f.zero then (y, 0)
         else weekEnd f (y - 1) (n - jan1 (y - 1) + 1) (fwOf f.monday (y - 1)) (7 - fwOf f.monday (y - 1)))
      else weekEnd f y (n - jan1 y + 1) (fwOf f.monday y) (7 - fwOf f.monday y) := by
  obtain ⟨mon, z, four⟩ := f
  have hw : dayOfWeek (jan1 y) = (jan1 y + 4) % 7 := wdayOf_eq _
  have hfw := fw_eq mon (jan1 y)
  have hr := fw_range mon y
  unfold weekOf
  simp only
  rw [hw, hfw]
  change (if m = 1 ∧ d ≤ 7 - fwOf mon y ∧ notFirst ⟨mon, z, four⟩ (fwOf mon y) (7 - fwOf mon y) = true then _ else _) = _
  rw [one_eq, notFirst_zero mon true z]
  have hj := hs.jan
  have ho := hs.other
  have hlo := hs.lo
  have e := jan1_succ (y - 1)
  rw [show y - 1 + 1 = y by omega] at e
  by_cases hn : notFirst ⟨mon, z, four⟩ (fwOf mon y) (7 - fwOf mon y) = true
  · rw [if_pos hn]
    by_cases hm : n < jan1 y - fwOf mon y + 7
    · have h1 : m = 1 := by
        apply Classical.byContradiction; intro h; have := ho h; omega
      rw [if_pos hm, if_pos ⟨h1, by have := hj h1; omega, hn⟩]
      cases z
      · simp only [if_false, Bool.false_eq_true]
        have hp := fw_prev mon y
        unfold fwOf at hp ⊢
        rw [hp, daysInYear_eq]
        congr 1; omega
      · rfl
    · rw [if_neg hm, if_neg (fun h => by have := hj h.1; omega)]; rfl
  · rw [if_neg hn, if_neg (fun h => hn h.2.2), if_neg (c := n < jan1 y - fwOf mon y) (by omega)]; rfl

theorem daysOf_eq (mon z four : Bool) (y n : Int) :
    (if notFirst ⟨mon, z, four⟩ (fwOf mon y) (7 - fwOf mon y) = true then n - jan1 y + 1 - (7 - fwOf mon y) - 1
      else n - jan1 y + 1 - (7 - fwOf mon y) - 1 + 7) = n - one mon four y := by
  rw [one_eq, notFirst_zero mon true z]
  split <;> omega

/-- The end of the code, in terms of the first day of week 1. -/
theorem weekEnd_spec (f : Flags) (y n : Int) (h : one f.monday f.four y ≤ n) :
    weekEnd f y (n - jan1 y + 1) (fwOf f.monday y) (7 - fwOf f.monday y) =
      if f.zero = false ∧ one f.monday f.four y + 364 ≤ n ∧
        (if f.four then fwOf f.monday y ≤ 3 else fwOf f.monday (y + 1) = 0) then (y + 1, 1)
      else (y, (n - one f.monday f.four y) / 7 + 1) := by
  obtain ⟨mon, z, four⟩ := f
  have hd := daysOf_eq mon z four y n
  simp only at h ⊢
  rw [weekEnd_eq _ _ _ _ _ (fw_range mon y).1 (by rw [hd]; omega)]
  simp only [hd, fw_next]
  congr 1
  cases z <;> cases four <;> simp
  · intro _; omega
  · omega

theorem weekEnd_zero (mon four : Bool) (y n : Int) (h : one mon four y ≤ n) :
    weekEnd ⟨mon, true, four⟩ y (n - jan1 y + 1) (fwOf mon y) (7 - fwOf mon y) = (y, (n - one mon four y) / 7 + 1) := by
  have := weekEnd_spec ⟨mon, true, four⟩ y n h
  simpa using this

/-- Weeks counted within the year. -/
theorem week_zero (mon four : Bool) (y m d n : Int) (hs : Setting y m d n) :
    ∃ k, weekOf ⟨mon, true, four⟩ y m d (n - jan1 y + 1) (dayOfWeek (jan1 y)) = (y, k) ∧ InOwnYear mon four n y k := by
  rw [weekOf_eq _ _ _ _ _ hs]
  simp only
  by_cases h : n < one mon four y
  · rw [if_pos h]; exact ⟨0, rfl, (inOwn_iff _ _ _ _ _).mpr (by rw [if_pos h])⟩
  · rw [if_neg h, weekEnd_zero mon four y n (by omega)]
    exact ⟨_, rfl, (inOwn_iff _ _ _ _ _).mpr (by rw [if_neg h])⟩

theorem one_bounds (mon four : Bool) (y : Int) : jan1 y - 3 ≤ one mon four y ∧ one mon four y ≤ jan1 y + 6 := by
  unfold one
  generalize jan1 y = J
  cases mon <;> cases four <;> simp <;> constructor <;> split <;> omega

/-- Weeks counted over years, where week 1 starts in its year. -/
theorem week_year (mon : Bool) (y m d n : Int) (hs : Setting y m d n) :
    ∃ Y k, weekOf ⟨mon, false, false⟩ y m d (n - jan1 y + 1) (dayOfWeek (jan1 y)) = (Y, k) ∧ InWeek mon false n Y k := by
  rw [weekOf_eq _ _ _ _ _ hs]
  have hlo := hs.lo
  have hhi := hs.hi
  have e1 := jan1_succ (y - 1)
  have e2 := jan1_succ y
  have v1 := yearLen_vals (y - 1)
  have v2 := yearLen_vals y
  rw [show y - 1 + 1 = y by omega] at e1
  simp only [Bool.false_eq_true, if_false]
  by_cases h : n < one mon false y
  · rw [if_pos h]
    have hb := one_bounds mon false (y - 1)
    have hle : one mon false (y - 1) ≤ n := by omega
    have hw := weekEnd_spec ⟨mon, false, false⟩ (y - 1) n hle
    simp only [Bool.false_eq_true, if_false, true_and, show y - 1 + 1 = y by omega] at hw
    rw [hw]
    have hne : ¬ (one mon false (y - 1) + 364 ≤ n ∧ fwOf mon y = 0) := by
      rintro ⟨-, h0⟩
      unfold one at h
      unfold fwOf at h0
      simp only [Bool.false_eq_true, if_false, h0, if_true] at h
      omega
    rw [if_neg hne]
    exact ⟨_, _, rfl, (inWeek_iff _ _ _ _ _).mpr ⟨hle, by rw [show y - 1 + 1 = y by omega]; exact h, rfl⟩⟩
  · rw [if_neg h]
    have hle : one mon false y ≤ n := by omega
    have hw := weekEnd_spec ⟨mon, false, false⟩ y n hle
    simp only [Bool.false_eq_true, if_false, true_and] at hw
    rw [hw]
    have hb := one_bounds mon false (y + 1)
    have hJ : jan1 (y + 1) ≤ one mon false (y + 1) := by
      unfold one
      simp only [Bool.false_eq_true, if_false]
      split <;> omega
    by_cases hc : one mon false y + 364 ≤ n ∧ fwOf mon (y + 1) = 0
    · exfalso
      obtain ⟨h1, h2⟩ := hc
      unfold one at h1
      unfold fwOf at h2
      simp only [Bool.false_eq_true, if_false] at h1
      rw [e2] at h2
      cases mon <;> simp at h1 h2 <;> split at h1 <;> omega
    · rw [if_neg hc]
      exact ⟨_, _, rfl, (inWeek_iff _ _ _ _ _).mpr ⟨hle, by omega, rfl⟩⟩

/-- Weeks counted over years, where four days make a first week: what the code answers, against what it should. -/
theorem week_four (mon : Bool) (y m d n Y k : Int) (hs : Setting y m d n) (h : InWeek mon true n Y k) :
    weekOf ⟨mon, false, true⟩ y m d (n - jan1 y + 1) (dayOfWeek (jan1 y)) =
      if Y ≤ y then (if k = 53 then (Y + 1, 1) else (Y, k))
      else if fwOf mon y ≤ 3 then (Y, k) else (y, 53) := by
  rw [weekOf_eq _ _ _ _ _ hs]
  rw [inWeek_iff] at h
  obtain ⟨h1, h2, h3⟩ := h
  have hlo := hs.lo
  have hhi := hs.hi
  have e1 := jan1_succ (y - 1)
  have e2 := jan1_succ y
  have v1 := yearLen_vals (y - 1)
  have v2 := yearLen_vals y
  rw [show y - 1 + 1 = y by omega] at e1
  have b0 := one_bounds mon true (y - 1)
  have b1 := one_bounds mon true y
  have b2 := one_bounds mon true (y + 1)
  have b3 := one_succ mon true (y + 1)
  simp only [Bool.false_eq_true, if_false]
  have key : ∀ x, one mon true x + 364 ≤ n → n < one mon true (x + 1) → fwOf mon x ≤ 3 := by
    intro x
    have e := jan1_succ x
    have v := yearLen_vals x
    unfold one fwOf
    rw [e]
    simp only [if_true]
    generalize (if mon = true then (1 : Int) else 0) = c
    intro g1 g2
    split at g1 <;> split at g2 <;> omega
  have key2 : one mon true (y + 1) ≤ n → 3 < fwOf mon y → one mon true y + 364 ≤ n ∧ n < one mon true y + 371 := by
    unfold one fwOf
    rw [e2]
    simp only [if_true]
    generalize (if mon = true then (1 : Int) else 0) = c
    intro g1 g2
    rw [if_neg (by omega)]
    split at g1 <;> omega
  have key3 : one mon true (y + 1) ≤ n → fwOf mon y ≤ 3 → one mon true y + 364 ≤ n := by
    unfold one fwOf
    rw [e2]
    simp only [if_true]
    generalize (if mon = true then (1 : Int) else 0) = c
    intro g1 g2
    rw [if_pos (by omega)]
    split at g1 <;> omega
  have top : ∀ x, one mon true (x + 1) ≤ one mon true x + 371 := by
    intro x
    have e := jan1_succ x
    have v := yearLen_vals x
    unfold one
    rw [e]
    simp only [if_true]
    generalize (if mon = true then (1 : Int) else 0) = c
    split <;> split <;> omega
  by_cases hp : n < one mon true y
  · have hY : Y = y - 1 := by
      have hi : InWeek mon true n (y - 1) ((n - one mon true (y - 1)) / 7 + 1) :=
        (inWeek_iff _ _ _ _ _).mpr ⟨by omega, by rw [show y - 1 + 1 = y by omega]; exact hp, rfl⟩
      exact (inWeek_unique ((inWeek_iff _ _ _ _ _).mpr ⟨h1, h2, h3⟩) hi).1
    subst hY
    rw [if_pos hp, if_pos (c := y - 1 ≤ y) (by omega)]
    have hw := weekEnd_spec ⟨mon, false, true⟩ (y - 1) n h1
    simp only [if_true, true_and, show y - 1 + 1 = y by omega] at hw ⊢
    rw [hw]
    have ht := top (y - 1)
    rw [show y - 1 + 1 = y by omega] at ht
    by_cases hk : one mon true (y - 1) + 364 ≤ n
    · rw [if_pos ⟨hk, key (y - 1) hk (by rw [show y - 1 + 1 = y by omega]; exact hp)⟩, if_pos (by omega)]
    · rw [if_neg (fun h => hk h.1), if_neg (by omega), h3]
  · rw [if_neg hp]
    have hw := weekEnd_spec ⟨mon, false, true⟩ y n (by simp only; omega)
    simp only [if_true, true_and] at hw
    rw [hw]
    by_cases hq : n < one mon true (y + 1)
    · have hY : Y = y := (inWeek_unique ((inWeek_iff _ _ _ _ _).mpr ⟨h1, h2, h3⟩)
        ((inWeek_iff _ _ _ _ _).mpr ⟨by omega, hq, rfl⟩)).1
      subst hY
      rw [if_pos (c := Y ≤ Y) (by omega)]
      have ht := top Y
      by_cases hk : one mon true Y + 364 ≤ n
      · rw [if_pos ⟨hk, key Y hk hq⟩, if_pos (by omega)]
      · rw [if_neg (fun h => hk h.1), if_neg (by omega), h3]
    · have hY := inWeek_unique ((inWeek_iff _ _ _ _ _).mpr ⟨h1, h2, h3⟩)
        ((inWeek_iff mon true n (y + 1) _).mpr ⟨by omega, by omega, rfl⟩)
      obtain ⟨rfl, hk⟩ := hY
      rw [if_neg (c := y + 1 ≤ y) (by omega)]
      by_cases hf : fwOf mon y ≤ 3
      · rw [if_pos ⟨key3 (by omega) hf, hf⟩, if_pos hf]
        congr 1; omega
      · rw [if_neg (fun h => hf h.2), if_neg hf]
        have := key2 (by omega) (by omega)
        congr 1; omega

end BaikalDB.DateFn
