import Verif.Datetime.Props
import Verif.Expr.Props
/-!
# C30, C31: the text of DATETIME, DATE and TIME values
-/
namespace BaikalDB.Datetime
open BaikalDB.Expr (isDig isSpace natDec decVal natDec_digits)

/-! ## Digits -/

/-- `w` digits with value `n`. -/
structure Run (w n : Nat) (ds : Bytes) : Prop where
  len : ds.length = w
  dig : ∀ c ∈ ds, isDig c = true
  val : decVal ds = n

theorem natDec_len (w n : Nat) (hw : 1 ≤ w) (h : n < 10 ^ w) : (natDec n).length ≤ w := by
  induction w generalizing n with
  | zero => omega
  | succ w ih =>
    unfold natDec
    split
    · simp
    · next hn =>
      rw [List.length_append]
      have hw' : 1 ≤ w := by
        by_contra hc
        have : w = 0 := by omega
        subst this; simp at h; omega
      have := ih (n / 10) hw' (by rw [Nat.pow_succ] at h; omega)
      simp only [List.length_cons, List.length_nil]; omega

theorem decVal_zeros (k : Nat) (l : Bytes) : decVal (List.replicate k 0x30#8 ++ l) = decVal l := by
  unfold decVal
  rw [List.foldl_append]
  congr 1
  induction k with
  | zero => rfl
  | succ k ih => rw [List.replicate_succ, List.foldl_cons]; exact ih

theorem pad_run (w n : Nat) (hw : 1 ≤ w) (h : n < 10 ^ w) : Run w n (pad w n) := by
  obtain ⟨d1, d2, d3⟩ := natDec_digits n
  have hl := natDec_len w n hw h
  refine ⟨?_, ?_, ?_⟩
  · unfold pad; rw [List.length_append, List.length_replicate]; omega
  · intro c hc
    unfold pad at hc
    rw [List.mem_append] at hc
    rcases hc with hc | hc
    · rw [List.eq_of_mem_replicate hc]; decide
    · exact d1 c hc
  · unfold pad; rw [decVal_zeros, d3]

theorem dig_facts {c : Byte} (h : isDig c = true) :
    isSpace c = false ∧ c ≠ 0x2d#8 ∧ c ≠ 0x2b#8 ∧ c ≠ 0x2e#8 ∧ c ≠ 0x20#8 ∧ c ≠ 0x3a#8 ∧ c ≠ 0 ∧ isAlnum c = true := by
  have hd' : 0x30 ≤ c.toNat ∧ c.toNat ≤ 0x39 := by simpa [isDig] using h
  refine ⟨?_, ?_, ?_, ?_, ?_, ?_, ?_, ?_⟩
  · have : c ≠ 0x20#8 := by rintro rfl; simp at hd'
    simp [isSpace, this]; omega
  · rintro rfl; simp at hd'
  · rintro rfl; simp at hd'
  · rintro rfl; simp at hd'
  · rintro rfl; simp at hd'
  · rintro rfl; simp at hd'
  · rintro rfl; simp at hd'
  · simp [isAlnum, h]

theorem takeWhile_dig (ds r : Bytes) (h : ∀ c ∈ ds, isDig c = true) (hr : ∀ c, r.head? = some c → isDig c = false) :
    (ds ++ r).takeWhile isDig = ds := by
  rw [List.takeWhile_append_of_pos h]
  cases r with
  | nil => simp
  | cons c r => rw [List.takeWhile_cons_of_neg (by simp [hr c rfl]), List.append_nil]

/-- A number conversion of width `w` reads a run of `w` digits. -/
theorem scanNum_run {w n : Nat} {ds : Bytes} (h : Run w n ds) (hw : 1 ≤ w) (r : Bytes) :
    scanNum (some w) (ds ++ r) = some ((n : Int), r) := by
  obtain ⟨h1, h2, h3⟩ := h
  obtain ⟨c, t, rfl⟩ : ∃ c t, ds = c :: t := by
    cases ds with
    | nil => simp at h1; omega
    | cons c t => exact ⟨c, t, rfl⟩
  have hc := dig_facts (h2 c List.mem_cons_self)
  have ht : (c :: (t ++ r)).take w = c :: t := by
    rw [← List.cons_append, List.take_append_of_le_length (by omega), List.take_of_length_le (by omega)]
  have htw : (c :: t).takeWhile isDig = c :: t := by
    have := takeWhile_dig (c :: t) [] h2 (by simp); simpa using this
  unfold scanNum
  rw [List.cons_append, List.dropWhile_cons_of_neg (by simp [hc.1])]
  simp only []
  rw [if_neg (by simp [hc.2.1, hc.2.2.1])]
  simp only [digits, ht, htw]
  rw [← List.cons_append, List.drop_left]
  simp [h3]

/-- A number conversion without width reads digits up to the first other character. -/
theorem scanNum_free {w n : Nat} {ds : Bytes} (h : Run w n ds) (hw : 1 ≤ w) (r : Bytes)
    (hr : ∀ c, r.head? = some c → isDig c = false) : scanNum none (ds ++ r) = some ((n : Int), r) := by
  obtain ⟨h1, h2, h3⟩ := h
  obtain ⟨c, t, rfl⟩ : ∃ c t, ds = c :: t := by
    cases ds with
    | nil => simp at h1; omega
    | cons c t => exact ⟨c, t, rfl⟩
  have hc := dig_facts (h2 c List.mem_cons_self)
  have htw := takeWhile_dig (c :: t) r h2 hr
  unfold scanNum
  rw [List.cons_append, List.dropWhile_cons_of_neg (by simp [hc.1])]
  simp only []
  rw [if_neg (by simp [hc.2.1, hc.2.2.1])]
  simp only [digits, ← List.cons_append, htw, List.drop_left]
  simp [h3]

theorem scan_num {w n : Nat} {ds : Bytes} (h : Run w n ds) (hw : 1 ≤ w) (r : Bytes) (fs : List Dir) :
    scan (.num (some w) :: fs) (ds ++ r) = (n : Int) :: scan fs r := by
  rw [scan, scanNum_run h hw]

theorem scan_free {w n : Nat} {ds : Bytes} (h : Run w n ds) (hw : 1 ≤ w) (r : Bytes)
    (hr : ∀ c, r.head? = some c → isDig c = false) (fs : List Dir) :
    scan (.num none :: fs) (ds ++ r) = (n : Int) :: scan fs r := by
  rw [scan, scanNum_free h hw r hr]

theorem Run.cons {w n : Nat} {ds : Bytes} (h : Run w n ds) (hw : 1 ≤ w) : ∃ c t, ds = c :: t ∧ isDig c = true := by
  cases ds with
  | nil => have := h.len; simp at this; omega
  | cons c t => exact ⟨c, t, rfl, h.dig c List.mem_cons_self⟩

theorem scan_skip {w n : Nat} {ds : Bytes} (h : Run w n ds) (hw : 1 ≤ w) (c : Byte) (hc : isAlnum c = false) (r : Bytes)
    (fs : List Dir) : scan (.skip :: fs) (c :: (ds ++ r)) = scan fs (ds ++ r) := by
  obtain ⟨d, t, rfl, hd⟩ := h.cons hw
  have ha := (dig_facts hd).2.2.2.2.2.2.2
  rw [scan, List.takeWhile_cons_of_pos (by simp [hc]), if_neg (by simp), List.dropWhile_cons_of_pos (by simp [hc]),
    List.cons_append, List.dropWhile_cons_of_neg (by simp [ha])]

theorem scan_chr (c : Byte) (r : Bytes) (fs : List Dir) : scan (.chr c :: fs) (c :: r) = scan fs r := by
  simp [scan]

theorem scan_skip_nil (fs : List Dir) : scan (.skip :: fs) [] = [] := by simp [scan]
theorem scan_chr_nil (c : Byte) (fs : List Dir) : scan (.chr c :: fs) [] = [] := by simp [scan]

/-- The loop over digits. -/
theorem loop_dig (delim : Bool) (ds r : Bytes) (h : ∀ c ∈ ds, isDig c = true) (i cnt : Nat) (y : Option Nat) :
    scanLoop delim (ds ++ r) i cnt y = scanLoop delim r (i + ds.length) cnt y := by
  induction ds generalizing i with
  | nil => simp
  | cons c t ih =>
    have hc := h c List.mem_cons_self
    have hf := dig_facts hc
    rw [List.cons_append, scanLoop]
    have ih' := ih (fun d hd => h d (List.mem_cons_of_mem _ hd)) (i + 1)
    cases delim with
    | true => simp only [hc, if_true]; rw [if_neg (by simp [hf.2.2.2.1]), ih']; simp only [List.length_cons]; congr 1; omega
    | false => simp only [Bool.false_eq_true, if_false]; rw [if_neg (by simp [hf.2.2.2.1]), ih']; simp only [List.length_cons]; congr 1; omega

theorem loop_delim (c : Byte) (r : Bytes) (hc : isDig c = false) (hp : c ≠ 0x2e#8) (i cnt : Nat) (y : Option Nat) :
    scanLoop true (c :: r) i cnt y = scanLoop true r (i + 1) (cnt + 1) (y <|> some i) := by
  rw [scanLoop]
  simp [hc, hp]

theorem loop_point (r : Bytes) (i cnt : Nat) (y : Option Nat) (h : 5 ≤ cnt) :
    scanLoop true (0x2e#8 :: r) i cnt y = (i, y <|> some i) := by
  rw [scanLoop]
  have : isDig 0x2e#8 = false := by decide
  simp [this]; omega

theorem loop_nil (delim : Bool) (i cnt : Nat) (y : Option Nat) : scanLoop delim [] i cnt y = (i, y) := rfl

/-- The text up to the seconds from six runs of digits. -/
def secRuns (Y M D H I S r : Bytes) : Bytes :=
  Y ++ (0x2d#8 :: (M ++ (0x2d#8 :: (D ++ (0x20#8 :: (H ++ (0x3a#8 :: (I ++ (0x3a#8 :: (S ++ r))))))))))

theorem loop_sec {y m d h i s : Nat} {Y M D H I S : Bytes} (hY : Run 4 y Y) (hM : Run 2 m M) (hD : Run 2 d D) (hH : Run 2 h H)
    (hI : Run 2 i I) (hS : Run 2 s S) (r : Bytes) :
    scanLoop true (secRuns Y M D H I S r) 0 0 none = scanLoop true r 19 5 (some 4) := by
  unfold secRuns
  rw [loop_dig _ _ _ hY.dig, loop_delim _ _ (by decide) (by decide), loop_dig _ _ _ hM.dig,
    loop_delim _ _ (by decide) (by decide), loop_dig _ _ _ hD.dig, loop_delim _ _ (by decide) (by decide),
    loop_dig _ _ _ hH.dig, loop_delim _ _ (by decide) (by decide), loop_dig _ _ _ hI.dig,
    loop_delim _ _ (by decide) (by decide), loop_dig _ _ _ hS.dig]
  rw [hY.len, hM.len, hD.len, hH.len, hI.len, hS.len]
  rfl

theorem scan_sec {y m d h i s : Nat} {Y M D H I S : Bytes} (hY : Run 4 y Y) (hM : Run 2 m M) (hD : Run 2 d D) (hH : Run 2 h H)
    (hI : Run 2 i I) (hS : Run 2 s S) (r : Bytes) :
    scan fmtDelim (secRuns Y M D H I S r) =
      [(y : Int), (m : Int), (d : Int), (h : Int), (i : Int), (s : Int)] ++ scan [.chr 0x2e#8, .num (some 6)] r := by
  unfold secRuns fmtDelim
  rw [scan_num hY (by decide), scan_skip hM (by decide) _ (by decide), scan_num hM (by decide),
    scan_skip hD (by decide) _ (by decide), scan_num hD (by decide), scan_skip hH (by decide) _ (by decide),
    scan_num hH (by decide), scan_skip hI (by decide) _ (by decide), scan_num hI (by decide),
    scan_skip hS (by decide) _ (by decide), scan_num hS (by decide)]
  rfl

theorem ulong_nat (n : Nat) (h : n < 2 ^ 64) : ulong (n : Int) = n := by
  unfold ulong; omega

theorem run_lt {w n : Nat} {ds : Bytes} (h : Run w n ds) : n < 10 ^ w := by
  have key : ∀ (l : Bytes) (a : Nat), (∀ c ∈ l, isDig c = true) →
      l.foldl (fun a c => a * 10 + (c.toNat - 0x30)) a < (a + 1) * 10 ^ l.length := by
    intro l
    induction l with
    | nil => intro a _; simp
    | cons c t ih =>
      intro a hd
      have hc : 0x30 ≤ c.toNat ∧ c.toNat ≤ 0x39 := by simpa [isDig] using hd c List.mem_cons_self
      have := ih (a * 10 + (c.toNat - 0x30)) (fun d hd' => hd d (List.mem_cons_of_mem _ hd'))
      rw [List.foldl_cons, List.length_cons, Nat.pow_succ]
      have h2 : (a * 10 + (c.toNat - 0x30) + 1) * 10 ^ t.length ≤ ((a + 1) * 10) * 10 ^ t.length :=
        Nat.mul_le_mul_right _ (by omega)
      have h3 : (a + 1) * (10 ^ t.length * 10) = ((a + 1) * 10) * 10 ^ t.length := by
        rw [Nat.mul_comm (10 ^ t.length) 10, Nat.mul_assoc]
      omega
  have := key ds 0 h.dig
  rw [h.len] at this
  have hv := h.val
  unfold decVal at hv
  rw [hv] at this
  simpa using this

/-! ## `str_to_datetime` on the forms it is given -/

theorem cstr_of (s t : Bytes) (h : ∀ c ∈ s, c ≠ 0) : cstr (s ++ 0#8 :: t) = s := by
  unfold cstr
  rw [List.takeWhile_append_of_pos (by intro c hc; simpa using h c hc), List.takeWhile_cons_of_neg (by simp), List.append_nil]

theorem cstr_pad (s : Bytes) (k : Nat) (h : ∀ c ∈ s, c ≠ 0) : cstr (s ++ List.replicate (k + 1) 0#8) = s := by
  rw [List.replicate_succ]; exact cstr_of s _ h

/-- Texts of at most 26 characters. -/
theorem ofText_short (s : Bytes) (hl : s.length ≤ 26) (delim : Bool) (hd : hasDelim (s ++ List.replicate (27 - s.length) 0#8) = delim)
    (idx : Nat) (yl : Option Nat) (hloop : scanLoop delim s 0 0 none = (idx, yl)) (txt : Bytes)
    (htxt : cstr (if idx < s.length then fillFrac (s ++ List.replicate (27 - s.length) 0#8) idx
      else s ++ List.replicate (27 - s.length) 0#8) = txt) :
    ofText s = if delim then finish (scan fmtDelim txt) true (yl == some 2)
      else if idx ≤ 6 then finish (scan fmt6 txt) false true
      else if idx = 8 then finish (scan fmt8 txt) false false
      else if idx = 12 then finish (scan fmt12 txt) true true
      else if idx ≤ 13 then finish (scan fmt13 txt) true true
      else finish (scan fmt14 txt) true false := by
  unfold ofText
  have e1 : min s.length 26 = s.length := by omega
  have e2 : s.take 26 = s := List.take_of_length_le hl
  simp only [e1, e2, hd, List.take_left, hloop, htxt]

theorem secRuns_no_nul {y m d h i s : Nat} {Y M D H I S r : Bytes} (hY : Run 4 y Y) (hM : Run 2 m M) (hD : Run 2 d D) (hH : Run 2 h H)
    (hI : Run 2 i I) (hS : Run 2 s S) (hr : ∀ c ∈ r, c ≠ 0) : ∀ c ∈ secRuns Y M D H I S r, c ≠ 0 := by
  intro c hc
  simp only [secRuns, List.mem_append, List.mem_cons] at hc
  have key : ∀ {w n ds}, Run w n ds → c ∈ ds → c ≠ 0 := fun h hm => (dig_facts (h.dig c hm)).2.2.2.2.2.2.1
  rcases hc with hc | rfl | hc | rfl | hc | rfl | hc | rfl | hc | rfl | hc | hc
  · exact key hY hc
  · decide
  · exact key hM hc
  · decide
  · exact key hD hc
  · decide
  · exact key hH hc
  · decide
  · exact key hI hc
  · decide
  · exact key hS hc
  · exact hr c hc

theorem secRuns_len {y m d h i s : Nat} {Y M D H I S : Bytes} (r : Bytes) (hY : Run 4 y Y) (hM : Run 2 m M) (hD : Run 2 d D) (hH : Run 2 h H)
    (hI : Run 2 i I) (hS : Run 2 s S) : (secRuns Y M D H I S r).length = 19 + r.length := by
  simp only [secRuns, List.length_append, List.length_cons, hY.len, hM.len, hD.len, hH.len, hI.len, hS.len]; omega

/-- A dash after four digits means delimiters. -/
theorem hasDelim_dash {y : Nat} {Y : Bytes} (hY : Run 4 y Y) (r : Bytes) : hasDelim (Y ++ 0x2d#8 :: r) = true := by
  have : (Y ++ 0x2d#8 :: r).getD 4 0 = 0x2d#8 := by
    rw [List.getD_eq_getElem?_getD, List.getElem?_append_right (by rw [hY.len]), hY.len]; rfl
  unfold hasDelim
  rw [this, show isDig 0x2d#8 = false by decide]
  simp

theorem secRuns_delim {y : Nat} {Y : Bytes} (hY : Run 4 y Y) (M D H I S r x : Bytes) :
    hasDelim (secRuns Y M D H I S r ++ x) = true := by
  simp only [secRuns, List.append_assoc, List.cons_append]
  exact hasDelim_dash hY _

theorem fullYear_false (y : Nat) : fullYear false y = y := rfl

theorem finish_ok (y m d h i s u : Nat) (full two : Bool) (ly : y < 10000) (lm : m ≤ 12) (ld : d ≤ 31) (lh : h ≤ 23) (li : i ≤ 59)
    (ls : s ≤ 59) (lu : u < 1000000) (l : List Int) (hl : l = [(y : Int), m, d, h, i, s, u] ∨ (u = 0 ∧ l = [(y : Int), m, d, h, i, s]) ∨
      (h = 0 ∧ i = 0 ∧ s = 0 ∧ u = 0 ∧ l = [(y : Int), m, d])) :
    finish l full two =
      (pack { year := fullYear two y, month := m, day := d, hour := h, minute := i, second := s, micro := u }, full) := by
  have hf : fieldsOf l = { year := y, month := m, day := d, hour := h, minute := i, second := s, micro := u } := by
    rcases hl with rfl | ⟨rfl, rfl⟩ | ⟨rfl, rfl, rfl, rfl, rfl⟩
    · simp only [fieldsOf, List.getD_cons_zero, List.getD_cons_succ]
      rw [ulong_nat _ (by omega), ulong_nat _ (by omega), ulong_nat _ (by omega), ulong_nat _ (by omega), ulong_nat _ (by omega),
        ulong_nat _ (by omega), ulong_nat _ (by omega)]
    · simp only [fieldsOf, List.getD_cons_zero, List.getD_cons_succ]
      rw [ulong_nat _ (by omega), ulong_nat _ (by omega), ulong_nat _ (by omega), ulong_nat _ (by omega), ulong_nat _ (by omega),
        ulong_nat _ (by omega)]
      rfl
    · simp only [fieldsOf, List.getD_cons_zero, List.getD_cons_succ]
      rw [ulong_nat _ (by omega), ulong_nat _ (by omega), ulong_nat _ (by omega)]
      rfl
  unfold finish
  simp only [hf]
  rw [if_neg (by omega), if_neg (by omega), if_neg (by omega)]

/-- The fraction: one to six digits after the point count from the left. -/
theorem frac_fill {y m d h i s p : Nat} {Y M D H I S t : Bytes} (hY : Run 4 y Y) (hM : Run 2 m M) (hD : Run 2 d D) (hH : Run 2 h H)
    (hI : Run 2 i I) (hS : Run 2 s S) (hp : t.length = p) (h1 : 1 ≤ p) (h6 : p ≤ 6) (ht : ∀ c ∈ t, isDig c = true) :
    cstr (fillFrac (secRuns Y M D H I S (0x2e#8 :: t) ++ List.replicate (27 - (20 + p)) 0#8) 19) =
      secRuns Y M D H I S (0x2e#8 :: (t ++ List.replicate (6 - p) 0x30#8)) := by
  have hz : isDig 0#8 = false := by decide
  have e : ∀ r, secRuns Y M D H I S (0x2e#8 :: r) = secRuns Y M D H I S [0x2e#8] ++ r := by
    intro r; simp [secRuns]
  rw [e t, e (t ++ List.replicate (6 - p) 0x30#8), List.append_assoc]
  have hlen : (secRuns Y M D H I S [0x2e#8]).length = 20 := by rw [secRuns_len _ hY hM hD hH hI hS]; rfl
  unfold fillFrac
  rw [List.mapIdx_append, hlen]
  have h0 : (secRuns Y M D H I S [0x2e#8]).mapIdx (fun i c => if 19 + 1 ≤ i ∧ i ≤ 19 + 6 ∧ i < 26 ∧ !isDig c then 0x30#8 else c) =
      secRuns Y M D H I S [0x2e#8] := by
    apply List.ext_getElem
    · simp
    · intro j hj1 hj2
      simp only [List.getElem_mapIdx]
      rw [if_neg (by omega)]
  have h2 : (t ++ List.replicate (27 - (20 + p)) 0#8).mapIdx
      (fun i c => if 19 + 1 ≤ i + 20 ∧ i + 20 ≤ 19 + 6 ∧ i + 20 < 26 ∧ !isDig c then 0x30#8 else c) =
      t ++ List.replicate (6 - p) 0x30#8 ++ [0#8] := by
    apply List.ext_getElem
    · simp [hp]; omega
    · intro j hj1 hj2
      have hj : j < 7 := by simp [hp] at hj1; omega
      simp only [List.getElem_mapIdx]
      by_cases c1 : j < p
      · have hd : isDig t[j] = true := ht _ (List.getElem_mem _)
        rw [List.getElem_append_left (by omega : j < t.length), if_neg (by simp [hd]),
          List.getElem_append_left (by rw [List.length_append]; omega), List.getElem_append_left (by omega)]
      · rw [List.getElem_append_right (by omega), List.getElem_replicate]
        by_cases c2 : j < 6
        · rw [if_pos (by simp [hz]; omega), List.getElem_append_left (by simp [hp]; omega),
            List.getElem_append_right (by omega), List.getElem_replicate]
        · rw [if_neg (by omega), List.getElem_append_right (by simp [hp]; omega)]
          simp
  rw [h0, h2, ← List.append_assoc]
  apply cstr_of
  intro c hc
  rw [List.mem_append] at hc
  rcases hc with hc | hc
  · exact secRuns_no_nul hY hM hD hH hI hS (by intro c hc; simp at hc; subst hc; decide) c hc
  · rw [List.mem_append] at hc
    rcases hc with hc | hc
    · exact (dig_facts (ht c hc)).2.2.2.2.2.2.1
    · rw [List.eq_of_mem_replicate hc]; decide

/-- Text with delimiters, without and with a fraction. -/
theorem ofText_sec {y m d h i s : Nat} {Y M D H I S : Bytes} (hY : Run 4 y Y) (hM : Run 2 m M) (hD : Run 2 d D) (hH : Run 2 h H)
    (hI : Run 2 i I) (hS : Run 2 s S) (lm : m ≤ 12) (ld : d ≤ 31) (lh : h ≤ 23) (li : i ≤ 59) (ls : s ≤ 59) :
    ofText (secRuns Y M D H I S []) =
      (pack { year := y, month := m, day := d, hour := h, minute := i, second := s, micro := 0 }, true) := by
  have hlen := secRuns_len [] hY hM hD hH hI hS
  rw [ofText_short _ (by rw [hlen]; decide) true (secRuns_delim hY _ _ _ _ _ _ _) 19 (some 4)
    (by rw [loop_sec hY hM hD hH hI hS]; rfl) (secRuns Y M D H I S [])
    (by rw [hlen, if_neg (by simp)]; exact cstr_pad _ 7 (secRuns_no_nul hY hM hD hH hI hS (by simp)))]
  rw [if_pos rfl, scan_sec hY hM hD hH hI hS, scan_chr_nil, List.append_nil,
    show (some 4 == some 2) = false from rfl,
    finish_ok y m d h i s 0 true false (run_lt hY) lm ld lh li ls (by decide) _ (Or.inr (Or.inl ⟨rfl, rfl⟩)), fullYear_false]

theorem ofText_frac {y m d h i s p v : Nat} {Y M D H I S t : Bytes} (hY : Run 4 y Y) (hM : Run 2 m M) (hD : Run 2 d D) (hH : Run 2 h H)
    (hI : Run 2 i I) (hS : Run 2 s S) (hp : t.length = p) (h1 : 1 ≤ p) (h6 : p ≤ 6) (ht : Run 6 v (t ++ List.replicate (6 - p) 0x30#8))
    (lm : m ≤ 12) (ld : d ≤ 31) (lh : h ≤ 23) (li : i ≤ 59) (ls : s ≤ 59) :
    ofText (secRuns Y M D H I S (0x2e#8 :: t)) =
      (pack { year := y, month := m, day := d, hour := h, minute := i, second := s, micro := v }, true) := by
  have hlen := secRuns_len (0x2e#8 :: t) hY hM hD hH hI hS
  have htd : ∀ c ∈ t, isDig c = true := fun c hc => ht.dig c (List.mem_append_left _ hc)
  rw [List.length_cons, hp] at hlen
  rw [ofText_short _ (by rw [hlen]; omega) true (secRuns_delim hY _ _ _ _ _ _ _) 19 (some 4)
    (by rw [loop_sec hY hM hD hH hI hS, loop_point _ _ _ _ (by decide)]; rfl)
    (secRuns Y M D H I S (0x2e#8 :: (t ++ List.replicate (6 - p) 0x30#8)))
    (by rw [hlen, if_pos (by omega), show 27 - (19 + (p + 1)) = 27 - (20 + p) by omega]
        exact frac_fill hY hM hD hH hI hS hp h1 h6 htd)]
  have := scan_num ht (by decide) [] []
  rw [List.append_nil] at this
  rw [if_pos rfl, scan_sec hY hM hD hH hI hS, scan_chr, this, show scan [] ([] : Bytes) = [] from rfl,
    show (some 4 == some 2) = false from rfl]
  simp only [List.cons_append, List.nil_append]
  rw [
    finish_ok y m d h i s v true false (run_lt hY) lm ld lh li ls (run_lt ht) _ (Or.inl rfl), fullYear_false]

theorem decVal_append (l r : Bytes) : decVal (l ++ r) = decVal l * 10 ^ r.length + decVal r := by
  have key : ∀ (r : Bytes) (a : Nat), r.foldl (fun a c => a * 10 + (c.toNat - 0x30)) a =
      a * 10 ^ r.length + r.foldl (fun a c => a * 10 + (c.toNat - 0x30)) 0 := by
    intro r
    induction r with
    | nil => intro a; simp
    | cons c t ih =>
      intro a
      rw [List.foldl_cons, List.foldl_cons, ih, ih (0 * 10 + _), List.length_cons, Nat.pow_succ]
      rw [Nat.zero_mul, Nat.zero_add, Nat.add_mul, Nat.mul_assoc, Nat.mul_comm 10, Nat.add_assoc]
  unfold decVal
  rw [List.foldl_append, key]

theorem run_of (ds : Bytes) (h : ∀ c ∈ ds, isDig c = true) : Run ds.length (decVal ds) ds := ⟨rfl, h, rfl⟩

/-- The digits of a fraction cut to `p`, filled with zeros. -/
theorem frac_run (u p : Nat) (hu : u < 1000000) (hp : p ≤ 6) :
    Run 6 (u / 10 ^ (6 - p) * 10 ^ (6 - p)) ((pad 6 u).take p ++ List.replicate (6 - p) 0x30#8) := by
  have hr := pad_run 6 u (by decide) (by simpa using hu)
  have hl : ((pad 6 u).take p).length = p := by rw [List.length_take, hr.len]; omega
  have hd1 : ∀ c ∈ (pad 6 u).take p, isDig c = true := fun c hc => hr.dig c (List.mem_of_mem_take hc)
  have hd2 : ∀ c ∈ (pad 6 u).drop p, isDig c = true := fun c hc => hr.dig c (List.mem_of_mem_drop hc)
  have hl2 : ((pad 6 u).drop p).length = 6 - p := by rw [List.length_drop, hr.len]
  have hlt := run_lt (run_of _ hd2)
  have hv := hr.val
  rw [← List.take_append_drop p (pad 6 u), decVal_append, hl2] at hv
  rw [hl2] at hlt
  refine ⟨by rw [List.length_append, hl, List.length_replicate]; omega, ?_, ?_⟩
  · intro c hc
    rw [List.mem_append] at hc
    rcases hc with hc | hc
    · exact hd1 c hc
    · rw [List.eq_of_mem_replicate hc]; decide
  · have hz : decVal (List.replicate (6 - p) 0x30#8) = 0 := by
      have := decVal_zeros (6 - p) []
      rw [List.append_nil] at this
      rw [this]; rfl
    rw [decVal_append, List.length_replicate, hz, Nat.add_zero]
    congr 1
    generalize decVal ((pad 6 u).take p) = A at *
    rw [← hv, Nat.mul_comm, Nat.mul_add_div (Nat.pow_pos (by decide)), Nat.div_eq_of_lt hlt, Nat.add_zero]

/-- A DATETIME value: a year of four digits, a month and a day that may be zero, a time of day and microseconds. -/
structure DateTimeOk (f : Fields) : Prop where
  year : f.year ≤ 9999
  month : f.month ≤ 12
  day : f.day ≤ 31
  hour : f.hour ≤ 23
  minute : f.minute ≤ 59
  second : f.second ≤ 59
  micro : f.micro ≤ 999999

theorem DateTimeOk.fits {f : Fields} (h : DateTimeOk f) : Fits f := by
  obtain ⟨h1, h2, h3, h4, h5, h6, h7⟩ := h
  constructor <;> omega

theorem secText_eq (f : Fields) (r : Bytes) :
    secText f ++ r = secRuns (pad 4 f.year) (pad 2 f.month) (pad 2 f.day) (pad 2 f.hour) (pad 2 f.minute) (pad 2 f.second) r := by
  simp [secText, secRuns]

theorem take_sec (f : Fields) (h : DateTimeOk f) (r : Bytes) (k : Nat) : (secText f ++ r).take (19 + k) = secText f ++ r.take k := by
  have hl : (secText f).length = 19 := by
    have := secRuns_len [] (pad_run 4 f.year (by decide) (by have := h.year; omega)) (pad_run 2 f.month (by decide) (by have := h.month; omega))
      (pad_run 2 f.day (by decide) (by have := h.day; omega)) (pad_run 2 f.hour (by decide) (by have := h.hour; omega))
      (pad_run 2 f.minute (by decide) (by have := h.minute; omega)) (pad_run 2 f.second (by decide) (by have := h.second; omega))
    rw [← secText_eq, List.append_nil] at this
    exact this
  rw [List.take_append, hl, List.take_of_length_le (by omega)]
  congr 2
  omega

/-- C30.  The text of a DATETIME read back: with precision `p` from 0 to 6 the microseconds are cut to `p` digits, with any
other precision the value comes back whole. -/
theorem C30_text (f : Fields) (h : DateTimeOk f) (p : Int) :
    ofText (toText (pack f) p) =
      (pack { f with micro := if 0 ≤ p ∧ p ≤ 6 then f.micro / 10 ^ (6 - p.toNat) * 10 ^ (6 - p.toNat) else f.micro }, true) := by
  have hF := h.fits
  obtain ⟨h1, h2, h3, h4, h5, h6, h7⟩ := id h
  have rY := pad_run 4 f.year (by decide) (by omega)
  have rM := pad_run 2 f.month (by decide) (by omega)
  have rD := pad_run 2 f.day (by decide) (by omega)
  have rH := pad_run 2 f.hour (by decide) (by omega)
  have rI := pad_run 2 f.minute (by decide) (by omega)
  have rS := pad_run 2 f.second (by decide) (by omega)
  have rU := pad_run 6 f.micro (by decide) (by omega)
  have hsec := ofText_sec rY rM rD rH rI rS h2 h3 h4 h5 h6
  rw [← secText_eq, List.append_nil] at hsec
  have hfrac : ∀ q : Nat, 1 ≤ q → q ≤ 6 → ofText (secText f ++ 0x2e#8 :: (pad 6 f.micro).take q) =
      (pack { f with micro := f.micro / 10 ^ (6 - q) * 10 ^ (6 - q) }, true) := by
    intro q q1 q6
    rw [secText_eq]
    exact ofText_frac rY rM rD rH rI rS (by rw [List.length_take, rU.len]; omega) q1 q6 (frac_run f.micro q (by omega) q6)
      h2 h3 h4 h5 h6
  unfold toText
  rw [C30_fields f hF]
  simp only
  by_cases c1 : 0 < p ∧ p ≤ 6
  · rw [if_pos c1, if_pos (by omega), show 20 + p.toNat = 19 + (1 + p.toNat) by omega, take_sec f h,
      show 1 + p.toNat = p.toNat + 1 by omega, List.take_succ_cons, hfrac _ (by omega) (by omega)]
  · rw [if_neg c1]
    have e19 : (secText f ++ 0x2e#8 :: pad 6 f.micro).take 19 = secText f := by
      rw [show (19 : Nat) = 19 + 0 from rfl, take_sec f h, List.take_zero, List.append_nil]
    by_cases c2 : p = 0 ∨ f.micro = 0
    · rw [if_pos c2, e19, hsec]
      congr 3
      rcases c2 with rfl | c2
      · rw [if_pos (by omega), show (10 : Nat) ^ (6 - (0 : Int).toNat) = 1000000 from rfl, Nat.div_eq_of_lt (by omega), Nat.zero_mul]
      · rw [c2, Nat.zero_div, Nat.zero_mul]; split <;> rfl
    · rw [if_neg c2, if_neg (by omega), show (26 : Nat) = 19 + 7 from rfl, take_sec f h, List.take_succ_cons, hfrac 6 (by decide) (by decide)]
      congr 3
      rw [show (10 : Nat) ^ (6 - 6) = 1 from rfl, Nat.div_one, Nat.mul_one]

example : DateTimeOk exampleFields := by constructor <;> decide

/-- C30.  The text of a DATE read back is midnight of that date. -/
theorem C30_date_text (f : Fields) (h : DateTimeOk f) :
    ofText (dateText (toDate (pack f))) = (ofDate (toDate (pack f)), true) := by
  have hF := h.fits
  rw [(C30_date f hF).1]
  obtain ⟨h1, h2, h3, h4, h5, h6, h7⟩ := id h
  have rY := pad_run 4 f.year (by decide) (by omega)
  have rM := pad_run 2 f.month (by decide) (by omega)
  have rD := pad_run 2 f.day (by decide) (by omega)
  have e : dateText (toDate (pack f)) = pad 4 f.year ++ (0x2d#8 :: (pad 2 f.month ++ (0x2d#8 :: pad 2 f.day))) := by
    have h17 : ∀ x : Nat, x &&& 0x1FFFF = x % 131072 := fun x => Nat.and_two_pow_sub_one_eq_mod x 17
    have h5 : ∀ x : Nat, x &&& 0x1F = x % 32 := fun x => Nat.and_two_pow_sub_one_eq_mod x 5
    unfold dateText
    simp only [h17, h5, Nat.shiftRight_eq_div_pow, toDate_pack f hF]
    have a0 : ((f.year * 13 + f.month) * 32 + f.day) / 2 ^ 5 % 131072 = f.year * 13 + f.month := by
      have : f.year * 13 + f.month < 131072 := by omega
      generalize f.year * 13 + f.month = A at *
      omega
    have a1 : ((f.year * 13 + f.month) * 32 + f.day) / 2 ^ 5 % 131072 / 13 = f.year := by rw [a0]; omega
    have a2 : ((f.year * 13 + f.month) * 32 + f.day) / 2 ^ 5 % 131072 % 13 = f.month := by rw [a0]; omega
    have a3 : ((f.year * 13 + f.month) * 32 + f.day) % 32 = f.day := by omega
    rw [a1, a2, a3]
    simp
  have hlen : (pad 4 f.year ++ (0x2d#8 :: (pad 2 f.month ++ (0x2d#8 :: pad 2 f.day)))).length = 10 := by
    simp only [List.length_append, List.length_cons, rY.len, rM.len, rD.len]
  have hnul : ∀ c ∈ pad 4 f.year ++ (0x2d#8 :: (pad 2 f.month ++ (0x2d#8 :: pad 2 f.day))), c ≠ 0 := by
    intro c hc
    simp only [List.mem_append, List.mem_cons] at hc
    have key : ∀ {w n ds}, Run w n ds → c ∈ ds → c ≠ 0 := fun h hm => (dig_facts (h.dig c hm)).2.2.2.2.2.2.1
    rcases hc with hc | rfl | hc | rfl | hc
    · exact key rY hc
    · decide
    · exact key rM hc
    · decide
    · exact key rD hc
  have hdelim : hasDelim (pad 4 f.year ++ (0x2d#8 :: (pad 2 f.month ++ (0x2d#8 :: pad 2 f.day))) ++ List.replicate (27 - 10) 0#8) = true := by
    simp only [List.append_assoc, List.cons_append]
    exact hasDelim_dash rY _
  have hloop : scanLoop true (pad 4 f.year ++ (0x2d#8 :: (pad 2 f.month ++ (0x2d#8 :: pad 2 f.day)))) 0 0 none = (10, some 4) := by
    have := loop_dig true (pad 2 f.day) [] rD.dig 8 2 (some 4)
    rw [List.append_nil, rD.len] at this
    rw [loop_dig _ _ _ rY.dig, loop_delim _ _ (by decide) (by decide), loop_dig _ _ _ rM.dig,
      loop_delim _ _ (by decide) (by decide), rY.len, rM.len]
    exact this
  have hscan : scan fmtDelim (pad 4 f.year ++ (0x2d#8 :: (pad 2 f.month ++ (0x2d#8 :: pad 2 f.day)))) = [(f.year : Int), f.month, f.day] := by
    have a := scan_num rD (by decide) [] [.skip, .num (some 2), .skip, .num (some 2), .skip, .num (some 2), .chr 0x2e#8, .num (some 6)]
    have b := scan_skip rD (by decide) 0x2d#8 (by decide) []
      [.num (some 2), .skip, .num (some 2), .skip, .num (some 2), .skip, .num (some 2), .chr 0x2e#8, .num (some 6)]
    rw [List.append_nil] at a b
    unfold fmtDelim
    rw [scan_num rY (by decide), scan_skip rM (by decide) _ (by decide), scan_num rM (by decide), b, a, scan_skip_nil]
  rw [e, ofText_short _ (by rw [hlen]; decide) true (by rw [hlen]; exact hdelim) 10 (some 4) hloop
    (pad 4 f.year ++ (0x2d#8 :: (pad 2 f.month ++ (0x2d#8 :: pad 2 f.day)))) (by rw [hlen, if_neg (by decide)]; exact cstr_pad _ 16 hnul), if_pos rfl, hscan, show (some 4 == some 2) = false from rfl,
    finish_ok f.year f.month f.day 0 0 0 0 true false (by omega) h2 h3 (by decide) (by decide) (by decide) (by decide) _
      (Or.inr (Or.inr ⟨rfl, rfl, rfl, rfl, rfl⟩)), fullYear_false]

/-- Texts of digits only. -/
theorem ofText_digits (s : Bytes) (h5 : 5 ≤ s.length) (hl : s.length ≤ 26) (hd : ∀ c ∈ s, isDig c = true) :
    ofText s = if s.length ≤ 6 then finish (scan fmt6 s) false true
      else if s.length = 8 then finish (scan fmt8 s) false false
      else if s.length = 12 then finish (scan fmt12 s) true true
      else if s.length ≤ 13 then finish (scan fmt13 s) true true
      else finish (scan fmt14 s) true false := by
  have hget : ∀ k, k < 5 → isDig ((s ++ List.replicate (27 - s.length) 0#8).getD k 0) = true := by
    intro k hk
    rw [List.getD_eq_getElem?_getD, List.getElem?_append_left (by omega), List.getElem?_eq_getElem (by omega)]
    exact hd _ (List.getElem_mem _)
  have hdel : hasDelim (s ++ List.replicate (27 - s.length) 0#8) = false := by
    unfold hasDelim
    rw [hget 2 (by decide), hget 4 (by decide)]
    have := (dig_facts (hget 3 (by decide))).2.1
    simpa using this
  have hloop : scanLoop false s 0 0 none = (s.length, none) := by
    have := loop_dig false s [] hd 0 0 none
    rw [List.append_nil, Nat.zero_add] at this
    exact this
  have hnul : ∀ c ∈ s, c ≠ 0 := fun c hc => (dig_facts (hd c hc)).2.2.2.2.2.2.1
  rw [ofText_short s hl false hdel s.length none hloop s (by
    rw [if_neg (by omega)]
    rw [show 27 - s.length = 26 - s.length + 1 by omega]
    exact cstr_pad s _ hnul)]
  rfl

/-- C30.  Numbers as dates: `YYYYMMDD` and `YYYYMMDDhhmmss` give their fields. -/
theorem C30_compact {y m d h i s : Nat} {Y M D H I S : Bytes} (hY : Run 4 y Y) (hM : Run 2 m M) (hD : Run 2 d D) (hH : Run 2 h H)
    (hI : Run 2 i I) (hS : Run 2 s S) (lm : m ≤ 12) (ld : d ≤ 31) (lh : h ≤ 23) (li : i ≤ 59) (ls : s ≤ 59) :
    ofText (Y ++ (M ++ D)) =
      (pack { year := y, month := m, day := d, hour := 0, minute := 0, second := 0, micro := 0 }, false) ∧
    ofText (Y ++ (M ++ (D ++ (H ++ (I ++ S))))) =
      (pack { year := y, month := m, day := d, hour := h, minute := i, second := s, micro := 0 }, true) := by
  constructor
  · have hl : (Y ++ (M ++ D)).length = 8 := by simp only [List.length_append, hY.len, hM.len, hD.len]
    have hdig : ∀ c ∈ Y ++ (M ++ D), isDig c = true := by
      intro c hc
      simp only [List.mem_append] at hc
      rcases hc with hc | hc | hc
      · exact hY.dig c hc
      · exact hM.dig c hc
      · exact hD.dig c hc
    have a := scan_num hD (by decide) [] []
    rw [List.append_nil] at a
    rw [ofText_digits _ (by omega) (by omega) hdig, if_neg (by omega), if_pos hl, fmt8, scan_num hY (by decide), scan_num hM (by decide),
      a, show scan [] ([] : Bytes) = [] from rfl,
      finish_ok y m d 0 0 0 0 false false (run_lt hY) lm ld (by decide) (by decide) (by decide) (by decide) _
        (Or.inr (Or.inr ⟨rfl, rfl, rfl, rfl, rfl⟩)), fullYear_false]
  · have hl : (Y ++ (M ++ (D ++ (H ++ (I ++ S))))).length = 14 := by
      simp only [List.length_append, hY.len, hM.len, hD.len, hH.len, hI.len, hS.len]
    have hdig : ∀ c ∈ Y ++ (M ++ (D ++ (H ++ (I ++ S)))), isDig c = true := by
      intro c hc
      simp only [List.mem_append] at hc
      rcases hc with hc | hc | hc | hc | hc | hc
      · exact hY.dig c hc
      · exact hM.dig c hc
      · exact hD.dig c hc
      · exact hH.dig c hc
      · exact hI.dig c hc
      · exact hS.dig c hc
    have a := scan_num hS (by decide) [] [.chr 0x2e#8, .num (some 6)]
    rw [List.append_nil] at a
    rw [ofText_digits _ (by omega) (by omega) hdig, if_neg (by omega), if_neg (by omega), if_neg (by omega), if_neg (by omega), fmt14,
      scan_num hY (by decide), scan_num hM (by decide), scan_num hD (by decide), scan_num hH (by decide), scan_num hI (by decide),
      a, scan_chr_nil,
      finish_ok y m d h i s 0 true false (run_lt hY) lm ld lh li ls (by decide) _ (Or.inr (Or.inl ⟨rfl, rfl⟩)), fullYear_false]

/-- C30.  `YYMMDD` and `YYMMDDhhmmss`: years 70 to 99 are 1970 to 1999, years 1 to 69 are 2001 to 2069, and 00 stays year 0. -/
theorem C30_two_digit_year {y m d h i s : Nat} {Y M D H I S : Bytes} (hY : Run 2 y Y) (hM : Run 2 m M) (hD : Run 2 d D) (hH : Run 2 h H)
    (hI : Run 2 i I) (hS : Run 2 s S) (lm : m ≤ 12) (ld : d ≤ 31) (lh : h ≤ 23) (li : i ≤ 59) (ls : s ≤ 59) (y' : Nat)
    (hy' : y' = if y = 0 then 0 else if y < 70 then 2000 + y else 1900 + y) :
    ofText (Y ++ (M ++ D)) =
      (pack { year := y', month := m, day := d, hour := 0, minute := 0, second := 0, micro := 0 }, false) ∧
    ofText (Y ++ (M ++ (D ++ (H ++ (I ++ S))))) =
      (pack { year := y', month := m, day := d, hour := h, minute := i, second := s, micro := 0 }, true) := by
  have hlt := run_lt hY
  have hfy : fullYear true y = y' := by
    unfold fullYear; rw [hy']; simp only [if_true]; split_ifs <;> omega
  constructor
  · have hl : (Y ++ (M ++ D)).length = 6 := by simp only [List.length_append, hY.len, hM.len, hD.len]
    have hdig : ∀ c ∈ Y ++ (M ++ D), isDig c = true := by
      intro c hc
      simp only [List.mem_append] at hc
      rcases hc with hc | hc | hc
      · exact hY.dig c hc
      · exact hM.dig c hc
      · exact hD.dig c hc
    have a := scan_num hD (by decide) [] []
    rw [List.append_nil] at a
    rw [ofText_digits _ (by omega) (by omega) hdig, if_pos (by omega), fmt6, scan_num hY (by decide), scan_num hM (by decide),
      a, show scan [] ([] : Bytes) = [] from rfl,
      finish_ok y m d 0 0 0 0 false true (by omega) lm ld (by decide) (by decide) (by decide) (by decide) _
        (Or.inr (Or.inr ⟨rfl, rfl, rfl, rfl, rfl⟩)), hfy]
  · have hl : (Y ++ (M ++ (D ++ (H ++ (I ++ S))))).length = 12 := by
      simp only [List.length_append, hY.len, hM.len, hD.len, hH.len, hI.len, hS.len]
    have hdig : ∀ c ∈ Y ++ (M ++ (D ++ (H ++ (I ++ S)))), isDig c = true := by
      intro c hc
      simp only [List.mem_append] at hc
      rcases hc with hc | hc | hc | hc | hc | hc
      · exact hY.dig c hc
      · exact hM.dig c hc
      · exact hD.dig c hc
      · exact hH.dig c hc
      · exact hI.dig c hc
      · exact hS.dig c hc
    have a := scan_num hS (by decide) [] [.chr 0x2e#8, .num (some 6)]
    rw [List.append_nil] at a
    rw [ofText_digits _ (by omega) (by omega) hdig, if_neg (by omega), if_neg (by omega), if_pos (by omega), fmt12,
      scan_num hY (by decide), scan_num hM (by decide), scan_num hD (by decide), scan_num hH (by decide), scan_num hI (by decide),
      a, scan_chr_nil,
      finish_ok y m d h i s 0 true true (by omega) lm ld lh li ls (by decide) _ (Or.inr (Or.inl ⟨rfl, rfl⟩)), hfy]

example : Run 4 2024 (pad 4 2024) ∧ Run 2 7 (pad 2 7) := ⟨pad_run 4 2024 (by decide) (by decide), pad_run 2 7 (by decide) (by decide)⟩

/-- C30.  Whatever the text, the value stored has a month up to 12, a day up to 31 and a time of day, or is the zero date. -/
theorem C30_text_in_range (s : Bytes) : (ofText s).1 = 0 ∨ ∃ f : Fields, (ofText s).1 = pack f ∧ f.month ≤ 12 ∧ f.day ≤ 31 ∧
    f.hour ≤ 23 ∧ f.minute ≤ 59 ∧ f.second ≤ 59 := by
  have hfin : ∀ l a b, (finish l a b).1 = 0 ∨ ∃ f : Fields, (finish l a b).1 = pack f ∧ f.month ≤ 12 ∧ f.day ≤ 31 ∧
      f.hour ≤ 23 ∧ f.minute ≤ 59 ∧ f.second ≤ 59 := by
    intro l a b
    unfold finish
    simp only
    split
    · exact Or.inl rfl
    · split
      · exact Or.inl rfl
      · split
        · exact Or.inl rfl
        · exact Or.inr ⟨_, rfl, by simp only; omega, by simp only; omega, by simp only; omega, by simp only; omega, by
            simp only; omega⟩
  unfold ofText
  simp only
  split
  · exact hfin _ _ _
  · split
    · exact hfin _ _ _
    · split
      · exact hfin _ _ _
      · split
        · exact hfin _ _ _
        · split <;> exact hfin _ _ _

/-! ## C31: TIME -/

theorem packTime_eq (minus : Bool) (h m s : Nat) (hh : h < 524288) (hm : m < 64) (hs : s < 64) :
    packTime minus h m s = if minus then -((h * 4096 + m * 64 + s : Nat) : Int) else ((h * 4096 + m * 64 + s : Nat) : Int) := by
  have e : (s ||| m <<< 6 ||| h <<< 12) = h * 4096 + m * 64 + s := by
    simp only [Nat.shiftLeft_eq]
    rw [Nat.or_comm, Nat.or_comm s, or_add (m * 2 ^ 6) s 6 (by omega) (by omega), or_add (h * 2 ^ 12) _ 12 (by omega) (by omega)]
    omega
  unfold packTime
  simp only [e]
  rw [Int.bmod_eq_of_le (by omega) (by omega)]

theorem time_fields (t : Int) (h m s : Nat) (hh : h < 1024) (hm : m < 64) (hs : s < 64) (ht : t.natAbs = h * 4096 + m * 64 + s) :
    timeHour t = h ∧ timeMin t = m ∧ timeSec t = s := by
  have h10 : ∀ x : Nat, x &&& 0x3FF = x % 1024 := fun x => Nat.and_two_pow_sub_one_eq_mod x 10
  have h6 : ∀ x : Nat, x &&& 0x3F = x % 64 := fun x => Nat.and_two_pow_sub_one_eq_mod x 6
  simp only [timeHour, timeMin, timeSec, h10, h6, Nat.shiftRight_eq_div_pow, ht]
  refine ⟨?_, ?_, ?_⟩ <;> omega

/-- C31.  Seconds to TIME and back, up to 1023:59:59 either way. -/
theorem C31_seconds (s : Int) (h : s.natAbs < 3686400) : toSeconds (ofSeconds s) = s := by
  unfold ofSeconds
  rw [packTime_eq _ _ _ _ (by omega) (by omega) (by omega)]
  obtain ⟨t, ht⟩ : ∃ t : Int, t = if decide (s < 0) = true then -((s.natAbs / 3600 * 4096 + s.natAbs / 60 % 60 * 64 + s.natAbs % 60 : Nat) : Int)
    else ((s.natAbs / 3600 * 4096 + s.natAbs / 60 % 60 * 64 + s.natAbs % 60 : Nat) : Int) := ⟨_, rfl⟩
  rw [← ht]
  have ha : t.natAbs = s.natAbs / 3600 * 4096 + s.natAbs / 60 % 60 * 64 + s.natAbs % 60 := by
    rw [ht]; split <;> omega
  obtain ⟨f1, f2, f3⟩ := time_fields t _ _ _ (by omega) (by omega) (by omega) ha
  unfold toSeconds
  rw [f1, f2, f3]
  simp only
  by_cases c : s < 0
  · rw [if_pos (by simpa using c)] at ht
    rw [if_pos (by omega)]; omega
  · rw [if_neg (by simpa using c)] at ht
    rw [if_neg (by omega)]; omega

/-- A TIME value: hours up to 1023, minutes and seconds up to 59, a sign. -/
structure TimeOk (h m s : Nat) : Prop where
  hour : h < 1024
  min : m < 60
  sec : s < 60

/-- C31.  TIME to seconds is the hours, minutes and seconds it stands for, and back. -/
theorem C31_time (minus : Bool) (h m s : Nat) (ok : TimeOk h m s) :
    toSeconds (packTime minus h m s) = (if minus then -1 else 1) * ((h : Int) * 3600 + m * 60 + s) ∧
    ofSeconds (toSeconds (packTime minus h m s)) = packTime minus h m s := by
  obtain ⟨h1, h2, h3⟩ := ok
  have hp := packTime_eq minus h m s (by omega) (by omega) (by omega)
  have ha : (packTime minus h m s).natAbs = h * 4096 + m * 64 + s := by rw [hp]; split <;> omega
  obtain ⟨f1, f2, f3⟩ := time_fields _ h m s (by omega) (by omega) (by omega) ha
  have e : toSeconds (packTime minus h m s) = (if minus then -1 else 1) * ((h : Int) * 3600 + m * 60 + s) := by
    unfold toSeconds
    rw [f1, f2, f3]
    simp only
    cases minus with
    | true => simp only [if_true] at hp ⊢; split <;> omega
    | false => simp only [Bool.false_eq_true, if_false] at hp ⊢; split <;> omega
  refine ⟨e, ?_⟩
  rw [e]
  unfold ofSeconds
  cases minus with
  | true =>
    rw [if_pos rfl, show (-1 * ((h : Int) * 3600 + m * 60 + s)).natAbs = h * 3600 + m * 60 + s by omega,
      show (h * 3600 + m * 60 + s) / 3600 = h by omega, show (h * 3600 + m * 60 + s) / 60 % 60 = m by omega,
      show (h * 3600 + m * 60 + s) % 60 = s by omega]
    by_cases c : h = 0 ∧ m = 0 ∧ s = 0
    · obtain ⟨rfl, rfl, rfl⟩ := c; decide
    · rw [show decide (-1 * ((h : Int) * 3600 + m * 60 + s) < 0) = true by simp; omega]
  | false =>
    rw [if_neg (by simp), show (1 * ((h : Int) * 3600 + m * 60 + s)).natAbs = h * 3600 + m * 60 + s by omega,
      show (h * 3600 + m * 60 + s) / 3600 = h by omega, show (h * 3600 + m * 60 + s) / 60 % 60 = m by omega,
      show (h * 3600 + m * 60 + s) % 60 = s by omega,
      show decide (1 * ((h : Int) * 3600 + m * 60 + s) < 0) = false by simp; omega]

/-- C31.  TIME values compare as the lengths of time do. -/
theorem C31_order (a b : Bool) (h m s h' m' s' : Nat) (ok : TimeOk h m s) (ok' : TimeOk h' m' s') :
    packTime a h m s < packTime b h' m' s' ↔ toSeconds (packTime a h m s) < toSeconds (packTime b h' m' s') := by
  rw [(C31_time a h m s ok).1, (C31_time b h' m' s' ok').1]
  obtain ⟨h1, h2, h3⟩ := ok
  obtain ⟨g1, g2, g3⟩ := ok'
  rw [packTime_eq a h m s (by omega) (by omega) (by omega), packTime_eq b h' m' s' (by omega) (by omega) (by omega)]
  cases a <;> cases b <;> simp only [if_true, Bool.false_eq_true, if_false] <;> omega

/-- C31.  1024 hours and more do not fit the ten bits read back: `SEC_TO_TIME(3686400)` is shown as 00:00:00. -/
theorem C31_hours_counterexample : toSeconds (ofSeconds 3686400) = 0 ∧ ofSeconds 3686400 ≠ 0 := by decide

/-- C31.  The time of day of a DATETIME. -/
theorem C31_of_datetime (f : Fields) (h : DateTimeOk f) : toSeconds (dateTimeToTime (pack f)) = f.hour * 3600 + f.minute * 60 + f.second := by
  unfold dateTimeToTime
  rw [C30_fields f h.fits, (C31_time false _ _ _ ⟨by have := h.hour; omega, by have := h.minute; omega, by have := h.second; omega⟩).1]
  simp

theorem intOf_small (n : Nat) (h : n < 2 ^ 31) : intOf (n : Int) = n := by
  unfold intOf
  have : max (-2 ^ 63) (min (n : Int) (2 ^ 63 - 1)) = n := by omega
  rw [this, Int.bmod_eq_of_le (by omega) (by omega)]

theorem uintOf_small (n : Nat) (h : n < 2 ^ 31) : uintOf (n : Int) = n := by
  unfold uintOf
  rw [if_pos (by omega), Int.bmod_eq_of_le (by omega) (by omega)]

/-- Hours of at least two digits. -/
theorem hour_run (h : Nat) (hh : h < 1024) : Run (pad 2 h).length h (pad 2 h) ∧ 2 ≤ (pad 2 h).length ∧ (pad 2 h).length ≤ 4 := by
  obtain ⟨d1, d2, d3⟩ := natDec_digits h
  have hl := natDec_len 4 h (by decide) (by omega)
  refine ⟨⟨rfl, ?_, ?_⟩, ?_, ?_⟩
  · intro c hc
    unfold pad at hc
    rw [List.mem_append] at hc
    rcases hc with hc | hc
    · rw [List.eq_of_mem_replicate hc]; decide
    · exact d1 c hc
  · unfold pad; rw [decVal_zeros, d3]
  · unfold pad; rw [List.length_append, List.length_replicate]; omega
  · unfold pad; rw [List.length_append, List.length_replicate]; omega

/-- The part of `str_to_time` before the scan: a text of fewer than 12 characters without a point, that starts with a digit. -/
theorem ofTimeText_short (minus : Bool) (c : Byte) (t : Bytes) (hc : isDig c = true) (hl : (c :: t).length < 12)
    (hp : ∀ x ∈ c :: t, x ≠ 0x2e#8) :
    ofTimeText (if minus then 0x2d#8 :: c :: t else c :: t) = ofTimeBody minus (c :: t) := by
  have hf := dig_facts hc
  have ht : ((c :: t).take 20).takeWhile (· != 0x2e#8) = c :: t := by
    rw [List.take_of_length_le (by omega)]
    have := List.takeWhile_append_of_pos (p := (· != 0x2e#8)) (l₁ := c :: t) (l₂ := []) (by intro x hx; simpa using hp x hx)
    simpa using this
  unfold ofTimeText
  cases minus with
  | true =>
    simp only [if_true]
    rw [List.dropWhile_cons_of_neg (by decide)]
    simp only [List.head?_cons, beq_self_eq_true, if_true, List.drop_succ_cons, List.drop_zero, ht]
    rw [if_neg (by omega)]
  | false =>
    simp only [Bool.false_eq_true, if_false]
    rw [List.dropWhile_cons_of_neg (by simp [hf.2.2.2.2.1])]
    have hm : (some c == some 0x2d#8) = false := by simpa using hf.2.1
    simp only [List.head?_cons, hm, Bool.false_eq_true, if_false, ht]
    rw [if_neg (by omega)]

theorem takeWhile_all (p : Byte → Bool) (l : Bytes) (h : ∀ c ∈ l, p c = true) : l.takeWhile p = l := by
  have := List.takeWhile_append_of_pos (p := p) (l₁ := l) (l₂ := []) h
  simpa using this

theorem checkTime_ok (minus : Bool) (d h m s : Nat) (hm : m ≤ 59) (hs : s ≤ 59) :
    checkTime minus d h m s = packTime minus (h + d * 24) m s := by
  unfold checkTime
  rw [if_neg (by omega)]
  congr 1

/-- `HH:MM:SS` with hours of any number of digits. -/
theorem ofTimeBody_hms (minus : Bool) {k h m s : Nat} {H M S : Bytes} (rH : Run k h H) (hk : 1 ≤ k) (hk' : k ≤ 5) (rM : Run 2 m M)
    (rS : Run 2 s S) (hm : m ≤ 59) (hs : s ≤ 59) :
    ofTimeBody minus (H ++ (0x3a#8 :: (M ++ (0x3a#8 :: S)))) = packTime minus h m s := by
  have hlen : (H ++ (0x3a#8 :: (M ++ (0x3a#8 :: S)))).length = k + 6 := by
    simp only [List.length_append, List.length_cons, rH.len, rM.len, rS.len]
  have hmem : ∀ c ∈ H ++ (0x3a#8 :: (M ++ (0x3a#8 :: S))), isDig c = true ∨ c = 0x3a#8 := by
    intro c hc
    simp only [List.mem_append, List.mem_cons] at hc
    rcases hc with hc | hc | hc | hc | hc
    · exact Or.inl (rH.dig c hc)
    · exact Or.inr hc
    · exact Or.inl (rM.dig c hc)
    · exact Or.inr hc
    · exact Or.inl (rS.dig c hc)
  have hhead : ((H ++ (0x3a#8 :: (M ++ (0x3a#8 :: S)))).take 20).takeWhile (· != 0x2e#8) = H ++ (0x3a#8 :: (M ++ (0x3a#8 :: S))) := by
    rw [List.take_of_length_le (by omega)]
    apply takeWhile_all
    intro c hc
    rcases hmem c hc with h | rfl
    · simpa using (dig_facts h).2.2.2.1
    · decide
  have hcs : cstr (H ++ (0x3a#8 :: (M ++ (0x3a#8 :: S)))) = H ++ (0x3a#8 :: (M ++ (0x3a#8 :: S))) := by
    apply takeWhile_all
    intro c hc
    rcases hmem c hc with h | rfl
    · simpa using (dig_facts h).2.2.2.2.2.2.1
    · decide
  have hnb : (H ++ (0x3a#8 :: (M ++ (0x3a#8 :: S)))).any (· == 0x20#8) = false := by
    rw [List.any_eq_false]
    intro c hc
    rcases hmem c hc with h | rfl
    · simpa using (dig_facts h).2.2.2.2.1
    · decide
  have hco : (H ++ (0x3a#8 :: (M ++ (0x3a#8 :: S)))).any (· == 0x3a#8) = true := by
    rw [List.any_eq_true]
    exact ⟨0x3a#8, by simp, by decide⟩
  have hscan : scan fmtHour (H ++ (0x3a#8 :: (M ++ (0x3a#8 :: S)))) = [(h : Int), m, s] := by
    have a := scan_num rS (by decide) [] []
    rw [List.append_nil] at a
    unfold fmtHour
    rw [scan_free rH hk _ (by intro c hc; simp at hc; subst hc; decide), scan_chr, scan_num rM (by decide), scan_chr, a]
    rfl
  have hh : h < 10 ^ 5 := Nat.lt_of_lt_of_le (run_lt rH) (Nat.pow_le_pow_right (by decide) hk')
  unfold ofTimeBody
  simp only [hhead, hcs, hnb, hco, Bool.false_eq_true, if_false, if_true, hscan, List.getD_cons_zero, List.getD_cons_succ]
  rw [intOf_small h (by omega), uintOf_small m (by omega), uintOf_small s (by omega)]
  have := checkTime_ok minus 0 h m s hm hs
  simpa using this

/-- C31.  The text of a TIME read back is the value, negative times included. -/
theorem C31_text (minus : Bool) (h m s : Nat) (ok : TimeOk h m s) :
    ofTimeText (timeText (packTime minus h m s)) = packTime minus h m s := by
  obtain ⟨h1, h2, h3⟩ := ok
  have hp := packTime_eq minus h m s (by omega) (by omega) (by omega)
  have ha : (packTime minus h m s).natAbs = h * 4096 + m * 64 + s := by rw [hp]; split <;> omega
  obtain ⟨f1, f2, f3⟩ := time_fields _ h m s (by omega) (by omega) (by omega) ha
  obtain ⟨rH, k2, k4⟩ := hour_run h h1
  have rM := pad_run 2 m (by decide) (by omega)
  have rS := pad_run 2 s (by decide) (by omega)
  have hbody : ∀ b, ofTimeText (if b then 0x2d#8 :: (pad 2 h ++ (0x3a#8 :: (pad 2 m ++ (0x3a#8 :: pad 2 s)))) else
      pad 2 h ++ (0x3a#8 :: (pad 2 m ++ (0x3a#8 :: pad 2 s)))) = packTime b h m s := by
    intro b
    rw [← ofTimeBody_hms b rH (by omega) (by omega) rM rS (by omega) (by omega)]
    obtain ⟨c, t, hc, hd⟩ := rH.cons (by omega)
    have hl : (pad 2 h ++ (0x3a#8 :: (pad 2 m ++ (0x3a#8 :: pad 2 s)))).length < 12 := by
      simp only [List.length_append, List.length_cons, rM.len, rS.len]; omega
    have hdot : ∀ x ∈ pad 2 h ++ (0x3a#8 :: (pad 2 m ++ (0x3a#8 :: pad 2 s))), x ≠ 0x2e#8 := by
      intro x hx
      simp only [List.mem_append, List.mem_cons] at hx
      rcases hx with hx | rfl | hx | rfl | hx
      · exact (dig_facts (rH.dig x hx)).2.2.2.1
      · decide
      · exact (dig_facts (rM.dig x hx)).2.2.2.1
      · decide
      · exact (dig_facts (rS.dig x hx)).2.2.2.1
    rw [hc, List.cons_append] at hl hdot ⊢
    exact ofTimeText_short b c _ hd hl hdot
  have htext : timeText (packTime minus h m s) =
      if decide (packTime minus h m s < 0) then 0x2d#8 :: (pad 2 h ++ (0x3a#8 :: (pad 2 m ++ (0x3a#8 :: pad 2 s)))) else
      pad 2 h ++ (0x3a#8 :: (pad 2 m ++ (0x3a#8 :: pad 2 s))) := by
    unfold timeText
    rw [f1, f2, f3]
    by_cases c : packTime minus h m s < 0
    · simp [c]
    · simp [c]
  rw [htext, hbody]
  cases minus with
  | false =>
    have : ¬ packTime false h m s < 0 := by rw [hp]; simp; omega
    rw [decide_eq_false this]
  | true =>
    by_cases c : packTime true h m s < 0
    · rw [decide_eq_true c]
    · rw [if_pos rfl] at hp
      have : h = 0 ∧ m = 0 ∧ s = 0 := by omega
      obtain ⟨rfl, rfl, rfl⟩ := this
      decide

example : TimeOk 838 59 59 ∧ packTime true 838 59 59 < 0 := ⟨⟨by decide, by decide, by decide⟩, by decide⟩

theorem strInt_run {w n : Nat} {ds : Bytes} (h : Run w n ds) (hw : w ≤ 9) : strInt ds = n := by
  cases ds with
  | nil =>
    have := h.val
    have e : decVal [] = 0 := rfl
    rw [e] at this
    subst this; rfl
  | cons c t =>
    have hl := h.len
    rw [List.length_cons] at hl
    have a := scanNum_free h (by omega) [] (by simp)
    rw [List.append_nil] at a
    unfold strInt
    rw [a]
    exact intOf_small n (Nat.lt_of_lt_of_le (run_lt h) (Nat.le_trans (Nat.pow_le_pow_right (by decide) hw) (by decide)))

/-- C31.  Digits without colons: the last two are seconds, the two before minutes, the rest hours. -/
theorem C31_digits {k h m s : Nat} {H M S : Bytes} (rH : Run k h H) (hk : k ≤ 7) (rM : Run 2 m M) (rS : Run 2 s S)
    (hm : m ≤ 59) (hs : s ≤ 59) :
    ofTimeText (H ++ (M ++ S)) = packTime false h m s ∧ ofTimeText S = packTime false 0 0 s := by
  have go : ∀ l : Bytes, (∀ c ∈ l, isDig c = true) → 1 ≤ l.length → l.length < 12 → ofTimeText l = ofTimeBody false l := by
    intro l hd h1 h12
    cases l with
    | nil => simp at h1
    | cons c t =>
      exact ofTimeText_short false c t (hd c List.mem_cons_self) h12 (fun x hx => (dig_facts (hd x hx)).2.2.2.1)
  have body : ∀ l : Bytes, (∀ c ∈ l, isDig c = true) → l.length < 12 → ofTimeBody false l =
      if l.length ≥ 4 then checkTime false 0 (strInt (l.take (l.length - 4))) (strInt ((l.drop (l.length - 4)).take 2))
        (strInt ((l.drop (l.length - 2)).take 2))
      else if l.length ≥ 2 then checkTime false 0 0 (strInt (l.take (l.length - 2))) (strInt ((l.drop (l.length - 2)).take 2))
      else checkTime false 0 0 0 (strInt (l.take l.length)) := by
    intro l hd h12
    have hhead : (l.take 20).takeWhile (· != 0x2e#8) = l := by
      rw [List.take_of_length_le (by omega)]
      exact takeWhile_all _ _ (fun c hc => by simpa using (dig_facts (hd c hc)).2.2.2.1)
    have hnb : l.any (· == 0x20#8) = false := by
      rw [List.any_eq_false]; intro c hc; simpa using (dig_facts (hd c hc)).2.2.2.2.1
    have hnc : l.any (· == 0x3a#8) = false := by
      rw [List.any_eq_false]; intro c hc; simpa using (dig_facts (hd c hc)).2.2.2.2.2.1
    unfold ofTimeBody
    simp only [hhead, hnb, hnc, Bool.false_eq_true, if_false]
  constructor
  · have hl : (H ++ (M ++ S)).length = k + 4 := by
      simp only [List.length_append, rH.len, rM.len, rS.len]
    have hd : ∀ c ∈ H ++ (M ++ S), isDig c = true := by
      intro c hc
      simp only [List.mem_append] at hc
      rcases hc with hc | hc | hc
      · exact rH.dig c hc
      · exact rM.dig c hc
      · exact rS.dig c hc
    have e1 : (H ++ (M ++ S)).take (k + 4 - 4) = H := by
      rw [Nat.add_sub_cancel, ← rH.len, List.take_left]
    have e2 : ((H ++ (M ++ S)).drop (k + 4 - 4)).take 2 = M := by
      rw [Nat.add_sub_cancel, ← rH.len, List.drop_left, ← rM.len, List.take_left]
    have e3 : ((H ++ (M ++ S)).drop (k + 4 - 2)).take 2 = S := by
      rw [← List.append_assoc, show k + 4 - 2 = (H ++ M).length by rw [List.length_append, rH.len, rM.len]; omega,
        List.drop_left, List.take_of_length_le (by rw [rS.len])]
    rw [go _ hd (by omega) (by omega), body _ hd (by omega), if_pos (by omega), hl, e1, e2, e3, strInt_run rH (by omega),
      strInt_run rM (by decide), strInt_run rS (by decide)]
    have := checkTime_ok false 0 h m s hm hs
    simpa using this
  · rw [go S rS.dig (by rw [rS.len]; decide) (by rw [rS.len]; decide), body S rS.dig (by rw [rS.len]; decide), rS.len, if_neg (by decide),
      if_pos (by decide), List.take_zero, List.drop_zero, List.take_of_length_le (by rw [rS.len]), strInt_run rS (by decide)]
    exact checkTime_ok false 0 0 0 s (by decide) hs

/-- C31.  `D HH:MM:SS`: days count as 24 hours. -/
theorem C31_days {a h m s : Nat} {A H M S : Bytes} (k : Nat) (rA : Run k a A) (hk : 1 ≤ k) (hk2 : k ≤ 2) (rH : Run 2 h H) (rM : Run 2 m M)
    (rS : Run 2 s S) (hm : m ≤ 59) (hs : s ≤ 59) :
    ofTimeText (A ++ (0x20#8 :: (H ++ (0x3a#8 :: (M ++ (0x3a#8 :: S)))))) = packTime false (a * 24 + h) m s := by
  have hlen : (A ++ (0x20#8 :: (H ++ (0x3a#8 :: (M ++ (0x3a#8 :: S)))))).length = k + 9 := by
    simp only [List.length_append, List.length_cons, rA.len, rH.len, rM.len, rS.len]
  have hmem : ∀ c ∈ A ++ (0x20#8 :: (H ++ (0x3a#8 :: (M ++ (0x3a#8 :: S))))), isDig c = true ∨ c = 0x3a#8 ∨ c = 0x20#8 := by
    intro c hc
    simp only [List.mem_append, List.mem_cons] at hc
    rcases hc with hc | hc | hc | hc | hc | hc | hc
    · exact Or.inl (rA.dig c hc)
    · exact Or.inr (Or.inr hc)
    · exact Or.inl (rH.dig c hc)
    · exact Or.inr (Or.inl hc)
    · exact Or.inl (rM.dig c hc)
    · exact Or.inr (Or.inl hc)
    · exact Or.inl (rS.dig c hc)
  have hdot : ∀ x ∈ A ++ (0x20#8 :: (H ++ (0x3a#8 :: (M ++ (0x3a#8 :: S))))), x ≠ 0x2e#8 := by
    intro c hc
    rcases hmem c hc with h | rfl | rfl
    · exact (dig_facts h).2.2.2.1
    · decide
    · decide
  have hcs : cstr (A ++ (0x20#8 :: (H ++ (0x3a#8 :: (M ++ (0x3a#8 :: S)))))) = A ++ (0x20#8 :: (H ++ (0x3a#8 :: (M ++ (0x3a#8 :: S))))) := by
    apply takeWhile_all
    intro c hc
    rcases hmem c hc with h | rfl | rfl
    · simpa using (dig_facts h).2.2.2.2.2.2.1
    · decide
    · decide
  have hhead : ((A ++ (0x20#8 :: (H ++ (0x3a#8 :: (M ++ (0x3a#8 :: S)))))).take 20).takeWhile (· != 0x2e#8) =
      A ++ (0x20#8 :: (H ++ (0x3a#8 :: (M ++ (0x3a#8 :: S))))) := by
    rw [List.take_of_length_le (by omega)]
    exact takeWhile_all _ _ (fun c hc => by simpa using hdot c hc)
  have hnb : (A ++ (0x20#8 :: (H ++ (0x3a#8 :: (M ++ (0x3a#8 :: S)))))).any (· == 0x20#8) = true := by
    rw [List.any_eq_true]
    exact ⟨0x20#8, by simp, by decide⟩
  have hscan : scan fmtDay (A ++ (0x20#8 :: (H ++ (0x3a#8 :: (M ++ (0x3a#8 :: S)))))) = [(a : Int), h, m, s] := by
    have e := scan_num rS (by decide) [] []
    rw [List.append_nil] at e
    obtain ⟨c, t, hc, hd⟩ := rH.cons (by decide)
    have hb : scan (.blank :: [.num none, .chr 0x3a#8, .num (some 2), .chr 0x3a#8, .num (some 2)])
        (0x20#8 :: (H ++ (0x3a#8 :: (M ++ (0x3a#8 :: S))))) =
        scan [.num none, .chr 0x3a#8, .num (some 2), .chr 0x3a#8, .num (some 2)] (H ++ (0x3a#8 :: (M ++ (0x3a#8 :: S)))) := by
      rw [hc, List.cons_append]
      conv => lhs; unfold scan
      rw [List.dropWhile_cons_of_pos (by decide), List.dropWhile_cons_of_neg (by simp [(dig_facts hd).1])]
    unfold fmtDay
    rw [scan_free rA hk _ (by intro c hc; simp at hc; subst hc; decide), hb,
      scan_free rH (by decide) _ (by intro c hc; simp at hc; subst hc; decide), scan_chr, scan_num rM (by decide), scan_chr, e]
    rfl
  have ha : a < 100 := Nat.lt_of_lt_of_le (run_lt rA) (Nat.pow_le_pow_right (by decide) hk2)
  have hh := run_lt rH
  have hbody : ofTimeBody false (A ++ (0x20#8 :: (H ++ (0x3a#8 :: (M ++ (0x3a#8 :: S)))))) = packTime false (a * 24 + h) m s := by
    unfold ofTimeBody
    simp only [hhead, hcs, hnb, if_true, hscan, List.getD_cons_zero, List.getD_cons_succ]
    rw [intOf_small a (by omega), uintOf_small h (by omega), uintOf_small m (by omega), uintOf_small s (by omega),
      checkTime_ok false a h m s hm hs, Nat.add_comm]
  rw [← hbody]
  obtain ⟨c, t, hc, hd⟩ := rA.cons hk
  rw [hc, List.cons_append] at hlen hdot ⊢
  exact ofTimeText_short false c _ hd (by omega) hdot

/-- C31.  Minutes or seconds above 59 make the whole TIME 0. -/
theorem C31_invalid (minus : Bool) (d h m s : Int) (hbad : m > 59 ∨ s > 59) : checkTime minus d h m s = 0 := by
  unfold checkTime
  rw [if_pos (by omega)]

end BaikalDB.Datetime
