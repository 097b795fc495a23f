import Verif.Wire.Exec
import Verif.Wire.Props

/-! # C33: what the server understands of a COM_STMT_EXECUTE -/

namespace BaikalDB.Wire

open BaikalDB.Expr

/-- C33.  The server reads the length-encoded integers of a client, and its own, NULL aside. -/
theorem C33_lenenc_server (a l : Bytes) (n : Nat) (hn : n < 2 ^ 64) :
    getLenenc (a ++ Spec.encLen n ++ l) a.length = .ok (some n, a.length + (Spec.encLen n).length) ∧
    Spec.encLen n = lenenc n ∧
    getLenenc (a ++ [0xfb#8] ++ l) a.length = .ok (none, a.length + 1) ∧
    (∀ d : Bytes, d.length ≤ a.length → getLenenc d a.length = .err) := by
  refine ⟨?_, ?_, ?_, ?_⟩
  · obtain ⟨k, hk, e⟩ := getLenenc_enc (d := a ++ Spec.encLen n ++ l) (off := a.length) (l := l) (n := n)
      (by rw [List.append_assoc]; exact at_append a _) hn
    rw [hk, e]
  · unfold Spec.encLen lenenc
    simp only [le_eq_enc]
    by_cases h1 : n ≤ 250
    · rw [if_pos h1, if_pos (by omega)]
      rfl
    · rw [if_neg h1]
      conv_rhs => rw [if_neg (by omega)]
  · unfold getLenenc
    simp
  · intro d hd
    unfold getLenenc
    rw [if_pos (by omega)]

/-- What the client means by a parameter. -/
def _root_.BaikalDB.Wire.Spec.Param.val : Spec.Param → Spec.Val
  | .null _ => .null
  | .long _ s | .str _ s => .str s
  | .int _ _ n => .int n
  | .f32 b => .f32 b
  | .f64 b => .f64 b
  | .date _ y m d h i s u => .date y m d h i s u
  | .time n d h i s u => .time n d h i s u

/-- The parameters the server takes as they are: a date is zero, or has a month and a year of three or four digits (or 70); a
time has no microseconds and is not zero. -/
def _root_.BaikalDB.Wire.Spec.Param.Plain : Spec.Param → Prop
  | .date _ y m d h i s u => (y = 0 ∧ m = 0 ∧ d = 0 ∧ h = 0 ∧ i = 0 ∧ s = 0 ∧ u = 0) ∨ (1 ≤ m ∧ (y = 70 ∨ 100 ≤ y))
  | .time _ d h i s u => u = 0 ∧ ¬ (d = 0 ∧ h = 0 ∧ i = 0 ∧ s = 0)
  | _ => True

/-- Whether the value is unsigned. -/
def _root_.BaikalDB.Wire.Spec.Param.SameSign (v : EV) : Spec.Param → Prop
  | .int _ u _ => v.ty.isUint = u
  | _ => True

theorem sget64 (k : Nat) (h : k < 2 ^ 63) : (EV.mk .int64 (BitVec.ofNat 64 k) []).sget 64 = k := by
  simp only [EV.sget, BitVec.setWidth_eq, BitVec.toInt_eq_toNat_bmod, BitVec.toNat_ofNat]
  rw [Nat.mod_eq_of_lt (by omega), Int.bmod_eq_of_le (by omega) (by omega)]

theorem signed_back (w : Nat) (hw : w = 8 ∨ w = 16 ∨ w = 32) (t : VTy) (n : Int) (h : -2 ^ (w - 1) ≤ n ∧ n < 2 ^ (w - 1)) :
    (EV.mk t (putLow w (BitVec.ofNat 64 (n % 2 ^ w).toNat) ((EV.mk .int64 (BitVec.ofNat 64 (n % 2 ^ w).toNat) []).sget 64)) []).sget w = n := by
  rw [sget_putLow (by omega), sget64 _ (by rcases hw with rfl | rfl | rfl <;> omega), Int.toNat_of_nonneg (by
    rcases hw with rfl | rfl | rfl <;> omega)]
  have := bmod_of_fits (n := w) (by omega) h
  rw [← this]
  rcases hw with rfl | rfl | rfl <;> simp only [Int.bmod_def] <;> omega

theorem unsigned_back (w : Nat) (hw : w = 8 ∨ w = 16 ∨ w = 32) (t : VTy) (n : Int) (h : 0 ≤ n ∧ n < 2 ^ w) :
    (EV.mk t (putLow w (BitVec.ofNat 64 (n % 2 ^ w).toNat) ((EV.mk .int64 (BitVec.ofNat 64 (n % 2 ^ w).toNat) []).sget 64)) []).uget w = n := by
  rw [uget_putLow (by omega), sget64 _ (by rcases hw with rfl | rfl | rfl <;> omega), Int.toNat_of_nonneg (by
    rcases hw with rfl | rfl | rfl <;> omega)]
  rcases hw with rfl | rfl | rfl <;> omega

theorem signed64_back (t : VTy) (n : Int) (h : -2 ^ 63 ≤ n ∧ n < 2 ^ 63) :
    (EV.mk t (BitVec.ofNat 64 (n % 2 ^ 64).toNat) []).sget 64 = n := by
  simp only [EV.sget, BitVec.setWidth_eq, BitVec.toInt_eq_toNat_bmod, BitVec.toNat_ofNat, Int.bmod_def]
  omega

theorem unsigned64_back (t : VTy) (n : Int) (h : 0 ≤ n ∧ n < 2 ^ 64) :
    (EV.mk t (putLow 64 (BitVec.ofNat 64 (n % 2 ^ 64).toNat) ((EV.mk .int64 (BitVec.ofNat 64 (n % 2 ^ 64).toNat) []).sget 64)) []).uget 64 = n := by
  rw [uget_putLow (by omega)]
  simp only [EV.sget, BitVec.setWidth_eq, BitVec.toInt_eq_toNat_bmod, BitVec.toNat_ofNat, Int.bmod_def]
  split <;> omega

theorem value_int (t : Nat) (u : Bool) (n : Int) (h : (Spec.Param.int t u n).Legal) :
    ∃ v, (litOf (.int t u n)).value = some v ∧ v.isNull = false ∧ meant v = .int n ∧ v.ty.isUint = u := by
  obtain ⟨h0, h1⟩ := h
  have ht : t = 1 ∨ t = 2 ∨ t = 8 ∨ t = 3 ∨ t = 9 := by
    unfold Spec.intWidth at h0
    by_contra hc
    simp only [not_or] at hc
    obtain ⟨c1, c2, c3, c4, c5⟩ := hc
    simp [c1, c2, c3, c4, c5] at h0
  rcases ht with rfl | rfl | rfl | rfl | rfl <;> cases u
  · exact ⟨_, rfl, rfl, congrArg Spec.Val.int (signed_back 8 (by simp) .int8 n h1), rfl⟩
  · exact ⟨_, rfl, rfl, congrArg Spec.Val.int (unsigned_back 8 (by simp) .uint8 n h1), rfl⟩
  · exact ⟨_, rfl, rfl, congrArg Spec.Val.int (signed_back 16 (by simp) .int16 n h1), rfl⟩
  · exact ⟨_, rfl, rfl, congrArg Spec.Val.int (unsigned_back 16 (by simp) .uint16 n h1), rfl⟩
  · exact ⟨_, rfl, rfl, congrArg Spec.Val.int (signed64_back .int64 n h1), rfl⟩
  · exact ⟨_, rfl, rfl, congrArg Spec.Val.int (unsigned64_back .uint64 n h1), rfl⟩
  · exact ⟨_, rfl, rfl, congrArg Spec.Val.int (signed_back 32 (by simp) .int32 n h1), rfl⟩
  · exact ⟨_, rfl, rfl, congrArg Spec.Val.int (unsigned_back 32 (by simp) .uint32 n h1), rfl⟩
  · exact ⟨_, rfl, rfl, congrArg Spec.Val.int (signed_back 32 (by simp) .int32 n h1), rfl⟩
  · exact ⟨_, rfl, rfl, congrArg Spec.Val.int (unsigned_back 32 (by simp) .uint32 n h1), rfl⟩

theorem unpack_mod (x : Nat) : Datetime.unpack (x % 2 ^ 64) = Datetime.unpack x := by
  simp only [Datetime.unpack_eq]
  congr 1 <;> omega

theorem value_param (p : Spec.Param) (h : p.Legal) (hp : p.Plain) :
    ∃ v, (litOf p).value = some v ∧ (if v.isNull then .null else meant v) = p.val ∧ p.SameSign v := by
  cases p with
  | null t => exact ⟨_, rfl, rfl, trivial⟩
  | long t s => exact ⟨_, rfl, rfl, trivial⟩
  | str t s => exact ⟨_, rfl, rfl, trivial⟩
  | int t u n =>
    obtain ⟨v, e1, e2, e3, e4⟩ := value_int t u n h
    exact ⟨v, e1, by rw [e2]; exact e3, e4⟩
  | f32 b =>
    refine ⟨_, rfl, ?_, trivial⟩
    have h' : b < 2 ^ 32 := h
    show Spec.Val.f32 ((BitVec.ofNat 64 b).toNat % 2 ^ 32) = .f32 b
    rw [BitVec.toNat_ofNat]
    congr 1
    omega
  | f64 b =>
    refine ⟨_, rfl, ?_, trivial⟩
    have h' : b < 2 ^ 64 := h
    show Spec.Val.f64 (BitVec.ofNat 64 b).toNat = .f64 b
    rw [BitVec.toNat_ofNat]
    congr 1
    omega
  | date t y m d ho i s u =>
    obtain ⟨-, b1, b2, b3, b4, b5, b6, b7⟩ := h
    refine ⟨_, rfl, ?_, trivial⟩
    rcases hp with ⟨rfl, rfl, rfl, rfl, rfl, rfl, rfl⟩ | ⟨g1, g2⟩
    · simp only [Spec.Param.val]
      decide
    · have hs : Datetime.Sent ⟨y, m, d, ho, i, s, u⟩ := ⟨b1, ⟨g1, b2⟩, b3, b4, b5, b6, b7⟩
      have hb := Datetime.C30_binary _ hs
      generalize Datetime.ofBinary ⟨y, m, d, ho, i, s, u⟩ = x at hb
      have hy : (if y < 70 then y + 2000 else if y = 70 ∨ 100 ≤ y then y else y + 1900) = y := by
        rw [if_neg (by omega), if_pos g2]
      show (let f := Datetime.unpack (BitVec.ofNat 64 x).toNat
        Spec.Val.date f.year f.month f.day f.hour f.minute f.second f.micro) = _
      rw [BitVec.toNat_ofNat, unpack_mod, hb]
      simp only [hy, Spec.Param.val]
  | time n d ho i s u =>
    obtain ⟨b1, b2, b3, b4, b5⟩ := h
    obtain ⟨rfl, hz⟩ := hp
    refine ⟨_, rfl, ?_, trivial⟩
    have hpk := Datetime.packTime_eq n (d * 24 + ho) i s (by omega) (by omega) (by omega)
    generalize Datetime.packTime n (d * 24 + ho) i s = x at hpk
    have hg : (EV.mk .time (putLow 32 0 x) []).sget 32 = x := by
      rw [sget_putLow (by omega)]
      apply bmod_of_fits (by omega)
      cases n <;> simp only [Bool.false_eq_true, if_true, if_false] at hpk <;> omega
    obtain ⟨f1, f2, f3⟩ := Datetime.time_fields x (d * 24 + ho) i s (by omega) (by omega) (by omega)
      (by cases n <;> simp only [Bool.false_eq_true, if_true, if_false] at hpk <;> omega)
    have hn : decide (x < 0) = n := by
      cases n <;> simp only [Bool.false_eq_true, if_true, if_false] at hpk <;> simp <;> omega
    show (let t := (EV.mk .time (putLow 32 0 x) []).sget 32
      Spec.Val.time (decide (t < 0)) (Datetime.timeHour t / 24) (Datetime.timeHour t % 24) (Datetime.timeMin t) (Datetime.timeSec t) 0) = _
    simp only [hg, f1, f2, f3, hn, Spec.Param.val]
    congr 1 <;> omega

/-- C33.  Part of the claim that a prepared statement runs with the values its client bound: it covers every number, type and
value of parameters but years below 100 (other than 70), microseconds of a TIME, and the TIME zero (see
`C33_execute_year_counterexample` and `C33_execute_time_counterexample`).  However the network cuts the command into pieces, the
server finds the statement, the types, and for each parameter a value that is the one bound, of the sign bound; whether the
types come with the command or were bound before, and with long data sent apart. -/
theorem C33_execute_partial (find : Nat → Option Stmt) (S : Stmt) (id : Nat) (ps : List Spec.Param) (bind : Bool)
    (hid : id < 2 ^ 32) (hf : find id = some S) (hn : S.n = ps.length) (hb : bind = false → S.types = ps.map Spec.Param.type)
    (hlong : ∀ i p, ps[i]? = some p → S.long i = longOf p)
    (legal : ∀ p ∈ ps, p.Legal ∧ p.Plain) (hd : (Spec.execute id ps bind).length < 2 ^ 62)
    (rest : Bytes) (ks : List Nat) (s : Sock) (net : Bytes)
    (hrun : Sock.run {} (Spec.writeMessage 0 (Spec.execute id ps bind) ++ rest) ks = some (s, net)) :
    net = rest ∧ ∃ lits, readExecute find s.buf = .ok (id, (if ps = [] then S.types else ps.map Spec.Param.type), lits) ∧
      List.Forall₂ (fun p l => ∃ v, l.value = some v ∧ (if v.isNull then .null else meant v) = p.val ∧ p.SameSign v) ps lits := by
  obtain ⟨e1, -, e3, -⟩ := (C33_read_chunks 0 (Spec.execute id ps bind) rest ks).1 s net hrun
  refine ⟨e3, ps.map litOf, ?_, ?_⟩
  · rw [e1]
    refine readExecute_execute find S id ps bind hid hf hn hb hlong (fun p hp => ⟨(legal p hp).1, ?_⟩) hd
    have := (legal p hp).2
    cases p with
    | time n d h i s u =>
      obtain ⟨-, hz⟩ := this
      exact fun hc => hz ⟨hc.1, hc.2.1, hc.2.2.1, hc.2.2.2.1⟩
    | _ => trivial
  · clear hrun hlong hd hn hb e1
    induction ps with
    | nil => exact .nil
    | cons p ps ih =>
      exact .cons (value_param p (legal p (by simp)).1 (legal p (by simp)).2) (ih fun q hq => legal q (by simp [hq]))

example : ∀ p ∈ ([.int 1 false (-5), .str 253 [0x61#8], .null 253, .date 12 2024 2 29 1 2 3 4, .time true 1 2 3 4 0, .long 252 [1#8],
    .int 8 true (2 ^ 64 - 1), .f64 0] : List Spec.Param), p.Legal ∧ p.Plain := by
  intro p hp
  simp only [List.mem_cons, List.not_mem_nil, or_false] at hp
  rcases hp with rfl | rfl | rfl | rfl | rfl | rfl | rfl | rfl <;>
    simp [Spec.Param.Legal, Spec.Param.Plain, Spec.intWidth, Spec.isDate]

example : (Sock.run {} (Spec.writeMessage 0 (Spec.execute 1 [.int 1 false (-5), .str 253 [0x61#8]] true)) [3, 0, 2, 40, 50]).map
    (fun p => readExecute (fun i => if i = 1 then some ⟨2, [], fun _ => none⟩ else none) p.1.buf) =
    some (.ok (1, [(1, false), (253, false)], [.int .int8 251, .str [0x61#8]])) := by decide +kernel

/-- C33.  The year 50 of a DATE parameter becomes 2050. -/
theorem C33_execute_year_counterexample :
    (litOf (.date 10 50 1 2 0 0 0 0)).value.map meant = some (.date 2050 1 2 0 0 0 0) ∧
    (Spec.Param.date 10 50 1 2 0 0 0 0).Legal ∧ (Spec.Param.date 10 50 1 2 0 0 0 0).val = .date 50 1 2 0 0 0 0 := by
  refine ⟨by decide, ?_, rfl⟩
  simp [Spec.Param.Legal, Spec.isDate]

/-- C33.  A TIME parameter loses its microseconds; and the TIME zero, which a client sends as the single byte 0, takes the next
byte for its sign, so that the parameter after it is read from the wrong place: here the string of two bytes 01 61 is taken
for the string 61. -/
theorem C33_execute_time_counterexample :
    (litOf (.time false 0 1 2 3 4)).value.map meant = some (.time false 0 1 2 3 0) ∧
    readExecute (fun _ => some ⟨2, [], fun _ => none⟩)
      ([0#8, 0#8, 0#8, 0#8] ++ Spec.execute 1 [.time false 0 0 0 0 0, .str 253 [1#8, 0x61#8]] true) =
      .ok (1, [(11, false), (253, false)], [.time 0, .str [0x61#8]]) := by
  decide +kernel

/-! ## Malformed commands -/

theorem ite_inside {α : Type} {c : Prop} [Decidable c] {x y : Out α} (hx : x ≠ .outside) (hy : y ≠ .outside) :
    (if c then x else y) ≠ .outside := by
  split <;> assumption

theorem getLenenc_cases (d : Bytes) (off : Nat) : getLenenc d off ≠ .outside ∧ ∀ len o, getLenenc d off = .ok (some len, o) →
    (len < 2 ^ 24 ∧ o ≤ d.length) ∨ (d.getD off 0#8 = 0xfe#8 ∧ off + 9 ≤ d.length ∧ o = off + 9 ∧ len = Spec.num ((d.drop (off + 1)).take 8)) := by
  unfold getLenenc
  by_cases h1 : d.length < off + 1
  · rw [if_pos h1]
    exact ⟨by simp, by simp⟩
  rw [if_neg h1]
  simp only
  by_cases h2 : 254 < (d.getD off 0#8).toNat
  · rw [if_pos h2]
    exact ⟨by simp, by simp⟩
  rw [if_neg h2]
  by_cases h3 : (d.getD off 0#8).toNat = 251
  · rw [if_pos h3]
    exact ⟨by simp, by simp⟩
  rw [if_neg h3]
  by_cases h4 : (d.getD off 0#8).toNat ≤ 250
  · rw [if_pos h4]
    refine ⟨by simp, ?_⟩
    intro len o h
    injection h with h
    injection h with e1 e2
    injection e1 with e1
    left
    omega
  rw [if_neg h4]
  have key : ∀ k, (getFixed d (off + 1) k).bind (fun r => Out.ok (some r.1, r.2)) ≠ Out.outside ∧
      ∀ len o, (getFixed d (off + 1) k).bind (fun r => Out.ok (some r.1, r.2)) = .ok (some len, o) →
      off + 1 + k ≤ d.length ∧ o = off + 1 + k ∧ len = Spec.num ((d.drop (off + 1)).take k) ∧ len < 256 ^ k := by
    intro k
    unfold getFixed
    by_cases h5 : d.length < off + 1 + k
    · rw [if_pos h5]
      exact ⟨by simp [Out.bind], by simp [Out.bind]⟩
    · rw [if_neg h5]
      refine ⟨by simp [Out.bind], ?_⟩
      intro len o h
      simp only [Out.bind] at h
      injection h with h
      injection h with e1 e2
      injection e1 with e1
      refine ⟨by omega, e2.symm, by rw [← e1, leSum_eq], ?_⟩
      rw [← e1, leSum_eq]
      refine Nat.lt_of_lt_of_le (num_lt _) (Nat.pow_le_pow_right (by omega) (by simp))
  by_cases c1 : (d.getD off 0#8).toNat = 252
  · rw [if_pos c1]
    refine ⟨(key 2).1, fun len o h => Or.inl ?_⟩
    have := (key 2).2 len o h
    omega
  rw [if_neg c1]
  by_cases c2 : (d.getD off 0#8).toNat = 253
  · rw [if_pos c2]
    refine ⟨(key 3).1, fun len o h => Or.inl ?_⟩
    have := (key 3).2 len o h
    omega
  rw [if_neg c2]
  refine ⟨(key 8).1, fun len o h => Or.inr ?_⟩
  obtain ⟨e1, e2, e3, -⟩ := (key 8).2 len o h
  refine ⟨?_, by omega, by omega, e3⟩
  apply BitVec.eq_of_toNat_eq
  show _ = 254
  omega

theorem decodeValue_outside {d : Bytes} {off ty : Nat} {u : Bool} (hd : d.length < 2 ^ 63) (h : decodeValue d off ty u = .outside) :
    ∃ o, d.getD o 0#8 = 0xfe#8 ∧ o + 9 ≤ d.length ∧ 2 ^ 64 ≤ o + 9 + Spec.num ((d.drop (o + 1)).take 8) := by
  have hfix : ∀ {β : Type} {o k : Nat} {f : Nat × Nat → Out β}, (∀ r, f r ≠ .outside) → (getFixed d o k).bind f ≠ .outside := by
    intro β o k f h
    unfold getFixed
    split
    · simp [Out.bind]
    · exact h _
  have hfields : ∀ {β : Type} {ks : List Nat} {o : Nat} {f : List Nat × Nat → Out β}, (∀ r, f r ≠ .outside) →
      (getFields d ks o).bind f ≠ .outside := by
    intro β ks o f h
    have : getFields d ks o ≠ .outside := by
      induction ks generalizing o with
      | nil => simp [getFields]
      | cons k ks ih =>
        unfold getFields
        refine hfix fun r => ?_
        rcases hg : getFields d ks r.2 with q | _ | _
        · simp [Out.bind]
        · simp [Out.bind]
        · exact absurd hg ih
    rcases hg : getFields d ks o with q | _ | _
    · exact h q
    · simp [Out.bind]
    · exact absurd hg this
  unfold decodeValue at h
  by_cases hty : ty = tString ∨ ty = tBlob ∨ ty = tVarString
  · refine ⟨off, ?_⟩
    rw [if_pos hty] at h
    obtain ⟨g1, g2⟩ := getLenenc_cases d off
    rcases hg : getLenenc d off with r | _ | _
    · obtain ⟨len, o⟩ := r
      rw [hg] at h
      cases len with
      | none => cases h
      | some len =>
        have hw : ¬ d.length < (o + len) % 2 ^ 64 ∧ d.length < o + len := by
          simp only [Out.bind] at h
          constructor
          · intro hc
            rw [if_pos hc] at h
            cases h
          · by_contra hc
            rw [if_neg hc] at h
            by_cases hc2 : d.length < (o + len) % 2 ^ 64
            · rw [if_pos hc2] at h; cases h
            · rw [if_neg hc2] at h; cases h
        rcases g2 len o hg with g | ⟨q1, q2, q3, q4⟩
        · exfalso
          obtain ⟨w1, w2⟩ := hw
          rw [Nat.mod_eq_of_lt (by omega)] at w1
          omega
        · refine ⟨q1, q2, ?_⟩
          rw [← q4, ← q3]
          by_contra hc
          obtain ⟨w1, w2⟩ := hw
          rw [Nat.mod_eq_of_lt (by omega)] at w1
          omega
    · rw [hg] at h
      cases h
    · exact absurd hg g1
  · exfalso
    rw [if_neg hty] at h
    revert h
    have ok : ∀ {β : Type} (x : β), Out.ok x ≠ .outside := by simp
    refine ite_inside (hfix fun _ => ok _) (ite_inside (hfix fun _ => ok _) (ite_inside (hfix fun _ => ok _)
      (ite_inside (hfix fun _ => ok _) (ite_inside (hfix fun _ => ok _) (ite_inside (hfix fun _ => ok _)
      (ite_inside (hfix fun _ => ?_) (ite_inside (hfix fun _ => hfix fun _ => ?_) (by simp))))))))
    · exact ite_inside (ok _) (ite_inside (hfields fun _ => ok _) (ite_inside (hfields fun _ => ok _)
        (ite_inside (hfields fun _ => ok _) (by simp))))
    · exact ite_inside (hfields fun _ => ok _) (ite_inside (hfields fun _ => ok _) (ite_inside (ok _) (by simp)))

theorem readTypes_spec (d : Bytes) (n off : Nat) :
    (readTypes d off n = .outside → d.length < off + 2 * n) ∧ (∀ r, readTypes d off n = .ok r → r.length = n) ∧ readTypes d off n ≠ .err := by
  induction n generalizing off with
  | zero =>
    unfold readTypes
    exact ⟨by simp, by rintro r ⟨⟩; rfl, by simp⟩
  | succ n ih =>
    obtain ⟨i1, i2, i3⟩ := ih (off + 2)
    unfold readTypes
    split
    · exact ⟨fun _ => by omega, by simp, by simp⟩
    · rcases hr : readTypes d (off + 2) n with r | _ | _
      · refine ⟨by simp [Out.bind], ?_, by simp [Out.bind]⟩
        rintro q ⟨⟩
        simp [i2 r hr]
      · exact absurd hr i3
      · refine ⟨fun _ => ?_, by simp [Out.bind], by simp [Out.bind]⟩
        have := i1 hr
        omega

theorem readParams_outside {d : Bytes} (hd : d.length < 2 ^ 63) (S : Stmt) (types : List (Nat × Bool)) (m : Nat) :
    ∀ k idx off, idx + k ≤ types.length → readParams d S types m k idx off = .outside →
      ∃ o, d.getD o 0#8 = 0xfe#8 ∧ o + 9 ≤ d.length ∧ 2 ^ 64 ≤ o + 9 + Spec.num ((d.drop (o + 1)).take 8) := by
  intro k
  induction k with
  | zero => intro idx off _ h; cases h
  | succ k ih =>
    intro idx off hk h
    have step : ∀ {o : Nat} {l : Lit}, (readParams d S types m k (idx + 1) o).bind (fun r => .ok (l :: r)) = .outside →
        readParams d S types m k (idx + 1) o = .outside := by
      intro o l h
      rcases hr : readParams d S types m k (idx + 1) o with r | _ | _ <;> rw [hr] at h <;> first | rfl | cases h
    unfold readParams at h
    split at h
    · exact ih _ _ (by omega) (step h)
    · split at h
      · rename_i h2
        rw [List.getElem?_eq_none_iff] at h2
        omega
      · split at h
        · exact ih _ _ (by omega) (step h)
        · rename_i t _ _
          rcases hr : decodeValue d off t.1 t.2 with r | _ | _
          · rw [hr] at h
            exact ih _ _ (by omega) (step h)
          · rw [hr] at h; cases h
          · exact decodeValue_outside hd hr

theorem readParams_length {d : Bytes} (S : Stmt) (types : List (Nat × Bool)) (m : Nat) :
    ∀ k idx off r, readParams d S types m k idx off = .ok r → r.length = k := by
  intro k
  induction k with
  | zero => rintro idx off r ⟨⟩; rfl
  | succ k ih =>
    intro idx off r h
    have step : ∀ {o : Nat} {l : Lit}, (readParams d S types m k (idx + 1) o).bind (fun r => .ok (l :: r)) = .ok r → r.length = k + 1 := by
      intro o l h
      rcases hr : readParams d S types m k (idx + 1) o with q | _ | _ <;> rw [hr] at h <;> cases h
      simp [ih _ _ _ hr]
    unfold readParams at h
    split at h
    · exact step h
    · split at h
      · cases h
      · split at h
        · exact step h
        · rename_i t _ _
          rcases hr : decodeValue d off t.1 t.2 with r | _ | _ <;> rw [hr] at h
          · exact step h
          · cases h
          · cases h

/-- C33.  Part of the claim that no packet makes the server read outside it: of the commands executing a prepared statement,
only those whose block of types is cut short, or in which a string length of eight bytes runs past 2^64, do (both can happen:
`C33_execute_types_counterexample` and `C33_execute_length_counterexample`). -/
theorem C33_execute_bounds_partial (find : Nat → Option Stmt) (hfind : ∀ id S, find id = some S → S.types = [] ∨ S.types.length = S.n)
    (d : Bytes) (hd : d.length < 2 ^ 63) (h : readExecute find d = .outside) :
    (∃ id S, find id = some S ∧ d.getD (14 + (S.n + 7) / 8) 0#8 = 1#8 ∧ d.length < 14 + (S.n + 7) / 8 + 1 + 2 * S.n) ∨
    ∃ o, d.getD o 0#8 = 0xfe#8 ∧ o + 9 ≤ d.length ∧ 2 ^ 64 ≤ o + 9 + Spec.num ((d.drop (o + 1)).take 8) := by
  have bindc : ∀ {α β : Type} {x : Out α} {f : α → Out β}, x.bind f = .outside → x = .outside ∨ ∃ a, x = .ok a ∧ f a = .outside := by
    intro α β x f h
    cases x with
    | ok a => exact Or.inr ⟨a, rfl, h⟩
    | err => cases h
    | outside => exact Or.inl rfl
  have fixc : ∀ {o k : Nat}, getFixed d o k ≠ .outside := by
    intro o k
    unfold getFixed
    split <;> simp
  have charc : ∀ {o : Nat}, getChar d o ≠ .outside := by
    intro o
    unfold getChar
    split <;> simp
  have fixo : ∀ {o k : Nat} {r : Nat × Nat}, getFixed d o k = .ok r → r.2 = o + k := by
    intro o k r h
    unfold getFixed at h
    split at h <;> cases h
    rfl
  have charo : ∀ {o : Nat} {r : Byte × Nat}, getChar d o = .ok r → r = (d.getD o 0#8, o + 1) := by
    intro o r h
    unfold getChar at h
    split at h <;> cases h
    rfl
  unfold readExecute at h
  rcases bindc h with h | ⟨id, e1, h⟩
  · exact absurd h fixc
  split at h
  · cases h
  rename_i S hS
  rcases bindc h with h | ⟨fl, e2, h⟩
  · exact absurd h charc
  split at h
  · cases h
  rcases bindc h with h | ⟨it, e3, h⟩
  · exact absurd h fixc
  split at h
  · cases h
  rcases bindc h with h | ⟨bd, e4, h⟩
  · exact absurd h charc
  have f1 := fixo e1
  have f2 := charo e2
  have f3 := fixo e3
  have f4 := charo e4
  have f2' : fl.2 = id.2 + 1 := by rw [f2]
  have f4' : bd.2 = it.2 + (S.n + 7) / 8 + 1 := by rw [f4]
  have hit : it.2 = 14 := by omega
  obtain ⟨t1, t2, t3⟩ := readTypes_spec d S.n bd.2
  rcases bindc h with h | ⟨types, e5, h⟩
  · left
    split at h
    · rename_i hb
      refine ⟨_, S, hS, ?_, ?_⟩
      · rw [← hit, ← hb, f4]
      · have := t1 h
        omega
    · cases h
  · right
    split at h
    · cases h
    · rename_i hne
      rcases bindc h with h | ⟨ps, e6, h⟩
      · refine readParams_outside hd S types _ _ _ _ ?_ h
        split at e5
        · have := t2 _ e5
          omega
        · cases e5
          rcases hfind _ S hS with h0 | h0
          · simp [h0] at hne
          · omega
      · cases h

/-- C33.  The premise above is kept: the types a statement keeps are none or one for each placeholder; and the statement runs
with one value for each placeholder. -/
theorem C33_execute_types (find : Nat → Option Stmt) (hfind : ∀ id S, find id = some S → S.types = [] ∨ S.types.length = S.n)
    (d : Bytes) (id : Nat) (types : List (Nat × Bool)) (ps : List Lit) (h : readExecute find d = .ok (id, types, ps)) :
    ∃ S, find id = some S ∧ (types = [] ∨ types.length = S.n) ∧ ps.length = S.n := by
  have bindc : ∀ {α β : Type} {x : Out α} {f : α → Out β} {b : β}, x.bind f = .ok b → ∃ a, x = .ok a ∧ f a = .ok b := by
    intro α β x f b h
    cases x with
    | ok a => exact ⟨a, rfl, h⟩
    | err => cases h
    | outside => cases h
  unfold readExecute at h
  obtain ⟨i, e1, h⟩ := bindc h
  split at h
  · cases h
  rename_i S hS
  obtain ⟨fl, e2, h⟩ := bindc h
  split at h
  · cases h
  obtain ⟨it, e3, h⟩ := bindc h
  split at h
  · rename_i h0
    cases h
    exact ⟨S, hS, hfind _ S hS, h0.symm⟩
  obtain ⟨bd, e4, h⟩ := bindc h
  obtain ⟨ty, e5, h⟩ := bindc h
  split at h
  · cases h
  obtain ⟨q, e6, h⟩ := bindc h
  cases h
  refine ⟨S, hS, ?_, readParams_length _ _ _ _ _ _ _ e6⟩
  split at e5
  · exact Or.inr ((readTypes_spec d S.n _).2.1 _ e5)
  · cases e5
    exact hfind _ S hS

example : readExecute (fun _ => some ⟨2, [], fun _ => none⟩) ([0#8, 0#8, 0#8, 0#8] ++
    Spec.execute 1 [.int 1 false (-5), .str 253 [0x61#8]] true) =
    .ok (1, [(1, false), (253, false)], [.int .int8 251, .str [0x61#8]]) := by decide +kernel

/-- C33.  A command that ends before its types makes the server read past the end of the packet. -/
theorem C33_execute_types_counterexample :
    readExecute (fun _ => some ⟨1, [], fun _ => none⟩)
      [0#8, 0#8, 0#8, 0#8, 0x17#8, 1#8, 0#8, 0#8, 0#8, 0#8, 1#8, 0#8, 0#8, 0#8, 0#8, 1#8] = .outside := by
  decide +kernel

/-- C33.  A string parameter of length 2^64 - 1 passes the check of the length, which overflows. -/
theorem C33_execute_length_counterexample :
    readExecute (fun _ => some ⟨1, [], fun _ => none⟩)
      ([0#8, 0#8, 0#8, 0#8, 0x17#8, 1#8, 0#8, 0#8, 0#8, 0#8, 1#8, 0#8, 0#8, 0#8, 0#8, 1#8, 253#8, 0#8, 0xfe#8] ++
        [0xff#8, 0xff#8, 0xff#8, 0xff#8, 0xff#8, 0xff#8, 0xff#8, 0xff#8]) = .outside := by
  decide +kernel

end BaikalDB.Wire
