import Verif.RowCodec.Tuple
import Verif.Ttl.Props
/-!
# Properties of the row reader (C41)
-/
namespace BaikalDB.RowCodec
open KeyEnc Ttl Spec

theorem unzigzag32_zigzag32 (x : BitVec 32) : unzigzag32 (zigzag32 x) = x := by
  have hb : ∀ i, i < 32 → (zigzag32 x).getLsbD i = ((decide (¬ i = 0) && x.getLsbD (i - 1)) ^^ x.msb) := by
    intro i hi
    simp only [zigzag32, BitVec.getLsbD_xor, BitVec.getLsbD_shiftLeft, BitVec.getLsbD_sshiftRight]
    have h1 : decide (32 ≤ i) = false := by simp; omega
    have h2 : decide (i < 32) = true := by simp [hi]
    have h3 : (if 31 + i < 32 then x.getLsbD (31 + i) else x.msb) = x.msb := by
      split
      · have : i = 0 := by omega
        subst this; rw [BitVec.msb_eq_getLsbD_last]
      · rfl
    rw [h1, h2, h3]
    by_cases h0 : i = 0
    · subst h0; simp
    · have : ¬ i < 1 := by omega
      simp [h0, this]
  have h0 : (zigzag32 x).getLsbD 0 = x.msb := by rw [hb 0 (by decide)]; simp
  have hand : (zigzag32 x &&& 1#32 ≠ 0#32) ↔ x.msb = true := by
    constructor
    · intro h
      cases hm : x.msb with
      | true => rfl
      | false =>
        exfalso; apply h
        apply BitVec.eq_of_getLsbD_eq
        intro i hi
        rw [BitVec.getLsbD_and]
        by_cases hi0 : i = 0
        · subst hi0; rw [h0, hm]; rfl
        · have : (1#32).getLsbD i = false := by
            have : ∀ j : Fin 32, j.val ≠ 0 → (1#32).getLsbD j.val = false := by decide
            exact this ⟨i, hi⟩ hi0
          rw [this]; simp
    · intro hm h
      have := congrArg (fun y : BitVec 32 => y.getLsbD 0) h
      simp only [BitVec.getLsbD_and, h0, hm] at this
      exact absurd this (by decide)
  unfold unzigzag32
  have hnext : ∀ i, i < 31 → (zigzag32 x).getLsbD (1 + i) = (x.getLsbD i ^^ x.msb) := by
    intro i hi
    rw [hb (1 + i) (by omega)]
    simp [show 1 + i - 1 = i by omega]
  split
  · rename_i h
    have hm := hand.1 h
    apply BitVec.eq_of_getLsbD_eq
    intro i hi
    simp only [BitVec.getLsbD_or, BitVec.getLsbD_shiftLeft, BitVec.getLsbD_not, BitVec.getLsbD_ushiftRight]
    by_cases h31 : i = 31
    · subst h31
      have hlast : x.getLsbD 31 = true := by rw [BitVec.msb_eq_getLsbD_last] at hm; exact hm
      rw [h0, hm, hlast]; simp
    · rw [hnext i (by omega), hm]
      have : i < 31 := by omega
      simp [hi, this]
  · rename_i h
    have hm : x.msb = false := by
      cases hm : x.msb with
      | false => rfl
      | true => exact absurd (hand.2 hm) h
    apply BitVec.eq_of_getLsbD_eq
    intro i hi
    rw [BitVec.getLsbD_ushiftRight]
    by_cases h31 : i = 31
    · subst h31
      have hlast : x.getLsbD 31 = false := by rw [BitVec.msb_eq_getLsbD_last] at hm; exact hm
      rw [hlast]; exact BitVec.getLsbD_of_ge _ _ (by decide)
    · rw [hnext i (by omega), hm]; simp

theorem unzigzag64_zigzag64 (x : BitVec 64) : unzigzag64 (zigzag64 x) = x := by
  have hb : ∀ i, i < 64 → (zigzag64 x).getLsbD i = ((decide (¬ i = 0) && x.getLsbD (i - 1)) ^^ x.msb) := by
    intro i hi
    simp only [zigzag64, BitVec.getLsbD_xor, BitVec.getLsbD_shiftLeft, BitVec.getLsbD_sshiftRight]
    have h1 : decide (64 ≤ i) = false := by simp; omega
    have h2 : decide (i < 64) = true := by simp [hi]
    have h3 : (if 63 + i < 64 then x.getLsbD (63 + i) else x.msb) = x.msb := by
      split
      · have : i = 0 := by omega
        subst this; rw [BitVec.msb_eq_getLsbD_last]
      · rfl
    rw [h1, h2, h3]
    by_cases h0 : i = 0
    · subst h0; simp
    · have : ¬ i < 1 := by omega
      simp [h0, this]
  have h0 : (zigzag64 x).getLsbD 0 = x.msb := by rw [hb 0 (by decide)]; simp
  have hand : (zigzag64 x &&& 1#64 ≠ 0#64) ↔ x.msb = true := by
    constructor
    · intro h
      cases hm : x.msb with
      | true => rfl
      | false =>
        exfalso; apply h
        apply BitVec.eq_of_getLsbD_eq
        intro i hi
        rw [BitVec.getLsbD_and]
        by_cases hi0 : i = 0
        · subst hi0; rw [h0, hm]; rfl
        · have : (1#64).getLsbD i = false := by
            have : ∀ j : Fin 64, j.val ≠ 0 → (1#64).getLsbD j.val = false := by decide
            exact this ⟨i, hi⟩ hi0
          rw [this]; simp
    · intro hm h
      have := congrArg (fun y : BitVec 64 => y.getLsbD 0) h
      simp only [BitVec.getLsbD_and, h0, hm] at this
      exact absurd this (by decide)
  unfold unzigzag64
  have hnext : ∀ i, i < 63 → (zigzag64 x).getLsbD (1 + i) = (x.getLsbD i ^^ x.msb) := by
    intro i hi
    rw [hb (1 + i) (by omega)]
    simp [show 1 + i - 1 = i by omega]
  split
  · rename_i h
    have hm := hand.1 h
    apply BitVec.eq_of_getLsbD_eq
    intro i hi
    simp only [BitVec.getLsbD_or, BitVec.getLsbD_shiftLeft, BitVec.getLsbD_not, BitVec.getLsbD_ushiftRight]
    by_cases h63 : i = 63
    · subst h63
      have hlast : x.getLsbD 63 = true := by rw [BitVec.msb_eq_getLsbD_last] at hm; exact hm
      rw [h0, hm, hlast]; simp
    · rw [hnext i (by omega), hm]
      have : i < 63 := by omega
      simp [hi, this]
  · rename_i h
    have hm : x.msb = false := by
      cases hm : x.msb with
      | false => rfl
      | true => exact absurd (hand.2 hm) h
    apply BitVec.eq_of_getLsbD_eq
    intro i hi
    rw [BitVec.getLsbD_ushiftRight]
    by_cases h63 : i = 63
    · subst h63
      have hlast : x.getLsbD 63 = false := by rw [BitVec.msb_eq_getLsbD_last] at hm; exact hm
      rw [hlast]; exact BitVec.getLsbD_of_ge _ _ (by decide)
    · rw [hnext i (by omega), hm]; simp

theorem setWidth_ofNat32 (x : BitVec 32) : (BitVec.ofNat 64 x.toNat).setWidth 32 = x := by
  apply BitVec.eq_of_toNat_eq
  have := x.isLt
  simp only [BitVec.toNat_setWidth, BitVec.toNat_ofNat]; omega

theorem setWidth_signExtend32 (x : BitVec 32) : (x.signExtend 64).setWidth 32 = x := by
  apply BitVec.eq_of_getLsbD_eq
  intro i hi
  rw [BitVec.getLsbD_setWidth, BitVec.getLsbD_signExtend]
  simp [hi, show i < 64 by omega]

theorem getFixed_mid {w : Nat} (n : Nat) (x : BitVec w) (hw : w ≤ 8 * n) (pre post : Bytes) :
    getFixed w (pre ++ memLE n x ++ post) pre.length n = some (x, pre.length + n) := by
  unfold getFixed
  rw [if_pos (by simp only [List.length_append, length_memLE]; omega), List.append_assoc, List.drop_left,
    List.take_append_of_le_length (by simp), List.take_of_length_le (by simp), loadLE_memLE hw]

/-- Reading a field at its place gives back its value and moves to the end of its payload. -/
theorem readPayload_payload {ty : PbType} {v : PbVal} (hk : Kind ty v) (pre post : Bytes)
    (hsz : (pre ++ payload ty v ++ post).length < 2 ^ 64) :
    readPayload ty (pre ++ payload ty v ++ post) pre.length = some (v, pre.length + (payload ty v).length) := by
  have hd : (pre ++ payload ty v ++ post).drop pre.length = payload ty v ++ post := by
    rw [List.append_assoc, List.drop_left]
  have hv : ∀ n, n < 2 ^ 64 → payload ty v = varint n →
      getVarint (payload ty v ++ post) 0 0#64 0 = (BitVec.ofNat 64 n, (payload ty v).length) := by
    intro n hn e; rw [e]; exact getVarint_varint0 hn post
  have hs : ∀ s, payload ty v = varint s.length ++ s → v = .str s → ty = .string ∨ ty = .bytes →
      readPayload ty (pre ++ payload ty v ++ post) pre.length = some (v, pre.length + (payload ty v).length) := by
    intro s e ev hty
    have hl : s.length < 2 ^ 64 := by
      rw [e] at hsz; simp only [List.length_append] at hsz; omega
    have hg : getVarint (payload ty v ++ post) 0 0#64 0 = (BitVec.ofNat 64 s.length, (varint s.length).length) := by
      rw [e, List.append_assoc]; exact getVarint_varint0 hl _
    have hdd : (pre ++ payload ty v ++ post).drop (pre.length + (varint s.length).length) = s ++ post := by
      rw [← List.drop_drop, hd, e, List.append_assoc, List.drop_left]
    have hn : (BitVec.ofNat 64 s.length).toNat = s.length := by rw [BitVec.toNat_ofNat, Nat.mod_eq_of_lt hl]
    have hle : pre.length + (varint s.length).length + s.length ≤ (pre ++ payload ty v ++ post).length := by
      rw [e]; simp only [List.length_append]; omega
    have hlen : (payload ty v).length = (varint s.length).length + s.length := by rw [e, List.length_append]
    rcases hty with h | h <;> subst h <;>
    · simp only [readPayload, hd, hg, hn, if_pos hle, hdd, List.take_left, hlen]
      rw [ev, Nat.add_assoc]
  cases ty <;> cases v <;> simp only [Kind] at hk
  case sint32.i32 x =>
    simp only [readPayload, hd, hv _ (Nat.lt_of_lt_of_le (BitVec.isLt _) (by decide)) rfl, setWidth_ofNat32,
      unzigzag32_zigzag32]
  case uint32.u32 x =>
    simp only [readPayload, hd, hv _ (Nat.lt_of_lt_of_le (BitVec.isLt _) (by decide)) rfl, setWidth_ofNat32]
  case sint64.i64 x => simp only [readPayload, hd, hv _ (BitVec.isLt _) rfl, BitVec.ofNat_toNat, BitVec.setWidth_eq, unzigzag64_zigzag64]
  case int32.i32 x =>
    simp only [readPayload, hd, hv _ (BitVec.isLt _) rfl, BitVec.ofNat_toNat, BitVec.setWidth_eq, setWidth_signExtend32]
  case int64.i64 x => simp only [readPayload, hd, hv _ (BitVec.isLt _) rfl, BitVec.ofNat_toNat, BitVec.setWidth_eq]
  case uint64.u64 x => simp only [readPayload, hd, hv _ (BitVec.isLt _) rfl, BitVec.ofNat_toNat, BitVec.setWidth_eq]
  case bool.bool b =>
    simp only [readPayload, hd, hv b.toNat (by cases b <;> decide) rfl]
    cases b <;> rfl
  case string.str s => exact hs s rfl rfl (.inl rfl)
  case bytes.str s => exact hs s rfl rfl (.inr rfl)
  all_goals
    simp only [payload, readPayload, length_memLE]
    rw [getFixed_mid _ _ (by decide)]; rfl

/-- Skipping a field, as both walks do it, moves to the end of its payload. -/
theorem payload_pos {ty : PbType} {v : PbVal} (hk : Kind ty v) : 0 < (payload ty v).length := by
  cases ty <;> cases v <;> simp only [Kind] at hk <;> simp [payload, varint_ne_nil]
  all_goals (rename_i s; have := varint_ne_nil s.length; omega)

theorem skip_payload {ty : PbType} {v : PbVal} (hk : Kind ty v) (pre post : Bytes)
    (hsz : (pre ++ payload ty v ++ post).length < 2 ^ 64) :
    (wire ty = 0 → pre.length + skipVarint ((pre ++ payload ty v ++ post).drop pre.length) = pre.length + (payload ty v).length) ∧
    (wire ty = 1 → (pre.length + 8) % 2 ^ 64 = pre.length + (payload ty v).length) ∧
    (wire ty = 2 → let len := getVarint ((pre ++ payload ty v ++ post).drop pre.length) 0 0#64 0
      (pre.length + len.2 + len.1.toNat) % 2 ^ 64 = pre.length + (payload ty v).length) ∧
    (wire ty = 5 → (pre.length + 4) % 2 ^ 64 = pre.length + (payload ty v).length) ∧
    (wire ty = 0 ∨ wire ty = 1 ∨ wire ty = 2 ∨ wire ty = 5) := by
  have hd : (pre ++ payload ty v ++ post).drop pre.length = payload ty v ++ post := by
    rw [List.append_assoc, List.drop_left]
  have hlt : pre.length + (payload ty v).length < 2 ^ 64 := by
    simp only [List.length_append] at hsz; omega
  have hs : ∀ s, payload ty v = varint s.length ++ s →
      (let len := getVarint ((pre ++ payload ty v ++ post).drop pre.length) 0 0#64 0
      (pre.length + len.2 + len.1.toNat) % 2 ^ 64 = pre.length + (payload ty v).length) := by
    intro s e
    have hl : s.length < 2 ^ 64 := by rw [e, List.length_append] at hlt; omega
    have hg : getVarint (payload ty v ++ post) 0 0#64 0 = (BitVec.ofNat 64 s.length, (varint s.length).length) := by
      rw [e, List.append_assoc]; exact getVarint_varint0 hl _
    have hlen : (payload ty v).length = (varint s.length).length + s.length := by rw [e, List.length_append]
    simp only [hd, hg, BitVec.toNat_ofNat, Nat.mod_eq_of_lt hl]
    rw [Nat.mod_eq_of_lt (by omega)]; omega
  have hvar : ∀ n, payload ty v = varint n →
      pre.length + skipVarint ((pre ++ payload ty v ++ post).drop pre.length) = pre.length + (payload ty v).length := by
    intro n e; rw [hd, e, skipVarint_varint]
  have hfix : ∀ n, (payload ty v).length = n → (pre.length + n) % 2 ^ 64 = pre.length + (payload ty v).length := by
    intro n e; rw [e] at hlt ⊢; exact Nat.mod_eq_of_lt hlt
  refine ⟨?_, ?_, ?_, ?_, by cases ty <;> simp [wire]⟩
  all_goals
    intro hw
    cases ty <;> simp [wire] at hw <;> cases v <;> simp only [Kind] at hk
  all_goals first
    | exact hvar _ rfl
    | exact hs _ rfl
    | exact hfix _ (by simp [payload])

theorem key_facts (f : Fld) (h0 : 0 < f.num) (h1 : f.num < 2 ^ 29) :
    f.num * 8 + wire f.ty < 2 ^ 64 ∧ (f.num * 8 + wire f.ty) >>> 3 = f.num ∧ (f.num * 8 + wire f.ty) % 8 = wire f.ty := by
  have : wire f.ty < 8 := by cases f.ty <;> decide
  refine ⟨by omega, ?_, by omega⟩
  rw [Nat.shiftRight_eq_div_pow]; omega

/-- One serialized field. -/
theorem serialize_cons (f : Fld) (m : List Fld) :
    serialize (f :: m) = varint (f.num * 8 + wire f.ty) ++ (payload f.ty f.val ++ serialize m) := by
  simp [serialize, List.append_assoc]

theorem length_serialize_ge (m : List Fld) : m.length ≤ (serialize m).length := by
  induction m with
  | nil => simp
  | cons f m ih =>
    rw [serialize_cons]
    have := varint_ne_nil (f.num * 8 + wire f.ty)
    simp only [List.length_cons, List.length_append]; omega

theorem fillDefaults_eq (num : Nat) : ∀ (reqs : List Req) (acc : List (Nat × Option PbVal)),
    reqs.Pairwise (fun a b => a.id < b.id) →
    fillDefaults num reqs acc = (reqs.filter (fun r => num ≤ r.id),
      acc ++ (reqs.filter (fun r => r.id < num)).map fun r => (r.id, r.dflt)) := by
  intro reqs
  induction reqs with
  | nil => intro acc _; simp [fillDefaults]
  | cons r rs ih =>
    intro acc h
    rw [List.pairwise_cons] at h
    unfold fillDefaults
    by_cases hr : num > r.id
    · rw [if_pos hr, ih _ h.2]
      simp [show ¬ num ≤ r.id by omega, hr]
    · rw [if_neg hr]
      have h1 : ∀ x ∈ rs, num ≤ x.id := fun x hx => by have := h.1 x hx; omega
      have e1 : rs.filter (fun r => decide (num ≤ r.id)) = rs := by
        rw [List.filter_eq_self]; intro x hx; simp [h1 x hx]
      have e2 : rs.filter (fun r => decide (r.id < num)) = [] := by
        rw [List.filter_eq_nil_iff]; intro x hx; have := h1 x hx; simp; omega
      simp [show num ≤ r.id by omega, e1, e2]

theorem column_of_lt {m : List Fld} {r : Req} (h : ∀ f ∈ m, r.id < f.num) : column m r = r.dflt := by
  unfold column
  rw [List.find?_eq_none.2 (by intro f hf; have := h f hf; simp; omega)]

theorem column_cons_ne {f : Fld} {m : List Fld} {r : Req} (h : f.num ≠ r.id) : column (f :: m) r = column m r := by
  unfold column; rw [List.find?_cons_of_neg (by simpa using h)]

theorem column_cons_eq {f : Fld} {m : List Fld} {r : Req} (h : f.num = r.id) : column (f :: m) r = some f.val := by
  unfold column; rw [List.find?_cons_of_pos (by simpa using h)]

theorem map_split (reqs : List Req) (num : Nat) (h : reqs.Pairwise (fun a b => a.id < b.id)) (g : Req → Nat × Option PbVal) :
    reqs.map g = (reqs.filter (fun r => r.id < num)).map g ++ (reqs.filter (fun r => num ≤ r.id)).map g := by
  induction reqs with
  | nil => rfl
  | cons r rs ih =>
    rw [List.pairwise_cons] at h
    by_cases hr : r.id < num
    · simp [hr, show ¬ num ≤ r.id by omega, ih h.2]
    · have h1 : ∀ x ∈ rs, num ≤ x.id := fun x hx => by have := h.1 x hx; omega
      have e1 : rs.filter (fun r => decide (num ≤ r.id)) = rs := by
        rw [List.filter_eq_self]; intro x hx; simp [h1 x hx]
      have e2 : rs.filter (fun r => decide (r.id < num)) = [] := by
        rw [List.filter_eq_nil_iff]; intro x hx; have := h1 x hx; simp; omega
      simp [hr, show num ≤ r.id by omega, e1, e2]

theorem decodeLoop_serialize : ∀ (m : List Fld) (pre : Bytes) (fuel : Nat) (reqs : List Req) (acc : List (Nat × Option PbVal)),
    WellFormed m → reqs.Pairwise (fun a b => a.id < b.id) →
    (∀ f ∈ m, ∀ r ∈ reqs, f.num = r.id → f.ty = r.ty) → (pre ++ serialize m).length < 2 ^ 64 → m.length < fuel →
    decodeLoop (pre ++ serialize m) fuel pre.length reqs acc = .ok (acc ++ reqs.map fun r => (r.id, column m r)) := by
  intro m
  induction m with
  | nil =>
    intro pre fuel reqs acc _ _ _ _ hf
    obtain ⟨fuel, rfl⟩ := Nat.exists_eq_succ_of_ne_zero (by omega : fuel ≠ 0)
    simp [decodeLoop, serialize, column]
  | cons f m ih =>
    intro pre fuel reqs acc hw hs hty hsz hfuel
    obtain ⟨fuel, rfl⟩ := Nat.exists_eq_succ_of_ne_zero (by omega : fuel ≠ 0)
    obtain ⟨hord, hall⟩ := hw
    rw [List.pairwise_cons] at hord
    obtain ⟨h0, h29, hk⟩ := hall f (by simp)
    obtain ⟨kf1, kf2, kf3⟩ := key_facts f h0 h29
    have hwm : WellFormed m := ⟨hord.2, fun g hg => hall g (by simp [hg])⟩
    cases reqs with
    | nil => simp [decodeLoop]
    | cons r0 rs0 =>
      generalize hreqs : r0 :: rs0 = reqs at *
      have hne : reqs ≠ [] := by rw [← hreqs]; simp
      have hdrop : (pre ++ serialize (f :: m)).drop pre.length = varint (f.num * 8 + wire f.ty) ++ (payload f.ty f.val ++ serialize m) := by
        rw [List.drop_left, serialize_cons]
      have hoff : pre.length < (pre ++ serialize (f :: m)).length := by
        have := varint_ne_nil (f.num * 8 + wire f.ty)
        rw [serialize_cons]; simp only [List.length_append]; omega
      have hpp := payload_pos hk
      have hreg : pre ++ serialize (f :: m) = (pre ++ varint (f.num * 8 + wire f.ty)) ++ payload f.ty f.val ++ serialize m := by
        rw [serialize_cons]; simp [List.append_assoc]
      have hnat : (BitVec.ofNat 64 (f.num * 8 + wire f.ty)).toNat = f.num * 8 + wire f.ty := by
        rw [BitVec.toNat_ofNat, Nat.mod_eq_of_lt kf1]
      have hlenp : (pre ++ varint (f.num * 8 + wire f.ty)).length = pre.length + (varint (f.num * 8 + wire f.ty)).length := by
        rw [List.length_append]
      have hoff1 : ¬ (pre.length + (varint (f.num * 8 + wire f.ty)).length ≥ (pre ++ serialize (f :: m)).length) := by
        rw [hreg]; simp only [List.length_append]; omega
      unfold decodeLoop
      rw [if_pos ⟨hoff, hne⟩]
      simp only [hdrop, getVarint_varint0 kf1, hnat, kf2, kf3, if_neg hoff1, fillDefaults_eq f.num reqs acc hs]
      have hmapd : (reqs.filter (fun r => r.id < f.num)).map (fun r => (r.id, column (f :: m) r)) =
          (reqs.filter (fun r => r.id < f.num)).map (fun r => (r.id, r.dflt)) := by
        apply List.map_congr_left
        intro r hr
        have hr := (List.mem_filter.1 hr).2
        simp only [decide_eq_true_eq] at hr
        rw [column_of_lt]
        intro g hg
        rcases List.mem_cons.1 hg with rfl | hg
        · exact hr
        · have := hord.1 g hg; omega
      rw [map_split reqs f.num hs, hmapd, ← List.append_assoc]
      have hs' : (reqs.filter (fun r => f.num ≤ r.id)).Pairwise (fun a b => a.id < b.id) := hs.filter _
      have hmem' : ∀ r ∈ reqs.filter (fun r => f.num ≤ r.id), r ∈ reqs ∧ f.num ≤ r.id := by
        intro r hr; have := List.mem_filter.1 hr; simpa using this
      generalize hA : acc ++ (reqs.filter (fun r => r.id < f.num)).map (fun r => (r.id, r.dflt)) = acc'
      cases hrest : reqs.filter (fun r => f.num ≤ r.id) with
      | nil => simp
      | cons r rs =>
        rw [hrest] at hs' hmem'
        rw [List.pairwise_cons] at hs'
        have hsz' : ((pre ++ varint (f.num * 8 + wire f.ty)) ++ payload f.ty f.val ++ serialize m).length < 2 ^ 64 := by
          rw [← hreg]; exact hsz
        have ihx := fun reqs' acc' h1 h2 => ih ((pre ++ varint (f.num * 8 + wire f.ty)) ++ payload f.ty f.val) fuel reqs' acc'
          hwm h1 h2 hsz' (by simp at hfuel; omega)
        rw [List.length_append, hlenp] at ihx
        by_cases hlt : f.num < r.id
        · -- not requested: skip
          simp only [if_pos hlt]
          obtain ⟨s0, s1, s2, s5, sw⟩ := skip_payload hk (pre ++ varint (f.num * 8 + wire f.ty)) (serialize m) hsz'
          rw [← hreg, hlenp] at s0 s2
          rw [hlenp] at s1 s5
          have hcol : (r :: rs).map (fun r => (r.id, column (f :: m) r)) = (r :: rs).map (fun r => (r.id, column m r)) := by
            apply List.map_congr_left
            intro x hx
            rw [column_cons_ne]
            rcases List.mem_cons.1 hx with rfl | hx
            · omega
            · have := hs'.1 x hx; omega
          rw [hcol]
          have ihr := ihx (r :: rs) acc' (List.pairwise_cons.2 hs') (fun g hg x hx he =>
            hty g (by simp [hg]) x (hmem' x hx).1 he)
          rw [← hreg] at ihr
          rcases sw with w | w | w | w
          · have h := s0 w; simp only [w] at h ihr ⊢; rw [h]; exact ihr
          · have h := s1 w; simp only [w] at h ihr ⊢; rw [h]; exact ihr
          · have h := s2 w; simp only [w] at h ihr ⊢; rw [h]; exact ihr
          · have h := s5 w; simp only [w] at h ihr ⊢; rw [h]; exact ihr
        · -- requested: read
          have heq : f.num = r.id := by have := (hmem' r (by simp)).2; omega
          have hrt : f.ty = r.ty := hty f (by simp) r (hmem' r (by simp)).1 heq
          have hrp := readPayload_payload hk (pre ++ varint (f.num * 8 + wire f.ty)) (serialize m) hsz'
          rw [← hreg, hlenp, hrt] at hrp
          simp only [if_neg hlt]
          rw [← hrt] at hrp ⊢
          simp only [hrp]
          have ihr := ihx rs (acc' ++ [(r.id, some f.val)]) hs'.2 (fun g hg x hx he =>
            hty g (by simp [hg]) x (hmem' x (by simp [hx])).1 he)
          rw [← hreg] at ihr
          rw [ihr, List.map_cons, column_cons_eq heq]
          have hcol : rs.map (fun r => (r.id, column (f :: m) r)) = rs.map (fun r => (r.id, column m r)) := by
            apply List.map_congr_left
            intro x hx
            rw [column_cons_ne]
            have := hs'.1 x hx; omega
          rw [hcol]; simp

/-- Every row written by protobuf is read back: for any set of requested columns (in id order, with the row's types)
each column gets the stored value, or its default when the row does not have it; columns not requested do not disturb. -/
theorem C41_row_roundtrip {m : List Fld} (hw : WellFormed m) {reqs : List Req} (hs : reqs.Pairwise (fun a b => a.id < b.id))
    (hty : ∀ f ∈ m, ∀ r ∈ reqs, f.num = r.id → f.ty = r.ty) (hsz : (serialize m).length < 2 ^ 64) :
    decodeFields (serialize m) reqs = .ok (reqs.map fun r => (r.id, column m r)) := by
  have := decodeLoop_serialize m [] ((serialize m).length + 1) reqs [] hw hs hty (by simpa using hsz)
    (by have := length_serialize_ge m; omega)
  simpa [decodeFields] using this

/-- The check used by online TTL accepts every row written by protobuf whose columns are within the table. -/
theorem verifyLoop_serialize (mf : Nat) : ∀ (m : List Fld) (pre : Bytes) (fuel : Nat),
    WellFormed m → (∀ f ∈ m, f.num ≤ mf) → (pre ++ serialize m).length < 2 ^ 64 → m.length < fuel →
    verifyLoop (pre ++ serialize m) mf fuel pre.length = .good := by
  intro m
  induction m with
  | nil =>
    intro pre fuel _ _ _ hf
    obtain ⟨fuel, rfl⟩ := Nat.exists_eq_succ_of_ne_zero (by omega : fuel ≠ 0)
    simp [verifyLoop, serialize]
  | cons f m ih =>
    intro pre fuel hw hmf hsz hfuel
    obtain ⟨fuel, rfl⟩ := Nat.exists_eq_succ_of_ne_zero (by omega : fuel ≠ 0)
    obtain ⟨hord, hall⟩ := hw
    rw [List.pairwise_cons] at hord
    obtain ⟨h0, h29, hk⟩ := hall f (by simp)
    obtain ⟨kf1, kf2, kf3⟩ := key_facts f h0 h29
    have hwm : WellFormed m := ⟨hord.2, fun g hg => hall g (by simp [hg])⟩
    have hdrop : (pre ++ serialize (f :: m)).drop pre.length = varint (f.num * 8 + wire f.ty) ++ (payload f.ty f.val ++ serialize m) := by
      rw [List.drop_left, serialize_cons]
    have hoff : pre.length < (pre ++ serialize (f :: m)).length := by
      have := varint_ne_nil (f.num * 8 + wire f.ty)
      rw [serialize_cons]; simp only [List.length_append]; omega
    have hpp := payload_pos hk
    have hreg : pre ++ serialize (f :: m) = (pre ++ varint (f.num * 8 + wire f.ty)) ++ payload f.ty f.val ++ serialize m := by
      rw [serialize_cons]; simp [List.append_assoc]
    have hnat : (BitVec.ofNat 64 (f.num * 8 + wire f.ty)).toNat = f.num * 8 + wire f.ty := by
      rw [BitVec.toNat_ofNat, Nat.mod_eq_of_lt kf1]
    have hlenp : (pre ++ varint (f.num * 8 + wire f.ty)).length = pre.length + (varint (f.num * 8 + wire f.ty)).length := by
      rw [List.length_append]
    have hoff1 : ¬ (pre.length + (varint (f.num * 8 + wire f.ty)).length ≥ (pre ++ serialize (f :: m)).length) := by
      rw [hreg]; simp only [List.length_append]; omega
    have hnum : ¬ (f.num > mf ∨ f.num = 0) := by have := hmf f (by simp); omega
    unfold verifyLoop
    rw [if_pos hoff]
    simp only [hdrop, getVarint_varint0 kf1, hnat, kf2, kf3, if_neg hoff1, if_neg hnum]
    have hsz' : ((pre ++ varint (f.num * 8 + wire f.ty)) ++ payload f.ty f.val ++ serialize m).length < 2 ^ 64 := by
      rw [← hreg]; exact hsz
    have ihr := ih ((pre ++ varint (f.num * 8 + wire f.ty)) ++ payload f.ty f.val) fuel hwm
      (fun g hg => hmf g (by simp [hg])) hsz' (by simp at hfuel; omega)
    rw [List.length_append, hlenp, ← hreg] at ihr
    obtain ⟨s0, s1, s2, s5, sw⟩ := skip_payload hk (pre ++ varint (f.num * 8 + wire f.ty)) (serialize m) hsz'
    rw [← hreg, hlenp] at s0 s2
    rw [hlenp] at s1 s5
    rcases sw with w | w | w | w
    · have h := s0 w; simp only [w] at h ihr ⊢; rw [h]; exact ihr
    · have h := s1 w; simp only [w] at h ihr ⊢; rw [h]; exact ihr
    · have h := s2 w; simp only [w] at h ihr ⊢; rw [h]; exact ihr
    · have h := s5 w; simp only [w] at h ihr ⊢; rw [h]; exact ihr

theorem C41_verification_accepts_rows {m : List Fld} (hw : WellFormed m) {mf : Nat} (hmf : ∀ f ∈ m, f.num ≤ mf)
    (hsz : (serialize m).length < 2 ^ 64) : verifyFields (serialize m) mf = .good := by
  have := verifyLoop_serialize mf m [] ((serialize m).length + 1) hw hmf (by simpa using hsz)
    (by have := length_serialize_ge m; omega)
  simpa [verifyFields] using this

/-- So every primary row written after a TTL was switched on reads back exactly (unless the walk does not end). -/
theorem C39_online_new_primary_row {m : List Fld} (hw : WellFormed m) {mf : Nat} (hmf : ∀ f ∈ m, f.num ≤ mf)
    (hsz : (serialize m).length < 2 ^ 64) (ts base : BitVec 64) (hv : validTimestampUs ts = true) (hb : base ≠ 0#64)
    (hh : verifyFields (ttlEncode ts ++ serialize m) mf ≠ .hang) :
    ttlDecode (putValue true ts (serialize m)) .primary mf base = .ok ts (serialize m) :=
  C39_online_new_primary ts base hv hb mf _ (C41_verification_accepts_rows hw hmf hsz) hh

/-- A NULL column is a field that is not set, so it reads back as the column's default: NULL only if that is NULL. -/
theorem C41_null_reads_default {m : List Fld} {r : Req} (h : ∀ f ∈ m, f.num ≠ r.id) : column m r = r.dflt := by
  unfold column
  rw [List.find?_eq_none.2 (by intro f hf; simpa using h f hf)]

theorem C41_null_with_default_counterexample :
    decodeFields (serialize []) [⟨3, .sint32, some (.i32 7#32)⟩] = .ok [(3, some (.i32 7#32))] := by
  simp [serialize, decodeFields, decodeLoop]

/-- Non-vacuity: a row with columns 1 (int -5), 2 (string "ab"), 4 (datetime); the query wants 2, 3, 4. -/
example : let m : List Fld := [⟨1, .sint32, .i32 (-5)⟩, ⟨2, .bytes, .str [97#8, 98#8]⟩, ⟨4, .fixed64, .u64 9⟩]
    let reqs : List Req := [⟨2, .bytes, none⟩, ⟨3, .sint64, some (.i64 1)⟩, ⟨4, .fixed64, none⟩]
    WellFormed m ∧ reqs.Pairwise (fun a b => a.id < b.id) ∧
      (∀ f ∈ m, ∀ r ∈ reqs, f.num = r.id → f.ty = r.ty) ∧
      reqs.map (fun r => (r.id, column m r)) = [(2, some (.str [97#8, 98#8])), (3, some (.i64 1)), (4, some (.u64 9))] := by
  refine ⟨⟨by simp, ?_⟩, by simp, ?_, rfl⟩
  · intro f hf
    simp only [List.mem_cons, List.not_mem_nil, or_false] at hf
    rcases hf with rfl | rfl | rfl <;> simp [Kind]
  · intro f hf r hr
    simp only [List.mem_cons, List.not_mem_nil, or_false] at hf hr
    rcases hf with rfl | rfl | rfl <;> rcases hr with rfl | rfl | rfl <;> simp

/-! ### Column types -/

/-- What a column of a type holds: integers in a range, floating point of a width, or text. -/
inductive Dom where
  | int (lo hi : Int)
  | flt (bits : Nat)
  | text
/-- The values of a column type (dates and times by their packed numbers). -/
def colDom : PType → Option Dom
  | .bool => some (.int 0 1)
  | .int8 => some (.int (-2^7) (2^7-1)) | .int16 => some (.int (-2^15) (2^15-1)) | .int32 => some (.int (-2^31) (2^31-1))
  | .int64 => some (.int (-2^63) (2^63-1))
  | .uint8 => some (.int 0 (2^8-1)) | .uint16 => some (.int 0 (2^16-1)) | .uint32 => some (.int 0 (2^32-1))
  | .uint64 => some (.int 0 (2^64-1))
  | .time => some (.int (-2^31) (2^31-1))
  | .timestamp | .date => some (.int 0 (2^32-1))
  | .datetime => some (.int 0 (2^64-1))
  | .float => some (.flt 32) | .double => some (.flt 64)
  | .string => some .text
  | .other => none

/-- The field value stands for this element of the domain. -/
def Denotes : PbVal → Int ⊕ (Nat × Nat) ⊕ Bytes → Prop
  | .bool b, .inl x => x = b.toNat
  | .i32 v, .inl x => x = v.toInt
  | .i64 v, .inl x => x = v.toInt
  | .u32 v, .inl x => x = v.toNat
  | .u64 v, .inl x => x = v.toNat
  | .f32 v, .inr (.inl p) => p = (32, v.toNat)
  | .f64 v, .inr (.inl p) => p = (64, v.toNat)
  | .str s, .inr (.inr t) => s = t
  | _, _ => False
def Dom.Mem : Dom → Int ⊕ (Nat × Nat) ⊕ Bytes → Prop
  | .int lo hi, .inl x => lo ≤ x ∧ x ≤ hi
  | .flt n, .inr (.inl p) => p.1 = n ∧ p.2 < 2 ^ n
  | .text, .inr (.inr _) => True
  | _, _ => False

/-- **C41.** The field type chosen for a column can hold every value of the column. -/
theorem C41_column_type_fits {t : PType} {d : Dom} (hd : colDom t = some d) (x : Int ⊕ (Nat × Nat) ⊕ Bytes) (hx : d.Mem x) :
    ∃ ty v, protoType t = some ty ∧ Kind ty v ∧ Denotes v x := by
  have hi32 : ∀ y : Int, -2^31 ≤ y → y ≤ 2^31-1 → y = (BitVec.ofInt 32 y).toInt := by
    intro y h1 h2; rw [BitVec.toInt_ofInt, Int.bmod_def]; omega
  have hi64 : ∀ y : Int, -2^63 ≤ y → y ≤ 2^63-1 → y = (BitVec.ofInt 64 y).toInt := by
    intro y h1 h2; rw [BitVec.toInt_ofInt, Int.bmod_def]; omega
  have hu32 : ∀ y : Int, 0 ≤ y → y ≤ 2^32-1 → y = ((BitVec.ofInt 32 y).toNat : Int) := by
    intro y h1 h2; rw [BitVec.toNat_ofInt]; omega
  have hu64 : ∀ y : Int, 0 ≤ y → y ≤ 2^64-1 → y = ((BitVec.ofInt 64 y).toNat : Int) := by
    intro y h1 h2; rw [BitVec.toNat_ofInt]; omega
  cases t <;> simp only [colDom, Option.some.injEq, reduceCtorEq] at hd <;> subst hd <;>
    rcases x with x | ⟨n, x⟩ | x <;> simp only [Dom.Mem] at hx
  all_goals first
    | exact ⟨_, .i32 (BitVec.ofInt 32 x), rfl, trivial, hi32 x (by omega) (by omega)⟩
    | exact ⟨_, .i64 (BitVec.ofInt 64 x), rfl, trivial, hi64 x (by omega) (by omega)⟩
    | exact ⟨_, .u32 (BitVec.ofInt 32 x), rfl, trivial, hu32 x (by omega) (by omega)⟩
    | exact ⟨_, .u64 (BitVec.ofInt 64 x), rfl, trivial, hu64 x (by omega) (by omega)⟩
    | exact ⟨_, .f32 (BitVec.ofNat 32 x), rfl, trivial, by obtain ⟨rfl, h⟩ := hx; simp only [Denotes, BitVec.toNat_ofNat, Prod.mk.injEq, true_and]; omega⟩
    | exact ⟨_, .f64 (BitVec.ofNat 64 x), rfl, trivial, by obtain ⟨rfl, h⟩ := hx; simp only [Denotes, BitVec.toNat_ofNat, Prod.mk.injEq, true_and]; omega⟩
    | exact ⟨_, .str x, rfl, trivial, rfl⟩
    | exact ⟨_, .bool (decide (x = 1)), rfl, trivial, by
        have : x = 0 ∨ x = 1 := by omega
        rcases this with rfl | rfl <;> simp [Denotes]⟩

/-- **C41.** Dates, times and floating-point values take the same room whatever their value: 4 bytes for FLOAT, TIMESTAMP, DATE and
TIME, 8 for DOUBLE and DATETIME. -/
theorem C41_fixed_size {t : PType} {ty : PbType} {v : PbVal} (ht : protoType t = some ty) (hk : Kind ty v) :
    (t ∈ [PType.float, .timestamp, .date, .time] → (payload ty v).length = 4) ∧
    (t ∈ [PType.double, .datetime] → (payload ty v).length = 8) := by
  constructor <;> intro hm <;> simp only [List.mem_cons, List.not_mem_nil, or_false] at hm
  · rcases hm with rfl | rfl | rfl | rfl <;> simp only [protoType, Option.some.injEq] at ht <;> subst ht <;>
      cases v <;> simp only [Kind] at hk <;> simp [payload, length_memLE]
  · rcases hm with rfl | rfl <;> simp only [protoType, Option.some.injEq] at ht <;> subst ht <;>
      cases v <;> simp only [Kind] at hk <;> simp [payload, length_memLE]

end BaikalDB.RowCodec
