import Verif.Wire.Frame
/-! # Reading a message in pieces -/
namespace BaikalDB.Wire

/-- The header of the first packet of a message. -/
def headOf (q : Nat) (r : Bytes) : Bytes := Spec.enc 3 (min r.length Spec.maxPayload) ++ [BitVec.ofNat 8 (q % 256)]

/-- What follows the first packet of a message. -/
def contOf (q : Nat) (r : Bytes) : Bytes :=
  if r.length < Spec.maxPayload then [] else Spec.writeMessage (q + 1) (r.drop Spec.maxPayload)

theorem headOf_length (q : Nat) (r : Bytes) : (headOf q r).length = 4 := by simp [headOf]

theorem writeMessage_split (q : Nat) (r : Bytes) :
    Spec.writeMessage q r = headOf q r ++ (r.take Spec.maxPayload ++ contOf q r) := by
  unfold headOf contOf
  by_cases h : r.length < Spec.maxPayload
  · rw [writeMessage_short q r h, if_pos h, Nat.min_eq_left (by omega), List.take_of_length_le (by omega)]
    simp
  · rw [writeMessage_long q r h, if_neg h, Nat.min_eq_right (by omega)]
    simp

theorem or_bytes (a b c : Byte) : a.toNat ||| b.toNat <<< 8 ||| c.toNat <<< 16 = Spec.num [a, b, c] := by
  have ha := a.isLt; have hb := b.isLt; have hc := c.isLt
  have h1 : a.toNat ||| b.toNat <<< 8 = b.toNat <<< 8 + a.toNat := by
    rw [Nat.or_comm, Nat.shiftLeft_add_eq_or_of_lt (by omega)]
  have h2 : (a.toNat ||| b.toNat <<< 8) ||| c.toNat <<< 16 = c.toNat <<< 16 + (a.toNat ||| b.toNat <<< 8) := by
    rw [Nat.or_comm, Nat.shiftLeft_add_eq_or_of_lt]
    rw [h1, Nat.shiftLeft_eq]; omega
  rw [h2, h1, Nat.shiftLeft_eq, Nat.shiftLeft_eq]
  simp only [Spec.num]
  omega

/-- The header seen by `_read_packet_header`. -/
theorem header_eq (s : Sock) (q : Nat) (r a : Bytes) (hb : s.buf = headOf q r ++ a) :
    s.header = { s with cur := min r.length Spec.maxPayload, plen := s.plen + min r.length Spec.maxPayload, pid := q % 256,
                        buf := [0#8, 0#8, 0#8, 0#8] ++ a,
                        multi := decide (min r.length Spec.maxPayload = packetMax) } := by
  set L := min r.length Spec.maxPayload with hL
  have hLm : L < 256 ^ 3 := by
    have : L ≤ Spec.maxPayload := Nat.min_le_right _ _
    unfold Spec.maxPayload at this; omega
  have hbuf : s.buf = [BitVec.ofNat 8 (L % 256), BitVec.ofNat 8 (L / 256 % 256), BitVec.ofNat 8 (L / 256 / 256 % 256),
      BitVec.ofNat 8 (q % 256)] ++ a := hb
  have hn : Spec.num [BitVec.ofNat 8 (L % 256), BitVec.ofNat 8 (L / 256 % 256), BitVec.ofNat 8 (L / 256 / 256 % 256)] = L := by
    have := num_enc 3 L
    rw [Nat.mod_eq_of_lt hLm] at this
    exact this
  have hcur : (s.buf.getD 0 0#8).toNat ||| (s.buf.getD 1 0#8).toNat <<< 8 ||| (s.buf.getD 2 0#8).toNat <<< 16 = L := by
    rw [or_bytes, ← hn, hbuf]
    rfl
  have hpid : (s.buf.getD 3 0#8).toNat = q % 256 := by
    rw [hbuf]
    simp
  have hw : writeAt s.buf 0 [0#8, 0#8, 0#8, 0#8] = [0#8, 0#8, 0#8, 0#8] ++ a := by
    rw [hbuf]
    simp [writeAt]
  unfold Sock.header
  simp only [hcur, hpid, hw]

/-- The state of the socket while a message `m` with sequence numbers from `seq` on is being read, `rest` following it. -/
inductive Reading (seq : Nat) (m rest : Bytes) : Sock → Bytes → Prop where
  | head (s : Sock) (net hd x a r : Bytes) (q : Nat) (h4 : hd.length < 4) (hr : s.hread = hd.length) (hp : s.pread = 0)
      (hb : s.buf = hd ++ x) (hx : x.drop (4 - hd.length) = a) (hx2 : x = [] ∨ 4 - hd.length ≤ x.length)
      (hl : s.plen = a.length) (hm : m = a ++ r) (hq : q + pkts r = seq + pkts m)
      (hn : hd ++ net = Spec.writeMessage q r ++ rest) : Reading seq m rest s net
  | body (s : Sock) (net p p' a r : Bytes) (q : Nat) (hr : s.hread = 4) (hpl : p' ≠ []) (ht : p ++ p' = r.take Spec.maxPayload)
      (hp : s.pread = p.length) (hc : s.cur = min r.length Spec.maxPayload)
      (hb : s.buf = [0#8, 0#8, 0#8, 0#8] ++ a ++ p) (hl : s.plen = a.length + min r.length Spec.maxPayload)
      (hid : s.pid = q % 256) (hmu : s.multi = decide (min r.length Spec.maxPayload = packetMax))
      (hm : m = a ++ r) (hq : q + pkts r = seq + pkts m)
      (hn : net = p' ++ contOf q r ++ rest) : Reading seq m rest s net

/-- The message is there. -/
structure Done (seq : Nat) (m : Bytes) (s : Sock) : Prop where
  buf : s.buf = [0#8, 0#8, 0#8, 0#8] ++ m
  plen : s.plen = m.length
  pid : s.pid = (seq + pkts m - 1) % 256
  hread : s.hread = 0
  pread : s.pread = 0

theorem take_prefix (a t : Bytes) (k : Nat) : (a ++ t).take (min k a.length) = a.take (min k a.length) := by
  rw [List.take_append_of_le_length (by omega)]

/-- The end of a packet: the message is complete, or its next packet follows. -/
theorem body_done (seq : Nat) (m rest : Bytes) (s : Sock) (a r : Bytes) (q : Nat)
    (hp : s.pread = min r.length Spec.maxPayload) (hc : s.cur = min r.length Spec.maxPayload)
    (hb : s.buf = [0#8, 0#8, 0#8, 0#8] ++ a ++ r.take Spec.maxPayload) (hl : s.plen = a.length + min r.length Spec.maxPayload)
    (hid : s.pid = q % 256) (hmu : s.multi = decide (min r.length Spec.maxPayload = packetMax))
    (hm : m = a ++ r) (hq : q + pkts r = seq + pkts m) :
    (s.body.2 = true → Done seq m s.body.1 ∧ contOf q r = []) ∧
    (s.body.2 = false → Reading seq m rest s.body.1 (contOf q r ++ rest)) := by
  have e : s.body = ({ s with pread := 0, hread := 0 }, !s.multi) := by
    unfold Sock.body; rw [if_pos (by omega)]
  rw [e, hmu]
  simp only [Bool.not_eq_true', decide_eq_false_iff_not, Bool.not_eq_false', decide_eq_true_eq, packetMax_eq]
  have hmp := maxPayload_pos
  by_cases hs : r.length < Spec.maxPayload
  · have hmin : min r.length Spec.maxPayload = r.length := Nat.min_eq_left (by omega)
    refine ⟨fun _ => ⟨⟨?_, ?_, ?_, rfl, rfl⟩, by simp [contOf, hs]⟩, fun h => absurd h (by omega)⟩
    · rw [hb, List.take_of_length_le (by omega), hm, List.append_assoc]
    · simp only [hl, hmin, hm, List.length_append]
    · rw [pkts_small r hs] at hq
      simp only [hid, ← hq, Nat.add_sub_cancel]
  · have hmin : min r.length Spec.maxPayload = Spec.maxPayload := Nat.min_eq_right (by omega)
    refine ⟨fun h => absurd hmin h, fun _ => ?_⟩
    have hk : pkts r = pkts (r.drop Spec.maxPayload) + 1 := by
      unfold pkts
      rw [List.length_drop]
      have : r.length = (r.length - Spec.maxPayload) + Spec.maxPayload := by omega
      conv_lhs => rw [this]
      rw [Nat.add_div_right _ hmp]
    refine .head _ _ [] ([0#8, 0#8, 0#8, 0#8] ++ a ++ r.take Spec.maxPayload) (a ++ r.take Spec.maxPayload) (r.drop Spec.maxPayload)
      (q + 1) (by simp) rfl rfl (by simp [hb]) (by simp) (by right; simp) ?_ ?_ (by omega) ?_
    · simp only [hl, List.length_append, List.length_take, Nat.min_comm]
    · rw [hm, List.append_assoc, List.take_append_drop]
    · simp [contOf, hs]

theorem step_reading (seq : Nat) (m rest : Bytes) (s : Sock) (net : Bytes) (k : Nat) (h : Reading seq m rest s net) :
    ((s.step net k).2.2 = true → Done seq m (s.step net k).1 ∧ (s.step net k).2.1 = rest) ∧
    ((s.step net k).2.2 = false → Reading seq m rest (s.step net k).1 (s.step net k).2.1) ∧
    (s.step net k).2.1.length + min k 1 ≤ net.length := by
  have hmp := maxPayload_pos
  cases h with
  | body p p' a r q hr hpl ht hp hc hb hl hid hmu hm hq hn =>
    have hlen : p.length + p'.length = min r.length Spec.maxPayload := by
      have := congrArg List.length ht
      simpa [Nat.min_comm] using this
    have hp'0 : 0 < p'.length := List.length_pos_iff.2 hpl
    have hroom : s.cur - s.pread = p'.length := by omega
    set j := min k p'.length with hj
    have hd : net.take (min k (s.cur - s.pread)) = p'.take j := by
      rw [hroom, hn, List.append_assoc, take_prefix]
    have hjl : (p'.take j).length = j := by simp; omega
    have hdr : net.drop j = p'.drop j ++ contOf q r ++ rest := by
      rw [hn, List.append_assoc, List.drop_append_of_le_length (by omega), List.append_assoc]
    unfold Sock.step
    rw [if_pos hr]
    simp only [hd, hjl, hdr]
    set s1 : Sock := { s with buf := s.buf ++ p'.take j, pread := s.pread + j } with hs1
    have hsize : (p'.drop j ++ contOf q r ++ rest).length + min k 1 ≤ net.length := by
      rw [hn]; simp only [List.length_append, List.length_drop]; omega
    by_cases hend : j = p'.length
    · have hfull : p'.take j = p' := by rw [hend, List.take_length]
      have hnil : p'.drop j = [] := by rw [hend, List.drop_length]
      have := body_done seq m rest s1 a r q (by simp only [hs1, hp]; omega) (by simp only [hs1, hc])
        (by simp only [hs1, hb, hfull, ← ht, List.append_assoc]) (by simp only [hs1, hl]) (by simp only [hs1, hid])
        (by simp only [hs1, hmu]) hm hq
      refine ⟨fun hf => ?_, fun hf => ?_, hsize⟩
      · obtain ⟨h1, h2⟩ := this.1 hf
        exact ⟨h1, by rw [hnil, h2]; rfl⟩
      · rw [hnil]
        exact this.2 hf
    · have hlt : j < p'.length := by omega
      have e : s1.body = (s1, false) := by
        unfold Sock.body
        rw [if_neg (by simp only [hs1, hc, hp]; omega)]
      rw [e]
      refine ⟨fun hf => by simp at hf, fun _ => ?_, hsize⟩
      refine .body s1 _ (p ++ p'.take j) (p'.drop j) a r q (by simp only [hs1, hr]) ?_ ?_ ?_ (by simp only [hs1, hc]) ?_ (by simp only [hs1, hl])
        (by simp only [hs1, hid]) (by simp only [hs1, hmu]) hm hq rfl
      · intro hc0
        have := congrArg List.length hc0
        simp at this; omega
      · rw [List.append_assoc, List.take_append_drop, ht]
      · simp only [hs1, hp, List.length_append, hjl]
      · simp only [hs1, hb, List.append_assoc]
  | head hd x a r q h4 hr hp hb hx hx2 hl hm hq hn =>
    have hH := headOf_length q r
    rw [writeMessage_split] at hn
    set H := headOf q r with hHd
    set tail := r.take Spec.maxPayload ++ contOf q r ++ rest with htail
    have hn' : hd ++ net = H ++ tail := by rw [hn, htail]; simp
    have hdH : hd = H.take hd.length := by
      have := congrArg (List.take hd.length) hn'
      rw [List.take_left', List.take_append_of_le_length (by omega)] at this
      · exact this
      · rfl
    have hnet : net = H.drop hd.length ++ tail := by
      have := congrArg (List.drop hd.length) hn'
      rw [List.drop_left', List.drop_append_of_le_length (by omega)] at this
      · exact this
      · rfl
    set g := hd.length with hg
    have hgl : (H.drop g).length = 4 - g := by simp [hH]
    set j := min k (4 - g) with hj
    have htk : net.take (min k (4 - s.hread)) = (H.drop g).take j := by
      rw [hr, hnet, ← hgl, take_prefix, hgl]
    have hjl : ((H.drop g).take j).length = j := by rw [List.length_take, hgl]; omega
    have hdr : net.drop j = (H.drop g).drop j ++ tail := by
      rw [hnet, List.drop_append_of_le_length (by omega)]
    have hhd' : hd ++ (H.drop g).take j = H.take (g + j) := by
      rw [List.take_add, ← hdH]
    have hbuf : writeAt s.buf s.hread ((H.drop g).take j) = H.take (g + j) ++ x.drop j := by
      rw [hb, hr, writeAt, hjl, List.take_left' rfl, ← hhd', ← List.drop_drop, List.drop_left' rfl]
    have hsize : ((H.drop g).drop j ++ tail).length + min k 1 ≤ net.length := by
      rw [hnet]; simp only [List.length_append, List.length_drop, hH]; omega
    unfold Sock.step
    rw [if_neg (by omega)]
    simp only [htk, hjl, hdr, hbuf]
    by_cases hend : g + j < 4
    · rw [if_pos (by omega)]
      refine ⟨fun hf => by simp at hf, fun _ => ?_, hsize⟩
      have hl2 : (H.take (g + j)).length = g + j := by simp [hH]; omega
      refine .head _ _ (H.take (g + j)) (x.drop j) a r q (by omega) (by simp only [hl2, hr]) hp rfl ?_ ?_ hl hm hq ?_
      · rw [hl2, List.drop_drop, show j + (4 - (g + j)) = 4 - g by omega, hx]
      · rcases hx2 with h0 | h0
        · left; simp [h0]
        · right; rw [hl2, List.length_drop]; omega
      · rw [writeMessage_split, List.drop_drop, ← List.append_assoc, List.take_append_drop]
        simp [htail, hHd]
    · have hj4 : g + j = 4 := by omega
      rw [if_neg (by omega)]
      have hHt : H.take (g + j) = H := by rw [hj4, ← hH, List.take_length]
      have hxa : x.drop j = a := by rw [← hx]; congr 1; omega
      have hnil : (H.drop g).drop j = [] := by
        rw [List.drop_drop, hj4]; exact List.drop_of_length_le (by omega)
      rw [hHt, hxa]
      have hgr : s.hread + j = 4 := by omega
      have hhead := header_eq { s with buf := H ++ a, hread := s.hread + j } q r a rfl
      simp only at hhead
      rw [hhead, hnil, List.nil_append]
      simp only [hp, hl, hgr]
      rw [hnil, List.nil_append] at hsize
      set L := min r.length Spec.maxPayload with hL
      by_cases hL0 : L = 0
      · have hr0 : r = [] := by
          have : r.length = 0 := by omega
          exact List.length_eq_zero_iff.1 this
        rw [if_pos hL0]
        subst hr0
        have htl : tail = rest := by
          rw [htail]; simp [contOf, hmp]
        have := body_done seq m rest ⟨[0#8, 0#8, 0#8, 0#8] ++ a, 4, 0, L, a.length + L, q % 256, decide (L = packetMax)⟩ a [] q
          (by simp) (by simp [hL]) (by simp) (by simp [hL]) rfl (by simp [hL]) hm hq
        refine ⟨fun hf => ⟨(this.1 hf).1, htl⟩, fun hf => ?_, hsize⟩
        rw [htl]
        have := this.2 hf
        simpa [contOf, hmp] using this
      · rw [if_neg hL0]
        refine ⟨fun hf => by simp at hf, fun _ => ?_, hsize⟩
        refine .body _ _ [] (r.take Spec.maxPayload) a r q rfl ?_ (by simp) rfl rfl (by simp) rfl rfl rfl hm hq (by rw [htail])
        intro hc0
        have := congrArg List.length hc0
        rw [List.length_take, List.length_nil] at this
        omega

theorem run_reading (seq : Nat) (m rest : Bytes) (ks : List Nat) (s : Sock) (net : Bytes) (h : Reading seq m rest s net) :
    (∀ s' net', s.run net ks = some (s', net') → Done seq m s' ∧ net' = rest) ∧
    (net.length ≤ (ks.filter (0 < ·)).length → ∃ r, s.run net ks = some r) := by
  induction ks generalizing s net with
  | nil =>
    refine ⟨fun s' net' hr => by simp [Sock.run] at hr, fun hl => ?_⟩
    exfalso
    have h0 : net = [] := by simpa using hl
    have := (step_reading seq m rest s net 1 h).2.2
    rw [h0] at this
    simp at this
  | cons k ks ih =>
    obtain ⟨h1, h2, h3⟩ := step_reading seq m rest s net k h
    unfold Sock.run
    simp only
    cases hf : (s.step net k).2.2 with
    | true =>
      rw [if_pos rfl]
      refine ⟨fun s' net' hr => ?_, fun _ => ⟨_, rfl⟩⟩
      cases hr
      exact h1 hf
    | false =>
      rw [if_neg (by simp)]
      have IH := ih _ _ (h2 hf)
      refine ⟨IH.1, fun hl => IH.2 ?_⟩
      by_cases hk : 0 < k
      · simp [hk] at hl
        omega
      · simp [hk] at hl
        omega

/-- A fresh socket in front of a message. -/
theorem reading_start (seq : Nat) (m rest : Bytes) : Reading seq m rest {} (Spec.writeMessage seq m ++ rest) :=
  .head _ _ [] [] [] m seq (by simp) rfl rfl rfl rfl (Or.inl rfl) rfl rfl rfl rfl

end BaikalDB.Wire
