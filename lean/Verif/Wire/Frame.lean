import Verif.Wire.Send
/-! # Packets, rows and result sets as messages -/
namespace BaikalDB.Wire
open BaikalDB.Expr

theorem packetMax_eq : packetMax = Spec.maxPayload := by decide

theorem writeAt_at (a x c d : Bytes) (h : d.length = x.length) : writeAt (a ++ x ++ c) a.length d = a ++ d ++ c := by
  unfold writeAt
  rw [h]
  simp [List.take_append, List.drop_append, Nat.add_sub_cancel_left]

/-- The result of sending messages from sequence number `pid + 1` on: they are at the end of the buffer and the last number
used is known, unless the buffer would exceed its limit. -/
def Sends (r : Option (Buf × Nat)) (b : Buf) (pid : Nat) (ms : List Bytes) : Prop :=
  (b.data.length + (stream (pid + 1) ms).length ≤ maxAlloc →
    ∃ b', r = some (b', seqAfter (pid + 1) ms - 1) ∧ b'.data = b.data ++ stream (pid + 1) ms ∧ b'.Ok) ∧
  (maxAlloc < b.data.length + (stream (pid + 1) ms).length → r = none)

theorem seqAfter_ge (seq : Nat) (ms : List Bytes) : seq + ms.length ≤ seqAfter seq ms := by
  induction ms generalizing seq with
  | nil => simp [seqAfter]
  | cons m ms ih =>
    have := ih (seq + pkts m)
    have h1 : 1 ≤ pkts m := by simp [pkts]
    simp only [seqAfter, List.foldl_cons, List.length_cons] at *
    omega

theorem sends_bind {r : Option (Buf × Nat)} {b : Buf} {pid : Nat} {ms ms' : List Bytes} {f : Buf × Nat → Option (Buf × Nat)}
    (h : Sends r b pid ms)
    (hf : ∀ b' pid', b'.data = b.data ++ stream (pid + 1) ms → b'.Ok → pid' + 1 = seqAfter (pid + 1) ms →
      Sends (f (b', pid')) b' pid' ms') : Sends (r.bind f) b pid (ms ++ ms') := by
  have hg := seqAfter_ge (pid + 1) ms
  have e : seqAfter (pid + 1) ms - 1 + 1 = seqAfter (pid + 1) ms := by omega
  constructor
  · intro hl
    rw [stream_append, List.length_append] at hl
    obtain ⟨b', hr, hd, ho⟩ := h.1 (by omega)
    obtain ⟨b2, hr2, hd2, ho2⟩ := (hf b' _ hd ho e).1 (by rw [e, hd, List.length_append]; omega)
    refine ⟨b2, ?_, ?_, ho2⟩
    · rw [hr, Option.bind_some, hr2, e, seqAfter_append]
    · rw [hd2, hd, e, stream_append, List.append_assoc]
  · intro hl
    rw [stream_append, List.length_append] at hl
    by_cases h1 : b.data.length + (stream (pid + 1) ms).length ≤ maxAlloc
    · obtain ⟨b', hr, hd, ho⟩ := h.1 h1
      rw [hr, Option.bind_some]
      exact (hf b' _ hd ho e).2 (by rw [e, hd, List.length_append]; omega)
    · rw [h.2 (by omega)]; rfl

theorem sends_nil (b : Buf) (hb : b.Ok) (pid : Nat) : Sends (some (b, pid)) b pid [] := by
  refine ⟨fun _ => ⟨b, by simp [seqAfter], by simp [stream], hb⟩, fun h => absurd h ?_⟩
  have := hb.1; have := hb.2
  simp [stream]; omega

theorem stream_one (seq : Nat) (m : Bytes) : stream seq [m] = Spec.writeMessage seq m := by simp [stream]

/-! ## One message -/

theorem frame_eq (h0 : Byte) (b : Buf) (start len pid : Nat) : frame h0 b start len pid =
    if Spec.maxPayload ≤ len then
      (({ b with data := writeAt b.data start (le 3 Spec.maxPayload) } : Buf).insert (start + Spec.maxPayload + 4)
        [h0, 0#8, 0#8, byte (pid + 1)]).bind fun b' =>
          frame h0 b' (start + Spec.maxPayload + 4) (len - Spec.maxPayload) (pid + 1)
    else some ({ b with data := writeAt b.data start (le 3 len) }, pid) := by
  by_cases h : Spec.maxPayload ≤ len
  · rw [if_pos h, frame, if_pos ⟨by rw [packetMax_eq]; exact h, by rw [packetMax_eq]; exact maxPayload_pos⟩, packetMax_eq]
  · rw [if_neg h, frame, if_neg (by rw [packetMax_eq]; intro hc; exact h hc.1)]

theorem insert_eq (b : Buf) (pos : Nat) (d : Bytes) (k : Nat) (hk : d.length = k) (h : 0 < k) :
    b.insert pos d = (b.room k).map fun b' => { b' with data := b'.data.take pos ++ d ++ b'.data.drop pos } := by
  subst hk
  rw [Buf.insert, if_neg (by omega)]

theorem frame_sends (h0 : Byte) (len : Nat) : ∀ (b : Buf) (pre hdr body : Bytes) (pid : Nat), b.Ok →
    b.data = pre ++ hdr ++ (byte (pid + 1) :: body) → hdr.length = 3 → body.length = len →
    (pre.length + (Spec.writeMessage (pid + 1) body).length ≤ maxAlloc →
      ∃ b', frame h0 b pre.length len (pid + 1) = some (b', pid + pkts body) ∧
        b'.data = pre ++ Spec.writeMessage (pid + 1) body ∧ b'.Ok) ∧
    (maxAlloc < pre.length + (Spec.writeMessage (pid + 1) body).length → frame h0 b pre.length len (pid + 1) = none) := by
  have W1 := writeMessage_short
  have W2 := writeMessage_long
  have PK : ∀ m : Bytes, pkts m = m.length / Spec.maxPayload + 1 := fun _ => rfl
  have hmp := maxPayload_pos
  have FR := frame_eq h0
  generalize Spec.maxPayload = M at *
  generalize frame h0 = fr at *
  induction len using Nat.strongRecOn with
  | _ len ih =>
    intro b pre hdr body pid hb hdat hh hlen
    have hpid : (BitVec.ofNat 8 ((pid + 1) % 256) : Byte) = byte (pid + 1) := byte_mod _
    have hput : ∀ n, writeAt b.data pre.length (le 3 n) = pre ++ Spec.enc 3 n ++ (byte (pid + 1) :: body) := by
      intro n
      rw [hdat, writeAt_at _ _ _ _ (by simp [hh]), le_eq_enc]
    have hsize : b.data.length = pre.length + 4 + len := by rw [hdat]; simp [hh, hlen]; omega
    by_cases hl : len < M
    · have hw : Spec.writeMessage (pid + 1) body = Spec.enc 3 len ++ [byte (pid + 1)] ++ body := by
        rw [W1 _ _ (by omega), hlen, hpid]
      have hk : pkts body = 1 := by
        rw [PK, hlen, Nat.div_eq_of_lt hl]
      rw [FR, if_neg (by omega), hput, hw, hk]
      have hlen2 : (Spec.enc 3 len ++ [byte (pid + 1)] ++ body).length = 4 + len := by simp [hlen]; omega
      refine ⟨fun _ => ⟨_, rfl, by simp, ?_, hb.2⟩, fun h => absurd h ?_⟩
      · have := hb.1; simp [hlen]; omega
      · have := hb.1; have := hb.2; omega
    · have hw : Spec.writeMessage (pid + 1) body = Spec.enc 3 M ++ [byte (pid + 1)] ++ body.take M ++
          Spec.writeMessage (pid + 1 + 1) (body.drop M) := by
        rw [W2 _ _ (by omega), hpid]
      have hk : pkts body = pkts (body.drop M) + 1 := by
        rw [PK, PK, List.length_drop, hlen]
        have : len = (len - M) + M := by omega
        conv_lhs => rw [this]
        rw [Nat.add_div_right _ hmp]
      have htake : (body.take M).length = M := by simp [hlen]; omega
      set pre' := pre ++ Spec.enc 3 M ++ (byte (pid + 1) :: body.take M) with hpre'
      have hpl : pre'.length = pre.length + M + 4 := by simp [hpre', htake]; omega
      have hb1 : ({ b with data := writeAt b.data pre.length (le 3 M) } : Buf).Ok := by
        refine ⟨?_, hb.2⟩
        rw [hput]
        have := hb.1
        simp [hlen]; omega
      rw [FR, if_pos (by omega), hw]
      have hsplit : writeAt b.data pre.length (le 3 M) = pre' ++ body.drop M := by
        rw [hput, hpre']
        simp only [List.append_assoc, List.cons_append, List.take_append_drop]
      have hrl : (pre ++ (Spec.enc 3 M ++ [byte (pid + 1)] ++ List.take M body ++
          Spec.writeMessage (pid + 1 + 1) (List.drop M body))) =
          pre' ++ Spec.writeMessage (pid + 1 + 1) (body.drop M) := by simp [hpre']
      have hrl2 := congrArg List.length hrl
      rw [List.length_append, List.length_append (as := pre')] at hrl2
      have hdl : (body.drop M).length = len - M := by simp [hlen]
      have hwl := writeMessage_length (pid + 1 + 1) (body.drop M)
      rw [hsplit]
      rw [hsplit] at hb1
      have IH : ∀ (b' : Buf), b'.data = pre' ++ body.drop M → b'.Ok → pre'.length + (len - M) + 4 ≤ b'.cap →
          let c : Buf := { b' with data := b'.data.take pre'.length ++ [h0, 0#8, 0#8, byte (pid + 1 + 1)] ++ b'.data.drop pre'.length }
          (pre'.length + (Spec.writeMessage (pid + 1 + 1) (body.drop M)).length ≤ maxAlloc →
            ∃ b'', fr c pre'.length (len - M) (pid + 1 + 1) = some (b'', pid + 1 + pkts (body.drop M)) ∧
              b''.data = pre' ++ Spec.writeMessage (pid + 1 + 1) (body.drop M) ∧ b''.Ok) ∧
          (maxAlloc < pre'.length + (Spec.writeMessage (pid + 1 + 1) (body.drop M)).length →
            fr c pre'.length (len - M) (pid + 1 + 1) = none) := by
        intro b' hd' ho' hcap c
        refine ih (len - M) (by omega) c pre' [h0, 0#8, 0#8] (body.drop M) (pid + 1) ?_ ?_ rfl hdl
        · refine ⟨?_, ho'.2⟩
          simp only [c, hd', List.take_left', List.drop_left', List.length_append, hdl, List.length_cons, List.length_nil]
          omega
        · simp [c, hd']
      have hlen1 : (pre' ++ body.drop M).length = pre'.length + (len - M) := by simp [hlen]
      rw [insert_eq _ _ [h0, 0#8, 0#8, byte (pid + 1 + 1)] 4 rfl (by omega)]
      by_cases hroom : pre'.length + (len - M) + 4 ≤ maxAlloc
      · obtain ⟨b', hr, hd', ho', hcap⟩ := room_ok _ hb1 4 (by rw [hlen1]; exact hroom)
        rw [hr, Option.map_some, Option.bind_some, ← hpl]
        have := IH b' hd' ho' (by rw [← hlen1]; exact hcap)
        constructor
        · intro hl2
          obtain ⟨b'', h1, h2, h3⟩ := this.1 (by omega)
          refine ⟨b'', ?_, ?_, h3⟩
          · rw [h1, hk, Nat.add_right_comm, Nat.add_assoc]
          · rw [hrl]; exact h2
        · intro hl2
          exact this.2 (by omega)
      · constructor
        · intro hl2; exfalso; omega
        · intro _
          rw [room_none _ hb1 4 (by simp only [hlen1]; omega)]
          rfl

theorem pkts_small (m : Bytes) (h : m.length < Spec.maxPayload) : pkts m = 1 := by
  unfold pkts; rw [Nat.div_eq_of_lt h]

theorem sends_one (r : Option (Buf × Nat)) (b : Buf) (pid : Nat) (m : Bytes)
    (h1 : b.data.length + (Spec.writeMessage (pid + 1) m).length ≤ maxAlloc →
      ∃ b', r = some (b', pid + pkts m) ∧ b'.data = b.data ++ Spec.writeMessage (pid + 1) m ∧ b'.Ok)
    (h2 : maxAlloc < b.data.length + (Spec.writeMessage (pid + 1) m).length → r = none) : Sends r b pid [m] := by
  have e : seqAfter (pid + 1) [m] - 1 = pid + pkts m := by simp only [seqAfter, List.foldl_cons, List.foldl_nil]; omega
  rw [Sends, stream_one, e]
  exact ⟨h1, h2⟩

/-- A text row is sent as one message. -/
theorem packTextRow_sends (F : Fmt) (hF : F.Ok) (b : Buf) (hb : b.Ok) (pid : Nat) (vs : List EV) :
    Sends (packTextRow F b pid vs) b pid [vs.flatMap fun v => cellBytes (cell F v)] := by
  set body := vs.flatMap fun v => cellBytes (cell F v) with hbody
  have hwl := writeMessage_length (pid + 1) body
  have hadd : Adds ((b.append [1#8, 0#8, 0#8, byte (pid + 1)]).bind (appendTexts F vs)) b ([1#8, 0#8, 0#8, byte (pid + 1)] ++ body) :=
    adds_bind (adds_append b hb _) fun b' _ ho => adds_appendTexts F hF vs b' ho
  have hrw : packTextRow F b pid vs = ((b.append [1#8, 0#8, 0#8, byte (pid + 1)]).bind (appendTexts F vs)).bind fun b2 =>
      frame 1#8 b2 b.data.length (b2.data.length - b.data.length - 4) (pid + 1) := by
    unfold packTextRow
    rw [Option.bind_assoc]
  rw [hrw]
  have hlen : ([1#8, 0#8, 0#8, byte (pid + 1)] ++ body).length = 4 + body.length := by simp; omega
  have go : ∀ b2 : Buf, b2.data = b.data ++ ([1#8, 0#8, 0#8, byte (pid + 1)] ++ body) → b2.Ok → _ := fun b2 hd ho =>
    frame_sends 1#8 body.length b2 b.data [1#8, 0#8, 0#8] body pid ho (by rw [hd]; simp) rfl rfl
  apply sends_one
  · intro hl
    obtain ⟨b2, hr, hd, ho⟩ := hadd.1 (by omega)
    have hn : b2.data.length - b.data.length - 4 = body.length := by rw [hd]; simp
    rw [hr, Option.bind_some, hn]
    exact (go b2 hd ho).1 hl
  · intro hl
    by_cases h2 : b.data.length + ([1#8, 0#8, 0#8, byte (pid + 1)] ++ body).length ≤ maxAlloc
    · obtain ⟨b2, hr, hd, ho⟩ := hadd.1 h2
      have hn : b2.data.length - b.data.length - 4 = body.length := by rw [hd]; simp
      rw [hr, Option.bind_some, hn]
      exact (go b2 hd ho).2 hl
    · rw [hadd.2 (by omega)]; rfl

/-- What is patched into the header of a short packet. -/
theorem header_sends {r : Option Buf} {b : Buf} {pid : Nat} {x : Byte} {m : Bytes} (f : Buf → Buf)
    (hm : m.length < Spec.maxPayload) (h : Adds r b ([1#8, 0#8, 0#8, x] ++ m))
    (hf : ∀ b', b'.data = b.data ++ ([1#8, 0#8, 0#8, x] ++ m) →
      f b' = { b' with data := b.data ++ (Spec.enc 3 m.length ++ [byte (pid + 1)] ++ m) }) :
    Sends (r.map fun b' => (f b', pid + 1)) b pid [m] := by
  have hpid : (BitVec.ofNat 8 ((pid + 1) % 256) : Byte) = byte (pid + 1) := byte_mod _
  have hw : Spec.writeMessage (pid + 1) m = Spec.enc 3 m.length ++ [byte (pid + 1)] ++ m := by
    rw [writeMessage_short _ _ hm, hpid]
  have hl1 : (Spec.enc 3 m.length ++ [byte (pid + 1)] ++ m).length = 4 + m.length := by simp; omega
  have hl2 : ([1#8, 0#8, 0#8, x] ++ m).length = 4 + m.length := by simp; omega
  apply sends_one
  · rw [hw, pkts_small m hm]
    intro hl
    obtain ⟨b', hr, hd, ho⟩ := h.1 (by omega)
    refine ⟨_, by rw [hr]; rfl, by rw [hf b' hd], ?_⟩
    rw [hf b' hd]
    refine ⟨?_, ho.2⟩
    have := ho.1
    rw [hd, List.length_append] at this
    simp only [List.length_append (as := b.data), hl1]
    omega
  · rw [hw]
    intro hl
    rw [h.2 (by omega)]
    rfl

theorem adds_packStrs (ss : List Bytes) (b : Buf) (hb : b.Ok) :
    Adds (packStrs ss b) b (ss.flatMap fun s => cellBytes (some s)) := by
  induction ss generalizing b with
  | nil => simpa [packStrs] using adds_some b hb
  | cons s ss ih =>
    simp only [packStrs, List.flatMap_cons]
    exact adds_bind (adds_packStr b hb s) fun b' _ ho => ih b' ho

/-- The body of a column definition. -/
def fieldBody (f : Field) : Bytes :=
  ([f.catalog, f.db, f.table, f.orgTable, f.name, f.orgName].flatMap fun s => cellBytes (some s)) ++
    ([0x0c#8] ++ (le 2 f.charset.toNat ++ (le 4 f.length.toNat ++ ([f.type] ++ (le 2 f.flags.toNat ++ ([f.decimals] ++ [0#8, 0#8]))))))

/-- Names of columns are short enough for one packet. -/
def Field.Short (f : Field) : Prop :=
  f.catalog.length + f.db.length + f.table.length + f.orgTable.length + f.name.length + f.orgName.length < 16000000

theorem fieldBody_short (f : Field) (h : f.Short) : (fieldBody f).length < Spec.maxPayload := by
  have e : ∀ s : Bytes, (cellBytes (some s)).length ≤ 9 + s.length := fun s => by
    have := lenenc_length s.length; simp [cellBytes]; omega
  have := e f.catalog; have := e f.db; have := e f.table; have := e f.orgTable; have := e f.name; have := e f.orgName
  unfold Field.Short at h
  simp [fieldBody, Spec.maxPayload]
  omega

theorem fieldPacket_sends (b : Buf) (hb : b.Ok) (f : Field) (hs : f.Short) (pid : Nat) :
    Sends ((fieldPacket b f (pid + 1)).map fun b' => (b', pid + 1)) b pid [fieldBody f] := by
  have hadd : ∀ c : Buf, c.Ok → Adds ((c.append [1#8, 0#8, 0#8]).bind fun b1 => (b1.append [byte (pid + 1)]).bind fun b2 =>
      (packStrs [f.catalog, f.db, f.table, f.orgTable, f.name, f.orgName] b2).bind fun b3 =>
        (b3.append [0x0c#8]).bind fun b4 =>
          (b4.append (le 2 f.charset.toNat)).bind fun b5 =>
            (b5.append (le 4 f.length.toNat)).bind fun b6 =>
              (b6.append [f.type]).bind fun b7 =>
                (b7.append (le 2 f.flags.toNat)).bind fun b8 =>
                  (b8.append [f.decimals]).bind fun b9 => b9.append [0#8, 0#8]) c
      ([1#8, 0#8, 0#8] ++ ([byte (pid + 1)] ++ fieldBody f)) := by
    intro c hc
    refine adds_bind (adds_append c hc _) fun b1 _ h1 => adds_bind (adds_append b1 h1 _) fun b2 _ h2 => ?_
    unfold fieldBody
    refine adds_bind (adds_packStrs _ b2 h2) fun b3 _ h3 => ?_
    refine adds_bind (adds_append b3 h3 _) fun b4 _ h4 => adds_bind (adds_append b4 h4 _) fun b5 _ h5 => ?_
    refine adds_bind (adds_append b5 h5 _) fun b6 _ h6 => adds_bind (adds_append b6 h6 _) fun b7 _ h7 => ?_
    refine adds_bind (adds_append b7 h7 _) fun b8 _ h8 => adds_bind (adds_append b8 h8 _) fun b9 _ h9 => ?_
    exact adds_append b9 h9 _
  have hrw : ((fieldPacket b f (pid + 1)).map fun b' => (b', pid + 1)) = (((b.append [1#8, 0#8, 0#8]).bind fun b1 => (b1.append [byte (pid + 1)]).bind fun b2 =>
      (packStrs [f.catalog, f.db, f.table, f.orgTable, f.name, f.orgName] b2).bind fun b3 =>
        (b3.append [0x0c#8]).bind fun b4 =>
          (b4.append (le 2 f.charset.toNat)).bind fun b5 =>
            (b5.append (le 4 f.length.toNat)).bind fun b6 =>
              (b6.append [f.type]).bind fun b7 =>
                (b7.append (le 2 f.flags.toNat)).bind fun b8 =>
                  (b8.append [f.decimals]).bind fun b9 => b9.append [0#8, 0#8])).map fun b' =>
        (({ b' with data := writeAt b'.data b.data.length (le 3 (b'.data.length - b.data.length - 4)) } : Buf), pid + 1) := by
    unfold fieldPacket
    simp only [Option.map_bind, Option.map_map, Function.comp_def]
  rw [hrw]
  refine header_sends (x := byte (pid + 1)) (fun b' => { b' with data := writeAt b'.data b.data.length (le 3 (b'.data.length - b.data.length - 4)) })
    (fieldBody_short f hs) ?_ ?_
  · simpa using hadd b hb
  · intro b' hd
    have hn : b'.data.length - b.data.length - 4 = (fieldBody f).length := by rw [hd]; simp
    have hsp : b'.data = b.data ++ [1#8, 0#8, 0#8] ++ (byte (pid + 1) :: fieldBody f) := by rw [hd]; simp
    rw [hn, hsp, writeAt_at _ _ _ _ (by simp), le_eq_enc]
    simp

/-- The end-of-data message. -/
def eofBody : Bytes := [0xfe#8, 0#8, 0#8, 2#8, 0#8]

theorem eofPacket_sends (b : Buf) (hb : b.Ok) (pid : Nat) :
    Sends ((eofPacket b (pid + 1)).map fun b' => (b', pid + 1)) b pid [eofBody] := by
  have hpid : (BitVec.ofNat 8 ((pid + 1) % 256) : Byte) = byte (pid + 1) := byte_mod _
  have hw : Spec.writeMessage (pid + 1) eofBody = [5#8, 0#8, 0#8, byte (pid + 1)] ++ eofBody := by
    rw [writeMessage_short _ _ (by decide), hpid]
    rfl
  have hadd : Adds (eofPacket b (pid + 1)) b ([5#8, 0#8, 0#8, byte (pid + 1)] ++ eofBody) :=
    adds_bind (adds_append b hb _) fun b' _ ho => adds_append b' ho _
  apply sends_one
  · rw [hw, pkts_small _ (by decide)]
    intro hl
    obtain ⟨b', hr, hd, ho⟩ := hadd.1 hl
    exact ⟨b', by rw [hr]; rfl, hd, ho⟩
  · rw [hw]
    intro hl
    rw [hadd.2 hl]
    rfl

theorem packHead_sends (b : Buf) (hb : b.Ok) (pid n : Nat) (hn : n ≠ 0) : Sends (packHead b pid n) b pid [lenenc n] := by
  have hadd : Adds ((b.append [1#8, 0#8, 0#8, 1#8]).bind fun b1 => b1.append (lenenc n)) b ([1#8, 0#8, 0#8, 1#8] ++ lenenc n) :=
    adds_bind (adds_append b hb _) fun b' _ ho => adds_append b' ho _
  have hl : (lenenc n).length < Spec.maxPayload := by have := lenenc_length n; unfold Spec.maxPayload; omega
  have hrw : packHead b pid n = ((b.append [1#8, 0#8, 0#8, 1#8]).bind fun b1 => b1.append (lenenc n)).map fun b' =>
      (({ b' with data := writeAt b'.data b.data.length (le 3 (b'.data.length - b.data.length - 4) ++ [byte (pid + 1)]) } : Buf), pid + 1) := by
    unfold packHead
    simp only [if_neg hn, Option.map_bind, Function.comp_def]
  rw [hrw]
  refine header_sends (fun b' => { b' with data := writeAt b'.data b.data.length (le 3 (b'.data.length - b.data.length - 4) ++ [byte (pid + 1)]) })
    hl hadd ?_
  intro b' hd
  have hn : b'.data.length - b.data.length - 4 = (lenenc n).length := by rw [hd]; simp
  have hsp : b'.data = b.data ++ [1#8, 0#8, 0#8, 1#8] ++ lenenc n := by rw [hd]; simp
  rw [hn, hsp, writeAt_at _ _ _ _ (by simp), le_eq_enc]
  simp

theorem packFields_sends (fs : List Field) (hs : ∀ f ∈ fs, f.Short) (b : Buf) (hb : b.Ok) (pid : Nat) :
    Sends (packFields fs b pid) b pid (fs.map fieldBody ++ [eofBody]) := by
  induction fs generalizing b pid with
  | nil => exact eofPacket_sends b hb pid
  | cons f fs ih =>
    have hrw : packFields (f :: fs) b pid = ((fieldPacket b f (pid + 1)).map fun b' => (b', pid + 1)).bind fun p =>
        packFields fs p.1 p.2 := by
      simp [packFields, Option.bind_map, Function.comp_def]
    rw [hrw]
    exact sends_bind (ms := [fieldBody f]) (ms' := fs.map fieldBody ++ [eofBody]) (fieldPacket_sends b hb f (hs f (by simp)) pid)
      fun b' pid' _ ho _ => ih (fun g hg => hs g (by simp [hg])) b' ho pid'

theorem packRows_sends {α : Type} (row : Buf → Nat → α → Option (Buf × Nat)) (msg : α → Bytes) (rows : List α)
    (h : ∀ r ∈ rows, ∀ b pid, b.Ok → Sends (row b pid r) b pid [msg r]) (b : Buf) (hb : b.Ok) (pid : Nat) :
    Sends (packRows row rows b pid) b pid (rows.map msg) := by
  induction rows generalizing b pid with
  | nil => exact sends_nil b hb pid
  | cons r rows ih =>
    exact sends_bind (h r (by simp) b pid hb) fun b' pid' _ ho _ => ih (fun g hg => h g (by simp [hg])) b' ho pid'

/-- A result set as a list of messages. -/
def resultMsgs {α : Type} (msg : α → Bytes) (fs : List Field) (rows : List α) : List Bytes :=
  lenenc fs.length :: (fs.map fieldBody ++ [eofBody]) ++ (rows.map msg ++ [eofBody])

theorem packResult_sends {α : Type} (row : Buf → Nat → α → Option (Buf × Nat)) (msg : α → Bytes) (fs : List Field)
    (rows : List α) (hn : fs ≠ []) (hs : ∀ f ∈ fs, f.Short)
    (h : ∀ r ∈ rows, ∀ b pid, b.Ok → Sends (row b pid r) b pid [msg r]) (b : Buf) (hb : b.Ok) (pid : Nat) :
    Sends (packResult row fs rows b pid) b pid (resultMsgs msg fs rows) := by
  unfold packResult resultMsgs
  rw [show lenenc fs.length :: (fs.map fieldBody ++ [eofBody]) ++ (rows.map msg ++ [eofBody]) =
    [lenenc fs.length] ++ ((fs.map fieldBody ++ [eofBody]) ++ (rows.map msg ++ [eofBody])) by simp]
  have hn0 : fs.length ≠ 0 := by simpa using hn
  refine sends_bind (packHead_sends b hb pid _ hn0) fun b1 p1 _ h1 _ => ?_
  refine sends_bind (packFields_sends fs hs b1 h1 p1) fun b2 p2 _ h2 _ => ?_
  refine sends_bind (packRows_sends row msg rows h b2 h2 p2) fun b3 p3 _ h3 _ => ?_
  exact eofPacket_sends b3 h3 p3

end BaikalDB.Wire
