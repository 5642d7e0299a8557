import Verif.Lemmas.TcpStream
import Verif.Props.Pipeline
import Verif.Props.IpText
/-! C43, C71, C72: the exchange of bytes with TCP servers and SOCKS5 proxies. -/

namespace Verif.TcpStream
open Msg

/-- C43: a message with its length in front is read whole, and with its length, however it arrives. -/
def ReadWhole : Prop := ∀ (left : Nat) (l : List Ev) (m rest : List Byte), NoEmpty l → Framed (bytesOf l) m rest → 0 < m.length → m.length ≤ left →
  left < 4096 → ∃ l', receive left l = (.message m m.length, l') ∧ bytesOf l' = rest

/-- C43 is false: of a message that comes in two pieces only the length of the second is used; and the connection is
closed when the two bytes of the length come separately. -/
theorem read_whole_false : ¬ ReadWhole := by
  intro h
  obtain ⟨l', h1, -⟩ := h 100 [.data [0, 3], .data [7], .data [8, 9]] [7, 8, 9] [] (by simp [NoEmpty]) ⟨0, 3, rfl, rfl⟩ (by decide) (by decide) (by decide)
  have h2 : (receive 100 [.data [0, 3], .data [7], .data [8, 9]]).1 = .message [7, 8, 9] 3 := congrArg Prod.fst h1
  exact absurd h2 (by decide)

/-- C43: whatever the pieces, the bytes read are those of the message, the next message is found behind it, and the
length that is used is that of the part in the last piece.  (The length itself must come in one piece.) -/
theorem read_pieces {left : Nat} {a b : Byte} {r : List Byte} {l : List Ev} {m rest : List Byte} (hl : NoEmpty l)
    (hm : a.toNat * 256 + b.toNat = m.length) (hs : r ++ bytesOf l = m ++ rest) (h0 : 0 < m.length) (hleft : m.length ≤ left) (hroom : left < 4096) :
    ∃ l', receive left (.data (a :: b :: r) :: l) = (.message m (lastPiece (.data r :: l) m.length), l') ∧ bytesOf l' = rest := by
  have hr : recvWrapper (.data (a :: b :: r) :: l) 2 = (2, [a, b], if r = [] then l else .data r :: l) := by
    cases r with
    | nil => simp [recvWrapper, recv]
    | cons c r => simp [recvWrapper, recv]
  have hl' : NoEmpty (if r = [] then l else .data r :: l) := by
    split
    · exact hl
    · rename_i hr
      intro hmem
      rcases List.mem_cons.mp hmem with h1 | h1
      · injection h1 with h1; exact hr h1.symm
      · exact hl h1
  have hs' : bytesOf (if r = [] then l else .data r :: l) = m ++ rest := by
    split
    · rename_i hr; rw [hr] at hs; exact hs
    · exact hs
  have hp : lastPiece (if r = [] then l else .data r :: l) m.length = lastPiece (.data r :: l) m.length := by
    split
    · rename_i hr
      rw [lastPiece, hr, List.length_nil, if_neg (by omega), Nat.sub_zero]
    · rfl
  unfold receive
  rw [hr]
  dsimp only
  rw [if_neg (by simp), show (List.getD [a, b] 0 0).toNat * 256 + (List.getD [a, b] 1 0).toNat = m.length from hm, if_neg (by omega)]
  obtain ⟨l', h1, h2, -⟩ := bodyLoop_whole (m.length + 1) _ m.length [] m rest hl' hs' rfl h0 (by omega) (by omega)
  refine ⟨l', ?_, h2⟩
  rw [h1, hp]
  simp

/-- C43, proved part: if the length and the message come in one piece each (or both in one), the message is read
whole and with its length. -/
theorem read_whole_partial {left : Nat} {l : List Ev} {m rest : List Byte} (hl : NoEmpty l) (hf : Framed (bytesOf l) m rest) (h0 : 0 < m.length)
    (hleft : m.length ≤ left) (hroom : left < 4096) (h2 : InOne l 2) (hb : InOne (after l 2) m.length) :
    ∃ l', receive left l = (.message m m.length, l') ∧ bytesOf l' = rest := by
  obtain ⟨a, b, hs, hm⟩ := hf
  obtain ⟨d, l1, e1, e2, e3, e4, e5, e6, -, -⟩ := recvWrapper_bytes l 2 (by omega) hl (by rw [hs]; simp)
  have hd := (e6 h2).1
  match d, hd with
  | [x, y], _ =>
    rw [hs] at e4
    simp only [List.cons_append, List.nil_append, List.cons.injEq] at e4
    obtain ⟨rfl, rfl, e4⟩ := e4
    rw [← (e6 h2).2] at hb
    obtain ⟨l', f1, f2, -⟩ := bodyLoop_whole (m.length + 1) l1 m.length [] m rest e5 e4.symm rfl h0 (by omega) (by omega)
    have hne : bytesOf l1 ≠ [] := by
      rw [← e4]; intro h
      rw [(List.append_eq_nil_iff.mp h).1] at h0; simp at h0
    obtain ⟨d2, l2, g1, g2, g3, g4, g5, g6, g7, -⟩ := recvWrapper_bytes l1 m.length h0 e5 hne
    have hp : lastPiece l1 m.length = m.length := by rw [g7, if_pos (by have := (g6 hb).1; omega)]
    refine ⟨l', ?_, f2⟩
    unfold receive
    rw [e1]
    dsimp only
    rw [if_neg (by simp), show (List.getD [a, b] 0 0).toNat * 256 + (List.getD [a, b] 1 0).toNat = m.length from hm, if_neg (by omega), f1, hp]
    simp

theorem two_of_length {d : List Byte} (h : d.length = 2) : ∃ a b, d = [a, b] := by
  match d, h with
  | [a, b], _ => exact ⟨a, b, rfl⟩

/-- C43: nothing is taken for a message but a message that is there with its length in front; in particular a
message that breaks off is dropped. -/
theorem read_sound {left : Nat} {l l' : List Ev} {m : List Byte} {k : Nat} (hl : NoEmpty l) (he : Errnos l) (hroom : left < 4096)
    (h : receive left l = (.message m k, l')) : Framed (bytesOf l) m (bytesOf l') ∧ m.length ≤ left := by
  unfold receive at h
  by_cases hs : bytesOf l = []
  · obtain ⟨s, l1, e1, e2, -, -⟩ := recvWrapper_none l 2 hl he hs
    rw [e1] at h
    dsimp only at h
    rw [if_pos (by omega)] at h
    simp at h
  · obtain ⟨d, l1, e1, e2, e3, e4, e5, e6, -, e8⟩ := recvWrapper_bytes l 2 (by omega) hl hs
    rw [e1] at h
    dsimp only at h
    by_cases hd : d.length = 2
    · rw [if_neg (by omega)] at h
      obtain ⟨a, b, rfl⟩ := two_of_length hd
      · simp only [List.getD_cons_zero, List.getD_cons_succ] at h
        obtain ⟨n, hn⟩ : ∃ n, a.toNat * 256 + b.toNat = n := ⟨_, rfl⟩
        simp only [hn] at h
        by_cases hleft : left < n
        · rw [if_pos hleft] at h; simp at h
        · rw [if_neg hleft] at h
          by_cases hn0 : n = 0
          · subst hn0
            obtain ⟨s, l2, f1, f2, f3, f4⟩ := recvWrapper_zero l1 e5 (e8 he)
            simp only [bodyLoop, f1] at h
            rw [if_neg (show ¬ (0 < s ∧ 0 < (((0 : Nat) - s : Int) % 65536).toNat) by omega)] at h
            dsimp only at h
            split at h
            · simp at h
            · rename_i hz
              simp only [Prod.mk.injEq, Received.message.injEq, List.append_nil] at h
              obtain ⟨⟨h1, h2⟩, h3⟩ := h
              refine ⟨⟨a, b, ?_, by rw [← h1]; exact hn⟩, by rw [← h1]; simp⟩
              rw [e4, ← h1, ← h3, f4 (by omega)]; rfl
          · by_cases hlen : (bytesOf l1).length < n
            · have := bodyLoop_bad (n + 1) l1 n [] e5 (e8 he) hlen (by omega) (by omega)
              generalize bodyLoop (n + 1) l1 n [] = g at h this
              obtain ⟨g1, g2, g3, g4⟩ := g
              dsimp only at h this
              rw [if_pos this] at h; simp at h
            · obtain ⟨l2, f1, f2, -⟩ := bodyLoop_whole (n + 1) l1 n [] ((bytesOf l1).take n) ((bytesOf l1).drop n) e5 (List.take_append_drop _ _).symm
                (by rw [List.length_take]; omega) (by omega) (by omega) (by omega)
              rw [f1] at h
              simp only [ne_eq, not_true_eq_false, if_false, Prod.mk.injEq, Received.message.injEq, List.nil_append] at h
              obtain ⟨⟨h1, h2⟩, h3⟩ := h
              have hml : m.length = n := by rw [← h1, List.length_take]; omega
              refine ⟨⟨a, b, ?_, by omega⟩, by omega⟩
              rw [e4, ← h1, ← h3, f2, List.take_append_drop]; rfl
    · rw [if_pos (by omega)] at h
      simp at h

/-- A message of a later piece is found behind the first. -/
example : receive 100 [.data [0, 2, 7], .again, .data [8, 0, 1, 9]] = (.message [7, 8] 1, [.data [0, 1, 9]]) := by decide
example : receive 100 [.data [0, 1, 9]] = (.message [9] 1, []) := by decide
/-- A message that breaks off, a length that comes in two pieces, a message that is too long. -/
example : receive 100 [.data [0, 2, 7], .closed] = (.bad, [.closed]) := by decide
example : receive 100 [.data [0], .data [2, 7, 8]] = (.short 1, [.data [2, 7, 8]]) := by decide
example : receive 100 [.data [0, 101, 7, 8]] = (.tooLarge, [.data [7, 8]]) := by decide

variable {Addr : Type}

/-- C43, as the client sees it: whatever a server sends for a waiting query, however it arrives, the client gets this
message or nothing. -/
def DeliveredWhole : Prop := ∀ (e : Pipeline.Env) (left : Nat) (old : List Byte) (l : List Ev) (fuel : Nat) (behindName : List Byte)
  (clock : Nat → Int) (d : Pipeline.Module Nat) (m rest : List Byte) (res : Pipeline.Module Nat × List Cache.Op × List (Ctx Nat)),
  NoEmpty l → Framed (bytesOf l) m rest → serve e left old l fuel behindName clock d = some res → ∀ h ∈ res.2.2, h.entity = m

/-- A module with the query of the client on connection 5 waiting. -/
def exMod : Pipeline.Module Nat :=
  Pipeline.tcpTake 1000 [] ⟨none, 5, str "a.org", bkdrHash (str "a.org"), 1, false, false, [], Forwarder.query 1 2 Forwarder.org 1⟩
    ⟨.tcp, Bst.State.init, ⟨none, 0, [], 0, 0, false, false, [], []⟩, []⟩

def exReply : List Byte := Forwarder.reply 1 2 Forwarder.org 1 [9, 9, 9, 9]

/-- The client gets the first 29 of 39 bytes: the answer record is cut. -/
theorem delivered_whole_false : ¬ DeliveredWhole := by
  intro h
  have h1 : (serve Forwarder.exEnv 3500 (List.replicate 200 0) [.data (be16 39 ++ exReply.take 10), .data (exReply.drop 10)] 50 [] (fun _ => 1001) exMod).map
      (fun r => r.2.2.map (fun h => h.entity)) = some [exReply.take 29] := by decide +kernel
  cases hs : serve Forwarder.exEnv 3500 (List.replicate 200 0) [.data (be16 39 ++ exReply.take 10), .data (exReply.drop 10)] 50 [] (fun _ => 1001) exMod with
  | none => rw [hs] at h1; simp at h1
  | some res =>
    rw [hs] at h1
    simp only [Option.map_some, Option.some.injEq] at h1
    have h2 := h _ _ _ _ _ _ _ _ exReply [] res (by unfold NoEmpty; decide) ⟨0, 39, by decide, by decide⟩ hs
    have h3 : exReply.take 29 ∈ res.2.2.map (fun h => h.entity) := by rw [h1]; simp
    obtain ⟨x, h4, h5⟩ := List.mem_map.mp h3
    rw [h2 x h4] at h5
    exact absurd h5 (by decide)

/-- C43, proved part: if the answer arrives in one piece (the two length bytes before it or with it), the client whose
query it answers gets the whole answer.

Missing: answers in several pieces (`delivered_whole_false`; `read_pieces` says what happens), and the restrictions of
`Pipeline.response_sent_partial`. -/
theorem delivered_whole_partial {r : Message.Msg} {ls : List (List Byte)} {old : List Byte} (hr : Pipeline.Answer r ls (old.drop r.bytes.length)) {e : Pipeline.Env}
    (ha : e.ap = false ∨ Pipeline.HasEdns r) (hls : e.lists = none) {left : Nat} (hroom : left < 4096) (hleft : r.bytes.length ≤ left) :
    ∃ f0, ∀ fuel, f0 ≤ fuel → ∀ (l : List Ev) (rest behindName : List Byte) (clock : Nat → Int) (d : Pipeline.Module Addr)
      (ops : List (MContext.Op (Ctx Addr))) (p : MContext.Pending (Ctx Addr)) (res : Pipeline.Module Addr × List Cache.Op × List (Ctx Addr)),
      NoEmpty l → Framed (bytesOf l) r.bytes rest → InOne l 2 → InOne (after l 2) r.bytes.length →
      d.table = (MContext.run Bst.State.init ops).1 → p ∈ MContext.waiting d.table →
      [UInt8.ofNat (p.id.toNat / 256), UInt8.ofNat p.id.toNat] = r.head.take 2 → p.hash = bkdrHash ((Name.text ls).map toLowerByte) →
      (∀ x ∈ MContext.queriesOf ops, ∀ y ∈ MContext.queriesOf ops, MContext.Close x y) →
      serve e left old l fuel behindName clock d = some res →
      ∃ q ∈ MContext.waiting d.table, q.id = p.id ∧ q.hash = p.hash ∧ (MContext.waiting d.table).Perm (q :: MContext.waiting res.1.table) ∧
        ∃ m, res.2.2 = [m] ∧ m.entity = r.bytes ∧ m.back = q.client.back ∧ m.sock = q.client.sock := by
  obtain ⟨f0, hf⟩ := Pipeline.response_sent_partial (Addr := Addr) hr ha hls
  refine ⟨f0, fun fuel hfuel l rest behindName clock d ops p res hl hfr h2 hb ht hp hid hhash hclose hs => ?_⟩
  have h0 : 0 < r.bytes.length := by
    have h12 : r.header.length = 12 := by rw [Message.Msg.header]; simp [hr.valid.1, Message.u16]
    rw [Message.Msg.bytes]
    simp only [List.length_append]; omega
  obtain ⟨l', h3, -⟩ := read_whole_partial hl hfr h0 hleft hroom h2 hb
  unfold serve at hs
  rw [h3] at hs
  obtain ⟨q, g1, g2, g3, g4, m, g5, g6, g7, g8, -⟩ := hf fuel hfuel behindName clock d ops p res ht hp hid hhash hclose hs
  exact ⟨q, g1, g2, g3, g4, m, g5, g6, g7, g8⟩

/-- The same answer in one piece. -/
example : (serve Forwarder.exEnv 3500 (List.replicate 200 0) [.data (be16 39), .data exReply] 50 [] (fun _ => 1001) exMod).map
    (fun r => r.2.2.map (fun h => (h.entity, h.back, h.sock))) = some [(exReply, none, 5)] := by decide +kernel

/-! Sending to a server. -/

/-- C71: if sending counts as done, the server has been sent the message with its length in front and nothing else. -/
def SentExactly : Prop := ∀ (l : List SendEv) (m : List Byte), m.length < 65536 → (sendQuery l m).1 = true → Framed (sendQuery l m).2 m []

/-- C71 is false: when the kernel takes only a part, the whole message is sent again behind it (or sending counts as
done, if the error number happens to be 0). -/
theorem sent_exactly_false : ¬ SentExactly := by
  intro h
  obtain ⟨a, b, h1, -⟩ := h [.took 3 11 true, .took 9 0 true] [1, 2, 3] (by decide) (by decide)
  have := congrArg List.length h1
  revert this
  simp [sendQuery, sendWrapper, be16, fatal]

example : sendQuery [.took 3 11 true, .took 9 0 true] [1, 2, 3] = (true, [0, 3, 1, 0, 3, 1, 2, 3]) := by decide
example : sendQuery [.took 3 0 true] [1, 2, 3] = (true, [0, 3, 1]) := by decide

theorem be16_toNat {n : Nat} (h : n < 65536) : (UInt8.ofNat (n / 256)).toNat * 256 + (UInt8.ofNat n).toNat = n := by
  simp only [UInt8.toNat_ofNat']
  omega

/-- C71, proved part: it holds if `send` takes everything or nothing; and if sending does not count as done, nothing
was sent. -/
theorem sent_exactly_partial (l : List SendEv) (m : List Byte) (hm : m.length < 65536) (h : AllOrNothing l (m.length + 2)) (he : SendErrnos l) :
    ((sendQuery l m).1 = true → Framed (sendQuery l m).2 m []) ∧ ((sendQuery l m).1 = false → (sendQuery l m).2 = []) := by
  have hall := (sendWrapper_all l (be16 m.length ++ m) h (by simp [be16]) he).1
  unfold sendQuery
  generalize sendWrapper l (be16 m.length ++ m) = g at hall
  obtain ⟨s, b, l'⟩ := g
  dsimp only at hall ⊢
  rcases hall with ⟨h1, h2⟩ | ⟨h1, h2⟩
  · refine ⟨fun _ => ⟨_, _, ?_, be16_toNat hm⟩, fun h3 => ?_⟩
    · rw [h2, be16]; simp
    · simp only [decide_eq_false_iff_not] at h3; omega
  · refine ⟨fun h3 => ?_, fun _ => h2⟩
    simp only [decide_eq_true_eq] at h3; omega

example : sendQuery [.fail 11 true, .took 9 0 true] [1, 2, 3] = (true, [0, 3, 1, 2, 3]) ∧ AllOrNothing [.fail 11 true, .took 9 0 true] 5 := by
  refine ⟨by decide, ?_⟩
  intro k e r hk
  simp at hk; omega

/-! SOCKS5. -/

/-- C72: when the preparation succeeds, the proxy has been asked for the server, has reported success, and what comes
next from the connection is what the server sends. -/
def Prepared : Prop := ∀ (t : Target) (s : List SendEv) (l : List Ev), NoEmpty l → AllOrNothing s 300 → (t.ip.length = 4 ∨ t.ip.length = 16) → t.port < 65536 →
  (proxyPreparation t s l).1 = 0 → AsksFor (proxyPreparation t s l).2.1 t.text t.port ∧
    ∃ rep rest, Success rep ∧ bytesOf l = agrees ++ (rep ++ rest) ∧ bytesOf (proxyPreparation t s l).2.2 = rest

def exTarget : Target := ⟨[8, 8, 4, 4], 53⟩

def exSend : List SendEv := [.took 300 0 true, .took 300 0 true]

/-- C72 is false: if the proxy's address has not arrived yet it is not waited for; it is then taken for the server's
answer.  The same happens to a proxy that gives its address as a name of 126 characters or more, whose length is
taken for a negative number. -/
theorem prepared_false : ¬ Prepared := by
  intro h
  obtain ⟨-, rep, rest, h1, h2, h3⟩ := h exTarget exSend [.data [5, 0], .data [5, 0, 0, 1], .again, .data [10, 0, 0, 1, 4, 56]] (by unfold NoEmpty; decide)
    (by intro k e r hk; simp [exSend] at hk; omega) (by decide) (by decide) (by decide +kernel)
  have h4 : bytesOf (proxyPreparation exTarget exSend [.data [5, 0], .data [5, 0, 0, 1], .again, .data [10, 0, 0, 1, 4, 56]]).2.2 = [10, 0, 0, 1, 4, 56] := by
    decide +kernel
  rw [h4] at h3
  subst h3
  have h5 := congrArg List.length h2
  cases h1 with
  | v4 r h => simp [bytesOf, agrees] at h5; simp [h5] at h
  | name r n h => simp [bytesOf, agrees] at h5
  | v6 r h => simp [bytesOf, agrees] at h5; simp [h5] at h

/-- A name of 126 characters. -/
example : bytesOf (proxyPreparation exTarget exSend [.data [5, 0], .data ([5, 0, 0, 3, 126] ++ List.replicate 128 97 ++ [0, 9])]).2.2 =
    List.replicate 128 97 ++ [0, 9] := by decide +kernel

/-- What is sent, when the preparation succeeds. -/
theorem prepared_asks {t : Target} {s : List SendEv} {l : List Ev} (hs : AllOrNothing s 300) (he : SendErrnos s) (ht : t.ip.length = 4 ∨ t.ip.length = 16)
    (hp : t.port < 65536) (h : (proxyPreparation t s l).1 = 0) : AsksFor (proxyPreparation t s l).2.1 t.text t.port := by
  have hlen := text_length t ht
  unfold proxyPreparation at h ⊢
  have a1 := sendWrapper_all s [5, 1, 0] hs (by simp) he
  generalize sendWrapper s [5, 1, 0] = g at a1 h ⊢
  obtain ⟨n, o1, s'⟩ := g
  dsimp only at a1 h ⊢
  split at h
  · simp at h
  rename_i hn
  rw [if_neg hn]
  have ho1 : o1 = [5, 1, 0] := by
    rcases a1.1 with a | a
    · exact a.2
    · simp only [ne_eq, Decidable.not_not] at hn; omega
  generalize recvWrapper l 2 = g at h ⊢
  obtain ⟨n1, b1, l1⟩ := g
  dsimp only at h ⊢
  split at h
  · simp at h
  rename_i hn1
  rw [if_neg hn1]
  split at h
  · simp at h
  rename_i hc1
  rw [if_neg hc1]
  have hs' : AllOrNothing s' 300 := fun k e r hk => hs k e r (a1.2 _ hk)
  have he' : SendErrnos s' := fun e r hk => he e r (a1.2 _ hk)
  have a2 := sendWrapper_all s' (connectRequest t) hs' (by simp [connectRequest, be16]; omega) he'
  generalize sendWrapper s' (connectRequest t) = g at a2 h ⊢
  obtain ⟨n2, o2, s2⟩ := g
  dsimp only at a2 h ⊢
  split at h
  · simp at h
  rename_i hn2
  rw [if_neg hn2]
  have ho2 : o2 = connectRequest t := by
    rcases a2.1 with a | a
    · exact a.2
    · simp only [ne_eq, Decidable.not_not] at hn2; omega
  generalize recvWrapper l1 4 = g at h ⊢
  obtain ⟨n3, b3, l3⟩ := g
  dsimp only at h ⊢
  split at h
  · simp at h
  rename_i hn3
  rw [if_neg hn3]
  split at h
  · simp at h
  rename_i hc3
  rw [if_neg hc3]
  cases htail : replyTail t (b3.getD 3 0) l3 with
  | none => rw [htail] at h; simp at h
  | some g =>
    obtain ⟨k, l4⟩ := g
    dsimp only
    rw [ho1, ho2]
    refine ⟨UInt8.ofNat t.text.length, UInt8.ofNat (t.port / 256), UInt8.ofNat t.port, ?_, ?_, be16_toNat hp⟩
    · simp [connectRequest, be16]
    · simp only [UInt8.toNat_ofNat']; omega

theorem four_of_length {d : List Byte} (h : d.length = 4) : ∃ a b c e, d = [a, b, c, e] := by
  match d, h with
  | [a, b, c, e], _ => exact ⟨a, b, c, e, rfl⟩

/-- C72: the preparation succeeds only if the proxy agreed to "no authentication" and reported success with an address
of a known type.  (The version number in the report is not looked at.) -/
theorem prepared_agreed {t : Target} {s : List SendEv} {l : List Ev} (hl : NoEmpty l) (he : Errnos l) (h : (proxyPreparation t s l).1 = 0) :
    ∃ v r a rest, bytesOf l = agrees ++ ([v, 0, r, a] ++ rest) ∧ (a = 1 ∨ a = 3 ∨ a = 4) := by
  unfold proxyPreparation at h
  generalize sendWrapper s [5, 1, 0] = g at h
  obtain ⟨n, o1, s'⟩ := g
  dsimp only at h
  split at h
  · simp at h
  by_cases hs : bytesOf l = []
  · obtain ⟨k, l1, e1, e2, -, -⟩ := recvWrapper_none l 2 hl he hs
    rw [e1] at h
    dsimp only at h
    rw [if_pos (by omega)] at h
    simp at h
  obtain ⟨d, l1, e1, -, -, e4, e5, -, -, e8⟩ := recvWrapper_bytes l 2 (by omega) hl hs
  rw [e1] at h
  dsimp only at h
  by_cases hd : d.length = 2
  · rw [if_neg (by omega)] at h
    obtain ⟨x, y, rfl⟩ := two_of_length hd
    simp only [List.getD_cons_zero, List.getD_cons_succ] at h
    split at h
    · simp at h
    rename_i hc
    have hx : x = 5 := Decidable.byContradiction fun hx => hc (Or.inl hx)
    have hy : y = 0 := Decidable.byContradiction fun hy => hc (Or.inr hy)
    subst hx hy
    generalize sendWrapper s' (connectRequest t) = g at h
    obtain ⟨n2, o2, s2⟩ := g
    dsimp only at h
    split at h
    · simp at h
    by_cases hs1 : bytesOf l1 = []
    · obtain ⟨k, l2, f1, f2, -, -⟩ := recvWrapper_none l1 4 e5 (e8 he) hs1
      rw [f1] at h
      dsimp only at h
      rw [if_pos (by omega)] at h
      simp at h
    obtain ⟨d2, l2, f1, -, -, f4, -, -, -, -⟩ := recvWrapper_bytes l1 4 (by omega) e5 hs1
    rw [f1] at h
    dsimp only at h
    by_cases hd2 : d2.length = 4
    · rw [if_neg (by omega)] at h
      obtain ⟨v, z, r, a, rfl⟩ := four_of_length hd2
      simp only [List.getD_cons_zero, List.getD_cons_succ] at h
      split at h
      · simp at h
      rename_i hz
      have hz : z = 0 := Decidable.byContradiction hz
      subst hz
      refine ⟨v, r, a, bytesOf l2, by rw [e4, f4]; rfl, ?_⟩
      refine Decidable.byContradiction fun hn => ?_
      have h1 : ¬ a = 1 := fun h => hn (Or.inl h)
      have h3 : ¬ a = 3 := fun h => hn (Or.inr (Or.inl h))
      have h4 : ¬ a = 4 := fun h => hn (Or.inr (Or.inr h))
      simp only [replyTail, if_neg h1, if_neg h3, if_neg h4] at h
      simp at h
    · rw [if_pos (by omega)] at h
      simp at h
  · rw [if_pos (by omega)] at h
    simp at h

/-- The text by which the server is named is that of its address. -/
theorem target_text_v4 (a b c d : Byte) (p : Nat) : IpText.v4ToNum (Target.text ⟨[a, b, c, d], p⟩) = .ret 4 (some [a, b, c, d]) := IpText.v4_roundtrip a b c d

theorem target_text_v6 (l : List Byte) (p : Nat) (h : l.length = 16) : ∃ n, IpText.v6ToNum (Target.text ⟨l, p⟩) = .ret n (some l) := by
  have : Target.text ⟨l, p⟩ = IpText.v6ToAsc l := by
    unfold Target.text
    split
    · rename_i heq; dsimp only at heq; rw [heq] at h; simp at h
    · rfl
  rw [this]
  exact IpText.v6_roundtrip l h

/-- C72, proved part: a proxy that agrees and reports success in time – each of its two messages in one piece, the
address at hand when the report is – is asked for the server, and what comes next from the connection is what
follows the report.

Missing: an address that comes later, and a name of more than 125 characters (`prepared_false`). -/
theorem prepared_partial {t : Target} {k1 e1 k2 e2 : Nat} {r1 r2 : Bool} {s : List SendEv} {l : List Ev} {rep rest : List Byte} (hk1 : 3 ≤ k1) (hk2 : 300 ≤ k2)
    (ht : t.ip.length = 4 ∨ t.ip.length = 16) (hp : t.port < 65536) (hl : NoEmpty l) (hb : bytesOf l = agrees ++ (rep ++ rest)) (hrep : Success rep)
    (h2 : InOne l 2) (h4 : InOne (after l 2) 4) (hat : AtHand (after (after l 2) 4) (rep.length - 4)) (hshort : rep.length ≤ 132) :
    (proxyPreparation t (.took k1 e1 r1 :: .took k2 e2 r2 :: s) l).1 = 0 ∧
      AsksFor (proxyPreparation t (.took k1 e1 r1 :: .took k2 e2 r2 :: s) l).2.1 t.text t.port ∧
      bytesOf (proxyPreparation t (.took k1 e1 r1 :: .took k2 e2 r2 :: s) l).2.2 = rest := by
  have hlen := text_length t ht
  have hreq : (connectRequest t).length = 4 + 1 + t.text.length + 2 := by simp [connectRequest, be16]; omega
  have hrl : 4 < rep.length := by cases hrep <;> simp <;> omega
  -- the first answer
  obtain ⟨d, l1, a1, a2, a3, a4, a5, a6, -, -⟩ := recvWrapper_bytes l 2 (by omega) hl (by rw [hb]; simp [agrees])
  have hd : d = [5, 0] ∧ bytesOf l1 = rep ++ rest := by
    obtain ⟨x, y, rfl⟩ := two_of_length (a6 h2).1
    rw [hb] at a4
    simp only [agrees, List.cons_append, List.nil_append, List.cons.injEq] at a4
    obtain ⟨rfl, rfl, h⟩ := a4
    exact ⟨rfl, h.symm⟩
  have hl1 := (a6 h2).2
  obtain ⟨hd, hb1⟩ := hd
  subst hd
  rw [← hl1] at h4 hat
  obtain ⟨d2, l2, b1, b2, b3, b4, b5, b6, -, -⟩ := recvWrapper_bytes l1 4 (by omega) a5 (by rw [hb1]; intro h; rw [(List.append_eq_nil_iff.mp h).1] at hrl; simp at hrl)
  have hd4 := (b6 h4).1
  rw [← (b6 h4).2] at hat
  have hd2 : d2 = rep.take 4 ∧ bytesOf l2 = rep.drop 4 ++ rest := by
    rw [hb1] at b4
    have h1 := congrArg (List.take 4) b4
    have h3 := congrArg (List.drop 4) b4
    rw [List.take_append_of_le_length (show 4 ≤ rep.length by omega), List.take_append_of_le_length (show 4 ≤ d2.length by omega),
      List.take_of_length_le (show d2.length ≤ 4 by omega)] at h1
    rw [List.drop_append_of_le_length (show 4 ≤ rep.length by omega), List.drop_append_of_le_length (show 4 ≤ d2.length by omega),
      List.drop_of_length_le (show d2.length ≤ 4 by omega), List.nil_append] at h3
    exact ⟨h1.symm, h3.symm⟩
  -- the rest of the report is skipped
  have htail : d2.getD 1 0 = 0 ∧ ∃ (k : Nat) (l3 : List Ev), replyTail t (d2.getD 3 0) l2 = some ((k : Int), l3) ∧ bytesOf (clear k l3 k) = rest := by
    obtain ⟨h1, h3⟩ := hd2
    cases hrep with
    | v4 r h =>
      rename_i a
      rw [h1]
      refine ⟨rfl, 6, l2, by simp [replyTail], ?_⟩
      rw [clear_atHand 6 l2 6 b5 (by simpa [h] using hat) (by omega), h3]
      simp [← h]
    | v6 r h =>
      rename_i a
      rw [h1]
      refine ⟨rfl, 18, l2, by simp [replyTail], ?_⟩
      rw [clear_atHand 18 l2 18 b5 (by simpa [h] using hat) (by omega), h3]
      simp [← h]
    | name r n h =>
      rename_i a
      have hn : n.toNat ≤ 125 := by simp at hshort; omega
      have h3' : bytesOf l2 = n :: (a ++ rest) := by rw [h3]; simp
      have hat' : AtHand l2 (1 + (n.toNat + 2)) := by
        have : ([5, 0, r, 3] ++ n :: a).length - 4 = 1 + (n.toNat + 2) := by simp [h]; omega
        rwa [this] at hat
      have hin := atHand_one b5 hat' (by omega)
      obtain ⟨d3, l3, c1, c2, c3, c4, c5, c6, -, -⟩ := recvWrapper_bytes l2 1 (by omega) b5 (by rw [h3']; simp)
      have hd3 : d3 = [n] ∧ bytesOf l3 = a ++ rest := by
        match d3, (c6 hin).1 with
        | [x], _ =>
          rw [h3'] at c4
          simp only [List.cons_append, List.nil_append, List.cons.injEq] at c4
          exact ⟨by rw [c4.1], c4.2.symm⟩
      rw [h1]
      refine ⟨rfl, n.toNat + 2, l3, ?_, ?_⟩
      · simp only [List.cons_append, List.nil_append, List.take_succ_cons, List.take_zero, List.getD_cons_succ, List.getD_cons_zero, replyTail]
        rw [if_neg (by decide), if_pos trivial, c1, hd3.1]
        have htc : toChar (n.toNat + 2) = ((n.toNat + 2 : Nat) : Int) := by
          unfold toChar
          split <;> omega
        rw [List.headD_cons, htc]
      · have hat3 := atHand_after hat' hin (by omega)
        rw [← (c6 hin).2] at hat3
        rw [clear_atHand _ l3 _ c5 hat3 (by omega), hd3.2]
        simp [← h]
  obtain ⟨hz, k, l3, t1, t2⟩ := htail
  have hall : (proxyPreparation t (.took k1 e1 r1 :: .took k2 e2 r2 :: s) l) = (0, [5, 1, 0] ++ connectRequest t, clear k l3 k) := by
    have s1 : sendWrapper (.took k1 e1 r1 :: .took k2 e2 r2 :: s) [5, 1, 0] = (3, [5, 1, 0], .took k2 e2 r2 :: s) := by
      rw [sendWrapper, if_pos (by simpa using hk1)]; rfl
    have s2 : sendWrapper (.took k2 e2 r2 :: s) (connectRequest t) = (((4 + 1 + t.text.length + 2 : Nat) : Int), connectRequest t, s) := by
      rw [sendWrapper, if_pos (by omega), hreq]
    unfold proxyPreparation
    rw [s1]
    dsimp only
    rw [if_neg (by simp), a1]
    dsimp only
    rw [if_neg (by simp), if_neg (by simp), s2]
    dsimp only
    rw [if_neg (by simp), b1]
    dsimp only
    rw [if_neg (by omega), if_neg (by rw [hz]; simp), t1]
    simp
  rw [hall]
  refine ⟨rfl, ⟨UInt8.ofNat t.text.length, UInt8.ofNat (t.port / 256), UInt8.ofNat t.port, ?_, ?_, be16_toNat hp⟩, t2⟩
  · simp [connectRequest, be16]
  · simp only [UInt8.toNat_ofNat']; omega

/-- The whole exchange: the answer of the server follows. -/
example : proxyPreparation exTarget exSend [.data [5, 0], .again, .data [5, 0, 0, 1], .data [10, 0, 0, 1, 4], .data [56, 0, 1, 9]] =
    (0, [5, 1, 0] ++ ([5, 1, 0, 3, 7] ++ str "8.8.4.4" ++ [0, 53]), [.data [0, 1, 9]]) := by decide +kernel
/-- A proxy that refuses. -/
example : (proxyPreparation exTarget exSend [.data [5, 255]]).1 = -3 := by decide +kernel
example : (proxyPreparation exTarget exSend [.data [5, 0], .data [5, 5, 0, 1, 0, 0, 0, 0, 0, 0]]).1 = -10 := by decide +kernel

end Verif.TcpStream
