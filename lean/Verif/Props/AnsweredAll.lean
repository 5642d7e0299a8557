import Verif.Props.Answered
import Verif.Props.HeaderAll
/-! C107, for messages with any number of questions: the answer of a server reaches the client that asked. -/

namespace Verif.Forwarder
open Msg MContext Pipeline HostsLoop Message Name Keeps

variable {Addr : Type}

/-- A well-formed message with at least one question, all of class IN, and any records, in a buffer with `post` behind it; its last question is for `ls`. -/
structure About (q : Message.Msg) (ls : List (List Byte)) (post : List Byte) : Prop where
  valid : q.Valid
  class_in : ∀ y ∈ q.qs, y.klass = 1
  names : ∃ names, Named (memAt (q.bytes ++ post)) q.bytes.length 12 q.qs names ∧ (∀ n ∈ names, (text n).length < 256) ∧ names.getLast? = some ls

/-- The event is such a message as a query of the client `c` with the identifier `i`. -/
def Poses (ev : Ev Addr) (c : Client Addr) (i : Nat) (ls : List (List Byte)) : Prop :=
  ∃ (q : Message.Msg) (post agent : List Byte) (x : Luck), About q ls post ∧ idOf q.bytes = some i ∧
    ((∃ a sock, c = (some a, sock) ∧ ev = .udpQuery sock a agent (q.bytes ++ post) q.bytes.length x) ∨
      ∃ sock, c = (none, sock) ∧ ev = .tcpQuery sock agent (q.bytes ++ post) q.bytes.length x)

/-- Nobody else uses the identifier `i` meanwhile: neither another client, nor this one for another name, nor the program itself. -/
def FairAll (c : Client Addr) (i : Nat) (name : List Byte) : Ev Addr → Prop
  | .innerTake _ _ _ rnd _ _ => rnd % 65536 ≠ i
  | ev => Accepted ev ∧ ((∃ w, (w, some i) ∈ queryOf ev) → ∃ ls, Poses ev c i ls ∧ plainName ls = name)

theorem named_length {mem : Nat → Byte} {len p : Nat} {qs : List Question} {names : List (List (List Byte))} (h : Named mem len p qs names) :
    names.length = qs.length := by
  induction h with
  | nil => rfl
  | cons _ _ ih => simp [ih]

/-- With all questions of class IN, the name is that of the last. -/
theorem asked_last {qs : List Question} {names : List (List (List Byte))} (hl : names.length = qs.length) (hc : ∀ y ∈ qs, y.klass = 1) {ls : List (List Byte)}
    (hlast : names.getLast? = some ls) {d : List Byte} {t : Nat} (h : asked qs names = some (d, t)) : d = plainName ls := by
  have hall : (qs.zip names).takeWhile (fun x => x.1.klass == 1) = qs.zip names := by
    have key : ∀ l : List (Question × List (List Byte)), (∀ x ∈ l, x.1.klass = 1) → l.takeWhile (fun x => x.1.klass == 1) = l := by
      intro l
      induction l with
      | nil => intro _; rfl
      | cons x l ih => intro hx; rw [List.takeWhile_cons_of_pos (by simpa using hx x (by simp)), ih fun y hy => hx y (by simp [hy])]
    exact key _ fun x hx => hc _ (List.of_mem_zip hx).1
  unfold asked at h
  rw [hall] at h
  split at h
  · cases h
  · rename_i x l hx
    simp only [Option.some.injEq, Prod.mk.injEq] at h
    have h1 : ((qs.zip names).map Prod.snd).getLast? = some ls := by rw [List.map_snd_zip (by omega), hlast]
    rw [hx, List.getLast?_map, List.getLast?_eq_some_getLast (by simp)] at h1
    simp only [Option.map_some, Option.some.injEq] at h1
    rw [← h.1, h1]

theorem about_some {q : Message.Msg} {ls : List (List Byte)} {post : List Byte} (hq : About q ls post) : q.qs ≠ [] := by
  obtain ⟨names, h1, _, h3⟩ := hq.names
  intro h
  have := named_length h1
  rw [h, List.length_nil] at this
  rw [List.length_eq_zero_iff.1 this] at h3
  cases h3

theorem fill_about_zero {q : Message.Msg} {ls : List (List Byte)} {post : List Byte} (hq : About q ls post) {h m : Head Addr} {back : Option (Dest Addr)}
    {sock fuel : Nat} {agent : List Byte} {c : Int} (e : fill h false (q.bytes ++ post) q.bytes.length back sock agent fuel = some (c, m)) : c = 0 := by
  obtain ⟨names, h1, h2, h3⟩ := hq.names
  obtain ⟨f0, hf⟩ := fill_every (Addr := Dest Addr) q names post hq.valid (about_some hq) h1 h2 false back sock agent
  have := fill_fuel (Nat.le_max_left fuel f0) e
  obtain ⟨d, t, g1, g2⟩ := (hf _ (Nat.le_max_right fuel f0) h).1 hq.class_in
  rw [g2] at this
  simp only [Option.some.injEq, Prod.mk.injEq] at this
  exact this.1.symm

theorem fill_about {q : Message.Msg} {ls : List (List Byte)} {post : List Byte} (hq : About q ls post) {h m : Head Addr} {back : Option (Dest Addr)}
    {sock fuel : Nat} {agent : List Byte} {c : Int} (e : fill h false (q.bytes ++ post) q.bytes.length back sock agent fuel = some (c, m)) :
    m.back = back ∧ m.sock = sock ∧ m.hash = bkdrHash (plainName ls) ∧ m.entity = q.bytes ∧ (HasEdns q → m.edns = true) := by
  obtain ⟨names, h1, h2, h3⟩ := hq.names
  obtain ⟨f0, hf⟩ := fill_every (Addr := Dest Addr) q names post hq.valid (about_some hq) h1 h2 false back sock agent
  have := fill_fuel (Nat.le_max_left fuel f0) e
  obtain ⟨d, t, g1, g2⟩ := (hf _ (Nat.le_max_right fuel f0) h).1 hq.class_in
  rw [g2] at this
  simp only [Option.some.injEq, Prod.mk.injEq] at this
  obtain ⟨rfl, rfl⟩ := this
  refine ⟨rfl, rfl, by rw [asked_last (named_length h1) hq.class_in h3 g1], rfl, fun ⟨x, hx, ht⟩ => ?_⟩
  exact List.any_eq_true.2 ⟨x, hx, by simpa using ht⟩

theorem fairAll_accepted {c : Client Addr} {i : Nat} {name : List Byte} {ev : Ev Addr} (h : FairAll c i name ev) : Accepted ev := by
  cases ev <;> first | exact h.1 | trivial

theorem fairAll_source {c : Client Addr} {i : UInt16} {name : List Byte} {ev : Ev Addr} (h : FairAll c i.toNat name ev) {m : Head Addr} (hs : Source ev m)
    (hi : ident m.entity = i) : Mine c name m := by
  cases ev with
  | udpQuery sock addr agent b len x =>
    obtain ⟨h0, hf⟩ := hs
    obtain ⟨e1, e2, e3, e4, e5, e6⟩ := fill_zero hf
    obtain ⟨h12, _⟩ := accepted_head e4 e5 e6
    obtain ⟨ls, ⟨q, post, ag, y, hq, hid, ha⟩, rfl⟩ := h.2 ⟨(some addr, sock), by
      simp only [queryOf, List.mem_singleton, Prod.mk.injEq, true_and]
      rw [← e4, idOf_some (by omega), hi]⟩
    rcases ha with ⟨a, s, rfl, he⟩ | ⟨s, rfl, he⟩
    · cases he
      obtain ⟨f1, f2, f3, f4⟩ := fill_about hq hf
      exact ⟨f3, f2, f1, e3⟩
    · cases he
  | tcpQuery sock agent b len x =>
    obtain ⟨h0, hf⟩ := hs
    obtain ⟨e1, e2, e3, e4, e5, e6⟩ := fill_zero hf
    obtain ⟨h12, _⟩ := accepted_head e4 e5 e6
    obtain ⟨ls, ⟨q, post, ag, y, hq, hid, ha⟩, rfl⟩ := h.2 ⟨(none, sock), by
      simp only [queryOf, List.mem_singleton, Prod.mk.injEq, true_and]
      rw [← e4, idOf_some (by omega), hi]⟩
    rcases ha with ⟨a, s, rfl, he⟩ | ⟨s, rfl, he⟩
    · cases he
    · cases he
      obtain ⟨f1, f2, f3, f4⟩ := fill_about hq hf
      exact ⟨f3, f2, f1, e3⟩
  | innerTake k cap sock rnd old x =>
    obtain ⟨_, h2⟩ := hs
    rw [hi] at h2
    exact absurd h2.symm h
  | _ => cases hs

/-- C107, with any number of questions.  A client's query leaves for a server (with identifier `i`, which nothing else uses there meanwhile; the client may repeat
its query).  If then – before the server answered it, and before the program gave up, two seconds later – a well-formed response from that server comes, with this
identifier and with the same name in its last question, the client is sent this response, with the configured replacements of addresses, and nothing else is sent.

Missing: the response to a query with the same identifier as another one; questions of other classes; responses that leave out questions
(`oneOfTwo_false`: false of the code); how long it takes. -/
theorem answered_all_partial [DecidableEq Addr] (st st0 st1 st2 st3 st4 : St Addr) (l0 l1 l2 : List (Env × Ev Addr)) (a0 a1 a2 a3 a4 : List (Act Addr))
    (e2 e4 : Env) (ev : Ev Addr) (c : Client Addr) (i j fuel : Nat) (ls rs : List (List Byte)) (r r' : Message.Msg) (tail bn : List Byte)
    (clock : Nat → Int) (hst : Start st) (h0 : run st l0 = some (st0, a0)) (hacc : ∀ x ∈ l0, Accepted x.2) (hfree : Free j i st0)
    (h1 : run st0 l1 = some (st1, a1)) (hf1 : ∀ x ∈ l1, FairAll c i (plainName ls) x.2)
    (h2 : step e2 st1 ev = some (st2, a2)) (hf2 : FairAll c i (plainName ls) ev) (hleaves : Leaves j i ev a2)
    (h3 : run st2 l2 = some (st3, a3)) (hf3 : ∀ x ∈ l2, FairAll c i (plainName ls) x.2) (hpat : ∀ x ∈ l2, Patient j i (clockOf ev) x.2)
    (hr : About r rs tail) (hid : idOf r.bytes = some i) (hname : plainName rs = plainName ls) (hl : Passes e4 r r') (hap : e4.ap = false ∨ HasEdns r)
    (h4 : step e4 st3 (.response j (r.bytes ++ tail) r.bytes.length fuel bn clock) = some (st4, a4)) :
    a4 = [.client (toClient r'.bytes c)] :=
  answered_core (F := FairAll c i (plainName ls)) (fun _ h => fairAll_accepted h) (fun k _ _ e h hs => by subst e; exact fairAll_source h hs) hst h0 hacc hfree h1 hf1 h2 hf2
    hleaves h3 hf3 hpat hr.valid (about_some hr) (fun _ _ _ _ e => by obtain ⟨_, _, g1, g2, g3⟩ := fill_about hr e; exact ⟨hname ▸ g1, g2, g3⟩) hid hl hap h4

/-! ### a case that meets the hypotheses: two questions -/

def twoQ : Message.Msg := ⟨[1, 2, 1, 0], [⟨wire org, 1, 1⟩, ⟨wire ms, 1, 1⟩], [], [], []⟩
def twoR : Message.Msg := ⟨[1, 2, 0x81, 0x80], [⟨wire org, 1, 1⟩, ⟨wire ms, 1, 1⟩], [⟨[0xC0, 12], 1, 1, 60, [1, 2, 3, 4]⟩], [], []⟩

theorem two_names : ∀ q ∈ [(⟨wire org, 1, 1⟩ : Question), ⟨wire ms, 1, 1⟩], q.Valid := by
  intro q hq
  simp only [List.mem_cons, List.not_mem_nil, or_false] at hq
  rcases hq with rfl | rfl
  · exact ⟨orgName, by decide, by decide, by decide, by decide⟩
  · exact ⟨msName, by decide, by decide, by decide, by decide⟩

theorem twoQ_about : About twoQ ms (List.replicate 200 0) where
  valid := ⟨rfl, two_names, by simp [twoQ], by simp [twoQ], by simp [twoQ], by decide, by decide, by decide, by decide⟩
  class_in := by decide
  names := ⟨[org, ms], .cons (denotes_wire (by decide) (by unfold At; decide +kernel) (by decide +kernel))
    (.cons (denotes_wire (by decide) (by unfold At; decide +kernel) (by decide +kernel)) .nil), by decide, rfl⟩

theorem reply_rr : (⟨[0xC0, 12], 1, 1, 60, [1, 2, 3, 4]⟩ : RR).Valid := ⟨.pointer _ _ (by decide), by decide, by decide, by decide, by decide, by decide, by decide⟩

theorem twoR_about : About twoR ms (List.replicate 200 0) where
  valid := ⟨rfl, two_names, by simp [twoR, reply_rr], by simp [twoR], by simp [twoR], by decide, by decide, by decide, by decide⟩
  class_in := by decide
  names := ⟨[org, ms], .cons (denotes_wire (by decide) (by unfold At; decide +kernel) (by decide +kernel))
    (.cons (denotes_wire (by decide) (by unfold At; decide +kernel) (by decide +kernel)) .nil), by decide, rfl⟩

theorem twoQ_poses (c : Nat) : Poses (udpAsk c twoQ.bytes) (some c, 1) 258 ms :=
  ⟨twoQ, List.replicate 200 0, [], exLuck, twoQ_about, by decide, Or.inl ⟨c, 1, rfl, rfl⟩⟩

def twoRun (r : Message.Msg) : Option (List (Act Nat) × List (Act Nat)) :=
  (run exSt [(exEnv, both)]).bind fun r0 => (step exEnv r0.1 (udpAsk 8 twoQ.bytes)).bind fun r1 =>
    (step exEnv r1.1 (.response 0 (r.bytes ++ List.replicate 200 0) r.bytes.length 50 [] (fun _ => 1001))).map fun r3 => (r1.2, r3.2)

theorem two_fair : FairAll (some 8, 1) 258 (plainName ms) (udpAsk 8 twoQ.bytes) := by
  refine ⟨fun h m c e => ?_, fun _ => ⟨ms, twoQ_poses 8, rfl⟩⟩
  exact fill_about_zero twoQ_about e

theorem start_free {st0 : St Nat} {a0 : List (Act Nat)} (h0 : run exSt [(exEnv, both)] = some (st0, a0)) : Free 0 258 st0 := by
  intro d hd
  have hm : st0.mods = [⟨.udp, Bst.State.init, noHead, []⟩, ⟨.tcp, Bst.State.init, noHead, []⟩] := by
    simp only [run, step, both, Option.some.injEq, Prod.mk.injEq] at h0
    rw [← h0.1]; rfl
  rw [hm] at hd
  obtain rfl := Option.some.inj hd
  exact ⟨fun p hp => by simp [waiting, Bst.State.init, Bst.Tree.toList] at hp, fun m hm => by simp at hm⟩

example : ∃ st0 a0 st2 a2 st4 a4, Start exSt ∧ run exSt [(exEnv, both)] = some (st0, a0) ∧ Free 0 258 st0 ∧
    step exEnv st0 (udpAsk 8 twoQ.bytes) = some (st2, a2) ∧ FairAll (some 8, 1) 258 (plainName ms) (udpAsk 8 twoQ.bytes) ∧
    Leaves 0 258 (udpAsk 8 twoQ.bytes) a2 ∧ About twoR ms (List.replicate 200 0) ∧
    step exEnv st2 (.response 0 (twoR.bytes ++ List.replicate 200 0) twoR.bytes.length 50 [] (fun _ => 1001)) = some (st4, a4) ∧
    a4 = [.client (toClient twoR.bytes (some 8, 1))] ∧ idOf twoR.bytes = some 258 ∧ Passes exEnv twoR twoR ∧ exEnv.ap = false := by
  have h : twoRun twoR = some ([.server 0 twoQ.bytes], [.client (toClient twoR.bytes (some 8, 1))]) := by decide +kernel
  unfold twoRun at h
  obtain ⟨r0, h0, h⟩ := Option.bind_eq_some_iff.1 h
  obtain ⟨r1, h1, h⟩ := Option.bind_eq_some_iff.1 h
  obtain ⟨r3, h3, h⟩ := Option.map_eq_some_iff.1 h
  simp only [Prod.mk.injEq] at h
  refine ⟨r0.1, r0.2, r1.1, r1.2, r3.1, r3.2, ⟨rfl, rfl, rfl, rfl⟩, h0, start_free h0, h1, two_fair, ?_, twoR_about, h3, h.2, by decide, Or.inl ⟨rfl, rfl⟩, rfl⟩
  exact ⟨twoQ.bytes, by rw [h.1]; exact List.mem_singleton.2 rfl, by decide⟩

/-! ### a response that leaves out a question -/

/-- As the theorem, but with a response about any of the questions of the query. -/
def OneOfTwo : Prop :=
  ∀ (st st0 st1 st2 : St Nat) (l : List (Env × Ev Nat)) (a0 a1 a2 : List (Act Nat)) (e : Env) (q r : Message.Msg) (ls rs : List (List Byte)) (post agent tail bn : List Byte) (x : Luck)
    (a sock i j fuel : Nat) (clock : Nat → Int), Start st → run st l = some (st0, a0) → (∀ v ∈ l, Accepted v.2) → Free j i st0 →
    About q ls post → idOf q.bytes = some i → step e st0 (.udpQuery sock a agent (q.bytes ++ post) q.bytes.length x) = some (st1, a1) → .server j q.bytes ∈ a1 →
    About r rs tail → (∀ y ∈ r.qs, y ∈ q.qs) → idOf r.bytes = some i → Passes e r r → e.ap = false →
    step e st1 (.response j (r.bytes ++ tail) r.bytes.length fuel bn clock) = some (st2, a2) → a2 = [.client (toClient r.bytes (some a, sock))]

/-- The response to the first of the two questions. -/
def firstR : Message.Msg := ⟨[1, 2, 0x81, 0x80], [⟨wire org, 1, 1⟩], [⟨[0xC0, 12], 1, 1, 60, [1, 2, 3, 4]⟩], [], []⟩

theorem firstR_about : About firstR org (List.replicate 200 0) where
  valid := ⟨rfl, fun q hq => two_names q (by simp [firstR] at hq; simp [hq]), by simp [firstR, reply_rr], by simp [firstR], by simp [firstR], by decide, by decide, by decide, by decide⟩
  class_in := by decide
  names := ⟨[org], .cons (denotes_wire (by decide) (by unfold At; decide +kernel) (by decide +kernel)) .nil, by decide, rfl⟩

/-- C107 is false of responses that answer the first question alone: a query waits under the name of its last question. -/
theorem oneOfTwo_false : ¬ OneOfTwo := by
  intro hall
  have h : twoRun firstR = some ([.server 0 twoQ.bytes], []) := by decide +kernel
  unfold twoRun at h
  obtain ⟨r0, h0, h⟩ := Option.bind_eq_some_iff.1 h
  obtain ⟨r1, h1, h⟩ := Option.bind_eq_some_iff.1 h
  obtain ⟨r3, h3, h⟩ := Option.map_eq_some_iff.1 h
  simp only [Prod.mk.injEq] at h
  have := hall exSt r0.1 r1.1 r3.1 _ r0.2 r1.2 r3.2 exEnv twoQ firstR ms org (List.replicate 200 0) [] (List.replicate 200 0) [] exLuck 8 1 258 0 50 (fun _ => 1001)
    ⟨rfl, rfl, rfl, rfl⟩ h0 (by intro v hv; rw [List.mem_singleton.1 hv]; trivial) (start_free h0) twoQ_about (by decide) h1
    (by rw [h.1]; exact List.mem_singleton.2 rfl) firstR_about (by decide) (by decide) (Or.inl ⟨rfl, rfl⟩) rfl h3
  rw [h.2] at this
  cases this

end Verif.Forwarder
