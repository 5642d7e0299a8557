import Verif.Lemmas.SameName
import Verif.Props.Pipeline
/-! C70, what holds: a server's message reaches only a client that asked for the name in its question. -/

namespace Verif.Forwarder
open Msg MContext Pipeline HostsLoop Message Name Keeps

variable {Addr : Type}

/-- The event is a well-formed query of the client `c` with the identifier `i` and one question, of class IN, for the name
`ls`. -/
def Asks (ev : Ev Addr) (c : Client Addr) (i : Nat) (ls : List (List Byte)) : Prop :=
  ∃ (q : Message.Msg) (post agent : List Byte) (x : Luck), Answer q ls post ∧ idOf q.bytes = some i ∧
    ((∃ a sock, c = (some a, sock) ∧ ev = .udpQuery sock a agent (q.bytes ++ post) q.bytes.length x) ∨
      ∃ sock, c = (none, sock) ∧ ev = .tcpQuery sock agent (q.bytes ++ post) q.bytes.length x)

/-- The name as it is compared: without regard to case. -/
def plain (ls : List (List Byte)) : List Byte := (text ls).map toLowerByte

theorem fill_answer {q : Message.Msg} {ls : List (List Byte)} {post : List Byte} (hq : Answer q ls post) {h m : Head Addr} {back : Option (Dest Addr)}
    {sock fuel : Nat} {agent : List Byte} {c : Int} (e : fill h false (q.bytes ++ post) q.bytes.length back sock agent fuel = some (c, m)) :
    c = 0 ∧ m.back = back ∧ m.sock = sock ∧ m.hash = bkdrHash (plain ls) ∧ m.entity = q.bytes := by
  obtain ⟨qn, h1, hk⟩ := hq.one
  obtain ⟨k, hd⟩ := hq.name
  obtain ⟨f0, hf⟩ := fill_exact (Addr := Dest Addr) q qn ls k post hq.valid h1 hk hd hq.short hq.noZero false back sock agent
  have := fill_fuel (Nat.le_max_left fuel f0) e
  rw [hf _ (Nat.le_max_right _ _) h] at this
  simp only [Option.some.injEq, Prod.mk.injEq] at this
  obtain ⟨rfl, rfl⟩ := this
  exact ⟨rfl, rfl, rfl, rfl, rfl⟩

theorem asks_accepted {ev : Ev Addr} {c : Client Addr} {i : Nat} {ls : List (List Byte)} (h : Asks ev c i ls) : Accepted ev := by
  obtain ⟨q, post, agent, x, hq, _, ⟨a, sock, _, rfl⟩ | ⟨sock, _, rfl⟩⟩ := h
  · exact fun h m c e => (fill_answer hq e).1
  · exact fun h m c e => (fill_answer hq e).1

/-- Two well-formed readings of one query are about the same name, as far as it is compared. -/
theorem stems_asks {ev : Ev Addr} {m : Head Addr} {id : UInt16} {c : Client Addr} {i : Nat} {ls : List (List Byte)} (ha : Asks ev c i ls)
    (h : Stems ev m id) : lab m id.toNat = [(c, some i)] ∧ m.hash = bkdrHash (plain ls) := by
  obtain ⟨h0, m0, hf, e1, e2, e3, e4⟩ := h
  obtain ⟨q, post, agent, x, hq, hi, ⟨a, sock, rfl, rfl⟩ | ⟨sock, rfl, rfl⟩⟩ := ha
  · obtain ⟨_, f1, f2, f3, f4⟩ := fill_answer hq hf
    refine ⟨?_, e3.trans f3⟩
    unfold lab
    rw [e1, f1, e2, f2, e4, f4, ← idOf_ident hi]
  · obtain ⟨_, f1, f2, f3, f4⟩ := fill_answer hq hf
    refine ⟨?_, e3.trans f3⟩
    unfold lab
    rw [e1, f1, e2, f2, e4, f4, ← idOf_ident hi]

/-- A response that makes something go to a client found a waiting query. -/
theorem response_client_core [DecidableEq Addr] {hist : List (Env × Ev Addr)} {e : Env} {st st' : St Addr} {acts : List (Act Addr)} {i fuel : Nat}
    {bn : List Byte} {clock : Nat → Int} {r : Message.Msg} {rname : List Byte} {tail : List Byte} (hv : r.Valid)
    (hr : ∀ {h m : Head Addr} {back : Option (Dest Addr)} {sock fuel : Nat} {agent : List Byte} {c : Int},
      fill h false (r.bytes ++ tail) r.bytes.length back sock agent fuel = some (c, m) →
      c = 0 ∧ m.back = back ∧ m.sock = sock ∧ m.hash = bkdrHash rname ∧ m.entity = r.bytes) (hi : Inv st)
    (hf : FromAll hist st) (h : step e st (.response i (r.bytes ++ tail) r.bytes.length fuel bn clock) = some (st', acts)) {s : Sent Addr}
    (hs : .client s ∈ acts) :
    ∃ x ∈ hist, ∃ m id, Stems x.2 m id ∧ m.hash = bkdrHash rname ∧ Matched (lab m id.toNat) [s] ∧
      (e.lists = none → idOf r.bytes = some id.toNat ∧ (s = .tcp m.sock (be16 r.bytes.length ++ r.bytes) ∨ ∃ a, s = .udp m.sock a false r.bytes)) := by
  unfold step at h
  dsimp only at h
  split at h
  · cases h
  · rename_i d hd
    have hgd := hi.1 d (List.mem_of_getElem? hd)
    have hfd := hf d (List.mem_of_getElem? hd)
    split at h
    · cases h
    · rename_i d' ops out hre
      split at h
      · cases h
      · simp only [Option.some.injEq, Prod.mk.injEq] at h
        obtain ⟨rfl, rfl⟩ := h
        unfold respond at hre
        split at hre
        · cases hre
        · rename_i code h0 hfill
          obtain ⟨rfl, _, _, f3, f4⟩ := hr hfill
          split at hre
          · cases hre
          · rename_i v b' hmisc
            dsimp only at hre
            split at hre
            · simp only [Option.some.injEq, Prod.mk.injEq] at hre; obtain ⟨_, _, rfl⟩ := hre; cases hs
            · split at hre
              · simp only [Option.some.injEq, Prod.mk.injEq] at hre; obtain ⟨_, _, rfl⟩ := hre; cases hs
              · split at hre
                · split at hre
                  · cases hre
                  · simp only [Option.some.injEq, Prod.mk.injEq] at hre; obtain ⟨_, _, rfl⟩ := hre; cases hs
                · rename_i p t hgen
                  unfold genAnswerHeaderAndRemove at hgen
                  split at hgen
                  · simp at hgen
                  · rename_i a p' hse
                    simp only [Prod.mk.injEq, Option.some.injEq] at hgen
                    obtain ⟨rfl, rfl⟩ := hgen
                    obtain ⟨h1, h2⟩ := Bst.Tree.search_some hse
                    obtain ⟨h3, h4⟩ := compare_eq_zero h2
                    split at hre
                    · cases hre
                    · simp only [Option.some.injEq, Prod.mk.injEq] at hre
                      obtain ⟨_, _, rfl⟩ := hre
                      have hpw : p' ∈ waiting d.table := List.mem_map_of_mem h1
                      obtain ⟨hh, hfr⟩ := hfd.1 p' hpw
                      simp only [List.flatMap_cons, List.flatMap_nil, List.append_nil] at hs
                      have hlen : h0.entity.length = r.bytes.length := by rw [f4]
                      generalize hn : List.take _ b' = l at hs
                      rcases hfr with ⟨p, t, hb⟩ | ⟨x, hx, hst⟩
                      · simp [sendBack, hb, post] at hs
                      · have hm : Matched (lab p'.client p'.id.toNat) _ := post_matched (m := { p'.client with edns := h0.edns, entity := l }) (m' := { p'.client with edns := h0.edns, entity := l })
                          (fun a ha => hgd.1.2 p' hpw a ha) p'.id.toNat (by
                            intro i hi
                            have h4 : 2 ≤ l.length := by
                              match l, hi with
                              | x :: y :: t, _ => simp
                            rw [idOf_ident hi]
                            dsimp only at h3 ⊢
                            rw [← h3]
                            simp only [entry]
                            refine congrArg UInt16.toNat (ident_take (a := l) (b := b') ?_)
                            rw [← hn, List.length_take] at h4
                            rw [← hn, List.take_take, Nat.min_eq_left (by omega)])
                        refine ⟨x, hx, p'.client, p'.id, hst, ?_, ?_, ?_⟩
                        · rw [← hh, ← h4]; exact f3
                        · unfold sendBack at hs hm
                          cases hb : p'.client.back with
                          | none =>
                            simp only [hb, post, List.mem_singleton, Act.client.injEq] at hs hm
                            subst hs
                            exact hm
                          | some w =>
                            cases w with
                            | client a =>
                              simp only [hb, post, List.mem_singleton, Act.client.injEq] at hs hm
                              subst hs
                              exact hm
                            | loop p t => simp [hb, post] at hs
                        · intro hno
                          unfold misc at hmisc
                          rw [hno] at hmisc
                          simp only [Option.some.injEq, Prod.mk.injEq] at hmisc
                          obtain ⟨_, rfl⟩ := hmisc
                          have hl : l = r.bytes := by rw [← hn, hlen]; exact List.take_left' rfl
                          have h12 : 12 ≤ r.bytes.length := by rw [Message.Msg.bytes, List.length_append, Generator.header_length hv]; omega
                          refine ⟨?_, ?_⟩
                          · rw [idOf_some (by omega), ← h3]
                            simp only [entry]
                            exact congrArg (fun x => some x.toNat) (ident_take (a := r.bytes) (b := r.bytes ++ tail) (by rw [List.take_append_of_le_length (by omega)]))
                          · unfold sendBack at hs
                            subst hl
                            cases hb : p'.client.back with
                            | none =>
                              simp only [hb, post, List.mem_singleton, Act.client.injEq] at hs
                              exact Or.inl hs
                            | some w =>
                              cases w with
                              | client a =>
                                simp only [hb, post, List.mem_singleton, Act.client.injEq] at hs
                                rw [hgd.1.2 p' hpw a hb] at hs
                                exact Or.inr ⟨a, hs⟩
                              | loop p t => simp [hb, post] at hs

theorem response_client [DecidableEq Addr] {hist : List (Env × Ev Addr)} {e : Env} {st st' : St Addr} {acts : List (Act Addr)} {i fuel : Nat}
    {bn : List Byte} {clock : Nat → Int} {r : Message.Msg} {rs : List (List Byte)} {tail : List Byte} (hr : Answer r rs tail) (hi : Inv st)
    (hf : FromAll hist st) (h : step e st (.response i (r.bytes ++ tail) r.bytes.length fuel bn clock) = some (st', acts)) {s : Sent Addr}
    (hs : .client s ∈ acts) :
    ∃ x ∈ hist, ∃ m id, Stems x.2 m id ∧ m.hash = bkdrHash (plain rs) ∧ Matched (lab m id.toNat) [s] ∧
      (e.lists = none → idOf r.bytes = some id.toNat ∧ (s = .tcp m.sock (be16 r.bytes.length ++ r.bytes) ∨ ∃ a, s = .udp m.sock a false r.bytes)) :=
  response_client_core hr.valid (fill_answer hr) hi hf h hs

/-- C70, what holds: if all queries of clients are well-formed and a well-formed response makes something go to a client,
then this client asked – with the identifier of the reply, and for the very name in the question of the response, unless
the name it asked for is another one with the same hash.  Without address lists the reply is the response.

Missing: the type of the question, which is not compared (`same_question_false`); names with the same hash; messages with
other questions than one of class IN; replies through an alias or from the program's own data (C25, C50, C65). -/
theorem server_reply_asked_partial [DecidableEq Addr] (st st1 st2 : St Addr) (l : List (Env × Ev Addr)) (a a' : List (Act Addr)) (e : Env)
    (i fuel : Nat) (bn : List Byte) (clock : Nat → Int) (r : Message.Msg) (rs : List (List Byte)) (post : List Byte) (s : Sent Addr)
    (h0 : Start st) (hq : ∀ x ∈ l, queryOf x.2 ≠ [] → ∃ c i ls, Asks x.2 c i ls) (h1 : run st l = some (st1, a)) (hr : Answer r rs post)
    (h2 : step e st1 (.response i (r.bytes ++ post) r.bytes.length fuel bn clock) = some (st2, a')) (hs : .client s ∈ a') :
    ∃ x ∈ l, ∃ c i ls, Asks x.2 c i ls ∧ Answers (c, some i) s ∧ bkdrHash (plain ls) = bkdrHash (plain rs) ∧
      ((∀ x ∈ l, ∀ c i ls, Asks x.2 c i ls → bkdrHash (plain ls) = bkdrHash (plain rs) → plain ls = plain rs) → plain ls = plain rs) ∧
      (e.lists = none → idOf r.bytes = some i ∧
        (s = .tcp c.2 (be16 r.bytes.length ++ r.bytes) ∨ ∃ a, c.1 = some a ∧ s = .udp c.2 a false r.bytes)) := by
  have hacc : ∀ x ∈ l, Accepted x.2 := by
    intro x hx
    by_cases hne : queryOf x.2 = []
    · cases hev : x.2 with
      | udpQuery sock addr agent b len y => rw [hev] at hne; cases hne
      | tcpQuery sock agent b len y => rw [hev] at hne; cases hne
      | _ => trivial
    · obtain ⟨c, i, ls, ha⟩ := hq x hx hne
      exact asks_accepted ha
  obtain ⟨hi, hf⟩ := run_from (hist := []) (start_inv h0).1 (by intro d hd; rw [h0.1] at hd; cases hd) hacc h1
  rw [List.nil_append] at hf
  obtain ⟨x, hx, m, id, hst, hh, hm, hno⟩ := response_client hr hi hf h2 hs
  have hne : queryOf x.2 ≠ [] := by
    obtain ⟨_, _, hst, _⟩ := hst
    cases hev : x.2 <;> rw [hev] at hst
    case udpQuery => simp [queryOf]
    case tcpQuery => simp [queryOf]
    all_goals cases hst
  obtain ⟨c, j, ls, ha⟩ := hq x hx hne
  obtain ⟨g1, g2⟩ := stems_asks ha hst
  rw [g1] at hm
  cases hm with
  | cons hans _ =>
    have heq : bkdrHash (plain ls) = bkdrHash (plain rs) := g2.symm.trans hh
    refine ⟨x, hx, c, j, ls, ha, hans, heq, fun hnc => hnc x hx c j ls ha heq, fun hl => ?_⟩
    obtain ⟨k1, k2⟩ := hno hl
    have hid : some id.toNat = some j := by
      unfold lab at g1
      split at g1 <;> simp only [List.cons.injEq, Prod.mk.injEq, and_true, reduceCtorEq] at g1 <;> exact g1.2
    refine ⟨k1.trans hid, ?_⟩
    rcases k2 with rfl | ⟨b, rfl⟩
    · obtain ⟨e1, _⟩ := hans
      dsimp only at e1
      rw [e1]
      exact Or.inl rfl
    · obtain ⟨e1, _⟩ := hans
      dsimp only at e1
      rw [e1]
      exact Or.inr ⟨b, rfl, rfl⟩

/-! ### a case that meets the hypotheses -/

theorem exQuestion (c : Nat) : Asks (udpAsk c (query 1 2 ms 1)) (some c, 1) 258 ms :=
  ⟨⟨[1, 2, 1, 0], [⟨wire ms, 1, 1⟩], [], [], []⟩, List.replicate 200 0, [], exLuck,
    { valid := plainValid _ _ _ _ [] msName (by decide) (by simp)
      one := ⟨_, rfl, rfl⟩
      name := ⟨_, denotes_wire (by decide) (by unfold At; decide +kernel) (by decide +kernel)⟩
      short := by decide
      noZero := by decide }, by decide, Or.inl ⟨c, 1, rfl, rfl⟩⟩

def exReply : Message.Msg := ⟨[1, 2, 0x81, 0x80], [⟨wire ms, 1, 1⟩], [⟨[0xC0, 12], 1, 1, 60, [1, 2, 3, 4]⟩], [], []⟩

theorem exAnswer : Answer exReply ms (List.replicate 200 0) where
  valid := plainValid _ _ _ _ [] msName (by decide) (by
        intro r hr
        simp only [List.append_nil, List.mem_singleton] at hr
        subst hr
        exact ⟨.pointer _ _ (by decide), by decide, by decide, by decide, by decide, by decide, by decide⟩)
  one := ⟨_, rfl, rfl⟩
  name := ⟨_, denotes_wire (by decide) (by unfold At; decide +kernel) (by decide +kernel)⟩
  short := by decide
  noZero := by decide

def exHist : List (Env × Ev Nat) := [both, udpAsk 8 (query 1 2 ms 1)].map fun ev => (exEnv, ev)

example : Start exSt ∧ (∀ x ∈ exHist, queryOf x.2 ≠ [] → ∃ c i ls, Asks x.2 c i ls) ∧
    ∃ st1 a st2 a', run exSt exHist = some (st1, a) ∧
      step exEnv st1 (.response 0 (exReply.bytes ++ List.replicate 200 0) exReply.bytes.length 50 [] (fun _ => 1001)) = some (st2, a') ∧
      .client (.udp 1 8 false exReply.bytes) ∈ a' := by
  refine ⟨⟨rfl, rfl, rfl, rfl⟩, ?_, ?_⟩
  · intro x hx hne
    simp only [exHist, List.map_cons, List.map_nil, List.mem_cons, List.not_mem_nil, or_false] at hx
    rcases hx with rfl | rfl
    · exact absurd rfl hne
    · exact ⟨_, _, _, exQuestion 8⟩
  · have h : ((run exSt exHist).bind fun r =>
        (step exEnv r.1 (.response 0 (exReply.bytes ++ List.replicate 200 0) exReply.bytes.length 50 [] (fun _ => 1001))).map (·.2)) =
        some [.client (.udp 1 8 false exReply.bytes)] := by decide +kernel
    cases h1 : run exSt exHist with
    | none => rw [h1] at h; cases h
    | some r =>
      rw [h1] at h
      dsimp only [Option.bind_some] at h
      generalize hst : step exEnv r.1 _ = o at h
      cases o with
      | none => cases h
      | some r2 =>
        simp only [Option.map_some, Option.some.injEq] at h
        exact ⟨r.1, r.2, r2.1, r2.2, rfl, hst, by rw [h]; exact List.mem_singleton.2 rfl⟩

end Verif.Forwarder
