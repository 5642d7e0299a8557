import Verif.Props.AnsweredAll
/-! C70, for messages with any number of questions: a server's message reaches only a client that asked for the name in its question. -/

namespace Verif.Forwarder
open Msg MContext Pipeline HostsLoop Message Name Keeps

variable {Addr : Type}

theorem poses_accepted {ev : Ev Addr} {c : Client Addr} {i : Nat} {ls : List (List Byte)} (h : Poses ev c i ls) : Accepted ev := by
  obtain ⟨q, post, agent, x, hq, _, ⟨a, sock, _, rfl⟩ | ⟨sock, _, rfl⟩⟩ := h
  · exact fun h m c e => fill_about_zero hq e
  · exact fun h m c e => fill_about_zero hq e

theorem stems_poses {ev : Ev Addr} {m : Head Addr} {id : UInt16} {c : Client Addr} {i : Nat} {ls : List (List Byte)} (ha : Poses ev c i ls)
    (h : Stems ev m id) : lab m id.toNat = [(c, some i)] ∧ m.hash = bkdrHash (plainName ls) := by
  obtain ⟨h0, m0, hf, e1, e2, e3, e4⟩ := h
  obtain ⟨q, post, agent, x, hq, hi, ⟨a, sock, rfl, rfl⟩ | ⟨sock, rfl, rfl⟩⟩ := ha
  · obtain ⟨f1, f2, f3, f4, _⟩ := fill_about hq hf
    refine ⟨?_, e3.trans f3⟩
    unfold lab
    rw [e1, f1, e2, f2, e4, f4, ← idOf_ident hi]
  · obtain ⟨f1, f2, f3, f4, _⟩ := fill_about hq hf
    refine ⟨?_, e3.trans f3⟩
    unfold lab
    rw [e1, f1, e2, f2, e4, f4, ← idOf_ident hi]

/-- C70, what holds of messages with any number of questions of class IN: if all queries of clients are such messages and a response that is one makes something go
to a client, then this client asked – with the identifier of the reply, and with the very name in the last question of the response as the name of its last
question, unless that is another one with the same hash.  Without address lists the reply is the response.

Missing: the type of the question and all questions but the last, which are not compared (`same_question_false`); names with the same hash; questions of other classes;
replies through an alias or from the program's own data (C25, C50, C65). -/
theorem server_reply_asked_all_partial [DecidableEq Addr] (st st1 st2 : St Addr) (l : List (Env × Ev Addr)) (a a' : List (Act Addr)) (e : Env)
    (i fuel : Nat) (bn : List Byte) (clock : Nat → Int) (r : Message.Msg) (rs : List (List Byte)) (post : List Byte) (s : Sent Addr)
    (h0 : Start st) (hq : ∀ x ∈ l, queryOf x.2 ≠ [] → ∃ c i ls, Poses x.2 c i ls) (h1 : run st l = some (st1, a)) (hr : About r rs post)
    (h2 : step e st1 (.response i (r.bytes ++ post) r.bytes.length fuel bn clock) = some (st2, a')) (hs : .client s ∈ a') :
    ∃ x ∈ l, ∃ c i ls, Poses x.2 c i ls ∧ Answers (c, some i) s ∧ bkdrHash (plainName ls) = bkdrHash (plainName rs) ∧
      ((∀ x ∈ l, ∀ c i ls, Poses x.2 c i ls → bkdrHash (plainName ls) = bkdrHash (plainName rs) → plainName ls = plainName rs) → plainName ls = plainName rs) ∧
      (e.lists = none → idOf r.bytes = some i ∧
        (s = .tcp c.2 (be16 r.bytes.length ++ r.bytes) ∨ ∃ a, c.1 = some a ∧ s = .udp c.2 a false r.bytes)) := by
  have hacc : ∀ x ∈ l, Accepted x.2 := by
    intro x hx
    by_cases hne : queryOf x.2 = []
    · cases hev : x.2 with
      | udpQuery sock addr agent b len y => rw [hev] at hne; cases hne
      | tcpQuery sock agent b len y => rw [hev] at hne; cases hne
      | _ => trivial
    · obtain ⟨c, i, ls, ha⟩ := hq x hx hne
      exact poses_accepted ha
  obtain ⟨hi, hf⟩ := run_from (hist := []) (start_inv h0).1 (by intro d hd; rw [h0.1] at hd; cases hd) hacc h1
  rw [List.nil_append] at hf
  obtain ⟨x, hx, m, id, hst, hh, hm, hno⟩ := response_client_core (rname := plainName rs) hr.valid
    (fun e => by obtain ⟨g1, g2, g3, g4, _⟩ := fill_about hr e; exact ⟨fill_about_zero hr e, g1, g2, g3, g4⟩) hi hf h2 hs
  have hne : queryOf x.2 ≠ [] := by
    obtain ⟨_, _, hst, _⟩ := hst
    cases hev : x.2 <;> rw [hev] at hst
    case udpQuery => simp [queryOf]
    case tcpQuery => simp [queryOf]
    all_goals cases hst
  obtain ⟨c, j, ls, ha⟩ := hq x hx hne
  obtain ⟨g1, g2⟩ := stems_poses ha hst
  rw [g1] at hm
  cases hm with
  | cons hans _ =>
    have heq : bkdrHash (plainName ls) = bkdrHash (plainName rs) := g2.symm.trans hh
    refine ⟨x, hx, c, j, ls, ha, hans, heq, fun hnc => hnc x hx c j ls ha heq, fun hl => ?_⟩
    obtain ⟨k1, k2⟩ := hno hl
    have hid : some id.toNat = some j := by
      unfold lab at g1
      split at g1 <;> simp only [List.cons.injEq, Prod.mk.injEq, and_true, reduceCtorEq] at g1 <;> exact g1.2
    refine ⟨k1.trans hid, ?_⟩
    rcases k2 with rfl | ⟨b, rfl⟩
    · obtain ⟨e1, _⟩ := hans
      dsimp only at e1
      rw [e1]
      exact Or.inl rfl
    · obtain ⟨e1, _⟩ := hans
      dsimp only at e1
      rw [e1]
      exact Or.inr ⟨b, rfl, rfl⟩

/-! ### a case that meets the hypotheses: two questions -/

example : ∃ st1 a st2 a', Start exSt ∧ (∀ x ∈ [(exEnv, both), (exEnv, udpAsk 8 twoQ.bytes)], queryOf x.2 ≠ [] → ∃ c i ls, Poses x.2 c i ls) ∧
    run exSt [(exEnv, both), (exEnv, udpAsk 8 twoQ.bytes)] = some (st1, a) ∧ About twoR ms (List.replicate 200 0) ∧
    step exEnv st1 (.response 0 (twoR.bytes ++ List.replicate 200 0) twoR.bytes.length 50 [] (fun _ => 1001)) = some (st2, a') ∧
    .client (.udp 1 8 false twoR.bytes) ∈ a' := by
  have h : ((run exSt [(exEnv, both), (exEnv, udpAsk 8 twoQ.bytes)]).bind fun r =>
      (step exEnv r.1 (.response 0 (twoR.bytes ++ List.replicate 200 0) twoR.bytes.length 50 [] (fun _ => 1001))).map (·.2)) =
      some [.client (.udp 1 8 false twoR.bytes)] := by decide +kernel
  obtain ⟨r0, h0, h⟩ := Option.bind_eq_some_iff.1 h
  obtain ⟨r3, h3, h⟩ := Option.map_eq_some_iff.1 h
  refine ⟨r0.1, r0.2, r3.1, r3.2, ⟨rfl, rfl, rfl, rfl⟩, ?_, h0, twoR_about, h3, by rw [h]; exact List.mem_singleton.2 rfl⟩
  intro x hx hne
  simp only [List.mem_cons, List.not_mem_nil, or_false] at hx
  rcases hx with rfl | rfl
  · exact absurd rfl hne
  · exact ⟨_, _, _, twoQ_poses 8⟩

end Verif.Forwarder
