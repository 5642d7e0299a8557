import Verif.Lemmas.ThreadsSeq
import Verif.Props.Forwarder
/-! C112: the replies are owed also when the threads work at the same time. -/

namespace Verif.Threads
open Msg MContext Pipeline HostsLoop Forwarder

variable {Addr : Type}

/-- Every history of messages that are processed one after the other (`Verif.Forwarder`) is one the threads can have: all theorems about what all
threads do hold of it. -/
theorem one_after_the_other (l : List (Env × Forwarder.Ev Addr)) : ∀ (st st' : St Addr) (acts : List (Act Addr)), Forwarder.run st l = some (st', acts) →
    ∃ k, asked k = queries l ∧ (∀ e q, (e, Ev.begin q) ∈ k → (e, q) ∈ l) ∧ run ⟨st, []⟩ k = some (⟨st', []⟩, acts) := by
  induction l with
  | nil =>
    intro st st' acts h
    simp only [Forwarder.run, Option.some.injEq, Prod.mk.injEq] at h
    obtain ⟨rfl, rfl⟩ := h
    exact ⟨[], rfl, (fun e q h => by cases h), rfl⟩
  | cons x l ih =>
    intro st st' acts h
    obtain ⟨e, ev⟩ := x
    unfold Forwarder.run at h
    split at h
    · cases h
    · rename_i st1 a1 hs
      split at h
      · cases h
      · rename_i st2 a2 hr
        simp only [Option.some.injEq, Prod.mk.injEq] at h
        obtain ⟨rfl, rfl⟩ := h
        obtain ⟨k1, e1, q1, b1, r1⟩ := step_goes hs
        obtain ⟨k2, q2, b2, r2⟩ := ih _ _ _ hr
        refine ⟨k1 ++ k2, ?_, fun e' q hq => ?_, run_append _ r1 r2⟩
        · simp only [asked, List.flatMap_append] at q1 q2 ⊢
          rw [q1, q2]; rfl
        · rcases List.mem_append.1 hq with hq | hq
          · have h1 : e' = e := e1 _ hq
            have h2 := b1 q (List.mem_map.2 ⟨_, hq, rfl⟩)
            rw [h1, h2]; exact List.mem_cons_self
          · exact List.mem_cons_of_mem _ (b2 _ _ hq)

theorem run_balance [DecidableEq Addr] (l : List (Env × Ev Addr)) : ∀ {s s' : Sys Addr} {acts : List (Act Addr)} {L : List ((Thread × Task Addr) × List (Lab Addr))},
    Owes s L → AllAccepted l → run s l = some (s', acts) →
    ∃ own, Matched own (replies acts) ∧ ∀ k, own.count k ≤ (owed s.st).count k + (total L).count k + (asked l).count k := by
  induction l with
  | nil =>
    intro s s' acts L _ _ h
    simp only [run, Option.some.injEq, Prod.mk.injEq] at h
    obtain ⟨rfl, rfl⟩ := h
    exact ⟨[], .nil, fun k => by simp⟩
  | cons x l ih =>
    intro s s' acts L hi ha h
    obtain ⟨e, ev⟩ := x
    unfold run at h
    split at h
    · cases h
    · rename_i s1 a1 hs
      split at h
      · cases h
      · rename_i s2 a2 hr
        simp only [Option.some.injEq, Prod.mk.injEq] at h
        obtain ⟨rfl, rfl⟩ := h
        obtain ⟨own1, L1, i1, m1, c1⟩ := step_balance hi (ha (e, ev) (by simp)) hs
        obtain ⟨own2, m2, c2⟩ := ih i1 (fun y hy => ha y (by simp [hy])) hr
        refine ⟨own1 ++ own2, by rw [replies_append]; exact matched_append m1 m2, fun k => ?_⟩
        have h1 := c1 k
        have h2 := c2 k
        cases ev <;> simp only [asked, List.flatMap_cons, List.count_append] at * <;> omega

/-- The full claim. -/
def RepliesOwed : Prop := ∀ (s s' : Sys Nat) (l : List (Env × Ev Nat)) (acts : List (Act Nat)), Fresh s → run s l = some (s', acts) →
  ∃ own, Matched own (replies acts) ∧ ∀ q, own.count q ≤ (asked l).count q

/-- C112 is false of the code for the reason C67 is: a query that is not accepted. -/
theorem replies_owed_false : ¬ RepliesOwed := by
  intro h
  refine Forwarder.replies_owed_false fun st st' l acts hs hr => ?_
  obtain ⟨k, hk, _, hr⟩ := one_after_the_other l st st' acts hr
  rw [← hk]
  exact h _ _ _ _ ⟨hs, rfl⟩ hr

/-- C112.  For every history of the steps of all threads – messages may pass each other between any two accesses to what is shared, the configuration may be exchanged
at any time – each message to a client can be given a query of its own: from the same client, with the same identifier, framed as the transport requires; provided
that every query is one the header parser accepts.  (As it holds for every history it holds for each of its beginnings: the query was received before.)

Missing: queries that the header parser does not accept, where it is false (`replies_owed_false`). -/
theorem replies_owed_partial [DecidableEq Addr] (s s' : Sys Addr) (l : List (Env × Ev Addr)) (acts : List (Act Addr)) (hs : Fresh s)
    (ha : AllAccepted l) (h : run s l = some (s', acts)) : ∃ own, Matched own (replies acts) ∧ ∀ q, own.count q ≤ (asked l).count q := by
  obtain ⟨hi, ho⟩ := start_inv hs.1
  obtain ⟨own, hm, hc⟩ := run_balance l (L := []) ⟨hi, hs.2.symm, fun p hp => by cases hp⟩ ha h
  refine ⟨own, hm, fun q => ?_⟩
  have := hc q
  rw [ho] at this
  simpa [total] using this

/-! ### a concrete run -/

def goes (k n : Nat) : List (Ev Nat) := List.replicate n (.go k)

def exActs (l : List (Ev Nat)) : Option (List (Act Nat)) := (run ⟨exSt, []⟩ ((.begin both :: l).map fun ev => (exEnv, ev))).map (·.2)

/-- Client 7 asks, and its query goes to the server.  Connection 5 asks the same and does not find it in the cache.  Then the answer comes, is put into the
cache and – client 8's query being processed meanwhile, which finds it there – sent to client 7.  Connection 5's query is only now given to the group: it is
answered later (by the other group, which is asked over TCP). -/
def mixed : List (Ev Nat) :=
  [.begin (udpAsk 7 (query 1 2 ms 1))] ++ goes 0 6 ++ [.begin (tcpAsk 5 (query 4 4 ms 1))] ++ goes 0 3 ++
  [.begin (serverSays 0 (reply 1 2 ms 1 [1, 2, 3, 4]))] ++ goes 1 2 ++ [.begin (later (udpAsk 8 (query 1 3 ms 1)))] ++ goes 2 4 ++ goes 1 1 ++ goes 0 2 ++
  [.begin (.take 1 0 1000 []), .begin (serverSays 1 (reply 4 4 ms 1 [4, 3, 2, 1]))] ++ goes 0 3

example : exActs mixed =
    some [.server 0 (query 1 2 ms 1), .client (.udp 1 8 false (aged (reply 1 3 ms 1 [1, 2, 3, 4]))), .client (.udp 1 7 false (reply 1 2 ms 1 [1, 2, 3, 4])),
      .server 1 (be16 (query 4 4 ms 1).length ++ query 4 4 ms 1), .client (.tcp 5 (be16 (reply 4 4 ms 1 [4, 3, 2, 1]).length ++ reply 4 4 ms 1 [4, 3, 2, 1]))] := by decide +kernel

example : AllAccepted (mixed.map fun ev => (exEnv, ev)) := by
  intro x hx q hq
  obtain ⟨ev, hev, rfl⟩ := List.mem_map.1 hx
  dsimp only at hq
  subst hq
  simp only [mixed, goes, List.mem_append, List.mem_cons, List.not_mem_nil, List.mem_replicate, reduceCtorEq, and_false, or_false, Ev.begin.injEq] at hev
  rcases hev with ((((rfl | rfl) | rfl) | rfl) | rfl | rfl)
  · exact accepted_udp (by decide +kernel)
  · exact accepted_tcp (by decide +kernel)
  · trivial
  · exact accepted_udp (by decide +kernel)
  · trivial
  · trivial

end Verif.Threads
