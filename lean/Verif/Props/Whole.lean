import Verif.Model.Received
import Verif.Props.AnsweredAll
/-! C130: large responses are passed on whole or not at all. -/

namespace Verif.Forwarder
open Msg MContext Pipeline HostsLoop Message Name Keeps Received

variable {Addr : Type}

/-- The response of a server as a datagram, in the buffer of the worker. -/
def comes (j : Nat) (datagram rest : List Byte) (fuel : Nat) (bn : List Byte) (clock : Nat → Int) : Ev Addr :=
  .response j (received datagram ++ rest) (received datagram).length fuel bn clock

/-- What is sent is this message. -/
def IsWhole (m : List Byte) : Sent Addr → Prop
  | .udp _ _ _ b => b = m
  | .tcp _ b => b = be16 m.length ++ m

/-- C130: a response of at most 3704 bytes is passed on whole, with the configured replacements of addresses, to the client that waits for it.  Hypotheses as in
`answered_all_partial`.  Missing: larger ones (`whole_false`). -/
theorem whole_partial [DecidableEq Addr] (st st0 st1 st2 st3 st4 : St Addr) (l0 l1 l2 : List (Env × Ev Addr)) (a0 a1 a2 a3 a4 : List (Act Addr))
    (e2 e4 : Env) (ev : Ev Addr) (c : Client Addr) (i j fuel : Nat) (ls rs : List (List Byte)) (r r' : Message.Msg) (tail bn : List Byte)
    (clock : Nat → Int) (hst : Start st) (h0 : run st l0 = some (st0, a0)) (hacc : ∀ x ∈ l0, Accepted x.2) (hfree : Free j i st0)
    (h1 : run st0 l1 = some (st1, a1)) (hf1 : ∀ x ∈ l1, FairAll c i (plainName ls) x.2)
    (h2 : step e2 st1 ev = some (st2, a2)) (hf2 : FairAll c i (plainName ls) ev) (hleaves : Leaves j i ev a2)
    (h3 : run st2 l2 = some (st3, a3)) (hf3 : ∀ x ∈ l2, FairAll c i (plainName ls) x.2) (hpat : ∀ x ∈ l2, Patient j i (clockOf ev) x.2)
    (hr : About r rs tail) (hsize : r.bytes.length ≤ 3704) (hid : idOf r.bytes = some i) (hname : plainName rs = plainName ls) (hl : Passes e4 r r')
    (hap : e4.ap = false ∨ HasEdns r) (h4 : step e4 st3 (comes j r.bytes tail fuel bn clock) = some (st4, a4)) :
    ∃ s, a4 = [.client s] ∧ IsWhole r'.bytes s := by
  have hrec : received r.bytes = r.bytes := List.take_of_length_le hsize
  unfold comes at h4
  rw [hrec] at h4
  refine ⟨_, answered_all_partial st st0 st1 st2 st3 st4 l0 l1 l2 a0 a1 a2 a3 a4 e2 e4 ev c i j fuel ls rs r r' tail bn clock hst h0 hacc hfree h1 hf1 h2 hf2 hleaves h3
    hf3 hpat hr hid hname hl hap h4, ?_⟩
  obtain ⟨c1, c2⟩ := c
  cases c1 <;> rfl

/-- Whatever is sent to a client when a well-formed response comes is this response (if no addresses are replaced). -/
def Whole : Prop := ∀ (st st1 st2 : St Nat) (l : List (Env × Ev Nat)) (a a' : List (Act Nat)) (e : Env) (j fuel : Nat) (bn rest : List Byte) (clock : Nat → Int)
  (r : Message.Msg) (rs : List (List Byte)), Start st → (∀ x ∈ l, Accepted x.2) → run st l = some (st1, a) → About r rs rest → e.lists = none →
  step e st1 (comes j r.bytes rest fuel bn clock) = some (st2, a') → ∀ s, .client s ∈ a' → IsWhole r.bytes s

/-- A response with 3800 bytes of data. -/
def bigR : Message.Msg := ⟨[1, 2, 0x81, 0x80], [⟨wire ms, 99, 1⟩], [⟨[0xC0, 12], 99, 1, 60, List.replicate 3800 7⟩], [], []⟩

theorem big_about : About bigR ms [] where
  valid := plainValid _ _ _ _ [] msName (by decide) (by
        intro r hr
        simp only [List.append_nil, List.mem_singleton] at hr
        subst hr
        exact ⟨.pointer _ _ (by decide), by decide, by decide, by decide, by decide, by decide, by decide +kernel⟩)
  class_in := by decide
  names := ⟨[ms], .cons (denotes_wire (by decide) (by unfold At; decide +kernel) (by decide +kernel)) .nil, by decide, rfl⟩

/-- False of the code: a client that asked is given the first 3704 bytes of a larger response, with no sign that something is missing. -/
theorem whole_false : ¬ Whole := by
  intro hall
  have h : ((run exSt [(exEnv, both), (exEnv, udpAsk 8 (query 1 2 ms 99))]).bind fun r =>
      (step exEnv r.1 (comes 0 bigR.bytes [] 50 [] (fun _ => 1001))).map (·.2)) = some [.client (.udp 1 8 false (bigR.bytes.take 3704))] := by decide +kernel
  obtain ⟨r0, h0, h⟩ := Option.bind_eq_some_iff.1 h
  obtain ⟨r3, h3, h⟩ := Option.map_eq_some_iff.1 h
  have := hall exSt r0.1 r3.1 _ r0.2 r3.2 exEnv 0 50 [] [] (fun _ => 1001) bigR ms ⟨rfl, rfl, rfl, rfl⟩ (by
    intro x hx
    simp only [List.mem_cons, List.not_mem_nil, or_false] at hx
    rcases hx with rfl | rfl
    · trivial
    · have hq : About (⟨[1, 2, 1, 0], [⟨wire ms, 99, 1⟩], [], [], []⟩ : Message.Msg) ms (List.replicate 200 0) :=
        { valid := plainValid _ _ _ _ [] msName (by decide) (by simp)
          class_in := by decide
          names := ⟨[ms], .cons (denotes_wire (by decide) (by unfold At; decide +kernel) (by decide +kernel)) .nil, by decide, rfl⟩ }
      exact fun h m c e => fill_about_zero hq e) h0 big_about rfl h3 _ (by rw [h]; exact List.mem_singleton.2 rfl)
  have := congrArg List.length (show bigR.bytes.take 3704 = bigR.bytes from this)
  revert this
  decide +kernel

end Verif.Forwarder
