import Verif.Props.Whole
import Verif.Props.OwnEdns
/-! C134: large queries are passed on whole or not at all. -/

namespace Verif.Forwarder
open Msg MContext Pipeline HostsLoop Message Name Keeps Received

variable {Addr : Type}

/-- The query of a client as a datagram, in the buffer of the frontend. -/
def asks (sock : Nat) (addr : Addr) (agent datagram rest : List Byte) (lk : Luck) : Ev Addr :=
  .udpQuery sock addr agent (received datagram ++ rest) (received datagram).length lk

/-- C134 for queries of at most 3704 bytes, without active protection (with it see C69): servers that are asked over UDP are sent the whole query and nothing else.
Missing: larger ones (`query_whole_false`). -/
theorem query_whole_partial {e : Env} (he : e.ap = false) {st st' : St Addr} {sock : Nat} {addr : Addr} {agent behind : List Byte} {lk : Luck} {a : List (Act Addr)}
    {q : Message.Msg} {ls : List (List Byte)} (hq : About q ls behind) (hsize : q.bytes.length ≤ 3704)
    (h : step e st (asks sock addr agent q.bytes behind lk) = some (st', a)) (i : Nat) (b : List Byte) (hb : .server i b ∈ a) : b = q.bytes := by
  have hrec : received q.bytes = q.bytes := List.take_of_length_le hsize
  unfold asks at h
  rw [hrec] at h
  exact asked_as_is he hq h i b hb

/-- C134: whatever is sent to a server when a well-formed query comes is this query. -/
def QueryWhole : Prop := ∀ (e : Env) (st st1 st2 : St Nat) (l : List (Env × Ev Nat)) (a a' : List (Act Nat)) (sock addr : Nat) (agent rest : List Byte) (lk : Luck)
  (q : Message.Msg) (ls : List (List Byte)), e.ap = false → Start st → (∀ x ∈ l, Accepted x.2) → run st l = some (st1, a) → About q ls rest →
  step e st1 (asks sock addr agent q.bytes rest lk) = some (st2, a') → ∀ i b, .server i b ∈ a' → b = q.bytes

/-- A query with 3800 bytes of data behind the question. -/
def bigQ : Message.Msg := ⟨[1, 2, 1, 0], [⟨wire ms, 99, 1⟩], [], [], [⟨[0], 99, 1, 0, List.replicate 3800 7⟩]⟩

theorem bigQ_about : About bigQ ms [] where
  valid := plainValid _ _ _ [] _ msName (by decide) (by
        intro r hr
        simp only [List.nil_append, List.mem_singleton] at hr
        subst hr
        exact ⟨.root, by decide, by decide, by decide, by decide, by decide, by decide +kernel⟩)
  class_in := by decide
  names := ⟨[ms], .cons (denotes_wire (by decide) (by unfold At; decide +kernel) (by decide +kernel)) .nil, by decide, rfl⟩

/-- A small one is passed on as it is; its hypothesis is `ednsQ_about`. -/
example : ((run exSt [(exEnv, both)]).bind fun r => (step exEnv r.1 (asks 1 8 [] ednsQ.bytes (List.replicate 200 0) exLuck)).map (·.2)) =
    some [.server 0 ednsQ.bytes] := by decide +kernel

/-- False of the code: the server is sent the first 3704 bytes, which announce a record that is not there. -/
theorem query_whole_false : ¬ QueryWhole := by
  intro hall
  have h : ((run exSt [(exEnv, both)]).bind fun r =>
      (step { exEnv with cacheOn := false } r.1 (asks 1 8 [] bigQ.bytes [] exLuck)).map (·.2)) = some [.server 0 (bigQ.bytes.take 3704)] := by decide +kernel
  obtain ⟨r0, h0, h⟩ := Option.bind_eq_some_iff.1 h
  obtain ⟨r3, h3, h⟩ := Option.map_eq_some_iff.1 h
  have := hall { exEnv with cacheOn := false } exSt r0.1 r3.1 [(exEnv, both)] r0.2 r3.2 1 8 [] [] exLuck bigQ ms rfl ⟨rfl, rfl, rfl, rfl⟩
    (by intro y hy; rw [List.mem_singleton] at hy; subst hy; trivial) h0 bigQ_about h3 0 _ (by rw [h]; exact List.mem_singleton.2 rfl)
  have := congrArg List.length this
  revert this
  decide +kernel

end Verif.Forwarder
