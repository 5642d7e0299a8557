import Verif.Model.Threads
import Verif.Props.Progress
/-! Well-formed traffic, for many threads. -/

namespace Verif.Threads
open Msg MContext Pipeline HostsLoop HostsLoop.Spec Forwarder Keeps Message Name DnsCache DnsCache.Spec Cache.Spec Hosts

variable {Addr : Type}

/-- What a step of a thread needs beyond a well-formed message: when it asks the cache, what the cache then holds for the first name fits behind the query; when it chooses a group,
the groups of the configuration run. -/
def Needs (s : Settings) (e : Env) (st : St Addr) : Task Addr → Prop
  | .fetch b m x => ∀ (q : Message.Msg) (y : Question) (ls : List (List Byte)) (post : List Byte), AsksAll q y ls → b = q.bytes ++ post → m.entity = q.bytes → q.an = [] → Cached y.type →
      Fits s.cfg st.cache x.now ls y.type q.bytes.length post.length
  | .route _ _ _ => st.base + e.groups.modules.length ≤ st.mods.length
  | _ => True

/-- The thread waits for a message. -/
def Idle (s : Sys Addr) (t : Thread) : Prop := ∀ p ∈ s.tasks, p.1 ≠ t

/-- A well-formed query with any number of questions of class IN for names as RFC 1035 limits them, in a buffer with room behind it; with the option that asks for EDNS
records on, the query has one or has no additional records. -/
def Query (e : Env) (b : List Byte) (len : Nat) (x : Luck) : Prop :=
  ∃ (q : Message.Msg) (y : Question) (ls : List (List Byte)) (post : List Byte), AsksAll q y ls ∧ b = q.bytes ++ post ∧ len = q.bytes.length ∧ len ≤ x.fuel ∧
    len + 279 ≤ post.length ∧ post.length < 16384 ∧ (e.ap = true → HasEdns q ∨ q.ar = [])

/-- A thread that is idle begins with a message that is well-formed, or something else happens that can happen. -/
def ProperBegin (set : Settings) (e : Env) (s : Sys Addr) : Forwarder.Ev Addr → Prop
  | .udpQuery _ _ _ b len x => Idle s .udp ∧ Query e b len x
  | .tcpQuery _ _ b len x => Idle s .tcp ∧ Query e b len x
  | .response i b len fuel _ _ => Idle s (.group i) ∧ i < s.st.mods.length ∧ ProperResponse e b len fuel
  | .innerTake k cap _ _ _ x => Idle s .alias ∧ k < s.st.inner.length ∧ 900 ≤ cap ∧ cap < 16384 ∧ 300 ≤ x.fuel
  | .outerTake k cap rest header fuel => Idle s .alias ∧ Proper set e s.st (.outerTake k cap rest header fuel)
  | .loopSweep now => Idle s .alias ∧ Proper set e s.st (.loopSweep now)
  | .take i k now rest => Idle s (.group i) ∧ Proper set e s.st (.take i k now rest)
  | ev => Proper set e s.st ev

/-- The event can happen, and the message that comes in with it is well-formed. -/
def ProperEv (set : Settings) (e : Env) (s : Sys Addr) : Ev Addr → Prop
  | .begin ev => ProperBegin set e s ev
  | .go k => ∃ t task, s.tasks[k]? = some (t, task) ∧ Needs set e s.st task

/-- A history of such events: any thread may make its next step at any time, the configuration may be exchanged at any time (but not whether EDNS records are asked for). -/
def ProperRun (set : Settings) (ap : Bool) : Sys Addr → List (Env × Ev Addr) → Prop
  | _, [] => True
  | s, (e, ev) :: l => SoundEnv set e ∧ e.ap = ap ∧ ProperEv set e s ev ∧ ∀ s' acts, step e s ev = some (s', acts) → ProperRun set ap s' l

end Verif.Threads
