import Verif.Lemmas.Forwarder
import Verif.Props.Groups
import Verif.Props.DnsCache
/-! C67: the program as a whole sends replies only to those who asked. -/

namespace Verif.Forwarder
open Msg MContext Pipeline HostsLoop Message Name

variable {Addr : Type}

theorem start_inv {st : St Addr} (h : Start st) : Inv st ∧ owed st = [] := by
  obtain ⟨h1, h2, h3, _⟩ := h
  have hn : waiting (Bst.State.init : Table (Head Addr)) = [] := by simp [waiting, Bst.State.init, Bst.Tree.toList]
  refine ⟨⟨(by rw [h1]; intro d hd; cases hd), (by rw [h3]; intro d hd; cases hd), ?_⟩, ?_⟩
  · rw [h2]; exact ⟨Bst.inv_init, fun p hp => by rw [hn] at hp; cases hp⟩
  · unfold owed; rw [h1, h2, h3, hn]; rfl

/-- The full claim: in every history, each message to a client can be given a query of its own – received before,
from the same client, with the same identifier. -/
def RepliesOwed : Prop := ∀ (st st' : St Nat) (l : List (Env × Ev Nat)) (acts : List (Act Nat)), Start st → run st l = some (st', acts) →
  ∃ own, Matched own (replies acts) ∧ ∀ q, own.count q ≤ (queries l).count q

/-- C67.  For every history of queries, responses of any content, losses, sweeps, reloads, aliases and
configurations: each message to a client can be given a query of its own – from the same client, with the same
identifier, framed as the transport requires – provided that every query is one the header parser accepts.  (As it
holds for every history it holds for each of its beginnings: the query was received before.)

Missing: queries that the header parser does not accept, where it is false (`replies_owed_false`). -/
theorem replies_owed_partial [DecidableEq Addr] (st st' : St Addr) (l : List (Env × Ev Addr)) (acts : List (Act Addr)) (hs : Start st)
    (ha : ∀ e ∈ l, Accepted e.2) (h : run st l = some (st', acts)) :
    ∃ own, Matched own (replies acts) ∧ ∀ q, own.count q ≤ (queries l).count q := by
  obtain ⟨hi, ho⟩ := start_inv hs
  obtain ⟨own, hm, hc⟩ := run_balance l hi ha h
  refine ⟨own, hm, fun q => ?_⟩
  have := hc q
  rw [ho] at this
  simp at this
  omega

theorem matched_length {qs : List (Client Addr × Option Nat)} {ss : List (Sent Addr)} (h : Matched qs ss) : qs.length = ss.length := by
  induction h with
  | nil => rfl
  | cons _ _ ih => simp [ih]

/-- A client never gets more replies than it sent queries. -/
theorem not_more_replies_partial [DecidableEq Addr] (st st' : St Addr) (l : List (Env × Ev Addr)) (acts : List (Act Addr)) (hs : Start st)
    (ha : ∀ e ∈ l, Accepted e.2) (h : run st l = some (st', acts)) (c : Addr) (sock : Nat) :
    ((replies acts).filter (fun s => match s with | .udp k a _ _ => k == sock && a == c | .tcp _ _ => false)).length ≤
      ((queries l).filter (fun q => q.1 == (some c, sock))).length := by
  obtain ⟨own, hm, hc⟩ := replies_owed_partial st st' l acts hs ha h
  have h1 : ((replies acts).filter (fun s => match s with | .udp k a _ _ => k == sock && a == c | .tcp _ _ => false)).length ≤
      (own.filter (fun q => q.1 == (some c, sock))).length := by
    generalize replies acts = r at hm
    induction hm with
    | nil => simp
    | @cons q s qs ss hq _ ih =>
      have ih := ih (fun q => Nat.le_trans (by rw [List.count_cons]; omega) (hc q))
      cases s with
      | tcp k b =>
        have he := hq.1
        simp only [List.filter_cons, he]
        simpa using ih
      | udp k a f b =>
        obtain ⟨he, _⟩ := hq
        simp only [List.filter_cons, he]
        by_cases hk : k = sock <;> by_cases hx : a = c <;> simp_all
  refine Nat.le_trans h1 ?_
  generalize queries l = qs at hc
  clear hm h1
  induction own generalizing qs with
  | nil => simp
  | cons q own ih =>
    have hmem : q ∈ qs := by
      have := hc q
      rw [List.count_cons_self] at this
      exact List.count_pos_iff.1 (by omega)
    have hp := (List.perm_cons_erase hmem)
    have ih := ih (qs.erase q) (fun k => by
      have := hc k
      rw [hp.count_eq k, List.count_cons, List.count_cons] at this
      omega)
    rw [(hp.filter _).length_eq]
    simp only [List.filter_cons]
    split <;> simp <;> omega

/-! ### a concrete run -/

/-- Two groups, a UDP one for `ms.com` and `office.com`, a TCP one for the rest; no hosts data, a
small cache, and queries for type AAAA are refused. -/
def exEnv : Env where
  filter := ⟨Filter.initTypes 0 (some [some 28]), none⟩
  hosts := ⟨none, none, false⟩
  goodIp := fun _ => none
  cacheOn := true
  cache := DnsCache.exS
  groups := (Groups.load Groups.allUp (Groups.two.flatMap Groups.Decl.tokens)).getD ⟨[], StringChunk.init bkdrHash⟩
  opts := ⟨true, false⟩
  fnm := fun p _ => p == str "*"
  ap := false
  lists := none
  blockNegative := false

def noHead : Head Nat := ⟨none, 0, [], 0, 0, false, false, [], []⟩

def exSt : St Nat := ⟨Cache.St.init Cache.smallCfg Cache.blank, [], 0, noHead, noHead, ⟨Bst.State.init, fun _ => none⟩, [], []⟩

def exLuck : Luck := ⟨[], 50, 1000, 0, true, true⟩

def query (a b : UInt8) (ls : List (List Byte)) (t : Nat) : List Byte := (⟨[a, b, 1, 0], [⟨wire ls, t, 1⟩], [], [], []⟩ : Message.Msg).bytes

def reply (a b : UInt8) (ls : List (List Byte)) (t : Nat) (ip : List Byte) : List Byte :=
  (⟨[a, b, 0x81, 0x80], [⟨wire ls, t, 1⟩], [⟨[0xC0, 12], t, 1, 60, ip⟩], [], []⟩ : Message.Msg).bytes

/-- The refusal of a query. -/
def reply0 (a b : UInt8) (ls : List (List Byte)) (t : Nat) : List Byte :=
  (⟨[a, b, 0x81, 0x80], [⟨wire ls, t, 1⟩], [], [], []⟩ : Message.Msg).bytes

def udpAsk (c : Nat) (q : List Byte) : Ev Nat := .udpQuery 1 c [] (q ++ List.replicate 200 0) q.length exLuck
def tcpAsk (sock : Nat) (q : List Byte) : Ev Nat := .tcpQuery sock [] (q ++ List.replicate 200 0) q.length exLuck
def serverSays (i : Nat) (r : List Byte) : Ev Nat := .response i (r ++ List.replicate 200 0) r.length 50 [] (fun _ => 1001)

/-- The same query eleven seconds later. -/
def later : Ev Nat → Ev Nat
  | .udpQuery s a g b n x => .udpQuery s a g b n { x with now := 1011 }
  | ev => ev

/-- The reply with ten seconds less to live. -/
def aged (r : List Byte) : List Byte := r.set (r.length - 7) 50

def both : Ev Nat := .reload [.udp, .tcp] noHead

def ms : List (List Byte) := [str "ms", str "com"]
def org : List (List Byte) := [str "a", str "org"]

/-- What leaves the program in a history that begins with `both`. -/
def acts (l : List (Ev Nat)) : Option (List (Act Nat)) := (run exSt ((both :: l).map fun ev => (exEnv, ev))).map (·.2)

/-- Clients 7 and 8 ask the same over UDP, connection 5 asks the other group; the
answers go to the right ones; a repeated answer goes to nobody. -/
example : acts [udpAsk 7 (query 1 2 ms 1), udpAsk 8 (query 1 3 ms 1), tcpAsk 5 (query 1 2 org 1), .take 1 0 1000 [],
      serverSays 0 (reply 1 3 ms 1 [1, 2, 3, 4]), serverSays 0 (reply 1 3 ms 1 [1, 2, 3, 4]),
      serverSays 0 (reply 1 2 ms 1 [4, 3, 2, 1]), serverSays 1 (reply 1 2 org 1 [9, 9, 9, 9])] =
    some [.server 0 (query 1 2 ms 1), .server 0 (query 1 3 ms 1), .server 1 (be16 (query 1 2 org 1).length ++ query 1 2 org 1),
      .client (.udp 1 8 false (reply 1 3 ms 1 [1, 2, 3, 4])), .client (.udp 1 7 false (reply 1 2 ms 1 [4, 3, 2, 1])),
      .client (.tcp 5 (be16 (reply 1 2 org 1 [9, 9, 9, 9]).length ++ reply 1 2 org 1 [9, 9, 9, 9]))] := by decide +kernel

/-- The second time the cache answers. -/
example : acts [udpAsk 7 (query 1 2 ms 1), serverSays 0 (reply 1 2 ms 1 [1, 2, 3, 4]), later (udpAsk 9 (query 5 5 ms 1))] =
    some [.server 0 (query 1 2 ms 1), .client (.udp 1 7 false (reply 1 2 ms 1 [1, 2, 3, 4])),
      .client (.udp 1 9 false (aged (reply 5 5 ms 1 [1, 2, 3, 4])))] := by decide +kernel

/-- Every well-formed query with one question of class IN whose name has at most 255 characters is accepted,
whatever came before. -/
theorem accepted_wellFormed (m : Message.Msg) (q : Question) (ls : List (List Byte)) (k : Nat) (post : List Byte)
    (hm : m.Valid) (hq : m.qs = [q]) (hk : q.klass = 1) (hd : Denotes (memAt (m.bytes ++ post)) m.bytes.length 12 ls k)
    (ht : (text ls).length < 256) (hz : ∀ c ∈ text ls, c ≠ 0) (sock : Nat) (addr : Addr) (agent : List Byte) (x : Luck) :
    ∃ f0, f0 ≤ x.fuel → Accepted (.udpQuery sock addr agent (m.bytes ++ post) m.bytes.length x) ∧
      Accepted (.tcpQuery (Addr := Addr) sock agent (m.bytes ++ post) m.bytes.length x) := by
  obtain ⟨f1, h1⟩ := fill_exact m q ls k post hm hq hk hd ht hz false (some (Dest.client addr)) sock agent
  obtain ⟨f2, h2⟩ := fill_exact m q ls k post hm hq hk hd ht hz false (none : Option (Dest Addr)) sock agent
  refine ⟨max f1 f2, fun hf => ⟨fun h m c e => ?_, fun h m c e => ?_⟩⟩
  · rw [h1 x.fuel (by omega) h] at e; simp at e; exact e.1.symm
  · rw [h2 x.fuel (by omega) h] at e; simp at e; exact e.1.symm

/-- What client 8's three bytes make client 7 be sent. -/
def second : List Byte := [3, 4, 133, 128] ++ List.replicate 20 0

/-- C67 and C34 are false of the code: client 7 asks for type AAAA and is refused.  Then client 8 sends three bytes,
which are no DNS message – and client 7 gets a second message, with another identifier. -/
theorem replies_owed_false : ¬ RepliesOwed := by
  intro h
  have hr : acts [udpAsk 7 (query 1 2 ms 28), udpAsk 8 [3, 4, 5]] =
      some [.client (.udp 1 7 false (reply0 1 2 ms 28)), .client (.udp 1 7 false second)] := by decide +kernel
  unfold acts at hr
  cases hx : run exSt ((both :: [udpAsk 7 (query 1 2 ms 28), udpAsk 8 [3, 4, 5]]).map fun ev => (exEnv, ev)) with
  | none => rw [hx] at hr; cases hr
  | some r =>
    rw [hx] at hr
    obtain ⟨st', a⟩ := r
    simp only [Option.map_some, Option.some.injEq] at hr
    obtain ⟨own, hm, hc⟩ := h _ _ _ _ ⟨rfl, rfl, rfl, rfl⟩ hx
    subst hr
    have hm : Matched own [.udp 1 7 false (reply0 1 2 ms 28), .udp 1 7 false second] := hm
    cases hm with
    | @cons q s qs ss h1 h2 =>
      cases h2 with
      | @cons q' s' qs' ss' h3 h4 =>
        cases h4
        have e2 : q' = ((some 7, 1), some 772) := Prod.ext h3.1 (h3.2.2 772 (by decide))
        have := hc q'
        rw [e2] at this
        revert this
        rw [show queries ((both :: [udpAsk 7 (query 1 2 ms 28), udpAsk 8 [3, 4, 5]]).map fun ev => (exEnv, ev)) =
          [((some 7, 1), some 258), ((some 8, 1), some 772)] from by decide +kernel]
        simp [List.count_cons]

/-! ### connections -/

/-- The code of a result, not looking at the header. -/
def code {A : Type} : Option ((Int × Ctx A) ⊕ Ctx A) → Option (Option Int)
  | none => none
  | some (.inl r) => some (some r.1)
  | some (.inr _) => some none

theorem fillStep_code {A B : Type} (b : List Byte) (len fuel : Nat) (h : Ctx A) (h' : Ctx B) (it : Parser.Itr) (p : Nat) :
    code (fillStep b len fuel h it p) = code (fillStep b len fuel h' it p) := by
  unfold fillStep
  split
  · split
    · rfl
    · split
      · rfl
      · rfl
      · rfl
      · split
        · rfl
        · split <;> rfl
  · rfl
  · rfl

theorem fillLoop_code' {A B : Type} (b : List Byte) (len : Nat) (c : Parser.Counts) (fuel n : Nat) : ∀ (it : Parser.Itr) (h : Ctx A) (h' : Ctx B),
    code (fillLoop b len c fuel n it h) = code (fillLoop b len c fuel n it h') := by
  induction n with
  | zero => intro it h h'; rfl
  | succ n ih =>
    intro it h h'
    unfold fillLoop
    split
    · rfl
    · rfl
    · rename_i it' p _
      have := fillStep_code b len fuel h h' it' p
      rcases h1 : fillStep b len fuel h it' p with _ | ⟨r⟩ | ⟨r⟩ <;> rcases h2 : fillStep b len fuel h' it' p with _ | ⟨r'⟩ | ⟨r'⟩ <;>
        rw [h1, h2] at this <;> first | exact this | exact ih _ _ _ | (simp [code] at this)

/-- Whether a message is accepted does not depend on what the header held before. -/
theorem fill_code {A B : Type} (h : Ctx A) (h' : Ctx B) (ret : Bool) (b : List Byte) (len : Nat) (back : Option A) (back' : Option B)
    (sock : Nat) (agent : List Byte) (fuel : Nat) :
    (fill h ret b len back sock agent fuel).map (·.1) = (fill h' ret b len back' sock agent fuel).map (·.1) := by
  unfold fill
  dsimp only
  split
  · rfl
  · split
    · rfl
    · rename_i c _
      have := fillLoop_code' b len c fuel (c.all + 1) Parser.Itr.init ({ h with edns := false, entity := b.take h.entity.length } : Ctx A)
        ({ h' with edns := false, entity := b.take h'.entity.length } : Ctx B)
      rcases h1 : fillLoop b len c fuel (c.all + 1) Parser.Itr.init ({ h with edns := false, entity := b.take h.entity.length } : Ctx A) with _ | ⟨r⟩ | ⟨r⟩ <;>
        rcases h2 : fillLoop b len c fuel (c.all + 1) Parser.Itr.init ({ h' with edns := false, entity := b.take h'.entity.length } : Ctx B) with _ | ⟨r'⟩ | ⟨r'⟩ <;>
        rw [h1, h2] at this <;> simp_all [code]

theorem accepted_tcp {sock : Nat} {agent b : List Byte} {len : Nat} {x : Luck} (h : (fill noHead false b len none sock agent x.fuel).map (·.1) = some 0) :
    Accepted (.tcpQuery (Addr := Nat) sock agent b len x) := by
  intro h' m c e
  have := fill_code h' noHead false b len none none sock agent x.fuel
  rw [e, h] at this
  simpa using this

theorem accepted_udp {sock a : Nat} {agent b : List Byte} {len : Nat} {x : Luck} (h : (fill noHead false b len none sock agent x.fuel).map (·.1) = some 0) :
    Accepted (.udpQuery (Addr := Nat) sock a agent b len x) := by
  intro h' m c e
  have := fill_code h' noHead false b len (some (.client a)) none sock agent x.fuel
  rw [e, h] at this
  simpa using this

/-- C68.  What a user of TCP expects: a reply is written to the connection the query came from – when it is written,
there is a query received on this connection, that is since the last time its socket number was given out. -/
def SameConnection : Prop := ∀ (st st' st'' : St Nat) (l : List (Env × Ev Nat)) (e : Env) (ev : Ev Nat) (a a' : List (Act Nat)) (sock : Nat) (bytes : List Byte),
  Start st → (∀ x ∈ l ++ [(e, ev)], Accepted x.2) → run st l = some (st', a) → step e st' ev = some (st'', a') →
  .client (.tcp sock bytes) ∈ a' → ∀ k e0 l', l ++ [(e, ev)] = k ++ (e0, .tcpOpen sock) :: l' →
    ∃ x ∈ l', ∃ agent b len luck, x.2 = .tcpQuery sock agent b len luck

/-- A connection with socket 5 asks and is closed; the next connection gets number 5, and then the answer. -/
theorem same_connection_false : ¬ SameConnection := by
  intro h
  let l : List (Env × Ev Nat) := [both, .tcpOpen 5, tcpAsk 5 (query 1 2 org 1), .take 1 0 1000 [], .tcpOpen 5].map fun ev => (exEnv, ev)
  have hl : (run exSt l).isSome = true := by decide +kernel
  have hr : ((run exSt l).bind fun r => (step exEnv r.1 (serverSays 1 (reply 1 2 org 1 [9, 9, 9, 9]))).map (·.2)) =
      some [.client (.tcp 5 (be16 (reply 1 2 org 1 [9, 9, 9, 9]).length ++ reply 1 2 org 1 [9, 9, 9, 9]))] := by decide +kernel
  cases hx : run exSt l with
  | none => rw [hx] at hl; cases hl
  | some r =>
    obtain ⟨st', a⟩ := r
    rw [hx] at hr
    simp only [Option.bind_some] at hr
    cases hy : step exEnv st' (serverSays 1 (reply 1 2 org 1 [9, 9, 9, 9])) with
    | none => rw [hy] at hr; cases hr
    | some r' =>
      obtain ⟨st'', a'⟩ := r'
      rw [hy] at hr
      simp only [Option.map_some, Option.some.injEq] at hr
      obtain ⟨x, hm, g, b, n, y, e⟩ := h exSt st' st'' l exEnv _ a a' 5 _ ⟨rfl, rfl, rfl, rfl⟩ (by
          intro x hx
          simp only [l, List.map_cons, List.map_nil, List.cons_append, List.nil_append, List.mem_cons, List.not_mem_nil, or_false] at hx
          rcases hx with rfl | rfl | rfl | rfl | rfl | rfl
          · trivial
          · trivial
          · exact accepted_tcp (by decide +kernel)
          · trivial
          · trivial
          · trivial) hx hy (by rw [hr]; exact List.mem_singleton.2 rfl)
        ([both, .tcpOpen 5, tcpAsk 5 (query 1 2 org 1), .take 1 0 1000 []].map fun ev => (exEnv, ev)) exEnv
        [(exEnv, serverSays 1 (reply 1 2 org 1 [9, 9, 9, 9]))] rfl
      rw [List.mem_singleton.1 hm] at e
      cases e

/-- C68, what holds: the socket number is one on which a query was received. -/
theorem same_socket_partial [DecidableEq Addr] (st st' : St Addr) (l : List (Env × Ev Addr)) (a : List (Act Addr)) (sock : Nat) (bytes : List Byte)
    (hs : Start st) (ha : ∀ e ∈ l, Accepted e.2) (h : run st l = some (st', a)) (hm : .client (.tcp sock bytes) ∈ a) :
    ∃ x ∈ l, ∃ agent b len luck, x.2 = .tcpQuery sock agent b len luck := by
  obtain ⟨own, hown, hc⟩ := replies_owed_partial st st' l a hs ha h
  have hr : Sent.tcp sock bytes ∈ replies a := List.mem_filterMap.2 ⟨_, hm, rfl⟩
  have : ∃ q ∈ own, Answers q (Sent.tcp sock bytes) := by
    generalize replies a = r at hown hr
    clear hc
    induction hown with
    | nil => cases hr
    | @cons q s qs ss h1 _ ih =>
      rcases List.mem_cons.1 hr with e | hr
      · exact ⟨q, List.mem_cons_self, e ▸ h1⟩
      · obtain ⟨q', hq, h2⟩ := ih hr
        exact ⟨q', List.mem_cons_of_mem _ hq, h2⟩
  obtain ⟨q, hq, he, _⟩ := this
  have hq' : q ∈ queries l := List.count_pos_iff.1 (Nat.lt_of_lt_of_le (List.count_pos_iff.2 hq) (hc q))
  obtain ⟨x, hx, hq2⟩ := List.mem_flatMap.1 hq'
  refine ⟨x, hx, ?_⟩
  cases hev : x.2 <;> rw [hev] at hq2 <;> simp only [queryOf, List.mem_singleton, List.not_mem_nil] at hq2
  · rw [hq2] at he; cases he
  · rw [hq2] at he
    simp only [Prod.mk.injEq, true_and] at he
    subst he
    exact ⟨_, _, _, _, rfl⟩

end Verif.Forwarder
