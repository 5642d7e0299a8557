import Verif.Props.AnsweredAll
import Verif.Props.HostsFate
import Verif.Props.Alias
import Verif.Props.DnsCache
/-! C133: only clients that use EDNS are answered with it. -/

namespace Verif.Forwarder
open Msg MContext Pipeline HostsLoop Message Name Keeps

variable {Addr : Type}

/-- The message in what is sent: over TCP behind its length. -/
def said : Sent Addr → List Byte
  | .udp _ _ _ b => b
  | .tcp _ b => b.drop 2

theorem said_sendBack (m : Ctx (Dest Addr)) (s : Sent Addr) (h : .client s ∈ (post m' (sendBack m)).1) : said s = m.entity := by
  unfold sendBack at h
  split at h
  · simp only [post, List.mem_singleton, Act.client.injEq] at h
    subst h
    simp [said, be16]
  · rename_i d _
    cases d with
    | client a =>
      simp only [post, List.mem_singleton, Act.client.injEq] at h
      subst h
      rfl
    | loop p t => simp [post] at h

/-- A refusal is the query with other flags. -/
theorem refuse_bytes {q : Message.Msg} (hq : q.Valid) : ∃ h, h.length = 4 ∧ refuse q.bytes = ({ q with head := h } : Message.Msg).bytes := by
  obtain ⟨a, b, c, d, he⟩ : ∃ a b c d, q.head = [a, b, c, d] := by
    have h4 := hq.head
    match h : q.head, h4 with
    | [a, b, c, d], _ => exact ⟨a, b, c, d, rfl⟩
  refine ⟨[a, b, setQR c, setRAclearRcode d], rfl, ?_⟩
  simp only [refuse, Message.Msg.bytes, Message.Msg.header, he]
  rfl

theorem opt_iff (b : Bool) (r : Message.Msg) (h : r.ar = if b then [⟨[0], 41, 1280, 0, []⟩] else []) : HasEdns r ↔ b = true := by
  unfold HasEdns
  rw [h]
  cases b <;> simp

theorem edns_iff (q : Message.Msg) : q.ar.any (fun x => x.type == 41) = true ↔ HasEdns q := by
  unfold HasEdns
  simp

/-- C133, replies that are not from servers: a refusal, an entry of the hosts data and a reply from the cache are well-formed messages that have an EDNS record exactly if the
query has one.  For queries of one question, any hosts data and every history of the cache; records from the cache must fit behind the query, and the type asked for be
A, AAAA, MX, TXT or HTTPS. -/
theorem local_edns_partial {e : Env} {st st' : St Addr} {sock : Nat} {addr : Addr} {agent behind : List Byte} {lk : Luck} {a : List (Act Addr)} {q : Message.Msg}
    {x : Question} {ls : List (List Byte)} {es ed : List Hosts.Entry} {evs : List DnsCache.Event} {ops : List Cache.Op}
    (hq : Answer q ls behind) (hx : q.qs = [x]) (hname : x.name = wire ls) (hls : DnsCache.Spec.RfcName ls) (han : q.an = []) (hcap : behind.length < 16384)
    (ht : x.type = 1 ∨ x.type = 15 ∨ x.type = 16 ∨ x.type = 28 ∨ x.type = 65)
    (hs : Hosts.LoadedOpt e.hosts.static es) (hd : Hosts.LoadedOpt e.hosts.dynamic ed) (hg : ∀ t b, e.goodIp t = some b → b.length = 4)
    (har : Cache.Spec.Area e.cache.cfg) (hev : ∀ y ∈ evs, y.WellFormed) (hh : DnsCache.history e.cache evs = some ops) (haf : Cache.After e.cache.cfg ops st.cache)
    (hroom : ∀ fs, DnsCache.Spec.Answers x.type ls fs → (∀ f ∈ fs, DnsCache.Said e.cache evs lk.now f) → q.bytes.length + DnsCache.need fs ≤ behind.length)
    (h : step e st (.udpQuery sock addr agent (q.bytes ++ behind) q.bytes.length lk) = some (st', a)) (s : Sent Addr) (hsent : .client s ∈ a) :
    ∃ r : Message.Msg, r.Valid ∧ said s = r.bytes ∧ (HasEdns r ↔ HasEdns q) := by
  simp only [step] at h
  split at h
  · cases h
  · rename_i c m hf
    obtain ⟨_, f1, f2, f3, f4, f5, f6, f7, f8⟩ := fill_full hq hx hf
    split at h
    · cases h
    · rename_i hm
      cases h
      unfold mgrSend at hm
      cases ho : Pipeline.decide e st.cache lk ((q.bytes ++ behind).drop m.entity.length) (requestTcp m) m with
      | none => rw [ho] at hm; cases hm
      | some o =>
        rw [ho] at hm
        have hb : (q.bytes ++ behind).drop m.entity.length = behind := by rw [f8]; exact List.drop_left
        rw [hb] at ho
        have hrefused : ∀ s : Sent Addr, .client s ∈ (post m (sendBackRefused m)).1 → ∃ r : Message.Msg, r.Valid ∧ said s = r.bytes ∧ (HasEdns r ↔ HasEdns q) := by
          intro s hs
          unfold sendBackRefused at hs
          rw [said_sendBack _ s hs]
          obtain ⟨hd', h4, hr⟩ := refuse_bytes hq.valid
          refine ⟨{ q with head := hd' }, ?_, by rw [← hr]; exact congrArg refuse f8, Iff.rfl⟩
          obtain ⟨_, v2, v3, v4, v5, v6, v7, v8, v9⟩ := hq.valid
          exact ⟨h4, v2, v3, v4, v5, v6, v7, v8, v9⟩
        unfold Pipeline.decide Filter.filterOut at ho
        split at ho
        · rename_i h1
          split at h1
          · cases h1; cases ho; cases hm
            simp only [posts, List.flatMap_cons, List.flatMap_nil, List.append_nil] at hsent
            exact hrefused s hsent
          · cases h1
        · obtain ⟨f, hf'⟩ := Hosts.all_decided hs hd e.fnm e.goodIp hg m.domain m.type m.edns q behind.length
          have hap := Hosts.hosts_decide hs hd e.fnm e.goodIp behind m q x [] ls f8 hq.valid hx hname (fun l hl => ⟨(hls.1 l hl).1, (hls.1 l hl).2.1⟩) hcap lk.handOk f hf'
          generalize hgot : Hosts.hostsGet e.fnm e.goodIp e.hosts behind lk.handOk m = got at ho hap
          split at ho
          · cases ho
          · rename_i code out
            split at ho
            · rename_i hz
              subst hz
              cases ho; cases hm
              cases f with
              | refused =>
                simp only [Hosts.Happens, Option.some.injEq, Prod.mk.injEq, true_and] at hap
                subst hap
                simp only [repliesOf, List.filterMap_cons, List.filterMap_nil, posts, List.flatMap_cons, List.flatMap_nil, List.append_nil] at hsent
                exact hrefused s hsent
              | passes => simp [Hosts.Happens] at hap
              | redirected =>
                simp only [Hosts.Happens] at hap
                split at hap
                · simp only [Option.some.injEq, Prod.mk.injEq, true_and] at hap
                  subst hap
                  simp [repliesOf, posts] at hsent
                · simp at hap
              | replies rd =>
                obtain ⟨r, r1, r2, r3⟩ := hap
                simp only [Option.some.injEq, Prod.mk.injEq, true_and] at r3
                subst r3
                simp only [repliesOf, List.filterMap_cons, List.filterMap_nil, posts, List.flatMap_cons, List.flatMap_nil, List.append_nil] at hsent
                refine ⟨r, r2, said_sendBack _ s hsent, ?_⟩
                rw [opt_iff _ r r1.ar, f7, edns_iff]
              | undefined => cases hap
            · split at ho
              · cases ho
              · rename_i hcode _ code' out' hc
                split at ho
                · rename_i hz
                  subst hz
                  cases ho; cases hm
                  split at hc
                  · obtain ⟨qn, hqn, hk⟩ := hq.one
                    have hqx : qn = x := by rw [hx] at hqn; simpa using hqn.symm
                    subst hqx
                    rcases DnsCache.cache_reply_partial har hev hh haf hq.valid hx hk hname hls han ht f8 hcap hc with h1 | ⟨fs, r, _, _, _, r1, r2⟩ | ⟨fs, r1, r2, r3⟩
                    · exact absurd rfl h1.1
                    · subst r2
                      simp only [posts, List.flatMap_cons, List.flatMap_nil, List.append_nil] at hsent
                      refine ⟨r, r1.valid, said_sendBack _ s hsent, ?_⟩
                      rw [opt_iff _ r r1.ar, f7, edns_iff]
                    · exact absurd (hroom fs r1 r2) (by omega)
                  · cases hc
                · split at ho
                  · cases ho
                    simp only at hm
                    split at hm
                    · cases hm
                    · split at hm
                      · split at hm
                        · cases hm
                        · cases hm; split at hsent <;> simp at hsent
                      · cases hm; cases hsent
                  · cases ho; cases hm; cases hsent

/-- The refusal of a query for type AAAA. -/
example : ∃ st' s, step exEnv exSt (udpAsk 8 (query 1 2 ms 28)) = some (st', [.client s]) ∧
    ∃ r : Message.Msg, r.Valid ∧ said s = r.bytes ∧ (HasEdns r ↔ HasEdns (⟨[1, 2, 1, 0], [⟨wire ms, 28, 1⟩], [], [], []⟩ : Message.Msg)) := by
  have h : (step exEnv exSt (udpAsk 8 (query 1 2 ms 28))).map (·.2) = some [.client (.udp 1 8 false (reply0 1 2 ms 28))] := by decide +kernel
  obtain ⟨r, h, h'⟩ := Option.map_eq_some_iff.1 h
  refine ⟨r.1, _, by rw [h, ← h'], ?_⟩
  refine local_edns_partial (e := exEnv) (q := ⟨[1, 2, 1, 0], [⟨wire ms, 28, 1⟩], [], [], []⟩) (x := ⟨wire ms, 28, 1⟩) (ls := ms) (es := []) (ed := []) (evs := []) (ops := [])
    (behind := List.replicate 200 0)
    ⟨plainValid _ _ _ _ [] msName (by decide) (by simp), ⟨_, rfl, rfl⟩, ⟨_, denotes_wire (by decide) (by unfold At; decide +kernel) (by decide +kernel)⟩, by decide, by decide⟩
    rfl rfl (DnsCache.rfc_of (by decide +kernel) (by decide)) rfl (by decide +kernel) (by decide) rfl rfl (by intro t b h; cases h) ⟨by decide, by decide⟩ (by simp) rfl
    ⟨Cache.blank, rfl⟩ ?_ h _ (by rw [h']; exact List.mem_singleton.2 rfl)
  intro fs _ hfs
  cases fs with
  | nil => decide +kernel
  | cons f fs =>
    have := hfs f (List.mem_cons_self ..)
    simp [DnsCache.Said] at this

/-- C133, without active protection: servers that are asked over UDP are sent the client's query as it is, so that they know whether the client uses EDNS. -/
theorem asked_as_is {e : Env} (he : e.ap = false) {st st' : St Addr} {sock : Nat} {addr : Addr} {agent behind : List Byte} {lk : Luck} {a : List (Act Addr)}
    {q : Message.Msg} {ls : List (List Byte)} (hq : About q ls behind)
    (h : step e st (.udpQuery sock addr agent (q.bytes ++ behind) q.bytes.length lk) = some (st', a)) (i : Nat) (b : List Byte) (hb : .server i b ∈ a) : b = q.bytes := by
  have hpost : ∀ (m : Head Addr) (l : List (Sent (Dest Addr))), ¬ .server i b ∈ (posts m l).1 := by
    intro m l hx
    obtain ⟨s, _, hs⟩ := List.mem_flatMap.1 hx
    unfold post at hs
    split at hs <;> simp at hs
  simp only [step] at h
  split at h
  · cases h
  · rename_i c m hf
    split at h
    · cases h
    · rename_i hm
      cases h
      unfold mgrSend at hm
      split at hm
      · cases hm
      · cases hm; exact absurd hb (hpost _ _)
      · cases hm; exact absurd hb (hpost _ _)
      · cases hm; exact absurd hb (hpost _ _)
      · cases hm; cases hb
      · split at hm
        · cases hm
        · split at hm
          · split at hm
            · cases hm
            · rename_i hu
              unfold udpSend addFakeEdns at hu
              rw [if_pos (Or.inl he)] at hu
              cases hu
              cases hm
              split at hb
              · simp only [List.mem_singleton, Act.server.injEq] at hb
                rw [hb.2, (fill_about hq hf).2.2.2.1]
              · cases hb
          · cases hm; cases hb

/-- C133: if a server answers with EDNS only if it is asked with EDNS, what it says reaches a client with an EDNS record only if the client's query has one. -/
def OwnEdns : Prop := ∀ (e : Env) (st0 st st1 st2 : St Nat) (l : List (Env × Ev Nat)) (a0 a1 a2 : List (Act Nat)) (q q' r : Message.Msg) (ls rs : List (List Byte))
  (sock c i fuel : Nat) (agent behind rest bn : List Byte) (lk : Luck) (clock : Nat → Int), Start st0 → (∀ y ∈ l, Accepted y.2) → run st0 l = some (st, a0) →
  About q ls behind → step e st (.udpQuery sock c agent (q.bytes ++ behind) q.bytes.length lk) = some (st1, a1) → .server i q'.bytes ∈ a1 → q'.Valid →
  About r rs rest → (HasEdns r → HasEdns q') → step e st1 (.response i (r.bytes ++ rest) r.bytes.length fuel bn clock) = some (st2, a2) →
  .client (.udp sock c false r.bytes) ∈ a2 → HasEdns r → HasEdns q

def ednsQ : Message.Msg := ⟨[1, 2, 1, 0], [⟨wire ms, 99, 1⟩], [], [], []⟩
def ednsAsked : Message.Msg := ⟨[1, 2, 1, 0], [⟨wire ms, 99, 1⟩], [], [], [⟨[0], 41, 1280, 0, []⟩]⟩
def ednsR : Message.Msg := ⟨[1, 2, 0x81, 0x80], [⟨wire ms, 99, 1⟩], [⟨[0xC0, 12], 99, 1, 60, [1, 2, 3]⟩], [], [⟨[0], 41, 1280, 0, []⟩]⟩

theorem optValid : (⟨[0], 41, 1280, 0, []⟩ : RR).Valid := ⟨.root, by decide, by decide, by decide, by decide, by decide, by decide⟩

theorem ednsQ_about : About ednsQ ms (List.replicate 200 0) where
  valid := plainValid _ _ _ _ [] msName (by decide) (by simp)
  class_in := by decide
  names := ⟨[ms], .cons (denotes_wire (by decide) (by unfold At; decide +kernel) (by decide +kernel)) .nil, by decide, rfl⟩

theorem ednsR_about : About ednsR ms (List.replicate 200 0) where
  valid := plainValid _ _ _ _ _ msName (by decide) (by
    intro r hr
    simp only [List.cons_append, List.nil_append, List.mem_cons, List.not_mem_nil, or_false] at hr
    rcases hr with rfl | rfl
    · exact ⟨.pointer _ _ (by decide), by decide, by decide, by decide, by decide, by decide, by decide⟩
    · exact optValid)
  class_in := by decide
  names := ⟨[ms], .cons (denotes_wire (by decide) (by unfold At; decide +kernel) (by decide +kernel)) .nil, by decide, rfl⟩

/-- C133 is false of the code with active protection: it asks with EDNS for every client and hands the answers on as they are. -/
theorem own_edns_false : ¬ OwnEdns := by
  intro hall
  have h : ((run exSt [(exEnv, both)]).bind fun r => (step { exEnv with ap := true } r.1 (udpAsk 8 ednsQ.bytes)).bind fun r1 =>
      (step { exEnv with ap := true } r1.1 (serverSays 0 ednsR.bytes)).map fun r2 => (r1.2, r2.2)) =
      some ([.server 0 ednsAsked.bytes], [.client (.udp 1 8 false ednsR.bytes)]) := by decide +kernel
  obtain ⟨r, h0, h⟩ := Option.bind_eq_some_iff.1 h
  obtain ⟨r1, h1, h⟩ := Option.bind_eq_some_iff.1 h
  obtain ⟨r2, h2, h⟩ := Option.map_eq_some_iff.1 h
  simp only [Prod.mk.injEq] at h
  have := hall { exEnv with ap := true } exSt r.1 r1.1 r2.1 [(exEnv, both)] r.2 r1.2 r2.2 ednsQ ednsAsked ednsR ms ms 1 8 0 50 [] (List.replicate 200 0) (List.replicate 200 0) []
    exLuck (fun _ => 1001) ⟨rfl, rfl, rfl, rfl⟩ (by intro y hy; rw [List.mem_singleton] at hy; subst hy; trivial) h0 ednsQ_about h1
    (by rw [h.1]; exact List.mem_singleton.2 rfl)
    (plainValid _ _ _ _ _ msName (by decide) (by intro r hr; simp only [List.nil_append, List.mem_singleton] at hr; subst hr; exact optValid))
    ednsR_about (fun _ => ⟨_, List.mem_singleton.2 rfl, rfl⟩) h2 (by rw [h.2]; exact List.mem_singleton.2 rfl) ⟨_, List.mem_singleton.2 rfl, rfl⟩
  obtain ⟨y, hy, _⟩ := this
  cases hy

end Verif.Forwarder
