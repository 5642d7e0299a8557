import Verif.Props.Startup
import Verif.Props.Alias
/-! C118: from the configuration file to what happens to each query. -/

namespace Verif.EndToEnd
open Config ReadLine Startup Forwarder Msg Message Name Hosts HostsLoop Pipeline

variable {Addr : Type}

/-! ### what is to happen -/

/-- The query of a client: well-formed, one question of class IN, no answers, no additional records but EDNS. -/
structure Query (q : Message.Msg) (y : Question) (ls : List (List Byte)) (post : List Byte) : Prop extends Answer q ls post where
  question : q.qs = [y]
  label : y.name = wire ls
  labels : ∀ l ∈ ls, 1 ≤ l.length ∧ l.length ≤ 63
  some : ls ≠ []
  empty : q.an = []
  extra : q.ar = [] ∨ HasEdns q
  room : q.bytes.length + 11 ≤ q.bytes.length + post.length ∧ post.length < 16384

/-- The query arrives. -/
def asking (c : Client Addr) (q : Message.Msg) (post agent : List Byte) (x : Luck) : Ev Addr :=
  match c with
  | (some a, sock) => .udpQuery sock a agent (q.bytes ++ post) q.bytes.length x
  | (none, sock) => .tcpQuery sock agent (q.bytes ++ post) q.bytes.length x

/-- The client is told there is nothing: its own query, as a response without error and without answers. -/
def Refused (c : Client Addr) (q : Message.Msg) (acts : List (Act Addr)) : Prop :=
  ∃ a b f g, q.head = [a, b, f, g] ∧ acts = [.client (toClient ({ q with head := [a, b, f ||| 0x80, (g ||| 0x80) &&& 0xF0] } : Message.Msg).bytes c)]

/-- The query as it leaves: with an EDNS record if the option asks for one and the query has none. -/
def Outgoing (ap : Bool) (q q' : Message.Msg) : Prop :=
  (ap = true ∧ ¬ HasEdns q ∧ q' = { q with ar := [⟨[0], 41, 1280, 0, []⟩] }) ∨ ((ap = false ∨ HasEdns q) ∧ q' = q)

/-- The query goes to the group number `k`: by UDP at once, or into the queue of the TCP worker. -/
def SentTo (ap : Bool) (c : Client Addr) (q : Message.Msg) (x : Luck) (gs : List Groups.Group) (k : Nat) (st st' : St Addr) (acts : List (Act Addr)) : Prop :=
  ∃ g, gs[k]? = some g ∧ match g.proto with
    | .udp => ∃ q', Outgoing ap q q' ∧ acts = if x.sendOk then [.server (st.base + k) q'.bytes] else []
    | .tcp => acts = [] ∧ ∃ d d', st.mods[st.base + k]? = some d ∧ st'.mods[st.base + k]? = some d' ∧
        if x.sendOk then ∃ h : Head Addr, d'.inbox = d.inbox ++ [h] ∧ h.entity = q.bytes ∧ h.sock = c.2 ∧ h.back = c.1.map .client else d' = d

/-- What the configuration `cfg` means for a query. -/
structure Treated (e : Env) (cfg : Pipeline.Config) (c : Client Addr) (q : Message.Msg) (y : Question) (ls : List (List Byte)) (post : List Byte) (x : Luck)
    (st st' : St Addr) (acts : List (Act Addr)) : Prop where
  /-- What is disabled is refused. -/
  disabled : Disabled e cfg (plain ls) y.type → Refused c q acts
  /-- So is IPv6 for names with IPv4 addresses, if that is configured. -/
  ipv4 : ¬ Disabled e cfg (plain ls) y.type → Refuses e.hosts e.fnm cfg.static cfg.dynamic (plain ls) y.type → Refused c q acts
  /-- An alias of the hosts data is handed to the alias worker. -/
  handed : ¬ Disabled e cfg (plain ls) y.type → ¬ Refuses e.hosts e.fnm cfg.static cfg.dynamic (plain ls) y.type → ¬ Excluded e.fnm cfg.static cfg.dynamic (plain ls) →
    ∀ l, (l = cfg.static ∧ ¬ Silent e.fnm cfg.static (plain ls) y.type ∨ l = cfg.dynamic ∧ Silent e.fnm cfg.static (plain ls) y.type) →
    Redirects e.fnm l (plain ls) y.type → x.handOk = true →
    acts = [] ∧ ∃ h : Head Addr, st'.inner = st.inner ++ [h] ∧ h.domain = plain ls ∧ h.type = y.type ∧ h.sock = c.2 ∧ h.back = c.1.map .client
  /-- An entry of the hosts data answers; those given directly come first. -/
  hosts : ¬ Disabled e cfg (plain ls) y.type → ¬ Refuses e.hosts e.fnm cfg.static cfg.dynamic (plain ls) y.type → ¬ Excluded e.fnm cfg.static cfg.dynamic (plain ls) →
    ∀ l, (l = cfg.static ∧ ¬ Silent e.fnm cfg.static (plain ls) y.type ∨ l = cfg.dynamic ∧ Silent e.fnm cfg.static (plain ls) y.type) →
    ∀ en rd, AnswersBy e.fnm l (plain ls) y.type en → RData e.goodIp y.type en rd → 36 + y.bytes.length + rd.length ≤ post.length →
    ∃ r : Message.Msg, ReplyTo q ls (q.ar.any fun x => x.type == 41) y.type rd r ∧ r.Valid ∧ acts = [.client (toClient r.bytes c)]
  /-- Everything else is answered from the cache, with one reply, or goes to one of the groups the documentation says. -/
  other : ¬ Disabled e cfg (plain ls) y.type → ¬ Refuses e.hosts e.fnm cfg.static cfg.dynamic (plain ls) y.type → Untouched e cfg (plain ls) y.type →
    (e.cacheOn = true ∧ ∃ b, acts = [.client (toClient b c)]) ∨
    ∃ gs, Groups.MeansAll cfg.world cfg.decls (.some gs) ∧ ((gs = [] ∧ acts = []) ∨
      ∃ k, Groups.Documented e.opts c.1.isNone gs e.fnm (plain ls) k ∧ SentTo e.ap c q x gs k st st' acts)

/-! ### the modules -/

/-- The kinds of the modules. -/
def kinds (st : St Addr) : List Groups.Proto := st.mods.map (·.proto)

theorem kinds_set {l : List (Module (Dest Addr))} {i : Nat} {d d' : Module (Dest Addr)} (h : l[i]? = .some d) (hp : d'.proto = d.proto) :
    (l.set i d').map (·.proto) = l.map (·.proto) := by
  rw [List.map_set, hp]
  apply List.ext_getElem?
  intro j
  rw [List.getElem?_set]
  split
  · rename_i e
    subst e
    split
    · rw [List.getElem?_map, h]; rfl
    · rename_i hn
      rw [List.getElem?_eq_none (by omega)]
  · rfl

theorem mgrSend_kinds {e : Env} {st st' : St Addr} {x : Luck} {b : List Byte} {m h : Head Addr} {acts : List (Act Addr)}
    (hs : mgrSend e st x b m = .some (st', h, acts)) : kinds st' = kinds st ∧ st'.base = st.base := by
  unfold mgrSend at hs
  split at hs
  · cases hs
  · cases hs; exact ⟨rfl, rfl⟩
  · cases hs; exact ⟨rfl, rfl⟩
  · cases hs; exact ⟨rfl, rfl⟩
  · cases hs; exact ⟨rfl, rfl⟩
  · split at hs
    · cases hs
    · rename_i d hd
      split at hs
      · split at hs
        · cases hs
        · rename_i m' d' hu
          cases hs
          refine ⟨kinds_set hd ?_, rfl⟩
          unfold udpSend at hu
          split at hu
          · cases hu
          · cases hu; rfl
      · cases hs
        refine ⟨kinds_set hd ?_, rfl⟩
        unfold tcpSend
        split <;> rfl

theorem respond_kind {e : Env} {b : List Byte} {len fuel : Nat} {bn : List Byte} {clock : Nat → Int} {d d' : Module (Dest Addr)} {ops : List Cache.Op} {out : List (Head Addr)}
    (h : respond e b len fuel bn clock d = .some (d', ops, out)) : d'.proto = d.proto := by
  unfold respond at h
  split at h
  · cases h
  · split at h
    · cases h
    · dsimp only at h
      split at h
      · cases h; rfl
      · split at h
        · cases h; rfl
        · split at h
          · split at h
            · cases h
            · cases h; rfl
          · split at h
            · cases h
            · cases h; rfl

/-- Nothing but the exchange of the configuration changes the modules. -/
theorem step_kinds {e : Env} {st st' : St Addr} {ev : Ev Addr} {acts : List (Act Addr)} (hn : ∀ ps h, ev ≠ .reload ps h) (hs : step e st ev = .some (st', acts)) :
    kinds st' = kinds st ∧ st'.base = st.base := by
  cases ev with
  | udpQuery sock addr agent b len x =>
    unfold step at hs; dsimp only at hs
    split at hs
    · cases hs
    · split at hs
      · cases hs
      · rename_i hm; cases hs; have := mgrSend_kinds hm; exact this
  | tcpQuery sock agent b len x =>
    unfold step at hs; dsimp only at hs
    split at hs
    · cases hs
    · split at hs
      · cases hs
      · rename_i hm; cases hs; have := mgrSend_kinds hm; exact this
  | response i b len fuel bn clock =>
    unfold step at hs; dsimp only at hs
    split at hs
    · cases hs
    · rename_i d hd
      split at hs
      · cases hs
      · rename_i hr
        split at hs
        · cases hs
        · cases hs; exact ⟨kinds_set hd (respond_kind hr), rfl⟩
  | take i k now rest =>
    unfold step at hs; dsimp only at hs
    split at hs
    · cases hs
    · rename_i d hd
      split at hs
      · cases hs
      · cases hs; exact ⟨kinds_set hd rfl, rfl⟩
  | lose i k =>
    unfold step at hs; dsimp only at hs
    split at hs
    · cases hs
    · rename_i d hd
      split at hs
      · cases hs
      · cases hs; exact ⟨kinds_set hd rfl, rfl⟩
  | sweep i now =>
    unfold step at hs; dsimp only at hs
    split at hs
    · cases hs
    · rename_i d hd
      cases hs; exact ⟨kinds_set hd rfl, rfl⟩
  | cacheSweep now =>
    unfold step at hs; dsimp only at hs
    split at hs
    · cases hs
    · cases hs; exact ⟨rfl, rfl⟩
  | innerTake k cap sock rnd old x =>
    unfold step at hs; dsimp only at hs
    split at hs
    · cases hs
    · split at hs
      · cases hs
      · cases hs; exact ⟨rfl, rfl⟩
      · split at hs
        · cases hs
        · rename_i hm; cases hs; have := mgrSend_kinds hm; exact this
  | innerLose k =>
    unfold step at hs; dsimp only at hs
    split at hs
    · cases hs
    · cases hs; exact ⟨rfl, rfl⟩
  | outerTake k cap rest header fuel =>
    unfold step at hs; dsimp only at hs
    split at hs
    · cases hs
    · split at hs
      · split at hs
        · cases hs
        · cases hs; exact ⟨rfl, rfl⟩
        · cases hs; exact ⟨rfl, rfl⟩
      · cases hs
  | outerLose k =>
    unfold step at hs; dsimp only at hs
    split at hs
    · cases hs
    · cases hs; exact ⟨rfl, rfl⟩
  | loopSweep now => cases hs; exact ⟨rfl, rfl⟩
  | reload ps h => exact absurd rfl (hn ps h)
  | tcpOpen n => cases hs; exact ⟨rfl, rfl⟩

theorem run_kinds {e : Env} : ∀ {l : List (Ev Addr)} {st st' : St Addr} {acts : List (Act Addr)}, (∀ ev ∈ l, ∀ ps h, ev ≠ .reload ps h) →
    run st (l.map fun ev => (e, ev)) = .some (st', acts) → kinds st' = kinds st ∧ st'.base = st.base
  | [], st, st', acts, _, h => by
    simp only [List.map_nil, run, Option.some.injEq, Prod.mk.injEq] at h
    obtain ⟨rfl, _⟩ := h
    exact ⟨rfl, rfl⟩
  | ev :: l, st, st', acts, hn, h => by
    rw [List.map_cons] at h
    unfold run at h
    split at h
    · cases h
    · rename_i st1 a1 h1
      split at h
      · cases h
      · rename_i st2 a2 h2
        simp only [Option.some.injEq, Prod.mk.injEq] at h
        obtain ⟨rfl, _⟩ := h
        obtain ⟨g1, g2⟩ := run_kinds (fun v hv => hn v (List.mem_cons_of_mem _ hv)) h2
        obtain ⟨g3, g4⟩ := step_kinds (hn ev List.mem_cons_self) h1
        exact ⟨g1.trans g3, g2.trans g4⟩

/-! ### one query -/

theorem plain_some {ls : List (List Byte)} (h1 : ls ≠ []) (h2 : ∀ l ∈ ls, 1 ≤ l.length ∧ l.length ≤ 63) : plain ls ≠ [] := by
  obtain ⟨l, t, rfl⟩ := List.exists_cons_of_ne_nil h1
  obtain ⟨a, b, rfl⟩ := List.exists_cons_of_length_pos (h2 l (by simp)).1
  unfold plain
  cases t <;> simp [Name.text]

/-- A client gets what is sent back. -/
theorem post_client {c : Client Addr} {m : Head Addr} (m0 : Head Addr) (hb : m.back = c.1.map .client) (hk : m.sock = c.2) (hr : m.returnHeader = false) :
    post m0 (sendBack m) = ([.client (toClient m.entity c)], []) := by
  obtain ⟨c1, c2⟩ := c
  cases c1 with
  | none =>
    dsimp only [Option.map_none] at hb
    dsimp only at hk
    simp [sendBack, hb, hk, post, toClient]
  | some a =>
    dsimp only [Option.map_some] at hb
    dsimp only at hk
    simp [sendBack, hb, hk, hr, post, toClient]

theorem refused_msg {q : Message.Msg} (hv : q.Valid) : ∃ a b f g, q.head = [a, b, f, g] ∧
    refuse q.bytes = ({ q with head := [a, b, f ||| 0x80, (g ||| 0x80) &&& 0xF0] } : Message.Msg).bytes := by
  obtain ⟨a, b, c, d, hhd⟩ : ∃ a b c d, q.head = [a, b, c, d] := by
    have := hv.head
    match q.head, this with
    | [a, b, c, d], _ => exact ⟨a, b, c, d, rfl⟩
  refine ⟨a, b, c, d, hhd, ?_⟩
  simp [refuse, Message.Msg.bytes, Message.Msg.header, Message.Msg.body, hhd, List.modify, setQR, setRAclearRcode]

/-- An answer of the cache is one message. -/
theorem fetch_zero {cfg : Cache.Cfg} {st : Cache.St} {behind : List Byte} {fuel : Nat} {now : Int} {m : Head Addr} {o : List (Sent (Dest Addr))}
    (h : DnsCache.fetch cfg st behind fuel now m = .some (0, o)) : ∃ b, o = [sendBack { m with entity := b }] := by
  unfold DnsCache.fetch at h
  repeat' split at h
  all_goals first | cases h | skip
  all_goals dsimp only at h
  all_goals repeat' split at h
  all_goals first | (cases h; done) | exact ⟨_, rfl⟩ | skip
  all_goals (cases h; exact ⟨_, rfl⟩)

/-- What the decision makes the program do. -/
theorem mgrSend_treats {e : Env} {cfg : Pipeline.Config} (hc : Configured e cfg) {st st' : St Addr} (hk : (kinds st).drop st.base = e.groups.modules)
    {c : Client Addr} {q : Message.Msg} {y : Question} {ls : List (List Byte)} {behind : List Byte} {x : Luck} (hq : Query q y ls behind) {m h : Head Addr}
    (h1 : m.back = c.1.map .client) (h2 : m.sock = c.2) (h3 : m.domain = plain ls) (h4 : m.hash = bkdrHash (plain ls)) (h5 : m.type = y.type)
    (h6 : m.returnHeader = false) (h7 : m.edns = q.ar.any (fun x => x.type == 41)) (h8 : m.entity = q.bytes) {acts : List (Act Addr)}
    (hs : mgrSend e st x (q.bytes ++ behind) m = .some (st', h, acts)) : Treated e cfg c q y ls behind x st st' acts := by
  have hdrop : (q.bytes ++ behind).drop m.entity.length = behind := by rw [h8]; exact List.drop_left' rfl
  have hrt : requestTcp m = false := by
    unfold requestTcp
    rw [h1]
    cases c.1 <;> rfl
  have htcp : (m.back.isNone || false) = c.1.isNone := by rw [h1]; cases c.1 <;> rfl
  unfold mgrSend at hs
  rw [hdrop, hrt] at hs
  have hp := precedence_partial hc st.cache x behind false m (by rw [h3]; exact plain_some hq.some hq.labels) (by rw [h3]; exact h4)
  rw [h3, h5] at hp
  obtain ⟨p1, p2⟩ := hp
  have href : ∀ m0 : Head Addr, Refused c q (post m0 (sendBackRefused m)).1 := by
    intro m0
    obtain ⟨a, b, f, g, e1, e2⟩ := refused_msg hq.valid
    refine ⟨a, b, f, g, e1, ?_⟩
    unfold sendBackRefused
    rw [post_client m0 (m := { m with entity := refuse m.entity }) h1 h2 h6]
    dsimp only
    rw [h8, e2]
  refine ⟨fun hd => ?_, fun hd hr => ?_, fun hd hr hx l hl ha hh => ?_, fun hd hr hx l hl en rd ha hrd hroom => ?_, fun hd hr hu => ?_⟩
  · rw [p1 hd] at hs
    cases hs
    simpa [posts] using href m
  · rw [(p2 hd).1 hr] at hs
    cases hs
    simpa [posts, repliesOf] using href m
  · rw [(((p2 hd).2 hr).1 hx l hl).1 ha hh] at hs
    cases hs
    refine ⟨by simp [posts, repliesOf], _, rfl, rfl, rfl, h2, h1⟩
  · obtain ⟨r, r1, r2, r3⟩ := (((p2 hd).2 hr).1 hx l hl).2 en rd q y ls ha hrd h8 hq.valid hq.question hq.empty hq.label hq.labels
      (by split <;> omega) hq.room.2
    rw [r3] at hs
    cases hs
    refine ⟨r, by rw [← h7]; exact r1, r2, ?_⟩
    have := post_client (m := { m with domain := plain ls, type := y.type, entity := r.bytes }) m h1 h2 h6
    simp [posts, repliesOf, this]
  · obtain ⟨junk, hf⟩ := hc.filter
    have hfil := Filter.filter_refuses_exactly junk cfg.types cfg.opt cfg.files e.fnm x.behindName m (by rw [h3]; exact plain_some hq.some hq.labels) (by rw [h3]; exact h4)
    rw [← hf] at hfil
    dsimp only at hfil
    rw [h3, h5] at hfil
    have hb : (Filter.filterOut e.filter e.fnm x.behindName m).1 = false := by
      cases hx : (Filter.filterOut e.filter e.fnm x.behindName m).1 with
      | false => rfl
      | true => exact absurd (hfil.1.1 hx) hd
    have hh := hosts_override_partial hc.static hc.dynamic e.fnm e.goodIp behind m
    rw [h3, h5] at hh
    have h0 := (hh.2 hr).1 hu x.handOk
    obtain ⟨gs, g1, g2, g3⟩ := Groups.route_documented_partial cfg.world cfg.decls hc.files hc.fine e.groups hc.groups
    obtain ⟨k1, k2⟩ := g3 e.opts e.fnm x.behindName c.1.isNone (plain ls) (plain_some hq.some hq.labels)
    have hft : (isFromTcp m || false) = c.1.isNone := htcp
    unfold Pipeline.decide at hs
    cases hx : Filter.filterOut e.filter e.fnm x.behindName m with
    | mk b o =>
      rw [hx] at hb hs
      dsimp only at hb
      subst hb
      rw [h0] at hs
      dsimp only at hs
      rw [if_neg (by decide)] at hs
      have key : ∀ {r : Option (Outcome (Dest Addr))}, r = (match Groups.route e.opts e.groups e.fnm x.behindName x.rnd (ident (m.entity ++ behind)).toNat
          (isFromTcp m || false) m.domain m.hash with
            | .some i => .some (.upstream i)
            | none => .some .nowhere) →
          (match r with
            | none => none
            | .some (.refused o) => .some ({ st with outer := st.outer ++ (posts m o).2 }, after m o, (posts m o).1)
            | .some (.cache o) => .some ({ st with outer := st.outer ++ (posts m o).2 }, after m o, (posts m o).1)
            | .some (.hosts o) =>
              .some ({ st with outer := st.outer ++ (posts m (repliesOf o)).2, inner := st.inner ++ handedOf o }, after m (repliesOf o), (posts m (repliesOf o)).1)
            | .some .nowhere => .some (st, m, [])
            | .some (.upstream i) =>
              match st.mods[st.base + i]? with
              | none => none
              | .some d =>
                match d.proto with
                | .udp =>
                  match udpSend e x (q.bytes ++ behind) m d with
                  | none => none
                  | .some (m', d') => .some ({ st with mods := st.mods.set (st.base + i) d' }, m', if x.sendOk then [.server (st.base + i) m'.entity] else [])
                | .tcp => .some ({ st with mods := st.mods.set (st.base + i) (tcpSend x m d) }, m, [])) = some (st', h, acts) →
          ∃ gs, Groups.MeansAll cfg.world cfg.decls (.some gs) ∧ ((gs = [] ∧ acts = []) ∨
            ∃ k, Groups.Documented e.opts c.1.isNone gs e.fnm (plain ls) k ∧ SentTo e.ap c q x gs k st st' acts) := by
        intro r hr' hs
        subst hr'
        rw [hft, h3, h4] at hs
        cases hro : Groups.route e.opts e.groups e.fnm x.behindName x.rnd (ident (m.entity ++ behind)).toNat c.1.isNone (plain ls) (bkdrHash (plain ls)) with
        | none =>
          rw [hro] at hs
          cases hs
          exact ⟨gs, g1, .inl ⟨(k2 _ _).1 hro, rfl⟩⟩
        | some i =>
          rw [hro] at hs
          dsimp only at hs
          refine ⟨gs, g1, .inr ⟨i, (k1 i).2 ⟨_, _, hro⟩, ?_⟩⟩
          split at hs
          · cases hs
          · rename_i d hdm
            have hg : gs[i]?.map (·.proto) = .some d.proto := by
              rw [← List.getElem?_map, ← g2, ← hk, List.getElem?_drop]
              unfold kinds
              rw [List.getElem?_map, hdm]
              rfl
            obtain ⟨g, hgi, hgp⟩ := Option.map_eq_some_iff.1 hg
            refine ⟨g, hgi, ?_⟩
            rw [hgp]
            split at hs
            · have hu := udp_edns_partial e x (q.bytes ++ behind) m d q h8 hq.valid (by rw [List.length_append]; exact hq.room.1)
              have hed : m.edns = true ↔ HasEdns q := by
                rw [h7, List.any_eq_true]
                unfold HasEdns
                constructor
                · rintro ⟨z, z1, z2⟩; exact ⟨z, z1, by simpa using z2⟩
                · rintro ⟨z, z1, z2⟩; exact ⟨z, z1, by simpa using z2⟩
              by_cases hq0 : e.ap = false ∨ m.edns = true
              · obtain ⟨d', hu'⟩ := hu.2 hq0
                rw [hu'] at hs
                cases hs
                refine ⟨q, .inr ⟨hq0.imp id hed.1, rfl⟩, by rw [h8]⟩
              · have ha : e.ap = true := by
                  cases hap : e.ap with
                  | true => rfl
                  | false => exact absurd (.inl hap) hq0
                have hb' : ¬ HasEdns q := fun hx => hq0 (.inr (hed.2 hx))
                obtain ⟨m', d', u1, u2⟩ := hu.1 ha (by
                  cases hme : m.edns with
                  | false => rfl
                  | true => exact absurd (.inr hme) hq0) (hq.extra.resolve_right hb')
                rw [u1] at hs
                cases hs
                exact ⟨_, .inl ⟨ha, hb', rfl⟩, by rw [u2]⟩
            · cases hs
              have hlt : st.base + i < st.mods.length := by
                rcases Nat.lt_or_ge (st.base + i) st.mods.length with h | h
                · exact h
                · rw [List.getElem?_eq_none h] at hdm; cases hdm
              refine ⟨rfl, d, tcpSend x m d, hdm, by simp [hlt], ?_⟩
              unfold tcpSend
              split
              · exact ⟨m, rfl, h8, h2, h1⟩
              · rfl
      cases hon : e.cacheOn with
      | false =>
        rw [hon] at hs
        exact .inr (key rfl hs)
      | true =>
        rw [hon] at hs
        cases hfe : DnsCache.fetch e.cache.cfg st.cache behind x.fuel x.now m with
        | none => rw [if_pos rfl, hfe] at hs; cases hs
        | some v =>
          obtain ⟨code, o⟩ := v
          rw [if_pos rfl, hfe] at hs
          dsimp only at hs
          by_cases hz : code = 0
          · rw [if_pos hz] at hs
            cases hs
            subst hz
            left
            obtain ⟨b, rfl⟩ := fetch_zero hfe
            refine ⟨rfl, b, ?_⟩
            simp [posts, post_client m (m := { m with entity := b }) h1 h2 h6]
          · rw [if_neg hz] at hs
            exact .inr (key rfl hs)

/-- A client's query, in a state whose modules are those of the configuration. -/
theorem step_treats {e : Env} {cfg : Pipeline.Config} (hc : Configured e cfg) {st st' : St Addr} (hk : (kinds st).drop st.base = e.groups.modules)
    {c : Client Addr} {q : Message.Msg} {y : Question} {ls : List (List Byte)} {behind agent : List Byte} {x : Luck} (hq : Query q y ls behind)
    {acts : List (Act Addr)} (hs : step e st (asking c q behind agent x) = .some (st', acts)) : Treated e cfg c q y ls behind x st st' acts := by
  have more : ∀ {s1 : St Addr} {s2 : St Addr}, s1.inner = s2.inner → s1.mods = s2.mods → Treated e cfg c q y ls behind x st s1 acts →
      Treated e cfg c q y ls behind x st s2 acts := by
    intro s1 s2 h1 h2 ht
    refine ⟨ht.disabled, ht.ipv4, by rw [← h1]; exact ht.handed, ht.hosts, fun a b d => (ht.other a b d).imp id ?_⟩
    rintro ⟨gs, g1, g2⟩
    refine ⟨gs, g1, g2.imp id ?_⟩
    rintro ⟨k, k1, k2⟩
    refine ⟨k, k1, ?_⟩
    unfold SentTo at k2 ⊢
    rw [← h2]
    exact k2
  obtain ⟨c1, c2⟩ := c
  cases c1 with
  | none =>
    unfold asking step at hs
    dsimp only at hs
    split at hs
    · cases hs
    · rename_i code m hf
      obtain ⟨_, f1, f2, f3, f4, f5, f6, f7, f8⟩ := fill_full hq.toAnswer hq.question hf
      split at hs
      · cases hs
      · rename_i s1 h1 a1 hm
        cases hs
        exact more (s1 := s1) rfl rfl (mgrSend_treats hc hk hq f1 f2 f3 f4 f5 f6 f7 f8 hm)
  | some a =>
    unfold asking step at hs
    dsimp only at hs
    split at hs
    · cases hs
    · rename_i code m hf
      obtain ⟨_, f1, f2, f3, f4, f5, f6, f7, f8⟩ := fill_full hq.toAnswer hq.question hf
      split at hs
      · cases hs
      · rename_i s1 h1 a1 hm
        cases hs
        exact more (s1 := s1) rfl rfl (mgrSend_treats hc hk hq f1 f2 f3 f4 f5 f6 f7 f8 hm)

/-- C118.  Whatever flags are given and whatever the configuration file holds: if the program starts, then at any time, whatever has happened since, a query
of a client is treated as the lines of the file say.  Missing: as for `started_partial` (files and values that are not read as they should be), queries of
other forms (`Query`), and configurations exchanged at run time. -/
theorem end_to_end_partial {w : World} {as : List Arg} (ha : ∀ a ∈ as, a.Ok) {path dir : List Byte} (hp : ConfigFile w as path) (hh : Home w dir)
    {ss : List (List Byte)} {last : List Byte} {E : Nat} (hf : FileFits w path dir ss last E)
    (hw : ∀ ts tab, Seen 2048 (ss ++ [last]) ts → Reads (w.expand (dir ++ str "/") (directoryOf path)) (table dir) ts tab → Readable w tab)
    {r : Running} (h : main w (as.flatMap Arg.words) = .some r) :
    ∃ ts tab cfg, Seen 2048 (ss ++ [last]) ts ∧ Reads (w.expand (dir ++ str "/") (directoryOf path)) (table dir) ts tab ∧ Sources w tab cfg ∧
      Holds tab "EnableUDPtoTCP" (.bool r.env.opts.udpToTcp) ∧ Holds tab "EnableTCPtoUDP" (.bool r.env.opts.tcpToUdp) ∧ Holds tab "AP" (.bool r.env.ap) ∧
      Holds tab "BlockIpv6WhenIpv4Exists" (.bool r.env.hosts.blockIpv6) ∧ Holds tab "UseCache" (.bool r.env.cacheOn) ∧
      ∀ (st0 st st' : St Addr) (head : Head Addr) (l : List (Ev Addr)) (a0 acts : List (Act Addr)) (c : Client Addr) (q : Message.Msg) (y : Question)
        (ls : List (List Byte)) (post agent : List Byte) (x : Luck), Start st0 → (∀ ev ∈ l, ∀ ps h, ev ≠ .reload ps h) →
        run st0 ((.reload r.env.groups.modules head :: l).map fun ev => (r.env, ev)) = .some (st, a0) → Query q y ls post →
        step r.env st (asking c q post agent x) = .some (st', acts) → Treated r.env cfg c q y ls post x st st' acts := by
  obtain ⟨ts, tab, cfg, h1, h2, h3, h4, h5, h6, h7, h8, h9, -⟩ := started_partial ha hp hh hf hw h
  refine ⟨ts, tab, cfg, h1, h2, h3, h5, h6, h7, h8, h9, ?_⟩
  intro st0 st st' head l a0 acts c q y ls post agent x hst hl hr hq hs
  refine step_treats h4 ?_ hq hs
  rw [List.map_cons] at hr
  unfold run at hr
  split at hr
  · cases hr
  · rename_i st1 a1 hr1
    split at hr
    · cases hr
    · rename_i st2 a2 hr2
      simp only [Option.some.injEq, Prod.mk.injEq] at hr
      obtain ⟨rfl, _⟩ := hr
      obtain ⟨k1, k2⟩ := run_kinds hl hr2
      rw [k1, k2]
      simp only [step, Option.some.injEq, Prod.mk.injEq] at hr1
      rw [← hr1.1]
      simp only [kinds, hst.1, List.nil_append, List.length_nil, List.drop_zero, List.map_map]
      exact List.map_id _

/-! ### a case that meets the hypotheses: the file sets `AP`, a client asks for a name, and the query leaves for the default group with an EDNS record -/

def sampleW : World := sampleWorld (str "/root") (.some (ReadLine.text [str "AP true"] []))

def sampleQ : Message.Msg := ⟨[1, 2, 1, 0], [⟨wire ms, 1, 1⟩], [], [], []⟩

theorem sampleQuery : Query sampleQ ⟨wire ms, 1, 1⟩ ms (List.replicate 300 0) where
  valid := plainValid _ _ _ _ [] msName (by decide) (by simp)
  one := ⟨_, rfl, rfl⟩
  name := ⟨_, denotes_wire (by decide) (by unfold At; decide +kernel) (by decide +kernel)⟩
  short := by decide
  noZero := by decide
  question := rfl
  label := rfl
  labels := by decide
  some := by decide
  empty := rfl
  extra := .inl rfl
  room := by rw [List.length_replicate]; exact ⟨by omega, by omega⟩

/-- What leaves the program. -/
def sampleRun : Option (List (Act Nat)) :=
  (main sampleW (([Arg.quiet] : List Arg).flatMap Arg.words)).bind fun r => (run exSt ([.reload r.env.groups.modules noHead, .sweep 0 1000].map fun ev => (r.env, ev))).bind fun s =>
    (step r.env s.1 (asking (.some 8, 1) sampleQ (List.replicate 300 0) [] exLuck)).map (·.2)

theorem sample_run : sampleRun = .some [.server 0 ({ sampleQ with ar := [⟨[0], 41, 1280, 0, []⟩] } : Message.Msg).bytes] := by decide +kernel

theorem sample_treated : ∃ r ts tab cfg st st' acts, main sampleW (([Arg.quiet] : List Arg).flatMap Arg.words) = .some r ∧ ts = [str "AP true"] ∧
    Reads (fun p => p) (table (str "/root/.dnsforwarder")) ts tab ∧ Sources sampleW tab cfg ∧
    Treated r.env cfg (.some 8, 1) sampleQ ⟨wire ms, 1, 1⟩ ms (List.replicate 300 0) exLuck st st' acts ∧
    acts = [.server 0 ({ sampleQ with ar := [⟨[0], 41, 1280, 0, []⟩] } : Message.Msg).bytes] := by
  have h := sample_run
  unfold sampleRun at h
  obtain ⟨r, hr, h⟩ := Option.bind_eq_some_iff.1 h
  obtain ⟨s, hs, h⟩ := Option.bind_eq_some_iff.1 h
  obtain ⟨t, ht, h⟩ := Option.map_eq_some_iff.1 h
  obtain ⟨ts, tab, cfg, h1, h2, h3, -, -, -, -, -, h4⟩ := end_to_end_partial (Addr := Nat) (as := [.quiet]) (by simp [Arg.Ok])
    (.inr ⟨.none (by simp), str "/root", rfl, by decide, by decide⟩) ⟨⟨str "/root", rfl, by decide⟩, by decide, by decide, by decide⟩ sample_fits
    sample_readable hr
  refine ⟨r, ts, tab, cfg, s.1, t.1, t.2, hr, ap_seen h1, h2, h3, ?_, h⟩
  exact h4 exSt s.1 t.1 noHead [.sweep 0 1000] s.2 t.2 _ _ _ _ _ _ _ ⟨rfl, rfl, rfl, rfl⟩ (by simp) hs sampleQuery ht

end Verif.EndToEnd
