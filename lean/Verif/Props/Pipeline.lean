import Verif.Props.Filter
import Verif.Props.Hosts
import Verif.Props.Groups
import Verif.Props.IHeader
import Verif.Props.MContext
import Verif.Props.Forwarder
/-! C23: which stage takes care of a query.  C44: the option that asks for responses with EDNS.  C31: a response goes
all the way. -/

namespace Verif.Pipeline
open Msg MContext Message Name Hosts

variable {Addr : Type}

/-- A configuration as the user wrote it: disabled types and domains, the entries of the hosts data given directly
and of the hosts file, the server groups. -/
structure Config where
  types : Option (List Int)
  opt : Option (List (List Byte))
  files : Option (List (List (List Byte)))
  static : List Entry
  dynamic : List Entry
  world : Groups.World
  decls : List Groups.Decl

/-- The program was configured with `c`. -/
structure Configured (e : Env) (c : Config) : Prop where
  filter : ∃ junk, e.filter = ⟨Filter.initTypes junk (c.types.map (·.map some)), Filter.initDomains c.opt c.files⟩
  static : LoadedOpt e.hosts.static c.static
  dynamic : LoadedOpt e.hosts.dynamic c.dynamic
  files : ∀ d ∈ c.decls, ∀ p content, Groups.Uses c.world d p → c.world.file p = some (some content) → Groups.FileOk content
  fine : ∀ d ∈ c.decls, Groups.Fine d
  groups : Groups.load c.world (c.decls.flatMap Groups.Decl.tokens) = some e.groups

/-- Queries for this name and type are disabled. -/
def Disabled (e : Env) (c : Config) (name : List Byte) (type : Nat) : Prop :=
  (type : Int) ∈ c.types.getD [] ∨ ∃ d ∈ Filter.allDomains c.opt c.files, Filter.Disables e.fnm d name

/-- The hosts data say nothing about the query: the name is excluded, or there are no entries for it. -/
def Untouched (e : Env) (c : Config) (name : List Byte) (type : Nat) : Prop :=
  Excluded e.fnm c.static c.dynamic name ∨ Silent e.fnm c.static name type ∧ Silent e.fnm c.dynamic name type

/-- C23.  The first stage that has something to say takes care of the query, and only this one:

* a disabled query is refused, whatever the hosts data and the cache hold;
* else, a query the hosts data refuse, redirect or answer is refused, handed to the alias worker, or answered with their
  entry, whatever the cache holds; those given directly come before those of the file;
* else, a query the cache can answer is answered from the cache;
* else, it is given to one of the groups the documentation says, and to none only if there are no groups.

Missing: as for `hosts_override_partial` (see `precedence_all`) and `route_documented_partial`. -/
theorem precedence_partial {e : Env} {c : Config} (hc : Configured e c) (st : Cache.St) (x : Luck) (behind : List Byte) (rt : Bool) (m : Ctx Addr)
    (hname : m.domain ≠ []) (hhash : m.hash = bkdrHash m.domain) :
    (Disabled e c m.domain m.type → decide e st x behind rt m = some (.refused [sendBackRefused m])) ∧
    (¬ Disabled e c m.domain m.type →
      (Hosts.Refuses e.hosts e.fnm c.static c.dynamic m.domain m.type → decide e st x behind rt m = some (.hosts [.reply (sendBackRefused m)])) ∧
      (¬ Hosts.Refuses e.hosts e.fnm c.static c.dynamic m.domain m.type →
        (¬ Excluded e.fnm c.static c.dynamic m.domain →
          ∀ l, (l = c.static ∧ ¬ Silent e.fnm c.static m.domain m.type ∨ l = c.dynamic ∧ Silent e.fnm c.static m.domain m.type) →
          (Redirects e.fnm l m.domain m.type → x.handOk = true →
            decide e st x behind rt m = some (.hosts [.handOver { m with entity := m.entity.take 2 }])) ∧
          (∀ (en : Entry) (rd : List Byte) (q : Message.Msg) (y : Question) (ls : List (List Byte)),
            AnswersBy e.fnm l m.domain m.type en → RData e.goodIp m.type en rd →
            m.entity = q.bytes → q.Valid → q.qs = [y] → q.an = [] → y.name = wire ls → (∀ l ∈ ls, 1 ≤ l.length ∧ l.length ≤ 63) →
            12 + y.bytes.length + 13 + rd.length + (if m.edns then 11 else 0) ≤ behind.length → behind.length < 16384 →
            ∃ r : Message.Msg, ReplyTo q ls m.edns m.type rd r ∧ r.Valid ∧
              decide e st x behind rt m = some (.hosts [.reply (sendBack { m with entity := r.bytes })]))) ∧
        (Untouched e c m.domain m.type →
          (∀ o, e.cacheOn = true → DnsCache.fetch e.cache.cfg st behind x.fuel x.now m = some (0, o) →
            decide e st x behind rt m = some (.cache o)) ∧
          ((e.cacheOn = false ∨ ∃ code o, code ≠ 0 ∧ DnsCache.fetch e.cache.cfg st behind x.fuel x.now m = some (code, o)) →
            ∃ gs, Groups.MeansAll c.world c.decls (some gs) ∧
              ((∃ i, Groups.Documented e.opts (m.back.isNone || rt) gs e.fnm m.domain i ∧ decide e st x behind rt m = some (.upstream i)) ∨
                gs = [] ∧ decide e st x behind rt m = some .nowhere))))) := by
  obtain ⟨junk, hf⟩ := hc.filter
  have hfil := Filter.filter_refuses_exactly junk c.types c.opt c.files e.fnm x.behindName m hname hhash
  have hh := hosts_override_partial hc.static hc.dynamic e.fnm e.goodIp behind m
  rw [← hf] at hfil
  dsimp only at hfil
  obtain ⟨f1, f2, f3⟩ := hfil
  obtain ⟨gs, g1, g2, g3⟩ := Groups.route_documented_partial c.world c.decls hc.files hc.fine e.groups hc.groups
  refine ⟨fun hd => ?_, fun hd => ?_⟩
  · have := f1.2 hd
    unfold decide
    cases hx : Filter.filterOut e.filter e.fnm x.behindName m with
    | mk b o =>
      rw [hx] at f2 this
      dsimp only at f2 this
      subst this
      simp [f2 rfl]
  · have hb : (Filter.filterOut e.filter e.fnm x.behindName m).1 = false := by
      cases hx : (Filter.filterOut e.filter e.fnm x.behindName m).1 with
      | false => rfl
      | true => exact absurd (f1.1 hx) hd
    have hdec : ∀ code o, hostsGet e.fnm e.goodIp e.hosts behind x.handOk m = some (code, o) → code = 0 →
        decide e st x behind rt m = some (.hosts o) := by
      intro code o h0 hz
      unfold decide
      cases hx : Filter.filterOut e.filter e.fnm x.behindName m with
      | mk b o =>
        rw [hx] at hb
        dsimp only at hb
        subst hb
        simp [h0, hz]
    refine ⟨fun hr => hdec _ _ (hh.1 hr _) rfl, fun hr => ?_⟩
    obtain ⟨h1, h2⟩ := hh.2 hr
    refine ⟨fun hx l hl => ?_, fun hu => ?_⟩
    · obtain ⟨h3, h4⟩ := h2 hx l hl
      refine ⟨fun hr hk => ?_, ?_⟩
      · have := (h3 hr).1
        rw [← hk] at this
        exact hdec _ _ this rfl
      · intro en rd q y ls a1 a2 a3 a4 a5 a6 a7 a8 a9 a10
        obtain ⟨r, b1, b2, b3⟩ := h4 en rd q y ls a1 a2 a3 a4 a5 a6 a7 a8 a9 a10
        exact ⟨r, b1, b2, hdec _ _ (b3 _) rfl⟩
    · have h0 := h1 hu x.handOk
      refine ⟨fun o hon hfe => ?_, fun hfe => ⟨gs, g1, ?_⟩⟩
      · unfold decide
        cases hx : Filter.filterOut e.filter e.fnm x.behindName m with
        | mk b o =>
          rw [hx] at hb
          dsimp only at hb
          subst hb
          simp [h0, hon, hfe]
      · have hdec2 : decide e st x behind rt m = match Groups.route e.opts e.groups e.fnm x.behindName x.rnd (ident (m.entity ++ behind)).toNat
            (isFromTcp m || rt) m.domain m.hash with
            | some i => some (.upstream i)
            | none => some .nowhere := by
          generalize hg : Groups.route e.opts e.groups e.fnm x.behindName x.rnd (ident (m.entity ++ behind)).toNat (isFromTcp m || rt) m.domain m.hash = g
          unfold decide
          cases hx : Filter.filterOut e.filter e.fnm x.behindName m with
          | mk b o =>
            rw [hx] at hb
            dsimp only at hb
            subst hb
            rcases hfe with hoff | ⟨code, o, hne, hfe⟩
            · cases g <;> simp [h0, hoff, hg]
            · cases hon : e.cacheOn with
              | false => cases g <;> simp [h0, hg]
              | true => cases g <;> simp [h0, hfe, hne, hg]
        obtain ⟨k1, k2⟩ := g3 e.opts e.fnm x.behindName (m.back.isNone || rt) m.domain hname
        rw [hdec2, hhash, show isFromTcp m = m.back.isNone from rfl]
        cases hro : Groups.route e.opts e.groups e.fnm x.behindName x.rnd (ident (m.entity ++ behind)).toNat
            (m.back.isNone || rt) m.domain (bkdrHash m.domain) with
        | none => exact Or.inr ⟨(k2 _ _).1 hro, rfl⟩
        | some i => exact Or.inl ⟨i, (k1 i).2 ⟨_, _, hro⟩, rfl⟩

/-! ### responses -/

/-- Whether the message has an EDNS record. -/
def HasEdns (r : Message.Msg) : Prop := ∃ x ∈ r.ar, x.type = 41

/-- A response as a server sends it: well-formed, one question of class IN, the name `ls` of at most 255 characters;
`post` is what the buffer holds behind it. -/
structure Answer (r : Message.Msg) (ls : List (List Byte)) (post : List Byte) : Prop where
  valid : r.Valid
  one : ∃ q, r.qs = [q] ∧ q.klass = 1
  name : ∃ k, Denotes (memAt (r.bytes ++ post)) r.bytes.length 12 ls k
  short : (text ls).length < 256
  noZero : ∀ c ∈ text ls, c ≠ 0

/-- C44, on.  With the option set, a response without EDNS record has no effect: nothing is sent, nothing is cached, and
all queries go on waiting. -/
theorem no_edns_dropped {r : Message.Msg} {ls : List (List Byte)} {post : List Byte} (hr : Answer r ls post) (hn : ¬ HasEdns r) {e : Env} (ha : e.ap = true) :
    ∃ f0, ∀ fuel, f0 ≤ fuel → ∀ (behindName : List Byte) (clock : Nat → Int) (d : Module Addr) (res : Module Addr × List Cache.Op × List (Ctx Addr)),
      respond e (r.bytes ++ post) r.bytes.length fuel behindName clock d = some res →
      res.2 = ([], []) ∧ res.1.table = d.table ∧ res.1.inbox = d.inbox := by
  obtain ⟨q, hq, hk⟩ := hr.one
  obtain ⟨k, hd⟩ := hr.name
  obtain ⟨f0, hf⟩ := fill_exact (Addr := Addr) r q ls k post hr.valid hq hk hd hr.short hr.noZero false none 0 []
  refine ⟨f0, fun fuel hfuel behindName clock d res h => ?_⟩
  have he : r.ar.any (fun x => x.type == 41) = false := by
    rw [Bool.eq_false_iff]
    intro hx
    obtain ⟨x, h1, h2⟩ := List.any_eq_true.1 hx
    exact hn ⟨x, h1, by simpa using h2⟩
  unfold respond at h
  rw [hf fuel hfuel d.head, he] at h
  dsimp only at h
  split at h
  · cases h
  · rename_i v b' _
    split at h
    · simp only [Option.some.injEq] at h; subst h; exact ⟨rfl, rfl, rfl⟩
    · rw [if_pos (by simp [isBlocked, ha])] at h
      simp only [Option.some.injEq] at h; subst h; exact ⟨rfl, rfl, rfl⟩

/-- C44, on.  A response with an EDNS record is treated as if the option were not set. -/
theorem edns_not_dropped {r : Message.Msg} {ls : List (List Byte)} {post : List Byte} (hr : Answer r ls post) (hn : HasEdns r) (e : Env) :
    ∃ f0, ∀ fuel, f0 ≤ fuel → ∀ (behindName : List Byte) (clock : Nat → Int) (d : Module Addr),
      respond e (r.bytes ++ post) r.bytes.length fuel behindName clock d =
      respond { e with ap := false } (r.bytes ++ post) r.bytes.length fuel behindName clock d := by
  obtain ⟨q, hq, hk⟩ := hr.one
  obtain ⟨k, hd⟩ := hr.name
  obtain ⟨f0, hf⟩ := fill_exact (Addr := Addr) r q ls k post hr.valid hq hk hd hr.short hr.noZero false none 0 []
  refine ⟨f0, fun fuel hfuel behindName clock d => ?_⟩
  have he : r.ar.any (fun x => x.type == 41) = true := by
    obtain ⟨x, h1, h2⟩ := hn
    exact List.any_eq_true.2 ⟨x, h1, by simpa using h2⟩
  unfold respond
  rw [hf fuel hfuel d.head, he]
  simp [isBlocked, misc, learn]

/-- C31 and C44.  A response that arrives while a query with its identifier and the hash of its name waits is sent, as it
is, to the client of one such query, which then no longer waits; the other queries go on waiting.  Without the option
this holds with and without EDNS record.

Missing: queries with the same identifier whose hashes are `2^31` or more apart (`response_found_false`); the address
lists (`lists`), see C27, C28. -/
theorem response_sent_partial {r : Message.Msg} {ls : List (List Byte)} {post : List Byte} (hr : Answer r ls post) {e : Env}
    (ha : e.ap = false ∨ HasEdns r) (hl : e.lists = none) :
    ∃ f0, ∀ fuel, f0 ≤ fuel → ∀ (behindName : List Byte) (clock : Nat → Int) (d : Module Addr) (ops : List (Op (Ctx Addr)))
      (p : Pending (Ctx Addr)) (res : Module Addr × List Cache.Op × List (Ctx Addr)),
      d.table = (run Bst.State.init ops).1 → p ∈ waiting d.table →
      [UInt8.ofNat (p.id.toNat / 256), UInt8.ofNat p.id.toNat] = r.head.take 2 → p.hash = bkdrHash ((text ls).map toLowerByte) →
      (∀ x ∈ queriesOf ops, ∀ y ∈ queriesOf ops, Close x y) →
      respond e (r.bytes ++ post) r.bytes.length fuel behindName clock d = some res →
      ∃ q ∈ waiting d.table, q.id = p.id ∧ q.hash = p.hash ∧ (waiting d.table).Perm (q :: waiting res.1.table) ∧
        ∃ m, res.2.2 = [m] ∧ m.entity = r.bytes ∧ m.back = q.client.back ∧ m.sock = q.client.sock ∧ m.returnHeader = q.client.returnHeader := by
  obtain ⟨qn, hq, hk⟩ := hr.one
  obtain ⟨k, hd⟩ := hr.name
  obtain ⟨f0, hf⟩ := fill_exact (Addr := Addr) r qn ls k post hr.valid hq hk hd hr.short hr.noZero false none 0 []
  refine ⟨f0, fun fuel hfuel behindName clock d ops p res ht hp hid hhash hclose h => ?_⟩
  unfold respond at h
  rw [hf fuel hfuel d.head] at h
  have hid' : ident (r.bytes ++ post) = p.id := by
    have hlen : 4 = r.head.length := hr.valid.1.symm
    match hh : r.head, hlen with
    | [a, b, c, g], _ =>
      rw [hh] at hid
      simp only [List.take_succ_cons, List.take_zero, List.cons.injEq, and_true] at hid
      have hb : ∃ t, r.bytes ++ post = a :: b :: t := ⟨_, by rw [Message.Msg.bytes, Message.Msg.header, hh]; rfl⟩
      obtain ⟨t, hb⟩ := hb
      unfold ident
      rw [hb]
      simp only [List.getD_cons_zero, List.getD_cons_succ]
      rw [← hid.1, ← hid.2]
      apply UInt16.toNat_inj.1
      have := p.id.toNat_lt
      simp only [UInt8.toNat_ofNat', UInt16.toNat_ofNat']
      omega
  simp only [misc, hl, ne_eq, not_true_eq_false, if_false] at h
  have hnb : isBlocked e.ap (⟨none, 0, (text ls).map toLowerByte, bkdrHash ((text ls).map toLowerByte), qn.type, false, r.ar.any (fun x => x.type == 41),
      [], r.bytes⟩ : Ctx Addr) = false := by
    rcases ha with ha | ⟨x, h1, h2⟩
    · simp [isBlocked, ha]
    · have : r.ar.any (fun x => x.type == 41) = true := List.any_eq_true.2 ⟨x, h1, by simpa using h2⟩
      simp [isBlocked, this]
  rw [show (r.bytes ++ post).take r.bytes.length = r.bytes from List.take_left' rfl] at h
  rw [if_neg (show ¬ _ by rw [show ([] : List Byte).take 47 = [] from rfl, hnb]; decide)] at h
  have hpq : p ∈ queriesOf ops := (pending_conservation ops).mem_iff.2 (List.mem_append_right _ (ht ▸ hp))
  generalize hx : entry (r.bytes ++ post) (⟨none, 0, (text ls).map toLowerByte, bkdrHash ((text ls).map toLowerByte), qn.type, false,
    r.ar.any (fun x => x.type == 41), ([] : List Byte).take 47, r.bytes⟩ : Ctx Addr) = x at h
  have hxid : p.id = x.id := by rw [← hx]; exact hid'.symm
  have hxh : p.hash = x.hash := by rw [← hx]; exact hhash
  have hcl : ∀ y ∈ x :: queriesOf ops, ∀ z ∈ x :: queriesOf ops, Close y z := by
    have key : ∀ y ∈ x :: queriesOf ops, ∃ y' ∈ queriesOf ops, y'.id = y.id ∧ y'.hash = y.hash := by
      intro y hy
      rcases List.mem_cons.1 hy with rfl | hy
      · exact ⟨p, hpq, hxid, hxh⟩
      · exact ⟨y, hy, rfl, rfl⟩
    intro y hy z hz
    obtain ⟨y', h1, h2, h3⟩ := key y hy
    obtain ⟨z', g1, g2, g3⟩ := key z hz
    have := hclose y' h1 z' g1
    unfold Close at *
    rw [h2, h3, g2, g3] at this
    exact this
  obtain ⟨q, hdel⟩ := response_found_partial ops x p hcl (ht ▸ hp) hxid hxh
  obtain ⟨r1, r2, r3, r4⟩ := (response_delivery ops x).1 q hdel
  rw [← ht] at hdel r1 r4
  unfold MContext.step at hdel r4
  dsimp only at hdel r4
  cases hg : genAnswerHeaderAndRemove d.table x with
  | mk o t =>
    rw [hg] at h hdel r4
    cases o with
    | none => simp at hdel
    | some q' =>
      simp only [Out.delivered.injEq] at hdel r4
      subst hdel
      dsimp only at h
      split at h
      · cases h
      · simp only [Option.some.injEq] at h
        subst h
        exact ⟨q', r1, r2.trans hxid.symm, r3.trans hxh.symm, r4, _, rfl, rfl, rfl, rfl, rfl⟩

theorem toAdditional_more {n : Nat} : ∀ {g g' : Generator.Gen}, Generator.toAdditional n g = some g' → Generator.toAdditional (n + 1) g = some g' := by
  induction n with
  | zero => intro g g' h; simp [Generator.toAdditional] at h
  | succ n ih =>
    intro g g' h
    rw [Generator.toAdditional] at h ⊢
    cases hp : Generator.nextPurpose g with
    | mk g1 p =>
      rw [hp] at h
      dsimp only at h ⊢
      split
      · rename_i h0; rw [if_pos h0] at h; exact h
      · rename_i h0; rw [if_neg h0] at h; exact ih h

/-- C69, UDP groups.  With the option set, a query without additional records that is given to a UDP group leaves with
one record more, an EDNS record; a query with an EDNS record, or any query without the option, leaves as it is. -/
theorem udp_edns_partial (e : Env) (x : Luck) (b : List Byte) (m : Ctx Addr) (d : Module Addr) (q : Message.Msg) (hm : m.entity = q.bytes)
    (hv : q.Valid) (hcap : q.bytes.length + 11 ≤ b.length) :
    (e.ap = true → m.edns = false → q.ar = [] → ∃ m' d', udpSend e x b m d = some (m', d') ∧
      m'.entity = ({ q with ar := [⟨[0], 41, 1280, 0, []⟩] } : Message.Msg).bytes) ∧
    (e.ap = false ∨ m.edns = true → ∃ d', udpSend e x b m d = some (m, d')) := by
  refine ⟨fun ha he har => ?_, fun h => ?_⟩
  · obtain ⟨g, h1, h2⟩ := Generator.edns_added_partial b.length q hv har hcap
    have h4 : Generator.addFakeEdns b.length q.bytes 4 = some g := by
      unfold Generator.addFakeEdns at h1 ⊢
      cases hi : Generator.initFrom b.length q.bytes q.bytes.length false with
      | none => rw [hi] at h1; cases h1
      | some g0 =>
        rw [hi] at h1
        simp only at h1 ⊢
        cases ht : Generator.toAdditional 3 g0 with
        | none => rw [ht] at h1; cases h1
        | some g1 => rw [ht] at h1; rw [toAdditional_more ht]; exact h1
    refine ⟨({ m with entity := g.out, edns := true } : Ctx Addr),
      ({ d with table := add d.table x.now (entry b ({ m with entity := g.out, edns := true } : Ctx Addr)) } : Module Addr), ?_, ?_⟩
    · unfold udpSend Msg.addFakeEdns
      rw [if_neg (by simp [ha, he]), hm, h4]
    · show g.out = _
      rw [h2]; simp [Message.Msg.add, har]
  · unfold udpSend Msg.addFakeEdns
    rw [if_pos h]
    exact ⟨_, rfl⟩

end Verif.Pipeline

namespace Verif.Forwarder
open Msg MContext Pipeline HostsLoop Message Name Keeps

variable {Addr : Type}

/-- Nothing but the frontends' buffers differs, except for what waits for the alias worker (`inner`) and the modules. -/
def SameBut (st st' : St Addr) (inner : List (Head Addr)) (mods : List (Module (Dest Addr))) : Prop :=
  st'.cache = st.cache ∧ st'.base = st.base ∧ st'.loop = st.loop ∧ st'.outer = st.outer ∧ st'.inner = inner ∧ st'.mods = mods

/-- What a client's query can lead to, `d` being the stage that takes care of it: one reply or none, and nothing else; or
it waits for the alias worker, and nothing is sent; or one module of the current groups gets it, and no client gets
anything. -/
def OneWay (d : Option (Outcome (Dest Addr))) (st st' : St Addr) (acts : List (Act Addr)) : Prop :=
  ((∀ i, d ≠ some (.upstream i)) ∧ SameBut st st' st.inner st.mods ∧ (acts = [] ∨ ∃ s, acts = [.client s])) ∨
  ((∃ o, d = some (.hosts o)) ∧ acts = [] ∧ ∃ h, SameBut st st' (st.inner ++ [h]) st.mods) ∨
  (∃ i m, d = some (.upstream i) ∧ SameBut st st' st.inner (st.mods.set (st.base + i) m) ∧
    (acts = [] ∨ ∃ bytes, acts = [.server (st.base + i) bytes]))

theorem post_own {m m' : Head Addr} {s : Sent (Dest Addr)} (hb : ∀ p t, m.back ≠ some (.loop p t)) (hs : s = sendBack { m with entity := m'.entity }) :
    (post m s).2 = [] ∧ ∃ a, (post m s).1 = [.client a] := by
  subst hs
  unfold sendBack
  cases h : m.back with
  | none => exact ⟨rfl, _, rfl⟩
  | some d =>
    cases d with
    | client a => exact ⟨rfl, _, rfl⟩
    | loop p t => exact absurd h (hb p t)

theorem mgrSend_one_way {e : Env} {st st' : St Addr} {x : Luck} {b : List Byte} {m h : Head Addr} {acts : List (Act Addr)}
    (hm : 12 ≤ m.entity.length) (hb : ∀ p t, m.back ≠ some (.loop p t)) (hs : mgrSend e st x b m = some (st', h, acts)) :
    OneWay (Pipeline.decide e st.cache x (b.drop m.entity.length) (requestTcp m) m) st st' acts := by
  have reply : ∀ b', (posts m [sendBack { m with entity := b' }]).2 = [] ∧ ∃ a, (posts m [sendBack { m with entity := b' }]).1 = [.client a] := by
    intro b'
    have := post_own (m := m) (m' := { m with entity := b' }) hb rfl
    simpa [posts] using this
  unfold mgrSend at hs
  cases hd : Pipeline.decide e st.cache x (b.drop m.entity.length) (requestTcp m) m with
  | none => rw [hd] at hs; cases hs
  | some out =>
    rw [hd] at hs
    unfold Pipeline.decide at hd
    cases out with
    | nowhere =>
      simp only [Option.some.injEq, Prod.mk.injEq] at hs
      obtain ⟨rfl, rfl, rfl⟩ := hs
      exact Or.inl ⟨by simp, ⟨rfl, rfl, rfl, rfl, rfl, rfl⟩, Or.inl rfl⟩
    | refused o =>
      simp only [Option.some.injEq, Prod.mk.injEq] at hs
      obtain ⟨rfl, _, rfl⟩ := hs
      unfold Filter.filterOut at hd
      split at hd
      · rename_i o' heq
        simp only [Option.some.injEq, Outcome.refused.injEq] at hd; subst hd
        split at heq
        · simp only [Prod.mk.injEq, true_and] at heq; subst heq
          obtain ⟨h1, a, h2⟩ := reply (refuse m.entity)
          unfold sendBackRefused
          rw [h1, h2]
          exact Or.inl ⟨by simp, ⟨rfl, rfl, rfl, List.append_nil _, rfl, rfl⟩, Or.inr ⟨a, rfl⟩⟩
        · simp at heq
      · repeat' split at hd
        all_goals cases hd
    | hosts o =>
      simp only [Option.some.injEq, Prod.mk.injEq] at hs
      obtain ⟨rfl, _, rfl⟩ := hs
      have ho : ∃ code, Hosts.hostsGet e.fnm e.goodIp e.hosts (b.drop m.entity.length) x.handOk m = some (code, o) := by
        split at hd
        · cases hd
        · split at hd
          · cases hd
          · rename_i code o' hh
            split at hd
            · simp only [Option.some.injEq, Outcome.hosts.injEq] at hd; subst hd; exact ⟨code, hh⟩
            · repeat' split at hd
              all_goals cases hd
      obtain ⟨code, ho⟩ := ho
      rcases hostsGet_out hm ho with rfl | rfl | ⟨b', hb', rfl⟩
      · exact Or.inl ⟨by simp, ⟨rfl, rfl, rfl, List.append_nil _, List.append_nil _, rfl⟩, Or.inl rfl⟩
      · exact Or.inr (Or.inl ⟨⟨_, rfl⟩, rfl, _, ⟨rfl, rfl, rfl, List.append_nil _, rfl, rfl⟩⟩)
      · obtain ⟨h1, a, h2⟩ := reply b'
        simp only [repliesOf, List.filterMap_cons, List.filterMap_nil]
        rw [h1, h2]
        exact Or.inl ⟨by simp, ⟨rfl, rfl, rfl, List.append_nil _, List.append_nil _, rfl⟩, Or.inr ⟨a, rfl⟩⟩
    | cache o =>
      simp only [Option.some.injEq, Prod.mk.injEq] at hs
      obtain ⟨rfl, _, rfl⟩ := hs
      have ho : ∃ code, DnsCache.fetch e.cache.cfg st.cache (b.drop m.entity.length) x.fuel x.now m = some (code, o) := by
        split at hd
        · cases hd
        · split at hd
          · cases hd
          · split at hd
            · cases hd
            · split at hd
              · cases hd
              · rename_i code' o'' hf
                split at hd
                · rename_i hz
                  simp only [Option.some.injEq, Outcome.cache.injEq] at hd; subst hd
                  split at hf
                  · exact ⟨_, hf⟩
                  · simp only [Option.some.injEq, Prod.mk.injEq] at hf
                    omega
                · repeat' split at hd
                  all_goals cases hd
      obtain ⟨code, ho⟩ := ho
      rcases fetch_out ho with rfl | ⟨b', hb', rfl⟩
      · exact Or.inl ⟨by simp, ⟨rfl, rfl, rfl, List.append_nil _, rfl, rfl⟩, Or.inl rfl⟩
      · obtain ⟨h1, a, h2⟩ := reply b'
        rw [h1, h2]
        exact Or.inl ⟨by simp, ⟨rfl, rfl, rfl, List.append_nil _, rfl, rfl⟩, Or.inr ⟨a, rfl⟩⟩
    | upstream i =>
      clear hd
      dsimp only at hs
      right; right
      split at hs
      · cases hs
      · split at hs
        · split at hs
          · cases hs
          · simp only [Option.some.injEq, Prod.mk.injEq] at hs
            obtain ⟨rfl, _, rfl⟩ := hs
            refine ⟨i, _, rfl, ⟨rfl, rfl, rfl, rfl, rfl, rfl⟩, ?_⟩
            split
            · exact Or.inr ⟨_, rfl⟩
            · exact Or.inl rfl
        · simp only [Option.some.injEq, Prod.mk.injEq] at hs
          obtain ⟨rfl, _, rfl⟩ := hs
          exact ⟨i, _, rfl, ⟨rfl, rfl, rfl, rfl, rfl, rfl⟩, Or.inl rfl⟩

/-- C23, each query has one outcome: a reply from one of the local stages, the alias worker, or one module of the current
groups, which is the one the routing chose (`precedence_partial` says when this is so). -/
theorem query_one_way {e : Env} {st st' : St Addr} {acts : List (Act Addr)} {ev : Ev Addr} {back : Option (Dest Addr)} {head : Head Addr} {sock : Nat}
    {agent b : List Byte} {len : Nat} {x : Luck}
    (hev : (∃ a, ev = .udpQuery sock a agent b len x ∧ back = some (.client a) ∧ head = st.udpHead) ∨
      (ev = .tcpQuery sock agent b len x ∧ back = none ∧ head = st.tcpHead))
    (ha : Accepted ev) (h : step e st ev = some (st', acts)) :
    ∃ m, fill head false b len back sock agent x.fuel = some (0, m) ∧ m.back = back ∧
      OneWay (Pipeline.decide e st.cache x (b.drop m.entity.length) false m) st st' acts := by
  rcases hev with ⟨a, rfl, rfl, rfl⟩ | ⟨rfl, rfl, rfl⟩
  · unfold step at h
    dsimp only at h
    split at h
    · cases h
    · rename_i code m hf
      have := ha _ _ _ hf
      subst this
      obtain ⟨e1, e2, e3, e4, e5, e6⟩ := fill_zero hf
      split at h
      · cases h
      · rename_i st1 hd acts1 hs
        simp only [Option.some.injEq, Prod.mk.injEq] at h
        obtain ⟨rfl, rfl⟩ := h
        have h1 := mgrSend_one_way (by rw [e4, List.length_take]; omega) (by rw [e1]; simp) hs
        rw [show requestTcp m = false by unfold requestTcp; rw [e1]] at h1
        exact ⟨m, hf, e1, h1⟩
  · unfold step at h
    dsimp only at h
    split at h
    · cases h
    · rename_i code m hf
      have := ha _ _ _ hf
      subst this
      obtain ⟨e1, e2, e3, e4, e5, e6⟩ := fill_zero hf
      split at h
      · cases h
      · rename_i st1 hd acts1 hs
        simp only [Option.some.injEq, Prod.mk.injEq] at h
        obtain ⟨rfl, rfl⟩ := h
        have h1 := mgrSend_one_way (by rw [e4, List.length_take]; omega) (by rw [e1]; simp) hs
        rw [show requestTcp m = false by unfold requestTcp; rw [e1]] at h1
        exact ⟨m, hf, e1, h1⟩

/-! ### the hypotheses hold -/

theorem msName : WireName (wire ms) := .label (str "ms") _ (by decide) (by decide) (.label (str "com") _ (by decide) (by decide) .root)
theorem orgName : WireName (wire org) := .label (str "a") _ (by decide) (by decide) (.label (str "org") _ (by decide) (by decide) .root)

theorem plainValid (h : List Byte) (ls : List (List Byte)) (t : Nat) (an : List RR) (ar : List RR) (hn : WireName (wire ls)) (hh : h.length = 4 ∧ (0 < t ∧ t < 65536) ∧
    an.length < 65536 ∧ ar.length < 65536) (hr : ∀ r ∈ an ++ ar, r.Valid) : (⟨h, [⟨wire ls, t, 1⟩], an, [], ar⟩ : Message.Msg).Valid := by
  refine ⟨hh.1, ?_, fun r h => hr r (List.mem_append_left _ h), by simp, fun r h => hr r (List.mem_append_right _ h), by simp, hh.2.2.1, by simp, hh.2.2.2⟩
  intro q hq
  rw [List.mem_singleton.1 hq]
  exact ⟨hn, hh.2.1.1, hh.2.1.2, by simp, by simp⟩

def exConfig : Config := ⟨some [28], none, none, [], [], Groups.allUp, Groups.two⟩

/-- The configuration of the concrete runs. -/
example : Configured exEnv exConfig where
  filter := ⟨0, rfl⟩
  static := rfl
  dynamic := rfl
  files := by intro d _ p c _ h; simp [exConfig, Groups.allUp] at h
  fine := by
    intro d hd
    simp only [exConfig, Groups.two, List.mem_cons, List.not_mem_nil, or_false] at hd
    rcases hd with rfl | rfl <;> simp only [Groups.Fine] <;> decide
  groups := by
    show Groups.load Groups.allUp (Groups.two.flatMap Groups.Decl.tokens) = some exEnv.groups
    have : (Groups.load Groups.allUp (Groups.two.flatMap Groups.Decl.tokens)).isSome = true := by decide +kernel
    unfold exEnv
    dsimp only
    cases h : Groups.load Groups.allUp (Groups.two.flatMap Groups.Decl.tokens) with
    | none => rw [h] at this; cases this
    | some m => rfl

/-- Type 28 is disabled there, type 1 is not, and there are no hosts data. -/
example : Disabled exEnv exConfig (str "ms.com") 28 ∧ ¬ Disabled exEnv exConfig (str "ms.com") 1 ∧ Untouched exEnv exConfig (str "ms.com") 1 := by
  refine ⟨Or.inl (by decide), ?_, Or.inr ?_⟩
  · rintro (h | ⟨d, hd, _⟩)
    · exact absurd h (by decide)
    · simp [exConfig, Filter.allDomains] at hd
  · simp [exConfig, Hosts.Silent, Hosts.Has, Hosts.entriesFor]

/-- An answer as the theorems on responses want it. -/
example : Answer ⟨[1, 2, 0x81, 0x80], [⟨wire ms, 1, 1⟩], [⟨[0xC0, 12], 1, 1, 60, [1, 2, 3, 4]⟩], [], []⟩ ms [] where
  valid := plainValid _ _ _ _ [] msName (by decide) (by
        intro r hr
        simp only [List.append_nil, List.mem_singleton] at hr
        subst hr
        exact ⟨.pointer _ _ (by decide), by decide, by decide, by decide, by decide, by decide, by decide⟩)
  one := ⟨_, rfl, rfl⟩
  name := by
    rw [List.append_nil]
    exact DnsCache.wireDenotes (by decide) (by decide +kernel) (by decide +kernel)
  short := by decide
  noZero := by decide

/-! ### what is not so -/

def apEnv : Env := { exEnv with ap := true }

def apActs (l : List (Ev Nat)) : Option (List (Act Nat)) := (run exSt ((both :: l).map fun ev => (apEnv, ev))).map (·.2)

/-- The query of C69 as it should reach a server: with an EDNS record. -/
def query41 (a b : UInt8) (ls : List (List Byte)) (t : Nat) : List Byte :=
  (⟨[a, b, 1, 0], [⟨wire ls, t, 1⟩], [], [], [⟨[0], 41, 1280, 0, []⟩]⟩ : Message.Msg).bytes

/-- An answer with an EDNS record. -/
def reply41 (a b : UInt8) (ls : List (List Byte)) (t : Nat) (ip : List Byte) : List Byte :=
  (⟨[a, b, 0x81, 0x80], [⟨wire ls, t, 1⟩], [⟨[0xC0, 12], t, 1, 60, ip⟩], [], [⟨[0], 41, 1280, 0, []⟩]⟩ : Message.Msg).bytes

/-- C69, the claim: with the option set, every well-formed message that leaves for a server has an EDNS record, so that servers
that follow the standard put one into the response (which is dropped otherwise). -/
def EdnsAsked : Prop := ∀ (st st' : St Nat) (l : List (Env × Ev Nat)) (acts : List (Act Nat)), Start st → (∀ x ∈ l, Accepted x.2 ∧ x.1.ap = true) →
  run st l = some (st', acts) → ∀ i bytes, .server i bytes ∈ acts → ∀ q : Message.Msg, q.Valid → (bytes = q.bytes ∨ bytes = be16 q.bytes.length ++ q.bytes) →
    ∃ r ∈ q.ar, r.type = 41

/-- TCP groups send the query as it is. -/
theorem edns_asked_false : ¬ EdnsAsked := by
  intro h
  let l : List (Env × Ev Nat) := [both, tcpAsk 5 (query 1 2 org 1), .take 1 0 1000 []].map fun ev => (apEnv, ev)
  have hr : (run exSt l).map (·.2) = some [.server 1 (be16 (query 1 2 org 1).length ++ query 1 2 org 1)] := by decide +kernel
  cases hx : run exSt l with
  | none => rw [hx] at hr; cases hr
  | some r =>
    rw [hx] at hr
    simp only [Option.map_some, Option.some.injEq] at hr
    obtain ⟨x, hm, _⟩ := h exSt r.1 l r.2 ⟨rfl, rfl, rfl, rfl⟩ (by
        intro x hx
        simp only [l, List.map_cons, List.map_nil, List.mem_cons, List.not_mem_nil, or_false] at hx
        rcases hx with rfl | rfl | rfl
        · exact ⟨trivial, rfl⟩
        · exact ⟨accepted_tcp (by decide +kernel), rfl⟩
        · exact ⟨trivial, rfl⟩) hx 1 _ (by rw [hr]; exact List.mem_singleton.2 rfl)
      ⟨[1, 2, 1, 0], [⟨wire org, 1, 1⟩], [], [], []⟩
      (plainValid _ _ _ _ [] orgName (by decide) (by simp)) (Or.inr rfl)
    cases hm

/-- So a client without EDNS never gets an answer from such a group, while one of a UDP group does – with an EDNS record it did
not ask for. -/
example : apActs [tcpAsk 5 (query 1 2 org 1), .take 1 0 1000 [], serverSays 1 (reply 1 2 org 1 [9, 9, 9, 9])] =
      some [.server 1 (be16 (query 1 2 org 1).length ++ query 1 2 org 1)] ∧
    apActs [udpAsk 7 (query 1 2 ms 1), serverSays 0 (reply 1 2 ms 1 [6, 6, 6, 6]), serverSays 0 (reply41 1 2 ms 1 [1, 2, 3, 4])] =
      some [.server 0 (query41 1 2 ms 1), .client (.udp 1 7 false (reply41 1 2 ms 1 [1, 2, 3, 4]))] := by decide +kernel

/-- C70, the claim: a reply repeats a question its client asked. -/
def SameQuestion : Prop := ∀ (st st' : St Nat) (l : List (Env × Ev Nat)) (acts : List (Act Nat)), Start st → (∀ x ∈ l, Accepted x.2) →
  run st l = some (st', acts) → ∀ sock a r, .client (.udp sock a false (Message.Msg.bytes r)) ∈ acts → r.Valid → r.qs ≠ [] →
    ∃ x ∈ l, ∃ agent b q post luck, x.2 = .udpQuery sock a agent b q.bytes.length luck ∧ Message.Msg.Valid q ∧ b = q.bytes ++ post ∧ q.qs = r.qs

/-- Client 8 asks for type 15 and gets an answer to type 1: whoever knows the identifier and the name can answer another
question (and its records are cached).  With two clients that use the same identifier, the one gets the other's answer. -/
theorem same_question_false : ¬ SameQuestion := by
  intro h
  let l : List (Env × Ev Nat) := [both, udpAsk 8 (query 1 2 ms 15), serverSays 0 (reply 1 2 ms 1 [1, 2, 3, 4])].map fun ev => (exEnv, ev)
  have hr : (run exSt l).map (·.2) = some [.server 0 (query 1 2 ms 15), .client (.udp 1 8 false (reply 1 2 ms 1 [1, 2, 3, 4]))] := by decide +kernel
  cases hx : run exSt l with
  | none => rw [hx] at hr; cases hr
  | some r =>
    rw [hx] at hr
    simp only [Option.map_some, Option.some.injEq] at hr
    obtain ⟨x, hm, g, b, q, post, y, h1, h2, h3, h4⟩ := h exSt r.1 l r.2 ⟨rfl, rfl, rfl, rfl⟩ (by
        intro x hx
        simp only [l, List.map_cons, List.map_nil, List.mem_cons, List.not_mem_nil, or_false] at hx
        rcases hx with rfl | rfl | rfl
        · trivial
        · exact accepted_udp (by decide +kernel)
        · trivial) hx 1 8 ⟨[1, 2, 0x81, 0x80], [⟨wire ms, 1, 1⟩], [⟨[0xC0, 12], 1, 1, 60, [1, 2, 3, 4]⟩], [], []⟩
      (by rw [hr]; exact List.mem_cons_of_mem _ List.mem_cons_self)
      (plainValid _ _ _ _ [] msName (by decide) (by
        intro r hr
        simp only [List.append_nil, List.mem_singleton] at hr
        subst hr
        exact ⟨.pointer _ _ (by decide), by decide, by decide, by decide, by decide, by decide, by decide⟩)) (by simp)
    simp only [l, List.map_cons, List.map_nil, List.mem_cons, List.not_mem_nil, or_false] at hm
    rcases hm with rfl | rfl | rfl
    · cases h1
    · simp only [udpAsk, Ev.udpQuery.injEq, true_and] at h1
      obtain ⟨_, hb, hl, _⟩ := h1
      rw [h3] at hb
      have hq : query 1 2 ms 15 = q.bytes := (List.append_inj hb hl).1
      have hd := congrArg (fun l => (l.drop 12).take 12) hq
      have : q.bytes.drop 12 = q.body := by
        rw [Message.Msg.bytes, List.drop_left' (Generator.header_length h2)]
      simp only [this, Message.Msg.body, h4] at hd
      revert hd
      simp only [qBytes, List.map_cons, List.map_nil, List.flatten_cons, List.flatten_nil, List.append_nil]
      intro hd
      have e : (Question.bytes ⟨wire ms, 1, 1⟩).length = 12 := by decide
      rw [List.take_append_of_le_length (by rw [e]; exact Nat.le_refl _)] at hd
      exact absurd hd (by decide)
    · cases h1

end Verif.Forwarder
