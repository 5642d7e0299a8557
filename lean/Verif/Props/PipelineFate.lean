import Verif.Props.Pipeline
import Verif.Props.HostsFate
/-! C23: which stage takes care of a query, for every well-formed query with any questions and any room for replies. -/

namespace Verif.Pipeline
open Msg MContext Message Name Hosts

variable {Addr : Type}

/-- The stages behind the hosts data: the cache if it has an answer, else one of the groups the documentation says, and none only if there are no groups;
the modules that run are those of the groups.  `r` is what happens. -/
def Later (e : Env) (c : Config) (st : Cache.St) (x : Luck) (behind : List Byte) (rt : Bool) (m : Ctx Addr) (r : Option (Outcome Addr)) : Prop :=
  (∀ o, e.cacheOn = true → DnsCache.fetch e.cache.cfg st behind x.fuel x.now m = some (0, o) → r = some (.cache o)) ∧
  (e.cacheOn = true → DnsCache.fetch e.cache.cfg st behind x.fuel x.now m = none → r = none) ∧
  ((e.cacheOn = false ∨ ∃ code o, code ≠ 0 ∧ DnsCache.fetch e.cache.cfg st behind x.fuel x.now m = some (code, o)) →
    ∃ gs, Groups.MeansAll c.world c.decls (some gs) ∧ e.groups.modules = gs.map (·.proto) ∧
      ((∃ i, Groups.Documented e.opts (m.back.isNone || rt) gs e.fnm m.domain i ∧ r = some (.upstream i)) ∨ gs = [] ∧ r = some .nowhere))

/-- What is seen of a query the filter lets through, for each thing the hosts data say of it.  A redirected query the alias worker cannot be reached for goes on. -/
def Goes (e : Env) (c : Config) (st : Cache.St) (x : Luck) (behind : List Byte) (rt : Bool) (m : Ctx Addr) (q : Message.Msg) (ls : List (List Byte))
    (r : Option (Outcome Addr)) : Fate → Prop
  | .refused => r = some (.hosts [.reply (sendBackRefused m)])
  | .redirected => (x.handOk = true → r = some (.hosts [.handOver { m with entity := m.entity.take 2 }])) ∧ (x.handOk = false → Later e c st x behind rt m r)
  | .replies rd => ∃ a : Message.Msg, ReplyTo q ls m.edns m.type rd a ∧ a.Valid ∧ r = some (.hosts [.reply (sendBack { m with entity := a.bytes })])
  | .undefined => r = none
  | .passes => Later e c st x behind rt m r

/-- C23.  The first stage that has something to say takes care of the query, and only this one: the filter, the hosts data, the cache, the groups; for every
well-formed query with any questions and records, any room for the reply, any contents of the cache.  (`all_decided`: there is always a fate; group files as for
`route_documented_partial`.) -/
theorem precedence_all {e : Env} {c : Config} (hc : Configured e c) (st : Cache.St) (x : Luck) (behind : List Byte) (rt : Bool) (m : Ctx Addr)
    (hname : m.domain ≠ []) (hhash : m.hash = bkdrHash m.domain) (q : Message.Msg) (y : Question) (more : List Question) (ls : List (List Byte))
    (hm : m.entity = q.bytes) (hv : q.Valid) (hq : q.qs = y :: more) (hy : y.name = wire ls) (hls : ∀ l ∈ ls, 1 ≤ l.length ∧ l.length ≤ 63) (hcap : behind.length < 16384) :
    (Disabled e c m.domain m.type → decide e st x behind rt m = some (.refused [sendBackRefused m])) ∧
    (¬ Disabled e c m.domain m.type → ∀ f, Decides e.hosts.blockIpv6 e.fnm e.goodIp c.static c.dynamic m.domain m.type m.edns q behind.length f →
      Goes e c st x behind rt m q ls (decide e st x behind rt m) f) := by
  refine ⟨(precedence_partial hc st x behind rt m hname hhash).1, fun hd f hf => ?_⟩
  obtain ⟨junk, hfi⟩ := hc.filter
  have hfil := Filter.filter_refuses_exactly junk c.types c.opt c.files e.fnm x.behindName m hname hhash
  rw [← hfi] at hfil
  have hb : (Filter.filterOut e.filter e.fnm x.behindName m).1 = false := by
    cases hx : (Filter.filterOut e.filter e.fnm x.behindName m).1 with
    | false => rfl
    | true => exact absurd (hfil.1.1 hx) hd
  have hh := hosts_decide hc.static hc.dynamic e.fnm e.goodIp behind m q y more ls hm hv hq hy hls hcap x.handOk f hf
  obtain ⟨gs, g1, g2, g3⟩ := Groups.route_documented_partial c.world c.decls hc.files hc.fine e.groups hc.groups
  have hdec : decide e st x behind rt m = match Hosts.hostsGet e.fnm e.goodIp e.hosts behind x.handOk m with
      | none => none
      | some (code, o) => if code = 0 then some (.hosts o) else
        match (if e.cacheOn then DnsCache.fetch e.cache.cfg st behind x.fuel x.now m else some (-792, [])) with
        | none => none
        | some (code, o) => if code = 0 then some (.cache o) else
          match Groups.route e.opts e.groups e.fnm x.behindName x.rnd (ident (m.entity ++ behind)).toNat (isFromTcp m || rt) m.domain m.hash with
          | some i => some (.upstream i)
          | none => some .nowhere := by
    unfold decide
    cases hx : Filter.filterOut e.filter e.fnm x.behindName m with
    | mk b o =>
      rw [hx] at hb
      dsimp only at hb
      subst hb
      rfl
  have hlater : hostsGet e.fnm e.goodIp e.hosts behind x.handOk m = some (-126, []) → Later e c st x behind rt m (decide e st x behind rt m) := by
    intro h0
    rw [hdec, h0]
    dsimp only
    rw [if_neg (by decide)]
    refine ⟨fun o hon hfe => ?_, fun hon hfe => ?_, fun hfe => ⟨gs, g1, g2, ?_⟩⟩
    · rw [if_pos hon, hfe]; rfl
    · rw [if_pos hon, hfe]
    · obtain ⟨k1, k2⟩ := g3 e.opts e.fnm x.behindName (m.back.isNone || rt) m.domain hname
      have hfin : (match (if e.cacheOn then DnsCache.fetch e.cache.cfg st behind x.fuel x.now m else some (-792, [])) with
        | none => none
        | some (code, o) => if code = 0 then some (.cache o) else
          match Groups.route e.opts e.groups e.fnm x.behindName x.rnd (ident (m.entity ++ behind)).toNat (isFromTcp m || rt) m.domain m.hash with
          | some i => some (.upstream i)
          | none => some .nowhere : Option (Outcome Addr)) =
          match Groups.route e.opts e.groups e.fnm x.behindName x.rnd (ident (m.entity ++ behind)).toNat (m.back.isNone || rt) m.domain (bkdrHash m.domain) with
          | some i => some (.upstream i)
          | none => some .nowhere := by
        rw [← hhash]
        rcases hfe with hoff | ⟨code, o, hne, hfe⟩
        · rw [hoff, if_neg (by simp)]; dsimp only; rw [if_neg (by decide)]; rfl
        · cases hon : e.cacheOn with
          | false => rw [if_neg (by simp)]; dsimp only; rw [if_neg (by decide)]; rfl
          | true => rw [if_pos rfl, hfe]; dsimp only; rw [if_neg hne]; rfl
      rw [hfin]
      cases hro : Groups.route e.opts e.groups e.fnm x.behindName x.rnd (ident (m.entity ++ behind)).toNat
          (m.back.isNone || rt) m.domain (bkdrHash m.domain) with
      | none => exact Or.inr ⟨(k2 _ _).1 hro, rfl⟩
      | some i => exact Or.inl ⟨i, (k1 i).2 ⟨_, _, hro⟩, rfl⟩
  cases f with
  | refused =>
    have hh : hostsGet e.fnm e.goodIp e.hosts behind x.handOk m = _ := hh
    show decide e st x behind rt m = _
    rw [hdec, hh]; rfl
  | passes => exact hlater hh
  | redirected =>
    have hh : hostsGet e.fnm e.goodIp e.hosts behind x.handOk m = _ := hh
    refine ⟨fun hk => ?_, fun hk => ?_⟩
    · rw [hk, if_pos rfl] at hh
      rw [hdec, hk, hh]; rfl
    · refine hlater ?_
      rw [hh, hk]; rfl
  | replies rd =>
    obtain ⟨a, a1, a2, a3⟩ := hh
    exact ⟨a, a1, a2, by rw [hdec, a3]; rfl⟩
  | undefined =>
    have hh : hostsGet e.fnm e.goodIp e.hosts behind x.handOk m = _ := hh
    show decide e st x behind rt m = _
    rw [hdec, hh]

/-! ### cases that meet the hypotheses -/

/-- The configuration with the hosts lines of the examples. -/
def hostsEnv (c : Cont) : Env := { Forwarder.exEnv with hosts := ⟨some c, Option.none, true⟩ }

theorem hosts_configured {c : Cont} (hl : Loaded c exEntries) : Configured (hostsEnv c) { Forwarder.exConfig with static := exEntries } where
  filter := ⟨0, rfl⟩
  static := hl
  dynamic := rfl
  files := by intro d _ p c _ h; simp [Forwarder.exConfig, Groups.allUp] at h
  fine := by
    intro d hd
    simp only [Forwarder.exConfig, Groups.two, List.mem_cons, List.not_mem_nil, or_false] at hd
    rcases hd with rfl | rfl <;> simp only [Groups.Fine] <;> decide
  groups := by
    show Groups.load Groups.allUp (Groups.two.flatMap Groups.Decl.tokens) = some Forwarder.exEnv.groups
    have : (Groups.load Groups.allUp (Groups.two.flatMap Groups.Decl.tokens)).isSome = true := by decide +kernel
    unfold Forwarder.exEnv
    dsimp only
    cases h : Groups.load Groups.allUp (Groups.two.flatMap Groups.Decl.tokens) with
    | none => rw [h] at this; cases this
    | some m => rfl

/-- A query with two questions is answered by the hosts data, whatever the cache holds. -/
example (st : Cache.St) (x : Luck) : ∃ c, exCont = some c ∧ ∃ r : Message.Msg, ReplyTo (twoMsg []) [str "a", str "com"] false 1 [10, 0, 0, 1] r ∧
    decide { hostsEnv c with fnm := noFnm } st x (List.replicate 300 0) false { twoCtx [] with hash := bkdrHash (str "a.com") } =
      some (.hosts [.reply (.udp 1 7 false r.bytes)]) := by
  obtain ⟨c, hc, _⟩ := lines_taken exLines_read
  have hl : Loaded c exEntries := ⟨_, exLines_read, hc⟩
  have hcf := hosts_configured hl
  have hcf : Configured { hostsEnv c with fnm := noFnm } { Forwarder.exConfig with static := exEntries } :=
    ⟨hcf.filter, hcf.static, hcf.dynamic, hcf.files, hcf.fine, hcf.groups⟩
  obtain ⟨-, h⟩ := precedence_all hcf st x (List.replicate 300 0) false { twoCtx [] with hash := bkdrHash (str "a.com") } (by decide) rfl (twoMsg []) _ _
    [str "a", str "com"] rfl twoMsg_valid rfl rfl (by decide) (by rw [List.length_replicate]; omega)
  obtain ⟨r, r1, -, r3⟩ := h (by
      rintro (h | ⟨d, hd, _⟩)
      · exact absurd h (by decide)
      · simp [Forwarder.exConfig, Filter.allDomains] at hd) (.replies [10, 0, 0, 1])
    (.static _ (by rintro ⟨-, h, -⟩; revert h; decide) exNotExcluded
      (.replies _ _ exAnswers (.v4 _ _ (by simp [Mapped])) rfl (by rw [List.length_replicate]; decide +kernel)) (by simp))
  exact ⟨c, hc, r, r1, r3⟩

end Verif.Pipeline
