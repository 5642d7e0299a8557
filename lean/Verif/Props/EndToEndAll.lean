import Verif.Props.EndToEnd
import Verif.Props.PipelineFate
import Verif.Props.HeaderAll
/-! C118: from the configuration to what happens to each query, for queries with any questions and configurations exchanged at run time. -/

namespace Verif.EndToEnd
open Config ReadLine Startup Forwarder Msg Message Name Hosts HostsLoop Pipeline

variable {Addr : Type}

/-- The query of a client: well-formed, any number of questions of class IN, the first for `ls`, any answer and authority records, no additional records but
EDNS.  `names` are the names the questions ask for. -/
structure Asks (q : Message.Msg) (names : List (List (List Byte))) (ls : List (List Byte)) (post : List Byte) : Prop where
  valid : q.Valid
  first : ∃ y more, q.qs = y :: more ∧ y.name = wire ls
  labels : ∀ l ∈ ls, 1 ≤ l.length ∧ l.length ≤ 63
  class_in : ∀ y ∈ q.qs, y.klass = 1
  named : Named (memAt (q.bytes ++ post)) q.bytes.length 12 q.qs names
  short : ∀ n ∈ names, (Name.text n).length < 256
  extra : q.ar = [] ∨ HasEdns q
  room : q.bytes.length + 11 ≤ q.bytes.length + post.length ∧ post.length < 16384

/-- The query is answered from the cache, with one reply, or goes to one of the groups the documentation says. -/
def Onward (e : Env) (cfg : Pipeline.Config) (c : Client Addr) (q : Message.Msg) (d : List Byte) (x : Luck) (st st' : St Addr) (acts : List (Act Addr)) : Prop :=
  (e.cacheOn = true ∧ ∃ b, acts = [.client (toClient b c)]) ∨
  ∃ gs, Groups.MeansAll cfg.world cfg.decls (.some gs) ∧ ((gs = [] ∧ acts = []) ∨
    ∃ k, Groups.Documented e.opts c.1.isNone gs e.fnm d k ∧ SentTo e.ap c q x gs k st st' acts)

/-- What happens to a query that is not disabled, for each thing the hosts data say of it.  If they make the program write behind its buffer, nothing is said. -/
def Shown (e : Env) (cfg : Pipeline.Config) (c : Client Addr) (q : Message.Msg) (d : List Byte) (t : Nat) (ls : List (List Byte)) (x : Luck) (st st' : St Addr)
    (acts : List (Act Addr)) : Fate → Prop
  | .refused => Refused c q acts
  | .redirected =>
    (x.handOk = true → acts = [] ∧ ∃ h : Head Addr, st'.inner = st.inner ++ [h] ∧ h.domain = d ∧ h.type = t ∧ h.sock = c.2 ∧ h.back = c.1.map .client) ∧
    (x.handOk = false → Onward e cfg c q d x st st' acts)
  | .replies rd => ∃ r : Message.Msg, ReplyTo q ls (q.ar.any fun x => x.type == 41) t rd r ∧ r.Valid ∧ acts = [.client (toClient r.bytes c)]
  | .passes => Onward e cfg c q d x st st' acts
  | .undefined => True

/-- What the configuration `cfg` means for a query taken to be one for the name `d` and the type `t`. -/
structure TreatedAll (e : Env) (cfg : Pipeline.Config) (c : Client Addr) (q : Message.Msg) (d : List Byte) (t : Nat) (ls : List (List Byte)) (post : List Byte) (x : Luck)
    (st st' : St Addr) (acts : List (Act Addr)) : Prop where
  disabled : Disabled e cfg d t → Refused c q acts
  fate : ¬ Disabled e cfg d t → ∀ f, Decides e.hosts.blockIpv6 e.fnm e.goodIp cfg.static cfg.dynamic d t (q.ar.any fun x => x.type == 41) q post.length f →
    Shown e cfg c q d t ls x st st' acts f

/-- A query no stage before the cache takes care of. -/
theorem onward_of_later {e : Env} {cfg : Pipeline.Config} {st st' : St Addr} (hk : (kinds st).drop st.base = e.groups.modules)
    {c : Client Addr} {q : Message.Msg} {names : List (List (List Byte))} {ls : List (List Byte)} {behind : List Byte} {x : Luck} (hq : Asks q names ls behind) {m h : Head Addr}
    (h1 : m.back = c.1.map .client) (h2 : m.sock = c.2)
    (h6 : m.returnHeader = false) (h7 : m.edns = q.ar.any (fun x => x.type == 41)) (h8 : m.entity = q.bytes) {acts : List (Act Addr)}
    (hs : mgrSend e st x (q.bytes ++ behind) m = .some (st', h, acts))
    (hl : Later e cfg st.cache x behind false m (Pipeline.decide e st.cache x behind false m)) : Onward e cfg c q m.domain x st st' acts := by
  have hdrop : (q.bytes ++ behind).drop m.entity.length = behind := by rw [h8]; exact List.drop_left' rfl
  have hrt : requestTcp m = false := by
    unfold requestTcp
    rw [h1]
    cases c.1 <;> rfl
  have htcp : (m.back.isNone || false) = c.1.isNone := by rw [h1]; cases c.1 <;> rfl
  unfold mgrSend at hs
  rw [hdrop, hrt] at hs
  obtain ⟨l1, l2, l3⟩ := hl
  have up : (e.cacheOn = false ∨ ∃ code o, code ≠ 0 ∧ DnsCache.fetch e.cache.cfg st.cache behind x.fuel x.now m = some (code, o)) → Onward e cfg c q m.domain x st st' acts := by
    intro hn
    obtain ⟨gs, g1, gm, g2⟩ := l3 hn
    refine .inr ⟨gs, g1, ?_⟩
    rcases g2 with ⟨i, i1, i2⟩ | ⟨g2, g3⟩
    · rw [htcp] at i1
      rw [i2] at hs
      dsimp only at hs
      refine .inr ⟨i, i1, ?_⟩
      split at hs
      · cases hs
      · rename_i d hdm
        have hg : gs[i]?.map (·.proto) = .some d.proto := by
          rw [← List.getElem?_map, ← gm, ← hk, List.getElem?_drop]
          unfold kinds
          rw [List.getElem?_map, hdm]
          rfl
        obtain ⟨g, hgi, hgp⟩ := Option.map_eq_some_iff.1 hg
        refine ⟨g, hgi, ?_⟩
        rw [hgp]
        cases hpr : d.proto with
        | udp =>
          rw [hpr] at hs
          dsimp only at hs
          have hu := udp_edns_partial e x (q.bytes ++ behind) m d q h8 hq.valid (by rw [List.length_append]; exact hq.room.1)
          have hed : m.edns = true ↔ HasEdns q := by
            rw [h7, List.any_eq_true]
            unfold HasEdns
            constructor
            · rintro ⟨z, z1, z2⟩; exact ⟨z, z1, by simpa using z2⟩
            · rintro ⟨z, z1, z2⟩; exact ⟨z, z1, by simpa using z2⟩
          by_cases hq0 : e.ap = false ∨ m.edns = true
          · obtain ⟨d', hu'⟩ := hu.2 hq0
            rw [hu'] at hs
            cases hs
            refine ⟨q, .inr ⟨hq0.imp id hed.1, rfl⟩, by rw [h8]⟩
          · have ha : e.ap = true := by
              cases hap : e.ap with
              | true => rfl
              | false => exact absurd (.inl hap) hq0
            have hb' : ¬ HasEdns q := fun hx => hq0 (.inr (hed.2 hx))
            obtain ⟨m', d', u1, u2⟩ := hu.1 ha (by
              cases hme : m.edns with
              | false => rfl
              | true => exact absurd (.inr hme) hq0) (hq.extra.resolve_right hb')
            rw [u1] at hs
            cases hs
            exact ⟨_, .inl ⟨ha, hb', rfl⟩, by rw [u2]⟩
        | tcp =>
          rw [hpr] at hs
          cases hs
          have hlt : st.base + i < st.mods.length := by
            rcases Nat.lt_or_ge (st.base + i) st.mods.length with h | h
            · exact h
            · rw [List.getElem?_eq_none h] at hdm; cases hdm
          refine ⟨rfl, d, tcpSend x m d, hdm, by simp [hlt], ?_⟩
          unfold tcpSend
          split
          · exact ⟨m, rfl, h8, h2, h1⟩
          · rfl
    · rw [g3] at hs
      cases hs
      exact .inl ⟨g2, rfl⟩
  cases hon : e.cacheOn with
  | false => exact up (.inl hon)
  | true =>
    cases hfe : DnsCache.fetch e.cache.cfg st.cache behind x.fuel x.now m with
    | none => rw [l2 hon hfe] at hs; cases hs
    | some v =>
      obtain ⟨code, o⟩ := v
      by_cases hz : code = 0
      · subst hz
        rw [l1 o hon hfe] at hs
        cases hs
        obtain ⟨b, rfl⟩ := fetch_zero hfe
        refine .inl ⟨hon, b, ?_⟩
        simp [posts, post_client m (m := { m with entity := b }) h1 h2 h6]
      · exact up (.inr ⟨code, o, hz, hfe⟩)

/-- What the decision makes the program do. -/
theorem mgrSend_treatsAll {e : Env} {cfg : Pipeline.Config} (hc : Configured e cfg) {st st' : St Addr} (hk : (kinds st).drop st.base = e.groups.modules)
    {c : Client Addr} {q : Message.Msg} {names : List (List (List Byte))} {ls : List (List Byte)} {behind : List Byte} {x : Luck} (hq : Asks q names ls behind) {m h : Head Addr}
    (h1 : m.back = c.1.map .client) (h2 : m.sock = c.2) (h4 : m.hash = bkdrHash m.domain) (hd : m.domain ≠ [])
    (h6 : m.returnHeader = false) (h7 : m.edns = q.ar.any (fun x => x.type == 41)) (h8 : m.entity = q.bytes) {acts : List (Act Addr)}
    (hs : mgrSend e st x (q.bytes ++ behind) m = .some (st', h, acts)) : TreatedAll e cfg c q m.domain m.type ls behind x st st' acts := by
  obtain ⟨y, more, hy1, hy2⟩ := hq.first
  have hp := precedence_all hc st.cache x behind false m hd h4 q y more ls h8 hq.valid hy1 hy2 hq.labels hq.room.2
  obtain ⟨p1, p2⟩ := hp
  have hon := onward_of_later (cfg := cfg) hk hq h1 h2 h6 h7 h8 hs
  have hdrop : (q.bytes ++ behind).drop m.entity.length = behind := by rw [h8]; exact List.drop_left' rfl
  have hrt : requestTcp m = false := by
    unfold requestTcp
    rw [h1]
    cases c.1 <;> rfl
  unfold mgrSend at hs
  rw [hdrop, hrt] at hs
  have href : ∀ m0 : Head Addr, Refused c q (post m0 (sendBackRefused m)).1 := by
    intro m0
    obtain ⟨a, b, f, g, e1, e2⟩ := refused_msg hq.valid
    refine ⟨a, b, f, g, e1, ?_⟩
    unfold sendBackRefused
    rw [post_client m0 (m := { m with entity := refuse m.entity }) h1 h2 h6]
    dsimp only
    rw [h8, e2]
  refine ⟨fun hdis => ?_, fun hdis f hf => ?_⟩
  · rw [p1 hdis] at hs
    cases hs
    simpa [posts] using href m
  · rw [← h7] at hf
    have hg := p2 hdis f hf
    cases f with
    | refused =>
      have hg : Pipeline.decide e st.cache x behind false m = _ := hg
      rw [hg] at hs
      cases hs
      have := href m
      simpa [Shown, posts, repliesOf] using this
    | passes => exact hon hg
    | redirected =>
      refine ⟨fun hh => ?_, fun hh => hon (hg.2 hh)⟩
      rw [hg.1 hh] at hs
      cases hs
      exact ⟨by simp [posts, repliesOf], _, rfl, rfl, rfl, h2, h1⟩
    | replies rd =>
      obtain ⟨r, r1, r2, r3⟩ := hg
      rw [r3] at hs
      cases hs
      refine ⟨r, by rw [← h7]; exact r1, r2, ?_⟩
      have := post_client (m := { m with entity := r.bytes }) m h1 h2 h6
      simp [posts, repliesOf, this]
    | undefined => trivial

/-- The header of such a query. -/
theorem fill_asks {q : Message.Msg} {names : List (List (List Byte))} {ls : List (List Byte)} {post : List Byte} (hq : Asks q names ls post) {h m : Head Addr}
    {back : Option (Dest Addr)} {sock fuel : Nat} {agent : List Byte} {c : Int} {d : List Byte} {t : Nat} (ha : asked q.qs names = .some (d, t))
    (e : fill h false (q.bytes ++ post) q.bytes.length back sock agent fuel = .some (c, m)) :
    m.back = back ∧ m.sock = sock ∧ m.domain = d ∧ m.hash = bkdrHash d ∧ m.type = t ∧ m.returnHeader = false ∧
      m.edns = q.ar.any (fun x => x.type == 41) ∧ m.entity = q.bytes := by
  obtain ⟨y, more, hy1, -⟩ := hq.first
  obtain ⟨f0, hf⟩ := fill_every (Addr := Dest Addr) q names post hq.valid (by simp [hy1]) hq.named hq.short false back sock agent
  have := fill_fuel (Nat.le_max_left fuel f0) e
  obtain ⟨d', t', h1, h2⟩ := (hf _ (Nat.le_max_right fuel f0) h).1 hq.class_in
  rw [ha] at h1
  cases h1
  rw [h2] at this
  simp only [Option.some.injEq, Prod.mk.injEq] at this
  obtain ⟨rfl, rfl⟩ := this
  exact ⟨rfl, rfl, rfl, rfl, rfl, rfl, rfl, rfl⟩

/-- A client's query, in a state whose modules are those of the configuration. -/
theorem step_treatsAll {e : Env} {cfg : Pipeline.Config} (hc : Configured e cfg) {st st' : St Addr} (hk : (kinds st).drop st.base = e.groups.modules)
    {c : Client Addr} {q : Message.Msg} {names : List (List (List Byte))} {ls : List (List Byte)} {behind agent : List Byte} {x : Luck} (hq : Asks q names ls behind)
    {d : List Byte} {t : Nat} (ha : asked q.qs names = .some (d, t)) (hd : d ≠ [])
    {acts : List (Act Addr)} (hs : step e st (asking c q behind agent x) = .some (st', acts)) : TreatedAll e cfg c q d t ls behind x st st' acts := by
  have more : ∀ {s1 : St Addr} {s2 : St Addr}, s1.inner = s2.inner → s1.mods = s2.mods → TreatedAll e cfg c q d t ls behind x st s1 acts →
      TreatedAll e cfg c q d t ls behind x st s2 acts := by
    intro s1 s2 h1 h2 ht
    have ho : Onward e cfg c q d x st s1 acts → Onward e cfg c q d x st s2 acts := by
      refine fun ho => ho.imp id ?_
      rintro ⟨gs, g1, g2⟩
      refine ⟨gs, g1, g2.imp id ?_⟩
      rintro ⟨k, k1, k2⟩
      refine ⟨k, k1, ?_⟩
      unfold SentTo at k2 ⊢
      rw [← h2]
      exact k2
    refine ⟨ht.disabled, fun hdis f hf => ?_⟩
    have hg := ht.fate hdis f hf
    cases f with
    | refused => exact hg
    | passes => exact ho hg
    | redirected => exact ⟨by rw [← h1]; exact hg.1, fun hh => ho (hg.2 hh)⟩
    | replies rd => exact hg
    | undefined => trivial
  obtain ⟨c1, c2⟩ := c
  cases c1 with
  | none =>
    unfold asking step at hs
    dsimp only at hs
    split at hs
    · cases hs
    · rename_i code m hf
      obtain ⟨f1, f2, f3, f4, f5, f6, f7, f8⟩ := fill_asks hq ha hf
      split at hs
      · cases hs
      · rename_i s1 h1 a1 hm
        cases hs
        subst f3 f5
        exact more (s1 := s1) rfl rfl (mgrSend_treatsAll hc hk hq f1 f2 f4 hd f6 f7 f8 hm)
  | some a =>
    unfold asking step at hs
    dsimp only at hs
    split at hs
    · cases hs
    · rename_i code m hf
      obtain ⟨f1, f2, f3, f4, f5, f6, f7, f8⟩ := fill_asks hq ha hf
      split at hs
      · cases hs
      · rename_i s1 h1 a1 hm
        cases hs
        subst f3 f5
        exact more (s1 := s1) rfl rfl (mgrSend_treatsAll hc hk hq f1 f2 f4 hd f6 f7 f8 hm)

theorem run_kindsAll : ∀ {l : List (Env × Ev Addr)} {st st' : St Addr} {acts : List (Act Addr)}, (∀ ev ∈ l, ∀ ps h, ev.2 ≠ .reload ps h) →
    run st l = .some (st', acts) → kinds st' = kinds st ∧ st'.base = st.base
  | [], st, st', acts, _, h => by
    simp only [run, Option.some.injEq, Prod.mk.injEq] at h
    obtain ⟨rfl, _⟩ := h
    exact ⟨rfl, rfl⟩
  | (e, ev) :: l, st, st', acts, hn, h => by
    unfold run at h
    split at h
    · cases h
    · rename_i st1 a1 h1
      split at h
      · cases h
      · rename_i st2 a2 h2
        simp only [Option.some.injEq, Prod.mk.injEq] at h
        obtain ⟨rfl, _⟩ := h
        obtain ⟨g1, g2⟩ := run_kindsAll (fun v hv => hn v (List.mem_cons_of_mem _ hv)) h2
        obtain ⟨g3, g4⟩ := step_kinds (hn (e, ev) List.mem_cons_self) h1
        exact ⟨g1.trans g3, g2.trans g4⟩

theorem run_split : ∀ {l k : List (Env × Ev Addr)} {st st' : St Addr} {acts : List (Act Addr)}, run st (l ++ k) = .some (st', acts) →
    ∃ st1 a1 a2, run st l = .some (st1, a1) ∧ run st1 k = .some (st', a2)
  | [], k, st, st', acts, h => ⟨st, [], acts, rfl, h⟩
  | (e, ev) :: l, k, st, st', acts, h => by
    rw [List.cons_append] at h
    unfold run at h
    split at h
    · cases h
    · rename_i st1 a1 h1
      split at h
      · cases h
      · rename_i st2 a2 h2
        simp only [Option.some.injEq, Prod.mk.injEq] at h
        obtain ⟨rfl, _⟩ := h
        obtain ⟨s, b1, b2, e1, e2⟩ := run_split h2
        refine ⟨s, a1 ++ b1, b2, ?_, e2⟩
        unfold run
        rw [h1]
        dsimp only
        rw [e1]

/-- C118, at run time.  In any history of events under any configurations, in which the groups were last exchanged for those of the configuration `cfg`: a query of
a client, with any questions, is treated as the configuration in force (`e`, set up from `cfg`) says, whatever it was before. -/
theorem in_force_all {e : Env} {cfg : Pipeline.Config} (hc : Configured e cfg) {e0 : Env} {st0 st st' : St Addr} {head : Head Addr} {l k : List (Env × Ev Addr)}
    {a0 acts : List (Act Addr)} (hr : run st0 (l ++ (e0, .reload e.groups.modules head) :: k) = .some (st, a0)) (hk : ∀ ev ∈ k, ∀ ps h, ev.2 ≠ .reload ps h)
    {c : Client Addr} {q : Message.Msg} {names : List (List (List Byte))} {ls : List (List Byte)} {post agent : List Byte} {x : Luck} (hq : Asks q names ls post)
    {d : List Byte} {t : Nat} (ha : asked q.qs names = .some (d, t)) (hd : d ≠ [])
    (hs : step e st (asking c q post agent x) = .some (st', acts)) : TreatedAll e cfg c q d t ls post x st st' acts := by
  refine step_treatsAll hc ?_ hq ha hd hs
  obtain ⟨s1, b1, b2, -, hr⟩ := run_split hr
  unfold run at hr
  split at hr
  · cases hr
  · rename_i s2 a2 hr1
    split at hr
    · cases hr
    · rename_i s3 a3 hr2
      simp only [Option.some.injEq, Prod.mk.injEq] at hr
      obtain ⟨rfl, _⟩ := hr
      obtain ⟨k1, k2⟩ := run_kindsAll hk hr2
      rw [k1, k2]
      simp only [step, Option.some.injEq, Prod.mk.injEq] at hr1
      rw [← hr1.1]
      unfold kinds
      dsimp only
      rw [List.map_append, List.drop_left' (by simp), List.map_map]
      exact List.map_id _

/-- C118.  Whatever flags are given and whatever the configuration file holds: if the program starts, then at any time, whatever has happened since, a query
of a client, with any questions, is treated as the lines of the file say; all cases are covered (`all_decided`).  Missing: as for `started_partial` (files and values
that are not read as they should be), and queries of other forms (`Asks`). -/
theorem end_to_end_all_partial {w : World} {as : List Arg} (ha : ∀ a ∈ as, a.Ok) {path dir : List Byte} (hp : ConfigFile w as path) (hh : Home w dir)
    {ss : List (List Byte)} {last : List Byte} {E : Nat} (hf : FileFits w path dir ss last E)
    (hw : ∀ ts tab, Seen 2048 (ss ++ [last]) ts → Reads (w.expand (dir ++ str "/") (directoryOf path)) (table dir) ts tab → Readable w tab)
    {r : Running} (h : main w (as.flatMap Arg.words) = .some r) :
    ∃ ts tab cfg, Seen 2048 (ss ++ [last]) ts ∧ Reads (w.expand (dir ++ str "/") (directoryOf path)) (table dir) ts tab ∧ Sources w tab cfg ∧
      Holds tab "EnableUDPtoTCP" (.bool r.env.opts.udpToTcp) ∧ Holds tab "EnableTCPtoUDP" (.bool r.env.opts.tcpToUdp) ∧ Holds tab "AP" (.bool r.env.ap) ∧
      Holds tab "BlockIpv6WhenIpv4Exists" (.bool r.env.hosts.blockIpv6) ∧ Holds tab "UseCache" (.bool r.env.cacheOn) ∧
      ∀ (st0 st st' : St Addr) (head : Head Addr) (l : List (Ev Addr)) (a0 acts : List (Act Addr)) (c : Client Addr) (q : Message.Msg)
        (names : List (List (List Byte))) (ls : List (List Byte)) (post agent : List Byte) (x : Luck) (d : List Byte) (t : Nat), Start st0 →
        (∀ ev ∈ l, ∀ ps h, ev ≠ .reload ps h) →
        run st0 ((.reload r.env.groups.modules head :: l).map fun ev => (r.env, ev)) = .some (st, a0) → Asks q names ls post →
        asked q.qs names = .some (d, t) → d ≠ [] →
        step r.env st (asking c q post agent x) = .some (st', acts) → TreatedAll r.env cfg c q d t ls post x st st' acts := by
  obtain ⟨ts, tab, cfg, h1, h2, h3, h4, h5, h6, h7, h8, h9, -⟩ := started_partial ha hp hh hf hw h
  refine ⟨ts, tab, cfg, h1, h2, h3, h5, h6, h7, h8, h9, ?_⟩
  intro st0 st st' head l a0 acts c q names ls post agent x d t hst hl hr hq hask hd hs
  rw [List.map_cons] at hr
  exact in_force_all (l := []) h4 hr (by
    intro ev hev ps h
    obtain ⟨v, hv, rfl⟩ := List.mem_map.1 hev
    exact hl v hv ps h) hq hask hd hs

/-! ### a case that meets the hypotheses: the file sets `AP`, a client asks two questions, and both leave for the default group with an EDNS record -/

def bothQ : Message.Msg := ⟨[1, 2, 1, 0], [⟨wire ms, 28, 1⟩, ⟨wire org, 1, 1⟩], [], [], []⟩

theorem bothValid : bothQ.Valid := by
  refine ⟨rfl, ?_, by simp [bothQ], by simp [bothQ], by simp [bothQ], by decide, by decide, by decide, by decide⟩
  intro q hq
  simp [bothQ] at hq
  rcases hq with rfl | rfl
  · exact ⟨msName, by decide, by decide, by decide, by decide⟩
  · exact ⟨orgName, by decide, by decide, by decide, by decide⟩

theorem bothAsks : Asks bothQ [ms, org] ms (List.replicate 300 0) where
  valid := bothValid
  first := ⟨_, _, rfl, rfl⟩
  labels := by decide
  class_in := by decide
  named := .cons (denotes_wire (by decide) (by unfold At; decide +kernel) (by decide +kernel))
    (.cons (denotes_wire (by decide) (by unfold At; decide +kernel) (by decide +kernel)) .nil)
  short := by decide
  extra := .inl rfl
  room := by rw [List.length_replicate]; exact ⟨by omega, by omega⟩

/-- What leaves the program. -/
def bothRun : Option (List (Act Nat)) :=
  (main sampleW (([Arg.quiet] : List Arg).flatMap Arg.words)).bind fun r => (run exSt ([.reload r.env.groups.modules noHead, .sweep 0 1000].map fun ev => (r.env, ev))).bind fun s =>
    (step r.env s.1 (asking (.some 8, 1) bothQ (List.replicate 300 0) [] exLuck)).map (·.2)

theorem both_run : bothRun = .some [.server 0 ({ bothQ with ar := [⟨[0], 41, 1280, 0, []⟩] } : Message.Msg).bytes] := by decide +kernel

/-- The query is taken to be one for the second name and the first type. -/
theorem both_asked : asked bothQ.qs [ms, org] = .some (plain org, 28) := by decide

theorem both_treated : ∃ r ts tab cfg st st' acts, main sampleW (([Arg.quiet] : List Arg).flatMap Arg.words) = .some r ∧ ts = [str "AP true"] ∧
    Reads (fun p => p) (table (str "/root/.dnsforwarder")) ts tab ∧ Sources sampleW tab cfg ∧
    TreatedAll r.env cfg (.some 8, 1) bothQ (plain org) 28 ms (List.replicate 300 0) exLuck st st' acts ∧
    acts = [.server 0 ({ bothQ with ar := [⟨[0], 41, 1280, 0, []⟩] } : Message.Msg).bytes] := by
  have h := both_run
  unfold bothRun at h
  obtain ⟨r, hr, h⟩ := Option.bind_eq_some_iff.1 h
  obtain ⟨s, hs, h⟩ := Option.bind_eq_some_iff.1 h
  obtain ⟨t, ht, h⟩ := Option.map_eq_some_iff.1 h
  obtain ⟨ts, tab, cfg, h1, h2, h3, -, -, -, -, -, h4⟩ := end_to_end_all_partial (Addr := Nat) (as := [.quiet]) (by simp [Arg.Ok])
    (.inr ⟨.none (by simp), str "/root", rfl, by decide, by decide⟩) ⟨⟨str "/root", rfl, by decide⟩, by decide, by decide, by decide⟩ sample_fits
    sample_readable hr
  refine ⟨r, ts, tab, cfg, s.1, t.1, t.2, hr, ap_seen h1, h2, h3, ?_, h⟩
  exact h4 exSt s.1 t.1 noHead [.sweep 0 1000] s.2 t.2 _ _ _ _ _ _ _ _ _ ⟨rfl, rfl, rfl, rfl⟩ (by simp) hs bothAsks both_asked (by decide) ht

end Verif.EndToEnd
