import Verif.Lemmas.ProgressAll
/-! C110: well-formed traffic never leads to undefined behaviour — whatever queries, server responses, timers and threads do, in whatever order,
every event is processed. -/

namespace Verif.Forwarder
open Msg MContext Pipeline HostsLoop HostsLoop.Spec Keeps Message Name DnsCache DnsCache.Spec Cache.Spec Hosts

variable {Addr : Type}

/-- A well-formed query with any number of questions of class IN for names as RFC 1035 limits them, in a buffer `b` with room behind it for what the cache
holds for the first name (and for a record of the hosts data); the modules of the configuration run; with the option that asks for EDNS records on, the query has
one or has no additional records. -/
def ProperQuery (s : Settings) (e : Env) (st : St Addr) (b : List Byte) (len : Nat) (x : Luck) : Prop :=
  ∃ (q : Message.Msg) (y : Question) (ls : List (List Byte)) (post : List Byte), AsksAll q y ls ∧ b = q.bytes ++ post ∧ len = q.bytes.length ∧ len ≤ x.fuel ∧
    len + 279 ≤ post.length ∧ post.length < 16384 ∧ st.base + e.groups.modules.length ≤ st.mods.length ∧
    (q.an = [] → Cached y.type → Fits s.cfg st.cache x.now ls y.type len post.length) ∧ (e.ap = true → HasEdns q ∨ q.ar = [])

/-- A well-formed response with any number of questions of class IN: the names in it are as RFC 1035 limits them and have no bytes of 192 or more, also after the
configured replacements of addresses; if there are any, records for addresses hold addresses. -/
def ProperResponse (e : Env) (b : List Byte) (len fuel : Nat) : Prop :=
  ∃ (r : Message.Msg) (tail : List Byte), AnswerAll r ∧ b = r.bytes ++ tail ∧ len = r.bytes.length ∧ len ≤ fuel ∧
    (e.lists ≠ none → ∀ z ∈ r.an, IpMisc.Sane z) ∧
    ∀ r', Passes e r r' → ∃ fs, Response r' fs ∧ ∀ f ∈ fs, Simple f.owner ∧ ∀ ls, f.value = .name ls → Simple ls

/-- The event can happen in the state, and the messages that come in with it are well-formed.  `fuel` is only the model's bound on loops; the buffers of
the alias worker have 800 to 16383 bytes (in the program about 2000), and what the cache holds for the target of an alias fits them. -/
def Proper (s : Settings) (e : Env) (st : St Addr) : Ev Addr → Prop
  | .udpQuery _ _ _ b len x => ProperQuery s e st b len x
  | .tcpQuery _ _ b len x => ProperQuery s e st b len x
  | .response i b len fuel _ _ => i < st.mods.length ∧ ProperResponse e b len fuel
  | .take i k _ _ => ∃ d, st.mods[i]? = some d ∧ k < d.inbox.length
  | .lose i k => ∃ d, st.mods[i]? = some d ∧ k < d.inbox.length
  | .sweep i _ => i < st.mods.length
  | .innerTake k cap _ _ _ x => k < st.inner.length ∧ 900 ≤ cap ∧ cap < 16384 ∧ 300 ≤ x.fuel ∧ st.base + e.groups.modules.length ≤ st.mods.length ∧
      ∀ m tg, st.inner[k]? = some m → getCName e.fnm e.hosts m.domain = some (text tg) → RfcName tg → Cached m.type →
        Fits s.cfg st.cache x.now tg m.type (16 + (wire tg).length) (cap - (16 + (wire tg).length))
  | .innerLose k => k < st.inner.length
  | .outerTake k cap _ _ fuel => k < st.outer.length ∧ 800 ≤ cap ∧ cap < 16384 ∧ ∀ m, st.outer[k]? = some m → m.entity.length + 255 ≤ fuel
  | .outerLose k => k < st.outer.length
  | _ => True

/-- A history of such events, each with a sound configuration in force at its time. -/
def ProperRun (s : Settings) : St Addr → List (Env × Ev Addr) → Prop
  | _, [] => True
  | st, (e, ev) :: l => SoundEnv s e ∧ Proper s e st ev ∧ ∀ st' acts, step e st ev = some (st', acts) → ProperRun s st' l

theorem pick_done {α : Type} {l : List α} {k : Nat} (h : k < l.length) : ∃ m l', pick l k = some (m, l') ∧ l[k]? = some m ∧ m ∈ l ∧ ∀ z ∈ l', z ∈ l := by
  have h1 : l[k]? = some l[k] := List.getElem?_eq_getElem h
  have h2 : pick l k = some (l[k], l.eraseIdx k) := by simp [pick, h1, List.eraseIdx_eq_take_drop_succ]
  exact ⟨_, _, h2, h1, List.getElem_mem h, fun z hz => List.mem_of_mem_eraseIdx hz⟩

/-- One event. -/
theorem progress [DecidableEq Addr] {s : Settings} (ha : Area s.cfg) {e : Env} (he : SoundEnv s e) {st : St Addr} (hi : Inv st) (hr : Rest s st) {ev : Ev Addr} (hp : Proper s e st ev) :
    ∃ st' acts, step e st ev = some (st', acts) ∧ Inv st' ∧ Rest s st' := by
  have hcache : e.cache = s := he.cache
  suffices hstep : (∃ st' acts, step e st ev = some (st', acts) ∧ Rest s st') ∧ Accepted ev by
    obtain ⟨⟨st', acts, h1, h2⟩, h3⟩ := hstep
    exact ⟨st', acts, h1, (step_balance hi h3 h1).1, h2⟩
  cases ev with
  | udpQuery sock addr agent b len x =>
    obtain ⟨q, y, ls, post, hq, rfl, rfl, hf, h1, h2, h3, h4, h5⟩ := hp
    obtain ⟨m, m1, m2, m3, m4, m5⟩ := query_fill_all hq (post := post) hf st.udpHead (some (.client addr)) (by simp) sock agent st.loop.mem
    obtain ⟨st', h, acts, g1, g2⟩ := mgrSend_all ha he hi.1 hr h3 (x := x) (post' := post) hq m2 m4 (by rw [m3]; simp) h1 h2 hf h4
      (fun hap => by rcases h5 hap with g | g <;> grind)
    refine ⟨⟨{ st' with udpHead := h }, acts, ?_, ⟨g2.cache, g2.mods, g2.inner, g2.loop, g2.outer⟩⟩, ?_⟩
    · simp only [step, m1, g1]
    · intro h m' c hm'
      obtain ⟨m'', k1, _⟩ := query_fill_all hq (post := post) hf h (some (.client addr)) (by simp) sock agent st.loop.mem
      rw [k1] at hm'
      exact (congrArg Prod.fst (Option.some.inj hm')).symm
  | tcpQuery sock agent b len x =>
    obtain ⟨q, y, ls, post, hq, rfl, rfl, hf, h1, h2, h3, h4, h5⟩ := hp
    obtain ⟨m, m1, m2, m3, m4, m5⟩ := query_fill_all hq (post := post) hf st.tcpHead none (by simp) sock agent st.loop.mem
    obtain ⟨st', h, acts, g1, g2⟩ := mgrSend_all ha he hi.1 hr h3 (x := x) (post' := post) hq m2 m4 (by rw [m3]; simp) h1 h2 hf h4
      (fun hap => by rcases h5 hap with g | g <;> grind)
    refine ⟨⟨{ st' with tcpHead := h }, acts, ?_, ⟨g2.cache, g2.mods, g2.inner, g2.loop, g2.outer⟩⟩, ?_⟩
    · simp only [step, m1, g1]
    · intro h m' c hm'
      obtain ⟨m'', k1, _⟩ := query_fill_all hq (post := post) hf h none (by simp) sock agent st.loop.mem
      rw [k1] at hm'
      exact (congrArg Prod.fst (Option.some.inj hm')).symm
  | response i b len fuel bn clock =>
    refine ⟨?_, trivial⟩
    obtain ⟨h1, r, tail, hans, rfl, rfl, hf, hs, hres⟩ := hp
    have hd : st.mods[i]? = some st.mods[i] := List.getElem?_eq_getElem h1
    obtain ⟨d', ops, out, g1, g2, g3⟩ := respond_done he (d := st.mods[i]) (tail := tail) bn clock hans hf hs hres
    have hdm := List.getElem_mem h1
    obtain ⟨c, c1, c2⟩ : ∃ c, Cache.run s.cfg st.cache ops = some c ∧ CacheOk s c := by
      rcases g2 with rfl | ⟨ev, k1, k2⟩
      · exact ⟨st.cache, rfl, hr.cache⟩
      · exact cache_event ha hr.cache k1 k2
    have hstep : step e st (.response i (r.bytes ++ tail) r.bytes.length fuel bn clock) =
        some ({ st with mods := st.mods.set i d', cache := c, outer := st.outer ++ out.flatMap (fun m => (post m (sendBack m)).2) },
          out.flatMap (fun m => (post m (sendBack m)).1)) := by
      simp only [step, hd, g1, hcache, c1]
    refine ⟨_, _, hstep, c2, ?_, hr.inner, hr.loop, ?_⟩
    · have hmov := step_moves hi (by trivial) hstep
      exact okModules (S := Source (.response i (r.bytes ++ tail) r.bytes.length fuel bn clock)) (fun m hm => absurd hm (by simp [Source])) hi.1 hr.mods hmov
    · intro z hz
      rcases List.mem_append.1 hz with hz | hz
      · exact hr.outer z hz
      · obtain ⟨m, hm, hz⟩ := List.mem_flatMap.1 hz
        obtain ⟨p, p1, p2, r', p3, p4⟩ := g3 m hm
        obtain ⟨k1, ⟨k2, k3⟩⟩ := posts_loop hz
        subst k1
        exact ⟨((hr.mods _ hdm).1 p p1).same p2, ⟨k2, k3⟩, r', p3, p4⟩
  | take i k now rest =>
    refine ⟨?_, trivial⟩
    obtain ⟨d, h1, h2⟩ := hp
    obtain ⟨m, l, p1, p2, p3, p4⟩ := pick_done h2
    have hstep : step e st (.take i k now rest) =
        some ({ st with mods := st.mods.set i (tcpTake now rest m { d with inbox := l }) }, [.server i (be16 m.entity.length ++ m.entity)]) := by
      simp only [step, h1, p1]
    refine ⟨_, _, hstep, hr.cache, ?_, hr.inner, hr.loop, hr.outer⟩
    exact okModules (fun m hm => absurd hm (by simp [Source])) hi.1 hr.mods (step_moves hi (by trivial) hstep)
  | lose i k =>
    refine ⟨?_, trivial⟩
    obtain ⟨d, h1, h2⟩ := hp
    obtain ⟨m, l, p1, p2, p3, p4⟩ := pick_done h2
    have hstep : step e st (.lose i k) = some ({ st with mods := st.mods.set i { d with inbox := l } }, []) := by
      simp only [step, h1, p1]
    refine ⟨_, _, hstep, hr.cache, ?_, hr.inner, hr.loop, hr.outer⟩
    exact okModules (fun m hm => absurd hm (by simp [Source])) hi.1 hr.mods (step_moves hi (by trivial) hstep)
  | sweep i now =>
    refine ⟨?_, trivial⟩
    have hd : st.mods[i]? = some st.mods[i] := List.getElem?_eq_getElem hp
    have hstep : step e st (.sweep i now) = some ({ st with mods := st.mods.set i { st.mods[i] with table := (MContext.sweep st.mods[i].table now).2 } }, []) := by
      simp only [step, hd]
    refine ⟨_, _, hstep, hr.cache, ?_, hr.inner, hr.loop, hr.outer⟩
    exact okModules (fun m hm => absurd hm (by simp [Source])) hi.1 hr.mods (step_moves hi (by trivial) hstep)
  | cacheSweep now =>
    refine ⟨?_, trivial⟩
    obtain ⟨c, c1, c2⟩ := cache_event (ev := .sweep now) ha hr.cache trivial rfl
    refine ⟨{ st with cache := c }, [], ?_, c2, hr.mods, hr.inner, hr.loop, hr.outer⟩
    simp only [step, hcache, c1]
  | innerTake k cap sock rnd old x =>
    refine ⟨?_, trivial⟩
    obtain ⟨h1, h2, h3, h4, h5, h6⟩ := hp
    obtain ⟨m, l, p1, p2, p3, p4⟩ := pick_done h1
    rcases inner_done he (hr.inner m p3) (cap := cap) (rnd := rnd) (fuel := x.fuel) (sock := sock) (now := x.now) (old := old) (by omega) h4 with g | ⟨tg, q, lp, a, t, g1, g2, g3, g4, g5, g6, g7, g8, g9, g10, g11, g12⟩
    · refine ⟨{ st with inner := l }, [], ?_, hr.cache, hr.mods, fun z hz => hr.inner z (p4 z hz), hr.loop, hr.outer⟩
      simp only [step, p1, g]
    · obtain ⟨ms, hm1, hm2, hm3, hm4, hm5⟩ := hr.inner m p3
      generalize hqm : (⟨u16 rnd ++ [1, 0], [⟨wire tg, m.type, 1⟩], [], [], []⟩ : Message.Msg) = Q at g5 g6
      have hl : Q.bytes.length = 16 + (wire tg).length := by
        rw [← hqm]; simp [Msg.bytes, Msg.header, Msg.body, qBytes, rrBytes, Question.bytes, Parser.u16_length]; omega
      have hw := wire_length_le (ls := tg)
      have hw2 := g2.2
      have hasks : Hosts.Asks Q ⟨wire tg, m.type, 1⟩ tg := ⟨g6, by rw [← hqm], rfl, rfl, g2, by rw [← hqm]⟩
      have hok : OkHead lp.mem q := ⟨lower tg, lower_rfc g2, g7, by rw [g8]; exact hm3, by rw [g8]; exact hm4, fun p' t' hb => by
        rw [g9] at hb
        simp only [Option.some.injEq, Dest.loop.injEq] at hb
        obtain ⟨rfl, _⟩ := hb
        exact ⟨lower_simple g3, g10⟩⟩
      have hr' : Rest s { st with inner := l, loop := lp } := by
        refine ⟨hr.cache, fun d hd => ⟨fun p hp => ((hr.mods d hd).1 p hp).mono g11, fun z hz => ((hr.mods d hd).2 z hz).mono g11⟩,
          fun z hz => (hr.inner z (p4 z hz)).mono g11, ?_, fun z hz => ?_⟩
        · intro p hp
          rcases g12 p hp with hp | hp
          · exact (hr.loop p hp).mono g11
          · rw [hp]; exact (hr.inner m p3).mono g11
        · obtain ⟨z1, z2, z3⟩ := hr.outer z hz
          exact ⟨z1.mono g11, z2, z3⟩
      obtain ⟨st', hd', acts, k1, k2⟩ := mgrSend_sound ha he (st := { st with inner := l, loop := lp }) (x := x) (post' := List.replicate (cap - Q.bytes.length) 0) (m := q)
        hi.1 hr' h5 hasks g5 hok (fun _ _ _ => g3) (by rw [List.length_replicate]; omega) (by rw [List.length_replicate]; omega) (by omega)
        (fun hc => by rw [List.length_replicate, hl]; exact h6 m tg p2 g1 g2 hc) (fun _ => .inr (by rw [← hqm]))
      rw [← g5] at k1
      exact ⟨st', acts, by simp only [step, p1, g4, k1], k2⟩
  | innerLose k =>
    refine ⟨?_, trivial⟩
    obtain ⟨m, l, p1, p2, p3, p4⟩ := pick_done hp
    exact ⟨{ st with inner := l }, [], by simp only [step, p1], hr.cache, hr.mods, fun z hz => hr.inner z (p4 z hz), hr.loop, hr.outer⟩
  | outerTake k cap rest header fuel =>
    refine ⟨?_, trivial⟩
    obtain ⟨h1, h2, h3, h4⟩ := hp
    obtain ⟨m, l, p1, p2, p3, p4⟩ := pick_done h1
    obtain ⟨o1, ⟨par, t, o2⟩, o3⟩ := hr.outer m p3
    obtain ⟨lp, o, g1, g2, g3, g4⟩ := outer_done hi.2.2.1 hr.loop ⟨o1, ⟨par, t, o2⟩, o3⟩ rest (header := header) o2 h2 h3 (h4 m p2)
    have hmods : ∀ d ∈ st.mods, OkModule lp.mem d := fun d hd => ⟨fun p hp => ((hr.mods d hd).1 p hp).mono g2, fun z hz => ((hr.mods d hd).2 z hz).mono g2⟩
    have hin : ∀ z ∈ st.inner, OkHead lp.mem z := fun z hz => (hr.inner z hz).mono g2
    have hlp : ∀ p ∈ waiting lp.table, OkHead lp.mem p.client := fun p hp => (hr.loop p (g3 p hp)).mono g2
    have hout : ∀ z ∈ l, OkOuter lp.mem z := fun z hz => by
      obtain ⟨z1, z2, z3⟩ := hr.outer z (p4 z hz)
      exact ⟨z1.mono g2, z2, z3⟩
    cases o with
    | none => exact ⟨{ st with outer := l, loop := lp }, [], by simp only [step, p1, o2, g1], hr.cache, hmods, hin, hlp, hout⟩
    | some h =>
      obtain ⟨p, q1, q2, r, q3, q4⟩ := g4 h rfl
      refine ⟨{ st with outer := l ++ (post h (sendBack h)).2, loop := lp }, (post h (sendBack h)).1, by simp only [step, p1, o2, g1], hr.cache, hmods, hin, hlp, ?_⟩
      intro z hz
      rcases List.mem_append.1 hz with hz | hz
      · exact hout z hz
      · obtain ⟨k1, hk⟩ := posts_loop hz
        subst k1
        exact ⟨((hr.loop p q1).same q2).mono g2, hk, r, q3, q4 hk⟩
  | outerLose k =>
    refine ⟨?_, trivial⟩
    obtain ⟨m, l, p1, p2, p3, p4⟩ := pick_done hp
    exact ⟨{ st with outer := l }, [], by simp only [step, p1], hr.cache, hr.mods, hr.inner, hr.loop, fun z hz => hr.outer z (p4 z hz)⟩
  | loopSweep now =>
    refine ⟨⟨_, _, rfl, hr.cache, hr.mods, hr.inner, ?_, hr.outer⟩, trivial⟩
    obtain ⟨_, s2, _⟩ := sweep_spec hi.2.2.1 now
    have hs : (waiting (MContext.sweep st.loop.table now).2).Sublist (waiting st.loop.table) := by
      unfold waiting; rw [s2]; exact List.filter_sublist.map _
    exact fun p hp => hr.loop p (hs.subset hp)
  | reload protos head =>
    refine ⟨⟨_, _, rfl, hr.cache, ?_, hr.inner, hr.loop, hr.outer⟩, trivial⟩
    intro d hd
    rcases List.mem_append.1 hd with hd | hd
    · exact hr.mods d hd
    · obtain ⟨p, _, rfl⟩ := List.mem_map.1 hd
      exact ⟨by simp [waiting, Bst.State.init, Bst.Tree.toList], by simp⟩
  | tcpOpen n => exact ⟨⟨st, [], rfl, hr⟩, trivial⟩

/-- C110, partial.  From the start of the program on, well-formed traffic is processed to its end: no event, in whatever order they come, leads to undefined
behaviour or to an endless loop.  Missing (and false, `anything_false`): messages that are not well-formed. -/
theorem well_formed_processed_partial [DecidableEq Addr] {s : Settings} (ha : Area s.cfg) {st : St Addr} (hs : Start st) (hc : ∃ st0, st.cache = Cache.St.init s.cfg st0)
    {l : List (Env × Ev Addr)} (hl : ProperRun s st l) : ∃ st' acts, run st l = some (st', acts) := by
  have key : ∀ (l : List (Env × Ev Addr)) (st : St Addr), Inv st → Rest s st → ProperRun s st l → ∃ st' acts, run st l = some (st', acts) := by
    intro l
    induction l with
    | nil => exact fun st _ _ _ => ⟨st, [], rfl⟩
    | cons x l ih =>
      obtain ⟨e, ev⟩ := x
      intro st hi hr hl
      obtain ⟨st1, a1, h1, h2, h3⟩ := progress ha hl.1 hi hr hl.2.1
      obtain ⟨st2, a2, h4⟩ := ih st1 h2 h3 (hl.2.2 st1 a1 h1)
      exact ⟨st2, a1 ++ a2, by simp only [run, h1, h4]⟩
  obtain ⟨st0, hc⟩ := hc
  obtain ⟨h1, h2, h3, h4⟩ := hs
  refine key l st (start_inv ⟨h1, h2, h3, h4⟩).1 ⟨⟨[], [], rfl, ⟨st0, by rw [hc]; rfl⟩, by simp⟩, ?_, ?_, ?_, ?_⟩ hl
  · rw [h1]; simp
  · rw [h3]; simp
  · rw [h2]; simp [waiting, Bst.State.init, Bst.Tree.toList]
  · rw [h4]; simp

/-! ### what is not so -/

/-- C110, the full claim: every datagram of a client is processed. -/
def Anything : Prop := ∀ (e : Env) (st : St Nat) (sock c : Nat) (agent b : List Byte) (len : Nat) (x : Luck), Start st → len ≤ b.length →
  ∃ f0, ∀ fuel, f0 ≤ fuel → step e st (.udpQuery sock c agent b len { x with fuel := fuel }) ≠ none

/-- A query for a name that is a pointer to itself: reading it never ends. -/
theorem self_fill (f0 : Nat) : fill exSt.udpHead false [1, 2, 1, 0, 0, 1, 0, 0, 0, 0, 0, 0, 192, 12, 0, 1, 0, 1] 18 (some (.client 8)) 1 [] f0 = none := by
  have hloop : (getHostName (memAt [1, 2, 1, 0, 0, 1, 0, 0, 0, 0, 0, 0, 192, 12, 0, 1, 0, 1]) 18 12 (some 256) f0).out = .noFuel :=
    self_pointer_loops _ 18 12 256 (by decide +kernel) (by decide +kernel) (by omega) f0 [] 0 false
  have hn : Parser.next [1, 2, 1, 0, 0, 1, 0, 0, 0, 0, 0, 0, 192, 12, 0, 1, 0, 1] 18 ⟨1, 0, 0, 0⟩ Parser.Itr.init =
      some (((Parser.next [1, 2, 1, 0, 0, 1, 0, 0, 0, 0, 0, 0, 192, 12, 0, 1, 0, 1] 18 ⟨1, 0, 0, 0⟩ Parser.Itr.init).getD (Parser.Itr.init, none)).1, some 12) ∧
      ((Parser.next [1, 2, 1, 0, 0, 1, 0, 0, 0, 0, 0, 0, 192, 12, 0, 1, 0, 1] 18 ⟨1, 0, 0, 0⟩ Parser.Itr.init).getD (Parser.Itr.init, none)).1.purpose = .question ∧
      ((Parser.next [1, 2, 1, 0, 0, 1, 0, 0, 0, 0, 0, 0, 192, 12, 0, 1, 0, 1] 18 ⟨1, 0, 0, 0⟩ Parser.Itr.init).getD (Parser.Itr.init, none)).1.klass = 1 := by
    decide +kernel
  obtain ⟨n1, n2, n3⟩ := hn
  unfold fill
  rw [if_neg (by decide), show Parser.counts [1, 2, 1, 0, 0, 1, 0, 0, 0, 0, 0, 0, 192, 12, 0, 1, 0, 1] = some ⟨1, 0, 0, 0⟩ by decide +kernel]
  dsimp only [Parser.Counts.all]
  unfold fillLoop
  rw [n1]
  dsimp only
  unfold fillStep
  rw [n2, n3]
  simp only [ne_eq, not_true, if_false, hloop]

theorem anything_false : ¬ Anything := by
  intro h
  obtain ⟨f0, hf⟩ := h exEnv exSt 1 8 [] [1, 2, 1, 0, 0, 1, 0, 0, 0, 0, 0, 0, 192, 12, 0, 1, 0, 1] 18 exLuck ⟨rfl, rfl, rfl, rfl⟩ (by decide)
  refine hf f0 (Nat.le_refl _) ?_
  simp only [step, self_fill]

/-! ### a case that meets the hypotheses -/

theorem properRun_step {s : Settings} {e : Env} {st st' : St Addr} {ev : Ev Addr} {acts : List (Act Addr)} {l : List (Env × Ev Addr)} (he : SoundEnv s e) (hp : Proper s e st ev)
    (hs : step e st ev = some (st', acts)) (hl : ProperRun s st' l) : ProperRun s st ((e, ev) :: l) := by
  refine ⟨he, hp, fun st2 a2 h2 => ?_⟩
  rw [hs] at h2
  obtain ⟨rfl, rfl⟩ := Prod.mk.inj (Option.some.inj h2)
  exact hl

/-- The hosts data make `a.org` an alias of `ms.com`; the cache is on. -/
def pgEnv : Env := { exEnv with hosts := ⟨Hosts.loadAll Hosts.initCont [str "ms.com a.org"], none, false⟩ }

theorem pgEnv_sound : SoundEnv DnsCache.exS pgEnv := by
  have hlines : Hosts.Lines [str "ms.com a.org"] [⟨str "a.org", .cname, .text (text ms)⟩] := by
    refine .cons (e := ⟨str "a.org", .cname, _⟩) ⟨str "ms.com", Hosts.exLine [] [32] [] (Hosts.exWord (by decide)) (Hosts.exWord (by decide)) (by decide),
      .alias ?_ ⟨109, by decide, by decide⟩⟩ .nil
    unfold Hosts.NameChar; decide
  obtain ⟨c, hc⟩ : ∃ c, Hosts.loadAll Hosts.initCont [str "ms.com a.org"] = some c := Option.isSome_iff_exists.1 (by decide +kernel)
  refine ⟨rfl, ⟨[⟨str "a.org", .cname, .text (text ms)⟩], [], ?_, rfl, ?_, by simp [Targets]⟩, by simp [pgEnv, exEnv], by simp [pgEnv, exEnv]⟩
  · show LoadedOpt (Hosts.loadAll Hosts.initCont [str "ms.com a.org"]) _
    rw [hc]
    exact ⟨_, hlines, hc⟩
  · intro en hen _
    rw [List.mem_singleton] at hen
    subst hen
    exact ⟨ms, rfl, alNames.2, by unfold Simple; decide⟩

def pgLuck : Luck := { exLuck with fuel := 400 }
def pgAsk (c : Nat) (q : List Byte) : Ev Nat := .udpQuery 1 c [] (q ++ List.replicate 500 0) q.length pgLuck
def pgTake : Ev Nat := .innerTake 0 1000 9 772 noHead pgLuck

def pg0 : St Nat := ((step pgEnv exSt both).getD (exSt, [])).1
def pg1 : St Nat := ((step pgEnv pg0 (pgAsk 8 alQuery.bytes)).getD (exSt, [])).1
def pg2 : St Nat := ((step pgEnv pg1 pgTake).getD (exSt, [])).1
def pg3 : St Nat := ((step pgEnv pg2 (serverSays 0 alReply.bytes)).getD (exSt, [])).1
def pg4 : St Nat := ((step pgEnv pg3 (.outerTake 0 900 [] 30 400)).getD (exSt, [])).1
def pg5 : St Nat := ((step pgEnv pg4 (pgAsk 9 (query 3 4 ms 1))).getD (exSt, [])).1

theorem fits_here {cfg : Cache.Cfg} {st : Cache.St} {now : Int} {ls : List (List Byte)} {t used room : Nat} {vs : List (List Byte × Nat)}
    (h1 : cnameFrom cfg st (text ls) now = some none) (h2 : Cache.answers cfg st (keyOf (text ls) t 1) now = some vs)
    (h3 : ∀ fs : List Fact, vs = fs.map (fun f => (form f.value, f.ttl)) → (∀ f ∈ fs, f.owner = ls ∧ f.type = t) → used + need fs ≤ room) : Fits cfg st now ls t used room := by
  intro fa target fs hl ha hf
  have key : fa = [] ∧ target = ls := by
    split at hl
    · exact hl
    · obtain ⟨hl, _⟩ := hl
      cases hl with
      | here => exact ⟨rfl, rfl⟩
      | alias h _ => rw [h1] at h; cases h
  obtain ⟨rfl, rfl⟩ := key
  rw [h2] at ha
  exact h3 fs (Option.some.inj ha) hf

theorem nothing_fits {ls : List (List Byte)} {t used room : Nat} (h : used ≤ room) (fs : List Fact) (hv : [] = fs.map (fun f => (form f.value, f.ttl)))
    (_ : ∀ f ∈ fs, f.owner = ls ∧ f.type = t) : used + need fs ≤ room := by
  obtain rfl : fs = [] := by simpa using hv.symm
  simpa [need] using h

theorem pgReply_says : Response alReply [⟨ms, 1, 60, .raw [1, 2, 3, 4]⟩] :=
  ⟨alReply_ok.valid, by simp [alReply], by simpa [alReply] using alSays⟩

/-- Client 8 asks for the alias, the alias worker asks the server for its target, the answer comes, is combined and sent, and client 9 is answered out of the cache. -/
example : ∃ st' acts, run exSt [(pgEnv, both), (pgEnv, pgAsk 8 alQuery.bytes), (pgEnv, pgTake), (pgEnv, serverSays 0 alReply.bytes), (pgEnv, .outerTake 0 900 [] 30 400),
    (pgEnv, pgAsk 9 (query 3 4 ms 1)), (pgEnv, .loopSweep 1010), (pgEnv, .cacheSweep 2000)] = some (st', acts) := by
  have hs := pgEnv_sound
  refine well_formed_processed_partial (s := DnsCache.exS) Cache.demo_area ⟨rfl, rfl, rfl, rfl⟩ ⟨_, rfl⟩
    (properRun_step hs trivial (step_get (by decide +kernel)) (properRun_step hs ?_ (step_get (by decide +kernel)) (properRun_step hs ?_ (step_get (by decide +kernel))
    (properRun_step hs ?_ (step_get (by decide +kernel)) (properRun_step hs ?_ (step_get (by decide +kernel)) (properRun_step hs ?_ (step_get (by decide +kernel))
    (properRun_step hs trivial (step_get (by decide +kernel)) (properRun_step hs trivial (step_get (by decide +kernel)) trivial))))))))
  · refine ⟨alQuery, ⟨wire org, 1, 1⟩, org, List.replicate 500 0, asksAll_one ⟨alQuery_ok.valid, rfl, rfl, rfl, alNames.1, rfl⟩, rfl, rfl, by decide +kernel, ?_, ?_, by decide +kernel,
      fun _ _ => fits_here (by decide +kernel) (vs := []) (by decide +kernel) (nothing_fits ?_), by simp [pgEnv, exEnv]⟩
    · rw [List.length_replicate]; decide +kernel
    · rw [List.length_replicate]; decide
    · rw [List.length_replicate]; decide +kernel
  · refine ⟨by decide +kernel, by decide, by decide, by decide, by decide +kernel, ?_⟩
    intro m tg hm hg htg _
    have hd : (pg1.inner[0]?).map (fun m => (m.domain, m.type)) = some (text org, 1) := by decide +kernel
    rw [show pg1.inner[0]? = some m from hm, Option.map_some, Option.some.injEq, Prod.mk.injEq] at hd
    rw [hd.1, show getCName pgEnv.fnm pgEnv.hosts (text org) = some (text ms) by decide +kernel] at hg
    obtain rfl := text_inj alNames.2.1 htg.1 (Option.some.inj hg)
    rw [hd.2]
    exact fits_here (by decide +kernel) (vs := []) (by decide +kernel) (nothing_fits (by decide))
  · exact ⟨by decide +kernel, alReply, List.replicate 200 0, answerAll_one alReply_ok, rfl, rfl, by decide +kernel, by simp [pgEnv, exEnv],
      fun r' hp => by
        rcases hp with ⟨_, rfl⟩ | ⟨c, hc, _⟩
        · exact ⟨_, pgReply_says, by simp; unfold Simple; decide⟩
        · simp [pgEnv, exEnv] at hc⟩
  · refine ⟨by decide +kernel, by decide, by decide, ?_⟩
    intro m hm
    have hd : (pg3.outer[0]?).map (fun m => m.entity.length) = some 46 := by decide +kernel
    rw [show pg3.outer[0]? = some m from hm, Option.map_some, Option.some.injEq] at hd
    omega
  · refine ⟨⟨[3, 4, 1, 0], [⟨wire ms, 1, 1⟩], [], [], []⟩, ⟨wire ms, 1, 1⟩, ms, List.replicate 500 0, asksAll_one ⟨plainValid _ _ _ _ [] msName (by decide) (by simp), rfl, rfl, rfl, alNames.2, rfl⟩,
      rfl, rfl, by decide +kernel, ?_, ?_, by decide +kernel, fun _ _ => fits_here (by decide +kernel) (vs := [([1, 2, 3, 4], 61)]) (by decide +kernel) ?_, by simp [pgEnv, exEnv]⟩
    · rw [List.length_replicate]; decide +kernel
    · rw [List.length_replicate]; decide
    · intro fs hv hf
      rw [List.length_replicate]
      obtain ⟨f, fs', rfl, h1, h2⟩ := List.map_eq_cons_iff.1 hv.symm
      obtain rfl := List.map_eq_nil_iff.1 h2
      have hlast := congrArg List.getLast? (congrArg Prod.fst h1)
      have hval : f.value = .raw [1, 2, 3, 4] := by
        have h1' := congrArg Prod.fst h1
        dsimp only at h1' hlast
        cases hfv : f.value with
        | raw d => rw [hfv] at h1'; rw [show d = _ from h1']
        | name tg => rw [hfv] at hlast; simp [form] at hlast
        | mx p tg => rw [hfv] at hlast; simp [form, List.getLast?_append] at hlast
      simp only [need, List.map_cons, List.map_nil, hval, (hf f (by simp)).1]
      decide

/-- Two questions in one message: the program takes it for one for the second name and the first type, so it goes to the alias worker. -/
def pgTwo : Message.Msg := ⟨[1, 2, 1, 0], [⟨wire ms, 1, 1⟩, ⟨wire org, 28, 1⟩], [], [], []⟩

theorem pgTwo_asks : AsksAll pgTwo ⟨wire ms, 1, 1⟩ ms where
  valid := by
    refine ⟨rfl, ?_, by simp [pgTwo], by simp [pgTwo], by simp [pgTwo], by decide, by decide, by decide, by decide⟩
    intro q hq
    simp [pgTwo] at hq
    rcases hq with rfl | rfl
    · exact ⟨msName, by decide, by decide, by decide, by decide⟩
    · exact ⟨orgName, by decide, by decide, by decide, by decide⟩
  first := ⟨_, rfl⟩
  class_in := by decide
  name := rfl
  rfc := alNames.2
  names := ⟨[ms, org], .cons (denotes_wire (by decide) (by unfold At; decide +kernel) (by decide +kernel))
    (.cons (denotes_wire (by decide) (by unfold At; decide +kernel) (by decide +kernel)) .nil), by
      intro n hn
      simp at hn
      rcases hn with rfl | rfl
      · exact alNames.2
      · exact alNames.1⟩

example : (∃ st' acts, run exSt [(pgEnv, both), (pgEnv, pgAsk 8 pgTwo.bytes)] = some (st', acts)) ∧
    ((run exSt [(pgEnv, both), (pgEnv, pgAsk 8 pgTwo.bytes)]).map fun r => r.1.inner.map fun m => (m.domain, m.type)) = some [(text org, 1)] := by
  have hs := pgEnv_sound
  refine ⟨well_formed_processed_partial (s := DnsCache.exS) Cache.demo_area ⟨rfl, rfl, rfl, rfl⟩ ⟨_, rfl⟩
    (properRun_step hs trivial (step_get (by decide +kernel)) (properRun_step hs ?_ (step_get (by decide +kernel)) trivial)), by decide +kernel⟩
  refine ⟨pgTwo, _, ms, List.replicate 500 0, pgTwo_asks, rfl, rfl, by decide +kernel, ?_, ?_, by decide +kernel,
    fun _ _ => fits_here (by decide +kernel) (vs := []) (by decide +kernel) (nothing_fits ?_), by simp [pgEnv, exEnv]⟩
  · rw [List.length_replicate]; decide +kernel
  · rw [List.length_replicate]; decide
  · rw [List.length_replicate]; decide +kernel

/-- A response with two questions. -/
def pgTwoReply : Message.Msg := ⟨[3, 4, 0x81, 0x83], [⟨wire ms, 1, 1⟩, ⟨wire org, 28, 1⟩], [], [], []⟩

example : ProperResponse pgEnv (pgTwoReply.bytes ++ List.replicate 200 0) pgTwoReply.bytes.length 400 := by
  have hv : pgTwoReply.Valid := ⟨rfl, pgTwo_asks.valid.qs, by simp [pgTwoReply], by simp [pgTwoReply], by simp [pgTwoReply], by decide, by decide, by decide, by decide⟩
  refine ⟨pgTwoReply, List.replicate 200 0, ⟨hv, by simp [pgTwoReply], by decide, [ms, org],
    .cons (denotes_wire (by decide) (by unfold At; decide +kernel) (by decide +kernel)) (.cons (denotes_wire (by decide) (by unfold At; decide +kernel) (by decide +kernel)) .nil),
    by decide⟩, rfl, rfl, by decide +kernel, by simp [pgEnv, exEnv], fun r' hp => ?_⟩
  rcases hp with ⟨_, rfl⟩ | ⟨c, hc, _⟩
  · exact ⟨[], ⟨hv, by simp [pgTwoReply], .nil _⟩, by simp⟩
  · simp [pgEnv, exEnv] at hc

end Verif.Forwarder
