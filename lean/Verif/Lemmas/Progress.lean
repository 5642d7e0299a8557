import Verif.Lemmas.LoopProgress
import Verif.Lemmas.HostsProgress
import Verif.Props.Alias
import Verif.Props.HeaderAll
/-! Well-formed messages are processed. -/

namespace Verif.SimpleHT

theorem scan_ok {δ : Type} {t : HT δ} {ok : δ → Bool} : ∀ {fuel : Nat} {st : Option Nat} {x : δ}, t.scan ok fuel st = some (some x) → ok x = true := by
  intro fuel
  induction fuel with
  | zero =>
    intro st x h
    cases st <;> simp [HT.scan] at h
  | succ n ih =>
    intro st x h
    cases st with
    | none => simp [HT.scan] at h
    | some i =>
      unfold HT.scan at h
      split at h
      · simp at h
      · split at h
        · rename_i hx
          simp only [Option.some.injEq] at h; subst h; exact hx
        · exact ih h

end Verif.SimpleHT

namespace Verif.Groups
open StringChunk

theorem noWild_ok {δ : Type} {c : Chunk δ} {s : List Byte} {hv : UInt32} {ok : Option δ → Bool} {r : Option δ} (h : c.matchNoWild s hv ok = some r) : ok r = true := by
  unfold Chunk.matchNoWild at h
  split at h
  · rename_i e he
    have := SimpleHT.scan_ok he
    simp only [Bool.and_eq_true] at this
    simp only [Option.some.injEq] at h
    rw [← h]; exact this.2
  · cases h

theorem domainLoop_ok {δ : Type} {c : Chunk δ} {ok : Option δ → Bool} {r : Option δ} : ∀ {s : List Byte}, c.domainLoop ok s = some r → ok r = true := by
  intro s
  induction s with
  | nil => intro h; simp [Chunk.domainLoop] at h
  | cons ch t ih =>
    intro h
    unfold Chunk.domainLoop at h
    split at h
    · split at h
      · rename_i r' hr
        simp only [Option.some.injEq] at h; subst h
        exact noWild_ok hr
      · exact ih h
    · exact ih h

/-- A query goes to a group there is. -/
theorem route_lt {o : Opts} {m : Map} {fnm : List Byte → List Byte → Bool} {behind : List Byte} {rnd id : Nat} {tcp : Bool} {domain : List Byte}
    {hv : UInt32} {i : Nat} (h : route o m fnm behind rnd id tcp domain hv = some i) : i < m.modules.length := by
  have key : ∀ r : Option Nat, (match r.bind (m.modules[·]?) with | some p => fits o tcp p | none => false) = true → r = some i → i < m.modules.length := by
    intro r hr hi
    rw [hi] at hr
    simp only [Option.bind_some] at hr
    cases hm : m.modules[i]? with
    | none => rw [hm] at hr; simp at hr
    | some p => exact (List.getElem?_eq_some_iff.1 hm).1
  unfold route at h
  split at h
  · rename_i r hr
    refine key r ?_ h
    unfold Chunk.domainMatchWildRandom at hr
    split at hr
    · rename_i r' hn
      simp only [Option.some.injEq] at hr; subst hr
      unfold Chunk.domainMatchNoWild at hn
      split at hn
      · rename_i r2 h2
        simp only [Option.some.injEq] at hn; subst hn
        exact noWild_ok h2
      · split at hn <;> exact domainLoop_ok hn
    · simp only [Option.map_eq_some_iff] at hr
      obtain ⟨j, hj, rfl⟩ := hr
      unfold Chunk.matchWildGetOne at hj
      dsimp only at hj
      split at hj
      · rename_i e he
        have hmem := List.mem_of_getElem? he
        have : e ∈ m.dist.wild.filter (fun e => fnm e.str domain && (match e.data.bind (m.modules[·]?) with | some p => fits o tcp p | none => false)) := by
          split at hmem <;> exact (List.mem_filter.1 hmem).1
        have := (List.mem_filter.1 this).2
        simp only [Bool.and_eq_true] at this
        rw [hj] at this
        exact this.2
      · cases hj
  · split at h
    · rename_i hl
      simp only [Option.some.injEq] at h; subst h
      exact Nat.mod_lt _ hl
    · cases h

end Verif.Groups

namespace Verif.DnsCache
open Message Name Spec HostsLoop.Spec Cache Cache.Spec

/-- The cache as messages whose names are all plain left it. -/
def CacheOk (s : Settings) (c : St) : Prop :=
  ∃ evs ops, history s evs = some ops ∧ After s.cfg ops c ∧ ∀ ev ∈ evs, ev.Kind Simple

theorem history_snoc {s : Settings} {ev : Event} {o : List Op} (ho : ev.ops s = some o) : ∀ {evs : List Event} {ops : List Op}, history s evs = some ops →
    history s (evs ++ [ev]) = some (ops ++ o) := by
  intro evs
  induction evs with
  | nil =>
    intro ops h
    simp only [history, Option.some.injEq] at h; subst h
    simp [history, ho]
  | cons e es ih =>
    intro ops h
    unfold history at h
    split at h
    · rename_i o1 os h1 h2
      simp only [Option.some.injEq] at h; subst h
      simp [history, h1, ih h2]
    · cases h

theorem cache_event {s : Settings} {c : St} {ev : Event} {o : List Op} (ha : Area s.cfg) (h : CacheOk s c) (hk : ev.Kind Simple) (ho : ev.ops s = some o) :
    ∃ c', run s.cfg c o = some c' ∧ CacheOk s c' := by
  obtain ⟨evs, ops, h1, ⟨st0, h2⟩, h3⟩ := h
  have hh := history_snoc ho h1
  obtain ⟨c', h4, _⟩ := any_messages_safe ha hh st0
  have h5 := h4
  rw [Cache.run_append, h2] at h5
  refine ⟨c', h5, evs ++ [ev], ops ++ o, hh, ⟨st0, h4⟩, ?_⟩
  intro e he
  rcases List.mem_append.1 he with he | he
  · exact h3 e he
  · rw [List.mem_singleton.1 he]; exact hk

end Verif.DnsCache

namespace Verif.Forwarder
open Msg MContext Pipeline HostsLoop HostsLoop.Spec Keeps Message Name DnsCache DnsCache.Spec Cache.Spec Hosts

variable {Addr : Type}

/-- A configuration that gives the program what it expects: names in the hosts data as RFC 1035 limits them and without bytes of 192 or
more, addresses for the lists of good addresses and for the replacements. -/
structure SoundEnv (s : Settings) (e : Env) : Prop where
  cache : e.cache = s
  hosts : ∃ es ed, LoadedOpt e.hosts.static es ∧ LoadedOpt e.hosts.dynamic ed ∧ Targets Simple es ∧ Targets Simple ed
  goodIp : ∀ t b, e.goodIp t = some b → b.length = 4
  lists : ∀ c, e.lists = some c → IpMisc.Ready (IpChunk.find c)

/-- How the decisions on a query end. -/
inductive Fate (q : Message.Msg) (y : Question) (ls : List (List Byte)) (m : Head Addr) (n : Nat) : Outcome (Dest Addr) → Prop where
  | refused : Fate q y ls m n (.refused [sendBackRefused m])
  | hosts (o) (h : Does Simple q ls m 0 o) : Fate q y ls m n (.hosts o)
  | cache (r ws) (h1 : Ends q r m.edns y ws) (h2 : GoodAns Simple ws) : Fate q y ls m n (.cache [sendBack { m with entity := r.bytes }])
  | nowhere : Fate q y ls m n .nowhere
  | upstream (i : Nat) (h : i < n) : Fate q y ls m n (.upstream i)

theorem decide_done {s : Settings} {e : Env} (ha : Area s.cfg) (he : SoundEnv s e) {c : Cache.St} (hc : CacheOk s c) {x : Luck} {behind : List Byte} (rt : Bool)
    {m : Head Addr} {q : Message.Msg} {y : Question} {ls : List (List Byte)} (hq : Hosts.Asks q y ls) (hm : m.entity = q.bytes)
    (hroom : q.bytes.length + 279 ≤ behind.length) (hcap : behind.length < 16384) (hf : q.bytes.length ≤ x.fuel)
    (hfit : Cached y.type → Fits s.cfg c x.now ls y.type q.bytes.length behind.length) :
    ∃ o, Pipeline.decide e c x behind rt m = some o ∧ Fate q y ls m e.groups.modules.length o := by
  obtain ⟨es, ed, l1, l2, t1, t2⟩ := he.hosts
  unfold Pipeline.decide
  split
  · rename_i o ho
    refine ⟨_, rfl, ?_⟩
    have : o = [sendBackRefused m] := by
      unfold Filter.filterOut at ho
      split at ho
      · simp only [Prod.mk.injEq, true_and] at ho; exact ho.symm
      · simp at ho
    rw [this]; exact .refused
  · obtain ⟨code, o, g1, g2⟩ := hostsGet_done l1 l2 t1 t2 he.goodIp e.fnm x.handOk hq hm hroom hcap
    rw [g1]
    dsimp only
    by_cases hz : code = 0
    · rw [if_pos hz]
      subst hz
      exact ⟨_, rfl, .hosts o g2⟩
    · rw [if_neg hz]
      have hfe : ∃ code out, (if e.cacheOn then DnsCache.fetch e.cache.cfg c behind x.fuel x.now m else some (-792, [])) = some (code, out) ∧
          ((code ≠ 0 ∧ out = []) ∨ (code = 0 ∧ ∃ r ws, Ends q r m.edns y ws ∧ GoodAns Simple ws ∧ out = [sendBack { m with entity := r.bytes }])) := by
        split
        · rw [he.cache]
          obtain ⟨evs, ops, h1, h2, h3⟩ := hc
          exact fetch_done ha h3 h1 h2 hq.valid hq.one hq.klass hq.name hq.rfc hq.an hm hcap (by omega) hf hfit
        · exact ⟨_, _, rfl, .inl ⟨by omega, rfl⟩⟩
      obtain ⟨code', out, f1, f2⟩ := hfe
      rw [f1]
      dsimp only
      rcases f2 with ⟨f2, _⟩ | ⟨f2, r, ws, w1, w2, rfl⟩
      · rw [if_neg f2]
        split
        · rename_i i hi
          exact ⟨_, rfl, .upstream i (Groups.route_lt hi)⟩
        · exact ⟨_, rfl, .nowhere⟩
      · rw [if_pos f2]
        exact ⟨_, rfl, .cache r ws w1 w2⟩

theorem refuse_msg {q : Message.Msg} (hv : q.Valid) : ∃ r : Message.Msg, refuse q.bytes = r.bytes ∧ r.Valid ∧ r.qs = q.qs ∧ r.an = q.an := by
  obtain ⟨a, b, c, d, hhd⟩ : ∃ a b c d, q.head = [a, b, c, d] := by
    have := hv.head
    match q.head, this with
    | [a, b, c, d], _ => exact ⟨a, b, c, d, rfl⟩
  refine ⟨{ q with head := [a, b, setQR c, setRAclearRcode d] }, ?_, ⟨rfl, hv.qs, hv.an, hv.ns, hv.ar, hv.qd16, hv.an16, hv.ns16, hv.ar16⟩, rfl, rfl⟩
  simp [refuse, Message.Msg.bytes, Message.Msg.header, Message.Msg.body, hhd, List.modify]

/-- What is new on its way to the alias worker. -/
def Returns (ls : List (List Byte)) (m y : Head Addr) : Prop :=
  ∃ r : Message.Msg, y = { m with entity := r.bytes } ∧ (∃ p t, m.back = some (.loop p t)) ∧ (Simple ls → Tidy r)

theorem posts_loop {m z : Head Addr} (h : z ∈ (post m (sendBack m)).2) : z = m ∧ ∃ p t, m.back = some (.loop p t) := by
  obtain ⟨back, _⟩ := m
  unfold sendBack at h
  dsimp only at h
  cases back with
  | none => simp [post] at h
  | some d =>
    cases d with
    | client a => simp [post] at h
    | loop p t => exact ⟨by simpa [post] using h, p, t, rfl⟩

theorem posts_returns {ls : List (List Byte)} {m : Head Addr} {r : Message.Msg} (h : Simple ls → Tidy r) :
    ∀ y ∈ (posts m [sendBack { m with entity := r.bytes }]).2, Returns ls m y := by
  intro y hy
  unfold posts sendBack at hy
  dsimp only at hy
  cases hb : m.back with
  | none => rw [hb] at hy; simp [post] at hy
  | some d =>
    rw [hb] at hy
    cases d with
    | client a => simp [post] at hy
    | loop p t =>
      simp only [post, List.flatMap_cons, List.flatMap_nil, List.append_nil, List.mem_singleton] at hy
      exact ⟨r, by rw [hy, ← hb], ⟨p, t, hb⟩, h⟩

theorem mgrSend_done {s : Settings} {e : Env} (ha : Area s.cfg) (he : SoundEnv s e) {st : St Addr} (hc : CacheOk s st.cache)
    (hmods : st.base + e.groups.modules.length ≤ st.mods.length) {x : Luck} {post' : List Byte}
    {m : Head Addr} {q : Message.Msg} {y : Question} {ls : List (List Byte)} (hq : Hosts.Asks q y ls) (hm : m.entity = q.bytes)
    (hroom : q.bytes.length + 279 ≤ post'.length) (hcap : post'.length < 16384) (hf : q.bytes.length ≤ x.fuel)
    (hfit : Cached y.type → Fits s.cfg st.cache x.now ls y.type q.bytes.length post'.length)
    (hap : e.ap = true → m.edns = true ∨ q.ar = []) :
    ∃ st' h acts, mgrSend e st x (q.bytes ++ post') m = some (st', h, acts) ∧ st'.cache = st.cache ∧
      ∀ z ∈ st'.outer, z ∈ st.outer ∨ Returns ls m z := by
  have hdrop : (q.bytes ++ post').drop m.entity.length = post' := by rw [hm]; exact List.drop_left' rfl
  obtain ⟨o, d1, d2⟩ := decide_done ha he hc (requestTcp m) hq hm hroom hcap hf hfit
  have hqs : q.qs ≠ [] := by rw [hq.one]; simp
  have hret : ∀ {r : Message.Msg}, (Simple ls → Tidy r) → ∀ z ∈ st.outer ++ (posts m [sendBack { m with entity := r.bytes }]).2, z ∈ st.outer ∨ Returns ls m z := by
    intro r hr z hz
    rcases List.mem_append.1 hz with hz | hz
    · exact .inl hz
    · exact .inr (posts_returns hr z hz)
  have href : ∀ z ∈ st.outer ++ (posts m [sendBackRefused m]).2, z ∈ st.outer ∨ Returns ls m z := by
    obtain ⟨r, r1, r2, r3, r4⟩ := refuse_msg hq.valid
    unfold sendBackRefused
    rw [hm, r1]
    exact hret fun _ => ⟨r2, by rw [r3]; exact hqs, by rw [r4, hq.an]; trivial⟩
  unfold mgrSend
  rw [hdrop, d1]
  cases d2 with
  | refused => exact ⟨_, _, _, rfl, rfl, href⟩
  | nowhere => exact ⟨_, _, _, rfl, rfl, fun z hz => .inl hz⟩
  | cache r ws h1 h2 => exact ⟨_, _, _, rfl, rfl, hret fun hs => tidy_ends h1 hq.one hq.name hq.rfc hs h2⟩
  | hosts o h =>
    refine ⟨_, _, _, rfl, rfl, ?_⟩
    dsimp only
    cases h with
    | refuse => exact href
    | hand ht => simpa [repliesOf, posts] using fun z hz => .inl hz
    | reply r h =>
      obtain ⟨rd, h1, h2, h3⟩ := h
      exact hret fun hs => tidy_reply h1 h2 hqs hq.rfc hs h3
  | upstream i hi =>
    have hlt : st.base + i < st.mods.length := by omega
    dsimp only
    rw [List.getElem?_eq_getElem hlt]
    dsimp only
    split
    · have hu := udp_edns_partial e x (q.bytes ++ post') m st.mods[st.base + i] q hm hq.valid (by simp; omega)
      have : ∃ m' d', udpSend e x (q.bytes ++ post') m st.mods[st.base + i] = some (m', d') := by
        by_cases hap' : e.ap = true
        · cases hed : m.edns with
          | true => obtain ⟨d', h⟩ := hu.2 (.inr hed); exact ⟨_, _, h⟩
          | false =>
            obtain ⟨m', d', h, _⟩ := hu.1 hap' hed ((hap hap').resolve_left (by simp [hed]))
            exact ⟨_, _, h⟩
        · obtain ⟨d', h⟩ := hu.2 (.inl (by simpa using hap')); exact ⟨_, _, h⟩
      obtain ⟨m', d', h⟩ := this
      rw [h]
      exact ⟨_, _, _, rfl, rfl, fun z hz => .inl hz⟩
    · exact ⟨_, _, _, rfl, rfl, fun z hz => .inl hz⟩


/-! ### what is known of the messages on their way -/

theorem rfc_noZero {ls : List (List Byte)} (h : RfcName ls) : ∀ c ∈ text ls, c ≠ 0 := by
  have : ∀ {ls : List (List Byte)}, ValidName ls → ∀ c ∈ text ls, c ≠ 0 := by
    intro ls
    induction ls with
    | nil => intro _ c hc; simp [text] at hc
    | cons l ls ih =>
      intro hv c hc
      cases ls with
      | nil => exact ((hv l (by simp)).2.2 c hc).2
      | cons l' ls =>
        simp only [text, List.mem_append, List.mem_cons] at hc
        rcases hc with hc | rfl | hc
        · exact ((hv l (by simp)).2.2 c hc).2
        · decide
        · exact ih (fun x hx => hv x (by simp at hx ⊢; grind)) c hc
  exact this h.1

theorem lower_simple {ls : List (List Byte)} (h : Simple ls) : Simple (lower ls) := by
  have hb : ∀ c : Byte, c.toNat < 192 → (toLowerByte c).toNat < 192 := forall_byte _ (by decide +kernel)
  intro l hl c hc
  obtain ⟨x, hx, rfl⟩ := List.mem_map.1 hl
  obtain ⟨d, hd, rfl⟩ := List.mem_map.1 hc
  exact hb d (h x hx d hd)

/-- A header of the program: its domain is a name, and if the reply is to go to the alias worker, the name is plain and the place where the
query waits has been used. -/
def OkHead (mem : Nat → Option (Pending (Head Addr))) (h : Head Addr) : Prop :=
  ∃ ls, RfcName ls ∧ h.domain = text ls ∧ 0 < h.type ∧ h.type < 65536 ∧ ∀ p t, h.back = some (.loop p t) → Simple ls ∧ mem p ≠ none

theorem OkHead.mono {mem mem' : Nat → Option (Pending (Head Addr))} (hm : ∀ p, mem p ≠ none → mem' p ≠ none) {h : Head Addr} (ho : OkHead mem h) : OkHead mem' h := by
  obtain ⟨ls, h1, h2, h3, h4, h5⟩ := ho
  exact ⟨ls, h1, h2, h3, h4, fun p t hb => ⟨(h5 p t hb).1, hm p (h5 p t hb).2⟩⟩

theorem OkHead.same {mem : Nat → Option (Pending (Head Addr))} {h h' : Head Addr} (hs : Same h h') (ho : OkHead mem h) : OkHead mem h' := by
  obtain ⟨ls, h1, h2, h3, h4, h5⟩ := ho
  exact ⟨ls, h1, hs.domain.trans h2, by rw [hs.type]; exact h3, by rw [hs.type]; exact h4, fun p t hb => h5 p t (by rw [← hs.back]; exact hb)⟩

/-- A response on its way to the alias worker. -/
def OkOuter (mem : Nat → Option (Pending (Head Addr))) (h : Head Addr) : Prop :=
  OkHead mem h ∧ (∃ p t, h.back = some (.loop p t)) ∧ ∃ r : Message.Msg, h.entity = r.bytes ∧ Tidy r

def OkModule (mem : Nat → Option (Pending (Head Addr))) (d : Module (Dest Addr)) : Prop :=
  (∀ p ∈ waiting d.table, OkHead mem p.client) ∧ ∀ m ∈ d.inbox, OkHead mem m

/-- What holds between the events. -/
structure Rest (s : Settings) (st : St Addr) : Prop where
  cache : CacheOk s st.cache
  mods : ∀ d ∈ st.mods, OkModule st.loop.mem d
  inner : ∀ m ∈ st.inner, OkHead st.loop.mem m
  loop : ∀ p ∈ waiting st.loop.table, OkHead st.loop.mem p.client
  outer : ∀ m ∈ st.outer, OkOuter st.loop.mem m

theorem okModule_moves {mem : Nat → Option (Pending (Head Addr))} {S : Head Addr → Prop} {ev : Ev Addr} {acts : List (Act Addr)} {k : Nat} {d d' : Module (Dest Addr)}
    (hev : ∀ m, S m → OkHead mem m) (hi : Bst.Inv d.table) (h : OkModule mem d) (hm : Moves S ev acts k d d') : OkModule mem d' := by
  have hadd : ∀ {now : Int} {m : Head Addr} {p : Pending (Head Addr)}, Holds m p → OkHead mem m →
      ∀ q ∈ waiting (MContext.add d.table now p), OkHead mem q.client := by
    intro now m p hh hp q hq
    rcases List.mem_cons.1 ((add_contents d.table now p).mem_iff.1 hq) with rfl | hq
    · exact hp.same hh.same
    · exact h.1 q hq
  cases hm with
  | keeps h1 h2 _ => exact ⟨by rw [h1]; exact h.1, fun m hm => h.2 m (h2 m hm)⟩
  | sends m p hs hl hh h1 h2 _ => exact ⟨by rw [h1]; exact hadd hh (hev m hs), by rw [h2]; exact h.2⟩
  | queues m hs hl h1 h2 _ =>
    refine ⟨by rw [h1]; exact h.1, ?_⟩
    rw [h2]
    intro x hx
    rcases List.mem_append.1 hx with hx | hx
    · exact h.2 x hx
    · rw [List.mem_singleton.1 hx]; exact hev m hs
  | takes m p n now rest hmem he hh h1 h2 _ => exact ⟨by rw [h1]; exact hadd hh (h.2 m hmem), fun x hx => h.2 x (h2 x hx)⟩
  | answers a p b len fuel bn clock he hp hid h1 h2 _ =>
    refine ⟨?_, by rw [h2]; exact h.2⟩
    rw [h1]
    exact fun q hq => h.1 q ((delete_contents hi hp).mem_iff.2 (List.mem_cons_of_mem _ hq))
  | sweeps now he h1 h2 _ =>
    refine ⟨?_, by rw [h2]; exact h.2⟩
    obtain ⟨_, s2, _⟩ := sweep_spec hi now
    have hs : (waiting (MContext.sweep d.table now).2).Sublist (waiting d.table) := by
      unfold waiting; rw [s2]; exact List.filter_sublist.map _
    rw [h1]
    exact fun q hq => h.1 q (hs.subset hq)

theorem okModules {mem : Nat → Option (Pending (Head Addr))} {S : Head Addr → Prop} {ev : Ev Addr} {acts : List (Act Addr)} {a b : List (Module (Dest Addr))}
    (hev : ∀ m, S m → OkHead mem m) (hi : ∀ d ∈ a, GoodModule d) (h : ∀ d ∈ a, OkModule mem d) (hm : AllMove S ev acts a b) : ∀ d ∈ b, OkModule mem d := by
  intro d' hd'
  obtain ⟨k, hk, hd⟩ := List.mem_iff_getElem.1 hd'
  have hk' : b[k]? = some d' := by rw [List.getElem?_eq_getElem hk, hd]
  cases ha : a[k]? with
  | none =>
    obtain ⟨h1, h2⟩ := hm.2.1 k d' ha hk'
    refine ⟨?_, by rw [h2]; simp⟩
    rw [h1]
    intro p hp
    simp [waiting, Bst.State.init, Bst.Tree.toList] at hp
  | some d =>
    obtain ⟨d2, g1, g2⟩ := hm.1 k d ha
    rw [g1] at hk'
    obtain rfl := Option.some.inj hk'
    have := List.mem_of_getElem? ha
    exact okModule_moves hev (hi d this).1.1 (h d this) g2

/-- A query is sent on its way. -/
theorem mgrSend_sound {s : Settings} {e : Env} (ha : Area s.cfg) (he : SoundEnv s e) {st : St Addr} (hi : ∀ d ∈ st.mods, GoodModule d) (hr : Rest s st)
    (hmods : st.base + e.groups.modules.length ≤ st.mods.length) {x : Luck} {post' : List Byte}
    {m : Head Addr} {q : Message.Msg} {y : Question} {ls : List (List Byte)} (hq : Hosts.Asks q y ls) (hm : m.entity = q.bytes)
    (hok : OkHead st.loop.mem m) (hsim : ∀ p t, m.back = some (.loop p t) → Simple ls)
    (hroom : q.bytes.length + 279 ≤ post'.length) (hcap : post'.length < 16384) (hf : q.bytes.length ≤ x.fuel)
    (hfit : Cached y.type → Fits s.cfg st.cache x.now ls y.type q.bytes.length post'.length)
    (hap : e.ap = true → m.edns = true ∨ q.ar = []) :
    ∃ st' h acts, mgrSend e st x (q.bytes ++ post') m = some (st', h, acts) ∧ Rest s st' := by
  obtain ⟨st', h, acts, h1, h2, h3⟩ := mgrSend_done ha he hr.cache hmods hq hm hroom hcap hf hfit hap
  have h12 : 12 ≤ m.entity.length := by
    rw [hm, Message.Msg.bytes, List.length_append, Generator.header_length hq.valid]; omega
  have hb : m.entity.take 2 = (q.bytes ++ post').take 2 := by
    rw [hm] at h12 ⊢
    rw [List.take_append_of_le_length (by omega)]
  obtain ⟨i1, i2⟩ := mgrSend_inner h12 h1
  have hmov := mgrSend_moves (S := (· = m)) (ev := Ev.innerTake 0 0 0 0 m x) rfl rfl h12 hb h1
  refine ⟨st', h, acts, h1, by rw [h2]; exact hr.cache, ?_, ?_, by rw [i1]; exact hr.loop, ?_⟩
  · rw [i1]
    exact okModules (fun z hz => by rw [hz]; exact hok) hi hr.mods hmov
  · rw [i1]
    intro z hz
    rcases i2 with i2 | i2 <;> rw [i2] at hz
    · exact hr.inner z hz
    · rcases List.mem_append.1 hz with hz | hz
      · exact hr.inner z hz
      · rw [List.mem_singleton.1 hz]
        exact hok.same ⟨rfl, rfl, rfl, rfl, rfl, rfl⟩
  · rw [i1]
    intro z hz
    rcases h3 z hz with hz | ⟨r, rfl, ⟨p, t, hp⟩, hz⟩
    · exact hr.outer z hz
    · exact ⟨hok.same ⟨rfl, rfl, rfl, rfl, rfl, rfl⟩, ⟨p, t, hp⟩, r, rfl, hz (hsim p t hp)⟩

/-! ### responses -/

theorem decoded_done {b post : List Byte} {fuel p : Nat} {qs : List Question} {names : List (List (List Byte))} (h : Named (bytesAt b) b.length p qs names)
    (hs : ∀ n ∈ names, (text n).length < 256) (hf : b.length ≤ fuel) : Decoded (memAt (b ++ post)) b.length fuel p qs names := by
  induction h with
  | nil => exact .nil
  | @cons _ _ _ _ n _ h _ ih => exact .cons (decode_done h (hs n (by simp)) hf) (ih fun n hn => hs n (by simp [hn]))

theorem named_mem {b post : List Byte} {p : Nat} {qs : List Question} {names : List (List (List Byte))} (h : Named (bytesAt b) b.length p qs names) :
    Named (memAt (b ++ post)) b.length p qs names := by
  induction h with
  | nil => exact .nil
  | cons h _ ih => exact .cons (denotes_congr h (Nat.le_refl _) fun i hi => bytesAt_append hi) ih

/-- A response as a server sends it: well-formed, any number of questions of class IN, names of at most 255 characters. -/
structure AnswerAll (r : Message.Msg) : Prop where
  valid : r.Valid
  some : r.qs ≠ []
  class_in : ∀ q ∈ r.qs, q.klass = 1
  names : ∃ names, Named (bytesAt r.bytes) r.bytes.length 12 r.qs names ∧ ∀ n ∈ names, (text n).length < 256

theorem answerAll_one {r : Message.Msg} {rs : List (List Byte)} {tail : List Byte} (h : Answer r rs tail) : AnswerAll r := by
  obtain ⟨qn, hq, hk⟩ := h.one
  obtain ⟨k, hd⟩ := h.name
  refine ⟨h.valid, by rw [hq]; simp, ?_, [rs], ?_, ?_⟩
  · rw [hq]; intro z hz; rw [List.mem_singleton.1 hz]; exact hk
  · rw [hq]; exact .cons (denotes_congr hd (Nat.le_refl _) (fun i hi => (bytesAt_append hi).symm)) .nil
  · intro n hn; rw [List.mem_singleton.1 hn]; exact h.short

theorem answer_fill {r : Message.Msg} (hr : AnswerAll r) {tail : List Byte} {fuel : Nat} (hf : r.bytes.length ≤ fuel) (h : Head Addr) :
    ∃ m, fill h false (r.bytes ++ tail) r.bytes.length none 0 [] fuel = .some (0, m) ∧ m.entity = r.bytes := by
  obtain ⟨names, hn, hs⟩ := hr.names
  obtain ⟨d, t, _, h2⟩ := (fill_decoded (Addr := Dest Addr) r names tail hr.valid hr.some (named_mem hn) false none 0 [] fuel (decoded_done hn hs hf) h).1 hr.class_in
  exact ⟨_, h2, rfl⟩

theorem respond_done {s : Settings} {e : Env} (he : SoundEnv s e) {d : Module (Dest Addr)} {r : Message.Msg} {tail : List Byte}
    {fuel : Nat} (bn : List Byte) (clock : Nat → Int) (hr : AnswerAll r) (hf : r.bytes.length ≤ fuel)
    (hsane : e.lists ≠ none → ∀ z ∈ r.an, IpMisc.Sane z)
    (hres : ∀ r', Passes e r r' → ∃ fs, Response r' fs ∧ ∀ f ∈ fs, Simple f.owner ∧ ∀ ls, f.value = .name ls → Simple ls) :
    ∃ d' ops out, respond e (r.bytes ++ tail) r.bytes.length fuel bn clock d = some (d', ops, out) ∧
      (ops = [] ∨ ∃ ev : Event, ev.Kind Simple ∧ ev.ops s = some ops) ∧
      ∀ h ∈ out, ∃ p ∈ waiting d.table, Same p.client h ∧ ∃ r' : Message.Msg, h.entity = r'.bytes ∧ Tidy r' := by
  obtain ⟨m, hfill, hme⟩ := answer_fill hr (tail := tail) hf d.head
  have hmisc : (∃ v b', misc e (r.bytes ++ tail) r.bytes.length = some (v, b') ∧ v ≠ .nothing) ∨ ∃ r', Passes e r r' := by
    cases hl : e.lists with
    | none => exact .inr ⟨r, .inl ⟨hl, rfl⟩⟩
    | some c =>
      have hready := he.lists c hl
      have hs := hsane (by rw [hl]; simp)
      have hp := IpMisc.process_msg hready e.blockNegative hr.valid hr.some hs tail _ (Nat.le_refl _)
      by_cases hn : e.blockNegative = true ∧ (r.head.getD 3 0).toNat % 16 ≠ 0
      · exact .inl ⟨.negative, _, by unfold misc; rw [hl]; exact hp.1 hn, by simp⟩
      · by_cases hb : ∃ z ∈ r.an, IpMisc.Blocked (IpChunk.find c) z
        · obtain ⟨b', hb'⟩ := (hp.2 hn).1 hb
          exact .inl ⟨.filtered, b', by unfold misc; rw [hl]; exact hb', by simp⟩
        · refine .inr ⟨_, .inr ⟨c, hl, hready, hn, fun z hz => ⟨hs z hz, fun hbz => hb ⟨z, hz, hbz⟩⟩, rfl⟩⟩
  unfold respond
  rw [hfill]
  dsimp only
  rw [hme]
  rcases hmisc with ⟨v, b', m1, m2⟩ | ⟨r', hp⟩
  · rw [m1]
    dsimp only
    rw [if_pos m2]
    exact ⟨_, _, _, rfl, .inl rfl, by simp⟩
  · obtain ⟨m1, m2, _⟩ := passes_any (tail := tail) hp hr.valid hr.some
    obtain ⟨fs, w1, w2⟩ := hres r' hp
    rw [m1]
    dsimp only
    rw [if_neg (by simp), show (r'.bytes ++ tail).take r.bytes.length = r'.bytes from List.take_left' m2]
    split
    · exact ⟨_, _, _, rfl, .inl rfl, by simp⟩
    · have hlearn : ∀ (question : List Byte) (first : Bool), ∃ ops, learn e (r'.bytes ++ tail) r'.bytes.length fuel question bn clock first = some ops ∧
          (ops = [] ∨ ∃ ev : Event, ev.Kind Simple ∧ ev.ops s = some ops) := by
        intro question first
        unfold learn
        split
        · obtain ⟨ops, ho⟩ := addOps_done (s := s) (post := tail) (question := question) (behind := bn) (clock := clock) (first := first) w1 (by omega : r'.bytes.length ≤ fuel)
          rw [he.cache]
          exact ⟨ops, ho, .inr ⟨.response (r'.bytes ++ tail) r'.bytes.length fuel question bn clock first,
            ⟨r', fs, tail, w1, fun f hf => (w2 f hf).2, rfl, rfl⟩, ho⟩⟩
        · exact ⟨_, rfl, .inl rfl⟩
      split
      · obtain ⟨ops, o1, o2⟩ := hlearn m.domain false
        rw [o1]
        exact ⟨_, _, _, rfl, o2, by simp⟩
      · rename_i p t hgen
        obtain ⟨ops, o1, o2⟩ := hlearn p.client.domain true
        rw [o1]
        refine ⟨_, _, _, rfl, o2, ?_⟩
        intro h hh
        rw [List.mem_singleton.1 hh]
        refine ⟨p, ?_, ⟨rfl, rfl, rfl, rfl, rfl, rfl⟩, r', rfl, tidy_response w1 w2⟩
        unfold genAnswerHeaderAndRemove at hgen
        split at hgen
        · simp at hgen
        · rename_i a p' hs
          simp only [Prod.mk.injEq, Option.some.injEq] at hgen
          obtain ⟨rfl, rfl⟩ := hgen
          obtain ⟨h1, _⟩ := Bst.Tree.search_some hs
          exact List.mem_map.2 ⟨_, h1, rfl⟩

/-! ### the alias worker -/

theorem asks_done (h : Head Addr) {cap id t sock fuel : Nat} {tg : List (List Byte)} {back : Dest Addr} (htg : RfcName tg) (ht : 0 < t) (ht' : t < 65536)
    (hcap : 12 + (wire tg).length + 4 ≤ cap) (hf : 12 + (wire tg).length + 4 ≤ fuel) :
    ∃ q, generateQuery h cap id (text tg) t back sock fuel = some (0, q) ∧
      (⟨u16 id ++ [1, 0], [⟨wire tg, t, 1⟩], [], [], []⟩ : Message.Msg).Valid := by
  have hc : Parser.counts queryHeader = some ⟨0, 0, 0, 0⟩ := by decide
  unfold generateQuery Generator.initFrom
  rw [hc]
  dsimp only
  rw [if_neg (by simp), if_pos ⟨by omega, by decide, by omega⟩]
  dsimp only
  have hset : Generator.setIdentifier ⟨cap, queryHeader.take 12, Generator.lastSection ⟨0, 0, 0, 0⟩⟩ id = ⟨cap, (u16 id ++ [1, 0]) ++ [0, 0, 0, 0, 0, 0, 0, 0], 4⟩ := by
    simp [Generator.setIdentifier, queryHeader, Generator.overwrite, Generator.set16, u16, Generator.lastSection]
  rw [hset]
  obtain ⟨g, q1, q2, q3, q4⟩ := question_ok (g := ⟨cap, (u16 id ++ [1, 0]) ++ [0, 0, 0, 0, 0, 0, 0, 0], 4⟩) (h := u16 id ++ [1, 0])
    (t := t) (by simp [Parser.u16_length]) rfl rfl htg.1 ht ht' hcap
  rw [q1]
  dsimp only
  rw [if_neg (by simp), q2.out]
  generalize hm : (⟨u16 id ++ [1, 0], [⟨wire tg, t, 1⟩], [], [], []⟩ : Message.Msg) = m at *
  have hl : m.bytes.length = 12 + (wire tg).length + 4 := by
    rw [← hm]; simp [Msg.bytes, Msg.header, Msg.body, qBytes, rrBytes, Question.bytes, Parser.u16_length]; omega
  have hd : Denotes (bytesAt m.bytes) m.bytes.length 12 tg (wire tg).length := by
    refine denotes_wire (fun l hl => ⟨(htg.1 l hl).1, (htg.1 l hl).2.1⟩) ?_ ?_
    · refine Generator.memOf_mid (pre := u16 id ++ [1, 0] ++ [0, 1, 0, 0, 0, 0, 0, 0]) (post := (u16 t ++ u16 1)) ?_ (by simp [Parser.u16_length])
      rw [← hm]; simp [Msg.bytes, Msg.header, Msg.body, qBytes, rrBytes, Question.bytes, u16]
    · omega
  have hfill := fill_named (Addr := Dest Addr) m ⟨wire tg, t, 1⟩ tg _ (List.replicate (cap - m.bytes.length) 0) q2.valid (by rw [← hm]) rfl
    (decode_done (fuel := fuel) hd (by have := htg.2; omega) (by omega)) (rfc_noZero htg) true (some back) sock (str "CNameRedirect") h
  rw [hfill]
  exact ⟨_, rfl, q2.valid⟩

theorem inner_done {s : Settings} {e : Env} (he : SoundEnv s e) {lp : Loop Addr} {m : Head Addr} (hm : OkHead lp.mem m) {cap rnd fuel sock : Nat} {now : Int} {old : Head Addr}
    (hcap : 300 ≤ cap) (hf : 300 ≤ fuel) :
    HostsLoop.inner e.fnm e.hosts cap now rnd fuel sock old m lp = some (lp, none) ∨
    ∃ tg q lp' a t, getCName e.fnm e.hosts m.domain = some (text tg) ∧ RfcName tg ∧ Simple tg ∧
      HostsLoop.inner e.fnm e.hosts cap now rnd fuel sock old m lp = some (lp', some q) ∧
      q.entity = (⟨u16 rnd ++ [1, 0], [⟨wire tg, m.type, 1⟩], [], [], []⟩ : Message.Msg).bytes ∧
      (⟨u16 rnd ++ [1, 0], [⟨wire tg, m.type, 1⟩], [], [], []⟩ : Message.Msg).Valid ∧
      q.domain = text (lower tg) ∧ q.type = m.type ∧ q.back = some (.loop a t) ∧ lp'.mem a ≠ none ∧ (∀ p, lp.mem p ≠ none → lp'.mem p ≠ none) ∧
      ∀ p ∈ waiting lp'.table, p ∈ waiting lp.table ∨ p.client = m := by
  obtain ⟨es, ed, l1, l2, t1, t2⟩ := he.hosts
  unfold HostsLoop.inner
  cases hg : getCName e.fnm e.hosts m.domain with
  | none => exact .inl rfl
  | some target =>
    obtain ⟨tg, rfl, h1, h2⟩ := cname_target l1 l2 t1 t2 hg
    obtain ⟨_, _, _, ht, ht', _⟩ := hm
    have hw := wire_length_le (ls := tg)
    have := h1.2
    obtain ⟨q, q1, q2⟩ := asks_done old (cap := cap) (id := rnd) (sock := sock) (fuel := fuel) (back := .loop 0 (isFromTcp m)) h1 ht ht' (by omega) (by omega)
    obtain ⟨_, a2, _, _, a5, _, a7, _⟩ := asked old q cap rnd m.type sock fuel tg (.loop 0 (isFromTcp m)) 0 h1 ht ht' (by omega) q1
    have hc := add_contents lp.table now ⟨UInt16.ofNat (Generator.get16 m.entity 0), m.hash, m.domain, m.type, m, now⟩
    dsimp only
    rw [q1]
    dsimp only
    rw [if_neg (by simp)]
    unfold MContext.add at hc
    dsimp only at hc
    cases hadd : lp.table.add MContext.compare ⟨UInt16.ofNat (Generator.get16 m.entity 0), m.hash, m.domain, m.type, m, now⟩ with
    | mk a t =>
      rw [hadd] at hc
      refine .inr ⟨tg, { q with back := some (.loop a (isFromTcp m)) }, _, a, isFromTcp m, rfl, h1, h2, rfl, a2, q2, ?_, a7, rfl, ?_, ?_, ?_⟩
      · rw [text_lower]; exact a5
      · simp
      · intro p hp
        dsimp only
        split
        · simp
        · exact hp
      · intro p hp
        rcases List.mem_cons.1 (hc.mem_iff.1 hp) with rfl | hp
        · exact .inr rfl
        · exact .inl hp

theorem outer_done {lp : Loop Addr} (hi : Bst.Inv lp.table) (hl : ∀ p ∈ waiting lp.table, OkHead lp.mem p.client) {m : Head Addr} (hm : OkOuter lp.mem m) {cap : Nat} (rest : List Byte)
    {header fuel par : Nat} {t : Bool} (hb : m.back = some (.loop par t)) (hcap : 800 ≤ cap) (hcap' : cap < 16384) (hf : m.entity.length + 255 ≤ fuel) :
    ∃ lp' o, HostsLoop.outer cap (m.entity ++ rest) (header + m.entity.length) fuel par m.domain lp = some (lp', o) ∧
      (∀ p, lp.mem p ≠ none → lp'.mem p ≠ none) ∧ (∀ p ∈ waiting lp'.table, p ∈ waiting lp.table) ∧
      ∀ h, o = some h → ∃ p ∈ waiting lp.table, Same p.client h ∧ ∃ r : Message.Msg, h.entity = r.bytes ∧ ((∃ a t, h.back = some (.loop a t)) → Tidy r) := by
  obtain ⟨⟨tg, h1, h2, _, _, h5⟩, _, r, h6, h7⟩ := hm
  obtain ⟨h8, h9⟩ := h5 par t hb
  unfold HostsLoop.outer
  cases hmem : lp.mem par with
  | none => exact absurd hmem h9
  | some rr =>
    dsimp only
    cases hs : lp.table.search MContext.compare rr with
    | none => exact ⟨_, _, rfl, fun _ h => h, fun _ h => h, by simp⟩
    | some ap =>
      obtain ⟨a, p⟩ := ap
      dsimp only
      obtain ⟨s1, _⟩ := Bst.Tree.search_some hs
      have hpw : p ∈ waiting lp.table := List.mem_map.2 ⟨_, s1, rfl⟩
      obtain ⟨ls, k1, k2, k3, k4, k5⟩ := hl p hpw
      rw [h6, h2]
      obtain ⟨res, c1, c2⟩ := combine_done { p.client with edns := rr.client.edns } (id := rr.id.toNat) (len := header + r.bytes.length) rest (ls := ls) (tg := tg) k2 k1 ⟨k3, k4⟩ h1 h8 h7
        (by omega) (by rw [h6] at hf; exact hf) hcap' hcap
      rw [c1]
      have hmono : ∀ i, lp.mem i ≠ none → (if i = a then some (reset p) else lp.mem i) ≠ none := by
        intro i hi
        split
        · simp
        · exact hi
      have hdel : ∀ x ∈ waiting (lp.table.delete a), x ∈ waiting lp.table :=
        fun x hx => (delete_contents hi s1).mem_iff.2 (List.mem_cons_of_mem _ hx)
      cases res with
      | none => exact ⟨_, _, rfl, hmono, hdel, by simp⟩
      | some out =>
        obtain ⟨r', e1, e2⟩ := c2 out rfl
        refine ⟨_, _, rfl, hmono, hdel, ?_⟩
        intro h hh
        obtain rfl := Option.some.inj hh
        exact ⟨p, hpw, ⟨rfl, rfl, rfl, rfl, rfl, rfl⟩, r', e1, fun ⟨x, y, hxy⟩ => e2 (k5 x y hxy).1⟩

end Verif.Forwarder
