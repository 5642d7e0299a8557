import Verif.Lemmas.Threads
import Verif.Spec.Threads
import Verif.Spec.ThreadsProgress
/-! Well-formed messages are processed, also by many threads. -/

namespace Verif.Threads
open Msg MContext Pipeline HostsLoop HostsLoop.Spec Forwarder Keeps Message Name DnsCache DnsCache.Spec Cache.Spec Hosts

variable {Addr : Type}

abbrev Mem (Addr : Type) := Nat → Option (Pending (Head Addr))

/-- A well-formed query on its way. -/
def AskRest (ap : Bool) (mem : Mem Addr) (b : List Byte) (m : Head Addr) (x : Luck) : Prop :=
  ∃ (q : Message.Msg) (y : Question) (ls : List (List Byte)) (post : List Byte), AsksAll q y ls ∧ b = q.bytes ++ post ∧ m.entity = q.bytes ∧ OkHead mem m ∧
    (∀ p t, m.back = some (.loop p t) → Simple ls ∧ Hosts.Asks q y ls) ∧ q.bytes.length + 279 ≤ post.length ∧ post.length < 16384 ∧ q.bytes.length ≤ x.fuel ∧
    (ap = true → m.edns = true ∨ q.ar = [])

/-- A well-formed response on its way. -/
def SaysRest (b : List Byte) (h : Head Addr) (fuel : Nat) : Prop :=
  ∃ (r : Message.Msg) (fs : List Fact) (tail : List Byte), b = r.bytes ++ tail ∧ h.entity = r.bytes ∧ Response r fs ∧
    (∀ f ∈ fs, Simple f.owner ∧ ∀ ls, f.value = .name ls → Simple ls) ∧ r.bytes.length ≤ fuel

/-- An answer on its way. -/
def AnswerRest (mem : Mem Addr) (h : Head Addr) : Prop :=
  OkHead mem h ∧ ∃ r : Message.Msg, h.entity = r.bytes ∧ ((∃ p t, h.back = some (.loop p t)) → Tidy r)

def TaskRest (ap : Bool) (mem : Mem Addr) (n : Nat) : Task Addr → Prop
  | .filter b m x => AskRest ap mem b m x
  | .hosts b m x => AskRest ap mem b m x
  | .fetch b m x => AskRest ap mem b m x
  | .route b m x => AskRest ap mem b m x
  | .pass i b m x => i < n ∧ AskRest ap mem b m x
  | .ship _ _ _ => True
  | .tell m o handed => (∀ z ∈ (posts m o).2, OkOuter mem z) ∧ ∀ z ∈ handed, OkHead mem z
  | .look i b h fuel _ _ => i < n ∧ SaysRest b h fuel
  | .learn b h fuel _ _ first => SaysRest b h fuel ∧ (first = true → OkHead mem h)
  | .answer h => AnswerRest mem h

theorem AskRest.mono {ap : Bool} {mem mem' : Mem Addr} (hm : ∀ p, mem p ≠ none → mem' p ≠ none) {b : List Byte} {m : Head Addr} {x : Luck}
    (h : AskRest ap mem b m x) : AskRest ap mem' b m x := by
  obtain ⟨q, y, ls, post, h1, h2, h3, h4, h5⟩ := h
  exact ⟨q, y, ls, post, h1, h2, h3, h4.mono hm, h5⟩

theorem TaskRest.mono {ap : Bool} {mem mem' : Mem Addr} {n n' : Nat} (hm : ∀ p, mem p ≠ none → mem' p ≠ none) (hn : n ≤ n') {t : Task Addr}
    (h : TaskRest ap mem n t) : TaskRest ap mem' n' t := by
  cases t with
  | filter b m x => exact AskRest.mono hm h
  | hosts b m x => exact AskRest.mono hm h
  | fetch b m x => exact AskRest.mono hm h
  | route b m x => exact AskRest.mono hm h
  | pass i b m x => exact ⟨Nat.lt_of_lt_of_le h.1 hn, AskRest.mono hm h.2⟩
  | ship i m x => trivial
  | tell m o handed => exact ⟨fun z hz => ⟨(h.1 z hz).1.mono hm, (h.1 z hz).2⟩, fun z hz => (h.2 z hz).mono hm⟩
  | look i b h0 fuel bn clock => exact ⟨Nat.lt_of_lt_of_le h.1 hn, h.2⟩
  | learn b h0 fuel bn clock first => exact ⟨h.1, fun hf => (h.2 hf).mono hm⟩
  | answer h0 => exact ⟨h.1.mono hm, h.2⟩

theorem rest_finish {s : Settings} {t : Thread} {h : Head Addr} {st : St Addr} : Rest s (finish t h st) ↔ Rest s st := by
  cases t <;> exact ⟨fun h => ⟨h.1, h.2, h.3, h.4, h.5⟩, fun h => ⟨h.1, h.2, h.3, h.4, h.5⟩⟩

theorem finish_loop (t : Thread) (h : Head Addr) (st : St Addr) : (finish t h st).loop = st.loop := by cases t <;> rfl
theorem finish_mods (t : Thread) (h : Head Addr) (st : St Addr) : (finish t h st).mods = st.mods := by cases t <;> rfl

theorem returns_ok {mem : Mem Addr} {ls : List (List Byte)} {m z : Head Addr} (hok : OkHead mem m) (hsim : ∀ p t, m.back = some (.loop p t) → Simple ls)
    (h : Returns ls m z) : OkOuter mem z := by
  obtain ⟨r, rfl, ⟨p, t, hp⟩, hz⟩ := h
  exact ⟨hok.same ⟨rfl, rfl, rfl, rfl, rfl, rfl⟩, ⟨p, t, hp⟩, r, rfl, hz (hsim p t hp)⟩

/-- Nothing that is sent to a client goes to the alias worker. -/
theorem client_ok {mem : Mem Addr} {m : Head Addr} (hb : ¬ ∃ p t, m.back = some (.loop p t)) (b : List Byte) : ∀ z ∈ (posts m [sendBack { m with entity := b }]).2, OkOuter mem z := by
  rw [posts_client fun p t h => hb ⟨p, t, h⟩]
  intro z hz; cases hz

theorem refused_ok {mem : Mem Addr} {m : Head Addr} {q : Message.Msg} {y : Question} {ls : List (List Byte)} (hm : m.entity = q.bytes) (hok : OkHead mem m)
    (hsim : ∀ p t, m.back = some (.loop p t) → Simple ls ∧ Hosts.Asks q y ls) : ∀ z ∈ (posts m [sendBackRefused m]).2, OkOuter mem z := by
  by_cases hl : ∃ p t, m.back = some (.loop p t)
  · obtain ⟨p, t, hpt⟩ := hl
    have hq := (hsim p t hpt).2
    obtain ⟨r, r1, r2, r3, r4⟩ := refuse_msg hq.valid
    unfold sendBackRefused
    rw [hm, r1]
    exact fun z hz => returns_ok hok (fun p t h => (hsim p t h).1) (posts_returns (fun _ => ⟨r2, by rw [r3, hq.one]; simp, by rw [r4, hq.an]; trivial⟩) z hz)
  · exact client_ok hl _

theorem hosts_ok {s : Settings} {e : Env} (he : SoundEnv s e) {mem : Mem Addr} {behind : List Byte} (ok : Bool) {m : Head Addr} {q : Message.Msg} {y : Question} {ls : List (List Byte)}
    (hq : AsksAll q y ls) (hm : m.entity = q.bytes) (hok : OkHead mem m) (hsim : ∀ p t, m.back = some (.loop p t) → Simple ls ∧ Hosts.Asks q y ls)
    (hroom : q.bytes.length + 279 ≤ behind.length) (hcap : behind.length < 16384) :
    ∃ code o, hostsGet e.fnm e.goodIp e.hosts behind ok m = some (code, o) ∧
      (code = 0 → (∀ z ∈ (posts m (repliesOf o)).2, OkOuter mem z) ∧ ∀ z ∈ handedOf o, OkHead mem z) := by
  by_cases hl : ∃ p t, m.back = some (.loop p t)
  · obtain ⟨p, t, hpt⟩ := hl
    have hq := (hsim p t hpt).2
    obtain ⟨es, ed, l1, l2, t1, t2⟩ := he.hosts
    obtain ⟨code, o, g1, g2⟩ := hostsGet_done l1 l2 t1 t2 he.goodIp e.fnm ok hq hm hroom hcap
    refine ⟨code, o, g1, ?_⟩
    rintro rfl
    cases g2 with
    | refuse => exact ⟨refused_ok hm hok hsim, fun z hz => by simp [handedOf] at hz⟩
    | hand ht =>
      refine ⟨fun z hz => by simp [repliesOf, posts] at hz, fun z hz => ?_⟩
      simp only [handedOf, List.filterMap_cons, List.filterMap_nil, List.mem_singleton] at hz
      subst hz
      exact hok.same ⟨rfl, rfl, rfl, rfl, rfl, rfl⟩
    | reply r h =>
      refine ⟨?_, fun z hz => by simp [handedOf] at hz⟩
      obtain ⟨rd, h1, h2, h3⟩ := h
      simp only [repliesOf, List.filterMap_cons, List.filterMap_nil]
      exact fun z hz => returns_ok hok (fun p t h => (hsim p t h).1) (posts_returns (fun hs => tidy_reply h1 h2 (by rw [hq.one]; simp) hq.rfc hs h3) z hz)
  · obtain ⟨code, o, g1, g2⟩ := hosts_all he ok hq hm hroom hcap
    refine ⟨code, o, g1, fun hz => ?_⟩
    rcases g2 hz with rfl | ⟨b, rfl⟩ | rfl
    · exact ⟨refused_ok hm hok hsim, fun z hz => by simp [handedOf] at hz⟩
    · exact ⟨client_ok hl b, fun z hz => by simp [handedOf] at hz⟩
    · refine ⟨fun z hz => by simp [repliesOf, posts] at hz, fun z hz => ?_⟩
      simp only [handedOf, List.filterMap_cons, List.filterMap_nil, List.mem_singleton] at hz
      subst hz
      exact hok.same ⟨rfl, rfl, rfl, rfl, rfl, rfl⟩

theorem fetch_ok {s : Settings} {e : Env} (ha : Area s.cfg) (he : SoundEnv s e) {st : St Addr} (hc : CacheOk s st.cache) {mem : Mem Addr} {behind : List Byte} {x : Luck} {m : Head Addr}
    {q : Message.Msg} {y : Question} {ls : List (List Byte)}
    (hq : AsksAll q y ls) (hm : m.entity = q.bytes) (hok : OkHead mem m) (hsim : ∀ p t, m.back = some (.loop p t) → Simple ls ∧ Hosts.Asks q y ls)
    (hroom : q.bytes.length + 279 ≤ behind.length) (hcap : behind.length < 16384) (hf : q.bytes.length ≤ x.fuel)
    (hfit : q.an = [] → Cached y.type → Fits s.cfg st.cache x.now ls y.type q.bytes.length behind.length) :
    ∃ code out, (if e.cacheOn then DnsCache.fetch e.cache.cfg st.cache behind x.fuel x.now m else some (-792, [])) = some (code, out) ∧
      (code = 0 → ∀ z ∈ (posts m out).2, OkOuter mem z) := by
  split
  · rw [he.cache]
    by_cases hl : ∃ p t, m.back = some (.loop p t)
    · obtain ⟨p, t, hpt⟩ := hl
      have hq := (hsim p t hpt).2
      obtain ⟨evs, ops, h1, h2, h3⟩ := hc
      obtain ⟨code, out, f1, f2⟩ := fetch_done ha h3 h1 h2 hq.valid hq.one hq.klass hq.name hq.rfc hq.an hm hcap (by omega) hf (hfit hq.an)
      refine ⟨code, out, f1, fun hz => ?_⟩
      rcases f2 with f2 | ⟨_, r, ws, w1, w2, rfl⟩
      · exact absurd hz f2.1
      · exact fun z hz => returns_ok hok (fun p t h => (hsim p t h).1) (posts_returns (fun hs => tidy_ends w1 hq.one hq.name hq.rfc hs w2) z hz)
    · obtain ⟨code, out, f1, f2⟩ := fetch_all ha hc (m := m) hq hm hcap (by omega) hf hfit
      refine ⟨code, out, f1, fun hz => ?_⟩
      obtain ⟨b, rfl⟩ := f2.resolve_left (by simp [hz])
      exact client_ok hl b
  · exact ⟨_, _, rfl, fun h => absurd h (by decide)⟩

theorem mods_set {s : Settings} {st : St Addr} (hr : Rest s st) {i : Nat} {d : Module (Dest Addr)} (hd : OkModule st.loop.mem d) :
    ∀ x ∈ st.mods.set i d, OkModule st.loop.mem x := by
  intro x hx
  rcases List.mem_or_eq_of_mem_set hx with hx | rfl
  · exact hr.mods x hx
  · exact hd

theorem advance_done {s : Settings} (ha : Area s.cfg) {e : Env} (he : SoundEnv s e) {st : St Addr} (hi : ∀ d ∈ st.mods, GoodModule d) (hr : Rest s st) {t : Thread} {task : Task Addr}
    (hk : TaskRest e.ap st.loop.mem st.mods.length task) (hn : Needs s e st task) :
    ∃ st' next acts, advance e st t task = some (st', next, acts) ∧ Rest s st' ∧ st'.loop = st.loop ∧ st'.mods.length = st.mods.length ∧
      ∀ n, next = some n → TaskRest e.ap st.loop.mem st.mods.length n := by
  cases task with
  | filter b m x =>
    have hk' : AskRest e.ap st.loop.mem b m x := hk
    obtain ⟨q, y, ls, post', hq, rfl, hm, hok, hsim, hroom, hcap, hf, hap⟩ := hk'
    simp only [advance]
    split
    · rename_i o ho
      refine ⟨_, _, _, rfl, hr, rfl, rfl, ?_⟩
      rintro n ⟨⟩
      have : o = [sendBackRefused m] := by
        unfold Filter.filterOut at ho
        split at ho
        · simp only [Prod.mk.injEq, true_and] at ho; exact ho.symm
        · simp at ho
      subst this
      exact ⟨refused_ok hm hok hsim, fun z hz => by cases hz⟩
    · refine ⟨_, _, _, rfl, hr, rfl, rfl, ?_⟩
      rintro n ⟨⟩
      exact hk
  | hosts b m x =>
    have hk' : AskRest e.ap st.loop.mem b m x := hk
    obtain ⟨q, y, ls, post', hq, rfl, hm, hok, hsim, hroom, hcap, hf, hap⟩ := hk'
    have hdrop : (q.bytes ++ post').drop m.entity.length = post' := by rw [hm]; exact List.drop_left' rfl
    obtain ⟨code, o, g1, g2⟩ := hosts_ok he x.handOk hq hm hok hsim hroom hcap
    simp only [advance, hdrop, g1]
    by_cases hz : code = 0
    · rw [if_pos hz]
      refine ⟨_, _, _, rfl, hr, rfl, rfl, ?_⟩
      rintro n ⟨⟩
      exact g2 hz
    · rw [if_neg hz]
      refine ⟨_, _, _, rfl, hr, rfl, rfl, ?_⟩
      rintro n ⟨⟩
      exact hk
  | fetch b m x =>
    have hk' : AskRest e.ap st.loop.mem b m x := hk
    obtain ⟨q, y, ls, post', hq, rfl, hm, hok, hsim, hroom, hcap, hf, hap⟩ := hk'
    have hdrop : (q.bytes ++ post').drop m.entity.length = post' := by rw [hm]; exact List.drop_left' rfl
    obtain ⟨code', out, f1, f2⟩ := fetch_ok ha he hr.cache (x := x) hq hm hok hsim hroom hcap hf (hn q y ls post' hq rfl hm)
    simp only [advance, hdrop, f1]
    by_cases hz : code' = 0
    · rw [if_pos hz]
      refine ⟨_, _, _, rfl, hr, rfl, rfl, ?_⟩
      rintro n ⟨⟩
      exact ⟨f2 hz, fun z hz => by cases hz⟩
    · rw [if_neg hz]
      refine ⟨_, _, _, rfl, hr, rfl, rfl, ?_⟩
      rintro n ⟨⟩
      exact hk
  | route b m x =>
    have hn : st.base + e.groups.modules.length ≤ st.mods.length := hn
    simp only [advance]
    split
    · rename_i i hri
      refine ⟨_, _, _, rfl, hr, rfl, rfl, ?_⟩
      rintro n ⟨⟩
      have := Groups.route_lt hri
      exact ⟨by omega, hk⟩
    · exact ⟨_, _, _, rfl, rest_finish.2 hr, finish_loop .., by rw [finish_mods], by rintro n ⟨⟩⟩
  | pass i b m x =>
    obtain ⟨hlt, q, y, ls, post', hq, rfl, hm, hok, hsim, hroom, hcap, hf, hap⟩ : _ ∧ AskRest e.ap st.loop.mem b m x := hk
    simp only [advance]
    rw [List.getElem?_eq_getElem hlt]
    have hgd := hi _ (List.getElem_mem hlt)
    have hod := hr.mods _ (List.getElem_mem hlt)
    dsimp only
    split
    · have hu := udp_edns_partial e x (q.bytes ++ post') m st.mods[i] q hm hq.valid (by simp; omega)
      have : ∃ m' d', udpSend e x (q.bytes ++ post') m st.mods[i] = some (m', d') := by
        by_cases hap' : e.ap = true
        · cases hed : m.edns with
          | true => obtain ⟨d', h⟩ := hu.2 (.inr hed); exact ⟨_, _, h⟩
          | false =>
            obtain ⟨m', d', h, _⟩ := hu.1 hap' hed ((hap hap').resolve_left (by simp [hed]))
            exact ⟨_, _, h⟩
        · obtain ⟨d', h⟩ := hu.2 (.inl (by simpa using hap')); exact ⟨_, _, h⟩
      obtain ⟨m', d', h⟩ := this
      rw [h]
      refine ⟨_, _, _, rfl, ⟨hr.cache, mods_set hr ?_, hr.inner, hr.loop, hr.outer⟩, rfl, List.length_set .., by rintro n ⟨⟩; trivial⟩
      unfold udpSend at h
      split at h
      · cases h
      · rename_i m'' hae
        simp only [Option.some.injEq, Prod.mk.injEq] at h
        obtain ⟨rfl, rfl⟩ := h
        have h12 : 12 ≤ m.entity.length := by
          rw [hm, Message.Msg.bytes, List.length_append, Generator.header_length hq.valid]; omega
        obtain ⟨e1, e2, e3, e4, e5, e6, e7⟩ := addFakeEdns_head h12 hae
        refine ⟨fun p hp => ?_, hod.2⟩
        rcases List.mem_cons.1 ((add_contents _ x.now (entry (q.bytes ++ post') m'')).mem_iff.1 hp) with rfl | hp
        · exact hok.same ⟨e1, e2, e3, e4, e5, e6⟩
        · exact hod.1 p hp
    · refine ⟨_, _, _, rfl, rest_finish.2 ⟨hr.cache, mods_set hr ?_, hr.inner, hr.loop, hr.outer⟩, finish_loop .., by rw [finish_mods]; exact List.length_set .., by rintro n ⟨⟩⟩
      unfold tcpSend
      split
      · refine ⟨hod.1, fun z hz => ?_⟩
        rcases List.mem_append.1 hz with hz | hz
        · exact hod.2 z hz
        · rw [List.mem_singleton.1 hz]; exact hok
      · exact hod
  | ship i m x => exact ⟨_, _, _, rfl, rest_finish.2 hr, finish_loop .., by rw [finish_mods], by rintro n ⟨⟩⟩
  | tell m o handed =>
    obtain ⟨h1, h2⟩ : _ ∧ _ := hk
    refine ⟨_, _, _, rfl, rest_finish.2 ⟨hr.cache, hr.mods, ?_, hr.loop, ?_⟩, finish_loop .., by rw [finish_mods], by rintro n ⟨⟩⟩
    · intro z hz
      rcases List.mem_append.1 hz with hz | hz
      · exact hr.inner z hz
      · exact h2 z hz
    · intro z hz
      rcases List.mem_append.1 hz with hz | hz
      · exact hr.outer z hz
      · exact h1 z hz
  | look i b h0 fuel bn clock =>
    obtain ⟨hlt, hs⟩ : _ ∧ SaysRest b h0 fuel := hk
    simp only [advance]
    rw [List.getElem?_eq_getElem hlt]
    have hgd := hi _ (List.getElem_mem hlt)
    have hod := hr.mods _ (List.getElem_mem hlt)
    dsimp only
    split
    · rename_i q hgen
      have ht : q = st.mods[i].table := by
        unfold genAnswerHeaderAndRemove at hgen
        split at hgen <;> simp only [Prod.mk.injEq, reduceCtorEq, false_and, true_and] at hgen
        exact hgen.symm
      subst ht
      refine ⟨_, _, _, rfl, ⟨hr.cache, mods_set hr hod, hr.inner, hr.loop, hr.outer⟩, rfl, List.length_set .., ?_⟩
      rintro n ⟨⟩
      exact ⟨hs, fun hf => by cases hf⟩
    · rename_i p q hgen
      unfold genAnswerHeaderAndRemove at hgen
      split at hgen
      · simp at hgen
      · rename_i a p' hse
        simp only [Prod.mk.injEq, Option.some.injEq] at hgen
        obtain ⟨rfl, rfl⟩ := hgen
        obtain ⟨h1, _⟩ := Bst.Tree.search_some hse
        have hpw : p' ∈ waiting st.mods[i].table := List.mem_map.2 ⟨_, h1, rfl⟩
        refine ⟨_, _, _, rfl, ⟨hr.cache, mods_set hr ⟨fun p hp => ?_, hod.2⟩, hr.inner, hr.loop, hr.outer⟩, rfl, List.length_set .., ?_⟩
        · exact hod.1 p ((delete_contents hgd.1.1 h1).mem_iff.2 (List.mem_cons_of_mem _ hp))
        · rintro n ⟨⟩
          exact ⟨hs, fun _ => (hod.1 p' hpw).same ⟨rfl, rfl, rfl, rfl, rfl, rfl⟩⟩
  | learn b h0 fuel bn clock first =>
    obtain ⟨⟨r', fs, tail, rfl, hent, w1, w2, hf⟩, hok⟩ : SaysRest b h0 fuel ∧ (first = true → OkHead st.loop.mem h0) := hk
    have hlearn : ∃ ops, Pipeline.learn e (r'.bytes ++ tail) h0.entity.length fuel h0.domain bn clock first = some ops ∧
        (ops = [] ∨ ∃ ev : Event, ev.Kind Simple ∧ ev.ops s = some ops) := by
      rw [hent]
      unfold Pipeline.learn
      split
      · obtain ⟨ops, ho⟩ := addOps_done (s := s) (post := tail) (question := h0.domain) (behind := bn) (clock := clock) (first := first) w1 hf
        rw [he.cache]
        exact ⟨ops, ho, .inr ⟨.response (r'.bytes ++ tail) r'.bytes.length fuel h0.domain bn clock first,
          ⟨r', fs, tail, w1, fun f hf => (w2 f hf).2, rfl, rfl⟩, ho⟩⟩
      · exact ⟨_, rfl, .inl rfl⟩
    obtain ⟨ops, o1, o2⟩ := hlearn
    obtain ⟨c, c1, c2⟩ : ∃ c, Cache.run s.cfg st.cache ops = some c ∧ CacheOk s c := by
      rcases o2 with rfl | ⟨ev, k1, k2⟩
      · exact ⟨st.cache, rfl, hr.cache⟩
      · exact cache_event ha hr.cache k1 k2
    simp only [advance, o1, he.cache, c1]
    refine ⟨_, _, _, rfl, ⟨c2, hr.mods, hr.inner, hr.loop, hr.outer⟩, rfl, rfl, ?_⟩
    intro n hn'
    split at hn'
    · rename_i hfi
      cases hn'
      exact ⟨hok hfi, r', hent, fun _ => tidy_response w1 w2⟩
    · cases hn'
  | answer h0 =>
    obtain ⟨hok, r, hent, hti⟩ : AnswerRest st.loop.mem h0 := hk
    refine ⟨_, _, _, rfl, ⟨hr.cache, hr.mods, hr.inner, hr.loop, ?_⟩, rfl, rfl, by rintro n ⟨⟩⟩
    intro z hz
    rcases List.mem_append.1 hz with hz | hz
    · exact hr.outer z hz
    · obtain ⟨k1, hk⟩ := posts_loop hz
      subst k1
      exact ⟨hok, hk, r, hent, hti hk⟩

/-! ### a thread begins -/

/-- What holds of all that is under way. -/
def SysRest (set : Settings) (ap : Bool) (s : Sys Addr) : Prop :=
  Rest set s.st ∧ ∀ p ∈ s.tasks, TaskRest ap s.st.loop.mem s.st.mods.length p.2

theorem sysRest_st {set : Settings} {ap : Bool} {s : Sys Addr} (h : SysRest set ap s) {st : St Addr} (hr : Rest set st)
    (hm : ∀ p, s.st.loop.mem p ≠ none → st.loop.mem p ≠ none) (hn : s.st.mods.length ≤ st.mods.length) : SysRest set ap { s with st := st } :=
  ⟨hr, fun p hp => (h.2 p hp).mono hm hn⟩

theorem sysRest_with {set : Settings} {ap : Bool} {s : Sys Addr} (h : SysRest set ap s) {st : St Addr} (hr : Rest set st)
    (hm : ∀ p, s.st.loop.mem p ≠ none → st.loop.mem p ≠ none) (hn : s.st.mods.length ≤ st.mods.length) {t : Thread} {k : Task Addr}
    (hk : TaskRest ap st.loop.mem st.mods.length k) : SysRest set ap (s.with st t k) := by
  refine ⟨hr, fun p hp => ?_⟩
  rcases List.mem_append.1 hp with hp | hp
  · exact (h.2 p hp).mono hm hn
  · rw [List.mem_singleton.1 hp]; exact hk

/-- What does not begin a task. -/
def Single : Forwarder.Ev Addr → Prop
  | .take .. | .lose .. | .sweep .. | .cacheSweep _ | .innerLose _ | .outerLose _ | .loopSweep _ | .reload .. | .tcpOpen _ => True
  | _ => False

theorem single_mono {e : Env} {st st' : St Addr} {ev : Forwarder.Ev Addr} {acts : List (Act Addr)} (hs : Single ev) (h : Forwarder.step e st ev = some (st', acts)) :
    st'.loop.mem = st.loop.mem ∧ st.mods.length ≤ st'.mods.length := by
  cases ev <;> simp only [Single] at hs <;> simp only [Forwarder.step] at h
  case take => grind
  case lose => grind
  case sweep => grind
  case cacheSweep => grind
  case innerLose => grind
  case outerLose => grind
  case loopSweep => grind
  case reload => grind
  case tcpOpen => grind

theorem idle_not_busy {s : Sys Addr} {t : Thread} (h : Idle s t) : busy s t = false := by
  unfold busy
  rw [List.any_eq_false]
  intro p hp
  simpa using h p hp

theorem start_done [DecidableEq Addr] {set : Settings} (ha : Area set.cfg) {e : Env} (he : SoundEnv set e) {s : Sys Addr} (hi : Inv s.st) (hr : SysRest set e.ap s)
    {ev : Forwarder.Ev Addr} (hp : ProperBegin set e s ev) : (∃ s' acts, start e s ev = some (s', acts) ∧ SysRest set e.ap s') ∧ Accepted ev := by
  have coarse : ∀ {ev : Forwarder.Ev Addr}, Single ev → Proper set e s.st ev →
      ∃ s' acts, ((Forwarder.step e s.st ev).map fun r => (({ s with st := r.1 } : Sys Addr), r.2)) = some (s', acts) ∧ SysRest set e.ap s' := by
    intro ev hs hp
    obtain ⟨st', acts, h1, _, h3⟩ := progress ha he hi hr.1 hp
    obtain ⟨m1, m2⟩ := single_mono hs h1
    exact ⟨_, _, by rw [h1]; rfl, sysRest_st hr h3 (fun p hp => by rw [m1]; exact hp) m2⟩
  cases ev with
  | udpQuery sock addr agent b len x =>
    obtain ⟨hidle, q, y, ls, post, hq, rfl, rfl, hf, h1, h2, h5⟩ := hp
    have hb := idle_not_busy hidle
    obtain ⟨m, m1, m2, m3, m4, m5⟩ := query_fill_all hq (post := post) hf s.st.udpHead (some (.client addr)) (by simp) sock agent s.st.loop.mem
    refine ⟨⟨_, _, by simp only [start, hb, m1]; rfl, sysRest_with hr hr.1 (fun _ h => h) (Nat.le_refl _) ?_⟩, ?_⟩
    · exact ⟨q, y, ls, post, hq, rfl, m2, m4, by rw [m3]; simp, h1, h2, hf, fun hap => by rcases h5 hap with g | g <;> grind⟩
    · intro h m' c hm'
      obtain ⟨m'', k1, _⟩ := query_fill_all hq (post := post) hf h (some (.client addr)) (by simp) sock agent s.st.loop.mem
      rw [k1] at hm'
      exact (congrArg Prod.fst (Option.some.inj hm')).symm
  | tcpQuery sock agent b len x =>
    obtain ⟨hidle, q, y, ls, post, hq, rfl, rfl, hf, h1, h2, h5⟩ := hp
    have hb := idle_not_busy hidle
    obtain ⟨m, m1, m2, m3, m4, m5⟩ := query_fill_all hq (post := post) hf s.st.tcpHead none (by simp) sock agent s.st.loop.mem
    refine ⟨⟨_, _, by simp only [start, hb, m1]; rfl, sysRest_with hr hr.1 (fun _ h => h) (Nat.le_refl _) ?_⟩, ?_⟩
    · exact ⟨q, y, ls, post, hq, rfl, m2, m4, by rw [m3]; simp, h1, h2, hf, fun hap => by rcases h5 hap with g | g <;> grind⟩
    · intro h m' c hm'
      obtain ⟨m'', k1, _⟩ := query_fill_all hq (post := post) hf h none (by simp) sock agent s.st.loop.mem
      rw [k1] at hm'
      exact (congrArg Prod.fst (Option.some.inj hm')).symm
  | response i b len fuel bn clock =>
    refine ⟨?_, trivial⟩
    obtain ⟨hidle, h1, r, tail, hans, rfl, rfl, hf, hs, hres⟩ := hp
    have hb := idle_not_busy hidle
    obtain ⟨m0, hfill, hme⟩ := answer_fill hans (tail := tail) hf s.st.mods[i].head
    have hod := hr.1.mods _ (List.getElem_mem h1)
    have hmisc : (∃ v b', misc e (r.bytes ++ tail) r.bytes.length = some (v, b') ∧ v ≠ .nothing) ∨ ∃ r', Passes e r r' := by
      cases hl : e.lists with
      | none => exact .inr ⟨r, .inl ⟨hl, rfl⟩⟩
      | some c =>
        have hready := he.lists c hl
        have hs := hs (by rw [hl]; simp)
        have hp := IpMisc.process_msg hready e.blockNegative hans.valid hans.some hs tail _ (Nat.le_refl _)
        by_cases hn : e.blockNegative = true ∧ (r.head.getD 3 0).toNat % 16 ≠ 0
        · exact .inl ⟨.negative, _, by unfold misc; rw [hl]; exact hp.1 hn, by simp⟩
        · by_cases hb : ∃ z ∈ r.an, IpMisc.Blocked (IpChunk.find c) z
          · obtain ⟨b', hb'⟩ := (hp.2 hn).1 hb
            exact .inl ⟨.filtered, b', by unfold misc; rw [hl]; exact hb', by simp⟩
          · refine .inr ⟨_, .inr ⟨c, hl, hready, hn, fun z hz => ⟨hs z hz, fun hbz => hb ⟨z, hz, hbz⟩⟩, rfl⟩⟩
    have hset : ∀ h : Head Addr, Rest set { s.st with mods := s.st.mods.set i { s.st.mods[i] with head := h } } :=
      fun h => ⟨hr.1.cache, mods_set hr.1 hod, hr.1.inner, hr.1.loop, hr.1.outer⟩
    have hlen : ∀ h : Head Addr, s.st.mods.length ≤ (s.st.mods.set i { s.st.mods[i] with head := h }).length := fun h => by rw [List.length_set]; exact Nat.le_refl _
    simp only [start, hb, List.getElem?_eq_getElem h1, hfill, hme]
    rcases hmisc with ⟨v, b', m1, m2⟩ | ⟨r', hp⟩
    · rw [m1]
      dsimp only
      rw [if_neg (by simp), if_pos m2]
      exact ⟨_, _, rfl, sysRest_st hr (hset _) (fun _ h => h) (hlen _)⟩
    · obtain ⟨m1, m2, _⟩ := passes_any (tail := tail) hp hans.valid hans.some
      obtain ⟨fs, w1, w2⟩ := hres r' hp
      rw [m1]
      dsimp only
      rw [if_neg (by simp), if_neg (by simp), show (r'.bytes ++ tail).take r.bytes.length = r'.bytes from List.take_left' m2]
      split
      · exact ⟨_, _, rfl, sysRest_st hr (hset _) (fun _ h => h) (hlen _)⟩
      · refine ⟨_, _, rfl, sysRest_with hr (hset _) (fun _ h => h) (hlen _) ?_⟩
        exact ⟨by rw [List.length_set]; exact h1, r', fs, tail, rfl, rfl, w1, w2, by omega⟩
  | innerTake k cap sock rnd old x =>
    refine ⟨?_, trivial⟩
    obtain ⟨hidle, h1, h2, h3, h4⟩ := hp
    have hb := idle_not_busy hidle
    obtain ⟨m, l, p1, p2, p3, p4⟩ := pick_done h1
    rcases inner_done he (hr.1.inner m p3) (cap := cap) (rnd := rnd) (fuel := x.fuel) (sock := sock) (now := x.now) (old := old) (by omega) h4 with g | ⟨tg, q, lp, a, t, g1, g2, g3, g4, g5, g6, g7, g8, g9, g10, g11, g12⟩
    · refine ⟨{ s with st := { s.st with inner := l } }, [], by simp only [start, hb, p1, g]; rfl, sysRest_st hr ?_ (fun _ h => h) (Nat.le_refl _)⟩
      exact ⟨hr.1.cache, hr.1.mods, fun z hz => hr.1.inner z (p4 z hz), hr.1.loop, hr.1.outer⟩
    · obtain ⟨ms, hm1, hm2, hm3, hm4, hm5⟩ := hr.1.inner m p3
      generalize hqm : (⟨u16 rnd ++ [1, 0], [⟨wire tg, m.type, 1⟩], [], [], []⟩ : Message.Msg) = Q at g5 g6
      have hl : Q.bytes.length = 16 + (wire tg).length := by
        rw [← hqm]; simp [Msg.bytes, Msg.header, Msg.body, qBytes, rrBytes, Question.bytes, Parser.u16_length]; omega
      have hw := wire_length_le (ls := tg)
      have hw2 := g2.2
      have hasks : Hosts.Asks Q ⟨wire tg, m.type, 1⟩ tg := ⟨g6, by rw [← hqm], rfl, rfl, g2, by rw [← hqm]⟩
      have hok : OkHead lp.mem q := ⟨lower tg, lower_rfc g2, g7, by rw [g8]; exact hm3, by rw [g8]; exact hm4, fun p' t' hb => by
        rw [g9] at hb
        simp only [Option.some.injEq, Dest.loop.injEq] at hb
        obtain ⟨rfl, _⟩ := hb
        exact ⟨lower_simple g3, g10⟩⟩
      have hr' : Rest set { s.st with inner := l, loop := lp } := by
        refine ⟨hr.1.cache, fun d hd => ⟨fun p hp => ((hr.1.mods d hd).1 p hp).mono g11, fun z hz => ((hr.1.mods d hd).2 z hz).mono g11⟩,
          fun z hz => (hr.1.inner z (p4 z hz)).mono g11, ?_, fun z hz => ?_⟩
        · intro p hp
          rcases g12 p hp with hp | hp
          · exact (hr.1.loop p hp).mono g11
          · rw [hp]; exact (hr.1.inner m p3).mono g11
        · obtain ⟨z1, z2, z3⟩ := hr.1.outer z hz
          exact ⟨z1.mono g11, z2, z3⟩
      refine ⟨s.with { s.st with inner := l, loop := lp } .alias (.filter (q.entity ++ List.replicate (cap - q.entity.length) 0) q x), [],
        by simp only [start, hb, p1, g4]; rfl, sysRest_with hr hr' g11 (Nat.le_refl _) ?_⟩
      refine ⟨Q, _, tg, List.replicate (cap - Q.bytes.length) 0, asksAll_one hasks, by rw [g5], g5, hok, fun _ _ _ => ⟨g3, hasks⟩, ?_, ?_, by omega, fun _ => .inr (by rw [← hqm])⟩
      · rw [List.length_replicate]; omega
      · rw [List.length_replicate]; omega
  | outerTake k cap rest header fuel =>
    refine ⟨?_, trivial⟩
    obtain ⟨hidle, h1, h2, h3, h4⟩ := hp
    have hb := idle_not_busy hidle
    obtain ⟨m, l, p1, p2, p3, p4⟩ := pick_done h1
    obtain ⟨o1, ⟨par, t, o2⟩, o3⟩ := hr.1.outer m p3
    obtain ⟨lp, o, g1, g2, g3, g4⟩ := outer_done hi.2.2.1 hr.1.loop ⟨o1, ⟨par, t, o2⟩, o3⟩ rest (header := header) o2 h2 h3 (h4 m p2)
    have hrest : Rest set { s.st with outer := l, loop := lp } := by
      refine ⟨hr.1.cache, fun d hd => ⟨fun p hp => ((hr.1.mods d hd).1 p hp).mono g2, fun z hz => ((hr.1.mods d hd).2 z hz).mono g2⟩,
        fun z hz => (hr.1.inner z hz).mono g2, fun p hp => (hr.1.loop p (g3 p hp)).mono g2, fun z hz => ?_⟩
      obtain ⟨z1, z2, z3⟩ := hr.1.outer z (p4 z hz)
      exact ⟨z1.mono g2, z2, z3⟩
    cases o with
    | none => exact ⟨{ s with st := { s.st with outer := l, loop := lp } }, [], by simp only [start, hb, p1, o2, g1]; rfl, sysRest_st hr hrest g2 (Nat.le_refl _)⟩
    | some h =>
      obtain ⟨p, q1, q2, r, q3, q4⟩ := g4 h rfl
      exact ⟨s.with { s.st with outer := l, loop := lp } .alias (.answer h), [], by simp only [start, hb, p1, o2, g1]; rfl,
        sysRest_with hr hrest g2 (Nat.le_refl _) ⟨((hr.1.loop p q1).same q2).mono g2, r, q3, q4⟩⟩
  | loopSweep now =>
    refine ⟨?_, trivial⟩
    obtain ⟨hidle, hp⟩ := hp
    have hb := idle_not_busy hidle
    simp only [start, hb, Bool.false_eq_true, if_false]
    exact coarse trivial hp
  | take i k now rest =>
    refine ⟨?_, trivial⟩
    obtain ⟨hidle, hp⟩ := hp
    have hb := idle_not_busy hidle
    simp only [start, hb, Bool.false_eq_true, if_false]
    exact coarse trivial hp
  | lose i k => exact ⟨coarse trivial hp, trivial⟩
  | sweep i now => exact ⟨coarse trivial hp, trivial⟩
  | cacheSweep now => exact ⟨coarse trivial hp, trivial⟩
  | innerLose k => exact ⟨coarse trivial hp, trivial⟩
  | outerLose k => exact ⟨coarse trivial hp, trivial⟩
  | reload protos head => exact ⟨coarse (ev := .reload protos head) trivial hp, trivial⟩
  | tcpOpen n => exact ⟨coarse (ev := .tcpOpen n) trivial hp, trivial⟩

/-- The query in a buffer is one query. -/
theorem asks_one {q q' : Message.Msg} {y y' : Question} {ls ls' : List (List Byte)} (h : AsksAll q y ls) (h' : AsksAll q' y' ls') (hb : q.bytes = q'.bytes) :
    ls = ls' ∧ y.type = y'.type := by
  have hfill : ∀ {q : Message.Msg} {y : Question} {ls : List (List Byte)}, AsksAll q y ls → ∃ m : Head Nat,
      fill (noHead : Head Nat) false (q.bytes ++ []) q.bytes.length none 0 [] q.bytes.length = some (0, m) ∧ m.type = y.type := by
    intro q y ls hq
    obtain ⟨names, hn, hr⟩ := hq.names
    obtain ⟨more, hqs⟩ := hq.first
    obtain ⟨d, t, h1, h2⟩ := (fill_decoded (Addr := Dest Nat) q names [] hq.valid (by rw [hqs]; simp) (named_mem hn) false none 0 [] _ (decoded_done hn (fun n hn => by have := (hr n hn).2; omega) (Nat.le_refl _)) noHead).1 hq.class_in
    refine ⟨_, h2, ?_⟩
    rw [hqs] at h1 hn
    cases hn with
    | cons _ _ =>
      have hk := hq.class_in y (by rw [hqs]; simp)
      unfold Msg.asked at h1
      rw [List.zip_cons_cons] at h1
      split at h1
      · cases h1
      · rename_i x l hx
        rw [List.takeWhile_cons_of_pos (by simpa using hk)] at hx
        injection hx with hx _
        rw [← hx] at h1
        exact (congrArg Prod.snd (Option.some.inj h1)).symm
  have hden : ∀ {q : Message.Msg} {y : Question} {ls : List (List Byte)}, AsksAll q y ls → Denotes (bytesAt q.bytes) q.bytes.length 12 ls (wire ls).length := by
    intro q y ls hq
    obtain ⟨more, hqs⟩ := hq.first
    exact first_denotes hq.valid hqs hq.name hq.rfc
  have hd := decode_done (post := []) (N := 256) (hden h) (by have := h.rfc.2; omega) (Nat.le_refl _)
  have hd' := decode_done (post := []) (N := 256) (hden h') (by have := h'.rfc.2; omega) (Nat.le_refl _)
  obtain ⟨m, m1, m2⟩ := hfill h
  obtain ⟨m', m1', m2'⟩ := hfill h'
  rw [hb] at m1 hd
  rw [hd] at hd'
  rw [m1] at m1'
  obtain rfl := congrArg Prod.snd (Option.some.inj m1')
  injection hd' with _ hd'
  exact ⟨text_inj h.rfc.1 h'.rfc.1 (List.append_cancel_right hd'), m2.symm.trans m2'⟩

/-- Any step of any thread. -/
theorem go_done {set : Settings} (ha : Area set.cfg) {e : Env} (he : SoundEnv set e) {s : Sys Addr} (hi : Inv s.st) (hr : SysRest set e.ap s) {k : Nat} {t : Thread} {task : Task Addr}
    (hk : s.tasks[k]? = some (t, task)) (hn : Needs set e s.st task) : ∃ s' acts, step e s (.go k) = some (s', acts) ∧ SysRest set e.ap s' := by
  obtain ⟨st', next, acts, h1, h2, h3, h4, h5⟩ := advance_done ha he (t := t) hi.1 hr.1 (hr.2 _ (List.mem_of_getElem? hk)) hn
  simp only [step, hk, h1]
  cases next with
  | none =>
    refine ⟨_, _, rfl, h2, fun p hp => ?_⟩
    rw [h3, h4]
    exact hr.2 p (List.mem_of_mem_eraseIdx hp)
  | some n =>
    refine ⟨_, _, rfl, h2, fun p hp => ?_⟩
    rw [h3, h4]
    rcases List.mem_or_eq_of_mem_set hp with hp | rfl
    · exact hr.2 p hp
    · exact h5 n rfl

end Verif.Threads
