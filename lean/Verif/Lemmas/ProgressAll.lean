import Verif.Lemmas.Progress
import Verif.Props.HostsFate
/-! Well-formed queries with any questions and answers are processed. -/

namespace Verif.Forwarder
open Msg MContext Pipeline HostsLoop HostsLoop.Spec Keeps Message Name DnsCache DnsCache.Spec Cache.Spec Hosts

variable {Addr : Type}

/-- A well-formed query with any number of questions of class IN and any records, the first question (not compressed) for `ls`, all names as RFC 1035 limits them. -/
structure AsksAll (q : Message.Msg) (y : Question) (ls : List (List Byte)) : Prop where
  valid : q.Valid
  first : ∃ more, q.qs = y :: more
  class_in : ∀ z ∈ q.qs, z.klass = 1
  name : y.name = wire ls
  rfc : RfcName ls
  names : ∃ names, Named (bytesAt q.bytes) q.bytes.length 12 q.qs names ∧ ∀ n ∈ names, RfcName n

theorem first_denotes {q : Message.Msg} {y : Question} {more : List Question} {ls : List (List Byte)} (hv : q.Valid) (hq : q.qs = y :: more) (hn : y.name = wire ls)
    (hr : RfcName ls) : Denotes (bytesAt q.bytes) q.bytes.length 12 ls (wire ls).length := by
  refine denotes_wire (fun l hl => ⟨(hr.1 l hl).1, (hr.1 l hl).2.1⟩) ?_ ?_
  · refine Generator.memOf_mid (pre := q.header) (post := u16 y.type ++ (u16 y.klass ++ (qBytes more ++ (rrBytes q.an ++ (rrBytes q.ns ++ rrBytes q.ar))))) ?_ (Generator.header_length hv).symm
    simp [Msg.bytes, Msg.body, qBytes, Question.bytes, hq, hn]
  · have := Generator.header_length hv
    simp only [Msg.bytes, Msg.body, qBytes, Question.bytes, hq, hn, List.length_append, List.map_cons, List.flatten_cons]
    omega

/-- A query with one question is one of these. -/
theorem asksAll_one {q : Message.Msg} {y : Question} {ls : List (List Byte)} (h : Hosts.Asks q y ls) : AsksAll q y ls := by
  refine ⟨h.valid, ⟨[], h.one⟩, ?_, h.name, h.rfc, [ls], ?_, ?_⟩
  · rw [h.one]; intro z hz; rw [List.mem_singleton.1 hz]; exact h.klass
  · rw [h.one]; exact .cons (first_denotes h.valid h.one h.name h.rfc) .nil
  · intro n hn; rw [List.mem_singleton.1 hn]; exact h.rfc

theorem plainName_rfc {n : List (List Byte)} (h : RfcName n) : plainName n = text (lower n) := by
  have key : ∀ l : List Byte, (∀ c ∈ l, c ≠ 0) → l.takeWhile (· ≠ 0) = l := by
    intro l
    induction l with
    | nil => intro _; rfl
    | cons c l ih => intro hl; rw [List.takeWhile_cons_of_pos (by simpa using hl c (by simp)), ih fun d hd => hl d (by simp [hd])]
  unfold plainName
  rw [text_lower, key _ (rfc_noZero h)]
  rfl

theorem query_fill_all {q : Message.Msg} {y : Question} {ls : List (List Byte)} (hq : AsksAll q y ls) {post : List Byte} {fuel : Nat} (hf : q.bytes.length ≤ fuel)
    (h : Head Addr) (back : Option (Dest Addr)) (hb : ∀ p t, back ≠ some (.loop p t)) (sock : Nat) (agent : List Byte) (mem : Nat → Option (Pending (Head Addr))) :
    ∃ m, fill h false (q.bytes ++ post) q.bytes.length back sock agent fuel = some (0, m) ∧ m.entity = q.bytes ∧ m.back = back ∧ OkHead mem m ∧
      (m.edns = true ∨ ¬ HasEdns q) := by
  obtain ⟨names, hn, hr⟩ := hq.names
  obtain ⟨more, hqs⟩ := hq.first
  obtain ⟨d, t, h1, h2⟩ := (fill_decoded q names post hq.valid (by rw [hqs]; simp) (named_mem hn) false back sock agent fuel (decoded_done hn (fun n hn => by have := (hr n hn).2; omega) hf) h).1 hq.class_in
  have hd : ∃ n ∈ names, d = plainName n ∧ ∃ z ∈ q.qs, t = z.type := by
    unfold Msg.asked at h1
    split at h1
    · cases h1
    · rename_i x l hx
      simp only [Option.some.injEq, Prod.mk.injEq] at h1
      have hall : ∀ w ∈ x :: l, w ∈ q.qs.zip names := fun w hw => (List.takeWhile_sublist _).subset (hx ▸ hw)
      exact ⟨_, (List.of_mem_zip (hall _ (List.getLast_mem _))).2, h1.1.symm, x.1, (List.of_mem_zip (hall x (by simp))).1, h1.2.symm⟩
  obtain ⟨n, n1, n2, z, z1, z2⟩ := hd
  have hv := hq.valid.qs z z1
  refine ⟨_, h2, rfl, rfl, ⟨lower n, lower_rfc (hr n n1), n2.trans (plainName_rfc (hr n n1)), by rw [z2]; exact hv.2.1, by rw [z2]; exact hv.2.2.1, fun p t he => absurd he (hb p t)⟩, ?_⟩
  by_cases he : HasEdns q
  · exact .inl (by simpa [HasEdns] using he)
  · exact .inr he

/-- How the decisions on such a query end. -/
inductive FateAll (m : Head Addr) (n : Nat) : Outcome (Dest Addr) → Prop where
  | refused : FateAll m n (.refused [sendBackRefused m])
  | hosts (o) (h : o = [.reply (sendBackRefused m)] ∨ (∃ b, o = [.reply (sendBack { m with entity := b })]) ∨ o = [.handOver { m with entity := m.entity.take 2 }]) : FateAll m n (.hosts o)
  | cache (b) : FateAll m n (.cache [sendBack { m with entity := b }])
  | nowhere : FateAll m n .nowhere
  | upstream (i : Nat) (h : i < n) : FateAll m n (.upstream i)

theorem not_undefined {s : Hosts} {es ed : List Entry} {fnm : List Byte → List Byte → Bool} {goodIp : List Byte → Option (List Byte)} {name : List Byte} {qtype : Nat} {edns : Bool}
    {q : Message.Msg} (hv : q.Valid) {room : Nat} (hr : q.bytes.length + 29 ≤ room) : ¬ Decides s.blockIpv6 fnm goodIp es ed name qtype edns q room .undefined := by
  have hk : kept q ≤ q.bytes.length := by
    have := Generator.header_length hv
    simp only [kept, Msg.bytes, Msg.body, List.length_append]; omega
  have key : ∀ l, ¬ Ends fnm goodIp l name qtype edns q room .undefined := by
    intro l h
    cases h with
    | long e h hr => omega
    | overrun e rd h hd ha h5 hr hf =>
      have : rd.length ≤ 16 := by
        cases hd with
        | alias => exact absurd rfl h5
        | v4 _ b hb => simp [hb]
        | list _ _ b _ hb => omega
        | v6 _ b _ hb => omega
      omega
  intro h
  cases h with
  | static _ _ _ h => exact key _ h
  | dynamic _ _ _ _ h => exact key _ h

theorem fetch_all {s : Settings} (ha : Area s.cfg) {c : Cache.St} (hc : CacheOk s c) {behind : List Byte} {fuel : Nat} {now : Int} {m : Head Addr} {q : Message.Msg} {y : Question}
    {ls : List (List Byte)} (hq : AsksAll q y ls) (hm : m.entity = q.bytes) (hcap : behind.length < 16384) (hroom : q.bytes.length ≤ behind.length) (hf : q.bytes.length ≤ fuel)
    (hfit : q.an = [] → Cached y.type → Fits s.cfg c now ls y.type q.bytes.length behind.length) :
    ∃ code out, DnsCache.fetch s.cfg c behind fuel now m = some (code, out) ∧ (code ≠ 0 ∨ ∃ b, out = [sendBack { m with entity := b }]) := by
  obtain ⟨more, hqs⟩ := hq.first
  by_cases han : q.an = []
  · obtain ⟨evs, ops, h1, h2, h3⟩ := hc
    obtain ⟨code, out, g1, g2⟩ := fetch_done ha h3 h1 h2 (m := m) hq.valid hqs (hq.class_in y (by rw [hqs]; simp)) hq.name hq.rfc han hm hcap hroom hf (hfit han)
    refine ⟨code, out, g1, ?_⟩
    rcases g2 with g2 | ⟨_, r, _, _, _, g2⟩
    · exact .inl g2.1
    · exact .inr ⟨_, g2⟩
  · have hle : (Generator.stripped q).bytes.length ≤ q.bytes.length := by
      rw [Msg.bytes, Msg.bytes, List.length_append, List.length_append, Generator.header_length hq.valid,
        Generator.header_length (Generator.stripped_valid hq.valid)]
      simp [Msg.body, Generator.stripped, rrBytes]
    obtain ⟨g, g1, g2, g3⟩ := Generator.init_strips_partial behind.length q behind hq.valid (by rw [hqs]; simp) (Nat.le_trans hle hroom)
    unfold DnsCache.fetch
    split
    · exact ⟨_, _, rfl, .inl (by decide)⟩
    · rw [hm, g1]
      rw [if_neg han] at g3
      have hn : g.num = 6 := Hosts.purpose_num.2.1.1 g3.sect
      have hp : Generator.nextPurpose g = ({ g with num := g.num + 2 }, Generator.purposeOf (g.num + 2)) := by
        unfold Generator.nextPurpose; rw [if_neg (by rw [hn]; decide)]
      dsimp only
      rw [hp, hn]
      dsimp only
      rw [if_pos (by decide)]
      exact ⟨_, _, rfl, .inl (by decide)⟩

theorem hosts_all {s : Settings} {e : Env} (he : SoundEnv s e) {behind : List Byte} (ok : Bool) {m : Head Addr} {q : Message.Msg} {y : Question} {ls : List (List Byte)}
    (hq : AsksAll q y ls) (hm : m.entity = q.bytes) (hroom : q.bytes.length + 279 ≤ behind.length) (hcap : behind.length < 16384) :
    ∃ code o, hostsGet e.fnm e.goodIp e.hosts behind ok m = some (code, o) ∧
      (code = 0 → o = [.reply (sendBackRefused m)] ∨ (∃ b, o = [.reply (sendBack { m with entity := b })]) ∨ o = [.handOver { m with entity := m.entity.take 2 }]) := by
  obtain ⟨es, ed, l1, l2, t1, t2⟩ := he.hosts
  obtain ⟨more, hqs⟩ := hq.first
  obtain ⟨f, hf1⟩ := all_decided l1 l2 e.fnm e.goodIp he.goodIp m.domain m.type m.edns q behind.length
  have hh := hosts_decide l1 l2 e.fnm e.goodIp behind m q y more ls hm hq.valid hqs hq.name (fun l hl => ⟨(hq.rfc.1 l hl).1, (hq.rfc.1 l hl).2.1⟩) hcap ok f hf1
  cases f with
  | refused => exact ⟨_, _, hh, fun _ => .inl rfl⟩
  | passes => exact ⟨_, _, hh, fun h => absurd h (by decide)⟩
  | redirected =>
    have hh : _ = _ := hh
    cases hok : ok with
    | true => rw [hok, if_pos rfl] at hh; exact ⟨_, _, hh, fun _ => .inr (.inr rfl)⟩
    | false => rw [hok, if_neg (by simp)] at hh; exact ⟨_, _, hh, fun h => absurd h (by decide)⟩
  | replies rd => obtain ⟨a, _, _, h3⟩ := hh; exact ⟨_, _, h3, fun _ => .inr (.inl ⟨_, rfl⟩)⟩
  | undefined => exact absurd hf1 (not_undefined hq.valid (by omega))

theorem decide_all {s : Settings} {e : Env} (ha : Area s.cfg) (he : SoundEnv s e) {c : Cache.St} (hc : CacheOk s c) {x : Luck} {behind : List Byte} (rt : Bool)
    {m : Head Addr} {q : Message.Msg} {y : Question} {ls : List (List Byte)} (hq : AsksAll q y ls) (hm : m.entity = q.bytes)
    (hroom : q.bytes.length + 279 ≤ behind.length) (hcap : behind.length < 16384) (hf : q.bytes.length ≤ x.fuel)
    (hfit : q.an = [] → Cached y.type → Fits s.cfg c x.now ls y.type q.bytes.length behind.length) :
    ∃ o, Pipeline.decide e c x behind rt m = some o ∧ FateAll m e.groups.modules.length o := by
  unfold Pipeline.decide
  split
  · rename_i o ho
    refine ⟨_, rfl, ?_⟩
    have : o = [sendBackRefused m] := by
      unfold Filter.filterOut at ho
      split at ho
      · simp only [Prod.mk.injEq, true_and] at ho; exact ho.symm
      · simp at ho
    rw [this]; exact .refused
  · obtain ⟨code, o, g1, g2⟩ := hosts_all he x.handOk hq hm hroom hcap
    rw [g1]
    dsimp only
    by_cases hz : code = 0
    · rw [if_pos hz]
      exact ⟨_, rfl, .hosts _ (g2 hz)⟩
    · rw [if_neg hz]
      have hfe : ∃ code out, (if e.cacheOn then DnsCache.fetch e.cache.cfg c behind x.fuel x.now m else some (-792, [])) = some (code, out) ∧
          (code ≠ 0 ∨ ∃ b, out = [sendBack { m with entity := b }]) := by
        split
        · rw [he.cache]
          exact fetch_all ha hc hq hm hcap (by omega) hf hfit
        · exact ⟨_, _, rfl, .inl (by omega)⟩
      obtain ⟨code', out, f1, f2⟩ := hfe
      rw [f1]
      dsimp only
      by_cases hz' : code' = 0
      · rw [if_pos hz']
        obtain ⟨b, rfl⟩ := f2.resolve_left (by simp [hz'])
        exact ⟨_, rfl, .cache b⟩
      · rw [if_neg hz']
        split
        · rename_i i hi
          exact ⟨_, rfl, .upstream i (Groups.route_lt hi)⟩
        · exact ⟨_, rfl, .nowhere⟩

/-- Replies to clients do not go to the alias worker. -/
theorem posts_client {m : Head Addr} (hb : ∀ p t, m.back ≠ some (.loop p t)) (b : List Byte) : (posts m [sendBack { m with entity := b }]).2 = [] := by
  unfold posts sendBack
  dsimp only
  cases h : m.back with
  | none => simp [post]
  | some d =>
    cases d with
    | client a => simp [post]
    | loop p t => exact absurd h (hb p t)

theorem mgrSend_all {s : Settings} {e : Env} (ha : Area s.cfg) (he : SoundEnv s e) {st : St Addr} (hi : ∀ d ∈ st.mods, GoodModule d) (hr : Rest s st)
    (hmods : st.base + e.groups.modules.length ≤ st.mods.length) {x : Luck} {post' : List Byte}
    {m : Head Addr} {q : Message.Msg} {y : Question} {ls : List (List Byte)} (hq : AsksAll q y ls) (hm : m.entity = q.bytes)
    (hok : OkHead st.loop.mem m) (hb : ∀ p t, m.back ≠ some (.loop p t))
    (hroom : q.bytes.length + 279 ≤ post'.length) (hcap : post'.length < 16384) (hf : q.bytes.length ≤ x.fuel)
    (hfit : q.an = [] → Cached y.type → Fits s.cfg st.cache x.now ls y.type q.bytes.length post'.length)
    (hap : e.ap = true → m.edns = true ∨ q.ar = []) :
    ∃ st' h acts, mgrSend e st x (q.bytes ++ post') m = some (st', h, acts) ∧ Rest s st' := by
  have hdrop : (q.bytes ++ post').drop m.entity.length = post' := by rw [hm]; exact List.drop_left' rfl
  obtain ⟨o, d1, d2⟩ := decide_all ha he hr.cache (requestTcp m) hq hm hroom hcap hf hfit
  have hsend : ∃ st' h acts, mgrSend e st x (q.bytes ++ post') m = some (st', h, acts) ∧ st'.cache = st.cache ∧ st'.outer = st.outer := by
    unfold mgrSend
    rw [hdrop, d1]
    cases d2 with
    | refused => exact ⟨_, _, _, rfl, rfl, by show _ ++ _ = _; unfold sendBackRefused; rw [posts_client hb, List.append_nil]⟩
    | nowhere => exact ⟨_, _, _, rfl, rfl, rfl⟩
    | cache b => exact ⟨_, _, _, rfl, rfl, by show _ ++ _ = _; rw [posts_client hb, List.append_nil]⟩
    | hosts o h =>
      refine ⟨_, _, _, rfl, rfl, ?_⟩
      show _ ++ _ = _
      rcases h with rfl | ⟨b, rfl⟩ | rfl
      · show _ ++ (posts m [sendBackRefused m]).2 = _
        unfold sendBackRefused; rw [posts_client hb, List.append_nil]
      · show _ ++ (posts m [sendBack { m with entity := b }]).2 = _
        rw [posts_client hb, List.append_nil]
      · simp [repliesOf, posts]
    | upstream i hi =>
      have hlt : st.base + i < st.mods.length := by omega
      dsimp only
      rw [List.getElem?_eq_getElem hlt]
      dsimp only
      split
      · have hu := udp_edns_partial e x (q.bytes ++ post') m st.mods[st.base + i] q hm hq.valid (by simp; omega)
        have : ∃ m' d', udpSend e x (q.bytes ++ post') m st.mods[st.base + i] = some (m', d') := by
          by_cases hap' : e.ap = true
          · cases hed : m.edns with
            | true => obtain ⟨d', h⟩ := hu.2 (.inr hed); exact ⟨_, _, h⟩
            | false =>
              obtain ⟨m', d', h, _⟩ := hu.1 hap' hed ((hap hap').resolve_left (by simp [hed]))
              exact ⟨_, _, h⟩
          · obtain ⟨d', h⟩ := hu.2 (.inl (by simpa using hap')); exact ⟨_, _, h⟩
        obtain ⟨m', d', h⟩ := this
        rw [h]
        exact ⟨_, _, _, rfl, rfl, rfl⟩
      · exact ⟨_, _, _, rfl, rfl, rfl⟩
  obtain ⟨st', h, acts, h1, h2, h3⟩ := hsend
  have h12 : 12 ≤ m.entity.length := by
    rw [hm, Message.Msg.bytes, List.length_append, Generator.header_length hq.valid]; omega
  have hb2 : m.entity.take 2 = (q.bytes ++ post').take 2 := by
    rw [hm] at h12 ⊢
    rw [List.take_append_of_le_length (by omega)]
  obtain ⟨i1, i2⟩ := mgrSend_inner h12 h1
  have hmov := mgrSend_moves (S := (· = m)) (ev := Ev.innerTake 0 0 0 0 m x) rfl rfl h12 hb2 h1
  refine ⟨st', h, acts, h1, by rw [h2]; exact hr.cache, ?_, ?_, by rw [i1]; exact hr.loop, by rw [i1, h3]; exact hr.outer⟩
  · rw [i1]
    exact okModules (fun z hz => by rw [hz]; exact hok) hi hr.mods hmov
  · rw [i1]
    intro z hz
    rcases i2 with i2 | i2 <;> rw [i2] at hz
    · exact hr.inner z hz
    · rcases List.mem_append.1 hz with hz | hz
      · exact hr.inner z hz
      · rw [List.mem_singleton.1 hz]
        exact hok.same ⟨rfl, rfl, rfl, rfl, rfl, rfl⟩

end Verif.Forwarder
