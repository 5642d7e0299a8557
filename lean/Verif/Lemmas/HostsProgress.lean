import Verif.Props.Hosts
import Verif.Lemmas.HostsLoop
/-! Looking up a query in the hosts data always comes to an end. -/

namespace Verif.Hosts
open Message Name Generator Verif.Msg
open DnsCache.Spec (RfcName)

variable {Addr : Type}

theorem lines_entry {lines : List (List Byte)} {es : List Entry} (h : Lines lines es) : ∀ e ∈ es, ∃ w, Says w e.type e.data := by
  induction h with
  | nil => simp
  | skip _ _ ih => exact ih
  | foreign _ _ _ ih => exact ih
  | cons h _ ih =>
    intro e he
    rcases List.mem_cons.1 he with rfl | he
    · obtain ⟨w, _, h⟩ := h; exact ⟨w, h⟩
    · exact ih e he

theorem entriesFor_mem {fnm : List Byte → List Byte → Bool} {es : List Entry} {name : List Byte} {e : Entry}
    (h : e ∈ entriesFor fnm es name) : e ∈ es := by
  unfold entriesFor at h
  split at h
  · exact (List.mem_filter.1 h).1
  · split at h
    · simp at h
    · exact (List.mem_filter.1 h).1

theorem used_mem {l : List Entry} {ty : HType} {e : Entry} (h : Used l ty e) : e ∈ l := by
  obtain ⟨_, h2 | ⟨_, b, a, h2, _⟩⟩ := h
  · exact List.mem_of_mem_head? h2
  · rw [h2]; simp

/-- The targets of all aliases are names as RFC 1035 limits them, and `P`. -/
def Targets (P : List (List Byte) → Prop) (es : List Entry) : Prop :=
  ∀ e ∈ es, e.type = .cname → ∃ tg, e.data = .text (text tg) ∧ RfcName tg ∧ P tg

/-- What answers is of the kind to be written, or the list of addresses is empty. -/
theorem answer_data {lines : List (List Byte)} {es : List Entry} (h : Lines lines es) {P : List (List Byte) → Prop} (hP : Targets P es)
    {goodIp : List Byte → Option (List Byte)} (hg : ∀ t b, goodIp t = some b → b.length = 4) {fnm : List Byte → List Byte → Bool}
    {name : List Byte} {qtype : Nat} {e : Entry} (ha : AnswersBy fnm es name qtype e) :
    (∃ rd, RData goodIp qtype e rd ∧ rd.length ≤ 255 ∧ (qtype = 5 → ∃ tg, rd = wire tg ∧ RfcName tg ∧ P tg)) ∨
    (qtype ≠ 28 ∧ e.type = .goodIpList ∧ ∃ t, e.data = .text t ∧ goodIp t = none) := by
  have hmem : e ∈ es := by
    rcases ha with ⟨_, h⟩ | ⟨_, ⟨_, h | ⟨_, h⟩⟩ | ⟨_, h | ⟨_, h⟩⟩⟩ <;> exact entriesFor_mem (used_mem h)
  obtain ⟨w, hw⟩ := lines_entry h e hmem
  have hal := hP e hmem
  obtain ⟨en, ety, ed⟩ := e
  dsimp only at hw hal
  have addrA : ety = .a → ∃ b, ed = .addr (some b) ∧ b.length = 16 := by
    intro he; subst he; cases hw; exact ⟨_, rfl, by simp [Mapped]⟩
  have addr6 : ety = .aaaa → ∃ b, ed = .addr (some b) ∧ b.length = 16 := by
    intro he; subst he
    cases hw with
    | v6 _ hb => exact ⟨_, rfl, hb.1⟩
  rcases ha with ⟨rfl, h⟩ | ⟨_, ⟨rfl, h | ⟨_, h⟩⟩ | ⟨rfl, h | ⟨_, h⟩⟩⟩
  · have he : ety = .cname := h.1
    subst he
    obtain ⟨tg, rfl, h2, h3⟩ := hal rfl
    have := DnsCache.wire_length_le (ls := tg)
    have := h2.2
    exact .inl ⟨_, .alias en tg (pieces_of_valid h2.1) (by omega), by omega, fun _ => ⟨tg, rfl, h2, h3⟩⟩
  · have he : ety = .a := h.1
    subst he
    obtain ⟨b, rfl, hb⟩ := addrA rfl
    exact .inl ⟨_, .v4 en b hb, by simp [hb], by simp⟩
  · have he : ety = .goodIpList := h.1
    subst he
    cases hw
    rename_i t _ _
    cases hgi : goodIp t with
    | none => exact .inr ⟨by omega, rfl, t, rfl, hgi⟩
    | some b => exact .inl ⟨_, .list en t b hgi (hg t b hgi), by rw [hg t b hgi]; omega, by simp⟩
  · have he : ety = .aaaa := h.1
    subst he
    obtain ⟨b, rfl, hb⟩ := addr6 rfl
    exact .inl ⟨_, .v6 en b _ hb, by omega, by simp⟩
  · have he : ety = .a := h.1
    subst he
    obtain ⟨b, rfl, hb⟩ := addrA rfl
    exact .inl ⟨_, .v6 en b _ hb, by omega, by simp⟩

/-- A query as clients send it. -/
structure Asks (q : Message.Msg) (x : Question) (ls : List (List Byte)) : Prop where
  valid : q.Valid
  one : q.qs = [x]
  klass : x.klass = 1
  name : x.name = wire ls
  rfc : RfcName ls
  an : q.an = []

/-- A reply of the hosts data. -/
def Replies (P : List (List Byte) → Prop) (q : Message.Msg) (ls : List (List Byte)) (m : Ctx Addr) (r : Message.Msg) : Prop :=
  ∃ rd, ReplyTo q ls m.edns m.type rd r ∧ r.Valid ∧ (m.type = 5 → ∃ tg, rd = wire tg ∧ RfcName tg ∧ P tg)

theorem tryOne_done {c : Cont} {es : List Entry} (h : Loaded c es) {P : List (List Byte) → Prop} (hP : Targets P es)
    {goodIp : List Byte → Option (List Byte)} (hg : ∀ t b, goodIp t = some b → b.length = 4) (fnm : List Byte → List Byte → Bool)
    {behind : List Byte} {m : Ctx Addr} {q : Message.Msg} {x : Question} {ls : List (List Byte)} (ha : Asks q x ls) (hm : m.entity = q.bytes)
    (hroom : q.bytes.length + 279 ≤ behind.length) (hcap : behind.length < 16384) :
    tryOne fnm goodIp c behind m = some (.none, []) ∨ (m.type ≠ 5 ∧ tryOne fnm goodIp c behind m = some (.recursed, [])) ∨
    ∃ r, Replies P q ls m r ∧ tryOne fnm goodIp c behind m = some (.ok, [.reply (sendBack { m with entity := r.bytes })]) := by
  obtain ⟨c1, c2, c3⟩ := tryOne_cases h fnm goodIp behind m
  have hqb : 12 + x.bytes.length ≤ q.bytes.length := by
    simp [Message.Msg.bytes, Message.Msg.body, ha.one, qBytes, header_length ha.valid]
  rcases trichotomy fnm es m.domain m.type with h1 | h1 | ⟨e, h1⟩
  · exact .inr (.inl ⟨h1.1, c1 h1⟩)
  · exact .inl (c2 h1)
  · obtain ⟨lines, l1, l2⟩ := id h
    rcases answer_data l1 hP hg h1 with ⟨rd, d1, d2, d3⟩ | ⟨d0, d1, t, d2, d3⟩
    · obtain ⟨r, r1, r2, r3⟩ := c3 e rd q x ls h1 d1 hm ha.valid ha.one ha.an ha.name (fun l hl => ⟨(ha.rfc.1 l hl).1, (ha.rfc.1 l hl).2.1⟩)
        (by split <;> omega) hcap
      exact .inr (.inr ⟨r, ⟨rd, r1, r2, d3⟩, r3⟩)
    · left
      obtain ⟨f1, f2, n, f3, f4, f5⟩ := find_answer h fnm m h1
      have hsb : (stripped q).bytes.length = 12 + x.bytes.length := by
        rw [Message.Msg.bytes, List.length_append, header_length (stripped_valid ha.valid)]
        simp [Message.Msg.body, stripped, ha.one, ha.an, rrBytes, qBytes]
      obtain ⟨g, g1, g2, g3⟩ := init_strips_partial behind.length q behind ha.valid (by simp [ha.one]) (by omega)
      rw [if_pos ha.an] at g3
      obtain ⟨k2, _⟩ := holds_next (holds_flags g3)
      unfold tryOne
      rw [if_neg f1, if_neg f2]
      show (match find c fnm m.domain (wanted c fnm m) with
          | Option.none => _ | some n => _) = _
      rw [f3]
      dsimp only
      rw [hm, g1]
      dsimp only
      unfold finish
      dsimp only
      rw [if_neg (by simp [k2]), f4, if_neg d0, d1, f5, d2]
      simp [generateNode, d3]

/-- What the hosts code does for a query. -/
inductive Does (P : List (List Byte) → Prop) (q : Message.Msg) (ls : List (List Byte)) (m : Ctx Addr) : Int → List (Out Addr) → Prop where
  | nothing : Does P q ls m (-126) []
  | refuse : Does P q ls m 0 [.reply (sendBackRefused m)]
  | hand (ht : m.type ≠ 5) : Does P q ls m 0 [.handOver { m with entity := m.entity.take 2 }]
  | reply (r : Message.Msg) (h : Replies P q ls m r) : Does P q ls m 0 [.reply (sendBack { m with entity := r.bytes })]

theorem hostsGet_done {s : Hosts} {es ed : List Entry} (hs : LoadedOpt s.static es) (hd : LoadedOpt s.dynamic ed)
    {P : List (List Byte) → Prop} (hPs : Targets P es) (hPd : Targets P ed)
    {goodIp : List Byte → Option (List Byte)} (hg : ∀ t b, goodIp t = some b → b.length = 4) (fnm : List Byte → List Byte → Bool)
    {behind : List Byte} (handOk : Bool) {m : Ctx Addr} {q : Message.Msg} {x : Question} {ls : List (List Byte)} (ha : Asks q x ls) (hm : m.entity = q.bytes)
    (hroom : q.bytes.length + 279 ≤ behind.length) (hcap : behind.length < 16384) :
    ∃ code o, hostsGet fnm goodIp s behind handOk m = some (code, o) ∧ Does P q ls m code o := by
  have one : ∀ {c : Option Cont} {es : List Entry}, LoadedOpt c es → Targets P es →
      tryOpt fnm goodIp c behind m = some (.none, []) ∨ (m.type ≠ 5 ∧ tryOpt fnm goodIp c behind m = some (.recursed, [])) ∨
      ∃ r, Replies P q ls m r ∧ tryOpt fnm goodIp c behind m = some (.ok, [.reply (sendBack { m with entity := r.bytes })]) := by
    intro c es hc hP
    cases c with
    | none => exact .inl rfl
    | some c => exact tryOne_done (c := c) hc hP hg fnm ha hm hroom hcap
  have inner : tryInner fnm goodIp s behind m = some (.none, []) ∨ (m.type ≠ 5 ∧ tryInner fnm goodIp s behind m = some (.recursed, [])) ∨
      ∃ r, Replies P q ls m r ∧ tryInner fnm goodIp s behind m = some (.ok, [.reply (sendBack { m with entity := r.bytes })]) := by
    unfold tryInner
    rcases one hs hPs with h | ⟨h0, h⟩ | ⟨r, h0, h⟩
    · rw [h]; exact one hd hPd
    · rw [h]; exact .inr (.inl ⟨h0, rfl⟩)
    · rw [h]; exact .inr (.inr ⟨r, h0, rfl⟩)
  unfold hostsGet hostsTry
  by_cases h1 : s.blockIpv6 = true ∧ m.type = 28 ∧ (s.has fnm m.domain .a = true ∨ s.has fnm m.domain .goodIpList = true)
  · rw [if_pos h1]; exact ⟨_, _, rfl, .refuse⟩
  · rw [if_neg h1]
    by_cases h2 : s.has fnm m.domain .excluded = true
    · rw [if_pos h2]; exact ⟨_, _, rfl, .nothing⟩
    · rw [if_neg h2]
      rcases inner with h | ⟨h0, h⟩ | ⟨r, h0, h⟩
      · rw [h]; exact ⟨_, _, rfl, .nothing⟩
      · rw [h]
        cases handOk with
        | true => exact ⟨_, _, rfl, .hand h0⟩
        | false => exact ⟨_, _, rfl, .nothing⟩
      · rw [h]; exact ⟨_, _, rfl, .reply r h0⟩

/-- The name an alias stands for, if there is one. -/
theorem cname_target {s : Hosts} {es ed : List Entry} (hs : LoadedOpt s.static es) (hd : LoadedOpt s.dynamic ed)
    {P : List (List Byte) → Prop} (hPs : Targets P es) (hPd : Targets P ed) {fnm : List Byte → List Byte → Bool} {d t : List Byte}
    (h : HostsLoop.getCName fnm s d = some t) : ∃ tg, t = text tg ∧ RfcName tg ∧ P tg := by
  have one : ∀ {c : Option Cont} {es : List Entry}, LoadedOpt c es → Targets P es → ∀ {t : List Byte},
      (match c.bind (fun c => find c fnm d .cname) with
        | some (_, n) => match n.data with | .text t => some t | _ => none
        | none => none) = some t → ∃ tg, t = text tg ∧ RfcName tg ∧ P tg := by
    intro c es hc hP t ht
    cases c with
    | none => simp at ht
    | some c =>
      obtain ⟨lines, l1, l2⟩ := hc
      simp only [Option.bind_some] at ht
      cases hf : find c fnm d .cname with
      | none => rw [hf] at ht; simp at ht
      | some y =>
        obtain ⟨ty, n⟩ := y
        rw [hf] at ht
        dsimp only at ht
        obtain ⟨_, e, h1, h2, h3 | ⟨h3, _⟩⟩ := (find_used l1 l2 fnm d .cname (by simp)).1 _ _ hf
        · obtain ⟨tg, t1, t2, t3⟩ := hP e (entriesFor_mem (used_mem h3)) h3.1
          rw [h2, t1] at ht
          simp only [Option.some.injEq] at ht
          exact ⟨tg, ht.symm, t2, t3⟩
        · simp at h3
  unfold HostsLoop.getCName at h
  dsimp only at h
  rw [Option.or_eq_some_iff] at h
  rcases h with h | ⟨_, h⟩
  · exact one hs hPs h
  · exact one hd hPd h

end Verif.Hosts
