import Verif.Props.DnsCache
/-! C65: queries for aliases themselves (type CNAME), and for NS and PTR. -/

namespace Verif.DnsCache
open Message Name Parser Generator Spec
open Verif.Cache Verif.Cache.Spec

variable {Addr : Type} {s : Settings} {evs : List Event} {ops : List Op} {st : St}

/-- The aliases found in the cache were said by responses. -/
theorem aliases_said (ha : Area s.cfg) (hev : ∀ e ∈ evs, e.WellFormed) (hh : history s evs = some ops) (hst : After s.cfg ops st)
    {now : Int} {ls : List (List Byte)} {l : List (List Byte × Nat)} (hls : RfcName ls)
    (h : answers s.cfg st (keyOf (text ls) 5 1) now = some l) :
    ∃ fs : List Fact, l = fs.map (fun f => (form f.value, f.ttl)) ∧
      ∀ f ∈ fs, f.owner = ls ∧ f.type = 5 ∧ f.ttl < 4294967296 ∧ (∃ target, RfcName target ∧ f.value = .name target) ∧ Said s evs now f := by
  obtain ⟨es, inv, hor, hsm⟩ := after_entries ha (history_wf hh) hst
  rw [answers_ok (cfgOk_of_area ha) inv (keyOf_no_zero (text_no_zero hls.1))] at h
  cases h
  apply exists_facts (P := fun f => f.ttl < 4294967296 ∧ (∃ target, RfcName target ∧ f.value = .name target) ∧ Said s evs now f)
  rintro ⟨d, r⟩ hx
  obtain ⟨e, h1, h2, rfl, h4, h5, rfl⟩ := mem_answersE.1 hx
  obtain ⟨f0, k1, k2, k3, k4, ⟨b, p, rr, k5⟩, k6⟩ := entry_said hev hh (hor e h1) h4
  obtain ⟨g1, g2⟩ := factKey_eq (t := 5) hls.1 (by omega) k3 k5.owner.1 (by rw [← k1, h2])
  have hlt : shown s.cfg now e < 4294967296 := by
    unfold shown; split
    · exact hsm e h1
    · exact leftE_lt _ _
  have hv := k5.value
  refine ⟨f0.value, k2, hlt, ?_, by rw [g1, g2] at k6; exact k6⟩
  cases hf : f0.value with
  | raw d => rw [hf] at hv; have := hv.1; omega
  | mx pref l => rw [hf] at hv; have := hv.1; omega
  | name target => rw [hf] at hv; exact ⟨target, hv.2.1, rfl⟩

/-- C65 for queries of type CNAME: there is no answer from the cache; or it is a well-formed reply to the query that says one
alias of the name asked for, said by an earlier response and not over; or the cache holds more than one alias of this name; or
the answer does not fit.

Missing: names with more than one alias, where it is false (`two_aliases_false`); answers that do not fit. -/
theorem alias_reply_partial (ha : Area s.cfg) (hev : ∀ e ∈ evs, e.WellFormed) (hh : history s evs = some ops)
    (hst : After s.cfg ops st) {behind : List Byte} {fuel : Nat} {now : Int} {m : Verif.Msg.Ctx Addr} {q : Msg} {x : Question}
    {ls : List (List Byte)} {code : Int} {out : List (Verif.Msg.Sent Addr)} (hv : q.Valid) (hq : q.qs = [x]) (hk : x.klass = 1)
    (hx : x.name = wire ls) (hls : RfcName ls) (han : q.an = []) (ht : x.type = 5) (hm : m.entity = q.bytes)
    (hb : behind.length < 16384) (h : fetch s.cfg st behind fuel now m = some (code, out)) :
    (code ≠ 0 ∧ out = []) ∨
    (∃ target ttl r, code = 0 ∧ Said s evs now ⟨ls, 5, ttl, .name target⟩ ∧ ReplyWith q m.edns [⟨ls, 5, ttl, .name target⟩] r ∧
      out = [Verif.Msg.sendBack { m with entity := r.bytes }]) ∨
    (∃ f g fs, (∀ h ∈ f :: g :: fs, h.owner = ls ∧ h.type = 5 ∧ Said s evs now h)) ∨
    (∃ f, f.owner = ls ∧ f.type = 5 ∧ Said s evs now f ∧ behind.length < q.bytes.length + need [f]) := by
  have hqne : q.qs ≠ [] := by simp [hq]
  have h12 : 12 ≤ q.bytes.length := by rw [Msg.bytes, List.length_append, header_length hv]; omega
  have hcap : (stripped q).bytes.length ≤ behind.length := by
    by_cases hc : (stripped q).bytes.length ≤ behind.length
    · exact hc
    · exfalso
      have : initFrom behind.length (q.bytes ++ behind) q.bytes.length true = none := by
        unfold initFrom
        rw [counts_eq hv]
        simp only [if_true, stripedLength_eq q behind hv hqne]
        rw [if_neg (by omega)]
      unfold fetch at h
      rw [hm, if_neg (by simp [initOk]; omega), this] at h
      simp at h
  have hle : (stripped q).bytes.length ≤ q.bytes.length := by
    rw [Msg.bytes, Msg.bytes, List.length_append, List.length_append, header_length hv,
      header_length (stripped_valid hv)]
    simp [Msg.body, stripped, rrBytes]
  obtain ⟨g, hg, hgc, hf0, hf1⟩ := fetch_eq (cfg := s.cfg) (st := st) (fuel := fuel) (now := now) hv hq hk hx hls han hm
    ((cached_iff _).2 (by unfold Cached; omega)) hcap
  by_cases hfuel : (getHostName (Verif.Msg.memAt (q.bytes ++ behind)) q.bytes.length 12 (some 254) fuel).out = .noFuel
  · rw [hf0 hfuel] at h; simp at h
  · rw [hf1 hfuel, if_neg (by omega)] at h
    dsimp only at h
    unfold rawRecords at h
    dsimp only at h
    rw [if_neg (by have := key_length (t := x.type) hls (by omega); omega), ht] at h
    cases hans : answers s.cfg st (keyOf (text ls) 5 1) now with
    | none => rw [hans] at h; simp at h
    | some l =>
      rw [hans] at h
      dsimp only at h
      obtain ⟨fs, rfl, hfs⟩ := aliases_said ha hev hh hst hls hans
      match fs, hfs with
      | [], _ =>
        simp only [List.map_nil, rawLoop] at h
        rw [if_pos (by omega)] at h
        simp only [Option.some.injEq, Prod.mk.injEq] at h
        exact .inl ⟨by omega, h.2.symm⟩
      | f :: f' :: fs, hfs =>
        exact .inr (.inr (.inl ⟨f, f', fs, fun y hy => ⟨(hfs y hy).1, (hfs y hy).2.1, (hfs y hy).2.2.2.2⟩⟩))
      | [f], hfs =>
        obtain ⟨f1, f2, f3, ⟨target, f4, f5⟩, f6⟩ := hfs f (by simp)
        by_cases hroom : (stripped q).bytes.length + ((wire ls).length + 10 + (wire target).length) ≤ g.cap
        · obtain ⟨o, t, ttl, v⟩ := f
          dsimp only at f1 f2 f3 f5
          subst f1 f2 f5
          have hval : (Rec.alias o target ttl).Valid := ⟨hls.1, pieces_of_valid f4.1, by
            have := wire_length_le (ls := target); have := f4.2; omega, f3⟩
          obtain ⟨g1, a1, a2, a3⟩ := append_exact g (stripped q) .answer (.alias o target ttl) hg hval (Or.inl rfl) (by
            have h1 := @an_le_bytes (stripped q)
            have : (stripped q).count .answer = (stripped q).an.length := rfl
            omega) (by rw [rr_bytes_length]; exact hroom)
          rw [add_eq_addAn] at a2
          have hgen : generate g (text o) 5 1 (form (.name target)) ttl = some (0, g1) := by
            rw [← a1]; exact (generate_exact g 1).2.1 o target ttl f4.1
          simp only [List.map_cons, List.map_nil, rawLoop] at h
          rw [hgen] at h
          dsimp only at h
          rw [if_neg (by simp)] at h
          dsimp only at h
          rw [if_neg (by simp)] at h
          rcases ending_gen (fs := [⟨o, 5, ttl, .name target⟩]) (m := m) a2 (by omega) (show (stripped q).qs = [x] from hq) han rfl rfl hx
            (by intro f hf; rw [List.mem_singleton.1 hf]; exact hls.1) rfl (by
              intro i f hf
              match i, hf with
              | 0, hf =>
                simp only [List.getElem?_cons_zero, Option.some.injEq] at hf
                subst hf
                refine ⟨_, rfl, rfl, rfl, rfl, rfl, fun h0 => ?_, rfl⟩
                cases o with
                | nil => rfl
                | cons l ls' =>
                  simp [Rec.rr, wire] at h0
                  have := (hls.1 l (by simp)).1
                  rw [h0.2.1] at this; simp at this
              | i + 1, hf => simp at hf) with ⟨e, _⟩ | ⟨e, _⟩ | ⟨r, er, e⟩
          · rw [e] at h
            simp only [Option.some.injEq, Prod.mk.injEq] at h
            exact .inl ⟨by omega, h.2.symm⟩
          · rw [e] at h
            simp only [Option.some.injEq, Prod.mk.injEq] at h
            exact .inl ⟨by omega, h.2.symm⟩
          · rw [e] at h
            simp only [Option.some.injEq, Prod.mk.injEq] at h
            exact .inr (.inl ⟨target, ttl, r, h.1.symm, f6, ⟨er.valid, er.head, er.qs, er.num, er.an, er.ns, er.ar⟩, h.2.symm⟩)
        · refine .inr (.inr (.inr ⟨f, f1, f2, f6, ?_⟩))
          simp only [need, List.map_cons, List.map_nil, List.sum_cons, List.sum_nil, f1, f5, Value.wire]
          omega

/-- With the history of before, a query for the alias of `a.com` is answered with it. -/
example : fetch smallCfg exSt (List.replicate 200 0) 50 1020 (asker (ask [str "a", str "com"] 5)) =
    some (0, [.udp 1 () false ([0x77, 0x77, 0x81, 0x80, 0, 1, 0, 1, 0, 0, 0, 0] ++ wire [str "a", str "com"] ++ [0, 5, 0, 1] ++
      [0xC0, 12, 0, 5, 0, 1, 0, 0, 1, 24, 0, 7] ++ wire [str "b", str "com"])]) := by decide +kernel

/-! ### what is not kept -/

/-- A position of a message denotes at most one name. -/
theorem denotes_unique {mem : Nat → Byte} {len p k : Nat} {ls : List (List Byte)} (h : Denotes mem len p ls k) :
    ∀ {ms : List (List Byte)} {j : Nat}, Denotes mem len p ms j → ls = ms := by
  induction h with
  | root p h hp =>
    intro ms j h'
    cases h' with
    | root => rfl
    | label _ l _ _ h1 h2 hc =>
      have := congrArg UInt8.toNat (h.symm.trans hc)
      rw [u8_ofNat_toNat (by omega)] at this; simp at this; omega
    | pointer _ q _ _ _ hq hc =>
      have := congrArg UInt8.toNat (h.symm.trans hc)
      rw [u8_ofNat_toNat (by omega)] at this; simp at this; omega
  | label p l ls k h1 h2 hc hl hp hr ih =>
    intro ms j h'
    cases h' with
    | root _ h =>
      have := congrArg UInt8.toNat (h.symm.trans hc)
      rw [u8_ofNat_toNat (by omega)] at this; simp at this; omega
    | label _ l' _ _ h1' h2' hc' hl' hp' hr' =>
      have e := congrArg UInt8.toNat (hc.symm.trans hc')
      rw [u8_ofNat_toNat (by omega), u8_ofNat_toNat (by omega)] at e
      have : l = l' := by
        apply List.ext_getElem e
        intro i i1 i2
        rw [← hl i i1, ← hl' i i2]
      subst this
      rw [ih hr']
    | pointer _ q _ _ _ hq hc' =>
      have e := congrArg UInt8.toNat (hc.symm.trans hc')
      rw [u8_ofNat_toNat (by omega), u8_ofNat_toNat (by omega)] at e
      omega
  | pointer p q ls k hp hq hc hd hr ih =>
    intro ms j h'
    cases h' with
    | root _ h =>
      have := congrArg UInt8.toNat (h.symm.trans hc)
      rw [u8_ofNat_toNat (by omega)] at this; simp at this; omega
    | label _ l _ _ h1' h2' hc' =>
      have e := congrArg UInt8.toNat (hc.symm.trans hc')
      rw [u8_ofNat_toNat (by omega), u8_ofNat_toNat (by omega)] at e
      omega
    | pointer _ q' _ _ _ hq' hc' hd' hr' =>
      have e := congrArg UInt8.toNat (hc.symm.trans hc')
      have e' := congrArg UInt8.toNat (hd.symm.trans hd')
      rw [u8_ofNat_toNat (by omega), u8_ofNat_toNat (by omega)] at e
      rw [UInt8.toNat_ofNat', UInt8.toNat_ofNat'] at e'
      have : q = q' := by omega
      subst this
      exact ih hr'

/-- C65 for queries of type CNAME, without the exceptions: every answer is about the name asked for. -/
def AliasOwners : Prop := ∀ (s : Settings) (evs : List Event) (ops : List Op) (st : St) (behind : List Byte) (fuel : Nat) (now : Int)
  (m : Verif.Msg.Ctx Unit) (q r : Msg) (x : Question) (ls : List (List Byte)),
  Area s.cfg → (∀ e ∈ evs, e.WellFormed) → history s evs = some ops → After s.cfg ops st → q.Valid → q.qs = [x] → x.klass = 1 →
  x.name = wire ls → RfcName ls → q.an = [] → x.type = 5 → m.entity = q.bytes → behind.length < 16384 → r.Valid → r.qs = q.qs →
  fetch s.cfg st behind fuel now m = some (0, [Verif.Msg.sendBack { m with entity := r.bytes }]) →
  ∀ i < r.an.length, ∃ k, Denotes (bytesAt r.bytes) r.bytes.length (12 + (qBytes r.qs).length + (rrBytes (r.an.take i)).length) ls k

/-- A response with two aliases of `a`. -/
def twoR : Msg := ⟨[0x12, 0x34, 0x81, 0x80], [⟨wire [str "a"], 5, 1⟩],
  [⟨wire [str "a"], 5, 1, 300, wire [str "b"]⟩, ⟨wire [str "a"], 5, 1, 300, wire [str "c"]⟩], [], []⟩

def twoFacts : List Fact := [⟨[str "a"], 5, 300, .name [str "b"]⟩, ⟨[str "a"], 5, 300, .name [str "c"]⟩]

/-- A response with the name server of `a`. -/
def nsR : Msg := ⟨[0x12, 0x34, 0x81, 0x80], [⟨wire [str "a"], 2, 1⟩], [⟨wire [str "a"], 2, 1, 300, wire [str "b"]⟩], [], []⟩

def nsFacts : List Fact := [⟨[str "a"], 2, 300, .name [str "b"]⟩]

theorem wire_a : WireName (wire [str "a"]) := .label (str "a") _ (by decide) (by decide) .root

theorem twoR_response : Response twoR twoFacts := by
  refine ⟨⟨rfl, ?_, ?_, by simp [twoR], by simp [twoR], by decide, by decide, by decide, by decide⟩, by simp [twoR], ?_⟩
  · intro q hq
    simp [twoR] at hq; subst hq
    exact ⟨wire_a, by decide, by decide, by decide, by decide⟩
  · intro r hr
    simp [twoR] at hr
    rcases hr with rfl | rfl <;> exact ⟨wire_a, by decide, by decide, by decide, by decide, by decide, by decide⟩
  · have rA : RfcName [str "a"] := rfc_of (by decide +kernel) (by decide)
    have rB : RfcName [str "b"] := rfc_of (by decide +kernel) (by decide)
    have rC : RfcName [str "c"] := rfc_of (by decide +kernel) (by decide)
    refine .cons ⟨rfl, rfl, rfl, rA, wireDenotes (by decide) (by decide +kernel) (by decide +kernel),
      ⟨by decide, rB, wireDenotes (by decide) (by decide +kernel) (by decide +kernel)⟩⟩ (by unfold Cached; decide) ?_
    refine .cons ⟨rfl, rfl, rfl, rA, wireDenotes (by decide) (by decide +kernel) (by decide +kernel),
      ⟨by decide, rC, wireDenotes (by decide) (by decide +kernel) (by decide +kernel)⟩⟩ (by unfold Cached; decide) ?_
    exact .nil _

theorem nsR_response : Response nsR nsFacts := by
  refine ⟨⟨rfl, ?_, ?_, by simp [nsR], by simp [nsR], by decide, by decide, by decide, by decide⟩, by simp [nsR], ?_⟩
  · intro q hq
    simp [nsR] at hq; subst hq
    exact ⟨wire_a, by decide, by decide, by decide, by decide⟩
  · intro r hr
    simp [nsR] at hr; subst hr
    exact ⟨wire_a, by decide, by decide, by decide, by decide, by decide, by decide⟩
  · have rA : RfcName [str "a"] := rfc_of (by decide +kernel) (by decide)
    have rB : RfcName [str "b"] := rfc_of (by decide +kernel) (by decide)
    refine .cons ⟨rfl, rfl, rfl, rA, wireDenotes (by decide) (by decide +kernel) (by decide +kernel),
      ⟨by decide, rB, wireDenotes (by decide) (by decide +kernel) (by decide +kernel)⟩⟩ (by unfold Cached; decide) ?_
    exact .nil _

/-- The response as the only event. -/
def one (r : Msg) : List Event := [.response r.bytes r.bytes.length 50 (str "a") [] (fun _ => 1000) true]

theorem one_wf {r : Msg} {fs : List Fact} (h : Response r fs) : ∀ e ∈ one r, e.WellFormed := by
  intro e he
  simp [one] at he; subst he
  exact ⟨r, fs, [], h, by simp, rfl⟩

theorem after_one {ops : List Op} (h : (run smallCfg (St.init smallCfg blank) ops).isSome = true) :
    After exS.cfg ops ((run smallCfg (St.init smallCfg blank) ops).getD blank) := by
  refine ⟨blank, ?_⟩
  obtain ⟨x, hx⟩ := Option.isSome_iff_exists.1 h
  show run smallCfg (St.init smallCfg blank) ops = some _
  rw [hx]; rfl

theorem ask_valid (t : Nat) (h0 : 0 < t) (ht : t < 65536) : (ask [str "a"] t).Valid := by
  refine ⟨rfl, ?_, by simp [ask], by simp [ask], by simp [ask], by simp [ask], by simp [ask], by simp [ask], by simp [ask]⟩
  intro q hq
  simp [ask] at hq; subst hq
  exact ⟨wire_a, h0, ht, by simp, by simp⟩

def twoOps : List Op := [.add (str "a 5 1") (str "b" ++ [0]) 300 1000, .add (str "a 5 1") (str "c" ++ [0]) 300 1000]

/-- What is sent with two aliases: the second one is about the target of the first. -/
def twoReply : Msg := ⟨[0x77, 0x77, 0x81, 0x80], [⟨wire [str "a"], 5, 1⟩],
  [⟨[0xC0, 12], 5, 1, 280, wire [str "c"]⟩, ⟨[0xC0, 31], 5, 1, 280, wire [str "b"]⟩], [], []⟩

/-- C65 is false for names with two aliases. -/
theorem two_aliases_false : ¬ AliasOwners := by
  intro h
  have hr : twoReply.Valid := by
    refine ⟨rfl, ?_, ?_, by simp [twoReply], by simp [twoReply], by decide, by decide, by decide, by decide⟩
    · intro q hq
      simp [twoReply] at hq; subst hq
      exact ⟨wire_a, by decide, by decide, by decide, by decide⟩
    · intro r hr
      simp [twoReply] at hr
      rcases hr with rfl | rfl
      · exact ⟨.pointer _ _ (by decide), by decide, by decide, by decide, by decide, by decide, by decide⟩
      · exact ⟨.pointer _ _ (by decide), by decide, by decide, by decide, by decide, by decide, by decide⟩
  obtain ⟨k, hk⟩ := h exS (one twoR) twoOps _ (List.replicate 200 0) 50 1020 (asker (ask [str "a"] 5)) (ask [str "a"] 5) twoReply
    ⟨wire [str "a"], 5, 1⟩ [str "a"] ⟨by decide, by decide⟩ (one_wf twoR_response) (by decide +kernel) (after_one (by decide +kernel))
    (ask_valid 5 (by decide) (by decide)) rfl rfl rfl (rfc_of (by decide +kernel) (by decide)) rfl rfl rfl (by decide +kernel) hr rfl
    (by decide +kernel) 1 (by decide)
  have h2 : Denotes (bytesAt twoReply.bytes) twoReply.bytes.length
      (12 + (qBytes twoReply.qs).length + (rrBytes (twoReply.an.take 1)).length) [str "c"] 2 :=
    .pointer _ 31 _ _ (by decide +kernel) (by decide) (by decide +kernel) (by decide +kernel)
      (Classical.choose_spec (wireDenotes (by decide) (by decide +kernel) (by decide +kernel)))
  exact absurd (denotes_unique hk h2) (by decide)

/-- C65, the type: an answer from the cache ends in a record of the type asked for. -/
def TypeAsked : Prop := ∀ (s : Settings) (evs : List Event) (ops : List Op) (st : St) (behind : List Byte) (fuel : Nat) (now : Int)
  (m : Verif.Msg.Ctx Unit) (q r : Msg) (x : Question) (ls : List (List Byte)),
  Area s.cfg → (∀ e ∈ evs, e.WellFormed) → history s evs = some ops → After s.cfg ops st → q.Valid → q.qs = [x] → x.klass = 1 →
  x.name = wire ls → RfcName ls → q.an = [] → Cached x.type → m.entity = q.bytes → behind.length < 16384 → r.Valid → r.qs = q.qs →
  fetch s.cfg st behind fuel now m = some (0, [Verif.Msg.sendBack { m with entity := r.bytes }]) →
  ∃ y ∈ r.an, y.type = x.type

def nsReply : Msg := ⟨[0x77, 0x77, 0x81, 0x80], [⟨wire [str "a"], 2, 1⟩], [⟨[0xC0, 12], 5, 1, 280, wire [str "b"]⟩], [], []⟩

/-- It is false: a question for the name server of a name is answered with an alias. -/
theorem type_asked_false : ¬ TypeAsked := by
  intro h
  have hr : nsReply.Valid := by
    refine ⟨rfl, ?_, ?_, by simp [nsReply], by simp [nsReply], by decide, by decide, by decide, by decide⟩
    · intro q hq
      simp [nsReply] at hq; subst hq
      exact ⟨wire_a, by decide, by decide, by decide, by decide⟩
    · intro r hr
      simp [nsReply] at hr; subst hr
      exact ⟨.pointer _ _ (by decide), by decide, by decide, by decide, by decide, by decide, by decide⟩
  obtain ⟨y, hy, e⟩ := h exS (one nsR) [.add (str "a 2 1") (str "b" ++ [0]) 300 1000] _ (List.replicate 200 0) 50 1020
    (asker (ask [str "a"] 2)) (ask [str "a"] 2) nsReply
    ⟨wire [str "a"], 2, 1⟩ [str "a"] ⟨by decide, by decide⟩ (one_wf nsR_response) (by decide +kernel) (after_one (by decide +kernel))
    (ask_valid 2 (by decide) (by decide)) rfl rfl rfl (rfc_of (by decide +kernel) (by decide)) rfl (by unfold Cached; decide) rfl (by decide +kernel) hr rfl
    (by decide +kernel)
  simp [nsReply] at hy
  subst hy
  exact absurd e (by decide)

end Verif.DnsCache
