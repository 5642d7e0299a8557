import Verif.Props.DnsCache
/-! C131: a reply from the cache carries all the cache holds, or says that it does not. -/

namespace Verif.DnsCache
open Message Name Parser Generator Spec
open Verif.Cache Verif.Cache.Spec

variable {Addr : Type} {s : Settings} {evs : List Event} {ops : List Op} {st : St}

/-- The message in what is sent: over TCP behind its length. -/
def carried : Verif.Msg.Sent Addr → List Byte
  | .udp _ _ _ b => b
  | .tcp _ b => b.drop 2

/-- The header tells of `n` answers (RFC 1035, 4.1.1). -/
def Tells (b : List Byte) (n : Nat) : Prop := (b.getD 6 0).toNat * 256 + (b.getD 7 0).toNat = n

/-- The header says that the message is truncated. -/
def Truncated (b : List Byte) : Prop := (b.getD 2 0).toNat / 2 % 2 = 1

/-- C131: if the cache holds the records `l` of the name and type asked for and no alias of the name, a reply carries all of them or says that it is truncated. -/
def Complete : Prop := ∀ (s : Settings) (evs : List Event) (ops : List Op) (st : St) (behind : List Byte) (fuel : Nat) (now : Int)
  (m : Verif.Msg.Ctx Unit) (q : Msg) (x : Question) (ls : List (List Byte)) (l : List (List Byte × Nat)) (out : List (Verif.Msg.Sent Unit)),
  Area s.cfg → (∀ e ∈ evs, e.WellFormed) → history s evs = some ops → After s.cfg ops st → q.Valid → q.qs = [x] → x.klass = 1 →
  x.name = wire ls → RfcName ls → q.an = [] → Cached x.type → m.entity = q.bytes → q.bytes.length ≤ behind.length → behind.length < 16384 →
  cnameFrom s.cfg st (text ls) now = some none → answers s.cfg st (keyOf (text ls) x.type 1) now = some l →
  fetch s.cfg st behind fuel now m = some (0, out) → ∀ y ∈ out, Tells (carried y) l.length ∨ Truncated (carried y)

theorem tells_bytes {r : Msg} (hr : r.Valid) : Tells r.bytes r.an.length := by
  have h4 := hr.head
  have hn := hr.an16
  unfold Tells
  obtain ⟨a, b, c, d, he⟩ : ∃ a b c d, r.head = [a, b, c, d] := by
    match h : r.head, h4 with
    | [a, b, c, d], _ => exact ⟨a, b, c, d, rfl⟩
  simp only [Msg.bytes, Msg.header, he]
  simp [u16]
  omega

/-- C131 for replies that fit the space behind the query: exactly one reply is sent and it tells of all the records the cache holds.
Missing: those that do not fit (`complete_false`). -/
theorem complete_partial (ha : Area s.cfg) (hev : ∀ e ∈ evs, e.WellFormed) (hh : history s evs = some ops)
    (hst : After s.cfg ops st) {behind : List Byte} {fuel : Nat} {now : Int} {m : Verif.Msg.Ctx Addr} {q : Msg} {x : Question}
    {ls : List (List Byte)} {l : List (List Byte × Nat)} (hv : q.Valid) (hq : q.qs = [x]) (hk : x.klass = 1)
    (hx : x.name = wire ls) (hls : RfcName ls) (hroot : ls ≠ []) (han : q.an = [])
    (ht : x.type = 1 ∨ x.type = 15 ∨ x.type = 16 ∨ x.type = 28 ∨ x.type = 65) (hm : m.entity = q.bytes)
    (hb : behind.length < 16384)
    (hfuel : (getHostName (Verif.Msg.memAt (q.bytes ++ behind)) q.bytes.length 12 (some 254) fuel).out ≠ .noFuel)
    (hcn : cnameFrom s.cfg st (text ls) now = some none) (hl : answers s.cfg st (keyOf (text ls) x.type 1) now = some l)
    (hne : l ≠ []) (hroom : ∀ fs : List Fact, l = fs.map (fun f => (form f.value, f.ttl)) → (∀ f ∈ fs, f.owner = ls) →
      q.bytes.length + need fs + 11 ≤ behind.length) :
    ∃ y, fetch s.cfg st behind fuel now m = some (0, [y]) ∧ Tells (carried y) l.length := by
  obtain ⟨fs, r, h1, h2, h3, _⟩ := hit_answered_partial ha hev hh hst hv hq hk hx hls hroot han ht hm hb hfuel hcn hl hne hroom
  refine ⟨_, h1, ?_⟩
  have hc : carried (Verif.Msg.sendBack { m with entity := r.bytes }) = r.bytes := by
    unfold Verif.Msg.sendBack
    split <;> simp [carried, Verif.Msg.be16]
  rw [hc, h3, List.length_map, ← h2.num]
  exact tells_bytes h2.valid

/-- A response with two addresses of `b.com`. -/
def bR : Msg := ⟨[0x11, 0x11, 0x81, 0x80], [⟨wire [str "b", str "com"], 1, 1⟩],
  [⟨[0xC0, 12], 1, 1, 60, [1, 2, 3, 4]⟩, ⟨[0xC0, 12], 1, 1, 60, [5, 6, 7, 8]⟩], [], []⟩

def bFacts : List Fact := [⟨[str "b", str "com"], 1, 60, .raw [1, 2, 3, 4]⟩, ⟨[str "b", str "com"], 1, 60, .raw [5, 6, 7, 8]⟩]

theorem bName : WireName (wire [str "b", str "com"]) := .label (str "b") _ (by decide) (by decide) (.label (str "com") _ (by decide) (by decide) .root)

theorem bR_response : Response bR bFacts := by
  have rB : RfcName [str "b", str "com"] := rfc_of (by decide +kernel) (by decide)
  refine ⟨⟨rfl, ?_, ?_, by simp [bR], by simp [bR], by decide, by decide, by decide, by decide⟩, by simp [bR], ?_⟩
  · intro q hq
    simp [bR] at hq; subst hq
    exact ⟨bName, by decide, by decide, by decide, by decide⟩
  · intro r hr
    simp [bR] at hr
    rcases hr with rfl | rfl
    · exact ⟨.pointer _ _ (by decide), by decide, by decide, by decide, by decide, by decide, by decide⟩
    · exact ⟨.pointer _ _ (by decide), by decide, by decide, by decide, by decide, by decide, by decide⟩
  · refine .cons ⟨rfl, rfl, rfl, rB, ⟨_, .pointer _ 12 _ _ (by decide +kernel) (by decide) (by decide +kernel) (by decide +kernel)
      (Classical.choose_spec (wireDenotes (by decide) (by decide +kernel) (by decide +kernel)))⟩, ⟨by decide, rfl, by decide⟩⟩ (by unfold Cached; decide) ?_
    refine .cons ⟨rfl, rfl, rfl, rB, ⟨_, .pointer _ 12 _ _ (by decide +kernel) (by decide) (by decide +kernel) (by decide +kernel)
      (Classical.choose_spec (wireDenotes (by decide) (by decide +kernel) (by decide +kernel)))⟩, ⟨by decide, rfl, by decide⟩⟩ (by unfold Cached; decide) ?_
    exact .nil _

def bEv : List Event := [.response bR.bytes bR.bytes.length 50 (str "b.com") [] (fun _ => 1000) true]

theorem bEv_wf : ∀ e ∈ bEv, e.WellFormed := by
  intro e he
  rw [bEv, List.mem_singleton] at he
  subst he
  exact ⟨bR, bFacts, [], bR_response, (List.append_nil _).symm, rfl⟩

def bOps : List Op := [.add (str "b.com 1 1") [1, 2, 3, 4] 60 1000, .add (str "b.com 1 1") [5, 6, 7, 8] 60 1000]

theorem bHistory : history exS bEv = some bOps := by decide +kernel

def bSt : St := (run smallCfg (St.init smallCfg blank) bOps).getD blank

theorem bAfter : After exS.cfg bOps bSt := by
  refine ⟨blank, ?_⟩
  have h : (run smallCfg (St.init smallCfg blank) bOps).isSome = true := by decide +kernel
  obtain ⟨x, hx⟩ := Option.isSome_iff_exists.1 h
  show run smallCfg (St.init smallCfg blank) bOps = some bSt
  unfold bSt
  rw [hx]; rfl

/-- With space for both, both are sent. -/
example : fetch smallCfg bSt (List.replicate 200 0) 50 1020 (asker (ask [str "b", str "com"] 1)) =
    some (0, [.udp 1 () false ([0x77, 0x77, 0x81, 0x80, 0, 1, 0, 2, 0, 0, 0, 0] ++ wire [str "b", str "com"] ++ [0, 1, 0, 1] ++
      [0xC0, 12, 0, 1, 0, 1, 0, 0, 0, 40, 0, 4, 5, 6, 7, 8] ++ [0xC0, 12, 0, 1, 0, 1, 0, 0, 0, 40, 0, 4, 1, 2, 3, 4])]) := by decide +kernel

/-- C131 is false of the code: if the second of two addresses does not fit, the first is sent, with what was written of the second behind it and no sign that something
is missing. -/
theorem complete_false : ¬ Complete := by
  intro h
  have hv : (ask [str "b", str "com"] 1).Valid := by
    refine ⟨rfl, ?_, by simp [ask], by simp [ask], by simp [ask], by decide, by decide, by decide, by decide⟩
    intro q hq
    simp [ask] at hq; subst hq
    exact ⟨bName, by decide, by decide, by decide, by decide⟩
  have := h exS bEv bOps bSt (List.replicate 51 0) 50 1020 (asker (ask [str "b", str "com"] 1)) (ask [str "b", str "com"] 1)
    ⟨wire [str "b", str "com"], 1, 1⟩ [str "b", str "com"] [([5, 6, 7, 8], 40), ([1, 2, 3, 4], 40)]
    [.udp 1 () false ([0x77, 0x77, 0x81, 0x80, 0, 1, 0, 1, 0, 0, 0, 0] ++ wire [str "b", str "com"] ++ [0, 1, 0, 1] ++
      [0xC0, 12, 0, 1, 0, 1, 0, 0, 0, 40, 0, 4, 5, 6, 7, 8] ++ wire [str "b", str "com"])]
    ⟨by decide, by decide⟩ bEv_wf bHistory bAfter
    hv rfl rfl rfl (rfc_of (by decide +kernel) (by decide)) rfl (by unfold Cached; decide) rfl (by decide +kernel)
    (by decide +kernel) (by decide +kernel) (by decide +kernel) (by decide +kernel) _ (List.mem_singleton.2 rfl)
  revert this
  unfold Tells Truncated
  decide +kernel

end Verif.DnsCache
