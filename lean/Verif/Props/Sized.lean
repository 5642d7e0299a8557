import Verif.Props.AnsweredAll
/-! C132: what clients are sent over UDP is no larger than they can take. -/

namespace Verif.Forwarder
open Msg MContext Pipeline HostsLoop Message Name Keeps

variable {Addr : Type}

/-- The length of the message in what is sent, over TCP without the two bytes in front. -/
def sizeOfSent : Sent Addr → Nat
  | .udp _ _ _ b => b.length
  | .tcp _ b => b.length - 2

/-- The header says that the message is truncated (RFC 1035, 4.1.1). -/
def SaysTruncated (b : List Byte) : Prop := (b.getD 2 0).toNat / 2 % 2 = 1

/-- Clients ask over UDP without EDNS, in messages of at most 512 bytes; servers that are asked over UDP keep to 512 bytes; the groups `ps` stay. -/
def Modest (ps : List Groups.Proto) : Ev Addr → Prop
  | .udpQuery _ _ _ b len _ => ∃ q ls post, About q ls post ∧ q.ar = [] ∧ b = q.bytes ++ post ∧ len = q.bytes.length ∧ len ≤ 512
  | .tcpQuery _ _ b len _ => ∃ q ls post, About q ls post ∧ b = q.bytes ++ post ∧ len = q.bytes.length
  | .response i b len _ _ _ => ∃ r ls post, About r ls post ∧ b = r.bytes ++ post ∧ len = r.bytes.length ∧ (ps[i]? = some .udp → len ≤ 512)
  | .reload _ _ => False
  | _ => True

/-- C132: clients that ask over UDP without EDNS are sent at most 512 bytes, or are told that the message is truncated. -/
def Fits : Prop := ∀ (st st' : St Nat) (e0 : Env) (ps : List Groups.Proto) (head : Head Nat) (l : List (Env × Ev Nat)) (a : List (Act Nat)),
  Start st → (∀ x ∈ l, Modest ps x.2) → run st ((e0, .reload ps head) :: l) = some (st', a) →
  ∀ sock c f b, .client (.udp sock c f b) ∈ a → b.length ≤ 512 ∨ SaysTruncated b

/-- No local answers: neither hosts data nor the cache. -/
def Plain (e : Env) : Prop := e.hosts.static = none ∧ e.hosts.dynamic = none ∧ e.cacheOn = false

/-- Messages of at most `n` bytes, whatever brings them, and nothing for the worker for aliases to do. -/
def Within (n : Nat) : Ev Addr → Prop
  | .udpQuery _ _ _ b len _ | .tcpQuery _ _ b len _ | .response _ b len _ _ _ =>
    ∃ q ls post, About q ls post ∧ b = q.bytes ++ post ∧ len = q.bytes.length ∧ len ≤ n
  | .innerTake .. | .outerTake .. => False
  | _ => True

theorem size_sendBack (m : Ctx (Dest Addr)) (s : Sent Addr) (h : .client s ∈ (post m (sendBack m)).1) : sizeOfSent s = m.entity.length := by
  unfold sendBack at h
  split at h
  · simp only [post, List.mem_singleton, Act.client.injEq] at h
    subst h
    simp [sizeOfSent, be16]
  · rename_i d _
    cases d with
    | client a =>
      simp only [post, List.mem_singleton, Act.client.injEq] at h
      subst h
      rfl
    | loop p t => simp [post] at h

theorem refuse_length (b : List Byte) : (refuse b).length = b.length := by simp [refuse]

theorem post_refused (m : Ctx (Dest Addr)) (s : Sent Addr) (h : .client s ∈ (post m (sendBackRefused m)).1) : sizeOfSent s = m.entity.length := by
  have : (post m (sendBackRefused m)).1 = (post { m with entity := refuse m.entity } (sendBack { m with entity := refuse m.entity })).1 := by
    unfold sendBackRefused sendBack
    cases hb : m.back with
    | none => rfl
    | some d => cases d <;> rfl
  rw [this] at h
  rw [size_sendBack _ _ h, refuse_length]

theorem hostsGet_plain {e : Env} (he : Plain e) (behind : List Byte) (ok : Bool) (m : Ctx (Dest Addr)) :
    Hosts.hostsGet e.fnm e.goodIp e.hosts behind ok m = some (-126, []) := by
  obtain ⟨h1, h2, _⟩ := he
  have : Hosts.hostsTry e.fnm e.goodIp e.hosts behind ok m = some (.none, []) := by
    unfold Hosts.hostsTry
    simp [h1, h2, Hosts.Hosts.has, Hosts.tryInner, Hosts.tryOpt]
  unfold Hosts.hostsGet
  rw [this]

theorem mgrSend_size {e : Env} (he : Plain e) {st st' : St Addr} {x : Luck} {b : List Byte} {m h : Head Addr} {a : List (Act Addr)}
    (hm : mgrSend e st x b m = some (st', h, a)) (s : Sent Addr) (hs : .client s ∈ a) : sizeOfSent s = m.entity.length := by
  have hd : ∀ o, Pipeline.decide e st.cache x (b.drop m.entity.length) (requestTcp m) m = some o →
      o = .refused [sendBackRefused m] ∨ o = .nowhere ∨ ∃ i, o = .upstream i := by
    intro o ho
    unfold Pipeline.decide at ho
    rw [hostsGet_plain he, he.2.2] at ho
    unfold Filter.filterOut at ho
    split at ho
    · rename_i h1
      split at h1
      · cases h1; cases ho; exact Or.inl rfl
      · cases h1
    · simp only [show ((-126 : Int) = 0) = False by simp, if_false, Bool.false_eq_true, show ((-792 : Int) = 0) = False by simp] at ho
      split at ho
      · cases ho; exact Or.inr (Or.inr ⟨_, rfl⟩)
      · cases ho; exact Or.inr (Or.inl rfl)
  unfold mgrSend at hm
  cases ho : Pipeline.decide e st.cache x (b.drop m.entity.length) (requestTcp m) m with
  | none => rw [ho] at hm; cases hm
  | some o =>
    rw [ho] at hm
    rcases hd o ho with rfl | rfl | ⟨i, rfl⟩
    · cases hm
      simp only [posts, List.flatMap_cons, List.flatMap_nil, List.append_nil] at hs
      exact post_refused m s hs
    · cases hm; cases hs
    · simp only at hm
      split at hm
      · cases hm
      · split at hm
        · split at hm
          · cases hm
          · cases hm
            split at hs <;> simp at hs
        · cases hm; cases hs

theorem respond_size {e : Env} {b : List Byte} {len fuel : Nat} {bn : List Byte} {clock : Nat → Int} {d d' : Module (Dest Addr)} {ops : List Cache.Op}
    {out : List (Head Addr)} {n : Nat} (h : respond e b len fuel bn clock d = some (d', ops, out))
    (hn : ∀ c m, fill d.head false b len none 0 [] fuel = some (c, m) → m.entity.length ≤ n) : ∀ m ∈ out, m.entity.length ≤ n := by
  unfold respond at h
  split at h
  · cases h
  · rename_i c h0 hf
    have := hn _ _ hf
    split at h
    · cases h
    · rename_i v b' _
      simp only at h
      split at h
      · cases h; intro m hm; cases hm
      · split at h
        · cases h; intro m hm; cases hm
        · split at h
          · split at h
            · cases h
            · cases h; intro m hm; cases hm
          · split at h
            · cases h
            · cases h
              intro m hm
              rw [List.mem_singleton] at hm
              subst hm
              simp only [List.length_take]
              omega

theorem step_size {e : Env} (he : Plain e) {st st' : St Addr} {ev : Ev Addr} {a : List (Act Addr)} {n : Nat} (hw : Within n ev)
    (h : step e st ev = some (st', a)) (s : Sent Addr) (hs : .client s ∈ a) : sizeOfSent s ≤ n := by
  cases ev with
  | udpQuery sock addr agent b len x =>
    obtain ⟨q, ls, po, hq, rfl, rfl, hn⟩ := hw
    simp only [step] at h
    split at h
    · cases h
    · rename_i c m hf
      split at h
      · cases h
      · rename_i hm
        cases h
        rw [mgrSend_size he hm s hs, (fill_about hq hf).2.2.2.1]
        exact hn
  | tcpQuery sock agent b len x =>
    obtain ⟨q, ls, po, hq, rfl, rfl, hn⟩ := hw
    simp only [step] at h
    split at h
    · cases h
    · rename_i c m hf
      split at h
      · cases h
      · rename_i hm
        cases h
        rw [mgrSend_size he hm s hs, (fill_about hq hf).2.2.2.1]
        exact hn
  | response i b len fuel bn clock =>
    obtain ⟨q, ls, po, hq, rfl, rfl, hn⟩ := hw
    simp only [step] at h
    split at h
    · cases h
    · split at h
      · cases h
      · rename_i hr
        split at h
        · cases h
        · cases h
          obtain ⟨m, hm, hs⟩ := List.mem_flatMap.1 hs
          rw [size_sendBack m s hs]
          exact respond_size hr (fun c m hf => by rw [(fill_about hq hf).2.2.2.1]; exact hn) m hm
  | innerTake => exact hw.elim
  | outerTake => exact hw.elim
  | take i k now rest =>
    simp only [step] at h
    split at h
    · cases h
    · split at h
      · cases h
      · cases h; simp at hs
  | lose i k =>
    simp only [step] at h
    split at h
    · cases h
    · split at h
      · cases h
      · cases h; cases hs
  | sweep i now =>
    simp only [step] at h
    split at h
    · cases h
    · cases h; cases hs
  | cacheSweep now =>
    simp only [step] at h
    split at h
    · cases h
    · cases h; cases hs
  | innerLose k =>
    simp only [step] at h
    split at h
    · cases h
    · cases h; cases hs
  | outerLose k =>
    simp only [step] at h
    split at h
    · cases h
    · cases h; cases hs
  | loopSweep now => cases h; cases hs
  | reload ps head => cases h; cases hs
  | tcpOpen sock => cases h; cases hs

/-- C132 where queries and responses are within `n` bytes (512, or what clients and servers agree on), without local answers: whatever clients are sent is within `n` bytes.
Missing: larger responses of servers that are asked over TCP (`fits_false`), and replies from the cache and the hosts data, whose size nothing bounds but the buffer. -/
theorem fits_partial (n : Nat) : ∀ (l : List (Env × Ev Addr)) (st st' : St Addr) (a : List (Act Addr)), (∀ x ∈ l, Plain x.1 ∧ Within n x.2) →
    run st l = some (st', a) → ∀ s, .client s ∈ a → sizeOfSent s ≤ n := by
  intro l
  induction l with
  | nil => intro st st' a _ h s hs; cases h; cases hs
  | cons x l ih =>
    intro st st' a hl h s hs
    obtain ⟨e, ev⟩ := x
    obtain ⟨he, hw⟩ := hl _ (List.mem_cons_self ..)
    unfold run at h
    split at h
    · cases h
    · rename_i h1
      split at h
      · cases h
      · rename_i h2
        cases h
        rcases List.mem_append.1 hs with hs | hs
        · exact step_size he hw h1 s hs
        · exact ih _ _ _ (fun y hy => hl y (List.mem_cons_of_mem _ hy)) h2 s hs

/-- A response with 600 bytes of data. -/
def wideR : Message.Msg := ⟨[1, 2, 0x81, 0x80], [⟨wire org, 99, 1⟩], [⟨[0xC0, 12], 99, 1, 60, List.replicate 600 7⟩], [], []⟩

theorem wide_about : About wideR org (List.replicate 200 0) where
  valid := plainValid _ _ _ _ [] orgName (by decide) (by
        intro r hr
        simp only [List.append_nil, List.mem_singleton] at hr
        subst hr
        exact ⟨.pointer _ _ (by decide), by decide, by decide, by decide, by decide, by decide, by decide +kernel⟩)
  class_in := by decide
  names := ⟨[org], .cons (denotes_wire (by decide) (by unfold At; decide +kernel) (by decide +kernel)) .nil, by decide, rfl⟩

theorem orgAsked : About (⟨[1, 2, 1, 0], [⟨wire org, 99, 1⟩], [], [], []⟩ : Message.Msg) org (List.replicate 200 0) where
  valid := plainValid _ _ _ _ [] orgName (by decide) (by simp)
  class_in := by decide
  names := ⟨[org], .cons (denotes_wire (by decide) (by unfold At; decide +kernel) (by decide +kernel)) .nil, by decide, rfl⟩

def wideL : List (Env × Ev Nat) := [(exEnv, udpAsk 8 (query 1 2 org 99)), (exEnv, .take 1 0 1000 []), (exEnv, serverSays 1 wideR.bytes)]

/-- The hypotheses of `fits_partial` hold of this history with 640 bytes, if the cache is off. -/
example : ∀ x ∈ wideL.map (fun y => ({ y.1 with cacheOn := false }, y.2)), Plain x.1 ∧ Within 640 x.2 := by
  intro x hx
  simp only [wideL, List.map_cons, List.map_nil, List.mem_cons, List.not_mem_nil, or_false] at hx
  rcases hx with rfl | rfl | rfl
  · exact ⟨⟨rfl, rfl, rfl⟩, _, _, _, orgAsked, rfl, rfl, by decide +kernel⟩
  · exact ⟨⟨rfl, rfl, rfl⟩, trivial⟩
  · exact ⟨⟨rfl, rfl, rfl⟩, _, _, _, wide_about, rfl, rfl, by decide +kernel⟩

/-- C132 is false of the code: what a server says over TCP is sent on over UDP, whatever its size, without a sign. -/
theorem fits_false : ¬ Fits := by
  intro hall
  have h : (run exSt ((exEnv, .reload [.udp, .tcp] noHead) :: wideL)).map (·.2) =
      some [.server 1 (be16 (query 1 2 org 99).length ++ query 1 2 org 99), .client (.udp 1 8 false wideR.bytes)] := by decide +kernel
  obtain ⟨r, h1, h⟩ := Option.map_eq_some_iff.1 h
  have := hall exSt r.1 exEnv _ _ wideL r.2 ⟨rfl, rfl, rfl, rfl⟩ (by
    intro x hx
    simp only [wideL, List.mem_cons, List.not_mem_nil, or_false] at hx
    rcases hx with rfl | rfl | rfl
    · exact ⟨_, _, _, orgAsked, rfl, rfl, rfl, by decide +kernel⟩
    · trivial
    · exact ⟨_, _, _, wide_about, rfl, rfl, fun h => by cases h⟩) h1 1 8 false wideR.bytes (by rw [h]; simp)
  revert this
  unfold SaysTruncated
  decide +kernel

end Verif.Forwarder
