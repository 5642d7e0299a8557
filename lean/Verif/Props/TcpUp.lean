import Verif.Spec.TcpUp
import Verif.Props.UdpUp
import Verif.Props.TcpPool
import Verif.Props.TcpStream
/-! To whom a TCP group connects (C136). -/

namespace Verif.TcpUp
open AddressList IpText

theorem addAll_has (inet : List Byte → List Byte) (hi : InetOk inet) {dflt : Nat} {ts : List (List Byte)} {l : List Sock} (h : Texts dflt ts l) :
    ∀ {a : AddrList} {k : List Sock}, HasServers a k → ∃ b, addAll inet dflt a ts = some b ∧ HasServers b (k ++ l) := by
  induction h with
  | nil => intro a k hk; exact ⟨a, rfl, by simpa using hk⟩
  | @cons t a f p ts l h _ ih =>
    intro x k hk
    obtain ⟨y, h1, h2, h3⟩ := add_has hk ⟨f, some a, p⟩
    obtain ⟨z, h4, h5⟩ := ih h2
    refine ⟨z, ?_, by simpa using h5⟩
    rw [addAll, addFromString, understood inet hi dflt t a f p h]
    simp only [h1, h4]
  | @skip t ts l h _ ih =>
    intro x k hk
    obtain ⟨z, h4, h5⟩ := ih hk
    refine ⟨z, ?_, h5⟩
    rw [addAll, addFromString, name_refused inet dflt h]
    exact h4

theorem ptrList_has {a : AddrList} {l : List Sock} (h : HasServers a l) :
    ptrList a = some ⟨l.map some ++ [none], l.map (·.family) ++ [.unspec]⟩ := by
  have : ∀ n i, i + n = l.length → ptrLoop a n i = some ⟨(l.drop i).map some ++ [none], (l.drop i).map (·.family) ++ [.unspec]⟩ := by
    intro n
    induction n with
    | zero => intro i hi; rw [List.drop_eq_nil_of_le (by omega)]; rfl
    | succ n ih =>
      intro i hi
      rw [ptrLoop, get_has h i (by omega)]
      dsimp only
      rw [ih (i + 1) (by omega), List.drop_eq_getElem_cons (show i < l.length by omega)]
      simp only [Option.map_some, List.map_cons, List.cons_append]
  unfold ptrList
  rw [used_eq h, this l.length 0 (by omega)]
  rfl

/-- A list and its arrays hold these addresses. -/
def Holds (x : AddrList × Ptrs) (l : List Sock) : Prop :=
  HasServers x.1 l ∧ x.2 = ⟨l.map some ++ [none], l.map (·.family) ++ [.unspec]⟩

theorem read_holds (inet : List Byte → List Byte) (hi : InetOk inet) {dflt : Nat} {text : List Byte} {l : List Sock} (hn : Names dflt text l) (ht : Line text) :
    ∃ x, read inet dflt text = some x ∧ Holds x l := by
  obtain ⟨hz, hs⟩ := ht
  obtain ⟨ps, ts, h1, h2, h3⟩ := hn
  obtain ⟨bs, L, k1, k2, -, k3⟩ := StringList.split_trim [.add text (.some (str ", ")), .trim (.some (str "\t ."))]
    (by intro o ho; simp at ho; rcases ho with rfl | rfl <;> simp [StringList.Op.Clean, hz])
    (by simp only [StringList.Small, StringList.Op.size, List.map_cons, List.map_nil, List.sum_cons, List.sum_nil, List.length_cons, List.length_nil]; omega)
    (by intro o ho t d; simp at ho; rcases ho with rfl | rfl <;> simp)
  have hL : L = ts := by
    cases k3 with
    | cons m1 k3 =>
      cases k3 with
      | cons m2 k3 =>
        cases k3
        obtain ⟨qs, q1, q2⟩ := m1
        rw [List.nil_append] at q2
        subst q2
        have := Config.split_unique (show StringList.Split (str ", ") text _ from q1) h1
        subst this
        exact (UdpUp.trims_unique h2 m2).symm
  subst hL
  obtain ⟨b, a1, a2⟩ := addAll_has inet hi h3 init_has
  rw [List.nil_append] at a2
  refine ⟨(b, _), ?_, a2, rfl⟩
  unfold read
  rw [k1]
  simp only [Option.bind_some, k2, a1, ptrList_has a2, Option.map_some]

theorem connectTo_holds {x : AddrList × Ptrs} {l : List Sock} (h : Holds x l) (fd i : Nat) (hi : i < l.length) :
    connectTo x.2 fd i = some (.connect fd l[i].family l[i]) := by
  rw [h.2]
  unfold connectTo
  have e1 : (l.map (·.family) ++ [Family.unspec])[i]? = some l[i].family := by
    rw [List.getElem?_append_left (by simpa using hi)]; simp [hi]
  have e2 : (l.map some ++ [none])[i]? = some (some l[i]) := by
    rw [List.getElem?_append_left (by simpa using hi)]; simp [hi]
  simp only [e1, e2]

theorem texts_addr {dflt : Nat} {ts : List (List Byte)} {l : List Sock} (h : Texts dflt ts l) : ∀ s ∈ l, ∃ ip, s.addr = some ip := by
  induction h with
  | nil => intro s hs; cases hs
  | cons _ _ ih =>
    intro s hs
    rcases List.mem_cons.1 hs with rfl | hs
    · exact ⟨_, rfl⟩
    · exact ih s hs
  | skip _ _ ih => exact ih

theorem foldl_none (s : Nat) : ∀ log : List TcpPool.Act, log.foldl (TcpPool.Conn.step s) none = none := by
  intro log
  induction log with
  | nil => rfl
  | cons a log ih => rw [List.foldl_cons, show TcpPool.Conn.step s none a = none by unfold TcpPool.Conn.step; simp]; exact ih

/-- A proxy is told where to connect to only over a connection begun to a proxy. -/
theorem no_prep {s : Nat} : ∀ (log : List TcpPool.Act) {c : Option TcpPool.Conn} {k : TcpPool.Conn}, c ≠ some .raw → (∀ s i, TcpPool.Act.conn s true i ∉ log) →
    log.foldl (TcpPool.Conn.step s) c = some k → ∀ i ok, TcpPool.Act.prep s i ok ∈ log → False := by
  intro log
  induction log with
  | nil => intro c k _ _ _ i ok hm; cases hm
  | cons a log ih =>
    intro c k hc hn hk i ok hm
    rw [List.foldl_cons] at hk
    have hstep : TcpPool.Conn.step s c a ≠ some .raw := by
      unfold TcpPool.Conn.step
      split
      · cases c with
        | none => simp
        | some c =>
          rw [Option.bind_some]
          cases a with
          | conn s' v i' =>
            cases v with
            | true => exact absurd (List.mem_cons_self ..) (hn s' i')
            | false => cases c <;> simp [TcpPool.Conn.next]
          | _ => cases c <;> simp [TcpPool.Conn.next] <;> (try split) <;> simp
      · exact hc
    rcases List.mem_cons.1 hm with rfl | hm
    · have : TcpPool.Conn.step s c (.prep s i ok) = none := by
        unfold TcpPool.Conn.step
        rw [if_pos (show (TcpPool.Act.prep s i ok).sock = s from rfl)]
        cases c with
        | none => rfl
        | some c => cases c <;> first | rfl | exact absurd rfl hc
      rw [this, foldl_none] at hk
      cases hk
    · exact ih hstep (fun s i h => hn s i (List.mem_cons_of_mem _ h)) hk i ok hm

/-- C136: a TCP group whose servers (and proxies) are named properly can be started, and whatever the system, the servers and the
proxies do and whatever is asked: every connection that is begun goes to one of the proxies, if there are any, and else to one of
the servers, at the address and the port of the configuration and over a socket of the address's own family; a proxy is asked for
the address and the port of a server. -/
theorem connects_rightly (inet : List Byte → List Byte) (hi : InetOk inet) {services : List Byte} {l : List Sock} {proxies : Option (List Byte)} {ps : Option (List Sock)}
    (ht : Line services) (hn : Names 53 services l) (hp : Proxies proxies ps) :
    ∃ m, start inet services proxies = some m ∧
      ∀ (o : TcpPool.Oracle) (parallel : Bool) (keep : Int) (inc : Nat) (st0 st : TcpPool.St) (es : List TcpPool.Ev), TcpPool.init inc = some st0 →
        TcpPool.run o (m.cfg parallel keep) st0 es = some st → ∀ a ∈ st.log, ∃ c, callOf m a = some c ∧ Right l ps a c := by
  obtain ⟨x, r1, r2⟩ := read_holds inet hi hn ht
  have haddr : ∀ s ∈ l, ∃ ip, s.addr = some ip := by
    obtain ⟨_, _, _, _, h⟩ := hn
    exact texts_addr h
  have hu := used_eq r2.1
  cases proxies with
  | none =>
    cases ps with
    | some l' => exact absurd hp id
    | none =>
      refine ⟨⟨x, none⟩, by simp only [start, r1, Option.map_some], ?_⟩
      intro o parallel keep inc st0 st es h0 h1 a ha
      have hok := ((TcpPool.connections_in_order h0 h1).2 a ha).1
      cases a with
      | conn s v i =>
        obtain ⟨hv, hlt⟩ := hok
        have hlt : i < l.length := by rw [← hu]; exact hlt
        exact ⟨_, by simp only [callOf, connectTo_holds r2 s i hlt, Option.map_some], l[i], by simp [hlt], rfl⟩
      | close s => exact ⟨none, rfl, rfl⟩
      | prep s i ok =>
        obtain ⟨k, hk, -⟩ := (TcpPool.connections_in_order h0 h1).1 s
        exact absurd trivial (fun _ => no_prep st.log (by simp) (fun s i hm => by
          have := ((TcpPool.connections_in_order h0 h1).2 _ hm).1
          exact Bool.noConfusion this.1) hk _ _ ha)
      | send s i m ok => exact ⟨none, rfl, by rw [← hu]; exact hok, rfl⟩
      | got s => exact ⟨none, rfl, rfl⟩
  | some t =>
    cases ps with
    | none => exact absurd hp id
    | some l' =>
      obtain ⟨y, q1, q2⟩ := read_holds inet hi hp.2 hp.1
      have hu' := used_eq q2.1
      refine ⟨⟨x, some y⟩, by simp only [start, r1, q1], ?_⟩
      intro o parallel keep inc st0 st es h0 h1 a ha
      have hok := ((TcpPool.connections_in_order h0 h1).2 a ha).1
      cases a with
      | conn s v i =>
        obtain ⟨hv, hlt⟩ := hok
        have hlt : i < l'.length := by rw [← hu']; exact hlt
        subst hv
        exact ⟨_, by simp only [callOf, connectTo_holds q2 s i hlt, Option.map_some], l'[i], by simp [hlt], rfl⟩
      | close s => exact ⟨none, rfl, rfl⟩
      | prep s i ok =>
        have hlt : i < l.length := by rw [← hu]; exact hok
        obtain ⟨ip, hip⟩ := haddr l[i] (List.getElem_mem _)
        exact ⟨_, by simp only [callOf, get_has r2.1 i hlt, hip, Option.map_some], by simp, l[i], ip, by simp [hlt], hip, rfl⟩
      | send s i m ok => exact ⟨none, rfl, by rw [← hu]; exact hok, rfl⟩
      | got s => exact ⟨none, rfl, rfl⟩

/-- C136: a TCP group without proxies whose line has no address (but names, say) is started, and never begins a connection nor
sends a query. -/
theorem names_only (inet : List Byte → List Byte) (hi : InetOk inet) {services : List Byte} (ht : Line services) (hn : Names 53 services []) :
    ∃ m, start inet services none = some m ∧
      ∀ (o : TcpPool.Oracle) (parallel : Bool) (keep : Int) (inc : Nat) (st0 st : TcpPool.St) (es : List TcpPool.Ev), TcpPool.init inc = some st0 →
        TcpPool.run o (m.cfg parallel keep) st0 es = some st →
        ∀ a ∈ st.log, (∀ s v i, a ≠ .conn s v i) ∧ ∀ s i x ok, a ≠ .send s i x ok := by
  obtain ⟨m, h1, h2⟩ := connects_rightly inet hi ht hn (proxies := none) (ps := none) trivial
  refine ⟨m, h1, ?_⟩
  intro o parallel keep inc st0 st es k0 k1 a ha
  obtain ⟨c, -, hr⟩ := h2 o parallel keep inc st0 st es k0 k1 a ha
  constructor
  · rintro s v i rfl
    obtain ⟨d, hd, -⟩ := hr
    simp at hd
  · rintro s i x ok rfl
    exact absurd hr.1 (Nat.not_lt_zero _)

theorem texts_sizes {dflt : Nat} (hd : dflt < 65536) {ts : List (List Byte)} {l : List Sock} (h : Texts dflt ts l) :
    ∀ s ∈ l, ∀ ip, s.addr = some ip → (ip.length = 4 ∨ ip.length = 16) ∧ s.port < 65536 := by
  induction h with
  | nil => intro s hs; cases hs
  | cons h _ ih =>
    intro s hs ip hip
    rcases List.mem_cons.1 hs with rfl | hs
    · cases hip
      have port : ∀ {q p}, PortText dflt q p → p < 65536 := by
        intro q p hq
        cases hq with
        | absent => exact hd
        | given _ hp => omega
      cases h with
      | v4 h hq => cases h; exact ⟨.inl rfl, port hq⟩
      | v6 h ha hq => exact ⟨.inr ha.1, port hq⟩
    · exact ih s hs ip hip
  | skip _ _ ih => exact ih

/-- C136: if a proxy grants what it is asked, then it was asked, in the form of RFC 1928, for the address and the port of the server. -/
theorem proxy_asked {services : List Byte} {l : List Sock} (hn : Names 53 services l) {d : Sock} (ht : d ∈ l) {ip : List Byte} (hip : d.addr = some ip)
    {s : List TcpStream.SendEv} {r : List TcpStream.Ev} (hs : TcpStream.AllOrNothing s 300) (he : TcpStream.SendErrnos s)
    (h : (TcpStream.proxyPreparation ⟨ip, d.port⟩ s r).1 = 0) :
    TcpStream.AsksFor (TcpStream.proxyPreparation ⟨ip, d.port⟩ s r).2.1 (TcpStream.Target.text ⟨ip, d.port⟩) d.port := by
  obtain ⟨_, _, _, _, hx⟩ := hn
  obtain ⟨h1, h2⟩ := texts_sizes (by decide) hx d ht ip hip
  exact TcpStream.prepared_asks hs he h1 h2 h

/-! ### a concrete case -/

def relay : Sock := ⟨.inet, some [8, 8, 8, 8], 1080⟩

theorem mixed_names : Names 53 UdpUp.mixed [UdpUp.old, UdpUp.new] := by
  obtain ⟨ps, ts, h1, h2, h3⟩ := UdpUp.mixed_names
  refine ⟨ps, ts, h1, h2, ?_⟩
  clear h2
  generalize [UdpUp.old, UdpUp.new] = l at h3 ⊢
  induction h3 with
  | nil => exact .nil
  | cons h _ ih => exact .cons h ih
  | skip h _ ih => exact .skip h ih

theorem relay_names : Names 1080 (str "8.8.8.8") [relay] :=
  ⟨[str "8.8.8.8"], [str "8.8.8.8"], .last (by decide),
    .keep ⟨[], [], by decide, by simp [StringList.Blank], by simp [StringList.Blank], by decide, by decide⟩ (by decide) .nil,
    .cons (.v4 (t := str "8.8.8.8") (q := []) (.mk (s := str "8") (t := str "8") (u := str "8") (v := str "8") ⟨.one (by decide), by decide⟩
      ⟨.one (by decide), by decide⟩ ⟨.one (by decide), by decide⟩ ⟨.one (by decide), by decide⟩) .absent) .nil⟩

/-- What the system is asked for in a run. -/
def calls (proxies : Option (List Byte)) (o : TcpPool.Oracle) (es : List TcpPool.Ev) : Option (List (Option (Option Call))) :=
  (start UdpUp.sampleInet UdpUp.mixed proxies).bind fun m => (TcpPool.fromStart o (m.cfg true 30) es).map fun st => st.log.map (callOf m)

/-- Servers of both families: each is connected to over a socket of its own (compare `UdpUp.reachable_false`). -/
example : calls none (TcpPool.system [] [3, 4, 5] [(6, 4), (100, 5)] []) [TcpPool.query 1] =
    some [some (some (.connect 4 .inet UdpUp.old)), some (some (.connect 5 .inet6 UdpUp.new)), some none, some none] := by decide +kernel

/-- The same servers behind a proxy. -/
example : calls (some (str "8.8.8.8")) (TcpPool.system [] [3, 4, 5] [(10, 4), (100, 5)] []) [TcpPool.query 1] =
    some [some (some (.connect 4 .inet relay)), some (some (.connect 5 .inet relay)), some (some (.ask 4 ⟨[8, 8, 8, 8], 53⟩)), some none,
      some (some (.ask 5 ⟨[0, 1, 0, 0, 0, 0, 0, 0, 0, 0, 0, 0, 0, 0, 0, 2], 53⟩)), some none] := by decide +kernel

/-- The hypotheses of `connects_rightly` are met. -/
example : InetOk UdpUp.sampleInet ∧ Line UdpUp.mixed ∧ Names 53 UdpUp.mixed [UdpUp.old, UdpUp.new] ∧ Proxies none none ∧
    Proxies (some (str "8.8.8.8")) (some [relay]) :=
  ⟨UdpUp.sampleInet_ok, ⟨by decide, by decide⟩, mixed_names, trivial, ⟨by decide, by decide⟩, relay_names⟩

/-- A name among the addresses is passed over. -/
example : Texts 1080 [str "dns.example", str "8.8.8.8"] [relay] ∧
    (read UdpUp.sampleInet 1080 (str "dns.example, 8.8.8.8")).map (·.2) = some ⟨[some relay, none], [.inet, .unspec]⟩ :=
  ⟨.skip ⟨⟨100, str "ns.example", by decide, by decide⟩, by decide⟩
    (.cons (.v4 (t := str "8.8.8.8") (q := []) (.mk (s := str "8") (t := str "8") (u := str "8") (v := str "8") ⟨.one (by decide), by decide⟩
      ⟨.one (by decide), by decide⟩ ⟨.one (by decide), by decide⟩ ⟨.one (by decide), by decide⟩) .absent) .nil), by decide +kernel⟩

/-- Those of `names_only`; a query gets no connection. -/
example : Line (str "dns.example") ∧ Names 53 (str "dns.example") [] ∧
    (start UdpUp.sampleInet (str "dns.example") none).bind (fun m => (TcpPool.fromStart (TcpPool.system [] [3, 4, 5] [(6, 4), (100, 5)] []) (m.cfg true 30)
      [TcpPool.query 1]).map (·.log)) = some [] :=
  ⟨⟨by decide, by decide⟩, ⟨[str "dns.example"], [str "dns.example"], .last (by decide),
    .keep ⟨[], [], by decide, by simp [StringList.Blank], by simp [StringList.Blank], by decide, by decide⟩ (by decide) .nil,
    .skip ⟨⟨100, str "ns.example", by decide, by decide⟩, by decide⟩ .nil⟩, by decide +kernel⟩

/-- And those of `proxy_asked`. -/
example : (TcpStream.proxyPreparation ⟨[8, 8, 8, 8], 53⟩ TcpStream.exSend [.data [5, 0], .data [5, 0, 0, 1, 10, 0, 0, 1, 4, 56]]).1 = 0 := by decide +kernel

end Verif.TcpUp
