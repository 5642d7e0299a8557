import Verif.Lemmas.TcpPool
/-! C79–C83: the connections to TCP servers and SOCKS proxies. -/

namespace Verif.TcpPool
open SocketPool

/-- C79: whatever the system, the servers and the proxies do, and whatever is asked: what is done on a connection is
in order (see `Conn.next`: one query at a time, each to the server the connection leads to; a proxy is told once where
to connect to; nothing is done on a connection that is not open), the servers and proxies are those of the settings,
the open descriptors are the one for queries and those of open connections, and the former is left alone. -/
theorem connections_in_order {o : Oracle} {cfg : Cfg} {inc : Nat} {st0 st : St} {es : List Ev} (hi : init inc = some st0) (hr : run o cfg st0 es = some st) :
    (∀ s, ∃ k, follow st.log s = some k ∧ k ≠ .broken ∧ (s ∈ st.opened ↔ s = inc ∨ k ≠ .shut)) ∧ (∀ a ∈ st.log, ActOk cfg a ∧ a.sock ≠ inc) := by
  have h := sat_run (P := fun _ => True) (o := o) (fun _ _ _ => trivial) es (inv_init (cfg := cfg) trivial hi)
  rw [hr] at h
  obtain ⟨w, h⟩ := h
  have hinc := (h.plain inc .waiting).2 ⟨rfl, rfl⟩
  refine ⟨fun s => ⟨_, h.followed s, ?_, ?_⟩, h.acts⟩
  · unfold expected
    cases hw : w s with
    | none => simp
    | some x =>
      obtain ⟨l, d⟩ := x
      cases d with
      | none => simp
      | some c => cases l <;> simp only [stand] <;> (try split) <;> simp
  · rw [h.opened s]
    unfold expected
    cases hw : w s with
    | none =>
      have : s ≠ inc := fun e => by rw [e, hinc] at hw; cases hw
      simp [this]
    | some x =>
      obtain ⟨l, d⟩ := x
      cases d with
      | none => simp [((h.plain s l).1 hw).1]
      | some c => simp [stand_ne_shut]

/-! Examples. -/

/-- Which sockets are ready: up to a time, these; in the end, those. -/
def readyUpTo (rest : List Nat) : List (Nat × List Nat) → Nat → Nat → Bool
  | [], _, s => rest.contains s
  | (n, l) :: r, k, s => if k < n then l.contains s else readyUpTo rest r k s

/-- A system. -/
def system (ready : List (Nat × List Nat)) (rest : List Nat) (socks : List (Nat × Nat)) (refused : List Nat) : Oracle :=
  ⟨readyUpTo rest ready, fun k => (socks.find? (fun e => decide (k < e.1))).map (·.2), fun _ => 0, fun _ => 0, fun _ s => !refused.contains s, fun _ s => !refused.contains s⟩

/-- A query is read. -/
def query (n : Nat) : Ev := ⟨some ⟨n, n, n⟩, .nothing, fun _ => none⟩
/-- A response is read. -/
def response : Ev := ⟨none, .whole, fun _ => none⟩
/-- The connection is closed by the server. -/
def hangUp : Ev := ⟨none, .nothing, fun a => some (a, a)⟩

/-- What is left to look at. -/
def St.view (st : Option St) : Option (Nat × List Nat × List Act) := st.map (fun st => (st.tick, st.opened, st.log))

/-- From the beginning, with descriptor 3 for queries. -/
def fromStart (o : Oracle) (cfg : Cfg) (es : List Ev) : Option St := (init 3).bind (fun st => run o cfg st es)

/-- One server: two queries, two responses; the third goes over the first connection, which is closed, so it is sent
again over the second, which is closed too, so again over a new one. -/
example : St.view (fromStart
      (system [(8, [3, 4]), (16, [3, 5]), (18, [4]), (20, [5]), (29, [3, 4, 5]), (38, [4, 5])] [4, 5, 6] [(8, 4), (16, 5), (100, 6)] [])
      ⟨1, none, false, 30⟩ [query 1, query 2, response, response, query 3, hangUp, hangUp]) =
    some (44, [6, 3], [.conn 4 false 0, .send 4 0 ⟨1, 1, 1⟩ true, .conn 5 false 0, .send 5 0 ⟨2, 2, 2⟩ true, .got 4, .got 5, .send 4 0 ⟨3, 3, 3⟩ true,
      .send 5 0 ⟨3, 3, 3⟩ true, .close 4, .conn 6 false 0, .send 6 0 ⟨3, 3, 3⟩ true, .close 5]) := by decide +kernel

/-- Two servers behind one proxy. -/
example : (St.view (fromStart (system [] [3, 4, 5] [(10, 4), (100, 5)] []) ⟨2, some 1, true, 30⟩ [query 1])).map (·.2) =
    some ([5, 4, 3], [.conn 4 true 0, .conn 5 true 0, .prep 4 0 true, .send 4 0 ⟨1, 1, 1⟩ true, .prep 5 1 true, .send 5 1 ⟨1, 1, 1⟩ true]) := by decide +kernel

/-- C80: when the module stops, every open descriptor is closed once and nothing else. -/
def StopsClean : Prop := ∀ (o : Oracle) (cfg : Cfg) (inc : Nat) (st0 st : St) (es : List Ev), init inc = some st0 → run o cfg st0 es = some st →
  (cleanup cfg st).Nodup ∧ ∀ s, s ∈ cleanup cfg st ↔ s ∈ st.opened

/-- C80 is false: the descriptor for queries is closed twice. -/
theorem stops_clean_false : ¬ StopsClean := by
  intro h
  obtain ⟨st0, h0⟩ : ∃ st, init 3 = some st := ⟨_, rfl⟩
  have := (h (system [] [] [] []) ⟨1, none, false, 30⟩ 3 st0 st0 [] h0 rfl).1
  have h1 : (init 3).map (cleanup ⟨1, none, false, 30⟩) = some [3, 3] := by decide +kernel
  rw [h0] at h1
  simp only [Option.map_some, Option.some.injEq] at h1
  rw [h1] at this
  simp at this

/-- C80, proved part: apart from closing that one first, it is as it should be; no descriptor is forgotten. -/
theorem stops_clean_partial {o : Oracle} {cfg : Cfg} {inc : Nat} {st0 st : St} {es : List Ev} (hi : init inc = some st0) (hr : run o cfg st0 es = some st) :
    ∃ rest, cleanup cfg st = inc :: rest ∧ rest.Nodup ∧ ∀ s, s ∈ rest ↔ s ∈ st.opened := by
  have h := sat_run (P := fun _ => True) (o := o) (fun _ _ _ => trivial) es (inv_init (cfg := cfg) trivial hi)
  rw [hr] at h
  obtain ⟨w, h⟩ := h
  have hmem : ∀ l s, s ∈ closeAll (st.pools l).pool none ↔ ∃ d, w s = some (l, d) := fun l s => ok_closeAll (h.pools l) s
  have hnd : ∀ l, (closeAll (st.pools l).pool none).Nodup := fun l => ok_closeAll_nodup (h.pools l)
  have hdis : ∀ l l' s, l ≠ l' → s ∈ closeAll (st.pools l).pool none → s ∈ closeAll (st.pools l').pool none → False := fun l l' s hl h1 h2 => by
    obtain ⟨d, h1⟩ := (hmem l s).1 h1
    obtain ⟨d', h2⟩ := (hmem l' s).1 h2
    rw [h1] at h2
    injection h2 with h2
    injection h2 with h2
    exact hl h2
  -- a list of different sets
  have hflat : ∀ ls : List Loc, ls.Nodup → (ls.flatMap (fun l => closeAll (st.pools l).pool none)).Nodup := by
    intro ls
    induction ls with
    | nil => simp
    | cons l ls ih =>
      intro hn
      rw [List.nodup_cons] at hn
      rw [List.flatMap_cons, List.nodup_append]
      refine ⟨hnd l, ih hn.2, fun a ha b hb hab => ?_⟩
      subst hab
      obtain ⟨l', hl', ha'⟩ := List.mem_flatMap.1 hb
      exact hdis l l' a (fun e => hn.1 (e ▸ hl')) ha ha'
  let locs : List Loc := .waiting :: ((match cfg.proxies with | none => [] | some n => .proxyQuery :: (List.range n).map .proxy) ++ (.query :: (List.range cfg.servers).map .agent))
  have hl : locs.Nodup := by
    have hp : ∀ n, ((List.range n).map Loc.proxy).Nodup := fun n => by
      rw [List.nodup_iff_pairwise_ne, List.pairwise_map]
      exact (List.nodup_range (n := n)).imp (fun h e => h (by injection e))
    have ha : ∀ n, ((List.range n).map Loc.agent).Nodup := fun n => by
      rw [List.nodup_iff_pairwise_ne, List.pairwise_map]
      exact (List.nodup_range (n := n)).imp (fun h e => h (by injection e))
    show List.Nodup (_ :: _)
    cases cfg.proxies with
    | none => simp [ha]
    | some n =>
      simp only [List.nodup_cons, List.nodup_append, List.mem_append, List.mem_cons, List.mem_map, List.cons_append]
      refine ⟨by simp, by simp, hp n, ⟨by simp, ha _⟩, ?_⟩
      rintro a ⟨x, -, rfl⟩ b (rfl | ⟨y, -, rfl⟩) <;> simp
  refine ⟨locs.flatMap (fun l => closeAll (st.pools l).pool none), ?_, hflat locs hl, fun s => ?_⟩
  · show cleanup cfg st = _ :: List.flatMap _ (_ :: _)
    unfold cleanup
    rw [h.incEq]
    cases cfg.proxies with
    | none => simp [List.flatMap_map]
    | some n => simp [List.flatMap_map]
  · rw [List.mem_flatMap, h.opened s]
    constructor
    · rintro ⟨l, -, hs⟩
      obtain ⟨d, hs⟩ := (hmem l s).1 hs
      left
      rw [hs]
      simp
    · rintro (hs | hs)
      · cases hw : w s with
        | none => exact absurd hw hs
        | some x =>
          obtain ⟨l, d⟩ := x
          refine ⟨l, ?_, (hmem l s).2 ⟨d, hw⟩⟩
          show l ∈ Loc.waiting :: _
          cases d with
          | none => rw [((h.plain s l).1 hw).2]; exact List.mem_cons_self
          | some c =>
            have hf := (h.fits s l c hw).1
            cases l with
            | waiting => exact List.mem_cons_self
            | query => simp
            | agent i => simp only [Fits] at hf; simp; omega
            | proxyQuery => obtain ⟨-, n, hn, -⟩ := hf; rw [hn]; simp
            | proxy j => obtain ⟨-, rfl, n, hn, hlt⟩ := hf; rw [hn]; simp [hlt]
      · exact absurd rfl hs

/-- C81: every sending of a query has a reason: either it has just been read, and then it is sent once, or with
`parallel` at most as often as there are servers; or it was sent over a connection that had been used before, on which
then nothing came but its end, and it is still stored: then it is sent again, once.  Nothing else is sent. -/
theorem sends_have_reason {o : Oracle} {cfg : Cfg} {inc : Nat} {st0 st st' : St} {es : List Ev} {e : Ev} (hi : init inc = some st0) (hr : run o cfg st0 es = some st)
    (ht : turn o cfg st e = some st') :
    ∃ new, st'.log = st.log ++ new ∧
      ((∀ s i m ok, .send s i m ok ∉ new) ∨
        ∃ m, (∀ s i m' ok, .send s i m' ok ∈ new → m' = m) ∧
          ((e.inc = some m ∧ o.ready st.tick inc = true ∧ sends new ≤ if cfg.parallel then cfg.servers else 1) ∨
           (∃ s i n, follow st.log s = some (.asked i (n + 1) m) ∧ o.ready st.tick s = true ∧ e.res = .nothing ∧ e.mem m.addr = some (m.qid, m.hash) ∧
              sends new ≤ 1))) := by
  have h := sat_run (P := fun _ => True) (o := o) (fun _ _ _ => trivial) es (inv_init (cfg := cfg) trivial hi)
  rw [hr] at h
  obtain ⟨w, h⟩ := h
  have hquiet : ∀ {X : List Act → Prop}, Ext Quiet st st' → ∃ new, st'.log = st.log ++ new ∧ ((∀ s i m ok, .send s i m ok ∉ new) ∨ X new) :=
    fun ⟨new, h1, h2⟩ => ⟨new, h1, .inl fun s i m ok hm => h2 _ hm⟩
  have hab : ∀ {m : Msg} {new : List Act}, (∀ a ∈ new, About m a) → ∀ s i m' ok, .send s i m' ok ∈ new → m' = m := fun h s i m' ok hm => h _ hm
  unfold turn at ht
  cases hsel : st.select o .waiting with
  | mk r st1 =>
    have h0 := select_log hsel
    rw [hsel] at ht
    cases r with
    | none => cases ht; exact hquiet (ext_of_eq h0)
    | some x =>
      obtain ⟨s, c⟩ := x
      obtain ⟨rfl, hready, hw⟩ := select_w h hsel
      dsimp only at ht
      by_cases hs : s = st.incoming
      · rw [if_pos hs] at ht
        cases hinc : e.inc with
        | none =>
          rw [hinc] at ht
          dsimp only at ht
          have := add_log ht
          exact hquiet (ext_of_eq this)
        | some m =>
          rw [hinc] at ht
          dsimp only at ht
          cases hsa : sendActual o cfg m none { st with tick := st.tick + 1 } with
          | none => rw [hsa] at ht; cases ht
          | some st2 =>
            rw [hsa] at ht
            obtain ⟨new, e1, e2, e3⟩ := sendActual_sent hsa
            refine ⟨new, by rw [add_log ht]; exact e1, .inr ⟨m, hab e3, .inl ⟨rfl, by rw [hs, h.incEq] at hready; exact hready, ?_⟩⟩⟩
            simpa using e2
      · rw [if_neg hs] at ht
        cases hres : e.res with
        | bad => rw [hres] at ht; cases ht; exact hquiet ⟨[.close s], rfl, by simp [Quiet]⟩
        | whole =>
          rw [hres] at ht
          dsimp only at ht
          split at ht
          · have := add_log ht
            exact hquiet ⟨[.got s], this, by simp [Quiet]⟩
          · cases ht
        | nothing =>
          rw [hres] at ht
          dsimp only at ht
          cases hre : retry c e.mem with
          | none =>
            rw [hre] at ht
            cases ht
            exact hquiet ⟨[.close s], rfl, by simp [Quiet]⟩
          | some m =>
            rw [hre] at ht
            dsimp only at ht
            cases hsa : sendActual o cfg m (some c.index) (St.del { st with tick := st.tick + 1 } .waiting s) with
            | none => rw [hsa] at ht; cases ht
            | some st2 =>
              rw [hsa] at ht
              cases ht
              obtain ⟨new, e1, e2, e3⟩ := sendActual_sent hsa
              obtain ⟨r1, r2, r3, r4, r5⟩ := retry_index hre
              refine ⟨new ++ [.close s], ?_, .inr ⟨m, ?_, .inr ⟨s, c.index, c.queried - 2, ?_, hready, rfl, r3, ?_⟩⟩⟩
              · show st2.log ++ _ = _
                rw [e1, List.append_assoc]
                rfl
              · intro t i m' ok hm
                rcases List.mem_append.1 hm with hm | hm
                · exact e3 _ hm
                · simp at hm
              · rcases hw with hw | ⟨hw, -⟩
                · rw [h.followed s]
                  unfold expected
                  rw [hw]
                  simp only [stand, r1, ← r4, ← r5, Option.getD_some]
                  rw [show c.queried - 1 = c.queried - 2 + 1 by omega]
                · exact absurd ((h.plain s .waiting).1 hw).1 (by rw [← h.incEq]; exact hs)
              · rw [sends_append]
                rw [if_neg (by simp)] at e2
                simpa [sends, isSend] using e2

/-- C82: whatever servers do, the module goes on. -/
def GoesOn : Prop := ∀ (o : Oracle) (cfg : Cfg) (inc : Nat) (es : List Ev), inc < 1024 → (∀ k s, o.sock k = some s → s < 1024) →
  ∃ st0, init inc = some st0 ∧ run o cfg st0 es ≠ none

/-- C82 is false: the random number to begin with and the number of a server can overflow. -/
theorem goes_on_false : ¬ GoesOn := by
  intro h
  obtain ⟨st0, h0, h1⟩ := h ⟨fun _ _ => true, fun _ => none, fun _ => 0, fun _ => 2147483647, fun _ _ => true, fun _ _ => true⟩ ⟨2, none, false, 30⟩ 3 [query 1]
    (by decide) (by simp)
  have h2 : ((init 3).map (fun st => (run ⟨fun _ _ => true, fun _ => none, fun _ => 0, fun _ => 2147483647, fun _ _ => true, fun _ _ => true⟩
    ⟨2, none, false, 30⟩ st [query 1]).isNone)) = some true := by decide +kernel
  rw [h0] at h2
  simp only [Option.map_some, Option.some.injEq, Option.isNone_iff_eq_none] at h2
  exact h1 h2

/-- C82, proved part: it goes on as long as descriptors are below 1024 and random numbers are not within the number of
servers (or proxies) of the largest `int`. -/
theorem goes_on_partial {o : Oracle} {cfg : Cfg} {inc : Nat} (es : List Ev) (hinc : inc < 1024) (hs : ∀ k s, o.sock k = some s → s < 1024)
    (hrnd : ∀ k i, (i < cfg.servers ∨ ∃ n, cfg.proxies = some n ∧ i < n) → o.rnd k + i < 2147483648) :
    ∃ st0, init inc = some st0 ∧ run o cfg st0 es ≠ none := by
  obtain ⟨p, hp⟩ := ok_add_some (p := (Puller.init : Puller Ctx)) (d := none) hinc
  have hi : ∃ st0, init inc = some st0 := by
    unfold init St.add
    dsimp only
    rw [hp]
    exact ⟨_, rfl⟩
  obtain ⟨st0, h0⟩ := hi
  refine ⟨st0, h0, fun hn => ?_⟩
  have h := sat_run (P := (· < 1024)) (o := o) hs es (inv_init (cfg := cfg) hinc h0)
  rw [hn] at h
  exact h ⟨fun _ h => h, hrnd⟩

/-- Only the descriptor for queries is ever ready; a new descriptor is the lowest that is free. -/
def silent : Oracle := ⟨fun _ s => s == 3, fun k => some (4 + (k - 4) / 6), fun _ => 0, fun _ => 0, fun _ _ => true, fun _ _ => true⟩

/-- One server. -/
def single : Cfg := ⟨1, none, false, 30⟩

theorem silent_select {st : St} (h : Inv (fun _ => True) single 3 st (fun _ => none)) {l : Loc} (hl : l ≠ .waiting) :
    st.select silent l = (none, { st with tick := st.tick + 1 }) := by
  cases hs : st.select silent l with
  | mk r st1 =>
    obtain ⟨w, h⟩ := h
    cases r with
    | none => unfold St.select at hs; injection hs with _ hs; rw [hs]
    | some x =>
      obtain ⟨s, c⟩ := x
      obtain ⟨-, h1, h2⟩ := select_w h hs
      have h1 : s = 3 := by simpa [silent] using h1
      have h3 := (h.plain 3 .waiting).2 ⟨rfl, rfl⟩
      subst h1
      rw [h3] at h2
      rcases h2 with h2 | ⟨h2, -⟩
      · cases h2
      · cases h2; exact absurd rfl hl

theorem silent_waiting {st : St} (h : Inv (fun _ => True) single 3 st (fun _ => none)) :
    ∃ c, st.select silent .waiting = (some (3, c), { st with tick := st.tick + 1 }) := by
  cases hs : st.select silent .waiting with
  | mk r st1 =>
    obtain ⟨w, h⟩ := h
    have h3 := (h.plain 3 .waiting).2 ⟨rfl, rfl⟩
    cases r with
    | none =>
      unfold St.select at hs
      injection hs with hs _
      have := ok_select_none (h.pools .waiting) (by simpa using hs) h3
      simp [silent] at this
    | some x =>
      obtain ⟨s, c⟩ := x
      obtain ⟨h0, h1, h2⟩ := select_w h hs
      have h1 : s = 3 := by simpa [silent] using h1
      subst h1
      exact ⟨c, by rw [h0]⟩

theorem silent_turn {n : Nat} {st : St} (h : Inv (fun _ => True) single 3 st (fun _ => none)) (ht : st.tick = 6 * n) (ho : ∀ s, s ∈ st.opened ↔ 3 ≤ s ∧ s < 4 + n) :
    if 4 + n < 1024 then ∃ st', turn silent single st (query 1) = some st' ∧ Inv (fun _ => True) single 3 st' (fun _ => none) ∧ st'.tick = 6 * (n + 1) ∧
      ∀ s, s ∈ st'.opened ↔ 3 ≤ s ∧ s < 4 + (n + 1)
    else turn silent single st (query 1) = none := by
  have hinc : st.incoming = 3 := by obtain ⟨w, h⟩ := h; exact h.incEq
  obtain ⟨c, hw⟩ := silent_waiting h
  have h1 : Inv (fun _ => True) single 3 { st with tick := st.tick + 1 } (fun _ => none) := inv_tick h _
  have hrec : recycle silent .query 1 .agent (St.rounds { st with tick := st.tick + 1 } .query) { st with tick := st.tick + 1 } = some { st with tick := st.tick + 2 } := by
    unfold St.rounds recycle
    rw [silent_select h1 (by simp)]
  have h2 : Inv (fun _ => True) single 3 { st with tick := st.tick + 3 } (fun _ => none) := inv_tick h _
  have hav : getAvailable silent 30 (.agent 0) (St.rounds { st with tick := st.tick + 3 } (.agent 0)) { st with tick := st.tick + 3 } = (none, { st with tick := st.tick + 4 }) := by
    unfold St.rounds getAvailable
    rw [silent_select h2 (by simp)]
  have hsock : silent.sock (st.tick + 4) = some (4 + n) := by
    simp only [silent, ht]
    rw [show (6 * n + 4 - 4) / 6 = n by omega]
  have hfree : 4 + n ∉ st.opened := by rw [ho]; omega
  have hnew : connectNew silent false 0 { st with tick := st.tick + 4 } =
      (some (4 + n, ⟨0, 0, 0, 0, 0, none⟩), { st with tick := st.tick + 5, opened := (4 + n) :: st.opened, log := st.log ++ [.conn (4 + n) false 0] }) := by
    unfold connectNew
    dsimp only
    rw [hsock]
    dsimp only
    rw [if_neg hfree]
    rfl
  have hserver : serverOne silent single 0 { st with tick := st.tick + 3 } =
      ((St.mk (st.tick + 5) ((4 + n) :: st.opened) st.incoming st.pools (st.log ++ [.conn (4 + n) false 0])).add .query (4 + n) (some ⟨0, 0, 0, 0, 0, none⟩)).map
        (fun st => (true, st)) := by
    unfold serverOne
    rw [show single.keep = 30 from rfl, hav]
    show adding .query (connectNew silent false 0 { st with tick := st.tick + 4 }) = _
    rw [hnew]
    rfl
  have hconn : connect silent single none { st with tick := st.tick + 1 } =
      ((St.mk (st.tick + 5) ((4 + n) :: st.opened) st.incoming st.pools (st.log ++ [.conn (4 + n) false 0])).add .query (4 + n) (some ⟨0, 0, 0, 0, 0, none⟩)).map
        (fun st => (1, st)) := by
    unfold connect
    rw [show single.servers = 1 from rfl, hrec]
    have hz : (silent.rnd (st.tick + 2) + 0) % 1 = 0 := rfl
    simp only [List.range_succ, List.range_zero, List.nil_append, overAll]
    rw [if_neg (by simp [silent, intLimit]), hz]
    rw [hserver]
    cases (St.mk (st.tick + 5) ((4 + n) :: st.opened) st.incoming st.pools (st.log ++ [.conn (4 + n) false 0])).add .query (4 + n) (some ⟨0, 0, 0, 0, 0, none⟩) <;> rfl
  have hturn : turn silent single st (query 1) = (match sendActual silent single ⟨1, 1, 1⟩ none { st with tick := st.tick + 1 } with
      | none => none
      | some st => (st.del .waiting 3).add .waiting 3 none) := by
    unfold turn
    rw [hw]
    dsimp only
    rw [if_pos hinc.symm]
    rfl
  have hsend : sendActual silent single ⟨1, 1, 1⟩ none { st with tick := st.tick + 1 } =
      (match (St.mk (st.tick + 5) ((4 + n) :: st.opened) st.incoming st.pools (st.log ++ [.conn (4 + n) false 0])).add .query (4 + n) (some ⟨0, 0, 0, 0, 0, none⟩) with
      | none => none
      | some st => sendMany silent single ⟨1, 1, 1⟩ 1 st) := by
    unfold sendActual
    rw [hconn]
    cases (St.mk (st.tick + 5) ((4 + n) :: st.opened) st.incoming st.pools (st.log ++ [.conn (4 + n) false 0])).add .query (4 + n) (some ⟨0, 0, 0, 0, 0, none⟩) <;> rfl
  rw [hturn, hsend]
  obtain ⟨k1, k2, k3⟩ := inv_new (P := fun _ => True) (cfg := single) (n := st.tick + 5) (i := 0) (v := false) h hfree trivial (by simp [ActOk, single])
  by_cases hlt : 4 + n < 1024
  · rw [if_pos hlt]
    obtain ⟨p, hp⟩ := ok_add_some (p := st.pools .query) (d := some ⟨0, 0, 0, 0, 0, none⟩) hlt
    have hadd : ∃ st2, (St.mk (st.tick + 5) ((4 + n) :: st.opened) st.incoming st.pools (st.log ++ [.conn (4 + n) false 0])).add .query (4 + n) (some ⟨0, 0, 0, 0, 0, none⟩) = some st2 := by
      unfold St.add
      dsimp only
      rw [hp]
      exact ⟨_, rfl⟩
    obtain ⟨st2, hadd⟩ := hadd
    rw [hadd]
    have h3 := inv_add k3 (c := ⟨0, 0, 0, 0, 0, none⟩) (l := .query) (by simp [stand, single]) (by simp [Fits, single]) hadd
    rw [held_none_upd k1] at h3
    obtain ⟨-, -, t2⟩ := add_pools hadd
    have t2 : st2.tick = st.tick + 5 := t2
    have ho2 : st2.opened = (4 + n) :: st.opened := by
      unfold St.add at hadd
      dsimp only at hadd
      rw [hp] at hadd
      cases hadd
      rfl
    have hmany : sendMany silent single ⟨1, 1, 1⟩ 1 st2 = some { st2 with tick := st2.tick + 1 } := by
      unfold sendMany sendOne
      rw [silent_select h3 (by simp)]
      rfl
    dsimp only
    rw [hmany]
    dsimp only
    have h4 : Inv (fun _ => True) single 3 { st2 with tick := st2.tick + 1 } (fun _ => none) := inv_tick h3 _
    obtain ⟨q, hq⟩ := ok_add_some (p := (st2.pools .waiting).del 3) (d := none) (show 3 < 1024 by decide)
    have hadd2 : ∃ st3, (St.del { st2 with tick := st2.tick + 1 } .waiting 3).add .waiting 3 none = some st3 ∧ st3.tick = st2.tick + 1 ∧ st3.opened = st2.opened := by
      unfold St.add St.del St.set
      simp only [if_true]
      rw [hq]
      exact ⟨_, rfl, rfl, rfl⟩
    obtain ⟨st3, e1, e2, e3⟩ := hadd2
    have h5 := sat_again (o := silent) h4
    rw [e1] at h5
    refine ⟨st3, e1, h5, by omega, fun s => ?_⟩
    rw [e3, ho2, List.mem_cons, ho]
    omega
  · rw [if_neg hlt]
    have : (St.mk (st.tick + 5) ((4 + n) :: st.opened) st.incoming st.pools (st.log ++ [.conn (4 + n) false 0])).add .query (4 + n) (some ⟨0, 0, 0, 0, 0, none⟩) = none := by
      unfold St.add Puller.add
      rw [if_pos (by simp only [setSize]; omega)]
      rfl
    rw [this]

theorem run_snoc {o : Oracle} {cfg : Cfg} {st : St} (es : List Ev) (e : Ev) : run o cfg st (es ++ [e]) = (run o cfg st es).bind (fun st => turn o cfg st e) := by
  induction es generalizing st with
  | nil =>
    simp only [List.nil_append, run, Option.bind_some]
    cases turn o cfg st e <;> rfl
  | cons x es ih =>
    simp only [List.cons_append, run]
    cases turn o cfg st x with
    | none => rfl
    | some st1 => exact ih

theorem silent_run {st0 : St} (hi : init 3 = some st0) (n : Nat) (hn : 4 + n ≤ 1024) :
    ∃ st, run silent single st0 (List.replicate n (query 1)) = some st ∧ Inv (fun _ => True) single 3 st (fun _ => none) ∧ st.tick = 6 * n ∧
      ∀ s, s ∈ st.opened ↔ 3 ≤ s ∧ s < 4 + n := by
  induction n with
  | zero =>
    refine ⟨st0, rfl, inv_init trivial hi, ?_, ?_⟩
    · have : (init 3).map (·.tick) = some 0 := rfl
      rw [hi] at this
      simpa using this
    · have : (init 3).map (·.opened) = some [3] := rfl
      rw [hi] at this
      simp only [Option.map_some, Option.some.injEq] at this
      intro s
      rw [this]
      simp
      omega
  | succ n ih =>
    obtain ⟨st, e1, e2, e3, e4⟩ := ih (by omega)
    have ht := silent_turn e2 e3 e4
    rw [if_pos (by omega)] at ht
    obtain ⟨st', f1, f2, f3, f4⟩ := ht
    refine ⟨st', ?_, f2, f3, f4⟩
    rw [List.replicate_succ', run_snoc, e1]
    exact f1

/-- C82 is false, without any strange number: with a server that never answers to the attempt to connect, every query leaves
one more descriptor open (always the lowest that is free), and the 1021st query brings undefined behaviour. -/
theorem exhausted : ∃ st0, init 3 = some st0 ∧
    (∀ n ≤ 1020, ∃ st, run silent single st0 (List.replicate n (query 1)) = some st ∧ ∀ s, s ∈ st.opened ↔ 3 ≤ s ∧ s < 4 + n) ∧
    run silent single st0 (List.replicate 1021 (query 1)) = none := by
  obtain ⟨st0, hi⟩ : ∃ st0, init 3 = some st0 := ⟨_, rfl⟩
  refine ⟨st0, hi, fun n hn => ?_, ?_⟩
  · obtain ⟨st, e1, -, -, e4⟩ := silent_run hi n (by omega)
    exact ⟨st, e1, e4⟩
  · obtain ⟨st, e1, e2, e3, e4⟩ := silent_run hi 1020 (by omega)
    have ht := silent_turn e2 e3 e4
    rw [if_neg (by omega)] at ht
    rw [show (1021 : Nat) = 1020 + 1 from rfl, List.replicate_succ', run_snoc, e1]
    exact ht

/-- C83: a query that is read is sent if there is a connection that is idle, has been used, is ready, and takes data
(and no connection is too old). -/
def GetsSent : Prop := ∀ (o : Oracle) (cfg : Cfg) (inc : Nat) (st0 st st' : St) (es : List Ev) (e : Ev) (m : Msg) (s i n : Nat),
  init inc = some st0 → run o cfg st0 es = some st → (∀ t, o.ready st.tick t = (t == inc)) → e.inc = some m → turn o cfg st e = some st' →
  follow st.log s = some (.ready i (n + 1)) → (∀ k, st.tick < k → o.ready k s = true) → (∀ k, o.sendOk k s = true) → (∀ k k', o.time k - o.time k' ≤ cfg.keep) →
  sends st.log < sends st'.log

/-- Server 0 refuses connections. -/
def refusing : Oracle := system [(10, [3, 5]), (12, [5]), (13, [3])] [4, 5] [(6, 4), (100, 5)] [4]

/-- What is known of the states before and after the last event. -/
theorem from_start {o : Oracle} {cfg : Cfg} {es : List Ev} {e : Ev} {n n' : Nat} {f f' : List Nat} {l l' : List Act} (h : St.view (fromStart o cfg es) = some (n, f, l))
    (h' : St.view (fromStart o cfg (es ++ [e])) = some (n', f', l')) :
    ∃ st0 st st', init 3 = some st0 ∧ run o cfg st0 es = some st ∧ turn o cfg st e = some st' ∧ st.tick = n ∧ st.log = l ∧ st'.log = l' := by
  obtain ⟨st0, hi⟩ : ∃ st0, init 3 = some st0 := ⟨_, rfl⟩
  unfold fromStart at h h'
  rw [hi] at h h'
  simp only [Option.bind_some] at h h'
  rw [run_snoc] at h'
  cases hr : run o cfg st0 es with
  | none => rw [hr] at h; cases h
  | some st =>
    rw [hr] at h h'
    simp only [Option.bind_some] at h'
    cases ht : turn o cfg st e with
    | none => rw [ht] at h'; cases h'
    | some st' =>
      rw [ht] at h'
      simp only [St.view, Option.map_some, Option.some.injEq, Prod.mk.injEq] at h h'
      exact ⟨st0, st, st', hi, hr, ht, h.1, h.2.2, h'.2.2⟩

/-- C83 is false: the query is sent over one connection only, which need not be one that works. -/
theorem gets_sent_false : ¬ GetsSent := by
  intro h
  obtain ⟨st0, st, st', h1, h2, h3, h4, h5, h6⟩ := from_start (o := refusing) (cfg := ⟨2, none, false, 30⟩) (es := [query 1, response]) (e := query 2)
    (n := 12) (f := [5, 4, 3]) (l := [.conn 4 false 0, .conn 5 false 1, .send 5 1 ⟨1, 1, 1⟩ true, .got 5])
    (n' := 22) (f' := [5, 3]) (l' := [.conn 4 false 0, .conn 5 false 1, .send 5 1 ⟨1, 1, 1⟩ true, .got 5, .send 4 0 ⟨2, 2, 2⟩ false, .close 4])
    (by decide +kernel) (by decide +kernel)
  have := h refusing ⟨2, none, false, 30⟩ 3 st0 st st' _ _ ⟨2, 2, 2⟩ 5 1 0 h1 h2 (by intro t; rw [h4]; simp [refusing, system, readyUpTo]; rfl) rfl h3
    (by rw [h5]; decide +kernel)
    (by
      intro k hk
      rw [h4] at hk
      simp [refusing, system, readyUpTo, show ¬ k < 10 by omega, show ¬ k < 12 by omega, show ¬ k < 13 by omega])
    (by intro k; rfl) (by intro k k'; exact (by decide : (0 : Int) - 0 ≤ 30))
  rw [h5, h6] at this
  exact absurd this (by decide)

/-- C83: with `parallel`, every server with such a connection gets the query. -/
def AllGetIt : Prop := ∀ (o : Oracle) (cfg : Cfg) (inc : Nat) (st0 st st' : St) (es : List Ev) (e : Ev) (m : Msg) (s i n : Nat), cfg.parallel = true →
  init inc = some st0 → run o cfg st0 es = some st → (∀ t, o.ready st.tick t = (t == inc)) → e.inc = some m → turn o cfg st e = some st' →
  follow st.log s = some (.ready i (n + 1)) → (∀ k, st.tick < k → o.ready k s = true) → (∀ k, o.sendOk k s = true) → (∀ k k', o.time k - o.time k' ≤ cfg.keep) →
  ∃ s', .send s' i m true ∈ st'.log.drop st.log.length

/-- Server 0 takes long to accept the connection. -/
def slow : Oracle := system [(11, [3, 5]), (13, [5]), (14, [3]), (20, [5])] [4, 5, 6] [(6, 4), (12, 5), (100, 6)] []

/-- C83 is false with `parallel` too: a connection that was not up in time counts as one to another server, so one
server gets the query twice and the other not at all. -/
theorem all_get_it_false : ¬ AllGetIt := by
  intro h
  obtain ⟨st0, st, st', h1, h2, h3, h4, h5, h6⟩ := from_start (o := slow) (cfg := ⟨2, none, true, 30⟩) (es := [query 1, response]) (e := query 2)
    (n := 13) (f := [5, 4, 3]) (l := [.conn 4 false 0, .conn 5 false 1, .send 5 1 ⟨1, 1, 1⟩ true, .got 5])
    (n' := 26) (f' := [6, 5, 4, 3])
    (l' := [.conn 4 false 0, .conn 5 false 1, .send 5 1 ⟨1, 1, 1⟩ true, .got 5, .conn 6 false 0, .send 4 0 ⟨2, 2, 2⟩ true, .send 6 0 ⟨2, 2, 2⟩ true])
    (by decide +kernel) (by decide +kernel)
  obtain ⟨s', hs⟩ := h slow ⟨2, none, true, 30⟩ 3 st0 st st' _ _ ⟨2, 2, 2⟩ 5 1 0 rfl h1 h2 (by intro t; rw [h4]; simp [slow, system, readyUpTo]; rfl) rfl h3
    (by rw [h5]; decide +kernel)
    (by
      intro k hk
      rw [h4] at hk
      by_cases hk2 : k < 20 <;>
        simp [slow, system, readyUpTo, show ¬ k < 11 by omega, show ¬ k < 13 by omega, show ¬ k < 14 by omega, hk2])
    (by intro k; rfl) (by intro k k'; exact (by decide : (0 : Int) - 0 ≤ 30))
  rw [h5, h6] at hs
  simp at hs

/-- C83, proved part: without proxies, if all connections are ready and take data, a query that is read is sent if there is a connection that is idle and has
been used and none is too old, or if a connection can be begun. -/
theorem gets_sent_partial {o : Oracle} {cfg : Cfg} {inc : Nat} {st0 st st' : St} {es : List Ev} {e : Ev} {m : Msg} (hc : cfg.proxies = none)
    (hi : init inc = some st0) (hr : run o cfg st0 es = some st) (hq : e.inc = some m) (hsel : ∀ t, o.ready st.tick t = (t == inc))
    (hready : ∀ k s, st.tick < k → o.ready k s = true) (hok : ∀ k s, o.sendOk k s = true) (ht : turn o cfg st e = some st')
    (hat : (∃ s i n, follow st.log s = some (.ready i (n + 1)) ∧ ∀ t, .close t ∉ st'.log.drop st.log.length) ∨ ∃ s v j, .conn s v j ∈ st'.log.drop st.log.length) :
    sends st.log < sends st'.log := by
  have h := sat_run (P := fun _ => True) (o := o) (fun _ _ _ => trivial) es (inv_init (cfg := cfg) trivial hi)
  rw [hr] at h
  have hinv := h
  obtain ⟨w, h⟩ := h
  have hinc := (h.plain inc .waiting).2 ⟨rfl, rfl⟩
  unfold turn at ht
  cases hs : st.select o .waiting with
  | mk r st1 =>
    rw [hs] at ht
    cases r with
    | none =>
      unfold St.select at hs
      injection hs with hs _
      have := ok_select_none (h.pools .waiting) (by simpa using hs) hinc
      rw [hsel] at this
      simp at this
    | some x =>
      obtain ⟨s, c⟩ := x
      obtain ⟨rfl, h1, -⟩ := select_w h hs
      rw [hsel] at h1
      have h1 : s = inc := by simpa using h1
      dsimp only at ht
      rw [if_pos (h1.trans h.incEq.symm), hq] at ht
      dsimp only at ht
      cases hsa : sendActual o cfg m none { st with tick := st.tick + 1 } with
      | none => rw [hsa] at ht; cases ht
      | some st2 =>
        rw [hsa] at ht
        have hlog := add_log ht
        have hlog : st'.log = st2.log := hlog
        rw [hlog] at hat ⊢
        unfold sendActual at hsa
        cases hco : connect o cfg none { st with tick := st.tick + 1 } with
        | none => rw [hco] at hsa; cases hsa
        | some y =>
          obtain ⟨k, st3⟩ := y
          rw [hco] at hsa
          dsimp only at hsa
          have hext := connect_ext hco
          have hi3 := sat_connect (P := fun _ => True) (o := o) (single := none) (fun _ _ _ => trivial) (by simp) (inv_tick hinv (st.tick + 1))
          rw [hco] at hi3
          have hr1 : ∀ t s, st.tick + 1 ≤ t → o.ready t s = true := fun t s ht => hready t s (by omega)
          by_cases hk : k < 1
          · -- nothing at hand
            exfalso
            rw [if_pos hk] at hsa
            cases hsa
            obtain ⟨g1, -⟩ := connect_has (P := fun _ => True) (fun _ _ _ => trivial) hc (inv_tick hinv (st.tick + 1)) (fun _ => rfl) hr1 hco hat
            omega
          · rw [if_neg hk] at hsa
            obtain ⟨new, en, qn⟩ := sendMany_begins_none _ hsa
            obtain ⟨new3, en3, -⟩ := hext
            have en3 : st3.log = st.log ++ new3 := en3
            have hat' : (∃ s i n, follow st.log s = some (.ready i (n + 1)) ∧ ∀ t, .close t ∉ st3.log.drop st.log.length) ∨
                ∃ s v j, .conn s v j ∈ st3.log.drop st.log.length := by
              rw [en, en3, List.append_assoc, List.drop_left] at hat
              rw [en3, List.drop_left]
              rcases hat with ⟨s, i, n, g1, g2⟩ | ⟨s, v, j, g⟩
              · exact .inl ⟨s, i, n, g1, fun t ht => g2 t (List.mem_append_left _ ht)⟩
              · rcases List.mem_append.1 g with g | g
                · exact .inr ⟨s, v, j, g⟩
                · exact (qn _ g).elim
            obtain ⟨-, g2, g3⟩ := connect_has (P := fun _ => True) (fun _ _ _ => trivial) hc (inv_tick hinv (st.tick + 1)) (fun _ => rfl) hr1 hco hat'
            have hrounds : ∃ r, (if (none : Option Nat) = none ∧ cfg.parallel = true then cfg.servers else 1) = r + 1 := by
              obtain ⟨w3, hw3⟩ := hi3
              obtain ⟨t, ht⟩ := g2
              obtain ⟨d, hd⟩ := (has_iff hw3 .query t).1 ht
              cases d with
              | none => have := ((hw3.plain t .query).1 hd).2; cases this
              | some c =>
                have hf : c.index < cfg.servers := (hw3.fits t .query c hd).1
                split
                · exact ⟨cfg.servers - 1, by omega⟩
                · exact ⟨0, rfl⟩
            obtain ⟨r, hrr⟩ := hrounds
            rw [hrr] at hsa
            unfold sendMany at hsa
            cases hone : sendOne o cfg m st3 with
            | none => rw [hone] at hsa; cases hsa
            | some st4 =>
              rw [hone] at hsa
              have e1 : sends st4.log = sends st3.log + 1 := sendOne_sends hc hi3 (fun t s ht => hr1 t s (Nat.le_trans g3 ht)) hok g2 hone
              have e2 := sent_sends (sendMany_sent _ hsa)
              have e3 : sends st.log ≤ sends st3.log := by rw [en3, sends_append]; omega
              omega

end Verif.TcpPool
