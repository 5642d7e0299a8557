import Verif.Lemmas.TcpFrontend
/-! C74–C78: clients that ask over TCP. -/

namespace Verif.TcpFrontend
open SocketPool
variable {Addr : Type}

/-- C74: whatever the clients send and in whatever pieces it arrives, every query passed on belongs to one of the
accepted connections (each of them was accepted once), with that connection's socket for the reply and that client's
address, and the queries passed on from one connection are, in order, the messages at the beginning of what its
client sent, each with its length in front. -/
theorem queries_framed {left : Nat} {ls : List Line} {others : List Nat} {st st' : St Addr} {ts : List (Turn Addr)}
    (ho : ∀ s ∈ listening ls, s ∈ others) (hn : (listening ls).Nodup) (hi : init ls = some st) (hl : Legal left others st ts)
    (hr : run left st ts = .go st') :
    ∃ accd : List (Nat × Addr × List Arr), accd.Sublist (ts.filterMap (·.acc)) ∧
      ∀ q ∈ st'.queries, ∃ l fs, accd[q.id]? = some (q.sock, q.agent, l) ∧ Frames (asked st'.queries q.id) fs ∧ fs <+: bytesOf l := by
  obtain ⟨m, h⟩ := init_inv (S := fun _ => True) ho hn hi
  obtain ⟨accd, m', h1, h2⟩ := run_inv (fun _ _ _ _ => trivial) h hl (fun _ _ _ _ _ _ => trivial) hr
  rw [List.nil_append] at h1
  exact ⟨accd, h2, h1.queries⟩

/-- The listening socket 3. -/
def start : St Nat := (init [.invalid, .opened 3]).getD ⟨Puller.init, [], 0, []⟩

/-- Two clients; the first asks twice, its first length arriving together with its query. -/
def twoClients : List (Turn Nat) :=
  [⟨fun s => s == 3, some (5, 100, [.data [0, 2, 7], .data [8, 0]])⟩,
   ⟨fun s => s == 3, some (4, 100, [.data [0, 2, 7, 8, 0, 1, 9], .closed])⟩,
   ⟨fun s => s == 3, some (5, 200, [.data [0, 1], .data [6]])⟩,
   ⟨fun s => s == 4, none⟩]

/-- What is left of an outcome to look at. -/
def Out.view : Out Addr → Option (List Nat × List (Query Addr))
  | .go st => some (st.conns.map (·.1), st.queries)
  | _ => none

example : init [.invalid, .opened 3] = some start := rfl

example : (run 4000 start twoClients).view = some ([5, 4], [⟨1, 4, 100, [7, 8]⟩, ⟨2, 5, 200, [6]⟩, ⟨1, 4, 100, [9]⟩]) := by decide +kernel

/-- C75: a new client's query is passed on, in however many pieces it arrives. -/
def PassedOn : Prop := ∀ (left : Nat) (st : St Nat) (t : Turn Nat) (x s a : Nat) (l : List Arr) (m fs rest : List Byte),
  st.puller.select t.ready = some (x, 3, some none) → t.acc = some (s, a, l) → s < 1024 → .data [] ∉ l → Frames [m] fs → bytesOf l = fs ++ rest → m.length ≤ left →
  ∃ st', step left st t = .go st' ∧ st'.queries = st.queries ++ [⟨st.count, s, a, m⟩]

/-- C75 is false: the connection is closed if the length or the message comes in two pieces. -/
theorem passed_on_false : ¬ PassedOn := by
  intro h
  obtain ⟨st', h1, h2⟩ := h 4000 start ⟨fun s => s == 3, some (4, 100, [.data [0, 2, 7], .data [8]])⟩ 0 4 100 _ [7, 8] [0, 2, 7, 8] [] rfl rfl (by decide)
    (by decide) (.cons 0 2 rfl .nil) rfl (by decide)
  have : (step 4000 start ⟨fun s => s == 3, some (4, 100, [.data [0, 2, 7], .data [8]])⟩).view = some ([], []) := by decide +kernel
  rw [h1] at this
  injection this with this
  injection this with _ this
  rw [h2] at this
  simp at this

/-- C75, proved part, first query: it is passed on if its two length bytes come in one piece and the message in one
piece (or all in one), and the connection is waited for from then on.  (A descriptor from 1024 on is undefined behaviour.) -/
theorem passed_on_first_partial {left : Nat} {st : St Addr} {t : Turn Addr} {x s0 s : Nat} {a : Addr} {l l' : List Arr} {m : List Byte}
    (hsel : st.puller.select t.ready = some (x, s0, some none)) (hacc : t.acc = some (s, a, l)) (hs : s < 1024) (hw : Whole l m l') (hl : m.length ≤ left) :
    ∃ st', step left st t = .go st' ∧ st'.queries = st.queries ++ [⟨st.count, s, a, m⟩] ∧ st.puller.add s (some (some a)) = some st'.puller := by
  unfold step
  rw [hsel]
  simp only [hacc]
  rcases read_whole (left := left) (st := { st with conns := (s, ⟨st.count, a, l, []⟩) :: st.conns, count := st.count + 1 }) (s := s) (agent := a)
    (c := ⟨st.count, a, l, []⟩) (isNew := true) hw hl with ⟨-, -, h⟩ | ⟨st', h1, h2⟩
  · omega
  · exact ⟨st', h1, h2.1, h2.2⟩

/-- C75, proved part, later queries: likewise, and the connection is waited for again. -/
theorem passed_on_later_partial {left : Nat} {st : St Addr} {t : Turn Addr} {x s : Nat} {a : Addr} {c : Conn Addr} {l' : List Arr} {m : List Byte}
    (hsel : st.puller.select t.ready = some (x, s, some (some a))) (hc : st.conns.find? (fun e => e.1 == s) = some (s, c)) (hw : Whole c.todo m l')
    (hl : m.length ≤ left) :
    ∃ st', step left st t = .go st' ∧ st'.queries = st.queries ++ [⟨c.id, s, a, m⟩] ∧ st'.puller = st.puller := by
  unfold step
  rw [hsel]
  simp only [hc]
  rcases read_whole (left := left) (st := st) (s := s) (agent := a) (isNew := false) hw hl with ⟨-, h, -⟩ | ⟨st', h1, h2, h3⟩
  · cases h
  · exact ⟨st', h1, h2, h3⟩

example : Whole [.data [0, 2], .data [7, 8, 0], .data [1, 9]] [7, 8] [.data [0], .data [1, 9]] :=
  ⟨0, 2, [.data [7, 8, 0], .data [1, 9]], ⟨by simp, [], _, rfl, rfl⟩, rfl, ⟨by simp, [0], _, rfl, rfl⟩⟩

/-- C76: when a client has closed its connection and this has been read, the descriptor is closed. -/
def Closes : Prop := ∀ (left : Nat) (others : List Nat) (st st' : St Nat) (t : Turn Nat) (s a : Nat) (l : List Arr),
  Rules others st t → t.acc = some (s, a, .closed :: l) → step left st t = .go st' → s ∉ st'.conns.map (·.1)

/-- The turn in which the client number `n` connects and closes at once. -/
def visit (n : Nat) : Turn Nat := ⟨fun s => s == 3, some (4 + n, 0, [.closed])⟩

/-- The state after `n` of them. -/
def visited (n : Nat) : St Nat := { start with conns := ((List.range n).map (fun k => (4 + k, ⟨k, 0, [.closed], []⟩))).reverse, count := n }

theorem visit_step (n : Nat) : step 4000 (visited n) (visit n) = .go (visited (n + 1)) := by
  have hsel : (visited n).puller.select (visit n).ready = some (0, 3, some none) := by
    have : start.puller.select (fun s => s == 3) = some (0, 3, some none) := by decide +kernel
    exact this
  have hconns : (visited (n + 1)).conns = (4 + n, ⟨n, 0, [.closed], []⟩) :: (visited n).conns := by
    simp [visited, List.range_succ]
  have hmap : ((4 + n, (⟨n, 0, [.closed], []⟩ : Conn Nat)) :: (visited n).conns).map (fun e => if e.1 = 4 + n then (4 + n, ⟨n, 0, [.closed], []⟩) else e) =
      (4 + n, ⟨n, 0, [.closed], []⟩) :: (visited n).conns := by
    rw [List.map_cons, if_pos rfl]
    congr 1
    rw [List.map_congr_left (g := id), List.map_id]
    intro e he
    simp only [visited, List.mem_reverse, List.mem_map, List.mem_range] at he
    obtain ⟨k, hk, rfl⟩ := he
    rw [if_neg (by dsimp only; omega)]
    rfl
  unfold step
  rw [hsel]
  have : read 4000 { visited n with conns := (4 + n, ⟨n, 0, [.closed], []⟩) :: (visited n).conns, count := n + 1 } (4 + n) 0 ⟨n, 0, [.closed], []⟩ true =
      .go { visited n with conns := ((4 + n, (⟨n, 0, [.closed], []⟩ : Conn Nat)) :: (visited n).conns).map (fun e => if e.1 = 4 + n then (4 + n, ⟨n, 0, [.closed], []⟩) else e),
                           count := n + 1 } := rfl
  rw [hmap] at this
  refine this.trans ?_
  rw [← hconns]
  rfl

theorem run_append (left : Nat) (st st1 : St Addr) (ts us : List (Turn Addr)) (h : run left st ts = .go st1) : run left st (ts ++ us) = run left st1 us := by
  induction ts generalizing st with
  | nil => cases h; rfl
  | cons t ts ih =>
    simp only [List.cons_append, run] at h ⊢
    split at h
    · exact ih _ h
    · rename_i h1; exact absurd h (h1 _)

theorem legal_append {left : Nat} {others : List Nat} {st : St Addr} {ts us : List (Turn Addr)} (h : Legal left others st ts)
    (h' : ∀ st1, run left st ts = .go st1 → Legal left others st1 us) : Legal left others st (ts ++ us) := by
  induction ts generalizing st with
  | nil => exact h' _ rfl
  | cons t ts ih => exact ⟨h.1, fun st1 h1 => ih (h.2 _ h1) (fun st2 h2 => h' _ (by rw [run, h1]; exact h2))⟩

theorem lowest_append {left : Nat} {others : List Nat} {st : St Addr} {ts us : List (Turn Addr)} (h : AllLowest left others st ts)
    (h' : ∀ st1, run left st ts = .go st1 → AllLowest left others st1 us) : AllLowest left others st (ts ++ us) := by
  induction ts generalizing st with
  | nil => exact h' _ rfl
  | cons t ts ih => exact ⟨h.1, fun st1 h1 => ih (h.2 _ h1) (fun st2 h2 => h' _ (by rw [run, h1]; exact h2))⟩

theorem visited_mem {n : Nat} {e : Nat × Conn Nat} : e ∈ (visited n).conns ↔ ∃ k, k < n ∧ e = (4 + k, ⟨k, 0, [.closed], []⟩) := by
  simp only [visited, List.mem_reverse, List.mem_map, List.mem_range]
  constructor
  · rintro ⟨k, h, rfl⟩; exact ⟨k, h, rfl⟩
  · rintro ⟨k, h, rfl⟩; exact ⟨k, h, rfl⟩

theorem visited_rules (n : Nat) (a : Nat) (l : List Arr) (h : Arr.data [] ∉ l) : Rules [0, 1, 2, 3] (visited n) ⟨fun s => s == 3, some (4 + n, a, l)⟩ := by
  refine ⟨fun s a l' h' => ?_, fun e he hr => ?_⟩
  · injection h' with h'
    cases h'
    refine ⟨fun hm => ?_, by simp; omega, h⟩
    obtain ⟨e, he, h1⟩ := List.mem_map.1 hm
    obtain ⟨k, hk, rfl⟩ := visited_mem.1 he
    dsimp only at h1
    omega
  · obtain ⟨k, hk, rfl⟩ := visited_mem.1 he
    simp

theorem visited_lowest (n : Nat) (a : Nat) (l : List Arr) : Lowest [0, 1, 2, 3] (visited n) ⟨fun s => s == 3, some (4 + n, a, l)⟩ := by
  intro s a l' h' u hu
  injection h' with h'
  cases h'
  by_cases h4 : u < 4
  · right
    simp only [List.mem_cons, List.not_mem_nil, or_false]
    omega
  · exact .inl (List.mem_map.2 ⟨_, visited_mem.2 ⟨u - 4, by omega, rfl⟩, by dsimp only; omega⟩)

/-- C76 is false. -/
theorem closes_false : ¬ Closes := by
  intro h
  have := h 4000 [0, 1, 2, 3] (visited 0) (visited 1) (visit 0) 4 0 [] (visited_rules 0 0 [.closed] (by simp)) rfl (visit_step 0)
  exact this (by decide +kernel)

theorem visits (n : Nat) : Legal 4000 [0, 1, 2, 3] start ((List.range n).map visit) ∧ AllLowest 4000 [0, 1, 2, 3] start ((List.range n).map visit) ∧
    run 4000 start ((List.range n).map visit) = .go (visited n) := by
  induction n with
  | zero => exact ⟨trivial, trivial, rfl⟩
  | succ n ih =>
    obtain ⟨i1, i2, i3⟩ := ih
    rw [List.range_succ, List.map_append]
    refine ⟨legal_append i1 fun st1 h1 => ?_, lowest_append i2 fun st1 h1 => ?_, ?_⟩
    · rw [i3] at h1; cases h1
      exact ⟨visited_rules n 0 [.closed] (by simp), fun _ _ => trivial⟩
    · rw [i3] at h1; cases h1
      exact ⟨visited_lowest n 0 [.closed], fun _ _ => trivial⟩
    · rw [run_append _ _ _ _ _ i3]
      simp only [List.map_cons, List.map_nil, run, visit_step]

/-- C76 is false: any number of clients that come and go leave as many descriptors open, none of which is ever looked
at again. -/
theorem leak (n : Nat) : ∃ (ts : List (Turn Nat)) (st : St Nat), ts.length = n ∧ (∀ t ∈ ts, ∃ s, t.acc = some (s, 0, [.closed])) ∧
    Legal 4000 [0, 1, 2, 3] start ts ∧ AllLowest 4000 [0, 1, 2, 3] start ts ∧ run 4000 start ts = .go st ∧
    st.conns.length = n ∧ st.puller = start.puller := by
  obtain ⟨h1, h2, h3⟩ := visits n
  refine ⟨(List.range n).map visit, visited n, by simp, ?_, h1, h2, h3, by simp [visited], rfl⟩
  intro t ht
  obtain ⟨k, -, rfl⟩ := List.mem_map.1 ht
  exact ⟨4 + k, rfl⟩

theorem visits_ub (n : Nat) (hn : 1024 ≤ 4 + n) : ∃ ts : List (Turn Nat), ts.length = n + 1 ∧ Legal 4000 [0, 1, 2, 3] start ts ∧
    AllLowest 4000 [0, 1, 2, 3] start ts ∧ (match run 4000 start ts with | .ub => True | _ => False) := by
  obtain ⟨l1, l2, l3⟩ := visits n
  refine ⟨(List.range n).map visit ++ [⟨fun s => s == 3, some (4 + n, 0, [.data [0, 1, 7]])⟩], by simp, ?_, ?_, ?_⟩
  · refine legal_append l1 fun st1 h1 => ?_
    rw [l3] at h1; cases h1
    exact ⟨visited_rules n 0 _ (by simp), fun _ _ => trivial⟩
  · refine lowest_append l2 fun st1 h1 => ?_
    rw [l3] at h1; cases h1
    exact ⟨visited_lowest n 0 _, fun _ _ => trivial⟩
  · rw [run_append _ _ _ _ _ l3]
    have hsel : (visited n).puller.select (fun s => s == 3) = some (0, 3, some none) := by
      have : start.puller.select (fun s => s == 3) = some (0, 3, some none) := by decide +kernel
      exact this
    have hub : ∀ st c, c.todo = [.data [0, 1, 7]] → read 4000 st (4 + n) 0 c true = (Out.ub : Out Nat) := by
      intro st c hc
      unfold read
      rw [hc]
      simp [recv, Puller.add, setSize, show 1024 ≤ 4 + n from hn]
    simp only [run, step, hsel]
    rw [hub _ _ rfl]
    trivial

/-- C76, consequence: after 1020 of them the next client that asks brings undefined behaviour, even if the kernel
always gives the lowest free number. -/
theorem exhausted : ∃ ts : List (Turn Nat), ts.length = 1021 ∧ Legal 4000 [0, 1, 2, 3] start ts ∧ AllLowest 4000 [0, 1, 2, 3] start ts ∧
    (match run 4000 start ts with | .ub => True | _ => False) := visits_ub 1020 (by decide)

/-- C76, proved part: a connection that is neither closed by its client nor fails is either closed by the program or
still waited for, so no descriptor is lost through it; and a descriptor that is waited for is open. -/
theorem closes_partial {left : Nat} {ls : List Line} {others : List Nat} {st st' : St Addr} {ts : List (Turn Addr)}
    (ho : ∀ s ∈ listening ls, s ∈ others) (hn : (listening ls).Nodup) (hi : init ls = some st) (hl : Legal left others st ts)
    (hr : run left st ts = .go st') :
    ∃ accd : List (Nat × Addr × List Arr), accd.Sublist (ts.filterMap (·.acc)) ∧ (st'.conns.map (·.1)).Nodup ∧
      (∀ e ∈ st'.conns, ∃ l, accd[e.2.id]? = some (e.1, e.2.addr, l) ∧
        (Ends l ∨ ∀ ready, ready e.1 = true → ∃ r, st'.puller.select ready = some r)) ∧
      (∀ ready x s d, st'.puller.select ready = some (x, s, d) → s ∈ others ∨ s ∈ st'.conns.map (·.1)) := by
  obtain ⟨m, h⟩ := init_inv (S := fun _ => True) ho hn hi
  obtain ⟨accd, m', h1, h2⟩ := run_inv (fun _ _ _ _ => trivial) h hl (fun _ _ _ _ _ _ => trivial) hr
  rw [List.nil_append] at h1
  refine ⟨accd, h2, h1.fds, fun e he => ?_, fun ready x s d hsel => ?_⟩
  · obtain ⟨l, k1, -, -, -, k5⟩ := h1.conns e he
    refine ⟨l, k1, ?_⟩
    rcases k5 with k5 | k5 | k5
    · refine .inr fun ready hre => ?_
      cases hsel : st'.puller.select ready with
      | some r => exact ⟨r, rfl⟩
      | none =>
        have h3 := fetch_none hsel _ (h1.holds.perm.mem_iff.2 k5)
        have hm : e.1 ∈ m'.map (·.1) := List.mem_map_of_mem (f := (·.1)) k5
        obtain ⟨mx, h4, h5⟩ := h1.holds.max e.1 hm
        rw [h4] at h3
        have h6 := (h1.holds.set e.1).2 hm
        simp [h6, h5, hre] at h3
    · exact .inl k5
    · cases k5
  · obtain ⟨f1, f2⟩ := fetch_some hsel
    rcases h1.members _ (h1.holds.perm.mem_iff.1 f1) with ⟨-, hl⟩ | ⟨c, hc, -⟩
    · exact .inl hl
    · exact .inr (List.mem_map_of_mem (f := (·.1)) hc)

/-- C77: one client cannot keep the program from serving the others. -/
def NeverStuck : Prop := ∀ (left : Nat) (others : List Nat) (ts : List (Turn Nat)), Legal left others start ts →
  ∀ st, run left start ts ≠ .blocked st

/-- C77 is false: it waits for a client that connects and sends nothing. -/
theorem never_stuck_false : ¬ NeverStuck := by
  intro h
  refine h 4000 [0, 1, 2, 3] [⟨fun s => s == 3, some (4, 0, [])⟩] ⟨visited_rules 0 0 [] (by simp), fun _ _ => trivial⟩
    { start with conns := [(4, ⟨0, 0, [], []⟩)], count := 1 } rfl

/-- C77, proved part: if every client sends something and sends only whole messages, the program never waits in vain;
a client may be silent after its queries. -/
theorem never_stuck_partial {left : Nat} {ls : List Line} {others : List Nat} {st : St Addr} {ts : List (Turn Addr)}
    (ho : ∀ s ∈ listening ls, s ∈ others) (hn : (listening ls).Nodup) (hi : init ls = some st) (hl : Legal left others st ts)
    (hs : ∀ t ∈ ts, ∀ s a l, t.acc = some (s, a, l) → Steady left l ∧ l ≠ []) (st' : St Addr) : run left st ts ≠ .blocked st' := by
  obtain ⟨m, h⟩ := init_inv (S := Steady left) ho hn hi
  clear hi
  generalize hacc : ([] : List (Nat × Addr × List Arr)) = accd at h
  clear hacc
  induction ts generalizing st accd m with
  | nil => simp [run]
  | cons t ts ih =>
    unfold run
    split
    · rename_i st1 h1
      obtain ⟨a1, m1, g1, -⟩ := step_inv steady_recv h hl.1 (fun s a l hacc => (hs t List.mem_cons_self s a l hacc).1) h1
      exact ih (hl.2 _ h1) (fun t ht => hs t (List.mem_cons_of_mem _ ht)) _ _ g1
    · rename_i o h1
      exact step_steady h hl.1 (hs t List.mem_cons_self)

example : Steady 4000 [.data [0, 2], .data [7, 8, 0, 1, 9]] :=
  .query (m := [7, 8]) (l' := [.data [0, 1, 9]]) ⟨0, 2, [.data [7, 8, 0, 1, 9]], ⟨by simp, [], _, rfl, rfl⟩, rfl, ⟨by simp, [0, 1, 9], _, rfl, rfl⟩⟩ (by decide)
    (.query (m := [9]) (l' := []) ⟨0, 1, [.data [9]], ⟨by simp, [9], _, rfl, rfl⟩, rfl, ⟨by simp, [], _, rfl, rfl⟩⟩ (by decide) .silent)

/-- C78: every line of `TCPLocal` that can be opened is waited for. -/
def Listens : Prop := ∀ (ls : List Line) (st : St Nat), init ls = some st → ∀ s ∈ listening ls, ∃ r, st.puller.select (fun t => t == s) = some r

/-- C78 is false: the lines behind one that cannot listen are not looked at. -/
theorem listens_false : ¬ Listens := fun h => by
  obtain ⟨r, hr⟩ := h [.noListen 3, .opened 4] ⟨Puller.init, [], 0, []⟩ rfl 4 (by decide)
  have : (Puller.init : Puller (Option Nat)).select (fun t => t == 4) = none := by decide
  rw [this] at hr
  cases hr

theorem openAll_all (ls : List Line) {p p' : Puller (Option Addr)} {m : List (Nat × Option (Option Addr))} (h : Holds p m)
    (hn : (m.map (·.1) ++ listening ls).Nodup) (hno : ∀ s, Line.noListen s ∉ ls) (hp : openAll p ls = some p') :
    ∃ m', Holds p' m' ∧ (∀ e ∈ m, e ∈ m') ∧ ∀ s ∈ listening ls, (s, some none) ∈ m' := by
  induction ls generalizing p m with
  | nil => cases hp; exact ⟨m, h, fun _ h => h, by simp [listening]⟩
  | cons x ls ih =>
    have hno' : ∀ s, Line.noListen s ∉ ls := fun s hs => hno s (List.mem_cons_of_mem _ hs)
    cases x with
    | opened s =>
      simp only [listening] at hn ⊢
      have hs : s ∉ m.map (·.1) := fun hs => (List.nodup_append.1 hn).2.2 s hs s List.mem_cons_self rfl
      unfold openAll at hp
      split at hp
      · cases hp
      · rename_i p1 hp1
        have hlt : s < 1024 := by
          unfold Puller.add at hp1
          split at hp1
          · cases hp1
          · rename_i h; simp only [setSize] at h; omega
        obtain ⟨p2, g1, g2⟩ := holds_add (d := some none) h hs hlt
        rw [g1] at hp1
        cases hp1
        obtain ⟨m', k1, k2, k3⟩ := ih g2 (by rw [List.map_cons]; exact (List.perm_middle.nodup_iff).1 hn) hno' hp
        refine ⟨m', k1, fun e he => k2 e (List.mem_cons_of_mem _ he), fun t ht => ?_⟩
        rcases List.mem_cons.1 ht with rfl | ht
        · exact k2 _ List.mem_cons_self
        · exact k3 t ht
    | noListen s => exact absurd List.mem_cons_self (hno s)
    | invalid => exact ih h hn hno' hp
    | noSocket => exact ih h hn hno' hp
    | noBind => exact ih h hn hno' hp

/-- C78, proved part: they are if none fails to listen, and what is waited for is a listening socket. -/
theorem listens_partial {ls : List Line} {st : St Addr} (hn : (listening ls).Nodup) (hno : ∀ s, Line.noListen s ∉ ls) (hi : init ls = some st) :
    ∀ s ∈ listening ls, ∃ x, st.puller.select (fun t => t == s) = some (x, s, some none) := by
  unfold init at hi
  split at hi
  · cases hi
  · rename_i p hp
    cases hi
    obtain ⟨m, h1, -, h3⟩ := openAll_all ls holds_init (by simpa using hn) hno hp
    intro s hs
    have hm := h3 s hs
    cases hsel : p.select (fun t => t == s) with
    | some r =>
      obtain ⟨x, s', d⟩ := r
      obtain ⟨f1, f2⟩ := fetch_some hsel
      simp only [Bool.and_eq_true, beq_iff_eq] at f2
      obtain ⟨⟨-, rfl⟩, -⟩ := f2
      have hnd := ((h1.perm.map (·.1)).nodup_iff).1 h1.good.nodup
      have := nodup_inj hnd (h1.perm.mem_iff.1 f1) hm rfl
      injection this with _ this
      subst this
      exact ⟨x, rfl⟩
    | none =>
      have h3 := fetch_none hsel _ (h1.perm.mem_iff.2 hm)
      have hm' : s ∈ m.map (·.1) := List.mem_map_of_mem (f := (·.1)) hm
      obtain ⟨mx, h4, h5⟩ := h1.max s hm'
      rw [h4] at h3
      have h6 := (h1.set s).2 hm'
      simp [h6, h5] at h3

end Verif.TcpFrontend
