import Verif.Lemmas.GoodIpList
/-! C84-C86: named lists of addresses and the check which of them is the fastest. -/

namespace Verif.GoodIpList

/-- C84: whatever the lines of the two options are, reading them is defined, and every address handed out is a
determined one. -/
def ReadsAny : Prop := ∀ (hash : List Byte → UInt32) (lists ips : List (List Byte)),
  ∃ st tasks, load hash (some lists) (some ips) = some (st, tasks) ∧ ∀ n, get st n ≠ some none

/-- C84 is false: with no address in the line, an array never written is read as a string. -/
theorem reads_any_false : ¬ ReadsAny := by
  intro h
  obtain ⟨st, tasks, h1, -⟩ := h (fun _ => 0) [str "list1 1000"] [str "list1 localhost"]
  exact absurd h1 (by
    rw [show load (fun _ => 0) (some [str "list1 1000"]) (some [str "list1 localhost"]) = none by
      have : (load (fun _ => 0) (some [str "list1 1000"]) (some [str "list1 localhost"])).isNone = true := by decide +kernel
      simpa using this]
    exact nofun)

/-- C84 is false also where nothing is read too early: an incomplete address is handed out as four bytes that were
never assigned. -/
theorem hands_out_garbage : ∃ st tasks, load (fun _ => 0) (some [str "list1 1000"]) (some [str "list1 1.2.3:80"]) = some (st, tasks) ∧
    get st (str "list1") = some none := by
  have h : (load (fun _ => 0) (some [str "list1 1000"]) (some [str "list1 1.2.3:80"])).map (fun r => get r.1 (str "list1")) =
      some (some none) := by decide +kernel
  rw [Option.map_eq_some_iff] at h
  obtain ⟨r, h1, h2⟩ := h
  exact ⟨r.1, r.2, h1, h2⟩

/-- C84, proved part: if the lines have the documented form, they are read; a periodic check is set up for each list
with its interval; before any check each list hands out the first address configured for it; and after any checks,
with any outcome, it hands out one of those, and nothing only if there are none. -/
theorem hands_out_configured_partial (hash : List Byte → UInt32) (lists : List ListOpt) (ips : List IpOpt)
    (hl : ∀ o ∈ lists, o.Ok) (hi : ∀ o ∈ ips, o.Ok) :
    ∃ st tasks, load hash (some (lists.map (·.text))) (some (ips.map (·.text))) = some (some st, tasks) ∧
      tasks.map (fun t => (t.name, t.interval)) = lists.map (fun o => (o.name, (o.interval : Int))) ∧
      (∀ n, get (some st) n = ((configured lists ips n)[0]?).map some) ∧
      ∀ cs : List (Nat × List Try × Nat), (∀ c ∈ cs, Sane c.2.1) → ∃ st', run st cs = some st' ∧ ∀ n,
        (get (some st') n = none ↔ configured lists ips n = []) ∧
        ∀ x, get (some st') n = some x → ∃ a ∈ configured lists ips n, x = some a := by
  have hn := nameOk_of hl
  obtain ⟨st, h1, h2⟩ := load_ok hash hl hi
  refine ⟨st, _, h1, ?_, ?_, ?_⟩
  · unfold wantTasks
    rw [List.map_map]
    have : ((fun t : Task => (t.name, t.interval)) ∘ fun p : ListOpt × Nat => (⟨p.1.interval, p.1.name, p.2⟩ : Task)) =
        (fun o : ListOpt => (o.name, (o.interval : Int))) ∘ Prod.fst := rfl
    rw [this, ← List.map_map, List.zipIdx_map_fst]
  · intro n
    unfold get configured
    dsimp only
    rw [find_eq hn h2.chunk]
    cases hk : lastIdx lists n with
    | none => simp [lastIdx_none.1 hk]
    | some k =>
      obtain ⟨o, g1, g2⟩ := lastIdx_some hk
      have hm : n ∈ lists.map (·.name) := List.mem_map.2 ⟨o, List.mem_of_getElem? g1, g2⟩
      simp only [h2.info k o g1, want, g2, hk, if_true, hm, List.getElem?_map, Option.map_map]
      rfl
  · intro cs hs
    obtain ⟨st', k1, k2⟩ := run_ok h2.inv cs hs
    refine ⟨st', k1, fun n => ?_⟩
    unfold configured
    rcases get_eq hn k2 n with ⟨k, i, g1, g2, g3, g4⟩ | ⟨g1, g2⟩
    · obtain ⟨o, e1, e2⟩ := lastIdx_some g1
      have hm : n ∈ lists.map (·.name) := List.mem_map.2 ⟨o, List.mem_of_getElem? e1, e2⟩
      rw [if_pos hm, g4]
      constructor
      · rw [Option.map_eq_none_iff, List.getElem?_eq_none_iff, List.map_eq_nil_iff, Nat.le_zero, List.length_eq_zero_iff]
        constructor
        · intro h
          rw [h] at g3
          simpa using g3.symm.eq_nil
        · intro h
          rw [h] at g3
          exact g3.eq_nil
      · intro x hx
        rw [Option.map_eq_some_iff] at hx
        obtain ⟨a, ha, rfl⟩ := hx
        have := g3.mem_iff.1 (List.mem_of_getElem? ha)
        obtain ⟨q, hq, rfl⟩ := List.mem_map.1 this
        exact ⟨q.bytes, List.mem_map.2 ⟨q, hq, rfl⟩, rfl⟩
    · rw [if_neg g1, g2]
      simp

/-- Two lists, three addresses. -/
example : (load (fun s => UInt32.ofNat s.length) (some [str "list1 60000", str "b 5"])
    (some [str "list1 120.0.0.1:80", str "b  192.168.100.200:443", str "list1 10.0.0.1:8080 "])).map
      (fun r => (r.2, [str "list1", str "b", str "c"].map (get r.1))) =
    some ([⟨60000, str "list1", 0⟩, ⟨5, str "b", 1⟩], [some (some [120, 0, 0, 1]), some (some [192, 168, 100, 200]), none]) := by
  decide +kernel

example : (⟨str "list1 60000", str "list1", 60000⟩ : ListOpt).Ok :=
  ⟨[], [32], str "60000", [], by decide, by simp [Blank], by simp [Blank], by simp, by simp [Blank], by unfold NameOk; decide,
    .more (.more (.more (.more (.one (d := 6) (by decide)) (d := 0) (by decide)) (d := 0) (by decide)) (d := 0) (by decide)) (d := 0) (by decide),
    by decide, by decide⟩

example : (⟨str "b  192.168.100.200:443", str "b", (192, 168, 100, 200), 443⟩ : IpOpt).Ok :=
  ⟨[], [32, 32], str "192.168.100.200", str "443", [], by decide, by simp [Blank], by simp [Blank], by simp, by simp [Blank], by unfold NameOk; decide,
    by have := IpText.v4_print 192 168 100 200; rwa [show IpText.v4ToAsc 192 168 100 200 = str "192.168.100.200" by decide +kernel] at this, by decide,
    .more (.more (.one (d := 4) (by decide)) (d := 4) (by decide)) (d := 3) (by decide), by decide⟩

/-- C85: what the address handed out after a check should be, if the program looks as soon as the first attempt ends:
of the addresses that accepted a connection, one that did so first; if there is none, the same as before. -/
def FastestAccepts : Prop := ∀ (st : State) (ts : List Try) (now : Nat) (k : Nat) (i : Info),
  st.infos[k]? = some i → ts.length = i.list.length → Sane ts → (∀ t ∈ ts, ∀ m b, Ended t m b → now ≤ m) →
  ∃ st' i', check st k ts now = some st' ∧ st'.infos[k]? = some i' ∧
    ((i'.list[0]? = i.list[0]?) ∨ ∃ (j : Nat) (t : Try) (a : Addr) (m : Nat), ts[j]? = some t ∧ i.list[j]? = some a ∧ i'.list[0]? = some a ∧ Ended t m true ∧
      ∀ u ∈ ts, ∀ m', Ended u m' true → m ≤ m')

/-- C85 is false: an address that refuses the connection at once is taken for the fastest. -/
theorem fastest_accepts_false : ¬ FastestAccepts := by
  intro h
  obtain ⟨st', i', h1, h2, h3⟩ := h
    ⟨StringChunk.init (fun _ => 0), [⟨5, [⟨some [10, 0, 0, 1], some 80⟩, ⟨some [10, 0, 0, 2], some 80⟩]⟩]⟩
    [⟨some 5, true, true, some (30, true)⟩, ⟨some 6, true, true, some (1, false)⟩] 1 0 _ rfl rfl
    ⟨by decide, by simp⟩ (by simp [Ended])
  have e : (check ⟨StringChunk.init (fun _ => 0), [⟨5, [⟨some [10, 0, 0, 1], some 80⟩, ⟨some [10, 0, 0, 2], some 80⟩]⟩]⟩ 0
      [⟨some 5, true, true, some (30, true)⟩, ⟨some 6, true, true, some (1, false)⟩] 1).map (·.infos) =
      some [⟨5, [⟨some [10, 0, 0, 2], some 80⟩, ⟨some [10, 0, 0, 1], some 80⟩]⟩] := by decide +kernel
  rw [h1, Option.map_some, Option.some.injEq] at e
  rw [e] at h2
  simp only [List.getElem?_cons_zero, Option.some.injEq] at h2
  subst h2
  rcases h3 with h3 | ⟨j, t, a, m, g1, g2, g3, g4, -⟩
  · simp at h3
  · simp at g3
    subst g3
    match j, g1, g2 with
    | 0, g1, g2 => simp at g2
    | 1, g1, g2 => simp at g1; subst g1; simp [Ended] at g4
    | j + 2, g1, g2 => simp at g1

/-- C85, proved part: a check of a list of the configuration puts first an address whose attempt to connect has ended
(with a connection or not) by the time the program looked, if there is one, and changes nothing otherwise; that
address is then handed out for the name of the list.  If the program looks as soon as the first attempt ends, no
other address was faster. -/
theorem fastest_first_partial (hash : List Byte → UInt32) (lists : List ListOpt) (ips : List IpOpt)
    (hl : ∀ o ∈ lists, o.Ok) (hi : ∀ o ∈ ips, o.Ok) (hd : (lists.map (·.name)).Nodup) (cs : List (Nat × List Try × Nat))
    (hs : ∀ c ∈ cs, Sane c.2.1) :
    ∃ st tasks st1, load hash (some (lists.map (·.text))) (some (ips.map (·.text))) = some (some st, tasks) ∧ run st cs = some st1 ∧
      ∀ t ∈ tasks, ∃ i, st1.infos[t.list]? = some i ∧ i.interval = t.interval ∧ ∀ (ts : List Try) (now : Nat), ts.length = i.list.length → Sane ts →
        ∃ st2, check st1 t.list ts now = some st2 ∧ (∀ n, n ≠ t.name → get (some st2) n = get (some st1) n) ∧
          ((∀ u ∈ ts, ∀ m b, Ended u m b → now < m) ∧ get (some st2) t.name = get (some st1) t.name ∨
            ∃ (j : Nat) (u : Try) (m : Nat) (b : Bool) (a : Addr), ts[j]? = some u ∧ Ended u m b ∧ m ≤ now ∧ i.list[j]? = some a ∧ get (some st2) t.name = some a.ip ∧
              ((∀ u ∈ ts, ∀ m b, Ended u m b → now ≤ m) → ∀ u' ∈ ts, ∀ m' b', Ended u' m' b' → m ≤ m')) := by
  have hn := nameOk_of hl
  obtain ⟨st, h1, h2⟩ := load_ok hash hl hi
  obtain ⟨st1, k1, k2⟩ := run_ok h2.inv cs hs
  refine ⟨st, _, st1, h1, k1, fun t ht => ?_⟩
  obtain ⟨⟨o, k⟩, ho, rfl⟩ := List.mem_map.1 ht
  have ho := List.mem_zipIdx_iff_getElem?.1 ho
  dsimp only at ho ⊢
  obtain ⟨i, g1, g2, g3⟩ := k2.info k o ho
  have hname : ∀ n j, lastIdx lists n = some j → (j = k ↔ n = o.name) := by
    intro n j hj
    obtain ⟨o', e1, e2⟩ := lastIdx_some hj
    constructor
    · intro e; subst e; rw [ho] at e1; cases e1; exact e2.symm
    · intro e
      have p1 : (lists.map (·.name))[j]? = some n := by rw [List.getElem?_map, e1]; simp [e2]
      have p2 : (lists.map (·.name))[k]? = some n := by rw [List.getElem?_map, ho]; simp [e]
      obtain ⟨b1, e3⟩ := List.getElem?_eq_some_iff.1 p1
      obtain ⟨b2, e4⟩ := List.getElem?_eq_some_iff.1 p2
      exact (List.getElem_inj hd).1 (e3.trans e4.symm)
  have hlast : lastIdx lists o.name = some k := by
    cases hx : lastIdx lists o.name with
    | none => exact absurd (List.mem_map.2 ⟨o, List.mem_of_getElem? ho, rfl⟩) (lastIdx_none.1 hx)
    | some j => rw [(hname _ _ hx).2 rfl]
  refine ⟨i, g1, g2, fun ts now hlen hsane => ?_⟩
  obtain ⟨r, op, cl, c1, c2, c3, -⟩ := checkAList_ok hsane now
  have e : ts.take i.list.length = ts := List.take_of_length_le (by omega)
  unfold check
  rw [g1]
  dsimp only
  rw [e, c1]
  cases r with
  | none => exact ⟨st1, rfl, fun _ _ => rfl, .inl ⟨c2 rfl, rfl⟩⟩
  | some f =>
    obtain ⟨u, m, b, d1, d2, d3⟩ := c3 f rfl
    have hf : f < i.list.length := by
      obtain ⟨b1, -⟩ := List.getElem?_eq_some_iff.1 d1
      omega
    refine ⟨_, rfl, ?_, .inr ⟨f, u, m, b, i.list[f], d1, d2, d3, List.getElem?_eq_getElem hf, ?_, ?_⟩⟩
    · intro n hne
      have hfind : ∀ is : List Info, State.find ⟨st1.chunk, is⟩ n = lastIdx lists n := fun is => by
        have : State.find ⟨st1.chunk, is⟩ n = st1.find n := rfl
        rw [this, find_eq hn k2.chunk]
      unfold get
      dsimp only
      rw [find_eq hn k2.chunk, hfind]
      cases hj : lastIdx lists n with
      | none => rfl
      | some j =>
        have : k ≠ j := fun h => hne ((hname n j hj).1 h.symm)
        simp only [List.getElem?_modify, this, if_false]
        cases st1.infos[j]? <;> rfl
    · have hfind : State.find { st1 with infos := st1.infos.modify k (fun i => { i with list := swapFirst i.list f }) } o.name = some k := by
        have : State.find { st1 with infos := st1.infos.modify k (fun i => { i with list := swapFirst i.list f }) } o.name = st1.find o.name := rfl
        rw [this, find_eq hn k2.chunk, hlast]
      unfold get
      dsimp only
      rw [hfind]
      simp [g1, swapFirst_first (List.getElem?_eq_getElem hf)]
    · intro hfirst u' hu' m' b' he
      exact Nat.le_trans d3 (hfirst u' hu' m' b' he)

/-- The second of two addresses answers first. -/
example : (load (fun _ => 0) (some [str "list1 1000"]) (some [str "list1 10.0.0.1:80", str "list1 10.0.0.2:80"])).bind
    (fun r => r.1.bind (fun st => (run st [(0, [⟨some 5, true, true, some (30, true)⟩, ⟨some 6, true, true, some (20, true)⟩], 20)]).map
      (fun st => get (some st) (str "list1")))) = some (some (some [10, 0, 0, 2])) := by decide +kernel

/-- C86: a check closes every socket it opens, once. -/
def ChecksClose : Prop := ∀ (ts : List Try) (now : Nat), Sane ts → ∃ r op cl, checkAList ts now = some (r, op, cl) ∧ op = ts.filterMap (·.sock) ∧ cl.Perm op

/-- C86 is false: a socket that cannot be made non-blocking is left open. -/
theorem checks_close_false : ¬ ChecksClose := by
  intro h
  obtain ⟨r, op, cl, h1, -, h2⟩ := h [⟨some 5, false, false, none⟩] 0 ⟨by decide, by simp⟩
  have e : checkAList [⟨some 5, false, false, none⟩] 0 = some (none, [5], []) := by decide +kernel
  rw [e] at h1
  cases h1
  exact absurd h2.length_eq (by decide)

/-- C86, proved part: it closes exactly those that could be made non-blocking, each once. -/
theorem checks_close_partial (ts : List Try) (now : Nat) (h : Sane ts) :
    ∃ r op cl, checkAList ts now = some (r, op, cl) ∧ op = ts.filterMap (·.sock) ∧
      cl.Perm ((ts.filter (·.nonBlock)).filterMap (·.sock)) := by
  obtain ⟨r, op, cl, h1, -, -, h2, h3, h4⟩ := checkAList_ok h now
  refine ⟨r, op, cl, h1, h2, ?_⟩
  have hn : ((ts.filter (·.nonBlock)).filterMap (·.sock)).Nodup := h.1.sublist (List.filter_sublist.filterMap _)
  rw [List.perm_ext_iff_of_nodup h4 hn]
  intro s
  rw [h3, List.mem_filterMap]
  constructor
  · rintro ⟨t, a, b, c⟩
    exact ⟨t, List.mem_filter.2 ⟨a, c⟩, b⟩
  · rintro ⟨t, a, b⟩
    rw [List.mem_filter] at a
    exact ⟨t, a.1, b, a.2⟩

example : Sane [⟨some 5, true, true, some (3, true)⟩, ⟨none, true, true, none⟩, ⟨some 6, true, false, none⟩, ⟨some 7, false, false, none⟩] :=
  ⟨by decide, by simp⟩

example : checkAList [⟨some 5, true, true, some (3, true)⟩, ⟨none, true, true, none⟩, ⟨some 6, true, false, none⟩, ⟨some 7, false, false, none⟩] 9 =
    some (some 0, [5, 6, 7], [6, 5]) := by decide +kernel

end Verif.GoodIpList
