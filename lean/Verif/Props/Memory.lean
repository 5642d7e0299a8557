import Verif.Lemmas.Memory

/-! C116: memory is given back once, and not used after that. -/

namespace Verif.Memory

/-- A UDP group: whichever requests for memory are refused, whatever addresses it has and whatever it is used for. -/
theorem udp_balanced (ok : Ok) (n : Nat) (parallel : Bool) (uses : List Bool) : Balanced (udpLife ok n parallel uses) :=
  balanced_of (T_udpLife ok n parallel uses)

/-- The claim for TCP groups.  It is false. -/
def TcpBalanced : Prop := ∀ ok bound n proxies uses, Balanced (tcpLife ok bound n proxies uses)

theorem tcpBalanced_false : ¬ TcpBalanced := by
  intro h
  obtain ⟨h', h1, h2⟩ := h Granted true 1 none [] ⟨[], 0, 0⟩
  have e : (tcpLife Granted true 1 none [] ⟨[], 0, 0⟩).map (fun x => x.2.live.length) = some 1 := by decide +kernel
  rw [h1] at e
  have := h2.length_eq
  simp_all

/-- A TCP group without proxies: if it can be made, nothing undefined happens, and one block is left for ever (the pointer buffer of the
pullers of the servers). -/
theorem tcp_made_partial {ok : Ok} {bound : Bool} {n : Nat} {h h1 : Heap} {t : Tcp} (ht : tcpInit ok bound n none h = some (some t, h1))
    (uses : List (Where × Bool)) : ∃ h' b, tcpLife ok bound n none uses h = some ((), h') ∧ h'.live.Perm (b :: h.live) := by
  obtain ⟨o, ⟨rfl, hw, hp⟩, hl, -⟩ := S_tcpInit ok bound n none h h.live t h1 (List.Perm.refl _) ht
  obtain ⟨t2, h2, o, e2, ⟨hw2, rfl, hp2⟩, hl2, -⟩ := T_tcpUse ok uses t hw h1 h.live hl
  have hn : t2.proxy = none := by
    rw [hp] at hp2
    exact Option.isSome_eq_false_iff.mp (by simpa using hp2) |> Option.isNone_iff_eq_none.mp
  obtain ⟨u, h3, o, e3, rfl, hl3, -⟩ := T_tcpStop hn h2 h.live hl2
  refine ⟨h3, t2.agents.buffer, ?_, hl3⟩
  show (tcpInit ok bound n none >>= _) h = _
  simp only [bind, StateT.bind, ht, e2, e3, Option.bind]

/-- This is so whenever there is an address, a port and enough memory: one block for every group of every reload. -/
theorem tcp_leaks (n : Nat) (uses : List (Where × Bool)) : Leaks 1 (tcpLife Granted true (n + 1) none uses) := by
  intro h
  obtain ⟨r, h1, o, e, ⟨t, rfl, -⟩, -⟩ := T_tcpInit n h h.live (List.Perm.refl _)
  obtain ⟨h', b, h2, h3⟩ := tcp_made_partial e uses
  exact ⟨h', [b], h2, h3, rfl⟩

/-- A TCP group with proxies: when it is stopped, a block is given back twice. -/
theorem proxied_stop_undefined {ok : Ok} {bound : Bool} {n m : Nat} {h h1 : Heap} {t : Tcp} (hs : h.Sound)
    (ht : tcpInit ok bound n (some m) h = some (some t, h1)) (uses : List (Where × Bool)) : tcpLife ok bound n (some m) uses h = none := by
  obtain ⟨o, ⟨rfl, hw, hp⟩, hl, hs1⟩ := S_tcpInit ok bound n (some m) h h.live t h1 (List.Perm.refl _) ht
  obtain ⟨t2, h2, o, e2, ⟨hw2, rfl, hp2⟩, hl2, hs2⟩ := T_tcpUse ok uses t hw h1 h.live hl
  have e3 := Crash_tcpStop hw2 (by rw [hp2, hp]; rfl) h2 h.live (hs2 (hs1 hs)) hl2
  show (tcpInit ok bound n (some m) >>= _) h = _
  simp only [bind, StateT.bind, ht, e2, e3, Option.bind]

-- There is such a group.
example : ((tcpInit Granted true 2 (some 1) ⟨[], 0, 0⟩).map fun x => x.1.isSome) = some true := by decide +kernel

/-- A TCP group whose proxies are all no addresses: the set-up itself is undefined. -/
theorem no_proxy_undefined (n : Nat) (uses : List (Where × Bool)) {h : Heap} (hs : h.Sound) : tcpLife Granted true (n + 1) (some 0) uses h = none := by
  have e := Crash_noProxy n h h.live hs (List.Perm.refl _)
  show (tcpInit Granted true (n + 1) (some 0) >>= _) h = _
  simp only [bind, StateT.bind, e, Option.bind]

/-- Without proxies: a refused request can make the set-up undefined. -/
theorem refused_undefined : tcpInit (fun i => decide (i ≠ 10)) true 1 none ⟨[], 0, 0⟩ = none := by decide +kernel

/-- The hosts: however often they are loaded, whatever is in them and whichever requests are refused. -/
theorem hosts_balanced (ok : Ok) (ls : List HostsLoad) : Balanced (hostsLife ok ls none) := balanced_of (T_hostsLife ok ls none)

/-- The mapped and blocked addresses. -/
theorem ips_balanced (ok : Ok) (ls : List (Bool × List (Nat × Bool))) : Balanced (ipsLife ok ls none) := balanced_of (T_ipsLife ok ls none)

/-- The claim for the disabled domains.  It is false. -/
def FilterBalanced : Prop := ∀ ok ls, Balanced (filterLife ok ls none)

theorem filterBalanced_false : ¬ FilterBalanced := by
  intro h
  obtain ⟨h', h1, -⟩ := h (fun _ => false) [⟨none, some []⟩] ⟨[], 0, 0⟩
  have e : filterLife (fun _ => false) [⟨none, some []⟩] none ⟨[], 0, 0⟩ = none := by decide +kernel
  rw [e] at h1
  cases h1

/-- It holds if `DisabledDomain` is set or `DisabledList` is not, or no request is refused. -/
theorem filter_balanced_partial (ok : Ok) (ls : List FilterLoad) (h : ∀ l ∈ ls, l.domains.isSome = true ∨ l.files = none ∨ ok = Granted) :
    Balanced (filterLife ok ls none) := balanced_of (T_filterLife ok ls none h)

/-- The claim for the lists of server groups.  It is false. -/
def MapBalanced : Prop := ∀ ok ls, Balanced (mapLife ok ls none)

theorem mapBalanced_false : ¬ MapBalanced := by
  intro h
  obtain ⟨h', h1, -⟩ := h (fun i => decide (i = 0)) [⟨[], true⟩] ⟨[], 0, 0⟩
  have e : mapLife (fun i => decide (i = 0)) [⟨[], true⟩] none ⟨[], 0, 0⟩ = none := by decide +kernel
  rw [e] at h1
  cases h1

/-- It holds if no request is refused, whether the loads succeed or not. -/
theorem map_balanced_partial (ls : List MapLoad) : Balanced (mapLife Granted ls none) := balanced_of (T_mapLife ls none)

-- A history of each, with refused requests: blocks are there in between and not at the end.
example : ((udpInit Granted 2 true ⟨[7], 8, 0⟩).map fun x => (x.1.isSome, decide (3 ≤ x.2.live.length))) = some (true, true) := by decide +kernel
example : ((udpLife (fun i => decide (i ≠ 3)) 2 true [true, false, true] ⟨[7], 8, 0⟩).map fun x => x.2.live) = some [7] := by decide +kernel
example : ((hostsLoad Granted none true [.nodes, .data true] [(0, true)] ⟨[], 0, 0⟩).map fun x => decide (5 ≤ x.2.live.length)) = some true := by
  decide +kernel
example : ((hostsLife (fun i => decide (i ≠ 4)) [⟨true, [.nodes, .data true], [(0, true)]⟩, ⟨false, [], []⟩, ⟨true, [.wild], [(1, true)]⟩] none
    ⟨[7], 8, 0⟩).map fun x => x.2.live) = some [7] := by decide +kernel
example : ((mapLife Granted [⟨[.groups true, .list, .dist .nodes], true⟩, ⟨[.list], false⟩, ⟨[.groups true], true⟩] none ⟨[7], 8, 0⟩).map
    fun x => x.2.live) = some [7] := by decide +kernel

end Verif.Memory
