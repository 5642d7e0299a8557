import Verif.Spec.UdpUp
import Verif.Props.AddressList
import Verif.Props.StringList
import Verif.Props.Config
/-! To whom a UDP group sends queries, and over which sockets (C119, C120). -/

namespace Verif.UdpUp
open AddressList IpText

/-! ### The servers named -/

theorem dropWhile_blank {g a r : List Byte} (ha : StringList.Blank g a) (hr : ∀ c, r.head? = some c → c ∉ g) :
    (a ++ r).dropWhile (fun c => decide (c ∈ g)) = r := by
  induction a with
  | nil =>
    cases r with
    | nil => rfl
    | cons c r => have := hr c rfl; simp [this]
  | cons c a ih =>
    have hc : c ∈ g := ha c (by simp)
    rw [List.cons_append, List.dropWhile_cons_of_pos (by simpa using hc)]
    exact ih (fun d hd => ha d (by simp [hd]))

theorem trimmed_eq {g s t : List Byte} (h : StringList.Trimmed g s t) (ht : t ≠ []) :
    t = (((s.dropWhile (fun c => decide (c ∈ g))).reverse).dropWhile (fun c => decide (c ∈ g))).reverse := by
  obtain ⟨a, b, e, ha, hb, h1, h2⟩ := h
  subst e
  rw [List.append_assoc, dropWhile_blank ha (by
    intro c hc
    cases t with
    | nil => exact absurd rfl ht
    | cons d t => exact h1 c (by simpa using hc))]
  rw [List.reverse_append, dropWhile_blank (fun c hc => hb c (by simpa using hc)) (by
    intro c hc
    rw [List.head?_reverse] at hc
    exact h2 c hc), List.reverse_reverse]

theorem trimmed_not_blank {g s t : List Byte} (h : StringList.Trimmed g s t) (ht : t ≠ []) : ¬ StringList.Blank g s := by
  intro hb
  obtain ⟨a, b, e, -, -, h1, -⟩ := h
  cases t with
  | nil => exact ht rfl
  | cons c t => exact h1 c rfl (hb c (by rw [e]; simp))

theorem trims_unique {g : List Byte} {ss ts : List (List Byte)} (h : StringList.Trims g ss ts) :
    ∀ {us : List (List Byte)}, StringList.Trims g ss us → ts = us := by
  induction h with
  | nil => intro us h; cases h; rfl
  | blank hb _ ih =>
    intro us h
    cases h with
    | blank _ h => exact ih h
    | keep h1 h2 h => exact absurd hb (trimmed_not_blank h1 h2)
  | keep h1 h2 _ ih =>
    intro us h
    cases h with
    | blank hb _ => exact absurd hb (trimmed_not_blank h1 h2)
    | keep k1 k2 h => rw [trimmed_eq h1 h2, trimmed_eq k1 k2, ih h]

theorem addAll_has (inet : List Byte → List Byte) (hi : InetOk inet) {ts : List (List Byte)} {l : List Sock} (h : Texts ts l) :
    ∀ {a : AddrList} {k : List Sock}, HasServers a k → ∃ b, addAll inet a ts = some b ∧ HasServers b (k ++ l) ∧ b.counter = a.counter := by
  induction h with
  | nil => intro a k hk; exact ⟨a, rfl, by simpa using hk, rfl⟩
  | @cons t a f p ts l h _ ih =>
    intro x k hk
    obtain ⟨y, h1, h2, h3⟩ := add_has hk ⟨f, some a, p⟩
    obtain ⟨z, h4, h5, h6⟩ := ih h2
    refine ⟨z, ?_, by simpa using h5, by rw [h6, h3]⟩
    rw [addAll, addFromString, understood inet hi 53 t a f p h]
    simp only [h1, h4]
  | @skip t ts l h _ ih =>
    intro x k hk
    obtain ⟨z, h4, h5, h6⟩ := ih hk
    refine ⟨z, ?_, h5, h6⟩
    rw [addAll, addFromString, name_refused inet 53 h]
    exact h4

theorem ofFamily_has {a : AddrList} {l : List Sock} (h : HasServers a l) (f : Family) : ofFamily a f = some (l.filter fun s => s.family = f) := by
  have : ∀ n i, i + n = l.length → ofFamilyLoop a f n i = some ((l.drop i).filter fun s => s.family = f) := by
    intro n
    induction n with
    | zero => intro i hi; rw [List.drop_eq_nil_of_le (by omega)]; rfl
    | succ n ih =>
      intro i hi
      rw [ofFamilyLoop, get_has h i (by omega)]
      dsimp only
      rw [ih (i + 1) (by omega), List.drop_eq_getElem_cons (show i < l.length by omega), List.filter_cons]
      simp only [Option.map_some, decide_eq_true_eq]
  unfold ofFamily
  rw [used_eq h, this l.length 0 (by omega)]
  rfl

/-! ### Every state of a group -/

/-- The servers `l` are in use, `k` sweeps found queries that had waited too long. -/
structure Holds (m : Up) (l : List Sock) (parallel : Bool) (k : Nat) : Prop where
  servers : HasServers m.list l
  counter : m.list.counter.toNat = k % 4294967296
  some : l ≠ []
  par : m.par = if parallel then l.head?.map (fun s => (s.family, l.filter fun t => t.family = s.family)) else none
  ended : m.running = false → m.sock = none

/-- A group that names its servers properly, at least one, can be started. -/
theorem start_eq (inet : List Byte → List Byte) (hi : InetOk inet) (services : List Byte) (l : List Sock) (parallel : Bool)
    (hn : Names services l) (hz : (0 : Byte) ∉ services) (hs : services.length < 100000000) :
    ∃ b, HasServers b l ∧ b.counter = AddressList.init.counter ∧ start inet services parallel = if parallel then
        match getBySubscript b 0 with
        | .undef => .undef
        | .null => .failed
        | .addr s =>
          match ofFamily b s.family with
          | none => .undef
          | some l => .ok ⟨b, some (s.family, l), none, 0, true⟩
      else .ok ⟨b, none, none, 0, true⟩ := by
  obtain ⟨ps, ts, h1, h2, h3⟩ := hn
  obtain ⟨bs, L, k1, k2, -, k3⟩ := StringList.split_trim [.add services (.some (str ", ")), .trim (.some (str "\t ."))]
    (by intro o ho; simp at ho; rcases ho with rfl | rfl <;> simp [StringList.Op.Clean, hz])
    (by simp only [StringList.Small, StringList.Op.size, List.map_cons, List.map_nil, List.sum_cons, List.sum_nil, List.length_cons, List.length_nil]; omega)
    (by intro o ho t d; simp at ho; rcases ho with rfl | rfl <;> simp)
  have hL : L = ts := by
    cases k3 with
    | cons m1 k3 =>
      cases k3 with
      | cons m2 k3 =>
        cases k3
        obtain ⟨qs, q1, q2⟩ := m1
        rw [List.nil_append] at q2
        subst q2
        have := Config.split_unique (show StringList.Split (str ", ") services _ from q1) h1
        subst this
        exact (trims_unique h2 m2).symm
  subst hL
  obtain ⟨b, a1, a2, a3⟩ := addAll_has inet hi h3 init_has
  rw [List.nil_append] at a2
  refine ⟨b, a2, a3, ?_⟩
  unfold start
  rw [k1]
  simp only [Option.bind_some, k2, a1]
  rfl

theorem start_holds (inet : List Byte → List Byte) (hi : InetOk inet) (services : List Byte) (l : List Sock) (parallel : Bool)
    (hn : Names services l) (hl : l ≠ []) (hz : (0 : Byte) ∉ services) (hs : services.length < 100000000) :
    ∃ m, start inet services parallel = .ok m ∧ m.sock = none ∧ m.running = true ∧ Holds m l parallel 0 := by
  obtain ⟨b, a2, a3, hb⟩ := start_eq inet hi services l parallel hn hz hs
  cases l with
  | nil => exact absurd rfl hl
  | cons s l =>
    have hg := get_has a2 0 (by simp)
    have hg : getBySubscript b 0 = .addr s := hg
    rw [hb]
    cases parallel with
    | false => exact ⟨_, rfl, rfl, rfl, a2, by rw [a3]; rfl, hl, rfl, fun h => by cases h⟩
    | true =>
      simp only [if_true, hg, ofFamily_has a2]
      exact ⟨_, rfl, rfl, rfl, a2, by rw [a3]; rfl, hl, rfl, fun h => by cases h⟩

theorem getOne_holds {m : Up} {l : List Sock} {parallel : Bool} {k : Nat} (h : Holds m l parallel k) :
    ∃ s, getOne m.list = .addr s ∧ l[(k % 4294967296) % l.length]? = some s := by
  have hp : 0 < l.length := List.length_pos_iff.2 h.some
  have h1 := pick_eq 0 h.servers hp
  refine ⟨_, h1, ?_⟩
  have e : (m.list.counter.toNat + 0) % 4294967296 = k % 4294967296 := by rw [h.counter]; omega
  simp only [e]
  exact List.getElem?_eq_getElem _

theorem head_holds {m : Up} {l : List Sock} {k : Nat} (h : Holds m l true k) :
    ∃ s, l.head? = some s ∧ m.par = some (s.family, l.filter fun t => t.family = s.family) := by
  cases l with
  | nil => exact absurd rfl h.some
  | cons s l => exact ⟨s, rfl, h.par⟩

theorem family_holds {m : Up} {l : List Sock} {parallel : Bool} {k : Nat} (h : Holds m l parallel k) :
    ∃ q s, Asked l parallel k q ∧ s ∈ q ∧ nextFamily m = some (some s.family) := by
  cases parallel with
  | true =>
    obtain ⟨s, h1, h2⟩ := head_holds h
    refine ⟨_, s, ⟨s, h1, rfl⟩, ?_, by rw [nextFamily, h2]⟩
    have := List.mem_of_head? h1
    simpa using this
  | false =>
    obtain ⟨s, h1, h2⟩ := getOne_holds h
    have hp : m.par = none := h.par
    refine ⟨[s], s, ⟨s, h2, rfl⟩, by simp, by rw [nextFamily, hp, h1]⟩

theorem asked_unique {l : List Sock} {parallel : Bool} {k : Nat} {q r : List Sock} (h : Asked l parallel k q) (h' : Asked l parallel k r) : q = r := by
  cases parallel with
  | true =>
    obtain ⟨s, h1, rfl⟩ := h
    obtain ⟨t, h2, rfl⟩ := h'
    rw [h1] at h2
    cases h2
    rfl
  | false =>
    obtain ⟨s, h1, rfl⟩ := h
    obtain ⟨t, h2, rfl⟩ := h'
    rw [h1] at h2
    cases h2
    rfl

theorem send_holds {m : Up} {l : List Sock} {parallel : Bool} {k : Nat} (h : Holds m l parallel k) (b : List Byte) :
    ∃ q, Asked l parallel k q ∧ step m (.send b) = some (m, sends m.sock q b) := by
  cases parallel with
  | true =>
    obtain ⟨s, h1, h2⟩ := head_holds h
    refine ⟨_, ⟨s, h1, rfl⟩, ?_⟩
    unfold step
    cases hs : m.sock with
    | none => rfl
    | some p => simp only [h2, sends]
  | false =>
    obtain ⟨s, h1, h2⟩ := getOne_holds h
    have hp : m.par = none := h.par
    refine ⟨[s], ⟨s, h2, rfl⟩, ?_⟩
    unfold step
    cases hs : m.sock with
    | none => rfl
    | some p => simp only [hp, h1, sends, List.map_cons, List.map_nil]

theorem proper_sends (fd : Nat) (f : Family) (b : List Byte) (q : List Sock) :
    Proper (some (fd, f)) (q.map (fun s => .sendto fd f s b)) (some (fd, f)) := by
  induction q with
  | nil => exact .nil
  | cons s q ih => exact .sendto ih

theorem proper_append {p q r : Option (Nat × Family)} {a b : List Act} (h : Proper p a q) (h' : Proper q b r) : Proper p (a ++ b) r := by
  induction h with
  | nil => exact h'
  | opened _ ih => exact .opened (ih h')
  | closed _ ih => exact .closed (ih h')
  | sendto _ ih => exact .sendto (ih h')
  | taken _ ih => exact .taken (ih h')

/-- Is this a sweep in which queries had waited too long? -/
def loss (ev : Ev) : Nat := losses [ev]

theorem losses_cons (ev : Ev) (l : List Ev) : losses (ev :: l) = loss ev + losses l := by
  unfold loss
  cases ev with
  | sweep n =>
    cases n with
    | zero => simp [losses]
    | succ n => simp [losses]; omega
  | _ => simp [losses]

theorem losses_append (a b : List Ev) : losses (a ++ b) = losses a + losses b := by
  induction a with
  | nil => simp [losses]
  | cons e a ih => rw [List.cons_append, losses_cons, losses_cons, ih]; omega

theorem drop_proper (m : Up) : Proper m.sock (drop m).2 none ∧ (drop m).1 = { m with sock := none } := by
  obtain ⟨a, b, c, d, e⟩ := m
  cases c with
  | none => exact ⟨.nil, rfl⟩
  | some p => exact ⟨.closed .nil, rfl⟩

theorem step_holds {m : Up} {l : List Sock} {parallel : Bool} {k : Nat} (h : Holds m l parallel k) (ev : Ev) :
    ∃ m' a, step m ev = some (m', a) ∧ Holds m' l parallel (k + loss ev) ∧ Proper m.sock a m'.sock := by
  have same : ∀ m' : Up, m'.list = m.list → m'.par = m.par → (m'.running = false → m'.sock = none) → Holds m' l parallel k :=
    fun m' h1 h2 h3 => ⟨by rw [h1]; exact h.servers, by rw [h1]; exact h.counter, h.some, by rw [h2]; exact h.par, h3⟩
  cases ev with
  | make r =>
    simp only [step, loss, losses, Nat.add_zero]
    split
    · exact ⟨m, [], rfl, h, .nil⟩
    · rename_i hr
      split
      · exact ⟨m, [], rfl, h, .nil⟩
      · rename_i hs
        obtain ⟨q, s, -, -, h2⟩ := family_holds h
        rw [h2]
        dsimp only
        cases r with
        | none => exact ⟨_, _, rfl, same _ rfl rfl (fun _ => hs), by rw [hs]; exact .nil⟩
        | some fd => exact ⟨_, _, rfl, same _ rfl rfl (fun hc => absurd hc hr), by rw [hs]; exact .opened .nil⟩
  | wait w =>
    simp only [step, loss, losses, Nat.add_zero]
    obtain ⟨d1, d2⟩ := drop_proper m
    have hd : Holds (drop m).1 l parallel k := by rw [d2]; exact same _ rfl rfl (fun _ => rfl)
    split
    · exact ⟨m, [], rfl, h, .nil⟩
    · rename_i p hs
      have hd2 : Proper m.sock (drop m).2 (drop m).1.sock := by rw [d2]; exact d1
      cases w with
      | error => exact ⟨_, _, rfl, hd, hd2⟩
      | nothing =>
        dsimp only
        split
        · exact ⟨_, _, rfl, hd, hd2⟩
        · exact ⟨m, [], rfl, h, .nil⟩
      | message src b =>
        dsimp only
        split
        · exact ⟨m, [], rfl, h, .nil⟩
        · exact ⟨_, _, rfl, same _ rfl rfl h.ended, by dsimp only; rw [hs]; exact .taken .nil⟩
  | send b =>
    obtain ⟨q, -, h2⟩ := send_holds h b
    refine ⟨_, _, h2, by simpa [loss, losses] using h, ?_⟩
    cases m.sock with
    | none => exact .nil
    | some p => exact proper_sends _ _ _ _
  | sweep n =>
    cases n with
    | zero => exact ⟨m, [], rfl, by simpa [loss, losses] using h, .nil⟩
    | succ n =>
      refine ⟨_, [], rfl, ⟨⟨h.servers.inv, h.servers.cont⟩, ?_, h.some, h.par, h.ended⟩, .nil⟩
      simp only [Nat.succ_ne_zero, if_false, loss, losses, advance, UInt32.toNat_add, h.counter]
      simp
  | stop =>
    obtain ⟨d1, d2⟩ := drop_proper m
    refine ⟨_, _, rfl, ?_, ?_⟩
    · rw [d2]; exact same _ rfl rfl (fun _ => rfl)
    · dsimp only; rw [d2]; exact d1

theorem run_holds (hist : List Ev) : ∀ {m : Up} {l : List Sock} {parallel : Bool} {k : Nat}, Holds m l parallel k →
    ∃ m' a, run m hist = some (m', a) ∧ Holds m' l parallel (k + losses hist) ∧ Proper m.sock a m'.sock := by
  induction hist with
  | nil => intro m l parallel k h; exact ⟨m, [], rfl, h, .nil⟩
  | cons ev hist ih =>
    intro m l parallel k h
    obtain ⟨m1, a1, h1, h2, h3⟩ := step_holds h ev
    obtain ⟨m2, a2, k1, k2, k3⟩ := ih h2
    refine ⟨m2, a1 ++ a2, by simp only [run, h1, k1], ?_, proper_append h3 k3⟩
    rw [losses_cons, ← Nat.add_assoc]
    exact k2

theorem run_append (hist : List Ev) : ∀ {m m' : Up} {a : List Act} (ev : Ev), run m hist = some (m', a) →
    run m (hist ++ [ev]) = (step m' ev).map (fun r => (r.1, a ++ r.2)) := by
  induction hist with
  | nil =>
    intro m m' a ev h
    cases h
    simp only [run, List.nil_append]
    cases step m ev with
    | none => rfl
    | some r => simp
  | cons e hist ih =>
    intro m m' a ev h
    simp only [run, List.cons_append] at h ⊢
    cases hs : step m e with
    | none => rw [hs] at h; cases h
    | some r =>
      obtain ⟨m1, a1⟩ := r
      simp only [hs] at h
      dsimp only
      cases hr : run m1 hist with
      | none => rw [hr] at h; cases h
      | some r =>
        obtain ⟨m2, a2⟩ := r
        simp only [hr] at h
        cases h
        rw [ih ev hr]
        cases step m' ev with
        | none => rfl
        | some r => simp

/-- C119: a group that names its servers properly starts, and whatever happens it does nothing undefined, never has more than
one socket open, uses only that one and closes each socket once (`Proper`).  A query is sent, over the socket that is open,
once to each server of the first one's family (parallel), or to one server: the one whose turn it is after as many changes
as there were sweeps with queries that had waited too long.  Nothing else is sent. -/
theorem servers_asked (inet : List Byte → List Byte) (hi : InetOk inet) (services : List Byte) (l : List Sock) (parallel : Bool)
    (hn : Names services l) (hl : l ≠ []) (hz : (0 : Byte) ∉ services) (hs : services.length < 100000000) (hist : List Ev) :
    ∃ m m' acts o q, start inet services parallel = .ok m ∧ run m hist = some (m', acts) ∧ Proper none acts o ∧ Asked l parallel (losses hist) q ∧
      (∀ b, ∃ m2, run m (hist ++ [.send b]) = some (m2, acts ++ sends o q b)) ∧
      (∀ ev m2 acts2, run m (hist ++ [ev]) = some (m2, acts ++ acts2) → (∀ b, ev ≠ .send b) → ∀ fd f s b, Act.sendto fd f s b ∉ acts2) := by
  obtain ⟨m, h1, h2, -, h4⟩ := start_holds inet hi services l parallel hn hl hz hs
  obtain ⟨m', a, r1, r2, r3⟩ := run_holds hist h4
  rw [Nat.zero_add] at r2
  obtain ⟨q, q1, -⟩ := send_holds r2 []
  refine ⟨m, m', a, m'.sock, q, h1, r1, by rw [← h2]; exact r3, q1, ?_, ?_⟩
  · intro b
    obtain ⟨q', q2, q3⟩ := send_holds r2 b
    have := asked_unique q1 q2
    subst this
    refine ⟨m', ?_⟩
    rw [run_append hist _ r1, q3]
    rfl
  · intro ev m2 acts2 hr hne fd f s b hm
    rw [run_append hist _ r1] at hr
    cases hst : step m' ev with
    | none => rw [hst] at hr; cases hr
    | some r =>
      obtain ⟨m3, a3⟩ := r
      rw [hst] at hr
      simp only [Option.map_some, Option.some.injEq, Prod.mk.injEq] at hr
      have := List.append_cancel_left hr.2
      subst this
      have hdrop : Act.sendto fd f s b ∉ (drop m').2 := by
        unfold drop
        split <;> simp
      cases ev with
      | make r =>
        simp only [step] at hst
        split at hst
        · cases hst; cases hm
        · split at hst
          · cases hst; cases hm
          · split at hst
            · cases hst
            · cases hst; cases hm
            · split at hst
              · cases hst; cases hm
              · cases hst; simp at hm
      | wait w =>
        simp only [step] at hst
        split at hst
        · cases hst; cases hm
        · split at hst
          · simp only [Option.some.injEq] at hst
            rw [hst] at hdrop
            exact hdrop hm
          · split at hst
            · simp only [Option.some.injEq] at hst
              rw [hst] at hdrop
              exact hdrop hm
            · cases hst; cases hm
          · split at hst
            · cases hst; cases hm
            · cases hst; simp at hm
      | send b' => exact hne b' rfl
      | sweep n => cases hst; cases hm
      | stop =>
        simp only [step, Option.some.injEq, Prod.mk.injEq] at hst
        rw [← hst.2] at hm
        exact hdrop hm

theorem step_quiet {m m' : Up} {ev : Ev} {a : List Act} {l : List Sock} {parallel : Bool} {k : Nat} (h : Holds m l parallel k)
    (hs : step m ev = some (m', a)) (hq : Quiet a) {p : Nat × Family} (hp : m.sock = some p) :
    m'.sock = some p ∧ m'.timeouts = m.timeouts + lost [ev] := by
  have hd : ¬ Quiet (drop m).2 := by
    intro hq
    obtain ⟨fd, f⟩ := p
    have := hq (.closed fd) (by simp [drop, hp])
    obtain ⟨_, _, _, _, e⟩ := this
    cases e
  cases ev with
  | make r =>
    simp only [step, hp] at hs
    split at hs <;> cases hs <;> exact ⟨hp, rfl⟩
  | wait w =>
    simp only [step, hp] at hs
    cases w with
    | error =>
      simp only [Option.some.injEq] at hs
      rw [hs] at hd
      exact absurd hq hd
    | nothing =>
      dsimp only at hs
      split at hs
      · simp only [Option.some.injEq] at hs
        rw [hs] at hd
        exact absurd hq hd
      · cases hs
        exact ⟨hp, rfl⟩
    | message src b =>
      dsimp only at hs
      split at hs
      · cases hs
        exact ⟨hp, rfl⟩
      · cases hs
        obtain ⟨_, _, _, _, e⟩ := hq (.taken b) (by simp)
        cases e
  | send b =>
    obtain ⟨q, -, h2⟩ := send_holds h b
    rw [hs] at h2
    cases h2
    exact ⟨hp, rfl⟩
  | sweep n =>
    cases n with
    | zero => cases hs; exact ⟨hp, rfl⟩
    | succ n => cases hs; exact ⟨hp, by simp [lost]⟩
  | stop =>
    simp only [step, Option.some.injEq, Prod.mk.injEq] at hs
    rw [← hs.2] at hq
    exact absurd hq hd

theorem run_quiet (hist : List Ev) : ∀ {m m' : Up} {a : List Act} {l : List Sock} {parallel : Bool} {k : Nat}, Holds m l parallel k →
    run m hist = some (m', a) → Quiet a → ∀ {p : Nat × Family}, m.sock = some p → m'.sock = some p ∧ m'.timeouts = m.timeouts + lost hist := by
  induction hist with
  | nil => intro m m' a l parallel k _ h _ p hp; cases h; exact ⟨hp, rfl⟩
  | cons ev hist ih =>
    intro m m' a l parallel k h hr hq p hp
    obtain ⟨m1, a1, h1, h2, -⟩ := step_holds h ev
    simp only [run, h1] at hr
    cases hr2 : run m1 hist with
    | none => rw [hr2] at hr; cases hr
    | some r =>
      obtain ⟨m2, a2⟩ := r
      rw [hr2] at hr
      cases hr
      obtain ⟨k1, k2⟩ := step_quiet h h1 (fun x hx => hq x (by simp [hx])) hp
      obtain ⟨j1, j2⟩ := ih h2 hr2 (fun x hx => hq x (by simp [hx])) k1
      refine ⟨j1, ?_⟩
      rw [j2, k2]
      have : lost (ev :: hist) = lost [ev] + lost hist := by
        cases ev <;> simp [lost]
        omega
      omega

/-- C119: a socket is given up exactly when waiting fails, or when nothing arrives although more than eight queries had waited
too long since the socket was made, or since the last message. -/
theorem socket_renewed {m m1 m2 : Up} {l : List Sock} {parallel : Bool} {k : Nat} (h : Holds m l parallel k) (ev : Ev) (hist : List Ev)
    (a : List Act) (x : Act) (fd : Nat) (f : Family) (hx : x = .opened fd f ∨ ∃ b, x = .taken b ∧ m.sock = some (fd, f))
    (h1 : step m ev = some (m1, [x])) (h2 : run m1 hist = some (m2, a)) (hq : Quiet a) :
    (∃ m3, step m2 (.wait .error) = some (m3, [.closed fd])) ∧
      ∃ m3, step m2 (.wait .nothing) = some (m3, if lost hist > 8 then [.closed fd] else []) := by
  obtain ⟨m1', a', h3, h4, h5⟩ := step_holds h ev
  rw [h1] at h3
  cases h3
  have hs : m1.sock = some (fd, f) ∧ m1.timeouts = 0 := by
    cases ev with
    | make r =>
      simp only [step] at h1
      split at h1
      · cases h1
      · split at h1
        · cases h1
        · split at h1
          · cases h1
          · cases h1
          · split at h1
            · cases h1
            · cases h1
              rcases hx with e | ⟨b, e, -⟩
              · cases e
                exact ⟨rfl, rfl⟩
              · cases e
    | wait w =>
      have hd : ∀ m', drop m = (m', [x]) → False := by
        intro m' e
        unfold drop at e
        split at e
        · cases e
        · cases e
          rcases hx with e | ⟨b, e, -⟩ <;> cases e
      simp only [step] at h1
      split at h1
      · cases h1
      · split at h1
        · simp only [Option.some.injEq] at h1
          exact (hd _ h1).elim
        · split at h1
          · simp only [Option.some.injEq] at h1
            exact (hd _ h1).elim
          · cases h1
        · split at h1
          · cases h1
          · cases h1
            rcases hx with e | ⟨b, -, e⟩
            · cases e
            · exact ⟨e, rfl⟩
    | send b =>
      obtain ⟨q, -, h2⟩ := send_holds h b
      rw [h1] at h2
      simp only [Option.some.injEq, Prod.mk.injEq] at h2
      exfalso
      have h2 := h2.2
      unfold sends at h2
      split at h2
      · cases h2
      · have hm : x ∈ [x] := by simp
        rw [h2] at hm
        obtain ⟨s, -, e⟩ := List.mem_map.1 hm
        rcases hx with e' | ⟨b, e', -⟩ <;> (rw [e'] at e; cases e)
    | sweep n => cases h1
    | stop =>
      simp only [step, Option.some.injEq, Prod.mk.injEq] at h1
      exfalso
      have h1 := h1.2
      unfold drop at h1
      split at h1
      · cases h1
      · cases h1
        rcases hx with e | ⟨b, e, -⟩ <;> cases e
  obtain ⟨k1, k2⟩ := run_quiet hist h4 h2 hq hs.1
  rw [hs.2, Nat.zero_add] at k2
  constructor
  · exact ⟨_, by simp only [step, k1, drop]; rfl⟩
  · simp only [step, k1, k2, drop]
    split
    · exact ⟨_, rfl⟩
    · exact ⟨_, rfl⟩

/-! ### Sockets of the wrong family -/

/-- C119: a query is sent over a socket of the server's family. -/
def Reachable : Prop := ∀ (inet : List Byte → List Byte) (services : List Byte) (l : List Sock) (parallel : Bool) (hist : List Ev) (m m' : Up)
    (acts : List Act), InetOk inet → Names services l → start inet services parallel = .ok m → run m hist = some (m', acts) →
    ∀ fd f s b, Act.sendto fd f s b ∈ acts → f = s.family

/-- C119: it is if all servers are of one family, or in parallel mode. -/
theorem reachable_partial (inet : List Byte → List Byte) (hi : InetOk inet) (services : List Byte) (l : List Sock) (parallel : Bool)
    (hn : Names services l) (hl : l ≠ []) (hz : (0 : Byte) ∉ services) (hs : services.length < 100000000) (hist : List Ev) (m m' : Up)
    (acts : List Act) (hst : start inet services parallel = .ok m) (hr : run m hist = some (m', acts))
    (hf : parallel = true ∨ ∃ g, ∀ s ∈ l, s.family = g) : ∀ fd f s b, Act.sendto fd f s b ∈ acts → f = s.family := by
  obtain ⟨m0, h1, h2, -, h4⟩ := start_holds inet hi services l parallel hn hl hz hs
  rw [h1] at hst
  cases hst
  have hone : ∃ g, ∀ k q, Asked l parallel k q → ∀ s ∈ q, s.family = g := by
    rcases hf with rfl | ⟨g, hg⟩
    · cases l with
      | nil => exact absurd rfl hl
      | cons t l =>
        refine ⟨t.family, fun k q hq s hs => ?_⟩
        obtain ⟨t', e, rfl⟩ := hq
        cases e
        simpa using (List.mem_filter.1 hs).2
    · refine ⟨g, fun k q hq s hs => hg s ?_⟩
      cases parallel with
      | true =>
        obtain ⟨t, -, rfl⟩ := hq
        exact (List.mem_filter.1 hs).1
      | false =>
        obtain ⟨t, e, rfl⟩ := hq
        rw [List.mem_singleton] at hs
        subst hs
        exact List.mem_of_getElem? e
  obtain ⟨g, hg⟩ := hone
  have key : ∀ (hist : List Ev) (m m' : Up) (acts : List Act) (k : Nat), Holds m l parallel k → (∀ fd f, m.sock = some (fd, f) → f = g) →
      run m hist = some (m', acts) → ∀ fd f s b, Act.sendto fd f s b ∈ acts → f = s.family := by
    intro hist
    induction hist with
    | nil => intro m m' acts k _ _ hr fd f s b hm; cases hr; cases hm
    | cons ev hist ih =>
      intro m m' acts k h hsock hr fd f s b hm
      obtain ⟨m1, a1, e1, e2, e3⟩ := step_holds h ev
      simp only [run, e1] at hr
      cases hr2 : run m1 hist with
      | none => rw [hr2] at hr; cases hr
      | some r =>
        obtain ⟨m2, a2⟩ := r
        rw [hr2] at hr
        cases hr
        have hdrop : (drop m).1.sock = none ∧ ∀ fd f s b, Act.sendto fd f s b ∉ (drop m).2 := by
          constructor
          · rw [(drop_proper m).2]
          · intro fd f s b
            unfold drop
            split <;> simp
        have hstep : (∀ fd f, m1.sock = some (fd, f) → f = g) ∧ ∀ fd f s b, Act.sendto fd f s b ∈ a1 → f = s.family := by
          cases ev with
          | make r =>
            simp only [step] at e1
            split at e1
            · cases e1; exact ⟨hsock, fun _ _ _ _ hm => by cases hm⟩
            · split at e1
              · cases e1; exact ⟨hsock, fun _ _ _ _ hm => by cases hm⟩
              · obtain ⟨q, t, q1, q2, q3⟩ := family_holds h
                rw [q3] at e1
                cases r with
                | none => cases e1; exact ⟨hsock, fun _ _ _ _ hm => by cases hm⟩
                | some fd' =>
                  cases e1
                  refine ⟨fun fd f e => ?_, fun _ _ _ _ hm => by simp at hm⟩
                  cases e
                  exact hg _ _ q1 _ q2
          | wait w =>
            simp only [step] at e1
            split at e1
            · cases e1; exact ⟨hsock, fun _ _ _ _ hm => by cases hm⟩
            · split at e1
              · simp only [Option.some.injEq] at e1
                rw [e1] at hdrop
                exact ⟨fun fd f e => (by rw [hdrop.1] at e; cases e), fun fd f s b hm => absurd hm (hdrop.2 fd f s b)⟩
              · split at e1
                · simp only [Option.some.injEq] at e1
                  rw [e1] at hdrop
                  exact ⟨fun fd f e => (by rw [hdrop.1] at e; cases e), fun fd f s b hm => absurd hm (hdrop.2 fd f s b)⟩
                · cases e1; exact ⟨hsock, fun _ _ _ _ hm => by cases hm⟩
              · split at e1
                · cases e1; exact ⟨hsock, fun _ _ _ _ hm => by cases hm⟩
                · cases e1; exact ⟨hsock, fun _ _ _ _ hm => by simp at hm⟩
          | send b =>
            obtain ⟨q, q1, q2⟩ := send_holds h b
            rw [e1] at q2
            cases q2
            refine ⟨hsock, fun fd f s b' hm => ?_⟩
            cases hso : m.sock with
            | none => rw [hso] at hm; cases hm
            | some p =>
              obtain ⟨fd', f'⟩ := p
              rw [hso] at hm
              obtain ⟨t, t1, t2⟩ := List.mem_map.1 hm
              cases t2
              rw [hsock _ _ hso, hg _ _ q1 _ t1]
          | sweep n =>
            cases n with
            | zero => cases e1; exact ⟨hsock, fun _ _ _ _ hm => by cases hm⟩
            | succ n => cases e1; exact ⟨hsock, fun _ _ _ _ hm => by cases hm⟩
          | stop =>
            simp only [step, Option.some.injEq, Prod.mk.injEq] at e1
            obtain ⟨rfl, rfl⟩ := e1
            exact ⟨fun fd f e => (by rw [show (drop m).1.sock = none from hdrop.1] at e; cases e), fun fd f s b hm => absurd hm (hdrop.2 fd f s b)⟩
        rcases List.mem_append.1 hm with hm | hm
        · exact hstep.2 fd f s b hm
        · exact ih m1 m' a2 _ e2 hstep.1 hr2 fd f s b hm
  exact key hist m m' acts 0 h4 (fun fd f e => by rw [h2] at e; cases e) hr

/-- An `inet_addr` that understands dotted decimal texts, for examples. -/
def sampleInet (t : List Byte) : List Byte :=
  match v4ToNum t with
  | .ret _ (some a) => a
  | _ => []

theorem sampleInet_ok : InetOk sampleInet := by
  intro t a ha
  cases ha with
  | @mk _ _ _ _ a b c d h1 h2 h3 h4 =>
    have la := UInt8.toNat_lt a
    have lb := UInt8.toNat_lt b
    have lc := UInt8.toNat_lt c
    have ld := UInt8.toNat_lt d
    have := v4_scan (.mk h1.1 h2.1 h3.1 h4.1) [] (by omega) (by omega) (by omega) (by omega) (by simp)
    rw [List.append_nil] at this
    rw [sampleInet, this]
    simp

/-- Two servers of different families. -/
def mixed : List Byte := str "8.8.8.8,[1::2]"
def old : Sock := ⟨.inet, some [8, 8, 8, 8], 53⟩
def new : Sock := ⟨.inet6, some [0, 1, 0, 0, 0, 0, 0, 0, 0, 0, 0, 0, 0, 0, 0, 2], 53⟩

theorem old_text : ServerText 53 (str "8.8.8.8") .inet [8, 8, 8, 8] 53 :=
  .v4 (t := str "8.8.8.8") (q := []) (.mk (s := str "8") (t := str "8") (u := str "8") (v := str "8") ⟨.one (by decide), by decide⟩
    ⟨.one (by decide), by decide⟩ ⟨.one (by decide), by decide⟩ ⟨.one (by decide), by decide⟩) .absent

theorem new_text : ServerText 53 (str "[1::2]") .inet6 [0, 1, 0, 0, 0, 0, 0, 0, 0, 0, 0, 0, 0, 0, 0, 2] 53 :=
  .v6 (t := str "1::2") (q := []) (vs := [1, 0, 0, 0, 0, 0, 0, 2])
    (.short (ts := [str "1"]) (us := [str "2"]) (vs := [1]) (ws := [2]) (k := 6) (.cons ⟨.one (by decide), by decide⟩ .nil)
      (.cons ⟨.one (by decide), by decide⟩ .nil) (by decide) (by decide))
    ⟨by decide, by decide, by decide⟩ .absent

theorem mixed_names : Names mixed [old, new] :=
  ⟨[str "8.8.8.8", str "[1::2]"], [str "8.8.8.8", str "[1::2]"],
    .cons (s := str "8.8.8.8") (x := 44) (by decide) (by decide) (.last (by decide)),
    .keep ⟨[], [], by decide, by simp [StringList.Blank], by simp [StringList.Blank], by decide, by decide⟩ (by decide)
      (.keep ⟨[], [], by decide, by simp [StringList.Blank], by simp [StringList.Blank], by decide, by decide⟩ (by decide) .nil),
    .cons old_text (.cons new_text .nil)⟩

/-- What the examples start with. -/
theorem mixed_start : ∃ m, start sampleInet mixed false = .ok m ∧ m.sock = none ∧ m.running = true ∧ Holds m [old, new] false 0 :=
  start_holds sampleInet sampleInet_ok mixed [old, new] false mixed_names (by simp) (by decide) (by decide)

/-- C119 is false of the code in this respect: after a change to a server of the other family the old socket is used. -/
theorem reachable_false : ¬ Reachable := by
  intro h
  obtain ⟨m, h1, h2, h3, h4⟩ := mixed_start
  obtain ⟨m1, a1, r1, r2, -⟩ := run_holds [.make (some 3), .sweep 1] h4
  obtain ⟨q, s, q1, q2, q3⟩ := family_holds h4
  have hs : m1.sock = some (3, .inet) ∧ losses [Ev.make (some 3), .sweep 1] = 1 := by
    obtain ⟨t, t1, rfl⟩ := q1
    cases t1
    rw [List.mem_singleton] at q2
    subst q2
    simp only [run, step, h3, h2, q3] at r1
    cases r1
    exact ⟨rfl, rfl⟩
  rw [hs.2] at r2
  obtain ⟨q', q4, q5⟩ := send_holds r2 [0]
  have hr := run_append [.make (some 3), .sweep 1] (.send [0]) r1
  rw [q5] at hr
  obtain ⟨t, t1, rfl⟩ := q4
  cases t1
  have := h sampleInet mixed [old, new] false _ m m1 _ sampleInet_ok mixed_names h1 hr 3 .inet new [0] (by
    rw [hs.1]
    simp [sends])
  cases this

/-- One minute of a group whose first server is silent: a socket is made, queries are sent and are not answered, twice, and
then nothing arrives. -/
def minute : List Ev := [.make (some 3), .send [0], .sweep 5, .send [0], .sweep 5, .wait .nothing]

def minutes : Nat → List Ev
  | 0 => []
  | n + 1 => minute ++ minutes n

theorem minute_stuck {m : Up} {j : Nat} (h : Holds m [old, new] false (2 * j)) (h2 : m.sock = none) (h3 : m.running = true) :
    ∃ m', run m minute = some (m', [.opened 3 .inet, .sendto 3 .inet old [0], .sendto 3 .inet new [0], .closed 3]) ∧
      Holds m' [old, new] false (2 * (j + 1)) ∧ m'.sock = none ∧ m'.running = true := by
  obtain ⟨m', a, r1, r2, -⟩ := run_holds minute h
  refine ⟨m', ?_⟩
  have hg : ∀ {m : Up} {k : Nat}, Holds m [old, new] false k → getOne m.list = .addr (if k % 2 = 0 then old else new) := by
    intro m k h
    obtain ⟨s, s1, s2⟩ := getOne_holds h
    rw [s1]
    have e : k % 4294967296 % [old, new].length = k % 2 := by simp only [List.length_cons, List.length_nil]; omega
    rw [e] at s2
    rcases Nat.mod_two_eq_zero_or_one k with hk | hk
    · rw [hk] at s2 ⊢; cases s2; rfl
    · rw [hk] at s2 ⊢; cases s2; rfl
  have hpar : m.par = none := h.par
  have h1 := hg h
  have hadv : Holds { m with list := advance m.list } [old, new] false (2 * j + 1) := by
    obtain ⟨m1, a1, e1, e2, -⟩ := step_holds h (.sweep 1)
    cases e1
    exact ⟨e2.servers, e2.counter, e2.some, e2.par, h.ended⟩
  have h4 := hg hadv
  rw [if_pos (by omega)] at h1
  rw [if_neg (by omega)] at h4
  have hr : run m minute = some ({ m with sock := none, timeouts := 10, list := advance (advance m.list) },
      [.opened 3 .inet, .sendto 3 .inet old [0], .sendto 3 .inet new [0], .closed 3]) := by
    have hf : old.family = .inet := rfl
    simp [minute, run, step, h2, h3, nextFamily, hpar, h1, drop, hf, h4]
  rw [hr] at r1
  cases r1
  exact ⟨hr, r2, rfl, h3⟩

/-- C119: then the second server never gets a query, however long this goes on: it is only addressed over sockets of the
other family. -/
theorem stuck (n : Nat) : ∃ m m' acts, start sampleInet mixed false = .ok m ∧ run m (minutes n) = some (m', acts) ∧
    acts.count (.sendto 3 .inet new [0]) = n ∧ ∀ fd f b, Act.sendto fd f new b ∈ acts → f = .inet := by
  obtain ⟨m, h1, h2, h3, h4⟩ := mixed_start
  refine ⟨m, ?_⟩
  have key : ∀ (n : Nat) (m : Up) (j : Nat), Holds m [old, new] false (2 * j) → m.sock = none → m.running = true →
      ∃ m' acts, run m (minutes n) = some (m', acts) ∧ acts.count (.sendto 3 .inet new [0]) = n ∧ ∀ fd f b, Act.sendto fd f new b ∈ acts → f = .inet := by
    intro n
    induction n with
    | zero => intro m j _ _ _; exact ⟨m, [], rfl, rfl, by simp⟩
    | succ n ih =>
      intro m j h h2 h3
      obtain ⟨m1, r1, r2, r3, r4⟩ := minute_stuck h h2 h3
      obtain ⟨m2, a2, k1, k2, k3⟩ := ih m1 (j + 1) r2 r3 r4
      have happ : ∀ (l1 l2 : List Ev) {m m1 m2 : Up} {a1 a2 : List Act}, run m l1 = some (m1, a1) → run m1 l2 = some (m2, a2) →
          run m (l1 ++ l2) = some (m2, a1 ++ a2) := by
        intro l1 l2
        induction l1 with
        | nil => intro m m1 m2 a1 a2 h h'; cases h; exact h'
        | cons ev l1 ih =>
          intro m m1 m2 a1 a2 h h'
          simp only [run, List.cons_append] at h ⊢
          cases hs : step m ev with
          | none => rw [hs] at h; cases h
          | some r =>
            obtain ⟨x, y⟩ := r
            rw [hs] at h
            dsimp only at h ⊢
            cases hr : run x l1 with
            | none => rw [hr] at h; cases h
            | some r =>
              obtain ⟨x', y'⟩ := r
              rw [hr] at h
              cases h
              rw [ih hr h']
              simp
      refine ⟨m2, _, happ _ _ r1 k1, ?_, ?_⟩
      · rw [List.count_append, k2]
        have : List.count (Act.sendto 3 .inet new [0]) [.opened 3 .inet, .sendto 3 .inet old [0], .sendto 3 .inet new [0], .closed 3] = 1 := by decide
        omega
      · intro fd f b hm
        rcases List.mem_append.1 hm with hm | hm
        · simp [old, new] at hm
          exact hm.2.1
        · exact k3 fd f b hm
  obtain ⟨m', acts, r1, r2, r3⟩ := key n m 0 h4 h2 h3
  exact ⟨m', acts, h1, r1, r2, r3⟩

/-! ### Failures of the system -/

/-- C119: a group that was not stopped has a socket as soon as the system gives it one. -/
def Survives : Prop := ∀ (inet : List Byte → List Byte) (services : List Byte) (l : List Sock) (parallel : Bool) (hist : List Ev) (fd : Nat) (m m' : Up)
    (acts : List Act), InetOk inet → Names services l → start inet services parallel = .ok m → Ev.stop ∉ hist →
    run m (hist ++ [.make (some fd)]) = some (m', acts) → ∃ o, Proper none acts (some o)

/-- C119 is false of the code in this respect: once the system has no socket to give, the group is at its end. -/
theorem survives_false : ¬ Survives := by
  intro h
  obtain ⟨m, h1, h2, h3, h4⟩ := mixed_start
  obtain ⟨q, s, q1, q2, q3⟩ := family_holds h4
  have hr : run m ([.make none] ++ [.make (some 3)]) = some ({ m with running := false }, []) := by
    simp [run, step, h2, h3, q3]
  obtain ⟨o, ho⟩ := h sampleInet mixed [old, new] false [.make none] 3 m _ _ sampleInet_ok mixed_names h1 (by simp) hr
  cases ho

/-- Then no query is sent any more, whatever happens. -/
theorem ended_forever (hist : List Ev) : ∀ {m : Up}, m.running = false → m.sock = none → ∃ m', run m hist = some (m', []) := by
  induction hist with
  | nil => intro m _ _; exact ⟨m, rfl⟩
  | cons ev hist ih =>
    intro m h1 h2
    have : ∃ m1, step m ev = some (m1, []) ∧ m1.running = false ∧ m1.sock = none := by
      cases ev with
      | make r => exact ⟨m, by simp [step, h1], h1, h2⟩
      | wait w => exact ⟨m, by simp [step, h2], h1, h2⟩
      | send b => exact ⟨m, by simp [step, h2], h1, h2⟩
      | sweep n =>
        cases n with
        | zero => exact ⟨m, rfl, h1, h2⟩
        | succ n => exact ⟨_, rfl, h1, h2⟩
      | stop => exact ⟨_, by simp only [step, drop, h2]; rfl, rfl, rfl⟩
    obtain ⟨m1, r1, r2, r3⟩ := this
    obtain ⟨m2, k⟩ := ih r2 r3
    exact ⟨m2, by simp [run, r1, k]⟩

/-- C119: as long as the system gives sockets when they are asked for, a group that was not stopped has one. -/
theorem survives_partial (inet : List Byte → List Byte) (hi : InetOk inet) (services : List Byte) (l : List Sock) (parallel : Bool)
    (hn : Names services l) (hl : l ≠ []) (hz : (0 : Byte) ∉ services) (hs : services.length < 100000000) (hist : List Ev) (fd : Nat)
    (h1 : Ev.stop ∉ hist) (h2 : Ev.make none ∉ hist) :
    ∃ m m' acts o, start inet services parallel = .ok m ∧ run m (hist ++ [.make (some fd)]) = some (m', acts) ∧ Proper none acts (some o) := by
  obtain ⟨m, k1, k2, k3, k4⟩ := start_holds inet hi services l parallel hn hl hz hs
  have key : ∀ (hist : List Ev) (m : Up) (k : Nat), Holds m l parallel k → m.running = true → Ev.stop ∉ hist → Ev.make none ∉ hist →
      ∃ m' acts, run m hist = some (m', acts) ∧ m'.running = true := by
    intro hist
    induction hist with
    | nil => intro m k _ h _ _; exact ⟨m, [], rfl, h⟩
    | cons ev hist ih =>
      intro m k h hr g1 g2
      obtain ⟨m1, a1, e1, e2, -⟩ := step_holds h ev
      have hr1 : m1.running = true := by
        have hd : (drop m).1.running = true := by rw [(drop_proper m).2]; exact hr
        cases ev with
        | make r =>
          cases r with
          | none => exact absurd (by simp) g2
          | some fd =>
            obtain ⟨q, s, -, -, q3⟩ := family_holds h
            simp only [step, hr, q3] at e1
            split at e1
            · rename_i hc
              cases hc
            · split at e1
              · cases e1; exact hr
              · cases e1; rfl
        | wait w =>
          simp only [step] at e1
          split at e1
          · cases e1; exact hr
          · split at e1
            · simp only [Option.some.injEq] at e1
              rw [e1] at hd; exact hd
            · split at e1
              · simp only [Option.some.injEq] at e1
                rw [e1] at hd; exact hd
              · cases e1; exact hr
            · split at e1
              · cases e1; exact hr
              · cases e1; exact hr
        | send b =>
          obtain ⟨q, -, q2⟩ := send_holds h b
          rw [e1] at q2
          cases q2
          exact hr
        | sweep n =>
          cases n with
          | zero => cases e1; exact hr
          | succ n => cases e1; exact hr
        | stop => exact absurd (by simp) g1
      obtain ⟨m2, a2, j1, j2⟩ := ih m1 _ e2 hr1 (fun h => g1 (by simp [h])) (fun h => g2 (by simp [h]))
      exact ⟨m2, a1 ++ a2, by simp only [run, e1, j1], j2⟩
  obtain ⟨m1, a1, r1, r2⟩ := key hist m 0 k4 k3 h1 h2
  obtain ⟨m1', a1', t1, t2, t3⟩ := run_holds hist k4
  rw [r1] at t1
  cases t1
  obtain ⟨m2, a2, s1, s2, s3⟩ := step_holds t2 (.make (some fd))
  have ho : ∃ o, m2.sock = some o := by
    obtain ⟨q, s, -, -, q3⟩ := family_holds t2
    simp only [step, r2, q3] at s1
    split at s1
    · rename_i hc
      cases hc
    · split at s1
      · rename_i o ho
        cases s1
        exact ⟨o, ho⟩
      · cases s1
        exact ⟨_, rfl⟩
  obtain ⟨o, ho⟩ := ho
  refine ⟨m, m2, a1 ++ a2, o, k1, ?_, ?_⟩
  · rw [run_append hist _ r1, s1]
    rfl
  · rw [← ho, ← k2]
    exact proper_append t3 s3

/-- C119: servers must be given as addresses.  If a line has none (but names, say), a group that is to ask them all is refused,
and else the code divides by zero as soon as the group makes its socket. -/
theorem name_undefined (inet : List Byte → List Byte) (hi : InetOk inet) (services : List Byte) (hn : Names services [])
    (hz : (0 : Byte) ∉ services) (hs : services.length < 100000000) :
    start inet services true = .failed ∧ ∃ m, start inet services false = .ok m ∧ ∀ r, step m (.make r) = none := by
  constructor
  · obtain ⟨b, a2, -, hb⟩ := start_eq inet hi services [] true hn hz hs
    have hg : getBySubscript b 0 = .null := by
      have := used_eq a2
      unfold getBySubscript
      have : Arr.getBySubscript b.arr 0 = none := by
        unfold Arr.getBySubscript
        simp_all
      rw [this]
    rw [hb, if_pos rfl, hg]
  · obtain ⟨b, a2, -, hb⟩ := start_eq inet hi services [] false hn hz hs
    refine ⟨_, hb, fun r => ?_⟩
    have hu : b.arr.used = 0 := used_eq a2
    have hg : getOne b = .undef := by unfold getOne; rw [if_pos hu]
    simp only [step, nextFamily, hg]
    rfl

/-- Such a line. -/
example : Names (str "dns.example") [] ∧ start sampleInet (str "dns.example") false = .ok ⟨AddressList.init, none, none, 0, true⟩ :=
  ⟨⟨[str "dns.example"], [str "dns.example"], .last (by decide),
    .keep ⟨[], [], by decide, by simp [StringList.Blank], by simp [StringList.Blank], by decide, by decide⟩ (by decide) .nil,
    .skip ⟨⟨100, str "ns.example", by decide, by decide⟩, by decide⟩ .nil⟩, by decide +kernel⟩

/-! ### Senders -/

/-- C120: only messages of the group's servers are looked at. -/
def OnlyServers : Prop := ∀ (inet : List Byte → List Byte) (services : List Byte) (l : List Sock) (parallel : Bool) (hist : List Ev) (m m1 m2 : Up)
    (acts acts2 : List Act) (sender : Sock) (b : List Byte), InetOk inet → Names services l → start inet services parallel = .ok m → run m hist = some (m1, acts) →
    step m1 (.wait (.message sender b)) = some (m2, acts2) → Act.taken b ∈ acts2 → sender ∈ l

/-- C120 is false of the code: the sender is not asked for (udpm.c 175-181). -/
theorem only_servers_false : ¬ OnlyServers := by
  intro h
  obtain ⟨m, h1, h2, h3, h4⟩ := mixed_start
  obtain ⟨q, s, q1, q2, q3⟩ := family_holds h4
  have hr : run m [.make (some 3)] = some ({ m with sock := some (3, s.family), timeouts := 0 }, [.opened 3 s.family]) := by
    simp [run, step, h2, h3, q3]
  have := h sampleInet mixed [old, new] false [.make (some 3)] m _ _ _ _ ⟨.inet, some [6, 6, 6, 6], 666⟩ [1] sampleInet_ok mixed_names h1 hr rfl (by simp)
  simp [old, new] at this

/-- C120: what is looked at was received, whole, over the open socket; and the sender makes no difference. -/
theorem taken_received (m : Up) (sender : Sock) (b c : List Byte) (m2 : Up) (acts : List Act) (h : step m (.wait (.message sender b)) = some (m2, acts)) :
    (Act.taken c ∈ acts ↔ c = b ∧ b ≠ [] ∧ ∃ o, m.sock = some o) ∧ ∀ other, step m (.wait (.message other b)) = some (m2, acts) := by
  simp only [step] at h ⊢
  cases hs : m.sock with
  | none =>
    rw [hs] at h
    cases h
    exact ⟨by simp, fun _ => rfl⟩
  | some o =>
    rw [hs] at h
    dsimp only at h ⊢
    refine ⟨?_, fun _ => h⟩
    split at h
    · rename_i hb
      cases h
      simp [hb]
    · rename_i hb
      cases h
      simp [hb]

/-- C119, C120: the hypotheses are met. -/
example : ∃ m, start sampleInet mixed true = .ok m ∧ (run m [.make (some 3), .send [1, 2], .wait (.message old [3]), .stop]).map (·.2) =
    some [.opened 3 .inet, .sendto 3 .inet old [1, 2], .taken [3], .closed 3] := by
  refine ⟨⟨⟨⟨some old :: some new :: List.replicate 6 none, 2⟩, 0⟩, some (.inet, [old]), none, 0, true⟩, by decide +kernel, by decide +kernel⟩

end Verif.UdpUp
