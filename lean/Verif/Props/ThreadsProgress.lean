import Verif.Lemmas.ThreadsProgress
import Verif.Props.Threads
/-! C113: however the threads are scheduled, well-formed traffic never leads to undefined behaviour. -/

namespace Verif.Threads
open Msg MContext Pipeline HostsLoop HostsLoop.Spec Forwarder Keeps Message Name DnsCache DnsCache.Spec Cache.Spec Hosts

variable {Addr : Type}

/-- C113, partial.  From the start of the program on, for every history of the steps of all threads, in which the messages that come in are well-formed: every step is
made – none leads to undefined behaviour or to an endless loop.  Missing (and false, `anything_false`): messages that are not well-formed. -/
theorem well_formed_processed_partial [DecidableEq Addr] {set : Settings} (ha : Area set.cfg) {ap : Bool} {s : Sys Addr} (hs : Fresh s) (hc : ∃ st0, s.st.cache = Cache.St.init set.cfg st0)
    {l : List (Env × Ev Addr)} (hl : ProperRun set ap s l) : ∃ s' acts, run s l = some (s', acts) := by
  have key : ∀ (l : List (Env × Ev Addr)) (s : Sys Addr), (∃ L, Owes s L) → SysRest set ap s → ProperRun set ap s l → ∃ s' acts, run s l = some (s', acts) := by
    intro l
    induction l with
    | nil => exact fun s _ _ _ => ⟨s, [], rfl⟩
    | cons x l ih =>
      obtain ⟨e, ev⟩ := x
      rintro s ⟨L, hi⟩ hr ⟨he, rfl, hp, hl⟩
      have hone : (∃ s1 a1, step e s ev = some (s1, a1) ∧ SysRest set e.ap s1) ∧ (∀ q, ev = .begin q → Accepted q) := by
        cases ev with
        | begin q =>
          obtain ⟨h1, h2⟩ := start_done ha he hi.1 hr hp
          exact ⟨h1, by rintro _ ⟨⟩; exact h2⟩
        | go k =>
          obtain ⟨t, task, h1, h2⟩ := hp
          exact ⟨go_done ha he hi.1 hr h1 h2, by rintro _ ⟨⟩⟩
      obtain ⟨⟨s1, a1, h1, h2⟩, h3⟩ := hone
      obtain ⟨own, L1, hi1, _⟩ := step_balance hi h3 h1
      obtain ⟨s2, a2, h4⟩ := ih s1 ⟨L1, hi1⟩ h2 (hl s1 a1 h1)
      exact ⟨s2, a1 ++ a2, by simp only [run, h1, h4]⟩
  obtain ⟨st0, hc⟩ := hc
  obtain ⟨hi, _⟩ := start_inv hs.1
  obtain ⟨⟨h1, h2, h3, h4⟩, ht⟩ := hs
  refine key l s ⟨[], hi, ht.symm, fun p hp => by cases hp⟩ ⟨⟨⟨[], [], rfl, ⟨st0, by rw [hc]; rfl⟩, by simp⟩, ?_, ?_, ?_, ?_⟩, ?_⟩ hl
  · rw [h1]; simp
  · rw [h3]; simp
  · rw [h2]; simp [waiting, Bst.State.init, Bst.Tree.toList]
  · rw [h4]; simp
  · rw [ht]; simp

/-- C113, the full claim: a thread that waits for datagrams of clients can begin with any. -/
def Anything : Prop := ∀ (e : Env) (s : Sys Nat) (sock c : Nat) (agent b : List Byte) (len : Nat) (x : Luck), Fresh s → len ≤ b.length →
  ∃ f0, ∀ fuel, f0 ≤ fuel → step e s (.begin (.udpQuery sock c agent b len { x with fuel := fuel })) ≠ none

theorem anything_false : ¬ Anything := by
  intro h
  obtain ⟨f0, hf⟩ := h exEnv ⟨exSt, []⟩ 1 8 [] [1, 2, 1, 0, 0, 1, 0, 0, 0, 0, 0, 0, 192, 12, 0, 1, 0, 1] 18 exLuck ⟨⟨rfl, rfl, rfl, rfl⟩, rfl⟩ (by decide)
  refine hf f0 (Nat.le_refl _) ?_
  simp only [step, start, self_fill]
  split <;> rfl

/-! ### a case that meets the hypotheses -/

def nextS (e : Env) (s : Sys Nat) (ev : Ev Nat) : Sys Nat := ((step e s ev).getD (s, [])).1

theorem properRun_next {set : Settings} {e : Env} {s : Sys Nat} {ev : Ev Nat} {l : List (Env × Ev Nat)} (he : SoundEnv set e) (hp : ProperEv set e s ev)
    (hl : ProperRun set e.ap (nextS e s ev) l) : ProperRun set e.ap s ((e, ev) :: l) := by
  refine ⟨he, rfl, hp, fun s' acts h => ?_⟩
  have : nextS e s ev = s' := by simp [nextS, h]
  rw [← this]; exact hl

/-- Neither the cache nor the groups are asked. -/
def plain : Option (Thread × Task Nat) → Bool
  | none | some (_, .fetch ..) | some (_, .route ..) => false
  | _ => true

theorem go_plain {set : Settings} {e : Env} {s : Sys Nat} {k : Nat} (h : plain s.tasks[k]? = true) : ProperEv set e s (.go k) := by
  show ∃ t task, s.tasks[k]? = some (t, task) ∧ Needs set e s.st task
  cases hk : s.tasks[k]? with
  | none => rw [hk] at h; cases h
  | some p =>
    obtain ⟨t, task⟩ := p
    refine ⟨t, task, rfl, ?_⟩
    rw [hk] at h
    cases task <;> first | trivial | cases h

def routing : Option (Thread × Task Nat) → Bool
  | some (_, .route ..) => true
  | _ => false

theorem go_route {set : Settings} {e : Env} {s : Sys Nat} {k : Nat} (h : routing s.tasks[k]? = true) (hm : s.st.base + e.groups.modules.length ≤ s.st.mods.length) :
    ProperEv set e s (.go k) := by
  show ∃ t task, s.tasks[k]? = some (t, task) ∧ Needs set e s.st task
  cases hk : s.tasks[k]? with
  | none => rw [hk] at h; cases h
  | some p =>
    obtain ⟨t, task⟩ := p
    refine ⟨t, task, rfl, ?_⟩
    rw [hk] at h
    cases task <;> first | exact hm | cases h

def fetching (q : List Byte) (n : Nat) (now : Int) : Option (Thread × Task Nat) → Bool
  | some (_, .fetch b m x) => decide (b.length = q.length + n) && decide (m.entity = q) && decide (x.now = now)
  | _ => false

theorem go_fetch {set : Settings} {e : Env} {s : Sys Nat} {k n : Nat} {now : Int} {q : Message.Msg} {y : Question} {ls : List (List Byte)} (hq : AsksAll q y ls)
    (h : fetching q.bytes n now s.tasks[k]? = true) (hf : Fits set.cfg s.st.cache now ls y.type q.bytes.length n) :
    ProperEv set e s (.go k) := by
  show ∃ t task, s.tasks[k]? = some (t, task) ∧ Needs set e s.st task
  cases hk : s.tasks[k]? with
  | none => rw [hk] at h; cases h
  | some p =>
    obtain ⟨t, task⟩ := p
    refine ⟨t, task, rfl, ?_⟩
    rw [hk] at h
    cases task with
    | fetch b m x =>
      simp only [fetching, Bool.and_eq_true, decide_eq_true_eq] at h
      obtain ⟨⟨h1, h2⟩, h3⟩ := h
      intro q' y' ls' post' hq' hb hm _ _
      have hbb := hm.symm.trans h2
      obtain ⟨rfl, ht⟩ := asks_one hq' hq hbb
      have hl : post'.length = n := by
        rw [hb, hbb, List.length_append] at h1; omega
      rw [ht, hbb, hl, h3]
      exact hf
    | _ => cases h

theorem idle_of {s : Sys Nat} {t : Thread} (h : s.tasks.all (fun p => decide (p.1 ≠ t)) = true) : Idle s t :=
  fun p hp => by simpa using List.all_eq_true.1 h p hp

def tpAsk (sock : Nat) (q : List Byte) : Forwarder.Ev Nat := .tcpQuery sock [] (q ++ List.replicate 500 0) q.length pgLuck

def tpQuery : Message.Msg := ⟨[3, 4, 1, 0], [⟨wire ms, 1, 1⟩], [], [], []⟩

theorem tpQuery_asks : Hosts.Asks tpQuery ⟨wire ms, 1, 1⟩ ms := ⟨plainValid _ _ _ _ [] msName (by decide) (by simp), rfl, rfl, rfl, alNames.2, rfl⟩

/-- Client 8 asks over UDP for an alias; meanwhile connection 5 asks for the target of the alias.  The steps of both threads and of the alias worker alternate. -/
example : ∃ s' acts, run (⟨exSt, []⟩ : Sys Nat) ([.begin both, .begin (pgAsk 8 alQuery.bytes), .go 0, .begin (tpAsk 5 tpQuery.bytes), .go 1, .go 0, .go 1, .go 0, .begin pgTake, .go 1, .go 0, .go 0,
    .go 1, .go 0].map fun ev => (pgEnv, ev)) = some (s', acts) := by
  have hs := pgEnv_sound
  refine well_formed_processed_partial (set := DnsCache.exS) (ap := pgEnv.ap) Cache.demo_area ⟨⟨rfl, rfl, rfl, rfl⟩, rfl⟩ ⟨_, rfl⟩ ?_
  refine properRun_next hs trivial (properRun_next hs ?_ (properRun_next hs (go_plain (by decide +kernel)) (properRun_next hs ?_ (properRun_next hs (go_plain (by decide +kernel))
    (properRun_next hs (go_plain (by decide +kernel)) (properRun_next hs (go_plain (by decide +kernel)) (properRun_next hs (go_plain (by decide +kernel)) (properRun_next hs ?_
    (properRun_next hs (go_plain (by decide +kernel)) (properRun_next hs (go_fetch (asksAll_one tpQuery_asks) (n := 500) (now := 1000) (by decide +kernel) ?_) (properRun_next hs (go_route (by decide +kernel) (by decide +kernel))
    (properRun_next hs (go_plain (by decide +kernel)) (properRun_next hs (go_plain (by decide +kernel)) trivial)))))))))))))
  · refine ⟨idle_of (by decide +kernel), alQuery, ⟨wire org, 1, 1⟩, org, List.replicate 500 0, asksAll_one ⟨alQuery_ok.valid, rfl, rfl, rfl, alNames.1, rfl⟩, rfl, rfl, by decide +kernel, ?_, ?_, by simp [pgEnv, exEnv]⟩
    · rw [List.length_replicate]; decide +kernel
    · rw [List.length_replicate]; decide
  · refine ⟨idle_of (by decide +kernel), tpQuery, ⟨wire ms, 1, 1⟩, ms, List.replicate 500 0, asksAll_one tpQuery_asks, rfl, rfl, by decide +kernel, ?_, ?_, by simp [pgEnv, exEnv]⟩
    · rw [List.length_replicate]; decide +kernel
    · rw [List.length_replicate]; decide
  · exact ⟨idle_of (by decide +kernel), by decide +kernel, by decide, by decide, by decide⟩
  · exact fits_here (by decide +kernel) (vs := []) (by decide +kernel) (nothing_fits (by decide +kernel))

/-- A message with two questions, whose name the hosts data know. -/
example : ∃ s' acts, run (⟨exSt, []⟩ : Sys Nat) ([.begin both, .begin (pgAsk 8 pgTwo.bytes), .go 0, .go 0, .go 0].map fun ev => (pgEnv, ev)) = some (s', acts) := by
  have hs := pgEnv_sound
  refine well_formed_processed_partial (set := DnsCache.exS) (ap := pgEnv.ap) Cache.demo_area ⟨⟨rfl, rfl, rfl, rfl⟩, rfl⟩ ⟨_, rfl⟩ ?_
  refine properRun_next hs trivial (properRun_next hs ?_ (properRun_next hs (go_plain (by decide +kernel)) (properRun_next hs (go_plain (by decide +kernel))
    (properRun_next hs (go_plain (by decide +kernel)) trivial))))
  refine ⟨idle_of (by decide +kernel), pgTwo, _, ms, List.replicate 500 0, pgTwo_asks, rfl, rfl, by decide +kernel, ?_, ?_, by simp [pgEnv, exEnv]⟩
  · rw [List.length_replicate]; decide +kernel
  · rw [List.length_replicate]; decide

end Verif.Threads
