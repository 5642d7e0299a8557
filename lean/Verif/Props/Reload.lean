import Verif.Lemmas.Reload
/-! C41: lookups while data is reloaded. -/

namespace Verif.Reload
variable {α : Type}

/-- The full claim: however lookups and reloads of any number of threads are interleaved, every lookup sees one complete version that was current
while it ran. -/
def ReloadAtomic : Prop :=
  ∀ (m : Mode) (first : Option (List Nat)), (m.test = true ∨ first ≠ none) → ∀ sched : List (Nat × Act Nat), (∀ x ∈ sched, Allowed m x.2) →
    ∃ s, run m (init m first) sched = some s ∧ ∀ l ∈ s.log, l.Atomic s.pubs

/-- However lookups and reloads of any number of threads are interleaved, no freed memory is used, and every lookup
sees one complete version that was current while it ran; every version there was is all the lines one reload was
to load.  `m` is any of the kinds of data but the filter and either kind of lock.  The data that is not tested for
being there (server groups) must have been loaded once.  Left out (see `Allowed`) are failing loads of server groups
and servers that can get no socket: for these it is false, below. -/
theorem reload_atomic_partial (m : Mode) (first : Option (List α)) (hf : m.test = true ∨ first ≠ none) (hm : m.nulls = false)
    (sched : List (Nat × Act α)) (ha : ∀ x ∈ sched, Allowed m x.2) :
    ∃ s, run m (init m first) sched = some s ∧ (∀ l ∈ s.log, l.Atomic s.pubs) ∧ ∀ v ∈ s.pubs, v ∈ s.wanted := by
  obtain ⟨s, hs, hi, _⟩ := run_ok sched (inv_init hf) bare_init ha
  refine ⟨s, hs, fun l hl => ⟨(hi.log l hl).1, fun h => ?_⟩, hi.pubs⟩
  obtain ⟨h1, h2⟩ := (hi.log l hl).2 h
  exact ⟨h2.resolve_right (by simp [hm]), h1⟩

/-- The same for all kinds of data, the filter too, but for a lookup that finds nothing to look into: of the filter this may happen during a reload. -/
theorem reload_filter_partial (m : Mode) (first : Option (List α)) (hf : m.test = true ∨ first ≠ none)
    (sched : List (Nat × Act α)) (ha : ∀ x ∈ sched, Allowed m x.2) :
    ∃ s, run m (init m first) sched = some s ∧ (∀ l ∈ s.log, l.OneVersion s.pubs ∧ (l.absent = true → l.seen = [])) ∧ ∀ v ∈ s.pubs, v ∈ s.wanted := by
  obtain ⟨s, hs, hi, _⟩ := run_ok sched (inv_init hf) bare_init ha
  exact ⟨s, hs, fun l hl => ⟨(hi.log l hl).1, fun h => ((hi.log l hl).2 h).1⟩, hi.pubs⟩

def rwHosts : Mode := ⟨true, true, false, false⟩
def rwFilter : Mode := ⟨true, true, false, true⟩
def rwModules : Mode := ⟨true, false, true, false⟩

/-- While the filter is reloaded a query is let through although its name is in the list before and after: the pointer is looked at between the
end of the old list and the beginning of the new one. -/
theorem filter_gap : (run rwFilter (init rwFilter (some [5])) [(1, .start [5]), (1, .add), (1, .wrlock), (1, .drop), (2, .test), (1, .assign)]).map
    (fun s => (s.log, s.pubs)) = some ([⟨1, 1, [], true⟩], [[5], [5]]) := rfl

theorem reloadAtomic_false : ¬ ReloadAtomic := by
  intro h
  obtain ⟨s, hs, hl⟩ := h rwFilter (some [5]) (Or.inl rfl) [(1, .start [5]), (1, .add), (1, .wrlock), (1, .drop), (2, .test), (1, .assign)] (by simp [Allowed, rwFilter])
  have hg := filter_gap
  rw [hs] at hg
  simp only [Option.map_some, Option.some.injEq, Prod.mk.injEq] at hg
  rw [hg.1, hg.2] at hl
  exact absurd ((hl _ (List.mem_singleton.2 rfl)).2 rfl).1 (by decide)

/-- Two lookups around a reload: the first keeps the old version, the second (started after) has the new one. -/
def demo : List (Nat × Act Nat) :=
  [(1, .test), (1, .rdlock), (1, .load), (2, .start [7, 8]), (1, .access), (2, .add), (2, .add), (2, .wrlock), (1, .access),
   (1, .unlock), (2, .wrlock), (3, .test), (3, .rdlock), (2, .drop), (2, .assign), (2, .wunlock), (3, .rdlock), (3, .load), (3, .access), (3, .unlock)]

example : (∀ x ∈ demo, Allowed rwHosts x.2) ∧ (run rwHosts (init rwHosts (some [5])) demo).map (fun s => (s.log, s.pubs)) =
    some ([⟨1, 1, [[5], [5]], false⟩, ⟨1, 2, [[7, 8]], false⟩], [[5], [7, 8]]) := by
  constructor
  · simp [demo, Allowed]
  · rfl

/-- After a reload a lookup sees what was loaded, or what was loaded even later. -/
theorem fresh_partial (m : Mode) (first : Option (List α)) (hf : m.test = true ∨ first ≠ none)
    (sched : List (Nat × Act α)) (ha : ∀ x ∈ sched, Allowed m x.2) {s} (hs : run m (init m first) sched = some s)
    {l : Lookup α} (hl : l ∈ s.log) {x} (hx : x ∈ l.seen) : x ∈ s.pubs.drop (l.start - 1) := by
  obtain ⟨s', hs', hlog, _⟩ := reload_filter_partial m first hf sched ha
  rw [hs] at hs'
  cases hs'
  obtain ⟨k, v, h1, h2, h3, h4, h5⟩ := (hlog l hl).1.2.2 (List.ne_nil_of_mem hx)
  rw [h5 x hx]
  apply List.mem_of_getElem? (i := (k - 1) - (l.start - 1))
  rw [List.getElem?_drop, ← h4]
  congr 1
  omega

/-- Nobody waits in vain: whoever waits for the lock can have it, or another thread has it that can go on to its release. -/
theorem lock_free_partial (m : Mode) (first : Option (List α)) (hf : m.test = true ∨ first ≠ none)
    (sched : List (Nat × Act α)) (ha : ∀ x ∈ sched, Allowed m x.2) {s} (hs : run m (init m first) sched = some s) (t : Nat) :
    (∀ n, s.pc t = .tested n → (step m s t .rdlock).isSome ∨ ∃ t', t' ≠ t ∧
      ((step m s t' .unlock).isSome ∨ (step m s t' .drop).isSome ∨ (step m s t' .assign).isSome ∨ (step m s t' .wunlock).isSome)) ∧
    (∀ r, s.pc t = .building r [] → (step m s t .wrlock).isSome ∨ ∃ t', t' ≠ t ∧
      ((step m s t' .unlock).isSome ∨ (step m s t' .drop).isSome ∨ (step m s t' .assign).isSome ∨ (step m s t' .wunlock).isSome)) := by
  obtain ⟨s', hs', hi, hb⟩ := run_ok sched (inv_init hf) bare_init ha
  rw [hs] at hs'
  cases hs'
  have hold : ∀ t', s.writer = some t' →
      ((step m s t' .unlock).isSome ∨ (step m s t' .drop).isSome ∨ (step m s t' .assign).isSome ∨ (step m s t' .wunlock).isSome) := by
    intro t' hw
    have := (hi.writer t').2 hw
    cases hp : s.pc t' with
    | writing r =>
      refine Or.inr (Or.inl ?_)
      simp only [step, hp]
      repeat' split
      all_goals rfl
    | replacing r => exact Or.inr (Or.inr (Or.inl (by simp [step, hp])))
    | replaced => exact Or.inr (Or.inr (Or.inr (by simp [step, hp])))
    | _ => simp [hp, PC.writes] at this
  have hread : ∀ t', t' ∈ s.readers → (step m s t' .unlock).isSome := by
    intro t' hr
    have := (hi.readers t').2 hr
    cases hp : s.pc t' with
    | reading n p seen => simp [step, hp]
    | _ => simp [hp, PC.reads] at this
  constructor
  · intro n hp
    have hnr : t ∉ s.readers := by
      intro hr; have := (hi.readers t).2 hr; simp [hp, PC.reads] at this
    cases hw : s.writer with
    | some t' =>
      refine Or.inr ⟨t', ?_, hold t' hw⟩
      rintro rfl
      have := (hi.writer t').2 hw
      simp [hp, PC.writes] at this
    | none =>
      cases hr : s.readers with
      | nil => left; simp [step, hp, hw, hr]
      | cons t' ts =>
        refine Or.inr ⟨t', ?_, Or.inl (hread t' (by simp [hr]))⟩
        rintro rfl
        exact hnr (by simp [hr])
  · intro r hp
    have hnr : t ∉ s.readers := by
      intro hr; have := (hi.readers t).2 hr; simp [hp, PC.reads] at this
    cases hw : s.writer with
    | some t' =>
      refine Or.inr ⟨t', ?_, hold t' hw⟩
      rintro rfl
      have := (hi.writer t').2 hw
      simp [hp, PC.writes] at this
    | none =>
      cases hr : s.readers with
      | nil => left; simp [step, hp, hw, hr]
      | cons t' ts =>
        refine Or.inr ⟨t', ?_, Or.inl (hread t' (by simp [hr]))⟩
        rintro rfl
        exact hnr (by simp [hr])

/-- Without the two exceptions: memory that was freed is never used. -/
def AlwaysSafe : Prop :=
  ∀ (m : Mode) (first : Option (List Nat)), (m.test = true ∨ first ≠ none) → ∀ sched : List (Nat × Act Nat), run m (init m first) sched ≠ none

/-- A reload of server groups that fails part-way (a bad second group file) frees groups whose threads are
running (mmgr.c 727-730): the next thing such a thread does is on freed memory. -/
theorem failed_reload_unsafe :
    run rwModules (init rwModules (some [1])) [(1, .start [2, 3]), (1, .add), (1, .fail), (2, .workUse 1)] = none := rfl

/-- A server thread that can get no socket ends (udpm.c 97-106), its sweep thread ends too and frees the pending
queries, but the group stays in use: the next query that is sent to it is on freed memory. -/
theorem no_socket_unsafe :
    run rwModules (init rwModules (some [1]))
      [(8, .fatal 0), (9, .sweepEnd 0), (1, .test), (1, .rdlock), (1, .load), (1, .access), (1, .send)] = none := rfl

theorem always_safe_false : ¬ AlwaysSafe := fun h => h rwModules (some [1]) (Or.inr (by simp)) _ failed_reload_unsafe

/-- An old map of server groups is freed at last, after its threads ended. -/
example : (run rwModules (init rwModules (some [1]))
    [(1, .start [2]), (1, .add), (1, .wrlock), (1, .drop), (1, .assign), (1, .wunlock), (5, .free 0), (5, .stop 0), (9, .sweepEnd 0),
     (8, .workUse 0), (8, .workEnd 0), (9, .sweepEnd 0), (5, .free 0)]).map (fun s => ((s.heap 0).map (·.live), s.cur)) = some (some false, some 1) := rfl

end Verif.Reload
