import Verif.Lemmas.Locks

/-! C114 and C115: threads that wait for one another never block the program, and what the locks guard is never touched by two threads at once. -/

namespace Verif.Locks

theorem todo_of {s : Sys} {i : Nat} {t : Thread} {a : Act} (hi : s.threads[i]? = some t) (h : s.about i a) : ∃ r, t.todo = .act a :: r := by
  obtain ⟨u, r, hu, hr⟩ := h
  rw [hi] at hu
  cases hu
  exact ⟨r, hr⟩

/-- A thread that is about to take a lock holds none that comes after it. -/
theorem acq_rank {s : Sys} (h : Inv s) {i : Nat} {l l' : Lock} {m m' : Mode} (ha : s.about i (.acq l m)) (hh : s.holds i l' m') : rank l' < rank l := by
  obtain ⟨t, ht, hm⟩ := hh
  obtain ⟨r, hr⟩ := todo_of ht ha
  obtain ⟨sw, ow, hk, _⟩ := h.each i t ht
  rw [hr] at hk
  obtain ⟨_, _, _, hc, _⟩ := hk.uncons
  dsimp only at hc
  generalize t.held = hd at hc hm
  cases hc with
  | acq hlt => exact hlt _ hm

/-- A thread that is not about to take a lock that somebody holds, and that has not ended, can go on. -/
theorem can_go {s : Sys} (h : Inv s) {i : Nat} {t : Thread} (hi : s.threads[i]? = some t) (hne : t.todo ≠ []) (hw : ¬ ∃ j, s.waitsFor i j) : s.canGo i := by
  obtain ⟨sw, ow, hk, hs, _⟩ := h.each i t hi
  obtain ⟨kind, todo, held⟩ := t
  dsimp only at hne hk hs
  have key : ∃ x, move s ⟨kind, todo, held⟩ 0 = some x := by
    cases todo with
    | nil => exact absurd rfl hne
    | cons c r =>
      obtain ⟨_, _, _, hc, _⟩ := hk.uncons
      dsimp only at hc
      unfold move
      cases hc with
      | @acq _ _ _ l m hlt =>
        dsimp only
        have hfree : s.free l m = true := by
          cases hf : s.free l m with
          | true => rfl
          | false =>
            refine absurd ?_ hw
            have : ∃ m', s.held l m' = true := by
              cases m with
              | rd => exact ⟨.wr, by simpa [Sys.free] using hf⟩
              | wr =>
                cases hwr : s.held l .wr with
                | true => exact ⟨.wr, hwr⟩
                | false => exact ⟨.rd, by simpa [Sys.free, hwr] using hf⟩
            obtain ⟨m', hm'⟩ := this
            obtain ⟨j, u, hu, hmem⟩ := held_of hm'
            exact ⟨j, l, m, m', ⟨_, r, hi, rfl⟩, ⟨u, hu, hmem⟩⟩
        rw [if_pos hfree]
        exact ⟨_, rfl⟩
      | @rel hh _ l m =>
        dsimp only
        rw [if_pos (by simp)]
        exact ⟨_, rfl⟩
      | _ => exact ⟨_, rfl⟩
  obtain ⟨⟨t', f⟩, hx⟩ := key
  exact ⟨0, ⟨s.threads.set i t', f⟩, by simp only [step, hi, hx]⟩

/-- A thread that holds a lock has not ended and does not wait for a message, for the clock or for a download. -/
theorem holder {s : Sys} (h : Inv s) {i : Nat} {l : Lock} {m : Mode} (hh : s.holds i l m) :
    (∃ t, s.threads[i]? = some t ∧ t.todo ≠ []) ∧ ¬ s.about i .wait := by
  obtain ⟨t, ht, hm⟩ := hh
  obtain ⟨sw, ow, hk, _⟩ := h.each i t ht
  constructor
  · refine ⟨t, ht, fun e => ?_⟩
    rw [e] at hk
    have := hk.ended.1
    dsimp only at this
    rw [this] at hm
    simp at hm
  · intro ha
    obtain ⟨r, hr⟩ := todo_of ht ha
    rw [hr] at hk
    obtain ⟨_, _, _, hc, _⟩ := hk.uncons
    generalize t.held = hd at hc hm
    cases hc
    simp at hm

/-- C114: a thread that waits for a lock waits, at the end of the chain, for a thread that can go on: one that does not wait for a lock itself, and that does not
wait for a message, for the clock or for a download either. -/
theorem waits_end {s : Sys} (hr : Reachable s) {i j : Nat} (h : s.waitsFor i j) :
    ∃ k, s.behind i k ∧ s.canGo k ∧ (¬ ∃ j, s.waitsFor k j) ∧ ¬ s.about k .wait := by
  have hi := inv_reachable hr
  have key : ∀ n i j l m m', 4 - rank l ≤ n → s.about i (.acq l m) → s.holds j l m' →
      ∃ k, s.behind i k ∧ s.canGo k ∧ (¬ ∃ j, s.waitsFor k j) ∧ ¬ s.about k .wait := by
    intro n
    induction n with
    | zero => intro i j l m m' hn; cases l <;> simp [rank] at hn
    | succ n ih =>
      intro i j l m m' hn ha hh
      have hij : s.waitsFor i j := ⟨l, m, m', ha, hh⟩
      by_cases hw : ∃ k, s.waitsFor j k
      · obtain ⟨k, l2, m2, m2', ha2, hh2⟩ := hw
        have hlt := acq_rank hi ha2 hh
        obtain ⟨x, hx, rest⟩ := ih j k l2 m2 m2' (by omega) ha2 hh2
        exact ⟨x, .more hij hx, rest⟩
      · obtain ⟨⟨t, ht, hne⟩, hnw⟩ := holder hi hh
        exact ⟨j, .one hij, can_go hi ht hne hw, hw, hnw⟩
  obtain ⟨l, m, m', ha, hh⟩ := h
  exact key 4 i j l m m' (by omega) ha hh

/-- C114: no thread waits for itself, neither directly nor through others. -/
theorem no_circle {s : Sys} (hr : Reachable s) (i : Nat) : ¬ s.behind i i := by
  have hi := inv_reachable hr
  -- along a chain the locks that are waited for come later and later
  have key : ∀ i k, s.behind i k → ∀ l m, s.about i (.acq l m) → ∃ l' m', s.holds k l' m' ∧ rank l ≤ rank l' := by
    intro i k h
    induction h with
    | @one i j h =>
      intro l m ha
      obtain ⟨l', m', m'', ha', hh⟩ := h
      obtain ⟨t, r, ht, hr⟩ := ha
      obtain ⟨r', hr'⟩ := todo_of ht ha'
      rw [hr] at hr'
      cases hr'
      exact ⟨_, _, hh, Nat.le_refl _⟩
    | @more i j k h hb ih =>
      intro l m ha
      obtain ⟨l', m', m'', ha', hh⟩ := h
      obtain ⟨t, r, ht, hr⟩ := ha
      obtain ⟨r', hr'⟩ := todo_of ht ha'
      rw [hr] at hr'
      cases hr'
      have : ∃ l2 m2, s.about j (.acq l2 m2) := by
        cases hb with
        | one h => obtain ⟨a, b, _, c, _⟩ := h; exact ⟨a, b, c⟩
        | more h _ => obtain ⟨a, b, _, c, _⟩ := h; exact ⟨a, b, c⟩
      obtain ⟨l2, m2, ha2⟩ := this
      have hlt := acq_rank hi ha2 hh
      obtain ⟨l3, m3, hh3, hle⟩ := ih l2 m2 ha2
      exact ⟨l3, m3, hh3, by omega⟩
  intro h
  have : ∃ l m, s.about i (.acq l m) := by
    cases h with
    | one h => obtain ⟨a, b, _, c, _⟩ := h; exact ⟨a, b, c⟩
    | more h _ => obtain ⟨a, b, _, c, _⟩ := h; exact ⟨a, b, c⟩
  obtain ⟨l, m, ha⟩ := this
  obtain ⟨l', m', hh, hle⟩ := key i i h l m ha
  have := acq_rank hi ha hh
  omega

/-- C114: a thread that has ended, and one that waits for a message, for the clock or for a download, holds no lock. -/
theorem idle_holds_nothing {s : Sys} (hr : Reachable s) {i : Nat} {t : Thread} (ht : s.threads[i]? = some t) (h : t.todo = [] ∨ s.about i .wait) : t.held = [] := by
  have hi := inv_reachable hr
  cases hh : t.held with
  | nil => rfl
  | cons p r =>
    obtain ⟨⟨u, hu, hne⟩, hnw⟩ := holder hi (i := i) (l := p.1) (m := p.2) ⟨t, ht, by rw [hh]; exact List.mem_cons_self ..⟩
    rw [ht] at hu
    cases hu
    rcases h with h | h
    · exact absurd h hne
    · exact absurd h hnw

/-- The full claim about replies: no thread holds a lock while it sends a reply to a client (the client may use TCP and not read, and then others wait for the
client). -/
def RepliesOutside : Prop := ∀ s, Reachable s → ∀ i, s.about i .reply → ∀ l m, ¬ s.holds i l m

/-- the steps of the thread number `i` that take these ways -/
def steps (i : Nat) (ns : List Nat) : List Ev := ns.map (.go i)

/-- until the frontend sends a reply from the hosts data that can be reloaded -/
def toHostsReply : List Nat :=
  [0, 1, 0, 0, 0, 0, 0, 1, 0, 0, 0, 0, 0, 0, 1, 0, 0, 0, 0, 0, 0, 0, 0, 0, 0, 1, 0, 0, 1, 0, 0, 0, 0, 0, 0, 0, 0, 0, 0, 1]

def isAbout (s : Sys) (i : Nat) (a : Act) : Bool :=
  match s.threads[i]? with
  | some t => match t.todo with
    | .act b :: _ => a == b
    | _ => false
  | none => false

def isHolding (s : Sys) (i : Nat) (l : Lock) (m : Mode) : Bool :=
  match s.threads[i]? with
  | some t => t.held.contains (l, m)
  | none => false

theorem about_of {s : Sys} {i : Nat} {a : Act} (h : isAbout s i a = true) : s.about i a := by
  unfold isAbout at h
  split at h
  · rename_i t ht
    split at h
    · rename_i b r hb
      exact ⟨t, r, ht, by rw [hb, eq_of_beq h]⟩
    · cases h
  · cases h

theorem holds_of {s : Sys} {i : Nat} {l : Lock} {m : Mode} (h : isHolding s i l m = true) : s.holds i l m := by
  unfold isHolding at h
  split at h
  · rename_i t ht
    exact ⟨t, ht, by simpa using h⟩
  · cases h

/-- A state after these steps, if it is as it should be. -/
theorem reaches (es : List Ev) (p : Sys → Bool) (h : (match run Sys.init es with | some s => p s | none => false) = true) : ∃ s, Reachable s ∧ p s = true := by
  split at h
  · rename_i s hs
    exact ⟨s, ⟨es, hs⟩, h⟩
  · cases h

theorem repliesOutside_false : ¬ RepliesOutside := by
  intro h
  obtain ⟨s, hs, hp⟩ := reaches (.spawn .frontend :: steps 0 toHostsReply) (fun s => isAbout s 0 .reply && isHolding s 0 .hosts .rd) (by decide +kernel)
  rw [Bool.and_eq_true] at hp
  exact h s hs 0 (about_of hp.1) _ _ (holds_of hp.2)

/-- The only lock that is held while a reply is sent is the one of the hosts data, held for reading. -/
theorem replies_outside_partial {s : Sys} (hr : Reachable s) {i : Nat} (ha : s.about i .reply) {l : Lock} {m : Mode} (hh : s.holds i l m) : l = .hosts ∧ m = .rd := by
  obtain ⟨t, ht, hm⟩ := hh
  obtain ⟨r, hr'⟩ := todo_of ht ha
  obtain ⟨sw, ow, hk, _⟩ := (inv_reachable hr).each i t ht
  rw [hr'] at hk
  obtain ⟨_, _, _, hc, _⟩ := hk.uncons
  dsimp only at hc
  generalize t.held = hd at hc hm
  cases hc with
  | reply h =>
    have := h _ hm
    injection this with e1 e2
    exact ⟨e1, e2⟩

/-! C115 -/

/-- What a thread may touch, from what it is about to do. -/
theorem may {s : Sys} (h : Inv s) {i : Nat} {t : Thread} (ht : s.threads[i]? = some t) :
    ∃ sw ow, (sw = true → s.skipping = false) ∧ (ow = true → s.skipping = true) ∧
      (∀ v, s.about i (.read v) → MayRead t.kind ⟨t.held, sw, ow⟩ v) ∧ (∀ v, s.about i (.write v) → MayWrite t.kind ⟨t.held, sw, ow⟩ v) := by
  obtain ⟨sw, ow, hk, _, hw, ho⟩ := h.each i t ht
  cases htd : t.todo with
  | nil =>
    refine ⟨sw, ow, fun e => (hw e).1, fun e => (ho e).1, fun v ha => ?_, fun v ha => ?_⟩ <;>
    · obtain ⟨r, hr⟩ := todo_of ht ha
      rw [htd] at hr
      cases hr
  | cons c r =>
    rw [htd] at hk
    obtain ⟨sw', b, hle, hc, _⟩ := hk.uncons
    refine ⟨sw', ow, fun e => (hw (hle e)).1, fun e => (ho e).1, fun v ha => ?_, fun v ha => ?_⟩ <;>
    · obtain ⟨r', hr⟩ := todo_of ht ha
      rw [htd] at hr
      cases hr
      dsimp only at hc
      generalize t.held = hd at hc ⊢
      cases hc
      assumption

/-- The full claim: two threads never touch the same thing at once if one of them writes to it. -/
def RaceFree : Prop := ∀ s, Reachable s → ∀ i j v, ¬ s.race i j v

/-- C115: what the locks guard is never touched by two threads at once if one of them writes to it. -/
theorem race_free_partial {s : Sys} (hr : Reachable s) {i j : Nat} {v : Var} (hv : Guarded v) : ¬ s.race i j v := by
  rintro ⟨hij, hi, hj⟩
  have hinv := inv_reachable hr
  obtain ⟨t, _, ht, _⟩ := id hi
  have : ∃ u, s.threads[j]? = some u := by
    rcases hj with hj | hj <;> obtain ⟨u, _, hu, _⟩ := hj <;> exact ⟨u, hu⟩
  obtain ⟨u, hu⟩ := this
  obtain ⟨s1, o1, a1, a2, _, a4⟩ := may hinv ht
  obtain ⟨s2, o2, b1, b2, b3, b4⟩ := may hinv hu
  have ex : ∀ l m, (l, Mode.wr) ∈ t.held → (l, m) ∉ u.held := fun l m h => hinv.alone i j t u l m hij ht hu h
  have w := a4 v hi
  cases v with
  | filterPtr | hostsPtr | ipPtr | cacheData | sock | goodIps => exact hv
  | stats =>
    rcases hj with hj | hj
    · rcases b3 _ hj with r | r
      · exact ex _ _ w.2 r.2
      · have e1 := a1 w.1
        have e2 := b2 r
        rw [e1] at e2
        cases e2
    · exact ex _ _ w.2 (b4 _ hj).2
  | _ =>
    rcases hj with hj | hj
    · obtain ⟨m, r⟩ := b3 _ hj
      exact ex _ _ w r
    · exact ex _ _ w (b4 _ hj)

/-- C115: the cache is touched by two threads at once only when the thread that removes old records looks for one that has run out. -/
theorem cache_race_partial {s : Sys} (hr : Reachable s) {i j : Nat} (h : s.race i j .cacheData) :
    s.about j (.read .cacheData) ∧ ∃ u, s.threads[j]? = some u ∧ u.kind = .timer := by
  obtain ⟨hij, hi, hj⟩ := h
  have hinv := inv_reachable hr
  obtain ⟨t, _, ht, _⟩ := id hi
  have : ∃ u, s.threads[j]? = some u := by
    rcases hj with hj | hj <;> obtain ⟨u, _, hu, _⟩ := hj <;> exact ⟨u, hu⟩
  obtain ⟨u, hu⟩ := this
  obtain ⟨s1, o1, _, _, _, a4⟩ := may hinv ht
  obtain ⟨s2, o2, _, _, b3, b4⟩ := may hinv hu
  have w := a4 _ hi
  have ex : ∀ m, (Lock.cache, m) ∉ u.held := fun m => hinv.alone i j t u _ m hij ht hu w
  rcases hj with hj | hj
  · rcases b3 _ hj with r | ⟨m, r⟩
    · exact ⟨hj, u, hu, r⟩
    · exact absurd r (ex m)
  · exact absurd (b4 _ hj) (ex _)

/-- C115: of the pointers to the filter, to the hosts data and to the addresses only the look before the lock is taken can meet a change. -/
theorem pointer_race_partial {s : Sys} (hr : Reachable s) {i j : Nat} {v : Var} {l : Lock}
    (hv : (v = .filterPtr ∧ l = .filter) ∨ (v = .hostsPtr ∧ l = .hosts) ∨ (v = .ipPtr ∧ l = .ipmisc)) (h : s.race i j v) :
    s.about j (.read v) ∧ ∀ m, ¬ s.holds j l m := by
  obtain ⟨hij, hi, hj⟩ := h
  have hinv := inv_reachable hr
  obtain ⟨t, _, ht, _⟩ := id hi
  have : ∃ u, s.threads[j]? = some u := by
    rcases hj with hj | hj <;> obtain ⟨u, _, hu, _⟩ := hj <;> exact ⟨u, hu⟩
  obtain ⟨u, hu⟩ := this
  obtain ⟨s1, o1, _, _, _, a4⟩ := may hinv ht
  obtain ⟨s2, o2, _, _, b3, b4⟩ := may hinv hu
  have w : (l, Mode.wr) ∈ t.held := by
    have := a4 _ hi
    rcases hv with ⟨rfl, rfl⟩ | ⟨rfl, rfl⟩ | ⟨rfl, rfl⟩ <;> exact this
  have ex : ∀ m, (l, m) ∉ u.held := fun m => hinv.alone i j t u _ m hij ht hu w
  refine ⟨?_, ?_⟩
  · rcases hj with hj | hj
    · exact hj
    · have : (l, Mode.wr) ∈ u.held := by
        have := b4 _ hj
        rcases hv with ⟨rfl, rfl⟩ | ⟨rfl, rfl⟩ | ⟨rfl, rfl⟩ <;> exact this
      exact absurd this (ex _)
  · rintro m ⟨u', hu', hm⟩
    rw [hu] at hu'
    cases hu'
    exact ex m hm

/-- until the frontend uses the socket of UDP group 0 -/
def toSock : List Nat :=
  [0, 1, 0, 0, 0, 0, 0, 1, 0, 0, 0, 0, 0, 0, 1, 0, 0, 0, 0, 0, 0, 0, 0, 0, 0, 0, 0, 0, 0, 1, 0, 0, 0, 1, 0, 0, 0, 0, 0, 0, 0, 0, 0, 0, 0, 0, 0, 0, 1]

/-- The socket of a UDP group is used while its worker closes it: the query may go out through whatever has the number of the socket by then. -/
theorem sock_race : ∃ s, Reachable s ∧ s.race 1 0 (.sock 0) := by
  obtain ⟨s, hs, hp⟩ := reaches ([.spawn .frontend, .spawn (.udpWorker 0)] ++ steps 0 toSock ++ steps 1 [1, 0, 0, 0, 0, 0, 0, 0, 0, 1, 0])
    (fun s => isAbout s 1 (.write (.sock 0)) && isAbout s 0 (.read (.sock 0))) (by decide +kernel)
  rw [Bool.and_eq_true] at hp
  exact ⟨s, hs, by decide, about_of hp.1, .inl (about_of hp.2)⟩

theorem raceFree_false : ¬ RaceFree := by
  intro h
  obtain ⟨s, hs, hr⟩ := sock_race
  exact h s hs _ _ _ hr

/-- The other places: the lists of good addresses, the cache, the pointer to the filter. -/
theorem other_races : (∃ s, Reachable s ∧ s.race 1 0 .goodIps) ∧ (∃ s, Reachable s ∧ s.race 1 0 .cacheData) ∧ (∃ s, Reachable s ∧ s.race 1 0 .filterPtr) := by
  refine ⟨?_, ?_, ?_⟩
  · obtain ⟨s, hs, hp⟩ := reaches ([.spawn .frontend, .spawn .timer] ++ steps 0 [0, 1, 0, 0, 0, 0, 0, 1, 0, 0, 0, 0, 0, 0, 1, 0, 0, 0, 0, 1] ++
        steps 1 [1, 0, 0, 1, 1, 0, 0, 0, 0, 0, 0, 0, 1, 0, 0])
      (fun s => isAbout s 1 (.write .goodIps) && isAbout s 0 (.read .goodIps)) (by decide +kernel)
    rw [Bool.and_eq_true] at hp
    exact ⟨s, hs, by decide, about_of hp.1, .inl (about_of hp.2)⟩
  · obtain ⟨s, hs, hp⟩ := reaches ([.spawn .timer, .spawn (.tcpWorker 0)] ++ steps 0 [1, 0, 0, 1, 0, 0, 1] ++
        steps 1 [1, 0, 0, 0, 0, 0, 0, 1, 0, 0, 0, 0, 0, 0, 0, 0, 1, 0, 1, 0, 0, 0, 1, 0, 0, 0, 1])
      (fun s => isAbout s 1 (.write .cacheData) && isAbout s 0 (.read .cacheData)) (by decide +kernel)
    rw [Bool.and_eq_true] at hp
    exact ⟨s, hs, by decide, about_of hp.1, .inl (about_of hp.2)⟩
  · obtain ⟨s, hs, hp⟩ := reaches ([.spawn .frontend, .spawn .update] ++ steps 0 [0, 1, 0, 0, 0, 0, 0, 1, 0, 0, 1, 0] ++
        steps 1 [0, 0, 1, 0, 0, 0, 0, 0, 0, 0, 0, 0, 0, 1, 0, 0, 0, 0, 1, 0, 0, 0, 0, 0, 0, 0, 0])
      (fun s => isAbout s 1 (.write .filterPtr) && isAbout s 0 (.read .filterPtr)) (by decide +kernel)
    rw [Bool.and_eq_true] at hp
    exact ⟨s, hs, by decide, about_of hp.1, .inl (about_of hp.2)⟩

/-! Threads that wait for one another: the one that reloads (0) for the frontend (1), the frontend for the one that removes old queries of group 0 (2), that one
for the worker of group 1 (3), which writes to the log. -/
example : ∃ s, Reachable s ∧ s.waitsFor 0 1 ∧ s.waitsFor 1 2 ∧ s.waitsFor 2 3 ∧ s.about 3 (.write .logFile) := by
  obtain ⟨s, hs, hp⟩ := reaches ([.spawn .update, .spawn .frontend, .spawn (.udpSweeper 0), .spawn (.udpWorker 1)] ++
      steps 0 [0, 0, 1, 0, 0, 0, 0, 0, 0, 0, 0, 0, 0, 0, 0, 0, 0, 0, 0, 1, 0, 0, 0, 1, 0] ++
      steps 1 [0, 1, 0, 0, 0, 0, 0, 1, 0, 0, 0, 0, 0, 0, 1, 0, 0, 0, 0, 0, 0, 0, 0, 0, 0, 0, 0, 0, 0, 1, 0, 0, 0, 1, 0, 0, 0, 0, 0, 0, 0, 0, 0] ++
      steps 2 [1, 0, 0, 0, 0, 0, 0, 0, 0, 0, 1, 0, 1, 0] ++ steps 3 [1, 0, 0, 0, 0, 0, 0, 0, 0, 1, 0, 0, 1, 0, 0, 0])
    (fun s => (isAbout s 0 (.acq .modules .wr) && isHolding s 1 .modules .rd) && ((isAbout s 1 (.acq (.table 0) .wr) && isHolding s 2 (.table 0) .wr) &&
      ((isAbout s 2 (.acq .print .wr) && isHolding s 3 .print .wr) && isAbout s 3 (.write .logFile)))) (by decide +kernel)
  simp only [Bool.and_eq_true] at hp
  obtain ⟨⟨a1, a2⟩, ⟨b1, b2⟩, ⟨c1, c2⟩, d⟩ := hp
  exact ⟨s, hs, ⟨_, _, _, about_of a1, holds_of a2⟩, ⟨_, _, _, about_of b1, holds_of b2⟩, ⟨_, _, _, about_of c1, holds_of c2⟩, about_of d⟩

/-! The statistics are written out while a query is being counted: the one that counts waits. -/
example : ∃ s, Reachable s ∧ s.about 0 (.read .stats) ∧ s.skipping = true := by
  obtain ⟨s, hs, hp⟩ := reaches ([.spawn .timer] ++ steps 0 [1, 0, 0, 0, 1, 0, 0, 0, 0, 0, 0, 0, 1]) (fun s => isAbout s 0 (.read .stats) && s.skipping) (by decide +kernel)
  rw [Bool.and_eq_true] at hp
  exact ⟨s, hs, about_of hp.1, hp.2⟩

end Verif.Locks
