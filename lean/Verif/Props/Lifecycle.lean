import Verif.Lemmas.LifecycleFree

/-! C111: what belongs to a server group is not used after it has been freed and not freed twice, whatever the threads do. -/

namespace Verif.Lifecycle
open Spec

/-- C111 as one would like it: no schedule of the threads that send queries, of the workers and sweepers of the groups, of the thread that loads
the groups and of those that free replaced groups comes to use freed memory or to free something twice. -/
def Safe : Prop := ∀ es : List Ev, run start es ≠ none

/-- A UDP group is loaded and works. -/
def oneGroup (k : Kind) : List Ev := [.loadBegin, .loadStart k, .loadSwap]

/-- C111 is false: when no socket can be made for a group that is in use, it is torn down but remains in use. -/
def socketFails : List Ev :=
  oneGroup .udp ++ [.work 0 .fine, .work 0 .fails, .work 0 .fine, .work 0 .fine, .work 0 .fine, .work 0 .fine, .sweep 0, .sweep 0, .enter 0, .send 0]

theorem socket_failure : run start socketFails = none ∧ ¬ Calm start socketFails := by
  refine ⟨by decide, ?_⟩
  intro h
  have h1 := h.2 _ rfl
  have h2 := h1.2 _ rfl
  have h3 := h2.2 _ rfl
  have h4 := h3.2 _ rfl
  exact h4.1 ⟨_, rfl, .inl ⟨rfl, rfl, rfl, .inl rfl⟩⟩

/-- C111 is false: when the groups are loaded anew and the second of them cannot be started, the memory of the first is freed although its threads run. -/
def loadFails : List Ev := oneGroup .tcp ++ [.loadBegin, .loadStart .udp, .loadFail, .work 1 .fine]

theorem load_failure : run start loadFails = none := by decide

/-- C111 is false: when a group with proxies is replaced, the list of its proxies is freed twice. -/
def proxiedReplaced : List Ev :=
  oneGroup .proxied ++ oneGroup .udp ++ [.clean 0, .work 0 .fine, .work 0 .fine, .work 0 .fine, .work 0 .fine]

theorem proxied_replaced : run start proxiedReplaced = none := by decide

theorem safe_false : ¬ Safe := fun h => h _ socket_failure.1

/-- C111, without these three accidents: no schedule, of any length, with any number of groups, queries and reloads, comes to use freed memory or to free
something twice. -/
theorem safe_partial (es : List Ev) (h : Calm start es) : run start es ≠ none := by
  obtain ⟨st, h1, _⟩ := run_inv inv_start h
  rw [h1]
  simp

/-- C111: a UDP group that is in use works: nobody has told it to stop, its threads are in their loops and everything it needs is there. -/
theorem works_partial (es : List Ev) (h : Calm start es) (st : St) (hr : run start es = some st) (m : Mod) (hm : m ∈ st.mods) (hu : Used st m)
    (hk : m.kind = .udp) :
    m.blk = true ∧ m.addrs = true ∧ m.ctx = true ∧ m.lock = true ∧ m.isServer = true
    ∧ (m.wk = .test ∨ m.wk = .open ∨ m.wk = .wait ∨ m.wk = .recv ∨ m.wk = .take) ∧ (m.sw = .test ∨ m.sw = .sweep) := by
  obtain ⟨st', h1, hi⟩ := run_inv inv_start h
  have : st' = st := Option.some.inj (h1.symm.trans hr)
  subst this
  obtain ⟨i, hil, hie⟩ := List.getElem_of_mem hm
  have hg := hi.good i m (by rw [List.getElem?_eq_getElem hil, hie])
  obtain ⟨a, b, c, d, e⟩ := live_udp hg hu hk
  refine ⟨live_blk hg hu, a, b, c, d, ?_, ?_⟩
  · cases hw : m.wk <;> rw [hw] at e <;> simp [Work.out] at e ⊢
  · rcases m with ⟨k, map, isS, work, sweep, isO, addrs, prox, ctx, lock, blk, wk, sw⟩
    dsimp only at hk
    subst hk
    simp only [Good] at hg
    have h6 := hg.2.2.2.2.2.1
    have hng : wk ≠ .gone := by
      rintro rfl
      simp [Work.out] at e
    cases sw
    · exact .inl rfl
    · exact .inr rfl
    · exact absurd (h6 (.inl rfl)) hng
    · exact absurd (h6 (.inr (.inl rfl))) hng
    · exact absurd (h6 (.inr (.inr (.inl rfl)))) hng
    · exact absurd (h6 (.inr (.inr (.inr rfl)))) hng

theorem calm_background {fs : List Ev} (h : ∀ e ∈ fs, Background e) : ∀ {st : St}, Calm st fs := by
  induction fs with
  | nil => intro st; trivial
  | cons e fs ih => intro st; exact ⟨background_calm (h e (by simp)), fun st' _ => ih (fun x hx => h x (by simp [hx]))⟩

theorem calm_append {es fs : List Ev} : ∀ {a b : St}, Calm a es → run a es = some b → Calm b fs → Calm a (es ++ fs) := by
  induction es with
  | nil => intro a b _ h hf; cases h; exact hf
  | cons e es ih =>
    intro a b hc h hf
    refine ⟨hc.1, fun st' hs => ?_⟩
    simp only [run, hs] at h
    exact ih (hc.2 st' hs) h hf

/-- C111: when a group has been freed nothing of it is left: its threads are gone, its addresses and its table are freed, its lock is destroyed, its socket is closed. -/
theorem nothing_left_partial (es : List Ev) (h : Calm start es) (st : St) (hr : run start es = some st) (m : Mod) (hm : m ∈ st.mods) (hb : m.blk = false) :
    ¬ Used st m ∧ m.wk = .gone ∧ m.sw = .gone ∧ m.addrs = false ∧ m.ctx = false ∧ (m.kind = .udp → m.lock = false) ∧ m.isOpen = false := by
  obtain ⟨s0, h1, hi⟩ := run_inv inv_start h
  have : s0 = st := Option.some.inj (h1.symm.trans hr)
  subst this
  obtain ⟨i, hil, hie⟩ := List.getElem_of_mem hm
  have hg := hi.good i m (by rw [List.getElem?_eq_getElem hil, hie])
  obtain ⟨a, b, c, d, e, _⟩ := freed_all hg hb
  refine ⟨fun hu => ?_, a, b, c, d, e, run_closed (by simp [start]) hr m hm (.inr (.inr a))⟩
  rw [live_blk hg hu] at hb
  cases hb

/-- C111: and a group that has been replaced is either freed, or the threads that run in the background can still, by themselves, come to free it, and
all of its set with it; the other groups, and the queries that are being sent, they leave as they are. -/
theorem replaced_freed_partial (es : List Ev) (h : Calm start es) (st : St) (hr : run start es = some st) (m : Mod) (hm : m ∈ st.mods) (hu : ¬ Used st m) :
    m.blk = false ∨ ∃ fs st', (∀ e ∈ fs, Background e) ∧ run start (es ++ fs) = some st' ∧ Calm start (es ++ fs) ∧ (∀ x ∈ st'.mods, x.map = m.map → x.blk = false)
      ∧ st'.cur = st.cur ∧ st'.load = st.load ∧ st'.senders = st.senders
      ∧ (∀ (i : Nat) (x : Mod), st.mods[i]? = some x → x.map ≠ m.map → st'.mods[i]? = some x) := by
  obtain ⟨s0, h1, hi⟩ := run_inv inv_start h
  have : s0 = st := Option.some.inj (h1.symm.trans hr)
  subst this
  obtain ⟨i, hil, hie⟩ := List.getElem_of_mem hm
  rcases hi.old i m (by rw [List.getElem?_eq_getElem hil, hie]) hu with hb | ⟨c, hc, hcm⟩
  · exact .inl hb
  · right
    obtain ⟨k, hkl, hke⟩ := List.getElem_of_mem hc
    obtain ⟨fs, h2, b, h3, h4, h5, h6⟩ := reach_freed (M := m.map) (k := k) hi (by rw [List.getElem?_eq_getElem hkl, hke]) hcm
    refine ⟨fs, b, h2, by rw [run_append hr]; exact h3, calm_append h hr (calm_background h2), ?_, h5.cur, h5.load, h5.snd, h5.other⟩
    intro x hx hxm
    obtain ⟨j, hjl, hje⟩ := List.getElem_of_mem hx
    exact h6 j x (by rw [List.getElem?_eq_getElem hjl, hje]) hxm

/-- Decides whether a schedule is calm. -/
def accidentB (st : St) : Ev → Bool
  | .work i .fails =>
    match st.mods[i]? with
    | none => false
    | some m => (m.kind = .udp && m.wk = .open && !m.isOpen && (st.cur = some m.map || st.load = some m.map)) || m.kind = .proxied
  | .loadFail => st.mods.any fun m => st.load = some m.map
  | .loadSwap => st.mods.any fun m => st.cur = some m.map && m.kind = .proxied
  | _ => false

theorem accidentB_iff (st : St) (e : Ev) : accidentB st e = true ↔ Accident st e := by
  cases e with
  | work i l =>
    cases l with
    | fails =>
      simp only [accidentB, Accident, Used]
      cases hm : st.mods[i]? with
      | none => simp
      | some m => simp [and_assoc]
    | _ => simp [accidentB, Accident]
  | loadFail => simp [accidentB, Accident]
  | loadSwap => simp [accidentB, Accident]
  | _ => simp [accidentB, Accident]

def calmB : St → List Ev → Bool
  | _, [] => true
  | st, e :: es => !accidentB st e && match step st e with | none => true | some st' => calmB st' es

theorem calmB_sound {es : List Ev} : ∀ {st : St}, calmB st es = true → Calm st es := by
  induction es with
  | nil => intro st _; trivial
  | cons e es ih =>
    intro st h
    simp only [calmB, Bool.and_eq_true, Bool.not_eq_true'] at h
    refine ⟨fun ha => ?_, fun st' hs => ih ?_⟩
    · rw [(accidentB_iff st e).mpr ha] at h
      cases h.1
    · have := h.2
      rw [hs] at this
      exact this

/-- A UDP and a TCP group are used and replaced while a query is being sent; the new ones are used, the waiting of the old TCP group fails, the old ones end and are freed. -/
def calmLife : List Ev :=
  [.loadBegin, .loadStart .udp, .loadStart .tcp, .loadSwap, .work 0 .fine, .work 0 .fine, .enter 0, .send 0, .send 0, .loadBegin, .loadStart .udp, .loadSwap,
   .send 0, .send 0, .loadSwap, .enter 2, .send 0, .clean 0, .clean 0, .clean 0, .work 0 .quiet, .work 0 .quiet]
  ++ List.replicate 12 (.work 0 .fine) ++ [.work 1 .fine, .work 1 .fails] ++ List.replicate 12 (.work 1 .fine) ++ List.replicate 8 (.sweep 0) ++ List.replicate 5 (.clean 0)

example : Calm start calmLife ∧ (run start calmLife).map (fun st => (st.mods.map Mod.blk, st.cur, st.cleaners)) = some ([false, false, true], some 1, []) :=
  ⟨calmB_sound (by decide +kernel), by decide +kernel⟩

end Verif.Lifecycle
