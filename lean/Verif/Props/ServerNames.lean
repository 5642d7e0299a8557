import Verif.Spec.ServerNames
/-! C124: the memory with the servers' names is not read after it has been freed. -/

namespace Verif.ServerNames
open Spec
open Groups (Proto)

/-- C124 as one would like it: whatever is loaded and whatever the servers send, no freed memory is read. -/
def NamesStay : Prop := ∀ (debug : Bool) (es : List Ev), run debug begin es ≠ none

/-- A group file with a UDP group is read; then its worker gets an empty datagram. -/
def emptyDatagram : List Ev := [.startFile 0 .udp false, .readEnd 0, .recv 0 0]

/-- C124 is false: after a group file has been read, a single empty datagram makes the program print freed memory. -/
theorem namesStay_false : ¬ NamesStay := fun h => h false emptyDatagram (by decide)

/-- How a state belongs to what has happened. -/
structure Fits (st : St) (past : List Ev) : Prop where
  groups : st.groups.map (fun g => (g.proto, match g.name with | .option => none | .file f => some f)) = started past
  proxy : ∀ g ∈ st.groups, ∀ w, g.proxy = some w → w = g.name
  freed : ∀ f, f ∈ st.freed ↔ Ev.readEnd f ∈ past

theorem started_append (a b : List Ev) : started (a ++ b) = started a ++ started b := by
  induction a with
  | nil => rfl
  | cons e a ih => cases e <;> simp [started, ih]

theorem fits_begin : Fits begin [] := ⟨rfl, by simp [begin], by simp [begin]⟩

/-- Reading the name of a group. -/
theorem read_cases (st : St) (w : Place) : read st w = some st ∨ (read st w = none ∧ ∃ f, w = .file f ∧ f ∈ st.freed) := by
  cases w with
  | option => exact .inl rfl
  | file f =>
    by_cases h : f ∈ st.freed
    · exact .inr ⟨by simp [read, h], f, rfl, h⟩
    · exact .inl (by simp [read, h])

theorem fits_step {debug : Bool} {st : St} {past : List Ev} (h : Fits st past) (e : Ev) :
    (∃ st', step debug st e = some st' ∧ Fits st' (past ++ [e])
      ∧ ∀ i p f, (started past)[i]? = some (p, some f) → Ev.readEnd f ∈ past → ¬ Names debug i p e)
    ∨ (step debug st e = none ∧ ∃ i p f, (started past)[i]? = some (p, some f) ∧ Ev.readEnd f ∈ past ∧ Names debug i p e) := by
  obtain ⟨hg, hp, hf⟩ := h
  have key : ∀ i : Nat, (started past)[i]? = (st.groups[i]?).map (fun g => (g.proto, match g.name with | .option => none | .file f => some f)) := by
    intro i; rw [← hg, List.getElem?_map]
  have same : ∀ e, started [e] = [] → (∀ f, Ev.readEnd f ≠ e) → Fits st (past ++ [e]) := by
    intro e h1 h2
    refine ⟨by rw [started_append, h1, List.append_nil, hg], hp, fun f => ?_⟩
    rw [List.mem_append, hf]
    simp [h2]
  cases e with
  | start p x =>
    refine .inl ⟨_, rfl, ⟨by simp [started_append, started, hg, make], ?_, fun f => by simp [hf]⟩, fun _ _ _ _ _ => id⟩
    intro g hgm w hw
    rcases List.mem_append.mp hgm with hgm | hgm
    · exact hp g hgm w hw
    · obtain rfl := List.mem_singleton.mp hgm
      simp only [make] at hw ⊢
      split at hw
      · exact (Option.some.inj hw).symm
      · cases hw
  | startFile f p x =>
    refine .inl ⟨_, rfl, ⟨by simp [started_append, started, hg, make], ?_, fun f => by simp [hf]⟩, fun _ _ _ _ _ => id⟩
    intro g hgm w hw
    rcases List.mem_append.mp hgm with hgm | hgm
    · exact hp g hgm w hw
    · obtain rfl := List.mem_singleton.mp hgm
      simp only [make] at hw ⊢
      split at hw
      · exact (Option.some.inj hw).symm
      · cases hw
  | readEnd f =>
    refine .inl ⟨_, rfl, ⟨by simp [started_append, started, hg], hp, fun f' => ?_⟩, fun _ _ _ _ _ => id⟩
    simp only [List.mem_cons, List.mem_append, hf, Ev.readEnd.injEq, List.not_mem_nil, or_false]
    exact Or.comm
  | recv i n =>
    simp only [step]
    rcases hi : st.groups[i]? with _ | ⟨p, w, x⟩
    · refine .inl ⟨st, rfl, same _ rfl (by simp), fun j p f hj _ hn => ?_⟩
      obtain ⟨rfl, -, -⟩ := hn
      rw [key, hi] at hj
      cases hj
    · cases p with
      | tcp =>
        refine .inl ⟨st, rfl, same _ rfl (by simp), fun j p f hj _ hn => ?_⟩
        obtain ⟨rfl, rfl, -⟩ := hn
        rw [key, hi] at hj
        simp at hj
      | udp =>
        dsimp only
        by_cases hn : n ≤ 0
        · rw [if_pos hn]
          rcases read_cases st w with h1 | ⟨h1, f, rfl, hfr⟩
          · refine .inl ⟨st, h1, same _ rfl (by simp), fun j p f hj hr hn => ?_⟩
            obtain ⟨rfl, rfl, -⟩ := hn
            rw [key, hi] at hj
            cases w with
            | option => simp at hj
            | file f' =>
              simp only [Option.map_some, Option.some.injEq, Prod.mk.injEq, true_and] at hj
              subst hj
              simp [read, (hf f').mpr hr] at h1
          · exact .inr ⟨h1, i, .udp, f, by rw [key, hi]; rfl, (hf f).mp hfr, rfl, rfl, hn⟩
        · rw [if_neg hn]
          refine .inl ⟨st, rfl, same _ rfl (by simp), fun j p f hj _ hn' => ?_⟩
          exact hn hn'.2.2
  | connect i proxy =>
    simp only [step]
    rcases hi : st.groups[i]? with _ | ⟨p, w, x⟩
    · refine .inl ⟨st, rfl, same _ rfl (by simp), fun j p f hj _ hn => ?_⟩
      obtain ⟨rfl, -, -⟩ := hn
      rw [key, hi] at hj
      cases hj
    · cases p with
      | udp =>
        refine .inl ⟨st, rfl, same _ rfl (by simp), fun j p f hj _ hn => ?_⟩
        obtain ⟨rfl, rfl, -⟩ := hn
        rw [key, hi] at hj
        simp at hj
      | tcp =>
        dsimp only
        cases debug with
        | false =>
          refine .inl ⟨st, rfl, same _ rfl (by simp), fun j p f hj _ hn' => ?_⟩
          cases hn'.2.2
        | true =>
          have hx : which w x proxy = w := by
            unfold which
            split
            · exact hp _ (List.mem_of_getElem? hi) _ rfl
            · rfl
          rw [if_pos rfl, hx]
          rcases read_cases st w with h1 | ⟨h1, f, rfl, hfr⟩
          · refine .inl ⟨st, h1, same _ rfl (by simp), fun j p f hj hr hn => ?_⟩
            obtain ⟨rfl, rfl, -⟩ := hn
            rw [key, hi] at hj
            cases w with
            | option => simp at hj
            | file f' =>
              simp only [Option.map_some, Option.some.injEq, Prod.mk.injEq, true_and] at hj
              subst hj
              simp [read, (hf f').mpr hr] at h1
          · exact .inr ⟨h1, i, .tcp, f, by rw [key, hi]; rfl, (hf f).mp hfr, rfl, rfl, rfl⟩

theorem run_fits {debug : Bool} (es : List Ev) : ∀ {st : St} {past : List Ev}, Fits st past →
    (run debug st es = none ↔ ∃ before e after i p f, es = before ++ e :: after ∧ (started (past ++ before))[i]? = some (p, some f)
      ∧ Ev.readEnd f ∈ past ++ before ∧ Names debug i p e) := by
  induction es with
  | nil => intro st past _; simp [run]
  | cons e es ih =>
    intro st past h
    rcases fits_step (debug := debug) h e with ⟨st', h1, h2, h3⟩ | ⟨h1, i, p, f, h2, h3, h4⟩
    · simp only [run, h1]
      rw [ih h2]
      constructor
      · rintro ⟨before, e', after, i, p, f, rfl, a, b, c⟩
        exact ⟨e :: before, e', after, i, p, f, rfl, by simpa using a, by simpa using b, c⟩
      · rintro ⟨before, e', after, i, p, f, heq, a, b, c⟩
        cases before with
        | nil =>
          simp only [List.nil_append, List.cons.injEq] at heq
          obtain ⟨rfl, rfl⟩ := heq
          exact absurd c (h3 i p f (by simpa using a) (by simpa using b))
        | cons e0 before =>
          simp only [List.cons_append, List.cons.injEq] at heq
          obtain ⟨rfl, rfl⟩ := heq
          exact ⟨before, e', after, i, p, f, rfl, by simpa using a, by simpa using b, c⟩
    · simp only [run, h1, true_iff]
      exact ⟨[], e, es, i, p, f, rfl, by simpa using h2, by simpa using h3, h4⟩

/-- C124: exactly when freed memory is read: a group from a group file needs its servers' names when the reading of the file
has ended. -/
theorem names_read_partial (debug : Bool) (es : List Ev) : run debug begin es = none ↔ Gone debug es := by
  rw [run_fits es fits_begin]
  simp only [List.nil_append]
  rfl

/-- C124: without group files no freed memory is read. -/
theorem names_stay_partial (debug : Bool) (es : List Ev) (h : ∀ f p x, Ev.startFile f p x ∉ es) : run debug begin es ≠ none := by
  rw [Ne, names_read_partial]
  rintro ⟨before, e, after, i, p, f, rfl, a, -, -⟩
  have : ∀ l : List Ev, (∀ f p x, Ev.startFile f p x ∉ l) → ∀ q ∈ started l, q.2 = none := by
    intro l
    induction l with
    | nil => intro _ q hq; simp [started] at hq
    | cons e l ih =>
      intro hl q hq
      have ih := ih (fun f p x hm => hl f p x (by simp [hm]))
      cases e with
      | start p x =>
        simp only [started, List.mem_cons] at hq
        rcases hq with rfl | hq
        · rfl
        · exact ih q hq
      | startFile f p x => exact absurd (by simp) (hl f p x)
      | readEnd f => exact ih q hq
      | recv i n => exact ih q hq
      | connect i x => exact ih q hq
  have := this before (fun f p x hm => h f p x (by simp [hm])) _ (List.mem_of_getElem? a)
  cases this

example : run true begin [.start .udp false, .recv 0 0, .start .tcp true, .connect 1 true, .connect 1 false] ≠ none := by decide

example : Gone true [.startFile 0 .tcp true, .readEnd 0, .connect 0 true] :=
  ⟨[.startFile 0 .tcp true, .readEnd 0], .connect 0 true, [], 0, .tcp, 0, rfl, rfl, by simp, rfl, rfl, rfl⟩

end Verif.ServerNames
