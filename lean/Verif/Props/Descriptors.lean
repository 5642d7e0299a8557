import Verif.Spec.Descriptors
/-! C127: what the script for hosts prints stays out of the program. -/

namespace Verif.Descriptors

/-- The program was started with its standard descriptors open. -/
def Normal (t : Table) : Prop := ∀ i, i < 3 → t[i]? = some (some .std)

theorem place_keeps (k : Kind) : ∀ (t : Table) (i : Nat) (x : Kind), t[i]? = some (some x) → (place k t)[i]? = some (some x)
  | [], i, x, h => by simp at h
  | none :: t, 0, x, h => by simp at h
  | none :: t, i + 1, x, h => by simpa [place] using h
  | some y :: t, 0, x, h => by simpa [place] using h
  | some y :: t, i + 1, x, h => by
    simp only [place, List.getElem?_cons_succ] at h ⊢
    exact place_keeps k t i x h

theorem normal_place {k : Kind} {t : Table} (h : Normal t) : Normal (place k t) := fun i hi => place_keeps k t i _ (h i hi)

theorem normal_start {log daemon forked : Bool} {t : Table} (h : Normal t) (hd : (daemon && forked) = false) : Normal (startUp daemon forked log t) := by
  unfold startUp
  rw [hd]
  cases log
  · exact normal_place (normal_place h)
  · exact normal_place (normal_place (normal_place h))

/-- A script that is silent, or cannot reach the pipe, changes nothing. -/
theorem uses_nothing {st : St} (us : List Use) (h : us = [] ∨ Normal st.tab ∧ ∀ fd s, .writes fd s ∈ us → fd < 3) : us.foldl use st = st := by
  rcases h with rfl | ⟨hn, hw⟩
  · rfl
  · induction us with
    | nil => rfl
    | cons u us ih =>
      have hu : use st u = st := by
        cases u with
        | writes fd s => simp only [use]; rw [if_neg]; rw [hn fd (hw fd s (by simp))]; simp
        | reads n => simp only [use]; rw [if_neg]; rw [hn 0 (by omega)]; simp
      rw [List.foldl_cons, hu]
      exact ih (fun fd s hs => hw fd s (by simp [hs]))

/-- What scripts do is done through the standard descriptors. -/
def StdOnly (h : List Ev) : Prop := ∀ us, .script us ∈ h → ∀ fd s, .writes fd s ∈ us → fd < 3

theorem flatten_take {n : Nat} {a : List Byte} {l : List (List Byte)} (h : a.length = n) : ((a :: l).flatten).take n = a ∧ ((a :: l).flatten).drop n = l.flatten := by
  rw [List.flatten_cons]
  exact ⟨List.take_left' h, List.drop_left' h⟩

/-- The tasks that wait and those that were taken are those that were added. -/
theorem run_tasks (es : List Ev) : ∀ (st st' : St) (got : List (List Byte)) (wait : List (List Byte)), st.pipe = wait.flatten → (∀ t ∈ wait, t.length = size) →
    st.ni.length ≤ size → (Silent es ∨ Normal st.tab ∧ StdOnly es) → run st es = some (st', got) →
    ∃ wait', st'.pipe = wait'.flatten ∧ (∀ t ∈ wait', t.length = size) ∧ got ++ wait' = wait ++ asked es := by
  induction es with
  | nil =>
    intro st st' got wait h1 h2 _ _ h
    cases h
    exact ⟨wait, h1, h2, by simp [asked]⟩
  | cons e es ih =>
    intro st st' got wait h1 h2 hni h3 h
    unfold run at h
    split at h
    · cases h
    · rename_i s1 a hs
      rw [Option.map_eq_some_iff] at h
      obtain ⟨⟨s2, b⟩, h4, h5⟩ := h
      simp only [Prod.mk.injEq] at h5
      obtain ⟨rfl, rfl⟩ := h5
      have hrest : Silent es ∨ StdOnly es := by
        rcases h3 with h3 | h3
        · exact .inl fun us hu => h3 us (by simp [hu])
        · exact .inr fun us hu => h3.2 us (by simp [hu])
      have keep : s1.tab = st.tab → Silent es ∨ Normal s1.tab ∧ StdOnly es := by
        intro ht
        rcases h3 with h3 | h3
        · exact .inl fun us hu => h3 us (by simp [hu])
        · exact .inr ⟨by rw [ht]; exact h3.1, fun us hu => h3.2 us (by simp [hu])⟩
      cases e with
      | opens =>
        simp only [step, Option.some.injEq, Prod.mk.injEq] at hs
        obtain ⟨rfl, rfl⟩ := hs
        rw [List.nil_append]
        refine ih { st with tab := place .own st.tab } _ _ wait h1 h2 hni ?_ h4
        rcases h3 with h3 | h3
        · exact .inl fun us hu => h3 us (by simp [hu])
        · exact .inr ⟨normal_place h3.1, fun us hu => h3.2 us (by simp [hu])⟩
      | closes n =>
        simp only [step] at hs
        split at hs
        · rename_i hn
          simp only [Option.some.injEq, Prod.mk.injEq] at hs
          obtain ⟨rfl, rfl⟩ := hs
          rw [List.nil_append]
          refine ih { st with tab := st.tab.set n none } _ _ wait h1 h2 hni ?_ h4
          rcases h3 with h3 | h3
          · exact .inl fun us hu => h3 us (by simp [hu])
          · refine .inr ⟨fun i hi => ?_, fun us hu => h3.2 us (by simp [hu])⟩
            have hne : n ≠ i := by
              rintro rfl
              have := h3.1 n hi
              rw [hn] at this
              simp at this
            dsimp only
            rw [List.getElem?_set_ne hne]
            exact h3.1 i hi
        · cases hs
      | adds t =>
        simp only [step] at hs
        split at hs
        · rename_i ht
          simp only [Option.some.injEq, Prod.mk.injEq] at hs
          obtain ⟨rfl, rfl⟩ := hs
          obtain ⟨w', k1, k2, k3⟩ := ih { st with pipe := st.pipe ++ t } _ _ (wait ++ [t]) (by simp [h1]) (by
            intro x hx
            rw [List.mem_append, List.mem_singleton] at hx
            rcases hx with hx | rfl
            · exact h2 x hx
            · exact ht) hni (keep rfl) h4
          exact ⟨w', k1, k2, by rw [List.nil_append, k3]; simp [asked]⟩
        · cases hs
      | takes =>
        simp only [step] at hs
        split at hs
        · cases hs
        · rename_i hne
          simp only [Option.some.injEq, Prod.mk.injEq] at hs
          obtain ⟨rfl, rfl⟩ := hs
          cases wait with
          | nil => exact absurd h1 hne
          | cons t wait =>
            have ht := h2 t (by simp)
            obtain ⟨f1, f2⟩ := flatten_take (l := wait) ht
            have hni' : t ++ st.ni.drop t.length = t := by rw [List.drop_eq_nil_of_le (by omega), List.append_nil]
            rw [h1, f1, f2, hni'] at h4
            obtain ⟨w', k1, k2, k3⟩ := ih ⟨st.tab, wait.flatten, t⟩ _ _ wait rfl (fun x hx => h2 x (by simp [hx])) (by dsimp only; omega) (keep rfl) h4
            refine ⟨w', k1, k2, ?_⟩
            rw [h1, f1, hni', List.append_assoc, k3]
            simp [asked]
      | script us =>
        simp only [step, Option.some.injEq, Prod.mk.injEq] at hs
        obtain ⟨hs, rfl⟩ := hs
        have : us.foldl use st = st := by
          apply uses_nothing
          rcases h3 with h3 | h3
          · exact .inl (h3 us (by simp))
          · exact .inr ⟨h3.1, h3.2 us (by simp)⟩
        rw [this] at hs
        subst hs
        obtain ⟨w', k1, k2, k3⟩ := ih _ _ _ wait h1 h2 hni (keep rfl) h4
        exact ⟨w', k1, k2, by rw [List.nil_append, k3]; simp [asked]⟩

/-- C127.  The tasks of the timer are those that were added, in this order and unchanged, and none of them is lost, whatever the program opens and closes, whatever
scripts print and read.  Missing: in the background (`-d`), this holds for scripts that neither read nor write (see `only_asked_false`). -/
theorem tasks_arrive_partial {t : Table} {daemon forked log : Bool} {ni : List Byte} {es : List Ev} {st : St} {got : List (List Byte)} (ht : Normal t)
    (hni : ni.length = size) (hd : (daemon && forked) = false ∧ StdOnly es ∨ Silent es) (h : run ⟨startUp daemon forked log t, [], ni⟩ es = some (st, got)) :
    ∃ wait, st.pipe = wait.flatten ∧ (∀ x ∈ wait, x.length = size) ∧ got ++ wait = asked es := by
  obtain ⟨w, h1, h2, h3⟩ := run_tasks es _ _ _ [] rfl (by simp) (Nat.le_of_eq hni) (by
    rcases hd with ⟨h1, h2⟩ | h1
    · exact .inr ⟨normal_start ht h1, h2⟩
    · exact .inl h1) h
  exact ⟨w, h1, h2, by simpa using h3⟩

/-- In the background the ends of the pipe are standard descriptors of the script, whatever other descriptors there are: without a log, its input and its output;
with a log, its output and the one for errors. -/
theorem background_pipe {t : Table} (ht : Normal t) :
    ((startUp true true false t)[0]? = some (some .pipeRead) ∧ (startUp true true false t)[1]? = some (some .pipeWrite)) ∧
      (startUp true true true t)[1]? = some (some .pipeRead) ∧ (startUp true true true t)[2]? = some (some .pipeWrite) := by
  have h0 := ht 0 (by omega)
  have h1 := ht 1 (by omega)
  have h2 := ht 2 (by omega)
  match t with
  | [] => simp at h0
  | [_] => simp at h1
  | [_, _] => simp at h2
  | a :: b :: d :: t => exact ⟨⟨rfl, rfl⟩, rfl, rfl⟩

/-- In the background, without a log: whatever the script prints is taken for a task, the first byte printed being that of the address of the function. -/
theorem printed_is_task {t : Table} (ht : Normal t) {ni s : List Byte} {c : Byte} :
    ∃ st task, run ⟨startUp true true false t, [], ni⟩ [.script [.writes 1 (c :: s)], .takes] = some (st, [task]) ∧ task = (c :: s).take size ++ ni.drop ((c :: s).take size).length := by
  have h := (background_pipe ht).1.2
  have hstep : step ⟨startUp true true false t, [], ni⟩ (.script [.writes 1 (c :: s)]) = some (⟨startUp true true false t, c :: s, ni⟩, []) := by
    simp only [step, List.foldl_cons, List.foldl_nil, use]
    rw [if_pos h]
    rfl
  unfold run
  rw [hstep]
  dsimp only
  unfold run
  simp only [step]
  rw [if_neg (by simp)]
  exact ⟨_, _, rfl, rfl⟩

/-- Only tasks that were added are taken. -/
def OnlyAsked : Prop := ∀ (t : Table) (daemon forked log : Bool) (ni : List Byte) (es : List Ev) (st : St) (got : List (List Byte)), Normal t → ni.length = size →
  StdOnly es → run ⟨startUp daemon forked log t, [], ni⟩ es = some (st, got) → ∀ x ∈ got, x ∈ asked es

/-- In the background, a script that prints a line makes the timer call a function at an address made of it. -/
theorem only_asked_false : ¬ OnlyAsked := by
  intro h
  have h0 : Normal [some .std, some .std, some .std] := by
    intro i hi
    match i with
    | 0 => rfl
    | 1 => rfl
    | 2 => rfl
  obtain ⟨st, task, h1, -⟩ := printed_is_task h0 (ni := List.replicate 64 0) (s := [107, 10]) (c := 111)
  have := h _ _ _ _ _ _ _ _ h0 (by decide) (by
    intro us hu fd s hs
    simp only [List.mem_cons, Ev.script.injEq, reduceCtorEq, List.not_mem_nil, or_false] at hu
    subst hu
    simp only [List.mem_cons, Use.writes.injEq, List.not_mem_nil, or_false] at hs
    omega) h1 task (by simp)
  simp [asked] at this

/-- No task is lost. -/
def NoneLost : Prop := ∀ (t : Table) (daemon forked log : Bool) (ni : List Byte) (es : List Ev) (st : St) (got : List (List Byte)), Normal t → ni.length = size →
  StdOnly es → run ⟨startUp daemon forked log t, [], ni⟩ es = some (st, got) → st.pipe = [] → ∀ x ∈ asked es, x ∈ got

/-- In the background, without a log, a script that reads its input takes tasks away from the timer. -/
theorem none_lost_false : ¬ NoneLost := by
  intro h
  have h0 : Normal [some .std, some .std, some .std] := by
    intro i hi
    match i with
    | 0 => rfl
    | 1 => rfl
    | 2 => rfl
  have := h _ true true false (List.replicate 64 0) [.adds (List.replicate 64 1), .script [.reads 100]] _ _ h0 (by decide) (by
    intro us hu fd s hs
    simp only [List.mem_cons, Ev.script.injEq, reduceCtorEq, List.not_mem_nil, or_false, false_or] at hu
    subst hu
    simp at hs) (show _ = some (⟨[some .pipeRead, some .pipeWrite, none], [], List.replicate 64 0⟩, []) by decide) rfl (List.replicate 64 1) (by simp [asked])
  simp at this

/-- A history in the foreground: the script prints, tasks arrive. -/
example : (run ⟨startUp false true true [some .std, some .std, some .std], [], List.replicate 64 0⟩
    [.opens, .adds (List.replicate 64 1), .script [.writes 1 [104, 105], .reads 5, .writes 2 [33]], .closes 6, .adds (List.replicate 64 2), .takes, .takes]).map (·.2) =
    some [List.replicate 64 1, List.replicate 64 2] := by decide

end Verif.Descriptors
