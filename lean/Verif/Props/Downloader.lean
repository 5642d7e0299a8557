import Verif.Lemmas.Downloader
import Verif.Props.ReadLine
import Verif.Props.HostsContainer
/-! Fetching hosts: the file is replaced as a whole, and what is looked up afterwards (C98-C101). -/

namespace Verif.Downloader

/-! ### At every moment (C98) -/

/-- The files that belong to the downloads of `file`. -/
def Own (file q : Path) : Prop := q = file ∨ q = tmp file ∨ q = tmp (tmp file)

/-- What the last two calls do. -/
theorem replace_past (w : World) (file : Path) (s : St) :
    ∀ g ∈ (rename w (tmp file) file (remove w file s)).past, g ∈ s.past ∨
      ((∀ q, ¬ Own file q → g q = s.files q) ∧
        ((w.works s.calls = true ∧ g file = none ∧ g (tmp file) = s.files (tmp file)) ∨ g file = (rename w (tmp file) file (remove w file s)).files file)) := by
  intro g hg
  have hne := tmp_ne file
  have hr : ∀ g ∈ (remove w file s).past, g ∈ s.past ∨ ((∀ q, ¬ Own file q → g q = s.files q) ∧ w.works s.calls = true ∧ g file = none ∧ g (tmp file) = s.files (tmp file)) := by
    intro g hg
    unfold remove at hg
    split at hg
    · next hwk =>
      rcases List.mem_cons.1 hg with rfl | hg
      · exact Or.inr ⟨fun q hq => set_other _ _ (fun h => hq (Or.inl h)), hwk, set_same _ _ _, set_other _ _ hne⟩
      · exact Or.inl hg
    · exact Or.inl hg
  have hnow : ∀ q, ¬ Own file q → (remove w file s).files q = s.files q := by
    intro q hq
    unfold remove
    split
    · exact set_other _ _ (fun h => hq (Or.inl h))
    · rfl
  generalize remove w file s = t at hg hr hnow ⊢
  unfold rename at hg ⊢
  split at hg
  · next c h1 h2 =>
    rcases List.mem_cons.1 hg with rfl | hg
    · refine Or.inr ⟨fun q hq => ?_, Or.inr rfl⟩
      rw [set_other _ _ (fun h => hq (Or.inr (Or.inl h))), set_other _ _ (fun h => hq (Or.inl h)), hnow q hq]
    · rcases hr g hg with h | ⟨h3, h4⟩
      · exact Or.inl h
      · exact Or.inr ⟨h3, Or.inl h4⟩
  · rcases hr g hg with h | ⟨h3, h4⟩
    · exact Or.inl h
    · exact Or.inr ⟨h3, Or.inl h4⟩

/-- C98.  At every moment of an update, whatever fails and wherever the program is killed, the hosts file is the old one, is
missing, or is the one there is in the end; while it is missing, the file that is to replace it is under its temporary name.  An update
that does not report success does not touch the hosts file at all.  Files that are not the hosts file or its temporary files
are never touched. -/
theorem replaced_whole_partial (w : World) (fuel : Nat) (urls : List Path) (file : Path) (times : Int) (f : Files) (r : Option Bool) (s : St)
    (h : multi w fuel urls file times (start f) = (r, s)) : ∀ g ∈ s.past,
      (g file = f file ∨ (g file = none ∧ (s.files file = none ∨ g (tmp file) = s.files file)) ∨ g file = s.files file) ∧
      (r ≠ some true → g file = f file) ∧ (∀ q, ¬ Own file q → g q = f q) := by
  have hA1 : ¬ (fun q => q = tmp file ∨ q = tmp (tmp file)) file := by
    rintro (h | h)
    · exact tmp_ne file h.symm
    · exact tmp_tmp_ne file h.symm
  have hsub : ∀ q, ¬ Own file q → ¬ (fun q => q = tmp file ∨ q = tmp (tmp file)) q := fun q hq h => hq (Or.inr h)
  have key : ∀ t : St, Only (fun q => q = tmp file ∨ q = tmp (tmp file)) (start f) t →
      ∀ g ∈ t.past, g file = f file ∧ ∀ q, ¬ Own file q → g q = f q := by
    intro t ht g hg
    rcases ht.past g hg with h | h
    · rw [List.mem_singleton.1 h]; exact ⟨rfl, fun _ _ => rfl⟩
    · exact ⟨h _ hA1, fun q hq => h q (hsub q hq)⟩
  unfold multi at h
  have h1 := only_openW (A := fun q => q = tmp file ∨ q = tmp (tmp file)) w (tmp file) (start f) (Or.inl rfl)
  generalize openW w (tmp file) (start f) = o at h h1
  obtain ⟨b, s1⟩ := o
  cases b with
  | false =>
    simp only [Prod.mk.injEq] at h
    obtain ⟨rfl, rfl⟩ := h
    intro g hg
    obtain ⟨k1, k2⟩ := key _ h1 g hg
    exact ⟨Or.inl k1, fun _ => k1, k2⟩
  | true =>
    dsimp only at h
    have h2 := h1.trans (only_multiLoop w fuel (tmp file) times (Or.inl rfl) (Or.inr rfl) urls false s1)
    generalize multiLoop w fuel (tmp file) times urls false s1 = o at h h2
    obtain ⟨b, s2⟩ := o
    match b, h with
    | none, h =>
      simp only [Prod.mk.injEq] at h
      obtain ⟨rfl, rfl⟩ := h
      intro g hg
      obtain ⟨k1, k2⟩ := key _ h2 g hg
      exact ⟨Or.inl k1, fun _ => k1, k2⟩
    | some false, h =>
      simp only [Prod.mk.injEq] at h
      obtain ⟨rfl, rfl⟩ := h
      intro g hg
      obtain ⟨k1, k2⟩ := key _ h2 g hg
      exact ⟨Or.inl k1, fun _ => k1, k2⟩
    | some true, h =>
      simp only [Prod.mk.injEq] at h
      obtain ⟨rfl, rfl⟩ := h
      intro g hg
      have hend : w.works s2.calls = true → (rename w (tmp file) file (remove w file s2)).files file = none ∨
          (rename w (tmp file) file (remove w file s2)).files file = s2.files (tmp file) := by
        intro hwk
        have hne := tmp_ne file
        unfold rename remove
        simp only [hwk, if_true]
        split
        · next c _ hc =>
          right
          simp only [St.store, St.called] at hc ⊢
          rw [set_other _ _ hne] at hc
          rw [set_other _ _ hne.symm, set_same, hc]
        · left; simp only [St.store, St.called]; rw [set_same]
      rcases replace_past w file s2 g hg with h | ⟨h3, h4⟩
      · obtain ⟨k1, k2⟩ := key _ h2 g h
        exact ⟨Or.inl k1, by simp, k2⟩
      · refine ⟨?_, by simp, fun q hq => (h3 q hq).trans ((h2.now q (hsub q hq)).trans rfl)⟩
        rcases h4 with ⟨hwk, h4, h5⟩ | h4
        · rcases hend hwk with he | he
          · exact Or.inr (Or.inl ⟨h4, Or.inl he⟩)
          · exact Or.inr (Or.inl ⟨h4, Or.inr (h5.trans he.symm)⟩)
        · exact Or.inr (Or.inr h4)

/-- Full claim: a hosts file that was there is there at every moment. -/
def AlwaysThere : Prop := ∀ (w : World) (fuel : Nat) (urls : List Path) (file : Path) (times : Int) (f : Files),
  (∀ n, w.works n = true) → f file ≠ none → ∀ g ∈ (multi w fuel urls file times (start f)).2.past, g file ≠ none

/-- A world where everything works; one file of hosts, and downloads of one line. -/
def calm : World := ⟨fun _ => true, fun _ _ => ⟨true, str "1.2.3.4 b.com", true⟩, some, id⟩

def oldFiles : Files := fun p => if p = str "/h" then some (str "1.1.1.1 a.com\n") else if p = str "/l" then some (str "@@ c.com") else none

/-- The code violates it: the old file is removed before the new one gets its name. -/
theorem always_there_false : ¬ AlwaysThere := by
  intro h
  have hd : (multi calm 1 [str "http://x"] (str "/h") (-1) (start oldFiles)).2.past.any (fun g => (g (str "/h")).isNone) = true := by
    decide +kernel
  obtain ⟨g, hg, hn⟩ := List.any_eq_true.1 hd
  exact h calm 1 [str "http://x"] (str "/h") (-1) oldFiles (fun _ => rfl) (by decide +kernel) g hg (by simpa using hn)

/-- The program may be killed just then: at the next start there are no hosts, although there were some before. -/
theorem gone_at_start : ∃ g ∈ (multi calm 1 [str "http://x"] (str "/h") (-1) (start oldFiles)).2.past,
    (init calm (str "/h") (start g)).1.any Option.isNone = true ∧ (init calm (str "/h") (start oldFiles)).1.any Option.isSome = true := by
  have hd : (multi calm 1 [str "http://x"] (str "/h") (-1) (start oldFiles)).2.past.any
      (fun g => (init calm (str "/h") (start g)).1.any Option.isNone) = true := by decide +kernel
  obtain ⟨g, hg, hn⟩ := List.any_eq_true.1 hd
  exact ⟨g, hg, hn, by decide +kernel⟩

/-! ### What is fetched (C99) -/

theorem multi_ok {w : World} (hw : ∀ n, w.works n = true) (fuel : Nat) (urls : List Path) (file : Path) (times : Int) (f : Files)
    (s0 s : St) (b : Bool) (hs0 : s0.files = f)
    (hp : ∀ u ∈ urls, ∀ p, NearPath w u p → p ≠ tmp file ∧ p ≠ tmp (tmp file)) (h : multi w fuel urls file times s0 = (some b, s)) :
    ∃ got, Fetch w f times s0.attempts urls got s.attempts ∧ b = got.any (·.isSome) ∧
      s.files file = (if got.any (·.isSome) then some (joined got) else f file) := by
  unfold multi at h
  rw [openW_ok hw] at h
  dsimp only at h
  generalize hm : multiLoop w fuel (tmp file) times urls false (s0.called.store (s0.files.set (tmp file) (some []))) = o at h
  obtain ⟨o, s2⟩ := o
  cases o with
  | none => simp at h
  | some b' =>
    obtain ⟨got, h1, h2, h3, h4⟩ := multiLoop_ok hw fuel (tmp file) times f urls false
      (s0.called.store (s0.files.set (tmp file) (some []))) s2 [] b' (by simp [St.store, set_same])
      (fun q hq _ => by simp [St.store, set_other _ _ hq, hs0]) hp hm
    have e : (s0.called.store (s0.files.set (tmp file) (some []))).attempts = s0.attempts := rfl
    rw [e] at h1
    rw [Bool.false_or] at h2
    cases b' with
    | false =>
      simp only [Prod.mk.injEq, Option.some.injEq] at h
      obtain ⟨rfl, rfl⟩ := h
      refine ⟨got, h1, h2, ?_⟩
      rw [← h2, h4 file (tmp_ne file).symm (tmp_tmp_ne file).symm]; rfl
    | true =>
      simp only [Prod.mk.injEq, Option.some.injEq] at h
      obtain ⟨rfl, rfl⟩ := h
      have h5 := remove_ok hw file s2
      have h6 : (remove w file s2).files (tmp file) = some (joined got) := by
        rw [h5.files, set_other _ _ (tmp_ne file), h3]; rfl
      have hr : rename w (tmp file) file (remove w file s2) = (remove w file s2).called.store
          (((remove w file s2).files.set file (some (joined got))).set (tmp file) none) := by
        unfold rename
        rw [hw, h6]
        simp [tmp_ne file]
      refine ⟨got, ?_, h2, ?_⟩
      · rw [hr]
        have : (remove w file s2).attempts = s2.attempts := h5.attempts
        simpa [St.store, St.called, this] using h1
      · rw [hr, ← h2]
        simp [St.store, set_other _ _ (tmp_ne file).symm, set_same]

/-- C99.  If files can be opened and written, and no source is one of the temporary files, then an update that ends
has fetched from every source, in order, what the source gives.  It succeeds exactly if one of them gave something.  Then the hosts file
holds all that was fetched, each content whole and followed by a line feed; otherwise it is as before.  Temporary files that an earlier,
killed update may have left do not matter. -/
theorem fetched_exactly_partial (w : World) (hw : ∀ n, w.works n = true) (fuel : Nat) (urls : List Path) (file : Path) (times : Int) (f : Files)
    (s : St) (b : Bool) (hp : ∀ u ∈ urls, ∀ p, NearPath w u p → p ≠ tmp file ∧ p ≠ tmp (tmp file))
    (h : multi w fuel urls file times (start f) = (some b, s)) :
    ∃ got n, Fetch w f times 0 urls got n ∧ s.attempts = n ∧ b = got.any (·.isSome) ∧
      s.files file = (if got.any (·.isSome) then some (joined got) else f file) := by
  obtain ⟨got, h1, h2, h3⟩ := multi_ok hw fuel urls file times f (start f) s b rfl hp h
  exact ⟨got, s.attempts, h1, rfl, h2, h3⟩

theorem names_unique {u r r' : Path} (h : Names u r) (h' : Names u r') : r = r' := by
  have key : ∀ {r}, Names u r → (afterScheme u).map (·.dropWhile (· == 47)) = some r := by
    rintro r ⟨a, k, h1, h2, h3⟩
    have e : u = a ++ 58 :: (List.replicate (k + 2) 47 ++ r) := by
      rw [h1, List.replicate_succ, List.replicate_succ]; rfl
    rw [e, afterScheme_of (by simp [List.replicate_succ]) h3, Option.map_some, dropWhile_slashes _ h2]
  have := (key h).symm.trans (key h')
  simpa using this

theorem nearPath_unique {w : World} {u p q : Path} (h : NearPath w u p) (h' : NearPath w u q) : p = q := by
  have := ((localPath_iff w u p).2 h).symm.trans ((localPath_iff w u q).2 h')
  simpa using this

theorem fetch1_unique {w : World} {f : Files} {times : Int} {n m m' : Nat} {u : Path} {o o' : Option (List Byte)}
    (h : Fetch1 w f times n u o m) (h' : Fetch1 w f times n u o' m') : o = o' ∧ m = m' := by
  cases h with
  | near a b =>
    cases h' with
    | near _ b' => rw [nearPath_unique b b']; exact ⟨rfl, rfl⟩
    | nowhere _ b' => exact absurd b (b' _)
    | far a' => exact absurd a a'
    | gone a' => exact absurd a a'
  | nowhere a b =>
    cases h' with
    | near _ b' => exact absurd b' (b _)
    | nowhere => exact ⟨rfl, rfl⟩
    | far a' => exact absurd a a'
    | gone a' => exact absurd a a'
  | @far k _ a b c d =>
    cases h' with
    | near a' => exact absurd a' a
    | nowhere a' => exact absurd a' a
    | @far k' _ _ b' c' _ =>
      have : k = k' := by
        rcases Nat.lt_trichotomy k k' with h | h | h
        · exact absurd c (b' k h)
        · exact h
        · exact absurd c' (b k' h)
      subst this; exact ⟨rfl, rfl⟩
    | @gone k' _ _ b' c' =>
      have := d (by omega)
      exact absurd c (b' k (by omega))
  | @gone k _ a b c =>
    cases h' with
    | near a' => exact absurd a' a
    | nowhere a' => exact absurd a' a
    | @far k' _ _ b' c' d' =>
      have := d' (by omega)
      exact absurd c' (b k' (by omega))
    | @gone k' _ _ b' c' =>
      have : k = k' := by omega
      subst this; exact ⟨rfl, rfl⟩

/-- What the sources give is determined by the world. -/
theorem fetch_unique {w : World} {f : Files} {times : Int} {n m m' : Nat} {us : List Path} {os os' : List (Option (List Byte))}
    (h : Fetch w f times n us os m) (h' : Fetch w f times n us os' m') : os = os' ∧ m = m' := by
  induction h generalizing os' m' with
  | nil => cases h'; exact ⟨rfl, rfl⟩
  | cons h1 _ ih =>
    cases h' with
    | cons h1' h2' =>
      obtain ⟨rfl, rfl⟩ := fetch1_unique h1 h1'
      obtain ⟨rfl, rfl⟩ := ih h2'
      exact ⟨rfl, rfl⟩

/-- The same over any number of updates and kills, whatever the world is like each time: which files there can be. -/
inductive Reach (urls : List Path) (file : Path) (times : Int) (f : Files) : Files → Prop
  | start : Reach urls file times f f
  /-- An update from the files `g`; it ends, or it is killed, with the files `g'`. -/
  | update {g g' : Files} {w : World} {fuel : Nat} : Reach urls file times f g → (∀ n, w.works n = true) →
      (∀ u ∈ urls, ∀ p, NearPath w u p → p ≠ tmp file ∧ p ≠ tmp (tmp file)) →
      g' ∈ (multi w fuel urls file times (start g)).2.past → Reach urls file times f g'

/-- C98, C99.  Whatever happened before: the hosts file is the one there was at first, or is missing, or is whole, with all that the
sources gave in one update. -/
theorem never_half_partial {urls : List Path} {file : Path} {times : Int} {f g : Files} (h : Reach urls file times f g) :
    g file = f file ∨ g file = none ∨ ∃ w g0 got n, Reach urls file times f g0 ∧ Fetch w g0 times 0 urls got n ∧
      got.any (·.isSome) = true ∧ g file = some (joined got) := by
  induction h with
  | start => exact Or.inl rfl
  | @update g g' w fuel hg hw hp hm ih =>
    generalize hr : multi w fuel urls file times (start g) = r at hm
    obtain ⟨o, s⟩ := r
    obtain ⟨h1, h2, h3⟩ := replaced_whole_partial w fuel urls file times g o s hr g' hm
    by_cases ho : o = some true
    · subst ho
      obtain ⟨got, n, k1, -, k3, k4⟩ := fetched_exactly_partial w hw fuel urls file times g s true hp hr
      rw [if_pos k3.symm] at k4
      rcases h1 with h1 | h1 | h1
      · rw [h1]; exact ih
      · exact Or.inr (Or.inl h1.1)
      · exact Or.inr (Or.inr ⟨w, g, got, n, hg, k1, k3.symm, h1.trans k4⟩)
    · rw [h2 ho]; exact ih

/-! ### Ends, or does not end (C100) -/

theorem copy_ends (w : World) (src dst : Path) (append : Bool) (s : St) (h : src ≠ dst) : (copyAFile w src dst append s).1 ≠ none := by
  unfold copyAFile
  generalize openR w src s = r
  obtain ⟨o, s1⟩ := r
  cases o with
  | none => simp
  | some c =>
    dsimp only
    generalize (if append then openA w dst s1 else openW w dst s1) = q
    obtain ⟨b, s2⟩ := q
    cases b with
    | false => simp
    | true => simp [h]

theorem tryLoop_ends (w : World) (url file : Path) (append : Bool) (fuel : Nat) : ∀ (times : Int) (s : St), 0 ≤ times → times ≤ fuel →
    (tryLoop w url file append fuel times s).1 ≠ none := by
  induction fuel with
  | zero => intro times s h1 h2; unfold tryLoop; rw [if_pos (by omega)]; simp
  | succ fuel ih =>
    intro times s h1 h2
    unfold tryLoop
    split
    · simp
    · generalize base w url (tmp file) s = r
      obtain ⟨b, s1⟩ := r
      dsimp only
      split
      · exact copy_ends w _ _ _ _ (tmp_ne file)
      · rw [if_pos (by omega)]
        exact ih _ _ (by omega) (by omega)

theorem multiLoop_ends (w : World) (fuel : Nat) (temp : Path) (times : Int) (h0 : 0 ≤ times) (hf : times ≤ fuel) (us : List Path) :
    ∀ (state : Bool) (s : St), (∀ u ∈ us, ∀ p, NearPath w u p → p ≠ temp) → (multiLoop w fuel temp times us state s).1 ≠ none := by
  induction us with
  | nil => intro state s _; simp [multiLoop]
  | cons u us ih =>
    intro state s hp
    have h1 : (single w fuel u temp true times s).1 ≠ none := by
      unfold single
      split
      · cases hl : localPath w u with
        | none => simp
        | some p => exact copy_ends w p temp true s (hp u (by simp) p ((localPath_iff w u p).1 hl))
      · have := tryLoop_ends w u temp true fuel times s h0 hf
        generalize tryLoop w u temp true fuel times s = r at this
        obtain ⟨o, s1⟩ := r
        cases o with
        | none => simp at this
        | some b => simp
    unfold multiLoop
    generalize single w fuel u temp true times s = r at h1
    obtain ⟨o, s1⟩ := r
    cases o with
    | none => simp at h1
    | some b =>
      dsimp only
      generalize openA w temp s1 = q
      obtain ⟨b2, s2⟩ := q
      cases b2 with
      | false => simp
      | true => exact ih _ _ (fun v hv => hp v (by simp [hv]))

/-- C100.  With a limit on the number of attempts every update ends, whatever fails. -/
theorem limited_ends (w : World) (fuel : Nat) (urls : List Path) (file : Path) (times : Int) (s : St) (h0 : 0 ≤ times) (hf : times ≤ fuel)
    (hp : ∀ u ∈ urls, ∀ p, NearPath w u p → p ≠ tmp file) : (multi w fuel urls file times s).1 ≠ none := by
  unfold multi
  generalize openW w (tmp file) s = r
  obtain ⟨b, s1⟩ := r
  cases b with
  | false => simp
  | true =>
    have := multiLoop_ends w fuel (tmp file) times h0 hf urls false s1 hp
    dsimp only
    generalize multiLoop w fuel (tmp file) times urls false s1 = q at this
    obtain ⟨o, s2⟩ := q
    match o, this with
    | none, h => simp at h
    | some false, _ => simp
    | some true, _ => simp

theorem fetch_mem {w : World} {f : Files} {times : Int} {n m : Nat} {us : List Path} {os : List (Option (List Byte))}
    (h : Fetch w f times n us os m) {u : Path} (hu : u ∈ us) : ∃ k l o, Fetch1 w f times k u o l := by
  induction h with
  | nil => simp at hu
  | cons h1 _ ih =>
    rcases List.mem_cons.1 hu with rfl | hu
    · exact ⟨_, _, _, h1⟩
    · exact ih hu

/-- Full claim: an update of the hosts, which sets no limit, ends at some time. -/
def UpdateEnds : Prop := ∀ (w : World) (urls : List Path) (file : Path) (f : Files), (∀ n, w.works n = true) →
  (∀ u ∈ urls, ∀ p, NearPath w u p → p ≠ tmp file ∧ p ≠ tmp (tmp file)) → ∃ fuel, (multi w fuel urls file (-1) (start f)).1 ≠ none

/-- One source elsewhere that is never reached keeps the update from ending, and so from replacing anything, whatever the
other sources give. -/
theorem dead_source_blocks (w : World) (hw : ∀ n, w.works n = true) (urls : List Path) (file : Path) (f : Files)
    (hp : ∀ u ∈ urls, ∀ p, NearPath w u p → p ≠ tmp file ∧ p ≠ tmp (tmp file)) (u : Path) (hu : u ∈ urls) (hn : ¬ Near u)
    (hd : ∀ n, ¬ Succeeds w n u) (fuel : Nat) :
    (multi w fuel urls file (-1) (start f)).1 = none ∧ (multi w fuel urls file (-1) (start f)).2.files file = f file := by
  generalize hr : multi w fuel urls file (-1) (start f) = r
  obtain ⟨o, s⟩ := r
  have hn : o = none := by
    cases o with
    | none => rfl
    | some b =>
      obtain ⟨got, n, h1, -⟩ := fetched_exactly_partial w hw fuel urls file (-1) f s b hp hr
      obtain ⟨k, l, o, h2⟩ := fetch_mem h1 hu
      cases h2 with
      | near a => exact absurd a hn
      | nowhere a => exact absurd a hn
      | far _ _ c => exact absurd c (hd _)
      | gone _ _ c => omega
  subst hn
  refine ⟨rfl, ?_⟩
  unfold multi at hr
  rw [openW_ok hw] at hr
  dsimp only at hr
  have h2 := (only_openW (A := fun q => q = tmp file ∨ q = tmp (tmp file)) w (tmp file) (start f) (Or.inl rfl)).trans
    (only_multiLoop w fuel (tmp file) (-1) (Or.inl rfl) (Or.inr rfl) urls false _)
  rw [openW_ok hw] at h2
  dsimp only at h2
  generalize multiLoop w fuel (tmp file) (-1) urls false _ = q at hr h2
  obtain ⟨o, s2⟩ := q
  match o, hr with
  | none, hr =>
    simp only [Prod.mk.injEq, true_and] at hr
    subst hr
    refine h2.now file ?_
    rintro (h | h)
    · exact tmp_ne file h.symm
    · exact tmp_tmp_ne file h.symm
  | some true, hr => simp at hr
  | some false, hr => simp at hr

def deadNet : World := { calm with net := fun _ _ => ⟨true, [], false⟩ }

theorem noNear (w : World) (u : Path) (h : afterScheme u = none) (p : Path) : ¬ NearPath w u p := by
  intro hp
  have := (localPath_iff w u p).2 hp
  simp [localPath, h] at this

theorem calm_path (u p : Path) (w : World) (hw : w.expand = some) (h : NearPath w u p) :
    (afterScheme u).map (fun r => 47 :: r.dropWhile (· == 47)) = some p := by
  have := (localPath_iff w u p).2 h
  unfold localPath at this
  cases ha : afterScheme u with
  | none => rw [ha] at this; simp at this
  | some r =>
    rw [ha] at this
    dsimp only at this
    split at this
    · simp at this
    · rw [hw] at this; simpa using this

theorem update_ends_false : ¬ UpdateEnds := by
  intro h
  have hp : ∀ u ∈ [str "file:///l", str "http://x"], ∀ p, NearPath deadNet u p → p ≠ tmp (str "/h") ∧ p ≠ tmp (tmp (str "/h")) := by
    intro u hu p hp
    have := calm_path u p deadNet rfl hp
    simp only [List.mem_cons, List.not_mem_nil, or_false] at hu
    rcases hu with rfl | rfl
    · have e : (afterScheme (str "file:///l")).map (fun r => 47 :: r.dropWhile (· == 47)) = some (str "/l") := by decide +kernel
      rw [e] at this; simp only [Option.some.injEq] at this; subst this; decide +kernel
    · have e : (afterScheme (str "http://x")).map (fun r => 47 :: r.dropWhile (· == 47)) = some (str "/x") := by decide +kernel
      rw [e] at this; simp only [Option.some.injEq] at this; subst this; decide +kernel
  obtain ⟨fuel, hf⟩ := h deadNet [str "file:///l", str "http://x"] (str "/h") oldFiles (fun _ => rfl) hp
  refine hf (dead_source_blocks deadNet (fun _ => rfl) _ _ oldFiles hp (str "http://x") (by simp) ?_ ?_ fuel).1
  · intro hn
    have := (near_iff _).2 hn
    revert this; decide +kernel
  · intro n; simp [Succeeds, deadNet]

theorem tryLoop_mono (w : World) (url file : Path) (append : Bool) (fuel : Nat) : ∀ (more : Nat) (times : Int) (s : St),
    (tryLoop w url file append fuel times s).1 ≠ none →
    tryLoop w url file append (fuel + more) times s = tryLoop w url file append fuel times s := by
  induction fuel with
  | zero =>
    intro more times s h
    have ht : times = 0 := by
      apply Decidable.byContradiction
      intro ht
      rw [tryLoop, if_neg ht] at h
      simp at h
    subst ht
    cases more with
    | zero => rfl
    | succ more => rw [Nat.zero_add, tryLoop, tryLoop]; simp
  | succ fuel ih =>
    intro more times s h
    rw [show fuel + 1 + more = (fuel + more) + 1 by omega, tryLoop, tryLoop]
    rw [tryLoop] at h
    by_cases ht : times = 0
    · rw [if_pos ht, if_pos ht]
    · rw [if_neg ht] at h ⊢
      rw [if_neg ht]
      generalize base w url (tmp file) s = r at h
      obtain ⟨b, s1⟩ := r
      dsimp only at h ⊢
      by_cases hb : b = 0
      · rw [if_pos hb, if_pos hb]
      · rw [if_neg hb] at h ⊢
        rw [if_neg hb]
        exact ih more _ _ h

theorem tryLoop_reached {w : World} (hw : ∀ n, w.works n = true) (url file : Path) (append : Bool) (k : Nat) : ∀ (s : St),
    Succeeds w (s.attempts + k) url → (tryLoop w url file append (k + 1) (-1) s).1 ≠ none := by
  induction k with
  | zero =>
    intro s h
    obtain ⟨r, s1, c, h1, h2, h3, h4⟩ := base_ok hw url (tmp file) s
    rw [tryLoop, if_neg (by omega), h1]
    dsimp only
    rw [if_pos (h3.2 h)]
    exact copy_ends w _ _ _ _ (tmp_ne file)
  | succ k ih =>
    intro s h
    obtain ⟨r, s1, c, h1, h2, h3, h4⟩ := base_ok hw url (tmp file) s
    rw [tryLoop, if_neg (by omega), h1]
    dsimp only
    split
    · exact copy_ends w _ _ _ _ (tmp_ne file)
    · rw [if_neg (by omega)]
      refine ih s1 ?_
      rw [h2.attempts]
      rwa [show s.attempts + 1 + k = s.attempts + (k + 1) by omega]

theorem single_reached {w : World} (hw : ∀ n, w.works n = true) (u file : Path) (s : St) (hp : ∀ p, NearPath w u p → p ≠ file)
    (hr : ¬ Near u → ∀ n, ∃ m, n ≤ m ∧ Succeeds w m u) :
    ∃ fuel b s', ∀ more, single w (fuel + more) u file true (-1) s = (some b, s') := by
  unfold single
  by_cases hn : u.take 4 = [102, 105, 108, 101]
  · simp only [if_pos hn]
    cases hl : localPath w u with
    | none => exact ⟨0, false, s, fun _ => rfl⟩
    | some p =>
      have := copy_ends w p file true s (hp p ((localPath_iff w u p).1 hl))
      dsimp only
      generalize copyAFile w p file true s = r at this
      obtain ⟨o, s1⟩ := r
      cases o with
      | none => simp at this
      | some b => exact ⟨0, b, s1, fun _ => rfl⟩
  · simp only [if_neg hn]
    obtain ⟨m, hm, hs⟩ := hr (fun h => hn ((near_iff u).2 h)) s.attempts
    have h1 := tryLoop_reached hw u file true (m - s.attempts) s (by rwa [show s.attempts + (m - s.attempts) = m by omega])
    have h2 := fun more => tryLoop_mono w u file true (m - s.attempts + 1) more (-1) s h1
    generalize tryLoop w u file true (m - s.attempts + 1) (-1) s = r at h1 h2
    obtain ⟨o, s1⟩ := r
    cases o with
    | none => simp at h1
    | some b => exact ⟨m - s.attempts + 1, b, remove w (tmp file) s1, fun more => by rw [h2 more]⟩

theorem multiLoop_reached {w : World} (hw : ∀ n, w.works n = true) (temp : Path) (us : List Path) : ∀ (state : Bool) (s : St),
    (∀ u ∈ us, ∀ p, NearPath w u p → p ≠ temp) → (∀ u ∈ us, ¬ Near u → ∀ n, ∃ m, n ≤ m ∧ Succeeds w m u) →
    ∃ fuel, ∀ more, (multiLoop w (fuel + more) temp (-1) us state s).1 ≠ none := by
  induction us with
  | nil => intro state s _ _; exact ⟨0, by simp [multiLoop]⟩
  | cons u us ih =>
    intro state s hp hr
    obtain ⟨f1, b, s1, h1⟩ := single_reached hw u temp s (hp u (by simp)) (hr u (by simp))
    have h2 := openA_ok hw temp s1
    generalize s1.called.store (s1.files.set temp (some ((s1.files temp).getD []))) = s2 at h2
    obtain ⟨f2, h3⟩ := ih (state || b) (putc w temp 10 s2) (fun v hv => hp v (by simp [hv])) (fun v hv => hr v (by simp [hv]))
    refine ⟨f1 + f2, fun more => ?_⟩
    rw [multiLoop, show f1 + f2 + more = f1 + (f2 + more) by omega, h1]
    dsimp only
    rw [h2]
    dsimp only
    rw [show f1 + (f2 + more) = f2 + (f1 + more) by omega]
    exact h3 _

/-- C100.  Without a limit: if every source elsewhere can be reached again and again, the update ends. -/
theorem reached_ends_partial (w : World) (urls : List Path) (file : Path) (s : St)
    (hw : ∀ n, w.works n = true) (hp : ∀ u ∈ urls, ∀ p, NearPath w u p → p ≠ tmp file)
    (hr : ∀ u ∈ urls, ¬ Near u → ∀ n, ∃ m, n ≤ m ∧ Succeeds w m u) : ∃ fuel, (multi w fuel urls file (-1) s).1 ≠ none := by
  have h1 := openW_ok hw (tmp file) s
  generalize s.called.store (s.files.set (tmp file) (some [])) = s1 at h1
  obtain ⟨fuel, h2⟩ := multiLoop_reached hw (tmp file) urls false s1 hp hr
  refine ⟨fuel, ?_⟩
  have h2 := h2 0
  rw [Nat.add_zero] at h2
  unfold multi
  rw [h1]
  dsimp only
  generalize multiLoop w fuel (tmp file) (-1) urls false s1 = q at h2
  obtain ⟨o, s2⟩ := q
  match o, h2 with
  | none, h => simp at h
  | some false, _ => simp
  | some true, _ => simp

end Verif.Downloader
