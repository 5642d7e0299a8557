import Verif.Spec.Downloader
/-! What the steps of `Model/Downloader` do to the files. -/

namespace Verif.Downloader

theorem set_same (f : Files) (p : Path) (c : Option (List Byte)) : f.set p c p = c := by simp [Files.set]

theorem set_other (f : Files) {p q : Path} (c : Option (List Byte)) (h : q ≠ p) : f.set p c q = f q := by simp [Files.set, h]

theorem set_set (f : Files) (p : Path) (c d : Option (List Byte)) : (f.set p c).set p d = f.set p d := by
  funext q; unfold Files.set; split <;> rfl

theorem tmp_ne (p : Path) : tmp p ≠ p := by
  intro h; have := congrArg List.length h; simp [tmp] at this

theorem tmp_tmp_ne (p : Path) : tmp (tmp p) ≠ p := by
  intro h; have := congrArg List.length h; simp [tmp] at this

/-! ### Which files are touched -/

/-- From `s` to `s'` only files in `A` were changed, also in between. -/
structure Only (A : Path → Prop) (s s' : St) : Prop where
  now : ∀ q, ¬ A q → s'.files q = s.files q
  past : ∀ g ∈ s'.past, g ∈ s.past ∨ ∀ q, ¬ A q → g q = s.files q

theorem Only.refl (A : Path → Prop) (s : St) : Only A s s := ⟨fun _ _ => rfl, fun _ h => Or.inl h⟩

theorem Only.trans {A : Path → Prop} {s t u : St} (h : Only A s t) (k : Only A t u) : Only A s u := by
  refine ⟨fun q hq => (k.now q hq).trans (h.now q hq), fun g hg => ?_⟩
  rcases k.past g hg with h1 | h1
  · exact h.past g h1
  · exact Or.inr (fun q hq => (h1 q hq).trans (h.now q hq))

theorem only_called (A : Path → Prop) (s : St) : Only A s s.called := ⟨fun _ _ => rfl, fun _ h => Or.inl h⟩

theorem only_store {A : Path → Prop} (s : St) (f : Files) (h : ∀ q, ¬ A q → f q = s.files q) : Only A s (s.called.store f) := by
  refine ⟨h, fun g hg => ?_⟩
  rcases List.mem_cons.1 hg with rfl | hg
  · exact Or.inr h
  · exact Or.inl hg

theorem only_set {A : Path → Prop} (s : St) (p : Path) (c : Option (List Byte)) (h : A p) :
    Only A s (s.called.store (s.files.set p c)) :=
  only_store s _ (fun q hq => set_other _ _ (by rintro rfl; exact hq h))

theorem only_openW {A : Path → Prop} (w : World) (p : Path) (s : St) (h : A p) : Only A s (openW w p s).2 := by
  unfold openW; split
  · exact only_set s p _ h
  · exact only_called A s

theorem only_openA {A : Path → Prop} (w : World) (p : Path) (s : St) (h : A p) : Only A s (openA w p s).2 := by
  unfold openA; split
  · exact only_set s p _ h
  · exact only_called A s

theorem only_openR {A : Path → Prop} (w : World) (p : Path) (s : St) : Only A s (openR w p s).2 := by
  unfold openR; split <;> exact only_called A s

theorem only_putc {A : Path → Prop} (w : World) (p : Path) (c : Byte) (s : St) (h : A p) : Only A s (putc w p c s) := by
  unfold putc; split
  · exact only_set s p _ h
  · exact only_called A s

theorem only_puts {A : Path → Prop} (w : World) (p : Path) (cs : List Byte) (h : A p) : ∀ s, Only A s (puts w p cs s) := by
  induction cs with
  | nil => intro s; exact Only.refl A s
  | cons c cs ih => intro s; exact (only_putc w p c s h).trans (ih _)

theorem only_remove {A : Path → Prop} (w : World) (p : Path) (s : St) (h : A p) : Only A s (remove w p s) := by
  unfold remove; split
  · exact only_set s p _ h
  · exact only_called A s

theorem only_copy {A : Path → Prop} (w : World) (src dst : Path) (append : Bool) (s : St) (h : A dst) :
    Only A s (copyAFile w src dst append s).2 := by
  unfold copyAFile
  have h1 := only_openR (A := A) w src s
  generalize hr : openR w src s = r at h1
  obtain ⟨o, s1⟩ := r
  cases o with
  | none => exact h1
  | some c =>
    have h2 : Only A s1 (if append then openA w dst s1 else openW w dst s1).2 := by
      split
      · exact only_openA w dst s1 h
      · exact only_openW w dst s1 h
    dsimp only
    generalize hq : (if append then openA w dst s1 else openW w dst s1) = q at h2
    obtain ⟨b, s2⟩ := q
    cases b with
    | false => exact h1.trans h2
    | true =>
      dsimp only
      split
      · split <;> exact h1.trans h2
      · exact (h1.trans h2).trans (only_puts w dst c h s2)

theorem only_base {A : Path → Prop} (w : World) (url file : Path) (s : St) (h : A file) : Only A s (base w url file s).2 := by
  unfold base
  have h1 := only_openW w file s h
  generalize openW w file s = r at h1
  obtain ⟨b, s1⟩ := r
  cases b with
  | false => exact h1
  | true =>
    have h2 : Only A s1 { s1 with attempts := s1.attempts + 1 } := ⟨fun _ _ => rfl, fun _ h => Or.inl h⟩
    dsimp only
    split
    · exact h1.trans h2
    · exact (h1.trans h2).trans (only_puts w file _ h _)

theorem only_tryLoop {A : Path → Prop} (w : World) (url file : Path) (append : Bool) (h : A file) (h' : A (tmp file)) (fuel : Nat) :
    ∀ times s, Only A s (tryLoop w url file append fuel times s).2 := by
  induction fuel with
  | zero => intro times s; unfold tryLoop; split <;> exact Only.refl A s
  | succ fuel ih =>
    intro times s
    unfold tryLoop
    split
    · exact Only.refl A s
    · have h1 := only_base w url (tmp file) s h'
      generalize base w url (tmp file) s = r at h1
      obtain ⟨b, s1⟩ := r
      dsimp only
      split
      · exact h1.trans (only_copy w _ _ _ _ h)
      · exact h1.trans (ih _ _)

theorem only_single {A : Path → Prop} (w : World) (fuel : Nat) (url file : Path) (append : Bool) (times : Int) (s : St) (h : A file)
    (h' : A (tmp file)) : Only A s (single w fuel url file append times s).2 := by
  unfold single
  split
  · cases localPath w url with
    | none => exact Only.refl A s
    | some p => exact only_copy w p file append s h
  · have h1 := only_tryLoop w url file append h h' fuel times s
    generalize tryLoop w url file append fuel times s = r at h1
    obtain ⟨o, s1⟩ := r
    cases o with
    | none => exact h1
    | some b => exact h1.trans (only_remove w _ _ h')

theorem only_multiLoop {A : Path → Prop} (w : World) (fuel : Nat) (temp : Path) (times : Int) (h : A temp) (h' : A (tmp temp)) (us : List Path) :
    ∀ state s, Only A s (multiLoop w fuel temp times us state s).2 := by
  induction us with
  | nil => intro state s; exact Only.refl A s
  | cons u us ih =>
    intro state s
    unfold multiLoop
    have h1 := only_single w fuel u temp true times s h h'
    generalize single w fuel u temp true times s = r at h1
    obtain ⟨o, s1⟩ := r
    cases o with
    | none => exact h1
    | some b =>
      have h2 := only_openA w temp s1 h
      dsimp only
      generalize openA w temp s1 = q at h2
      obtain ⟨b2, s2⟩ := q
      cases b2 with
      | false => exact h1.trans h2
      | true => exact ((h1.trans h2).trans (only_putc w temp 10 s2 h)).trans (ih _ _)

/-! ### What is written, if everything works -/

variable {w : World}

theorem openW_ok (hw : ∀ n, w.works n = true) (p : Path) (s : St) :
    openW w p s = (true, s.called.store (s.files.set p (some []))) := by simp [openW, hw]

theorem openA_ok (hw : ∀ n, w.works n = true) (p : Path) (s : St) :
    openA w p s = (true, s.called.store (s.files.set p (some ((s.files p).getD [])))) := by simp [openA, hw]

theorem openR_ok (hw : ∀ n, w.works n = true) (p : Path) (s : St) : openR w p s = (s.files p, s.called) := by simp [openR, hw]

/-- `s'` differs from `s` in the content of `p`, and in the number of attempts. -/
structure Wrote (p : Path) (c : Option (List Byte)) (n : Nat) (s s' : St) : Prop where
  files : s'.files = s.files.set p c
  attempts : s'.attempts = n

theorem putc_ok (hw : ∀ n, w.works n = true) (p : Path) (b : Byte) (s : St) (c : List Byte) (h : s.files p = some c) :
    Wrote p (some (c ++ [b])) s.attempts s (putc w p b s) := by
  constructor <;> simp [putc, hw, h, St.store, St.called]

theorem puts_ok (hw : ∀ n, w.works n = true) (p : Path) (bs : List Byte) : ∀ (s : St) (c : List Byte), s.files p = some c →
    Wrote p (some (c ++ bs)) s.attempts s (puts w p bs s) := by
  induction bs with
  | nil =>
    intro s c h
    refine ⟨?_, rfl⟩
    funext q
    by_cases hq : q = p
    · subst hq; rw [set_same, puts, h, List.append_nil]
    · rw [set_other _ _ hq, puts]
  | cons b bs ih =>
    intro s c h
    have h1 := putc_ok hw p b s c h
    have h2 := ih (putc w p b s) (c ++ [b]) (by rw [h1.files, set_same])
    refine ⟨?_, ?_⟩
    · rw [puts, h2.files, h1.files, set_set]; simp
    · rw [puts, h2.attempts, h1.attempts]

theorem remove_ok (hw : ∀ n, w.works n = true) (p : Path) (s : St) : Wrote p none s.attempts s (remove w p s) := by
  constructor <;> simp [remove, hw, St.store, St.called]

/-- A copy that appends. -/
theorem copy_ok (hw : ∀ n, w.works n = true) (src dst : Path) (s : St) (c : List Byte) (hne : src ≠ dst) (hd : s.files dst = some c) :
    ∃ s', copyAFile w src dst true s = (some (s.files src).isSome, s') ∧
      Wrote dst (some (c ++ (s.files src).getD [])) s.attempts s s' := by
  unfold copyAFile
  rw [openR_ok hw]
  cases hs : s.files src with
  | none =>
    refine ⟨s.called, rfl, ?_, rfl⟩
    funext q
    by_cases hq : q = dst
    · subst hq; rw [set_same]; simpa [St.called] using hd
    · rw [set_other _ _ hq]; rfl
  | some d =>
    dsimp only
    rw [if_pos rfl, openA_ok hw]
    dsimp only
    rw [if_neg hne]
    have h := puts_ok hw dst d (s.called.called.store (s.called.files.set dst (some ((s.called.files dst).getD [])))) c
      (by simp [St.store, St.called, set_same, hd])
    refine ⟨_, rfl, ?_, h.attempts⟩
    rw [h.files]
    simp [St.store, St.called, set_set]

theorem base_ok (hw : ∀ n, w.works n = true) (url file : Path) (s : St) :
    ∃ r s' c, base w url file s = (r, s') ∧ Wrote file c (s.attempts + 1) s s' ∧
      (r = 0 ↔ Succeeds w s.attempts url) ∧ (Succeeds w s.attempts url → c = some (w.net s.attempts url).data) := by
  unfold base
  rw [openW_ok hw]
  dsimp only
  have e : (s.called.store (s.files.set file (some []))).attempts = s.attempts := rfl
  rw [e]
  unfold Succeeds
  cases hh : (w.net s.attempts url).handle with
  | false => exact ⟨-2, _, some [], rfl, ⟨rfl, rfl⟩, by simp, by simp⟩
  | true =>
    have h := puts_ok hw file (w.net s.attempts url).data
      { s.called.store (s.files.set file (some [])) with attempts := s.attempts + 1 } [] (by simp [St.store, set_same])
    rw [if_neg (by simp)]
    refine ⟨_, _, some (w.net s.attempts url).data, rfl, ⟨?_, h.attempts⟩, ?_, by simp⟩
    · rw [h.files]; simp [St.store, St.called, set_set]
    · cases (w.net s.attempts url).ok <;> simp

theorem tryLoop_ok (hw : ∀ n, w.works n = true) (url file : Path) (fuel : Nat) : ∀ (times : Int) (s s' : St) (c : List Byte) (b : Bool),
    s.files file = some c → tryLoop w url file true fuel times s = (some b, s') →
    ∃ k o, (∀ i < k, ¬ Succeeds w (s.attempts + i) url) ∧ (o = none → b = false ∧ (k : Int) = times ∧ s'.attempts = s.attempts + k) ∧
      (∀ d, o = some d → b = true ∧ Succeeds w (s.attempts + k) url ∧ d = (w.net (s.attempts + k) url).data ∧ (0 ≤ times → (k : Int) < times) ∧
        s'.attempts = s.attempts + k + 1) ∧
      s'.files file = some (c ++ o.getD []) ∧ (∀ q, q ≠ file → q ≠ tmp file → s'.files q = s.files q) := by
  induction fuel with
  | zero =>
    intro times s s' c b hc h
    unfold tryLoop at h
    split at h
    · next ht =>
      simp only [Prod.mk.injEq, Option.some.injEq] at h
      obtain ⟨rfl, rfl⟩ := h
      exact ⟨0, none, by simp, by simp [ht], by simp, by simp [hc], by simp⟩
    · simp at h
  | succ fuel ih =>
    intro times s s' c b hc h
    unfold tryLoop at h
    split at h
    · next ht =>
      simp only [Prod.mk.injEq, Option.some.injEq] at h
      obtain ⟨rfl, rfl⟩ := h
      exact ⟨0, none, by simp, by simp [ht], by simp, by simp [hc], by simp⟩
    · next ht =>
      obtain ⟨r, s1, c1, h1, h2, h3, h4⟩ := base_ok hw url (tmp file) s
      rw [h1] at h
      dsimp only at h
      have hf : s1.files file = some c := by rw [h2.files, set_other _ _ (tmp_ne file).symm, hc]
      by_cases hr : r = 0
      · rw [if_pos hr] at h
        have hs := h3.1 hr
        obtain ⟨s2, h5, h6⟩ := copy_ok hw (tmp file) file s1 c (tmp_ne file) hf
        have ht1 : s1.files (tmp file) = some (w.net s.attempts url).data := by rw [h2.files, set_same, h4 hs]
        rw [h5, ht1] at h
        simp only [Option.isSome_some, Prod.mk.injEq, Option.some.injEq] at h
        obtain ⟨rfl, rfl⟩ := h
        refine ⟨0, some (w.net s.attempts url).data, by simp, by simp, ?_, ?_, ?_⟩
        · intro d hd
          simp only [Option.some.injEq] at hd
          refine ⟨rfl, by simpa using hs, by simp [hd], by intro; omega, ?_⟩
          rw [h6.attempts, h2.attempts]
        · rw [h6.files, set_same, ht1]
        · intro q hq hq'
          rw [h6.files, set_other _ _ hq, h2.files, set_other _ _ hq']
      · rw [if_neg hr] at h
        have hs : ¬ Succeeds w s.attempts url := fun hs => hr (h3.2 hs)
        obtain ⟨k, o, i1, i2, i3, i4, i5⟩ := ih _ _ _ _ _ hf h
        rw [h2.attempts] at i1 i2 i3
        refine ⟨k + 1, o, ?_, ?_, ?_, i4, ?_⟩
        · intro i hi
          cases i with
          | zero => exact hs
          | succ i => have := i1 i (by omega); rwa [show s.attempts + (i + 1) = s.attempts + 1 + i by omega]
        · intro ho
          obtain ⟨j1, j2, j3⟩ := i2 ho
          refine ⟨j1, ?_, by omega⟩
          split at j2 <;> omega
        · intro d hd
          obtain ⟨j1, j2, j3, j4, j5⟩ := i3 d hd
          refine ⟨j1, ?_, ?_, ?_, by omega⟩
          · rwa [show s.attempts + (k + 1) = s.attempts + 1 + k by omega]
          · rwa [show s.attempts + (k + 1) = s.attempts + 1 + k by omega]
          · intro h0
            rw [if_pos (by omega)] at j4
            have := j4 (by omega)
            omega
        · intro q hq hq'
          rw [i5 q hq hq', h2.files, set_other _ _ hq']

/-! ### Paths -/

theorem afterScheme_some {url r : List Byte} (h : afterScheme url = some r) :
    ∃ a, url = a ++ 58 :: r ∧ r.take 2 = [47, 47] ∧ ¬ [58, 47, 47] <:+: a ++ [58, 47] := by
  induction url with
  | nil => simp [afterScheme] at h
  | cons c l ih =>
    unfold afterScheme at h
    split at h
    · next hc =>
      simp only [Option.some.injEq] at h
      subst h
      refine ⟨[], by simp [hc.1], hc.2, ?_⟩
      rintro ⟨x, y, hxy⟩
      have := congrArg List.length hxy
      simp at this
      omega
    · next hc =>
      obtain ⟨a, h1, h2, h3⟩ := ih h
      refine ⟨c :: a, by simp [h1], h2, ?_⟩
      rintro ⟨x, y, hxy⟩
      cases x with
      | nil =>
        simp only [List.nil_append, List.cons_append, List.cons.injEq] at hxy
        obtain ⟨rfl, hy⟩ := hxy
        apply hc
        refine ⟨rfl, ?_⟩
        rw [h1]
        match a, hy with
        | [], hy => simp at hy
        | [a0], hy => simp at hy
        | a0 :: a1 :: a', hy => simp at hy; simp [← hy.1, ← hy.2.1]
      | cons x0 x =>
        simp only [List.cons_append, List.cons.injEq] at hxy
        exact h3 ⟨x, y, by simpa using hxy.2⟩

theorem afterScheme_of {a r : List Byte} (hr : r.take 2 = [47, 47]) (ha : ¬ [58, 47, 47] <:+: a ++ [58, 47]) :
    afterScheme (a ++ 58 :: r) = some r := by
  induction a with
  | nil => simp [afterScheme, hr]
  | cons c a ih =>
    rw [List.cons_append, afterScheme, if_neg, ih]
    · rintro ⟨x, y, hxy⟩
      exact ha ⟨c :: x, y, by simpa using hxy⟩
    · rintro ⟨rfl, h2⟩
      apply ha
      match a, h2 with
      | [], h2 => simp at h2
      | [a0], h2 => simp at h2
      | a0 :: a1 :: a', h2 =>
        simp at h2
        exact ⟨[], a' ++ [58, 47], by simp [h2.1, h2.2]⟩

theorem slashes (r : List Byte) : ∃ k, r = List.replicate k 47 ++ r.dropWhile (· == 47) := by
  induction r with
  | nil => exact ⟨0, rfl⟩
  | cons c r ih =>
    by_cases hc : c = 47
    · obtain ⟨k, hk⟩ := ih
      refine ⟨k + 1, ?_⟩
      subst hc
      rw [List.dropWhile_cons_of_pos (by simp), List.replicate_succ, List.cons_append, ← hk]
    · exact ⟨0, by rw [List.dropWhile_cons_of_neg (by simp [hc])]; rfl⟩

theorem dropWhile_head (r : List Byte) : (r.dropWhile (· == 47)).head? ≠ some 47 := by
  induction r with
  | nil => simp
  | cons c r ih =>
    by_cases hc : c = 47
    · rw [List.dropWhile_cons_of_pos (by simp [hc])]; exact ih
    · rw [List.dropWhile_cons_of_neg (by simp [hc])]; simp [hc]

theorem dropWhile_slashes (k : Nat) {rest : List Byte} (h : rest.head? ≠ some 47) :
    (List.replicate k 47 ++ rest).dropWhile (· == (47 : Byte)) = rest := by
  induction k with
  | zero =>
    cases rest with
    | nil => rfl
    | cons c r => simp at h; simp [h]
  | succ k ih => rw [List.replicate_succ, List.cons_append, List.dropWhile_cons_of_pos (by simp)]; exact ih

/-- The path is found exactly as the specification says. -/
theorem localPath_iff (w : World) (url p : Path) : localPath w url = some p ↔ NearPath w url p := by
  constructor
  · intro h
    unfold localPath at h
    cases ha : afterScheme url with
    | none => rw [ha] at h; simp at h
    | some r =>
      rw [ha] at h
      dsimp only at h
      split at h
      · simp at h
      · next hl =>
        obtain ⟨a, h1, h2, h3⟩ := afterScheme_some ha
        refine ⟨r.dropWhile (· == 47), ⟨a, ?_⟩, by simp at hl; omega, h⟩
        match r, h2 with
        | x :: y :: r, h2 =>
          simp at h2
          obtain ⟨rfl, rfl⟩ := h2
          obtain ⟨k, hk⟩ := slashes r
          refine ⟨k, ?_, dropWhile_head _, h3⟩
          rw [List.dropWhile_cons_of_pos (by simp), List.dropWhile_cons_of_pos (by simp), ← hk, h1]
          rfl
  · rintro ⟨rest, ⟨a, k, h1, h2, h3⟩, h4, h5⟩
    unfold localPath
    have e : url = a ++ 58 :: (List.replicate (k + 2) 47 ++ rest) := by
      rw [h1, List.replicate_succ, List.replicate_succ]; rfl
    rw [e, afterScheme_of (by simp [List.replicate_succ]) h3]
    dsimp only
    rw [dropWhile_slashes _ h2, if_neg (by simp; omega), h5]

theorem near_iff (url : Path) : url.take 4 = [102, 105, 108, 101] ↔ Near url := by
  constructor
  · intro h
    exact ⟨url.drop 4, by rw [show str "file" = [102, 105, 108, 101] by decide, ← h, List.take_append_drop]⟩
  · rintro ⟨r, rfl⟩
    rw [show str "file" = [102, 105, 108, 101] by decide]
    simp

/-! ### The sources -/

theorem single_ok (hw : ∀ n, w.works n = true) (fuel : Nat) (url file : Path) (times : Int) (s s' : St) (c : List Byte) (b : Bool)
    (f : Files) (hc : s.files file = some c) (hf : ∀ q, q ≠ file → q ≠ tmp file → s.files q = f q)
    (hp : ∀ p, NearPath w url p → p ≠ file ∧ p ≠ tmp file)
    (h : single w fuel url file true times s = (some b, s')) :
    ∃ o, Fetch1 w f times s.attempts url o s'.attempts ∧ b = o.isSome ∧ s'.files file = some (c ++ o.getD []) ∧
      (∀ q, q ≠ file → q ≠ tmp file → s'.files q = f q) := by
  unfold single at h
  split at h
  · next hn =>
    have hn := (near_iff url).1 hn
    cases hl : localPath w url with
    | none =>
      rw [hl] at h
      simp only [Prod.mk.injEq, Option.some.injEq] at h
      obtain ⟨rfl, rfl⟩ := h
      refine ⟨none, .nowhere hn (fun p hp => ?_), rfl, by simp [hc], hf⟩
      rw [(localPath_iff w url p).2 hp] at hl; simp at hl
    | some p =>
      rw [hl] at h
      dsimp only at h
      have hnp := (localPath_iff w url p).1 hl
      obtain ⟨p1, p2⟩ := hp p hnp
      obtain ⟨s1, h1, h2⟩ := copy_ok hw p file s c p1 hc
      rw [h1] at h
      simp only [Prod.mk.injEq, Option.some.injEq] at h
      obtain ⟨rfl, rfl⟩ := h
      rw [hf p p1 p2] at h2 ⊢
      refine ⟨f p, ?_, rfl, by rw [h2.files, set_same], ?_⟩
      · rw [h2.attempts]; exact .near hn hnp
      · intro q hq hq'
        rw [h2.files, set_other _ _ hq, hf q hq hq']
  · next hn =>
    have hn : ¬ Near url := fun h => hn ((near_iff url).2 h)
    generalize ht : tryLoop w url file true fuel times s = r at h
    obtain ⟨o, s1⟩ := r
    cases o with
    | none => simp at h
    | some b' =>
      simp only [Prod.mk.injEq, Option.some.injEq] at h
      obtain ⟨rfl, rfl⟩ := h
      obtain ⟨k, o, h1, h2, h3, h4, h5⟩ := tryLoop_ok hw url file fuel times s s1 c b' hc ht
      have h6 := remove_ok hw (tmp file) s1
      refine ⟨o, ?_, ?_, ?_, ?_⟩
      · rw [h6.attempts]
        cases o with
        | none =>
          obtain ⟨j1, j2, j3⟩ := h2 rfl
          rw [j3]; exact .gone hn h1 j2
        | some d =>
          obtain ⟨j1, j2, j3, j4, j5⟩ := h3 d rfl
          rw [j5, j3]; exact .far hn h1 j2 j4
      · cases o with
        | none => exact (h2 rfl).1
        | some d => exact (h3 d rfl).1
      · rw [h6.files, set_other _ _ (tmp_ne file).symm, h4]
      · intro q hq hq'
        rw [h6.files, set_other _ _ hq', h5 q hq hq', hf q hq hq']

theorem multiLoop_ok (hw : ∀ n, w.works n = true) (fuel : Nat) (temp : Path) (times : Int) (f : Files) (us : List Path) :
    ∀ (state : Bool) (s s' : St) (c : List Byte) (b : Bool), s.files temp = some c →
    (∀ q, q ≠ temp → q ≠ tmp temp → s.files q = f q) → (∀ u ∈ us, ∀ p, NearPath w u p → p ≠ temp ∧ p ≠ tmp temp) →
    multiLoop w fuel temp times us state s = (some b, s') →
    ∃ got, Fetch w f times s.attempts us got s'.attempts ∧ b = (state || got.any (·.isSome)) ∧ s'.files temp = some (c ++ joined got) ∧
      (∀ q, q ≠ temp → q ≠ tmp temp → s'.files q = f q) := by
  induction us with
  | nil =>
    intro state s s' c b hc hf hp h
    simp only [multiLoop, Prod.mk.injEq, Option.some.injEq] at h
    obtain ⟨rfl, rfl⟩ := h
    exact ⟨[], .nil, by simp, by simp [joined, hc], hf⟩
  | cons u us ih =>
    intro state s s' c b hc hf hp h
    unfold multiLoop at h
    generalize hs : single w fuel u temp true times s = r at h
    obtain ⟨o, s1⟩ := r
    cases o with
    | none => simp at h
    | some b1 =>
      obtain ⟨o, h1, h2, h3, h4⟩ := single_ok hw fuel u temp times s s1 c b1 f hc hf (hp u (by simp)) hs
      dsimp only at h
      rw [openA_ok hw, h3] at h
      dsimp only at h
      have h5 := putc_ok hw temp 10 (s1.called.store (s1.files.set temp (some (c ++ o.getD [])))) (c ++ o.getD []) (by simp [St.store, set_same])
      have e : (s1.called.store (s1.files.set temp (some (c ++ o.getD [])))).files = s1.files.set temp (some (c ++ o.getD [])) := rfl
      have e2 : (s1.called.store (s1.files.set temp (some (c ++ o.getD [])))).attempts = s1.attempts := rfl
      rw [show some ((some (c ++ o.getD [])).getD []) = some (c ++ o.getD []) from rfl] at h
      obtain ⟨got, i1, i2, i3, i4⟩ := ih _ _ _ _ _ (by rw [h5.files, set_same])
        (fun q hq hq' => by rw [h5.files, set_other _ _ hq, e, set_other _ _ hq, h4 q hq hq']) (fun v hv => hp v (by simp [hv])) h
      rw [h5.attempts, e2] at i1
      refine ⟨o :: got, .cons h1 i1, ?_, ?_, i4⟩
      · rw [i2, h2]; simp [Bool.or_assoc]
      · rw [i3]; simp [joined]

end Verif.Downloader
