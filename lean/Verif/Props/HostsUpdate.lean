import Verif.Props.Downloader
/-! What is looked up after an update of the hosts (C101), and what an update loses. -/

namespace Verif.Downloader
open ReadLine (Visible NoComment Bare whites LineOk Seen text readFile)
open Hosts (Entry Lines LineEntry OneWord Line Foreign Cont HType Used entriesFor)

/-! ### What is to be seen of a line is determined -/

theorem noComment_unique {s t u : List Byte} (h : NoComment s t) (k : NoComment s u) : t = u := by
  have key : ∀ {t}, NoComment s t → t = s.takeWhile (fun c => c != 35 && c != 59) := by
    rintro t ⟨h1, h2⟩
    have e : ∀ c ∈ t, (c != 35 && c != 59) = true := fun c hc => by have := h1 c hc; simp [this.1, this.2]
    rcases h2 with rfl | ⟨r, rfl | rfl⟩
    · have := List.takeWhile_append_of_pos (l₂ := []) e
      simpa using this.symm
    · rw [List.takeWhile_append_of_pos e]; simp
    · rw [List.takeWhile_append_of_pos e]; simp
  rw [key h, key k]

theorem strip_left {a b t u : List Byte} (ha : ∀ c ∈ a, c ∈ whites) (hb : ∀ c ∈ b, c ∈ whites) (ht : ∀ c, t.head? = some c → c ∉ whites)
    (hu : ∀ c, u.head? = some c → c ∉ whites) (h : a ++ t = b ++ u) : t = u := by
  induction a generalizing b with
  | nil =>
    cases b with
    | nil => simpa using h
    | cons c b =>
      rw [List.nil_append] at h
      exact absurd (hb c (by simp)) (ht c (by rw [h]; simp))
  | cons c a ih =>
    cases b with
    | nil =>
      rw [List.nil_append] at h
      exact absurd (ha c (by simp)) (hu c (by rw [← h]; simp))
    | cons d b =>
      simp only [List.cons_append, List.cons.injEq] at h
      exact ih (fun x hx => ha x (by simp [hx])) (fun x hx => hb x (by simp [hx])) h.2

theorem bare_nil {s t : List Byte} (h : Bare s t) (hs : ∀ c ∈ s, c ∈ whites) : t = [] := by
  obtain ⟨a, b, rfl, -, -, h3, -⟩ := h
  cases t with
  | nil => rfl
  | cons c t => exact absurd (hs c (by simp)) (h3 c (by simp))

theorem bare_unique {s t u : List Byte} (h : Bare s t) (k : Bare s u) : t = u := by
  by_cases hs : ∀ c ∈ s, c ∈ whites
  · rw [bare_nil h hs, bare_nil k hs]
  · have hne : ∀ {t}, Bare s t → t ≠ [] := by
      rintro t ⟨a, b, rfl, h1, h2, -, -⟩ rfl
      apply hs
      intro c hc
      simp only [List.append_nil, List.mem_append] at hc
      exact hc.elim (h1 c) (h2 c)
    have ht := hne h
    have hu := hne k
    obtain ⟨a, b, e1, h1, h2, h3, h4⟩ := h
    obtain ⟨a', b', e2, k1, k2, k3, k4⟩ := k
    have e : t ++ b = u ++ b' := by
      refine strip_left h1 k1 ?_ ?_ (by rw [← List.append_assoc, ← List.append_assoc, ← e1, ← e2])
      · intro c hc; cases t with | nil => exact absurd rfl ht | cons x t => exact h3 c (by simpa using hc)
      · intro c hc; cases u with | nil => exact absurd rfl hu | cons x u => exact k3 c (by simpa using hc)
    have e' : b.reverse ++ t.reverse = b'.reverse ++ u.reverse := by
      rw [← List.reverse_append, ← List.reverse_append, e]
    have := strip_left (fun c hc => h2 c (by simpa using hc)) (fun c hc => k2 c (by simpa using hc))
      (fun c hc => h4 c (by rwa [List.head?_reverse] at hc)) (fun c hc => k4 c (by rwa [List.head?_reverse] at hc)) e'
    simpa using this

theorem visible_unique {s t u : List Byte} (h : Visible s t) (k : Visible s u) : t = u := by
  obtain ⟨x, h1, h2⟩ := h
  obtain ⟨y, k1, k2⟩ := k
  obtain rfl := noComment_unique h1 k1
  exact bare_unique h2 k2

/-! ### Lines of hosts -/

theorem visible_nil : Visible [] [] := ⟨[], ⟨by simp, Or.inl rfl⟩, [], [], rfl, by simp, by simp, by simp, by simp⟩

theorem hostsText_append {a b : List (List Byte)} {es : List Entry} (h : HostsText (a ++ b) es) :
    ∃ e1 e2, es = e1 ++ e2 ∧ HostsText a e1 ∧ HostsText b e2 := by
  induction a generalizing es with
  | nil => exact ⟨[], es, rfl, .nil, h⟩
  | cons s a ih =>
    rw [List.cons_append] at h
    cases h with
    | blank h1 h2 => obtain ⟨e1, e2, rfl, k1, k2⟩ := ih h2; exact ⟨e1, e2, rfl, .blank h1 k1, k2⟩
    | short h1 h2 h3 => obtain ⟨e1, e2, rfl, k1, k2⟩ := ih h3; exact ⟨e1, e2, rfl, .short h1 h2 k1, k2⟩
    | foreign h1 h2 h3 h4 => obtain ⟨e1, e2, rfl, k1, k2⟩ := ih h4; exact ⟨e1, e2, rfl, .foreign h1 h2 h3 k1, k2⟩
    | says h1 h2 h3 => obtain ⟨e1, e2, rfl, k1, k2⟩ := ih h3; exact ⟨_ :: e1, e2, rfl, .says h1 h2 k1, k2⟩

theorem HostsText.append {a b : List (List Byte)} {e1 e2 : List Entry} (h : HostsText a e1) (k : HostsText b e2) :
    HostsText (a ++ b) (e1 ++ e2) := by
  induction h with
  | nil => exact k
  | blank h1 _ ih => exact .blank h1 ih
  | short h1 h2 _ ih => exact .short h1 h2 ih
  | foreign h1 h2 h3 _ ih => exact .foreign h1 h2 h3 ih
  | says h1 h2 _ ih => exact .says h1 h2 ih

/-- All that was fetched is one text with the lines of the sources, and an empty line for each source that gave nothing. -/
theorem joined_lines {got : List (Option (List Byte))} {ls : List (List Byte)} (h : AllLines got ls) : ∀ es, HostsText ls es →
    ∃ ls', joined got = text ls' [] ∧ HostsText ls' es ∧ ∀ l ∈ ls', l ∈ ls ∨ l = [] := by
  induction h with
  | nil => intro es he; exact ⟨[], rfl, he, by simp⟩
  | @some c os ls ks h1 _ ih =>
    intro es he
    obtain ⟨e1, e2, rfl, k1, k2⟩ := hostsText_append he
    obtain ⟨ls', i1, i2, i3⟩ := ih e2 k2
    obtain ⟨ss, last, rfl, rfl⟩ := h1
    refine ⟨(ss ++ [last]) ++ ls', ?_, k1.append i2, ?_⟩
    · have : joined (Option.some (text ss last) :: os) = text ss last ++ [10] ++ joined os := by simp [joined]
      rw [this, i1]
      simp [text]
    · intro l hl
      rcases List.mem_append.1 hl with hl | hl
      · exact Or.inl (List.mem_append.2 (Or.inl hl))
      · rcases i3 l hl with h | h
        · exact Or.inl (List.mem_append.2 (Or.inr h))
        · exact Or.inr h
  | none _ ih =>
    intro es he
    obtain ⟨ls', i1, i2, i3⟩ := ih es he
    refine ⟨[] :: ls', ?_, .blank visible_nil i2, ?_⟩
    · have : ∀ os, joined (Option.none :: os) = 10 :: joined os := by intro os; simp [joined]
      rw [this, i1]; simp [text]
    · intro l hl
      rcases List.mem_cons.1 hl with rfl | hl
      · exact Or.inr rfl
      · exact i3 l hl

theorem seen_lines {n : Nat} {ss ts : List (List Byte)} (h : Seen n ss ts) : ∀ es, HostsText ss es → (∀ s ∈ ss, s.length + 2 ≤ n) →
    Lines ts es := by
  induction h with
  | nil => intro es he _; cases he; exact .nil
  | @blank s ss ts hv _ ih =>
    intro es he hf
    have hf' := fun x hx => hf x (List.mem_cons_of_mem _ hx)
    cases he with
    | blank _ h2 => exact ih _ h2 hf'
    | short _ _ h3 => exact ih _ h3 hf'
    | foreign h1 h2 _ _ =>
      obtain rfl := visible_unique h1 hv
      obtain ⟨⟨hw, _⟩, _, s1, s2, r, e, _⟩ := h2
      have := congrArg List.length e
      have : 0 < List.length _ := List.length_pos_iff.2 hw
      simp at *; omega
    | says h1 h2 _ =>
      obtain rfl := visible_unique h1 hv
      obtain ⟨v, ⟨⟨hw, _⟩, _, s1, s2, r, e, _⟩, _⟩ := h2
      have := congrArg List.length e
      have : 0 < List.length _ := List.length_pos_iff.2 hw
      simp at *; omega
  | @line s t ss ts hv hne _ ih =>
    intro es he hf
    have hf' := fun x hx => hf x (List.mem_cons_of_mem _ hx)
    cases he with
    | blank h1 _ => exact absurd (visible_unique hv h1) hne
    | short h1 h2 h3 =>
      obtain rfl := visible_unique h1 hv
      exact .skip h2 (ih _ h3 hf')
    | foreign h1 h2 h3 h4 =>
      obtain rfl := visible_unique h1 hv
      exact .foreign h2 h3 (ih _ h4 hf')
    | says h1 h2 h3 =>
      obtain rfl := visible_unique h1 hv
      exact .cons h2 (ih _ h3 hf')
  | @long s ss ts hl _ _ =>
    intro es he hf
    have := hf s (by simp)
    omega

/-! ### After an update (C101) -/

/-- C101.  An update that succeeds, where files can be opened and written and there is no script: afterwards lookups
follow the entries of all sources, in the order of the sources, and nothing else.  The lines must fit the buffer (318 bytes) and must be
of the kind that is read as it should (C40). -/
theorem update_serves_partial (w : World) (hw : ∀ n, w.works n = true) (hs : w.script = id) (fuel : Nat) (urls : List Path) (file : Path)
    (f : Files) (old : Option Cont) (hp : ∀ u ∈ urls, ∀ p, NearPath w u p → p ≠ tmp file ∧ p ≠ tmp (tmp file))
    (hend : (multi w fuel urls file (-1) (start f)).1 = some true)
    (got : List (Option (List Byte))) (n : Nat) (hgot : Fetch w f (-1) 0 urls got n) (ls : List (List Byte)) (hls : AllLines got ls)
    (hfit : ∀ l ∈ ls, LineOk l ∧ l.length ≤ 318) (es : List Entry) (hes : HostsText ls es) :
    ∃ c s, update w fuel urls file old (start f) = (some (some c), s) ∧
      ∀ (fnm : List Byte → List Byte → Bool) (name : List Byte) (ty : HType), ty ≠ .unknown →
        (∀ t nd, Hosts.find c fnm name ty = some (t, nd) → t = ty ∧ ∃ e, nd.type = e.type ∧ nd.data = e.data ∧
          (Used (entriesFor fnm es name) ty e ∨
            ty = .aaaa ∧ (∀ x ∈ entriesFor fnm es name, x.type ≠ .aaaa) ∧ Used (entriesFor fnm es name) .a e)) ∧
        (Hosts.find c fnm name ty = none ↔
          (∀ x ∈ entriesFor fnm es name, x.type ≠ ty) ∧ (ty = .aaaa → ∀ x ∈ entriesFor fnm es name, x.type ≠ .a)) := by
  generalize hm : multi w fuel urls file (-1) (start f) = r at hend
  obtain ⟨o, s⟩ := r
  dsimp only at hend
  subst hend
  obtain ⟨got', n', h1, -, h3, h4⟩ := fetched_exactly_partial w hw fuel urls file (-1) f s true hp hm
  obtain ⟨rfl, -⟩ := fetch_unique hgot h1
  rw [if_pos h3.symm] at h4
  obtain ⟨ls', j1, j2, j3⟩ := joined_lines hls es hes
  have hok : ∀ l ∈ ls', ReadLine.Ok 320 l := by
    intro l hl
    rcases j3 l hl with h | rfl
    · exact Or.inl ⟨(hfit l h).1, by have := (hfit l h).2; omega⟩
    · exact Or.inl ⟨⟨by simp, by simp, by simp [ReadLine.CrOk], by intro u r e; simp at e⟩, by simp⟩
  obtain ⟨ts, k1, k2⟩ := ReadLine.every_line_partial 320 ls' [] (by omega) hok
    ⟨by simp, by simp, by simp [ReadLine.CrOk], by intro u r e; simp at e⟩ (by simp) (Or.inl rfl)
  have hl : Lines ts es := by
    refine seen_lines k2 es ?_ ?_
    · have := j2.append (.blank visible_nil .nil)
      rwa [List.append_nil] at this
    · intro l hl
      rcases List.mem_append.1 hl with hl | hl
      · rcases j3 l hl with h | rfl
        · have := (hfit l h).2; omega
        · simp
      · rw [List.mem_singleton.1 hl]; simp
  obtain ⟨c, l1, -⟩ := Hosts.lines_taken hl
  refine ⟨c, (s.store s.files).called, ?_, fun fnm name ty hty => Hosts.find_used hl l1 fnm name ty hty⟩
  unfold update
  rw [hm]
  dsimp only
  rw [hs]
  unfold load
  rw [openR_ok hw]
  have e : (s.store (id s.files)).files file = some (joined got) := h4
  rw [e]
  dsimp only
  rw [j1, k1]
  simp [l1]

/-- A start with a hosts file that can be read: lookups follow its entries, until the first update. -/
theorem start_serves_partial (w : World) (hw : ∀ n, w.works n = true) (file : Path) (s : St) (ss : List (List Byte)) (last : List Byte)
    (hf : s.files file = some (text ss last)) (hfit : ∀ l ∈ ss ++ [last], LineOk l ∧ l.length ≤ 318)
    (hlw : last = [] ∨ ∃ c ∈ last, c ∉ whites) (es : List Entry) (hes : HostsText (ss ++ [last]) es) :
    ∃ c s', init w file s = (some (some c), s') ∧ s'.past = s.past ∧
      ∀ (fnm : List Byte → List Byte → Bool) (name : List Byte) (ty : HType), ty ≠ .unknown →
        (∀ t nd, Hosts.find c fnm name ty = some (t, nd) → t = ty ∧ ∃ e, nd.type = e.type ∧ nd.data = e.data ∧
          (Used (entriesFor fnm es name) ty e ∨
            ty = .aaaa ∧ (∀ x ∈ entriesFor fnm es name, x.type ≠ .aaaa) ∧ Used (entriesFor fnm es name) .a e)) ∧
        (Hosts.find c fnm name ty = none ↔
          (∀ x ∈ entriesFor fnm es name, x.type ≠ ty) ∧ (ty = .aaaa → ∀ x ∈ entriesFor fnm es name, x.type ≠ .a)) := by
  have hll := hfit last (by simp)
  obtain ⟨ts, k1, k2⟩ := ReadLine.every_line_partial 320 ss last (by omega)
    (fun l hl => Or.inl ⟨(hfit l (by simp [hl])).1, by have := (hfit l (by simp [hl])).2; omega⟩) hll.1 (by omega) hlw
  have hl : Lines ts es := seen_lines k2 es hes (fun l hl => by have := (hfit l hl).2; omega)
  obtain ⟨c, l1, -⟩ := Hosts.lines_taken hl
  refine ⟨c, s.called.called, ?_, rfl, fun fnm name ty hty => Hosts.find_used hl l1 fnm name ty hty⟩
  unfold init
  rw [openR_ok hw, hf]
  dsimp only
  unfold load
  rw [openR_ok hw]
  have e : s.called.files file = some (text ss last) := hf
  rw [e]
  dsimp only
  rw [k1]
  simp [l1]

/-- Without a hosts file nothing is looked up. -/
theorem start_without (w : World) (file : Path) (s : St) (h : s.files file = none) : (init w file s).1 = some none := by
  unfold init openR
  split <;> simp_all

/-- An update that does not succeed changes nothing of what is looked up. -/
theorem failed_keeps (w : World) (fuel : Nat) (urls : List Path) (file : Path) (old : Option Cont) (s : St)
    (h : (multi w fuel urls file (-1) s).1 ≠ some true) : (update w fuel urls file old s).1 = some old := by
  unfold update
  generalize multi w fuel urls file (-1) s = r at h
  obtain ⟨o, s1⟩ := r
  match o, h with
  | none, _ => rfl
  | some false, _ => rfl
  | some true, h => simp at h

/-- If the new file cannot be read in the end, what is looked up is as before, too. -/
theorem unreadable_keeps (w : World) (fuel : Nat) (urls : List Path) (file : Path) (old : Option Cont) (s : St)
    (h : ∀ s', openR w file s' = (none, s'.called)) : (update w fuel urls file old s).1 = some old := by
  unfold update
  generalize multi w fuel urls file (-1) s = r
  obtain ⟨o, s1⟩ := r
  match o with
  | none => rfl
  | some false => rfl
  | some true => dsimp only; unfold load; rw [h]

/-! ### What is lost -/

/-- Full claim: an update that reports success has written all that was fetched, also if writing may fail. -/
def SuccessComplete : Prop := ∀ (w : World) (fuel : Nat) (urls : List Path) (file : Path) (f : Files) (got : List (Option (List Byte))) (n : Nat),
  (∀ u ∈ urls, ∀ p, NearPath w u p → p ≠ tmp file ∧ p ≠ tmp (tmp file)) → Fetch w f (-1) 0 urls got n →
  (multi w fuel urls file (-1) (start f)).1 = some true → (multi w fuel urls file (-1) (start f)).2.files file = some (joined got)

/-- A disk that is full after three bytes: files can still be opened, removed and renamed. -/
def fullDisk : World := { calm with works := fun n => n ≤ 5 || n == 11 || 13 ≤ n }

theorem near_l : NearPath fullDisk (str "file:///l") (str "/l") := (localPath_iff _ _ _).1 (by decide +kernel)

/-- The code violates it: errors of writing are not looked at, so that the old hosts are replaced by a part of the new ones. -/
theorem success_complete_false : ¬ SuccessComplete := by
  intro h
  have := h fullDisk 1 [str "file:///l"] (str "/h") oldFiles [some (str "@@ c.com")] 0 ?_ ?_ (by decide +kernel)
  · revert this; decide +kernel
  · intro u hu p hp
    rw [List.mem_singleton.1 hu] at hp
    rw [nearPath_unique hp near_l]
    decide +kernel
  · exact .cons (.near ⟨str ":///l", by decide +kernel⟩ near_l) .nil

/-- What is left of it. -/
theorem full_disk_part : (multi fullDisk 1 [str "file:///l"] (str "/h") (-1) (start oldFiles)).2.files (str "/h") = some (str "@@ ") := by
  decide +kernel

/-- Full claim: entries of a source that cannot be read now stay what they were. -/
def UnreadableStays : Prop := ∀ (w : World) (urls : List Path) (file : Path) (f f' : Files) (name : List Byte),
  (∀ n, w.works n = true) → w.script = id → ∀ c c', (update w 1 urls file none (start f)).1 = some (some c) →
    (∀ q c, f' q = some c → f q = some c) → (update w 1 urls file (some c) (start f')).1 = some (some c') →
    (Hosts.find c (fun _ _ => false) name .excluded).isSome → (Hosts.find c' (fun _ _ => false) name .excluded).isSome

/-- The code violates it: if another source gives something, all is replaced. -/
theorem unreadable_stays_false : ¬ UnreadableStays := by
  intro h
  have h1 : ((update calm 1 [str "file:///l", str "http://x"] (str "/h") none (start oldFiles)).1.bind id).any
      (fun c => (Hosts.find c (fun _ _ => false) (str "c.com") .excluded).isSome) = true := by decide +kernel
  have h2 : ∀ o, ((update calm 1 [str "file:///l", str "http://x"] (str "/h") o (start (fun _ => none))).1.bind id).any
      (fun c => (Hosts.find c (fun _ _ => false) (str "c.com") .excluded).isNone) = true := by
    intro o
    unfold update
    have hm : (multi calm 1 [str "file:///l", str "http://x"] (str "/h") (-1) (start (fun _ => none))).1 = some true := by decide +kernel
    generalize hr : multi calm 1 [str "file:///l", str "http://x"] (str "/h") (-1) (start (fun _ => none)) = r at hm
    obtain ⟨o', s⟩ := r
    dsimp only at hm
    subst hm
    dsimp only
    unfold load
    rw [openR_ok (fun _ => rfl)]
    have hf : (multi calm 1 [str "file:///l", str "http://x"] (str "/h") (-1) (start (fun _ => none))).2.files (str "/h") =
        some (str "\n1.2.3.4 b.com\n") := by decide +kernel
    rw [hr] at hf
    have e : (s.store (calm.script s.files)).files (str "/h") = some (str "\n1.2.3.4 b.com\n") := hf
    rw [e]
    dsimp only
    decide +kernel
  generalize hu : (update calm 1 [str "file:///l", str "http://x"] (str "/h") none (start oldFiles)).1 = r at h1
  match r, h1 with
  | some (some c), h1 =>
    have h2 := h2 (some c)
    generalize hv : (update calm 1 [str "file:///l", str "http://x"] (str "/h") (some c) (start (fun _ => none))).1 = q at h2
    match q, h2 with
    | some (some c'), h2 =>
      have := h calm [str "file:///l", str "http://x"] (str "/h") oldFiles (fun _ => none) (str "c.com") (fun _ => rfl) rfl c c' hu
        (by intro q c hq; simp at hq) hv (by simpa using h1)
      have h2 : (Hosts.find c' (fun _ _ => false) (str "c.com") .excluded).isNone = true := h2
      rw [Option.isNone_iff_eq_none] at h2
      rw [h2] at this
      simp at this

/-- A temporary file given as a source is appended to itself without end. -/
theorem self_copy_endless (w : World) (hw : ∀ n, w.works n = true) (p : Path) (s : St) (c : List Byte) (hc : s.files p = some c) (hne : c ≠ []) :
    (copyAFile w p p true s).1 = none := by
  unfold copyAFile
  rw [openR_ok hw, hc]
  dsimp only
  rw [if_pos rfl, openA_ok hw]
  simp [hne]

/-! ### Cases that meet the hypotheses -/

def exUrls : List Path := [str "file:///l", str "http://x", str "file:///none"]
def exGot : List (Option (List Byte)) := [some (str "@@ c.com"), some (str "1.2.3.4 b.com"), none]
def exLs : List (List Byte) := [str "@@ c.com", str "1.2.3.4 b.com"]
def exEs : List Entry := [⟨str "c.com", .excluded, .nothing⟩, ⟨str "b.com", .a, .addr (some (Hosts.Mapped 1 2 3 4))⟩]

theorem exPaths : ∀ u ∈ exUrls, ∀ p, NearPath calm u p → p ≠ tmp (str "/h") ∧ p ≠ tmp (tmp (str "/h")) := by
  intro u hu p hp
  have h := (localPath_iff calm u p).2 hp
  have hd : exUrls.all (fun u => (localPath calm u).all (fun p => p != tmp (str "/h") && p != tmp (tmp (str "/h")))) = true := by decide +kernel
  have := List.all_eq_true.1 hd u hu
  rw [h] at this
  simpa using this

example : (multi calm 1 exUrls (str "/h") (-1) (start oldFiles)).1 = some true := by decide +kernel
example : (multi calm 1 exUrls (str "/h") (-1) (start oldFiles)).2.files (str "/h") = some (str "@@ c.com\n1.2.3.4 b.com\n\n") := by decide +kernel
example : joined exGot = str "@@ c.com\n1.2.3.4 b.com\n\n" := by decide +kernel

theorem exFetch : Fetch calm oldFiles (-1) 0 exUrls exGot 1 := by
  refine .cons (o := some (str "@@ c.com")) (.near (p := str "/l") ⟨str ":///l", by decide +kernel⟩ ((localPath_iff _ _ _).1 (by decide +kernel))) ?_
  refine .cons (m := 1) (o := some (str "1.2.3.4 b.com"))
    (.far (n := 0) (k := 0) ?_ (by simp) ⟨rfl, rfl⟩ (by omega)) ?_
  · intro h; have := (near_iff _).2 h; revert this; decide +kernel
  · exact .cons (.near (p := str "/none") ⟨str ":///none", by decide +kernel⟩ ((localPath_iff _ _ _).1 (by decide +kernel))) .nil

example : AllLines exGot exLs :=
  .some (ls := [str "@@ c.com"]) ⟨[], _, rfl, rfl⟩ (.some (ls := [str "1.2.3.4 b.com"]) ⟨[], _, rfl, rfl⟩ (.none .nil))

theorem visible_self {s : List Byte} (h1 : ∀ c ∈ s, c ≠ 35 ∧ c ≠ 59) (h2 : ∀ c, s.head? = some c → c ∉ whites)
    (h3 : ∀ c, s.getLast? = some c → c ∉ whites) : Visible s s :=
  ⟨s, ⟨h1, Or.inl rfl⟩, [], [], by simp, by simp, by simp, h2, h3⟩

example : HostsText exLs exEs := by
  refine .says (t := str "@@ c.com") (visible_self (by decide +kernel) (by decide +kernel) (by decide +kernel)) ?_
    (.says (t := str "1.2.3.4 b.com") (visible_self (by decide +kernel) (by decide +kernel) (by decide +kernel)) ?_ .nil)
  · exact ⟨str "@@", Hosts.exLine [] [32] [] (Hosts.exWord (by decide)) (Hosts.exWord (by decide)) (by decide), .excluded⟩
  · exact ⟨str "1.2.3.4", Hosts.exLine [] [32] [] (Hosts.exWord (by decide)) (Hosts.exWord (by decide)) (by decide),
      .v4 (.mk (.one (by decide)) (.one (by decide)) (.one (by decide)) (.one (by decide))) (by decide) (by decide) (by decide) (by decide)⟩

example : ∀ l ∈ exLs, LineOk l ∧ l.length ≤ 318 := by
  have h : ∀ s : List Byte, (10 : Byte) ∉ s → (0 : Byte) ∉ s → (13 : Byte) ∉ s.dropLast → (35 : Byte) ∉ s → LineOk s :=
    fun s h1 h2 h3 h4 => ⟨h1, h2, h3, fun u r e hu => absurd (by rw [e]; simp) h4⟩
  intro l hl
  simp only [exLs, List.mem_cons, List.not_mem_nil, or_false] at hl
  rcases hl with rfl | rfl <;> exact ⟨h _ (by decide +kernel) (by decide +kernel) (by decide +kernel) (by decide +kernel), by decide +kernel⟩

/-- A download that breaks off twice and then succeeds: only the last attempt counts. -/
def shaky : World := { calm with net := fun n _ => if n < 2 then ⟨true, str "1.1.1.1 x", false⟩ else ⟨true, str "2.2.2.2 y", true⟩ }

example : (multi shaky 3 [str "http://x"] (str "/h") (-1) (start oldFiles)).2.files (str "/h") = some (str "2.2.2.2 y\n") := by decide +kernel
example : (multi shaky 3 [str "http://x"] (str "/h") 2 (start oldFiles)).1 = some false := by decide +kernel
example : ∀ n, ∃ m, n ≤ m ∧ Succeeds shaky m (str "http://x") :=
  fun n => ⟨n + 2, by omega, by simp only [shaky]; rw [if_neg (by omega)], by simp only [shaky]; rw [if_neg (by omega)]⟩

end Verif.Downloader
