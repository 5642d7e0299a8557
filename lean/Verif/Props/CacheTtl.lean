import Verif.Lemmas.CacheTtl
/-! C17: the lifetime of a cached record follows the configured rules. -/

namespace Verif.CacheTtl
open StringChunk IpText

/-- C17.  A rule written as documented is read as written. -/
theorem rule_read {t : List Byte} {l : Line} (h : LineText t l) : ∃ r, readRule t = .rule l.domain r ∧
    ∀ x, (∀ v ∈ l.kind.ttl x, v < 4294967296) → lifetime (some r) x = (l.kind.ttl x).getD 0 :=
  ⟨_, readRule_text h, lifetime_toRule l⟩

/-- The documented behaviour: the record's own rule is the rule for its owner name.  `item` is the
text `owner type class` under which the record is stored. -/
def Documented : Prop :=
  ∀ (lines : Option (List (List Byte))) (ls : List Line) (override multiple : Int) (fnm : List Byte → List Byte → Bool)
    (q behind owner tail : List Byte) (x : Nat) (res : Option Nat),
    LinesText (lines.getD []) ls → q ≠ [] → owner ≠ [] → (∀ v ∈ res, v < 4294967296) →
    Decides (withGeneral ls override multiple) fnm q owner x res →
    ∃ c, initRules lines override multiple = some c ∧ effective c fnm q behind (owner ++ 32 :: tail) x = res.getD 0

/-- C17, what the code does, for every configuration: the decision is the documented one except that a
record's own rule is looked up with the text `owner type class` instead of the owner name. -/
theorem ttl_decided_partial (lines : Option (List (List Byte))) (ls : List Line) (override multiple : Int)
    (fnm : List Byte → List Byte → Bool) (q behind item : List Byte) (x : Nat) (res : Option Nat)
    (hl : LinesText (lines.getD []) ls) (hq : q ≠ []) (hi : item ≠ []) (hr : ∀ v ∈ res, v < 4294967296)
    (h : Decides (withGeneral ls override multiple) fnm q item x res) :
    ∃ c, initRules lines override multiple = some c ∧ effective c fnm q behind item x = res.getD 0 := by
  refine ⟨_, initRules_eq hl override multiple, ?_⟩
  by_cases hc : lines ≠ none ∨ override > -1 ∨ multiple > 1
  · rw [if_pos hc]
    unfold effective
    generalize withGeneral ls override multiple = gs at h
    cases h with
    | active h hm =>
      rw [get_governed hq h]
      simp only [choose, (toRule_infection _).1 hm]
      exact lifetime_toRule _ x hr
    | passiveOwn h hm ho =>
      rw [get_governed hq h, get_governed hi ho]
      simp only [choose, (toRule_infection _).2.1 hm, if_true]
      exact lifetime_toRule _ x hr
    | passiveParent h hm ho =>
      rw [get_governed hq h, get_ungoverned hi ho]
      simp only [choose, (toRule_infection _).2.1 hm, if_true]
      exact lifetime_toRule _ x hr
    | noneOwn h hm ho =>
      rw [get_governed hq h, get_governed hi ho]
      simp only [choose, (toRule_infection _).2.2 hm]
      exact lifetime_toRule _ x hr
    | noneAsIs h hm ho =>
      rw [get_governed hq h, get_ungoverned hi ho]
      simp only [choose, (toRule_infection _).2.2 hm]
      rfl
    | freeOwn h ho =>
      rw [get_ungoverned hq h, get_governed hi ho]
      exact lifetime_toRule _ x hr
    | freeAsIs h ho =>
      rw [get_ungoverned hq h, get_ungoverned hi ho]
      rfl
  · rw [if_neg hc]
    have hlines : lines = none := Decidable.not_not.1 (fun hh => hc (.inl hh))
    have h1 : ¬ 0 ≤ override := by omega
    have h2 : ¬ 1 < multiple := by omega
    subst hlines
    cases hl
    unfold withGeneral at h
    rw [if_neg h1, if_neg h2] at h
    have hg : ∀ n l, ¬ Governs [] fnm n l := by
      rintro n l (⟨_, _, ⟨b, a, hb, _⟩, _⟩ | ⟨_, _, _, b, a, hb, _⟩) <;> simp at hb
    cases h with
    | freeAsIs h ho => rfl
    | active h _ => exact absurd h (hg _ _)
    | passiveOwn h _ _ => exact absurd h (hg _ _)
    | passiveParent h _ _ => exact absurd h (hg _ _)
    | noneOwn h _ _ => exact absurd h (hg _ _)
    | noneAsIs h _ _ => exact absurd h (hg _ _)
    | freeOwn _ h => exact absurd h (hg _ _)

/-- C17.  A contagious (default) rule for the question's name decides for every record of the response,
as documented. -/
theorem active_rule_decides (lines : Option (List (List Byte))) (ls : List Line) (override multiple : Int)
    (fnm : List Byte → List Byte → Bool) (q behind item : List Byte) (x : Nat) (l : Line)
    (hl : LinesText (lines.getD []) ls) (hq : q ≠ []) (hi : item ≠ [])
    (hg : Governs (withGeneral ls override multiple) fnm q l) (hm : l.mode = .active)
    (hr : ∀ v ∈ l.kind.ttl x, v < 4294967296) :
    ∃ c, initRules lines override multiple = some c ∧
      effective c fnm q behind item x = (l.kind.ttl x).getD 0 :=
  ttl_decided_partial lines ls override multiple fnm q behind item x _ hl hq hi hr (.active hg hm)

/-- C17.  A rule without wildcards never is a record's own rule: no domain without blanks covers the
text `owner type class`. -/
theorem own_plain_never (ls : List Line) (fnm : List Byte → List Byte → Bool) (owner tail : List Byte) (l : Line)
    (hw : Word l.domain) (ht : 46 ∉ tail) (hp : ¬ IsPattern l.dom) : ¬ Governs ls fnm (owner ++ 32 :: tail) l := by
  have hsp : (32 : Byte) ∉ l.dom := by
    intro hc
    have : (32 : Byte) ∈ l.domain := by
      unfold Line.dom domainText at hc
      split at hc
      · exact List.mem_of_mem_tail hc
      · exact hc
    exact hw.2 _ this (.inl rfl)
  rintro (⟨_, hc, _⟩ | ⟨_, hc, _⟩)
  · rcases hc with hc | ⟨s, _, hc⟩
    · apply hsp; rw [← hc]; simp
    · rcases List.append_eq_append_iff.1 hc with ⟨m, h1, h2⟩ | ⟨m, h1, h2⟩
      · cases m with
        | nil => simp at h2
        | cons y m =>
          simp only [List.cons_append, List.cons.injEq] at h2
          apply ht; rw [h2.2]; simp
      · cases m with
        | nil => simp at h2
        | cons y m =>
          simp only [List.cons_append, List.cons.injEq] at h2
          apply hsp; rw [h2.2]; simp
  · exact hp hc

/-- C17 is false of the code.  The documented example `CacheControl www.windowsupdate.com $$fixed 2000`
does not even apply to the records of `www.windowsupdate.com` itself. -/
theorem documented_false : ¬ Documented := by
  intro h
  have hlt : LineText (str "w.com $$fixed 20") ⟨str "w.com", .none, .fixed 20⟩ := by
    have h2 : DecNum (str "20") 20 := by
      have := DecNum.more (DecNum.one (c := 50) (d := 2) (by decide)) (c := 48) (d := 0) (by decide)
      exact this
    exact LineText.mk (d := str "w.com") (b := [32]) (m := .none) (by decide +kernel) (by decide +kernel) (by decide +kernel)
      (KindText.fixed (b := [32]) (s := str "20") (by decide +kernel) h2 (by omega) (by decide +kernel))
  have hg : Governs [⟨str "w.com", .none, .fixed 20⟩] (fun _ _ => false) (str "w.com") ⟨str "w.com", .none, .fixed 20⟩ := by
    refine .inl ⟨by decide +kernel, .inl (by decide +kernel), ⟨[], [], rfl, by simp⟩, ?_⟩
    intro x hx _ _
    simp only [List.mem_singleton] at hx
    subst hx
    exact Nat.le_refl _
  have hgen : withGeneral [⟨str "w.com", .none, .fixed 20⟩] (-1) 1 = [⟨str "w.com", .none, .fixed 20⟩] := by decide +kernel
  obtain ⟨c, h1, h2⟩ := h (some [str "w.com $$fixed 20"]) [⟨str "w.com", .none, .fixed 20⟩] (-1) 1 (fun _ _ => false)
    (str "w.com") [] (str "w.com") (str "1 1") 5 (some 20) (.cons hlt .nil) (by decide +kernel) (by decide +kernel)
    (by simp) (by rw [hgen]; exact Decides.noneOwn (x := 5) hg rfl hg)
  have e : ∃ c0, initRules (some [str "w.com $$fixed 20"]) (-1) 1 = some c0 ∧
      effective c0 (fun _ _ => false) (str "w.com") [] (str "w.com" ++ 32 :: str "1 1") 5 = 5 := by
    refine ⟨_, initRules_eq (lines := some [str "w.com $$fixed 20"]) (ls := [⟨str "w.com", .none, .fixed 20⟩]) (.cons hlt .nil) (-1) 1, ?_⟩
    decide +kernel
  obtain ⟨c0, e1, e2⟩ := e
  rw [e1] at h1
  cases h1
  rw [e2] at h2
  exact absurd h2 (by decide)

/-- The computed lifetime is as documented also when it does not fit into 32 bits. -/
def NoWrap : Prop := ∀ (l : Line) (t : List Byte) (r : Rule) (x : Nat), LineText t l → x < 4294967296 →
  readRule t = .rule l.domain r → lifetime (some r) x ≥ min ((l.kind.ttl x).getD 0) 4294967295

/-- C17.  It is not: `vari 2x+0` gives a record of TTL 2^31 the lifetime 0, so it is not cached. -/
theorem noWrap_false : ¬ NoWrap := by
  intro h
  have h2 : DecNum (str "2") 2 := .one (c := 50) (by decide)
  have h0 : DecNum (str "0") 0 := .one (c := 48) (by decide)
  have ht : LineText (str "a.com vari 2x+0") ⟨str "a.com", .active, .vari 2 0⟩ :=
    LineText.mk (d := str "a.com") (b := [32]) (m := .active) (by decide +kernel) (by decide +kernel) (by decide +kernel)
      (KindText.vari (b := [32]) (s := str "2") (t := str "0") (by decide +kernel) h2 (by omega) h0 (by omega) (by decide +kernel))
  have := h _ _ ⟨2, 2, 0, 0⟩ 2147483648 ht (by omega) (by decide +kernel)
  exact absurd this (by decide)

/-! Non-trivial cases. -/

/-- A configuration with four rules and a general override, seen through the whole path. -/
example : (initRules (some [str "qq.com fixed 500", str ".sina.com.cn\tvari  2x+200", str "163.com nocache", str "*.net* $orig"]) 600 1).map
    (fun c => [effective c (fun p _ => p == str "*") (str "www.qq.com") [] (str "www.qq.com 1 1") 30,
      effective c (fun p _ => p == str "*") (str "sina.com.cn") [] (str "x.com 1 1") 30,
      effective c (fun p _ => p == str "*") (str "163.com") [] (str "163.com 1 1") 30,
      effective c (fun p _ => p == str "*") (str "other.org") [] (str "other.org 1 1") 30]) = some [500, 260, 0, 600] := by
  decide +kernel

/-- A missing argument is used unassigned. -/
example : readRule (str "qq.com fixed") = .undef := by decide +kernel

example : readRule (str "qq.com $$vari 3x+4") = .rule (str "qq.com") ⟨2, 3, 4, 2⟩ := by decide +kernel

end Verif.CacheTtl
