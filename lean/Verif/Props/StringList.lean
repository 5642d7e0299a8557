import Verif.Lemmas.StringList
/-! Splitting, trimming and continuing strings (C38, C62). -/

namespace Verif.StringList
open StableBuffer

/-- The list was not trimmed since a string was put into it, and the string before the last one is not
empty. -/
def CanAppend (fresh : Bool) (L : List (List Byte)) : Prop :=
  fresh = true ∧ ∀ I y x, L = I ++ [y, x] → y ≠ []

def freshAfter (fresh : Bool) : Op → Bool
  | .add _ _ => true
  | .append _ _ => true
  | .trim _ => false
  | .lower => fresh
  | .clear => true

/-- Every string that is continued can be. -/
def AppendsOk : Bool → List (List Byte) → List Op → Prop
  | _, _, [] => True
  | fresh, L, o :: os =>
    (∀ t d, o = .append t d → CanAppend fresh L) ∧ ∀ L', Means L o L' → AppendsOk (freshAfter fresh o) L' os

theorem trims_enc {g : List Byte} {ss ts : List (List Byte)} (h : Trims g ss ts) : (enc ts).length ≤ (enc ss).length := by
  induction h with
  | nil => simp
  | blank _ _ ih => simp; omega
  | keep h _ _ ih =>
    obtain ⟨a, b, rfl, -⟩ := h
    simp; omega

theorem split_enc {d s : List Byte} {ps : List (List Byte)} (h : Split d s ps) : (enc ps).length = s.length + 1 := by
  induction h with
  | last _ => simp
  | cons _ _ _ ih => simp [ih]; omega

theorem enc_lower (ss : List (List Byte)) : (enc (ss.map strToLower)).length = (enc ss).length := by
  induction ss with
  | nil => rfl
  | cons s ss ih =>
    have : (strToLower s).length = s.length := List.length_map ..
    rw [List.map_cons, enc_cons, enc_cons, List.length_append, List.length_append, List.length_cons, List.length_cons, ih, this]

theorem flatten_map_map {α β : Type} (f : α → β) (l : List (List α)) : (l.map (·.map f)).flatten = l.flatten.map f :=
  List.map_flatten.symm

theorem lowered_lower (s : List Byte) : Lowered s (strToLower s) := by
  refine ⟨by simp [strToLower], fun i c h => ?_⟩
  simp only [strToLower, List.getElem?_map, h, Option.map_some, toLowerByte]
  congr 1

theorem white_eq : white = [9, 32, 13, 10] := by decide

structure Good (bs : Buf) (sss : List (List (List Byte))) (fresh : Bool) : Prop where
  rep : Rep bs sss
  last : fresh = true → bs = [] ∨ ∃ ss, sss.getLast? = some ss ∧ ss ≠ []

theorem step_good {bs : Buf} {sss : List (List (List Byte))} {fresh : Bool} (h : Good bs sss fresh) (o : Op) (hc : o.Clean)
    (hs : ((enc sss.flatten).length + o.size + 1) * (bs.length + 1) ≤ 2147483647)
    (ha : ∀ t d, o = .append t d → CanAppend fresh sss.flatten) :
    ∃ bs' tss, step bs o = some bs' ∧ Good bs' tss (freshAfter fresh o) ∧ Means sss.flatten o tss.flatten ∧
      (enc tss.flatten).length ≤ (enc sss.flatten).length + o.size ∧ bs'.length ≤ bs.length + 1 := by
  cases o with
  | add s d =>
    simp only [Op.size] at hs ⊢
    obtain ⟨bs', ps, tss, h1, h2, h3, h4, h5, h6⟩ := add_rep h.rep s d hc
      (Nat.le_trans (Nat.mul_le_mul (by omega) (Nat.le_refl _)) hs)
    refine ⟨bs', tss, h1, ⟨h3, fun _ => .inr h6⟩, ⟨ps, h2, h4⟩, ?_, h5⟩
    rw [h4, enc_append, List.length_append, split_enc h2]
    exact Nat.le_refl _
  | append t d =>
    obtain ⟨hf, hn⟩ := ha t d rfl
    simp only [Op.size] at hs ⊢
    rcases h.last hf with rfl | ⟨ss, h1, h2⟩
    · have : sss = [] := by
        have := h.rep
        generalize hb : ([] : Buf) = b at this
        cases this with
        | nil => rfl
        | cons => cases hb
      subst this
      exact ⟨[], [], rfl, ⟨.nil, fun _ => .inl rfl⟩, .inl ⟨rfl, rfl⟩, by simp, by simp⟩
    · obtain ⟨tss, rfl⟩ := List.getLast?_eq_some_iff.1 h1
      rcases List.eq_nil_or_concat ss with rfl | ⟨I, x, rfl⟩
      · exact absurd rfl h2
      · rw [List.concat_eq_append] at *
        have hI : I ≠ [[]] := by
          rintro rfl
          exact hn tss.flatten [] x (by simp) rfl
        obtain ⟨bs', ps, uss, k1, k2, k3, k4, k5, k6⟩ := append_rep h.rep t d hc
          (Nat.le_trans (Nat.mul_le_mul (by omega) (Nat.le_refl _)) hs) I x tss rfl hI
        refine ⟨bs', uss, by simp [step, k1], ⟨k3, fun _ => .inr k6⟩, ?_, ?_, k5⟩
        · refine .inr ⟨tss.flatten ++ I, x, ps, by simp, k2, k4⟩
        · have := split_enc k2
          rw [k4]
          simp at this ⊢
          omega
  | trim g =>
    obtain ⟨bs', tss, h1, h2, h3, h4⟩ := trimAll_rep h.rep g
    refine ⟨bs', tss, h1, ⟨h2, fun e => by simp [freshAfter] at e⟩, ?_, ?_, by omega⟩
    · simp only [Means, white_eq]; exact h3
    · have := trims_enc h3; omega
  | lower =>
    obtain ⟨bs', h1, h2, h3⟩ := lower_rep h.rep
    refine ⟨bs', _, h1, ⟨h2, ?_⟩, ?_, ?_, by omega⟩
    · intro e
      rcases h.last e with rfl | ⟨ss, k1, k2⟩
      · left; exact List.eq_nil_of_length_eq_zero (by simpa using h3)
      · right; exact ⟨ss.map strToLower, by simp [k1], by simpa using k2⟩
    · rw [flatten_map_map]
      refine ⟨by rw [List.length_map], fun i s t hi ht => ?_⟩
      rw [List.getElem?_map, hi] at ht
      simp at ht
      subst ht
      exact lowered_lower s
    · rw [flatten_map_map, enc_lower]; omega
  | clear => exact ⟨[], [], rfl, ⟨.nil, fun _ => .inl rfl⟩, rfl, by simp, by simp⟩

theorem run_good (T n : Nat) (hT : (T + 1) * (n + 1) ≤ 2147483647) (os : List Op) :
    ∀ (bs : Buf) (sss : List (List (List Byte))) (fresh : Bool), Good bs sss fresh → (∀ o ∈ os, o.Clean) →
    (enc sss.flatten).length + (os.map Op.size).sum ≤ T → bs.length + os.length ≤ n → AppendsOk fresh sss.flatten os →
    ∃ bs' L, run bs os = some bs' ∧ items bs' = some L ∧ count bs' = some L.length ∧ Meaning sss.flatten os L := by
  induction os with
  | nil =>
    intro bs sss fresh h _ _ _ _
    exact ⟨bs, _, rfl, items_rep h.rep, count_rep h.rep, .nil⟩
  | cons o os ih =>
    intro bs sss fresh h hc h1 h2 ha
    simp only [List.map_cons, List.sum_cons, List.length_cons] at h1 h2
    obtain ⟨bs1, tss, k1, k2, k3, k4, k5⟩ := step_good h o (hc o (by simp))
      (Nat.le_trans (Nat.mul_le_mul (by omega) (by omega)) hT) ha.1
    obtain ⟨bs', L, m1, m2, m3, m4⟩ := ih bs1 tss _ k2 (fun o ho => hc o (by simp [ho])) (by omega) (by omega) (ha.2 _ k3)
    exact ⟨bs', L, by rw [run, k1]; exact m1, m2, m3, .cons k3 m4⟩

theorem no_appends (os : List Op) : ∀ (fresh : Bool) (L : List (List Byte)), (∀ o ∈ os, ∀ t d, o ≠ .append t d) → AppendsOk fresh L os := by
  induction os with
  | nil => intros; trivial
  | cons o os ih =>
    intro fresh L h
    exact ⟨fun t d e => absurd e (h o (by simp) t d), fun L' _ => ih _ _ (fun o ho => h o (by simp [ho]))⟩

/-- C38: whatever strings are added with whatever delimiters, trimmed and put into small letters, going
over the list shows exactly the pieces, in order. -/
theorem split_trim (os : List Op) (hc : ∀ o ∈ os, o.Clean) (hs : Small os) (hn : ∀ o ∈ os, ∀ t d, o ≠ .append t d) :
    ∃ bs L, run [] os = some bs ∧ items bs = some L ∧ count bs = some L.length ∧ Meaning [] os L :=
  run_good _ _ hs os [] [] true ⟨.nil, fun _ => .inl rfl⟩ hc (by simp) (by simp) (no_appends os _ _ hn)

/-- Without `append`, only the largest text counts. -/
theorem run_wide (n : Nat) (os : List Op) (hos : ∀ o ∈ os, o.size * (n + 1) ≤ 2147483647) :
    ∀ (bs : Buf) (sss : List (List (List Byte))) (fresh : Bool), Good bs sss fresh → (∀ o ∈ os, o.Clean) →
    (∀ o ∈ os, ∀ t d, o ≠ .append t d) → bs.length + os.length ≤ n →
    ∃ bs' L, run bs os = some bs' ∧ items bs' = some L ∧ count bs' = some L.length ∧ Meaning sss.flatten os L := by
  induction os with
  | nil =>
    intro bs sss fresh h _ _ _
    exact ⟨bs, _, rfl, items_rep h.rep, count_rep h.rep, .nil⟩
  | cons o os ih =>
    intro bs sss fresh h hc ha h2
    simp only [List.length_cons] at h2
    have key : ∃ bs' tss, step bs o = some bs' ∧ Good bs' tss (freshAfter fresh o) ∧ Means sss.flatten o tss.flatten ∧ bs'.length ≤ bs.length + 1 := by
      cases o with
      | add s d =>
        have hs := hos _ List.mem_cons_self
        simp only [Op.size] at hs
        obtain ⟨bs', ps, tss, h1, h2, h3, h4, h5, h6⟩ := add_rep h.rep s d (hc _ List.mem_cons_self)
          (Nat.le_trans (Nat.mul_le_mul (Nat.le_refl _) (by omega)) hs)
        exact ⟨bs', tss, h1, ⟨h3, fun _ => .inr h6⟩, ⟨ps, h2, h4⟩, h5⟩
      | append t d => exact absurd rfl (ha _ List.mem_cons_self t d)
      | trim g =>
        obtain ⟨bs', tss, h1, h2, h3, h4⟩ := trimAll_rep h.rep g
        exact ⟨bs', tss, h1, ⟨h2, fun e => by simp [freshAfter] at e⟩, by simp only [Means, white_eq]; exact h3, by omega⟩
      | lower =>
        obtain ⟨bs', h1, h2, h3⟩ := lower_rep h.rep
        refine ⟨bs', _, h1, ⟨h2, ?_⟩, ?_, by omega⟩
        · intro e
          rcases h.last e with rfl | ⟨ss, k1, k2⟩
          · left; exact List.eq_nil_of_length_eq_zero (by simpa using h3)
          · right; exact ⟨ss.map strToLower, by simp [k1], by simpa using k2⟩
        · rw [flatten_map_map]
          refine ⟨by rw [List.length_map], fun i s t hi ht => ?_⟩
          rw [List.getElem?_map, hi] at ht
          simp at ht
          subst ht
          exact lowered_lower s
      | clear => exact ⟨[], [], rfl, ⟨.nil, fun _ => .inl rfl⟩, rfl, by simp⟩
    obtain ⟨bs1, tss, k1, k2, k3, k5⟩ := key
    obtain ⟨bs', L, m1, m2, m3, m4⟩ := ih (fun o ho => hos o (by simp [ho])) bs1 tss _ k2 (fun o ho => hc o (by simp [ho]))
      (fun o ho => ha o (by simp [ho])) (by omega)
    exact ⟨bs', L, by rw [run, k1]; exact m1, m2, m3, .cons k3 m4⟩

/-- The same as `split_trim`, for more text. -/
theorem split_trim_wide (os : List Op) (hc : ∀ o ∈ os, o.Clean) (hs : ∀ o ∈ os, o.size * (os.length + 1) ≤ 2147483647)
    (hn : ∀ o ∈ os, ∀ t d, o ≠ .append t d) :
    ∃ bs L, run [] os = some bs ∧ items bs = some L ∧ count bs = some L.length ∧ Meaning [] os L :=
  run_wide os.length os hs [] [] true ⟨.nil, fun _ => .inl rfl⟩ hc hn (by simp)

/-- C62: going on with the last string of a list works after every history. -/
def Continues : Prop := ∀ os : List Op, (∀ o ∈ os, o.Clean) → Small os →
  ∃ bs L, run [] os = some bs ∧ items bs = some L ∧ Meaning [] os L

/-- C62 is false of the code: behind an empty first string the last one is not found; it is lost, and
uninitialised memory becomes part of the list. -/
theorem continues_false : ¬ Continues := by
  intro h
  obtain ⟨bs, L, h1, h2, -⟩ := h [.add (str ",abc") (some (str ",")), .append (str "d") (some (str ","))]
    (by intro o ho; simp at ho; rcases ho with rfl | rfl <;> simp only [Op.Clean] <;> decide) (by unfold Small; decide)
  have h3 : ((run [] [.add (str ",abc") (some (str ",")), .append (str "d") (some (str ","))]).bind items) = none := by
    decide +kernel
  rw [h1] at h3
  simp [h2] at h3

/-- C62 for lists that were not trimmed since and in which the string before the last one is not empty. -/
theorem continues_partial (os : List Op) (hc : ∀ o ∈ os, o.Clean) (hs : Small os) (ha : AppendsOk true [] os) :
    ∃ bs L, run [] os = some bs ∧ items bs = some L ∧ count bs = some L.length ∧ Meaning [] os L :=
  run_good _ _ hs os [] [] true ⟨.nil, fun _ => .inl rfl⟩ hc (by simp) (by simp) ha

theorem split_ne_nil {d s : List Byte} {ps : List (List Byte)} (h : Split d s ps) : ps ≠ [] := by cases h <;> simp

theorem split_join {d s t : List Byte} {qs ps : List (List Byte)} (h : Split d s qs) :
    ∀ I x, qs = I ++ [x] → Split d (x ++ t) ps → Split d (s ++ t) (I ++ ps) := by
  induction h with
  | @last s hs =>
    intro I x e hp
    cases I with
    | nil => simp at e; subst e; exact hp
    | cons a I => simp at e
  | @cons s r y ps' hs hy hr ih =>
    intro I x e hp
    cases I with
    | nil =>
      simp at e
      exact absurd e.2 (split_ne_nil hr)
    | cons a I =>
      simp only [List.cons_append, List.cons.injEq] at e
      obtain ⟨rfl, e⟩ := e
      have := Split.cons hs hy (ih I x e hp)
      simpa using this

/-- What `Means` says about going on: a value that comes in two parts is the same as the whole value. -/
theorem parts_whole (L L1 L2 : List (List Byte)) (s t : List Byte) (d : Option (List Byte)) (h1 : Means L (.add s d) L1)
    (h2 : Means L1 (.append t d) L2) : Means L (.add (s ++ t) d) L2 := by
  obtain ⟨ps, k1, rfl⟩ := h1
  have hne := split_ne_nil k1
  rcases h2 with ⟨e, -⟩ | ⟨I, x, qs, e1, e2, rfl⟩
  · simp at e; exact absurd e.2 hne
  · obtain ⟨J, y, rfl⟩ : ∃ J y, ps = J ++ [y] := ⟨ps.dropLast, ps.getLast hne, (List.dropLast_concat_getLast hne).symm⟩
    rw [← List.append_assoc] at e1
    obtain ⟨rfl, e3⟩ := List.append_inj' e1 rfl
    simp at e3
    subst e3
    exact ⟨J ++ qs, split_join k1 J y rfl e2, by simp⟩

/-! ### Cases -/

example : (∃ bs, run [] [.add (str " a , B,, c") (some (str ",")), .add (str "xY z\t") none, .trim none, .lower] = some bs ∧
    items bs = some [str "a", str "b", str "c", str "xy z"]) ∧
    Small [.add (str " a , B,, c") (some (str ",")), .add (str "xY z\t") none, .trim none, .lower] :=
  ⟨⟨_, rfl, by decide +kernel⟩, by unfold Small; decide⟩

example : Split (str ",;") (str "a,,b;c") [str "a", [], str "b", str "c"] :=
  .cons (s := str "a") (by decide) (x := 44) (by decide) (.cons (s := []) (by decide) (x := 44) (by decide)
    (.cons (s := str "b") (by decide) (x := 59) (by decide) (.last (by decide))))

example : ∃ bs, run [] [.add (str "a,b") (some (str ",")), .append (str "c,d") (some (str ","))] = some bs ∧
    items bs = some [str "a", str "bc", str "d"] := ⟨_, rfl, by decide +kernel⟩

example : AppendsOk true [] [.add (str "ab") none, .append (str "c,d") (some (str ","))] := by
  refine ⟨fun t d e => by (cases e), fun L' h => ⟨fun t d _ => ⟨rfl, ?_⟩, fun _ _ => trivial⟩⟩
  obtain ⟨ps, h1, rfl⟩ := h
  intro I y x e
  have hs : ∀ {s : List Byte} {ps : List (List Byte)}, Split [] s ps → ps.length = 1 := by
    intro s ps h
    cases h with
    | last => rfl
    | cons _ hx _ => exact absurd hx (by simp)
  have := congrArg List.length e
  simp [hs h1] at this

end Verif.StringList
