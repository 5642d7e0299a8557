import Verif.Lemmas.BstFold
import Verif.Model.Filter
import Verif.Props.StringChunk
import Verif.Props.MsgContext
/-! C22: the filter refuses exactly the disabled queries. -/

namespace Verif.Filter
open StringChunk Msg

theorem typeCmp_preorder : TotalPreorder typeCmp :=
  ⟨by intros; unfold typeCmp; omega, by intro a b c h1 h2; unfold typeCmp at *; omega⟩

theorem loadDomains_run (c : Chunk Unit) (l : List (List Byte)) :
    loadDomains c l = c.run (l.map (fun s => Op.addDomain s none)) := by
  unfold loadDomains Chunk.run
  rw [List.foldl_map]; rfl

theorem run_append (c : Chunk Unit) (a b : List (Op Unit)) : (c.run a).run b = c.run (a ++ b) := by
  simp [Chunk.run]

theorem foldl_loadDomains (fs : List (List (List Byte))) (c : Chunk Unit) :
    fs.foldl loadDomains c = c.run (fs.flatten.map (fun s => Op.addDomain s none)) := by
  induction fs generalizing c with
  | nil => rfl
  | cons f fs ih =>
    rw [List.foldl_cons, ih, loadDomains_run, run_append]
    simp

/-- All configured domain texts, whichever way they were given. -/
def allDomains (opt : Option (List (List Byte))) (files : Option (List (List (List Byte)))) :
    List (List Byte) := opt.getD [] ++ (files.getD []).flatten

theorem initDomains_eq (opt : Option (List (List Byte))) (files : Option (List (List (List Byte)))) :
    initDomains opt files = none ∧ allDomains opt files = [] ∨
    initDomains opt files = some ((StringChunk.init bkdrHash).run
      ((allDomains opt files).map (fun s => Op.addDomain s none))) := by
  unfold initDomains allDomains
  cases files with
  | none =>
    cases opt with
    | none => left; simp
    | some l => right; simp [loadDomains_run]
  | some fs =>
    right
    cases opt with
    | none => simp [foldl_loadDomains]
    | some l => simp [foldl_loadDomains, loadDomains_run, run_append]

/-- A configured domain text, as the user understands it: a plain text disables the domain (one
leading dot ignored) and its subdomains, a text with wildcards disables what it matches. -/
def Disables (fnm : List Byte → List Byte → Bool) (conf name : List Byte) : Prop :=
  (IsPattern (domainText conf) ∧ fnm (domainText conf) name = true) ∨
  (¬ IsPattern (domainText conf) ∧ Covers (domainText conf) name)

/-- C22.  For every configuration (types all numeric, domains from the option and from files) and
every query with a non-empty name, the filter stops the query exactly when its type is listed or one
of the configured domains disables its name; then exactly one message, the refusal, is sent to the
client; otherwise nothing is sent. -/
theorem filter_refuses_exactly {Addr : Type} (junk : Int) (types : Option (List Int))
    (opt : Option (List (List Byte))) (files : Option (List (List (List Byte))))
    (fnm : List Byte → List Byte → Bool) (behind : List Byte) (m : Ctx Addr)
    (hname : m.domain ≠ []) (hhash : m.hash = bkdrHash m.domain) :
    let s : State := ⟨initTypes junk (types.map (·.map some)), initDomains opt files⟩
    let r := filterOut s fnm behind m
    (r.1 = true ↔ (m.type : Int) ∈ types.getD [] ∨ ∃ c ∈ allDomains opt files, Disables fnm c m.domain) ∧
    (r.1 = true → r.2 = [sendBackRefused m]) ∧ (r.1 = false → r.2 = []) := by
  intro s r
  have hl : ∀ (l : List Int) (c : Int), loadTypes c (l.map some) = l := by
    intro l
    induction l with
    | nil => intro c; rfl
    | cons x l ih => intro c; simp [loadTypes, ih]
  have ht : isDisabledType s m.type = true ↔ (m.type : Int) ∈ types.getD [] := by
    unfold isDisabledType
    cases types with
    | none => simp [s, initTypes]
    | some l =>
      simp only [s, initTypes, Option.map_some, hl, Option.getD_some]
      rw [Bst.foldl_search_isSome typeCmp_preorder]
      unfold typeCmp
      constructor
      · rintro ⟨x, hx, h0⟩
        have : x = (m.type : Int) := by omega
        exact this ▸ hx
      · intro h; exact ⟨_, h, by omega⟩
  have hd : isDisabledDomain s fnm m.domain m.hash behind = true ↔
      ∃ c ∈ allDomains opt files, Disables fnm c m.domain := by
    unfold isDisabledDomain
    rcases initDomains_eq opt files with ⟨h1, h2⟩ | h1
    · simp [s, h1, h2]
    · simp only [s, h1, hhash]
      rw [domain_match_full_iff bkdrHash _ fnm m.domain behind _ hname]
      simp only [plain_iff, patterns_iff, List.mem_map, and_true]
      constructor
      · rintro (⟨e, ⟨⟨op, ⟨c, hc, rfl⟩, rfl⟩, hp⟩, hcov⟩ | ⟨e, ⟨⟨op, ⟨c, hc, rfl⟩, rfl⟩, hp⟩, hm⟩)
        · exact ⟨c, hc, Or.inr ⟨hp, hcov⟩⟩
        · exact ⟨c, hc, Or.inl ⟨hp, hm⟩⟩
      · rintro ⟨c, hc, ⟨hp, hdis⟩ | ⟨hp, hdis⟩⟩
        · exact Or.inr ⟨_, ⟨⟨_, ⟨c, hc, rfl⟩, rfl⟩, hp⟩, hdis⟩
        · exact Or.inl ⟨_, ⟨⟨_, ⟨c, hc, rfl⟩, rfl⟩, hp⟩, hdis⟩
  have hr : r = if isDisabledType s m.type || isDisabledDomain s fnm m.domain m.hash behind then
    (true, [sendBackRefused m]) else (false, []) := rfl
  rw [← ht, ← hd, hr]
  cases isDisabledType s m.type <;> cases isDisabledDomain s fnm m.domain m.hash behind <;> simp

/-- The claim that a `DisabledType` entry that is not a number disables nothing. -/
def BadTypeHarmless : Prop :=
  ∀ (junk : Int) (l : List (Option Int)) (t : Nat),
    isDisabledType ⟨initTypes junk (some l), none⟩ t = true → some (t : Int) ∈ l

/-- C47 is false of the code: `DisabledType AAAA` disables whatever type number happens to be in the
uninitialised variable. -/
theorem bad_type_harmless_false : ¬ BadTypeHarmless := by
  intro h
  have := h 1 [none] 1 (by decide +kernel)
  simp at this

/-- C47, the part that holds: behind a numeric entry, a non-numeric one only repeats it. -/
theorem bad_type_repeats_partial (junk v : Int) (l : List (Option Int)) (t : Nat) :
    isDisabledType ⟨initTypes junk (some (some v :: l)), none⟩ t = true ↔ some (t : Int) ∈ some v :: l := by
  have hm : ∀ (l : List (Option Int)) (c x : Int), x ∈ loadTypes c l →
      some x ∈ l ∨ x = c := by
    intro l
    induction l with
    | nil => intro c x h; simp [loadTypes] at h
    | cons a l ih =>
      intro c x h
      cases a with
      | some v =>
        simp only [loadTypes, List.mem_cons] at h
        rcases h with rfl | h
        · exact Or.inl (by simp)
        · rcases ih v x h with h | h
          · exact Or.inl (by simp [h])
          · exact Or.inl (by simp [h])
      | none =>
        simp only [loadTypes, List.mem_cons] at h
        rcases h with rfl | h
        · exact Or.inr rfl
        · rcases ih c x h with h | h
          · exact Or.inl (by simp [h])
          · exact Or.inr h
  have hm2 : ∀ (l : List (Option Int)) (c x : Int), some x ∈ l → x ∈ loadTypes c l := by
    intro l
    induction l with
    | nil => intro c x h; simp at h
    | cons a l ih =>
      intro c x h
      cases a with
      | some v =>
        simp only [List.mem_cons, Option.some.injEq] at h
        rcases h with rfl | h
        · simp [loadTypes]
        · simp [loadTypes, ih v x h]
      | none =>
        have : some x ∈ l := by simpa using h
        simp [loadTypes, ih c x this]
  unfold isDisabledType
  simp only [initTypes, Option.map_some]
  rw [Bst.foldl_search_isSome typeCmp_preorder]
  unfold typeCmp
  constructor
  · rintro ⟨x, hx, h0⟩
    have hx' : x = (t : Int) := by omega
    subst hx'
    simp only [loadTypes, List.mem_cons] at hx
    rcases hx with h | h
    · simp [h]
    · rcases hm l v _ h with h | h
      · simp [h]
      · simp [h]
  · intro h
    exact ⟨_, hm2 _ junk _ h, by omega⟩

/-- Non-vacuity: type 28 and `.ads.com` disabled; a query for `x.ads.com` is refused, one for
`xads.com` is not, an AAAA query is. -/
example :
    let s : State := ⟨initTypes 0 (some [some 28]), initDomains (some [str ".ads.com"]) none⟩
    let q (d : List Byte) (t : Nat) : Ctx Nat :=
      ⟨some 9, 3, d, bkdrHash d, t, false, false, [], [0, 7, 1, 0, 0, 1, 0, 0, 0, 0, 0, 0]⟩
    (filterOut s (fun _ _ => false) [] (q (str "x.ads.com") 1)) =
      (true, [.udp 3 9 false [0, 7, 0x81, 0x80, 0, 1, 0, 0, 0, 0, 0, 0]]) ∧
    (filterOut s (fun _ _ => false) [] (q (str "xads.com") 1)).1 = false ∧
    (filterOut s (fun _ _ => false) [] (q (str "xads.com") 28)).1 = true := by decide +kernel

end Verif.Filter
