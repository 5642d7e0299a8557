import Verif.Lemmas.StringChunk
/-! C18, C19, C20, C21: the string table used for filter lists, hosts, options and routing. -/

namespace Verif.StringChunk
open SimpleHT
variable {δ : Type}

/-- The classification into plain keys and patterns is by the three wildcard characters. -/
theorem plain_iff (ops : List (Op δ)) (e : Entry δ) :
    e ∈ plain ops ↔ (∃ op ∈ ops, op.entry = e) ∧ ¬ IsPattern e.str := by
  simp [plain, isPattern_iff]

theorem patterns_iff (ops : List (Op δ)) (e : Entry δ) :
    e ∈ patterns ops ↔ (∃ op ∈ ops, op.entry = e) ∧ IsPattern e.str := by
  simp [patterns, isPattern_iff]

/-- C18.  After any sequence of additions, with any hash function and however often the table was
enlarged, looking a key up gives the datum of the plain entry added last under exactly that key
(among those the caller's check accepts). -/
theorem lookup_last_added (hash : List Byte → UInt32) (ops : List (Op δ)) (s : List Byte)
    (ok : Option δ → Bool) (d : Option δ) :
    ((init hash).run ops).matchNoWild s (hash s) ok = some d ↔
      ∃ e, LastWith (plain ops) (fun e => e.str = s ∧ ok e.data = true) e ∧ e.data = d := by
  have hg := good_of_run hash ops
  have := matchNoWild_eq hg s ok
  rw [run_hash] at this
  show ((init hash).run ops).matchNoWild s ((init hash : Chunk δ).hash s) ok = some d ↔ _
  rw [this]
  simp only [Option.map_eq_some_iff, find_reverse_some, Bool.and_eq_true, beq_iff_eq]
  rfl

/-- C18.  A failed lookup means no accepted entry with that key was ever added. -/
theorem lookup_none_iff (hash : List Byte → UInt32) (ops : List (Op δ)) (s : List Byte)
    (ok : Option δ → Bool) :
    ((init hash).run ops).matchNoWild s (hash s) ok = none ↔
      ∀ e ∈ plain ops, e.str = s → ok e.data = false := by
  have hg := good_of_run hash ops
  have := matchNoWild_eq hg s ok
  rw [run_hash] at this
  show ((init hash).run ops).matchNoWild s ((init hash : Chunk δ).hash s) ok = none ↔ _
  rw [this]
  simp only [Option.map_eq_none_iff, List.find?_eq_none, List.mem_reverse, Bool.and_eq_true,
    beq_iff_eq, not_and, Bool.not_eq_true]
  rfl

/-- C18.  The chain walk always ends within as many steps as there are entries. -/
theorem lookup_terminates (hash : List Byte → UInt32) (ops : List (Op δ)) (p : Entry δ → Bool)
    (hv : UInt32) :
    let c := (init hash).run ops
    c.ht.scan p c.ht.nodes.length (c.ht.findFirst hv) ≠ none :=
  scan_ne_none (good_of_run hash ops) p hv

/-- C18.  Enumerating the table (subscripts 0, 1, …) lists the plain entries in order of addition. -/
theorem enum_lists_all (hash : List Byte → UInt32) (ops : List (Op δ)) (i : Nat) :
    (((init hash).run ops).ht.enum i) =
      ((plain ops)[i]?, if i < (plain ops).length then i + 1 else i) := by
  have hg := good_of_run hash ops
  have hlen : ((init hash).run ops).ht.nodes.length = (plain ops).length := by
    have := congrArg List.length hg.cont
    simpa [HT.contents, plain] using this
  have hget : (((init hash).run ops).ht.nodes[i]?).map (·.data) = (plain ops)[i]? := by
    have := congrArg (fun l => (l[i]?).map Prod.snd) hg.cont
    simpa [HT.contents, List.getElem?_map, Option.map_map, Function.comp_def, plain] using this
  unfold HT.enum
  cases hx : ((init hash).run ops).ht.nodes[i]? with
  | some nd =>
    rw [hx] at hget
    obtain ⟨hlt, _⟩ := List.getElem?_eq_some_iff.1 hx
    rw [← hget, if_pos (by omega)]; rfl
  | none =>
    rw [hx] at hget
    have := List.getElem?_eq_none_iff.1 hx
    rw [← hget, if_neg (by omega)]; rfl

/-- C18.  A pattern lookup gives the first added pattern that matches. -/
theorem pattern_first_added (hash : List Byte → UInt32) (ops : List (Op δ))
    (fnm : List Byte → List Byte → Bool) (s : List Byte) (ok : Option δ → Bool) :
    ((init hash).run ops).matchWild fnm s ok =
      ((patterns ops).find? (fun e => fnm e.str s && ok e.data)).map (·.data) := by
  unfold Chunk.matchWild patterns
  rw [(good_of_run hash ops).wild]

/-- C18.  The random choice among patterns always returns the datum of a pattern that matches and is
accepted, prefers patterns other than `*`, and fails only when nothing matches (given that every
pattern carries a datum, as in the routing table). -/
theorem pattern_random_choice (hash : List Byte → UInt32) (ops : List (Op δ))
    (fnm : List Byte → List Byte → Bool) (s : List Byte) (ok : Option δ → Bool) (rnd : Nat) :
    (∀ d, ((init hash).run ops).matchWildGetOne fnm s ok rnd = some d →
      ∃ e ∈ patterns ops, fnm e.str s = true ∧ ok e.data = true ∧ e.data = some d ∧
        (e.str = [42] → ∀ x ∈ patterns ops, fnm x.str s = true → ok x.data = true → x.str = [42])) ∧
    ((∀ e ∈ patterns ops, e.data.isSome = true) →
      ((init hash).run ops).matchWildGetOne fnm s ok rnd = none →
      ∀ e ∈ patterns ops, ¬ (fnm e.str s = true ∧ ok e.data = true)) := by
  unfold Chunk.matchWildGetOne
  have hw : ((init hash).run ops).wild = patterns ops := (good_of_run hash ops).wild
  rw [hw]
  generalize patterns ops = pats
  generalize hh : pats.filter (fun e => fnm e.str s && ok e.data) = hits
  have hmem : ∀ e, e ∈ hits ↔ e ∈ pats ∧ fnm e.str s = true ∧ ok e.data = true := by
    intro e; rw [← hh]; simp
  simp only
  generalize hpm : (if (hits.filter (fun e => e.str != [42])).length > 0 then
      hits.filter (fun e => e.str != [42]) else hits.filter (fun e => e.str == [42])) = pm
  constructor
  · intro d hd
    cases hx : pm[rnd % pm.length]? with
    | none => rw [hx] at hd; exact absurd hd (by simp)
    | some e =>
      rw [hx] at hd
      have he := List.mem_of_getElem? hx
      rw [← hpm] at he
      split at he
      · simp only [List.mem_filter, bne_iff_ne] at he
        have := (hmem e).1 he.1
        exact ⟨e, this.1, this.2.1, this.2.2, hd, fun h => absurd h he.2⟩
      · rename_i hz
        simp only [List.mem_filter, beq_iff_eq] at he
        have := (hmem e).1 he.1
        refine ⟨e, this.1, this.2.1, this.2.2, hd, ?_⟩
        intro _ x hx h1 h2
        have h3 : hits.filter (fun e => e.str != [42]) = [] := List.length_eq_zero_iff.1 (by omega)
        have := List.filter_eq_nil_iff.1 h3 x ((hmem x).2 ⟨hx, h1, h2⟩)
        simpa using this
  · intro hdata hnone e he hc
    have heh := (hmem e).2 ⟨he, hc⟩
    have hpos : 0 < pm.length := by
      rw [← hpm]
      split
      · assumption
      · rename_i hz
        have h3 : hits.filter (fun e => e.str != [42]) = [] := List.length_eq_zero_iff.1 (by omega)
        have := List.filter_eq_nil_iff.1 h3 e heh
        have : e ∈ hits.filter (fun e => e.str == [42]) := by
          simp only [List.mem_filter, beq_iff_eq]; exact ⟨heh, by simpa using this⟩
        exact List.length_pos_of_mem this
    have hlt := Nat.mod_lt rnd hpos
    rw [List.getElem?_eq_getElem hlt] at hnone
    have hm : pm[rnd % pm.length] ∈ pats := by
      have h1 := List.getElem_mem hlt
      have : ∀ x ∈ pm, x ∈ pats := by
        intro x hx
        rw [← hpm] at hx
        split at hx
        · exact ((hmem x).1 (List.mem_filter.1 hx).1).1
        · exact ((hmem x).1 (List.mem_filter.1 hx).1).1
      exact this _ h1
    have := hdata _ hm
    simp only at hnone
    rw [hnone] at this; exact absurd this (by simp)

/-- C19.  A plain-domain lookup of a non-empty name succeeds exactly when some rule covers the name:
it is the rule's domain or ends with a dot followed by it. -/
theorem domain_match_iff (hash : List Byte → UInt32) (ops : List (Op δ)) (name behind : List Byte)
    (ok : Option δ → Bool) (hn : name ≠ []) :
    (((init hash).run ops).domainMatchNoWild name (hash name) ok behind).isSome = true ↔
      ∃ e ∈ plain ops, Covers e.str name ∧ ok e.data = true := by
  have h0 := domainMatchNoWild_eq ((init hash).run ops) ok name behind hn
  rw [run_hash] at h0
  show (((init hash).run ops).domainMatchNoWild name ((init hash : Chunk δ).hash name) ok behind).isSome
    = true ↔ _
  rw [h0, List.findSome?_isSome_iff]
  constructor
  · rintro ⟨t, ht, hs⟩
    have hc := mem_candidates.1 ht
    obtain ⟨d, hd⟩ := Option.isSome_iff_exists.1 hs
    obtain ⟨e, ⟨b, a, hl, ⟨h1, h2⟩, _⟩, _⟩ := (lookup_last_added hash ops t ok d).1 hd
    exact ⟨e, by simp [hl], by rw [h1]; exact hc, h2⟩
  · rintro ⟨e, he, hc, hok⟩
    refine ⟨e.str, mem_candidates.2 hc, ?_⟩
    rw [← Option.not_isNone, Bool.not_eq_true', Option.isNone_eq_false_iff, Option.isSome_iff_ne_none]
    intro hnone
    have := (lookup_none_iff hash ops e.str ok).1 hnone e he rfl
    rw [hok] at this; exact absurd this (by simp)

/-- C20.  The datum found by a plain-domain lookup belongs to a rule that covers the name, no rule
covering the name is longer, and of several rules for that same domain it is the last added. -/
theorem domain_match_most_specific (hash : List Byte → UInt32) (ops : List (Op δ))
    (name behind : List Byte) (ok : Option δ → Bool) (d : Option δ) (hn : name ≠ [])
    (h : ((init hash).run ops).domainMatchNoWild name (hash name) ok behind = some d) :
    ∃ e, e.data = d ∧ Covers e.str name ∧
      LastWith (plain ops) (fun x => x.str = e.str ∧ ok x.data = true) e ∧
      ∀ x ∈ plain ops, Covers x.str name → ok x.data = true → x.str.length ≤ e.str.length := by
  have h0 := domainMatchNoWild_eq ((init hash).run ops) ok name behind hn
  rw [run_hash] at h0
  have h1 : (candidates name).findSome?
      (fun t => ((init hash).run ops).matchNoWild t (hash t) ok) = some d := by
    rw [← h]; exact h0.symm
  obtain ⟨l1, t, l2, hl, ht, hbefore⟩ := List.findSome?_eq_some_iff.1 h1
  obtain ⟨e, he, hd⟩ := (lookup_last_added hash ops t ok d).1 ht
  obtain ⟨b, a, _, ⟨h1, h2⟩, _⟩ := id he
  subst h1
  refine ⟨e, hd, mem_candidates.1 (by simp [hl]), he, ?_⟩
  intro x hx hc hok
  have hm := mem_candidates.2 hc
  rw [hl] at hm
  rcases List.mem_append.1 hm with hm | hm
  · have := (lookup_none_iff hash ops x.str ok).1 (hbefore _ hm) x hx rfl
    rw [hok] at this; exact absurd this (by simp)
  · rcases List.mem_cons.1 hm with hm | hm
    · rw [hm]; exact Nat.le_refl _
    · have hs := candidates_sorted name
      rw [hl] at hs
      have := (List.pairwise_append.1 hs).2.1
      exact Nat.le_of_lt ((List.pairwise_cons.1 this).1 _ hm)

/-- C19 for the whole lookup: with patterns, a name matches exactly when a plain rule covers it or
the pattern matcher accepts one of the patterns. -/
theorem domain_match_full_iff (hash : List Byte → UInt32) (ops : List (Op δ))
    (fnm : List Byte → List Byte → Bool) (name behind : List Byte) (ok : Option δ → Bool)
    (hn : name ≠ []) :
    (((init hash).run ops).domainMatch fnm name (hash name) ok behind).isSome = true ↔
      (∃ e ∈ plain ops, Covers e.str name ∧ ok e.data = true) ∨
      (∃ e ∈ patterns ops, fnm e.str name = true ∧ ok e.data = true) := by
  rw [← domain_match_iff hash ops name behind ok hn]
  unfold Chunk.domainMatch
  cases hx : ((init hash).run ops).domainMatchNoWild name (hash name) ok behind with
  | some r => simp
  | none =>
    simp only [pattern_first_added, Option.isSome_map, List.find?_isSome, Bool.and_eq_true,
      Option.isSome_none, Bool.false_eq_true, false_or]

/-- The claim that the root name (empty text) matches only a rule for the root itself, whatever lies
in memory behind the text. -/
def RootMatchesOnlyRoot : Prop :=
  ∀ (ops : List (Op Unit)) (behind : List Byte),
    (((init bkdrHash).run ops).domainMatchNoWild [] (bkdrHash []) (fun _ => true) behind).isSome = true →
      ∃ e ∈ plain ops, Covers e.str []

/-- C46.  It is false of the code: the search starts one byte behind the text's terminator.  After a
query for `www.ads.com`, whose text stays in the header buffer, a query for the root name reads
`ww.ads.com` there and matches the rule `ads.com`. -/
theorem root_matches_only_root_false : ¬ RootMatchesOnlyRoot := by
  intro h
  have := h [.addDomain (str "ads.com") none] (str "ww.ads.com") (by decide +kernel)
  simp only [plain_iff] at this
  obtain ⟨e, ⟨⟨op, hop, rfl⟩, _⟩, hc⟩ := this
  simp only [List.mem_singleton] at hop
  subst hop
  rcases hc with hc | ⟨s, _, hc⟩
  · exact absurd hc (by decide +kernel)
  · simp at hc

/-- C46, the part that holds: with an empty string behind the terminator the root name matches only a
rule for the root. -/
theorem root_match_partial (hash : List Byte → UInt32) (ops : List (Op δ)) (ok : Option δ → Bool) :
    (((init hash).run ops).domainMatchNoWild [] (hash []) ok []).isSome = true ↔
      ∃ e ∈ plain ops, e.str = [] ∧ ok e.data = true := by
  unfold Chunk.domainMatchNoWild
  cases hx : ((init hash).run ops).matchNoWild [] (hash []) ok with
  | some r =>
    obtain ⟨e, ⟨b, a, hl, hp, _⟩, _⟩ := (lookup_last_added hash ops [] ok r).1 hx
    simp only [Option.isSome_some, true_iff]
    exact ⟨e, by simp [hl], hp⟩
  | none =>
    have := (lookup_none_iff hash ops [] ok).1 hx
    simp only [Chunk.domainLoop, Option.isSome_none, Bool.false_eq_true, false_iff, not_exists, not_and]
    intro e he h1 h2
    rw [this e he h1] at h2; exact absurd h2 (by simp)

/-- The claim that the letter case of a configured domain does not matter.  (The queried name is
lower-cased on receipt, iheader.c 63.) -/
def CaseInsensitive : Prop :=
  ∀ (ops : List (Op Unit)) (name behind : List Byte), name ≠ [] →
    ((((init bkdrHash).run ops).domainMatchNoWild (strToLower name) (bkdrHash (strToLower name))
        (fun _ => true) behind).isSome = true ↔
      ∃ e ∈ plain ops, Covers (strToLower e.str) (strToLower name))

/-- C21 is false of the code: `Ads.com` does not match a query for `Ads.com`. -/
theorem case_insensitive_false : ¬ CaseInsensitive := by
  intro h
  have := (h [.addDomain (str "Ads.com") none] (str "Ads.com") [] (by decide +kernel)).2
    ⟨⟨str "Ads.com", none⟩, by decide +kernel, Or.inl rfl⟩
  exact absurd this (by decide +kernel)

theorem strToLower_length (s : List Byte) : (strToLower s).length = s.length := by simp [strToLower]

theorem strToLower_ne_nil {s : List Byte} (h : s ≠ []) : strToLower s ≠ [] := by
  cases s with
  | nil => exact absurd rfl h
  | cons => simp [strToLower]

/-- C21, the part that holds: if every configured domain is written without upper-case letters then
the letter case of the query does not matter. -/
theorem case_insensitive_partial (ops : List (Op δ)) (name behind : List Byte) (hn : name ≠ [])
    (hl : ∀ e ∈ plain ops, strToLower e.str = e.str) :
    (((init bkdrHash).run ops).domainMatchNoWild (strToLower name) (bkdrHash (strToLower name))
        (fun _ => true) behind).isSome = true ↔
      ∃ e ∈ plain ops, Covers (strToLower e.str) (strToLower name) := by
  rw [domain_match_iff bkdrHash ops _ behind _ (strToLower_ne_nil hn)]
  constructor
  · rintro ⟨e, he, hc, _⟩; exact ⟨e, he, by rw [hl e he]; exact hc⟩
  · rintro ⟨e, he, hc⟩; exact ⟨e, he, by rw [hl e he] at hc; exact hc, rfl⟩

theorem toLowerByte_not_upper (c : Byte) : ¬ (65 ≤ toLowerByte c ∧ toLowerByte c ≤ 90) := by
  have key : ∀ n : Fin 256, ¬ (65 ≤ toLowerByte (UInt8.ofNat n) ∧ toLowerByte (UInt8.ofNat n) ≤ 90) := by
    decide +kernel
  have := key ⟨c.toNat, c.toNat_lt⟩
  simpa using this

/-- C21.  An entry containing an upper-case letter covers no lower-cased name at all: it is dead. -/
theorem uppercase_rule_dead (rule name : List Byte) (hu : ∃ c ∈ rule, 65 ≤ c ∧ c ≤ 90) :
    ¬ Covers rule (strToLower name) := by
  obtain ⟨c, hc, h1⟩ := hu
  have hmem : Covers rule (strToLower name) → c ∈ strToLower name := by
    rintro (h | ⟨p, _, h⟩)
    · rw [h]; exact hc
    · rw [h]; simp [hc]
  intro h
  obtain ⟨b, _, rfl⟩ := List.mem_map.1 (hmem h)
  exact toLowerByte_not_upper b h1

/-- Non-vacuity of C18-C20: forty entries (the table is enlarged once), a duplicate key, subdomain
rules; the most specific and last added wins; a lookalike suffix does not match. -/
def sampleOps : List (Op Nat) :=
  (List.range 40).map (fun i => Op.add (str "k" ++ [UInt8.ofNat (65 + i), 46, UInt8.ofNat (97 + i % 7)]) (some i)) ++
  [.addDomain (str ".example.com") (some 100), .addDomain (str "b.example.com") (some 101),
   .addDomain (str "example.com") (some 102), .addDomain (str "*.org") (some 103)]

example :
    ((init bkdrHash).run sampleOps).ht.slots.length = 14 ∧
    ((init bkdrHash).run sampleOps).domainMatchNoWild (str "a.b.example.com")
      (bkdrHash (str "a.b.example.com")) (fun _ => true) [] = some (some 101) ∧
    ((init bkdrHash).run sampleOps).domainMatchNoWild (str "c.example.com")
      (bkdrHash (str "c.example.com")) (fun _ => true) [] = some (some 102) ∧
    ((init bkdrHash).run sampleOps).domainMatchNoWild (str "notexample.com")
      (bkdrHash (str "notexample.com")) (fun _ => true) [] = none ∧
    ((init bkdrHash).run sampleOps).matchNoWild (str "kE.e") (bkdrHash (str "kE.e")) (fun _ => true) =
      some (some 4) := by decide +kernel

example : ∃ ops : List (Op Unit), ops ≠ [] ∧ ∀ e ∈ plain ops, strToLower e.str = e.str :=
  ⟨[.addDomain (str "ads.com") none], by simp, by decide +kernel⟩

end Verif.StringChunk
