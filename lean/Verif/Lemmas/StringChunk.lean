import Verif.Lemmas.SimpleHT
import Verif.Spec.StringChunk

namespace Verif.StringChunk
open SimpleHT
variable {δ : Type}

theorem isPattern_iff (s : List Byte) : IsPattern s ↔ hasWildcard s = true := by
  simp [IsPattern, hasWildcard, or_assoc]

theorem stripDot_eq (s : List Byte) : stripDot s = domainText s := by
  unfold domainText
  cases s with
  | nil => rfl
  | cons c t =>
    by_cases h : c = 46
    · subst h; rfl
    · simp only [List.head?_cons, Option.some.injEq, h, if_false]
      unfold stripDot
      split
      · rename_i heq; simp at heq; exact absurd heq.1 h
      · rfl

theorem decide_isPattern (s : List Byte) : decide (IsPattern s) = hasWildcard s := by
  rw [Bool.eq_iff_iff, decide_eq_true_iff, isPattern_iff]

structure Good (c : Chunk δ) (es : List (Entry δ)) : Prop where
  inv : SimpleHT.Inv c.ht
  cont : c.ht.contents = (es.filter (fun e => !decide (IsPattern e.str))).map (fun e => (c.hash e.str, e))
  wild : c.wild = es.filter (fun e => decide (IsPattern e.str))

theorem good_init (hash) : Good (init hash : Chunk δ) [] :=
  ⟨inv_init 5, rfl, rfl⟩

theorem add_hash (c : Chunk δ) (s d) : (c.add s d).hash = c.hash := by
  unfold Chunk.add; split <;> rfl

theorem good_add {c : Chunk δ} {es} (h : Good c es) (s d) : Good (c.add s d) (es ++ [⟨s, d⟩]) := by
  unfold Chunk.add
  rw [← decide_isPattern]
  split
  · rename_i hw
    exact ⟨h.inv, by simp [h.cont, List.filter_append, hw], by simp [h.wild, List.filter_append, hw]⟩
  · rename_i hw
    have := add_spec h.inv (c.hash s) (⟨s, d⟩ : Entry δ)
    refine ⟨this.1, ?_, ?_⟩
    · simp [this.2, h.cont, List.filter_append, hw]
    · simp [h.wild, List.filter_append, hw]

theorem good_step {c : Chunk δ} {es} (h : Good c es) (op : Op δ) : Good (c.step op) (es ++ [op.entry]) := by
  cases op with
  | add s d => exact good_add h s d
  | addDomain s d =>
    show Good (c.add (stripDot s) d) (es ++ [⟨domainText s, d⟩])
    rw [stripDot_eq]; exact good_add h _ d

theorem good_run {c : Chunk δ} {es} (h : Good c es) (ops : List (Op δ)) :
    Good (c.run ops) (es ++ ops.map Op.entry) := by
  induction ops generalizing c es with
  | nil => simpa [Chunk.run] using h
  | cons op ops ih =>
    have := ih (good_step h op)
    simpa [Chunk.run] using this

theorem run_hash (c : Chunk δ) (ops : List (Op δ)) : (c.run ops).hash = c.hash := by
  induction ops generalizing c with
  | nil => rfl
  | cons op ops ih =>
    show ((c.step op).run ops).hash = _
    rw [ih]
    cases op <;> exact add_hash ..

theorem good_of_run (hash) (ops : List (Op δ)) : Good ((init hash).run ops) (ops.map Op.entry) := by
  simpa using good_run (good_init hash) ops

/-- Filtering by "same slot" does not lose entries with an equal key. -/
theorem find_filter_slot (l : List (Entry δ)) (hash : List Byte → UInt32) (s : List Byte) (m : Nat)
    (ok : Option δ → Bool) :
    ((((l.map (fun e => (hash e.str, e))).reverse.filter
        (fun e => e.1.toNat % m == (hash s).toNat % m)).map (·.2)).find? (fun e => e.str == s && ok e.data)) =
      l.reverse.find? (fun e => e.str == s && ok e.data) := by
  rw [← List.map_reverse]
  generalize l.reverse = r
  induction r with
  | nil => rfl
  | cons e r ih =>
    simp only [List.map_cons, List.filter_cons, List.find?_cons]
    by_cases h : e.str = s
    · subst h
      simp only [beq_self_eq_true, if_true, List.map_cons, List.find?_cons, Bool.true_and]
      rw [← ih]
    · have h' : (e.str == s) = false := by simpa using h
      simp only [h', Bool.false_and]
      split
      · simp only [List.map_cons, List.find?_cons, h', Bool.false_and]; exact ih
      · exact ih

theorem matchNoWild_eq {c : Chunk δ} {es} (h : Good c es) (s : List Byte) (ok : Option δ → Bool) :
    c.matchNoWild s (c.hash s) ok =
      (((es.filter (fun e => !decide (IsPattern e.str))).reverse.find?
        (fun e => e.str == s && ok e.data))).map (·.data) := by
  unfold Chunk.matchNoWild
  rw [scan_find h.inv _ _ _ (Nat.le_refl _), h.cont, find_filter_slot]
  cases (es.filter (fun e => !decide (IsPattern e.str))).reverse.find? (fun e => e.str == s && ok e.data) <;> rfl

/-- The search loop never runs out of fuel. -/
theorem scan_ne_none {c : Chunk δ} {es} (h : Good c es) (p : Entry δ → Bool) (hv : UInt32) :
    c.ht.scan p c.ht.nodes.length (c.ht.findFirst hv) ≠ none := by
  rw [scan_find h.inv _ _ _ (Nat.le_refl _)]; simp

theorem find_reverse_some {l : List (Entry δ)} {p : Entry δ → Bool} {e} :
    l.reverse.find? p = some e ↔ LastWith l (fun e => p e = true) e := by
  rw [List.find?_eq_some_iff_append]
  constructor
  · rintro ⟨hp, as, bs, h1, h2⟩
    refine ⟨bs.reverse, as.reverse, ?_, hp, ?_⟩
    · have := congrArg List.reverse h1
      simpa using this
    · intro x hx
      have := h2 x (by simpa using hx)
      simpa using this
  · rintro ⟨b, a, h1, h2, h3⟩
    refine ⟨h2, a.reverse, b.reverse, by simp [h1], ?_⟩
    intro x hx
    have := h3 x (by simpa using hx)
    simpa using this

/-- Suffixes that start right behind a dot. -/
def dotSuffixes : List Byte → List (List Byte)
  | [] => []
  | c :: t => if c = 46 then t :: dotSuffixes t else dotSuffixes t

theorem domainLoop_eq (c : Chunk δ) (ok : Option δ → Bool) (s : List Byte) :
    c.domainLoop ok s = (dotSuffixes s).findSome? (fun t => c.matchNoWild t (c.hash t) ok) := by
  induction s with
  | nil => rfl
  | cons ch t ih =>
    simp only [Chunk.domainLoop, dotSuffixes]
    split
    · simp only [List.findSome?_cons, ih]
      cases c.matchNoWild t (c.hash t) ok <;> rfl
    · exact ih

theorem mem_dotSuffixes {s t : List Byte} : t ∈ dotSuffixes s ↔ ∃ p, s = p ++ 46 :: t := by
  induction s with
  | nil => simp [dotSuffixes]
  | cons c s ih =>
    simp only [dotSuffixes]
    constructor
    · intro h
      split at h
      · rename_i hc
        subst hc
        rcases List.mem_cons.1 h with rfl | h
        · exact ⟨[], rfl⟩
        · obtain ⟨p, rfl⟩ := ih.1 h; exact ⟨46 :: p, rfl⟩
      · obtain ⟨p, rfl⟩ := ih.1 h; exact ⟨c :: p, rfl⟩
    · rintro ⟨p, hp⟩
      cases p with
      | nil =>
        simp only [List.nil_append, List.cons.injEq] at hp
        obtain ⟨rfl, rfl⟩ := hp
        simp
      | cons a p =>
        simp only [List.cons_append, List.cons.injEq] at hp
        obtain ⟨rfl, rfl⟩ := hp
        have := ih.2 ⟨p, rfl⟩
        split <;> simp [this]

theorem dotSuffixes_sorted (s : List Byte) :
    (dotSuffixes s).Pairwise (fun a b => b.length < a.length) := by
  induction s with
  | nil => simp [dotSuffixes]
  | cons c s ih =>
    simp only [dotSuffixes]
    split
    · refine List.pairwise_cons.2 ⟨?_, ih⟩
      intro b hb
      obtain ⟨p, rfl⟩ := mem_dotSuffixes.1 hb
      simp; omega
    · exact ih

/-- The names a domain lookup tries, in order. -/
def candidates (d : List Byte) : List (List Byte) := d :: dotSuffixes d.tail

theorem mem_candidates {d t : List Byte} : t ∈ candidates d ↔ Covers t d := by
  simp only [candidates, List.mem_cons, Covers, mem_dotSuffixes]
  constructor
  · rintro (rfl | ⟨p, hp⟩)
    · exact Or.inl rfl
    · right
      cases d with
      | nil => simp at hp
      | cons c d => exact ⟨c :: p, by simp, by simpa using hp⟩
  · rintro (rfl | ⟨p, hp, rfl⟩)
    · exact Or.inl rfl
    · right
      cases p with
      | nil => exact absurd rfl hp
      | cons c p => exact ⟨p, rfl⟩

theorem candidates_sorted (d : List Byte) :
    (candidates d).Pairwise (fun a b => b.length < a.length) := by
  refine List.pairwise_cons.2 ⟨?_, dotSuffixes_sorted _⟩
  intro b hb
  obtain ⟨p, hp⟩ := mem_dotSuffixes.1 hb
  cases d with
  | nil => simp at hp
  | cons c d =>
    simp only [List.tail_cons] at hp
    subst hp; simp; omega

theorem domainMatchNoWild_eq (c : Chunk δ) (ok : Option δ → Bool) (d behind : List Byte) (hd : d ≠ []) :
    c.domainMatchNoWild d (c.hash d) ok behind =
      (candidates d).findSome? (fun t => c.matchNoWild t (c.hash t) ok) := by
  unfold Chunk.domainMatchNoWild candidates
  cases d with
  | nil => exact absurd rfl hd
  | cons ch t =>
    simp only [List.findSome?_cons, domainLoop_eq, List.tail_cons]
    cases c.matchNoWild (ch :: t) (c.hash (ch :: t)) ok <;> rfl

end Verif.StringChunk
