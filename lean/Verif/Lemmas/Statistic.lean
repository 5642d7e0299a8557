import Verif.Spec.Statistic
import Verif.Lemmas.StringChunk
import Verif.Lemmas.IpText

namespace Verif.Statistic

theorem tally_snoc (C : List (List Byte × Kind)) (e : List Byte × Kind) : tally (C ++ [e]) = (tally C).add (Info.unit e.2) := by
  unfold tally Info.add
  simp only [List.countP_append, List.countP_singleton]
  cases e.2 <;> simp [Info.unit]

theorem names_snoc (C : List (List Byte × Kind)) (e : List Byte × Kind) :
    names (C ++ [e]) = if e.1 ∈ names C then names C else names C ++ [e.1] := by
  unfold names
  rw [List.foldl_append]
  rfl

theorem add_comm (a b : Info) : a.add b = b.add a := by
  simp only [Info.add, Nat.add_comm]

theorem add_assoc (a b c : Info) : (a.add b).add c = a.add (b.add c) := by
  simp only [Info.add, Nat.add_assoc]

theorem zero_add (a : Info) : Info.zero.add a = a := by simp [Info.add, Info.zero]

/-- The counters fit. -/
def Fits (i : Info) : Prop := i.count < 2147483648 ∧ i.refused < 2147483648 ∧ i.hosts < 2147483648 ∧ i.cache < 2147483648 ∧ i.udp < 2147483648 ∧
    i.tcp < 2147483648 ∧ i.blocked < 2147483648

theorem plus_some {a b c : Info} : a.plus b = some c ↔ c = a.add b ∧ Fits c := by
  unfold Info.plus
  dsimp only
  constructor
  · intro h
    split at h
    · rename_i hf
      cases h
      exact ⟨rfl, hf⟩
    · cases h
  · rintro ⟨rfl, h⟩
    unfold Fits at h
    rw [if_pos h]

theorem fits_unit (t : Kind) : Fits (Info.unit t) := by cases t <;> simp [Fits, Info.unit]

theorem fits_left {a b : Info} (h : Fits (a.add b)) : Fits a := by
  simp only [Fits, Info.add] at *
  omega

theorem fits_tally {C : List (List Byte × Kind)} (h : C.length < 2147483648) : Fits (tally C) := by
  have : ∀ p : List Byte × Kind → Bool, C.countP p < 2147483648 := fun p => Nat.lt_of_le_of_lt List.countP_le_length h
  exact ⟨this _, this _, this _, this _, this _, this _, this _⟩

/-- The sum of the counters. -/
def total (l : List Info) : Info := l.foldr Info.add Info.zero

theorem sum_ok (l : List Info) (a : Info) (h : Fits (a.add (total l))) : l.foldlM (fun a i => a.plus i) a = some (a.add (total l)) := by
  induction l generalizing a with
  | nil => simp [total, Info.add, Info.zero]
  | cons i l ih =>
    have e : a.add (total (i :: l)) = (a.add i).add (total l) := by simp [total, add_assoc]
    rw [List.foldlM_cons, e, (plus_some (c := a.add i)).2 ⟨rfl, fits_left (e ▸ h)⟩]
    exact ih _ (e ▸ h)

theorem total_append (l m : List Info) : total (l ++ m) = (total l).add (total m) := by
  induction l with
  | nil => simp [total, zero_add]
  | cons i l ih =>
    show i.add (total (l ++ m)) = (i.add (total l)).add (total m)
    rw [ih, add_assoc]

theorem total_set (l : List Info) (k : Nat) (i : Info) (u : Info) (h : l[k]? = some i) : total (l.set k (i.add u)) = (total l).add u := by
  induction l generalizing k with
  | nil => simp at h
  | cons x l ih =>
    cases k with
    | zero =>
      simp at h; subst h
      show (x.add u).add (total l) = (x.add (total l)).add u
      rw [add_assoc, add_assoc, add_comm u]
    | succ k =>
      show x.add (total (l.set k (i.add u))) = (x.add (total l)).add u
      rw [ih k (by simpa using h), add_assoc]

/-- The entries of the table for these names. -/
def entries (D : List (List Byte)) : List (StringChunk.Entry Nat) := D.zipIdx.map (fun p => ⟨p.1, some p.2⟩)

theorem entries_snoc (D : List (List Byte)) (d : List Byte) : entries (D ++ [d]) = entries D ++ [⟨d, some D.length⟩] := by
  simp [entries, List.zipIdx_append]

structure Inv (C : List (List Byte × Kind)) (st : State) : Prop where
  chunk : StringChunk.Good st.chunk (entries (names C))
  infos : st.infos = (names C).map (fun d => tally (C.filter (fun e => e.1 = d)))
  nodup : (names C).Nodup
  plain : ∀ d ∈ names C, Plain d
  mem : ∀ d, d ∈ names C ↔ d ∈ C.map (·.1)
  total : total st.infos = tally C
  fits : ∀ i ∈ st.infos, Fits i

theorem inv_init (hash : List Byte → UInt32) : Inv [] (State.init hash) :=
  ⟨StringChunk.good_init hash, rfl, by simp [names], by simp [names], by simp [names], rfl, by simp [State.init]⟩

theorem not_pattern {d : List Byte} (h : Plain d) : ¬ StringChunk.IsPattern d := by
  rintro ⟨c, hc, hp⟩
  have := h c hc
  grind

theorem entries_plain {D : List (List Byte)} (hD : ∀ d ∈ D, Plain d) :
    (entries D).filter (fun e => !decide (StringChunk.IsPattern e.str)) = entries D ∧
    (entries D).filter (fun e => decide (StringChunk.IsPattern e.str)) = [] := by
  constructor
  · rw [List.filter_eq_self]
    intro e he
    obtain ⟨p, hp, rfl⟩ := List.mem_map.1 he
    simpa using not_pattern (hD _ (List.fst_mem_of_mem_zipIdx hp))
  · rw [List.filter_eq_nil_iff]
    intro e he
    obtain ⟨p, hp, rfl⟩ := List.mem_map.1 he
    simpa using not_pattern (hD _ (List.fst_mem_of_mem_zipIdx hp))

theorem match_eq (fnm : List Byte → List Byte → Bool) {C st} (h : Inv C st) (d : List Byte) :
    (d ∉ names C ∧ st.chunk.match_ fnm d (st.chunk.hash d) (fun _ => true) = none) ∨
    ∃ k, (names C)[k]? = some d ∧ st.chunk.match_ fnm d (st.chunk.hash d) (fun _ => true) = some (some k) := by
  unfold StringChunk.Chunk.match_
  rw [StringChunk.matchNoWild_eq h.chunk, (entries_plain h.plain).1]
  unfold entries
  rw [← List.map_reverse, List.find?_map]
  have : ((fun e : StringChunk.Entry Nat => e.str == d && true) ∘ fun p : List Byte × Nat => (⟨p.1, some p.2⟩ : StringChunk.Entry Nat)) = fun p => p.1 == d := by
    funext p; simp
  rw [this]
  cases hf : (names C).zipIdx.reverse.find? (fun p => p.1 == d) with
  | none =>
    left
    constructor
    · intro hd
      obtain ⟨k, hk⟩ := List.mem_iff_getElem?.1 hd
      have hm : (d, k) ∈ (names C).zipIdx.reverse := by rw [List.mem_reverse]; exact List.mem_zipIdx_iff_getElem?.2 hk
      exact List.find?_eq_none.1 hf _ hm (by simp)
    · show st.chunk.matchWild fnm d _ = none
      unfold StringChunk.Chunk.matchWild
      rw [h.chunk.wild, (entries_plain h.plain).2]
      rfl
  | some p =>
    right
    have h3 := List.find?_some hf
    have h4 := List.mem_of_find?_eq_some hf
    rw [List.mem_reverse] at h4
    have h5 := List.mem_zipIdx_iff_getElem?.1 h4
    rw [show p.1 = d by simpa using h3] at h5
    exact ⟨p.2, h5, rfl⟩

theorem filter_snoc (C : List (List Byte × Kind)) (d : List Byte) (t : Kind) (d' : List Byte) :
    tally ((C ++ [(d, t)]).filter (fun e => e.1 = d')) =
      if d = d' then (tally (C.filter (fun e => e.1 = d'))).add (Info.unit t) else tally (C.filter (fun e => e.1 = d')) := by
  rw [List.filter_append]
  by_cases hd : d = d'
  · rw [if_pos hd, ← tally_snoc (e := (d, t))]; simp [hd]
  · rw [if_neg hd]; simp [hd]

theorem inv_add (fnm : List Byte → List Byte → Bool) {C st} (h : Inv C st) (hs : st.skip = false) {d : List Byte} (hd : Plain d) (t : Kind) :
    (∀ st', add fnm st d t = some st' → Inv (C ++ [(d, t)]) st' ∧ st'.skip = false) ∧
    (C.length + 1 < 2147483648 → ∃ st', add fnm st d t = some st') := by
  unfold add
  rw [if_neg (by simp [hs])]
  rcases match_eq fnm h d with ⟨h1, h2⟩ | ⟨k, h1, h2⟩
  · rw [h2]
    dsimp only
    have hlen : st.infos.length = (names C).length := by rw [h.infos, List.length_map]
    have hnil : C.filter (fun e => e.1 = d) = [] := by
      rw [List.filter_eq_nil_iff]
      intro e he heq
      exact h1 ((h.mem d).2 (List.mem_map.2 ⟨e, he, by simpa using heq⟩))
    refine ⟨fun st' hst => ?_, fun _ => ⟨_, rfl⟩⟩
    cases hst
    have hn : names (C ++ [(d, t)]) = names C ++ [d] := by rw [names_snoc]; exact if_neg h1
    refine ⟨⟨?_, ?_, ?_, ?_, ?_, ?_, ?_⟩, hs⟩
    · show StringChunk.Good (st.chunk.add _ _) _
      rw [hn, entries_snoc, hlen]
      exact StringChunk.good_add h.chunk _ _
    · show st.infos ++ [Info.unit t] = _
      rw [hn, List.map_append, h.infos]
      congr 1
      · apply List.map_congr_left
        intro d' hd'
        rw [filter_snoc, if_neg (fun e : d = d' => h1 (e ▸ hd'))]
      · simp only [List.map_cons, List.map_nil]
        rw [filter_snoc, if_pos rfl, hnil]
        cases t <;> rfl
    · rw [hn, List.nodup_append]
      exact ⟨h.nodup, by simp, by intro a ha b hb he; simp at hb; subst hb; subst he; exact h1 ha⟩
    · intro d' hd'
      rw [hn, List.mem_append] at hd'
      rcases hd' with hd' | hd'
      · exact h.plain d' hd'
      · simp at hd'; subst hd'; exact hd
    · intro d'
      rw [hn, List.map_append, List.mem_append, List.mem_append, h.mem]
      simp
    · show total (st.infos ++ [Info.unit t]) = _
      rw [total_append, h.total, tally_snoc]
      congr 1
    · intro i hi
      rcases List.mem_append.1 (show i ∈ st.infos ++ [Info.unit t] from hi) with hi | hi
      · exact h.fits i hi
      · simp at hi; subst hi; exact fits_unit t
  · rw [h2]
    dsimp only
    have hik : st.infos[k]? = some (tally (C.filter (fun e => e.1 = d))) := by rw [h.infos, List.getElem?_map, h1]; rfl
    rw [hik]
    dsimp only
    have hmem : d ∈ names C := List.mem_of_getElem? h1
    have hn : names (C ++ [(d, t)]) = names C := by rw [names_snoc]; exact if_pos hmem
    have hnew : tally ((C ++ [(d, t)]).filter (fun e => e.1 = d)) = (tally (C.filter (fun e => e.1 = d))).add (Info.unit t) := by
      rw [filter_snoc, if_pos rfl]
    refine ⟨fun st' hst => ?_, fun hlen => ?_⟩
    · rw [Option.map_eq_some_iff] at hst
      obtain ⟨i, hi, rfl⟩ := hst
      obtain ⟨rfl, hfit⟩ := plus_some.1 hi
      refine ⟨⟨?_, ?_, ?_, ?_, ?_, ?_, ?_⟩, hs⟩
      · rw [hn]; exact h.chunk
      · show st.infos.set k _ = _
        rw [hn, h.infos]
        apply List.ext_getElem?
        intro j
        rw [List.getElem?_set, List.getElem?_map, List.getElem?_map]
        by_cases hjk : k = j
        · subst hjk
          have : k < (names C).length := (List.getElem?_eq_some_iff.1 h1).1
          simp only [if_true, List.length_map, this, h1, Option.map_some]
          rw [hnew]
        · rw [if_neg hjk]
          cases hj : (names C)[j]? with
          | none => rfl
          | some d' =>
            simp only [Option.map_some]
            rw [filter_snoc, if_neg]
            intro e
            subst e
            obtain ⟨b1, e1⟩ := List.getElem?_eq_some_iff.1 h1
            obtain ⟨b2, e2⟩ := List.getElem?_eq_some_iff.1 hj
            exact hjk ((List.getElem_inj h.nodup).1 (e1.trans e2.symm))
      · rw [hn]; exact h.nodup
      · rw [hn]; exact h.plain
      · intro d'
        rw [hn, List.map_append, List.mem_append, h.mem]
        constructor
        · exact .inl
        · rintro (h' | h')
          · exact h'
          · simp at h'; subst h'; exact (h.mem _).1 hmem
      · show total (st.infos.set k _) = _
        rw [total_set _ _ _ _ hik, h.total, tally_snoc]
      · intro i hi
        rcases List.mem_or_eq_of_mem_set hi with hi | hi
        · exact h.fits i hi
        · subst hi; exact hfit
    · have hf : Fits (tally ((C ++ [(d, t)]).filter (fun e => e.1 = d))) := by
        apply fits_tally
        refine Nat.lt_of_le_of_lt (List.length_filter_le _ _) ?_
        simpa using hlen
      rw [hnew] at hf
      exact ⟨_, by rw [plus_some.2 ⟨rfl, hf⟩]; rfl⟩

theorem inv_skip {C st} (h : Inv C st) (b : Bool) : Inv C { st with skip := b } := ⟨h.chunk, h.infos, h.nodup, h.plain, h.mem, h.total, h.fits⟩

theorem inv_run (fnm : List Byte → List Byte → Bool) (es : List Ev) {C st} (h : Inv C st) (hp : ∀ e ∈ counted st.skip es, Plain e.1) :
    (∀ st', run fnm st es = some st' → Inv (C ++ counted st.skip es) st') ∧
    ((C ++ counted st.skip es).length < 2147483648 → ∃ st', run fnm st es = some st') := by
  induction es generalizing C st with
  | nil => exact ⟨fun st' hst => by cases hst; simpa [counted] using h, fun _ => ⟨st, rfl⟩⟩
  | cons e es ih =>
    unfold run
    cases e with
    | start =>
      have := ih (inv_skip h true) hp
      exact this
    | stop =>
      have := ih (inv_skip h false) hp
      exact this
    | query d t =>
      cases hs : st.skip with
      | true =>
        have e1 : step fnm st (.query d t) = some st := by simp [step, add, hs]
        rw [e1]
        dsimp only
        have e2 : counted true (.query d t :: es) = counted st.skip es := by rw [hs]; simp [counted]
        rw [e2]
        exact ih h (by rw [← e2, ← hs]; exact hp)
      | false =>
        have e2 : counted false (.query d t :: es) = (d, t) :: counted false es := by simp [counted]
        rw [e2]
        rw [hs, e2] at hp
        obtain ⟨i1, i2⟩ := inv_add fnm h hs (hp (d, t) (by simp)) t
        have e3 : step fnm st (.query d t) = add fnm st d t := rfl
        rw [e3]
        cases ha : add fnm st d t with
        | none =>
          refine ⟨nofun, fun hl => ?_⟩
          obtain ⟨st', h'⟩ := i2 (by simp at hl; omega)
          rw [ha] at h'; cases h'
        | some st1 =>
          dsimp only
          obtain ⟨j1, j2⟩ := i1 st1 ha
          have := ih j1 (by rw [j2]; intro e he; exact hp e (by simp [he]))
          rw [j2] at this
          simpa using this

theorem rows_eq {C st} (h : Inv C st) : st.rows = wantRows C := by
  have hcont := h.chunk.cont
  rw [(entries_plain h.plain).1] at hcont
  unfold SimpleHT.HT.contents at hcont
  have e : st.rows = (st.chunk.ht.nodes.map (·.data)).filterMap (fun e => match e.data with
      | none => none
      | some k => (st.infos[k]?).map (fun i => (e.str, i))) := by
    rw [List.filterMap_map]; rfl
  have hd : st.chunk.ht.nodes.map (·.data) = entries (names C) := by
    have := congrArg (List.map Prod.snd) hcont
    simpa [List.map_map, Function.comp_def] using this
  rw [e, hd]
  unfold entries wantRows
  rw [List.filterMap_map]
  have : ∀ (Z : List (List Byte × Nat)), (∀ p ∈ Z, p ∈ (names C).zipIdx) →
      Z.filterMap ((fun e : StringChunk.Entry Nat => match e.data with
      | none => none
      | some k => (st.infos[k]?).map (fun i => (e.str, i))) ∘ fun p => ⟨p.1, some p.2⟩) =
      Z.map (fun p => (p.1, tally (C.filter (fun e => e.1 = p.1)))) := by
    intro Z hZ
    induction Z with
    | nil => rfl
    | cons p Z ih =>
      have hp := List.mem_zipIdx_iff_getElem?.1 (hZ p (by simp))
      have h1 : st.infos[p.2]? = some (tally (C.filter (fun e => e.1 = p.1))) := by rw [h.infos, List.getElem?_map, hp]; rfl
      rw [List.filterMap_cons, List.map_cons]
      simp only [Function.comp_apply, h1, Option.map_some]
      rw [← ih (fun q hq => hZ q (by simp [hq]))]
  rw [this _ (fun p hp => hp)]
  have e2 : (fun p : List Byte × Nat => (p.1, tally (C.filter (fun e => e.1 = p.1)))) =
      (fun d => (d, tally (C.filter (fun e => e.1 = d)))) ∘ Prod.fst := rfl
  rw [e2, ← List.map_map, List.zipIdx_map_fst]

theorem sum_eq {C st} (h : Inv C st) (hl : C.length < 2147483648) : st.sum = some (tally C) := by
  unfold State.sum
  rw [rows_eq h]
  have e : (wantRows C).foldlM (fun a r => a.plus r.2) Info.zero = ((wantRows C).map (·.2)).foldlM (fun a i => a.plus i) Info.zero := by
    rw [List.foldlM_map]
  have e2 : (wantRows C).map (·.2) = st.infos := by
    rw [h.infos]; unfold wantRows; rw [List.map_map]; rfl
  rw [e, e2, sum_ok, zero_add, h.total]
  rw [zero_add, h.total]
  exact fits_tally hl

/-! ### The text of the rows -/

theorem split_at {c : Byte} {s s' r r' : List Byte} (hs : c ∉ s) (hs' : c ∉ s') (h : s ++ c :: r = s' ++ c :: r') : s = s' ∧ r = r' := by
  induction s generalizing s' with
  | nil =>
    cases s' with
    | nil => simp at h; exact ⟨rfl, h⟩
    | cons x s' => simp at h; exact absurd (by simp [h.1]) hs'
  | cons y s ih =>
    cases s' with
    | nil => simp at h; exact absurd (by simp [h.1]) hs
    | cons x s' =>
      simp only [List.cons_append, List.cons.injEq] at h
      obtain ⟨h1, h2⟩ := ih (fun hc => hs (by simp [hc])) (fun hc => hs' (by simp [hc])) h.2
      exact ⟨by rw [h.1, h1], h2⟩

theorem dec_digits (n : Nat) : ∀ c ∈ IpText.dec n, 48 ≤ c ∧ c ≤ 57 := by
  have key : ∀ (c : Byte) (d : Nat), IpText.DecDigit c d → 48 ≤ c ∧ c ≤ 57 := by
    intro c d h
    obtain ⟨h1, h2⟩ := h
    constructor
    · rw [UInt8.le_iff_toNat_le, h2]; simp
    · rw [UInt8.le_iff_toNat_le, h2]
      show _ ≤ 57
      omega
  have h := IpText.dec_num n
  generalize IpText.dec n = s at h
  induction h with
  | one h => intro c hc; simp at hc; subst hc; exact key _ _ h
  | more hs h ih =>
    intro c hc
    rcases List.mem_append.1 hc with h1 | h1
    · exact ih c h1
    · simp at h1; subst h1; exact key _ _ h

theorem dec_inj {n m : Nat} (h : IpText.dec n = IpText.dec m) : n = m := by
  obtain ⟨ds, h1, h2, -⟩ := IpText.decNum_digits (IpText.dec_num n)
  obtain ⟨es, h3, h4, -⟩ := IpText.decNum_digits (IpText.dec_num m)
  rw [h] at h1
  have : ds = es := by
    have := h1.symm.trans h3
    exact List.map_inj_right (fun _ _ => Option.some.inj) |>.1 this
  rw [← h2, ← h4, this]

theorem dec_split {n m : Nat} {c : Byte} {r r' : List Byte} (hc : c = 44 ∨ c = 125) (h : IpText.dec n ++ c :: r = IpText.dec m ++ c :: r') : n = m ∧ r = r' := by
  have key : ∀ k, c ∉ IpText.dec k := fun k hk => by
    have := dec_digits k c hk
    rcases hc with rfl | rfl
    · exact absurd this.1 (by decide)
    · exact absurd this.2 (by decide)
  obtain ⟨h1, h2⟩ := split_at (key n) (key m) h
  exact ⟨dec_inj h1, h2⟩

theorem rowText_eq (r : List Byte × Info) (x : List Byte) : rowText r ++ x = str "{Domain:\"" ++ (r.1 ++ 34 :: (str ",Total:" ++
    (IpText.dec r.2.count ++ 44 :: (str "RaF:" ++ (IpText.dec r.2.refused ++ 44 :: (str "Hosts:" ++ (IpText.dec r.2.hosts ++ 44 :: (str "Cache:" ++
    (IpText.dec r.2.cache ++ 44 :: (str "UDP:" ++ (IpText.dec r.2.udp ++ 44 :: (str "TCP:" ++ (IpText.dec r.2.tcp ++ 44 :: (str "BlockedMsg:" ++
    (IpText.dec r.2.blocked ++ 125 :: 44 :: x)))))))))))))))  := by
  have e1 : str "\",Total:" = 34 :: str ",Total:" := by decide
  have e2 : str ",RaF:" = 44 :: str "RaF:" := by decide
  have e3 : str ",Hosts:" = 44 :: str "Hosts:" := by decide
  have e4 : str ",Cache:" = 44 :: str "Cache:" := by decide
  have e5 : str ",UDP:" = 44 :: str "UDP:" := by decide
  have e6 : str ",TCP:" = 44 :: str "TCP:" := by decide
  have e7 : str ",BlockedMsg:" = 44 :: str "BlockedMsg:" := by decide
  have e8 : str "}," = [125, 44] := by decide
  unfold rowText
  rw [e1, e2, e3, e4, e5, e6, e7, e8]
  simp only [List.append_assoc, List.cons_append, List.nil_append]

theorem rowText_split {r r' : List Byte × Info} (hr : (34 : Byte) ∉ r.1) (hr' : (34 : Byte) ∉ r'.1) {x x' : List Byte}
    (h : rowText r ++ x = rowText r' ++ x') : r = r' ∧ x = x' := by
  obtain ⟨d, i⟩ := r
  obtain ⟨d', i'⟩ := r'
  rw [rowText_eq, rowText_eq] at h
  dsimp only at h hr hr'
  have k0 := List.append_cancel_left h
  obtain ⟨hdd, h0⟩ := split_at hr hr' k0
  have k1 := List.append_cancel_left h0
  obtain ⟨a1, h1⟩ := dec_split (.inl rfl) k1
  have k2 := List.append_cancel_left h1
  obtain ⟨a2, h2⟩ := dec_split (.inl rfl) k2
  have k3 := List.append_cancel_left h2
  obtain ⟨a3, h3⟩ := dec_split (.inl rfl) k3
  have k4 := List.append_cancel_left h3
  obtain ⟨a4, h4⟩ := dec_split (.inl rfl) k4
  have k5 := List.append_cancel_left h4
  obtain ⟨a5, h5⟩ := dec_split (.inl rfl) k5
  have k6 := List.append_cancel_left h5
  obtain ⟨a6, h6⟩ := dec_split (.inl rfl) k6
  have k7 := List.append_cancel_left h6
  obtain ⟨a7, h7⟩ := dec_split (.inr rfl) k7
  obtain ⟨b1, b2, b3, b4, b5, b6, b7⟩ := i
  obtain ⟨c1, c2, c3, c4, c5, c6, c7⟩ := i'
  dsimp only at a1 a2 a3 a4 a5 a6 a7
  exact ⟨by rw [hdd, a1, a2, a3, a4, a5, a6, a7], (List.cons.inj h7).2⟩

theorem rowsText_inj {rs rs' : List (List Byte × Info)} (h1 : ∀ r ∈ rs, (34 : Byte) ∉ r.1) (h2 : ∀ r ∈ rs', (34 : Byte) ∉ r.1)
    (h : rowsText rs = rowsText rs') : rs = rs' := by
  have key : ∀ r : List Byte × Info, ∃ t, rowText r = 123 :: t := fun r => by
    have := rowText_eq r []
    rw [List.append_nil, show str "{Domain:\"" = 123 :: str "Domain:\"" by decide, List.cons_append] at this
    exact ⟨_, this⟩
  induction rs generalizing rs' with
  | nil =>
    cases rs' with
    | nil => rfl
    | cons r rs' =>
      obtain ⟨t, ht⟩ := key r
      simp [rowsText, ht] at h
  | cons r rs ih =>
    cases rs' with
    | nil =>
      obtain ⟨t, ht⟩ := key r
      simp [rowsText, ht] at h
    | cons r' rs' =>
      have h : rowText r ++ rowsText rs = rowText r' ++ rowsText rs' := by simpa [rowsText] using h
      obtain ⟨hrow, hrest⟩ := rowText_split (h1 r (by simp)) (h2 r' (by simp)) h
      rw [hrow, ih (fun r hr => h1 r (by simp [hr])) (fun r hr => h2 r (by simp [hr])) hrest]

theorem rowText_says (r : List Byte × Info) : RowSays (rowText r) r.1 r.2 := by
  obtain ⟨d, i⟩ := r
  have h := rowText_eq (d, i) []
  rw [List.append_nil] at h
  dsimp only at h
  have num := IpText.dec_num
  have nq : ∀ n, (34 : Byte) ∉ IpText.dec n := fun n hm => absurd (dec_digits n 34 hm) (by decide)
  have e1 : str ",Total:" = 44 :: (str "Total" ++ [58]) := by decide
  have e2 : str "RaF:" = str "RaF" ++ [58] := by decide
  have e3 : str "Hosts:" = str "Hosts" ++ [58] := by decide
  have e4 : str "Cache:" = str "Cache" ++ [58] := by decide
  have e5 : str "UDP:" = str "UDP" ++ [58] := by decide
  have e6 : str "TCP:" = str "TCP" ++ [58] := by decide
  have e7 : str "BlockedMsg:" = str "BlockedMsg" ++ [58] := by decide
  have q1 : (34 : Byte) ∉ str "Total" := by decide
  have q2 : (34 : Byte) ∉ str "RaF" := by decide
  have q3 : (34 : Byte) ∉ str "Hosts" := by decide
  have q4 : (34 : Byte) ∉ str "Cache" := by decide
  have q5 : (34 : Byte) ∉ str "UDP" := by decide
  have q6 : (34 : Byte) ∉ str "TCP" := by decide
  have q7 : (34 : Byte) ∉ str "BlockedMsg" := by decide
  rw [e1, e2, e3, e4, e5, e6, e7] at h
  simp only [List.append_assoc, List.cons_append, List.nil_append] at h
  obtain ⟨t7, h7⟩ : ∃ t : List Byte, t = [125, 44] := ⟨_, rfl⟩
  obtain ⟨t6, h6⟩ : ∃ t, t = 44 :: (str "BlockedMsg" ++ 58 :: (IpText.dec i.blocked ++ t7)) := ⟨_, rfl⟩
  obtain ⟨t5, h5⟩ : ∃ t, t = 44 :: (str "TCP" ++ 58 :: (IpText.dec i.tcp ++ t6)) := ⟨_, rfl⟩
  obtain ⟨t4, h4⟩ : ∃ t, t = 44 :: (str "UDP" ++ 58 :: (IpText.dec i.udp ++ t5)) := ⟨_, rfl⟩
  obtain ⟨t3, h3⟩ : ∃ t, t = 44 :: (str "Cache" ++ 58 :: (IpText.dec i.cache ++ t4)) := ⟨_, rfl⟩
  obtain ⟨t2, h2⟩ : ∃ t, t = 44 :: (str "Hosts" ++ 58 :: (IpText.dec i.hosts ++ t3)) := ⟨_, rfl⟩
  obtain ⟨t1, h1⟩ : ∃ t, t = 44 :: (str "RaF" ++ 58 :: (IpText.dec i.refused ++ t2)) := ⟨_, rfl⟩
  obtain ⟨t0, h0⟩ : ∃ t, t = 44 :: (str "Total" ++ 58 :: (IpText.dec i.count ++ t1)) := ⟨_, rfl⟩
  have hh : ∀ (k : Byte) (x y : List Byte), x = k :: y → x.head? = some k := fun k x y h => by rw [h]; rfl
  refine ⟨t0, ?_, ?_, ?_,
    ⟨[], _, t1, ?_, num i.count, .inl (hh _ _ _ h1)⟩,
    ⟨([] ++ 44 :: (str "Total" ++ 58 :: IpText.dec i.count)), _, t2, ?_, num i.refused, .inl (hh _ _ _ h2)⟩,
    ⟨(([] ++ 44 :: (str "Total" ++ 58 :: IpText.dec i.count)) ++ 44 :: (str "RaF" ++ 58 :: IpText.dec i.refused)), _, t3, ?_, num i.hosts, .inl (hh _ _ _ h3)⟩,
    ⟨((([] ++ 44 :: (str "Total" ++ 58 :: IpText.dec i.count)) ++ 44 :: (str "RaF" ++ 58 :: IpText.dec i.refused)) ++ 44 :: (str "Hosts" ++ 58 :: IpText.dec i.hosts)), _, t4, ?_, num i.cache, .inl (hh _ _ _ h4)⟩,
    ⟨(((([] ++ 44 :: (str "Total" ++ 58 :: IpText.dec i.count)) ++ 44 :: (str "RaF" ++ 58 :: IpText.dec i.refused)) ++ 44 :: (str "Hosts" ++ 58 :: IpText.dec i.hosts)) ++ 44 :: (str "Cache" ++ 58 :: IpText.dec i.cache)), _, t5, ?_, num i.udp, .inl (hh _ _ _ h5)⟩,
    ⟨((((([] ++ 44 :: (str "Total" ++ 58 :: IpText.dec i.count)) ++ 44 :: (str "RaF" ++ 58 :: IpText.dec i.refused)) ++ 44 :: (str "Hosts" ++ 58 :: IpText.dec i.hosts)) ++ 44 :: (str "Cache" ++ 58 :: IpText.dec i.cache)) ++ 44 :: (str "UDP" ++ 58 :: IpText.dec i.udp)), _, t6, ?_, num i.tcp, .inl (hh _ _ _ h6)⟩,
    ⟨(((((([] ++ 44 :: (str "Total" ++ 58 :: IpText.dec i.count)) ++ 44 :: (str "RaF" ++ 58 :: IpText.dec i.refused)) ++ 44 :: (str "Hosts" ++ 58 :: IpText.dec i.hosts)) ++ 44 :: (str "Cache" ++ 58 :: IpText.dec i.cache)) ++ 44 :: (str "UDP" ++ 58 :: IpText.dec i.udp)) ++ 44 :: (str "TCP" ++ 58 :: IpText.dec i.tcp)), _, t7, ?_, num i.blocked, .inr (hh _ _ _ h7)⟩⟩
  · rw [h, show str "\"" = [34] by decide, h0, h1, h2, h3, h4, h5, h6, h7]
    simp only [List.append_assoc, List.cons_append, List.nil_append]
  · rw [h0, h1, h2, h3, h4, h5, h6, h7]
    simp [List.getLast?_cons, List.getLast?_append]
  · rw [h0, h1, h2, h3, h4, h5, h6, h7]
    simp [nq, q1, q2, q3, q4, q5, q6, q7]
  all_goals subst h7 h6 h5 h4 h3 h2 h1 h0
  all_goals simp only [List.append_assoc, List.cons_append, List.nil_append]

end Verif.Statistic
