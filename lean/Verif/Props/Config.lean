import Verif.Lemmas.Config
import Verif.Props.ReadLine
/-! What a configuration file means (C39). -/

namespace Verif.Config
open StableBuffer (Buf)
open StringList (Split Trims white Lowered enc Means)

/-! ### One value -/

theorem parseAdd_rep {T N : Nat} {b : Buf} {l : List (List Byte)} (h : BufRep T N b l) (it : Item) (d : Option (List Byte)) (v : List Byte)
    (hv : (0 : Byte) ∉ v) (hsize : (T + (v.length + 1) + 1) * (N + 1) ≤ 2147483647) :
    ∃ b' ps, parseStringAdd it b d v = some b' ∧ Split (d.getD []) v ps ∧
      BufRep (T + (v.length + 1)) (N + 1) b' ((if it.strategy = .append then l else []) ++ ps) := by
  unfold parseStringAdd
  by_cases hst : it.strategy = .append
  · rw [if_pos hst, if_pos hst]
    exact h.add v d hv hsize
  · rw [if_neg hst, if_neg hst]
    exact (BufRep.nil T N).add v d hv hsize

theorem base_next {it : Item} {o : Opt} (h1 : it.special = o.given) (h2 : it.strategy = o.strategy) (hd : o.strategy = .discard → o.given = false)
    (l : List (List Byte)) : Base o l (if it.strategy = .append then l else []) (nextStrategy it) := by
  unfold nextStrategy
  rw [h2]
  cases hs : o.strategy with
  | default => simpa [hs] using Base.default hs
  | replace => simpa [hs] using Base.replace hs
  | append => simpa [hs] using Base.append hs
  | discard => simpa [hs, h1, hd hs] using Base.discard hs (hd hs)

theorem lt_of_scale {a b N M : Nat} (hN : a ≤ b) (hM : N ≤ M) (h : (b + 1) * (M + 1) ≤ 2147483647) : (a + 1) * (N + 1) ≤ 2147483647 :=
  Nat.le_trans (Nat.mul_le_mul (by omega) (by omega)) h

/-- A value for a text option. -/
theorem str_rep {T N : Nat} {it : Item} {o : Opt} {l : List (List Byte)} (h : ItemRep T N it (.opt o)) (ho : o.val = .str l)
    (hd : o.strategy = .discard → o.given = false) (n : Nat) (expand : List Byte → List Byte) (pre del : Option (List Byte)) (v : List Byte)
    (P : Nat) (hP : ∀ p, pre = some p → p.length ≤ P ∧ (0 : Byte) ∉ p) (hv : (0 : Byte) ∉ v)
    (hsize : (T + (P + 1) + (v.length + 1) + 1) * (N + 3 + 1) ≤ 2147483647) (f : ReadLine.File) :
    ∃ it1 it2 o', (match pre with
        | none => some it
        | some p => prepend it (match del with | none => it.delims | some d => some d) p) = some it1 ∧
      setValue n expand it1 (match del with | none => it.delims | some d => some d) v true f = some (it2, f) ∧
      Takes expand o pre (del.getD o.delims) v o' ∧ ItemRep (T + (P + 1) + (v.length + 1)) (N + 3) it2 (.opt o') ∧
      (∃ l', o'.val = .str l') ∧ (o'.strategy = .discard → o'.given = false) := by
  cases h with
  | int h => simp at ho
  | bool h => simp at ho
  | path h => simp at ho
  | @str b l0 d0 hh hdel hb =>
    obtain rfl : l0 = l := by simpa using ho
    have hdd : (match del with | none => it.delims | some d => some d) = some (del.getD d0) := by
      cases del <;> simp [hdel]
    rw [hdd]
    have hbase := base_next (it := it) (o := ⟨it.special, it.strategy, d0, .str l0⟩) rfl rfl hd l0
    have hnd : nextStrategy it ≠ .discard := by
      generalize hq : (if it.strategy = .append then l0 else []) = q at hbase
      generalize nextStrategy it = st at hbase
      cases hbase <;> simp
    cases pre with
    | none =>
      obtain ⟨b1, ps, k1, k2, k3⟩ := parseAdd_rep hb it (some (del.getD d0)) v hv (lt_of_scale (by omega) (by omega) hsize)
      obtain ⟨b2, l', m1, m2, m3⟩ := k3.trim (lt_of_scale (by omega) (by omega) hsize)
      refine ⟨it, { it with special := true, strategy := nextStrategy it, holder := .str b2 }, _, rfl, ?_,
        .str (l := l0) rfl hbase .none k2 (by simpa using m2),
        .str rfl hdel (m3.mono (by omega) (by omega)), ⟨l', rfl⟩, fun e => absurd e hnd⟩
      unfold setValue
      rw [hh]
      dsimp only
      rw [k1]
      dsimp only
      unfold finishString
      rw [if_pos rfl]
      dsimp only
      rw [m1]
      rfl
    | some p =>
      obtain ⟨hp1, hp2⟩ := hP p rfl
      obtain ⟨b1, ps, k1, k2, k3⟩ := parseAdd_rep hb it (some (del.getD d0)) p hp2 (lt_of_scale (by omega) (by omega) hsize)
      obtain ⟨b2, qs, j1, j2, j3⟩ := parseAdd_rep k3 { it with special := true, strategy := nextStrategy it, holder := .str b1 }
        (some (del.getD d0)) v hv (lt_of_scale (by omega) (by omega) hsize)
      obtain ⟨b3, l', m1, m2, m3⟩ := j3.trim (lt_of_scale (by omega) (by omega) hsize)
      refine ⟨{ it with special := true, strategy := nextStrategy it, holder := .str b1 },
        { it with special := true, strategy := nextStrategy it, holder := .str b3 }, 
        { given := true, strategy := nextStrategy it, delims := d0, val := .str l' }, ?_, ?_, ?_,
        .str rfl hdel (m3.mono (by omega) (by omega)), ⟨l', rfl⟩, fun e => absurd e hnd⟩
      · dsimp only
        unfold prepend
        rw [hh]
        dsimp only
        rw [k1]
        rfl
      · unfold setValue
        dsimp only
        rw [j1]
        dsimp only
        unfold finishString
        rw [if_pos rfl]
        dsimp only
        rw [m1]
        simp [nextStrategy]
      · dsimp only at m2
        by_cases hna : nextStrategy it = .append
        · rw [if_pos hna] at m2
          have hst : it.strategy = .append ∨ it.strategy = .discard := by
            unfold nextStrategy at hna
            split at hna
            · rename_i h; exact .inr h.1
            · exact .inl hna
          exact .str (l := l0) rfl hbase (.some hst k2) j2 (by simpa using m2)
        · rw [if_neg hna] at m2
          have hst : it.strategy = .default ∨ it.strategy = .replace := by
            unfold nextStrategy at hna
            cases hs : it.strategy with
            | default => exact .inl rfl
            | replace => exact .inr rfl
            | append => simp [hs] at hna
            | discard => simp [hs] at hna; have := hd hs; simp [hna] at this
          have hnap : it.strategy ≠ .append := by rcases hst with e | e <;> simp [e]
          rw [if_neg hnap] at hbase
          exact .str (l := l0) rfl hbase (.replaced hst) j2 (by simpa using m2)

/-- An option that is as options are used. -/
def OptSane (o : Opt) : Prop := (o.strategy = .discard → o.given = false) ∧
  match o.val with
  | .int _ => o.strategy = .default ∨ o.strategy = .replace
  | .bool _ => o.strategy = .default ∨ o.strategy = .replace
  | _ => True

theorem next_plain {it : Item} (h : it.strategy = .default ∨ it.strategy = .replace) : nextStrategy it = it.strategy := by
  unfold nextStrategy
  rcases h with h | h <;> simp [h]

/-- A value for any option. -/
theorem value_rep {T N : Nat} {it : Item} {o : Opt} (h : ItemRep T N it (.opt o)) (hd : OptSane o)
    (n : Nat) (expand : List Byte → List Byte) (pre del : Option (List Byte)) (v : List Byte) (hpre : pre ≠ none → ∃ l, o.val = .str l)
    (P E : Nat) (hP : ∀ p, pre = some p → p.length ≤ P ∧ (0 : Byte) ∉ p) (hv : (0 : Byte) ∉ v)
    (hE : ∀ p, (0 : Byte) ∉ p → (0 : Byte) ∉ expand p ∧ (expand p).length ≤ p.length + E)
    (hnum : ∀ old n, o.val = .int old → Number v n → -2147483648 ≤ n ∧ n ≤ 2147483647)
    (hsize : (T + (v.length + P + E + 2) + 1) * (N + 3 + 1) ≤ 2147483647) (f : ReadLine.File) :
    ∃ it1 it2 o', (match pre with
        | none => some it
        | some p => prepend it (match del with | none => it.delims | some d => some d) p) = some it1 ∧
      setValue n expand it1 (match del with | none => it.delims | some d => some d) v true f = some (it2, f) ∧
      Takes expand o pre (del.getD o.delims) v o' ∧ ItemRep (T + (v.length + P + E + 2)) (N + 3) it2 (.opt o') ∧
      (∀ l, o.val = .str l → ∃ l', o'.val = .str l') ∧ OptSane o' := by
  by_cases hstr : ∃ l, o.val = .str l
  · obtain ⟨l, hl⟩ := hstr
    obtain ⟨it1, it2, o', h1, h2, h3, h4, h5, h6⟩ := str_rep h hl hd.1 n expand pre del v P hP hv (lt_of_scale (by omega) (by omega) hsize) f
    refine ⟨it1, it2, o', h1, h2, h3, h4.mono (by omega) (by omega), fun _ _ => h5, h6, ?_⟩
    obtain ⟨l', hl'⟩ := h5
    rw [hl']
    trivial
  · have hpn : pre = none := by
      cases pre with
      | none => rfl
      | some p => exact absurd (hpre (by simp)) hstr
    subst hpn
    refine ⟨it, ?_⟩
    cases h with
    | str hh => exact absurd ⟨_, rfl⟩ hstr
    | @int w d hh =>
      have hst : it.strategy = .default ∨ it.strategy = .replace := hd.2
      have hna : it.strategy ≠ .append := by rcases hst with e | e <;> simp [e]
      rcases scan_cases v with ⟨m, rest, k1, k2⟩ | ⟨k1, k2⟩ | ⟨k1, m, k2, k3⟩
      · refine ⟨{ it with special := true, strategy := nextStrategy it, holder := .int m }, _, rfl, ?_, .int rfl rfl k2, ?_, ?_, ?_⟩
        · unfold setValue
          rw [hh]
          dsimp only
          unfold parseInt
          rw [k1]
          simp [hna]
        · rw [next_plain hst]
          exact .int rfl
        · intro l hl; simp at hl
        · exact ⟨fun e => absurd e (by rcases hst with e | e <;> simp [e]), hst⟩
      · refine ⟨{ it with special := true, strategy := nextStrategy it }, _, rfl, ?_, .noInt rfl rfl k2, ?_, ?_, ?_⟩
        · unfold setValue
          rw [hh]
          dsimp only
          unfold parseInt
          rw [k1]
          simp [hna, hh]
        · rw [next_plain hst]
          exact .int hh
        · intro l hl; simp at hl
        · exact ⟨fun e => absurd e (by rcases hst with e | e <;> simp [e]), hst⟩
      · exact absurd (hnum w m rfl k2) k3
    | @bool w d hh =>
      have hst : it.strategy = .default ∨ it.strategy = .replace := hd.2
      have hna : it.strategy ≠ .append := by rcases hst with e | e <;> simp [e]
      refine ⟨parseBool it w v, _, rfl, ?_, .bool rfl rfl (truth_getBool v), ?_, ?_, ?_⟩
      · unfold setValue
        rw [hh]
      · unfold parseBool
        rw [next_plain hst, if_neg hna]
        exact .bool rfl
      · intro l hl; simp at hl
      · exact ⟨fun e => absurd e (by rcases hst with e | e <;> simp [e]), hst⟩
    | @path b l0 d0 hh hdel hb =>
      have hbase := base_next (it := it) (o := ⟨it.special, it.strategy, d0, .path l0⟩) rfl rfl hd.1 l0
      have hnd : nextStrategy it ≠ .discard := by
        generalize hq : (if it.strategy = .append then l0 else []) = q at hbase
        generalize nextStrategy it = st at hbase
        cases hbase <;> simp
      rcases path_cases v with ⟨p, k1, k2, k3, k4⟩ | ⟨k1, k2⟩
      · have hp0 : (0 : Byte) ∉ p := fun h => hv (k4 0 h)
        obtain ⟨e1, e2⟩ := hE p hp0
        obtain ⟨b1, ps, j1, j2, j3⟩ := parseAdd_rep hb it (some []) (expand p) e1 (lt_of_scale (by omega) (by omega) hsize)
        obtain ⟨b2, l', m1, m2, m3⟩ := j3.trim (lt_of_scale (by omega) (by omega) hsize)
        have hps : ps = [expand p] := by
          simp only [Option.getD_some] at j2
          generalize expand p = x at j2
          cases j2 with
          | last => rfl
          | cons _ hx _ => simp at hx
        rw [hps] at m2
        refine ⟨{ it with special := true, strategy := nextStrategy it, holder := .path b2 }, _, rfl, ?_,
          .path (l := l0) rfl rfl hbase k2 m2, .path rfl hdel (m3.mono (by omega) (by omega)), ?_, ?_⟩
        · unfold setValue
          rw [hh]
          dsimp only
          rw [if_pos rfl, k1]
          dsimp only
          rw [j1]
          dsimp only
          unfold finishString
          rw [if_pos rfl]
          dsimp only
          rw [m1]
          rfl
        · intro l hl; simp at hl
        · exact ⟨fun e => absurd e hnd, trivial⟩
      · refine ⟨it, _, rfl, ?_, .noPath rfl rfl k2, .path hh hdel (hb.mono (by omega) (by omega)), ?_, ?_⟩
        · unfold setValue
          rw [hh]
          dsimp only
          rw [if_pos rfl, k1]
        · intro l hl; simp at hl
        · exact hd

/-! ### One line -/

/-- Giving an option a value leaves the table as tables are used. -/
theorem sane_set {tab : Table} (hs : Sane tab) {i : Nat} {x : List Byte} {o o' : Opt} (hi : tab[i]? = some (x, .opt o))
    (ho' : OptSane o') (hk : ∀ l, o.val = .str l → ∃ l', o'.val = .str l') : Sane (tab.set i (x, .opt o')) := by
  intro e he
  rcases List.mem_or_eq_of_mem_set he with he | rfl
  · have := hs e he
    obtain ⟨k, e⟩ := e
    cases e with
    | opt o => exact this
    | alias t p d =>
      obtain ⟨j, o2, h1, h2⟩ := this
      have h3 := finds_set (e' := .opt o') hi h1
      by_cases hij : i = j
      · rw [if_pos hij] at h3
        refine ⟨j, o', h3, fun hp => ?_⟩
        obtain ⟨l, hl⟩ := h2 hp
        have : o2 = o := by
          have := h1.2.1
          rw [← hij, hi] at this
          simp only [Option.some.injEq, Prod.mk.injEq, Entry.opt.injEq] at this
          exact this.2.symm
        subst this
        exact hk l hl
      · rw [if_neg hij] at h3
        exact ⟨j, o2, h3, h2⟩
  · exact ho'

theorem preOk_set {P : Nat} {tab : Table} (h : PreOk P tab) (i : Nat) (x : List Byte) (o : Opt) : PreOk P (tab.set i (x, .opt o)) := by
  intro k t p d hm
  rcases List.mem_or_eq_of_mem_set hm with hm | e
  · exact h k t p d hm
  · simp at e

theorem line_rep {T N : Nat} {c : Cfg} {tab : Table} (h : Rep T N c tab) (hs : Sane tab) (P E : Nat) (hP : PreOk P tab)
    (n depth : Nat) (hdepth : 2 ≤ depth) (expand : List Byte → List Byte)
    (hE : ∀ p, (0 : Byte) ∉ p → (0 : Byte) ∉ expand p ∧ (expand p).length ≤ p.length + E)
    (s : List Byte) (h0 : (0 : Byte) ∉ s) (hnum : NumbersFit tab s)
    (hsize : (T + (s.length + P + E + 2) + 1) * (N + 3 + 1) ≤ 2147483647) (f : ReadLine.File) :
    ∃ c' tab', useLine n expand depth c s true f = some (c', f) ∧ LineMeans expand tab s tab' ∧
      Rep (T + (s.length + P + E + 2)) (N + 3) c' tab' ∧ Sane tab' ∧ PreOk P tab' := by
  unfold useLine
  cases hsp : splitLine s with
  | none =>
    refine ⟨c, tab, rfl, .noPair ?_, h.mono (by omega) (by omega), hs, hP⟩
    rintro ⟨k, v, hp⟩
    rw [split_of_pair hp] at hsp
    simp at hsp
  | some kv =>
    obtain ⟨k, v⟩ := kv
    have hp := pair_of_split hsp
    dsimp only
    rcases getOption_rep h hs depth hdepth k with ⟨i, o, it, p, d, h1, ⟨x, h2⟩, h3, h4, h5, h6⟩ | ⟨h1, h2⟩
    · rw [h6]
      dsimp only
      have hvlen : v.length ≤ s.length ∧ ∀ c ∈ v, c ∈ s := by
        obtain ⟨y, w, e, -⟩ := hp
        rw [e]
        exact ⟨by simp; omega, fun c hc => by simp [hc]⟩
      have hsane : OptSane o := hs _ (List.mem_of_getElem? h2)
      obtain ⟨it1, it2, o', k1, k2, k3, k4, k5, k6⟩ := value_rep h4 hsane n expand p d v (fun hp => (h5 hp).1) P E
        (by
          rintro q rfl
          obtain ⟨t, d', hm⟩ := (h5 (by simp)).2
          exact hP k t q d' hm)
        (fun h => h0 (hvlen.2 0 h)) hE (fun old m ho hm => hnum k v i o p _ old m hp h1 ho hm)
        (lt_of_scale (by omega) (by omega) hsize) f
      refine ⟨c.set i it2, tab.set i (x, .opt o'), ?_, .value hp h1 h2 k3, ?_, sane_set hs h2 k6 k5, preOk_set hP _ _ _⟩
      · cases p with
        | none =>
          simp only [Option.some.injEq] at k1
          subst k1
          cases d <;> dsimp only at k2 ⊢ <;> rw [k2] <;> rfl
        | some p => cases d <;> dsimp only at k1 k2 ⊢ <;> rw [k1] <;> dsimp only <;> rw [k2] <;> rfl
      exact rep_set (h.mono (by omega) (by omega)) h2 (k4.mono (by omega) (by omega))
    · rw [h2]
      exact ⟨c, tab, rfl, .unknown hp h1, h.mono (by omega) (by omega), hs, hP⟩

/-- Setting an option back. -/
theorem set_back {tab : Table} {i : Nat} {x : List Byte} {e : Entry} (hi : tab[i]? = some (x, e)) (e' : Entry) :
    (tab.set i (x, e'))[i]? = some (x, e') ∧ (tab.set i (x, e')).set i (x, e) = tab := by
  have hlt := (List.getElem?_eq_some_iff.1 hi).1
  refine ⟨by rw [List.getElem?_set, if_pos rfl, if_pos hlt], ?_⟩
  rw [List.set_set]
  apply List.ext_getElem?
  intro j
  rw [List.getElem?_set]
  by_cases e : i = j
  · subst e; rw [if_pos rfl, if_pos hlt, hi]
  · rw [if_neg e]

/-- The same keys name the same options when one of them gets a value. -/
theorem names_set {tab : Table} {i j : Nat} {x k d : List Byte} {o o' o1 : Opt} {p : Option (List Byte)} (hi : tab[i]? = some (x, .opt o))
    (hd : o'.delims = o.delims) (h : Names tab k j o1 p d) : Names (tab.set i (x, .opt o')) k j (if i = j then o' else o1) p d := by
  have hopt : ∀ {q o1}, Finds tab q j (.opt o1) → Finds (tab.set i (x, .opt o')) q j (.opt (if i = j then o' else o1)) ∧
      (if i = j then o' else o1).delims = o1.delims := by
    intro q o1 hf
    have := finds_set (e' := .opt o') hi hf
    by_cases e : i = j
    · rw [if_pos e] at this ⊢
      refine ⟨this, ?_⟩
      have h5 := hf.2.1
      rw [← e, hi] at h5
      simp only [Option.some.injEq, Prod.mk.injEq, Entry.opt.injEq] at h5
      rw [← h5.2, hd]
    · rw [if_neg e] at this ⊢
      exact ⟨this, rfl⟩
  cases h with
  | option hf =>
    obtain ⟨g1, g2⟩ := hopt hf
    rw [← g2]
    exact .option g1
  | alias hf hf2 =>
    obtain ⟨g1, g2⟩ := hopt hf2
    have g3 := finds_set (e' := .opt o') hi hf
    rw [if_neg] at g3
    · rw [← g2]
      exact .alias g3 g1
    · intro e
      have h5 := hf.2.1
      rw [← e, hi] at h5
      simp at h5

theorem takes_kind {expand : List Byte → List Byte} {o o' : Opt} {pre : Option (List Byte)} {d v : List Byte} (h : Takes expand o pre d v o') :
    o'.delims = o.delims ∧ ∀ m, o'.val = .int m → ∃ m', o.val = .int m' := by
  cases h with
  | int _ e _ => exact ⟨rfl, fun _ _ => ⟨_, e⟩⟩
  | noInt _ e _ => exact ⟨rfl, fun _ _ => ⟨_, e⟩⟩
  | noPath _ e _ => exact ⟨rfl, fun _ h => ⟨_, h⟩⟩
  | _ => exact ⟨rfl, fun m hm => by cases hm⟩

/-- The same numbers fit after a line. -/
theorem numbers_line {expand : List Byte → List Byte} {tab tab' : Table} {s t : List Byte} (h : LineMeans expand tab s tab')
    (hn : NumbersFit tab t) : NumbersFit tab' t := by
  cases h with
  | noPair _ => exact hn
  | unknown _ _ => exact hn
  | @value k v d x i o o' pre h1 h2 h3 h4 =>
    obtain ⟨hdel, hkind⟩ := takes_kind h4
    obtain ⟨hi', hback⟩ := set_back h3 (.opt o')
    intro k' v' j o1 pre' d' old m hp hnames hval hnum
    have := names_set hi' hdel.symm hnames
    rw [hback] at this
    by_cases e : i = j
    · rw [if_pos e] at this
      have h5 : o1 = o' := by
        have h6 : ∃ q, (tab.set i (x, .opt o'))[j]? = some (q, .opt o1) := by
          cases hnames with
          | option hf => exact ⟨_, hf.2.1⟩
          | alias _ hf => exact ⟨_, hf.2.1⟩
        obtain ⟨q, h6⟩ := h6
        rw [← e, hi'] at h6
        simp only [Option.some.injEq, Prod.mk.injEq, Entry.opt.injEq] at h6
        exact h6.2.symm
      obtain ⟨m', hm'⟩ := hkind old (h5 ▸ hval)
      exact hn k' v' j o _ _ m' m hp this hm' hnum
    · rw [if_neg e] at this
      exact hn k' v' j o1 _ _ old m hp this hval hnum

/-! ### Files -/

/-- What is done with what a call gave. -/
def after (n : Nat) (expand : List Byte → List Byte) (depth fuel : Nat) (c : Cfg) : ReadLine.Res → Option Cfg
  | .undef => none
  | .stuck => none
  | .fin _ => some c
  | .done s f' =>
    match useLine n expand depth c s true f' with
    | none => none
    | some (c', f'') => readLoop n expand depth fuel c' f''
  | .truncated s f' =>
    match useLine n expand depth c s false f' with
    | none => none
    | some (c', f'') => readLoop n expand depth fuel c' f''

theorem readLoop_succ (n : Nat) (expand : List Byte → List Byte) (depth fuel : Nat) (c : Cfg) (f : ReadLine.File) :
    readLoop n expand depth (fuel + 1) c f = after n expand depth fuel c (ReadLine.call n f) := by
  rw [readLoop]
  cases ReadLine.call n f <;> rfl

open ReadLine (Visible Seen text LineOk CommentOk whites)

theorem visible_size {s t : List Byte} (h : Visible s t) : t.length ≤ s.length ∧ ∀ c ∈ t, c ∈ s := by
  obtain ⟨u, ⟨-, hu⟩, a, b, rfl, -⟩ := h
  rcases hu with rfl | ⟨r, rfl | rfl⟩
  · exact ⟨by simp; omega, fun c hc => by simp [hc]⟩
  · exact ⟨by simp; omega, fun c hc => by simp [hc]⟩
  · exact ⟨by simp; omega, fun c hc => by simp [hc]⟩

/-- The space lines take. -/
def space (P E : Nat) (ss : List (List Byte)) : Nat := (ss.map fun s => s.length + P + E + 2).sum

theorem loop_rep (expand : List Byte → List Byte) (n depth P E : Nat) (hdepth : 2 ≤ depth)
    (hE : ∀ p, (0 : Byte) ∉ p → (0 : Byte) ∉ expand p ∧ (expand p).length ≤ p.length + E)
    (last : List Byte) (hlast : LineOk last) (hll : last.length + 2 ≤ n) (hlw : last = [] ∨ ∃ c ∈ last, c ∉ whites) (ss : List (List Byte)) :
    ∀ (T N : Nat) (c : Cfg) (tab : Table) (fa fb : Nat), Rep T N c tab → Sane tab → PreOk P tab →
    (∀ s ∈ ss, (LineOk s ∧ s.length + 2 ≤ n) ∨ CommentOk n s) →
    (∀ s ∈ ss ++ [last], ∀ t, Visible s t → NumbersFit tab t) →
    (T + space P E (ss ++ [last]) + 1) * (N + 3 * (ss.length + 1) + 1) ≤ 2147483647 →
    (text ss last).length + 1 ≤ fa → (text ss last).length ≤ fb →
    ∃ c' tab' ts T' N', after n expand depth fb c (ReadLine.readLine n fa ⟨text ss last, false⟩) = some c' ∧
      Seen n (ss ++ [last]) ts ∧ Reads expand tab ts tab' ∧ Rep T' N' c' tab' ∧ Sane tab' := by
  induction ss with
  | nil =>
    intro T N c tab fa fb hr hs hP _ hnum hsize hfa hfb
    simp only [text, List.flatMap_nil, List.nil_append] at hfa hfb ⊢
    rcases hlw with rfl | hw
    · obtain ⟨fa, rfl⟩ : ∃ k, fa = k + 1 := ⟨fa - 1, by simp at hfa; omega⟩
      rw [ReadLine.fin_of_nil]
      exact ⟨c, tab, [], T, N, rfl, .blank ⟨[], ⟨by simp, .inl rfl⟩, ⟨[], [], rfl, by simp, by simp, by simp, by simp⟩⟩ .nil, .nil, hr, hs⟩
    · have hne : last ≠ [] := by obtain ⟨c, hc, -⟩ := hw; exact List.ne_nil_of_mem hc
      have := List.length_pos_iff.2 hne
      obtain ⟨fa, rfl⟩ : ∃ k, fa = k + 2 := ⟨fa - 2, by omega⟩
      obtain ⟨fb, rfl⟩ : ∃ k, fb = k + 1 := ⟨fb - 1, by omega⟩
      obtain ⟨t, ht, h⟩ := ReadLine.readLine_last n (fa + 1) last hlast hll hw
      rw [h]
      by_cases e : t = []
      · subst e
        rw [if_pos rfl, ReadLine.fin_of_nil]
        exact ⟨c, tab, [], T, N, rfl, .blank ht .nil, .nil, hr, hs⟩
      · rw [if_neg e]
        obtain ⟨v1, v2⟩ := visible_size ht
        obtain ⟨c', tab', k1, k2, k3, k4, -⟩ := line_rep hr hs P E hP n depth hdepth expand hE t (fun h => hlast.nul (v2 0 h))
          (hnum last (by simp) t ht) (lt_of_scale (by simp [space]; omega) (by simp) hsize) ⟨[], true⟩
        refine ⟨c', tab', [t], _, _, ?_, .line ht e .nil, .cons k2 .nil, k3, k4⟩
        simp only [after]
        rw [k1]
        dsimp only
        rw [readLoop_succ, ReadLine.call, ReadLine.fin_of_nil]
        rfl
  | cons s ss ih =>
    intro T N c tab fa fb hr hs hP hok hnum hsize hfa hfb
    rw [ReadLine.text_cons] at hfa hfb ⊢
    have hlen : (s ++ 10 :: text ss last).length = s.length + (text ss last).length + 1 := by simp; omega
    obtain ⟨fa, rfl⟩ : ∃ k, fa = k + 1 := ⟨fa - 1, by omega⟩
    obtain ⟨fb, rfl⟩ : ∃ k, fb = k + 1 := ⟨fb - 1, by omega⟩
    have hsp : space P E (s :: ss ++ [last]) = (s.length + P + E + 2) + space P E (ss ++ [last]) := by simp [space]
    rw [hsp, List.length_cons] at hsize
    obtain ⟨t, ht, h⟩ := ReadLine.one_round n fa s (text ss last) (hok s (by simp))
    rw [h]
    by_cases e : t = []
    · subst e
      rw [if_pos rfl]
      obtain ⟨c', tab', ts, T', N', k1, k2, k3, k4, k5⟩ := ih T N c tab fa (fb + 1) hr hs hP (fun x hx => hok x (by simp [hx]))
        (fun x hx => hnum x (by simp at hx ⊢; grind)) (lt_of_scale (by omega) (by omega) hsize) (by omega) (by omega)
      exact ⟨c', tab', ts, T', N', k1, .blank ht k2, k3, k4, k5⟩
    · rw [if_neg e]
      have h0 : (0 : Byte) ∉ s := by
        rcases hok s (by simp) with h | h
        · exact h.1.nul
        · exact h.nul
      obtain ⟨v1, v2⟩ := visible_size ht
      obtain ⟨c1, tab1, k1, k2, k3, k4, k5⟩ := line_rep hr hs P E hP n depth hdepth expand hE t (fun h => h0 (v2 0 h))
        (hnum s (by simp) t ht) (lt_of_scale (by omega) (by omega) hsize) ⟨text ss last, false⟩
      obtain ⟨c', tab', ts, T', N', j1, j2, j3, j4, j5⟩ := ih _ _ c1 tab1 ((text ss last).length + 1) fb k3 k4 k5 (fun x hx => hok x (by simp [hx]))
        (fun x hx t ht => numbers_line k2 (hnum x (by simp at hx ⊢; grind) t ht)) (lt_of_scale (by omega) (by omega) hsize) (by omega) (by omega)
      refine ⟨c', tab', t :: ts, T', N', ?_, .line ht e j2, .cons k2 j3, j4, j5⟩
      simp only [after]
      rw [k1]
      dsimp only
      rw [readLoop_succ]
      exact j1

/-! ### Declarations -/

theorem take_free {d s r : List Byte} {x : Byte} (hs : ∀ c ∈ s, c ∉ d) (hx : x ∈ d) : (s ++ x :: r).takeWhile (fun c => !decide (c ∈ d)) = s := by
  induction s with
  | nil => simp [hx]
  | cons a s ih =>
    have h1 := hs a (by simp)
    simp only [List.cons_append]
    rw [List.takeWhile_cons_of_pos (by simpa using h1), ih (fun c hc => hs c (by simp [hc]))]

theorem split_unique {d s : List Byte} {ps qs : List (List Byte)} (h : Split d s ps) (h' : Split d s qs) : ps = qs := by
  induction h generalizing qs with
  | last hs =>
    cases h' with
    | last _ => rfl
    | cons h1 h2 _ => exact absurd h2 (hs _ (by simp))
  | @cons s r x ps hs hx _ ih =>
    generalize hw : s ++ x :: r = w at h'
    cases h' with
    | last hs' => exact absurd hx (hs' x (by rw [← hw]; simp))
    | @cons s' r' x' ps' hs' hx' h2 =>
      have : s = s' := by rw [← take_free hs hx (r := r), hw, take_free hs' hx']
      subst this
      have := List.append_cancel_left hw
      simp only [List.cons.injEq] at this
      obtain ⟨rfl, rfl⟩ := this
      rw [ih h2]

theorem rep_init (hash : List Byte → UInt32) : Rep 0 0 (init hash) [] :=
  ⟨StringChunk.good_init hash, fun _ => .inl ⟨rfl, rfl⟩⟩

theorem rep_put {T N : Nat} {c : Cfg} {tab : Table} (h : Rep T N c tab) (k : List Byte) {it : Item} {e : Entry} (hr : ItemRep T N it e) :
    Rep T N (c.put k it) (tab ++ [(k, e)]) := by
  have hlen : c.items.length = tab.length := by
    rcases h.items c.items.length with ⟨h1, h2⟩ | ⟨it, k, e, h1, h2, -⟩
    · have h3 : tab.length ≤ c.items.length := by simpa using h2
      rcases h.items tab.length with ⟨h1, h2⟩ | ⟨it, k, e, h1, h2, -⟩
      · have : c.items.length ≤ tab.length := by simpa using h1
        omega
      · simp at h2
    · simp at h1
  constructor
  · have := StringChunk.good_add h.chunk k (some c.items.length)
    have he : ents (tab ++ [(k, e)]) = ents tab ++ [⟨k, some c.items.length⟩] := by
      simp [ents, List.zipIdx_append, hlen]
    rw [he]
    exact this
  · intro i
    simp only [Cfg.put, List.getElem?_append, hlen]
    by_cases hi : i < tab.length
    · rw [if_pos hi, if_pos hi]
      exact h.items i
    · rw [if_neg hi, if_neg hi]
      by_cases hi2 : i = tab.length
      · subst hi2
        right
        exact ⟨it, k, e, by simp, by simp, hr⟩
      · left
        have : i - tab.length ≠ 0 := by omega
        constructor <;> · rw [List.getElem?_eq_none_iff]; simp; omega

theorem find_opt {T N : Nat} {c : Cfg} {tab : Table} (h : Rep T N c tab) {k : List Byte} {i : Nat} {o : Opt} (hf : Finds tab k i (.opt o))
    (depth : Nat) (hd : 1 ≤ depth) : ∃ it, ItemRep T N it (.opt o) ∧ getOption c depth k none none = some (some (i, it, none, none)) := by
  obtain ⟨depth, rfl⟩ : ∃ m, depth = m + 1 := ⟨depth - 1, by omega⟩
  rcases find_rep h k with ⟨j, e, it, h1, h2, h3, h4⟩ | ⟨h1, -⟩
  · obtain ⟨rfl, rfl⟩ := finds_inj hf h1
    refine ⟨it, h4, ?_⟩
    rw [getOption, h2]
    cases h4 with
    | int h => dsimp only; rw [h]
    | bool h => dsimp only; rw [h]
    | path h _ _ => dsimp only; rw [h]
    | str h _ _ => dsimp only; rw [h]
  · rcases h1 with h1 | h1
    · exact absurd hf.1 h1
    · exact absurd hf.2.1 (h1 _ _)

/-- One declaration. -/
theorem declare_rep {T N : Nat} {c : Cfg} {tab tab' : Table} (h : Rep T N c tab) (d : Decl) (hd : Declares tab d tab') (hc : CleanDecl d)
    (depth : Nat) (hdepth : 1 ≤ depth) (hsize : (T + textSize d + 1) * (N + 1 + 1) ≤ 2147483647) :
    ∃ c', declare depth c d = some c' ∧ Rep (T + textSize d) (N + 1) c' tab' := by
  cases hd with
  | @option k st i v hv =>
    cases hv with
    | int => exact ⟨_, rfl, rep_put (h.mono (by omega) (by omega)) k (.int rfl)⟩
    | bool => exact ⟨_, rfl, rep_put (h.mono (by omega) (by omega)) k (.bool rfl)⟩
    | path0 => exact ⟨_, rfl, rep_put (h.mono (by omega) (by omega)) k (.path rfl rfl (BufRep.nil _ _))⟩
    | str0 => exact ⟨_, rfl, rep_put (h.mono (by omega) (by omega)) k (.str rfl rfl (BufRep.nil _ _))⟩
    | @path s ps hps =>
      simp only [textSize] at hsize ⊢
      obtain ⟨b, qs, h1, h2, h3⟩ := (BufRep.nil T N).add s (some [44]) hc (lt_of_scale (by omega) (by omega) hsize)
      obtain rfl := split_unique hps h2
      refine ⟨_, by simp only [declare, addOption, newList]; rw [h1]; rfl, rep_put (h.mono (by omega) (by omega)) k (.path rfl rfl h3)⟩
    | @str s ps hps =>
      simp only [textSize] at hsize ⊢
      obtain ⟨b, qs, h1, h2, h3⟩ := (BufRep.nil T N).add s (some [44]) hc (lt_of_scale (by omega) (by omega) hsize)
      obtain rfl := split_unique hps h2
      refine ⟨_, by simp only [declare, addOption, newList]; rw [h1]; rfl, rep_put (h.mono (by omega) (by omega)) k (.str rfl rfl h3)⟩
  | @alias t k p d => exact ⟨_, rfl, rep_put (h.mono (by omega) (by omega)) k (.alias rfl)⟩
  | @delims k d i o l hf hl =>
    obtain ⟨it, h1, h2⟩ := find_opt h hf depth hdepth
    cases h1 with
    | str e1 e2 e3 =>
      refine ⟨c.set i { it with delims := some d }, ?_, ?_⟩
      · simp only [declare, setDelims]
        rw [h2]
        dsimp only
        rw [e1]
      · exact rep_set (h.mono (by omega) (by omega)) hf.2.1 (.str e1 rfl (e3.mono (by omega) (by omega)))
    | _ => cases hl
  | @default k s i o l ps hf hl hps =>
    obtain ⟨it, h1, h2⟩ := find_opt h hf depth hdepth
    simp only [textSize] at hsize ⊢
    cases h1 with
    | str e1 e2 e3 =>
      obtain ⟨b, qs, k1, k2, k3⟩ := (BufRep.nil T N).add s it.delims hc (lt_of_scale (by omega) (by omega) hsize)
      rw [e2] at k1 k2
      obtain rfl := split_unique hps k2
      refine ⟨c.set i { it with holder := .str b }, ?_, ?_⟩
      · simp only [declare, setDefault]
        rw [h2]
        dsimp only
        rw [e1, e2]
        show Option.map _ (StringList.add [] s _) = _
        rw [k1]
        rfl
      · exact rep_set (h.mono (by omega) (by omega)) hf.2.1 (.str rfl e2 k3)
    | _ => cases hl

theorem declareAll_snoc (depth : Nat) (d : Decl) (ds : List Decl) : ∀ c,
    declareAll depth c (ds ++ [d]) = (declareAll depth c ds).bind (declare depth · d) := by
  induction ds with
  | nil =>
    intro c
    simp only [List.nil_append, declareAll, Option.bind_some]
    cases declare depth c d <;> rfl
  | cons e ds ih =>
    intro c
    simp only [List.cons_append, declareAll]
    cases declare depth c e with
    | none => rfl
    | some c' => exact ih c'

theorem declareAll_rep (hash : List Byte → UInt32) (depth : Nat) (hdepth : 1 ≤ depth) {ds : List Decl} {tab : Table} (h : Declared ds tab) :
    (∀ d ∈ ds, CleanDecl d) → ((ds.map textSize).sum + 1) * (ds.length + 1) ≤ 2147483647 →
    ∃ c, declareAll depth (init hash) ds = some c ∧ Rep (ds.map textSize).sum ds.length c tab := by
  induction h with
  | nil => exact fun _ _ => ⟨_, rfl, rep_init hash⟩
  | @snoc ds d tab tab' _ h2 ih =>
    intro hc hsize
    simp only [List.map_append, List.sum_append, List.map_cons, List.map_nil, List.sum_cons, List.sum_nil, List.length_append, List.length_cons,
      List.length_nil, Nat.add_zero, Nat.zero_add] at hsize ⊢
    obtain ⟨c, h1, h3⟩ := ih (fun d hd => hc d (by simp [hd])) (lt_of_scale (by omega) (by omega) hsize)
    obtain ⟨c', h4, h5⟩ := declare_rep h3 d h2 (hc d (by simp)) depth hdepth hsize
    exact ⟨c', by rw [declareAll_snoc, h1]; exact h4, h5⟩

/-! ### Asking -/

theorem names_inj {tab : Table} {k d d' : List Byte} {i i' : Nat} {o o' : Opt} {p p' : Option (List Byte)} (h : Names tab k i o p d)
    (h' : Names tab k i' o' p' d') : i = i' ∧ o = o' ∧ p = p' ∧ d = d' := by
  cases h with
  | option hf =>
    cases h' with
    | option hf' =>
      obtain ⟨rfl, e⟩ := finds_inj hf hf'
      cases e
      exact ⟨rfl, rfl, rfl, rfl⟩
    | alias hf' _ => have := (finds_inj hf hf').2; cases this
  | alias hf hf2 =>
    cases h' with
    | option hf' => have := (finds_inj hf hf').2; cases this
    | alias hf' hf2' =>
      have := (finds_inj hf hf').2
      cases this
      obtain ⟨rfl, e⟩ := finds_inj hf2 hf2'
      cases e
      exact ⟨rfl, rfl, rfl, rfl⟩

theorem names_known {tab : Table} {k d : List Byte} {i : Nat} {o : Opt} {p : Option (List Byte)} (h : Names tab k i o p d) : ¬ Unknown tab k := by
  have : ∃ i e, Finds tab k i e := by
    cases h with
    | option hf => exact ⟨_, _, hf⟩
    | alias hf _ => exact ⟨_, _, hf⟩
  obtain ⟨i, e, h1, h2, -⟩ := this
  rintro (h | h)
  · exact h h1
  · exact h i e h2

theorem shows_rep {T N : Nat} {c : Cfg} {tab : Table} (h : Rep T N c tab) (hs : Sane tab) (depth : Nat) (hd : 2 ≤ depth) :
    Shows (getInt c depth) (getBoolean c depth) (getStrings c depth) tab := by
  intro k
  rcases getOption_rep h hs depth hd k with ⟨i, o, it, p, d, h1, h2, h3, h4, h5, h6⟩ | ⟨h1, h2⟩
  · refine ⟨fun hu => absurd hu (names_known h1), fun i' o' p' d' h' => ?_⟩
    obtain ⟨-, rfl, -, -⟩ := names_inj h1 h'
    unfold getInt getBoolean getStrings
    rw [h6]
    cases h4 with
    | int e => dsimp only; rw [e]
    | bool e => dsimp only; rw [e]
    | path e _ e3 => dsimp only; rw [e]; exact e3.items
    | str e _ e3 => dsimp only; rw [e]; exact e3.items
  · refine ⟨fun _ => ?_, fun i' o' p' d' h' => absurd h1 (names_known h')⟩
    unfold getInt getBoolean getStrings
    rw [h2]
    exact ⟨rfl, rfl, rfl⟩

/-- C39: declaring options and reading a file make the configuration show the table its lines mean.
For aliases as they are used (`Sane`), files whose lines fit the buffer or have a long comment only, numbers that
fit an `int`, and not too much text. -/
theorem reads_partial (hash : List Byte → UInt32) (expand : List Byte → List Byte) (depth P E : Nat) (hdepth : 2 ≤ depth)
    (hE : ∀ p, (0 : Byte) ∉ p → (0 : Byte) ∉ expand p ∧ (expand p).length ≤ p.length + E)
    (ds : List Decl) (tab : Table) (hd : Declared ds tab) (hc : ∀ d ∈ ds, CleanDecl d) (hs : Sane tab) (hP : PreOk P tab)
    (ss : List (List Byte)) (last : List Byte) (hok : ∀ s ∈ ss, (LineOk s ∧ s.length + 2 ≤ 2048) ∨ CommentOk 2048 s)
    (hlast : LineOk last) (hll : last.length + 2 ≤ 2048) (hlw : last = [] ∨ ∃ c ∈ last, c ∉ whites)
    (hnum : ∀ s ∈ ss ++ [last], ∀ t, Visible s t → NumbersFit tab t) (hfits : Fits ds ss last P E) :
    ∃ c c' ts tab', declareAll depth (init hash) ds = some c ∧ Shows (getInt c depth) (getBoolean c depth) (getStrings c depth) tab ∧
      read expand depth c (text ss last) = some c' ∧ Seen 2048 (ss ++ [last]) ts ∧ Reads expand tab ts tab' ∧
      Shows (getInt c' depth) (getBoolean c' depth) (getStrings c' depth) tab' := by
  unfold Fits at hfits
  obtain ⟨c, h1, h2⟩ := declareAll_rep hash depth (by omega) hd hc (lt_of_scale (by omega) (by omega) hfits)
  obtain ⟨c', tab', ts, T', N', k1, k2, k3, k4, k5⟩ := loop_rep expand 2048 depth P E hdepth hE last hlast hll hlw ss _ _ c tab
    ((text ss last).length + 1) (text ss last).length h2 hs hP hok hnum (by unfold space; exact hfits) (Nat.le_refl _) (Nat.le_refl _)
  refine ⟨c, c', ts, tab', h1, shows_rep h2 hs depth hdepth, ?_, k2, k3, shows_rep k4 k5 depth hdepth⟩
  unfold read
  rw [readLoop_succ]
  exact k1

/-! ### The history of one option -/

/-- Values given one after the other. -/
inductive TakesAll (expand : List Byte → List Byte) : Opt → List GivenVal → Opt → Prop
  | nil {o : Opt} : TakesAll expand o [] o
  | cons {o o1 o2 : Opt} {p : Option (List Byte)} {d v : List Byte} {vs : List GivenVal} : Takes expand o p d v o1 → TakesAll expand o1 vs o2 →
      TakesAll expand o ((p, d, v) :: vs) o2

theorem gives_set {tab : Table} {i j : Nat} {x : List Byte} {o o' : Opt} (hi : tab[i]? = some (x, .opt o)) (hd : o'.delims = o.delims)
    {ss : List (List Byte)} {vs : List GivenVal} (h : Gives (tab.set i (x, .opt o')) j ss vs) : Gives tab j ss vs := by
  obtain ⟨hi', hback⟩ := set_back hi (.opt o')
  induction h with
  | nil => exact .nil
  | skip h1 _ ih => exact .skip (fun k v o1 p d hp hn => h1 k v _ p d hp (names_set hi hd hn)) ih
  | take hp hn _ ih =>
    have := names_set hi' hd.symm hn
    rw [hback] at this
    exact .take hp this ih

/-- Lines that give no value to an option leave it as it is; the others give it their values in order. -/
theorem history {expand : List Byte → List Byte} {tab tab' : Table} {ss : List (List Byte)} (h : Reads expand tab ss tab') :
    ∀ {i : Nat} {x : List Byte} {o : Opt}, tab[i]? = some (x, .opt o) →
    ∃ vs o', Gives tab i ss vs ∧ TakesAll expand o vs o' ∧ tab'[i]? = some (x, .opt o') := by
  induction h with
  | nil => intro i x o hi; exact ⟨[], o, .nil, .nil, hi⟩
  | @cons tab tab1 tab2 s ss h1 _ ih =>
    intro i x o hi
    cases h1 with
    | noPair hn =>
      obtain ⟨vs, o', h2, h3, h4⟩ := ih hi
      exact ⟨vs, o', .skip (fun k v _ _ _ hp _ => hn ⟨k, v, hp⟩) h2, h3, h4⟩
    | @unknown k v hp hu =>
      obtain ⟨vs, o', h2, h3, h4⟩ := ih hi
      refine ⟨vs, o', .skip (fun k' v' o1 p d hp' hn => ?_) h2, h3, h4⟩
      have := (split_of_pair hp).symm.trans (split_of_pair hp')
      simp only [Option.some.injEq, Prod.mk.injEq] at this
      obtain ⟨rfl, rfl⟩ := this
      exact names_known hn hu
    | @value k v d y j o1 o1' pre hp hn hj ht =>
      obtain ⟨hdel, -⟩ := takes_kind ht
      obtain ⟨hj', -⟩ := set_back hj (.opt o1')
      by_cases e : j = i
      · subst e
        rw [hi] at hj
        simp only [Option.some.injEq, Prod.mk.injEq, Entry.opt.injEq] at hj
        obtain ⟨rfl, rfl⟩ := hj
        obtain ⟨vs, o', h2, h3, h4⟩ := ih hj'
        exact ⟨(pre, d, v) :: vs, o', .take hp hn (gives_set hi hdel h2), .cons ht h3, h4⟩
      · have hi2 : (tab.set j (y, .opt o1'))[i]? = some (x, .opt o) := by rw [List.getElem?_set, if_neg e]; exact hi
        obtain ⟨vs, o', h2, h3, h4⟩ := ih hi2
        refine ⟨vs, o', .skip (fun k' v' o2 p d' hp' hn' => ?_) (gives_set hj hdel h2), h3, h4⟩
        have := (split_of_pair hp).symm.trans (split_of_pair hp')
        simp only [Option.some.injEq, Prod.mk.injEq] at this
        obtain ⟨rfl, rfl⟩ := this
        exact e (names_inj hn hn').1

theorem takesAll_append {expand : List Byte → List Byte} {o o2 : Opt} {us vs : List GivenVal} (h : TakesAll expand o (us ++ vs) o2) :
    ∃ o1, TakesAll expand o us o1 ∧ TakesAll expand o1 vs o2 := by
  induction us generalizing o with
  | nil => exact ⟨o, .nil, h⟩
  | cons u us ih =>
    cases h with
    | cons h1 h2 =>
      obtain ⟨o1, h3, h4⟩ := ih h2
      exact ⟨o1, .cons h1 h3, h4⟩

theorem takeWhile_prefix {p : Byte → Bool} {a b : List Byte} (ha : ∀ c ∈ a, p c = true) (hb : ∀ c, b.head? = some c → p c = false) :
    (a ++ b).takeWhile p = a := by
  induction a with
  | nil =>
    cases b with
    | nil => rfl
    | cons c b => simp [hb c rfl]
  | cons c a ih => simp [ha c (by simp), ih (fun c hc => ha c (by simp [hc]))]

theorem decNum_facts {ds : List Byte} {n : Nat} (h : IpText.DecNum ds n) : ds ≠ [] ∧ ∀ c ∈ ds, 48 ≤ c ∧ c ≤ 57 := by
  have hd : ∀ c d, IpText.DecDigit c d → (48 : Byte) ≤ c ∧ c ≤ 57 := by
    intro c d h
    obtain ⟨h1, h2⟩ := h
    constructor
    · rw [UInt8.le_iff_toNat_le]; simp; omega
    · rw [UInt8.le_iff_toNat_le]; simp; omega
  induction h with
  | one h => exact ⟨by simp, by intro c hc; simp at hc; subst hc; exact hd _ _ h⟩
  | more _ h ih =>
    refine ⟨by simp, fun c hc => ?_⟩
    rcases List.mem_append.1 hc with hc | hc
    · exact ih.2 c hc
    · simp at hc; subst hc; exact hd _ _ h

theorem decNum_unique {ds : List Byte} {n m : Nat} (h : IpText.DecNum ds n) (h' : IpText.DecNum ds m) : n = m := by
  have hd : ∀ c d d', IpText.DecDigit c d → IpText.DecDigit c d' → d = d' := by
    rintro c d d' ⟨h1, h2⟩ ⟨h3, h4⟩
    omega
  induction h generalizing m with
  | @one c d h =>
    generalize hw : [c] = w at h'
    cases h' with
    | one h' => simp at hw; subst hw; exact hd _ _ _ h h'
    | @more s k c' d' hs h' =>
      have := (decNum_facts hs).1
      have h2 := congrArg List.length hw
      have h3 := List.length_pos_iff.2 this
      rw [List.length_append] at h2; simp only [List.length_cons, List.length_nil] at h2; omega
  | @more s k c d hs h ih =>
    generalize hw : s ++ [c] = w at h'
    cases h' with
    | one h' =>
      have := (decNum_facts hs).1
      have h2 := congrArg List.length hw
      have h3 := List.length_pos_iff.2 this
      rw [List.length_append] at h2; simp only [List.length_cons, List.length_nil] at h2; omega
    | more hs' h' =>
      obtain ⟨rfl, e⟩ := List.append_inj' hw rfl
      simp only [List.cons.injEq, and_true] at e
      subst e
      rw [ih hs', hd _ _ _ h h']

theorem number_parts {v sp sg ds rest : List Byte} {k : Nat} {n : Int} (e : v = sp ++ sg ++ ds ++ rest)
    (h1 : ∀ c ∈ sp, c = 32 ∨ (9 ≤ c ∧ c ≤ 13)) (h2 : IpText.DecNum ds k)
    (h3 : (sg = [] ∧ n = k) ∨ (sg = [43] ∧ n = k) ∨ (sg = [45] ∧ n = -(k : Int))) (h4 : ∀ c, rest.head? = some c → ¬ (48 ≤ c ∧ c ≤ 57)) :
    v.takeWhile (fun c => decide (c = 32 ∨ (9 ≤ c ∧ c ≤ 13))) = sp ∧
    (sg ++ ds ++ rest).takeWhile (fun c => decide (c = 43 ∨ c = 45)) = sg ∧
    (ds ++ rest).takeWhile (fun c => decide (48 ≤ c ∧ c ≤ 57)) = ds := by
  obtain ⟨hne, hdig⟩ := decNum_facts h2
  have hdh : ∀ c, (ds ++ rest).head? = some c → 48 ≤ c ∧ c ≤ 57 := by
    intro c hc
    cases ds with
    | nil => exact absurd rfl hne
    | cons a ds => simp at hc; subst hc; exact hdig a (by simp)
  have b1 : ∀ c : Byte, 48 ≤ c ∧ c ≤ 57 → ¬ (c = 32 ∨ (9 ≤ c ∧ c ≤ 13)) ∧ ¬ (c = 43 ∨ c = 45) :=
    forall_byte (fun c => 48 ≤ c ∧ c ≤ 57 → ¬ (c = 32 ∨ (9 ≤ c ∧ c ≤ 13)) ∧ ¬ (c = 43 ∨ c = 45)) (by decide +kernel)
  refine ⟨?_, ?_, ?_⟩
  · rw [e, List.append_assoc, List.append_assoc]
    refine takeWhile_prefix (fun c hc => by simpa using h1 c hc) (fun c hc => ?_)
    rcases h3 with ⟨rfl, -⟩ | ⟨rfl, -⟩ | ⟨rfl, -⟩
    · simpa using (b1 c (hdh c hc)).1
    · simp at hc; subst hc; decide
    · simp at hc; subst hc; decide
  · rw [List.append_assoc]
    refine takeWhile_prefix (fun c hc => ?_) (fun c hc => by simpa using (b1 c (hdh c hc)).2)
    rcases h3 with ⟨rfl, -⟩ | ⟨rfl, -⟩ | ⟨rfl, -⟩
    · simp at hc
    · simp at hc; subst hc; decide
    · simp at hc; subst hc; decide
  · exact takeWhile_prefix (fun c hc => by simpa using hdig c hc) (fun c hc => by simpa using h4 c hc)

/-- A text starts with one number only. -/
theorem number_unique {v : List Byte} {n m : Int} (h : Number v n) (h' : Number v m) : n = m := by
  obtain ⟨t, rest, e, ⟨sp, sg, ds, k, rfl, h1, h2, h3⟩, h4⟩ := h
  obtain ⟨t', rest', e', ⟨sp', sg', ds', k', rfl, h1', h2', h3'⟩, h4'⟩ := h'
  obtain ⟨a1, a2, a3⟩ := number_parts e h1 h2 h3 h4
  obtain ⟨b1, b2, b3⟩ := number_parts e' h1' h2' h3' h4'
  rw [a1] at b1
  subst b1
  have c1 := e.symm.trans e'
  simp only [List.append_assoc] at c1 a2 b2
  have c2 := List.append_cancel_left c1
  rw [c2] at a2
  rw [a2] at b2
  subst b2
  have c3 := List.append_cancel_left c2
  rw [c3] at a3
  rw [a3] at b3
  subst b3
  have := decNum_unique h2 h2'
  subst this
  rcases h3 with ⟨rfl, rfl⟩ | ⟨rfl, rfl⟩ | ⟨rfl, rfl⟩
  · simpa [eq_comm] using h3'
  · simpa [eq_comm] using h3'
  · simpa [eq_comm] using h3'

theorem noNumber_not {v : List Byte} {n : Int} (h : NoNumber v) (h' : Number v n) : False := by
  obtain ⟨t', rest', e', ⟨sp', sg', ds', k', rfl, h1', h2', h3'⟩, h4'⟩ := h'
  obtain ⟨sp, sg, r, e, h1, h2, h3⟩ := h
  obtain ⟨a1, a2, a3⟩ := number_parts e' h1' h2' h3' h4'
  obtain ⟨hne, hdig⟩ := decNum_facts h2'
  have hdh : ∀ c, (ds' ++ rest').head? = some c → 48 ≤ c ∧ c ≤ 57 := by
    intro c hc
    cases ds' with
    | nil => exact absurd rfl hne
    | cons a ds => simp at hc; subst hc; exact hdig a (by simp)
  have hsome : ∃ c, (ds' ++ rest').head? = some c := by
    cases ds' with
    | nil => exact absurd rfl hne
    | cons a ds => exact ⟨a, rfl⟩
  obtain ⟨c, hc⟩ := hsome
  have hcd := hdh c hc
  have b1 : v.takeWhile (fun c => decide (c = 32 ∨ (9 ≤ c ∧ c ≤ 13))) = sp := by
    rw [e, List.append_assoc]
    refine takeWhile_prefix (fun c hc => by simpa using h1 c hc) (fun c hc => ?_)
    rcases h2 with rfl | rfl | rfl
    · have := (h3 c hc).2 rfl
      simpa using this.2.2
    · simp at hc; subst hc; decide
    · simp at hc; subst hc; decide
  rw [a1] at b1
  subst b1
  have c1 := e'.symm.trans e
  simp only [List.append_assoc] at c1
  have c2 := List.append_cancel_left c1
  have hplus : ∀ q : List Byte, ds' ++ rest' ≠ 43 :: q := by
    intro q hq
    rw [hq] at hc
    simp at hc; subst hc
    exact absurd hcd (by decide)
  have hminus : ∀ q : List Byte, ds' ++ rest' ≠ 45 :: q := by
    intro q hq
    rw [hq] at hc
    simp at hc; subst hc
    exact absurd hcd (by decide)
  rcases h2 with rfl | rfl | rfl <;> rcases h3' with ⟨rfl, -⟩ | ⟨rfl, -⟩ | ⟨rfl, -⟩
  · rw [List.nil_append, List.nil_append] at c2
    rw [c2] at hc
    exact (h3 c hc).1 hcd
  · exact ((h3 43 (by rw [List.nil_append] at c2; rw [← c2]; rfl)).2 rfl).1 rfl
  · exact ((h3 45 (by rw [List.nil_append] at c2; rw [← c2]; rfl)).2 rfl).2.1 rfl
  · exact hplus _ c2
  · simp only [List.cons_append, List.nil_append, List.cons.injEq, true_and] at c2
    rw [c2] at hc
    exact (h3 c hc).1 hcd
  · simp at c2
  · exact hminus _ c2
  · simp at c2
  · simp only [List.cons_append, List.nil_append, List.cons.injEq, true_and] at c2
    rw [c2] at hc
    exact (h3 c hc).1 hcd

/-- The kind of an option, and the way it takes more than one value, stay. -/
theorem takesAll_kind {expand : List Byte → List Byte} {o o' : Opt} {vs : List GivenVal} (h : TakesAll expand o vs o') :
    ((∃ m, o.val = .int m) → ∃ m, o'.val = .int m) ∧ ((∃ m, o.val = .bool m) → ∃ m, o'.val = .bool m) ∧
    ((∃ m, o.val = .str m) → ∃ m, o'.val = .str m) ∧
    (o.strategy = .default ∨ o.strategy = .replace → o'.strategy = .default ∨ o'.strategy = .replace) := by
  induction h with
  | nil => exact ⟨id, id, id, id⟩
  | @cons o o1 o2 p d v vs h1 _ ih =>
    have : ((∃ m, o.val = .int m) → ∃ m, o1.val = .int m) ∧ ((∃ m, o.val = .bool m) → ∃ m, o1.val = .bool m) ∧
        ((∃ m, o.val = .str m) → ∃ m, o1.val = .str m) ∧
        (o.strategy = .default ∨ o.strategy = .replace → o1.strategy = .default ∨ o1.strategy = .replace) := by
      cases h1 with
      | int _ e _ => rw [e]; exact ⟨fun _ => ⟨_, rfl⟩, by simp, by simp, id⟩
      | noInt _ e _ => exact ⟨id, id, id, id⟩
      | bool _ e _ => rw [e]; exact ⟨by simp, fun _ => ⟨_, rfl⟩, by simp, id⟩
      | str e hb _ _ _ =>
        rw [e]
        refine ⟨by simp, by simp, fun _ => ⟨_, rfl⟩, fun hs => ?_⟩
        cases hb <;> simp_all
      | path _ e hb _ _ =>
        rw [e]
        refine ⟨by simp, by simp, by simp, fun hs => ?_⟩
        cases hb <;> simp_all
      | noPath _ e _ => exact ⟨id, id, id, id⟩
    exact ⟨fun h => ih.1 (this.1 h), fun h => ih.2.1 (this.2.1 h), fun h => ih.2.2.1 (this.2.2.1 h), fun h => ih.2.2.2 (this.2.2.2 h)⟩

theorem takesAll_last {expand : List Byte → List Byte} {o o' : Opt} {us : List GivenVal} {p : Option (List Byte)} {d v : List Byte}
    (h : TakesAll expand o (us ++ [(p, d, v)]) o') : ∃ o1, TakesAll expand o us o1 ∧ Takes expand o1 p d v o' := by
  obtain ⟨o1, h1, h2⟩ := takesAll_append h
  cases h2 with
  | cons h3 h4 =>
    cases h4
    exact ⟨o1, h1, h3⟩

/-- Of a number, the last line that gives one wins. -/
theorem int_last_wins {expand : List Byte → List Byte} {o o' : Opt} {us : List GivenVal} {p : Option (List Byte)} {d v : List Byte} {old n : Int}
    (h : TakesAll expand o (us ++ [(p, d, v)]) o') (ho : o.val = .int old) (hn : Number v n) : o'.val = .int n := by
  obtain ⟨o1, h1, h2⟩ := takesAll_last h
  obtain ⟨m, hm⟩ := (takesAll_kind h1).1 ⟨_, ho⟩
  cases h2 with
  | int _ _ h3 => rw [number_unique h3 hn]
  | noInt _ _ h3 => exact absurd hn (fun hn => noNumber_not h3 hn)
  | _ => simp_all

/-- The same for a truth value. -/
theorem bool_last_wins {expand : List Byte → List Byte} {o o' : Opt} {us : List GivenVal} {p : Option (List Byte)} {d v : List Byte} {old : Bool}
    (h : TakesAll expand o (us ++ [(p, d, v)]) o') (ho : o.val = .bool old) : ∃ b, Truth v b ∧ o'.val = .bool b := by
  obtain ⟨o1, h1, h2⟩ := takesAll_last h
  obtain ⟨m, hm⟩ := (takesAll_kind h1).2.1 ⟨_, ho⟩
  cases h2 with
  | bool _ _ h3 => exact ⟨_, h3, rfl⟩
  | _ => simp_all

/-- The same for a text of one line; a prefix has no effect. -/
theorem str_last_wins {expand : List Byte → List Byte} {o o' : Opt} {us : List GivenVal} {p : Option (List Byte)} {d v : List Byte}
    {old : List (List Byte)} (h : TakesAll expand o (us ++ [(p, d, v)]) o') (ho : o.val = .str old)
    (hs : o.strategy = .default ∨ o.strategy = .replace) : ∃ qs l, Split d v qs ∧ Trims white qs l ∧ o'.val = .str l := by
  obtain ⟨o1, h1, h2⟩ := takesAll_last h
  obtain ⟨m, hm⟩ := (takesAll_kind h1).2.2.1 ⟨_, ho⟩
  have hs1 := (takesAll_kind h1).2.2.2 hs
  cases h2 with
  | @str l base ps qs l' st e hb hpre hsp ht =>
    have hps : ps = [] := by
      cases hpre with
      | none => rfl
      | some hh _ => rcases hs1 with hs1 | hs1 <;> rcases hh with hh | hh <;> rw [hs1] at hh <;> cases hh
      | replaced _ => rfl
    have hbase : base = [] := by
      cases hb with
      | append hh => rcases hs1 with hs1 | hs1 <;> rw [hs1] at hh <;> cases hh
      | _ => rfl
    subst hps hbase
    exact ⟨qs, l', hsp, ht, rfl⟩
  | _ => simp_all

theorem trims_trims {g : List Byte} {a l1 rs l' : List (List Byte)} (h : Trims g a l1) (h' : Trims g (l1 ++ rs) l') : Trims g (a ++ rs) l' := by
  induction h generalizing l' with
  | nil => exact h'
  | blank hb _ ih => exact .blank hb (ih h')
  | @keep s t ss ts ht hne _ ih =>
    obtain ⟨x, y, e, hx, hy, hh, hl⟩ := ht
    cases h' with
    | blank hb _ =>
      cases t with
      | nil => exact absurd rfl hne
      | cons c t => exact absurd (hb c (by simp)) (hh c rfl)
    | @keep _ t2 _ _ ht2 hne2 h3 =>
      obtain ⟨x2, y2, e2, hx2, hy2, hh2, hl2⟩ := ht2
      have : x2 = [] := by
        cases x2 with
        | nil => rfl
        | cons c x2 => exact absurd (hx2 c (by simp)) (hh c (by rw [e2]; rfl))
      have hy3 : y2 = [] := by
        rcases List.eq_nil_or_concat y2 with h | ⟨q, c, hq⟩
        · exact h
        · rw [List.concat_eq_append] at hq
          exact absurd (hy2 c (by rw [hq]; simp)) (hl c (by rw [e2, hq, ← List.append_assoc]; simp))
      subst this hy3
      simp only [List.nil_append, List.append_nil] at e2
      subst e2
      exact .keep ⟨x, y, e, hx, hy, hh, hl⟩ hne (ih h3)

/-- Of a text that takes more lines all strings are kept, in order, behind those it had; one that drops
its default starts with none. -/
theorem str_all_kept {expand : List Byte → List Byte} {o o' : Opt} {vs : List GivenVal} {l : List (List Byte)}
    (h : TakesAll expand o vs o') (hne : vs ≠ []) (ho : o.val = .str l) (hs : o.strategy = .append ∨ (o.strategy = .discard ∧ o.given = false)) :
    ∃ rs l', AllPieces vs rs ∧ Trims white ((if o.strategy = .append then l else []) ++ rs) l' ∧ o'.val = .str l' := by
  induction h generalizing l with
  | nil => exact absurd rfl hne
  | @cons o o1 o2 p d v vs h1 h2 ih =>
    cases h1 with
    | @str l0 base ps qs l1 st e hb hpre hsp ht =>
      rw [ho] at e
      cases e
      have hst : st = .append ∧ base = (if o.strategy = .append then l else []) := by
        cases hb with
        | append hh => exact ⟨rfl, by rw [if_pos hh]⟩
        | discard hh _ => exact ⟨rfl, by rw [if_neg (by rw [hh]; simp)]⟩
        | default hh => simp [hh] at hs
        | replace hh => simp [hh] at hs
      obtain ⟨rfl, rfl⟩ := hst
      have hpieces : ∀ rs, AllPieces vs rs → AllPieces ((p, d, v) :: vs) (ps ++ qs ++ rs) := by
        intro rs hrs
        cases hpre with
        | none => exact .cons hsp hrs
        | some _ hp => exact .pre hp hsp hrs
        | replaced hh => rcases hs with hs | ⟨hs, -⟩ <;> rcases hh with hh | hh <;> rw [hs] at hh <;> cases hh
      by_cases hvs : vs = []
      · subst hvs
        cases h2
        exact ⟨ps ++ qs ++ [], l1, hpieces [] .nil, by simpa [List.append_assoc] using ht, rfl⟩
      · obtain ⟨rs, l', h3, h4, h5⟩ := ih hvs rfl (.inl rfl)
        rw [if_pos rfl] at h4
        refine ⟨ps ++ qs ++ rs, l', hpieces rs h3, ?_, h5⟩
        have := trims_trims ht h4
        simpa [List.append_assoc] using this
    | int _ e _ => rw [ho] at e; cases e
    | noInt _ e _ => rw [ho] at e; cases e
    | bool _ e _ => rw [ho] at e; cases e
    | path _ e _ _ _ => rw [ho] at e; cases e
    | noPath _ e _ => rw [ho] at e; cases e

/-! ### What does not hold -/

/-- The same for every file without NULs. -/
def EveryFile : Prop := ∀ (hash : List Byte → UInt32) (expand : List Byte → List Byte) (depth P E : Nat), 2 ≤ depth →
  (∀ p, (0 : Byte) ∉ p → (0 : Byte) ∉ expand p ∧ (expand p).length ≤ p.length + E) →
  ∀ (ds : List Decl) (tab : Table), Declared ds tab → (∀ d ∈ ds, CleanDecl d) → Sane tab → PreOk P tab →
  ∀ (ss : List (List Byte)) (last : List Byte), (∀ s ∈ ss ++ [last], (10 : Byte) ∉ s ∧ (0 : Byte) ∉ s) →
  (∀ s ∈ ss ++ [last], ∀ t, Visible s t → NumbersFit tab t) → Fits ds ss last P E →
  ∃ c c' ts tab', declareAll depth (init hash) ds = some c ∧ read expand depth c (text ss last) = some c' ∧
    Seen 2048 (ss ++ [last]) ts ∧ Reads expand tab ts tab' ∧ Shows (getInt c' depth) (getBoolean c' depth) (getStrings c' depth) tab'

/-- A line with a number and, behind 2044 spaces, another option. -/
def longLine : List Byte := str "n 1" ++ List.replicate 2044 32 ++ str "m 2"

def twoInts : List Decl := [.option (str "n") .default (.int 0), .option (str "m") .default (.int 0)]

/-- The rest of a line that does not fit the buffer is taken for a line of its own. -/
theorem long_line_split : ((declareAll 4 (init fun _ => 0) twoInts).bind fun c => (read id 4 c (longLine ++ [10])).map fun c =>
    (getInt c 4 (str "n"), getInt c 4 (str "m"))) = some (some 1, some 2) := by decide +kernel

theorem reads_length {expand : List Byte → List Byte} {tab tab' : Table} {ss : List (List Byte)} (h : Reads expand tab ss tab') :
    tab'.length = tab.length := by
  induction h with
  | nil => rfl
  | cons h1 _ ih =>
    rw [ih]
    cases h1 <;> simp

/-- All is to be seen of a line without marks, and without white space at both ends. -/
theorem visible_whole {s t : List Byte} (h : Visible s t) (hs : ∀ c ∈ s, c ≠ 35 ∧ c ≠ 59) (hh : ∀ c, s.head? = some c → c ∉ whites)
    (hl : ∀ c, s.getLast? = some c → c ∉ whites) : t = s := by
  obtain ⟨u, ⟨-, hu⟩, a, b, e, ha, hb, -, -⟩ := h
  have hus : s = u := by
    rcases hu with hu | ⟨r, hr | hr⟩
    · exact hu
    · exact absurd rfl (hs 35 (by rw [hr]; simp)).1
    · exact absurd rfl (hs 59 (by rw [hr]; simp)).2
  subst hus
  have ha' : a = [] := by
    cases a with
    | nil => rfl
    | cons c a => exact absurd (ha c (by simp)) (hh c (by rw [e]; rfl))
  have hb' : b = [] := by
    rcases List.eq_nil_or_concat b with h | ⟨q, c, hq⟩
    · exact h
    · rw [List.concat_eq_append] at hq
      exact absurd (hb c (by rw [hq]; simp)) (hl c (by rw [e, hq, ← List.append_assoc]; simp))
  rw [e, ha', hb']
  simp

def twoTab : Table := [(str "n", .opt ⟨false, .default, [44], .int 0⟩), (str "m", .opt ⟨false, .default, [44], .int 0⟩)]

theorem declared_two : Declared twoInts twoTab :=
  .snoc (ds := [.option (str "n") .default (.int 0)]) (.snoc (ds := []) .nil (.option .int)) (.option .int)

theorem long_pair {k v : List Byte} (h : Pair longLine k v) : k = str "n" ∧ v = [49] ++ List.replicate 2044 32 ++ str "m 2" := by
  have h1 := split_of_pair h
  have h2 : splitLine longLine = some (str "n", [49] ++ List.replicate 2044 32 ++ str "m 2") := by decide +kernel
  rw [h2] at h1
  simp only [Option.some.injEq, Prod.mk.injEq] at h1
  exact ⟨h1.1.symm, h1.2.symm⟩

/-- A line that is too long makes it false. -/
theorem every_file_false : ¬ EveryFile := by
  intro h
  have hlen : longLine.length = 2050 := by decide +kernel
  have hh1 : longLine.head? = some 110 := by decide +kernel
  have hl1 : longLine.getLast? = some 50 := by decide +kernel
  have hvis : ∀ t, Visible longLine t → t = longLine := fun t ht =>
    visible_whole ht (by decide +kernel) (by intro c hc; rw [hh1] at hc; simp only [Option.some.injEq] at hc; subst hc; decide)
      (by intro c hc; rw [hl1] at hc; simp only [Option.some.injEq] at hc; subst hc; decide)
  have hnil : ∀ t, Visible [] t → t = [] := fun t ht => visible_whole ht (by simp) (by simp) (by simp)
  have hn2 : ∀ i o p d, Names twoTab (str "n") i o p d → i = 0 := by
    intro i o p d hn
    cases hn with
    | option hf =>
      have h1 := hf.2.1
      match i with
      | 0 => rfl
      | 1 => simp [twoTab, str] at h1
      | i + 2 => simp [twoTab] at h1
    | alias hf _ =>
      have h1 := List.mem_of_getElem? hf.2.1
      simp [twoTab] at h1
  obtain ⟨c, c', ts, tab', h1, h2, h3, h4, h5⟩ := h (fun _ => 0) id 4 0 0 (by omega) (fun p hp => ⟨hp, by simp⟩) twoInts twoTab declared_two
    (by intro d hd; simp [twoInts] at hd; rcases hd with rfl | rfl <;> trivial)
    (by intro e he; simp [twoTab] at he; rcases he with rfl | rfl <;> exact ⟨by simp, .inl rfl⟩)
    (by intro k t p d hm; simp [twoTab] at hm)
    [longLine] [] (by decide +kernel)
    (by
      intro s hs t ht k v i o pre d old n hp hnm hval hnum
      simp only [List.cons_append, List.nil_append, List.mem_cons, List.not_mem_nil, or_false] at hs
      rcases hs with rfl | rfl
      · obtain rfl := hvis t ht
        obtain ⟨rfl, rfl⟩ := long_pair hp
        rcases scan_cases ([49] ++ List.replicate 2044 32 ++ str "m 2") with ⟨m, rest, k1, k2⟩ | ⟨k1, -⟩ | ⟨k1, -⟩
        · have : (match IpText.scanDec ([49] ++ List.replicate 2044 32 ++ str "m 2") with | .ok n _ => n | _ => 0) = 1 := by decide +kernel
          rw [k1] at this
          dsimp only at this
          subst this
          rw [number_unique hnum k2]
          omega
        · have : (match IpText.scanDec ([49] ++ List.replicate 2044 32 ++ str "m 2") with | .ok n _ => n | _ => 0) = 1 := by decide +kernel
          rw [k1] at this
          simp at this
        · have : (match IpText.scanDec ([49] ++ List.replicate 2044 32 ++ str "m 2") with | .ok n _ => n | _ => 0) = 1 := by decide +kernel
          rw [k1] at this
          simp at this
      · obtain rfl := hnil t ht
        obtain ⟨x, w, e, -⟩ := hp
        simp at e)
    (by simp [Fits, twoInts, textSize, hlen])
  obtain ⟨vs, o', g1, g2, g3⟩ := history h4 (i := 1) (x := str "m") (o := ⟨false, .default, [44], .int 0⟩) rfl
  have hts : ∀ s ∈ ts, s = longLine := by
    have : ∀ ss us, Seen 2048 ss us → (∀ s ∈ ss, s = longLine ∨ s = []) → ∀ u ∈ us, u = longLine := by
      intro ss us hs
      induction hs with
      | nil => simp
      | blank _ _ ih => exact fun hh => ih (fun s hs => hh s (by simp [hs]))
      | @line s t ss ts hv hne _ ih =>
        intro hh u hu
        rcases List.mem_cons.1 hu with rfl | hu
        · rcases hh s (by simp) with rfl | rfl
          · exact hvis _ hv
          · exact absurd (hnil _ hv) hne
        · exact ih (fun s hs => hh s (by simp [hs])) u hu
      | long _ _ ih => exact fun hh => ih (fun s hs => hh s (by simp [hs]))
    exact this _ _ h3 (by simp)
  have hvs : vs = [] := by
    have : ∀ us ws, Gives twoTab 1 us ws → (∀ u ∈ us, u = longLine) → ws = [] := by
      intro us ws hg
      induction hg with
      | nil => exact fun _ => rfl
      | skip _ _ ih => exact fun hh => ih (fun u hu => hh u (by simp [hu]))
      | @take u _ _ _ _ _ us _ hp hn _ _ =>
        intro hh
        rw [hh u (by simp)] at hp
        obtain ⟨rfl, -⟩ := long_pair hp
        exact absurd (hn2 _ _ _ _ hn) (by omega)
    exact this _ _ g1 hts
  subst hvs
  cases g2
  have hlen2 := reads_length h4
  have hf : Finds tab' (str "m") 1 (.opt ⟨false, .default, [44], .int 0⟩) := by
    refine ⟨by unfold Plain; decide, g3, fun j e' hj he => ?_⟩
    have := (List.getElem?_eq_some_iff.1 he).1
    rw [hlen2] at this
    simp [twoTab] at this
    omega
  have h6 := (h5 (str "m")).2 1 _ none _ (.option hf)
  have h7 := long_line_split
  dsimp only at h6
  rw [h1] at h7
  have ht : text [longLine] [] = longLine ++ [10] := by simp [text]
  rw [ht] at h2
  simp only [Option.bind_some] at h7
  rw [h2] at h7
  simp only [Option.map_some, Option.some.injEq, Prod.mk.injEq] at h7
  rw [h6] at h7
  simp at h7

/-- An alias of an alias loses its prefix. -/
theorem nested_alias_prefix : ((declareAll 4 (init fun _ => 0) [.option (str "a") .append (.str none), .alias (str "a") (str "b") none none,
    .alias (str "b") (str "c") (some (str "x")) none]).bind fun c => (read id 4 c (str "c y\n")).map fun c => getStrings c 4 (str "a")) =
    some (some [str "y"]) := by decide +kernel

/-- An alias of an option with one value loses its prefix. -/
theorem single_alias_prefix : ((declareAll 4 (init fun _ => 0) [.option (str "a") .replace (.str none), .alias (str "a") (str "b") (some (str "x")) none]).bind
    fun c => (read id 4 c (str "b y\n")).map fun c => getStrings c 4 (str "a")) = some (some [str "y"]) := by decide +kernel

/-- With spaces around a `=`, the `=` belongs to the value. -/
theorem equals_kept : ((declareAll 4 (init fun _ => 0) [.option (str "a") .replace (.str none), .option (str "n") .default (.int 7)]).bind fun c =>
    (read id 4 c (str "a = 5\nn = 5\n")).map fun c => (getStrings c 4 (str "a"), getInt c 4 (str "n"))) =
    some (some [str "= 5"], some 7) := by decide +kernel

/-- `on` does not switch an option on. -/
theorem on_is_off : Truth (str "on") false := by
  have := truth_getBool (str "on")
  rwa [show getBool (str "on") = false by decide +kernel] at this

/-- Asking for an alias that leads to itself does not end. -/
theorem alias_cycle (hash : List Byte → UInt32) (depth : Nat) (pre del : Option (List Byte)) :
    ∃ c, declareAll 1 (init hash) [.alias (str "b") (str "a") none none, .alias (str "a") (str "b") none none] = some c ∧
      getOption c depth (str "a") pre del = none := by
  refine ⟨_, rfl, ?_⟩
  have hr : Rep 0 0 (addAlias (addAlias (init hash) (str "b") (str "a") none none) (str "a") (str "b") none none)
      [(str "a", .alias (str "b") none none), (str "b", .alias (str "a") none none)] :=
    rep_put (rep_put (rep_init hash) (str "a") (.alias rfl)) (str "b") (.alias rfl)
  have ha : Finds [(str "a", .alias (str "b") none none), (str "b", .alias (str "a") none none)] (str "a") 0 (.alias (str "b") none none) :=
    ⟨by unfold Plain; decide, rfl, fun j e hj he => by
      match j with
      | 1 => simp [str] at he
      | j + 2 => simp at he⟩
  have hb : Finds [(str "a", .alias (str "b") none none), (str "b", .alias (str "a") none none)] (str "b") 1 (.alias (str "a") none none) :=
    ⟨by unfold Plain; decide, rfl, fun j e hj he => by
      match j with
      | j + 2 => simp at he⟩
  generalize hc : addAlias (addAlias (init hash) (str "b") (str "a") none none) (str "a") (str "b") none none = c at hr ⊢
  have : ∀ depth pre del, getOption c depth (str "a") pre del = none ∧ getOption c depth (str "b") pre del = none := by
    intro depth
    induction depth with
    | zero => exact fun _ _ => ⟨rfl, rfl⟩
    | succ depth ih =>
      intro pre del
      constructor
      · rcases find_rep hr (str "a") with ⟨i, e, it, h1, h2, h3, h4⟩ | ⟨h1 | h1, h2⟩
        · obtain ⟨rfl, rfl⟩ := finds_inj ha h1
          generalize hx : Entry.alias (str "b") none none = x at h4
          cases h4 with
          | alias h =>
            simp only [Entry.alias.injEq] at hx
            rw [getOption, h2]
            dsimp only
            rw [h, ← hx.1]
            exact (ih _ _).2
          | _ => cases hx
        · exact absurd ha.1 h1
        · exact absurd ha.2.1 (h1 _ _)
      · rcases find_rep hr (str "b") with ⟨i, e, it, h1, h2, h3, h4⟩ | ⟨h1 | h1, h2⟩
        · obtain ⟨rfl, rfl⟩ := finds_inj hb h1
          generalize hx : Entry.alias (str "a") none none = x at h4
          cases h4 with
          | alias h =>
            simp only [Entry.alias.injEq] at hx
            rw [getOption, h2]
            dsimp only
            rw [h, ← hx.1]
            exact (ih _ _).1
          | _ => cases hx
        · exact absurd hb.1 h1
        · exact absurd hb.2.1 (h1 _ _)
  exact (this depth pre del).1

/-! ### Cases that meet the hypotheses -/

/-- Some of the options of dnsforwarder. -/
def sample : List Decl := [.option (str "LogOn") .default (.bool false), .option (str "ServerGroup") .discard (.str none),
  .delims (str "ServerGroup") (str "\t "), .default (str "ServerGroup") (.str (some (str "udp 1.2.4.8"))),
  .alias (str "ServerGroup") (str "TCPGroup") (some (str "TCP")) none, .option (str "CacheSize") .default (.int 1048576),
  .option (str "AppendHosts") .append (.str none), .option (str "Hosts") .replace (.path none)]

def sampleText : List Byte :=
  text [str "# comment", str "LogOn true ; yes", str "TCPGroup 8.8.8.8 *", str "", str "CacheSize 100", str "AppendHosts 1.2.3.4 a, 1.2.3.5 b",
    str "Unknown x", str "CacheSize=200", str "AppendHosts 1.2.3.6 c", str "ServerGroup UDP 1.1.1.1", str "Hosts \"a b\""] []

def sampleRead : Option Cfg := (declareAll 4 (init fun _ => 0) sample).bind fun c => read id 4 c sampleText

example : (sampleRead.map fun c => (getBoolean c 4 (str "LogOn"), getInt c 4 (str "CacheSize"))) = some (some true, some 200) := by decide +kernel

example : (sampleRead.bind fun c => getStrings c 4 (str "ServerGroup")) = some [str "TCP", str "8.8.8.8", str "*", str "UDP", str "1.1.1.1"] := by
  decide +kernel

example : (sampleRead.bind fun c => getStrings c 4 (str "AppendHosts")) = some [str "1.2.3.4 a", str "1.2.3.5 b", str "1.2.3.6 c"] := by
  decide +kernel

example : (sampleRead.bind fun c => getStrings c 4 (str "Hosts")) = some [str "a b"] := by decide +kernel

example : Truth (str "True") true ∧ Truth (str "NO") false ∧ Truth (str "1") true := by
  refine ⟨?_, ?_, ?_⟩
  · have := truth_getBool (str "True"); rwa [show getBool (str "True") = true by decide +kernel] at this
  · have := truth_getBool (str "NO"); rwa [show getBool (str "NO") = false by decide +kernel] at this
  · have := truth_getBool (str "1"); rwa [show getBool (str "1") = true by decide +kernel] at this

/-- All of the hypotheses of `reads_partial`. -/
example : Declared twoInts twoTab ∧ Sane twoTab ∧ PreOk 0 twoTab ∧ (∀ d ∈ twoInts, CleanDecl d) ∧ LineOk (str "n 5") ∧
    Fits twoInts [str "n 5"] [] 0 0 :=
  ⟨declared_two, by intro e he; simp [twoTab] at he; rcases he with rfl | rfl <;> exact ⟨by simp, .inl rfl⟩,
    by intro k t p d hm; simp [twoTab] at hm, by intro d hd; simp [twoInts] at hd; rcases hd with rfl | rfl <;> trivial,
    ⟨by decide, by decide, by unfold ReadLine.CrOk; decide, fun u r e _ => absurd (show (35 : Byte) ∈ str "n 5" by rw [e]; simp) (by decide)⟩,
    by unfold Fits; decide⟩

end Verif.Config
