import Verif.Spec.StatPage
import Verif.Lemmas.Statistic
import Verif.Lemmas.ReplaceStr

namespace Verif.StatPage
open Statistic

theorem dec_len_mono {m n : Nat} (h : m ≤ n) : (IpText.dec m).length ≤ (IpText.dec n).length := by
  induction n using Nat.strongRecOn generalizing m with
  | _ n ih =>
    rw [IpText.dec, IpText.dec.eq_def n]
    split
    · split <;> simp
    · rw [if_neg (by omega)]
      have := @ih (n / 10) (by omega) (m / 10) (by omega)
      simp
      omega

/-- No number is less. -/
structure Le (i j : Info) : Prop where
  count : i.count ≤ j.count
  refused : i.refused ≤ j.refused
  hosts : i.hosts ≤ j.hosts
  cache : i.cache ≤ j.cache
  udp : i.udp ≤ j.udp
  tcp : i.tcp ≤ j.tcp
  blocked : i.blocked ≤ j.blocked

theorem Le.refl (i : Info) : Le i i := ⟨by omega, by omega, by omega, by omega, by omega, by omega, by omega⟩

theorem Le.trans {i j k : Info} (h : Le i j) (g : Le j k) : Le i k := by
  obtain ⟨_, _, _, _, _, _, _⟩ := h
  obtain ⟨_, _, _, _, _, _, _⟩ := g
  exact ⟨by omega, by omega, by omega, by omega, by omega, by omega, by omega⟩

theorem le_add (i j : Info) : Le i (i.add j) := by
  constructor <;> simp [Info.add]

theorem le_add_left (i j : Info) : Le i (j.add i) := by
  constructor <;> simp [Info.add]

theorem add_le {a b c d : Info} (h : Le a b) (g : Le c d) : Le (a.add c) (b.add d) := by
  obtain ⟨_, _, _, _, _, _, _⟩ := h
  obtain ⟨_, _, _, _, _, _, _⟩ := g
  constructor <;> simp only [Info.add] <;> omega

theorem zero_le (i : Info) : Le Info.zero i := by
  constructor <;> simp [Info.zero]

theorem rowText_len {d : List Byte} {i j : Info} (h : Le i j) : (rowText (d, i)).length ≤ (rowText (d, j)).length := by
  have h1 := dec_len_mono h.count
  have h2 := dec_len_mono h.refused
  have h3 := dec_len_mono h.hosts
  have h4 := dec_len_mono h.cache
  have h5 := dec_len_mono h.udp
  have h6 := dec_len_mono h.tcp
  have h7 := dec_len_mono h.blocked
  simp only [rowText, List.length_append]
  omega

theorem tailText_len {post : List Byte} {i j : Info} (h : Le i j) : (tailText post i).length ≤ (tailText post j).length := by
  have h1 := dec_len_mono h.count
  have h2 := dec_len_mono h.refused
  have h3 := dec_len_mono h.hosts
  have h4 := dec_len_mono h.cache
  have h5 := dec_len_mono h.udp
  have h6 := dec_len_mono h.tcp
  have h7 := dec_len_mono h.blocked
  simp only [tailText, List.length_append]
  omega

/-- Entries are only added, and numbers only grow. -/
structure Grow (st st' : State) : Prop where
  cont : ∃ ext, st'.chunk.ht.contents = st.chunk.ht.contents ++ ext
  infos : ∀ (k : Nat) i, st.infos[k]? = some i → ∃ j, st'.infos[k]? = some j ∧ Le i j

theorem Grow.refl (st : State) : Grow st st := ⟨⟨[], by simp⟩, fun k i h => ⟨i, h, Le.refl i⟩⟩

theorem Grow.trans {a b c : State} (h : Grow a b) (g : Grow b c) : Grow a c := by
  obtain ⟨⟨x, hx⟩, hi⟩ := h
  obtain ⟨⟨y, hy⟩, gi⟩ := g
  refine ⟨⟨x ++ y, by rw [hy, hx, List.append_assoc]⟩, fun k i hk => ?_⟩
  obtain ⟨j, h1, h2⟩ := hi k i hk
  obtain ⟨l, h3, h4⟩ := gi k j h1
  exact ⟨l, h3, h2.trans h4⟩

theorem grow_skip (st : State) (b : Bool) : Grow st { st with skip := b } := ⟨⟨[], by simp⟩, fun k i h => ⟨i, h, Le.refl i⟩⟩

theorem grow_add (fnm : List Byte → List Byte → Bool) {st st' : State} {d : List Byte} {t : Kind} (hi : SimpleHT.Inv st.chunk.ht)
    (h : add fnm st d t = some st') : Grow st st' ∧ SimpleHT.Inv st'.chunk.ht := by
  unfold add at h
  split at h
  · cases h; exact ⟨Grow.refl _, hi⟩
  · split at h
    · cases h
      have hinf : ∀ (k : Nat) i, st.infos[k]? = some i → ∃ j, (st.infos ++ [Info.unit t])[k]? = some j ∧ Le i j := by
        intro k i hk
        have := (List.getElem?_eq_some_iff.1 hk).1
        exact ⟨i, by rw [List.getElem?_append_left this, hk], Le.refl i⟩
      dsimp only
      unfold StringChunk.Chunk.add
      split
      · exact ⟨⟨⟨[], by simp⟩, hinf⟩, hi⟩
      · have := SimpleHT.add_spec hi (st.chunk.hash d) (⟨d, some st.infos.length⟩ : StringChunk.Entry Nat)
        exact ⟨⟨⟨_, this.2⟩, hinf⟩, this.1⟩
    · cases h; exact ⟨Grow.refl _, hi⟩
    · rename_i k _
      split at h
      · cases h; exact ⟨Grow.refl _, hi⟩
      · rename_i i hk
        obtain ⟨c, hc, rfl⟩ := Option.map_eq_some_iff.1 h
        obtain ⟨rfl, -⟩ := plus_some.1 hc
        refine ⟨⟨⟨[], by simp⟩, fun l j hl => ?_⟩, hi⟩
        dsimp only
        rw [List.getElem?_set]
        split
        · rename_i e
          subst e
          rw [hk] at hl
          cases hl
          rw [if_pos (List.getElem?_eq_some_iff.1 hk).1]
          exact ⟨_, rfl, le_add _ _⟩
        · exact ⟨j, hl, Le.refl j⟩

theorem grow_adds (fnm : List Byte → List Byte → Bool) (qs : List (List Byte × Kind)) {st st' : State} (hi : SimpleHT.Inv st.chunk.ht)
    (h : adds fnm st qs = some st') : Grow st st' ∧ SimpleHT.Inv st'.chunk.ht := by
  induction qs generalizing st with
  | nil => cases h; exact ⟨Grow.refl _, hi⟩
  | cons q qs ih =>
    rw [adds] at h
    split at h
    · cases h
    · rename_i m hm
      have h1 := grow_add fnm hi hm
      have h2 := ih h1.2 h
      exact ⟨h1.1.trans h2.1, h2.2⟩

/-- The row of an entry. -/
def rowOf (infos : List Info) (p : UInt32 × StringChunk.Entry Nat) : Option (List Byte × Info) :=
  match p.2.data with
  | none => none
  | some k => (infos[k]?).map (fun i => (p.2.str, i))

theorem rows_contents (st : State) : st.rows = st.chunk.ht.contents.filterMap (rowOf st.infos) := by
  unfold State.rows SimpleHT.HT.contents
  rw [List.filterMap_map]
  rfl

theorem rowOf_grow {a b : List Info} (h : ∀ (k : Nat) i, a[k]? = some i → ∃ j, b[k]? = some j ∧ Le i j) {p : UInt32 × StringChunk.Entry Nat}
    {r : List Byte × Info} (hr : rowOf a p = some r) : ∃ j, rowOf b p = some (r.1, j) ∧ Le r.2 j := by
  unfold rowOf at *
  split at hr
  · cases hr
  · rename_i k hk
    obtain ⟨i, h1, rfl⟩ := Option.map_eq_some_iff.1 hr
    obtain ⟨j, h2, h3⟩ := h k i h1
    exact ⟨j, by rw [h2]; rfl, h3⟩

theorem rowsText_cons (r : List Byte × Info) (rs : List (List Byte × Info)) : rowsText (r :: rs) = rowText r ++ rowsText rs := by
  simp [rowsText]

theorem rowsText_append (rs ss : List (List Byte × Info)) : rowsText (rs ++ ss) = rowsText rs ++ rowsText ss := by
  simp [rowsText]

theorem rows_grow {a b : List Info} (h : ∀ (k : Nat) i, a[k]? = some i → ∃ j, b[k]? = some j ∧ Le i j) (l : List (UInt32 × StringChunk.Entry Nat)) :
    (rowsText (l.filterMap (rowOf a))).length ≤ (rowsText (l.filterMap (rowOf b))).length ∧
    Le (total ((l.filterMap (rowOf a)).map (·.2))) (total ((l.filterMap (rowOf b)).map (·.2))) := by
  induction l with
  | nil => exact ⟨Nat.le_refl _, Le.refl _⟩
  | cons p l ih =>
    rw [List.filterMap_cons, List.filterMap_cons]
    cases ha : rowOf a p with
    | none =>
      dsimp only
      cases hb : rowOf b p with
      | none => exact ih
      | some r =>
        refine ⟨?_, ?_⟩
        · rw [rowsText_cons, List.length_append]; omega
        · exact ih.2.trans (le_add_left _ _)
    | some r =>
      obtain ⟨j, h1, h2⟩ := rowOf_grow h ha
      rw [h1]
      dsimp only
      refine ⟨?_, add_le h2 ih.2⟩
      rw [rowsText_cons, rowsText_cons, List.length_append, List.length_append]
      have : (rowText r).length ≤ _ := rowText_len (d := r.1) h2
      omega

theorem sum_is (l : List Info) (a s : Info) (h : l.foldlM (fun a i => a.plus i) a = some s) : s = a.add (total l) := by
  induction l generalizing a with
  | nil =>
    simp at h
    subst h
    simp [total, Info.add, Info.zero]
  | cons i l ih =>
    rw [List.foldlM_cons] at h
    obtain ⟨c, hc, h⟩ := Option.bind_eq_some_iff.1 h
    obtain ⟨rfl, -⟩ := plus_some.1 hc
    rw [ih _ h, add_assoc]
    rfl

theorem sum_total {st : State} {s : Info} (h : st.sum = some s) : s = total (st.rows.map (·.2)) := by
  unfold State.sum at h
  have e : st.rows.foldlM (fun a r => a.plus r.2) Info.zero = (st.rows.map (·.2)).foldlM (fun a i => a.plus i) Info.zero := by
    rw [List.foldlM_map]
  rw [e] at h
  rw [sum_is _ _ _ h, zero_add]

/-- Pages get no shorter. -/
theorem page_len {pre post : List Byte} {t0 now now' : Nat} {st st' : State} {p p' : List Byte} (hn : now ≤ now') (h : Grow st st')
    (hp : pageText pre post t0 now st = some p) (hp' : pageText pre post t0 now' st' = some p') : p.length ≤ p'.length := by
  obtain ⟨s, hs, rfl⟩ := Option.map_eq_some_iff.1 hp
  obtain ⟨s', hs', rfl⟩ := Option.map_eq_some_iff.1 hp'
  have e1 := sum_total hs
  have e2 := sum_total hs'
  rw [rows_contents] at e1 e2
  obtain ⟨⟨x, hx⟩, hi⟩ := h
  have g := rows_grow hi st.chunk.ht.contents
  rw [hx, List.filterMap_append, List.map_append, total_append] at e2
  have hle : Le s s' := by
    rw [e1, e2]
    exact g.2.trans (le_add _ _)
  have h1 := tailText_len (post := post) hle
  have h2 := dec_len_mono hn
  have h3 : (rowsText st.rows).length ≤ (rowsText st'.rows).length := by
    rw [rows_contents, rows_contents, hx, List.filterMap_append, rowsText_append, List.length_append]
    omega
  simp only [List.length_append, headText]
  omega

theorem over_long {new old : List Byte} (h : old.length ≤ new.length) : over new old = new := by
  unfold over
  rw [List.drop_eq_nil_of_le h, List.append_nil]

/-- What holds between events: whatever page comes next covers the file. -/
structure Ready (pre post : List Byte) (t0 last : Nat) (st : St) : Prop where
  inv : SimpleHT.Inv st.table.chunk.ht
  skip : st.table.skip = false
  covers : ∀ now, last ≤ now → ∀ tb p, Grow st.table tb → pageText pre post t0 now tb = some p → st.file.length ≤ p.length

theorem ready_init (pre post : List Byte) (t0 last : Nat) (hash : List Byte → UInt32) : Ready pre post t0 last (St.init hash) :=
  ⟨SimpleHT.inv_init 5, rfl, fun _ _ _ _ _ _ => by simp [St.init]⟩

theorem add_skip (fnm : List Byte → List Byte → Bool) {st st' : State} {d : List Byte} {t : Kind} (h : add fnm st d t = some st') : st'.skip = st.skip := by
  unfold add at h
  split at h
  · cases h; rfl
  · split at h
    · cases h; rfl
    · cases h; rfl
    · split at h
      · cases h; rfl
      · obtain ⟨c, hc, rfl⟩ := Option.map_eq_some_iff.1 h
        rfl

theorem step_page {fnm : List Byte → List Byte → Bool} {pre post : List Byte} {t0 now : Nat} {before during : List (List Byte × Kind)} {st st' : St}
    (h : step fnm pre post t0 st (.page now before during) = some st') :
    ∃ a b p, adds fnm st.table before = some a ∧ adds fnm { a with skip := true } during = some b ∧ pageText pre post t0 now b = some p ∧
      st' = ⟨{ b with skip := false }, over p st.file⟩ := by
  rw [step] at h
  split at h
  · cases h
  · rename_i a ha
    split at h
    · cases h
    · rename_i b hb
      split at h
      · cases h
      · rename_i p hp
        cases h
        exact ⟨a, b, p, ha, hb, hp, rfl⟩

theorem grow_page {fnm : List Byte → List Byte → Bool} {before during : List (List Byte × Kind)} {tb a b : State} (hi : SimpleHT.Inv tb.chunk.ht)
    (ha : adds fnm tb before = some a) (hb : adds fnm { a with skip := true } during = some b) : Grow tb b ∧ SimpleHT.Inv b.chunk.ht := by
  have h1 := grow_adds fnm before hi ha
  have h2 := grow_adds fnm during (st := { a with skip := true }) h1.2 hb
  exact ⟨(h1.1.trans (grow_skip a true)).trans h2.1, h2.2⟩

/-- One page: the file is this page. -/
theorem ready_page {fnm : List Byte → List Byte → Bool} {pre post : List Byte} {t0 last now : Nat} {before during : List (List Byte × Kind)} {st st' : St}
    (hr : Ready pre post t0 last st) (hn : last ≤ now) (h : step fnm pre post t0 st (.page now before during) = some st') :
    Ready pre post t0 now st' ∧ pageText pre post t0 now st'.table = some st'.file := by
  obtain ⟨a, b, p, ha, hb, hp, rfl⟩ := step_page h
  have g := grow_page hr.inv ha hb
  have e : over p st.file = p := over_long (hr.covers now hn b p g.1 hp)
  dsimp only
  refine ⟨⟨g.2, rfl, ?_⟩, ?_⟩
  · intro now' hn' tb p' hg hp'
    dsimp only at hg ⊢
    rw [e]
    exact page_len hn' ((grow_skip b false).trans hg) hp hp'
  · rw [e]; exact hp

theorem ready_query {fnm : List Byte → List Byte → Bool} {pre post : List Byte} {t0 last : Nat} {d : List Byte} {t : Kind} {st st' : St}
    (hr : Ready pre post t0 last st) (h : step fnm pre post t0 st (.query d t) = some st') : Ready pre post t0 last st' ∧ st'.file = st.file := by
  rw [step] at h
  obtain ⟨tb, htb, rfl⟩ := Option.map_eq_some_iff.1 h
  have g := grow_add fnm hr.inv htb
  refine ⟨⟨g.2, ?_, fun now hn tb' p hg hp => hr.covers now hn tb' p (g.1.trans hg) hp⟩, rfl⟩
  rw [add_skip fnm htb]; exact hr.skip

theorem run_append (fnm : List Byte → List Byte → Bool) (pre post : List Byte) (t0 : Nat) (st : St) (es fs : List Ev) :
    run fnm pre post t0 st (es ++ fs) = (run fnm pre post t0 st es).bind (fun s => run fnm pre post t0 s fs) := by
  induction es generalizing st with
  | nil => rfl
  | cons e es ih =>
    rw [List.cons_append, run, run]
    cases step fnm pre post t0 st e with
    | none => rfl
    | some s => exact ih s

theorem ready_run {fnm : List Byte → List Byte → Bool} {pre post : List Byte} {t0 last : Nat} (es : List Ev) {st st' : St} (hr : Ready pre post t0 last st)
    (ht : (last :: times es).Pairwise (· ≤ ·)) (h : run fnm pre post t0 st es = some st') : Ready pre post t0 ((last :: times es).getLast (by simp)) st' := by
  induction es generalizing st last with
  | nil => cases h; exact hr
  | cons e es ih =>
    rw [run] at h
    split at h
    · cases h
    · rename_i m hm
      cases e with
      | query d t => exact ih (ready_query hr hm).1 ht h
      | page now before during =>
        have ht' : (last :: now :: times es).Pairwise (· ≤ ·) := ht
        have h1 := List.pairwise_cons.1 ht'
        have := ih (ready_page hr (h1.1 now (by simp)) hm).1 h1.2 h
        simpa [times] using this

end Verif.StatPage
