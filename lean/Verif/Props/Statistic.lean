import Verif.Lemmas.Statistic
/-! C87, C88: the statistics by domain and the page they are written to. -/

namespace Verif.Statistic

/-- C87: whatever happens, the rows and sums are those of all queries so far. -/
def CountsAll : Prop := ∀ (fnm : List Byte → List Byte → Bool) (hash : List Byte → UInt32) (es : List Ev),
  ∃ st, run fnm (State.init hash) es = some st ∧ st.rows = wantRows (queries es) ∧ st.sum = some (tally (queries es))

/-- C87 is false: a query made while a page is being written is not counted. -/
theorem counts_all_false : ¬ CountsAll := by
  intro h
  obtain ⟨st, h1, h2, -⟩ := h (fun _ _ => false) (fun _ => 0) [.start, .query (str "a.com") .udp, .stop]
  have e : (run (fun _ _ => false) (State.init (fun _ => 0)) [.start, .query (str "a.com") .udp, .stop]).map State.rows = some [] := by decide +kernel
  rw [h1, Option.map_some, h2] at e
  exact absurd e (by decide +kernel)

/-- C87 is false also between pages: after one query for the name `*`, whoever asks for it, no other new name appears,
and none of their queries is counted anywhere on the page. -/
theorem star_swallows (fnm : List Byte → List Byte → Bool) (hash : List Byte → UInt32) (t u : Kind) (d : List Byte)
    (hf : fnm [42] d = true) :
    ∃ st, run fnm (State.init hash) [.query [42] t, .query d u] = some st ∧ st.rows = [] ∧ st.sum = some Info.zero := by
  have h5 : add fnm (State.init hash) [42] t = some ⟨(StringChunk.init hash).add [42] (some 0), [Info.unit t], false⟩ := by
    rcases match_eq fnm (inv_init hash) [42] with ⟨-, h⟩ | ⟨k, h, -⟩
    · unfold add
      rw [if_neg (by simp [State.init]), h]
      rfl
    · simp [names] at h
  have h2 : ((StringChunk.init hash).add [42] (some 0)).match_ fnm d (hash d) (fun _ => true) = some (some 0) := by
    have hm : ((StringChunk.init hash).add [42] (some 0) : StringChunk.Chunk Nat).matchNoWild d (hash d) (fun _ => true) = none := by
      have hg := StringChunk.good_add (StringChunk.good_init (δ := Nat) hash) [42] (some 0)
      have := StringChunk.matchNoWild_eq hg d (fun _ => true)
      rw [StringChunk.add_hash] at this
      exact this
    unfold StringChunk.Chunk.match_
    rw [hm]
    show (([⟨[42], some 0⟩] : List (StringChunk.Entry Nat)).find? _).map _ = _
    simp [hf]
  have h3 : ∃ i, (Info.unit t).plus (Info.unit u) = some i := by cases t <;> cases u <;> exact ⟨_, rfl⟩
  obtain ⟨i, h3⟩ := h3
  refine ⟨⟨(StringChunk.init hash).add [42] (some 0), [i], false⟩, ?_, rfl, rfl⟩
  have h4 : add fnm ⟨(StringChunk.init hash).add [42] (some 0), [Info.unit t], false⟩ d u =
      some ⟨(StringChunk.init hash).add [42] (some 0), [i], false⟩ := by
    unfold add
    rw [if_neg (by simp)]
    show (match ((StringChunk.init hash).add [42] (some 0)).match_ fnm d (hash d) (fun _ => true) with
      | none => _ | some none => _ | some (some k) => _) = _
    rw [h2]
    simp [h3]
  show (match add fnm (State.init hash) [42] t with | none => none | some st => run fnm st [.query d u]) = _
  rw [h5]
  simp only [run, step, h4]

/-- C87 is false also for a single name: the counters overflow. -/
theorem counter_overflows (fnm : List Byte → List Byte → Bool) (hash : List Byte → UInt32) (d : List Byte) (hd : Plain d) (n : Nat) (hn : 2147483648 ≤ n) :
    run fnm (State.init hash) (List.replicate n (.query d .udp)) = none := by
  have hc : ∀ n, counted false (List.replicate n (.query d .udp)) = List.replicate n (d, .udp) := by
    intro n
    induction n with
    | zero => rfl
    | succ n ih => rw [List.replicate_succ, List.replicate_succ, ← ih]; rfl
  cases hr : run fnm (State.init hash) (List.replicate n (.query d .udp)) with
  | none => rfl
  | some st =>
    have hi := (inv_run fnm _ (inv_init hash) (by
      intro e he
      rw [show (State.init hash).skip = false from rfl, hc] at he
      rw [(List.mem_replicate.1 he).2]; exact hd)).1 st hr
    rw [show (State.init hash).skip = false from rfl, hc, List.nil_append] at hi
    have hmem : d ∈ names (List.replicate n (d, Kind.udp)) := by
      rw [hi.mem, List.map_replicate]
      exact List.mem_replicate.2 ⟨by omega, rfl⟩
    have hin : tally ((List.replicate n (d, Kind.udp)).filter (fun e => e.1 = d)) ∈ st.infos := by
      rw [hi.infos]
      exact List.mem_map.2 ⟨d, hmem, rfl⟩
    have hf := (hi.fits _ hin).1
    have he : (List.replicate n (d, Kind.udp)).filter (fun e => e.1 = d) = List.replicate n (d, Kind.udp) := by
      rw [List.filter_replicate]; simp
    rw [he] at hf
    have : (tally (List.replicate n (d, Kind.udp))).count = n := by
      show List.countP _ _ = _
      rw [List.countP_replicate]; simp
    omega

/-- C87, proved part: of the queries for names without `*`, `?` and `[` made while no page is being written, if there
are less than 2^31, each is counted once, for its own name and its own kind; names come in the order of their first
appearance; the sums are those of all of them. -/
theorem counts_partial (fnm : List Byte → List Byte → Bool) (hash : List Byte → UInt32) (es : List Ev)
    (hp : ∀ e ∈ counted false es, Plain e.1) (hl : (counted false es).length < 2147483648) :
    ∃ st, run fnm (State.init hash) es = some st ∧ st.rows = wantRows (counted false es) ∧ st.sum = some (tally (counted false es)) := by
  have h := inv_run fnm es (inv_init hash) hp
  rw [List.nil_append] at h
  obtain ⟨st, h1⟩ := h.2 hl
  exact ⟨st, h1, rows_eq (h.1 st h1), sum_eq (h.1 st h1) hl⟩

example : (run (fun _ _ => true) (State.init bkdrHash) [.query (str "a.com") .udp, .query (str "b.com") .cache, .start, .query (str "c.com") .tcp, .stop,
      .query (str "a.com") .blocked, .query (str "a.com") .refused, .query (str "b.com") .cache]).map (fun st => (st.rows, st.sum)) =
    some ([(str "a.com", ⟨2, 1, 0, 0, 1, 0, 1⟩), (str "b.com", ⟨2, 0, 0, 2, 0, 0, 0⟩)], some ⟨4, 1, 0, 2, 1, 0, 1⟩) := by decide +kernel

/-- C88: the rows on the page say what the names and numbers are. -/
def PageFaithful : Prop := ∀ rs rs' : List (List Byte × Info), rowsText rs = rowsText rs' → rs = rs'

/-- A name with a row inside. -/
def trickName : List Byte := str "a\",Total:1,RaF:0,Hosts:0,Cache:0,UDP:1,TCP:0,BlockedMsg:0},{Domain:\"b"

/-- C88 is false: a name (of less than 255 bytes, as any client can send it) is written as it is, quotation marks
included, so that one query makes the page of two. -/
theorem page_faithful_false : ¬ PageFaithful := by
  intro h
  have := h [(trickName, ⟨1, 0, 0, 0, 1, 0, 0⟩)] [(str "a", ⟨1, 0, 0, 0, 1, 0, 0⟩), (str "b", ⟨1, 0, 0, 0, 1, 0, 0⟩)] (by decide +kernel)
  simp at this

example : trickName.length < 255 := by decide +kernel

/-- C88, proved part: each row gives each of its numbers under its own heading, the rows follow each other, and without
quotation marks in the names the page determines names and numbers. -/
theorem page_faithful_partial : (∀ rs, ∃ ts : List (List Byte), rowsText rs = ts.flatten ∧ ts.length = rs.length ∧ ∀ (k : Nat) t r, ts[k]? = some t → rs[k]? = some r → RowSays t r.1 r.2) ∧
    ∀ rs rs' : List (List Byte × Info), (∀ r ∈ rs ++ rs', (34 : Byte) ∉ r.1) → rowsText rs = rowsText rs' → rs = rs' := by
  refine ⟨fun rs => ⟨rs.map rowText, rfl, by simp, ?_⟩, fun rs rs' h he =>
    rowsText_inj (fun r hr => h r (by simp [hr])) (fun r hr => h r (by simp [hr])) he⟩
  intro k t r ht hr
  rw [List.getElem?_map, hr] at ht
  cases ht
  exact rowText_says r

example : rowsText [(str "a.com", ⟨2, 1, 0, 0, 1, 0, 12⟩)] =
    str "{Domain:\"a.com\",Total:2,RaF:1,Hosts:0,Cache:0,UDP:1,TCP:0,BlockedMsg:12}," := by decide +kernel

end Verif.Statistic
