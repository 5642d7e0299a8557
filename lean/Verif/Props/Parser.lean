import Verif.Lemmas.Parser
/-! C05, C06: walking the records of a message. -/

namespace Verif.Parser
open Name Message

/-! ### C05 -/

/-- The section the `n`-th record (counting from 1) of a message belongs to, by the header counts. -/
def sectionOf (qd an ns ar n : Nat) : Purpose :=
  if n = 0 then .unknown
  else if n ≤ qd then .question
  else if n ≤ qd + an then .answer
  else if n ≤ qd + an + ns then .nameServer
  else if n ≤ qd + an + ns + ar then .additional
  else .unknown

/-- C05 for the attribution by number: right for every message with a question. -/
theorem purpose_correct (c : Counts) (hq : 0 < c.qd) (n : Nat) :
    determinePurpose c n = sectionOf c.qd c.an c.ns c.ar n := by
  have hw : ∀ f k n, within f k n = true ↔ f ≠ 0 ∧ f ≤ n ∧ n < f + k := by
    intro f k n; unfold within; rw [decide_eq_true_iff]; omega
  have h1 : c.qFirst = 1 := by unfold Counts.qFirst; rw [if_neg (by omega)]
  have e1 : within c.qFirst c.qd n = true ↔ 0 < n ∧ n ≤ c.qd := by rw [hw, h1]; omega
  have e2 : within c.anFirst c.an n = true ↔ c.qd < n ∧ n ≤ c.qd + c.an := by
    rw [hw]; unfold Counts.anFirst; rw [h1]; split <;> omega
  have e3 : within c.nsFirst c.ns n = true ↔ c.qd + c.an < n ∧ n ≤ c.qd + c.an + c.ns := by
    rw [hw]; unfold Counts.nsFirst; rw [h1]; split <;> omega
  have e4 : within c.arFirst c.ar n = true ↔
      c.qd + c.an + c.ns < n ∧ n ≤ c.qd + c.an + c.ns + c.ar := by
    rw [hw]; unfold Counts.arFirst; rw [h1]; split <;> omega
  unfold determinePurpose sectionOf
  simp only [e1, e2, e3, e4]
  by_cases n0 : n = 0
  · subst n0; simp
  by_cases a1 : n ≤ c.qd
  · rw [if_pos (by omega), if_neg n0, if_pos a1]
  rw [if_neg (by omega), if_neg n0, if_neg a1]
  by_cases a2 : n ≤ c.qd + c.an
  · rw [if_pos (by omega), if_pos a2]
  rw [if_neg (by omega), if_neg a2]
  by_cases a3 : n ≤ c.qd + c.an + c.ns
  · rw [if_pos (by omega), if_pos a3]
  rw [if_neg (by omega), if_neg a3]
  by_cases a4 : n ≤ c.qd + c.an + c.ns + c.ar
  · rw [if_pos (by omega), if_pos a4]
  rw [if_neg (by omega), if_neg a4]

/-- What a walk reports for one record. -/
structure Seen where
  section_ : Purpose
  start : Nat
  type : Nat
  klass : Nat
  dataLength : Option Nat
deriving DecidableEq, Repr

/-- The iterator's report of the record it stands on (no data length for questions). -/
def Itr.seen (it : Itr) : Option Seen :=
  it.pos.map (fun p => ⟨it.purpose, p, it.type, it.klass,
    if it.purpose = .question then none else some it.dataLen⟩)

/-- What a walk of consecutive records starting at offset `p` should report. -/
def questionsAt (p : Nat) : List Question → List Seen
  | [] => []
  | q :: l => ⟨.question, p, q.type, q.klass, none⟩ :: questionsAt (p + q.bytes.length) l

def recordsAt (s : Purpose) (p : Nat) : List RR → List Seen
  | [] => []
  | r :: l => ⟨s, p, r.type, r.klass, some r.rdata.length⟩ :: recordsAt s (p + r.bytes.length) l

/-- What a walk of the whole message should report: every record once, in order, at its place. -/
def report (m : Msg) : List Seen :=
  questionsAt 12 m.qs ++
  (recordsAt .answer (12 + (qBytes m.qs).length) m.an ++
  (recordsAt .nameServer (12 + (qBytes m.qs).length + (rrBytes m.an).length) m.ns ++
   recordsAt .additional (12 + (qBytes m.qs).length + (rrBytes m.an).length + (rrBytes m.ns).length) m.ar))

/-- C05, the full claim: walking any well-formed message, whatever lies behind it in memory, reports
exactly its records. -/
def WalkExact : Prop := ∀ (m : Msg) (post : List Byte) (len fuel : Nat), m.Valid →
  m.bytes.length ≤ len → m.qs.length + m.an.length + m.ns.length + m.ar.length < fuel →
  ∃ c, counts (m.bytes ++ post) = some c ∧
    (visits (m.bytes ++ post) len c fuel Itr.init).map Itr.seen = (report m).map some

def rrEx (t : Nat) : RR := ⟨[0], t, 1, 60, [1, 2, 3, 4]⟩

theorem rrEx_valid (t : Nat) (h0 : 0 < t) (h : t < 65536) : (rrEx t).Valid :=
  ⟨.root, h0, h, by simp [rrEx], by simp [rrEx], by simp [rrEx], by simp [rrEx]⟩

/-- C05 is false of the code for messages without a question: here the first answer is reported as an
authority record and the walk stops behind it. -/
theorem walk_exact_false : ¬ WalkExact := by
  intro h
  obtain ⟨c, hc, hv⟩ := h ⟨[0, 0, 0, 0], [], [rrEx 1], [rrEx 2], []⟩ [] 42 3
    ⟨rfl, by simp, by simpa using rrEx_valid 1 (by omega) (by omega),
      by simpa using rrEx_valid 2 (by omega) (by omega), by simp, by simp, by simp, by simp, by simp⟩
    (by decide +kernel) (by decide +kernel)
  have hc' : c = ⟨0, 1, 1, 0⟩ := by
    have : counts ((⟨[0, 0, 0, 0], [], [rrEx 1], [rrEx 2], []⟩ : Msg).bytes ++ []) =
      some ⟨0, 1, 1, 0⟩ := by decide +kernel
    rw [this] at hc; exact (Option.some.inj hc).symm
  subst hc'
  revert hv
  decide +kernel

theorem getElem_map_pu (l : List RR) (pu : Purpose) (i : Nat) (h : i < (l.map (rItem pu)).length) :
    (l.map (rItem pu))[i].pu = pu := by simp [rItem]

theorem items_purpose (m : Msg) (hq : 0 < m.qs.length) (i : Nat) (h : i < (items m).length) :
    determinePurpose (Msg.counts m) (1 + i) = (items m)[i].pu := by
  have hpc : determinePurpose (Msg.counts m) (1 + i) =
      sectionOf m.qs.length m.an.length m.ns.length m.ar.length (1 + i) := purpose_correct _ hq _
  rw [hpc]
  revert h
  unfold items
  intro h
  simp only [List.getElem_append]
  unfold sectionOf
  have hi : i < m.qs.length + m.an.length + m.ns.length + m.ar.length := by simp at h; omega
  rw [if_neg (by omega)]
  by_cases a1 : 1 + i ≤ m.qs.length
  · rw [if_pos a1, dif_pos (by simp; omega)]; simp [qItem]
  rw [if_neg a1, dif_neg (by simp; omega)]
  by_cases a2 : 1 + i ≤ m.qs.length + m.an.length
  · rw [if_pos a2, dif_pos (by simp; omega)]; simp [rItem]
  rw [if_neg a2, dif_neg (by simp; omega)]
  by_cases a3 : 1 + i ≤ m.qs.length + m.an.length + m.ns.length
  · rw [if_pos a3, dif_pos (by simp; omega)]; simp [rItem]
  rw [if_neg a3, dif_neg (by simp; omega), if_pos (by omega)]; simp [rItem]

theorem expect_append (xs ys : List Item) (d p n : Nat) :
    ∃ d', expect d p n (xs ++ ys) =
      expect d p n xs ++ expect d' (p + ((xs.map Item.bytes).flatten).length) (n + xs.length) ys := by
  induction xs generalizing d p n with
  | nil => exact ⟨d, by simp [expect]⟩
  | cons x xs ih =>
    obtain ⟨d', h⟩ := ih (x.itr d p n).dataLen (p + x.bytes.length) (n + 1)
    refine ⟨d', ?_⟩
    simp only [List.cons_append, expect, h, List.map_cons, List.flatten_cons, List.length_append,
      List.length_cons]
    congr 3 <;> omega

theorem expect_questions (l : List Question) (d p n : Nat) :
    (expect d p n (l.map qItem)).map Itr.seen = (questionsAt p l).map some := by
  induction l generalizing d p n with
  | nil => rfl
  | cons q l ih =>
    simp only [List.map_cons, expect, questionsAt, qItem_bytes, ih]
    simp [Itr.seen, Item.itr, qItem]

theorem expect_records (l : List RR) (pu : Purpose) (hpu : pu ≠ .question) (d p n : Nat) :
    (expect d p n (l.map (rItem pu))).map Itr.seen = (recordsAt pu p l).map some := by
  induction l generalizing d p n with
  | nil => rfl
  | cons q l ih =>
    simp only [List.map_cons, expect, recordsAt, rItem_bytes, ih]
    simp [Itr.seen, Item.itr, rItem, hpu]

theorem flatten_q (l : List Question) : (((l.map qItem).map Item.bytes).flatten) = qBytes l := by
  unfold qBytes; rw [List.map_map]; rw [show (Item.bytes ∘ qItem) = Question.bytes from funext qItem_bytes]
theorem flatten_r (pu : Purpose) (l : List RR) :
    (((l.map (rItem pu)).map Item.bytes).flatten) = rrBytes l := by
  unfold rrBytes; rw [List.map_map]; rw [show (Item.bytes ∘ rItem pu) = RR.bytes from funext (rItem_bytes pu)]

theorem visits_msg (m : Msg) (post : List Byte) (len fuel : Nat) (hm : m.Valid)
    (hlen : m.bytes.length ≤ len) (hq : m.qs ≠ [])
    (hf : m.qs.length + m.an.length + m.ns.length + m.ar.length < fuel) :
    visits (m.bytes ++ post) len (Msg.counts m) fuel Itr.init = expect 0 12 1 (items m) := by
  have hq' : 0 < m.qs.length := List.length_pos_iff.mpr hq
  have h12 : m.header.length = 12 := by
    simp [Msg.header, hm.head, u16_length]
  have hall : (Msg.counts m).all = m.qs.length + m.an.length + m.ns.length + m.ar.length := rfl
  have hil := items_length m
  have := visits_items (b := m.bytes ++ post) (len := len) (c := Msg.counts m) (items m)
    (pre := m.header) (post := post) (it := Itr.init) (n := 1) (fuel := fuel) (items_ok hm)
    (by rw [items_bytes]; simp [Msg.bytes])
    (by rw [items_bytes]; simpa [Msg.bytes] using hlen) (items_purpose m hq') (by omega)
    (by rw [hil, hall]; exact hf)
    (by
      have hne : items m ≠ [] := by intro h; rw [h] at hil; simp at hil; omega
      rw [if_neg hne, h12]; rfl)
  rw [this, h12]; rfl

/-- C05, partial: every well-formed message with at least one question is walked exactly.  Missing:
messages without a question (`walk_exact_false`). -/
theorem walk_exact_partial (m : Msg) (post : List Byte) (len fuel : Nat) (hm : m.Valid)
    (hlen : m.bytes.length ≤ len) (hq : m.qs ≠ [])
    (hf : m.qs.length + m.an.length + m.ns.length + m.ar.length < fuel) :
    ∃ c, counts (m.bytes ++ post) = some c ∧
      (visits (m.bytes ++ post) len c fuel Itr.init).map Itr.seen = (report m).map some := by
  refine ⟨Msg.counts m, counts_eq hm post, ?_⟩
  rw [visits_msg m post len fuel hm hlen hq hf]
  unfold items report
  obtain ⟨d1, h1⟩ := expect_append (m.qs.map qItem) (m.an.map (rItem .answer) ++
    (m.ns.map (rItem .nameServer) ++ m.ar.map (rItem .additional))) 0 12 1
  obtain ⟨d2, h2⟩ := expect_append (m.an.map (rItem .answer))
    (m.ns.map (rItem .nameServer) ++ m.ar.map (rItem .additional)) d1
    (12 + (qBytes m.qs).length) (1 + (m.qs.map qItem).length)
  obtain ⟨d3, h3⟩ := expect_append (m.ns.map (rItem .nameServer)) (m.ar.map (rItem .additional)) d2
    (12 + (qBytes m.qs).length + (rrBytes m.an).length)
    (1 + (m.qs.map qItem).length + (m.an.map (rItem .answer)).length)
  rw [h1, flatten_q, h2, flatten_r, h3, flatten_r]
  simp only [List.map_append, expect_questions, expect_records _ Purpose.answer (by simp),
    expect_records _ Purpose.nameServer (by simp), expect_records _ Purpose.additional (by simp)]

/-- The name at a visited record decodes as RFC 1035 says; with C01 this gives the owner. -/
example : (visits ((⟨[0, 1, 0x81, 0x80], [⟨[1, 97, 0], 1, 1⟩], [⟨[0xC0, 12], 1, 1, 300, [1, 2, 3, 4]⟩], [],
      [⟨[0], 41, 1280, 0, []⟩]⟩ : Msg).bytes) 46 ⟨1, 1, 0, 1⟩ 9 Itr.init).map Itr.seen =
    [some ⟨.question, 12, 1, 1, none⟩, some ⟨.answer, 19, 1, 1, some 4⟩,
     some ⟨.additional, 35, 41, 1280, some 0⟩] := by decide +kernel

example : (⟨[0, 1, 0x81, 0x80], [⟨[1, 97, 0], 1, 1⟩], [⟨[0xC0, 12], 1, 1, 300, [1, 2, 3, 4]⟩], [],
      [⟨[0], 41, 1280, 0, []⟩]⟩ : Msg).Valid :=
  ⟨rfl, by simpa using ⟨.label [97] [0] (by simp) (by simp) .root, by simp, by simp, by simp, by simp⟩,
    by simpa using ⟨.pointer 0xC0 12 (by decide), by simp, by simp, by simp, by simp, by simp, by simp⟩,
    by simp, by simpa using ⟨.root, by simp, by simp, by simp, by simp, by simp, by simp⟩,
    by simp, by simp, by simp, by simp⟩

/-! ### C06 -/

theorem look_some {b : List Byte} {len : Nat} {c : Counts} {it it' : Itr} {p n q : Nat}
    (h : look b len c it p n = some (it', some q)) :
    n ≤ c.all ∧ p ≤ len ∧ it'.pos = some p ∧ it'.num = n ∧ q = p := by
  unfold look at h
  split at h
  · simp at h
  · rename_i hc
    split at h
    · simp at h
    · split at h
      · simp only at h
        split at h
        · split at h
          · split at h
            · simp at h
            · simp only [Option.some.injEq, Prod.mk.injEq] at h
              obtain ⟨rfl, rfl⟩ := h
              exact ⟨by omega, by omega, rfl, rfl, rfl⟩
          · simp only [Option.some.injEq, Prod.mk.injEq] at h
            obtain ⟨rfl, rfl⟩ := h
            exact ⟨by omega, by omega, rfl, rfl, rfl⟩
        · simp at h
      · simp at h

theorem next_some {b : List Byte} {len : Nat} {c : Counts} {it it' : Itr} {q : Nat}
    (h : next b len c it = some (it', some q)) :
    it'.pos = some q ∧ q ≤ len ∧ it'.num ≤ c.all ∧
    (it.pos = none → it'.num = 1 ∧ q = 12) ∧
    (∀ p, it.pos = some p → it'.num = it.num + 1 ∧ p < q) := by
  unfold next at h
  split at h
  · rename_i hp
    obtain ⟨h1, h2, h3, h4, h5⟩ := look_some h
    exact ⟨by rw [h5]; exact h3, by omega, by omega, fun _ => ⟨h4, h5⟩, fun p hp' => by
      rw [hp] at hp'; simp at hp'⟩
  · rename_i p hp
    split at h
    · split at h
      · simp at h
      · obtain ⟨h1, h2, h3, h4, h5⟩ := look_some h
        refine ⟨by rw [h5]; exact h3, by omega, by omega, fun hn => by rw [hp] at hn; simp at hn, ?_⟩
        intro p' hp'
        rw [hp] at hp'; simp at hp'; subst hp'
        refine ⟨h4, ?_⟩
        rw [h5]; split <;> omega
    · simp at h

theorem visits_inv {b : List Byte} {len : Nat} {c : Counts} (fuel : Nat) (it : Itr) (p : Nat)
    (hp : it.pos = some p) :
    (visits b len c fuel it).length ≤ c.all - it.num ∧
    (∀ x ∈ visits b len c fuel it, ∃ q, x.pos = some q ∧ p < q ∧ q ≤ len) ∧
    (visits b len c fuel it).Pairwise (fun x y => ∀ q r, x.pos = some q → y.pos = some r → q < r) := by
  induction fuel generalizing it p with
  | zero => simp [visits]
  | succ f ih =>
    unfold visits
    split
    · rename_i it' q hn
      obtain ⟨h1, h2, h3, _, h5⟩ := next_some hn
      obtain ⟨h6, h7⟩ := h5 p hp
      obtain ⟨i1, i2, i3⟩ := ih it' q h1
      refine ⟨by simp; omega, ?_, ?_⟩
      · intro x hx
        rcases List.mem_cons.mp hx with rfl | hx
        · exact ⟨q, h1, h7, h2⟩
        · obtain ⟨r, hr1, hr2, hr3⟩ := i2 x hx
          exact ⟨r, hr1, by omega, hr3⟩
      · rw [List.pairwise_cons]
        refine ⟨?_, i3⟩
        intro y hy q' r hq' hr
        obtain ⟨r', hr1, hr2, _⟩ := i2 y hy
        rw [h1] at hq'; rw [hr1] at hr
        simp at hq' hr; omega
    · simp

/-- C06, the full claim: a walk of any received bytes visits at most the announced number of records,
each starting inside the message, never the same place twice. -/
def WalkInside : Prop := ∀ (b : List Byte) (len : Nat) (c : Counts) (fuel : Nat), 12 ≤ len →
  counts b = some c →
  (visits b len c fuel Itr.init).length ≤ c.qd + c.an + c.ns + c.ar ∧
  ∀ x ∈ visits b len c fuel Itr.init, ∃ q, x.pos = some q ∧ 12 ≤ q ∧ q < len

/-- C06 is false of the code: a message of only a header announcing one question is given the bytes
behind it as its question. -/
theorem walk_inside_false : ¬ WalkInside := by
  intro h
  have := (h [0, 0, 0, 0, 0, 1, 0, 0, 0, 0, 0, 0, 1, 97, 0, 0, 1, 0, 1] 12 ⟨1, 0, 0, 0⟩ 1 (by omega)
    (by decide +kernel)).2 ⟨some 12, 1, .question, 1, 1, 0⟩ (by decide +kernel)
  obtain ⟨q, h1, _, h2⟩ := this
  simp at h1; omega

/-- C06, partial: at most the announced number of records; every visited record starts in the message
or directly behind its last byte; the starts are strictly increasing.  Missing: the record starting
directly behind the last byte, and that records lie wholly inside. -/
theorem walk_inside_partial (b : List Byte) (len : Nat) (c : Counts) (fuel : Nat) :
    (visits b len c fuel Itr.init).length ≤ c.qd + c.an + c.ns + c.ar ∧
    (∀ x ∈ visits b len c fuel Itr.init, ∃ q, x.pos = some q ∧ 12 ≤ q ∧ q ≤ len) ∧
    (visits b len c fuel Itr.init).Pairwise
      (fun x y => ∀ q r, x.pos = some q → y.pos = some r → q < r) := by
  cases fuel with
  | zero => simp [visits]
  | succ f =>
    unfold visits
    split
    · rename_i it' q hn
      obtain ⟨h1, h2, h3, h4, _⟩ := next_some hn
      obtain ⟨h5, h6⟩ := h4 rfl
      obtain ⟨i1, i2, i3⟩ := visits_inv (b := b) (len := len) (c := c) f it' q h1
      unfold Counts.all at *
      refine ⟨by simp; omega, ?_, ?_⟩
      · intro x hx
        rcases List.mem_cons.mp hx with rfl | hx
        · exact ⟨q, h1, by omega, h2⟩
        · obtain ⟨r, hr1, hr2, hr3⟩ := i2 x hx
          exact ⟨r, hr1, by omega, hr3⟩
      · rw [List.pairwise_cons]
        refine ⟨?_, i3⟩
        intro y hy q' r hq' hr
        obtain ⟨r', hr1, hr2, _⟩ := i2 y hy
        rw [h1] at hq'; rw [hr1] at hr
        simp at hq' hr; omega
    · simp

/-- Non-vacuity: a message announcing three records but truncated behind the first. -/
example : (visits ([0, 0, 0, 0, 0, 1, 0, 2, 0, 0, 0, 0, 1, 97, 0, 0, 1, 0, 1, 0xC0, 12, 0, 1, 0, 1, 0, 0, 0, 0,
    0xFF, 0xFF, 0, 0, 0]) 31 ⟨1, 2, 0, 0⟩ 9 Itr.init).length = 2 := by decide +kernel

end Verif.Parser
