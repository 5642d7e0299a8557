import Verif.Lemmas.Generator
import Verif.Lemmas.ParserWalk
import Verif.Props.Parser
import Verif.Props.Name
/-! C07, C08, C09: building replies. -/

namespace Verif.Generator
open Name Parser Message

/-- Appending a record of each kind, with the names given as text. -/
def append (g : Gen) : Rec → Option (Int × Gen)
  | .a o addr ttl => some (addA g (text o) addr ttl)
  | .aaaa o addr ttl => some (addAAAA g (text o) addr ttl)
  | .raw o t k d ttl => rawData g (text o) t k d ttl
  | .alias o tgt ttl => some (cname g (text o) (text tgt) ttl)
  | .mx o p tgt ttl => some (mx g (text o) p (text tgt) ttl)
  | .edns p => some (edns g p)

/-- The generator `g` holds exactly the message `m` and is filling section `s`. -/
structure Holds (g : Gen) (m : Msg) (s : Purpose) : Prop where
  out : g.out = m.bytes
  valid : m.Valid
  sect : purposeOf g.num = s
  isOpen : m.OpenAt s
  room : g.out.length ≤ g.cap

/-- The fields each append writes. -/
def fields : Rec → List (Int × List Byte)
  | .a o addr ttl => [(-1, labelize (text o)), (-2, set16 1), (-3, set16 1), (-4, set32 ttl),
    (-5, set16 4), (-6, addr)]
  | .aaaa o addr ttl => [(-1, labelize (text o)), (-2, set16 28), (-3, set16 1), (-4, set32 ttl),
    (-5, set16 16), (-6, addr)]
  | .raw o t k d ttl => [(-1, labelize (text o)), (-2, set16 t), (-3, set16 k), (-4, set32 ttl),
      (-5, set16 d.length)]
  | .alias o tgt ttl => [(-1, labelize (text o)), (-2, set16 5), (-3, set16 1), (-4, set32 ttl),
    (-5, set16 (labelLength (text tgt))), (-6, labelize (text tgt))]
  | .mx o p tgt ttl => [(-1, labelize (text o)), (-2, set16 15), (-3, set16 1), (-4, set32 ttl),
    (-5, set16 (labelLength (text tgt) + 2)), (-6, set16 p), (-7, labelize (text tgt))]
  | .edns p => [(-1, labelize []), (-2, set16 41), (-3, set16 p), (-4, set32 0),
    (-5, set16 0)]

theorem fields_codes (r : Rec) : ∀ f ∈ fields r, f.1 ≠ 0 := by
  cases r <;> simp [fields]

/-- The data part that is written without a check. -/
def unchecked : Rec → List Byte
  | .raw _ _ _ d _ => d
  | _ => []

theorem fields_bytes {r : Rec} (h : r.Valid) : total (fields r) ++ unchecked r = r.rr.bytes := by
  cases r with
  | a o addr ttl =>
    obtain ⟨h1, h2, h3⟩ := h
    simp [fields, total, unchecked, Rec.rr, RR.bytes, labelize_text h1, set16_eq, set32_eq, h2]
  | aaaa o addr ttl =>
    obtain ⟨h1, h2, h3⟩ := h
    simp [fields, total, unchecked, Rec.rr, RR.bytes, labelize_text h1, set16_eq, set32_eq, h2]
  | raw o t k d ttl =>
    obtain ⟨h1, _⟩ := h
    simp [fields, total, unchecked, Rec.rr, RR.bytes, labelize_text h1, set16_eq, set32_eq]
  | alias o tgt ttl =>
    obtain ⟨h1, h2, _⟩ := h
    simp [fields, total, unchecked, Rec.rr, RR.bytes, labelize_text h1, set16_eq, set32_eq,
      ← labelize_length, labelize_pieces h2]
  | mx o p tgt ttl =>
    obtain ⟨h1, h2, _⟩ := h
    have : (wire tgt).length + 2 = (u16 p).length + (wire tgt).length := by simp [u16_length]; omega
    simp [fields, total, unchecked, Rec.rr, RR.bytes, labelize_text h1, set16_eq, set32_eq,
      ← labelize_length, labelize_text h2, this]
  | edns p => simp [fields, total, unchecked, Rec.rr, RR.bytes, labelize, set16_eq, set32_eq]

theorem rr_valid {r : Rec} (h : r.Valid) : r.rr.Valid := by
  cases r with
  | a o addr ttl =>
    obtain ⟨h1, h2, h3⟩ := h
    exact ⟨wireName_wire h1, by simp [Rec.rr], by simp [Rec.rr], by simp [Rec.rr], by simp [Rec.rr],
      h3, by simp [Rec.rr, h2]⟩
  | aaaa o addr ttl =>
    obtain ⟨h1, h2, h3⟩ := h
    exact ⟨wireName_wire h1, by simp [Rec.rr], by simp [Rec.rr], by simp [Rec.rr], by simp [Rec.rr],
      h3, by simp [Rec.rr, h2]⟩
  | raw o t k d ttl =>
    obtain ⟨h1, h2, h3, h4, h5, h6, h7, h8⟩ := h
    exact ⟨wireName_wire h1, h2, h3, h4, h5, h8, h7⟩
  | alias o tgt ttl =>
    obtain ⟨h1, h2, h3, h4⟩ := h
    exact ⟨wireName_wire h1, by simp [Rec.rr], by simp [Rec.rr], by simp [Rec.rr], by simp [Rec.rr],
      h4, h3⟩
  | mx o p tgt ttl =>
    obtain ⟨h1, h2, h3, h4, h5⟩ := h
    exact ⟨wireName_wire h1, by simp [Rec.rr], by simp [Rec.rr], by simp [Rec.rr], by simp [Rec.rr],
      h5, by simp [Rec.rr, u16_length]; omega⟩
  | edns p =>
    obtain ⟨h1, h2⟩ := h
    exact ⟨.root, by simp [Rec.rr], by simp [Rec.rr], h1, h2, by simp [Rec.rr], by simp [Rec.rr]⟩

theorem recordSection_iff (g : Gen) : recordSection g = true ↔
    purposeOf g.num = .answer ∨ purposeOf g.num = .nameServer ∨ purposeOf g.num = .additional := by
  unfold recordSection; exact decide_eq_true_iff

/-- Every append is its fields, then for raw data the unchecked copy, then the count. -/
theorem append_eq {g : Gen} {r : Rec} (hv : r.Valid) (hf : r.Fits (purposeOf g.num)) :
    append g r =
      if (writes g (fields r)).1 ≠ 0 then some (writes g (fields r))
      else if (writes g (fields r)).2.out.length + (unchecked r).length ≤ (writes g (fields r)).2.cap ∨
          unchecked r = [] then
        some (0, bump { (writes g (fields r)).2 with out := (writes g (fields r)).2.out ++ unchecked r })
      else none := by
  have key : ∀ w : Int × Gen, some (counted w) =
      if w.1 ≠ 0 then some w
      else if w.2.out.length + ([] : List Byte).length ≤ w.2.cap ∨ ([] : List Byte) = [] then
        some (0, bump { w.2 with out := w.2.out ++ [] }) else none := by
    intro w
    by_cases hw : w.1 = 0
    · simp [counted, hw]
    · simp [counted, hw]
  cases r with
  | a o addr ttl =>
    have hs := (recordSection_iff g).mpr hf
    simp only [append, addA, hs, not_true, if_false]
    exact key _
  | aaaa o addr ttl =>
    have hs := (recordSection_iff g).mpr hf
    simp only [append, addAAAA, hs, not_true, if_false]
    exact key _
  | alias o tgt ttl =>
    have hs := (recordSection_iff g).mpr hf
    simp only [append, cname, hs, not_true, if_false]
    exact key _
  | mx o p tgt ttl =>
    have hs := (recordSection_iff g).mpr hf
    simp only [append, mx, hs, not_true, if_false]
    exact key _
  | edns p =>
    have hs : purposeOf g.num = .additional := hf
    simp only [append, edns, hs, ne_eq, not_true, if_false]
    exact key _
  | raw o t k d ttl =>
    have hs := (recordSection_iff g).mpr hf
    have hd : d ≠ [] := hv.2.2.2.2.2.1
    have hd' : ¬ d.length = 0 := by simpa using hd
    simp only [append, rawData, hs, not_true, if_false, hd', unchecked, hd, or_false, fields]

theorem add_valid {m : Msg} {s : Purpose} {r : RR} (hm : m.Valid) (hr : r.Valid)
    (hc : m.count s < 65535) : (m.add s r).Valid := by
  obtain ⟨h1, h2, h3, h4, h5, h6, h7, h8, h9⟩ := hm
  cases s <;> simp only [Msg.add, Msg.count] at *
  case answer =>
    exact ⟨h1, h2, by intro x hx; rcases List.mem_append.mp hx with h | h; exact h3 x h; simp at h; exact h ▸ hr,
      h4, h5, h6, by simp; omega, h8, h9⟩
  case nameServer =>
    exact ⟨h1, h2, h3, by intro x hx; rcases List.mem_append.mp hx with h | h; exact h4 x h; simp at h; exact h ▸ hr,
      h5, h6, h7, by simp; omega, h9⟩
  case additional =>
    exact ⟨h1, h2, h3, h4, by intro x hx; rcases List.mem_append.mp hx with h | h; exact h5 x h; simp at h; exact h ▸ hr,
      h6, h7, h8, by simp; omega⟩
  all_goals exact ⟨h1, h2, h3, h4, h5, h6, h7, h8, h9⟩

theorem fits_ne_question {r : Rec} {s : Purpose} (h : r.Fits s) : s ≠ .question := by
  intro hs; subst hs; cases r <;> simp [Rec.Fits] at h

theorem add_bytes_length {m : Msg} {s : Purpose} {r : RR} (h : s = .answer ∨ s = .nameServer ∨ s = .additional) :
    (m.add s r).bytes.length = m.bytes.length + r.bytes.length := by
  rcases h with rfl | rfl | rfl <;>
    simp only [Msg.add, Msg.bytes, Msg.header, Msg.body, rrBytes_append, List.length_append, u16_length] <;>
    simp [rrBytes] <;> omega

theorem fits_section {r : Rec} {s : Purpose} (h : r.Fits s) :
    s = .answer ∨ s = .nameServer ∨ s = .additional := by
  cases r <;> simp only [Rec.Fits] at h <;> simp [h]

/-- C07, writing: when the record fits, the append succeeds and the buffer then holds exactly the
message with the record at the end of the section, its count increased by one. -/
theorem append_exact (g : Gen) (m : Msg) (s : Purpose) (r : Rec) (hg : Holds g m s) (hv : r.Valid)
    (hf : r.Fits s) (hc : m.count s < 65535) (hroom : m.bytes.length + r.rr.bytes.length ≤ g.cap) :
    ∃ g', append g r = some (0, g') ∧ Holds g' (m.add s r.rr) s ∧ g'.cap = g.cap := by
  have hb := fields_bytes hv
  have hs := hg.sect
  subst hs
  have hlen : (total (fields r)).length + (unchecked r).length = r.rr.bytes.length := by
    rw [← hb]; simp
  have hw := writes_fit (g := g) (fs := fields r) (by rw [hg.out]; omega)
  refine ⟨{ g with out := (m.add (purposeOf g.num) r.rr).bytes }, ?_, ⟨rfl, add_valid hg.valid (rr_valid hv) hc, rfl, ?_, ?_⟩, rfl⟩
  · rw [append_eq hv hf, hw]
    simp only [ne_eq, not_true, if_false]
    rw [if_pos (by left; simp only [List.length_append]; rw [hg.out]; omega)]
    rw [bump_add (g := ⟨g.cap, g.out ++ total (fields r) ++ unchecked r, g.num⟩) (m := m)
      (s := purposeOf g.num) (r := r.rr) hg.valid hg.isOpen rfl (fits_ne_question hf)
      (by simp only; rw [List.append_assoc, hb, hg.out]) hc]
  · have ho := hg.isOpen
    rcases fits_section hf with h | h | h <;> rw [h] at ho ⊢ <;> simp_all [Msg.OpenAt, Msg.add]
  · simp only
    rw [add_bytes_length (fits_section hf)]; omega


theorem add_split (m : Msg) (s : Purpose) (r : RR) (ho : m.OpenAt s)
    (hs : s = .answer ∨ s = .nameServer ∨ s = .additional) :
    ∃ hd, hd.length = m.header.length ∧ (m.add s r).bytes = hd ++ (m.body ++ r.bytes) ∧
      items (m.add s r) = items m ++ [rItem s r] := by
  refine ⟨(m.add s r).header, ?_, ?_, ?_⟩
  · rcases hs with rfl | rfl | rfl <;> simp [Msg.header, Msg.add, u16_length]
  · rcases hs with rfl | rfl | rfl <;> simp_all [Msg.OpenAt, Msg.bytes, Msg.add, Msg.body, rrBytes]
  · rcases hs with rfl | rfl | rfl <;> simp_all [Msg.OpenAt, Msg.add, items]

theorem header_length {m : Msg} (h : m.Valid) : m.header.length = 12 := by
  simp [Msg.header, h.head, u16_length]

theorem memOf_mid {b pre x post : List Byte} {i : Nat} (hb : b = pre ++ (x ++ post)) (hi : i = pre.length) :
    At (memOf b) i x := by
  have h := memOf_at b
  rw [hb] at h ⊢
  have := (At.append.mp (At.append.mp h).2).1
  rw [hi]; simpa using this

/-- C07, reading back: after the append, a walk of the buffer ends on a record of the section, and its
owner, type, class, TTL and data as the parser delivers them are those given. -/
theorem append_read_back (g : Gen) (m : Msg) (s : Purpose) (r : Rec) (hg : Holds g m s) (hv : r.Valid)
    (hf : r.Fits s) (hc : m.count s < 65535) (hroom : m.bytes.length + r.rr.bytes.length ≤ g.cap)
    (hq : m.qs ≠ []) (fuel : Nat)
    (hfuel : m.qs.length + m.an.length + m.ns.length + m.ar.length + 1 < fuel) :
    ∃ g' c it p row, append g r = some (0, g') ∧ counts g'.out = some c ∧
      (visits g'.out g'.out.length c fuel Itr.init).length =
        m.qs.length + m.an.length + m.ns.length + m.ar.length + 1 ∧
      (visits g'.out g'.out.length c fuel Itr.init).getLast? = some it ∧
      it.purpose = s ∧ it.pos = some p ∧ it.type = r.rr.type ∧ it.klass = r.rr.klass ∧
      getTTL g'.out p = some r.rr.ttl ∧ rowData g'.out p = some row ∧
      (g'.out.drop row).take it.dataLen = r.rr.rdata ∧
      (∀ N, (text r.owner).length < N → ∃ f0, ∀ f, f0 ≤ f → ∃ k,
        (getHostName (memOf g'.out) g'.out.length p (some N) f).out = .ok k (text r.owner ++ [0])) := by
  obtain ⟨g', hap, hh, _⟩ := append_exact g m s r hg hv hf hc hroom
  have hs := fits_section hf
  have hrv := rr_valid hv
  obtain ⟨hd, hdl, hbytes, hitems⟩ := add_split m s r.rr hg.isOpen hs
  have hq' : (m.add s r.rr).qs ≠ [] := by rcases hs with rfl | rfl | rfl <;> exact hq
  have hcnt : (m.add s r.rr).qs.length + (m.add s r.rr).an.length + (m.add s r.rr).ns.length +
      (m.add s r.rr).ar.length = m.qs.length + m.an.length + m.ns.length + m.ar.length + 1 := by
    rcases hs with rfl | rfl | rfl <;> simp [Msg.add] <;> omega
  have hvis := visits_msg (m.add s r.rr) [] g'.out.length fuel hh.valid (Nat.le_of_eq (by rw [hh.out])) hq' (by omega)
  rw [List.append_nil, ← hh.out, hitems] at hvis
  obtain ⟨d', hex⟩ := expect_append (items m) [rItem s r.rr] 0 12 1
  rw [hex] at hvis
  have hsq : s ≠ .question := fits_ne_question hf
  refine ⟨g', Msg.counts (m.add s r.rr), (rItem s r.rr).itr d'
    (12 + ((items m).map Item.bytes).flatten.length) (1 + (items m).length), m.bytes.length,
    m.bytes.length + r.rr.name.length + 10, hap, ?_, ?_, ?_, ?_, ?_, rfl, rfl, ?_, ?_, ?_, ?_⟩
  · rw [hh.out]; simpa using counts_eq hh.valid []
  · rw [hvis]
    have hel : ∀ (xs : List Item) (d p n : Nat), (expect d p n xs).length = xs.length := by
      intro xs; induction xs with
      | nil => intros; rfl
      | cons x xs ih => intros; simp [expect, ih]
    simp only [List.length_append, hel, List.length_singleton, items_length]; rfl
  · rw [hvis]; simp [expect]
  · simp [Item.itr, rItem]
  · simp only [Item.itr, items_bytes, Option.some.injEq]
    rw [← header_length hg.valid]; simp [Msg.bytes]
  all_goals
    have hout : g'.out = (hd ++ m.body) ++ (r.rr.name ++ (u16 r.rr.type ++ (u16 r.rr.klass ++
        (u32 r.rr.ttl ++ (u16 r.rr.rdata.length ++ r.rr.rdata))))) := by
      rw [hh.out, hbytes]; simp [RR.bytes]
    have hpre : m.bytes.length = (hd ++ m.body).length := by simp [Msg.bytes, hdl]
    have hskip : skipAt g'.out m.bytes.length = some r.rr.name.length := skipAt_eq hout hpre hrv.1
  · unfold getTTL
    rw [hskip]
    exact u32At_eq (pre := (hd ++ m.body) ++ (r.rr.name ++ (u16 r.rr.type ++ u16 r.rr.klass)))
      (post := u16 r.rr.rdata.length ++ r.rr.rdata) (by rw [hout]; simp)
      (by simp only [hpre, List.length_append, u16_length]; omega) hrv.2.2.2.2.2.1
  · unfold rowData; rw [hskip]; rfl
  · simp only [Item.itr, rItem, hsq, if_false]
    have h2 : g'.out = ((hd ++ m.body) ++ (r.rr.name ++ (u16 r.rr.type ++ (u16 r.rr.klass ++
        (u32 r.rr.ttl ++ u16 r.rr.rdata.length))))) ++ r.rr.rdata := by rw [hout]; simp
    have h3 : m.bytes.length + r.rr.name.length + 10 = ((hd ++ m.body) ++ (r.rr.name ++
        (u16 r.rr.type ++ (u16 r.rr.klass ++ (u32 r.rr.ttl ++ u16 r.rr.rdata.length))))).length := by
      simp only [hpre, List.length_append, u16_length, u32_length]; omega
    rw [h2, h3, List.drop_left, List.take_length]
  · intro N hN
    have hown : ValidName r.owner := by
      cases r <;> simp only [Rec.Valid] at hv <;> first | exact hv.1 | (intro l hl; simp [Rec.owner] at hl)
    have hw : r.rr.name = labelize (text r.owner) := by
      rw [labelize_text hown]; cases r <;> rfl
    obtain ⟨f0, h⟩ := name_roundtrip r.owner hown (memOf g'.out) g'.out.length m.bytes.length N
      (by rw [← hw]; exact memOf_mid hout hpre)
      (by rw [← hw, hout, hpre]; simp only [List.length_append]; omega) hN
    exact ⟨f0, fun f hf => ⟨_, h f hf⟩⟩

end Verif.Generator

namespace Verif.Generator
open Name Parser Message

/-! ### Non-vacuity of C07 -/

def exQ : Question := ⟨[1, 97, 0], 1, 1⟩
def exMsg : Msg := ⟨[0, 1, 0x81, 0x80], [exQ], [], [], []⟩

theorem exQ_valid : exQ.Valid :=
  ⟨.label [97] [0] (by simp) (by simp) .root, by simp [exQ], by simp [exQ], by simp [exQ], by simp [exQ]⟩

theorem exMsg_valid : exMsg.Valid :=
  ⟨rfl, by simpa [exMsg] using exQ_valid, by simp [exMsg], by simp [exMsg], by simp [exMsg], by simp [exMsg],
    by simp [exMsg], by simp [exMsg], by simp [exMsg]⟩

theorem exHolds (cap : Nat) (h : 19 ≤ cap) : Holds ⟨cap, exMsg.bytes, 6⟩ exMsg .answer :=
  ⟨rfl, exMsg_valid, rfl, ⟨rfl, rfl⟩, by
    have : exMsg.bytes.length = 19 := by decide +kernel
    show exMsg.bytes.length ≤ cap
    omega⟩

theorem exName : ValidName [[97]] := by
  intro l hl; simp at hl; subst hl; exact ⟨by simp, by simp, by simp⟩

example : ∃ g', append ⟨64, exMsg.bytes, 6⟩ (.alias [[97]] [[98], [99]] 300) = some (0, g') ∧
    g'.out = [0, 1, 0x81, 0x80, 0, 1, 0, 1, 0, 0, 0, 0, 1, 97, 0, 0, 1, 0, 1,
      1, 97, 0, 0, 5, 0, 1, 0, 0, 1, 44, 0, 5, 1, 98, 1, 99, 0] := ⟨_, rfl, by decide +kernel⟩

/-! ### C08 -/

/-- C08, first half of the full claim: no append writes outside the buffer. -/
def AppendInBounds : Prop := ∀ (g : Gen) (m : Msg) (s : Purpose) (r : Rec), Holds g m s → r.Valid →
  r.Fits s → ∃ code g', append g r = some (code, g') ∧ g'.out.length ≤ g'.cap

/-- C08, second half: a refused append leaves the reply unchanged. -/
def RefusalUnchanged : Prop := ∀ (g g' : Gen) (m : Msg) (s : Purpose) (r : Rec) (code : Int),
  Holds g m s → r.Valid → r.Fits s → append g r = some (code, g') → code ≠ 0 → g'.out = g.out

/-- The data of a raw-data record are copied without regard to the buffer's end: a 4-byte address with
room for its header only. -/
theorem append_in_bounds_false : ¬ AppendInBounds := by
  intro h
  obtain ⟨code, g', h1, _⟩ := h ⟨32, exMsg.bytes, 6⟩ exMsg .answer (.raw [[97]] 1 1 [1, 2, 3, 4] 60)
    (exHolds 32 (by omega)) ⟨exName, by simp⟩ (by simp [Rec.Fits])
  have : append ⟨32, exMsg.bytes, 6⟩ (.raw [[97]] 1 1 [1, 2, 3, 4] 60) = none := by decide +kernel
  rw [this] at h1; simp at h1

/-- The parts of a record written before the space ran out stay in the reply. -/
theorem refusal_unchanged_false : ¬ RefusalUnchanged := by
  intro h
  have := h ⟨32, exMsg.bytes, 6⟩ ⟨32, exMsg.bytes ++ [1, 97, 0, 0, 5, 0, 1, 0, 0, 1, 44, 0, 5], 6⟩
    exMsg .answer (.alias [[97]] [[98], [99]] 300) (-6)
    (exHolds 32 (by omega))
    ⟨exName, pieces_of_valid (by intro l hl; simp at hl; rcases hl with rfl | rfl <;> exact ⟨by simp, by simp, by simp⟩), by simp [wire], by simp⟩
    (by simp [Rec.Fits]) (by decide +kernel) (by simp)
  revert this; decide +kernel

def IsRaw : Rec → Prop
  | .raw .. => True
  | _ => False

/-- C08, partial: every append other than of raw data stays inside the buffer; if the record does not
fit it is refused, the message stays at the start of the buffer and its counts are unchanged.  A
raw-data append that does not fit is refused in the same way or overruns.  Missing: raw data, and that
a refused append removes what it had already written. -/
theorem append_refused_partial (g : Gen) (m : Msg) (s : Purpose) (r : Rec) (hg : Holds g m s) (hv : r.Valid)
    (hf : r.Fits s) (hroom : ¬ m.bytes.length + r.rr.bytes.length ≤ g.cap) :
    (∃ code g' junk, append g r = some (code, g') ∧ code ≠ 0 ∧ g'.out = m.bytes ++ junk ∧
      g'.out.length ≤ g.cap ∧ junk <+: r.rr.bytes) ∨ (IsRaw r ∧ append g r = none) := by
  have hb := fields_bytes hv
  have hlen : (total (fields r)).length + (unchecked r).length = r.rr.bytes.length := by
    rw [← hb]; simp
  have hs := hg.sect
  subst hs
  rw [append_eq hv hf]
  by_cases hfit : g.out.length + (total (fields r)).length ≤ g.cap
  · right
    have hraw : IsRaw r := by
      rw [hg.out] at hfit
      cases r <;> simp only [unchecked, List.length_nil] at hlen <;> first | trivial | (exfalso; omega)
    have hne : unchecked r ≠ [] := by
      intro h0
      rw [h0, List.length_nil] at hlen; rw [hg.out] at hfit; omega
    refine ⟨hraw, ?_⟩
    rw [writes_fit hfit]
    simp only [ne_eq, not_true, if_false, hne, or_false]
    rw [if_neg]
    simp only [List.length_append]; rw [hg.out]; omega
  · left
    obtain ⟨code, junk, h1, h2, h3, h4⟩ := writes_unfit (fields_codes r) hg.room hfit
    refine ⟨code, { g with out := g.out ++ junk }, junk, ?_, h1, ?_, ?_, ?_⟩
    · rw [h2]; simp only [ne_eq, h1, not_false_eq_true, if_true]
    · simp [hg.out]
    · simpa using h4
    · exact h3.trans ⟨_, hb⟩

example : ∃ code g', append ⟨32, exMsg.bytes, 6⟩ (.alias [[97]] [[98], [99]] 300) = some (code, g') ∧
    code ≠ 0 := ⟨-6, _, rfl, by simp⟩

theorem writes_bound {g : Gen} {fs : List (Int × List Byte)} (h : g.out.length ≤ g.cap) :
    (writes g fs).2.out.length ≤ (writes g fs).2.cap ∧ (writes g fs).2.cap = g.cap ∧
      (writes g fs).2.num = g.num ∧ g.out <+: (writes g fs).2.out := by
  induction fs generalizing g with
  | nil => exact ⟨h, rfl, rfl, List.prefix_refl _⟩
  | cons f fs ih =>
    obtain ⟨code, bs⟩ := f
    unfold writes
    by_cases hb : g.out.length + bs.length ≤ g.cap
    · rw [if_pos hb]
      have := ih (g := { g with out := g.out ++ bs }) (by simpa using hb)
      exact ⟨this.1, this.2.1, this.2.2.1, (List.prefix_append _ _).trans this.2.2.2⟩
    · rw [if_neg hb]; exact ⟨h, rfl, rfl, List.prefix_refl _⟩

theorem overwrite_length {out bs : List Byte} {i : Nat} (h : i + bs.length ≤ out.length) :
    (overwrite out i bs).length = out.length := by
  simp [overwrite]; omega

theorem counted_bound {g : Gen} {fs : List (Int × List Byte)} (h : g.out.length ≤ g.cap)
    (hn : g.num + 2 ≤ g.out.length) :
    (counted (writes g fs)).2.out.length ≤ g.cap ∧ (counted (writes g fs)).2.cap = g.cap := by
  obtain ⟨h1, h2, h3, h4⟩ := writes_bound (fs := fs) h
  unfold counted
  split
  · refine ⟨?_, h2⟩
    show (overwrite _ _ _).length ≤ _
    rw [overwrite_length (by have := h4.length_le; rw [h3]; simp [set16]; omega)]
    omega
  · exact ⟨by omega, h2⟩

/-- C08 for arbitrary arguments: whatever texts and contents are passed, at every fill level, an append
of a question, alias, mail exchange, address or EDNS record, or a copy of a record from another
message, never makes the reply longer than the buffer. -/
theorem appends_in_bounds_partial (g : Gen) (h : g.out.length ≤ g.cap) (hn : g.num + 2 ≤ g.out.length)
    (name target addr : List Byte) (mem : Nat → Byte)
    (type klass ttl pref payload pos row fuel want n : Nat) :
    (question g name type klass).2.out.length ≤ g.cap ∧
    (cname g name target ttl).2.out.length ≤ g.cap ∧
    (mx g name pref target ttl).2.out.length ≤ g.cap ∧
    (addA g name addr ttl).2.out.length ≤ g.cap ∧
    (addAAAA g name addr ttl).2.out.length ≤ g.cap ∧
    (edns g payload).2.out.length ≤ g.cap ∧
    (∀ r, copyCName g mem pos row type klass ttl fuel = some r → r.2.out.length ≤ g.cap) ∧
    (∀ r, copyAddr g mem want n pos row type klass ttl fuel = some r → r.2.out.length ≤ g.cap) := by
  refine ⟨?_, ?_, ?_, ?_, ?_, ?_, ?_, ?_⟩
  · unfold question; split
    · exact h
    · exact (counted_bound h hn).1
  · unfold cname; split
    · exact h
    · exact (counted_bound h hn).1
  · unfold mx; split
    · exact h
    · exact (counted_bound h hn).1
  · unfold addA; split
    · exact h
    · exact (counted_bound h hn).1
  · unfold addAAAA; split
    · exact h
    · exact (counted_bound h hn).1
  · unfold edns; split
    · exact h
    · exact (counted_bound h hn).1
  · intro r hr
    unfold copyCName at hr
    split at hr
    · simp at hr; subst hr; exact h
    · split at hr
      · simp at hr; subst hr; exact h
      · split at hr
        · simp only [Option.some.injEq] at hr; subst hr; exact (counted_bound h hn).1
        · simp at hr
  · intro r hr
    unfold copyAddr at hr
    split at hr
    · simp at hr; subst hr; exact h
    · split at hr
      · simp at hr; subst hr; exact h
      · split at hr
        · simp only [Option.some.injEq] at hr; subst hr; exact (counted_bound h hn).1
        · simp at hr

/-! ### Starting a reply from a query -/

/-- The full claim: starting a reply from any parsed query stays inside the reply buffer. -/
def InitInBounds : Prop := ∀ (cap : Nat) (m : Msg) (post : List Byte), m.Valid → m.qs ≠ [] → 12 ≤ cap →
  initFrom cap (m.bytes ++ post) m.bytes.length true ≠ none

/-- It is false: the copy of the query is not checked against the buffer size. -/
theorem init_in_bounds_false : ¬ InitInBounds := by
  intro h
  exact h 18 exMsg [] exMsg_valid (by simp [exMsg]) (by omega) (by decide +kernel)

theorem chain_msg (m : Msg) (post : List Byte) (len : Nat) (hm : m.Valid)
    (hlen : m.bytes.length ≤ len) (hq : m.qs ≠ []) :
    Chain (m.bytes ++ post) len (Msg.counts m) Itr.init (expect 0 12 1 (items m)) := by
  have hq' : 0 < m.qs.length := List.length_pos_iff.mpr hq
  have h12 : m.header.length = 12 := header_length hm
  have hall : (Msg.counts m).all = m.qs.length + m.an.length + m.ns.length + m.ar.length := rfl
  have hil := items_length m
  have := chain_items (b := m.bytes ++ post) (len := len) (c := Msg.counts m) (items m)
    (pre := m.header) (post := post) (it := Itr.init) (n := 1) (items_ok hm)
    (by rw [items_bytes]; simp [Msg.bytes])
    (by rw [items_bytes]; simpa [Msg.bytes] using hlen) (items_purpose m hq') (by omega)
    (by
      have hne : items m ≠ [] := by intro h; rw [h] at hil; simp at hil; omega
      rw [if_neg hne, h12]; rfl)
  rw [h12] at this
  exact this

theorem expect_find_none (xs : List Item) (P : Purpose → Bool) (h : ∀ x ∈ xs, P x.pu = false) (d p n : Nat) :
    (expect d p n xs).find? (fun x => P x.purpose) = none := by
  induction xs generalizing d p n with
  | nil => rfl
  | cons x xs ih =>
    simp only [expect]
    rw [List.find?_cons_of_neg (by simp [Item.itr, h x (by simp)])]
    exact ih (fun y hy => h y (by simp [hy])) _ _ _

theorem expect_length (xs : List Item) (d p n : Nat) : (expect d p n xs).length = xs.length := by
  induction xs generalizing d p n with
  | nil => rfl
  | cons x xs ih => simp [expect, ih]

/-- The query without its authority and additional records. -/
def stripped (m : Msg) : Msg := { m with ns := [], ar := [] }

theorem stripped_valid {m : Msg} (h : m.Valid) : (stripped m).Valid :=
  ⟨h.head, h.qs, h.an, by simp [stripped], by simp [stripped], h.qd16, h.an16, by simp [stripped],
    by simp [stripped]⟩

theorem stripedLength_eq (m : Msg) (post : List Byte) (hm : m.Valid) (hq : m.qs ≠ []) :
    stripedLength (m.bytes ++ post) m.bytes.length (Msg.counts m) = some (stripped m).bytes.length := by
  have hch := chain_msg m post m.bytes.length hm (Nat.le_refl _) hq
  unfold stripedLength
  rw [stripLoop_chain hch (by rw [expect_length, items_length]; omega)]
  let P : Purpose → Bool := fun q => decide (¬ (q = .question ∨ q = .answer))
  show (match (expect 0 12 1 (items m)).find? (fun x => P x.purpose) with
    | some x => x.pos | none => some m.bytes.length) = _
  have hsplit : items m = (m.qs.map qItem ++ m.an.map (rItem .answer)) ++
      (m.ns.map (rItem .nameServer) ++ m.ar.map (rItem .additional)) := by simp [items]
  obtain ⟨d', hex⟩ := expect_append (m.qs.map qItem ++ m.an.map (rItem .answer))
    (m.ns.map (rItem .nameServer) ++ m.ar.map (rItem .additional)) 0 12 1
  have h1 : ((expect 0 12 1 (m.qs.map qItem ++ m.an.map (rItem .answer))).find?
      (fun x => P x.purpose)) = none := by
    apply expect_find_none
    intro x hx
    simp only [List.mem_append, List.mem_map] at hx
    rcases hx with ⟨q, _, rfl⟩ | ⟨q, _, rfl⟩ <;> simp [P, qItem, rItem]
  rw [hsplit, hex, List.find?_append, h1, Option.none_or]
  have hlen : (stripped m).bytes.length = 12 +
      (((m.qs.map qItem ++ m.an.map (rItem .answer)).map Item.bytes).flatten).length := by
    have h12 := header_length (stripped_valid hm)
    have hb : (stripped m).body = qBytes m.qs ++ rrBytes m.an := by simp [Msg.body, stripped, rrBytes]
    rw [Msg.bytes, List.length_append, h12, hb, List.map_append, List.flatten_append, flatten_q, flatten_r]
  cases hns : m.ns with
  | cons r l =>
    simp only [List.map_cons, List.cons_append, expect]
    rw [List.find?_cons_of_pos (by simp [Item.itr, rItem, P])]
    simp only [Item.itr]
    rw [hlen]
  | nil =>
    cases har : m.ar with
    | cons r l =>
      simp only [List.map_nil, List.nil_append, List.map_cons, expect]
      rw [List.find?_cons_of_pos (by simp [Item.itr, rItem, P])]
      simp only [Item.itr]
      rw [hlen]
    | nil =>
      simp only [List.map_nil, List.append_nil, expect, List.find?_nil]
      have : stripped m = m := by cases m; simp_all [stripped]
      rw [this]

/-- A reply started from a query is the query with its authority and additional records removed and
nothing else changed, ready for the next section, if it fits.  Missing for the full claim: that a query
too long for the buffer is refused (`init_in_bounds_false`). -/
theorem init_strips_partial (cap : Nat) (m : Msg) (post : List Byte) (hm : m.Valid) (hq : m.qs ≠ [])
    (hcap : (stripped m).bytes.length ≤ cap) :
    ∃ g, initFrom cap (m.bytes ++ post) m.bytes.length true = some g ∧ g.cap = cap ∧
      Holds g (stripped m) (if m.an = [] then .question else .answer) := by
  have hq' : 0 < m.qs.length := List.length_pos_iff.mpr hq
  unfold initFrom
  rw [counts_eq hm]
  simp only [if_true, stripedLength_eq m post hm hq]
  have h12 : 12 ≤ (stripped m).bytes.length := by
    rw [Msg.bytes, List.length_append, header_length (stripped_valid hm)]; omega
  have hle : (stripped m).bytes.length ≤ m.bytes.length := by
    rw [Msg.bytes, Msg.bytes, List.length_append, List.length_append, header_length hm,
      header_length (stripped_valid hm)]
    simp [Msg.body, stripped, rrBytes]
  rw [if_pos ⟨hcap, by simp; omega, h12⟩]
  refine ⟨_, rfl, rfl, ?_⟩
  have hbytes : m.bytes = (m.head ++ (u16 m.qs.length ++ u16 m.an.length)) ++
      ((u16 m.ns.length ++ u16 m.ar.length) ++ ((qBytes m.qs ++ rrBytes m.an) ++ (rrBytes m.ns ++ rrBytes m.ar))) := by
    simp [Msg.bytes, Msg.header, Msg.body]
  have hsb : (stripped m).bytes = (m.head ++ (u16 m.qs.length ++ u16 m.an.length)) ++
      ([0, 0, 0, 0] ++ (qBytes m.qs ++ rrBytes m.an)) := by
    simp [Msg.bytes, Msg.header, Msg.body, stripped, rrBytes, u16]
  have htake : (m.bytes ++ post).take (stripped m).bytes.length =
      (m.head ++ (u16 m.qs.length ++ u16 m.an.length)) ++ ((u16 m.ns.length ++ u16 m.ar.length) ++
        (qBytes m.qs ++ rrBytes m.an)) := by
    have e : m.bytes ++ post = ((m.head ++ (u16 m.qs.length ++ u16 m.an.length)) ++
        ((u16 m.ns.length ++ u16 m.ar.length) ++ (qBytes m.qs ++ rrBytes m.an))) ++
        ((rrBytes m.ns ++ rrBytes m.ar) ++ post) := by rw [hbytes]; simp
    have l : (stripped m).bytes.length = ((m.head ++ (u16 m.qs.length ++ u16 m.an.length)) ++
        ((u16 m.ns.length ++ u16 m.ar.length) ++ (qBytes m.qs ++ rrBytes m.an))).length := by
      rw [hsb]; simp only [List.length_append, u16_length, List.length_cons, List.length_nil]
    rw [e, l, List.take_left]
  have hout : overwrite ((m.bytes ++ post).take (stripped m).bytes.length) 8 [0, 0, 0, 0] =
      (stripped m).bytes := by
    rw [htake, hsb, overwrite_eq (old := u16 m.ns.length ++ u16 m.ar.length)
      (by simp [u16_length, hm.head]) (by simp [u16_length])]
  refine ⟨hout, stripped_valid hm, ?_, ?_, ?_⟩
  · show purposeOf (if 0 < m.an.length then 6 else 4) = _
    by_cases ha : m.an = []
    · simp [ha, purposeOf]
    · rw [if_pos (List.length_pos_iff.mpr ha), if_neg ha]; rfl
  · by_cases ha : m.an = []
    · rw [if_pos ha]; exact ⟨ha, rfl, rfl⟩
    · rw [if_neg ha]; exact ⟨rfl, rfl⟩
  · show (overwrite _ _ _).length ≤ _
    rw [hout]; exact hcap

example : initFrom 40 (({ exMsg with ar := [⟨[0], 41, 1280, 0, []⟩] } : Msg).bytes ++ [7]) 30 true =
    some ⟨40, exMsg.bytes, 4⟩ := by decide +kernel

end Verif.Generator

namespace Verif.Generator
open Name Parser Message

/-! ### C09 -/

/-- The name an answer belongs to, given the answers before it: the target of the last alias, else the
question's name. -/
def ownerOf (q : List Byte) (before : List RR) : List Byte :=
  match (before.filter (fun r => r.type = 5 ∧ r.klass = 1)).getLast? with
  | some r => r.rdata
  | none => q

theorem ownerOf_cons (q : List Byte) (r : RR) (l : List RR) :
    ownerOf q (r :: l) = ownerOf (if r.type = 5 ∧ r.klass = 1 then r.rdata else q) l := by
  unfold ownerOf
  by_cases h : r.type = 5 ∧ r.klass = 1
  · rw [if_pos h, List.filter_cons_of_pos (by simpa using h)]
    cases hf : (l.filter (fun r => decide (r.type = 5 ∧ r.klass = 1))) with
    | nil => simp
    | cons a t => simp [List.getLast?_cons]
  · rw [if_neg h, List.filter_cons_of_neg (by simpa using h)]

theorem shorten_length (p last : Nat) (rs : List RR) : (shorten p last rs).length = rs.length := by
  induction rs generalizing p last with
  | nil => rfl
  | cons r rs ih => unfold shorten; split <;> simp [ih]

/-- Everything but the owner is kept. -/
theorem shorten_same (p last : Nat) (rs : List RR) (i : Nat) (r r' : RR) (h : rs[i]? = some r)
    (h' : (shorten p last rs)[i]? = some r') :
    r'.type = r.type ∧ r'.klass = r.klass ∧ r'.ttl = r.ttl ∧ r'.rdata = r.rdata ∧
      (r.klass ≠ 1 → r'.name = r.name) := by
  induction rs generalizing p last i with
  | nil => simp at h
  | cons x rs ih =>
    unfold shorten at h'
    cases i with
    | zero =>
      simp at h; subst h
      split at h'
      · rename_i hk
        simp at h'; subst h'
        exact ⟨rfl, rfl, rfl, rfl, fun h => absurd hk h⟩
      · simp at h'; subst h'
        exact ⟨rfl, rfl, rfl, rfl, fun _ => rfl⟩
    | succ i =>
      simp at h
      split at h'
      · exact ih _ _ i h (by simpa using h')
      · exact ih _ _ i h (by simpa using h')

theorem shorten_valid (p last : Nat) (rs : List RR) (hv : ∀ r ∈ rs, r.Valid) (hl : last < 16384)
    (hp : p + (rrBytes (shorten p last rs)).length < 16384) :
    ∀ r ∈ shorten p last rs, r.Valid := by
  induction rs generalizing p last with
  | nil => simp [shorten]
  | cons x rs ih =>
    have hx := hv x (by simp)
    unfold shorten at hp ⊢
    split
    · rename_i hk
      rw [if_pos hk] at hp
      have hpl : (makePointer last).length = 2 := rfl
      have hb : (rrBytes ({ x with name := makePointer last } ::
          shorten (p + 12 + x.rdata.length) (if x.type = 5 then p + 12 else last) rs)).length =
          12 + x.rdata.length +
          (rrBytes (shorten (p + 12 + x.rdata.length) (if x.type = 5 then p + 12 else last) rs)).length := by
        rw [show ∀ (a : RR) l, rrBytes (a :: l) = a.bytes ++ rrBytes l from fun a l => by simp [rrBytes]]
        simp only [List.length_append, rr_bytes_length, hpl]
      rw [hb] at hp
      intro r hr
      rcases List.mem_cons.mp hr with rfl | hr
      · exact ⟨makePointer_wireName hl, hx.2⟩
      · exact ih _ _ (fun y hy => hv y (by simp [hy])) (by split <;> omega) (by omega) r hr
    · rename_i hk
      rw [if_neg hk] at hp
      rw [show ∀ (a : RR) l, rrBytes (a :: l) = a.bytes ++ rrBytes l from fun a l => by simp [rrBytes],
        List.length_append] at hp
      intro r hr
      rcases List.mem_cons.mp hr with rfl | hr
      · exact hx
      · exact ih _ _ (fun y hy => hv y (by simp [hy])) hl (by omega) r hr

/-- Each shortened owner points at a place where the bytes of the right name lie. -/
theorem shorten_points (rs : List RR) : ∀ (pre tail src : List Byte) (last : Nat) (i : Nat) (r : RR)
    (fin : List Byte), fin = pre ++ (rrBytes (shorten pre.length last rs) ++ tail) →
    fin.length < 16384 → last + src.length ≤ fin.length → At (memOf fin) last src →
    rs[i]? = some r → r.klass = 1 →
    ∃ loc, loc + (ownerOf src (rs.take i)).length ≤ fin.length ∧
      At (memOf fin) loc (ownerOf src (rs.take i)) ∧
      At (memOf fin) (pre.length + (rrBytes ((shorten pre.length last rs).take i)).length) (makePointer loc) ∧
      pre.length + (rrBytes ((shorten pre.length last rs).take i)).length + 2 ≤ fin.length := by
  have hcons : ∀ (a : RR) l, rrBytes (a :: l) = a.bytes ++ rrBytes l := fun a l => by simp [rrBytes]
  induction rs with
  | nil => intro _ _ _ _ _ _ _ _ _ _ _ h; simp at h
  | cons x rs ih =>
    intro pre tail src last i r fin hfin hlen hsrc hat hi hk
    have hpl : (makePointer last).length = 2 := rfl
    cases i with
    | zero =>
      simp at hi; subst hi
      refine ⟨last, by simpa [ownerOf] using hsrc, by simpa [ownerOf] using hat, ?_, ?_⟩
      · simp only [List.take_zero]
        have : fin = pre ++ (makePointer last ++ (u16 x.type ++ (u16 x.klass ++ (u32 x.ttl ++
            (u16 x.rdata.length ++ (x.rdata ++ (rrBytes (shorten (pre.length + 12 + x.rdata.length)
              (if x.type = 5 then pre.length + 12 else last) rs) ++ tail))))))) := by
          rw [hfin]; simp [shorten, hk, hcons, RR.bytes]
        exact memOf_mid this (by simp [rrBytes])
      · rw [hfin]; simp [shorten, hk, rr_bytes_length, hpl, rrBytes]; omega
    | succ i =>
      simp only [List.getElem?_cons_succ] at hi
      simp only [List.take_succ_cons]
      rw [ownerOf_cons]
      by_cases hx : x.klass = 1
      · have hplen : (pre ++ ({ x with name := makePointer last } : RR).bytes).length =
            pre.length + 12 + x.rdata.length := by
          simp only [List.length_append, rr_bytes_length, hpl]; omega
        have hsh : shorten pre.length last (x :: rs) = { x with name := makePointer last } ::
            shorten (pre ++ ({ x with name := makePointer last } : RR).bytes).length
              (if x.type = 5 then pre.length + 12 else last) rs := by
          rw [hplen]; simp [shorten, hx]
        have hfin' : fin = (pre ++ ({ x with name := makePointer last } : RR).bytes) ++
            (rrBytes (shorten (pre ++ ({ x with name := makePointer last } : RR).bytes).length
              (if x.type = 5 then pre.length + 12 else last) rs) ++ tail) := by
          rw [hfin, hsh, hcons]; simp
        rw [hsh, List.take_succ_cons, hcons]
        by_cases ht : x.type = 5
        · rw [if_pos ⟨ht, hx⟩]
          have hat' : At (memOf fin) (pre.length + 12) x.rdata := by
            refine memOf_mid (pre := pre ++ (makePointer last ++ (u16 x.type ++ (u16 x.klass ++ (u32 x.ttl ++
              u16 x.rdata.length))))) (post := _) (hb := by rw [hfin']; simp [RR.bytes]; rfl) ?_
            simp only [List.length_append, u16_length, u32_length, hpl]
          have hle : pre.length + 12 + x.rdata.length ≤ fin.length := by
            rw [hfin', List.length_append, hplen]; omega
          simp only [ht, if_true] at hfin' ⊢
          obtain ⟨loc, h1, h2, h3, h4⟩ := ih _ tail x.rdata _ i r fin hfin' hlen hle hat' hi hk
          simp only [List.length_append] at h3 h4 ⊢
          refine ⟨loc, h1, h2, ?_, ?_⟩
          · rw [← Nat.add_assoc]; exact h3
          · omega
        · rw [if_neg (fun h => ht h.1)]
          simp only [ht, if_false] at hfin' ⊢
          obtain ⟨loc, h1, h2, h3, h4⟩ := ih _ tail src _ i r fin hfin' hlen hsrc hat hi hk
          simp only [List.length_append] at h3 h4 ⊢
          refine ⟨loc, h1, h2, ?_, ?_⟩
          · rw [← Nat.add_assoc]; exact h3
          · omega
      · rw [if_neg (fun h => hx h.2)]
        have hsh : shorten pre.length last (x :: rs) = x :: shorten (pre ++ x.bytes).length last rs := by
          rw [List.length_append]; simp [shorten, hx]
        have hfin' : fin = (pre ++ x.bytes) ++ (rrBytes (shorten (pre ++ x.bytes).length last rs) ++ tail) := by
          rw [hfin, hsh, hcons]; simp
        rw [hsh, List.take_succ_cons, hcons]
        obtain ⟨loc, h1, h2, h3, h4⟩ := ih _ tail src last i r fin hfin' hlen hsrc hat hi hk
        simp only [List.length_append] at h3 h4 ⊢
        refine ⟨loc, h1, h2, ?_, ?_⟩
        · rw [← Nat.add_assoc]; exact h3
        · omega

theorem compress_msg (m : Msg) (q : Question) {more : List Question} (hm : m.Valid) (hq : m.qs = q :: more) (hlen : m.bytes.length < 16384) :
    ((∀ r ∈ m.an, r.klass = 1 → r.name ≠ [0]) →
      ∃ b', b' = (m.header ++ qBytes m.qs) ++ (rrBytes (shorten (12 + (qBytes m.qs).length) 12 m.an) ++
          (rrBytes m.ns ++ rrBytes m.ar)) ∧ compress m.bytes = some ((b'.length : Int), b')) ∧
    ((∃ r ∈ m.an, r.klass = 1 ∧ r.name = [0]) → ∃ b', compress m.bytes = some (-4, b')) := by
  have h12 := header_length hm
  have hc := counts_eq hm []
  rw [List.append_nil] at hc
  have hqne : m.qs ≠ [] := by simp [hq]
  have hqp : 0 < m.qs.length := List.length_pos_iff.2 hqne
  have hqv := hm.qs q (by simp [hq])
  have hqx : (qItem q).Ok := qItem_ok hqv
  have hb : m.bytes = m.header ++ ((qItem q).bytes ++ (qBytes more ++ (rrBytes m.an ++ (rrBytes m.ns ++ rrBytes m.ar)))) := by
    rw [Msg.bytes, Msg.body, hq, qItem_bytes]; simp [qBytes]
  have hqd : (Msg.counts m).qd = m.qs.length := rfl
  have hall : (Msg.counts m).all = m.qs.length + m.an.length + m.ns.length + m.ar.length := rfl
  have hdp : ∀ n, determinePurpose (Msg.counts m) n =
      sectionOf m.qs.length m.an.length m.ns.length m.ar.length n := by
    intro n
    rw [purpose_correct (Msg.counts m) (by omega), hqd]; rfl
  have hl : ∀ it, look m.bytes m.bytes.length (Msg.counts m) it 12 1 =
      some ((qItem q).itr it.dataLen 12 1, some 12) := by
    intro it
    have := look_item (b := m.bytes) (len := m.bytes.length) (c := Msg.counts m) (it := it) (n := 1)
      (pre := m.header) hqx hb (by rw [hb]; simp) (by omega)
      (by rw [hdp]; unfold sectionOf; rw [if_neg (by omega), if_pos (by omega)]; rfl)
    rw [h12] at this; exact this
  obtain ⟨it1, d1, hgo, -, hnum, ⟨p1, hp1⟩, hnx⟩ := gotoAnswers_from hm hqne [] m.bytes.length (Nat.le_refl _) ((qItem q).itr Itr.init.dataLen 12 1)
  rw [List.append_nil] at hgo
  have hcomp : compress m.bytes = compressLoop (Msg.counts m) ((Msg.counts m).all + 1) m.bytes it1 12 := by
    unfold compress
    rw [if_neg (by rw [hb]; simp; omega), hc]
    have hn : next m.bytes m.bytes.length (Msg.counts m) Itr.init =
        some ((qItem q).itr Itr.init.dataLen 12 1, some 12) := hl _
    simp only [hn]
    rw [if_neg (by simp [Item.itr, qItem])]
    simp only [hgo]
  rw [hcomp]
  have hts : ((m.ns.map (rItem .nameServer) ++ m.ar.map (rItem .additional)).map Item.bytes).flatten =
      rrBytes m.ns ++ rrBytes m.ar := by
    rw [List.map_append, List.flatten_append, flatten_r, flatten_r]
  have := compressLoop_items (c := Msg.counts m)
    (m.ns.map (rItem .nameServer) ++ m.ar.map (rItem .additional))
    (by
      intro x hx
      rcases List.mem_append.mp hx with hx | hx <;> obtain ⟨r, hr, rfl⟩ := List.mem_map.mp hx
      · exact rItem_ok (hm.ns r hr) (by simp) (by simp)
      · exact rItem_ok (hm.ar r hr) (by simp) (by simp))
    (by
      intro x hx
      rcases List.mem_append.mp hx with hx | hx <;> obtain ⟨r, hr, rfl⟩ := List.mem_map.mp hx <;>
        simp [rItem]) m.an
    (b := m.bytes) (pre := m.header ++ qBytes m.qs) (it := it1) (n := m.qs.length + 1)
    (fuel := (Msg.counts m).all + 1) (last := 12) hm.an
    (by rw [hts, Msg.bytes, Msg.body]; simp) hlen (by omega)
    (by intro i hi; rw [hdp]; unfold sectionOf; rw [if_neg (by omega), if_neg (by omega), if_pos (by omega)])
    (by
      intro x t hxt
      rw [hdp]; unfold sectionOf
      rw [if_neg (by omega), if_neg (by omega), if_neg (by omega)]
      cases hns : m.ns with
      | cons r l =>
        rw [hns] at hxt; simp at hxt
        rw [if_pos (by simp; omega), ← hxt.1]; rfl
      | nil =>
        rw [hns] at hxt; simp at hxt
        rw [if_neg (by simp)]
        cases har : m.ar with
        | nil => rw [har] at hxt; simp at hxt
        | cons r l =>
          rw [har] at hxt; simp at hxt
          rw [if_pos (by simp; omega), ← hxt.1]; rfl)
    (by simp only [List.length_append, List.length_map]; omega) (by omega)
    (by
      by_cases hend : m.an = [] ∧ m.ns.map (rItem .nameServer) ++ m.ar.map (rItem .additional) = []
      · rw [if_pos hend]
        obtain ⟨e1, e2⟩ := hend
        simp at e2
        exact next_end hp1 (by simp [hnum, hall, e1, e2.1, e2.2])
      · rw [if_neg hend]
        have hpos : m.qs.length < (Msg.counts m).all := by
          rw [hall]
          rcases Nat.eq_zero_or_pos (m.an.length + m.ns.length + m.ar.length) with h0 | h0
          · exfalso; apply hend
            have e1 := List.length_eq_zero_iff.mp (show m.an.length = 0 by omega)
            have e2 := List.length_eq_zero_iff.mp (show m.ns.length = 0 by omega)
            have e3 := List.length_eq_zero_iff.mp (show m.ar.length = 0 by omega)
            simp [e1, e2, e3]
          · omega
        rw [hnx hpos m.bytes (by
          rw [show 12 + (qBytes m.qs).length = (m.header ++ qBytes m.qs).length by simp [h12],
            show m.bytes = (m.header ++ qBytes m.qs) ++ (rrBytes m.an ++ (rrBytes m.ns ++ rrBytes m.ar)) by simp [Msg.bytes, Msg.body],
            List.take_left])]
        rw [List.length_append, h12])
  rw [hts, List.length_append, h12] at this
  exact this

/-- C09.  Compressing a reply with any questions (at least one), answers, authority and additional records: the
result is a valid message, not longer, with the same header, questions, authority and additional
records, and the same number of answers; each answer keeps its type, class, TTL and data; and the owner
of each answer of class IN decodes to the target of the last alias before it, or to the first
question's name. -/
theorem compress_meaning (m : Msg) (q : Question) {more : List Question} (hm : m.Valid) (hq : m.qs = q :: more)
    (hlen : m.bytes.length < 16384) (hroot : ∀ r ∈ m.an, r.klass = 1 → r.name ≠ [0]) :
    ∃ m' : Msg, compress m.bytes = some ((m'.bytes.length : Int), m'.bytes) ∧ m'.Valid ∧
      m'.head = m.head ∧ m'.qs = m.qs ∧ m'.ns = m.ns ∧ m'.ar = m.ar ∧ m'.an.length = m.an.length ∧
      m'.bytes.length ≤ m.bytes.length ∧
      ∀ i r r', m.an[i]? = some r → m'.an[i]? = some r' →
        r'.type = r.type ∧ r'.klass = r.klass ∧ r'.ttl = r.ttl ∧ r'.rdata = r.rdata ∧
        (r.klass ≠ 1 → r'.name = r.name) ∧
        (r.klass = 1 → ∀ ls, (∀ l ∈ ls, 1 ≤ l.length ∧ l.length ≤ 63) →
          wire ls = ownerOf q.name (m.an.take i) →
          Denotes (memOf m'.bytes) m'.bytes.length
            (12 + (qBytes m'.qs).length + (rrBytes (m'.an.take i)).length) ls 2) := by
  obtain ⟨b', hb', hcomp⟩ := (compress_msg m q hm hq hlen).1 hroot
  have h12 := header_length hm
  have hsl := shorten_length (12 + (qBytes m.qs).length) 12 m.an
  have hle : b'.length ≤ m.bytes.length := by
    have key : ∀ (rs : List RR) p last, (∀ r ∈ rs, r.Valid) → (∀ r ∈ rs, r.klass = 1 → r.name ≠ [0]) →
        (rrBytes (shorten p last rs)).length ≤ (rrBytes rs).length := by
      intro rs
      induction rs with
      | nil => intros; simp [shorten]
      | cons x rs ih =>
        intro p last hv hr
        have hcons : ∀ (a : RR) l, rrBytes (a :: l) = a.bytes ++ rrBytes l := fun a l => by simp [rrBytes]
        have hpl : (makePointer last).length = 2 := rfl
        unfold shorten
        split
        · rename_i hk
          have := wireName_two (hv x (by simp)).1 (hr x (by simp) hk)
          have h2 := ih (p + 12 + x.rdata.length) (if x.type = 5 then p + 12 else last)
            (fun y hy => hv y (by simp [hy])) (fun y hy => hr y (by simp [hy]))
          simp only [hcons, List.length_append, rr_bytes_length, hpl]; omega
        · have h2 := ih (p + x.bytes.length) last
            (fun y hy => hv y (by simp [hy])) (fun y hy => hr y (by simp [hy]))
          simp only [hcons, List.length_append]; omega
    have := key m.an (12 + (qBytes m.qs).length) 12 hm.an hroot
    rw [hb', Msg.bytes, Msg.body]; simp only [List.length_append]; omega
  have hbytes : ({ m with an := shorten (12 + (qBytes m.qs).length) 12 m.an } : Msg).bytes = b' := by
    rw [hb']
    simp [Msg.bytes, Msg.header, Msg.body, hsl]
  refine ⟨{ m with an := shorten (12 + (qBytes m.qs).length) 12 m.an }, ?_, ?_, rfl, rfl, rfl, rfl, hsl, ?_, ?_⟩
  · rw [hbytes]; exact hcomp
  · refine ⟨hm.head, hm.qs, ?_, hm.ns, hm.ar, hm.qd16, by rw [hsl]; exact hm.an16, hm.ns16, hm.ar16⟩
    apply shorten_valid _ _ _ hm.an (by omega)
    rw [hb'] at hle
    simp only [List.length_append, h12] at hle
    omega
  · rw [hbytes]; exact hle
  · intro i r r' hr hr'
    obtain ⟨e1, e2, e3, e4, e5⟩ := shorten_same _ _ _ i r r' hr hr'
    refine ⟨e1, e2, e3, e4, e5, fun hk ls hls hw => ?_⟩
    rw [hbytes]
    have hpre : (m.header ++ qBytes m.qs).length = 12 + (qBytes m.qs).length := by rw [List.length_append, h12]
    have hqn : b' = m.header ++ (q.name ++ ((u16 q.type ++ u16 q.klass) ++ qBytes more ++
        (rrBytes (shorten (12 + (qBytes m.qs).length) 12 m.an) ++ (rrBytes m.ns ++ rrBytes m.ar)))) := by
      rw [hb']; simp [Question.bytes, hq, qBytes]
    obtain ⟨loc, h1, h2, h3, h4⟩ := shorten_points m.an (m.header ++ qBytes m.qs) (rrBytes m.ns ++ rrBytes m.ar)
      q.name 12 i r b' (by rw [hpre]; exact hb') (by omega)
      (by rw [hqn]; simp only [List.length_append, h12]; omega)
      (memOf_mid hqn h12.symm) hr hk
    rw [hpre] at h3 h4
    rw [← hw] at h1 h2
    have hlt : loc < 16384 := by
      have : 1 ≤ (wire ls).length := by cases ls <;> simp [wire]
      omega
    refine Denotes.pointer _ loc ls (wire ls).length h4 hlt ?_ ?_ (denotes_wire hls h2 h1)
    · simpa [makePointer] using h3 0 (by simp [makePointer])
    · simpa [makePointer] using h3 1 (by simp [makePointer])

/-- With a root-owned answer of class IN the reply is not compressed but given up. -/
theorem compress_root_refused (m : Msg) (q : Question) {more : List Question} (hm : m.Valid) (hq : m.qs = q :: more)
    (hlen : m.bytes.length < 16384) (h : ∃ r ∈ m.an, r.klass = 1 ∧ r.name = [0]) :
    ∃ b', compress m.bytes = some (-4, b') := (compress_msg m q hm hq hlen).2 h

/-- Non-vacuity: an alias and an address, both named `a`. -/
example : compress ({ exMsg with an := [⟨[1, 97, 0], 5, 1, 60, [1, 98, 0]⟩, ⟨[1, 97, 0], 1, 1, 60, [1, 2, 3, 4]⟩] } : Msg).bytes =
    some (50, [0, 1, 0x81, 0x80, 0, 1, 0, 2, 0, 0, 0, 0, 1, 97, 0, 0, 1, 0, 1,
      0xC0, 12, 0, 5, 0, 1, 0, 0, 0, 60, 0, 3, 1, 98, 0,
      0xC0, 31, 0, 1, 0, 1, 0, 0, 0, 60, 0, 4, 1, 2, 3, 4]) := by decide +kernel

/-! ### C15: regenerating cached data -/

theorem text_no_zero {ls : List (List Byte)} (h : ValidName ls) : ∀ c ∈ text ls, c ≠ 0 := by
  induction ls with
  | nil => simp [text]
  | cons l ls ih =>
    have hl := (h l (by simp)).2.2
    have ih' := ih (fun x hx => h x (by simp [hx]))
    cases ls with
    | nil => intro c hc; simp [text] at hc; exact (hl c hc).2
    | cons l' ls =>
      intro c hc
      simp only [text, List.mem_append, List.mem_cons] at hc
      rcases hc with hc | rfl | hc
      · exact (hl c hc).2
      · decide
      · exact ih' c hc

theorem cstr_text {ls : List (List Byte)} (h : ValidName ls) (rest : List Byte) :
    cstr (text ls ++ 0 :: rest) = text ls := by
  have := text_no_zero h
  unfold cstr
  rw [List.takeWhile_append_of_pos (by intro c hc; simpa using this c hc)]
  simp

/-- The data the cache keeps for a record: address and opaque data as they are, names as text. -/
def cachedForm : Rec → List Byte
  | .a _ addr _ => addr
  | .aaaa _ addr _ => addr
  | .raw _ _ _ d _ => d
  | .alias _ tgt _ => text tgt ++ [0]
  | .mx _ p tgt _ => u16 p ++ (text tgt ++ [0])
  | .edns _ => []

/-- Regenerating the cached data of an alias, a mail exchange or an opaque (A, AAAA, HTTPS, TXT) record
is appending that record. -/
theorem generate_exact (g : Gen) (k : Nat) :
    (∀ o t d ttl, t = 1 ∨ t = 28 ∨ t = 65 ∨ t = 16 →
      generate g (text o) t k (cachedForm (.raw o t k d ttl)) ttl = append g (.raw o t k d ttl)) ∧
    (∀ o tgt ttl, ValidName tgt →
      generate g (text o) 5 k (cachedForm (.alias o tgt ttl)) ttl = append g (.alias o tgt ttl)) ∧
    (∀ o p tgt ttl, ValidName tgt → p < 65536 →
      generate g (text o) 15 k (cachedForm (.mx o p tgt ttl)) ttl = append g (.mx o p tgt ttl)) := by
  refine ⟨?_, ?_, ?_⟩
  · intro o t d ttl ht
    unfold generate
    rw [if_pos ht]; rfl
  · intro o tgt ttl hv
    unfold generate
    rw [if_neg (by omega), if_pos (by omega), if_pos (by simp [cachedForm])]
    simp only [cachedForm, cstr_text hv []]
    rfl
  · intro o p tgt ttl hv hp
    unfold generate
    rw [if_neg (by omega), if_neg (by omega), if_pos rfl, if_pos (by simp [cachedForm, u16])]
    have h1 : get16 (u16 p ++ (text tgt ++ [0])) 0 = p := by
      have := get16_eq (pre := []) (post := text tgt ++ [0]) (i := 0) (n := p) rfl hp
      simpa using this
    have h2 : (u16 p ++ (text tgt ++ [0])).drop 2 = text tgt ++ [0] := by simp [u16]
    simp only [cachedForm, h1, h2, cstr_text hv []]
    rfl

/-- The types the cache accepts (A, NS, CNAME, PTR, MX, TXT, AAAA, HTTPS). -/
def Cacheable (t : Nat) : Prop := t = 1 ∨ t = 2 ∨ t = 5 ∨ t = 12 ∨ t = 15 ∨ t = 16 ∨ t = 28 ∨ t = 65

/-- C15, the full claim: whatever cacheable type is regenerated, the record appended has that type. -/
def TypeKept : Prop := ∀ (g g' : Gen) (m : Msg) (o : List (List Byte)) (t : Nat) (data : List Byte) (ttl : Nat),
  Holds g m .answer → ValidName o → Cacheable t → data ≠ [] →
  generate g (text o) t 1 data ttl = some (0, g') →
  ∃ r : RR, Holds g' (m.add .answer r) .answer ∧ r.type = t

theorem add_inj_bytes {m : Msg} {r r' : RR} (hr : r.Valid) (hr' : r'.Valid)
    (h : (m.add .answer r).bytes = (m.add .answer r').bytes) : r.type = r'.type := by
  have e : r.bytes ++ (rrBytes m.ns ++ rrBytes m.ar) = r'.bytes ++ (rrBytes m.ns ++ rrBytes m.ar) := by
    simpa [Msg.add, Msg.bytes, Msg.header, Msg.body, rrBytes] using h
  have e2 := List.append_cancel_right e
  have s1 := skip_wireName hr.1 (u16 r.type ++ (u16 r.klass ++ (u32 r.ttl ++ (u16 r.rdata.length ++ r.rdata))))
  have s2 := skip_wireName hr'.1 (u16 r'.type ++ (u16 r'.klass ++ (u32 r'.ttl ++ (u16 r'.rdata.length ++ r'.rdata))))
  have s12 : some r.name.length = some r'.name.length := by rw [← s1, ← s2]; congr 1
  have t1 := u16At_eq (b := r.bytes) (pre := r.name) (n := r.type) (i := r.name.length)
    (post := u16 r.klass ++ (u32 r.ttl ++ (u16 r.rdata.length ++ r.rdata))) rfl rfl hr.2.2.1
  have t2 := u16At_eq (b := r'.bytes) (pre := r'.name) (n := r'.type) (i := r'.name.length)
    (post := u16 r'.klass ++ (u32 r'.ttl ++ (u16 r'.rdata.length ++ r'.rdata))) rfl rfl hr'.2.2.1
  rw [e2, Option.some.inj s12, t2] at t1
  exact (Option.some.inj t1).symm

/-- C15 is false of the code: a cached PTR record is answered as a CNAME record. -/
theorem type_kept_false : ¬ TypeKept := by
  intro h
  have hex : append ⟨64, exMsg.bytes, 6⟩ (.alias [[97]] [[98]] 60) =
      some (0, ⟨64, (exMsg.add .answer ⟨[1, 97, 0], 5, 1, 60, [1, 98, 0]⟩).bytes, 6⟩) := by decide +kernel
  have hgen : generate ⟨64, exMsg.bytes, 6⟩ (text [[97]]) 12 1 [98, 0] 60 =
      some (0, ⟨64, (exMsg.add .answer ⟨[1, 97, 0], 5, 1, 60, [1, 98, 0]⟩).bytes, 6⟩) := by
    rw [← hex]; decide +kernel
  obtain ⟨r, hr, ht⟩ := h ⟨64, exMsg.bytes, 6⟩ _ exMsg [[97]] 12 [98, 0] 60 (exHolds 64 (by omega)) exName
    (by simp [Cacheable]) (by simp) hgen
  have hrv : r.Valid := hr.valid.an r (by simp [Msg.add])
  have := add_inj_bytes (r := ⟨[1, 97, 0], 5, 1, 60, [1, 98, 0]⟩) (r' := r)
    ⟨.label [97] [0] (by simp) (by simp) .root, by simp, by simp, by simp, by simp, by simp, by simp⟩ hrv
    hr.out
  simp at this; omega

/-- C15, partial: for A, AAAA, HTTPS, TXT, CNAME and MX the regenerated record is the record that was
cached, type included.  Missing: PTR and NS. -/
theorem regenerated_partial (g : Gen) (m : Msg) (r : Rec) (hg : Holds g m .answer) (hv : r.Valid)
    (hc : m.count .answer < 65535) (hroom : m.bytes.length + r.rr.bytes.length ≤ g.cap)
    (hk : match r with
      | .raw _ t k _ _ => (t = 1 ∨ t = 28 ∨ t = 65 ∨ t = 16) ∧ k = 1
      | .alias _ tgt _ => ValidName tgt
      | .mx .. => True
      | _ => False) :
    ∃ g', generate g (text r.owner) r.rr.type r.rr.klass (cachedForm r) r.rr.ttl = some (0, g') ∧
      Holds g' (m.add .answer r.rr) .answer := by
  have hf : r.Fits .answer := by cases r <;> simp [Rec.Fits] at hk ⊢
  obtain ⟨g', h1, h2, _⟩ := append_exact g m .answer r hg hv hf hc hroom
  refine ⟨g', ?_, h2⟩
  rw [← h1]
  cases r with
  | raw o t k d ttl => exact (generate_exact g k).1 o t d ttl hk.1
  | alias o tgt ttl => exact (generate_exact g 1).2.1 o tgt ttl hk
  | mx o p tgt ttl => exact (generate_exact g 1).2.2 o p tgt ttl hv.2.1 hv.2.2.2.1
  | a => exact absurd hk id
  | aaaa => exact absurd hk id
  | edns => exact absurd hk id

example : ∃ g', generate ⟨64, exMsg.bytes, 6⟩ (text [[97]]) 15 1 (cachedForm (.mx [[97]] 10 [[98]] 60)) 60 =
    some (0, g') ∧ g'.out = (exMsg.add .answer ⟨[1, 97, 0], 15, 1, 60, [0, 10, 1, 98, 0]⟩).bytes :=
  ⟨_, rfl, by decide +kernel⟩

/-! ### Adding EDNS to a query -/

/-- The full claim: adding EDNS to a query ends, and adds exactly one OPT record. -/
def EdnsAdded : Prop := ∀ (cap : Nat) (m : Msg), m.Valid → m.qs ≠ [] → m.ar.length < 65535 →
  m.bytes.length + 11 ≤ cap →
  ∃ n g, addFakeEdns cap m.bytes n = some g ∧ g.out = (m.add .additional ⟨[0], 41, 1280, 0, []⟩).bytes

theorem toAdditional_stuck (n : Nat) (g : Gen) (h : g.num = 10 ∨ g.num = 12) : toAdditional n g = none := by
  induction n generalizing g with
  | zero => rfl
  | succ n ih =>
    unfold toAdditional nextPurpose
    rcases h with h | h
    · simp only [h, purposeOf]
      simp
      exact ih _ (by simp)
    · simp only [h, purposeOf]
      simp
      exact ih _ (by simp [h])

def signedMsg : Msg := ⟨exMsg.head, exMsg.qs, [], [], [⟨[0], 250, 255, 0, []⟩]⟩

theorem signedMsg_valid : signedMsg.Valid := by
  have := exMsg_valid
  exact ⟨this.head, this.qs, by simp [signedMsg], by simp [signedMsg], by
    simpa [signedMsg] using ⟨.root, by simp, by simp, by simp, by simp, by simp, by simp⟩, this.qd16,
    by simp [signedMsg], by simp [signedMsg], by simp [signedMsg]⟩

/-- It is false: for a query that already has an additional record (a TSIG signature, say) but no EDNS,
the search for the additional section never ends. -/
theorem edns_added_false : ¬ EdnsAdded := by
  intro h
  obtain ⟨n, g, h1, _⟩ := h 64 signedMsg signedMsg_valid (by simp [signedMsg, exMsg]) (by simp [signedMsg])
    (by decide +kernel)
  have hi : initFrom 64 signedMsg.bytes signedMsg.bytes.length false =
      some ⟨64, signedMsg.bytes, 10⟩ := by decide +kernel
  unfold addFakeEdns at h1
  rw [hi] at h1
  simp [toAdditional_stuck n ⟨64, signedMsg.bytes, 10⟩ (Or.inl rfl)] at h1

theorem toAdditional_reaches (g : Gen) (h : g.num = 4 ∨ g.num = 6 ∨ g.num = 8) :
    toAdditional 3 g = some { g with num := 10 } := by
  rcases h with h | h | h <;> simp [toAdditional, nextPurpose, h, purposeOf]

/-- Partial: for a query without additional records it ends (in three rounds) and adds exactly one OPT
record announcing 1280 bytes.  Missing: queries with additional records. -/
theorem edns_added_partial (cap : Nat) (m : Msg) (hm : m.Valid) (har : m.ar = [])
    (hcap : m.bytes.length + 11 ≤ cap) :
    ∃ g, addFakeEdns cap m.bytes 3 = some g ∧ g.out = (m.add .additional ⟨[0], 41, 1280, 0, []⟩).bytes := by
  have h12 : 12 ≤ m.bytes.length := by rw [Msg.bytes, List.length_append, header_length hm]; omega
  have hc := counts_eq hm []
  rw [List.append_nil] at hc
  have hi : initFrom cap m.bytes m.bytes.length false = some ⟨cap, m.bytes, lastSection (Msg.counts m)⟩ := by
    unfold initFrom
    rw [hc]
    simp only [Bool.false_eq_true, if_false, List.take_length]
    rw [if_pos ⟨by omega, Nat.le_refl _, h12⟩]
  have hnum : lastSection (Msg.counts m) = 4 ∨ lastSection (Msg.counts m) = 6 ∨
      lastSection (Msg.counts m) = 8 := by
    unfold lastSection
    rw [if_neg (by simp [Msg.counts, har])]
    split
    · simp
    · split <;> simp
  have hh : Holds ⟨cap, m.bytes, 10⟩ m .additional :=
    ⟨rfl, hm, rfl, trivial, by show m.bytes.length ≤ cap; omega⟩
  obtain ⟨g', h1, h2, _⟩ := append_exact _ m .additional (.edns 1280) hh ⟨by omega, by omega⟩ rfl
    (by simp [Msg.count, har]) (by simp [Rec.rr, rr_bytes_length]; omega)
  refine ⟨g', ?_, h2.out⟩
  unfold addFakeEdns
  rw [hi]
  simp only [toAdditional_reaches ⟨cap, m.bytes, lastSection (Msg.counts m)⟩ hnum]
  simp only [append, Option.some.injEq] at h1
  rw [h1]

example : ∃ g, addFakeEdns 64 exMsg.bytes 3 = some g ∧ g.out.length = 30 := ⟨_, rfl, by decide +kernel⟩

end Verif.Generator
