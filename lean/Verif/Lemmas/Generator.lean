import Verif.Model.Generator
import Verif.Lemmas.Parser
import Verif.Spec.Record
/-! Lemmas on the generator model. -/

namespace Verif.Generator
open Name Parser Message

theorem set16_eq (n : Nat) : set16 n = u16 n := rfl
theorem set32_eq (n : Nat) : set32 n = u32 n := rfl

theorem labelLoop_length (done : List Byte) (cnt : Byte) (cur s : List Byte) :
    (labelLoop done cnt cur s).length = done.length + cur.length + s.length + 2 := by
  induction s generalizing done cnt cur with
  | nil => simp [labelLoop]; omega
  | cons c s ih =>
    unfold labelLoop
    split
    · rw [ih]; simp; omega
    · rw [ih]; simp; omega

theorem labelize_length (s : List Byte) : (labelize s).length = labelLength s := by
  cases s with
  | nil => rfl
  | cons c s => simp [labelize, labelLength, labelLoop_length]

def total (fs : List (Int × List Byte)) : List Byte := (fs.map Prod.snd).flatten

theorem total_cons (f : Int × List Byte) (fs : List (Int × List Byte)) :
    total (f :: fs) = f.2 ++ total fs := by simp [total]

theorem writes_fit {g : Gen} {fs : List (Int × List Byte)} (h : g.out.length + (total fs).length ≤ g.cap) :
    writes g fs = (0, { g with out := g.out ++ total fs }) := by
  induction fs generalizing g with
  | nil => simp [writes, total]
  | cons f fs ih =>
    obtain ⟨code, bs⟩ := f
    rw [total_cons, List.length_append] at h
    unfold writes
    simp only at h
    rw [if_pos (by omega), ih (by simp only [List.length_append]; omega)]
    simp [total_cons]

theorem writes_unfit {g : Gen} {fs : List (Int × List Byte)} (hc : ∀ f ∈ fs, f.1 ≠ 0)
    (hg : g.out.length ≤ g.cap) (h : ¬ g.out.length + (total fs).length ≤ g.cap) :
    ∃ code junk, code ≠ 0 ∧ writes g fs = (code, { g with out := g.out ++ junk }) ∧
      junk <+: total fs ∧ g.out.length + junk.length ≤ g.cap := by
  induction fs generalizing g with
  | nil => simp [total] at h; omega
  | cons f fs ih =>
    obtain ⟨code, bs⟩ := f
    rw [total_cons, List.length_append] at h
    simp only at h
    unfold writes
    by_cases hb : g.out.length + bs.length ≤ g.cap
    · rw [if_pos hb]
      obtain ⟨code', junk, h1, h2, h3, h4⟩ := ih (g := { g with out := g.out ++ bs })
        (fun f hf => hc f (by simp [hf])) (by simpa using hb)
        (by simp only [List.length_append]; omega)
      refine ⟨code', bs ++ junk, h1, ?_, ?_, ?_⟩
      · rw [h2]; simp
      · rw [total_cons]; simpa using h3
      · simp at h4 ⊢; omega
    · rw [if_neg hb]
      exact ⟨code, [], hc (code, bs) (by simp), by simp, by simp, by simpa using hg⟩

theorem get16_eq {pre post : List Byte} {n i : Nat} (hi : i = pre.length) (hn : n < 65536) :
    get16 (pre ++ (u16 n ++ post)) i = n := by
  subst hi
  have h1 : (pre ++ (u16 n ++ post)).getD pre.length 0 = UInt8.ofNat (n / 256) := by
    simp [u16]
  have h2 : (pre ++ (u16 n ++ post)).getD (pre.length + 1) 0 = UInt8.ofNat n := by
    rw [List.getD_eq_getElem?_getD, List.getElem?_append_right (by omega)]
    simp [u16]
  unfold get16
  rw [h1, h2, u8n, u8n]
  omega

theorem overwrite_eq {pre old new post : List Byte} {i : Nat} (hi : i = pre.length)
    (hl : old.length = new.length) : overwrite (pre ++ (old ++ post)) i new = pre ++ (new ++ post) := by
  subst hi
  unfold overwrite
  have : (pre ++ (old ++ post)).drop (pre.length + new.length) = post := by
    rw [← hl, ← List.drop_drop, List.drop_left, List.drop_left]
  rw [this, List.take_left]
  simp

theorem bump_eq {g : Gen} {pre post : List Byte} {n : Nat} (hb : g.out = pre ++ (u16 n ++ post))
    (hi : g.num = pre.length) (hn : n < 65536) :
    bump g = { g with out := pre ++ (u16 (n + 1) ++ post) } := by
  unfold bump
  rw [hb, get16_eq hi hn, overwrite_eq (old := u16 n) (new := set16 (n + 1)) hi rfl]
  rfl

theorem wireName_wire {ls : List (List Byte)} (h : ValidName ls) : WireName (wire ls) := by
  induction ls with
  | nil => exact .root
  | cons l ls ih =>
    have hl := h l (by simp)
    exact .label l (wire ls) hl.1 hl.2.1 (ih (fun x hx => h x (by simp [hx])))

theorem qBytes_append (a b : List Question) : qBytes (a ++ b) = qBytes a ++ qBytes b := by
  simp [qBytes]
theorem rrBytes_append (a b : List RR) : rrBytes (a ++ b) = rrBytes a ++ rrBytes b := by
  simp [rrBytes]

theorem purposeOf_num (n : Nat) : (purposeOf n = .question → n = 4) ∧ (purposeOf n = .answer → n = 6) ∧
    (purposeOf n = .nameServer → n = 8) ∧ (purposeOf n = .additional → n = 10) := by
  unfold purposeOf
  by_cases h1 : n = 4 <;> by_cases h2 : n = 6 <;> by_cases h3 : n = 8 <;> by_cases h4 : n = 10 <;>
    simp [h1, h2, h3, h4] <;> omega

/-- Counting the appended record makes the bytes those of the larger message. -/
theorem bump_add {g : Gen} {m : Msg} {s : Purpose} {r : RR} (hm : m.Valid) (ho : m.OpenAt s)
    (hs : purposeOf g.num = s) (hq : s ≠ .question) (hb : g.out = m.bytes ++ r.bytes)
    (hc : m.count s < 65535) : bump g = { g with out := (m.add s r).bytes } := by
  have h4 := hm.head
  cases s with
  | unknown => exact absurd ho (by simp [Msg.OpenAt])
  | question => exact absurd rfl hq
  | answer =>
    have hnum : g.num = 6 := (purposeOf_num g.num).2.1 hs
    obtain ⟨o1, o2⟩ := ho
    simp only [Msg.count] at hc
    rw [bump_eq (pre := m.head ++ u16 m.qs.length) (n := m.an.length)
      (post := u16 m.ns.length ++ (u16 m.ar.length ++ (m.body ++ r.bytes)))
      (by simp [hb, Msg.bytes, Msg.header]) (by simp [u16_length, h4, hnum]) (by omega)]
    simp [Msg.add, Msg.bytes, Msg.header, Msg.body, o1, o2, rrBytes]
  | nameServer =>
    have hnum : g.num = 8 := (purposeOf_num g.num).2.2.1 hs
    have o1 : m.ar = [] := ho
    simp only [Msg.count] at hc
    rw [bump_eq (pre := m.head ++ (u16 m.qs.length ++ u16 m.an.length)) (n := m.ns.length)
      (post := (u16 m.ar.length ++ (m.body ++ r.bytes)))
      (by simp [hb, Msg.bytes, Msg.header]) (by simp [u16_length, h4, hnum]) (by omega)]
    simp [Msg.add, Msg.bytes, Msg.header, Msg.body, o1, rrBytes]
  | additional =>
    have hnum : g.num = 10 := (purposeOf_num g.num).2.2.2 hs
    simp only [Msg.count] at hc
    rw [bump_eq (pre := m.head ++ (u16 m.qs.length ++ (u16 m.an.length ++ u16 m.ns.length)))
      (n := m.ar.length) (post := (m.body ++ r.bytes))
      (by simp [hb, Msg.bytes, Msg.header]) (by simp [u16_length, h4, hnum]) (by omega)]
    simp [Msg.add, Msg.bytes, Msg.header, Msg.body, rrBytes]

/-- The calls of `Next` from `it` on: the iterators after each success, then NULL. -/
inductive Chain (b : List Byte) (len : Nat) (c : Counts) : Itr → List Itr → Prop where
  | nil {it e : Itr} (h : next b len c it = some (e, none)) : Chain b len c it []
  | cons {it it' : Itr} {p : Nat} {l : List Itr} (h : next b len c it = some (it', some p))
      (hp : it'.pos = some p) (ht : Chain b len c it' l) : Chain b len c it (it' :: l)

theorem chain_items {b : List Byte} {len : Nat} {c : Counts} (xs : List Item) :
    ∀ {pre post : List Byte} {it : Itr} {n : Nat},
    (∀ x ∈ xs, x.Ok) → b = pre ++ ((xs.map Item.bytes).flatten ++ post) →
    pre.length + ((xs.map Item.bytes).flatten).length ≤ len →
    (∀ i, (h : i < xs.length) → determinePurpose c (n + i) = xs[i].pu) → n + xs.length = c.all + 1 →
    next b len c it = (if xs = [] then some ({ it with pos := none, num := 0 }, none)
      else look b len c it pre.length n) →
    Chain b len c it (expect it.dataLen pre.length n xs) := by
  induction xs with
  | nil =>
    intro pre post it n _ _ _ _ _ hnext
    exact .nil (by simpa using hnext)
  | cons x xs ih =>
    intro pre post it n hok hb hlen hpu hn hnext
    simp only [List.map_cons, List.flatten_cons] at hb hlen
    simp only [List.length_cons] at hn
    have hx := hok x (by simp)
    have hb' : b = pre ++ (x.bytes ++ ((xs.map Item.bytes).flatten ++ post)) := by simp [hb]
    have h0 : determinePurpose c n = x.pu := hpu 0 (by simp)
    have hlook := look_item (len := len) (it := it) hx hb' (by omega) (show n ≤ c.all by omega) h0
    rw [if_neg (by simp), hlook] at hnext
    refine .cons hnext rfl ?_
    have := @ih (pre ++ x.bytes) post (x.itr it.dataLen pre.length n) (n + 1)
      (fun y hy => hok y (by simp [hy])) (by simp [hb]) (by simp at hlen ⊢; omega)
      (fun i hi => by
        have h1 : determinePurpose c (n + (i + 1)) = xs[i].pu := hpu (i + 1) (by simp; omega)
        rw [show n + 1 + i = n + (i + 1) by omega]; exact h1)
      (by omega) ?_
    · simpa using this
    · by_cases hxs : xs = []
      · rw [if_pos hxs]
        subst hxs
        simp at hn
        exact next_end rfl (by simp [Item.itr]; omega)
      · rw [if_neg hxs]
        have : 0 < xs.length := List.length_pos_iff.mpr hxs
        rw [next_item hx hb' (by omega)]
        simp

theorem stripLoop_chain {b : List Byte} {len : Nat} {c : Counts} {l : List Itr} :
    ∀ {it : Itr} {n : Nat}, Chain b len c it l → l.length < n →
    stripLoop b len c n it =
      match l.find? (fun x => decide (¬ (x.purpose = .question ∨ x.purpose = .answer))) with
      | some x => x.pos
      | none => some len := by
  induction l with
  | nil =>
    intro it n h hn
    obtain ⟨n, rfl⟩ : ∃ k, n = k + 1 := ⟨n - 1, by omega⟩
    cases h with
    | nil h => simp [stripLoop, h]
  | cons x l ih =>
    intro it n h hn
    obtain ⟨n, rfl⟩ : ∃ k, n = k + 1 := ⟨n - 1, by omega⟩
    cases h with
    | cons h hp ht =>
      simp only [stripLoop, h]
      by_cases hc : x.purpose = .question ∨ x.purpose = .answer
      · rw [if_pos hc, ih ht (by simp at hn; omega), List.find?_cons_of_neg (by rw [decide_eq_true_eq]; exact fun h => h hc)]
      · rw [if_neg hc, List.find?_cons_of_pos (by simpa using hc)]
        simp [hp]

/-! ### Compression -/

theorem makePointer_wireName {loc : Nat} (h : loc < 16384) : WireName (makePointer loc) := by
  apply WireName.pointer
  rw [u8n]; omega

theorem wireName_length_pos {nb : List Byte} (h : WireName nb) : 1 ≤ nb.length := by
  cases h <;> simp

theorem wireName_two {nb : List Byte} (h : WireName nb) (h0 : nb ≠ [0]) : 2 ≤ nb.length := by
  cases h with
  | root => exact absurd rfl h0
  | pointer => simp
  | label l rest h1 h2 hr => simp; omega

/-- What the loop makes of the answers still ahead at offset `p`. -/
def shorten (p last : Nat) : List RR → List RR
  | [] => []
  | r :: rs =>
    if r.klass = 1 then
      { r with name := makePointer last } ::
        shorten (p + 12 + r.rdata.length) (if r.type = 5 then p + 12 else last) rs
    else r :: shorten (p + r.bytes.length) last rs

theorem rr_bytes_length (r : RR) : r.bytes.length = r.name.length + 10 + r.rdata.length := by
  simp [RR.bytes, u16_length, u32_length]; omega

theorem compressLoop_items {c : Counts} (ts : List Item) (hts : ∀ x ∈ ts, x.Ok)
    (hta : ∀ x ∈ ts, x.pu ≠ .answer) (rs : List RR) :
    ∀ {b pre : List Byte} {it : Itr} {n fuel last : Nat},
    (∀ r ∈ rs, r.Valid) →
    b = pre ++ (rrBytes rs ++ (ts.map Item.bytes).flatten) → b.length < 16384 → last < 16384 →
    (∀ i, i < rs.length → determinePurpose c (n + i) = .answer) →
    (∀ x t, ts = x :: t → determinePurpose c (n + rs.length) = x.pu) →
    n + rs.length + ts.length = c.all + 1 → rs.length < fuel →
    next b b.length c it = (if rs = [] ∧ ts = [] then some ({ it with pos := none, num := 0 }, none)
      else look b b.length c it pre.length n) →
    ((∀ r ∈ rs, r.klass = 1 → r.name ≠ [0]) →
      ∃ b', b' = pre ++ (rrBytes (shorten pre.length last rs) ++ (ts.map Item.bytes).flatten) ∧
        compressLoop c fuel b it last = some ((b'.length : Int), b')) ∧
    ((∃ r ∈ rs, r.klass = 1 ∧ r.name = [0]) → ∃ b', compressLoop c fuel b it last = some (-4, b')) := by
  induction rs with
  | nil =>
    intro b pre it n fuel last _ hb hbl _ _ htp hn hf hnext
    obtain ⟨f, rfl⟩ : ∃ g, fuel = g + 1 := ⟨fuel - 1, by simp at hf; omega⟩
    refine ⟨fun _ => ⟨b, by simpa [shorten] using hb, ?_⟩, by simp⟩
    unfold compressLoop
    rw [hnext]
    cases hts' : ts with
    | nil => simp
    | cons x t =>
      rw [if_neg (by simp)]
      have hx := hts x (by simp [hts'])
      have hxa := hta x (by simp [hts'])
      rw [look_item (x := x) (post := (t.map Item.bytes).flatten) hx
        (by rw [hb, hts']; simp [rrBytes]) (by rw [hb]; simp)
        (by rw [hts'] at hn; simp at hn; omega) (by have := htp x t hts'; simpa using this)]
      exact if_pos hxa
  | cons r rs ih =>
    intro b pre it n fuel last hrv hb hbl hlast hra htp hn hf hnext
    obtain ⟨f, rfl⟩ : ∃ g, fuel = g + 1 := ⟨fuel - 1, by omega⟩
    have hv := hrv r (by simp)
    have hx : (rItem .answer r).Ok := rItem_ok hv (by simp) (by simp)
    have hrr : rrBytes (r :: rs) = r.bytes ++ rrBytes rs := by simp [rrBytes]
    have hb1 : b = pre ++ ((rItem .answer r).bytes ++ (rrBytes rs ++ (ts.map Item.bytes).flatten)) := by
      rw [hb, hrr, rItem_bytes]; simp
    simp only [List.length_cons] at hn hf hra htp
    have hlook := look_item (len := b.length) (it := it) hx hb1 (by rw [hb]; simp)
      (show n ≤ c.all by omega) (hra 0 (by omega))
    rw [if_neg (by simp), hlook] at hnext
    have hsk : skipAt b pre.length = some r.name.length :=
      skipAt_eq (nb := r.name) (post := u16 r.type ++ (u16 r.klass ++ (u32 r.ttl ++
        (u16 r.rdata.length ++ (r.rdata ++ (rrBytes rs ++ (ts.map Item.bytes).flatten))))))
        (by rw [hb, hrr]; simp [RR.bytes]) rfl hv.1
    -- the state after this record, whatever its owner has become
    have step : ∀ (r' : RR) (last' : Nat), r'.Valid → r'.type = r.type → r'.klass = r.klass →
        r'.rdata = r.rdata → last' < 16384 →
        (pre ++ (r'.bytes ++ (rrBytes rs ++ (ts.map Item.bytes).flatten))).length < 16384 →
        ((∀ x ∈ rs, x.klass = 1 → x.name ≠ [0]) →
          ∃ b', b' = (pre ++ r'.bytes) ++ (rrBytes (shorten (pre ++ r'.bytes).length last' rs) ++
              (ts.map Item.bytes).flatten) ∧
            compressLoop c f (pre ++ (r'.bytes ++ (rrBytes rs ++ (ts.map Item.bytes).flatten)))
              ((rItem .answer r).itr it.dataLen pre.length n) last' = some ((b'.length : Int), b')) ∧
        ((∃ x ∈ rs, x.klass = 1 ∧ x.name = [0]) →
          ∃ b', compressLoop c f (pre ++ (r'.bytes ++ (rrBytes rs ++ (ts.map Item.bytes).flatten)))
              ((rItem .answer r).itr it.dataLen pre.length n) last' = some (-4, b')) := by
      intro r' last' hv' e1 e2 e3 hl' hlen'
      have hx' : (rItem .answer r').Ok := rItem_ok hv' (by simp) (by simp)
      have hitr : (rItem .answer r).itr it.dataLen pre.length n =
          (rItem .answer r').itr it.dataLen pre.length n := by
        simp [rItem, Item.itr, e1, e2, e3]
      refine @ih _ (pre ++ r'.bytes) _ (n + 1) f last' (fun x hx => hrv x (by simp [hx])) (by simp)
        hlen' hl' ?_ ?_ (by omega) (by omega) ?_
      · intro i hi
        rw [show n + 1 + i = n + (i + 1) by omega]; exact hra (i + 1) (by omega)
      · intro x t ht
        rw [show n + 1 + rs.length = n + (rs.length + 1) by omega]; exact htp x t ht
      · by_cases hend : rs = [] ∧ ts = []
        · rw [if_pos hend]
          obtain ⟨rfl, rfl⟩ := hend
          exact next_end rfl (by simp [Item.itr] at hn ⊢; omega)
        · rw [if_neg hend, hitr]
          have : 0 < rs.length + ts.length := by
            rcases Nat.eq_zero_or_pos (rs.length + ts.length) with h0 | h0
            · exact absurd ⟨List.length_eq_zero_iff.mp (by omega), List.length_eq_zero_iff.mp (by omega)⟩ hend
            · exact h0
          rw [next_item hx' (post := rrBytes rs ++ (ts.map Item.bytes).flatten)
            (by rw [rItem_bytes]) (by omega), rItem_bytes]
          simp
    have hunf : compressLoop c (f + 1) b it last =
        if r.klass ≠ 1 then
          compressLoop c f b ((rItem .answer r).itr it.dataLen pre.length n) last
        else if r.name.length < 2 then some (-4, b)
        else compressLoop c f (b.take pre.length ++ (makePointer last ++ b.drop (pre.length + r.name.length)))
          ((rItem .answer r).itr it.dataLen pre.length n)
          (if r.type = 5 then pre.length + 2 + 10 else last) := by
      rw [compressLoop, hnext]
      show (if Purpose.answer ≠ .answer then _ else if r.klass ≠ 1 then _ else _) = _
      rw [if_neg (by simp)]
      simp only [hsk]
      rfl
    rw [hunf]
    by_cases hk : r.klass = 1
    · by_cases hroot : r.name = [0]
      · refine ⟨fun h => absurd hroot (h r (by simp) hk), fun _ => ⟨b, ?_⟩⟩
        rw [if_neg (by simpa using hk), if_pos (by simp [hroot])]
      · have h2 := wireName_two hv.1 hroot
        rw [if_neg (by simpa using hk), if_neg (by omega)]
        have hb2 : b = pre ++ (r.name ++ (u16 r.type ++ (u16 r.klass ++ (u32 r.ttl ++
            (u16 r.rdata.length ++ r.rdata)))) ++ (rrBytes rs ++ (ts.map Item.bytes).flatten)) := by
          rw [hb, hrr]; simp [RR.bytes]
        have hnew : b.take pre.length ++ (makePointer last ++ b.drop (pre.length + r.name.length)) =
            pre ++ (({ r with name := makePointer last } : RR).bytes ++
              (rrBytes rs ++ (ts.map Item.bytes).flatten)) := by
          rw [hb2, ← List.drop_drop, List.drop_left, List.take_left]
          simp [RR.bytes]
        have hpl : (makePointer last).length = 2 := rfl
        have hlen1 : (pre ++ (({ r with name := makePointer last } : RR).bytes ++
            (rrBytes rs ++ (ts.map Item.bytes).flatten))).length ≤ b.length := by
          rw [hb, hrr]
          simp only [List.length_append, rr_bytes_length, hpl]; omega
        rw [hnew]
        have hv' : ({ r with name := makePointer last } : RR).Valid :=
          ⟨makePointer_wireName hlast, hv.2⟩
        have hplen : (pre ++ ({ r with name := makePointer last } : RR).bytes).length =
            pre.length + 12 + r.rdata.length := by
          simp only [List.length_append, rr_bytes_length, hpl]; omega
        obtain ⟨s1, s2⟩ := step { r with name := makePointer last }
          (if r.type = 5 then pre.length + 2 + 10 else last) hv' rfl rfl rfl
          (by
            split
            · simp only [List.length_append, rr_bytes_length, hpl] at hlen1; omega
            · exact hlast) (by omega)
        refine ⟨fun h => ?_, fun h => ?_⟩
        · obtain ⟨b', h1, h2⟩ := s1 (fun x hx => h x (by simp [hx]))
          refine ⟨b', ?_, h2⟩
          rw [h1, hplen]
          simp [shorten, hk, rrBytes]
        · refine s2 ?_
          obtain ⟨x, hx, h1, h3⟩ := h
          rcases List.mem_cons.mp hx with rfl | hx
          · exact absurd h3 hroot
          · exact ⟨x, hx, h1, h3⟩
    · rw [if_pos (by simpa using hk)]
      have hbb : b = pre ++ (r.bytes ++ (rrBytes rs ++ (ts.map Item.bytes).flatten)) := by
        rw [hb, hrr]; simp
      obtain ⟨s1, s2⟩ := step r last hv rfl rfl rfl hlast (by rw [← hbb]; exact hbl)
      rw [← hbb] at s1 s2
      refine ⟨fun h => ?_, fun h => ?_⟩
      · obtain ⟨b', h1, h2⟩ := s1 (fun x hx => h x (by simp [hx]))
        refine ⟨b', ?_, h2⟩
        rw [h1, List.length_append]
        simp [shorten, hk, rrBytes]
      · refine s2 ?_
        obtain ⟨x, hx, h1, h2⟩ := h
        rcases List.mem_cons.mp hx with rfl | hx
        · exact absurd h1 hk
        · exact ⟨x, hx, h1, h2⟩

/-- `DNSGetHostName` with the message but without a buffer gives the length in place (dnsgenerator.c
72), as `skip` does. -/
theorem skip_eq_getName {b : List Byte} {p k : Nat} (h : skipAt b p = some k) :
    ∃ f0, ∀ f, f0 ≤ f → (getHostName (fun i => b.getD i 0) b.length p none f).out = .ok k [] := by
  have key : ∀ (m : Nat) (b : List Byte) (p k n : Nat), b.length - p ≤ m → skip (b.drop p) = some k →
      ∃ f0, ∀ f, f0 ≤ f →
        (getLoop (fun i => b.getD i 0) true b.length none f p [] n false).out = .ok (n + k) [] := by
    intro m
    induction m with
    | zero =>
      intro b p k n hm h
      rw [List.drop_eq_nil_of_le (by omega)] at h
      simp [skip] at h
    | succ m ih =>
      intro b p k n hm h
      by_cases hp : p < b.length
      · rw [List.drop_eq_getElem_cons hp, skip] at h
        have hmem : b.getD p 0 = b[p] := by simp [List.getD_eq_getElem?_getD, hp]
        by_cases h0 : b[p] = 0
        · rw [if_pos h0] at h
          refine ⟨1, fun f hf => ?_⟩
          obtain ⟨f, rfl⟩ : ∃ g, f = g + 1 := ⟨f - 1, by omega⟩
          simp only [getLoop, hmem, h0, if_true, finish]
          simp at h; subst h; simp
        · rw [if_neg h0] at h
          by_cases hq : isPtr b[p] = true
          · rw [if_pos hq] at h
            refine ⟨1, fun f hf => ?_⟩
            obtain ⟨f, rfl⟩ : ∃ g, f = g + 1 := ⟨f - 1, by omega⟩
            simp only [getLoop, hmem, h0, if_false, hq, if_true, finish]
            simp at h; subst h; simp
          · rw [if_neg hq] at h
            rw [List.drop_drop] at h
            cases hk : skip (b.drop (p + 1 + b[p].toNat)) with
            | none => simp [hk] at h
            | some k' =>
              simp only [hk, Option.map_some, Option.some.injEq] at h
              have hin : p + 1 + b[p].toNat < b.length := by
                by_cases hlt : p + 1 + b[p].toNat < b.length
                · exact hlt
                · rw [List.drop_eq_nil_of_le (by omega)] at hk; simp [skip] at hk
              obtain ⟨f0, hf0⟩ := ih b (p + 1 + b[p].toNat) k' (n + (b[p].toNat + 1)) (by omega) hk
              refine ⟨f0 + 1, fun f hf => ?_⟩
              obtain ⟨f, rfl⟩ : ∃ g, f = g + 1 := ⟨f - 1, by omega⟩
              have hnot : ¬ (p + b[p].toNat > b.length) := by omega
              simp only [getLoop, hmem, h0, if_false, hq, Bool.false_eq_true, hnot, and_false, Result.after]
              rw [hf0 f (by omega)]
              congr 1; omega
      · rw [List.drop_eq_nil_of_le (by omega)] at h
        simp [skip] at h
  obtain ⟨f0, hf⟩ := key (b.length - p) b p k 0 (by omega) h
  exact ⟨f0, fun f h => by unfold getHostName; rw [hf f h]; simp⟩

end Verif.Generator
