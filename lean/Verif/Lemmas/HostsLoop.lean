import Verif.Lemmas.DnsCacheReply
import Verif.Lemmas.ParserWalk
import Verif.Spec.HostsLoop
import Verif.Model.HostsLoop
/-! Lemmas for `Props/HostsLoop.lean`. -/

namespace Verif.HostsLoop
open Message Name Parser Generator DnsCache DnsCache.Spec Spec Verif.Msg

variable {Addr : Type}

/-- `DNSCopyLable` writes the name in full, if no byte of it looks like a pointer. -/
theorem copyLabel_bytes {mem : Nat → Byte} (bs : List Byte) : ∀ {p fuel : Nat} {r : List Byte}, At mem p bs →
    (∀ c ∈ bs, c ≠ 0 ∧ c.toNat < 192) → copyLabel mem fuel p = some r →
    ∃ f' r', fuel = f' + bs.length ∧ copyLabel mem f' (p + bs.length) = some r' ∧ r = bs ++ r' := by
  induction bs with
  | nil => intro p fuel r _ _ e; exact ⟨fuel, r, rfl, e, rfl⟩
  | cons c bs ih =>
    intro p fuel r h hc e
    obtain ⟨h1, h2⟩ := At.cons.1 h
    obtain ⟨c1, c2⟩ := hc c (by simp)
    cases fuel with
    | zero => cases e
    | succ fuel =>
      unfold copyLabel at e
      rw [if_neg (by rw [h1, isPtr_iff]; omega), if_neg (by rw [h1]; exact c1)] at e
      obtain ⟨r1, e1, rfl⟩ := Option.map_eq_some_iff.1 e
      obtain ⟨f', r', g1, g2, g3⟩ := ih h2 (fun x hx => hc x (by simp [hx])) e1
      refine ⟨f', r', by simp; omega, ?_, by rw [g3, h1]; rfl⟩
      rw [List.length_cons, show p + (bs.length + 1) = p + 1 + bs.length by omega]
      exact g2

theorem copyLabel_denotes {mem : Nat → Byte} {len p k : Nat} {ls : List (List Byte)} (h : Denotes mem len p ls k)
    (hz : ∀ l ∈ ls, ∀ c ∈ l, c ≠ 0) (hs : Simple ls) : ∀ {fuel : Nat} {r : List Byte}, copyLabel mem fuel p = some r → r = wire ls := by
  induction h with
  | root p h hp =>
    intro fuel r e
    cases fuel with
    | zero => cases e
    | succ fuel =>
      unfold copyLabel at e
      rw [if_neg (by rw [h, isPtr_iff]; decide), if_pos h] at e
      cases e
      rfl
  | label p l ls k h1 h2 hc hl hp hr ih =>
    intro fuel r e
    have e1 := copyLabel_bytes (mem := mem) (UInt8.ofNat l.length :: l) (p := p) (At.cons.2 ⟨hc, hl⟩) (by
      intro c hc
      rcases List.mem_cons.1 hc with rfl | hc
      · have := u8_ofNat_toNat (n := l.length) (by omega)
        refine ⟨fun h => ?_, by omega⟩
        rw [h] at this
        simp at this; omega
      · exact ⟨hz l (by simp) c hc, hs l (by simp) c hc⟩) e
    obtain ⟨f', r', _, g2, rfl⟩ := e1
    rw [List.length_cons, show p + (l.length + 1) = p + 1 + l.length by omega] at g2
    rw [ih (fun x hx => hz x (by simp [hx])) (fun x hx => hs x (by simp [hx])) g2]
    simp [wire]
  | pointer p q ls k hp hq hc hd hr ih =>
    intro fuel r e
    cases fuel with
    | zero => cases e
    | succ fuel =>
      unfold copyLabel at e
      have c1 : (mem p).toNat = 192 + q / 256 := by rw [hc]; exact u8_ofNat_toNat (by omega)
      have c2 : (mem (p + 1)).toNat = q % 256 := by rw [hd]; simp
      rw [if_pos (by rw [isPtr_iff]; omega)] at e
      have : ptrTo mem p = q := by
        unfold ptrTo
        rw [c1, c2]; omega
      rw [this] at e
      exact ih hz hs e

theorem copyCName_eq {g : Gen} {mem : Nat → Byte} {pos row ttl fuel : Nat} {o tg : List (List Byte)} (ho : ValidName o) (ht : ValidName tg)
    (h1 : copyLabel mem fuel pos = some (wire o)) (h2 : copyLabel mem fuel row = some (wire tg)) :
    copyCName g mem pos row 5 1 ttl fuel = append g (.alias o tg ttl) := by
  unfold copyCName
  dsimp only [append]
  unfold cname
  rw [h1, h2, labelize_text ho, labelize_text ht, ← labelize_length, labelize_text ht]
  cases recordSection g <;> simp

theorem copyAddr_eq {g : Gen} {mem : Nat → Byte} {pos row ttl fuel : Nat} {o : List (List Byte)} (ho : ValidName o)
    (h1 : copyLabel mem fuel pos = some (wire o)) :
    copyAddr g mem 1 4 pos row 1 1 ttl fuel = append g (.a o ((Name.span row 4).map mem) ttl) ∧
    copyAddr g mem 28 16 pos row 28 1 ttl fuel = append g (.aaaa o ((Name.span row 16).map mem) ttl) := by
  unfold copyAddr
  dsimp only [append]
  unfold addA addAAAA
  rw [h1, labelize_text ho]
  cases recordSection g <;> simp

/-- The record a fact is copied as. -/
def copied (f : Fact) : RR := ⟨wire f.owner, f.type, 1, f.ttl, f.value.wire⟩

theorem size_eq (fs : List Fact) : size fs = (rrBytes (fs.map copied)).length := by
  induction fs with
  | nil => rfl
  | cons f fs ih =>
    simp only [size, rrBytes, List.map_cons, List.sum_cons, List.flatten_cons, List.length_append] at ih ⊢
    rw [ih]
    simp [copied, RR.bytes, u16_length, u32_length]
    omega

theorem span_mid {b pre x post : List Byte} {i n : Nat} (hb : b = pre ++ (x ++ post)) (hi : i = pre.length) (hn : n = x.length) :
    (Name.span i n).map (memAt b) = x := by
  subst hn
  exact At.span (memOf_mid hb hi)

/-- One record. -/
theorem copy_one {b pre post : List Byte} {r : RR} {f : Fact} {fuel row ttl : Nat} {g : Gen} {m : Message.Msg} {res : Int × Gen}
    (hv : r.Valid) (hr : Sees b post pre.length r f)
    (hrow : row = pre.length + r.name.length + 10) (httl : ttl = r.ttl) (hg : Holds g m .answer) (hcap : g.cap < 16384)
    (e : (if r.type = 5 then copyCName g (memAt (b ++ post)) pre.length row r.type r.klass ttl fuel
            else if r.type = 1 then copyAddr g (memAt (b ++ post)) 1 4 pre.length row r.type r.klass ttl fuel
            else if r.type = 28 then copyAddr g (memAt (b ++ post)) 28 16 pre.length row r.type r.klass ttl fuel
            else some (0, g)) = some res) :
    (m.bytes.length + (copied f).bytes.length ≤ g.cap → ∃ g', res = (0, g') ∧ Holds g' (addAn m [copied f]) .answer ∧ g'.cap = g.cap) ∧
    (¬ m.bytes.length + (copied f).bytes.length ≤ g.cap → res.1 ≠ 0) := by
  obtain ⟨hro0, p1, p2⟩ := hr.owner
  have nz : ∀ ls, RfcName ls → ∀ l ∈ ls, ∀ c ∈ l, c ≠ 0 := fun ls h l hl c hc => ((h.1 l hl).2.2 c hc).2
  have lab : ∀ {p k ls x}, Denotes (bytesAt b) b.length p ls k → RfcName ls → Simple ls → copyLabel (memAt (b ++ post)) fuel p = some x →
      x = wire ls := fun hd h1 h2 hx =>
    copyLabel_denotes (denotes_congr hd (Nat.le_refl _) (fun i hi => bytesAt_append hi)) (nz _ h1) h2 hx
  obtain ⟨k, hown⟩ := hr.ownerAt
  have hc : m.count .answer < 65535 := by
    have h1 := @an_le_bytes m
    have : m.count .answer = m.an.length := rfl
    have h2 := hg.room
    rw [hg.out] at h2
    omega
  have httl2 : f.ttl < 4294967296 := by rw [← hr.ttl]; exact hv.2.2.2.2.2.1
  have fin : ∀ R : Rec, R.Valid → R.Fits .answer → R.rr = copied f → append g R = some res →
      (m.bytes.length + (copied f).bytes.length ≤ g.cap → ∃ g', res = (0, g') ∧ Holds g' (addAn m [copied f]) .answer ∧ g'.cap = g.cap) ∧
      (¬ m.bytes.length + (copied f).bytes.length ≤ g.cap → res.1 ≠ 0) := by
    intro R h1 h2 h3 h4
    refine ⟨fun hroom => ?_, fun hroom => ?_⟩
    · obtain ⟨g', a1, a2, a3⟩ := append_exact g m .answer R hg h1 h2 hc (by rw [h3]; exact hroom)
      rw [a1] at h4
      cases h4
      rw [h3, add_eq_addAn] at a2
      exact ⟨g', rfl, a2, a3⟩
    · rcases append_refused_partial g m .answer R hg h1 h2 (by rw [h3]; exact hroom) with ⟨code, g', junk, a1, a2, _⟩ | ⟨_, a⟩
      · rw [a1] at h4
        cases h4
        exact a2
      · rw [a] at h4; cases h4
  have hval := hr.value
  subst hrow
  obtain ⟨fo, ft, fttl, fval⟩ := f
  have hty : r.type = ft := hr.type
  have htt : r.ttl = fttl := hr.ttl
  have hro : RfcName fo := hro0
  dsimp only at *
  rw [hty, hr.klass, httl, htt] at e
  cases fval with
  | mx _ _ => exact absurd hval id
  | name tg =>
    dsimp only at hval
    obtain ⟨t5, hrt, hst, k', hdt⟩ := hval
    subst t5
    rw [if_pos rfl] at e
    cases h1 : copyLabel (memAt (b ++ post)) fuel pre.length with
    | none =>
      unfold copyCName at e
      rw [h1] at e
      have hs : recordSection g = true := (recordSection_iff g).2 (.inl hg.sect)
      simp [hs] at e
    | some x1 =>
      cases h2 : copyLabel (memAt (b ++ post)) fuel (pre.length + r.name.length + 10) with
      | none =>
        unfold copyCName at e
        rw [h1, h2] at e
        have hs : recordSection g = true := (recordSection_iff g).2 (.inl hg.sect)
        simp [hs] at e
      | some x2 =>
        have := lab hown hro p2 h1
        subst this
        have := lab hdt hrt hst h2
        subst this
        rw [copyCName_eq hro.1 hrt.1 h1 h2] at e
        refine fin (.alias fo tg fttl) ⟨hro.1, pieces_of_valid hrt.1, ?_, httl2⟩ (Or.inl rfl) rfl e
        have := wire_length_le (ls := tg); have := hrt.2; omega
  | raw d =>
    dsimp only at hval
    obtain ⟨p3, px, py, hmid, hdata⟩ := hval
    have hx : ∃ x1, copyLabel (memAt (b ++ post)) fuel pre.length = some x1 := by
      cases h1 : copyLabel (memAt (b ++ post)) fuel pre.length with
      | some x1 => exact ⟨x1, rfl⟩
      | none =>
        have hs : recordSection g = true := (recordSection_iff g).2 (.inl hg.sect)
        rcases p3 with ⟨rfl, _⟩ | ⟨rfl, _⟩ <;> simp [copyAddr, h1, hs] at e
    obtain ⟨x1, h1⟩ := hx
    have := lab hown hro p2 h1
    subst this
    obtain ⟨c1, c2⟩ := copyAddr_eq (g := g) (ttl := fttl) (row := pre.length + r.name.length + 10) hro.1 h1
    rcases p3 with ⟨rfl, hl⟩ | ⟨rfl, hl⟩
    · rw [if_neg (by decide), if_pos rfl, c1, span_mid hmid hdata.symm hl.symm] at e
      exact fin (.a fo d fttl) ⟨hro.1, hl, httl2⟩ (Or.inl rfl) rfl e
    · rw [if_neg (by decide), if_neg (by decide), if_pos rfl, c2, span_mid hmid hdata.symm hl.symm] at e
      exact fin (.aaaa fo d fttl) ⟨hro.1, hl, httl2⟩ (Or.inl rfl) rfl e

/-- The question is the first thing written behind the header. -/
theorem question_ok {g : Gen} {h : List Byte} {ls : List (List Byte)} {t : Nat} (hh : h.length = 4) (hg : g.out = h ++ [0, 0, 0, 0, 0, 0, 0, 0])
    (hn : g.num = 4) (hls : ValidName ls) (ht : 0 < t) (ht' : t < 65536) (hroom : 12 + (wire ls).length + 4 ≤ g.cap) :
    ∃ g', question g (text ls) t 1 = (0, g') ∧ Holds g' ⟨h, [⟨wire ls, t, 1⟩], [], [], []⟩ .question ∧ g'.cap = g.cap ∧ g'.num = 4 := by
  have hb : (⟨h, [⟨wire ls, t, 1⟩], [], [], []⟩ : Message.Msg).bytes = (h ++ [0, 1, 0, 0, 0, 0, 0, 0]) ++ (wire ls ++ (u16 t ++ u16 1)) := by
    simp [Message.Msg.bytes, Message.Msg.header, Message.Msg.body, qBytes, rrBytes, Question.bytes, u16]
  obtain ⟨a, b, c, d, rfl⟩ : ∃ a b c d, h = [a, b, c, d] := by
    match h, hh with
    | [a, b, c, d], _ => exact ⟨a, b, c, d, rfl⟩
  refine ⟨{ g with out := (⟨[a, b, c, d], [⟨wire ls, t, 1⟩], [], [], []⟩ : Message.Msg).bytes }, ?_, ⟨rfl, ?_, ?_, ⟨rfl, rfl, rfl⟩, ?_⟩, rfl, hn⟩
  · unfold question
    rw [if_neg (by rw [hn]; decide), labelize_text hls, writes_fit (by rw [hg]; simp [total, set16]; omega)]
    unfold counted
    rw [if_pos rfl, hb]
    dsimp only
    unfold bump
    dsimp only
    rw [hn, hg]
    simp [total, overwrite, get16, set16, u16]
  · refine ⟨rfl, ?_, by simp, by simp, by simp, by simp, by simp, by simp, by simp⟩
    intro q hq
    simp only [List.mem_singleton] at hq
    subst hq
    exact ⟨wireName_wire hls, ht, ht', by simp, by simp⟩
  · rw [hn]; rfl
  · rw [hb]; simp [u16_length]; omega

/-- Without room for the question there is nothing. -/
theorem question_unfit {g : Gen} {h : List Byte} {ls : List (List Byte)} {t : Nat} (hh : h.length = 4) (hg : g.out = h ++ [0, 0, 0, 0, 0, 0, 0, 0])
    (hn : g.num = 4) (hls : ValidName ls) (hc : 12 ≤ g.cap) (hroom : ¬ 12 + (wire ls).length + 4 ≤ g.cap) :
    (question g (text ls) t 1).1 ≠ 0 := by
  unfold question
  rw [if_neg (by rw [hn]; decide), labelize_text hls]
  obtain ⟨code, junk, h1, h2, _⟩ := writes_unfit (g := g) (fs := [(-1, wire ls), (-2, set16 t), (-3, set16 1)]) (by simp) (by rw [hg]; simp; omega)
    (by rw [hg]; simp [total, set16]; omega)
  rw [h2]
  unfold counted
  rw [if_neg h1]
  exact h1

/-- The answers, one after the other. -/
theorem copyLoop_answers {c : Counts} {len fuel : Nat} {b post tail : List Byte} (l : List RR) : ∀ {pre : List Byte} {it : Itr} {n nf : Nat} {fs : List Fact}
    {g : Gen} {m : Message.Msg} {res : Int × Gen}, b = pre ++ (rrBytes l ++ tail) → b.length ≤ len → (∀ r ∈ l, r.Valid) →
    (∀ i, i < l.length → determinePurpose c (n + i) = .answer) → n + l.length ≤ c.all + 1 →
    (n + l.length ≤ c.all → ∃ y : Item, ∃ rest, y.Ok ∧ tail = y.bytes ++ rest ∧ y.pu ≠ .answer ∧ determinePurpose c (n + l.length) = y.pu) →
    (∃ p, it.pos = some p) → it.num + 1 = n → (n ≤ c.all → next (b ++ post) len c it = look (b ++ post) len c it pre.length n) →
    Seen b post pre.length l fs → Holds g m .answer → g.cap < 16384 →
    copyLoop (b ++ post) len fuel c nf it g = some res →
    (m.bytes.length + size fs ≤ g.cap → ∃ g', res = (0, g') ∧ Holds g' (addAn m (fs.map copied)) .answer ∧ g'.cap = g.cap) ∧
    (¬ m.bytes.length + size fs ≤ g.cap → res.1 ≠ 0) := by
  induction l with
  | nil =>
    intro pre it n nf fs g m res hb hlen _ _ hn htail hpos hnum hnext hs hg _ e
    cases hs
    refine ⟨fun _ => ⟨g, ?_, by simpa [addAn_nil] using hg, rfl⟩, fun h => absurd (by
      have := hg.room; rw [hg.out] at this; simpa [size] using this) h⟩
    cases nf with
    | zero => cases e
    | succ nf =>
      unfold copyLoop at e
      simp only [List.length_nil, Nat.add_zero] at hn htail
      by_cases hle : n ≤ c.all
      · obtain ⟨y, rest, hy, ht, hpu, hd⟩ := htail hle
        have hb2 : b ++ post = pre ++ (y.bytes ++ (rest ++ post)) := by rw [hb, ht]; simp [rrBytes]
        have hlook := look_item (b := b ++ post) (pre := pre) (post := rest ++ post) (len := len) (it := it) hy hb2
          (by rw [hb, ht] at hlen; simp [rrBytes] at hlen; omega) hle hd
        rw [hnext hle, hlook] at e
        dsimp only at e
        have : (y.itr it.dataLen pre.length n).purpose = y.pu := rfl
        rw [this, if_pos hpu] at e
        exact (Option.some.inj e).symm
      · obtain ⟨p, hp⟩ := hpos
        rw [next_end hp (by omega)] at e
        exact (Option.some.inj e).symm
  | cons r l ih =>
    intro pre it n nf fs g m res hb hlen hv hpu hn htail hpos hnum hnext hs hg hcap e
    cases nf with
    | zero => cases e
    | succ nf =>
      have hr := hv r (by simp)
      simp only [List.length_cons] at hn htail
      have hb1 : b = pre ++ (r.bytes ++ (rrBytes l ++ tail)) := by rw [hb]; simp [rrBytes]
      have hb2 : b = (pre ++ r.bytes) ++ (rrBytes l ++ tail) := by rw [hb1]; simp
      have hok : (rItem .answer r).Ok := rItem_ok hr (by simp) (by simp)
      have hb3 : b ++ post = pre ++ ((rItem .answer r).bytes ++ (rrBytes l ++ tail ++ post)) := by rw [hb1, rItem_bytes]; simp
      have hlook := look_item (b := b ++ post) (pre := pre) (post := rrBytes l ++ tail ++ post) (len := len) (it := it) (n := n) (c := c) hok hb3
        (by rw [hb1] at hlen; simp at hlen; omega) (by omega) (by have := hpu 0 (by simp); simpa [rItem] using this)
      unfold copyLoop at e
      rw [hnext (by omega), hlook] at e
      dsimp only at e
      have hit : (rItem .answer r).itr it.dataLen pre.length n = ⟨some pre.length, n, .answer, r.type, r.klass, r.rdata.length⟩ := by
        simp [Item.itr, rItem]
      have hsk : skipAt (b ++ post) pre.length = some r.name.length :=
        skipAt_eq (pre := pre) (nb := r.name)
          (post := u16 r.type ++ (u16 r.klass ++ (u32 r.ttl ++ (u16 r.rdata.length ++ r.rdata))) ++ (rrBytes l ++ tail ++ post))
          (by rw [hb1]; simp [RR.bytes]) rfl hr.1
      have hrow : rowData (b ++ post) pre.length = some (pre.length + r.name.length + 10) := by
        unfold rowData
        rw [hsk]; rfl
      have httl : getTTL (b ++ post) pre.length = some r.ttl := by
        unfold getTTL
        rw [hsk]
        exact u32At_eq (pre := pre ++ (r.name ++ (u16 r.type ++ u16 r.klass)))
          (post := u16 r.rdata.length ++ (r.rdata ++ (rrBytes l ++ tail ++ post)))
          (by rw [hb1]; simp [RR.bytes]) (by simp [u16_length]; omega) hr.2.2.2.2.2.1
      rw [hit, hrow, httl] at e
      dsimp only at e
      rw [if_neg (by simp)] at e
      have hnext' : n + 1 ≤ c.all → next (b ++ post) len c ⟨some pre.length, n, .answer, r.type, r.klass, r.rdata.length⟩ =
          look (b ++ post) len c ⟨some pre.length, n, .answer, r.type, r.klass, r.rdata.length⟩ (pre ++ r.bytes).length (n + 1) := by
        intro hle
        rw [← hit, next_item hok hb3 (by omega), rItem_bytes, List.length_append]
      have hlen2 : (pre ++ r.bytes).length = pre.length + r.bytes.length := by simp
      have more : ∀ {fs' : List Fact} {g' : Gen} {m' : Message.Msg}, Seen b post (pre.length + r.bytes.length) l fs' →
          Holds g' m' .answer → g'.cap < 16384 →
          copyLoop (b ++ post) len fuel c nf ⟨some pre.length, n, .answer, r.type, r.klass, r.rdata.length⟩ g' = some res →
          (m'.bytes.length + size fs' ≤ g'.cap → ∃ g'', res = (0, g'') ∧ Holds g'' (addAn m' (fs'.map copied)) .answer ∧ g''.cap = g'.cap) ∧
          (¬ m'.bytes.length + size fs' ≤ g'.cap → res.1 ≠ 0) := by
        intro fs' g' m' h1 h3 h4 h6
        refine ih (n := n + 1) hb2 hlen (fun x hx => hv x (by simp [hx])) ?_ (by omega) ?_ ⟨_, rfl⟩ rfl hnext' (by rw [hlen2]; exact h1) h3 h4 h6
        · intro i hi
          have := hpu (i + 1) (by simp; omega)
          rw [show n + 1 + i = n + (i + 1) by omega]
          exact this
        · intro h
          rw [show n + 1 + l.length = n + (l.length + 1) by omega] at h ⊢
          exact htail h
      cases hs with
      | skip hn' hs =>
        have h3 : ¬ (r.type = 1 ∨ r.type = 5 ∨ r.type = 28) := hn'
        rw [if_neg (by omega), if_neg (by omega), if_neg (by omega)] at e
        dsimp only at e
        rw [if_neg (by simp)] at e
        exact more hs hg hcap e
      | @cons _ _ _ f fs0 hrd hs =>
        have hsz : size (f :: fs0) = (copied f).bytes.length + size (fs0) := by
          rw [size_eq, size_eq]; simp [rrBytes]
        split at e
        · cases e
        · rename_i code g' hcopy
          obtain ⟨hyes, hno⟩ := copy_one hr hrd rfl rfl hg hcap hcopy
          by_cases hr1 : m.bytes.length + (copied f).bytes.length ≤ g.cap
          · obtain ⟨g1, c1, c2, c3⟩ := hyes hr1
            simp only [Prod.mk.injEq] at c1
            obtain ⟨rfl, rfl⟩ := c1
            rw [if_neg (by simp)] at e
            obtain ⟨hy2, hn2⟩ := more hs c2 (by omega) e
            have hl2 : (addAn m [copied f]).bytes.length = m.bytes.length + (copied f).bytes.length := by rw [addAn_length]; simp [rrBytes]
            refine ⟨fun hroom => ?_, fun hroom => hn2 (by omega)⟩
            obtain ⟨g2, d1, d2, d3⟩ := hy2 (by omega)
            exact ⟨g2, d1, by rw [addAn_addAn] at d2; simpa using d2, by omega⟩
          · have hne : code ≠ 0 := hno hr1
            rw [if_pos hne] at e
            cases e
            exact ⟨fun hroom => by omega, fun _ => hne⟩

/-- An alias or address of another class ends the copying with an error. -/
theorem copyLoop_class {c : Counts} {len fuel : Nat} {b post tail : List Byte} (l : List RR) : ∀ {pre : List Byte} {it : Itr} {n nf : Nat}
    {g : Gen} {res : Int × Gen}, b = pre ++ (rrBytes l ++ tail) → b.length ≤ len → (∀ r ∈ l, r.Valid) → (∃ r ∈ l, Taken r.type ∧ r.klass ≠ 1) →
    (∀ i, i < l.length → determinePurpose c (n + i) = .answer) → n + l.length ≤ c.all + 1 →
    next (b ++ post) len c it = look (b ++ post) len c it pre.length n →
    copyLoop (b ++ post) len fuel c nf it g = some res → res.1 ≠ 0 := by
  induction l with
  | nil => intro pre it n nf g res _ _ _ h; simp at h
  | cons r l ih =>
    intro pre it n nf g res hb hlen hv hex hpu hn hnext e
    cases nf with
    | zero => cases e
    | succ nf =>
      have hr := hv r (by simp)
      simp only [List.length_cons] at hn
      have hb1 : b = pre ++ (r.bytes ++ (rrBytes l ++ tail)) := by rw [hb]; simp [rrBytes]
      have hb2 : b = (pre ++ r.bytes) ++ (rrBytes l ++ tail) := by rw [hb1]; simp
      have hok : (rItem .answer r).Ok := rItem_ok hr (by simp) (by simp)
      have hb3 : b ++ post = pre ++ ((rItem .answer r).bytes ++ (rrBytes l ++ tail ++ post)) := by rw [hb1, rItem_bytes]; simp
      have hlook := look_item (b := b ++ post) (pre := pre) (post := rrBytes l ++ tail ++ post) (len := len) (it := it) (n := n) (c := c) hok hb3
        (by rw [hb1] at hlen; simp at hlen; omega) (by omega) (by have := hpu 0 (by simp); simpa [rItem] using this)
      unfold copyLoop at e
      rw [hnext, hlook] at e
      dsimp only at e
      have hit : (rItem .answer r).itr it.dataLen pre.length n = ⟨some pre.length, n, .answer, r.type, r.klass, r.rdata.length⟩ := by
        simp [Item.itr, rItem]
      rw [hit] at e
      dsimp only at e
      rw [if_neg (by simp)] at e
      split at e
      rotate_left
      · cases e
      rename_i row ttl _ _
      split at e
      · cases e
      rename_i code g' hcopy
      by_cases hz : code = 0
      rotate_left
      · rw [if_pos hz] at e; cases e; exact hz
      rw [if_neg (by simpa using hz)] at e
      obtain ⟨x, hx, hx1, hx2⟩ := hex
      rcases List.mem_cons.1 hx with rfl | hx
      · exfalso
        subst hz
        rcases hx1 with h | h | h <;> cases hs : recordSection g <;> simp [h, hs, hx2, copyAddr, copyCName] at hcopy
      · have hl0 : 0 < l.length := List.length_pos_of_mem hx
        refine ih (n := n + 1) hb2 hlen (fun x hx => hv x (by simp [hx])) ⟨x, hx, hx1, hx2⟩ ?_ (by omega) ?_ e
        · intro i hi
          have := hpu (i + 1) (by simp; omega)
          rw [show n + 1 + i = n + (i + 1) by omega]
          exact this
        · rw [← hit, next_item hok hb3 (by omega), rItem_bytes, List.length_append]

/-- What a response with data of the right lengths says is what is seen. -/
theorem seen_of_says {b post tail : List Byte} {rs : List RR} {fs : List Fact} {p : Nat} (hs : Says b p rs fs) :
    ∀ {pre : List Byte}, p = pre.length → b = pre ++ (rrBytes rs ++ tail) → (∀ x ∈ rs, Taken x.type → x.klass = 1) → (∀ f ∈ fs, Taken f.type → Plain f) →
    Seen b post p rs (taken fs) := by
  induction hs with
  | nil p => intro pre _ _ _ _; exact .nil p
  | @skip p r rs fs h hs ih =>
    intro pre hpp hb hk hp
    have hb2 : b = (pre ++ r.bytes) ++ (rrBytes rs ++ tail) := by rw [hb]; simp [rrBytes]
    refine .skip (fun ht => h ⟨?_, hk r (by simp) ht⟩) (ih (by simp [hpp]) hb2 (fun x hx => hk x (by simp [hx])) hp)
    unfold Taken at ht; unfold Cached; omega
  | @cons p r rs f fs h hc hs ih =>
    intro pre hpp hb hk hp
    have hb2 : b = (pre ++ r.bytes) ++ (rrBytes rs ++ tail) := by rw [hb]; simp [rrBytes]
    have hrest := ih (by simp [hpp]) hb2 (fun x hx => hk x (by simp [hx])) (fun f hf => hp f (by simp [hf]))
    by_cases hT : Taken f.type
    · have htk : taken (f :: fs) = f :: taken fs := by unfold taken; rw [List.filter_cons_of_pos (by simpa using hT)]
      rw [htk]
      obtain ⟨q1, q2, q3⟩ := hp f (by simp) hT
      refine .cons ⟨h.type, h.ttl, h.klass, ⟨h.owner, q1, q2⟩, h.ownerAt, ?_⟩ hrest
      have hv := h.value
      split at hv <;> rename_i hval <;> rw [hval] at q3 <;> rw [hval] <;> dsimp only at q3 ⊢
      · refine ⟨q3, pre ++ (r.name ++ (u16 r.type ++ (u16 r.klass ++ (u32 r.ttl ++ u16 r.rdata.length)))), rrBytes rs ++ tail ++ post, ?_, ?_⟩
        · rw [hb, ← hv.2.1]; simp [rrBytes, RR.bytes]
        · rw [hpp]; simp [u16_length, u32_length]; omega
      · exact ⟨q3.1, hv.2.1, q3.2, hv.2.2⟩
    · have htk : taken (f :: fs) = taken fs := by unfold taken; rw [List.filter_cons_of_neg (by simpa using hT)]
      rw [htk]
      refine .skip ?_ hrest
      rw [h.type]; exact hT

/-- All answers of a response. -/
theorem copyLoop_msg {r : Message.Msg} {fs : List Fact} {rest : List Byte} {len fuel nf : Nat} {it : Itr} {g : Gen} {m : Message.Msg} {res : Int × Gen}
    (hr : r.Valid) (hq : r.qs ≠ []) (hlen : r.bytes.length ≤ len)
    (hs : Seen r.bytes rest (12 + (qBytes r.qs).length) r.an fs) (hg : Holds g m .answer) (hcap : g.cap < 16384)
    (hgo : gotoAnswers (r.bytes ++ rest) len (Msg.counts r) Itr.init = some it)
    (e : copyLoop (r.bytes ++ rest) len fuel (Msg.counts r) nf it g = some res) :
    (m.bytes.length + size fs ≤ g.cap → ∃ g', res = (0, g') ∧ Holds g' (addAn m (fs.map copied)) .answer ∧ g'.cap = g.cap) ∧
    (¬ m.bytes.length + size fs ≤ g.cap → res.1 ≠ 0) := by
  have hq' : 0 < r.qs.length := List.length_pos_iff.mpr hq
  obtain ⟨it', d, h1, -, hnum, hpos, hnext⟩ := gotoAnswers_msg hr hq rest len hlen
  rw [h1] at hgo
  cases hgo
  have h12 := header_length hr
  have hpre : (r.header ++ qBytes r.qs).length = 12 + (qBytes r.qs).length := by simp [h12]
  have e1 : (Msg.counts r).qd = r.qs.length := rfl
  have e2 : (Msg.counts r).an = r.an.length := rfl
  have e3 : (Msg.counts r).ns = r.ns.length := rfl
  have e4 : (Msg.counts r).ar = r.ar.length := rfl
  have hall : (Msg.counts r).all = r.qs.length + r.an.length + r.ns.length + r.ar.length := rfl
  refine copyLoop_answers r.an (pre := r.header ++ qBytes r.qs) (tail := rrBytes r.ns ++ rrBytes r.ar) (n := r.qs.length + 1)
    (by simp [Msg.bytes, Msg.body]) hlen (fun x hx => hr.an x hx) ?_ (by omega) ?_ hpos (by omega) ?_ (by rw [hpre]; exact hs) hg hcap e
  · intro i hi
    rw [purpose_correct _ hq']
    unfold sectionOf
    rw [e1, e2, if_neg (by omega), if_neg (by omega), if_pos (by omega)]
  · intro h
    rw [purpose_correct _ hq', e1, e2, e3, e4]
    unfold sectionOf
    rw [if_neg (by omega), if_neg (by omega), if_neg (by omega)]
    cases hns : r.ns with
    | cons x l =>
      refine ⟨rItem .nameServer x, rrBytes l ++ rrBytes r.ar, rItem_ok (hr.ns x (by simp [hns])) (by simp) (by simp), ?_, by simp [rItem], ?_⟩
      · rw [rItem_bytes]; simp [rrBytes]
      · rw [if_pos (by simp; omega)]; rfl
    | nil =>
      cases har : r.ar with
      | nil => rw [hall, hns, har] at h; simp at h; omega
      | cons x l =>
        refine ⟨rItem .additional x, rrBytes l, rItem_ok (hr.ar x (by simp [har])) (by simp) (by simp), ?_, by simp [rItem], ?_⟩
        · rw [rItem_bytes]; simp [rrBytes]
        · rw [if_neg (by simp), if_pos (by simp; omega)]; rfl
  · intro h
    rw [hpre]
    refine hnext (by omega) _ ?_
    rw [← hpre]
    have : r.bytes ++ rest = (r.header ++ qBytes r.qs) ++ (rrBytes r.an ++ (rrBytes r.ns ++ rrBytes r.ar) ++ rest) := by
      simp [Msg.bytes, Msg.body]
    rw [this, List.take_left]

theorem copyLoop_class_msg {r : Message.Msg} {rest : List Byte} {len fuel nf : Nat} {it : Itr} {g : Gen} {res : Int × Gen}
    (hr : r.Valid) (hq : r.qs ≠ []) (hlen : r.bytes.length ≤ len) (hk : ∃ x ∈ r.an, Taken x.type ∧ x.klass ≠ 1)
    (hgo : gotoAnswers (r.bytes ++ rest) len (Msg.counts r) Itr.init = some it)
    (e : copyLoop (r.bytes ++ rest) len fuel (Msg.counts r) nf it g = some res) : res.1 ≠ 0 := by
  have hq' : 0 < r.qs.length := List.length_pos_iff.mpr hq
  have ha : 0 < r.an.length := by obtain ⟨x, hx, _⟩ := hk; exact List.length_pos_of_mem hx
  obtain ⟨it', d, h1, -, hnum, hpos, hnext⟩ := gotoAnswers_msg hr hq rest len hlen
  rw [h1] at hgo
  cases hgo
  have h12 := header_length hr
  have hpre : (r.header ++ qBytes r.qs).length = 12 + (qBytes r.qs).length := by simp [h12]
  have e1 : (Msg.counts r).qd = r.qs.length := rfl
  have e2 : (Msg.counts r).an = r.an.length := rfl
  have hall : (Msg.counts r).all = r.qs.length + r.an.length + r.ns.length + r.ar.length := rfl
  refine copyLoop_class r.an (pre := r.header ++ qBytes r.qs) (tail := rrBytes r.ns ++ rrBytes r.ar) (n := r.qs.length + 1)
    (by simp [Msg.bytes, Msg.body]) hlen (fun x hx => hr.an x hx) hk ?_ (by omega) ?_ e
  · intro i hi
    rw [purpose_correct _ hq']
    unfold sectionOf
    rw [e1, e2, if_neg (by omega), if_neg (by omega), if_pos (by omega)]
  · rw [hpre]
    refine hnext (by omega) _ ?_
    rw [← hpre]
    have : r.bytes ++ rest = (r.header ++ qBytes r.qs) ++ (rrBytes r.an ++ (rrBytes r.ns ++ rrBytes r.ar) ++ rest) := by
      simp [Msg.bytes, Msg.body]
    rw [this, List.take_left]

end Verif.HostsLoop
