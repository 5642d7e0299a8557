import Verif.Lemmas.CacheProgress
import Verif.Lemmas.NameBound
import Verif.Props.HostsLoop
/-! The alias worker always comes to an end with a response whose names are plain. -/

namespace Verif.HostsLoop
open Message Name Parser Generator DnsCache DnsCache.Spec Spec Verif.Msg

variable {Addr : Type}

/-- The record at `p` can be copied, if it is one of those that are: its names are there, short, and have no byte of 192 or
more. -/
def CleanRR (b : List Byte) (p : Nat) (r : RR) : Prop :=
  r.klass = 1 → r.type = 5 ∨ r.type = 1 ∨ r.type = 28 →
    (∃ o k, RfcName o ∧ Simple o ∧ Denotes (bytesAt b) b.length p o k) ∧
    (r.type = 5 → ∃ tg k, RfcName tg ∧ Simple tg ∧ Denotes (bytesAt b) b.length (p + r.name.length + 10) tg k)

def Clean (b : List Byte) : Nat → List RR → Prop
  | _, [] => True
  | p, r :: rs => CleanRR b p r ∧ Clean b (p + r.bytes.length) rs

/-- A message whose answers can be copied. -/
def Tidy (r : Message.Msg) : Prop := r.Valid ∧ r.qs ≠ [] ∧ Clean r.bytes (12 + (qBytes r.qs).length) r.an

theorem clean_of {b : List Byte} : ∀ {rs : List RR} {p : Nat},
    (∀ i x, rs[i]? = some x → CleanRR b (p + (rrBytes (rs.take i)).length) x) → Clean b p rs := by
  intro rs
  induction rs with
  | nil => intro p _; trivial
  | cons r rs ih =>
    intro p h
    refine ⟨by simpa [rrBytes] using h 0 r rfl, ih fun i x hx => ?_⟩
    have := h (i + 1) x (by simpa using hx)
    simp only [List.take_succ_cons, rrBytes, List.map_cons, List.flatten_cons, List.length_append] at this ⊢
    rw [Nat.add_assoc]; exact this

theorem clean_says {b : List Byte} {p : Nat} {rs : List RR} {fs : List Fact} (h : Says b p rs fs)
    (hs : ∀ f ∈ fs, Simple f.owner ∧ ∀ ls, f.value = .name ls → Simple ls) : Clean b p rs := by
  induction h with
  | nil => trivial
  | skip hn _ ih =>
    refine ⟨fun hk ht => absurd ⟨?_, hk⟩ hn, ih hs⟩
    unfold Cached; omega
  | @cons p r rs f fs hr hc _ ih =>
    refine ⟨fun hk ht => ?_, ih fun f hf => hs f (by simp [hf])⟩
    obtain ⟨k, ho⟩ := hr.ownerAt
    obtain ⟨h1, h2⟩ := hs f (by simp)
    refine ⟨⟨f.owner, k, hr.owner, h1, ho⟩, fun h5 => ?_⟩
    have hv := hr.value
    have hty := hr.type
    cases hf : f.value with
    | raw d => rw [hf] at hv; have := hv.1; omega
    | mx a c => rw [hf] at hv; have := hv.1; omega
    | name tg =>
      rw [hf] at hv
      obtain ⟨_, k1, k', k2⟩ := hv
      exact ⟨tg, k', k1, h2 tg hf, k2⟩

theorem says_front {b : List Byte} : ∀ {rs rs' : List RR} {p : Nat} {fs : List Fact}, Says b p (rs ++ rs') fs →
    ∃ f1, Says b p rs f1 ∧ ∀ f ∈ f1, f ∈ fs := by
  intro rs
  induction rs with
  | nil => intro rs' p fs _; exact ⟨[], .nil _, by simp⟩
  | cons r rs ih =>
    intro rs' p fs h
    cases h with
    | skip hn hs => obtain ⟨f1, h1, h2⟩ := ih hs; exact ⟨f1, .skip hn h1, h2⟩
    | @cons _ _ _ f fs0 hr hc hs =>
      obtain ⟨f1, h1, h2⟩ := ih hs
      refine ⟨f :: f1, .cons hr hc h1, ?_⟩
      intro x hx
      rcases List.mem_cons.1 hx with rfl | hx
      · simp
      · simp [h2 x hx]

/-- A response all of whose names are plain. -/
theorem tidy_response {r : Message.Msg} {fs : List Fact} (h : Response r fs)
    (hs : ∀ f ∈ fs, Simple f.owner ∧ ∀ ls, f.value = .name ls → Simple ls) : Tidy r := by
  obtain ⟨h1, h2, h3⟩ := h
  obtain ⟨f1, h4, h5⟩ := says_front h3
  exact ⟨h1, h2, clean_says h4 fun f hf => hs f (h5 f hf)⟩

theorem ownerOf_good {ls : List (List Byte)} (hls : RfcName ls) (hs : Simple ls) (ws : List RR) (hw : GoodAns Simple ws) :
    ∃ o, RfcName o ∧ Simple o ∧ wire o = ownerOf (wire ls) ws := by
  induction ws generalizing ls with
  | nil => exact ⟨ls, hls, hs, rfl⟩
  | cons w ws ih =>
    rw [ownerOf_cons]
    split
    · rename_i h
      obtain ⟨tg, h1, h2, h3⟩ := (hw w (by simp)).2 h.1
      rw [h1]
      exact ih h2 h3 fun x hx => hw x (by simp [hx])
    · exact ih hls hs fun x hx => hw x (by simp [hx])

theorem rdata_at {b : List Byte} {r : Message.Msg} {i : Nat} {x : RR} (hx : r.an[i]? = some x) (hr : r.Valid) (hb : b = r.bytes) :
    At (bytesAt b) (12 + (qBytes r.qs).length + (rrBytes (r.an.take i)).length + x.name.length + 10) x.rdata ∧
      12 + (qBytes r.qs).length + (rrBytes (r.an.take i)).length + x.name.length + 10 + x.rdata.length ≤ b.length := by
  obtain ⟨hi, rfl⟩ := List.getElem?_eq_some_iff.1 hx
  have h12 := header_length hr
  have hsplit : rrBytes r.an = rrBytes (r.an.take i) ++ (r.an[i].bytes ++ rrBytes (r.an.drop (i + 1))) := by
    have : r.an = r.an.take i ++ r.an[i] :: r.an.drop (i + 1) := by simp
    conv => lhs; rw [this]
    simp only [rrBytes, List.map_append, List.map_cons, List.flatten_append, List.flatten_cons]
  have hfull : b = (r.header ++ (qBytes r.qs ++ (rrBytes (r.an.take i) ++ (r.an[i].name ++ (u16 r.an[i].type ++ (u16 r.an[i].klass ++
      (u32 r.an[i].ttl ++ u16 r.an[i].rdata.length))))))) ++ (r.an[i].rdata ++ (rrBytes (r.an.drop (i + 1)) ++ (rrBytes r.ns ++ rrBytes r.ar))) := by
    rw [hb]
    simp only [Message.Msg.bytes, Message.Msg.body, hsplit, RR.bytes, List.append_assoc]
  constructor
  · refine memOf_mid hfull ?_
    simp [h12, u16_length, u32_length]; omega
  · rw [hfull]; simp [h12, u16_length, u32_length]; omega

/-- What the cache or the worker writes can be copied again. -/
theorem tidy_ends {q r : Message.Msg} {edns : Bool} {x : Question} {ws : List RR} (h : Ends q r edns x ws) (hq : q.qs = [x])
    {ls : List (List Byte)} (hx : x.name = wire ls) (hls : RfcName ls) (hs : Simple ls) (hw : GoodAns Simple ws) : Tidy r := by
  refine ⟨h.valid, by rw [h.qs, hq]; simp, clean_of fun i y hy hk ht => ?_⟩
  have hlt : i < ws.length := by rw [← h.num]; exact (List.getElem?_eq_some_iff.1 hy).1
  have hwi : ws[i]? = some ws[i] := List.getElem?_eq_getElem hlt
  obtain ⟨e1, e2, e3, e4⟩ := h.an i _ y hwi hy
  obtain ⟨o, o1, o2, o3⟩ := ownerOf_good hls hs (ws.take i) fun w hw' => hw w (List.mem_of_mem_take hw')
  refine ⟨⟨o, 2, o1, o2, e4 (by rw [← e2]; exact hk) o (fun l hl => ⟨(o1.1 l hl).1, (o1.1 l hl).2.1⟩) (by rw [hx]; exact o3)⟩, fun h5 => ?_⟩
  obtain ⟨tg, t1, t2, t3⟩ := (hw _ (List.getElem_mem hlt)).2 (by rw [← e1]; exact h5)
  obtain ⟨a1, a2⟩ := rdata_at hy h.valid rfl
  rw [e3, t1] at a1 a2
  exact ⟨tg, _, t2, t3, denotes_wire (fun l hl => ⟨(t2.1 l hl).1, (t2.1 l hl).2.1⟩) a1 a2⟩

/-- The reply of the hosts data can be copied. -/
theorem tidy_reply {q r : Message.Msg} {ls : List (List Byte)} {edns : Bool} {t : Nat} {rd : List Byte} (h : Hosts.ReplyTo q ls edns t rd r) (hv : r.Valid)
    (hq : q.qs ≠ []) (hls : RfcName ls) (hs : Simple ls) (ht : t = 5 → ∃ tg, rd = wire tg ∧ RfcName tg ∧ Simple tg) : Tidy r := by
  obtain ⟨x, x1, x2, x3, x4, x5⟩ := h.an
  refine ⟨hv, by rw [h.qs]; exact hq, ?_⟩
  have hx0 : r.an[0]? = some x := by rw [x1]; rfl
  obtain ⟨a1, a2⟩ := rdata_at hx0 hv rfl
  simp only [List.take_zero, rrBytes, List.map_nil, List.flatten_nil, List.length_nil, Nat.add_zero] at a1 a2
  rw [x1]
  refine ⟨fun hk htt => ⟨⟨ls, 2, hls, hs, h.owner⟩, fun h5 => ?_⟩, trivial⟩
  obtain ⟨tg, t1, t2, t3⟩ := ht (by rw [← x2]; exact h5)
  rw [x5, t1] at a1 a2
  exact ⟨tg, _, t2, t3, denotes_wire (fun l hl => ⟨(t2.1 l hl).1, (t2.1 l hl).2.1⟩) a1 a2⟩

/-! ### copying -/

/-- One record. -/
theorem copy_one_done {b pre post : List Byte} {r : RR} {fuel : Nat} {g : Gen} {m : Message.Msg}
    (hv : r.Valid) (hc : CleanRR b pre.length r) (hf : b.length + 255 ≤ fuel)
    (hg : Holds g m .answer) (hcap : g.cap < 16384) :
    ∃ code g', (if r.type = 5 then copyCName g (memAt (b ++ post)) pre.length (pre.length + r.name.length + 10) r.type r.klass r.ttl fuel
            else if r.type = 1 then copyAddr g (memAt (b ++ post)) 1 4 pre.length (pre.length + r.name.length + 10) r.type r.klass r.ttl fuel
            else if r.type = 28 then copyAddr g (memAt (b ++ post)) 28 16 pre.length (pre.length + r.name.length + 10) r.type r.klass r.ttl fuel
            else some (0, g)) = some (code, g') ∧
      (code = 0 → ∃ ws, GoodAns Simple ws ∧ Holds g' (addAn m ws) .answer ∧ g'.cap = g.cap) := by
  have hsec : recordSection g = true := (recordSection_iff g).2 (.inl hg.sect)
  have lab : ∀ {p k ls}, Denotes (bytesAt b) b.length p ls k → RfcName ls → Simple ls → copyLabel (memAt (b ++ post)) fuel p = some (wire ls) :=
    fun hd h1 h2 => copy_ends (denotes_congr hd (Nat.le_refl _) (fun i hi => bytesAt_append hi)) h1 h2 hf
  have httl : r.ttl < 4294967296 := hv.2.2.2.2.2.1
  have fin : ∀ R : Rec, R.Valid → R.Fits .answer → ¬ IsRaw R → GoodAns Simple [R.rr] →
      ∃ code g', append g R = some (code, g') ∧ (code = 0 → ∃ ws, GoodAns Simple ws ∧ Holds g' (addAn m ws) .answer ∧ g'.cap = g.cap) := by
    intro R h1 h2 h3 h4
    by_cases hroom : m.bytes.length + R.rr.bytes.length ≤ g.cap
    · obtain ⟨g', a1, a2, a3⟩ := append_exact g m .answer R hg h1 h2 (count_small hg hcap) hroom
      rw [add_eq_addAn] at a2
      exact ⟨0, g', a1, fun _ => ⟨_, h4, a2, a3⟩⟩
    · rcases append_refused_partial g m .answer R hg h1 h2 hroom with ⟨code, g1, junk, c1, c2, _⟩ | ⟨hr, _⟩
      · exact ⟨code, g1, c1, fun h => absurd h c2⟩
      · exact absurd hr h3
  by_cases hk : r.klass = 1
  rotate_left
  · by_cases h5 : r.type = 5
    · rw [if_pos h5]; unfold copyCName; rw [if_neg (by simp [hsec]), if_pos (.inr hk)]; exact ⟨_, _, rfl, fun h => absurd h (by omega)⟩
    · rw [if_neg h5]
      by_cases h1 : r.type = 1
      · rw [if_pos h1]; unfold copyAddr; rw [if_neg (by simp [hsec]), if_pos (.inr hk)]; exact ⟨_, _, rfl, fun h => absurd h (by omega)⟩
      · rw [if_neg h1]
        by_cases h28 : r.type = 28
        · rw [if_pos h28]; unfold copyAddr; rw [if_neg (by simp [hsec]), if_pos (.inr hk)]; exact ⟨_, _, rfl, fun h => absurd h (by omega)⟩
        · rw [if_neg h28]; exact ⟨0, g, rfl, fun _ => ⟨[], by intro w hw; simp at hw, by simpa [addAn_nil] using hg, rfl⟩⟩
  · by_cases h5 : r.type = 5
    · obtain ⟨⟨o, k, o1, o2, o3⟩, ht⟩ := hc hk (.inl h5)
      obtain ⟨tg, k', t1, t2, t3⟩ := ht h5
      rw [if_pos h5, h5, hk, copyCName_eq o1.1 t1.1 (lab o3 o1 o2) (lab t3 t1 t2)]
      refine fin _ ⟨o1.1, pieces_of_valid t1.1, ?_, httl⟩ (Or.inl rfl) id ?_
      · have := wire_length_le (ls := tg); have := t1.2; omega
      · intro w hw
        rw [List.mem_singleton.1 hw]
        exact ⟨rfl, fun _ => ⟨tg, rfl, t1, t2⟩⟩
    · rw [if_neg h5]
      by_cases h1 : r.type = 1
      · obtain ⟨⟨o, k, o1, o2, o3⟩, _⟩ := hc hk (.inr (.inl h1))
        rw [if_pos h1, h1, hk, (copyAddr_eq o1.1 (lab o3 o1 o2)).1]
        refine fin _ ⟨o1.1, by simp [Name.span], httl⟩ (Or.inl rfl) id ?_
        intro w hw
        rw [List.mem_singleton.1 hw]
        exact ⟨rfl, fun h => absurd h (by simp [Rec.rr])⟩
      · rw [if_neg h1]
        by_cases h28 : r.type = 28
        · obtain ⟨⟨o, k, o1, o2, o3⟩, _⟩ := hc hk (.inr (.inr h28))
          rw [if_pos h28, h28, hk, (copyAddr_eq o1.1 (lab o3 o1 o2)).2]
          refine fin _ ⟨o1.1, by simp [Name.span], httl⟩ (Or.inl rfl) id ?_
          intro w hw
          rw [List.mem_singleton.1 hw]
          exact ⟨rfl, fun h => absurd h (by simp [Rec.rr])⟩
        · rw [if_neg h28]; exact ⟨0, g, rfl, fun _ => ⟨[], by intro w hw; simp at hw, by simpa [addAn_nil] using hg, rfl⟩⟩

theorem goodAns_append {P : List (List Byte) → Prop} {a b : List RR} (ha : GoodAns P a) (hb : GoodAns P b) : GoodAns P (a ++ b) := by
  intro w hw
  rcases List.mem_append.1 hw with h | h
  · exact ha w h
  · exact hb w h

/-- The answers, one after the other. -/
theorem copyLoop_ends {c : Counts} {len fuel : Nat} {b post tail : List Byte} (hf : b.length + 255 ≤ fuel) (l : List RR) : ∀ {pre : List Byte} {it : Itr} {n nf : Nat}
    {g : Gen} {m : Message.Msg}, b = pre ++ (rrBytes l ++ tail) → b.length ≤ len → (∀ r ∈ l, r.Valid) → l.length < nf →
    (∀ i, i < l.length → determinePurpose c (n + i) = .answer) → n + l.length ≤ c.all + 1 →
    (n + l.length ≤ c.all → ∃ y : Item, ∃ rest, y.Ok ∧ tail = y.bytes ++ rest ∧ y.pu ≠ .answer ∧ determinePurpose c (n + l.length) = y.pu) →
    (∃ p, it.pos = some p) → it.num + 1 = n → (n ≤ c.all → next (b ++ post) len c it = look (b ++ post) len c it pre.length n) →
    Clean b pre.length l → Holds g m .answer → g.cap < 16384 →
    ∃ code g', copyLoop (b ++ post) len fuel c nf it g = some (code, g') ∧
      (code = 0 → ∃ ws, GoodAns Simple ws ∧ Holds g' (addAn m ws) .answer ∧ g'.cap = g.cap) := by
  induction l with
  | nil =>
    intro pre it n nf g m hb hlen _ hnf _ hn htail hpos hnum hnext _ hg _
    have hdone : ∃ ws, GoodAns Simple ws ∧ Holds g (addAn m ws) .answer ∧ g.cap = g.cap :=
      ⟨[], by intro w hw; simp at hw, by simpa [addAn_nil] using hg, rfl⟩
    cases nf with
    | zero => simp at hnf
    | succ nf =>
      unfold copyLoop
      simp only [List.length_nil, Nat.add_zero] at hn htail
      by_cases hle : n ≤ c.all
      · obtain ⟨y, rest, hy, ht, hpu, hd⟩ := htail hle
        have hb2 : b ++ post = pre ++ (y.bytes ++ (rest ++ post)) := by rw [hb, ht]; simp [rrBytes]
        have hlook := look_item (b := b ++ post) (pre := pre) (post := rest ++ post) (len := len) (it := it) hy hb2
          (by rw [hb, ht] at hlen; simp [rrBytes] at hlen; omega) hle hd
        rw [hnext hle, hlook]
        dsimp only
        have : (y.itr it.dataLen pre.length n).purpose = y.pu := rfl
        rw [this, if_pos hpu]
        exact ⟨0, g, rfl, fun _ => hdone⟩
      · obtain ⟨p, hp⟩ := hpos
        rw [next_end hp (by omega)]
        exact ⟨0, g, rfl, fun _ => hdone⟩
  | cons r l ih =>
    intro pre it n nf g m hb hlen hv hnf hpu hn htail hpos hnum hnext hs hg hcap
    cases nf with
    | zero => simp at hnf
    | succ nf =>
      have hr := hv r (by simp)
      simp only [List.length_cons] at hn htail hnf
      have hb1 : b = pre ++ (r.bytes ++ (rrBytes l ++ tail)) := by rw [hb]; simp [rrBytes]
      have hb2 : b = (pre ++ r.bytes) ++ (rrBytes l ++ tail) := by rw [hb1]; simp
      have hok : (rItem .answer r).Ok := rItem_ok hr (by simp) (by simp)
      have hb3 : b ++ post = pre ++ ((rItem .answer r).bytes ++ (rrBytes l ++ tail ++ post)) := by rw [hb1, rItem_bytes]; simp
      have hlook := look_item (b := b ++ post) (pre := pre) (post := rrBytes l ++ tail ++ post) (len := len) (it := it) (n := n) (c := c) hok hb3
        (by rw [hb1] at hlen; simp at hlen; omega) (by omega) (by have := hpu 0 (by simp); simpa [rItem] using this)
      unfold copyLoop
      rw [hnext (by omega), hlook]
      dsimp only
      have hit : (rItem .answer r).itr it.dataLen pre.length n = ⟨some pre.length, n, .answer, r.type, r.klass, r.rdata.length⟩ := by
        simp [Item.itr, rItem]
      have hsk : skipAt (b ++ post) pre.length = some r.name.length :=
        skipAt_eq (pre := pre) (nb := r.name)
          (post := u16 r.type ++ (u16 r.klass ++ (u32 r.ttl ++ (u16 r.rdata.length ++ r.rdata))) ++ (rrBytes l ++ tail ++ post))
          (by rw [hb1]; simp [RR.bytes]) rfl hr.1
      have hrow : rowData (b ++ post) pre.length = some (pre.length + r.name.length + 10) := by
        unfold rowData
        rw [hsk]; rfl
      have httl : getTTL (b ++ post) pre.length = some r.ttl := by
        unfold getTTL
        rw [hsk]
        exact u32At_eq (pre := pre ++ (r.name ++ (u16 r.type ++ u16 r.klass)))
          (post := u16 r.rdata.length ++ (r.rdata ++ (rrBytes l ++ tail ++ post)))
          (by rw [hb1]; simp [RR.bytes]) (by simp [u16_length]; omega) hr.2.2.2.2.2.1
      rw [hit, hrow, httl]
      dsimp only
      rw [if_neg (by simp)]
      have hnext' : n + 1 ≤ c.all → next (b ++ post) len c ⟨some pre.length, n, .answer, r.type, r.klass, r.rdata.length⟩ =
          look (b ++ post) len c ⟨some pre.length, n, .answer, r.type, r.klass, r.rdata.length⟩ (pre ++ r.bytes).length (n + 1) := by
        intro hle
        rw [← hit, next_item hok hb3 (by omega), rItem_bytes, List.length_append]
      have hlen2 : (pre ++ r.bytes).length = pre.length + r.bytes.length := by simp
      obtain ⟨code, g1, c1, c2⟩ := copy_one_done (post := post) hr hs.1 hf hg hcap
      rw [c1]
      dsimp only
      by_cases hz : code = 0
      · rw [if_neg (by simpa using hz)]
        obtain ⟨ws, w1, w2, w3⟩ := c2 hz
        obtain ⟨code', g2, d1, d2⟩ := ih (pre := pre ++ r.bytes) (it := ⟨some pre.length, n, .answer, r.type, r.klass, r.rdata.length⟩) (n := n + 1) (nf := nf)
          (g := g1) (m := addAn m ws) hb2 hlen (fun x hx => hv x (by simp [hx])) (by omega) (by
            intro i hi
            have := hpu (i + 1) (by simp; omega)
            rw [show n + 1 + i = n + (i + 1) by omega]
            exact this) (by omega) (by
            intro h
            rw [show n + 1 + l.length = n + (l.length + 1) by omega] at h ⊢
            exact htail h) ⟨_, rfl⟩ rfl hnext' (by rw [hlen2]; exact hs.2) w2 (by omega)
        refine ⟨code', g2, d1, fun h => ?_⟩
        obtain ⟨ws', v1, v2, v3⟩ := d2 h
        exact ⟨ws ++ ws', goodAns_append w1 v1, by rw [addAn_addAn] at v2; exact v2, by omega⟩
      · rw [if_pos (by simpa using hz)]
        exact ⟨code, g1, rfl, fun h => absurd h hz⟩

/-- All answers of a response. -/
theorem copyLoop_done {r : Message.Msg} {rest : List Byte} {len fuel : Nat} {g : Gen} {m : Message.Msg}
    (ht : Tidy r) (hlen : r.bytes.length ≤ len) (hf : r.bytes.length + 255 ≤ fuel) (hg : Holds g m .answer) (hcap : g.cap < 16384) :
    ∃ it code g', gotoAnswers (r.bytes ++ rest) len (Msg.counts r) Itr.init = some it ∧
      copyLoop (r.bytes ++ rest) len fuel (Msg.counts r) ((Msg.counts r).all + 2) it g = some (code, g') ∧
      (code = 0 → ∃ ws, GoodAns Simple ws ∧ Holds g' (addAn m ws) .answer ∧ g'.cap = g.cap) := by
  obtain ⟨hr, hq, hcl⟩ := ht
  have hq' : 0 < r.qs.length := List.length_pos_iff.mpr hq
  obtain ⟨it, d, h1, -, hnum, hpos, hnext⟩ := gotoAnswers_msg hr hq rest len hlen
  have h12 := header_length hr
  have hpre : (r.header ++ qBytes r.qs).length = 12 + (qBytes r.qs).length := by simp [h12]
  have e1 : (Msg.counts r).qd = r.qs.length := rfl
  have e2 : (Msg.counts r).an = r.an.length := rfl
  have e3 : (Msg.counts r).ns = r.ns.length := rfl
  have e4 : (Msg.counts r).ar = r.ar.length := rfl
  have hall : (Msg.counts r).all = r.qs.length + r.an.length + r.ns.length + r.ar.length := rfl
  have := copyLoop_ends (c := Msg.counts r) (post := rest) hf r.an (pre := r.header ++ qBytes r.qs) (tail := rrBytes r.ns ++ rrBytes r.ar) (n := r.qs.length + 1)
    (nf := (Msg.counts r).all + 2) (it := it) (g := g) (m := m)
    (by simp [Msg.bytes, Msg.body]) hlen (fun x hx => hr.an x hx) (by omega) ?_ (by omega) ?_ hpos (by omega) ?_ (by rw [hpre]; exact hcl) hg hcap
  · obtain ⟨code, g', k1, k2⟩ := this
    exact ⟨it, code, g', h1, k1, k2⟩
  · intro i hi
    rw [purpose_correct _ hq']
    unfold sectionOf
    rw [e1, e2, if_neg (by omega), if_neg (by omega), if_pos (by omega)]
  · intro h
    rw [purpose_correct _ hq', e1, e2, e3, e4]
    unfold sectionOf
    rw [if_neg (by omega), if_neg (by omega), if_neg (by omega)]
    cases hns : r.ns with
    | cons x l =>
      refine ⟨rItem .nameServer x, rrBytes l ++ rrBytes r.ar, rItem_ok (hr.ns x (by simp [hns])) (by simp) (by simp), ?_, by simp [rItem], ?_⟩
      · rw [rItem_bytes]; simp [rrBytes]
      · rw [if_pos (by simp; omega)]; rfl
    | nil =>
      cases har : r.ar with
      | nil => rw [hall, hns, har] at h; simp at h; omega
      | cons x l =>
        refine ⟨rItem .additional x, rrBytes l, rItem_ok (hr.ar x (by simp [har])) (by simp) (by simp), ?_, by simp [rItem], ?_⟩
        · rw [rItem_bytes]; simp [rrBytes]
        · rw [if_neg (by simp), if_pos (by simp; omega)]; rfl
  · intro h
    rw [hpre]
    refine hnext (by omega) _ ?_
    rw [← hpre]
    have : r.bytes ++ rest = (r.header ++ qBytes r.qs) ++ (rrBytes r.an ++ (rrBytes r.ns ++ rrBytes r.ar) ++ rest) := by
      simp [Msg.bytes, Msg.body]
    rw [this, List.take_left]

/-- The EDNS record and compression. -/
theorem tail_done {g : Gen} {q : Message.Msg} {x : Question} {ws : List RR} (edns : Bool)
    (hg : Holds g (addAn q ws) .answer) (hcap : g.cap < 16384) (hq : q.qs = [x]) (han : q.an = []) (hns : q.ns = []) (har : q.ar = []) :
    ∃ code g3, (if edns then (toAdditional 3 g).map (fun g => Generator.edns g 1280) else some (0, g)) = some (code, g3) ∧
      (code = 0 → ∃ l out, compress g3.out = some (l, out) ∧ (0 ≤ l → ∃ r : Message.Msg, out = r.bytes ∧ Ends q r edns x ws)) := by
  have hn : g.num = 6 := Hosts.purpose_num.2.1.1 hg.sect
  have hE : ∃ code g3, (if edns then (toAdditional 3 g).map (fun g3 => Generator.edns g3 1280) else some (0, g)) = some (code, g3) ∧
      (code = 0 → ∃ mm : Message.Msg, g3.out = mm.bytes ∧ mm.Valid ∧ mm.bytes.length ≤ g.cap ∧
        mm = (if edns then ((addAn q ws).add .additional ⟨[0], 41, 1280, 0, []⟩) else addAn q ws)) := by
    cases edns with
    | false =>
      refine ⟨0, g, rfl, fun _ => ⟨_, hg.out, hg.valid, ?_, rfl⟩⟩
      have := hg.room; rw [hg.out] at this; exact this
    | true =>
      have hh : Holds { g with num := 10 } (addAn q ws) .additional := ⟨hg.out, hg.valid, rfl, trivial, hg.room⟩
      by_cases hroom : (addAn q ws).bytes.length + (Rec.edns 1280).rr.bytes.length ≤ g.cap
      · obtain ⟨g3, b1, b2, b3⟩ := append_exact _ _ .additional (.edns 1280) hh ⟨by omega, by omega⟩ rfl
          (by simp [Msg.count, addAn, har]) hroom
        simp only [append, Option.some.injEq] at b1
        refine ⟨0, g3, ?_, fun _ => ⟨_, b2.out, b2.valid, ?_, rfl⟩⟩
        · rw [if_pos rfl, toAdditional_reaches _ (by omega), Option.map_some, b1]
        · have := b2.room; rw [b2.out, b3] at this; exact this
      · rcases append_refused_partial _ _ .additional (.edns 1280) hh ⟨by omega, by omega⟩ rfl hroom with ⟨code, g1, junk, c1, c2, _⟩ | ⟨hr, _⟩
        · simp only [append, Option.some.injEq] at c1
          refine ⟨code, g1, ?_, fun h => absurd h c2⟩
          rw [if_pos rfl, toAdditional_reaches _ (by omega), Option.map_some, c1]
        · exact absurd hr id
  obtain ⟨code, g3, e1, hE⟩ := hE
  refine ⟨code, g3, e1, fun hz => ?_⟩
  obtain ⟨mm, e2, e3, e4, hm⟩ := hE hz
  have m2 : mm.qs = [x] := by rw [hm, ← hq]; cases edns <;> rfl
  have m3 : mm.an = ws := by rw [hm]; cases edns <;> simp [Msg.add, addAn, han]
  have m4 : mm.ns = [] := by rw [hm]; cases edns <;> simp [Msg.add, addAn, hns]
  have m5 : mm.ar = if edns then [⟨[0], 41, 1280, 0, []⟩] else [] := by
    rw [hm]; cases edns <;> simp [Msg.add, addAn, har]
  by_cases hroot : ∀ r ∈ mm.an, r.klass = 1 → r.name ≠ [0]
  · obtain ⟨r, c1, c2, c3, c4, c5, c6, c7, c8, c9⟩ := compress_meaning mm x e3 m2 (by omega) hroot
    refine ⟨_, _, by rw [e2]; exact c1, fun _ => ⟨r, rfl, c2, c2.head, by rw [c4, m2, hq], by rw [c7, m3], ?_, by rw [c5, m4], by rw [c6, m5]⟩⟩
    intro i w y hw hy
    obtain ⟨d1, d2, d3, d4, _, d6⟩ := c9 i w y (by rw [m3]; exact hw) hy
    refine ⟨d1, d2, d4, ?_⟩
    rw [m3] at d6
    exact d6
  · have hex : ∃ r ∈ mm.an, r.klass = 1 ∧ r.name = [0] := by
      simp only [Classical.not_forall, ne_eq, Classical.not_not] at hroot
      obtain ⟨r, h1, h2, h3⟩ := hroot
      exact ⟨r, h1, h2, h3⟩
    obtain ⟨b', hb'⟩ := compress_root_refused mm x e3 m2 (by omega) hex
    exact ⟨_, _, by rw [e2]; exact hb', fun h => absurd h (by omega)⟩

/-- The reply to a query for an alias is made, or given up. -/
theorem combine_done (m : Ctx Addr) {cap id len fuel : Nat} {r : Message.Msg} (rest : List Byte) {ls tg : List (List Byte)}
    (hm : m.domain = text ls) (hls : RfcName ls) (ht : 0 < m.type ∧ m.type < 65536) (htg : RfcName tg) (hst : Simple tg) (hr : Tidy r)
    (hlen : r.bytes.length ≤ len) (hf : r.bytes.length + 255 ≤ fuel) (hcap : cap < 16384) (hroom : 800 ≤ cap) :
    ∃ res, combine m cap id (r.bytes ++ rest) len fuel (text tg) = some res ∧
      ∀ out, res = some out → ∃ r' : Message.Msg, out = r'.bytes ∧ (Simple ls → Tidy r') := by
  have hv := hr.1
  have h12 := header_length hv
  have hbl : 12 ≤ r.bytes.length := by rw [Msg.bytes, List.length_append, h12]; omega
  have hl1 := wire_length_le (ls := ls)
  have hl2 := wire_length_le (ls := tg)
  have hl3 := hls.2
  have hl4 := htg.2
  unfold combine
  rw [if_neg (by simp [initOk]; omega), counts_eq hv]
  unfold initEmpty
  rw [if_pos (by omega)]
  dsimp only
  obtain ⟨a, b, c, d, hhd⟩ : ∃ a b c d, r.head = [a, b, c, d] := by
    have := hv.head
    match r.head, this with
    | [a, b, c, d], _ => exact ⟨a, b, c, d, rfl⟩
  have htk : (r.bytes ++ rest).take 4 = [a, b, c, d] := by
    simp [Msg.bytes, Msg.header, hhd]
  have hout : (setIdentifier (copyHeader ⟨cap, set16 id ++ [0, 0] ++ [0, 0, 0, 0, 0, 0, 0, 0], 4⟩ (r.bytes ++ rest)) id) =
      ⟨cap, (u16 id ++ [c, d]) ++ [0, 0, 0, 0, 0, 0, 0, 0], 4⟩ := by
    unfold setIdentifier copyHeader
    rw [htk]
    simp [overwrite, set16, u16]
  rw [hout, hm]
  obtain ⟨g1, q1, q2, q3, q4⟩ := question_ok (g := ⟨cap, (u16 id ++ [c, d]) ++ [0, 0, 0, 0, 0, 0, 0, 0], 4⟩) (h := u16 id ++ [c, d])
    (t := m.type) (by simp [u16_length]) rfl rfl hls.1 ht.1 ht.2 (by show _ ≤ cap; omega)
  rw [q1]
  dsimp only at q3 ⊢
  rw [if_neg (by simp)]
  have hnp : nextPurpose g1 = ({ g1 with num := 6 }, .answer) := by unfold nextPurpose; rw [q4]; rfl
  rw [hnp]
  dsimp only
  rw [if_neg (by simp)]
  generalize hq0 : (⟨u16 id ++ [c, d], [⟨wire ls, m.type, 1⟩], [], [], []⟩ : Message.Msg) = q0 at q2
  have hh2 : Holds { g1 with num := 6 } q0 .answer := ⟨q2.out, q2.valid, rfl, by rw [← hq0]; exact ⟨rfl, rfl⟩, q2.room⟩
  have hl0 : q0.bytes.length = 12 + ((wire ls).length + 4) := by
    rw [← hq0]; simp [Msg.bytes, Msg.header, Msg.body, qBytes, rrBytes, Question.bytes, u16_length]; omega
  have hlr : (Rec.alias ls tg 60).rr.bytes.length = (wire ls).length + 10 + (wire tg).length := by
    simp [Rec.rr, RR.bytes, u16_length, u32_length]; omega
  obtain ⟨g2, b1, b2, b3⟩ := append_exact { g1 with num := 6 } q0 .answer (.alias ls tg 60) hh2
    ⟨hls.1, pieces_of_valid htg.1, by omega, by omega⟩ (Or.inl rfl) (by rw [← hq0]; show 0 < 65535; decide)
    (by rw [hlr, hl0]; show _ ≤ g1.cap; omega)
  simp only [append, Option.some.injEq] at b1
  rw [b1]
  dsimp only at b3 ⊢
  rw [if_neg (by simp)]
  rw [add_eq_addAn] at b2
  obtain ⟨it, code, g3, c1, c2, c3⟩ := copyLoop_done (rest := rest) hr hlen hf b2 (by omega)
  rw [c1]
  dsimp only
  rw [c2]
  dsimp only
  by_cases hz : code = 0
  rotate_left
  · rw [if_pos hz]; exact ⟨none, rfl, by simp⟩
  rw [if_neg (by simpa using hz)]
  obtain ⟨ws, w1, w2, w3⟩ := c3 hz
  rw [addAn_addAn] at w2
  have hgood : GoodAns Simple ([(Rec.alias ls tg 60).rr] ++ ws) := by
    refine goodAns_append ?_ w1
    intro w hw
    rw [List.mem_singleton.1 hw]
    exact ⟨rfl, fun _ => ⟨tg, rfl, htg, hst⟩⟩
  obtain ⟨code', g4, d1, d2⟩ := tail_done (x := ⟨wire ls, m.type, 1⟩) m.edns w2 (by omega) (by rw [← hq0]) (by rw [← hq0]) (by rw [← hq0]) (by rw [← hq0])
  rw [d1]
  dsimp only
  by_cases hz' : code' = 0
  rotate_left
  · rw [if_pos hz']; exact ⟨none, rfl, by simp⟩
  rw [if_neg (by simpa using hz')]
  obtain ⟨l, out, f1, f2⟩ := d2 hz'
  rw [f1]
  dsimp only
  by_cases hl : l < 0
  · rw [if_pos hl]; exact ⟨none, rfl, by simp⟩
  · rw [if_neg hl]
    obtain ⟨r', rfl, hE⟩ := f2 (by omega)
    refine ⟨_, rfl, fun out ho => ⟨r', (Option.some.inj ho).symm, fun hs => ?_⟩⟩
    exact tidy_ends hE (by rw [← hq0]) rfl hls hs hgood

end Verif.HostsLoop
