import Verif.Model.Hosts
import Verif.Spec.Hosts
import Verif.Props.HostsContainer
import Verif.Props.Generator
/-! Lemmas on building a hosts reply. -/

namespace Verif.Hosts
open Msg Generator Parser Message Name

theorem flags2_eq : ∀ b : Byte, replyFlags2 b = UInt8.ofNat (128 + b.toNat % 4) :=
  forall_byte _ (by decide +kernel)
theorem flags3_eq : ∀ b : Byte, replyFlags3 b = UInt8.ofNat (128 + b.toNat / 16 % 8 * 16) :=
  forall_byte _ (by decide +kernel)

/-- The message with the flags of a reply. -/
def flagged (m : Message.Msg) : Message.Msg :=
  { m with head := m.head.take 2 ++ [UInt8.ofNat (128 + (m.head.getD 2 0).toNat % 4),
      UInt8.ofNat (128 + (m.head.getD 3 0).toNat / 16 % 8 * 16)] }

theorem head4 {l : List Byte} (h : l.length = 4) : ∃ a b c d, l = [a, b, c, d] := by
  match l, h with
  | [a, b, c, d], _ => exact ⟨a, b, c, d, rfl⟩

theorem flagged_valid {m : Message.Msg} (h : m.Valid) : (flagged m).Valid :=
  ⟨by obtain ⟨a, b, c, d, e⟩ := head4 h.head; simp [flagged, e], h.qs, h.an, h.ns, h.ar, h.qd16, h.an16, h.ns16, h.ar16⟩

theorem flagged_bytes {m : Message.Msg} (h : m.Valid) :
    (m.bytes.modify 2 replyFlags2).modify 3 replyFlags3 = (flagged m).bytes := by
  obtain ⟨a, b, c, d, e⟩ := head4 h.head
  simp [flagged, Message.Msg.bytes, Message.Msg.header, e, flags2_eq, flags3_eq, List.modify, List.modifyTailIdx,
    List.modifyTailIdx.go, Message.Msg.body]

theorem holds_flags {g : Gen} {m : Message.Msg} {s : Purpose} (h : Holds g m s) : Holds (replyFlags g) (flagged m) s := by
  refine ⟨?_, flagged_valid h.valid, h.sect, ?_, ?_⟩
  · show (g.out.modify 2 replyFlags2).modify 3 replyFlags3 = _
    rw [h.out, flagged_bytes h.valid]
  · have := h.isOpen
    cases s <;> first | exact this | trivial
  · show ((g.out.modify 2 replyFlags2).modify 3 replyFlags3).length ≤ g.cap
    simpa using h.room

theorem purpose_num {n : Nat} : (purposeOf n = .question ↔ n = 4) ∧ (purposeOf n = .answer ↔ n = 6) ∧
    (purposeOf n = .nameServer ↔ n = 8) ∧ (purposeOf n = .additional ↔ n = 10) := by
  unfold purposeOf
  refine ⟨?_, ?_, ?_, ?_⟩ <;> constructor <;> intro h <;> (repeat' split at h) <;> simp_all <;> omega

/-- From the question section on, the next is the answer section. -/
theorem holds_next {g : Gen} {m : Message.Msg} (h : Holds g m .question) :
    (nextPurpose g).2 = .answer ∧ Holds (nextPurpose g).1 m .answer ∧ (nextPurpose g).1.cap = g.cap ∧ (nextPurpose g).1.num = 6 := by
  have hn := purpose_num.1.1 h.sect
  have e : nextPurpose g = ({ g with num := 6 }, .answer) := by
    unfold nextPurpose; rw [hn]; rfl
  rw [e]
  exact ⟨rfl, ⟨h.out, h.valid, rfl, ⟨h.isOpen.2.1, h.isOpen.2.2⟩, h.room⟩, rfl, rfl⟩

/-- The record that is written. -/
def recOf (qtype : Nat) (rd : List Byte) (tgt : Option (List (List Byte))) : Rec :=
  match tgt with
  | some t => .alias [[97]] t 60
  | none => .raw [[97]] qtype 1 rd 60

theorem exName97 : ValidName [[97]] := by
  intro l hl
  simp at hl; subst hl
  exact ⟨by simp, by simp, by decide⟩

/-- The record of an entry. -/
theorem generate_rdata {goodIp : List Byte → Option (List Byte)} {qtype : Nat} {e : Entry} {rd : List Byte}
    (h : RData goodIp qtype e rd) (g : Gen) (ty : HType)
    (hty : ty = if qtype = 28 then .aaaa else e.type) :
    ∃ r : Rec, r.Valid ∧ r.rr = ⟨wire [[97]], qtype, 1, 60, rd⟩ ∧ (∀ s, (s = .answer ∨ s = .nameServer ∨ s = .additional) → r.Fits s) ∧
      generateNode goodIp g ty e.data = append g r ∧
      ((qtype = 5 ∧ ∃ t, r = .alias [[97]] t 60) ∨ (qtype ≠ 5 ∧ r = .raw [[97]] qtype 1 rd 60)) := by
  have ha : text [[97]] = str "a" := by decide
  cases h with
  | alias name target hv hl =>
    refine ⟨.alias [[97]] target 60, ⟨exName97, hv, hl, by omega⟩, rfl, fun s h => h, ?_, by simp⟩
    rw [hty, if_neg (by omega)]
    show some (cname g (str "a") (text target) 60) = _
    rw [append, ha]
  | v4 name b hb =>
    have hl : (b.drop 12).length = 4 := by simp [hb]
    refine ⟨.raw [[97]] 1 1 (b.drop 12) 60, ⟨exName97, by omega, by omega, by omega, by omega,
      by intro h; rw [h] at hl; simp at hl, by omega, by omega⟩, rfl, fun s h => h, ?_, by simp⟩
    rw [hty, if_neg (by omega)]
    show rawData g (str "a") 1 1 ((b.drop 12).take 4) 60 = _
    rw [append, ha, List.take_of_length_le (by omega)]
  | list name t b h hb =>
    refine ⟨.raw [[97]] 1 1 rd 60, ⟨exName97, by omega, by omega, by omega, by omega,
      by intro h; rw [h] at hb; simp at hb, by omega, by omega⟩, rfl, fun s h => h, ?_, by simp⟩
    rw [hty, if_neg (by omega)]
    simp only [generateNode, h]
    rw [append, ha]
  | v6 name b t hb =>
    refine ⟨.raw [[97]] 28 1 rd 60, ⟨exName97, by omega, by omega, by omega, by omega,
      by intro h; rw [h] at hb; simp at hb, by omega, by omega⟩, rfl, fun s h => h, ?_, by simp⟩
    rw [hty, if_pos rfl]
    show rawData g (str "a") 28 1 rd 60 = _
    rw [append, ha]

/-- The finished reply: `q` is the query with nothing behind its questions. -/
theorem finish_reply {goodIp : List Byte → Option (List Byte)} {g : Gen} {q : Message.Msg} {x : Question} {more : List Question}
    {ls : List (List Byte)} {edns : Bool} {qtype : Nat} {e : Entry} {rd : List Byte} {n : HType × Node}
    (hg : Holds g q .question) (hq : q.qs = x :: more) (hx : x.name = wire ls)
    (hls : ∀ l ∈ ls, 1 ≤ l.length ∧ l.length ≤ 63)
    (hrd : RData goodIp qtype e rd) (hn1 : n.1 = if qtype = 28 then .aaaa else e.type) (hn2 : n.2.data = e.data)
    (hroom : q.bytes.length + 13 + rd.length + (if edns then 11 else 0) ≤ g.cap) (hcap : g.cap < 16384) :
    ∃ r : Message.Msg, ReplyTo q ls edns qtype rd r ∧ r.Valid ∧ finish goodIp g edns n = some (some r.bytes) := by
  have h1 := holds_flags hg
  obtain ⟨h2, h3, h4, h5⟩ := holds_next h1
  obtain ⟨rec, hv, hr, hfits, hgen, hkind⟩ := generate_rdata hrd (nextPurpose (replyFlags g)).1 n.1 hn1
  have hlen1 : (flagged q).bytes.length = q.bytes.length := by
    rw [← flagged_bytes hg.valid]; simp
  have hrr : rec.rr.bytes.length = 13 + rd.length := by
    rw [hr, rr_bytes_length]; simp [wire]
  have hcap1 : (nextPurpose (replyFlags g)).1.cap = g.cap := h4
  have han : q.an = [] := hg.isOpen.1
  have hns : q.ns = [] := hg.isOpen.2.1
  have har : q.ar = [] := hg.isOpen.2.2
  obtain ⟨g2, a1, a2, a3⟩ := append_exact _ _ .answer rec h3 hv (hfits _ (Or.inl rfl))
    (by simp [Message.Msg.count, flagged, han]) (by rw [hlen1, hrr, hcap1]; split at hroom <;> omega)
  have hg2n : g2.num = 6 := purpose_num.2.1.1 a2.sect
  have hlen2 : ((flagged q).add .answer rec.rr).bytes.length = q.bytes.length + (13 + rd.length) := by
    rw [add_bytes_length (Or.inl rfl), hlen1, hrr]
  -- the EDNS record
  have hE : ∃ g3, (if edns then (toAdditional 3 g2).map (fun g3 => Generator.edns g3 1280) else some (0, g2)) = some (0, g3) ∧
      g3.out = (if edns then (((flagged q).add .answer rec.rr).add .additional ⟨[0], 41, 1280, 0, []⟩)
        else ((flagged q).add .answer rec.rr)).bytes ∧
      (if edns then (((flagged q).add .answer rec.rr).add .additional ⟨[0], 41, 1280, 0, []⟩)
        else ((flagged q).add .answer rec.rr)).Valid ∧ g3.out.length ≤ g.cap := by
    cases edns with
    | false => exact ⟨g2, rfl, a2.out, a2.valid, by have := a2.room; rw [a3, hcap1] at this; exact this⟩
    | true =>
      rw [if_pos rfl, toAdditional_reaches g2 (by omega)]
      have hh : Holds { g2 with num := 10 } ((flagged q).add .answer rec.rr) .additional :=
        ⟨a2.out, a2.valid, rfl, trivial, a2.room⟩
      obtain ⟨g3, b1, b2, b3⟩ := append_exact _ _ .additional (.edns 1280) hh ⟨by omega, by omega⟩ rfl
        (by simp [Message.Msg.count, Message.Msg.add, flagged, har])
        (by rw [hlen2]; simp only [if_true] at hroom; show _ ≤ g2.cap; rw [a3, hcap1]; simp [Rec.rr, rr_bytes_length]; omega)
      simp only [append, Option.some.injEq] at b1
      refine ⟨g3, by simp [b1], b2.out, b2.valid, ?_⟩
      have := b2.room
      rw [b3] at this
      have e : ({ g2 with num := 10 } : Gen).cap = g.cap := by show g2.cap = _; rw [a3, hcap1]
      rw [e] at this; exact this
  obtain ⟨g3, e1, e2, e3, e4⟩ := hE
  generalize hm : (if edns then (((flagged q).add .answer rec.rr).add .additional ⟨[0], 41, 1280, 0, []⟩)
        else ((flagged q).add .answer rec.rr)) = mm at e2 e3
  have m1 : mm.head = (flagged q).head := by rw [← hm]; cases edns <;> rfl
  have m2 : mm.qs = x :: more := by rw [← hm, ← hq]; cases edns <;> rfl
  have m3 : mm.an = [rec.rr] := by rw [← hm]; cases edns <;> simp [Message.Msg.add, flagged, han]
  have m4 : mm.ns = [] := by rw [← hm]; cases edns <;> simp [Message.Msg.add, flagged, hns]
  have m5 : mm.ar = if edns then [⟨[0], 41, 1280, 0, []⟩] else [] := by
    rw [← hm]; cases edns <;> simp [Message.Msg.add, flagged, har]
  obtain ⟨r, c1, c2, c3, c4, c5, c6, c7, c8, c9⟩ := compress_meaning mm x e3 m2 (by rw [← e2]; omega)
    (by intro y hy _; rw [m3] at hy; simp at hy; subst hy; rw [hr]; simp [wire])
  have hrl : r.an.length = 1 := by rw [c7, m3]; rfl
  obtain ⟨y, hy⟩ : ∃ y, r.an = [y] := by
    match hh : r.an, hrl with
    | [y], _ => exact ⟨y, rfl⟩
  obtain ⟨d1, d2, d3, d4, _, d6⟩ := c9 0 rec.rr y (by rw [m3]; rfl) (by rw [hy]; rfl)
  refine ⟨r, ⟨?_, by rw [c4, m2, hq], ⟨y, hy, ?_⟩, ?_, by rw [c5, m4], by rw [c6, m5]⟩, c2, ?_⟩
  · rw [c3, m1]; rfl
  · rw [d1, d2, d3, d4, hr]; exact ⟨rfl, rfl, rfl, rfl⟩
  · have := d6 (by rw [hr]) ls hls (by simp [ownerOf, hx])
    simp only [List.take_zero, rrBytes, List.map_nil, List.flatten_nil, List.length_nil, Nat.add_zero] at this
    exact this
  · unfold finish
    dsimp only
    rw [if_neg (by simp [h2]), hn2, hgen, a1]
    dsimp only
    rw [if_neg (by simp), e1]
    dsimp only
    rw [if_neg (by simp), e2, c1]
    dsimp only
    rw [if_neg (by omega)]

/-- There is no room for the record: without a check of the data the outcome is undefined if only they do not fit. -/
theorem finish_full {goodIp : List Byte → Option (List Byte)} {g : Gen} {q : Message.Msg}
    {edns : Bool} {qtype : Nat} {e : Entry} {rd : List Byte} {n : HType × Node}
    (hg : Holds g q .question)
    (hrd : RData goodIp qtype e rd) (hn1 : n.1 = if qtype = 28 then .aaaa else e.type) (hn2 : n.2.data = e.data) :
    ((g.cap < q.bytes.length + 13 ∨ qtype = 5 ∧ g.cap < q.bytes.length + 13 + rd.length) → finish goodIp g edns n = some Option.none) ∧
    (qtype ≠ 5 → q.bytes.length + 13 ≤ g.cap → g.cap < q.bytes.length + 13 + rd.length → finish goodIp g edns n = Option.none) ∧
    (q.bytes.length + 13 + rd.length ≤ g.cap → g.cap < q.bytes.length + 13 + rd.length + (if edns then 11 else 0) → finish goodIp g edns n = some Option.none) := by
  have h1 := holds_flags hg
  obtain ⟨h2, h3, h4, h5⟩ := holds_next h1
  obtain ⟨rec, hv, hr, hfits, hgen, hkind⟩ := generate_rdata hrd (nextPurpose (replyFlags g)).1 n.1 hn1
  have hlen1 : (flagged q).bytes.length = q.bytes.length := by
    rw [← flagged_bytes hg.valid]; simp
  have hrr : rec.rr.bytes.length = 13 + rd.length := by
    rw [hr, rr_bytes_length]; simp [wire]
  have hcap1 : (nextPurpose (replyFlags g)).1.cap = g.cap := h4
  have hol : (nextPurpose (replyFlags g)).1.out.length = q.bytes.length := by rw [h3.out, hlen1]
  have han : q.an = [] := hg.isOpen.1
  have har : q.ar = [] := hg.isOpen.2.2
  have hpre : ∀ c g', append (nextPurpose (replyFlags g)).1 rec = some (c, g') → c ≠ 0 → finish goodIp g edns n = some Option.none := by
    intro c g' ha hc
    unfold finish
    dsimp only
    rw [if_neg (by simp [h2]), hn2, hgen, ha]
    dsimp only
    rw [if_pos hc]
  have hfit : rec.Fits (purposeOf (nextPurpose (replyFlags g)).1.num) := by rw [h3.sect]; exact hfits _ (Or.inl rfl)
  have hae := append_eq hv hfit
  have hft : (total (fields rec)).length + (unchecked rec).length = 13 + rd.length := by
    rw [← hrr, ← fields_bytes hv]; simp
  have hunfit : ¬ q.bytes.length + (total (fields rec)).length ≤ g.cap → finish goodIp g edns n = some Option.none := by
    intro h
    obtain ⟨code, junk, k1, k2, -, -⟩ := writes_unfit (fields_codes rec) h3.room (by rw [hol, hcap1]; exact h)
    rw [k2, if_pos k1] at hae
    exact hpre _ _ hae k1
  refine ⟨?_, ?_, ?_⟩
  · intro h
    apply hunfit
    rcases hkind with ⟨h5, t, rfl⟩ | ⟨h5, rfl⟩
    · simp only [unchecked, List.length_nil] at hft
      omega
    · simp only [unchecked] at hft
      rcases h with h | ⟨h, _⟩
      · omega
      · exact absurd h h5
  · intro h5 ha hb
    rcases hkind with ⟨h, _⟩ | ⟨_, rfl⟩
    · exact absurd h h5
    simp only [unchecked] at hft
    have hfit2 := writes_fit (g := (nextPurpose (replyFlags g)).1) (fs := fields (.raw [[97]] qtype 1 rd 60)) (by rw [hol, hcap1]; omega)
    rw [hfit2, if_neg (by simp), if_neg (by
      simp only [unchecked, List.length_append, hol]
      rintro (hx | hx)
      · rw [show (nextPurpose (replyFlags g)).1.cap = g.cap from hcap1] at hx; omega
      · rw [hx] at hb; simp at hb; omega)] at hae
    unfold finish
    dsimp only
    rw [if_neg (by simp [h2]), hn2, hgen, hae]
  · intro ha hb
    cases edns with
    | false => simp at hb; omega
    | true =>
      obtain ⟨g2, a1, a2, a3⟩ := append_exact _ _ .answer rec h3 hv (hfits _ (Or.inl rfl))
        (by simp [Message.Msg.count, flagged, han]) (by rw [hlen1, hrr, hcap1]; omega)
      have hg2n : g2.num = 6 := purpose_num.2.1.1 a2.sect
      have hlen2 : ((flagged q).add .answer rec.rr).bytes.length = q.bytes.length + (13 + rd.length) := by
        rw [add_bytes_length (Or.inl rfl), hlen1, hrr]
      have hh : Holds { g2 with num := 10 } ((flagged q).add .answer rec.rr) .additional :=
        ⟨a2.out, a2.valid, rfl, trivial, a2.room⟩
      rcases append_refused_partial _ _ .additional (.edns 1280) hh ⟨by omega, by omega⟩ rfl
        (by rw [hlen2]; simp only [if_true] at hb; show ¬ _ ≤ g2.cap; rw [a3, hcap1]; simp [Rec.rr, rr_bytes_length]; omega) with ⟨code, g', junk, k1, k2, -⟩ | ⟨k, -⟩
      · simp only [append, Option.some.injEq] at k1
        unfold finish
        dsimp only
        rw [if_neg (by simp [h2]), hn2, hgen, a1]
        dsimp only
        rw [if_neg (by simp), if_pos rfl, toAdditional_reaches g2 (by omega)]
        simp only [Option.map_some, k1]
        rw [if_pos k2]
      · exact k.elim

/-- A list that does not exist, and a query with answers, are given up. -/
theorem finish_noList {goodIp : List Byte → Option (List Byte)} {g : Gen} {q : Message.Msg} {edns : Bool} {t : List Byte} {n : HType × Node}
    (hg : Holds g q .question) (hn1 : n.1 = .goodIpList) (hn2 : n.2.data = .text t) (hgo : goodIp t = Option.none) : finish goodIp g edns n = some Option.none := by
  obtain ⟨h2, -⟩ := holds_next (holds_flags hg)
  unfold finish
  dsimp only
  rw [if_neg (by simp [h2]), hn1, hn2]
  simp only [generateNode, hgo]
  rfl

theorem finish_answered {goodIp : List Byte → Option (List Byte)} {g : Gen} {q : Message.Msg} {edns : Bool} {n : HType × Node}
    (hg : Holds g q .answer) : finish goodIp g edns n = some Option.none := by
  have hn := purpose_num.2.1.1 (holds_flags hg).sect
  unfold finish
  have e : (nextPurpose (replyFlags g)).2 = .nameServer := by
    unfold nextPurpose; rw [hn]; rfl
  dsimp only
  rw [if_pos (by simp [e])]

end Verif.Hosts
