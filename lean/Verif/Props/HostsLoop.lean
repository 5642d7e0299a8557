import Verif.Lemmas.HostsLoop
import Verif.Props.IHeader
import Verif.Lemmas.SameName
import Verif.Props.DnsCacheAlias
import Verif.Lemmas.MsgUnique
/-! C108: the reply to a query for an alias of the hosts data. -/

namespace Verif.HostsLoop
open Message Name Parser Generator DnsCache DnsCache.Spec Spec Verif.Msg

variable {Addr : Type}

/-- Answers in the order of the chain are said of the names they were for. -/
theorem follows_renamed {t : Nat} {ls : List (List Byte)} {fs fs' : List Fact} (h : Follows t ls fs fs') (hp : ∀ f ∈ fs, Plain f) (ht : t ≠ 5) :
    fs' = renamed ls fs := by
  induction h with
  | records ls fs h =>
    induction fs with
    | nil => rfl
    | cons f fs ih =>
      have hf := (h f (by simp)).2
      have hpf := (hp f (by simp)).2.2
      rw [List.map_cons, renamed, ih (fun x hx => h x (by simp [hx])) (fun x hx => hp x (by simp [hx]))]
      split
      · rename_i e; rw [e] at hpf; exact absurd (hf.symm.trans hpf.1) ht
      · rfl
  | alias ls ls' target ttl fs fs' h hr ih => rw [renamed, ih (fun x hx => hp x (by simp [hx]))]

/-- Nothing but the owners changes. -/
theorem renamed_same (fs : List Fact) (ls : List (List Byte)) : (renamed ls fs).length = fs.length ∧
    ∀ (i : Nat) (f' : Fact), (renamed ls fs)[i]? = some f' → ∃ f : Fact, fs[i]? = some f ∧ f.type = f'.type ∧ f.ttl = f'.ttl ∧ f.value = f'.value := by
  induction fs generalizing ls with
  | nil => exact ⟨rfl, fun i f' h => by simp [renamed] at h⟩
  | cons f fs ih =>
    refine ⟨by simp [renamed, ih], fun i f' hf => ?_⟩
    cases i with
    | zero => simp [renamed] at hf; subst hf; exact ⟨_, rfl, rfl, rfl, rfl⟩
    | succ i => simp only [renamed, List.getElem?_cons_succ] at hf ⊢; exact (ih _).2 i f' hf

/-- The owner each answer is given by compression. -/
theorem owner_renamed (fs : List Fact) (ls : List (List Byte)) (hp : ∀ f ∈ fs, Plain f) :
    ∀ (i : Nat) (f : Fact), (renamed ls fs)[i]? = some f → wire f.owner = ownerOf (wire ls) ((fs.map copied).take i) := by
  induction fs generalizing ls with
  | nil => intro i f h; simp [renamed] at h
  | cons g fs ih =>
    intro i f hf
    cases i with
    | zero => simp [renamed] at hf; subst hf; rfl
    | succ i =>
      simp only [renamed, List.getElem?_cons_succ] at hf
      rw [List.map_cons, List.take_succ_cons, ownerOf_cons]
      have hpg := (hp g (by simp)).2.2
      have := ih _ (fun x hx => hp x (by simp [hx])) i f hf
      rw [this]
      congr 1
      split at hpg
      · rename_i d e
        rw [if_neg (by simp [copied]; omega), e]
      · rename_i tg e
        rw [if_pos ⟨hpg.1, rfl⟩]
        simp [copied, e, Value.wire]
      · exact hpg.elim

theorem renamed_valid (fs : List Fact) (ls : List (List Byte)) (hl : ValidName ls)
    (hv : ∀ f ∈ fs, ∀ tg, f.value = .name tg → ValidName tg) : ∀ f ∈ renamed ls fs, ValidName f.owner := by
  induction fs generalizing ls with
  | nil => intro f h; simp [renamed] at h
  | cons g fs ih =>
    intro f hf
    rcases List.mem_cons.1 hf with rfl | hf
    · exact hl
    · refine ih _ ?_ (fun x hx => hv x (List.mem_cons_of_mem _ hx)) f hf
      split
      · rename_i tg e; exact hv g List.mem_cons_self tg e
      · exact hl

theorem says_names {b : List Byte} {p : Nat} {rs : List RR} {fs : List Fact} (h : Says b p rs fs) :
    ∀ f ∈ fs, ∀ tg, f.value = .name tg → ValidName tg := by
  induction h with
  | nil => simp
  | skip _ _ ih => exact ih
  | cons h _ _ ih =>
    intro f hf tg e
    rcases List.mem_cons.1 hf with rfl | hf
    · have := h.value
      rw [e] at this
      exact this.2.1.1
    · exact ih f hf tg e

/-- The end of the work: the EDNS record and compression. -/
theorem combine_end {g : Gen} {q : Message.Msg} {x : Question} {ls : List (List Byte)} {fs : List Fact} {ws : List RR} (edns : Bool)
    (hg : Holds g (addAn q ws) .answer) (hcap : g.cap < 16384) (hq : q.qs = [x]) (han : q.an = []) (hns : q.ns = []) (har : q.ar = [])
    (hx : x.name = wire ls) (hroom : (addAn q ws).bytes.length + (if edns then 11 else 0) ≤ g.cap) (hall : ∀ f ∈ fs, ValidName f.owner) (hlen : ws.length = fs.length)
    (hroot : ∀ w ∈ ws, w.name ≠ [0])
    (ha : ∀ i f, fs[i]? = some f → ∃ w, ws[i]? = some w ∧ w.type = f.type ∧ w.klass = 1 ∧ w.ttl = f.ttl ∧ w.rdata = f.value.wire ∧
      wire f.owner = ownerOf (wire ls) (ws.take i)) :
    ∃ g3 l, ∃ r : Message.Msg, (if edns then (toAdditional 3 g).map (fun g => Generator.edns g 1280) else some (0, g)) = some (0, g3) ∧
      compress g3.out = some (l, r.bytes) ∧ 0 ≤ l ∧ r.Valid ∧ r.head = q.head ∧ r.qs = q.qs ∧ r.an.length = fs.length ∧
      (∀ i x f, r.an[i]? = some x → fs[i]? = some f → Is r.bytes (12 + (qBytes r.qs).length + (rrBytes (r.an.take i)).length) x f) ∧
      r.ns = [] ∧ r.ar = if edns then [⟨[0], 41, 1280, 0, []⟩] else [] := by
  have hn : g.num = 6 := Hosts.purpose_num.2.1.1 hg.sect
  have hE : ∃ g3 mm, (if edns then (toAdditional 3 g).map (fun g3 => Generator.edns g3 1280) else some (0, g)) = some (0, g3) ∧ g3.out = mm.bytes ∧
      mm.Valid ∧ mm.bytes.length ≤ g.cap ∧ mm = (if edns then ((addAn q ws).add .additional ⟨[0], 41, 1280, 0, []⟩) else addAn q ws) := by
    cases edns with
    | false =>
      refine ⟨g, _, rfl, hg.out, hg.valid, ?_, rfl⟩
      have := hg.room; rw [hg.out] at this; exact this
    | true =>
      have hh : Holds { g with num := 10 } (addAn q ws) .additional := ⟨hg.out, hg.valid, rfl, trivial, hg.room⟩
      have hlr : (Rec.edns 1280).rr.bytes.length = 11 := by decide
      obtain ⟨g3, b1, b2, b3⟩ := append_exact _ _ .additional (.edns 1280) hh ⟨by omega, by omega⟩ rfl
        (by simp [Msg.count, addAn, har]) (by rw [hlr]; exact hroom)
      simp only [append, Option.some.injEq] at b1
      refine ⟨g3, _, ?_, b2.out, b2.valid, ?_, rfl⟩
      · rw [if_pos rfl, toAdditional_reaches _ (by omega), Option.map_some, b1]
      · have := b2.room; rw [b2.out, b3] at this; exact this
  obtain ⟨g3, mm, e1, e2, e3, e4, hm⟩ := hE
  have m1 : mm.head = q.head := by rw [hm]; cases edns <;> rfl
  have m2 : mm.qs = [x] := by rw [hm, ← hq]; cases edns <;> rfl
  have m3 : mm.an = ws := by rw [hm]; cases edns <;> simp [Msg.add, addAn, han]
  have m4 : mm.ns = [] := by rw [hm]; cases edns <;> simp [Msg.add, addAn, hns]
  have m5 : mm.ar = if edns then [⟨[0], 41, 1280, 0, []⟩] else [] := by
    rw [hm]; cases edns <;> simp [Msg.add, addAn, har]
  obtain ⟨r, c1, c2, c3, c4, c5, c6, c7, c8, c9⟩ := compress_meaning mm x e3 m2 (by omega) (by
    intro r hr _; rw [m3] at hr; exact hroot r hr)
  refine ⟨g3, _, r, e1, by rw [e2]; exact c1, by omega, c2, by rw [c3, m1], by rw [c4, m2, hq], by rw [c7, m3, hlen], ?_, by rw [c5, m4], by rw [c6, m5]⟩
  intro i y f hy hf
  obtain ⟨w, w1, w2, w3, w4, w5, w7⟩ := ha i f hf
  obtain ⟨d1, d2, d3, d4, _, d6⟩ := c9 i w y (by rw [m3]; exact w1) hy
  refine ⟨d1.trans w2, d2.trans w3, d3.trans w4, d4.trans w5, 2, ?_⟩
  rw [← hx, ← m3] at w7
  have hvo := hall f (List.mem_of_getElem? hf)
  exact d6 w3 f.owner (fun l hl => ⟨(hvo l hl).1, (hvo l hl).2.1⟩) w7

theorem taken_all {fs : List Fact} (hp : ∀ f ∈ fs, Plain f) : taken fs = fs := by
  unfold taken
  rw [List.filter_eq_self]
  intro f hf
  have := (hp f hf).2.2
  refine decide_eq_true ?_
  unfold Taken
  split at this
  · omega
  · omega
  · exact this.elim

theorem seen_names {b post : List Byte} {p : Nat} {rs : List RR} {fs : List Fact} (h : Seen b post p rs fs) :
    ∀ f ∈ fs, ∀ tg, f.value = .name tg → ValidName tg := by
  induction h with
  | nil => simp
  | skip _ _ ih => exact ih
  | cons h _ ih =>
    intro f hf tg e
    rcases List.mem_cons.1 hf with rfl | hf
    · have := h.value
      rw [e] at this
      exact this.2.1.1
    · exact ih f hf tg e

theorem seen_owners {b post : List Byte} {p : Nat} {rs : List RR} {fs : List Fact} (h : Seen b post p rs fs) : ∀ f ∈ fs, RfcName f.owner := by
  induction h with
  | nil => simp
  | skip _ _ ih => exact ih
  | cons h _ ih =>
    intro f hf
    rcases List.mem_cons.1 hf with rfl | hf
    · exact h.owner.1
    · exact ih f hf

theorem seen_plain {b post : List Byte} {p : Nat} {rs : List RR} {fs : List Fact} (h : Seen b post p rs fs) : ∀ f ∈ fs, Plain f := by
  induction h with
  | nil => simp
  | skip _ _ ih => exact ih
  | cons h _ ih =>
    intro f hf
    rcases List.mem_cons.1 hf with rfl | hf
    · refine ⟨h.owner.2.1, h.owner.2.2, ?_⟩
      have := h.value
      split at this
      · exact this.1
      · exact ⟨this.1, this.2.2.1⟩
      · exact this
    · exact ih f hf

theorem seen_answers {r : Message.Msg} {rest : List Byte} {fs : List Fact} (hr : r.Valid) (hs : Says r.bytes (12 + (qBytes r.qs).length) r.an fs)
    (hk : ∀ x ∈ r.an, Taken x.type → x.klass = 1) (hp : ∀ f ∈ fs, Taken f.type → Plain f) :
    Seen r.bytes rest (12 + (qBytes r.qs).length) r.an (taken fs) :=
  seen_of_says (pre := r.header ++ qBytes r.qs) (tail := rrBytes r.ns ++ rrBytes r.ar) hs (by simp [header_length hr]) (by simp [Msg.bytes, Msg.body]) hk hp

/-- C108.  A client asked for the name `ls`, which the hosts data make an alias of `tg`; the response `r` came, with answers of
any types in any order; its aliases and addresses are of the class IN, the addresses with data of any lengths (`Seen` says what they are).  The reply then has the client's identifier and question, the flags of the response, and as
answers the alias followed by the aliases and addresses of the response, in their order, and no other.  Whatever name an answer was for,
it is now for the target of the last alias before it. -/
theorem combined_seen (m : Ctx Addr) (cap id len fuel : Nat) (r : Message.Msg) (rest : List Byte) (ls tg : List (List Byte)) (fs : List Fact)
    (res : Option (List Byte)) (hm : m.domain = text ls) (hls : RfcName ls) (hne : ls ≠ []) (ht : 0 < m.type ∧ m.type < 65536)
    (htg : RfcName tg) (hr : r.Valid) (hq : r.qs ≠ []) (hlen : r.bytes.length ≤ len)
    (hs : Seen r.bytes rest (12 + (qBytes r.qs).length) r.an fs)
    (hcap : cap < 16384) (hroom : 12 + ((wire ls).length + 4) + size (⟨ls, 5, 60, .name tg⟩ :: fs) + (if m.edns then 11 else 0) ≤ cap)
    (e : combine m cap id (r.bytes ++ rest) len fuel (text tg) = some res) :
    ∃ out : Message.Msg, res = some out.bytes ∧ Combined id ⟨wire ls, m.type, 1⟩ m.edns (⟨ls, 5, 60, .name tg⟩ :: renamed tg fs) r out := by
  have hp' : ∀ f ∈ fs, Plain f := seen_plain hs
  have h12 := header_length hr
  have hbl : 12 ≤ r.bytes.length := by rw [Msg.bytes, List.length_append, h12]; omega
  have hsz : size (⟨ls, 5, 60, .name tg⟩ :: fs) = (copied ⟨ls, 5, 60, .name tg⟩).bytes.length + size fs := by
    rw [size_eq, size_eq]; simp [rrBytes]
  unfold combine at e
  rw [if_neg (by simp [initOk]; omega), counts_eq hr] at e
  unfold initEmpty at e
  rw [if_pos (by omega)] at e
  dsimp only at e
  -- the header
  obtain ⟨a, b, c, d, hhd⟩ : ∃ a b c d, r.head = [a, b, c, d] := by
    have := hr.head
    match r.head, this with
    | [a, b, c, d], _ => exact ⟨a, b, c, d, rfl⟩
  have htk : (r.bytes ++ rest).take 4 = [a, b, c, d] := by
    simp [Msg.bytes, Msg.header, hhd]
  have hout : (setIdentifier (copyHeader ⟨cap, set16 id ++ [0, 0] ++ [0, 0, 0, 0, 0, 0, 0, 0], 4⟩ (r.bytes ++ rest)) id) =
      ⟨cap, (u16 id ++ [c, d]) ++ [0, 0, 0, 0, 0, 0, 0, 0], 4⟩ := by
    unfold setIdentifier copyHeader
    rw [htk]
    simp [overwrite, set16, u16]
  rw [hout, hm] at e
  obtain ⟨g1, q1, q2, q3, q4⟩ := question_ok (g := ⟨cap, (u16 id ++ [c, d]) ++ [0, 0, 0, 0, 0, 0, 0, 0], 4⟩) (h := u16 id ++ [c, d])
    (t := m.type) (by simp [u16_length]) rfl rfl hls.1 ht.1 ht.2 (by show _ ≤ cap; omega)
  rw [q1] at e
  dsimp only at e q3
  rw [if_neg (by simp)] at e
  have hnp : nextPurpose g1 = ({ g1 with num := 6 }, .answer) := by unfold nextPurpose; rw [q4]; rfl
  rw [hnp] at e
  dsimp only at e
  rw [if_neg (by simp)] at e
  -- the alias
  generalize hq0 : (⟨u16 id ++ [c, d], [⟨wire ls, m.type, 1⟩], [], [], []⟩ : Message.Msg) = q0 at q2
  have hh2 : Holds { g1 with num := 6 } q0 .answer := ⟨q2.out, q2.valid, rfl, by rw [← hq0]; exact ⟨rfl, rfl⟩, q2.room⟩
  have hl0 : q0.bytes.length = 12 + ((wire ls).length + 4) := by
    rw [← hq0]; simp [Msg.bytes, Msg.header, Msg.body, qBytes, rrBytes, Question.bytes, u16_length]; omega
  obtain ⟨g2, b1, b2, b3⟩ := append_exact { g1 with num := 6 } q0 .answer (.alias ls tg 60) hh2
    ⟨hls.1, pieces_of_valid htg.1, by have := wire_length_le (ls := tg); have := htg.2; omega, by omega⟩ (Or.inl rfl) (by rw [← hq0]; show 0 < 65535; decide)
    (by
      have : (Rec.alias ls tg 60).rr = copied ⟨ls, 5, 60, .name tg⟩ := rfl
      rw [this, hl0]; show _ ≤ g1.cap; omega)
  simp only [append, Option.some.injEq] at b1
  rw [b1] at e
  dsimp only at e b3
  rw [if_neg (by simp)] at e
  rw [add_eq_addAn, show (Rec.alias ls tg 60).rr = copied ⟨ls, 5, 60, .name tg⟩ from rfl] at b2
  have hl1 : (addAn q0 [copied ⟨ls, 5, 60, .name tg⟩]).bytes.length = 12 + ((wire ls).length + 4) + (copied ⟨ls, 5, 60, .name tg⟩).bytes.length := by
    rw [addAn_length, hl0]; simp [rrBytes]
  -- the answers
  split at e
  · cases e
  rename_i it hgo
  split at e
  · cases e
  rename_i code g3 hcp
  obtain ⟨g4, c1, c2, c3⟩ := (copyLoop_msg hr hq hlen hs b2 (by omega) hgo hcp).1 (by rw [hl1, b3, q3]; omega)
  simp only [Prod.mk.injEq] at c1
  obtain ⟨rfl, rfl⟩ := c1
  rw [if_neg (by simp)] at e
  rw [addAn_addAn] at c2
  -- the end
  obtain ⟨f1, f2⟩ := renamed_same fs tg
  obtain ⟨g5, l, out, d1, d2, d3, d4, d5, d6, d7, d8, d9, d10⟩ := combine_end (fs := ⟨ls, 5, 60, .name tg⟩ :: renamed tg fs) (x := ⟨wire ls, m.type, 1⟩) (ls := ls) m.edns
    c2 (by omega) (by rw [← hq0]) (by rw [← hq0]) (by rw [← hq0]) (by rw [← hq0]) rfl (by
      rw [← addAn_addAn, addAn_length, hl1, ← size_eq]; omega) (by
      intro f hf'
      rcases List.mem_cons.1 hf' with rfl | hf'
      · exact hls.1
      · exact renamed_valid fs tg htg.1 (seen_names hs) f hf') (by simp [f1]) (by
      have key : ∀ o : List (List Byte), o ≠ [] → ValidName o → wire o ≠ [0] := by
        intro o ho hv
        cases o with
        | nil => exact absurd rfl ho
        | cons l o =>
          intro h
          simp [wire] at h
          have := (hv l (by simp)).1
          rw [h.2.1] at this; simp at this
      intro w hw
      simp only [List.singleton_append, List.mem_cons, List.mem_map] at hw
      rcases hw with rfl | ⟨f, hf', rfl⟩
      · exact key ls hne hls.1
      · exact key f.owner (hp' f hf').1 (seen_owners hs f hf').1) (by
      intro i f hf'
      cases i with
      | zero => simp at hf'; subst hf'; exact ⟨_, rfl, rfl, rfl, rfl, rfl, rfl⟩
      | succ i =>
        simp only [List.getElem?_cons_succ] at hf'
        obtain ⟨f0, h1, h2, h3, h4⟩ := f2 i f hf'
        refine ⟨copied f0, ?_, h2, rfl, h3, by rw [← h4]; rfl, ?_⟩
        · rw [List.singleton_append, List.getElem?_cons_succ, List.getElem?_map, h1]; rfl
        · rw [List.singleton_append, List.take_succ_cons, ownerOf_cons]
          have : (if (copied ⟨ls, 5, 60, .name tg⟩).type = 5 ∧ (copied ⟨ls, 5, 60, .name tg⟩).klass = 1
              then (copied ⟨ls, 5, 60, .name tg⟩).rdata else wire ls) = wire tg := by simp [copied, Value.wire]
          rw [this]
          exact owner_renamed fs tg hp' i f hf')
  rw [d1] at e
  dsimp only at e
  rw [if_neg (by simp), d2] at e
  dsimp only at e
  rw [if_neg (by omega)] at e
  refine ⟨out, (Option.some.inj e).symm, d4, ?_, by rw [d6, ← hq0], d7, d8, d9, d10⟩
  rw [d5, ← hq0, hhd]
  rfl

/-- C108: when the question, the alias and the aliases and addresses of the response (with the EDNS record, if the client uses EDNS) do not all
fit, names uncompressed, the query is given up: there is no reply with some of the answers. -/
theorem seen_no_room (m : Ctx Addr) (cap id len fuel : Nat) (r : Message.Msg) (rest : List Byte) (ls tg : List (List Byte)) (fs : List Fact)
    (res : Option (List Byte)) (hm : m.domain = text ls) (hls : RfcName ls) (ht : 0 < m.type ∧ m.type < 65536)
    (htg : RfcName tg) (hr : r.Valid) (hq : r.qs ≠ []) (hlen : r.bytes.length ≤ len)
    (hs : Seen r.bytes rest (12 + (qBytes r.qs).length) r.an fs)
    (hcap : cap < 16384) (hroom : ¬ 12 + ((wire ls).length + 4) + size (⟨ls, 5, 60, .name tg⟩ :: fs) + (if m.edns then 11 else 0) ≤ cap)
    (e : combine m cap id (r.bytes ++ rest) len fuel (text tg) = some res) : res = none := by
  have h12 := header_length hr
  have hbl : 12 ≤ r.bytes.length := by rw [Msg.bytes, List.length_append, h12]; omega
  have hsz : size (⟨ls, 5, 60, .name tg⟩ :: fs) = (copied ⟨ls, 5, 60, .name tg⟩).bytes.length + size fs := by
    rw [size_eq, size_eq]; simp [rrBytes]
  unfold combine at e
  rw [if_neg (by simp [initOk]; omega), counts_eq hr] at e
  unfold initEmpty at e
  by_cases hc12 : 12 ≤ cap
  rotate_left
  · rw [if_neg hc12] at e; cases e
  rw [if_pos hc12] at e
  dsimp only at e
  -- the header
  obtain ⟨a, b, c, d, hhd⟩ : ∃ a b c d, r.head = [a, b, c, d] := by
    have := hr.head
    match r.head, this with
    | [a, b, c, d], _ => exact ⟨a, b, c, d, rfl⟩
  have htk : (r.bytes ++ rest).take 4 = [a, b, c, d] := by
    simp [Msg.bytes, Msg.header, hhd]
  have hout : (setIdentifier (copyHeader ⟨cap, set16 id ++ [0, 0] ++ [0, 0, 0, 0, 0, 0, 0, 0], 4⟩ (r.bytes ++ rest)) id) =
      ⟨cap, (u16 id ++ [c, d]) ++ [0, 0, 0, 0, 0, 0, 0, 0], 4⟩ := by
    unfold setIdentifier copyHeader
    rw [htk]
    simp [overwrite, set16, u16]
  rw [hout, hm] at e
  by_cases hroom1 : 12 + (wire ls).length + 4 ≤ cap
  rotate_left
  · have hno := question_unfit (g := ⟨cap, (u16 id ++ [c, d]) ++ [0, 0, 0, 0, 0, 0, 0, 0], 4⟩) (h := u16 id ++ [c, d]) (t := m.type)
      (by simp [u16_length]) rfl rfl hls.1 hc12 hroom1
    generalize question ⟨cap, (u16 id ++ [c, d]) ++ [0, 0, 0, 0, 0, 0, 0, 0], 4⟩ (text ls) m.type 1 = qq at e hno
    obtain ⟨code, g⟩ := qq
    dsimp only at e hno
    rw [if_pos hno] at e
    exact (Option.some.inj e).symm
  obtain ⟨g1, q1, q2, q3, q4⟩ := question_ok (g := ⟨cap, (u16 id ++ [c, d]) ++ [0, 0, 0, 0, 0, 0, 0, 0], 4⟩) (h := u16 id ++ [c, d])
    (t := m.type) (by simp [u16_length]) rfl rfl hls.1 ht.1 ht.2 hroom1
  rw [q1] at e
  dsimp only at e q3
  rw [if_neg (by simp)] at e
  have hnp : nextPurpose g1 = ({ g1 with num := 6 }, .answer) := by unfold nextPurpose; rw [q4]; rfl
  rw [hnp] at e
  dsimp only at e
  rw [if_neg (by simp)] at e
  -- the alias
  generalize hq0 : (⟨u16 id ++ [c, d], [⟨wire ls, m.type, 1⟩], [], [], []⟩ : Message.Msg) = q0 at q2
  have hh2 : Holds { g1 with num := 6 } q0 .answer := ⟨q2.out, q2.valid, rfl, by rw [← hq0]; exact ⟨rfl, rfl⟩, q2.room⟩
  have hl0 : q0.bytes.length = 12 + ((wire ls).length + 4) := by
    rw [← hq0]; simp [Msg.bytes, Msg.header, Msg.body, qBytes, rrBytes, Question.bytes, u16_length]; omega
  have hav : (Rec.alias ls tg 60).Valid := ⟨hls.1, pieces_of_valid htg.1, by have := wire_length_le (ls := tg); have := htg.2; omega, by omega⟩
  have harr : (Rec.alias ls tg 60).rr = copied ⟨ls, 5, 60, .name tg⟩ := rfl
  by_cases hroom2 : q0.bytes.length + (copied ⟨ls, 5, 60, .name tg⟩).bytes.length ≤ cap
  rotate_left
  · rcases append_refused_partial { g1 with num := 6 } q0 .answer (.alias ls tg 60) hh2 hav (Or.inl rfl) (by rw [harr]; show ¬ _ ≤ g1.cap; rw [q3]; exact hroom2) with
      ⟨code, g', junk, a1, a2, _⟩ | ⟨h, _⟩
    · simp only [append, Option.some.injEq] at a1
      rw [a1] at e
      dsimp only at e
      rw [if_pos a2] at e
      exact (Option.some.inj e).symm
    · exact absurd h (by simp [IsRaw])
  obtain ⟨g2, b1, b2, b3⟩ := append_exact { g1 with num := 6 } q0 .answer (.alias ls tg 60) hh2 hav (Or.inl rfl) (by rw [← hq0]; show 0 < 65535; decide)
    (by rw [harr]; show _ ≤ g1.cap; omega)
  simp only [append, Option.some.injEq] at b1
  rw [b1] at e
  dsimp only at e b3
  rw [if_neg (by simp)] at e
  rw [add_eq_addAn, harr] at b2
  have hl1 : (addAn q0 [copied ⟨ls, 5, 60, .name tg⟩]).bytes.length = 12 + ((wire ls).length + 4) + (copied ⟨ls, 5, 60, .name tg⟩).bytes.length := by
    rw [addAn_length, hl0]; simp [rrBytes]
  -- the answers
  split at e
  · cases e
  rename_i it hgo
  split at e
  · cases e
  rename_i code g3 hcp
  obtain ⟨hyes, hno⟩ := copyLoop_msg hr hq hlen hs b2 (by omega) hgo hcp
  by_cases hroom3 : (addAn q0 [copied ⟨ls, 5, 60, .name tg⟩]).bytes.length + size fs ≤ g2.cap
  rotate_left
  · have hne : code ≠ 0 := hno hroom3
    rw [if_pos hne] at e
    exact (Option.some.inj e).symm
  obtain ⟨g4, c1, c2, c3⟩ := hyes hroom3
  simp only [Prod.mk.injEq] at c1
  obtain ⟨rfl, rfl⟩ := c1
  rw [if_neg (by simp)] at e
  rw [addAn_addAn] at c2
  -- the EDNS record
  cases hed : m.edns with
  | false => rw [hed] at hroom; simp only [Bool.false_eq_true, if_false] at hroom; omega
  | true =>
    rw [hed] at e hroom
    simp only [if_true] at e hroom
    have hn : g3.num = 6 := Hosts.purpose_num.2.1.1 c2.sect
    have hl3 : (addAn q0 ([copied ⟨ls, 5, 60, .name tg⟩] ++ fs.map copied)).bytes.length =
        12 + ((wire ls).length + 4) + (copied ⟨ls, 5, 60, .name tg⟩).bytes.length + size fs := by
      rw [← addAn_addAn, addAn_length, hl1, ← size_eq]
    have hh : Holds { g3 with num := 10 } (addAn q0 ([copied ⟨ls, 5, 60, .name tg⟩] ++ fs.map copied)) .additional := ⟨c2.out, c2.valid, rfl, trivial, c2.room⟩
    have hlr : (Rec.edns 1280).rr.bytes.length = 11 := by decide
    rw [toAdditional_reaches _ (by omega), Option.map_some] at e
    rcases append_refused_partial _ _ .additional (.edns 1280) hh ⟨by omega, by omega⟩ rfl (by rw [hlr, hl3]; show ¬ _ ≤ g3.cap; omega) with
      ⟨code, g', junk, a1, a2, _⟩ | ⟨h, _⟩
    · simp only [append, Option.some.injEq] at a1
      rw [a1] at e
      dsimp only at e
      rw [if_pos a2] at e
      exact (Option.some.inj e).symm
    · exact absurd h (by simp [IsRaw])

/-- C108: the same, if the data of the addresses have the length of an address. -/
theorem combined_every (m : Ctx Addr) (cap id len fuel : Nat) (r : Message.Msg) (rest : List Byte) (ls tg : List (List Byte)) (fs : List Fact)
    (res : Option (List Byte)) (hm : m.domain = text ls) (hls : RfcName ls) (hne : ls ≠ []) (ht : 0 < m.type ∧ m.type < 65536)
    (htg : RfcName tg) (hr : r.Valid) (hq : r.qs ≠ []) (hlen : r.bytes.length ≤ len) (hk : ∀ x ∈ r.an, Taken x.type → x.klass = 1)
    (hs : Says r.bytes (12 + (qBytes r.qs).length) r.an fs) (hp : ∀ f ∈ fs, Taken f.type → Plain f)
    (hcap : cap < 16384) (hroom : 12 + ((wire ls).length + 4) + size (⟨ls, 5, 60, .name tg⟩ :: taken fs) + (if m.edns then 11 else 0) ≤ cap)
    (e : combine m cap id (r.bytes ++ rest) len fuel (text tg) = some res) :
    ∃ out : Message.Msg, res = some out.bytes ∧ Combined id ⟨wire ls, m.type, 1⟩ m.edns (⟨ls, 5, 60, .name tg⟩ :: renamed tg (taken fs)) r out := by
  exact combined_seen m cap id len fuel r rest ls tg (taken fs) res hm hls hne ht htg hr hq hlen (seen_answers hr hs hk hp) hcap hroom e

/-- C108: the same, if the data of the addresses have the length of an address. -/
theorem every_no_room (m : Ctx Addr) (cap id len fuel : Nat) (r : Message.Msg) (rest : List Byte) (ls tg : List (List Byte)) (fs : List Fact)
    (res : Option (List Byte)) (hm : m.domain = text ls) (hls : RfcName ls) (ht : 0 < m.type ∧ m.type < 65536)
    (htg : RfcName tg) (hr : r.Valid) (hq : r.qs ≠ []) (hlen : r.bytes.length ≤ len) (hk : ∀ x ∈ r.an, Taken x.type → x.klass = 1)
    (hs : Says r.bytes (12 + (qBytes r.qs).length) r.an fs) (hp : ∀ f ∈ fs, Taken f.type → Plain f)
    (hcap : cap < 16384) (hroom : ¬ 12 + ((wire ls).length + 4) + size (⟨ls, 5, 60, .name tg⟩ :: taken fs) + (if m.edns then 11 else 0) ≤ cap)
    (e : combine m cap id (r.bytes ++ rest) len fuel (text tg) = some res) : res = none := by
  exact seen_no_room m cap id len fuel r rest ls tg (taken fs) res hm hls ht htg hr hq hlen (seen_answers hr hs hk hp) hcap hroom e

/-- C108: the same for responses with aliases and addresses only. -/
theorem combined_any (m : Ctx Addr) (cap id len fuel : Nat) (r : Message.Msg) (rest : List Byte) (ls tg : List (List Byte)) (fs : List Fact)
    (res : Option (List Byte)) (hm : m.domain = text ls) (hls : RfcName ls) (hne : ls ≠ []) (ht : 0 < m.type ∧ m.type < 65536)
    (htg : RfcName tg) (hr : r.Valid) (hq : r.qs ≠ []) (hlen : r.bytes.length ≤ len) (hk : ∀ x ∈ r.an, x.klass = 1)
    (hs : Says r.bytes (12 + (qBytes r.qs).length) r.an fs) (hp : ∀ f ∈ fs, Plain f)
    (hcap : cap < 16384) (hroom : 12 + ((wire ls).length + 4) + size (⟨ls, 5, 60, .name tg⟩ :: fs) + (if m.edns then 11 else 0) ≤ cap)
    (e : combine m cap id (r.bytes ++ rest) len fuel (text tg) = some res) :
    ∃ out : Message.Msg, res = some out.bytes ∧ Combined id ⟨wire ls, m.type, 1⟩ m.edns (⟨ls, 5, 60, .name tg⟩ :: renamed tg fs) r out := by
  have := combined_every m cap id len fuel r rest ls tg fs res hm hls hne ht htg hr hq hlen (fun x hx _ => hk x hx) hs (fun f hf _ => hp f hf) hcap
  rw [taken_all hp] at this
  exact this hroom e

/-- C108: the same for responses with aliases and addresses only. -/
theorem combined_no_room (m : Ctx Addr) (cap id len fuel : Nat) (r : Message.Msg) (rest : List Byte) (ls tg : List (List Byte)) (fs : List Fact)
    (res : Option (List Byte)) (hm : m.domain = text ls) (hls : RfcName ls) (ht : 0 < m.type ∧ m.type < 65536)
    (htg : RfcName tg) (hr : r.Valid) (hq : r.qs ≠ []) (hlen : r.bytes.length ≤ len) (hk : ∀ x ∈ r.an, x.klass = 1)
    (hs : Says r.bytes (12 + (qBytes r.qs).length) r.an fs) (hp : ∀ f ∈ fs, Plain f)
    (hcap : cap < 16384) (hroom : ¬ 12 + ((wire ls).length + 4) + size (⟨ls, 5, 60, .name tg⟩ :: fs) + (if m.edns then 11 else 0) ≤ cap)
    (e : combine m cap id (r.bytes ++ rest) len fuel (text tg) = some res) : res = none := by
  have := every_no_room m cap id len fuel r rest ls tg fs res hm hls ht htg hr hq hlen (fun x hx _ => hk x hx) hs (fun f hf _ => hp f hf) hcap
  rw [taken_all hp] at this
  exact this hroom e

/-- C108: if an alias or address of the response is of another class than IN, the query is given up. -/
theorem class_given_up (m : Ctx Addr) (cap id len fuel : Nat) (r : Message.Msg) (rest target : List Byte) (res : Option (List Byte)) (hr : r.Valid) (hq : r.qs ≠ [])
    (hlen : r.bytes.length ≤ len) (hk : ∃ x ∈ r.an, Taken x.type ∧ x.klass ≠ 1) (e : combine m cap id (r.bytes ++ rest) len fuel target = some res) : res = none := by
  unfold combine at e
  rw [counts_eq hr] at e
  split at e
  · exact (Option.some.inj e).symm
  split at e
  rotate_left
  · cases e
  rename_i c g hc hg
  cases hc
  generalize question _ _ _ _ = qq at e
  obtain ⟨code, g⟩ := qq
  dsimp only at e
  split at e
  · exact (Option.some.inj e).symm
  generalize nextPurpose g = pp at e
  obtain ⟨g, p⟩ := pp
  dsimp only at e
  split at e
  · exact (Option.some.inj e).symm
  generalize cname g _ _ _ = cc at e
  obtain ⟨code, g⟩ := cc
  dsimp only at e
  split at e
  · exact (Option.some.inj e).symm
  split at e
  · cases e
  rename_i it hgo
  split at e
  · cases e
  rename_i code g3 hcp
  have hne : code ≠ 0 := copyLoop_class_msg hr hq hlen hk hgo hcp
  rw [if_pos hne] at e
  exact (Option.some.inj e).symm

/-- C108, proved part: if the answers come in the order of the chain (aliases from name to name, then records for the last
name), each answer of the reply is for the name it was for.

Missing: names with bytes of 192 and more; of responses that do not fit `combined_no_room` speaks. -/
theorem combined_partial (m : Ctx Addr) (cap id len fuel : Nat) (r : Message.Msg) (rest : List Byte) (ls tg : List (List Byte)) (fs fs' : List Fact)
    (res : Option (List Byte)) (hm : m.domain = text ls) (hls : RfcName ls) (hne : ls ≠ []) (ht : 0 < m.type ∧ m.type < 65536 ∧ m.type ≠ 5)
    (htg : RfcName tg) (hr : r.Valid) (hq : r.qs ≠ []) (hlen : r.bytes.length ≤ len) (hk : ∀ x ∈ r.an, x.klass = 1)
    (hs : Says r.bytes (12 + (qBytes r.qs).length) r.an fs) (hp : ∀ f ∈ fs, Plain f) (hf : Follows m.type tg fs fs')
    (hcap : cap < 16384) (hroom : 12 + ((wire ls).length + 4) + size (⟨ls, 5, 60, .name tg⟩ :: fs) + (if m.edns then 11 else 0) ≤ cap)
    (e : combine m cap id (r.bytes ++ rest) len fuel (text tg) = some res) :
    ∃ out : Message.Msg, res = some out.bytes ∧ Combined id ⟨wire ls, m.type, 1⟩ m.edns (⟨ls, 5, 60, .name tg⟩ :: fs') r out := by
  rw [follows_renamed hf hp ht.2.2]
  exact combined_any m cap id len fuel r rest ls tg fs res hm hls hne ⟨ht.1, ht.2.1⟩ htg hr hq hlen hk hs hp hcap hroom e

/-- C108, the question.  For the alias `tg` the program asks with the given identifier one question for `tg` and the client's
type, recursion desired; the answer is to come back to the worker. -/
theorem asked (h q : Ctx (Dest Addr)) (cap id t sock fuel : Nat) (tg : List (List Byte)) (back : Dest Addr) (code : Int) (htg : RfcName tg) (ht : 0 < t) (ht' : t < 65536)
    (hcap : 12 + (wire tg).length + 4 ≤ cap) (e : generateQuery h cap id (text tg) t back sock fuel = some (code, q)) :
    code = 0 ∧ q.entity = (⟨u16 id ++ [1, 0], [⟨wire tg, t, 1⟩], [], [], []⟩ : Message.Msg).bytes ∧ q.back = some back ∧ q.sock = sock ∧
      q.domain = (text tg).map toLowerByte ∧ q.hash = bkdrHash ((text tg).map toLowerByte) ∧ q.type = t ∧ q.returnHeader = true ∧ q.edns = false := by
  have hc : counts queryHeader = some ⟨0, 0, 0, 0⟩ := by decide
  unfold generateQuery initFrom at e
  rw [hc] at e
  dsimp only at e
  rw [if_neg (by simp), if_pos ⟨by omega, by decide, by omega⟩] at e
  dsimp only at e
  have hset : setIdentifier ⟨cap, queryHeader.take 12, lastSection ⟨0, 0, 0, 0⟩⟩ id = ⟨cap, (u16 id ++ [1, 0]) ++ [0, 0, 0, 0, 0, 0, 0, 0], 4⟩ := by
    simp [setIdentifier, queryHeader, overwrite, set16, u16, lastSection]
  rw [hset] at e
  obtain ⟨g, q1, q2, q3, q4⟩ := question_ok (g := ⟨cap, (u16 id ++ [1, 0]) ++ [0, 0, 0, 0, 0, 0, 0, 0], 4⟩) (h := u16 id ++ [1, 0])
    (t := t) (by simp [u16_length]) rfl rfl htg.1 ht ht' hcap
  rw [q1] at e
  dsimp only at e
  rw [if_neg (by simp), q2.out] at e
  generalize hm : (⟨u16 id ++ [1, 0], [⟨wire tg, t, 1⟩], [], [], []⟩ : Message.Msg) = m at *
  have hd : Denotes (memAt (m.bytes ++ List.replicate (cap - m.bytes.length) 0)) m.bytes.length 12 tg (wire tg).length := by
    refine denotes_wire (fun l hl => ⟨(htg.1 l hl).1, (htg.1 l hl).2.1⟩) ?_ ?_
    · refine memOf_mid (pre := u16 id ++ [1, 0] ++ [0, 1, 0, 0, 0, 0, 0, 0]) (post := (u16 t ++ u16 1) ++ List.replicate (cap - m.bytes.length) 0) ?_
        (by simp [u16_length])
      rw [← hm]; simp [Msg.bytes, Msg.header, Msg.body, qBytes, rrBytes, Question.bytes, u16]
    · rw [← hm]; simp [Msg.bytes, Msg.header, Msg.body, qBytes, rrBytes, Question.bytes, u16_length]; omega
  obtain ⟨f0, hf⟩ := fill_exact (Addr := Dest Addr) m ⟨wire tg, t, 1⟩ tg _ (List.replicate (cap - m.bytes.length) 0) q2.valid (by rw [← hm]) rfl hd
    (by have := htg.2; omega) (by
      intro c hc
      have : ∀ {ls : List (List Byte)}, ValidName ls → ∀ c ∈ text ls, c ≠ 0 := by
        intro ls
        induction ls with
        | nil => intro _ c hc; simp [text] at hc
        | cons l ls ih =>
          intro hv c hc
          cases ls with
          | nil => exact ((hv l (by simp)).2.2 c hc).2
          | cons l' ls =>
            simp only [text, List.mem_append, List.mem_cons] at hc
            rcases hc with hc | rfl | hc
            · exact ((hv l (by simp)).2.2 c hc).2
            · decide
            · exact ih (fun x hx => hv x (by simp at hx ⊢; grind)) c hc
      exact this htg.1 c hc) true (some back) sock (str "CNameRedirect")
  split at e
  · cases e
  rename_i c0 h0 hfill
  have := Forwarder.fill_fuel (Nat.le_max_left fuel f0) hfill
  rw [hf _ (Nat.le_max_right _ _) h] at this
  simp only [Option.some.injEq, Prod.mk.injEq] at this
  obtain ⟨rfl, rfl⟩ := this
  simp only [Option.some.injEq, Prod.mk.injEq] at e
  obtain ⟨rfl, rfl⟩ := e
  exact ⟨rfl, rfl, rfl, rfl, rfl, rfl, rfl, rfl, by rw [← hm]; rfl⟩

/-! ### a case that meets the hypotheses -/

def exTg : List (List Byte) := [[98], [99]]
def exResponse : Message.Msg :=
  ⟨[9, 9, 0x81, 0x80], [⟨wire exTg, 1, 1⟩], [⟨wire exTg, 5, 1, 300, wire [[100]]⟩, ⟨wire [[68]], 1, 1, 200, [1, 2, 3, 4]⟩], [], []⟩
def exFacts : List Fact := [⟨exTg, 5, 300, .name [[100]]⟩, ⟨[[68]], 1, 200, .raw [1, 2, 3, 4]⟩]
def exHead : Ctx Nat := ⟨some 8, 1, [97], 0, 1, false, true, [], []⟩

example : (generateQuery ⟨none, 0, [], 0, 0, false, true, [], []⟩ 600 258 (text [[66], [99]]) 1 (Dest.loop 3 false : Dest Nat) 7 60).map
      (fun x => (x.1, x.2.entity, x.2.domain, x.2.type)) =
    some (0, [1, 2, 1, 0, 0, 1, 0, 0, 0, 0, 0, 0, 1, 66, 1, 99, 0, 0, 1, 0, 1], [98, 46, 99], 1) := by decide +kernel

theorem exValid {l : List Byte} (h : l = [97] ∨ l = [98] ∨ l = [99] ∨ l = [100] ∨ l = [68]) : ValidLabel l := by
  rcases h with rfl | rfl | rfl | rfl | rfl <;> exact ⟨by simp, by simp, by simp⟩

theorem exNames : RfcName [[97]] ∧ RfcName exTg ∧ RfcName [[100]] ∧ RfcName [[68]] := by
  refine ⟨⟨?_, by decide⟩, ⟨?_, by decide⟩, ⟨?_, by decide⟩, ⟨?_, by decide⟩⟩ <;> intro l hl <;> simp [exTg] at hl <;>
    exact exValid (by grind)

theorem exPlain : ∀ f ∈ exFacts, Plain f := by
  intro f hf
  simp only [exFacts, List.mem_cons, List.not_mem_nil, or_false] at hf
  rcases hf with rfl | rfl
  · exact ⟨by simp [exTg], by unfold Simple; decide, rfl, by unfold Simple; decide⟩
  · exact ⟨by simp, by unfold Simple; decide, Or.inl ⟨rfl, rfl⟩⟩

theorem exResponse_valid : exResponse.Valid := by
  have w1 : Message.WireName (wire exTg) := .label [98] _ (by simp) (by simp) (.label [99] _ (by simp) (by simp) .root)
  refine ⟨rfl, ?_, ?_, by simp [exResponse], by simp [exResponse], by simp [exResponse], by simp [exResponse], by simp [exResponse], by simp [exResponse]⟩
  · intro q hq
    simp [exResponse] at hq
    subst hq
    exact ⟨w1, by simp, by simp, by simp, by simp⟩
  · intro r hr
    simp [exResponse] at hr
    rcases hr with rfl | rfl
    · exact ⟨w1, by simp, by simp, by simp, by simp, by simp, by decide⟩
    · exact ⟨.label [68] _ (by simp) (by simp) .root, by simp, by simp, by simp, by simp, by simp, by simp⟩

theorem exAt (p : Nat) (ls : List (List Byte)) (hv : RfcName ls) (h1 : p + (wire ls).length ≤ exResponse.bytes.length)
    (h2 : (exResponse.bytes.drop p).take (wire ls).length = wire ls) : ∃ k, Denotes (bytesAt exResponse.bytes) exResponse.bytes.length p ls k := by
  refine ⟨_, denotes_wire (fun l hl => ⟨(hv.1 l hl).1, (hv.1 l hl).2.1⟩) ?_ h1⟩
  refine memOf_mid (pre := exResponse.bytes.take p) (post := (exResponse.bytes.drop p).drop (wire ls).length) ?_ (by rw [List.length_take]; omega)
  conv => lhs; rw [← List.take_append_drop p exResponse.bytes, ← List.take_append_drop (wire ls).length (exResponse.bytes.drop p), h2]

theorem exSays : Says exResponse.bytes (12 + (qBytes exResponse.qs).length) exResponse.an exFacts := by
  refine .cons (f := ⟨exTg, 5, 300, .name [[100]]⟩) ⟨rfl, rfl, rfl, exNames.2.1, exAt _ _ exNames.2.1 (by decide) (by decide),
      Or.inr (Or.inl rfl), exNames.2.2.1, exAt _ _ exNames.2.2.1 (by decide) (by decide)⟩ (by simp [Cached]) ?_
  refine .cons (f := ⟨[[68]], 1, 200, .raw [1, 2, 3, 4]⟩) ⟨rfl, rfl, rfl, exNames.2.2.2, exAt _ _ exNames.2.2.2 (by decide) (by decide),
      Or.inl rfl, rfl, by simp⟩ (by simp [Cached]) (.nil _)

example : ∃ out : Message.Msg, combine exHead 600 258 (exResponse.bytes ++ List.replicate 40 7) (exResponse.bytes.length + 30) 60 (text exTg) = some (some out.bytes) ∧
    Combined 258 ⟨wire [[97]], 1, 1⟩ true [⟨[[97]], 5, 60, .name exTg⟩, ⟨exTg, 5, 300, .name [[100]]⟩, ⟨[[100]], 1, 200, .raw [1, 2, 3, 4]⟩] exResponse out := by
  cases hc : combine exHead 600 258 (exResponse.bytes ++ List.replicate 40 7) (exResponse.bytes.length + 30) 60 (text exTg) with
  | none => exact absurd hc (by decide +kernel)
  | some res =>
    obtain ⟨out, rfl, h⟩ := combined_partial exHead 600 258 _ 60 exResponse (List.replicate 40 7) [[97]] exTg exFacts
      [⟨exTg, 5, 300, .name [[100]]⟩, ⟨[[100]], 1, 200, .raw [1, 2, 3, 4]⟩] res rfl exNames.1 (by simp) (by decide) exNames.2.1
      exResponse_valid (by simp [exResponse]) (by omega) (by decide) exSays exPlain
      (.alias _ _ _ _ _ _ rfl (.records [[100]] [⟨[[68]], 1, 200, .raw [1, 2, 3, 4]⟩] (by decide))) (by decide) (by decide) hc
    exact ⟨out, rfl, h⟩

/-- The hypotheses of `combined_no_room` are met with one byte less than needed. -/
example : combine exHead 82 258 (exResponse.bytes ++ List.replicate 40 7) (exResponse.bytes.length + 30) 60 (text exTg) = some none ∧
    ¬ 12 + ((wire [[97]]).length + 4) + size (⟨[[97]], 5, 60, .name exTg⟩ :: exFacts) + (if exHead.edns then 11 else 0) ≤ 82 ∧
    12 + ((wire [[97]]).length + 4) + size (⟨[[97]], 5, 60, .name exTg⟩ :: exFacts) + (if exHead.edns then 11 else 0) ≤ 83 := by decide +kernel

/-- Of a mail server and an address the address is given; if the address is of the class CH, nothing is. -/
def exMixed (klass : Nat) : Message.Msg :=
  ⟨[9, 9, 0x81, 0x80], [⟨wire exTg, 1, 1⟩], [⟨wire exTg, 15, 1, 300, [0, 9, 1, 100, 0]⟩, ⟨wire exTg, 1, klass, 200, [1, 2, 3, 4]⟩], [], []⟩

theorem exMixed_valid (k : Nat) (h : 0 < k) (h' : k < 65536) : (exMixed k).Valid := by
  have w1 : Message.WireName (wire exTg) := .label [98] _ (by simp) (by simp) (.label [99] _ (by simp) (by simp) .root)
  refine ⟨rfl, ?_, ?_, by simp [exMixed], by simp [exMixed], by simp [exMixed], by simp [exMixed], by simp [exMixed], by simp [exMixed]⟩
  · intro q hq
    simp [exMixed] at hq
    subst hq
    exact ⟨w1, by simp, by simp, by simp, by simp⟩
  · intro r hr
    simp [exMixed] at hr
    rcases hr with rfl | rfl
    · exact ⟨w1, by simp, by simp, by simp, by simp, by simp, by simp⟩
    · exact ⟨w1, by simp, by simp, h, h', by simp, by simp⟩

example : (combine { exHead with edns := false } 600 258 (exMixed 1).bytes (exMixed 1).bytes.length 60 (text exTg)).map (·.map (·.drop 36)) =
    some (some [192, 31, 0, 1, 0, 1, 0, 0, 0, 200, 0, 4, 1, 2, 3, 4]) := by decide +kernel

example : combine { exHead with edns := false } 600 258 (exMixed 3).bytes (exMixed 3).bytes.length 60 (text exTg) = some none := by decide +kernel

example (e : combine exHead 600 258 ((exMixed 3).bytes ++ []) (exMixed 3).bytes.length 60 (text exTg) = some res) : res = none :=
  class_given_up exHead 600 258 _ 60 (exMixed 3) [] _ res (exMixed_valid 3 (by decide) (by decide)) (by simp [exMixed]) (Nat.le_refl _) ⟨⟨wire exTg, 1, 3, 200, [1, 2, 3, 4]⟩, by simp [exMixed], Or.inl rfl, by decide⟩ e

/-! ### what is not so -/

/-- A reply is given if there is one that fits. -/
def GivenIfFits : Prop :=
  ∀ (m : Ctx Nat) (cap id len fuel : Nat) (r out : Message.Msg) (ls tg : List (List Byte)) (fs : List Fact) (res : Option (List Byte)), m.domain = text ls →
    RfcName ls → ls ≠ [] → 0 < m.type ∧ m.type < 65536 → RfcName tg → r.Valid → r.qs ≠ [] → r.bytes.length ≤ len → (∀ x ∈ r.an, x.klass = 1) →
    Says r.bytes (12 + (qBytes r.qs).length) r.an fs → (∀ f ∈ fs, Plain f) → cap < 16384 →
    Combined id ⟨wire ls, m.type, 1⟩ m.edns (⟨ls, 5, 60, .name tg⟩ :: renamed tg fs) r out → out.bytes.length ≤ cap →
    combine m cap id r.bytes len fuel (text tg) = some res → res ≠ none

/-- The reply is written without compression first: one of 78 bytes is not given with room for 82. -/
theorem givenIfFits_false : ¬ GivenIfFits := by
  intro h
  have h600 : (combine exHead 600 258 exResponse.bytes exResponse.bytes.length 60 (text exTg)).map (·.map List.length) = some (some 78) := by decide +kernel
  cases hc : combine exHead 600 258 exResponse.bytes exResponse.bytes.length 60 (text exTg) with
  | none => rw [hc] at h600; cases h600
  | some res =>
    obtain ⟨out, rfl, ho⟩ := combined_any exHead 600 258 _ 60 exResponse [] [[97]] exTg exFacts res rfl exNames.1 (by simp) (by decide) exNames.2.1
      exResponse_valid (by simp [exResponse]) (Nat.le_refl _) (by decide) exSays exPlain (by decide) (by decide) (by rw [List.append_nil]; exact hc)
    rw [hc] at h600
    have hl : out.bytes.length = 78 := by simpa using h600
    exact h exHead 82 258 _ 60 exResponse out [[97]] exTg exFacts none rfl exNames.1 (by simp) (by decide) exNames.2.1 exResponse_valid (by simp [exResponse])
      (Nat.le_refl _) (by decide) exSays exPlain (by decide) ho (by omega) (by decide +kernel) rfl

/-- No answer of the server is lost, whatever the type of the question. -/
def AllKept : Prop :=
  ∀ (m : Ctx Nat) (cap id len fuel : Nat) (r out : Message.Msg) (ls tg : List (List Byte)), m.domain = text ls → RfcName ls → ls ≠ [] →
    0 < m.type ∧ m.type < 65536 ∧ m.type ≠ 5 → RfcName tg → r.Valid → r.qs ≠ [] → r.bytes.length ≤ len → (∀ x ∈ r.an, x.klass = 1) →
    cap < 16384 → 12 + ((wire ls).length + 4) + ((wire tg).length + (wire ls).length + 10) + r.bytes.length ≤ cap → out.Valid →
    combine m cap id r.bytes len fuel (text tg) = some (some out.bytes) → out.an.length = 1 + r.an.length

def exMx : Message.Msg := ⟨[9, 9, 0x81, 0x80], [⟨wire exTg, 15, 1⟩], [⟨wire exTg, 15, 1, 300, [0, 9, 1, 100, 0]⟩], [], []⟩
def exMxOut : Message.Msg := ⟨[1, 2, 0x81, 0x80], [⟨wire [[97]], 15, 1⟩], [⟨[192, 12], 5, 1, 60, wire exTg⟩], [], []⟩

/-- A question for the mail servers of a name with an alias is answered with the alias alone: `CombineRecursedResponse` copies no record
but aliases and addresses. -/
theorem allKept_false : ¬ AllKept := by
  intro h
  have w1 : Message.WireName (wire exTg) := .label [98] _ (by simp) (by simp) (.label [99] _ (by simp) (by simp) .root)
  have w2 : Message.WireName (wire [[97]]) := .label [97] _ (by simp) (by simp) .root
  have hv : exMx.Valid := by
    refine ⟨rfl, ?_, ?_, by simp [exMx], by simp [exMx], by simp [exMx], by simp [exMx], by simp [exMx], by simp [exMx]⟩
    · intro q hq
      simp [exMx] at hq
      subst hq
      exact ⟨w1, by simp, by simp, by simp, by simp⟩
    · intro r hr
      simp [exMx] at hr
      subst hr
      exact ⟨w1, by simp, by simp, by simp, by simp, by simp, by simp⟩
  have ho : exMxOut.Valid := by
    refine ⟨rfl, ?_, ?_, by simp [exMxOut], by simp [exMxOut], by simp [exMxOut], by simp [exMxOut], by simp [exMxOut], by simp [exMxOut]⟩
    · intro q hq
      simp [exMxOut] at hq
      subst hq
      exact ⟨w2, by simp, by simp, by simp, by simp⟩
    · intro r hr
      simp [exMxOut] at hr
      subst hr
      exact ⟨.pointer _ _ (by decide), by simp, by simp, by simp, by simp, by simp, by decide⟩
  have := h { exHead with type := 15, edns := false } 600 258 exMx.bytes.length 60 exMx exMxOut [[97]] exTg rfl exNames.1 (by simp) (by decide)
    exNames.2.1 hv (by simp [exMx]) (by omega) (by decide) (by decide) (by decide) ho (by decide +kernel)
  exact absurd this (by decide)

/-- Every answer of the server is still for the name it was for, in whatever order the answers come. -/
def OrderKept : Prop :=
  ∀ (m : Ctx Nat) (cap id len fuel : Nat) (r : Message.Msg) (ls tg : List (List Byte)) (fs : List Fact) (res : Option (List Byte)), m.domain = text ls → RfcName ls →
    ls ≠ [] → 0 < m.type ∧ m.type < 65536 → RfcName tg → r.Valid → r.qs ≠ [] → r.bytes.length ≤ len → (∀ x ∈ r.an, x.klass = 1) →
    Says r.bytes (12 + (qBytes r.qs).length) r.an fs → (∀ f ∈ fs, Plain f) → cap < 16384 →
    12 + ((wire ls).length + 4) + size (⟨ls, 5, 60, .name tg⟩ :: fs) + 11 ≤ cap → combine m cap id r.bytes len fuel (text tg) = some res →
    ∃ (out : Message.Msg) (fs' : List Fact), res = some out.bytes ∧ Combined id ⟨wire ls, m.type, 1⟩ m.edns (⟨ls, 5, 60, .name tg⟩ :: fs') r out ∧
      fs'.map (fun f => lower f.owner) = fs.map (fun f => lower f.owner)

/-- The server's answers in the other order: the address of `D` first, then that `b.c` is an alias of `d`. -/
def exTurned : Message.Msg :=
  ⟨[9, 9, 0x81, 0x80], [⟨wire exTg, 1, 1⟩], [⟨wire [[68]], 1, 1, 200, [1, 2, 3, 4]⟩, ⟨wire exTg, 5, 1, 300, wire [[100]]⟩], [], []⟩

theorem exTurned_valid : exTurned.Valid := by
  have w1 : Message.WireName (wire exTg) := .label [98] _ (by simp) (by simp) (.label [99] _ (by simp) (by simp) .root)
  refine ⟨rfl, ?_, ?_, by simp [exTurned], by simp [exTurned], by simp [exTurned], by simp [exTurned], by simp [exTurned], by simp [exTurned]⟩
  · intro q hq
    simp [exTurned] at hq
    subst hq
    exact ⟨w1, by simp, by simp, by simp, by simp⟩
  · intro r hr
    simp [exTurned] at hr
    rcases hr with rfl | rfl
    · exact ⟨.label [68] _ (by simp) (by simp) .root, by simp, by simp, by simp, by simp, by simp, by simp⟩
    · exact ⟨w1, by simp, by simp, by simp, by simp, by simp, by decide⟩

theorem exTurnedAt (p : Nat) (ls : List (List Byte)) (hv : RfcName ls) (h1 : p + (wire ls).length ≤ exTurned.bytes.length)
    (h2 : (exTurned.bytes.drop p).take (wire ls).length = wire ls) : ∃ k, Denotes (bytesAt exTurned.bytes) exTurned.bytes.length p ls k := by
  refine ⟨_, denotes_wire (fun l hl => ⟨(hv.1 l hl).1, (hv.1 l hl).2.1⟩) ?_ h1⟩
  refine memOf_mid (pre := exTurned.bytes.take p) (post := (exTurned.bytes.drop p).drop (wire ls).length) ?_ (by rw [List.length_take]; omega)
  conv => lhs; rw [← List.take_append_drop p exTurned.bytes, ← List.take_append_drop (wire ls).length (exTurned.bytes.drop p), h2]

theorem exTurnedSays : Says exTurned.bytes (12 + (qBytes exTurned.qs).length) exTurned.an [⟨[[68]], 1, 200, .raw [1, 2, 3, 4]⟩, ⟨exTg, 5, 300, .name [[100]]⟩] := by
  refine .cons (f := ⟨[[68]], 1, 200, .raw [1, 2, 3, 4]⟩) ⟨rfl, rfl, rfl, exNames.2.2.2, exTurnedAt _ _ exNames.2.2.2 (by decide) (by decide),
      Or.inl rfl, rfl, by simp⟩ (by simp [Cached]) ?_
  refine .cons (f := ⟨exTg, 5, 300, .name [[100]]⟩) ⟨rfl, rfl, rfl, exNames.2.1, exTurnedAt _ _ exNames.2.1 (by decide) (by decide),
      Or.inr (Or.inl rfl), exNames.2.2.1, exTurnedAt _ _ exNames.2.2.1 (by decide) (by decide)⟩ (by simp [Cached]) (.nil _)

/-- It is false: with the address before the alias it belongs to, the reply gives the address to the wrong name, because
`DNSCompress` replaces the name of every answer by that of the last alias before it without comparing them. -/
theorem orderKept_false : ¬ OrderKept := by
  intro h
  cases hc : combine exHead 600 258 exTurned.bytes exTurned.bytes.length 60 (text exTg) with
  | none => exact absurd hc (by decide +kernel)
  | some res =>
    have hp : ∀ f ∈ [(⟨[[68]], 1, 200, .raw [1, 2, 3, 4]⟩ : Fact), ⟨exTg, 5, 300, .name [[100]]⟩], Plain f := fun f hf => exPlain f (by
      simp [exFacts] at hf ⊢; exact hf.symm)
    obtain ⟨out, fs', rfl, h1, h2⟩ := h exHead 600 258 _ 60 exTurned [[97]] exTg _ res rfl exNames.1 (by simp) (by decide) exNames.2.1 exTurned_valid (by simp [exTurned])
      (Nat.le_refl _) (by decide) exTurnedSays hp (by decide) (by decide) hc
    obtain ⟨out', e, h'⟩ := combined_any exHead 600 258 _ 60 exTurned [] [[97]] exTg _ (some out.bytes) rfl exNames.1 (by simp) (by decide) exNames.2.1 exTurned_valid
      (by simp [exTurned]) (Nat.le_refl _) (by decide) exTurnedSays hp (by decide) (by decide) (by rw [List.append_nil]; exact hc)
    injection e with e
    have eo := bytes_inj h1.valid h'.valid e
    subst eo
    have hl : fs'.length = 2 := by simpa using congrArg List.length h2
    match fs', hl with
    | [a, b], _ =>
      have n : out.an.length = 3 := h1.num
      obtain ⟨x, hx⟩ : ∃ x, out.an[1]? = some x := ⟨out.an[1], by simp [n]⟩
      obtain ⟨-, -, -, -, k, hk⟩ := h1.an 1 x a hx rfl
      obtain ⟨-, -, -, -, k', hk'⟩ := h'.an 1 x _ hx rfl
      have ea := DnsCache.denotes_unique hk hk'
      simp only [List.map_cons, List.cons.injEq] at h2
      rw [ea] at h2
      exact absurd h2.1 (by decide)

/-- Every well-formed response is worked through, also if its names have bytes of 192 and more. -/
def AnyBytes : Prop :=
  ∀ (m : Ctx Nat) (cap id : Nat) (r : Message.Msg) (ls tg : List (List Byte)), m.domain = text ls → RfcName ls →
    ls ≠ [] → 0 < m.type ∧ m.type < 65536 → RfcName tg → r.Valid → r.qs ≠ [] → (∀ x ∈ r.an, x.klass = 1) → cap < 16384 →
    ∃ fuel res, combine m cap id r.bytes r.bytes.length fuel (text tg) = some res

/-- The server says that `b.c` is an alias of a name that consists of one label with the two bytes 192 and 37. -/
def exSelf : Message.Msg :=
  ⟨[9, 9, 0x81, 0x80], [⟨wire exTg, 1, 1⟩], [⟨wire exTg, 5, 1, 300, wire [[192, 37]]⟩], [], []⟩

theorem exSelf_valid : exSelf.Valid := by
  have w1 : Message.WireName (wire exTg) := .label [98] _ (by simp) (by simp) (.label [99] _ (by simp) (by simp) .root)
  refine ⟨rfl, ?_, ?_, by simp [exSelf], by simp [exSelf], by simp [exSelf], by simp [exSelf], by simp [exSelf], by simp [exSelf]⟩
  · intro q hq
    simp [exSelf] at hq
    subst hq
    exact ⟨w1, by simp, by simp, by simp, by simp⟩
  · intro r hr
    simp [exSelf] at hr
    subst hr
    exact ⟨w1, by simp, by simp, by simp, by simp, by simp, by decide⟩

/-- Copying this name never ends. -/
theorem self_copy (fuel : Nat) : copyLabel (memAt exSelf.bytes) fuel 36 = none := by
  have key : ∀ fuel, copyLabel (memAt exSelf.bytes) fuel 37 = none := by
    intro fuel
    induction fuel with
    | zero => rfl
    | succ n ih =>
      rw [copyLabel, if_pos (by decide +kernel), show ptrTo (memAt exSelf.bytes) 37 = 37 by decide +kernel]
      exact ih
  cases fuel with
  | zero => rfl
  | succ n => rw [copyLabel, if_neg (by decide +kernel), if_neg (by decide +kernel), key]; rfl

/-- It is false: two bytes in a label are taken for a pointer, here to themselves, and the worker that resolves aliases
follows it for ever. -/
theorem anyBytes_false : ¬ AnyBytes := by
  intro h
  obtain ⟨fuel, res, e⟩ := h exHead 600 258 exSelf [[97]] exTg rfl exNames.1 (by simp) (by decide) exNames.2.1 exSelf_valid (by simp [exSelf]) (by decide) (by decide)
  have hc : counts exSelf.bytes = some ⟨1, 1, 0, 0⟩ := by decide +kernel
  unfold combine at e
  rw [if_neg (by decide +kernel), hc, show initEmpty 600 (set16 258 ++ [0, 0]) = some ⟨600, [1, 2, 0, 0, 0, 0, 0, 0, 0, 0, 0, 0], 4⟩ by decide +kernel] at e
  dsimp only at e
  rw [show question (setIdentifier (copyHeader ⟨600, [1, 2, 0, 0, 0, 0, 0, 0, 0, 0, 0, 0], 4⟩ exSelf.bytes) 258) exHead.domain exHead.type 1 =
    (0, ⟨600, [1, 2, 129, 128, 0, 1, 0, 0, 0, 0, 0, 0, 1, 97, 0, 0, 1, 0, 1], 4⟩) by decide +kernel] at e
  dsimp only at e
  rw [if_neg (by simp), show nextPurpose ⟨600, [1, 2, 129, 128, 0, 1, 0, 0, 0, 0, 0, 0, 1, 97, 0, 0, 1, 0, 1], 4⟩ =
    (⟨600, [1, 2, 129, 128, 0, 1, 0, 0, 0, 0, 0, 0, 1, 97, 0, 0, 1, 0, 1], 6⟩, .answer) by decide +kernel] at e
  dsimp only at e
  rw [if_neg (by simp), show cname ⟨600, [1, 2, 129, 128, 0, 1, 0, 0, 0, 0, 0, 0, 1, 97, 0, 0, 1, 0, 1], 6⟩ exHead.domain (text exTg) 60 =
    (0, ⟨600, [1, 2, 129, 128, 0, 1, 0, 1, 0, 0, 0, 0, 1, 97, 0, 0, 1, 0, 1, 1, 97, 0, 0, 5, 0, 1, 0, 0, 0, 60, 0, 5, 1, 98, 1, 99, 0], 6⟩) by decide +kernel] at e
  dsimp only at e
  rw [if_neg (by simp), show gotoAnswers exSelf.bytes exSelf.bytes.length ⟨1, 1, 0, 0⟩ Itr.init = some ⟨some 12, 1, .question, 1, 1, 0⟩ by decide +kernel] at e
  dsimp only at e
  rw [show (⟨1, 1, 0, 0⟩ : Counts).all + 2 = 3 + 1 from rfl, copyLoop,
    show next exSelf.bytes exSelf.bytes.length ⟨1, 1, 0, 0⟩ ⟨some 12, 1, .question, 1, 1, 0⟩ = some (⟨some 21, 2, .answer, 5, 1, 4⟩, some 21) by decide +kernel] at e
  dsimp only at e
  rw [if_neg (by simp), show rowData exSelf.bytes 21 = some 36 by decide +kernel, show getTTL exSelf.bytes 21 = some 300 by decide +kernel] at e
  dsimp only at e
  rw [if_pos rfl] at e
  unfold copyCName at e
  rw [self_copy, if_neg (by decide +kernel), if_neg (by decide)] at e
  cases hl : copyLabel (memAt exSelf.bytes) fuel 21 <;> rw [hl] at e <;> cases e

end Verif.HostsLoop
