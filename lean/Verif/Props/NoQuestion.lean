import Verif.Props.HeaderAll
/-! C05, C34: what is made of a message without a question. -/

namespace Verif.Parser
open Name Message Generator

/-- What the records of a message without question, with `an` answers, `ns` authority and `ar` additional records, are taken for, one after the other; the walk
ends behind them.  (Each is taken for the next section one record too early; a walk that meets a record it cannot attribute ends.) -/
def takenFor (an ns ar : Nat) : List Purpose :=
  if an = 1 then List.replicate ns .nameServer ++ List.replicate ar .additional
  else if an = 0 ∧ ns = 1 then List.replicate ar .additional
  else []

/-- What a walk reports that takes the records `rs`, starting at `p`, for `ks`. -/
def reportAs (p : Nat) : List Purpose → List RR → List Seen
  | k :: ks, r :: rs => ⟨k, p, r.type, r.klass, some r.rdata.length⟩ :: reportAs (p + r.bytes.length) ks rs
  | _, _ => []

theorem determine_without (c : Counts) (hq : c.qd = 0) (n : Nat) :
    determinePurpose c n =
      if c.ns ≠ 0 ∧ c.an ≠ 0 ∧ c.an ≤ n ∧ n < c.an + c.ns then .nameServer
      else if c.ar ≠ 0 ∧ c.an + c.ns ≠ 0 ∧ c.an + c.ns ≤ n ∧ n < c.an + c.ns + c.ar then .additional
      else .unknown := by
  have hw : ∀ f k n, within f k n = true ↔ f ≠ 0 ∧ f ≤ n ∧ n < f + k := by
    intro f k n; unfold within; rw [decide_eq_true_iff]; omega
  have h1 : c.qFirst = 0 := by unfold Counts.qFirst; rw [if_pos hq]
  have e1 : ¬ within c.qFirst c.qd n = true := by rw [hw, h1]; omega
  have e2 : ¬ within c.anFirst c.an n = true := by
    rw [hw]; unfold Counts.anFirst; rw [h1, hq]; split <;> omega
  have e3 : within c.nsFirst c.ns n = true ↔ c.ns ≠ 0 ∧ c.an ≠ 0 ∧ c.an ≤ n ∧ n < c.an + c.ns := by
    rw [hw]; unfold Counts.nsFirst; rw [h1, hq]; split <;> omega
  have e4 : within c.arFirst c.ar n = true ↔ c.ar ≠ 0 ∧ c.an + c.ns ≠ 0 ∧ c.an + c.ns ≤ n ∧ n < c.an + c.ns + c.ar := by
    rw [hw]; unfold Counts.arFirst; rw [h1, hq]; split <;> omega
  unfold determinePurpose
  rw [if_neg e1, if_neg e2]
  simp only [e3, e4]

theorem takenFor_length (an ns ar : Nat) (h : 0 < an + ns + ar) : (takenFor an ns ar).length < an + ns + ar := by
  unfold takenFor
  split
  · simp; omega
  · split
    · simp; omega
    · simpa using h

theorem taken_purpose (c : Counts) (hq : c.qd = 0) (i : Nat) (h : i < (takenFor c.an c.ns c.ar).length) :
    determinePurpose c (1 + i) = (takenFor c.an c.ns c.ar)[i] := by
  rw [determine_without c hq]
  revert h
  unfold takenFor
  split
  · rename_i h1
    intro h
    rw [List.getElem_append]
    simp only [List.length_append, List.length_replicate] at h
    by_cases hi : i < c.ns
    · rw [dif_pos (by simpa using hi), if_pos (by omega)]; simp
    · rw [dif_neg (by simpa using hi), if_neg (by omega), if_pos (by omega)]; simp
  · split
    · intro h
      simp only [List.length_replicate] at h
      rw [if_neg (by omega), if_pos (by omega)]; simp
    · intro h; simp at h

theorem taken_end (c : Counts) (hq : c.qd = 0) : determinePurpose c (1 + (takenFor c.an c.ns c.ar).length) = .unknown := by
  rw [determine_without c hq]
  unfold takenFor
  split
  · simp only [List.length_append, List.length_replicate]
    rw [if_neg (by omega), if_neg (by omega)]
  · split
    · simp only [List.length_replicate]
      rw [if_neg (by omega), if_neg (by omega)]
    · simp only [List.length_nil]
      rw [if_neg (by omega), if_neg (by omega)]

theorem look_unknown {b pre post : List Byte} {len : Nat} {c : Counts} {it : Itr} {n : Nat} {r : RR} (hr : r.Valid) (hb : b = pre ++ (r.bytes ++ post))
    (hlen : pre.length ≤ len) (hn : n ≤ c.all) (hpu : determinePurpose c n = .unknown) : ∃ e, look b len c it pre.length n = some (e, none) := by
  have hsk : skipAt b pre.length = some r.name.length :=
    skipAt_eq (nb := r.name) (post := u16 r.type ++ (u16 r.klass ++ (u32 r.ttl ++ (u16 r.rdata.length ++ r.rdata) ++ post)))
      (by simp [hb, RR.bytes]) rfl hr.1
  have hty : u16At b (pre.length + r.name.length) = some r.type :=
    u16At_eq (pre := pre ++ r.name) (post := u16 r.klass ++ (u32 r.ttl ++ (u16 r.rdata.length ++ r.rdata) ++ post))
      (by simp [hb, RR.bytes]) (by simp) hr.2.2.1
  have hkl : u16At b (pre.length + r.name.length + 2) = some r.klass :=
    u16At_eq (pre := pre ++ (r.name ++ u16 r.type)) (post := u32 r.ttl ++ (u16 r.rdata.length ++ r.rdata) ++ post)
      (by simp [hb, RR.bytes]) (by simp [u16_length]; omega) hr.2.2.2.2.1
  unfold look
  rw [if_neg (by omega), hsk]
  simp only [hty, hkl, hpu]
  rw [if_neg (by simp)]
  exact ⟨_, rfl⟩

theorem chain_unknown {b : List Byte} {len : Nat} {c : Counts} {r : RR} (hr : r.Valid) (xs : List Item) :
    ∀ {pre post : List Byte} {it : Itr} {n : Nat},
    (∀ x ∈ xs, x.Ok) → b = pre ++ ((xs.map Item.bytes).flatten ++ (r.bytes ++ post)) →
    pre.length + ((xs.map Item.bytes).flatten).length ≤ len →
    (∀ i, (h : i < xs.length) → determinePurpose c (n + i) = xs[i].pu) → n + xs.length ≤ c.all → determinePurpose c (n + xs.length) = .unknown →
    next b len c it = look b len c it pre.length n →
    Chain b len c it (expect it.dataLen pre.length n xs) := by
  induction xs with
  | nil =>
    intro pre post it n _ hb hlen _ hn hu hnext
    obtain ⟨e, he⟩ := look_unknown (len := len) (c := c) (it := it) (n := n) hr (b := b) (pre := pre) (post := post) (by simpa using hb)
      (by simp at hlen; omega) (by simpa using hn) (by simpa using hu)
    exact .nil (hnext.trans he)
  | cons x xs ih =>
    intro pre post it n hok hb hlen hpu hn hu hnext
    simp only [List.map_cons, List.flatten_cons] at hb hlen
    simp only [List.length_cons] at hn hu
    have hx := hok x (by simp)
    have hb' : b = pre ++ (x.bytes ++ ((xs.map Item.bytes).flatten ++ (r.bytes ++ post))) := by simp [hb]
    have h0 : determinePurpose c n = x.pu := hpu 0 (by simp)
    have hlook := look_item (len := len) (it := it) hx hb' (by omega) (show n ≤ c.all by omega) h0
    rw [hlook] at hnext
    refine .cons hnext rfl ?_
    have := @ih (pre ++ x.bytes) post (x.itr it.dataLen pre.length n) (n + 1)
      (fun y hy => hok y (by simp [hy])) (by simp [hb]) (by simp at hlen ⊢; omega)
      (fun i hi => by
        have h1 : determinePurpose c (n + (i + 1)) = xs[i].pu := hpu (i + 1) (by simp; omega)
        rw [show n + 1 + i = n + (i + 1) by omega]; exact h1)
      (by omega) (by rw [← hu]; congr 1; omega) ?_
    · simpa using this
    · rw [next_item hx hb' (by omega)]
      simp

/-- The records as they are taken. -/
def taken (m : Msg) : List Item := (List.zip (takenFor m.an.length m.ns.length m.ar.length) (m.an ++ (m.ns ++ m.ar))).map fun x => rItem x.1 x.2

theorem takenFor_mem {an ns ar : Nat} {k : Purpose} (h : k ∈ takenFor an ns ar) : k = .nameServer ∨ k = .additional := by
  unfold takenFor at h
  split at h
  · simp only [List.mem_append, List.mem_replicate] at h
    exact h.imp (·.2) (·.2)
  · split at h
    · exact .inr (List.mem_replicate.1 h).2
    · cases h

theorem taken_length (m : Msg) : (taken m).length = (takenFor m.an.length m.ns.length m.ar.length).length := by
  unfold taken
  rw [List.length_map, List.length_zip, List.length_append, List.length_append]
  by_cases h : 0 < m.an.length + m.ns.length + m.ar.length
  · have := takenFor_length _ _ _ h; omega
  · have e : takenFor m.an.length m.ns.length m.ar.length = [] := by
      unfold takenFor; rw [if_neg (by omega), if_neg (by omega)]
    rw [e]; simp

theorem chain_without (m : Msg) (post : List Byte) (len : Nat) (hm : m.Valid) (hlen : m.bytes.length ≤ len) (hq : m.qs = []) :
    Chain (m.bytes ++ post) len (Msg.counts m) Itr.init (expect 0 12 1 (taken m)) := by
  have h12 : m.header.length = 12 := by simp [Msg.header, hm.head, u16_length]
  have hc0 : (Msg.counts m).qd = 0 := by simp [Msg.counts, hq]
  have hall : (Msg.counts m).all = m.an.length + m.ns.length + m.ar.length := by simp [Msg.counts, Counts.all, hq]
  have hin : next (m.bytes ++ post) len (Msg.counts m) Itr.init = look (m.bytes ++ post) len (Msg.counts m) Itr.init 12 1 := rfl
  have hvalid : ∀ r ∈ m.an ++ (m.ns ++ m.ar), r.Valid := by
    intro r hr
    simp only [List.mem_append] at hr
    rcases hr with h | h | h
    · exact hm.an r h
    · exact hm.ns r h
    · exact hm.ar r h
  have hbody : m.body = rrBytes (m.an ++ (m.ns ++ m.ar)) := by simp [Msg.body, hq, qBytes, rrBytes]
  by_cases h0 : 0 < (Msg.counts m).all
  · have hl := takenFor_length m.an.length m.ns.length m.ar.length (by omega)
    -- the records are those taken, one more, and the rest
    generalize hrs : m.an ++ (m.ns ++ m.ar) = rs at *
    have hrl : rs.length = m.an.length + m.ns.length + m.ar.length := by rw [← hrs]; simp; omega
    generalize hks : takenFor m.an.length m.ns.length m.ar.length = ks at *
    have hsplit : rs = rs.take ks.length ++ (rs[ks.length]'(by omega) :: rs.drop (ks.length + 1)) := by
      rw [List.getElem_cons_drop, List.take_append_drop]
    have htb : ((taken m).map Item.bytes).flatten = rrBytes (rs.take ks.length) := by
      unfold taken rrBytes
      rw [hks, hrs, List.map_map]
      congr 1
      have : ∀ (ks : List Purpose) (rs : List RR), ks.length ≤ rs.length →
          (ks.zip rs).map (Item.bytes ∘ fun x => rItem x.1 x.2) = (rs.take ks.length).map RR.bytes := by
        intro ks
        induction ks with
        | nil => intro rs _; simp
        | cons k ks ih =>
          intro rs h
          cases rs with
          | nil => simp at h
          | cons r rs =>
            simp only [List.zip_cons_cons, List.map_cons, List.length_cons, List.take_succ_cons]
            rw [ih rs (by simpa using h)]
            simp [rItem_bytes]
      exact this ks rs (by omega)
    have hr : (rs[ks.length]'(by omega)).Valid := hvalid _ (List.getElem_mem _)
    have hbytes : m.bytes ++ post = m.header ++ (((taken m).map Item.bytes).flatten ++ ((rs[ks.length]'(by omega)).bytes ++ (rrBytes (rs.drop (ks.length + 1)) ++ post))) := by
      rw [htb, Msg.bytes, hbody]
      have : rrBytes rs = rrBytes (rs.take ks.length) ++ ((rs[ks.length]'(by omega)).bytes ++ rrBytes (rs.drop (ks.length + 1))) := by
        have h := congrArg rrBytes hsplit
        rw [h]
        simp only [rrBytes, List.map_append, List.map_cons, List.flatten_append, List.flatten_cons]
      rw [this]
      simp only [List.append_assoc]
    have htl : (taken m).length = ks.length := by rw [taken_length, hks]
    have := chain_unknown (b := m.bytes ++ post) (len := len) (c := Msg.counts m) hr (taken m) (pre := m.header) (it := Itr.init) (n := 1) (by
        intro x hx
        unfold taken at hx
        obtain ⟨⟨k, r⟩, hz, rfl⟩ := List.mem_map.1 hx
        obtain ⟨z1, z2⟩ := List.of_mem_zip hz
        rw [hrs] at z2
        refine rItem_ok (hvalid r z2) ?_ ?_
        · rcases takenFor_mem z1 with h | h <;> dsimp only <;> rw [h] <;> simp
        · rcases takenFor_mem z1 with h | h <;> dsimp only <;> rw [h] <;> simp) hbytes (by
        have := congrArg List.length hbytes
        simp only [List.length_append] at this
        omega) (by
        intro i hi
        have hi' : i < (takenFor (Msg.counts m).an (Msg.counts m).ns (Msg.counts m).ar).length := by
          rw [htl, ← hks] at hi; exact hi
        rw [taken_purpose _ hc0 i hi']
        simp only [taken, List.getElem_map, List.getElem_zip, rItem]
        rfl) (by omega) (by
        have := taken_end _ hc0
        rw [htl, ← hks]
        exact this) (by rw [hin, h12])
    rw [h12] at this
    exact this
  · have ht : taken m = [] := by
      have := taken_length m
      have e : takenFor m.an.length m.ns.length m.ar.length = [] := by
        unfold takenFor; rw [if_neg (by omega), if_neg (by omega)]
      rw [e] at this
      exact List.length_eq_zero_iff.1 this
    rw [ht]
    refine .nil (e := { Itr.init with pos := none, num := 0 }) ?_
    rw [hin]
    unfold look
    rw [if_pos (.inl (by omega))]

theorem visits_chain {b : List Byte} {len : Nat} {c : Counts} {l : List Itr} : ∀ {it : Itr} {n : Nat}, Chain b len c it l → l.length < n → visits b len c n it = l := by
  induction l with
  | nil =>
    intro it n h hn
    obtain ⟨n, rfl⟩ : ∃ k, n = k + 1 := ⟨n - 1, by omega⟩
    cases h with
    | nil h => simp [visits, h]
  | cons x l ih =>
    intro it n h hn
    obtain ⟨n, rfl⟩ : ∃ k, n = k + 1 := ⟨n - 1, by omega⟩
    cases h with
    | cons h hp ht =>
      simp only [visits, h]
      rw [ih ht (by simp at hn; omega)]

theorem expect_taken (ks : List Purpose) (hk : ∀ k ∈ ks, k ≠ .question) : ∀ (rs : List RR) (d p n : Nat),
    (expect d p n ((ks.zip rs).map fun x => rItem x.1 x.2)).map Itr.seen = (reportAs p ks rs).map some := by
  induction ks with
  | nil => intro rs d p n; simp [reportAs, expect]
  | cons k ks ih =>
    intro rs d p n
    cases rs with
    | nil => simp [reportAs, expect]
    | cons r rs =>
      have h1 := hk k (by simp)
      simp only [List.zip_cons_cons, List.map_cons, expect, reportAs, rItem_bytes, ih (fun k hk' => hk k (by simp [hk']))]
      simp [Itr.seen, Item.itr, rItem, h1]

/-- C05, messages without a question.  For every well-formed message without one, whatever lies behind it in memory: exactly what a walk reports.  With one
answer, all records but the last, each attributed one record too early; else, with one authority record, the same; in all other cases nothing. -/
theorem walk_without (m : Msg) (post : List Byte) (len fuel : Nat) (hm : m.Valid) (hlen : m.bytes.length ≤ len) (hq : m.qs = [])
    (hf : m.an.length + m.ns.length + m.ar.length < fuel) :
    (visits (m.bytes ++ post) len (Msg.counts m) fuel Itr.init).map Itr.seen =
      (reportAs 12 (takenFor m.an.length m.ns.length m.ar.length) (m.an ++ (m.ns ++ m.ar))).map some := by
  have hch := chain_without m post len hm hlen hq
  have hl : (taken m).length ≤ m.an.length + m.ns.length + m.ar.length := by
    unfold taken; rw [List.length_map, List.length_zip]; simp; omega
  rw [visits_chain hch (by rw [expect_length]; omega)]
  exact expect_taken _ (fun k hk => by rcases takenFor_mem hk with h | h <;> rw [h] <;> simp) _ _ _ _

/-- One answer, one authority record, two additional ones. -/
example : takenFor 1 1 2 = [.nameServer, .additional, .additional] ∧ takenFor 0 1 1 = [.additional] ∧ takenFor 2 1 1 = [] ∧ takenFor 0 0 3 = [] := by decide

example : (⟨[0, 0, 0, 0], [], [rrEx 1], [rrEx 2], [rrEx 41]⟩ : Msg).Valid :=
  ⟨rfl, by simp, by simpa using rrEx_valid 1 (by omega) (by omega), by simpa using rrEx_valid 2 (by omega) (by omega),
    by simpa using rrEx_valid 41 (by omega) (by omega), by simp, by simp, by simp, by simp⟩

end Verif.Parser

namespace Verif.Msg
open Parser Name Message Generator

variable {Addr : Type}

/-- C34, messages without a question.  For every well-formed message without one: the header describes the message and its sender, but the name and the type
are those of the message before; whether the client knows EDNS is read off the records that are taken for additional ones. -/
theorem fill_without (m : Msg) (post : List Byte) (hm : m.Valid) (hq : m.qs = []) (ret : Bool) (back : Option Addr) (sock : Nat) (agent : List Byte) (fuel : Nat)
    (h : Ctx Addr) :
    fill h ret (m.bytes ++ post) m.bytes.length back sock agent fuel =
      some (0, { back := back, sock := sock, domain := h.domain, hash := h.hash, type := h.type, returnHeader := ret,
                 edns := ((takenFor m.an.length m.ns.length m.ar.length).zip (m.an ++ (m.ns ++ m.ar))).any (fun x => x.1 == .additional && x.2.type == 41),
                 agent := agent.take 47, entity := m.bytes }) := by
  have hch := chain_without m post m.bytes.length hm (Nat.le_refl _) hq
  have h12 : 12 ≤ m.bytes.length := by rw [Msg.bytes, List.length_append, header_length hm]; omega
  have hl : (taken m).length ≤ m.an.length + m.ns.length + m.ar.length := by
    unfold taken; rw [List.length_map, List.length_zip]; simp; omega
  unfold fill
  rw [if_neg (by simp [initOk]; omega), counts_eq hm]
  dsimp only
  rw [fillLoop_chain _ hch (by rw [expect_length]; simp [Counts.all, Msg.counts]; omega)]
  rw [steps_records _ (by
    intro x hx
    unfold taken at hx
    obtain ⟨⟨k, r⟩, hz, rfl⟩ := List.mem_map.1 hx
    rcases takenFor_mem (List.of_mem_zip hz).1 with h | h <;> simp [rItem, h])]
  simp [taken, rItem, Function.comp_def]

/-- An OPT record as the only authority record of a message without questions counts as the client's EDNS record, one in its place does not. -/
example (h : Ctx Nat) : (fill h false (⟨[0, 0, 0, 0], [], [], [rrEx 41], [rrEx 1]⟩ : Msg).bytes 42 none 0 [] 5).map (·.2.edns) = some true ∧
    (fill h false (⟨[0, 0, 0, 0], [], [], [rrEx 1], [rrEx 41]⟩ : Msg).bytes 42 none 0 [] 5).map (·.2.edns) = some false := by
  refine ⟨?_, ?_⟩
  · have := fill_without (⟨[0, 0, 0, 0], [], [], [rrEx 41], [rrEx 1]⟩ : Msg) [] ⟨rfl, by simp, by simp, by simpa using rrEx_valid 41 (by omega) (by omega),
      by simpa using rrEx_valid 1 (by omega) (by omega), by simp, by simp, by simp, by simp⟩ rfl false (none : Option Nat) 0 [] 5 h
    rw [List.append_nil] at this
    have hl : (⟨[0, 0, 0, 0], [], [], [rrEx 41], [rrEx 1]⟩ : Msg).bytes.length = 42 := by decide
    rw [hl] at this
    rw [this]; rfl
  · have := fill_without (⟨[0, 0, 0, 0], [], [], [rrEx 1], [rrEx 41]⟩ : Msg) [] ⟨rfl, by simp, by simp, by simpa using rrEx_valid 1 (by omega) (by omega),
      by simpa using rrEx_valid 41 (by omega) (by omega), by simp, by simp, by simp, by simp⟩ rfl false (none : Option Nat) 0 [] 5 h
    rw [List.append_nil] at this
    have hl : (⟨[0, 0, 0, 0], [], [], [rrEx 1], [rrEx 41]⟩ : Msg).bytes.length = 42 := by decide
    rw [hl] at this
    rw [this]; rfl

end Verif.Msg
