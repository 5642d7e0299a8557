import Verif.Lemmas.DnsCache
import Verif.Lemmas.NameBound
/-! Learning from a response always comes to an end. -/

namespace Verif.DnsCache
open Message Name Parser Generator Spec
open Verif.Msg (memAt)

theorem decode_done {b post : List Byte} {p k N fuel : Nat} {ls : List (List Byte)} (h : Denotes (bytesAt b) b.length p ls k)
    (hN : (text ls).length < N) (hf : b.length ≤ fuel) :
    (getHostName (memAt (b ++ post)) b.length p (some N) fuel).out = .ok k (text ls ++ [0]) :=
  decode h hN (decode_ends (denotes_congr h (Nat.le_refl _) (fun _ hi => bytesAt_append hi)) N hf)

theorem nameItem_done {b post : List Byte} {p k fuel : Nat} {ls : List (List Byte)} (avail : Nat)
    (h : Denotes (bytesAt b) b.length p ls k) (hv : RfcName ls) (hf : b.length ≤ fuel) :
    ∃ o, nameItem (b ++ post) b.length fuel p avail = some o := by
  unfold nameItem
  split
  · exact ⟨_, rfl⟩
  · rw [decode_done h (by have := hv.2; omega) hf]
    dsimp only
    split <;> exact ⟨_, rfl⟩

theorem itemOf_done {b pre rest post : List Byte} {r : RR} {f : Fact} {fuel : Nat}
    (hb : b = pre ++ (r.bytes ++ rest)) (hw : WireName r.name) (hr : Reads b pre.length r f) (hf : b.length ≤ fuel) :
    ∃ o, itemOf (b ++ post) b.length fuel r.type r.klass pre.length r.rdata.length = some o := by
  obtain ⟨k, ho⟩ := hr.ownerAt
  have hrow : rowData (b ++ post) pre.length = some (pre.length + r.name.length + 10) := by
    unfold rowData
    rw [skipAt_eq (pre := pre) (nb := r.name)
      (post := u16 r.type ++ (u16 r.klass ++ (u32 r.ttl ++ (u16 r.rdata.length ++ r.rdata))) ++ (rest ++ post)) (by rw [hb]; simp [RR.bytes]) rfl hw]
    rfl
  have hbl : pre.length + r.name.length + 10 + r.rdata.length ≤ b.length := by
    rw [hb]; simp [rr_bytes_length]; omega
  unfold itemOf
  rw [decode_done ho (by have := hr.owner.2; omega) hf]
  dsimp only
  split
  · exact ⟨_, rfl⟩
  · rw [hrow]
    dsimp only
    have hdata : ∀ avail, ∃ d, cacheData (b ++ post) b.length fuel r.type (pre.length + r.name.length + 10) r.rdata.length avail = some d := by
      intro avail
      have hv := hr.value
      rw [hr.type]
      unfold cacheData
      cases hfv : f.value with
      | raw dd =>
        rw [hfv] at hv
        obtain ⟨h1, h2, h3⟩ := hv
        rw [if_neg (by omega), if_neg (by omega)]
        split
        · exact ⟨_, rfl⟩
        · rw [if_neg (by simp; omega)]; exact ⟨_, rfl⟩
      | name ls =>
        rw [hfv] at hv
        obtain ⟨h1, h2, k', h3⟩ := hv
        rw [if_pos (by omega)]
        exact nameItem_done _ h3 h2 hf
      | mx pref ls =>
        rw [hfv] at hv
        obtain ⟨h1, h2, h3, h4, h5, k', h6⟩ := hv
        rw [if_neg (by omega), if_pos h1, if_neg (by omega)]
        split
        · exact ⟨_, rfl⟩
        · rw [if_neg (by simp; omega), if_neg (by omega)]
          obtain ⟨o, ho⟩ := nameItem_done (post := post) (avail - 2) h6 h2 hf
          rw [show pre.length + r.name.length + 12 = pre.length + r.name.length + 10 + 2 from rfl] at ho
          rw [ho]
          exact ⟨_, rfl⟩
    generalize 512 - (1 + (keyOf (cstr (text f.owner ++ [0])) r.type r.klass).length + 1) = avail
    obtain ⟨d, hd⟩ := hdata avail
    rw [hd]
    cases d with
    | none => exact ⟨_, rfl⟩
    | some d => dsimp only; split <;> exact ⟨_, rfl⟩

theorem opsList_done {s : Settings} {b post : List Byte} {fuel : Nat} {question behind : List Byte} {clock : Nat → Int}
    (hf : b.length ≤ fuel) (ps : List (Purpose × RR)) : ∀ {pre rest : List Byte} {d n : Nat} {fs : List Fact},
    (∀ p ∈ ps, p.1 ≠ .unknown ∧ p.1 ≠ .question ∧ p.2.Valid) → b = pre ++ (rrBytes (ps.map (·.2)) ++ rest) →
    Says b pre.length (ps.map (·.2)) fs →
    ∃ ops, opsList s (b ++ post) b.length fuel question behind clock (expect d pre.length n (ps.map fun p => rItem p.1 p.2)) = some ops := by
  induction ps with
  | nil => intro pre rest d n fs _ _ _; exact ⟨[], rfl⟩
  | cons x ps ih =>
    intro pre rest d n fs hv hb hs
    obtain ⟨hx1, hx2, hx3⟩ := hv x (by simp)
    have hb' : b = pre ++ (x.2.bytes ++ (rrBytes (ps.map (·.2)) ++ rest)) := by rw [hb]; simp [rrBytes]
    have hb2 : b = (pre ++ x.2.bytes) ++ (rrBytes (ps.map (·.2)) ++ rest) := by rw [hb']; simp
    have hv' : ∀ p ∈ ps, p.1 ≠ .unknown ∧ p.1 ≠ .question ∧ p.2.Valid := fun p hp => hv p (by simp [hp])
    have hlen : (pre ++ x.2.bytes).length = pre.length + x.2.bytes.length := by simp
    have hhead : (rItem x.1 x.2).itr d pre.length n = ⟨some pre.length, n, x.1, x.2.type, x.2.klass, x.2.rdata.length⟩ := by
      simp [Item.itr, rItem, hx2]
    have hop : ∃ o, recordOp s (b ++ post) b.length fuel question behind (clock n) ⟨some pre.length, n, x.1, x.2.type, x.2.klass, x.2.rdata.length⟩ = some o := by
      unfold recordOp
      cases hs with
      | skip hn hs =>
        rw [if_neg (by rintro ⟨_, _, h3, h4⟩; exact hn ⟨(cached_iff _).1 h3, h4⟩)]
        exact ⟨_, rfl⟩
      | @cons _ _ _ f0 _ hr hc hs =>
        rw [if_pos ⟨hx1, hx2, (cached_iff _).2 hc, hr.klass⟩]
        dsimp only
        obtain ⟨o, ho⟩ := itemOf_done (post := post) hb' hx3.1 hr hf
        rw [ho]
        cases o with
        | none => exact ⟨_, rfl⟩
        | some y =>
          have httl : getTTL (b ++ post) pre.length = some x.2.ttl := by
            unfold getTTL
            rw [skipAt_eq (pre := pre) (nb := x.2.name)
              (post := u16 x.2.type ++ (u16 x.2.klass ++ (u32 x.2.ttl ++ (u16 x.2.rdata.length ++ x.2.rdata))) ++ (rrBytes (ps.map (·.2)) ++ rest ++ post))
              (by rw [hb']; simp [RR.bytes]) rfl hx3.1]
            dsimp only
            exact u32At_eq (pre := pre ++ (x.2.name ++ (u16 x.2.type ++ u16 x.2.klass)))
              (post := u16 x.2.rdata.length ++ (x.2.rdata ++ (rrBytes (ps.map (·.2)) ++ rest ++ post)))
              (by rw [hb']; simp [RR.bytes]) (by simp [u16_length]; omega) hx3.2.2.2.2.2.1
          dsimp only
          rw [httl]
          exact ⟨_, rfl⟩
    obtain ⟨o, ho⟩ := hop
    obtain ⟨os, hos⟩ : ∃ os, opsList s (b ++ post) b.length fuel question behind clock (expect ((rItem x.1 x.2).itr d pre.length n).dataLen
          (pre.length + x.2.bytes.length) (n + 1) (ps.map fun p => rItem p.1 p.2)) = some os := by
      rw [← hlen]
      cases hs with
      | skip hn hs => exact ih hv' hb2 (by rw [hlen]; exact hs)
      | cons hr hc hs => exact ih hv' hb2 (by rw [hlen]; exact hs)
    simp only [List.map_cons, expect, opsList, rItem_bytes]
    rw [hos, hhead]
    dsimp only
    rw [ho]
    exact ⟨_, rfl⟩

/-- What a well-formed response adds to the cache can be told within as many steps as it has bytes. -/
theorem addOps_done {s : Settings} {m : Msg} {fs : List Fact} {post : List Byte} {fuel : Nat} {question behind : List Byte}
    {clock : Nat → Int} {first : Bool} (hm : Response m fs) (hf : m.bytes.length ≤ fuel) :
    ∃ ops, addOps s (m.bytes ++ post) m.bytes.length fuel question behind clock first = some ops := by
  obtain ⟨hv, hq, hs⟩ := hm
  unfold addOps
  by_cases hf' : first = false ∧ s.cfg.parallel = false
  · rw [if_pos hf']; exact ⟨_, rfl⟩
  · have h12 : 12 ≤ m.bytes.length := by rw [Msg.bytes, List.length_append, header_length hv]; omega
    rw [if_neg hf', if_neg (by simp [initOk]; omega), counts_eq hv]
    dsimp only
    rw [recordOps_chain _ (chain_msg m post m.bytes.length hv (Nat.le_refl _) hq)
      (by rw [expect_length, items_length]; omega)]
    have hit : items m = m.qs.map qItem ++ ((m.an.map (Purpose.answer, ·) ++ (m.ns.map (Purpose.nameServer, ·) ++
        m.ar.map (Purpose.additional, ·))).map fun p => rItem p.1 p.2) := by
      simp [items, Function.comp_def]
    rw [hit]
    obtain ⟨d', hex⟩ := expect_append (m.qs.map qItem) ((m.an.map (Purpose.answer, ·) ++ (m.ns.map (Purpose.nameServer, ·) ++
        m.ar.map (Purpose.additional, ·))).map fun p => rItem p.1 p.2) 0 12 1
    rw [hex, opsList_append _ _ (opsList_questions _ _ _ _), flatten_q]
    have hpre : (m.header ++ qBytes m.qs).length = 12 + (qBytes m.qs).length := by simp [header_length hv]
    rw [← hpre]
    have hmap : (m.an.map (Purpose.answer, ·) ++ (m.ns.map (Purpose.nameServer, ·) ++
        m.ar.map (Purpose.additional, ·))).map (·.2) = m.an ++ (m.ns ++ m.ar) := by
      simp [Function.comp_def]
    refine opsList_done hf _ (rest := []) ?_ ?_ (by rw [hmap, hpre]; exact hs)
    · intro p hp
      simp only [List.mem_append, List.mem_map] at hp
      rcases hp with ⟨r, hr, rfl⟩ | ⟨r, hr, rfl⟩ | ⟨r, hr, rfl⟩
      · exact ⟨by simp, by simp, hv.an r hr⟩
      · exact ⟨by simp, by simp, hv.ns r hr⟩
      · exact ⟨by simp, by simp, hv.ar r hr⟩
    · rw [hmap]; simp [Msg.bytes, Msg.body, rrBytes_append]

end Verif.DnsCache
