import Verif.Model.Parser
import Verif.Lemmas.Name
import Verif.Spec.Message
/-! Lemmas on the parser model. -/

namespace Verif.Parser
open Name Message

theorem u16_length (n : Nat) : (u16 n).length = 2 := rfl
theorem u32_length (n : Nat) : (u32 n).length = 4 := rfl

theorem u8n (n : Nat) : (UInt8.ofNat n).toNat = n % 256 := by simp

theorem u16At_eq {b pre post : List Byte} {n i : Nat} (hb : b = pre ++ (u16 n ++ post))
    (hi : i = pre.length) (hn : n < 65536) : u16At b i = some n := by
  subst hi hb
  have h1 : (pre ++ (u16 n ++ post))[pre.length]? = some (UInt8.ofNat (n / 256)) := by
    simp [u16]
  have h2 : (pre ++ (u16 n ++ post))[pre.length + 1]? = some (UInt8.ofNat n) := by
    rw [List.getElem?_append_right (by omega)]
    simp [u16]
  unfold u16At
  rw [h1, h2]
  simp only [Option.some.injEq, u8n]
  omega

theorem u32At_eq {b pre post : List Byte} {n i : Nat} (hb : b = pre ++ (u32 n ++ post))
    (hi : i = pre.length) (hn : n < 4294967296) : u32At b i = some n := by
  unfold u32At
  rw [u16At_eq (n := n / 65536) (pre := pre) (post := u16 n ++ post) (by simp [hb, u32]) hi (by omega)]
  have h2 : u16At b (i + 2) = some (n % 65536) := by
    refine u16At_eq (n := n % 65536) (pre := pre ++ u16 (n / 65536)) (post := post) ?_ ?_ (by omega)
    · rw [hb]
      have : u16 n = u16 (n % 65536) := by
        unfold u16
        congr 1
        · apply UInt8.toNat_inj.mp; rw [u8n, u8n]; omega
        · congr 1; apply UInt8.toNat_inj.mp; rw [u8n, u8n]; omega
      simp [u32, this]
    · simp [hi, u16_length]
  rw [h2]
  simp only [Option.some.injEq]; omega

theorem skip_wireName {nb : List Byte} (h : WireName nb) (rest : List Byte) :
    skip (nb ++ rest) = some nb.length := by
  induction h with
  | root => simp [skip]
  | pointer a b h =>
    have h0 : a ≠ 0 := by intro h0; rw [h0] at h; simp at h
    have hp := (isPtr_iff a).mpr h
    simp [skip, h0, hp]
  | label l rest' h1 h2 hr ih =>
    have hL : (UInt8.ofNat l.length).toNat = l.length := u8_ofNat_toNat (by omega)
    have h0 : UInt8.ofNat l.length ≠ 0 := by
      intro h0; rw [h0] at hL; simp at hL; omega
    have hp : isPtr (UInt8.ofNat l.length) = false := by
      rw [Bool.eq_false_iff]; intro hp
      rw [isPtr_iff, hL] at hp; omega
    rw [List.cons_append, skip, if_neg h0, hp, hL]
    have hd : (l ++ rest' ++ rest).drop l.length = rest' ++ rest := by simp
    rw [hd, ih]
    simp; omega

theorem skipAt_eq {b pre nb post : List Byte} {i : Nat} (hb : b = pre ++ (nb ++ post))
    (hi : i = pre.length) (h : WireName nb) : skipAt b i = some nb.length := by
  subst hb hi
  unfold skipAt
  rw [List.drop_left, skip_wireName h]

/-- The name skipper is the loop of `DNSJumpOverName`. -/
theorem skip_eq_jumpOver {b : List Byte} {p k : Nat} (h : skipAt b p = some k) :
    ∃ f0, ∀ f, f0 ≤ f → (jumpOver (fun i => b.getD i 0) p f).out = .ok k [] := by
  have key : ∀ (m : Nat) (b : List Byte) (p k n : Nat), b.length - p ≤ m → skip (b.drop p) = some k →
      ∃ f0, ∀ f, f0 ≤ f →
        (getLoop (fun i => b.getD i 0) false 2147483647 none f p [] n false).out = .ok (n + k) [] := by
    intro m
    induction m with
    | zero =>
      intro b p k n hm h
      rw [List.drop_eq_nil_of_le (by omega)] at h
      simp [skip] at h
    | succ m ih =>
      intro b p k n hm h
      by_cases hp : p < b.length
      · rw [List.drop_eq_getElem_cons hp, skip] at h
        have hmem : b.getD p 0 = b[p] := by simp [List.getD_eq_getElem?_getD, hp]
        by_cases h0 : b[p] = 0
        · rw [if_pos h0] at h
          refine ⟨1, fun f hf => ?_⟩
          obtain ⟨f, rfl⟩ : ∃ g, f = g + 1 := ⟨f - 1, by omega⟩
          simp only [getLoop, hmem, h0, if_true, finish]
          simp at h; subst h; simp
        · rw [if_neg h0] at h
          by_cases hq : isPtr b[p] = true
          · rw [if_pos hq] at h
            refine ⟨1, fun f hf => ?_⟩
            obtain ⟨f, rfl⟩ : ∃ g, f = g + 1 := ⟨f - 1, by omega⟩
            simp only [getLoop, hmem, h0, if_false, hq, if_true, finish]
            simp at h; subst h; simp
          · rw [if_neg hq] at h
            rw [List.drop_drop] at h
            cases hk : skip (b.drop (p + 1 + b[p].toNat)) with
            | none => simp [hk] at h
            | some k' =>
              simp only [hk, Option.map_some, Option.some.injEq] at h
              obtain ⟨f0, hf0⟩ := ih b (p + 1 + b[p].toNat) k' (n + (b[p].toNat + 1)) (by omega) hk
              refine ⟨f0 + 1, fun f hf => ?_⟩
              obtain ⟨f, rfl⟩ : ∃ g, f = g + 1 := ⟨f - 1, by omega⟩
              simp only [getLoop, hmem, h0, if_false, hq, Bool.false_eq_true, false_and, Result.after]
              rw [hf0 f (by omega)]
              congr 1; omega
      · rw [List.drop_eq_nil_of_le (by omega)] at h
        simp [skip] at h
  obtain ⟨f0, hf⟩ := key (b.length - p) b p k 0 (by omega) h
  exact ⟨f0, fun f h => by unfold jumpOver; rw [hf f h]; simp⟩

end Verif.Parser

namespace Verif.Parser
open Name Message

/-- A question or resource record, as the iterator sees it. -/
structure Item where
  pu : Purpose
  name : List Byte
  type : Nat
  klass : Nat
  tail : List Byte
  dl : Nat

def Item.bytes (x : Item) : List Byte := x.name ++ (u16 x.type ++ (u16 x.klass ++ x.tail))

structure Item.Ok (x : Item) : Prop where
  name : WireName x.name
  t0 : 0 < x.type
  t1 : x.type < 65536
  k0 : 0 < x.klass
  k1 : x.klass < 65536
  pu : x.pu ≠ .unknown
  q : x.pu = .question → x.tail = []
  r : x.pu ≠ .question → ∃ ttl rd, x.tail = u32 ttl ++ (u16 rd.length ++ rd) ∧ x.dl = rd.length ∧
    rd.length < 65536

def Item.itr (x : Item) (d p n : Nat) : Itr :=
  ⟨some p, n, x.pu, x.type, x.klass, if x.pu = .question then d else x.dl⟩

def expect (d p n : Nat) : List Item → List Itr
  | [] => []
  | x :: xs => x.itr d p n :: expect (x.itr d p n).dataLen (p + x.bytes.length) (n + 1) xs

theorem look_item {b pre post : List Byte} {len : Nat} {c : Counts} {it : Itr} {n : Nat} {x : Item}
    (hx : x.Ok) (hb : b = pre ++ (x.bytes ++ post)) (hlen : pre.length ≤ len) (hn : n ≤ c.all)
    (hpu : determinePurpose c n = x.pu) :
    look b len c it pre.length n = some (x.itr it.dataLen pre.length n, some pre.length) := by
  have hsk : skipAt b pre.length = some x.name.length :=
    skipAt_eq (nb := x.name) (post := u16 x.type ++ (u16 x.klass ++ (x.tail ++ post)))
      (by simp [hb, Item.bytes]) rfl hx.name
  have hty : u16At b (pre.length + x.name.length) = some x.type :=
    u16At_eq (pre := pre ++ x.name) (post := u16 x.klass ++ (x.tail ++ post))
      (by simp [hb, Item.bytes]) (by simp) hx.t1
  have hkl : u16At b (pre.length + x.name.length + 2) = some x.klass :=
    u16At_eq (pre := pre ++ (x.name ++ u16 x.type)) (post := x.tail ++ post)
      (by simp [hb, Item.bytes]) (by simp [u16_length]; omega) hx.k1
  unfold look
  rw [if_neg (by omega), hsk]
  simp only [hty, hkl, hpu]
  rw [if_pos ⟨hx.pu, by have := hx.t0; omega, by have := hx.k0; omega⟩]
  by_cases hq : x.pu = .question
  · simp [hq, Item.itr]
  · obtain ⟨ttl, rd, ht, hd, hr⟩ := hx.r hq
    have hdl : u16At b (pre.length + x.name.length + 8) = some rd.length :=
      u16At_eq (pre := pre ++ (x.name ++ (u16 x.type ++ (u16 x.klass ++ u32 ttl)))) (post := rd ++ post)
        (by simp [hb, Item.bytes, ht]) (by simp [u16_length, u32_length]; omega) hr
    simp [hq, hdl, Item.itr, hd]

theorem next_item {b pre post : List Byte} {len : Nat} {c : Counts} {d n : Nat} {x : Item}
    (hx : x.Ok) (hb : b = pre ++ (x.bytes ++ post)) (hn : n < c.all) :
    next b len c (x.itr d pre.length n) =
      look b len c (x.itr d pre.length n) (pre.length + x.bytes.length) (n + 1) := by
  have hsk : skipAt b pre.length = some x.name.length :=
    skipAt_eq (nb := x.name) (post := u16 x.type ++ (u16 x.klass ++ (x.tail ++ post)))
      (by simp [hb, Item.bytes]) rfl hx.name
  unfold next
  simp only [Item.itr, hn, if_true, hsk]
  congr 1
  by_cases hq : x.pu = .question
  · simp [hq, Item.bytes, hx.q hq, u16_length]
  · obtain ⟨ttl, rd, ht, hd, hr⟩ := hx.r hq
    simp [hq, Item.bytes, ht, hd, u16_length, u32_length]; omega

theorem next_end {b : List Byte} {len : Nat} {c : Counts} {it : Itr} {p : Nat}
    (hp : it.pos = some p) (hn : ¬ it.num < c.all) :
    next b len c it = some ({ it with pos := none, num := 0 }, none) := by
  unfold next; rw [hp]; simp [hn]

theorem visits_items {b : List Byte} {len : Nat} {c : Counts} (xs : List Item) :
    ∀ {pre post : List Byte} {it : Itr} {n fuel : Nat},
    (∀ x ∈ xs, x.Ok) → b = pre ++ ((xs.map Item.bytes).flatten ++ post) →
    pre.length + ((xs.map Item.bytes).flatten).length ≤ len →
    (∀ i, (h : i < xs.length) → determinePurpose c (n + i) = xs[i].pu) → n + xs.length = c.all + 1 →
    xs.length < fuel →
    next b len c it = (if xs = [] then some ({ it with pos := none, num := 0 }, none)
      else look b len c it pre.length n) →
    visits b len c fuel it = expect it.dataLen pre.length n xs := by
  induction xs with
  | nil =>
    intro pre post it n fuel _ _ _ _ _ hf hnext
    obtain ⟨f, rfl⟩ : ∃ g, fuel = g + 1 := ⟨fuel - 1, by simp at hf; omega⟩
    simp [visits, hnext, expect]
  | cons x xs ih =>
    intro pre post it n fuel hok hb hlen hpu hn hf hnext
    obtain ⟨f, rfl⟩ : ∃ g, fuel = g + 1 := ⟨fuel - 1, by omega⟩
    simp only [List.map_cons, List.flatten_cons] at hb hlen
    simp only [List.length_cons] at hn hf
    have hx := hok x (by simp)
    have hb' : b = pre ++ (x.bytes ++ ((xs.map Item.bytes).flatten ++ post)) := by simp [hb]
    have h0 : determinePurpose c n = x.pu := hpu 0 (by simp)
    have hlook := look_item (len := len) (it := it) hx hb' (by omega) (show n ≤ c.all by omega) h0
    rw [if_neg (by simp), hlook] at hnext
    simp only [visits, hnext, expect]
    congr 1
    have := @ih (pre ++ x.bytes) post (x.itr it.dataLen pre.length n) (n + 1) f
      (fun y hy => hok y (by simp [hy])) (by simp [hb]) (by simp at hlen ⊢; omega)
      (fun i hi => by
        have h1 : determinePurpose c (n + (i + 1)) = xs[i].pu := hpu (i + 1) (by simp; omega)
        rw [show n + 1 + i = n + (i + 1) by omega]; exact h1)
      (by omega) (by omega) ?_
    · simpa using this
    · by_cases hxs : xs = []
      · rw [if_pos hxs]
        subst hxs
        simp at hn
        exact next_end rfl (by simp [Item.itr]; omega)
      · rw [if_neg hxs]
        have : 0 < xs.length := List.length_pos_iff.mpr hxs
        rw [next_item hx hb' (by omega)]
        simp

def qItem (q : Question) : Item := ⟨.question, q.name, q.type, q.klass, [], 0⟩
def rItem (pu : Purpose) (r : RR) : Item :=
  ⟨pu, r.name, r.type, r.klass, u32 r.ttl ++ (u16 r.rdata.length ++ r.rdata), r.rdata.length⟩

theorem qItem_bytes (q : Question) : (qItem q).bytes = q.bytes := by
  simp [qItem, Item.bytes, Question.bytes]
theorem rItem_bytes (pu : Purpose) (r : RR) : (rItem pu r).bytes = r.bytes := by
  simp [rItem, Item.bytes, RR.bytes]

theorem qItem_ok {q : Question} (h : q.Valid) : (qItem q).Ok :=
  ⟨h.1, h.2.1, h.2.2.1, h.2.2.2.1, h.2.2.2.2, by simp [qItem], by simp [qItem], by simp [qItem]⟩
theorem rItem_ok {pu : Purpose} {r : RR} (h : r.Valid) (h1 : pu ≠ .unknown) (h2 : pu ≠ .question) :
    (rItem pu r).Ok :=
  ⟨h.1, h.2.1, h.2.2.1, h.2.2.2.1, h.2.2.2.2.1, h1, fun h => absurd h h2,
    fun _ => ⟨r.ttl, r.rdata, rfl, rfl, h.2.2.2.2.2.2⟩⟩

def items (m : Msg) : List Item :=
  m.qs.map qItem ++ (m.an.map (rItem .answer) ++
    (m.ns.map (rItem .nameServer) ++ m.ar.map (rItem .additional)))

theorem items_ok {m : Msg} (h : m.Valid) : ∀ x ∈ items m, x.Ok := by
  intro x hx
  simp only [items, List.mem_append, List.mem_map] at hx
  rcases hx with ⟨q, hq, rfl⟩ | ⟨r, hr, rfl⟩ | ⟨r, hr, rfl⟩ | ⟨r, hr, rfl⟩
  · exact qItem_ok (h.qs q hq)
  · exact rItem_ok (h.an r hr) (by simp) (by simp)
  · exact rItem_ok (h.ns r hr) (by simp) (by simp)
  · exact rItem_ok (h.ar r hr) (by simp) (by simp)

theorem items_bytes (m : Msg) : ((items m).map Item.bytes).flatten = m.body := by
  unfold items Msg.body qBytes rrBytes
  simp only [List.map_append, List.map_map, List.flatten_append]
  have e1 : ∀ l : List Question, l.map (Item.bytes ∘ qItem) = l.map Question.bytes :=
    fun l => List.map_congr_left (fun q _ => qItem_bytes q)
  have e2 : ∀ (pu : Purpose) (l : List RR), l.map (Item.bytes ∘ rItem pu) = l.map RR.bytes :=
    fun pu l => List.map_congr_left (fun q _ => rItem_bytes pu q)
  rw [e1, e2, e2, e2]

def Msg.counts (m : Msg) : Counts := ⟨m.qs.length, m.an.length, m.ns.length, m.ar.length⟩

theorem items_length (m : Msg) : (items m).length = (Msg.counts m).all := by
  simp [items, Counts.all, Msg.counts]; omega

theorem counts_eq {m : Msg} (h : m.Valid) (post : List Byte) :
    Parser.counts (m.bytes ++ post) = some (Msg.counts m) := by
  have h4 := h.head
  unfold Parser.counts
  rw [u16At_eq (n := m.qs.length) (pre := m.head)
      (post := u16 m.an.length ++ (u16 m.ns.length ++ (u16 m.ar.length ++ (m.body ++ post))))
      (by simp [Msg.bytes, Msg.header]) (by omega) h.qd16,
    u16At_eq (n := m.an.length) (pre := m.head ++ u16 m.qs.length)
      (post := (u16 m.ns.length ++ (u16 m.ar.length ++ (m.body ++ post))))
      (by simp [Msg.bytes, Msg.header]) (by simp [u16_length]; omega) h.an16,
    u16At_eq (n := m.ns.length) (pre := m.head ++ (u16 m.qs.length ++ u16 m.an.length))
      (post := (u16 m.ar.length ++ (m.body ++ post)))
      (by simp [Msg.bytes, Msg.header]) (by simp [u16_length]; omega) h.ns16,
    u16At_eq (n := m.ar.length) (pre := m.head ++ (u16 m.qs.length ++ (u16 m.an.length ++ u16 m.ns.length)))
      (post := (m.body ++ post))
      (by simp [Msg.bytes, Msg.header]) (by simp [u16_length]; omega) h.ar16]
  rfl

end Verif.Parser
