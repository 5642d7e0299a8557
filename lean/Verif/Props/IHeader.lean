import Verif.Model.IHeader
import Verif.Props.Generator
/-! C34: what a received message tells about itself (`IHeader_Fill`). -/

namespace Verif.Msg
open Parser Name Message Generator

variable {Addr : Type}

/-- The steps over the records of a message. -/
def steps (b : List Byte) (len fuel : Nat) : List Itr → Ctx Addr → Option ((Int × Ctx Addr) ⊕ Ctx Addr)
  | [], h => some (.inr h)
  | it :: l, h =>
    match it.pos with
    | none => none
    | some p =>
      match fillStep b len fuel h it p with
      | none => none
      | some (.inl r) => some (.inl r)
      | some (.inr h') => steps b len fuel l h'

theorem fillLoop_chain {b : List Byte} {len fuel : Nat} {c : Counts} (l : List Itr) :
    ∀ {it : Itr} {n : Nat} {h : Ctx Addr}, Chain b len c it l → l.length < n →
    fillLoop b len c fuel n it h = steps b len fuel l h := by
  induction l with
  | nil =>
    intro it n h hc hn
    obtain ⟨n, rfl⟩ : ∃ k, n = k + 1 := ⟨n - 1, by omega⟩
    cases hc with
    | nil hx => simp [fillLoop, hx, steps]
  | cons x l ih =>
    intro it n h hc hn
    obtain ⟨n, rfl⟩ : ∃ k, n = k + 1 := ⟨n - 1, by omega⟩
    cases hc with
    | cons hx hp ht =>
      simp only [fillLoop, hx, steps, hp]
      cases fillStep b len fuel h x _ with
      | none => rfl
      | some r =>
        cases r with
        | inl r => rfl
        | inr h' => exact ih ht (by simp at hn; omega)

theorem edns_same (h : Ctx Addr) {e : Bool} (he : e = false) : h = { h with edns := h.edns || e } := by
  cases h; subst he; simp

theorem steps_records {b : List Byte} {len fuel : Nat} (xs : List Item) (hx : ∀ x ∈ xs, x.pu ≠ .question) :
    ∀ (d p n : Nat) (h : Ctx Addr), steps b len fuel (expect d p n xs) h =
      some (.inr { h with edns := h.edns || xs.any (fun x => x.pu == .additional && x.type == 41) }) := by
  induction xs with
  | nil => intro d p n h; simp [expect, steps]
  | cons x xs ih =>
    intro d p n h
    have h1 := hx x (by simp)
    simp only [expect, steps, Item.itr]
    have : fillStep b len fuel h ⟨some p, n, x.pu, x.type, x.klass, if x.pu = .question then d else x.dl⟩ p =
        some (.inr { h with edns := h.edns || (x.pu == .additional && x.type == 41) }) := by
      unfold fillStep
      cases hp : x.pu with
      | question => exact absurd hp h1
      | additional =>
        by_cases ht : x.type = 41
        · simp [ht]
        · simp only [ht, if_false]; exact congrArg (fun x => some (Sum.inr x)) (edns_same h (by simp [ht]))
      | unknown => exact congrArg (fun x => some (Sum.inr x)) (edns_same h (by simp))
      | answer => exact congrArg (fun x => some (Sum.inr x)) (edns_same h (by simp))
      | nameServer => exact congrArg (fun x => some (Sum.inr x)) (edns_same h (by simp))
    rw [this]
    dsimp only
    rw [ih (fun y hy => hx y (by simp [hy]))]
    simp [Bool.or_assoc]

/-- The header of a message whose name can be decoded. -/
theorem fill_named (m : Msg) (q : Question) (ls : List (List Byte)) (k : Nat) (post : List Byte)
    (hm : m.Valid) (hq : m.qs = [q]) (hk : q.klass = 1) {fuel : Nat}
    (hname : (getHostName (memAt (m.bytes ++ post)) m.bytes.length 12 (some 256) fuel).out = .ok k (text ls ++ [0]))
    (hz : ∀ c ∈ text ls, c ≠ 0)
    (ret : Bool) (back : Option Addr) (sock : Nat) (agent : List Byte) (h : Ctx Addr) :
    fill h ret (m.bytes ++ post) m.bytes.length back sock agent fuel =
      some (0, { back := back, sock := sock, domain := (text ls).map toLowerByte,
                 hash := bkdrHash ((text ls).map toLowerByte), type := q.type, returnHeader := ret,
                 edns := m.ar.any (fun r => r.type == 41), agent := agent.take 47, entity := m.bytes }) := by
  have hne : m.qs ≠ [] := by simp [hq]
  have hch := chain_msg m post m.bytes.length hm (Nat.le_refl _) hne
  have h12 : 12 ≤ m.bytes.length := by rw [Msg.bytes, List.length_append, header_length hm]; omega
  unfold fill
  rw [if_neg (by simp [initOk]; omega), counts_eq hm]
  dsimp only
  rw [fillLoop_chain _ hch (by rw [expect_length, items_length]; simp [Counts.all, Msg.counts])]
  have hit : items m = qItem q :: (m.an.map (rItem .answer) ++ (m.ns.map (rItem .nameServer) ++ m.ar.map (rItem .additional))) := by
    simp [items, hq]
  have hb : m.bytes ++ post = m.header ++ (q.name ++ (u16 q.type ++ (u16 q.klass ++
      (rrBytes m.an ++ (rrBytes m.ns ++ rrBytes m.ar) ++ post)))) := by
    simp [Msg.bytes, Msg.body, hq, qBytes, Question.bytes]
  have hv := hm.qs q (by simp [hq])
  have hsk : skipAt (m.bytes ++ post) 12 = some q.name.length := skipAt_eq hb (header_length hm).symm hv.1
  have hty : u16At (m.bytes ++ post) (12 + q.name.length) = some q.type :=
    u16At_eq (pre := m.header ++ q.name) (post := u16 q.klass ++ (rrBytes m.an ++ (rrBytes m.ns ++ rrBytes m.ar) ++ post)) (by rw [hb]; simp) (by simp [header_length hm]) hv.2.2.1
  have hdom : ∀ old, domainAfter (text ls ++ [0]) old = text ls := by
    intro old
    unfold domainAfter
    rw [List.append_assoc, List.takeWhile_append_of_pos (by intro c hc; simpa using hz c hc)]
    simp
  rw [hit]
  simp only [expect, steps, Item.itr, qItem]
  unfold fillStep
  dsimp only
  rw [if_neg (by simp [hk]), hname]
  dsimp only
  rw [hsk]
  dsimp only
  rw [hty]
  dsimp only
  rw [steps_records _ (by
    intro x hx
    simp only [List.mem_append, List.mem_map] at hx
    rcases hx with ⟨r, _, rfl⟩ | ⟨r, _, rfl⟩ | ⟨r, _, rfl⟩ <;> simp [rItem])]
  dsimp only
  rw [hdom]
  have hany : ((m.an.map (rItem .answer) ++ (m.ns.map (rItem .nameServer) ++ m.ar.map (rItem .additional))).any
      (fun x => x.pu == .additional && x.type == 41)) = m.ar.any (fun r => r.type == 41) := by
    simp only [List.any_append, List.any_map, Function.comp_def, rItem]
    simp only [show (Purpose.answer == Purpose.additional) = false from rfl,
      show (Purpose.nameServer == Purpose.additional) = false from rfl, Bool.false_and]
    have e : ∀ l : List RR, (l.any fun _ => false) = false := by intro l; induction l <;> simp_all
    rw [e, e]; simp
  simp only [hany, Bool.false_or]
  simp [strToLower]

/-- C34, well-formed messages.  For every well-formed message with one question of class IN whose name has
at most 255 characters, the header describes exactly this message and its sender: nothing is left of what
the header held before. -/
theorem fill_exact (m : Msg) (q : Question) (ls : List (List Byte)) (k : Nat) (post : List Byte)
    (hm : m.Valid) (hq : m.qs = [q]) (hk : q.klass = 1)
    (hd : Denotes (memAt (m.bytes ++ post)) m.bytes.length 12 ls k)
    (ht : (text ls).length < 256) (hz : ∀ c ∈ text ls, c ≠ 0)
    (ret : Bool) (back : Option Addr) (sock : Nat) (agent : List Byte) :
    ∃ f0, ∀ fuel, f0 ≤ fuel → ∀ h : Ctx Addr, fill h ret (m.bytes ++ post) m.bytes.length back sock agent fuel =
      some (0, { back := back, sock := sock, domain := (text ls).map toLowerByte,
                 hash := bkdrHash ((text ls).map toLowerByte), type := q.type, returnHeader := ret,
                 edns := m.ar.any (fun r => r.type == 41), agent := agent.take 47, entity := m.bytes }) := by
  obtain ⟨f0, hf⟩ := compressed_name_decoded _ _ _ _ 256 _ hd ht
  refine ⟨f0, fun fuel hfuel h => ?_⟩
  exact fill_named m q ls k post hm hq hk (hf fuel hfuel).1 hz ret back sock agent h

/-- Non-vacuity: a query for `a`, type A, in a buffer with other bytes behind it. -/
example : (fill (⟨some 7, 1, str "old.com", 0, 28, false, true, [], [1, 2, 3]⟩ : Ctx Nat) false (exMsg.bytes ++ [9, 9]) 19
    (some 8) 2 (str "10.0.0.1") 5) = some (0, ⟨some 8, 2, str "a", bkdrHash (str "a"), 1, false, false, str "10.0.0.1", exMsg.bytes⟩) := by
  decide +kernel

/-! ### What is not so -/

/-- Full claim: what the header says afterwards, if the message is processed any further, does not depend
on what it said before. -/
def NothingStale : Prop := ∀ (h h' : Ctx Nat) (b : List Byte) (len : Nat) (back : Option Nat) (sock fuel : Nat),
  len ≤ b.length → (fill h false b len back sock [] fuel).map Prod.snd = (fill h' false b len back sock [] fuel).map Prod.snd

/-- The code violates it (and all callers go on whatever `IHeader_Fill` returns): a message of less than
twelve bytes is processed as one from the previous client, for the previous name. -/
theorem nothing_stale_false : ¬ NothingStale := by
  intro h
  have := h ⟨some 1, 0, str "a", 0, 1, false, false, [], []⟩ ⟨some 2, 0, str "b", 0, 1, false, false, [], []⟩ [0] 1 (some 3) 0 0 (by decide)
  revert this; decide +kernel

/-- The same for a well-formed query of another class than IN, … -/
theorem other_class_stale : fill (⟨some 1, 4, str "a", 0, 1, false, false, [], []⟩ : Ctx Nat) false
    ({ exMsg with qs := [⟨[1, 98, 0], 1, 3⟩] } : Msg).bytes 19 (some 2) 5 [] 5 =
      some (-48, ⟨some 1, 4, str "a", 0, 1, false, false, [], []⟩) := by decide +kernel

/-- … and, with the return value 0, for a message without a question: it is taken for a repetition of the
name and type asked before. -/
theorem no_question_stale : fill (⟨some 1, 4, str "a", 7, 28, false, false, [], []⟩ : Ctx Nat) false
    [0, 0, 0, 0, 0, 0, 0, 0, 0, 0, 0, 0, 0, 0, 0, 0] 12 (some 2) 5 [] 5 =
      some (0, ⟨some 2, 5, str "a", 7, 28, false, false, [], [0, 0, 0, 0, 0, 0, 0, 0, 0, 0, 0, 0]⟩) := by decide +kernel

/-- Of two questions, the name of the last and the type of the first are used. -/
theorem two_questions_mixed : (fill (⟨some 1, 4, str "x", 7, 28, false, false, [], []⟩ : Ctx Nat) false
    ({ exMsg with qs := [exQ, ⟨[1, 98, 0], 28, 1⟩] } : Msg).bytes 26 (some 2) 5 [] 5).map (fun r => (r.1, r.2.domain, r.2.type)) =
      some (0, str "b", 1) := by decide +kernel

end Verif.Msg
