import Verif.Spec.Header
import Verif.Props.IHeader
/-! C34: what a message with any questions tells about itself (`IHeader_Fill`). -/

namespace Verif.Msg
open Parser Name Message Generator

variable {Addr : Type}

theorem plainName_lower (ls : List (List Byte)) : plainName ls = strToLower ((text ls).takeWhile (· ≠ 0)) := rfl

theorem domainAfter_cut (d old : List Byte) : domainAfter (d ++ [0]) old = d.takeWhile (· ≠ 0) := by
  unfold domainAfter
  generalize old.drop (d ++ [0]).length = r
  induction d with
  | nil => simp
  | cons a d ih =>
    by_cases h : a = 0
    · simp [h]
    · simp [h] at ih ⊢
      exact ih

/-- The header after the questions. -/
def over (t : Nat) (h : Ctx Addr) : List (Question × List (List Byte)) → Ctx Addr
  | [] => h
  | (q, ls) :: l => if q.klass = 1 then over t { h with domain := plainName ls, hash := bkdrHash (plainName ls), type := t } l else h

theorem over_last (t : Nat) (l : List (Question × List (List Byte))) : ∀ h : Ctx Addr,
    over t h l = match l.takeWhile (fun x => x.1.klass == 1) with
      | [] => h
      | x :: r => { h with domain := plainName ((x :: r).getLast (by simp)).2, hash := bkdrHash (plainName ((x :: r).getLast (by simp)).2), type := t } := by
  induction l with
  | nil => intro h; rfl
  | cons x l ih =>
    intro h
    obtain ⟨q, ls⟩ := x
    unfold over
    by_cases hk : q.klass = 1
    · rw [if_pos hk, ih, List.takeWhile_cons_of_pos (by simp [hk])]
      cases l.takeWhile (fun x => x.1.klass == 1) with
      | nil => rfl
      | cons y r => rfl
    · rw [if_neg hk, List.takeWhile_cons_of_neg (by simp [hk])]

/-- All names can be decoded. -/
inductive Decoded (mem : Nat → Byte) (len fuel : Nat) : Nat → List Question → List (List (List Byte)) → Prop where
  | nil {p : Nat} : Decoded mem len fuel p [] []
  | cons {p k : Nat} {q : Question} {qs : List Question} {ls : List (List Byte)} {names : List (List (List Byte))}
      (h : (getHostName mem len p (some 256) fuel).out = .ok k (text ls ++ [0]))
      (ht : Decoded mem len fuel (p + q.bytes.length) qs names) : Decoded mem len fuel p (q :: qs) (ls :: names)

theorem named_decoded {mem : Nat → Byte} {len p : Nat} {qs : List Question} {names : List (List (List Byte))} (h : Named mem len p qs names)
    (hs : ∀ ls ∈ names, (text ls).length < 256) : ∃ f0, ∀ fuel, f0 ≤ fuel → Decoded mem len fuel p qs names := by
  induction h with
  | nil => exact ⟨0, fun _ _ => .nil⟩
  | @cons p k q qs ls names h ht ih =>
    obtain ⟨f1, h1⟩ := ih (fun l hl => hs l (by simp [hl]))
    obtain ⟨f2, h2⟩ := compressed_name_decoded _ _ _ _ 256 _ h (hs ls (by simp))
    exact ⟨max f1 f2, fun fuel hf => .cons (h2 fuel (by omega)).1 (h1 fuel (by omega))⟩

theorem steps_questions {b : List Byte} {len fuel k0 t0 : Nat} (hsk : skipAt b 12 = some k0) (hty : u16At b (12 + k0) = some t0) {xs : List Item}
    (hx : ∀ x ∈ xs, x.pu ≠ .question) {qs : List Question} {names : List (List (List Byte))} {p : Nat} (hd : Decoded (memAt b) len fuel p qs names) :
    ∀ (d n : Nat) (h : Ctx Addr), steps b len fuel (expect d p n (qs.map qItem ++ xs)) h =
      some (if ∀ q ∈ qs, q.klass = 1 then .inr { over t0 h (qs.zip names) with edns := h.edns || xs.any (fun x => x.pu == .additional && x.type == 41) }
        else .inl (-48, over t0 h (qs.zip names))) := by
  induction hd with
  | nil =>
    intro d n h
    rw [List.map_nil, List.nil_append, steps_records _ hx, if_pos (by simp)]
    rfl
  | @cons p k q qs ls names hg ht ih =>
    intro d n h
    have hb : (qItem q).bytes = q.bytes := qItem_bytes q
    have hi : (qItem q).itr d p n = ⟨some p, n, .question, q.type, q.klass, d⟩ := rfl
    rw [List.map_cons, List.cons_append]
    unfold expect steps
    rw [hi, hb]
    dsimp only
    by_cases hk : q.klass = 1
    · have hstep : fillStep b len fuel h ⟨some p, n, .question, q.type, q.klass, d⟩ p =
          some (.inr { h with domain := plainName ls, hash := bkdrHash (plainName ls), type := t0 }) := by
        unfold fillStep
        simp [hk, hg, hsk, hty, domainAfter_cut, plainName_lower]
      rw [hstep]
      dsimp only
      rw [ih]
      simp only [List.mem_cons, forall_eq_or_imp, hk, true_and, List.zip_cons_cons, over, if_true]
    · have hstep : fillStep b len fuel h ⟨some p, n, .question, q.type, q.klass, d⟩ p = some (.inl (-48, h)) := by
        unfold fillStep
        simp [hk]
      rw [hstep]
      dsimp only
      rw [if_neg (by intro hall; exact hk (hall q (by simp)))]
      simp [over, hk]

theorem fill_decoded (m : Msg) (names : List (List (List Byte))) (post : List Byte) (hm : m.Valid) (hne : m.qs ≠ [])
    (hn : Named (memAt (m.bytes ++ post)) m.bytes.length 12 m.qs names) (ret : Bool) (back : Option Addr) (sock : Nat) (agent : List Byte) (fuel : Nat)
    (hf : Decoded (memAt (m.bytes ++ post)) m.bytes.length fuel 12 m.qs names) (h : Ctx Addr) :
      ((∀ q ∈ m.qs, q.klass = 1) → ∃ d t, asked m.qs names = some (d, t) ∧ fill h ret (m.bytes ++ post) m.bytes.length back sock agent fuel =
        some (0, { back := back, sock := sock, domain := d, hash := bkdrHash d, type := t, returnHeader := ret,
                   edns := m.ar.any (fun r => r.type == 41), agent := agent.take 47, entity := m.bytes })) ∧
      ((∃ q ∈ m.qs, q.klass ≠ 1) → fill h ret (m.bytes ++ post) m.bytes.length back sock agent fuel =
        some (-48, About { h with edns := false, entity := (m.bytes ++ post).take h.entity.length } (asked m.qs names))) := by
  obtain ⟨q0, more, hq⟩ := List.exists_cons_of_ne_nil hne
  have hch := chain_msg m post m.bytes.length hm (Nat.le_refl _) hne
  have h12 : 12 ≤ m.bytes.length := by rw [Msg.bytes, List.length_append, header_length hm]; omega
  have hb : m.bytes ++ post = m.header ++ (q0.name ++ (u16 q0.type ++ (u16 q0.klass ++
      (qBytes more ++ (rrBytes m.an ++ (rrBytes m.ns ++ rrBytes m.ar)) ++ post)))) := by
    simp [Msg.bytes, Msg.body, hq, qBytes, Question.bytes]
  have hv := hm.qs q0 (by simp [hq])
  have hsk : skipAt (m.bytes ++ post) 12 = some q0.name.length := skipAt_eq hb (header_length hm).symm hv.1
  have hty : u16At (m.bytes ++ post) (12 + q0.name.length) = some q0.type :=
    u16At_eq (pre := m.header ++ q0.name) (post := u16 q0.klass ++ (qBytes more ++ (rrBytes m.an ++ (rrBytes m.ns ++ rrBytes m.ar)) ++ post))
      (by rw [hb]; simp) (by simp [header_length hm]) hv.2.2.1
  have hany : ((m.an.map (rItem .answer) ++ (m.ns.map (rItem .nameServer) ++ m.ar.map (rItem .additional))).any
      (fun x => x.pu == .additional && x.type == 41)) = m.ar.any (fun r => r.type == 41) := by
    simp only [List.any_append, List.any_map, Function.comp_def, rItem]
    simp only [show (Purpose.answer == Purpose.additional) = false from rfl,
      show (Purpose.nameServer == Purpose.additional) = false from rfl, Bool.false_and]
    have e : ∀ l : List RR, (l.any fun _ => false) = false := by intro l; induction l <;> simp_all
    rw [e, e]; simp
  have key := steps_questions hsk hty (xs := m.an.map (rItem .answer) ++ (m.ns.map (rItem .nameServer) ++ m.ar.map (rItem .additional))) (by
    intro x hx
    simp only [List.mem_append, List.mem_map] at hx
    rcases hx with ⟨r, _, rfl⟩ | ⟨r, _, rfl⟩ | ⟨r, _, rfl⟩ <;> simp [rItem]) hf 0 1
    ({ h with edns := false, entity := (m.bytes ++ post).take h.entity.length } : Ctx Addr)
  rw [hany, over_last] at key
  unfold fill
  rw [if_neg (by simp [initOk]; omega), counts_eq hm]
  dsimp only
  rw [fillLoop_chain _ hch (by rw [expect_length, items_length]; simp [Counts.all, Msg.counts])]
  unfold items
  have hlast : ∀ x ∈ ((m.qs.zip names).takeWhile (fun x => x.1.klass == 1)).head?, x.1 = q0 := by
    rw [hq]
    intro x hx
    cases names with
    | nil => simp at hx
    | cons l names =>
      rw [List.zip_cons_cons] at hx
      by_cases hk : q0.klass = 1
      · rw [List.takeWhile_cons_of_pos (by simp [hk])] at hx
        simp at hx; rw [← hx]
      · rw [List.takeWhile_cons_of_neg (by simp [hk])] at hx
        simp at hx
  refine ⟨fun hall => ?_, fun hex => ?_⟩
  · rw [if_pos hall] at key
    have hpos : (m.qs.zip names).takeWhile (fun x => x.1.klass == 1) ≠ [] := by
      rw [hq] at hn ⊢
      cases hn with
      | cons h1 h2 =>
        rw [List.zip_cons_cons, List.takeWhile_cons_of_pos (by simp [hall q0 (by simp [hq])])]
        simp
    unfold asked
    cases hw : (m.qs.zip names).takeWhile (fun x => x.1.klass == 1) with
    | nil => exact absurd hw hpos
    | cons x r =>
      rw [hw] at key hlast
      have hx0 := hlast x (by simp)
      dsimp only at key ⊢
      refine ⟨_, _, rfl, ?_⟩
      rw [hx0]
      rw [key]
      simp
  · rw [if_neg (by rintro hall; obtain ⟨q, h1, h2⟩ := hex; exact h2 (hall q h1))] at key
    rw [key]
    unfold asked About
    cases hw : (m.qs.zip names).takeWhile (fun x => x.1.klass == 1) with
    | nil => rfl
    | cons x r =>
      rw [hw] at hlast
      have hx0 := hlast x (by simp)
      dsimp only
      rw [hx0]

/-- C34.  For every well-formed message with any questions, whose names have at most 255 characters, and any records: exactly what the header says afterwards.
If all questions are of class IN, it describes this message and its sender, with the name of the last question and the type of the first.  Otherwise the return
value is -48 and all but the name and the type is left as it was for the message before (C34's `other_class_stale`). -/
theorem fill_every (m : Msg) (names : List (List (List Byte))) (post : List Byte) (hm : m.Valid) (hne : m.qs ≠ [])
    (hn : Named (memAt (m.bytes ++ post)) m.bytes.length 12 m.qs names) (hs : ∀ ls ∈ names, (text ls).length < 256)
    (ret : Bool) (back : Option Addr) (sock : Nat) (agent : List Byte) :
    ∃ f0, ∀ fuel, f0 ≤ fuel → ∀ h : Ctx Addr,
      ((∀ q ∈ m.qs, q.klass = 1) → ∃ d t, asked m.qs names = some (d, t) ∧ fill h ret (m.bytes ++ post) m.bytes.length back sock agent fuel =
        some (0, { back := back, sock := sock, domain := d, hash := bkdrHash d, type := t, returnHeader := ret,
                   edns := m.ar.any (fun r => r.type == 41), agent := agent.take 47, entity := m.bytes })) ∧
      ((∃ q ∈ m.qs, q.klass ≠ 1) → fill h ret (m.bytes ++ post) m.bytes.length back sock agent fuel =
        some (-48, About { h with edns := false, entity := (m.bytes ++ post).take h.entity.length } (asked m.qs names))) := by
  obtain ⟨f0, hf⟩ := named_decoded hn hs
  exact ⟨f0, fun fuel hfuel h => fill_decoded m names post hm hne hn ret back sock agent fuel (hf fuel hfuel) h⟩

/-! ### cases that meet the hypotheses -/

/-- A message with two questions, the second of which points into the first, and an EDNS record. -/
def twoQs (k : Nat) : Msg := ⟨[1, 2, 1, 0], [⟨[3, 65, 66, 67, 1, 99, 0], 28, 1⟩, ⟨[1, 100, 0xC0, 16], 1, k⟩], [], [], [⟨[0], 41, 1280, 0, []⟩]⟩

theorem twoQs_valid : (twoQs 1).Valid ∧ (twoQs 3).Valid := by
  have h : ∀ k, k = 1 ∨ k = 3 → (twoQs k).Valid := by
    intro k hk
    refine ⟨rfl, ?_, by simp [twoQs], by simp [twoQs], ?_, by simp [twoQs], by simp [twoQs], by simp [twoQs], by simp [twoQs]⟩
    · intro q hq
      simp only [twoQs, List.mem_cons, List.not_mem_nil, or_false] at hq
      rcases hq with rfl | rfl
      · exact ⟨.label [65, 66, 67] _ (by decide) (by decide) (.label [99] _ (by decide) (by decide) .root), by decide, by decide, by decide, by decide⟩
      · exact ⟨.label [100] _ (by decide) (by decide) (.pointer _ _ (by decide)), by dsimp only; omega, by dsimp only; omega, by dsimp only; omega, by dsimp only; omega⟩
    · intro r hr
      simp only [twoQs, List.mem_singleton] at hr
      subst hr
      exact ⟨.root, by decide, by decide, by decide, by decide, by decide, by decide⟩
  exact ⟨h 1 (.inl rfl), h 3 (.inr rfl)⟩

theorem twoQs_named {k : Nat} (hk : k = 1 ∨ k = 3) :
    Named (memAt ((twoQs k).bytes ++ [9])) (twoQs k).bytes.length 12 (twoQs k).qs [[[65, 66, 67], [99]], [[100], [99]]] := by
  have hc : ∀ p, p = 16 → Denotes (memAt ((twoQs k).bytes ++ [9])) (twoQs k).bytes.length p [[99]] 3 := by
    rintro p rfl
    rcases hk with rfl | rfl
    all_goals exact .label 16 [99] [] 1 (by decide) (by decide) (by decide) (by unfold At; decide) (by decide) (.root 18 (by decide) (by decide))
  rcases hk with rfl | rfl
  all_goals
    exact .cons (.label 12 [65, 66, 67] [[99]] 3 (by decide) (by decide) (by decide) (by unfold At; decide) (by decide) (hc 16 rfl))
      (.cons (.label 23 [100] [[99]] 2 (by decide) (by decide) (by decide) (by unfold At; decide) (by decide)
        (.pointer 25 16 [[99]] 3 (by decide) (by decide) (by decide) (by decide) (hc 16 rfl))) .nil)

/-- The name is `d.c`, of the second question, the type is that of the first. -/
example : ∃ f0, ∀ fuel, f0 ≤ fuel → fill (⟨some 7, 1, str "old.com", 0, 5, false, true, [], [1, 2, 3]⟩ : Ctx Nat) false ((twoQs 1).bytes ++ [9]) (twoQs 1).bytes.length
    (some 8) 2 (str "10.0.0.1") fuel = some (0, ⟨some 8, 2, str "d.c", bkdrHash (str "d.c"), 28, false, true, str "10.0.0.1", (twoQs 1).bytes⟩) := by
  obtain ⟨f0, h⟩ := fill_every (Addr := Nat) (twoQs 1) _ [9] twoQs_valid.1 (by simp [twoQs]) (twoQs_named (.inl rfl)) (by decide) false (some 8) 2 (str "10.0.0.1")
  refine ⟨f0, fun fuel hf => ?_⟩
  obtain ⟨d, t, h1, h2⟩ := (h fuel hf ⟨some 7, 1, str "old.com", 0, 5, false, true, [], [1, 2, 3]⟩).1 (by simp [twoQs])
  rw [h2]
  have : asked (twoQs 1).qs [[[65, 66, 67], [99]], [[100], [99]]] = some (str "d.c", 28) := by decide
  rw [this] at h1
  cases h1
  rfl

/-- The second question is of another class: the name and the type are new, the client is the one before. -/
example : ∃ f0, ∀ fuel, f0 ≤ fuel → fill (⟨some 7, 1, str "old.com", 0, 5, false, true, [], [1, 2, 3]⟩ : Ctx Nat) false ((twoQs 3).bytes ++ [9]) (twoQs 3).bytes.length
    (some 8) 2 (str "10.0.0.1") fuel = some (-48, ⟨some 7, 1, str "abc.c", bkdrHash (str "abc.c"), 28, false, false, [], [1, 2, 1]⟩) := by
  obtain ⟨f0, h⟩ := fill_every (Addr := Nat) (twoQs 3) _ [9] twoQs_valid.2 (by simp [twoQs]) (twoQs_named (.inr rfl)) (by decide) false (some 8) 2 (str "10.0.0.1")
  refine ⟨f0, fun fuel hf => ?_⟩
  rw [(h fuel hf ⟨some 7, 1, str "old.com", 0, 5, false, true, [], [1, 2, 3]⟩).2 ⟨_, List.mem_cons_of_mem _ List.mem_cons_self, by decide⟩]
  have : asked (twoQs 3).qs [[[65, 66, 67], [99]], [[100], [99]]] = some (str "abc.c", 28) := by decide
  rw [this]
  rfl

end Verif.Msg
