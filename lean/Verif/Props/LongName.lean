import Verif.Props.HeaderAll
/-! C01, C34: names that do not fit the 256 bytes for the text. -/

namespace Verif.Name

/-- The labels `a` are as many of the leading labels of `ls` as have, with a byte behind, room in `N` bytes, and there are more. -/
def Room (N : Nat) (ls a : List (List Byte)) : Prop := ∃ l b, ls = a ++ l :: b ∧ (text a).length < N ∧ N ≤ (text (a ++ [l])).length

theorem dotted_append (a b : List (List Byte)) : dotted (a ++ b) = dotted a ++ dotted b := by
  induction a with
  | nil => rfl
  | cons l a ih => simp [dotted, ih]

theorem getLoop_long {mem : Nat → Byte} {len p k : Nat} {ls : List (List Byte)} (h : Denotes mem len p ls k) (hb : Bool) (N : Nat) :
    ∀ (a : List (List Byte)) (l : List Byte) (b : List (List Byte)) (buf : List Byte) (n : Nat) (red : Bool), ls = a ++ l :: b →
      buf.length + (dotted a).length ≤ N → N < buf.length + (dotted a).length + l.length + 1 →
    ∃ f0, ∀ f, f0 ≤ f → (getLoop mem hb len (some N) f p buf n red).out = terminate N (buf ++ dotted a) := by
  induction h with
  | root p h0 hp => intro a l b buf n red hls; simp at hls
  | label p l ls k h1 h2 hc hl hp hr ih =>
    intro a l' b buf n red hls hin hout
    have hL : (mem p).toNat = l.length := by rw [hc, u8_ofNat_toNat (by omega)]
    have hne : mem p ≠ 0 := by
      intro h0; rw [h0] at hL; simp at hL; omega
    have hnp : isPtr (mem p) = false := by
      rw [Bool.eq_false_iff]; intro hh; rw [isPtr_iff] at hh; omega
    have hspan : (span (p + 1) (mem p).toNat).map mem = l := by rw [hL]; exact hl.span
    have hbound : ¬ (hb = true ∧ p + (mem p).toNat > len) := by rw [hL]; omega
    cases a with
    | nil =>
      simp only [List.nil_append, List.cons.injEq] at hls
      obtain ⟨rfl, -⟩ := hls
      simp only [dotted, List.length_nil] at hin hout
      refine ⟨1, fun f hf => ?_⟩
      obtain ⟨f, rfl⟩ : ∃ g, f = g + 1 := ⟨f - 1, by omega⟩
      unfold getLoop
      simp only [hne, if_false, hnp, Bool.false_eq_true, hbound]
      rw [if_neg (by omega)]
      simp [dotted]
    | cons l1 a =>
      simp only [List.cons_append, List.cons.injEq] at hls
      obtain ⟨rfl, hls⟩ := hls
      simp only [dotted, List.length_append, List.length_cons] at hin hout
      obtain ⟨f0, ihf⟩ := ih a l' b (buf ++ (l ++ [46])) (if red then n else n + (l.length + 1)) red hls (by simp; omega) (by simp; omega)
      refine ⟨f0 + 1, fun f hf => ?_⟩
      obtain ⟨f, rfl⟩ : ∃ g, f = g + 1 := ⟨f - 1, by omega⟩
      unfold getLoop
      have hput : put N buf (l ++ [46]) = some (buf ++ (l ++ [46])) := by
        unfold put; rw [if_pos (by simp; omega)]
      simp only [hne, if_false, hnp, Bool.false_eq_true, hbound, hspan, hput]
      rw [if_pos (by omega)]
      simp only [Result.after, hL]
      rw [ihf f (by omega)]
      simp only [dotted, List.append_assoc, List.singleton_append]
  | pointer p q ls k hp hq hc hd hr ih =>
    intro a l b buf n red hls hin hout
    have hP : (mem p).toNat = 192 + q / 256 := by rw [hc, u8_ofNat_toNat (by omega)]
    have hD : (mem (p + 1)).toNat = q % 256 := by
      rw [hd]; simp
    have hne : mem p ≠ 0 := by
      intro h0; rw [h0] at hP; simp at hP; omega
    have hisp : isPtr (mem p) = true := by rw [isPtr_iff]; omega
    have hto : ptrTo mem p = q := by unfold ptrTo; rw [hP, hD]; omega
    have hql : q ≤ len := by
      cases hr <;> omega
    obtain ⟨f0, ihf⟩ := ih a l b buf (if red then n else n + 2) true hls hin hout
    refine ⟨f0 + 1, fun f hf => ?_⟩
    obtain ⟨f, rfl⟩ : ∃ g, f = g + 1 := ⟨f - 1, by omega⟩
    unfold getLoop
    simp only [hne, if_false, hisp, if_true, hto]
    rw [if_neg (by omega)]
    simp only [Result.after]
    rw [ihf f (by omega)]

/-- C01.  A name that does not fit is reported as a failure, and the buffer holds as many of its labels as fit, terminated; with any compression. -/
theorem long_name_refused (mem : Nat → Byte) (len p k N : Nat) (ls a : List (List Byte)) (h : Denotes mem len p ls k) (hr : Room N ls a) :
    ∃ f0, ∀ f, f0 ≤ f → (getHostName mem len p (some N) f).out = .fail (text a ++ [0]) := by
  obtain ⟨l, b, hls, h1, h2⟩ := hr
  have hd : ∀ x : List (List Byte), x ≠ [] → (dotted x).length = (text x).length + 1 := by
    intro x hx; rw [dotted_eq_text hx]; simp
  have hd2 := hd (a ++ [l]) (by simp)
  rw [dotted_append] at hd2
  simp [dotted] at hd2
  have hin : (dotted a).length ≤ N := by
    cases ha : a with
    | nil => simp [dotted]
    | cons => rw [← ha, hd a (by simp [ha])]; omega
  obtain ⟨f0, hf⟩ := getLoop_long h true N a l b [] 0 false hls (by simpa using hin) (by simp; omega)
  refine ⟨f0, fun f hle => ?_⟩
  unfold getHostName
  rw [hf f hle]
  cases ha : a with
  | nil => simp [terminate, dotted, text, put, show 0 < N by omega, show 1 ≤ N by omega]
  | cons l1 a1 =>
    rw [← ha, List.nil_append, dotted_eq_text (by simp [ha])]
    unfold terminate
    cases h : text a ++ [46] with
    | nil => simp at h
    | cons c t => simp [← h]

/-- `www.example` in 8 bytes: only `www` fits. -/
example : ∃ f0, ∀ f, f0 ≤ f → (getHostName (memOf (str "\x03www\x07example\x00")) 13 0 (some 8) f).out = .fail (str "www\x00") :=
  long_name_refused _ 13 0 _ 8 [str "www", str "example"] [str "www"]
    (.label 0 (str "www") _ _ (by decide) (by decide) (by decide) (by unfold At; decide) (by decide)
      (.label 4 (str "example") _ _ (by decide) (by decide) (by decide) (by unfold At; decide) (by decide) (.root 12 (by decide) (by decide))))
    ⟨str "example", [], rfl, by decide, by decide⟩

end Verif.Name

namespace Verif.Msg
open Parser Name Message Generator

variable {Addr : Type}

theorem steps_long {b : List Byte} {len fuel k0 t0 : Nat} (hsk : skipAt b 12 = some k0) (hty : u16At b (12 + k0) = some t0) {xs : List Item} {q : Question}
    (hq : q.klass = 1) {buf : List Byte} {before : List Question} {names : List (List (List Byte))} {p : Nat} (hd : Decoded (memAt b) len fuel p before names)
    (hk : ∀ x ∈ before, x.klass = 1) (hg : (getHostName (memAt b) len (p + (qBytes before).length) (some 256) fuel).out = .fail (buf ++ [0])) :
    ∀ (d n : Nat) (h : Ctx Addr), steps b len fuel (expect d p n (before.map qItem ++ (qItem q :: xs))) h =
      some (.inl (-46, { over t0 h (before.zip names) with domain := buf.takeWhile (· ≠ 0) })) := by
  induction hd with
  | nil =>
    intro d n h
    rw [List.map_nil, List.nil_append]
    unfold expect steps
    simp only [qBytes, List.map_nil, List.flatten_nil, List.length_nil, Nat.add_zero] at hg
    rename_i p
    have hi : (qItem q).itr d p n = ⟨some p, n, .question, q.type, q.klass, d⟩ := rfl
    rw [hi]
    dsimp only
    have hstep : fillStep b len fuel h ⟨some p, n, .question, q.type, q.klass, d⟩ p = some (.inl (-46, { h with domain := buf.takeWhile (· ≠ 0) })) := by
      unfold fillStep
      simp only [hq, ne_eq, not_true_eq_false, if_false, hg, domainAfter_cut]
    rw [hstep]
    rfl
  | @cons p k x qs ls names hx ht ih =>
    intro d n h
    have hb : (qItem x).bytes = x.bytes := qItem_bytes x
    have hi : (qItem x).itr d p n = ⟨some p, n, .question, x.type, x.klass, d⟩ := rfl
    have hkx : x.klass = 1 := hk x (by simp)
    rw [List.map_cons, List.cons_append]
    unfold expect steps
    rw [hi, hb]
    dsimp only
    have hstep : fillStep b len fuel h ⟨some p, n, .question, x.type, x.klass, d⟩ p =
        some (.inr { h with domain := plainName ls, hash := bkdrHash (plainName ls), type := t0 }) := by
      unfold fillStep
      simp [hkx, hx, hsk, hty, domainAfter_cut, plainName_lower]
    rw [hstep]
    dsimp only
    rw [ih (fun y hy => hk y (by simp [hy])) (by
      rw [← hg, show p + x.bytes.length + (qBytes qs).length = p + (qBytes (x :: qs)).length by simp [qBytes]; omega])]
    simp only [List.zip_cons_cons, over, hkx, if_true]

/-- C34.  A name of more than 255 characters: the return value is -46, the name is that of the labels which fit (not in lower case), and the rest of the header is
about the questions before, if any, and otherwise, hash and type included, about the message before. -/
theorem fill_long (m : Msg) (before after : List Question) (q : Question) (names : List (List (List Byte))) (ls a : List (List Byte)) (k : Nat) (post : List Byte)
    (hm : m.Valid) (hq : m.qs = before ++ q :: after) (hk : ∀ x ∈ before, x.klass = 1) (hqk : q.klass = 1)
    (hn : Named (memAt (m.bytes ++ post)) m.bytes.length 12 before names) (hs : ∀ ls ∈ names, (text ls).length < 256)
    (hd : Denotes (memAt (m.bytes ++ post)) m.bytes.length (12 + (qBytes before).length) ls k) (hr : Room 256 ls a)
    (ret : Bool) (back : Option Addr) (sock : Nat) (agent : List Byte) :
    ∃ f0, ∀ fuel, f0 ≤ fuel → ∀ h : Ctx Addr, fill h ret (m.bytes ++ post) m.bytes.length back sock agent fuel =
      some (-46, { About { h with edns := false, entity := (m.bytes ++ post).take h.entity.length } (asked before names) with domain := (text a).takeWhile (· ≠ 0) }) := by
  obtain ⟨f0, hf⟩ := named_decoded hn hs
  obtain ⟨f1, hf1⟩ := long_name_refused _ _ _ _ _ _ _ hd hr
  refine ⟨max f0 f1, fun fuel hfuel h => ?_⟩
  have hne : m.qs ≠ [] := by simp [hq]
  obtain ⟨q0, more, hq0⟩ := List.exists_cons_of_ne_nil hne
  have hch := chain_msg m post m.bytes.length hm (Nat.le_refl _) hne
  have h12 : 12 ≤ m.bytes.length := by rw [Msg.bytes, List.length_append, header_length hm]; omega
  have hb : m.bytes ++ post = m.header ++ (q0.name ++ (u16 q0.type ++ (u16 q0.klass ++
      (qBytes more ++ (rrBytes m.an ++ (rrBytes m.ns ++ rrBytes m.ar)) ++ post)))) := by
    simp [Msg.bytes, Msg.body, hq0, qBytes, Question.bytes]
  have hv := hm.qs q0 (by simp [hq0])
  have hsk : skipAt (m.bytes ++ post) 12 = some q0.name.length := skipAt_eq hb (header_length hm).symm hv.1
  have hty : u16At (m.bytes ++ post) (12 + q0.name.length) = some q0.type :=
    u16At_eq (pre := m.header ++ q0.name) (post := u16 q0.klass ++ (qBytes more ++ (rrBytes m.an ++ (rrBytes m.ns ++ rrBytes m.ar)) ++ post))
      (by rw [hb]; simp) (by simp [header_length hm]) hv.2.2.1
  have key := steps_long hsk hty (xs := after.map qItem ++ (m.an.map (rItem .answer) ++ (m.ns.map (rItem .nameServer) ++ m.ar.map (rItem .additional)))) hqk
    (hf fuel (by omega)) hk (hf1 fuel (by omega)) 0 1
    ({ h with edns := false, entity := (m.bytes ++ post).take h.entity.length } : Ctx Addr)
  rw [over_last] at key
  unfold fill
  rw [if_neg (by simp [initOk]; omega), counts_eq hm]
  dsimp only
  rw [fillLoop_chain _ hch (by rw [expect_length, items_length]; simp [Counts.all, Msg.counts])]
  unfold items
  rw [hq, List.map_append, List.map_cons, List.append_assoc, List.cons_append, key]
  unfold asked About
  cases hw : (before.zip names).takeWhile (fun x => x.1.klass == 1) with
  | nil => rfl
  | cons x r =>
    have hx0 : x.1 = q0 := by
      cases before with
      | nil => simp at hw
      | cons b0 bs =>
        have e : b0 = q0 := by rw [hq0] at hq; simp at hq; exact hq.1.symm
        cases names with
        | nil => simp at hw
        | cons l names =>
          rw [List.zip_cons_cons, List.takeWhile_cons_of_pos (by simp [hk b0 (by simp)])] at hw
          simp at hw
          rw [← hw.1]; exact e
    dsimp only
    rw [hx0]

/-! ### a case that meets the hypotheses -/

def longLabels : List (List Byte) := List.replicate 5 (List.replicate 60 97)
def longQuery : Msg := ⟨[1, 2, 1, 0], [⟨wire longLabels, 28, 1⟩], [], [], []⟩

theorem longQuery_valid : longQuery.Valid := by
  refine ⟨rfl, ?_, by simp [longQuery], by simp [longQuery], by simp [longQuery], by simp [longQuery], by simp [longQuery], by simp [longQuery], by simp [longQuery]⟩
  intro q hq
  simp only [longQuery, List.mem_singleton] at hq
  subst hq
  exact ⟨wireName_wire (by unfold ValidName ValidLabel; decide +kernel), by decide, by decide, by decide, by decide⟩

/-- The name before was `old.com`, asked for its aliases; now the name is four labels of the new name, the type and the client are the old ones. -/
example : ∃ f0, ∀ fuel, f0 ≤ fuel → fill (⟨some 7, 1, str "old.com", 5, 5, false, true, [], [1, 2, 3]⟩ : Ctx Nat) false (longQuery.bytes ++ []) longQuery.bytes.length
    (some 8) 2 (str "10.0.0.1") fuel = some (-46, ⟨some 7, 1, text (longLabels.take 4), 5, 5, false, false, [], [1, 2, 1]⟩) := by
  have hd : Denotes (memAt (longQuery.bytes ++ [])) longQuery.bytes.length 12 longLabels (wire longLabels).length := by
    refine denotes_wire (by decide +kernel) ?_ (by decide +kernel)
    unfold At
    decide +kernel
  obtain ⟨f0, h⟩ := fill_long (Addr := Nat) longQuery [] [] _ [] longLabels (longLabels.take 4) _ [] longQuery_valid rfl (by simp) rfl .nil (by simp) hd
    ⟨List.replicate 60 97, [], by decide +kernel, by decide +kernel, by decide +kernel⟩ false (some 8) 2 (str "10.0.0.1")
  refine ⟨f0, fun fuel hf => ?_⟩
  rw [h fuel hf]
  decide +kernel

end Verif.Msg
