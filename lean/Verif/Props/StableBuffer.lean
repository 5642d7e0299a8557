import Verif.Lemmas.StableBuffer
/-! Stable storage never moves or overwrites (C37), and alignment (C61). -/

namespace Verif.StableBuffer

theorem pairwise_snoc {α : Type} {R : α → α → Prop} {l : List α} {x : α} (h : l.Pairwise R) (hx : ∀ y ∈ l, R y x) :
    (l ++ [x]).Pairwise R := by
  rw [List.pairwise_append]
  exact ⟨h, by simp, fun a ha b hb => by simp at hb; subst hb; exact hx a ha⟩

theorem Inv.new {s : St} {ps : List (List (Option Byte))} (hi : Inv s ps) {bs : Buf} {p : Pos} {l : List (Option Byte)}
    (hf : ∀ b ∈ bs, b.used ≤ b.mem.length) (hold : Holds bs p l)
    (hkeep : ∀ q l, Holds s.buf q l → Holds bs q l ∧ (q.1 = p.1 → q.2 + l.length ≤ p.2)) :
    Inv ⟨bs, s.places ++ [(p, l.length)]⟩ (ps ++ [l]) := by
  have hlen : s.places.length = ps.length := by
    have := congrArg List.length hi.len
    simpa using this
  refine ⟨hf, by simp [hi.len], ?_, ?_⟩
  · intro h x l' hx hl
    dsimp only at hx
    by_cases hh : h < ps.length
    · rw [List.getElem?_append_left (by omega)] at hx hl
      exact (hkeep _ _ (hi.holds h x l' hx hl)).1
    · rw [List.getElem?_append_right (by omega)] at hx hl
      rw [hlen] at hx
      have : h - ps.length = 0 := by
        cases hk : h - ps.length with
        | zero => rfl
        | succ k => rw [hk] at hl; simp at hl
      rw [this] at hx hl
      simp at hx hl
      subst hx hl
      exact hold
  · refine pairwise_snoc hi.apart ?_
    intro y hy e
    obtain ⟨h, hh⟩ := List.mem_iff_getElem?.1 hy
    obtain ⟨l', h1, h2⟩ := hi.place hh
    have := (hkeep _ _ (hi.holds h y l' hh h1)).2 e
    dsimp only
    omega

theorem step_ok {s s1 : St} {ps : List (List (Option Byte))} {c : Cmd} {r : Reply} (hi : Inv s ps)
    (hs : step s c = some (s1, r)) :
    ∃ ps', Inv s1 ps' ∧ ∀ cs rs, Stable ps' cs rs → Stable ps (c :: cs) (r :: rs) := by
  have hplace : ∀ (ok : Bool) (len : Nat) (a : Bool) (bs' : Buf) (q : Option Pos),
      writeHere ok s.buf (if a then roundUp8 len else len) = some (bs', q) →
      (q = none → ok = false ∧ bs' = s.buf) ∧ ∀ p, q = some p → ∃ b, (∀ b ∈ bs', b.used ≤ b.mem.length) ∧
        bs'[p.1]? = some b ∧ p.2 + len ≤ b.used ∧
        (∀ q l, Holds s.buf q l → Holds bs' q l ∧ (q.1 = p.1 → q.2 + l.length ≤ p.2)) := by
    intro ok len a bs' q hw
    have hle : len ≤ (if a then roundUp8 len else len) := by
      split
      · exact le_roundUp8 len
      · omega
    by_cases hsm : (if a then roundUp8 len else len) * (s.buf.length + 1) ≤ 2147483647
    · rcases writeHere_spec (ok := ok) hi.fit hsm with ⟨e1, e2⟩ | ⟨b1, p1, b, e1, e2, e3, e4, e5, e6⟩
      · rw [e2] at hw
        simp only [Option.some.injEq, Prod.mk.injEq] at hw
        exact ⟨fun _ => ⟨e1, hw.1.symm⟩, fun p hp => by rw [← hw.2] at hp; cases hp⟩
      · rw [e1] at hw
        simp only [Option.some.injEq, Prod.mk.injEq] at hw
        obtain ⟨rfl, rfl⟩ := hw
        refine ⟨fun e => by (cases e), fun p hp => ?_⟩
        cases hp
        exact ⟨b, e2, e3, by omega, e6⟩
    · unfold writeHere at hw
      cases hn : needRealloc s.buf (if a then roundUp8 len else len) with
      | true => rw [hn, if_pos rfl, if_pos (by omega)] at hw; cases hw
      | false =>
        rw [hn, if_neg (by simp)] at hw
        -- room is left, so the size does not matter
        unfold needRealloc at hn
        cases hg : s.buf.getLast? with
        | none => rw [hg] at hn; simp at hn
        | some l =>
          rw [hg] at hn hw
          simp only [decide_eq_false_iff_not] at hn
          simp only [Option.some.injEq, Prod.mk.injEq] at hw
          obtain ⟨rfl, rfl⟩ := hw
          refine ⟨fun e => by (cases e), fun p hp => ?_⟩
          cases hp
          obtain ⟨ys, hys⟩ := List.getLast?_eq_some_iff.1 hg
          have hl := hi.fit l (by rw [hys]; simp)
          have hfit := hi.fit
          rw [hys] at hfit
          rw [hys]
          refine ⟨{ l with used := l.used + (if a then roundUp8 len else len) }, ?_, ?_, ?_, ?_⟩
          · intro b hb
            rw [List.dropLast_concat] at hb
            rcases List.mem_append.1 hb with hb | hb
            · exact hfit b (by simp [hb])
            · simp at hb; subst hb; dsimp only; split at * <;> omega
          · simp
          · dsimp only; omega
          · rintro q l' ⟨b, h1, h2, h3⟩
            have hlt : q.1 < (ys ++ [l]).length := (List.getElem?_eq_some_iff.1 h1).1
            simp at hlt
            rw [List.dropLast_concat]
            by_cases he : q.1 = ys.length
            · rw [he] at h1
              simp at h1
              subst h1
              refine ⟨⟨{ l with used := l.used + (if a then roundUp8 len else len) }, by rw [he]; simp, by dsimp only; omega, h3⟩, fun _ => h2⟩
            · rw [List.getElem?_append_left (by omega)] at h1
              refine ⟨⟨b, by rw [List.getElem?_append_left (by omega)]; exact h1, h2, h3⟩, ?_⟩
              intro e; simp at e; omega
  cases c with
  | add ok d a =>
    simp only [step, add] at hs
    cases hw : writeHere ok s.buf (if a = true then roundUp8 d.length else d.length) with
    | none => rw [hw] at hs; cases hs
    | some r =>
      obtain ⟨bs', q⟩ := r
      obtain ⟨g1, g2⟩ := hplace ok d.length a bs' q hw
      rw [hw] at hs
      cases q with
      | none =>
        obtain ⟨rfl, rfl⟩ := g1 rfl
        simp only [Option.some.injEq, Prod.mk.injEq] at hs
        obtain ⟨rfl, rfl⟩ := hs
        exact ⟨ps, ⟨hi.fit, hi.len, hi.holds, hi.apart⟩, fun cs rs h => .inr ⟨rfl, rfl, h⟩⟩
      | some p =>
        obtain ⟨b, k1, k2, k3, k4⟩ := g2 p rfl
        dsimp only at hs
        cases hwr : write bs' p (d.map some) with
        | none => rw [hwr] at hs; cases hs
        | some b2 =>
          rw [hwr] at hs
          simp only [Option.map_some, Option.some.injEq, Prod.mk.injEq] at hs
          obtain ⟨rfl, rfl⟩ := hs
          refine ⟨ps ++ [d.map some], ?_, fun cs rs h => .inl ⟨rfl, h⟩⟩
          have := Inv.new hi (p := p) (l := d.map some) (fit_write hwr k1)
            (holds_write k2 (by simpa using k3) hwr) ?_
          · simpa using this
          · intro q l hq
            obtain ⟨m1, m2⟩ := k4 q l hq
            refine ⟨m1.other hwr ?_, m2⟩
            intro e
            exact .inl (m2 e.symm)
  | room ok n a =>
    simp only [step, add] at hs
    cases hw : writeHere ok s.buf (if a = true then roundUp8 n else n) with
    | none => rw [hw] at hs; cases hs
    | some r =>
      obtain ⟨bs', q⟩ := r
      obtain ⟨g1, g2⟩ := hplace ok n a bs' q hw
      rw [hw] at hs
      cases q with
      | none =>
        obtain ⟨rfl, rfl⟩ := g1 rfl
        simp only [Option.some.injEq, Prod.mk.injEq] at hs
        obtain ⟨rfl, rfl⟩ := hs
        exact ⟨ps, ⟨hi.fit, hi.len, hi.holds, hi.apart⟩, fun cs rs h => .inr ⟨rfl, rfl, h⟩⟩
      | some p =>
        obtain ⟨b, k1, k2, k3, k4⟩ := g2 p rfl
        simp only [Option.some.injEq, Prod.mk.injEq] at hs
        obtain ⟨rfl, rfl⟩ := hs
        have hb := k1 b (List.mem_of_getElem? k2)
        refine ⟨ps ++ [(b.mem.drop p.2).take n], ?_, fun cs rs h => .inl ⟨rfl, _, by simp; omega, h⟩⟩
        have hl : ((b.mem.drop p.2).take n).length = n := by simp; omega
        have := Inv.new hi (p := p) (l := (b.mem.drop p.2).take n) k1 ⟨b, k2, by omega, ?_⟩ k4
        · rwa [hl] at this
        · intro j hj
          rw [List.getElem?_take, if_pos (by omega), List.getElem?_drop]
  | put h i x =>
    simp only [step] at hs
    cases hx : s.places[h]? with
    | none => rw [hx] at hs; cases hs
    | some y =>
      obtain ⟨p, n⟩ := y
      rw [hx] at hs
      dsimp only at hs
      split at hs
      · rename_i hin
        cases hwr : write s.buf (p.1, p.2 + i) [some x] with
        | none => rw [hwr] at hs; cases hs
        | some b2 =>
          rw [hwr] at hs
          simp only [Option.map_some, Option.some.injEq, Prod.mk.injEq] at hs
          obtain ⟨rfl, rfl⟩ := hs
          obtain ⟨l, hl1, hl2⟩ := hi.place hx
          refine ⟨ps.set h (l.set i (some x)), ?_, fun cs rs hh => ⟨rfl, l, hl1, hh⟩⟩
          have hhl : h < ps.length := (List.getElem?_eq_some_iff.1 hl1).1
          refine ⟨fit_write hwr hi.fit, ?_, ?_, hi.apart⟩
          · dsimp only
            rw [hi.len, List.map_set]
            refine List.ext_getElem? fun j => ?_
            by_cases hj : h = j
            · subst hj
              rw [List.getElem?_set_self (by simpa using hhl)]
              simp [hl1]
            · rw [List.getElem?_set_ne hj]
          · intro k y l' hk hl'
            dsimp only at hk ⊢
            by_cases hkh : h = k
            · subst hkh
              rw [hx] at hk
              cases hk
              rw [List.getElem?_set_self hhl] at hl'
              cases hl'
              obtain ⟨b, e1, e2, e3⟩ := hi.holds h _ l hx hl1
              dsimp only at e1 e2 e3 hl2
              unfold write at hwr
              dsimp only at hwr
              rw [e1] at hwr
              dsimp only at hwr
              split at hwr
              · rename_i hfit
                cases hwr
                refine ⟨{ b with mem := b.mem.take (p.2 + i) ++ [some x] ++ b.mem.drop (p.2 + i + [some x].length) }, by dsimp only; rw [set_get e1, if_pos rfl], by simpa using e2, fun j hj => ?_⟩
                dsimp only
                rw [splice_get _ _ _ _ hfit]
                simp only [List.length_cons, List.length_nil]
                by_cases hji : j = i
                · subst hji
                  rw [if_pos (by omega)]
                  rw [List.getElem?_set_self (by simpa using hj)]
                  simp
                · rw [if_neg (by omega), List.getElem?_set_ne (Ne.symm hji)]
                  exact e3 j (by simpa using hj)
              · cases hwr
            · rw [List.getElem?_set_ne hkh] at hl'
              refine (hi.holds k y l' hk hl').other hwr ?_
              dsimp only
              intro e
              obtain ⟨l2, q1, q2⟩ := hi.place hk
              rw [hl'] at q1
              cases q1
              have hlt1 : h < s.places.length := (List.getElem?_eq_some_iff.1 hx).1
              have hlt2 : k < s.places.length := (List.getElem?_eq_some_iff.1 hk).1
              have hpw := List.pairwise_iff_getElem.1 hi.apart
              have ex : s.places[h] = (p, n) := (List.getElem?_eq_some_iff.1 hx).2
              have ek : s.places[k] = y := (List.getElem?_eq_some_iff.1 hk).2
              rcases Nat.lt_or_gt_of_ne hkh with hlt | hlt
              · have := hpw h k hlt1 hlt2 hlt
                rw [ex, ek] at this
                have := this e
                dsimp only at this
                right; simp; omega
              · have := hpw k h hlt2 hlt1 hlt
                rw [ex, ek] at this
                have := this e.symm
                dsimp only at this
                left; omega
      · cases hs
  | get h =>
    simp only [step] at hs
    cases hx : s.places[h]? with
    | none => rw [hx] at hs; cases hs
    | some y =>
      obtain ⟨p, n⟩ := y
      rw [hx] at hs
      dsimp only at hs
      obtain ⟨l, hl1, hl2⟩ := hi.place hx
      dsimp only at hl2
      rw [← hl2, (hi.holds h _ l hx hl1).read hi.fit] at hs
      simp only [Option.map_some, Option.some.injEq, Prod.mk.injEq] at hs
      obtain ⟨rfl, rfl⟩ := hs
      exact ⟨ps, hi, fun cs rs hh => ⟨l, hl1, rfl, hh⟩⟩

theorem run_ok (cs : List Cmd) : ∀ (s : St) (ps : List (List (Option Byte))) (s' : St) (rs : List Reply), Inv s ps →
    run s cs = some (s', rs) → Stable ps cs rs := by
  induction cs with
  | nil => intro s ps s' rs _ h; simp only [run, Option.some.injEq, Prod.mk.injEq] at h; exact h.2.symm
  | cons c cs ih =>
    intro s ps s' rs hi h
    rw [run] at h
    split at h
    · cases h
    · rename_i s1 r hs
      rw [Option.map_eq_some_iff] at h
      obtain ⟨⟨s2, rs'⟩, h1, h2⟩ := h
      simp only [Prod.mk.injEq] at h2
      obtain ⟨rfl, rfl⟩ := h2
      obtain ⟨ps', hi', hg⟩ := step_ok hi hs
      exact hg _ _ (ih _ _ _ _ hi' h1)

theorem inv_init : Inv .init [] := ⟨by simp [St.init], rfl, by simp [St.init], by simp [St.init]⟩

/-- C37: in every defined history, users see separate pieces of storage that keep their contents until
their owner writes to them. -/
theorem stable (cs : List Cmd) (s : St) (rs : List Reply) (h : run .init cs = some (s, rs)) : Stable [] cs rs :=
  run_ok cs _ _ _ _ inv_init h

theorem run_defined (N : Nat) (cs : List Cmd) : ∀ (s : St) (ps : List (List (Option Byte))), Inv s ps →
    Obeys (s.places.map (·.2)) cs → (∀ n ∈ sizes cs, (n + 7) * N ≤ 2147483647) → s.buf.length + cs.length ≤ N →
    ∃ s' rs, run s cs = some (s', rs) := by
  induction cs with
  | nil => intro s ps _ _ _ _; exact ⟨s, [], rfl⟩
  | cons c cs ih =>
    intro s ps hi ho hn hN
    simp only [List.length_cons] at hN
    -- one step is defined and keeps the rules
    have key : ∃ s1 r, step s c = some (s1, r) ∧ Obeys (s1.places.map (·.2)) cs ∧ s1.buf.length ≤ s.buf.length + 1 := by
      have hroom : ∀ (n : Nat) (a : Bool), (n + 7) * N ≤ 2147483647 →
          (if a then roundUp8 n else n) * (s.buf.length + 1) ≤ 2147483647 := by
        intro n a h
        have h1 : (if a then roundUp8 n else n) ≤ n + 7 := by
          split
          · unfold roundUp8; omega
          · omega
        exact Nat.le_trans (Nat.mul_le_mul h1 (by omega)) h
      have hle : ∀ (n : Nat) (a : Bool), n ≤ (if a then roundUp8 n else n) := by
        intro n a
        split
        · exact le_roundUp8 n
        · omega
      cases c with
      | add ok d a =>
        obtain ⟨rfl, ho⟩ := ho
        have hsm := hroom d.length a (hn _ (by simp [sizes]))
        rcases writeHere_spec (ok := true) hi.fit hsm with ⟨e1, -⟩ | ⟨b1, p1, b, e1, e2, e3, e4, e5, -⟩
        · cases e1
        · have hb := e2 b (List.mem_of_getElem? e3)
          have hl := hle d.length a
          have hw := write_eq (p := p1) (d := d.map some) e3 (by simp; omega)
          refine ⟨⟨b1.set p1.1 { b with mem := b.mem.take p1.2 ++ d.map some ++ b.mem.drop (p1.2 + (d.map some).length) },
            s.places ++ [(p1, d.length)]⟩, .got true, ?_, ?_, ?_⟩
          · simp only [step, add, e1]
            rw [hw]
            rfl
          · simpa using ho
          · simpa using e5
      | room ok n a =>
        obtain ⟨rfl, ho⟩ := ho
        have hsm := hroom n a (hn _ (by simp [sizes]))
        rcases writeHere_spec (ok := true) hi.fit hsm with ⟨e1, -⟩ | ⟨b1, p1, b, e1, e2, e3, e4, e5, -⟩
        · cases e1
        · refine ⟨⟨b1, s.places ++ [(p1, n)]⟩, .got true, by simp only [step, add, e1], by simpa using ho, e5⟩
      | put h i x =>
        obtain ⟨⟨n, h1, h2⟩, ho⟩ := ho
        rw [List.getElem?_map, Option.map_eq_some_iff] at h1
        obtain ⟨⟨p, n'⟩, h1, rfl⟩ := h1
        obtain ⟨l, h3, h4⟩ := hi.place h1
        obtain ⟨b, h5, h6⟩ := (hi.holds h _ l h1 h3).mem hi.fit
        dsimp only at h2 h4 h5 h6
        have hw := write_eq (p := (p.1, p.2 + i)) (d := [some x]) h5 (by simp; omega)
        refine ⟨⟨s.buf.set p.1 { b with mem := b.mem.take (p.2 + i) ++ [some x] ++ b.mem.drop (p.2 + i + [some x].length) },
          s.places⟩, .done, ?_, ho, ?_⟩
        · simp only [step, h1, hw, if_pos h2]; rfl
        · simp
      | get h =>
        obtain ⟨⟨n, h1⟩, ho⟩ := ho
        rw [List.getElem?_map, Option.map_eq_some_iff] at h1
        obtain ⟨⟨p, n'⟩, h1, rfl⟩ := h1
        obtain ⟨l, h3, h4⟩ := hi.place h1
        have hr := (hi.holds h _ l h1 h3).read hi.fit
        dsimp only at h4 hr
        rw [h4] at hr
        refine ⟨s, .bytes l, ?_, ho, by omega⟩
        simp only [step, h1, hr]
        rfl
    obtain ⟨s1, r, hs, ho1, hb1⟩ := key
    obtain ⟨ps', hi', -⟩ := step_ok hi hs
    obtain ⟨s', rs, hr⟩ := ih s1 ps' hi' ho1 (fun n hn' => hn n (by
      cases c <;> simp only [sizes, List.mem_cons] <;> grind)) (by omega)
    exact ⟨s', r :: rs, by rw [run, hs]; simp [hr]⟩

/-- C37: users who stay inside what they were given never leave the storage, if sizes stay so small that
no `int` overflows. -/
theorem defined (cs : List Cmd) (ho : Obeys [] cs) (hn : ∀ n ∈ sizes cs, (n + 7) * cs.length ≤ 2147483647) :
    ∃ s rs, run .init cs = some (s, rs) ∧ Stable [] cs rs := by
  obtain ⟨s, rs, h⟩ := run_defined cs.length cs .init [] inv_init ho hn (by simp [St.init])
  exact ⟨s, rs, h, stable cs s rs h⟩

/-! ### Alignment -/

/-- C61: a place that was asked for as an aligned one starts at a multiple of eight bytes. -/
def Aligned : Prop := ∀ (cs : List Cmd) (s s' : St) (rs : List Reply) (ok : Bool) (n : Nat),
  run .init cs = some (s, rs) → step s (.room ok n true) = some (s', .got true) →
  ∃ x, s'.places.getLast? = some x ∧ x.1.2 % 8 = 0

/-- C61 is false of the code: only the size is rounded up, not the place, so an odd size that was asked
for unaligned before is enough. -/
theorem aligned_false : ¬ Aligned := by
  intro h
  have h1 : ∀ s rs s', run .init [.room true 3 false, .room true 9 false] = some (s, rs) →
      step s (.room true 1 true) = some (s', .got true) → ∃ x, s'.places.getLast? = some x ∧ x.1.2 % 8 = 0 :=
    fun s rs s' h2 h3 => h _ s s' rs true 1 h2 h3
  obtain ⟨x, hx, h8⟩ := h1 _ _ _ rfl rfl
  revert h8
  cases hx
  decide

/-- The command asks for no unaligned place. -/
def AsksAligned : Cmd → Prop
  | .add _ _ a => a = true
  | .room _ _ a => a = true
  | _ => True

theorem writeHere_aligned {ok : Bool} {bs bs' : Buf} {n : Nat} {q : Option Pos} (h : writeHere ok bs (roundUp8 n) = some (bs', q))
    (ha : ∀ b ∈ bs, b.used % 8 = 0) : (∀ b ∈ bs', b.used % 8 = 0) ∧ ∀ p, q = some p → p.2 % 8 = 0 := by
  have hr : roundUp8 n % 8 = 0 := by unfold roundUp8; omega
  unfold writeHere at h
  split at h
  · split at h
    · cases h
    · split at h
      · simp only [Option.some.injEq, Prod.mk.injEq] at h
        obtain ⟨rfl, rfl⟩ := h
        refine ⟨fun b hb => ?_, fun p hp => by cases hp; rfl⟩
        rcases List.mem_append.1 hb with hb | hb
        · exact ha b hb
        · simp at hb; subst hb; exact hr
      · simp only [Option.some.injEq, Prod.mk.injEq] at h
        obtain ⟨rfl, rfl⟩ := h
        exact ⟨ha, fun p hp => by cases hp⟩
  · split at h
    · simp only [Option.some.injEq, Prod.mk.injEq] at h
      obtain ⟨rfl, rfl⟩ := h
      exact ⟨ha, fun p hp => by cases hp⟩
    · rename_i l hl
      simp only [Option.some.injEq, Prod.mk.injEq] at h
      obtain ⟨rfl, rfl⟩ := h
      have hm := ha l (List.mem_of_getLast? hl)
      refine ⟨fun b hb => ?_, fun p hp => by cases hp; exact hm⟩
      rcases List.mem_append.1 hb with hb | hb
      · exact ha b ((List.dropLast_sublist _).subset hb)
      · simp at hb; subst hb; dsimp only; omega

theorem write_aligned {bs bs' : Buf} {p : Pos} {d : List (Option Byte)} (h : write bs p d = some bs')
    (ha : ∀ b ∈ bs, b.used % 8 = 0) : ∀ b ∈ bs', b.used % 8 = 0 := by
  unfold write at h
  split at h
  · cases h
  · rename_i b hb
    split at h
    · cases h
      intro x hx
      rcases List.mem_or_eq_of_mem_set hx with hx | hx
      · exact ha x hx
      · subst hx; exact ha b (List.mem_of_getElem? hb)
    · cases h

theorem step_aligned {s s' : St} {c : Cmd} {r : Reply} (h : step s c = some (s', r)) (hc : AsksAligned c)
    (ha : ∀ b ∈ s.buf, b.used % 8 = 0) (hp : ∀ x ∈ s.places, x.1.2 % 8 = 0) :
    (∀ b ∈ s'.buf, b.used % 8 = 0) ∧ ∀ x ∈ s'.places, x.1.2 % 8 = 0 := by
  cases c with
  | add ok d a =>
    simp only [AsksAligned] at hc
    subst hc
    simp only [step, add, if_pos] at h
    cases hw : writeHere ok s.buf (roundUp8 d.length) with
    | none => rw [hw] at h; cases h
    | some q =>
      obtain ⟨bs, q⟩ := q
      obtain ⟨h1, h2⟩ := writeHere_aligned hw ha
      rw [hw] at h
      cases q with
      | none => simp only [Option.some.injEq, Prod.mk.injEq] at h; obtain ⟨rfl, -⟩ := h; exact ⟨h1, hp⟩
      | some p =>
        dsimp only at h
        cases hwr : write bs p (d.map some) with
        | none => rw [hwr] at h; cases h
        | some b2 =>
          rw [hwr] at h
          simp only [Option.map_some, Option.some.injEq, Prod.mk.injEq] at h
          obtain ⟨rfl, -⟩ := h
          refine ⟨write_aligned hwr h1, fun x hx => ?_⟩
          rcases List.mem_append.1 hx with hx | hx
          · exact hp x hx
          · simp at hx; subst hx; exact h2 p rfl
  | room ok n a =>
    simp only [AsksAligned] at hc
    subst hc
    simp only [step, add, if_pos] at h
    cases hw : writeHere ok s.buf (roundUp8 n) with
    | none => rw [hw] at h; cases h
    | some q =>
      obtain ⟨bs, q⟩ := q
      obtain ⟨h1, h2⟩ := writeHere_aligned hw ha
      rw [hw] at h
      cases q with
      | none => simp only [Option.some.injEq, Prod.mk.injEq] at h; obtain ⟨rfl, -⟩ := h; exact ⟨h1, hp⟩
      | some p =>
        simp only [Option.some.injEq, Prod.mk.injEq] at h
        obtain ⟨rfl, -⟩ := h
        refine ⟨h1, fun x hx => ?_⟩
        rcases List.mem_append.1 hx with hx | hx
        · exact hp x hx
        · simp at hx; subst hx; exact h2 p rfl
  | put i j x =>
    simp only [step] at h
    split at h
    · cases h
    · rename_i p n _
      split at h
      · rw [Option.map_eq_some_iff] at h
        obtain ⟨b2, h1, h2⟩ := h
        simp only [Prod.mk.injEq] at h2
        obtain ⟨rfl, -⟩ := h2
        exact ⟨write_aligned h1 ha, hp⟩
      · cases h
  | get i =>
    simp only [step] at h
    split at h
    · cases h
    · rw [Option.map_eq_some_iff] at h
      obtain ⟨b2, h1, h2⟩ := h
      simp only [Prod.mk.injEq] at h2
      obtain ⟨rfl, -⟩ := h2
      exact ⟨ha, hp⟩

theorem run_aligned (cs : List Cmd) : ∀ (s s' : St) (rs : List Reply), run s cs = some (s', rs) → (∀ c ∈ cs, AsksAligned c) →
    (∀ b ∈ s.buf, b.used % 8 = 0) → (∀ x ∈ s.places, x.1.2 % 8 = 0) →
    (∀ b ∈ s'.buf, b.used % 8 = 0) ∧ ∀ x ∈ s'.places, x.1.2 % 8 = 0 := by
  induction cs with
  | nil =>
    intro s s' rs h _ h1 h2
    simp only [run, Option.some.injEq, Prod.mk.injEq] at h
    obtain ⟨rfl, -⟩ := h
    exact ⟨h1, h2⟩
  | cons c cs ih =>
    intro s s' rs h hc h1 h2
    rw [run] at h
    split at h
    · cases h
    · rename_i s1 r hs
      rw [Option.map_eq_some_iff] at h
      obtain ⟨⟨s2, rs'⟩, h3, h4⟩ := h
      simp only [Prod.mk.injEq] at h4
      obtain ⟨rfl, rfl⟩ := h4
      obtain ⟨h5, h6⟩ := step_aligned hs (hc c (by simp)) h1 h2
      exact ih _ _ _ h3 (fun c hc' => hc c (by simp [hc'])) h5 h6

/-- C61 for storage in which every place is asked for as an aligned one, as all users do who need it. -/
theorem aligned_partial (cs : List Cmd) (s : St) (rs : List Reply) (h : run .init cs = some (s, rs))
    (hc : ∀ c ∈ cs, AsksAligned c) : ∀ x ∈ s.places, x.1.2 % 8 = 0 :=
  (run_aligned cs _ _ _ h hc (by simp [St.init]) (by simp [St.init])).2

/-! ### Cases -/

example : ∃ s rs, run .init [.add true (str "ab") false, .room true 20 true, .put 0 1 99, .add true (str "xyz") false,
    .put 1 7 5, .get 0, .get 2] = some (s, rs) ∧
    rs = [.got true, .got true, .done, .got true, .done, .bytes [some 97, some 99], .bytes ((str "xyz").map some)] :=
  ⟨_, _, rfl, by decide +kernel⟩

example : Obeys [] [.add true (str "ab") false, .room true 20 true, .put 0 1 99, .get 0] :=
  ⟨rfl, rfl, ⟨2, rfl, by decide⟩, ⟨2, rfl⟩, trivial⟩

example : ∀ c ∈ [Cmd.add true (str "ab") true, .room true 20 true, .put 0 1 99, .get 0], AsksAligned c := by
  simp [AsksAligned]

end Verif.StableBuffer
