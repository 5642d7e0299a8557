import Verif.Spec.Reload

namespace Verif.Reload
variable {α : Type}

/-- The new object a thread holds. -/
def PC.own : PC α → Option Nat
  | .building r _ => some r
  | .writing r => some r
  | .replacing r => some r
  | _ => none

/-- The thread holds the lock for writing. -/
def PC.writes : PC α → Bool
  | .writing _ | .replacing _ | .replaced => true
  | _ => false

def PC.reads : PC α → Bool
  | .reading .. => true
  | _ => false

/-- An object and the threads of its own. -/
structure ObjOK (o : Obj α) : Prop where
  work : o.work = true → o.live = true ∧ o.inner = true
  sweep : o.sweep = true → o.live = true ∧ o.inner = true
  fresh : o.dropped = false → o.live = true ∧ o.inner = true
  server : o.server = false → o.dropped = true

/-- What a thread is doing fits. -/
def PCOK (heap : Nat → Option (Obj α)) (cur : Option Nat) (pubs wanted : List (List α)) : PC α → Prop
  | .idle => True
  | .tested n => n ≤ pubs.length ∧ pubs ≠ []
  | .reading n p seen => n ≤ pubs.length ∧ cur ≠ none ∧ (p = none ∨ p = some cur) ∧ ∀ x ∈ seen, pubs.getLast? = some x
  | .building r todo => ∃ o, heap r = some o ∧ o.dropped = false ∧ cur ≠ some r ∧ o.lines ++ todo ∈ wanted
  | .writing r => ∃ o, heap r = some o ∧ o.dropped = false ∧ cur ≠ some r ∧ o.lines ∈ wanted
  | .replacing r => ∃ o, heap r = some o ∧ o.dropped = false ∧ cur ≠ some r ∧ o.lines ∈ wanted
  | .replaced => cur ≠ none

structure Inv (m : Mode) (s : St α) : Prop where
  objs : ∀ r o, s.heap r = some o → ObjOK o
  modules : ∀ r o, s.heap r = some o → m.modules = true → o.server = true → o.work = true ∧ o.sweep = true
  bound : ∀ r o, s.heap r = some o → r < s.next
  pcs : ∀ t, PCOK s.heap s.cur s.pubs s.wanted (s.pc t)
  own : ∀ t t' r, (s.pc t).own = some r → (s.pc t').own = some r → t = t'
  writer : ∀ t, (s.pc t).writes = true ↔ s.writer = some t
  readers : ∀ t, (s.pc t).reads = true ↔ t ∈ s.readers
  nodup : s.readers.Nodup
  excl : s.writer ≠ none → s.readers = []
  cur : ∀ c, s.cur = some c → (∀ t r, s.pc t ≠ .replacing r) →
    ∃ o, s.heap c = some o ∧ o.dropped = false ∧ s.pubs.getLast? = some o.lines
  absent : s.cur = none → s.pubs = [] ∨ (m.nulls = true ∧ s.writer ≠ none)
  first : m.test = true ∨ s.pubs ≠ []
  pubs : ∀ v ∈ s.pubs, v ∈ s.wanted
  log : ∀ l ∈ s.log, l.OneVersion s.pubs ∧ (l.absent = true → l.seen = [] ∧ (l.start = 0 ∨ m.nulls = true))
  born : s.pubs = [] → s.cur = none
  curLt : ∀ c, s.cur = some c → c < s.next

/-- Only the place of a thread changes. -/
theorem inv_pc {m : Mode} {s : St α} {t : Nat} {p : PC α} (h : Inv m s)
    (hp : PCOK s.heap s.cur s.pubs s.wanted p) (ho : p.own = (s.pc t).own ∨ p.own = none)
    (hw : p.writes = (s.pc t).writes) (hr : p.reads = (s.pc t).reads)
    (hn : (∀ r, s.pc t ≠ .replacing r)) : Inv m (s.setPC t p) := by
  obtain ⟨h1, h2, h3, h4, h5, h6, h7, h8, h9, h10, h11, h12, h13, h14, h16, h15⟩ := h
  refine ⟨h1, h2, h3, ?_, ?_, ?_, ?_, h8, h9, ?_, h11, h12, h13, h14, h16, h15⟩
  · intro t'
    simp only [St.setPC]
    split
    · exact hp
    · exact h4 t'
  · simp only [St.setPC]; grind
  · simp only [St.setPC]; grind
  · simp only [St.setPC]; grind
  · simp only [St.setPC]
    intro c hc hx
    apply h10 c hc
    intro t' r
    by_cases ht : t' = t
    · rw [ht]; exact hn r
    · simpa [ht] using hx t' r

theorem test_ok {m : Mode} {s : St α} {t : Nat} {out} (h : Inv m s) (e : step m s t .test = some out) :
    ∃ s', out = .next s' ∧ Inv m s' := by
  simp only [step] at e
  split at e <;> try contradiction
  rename_i hp
  have key : s.pubs ≠ [] → Inv m (s.setPC t (.tested s.pubs.length)) := by
    intro hc
    apply inv_pc h
    · exact ⟨Nat.le_refl _, hc⟩
    · simp [PC.own]
    · simp [hp, PC.writes]
    · simp [hp, PC.reads]
    · simp [hp]
  split at e
  · split at e <;> simp only [Option.some.injEq] at e
    · obtain ⟨h1, h2, h3, h4, h5, h6, h7, h8, h9, h10, h11, h12, h13, h14, h16, h15⟩ := h
      refine ⟨_, e.symm, ⟨h1, h2, h3, h4, h5, h6, h7, h8, h9, h10, h11, h12, h13, ?_, h16, h15⟩⟩
      intro l hl
      simp only [List.mem_append, List.mem_singleton] at hl
      rcases hl with hl | rfl
      · exact h14 l hl
      · refine ⟨⟨Nat.le_refl _, Nat.le_refl _, fun h => absurd rfl h⟩, fun _ => ⟨rfl, ?_⟩⟩
        rcases h11 ‹_› with h | h
        · exact Or.inl (by simp [h])
        · exact Or.inr h.1
    · exact ⟨_, e.symm, key (fun hn => by have := h.born hn; simp_all)⟩
  · simp only [Option.some.injEq] at e
    exact ⟨_, e.symm, key (by have := h.first; simp_all)⟩

theorem rdlock_ok {m : Mode} {s : St α} {t : Nat} {out} (h : Inv m s) (e : step m s t .rdlock = some out) :
    ∃ s', out = .next s' ∧ Inv m s' := by
  simp only [step] at e
  split at e <;> try contradiction
  rename_i n hp
  split at e <;> try contradiction
  rename_i hc
  simp only [Option.some.injEq] at e
  refine ⟨_, e.symm, ?_⟩
  obtain ⟨h1, h2, h3, h4, h5, h6, h7, h8, h9, h10, h11, h12, h13, h14, h16, h15⟩ := h
  have ht := h4 t
  rw [hp] at ht
  have hnr : t ∉ s.readers := by
    intro hm
    have := (h7 t).2 hm
    simp [hp, PC.reads] at this
  refine ⟨h1, h2, h3, ?_, ?_, ?_, ?_, ?_, ?_, ?_, h11, h12, h13, h14, h16, h15⟩ <;> simp only [St.setPC]
  · intro t'
    split
    · refine ⟨ht.1, fun hn => ?_, Or.inl rfl, by simp⟩
      rcases h11 hn with h | h
      · exact ht.2 h
      · exact h.2 hc.1
    · exact h4 t'
  · grind [PC.own]
  · grind [PC.writes]
  · grind [PC.reads]
  · exact List.nodup_cons.2 ⟨hnr, h8⟩
  · simp [hc.1]
  · intro c hc' hx
    apply h10 c hc'
    intro t' r
    by_cases ht : t' = t
    · rw [ht, hp]; simp
    · simpa [ht] using hx t' r

/-- While someone reads, nobody is replacing. -/
theorem reading_cur {m : Mode} {s : St α} {t : Nat} (h : Inv m s) {n p seen} (hp : s.pc t = .reading n p seen) :
    ∃ c o, s.cur = some c ∧ s.heap c = some o ∧ o.dropped = false ∧ s.pubs.getLast? = some o.lines := by
  have hm : t ∈ s.readers := (h.readers t).1 (by simp [hp, PC.reads])
  have hw : s.writer = none := by
    cases hw : s.writer with
    | none => rfl
    | some w =>
      have := h.excl (by simp [hw])
      rw [this] at hm
      simp at hm
  have hnr : ∀ t r, s.pc t ≠ .replacing r := by
    intro t' r hr
    have := (h.writer t').1 (by simp [hr, PC.writes])
    simp [hw] at this
  have := h.pcs t
  rw [hp] at this
  cases hc : s.cur with
  | none => simp [hc, PCOK] at this
  | some c =>
    obtain ⟨o, ho⟩ := h.cur c hc hnr
    exact ⟨c, o, rfl, ho⟩

theorem load_ok {m : Mode} {s : St α} {t : Nat} {out} (h : Inv m s) (e : step m s t .load = some out) :
    ∃ s', out = .next s' ∧ Inv m s' := by
  simp only [step] at e
  split at e <;> try contradiction
  rename_i n p seen hp
  simp only [Option.some.injEq] at e
  refine ⟨_, e.symm, ?_⟩
  have ht := h.pcs t
  rw [hp] at ht
  apply inv_pc h
  · exact ⟨ht.1, ht.2.1, Or.inr rfl, ht.2.2.2⟩
  · simp [PC.own]
  · simp [hp, PC.writes]
  · simp [hp, PC.reads]
  · simp [hp]

theorem access_ok {m : Mode} {s : St α} {t : Nat} {out} (h : Inv m s) (e : step m s t .access = some out) :
    ∃ s', out = .next s' ∧ Inv m s' := by
  simp only [step] at e
  split at e <;> try contradiction
  rename_i n p seen hp
  have ht := h.pcs t
  rw [hp] at ht
  obtain ⟨c, o, hc, ho, hd, hl⟩ := reading_cur h hp
  have hpc : p = s.cur := by simpa [PCOK] using ht.2.2.1
  rw [hpc, hc] at e
  simp only [Option.bind_some, ho, ((h.objs c o ho).fresh hd).1, if_true, Option.some.injEq] at e
  refine ⟨_, e.symm, ?_⟩
  apply inv_pc h
  · refine ⟨ht.1, ht.2.1, Or.inr (by rw [hc]), ?_⟩
    intro x hx
    simp only [List.mem_append, List.mem_singleton] at hx
    rcases hx with hx | rfl
    · exact ht.2.2.2 x hx
    · exact hl
  · simp [PC.own]
  · simp [hp, PC.writes]
  · simp [hp, PC.reads]
  · simp [hp]

theorem send_ok {m : Mode} {s : St α} {t : Nat} {out} (h : Inv m s) (e : step m s t .send = some out) :
    ∃ s', out = .next s' ∧ Inv m s' := by
  simp only [step] at e
  split at e <;> try contradiction
  rename_i n p seen hp
  have ht := h.pcs t
  rw [hp] at ht
  obtain ⟨c, o, hc, ho, hd, hl⟩ := reading_cur h hp
  have hpc : p = s.cur := by simpa [PCOK] using ht.2.2.1
  rw [hpc, hc] at e
  split at e <;> try contradiction
  have := (h.objs c o ho).fresh hd
  simp only [Option.bind_some, ho, this.1, this.2, and_self, if_true, Option.some.injEq] at e
  exact ⟨_, e.symm, h⟩

theorem getLast_get {β : Type} {l : List β} {x : β} (h : l.getLast? = some x) : l[l.length - 1]? = some x := by
  rw [List.getLast?_eq_getElem?] at h
  exact h

theorem unlock_ok {m : Mode} {s : St α} {t : Nat} {out} (h : Inv m s) (e : step m s t .unlock = some out) :
    ∃ s', out = .next s' ∧ Inv m s' := by
  simp only [step] at e
  split at e <;> try contradiction
  rename_i n p seen hp
  simp only [Option.some.injEq] at e
  refine ⟨_, e.symm, ?_⟩
  obtain ⟨h1, h2, h3, h4, h5, h6, h7, h8, h9, h10, h11, h12, h13, h14, h16, h15⟩ := h
  have ht := h4 t
  rw [hp] at ht
  refine ⟨h1, h2, h3, ?_, ?_, ?_, ?_, ?_, ?_, ?_, h11, h12, h13, ?_, h16, h15⟩ <;> simp only [St.setPC]
  · intro t'
    split
    · trivial
    · exact h4 t'
  · grind [PC.own]
  · grind [PC.writes]
  · intro t'
    by_cases ht' : t' = t
    · subst ht'
      simp [PC.reads, List.Nodup.mem_erase_iff h8]
    · simp [ht', h7, List.Nodup.mem_erase_iff h8]
  · exact h8.erase t
  · intro hw
    rw [h9 hw]; rfl
  · intro c hc' hx
    apply h10 c hc'
    intro t' r
    by_cases ht : t' = t
    · rw [ht, hp]; simp
    · simpa [ht] using hx t' r
  · intro l hl
    simp only [List.mem_append, List.mem_singleton] at hl
    rcases hl with hl | rfl
    · exact h14 l hl
    · refine ⟨⟨ht.1, Nat.le_refl _, ?_⟩, by simp⟩
      intro hs
      dsimp only at hs ⊢
      obtain ⟨x, xs, rfl⟩ := List.exists_cons_of_ne_nil hs
      have hx := ht.2.2.2 x (by simp)
      have hpos : 1 ≤ s.pubs.length := by
        cases hpb : s.pubs with
        | nil => simp [hpb] at hx
        | cons a b => simp
      refine ⟨s.pubs.length, x, ht.1, Nat.le_refl _, hpos, getLast_get hx, ?_⟩
      intro y hy
      have := ht.2.2.2 y hy
      rw [hx] at this
      exact (Option.some.inj this).symm

theorem start_ok {m : Mode} {s : St α} {t : Nat} {ls out} (h : Inv m s) (e : step m s t (.start ls) = some out) :
    ∃ s', out = .next s' ∧ Inv m s' := by
  simp only [step] at e
  split at e <;> try contradiction
  rename_i hp
  simp only [Option.some.injEq] at e
  refine ⟨_, e.symm, ?_⟩
  obtain ⟨h1, h2, h3, h4, h5, h6, h7, h8, h9, h10, h11, h12, h13, h14, h16, h15⟩ := h
  have hfree : s.heap s.next = none := by
    cases hh : s.heap s.next with
    | none => rfl
    | some o => exact absurd (h3 _ _ hh) (by omega)
  have hold : ∀ {r o}, s.heap r = some o → r ≠ s.next := by
    intro r o hr hc
    rw [hc, hfree] at hr
    cases hr
  have hown : ∀ {t r}, (s.pc t).own = some r → r ≠ s.next := by
    intro t r ho
    have := h4 t
    cases hpt : s.pc t <;> simp only [hpt, PC.own, Option.some.injEq, reduceCtorEq] at ho <;> rw [hpt] at this <;>
      subst ho <;> exact hold this.choose_spec.1
  have hcur : s.cur ≠ some s.next := by
    intro hc
    have := h15 _ hc
    omega
  refine ⟨?_, ?_, ?_, ?_, ?_, ?_, ?_, h8, h9, ?_, h11, h12, ?_, h14, h16, ?_⟩ <;> simp only [St.setPC, St.setObj]
  · intro r o hr
    split at hr
    · cases hr; constructor <;> simp [newObj]
    · exact h1 r o hr
  · intro r o hr
    split at hr
    · cases hr; intro hm; simp [newObj, hm]
    · exact h2 r o hr
  · intro r o hr
    split at hr
    · omega
    · have := h3 r o hr; omega
  · intro t'
    split
    · refine ⟨newObj m, by simp, rfl, hcur, ?_⟩
      simp [newObj]
    · have := h4 t'
      cases hpt : s.pc t' with
      | idle => trivial
      | replaced => rw [hpt] at this; exact this
      | tested n => rw [hpt] at this; exact this
      | reading n p seen => rw [hpt] at this; exact this
      | building r todo =>
        rw [hpt] at this
        obtain ⟨o, ho, hd, hc, hw⟩ := this
        exact ⟨o, by simp [hold ho, ho], hd, hc, by simp [hw]⟩
      | writing r =>
        rw [hpt] at this
        obtain ⟨o, ho, hd, hc, hw⟩ := this
        exact ⟨o, by simp [hold ho, ho], hd, hc, by simp [hw]⟩
      | replacing r =>
        rw [hpt] at this
        obtain ⟨o, ho, hd, hc, hw⟩ := this
        exact ⟨o, by simp [hold ho, ho], hd, hc, by simp [hw]⟩
  · intro t1 t2 r
    have a1 := @hown t1 r
    have a2 := @hown t2 r
    have a3 := h5 t1 t2 r
    grind [PC.own]
  · grind [PC.writes]
  · grind [PC.reads]
  · intro c hc' hx
    have : ∀ t' r, s.pc t' ≠ .replacing r := by
      intro t' r
      by_cases ht : t' = t
      · rw [ht, hp]; simp
      · simpa [ht] using hx t' r
    obtain ⟨o, ho, hr⟩ := h10 c hc' this
    exact ⟨o, by simp [hold ho, ho], hr⟩
  · intro v hv
    exact List.mem_append_left _ (h13 v hv)
  · intro c hc
    have := h15 c hc
    omega

/-- A thread that replaces the current one holds the lock. -/
theorem writer_of_replacing {m : Mode} {s : St α} (h : Inv m s) {t r} (hp : s.pc t = .replacing r) : s.writer = some t :=
  (h.writer t).1 (by simp [hp, PC.writes])

theorem no_readers {m : Mode} {s : St α} (h : Inv m s) {t} (hw : s.writer = some t) : ∀ t', (s.pc t').reads = false := by
  intro t'
  have := h.excl (by simp [hw])
  cases hr : (s.pc t').reads with
  | false => rfl
  | true =>
    have := (h.readers t').1 hr
    simp_all

theorem pcok_own {heap : Nat → Option (Obj α)} {cur pubs wanted} {p : PC α} {r : Nat}
    (h : PCOK heap cur pubs wanted p) (ho : p.own = some r) : ∃ o, heap r = some o ∧ o.dropped = false ∧ cur ≠ some r := by
  cases p <;> simp only [PC.own, Option.some.injEq, reduceCtorEq] at ho <;> subst ho <;>
    exact ⟨h.choose, h.choose_spec.1, h.choose_spec.2.1, h.choose_spec.2.2.1⟩

theorem pcok_congr {heap heap' : Nat → Option (Obj α)} {cur pubs wanted} {p : PC α}
    (h : PCOK heap cur pubs wanted p)
    (hh : ∀ r o, p.own = some r → heap r = some o → ∃ o', heap' r = some o' ∧ o'.dropped = o.dropped ∧ o'.lines = o.lines) :
    PCOK heap' cur pubs wanted p := by
  cases p with
  | idle => trivial
  | replaced => exact h
  | tested n => exact h
  | reading n p seen => exact h
  | building r todo =>
    obtain ⟨o, ho, hd, hc, hw⟩ := h
    obtain ⟨o', ho', hd', hl'⟩ := hh r o rfl ho
    exact ⟨o', ho', by rw [hd', hd], hc, by rw [hl']; exact hw⟩
  | writing r =>
    obtain ⟨o, ho, hd, hc, hw⟩ := h
    obtain ⟨o', ho', hd', hl'⟩ := hh r o rfl ho
    exact ⟨o', ho', by rw [hd', hd], hc, by rw [hl']; exact hw⟩
  | replacing r =>
    obtain ⟨o, ho, hd, hc, hw⟩ := h
    obtain ⟨o', ho', hd', hl'⟩ := hh r o rfl ho
    exact ⟨o', ho', by rw [hd', hd], hc, by rw [hl']; exact hw⟩

/-- The inside of an object changes. -/
theorem inv_obj {m : Mode} {s : St α} {r : Nat} {o o' : Obj α} (h : Inv m s) (ho : s.heap r = some o)
    (hd : o'.dropped = o.dropped) (hl : o'.lines = o.lines) (hok : ObjOK o')
    (hm : m.modules = true → o'.server = true → o'.work = true ∧ o'.sweep = true) : Inv m (s.setObj r o') := by
  obtain ⟨h1, h2, h3, h4, h5, h6, h7, h8, h9, h10, h11, h12, h13, h14, h16, h15⟩ := h
  have hh : ∀ r' a, s.heap r' = some a →
      ∃ a', (if r' = r then some o' else s.heap r') = some a' ∧ a'.dropped = a.dropped ∧ a'.lines = a.lines := by
    intro r' a ha
    by_cases hr : r' = r
    · subst hr
      rw [ho] at ha; cases ha
      exact ⟨o', by simp, hd, hl⟩
    · exact ⟨a, by simp [hr, ha], rfl, rfl⟩
  refine ⟨?_, ?_, ?_, ?_, h5, h6, h7, h8, h9, ?_, h11, h12, h13, h14, h16, h15⟩ <;> simp only [St.setObj]
  · intro r' a ha
    split at ha
    · cases ha; exact hok
    · exact h1 r' a ha
  · intro r' a ha
    split at ha
    · cases ha; exact hm
    · exact h2 r' a ha
  · intro r' a ha
    split at ha
    · rename_i hr; rw [hr]; exact h3 r o ho
    · exact h3 r' a ha
  · intro t
    exact pcok_congr (h4 t) (fun r' a _ => hh r' a)
  · intro c hc hx
    obtain ⟨a, ha, hda, hla⟩ := h10 c hc hx
    obtain ⟨a', ha', hd', hl'⟩ := hh c a ha
    exact ⟨a', ha', by rw [hd', hda], by rw [hl', hla]⟩

theorem stop_ok {m : Mode} {s : St α} {t : Nat} {r out} (h : Inv m s) (e : step m s t (.stop r) = some out) :
    ∃ s', out = .next s' ∧ Inv m s' := by
  simp only [step] at e
  split at e <;> try contradiction
  rename_i o ho
  split at e <;> try contradiction
  split at e <;> try contradiction
  rename_i hc _
  simp only [Option.some.injEq] at e
  refine ⟨_, e.symm, inv_obj h ho rfl rfl ?_ (by simp)⟩
  have := h.objs r o ho
  exact ⟨this.work, this.sweep, this.fresh, fun _ => hc.2⟩

theorem free_ok {m : Mode} {s : St α} {t : Nat} {r out} (h : Inv m s) (e : step m s t (.free r) = some out) :
    ∃ s', out = .next s' ∧ Inv m s' := by
  simp only [step] at e
  split at e <;> try contradiction
  rename_i o ho
  split at e <;> try contradiction
  rename_i hc
  simp only [Option.some.injEq] at e
  obtain ⟨hm, hd, hl, hw, hs⟩ := hc
  refine ⟨_, e.symm, inv_obj h ho rfl rfl ?_ ?_⟩
  · have := h.objs r o ho
    exact ⟨by simp [hw], by simp [hs], by simp [hd], this.server⟩
  · exact h.modules r o ho

theorem workUse_ok {m : Mode} {s : St α} {t : Nat} {r out} (h : Inv m s) (e : step m s t (.workUse r) = some out) :
    ∃ s', out = .next s' ∧ Inv m s' := by
  simp only [step] at e
  split at e <;> try contradiction
  rename_i o ho
  split at e <;> try contradiction
  rename_i hc
  have := (h.objs r o ho).work hc
  simp only [this.1, this.2, and_self, if_true, Option.some.injEq] at e
  exact ⟨_, e.symm, h⟩

theorem sweepUse_ok {m : Mode} {s : St α} {t : Nat} {r out} (h : Inv m s) (e : step m s t (.sweepUse r) = some out) :
    ∃ s', out = .next s' ∧ Inv m s' := by
  simp only [step] at e
  split at e <;> try contradiction
  rename_i o ho
  split at e <;> try contradiction
  rename_i hc
  have := (h.objs r o ho).sweep hc
  simp only [this.1, this.2, and_self, if_true, Option.some.injEq] at e
  exact ⟨_, e.symm, h⟩

theorem workEnd_ok {m : Mode} {s : St α} {t : Nat} {r out} (h : Inv m s) (e : step m s t (.workEnd r) = some out) :
    ∃ s', out = .next s' ∧ Inv m s' := by
  simp only [step] at e
  split at e <;> try contradiction
  rename_i o ho
  split at e <;> try contradiction
  rename_i hc
  have hx := h.objs r o ho
  have := hx.work hc.1
  simp only [this.1, if_true, Option.some.injEq] at e
  refine ⟨_, e.symm, inv_obj h ho rfl rfl ?_ ?_⟩
  · exact ⟨by simp, fun hh => ⟨rfl, (hx.sweep hh).2⟩, fun hh => ⟨rfl, (hx.fresh hh).2⟩, hx.server⟩
  · simp [hc.2]

theorem sweepEnd_ok {m : Mode} {s : St α} {t : Nat} {r out} (h : Inv m s) (e : step m s t (.sweepEnd r) = some out) :
    ∃ s', out = .next s' ∧ Inv m s' := by
  simp only [step] at e
  split at e <;> try contradiction
  rename_i o ho
  split at e <;> try contradiction
  rename_i hc
  have hx := h.objs r o ho
  have := hx.sweep hc.1
  simp only [this.1, if_true, Option.some.injEq] at e
  refine ⟨_, e.symm, inv_obj h ho rfl rfl ?_ ?_⟩
  · exact ⟨by simp [hc.2.1], by simp, by simp [hx.server hc.2.2], hx.server⟩
  · simp [hc.2.2]

theorem add_ok {m : Mode} {s : St α} {t : Nat} {out} (h : Inv m s) (e : step m s t .add = some out) :
    ∃ s', out = .next s' ∧ Inv m s' := by
  simp only [step] at e
  split at e <;> try contradiction
  rename_i r x todo hp
  have ht := h.pcs t
  rw [hp] at ht
  obtain ⟨o, ho, hd, hcr, hw⟩ := ht
  simp only [ho, ((h.objs r o ho).fresh hd).1, if_true, Option.some.injEq] at e
  refine ⟨_, e.symm, ?_⟩
  obtain ⟨h1, h2, h3, h4, h5, h6, h7, h8, h9, h10, h11, h12, h13, h14, h16, h15⟩ := h
  refine ⟨?_, ?_, ?_, ?_, ?_, ?_, ?_, h8, h9, ?_, h11, h12, h13, h14, h16, h15⟩ <;> simp only [St.setPC, St.setObj]
  · intro r' a ha
    split at ha
    · cases ha; have := h1 r o ho; exact ⟨fun hh => ⟨rfl, (this.work hh).2⟩, fun hh => ⟨rfl, (this.sweep hh).2⟩, fun hh => ⟨rfl, (this.fresh hh).2⟩, this.server⟩
    · exact h1 r' a ha
  · intro r' a ha
    split at ha
    · cases ha; exact h2 r o ho
    · exact h2 r' a ha
  · intro r' a ha
    split at ha
    · rename_i hr; rw [hr]; exact h3 r o ho
    · exact h3 r' a ha
  · intro t'
    split
    · exact ⟨{ o with lines := o.lines ++ [x], live := true }, by simp, hd, hcr, by simpa using hw⟩
    · rename_i hne
      refine pcok_congr (h4 t') ?_
      intro r' a hown ha
      have : r' ≠ r := by
        intro hr
        subst hr
        exact hne (h5 t' t r' hown (by simp [hp, PC.own]))
      exact ⟨a, by simp [this, ha], rfl, rfl⟩
  · grind [PC.own]
  · grind [PC.writes]
  · grind [PC.reads]
  · intro c hc hx
    have : ∀ t' r, s.pc t' ≠ .replacing r := by
      intro t' r
      by_cases ht : t' = t
      · rw [ht, hp]; simp
      · simpa [ht] using hx t' r
    obtain ⟨a, ha, hrest⟩ := h10 c hc this
    have hne : c ≠ r := by
      intro hcc; rw [hc, hcc] at hcr; exact hcr rfl
    exact ⟨a, by simp [hne, ha], hrest⟩

theorem fail_ok {m : Mode} {s : St α} {t : Nat} {out} (hm : m.modules = false) (h : Inv m s)
    (hnw : ∀ r o, s.heap r = some o → o.work = false ∧ o.sweep = false) (e : step m s t .fail = some out) :
    ∃ s', out = .next s' ∧ Inv m s' := by
  simp only [step] at e
  split at e <;> try contradiction
  rename_i r todo hp
  have ht := h.pcs t
  rw [hp] at ht
  obtain ⟨o, ho, hd, hcr, hw⟩ := ht
  simp only [ho, Option.some.injEq] at e
  refine ⟨_, e.symm, ?_⟩
  obtain ⟨h1, h2, h3, h4, h5, h6, h7, h8, h9, h10, h11, h12, h13, h14, h16, h15⟩ := h
  refine ⟨?_, ?_, ?_, ?_, ?_, ?_, ?_, h8, h9, ?_, h11, h12, h13, h14, h16, h15⟩ <;> simp only [St.setPC, St.setObj]
  · intro r' a ha
    split at ha
    · cases ha
      have := hnw r o ho
      exact ⟨by simp [this], by simp [this], by simp, by simp⟩
    · exact h1 r' a ha
  · simp [hm]
  · intro r' a ha
    split at ha
    · rename_i hr; rw [hr]; exact h3 r o ho
    · exact h3 r' a ha
  · intro t'
    split
    · trivial
    · rename_i hne
      refine pcok_congr (h4 t') ?_
      intro r' a hown ha
      have : r' ≠ r := by
        intro hr
        subst hr
        exact hne (h5 t' t r' hown (by simp [hp, PC.own]))
      exact ⟨a, by simp [this, ha], rfl, rfl⟩
  · grind [PC.own]
  · grind [PC.writes]
  · grind [PC.reads]
  · intro c hc hx
    have : ∀ t' r, s.pc t' ≠ .replacing r := by
      intro t' r
      by_cases ht : t' = t
      · rw [ht, hp]; simp
      · simpa [ht] using hx t' r
    obtain ⟨a, ha, hrest⟩ := h10 c hc this
    have hne : c ≠ r := by
      intro hcc; rw [hc, hcc] at hcr; exact hcr rfl
    exact ⟨a, by simp [hne, ha], hrest⟩

theorem wrlock_ok {m : Mode} {s : St α} {t : Nat} {out} (h : Inv m s) (e : step m s t .wrlock = some out) :
    ∃ s', out = .next s' ∧ Inv m s' := by
  simp only [step] at e
  split at e <;> try contradiction
  rename_i r hp
  split at e <;> try contradiction
  rename_i hc
  simp only [Option.some.injEq] at e
  refine ⟨_, e.symm, ?_⟩
  obtain ⟨h1, h2, h3, h4, h5, h6, h7, h8, h9, h10, h11, h12, h13, h14, h16, h15⟩ := h
  have ht := h4 t
  rw [hp] at ht
  refine ⟨h1, h2, h3, ?_, ?_, ?_, ?_, h8, ?_, ?_, fun hn => (h11 hn).imp id (fun x => ⟨x.1, by simp⟩), h12, h13, h14, h16, h15⟩ <;> simp only [St.setPC]
  · intro t'
    split
    · obtain ⟨o, ho, hd, hcr, hw⟩ := ht
      exact ⟨o, ho, hd, hcr, by simpa using hw⟩
    · exact h4 t'
  · grind [PC.own]
  · grind [PC.writes]
  · grind [PC.reads]
  · intro _; exact hc.2
  · intro c hc' hx
    apply h10 c hc'
    intro t' r
    by_cases ht : t' = t
    · rw [ht, hp]; simp
    · simpa [ht] using hx t' r

theorem drop_ok {m : Mode} {s : St α} {t : Nat} {out} (h : Inv m s)
    (hnw : m.modules = false → ∀ r o, s.heap r = some o → o.work = false ∧ o.sweep = false) (e : step m s t .drop = some out) :
    ∃ s', out = .next s' ∧ Inv m s' := by
  simp only [step] at e
  split at e <;> try contradiction
  rename_i r hp
  have ht := h.pcs t
  rw [hp] at ht
  have hwr : s.writer = some t := (h.writer t).1 (by simp [hp, PC.writes])
  have hnr : ∀ t r, s.pc t ≠ .replacing r := by
    intro t' r' hr
    have := writer_of_replacing h hr
    rw [hwr] at this
    cases this
    rw [hp] at hr
    cases hr
  split at e
  · rename_i hc
    simp only [Option.some.injEq] at e
    refine ⟨_, e.symm, ?_⟩
    obtain ⟨o, ho, hd, hcr, hw⟩ := ht
    exact inv_pc h ⟨o, ho, hd, hcr, hw⟩ (by simp [PC.own, hp]) (by simp [hp, PC.writes]) (by simp [hp, PC.reads]) (by simp [hp])
  · rename_i c hc
    obtain ⟨oc, hoc, hdc, hlc⟩ := h.cur c hc hnr
    have hnoread := no_readers h hwr
    simp only [hoc, ((h.objs c oc hoc).fresh hdc).1, if_true, Option.some.injEq] at e
    refine ⟨_, e.symm, ?_⟩
    obtain ⟨h1, h2, h3, h4, h5, h6, h7, h8, h9, h10, h11, h12, h13, h14, h16, h15⟩ := h
    have hoth : ∀ t', t' ≠ t → PCOK (fun i => if i = c then some { oc with live := m.modules, dropped := true } else s.heap i)
        (if m.nulls then none else s.cur) s.pubs s.wanted (s.pc t') := by
      intro t' htt
      have base : PCOK (fun i => if i = c then some { oc with live := m.modules, dropped := true } else s.heap i) s.cur s.pubs s.wanted (s.pc t') := by
        refine pcok_congr (h4 t') ?_
        intro r' a hown ha
        obtain ⟨_, _, _, hne⟩ := pcok_own (h4 t') hown
        have : r' ≠ c := by
          intro hcc; rw [hc, hcc] at hne; exact hne rfl
        exact ⟨a, by simp [this, ha], rfl, rfl⟩
      cases hn : m.nulls with
      | false => simpa using base
      | true =>
        simp only [if_true]
        cases hq : s.pc t' with
        | idle => trivial
        | tested n => rw [hq] at base; exact base
        | reading n p seen => have := hnoread t'; simp [hq, PC.reads] at this
        | building r' todo =>
          rw [hq] at base
          obtain ⟨a, ha, hda, _, hwa⟩ := base
          exact ⟨a, ha, hda, by simp, hwa⟩
        | writing r' =>
          rw [hq] at base
          obtain ⟨a, ha, hda, _, hwa⟩ := base
          exact ⟨a, ha, hda, by simp, hwa⟩
        | replacing r' => exact absurd hq (hnr t' r')
        | replaced =>
          have := (h6 t').1 (by simp [hq, PC.writes])
          rw [hwr] at this
          cases this
          exact absurd rfl htt
    refine ⟨?_, ?_, ?_, ?_, ?_, ?_, ?_, h8, h9, ?_, ?_, h12, h13, h14, ?_, ?_⟩ <;> simp only [St.setPC, St.setObj]
    · intro r' a ha
      split at ha
      · cases ha
        have hx := h1 c oc hoc
        cases hm : m.modules with
        | false =>
          have := hnw hm c oc hoc
          exact ⟨by simp [this], by simp [this], by simp, by simp⟩
        | true => exact ⟨fun hh => ⟨rfl, (hx.work hh).2⟩, fun hh => ⟨rfl, (hx.sweep hh).2⟩, by simp, by simp⟩
      · exact h1 r' a ha
    · intro r' a ha
      split at ha
      · cases ha; exact h2 c oc hoc
      · exact h2 r' a ha
    · intro r' a ha
      split at ha
      · rename_i hr; rw [hr]; exact h3 c oc hoc
      · exact h3 r' a ha
    · intro t'
      by_cases htt : t' = t
      · rw [if_pos htt]
        obtain ⟨o, ho, hd, hcr, hw⟩ := ht
        have hne : r ≠ c := by
          intro hcc; rw [hc, hcc] at hcr; exact hcr rfl
        refine ⟨o, by simp [hne, ho], hd, ?_, hw⟩
        cases m.nulls <;> simp [hcr]
      · rw [if_neg htt]
        exact hoth t' htt
    · grind [PC.own]
    · grind [PC.writes]
    · grind [PC.reads]
    · intro c' hc' hx
      exact absurd (if_pos rfl) (hx t r)
    · intro hn
      cases hnl : m.nulls with
      | false => rw [hnl] at hn; simp [hc] at hn
      | true => exact Or.inr ⟨rfl, by simp [hwr]⟩
    · intro hn
      rw [h16 hn] at hc
      cases hc
    · intro c' hc'
      cases hnl : m.nulls with
      | false => rw [hnl] at hc'; exact h15 c' (by simpa using hc')
      | true => rw [hnl] at hc'; simp at hc'

theorem assign_ok {m : Mode} {s : St α} {t : Nat} {out} (h : Inv m s) (e : step m s t .assign = some out) :
    ∃ s', out = .next s' ∧ Inv m s' := by
  simp only [step] at e
  split at e <;> try contradiction
  rename_i r hp
  have ht := h.pcs t
  rw [hp] at ht
  obtain ⟨o, ho, hd, hcr, hw⟩ := ht
  simp only [ho, Option.some.injEq] at e
  refine ⟨_, e.symm, ?_⟩
  have hwr := writer_of_replacing h hp
  have hnr := no_readers h hwr
  have hnrep : ∀ t', t' ≠ t → ∀ r, s.pc t' ≠ .replacing r := by
    intro t' hne r' hr
    have := writer_of_replacing h hr
    rw [hwr] at this
    cases this
    exact hne rfl
  obtain ⟨h1, h2, h3, h4, h5, h6, h7, h8, h9, h10, h11, h12, h13, h14, h16, h15⟩ := h
  refine ⟨h1, h2, h3, ?_, ?_, ?_, ?_, h8, h9, ?_, ?_, ?_, ?_, ?_, ?_, ?_⟩ <;> simp only [St.setPC]
  · intro t'
    split
    · simp [PCOK]
    · rename_i hne
      have hpt := h4 t'
      have hown : (s.pc t').own ≠ some r := by
        intro hh
        exact hne (h5 t' t r hh (by simp [hp, PC.own]))
      cases hq : s.pc t' with
      | idle => trivial
      | replaced =>
        have := (h6 t').1 (by simp [hq, PC.writes])
        rw [hwr] at this
        cases this
        exact absurd rfl hne
      | tested n => rw [hq] at hpt; exact ⟨by have := hpt.1; simp; omega, by simp⟩
      | reading n p seen => have := hnr t'; simp [hq, PC.reads] at this
      | building r' todo =>
        rw [hq] at hpt hown
        obtain ⟨a, ha, hda, hca, hwa⟩ := hpt
        exact ⟨a, ha, hda, by intro hh; cases hh; exact hown rfl, hwa⟩
      | writing r' =>
        rw [hq] at hpt hown
        obtain ⟨a, ha, hda, hca, hwa⟩ := hpt
        exact ⟨a, ha, hda, by intro hh; cases hh; exact hown rfl, hwa⟩
      | replacing r' => exact absurd hq (hnrep t' hne r')
  · grind [PC.own]
  · grind [PC.writes]
  · grind [PC.reads]
  · intro c hc hx
    cases hc
    exact ⟨o, ho, hd, by simp⟩
  · simp
  · simp
  · intro v hv
    simp only [List.mem_append, List.mem_singleton] at hv
    rcases hv with hv | rfl
    · exact h13 v hv
    · exact hw
  · intro l hl
    obtain ⟨⟨a, b, d⟩, c⟩ := h14 l hl
    refine ⟨⟨a, by simp; omega, ?_⟩, c⟩
    intro hs
    obtain ⟨k, v, k1, k2, k3, k4, k5⟩ := d hs
    exact ⟨k, v, k1, k2, k3, by rw [List.getElem?_append_left (by omega)]; exact k4, k5⟩
  · simp
  · intro c hc
    cases hc
    exact h3 r o ho

theorem wunlock_ok {m : Mode} {s : St α} {t : Nat} {out} (h : Inv m s) (e : step m s t .wunlock = some out) :
    ∃ s', out = .next s' ∧ Inv m s' := by
  simp only [step] at e
  split at e <;> try contradiction
  rename_i hp
  simp only [Option.some.injEq] at e
  refine ⟨_, e.symm, ?_⟩
  have hwr : s.writer = some t := (h.writer t).1 (by simp [hp, PC.writes])
  obtain ⟨h1, h2, h3, h4, h5, h6, h7, h8, h9, h10, h11, h12, h13, h14, h16, h15⟩ := h
  refine ⟨h1, h2, h3, ?_, ?_, ?_, ?_, h8, ?_, ?_, ?_, h12, h13, h14, h16, h15⟩ <;> simp only [St.setPC]
  · intro t'
    split
    · trivial
    · exact h4 t'
  · grind [PC.own]
  · grind [PC.writes]
  · grind [PC.reads]
  · simp
  · intro c hc' hx
    apply h10 c hc'
    intro t' r
    by_cases ht : t' = t
    · rw [ht, hp]; simp
    · simpa [ht] using hx t' r
  · intro hn
    have := h4 t
    rw [hp] at this
    exact absurd hn this

/-- Only modules have threads of their own. -/
def Bare (m : Mode) (s : St α) : Prop := m.modules = false → ∀ r o, s.heap r = some o → o.work = false ∧ o.sweep = false

theorem bare_setObj {m : Mode} {s : St α} {r : Nat} {o : Obj α} (h : Bare m s)
    (ho : m.modules = false → o.work = false ∧ o.sweep = false) : Bare m (s.setObj r o) := by
  intro hm r' o' hr
  simp only [St.setObj] at hr
  split at hr
  · cases hr; exact ho hm
  · exact h hm r' o' hr

theorem bare_step {m : Mode} {s s' : St α} {t : Nat} {a : Act α} (h : Bare m s) (e : step m s t a = some (.next s')) :
    Bare m s' := by
  cases a <;> simp only [step] at e <;> (repeat' split at e) <;>
    simp only [Option.some.injEq, Out.next.injEq, reduceCtorEq] at e <;> subst e <;>
    first
      | exact h
      | exact bare_setObj (s := s) h (by grind [newObj, Bare])

theorem step_ok {m : Mode} {s : St α} {t : Nat} {a : Act α} {out} (h : Inv m s) (hb : Bare m s) (ha : Allowed m a)
    (e : step m s t a = some out) : ∃ s', out = .next s' ∧ Inv m s' := by
  cases a with
  | test => exact test_ok h e
  | rdlock => exact rdlock_ok h e
  | load => exact load_ok h e
  | access => exact access_ok h e
  | send => exact send_ok h e
  | unlock => exact unlock_ok h e
  | start l => exact start_ok h e
  | add => exact add_ok h e
  | fail => exact fail_ok ha h (hb ha) e
  | wrlock => exact wrlock_ok h e
  | drop => exact drop_ok h hb e
  | assign => exact assign_ok h e
  | wunlock => exact wunlock_ok h e
  | stop r => exact stop_ok h e
  | free r => exact free_ok h e
  | workUse r => exact workUse_ok h e
  | workEnd r => exact workEnd_ok h e
  | fatal r => exact ha.elim
  | sweepUse r => exact sweepUse_ok h e
  | sweepEnd r => exact sweepEnd_ok h e

theorem inv_init {m : Mode} {first : Option (List α)} (hf : m.test = true ∨ first ≠ none) : Inv m (init m first) := by
  cases first with
  | none =>
    simp only [ne_eq, not_true_eq_false, or_false] at hf
    constructor <;> simp [init, PC.own, PC.writes, PC.reads, PCOK, hf]
  | some l =>
    constructor <;> simp [init, PC.own, PC.writes, PC.reads, PCOK]
    · constructor <;> simp [newObj]
    · simp [newObj]
    · simp [newObj]

theorem bare_init {m : Mode} {first : Option (List α)} : Bare m (init m first) := by
  intro hm r o hr
  cases first with
  | none => simp [init] at hr
  | some l =>
    simp only [init] at hr
    split at hr
    · cases hr; simp [newObj, hm]
    · cases hr

theorem run_ok {m : Mode} : ∀ (sched : List (Nat × Act α)) {s : St α}, Inv m s → Bare m s → (∀ x ∈ sched, Allowed m x.2) →
    ∃ s', run m s sched = some s' ∧ Inv m s' ∧ Bare m s'
  | [], s, h, hb, _ => ⟨s, rfl, h, hb⟩
  | (t, a) :: as, s, h, hb, ha => by
    simp only [run]
    cases e : step m s t a with
    | none => exact run_ok as h hb (fun x hx => ha x (by simp [hx]))
    | some out =>
      obtain ⟨s', rfl, h'⟩ := step_ok h hb (ha (t, a) (by simp)) e
      exact run_ok as h' (bare_step hb e) (fun x hx => ha x (by simp [hx]))

end Verif.Reload
