import Verif.Lemmas.Answered
/-! What the events do to the alias worker and to what is handed over to it. -/

namespace Verif.Forwarder
open Msg MContext Pipeline HostsLoop Keeps

variable {Addr : Type}

/-- The header as it is handed over to the alias worker: with the identifier only. -/
def handed (m : Head Addr) : Head Addr := { m with entity := m.entity.take 2 }

theorem mgrSend_inner {e : Env} {st st' : St Addr} {x : Luck} {b : List Byte} {m h : Head Addr} {acts : List (Act Addr)} (hm : 12 ≤ m.entity.length)
    (hs : mgrSend e st x b m = some (st', h, acts)) :
    st'.loop = st.loop ∧ (st'.inner = st.inner ∨ st'.inner = st.inner ++ [handed m]) := by
  unfold mgrSend at hs
  cases hd : Pipeline.decide e st.cache x (b.drop m.entity.length) (requestTcp m) m with
  | none => rw [hd] at hs; cases hs
  | some o =>
    rw [hd] at hs
    unfold Pipeline.decide at hd
    cases o with
    | refused o => simp only [Option.some.injEq, Prod.mk.injEq] at hs; obtain ⟨rfl, _, rfl⟩ := hs; exact ⟨rfl, .inl rfl⟩
    | cache o => simp only [Option.some.injEq, Prod.mk.injEq] at hs; obtain ⟨rfl, _, rfl⟩ := hs; exact ⟨rfl, .inl rfl⟩
    | nowhere => simp only [Option.some.injEq, Prod.mk.injEq] at hs; obtain ⟨rfl, _, rfl⟩ := hs; exact ⟨rfl, .inl rfl⟩
    | hosts o =>
      simp only [Option.some.injEq, Prod.mk.injEq] at hs
      obtain ⟨rfl, _, rfl⟩ := hs
      have ho : ∃ code, Hosts.hostsGet e.fnm e.goodIp e.hosts (b.drop m.entity.length) x.handOk m = some (code, o) := by
        split at hd
        · cases hd
        · split at hd
          · cases hd
          · rename_i code o' hh
            split at hd
            · simp only [Option.some.injEq, Outcome.hosts.injEq] at hd; subst hd; exact ⟨code, hh⟩
            · repeat' split at hd
              all_goals cases hd
      obtain ⟨code, ho⟩ := ho
      rcases hostsGet_out hm ho with rfl | rfl | ⟨b', hb', rfl⟩
      · exact ⟨rfl, .inl (by simp [handedOf])⟩
      · exact ⟨rfl, .inr (by simp [handedOf, handed])⟩
      · exact ⟨rfl, .inl (by simp [handedOf])⟩
    | upstream i =>
      dsimp only at hs
      split at hs
      · cases hs
      · split at hs
        · split at hs
          · cases hs
          · simp only [Option.some.injEq, Prod.mk.injEq] at hs
            obtain ⟨rfl, _, rfl⟩ := hs
            exact ⟨rfl, .inl rfl⟩
        · simp only [Option.some.injEq, Prod.mk.injEq] at hs
          obtain ⟨rfl, _, rfl⟩ := hs
          exact ⟨rfl, .inl rfl⟩

/-- What an event does to the alias worker. -/
inductive LoopMoves (st : St Addr) (ev : Ev Addr) (lp : Loop Addr) : Prop where
  | keeps (h : lp = st.loop)
  | adds (k cap sock rnd : Nat) (old m : Head Addr) (x : Luck) (l : List (Head Addr)) (he : ev = .innerTake k cap sock rnd old x) (hp : pick st.inner k = some (m, l))
      (h : lp = ⟨(st.loop.table.add MContext.compare ⟨ident m.entity, m.hash, m.domain, m.type, m, x.now⟩).2,
        fun i => if i = (st.loop.table.add MContext.compare ⟨ident m.entity, m.hash, m.domain, m.type, m, x.now⟩).1 then
          some ⟨ident m.entity, m.hash, m.domain, m.type, m, x.now⟩ else st.loop.mem i⟩)
  | deletes (k cap : Nat) (rest : List Byte) (header fuel : Nat) (m : Head Addr) (l : List (Head Addr)) (par : Nat) (t : Bool) (q p : Pending (Head Addr)) (a : Nat)
      (he : ev = .outerTake k cap rest header fuel) (hp : pick st.outer k = some (m, l)) (hb : m.back = some (.loop par t)) (hq : st.loop.mem par = some q)
      (ha : (a, p) ∈ st.loop.table.root.toList) (hc : MContext.compare q p = 0)
      (h : lp = ⟨st.loop.table.delete a, fun i => if i = a then some (reset p) else st.loop.mem i⟩)
  | sweeps (now : Int) (he : ev = .loopSweep now) (h : lp = { st.loop with table := (MContext.sweep st.loop.table now).2 })

theorem inner_loop {fnm : List Byte → List Byte → Bool} {hosts : Hosts.Hosts} {cap : Nat} {now : Int} {rnd fuel sock : Nat}
    {h m q : Head Addr} {s s' : Loop Addr} (e : HostsLoop.inner fnm hosts cap now rnd fuel sock h m s = some (s', some q)) :
    s' = ⟨(s.table.add MContext.compare ⟨ident m.entity, m.hash, m.domain, m.type, m, now⟩).2,
        fun i => if i = (s.table.add MContext.compare ⟨ident m.entity, m.hash, m.domain, m.type, m, now⟩).1 then
          some ⟨ident m.entity, m.hash, m.domain, m.type, m, now⟩ else s.mem i⟩ := by
  unfold HostsLoop.inner at e
  split at e
  · simp at e
  · split at e
    · cases e
    · split at e
      · simp at e
      · dsimp only at e
        simp only [Option.some.injEq, Prod.mk.injEq] at e
        exact e.1.symm

theorem outer_loop {cap : Nat} {b : List Byte} {len fuel parent : Nat} {target : List Byte} {s s' : Loop Addr} {r : Option (Head Addr)}
    (e : HostsLoop.outer cap b len fuel parent target s = some (s', r)) :
    s' = s ∨ ∃ a p q, s.mem parent = some q ∧ (a, p) ∈ s.table.root.toList ∧ MContext.compare q p = 0 ∧
      s' = ⟨s.table.delete a, fun i => if i = a then some (reset p) else s.mem i⟩ := by
  unfold HostsLoop.outer at e
  split at e
  · cases e
  · rename_i q hq
    split at e
    · simp only [Option.some.injEq, Prod.mk.injEq] at e; exact Or.inl e.1.symm
    · rename_i a p hs
      obtain ⟨h1, h2⟩ := Bst.Tree.search_some hs
      refine Or.inr ⟨a, p, q, hq, h1, h2, ?_⟩
      dsimp only at e
      split at e
      · cases e
      · simp only [Option.some.injEq, Prod.mk.injEq] at e; exact e.1.symm
      · simp only [Option.some.injEq, Prod.mk.injEq] at e; exact e.1.symm

theorem step_loop {e : Env} {st st' : St Addr} {ev : Ev Addr} {acts : List (Act Addr)} (ha : Accepted ev)
    (h : step e st ev = some (st', acts)) : LoopMoves st ev st'.loop := by
  cases ev with
  | udpQuery sock addr agent b len x =>
    unfold step at h
    dsimp only at h
    split at h
    · cases h
    · rename_i c m hf
      have hc := ha _ _ _ hf
      subst hc
      obtain ⟨e1, e2, e3, e4, e5, e6⟩ := fill_zero hf
      split at h
      · cases h
      · rename_i st1 hd acts' hs
        simp only [Option.some.injEq, Prod.mk.injEq] at h
        obtain ⟨rfl, rfl⟩ := h
        exact .keeps (mgrSend_inner (accepted_head e4 e5 e6).1 hs).1
  | tcpQuery sock agent b len x =>
    unfold step at h
    dsimp only at h
    split at h
    · cases h
    · rename_i c m hf
      have hc := ha _ _ _ hf
      subst hc
      obtain ⟨e1, e2, e3, e4, e5, e6⟩ := fill_zero hf
      split at h
      · cases h
      · rename_i st1 hd acts' hs
        simp only [Option.some.injEq, Prod.mk.injEq] at h
        obtain ⟨rfl, rfl⟩ := h
        exact .keeps (mgrSend_inner (accepted_head e4 e5 e6).1 hs).1
  | innerTake k cap sock rnd old x =>
    unfold step at h
    dsimp only at h
    split at h
    · cases h
    · rename_i m l hp
      split at h
      · cases h
      · rename_i lp hin
        simp only [Option.some.injEq, Prod.mk.injEq] at h
        obtain ⟨rfl, rfl⟩ := h
        exact .keeps (inner_none hin)
      · rename_i lp q hin
        split at h
        · cases h
        · rename_i st1 hd acts' hs
          simp only [Option.some.injEq, Prod.mk.injEq] at h
          obtain ⟨rfl, rfl⟩ := h
          obtain ⟨_, _, t3⟩ := inner_query hin
          exact .adds k cap sock rnd old m x l rfl hp ((mgrSend_inner t3 hs).1.trans (inner_loop hin))
  | outerTake k cap rest header fuel =>
    unfold step at h
    dsimp only at h
    split at h
    · cases h
    · rename_i m l hp
      split at h
      · rename_i par t hb
        split at h
        · cases h
        · rename_i lp hout
          simp only [Option.some.injEq, Prod.mk.injEq] at h
          obtain ⟨rfl, rfl⟩ := h
          rcases outer_loop hout with h | ⟨a, p, q, h1, h2, h3, h4⟩
          · exact .keeps h
          · exact .deletes k cap rest header fuel m l par t q p a rfl hp hb h1 h2 h3 h4
        · rename_i lp r hout
          simp only [Option.some.injEq, Prod.mk.injEq] at h
          obtain ⟨rfl, rfl⟩ := h
          rcases outer_loop hout with h | ⟨a, p, q, h1, h2, h3, h4⟩
          · exact .keeps h
          · exact .deletes k cap rest header fuel m l par t q p a rfl hp hb h1 h2 h3 h4
      · cases h
  | loopSweep now =>
    unfold step at h
    simp only [Option.some.injEq, Prod.mk.injEq] at h
    obtain ⟨rfl, _⟩ := h
    exact .sweeps now rfl rfl
  | _ =>
    unfold step at h
    dsimp only at h
    repeat' split at h
    all_goals first | cases h; done | (simp only [Option.some.injEq, Prod.mk.injEq] at h; obtain ⟨rfl, _⟩ := h; exact .keeps rfl)

/-- Nothing comes to the alias worker but what an event sends on its way. -/
theorem step_inner {e : Env} {st st' : St Addr} {ev : Ev Addr} {acts : List (Act Addr)} (ha : Accepted ev)
    (h : step e st ev = some (st', acts)) : ∀ y ∈ st'.inner, y ∈ st.inner ∨ ∃ m, Source ev m ∧ 12 ≤ m.entity.length ∧ y = handed m := by
  cases ev with
  | udpQuery sock addr agent b len x =>
    unfold step at h
    dsimp only at h
    split at h
    · cases h
    · rename_i c m hf
      have hc := ha _ _ _ hf
      subst hc
      obtain ⟨e1, e2, e3, e4, e5, e6⟩ := fill_zero hf
      split at h
      · cases h
      · rename_i st1 hd acts' hs
        simp only [Option.some.injEq, Prod.mk.injEq] at h
        obtain ⟨rfl, rfl⟩ := h
        have h12 := (accepted_head e4 e5 e6).1
        intro y hy
        rcases (mgrSend_inner h12 hs).2 with h | h <;> rw [h] at hy
        · exact .inl hy
        · rcases List.mem_append.1 hy with hy | hy
          · exact .inl hy
          · exact .inr ⟨m, ⟨_, hf⟩, h12, List.mem_singleton.1 hy⟩
  | tcpQuery sock agent b len x =>
    unfold step at h
    dsimp only at h
    split at h
    · cases h
    · rename_i c m hf
      have hc := ha _ _ _ hf
      subst hc
      obtain ⟨e1, e2, e3, e4, e5, e6⟩ := fill_zero hf
      split at h
      · cases h
      · rename_i st1 hd acts' hs
        simp only [Option.some.injEq, Prod.mk.injEq] at h
        obtain ⟨rfl, rfl⟩ := h
        have h12 := (accepted_head e4 e5 e6).1
        intro y hy
        rcases (mgrSend_inner h12 hs).2 with h | h <;> rw [h] at hy
        · exact .inl hy
        · rcases List.mem_append.1 hy with hy | hy
          · exact .inl hy
          · exact .inr ⟨m, ⟨_, hf⟩, h12, List.mem_singleton.1 hy⟩
  | innerTake k cap sock rnd old x =>
    unfold step at h
    dsimp only at h
    split at h
    · cases h
    · rename_i m l hp
      have hl : ∀ y ∈ l, y ∈ st.inner := fun y hy => (pick_perm hp).mem_iff.2 (List.mem_cons_of_mem _ hy)
      split at h
      · cases h
      · rename_i lp hin
        simp only [Option.some.injEq, Prod.mk.injEq] at h
        obtain ⟨rfl, rfl⟩ := h
        exact fun y hy => .inl (hl y hy)
      · rename_i lp q hin
        split at h
        · cases h
        · rename_i st1 hd acts' hs
          simp only [Option.some.injEq, Prod.mk.injEq] at h
          obtain ⟨rfl, rfl⟩ := h
          obtain ⟨_, ⟨a, t2⟩, t3⟩ := inner_query hin
          intro y hy
          rcases (mgrSend_inner t3 hs).2 with h | h <;> rw [h] at hy
          · exact .inl (hl y hy)
          · rcases List.mem_append.1 hy with hy | hy
            · exact .inl (hl y hy)
            · exact .inr ⟨q, ⟨⟨_, _, t2⟩, inner_ident hin⟩, t3, List.mem_singleton.1 hy⟩
  | innerLose k =>
    unfold step at h
    dsimp only at h
    split at h
    · cases h
    · rename_i m l hp
      simp only [Option.some.injEq, Prod.mk.injEq] at h
      obtain ⟨rfl, _⟩ := h
      exact fun y hy => .inl ((pick_perm hp).mem_iff.2 (List.mem_cons_of_mem _ hy))
  | _ =>
    unfold step at h
    dsimp only at h
    repeat' split at h
    all_goals first | cases h; done | (simp only [Option.some.injEq, Prod.mk.injEq] at h; obtain ⟨rfl, _⟩ := h; exact fun y hy => .inl hy)

/-! ### a query at its place -/

/-- The query `p` waits at the place `a`, and no other waits with its identifier. -/
structure Sits (a : Nat) (p : Pending (Head Addr)) (lp : Loop Addr) : Prop where
  inv : Bst.Inv lp.table
  order : lp.table.root.Ordered idCompare
  here : (a, p) ∈ lp.table.root.toList
  mem : lp.mem a = some p
  only : ∀ x ∈ lp.table.root.toList, x.2.id = p.id → x = (a, p)

theorem keys_unique {C : Type} {t : Table C} (h : Bst.Inv t) {a : Nat} {p q : Pending C} (h1 : (a, p) ∈ t.root.toList) (h2 : (a, q) ∈ t.root.toList) : p = q := by
  have hn := (List.nodup_append.1 h.nodup).1
  obtain ⟨i, hi, e1⟩ := List.mem_iff_getElem.1 h1
  obtain ⟨j, hj, e2⟩ := List.mem_iff_getElem.1 h2
  have : i = j := by
    refine (List.getElem_inj (i := i) (j := j) (h₀ := by simpa using hi) (h₁ := by simpa using hj) hn).1 ?_
    simp only [List.getElem_map, e1, e2]
  subst this
  rw [e1] at e2
  exact (Prod.mk.inj e2).2

/-- The place of a query that is added. -/
theorem sits_add {lp : Loop Addr} {p : Pending (Head Addr)} (hi : Bst.Inv lp.table) (ho : lp.table.root.Ordered idCompare) (hf : ∀ x ∈ lp.table.root.toList, x.2.id ≠ p.id) :
    Sits (lp.table.add MContext.compare p).1 p ⟨(lp.table.add MContext.compare p).2, fun i => if i = (lp.table.add MContext.compare p).1 then some p else lp.mem i⟩ := by
  have hp := Bst.Tree.toList_insert MContext.compare lp.table.alloc.1 p lp.table.root
  refine ⟨(Bst.inv_add hi p).1, ordered_insert_id _ _ _ ho, hp.mem_iff.2 List.mem_cons_self, by simp, fun x hx hxi => ?_⟩
  rcases List.mem_cons.1 (hp.mem_iff.1 hx) with rfl | hx
  · rfl
  · exact absurd hxi (hf x hx)

theorem sits_moves {a : Nat} {p : Pending (Head Addr)} {st : St Addr} {ev : Ev Addr} {lp : Loop Addr} (h : Sits a p st.loop) (hm : LoopMoves st ev lp)
    (hin : ∀ k cap sock rnd old x m l, ev = .innerTake k cap sock rnd old x → pick st.inner k = some (m, l) → ident m.entity ≠ p.id)
    (hout : ∀ k cap rest header fuel m l par t q, ev = .outerTake k cap rest header fuel → pick st.outer k = some (m, l) → m.back = some (.loop par t) →
      st.loop.mem par = some q → q.id ≠ p.id)
    (hsw : ∀ now, ev = .loopSweep now → now - p.timestamp ≤ 2) : Sits a p lp := by
  cases hm with
  | keeps h1 => rw [h1]; exact h
  | adds k cap sock rnd old m x l he hp h1 =>
    have hne := hin _ _ _ _ _ _ _ _ he hp
    rw [h1]
    generalize hq : (⟨ident m.entity, m.hash, m.domain, m.type, m, x.now⟩ : Pending (Head Addr)) = q
    have hqi : q.id ≠ p.id := by rw [← hq]; exact hne
    have hpm := Bst.Tree.toList_insert MContext.compare st.loop.table.alloc.1 q st.loop.table.root
    obtain ⟨i1, i2⟩ := Bst.inv_add (cmp := MContext.compare) h.inv q
    refine ⟨i1, ordered_insert_id _ _ _ h.order, hpm.mem_iff.2 (List.mem_cons_of_mem _ h.here), ?_, fun x hx hxi => ?_⟩
    · dsimp only
      rw [if_neg ?_]
      · exact h.mem
      · rintro rfl
        exact i2 (List.mem_map.2 ⟨_, h.here, rfl⟩)
    · rcases List.mem_cons.1 (hpm.mem_iff.1 hx) with rfl | hx
      · exact absurd hxi hqi
      · exact h.only x hx hxi
  | deletes k cap rest header fuel m l par t q p' a' he hp hb hq ha hc h1 =>
    have hne := hout _ _ _ _ _ _ _ _ _ _ he hp hb hq
    have hid := (compare_eq_zero hc).1
    have haa : a' ≠ a := by
      rintro rfl
      have := keys_unique h.inv ha h.here
      subst this
      exact hne hid
    rw [h1]
    have hn := (List.nodup_append.1 h.inv.nodup).1
    have hl := Bst.Tree.delete_toList a' st.loop.table.root hn
    refine ⟨Bst.inv_delete h.inv (List.mem_map.2 ⟨_, ha, rfl⟩), Bst.Tree.delete_ordered idCompare_totalPreorder _ _ h.order, ?_, ?_, fun x hx hxi => ?_⟩
    · show (a, p) ∈ (st.loop.table.root.delete a').toList
      rw [hl]
      exact List.mem_filter.2 ⟨h.here, by simpa using fun h => haa h.symm⟩
    · dsimp only
      rw [if_neg (fun h => haa h.symm)]; exact h.mem
    · exact h.only x ((Bst.Tree.delete_sub _ _).subset hx) hxi
  | sweeps now he h1 =>
    have ht := hsw now he
    rw [h1]
    obtain ⟨s1, s2, _⟩ := sweep_spec h.inv now
    refine ⟨s1, foldl_delete_id _ h.order, ?_, h.mem, fun x hx hxi => ?_⟩
    · show (a, p) ∈ (MContext.sweep st.loop.table now).2.root.toList
      rw [s2]
      refine List.mem_filter.2 ⟨h.here, ?_⟩
      simp only [expired, gt_iff_lt, Bool.not_eq_eq_eq_not, Bool.not_true, decide_eq_false_iff_not]
      omega
    · dsimp only at hx
      rw [s2] at hx
      exact h.only x (List.mem_filter.1 hx).1 hxi

/-- The table of the worker stays in order. -/
theorem order_moves {st : St Addr} {ev : Ev Addr} {lp : Loop Addr} (h : st.loop.table.root.Ordered idCompare) (hm : LoopMoves st ev lp) :
    lp.table.root.Ordered idCompare := by
  cases hm with
  | keeps h1 => rw [h1]; exact h
  | adds k cap sock rnd old m x l he hp h1 => rw [h1]; exact ordered_insert_id _ _ _ h
  | deletes k cap rest header fuel m l par t q p' a' he hp hb hq ha hc h1 => rw [h1]; exact Bst.Tree.delete_ordered idCompare_totalPreorder _ _ h
  | sweeps now he h1 => rw [h1]; exact foldl_delete_id _ h

/-- A reply with a reference to the place finds the query. -/
theorem sits_search {a : Nat} {p : Pending (Head Addr)} {lp : Loop Addr} (h : Sits a p lp) : lp.table.search MContext.compare p = some (a, p) := by
  obtain ⟨r, hr⟩ := search_id (k := p) h.order (fun x hx hxi => by rw [h.only x hx hxi]) ⟨_, h.here, rfl⟩
  obtain ⟨h1, h2⟩ := Bst.Tree.search_some hr
  have := h.only r h1 (compare_eq_zero h2).1.symm
  subst this
  exact hr

end Verif.Forwarder
