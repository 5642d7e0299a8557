import Verif.Lemmas.Shared
import Verif.Props.SameNameAll
import Verif.Props.DnsCacheAlias
/-! C107 with identifiers that several clients use at once. -/

namespace Verif.Forwarder
open Msg MContext Pipeline HostsLoop Message Name Keeps

variable {Addr : Type}

/-- Others may use the identifier `i` meanwhile, for names whose hash is another one, in the half circle of hashes that begins with `base`. -/
def Tolerant (c : Client Addr) (i : Nat) (name : List Byte) (base : UInt32) : Ev Addr → Prop
  | .innerTake _ _ _ rnd _ _ => rnd % 65536 ≠ i
  | ev => Accepted ev ∧ ((∃ w, (w, some i) ∈ queryOf ev) → ∃ c' ls, Poses ev c' i ls ∧ Near base (bkdrHash (plainName ls)) ∧
      (bkdrHash (plainName ls) = bkdrHash name → c' = c ∧ plainName ls = name))

/-- The server number `j` has not answered the identifier `i` for this name (for other names it may have), and the program has not given up on what was
sent at the time `t`. -/
def StillPatient (j i : Nat) (name : List Byte) (t : Int) : Ev Addr → Prop
  | .response k b len _ _ _ => k = j → (∃ x, idOf b = some x ∧ x ≠ i) ∨
      ∃ q rs post, About q rs post ∧ b = q.bytes ++ post ∧ len = q.bytes.length ∧ bkdrHash (plainName rs) ≠ bkdrHash name
  | .sweep k now => k = j → now - t ≤ 2
  | _ => True

/-- The client's query for the name leaves for the server number `j`: as it is, or from the queue of a TCP server, with its length before it. -/
def Goes (c : Client Addr) (j i : Nat) (name : List Byte) (ev : Ev Addr) (acts : List (Act Addr)) : Prop :=
  match ev with
  | .take .. => ∃ q ls post, About q ls post ∧ plainName ls = name ∧ idOf q.bytes = some i ∧ .server j (be16 q.bytes.length ++ q.bytes) ∈ acts
  | ev => (∃ ls, Poses ev c i ls ∧ plainName ls = name) ∧ ∃ m, .server j m ∈ acts

/-- The header is one of those that use the identifier. -/
def Shares (c : Client Addr) (name : List Byte) (base : UInt32) (m : Head Addr) : Prop := Near base m.hash ∧ (m.hash = bkdrHash name → Mine c name m)

/-- The hash of the header is that of the name in the message. -/
def Hashed (m : Head Addr) : Prop := ∀ q ls post, About q ls post → m.entity = q.bytes → m.hash = bkdrHash (plainName ls)

theorem shares_stays (c : Client Addr) (name : List Byte) (base : UInt32) : Stays (Shares c name base) :=
  fun m m' h ⟨h1, h2⟩ => ⟨by rw [h.hash]; exact h1, fun e => mine_stays c name m m' h (h2 (by rw [← h.hash]; exact e))⟩

theorem named_congr {mem mem' : Nat → Byte} {len p : Nat} {qs : List Question} {names : List (List (List Byte))} (h : Named mem len p qs names)
    (hm : ∀ i, i < len → mem i = mem' i) : Named mem' len p qs names := by
  induction h with
  | nil => exact .nil
  | cons h _ ih => exact .cons (DnsCache.denotes_congr h (Nat.le_refl _) fun i hi => (hm i hi).symm) ih

/-- What lies behind a message does not matter. -/
theorem about_alone {q : Message.Msg} {ls : List (List Byte)} {post : List Byte} (h : About q ls post) : About q ls [] := by
  obtain ⟨names, h1, h2, h3⟩ := h.names
  refine ⟨h.valid, h.class_in, names, named_congr h1 fun i hi => ?_, h2, h3⟩
  rw [List.append_nil]
  exact DnsCache.bytesAt_append hi

/-- The bytes of a message determine the name it asks for. -/
theorem about_same {q q' : Message.Msg} {ls ls' : List (List Byte)} {post post' : List Byte} (h : About q ls post) (h' : About q' ls' post')
    (he : q.bytes = q'.bytes) : bkdrHash (plainName ls) = bkdrHash (plainName ls') := by
  have a := about_alone h
  have b := about_alone h'
  obtain ⟨names, h1, h2, h3⟩ := a.names
  obtain ⟨f0, hf⟩ := fill_every (Addr := Dest Nat) q names [] a.valid (about_some a) h1 h2 false none 0 []
  obtain ⟨d, t, -, g2⟩ := (hf _ (Nat.le_refl f0) noHead).1 a.class_in
  have ga := (fill_about a g2).2.2.1
  rw [he] at g2
  rw [← ga, ← (fill_about b g2).2.2.1]

theorem tolerant_accepted {c : Client Addr} {i : Nat} {name : List Byte} {base : UInt32} {ev : Ev Addr} (h : Tolerant c i name base ev) : Accepted ev := by
  cases ev <;> first | exact h.1 | trivial

theorem tolerant_source {c : Client Addr} {i : UInt16} {name : List Byte} {base : UInt32} {ev : Ev Addr} (h : Tolerant c i.toNat name base ev) {m : Head Addr}
    (hs : Source ev m) (hi : ident m.entity = i) : Shares c name base m ∧ Hashed m := by
  cases ev with
  | udpQuery sock addr agent b len x =>
    obtain ⟨h0, hf⟩ := hs
    obtain ⟨e1, e2, e3, e4, e5, e6⟩ := fill_zero hf
    obtain ⟨h12, _⟩ := accepted_head e4 e5 e6
    obtain ⟨c', ls, ⟨q, post, ag, y, hq, hid, ha⟩, hn, hsame⟩ := h.2 ⟨(some addr, sock), by
      simp only [queryOf, List.mem_singleton, Prod.mk.injEq, true_and]
      rw [← e4, idOf_some (by omega), hi]⟩
    rcases ha with ⟨a, s, rfl, he⟩ | ⟨s, rfl, he⟩
    · cases he
      obtain ⟨f1, f2, f3, f4, _⟩ := fill_about hq hf
      refine ⟨⟨by rw [f3]; exact hn, fun e => ?_⟩, fun q' ls' post' hq' he' => ?_⟩
      · rw [f3] at e
        obtain ⟨hc, hname⟩ := hsame e
        subst hc
        exact ⟨by rw [f3, hname], f2, f1, e3⟩
      · rw [f3, about_same hq hq' (f4.symm.trans he')]
    · cases he
  | tcpQuery sock agent b len x =>
    obtain ⟨h0, hf⟩ := hs
    obtain ⟨e1, e2, e3, e4, e5, e6⟩ := fill_zero hf
    obtain ⟨h12, _⟩ := accepted_head e4 e5 e6
    obtain ⟨c', ls, ⟨q, post, ag, y, hq, hid, ha⟩, hn, hsame⟩ := h.2 ⟨(none, sock), by
      simp only [queryOf, List.mem_singleton, Prod.mk.injEq, true_and]
      rw [← e4, idOf_some (by omega), hi]⟩
    rcases ha with ⟨a, s, rfl, he⟩ | ⟨s, rfl, he⟩
    · cases he
    · cases he
      obtain ⟨f1, f2, f3, f4, _⟩ := fill_about hq hf
      refine ⟨⟨by rw [f3]; exact hn, fun e => ?_⟩, fun q' ls' post' hq' he' => ?_⟩
      · rw [f3] at e
        obtain ⟨hc, hname⟩ := hsame e
        subst hc
        exact ⟨by rw [f3, hname], f2, f1, e3⟩
      · rw [f3, about_same hq hq' (f4.symm.trans he')]
  | innerTake k cap sock rnd old x =>
    obtain ⟨_, h2⟩ := hs
    rw [hi] at h2
    exact absurd h2.symm h
  | _ => cases hs

/-- The modules of a state: well-formed, and the one of interest as wanted. -/
structure SharedAt (P Q : Head Addr → Prop) (j : Nat) (i : UInt16) (base : UInt32) (st : St Addr) : Prop where
  inv : Inv st
  only : ∀ d, st.mods[j]? = some d → Shared P Q i base d

theorem sharedAt_step [DecidableEq Addr] {P Q : Head Addr → Prop} (hP : Stays P) {j : Nat} {i : UInt16} {base : UInt32} (hn : ∀ m, P m → Near base m.hash)
    {e : Env} {st st' : St Addr} {ev : Ev Addr} {acts : List (Act Addr)} (ha : Accepted ev) (hev : ∀ m, Source ev m → ident m.entity = i → P m ∧ Q m)
    (h : SharedAt P Q j i base st) (hs : step e st ev = some (st', acts)) : SharedAt P Q j i base st' := by
  obtain ⟨m1, m2, _⟩ := step_moves h.inv ha hs
  refine ⟨(step_balance h.inv ha hs).1, fun d' hd' => ?_⟩
  cases hd : st.mods[j]? with
  | none => obtain ⟨g1, g2⟩ := m2 j d' hd hd'; exact .init g1 g2
  | some d =>
    obtain ⟨d2, g1, g2⟩ := m1 j d hd
    rw [g1] at hd'
    obtain rfl := Option.some.inj hd'
    exact shared_moves hP hn hev (h.inv.1 d (List.mem_of_getElem? hd)).1.1 (h.only d hd) g2

theorem sharedAt_run [DecidableEq Addr] {P Q : Head Addr → Prop} (hP : Stays P) {j : Nat} {i : UInt16} {base : UInt32} (hn : ∀ m, P m → Near base m.hash) :
    ∀ {l : List (Env × Ev Addr)} {st st' : St Addr} {acts : List (Act Addr)}, (∀ x ∈ l, Accepted x.2) →
    (∀ x ∈ l, ∀ m, Source x.2 m → ident m.entity = i → P m ∧ Q m) → SharedAt P Q j i base st → run st l = some (st', acts) → SharedAt P Q j i base st'
  | [], st, st', acts, _, _, h, hr => by
    simp only [run, Option.some.injEq, Prod.mk.injEq] at hr
    obtain ⟨rfl, _⟩ := hr
    exact h
  | (e, ev) :: l, st, st', acts, ha, hev, h, hr => by
    unfold run at hr
    split at hr
    · cases hr
    · rename_i st1 a1 h1
      split at hr
      · cases hr
      · rename_i st2 a2 h2
        simp only [Option.some.injEq, Prod.mk.injEq] at hr
        obtain ⟨rfl, _⟩ := hr
        exact sharedAt_run hP hn (fun x hx => ha x (List.mem_cons_of_mem _ hx)) (fun x hx => hev x (List.mem_cons_of_mem _ hx))
          (sharedAt_step hP hn (ha (e, ev) List.mem_cons_self) (hev (e, ev) List.mem_cons_self) h h1) h2

/-- Whatever happens meanwhile, the query waits. -/
theorem awaits_run [DecidableEq Addr] {j : Nat} {i : UInt16} {name : List Byte} {t : Int} : ∀ {l : List (Env × Ev Addr)} {st st' : St Addr}
    {acts : List (Act Addr)} {d : Module (Dest Addr)}, (∀ x ∈ l, Accepted x.2) → (∀ x ∈ l, StillPatient j i.toNat name t x.2) → Inv st →
    st.mods[j]? = some d → Awaits i (bkdrHash name) t d → run st l = some (st', acts) → ∃ d', st'.mods[j]? = some d' ∧ Awaits i (bkdrHash name) t d'
  | [], st, st', acts, d, _, _, _, hd, hw, hr => by
    simp only [run, Option.some.injEq, Prod.mk.injEq] at hr
    obtain ⟨rfl, _⟩ := hr
    exact ⟨d, hd, hw⟩
  | (e, ev) :: l, st, st', acts, d, ha, hp, hi, hd, hw, hr => by
    unfold run at hr
    split at hr
    · cases hr
    · rename_i st1 a1 h1
      split at hr
      · cases hr
      · rename_i st2 a2 h2
        simp only [Option.some.injEq, Prod.mk.injEq] at hr
        obtain ⟨rfl, _⟩ := hr
        have hae := ha (e, ev) List.mem_cons_self
        have hpe := hp (e, ev) List.mem_cons_self
        obtain ⟨d1, g1, g2⟩ := (step_moves hi hae h1).1 j d hd
        refine awaits_run (fun x hx => ha x (List.mem_cons_of_mem _ hx)) (fun x hx => hp x (List.mem_cons_of_mem _ hx)) (step_balance hi hae h1).1 g1 ?_ h2
        refine awaits_moves ?_ ?_ (hi.1 d (List.mem_of_getElem? hd)).1.1 hw g2
        · rintro b len fuel bn clock rfl hid g h0 back sock agent c hf
          rcases hpe rfl with ⟨x, hx, hne⟩ | ⟨q, rs, post, hq, rfl, rfl, hne⟩
          · exact absurd (by rw [idOf_ident hx, hid]) hne
          · rw [(fill_about hq hf).2.2.1]
            exact hne
        · rintro now rfl
          exact hpe rfl

/-- What leaves for a server waits for its answer. -/
theorem goes_awaits [DecidableEq Addr] {c : Client Addr} {j : Nat} {i : UInt16} {name : List Byte} {base : UInt32} {e : Env} {st st' : St Addr}
    {ev : Ev Addr} {acts : List (Act Addr)} (h : SharedAt (Shares c name base) Hashed j i base st)
    (ha : Accepted ev) (hs : step e st ev = some (st', acts)) (hl : Goes c j i.toNat name ev acts) :
    ∃ d', st'.mods[j]? = some d' ∧ Awaits i (bkdrHash name) (clockOf ev) d' := by
  obtain ⟨m1, _, m3⟩ := step_moves h.inv ha hs
  have hb : ∃ b, .server j b ∈ acts := by
    unfold Goes at hl
    split at hl
    · obtain ⟨q, ls, post, -, -, -, hm⟩ := hl
      exact ⟨_, hm⟩
    · exact hl.2
  obtain ⟨b, hb⟩ := hb
  obtain ⟨d, hd⟩ := m3 j b hb
  obtain ⟨d', hd', hm⟩ := m1 j d hd
  refine ⟨d', hd', ?_⟩
  have new : ∀ {now : Int} {p : Pending (Head Addr)}, d'.table = MContext.add d.table now p → p.id = i → p.hash = bkdrHash name → Awaits i (bkdrHash name) now d' := by
    intro now p h1 h2 h3
    exact ⟨{ p with timestamp := now }, by rw [h1]; exact (add_contents d.table now p).mem_iff.2 List.mem_cons_self, h2, h3, Int.le_refl _⟩
  cases hm with
  | keeps _ _ h3 => exact absurd hb (h3 b)
  | sends m p hsrc hlen hh h1 _ h3 =>
    have hq : (ident m.entity).toNat = i.toNat ∧ m.hash = bkdrHash name := by
      cases ev with
      | udpQuery sock addr agent b len x =>
        obtain ⟨⟨ls, ⟨q, post, ag, y, hq, hid, hx⟩, rfl⟩, -⟩ := hl
        obtain ⟨h0, hf⟩ := hsrc
        rcases hx with ⟨a, s, -, he⟩ | ⟨s, -, he⟩
        · cases he
          obtain ⟨_, _, f3, f4, _⟩ := fill_about hq hf
          exact ⟨by rw [f4, ← idOf_ident hid], f3⟩
        · cases he
      | tcpQuery sock agent b len x =>
        obtain ⟨⟨ls, ⟨q, post, ag, y, hq, hid, hx⟩, rfl⟩, -⟩ := hl
        obtain ⟨h0, hf⟩ := hsrc
        rcases hx with ⟨a, s, -, he⟩ | ⟨s, -, he⟩
        · cases he
        · cases he
          obtain ⟨_, _, f3, f4, _⟩ := fill_about hq hf
          exact ⟨by rw [f4, ← idOf_ident hid], f3⟩
      | innerTake k cap sock rnd old x =>
        obtain ⟨⟨ls, ⟨q, post, ag, y, hq, hid, hx⟩, -⟩, -⟩ := hl
        rcases hx with ⟨a, s, -, he⟩ | ⟨s, -, he⟩ <;> cases he
      | _ => cases hsrc
    exact new h1 (by rw [hh.id]; exact UInt16.toNat_inj.1 hq.1) (by rw [hh.hash, hh.same.hash]; exact hq.2)
  | queues _ _ _ _ _ h3 => exact absurd hb (h3 b)
  | takes m p n now rest hmem he hh h1 _ h3 =>
    subst he
    obtain ⟨q, ls, post, hq, rfl, hid, hm'⟩ := hl
    have h5 : q.bytes = m.entity := by
      have := congrArg (List.drop 2) (h3 _ hm')
      simpa [be16] using this
    have hi' : ident m.entity = i := UInt16.toNat_inj.1 (by rw [← h5, ← idOf_ident hid])
    refine new h1 (by rw [hh.id, hi']) ?_
    rw [hh.hash, hh.same.hash]
    exact ((h.only d hd).inbox m hmem hi').2 q ls post hq h5.symm
  | answers _ _ _ _ _ _ _ _ _ _ _ _ h3 => exact absurd hb (h3 b)
  | sweeps _ _ _ _ h3 => exact absurd hb (h3 b)

/-- A response to a query that waits: it is sent with its header. -/
theorem response_found_shared [DecidableEq Addr] {c : Client Addr} {name : List Byte} {base : UInt32} {Q : Head Addr → Prop} {j : Nat} {i : UInt16} {t : Int}
    {e : Env} {st st' : St Addr} {acts : List (Act Addr)} {d : Module (Dest Addr)} {r r' : Message.Msg} {rs : List (List Byte)} {tail : List Byte}
    {fuel : Nat} {bn : List Byte} {clock : Nat → Int} (h : SharedAt (Shares c name base) Q j i base st) (hnb : Near base (bkdrHash name))
    (hname : plainName rs = name) (hd : st.mods[j]? = some d) (hw : Awaits i (bkdrHash name) t d) (hr : About r rs tail) (hid : idOf r.bytes = some i.toNat)
    (hl : Passes e r r') (hap : e.ap = false ∨ HasEdns r)
    (hs : step e st (.response j (r.bytes ++ tail) r.bytes.length fuel bn clock) = some (st', acts)) :
    ∃ m : Head Addr, Mine c name m ∧ m.entity = r'.bytes ∧ acts = (post m (sendBack m)).1 := by
  have h12 : 12 ≤ r.bytes.length := by rw [Message.Msg.bytes, List.length_append, Generator.header_length hr.valid]; omega
  have ho := h.only d hd
  unfold step at hs
  dsimp only at hs
  rw [hd] at hs
  dsimp only at hs
  split at hs
  · cases hs
  · rename_i d' ops out hre
    split at hs
    · cases hs
    · simp only [Option.some.injEq, Prod.mk.injEq] at hs
      obtain ⟨rfl, rfl⟩ := hs
      unfold respond at hre
      split at hre
      · cases hre
      · rename_i code h0 hfill
        obtain ⟨-, -, f1, f2, f3⟩ := fill_about hr hfill
        obtain ⟨p1, p2, p3⟩ := passes_any hl hr.valid (about_some hr)
        rw [f2, p1] at hre
        dsimp only at hre
        rw [if_neg (by simp), if_neg (by
          rcases hap with ha | ha
          · simp [isBlocked, ha]
          · simp [isBlocked, f3 ha]), show (r'.bytes ++ tail).take r.bytes.length = r'.bytes from List.take_left' p2] at hre
        have hident : ident (r'.bytes ++ tail) = i := by
          rw [ident_take (a := r'.bytes ++ tail) (b := r.bytes) (by rw [List.take_append_of_le_length (by omega), p3])]
          exact (UInt16.toNat_inj.1 (idOf_ident hid)).symm
        have hfound : ∃ x, d.table.root.search MContext.compare (entry (r'.bytes ++ tail) { h0 with entity := r'.bytes }) = some x := by
          refine search_win ho.order hident ?_ (ho.near fun m hm => hm.1) ?_
          · show Near base h0.hash
            rw [f1, hname]
            exact hnb
          · obtain ⟨p, hp, hpi, hph, _⟩ := hw
            obtain ⟨x, hx, rfl⟩ := List.mem_map.1 hp
            refine ⟨x, hx, hpi, ?_⟩
            show x.2.hash = h0.hash
            rw [f1, hname]
            exact hph
        obtain ⟨⟨a, p⟩, hf⟩ := hfound
        obtain ⟨g1, g2⟩ := Bst.Tree.search_some hf
        obtain ⟨g3, g4⟩ := compare_eq_zero g2
        have hpt := ho.table p (List.mem_map_of_mem g1)
        have hp : Mine c name p.client := (hpt.2 (by rw [← hident]; exact g3.symm)).2 (by
          rw [← hpt.1, ← hname, ← f1]
          exact g4.symm)
        unfold genAnswerHeaderAndRemove Bst.State.search at hre
        rw [hf] at hre
        dsimp only at hre
        split at hre
        · cases hre
        · simp only [Option.some.injEq, Prod.mk.injEq] at hre
          obtain ⟨_, _, rfl⟩ := hre
          exact ⟨{ p.client with entity := r'.bytes, edns := h0.edns }, mine_stays c name p.client _ ⟨rfl, rfl, rfl, rfl, rfl, rfl⟩ hp, rfl, by simp⟩

/-- C107.  A client's query for a name leaves for a server, with identifier `i`.  Meanwhile other clients may use the same identifier there for other
names, and get their answers, as long as the hashes of the names lie on one half of the circle of 32-bit numbers.  If then – before the server answered
it, and before the program gave up, two seconds later – a well-formed response from that server comes, with this identifier and for this name, the client
is sent this response, with the configured replacements of addresses, and nothing else is sent.

Messages may have any number of questions of class IN; the name is that of the last.
Missing: other hashes (`response_found_false`, `same_question_false` of C10: false of the code); questions of other classes; responses that leave out questions
(`oneOfTwo_false`); how long it takes. -/
theorem answered_among_others_partial [DecidableEq Addr] (st st0 st1 st2 st3 st4 : St Addr) (l0 l1 l2 : List (Env × Ev Addr)) (a0 a1 a2 a3 a4 : List (Act Addr))
    (e2 e4 : Env) (ev : Ev Addr) (c : Client Addr) (i j fuel : Nat) (ls rs : List (List Byte)) (r r' : Message.Msg) (tail bn : List Byte) (base : UInt32)
    (clock : Nat → Int) (hst : Start st) (h0 : run st l0 = some (st0, a0)) (hacc : ∀ x ∈ l0, Accepted x.2) (hfree : Free j i st0)
    (hbase : Near base (bkdrHash (plainName ls)))
    (h1 : run st0 l1 = some (st1, a1)) (hf1 : ∀ x ∈ l1, Tolerant c i (plainName ls) base x.2)
    (h2 : step e2 st1 ev = some (st2, a2)) (hf2 : Tolerant c i (plainName ls) base ev) (hgoes : Goes c j i (plainName ls) ev a2)
    (h3 : run st2 l2 = some (st3, a3)) (hf3 : ∀ x ∈ l2, Tolerant c i (plainName ls) base x.2) (hpat : ∀ x ∈ l2, StillPatient j i (plainName ls) (clockOf ev) x.2)
    (hr : About r rs tail) (hid : idOf r.bytes = some i) (hname : plainName rs = plainName ls) (hl : Passes e4 r r') (hap : e4.ap = false ∨ HasEdns r)
    (h4 : step e4 st3 (.response j (r.bytes ++ tail) r.bytes.length fuel bn clock) = some (st4, a4)) :
    a4 = [.client (toClient r'.bytes c)] := by
  obtain ⟨k, rfl⟩ : ∃ k : UInt16, i = k.toNat := ⟨_, idOf_ident hid⟩
  have hstays := shares_stays c (plainName ls) base
  have hnear : ∀ m : Head Addr, Shares c (plainName ls) base m → Near base m.hash := fun m hm => hm.1
  have o0 : SharedAt (Shares c (plainName ls) base) Hashed j k base st0 := by
    have g := onlyAt_run (P := fun _ => True) (fun _ _ _ _ => trivial) (j := j) (i := k) hacc (fun _ _ _ _ _ => trivial)
      ⟨(start_inv hst).1, fun d hd => by rw [hst.1] at hd; cases hd⟩ h0
    refine ⟨g.inv, fun d hd => ?_⟩
    obtain ⟨f1, f2⟩ := hfree d hd
    have gd := g.only d hd
    refine ⟨fun p hp => ⟨(gd.table p hp).1, fun hpk => absurd (congrArg UInt16.toNat hpk) (f1 p hp)⟩, fun m hm hmk => ?_,
      ordered_win_of_id (fun x hx hxk => f1 x.2 (List.mem_map_of_mem hx) (congrArg UInt16.toNat hxk)) gd.order⟩
    refine absurd ?_ (f2 m hm)
    rw [idOf_some ((g.inv.1 d (List.mem_of_getElem? hd)).2 m hm).2, hmk]
  have o1 := sharedAt_run hstays hnear (fun x hx => tolerant_accepted (hf1 x hx)) (fun x hx m => tolerant_source (hf1 x hx)) o0 h1
  have o2 := sharedAt_step hstays hnear (tolerant_accepted hf2) (fun m => tolerant_source hf2) o1 h2
  obtain ⟨d2, hd2, hw2⟩ := goes_awaits o1 (tolerant_accepted hf2) h2 hgoes
  have o3 := sharedAt_run hstays hnear (fun x hx => tolerant_accepted (hf3 x hx)) (fun x hx m => tolerant_source (hf3 x hx)) o2 h3
  obtain ⟨d3, hd3, hw3⟩ := awaits_run (fun x hx => tolerant_accepted (hf3 x hx)) hpat o2.inv hd2 hw2 h3
  obtain ⟨m, ⟨m1, m2, m3, m4⟩, hm, ha⟩ := response_found_shared o3 hbase hname hd3 hw3 hr hid hl hap h4
  rw [ha]
  obtain ⟨c1, c2⟩ := c
  cases c1 with
  | none =>
    dsimp only [Option.map_none] at m3
    simp [sendBack, m3, hm, m2, post, toClient]
  | some a =>
    dsimp only [Option.map_some] at m3
    simp [sendBack, m3, hm, m2, m4, post, toClient]

/-! ### a case that meets the hypotheses: another client uses the same identifier for another name, and is answered first -/

def bureau : List (List Byte) := [str "office", str "com"]

theorem bureauName : WireName (wire bureau) := .label _ _ (by decide) (by decide) (.label _ _ (by decide) (by decide) .root)

theorem bureauQuestion (c : Nat) : Poses (udpAsk c (query 1 2 bureau 1)) (some c, 1) 258 bureau :=
  ⟨⟨[1, 2, 1, 0], [⟨wire bureau, 1, 1⟩], [], [], []⟩, List.replicate 200 0, [], exLuck,
    { valid := plainValid _ _ _ _ [] bureauName (by decide) (by simp)
      class_in := by decide
      names := ⟨[bureau], .cons (denotes_wire (by decide) (by unfold At; decide +kernel) (by decide +kernel)) .nil, by decide, rfl⟩ },
    by decide, Or.inl ⟨c, 1, rfl, rfl⟩⟩

def bureauReply : Message.Msg := ⟨[1, 2, 0x81, 0x80], [⟨wire bureau, 1, 1⟩], [⟨[0xC0, 12], 1, 1, 60, [1, 2, 3, 5]⟩], [], []⟩

theorem bureauAnswer : About bureauReply bureau (List.replicate 200 0) where
  valid := plainValid _ _ _ _ [] bureauName (by decide) (by
        intro r hr
        simp only [List.append_nil, List.mem_singleton] at hr
        subst hr
        exact ⟨.pointer _ _ (by decide), by decide, by decide, by decide, by decide, by decide, by decide⟩)
  class_in := by decide
  names := ⟨[bureau], .cons (denotes_wire (by decide) (by unfold At; decide +kernel) (by decide +kernel)) .nil, by decide, rfl⟩

def exOthers : List (Env × Ev Nat) := [udpAsk 9 (query 1 2 bureau 1), .sweep 0 1002, serverSays 0 bureauReply.bytes].map fun ev => (exEnv, ev)

/-- The two hashes are in the half circle that begins with the second one. -/
def exBase : UInt32 := bkdrHash (plainName bureau)

def exShared : Option (List (Act Nat) × List (Act Nat) × List (Act Nat)) :=
  (run exSt [(exEnv, both)]).bind fun r0 => (step exEnv r0.1 (udpAsk 8 twoQ.bytes)).bind fun r1 => (run r1.1 exOthers).bind fun r2 =>
    (step exEnv r2.1 (serverSays 0 twoR.bytes)).map fun r3 => (r1.2, r2.2, r3.2)

example : ∃ st0 a0 st2 a2 st3 a3 st4 a4, Start exSt ∧ run exSt [(exEnv, both)] = some (st0, a0) ∧ Free 0 258 st0 ∧ Near exBase (bkdrHash (plainName ms)) ∧
    step exEnv st0 (udpAsk 8 twoQ.bytes) = some (st2, a2) ∧ Tolerant (some 8, 1) 258 (plainName ms) exBase (udpAsk 8 twoQ.bytes) ∧
    Goes (some 8, 1) 0 258 (plainName ms) (udpAsk 8 twoQ.bytes) a2 ∧ run st2 exOthers = some (st3, a3) ∧
    (∀ x ∈ exOthers, Tolerant (some 8, 1) 258 (plainName ms) exBase x.2 ∧ StillPatient 0 258 (plainName ms) (clockOf (udpAsk 8 twoQ.bytes)) x.2) ∧
    a3 = [.server 0 (query 1 2 bureau 1), .client (toClient bureauReply.bytes (some 9, 1))] ∧
    step exEnv st3 (serverSays 0 twoR.bytes) = some (st4, a4) ∧ a4 = [.client (toClient twoR.bytes (some 8, 1))] := by
  have h : exShared = some ([.server 0 twoQ.bytes], [.server 0 (query 1 2 bureau 1), .client (toClient bureauReply.bytes (some 9, 1))],
      [.client (toClient twoR.bytes (some 8, 1))]) := by decide +kernel
  unfold exShared at h
  obtain ⟨r0, h0, h⟩ := Option.bind_eq_some_iff.1 h
  obtain ⟨r1, h1, h⟩ := Option.bind_eq_some_iff.1 h
  obtain ⟨r2, h2, h⟩ := Option.bind_eq_some_iff.1 h
  obtain ⟨r3, h3, h⟩ := Option.map_eq_some_iff.1 h
  simp only [Prod.mk.injEq] at h
  have near : ∀ n, Near exBase n ↔ (n - exBase).toNat < 2147483648 := fun n => Iff.rfl
  refine ⟨r0.1, r0.2, r1.1, r1.2, r2.1, r2.2, r3.1, r3.2, ⟨rfl, rfl, rfl, rfl⟩, h0, ?_, (near _).2 (by decide +kernel), h1, ?_, ?_, h2, ?_, h.2.1, h3, h.2.2⟩
  · intro d hd
    have hm : r0.1.mods = [⟨.udp, Bst.State.init, noHead, []⟩, ⟨.tcp, Bst.State.init, noHead, []⟩] := by
      simp only [run, step, both, Option.some.injEq] at h0
      rw [← h0]; rfl
    rw [hm] at hd
    obtain rfl := Option.some.inj hd
    exact ⟨fun p hp => by simp [waiting, Bst.State.init, Bst.Tree.toList] at hp, fun m hm => by simp at hm⟩
  · exact ⟨poses_accepted (twoQ_poses 8), fun _ => ⟨_, ms, twoQ_poses 8, (near _).2 (by decide +kernel), fun _ => ⟨rfl, rfl⟩⟩⟩
  · exact ⟨⟨ms, twoQ_poses 8, rfl⟩, twoQ.bytes, by rw [h.1]; exact List.mem_singleton.2 rfl⟩
  · intro x hx
    simp only [exOthers, List.map_cons, List.map_nil, List.mem_cons, List.not_mem_nil, or_false] at hx
    rcases hx with rfl | rfl | rfl
    · exact ⟨⟨poses_accepted (bureauQuestion 9), fun _ => ⟨_, bureau, bureauQuestion 9, (near _).2 (by decide +kernel), fun e => absurd e (by decide +kernel)⟩⟩, trivial⟩
    · exact ⟨⟨trivial, fun ⟨w, hw⟩ => by cases hw⟩, fun _ => by decide⟩
    · exact ⟨⟨trivial, fun ⟨w, hw⟩ => by cases hw⟩, fun _ => Or.inr ⟨bureauReply, bureau, _, bureauAnswer, rfl, rfl, by decide +kernel⟩⟩

end Verif.Forwarder
