import Verif.Lemmas.Alias
import Verif.Props.Answered
import Verif.Props.HostsLoop
import Verif.Props.DnsCacheAlias
/-! C109: a query for a name with an alias in the hosts data gets what the server says about the target of the alias. -/

namespace Verif.Forwarder
open Msg MContext Pipeline HostsLoop HostsLoop.Spec DnsCache.Spec Message Name Keeps

variable {Addr : Type}

/-- The client `c` sends the message `q`, which asks for the name `ls`. -/
def Sends (c : Client Addr) (q : Message.Msg) (ls : List (List Byte)) (ev : Ev Addr) : Prop :=
  ∃ (post agent : List Byte) (x : Luck), Answer q ls post ∧
    ((∃ a sock, c = (some a, sock) ∧ ev = .udpQuery sock a agent (q.bytes ++ post) q.bytes.length x) ∨
      ∃ sock, c = (none, sock) ∧ ev = .tcpQuery sock agent (q.bytes ++ post) q.bytes.length x)

/-- Neither a client nor the program itself, when it asks for an alias, uses the identifier `i`. -/
def Avoids (i : Nat) : Ev Addr → Prop
  | .innerTake _ _ _ rnd _ _ => rnd % 65536 ≠ i
  | ev => ∀ w, (w, some i) ∉ queryOf ev

/-- The alias worker does not process a reply whose place is that of a query with the identifier `i`, and it does not give up on what it
took at the time `t`. -/
def Undisturbed (i : Nat) (t : Int) (st : St Addr) : Ev Addr → Prop
  | .outerTake k _ _ _ _ => ∀ m l place b q, pick st.outer k = some (m, l) → m.back = some (.loop place b) → st.loop.mem place = some q → q.id.toNat ≠ i
  | .loopSweep now => now - t ≤ 2
  | _ => True

/-- Every event of a history, in its state. -/
def Along (Q : St Addr → Ev Addr → Prop) : St Addr → List (Env × Ev Addr) → Prop
  | _, [] => True
  | st, (e, ev) :: l => Q st ev ∧ ∀ st' acts, step e st ev = some (st', acts) → Along Q st' l

/-- In the course of the history a message with the identifier `i` leaves for the server number `j`, which does not answer it and on which
the program does not give up until the end. -/
def Left (j i : Nat) (st : St Addr) (l : List (Env × Ev Addr)) : Prop :=
  ∃ pre e ev more st' a st'' a', l = pre ++ (e, ev) :: more ∧ run st pre = some (st', a) ∧ step e st' ev = some (st'', a') ∧ Leaves j i ev a' ∧
    ∀ x ∈ more, Patient j i (clockOf ev) x.2

/-- The header is that of the program's query for the target, for the query that waits at the place `a`. -/
def ForAlias (a : Nat) (name : List Byte) (m : Head Addr) : Prop :=
  m.hash = bkdrHash name ∧ m.domain = name ∧ ∃ t, m.back = some (.loop a t)

theorem forAlias_stays (a : Nat) (name : List Byte) : Stays (Addr := Addr) (ForAlias a name) :=
  fun _ _ h ⟨h1, h2, t, h3⟩ => ⟨h.hash.trans h1, h.domain.trans h2, t, h.back.trans h3⟩

theorem avoids_source {i : Nat} {ev : Ev Addr} (h : Avoids i ev) {m : Head Addr} (hs : Source ev m) : (ident m.entity).toNat ≠ i := by
  cases ev with
  | udpQuery sock addr agent b len x =>
    obtain ⟨h0, hf⟩ := hs
    obtain ⟨e1, e2, e3, e4, e5, e6⟩ := fill_zero hf
    obtain ⟨h12, _⟩ := accepted_head e4 e5 e6
    intro hi
    refine h (some addr, sock) ?_
    simp only [queryOf, List.mem_singleton, Prod.mk.injEq, true_and]
    rw [← e4, idOf_some (by omega), hi]
  | tcpQuery sock agent b len x =>
    obtain ⟨h0, hf⟩ := hs
    obtain ⟨e1, e2, e3, e4, e5, e6⟩ := fill_zero hf
    obtain ⟨h12, _⟩ := accepted_head e4 e5 e6
    intro hi
    refine h (none, sock) ?_
    simp only [queryOf, List.mem_singleton, Prod.mk.injEq, true_and]
    rw [← e4, idOf_some (by omega), hi]
  | innerTake k cap sock rnd old x =>
    obtain ⟨_, h2⟩ := hs
    rw [h2]
    exact h
  | _ => cases hs

theorem run_append {l l' : List (Env × Ev Addr)} : ∀ {st st' : St Addr} {a : List (Act Addr)}, run st (l ++ l') = some (st', a) →
    ∃ s1 a1 a2, run st l = some (s1, a1) ∧ run s1 l' = some (st', a2) := by
  induction l with
  | nil => intro st st' a h; exact ⟨st, [], a, rfl, h⟩
  | cons x l ih =>
    intro st st' a h
    obtain ⟨e, ev⟩ := x
    rw [List.cons_append] at h
    unfold run at h
    split at h
    · cases h
    · rename_i s1 b1 h1
      split at h
      · cases h
      · rename_i s2 b2 h2
        simp only [Option.some.injEq, Prod.mk.injEq] at h
        obtain ⟨rfl, _⟩ := h
        obtain ⟨s3, c1, c2, g1, g2⟩ := ih h2
        refine ⟨s3, b1 ++ c1, c2, ?_, g2⟩
        unfold run
        rw [h1]
        dsimp only
        rw [g1]

theorem run_cons {e : Env} {ev : Ev Addr} {l : List (Env × Ev Addr)} {st st' : St Addr} {a : List (Act Addr)} (h : run st ((e, ev) :: l) = some (st', a)) :
    ∃ s1 a1 a2, step e st ev = some (s1, a1) ∧ run s1 l = some (st', a2) := by
  unfold run at h
  split at h
  · cases h
  · rename_i s1 b1 h1
    split at h
    · cases h
    · rename_i s2 b2 h2
      simp only [Option.some.injEq, Prod.mk.injEq] at h
      obtain ⟨rfl, _⟩ := h
      exact ⟨s1, b1, b2, h1, h2⟩

theorem inv_run [DecidableEq Addr] {l : List (Env × Ev Addr)} : ∀ {st st' : St Addr} {a : List (Act Addr)}, (∀ x ∈ l, Accepted x.2) → Inv st →
    st.loop.table.root.Ordered idCompare → run st l = some (st', a) → Inv st' ∧ st'.loop.table.root.Ordered idCompare := by
  induction l with
  | nil =>
    intro st st' a _ h ho hr
    simp only [run, Option.some.injEq, Prod.mk.injEq] at hr
    obtain ⟨rfl, _⟩ := hr
    exact ⟨h, ho⟩
  | cons x l ih =>
    intro st st' a ha h ho hr
    obtain ⟨e, ev⟩ := x
    obtain ⟨s1, a1, a2, h1, h2⟩ := run_cons hr
    have hae := ha (e, ev) List.mem_cons_self
    exact ih (fun x hx => ha x (List.mem_cons_of_mem _ hx)) (step_balance h hae h1).1 (order_moves ho (step_loop hae h1)) h2

/-- The client's query at its place, nothing else with its identifier. -/
structure Held (i : Nat) (a : Nat) (p : Pending (Head Addr)) (st : St Addr) : Prop where
  inv : Inv st
  sits : Sits a p st.loop
  id : p.id.toNat = i
  alone : ∀ y ∈ st.inner, (ident y.entity).toNat ≠ i

theorem held_step [DecidableEq Addr] {i a : Nat} {p : Pending (Head Addr)} {e : Env} {ev : Ev Addr} {st st' : St Addr} {acts : List (Act Addr)} (h : Held i a p st)
    (ha : Accepted ev) (hv : Avoids i ev) (hu : Undisturbed i p.timestamp st ev) (hs : step e st ev = some (st', acts)) : Held i a p st' := by
  refine ⟨(step_balance h.inv ha hs).1, sits_moves h.sits (step_loop ha hs) ?_ ?_ ?_, h.id, fun y hy => ?_⟩
  · rintro k cap sock rnd old x m l rfl hp hid
    exact h.alone m ((pick_perm hp).mem_iff.2 List.mem_cons_self) (by rw [hid]; exact h.id)
  · rintro k cap rest header fuel m l par t q rfl hp hb hq hid
    exact hu m l par t q hp hb hq (by rw [hid]; exact h.id)
  · rintro now rfl
    exact hu
  · rcases step_inner ha hs y hy with hy | ⟨m, hm, h12, rfl⟩
    · exact h.alone y hy
    · have := avoids_source hv hm
      rwa [ident_take (a := (handed m).entity) (b := m.entity) (by simp [handed, List.take_take])]

theorem held_run [DecidableEq Addr] {i a : Nat} {p : Pending (Head Addr)} {l : List (Env × Ev Addr)} : ∀ {st st' : St Addr} {acts : List (Act Addr)}, Held i a p st →
    (∀ x ∈ l, Accepted x.2 ∧ Avoids i x.2) → Along (Undisturbed i p.timestamp) st l → run st l = some (st', acts) → Held i a p st' := by
  induction l with
  | nil =>
    intro st st' acts h _ _ hr
    simp only [run, Option.some.injEq, Prod.mk.injEq] at hr
    obtain ⟨rfl, _⟩ := hr
    exact h
  | cons x l ih =>
    intro st st' acts h ha hu hr
    obtain ⟨e, ev⟩ := x
    obtain ⟨s1, a1, a2, h1, h2⟩ := run_cons hr
    have hae := ha (e, ev) List.mem_cons_self
    exact ih (held_step h hae.1 hae.2 hu.1 h1) (fun x hx => ha x (List.mem_cons_of_mem _ hx)) (hu.2 _ _ h1) h2

/-- What the worker makes of a query it takes. -/
theorem inner_asked {fnm : List Byte → List Byte → Bool} {hosts : Hosts.Hosts} {cap : Nat} {now : Int} {rnd fuel sock : Nat} {old m : Head Addr} {s s' : Loop Addr}
    {o : Option (Head Addr)} {tg : List (List Byte)} (hget : getCName fnm hosts m.domain = some (text tg)) (htg : RfcName tg) (ht : 0 < m.type) (ht' : m.type < 65536)
    (hcap : 12 + (wire tg).length + 4 ≤ cap) (e : HostsLoop.inner fnm hosts cap now rnd fuel sock old m s = some (s', o)) :
    ∃ q, o = some q ∧ q.hash = bkdrHash (plain tg) ∧ q.domain = plain tg ∧ q.type = m.type ∧
      q.back = some (.loop (s.table.add MContext.compare ⟨ident m.entity, m.hash, m.domain, m.type, m, now⟩).1 (isFromTcp m)) := by
  unfold HostsLoop.inner at e
  rw [hget] at e
  dsimp only at e
  split at e
  · cases e
  · rename_i code q hq
    obtain ⟨a1, _, _, _, a2, a3, a4, _⟩ := asked _ _ _ _ _ _ _ _ _ _ htg ht ht' hcap hq
    rw [if_neg (by simp [a1])] at e
    simp only [Option.some.injEq, Prod.mk.injEq] at e
    obtain ⟨_, rfl⟩ := e
    exact ⟨_, rfl, a3, a2, a4, rfl⟩

theorem text_lower : ∀ ls : List (List Byte), text (lower ls) = plain ls := by
  intro ls
  unfold plain lower
  induction ls with
  | nil => rfl
  | cons l ls ih =>
    cases ls with
    | nil => rfl
    | cons l' ls =>
      simp only [List.map_cons, text] at ih ⊢
      rw [ih]
      simp
      decide

theorem lower_rfc {ls : List (List Byte)} (h : RfcName ls) : RfcName (lower ls) := by
  have hb : ∀ c : Byte, (toLowerByte c = 46 → c = 46) ∧ (toLowerByte c = 0 → c = 0) := forall_byte _ (by decide +kernel)
  refine ⟨?_, ?_⟩
  · intro l hl
    obtain ⟨x, hx, rfl⟩ := List.mem_map.1 hl
    obtain ⟨h1, h2, h3⟩ := h.1 x hx
    refine ⟨by simpa using h1, by simpa using h2, fun c hc => ?_⟩
    obtain ⟨d, hd, rfl⟩ := List.mem_map.1 hc
    exact ⟨fun e => (h3 d hd).1 ((hb d).1 e), fun e => (h3 d hd).2 ((hb d).2 e)⟩
  · rw [text_lower]; unfold plain; rw [List.length_map]; exact h.2

theorem fill_full {q : Message.Msg} {qn : Question} {ls : List (List Byte)} {post : List Byte} (hq : Answer q ls post) (h1 : q.qs = [qn]) {h m : Head Addr}
    {back : Option (Dest Addr)} {sock fuel : Nat} {agent : List Byte} {c : Int}
    (e : fill h false (q.bytes ++ post) q.bytes.length back sock agent fuel = some (c, m)) :
    c = 0 ∧ m.back = back ∧ m.sock = sock ∧ m.domain = plain ls ∧ m.hash = bkdrHash (plain ls) ∧ m.type = qn.type ∧ m.returnHeader = false ∧
      m.edns = q.ar.any (fun x => x.type == 41) ∧ m.entity = q.bytes := by
  obtain ⟨qn', h2, hk⟩ := hq.one
  obtain rfl : qn' = qn := by rw [h1] at h2; simpa using h2.symm
  obtain ⟨k, hd⟩ := hq.name
  obtain ⟨f0, hf⟩ := fill_exact (Addr := Dest Addr) q qn' ls k post hq.valid h1 hk hd hq.short hq.noZero false back sock agent
  have := fill_fuel (Nat.le_max_left fuel f0) e
  rw [hf _ (Nat.le_max_right _ _) h] at this
  simp only [Option.some.injEq, Prod.mk.injEq] at this
  obtain ⟨rfl, rfl⟩ := this
  exact ⟨rfl, rfl, rfl, rfl, rfl, rfl, rfl, rfl, rfl⟩

/-- What a client's query hands over to the alias worker. -/
theorem handed_query {c : Client Addr} {q : Message.Msg} {qn : Question} {ls : List (List Byte)} {ev : Ev Addr} {e : Env} {st st' : St Addr} {acts : List (Act Addr)}
    {m : Head Addr} (hs : Sends c q ls ev) (hq : q.qs = [qn]) (h : step e st ev = some (st', acts)) (hand : st'.inner = st.inner ++ [m]) :
    m.back = c.1.map .client ∧ m.sock = c.2 ∧ m.domain = plain ls ∧ m.hash = bkdrHash (plain ls) ∧ m.type = qn.type ∧ m.returnHeader = false ∧
      m.edns = q.ar.any (fun x => x.type == 41) ∧ m.entity = q.bytes.take 2 := by
  have hne : st'.inner ≠ st.inner := by rw [hand]; simp
  obtain ⟨post, agent, x, ha, he⟩ := hs
  have h12 : 12 ≤ q.bytes.length := by rw [Message.Msg.bytes, List.length_append, Generator.header_length ha.valid]; omega
  rcases he with ⟨a, sock, rfl, rfl⟩ | ⟨sock, rfl, rfl⟩
  all_goals
    unfold step at h
    dsimp only at h
    split at h
    · cases h
    · rename_i code m0 hf
      obtain ⟨_, f1, f2, f3, f4, f5, f6, f7, f8⟩ := fill_full ha hq hf
      split at h
      · cases h
      · rename_i st1 hd acts' hs
        simp only [Option.some.injEq, Prod.mk.injEq] at h
        obtain ⟨rfl, rfl⟩ := h
        rcases (mgrSend_inner (by rw [f8]; exact h12) hs).2 with h | h
        · exact absurd h hne
        · have : m = handed m0 := by
            dsimp only at hand
            rw [h] at hand
            simpa using hand.symm
          subst this
          exact ⟨f1, f2, f3, f4, f5, f6, f7, by simp [handed, f8]⟩

theorem sends_accepted {c : Client Addr} {q : Message.Msg} {ls : List (List Byte)} {ev : Ev Addr} (hs : Sends c q ls ev) : Accepted ev := by
  obtain ⟨post, agent, x, ha, he⟩ := hs
  rcases he with ⟨a, sock, rfl, rfl⟩ | ⟨sock, rfl, rfl⟩
  all_goals exact fun h m c e => (fill_answer ha e).1

theorem passes_valid {e : Env} {r r' : Message.Msg} (h : Passes e r r') (hv : r.Valid) : r'.Valid ∧ r'.qs = r.qs := by
  rcases h with ⟨_, rfl⟩ | ⟨c, _, h2, _, _, rfl⟩
  · exact ⟨hv, rfl⟩
  · refine ⟨⟨hv.head, hv.qs, fun x hx => ?_, hv.ns, hv.ar, hv.qd16, by simpa using hv.an16, hv.ns16, hv.ar16⟩, rfl⟩
    obtain ⟨y, hy, rfl⟩ := List.mem_map.1 hx
    exact (IpMisc.replaced_like h2 y).valid (hv.an y hy)

theorem only_free {P : Head Addr → Prop} {j : Nat} {k : UInt16} {st : St Addr} (g : OnlyAt (fun _ => True) j k st) (hf : Free j k.toNat st) : OnlyAt P j k st := by
  refine ⟨g.inv, fun d hd => ?_⟩
  obtain ⟨f1, f2⟩ := hf d hd
  have gd := g.only d hd
  refine ⟨fun p hp => ⟨(gd.table p hp).1, fun hpk => absurd (congrArg UInt16.toNat hpk) (f1 p hp)⟩, fun m hm hmk => ?_, gd.order⟩
  refine absurd ?_ (f2 m hm)
  rw [idOf_some ((g.inv.1 d (List.mem_of_getElem? hd)).2 m hm).2, hmk]

/-- The worker takes a query with an alias: it waits at its place, and the query for the target is on its way. -/
theorem taken [DecidableEq Addr] {e : Env} {st st' : St Addr} {k cap sock rnd i j : Nat} {old m : Head Addr} {x : Luck} {acts : List (Act Addr)} {inn : List (Head Addr)}
    {tg : List (List Byte)} (hi : Inv st) (ho : st.loop.table.root.Ordered idCompare) (hg : OnlyAt (fun _ => True) j (UInt16.ofNat rnd) st)
    (hpick : pick st.inner k = some (m, inn)) (hm : (ident m.entity).toNat = i)
    (hinn : ∀ y ∈ inn, idOf y.entity ≠ some i) (hloop : ∀ p ∈ waiting st.loop.table, p.id.toNat ≠ i) (hfree : Free j (rnd % 65536) st) (hri : rnd % 65536 ≠ i)
    (hget : getCName e.fnm e.hosts m.domain = some (text tg)) (htg : RfcName tg) (ht : 0 < m.type) (ht' : m.type < 65536) (hcap : 12 + (wire tg).length + 4 ≤ cap)
    (h : step e st (.innerTake k cap sock rnd old x) = some (st', acts)) :
    ∃ a, Held i a ⟨ident m.entity, m.hash, m.domain, m.type, m, x.now⟩ st' ∧ OnlyAt (ForAlias a (plain tg)) j (UInt16.ofNat rnd) st' := by
  have hall := (step_balance hi (show Accepted (.innerTake k cap sock rnd old x) from trivial) h).1
  unfold step at h
  dsimp only at h
  rw [hpick] at h
  dsimp only at h
  split at h
  · cases h
  · rename_i lp hin
    obtain ⟨q, hq, _⟩ := inner_asked hget htg ht ht' hcap hin
    cases hq
  · rename_i lp q hinr
    obtain ⟨q', hq', q1, q2, q3, q4⟩ := inner_asked hget htg ht ht' hcap hinr
    obtain rfl := Option.some.inj hq'
    split at h
    · cases h
    · rename_i st1 hd acts' hs
      simp only [Option.some.injEq, Prod.mk.injEq] at h
      obtain ⟨rfl, rfl⟩ := h
      obtain ⟨_, _, t3⟩ := inner_query hinr
      have hlp := (mgrSend_inner t3 hs).1
      dsimp only at hlp
      rw [inner_loop hinr] at hlp
      refine ⟨(st.loop.table.add MContext.compare ⟨ident m.entity, m.hash, m.domain, m.type, m, x.now⟩).1, ⟨hall, ?_, hm, ?_⟩, ⟨hall, ?_⟩⟩
      · rw [hlp]
        refine sits_add hi.2.2.1 ho (fun y hy hyi => hloop y.2 (List.mem_map_of_mem hy) ?_)
        rw [hyi]; exact hm
      · intro y hy
        have hinn' : ∀ y ∈ inn, (ident y.entity).toNat ≠ i := fun y hy hyi =>
          hinn y hy (by rw [idOf_some (hi.2.1 y ((pick_perm hpick).mem_iff.2 (List.mem_cons_of_mem _ hy))).2, hyi])
        rcases (mgrSend_inner t3 hs).2 with h | h <;> rw [h] at hy
        · exact hinn' y hy
        · rcases List.mem_append.1 hy with hy | hy
          · exact hinn' y hy
          · obtain rfl := List.mem_singleton.1 hy
            rw [ident_take (a := (handed q).entity) (b := q.entity) (by simp [handed, List.take_take]), inner_ident hinr]
            exact hri
      · have hmv := mgrSend_moves (S := (· = q)) (ev := .innerTake k cap sock rnd old x) rfl rfl t3
          (by rw [List.take_append_of_le_length (by omega)]) hs
        have hg' := only_free (P := ForAlias (st.loop.table.add MContext.compare ⟨ident m.entity, m.hash, m.domain, m.type, m, x.now⟩).1 (plain tg)) hg
          (by simpa using hfree)
        intro d' hd'
        cases hd : st.mods[j]? with
        | none => obtain ⟨g1, g2⟩ := hmv.2.1 j d' hd hd'; exact .init g1 g2
        | some d =>
          obtain ⟨d2, g1, g2⟩ := hmv.1 j d hd
          rw [g1] at hd'
          obtain rfl := Option.some.inj hd'
          refine only_moves (forAlias_stays _ _) ?_ (hi.1 d (List.mem_of_getElem? hd)).1.1 (hg'.only d hd) g2
          rintro m' rfl _
          exact ⟨q1, q2, _, q4⟩

/-- What leaves in the course of a history still waits at its end. -/
theorem left_waits [DecidableEq Addr] {j : Nat} {i : UInt16} {st st' : St Addr} {l : List (Env × Ev Addr)} {acts : List (Act Addr)} (hi : Inv st)
    (ho : st.loop.table.root.Ordered idCompare) (ha : ∀ x ∈ l, Accepted x.2) (h : Left j i.toNat st l) (hr : run st l = some (st', acts)) :
    ∃ d t, st'.mods[j]? = some d ∧ Waits i t d := by
  obtain ⟨pre, e, ev, more, s1, a1, s2, a2, rfl, h1, h2, h3, h4⟩ := h
  have hev := ha (e, ev) (by simp)
  obtain ⟨i1, _⟩ := inv_run (fun x hx => ha x (by simp [hx])) hi ho h1
  obtain ⟨s1', b1, b2, g1, g2⟩ := run_append hr
  rw [h1] at g1
  obtain ⟨rfl, _⟩ := Prod.mk.inj (Option.some.inj g1)
  obtain ⟨s2', c1, c2, g3, g4⟩ := run_cons g2
  rw [h2] at g3
  obtain ⟨rfl, _⟩ := Prod.mk.inj (Option.some.inj g3)
  obtain ⟨d2, hd2, hw2⟩ := leaves_waits i1 hev h2 h3
  obtain ⟨d3, hd3, hw3⟩ := waits_run (fun x hx => ha x (by simp [hx])) h4 (step_balance i1 hev h2).1 hd2 hw2 g4
  exact ⟨d3, _, hd3, hw3⟩

/-- C109.  A client asks for a name that the hosts data make an alias of `tg`.  The alias worker gets the query, asks a server for `tg`, and the
server's answer, with records of any types in any order, comes while both the worker and the server's module wait.  Then the client is sent one message:
its identifier and question, the alias, and the aliases and addresses of the server's answer, each now for the target of the last alias before it; or
nothing, if this does not fit or one of the aliases and addresses is of another class than IN. -/
theorem alias_answered_any [DecidableEq Addr]
    -- a client asks
    (c : Client Addr) (q : Message.Msg) (qn : Question) (ls : List (List Byte)) (i : Nat) (ev : Ev Addr) (hsend : Sends c q ls ev) (hqn : q.qs = [qn])
    (hqi : idOf q.bytes = some i) (hls : RfcName ls) (hne : ls ≠ []) (hty : qn.type ≠ 0)
    -- its query is handed over to the alias worker
    (st st0 st1 st2 : St Addr) (l0 l1 : List (Env × Ev Addr)) (a0 a1 a2 : List (Act Addr)) (e1 : Env) (m : Head Addr) (hst : Start st)
    (h0 : run st l0 = some (st0, a0)) (acc0 : ∀ x ∈ l0, Accepted x.2) (h1 : step e1 st0 ev = some (st1, a1)) (hand : st1.inner = st0.inner ++ [m])
    (h2 : run st1 l1 = some (st2, a2)) (acc1 : ∀ x ∈ l1, Accepted x.2)
    -- the worker takes it; nothing else with its identifier is there
    (k cap sock rnd j : Nat) (old : Head Addr) (x : Luck) (inn : List (Head Addr)) (e2 : Env) (tg : List (List Byte)) (hpick : pick st2.inner k = some (m, inn))
    (hinn : ∀ y ∈ inn, idOf y.entity ≠ some i) (hloop : ∀ p ∈ waiting st2.loop.table, p.id.toNat ≠ i) (hri : rnd % 65536 ≠ i)
    (hget : getCName e2.fnm e2.hosts (plain ls) = some (text tg)) (htg : RfcName tg) (hcap : 12 + (wire tg).length + 4 ≤ cap)
    -- its query for the target leaves for the server number `j`; nobody else uses the two identifiers meanwhile
    (l2 : List (Env × Ev Addr)) (st3 : St Addr) (a3 : List (Act Addr)) (hfree : Free j (rnd % 65536) st2)
    (h3 : run st2 ((e2, .innerTake k cap sock rnd old x) :: l2) = some (st3, a3)) (hleft : Left j (rnd % 65536) st2 ((e2, .innerTake k cap sock rnd old x) :: l2))
    (hl2 : ∀ x ∈ l2, Accepted x.2 ∧ Avoids i x.2 ∧ Avoids (rnd % 65536) x.2)
    (hu2 : Along (Undisturbed i x.now) st2 ((e2, .innerTake k cap sock rnd old x) :: l2))
    -- the server answers
    (e4 : Env) (r r' : Message.Msg) (rs : List (List Byte)) (tail bn : List Byte) (fuel : Nat) (clock : Nat → Int) (st4 : St Addr) (a4 : List (Act Addr))
    (fs : List Fact) (hr : Answer r rs tail) (hid : idOf r.bytes = some (rnd % 65536)) (hname : plain rs = plain tg) (hpass : Passes e4 r r') (hap : e4.ap = false ∨ HasEdns r)
    (h4 : step e4 st3 (.response j (r.bytes ++ tail) r.bytes.length fuel bn clock) = some (st4, a4))
    (hsays : Says r'.bytes (12 + (qBytes r'.qs).length) r'.an fs) (hplain : ∀ f ∈ fs, Taken f.type → Plain f) :
    -- the answer goes to the worker, which answers the client
    ∃ mm, a4 = [] ∧ st4.outer = st3.outer ++ [mm] ∧ ∀ (l5 : List (Env × Ev Addr)) (st5 st6 : St Addr) (a5 a6 : List (Act Addr)) (e6 : Env) (k' cap' header fuel' : Nat)
        (rest : List Byte) (out' : List (Head Addr)), run st4 l5 = some (st5, a5) → (∀ x ∈ l5, Accepted x.2 ∧ Avoids i x.2) → Along (Undisturbed i x.now) st4 l5 →
        pick st5.outer k' = some (mm, out') → cap' < 16384 →
        step e6 st5 (.outerTake k' cap' rest header fuel') = some (st6, a6) →
        ((∀ y ∈ r'.an, Taken y.type → y.klass = 1) ∧
            12 + ((wire (lower ls)).length + 4) + size (⟨lower ls, 5, 60, .name (lower tg)⟩ :: Spec.taken fs) + (if (q.ar.any fun x => x.type == 41) then 11 else 0) ≤ cap' →
          ∃ out : Message.Msg, a6 = [.client (toClient out.bytes c)] ∧
            Combined i ⟨wire (lower ls), qn.type, 1⟩ (q.ar.any fun x => x.type == 41) (⟨lower ls, 5, 60, .name (lower tg)⟩ ::
              renamed (lower tg) (Spec.taken fs)) r' out) ∧
        (¬ ((∀ y ∈ r'.an, Taken y.type → y.klass = 1) ∧
            12 + ((wire (lower ls)).length + 4) + size (⟨lower ls, 5, 60, .name (lower tg)⟩ :: Spec.taken fs) + (if (q.ar.any fun x => x.type == 41) then 11 else 0) ≤ cap') →
          a6 = []) := by
  obtain ⟨b1, b2, b3, b4, b5, b6, b7, b8⟩ := handed_query hsend hqn h1 hand
  have hqv : qn.type < 65536 := by
    obtain ⟨post, agent, x, ha, _⟩ := hsend
    exact (ha.valid.qs qn (by rw [hqn]; simp)).2.2.1
  have h12 : 12 ≤ q.bytes.length := by
    obtain ⟨post, agent, x, ha, _⟩ := hsend
    rw [Message.Msg.bytes, List.length_append, Generator.header_length ha.valid]; omega
  have hmi : (ident m.entity).toNat = i := by
    rw [ident_take (a := m.entity) (b := q.bytes) (by rw [b8, List.take_take, Nat.min_self])]
    exact (idOf_ident hqi).symm
  have hrn : (UInt16.ofNat rnd).toNat = rnd % 65536 := by simp
  -- up to the worker
  have g0 := onlyAt_run (P := fun _ => True) (fun _ _ _ _ => trivial) (j := j) (i := UInt16.ofNat rnd) acc0 (fun _ _ _ _ _ => trivial)
    ⟨(start_inv hst).1, fun d hd => by rw [hst.1] at hd; cases hd⟩ h0
  have g1 := onlyAt_step (P := fun _ => True) (fun _ _ _ _ => trivial) (sends_accepted hsend) (fun _ _ _ => trivial) g0 h1
  have g2 := onlyAt_run (P := fun _ => True) (fun _ _ _ _ => trivial) acc1 (fun _ _ _ _ _ => trivial) g1 h2
  have o0 := (inv_run acc0 (start_inv hst).1 (by rw [hst.2.1]; trivial) h0).2
  have o1 := order_moves o0 (step_loop (sends_accepted hsend) h1)
  have o2 := (inv_run acc1 g1.inv o1 h2).2
  -- the worker takes it
  obtain ⟨s1, c1, c2, p1, p2⟩ := run_cons h3
  obtain ⟨a, hheld, honly⟩ := taken g2.inv o2 g2 hpick hmi hinn hloop hfree hri (by rw [b3]; exact hget) htg (by rw [b5]; omega) (by rw [b5]; exact hqv) hcap p1
  have hh3 := held_run hheld (fun x hx => ⟨(hl2 x hx).1, (hl2 x hx).2.1⟩) (hu2.2 _ _ p1) p2
  have ho3 := onlyAt_run (forAlias_stays a (plain tg)) (fun x hx => (hl2 x hx).1)
    (fun x hx m' hs hi => absurd (by rw [hi]; exact hrn) (avoids_source (hl2 x hx).2.2 hs)) honly p2
  obtain ⟨d3, t3, hd3, hw3⟩ := left_waits (i := UInt16.ofNat rnd) g2.inv o2 (fun x hx => by
    rcases List.mem_cons.1 hx with rfl | hx
    · trivial
    · exact (hl2 x hx).1) (by rw [hrn]; exact hleft) h3
  -- the answer
  obtain ⟨mm, hmm, hme, ha4, hout4, hin4, hlp4⟩ := response_found (forAlias_stays a (plain tg)) ho3 (fun m' hm' => by rw [hname]; exact hm'.1) hd3 hw3 hr
    (by rw [hrn]; exact hid) hpass hap h4
  obtain ⟨m1, m2, t, m3⟩ := hmm
  have hsb : post mm (sendBack mm) = ([], [{ mm with entity := r'.bytes }]) := by
    simp [sendBack, m3, post, hme]
  rw [hsb] at ha4 hout4
  refine ⟨_, ha4, hout4, fun l5 st5 st6 a5 a6 e6 k' cap' header fuel' rest out' h5 hl5 hu5 hpick' hcap' h6 => ?_⟩
  have hh4 : Held i a _ st4 := ⟨(step_balance hh3.inv (show Accepted (.response j (r.bytes ++ tail) r.bytes.length fuel bn clock) from trivial) h4).1, by rw [hlp4]; exact hh3.sits, hh3.id, by rw [hin4]; exact hh3.alone⟩
  have hh5 := held_run hh4 hl5 hu5 h5
  obtain ⟨hval, hqs⟩ := passes_valid hpass hr.valid
  unfold step at h6
  dsimp only at h6
  rw [hpick'] at h6
  dsimp only at h6
  rw [m3] at h6
  dsimp only at h6
  unfold HostsLoop.outer at h6
  rw [hh5.sits.mem] at h6
  dsimp only at h6
  rw [sits_search hh5.sits] at h6
  dsimp only at h6
  rw [m2, ← text_lower tg] at h6
  cases hc : combine { m with edns := m.edns } cap' (ident m.entity).toNat (r'.bytes ++ rest) (header + r'.bytes.length) fuel' (text (lower tg)) with
  | none => rw [hc] at h6; cases h6
  | some res =>
    rw [hc] at h6
    have hed : ({ m with edns := m.edns } : Head Addr).edns = (q.ar.any fun x => x.type == 41) := b7
    have hdom : ({ m with edns := m.edns } : Head Addr).domain = text (lower ls) := by show m.domain = _; rw [b3, text_lower]
    have htyp : 0 < ({ m with edns := m.edns } : Head Addr).type ∧ ({ m with edns := m.edns } : Head Addr).type < 65536 := by
      show 0 < m.type ∧ m.type < 65536; rw [b5]; exact ⟨Nat.pos_of_ne_zero hty, hqv⟩
    have hq0 : r'.qs ≠ [] := by rw [hqs]; obtain ⟨q1, q2, _⟩ := hr.one; rw [q2]; simp
    refine ⟨fun ⟨hk, hroom⟩ => ?_, fun hroom => ?_⟩
    · obtain ⟨out, rfl, hco⟩ := combined_every _ cap' _ _ fuel' r' rest (lower ls) (lower tg) fs res hdom (lower_rfc hls)
        (by simpa [lower] using hne) htyp (lower_rfc htg) hval hq0 (by omega) hk hsays hplain hcap' (by rw [hed]; exact hroom) hc
      refine ⟨out, ?_, ?_⟩
      · obtain ⟨_, rfl⟩ := Prod.mk.inj (Option.some.inj h6)
        obtain ⟨c1, c2⟩ := c
        cases c1 with
        | none =>
          dsimp only [Option.map_none] at b1
          simp [sendBack, b1, b2, post, toClient]
        | some a =>
          dsimp only [Option.map_some] at b1
          simp [sendBack, b1, b2, b6, post, toClient]
      · rw [hmi, b5, b7] at hco
        exact hco
    · have hnone : res = none := by
        by_cases hk : ∀ y ∈ r'.an, Taken y.type → y.klass = 1
        · exact every_no_room _ cap' _ _ fuel' r' rest (lower ls) (lower tg) fs res hdom (lower_rfc hls)
            htyp (lower_rfc htg) hval hq0 (by omega) hk hsays hplain hcap' (by rw [hed]; exact fun h => hroom ⟨hk, h⟩) hc
        · exact class_given_up _ cap' _ _ fuel' r' rest _ res hval hq0 (by omega) (by
            false_or_by_contra; rename_i hno
            exact hk fun y hy ht => Classical.byContradiction fun hne => hno ⟨y, hy, ht, hne⟩) hc
      subst hnone
      exact (Prod.mk.inj (Option.some.inj h6)).2.symm

/-- C109.  A client asks for a name that the hosts data make an alias of `tg`.  The alias worker gets the query, asks a server for `tg`, and the
server's answer comes while both the worker and the server's module wait.  Then the client is sent one message: its identifier and question, the alias,
and what the server says about `tg`.

If the answers come in the order of the chain, they are for the names they were for.

Missing: two queries with the same identifier at the alias worker, answers that come after the worker gave up (see `ownTarget_false`), and names with bytes of 192 and more. -/
theorem alias_answered_partial [DecidableEq Addr]
    -- a client asks
    (c : Client Addr) (q : Message.Msg) (qn : Question) (ls : List (List Byte)) (i : Nat) (ev : Ev Addr) (hsend : Sends c q ls ev) (hqn : q.qs = [qn])
    (hqi : idOf q.bytes = some i) (hls : RfcName ls) (hne : ls ≠ []) (hty : qn.type ≠ 0 ∧ qn.type ≠ 5)
    -- its query is handed over to the alias worker
    (st st0 st1 st2 : St Addr) (l0 l1 : List (Env × Ev Addr)) (a0 a1 a2 : List (Act Addr)) (e1 : Env) (m : Head Addr) (hst : Start st)
    (h0 : run st l0 = some (st0, a0)) (acc0 : ∀ x ∈ l0, Accepted x.2) (h1 : step e1 st0 ev = some (st1, a1)) (hand : st1.inner = st0.inner ++ [m])
    (h2 : run st1 l1 = some (st2, a2)) (acc1 : ∀ x ∈ l1, Accepted x.2)
    -- the worker takes it; nothing else with its identifier is there
    (k cap sock rnd j : Nat) (old : Head Addr) (x : Luck) (inn : List (Head Addr)) (e2 : Env) (tg : List (List Byte)) (hpick : pick st2.inner k = some (m, inn))
    (hinn : ∀ y ∈ inn, idOf y.entity ≠ some i) (hloop : ∀ p ∈ waiting st2.loop.table, p.id.toNat ≠ i) (hri : rnd % 65536 ≠ i)
    (hget : getCName e2.fnm e2.hosts (plain ls) = some (text tg)) (htg : RfcName tg) (hcap : 12 + (wire tg).length + 4 ≤ cap)
    -- its query for the target leaves for the server number `j`; nobody else uses the two identifiers meanwhile
    (l2 : List (Env × Ev Addr)) (st3 : St Addr) (a3 : List (Act Addr)) (hfree : Free j (rnd % 65536) st2)
    (h3 : run st2 ((e2, .innerTake k cap sock rnd old x) :: l2) = some (st3, a3)) (hleft : Left j (rnd % 65536) st2 ((e2, .innerTake k cap sock rnd old x) :: l2))
    (hl2 : ∀ x ∈ l2, Accepted x.2 ∧ Avoids i x.2 ∧ Avoids (rnd % 65536) x.2)
    (hu2 : Along (Undisturbed i x.now) st2 ((e2, .innerTake k cap sock rnd old x) :: l2))
    -- the server answers
    (e4 : Env) (r r' : Message.Msg) (rs : List (List Byte)) (tail bn : List Byte) (fuel : Nat) (clock : Nat → Int) (st4 : St Addr) (a4 : List (Act Addr))
    (fs fs' : List Fact) (hr : Answer r rs tail) (hid : idOf r.bytes = some (rnd % 65536)) (hname : plain rs = plain tg) (hpass : Passes e4 r r') (hap : e4.ap = false ∨ HasEdns r)
    (h4 : step e4 st3 (.response j (r.bytes ++ tail) r.bytes.length fuel bn clock) = some (st4, a4)) (hk : ∀ y ∈ r'.an, y.klass = 1)
    (hsays : Says r'.bytes (12 + (qBytes r'.qs).length) r'.an fs) (hplain : ∀ f ∈ fs, Plain f) (hfollows : Follows qn.type (lower tg) fs fs') :
    -- the answer goes to the worker, which answers the client
    ∃ mm, a4 = [] ∧ st4.outer = st3.outer ++ [mm] ∧ ∀ (l5 : List (Env × Ev Addr)) (st5 st6 : St Addr) (a5 a6 : List (Act Addr)) (e6 : Env) (k' cap' header fuel' : Nat)
        (rest : List Byte) (out' : List (Head Addr)), run st4 l5 = some (st5, a5) → (∀ x ∈ l5, Accepted x.2 ∧ Avoids i x.2) → Along (Undisturbed i x.now) st4 l5 →
        pick st5.outer k' = some (mm, out') → cap' < 16384 →
        12 + ((wire (lower ls)).length + 4) + size (⟨lower ls, 5, 60, .name (lower tg)⟩ :: fs) + 11 ≤ cap' →
        step e6 st5 (.outerTake k' cap' rest header fuel') = some (st6, a6) →
        ∃ out : Message.Msg, a6 = [.client (toClient out.bytes c)] ∧
          Combined i ⟨wire (lower ls), qn.type, 1⟩ (q.ar.any fun x => x.type == 41) (⟨lower ls, 5, 60, .name (lower tg)⟩ :: fs') r' out := by
  rw [follows_renamed hfollows hplain hty.2]
  obtain ⟨mm, z1, z2, z3⟩ := alias_answered_any c q qn ls i ev hsend hqn hqi hls hne hty.1 st st0 st1 st2 l0 l1 a0 a1 a2 e1 m hst h0 acc0 h1 hand h2 acc1 k cap sock rnd j old x inn e2 tg hpick hinn hloop hri hget htg hcap l2 st3 a3 hfree h3 hleft hl2 hu2 e4 r r' rs tail bn fuel clock st4 a4 fs hr hid hname hpass hap h4 hsays (fun f hf _ => hplain f hf)
  rw [taken_all hplain] at z3
  exact ⟨mm, z1, z2, fun l5 st5 st6 a5 a6 e6 k' cap' header fuel' rest out' y1 y2 y3 y4 y5 y6 y7 =>
    (z3 l5 st5 st6 a5 a6 e6 k' cap' header fuel' rest out' y1 y2 y3 y4 y5 y7).1 ⟨fun y hy _ => hk y hy, by split <;> omega⟩⟩

/-! ### a case that meets the hypotheses -/

/-- The hosts data make `a.org` an alias of `ms.com` and `b.org` one of `office.com`. -/
def alEnv : Env := { exEnv with cacheOn := false, hosts := ⟨Hosts.loadAll Hosts.initCont [str "ms.com a.org", str "office.com b.org"], none, false⟩ }

def alQuery : Message.Msg := ⟨[1, 2, 1, 0], [⟨wire org, 1, 1⟩], [], [], []⟩
def alReply : Message.Msg := ⟨[3, 4, 0x81, 0x80], [⟨wire ms, 1, 1⟩], [⟨wire ms, 1, 1, 60, [1, 2, 3, 4]⟩], [], []⟩
def alTake : Ev Nat := .innerTake 0 600 9 772 noHead exLuck
def alWait : List (Env × Ev Nat) := [(alEnv, .sweep 0 1002), (alEnv, .loopSweep 1002)]

def goes (st : St Nat) (l : List (Env × Ev Nat)) : St Nat × List (Act Nat) := (run st l).getD (st, [])

def al0 : St Nat := (goes exSt [(alEnv, both)]).1
def al1 : St Nat := ((step alEnv al0 (udpAsk 8 alQuery.bytes)).getD (exSt, [])).1
def al2 : St Nat := (goes al1 [(alEnv, .sweep 1 1000)]).1
def al3 : St Nat := (goes al2 ((alEnv, alTake) :: alWait)).1
def al4 : St Nat := ((step alEnv al3 (serverSays 0 alReply.bytes)).getD (exSt, [])).1
def al5 : St Nat := (goes al4 [(alEnv, .loopSweep 1002)]).1
def al6 : St Nat × List (Act Nat) := (step alEnv al5 (.outerTake 0 600 [] 30 60)).getD (exSt, [])

theorem goes_run {st : St Nat} {l : List (Env × Ev Nat)} (h : (run st l).isSome = true) : run st l = some ((goes st l).1, (goes st l).2) := by
  obtain ⟨x, hx⟩ := Option.isSome_iff_exists.1 h
  simp [goes, hx]

theorem step_get {e : Env} {st : St Nat} {ev : Ev Nat} (h : (step e st ev).isSome = true) :
    step e st ev = some (((step e st ev).getD (exSt, [])).1, ((step e st ev).getD (exSt, [])).2) := by
  obtain ⟨x, hx⟩ := Option.isSome_iff_exists.1 h
  simp [hx]

theorem alQuery_ok : Answer alQuery org (List.replicate 200 0) where
  valid := plainValid _ _ _ _ [] orgName (by decide) (by simp)
  one := ⟨_, rfl, rfl⟩
  name := ⟨_, denotes_wire (by decide) (by unfold At; decide +kernel) (by decide +kernel)⟩
  short := by decide
  noZero := by decide

theorem alReply_ok : Answer alReply ms (List.replicate 200 0) where
  valid := plainValid _ _ _ _ [] msName (by decide) (by
        intro r hr
        simp only [List.append_nil, List.mem_singleton] at hr
        subst hr
        exact ⟨msName, by decide, by decide, by decide, by decide, by decide, by decide⟩)
  one := ⟨_, rfl, rfl⟩
  name := ⟨_, denotes_wire (by decide) (by unfold At; decide +kernel) (by decide +kernel)⟩
  short := by decide
  noZero := by decide

theorem alNames : RfcName org ∧ RfcName ms := by
  refine ⟨⟨?_, by decide⟩, ⟨?_, by decide⟩⟩ <;> intro l hl <;> simp only [org, ms, List.mem_cons, List.not_mem_nil, or_false] at hl <;>
    rcases hl with rfl | rfl <;> exact ⟨by decide, by decide, by decide⟩

theorem alSays : Says alReply.bytes (12 + (qBytes alReply.qs).length) alReply.an [⟨ms, 1, 60, .raw [1, 2, 3, 4]⟩] := by
  refine .cons (f := ⟨ms, 1, 60, .raw [1, 2, 3, 4]⟩) ⟨rfl, rfl, rfl, alNames.2,
    ⟨_, denotes_wire (by decide) (by unfold At; decide +kernel) (by decide +kernel)⟩, Or.inl rfl, rfl, by simp⟩ (by simp [Cached]) (.nil _)

theorem alWait_ok : ∀ x ∈ alWait, Accepted x.2 ∧ Avoids 258 x.2 ∧ Avoids 772 x.2 ∧ Patient 0 772 1000 x.2 := by
  intro x hx
  simp only [alWait, List.mem_cons, List.not_mem_nil, or_false] at hx
  rcases hx with rfl | rfl
  · exact ⟨trivial, fun _ h => (by cases h), fun _ h => (by cases h), fun _ => by decide⟩
  · exact ⟨trivial, fun _ h => (by cases h), fun _ h => (by cases h), trivial⟩

example : ∃ out : Message.Msg, al6.2 = [.client (toClient out.bytes (some 8, 1))] ∧
    Combined 258 ⟨wire org, 1, 1⟩ false [⟨org, 5, 60, .name ms⟩, ⟨ms, 1, 60, .raw [1, 2, 3, 4]⟩] alReply out := by
  have hs0 := goes_run (st := exSt) (l := [(alEnv, both)]) (by decide +kernel)
  have hs1 := step_get (e := alEnv) (st := al0) (ev := udpAsk 8 alQuery.bytes) (by decide +kernel)
  have hs2 := goes_run (st := al1) (l := [(alEnv, .sweep 1 1000)]) (by decide +kernel)
  have hs3 := goes_run (st := al2) (l := (alEnv, alTake) :: alWait) (by decide +kernel)
  have hst := step_get (e := alEnv) (st := al2) (ev := alTake) (by decide +kernel)
  have hs4 := step_get (e := alEnv) (st := al3) (ev := serverSays 0 alReply.bytes) (by decide +kernel)
  have hs5 := goes_run (st := al4) (l := [(alEnv, .loopSweep 1002)]) (by decide +kernel)
  have hs6 := step_get (e := alEnv) (st := al5) (ev := .outerTake 0 600 [] 30 60) (by decide +kernel)
  obtain ⟨mm, _, hmm, h⟩ := alias_answered_partial (some 8, 1) alQuery ⟨wire org, 1, 1⟩ org 258 _ ⟨List.replicate 200 0, [], exLuck, alQuery_ok, Or.inl ⟨8, 1, rfl, rfl⟩⟩ rfl
    (by decide) alNames.1 (by decide) (by decide) exSt al0 al1 al2 _ _ _ _ _ alEnv (al1.inner.headD noHead) ⟨rfl, rfl, rfl, rfl⟩ hs0
    (by simp [both, Accepted]) hs1 (by decide +kernel) hs2 (by simp [Accepted]) 0 600 9 772 0 noHead exLuck [] alEnv ms (by decide +kernel) (by simp)
    (by decide +kernel) (by decide) (by decide +kernel) alNames.2 (by decide) alWait al3 _
    (by unfold Free; decide +kernel) hs3
    ⟨[], alEnv, alTake, alWait, al2, [], _, _, rfl, rfl, hst, ⟨query 3 4 ms 1, by decide +kernel, by decide⟩, fun x hx => (alWait_ok x hx).2.2.2⟩
    (fun x hx => ⟨(alWait_ok x hx).1, (alWait_ok x hx).2.1, (alWait_ok x hx).2.2.1⟩)
    ⟨trivial, fun _ _ _ => ⟨trivial, fun _ _ _ => ⟨show (1002 : Int) - 1000 ≤ 2 by decide, fun _ _ _ => trivial⟩⟩⟩
    alEnv alReply alReply ms (List.replicate 200 0) [] 50 (fun _ => 1001) al4 _ [⟨ms, 1, 60, .raw [1, 2, 3, 4]⟩] [⟨ms, 1, 60, .raw [1, 2, 3, 4]⟩]
    alReply_ok (by decide) rfl (Or.inl ⟨rfl, rfl⟩) (Or.inl rfl) hs4 (by decide) alSays (by
      intro f hf
      rw [List.mem_singleton] at hf
      subst hf
      exact ⟨by decide, by unfold Simple; decide, Or.inl ⟨rfl, rfl⟩⟩)
    (.records ms [⟨ms, 1, 60, .raw [1, 2, 3, 4]⟩] (by decide))
  refine h _ al5 _ _ _ alEnv 0 600 30 60 [] [] hs5 (by simp [Accepted, Avoids, queryOf]) ⟨show (1002 : Int) - 1000 ≤ 2 by decide, fun _ _ _ => trivial⟩ ?_ (by decide) (by decide) hs6
  have h5 : al5.outer = al4.outer := by decide +kernel
  have h3 : al3.outer = [] := by decide +kernel
  rw [h5, hmm, h3]
  rfl

/-! ### what is not so -/

/-- Whenever a client gets a reply with an alias as its first answer, for a name that has an alias in the hosts data, it is that alias. -/
def OwnTarget : Prop :=
  ∀ (e : Env) (st st' : St Nat) (l : List (Ev Nat)) (acts : List (Act Nat)) (c : Client Nat) (out : Message.Msg) (ls tg : List (List Byte)) (x : RR) (t : Nat), Start st →
    (∀ ev ∈ l, Accepted ev) → run st (l.map fun ev => (e, ev)) = some (st', acts) → .client (toClient out.bytes c) ∈ acts → out.Valid → out.qs = [⟨wire ls, t, 1⟩] →
    RfcName ls → RfcName tg → getCName e.fnm e.hosts (plain ls) = some (text tg) → out.an.head? = some x → x.type = 5 →
    ∃ k, Denotes (bytesAt out.bytes) out.bytes.length (12 + (qBytes out.qs).length + x.name.length + 10) (lower tg) k

def boxes : List (List Byte) := [str "b", str "org"]
def boxQuery : Message.Msg := ⟨[1, 5, 1, 0], [⟨wire boxes, 1, 1⟩], [], [], []⟩
def office : List (List Byte) := [str "office", str "com"]

/-- Client 8 asks for `a.org`.  The server is slow, the alias worker gives up; then client 9 asks for `b.org`.  Now the server's answer about
`ms.com` comes. -/
def staleEvs : List (Ev Nat) :=
  [both, udpAsk 8 alQuery.bytes, alTake, .loopSweep 1003, udpAsk 9 boxQuery.bytes, .innerTake 0 600 9 773 noHead exLuck, serverSays 0 alReply.bytes,
    .outerTake 0 600 [] 30 60]

def staleReply : Message.Msg :=
  ⟨[1, 5, 0x81, 0x80], [⟨wire boxes, 1, 1⟩], [⟨[192, 12], 5, 1, 60, wire ms⟩, ⟨[192, 35], 1, 1, 60, [1, 2, 3, 4]⟩], [], []⟩

/-- Client 9, who asked for `b.org`, an alias of `office.com`, is told that it is an alias of `ms.com`: the header of the worker's query refers to
its place in the table of waiting queries, which by now another query has. -/
theorem ownTarget_false : ¬ OwnTarget := by
  intro h
  have hn : RfcName boxes ∧ RfcName office := by
    refine ⟨⟨?_, by decide⟩, ⟨?_, by decide⟩⟩ <;> intro l hl <;> simp only [boxes, office, List.mem_cons, List.not_mem_nil, or_false] at hl <;>
      rcases hl with rfl | rfl <;> exact ⟨by decide, by decide, by decide⟩
  have hb : WireName (wire boxes) := .label (str "b") _ (by decide) (by decide) (.label (str "org") _ (by decide) (by decide) .root)
  have hbox : Answer boxQuery boxes (List.replicate 200 0) := ⟨plainValid _ _ _ _ [] hb (by decide) (by simp), ⟨_, rfl, rfl⟩,
    ⟨_, denotes_wire (by decide) (by unfold At; decide +kernel) (by decide +kernel)⟩, by decide, by decide⟩
  have hval : staleReply.Valid := plainValid _ _ _ _ [] hb (by decide) (by
    intro r hr
    simp only [List.append_nil, List.mem_cons, List.not_mem_nil, or_false] at hr
    rcases hr with rfl | rfl <;> exact ⟨.pointer _ _ (by decide), by decide, by decide, by decide, by decide, by decide, by decide⟩)
  have hrun : (run exSt (staleEvs.map fun ev => (alEnv, ev))).map (·.2) =
      some [.server 0 (query 3 4 ms 1), .server 0 (query 3 5 office 1), .client (toClient staleReply.bytes (some 9, 1))] := by decide +kernel
  obtain ⟨⟨st', acts⟩, h1, h2⟩ := Option.map_eq_some_iff.1 hrun
  dsimp only at h2
  obtain ⟨k, hk⟩ := h alEnv exSt st' staleEvs acts (some 9, 1) staleReply boxes office _ 1 ⟨rfl, rfl, rfl, rfl⟩ (by
      intro ev hev
      simp only [staleEvs, List.mem_cons, List.not_mem_nil, or_false] at hev
      rcases hev with rfl | rfl | rfl | rfl | rfl | rfl | rfl | rfl
      · trivial
      · exact sends_accepted (c := (some 8, 1)) ⟨_, _, _, alQuery_ok, Or.inl ⟨8, 1, rfl, rfl⟩⟩
      · trivial
      · trivial
      · exact sends_accepted (c := (some 9, 1)) ⟨_, _, _, hbox, Or.inl ⟨9, 1, rfl, rfl⟩⟩
      all_goals trivial) h1 (by rw [h2]; simp) hval rfl hn.1 hn.2 (by decide +kernel) rfl rfl
  have := DnsCache.denotes_unique hk (denotes_wire (ls := ms) (by decide) (by unfold At; decide +kernel) (by decide +kernel))
  exact absurd this (by decide)

end Verif.Forwarder
