import Verif.Lemmas.Answered
import Verif.Props.SameName
import Verif.Props.IpMisc
/-! C107: the answer of a server reaches the client that asked. -/

namespace Verif.Forwarder
open Msg MContext Pipeline HostsLoop Message Name Keeps

variable {Addr : Type}

/-- What a client asks again is the same question: nobody else uses the identifier `i` meanwhile – neither another client, nor
this one for another name, nor the program itself when it asks for an alias. -/
def Fair (c : Client Addr) (i : Nat) (name : List Byte) : Ev Addr → Prop
  | .innerTake _ _ _ rnd _ _ => rnd % 65536 ≠ i
  | ev => Accepted ev ∧ ((∃ w, (w, some i) ∈ queryOf ev) → ∃ ls, Asks ev c i ls ∧ plain ls = name)

/-- The server number `j` has not answered the identifier `i`, and the program has not given up on what was sent at the time
`t`. -/
def Patient (j i : Nat) (t : Int) : Ev Addr → Prop
  | .response k b _ _ _ _ => k = j → ∃ x, idOf b = some x ∧ x ≠ i
  | .sweep k now => k = j → now - t ≤ 2
  | _ => True

/-- At the module number `j` nothing with the identifier `i` waits or is on its way. -/
def Free (j i : Nat) (st : St Addr) : Prop :=
  ∀ d, st.mods[j]? = some d → (∀ p ∈ waiting d.table, p.id.toNat ≠ i) ∧ ∀ m ∈ d.inbox, idOf m.entity ≠ some i

/-- A message with the identifier `i` leaves for the server number `j`: as it is, or with its length before it over TCP. -/
def Leaves (j i : Nat) (ev : Ev Addr) (acts : List (Act Addr)) : Prop :=
  match ev with
  | .take .. => ∃ m, .server j (be16 m.length ++ m) ∈ acts ∧ idOf m = some i
  | _ => ∃ m, .server j m ∈ acts ∧ idOf m = some i

/-- The message `b` as it is sent to the client. -/
def toClient (b : List Byte) : Client Addr → Sent Addr
  | (some a, sock) => .udp sock a false b
  | (none, sock) => .tcp sock (be16 b.length ++ b)

/-- What the configured addresses make of the response `r`: nothing in it is blocked, and `r'` has the replacements.  (`Ready`
holds for whatever is loaded from a configuration, `IpMisc.loaded_ready`.) -/
def Passes (e : Env) (r r' : Message.Msg) : Prop :=
  (e.lists = none ∧ r' = r) ∨
    ∃ c, e.lists = some c ∧ IpMisc.Ready (IpChunk.find c) ∧ ¬ (e.blockNegative = true ∧ (r.head.getD 3 0).toNat % 16 ≠ 0) ∧
      (∀ x ∈ r.an, IpMisc.Sane x ∧ ¬ IpMisc.Blocked (IpChunk.find c) x) ∧ r' = { r with an := r.an.map (IpMisc.replaced (IpChunk.find c)) }

/-- The header is that of a query of the client for the name. -/
def Mine (c : Client Addr) (name : List Byte) (m : Head Addr) : Prop :=
  m.hash = bkdrHash name ∧ m.sock = c.2 ∧ m.back = c.1.map .client ∧ m.returnHeader = false

theorem mine_stays (c : Client Addr) (name : List Byte) : Stays (Mine c name) :=
  fun _ _ h ⟨h1, h2, h3, h4⟩ => ⟨h.hash.trans h1, h.sock.trans h2, h.back.trans h3, h.ret.trans h4⟩

theorem fair_accepted {c : Client Addr} {i : Nat} {name : List Byte} {ev : Ev Addr} (h : Fair c i name ev) : Accepted ev := by
  cases ev <;> first | exact h.1 | trivial

theorem fair_source {c : Client Addr} {i : UInt16} {name : List Byte} {ev : Ev Addr} (h : Fair c i.toNat name ev) {m : Head Addr} (hs : Source ev m)
    (hi : ident m.entity = i) : Mine c name m := by
  cases ev with
  | udpQuery sock addr agent b len x =>
    obtain ⟨h0, hf⟩ := hs
    obtain ⟨e1, e2, e3, e4, e5, e6⟩ := fill_zero hf
    obtain ⟨h12, _⟩ := accepted_head e4 e5 e6
    obtain ⟨ls, ⟨q, post, ag, y, hq, hid, ha⟩, rfl⟩ := h.2 ⟨(some addr, sock), by
      simp only [queryOf, List.mem_singleton, Prod.mk.injEq, true_and]
      rw [← e4, idOf_some (by omega), hi]⟩
    rcases ha with ⟨a, s, rfl, he⟩ | ⟨s, rfl, he⟩
    · cases he
      obtain ⟨_, f1, f2, f3, f4⟩ := fill_answer hq hf
      exact ⟨f3, f2, f1, e3⟩
    · cases he
  | tcpQuery sock agent b len x =>
    obtain ⟨h0, hf⟩ := hs
    obtain ⟨e1, e2, e3, e4, e5, e6⟩ := fill_zero hf
    obtain ⟨h12, _⟩ := accepted_head e4 e5 e6
    obtain ⟨ls, ⟨q, post, ag, y, hq, hid, ha⟩, rfl⟩ := h.2 ⟨(none, sock), by
      simp only [queryOf, List.mem_singleton, Prod.mk.injEq, true_and]
      rw [← e4, idOf_some (by omega), hi]⟩
    rcases ha with ⟨a, s, rfl, he⟩ | ⟨s, rfl, he⟩
    · cases he
    · cases he
      obtain ⟨_, f1, f2, f3, f4⟩ := fill_answer hq hf
      exact ⟨f3, f2, f1, e3⟩
  | innerTake k cap sock rnd old x =>
    obtain ⟨_, h2⟩ := hs
    rw [hi] at h2
    exact absurd h2.symm h
  | _ => cases hs

/-- The modules of a state: well-formed, and the one of interest as wanted. -/
structure OnlyAt (P : Head Addr → Prop) (j : Nat) (i : UInt16) (st : St Addr) : Prop where
  inv : Inv st
  only : ∀ d, st.mods[j]? = some d → Only P i d

theorem onlyAt_step [DecidableEq Addr] {P : Head Addr → Prop} (hP : Stays P) {j : Nat} {i : UInt16} {e : Env} {st st' : St Addr} {ev : Ev Addr}
    {acts : List (Act Addr)} (ha : Accepted ev) (hev : ∀ m, Source ev m → ident m.entity = i → P m) (h : OnlyAt P j i st)
    (hs : step e st ev = some (st', acts)) : OnlyAt P j i st' := by
  obtain ⟨m1, m2, _⟩ := step_moves h.inv ha hs
  refine ⟨(step_balance h.inv ha hs).1, fun d' hd' => ?_⟩
  cases hd : st.mods[j]? with
  | none => obtain ⟨g1, g2⟩ := m2 j d' hd hd'; exact .init g1 g2
  | some d =>
    obtain ⟨d2, g1, g2⟩ := m1 j d hd
    rw [g1] at hd'
    obtain rfl := Option.some.inj hd'
    exact only_moves hP hev (h.inv.1 d (List.mem_of_getElem? hd)).1.1 (h.only d hd) g2

theorem onlyAt_run [DecidableEq Addr] {P : Head Addr → Prop} (hP : Stays P) {j : Nat} {i : UInt16} : ∀ {l : List (Env × Ev Addr)} {st st' : St Addr}
    {acts : List (Act Addr)}, (∀ x ∈ l, Accepted x.2) → (∀ x ∈ l, ∀ m, Source x.2 m → ident m.entity = i → P m) → OnlyAt P j i st →
    run st l = some (st', acts) → OnlyAt P j i st'
  | [], st, st', acts, _, _, h, hr => by
    simp only [run, Option.some.injEq, Prod.mk.injEq] at hr
    obtain ⟨rfl, _⟩ := hr
    exact h
  | (e, ev) :: l, st, st', acts, ha, hev, h, hr => by
    unfold run at hr
    split at hr
    · cases hr
    · rename_i st1 a1 h1
      split at hr
      · cases hr
      · rename_i st2 a2 h2
        simp only [Option.some.injEq, Prod.mk.injEq] at hr
        obtain ⟨rfl, _⟩ := hr
        exact onlyAt_run hP (fun x hx => ha x (List.mem_cons_of_mem _ hx)) (fun x hx => hev x (List.mem_cons_of_mem _ hx))
          (onlyAt_step hP (ha (e, ev) List.mem_cons_self) (hev (e, ev) List.mem_cons_self) h h1) h2

/-- Whatever happens meanwhile, the query waits. -/
theorem waits_run [DecidableEq Addr] {j : Nat} {i : UInt16} {t : Int} : ∀ {l : List (Env × Ev Addr)} {st st' : St Addr} {acts : List (Act Addr)}
    {d : Module (Dest Addr)}, (∀ x ∈ l, Accepted x.2) → (∀ x ∈ l, Patient j i.toNat t x.2) → Inv st → st.mods[j]? = some d → Waits i t d →
    run st l = some (st', acts) → ∃ d', st'.mods[j]? = some d' ∧ Waits i t d'
  | [], st, st', acts, d, _, _, _, hd, hw, hr => by
    simp only [run, Option.some.injEq, Prod.mk.injEq] at hr
    obtain ⟨rfl, _⟩ := hr
    exact ⟨d, hd, hw⟩
  | (e, ev) :: l, st, st', acts, d, ha, hp, hi, hd, hw, hr => by
    unfold run at hr
    split at hr
    · cases hr
    · rename_i st1 a1 h1
      split at hr
      · cases hr
      · rename_i st2 a2 h2
        simp only [Option.some.injEq, Prod.mk.injEq] at hr
        obtain ⟨rfl, _⟩ := hr
        have hae := ha (e, ev) List.mem_cons_self
        have hpe := hp (e, ev) List.mem_cons_self
        obtain ⟨d1, g1, g2⟩ := (step_moves hi hae h1).1 j d hd
        refine waits_run (fun x hx => ha x (List.mem_cons_of_mem _ hx)) (fun x hx => hp x (List.mem_cons_of_mem _ hx)) (step_balance hi hae h1).1 g1 ?_ h2
        refine waits_moves ?_ ?_ (hi.1 d (List.mem_of_getElem? hd)).1.1 hw g2
        · rintro b len fuel bn clock rfl hid
          obtain ⟨x, hx, hne⟩ := hpe rfl
          exact hne (by rw [idOf_ident hx, hid])
        · rintro now rfl
          exact hpe rfl

/-- What leaves for a server waits for its answer. -/
theorem leaves_waits [DecidableEq Addr] {j : Nat} {i : UInt16} {e : Env} {st st' : St Addr} {ev : Ev Addr} {acts : List (Act Addr)} (hi : Inv st)
    (ha : Accepted ev) (hs : step e st ev = some (st', acts)) (hl : Leaves j i.toNat ev acts) :
    ∃ d', st'.mods[j]? = some d' ∧ Waits i (clockOf ev) d' := by
  obtain ⟨m1, _, m3⟩ := step_moves hi ha hs
  have hb : ∃ b, .server j b ∈ acts := by
    unfold Leaves at hl
    split at hl <;> obtain ⟨m, hm, _⟩ := hl <;> exact ⟨_, hm⟩
  obtain ⟨b, hb⟩ := hb
  obtain ⟨d, hd⟩ := m3 j b hb
  obtain ⟨d', hd', hm⟩ := m1 j d hd
  refine ⟨d', hd', ?_⟩
  have new : ∀ {now : Int} {p : Pending (Head Addr)}, d'.table = MContext.add d.table now p → p.id = i → Waits i now d' := by
    intro now p h1 h2
    exact ⟨{ p with timestamp := now }, by rw [h1]; exact (add_contents d.table now p).mem_iff.2 List.mem_cons_self, h2, Int.le_refl _⟩
  cases hm with
  | keeps _ _ h3 => exact absurd hb (h3 b)
  | sends m p hsrc hlen hh h1 _ h3 =>
    refine new h1 ?_
    have hev : ∃ m', .server j m' ∈ acts ∧ idOf m' = some i.toNat := by
      cases ev <;> first | exact hl | cases hsrc
    obtain ⟨m', hm', hid⟩ := hev
    have e1 := idOf_ident hid
    rw [ident_take (h3 m' hm')] at e1
    rw [hh.id]
    exact (UInt16.toNat_inj.1 e1).symm
  | queues _ _ _ _ _ h3 => exact absurd hb (h3 b)
  | takes m p n now rest _ he hh h1 _ h3 =>
    subst he
    refine new h1 ?_
    obtain ⟨m', hm', hid⟩ := hl
    have h4 := h3 _ hm'
    have h5 : m' = m.entity := by
      have := congrArg (List.drop 2) h4
      simpa [be16] using this
    subst h5
    rw [hh.id]
    exact (UInt16.toNat_inj.1 (idOf_ident hid)).symm
  | answers _ _ _ _ _ _ _ _ _ _ _ _ h3 => exact absurd hb (h3 b)
  | sweeps _ _ _ _ h3 => exact absurd hb (h3 b)

theorem fill_answer' {q : Message.Msg} {ls : List (List Byte)} {post : List Byte} (hq : Answer q ls post) {h m : Head Addr} {back : Option (Dest Addr)}
    {sock fuel : Nat} {agent : List Byte} {c : Int} (e : fill h false (q.bytes ++ post) q.bytes.length back sock agent fuel = some (c, m)) :
    m.hash = bkdrHash (plain ls) ∧ m.entity = q.bytes ∧ (HasEdns q → m.edns = true) := by
  obtain ⟨qn, h1, hk⟩ := hq.one
  obtain ⟨k, hd⟩ := hq.name
  obtain ⟨f0, hf⟩ := fill_exact (Addr := Dest Addr) q qn ls k post hq.valid h1 hk hd hq.short hq.noZero false back sock agent
  have := fill_fuel (Nat.le_max_left fuel f0) e
  rw [hf _ (Nat.le_max_right _ _) h] at this
  simp only [Option.some.injEq, Prod.mk.injEq] at this
  obtain ⟨rfl, rfl⟩ := this
  refine ⟨rfl, rfl, fun ⟨x, hx, ht⟩ => ?_⟩
  exact List.any_eq_true.2 ⟨x, hx, by simpa using ht⟩

theorem rrBytes_length_map {f : Message.RR → Message.RR} (h : ∀ r, (f r).bytes.length = r.bytes.length) (l : List Message.RR) :
    (rrBytes (l.map f)).length = (rrBytes l).length := by
  induction l with
  | nil => rfl
  | cons x l ih =>
    unfold rrBytes at *
    simp only [List.map_cons, List.flatten_cons, List.length_append, ih, h]

theorem passes_any {e : Env} {r r' : Message.Msg} (h : Passes e r r') {tail : List Byte} (hv : r.Valid) (hne : r.qs ≠ []) :
    misc e (r.bytes ++ tail) r.bytes.length = some (.nothing, r'.bytes ++ tail) ∧ r'.bytes.length = r.bytes.length ∧
      r'.bytes.take 2 = r.bytes.take 2 := by
  rcases h with ⟨h1, rfl⟩ | ⟨c, h1, h2, h3, h4, rfl⟩
  · unfold misc
    rw [h1]
    exact ⟨rfl, rfl, rfl⟩
  · refine ⟨?_, ?_, ?_⟩
    · unfold misc
      rw [h1]
      exact ((IpMisc.process_msg h2 e.blockNegative hv hne (fun x hx => (h4 x hx).1) tail _ (Nat.le_refl _)).2 h3).2
        (fun x hx => (h4 x hx).2)
    · have := rrBytes_length_map (fun r => (IpMisc.replaced_like h2 r).bytes_length) r.an
      simp only [Message.Msg.bytes, Message.Msg.body, Message.Msg.header, List.length_append, this, List.length_map]
    · have hl := hv.1
      simp only [Message.Msg.bytes, Message.Msg.header, List.append_assoc]
      rw [List.take_append_of_le_length (by omega), List.take_append_of_le_length (by omega)]

theorem passes_misc {e : Env} {r r' : Message.Msg} (h : Passes e r r') {rs : List (List Byte)} {tail : List Byte} (hr : Answer r rs tail) :
    misc e (r.bytes ++ tail) r.bytes.length = some (.nothing, r'.bytes ++ tail) ∧ r'.bytes.length = r.bytes.length ∧
      r'.bytes.take 2 = r.bytes.take 2 :=
  passes_any h hr.valid (by obtain ⟨q, hq, _⟩ := hr.one; rw [hq]; simp)

/-- Whatever is made of the response is about the name. -/
def Parsed (r : Message.Msg) (tail name : List Byte) : Prop :=
  ∀ (h m : Head Addr) (fuel : Nat) (c : Int), fill h false (r.bytes ++ tail) r.bytes.length none 0 [] fuel = some (c, m) →
    m.hash = bkdrHash name ∧ m.entity = r.bytes ∧ (HasEdns r → m.edns = true)

/-- A response to a query that waits: it is sent with a header that waits. -/
theorem response_found_any [DecidableEq Addr] {P : Head Addr → Prop} (hst : Stays P) {j : Nat} {i : UInt16} {t : Int} {e : Env} {st st' : St Addr}
    {acts : List (Act Addr)} {d : Module (Dest Addr)} {r r' : Message.Msg} {name tail : List Byte} {fuel : Nat} {bn : List Byte}
    {clock : Nat → Int} (h : OnlyAt P j i st) (hP : ∀ m, P m → m.hash = bkdrHash name) (hd : st.mods[j]? = some d) (hw : Waits i t d)
    (hv : r.Valid) (hne : r.qs ≠ []) (hr : Parsed (Addr := Addr) r tail name) (hid : idOf r.bytes = some i.toNat) (hl : Passes e r r') (hap : e.ap = false ∨ HasEdns r)
    (hs : step e st (.response j (r.bytes ++ tail) r.bytes.length fuel bn clock) = some (st', acts)) :
    ∃ m : Head Addr, P m ∧ m.entity = r'.bytes ∧ acts = (post m (sendBack m)).1 ∧ st'.outer = st.outer ++ (post m (sendBack m)).2 ∧
      st'.inner = st.inner ∧ st'.loop = st.loop := by
  have h12 : 12 ≤ r.bytes.length := by rw [Message.Msg.bytes, List.length_append, Generator.header_length hv]; omega
  have ho := h.only d hd
  unfold step at hs
  dsimp only at hs
  rw [hd] at hs
  dsimp only at hs
  split at hs
  · cases hs
  · rename_i d' ops out hre
    split at hs
    · cases hs
    · simp only [Option.some.injEq, Prod.mk.injEq] at hs
      obtain ⟨rfl, rfl⟩ := hs
      unfold respond at hre
      split at hre
      · cases hre
      · rename_i code h0 hfill
        obtain ⟨f1, f2, f3⟩ := hr _ _ _ _ hfill
        obtain ⟨p1, p2, p3⟩ := passes_any hl hv hne
        rw [f2, p1] at hre
        dsimp only at hre
        rw [if_neg (by simp), if_neg (by
          rcases hap with ha | ha
          · simp [isBlocked, ha]
          · simp [isBlocked, f3 ha]), show (r'.bytes ++ tail).take r.bytes.length = r'.bytes from List.take_left' p2] at hre
        have hident : ident (r'.bytes ++ tail) = i := by
          rw [ident_take (a := r'.bytes ++ tail) (b := r.bytes) (by rw [List.take_append_of_le_length (by omega), p3])]
          exact (UInt16.toNat_inj.1 (idOf_ident hid)).symm
        have hfound : ∃ x, d.table.root.search MContext.compare (entry (r'.bytes ++ tail) { h0 with entity := r'.bytes }) = some x := by
          refine search_id ho.order ?_ ?_
          · intro x hx hxi
            have hx' : x.2 ∈ waiting d.table := List.mem_map_of_mem hx
            simp only [entry] at hxi ⊢
            obtain ⟨g1, g2⟩ := ho.table x.2 hx'
            rw [g1, hP _ (g2 (hxi.trans hident)), f1]
          · obtain ⟨p, hp, hpi, _⟩ := hw
            obtain ⟨x, hx, rfl⟩ := List.mem_map.1 hp
            refine ⟨x, hx, ?_⟩
            simp only [entry]
            rw [hident]
            exact hpi
        obtain ⟨⟨a, p⟩, hf⟩ := hfound
        obtain ⟨g1, g2⟩ := Bst.Tree.search_some hf
        obtain ⟨g3, _⟩ := compare_eq_zero g2
        have hp : P p.client := (ho.table p (List.mem_map_of_mem g1)).2 (by
          rw [← hident]
          exact g3.symm)
        unfold genAnswerHeaderAndRemove Bst.State.search at hre
        rw [hf] at hre
        dsimp only at hre
        split at hre
        · cases hre
        · simp only [Option.some.injEq, Prod.mk.injEq] at hre
          obtain ⟨_, _, rfl⟩ := hre
          exact ⟨{ p.client with entity := r'.bytes, edns := h0.edns }, hst p.client _ ⟨rfl, rfl, rfl, rfl, rfl, rfl⟩ hp, rfl, by simp, by simp, rfl, rfl⟩

theorem response_found [DecidableEq Addr] {P : Head Addr → Prop} (hst : Stays P) {j : Nat} {i : UInt16} {t : Int} {e : Env} {st st' : St Addr}
    {acts : List (Act Addr)} {d : Module (Dest Addr)} {r r' : Message.Msg} {rs : List (List Byte)} {tail : List Byte} {fuel : Nat} {bn : List Byte}
    {clock : Nat → Int} (h : OnlyAt P j i st) (hP : ∀ m, P m → m.hash = bkdrHash (plain rs)) (hd : st.mods[j]? = some d) (hw : Waits i t d)
    (hr : Answer r rs tail) (hid : idOf r.bytes = some i.toNat) (hl : Passes e r r') (hap : e.ap = false ∨ HasEdns r)
    (hs : step e st (.response j (r.bytes ++ tail) r.bytes.length fuel bn clock) = some (st', acts)) :
    ∃ m : Head Addr, P m ∧ m.entity = r'.bytes ∧ acts = (post m (sendBack m)).1 ∧ st'.outer = st.outer ++ (post m (sendBack m)).2 ∧
      st'.inner = st.inner ∧ st'.loop = st.loop :=
  response_found_any hst h hP hd hw hr.valid (by obtain ⟨q, hq, _⟩ := hr.one; rw [hq]; simp) (fun _ _ _ _ => fill_answer' hr) hid hl hap hs

/-- The argument for C107, for any condition `F` on the events that makes whatever uses the identifier a query of the client for the name. -/
theorem answered_core [DecidableEq Addr] {F : Ev Addr → Prop} {c : Client Addr} {name : List Byte} {i j fuel : Nat} (hFa : ∀ ev, F ev → Accepted ev)
    (hFs : ∀ (k : UInt16) ev m, i = k.toNat → F ev → Source ev m → ident m.entity = k → Mine c name m)
    {st st0 st1 st2 st3 st4 : St Addr} {l0 l1 l2 : List (Env × Ev Addr)} {a0 a1 a2 a3 a4 : List (Act Addr)}
    {e2 e4 : Env} {ev : Ev Addr} {r r' : Message.Msg} {tail bn : List Byte}
    {clock : Nat → Int} (hst : Start st) (h0 : run st l0 = some (st0, a0)) (hacc : ∀ x ∈ l0, Accepted x.2) (hfree : Free j i st0)
    (h1 : run st0 l1 = some (st1, a1)) (hf1 : ∀ x ∈ l1, F x.2) (h2 : step e2 st1 ev = some (st2, a2)) (hf2 : F ev) (hleaves : Leaves j i ev a2)
    (h3 : run st2 l2 = some (st3, a3)) (hf3 : ∀ x ∈ l2, F x.2) (hpat : ∀ x ∈ l2, Patient j i (clockOf ev) x.2)
    (hv : r.Valid) (hne : r.qs ≠ []) (hr : Parsed (Addr := Addr) r tail name) (hid : idOf r.bytes = some i) (hl : Passes e4 r r') (hap : e4.ap = false ∨ HasEdns r)
    (h4 : step e4 st3 (.response j (r.bytes ++ tail) r.bytes.length fuel bn clock) = some (st4, a4)) :
    a4 = [.client (toClient r'.bytes c)] := by
  obtain ⟨k, rfl⟩ : ∃ k : UInt16, i = k.toNat := by
    exact ⟨_, idOf_ident hid⟩
  have hstays := mine_stays c name
  have o0 : OnlyAt (Mine c name) j k st0 := by
    have g := onlyAt_run (P := fun _ => True) (fun _ _ _ _ => trivial) (j := j) (i := k) hacc (fun _ _ _ _ _ => trivial)
      ⟨(start_inv hst).1, fun d hd => by rw [hst.1] at hd; cases hd⟩ h0
    refine ⟨g.inv, fun d hd => ?_⟩
    obtain ⟨f1, f2⟩ := hfree d hd
    have gd := g.only d hd
    refine ⟨fun p hp => ⟨(gd.table p hp).1, fun hpk => absurd (congrArg UInt16.toNat hpk) (f1 p hp)⟩, fun m hm hmk => ?_, gd.order⟩
    refine absurd ?_ (f2 m hm)
    rw [idOf_some ((g.inv.1 d (List.mem_of_getElem? hd)).2 m hm).2, hmk]
  have o1 := onlyAt_run hstays (fun x hx => hFa _ (hf1 x hx)) (fun x hx m => hFs k _ m rfl (hf1 x hx)) o0 h1
  have o2 := onlyAt_step hstays (hFa _ hf2) (fun m => hFs k _ m rfl hf2) o1 h2
  obtain ⟨d2, hd2, hw2⟩ := leaves_waits o1.inv (hFa _ hf2) h2 hleaves
  have o3 := onlyAt_run hstays (fun x hx => hFa _ (hf3 x hx)) (fun x hx m => hFs k _ m rfl (hf3 x hx)) o2 h3
  obtain ⟨d3, hd3, hw3⟩ := waits_run (fun x hx => hFa _ (hf3 x hx)) hpat o2.inv hd2 hw2 h3
  obtain ⟨m, ⟨m1, m2, m3, m4⟩, hm, ha, _⟩ := response_found_any hstays o3 (fun m hm => hm.1) hd3 hw3 hv hne hr hid hl hap h4
  rw [ha]
  obtain ⟨c1, c2⟩ := c
  cases c1 with
  | none =>
    dsimp only [Option.map_none] at m3
    simp [sendBack, m3, hm, m2, post, toClient]
  | some a =>
    dsimp only [Option.map_some] at m3
    simp [sendBack, m3, hm, m2, m4, post, toClient]

/-- C107.  A client's query for a name leaves for a server (with identifier `i`, which nothing else uses there meanwhile; the
client may repeat its question).  If then – before the server answered it, and before the program gave up, two seconds later –
a well-formed response from that server comes, with this identifier and for this name, the client is sent this response, with
the configured replacements of addresses, and nothing else is sent.

Missing: the response to a query with the same identifier as another one (`response_found_false`
of C10, `same_question_false`); questions other than one of class IN; how long it takes. -/
theorem answered_partial [DecidableEq Addr] (st st0 st1 st2 st3 st4 : St Addr) (l0 l1 l2 : List (Env × Ev Addr)) (a0 a1 a2 a3 a4 : List (Act Addr))
    (e2 e4 : Env) (ev : Ev Addr) (c : Client Addr) (i j fuel : Nat) (ls rs : List (List Byte)) (r r' : Message.Msg) (tail bn : List Byte)
    (clock : Nat → Int) (hst : Start st) (h0 : run st l0 = some (st0, a0)) (hacc : ∀ x ∈ l0, Accepted x.2) (hfree : Free j i st0)
    (h1 : run st0 l1 = some (st1, a1)) (hf1 : ∀ x ∈ l1, Fair c i (plain ls) x.2)
    (h2 : step e2 st1 ev = some (st2, a2)) (hf2 : Fair c i (plain ls) ev) (hleaves : Leaves j i ev a2)
    (h3 : run st2 l2 = some (st3, a3)) (hf3 : ∀ x ∈ l2, Fair c i (plain ls) x.2) (hpat : ∀ x ∈ l2, Patient j i (clockOf ev) x.2)
    (hr : Answer r rs tail) (hid : idOf r.bytes = some i) (hname : plain rs = plain ls) (hl : Passes e4 r r') (hap : e4.ap = false ∨ HasEdns r)
    (h4 : step e4 st3 (.response j (r.bytes ++ tail) r.bytes.length fuel bn clock) = some (st4, a4)) :
    a4 = [.client (toClient r'.bytes c)] := 
  answered_core (F := Fair c i (plain ls)) (fun _ h => fair_accepted h) (fun k _ _ e h hs => by subst e; exact fair_source h hs) hst h0 hacc hfree h1 hf1 h2 hf2
    hleaves h3 hf3 hpat hr.valid (by obtain ⟨q, hq, _⟩ := hr.one; rw [hq]; simp) (fun _ _ _ _ e => hname ▸ fill_answer' hr e) hid hl hap h4

/-! ### a case that meets the hypotheses -/

def exQuiet : List (Env × Ev Nat) := [.sweep 0 1002, udpAsk 8 (query 1 2 ms 1), .reload [.udp, .tcp] noHead].map fun ev => (exEnv, ev)

theorem exFair : Fair (some 8, 1) 258 (plain ms) (udpAsk 8 (query 1 2 ms 1)) := ⟨asks_accepted (exQuestion 8), fun _ => ⟨ms, exQuestion 8, rfl⟩⟩

def exRun : Option (List (Act Nat) × List (Act Nat)) :=
  (run exSt [(exEnv, both)]).bind fun r0 => (step exEnv r0.1 (udpAsk 8 (query 1 2 ms 1))).bind fun r1 => (run r1.1 exQuiet).bind fun r2 =>
    (step exEnv r2.1 (.response 0 (exReply.bytes ++ List.replicate 200 0) exReply.bytes.length 50 [] (fun _ => 1001))).map fun r3 => (r1.2, r3.2)

example : ∃ st0 a0 st2 a2 st3 a3 st4 a4, Start exSt ∧ run exSt [(exEnv, both)] = some (st0, a0) ∧ Free 0 258 st0 ∧
    step exEnv st0 (udpAsk 8 (query 1 2 ms 1)) = some (st2, a2) ∧ Leaves 0 258 (udpAsk 8 (query 1 2 ms 1)) a2 ∧ run st2 exQuiet = some (st3, a3) ∧
    (∀ x ∈ exQuiet, Fair (some 8, 1) 258 (plain ms) x.2 ∧ Patient 0 258 (clockOf (udpAsk 8 (query 1 2 ms 1))) x.2) ∧
    step exEnv st3 (.response 0 (exReply.bytes ++ List.replicate 200 0) exReply.bytes.length 50 [] (fun _ => 1001)) = some (st4, a4) ∧
    a4 = [.client (toClient exReply.bytes (some 8, 1))] ∧ idOf exReply.bytes = some 258 ∧ Passes exEnv exReply exReply ∧ exEnv.ap = false := by
  have h : exRun = some ([.server 0 (query 1 2 ms 1)], [.client (toClient exReply.bytes (some 8, 1))]) := by decide +kernel
  unfold exRun at h
  obtain ⟨r0, h0, h⟩ := Option.bind_eq_some_iff.1 h
  obtain ⟨r1, h1, h⟩ := Option.bind_eq_some_iff.1 h
  obtain ⟨r2, h2, h⟩ := Option.bind_eq_some_iff.1 h
  obtain ⟨r3, h3, h⟩ := Option.map_eq_some_iff.1 h
  simp only [Prod.mk.injEq] at h
  refine ⟨r0.1, r0.2, r1.1, r1.2, r2.1, r2.2, r3.1, r3.2, ⟨rfl, rfl, rfl, rfl⟩, h0, ?_, h1, ?_, h2, ?_, h3, h.2, by decide, Or.inl ⟨rfl, rfl⟩, rfl⟩
  · intro d hd
    have hm : r0.1.mods = [⟨.udp, Bst.State.init, noHead, []⟩, ⟨.tcp, Bst.State.init, noHead, []⟩] := by
      simp only [run, step, both, Option.some.injEq] at h0
      rw [← h0]; rfl
    rw [hm] at hd
    obtain rfl := Option.some.inj hd
    exact ⟨fun p hp => by simp [waiting, Bst.State.init, Bst.Tree.toList] at hp, fun m hm => by simp at hm⟩
  · exact ⟨query 1 2 ms 1, by rw [h.1]; exact List.mem_singleton.2 rfl, by decide⟩
  · intro x hx
    simp only [exQuiet, List.map_cons, List.map_nil, List.mem_cons, List.not_mem_nil, or_false] at hx
    rcases hx with rfl | rfl | rfl
    · exact ⟨⟨trivial, fun ⟨w, hw⟩ => by cases hw⟩, fun _ => by decide⟩
    · exact ⟨exFair, trivial⟩
    · exact ⟨⟨trivial, fun ⟨w, hw⟩ => by cases hw⟩, trivial⟩

end Verif.Forwarder
