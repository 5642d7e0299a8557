import Verif.Spec.Forwarder
import Verif.Lemmas.Keeps
import Verif.Lemmas.MContext
/-! The balance of queries and replies. -/

namespace Verif.Forwarder
open Msg MContext Pipeline HostsLoop Keeps

variable {Addr : Type}

/-- What a header with identifier `id` still owes. -/
def lab (m : Head Addr) (id : Nat) : List (Client Addr × Option Nat) :=
  match m.back with
  | none => [((none, m.sock), some id)]
  | some (.client a) => [((some a, m.sock), some id)]
  | some (.loop _ _) => []

def pend (p : Pending (Head Addr)) : List (Client Addr × Option Nat) := lab p.client p.id.toNat
def headLab (m : Head Addr) : List (Client Addr × Option Nat) := lab m (ident m.entity).toNat

def modOwed (d : Module (Dest Addr)) : List (Client Addr × Option Nat) :=
  (waiting d.table).flatMap pend ++ d.inbox.flatMap headLab

def owed (st : St Addr) : List (Client Addr × Option Nat) :=
  st.mods.flatMap modOwed ++ st.inner.flatMap headLab ++ (waiting st.loop.table).flatMap pend

/-- Headers of clients' queries are not themselves sent back. -/
def Good (m : Head Addr) : Prop := ∀ a, m.back = some (.client a) → m.returnHeader = false

def GoodTable (t : Table (Head Addr)) : Prop := Bst.Inv t ∧ ∀ p ∈ waiting t, Good p.client

def GoodModule (d : Module (Dest Addr)) : Prop := GoodTable d.table ∧ ∀ m ∈ d.inbox, Good m ∧ 2 ≤ m.entity.length

def Inv (st : St Addr) : Prop :=
  (∀ d ∈ st.mods, GoodModule d) ∧ (∀ m ∈ st.inner, Good m ∧ 2 ≤ m.entity.length) ∧ GoodTable st.loop.table

theorem matched_append {a b : List (Client Addr × Option Nat)} {s t : List (Sent Addr)} (h : Matched a s) (h' : Matched b t) :
    Matched (a ++ b) (s ++ t) := by
  induction h with
  | nil => exact h'
  | cons x _ ih => exact .cons x ih

theorem replies_append (a b : List (Act Addr)) : replies (a ++ b) = replies a ++ replies b := by simp [replies]

theorem idOf_ident {e : List Byte} {i : Nat} (h : idOf e = some i) : i = (ident e).toNat := by
  match e, h with
  | a :: b :: t, h =>
    simp only [idOf, Option.some.injEq] at h
    have ha := a.toNat_lt
    have hb := b.toNat_lt
    rw [← h]
    simp [ident]
    omega

theorem idOf_some {e : List Byte} (h : 2 ≤ e.length) : idOf e = some (ident e).toNat := by
  match e, h with
  | a :: b :: t, h =>
    have := idOf_ident (e := a :: b :: t) (i := a.toNat * 256 + b.toNat) rfl
    rw [← this]; rfl

theorem ident_take {a b : List Byte} (h : a.take 2 = b.take 2) : ident a = ident b := by
  have g : ∀ l : List Byte, ident l = ident (l.take 2) := by
    intro l
    match l with
    | [] => rfl
    | [x] => rfl
    | x :: y :: t => rfl
  rw [g a, g b, h]

/-- A reply with the header `m`. -/
theorem post_matched {m m' : Head Addr} (hg : Good m) (id : Nat) (hid : ∀ i, idOf m.entity = some i → i = id) :
    Matched (lab m id) (replies (post m' (sendBack m)).1) := by
  unfold lab sendBack
  cases hb : m.back with
  | none =>
    exact .cons ⟨rfl, m.entity, rfl, fun i hi => by rw [hid i hi]⟩ .nil
  | some d =>
    cases d with
    | client a => exact .cons ⟨rfl, hg a hb, fun i hi => by rw [hid i hi]⟩ .nil
    | loop p t => exact .nil

theorem count_lab_eq {m m' : Head Addr} (h1 : m.back = m'.back) (h2 : m.sock = m'.sock) (id : Nat) : lab m id = lab m' id := by
  unfold lab; rw [h1, h2]

theorem count_flatMap_set {α β : Type} [BEq β] (f : α → List β) (k : β) : ∀ (l : List α) (i : Nat) (d d' : α), l[i]? = some d →
    ((l.set i d').flatMap f).count k + (f d).count k = (l.flatMap f).count k + (f d').count k := by
  intro l
  induction l with
  | nil => intro i d d' h; simp at h
  | cons x l ih =>
    intro i d d' h
    cases i with
    | zero =>
      simp only [List.getElem?_cons_zero, Option.some.injEq] at h
      subst h
      simp only [List.set_cons_zero, List.flatMap_cons, List.count_append]; omega
    | succ i =>
      simp only [List.getElem?_cons_succ] at h
      have := ih i d d' h
      simp only [List.set_cons_succ, List.flatMap_cons, List.count_append]; omega

theorem count_flatMap_perm {α β : Type} [BEq β] (f : α → List β) (k : β) {l l' : List α} (h : l.Perm l') :
    (l.flatMap f).count k = (l'.flatMap f).count k := (h.flatMap_right f).count_eq k

theorem count_flatMap_sublist {α β : Type} [BEq β] (f : α → List β) (k : β) {l l' : List α} (h : l.Sublist l') :
    (l.flatMap f).count k ≤ (l'.flatMap f).count k := by
  induction h with
  | slnil => simp
  | cons a _ ih => simp only [List.flatMap_cons, List.count_append]; omega
  | cons_cons a _ ih => simp only [List.flatMap_cons, List.count_append]; omega

theorem pick_perm {α : Type} {l l' : List α} {k : Nat} {a : α} (h : pick l k = some (a, l')) : l.Perm (a :: l') := by
  unfold pick at h
  simp only [Option.map_eq_some_iff, Prod.mk.injEq] at h
  obtain ⟨x, hx, rfl, rfl⟩ := h
  obtain ⟨hk, hx⟩ := List.getElem?_eq_some_iff.1 hx
  have : l = l.take k ++ x :: l.drop (k + 1) := by
    rw [← hx, ← List.drop_eq_getElem_cons hk, List.take_append_drop]
  exact (List.Perm.of_eq this).trans List.perm_middle

theorem good_add {t : Table (Head Addr)} (h : GoodTable t) {now : Int} {p : Pending (Head Addr)} (hp : Good p.client) :
    GoodTable (MContext.add t now p) := by
  refine ⟨(Bst.inv_add h.1 _).1, fun q hq => ?_⟩
  rcases List.mem_cons.1 ((add_contents t now p).mem_iff.1 hq) with rfl | hq
  · exact hp
  · exact h.2 q hq

theorem good_delete {t : Table (Head Addr)} (h : GoodTable t) {a : Nat} {p : Pending (Head Addr)} (hp : (a, p) ∈ t.root.toList) :
    GoodTable (t.delete a) ∧ Good p.client := by
  have hc := delete_contents h.1 hp
  refine ⟨⟨Bst.inv_delete h.1 (List.mem_map_of_mem hp), fun q hq => h.2 q (hc.mem_iff.2 (List.mem_cons_of_mem _ hq))⟩, ?_⟩
  exact h.2 p (hc.mem_iff.2 List.mem_cons_self)

theorem good_sweep [DecidableEq Addr] {t : Table (Head Addr)} (h : GoodTable t) (now : Int) :
    GoodTable (MContext.sweep t now).2 ∧ ∀ k, ((waiting (MContext.sweep t now).2).flatMap pend).count k ≤ ((waiting t).flatMap pend).count k := by
  obtain ⟨h1, h2, _⟩ := sweep_spec h.1 now
  have hs : (waiting (MContext.sweep t now).2).Sublist (waiting t) := by
    unfold waiting; rw [h2]; exact List.filter_sublist.map _
  exact ⟨⟨h1, fun p hp => h.2 p (hs.subset hp)⟩, fun k => count_flatMap_sublist _ _ hs⟩

theorem inv_set {st : St Addr} (h : Inv st) {i : Nat} {d : Module (Dest Addr)} (hd : GoodModule d) :
    ∀ x ∈ st.mods.set i d, GoodModule x := by
  intro x hx
  rcases List.mem_or_eq_of_mem_set hx with hx | rfl
  · exact h.1 x hx
  · exact hd

theorem good_entity {m : Head Addr} {b : List Byte} (h : Good m) : Good { m with entity := b } := h

theorem posts_single (m : Head Addr) (s : Sent (Dest Addr)) : (posts m [s]).1 = (post m s).1 := by simp [posts]

/-- `MMgr_Send`: the query moves on, or is answered. -/
theorem mgrSend_balance [DecidableEq Addr] {e : Env} {st st' : St Addr} {x : Luck} {b : List Byte} {m h : Head Addr} {acts : List (Act Addr)}
    (hi : Inv st) (hm : 12 ≤ m.entity.length) (hb : m.entity.take 2 = b.take 2) (hg : Good m)
    (hs : mgrSend e st x b m = some (st', h, acts)) :
    Inv st' ∧ ∃ own, Matched own (replies acts) ∧ ∀ k, own.count k + (owed st').count k ≤ (owed st).count k + (headLab m).count k := by
  have start : ∀ {b' : List Byte}, Starts (m.entity.take 2) b' → ∀ {m' : Head Addr},
      Matched (headLab m) (replies (post m' (sendBack { m with entity := b' })).1) := by
    intro b' hst m'
    have := post_matched (m := { m with entity := b' }) (m' := m') (good_entity hg) (ident m.entity).toNat (fun i hi => by
      have e1 := idOf_ident hi
      have e2 : ident b' = ident m.entity := ident_take hst.2
      rw [e1]; dsimp only; rw [e2])
    exact this
  have none' : Matched ([] : List (Client Addr × Option Nat)) (replies ([] : List (Act Addr))) := .nil
  unfold mgrSend at hs
  cases hd : Pipeline.decide e st.cache x (b.drop m.entity.length) (requestTcp m) m with
  | none => rw [hd] at hs; cases hs
  | some o =>
    rw [hd] at hs
    unfold Pipeline.decide at hd
    cases o with
    | refused o =>
      simp only [Option.some.injEq, Prod.mk.injEq] at hs
      obtain ⟨rfl, _, rfl⟩ := hs
      refine ⟨hi, headLab m, ?_, fun k => by simp only [owed]; omega⟩
      unfold Filter.filterOut at hd
      split at hd
      · rename_i o' heq
        simp only [Option.some.injEq, Outcome.refused.injEq] at hd; subst hd
        split at heq
        · simp only [Prod.mk.injEq, true_and] at heq; subst heq
          rw [posts_single]
          exact start (b' := refuse m.entity) (starts_modify (starts_modify ⟨hm, rfl⟩ (by omega)) (by omega))
        · simp at heq
      · repeat' split at hd
        all_goals cases hd
    | hosts o =>
      simp only [Option.some.injEq, Prod.mk.injEq] at hs
      obtain ⟨rfl, _, rfl⟩ := hs
      have ho : ∃ code, Hosts.hostsGet e.fnm e.goodIp e.hosts (b.drop m.entity.length) x.handOk m = some (code, o) := by
        split at hd
        · cases hd
        · split at hd
          · cases hd
          · rename_i code o' hh
            split at hd
            · simp only [Option.some.injEq, Outcome.hosts.injEq] at hd; subst hd; exact ⟨code, hh⟩
            · repeat' split at hd
              all_goals cases hd
      obtain ⟨code, ho⟩ := ho
      rcases hostsGet_out hm ho with rfl | rfl | ⟨b', hb', rfl⟩
      · refine ⟨?_, [], by simpa [repliesOf, posts] using none', fun k => ?_⟩
        · simpa [Inv, handedOf] using hi
        · simp [owed, handedOf]
      · refine ⟨⟨hi.1, ?_, hi.2.2⟩, [], by simpa [repliesOf, posts] using none', fun k => ?_⟩
        · intro y hy
          simp only [handedOf, List.filterMap_cons, List.filterMap_nil, List.mem_append, List.mem_singleton] at hy
          rcases hy with hy | rfl
          · exact hi.2.1 y hy
          · exact ⟨good_entity hg, by rw [List.length_take]; omega⟩
        · have : headLab { m with entity := m.entity.take 2 } = headLab m := by
            unfold headLab
            rw [show ident (m.entity.take 2) = ident m.entity from ident_take (a := m.entity.take 2) (b := m.entity) (by rw [List.take_take]; rfl)]
            rfl
          simp only [owed, handedOf, List.filterMap_cons, List.filterMap_nil, List.flatMap_append, List.flatMap_cons, List.flatMap_nil, List.append_nil, List.count_append,
            List.count_nil, this]
          omega
      · refine ⟨?_, headLab m, ?_, fun k => ?_⟩
        · simpa [Inv, handedOf] using hi
        · simp only [repliesOf, List.filterMap_cons, List.filterMap_nil]
          rw [posts_single]
          exact start hb'
        · simp [owed, handedOf]; omega
    | cache o =>
      simp only [Option.some.injEq, Prod.mk.injEq] at hs
      obtain ⟨rfl, _, rfl⟩ := hs
      have ho : ∃ code, DnsCache.fetch e.cache.cfg st.cache (b.drop m.entity.length) x.fuel x.now m = some (code, o) := by
        split at hd
        · cases hd
        · split at hd
          · cases hd
          · split at hd
            · cases hd
            · split at hd
              · cases hd
              · rename_i code' o'' hf
                split at hd
                · rename_i hz
                  simp only [Option.some.injEq, Outcome.cache.injEq] at hd; subst hd
                  split at hf
                  · exact ⟨_, hf⟩
                  · simp only [Option.some.injEq, Prod.mk.injEq] at hf
                    omega
                · repeat' split at hd
                  all_goals cases hd
      obtain ⟨code, ho⟩ := ho
      rcases fetch_out ho with rfl | ⟨b', hb', rfl⟩
      · refine ⟨hi, [], by simpa [posts] using none', fun k => ?_⟩
        simp [owed]
      · refine ⟨hi, headLab m, ?_, fun k => by simp only [owed]; omega⟩
        rw [posts_single]
        exact start hb'
    | nowhere =>
      simp only [Option.some.injEq, Prod.mk.injEq] at hs
      obtain ⟨rfl, _, rfl⟩ := hs
      exact ⟨hi, [], none', fun k => by simp⟩
    | upstream i =>
      clear hd
      dsimp only at hs
      split at hs
      · cases hs
      · rename_i d hd
        have hdm : d ∈ st.mods := List.mem_of_getElem? hd
        have hgd := hi.1 d hdm
        split at hs
        · split at hs
          · cases hs
          · rename_i m' d' hu
            simp only [Option.some.injEq, Prod.mk.injEq] at hs
            obtain ⟨rfl, _, rfl⟩ := hs
            unfold udpSend at hu
            split at hu
            · cases hu
            · rename_i m'' ha
              simp only [Option.some.injEq, Prod.mk.injEq] at hu
              obtain ⟨rfl, rfl⟩ := hu
              obtain ⟨e1, e2, e3, e4, e5, e6, e7⟩ := addFakeEdns_head hm ha
              have hgm : Good m'' := by intro a ha; rw [e3]; exact hg a (e1 ▸ ha)
              refine ⟨⟨inv_set hi ⟨good_add hgd.1 hgm, hgd.2⟩, hi.2⟩, [], ?_, fun k => ?_⟩
              · split <;> exact .nil
              · have hc := count_flatMap_set modOwed k st.mods (st.base + i) d { d with table := MContext.add d.table x.now (entry b m'') } hd
                have hp : pend { entry b m'' with timestamp := x.now } = headLab m := by
                  unfold pend headLab entry
                  rw [ident_take hb]
                  exact count_lab_eq e1 e2 _
                have hw := count_flatMap_perm pend k (add_contents d.table x.now (entry b m''))
                simp only [List.flatMap_cons, List.count_append, hp] at hw
                simp only [owed, List.count_append, List.count_nil]
                simp only [modOwed, List.count_append] at hc
                omega
        · simp only [Option.some.injEq, Prod.mk.injEq] at hs
          obtain ⟨rfl, _, rfl⟩ := hs
          unfold tcpSend
          split
          · refine ⟨⟨inv_set hi ⟨hgd.1, ?_⟩, hi.2⟩, [], .nil, fun k => ?_⟩
            · intro y hy
              simp only [List.mem_append, List.mem_singleton] at hy
              rcases hy with hy | rfl
              · exact hgd.2 y hy
              · exact ⟨hg, by omega⟩
            · have hc := count_flatMap_set modOwed k st.mods (st.base + i) d { d with inbox := d.inbox ++ [m] } hd
              simp only [modOwed, List.count_append, List.flatMap_append, List.flatMap_cons, List.flatMap_nil, List.append_nil] at hc
              simp only [owed, List.count_append, List.count_nil]
              omega
          · refine ⟨⟨inv_set hi hgd, hi.2⟩, [], .nil, fun k => ?_⟩
            have hc := count_flatMap_set modOwed k st.mods (st.base + i) d d hd
            simp only [owed, List.count_append, List.count_nil]
            omega

/-! ### The header of an accepted message -/

theorem fillLoop_code {b : List Byte} {len : Nat} {c : Parser.Counts} {fuel : Nat} (n : Nat) :
    ∀ {it : Parser.Itr} {h : Head Addr} {r : Int × Head Addr}, fillLoop b len c fuel n it h = some (.inl r) → r.1 ≠ 0 := by
  induction n with
  | zero => intro it h r e; cases e
  | succ n ih =>
    intro it h r e
    unfold fillLoop at e
    split at e
    · cases e
    · cases e
    · split at e
      · cases e
      · rename_i r' hs
        simp only [Option.some.injEq, Sum.inl.injEq] at e; subst e
        unfold fillStep at hs
        split at hs
        · split at hs
          · simp only [Option.some.injEq, Sum.inl.injEq] at hs; subst hs; simp
          · split at hs
            · cases hs
            · cases hs
            · simp only [Option.some.injEq, Sum.inl.injEq] at hs; subst hs; simp
            · split at hs
              · cases hs
              · split at hs <;> cases hs
        · cases hs
        · cases hs
      · exact ih e

theorem counts_length {b : List Byte} {c : Parser.Counts} (h : Parser.counts b = some c) : 12 ≤ b.length := by
  unfold Parser.counts at h
  split at h
  · rename_i h10
    unfold Parser.u16At at h10
    split at h10
    · rename_i hy
      have := (List.getElem?_eq_some_iff.1 hy).1
      omega
    · cases h10
  · cases h

theorem fill_zero {h m : Head Addr} {ret : Bool} {b agent : List Byte} {len sock fuel : Nat} {back : Option (Dest Addr)}
    (e : fill h ret b len back sock agent fuel = some (0, m)) :
    m.back = back ∧ m.sock = sock ∧ m.returnHeader = ret ∧ m.entity = b.take len ∧ 12 ≤ len ∧ 12 ≤ b.length := by
  unfold fill at e
  dsimp only at e
  split at e
  · simp at e
  · rename_i hl
    have h12 : 12 ≤ len := by simpa [Parser.initOk] using hl
    split at e
    · cases e
    · rename_i c hc
      split at e
      · cases e
      · rename_i r hr
        simp only [Option.some.injEq] at e
        have := fillLoop_code _ hr
        rw [e] at this; exact absurd rfl this
      · simp only [Option.some.injEq, Prod.mk.injEq, true_and] at e
        subst e
        exact ⟨rfl, rfl, rfl, rfl, h12, counts_length hc⟩

theorem accepted_head {m : Head Addr} {b : List Byte} {len : Nat} (h1 : m.entity = b.take len) (h2 : 12 ≤ len) (h3 : 12 ≤ b.length) :
    12 ≤ m.entity.length ∧ m.entity.take 2 = b.take 2 := by
  rw [h1]
  exact ⟨by rw [List.length_take]; omega, by rw [List.take_take, Nat.min_eq_left (by omega)]⟩

theorem inner_query {fnm : List Byte → List Byte → Bool} {hosts : Hosts.Hosts} {cap : Nat} {now : Int} {rnd fuel sock : Nat}
    {h m q : Head Addr} {s s' : Loop Addr} (e : HostsLoop.inner fnm hosts cap now rnd fuel sock h m s = some (s', some q)) :
    s'.table = (s.table.add MContext.compare ⟨UInt16.ofNat (Generator.get16 m.entity 0), m.hash, m.domain, m.type, m, now⟩).2 ∧
      (∃ a, q.back = some (.loop a (isFromTcp m))) ∧ 12 ≤ q.entity.length := by
  unfold HostsLoop.inner at e
  split at e
  · simp at e
  · split at e
    · cases e
    · rename_i code q' hq
      split at e
      · simp at e
      · rename_i hcode
        dsimp only at e
        simp only [Option.some.injEq, Prod.mk.injEq] at e
        obtain ⟨rfl, rfl⟩ := e
        refine ⟨rfl, ⟨_, rfl⟩, ?_⟩
        dsimp only
        unfold generateQuery at hq
        split at hq
        · cases hq
        · rename_i g hg
          generalize Generator.question _ _ _ _ = r at hq
          obtain ⟨code', g1⟩ := r
          dsimp only at hq
          split at hq
          · simp only [Option.some.injEq, Prod.mk.injEq] at hq; omega
          · split at hq
            · cases hq
            · rename_i code2 q2 hf
              simp only [Option.some.injEq, Prod.mk.injEq] at hq
              obtain ⟨hq1, rfl⟩ := hq
              have hz : code2 = 0 := by
                split at hq1
                · omega
                · rename_i hn; exact Decidable.not_not.1 hn
              subst hz
              obtain ⟨_, _, _, e1, e2, e3⟩ := fill_zero hf
              exact (accepted_head e1 e2 e3).1

theorem inner_none {fnm : List Byte → List Byte → Bool} {hosts : Hosts.Hosts} {cap : Nat} {now : Int} {rnd fuel sock : Nat}
    {h m : Head Addr} {s s' : Loop Addr} (e : HostsLoop.inner fnm hosts cap now rnd fuel sock h m s = some (s', none)) : s' = s := by
  unfold HostsLoop.inner at e
  split at e
  · simp only [Option.some.injEq, Prod.mk.injEq, and_true] at e; exact e.symm
  · split at e
    · cases e
    · split at e
      · simp only [Option.some.injEq, Prod.mk.injEq, and_true] at e; exact e.symm
      · dsimp only at e
        simp only [Option.some.injEq, Prod.mk.injEq, reduceCtorEq, and_false] at e

theorem ident_set16 {n : Nat} (h : n < 65536) : (ident (Generator.set16 n)).toNat = n := by
  unfold ident Generator.set16
  simp only [List.getD_cons_zero, List.getD_cons_succ, UInt16.toNat_ofNat', UInt8.toNat_ofNat']
  omega

/-- The alias worker's reply: the entry found leaves the table and its client is answered. -/
theorem outer_spec {cap : Nat} {b : List Byte} {len fuel parent : Nat} {target : List Byte} {s s' : Loop Addr} {r : Option (Head Addr)}
    (e : HostsLoop.outer cap b len fuel parent target s = some (s', r)) :
    (s' = s ∧ r = none) ∨ ∃ a p, (a, p) ∈ s.table.root.toList ∧ s'.table = s.table.delete a ∧
      ∀ m, r = some m → m.back = p.client.back ∧ m.sock = p.client.sock ∧ m.returnHeader = p.client.returnHeader ∧
        (∀ i, idOf m.entity = some i → i = p.id.toNat) := by
  unfold HostsLoop.outer at e
  split at e
  · cases e
  · rename_i q hq
    split at e
    · simp only [Option.some.injEq, Prod.mk.injEq] at e; exact Or.inl ⟨e.1.symm, e.2.symm⟩
    · rename_i a p hs
      obtain ⟨h1, h2⟩ := Bst.Tree.search_some hs
      have h3 := (compare_eq_zero h2).1
      refine Or.inr ⟨a, p, h1, ?_⟩
      dsimp only at e
      split at e
      · cases e
      · simp only [Option.some.injEq, Prod.mk.injEq] at e
        obtain ⟨rfl, rfl⟩ := e
        exact ⟨rfl, fun m hm => by cases hm⟩
      · rename_i out hc
        simp only [Option.some.injEq, Prod.mk.injEq] at e
        obtain ⟨rfl, rfl⟩ := e
        refine ⟨rfl, fun m hm => ?_⟩
        simp only [Option.some.injEq] at hm
        subst hm
        refine ⟨rfl, rfl, rfl, fun i hi => ?_⟩
        rw [idOf_ident hi]
        have := starts_combine hc
        have e1 : ident out = ident (Generator.set16 q.id.toNat) := ident_take (by rw [this.2]; rfl)
        dsimp only at h3 ⊢
        rw [e1, ← h3]
        exact ident_set16 q.id.toNat_lt

/-- One event. -/
theorem step_balance [DecidableEq Addr] {e : Env} {st st' : St Addr} {ev : Ev Addr} {acts : List (Act Addr)} (hi : Inv st) (ha : Accepted ev)
    (h : step e st ev = some (st', acts)) :
    Inv st' ∧ ∃ own, Matched own (replies acts) ∧ ∀ k, own.count k + (owed st').count k ≤ (owed st).count k + (queryOf ev).count k := by
  cases ev with
  | udpQuery sock addr agent b len x =>
    unfold step at h
    dsimp only at h
    split at h
    · cases h
    · rename_i c m hf
      have hc := ha _ _ _ hf
      subst hc
      obtain ⟨e1, e2, e3, e4, e5, e6⟩ := fill_zero hf
      obtain ⟨h12, h2⟩ := accepted_head e4 e5 e6
      split at h
      · cases h
      · rename_i st1 hd acts' hs
        simp only [Option.some.injEq, Prod.mk.injEq] at h
        obtain ⟨rfl, rfl⟩ := h
        obtain ⟨i1, own, hm, hk⟩ := mgrSend_balance hi h12 h2 (fun a _ => e3) hs
        refine ⟨i1, own, hm, fun k => ?_⟩
        have hl : headLab m = queryOf (.udpQuery sock addr agent b len x) := by
          unfold headLab lab queryOf
          rw [e1, e2]
          dsimp only
          rw [← e4, idOf_some (by omega)]
        rw [← hl]
        exact hk k
  | tcpQuery sock agent b len x =>
    unfold step at h
    dsimp only at h
    split at h
    · cases h
    · rename_i c m hf
      have hc := ha _ _ _ hf
      subst hc
      obtain ⟨e1, e2, e3, e4, e5, e6⟩ := fill_zero hf
      obtain ⟨h12, h2⟩ := accepted_head e4 e5 e6
      split at h
      · cases h
      · rename_i st1 hd acts' hs
        simp only [Option.some.injEq, Prod.mk.injEq] at h
        obtain ⟨rfl, rfl⟩ := h
        obtain ⟨i1, own, hm, hk⟩ := mgrSend_balance hi h12 h2 (fun a _ => e3) hs
        refine ⟨i1, own, hm, fun k => ?_⟩
        have hl : headLab m = queryOf (.tcpQuery sock agent b len x) := by
          unfold headLab lab queryOf
          rw [e1, e2]
          dsimp only
          rw [← e4, idOf_some (by omega)]
        rw [← hl]
        exact hk k
  | response i b len fuel bn clock =>
    unfold step at h
    dsimp only at h
    split at h
    · cases h
    · rename_i d hd
      have hgd := hi.1 d (List.mem_of_getElem? hd)
      split at h
      · cases h
      · rename_i d' ops out hr
        split at h
        · cases h
        · simp only [Option.some.injEq, Prod.mk.injEq] at h
          obtain ⟨rfl, rfl⟩ := h
          have key : GoodModule d' ∧ ∃ own, Matched own (replies (out.flatMap (fun m => (post m (sendBack m)).1))) ∧
              ∀ k, own.count k + (modOwed d').count k ≤ (modOwed d).count k := by
            unfold respond at hr
            split at hr
            · cases hr
            · rename_i h0 _
              split at hr
              · cases hr
              · rename_i v b' hmisc
                dsimp only at hr
                split at hr
                · simp only [Option.some.injEq, Prod.mk.injEq] at hr
                  obtain ⟨rfl, _, rfl⟩ := hr
                  exact ⟨hgd, [], .nil, fun k => by simp [modOwed]⟩
                · split at hr
                  · simp only [Option.some.injEq, Prod.mk.injEq] at hr
                    obtain ⟨rfl, _, rfl⟩ := hr
                    exact ⟨hgd, [], .nil, fun k => by simp [modOwed]⟩
                  · split at hr
                    · rename_i t hgen
                      have ht : t = d.table := by
                        unfold genAnswerHeaderAndRemove at hgen
                        split at hgen <;> simp only [Prod.mk.injEq, reduceCtorEq, false_and, true_and] at hgen
                        exact hgen.symm
                      subst ht
                      split at hr
                      · cases hr
                      · simp only [Option.some.injEq, Prod.mk.injEq] at hr
                        obtain ⟨rfl, _, rfl⟩ := hr
                        exact ⟨hgd, [], .nil, fun k => by simp [modOwed]⟩
                    · rename_i p t hgen
                      unfold genAnswerHeaderAndRemove at hgen
                      split at hgen
                      · simp at hgen
                      · rename_i a p' hs
                        simp only [Prod.mk.injEq, Option.some.injEq] at hgen
                        obtain ⟨rfl, rfl⟩ := hgen
                        obtain ⟨h1, h2⟩ := Bst.Tree.search_some hs
                        have h3 := (compare_eq_zero h2).1
                        obtain ⟨gt, gp⟩ := good_delete hgd.1 h1
                        split at hr
                        · cases hr
                        · simp only [Option.some.injEq, Prod.mk.injEq] at hr
                          obtain ⟨rfl, _, rfl⟩ := hr
                          refine ⟨⟨gt, hgd.2⟩, pend p', ?_, fun k => ?_⟩
                          · simp only [List.flatMap_cons, List.flatMap_nil, List.append_nil]
                            generalize hn : List.take _ b' = l
                            have hm := post_matched (m := { p'.client with edns := h0.edns, entity := l }) (m' := { p'.client with edns := h0.edns, entity := l })
                              (fun a ha => gp a ha) p'.id.toNat
                            · refine hm ?_
                              intro i hi
                              have h4 : 2 ≤ l.length := by
                                match l, hi with
                                | x :: y :: t, _ => simp
                              rw [idOf_ident hi]
                              dsimp only at h3 ⊢
                              rw [← h3]
                              simp only [entry]
                              refine congrArg UInt16.toNat (ident_take (a := l) (b := b') ?_)
                              rw [← hn, List.length_take] at h4
                              rw [← hn, List.take_take, Nat.min_eq_left (by omega)]
                          · have hw := count_flatMap_perm pend k (delete_contents hgd.1.1 h1)
                            simp only [List.flatMap_cons, List.count_append] at hw
                            simp only [modOwed, List.count_append]
                            omega
          obtain ⟨k1, own, k2, k3⟩ := key
          refine ⟨⟨inv_set hi k1, hi.2⟩, own, k2, fun k => ?_⟩
          have hc := count_flatMap_set modOwed k st.mods i d d' hd
          have := k3 k
          simp only [owed, List.count_append]
          omega
  | take i k now rest =>
    unfold step at h
    dsimp only at h
    split at h
    · cases h
    · rename_i d hd
      have hgd := hi.1 d (List.mem_of_getElem? hd)
      split at h
      · cases h
      · rename_i m l hp
        simp only [Option.some.injEq, Prod.mk.injEq] at h
        obtain ⟨rfl, rfl⟩ := h
        have hpm := pick_perm hp
        have hgm := hgd.2 m (hpm.mem_iff.2 List.mem_cons_self)
        refine ⟨⟨inv_set hi ⟨good_add hgd.1 hgm.1, fun y hy => hgd.2 y (hpm.mem_iff.2 (List.mem_cons_of_mem _ hy))⟩, hi.2⟩, [], .nil, fun k => ?_⟩
        have hc := count_flatMap_set modOwed k st.mods i d (tcpTake now rest m { d with inbox := l }) hd
        have hw := count_flatMap_perm pend k (add_contents d.table now (entry (m.entity ++ rest) m))
        have hib := count_flatMap_perm headLab k hpm
        have he : pend { entry (m.entity ++ rest) m with timestamp := now } = headLab m := by
          unfold pend headLab entry
          rw [ident_take (a := m.entity ++ rest) (b := m.entity) (List.take_append_of_le_length hgm.2)]
        simp only [List.flatMap_cons, List.count_append, he] at hw hib
        simp only [modOwed, tcpTake, List.count_append] at hc
        simp only [owed, List.count_append, List.count_nil, tcpTake]
        omega
  | lose i k =>
    unfold step at h
    dsimp only at h
    split at h
    · cases h
    · rename_i d hd
      have hgd := hi.1 d (List.mem_of_getElem? hd)
      split at h
      · cases h
      · rename_i m l hp
        simp only [Option.some.injEq, Prod.mk.injEq] at h
        obtain ⟨rfl, rfl⟩ := h
        have hpm := pick_perm hp
        refine ⟨⟨inv_set hi ⟨hgd.1, fun y hy => hgd.2 y (hpm.mem_iff.2 (List.mem_cons_of_mem _ hy))⟩, hi.2⟩, [], .nil, fun k => ?_⟩
        have hc := count_flatMap_set modOwed k st.mods i d { d with inbox := l } hd
        have hib := count_flatMap_perm headLab k hpm
        simp only [List.flatMap_cons, List.count_append] at hib
        simp only [modOwed, List.count_append] at hc
        simp only [owed, List.count_append, List.count_nil]
        omega
  | sweep i now =>
    unfold step at h
    dsimp only at h
    split at h
    · cases h
    · rename_i d hd
      have hgd := hi.1 d (List.mem_of_getElem? hd)
      simp only [Option.some.injEq, Prod.mk.injEq] at h
      obtain ⟨rfl, rfl⟩ := h
      obtain ⟨g1, g2⟩ := good_sweep hgd.1 now
      refine ⟨⟨inv_set hi ⟨g1, hgd.2⟩, hi.2⟩, [], .nil, fun k => ?_⟩
      have hc := count_flatMap_set modOwed k st.mods i d { d with table := (MContext.sweep d.table now).2 } hd
      have := g2 k
      simp only [modOwed, List.count_append] at hc
      simp only [owed, List.count_append, List.count_nil]
      omega
  | cacheSweep now =>
    unfold step at h
    dsimp only at h
    split at h
    · cases h
    · simp only [Option.some.injEq, Prod.mk.injEq] at h
      obtain ⟨rfl, rfl⟩ := h
      exact ⟨hi, [], .nil, fun k => by simp [owed]⟩
  | innerTake k cap sock rnd old x =>
    unfold step at h
    dsimp only at h
    split at h
    · cases h
    · rename_i m l hp
      have hpm := pick_perm hp
      have hgm := hi.2.1 m (hpm.mem_iff.2 List.mem_cons_self)
      have hl : ∀ y ∈ l, Good y ∧ 2 ≤ y.entity.length := fun y hy => hi.2.1 y (hpm.mem_iff.2 (List.mem_cons_of_mem _ hy))
      split at h
      · cases h
      · rename_i lp hin
        simp only [Option.some.injEq, Prod.mk.injEq] at h
        obtain ⟨rfl, rfl⟩ := h
        have := inner_none hin
        subst this
        refine ⟨⟨hi.1, hl, hi.2.2⟩, [], .nil, fun k => ?_⟩
        have hib := count_flatMap_perm headLab k hpm
        simp only [List.flatMap_cons, List.count_append] at hib
        simp only [owed, List.count_append, List.count_nil]
        omega
      · rename_i lp q hin
        split at h
        · cases h
        · rename_i st1 hd acts' hs
          simp only [Option.some.injEq, Prod.mk.injEq] at h
          obtain ⟨rfl, rfl⟩ := h
          obtain ⟨t1, ⟨a, t2⟩, t3⟩ := inner_query hin
          have hw : (waiting lp.table).Perm (⟨ident m.entity, m.hash, m.domain, m.type, m, x.now⟩ :: waiting st.loop.table) := by
            rw [t1]; unfold waiting Bst.State.add
            exact (Bst.Tree.toList_insert _ _ _ _).map _
          have hgt : GoodTable lp.table := by
            refine ⟨by rw [t1]; exact (Bst.inv_add hi.2.2.1 _).1, fun p hp => ?_⟩
            rcases List.mem_cons.1 (hw.mem_iff.1 hp) with rfl | hp
            · exact hgm.1
            · exact hi.2.2.2 p hp
          obtain ⟨i1, own, hm, hk⟩ := mgrSend_balance (st := { st with inner := l, loop := lp }) ⟨hi.1, hl, hgt⟩ t3
            (by rw [List.take_append_of_le_length (by omega)]) (fun c hc => by rw [t2] at hc; cases hc) hs
          refine ⟨i1, own, hm, fun k => ?_⟩
          have h1 := hk k
          have h2 : headLab q = [] := by unfold headLab lab; rw [t2]
          have hib := count_flatMap_perm headLab k hpm
          have hlw := count_flatMap_perm pend k hw
          have hpe : pend ⟨ident m.entity, m.hash, m.domain, m.type, m, x.now⟩ = headLab m := rfl
          simp only [List.flatMap_cons, List.count_append, hpe] at hib hlw
          simp only [owed, List.count_append, List.count_nil, h2] at h1 ⊢
          omega
  | innerLose k =>
    unfold step at h
    dsimp only at h
    split at h
    · cases h
    · rename_i m l hp
      have hpm := pick_perm hp
      simp only [Option.some.injEq, Prod.mk.injEq] at h
      obtain ⟨rfl, rfl⟩ := h
      refine ⟨⟨hi.1, fun y hy => hi.2.1 y (hpm.mem_iff.2 (List.mem_cons_of_mem _ hy)), hi.2.2⟩, [], .nil, fun k => ?_⟩
      have hib := count_flatMap_perm headLab k hpm
      simp only [List.flatMap_cons, List.count_append] at hib
      simp only [owed, List.count_append, List.count_nil]
      omega
  | outerTake k cap rest header fuel =>
    unfold step at h
    dsimp only at h
    split at h
    · cases h
    · rename_i m l hp
      split at h
      · split at h
        · cases h
        · rename_i lp hout
          simp only [Option.some.injEq, Prod.mk.injEq] at h
          obtain ⟨rfl, rfl⟩ := h
          rcases outer_spec hout with ⟨rfl, _⟩ | ⟨a, p, h1, h2, _⟩
          · exact ⟨hi, [], .nil, fun k => by simp [owed]⟩
          · obtain ⟨gt, _⟩ := good_delete hi.2.2 h1
            refine ⟨⟨hi.1, hi.2.1, by rw [h2]; exact gt⟩, [], .nil, fun k => ?_⟩
            have hw := count_flatMap_perm pend k (delete_contents hi.2.2.1 h1)
            simp only [List.flatMap_cons, List.count_append] at hw
            simp only [owed, List.count_append, List.count_nil, h2]
            omega
        · rename_i lp r hout
          simp only [Option.some.injEq, Prod.mk.injEq] at h
          obtain ⟨rfl, rfl⟩ := h
          rcases outer_spec hout with ⟨_, h0⟩ | ⟨a, p, h1, h2, h3⟩
          · cases h0
          · obtain ⟨gt, gp⟩ := good_delete hi.2.2 h1
            obtain ⟨f1, f2, f3, f4⟩ := h3 r rfl
            refine ⟨⟨hi.1, hi.2.1, by rw [h2]; exact gt⟩, pend p, ?_, fun k => ?_⟩
            · have := post_matched (m := r) (m' := r) (fun a ha => by rw [f3]; exact gp a (f1 ▸ ha)) p.id.toNat f4
              rw [count_lab_eq f1 f2] at this
              exact this
            · have hw := count_flatMap_perm pend k (delete_contents hi.2.2.1 h1)
              simp only [List.flatMap_cons, List.count_append] at hw
              simp only [owed, List.count_append, h2]
              omega
      · cases h
  | outerLose k =>
    unfold step at h
    dsimp only at h
    split at h
    · cases h
    · simp only [Option.some.injEq, Prod.mk.injEq] at h
      obtain ⟨rfl, rfl⟩ := h
      exact ⟨hi, [], .nil, fun k => by simp [owed]⟩
  | loopSweep now =>
    unfold step at h
    simp only [Option.some.injEq, Prod.mk.injEq] at h
    obtain ⟨rfl, rfl⟩ := h
    obtain ⟨g1, g2⟩ := good_sweep hi.2.2 now
    refine ⟨⟨hi.1, hi.2.1, g1⟩, [], .nil, fun k => ?_⟩
    have := g2 k
    simp only [owed, List.count_append, List.count_nil]
    omega
  | reload protos head =>
    unfold step at h
    simp only [Option.some.injEq, Prod.mk.injEq] at h
    obtain ⟨rfl, rfl⟩ := h
    have hn : waiting (Bst.State.init : Table (Head Addr)) = [] := by simp [waiting, Bst.State.init, Bst.Tree.toList]
    refine ⟨⟨?_, hi.2⟩, [], .nil, fun k => ?_⟩
    · intro d hd
      rcases List.mem_append.1 hd with hd | hd
      · exact hi.1 d hd
      · obtain ⟨p, _, rfl⟩ := List.mem_map.1 hd
        exact ⟨⟨Bst.inv_init, fun p hp => by rw [hn] at hp; cases hp⟩, fun y hy => by cases hy⟩
    · have hz : ((protos.map (fun p => (⟨p, Bst.State.init, head, []⟩ : Module (Dest Addr)))).flatMap modOwed) = [] := by
        rw [List.flatMap_eq_nil_iff]
        intro d hd
        obtain ⟨p, _, rfl⟩ := List.mem_map.1 hd
        simp [modOwed, hn]
      simp only [owed, List.flatMap_append, List.count_append, hz, List.count_nil]
      omega
  | tcpOpen sock =>
    unfold step at h
    simp only [Option.some.injEq, Prod.mk.injEq] at h
    obtain ⟨rfl, rfl⟩ := h
    exact ⟨hi, [], .nil, fun k => by simp⟩

theorem run_balance [DecidableEq Addr] (l : List (Env × Ev Addr)) : ∀ {st st' : St Addr} {acts : List (Act Addr)}, Inv st → (∀ e ∈ l, Accepted e.2) →
    run st l = some (st', acts) →
    ∃ own, Matched own (replies acts) ∧ ∀ k, own.count k + (owed st').count k ≤ (owed st).count k + (queries l).count k := by
  induction l with
  | nil =>
    intro st st' acts _ _ h
    simp only [run, Option.some.injEq, Prod.mk.injEq] at h
    obtain ⟨rfl, rfl⟩ := h
    exact ⟨[], .nil, fun k => by simp⟩
  | cons x l ih =>
    intro st st' acts hi ha h
    obtain ⟨e, ev⟩ := x
    unfold run at h
    split at h
    · cases h
    · rename_i st1 a1 hs
      split at h
      · cases h
      · rename_i st2 a2 hr
        simp only [Option.some.injEq, Prod.mk.injEq] at h
        obtain ⟨rfl, rfl⟩ := h
        obtain ⟨i1, own1, m1, c1⟩ := step_balance hi (ha (e, ev) (by simp)) hs
        obtain ⟨own2, m2, c2⟩ := ih i1 (fun y hy => ha y (by simp [hy])) hr
        refine ⟨own1 ++ own2, by rw [replies_append]; exact matched_append m1 m2, fun k => ?_⟩
        have := c1 k
        have := c2 k
        simp only [queries, List.flatMap_cons, List.count_append] at *
        omega

end Verif.Forwarder
