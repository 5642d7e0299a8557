import Verif.Lemmas.Forwarder
import Verif.Lemmas.Name
/-! Every waiting query stems from a query of a client. -/

namespace Verif.Forwarder
open Msg MContext Pipeline HostsLoop Keeps

variable {Addr : Type}

/-- The header `m` with identifier `id` is that of the query `ev`. -/
def Stems (ev : Ev Addr) (m : Head Addr) (id : UInt16) : Prop :=
  ∃ h m0 : Head Addr, (match ev with
    | .udpQuery sock addr agent b len x => fill h false b len (some (.client addr)) sock agent x.fuel = some (0, m0)
    | .tcpQuery sock agent b len x => fill h false b len none sock agent x.fuel = some (0, m0)
    | _ => False) ∧ m.back = m0.back ∧ m.sock = m0.sock ∧ m.hash = m0.hash ∧ id = ident m0.entity

def From (hist : List (Env × Ev Addr)) (m : Head Addr) (id : UInt16) : Prop :=
  (∃ p t, m.back = some (.loop p t)) ∨ ∃ x ∈ hist, Stems x.2 m id

def FromMod (hist : List (Env × Ev Addr)) (d : Module (Dest Addr)) : Prop :=
  (∀ p ∈ waiting d.table, p.hash = p.client.hash ∧ From hist p.client p.id) ∧ ∀ m ∈ d.inbox, From hist m (ident m.entity)

def FromAll (hist : List (Env × Ev Addr)) (st : St Addr) : Prop := ∀ d ∈ st.mods, FromMod hist d

theorem From.more {hist hist' : List (Env × Ev Addr)} {m : Head Addr} {id : UInt16} (h : From hist m id) (hs : ∀ x ∈ hist, x ∈ hist') :
    From hist' m id := h.imp (fun h => h) (fun ⟨x, hx, h⟩ => ⟨x, hs x hx, h⟩)

theorem FromAll.more {hist hist' : List (Env × Ev Addr)} {st : St Addr} (h : FromAll hist st) (hs : ∀ x ∈ hist, x ∈ hist') : FromAll hist' st :=
  fun d hd => ⟨fun p hp => ⟨((h d hd).1 p hp).1, ((h d hd).1 p hp).2.more hs⟩, fun m hm => ((h d hd).2 m hm).more hs⟩

theorem From.congr {hist : List (Env × Ev Addr)} {m m' : Head Addr} {id : UInt16} (h : From hist m id) (h1 : m'.back = m.back)
    (h2 : m'.sock = m.sock) (h3 : m'.hash = m.hash) : From hist m' id := by
  rcases h with ⟨p, t, h⟩ | ⟨x, hx, h0, m0, a, b, c, d, f⟩
  · exact Or.inl ⟨p, t, h1.trans h⟩
  · exact Or.inr ⟨x, hx, h0, m0, a, h1.trans b, h2.trans c, h3.trans d, f⟩

theorem fromAll_set {hist : List (Env × Ev Addr)} {st : St Addr} (h : FromAll hist st) {i : Nat} {d : Module (Dest Addr)} (hd : FromMod hist d) :
    ∀ x ∈ st.mods.set i d, FromMod hist x := by
  intro x hx
  rcases List.mem_or_eq_of_mem_set hx with hx | rfl
  · exact h x hx
  · exact hd

theorem from_add {hist : List (Env × Ev Addr)} {t : Table (Head Addr)}
    (h : ∀ p ∈ waiting t, p.hash = p.client.hash ∧ From hist p.client p.id) {now : Int} {p : Pending (Head Addr)}
    (hp : p.hash = p.client.hash ∧ From hist p.client p.id) :
    ∀ q ∈ waiting (MContext.add t now p), q.hash = q.client.hash ∧ From hist q.client q.id := by
  intro q hq
  rcases List.mem_cons.1 ((add_contents t now p).mem_iff.1 hq) with rfl | hq
  · exact hp
  · exact h q hq

theorem mgrSend_from {hist : List (Env × Ev Addr)} {e : Env} {st st' : St Addr} {x : Luck} {b : List Byte} {m h : Head Addr} {acts : List (Act Addr)}
    (hf : FromAll hist st) (hm : 12 ≤ m.entity.length) (hb : m.entity.take 2 = b.take 2) (hg : From hist m (ident m.entity))
    (hs : mgrSend e st x b m = some (st', h, acts)) : FromAll hist st' := by
  unfold mgrSend at hs
  cases hd : Pipeline.decide e st.cache x (b.drop m.entity.length) (requestTcp m) m with
  | none => rw [hd] at hs; cases hs
  | some o =>
    rw [hd] at hs
    clear hd
    cases o with
    | refused o => simp only [Option.some.injEq, Prod.mk.injEq] at hs; obtain ⟨rfl, _⟩ := hs; exact hf
    | hosts o => simp only [Option.some.injEq, Prod.mk.injEq] at hs; obtain ⟨rfl, _⟩ := hs; exact hf
    | cache o => simp only [Option.some.injEq, Prod.mk.injEq] at hs; obtain ⟨rfl, _⟩ := hs; exact hf
    | nowhere => simp only [Option.some.injEq, Prod.mk.injEq] at hs; obtain ⟨rfl, _⟩ := hs; exact hf
    | upstream i =>
      dsimp only at hs
      split at hs
      · cases hs
      · rename_i d hd
        have hfd := hf d (List.mem_of_getElem? hd)
        split at hs
        · split at hs
          · cases hs
          · rename_i m' d' hu
            simp only [Option.some.injEq, Prod.mk.injEq] at hs
            obtain ⟨rfl, _⟩ := hs
            unfold udpSend at hu
            split at hu
            · cases hu
            · rename_i m'' ha
              simp only [Option.some.injEq, Prod.mk.injEq] at hu
              obtain ⟨rfl, rfl⟩ := hu
              obtain ⟨e1, e2, e3, e4, e5, e6, e7⟩ := addFakeEdns_head hm ha
              refine fromAll_set hf ⟨from_add hfd.1 ⟨rfl, ?_⟩, hfd.2⟩
              have : ident b = ident m.entity := (ident_take hb).symm
              simp only [entry, this]
              exact hg.congr e1 e2 e5
        · simp only [Option.some.injEq, Prod.mk.injEq] at hs
          obtain ⟨rfl, _⟩ := hs
          unfold tcpSend
          split
          · refine fromAll_set hf ⟨hfd.1, ?_⟩
            intro y hy
            simp only [List.mem_append, List.mem_singleton] at hy
            rcases hy with hy | rfl
            · exact hfd.2 y hy
            · exact hg
          · exact fromAll_set hf hfd

theorem from_fill {hist : List (Env × Ev Addr)} {e : Env} {ev : Ev Addr} {h m : Head Addr}
    (hf : match ev with
      | .udpQuery sock addr agent b len x => fill h false b len (some (.client addr)) sock agent x.fuel = some (0, m)
      | .tcpQuery sock agent b len x => fill h false b len none sock agent x.fuel = some (0, m)
      | _ => False) : From (hist ++ [(e, ev)]) m (ident m.entity) :=
  Or.inr ⟨(e, ev), List.mem_append_right _ (List.mem_singleton.2 rfl), h, m, hf, rfl, rfl, rfl, rfl⟩

theorem step_from [DecidableEq Addr] {hist : List (Env × Ev Addr)} {e : Env} {st st' : St Addr} {ev : Ev Addr} {acts : List (Act Addr)}
    (hi : Inv st) (hf : FromAll hist st) (ha : Accepted ev) (h : step e st ev = some (st', acts)) : FromAll (hist ++ [(e, ev)]) st' := by
  have hf' : FromAll (hist ++ [(e, ev)]) st := hf.more (fun x hx => List.mem_append_left _ hx)
  clear hf
  cases ev with
  | udpQuery sock addr agent b len x =>
    unfold step at h
    dsimp only at h
    split at h
    · cases h
    · rename_i c m hfl
      have hc := ha _ _ _ hfl
      subst hc
      obtain ⟨e1, e2, e3, e4, e5, e6⟩ := fill_zero hfl
      obtain ⟨h12, h2⟩ := accepted_head e4 e5 e6
      split at h
      · cases h
      · rename_i st1 hd acts' hs
        simp only [Option.some.injEq, Prod.mk.injEq] at h
        obtain ⟨rfl, rfl⟩ := h
        have := mgrSend_from hf' h12 h2 (from_fill (ev := .udpQuery sock addr agent b len x) hfl) hs
        exact this
  | tcpQuery sock agent b len x =>
    unfold step at h
    dsimp only at h
    split at h
    · cases h
    · rename_i c m hfl
      have hc := ha _ _ _ hfl
      subst hc
      obtain ⟨e1, e2, e3, e4, e5, e6⟩ := fill_zero hfl
      obtain ⟨h12, h2⟩ := accepted_head e4 e5 e6
      split at h
      · cases h
      · rename_i st1 hd acts' hs
        simp only [Option.some.injEq, Prod.mk.injEq] at h
        obtain ⟨rfl, rfl⟩ := h
        have := mgrSend_from hf' h12 h2 (from_fill (ev := .tcpQuery sock agent b len x) hfl) hs
        exact this
  | response i b len fuel bn clock =>
    unfold step at h
    dsimp only at h
    split at h
    · cases h
    · rename_i d hd
      have hgd := hi.1 d (List.mem_of_getElem? hd)
      have hfd := hf' d (List.mem_of_getElem? hd)
      split at h
      · cases h
      · rename_i d' ops out hr
        split at h
        · cases h
        · simp only [Option.some.injEq, Prod.mk.injEq] at h
          obtain ⟨rfl, rfl⟩ := h
          refine fromAll_set hf' ?_
          unfold respond at hr
          split at hr
          · cases hr
          · split at hr
            · cases hr
            · dsimp only at hr
              split at hr
              · simp only [Option.some.injEq, Prod.mk.injEq] at hr; obtain ⟨rfl, _⟩ := hr; exact hfd
              · split at hr
                · simp only [Option.some.injEq, Prod.mk.injEq] at hr; obtain ⟨rfl, _⟩ := hr; exact hfd
                · split at hr
                  · rename_i t hgen
                    have ht : t = d.table := by
                      unfold genAnswerHeaderAndRemove at hgen
                      split at hgen <;> simp only [Prod.mk.injEq, reduceCtorEq, false_and, true_and] at hgen
                      exact hgen.symm
                    subst ht
                    split at hr
                    · cases hr
                    · simp only [Option.some.injEq, Prod.mk.injEq] at hr; obtain ⟨rfl, _⟩ := hr; exact hfd
                  · rename_i p t hgen
                    unfold genAnswerHeaderAndRemove at hgen
                    split at hgen
                    · simp at hgen
                    · rename_i a p' hs
                      simp only [Prod.mk.injEq, Option.some.injEq] at hgen
                      obtain ⟨rfl, rfl⟩ := hgen
                      obtain ⟨h1, h2⟩ := Bst.Tree.search_some hs
                      split at hr
                      · cases hr
                      · simp only [Option.some.injEq, Prod.mk.injEq] at hr
                        obtain ⟨rfl, _⟩ := hr
                        exact ⟨fun q hq => hfd.1 q ((delete_contents hgd.1.1 h1).mem_iff.2 (List.mem_cons_of_mem _ hq)), hfd.2⟩
  | take i k now rest =>
    unfold step at h
    dsimp only at h
    split at h
    · cases h
    · rename_i d hd
      have hgd := hi.1 d (List.mem_of_getElem? hd)
      have hfd := hf' d (List.mem_of_getElem? hd)
      split at h
      · cases h
      · rename_i m l hp
        simp only [Option.some.injEq, Prod.mk.injEq] at h
        obtain ⟨rfl, rfl⟩ := h
        have hpm := pick_perm hp
        have hgm := hgd.2 m (hpm.mem_iff.2 List.mem_cons_self)
        have hfm := hfd.2 m (hpm.mem_iff.2 List.mem_cons_self)
        refine fromAll_set hf' ⟨from_add hfd.1 ⟨rfl, ?_⟩, fun y hy => hfd.2 y (hpm.mem_iff.2 (List.mem_cons_of_mem _ hy))⟩
        simp only [entry]
        rw [ident_take (a := m.entity ++ rest) (b := m.entity) (List.take_append_of_le_length hgm.2)]
        exact hfm
  | lose i k =>
    unfold step at h
    dsimp only at h
    split at h
    · cases h
    · rename_i d hd
      have hfd := hf' d (List.mem_of_getElem? hd)
      split at h
      · cases h
      · rename_i m l hp
        simp only [Option.some.injEq, Prod.mk.injEq] at h
        obtain ⟨rfl, rfl⟩ := h
        have hpm := pick_perm hp
        exact fromAll_set hf' ⟨hfd.1, fun y hy => hfd.2 y (hpm.mem_iff.2 (List.mem_cons_of_mem _ hy))⟩
  | sweep i now =>
    unfold step at h
    dsimp only at h
    split at h
    · cases h
    · rename_i d hd
      have hgd := hi.1 d (List.mem_of_getElem? hd)
      have hfd := hf' d (List.mem_of_getElem? hd)
      simp only [Option.some.injEq, Prod.mk.injEq] at h
      obtain ⟨rfl, rfl⟩ := h
      obtain ⟨h1, h2, _⟩ := sweep_spec hgd.1.1 now
      have hs : (waiting (MContext.sweep d.table now).2).Sublist (waiting d.table) := by
        unfold waiting; rw [h2]; exact List.filter_sublist.map _
      exact fromAll_set hf' ⟨fun q hq => hfd.1 q (hs.subset hq), hfd.2⟩
  | cacheSweep now =>
    unfold step at h
    dsimp only at h
    split at h
    · cases h
    · simp only [Option.some.injEq, Prod.mk.injEq] at h
      obtain ⟨rfl, rfl⟩ := h
      exact hf'
  | innerTake k cap sock rnd old x =>
    unfold step at h
    dsimp only at h
    split at h
    · cases h
    · split at h
      · cases h
      · simp only [Option.some.injEq, Prod.mk.injEq] at h
        obtain ⟨rfl, rfl⟩ := h
        exact hf'
      · rename_i lp q hin
        split at h
        · cases h
        · rename_i st1 hd acts' hs
          simp only [Option.some.injEq, Prod.mk.injEq] at h
          obtain ⟨rfl, rfl⟩ := h
          obtain ⟨_, ⟨a, t2⟩, t3⟩ := inner_query hin
          refine mgrSend_from ?_ t3 (by rw [List.take_append_of_le_length (by omega)]) (Or.inl ⟨_, _, t2⟩) hs
          exact hf'
  | innerLose k =>
    unfold step at h
    dsimp only at h
    split at h
    · cases h
    · simp only [Option.some.injEq, Prod.mk.injEq] at h
      obtain ⟨rfl, rfl⟩ := h
      exact hf'
  | outerTake k cap rest header fuel =>
    unfold step at h
    dsimp only at h
    split at h
    · cases h
    · split at h
      · split at h
        · cases h
        · simp only [Option.some.injEq, Prod.mk.injEq] at h
          obtain ⟨rfl, rfl⟩ := h
          exact hf'
        · simp only [Option.some.injEq, Prod.mk.injEq] at h
          obtain ⟨rfl, rfl⟩ := h
          exact hf'
      · cases h
  | outerLose k =>
    unfold step at h
    dsimp only at h
    split at h
    · cases h
    · simp only [Option.some.injEq, Prod.mk.injEq] at h
      obtain ⟨rfl, rfl⟩ := h
      exact hf'
  | loopSweep now =>
    unfold step at h
    simp only [Option.some.injEq, Prod.mk.injEq] at h
    obtain ⟨rfl, rfl⟩ := h
    exact hf'
  | reload protos head =>
    unfold step at h
    simp only [Option.some.injEq, Prod.mk.injEq] at h
    obtain ⟨rfl, rfl⟩ := h
    intro d hd
    rcases List.mem_append.1 hd with hd | hd
    · exact hf' d hd
    · obtain ⟨p, _, rfl⟩ := List.mem_map.1 hd
      refine ⟨fun q hq => ?_, fun m hm => ?_⟩
      · simp [waiting, Bst.State.init, Bst.Tree.toList] at hq
      · simp at hm
  | tcpOpen c =>
    unfold step at h
    simp only [Option.some.injEq, Prod.mk.injEq] at h
    obtain ⟨rfl, rfl⟩ := h
    exact hf'

theorem run_from [DecidableEq Addr] : ∀ {l hist : List (Env × Ev Addr)} {st st' : St Addr} {a : List (Act Addr)}, Inv st → FromAll hist st →
    (∀ x ∈ l, Accepted x.2) → run st l = some (st', a) → Inv st' ∧ FromAll (hist ++ l) st'
  | [], hist, st, st', a, hi, hf, _, h => by
    simp only [run, Option.some.injEq, Prod.mk.injEq] at h
    obtain ⟨rfl, _⟩ := h
    simpa using ⟨hi, hf⟩
  | (e, ev) :: l, hist, st, st', a, hi, hf, ha, h => by
    unfold run at h
    split at h
    · cases h
    · rename_i st1 a1 h1
      split at h
      · cases h
      · rename_i st2 a2 h2
        simp only [Option.some.injEq, Prod.mk.injEq] at h
        obtain ⟨rfl, _⟩ := h
        have hae := ha (e, ev) List.mem_cons_self
        have := run_from (step_balance hi hae h1).1 (step_from hi hf hae h1) (fun x hx => ha x (List.mem_cons_of_mem _ hx)) h2
        simpa using this

theorem fillStep_fuel {b : List Byte} {len f g : Nat} (hfg : f ≤ g) {h : Head Addr} {it : Parser.Itr} {p : Nat} {r}
    (e : fillStep b len f h it p = some r) : fillStep b len g h it p = some r := by
  unfold fillStep at e ⊢
  split at e
  · split at e
    · rename_i h1; rw [if_pos h1]; exact e
    · rename_i h1
      rw [if_neg h1]
      have : Name.getHostName (Msg.memAt b) len p (some 256) g = Name.getHostName (Msg.memAt b) len p (some 256) f := by
        refine Verif.Name.getLoop_mono ?_ g hfg
        intro hn
        have hn : (Name.getHostName (Msg.memAt b) len p (some 256) f).out = .noFuel := hn
        rw [hn] at e
        cases e
      rw [this]
      exact e
  · exact e
  · exact e

theorem fillLoop_fuel {b : List Byte} {len f g : Nat} (hfg : f ≤ g) {c : Parser.Counts} (n : Nat) : ∀ {it : Parser.Itr} {h : Head Addr} {r},
    fillLoop b len c f n it h = some r → fillLoop b len c g n it h = some r := by
  induction n with
  | zero => intro it h r e; cases e
  | succ n ih =>
    intro it h r e
    unfold fillLoop at e ⊢
    cases hn : Parser.next b len c it with
    | none => rw [hn] at e; cases e
    | some y =>
      obtain ⟨it', o⟩ := y
      rw [hn] at e
      cases o with
      | none => exact e
      | some p =>
        dsimp only at e ⊢
        cases hs : fillStep b len f h it' p with
        | none => rw [hs] at e; cases e
        | some s =>
          rw [hs] at e
          rw [fillStep_fuel hfg hs]
          cases s with
          | inl r => exact e
          | inr h' => exact ih e

theorem fill_fuel {h : Head Addr} {ret : Bool} {b agent : List Byte} {len sock f g : Nat} {back : Option (Dest Addr)} {r : Int × Head Addr}
    (hfg : f ≤ g) (e : fill h ret b len back sock agent f = some r) : fill h ret b len back sock agent g = some r := by
  unfold fill at e ⊢
  dsimp only at e ⊢
  split at e
  · rename_i h1; rw [if_pos h1]; exact e
  · rename_i h1
    rw [if_neg h1]
    cases hc : Parser.counts b with
    | none => rw [hc] at e; cases e
    | some c =>
      rw [hc] at e
      dsimp only at e ⊢
      generalize hl : fillLoop b len c f _ _ _ = o at e
      cases o with
      | none => cases e
      | some s => rw [fillLoop_fuel hfg _ hl]; exact e

end Verif.Forwarder
