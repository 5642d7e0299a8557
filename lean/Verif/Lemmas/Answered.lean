import Verif.Lemmas.SameName
/-! What each event does to the queries that wait for a server. -/

namespace Verif.Forwarder
open Msg MContext Pipeline HostsLoop Keeps

variable {Addr : Type}

/-! ### the order of the waiting queries by their identifiers -/

/-- Comparison by the identifier alone. -/
def idCompare {C : Type} (p q : Pending C) : Int := (p.id.toNat : Int) - q.id.toNat

theorem idCompare_totalPreorder {C : Type} : TotalPreorder (idCompare (C := C)) :=
  ⟨fun a b => by unfold idCompare; omega, fun a b c => by unfold idCompare; omega⟩

theorem id_of_compare_le {C : Type} {p q : Pending C} (h : MContext.compare p q ≤ 0) : idCompare p q ≤ 0 := by
  unfold MContext.compare at h
  unfold idCompare
  split at h
  · exact h
  · rename_i he
    have : p.id = q.id := by simpa using he
    rw [this]; omega

theorem id_of_compare_ge {C : Type} {p q : Pending C} (h : 0 ≤ MContext.compare p q) : idCompare q p ≤ 0 := by
  unfold MContext.compare at h
  unfold idCompare
  split at h
  · omega
  · rename_i he
    have : p.id = q.id := by simpa using he
    rw [this]; omega

theorem ordered_insert_id {C : Type} (a : Nat) (x : Pending C) (t : Bst.Tree (Pending C)) (h : t.Ordered idCompare) :
    (t.insert MContext.compare a x).Ordered idCompare := by
  induction t with
  | nil => simp [Bst.Tree.insert, Bst.Tree.Ordered, Bst.Tree.toList]
  | node l b y r ihl ihr =>
    obtain ⟨h1, h2, h3, h4⟩ := h
    unfold Bst.Tree.insert
    split
    · rename_i hxy
      refine ⟨?_, h2, ihl h3, h4⟩
      intro e he
      rw [(Bst.Tree.toList_insert MContext.compare a x l).mem_iff] at he
      rcases List.mem_cons.1 he with rfl | he
      · exact id_of_compare_le hxy
      · exact h1 e he
    · rename_i hxy
      refine ⟨h1, ?_, h3, ihr h4⟩
      intro e he
      rw [(Bst.Tree.toList_insert MContext.compare a x r).mem_iff] at he
      rcases List.mem_cons.1 he with rfl | he
      · exact id_of_compare_ge (show 0 ≤ MContext.compare x y by omega)
      · exact h2 e he

/-- In a table ordered by the identifiers, a query is found if all that wait with this identifier have this hash. -/
theorem search_id {C : Type} {k : Pending C} {t : Bst.Tree (Pending C)} (ho : t.Ordered idCompare)
    (hu : ∀ e ∈ t.toList, e.2.id = k.id → e.2.hash = k.hash) (he : ∃ e ∈ t.toList, e.2.id = k.id) :
    ∃ r, t.search MContext.compare k = some r := by
  induction t with
  | nil => obtain ⟨e, h, _⟩ := he; simp [Bst.Tree.toList] at h
  | node l b y r ihl ihr =>
    obtain ⟨h1, h2, h3, h4⟩ := ho
    unfold Bst.Tree.search
    split
    · exact ⟨_, rfl⟩
    · rename_i hne
      have hyk : y.id ≠ k.id := by
        intro hy
        exact hne (compare_zero_of hy.symm (hu (b, y) (by simp [Bst.Tree.toList]) hy).symm)
      have hc : MContext.compare k y = (k.id.toNat : Int) - y.id.toNat := by
        unfold MContext.compare
        rw [if_pos (fun h => hyk h.symm)]
      obtain ⟨e, hem, hek⟩ := he
      simp only [Bst.Tree.toList, List.mem_append, List.mem_cons] at hem
      split
      · rename_i hlt
        refine ihl h3 (fun e he => hu e (by simp [Bst.Tree.toList, he])) ?_
        rcases hem with hem | rfl | hem
        · exact ⟨e, hem, hek⟩
        · exact absurd hek hyk
        · have := h2 e hem
          unfold idCompare at this
          rw [hek] at this
          omega
      · rename_i hlt
        refine ihr h4 (fun e he => hu e (by simp [Bst.Tree.toList, he])) ?_
        rcases hem with hem | rfl | hem
        · have := h1 e hem
          unfold idCompare at this
          rw [hek] at this
          have : k.id.toNat ≠ y.id.toNat := fun h => hyk (UInt16.toNat_inj.1 h).symm
          omega
        · exact absurd hek hyk
        · exact ⟨e, hem, hek⟩

theorem foldl_delete_id {C : Type} (old : List (Nat × Pending C)) : ∀ {c : Table C}, c.root.Ordered idCompare →
    (old.foldl (fun s e => s.delete e.1) c).root.Ordered idCompare := by
  induction old with
  | nil => exact fun h => h
  | cons e es ih => exact fun h => ih (Bst.Tree.delete_ordered idCompare_totalPreorder _ _ h)

/-! ### the address lists keep the identifier -/

theorem misc_loop_starts {t : List Byte} {lists : IpChunk.Chunk} {len : Nat} {c : Parser.Counts} (n : Nat) :
    ∀ {b b' : List Byte} {it : Parser.Itr} {v : IpMisc.Verdict}, Starts t b → (∀ q, it.pos = some q → 12 ≤ q) →
      IpMisc.loop lists len c n b it = some (v, b') → Starts t b' := by
  induction n with
  | zero => intro b b' it v _ _ h; cases h
  | succ n ih =>
    intro b b' it v hs hit h
    unfold IpMisc.loop at h
    cases hn : Parser.next b len c it with
    | none => rw [hn] at h; cases h
    | some r =>
      obtain ⟨i1, r⟩ := r
      have hp := next_pos hit hn
      rw [hn] at h
      cases r with
      | none => simp only [Option.some.injEq, Prod.mk.injEq] at h; rw [← h.2]; exact hs
      | some p =>
        obtain ⟨hp1, hp2⟩ := hp.2 p rfl
        dsimp only at h
        split at h
        · simp only [Option.some.injEq, Prod.mk.injEq] at h; rw [← h.2]; exact hs
        · split at h
          · exact ih hs hp.1 h
          · split at h
            · exact ih hs hp.1 h
            · rename_i k hk
              split at h
              · cases h
              · rename_i row hrow
                split at h
                · rename_i hle
                  split at h
                  · exact ih hs hp.1 h
                  · split at h
                    · simp only [Option.some.injEq, Prod.mk.injEq] at h; rw [← h.2]; exact hs
                    · split at h
                      · split at h
                        · cases h
                        · rename_i d
                          split at h
                          · rename_i hkd
                            refine ih ?_ hp.1 h
                            unfold Parser.rowData at hrow
                            simp only [Option.map_eq_some_iff] at hrow
                            obtain ⟨s, _, rfl⟩ := hrow
                            have hl : (b.take (p + s + 10)).length = p + s + 10 := by simp; omega
                            unfold IpMisc.put
                            refine ⟨by simp only [List.length_append, hl]; omega, ?_⟩
                            rw [List.append_assoc, List.take_append_of_le_length (by omega), List.take_take, Nat.min_eq_left (by omega)]
                            exact hs.2
                          · cases h
                      · exact ih hs hp.1 h
                · cases h

theorem misc_ident {e : Env} {b b' : List Byte} {len : Nat} {v : IpMisc.Verdict} (h : misc e b len = some (v, b')) : ident b' = ident b := by
  unfold misc at h
  split at h
  · simp only [Option.some.injEq, Prod.mk.injEq] at h; rw [h.2]
  · unfold IpMisc.process at h
    split at h
    · split at h
      · rename_i f c hf hc
        have h12 : 12 ≤ b.length := by
          unfold Parser.counts Parser.u16At at hc
          false_or_by_contra
          rename_i hlt
          rw [show b[10 + 1]? = none from List.getElem?_eq_none (by omega)] at hc
          repeat' split at hc
          all_goals first | cases hc; done | skip
          all_goals simp_all
        split at h
        · simp only [Option.some.injEq, Prod.mk.injEq] at h; rw [h.2]
        · split at h
          · cases h
          · rename_i it hit
            exact ident_take (misc_loop_starts (t := b.take 2) _ ⟨h12, rfl⟩ (gotoAnswers_pos hit) h).2
      · cases h
    · simp only [Option.some.injEq, Prod.mk.injEq] at h; rw [h.2]

/-- The query for an alias has the identifier drawn. -/
theorem inner_ident {fnm : List Byte → List Byte → Bool} {hosts : Hosts.Hosts} {cap : Nat} {now : Int} {rnd fuel sock : Nat}
    {h m q : Head Addr} {s s' : Loop Addr} (e : HostsLoop.inner fnm hosts cap now rnd fuel sock h m s = some (s', some q)) :
    (ident q.entity).toNat = rnd % 65536 := by
  unfold HostsLoop.inner at e
  split at e
  · simp at e
  · rename_i target _
    split at e
    · cases e
    · rename_i code q' hq
      split at e
      · simp at e
      · rename_i hcode
        dsimp only at e
        simp only [Option.some.injEq, Prod.mk.injEq] at e
        obtain ⟨_, rfl⟩ := e
        dsimp only
        unfold generateQuery at hq
        split at hq
        · cases hq
        · rename_i g hg
          have h0 : Ok (Generator.set16 rnd) (Generator.setIdentifier g rnd) := by
            unfold Generator.initFrom at hg
            rw [show Parser.counts queryHeader = some ⟨0, 0, 0, 0⟩ from rfl] at hg
            dsimp only at hg
            rw [if_neg (by decide)] at hg
            split at hg
            · simp only [Option.some.injEq] at hg
              subst hg
              refine ⟨⟨?_, ?_⟩, ?_, ?_⟩
              · simp [Generator.setIdentifier, Generator.overwrite, Generator.set16, queryHeader]
              · simp [Generator.setIdentifier, Generator.overwrite, Generator.set16, queryHeader]
              · simp only [Generator.setIdentifier]; decide
              · simp only [Generator.setIdentifier]; decide
            · cases hg
          have h1 := ok_question (name := target) (type := m.type) (klass := 1) h0
          generalize Generator.question _ _ _ _ = r at hq h1
          obtain ⟨code', g1⟩ := r
          dsimp only at hq h1
          split at hq
          · simp only [Option.some.injEq, Prod.mk.injEq] at hq; omega
          · split at hq
            · cases hq
            · rename_i code2 q2 hf
              simp only [Option.some.injEq, Prod.mk.injEq] at hq
              obtain ⟨hq1, rfl⟩ := hq
              have hz : code2 = 0 := by
                split at hq1
                · omega
                · rename_i hn; exact Decidable.not_not.1 hn
              subst hz
              obtain ⟨_, _, _, e1, e2, e3⟩ := fill_zero hf
              have : q2.entity.take 2 = Generator.set16 rnd := by
                rw [(accepted_head e1 e2 e3).2, List.take_append_of_le_length (by have := h1.1.1; omega), h1.1.2]
              rw [ident_take (a := q2.entity) (b := Generator.set16 rnd) (by rw [this]; rfl)]
              unfold ident Generator.set16
              simp only [List.getD_cons_zero, List.getD_cons_succ, UInt16.toNat_ofNat', UInt8.toNat_ofNat']
              omega

/-! ### what an event does to one module -/

/-- The fields of a header that stay as they are on the way to the table of waiting queries. -/
structure Same (m m' : Head Addr) : Prop where
  back : m'.back = m.back
  sock : m'.sock = m.sock
  ret : m'.returnHeader = m.returnHeader
  domain : m'.domain = m.domain
  hash : m'.hash = m.hash
  type : m'.type = m.type

/-- The event sends the message with the header `m` on its way. -/
def Source (ev : Ev Addr) (m : Head Addr) : Prop :=
  match ev with
  | .udpQuery sock addr agent b len x => ∃ h, fill h false b len (some (.client addr)) sock agent x.fuel = some (0, m)
  | .tcpQuery sock agent b len x => ∃ h, fill h false b len none sock agent x.fuel = some (0, m)
  | .innerTake _ _ _ rnd _ _ => (∃ a t, m.back = some (.loop a t)) ∧ (ident m.entity).toNat = rnd % 65536
  | _ => False

/-- The clock at the time of an event. -/
def clockOf : Ev Addr → Int
  | .udpQuery _ _ _ _ _ x => x.now
  | .tcpQuery _ _ _ _ x => x.now
  | .innerTake _ _ _ _ _ x => x.now
  | .take _ _ now _ => now
  | _ => 0

/-- The query `p` that waits is the message with the header `m`. -/
structure Holds (m : Head Addr) (p : Pending (Head Addr)) : Prop where
  id : p.id = ident m.entity
  hash : p.hash = p.client.hash
  same : Same m p.client

/-- What an event does to the module number `k`; `S` are the messages it sends on their way. -/
inductive Moves (S : Head Addr → Prop) (ev : Ev Addr) (acts : List (Act Addr)) (k : Nat) (d d' : Module (Dest Addr)) : Prop where
  | keeps (h1 : d'.table = d.table) (h2 : ∀ m ∈ d'.inbox, m ∈ d.inbox) (h3 : ∀ b, .server k b ∉ acts)
  | sends (m : Head Addr) (p : Pending (Head Addr)) (hs : S m) (hl : 2 ≤ m.entity.length) (hh : Holds m p)
      (h1 : d'.table = MContext.add d.table (clockOf ev) p) (h2 : d'.inbox = d.inbox)
      (h3 : ∀ b, .server k b ∈ acts → b.take 2 = m.entity.take 2)
  | queues (m : Head Addr) (hs : S m) (hl : 2 ≤ m.entity.length) (h1 : d'.table = d.table) (h2 : d'.inbox = d.inbox ++ [m])
      (h3 : ∀ b, .server k b ∉ acts)
  | takes (m : Head Addr) (p : Pending (Head Addr)) (n : Nat) (now : Int) (rest : List Byte) (hm : m ∈ d.inbox) (he : ev = .take k n now rest)
      (hh : Holds m p) (h1 : d'.table = MContext.add d.table now p) (h2 : ∀ x ∈ d'.inbox, x ∈ d.inbox)
      (h3 : ∀ b, .server k b ∈ acts → b = be16 m.entity.length ++ m.entity)
  | answers (a : Nat) (p : Pending (Head Addr)) (b : List Byte) (len fuel : Nat) (bn : List Byte) (clock : Nat → Int)
      (he : ev = .response k b len fuel bn clock) (hp : (a, p) ∈ d.table.root.toList) (hi : p.id = ident b)
      (h1 : d'.table = d.table.delete a) (h2 : d'.inbox = d.inbox) (h3 : ∀ b, .server k b ∉ acts)
      (h4 : ∃ (g h0 : Head Addr) (back : Option (Dest Addr)) (sock : Nat) (agent : List Byte) (c : Int),
        fill g false b len back sock agent fuel = some (c, h0) ∧ p.hash = h0.hash)
  | sweeps (now : Int) (he : ev = .sweep k now) (h1 : d'.table = (MContext.sweep d.table now).2) (h2 : d'.inbox = d.inbox)
      (h3 : ∀ b, .server k b ∉ acts)

theorem Moves.same {S : Head Addr → Prop} {ev : Ev Addr} {acts : List (Act Addr)} {k : Nat} {d : Module (Dest Addr)} (h : ∀ b, .server k b ∉ acts) :
    Moves S ev acts k d d := .keeps rfl (fun _ h => h) h

theorem posts_server (m : Head Addr) (l : List (Sent (Dest Addr))) (k : Nat) (b : List Byte) : .server k b ∉ (posts m l).1 := by
  unfold posts
  dsimp only
  intro h
  obtain ⟨s, _, hs⟩ := List.mem_flatMap.1 h
  unfold post at hs
  split at hs <;> simp at hs

theorem post_server (m : Head Addr) (s : Sent (Dest Addr)) (k : Nat) (b : List Byte) : .server k b ∉ (post m s).1 := by
  intro hs
  unfold post at hs
  split at hs <;> simp at hs

/-- All modules stay, and each changes in one of the ways. -/
def AllMove (S : Head Addr → Prop) (ev : Ev Addr) (acts : List (Act Addr)) (a b : List (Module (Dest Addr))) : Prop :=
  (∀ (k : Nat) d, a[k]? = some d → ∃ d', b[k]? = some d' ∧ Moves S ev acts k d d') ∧
    (∀ (k : Nat) (d' : Module (Dest Addr)), a[k]? = none → b[k]? = some d' → d'.table = Bst.State.init ∧ d'.inbox = []) ∧
    ∀ k b, .server k b ∈ acts → ∃ d, a[k]? = some d

theorem AllMove.same {S : Head Addr → Prop} {ev : Ev Addr} {acts : List (Act Addr)} {a : List (Module (Dest Addr))} (h : ∀ k b, .server k b ∉ acts) : AllMove S ev acts a a :=
  ⟨fun k d hd => ⟨d, hd, .same (h k)⟩, fun k d h1 h2 => (by rw [h1] at h2; cases h2), fun k b hb => absurd hb (h k b)⟩

theorem AllMove.set {S : Head Addr → Prop} {ev : Ev Addr} {acts : List (Act Addr)} {a : List (Module (Dest Addr))} {i : Nat} {d d' : Module (Dest Addr)} (hd : a[i]? = some d)
    (h : Moves S ev acts i d d') (hn : ∀ k b, .server k b ∈ acts → k = i) : AllMove S ev acts a (a.set i d') := by
  refine ⟨fun k x hx => ?_, fun k x h1 h2 => ?_, fun k b hb => ⟨d, hn k b hb ▸ hd⟩⟩
  · by_cases hk : k = i
    · subst hk
      rw [hd] at hx
      obtain rfl := Option.some.inj hx
      obtain ⟨hl, _⟩ := List.getElem?_eq_some_iff.1 hd
      exact ⟨d', by rw [List.getElem?_set_self hl], h⟩
    · refine ⟨x, by rw [List.getElem?_set_ne (fun h => hk h.symm)]; exact hx, .same (fun b hb => hk (hn k b hb))⟩
  · rw [List.getElem?_eq_none_iff] at h1
    obtain ⟨hl, _⟩ := List.getElem?_eq_some_iff.1 h2
    rw [List.length_set] at hl
    omega

theorem mgrSend_moves {S : Head Addr → Prop} {ev : Ev Addr} {e : Env} {st st' : St Addr} {x : Luck} {b : List Byte} {m h : Head Addr} {acts : List (Act Addr)}
    (hev : S m) (hc : clockOf ev = x.now) (hm : 12 ≤ m.entity.length) (hb : m.entity.take 2 = b.take 2)
    (hs : mgrSend e st x b m = some (st', h, acts)) : AllMove S ev acts st.mods st'.mods := by
  unfold mgrSend at hs
  cases hd : Pipeline.decide e st.cache x (b.drop m.entity.length) (requestTcp m) m with
  | none => rw [hd] at hs; cases hs
  | some o =>
    rw [hd] at hs
    clear hd
    cases o with
    | refused o => simp only [Option.some.injEq, Prod.mk.injEq] at hs; obtain ⟨rfl, _, rfl⟩ := hs; exact .same (fun k b => posts_server m o k b)
    | hosts o => simp only [Option.some.injEq, Prod.mk.injEq] at hs; obtain ⟨rfl, _, rfl⟩ := hs; exact .same (fun k b => posts_server m _ k b)
    | cache o => simp only [Option.some.injEq, Prod.mk.injEq] at hs; obtain ⟨rfl, _, rfl⟩ := hs; exact .same (fun k b => posts_server m o k b)
    | nowhere => simp only [Option.some.injEq, Prod.mk.injEq] at hs; obtain ⟨rfl, _, rfl⟩ := hs; exact .same (fun k b h => by cases h)
    | upstream i =>
      dsimp only at hs
      split at hs
      · cases hs
      · rename_i d hd
        split at hs
        · split at hs
          · cases hs
          · rename_i m' d' hu
            simp only [Option.some.injEq, Prod.mk.injEq] at hs
            obtain ⟨rfl, _, rfl⟩ := hs
            unfold udpSend at hu
            split at hu
            · cases hu
            · rename_i m'' ha
              simp only [Option.some.injEq, Prod.mk.injEq] at hu
              obtain ⟨rfl, rfl⟩ := hu
              obtain ⟨e1, e2, e3, e4, e5, e6, e7⟩ := addFakeEdns_head hm ha
              refine .set hd (.sends m (entry b m'') hev (by omega) ⟨?_, rfl, ⟨e1, e2, e3, e4, e5, e6⟩⟩ (by rw [hc]) rfl ?_) ?_
              · exact (ident_take hb).symm
              · intro y hy
                split at hy
                · simp only [List.mem_singleton, Act.server.injEq, true_and] at hy
                  rw [hy]; exact e7.2
                · cases hy
              · intro k y hy
                split at hy
                · simp only [List.mem_singleton, Act.server.injEq] at hy
                  exact hy.1
                · cases hy
        · simp only [Option.some.injEq, Prod.mk.injEq] at hs
          obtain ⟨rfl, _, rfl⟩ := hs
          unfold tcpSend
          split
          · exact .set hd (.queues m hev (by omega) rfl rfl (fun b h => by cases h)) (fun k b h => by cases h)
          · exact .set hd (.same (fun b h => by cases h)) (fun k b h => by cases h)

theorem respond_moves {S : Head Addr → Prop} {e : Env} {b : List Byte} {len fuel : Nat} {bn : List Byte} {clock : Nat → Int} {d d' : Module (Dest Addr)} {ops : List Cache.Op}
    {out : List (Head Addr)} (hr : respond e b len fuel bn clock d = some (d', ops, out)) (k : Nat) {acts : List (Act Addr)}
    (hn : ∀ b, .server k b ∉ acts) : Moves S (.response k b len fuel bn clock) acts k d d' := by
  unfold respond at hr
  split at hr
  · cases hr
  · rename_i c0 h0 hfill
    split at hr
    · cases hr
    · rename_i v b' hmisc
      dsimp only at hr
      split at hr
      · simp only [Option.some.injEq, Prod.mk.injEq] at hr; obtain ⟨rfl, _⟩ := hr; exact .keeps rfl (fun _ h => h) hn
      · split at hr
        · simp only [Option.some.injEq, Prod.mk.injEq] at hr; obtain ⟨rfl, _⟩ := hr; exact .keeps rfl (fun _ h => h) hn
        · split at hr
          · rename_i t hgen
            have ht : t = d.table := by
              unfold genAnswerHeaderAndRemove at hgen
              split at hgen <;> simp only [Prod.mk.injEq, reduceCtorEq, false_and, true_and] at hgen
              exact hgen.symm
            subst ht
            split at hr
            · cases hr
            · simp only [Option.some.injEq, Prod.mk.injEq] at hr; obtain ⟨rfl, _⟩ := hr; exact .keeps rfl (fun _ h => h) hn
          · rename_i p t hgen
            unfold genAnswerHeaderAndRemove at hgen
            split at hgen
            · simp at hgen
            · rename_i a p' hs
              simp only [Prod.mk.injEq, Option.some.injEq] at hgen
              obtain ⟨rfl, rfl⟩ := hgen
              obtain ⟨h1, h2⟩ := Bst.Tree.search_some hs
              obtain ⟨h3, h4⟩ := compare_eq_zero h2
              split at hr
              · cases hr
              · simp only [Option.some.injEq, Prod.mk.injEq] at hr
                obtain ⟨rfl, _⟩ := hr
                exact .answers a p' b len fuel bn clock rfl h1 (h3.symm.trans (misc_ident hmisc)) rfl rfl hn ⟨_, _, _, _, _, _, hfill, h4.symm⟩

theorem step_moves [DecidableEq Addr] {e : Env} {st st' : St Addr} {ev : Ev Addr} {acts : List (Act Addr)} (hi : Inv st) (ha : Accepted ev)
    (h : step e st ev = some (st', acts)) : AllMove (Source ev) ev acts st.mods st'.mods := by
  cases ev with
  | udpQuery sock addr agent b len x =>
    unfold step at h
    dsimp only at h
    split at h
    · cases h
    · rename_i c m hfl
      have hc := ha _ _ _ hfl
      subst hc
      obtain ⟨e1, e2, e3, e4, e5, e6⟩ := fill_zero hfl
      obtain ⟨h12, h2⟩ := accepted_head e4 e5 e6
      split at h
      · cases h
      · rename_i st1 hd acts' hs
        simp only [Option.some.injEq, Prod.mk.injEq] at h
        obtain ⟨rfl, rfl⟩ := h
        have := mgrSend_moves (S := Source (.udpQuery sock addr agent b len x)) (ev := .udpQuery sock addr agent b len x) ⟨_, hfl⟩ rfl h12 h2 hs
        exact this
  | tcpQuery sock agent b len x =>
    unfold step at h
    dsimp only at h
    split at h
    · cases h
    · rename_i c m hfl
      have hc := ha _ _ _ hfl
      subst hc
      obtain ⟨e1, e2, e3, e4, e5, e6⟩ := fill_zero hfl
      obtain ⟨h12, h2⟩ := accepted_head e4 e5 e6
      split at h
      · cases h
      · rename_i st1 hd acts' hs
        simp only [Option.some.injEq, Prod.mk.injEq] at h
        obtain ⟨rfl, rfl⟩ := h
        have := mgrSend_moves (S := Source (.tcpQuery sock agent b len x)) (ev := .tcpQuery sock agent b len x) ⟨_, hfl⟩ rfl h12 h2 hs
        exact this
  | response i b len fuel bn clock =>
    unfold step at h
    dsimp only at h
    split at h
    · cases h
    · rename_i d hd
      split at h
      · cases h
      · rename_i d' ops out hr
        split at h
        · cases h
        · simp only [Option.some.injEq, Prod.mk.injEq] at h
          obtain ⟨rfl, rfl⟩ := h
          have hn : ∀ k b, Act.server k b ∉ out.flatMap (fun m => (post m (sendBack m)).1) := by
            intro k b hb
            obtain ⟨m, _, hm⟩ := List.mem_flatMap.1 hb
            exact post_server _ _ _ _ hm
          exact .set hd (respond_moves hr i (hn i)) (fun k b hb => absurd hb (hn k b))
  | take i k now rest =>
    unfold step at h
    dsimp only at h
    split at h
    · cases h
    · rename_i d hd
      have hgd := hi.1 d (List.mem_of_getElem? hd)
      split at h
      · cases h
      · rename_i m l hp
        simp only [Option.some.injEq, Prod.mk.injEq] at h
        obtain ⟨rfl, rfl⟩ := h
        have hpm := pick_perm hp
        have hgm := hgd.2 m (hpm.mem_iff.2 List.mem_cons_self)
        refine .set hd (.takes m (entry (m.entity ++ rest) m) k now rest (hpm.mem_iff.2 List.mem_cons_self) rfl
          ⟨?_, rfl, ⟨rfl, rfl, rfl, rfl, rfl, rfl⟩⟩ rfl (fun y hy => hpm.mem_iff.2 (List.mem_cons_of_mem _ hy)) ?_) ?_
        · exact ident_take (a := m.entity ++ rest) (b := m.entity) (List.take_append_of_le_length hgm.2)
        · intro b hb
          simp only [List.mem_singleton, Act.server.injEq, true_and] at hb
          exact hb
        · intro k b hb
          simp only [List.mem_singleton, Act.server.injEq] at hb
          exact hb.1
  | lose i k =>
    unfold step at h
    dsimp only at h
    split at h
    · cases h
    · rename_i d hd
      split at h
      · cases h
      · rename_i m l hp
        simp only [Option.some.injEq, Prod.mk.injEq] at h
        obtain ⟨rfl, rfl⟩ := h
        have hpm := pick_perm hp
        exact .set hd (.keeps rfl (fun y hy => hpm.mem_iff.2 (List.mem_cons_of_mem _ hy)) (fun b h => by cases h)) (fun k b h => by cases h)
  | sweep i now =>
    unfold step at h
    dsimp only at h
    split at h
    · cases h
    · rename_i d hd
      simp only [Option.some.injEq, Prod.mk.injEq] at h
      obtain ⟨rfl, rfl⟩ := h
      exact .set hd (.sweeps now rfl rfl rfl (fun b h => by cases h)) (fun k b h => by cases h)
  | cacheSweep now =>
    unfold step at h
    dsimp only at h
    split at h
    · cases h
    · simp only [Option.some.injEq, Prod.mk.injEq] at h
      obtain ⟨rfl, rfl⟩ := h
      exact .same (fun k b h => by cases h)
  | innerTake k cap sock rnd old x =>
    unfold step at h
    dsimp only at h
    split at h
    · cases h
    · split at h
      · cases h
      · simp only [Option.some.injEq, Prod.mk.injEq] at h
        obtain ⟨rfl, rfl⟩ := h
        exact .same (fun k b h => by cases h)
      · rename_i lp q hin
        split at h
        · cases h
        · rename_i st1 hd acts' hs
          simp only [Option.some.injEq, Prod.mk.injEq] at h
          obtain ⟨rfl, rfl⟩ := h
          obtain ⟨_, ⟨a, t2⟩, t3⟩ := inner_query hin
          have := mgrSend_moves (S := Source (.innerTake k cap sock rnd old x)) (ev := .innerTake k cap sock rnd old x) ⟨⟨_, _, t2⟩, inner_ident hin⟩ rfl t3
            (by rw [List.take_append_of_le_length (by omega)]) hs
          exact this
  | innerLose k =>
    unfold step at h
    dsimp only at h
    split at h
    · cases h
    · simp only [Option.some.injEq, Prod.mk.injEq] at h
      obtain ⟨rfl, rfl⟩ := h
      exact .same (fun k b h => by cases h)
  | outerTake k cap rest header fuel =>
    unfold step at h
    dsimp only at h
    split at h
    · cases h
    · split at h
      · split at h
        · cases h
        · simp only [Option.some.injEq, Prod.mk.injEq] at h
          obtain ⟨rfl, rfl⟩ := h
          exact .same (fun k b h => by cases h)
        · simp only [Option.some.injEq, Prod.mk.injEq] at h
          obtain ⟨rfl, rfl⟩ := h
          exact .same (fun k b => post_server _ _ k b)
      · cases h
  | outerLose k =>
    unfold step at h
    dsimp only at h
    split at h
    · cases h
    · simp only [Option.some.injEq, Prod.mk.injEq] at h
      obtain ⟨rfl, rfl⟩ := h
      exact .same (fun k b h => by cases h)
  | loopSweep now =>
    unfold step at h
    simp only [Option.some.injEq, Prod.mk.injEq] at h
    obtain ⟨rfl, rfl⟩ := h
    exact .same (fun k b h => by cases h)
  | reload protos head =>
    unfold step at h
    simp only [Option.some.injEq, Prod.mk.injEq] at h
    obtain ⟨rfl, rfl⟩ := h
    refine ⟨fun k d hd => ⟨d, ?_, .same (fun b h => by cases h)⟩, fun k d h1 h2 => ?_, fun k b h => by cases h⟩
    · obtain ⟨hl, _⟩ := List.getElem?_eq_some_iff.1 hd
      rw [List.getElem?_append_left hl]; exact hd
    · rw [List.getElem?_eq_none_iff] at h1
      rw [List.getElem?_append_right h1] at h2
      obtain ⟨p, _, rfl⟩ := List.mem_map.1 (List.mem_of_getElem? h2)
      exact ⟨rfl, rfl⟩
  | tcpOpen c =>
    unfold step at h
    simp only [Option.some.injEq, Prod.mk.injEq] at h
    obtain ⟨rfl, rfl⟩ := h
    exact .same (fun k b h => by cases h)

/-! ### the queries with one identifier at one module -/

/-- A property of headers that stays true on the way to the table. -/
def Stays (P : Head Addr → Prop) : Prop := ∀ m m', Same m m' → P m → P m'

/-- All queries with the identifier `i` at the module have `P`. -/
structure Only (P : Head Addr → Prop) (i : UInt16) (d : Module (Dest Addr)) : Prop where
  table : ∀ p ∈ waiting d.table, p.hash = p.client.hash ∧ (p.id = i → P p.client)
  inbox : ∀ m ∈ d.inbox, ident m.entity = i → P m
  order : d.table.root.Ordered idCompare

theorem Only.init {P : Head Addr → Prop} {i : UInt16} {d : Module (Dest Addr)} (h1 : d.table = Bst.State.init) (h2 : d.inbox = []) : Only P i d :=
  ⟨by rw [h1]; intro p hp; simp [waiting, Bst.State.init, Bst.Tree.toList] at hp, by rw [h2]; exact (by simp),
    by rw [h1]; exact trivial⟩

theorem order_add {C : Type} {t : Table C} (h : t.root.Ordered idCompare) (now : Int) (p : Pending C) :
    (MContext.add t now p).root.Ordered idCompare := ordered_insert_id _ _ _ h

theorem only_moves {P : Head Addr → Prop} (hP : Stays P) {S : Head Addr → Prop} {i : UInt16} {ev : Ev Addr} {acts : List (Act Addr)} {k : Nat} {d d' : Module (Dest Addr)}
    (hev : ∀ m, S m → ident m.entity = i → P m) (hi : Bst.Inv d.table) (h : Only P i d) (hm : Moves S ev acts k d d') : Only P i d' := by
  have hadd : ∀ {now : Int} {m : Head Addr} {p : Pending (Head Addr)}, Holds m p → (ident m.entity = i → P m) →
      ∀ q ∈ waiting (MContext.add d.table now p), q.hash = q.client.hash ∧ (q.id = i → P q.client) := by
    intro now m p hh hp q hq
    rcases List.mem_cons.1 ((add_contents d.table now p).mem_iff.1 hq) with rfl | hq
    · exact ⟨hh.hash, fun hid => hP m _ hh.same (hp (hh.id.symm.trans hid))⟩
    · exact h.table q hq
  cases hm with
  | keeps h1 h2 _ => exact ⟨by rw [h1]; exact h.table, fun m hm => h.inbox m (h2 m hm), by rw [h1]; exact h.order⟩
  | sends m p hs hl hh h1 h2 _ =>
    exact ⟨by rw [h1]; exact hadd hh (hev m hs), by rw [h2]; exact h.inbox, by rw [h1]; exact order_add h.order _ _⟩
  | queues m hs hl h1 h2 _ =>
    refine ⟨by rw [h1]; exact h.table, ?_, by rw [h1]; exact h.order⟩
    rw [h2]
    intro x hx
    rcases List.mem_append.1 hx with hx | hx
    · exact h.inbox x hx
    · rw [List.mem_singleton.1 hx]; exact hev m hs
  | takes m p n now rest hmem he hh h1 h2 _ =>
    exact ⟨by rw [h1]; exact hadd hh (h.inbox m hmem), fun x hx => h.inbox x (h2 x hx), by rw [h1]; exact order_add h.order _ _⟩
  | answers a p b len fuel bn clock he hp hid h1 h2 _ =>
    refine ⟨?_, by rw [h2]; exact h.inbox, ?_⟩
    · rw [h1]
      exact fun q hq => h.table q ((delete_contents hi hp).mem_iff.2 (List.mem_cons_of_mem _ hq))
    · rw [h1]
      exact Bst.Tree.delete_ordered idCompare_totalPreorder _ _ h.order
  | sweeps now he h1 h2 _ =>
    refine ⟨?_, by rw [h2]; exact h.inbox, ?_⟩
    · obtain ⟨_, s2, _⟩ := sweep_spec hi now
      have hs : (waiting (MContext.sweep d.table now).2).Sublist (waiting d.table) := by
        unfold waiting; rw [s2]; exact List.filter_sublist.map _
      rw [h1]
      exact fun q hq => h.table q (hs.subset hq)
    · rw [h1]
      exact foldl_delete_id _ h.order

/-- A query with the identifier `i` waits since `t` or later. -/
def Waits (i : UInt16) (t : Int) (d : Module (Dest Addr)) : Prop := ∃ p ∈ waiting d.table, p.id = i ∧ t ≤ p.timestamp

theorem waits_moves {S : Head Addr → Prop} {i : UInt16} {t : Int} {ev : Ev Addr} {acts : List (Act Addr)} {k : Nat} {d d' : Module (Dest Addr)}
    (hr : ∀ b len fuel bn clock, ev = .response k b len fuel bn clock → ident b ≠ i) (hs : ∀ now, ev = .sweep k now → now - t ≤ 2)
    (hi : Bst.Inv d.table) (h : Waits i t d) (hm : Moves S ev acts k d d') : Waits i t d' := by
  obtain ⟨q, hq, hqi, hqt⟩ := h
  have hadd : ∀ {now : Int} {p : Pending (Head Addr)}, q ∈ waiting (MContext.add d.table now p) :=
    (add_contents d.table _ _).mem_iff.2 (List.mem_cons_of_mem _ hq)
  cases hm with
  | keeps h1 _ _ => exact ⟨q, by rw [h1]; exact hq, hqi, hqt⟩
  | sends m p _ _ _ h1 _ _ => exact ⟨q, by rw [h1]; exact hadd, hqi, hqt⟩
  | queues m _ _ h1 _ _ => exact ⟨q, by rw [h1]; exact hq, hqi, hqt⟩
  | takes m p n now rest _ _ _ h1 _ _ => exact ⟨q, by rw [h1]; exact hadd, hqi, hqt⟩
  | answers a p b len fuel bn clock he hp hid h1 _ _ =>
    refine ⟨q, ?_, hqi, hqt⟩
    rw [h1]
    rcases List.mem_cons.1 ((delete_contents hi hp).mem_iff.1 hq) with rfl | hq
    · exact absurd (hid.symm.trans hqi) (hr _ _ _ _ _ he)
    · exact hq
  | sweeps now he h1 _ _ =>
    refine ⟨q, ?_, hqi, hqt⟩
    rw [h1]
    obtain ⟨_, s2, _⟩ := sweep_spec hi now
    unfold waiting at hq ⊢
    rw [s2]
    obtain ⟨x, hx, rfl⟩ := List.mem_map.1 hq
    refine List.mem_map_of_mem (List.mem_filter.2 ⟨hx, ?_⟩)
    have := hs now he
    simp only [expired, gt_iff_lt, Bool.not_eq_eq_eq_not, Bool.not_true, decide_eq_false_iff_not]
    omega

end Verif.Forwarder
