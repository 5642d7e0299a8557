import Verif.Spec.TcpFrontend
import Verif.Lemmas.SocketPool
/-! Lemmas on clients that ask over TCP. -/

namespace Verif.TcpFrontend
open SocketPool
variable {Addr : Type}

theorem recv_len {l l' : List Arr} {n : Nat} {k : Int} {b : List Byte} (h : recv l n = some (k, b, l')) :
    ((k = b.length ∧ b.length ≤ n) ∨ (k = -1 ∧ b = [] ∧ Ends l)) ∧ b ++ bytesOf l' = bytesOf l ∧ (Ends l' → Ends l) ∧
      (Arr.data [] ∉ l → Arr.data [] ∉ l') := by
  unfold recv at h
  split at h
  · cases h
  · split at h
    · cases h
      exact ⟨.inl ⟨rfl, by assumption⟩, rfl, by simp [Ends], fun h => fun h' => h (List.mem_cons_of_mem _ h')⟩
    · rename_i b' l0 hb
      cases h
      refine ⟨.inl ⟨by simp; omega, by rw [List.length_take]; omega⟩, ?_, by simp [Ends], ?_⟩
      · simp only [bytesOf, ← List.append_assoc, List.take_append_drop]
      · intro h1 h2
        rcases List.mem_cons.1 h2 with h2 | h2
        · have : (List.drop n b').length = 0 := by
            injection h2 with h2; rw [← h2]; rfl
          rw [List.length_drop] at this; omega
        · exact h1 (List.mem_cons_of_mem _ h2)
  · cases h
    exact ⟨.inr ⟨rfl, rfl, by simp [Ends]⟩, rfl, by simp [Ends], fun h => fun h' => h (List.mem_cons_of_mem _ h')⟩
  · cases h
    exact ⟨.inl ⟨rfl, by simp⟩, rfl, id, id⟩

theorem recv_zero {l l' : List Arr} {n : Nat} {k : Int} {b : List Byte} (h : recv l n = some (k, b, l')) (hn : 0 < n) (he : Arr.data [] ∉ l)
    (hk : k ≤ 0) : Ends l ∧ b = [] := by
  unfold recv at h
  split at h
  · cases h
  · rename_i b' l0
    have : b' ≠ [] := fun h => he (h ▸ List.mem_cons_self)
    have := List.length_pos_iff.2 this
    split at h
    · cases h; omega
    · cases h; omega
  · cases h; exact ⟨by simp [Ends], rfl⟩
  · cases h; exact ⟨by simp [Ends], rfl⟩

theorem two {b : List Byte} (h : b.length = 2) : ∃ x y, b = [x, y] := by
  match b, h with
  | [x, y], _ => exact ⟨x, y, rfl⟩

/-- How reading from a connection ends. -/
inductive Reads (left : Nat) (st : St Addr) (s : Nat) (agent : Addr) (c : Conn Addr) (isNew : Bool) : Out Addr → Prop where
  | blocked (st' : St Addr) : Reads left st s agent c isNew (.blocked st')
  | ub : isNew = true → 1024 ≤ s → Reads left st s agent c isNew .ub
  | query {a b : Byte} {m : List Byte} {k l : List Arr} {p : Puller (Option Addr)} :
      recv c.todo 2 = some (2, [a, b], k) → recv k m.length = some ((m.length : Int), m, l) → a.toNat * 256 + b.toNat = m.length → m.length ≤ left →
      (if isNew then st.puller.add s (some (some agent)) = some p else p = st.puller) →
      Reads left st s agent c isNew (.go ⟨p, st.conns.map (fun e => if e.1 = s then (s, ⟨c.id, c.addr, l, c.got ++ [a, b] ++ m⟩) else e), st.count,
        st.queries ++ [⟨c.id, s, agent, m⟩]⟩)
  | shut : Reads left st s agent c isNew (.go (drop (close st s) s isNew))
  | gone {k : Int} {b : List Byte} {l : List Arr} : recv c.todo 2 = some (k, b, l) → k ≤ 0 →
      Reads left st s agent c isNew (.go (drop (put st s ⟨c.id, c.addr, l, c.got ++ b⟩) s isNew))

theorem close_put (st : St Addr) (s : Nat) (c : Conn Addr) : close (put st s c) s = close st s := by
  unfold close put
  congr 1
  dsimp only
  induction st.conns with
  | nil => rfl
  | cons e l ih =>
    rw [List.map_cons]
    by_cases h : e.1 = s
    · simp [h] at ih ⊢; exact ih
    · simp [h] at ih ⊢; exact ih

theorem map_put (l : List (Nat × Conn Addr)) (s : Nat) (c c' : Conn Addr) :
    (l.map (fun e => if e.1 = s then (s, c) else e)).map (fun e => if e.1 = s then (s, c') else e) = l.map (fun e => if e.1 = s then (s, c') else e) := by
  rw [List.map_map]
  apply List.map_congr_left
  intro e _
  simp only [Function.comp]
  by_cases h : e.1 = s
  · rw [if_pos h, if_pos rfl, if_pos h]
  · rw [if_neg h, if_neg h]

theorem read_reads (left : Nat) (st : St Addr) (s : Nat) (agent : Addr) (c : Conn Addr) (isNew : Bool) :
    Reads left st s agent c isNew (read left st s agent c isNew) := by
  unfold read
  cases h1 : recv c.todo 2 with
  | none => exact .blocked _
  | some r =>
    obtain ⟨n, b, l⟩ := r
    obtain ⟨hl, -⟩ := recv_len h1
    dsimp only
    by_cases hn : n = 2
    · rw [if_pos hn]
      subst hn
      obtain ⟨x, y, rfl⟩ := two (b := b) (by omega)
      simp only [List.getD_cons_zero, List.getD_cons_succ]
      obtain ⟨len, hlen⟩ : ∃ len, x.toNat * 256 + y.toNat = len := ⟨_, rfl⟩
      simp only [hlen]
      by_cases hle : len ≤ left
      · rw [if_pos hle]
        cases h2 : recv l len with
        | none => exact .blocked _
        | some r =>
          obtain ⟨n', m, l'⟩ := r
          obtain ⟨hl', -⟩ := recv_len h2
          dsimp only
          by_cases hm : n' = len
          · rw [if_pos hm]
            have hm' : m.length = len := by omega
            have h3 : recv l m.length = some ((m.length : Int), m, l') := by rw [hm', h2, hm]
            rw [← hm'] at hlen hle
            cases isNew with
            | false =>
              simp only [Bool.false_eq_true, if_false]
              have := Reads.query (left := left) (st := st) (s := s) (agent := agent) (isNew := false) (p := st.puller) h1 h3 hlen hle (by simp)
              simp only [put, map_put]
              exact this
            | true =>
              simp only [if_true]
              cases hp : (put (put st s { c with todo := l, got := c.got ++ [x, y] }) s { c with todo := l', got := c.got ++ [x, y] ++ m }).puller.add s (some (some agent)) with
              | none =>
                refine .ub rfl ?_
                unfold put Puller.add at hp
                dsimp only at hp
                split at hp
                · rename_i h; exact h
                · cases hp
              | some p =>
                have := Reads.query (left := left) (st := st) (s := s) (agent := agent) (isNew := true) (p := p) h1 h3 hlen hle (by simpa [put] using hp)
                simp only [put, map_put]
                exact this
          · rw [if_neg hm, close_put, close_put]; exact .shut
      · rw [if_neg hle, close_put]; exact .shut
    · rw [if_neg hn]
      by_cases h1' : n = 1
      · rw [if_pos h1', close_put]; exact .shut
      · rw [if_neg h1']
        exact .gone h1 (by omega)

theorem frames_snoc {ms : List (List Byte)} {s m : List Byte} {a b : Byte} (h : Frames ms s) (hl : a.toNat * 256 + b.toNat = m.length) :
    Frames (ms ++ [m]) (s ++ [a, b] ++ m) := by
  induction h with
  | nil => simpa using Frames.cons a b hl .nil
  | cons x y hxy _ ih => simpa using Frames.cons x y hxy ih

theorem asked_same (qs : List (Query Addr)) (q : Query Addr) : asked (qs ++ [q]) q.id = asked qs q.id ++ [q.msg] := by
  simp [asked]

theorem asked_other (qs : List (Query Addr)) (q : Query Addr) {i : Nat} (h : q.id ≠ i) : asked (qs ++ [q]) i = asked qs i := by
  simp [asked, h]

theorem asked_nil {qs : List (Query Addr)} {i : Nat} (h : ∀ q ∈ qs, q.id ≠ i) : asked qs i = [] := by
  unfold asked
  rw [List.filter_eq_nil_iff.2 (by simpa using h)]
  rfl

/-- An element is given by the value of a function without repetition. -/
theorem nodup_inj {α β : Type} {f : α → β} {l : List α} (h : (l.map f).Nodup) {x y : α} (hx : x ∈ l) (hy : y ∈ l) (e : f x = f y) : x = y := by
  induction l with
  | nil => simp at hx
  | cons z l ih =>
    simp only [List.map_cons, List.nodup_cons] at h
    rcases List.mem_cons.1 hx with rfl | hx' <;> rcases List.mem_cons.1 hy with rfl | hy'
    · rfl
    · exact absurd (List.mem_map_of_mem (f := f) hy') (e ▸ h.1)
    · exact absurd (List.mem_map_of_mem (f := f) hx') (e ▸ h.1)
    · exact ih h.2 hx' hy'

/-- What holds between the turns; `accd` are the connections accepted, `m` the sockets waited for, `exc` a socket that is
being read for the first time. -/
structure Inv (S : List Arr → Prop) (others : List Nat) (accd : List (Nat × Addr × List Arr)) (m : List (Nat × Option (Option Addr)))
    (exc : Option Nat) (st : St Addr) : Prop where
  holds : Holds st.puller m
  count : st.count = accd.length
  fds : (st.conns.map (·.1)).Nodup
  apart : ∀ e ∈ st.conns, e.1 ∉ others
  ids : (st.conns.map (·.2.id)).Nodup
  members : ∀ e ∈ m, (e.2 = some none ∧ e.1 ∈ others) ∨
    ∃ c, (e.1, c) ∈ st.conns ∧ e.2 = some (some c.addr) ∧ Frames (asked st.queries c.id) c.got ∧ S c.todo
  conns : ∀ e ∈ st.conns, ∃ l, accd[e.2.id]? = some (e.1, e.2.addr, l) ∧ e.2.got ++ bytesOf e.2.todo = bytesOf l ∧ (Ends e.2.todo → Ends l) ∧
    Arr.data [] ∉ e.2.todo ∧ ((e.1, some (some e.2.addr)) ∈ m ∨ Ends l ∨ exc = some e.1)
  queries : ∀ q ∈ st.queries, ∃ l fs, accd[q.id]? = some (q.sock, q.agent, l) ∧ Frames (asked st.queries q.id) fs ∧ fs <+: bytesOf l

theorem keys_map (l : List (Nat × Conn Addr)) (s : Nat) (c : Conn Addr) :
    (l.map (fun e => if e.1 = s then (s, c) else e)).map (·.1) = l.map (·.1) := by
  rw [List.map_map]
  apply List.map_congr_left
  intro e _
  simp only [Function.comp]
  split
  · rename_i h; exact h.symm
  · rfl

theorem ids_map {l : List (Nat × Conn Addr)} (h : (l.map (·.1)).Nodup) {s : Nat} {c c' : Conn Addr} (hc : (s, c) ∈ l) (hi : c'.id = c.id) :
    (l.map (fun e => if e.1 = s then (s, c') else e)).map (·.2.id) = l.map (·.2.id) := by
  rw [List.map_map]
  apply List.map_congr_left
  intro e he
  simp only [Function.comp]
  split
  · rename_i h'
    have := nodup_inj h he hc h'
    rw [this]; exact hi
  · rfl

theorem mem_put {l : List (Nat × Conn Addr)} {s : Nat} {c' : Conn Addr} {e : Nat × Conn Addr} (h : e ∈ l.map (fun e => if e.1 = s then (s, c') else e)) :
    e = (s, c') ∨ (e.1 ≠ s ∧ e ∈ l) := by
  obtain ⟨x, hx, hxe⟩ := List.mem_map.1 h
  by_cases hs : x.1 = s
  · rw [if_pos hs] at hxe; exact .inl hxe.symm
  · rw [if_neg hs] at hxe; exact .inr (hxe ▸ ⟨hs, hx⟩)

theorem put_mem {l : List (Nat × Conn Addr)} {s : Nat} {c' : Conn Addr} {e : Nat × Conn Addr} (h : e ∈ l) (hs : e.1 ≠ s) :
    e ∈ l.map (fun e => if e.1 = s then (s, c') else e) := List.mem_map.2 ⟨e, h, by rw [if_neg hs]⟩

theorem put_self {l : List (Nat × Conn Addr)} {s : Nat} {c c' : Conn Addr} (h : (s, c) ∈ l) :
    (s, c') ∈ l.map (fun e => if e.1 = s then (s, c') else e) := List.mem_map.2 ⟨(s, c), h, by rw [if_pos rfl]⟩

theorem read_inv {S : List Arr → Prop} (hS : ∀ {l k l' : List Arr} {a b : Byte} {m : List Byte}, S l → recv l 2 = some (2, [a, b], k) →
      a.toNat * 256 + b.toNat = m.length → recv k m.length = some ((m.length : Int), m, l') → S l')
    {left : Nat} {others : List Nat} {accd : List (Nat × Addr × List Arr)} {m : List (Nat × Option (Option Addr))} {exc : Option Nat}
    {st st' : St Addr} (h : Inv S others accd m exc st) {s : Nat} {c : Conn Addr} (hc : (s, c) ∈ st.conns) (hf : Frames (asked st.queries c.id) c.got)
    (hs : S c.todo) {isNew : Bool} (hn : if isNew then exc = some s ∧ s ∉ m.map (·.1) else exc = none ∧ (s, some (some c.addr)) ∈ m)
    (hr : Reads left st s c.addr c isNew (.go st')) : ∃ m', Inv S others accd m' none st' ∧
      (∀ e ∈ m', e ∈ m ∨ ∃ c', (s, c') ∈ st'.conns ∧ e = (s, some (some c'.addr))) := by
  have huniq : ∀ {c0}, (s, c0) ∈ st.conns → c0 = c := fun h0 => by
    have := nodup_inj h.fds h0 hc rfl
    injection this
  have hother : ∀ {e}, e ∈ st.conns → e.1 ≠ s → e.2.id ≠ c.id := fun he hne hid => hne (by rw [nodup_inj h.ids he hc hid])
  obtain ⟨l0, h1, h2, h3, h4, h5⟩ := h.conns _ hc
  cases hr with
  | @query a b msg k l p r1 r2 hlen hle hp =>
    obtain ⟨-, q1, q2, q3⟩ := recv_len r1
    obtain ⟨-, q4, q5, q6⟩ := recv_len r2
    have hfr := frames_snoc hf hlen
    have hmem : ∃ m', Holds p m' ∧ (s, some (some c.addr)) ∈ m' ∧ (∀ e ∈ m', e ∈ m ∨ e = (s, some (some c.addr))) ∧ ∀ e ∈ m, e ∈ m' := by
      cases isNew with
      | false =>
        simp only [Bool.false_eq_true, if_false] at hn hp
        exact ⟨m, hp ▸ h.holds, hn.2, fun e he => .inl he, fun e he => he⟩
      | true =>
        simp only [if_true] at hn hp
        have hlt : s < 1024 := by
          unfold Puller.add at hp
          split at hp
          · cases hp
          · rename_i h; simp only [setSize] at h; omega
        obtain ⟨p', g1, g2⟩ := holds_add (d := some (some c.addr)) h.holds hn.2 hlt
        rw [g1] at hp
        cases hp
        refine ⟨_, g2, List.mem_cons_self, fun e he => ?_, fun e he => List.mem_cons_of_mem _ he⟩
        rcases List.mem_cons.1 he with rfl | he
        · exact .inr rfl
        · exact .inl he
    obtain ⟨m', g1, g2, g3, g4⟩ := hmem
    refine ⟨m', ⟨g1, h.count, ?_, ?_, ?_, ?_, ?_, ?_⟩, fun e he => ?_⟩
    · rw [keys_map]; exact h.fds
    · intro e he
      rcases mem_put he with rfl | ⟨-, he⟩
      · exact h.apart (s, c) hc
      · exact h.apart _ he
    · rw [ids_map (c := c) (c' := ⟨c.id, c.addr, l, c.got ++ [a, b] ++ msg⟩) h.fds hc rfl]; exact h.ids
    · intro e he
      by_cases hes : e.1 = s
      · have he' : e = (s, some (some c.addr)) := by
          rcases g3 e he with he | he
          · rcases h.members e he with ⟨-, hl⟩ | ⟨c0, k1, k2, -⟩
            · exact absurd (hes ▸ hl) (h.apart _ hc)
            · rw [hes] at k1
              rw [huniq k1] at k2
              exact Prod.ext hes k2
          · exact he
        subst he'
        refine .inr ⟨_, put_self hc, rfl, ?_, hS hs r1 hlen r2⟩
        rw [asked_same st.queries ⟨c.id, s, c.addr, msg⟩]
        exact hfr
      · have he' : e ∈ m := by
          rcases g3 e he with he | rfl
          · exact he
          · exact absurd rfl hes
        rcases h.members e he' with hl | ⟨c0, k1, k2, k3, k4⟩
        · exact .inl hl
        · refine .inr ⟨c0, put_mem k1 hes, k2, ?_, k4⟩
          rw [asked_other _ _ (fun hid => hother k1 hes hid.symm)]
          exact k3
    · intro e he
      rcases mem_put he with rfl | ⟨hne, he⟩
      · refine ⟨l0, h1, ?_, fun he => h3 (q2 (q5 he)), q6 (q3 h4), .inl g2⟩
        dsimp only at h2 ⊢
        rw [← h2, ← q1, ← q4]; simp
      · obtain ⟨l1, k1, k2, k3, k4, k5⟩ := h.conns e he
        refine ⟨l1, k1, k2, k3, k4, ?_⟩
        rcases k5 with k5 | k5 | k5
        · exact .inl (g4 _ k5)
        · exact .inr (.inl k5)
        · cases isNew with
          | false => simp only [Bool.false_eq_true, if_false] at hn; rw [hn.1] at k5; cases k5
          | true => simp only [if_true] at hn; rw [hn.1] at k5; cases k5; exact absurd rfl hne
    · intro q hq
      by_cases hid : c.id = q.id
      · have hq1 : accd[q.id]? = some (q.sock, q.agent, l0) := by
          rcases List.mem_append.1 hq with hq | hq
          · obtain ⟨l1, -, k1, -⟩ := h.queries q hq
            rw [← hid, h1] at k1
            injection k1 with k1
            rw [← hid, h1]
            injection k1 with k1 k2
            injection k2 with k2 k3
            rw [k1, k2]
          · rw [List.mem_singleton] at hq
            subst hq
            exact h1
        refine ⟨l0, c.got ++ [a, b] ++ msg, hq1, ?_, ?_⟩
        · rw [← hid, asked_same st.queries ⟨c.id, s, c.addr, msg⟩]
          exact hfr
        · refine ⟨bytesOf l, ?_⟩
          rw [← h2, ← q1, ← q4]; simp
      · rcases List.mem_append.1 hq with hq | hq
        · obtain ⟨l1, fs, k1, k2, k3⟩ := h.queries q hq
          refine ⟨l1, fs, k1, ?_, k3⟩
          rw [asked_other _ _ hid]
          exact k2
        · rw [List.mem_singleton] at hq
          subst hq
          exact absurd rfl hid
    · rcases g3 e he with he | rfl
      · exact .inl he
      · exact .inr ⟨_, put_self hc, rfl⟩
  | shut =>
    have hmem : ∃ m', Holds (drop (close st s) s isNew).puller m' ∧ (∀ e, e ∈ m' ↔ (e ∈ m ∧ e.1 ≠ s)) := by
      cases isNew with
      | false =>
        refine ⟨_, holds_del h.holds s, fun e => ?_⟩
        simp [List.mem_filter]
      | true =>
        simp only [if_true] at hn
        refine ⟨m, h.holds, fun e => ⟨fun he => ⟨he, fun hes => hn.2 (hes ▸ List.mem_map_of_mem (f := (·.1)) he)⟩, fun he => he.1⟩⟩
    obtain ⟨m', g1, g2⟩ := hmem
    have hst : (drop (close st s) s isNew).conns = st.conns.filter (fun e => e.1 ≠ s) ∧ (drop (close st s) s isNew).count = st.count ∧
        (drop (close st s) s isNew).queries = st.queries := by cases isNew <;> exact ⟨rfl, rfl, rfl⟩
    obtain ⟨t1, t2, t3⟩ := hst
    have hsub : ∀ e, e ∈ st.conns.filter (fun e => e.1 ≠ s) ↔ (e ∈ st.conns ∧ e.1 ≠ s) := by simp [List.mem_filter]
    refine ⟨m', ⟨g1, by rw [t2]; exact h.count, ?_, ?_, ?_, ?_, ?_, by rw [t3]; exact h.queries⟩, fun e he => .inl ((g2 e).1 he).1⟩
    · rw [t1]; exact h.fds.sublist (List.filter_sublist.map _)
    · rw [t1]; exact fun e he => h.apart e ((hsub e).1 he).1
    · rw [t1]; exact h.ids.sublist (List.filter_sublist.map _)
    · rw [t1, t3]
      intro e he
      obtain ⟨he, hne⟩ := (g2 e).1 he
      rcases h.members e he with hl | ⟨c0, k1, k2⟩
      · exact .inl hl
      · exact .inr ⟨c0, (hsub _).2 ⟨k1, hne⟩, k2⟩
    · rw [t1]
      intro e he
      obtain ⟨he, hne⟩ := (hsub e).1 he
      obtain ⟨l1, k1, k2, k3, k4, k5⟩ := h.conns e he
      refine ⟨l1, k1, k2, k3, k4, ?_⟩
      rcases k5 with k5 | k5 | k5
      · exact .inl ((g2 _).2 ⟨k5, hne⟩)
      · exact .inr (.inl k5)
      · cases isNew with
        | false => simp only [Bool.false_eq_true, if_false] at hn; rw [hn.1] at k5; cases k5
        | true => simp only [if_true] at hn; rw [hn.1] at k5; cases k5; exact absurd rfl hne
  | @gone k b l r1 hk =>
    obtain ⟨-, q1, q2, q3⟩ := recv_len r1
    obtain ⟨hends, rfl⟩ := recv_zero r1 (by omega) h4 hk
    have hmem : ∃ m', Holds (drop (put st s ⟨c.id, c.addr, l, c.got ++ []⟩) s isNew).puller m' ∧ (∀ e, e ∈ m' ↔ (e ∈ m ∧ e.1 ≠ s)) := by
      cases isNew with
      | false =>
        refine ⟨_, holds_del h.holds s, fun e => ?_⟩
        simp [List.mem_filter]
      | true =>
        simp only [if_true] at hn
        refine ⟨m, h.holds, fun e => ⟨fun he => ⟨he, fun hes => hn.2 (hes ▸ List.mem_map_of_mem (f := (·.1)) he)⟩, fun he => he.1⟩⟩
    obtain ⟨m', g1, g2⟩ := hmem
    have hst : (drop (put st s ⟨c.id, c.addr, l, c.got ++ []⟩) s isNew).conns = st.conns.map (fun e => if e.1 = s then (s, ⟨c.id, c.addr, l, c.got ++ []⟩) else e) ∧
        (drop (put st s ⟨c.id, c.addr, l, c.got ++ []⟩) s isNew).count = st.count ∧
        (drop (put st s ⟨c.id, c.addr, l, c.got ++ []⟩) s isNew).queries = st.queries := by cases isNew <;> exact ⟨rfl, rfl, rfl⟩
    obtain ⟨t1, t2, t3⟩ := hst
    refine ⟨m', ⟨g1, by rw [t2]; exact h.count, ?_, ?_, ?_, ?_, ?_, by rw [t3]; exact h.queries⟩, fun e he => .inl ((g2 e).1 he).1⟩
    · rw [t1, keys_map]; exact h.fds
    · rw [t1]
      intro e he
      rcases mem_put he with rfl | ⟨-, he⟩
      · exact h.apart (s, c) hc
      · exact h.apart _ he
    · rw [t1, ids_map (c := c) (c' := ⟨c.id, c.addr, l, c.got ++ []⟩) h.fds hc rfl]; exact h.ids
    · rw [t1, t3]
      intro e he
      obtain ⟨he, hne⟩ := (g2 e).1 he
      rcases h.members e he with hl | ⟨c0, k1, k2⟩
      · exact .inl hl
      · exact .inr ⟨c0, put_mem k1 hne, k2⟩
    · rw [t1]
      intro e he
      rcases mem_put he with rfl | ⟨hne, he⟩
      · refine ⟨l0, h1, ?_, fun he => h3 (q2 he), q3 h4, .inr (.inl (h3 hends))⟩
        dsimp only at h2 ⊢
        rw [← h2, ← q1]; simp
      · obtain ⟨l1, k1, k2, k3, k4, k5⟩ := h.conns e he
        refine ⟨l1, k1, k2, k3, k4, ?_⟩
        rcases k5 with k5 | k5 | k5
        · exact .inl ((g2 _).2 ⟨k5, hne⟩)
        · exact .inr (.inl k5)
        · cases isNew with
          | false => simp only [Bool.false_eq_true, if_false] at hn; rw [hn.1] at k5; cases k5
          | true => simp only [if_true] at hn; rw [hn.1] at k5; cases k5; exact absurd rfl hne

theorem step_inv {S : List Arr → Prop} (hS : ∀ {l k l' : List Arr} {a b : Byte} {m : List Byte}, S l → recv l 2 = some (2, [a, b], k) →
      a.toNat * 256 + b.toNat = m.length → recv k m.length = some ((m.length : Int), m, l') → S l')
    {left : Nat} {others : List Nat} {accd : List (Nat × Addr × List Arr)} {m : List (Nat × Option (Option Addr))}
    {st st' : St Addr} (h : Inv S others accd m none st) {t : Turn Addr} (hr : Rules others st t) (hs : ∀ s a l, t.acc = some (s, a, l) → S l)
    (hst : step left st t = .go st') :
    ∃ accd' m', Inv S others accd' m' none st' ∧ (accd' = accd ∨ ∃ e, t.acc = some e ∧ accd' = accd ++ [e]) := by
  unfold step at hst
  have hlistener : ∀ d : Option (Option Addr), (match t.acc with
      | none => Out.go st
      | some (s, a, l) =>
        let c : Conn Addr := ⟨st.count, a, l, []⟩
        read left { st with conns := (s, c) :: st.conns, count := st.count + 1 } s a c true) = .go st' →
      ∃ accd' m', Inv S others accd' m' none st' ∧ (accd' = accd ∨ ∃ e, t.acc = some e ∧ accd' = accd ++ [e]) := by
    intro _ hst
    cases hacc : t.acc with
    | none => rw [hacc] at hst; cases hst; exact ⟨accd, m, h, .inl rfl⟩
    | some e =>
      obtain ⟨s, a, l⟩ := e
      rw [hacc] at hst
      dsimp only at hst
      obtain ⟨r1, r2, r3⟩ := hr.1 s a l hacc
      have hlt : ∀ e ∈ st.conns, e.2.id < accd.length := fun e he => by
        obtain ⟨l, h1, -⟩ := h.conns e he
        exact (List.getElem?_eq_some_iff.1 h1).1
      have hltq : ∀ q ∈ st.queries, q.id < accd.length := fun q hq => by
        obtain ⟨l, fs, h1, -⟩ := h.queries q hq
        exact (List.getElem?_eq_some_iff.1 h1).1
      have hsm : s ∉ m.map (·.1) := by
        intro hm
        obtain ⟨e, he, rfl⟩ := List.mem_map.1 hm
        rcases h.members e he with ⟨-, hl⟩ | ⟨c, hc, -⟩
        · exact r2 hl
        · exact r1 (List.mem_map_of_mem (f := (·.1)) hc)
      have hnil : asked st.queries st.count = [] := asked_nil fun q hq => by have := hltq q hq; rw [h.count]; omega
      have h' : Inv S others (accd ++ [(s, a, l)]) m (some s)
          { st with conns := (s, ⟨st.count, a, l, []⟩) :: st.conns, count := st.count + 1 } := by
        refine ⟨h.holds, by simp [h.count], ?_, ?_, ?_, ?_, ?_, ?_⟩
        · rw [List.map_cons, List.nodup_cons]; exact ⟨r1, h.fds⟩
        · intro e he
          rcases List.mem_cons.1 he with rfl | he
          · exact r2
          · exact h.apart e he
        · rw [List.map_cons, List.nodup_cons]
          refine ⟨fun hm => ?_, h.ids⟩
          obtain ⟨e, he, hid⟩ := List.mem_map.1 hm
          have := hlt e he
          rw [h.count] at hid
          dsimp only at hid
          omega
        · intro e he
          rcases h.members e he with hl | ⟨c, hc, hrest⟩
          · exact .inl hl
          · exact .inr ⟨c, List.mem_cons_of_mem _ hc, hrest⟩
        · intro e he
          rcases List.mem_cons.1 he with rfl | he
          · refine ⟨l, ?_, by simp, id, r3, .inr (.inr rfl)⟩
            dsimp only
            rw [h.count]; simp
          · obtain ⟨l1, k1, k2, k3, k4, k5⟩ := h.conns e he
            refine ⟨l1, ?_, k2, k3, k4, ?_⟩
            · rw [List.getElem?_append_left (hlt e he)]; exact k1
            · rcases k5 with k5 | k5 | k5
              · exact .inl k5
              · exact .inr (.inl k5)
              · cases k5
        · intro q hq
          obtain ⟨l1, fs, k1, k2⟩ := h.queries q hq
          refine ⟨l1, fs, ?_, k2⟩
          rw [List.getElem?_append_left (hltq q hq)]; exact k1
      have hread := read_reads left { st with conns := (s, (⟨st.count, a, l, []⟩ : Conn Addr)) :: st.conns, count := st.count + 1 } s a ⟨st.count, a, l, []⟩ true
      rw [hst] at hread
      obtain ⟨m', g1, -⟩ := read_inv hS h' (c := ⟨st.count, a, l, []⟩) List.mem_cons_self
        (by dsimp only; rw [hnil]; exact .nil) (hs s a l hacc) (isNew := true) (by simp only [if_true]; exact ⟨trivial, hsm⟩) hread
      exact ⟨_, m', g1, .inr ⟨_, rfl, rfl⟩⟩
  split at hst
  · cases hst
  · rename_i x s a hsel
    obtain ⟨f1, f2⟩ := fetch_some hsel
    have hm := h.holds.perm.mem_iff.1 f1
    rcases h.members _ hm with ⟨hl, -⟩ | ⟨c, hc, hd, hf, hS'⟩
    · cases hl
    · injection hd with hd; injection hd with hd
      dsimp only at hc
      split at hst
      · rename_i hfind
        have := List.find?_eq_none.1 hfind _ hc
        simp at this
      · rename_i s' c' hfind
        have h1 := List.mem_of_find?_eq_some hfind
        have h2 := List.find?_some hfind
        simp only [beq_iff_eq] at h2
        subst h2
        have := nodup_inj h.fds h1 hc rfl
        injection this with _ this
        subst this
        have hread := read_reads left st s' a c' false
        rw [hst] at hread
        subst hd
        obtain ⟨m', g1, -⟩ := read_inv hS h hc hf hS' (isNew := false) (by simp only [Bool.false_eq_true, if_false]; exact ⟨trivial, hm⟩) hread
        exact ⟨accd, m', g1, .inl rfl⟩
  · rename_i x s d hsel hd
    exact hlistener d hst

theorem run_inv {S : List Arr → Prop} (hS : ∀ {l k l' : List Arr} {a b : Byte} {m : List Byte}, S l → recv l 2 = some (2, [a, b], k) →
      a.toNat * 256 + b.toNat = m.length → recv k m.length = some ((m.length : Int), m, l') → S l')
    {left : Nat} {others : List Nat} {accd : List (Nat × Addr × List Arr)} {m : List (Nat × Option (Option Addr))}
    {st st' : St Addr} (h : Inv S others accd m none st) {ts : List (Turn Addr)} (hl : Legal left others st ts)
    (hs : ∀ t ∈ ts, ∀ s a l, t.acc = some (s, a, l) → S l) (hst : run left st ts = .go st') :
    ∃ accd' m', Inv S others (accd ++ accd') m' none st' ∧ accd'.Sublist (ts.filterMap (·.acc)) := by
  induction ts generalizing st accd m with
  | nil => cases hst; exact ⟨[], m, by simpa using h, by simp⟩
  | cons t ts ih =>
    unfold run at hst
    split at hst
    · rename_i st1 h1
      obtain ⟨a1, m1, g1, g2⟩ := step_inv hS h hl.1 (hs t List.mem_cons_self) h1
      obtain ⟨a2, m2, g3, g4⟩ := ih g1 (hl.2 _ h1) (fun t ht => hs t (List.mem_cons_of_mem _ ht)) hst
      rcases g2 with rfl | ⟨e, he, rfl⟩
      · refine ⟨a2, m2, g3, g4.trans ?_⟩
        rw [List.filterMap_cons]
        split
        · exact .refl _
        · exact .cons _ (.refl _)
      · refine ⟨e :: a2, m2, by simpa using g3, ?_⟩
        rw [List.filterMap_cons, he]
        exact g4.cons_cons _
    · rename_i h1
      exact absurd hst (h1 _)

theorem openAll_holds {others : List Nat} (ls : List Line) {p p' : Puller (Option Addr)} {m : List (Nat × Option (Option Addr))}
    (h : Holds p m) (hm : ∀ e ∈ m, e.2 = some none ∧ e.1 ∈ others) (ho : ∀ s ∈ listening ls, s ∈ others)
    (hn : (m.map (·.1) ++ listening ls).Nodup) (hp : openAll p ls = some p') :
    ∃ m', Holds p' m' ∧ (∀ e ∈ m', e.2 = some none ∧ e.1 ∈ others) := by
  induction ls generalizing p m with
  | nil => cases hp; exact ⟨m, h, hm⟩
  | cons x ls ih =>
    cases x with
    | opened s =>
      simp only [listening] at ho hn
      have hs : s ∉ m.map (·.1) := fun hs => (List.nodup_append.1 hn).2.2 s hs s List.mem_cons_self rfl
      unfold openAll at hp
      split at hp
      · cases hp
      · rename_i p1 hp1
        have hlt : s < 1024 := by
          unfold Puller.add at hp1
          split at hp1
          · cases hp1
          · rename_i h; simp only [setSize] at h; omega
        obtain ⟨p2, g1, g2⟩ := holds_add (d := some none) h hs hlt
        rw [g1] at hp1
        cases hp1
        refine ih g2 (fun e he => ?_) (fun s hs => ho s (List.mem_cons_of_mem _ hs)) ?_ hp
        · rcases List.mem_cons.1 he with rfl | he
          · exact ⟨rfl, ho _ List.mem_cons_self⟩
          · exact hm e he
        · rw [List.map_cons]
          exact (List.perm_middle.nodup_iff).1 hn
    | noListen s => cases hp; exact ⟨m, h, hm⟩
    | invalid => exact ih h hm ho hn hp
    | noSocket => exact ih h hm ho hn hp
    | noBind => exact ih h hm ho hn hp

theorem init_inv {S : List Arr → Prop} {others : List Nat} {ls : List Line} {st : St Addr} (ho : ∀ s ∈ listening ls, s ∈ others)
    (hn : (listening ls).Nodup) (hi : init ls = some st) : ∃ m, Inv S others [] m none st := by
  unfold init at hi
  split at hi
  · cases hi
  · rename_i p hp
    cases hi
    obtain ⟨m, h1, h2⟩ := openAll_holds ls holds_init (by simp) ho (by simpa using hn) hp
    exact ⟨m, h1, rfl, by simp, by simp, by simp, fun e he => .inl (h2 e he), by simp, by simp⟩

theorem recv_piece {l l' : List Arr} {b : List Byte} (h : Piece l b l') : recv l b.length = some ((b.length : Int), b, l') := by
  obtain ⟨-, r, k, rfl, rfl⟩ := h
  unfold recv
  by_cases hr : r = []
  · subst hr
    simp
  · have := List.length_pos_iff.2 hr
    simp [hr, this]

theorem read_whole {left : Nat} {st : St Addr} {s : Nat} {agent : Addr} {c : Conn Addr} {m : List Byte} {l' : List Arr} (h : Whole c.todo m l')
    (hl : m.length ≤ left) {isNew : Bool} : read left st s agent c isNew = .ub ∧ isNew = true ∧ 1024 ≤ s ∨ ∃ st', read left st s agent c isNew = .go st' ∧
      st'.queries = st.queries ++ [⟨c.id, s, agent, m⟩] ∧ (if isNew then st.puller.add s (some (some agent)) = some st'.puller else st'.puller = st.puller) := by
  obtain ⟨a, b, k, h1, h2, h3⟩ := h
  have r1 := recv_piece h1
  have r2 := recv_piece h3
  unfold read
  rw [show (2 : Nat) = [a, b].length from rfl, r1]
  simp only [List.getD_cons_zero, List.getD_cons_succ, h2, r2]
  simp only [List.length_cons, List.length_nil]
  rw [if_pos (by decide), if_pos hl]
  simp only [if_true]
  cases isNew with
  | false => exact .inr ⟨_, rfl, rfl, rfl⟩
  | true =>
    simp only [if_true]
    unfold Puller.add
    by_cases hs : setSize ≤ s
    · rw [if_pos hs]; exact .inl ⟨rfl, trivial, hs⟩
    · rw [if_neg hs]; exact .inr ⟨_, rfl, rfl, by rw [if_neg hs]; rfl⟩

theorem steady_recv {left : Nat} {l k l' : List Arr} {a b : Byte} {m : List Byte} (h : Steady left l) (h1 : recv l 2 = some (2, [a, b], k))
    (h2 : a.toNat * 256 + b.toNat = m.length) (h3 : recv k m.length = some ((m.length : Int), m, l')) : Steady left l' := by
  cases h with
  | silent => cases h1
  | closed l => cases h1
  | fail l => cases h1
  | query hw hl hs =>
    obtain ⟨a', b', k', w1, w2, w3⟩ := hw
    have r1 := recv_piece w1
    simp only [List.length_cons, List.length_nil] at r1
    rw [h1] at r1
    cases r1
    have r2 := recv_piece w3
    rw [← w2, h2, h3] at r2
    cases r2
    exact hs

theorem read_steady {left : Nat} {st : St Addr} {s : Nat} {agent : Addr} {c : Conn Addr} (h : Steady left c.todo) (hne : c.todo ≠ []) {isNew : Bool}
    (st' : St Addr) : read left st s agent c isNew ≠ .blocked st' := by
  cases hc : c.todo with
  | nil => exact absurd hc hne
  | cons x l =>
    rw [hc] at h
    cases h with
    | closed l => unfold read; rw [hc]; simp [recv]
    | fail l => unfold read; rw [hc]; simp [recv]
    | query hw hl hs =>
      rw [← hc] at hw
      rcases read_whole (st := st) (s := s) (agent := agent) (isNew := isNew) hw hl with ⟨h1, -⟩ | ⟨st1, h1, -⟩
      · rw [h1]; simp
      · rw [h1]; simp

theorem step_steady {left : Nat} {others : List Nat} {accd : List (Nat × Addr × List Arr)} {m : List (Nat × Option (Option Addr))}
    {st st' : St Addr} (h : Inv (Steady left) others accd m none st) {t : Turn Addr} (hr : Rules others st t)
    (hs : ∀ s a l, t.acc = some (s, a, l) → Steady left l ∧ l ≠ []) : step left st t ≠ .blocked st' := by
  unfold step
  split
  · simp
  · rename_i x s a hsel
    obtain ⟨f1, f2⟩ := fetch_some hsel
    have hm := h.holds.perm.mem_iff.1 f1
    rcases h.members _ hm with ⟨hl, -⟩ | ⟨c, hc, hd, hf, hS'⟩
    · cases hl
    · split
      · simp
      · rename_i s' c' hfind
        have h1 := List.mem_of_find?_eq_some hfind
        have h2 := List.find?_some hfind
        simp only [beq_iff_eq] at h2
        subst h2
        have := nodup_inj h.fds h1 hc rfl
        injection this with _ this
        subst this
        simp only [Bool.and_eq_true] at f2
        exact read_steady hS' (hr.2 _ hc f2.1.2) _
  · split
    · simp
    · rename_i s a l hacc
      obtain ⟨h1, h2⟩ := hs s a l hacc
      exact read_steady (by exact h1) (by exact h2) _

end Verif.TcpFrontend
