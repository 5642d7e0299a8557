import Verif.Spec.TcpPool
import Verif.Lemmas.SocketPool
/-! Lemmas on the connections of a module. -/

namespace Verif.TcpPool
open SocketPool

/-- The set has exactly these members. -/
def Ok (p : Puller Ctx) (R : Nat → Option Ctx → Prop) : Prop :=
  ∃ m, Holds p m ∧ (∀ s d, (s, d) ∈ m ↔ R s d) ∧ ∀ s d, R s d → s < 1024

theorem ok_congr {p : Puller Ctx} {R R' : Nat → Option Ctx → Prop} (h : Ok p R) (hr : ∀ s d, R s d ↔ R' s d) : Ok p R' := by
  obtain ⟨m, h1, h2, h3⟩ := h
  exact ⟨m, h1, fun s d => (h2 s d).trans (hr s d), fun s d h => h3 s d ((hr s d).2 h)⟩

theorem ok_init : Ok Puller.init (fun _ _ => False) := ⟨[], holds_init, by simp, by simp⟩

theorem ok_del {p : Puller Ctx} {R : Nat → Option Ctx → Prop} (h : Ok p R) (s : Nat) : Ok (p.del s) (fun t d => R t d ∧ t ≠ s) := by
  obtain ⟨m, h1, h2, h3⟩ := h
  refine ⟨_, holds_del h1 s, fun t d => ?_, fun t d h => h3 t d h.1⟩
  simp [List.mem_filter, h2]

theorem ok_add {p p' : Puller Ctx} {R : Nat → Option Ctx → Prop} (h : Ok p R) {s : Nat} {d : Option Ctx} (hs : ∀ e, ¬ R s e) (hp : p.add s d = some p') :
    Ok p' (fun t e => R t e ∨ (t = s ∧ e = d)) := by
  obtain ⟨m, h1, h2, h3⟩ := h
  have hlt : s < 1024 := by
    unfold Puller.add at hp
    split at hp
    · cases hp
    · rename_i h; simp only [setSize] at h; omega
  have hn : s ∉ m.map (·.1) := by
    intro hm
    obtain ⟨e, he, rfl⟩ := List.mem_map.1 hm
    exact hs e.2 ((h2 _ _).1 he)
  obtain ⟨p1, g1, g2⟩ := holds_add (d := d) h1 hn hlt
  rw [g1] at hp
  cases hp
  refine ⟨_, g2, fun t e => ?_, fun t e h => ?_⟩
  · simp only [List.mem_cons, Prod.mk.injEq, h2]
    exact Or.comm
  · rcases h with h | ⟨rfl, -⟩
    · exact h3 t e h
    · exact hlt

theorem ok_add_some {p : Puller Ctx} {s : Nat} {d : Option Ctx} (hs : s < 1024) : ∃ p', p.add s d = some p' := by
  unfold Puller.add
  rw [if_neg (by simp only [setSize]; omega)]
  exact ⟨_, rfl⟩

theorem ok_select {p : Puller Ctx} {R : Nat → Option Ctx → Prop} (h : Ok p R) {r : Nat → Bool} {x s : Nat} {d : Option Ctx} (hs : p.select r = some (x, s, d)) :
    R s d ∧ r s = true := by
  obtain ⟨m, h1, h2, -⟩ := h
  obtain ⟨f1, f2⟩ := fetch_some hs
  simp only [Bool.and_eq_true] at f2
  exact ⟨(h2 s d).1 (h1.perm.mem_iff.1 f1), f2.1.2⟩

theorem ok_select_none {p : Puller Ctx} {R : Nat → Option Ctx → Prop} (h : Ok p R) {r : Nat → Bool} (hs : p.select r = none) {s : Nat} {d : Option Ctx} (hR : R s d) :
    r s = false := by
  obtain ⟨m, h1, h2, -⟩ := h
  have hm := (h2 s d).2 hR
  have h3 := fetch_none hs _ (h1.perm.mem_iff.2 hm)
  have hm' : s ∈ m.map (·.1) := List.mem_map_of_mem (f := (·.1)) hm
  obtain ⟨mx, h4, h5⟩ := h1.max s hm'
  rw [h4] at h3
  have h6 := (h1.set s).2 hm'
  simpa [h6, h5] using h3

theorem ok_closeAll {p : Puller Ctx} {R : Nat → Option Ctx → Prop} (h : Ok p R) (s : Nat) : s ∈ closeAll p.pool none ↔ ∃ d, R s d := by
  obtain ⟨m, h1, h2, -⟩ := h
  have hp : (closeAll p.pool none).Perm (m.map (·.1)) := by
    unfold closeAll
    rw [List.filter_eq_self.2 (by simp)]
    refine ((Bst.Tree.preorder_perm p.pool.root).map (fun e => e.2.1)).trans ?_
    have h4 := h1.perm.map (·.1)
    unfold contents at h4
    rwa [List.map_map] at h4
  rw [hp.mem_iff]
  constructor
  · intro hm
    obtain ⟨e, he, rfl⟩ := List.mem_map.1 hm
    exact ⟨e.2, (h2 _ _).1 he⟩
  · rintro ⟨d, hd⟩
    exact List.mem_map_of_mem (f := (·.1)) ((h2 s d).2 hd)

theorem ok_closeAll_nodup {p : Puller Ctx} {R : Nat → Option Ctx → Prop} (h : Ok p R) : (closeAll p.pool none).Nodup := by
  obtain ⟨m, h1, h2, -⟩ := h
  unfold closeAll
  rw [List.filter_eq_self.2 (by simp)]
  have hp := (Bst.Tree.preorder_perm p.pool.root).map (fun e => e.2.1)
  rw [hp.nodup_iff]
  have h4 := h1.good.nodup
  unfold contents at h4
  rwa [List.map_map] at h4

/-- A function changed in one place. -/
def upd {α : Type} (f : Nat → α) (s : Nat) (v : α) : Nat → α := fun t => if t = s then v else f t

@[simp] theorem upd_same {α : Type} (f : Nat → α) (s : Nat) (v : α) : upd f s v s = v := if_pos rfl

theorem upd_other {α : Type} (f : Nat → α) {s t : Nat} (v : α) (h : t ≠ s) : upd f s v t = f t := if_neg h

theorem upd_upd {α : Type} (f : Nat → α) (s : Nat) (v v' : α) : upd (upd f s v) s v' = upd f s v' := by
  funext t
  unfold upd
  split <;> rfl

theorem upd_self {α : Type} (f : Nat → α) (s : Nat) (v : α) (h : f s = v) : upd f s v = f := by
  funext t
  unfold upd
  split
  · rename_i e; rw [e, h]
  · rfl

/-- What the contexts in a set are like. -/
def Fits (cfg : Cfg) : Loc → Ctx → Prop
  | .waiting, c => c.index < cfg.servers ∧ 1 ≤ c.queried ∧ c.msg ≠ none
  | .query, c => c.index < cfg.servers
  | .agent i, c => c.index = i ∧ c.index < cfg.servers
  | .proxyQuery, c => c.queried = 0 ∧ ∃ n, cfg.proxies = some n ∧ c.index < n
  | .proxy j, c => c.queried = 0 ∧ c.index = j ∧ ∃ n, cfg.proxies = some n ∧ c.index < n

/-- How the connections in a set stand. -/
def stand (cfg : Cfg) : Loc → Ctx → Conn
  | .waiting, c => .asked c.index (c.queried - 1) ⟨c.msg.getD 0, c.qid, c.hash⟩
  | .query, c => if cfg.proxies ≠ none ∧ c.queried = 0 then .raw else .ready c.index c.queried
  | .agent _, c => if cfg.proxies ≠ none ∧ c.queried = 0 then .raw else .ready c.index c.queried
  | .proxyQuery, _ => .raw
  | .proxy _, _ => .raw

theorem stand_ne_shut (cfg : Cfg) (l : Loc) (c : Ctx) : stand cfg l c ≠ .shut := by
  cases l <;> simp only [stand] <;> (try split) <;> simp

/-- Where each socket is. -/
abbrev Where := Nat → Option (Loc × Option Ctx)

def expected (cfg : Cfg) (w : Where) (held : Nat → Option Conn) (s : Nat) : Conn :=
  match w s with
  | some (l, some c) => stand cfg l c
  | some (_, none) => .shut
  | none => (held s).getD .shut

/-- What holds at any time: each socket is in one set, or in hand (`held`), or not open. -/
structure InvW (P : Nat → Prop) (cfg : Cfg) (inc : Nat) (st : St) (w : Where) (held : Nat → Option Conn) : Prop where
  incEq : st.incoming = inc
  pools : ∀ l, Ok (st.pools l) (fun s d => w s = some (l, d))
  inHand : ∀ s k, held s = some k → w s = none ∧ k ≠ .shut ∧ s ≠ inc
  fits : ∀ s l c, w s = some (l, some c) → Fits cfg l c ∧ s ≠ inc
  plain : ∀ s l, w s = some (l, none) ↔ (s = inc ∧ l = .waiting)
  opened : ∀ s, s ∈ st.opened ↔ (w s ≠ .none ∨ held s ≠ .none)
  followed : ∀ s, Verif.TcpPool.follow st.log s = some (expected cfg w held s)
  acts : ∀ a ∈ st.log, ActOk cfg a ∧ a.sock ≠ inc
  small : ∀ s ∈ st.opened, P s

def Inv (P : Nat → Prop) (cfg : Cfg) (inc : Nat) (st : St) (held : Nat → Option Conn) : Prop := ∃ w, InvW P cfg inc st w held

theorem inv_tick {P : Nat → Prop} {cfg : Cfg} {inc : Nat} {st : St} {held : Nat → Option Conn} (h : Inv P cfg inc st held) (k : Nat) : Inv P cfg inc { st with tick := k } held := by
  obtain ⟨w, h⟩ := h
  exact ⟨w, h.incEq, h.pools, h.inHand, h.fits, h.plain, h.opened, h.followed, h.acts, h.small⟩

theorem follow_snoc (log : List Act) (a : Act) (s : Nat) : follow (log ++ [a]) s = Conn.step s (follow log s) a := by
  simp [follow, List.foldl_append]

/-- Selecting. -/
theorem select_w {P : Nat → Prop} {cfg : Cfg} {inc : Nat} {st : St} {w : Where} {held : Nat → Option Conn} (h : InvW P cfg inc st w held) {o : Oracle} {l : Loc} {s : Nat} {c : Ctx}
    {st' : St} (hs : st.select o l = (some (s, c), st')) : st' = { st with tick := st.tick + 1 } ∧ o.ready st.tick s = true ∧
      ((w s = some (l, some c)) ∨ (w s = some (l, none) ∧ c = .zero)) := by
  unfold St.select at hs
  injection hs with h1 h2
  cases hsel : (st.pools l).select (o.ready st.tick) with
  | none => rw [hsel] at h1; cases h1
  | some e =>
    obtain ⟨x, s', d⟩ := e
    rw [hsel] at h1
    simp only [Option.map_some, Option.some.injEq, Prod.mk.injEq] at h1
    obtain ⟨rfl, rfl⟩ := h1
    obtain ⟨k1, k2⟩ := ok_select (h.pools l) hsel
    refine ⟨h2.symm, k2, ?_⟩
    cases d with
    | none => exact .inr ⟨k1, rfl⟩
    | some c => exact .inl k1

theorem inv_select_none {P : Nat → Prop} {cfg : Cfg} {inc : Nat} {st : St} {held : Nat → Option Conn} (h : Inv P cfg inc st held) {o : Oracle} {l : Loc} {r : Option (Nat × Ctx)} {st' : St}
    (hs : st.select o l = (r, st')) : Inv P cfg inc st' held := by
  unfold St.select at hs
  injection hs with _ h2
  rw [← h2]
  exact inv_tick h _

/-- Taking a socket out of its set. -/
theorem invW_del {P : Nat → Prop} {cfg : Cfg} {inc : Nat} {st : St} {w : Where} {held : Nat → Option Conn} (h : InvW P cfg inc st w held) {l : Loc} {s : Nat} {c : Ctx}
    (hw : w s = some (l, some c)) : InvW P cfg inc (st.del l s) (upd w s none) (upd held s (some (stand cfg l c))) := by
  have hheld : held s = .none := by
    cases hh : held s with
    | none => rfl
    | some k => have := (h.inHand s k hh).1; rw [hw] at this; cases this
  refine ⟨h.incEq, fun l' => ?_, fun t k ht => ?_, fun t l' c' ht => ?_, fun t l' => ?_, fun t => ?_, fun t => ?_, h.acts, h.small⟩
  · unfold St.del St.set
    dsimp only
    by_cases hl : l' = l
    · subst hl
      rw [if_pos rfl]
      refine ok_congr (ok_del (h.pools l') s) fun t d => ?_
      by_cases ht : t = s
      · subst ht; simp
      · rw [upd_other _ _ ht]; simp [ht]
    · rw [if_neg hl]
      refine ok_congr (h.pools l') fun t d => ?_
      by_cases ht : t = s
      · subst ht; rw [upd_same, hw]; simp; intro h'; exact absurd h'.symm hl
      · rw [upd_other _ _ ht]
  · by_cases hts : t = s
    · subst hts
      rw [upd_same] at ht
      cases ht
      exact ⟨upd_same _ _ _, stand_ne_shut _ _ _, (h.fits t l c hw).2⟩
    · rw [upd_other _ _ hts] at ht ⊢
      exact h.inHand t k ht
  · by_cases hts : t = s
    · subst hts; rw [upd_same] at ht; cases ht
    · rw [upd_other _ _ hts] at ht; exact h.fits t l' c' ht
  · by_cases hts : t = s
    · subst hts
      rw [upd_same]
      refine ⟨fun h' => (by cases h'), fun h' => ?_⟩
      exact absurd h'.1 (h.fits t l c hw).2
    · rw [upd_other _ _ hts]; exact h.plain t l'
  · by_cases hts : t = s
    · subst hts
      rw [upd_same, upd_same]
      have := (h.opened t).2 (.inl (by rw [hw]; simp))
      simpa [St.del, St.set] using this
    · rw [upd_other _ _ hts, upd_other _ _ hts]; exact h.opened t
  · refine (h.followed t).trans ?_
    congr 1
    unfold expected
    by_cases hts : t = s
    · subst hts; rw [upd_same, upd_same, hw]; rfl
    · rw [upd_other _ _ hts, upd_other _ _ hts]

/-- Putting a socket into a set. -/
theorem inv_add {P : Nat → Prop} {cfg : Cfg} {inc : Nat} {st st' : St} {held : Nat → Option Conn} (h : Inv P cfg inc st held) {l : Loc} {s : Nat} {c : Ctx}
    (hs : held s = some (stand cfg l c)) (hf : Fits cfg l c) (ha : st.add l s (some c) = some st') : Inv P cfg inc st' (upd held s none) := by
  obtain ⟨w, h⟩ := h
  obtain ⟨hw, -, hinc⟩ := h.inHand s _ hs
  unfold St.add at ha
  cases hp : (st.pools l).add s (some c) with
  | none => rw [hp] at ha; cases ha
  | some p =>
    rw [hp] at ha
    cases ha
    refine ⟨upd w s (some (l, some c)), h.incEq, fun l' => ?_, fun t k ht => ?_, fun t l' c' ht => ?_, fun t l' => ?_, fun t => ?_, fun t => ?_, h.acts, h.small⟩
    · unfold St.set
      dsimp only
      by_cases hl : l' = l
      · subst hl
        rw [if_pos rfl]
        refine ok_congr (ok_add (h.pools l') (fun e he => by rw [hw] at he; cases he) hp) fun t d => ?_
        by_cases ht : t = s
        · subst ht; rw [upd_same, hw]; simp [eq_comm]
        · rw [upd_other _ _ ht]; simp [ht]
      · rw [if_neg hl]
        refine ok_congr (h.pools l') fun t d => ?_
        by_cases ht : t = s
        · subst ht; rw [upd_same, hw]; simp; intro h'; exact absurd h'.symm hl
        · rw [upd_other _ _ ht]
    · by_cases hts : t = s
      · subst hts; rw [upd_same] at ht; cases ht
      · rw [upd_other _ _ hts] at ht ⊢; exact h.inHand t k ht
    · by_cases hts : t = s
      · subst hts; rw [upd_same] at ht; cases ht; exact ⟨hf, hinc⟩
      · rw [upd_other _ _ hts] at ht; exact h.fits t l' c' ht
    · by_cases hts : t = s
      · subst hts
        rw [upd_same]
        refine ⟨fun h' => (by cases h'), fun h' => absurd h'.1 hinc⟩
      · rw [upd_other _ _ hts]; exact h.plain t l'
    · by_cases hts : t = s
      · subst hts
        rw [upd_same, upd_same]
        have := (h.opened t).2 (.inr (by rw [hs]; simp))
        simpa [St.set] using this
      · rw [upd_other _ _ hts, upd_other _ _ hts]; exact h.opened t
    · refine (h.followed t).trans ?_
      congr 1
      unfold expected
      by_cases hts : t = s
      · subst hts; rw [upd_same, hw, hs]; rfl
      · rw [upd_other _ _ hts, upd_other _ _ hts]

/-- Something is done on a connection in hand. -/
theorem inv_act {P : Nat → Prop} {cfg : Cfg} {inc : Nat} {st : St} {held : Nat → Option Conn} (h : Inv P cfg inc st held) {s : Nat} {k k' : Conn} (hs : held s = some k)
    {a : Act} (ha : a.sock = s) (hn : k.next a = some k') (hk : k' ≠ .shut) (hok : ActOk cfg a) (n : Nat) :
    Inv P cfg inc { st with tick := n, log := st.log ++ [a] } (upd held s (some k')) := by
  obtain ⟨w, h⟩ := h
  obtain ⟨hw, h1, h3⟩ := h.inHand s _ hs
  refine ⟨w, h.incEq, h.pools, fun t k0 ht => ?_, h.fits, h.plain, fun t => ?_, fun t => ?_, fun b hb => ?_, h.small⟩
  · by_cases hts : t = s
    · subst hts; rw [upd_same] at ht; cases ht; exact ⟨hw, hk, h3⟩
    · rw [upd_other _ _ hts] at ht; exact h.inHand t k0 ht
  · by_cases hts : t = s
    · subst hts
      rw [upd_same]
      have := (h.opened t).2 (.inr (by rw [hs]; simp))
      simpa using this
    · rw [upd_other _ _ hts]; exact h.opened t
  · dsimp only
    rw [follow_snoc, h.followed t]
    unfold Conn.step expected
    by_cases hts : t = s
    · subst hts; rw [if_pos ha, upd_same, hw, hs]; simpa using hn
    · rw [if_neg (by rw [ha]; exact fun h => hts h.symm), upd_other _ _ hts]
  · rcases List.mem_append.1 hb with hb | hb
    · exact h.acts b hb
    · rw [List.mem_singleton] at hb; subst hb; exact ⟨hok, by rw [ha]; exact h3⟩

/-- Closing a connection in hand. -/
theorem inv_close {P : Nat → Prop} {cfg : Cfg} {inc : Nat} {st : St} {held : Nat → Option Conn} (h : Inv P cfg inc st held) {s : Nat} {k : Conn} (hs : held s = some k) :
    Inv P cfg inc (st.close s) (upd held s none) := by
  obtain ⟨w, h⟩ := h
  obtain ⟨hw, h1, h3⟩ := h.inHand s _ hs
  refine ⟨w, h.incEq, h.pools, fun t k0 ht => ?_, h.fits, h.plain, fun t => ?_, fun t => ?_, fun b hb => ?_, fun t ht => h.small t (List.mem_filter.1 ht).1⟩
  · by_cases hts : t = s
    · subst hts; rw [upd_same] at ht; cases ht
    · rw [upd_other _ _ hts] at ht; exact h.inHand t k0 ht
  · unfold St.close
    dsimp only
    rw [List.mem_filter]
    by_cases hts : t = s
    · subst hts
      rw [upd_same, hw]
      simp
    · rw [upd_other _ _ hts, ← h.opened t]; simp [hts]
  · unfold St.close
    dsimp only
    rw [follow_snoc, h.followed t]
    unfold Conn.step expected
    by_cases hts : t = s
    · subst hts
      rw [if_pos (show (Act.close t).sock = t from rfl), upd_same, hw, hs]
      cases k <;> simp_all [Conn.next]
    · rw [if_neg (show ¬ (Act.close s).sock = t from fun h => hts h.symm), upd_other _ _ hts]
  · unfold St.close at hb
    dsimp only at hb
    rcases List.mem_append.1 hb with hb | hb
    · exact h.acts b hb
    · rw [List.mem_singleton] at hb; subst hb; exact ⟨trivial, h3⟩

theorem held_none_upd {held : Nat → Option Conn} {s : Nat} {v : Option Conn} (h : held s = none) : upd (upd held s v) s none = held := by
  rw [upd_upd, upd_self _ _ _ h]

/-- The system is kind: descriptors are small, and random numbers do not overflow. -/
def Safe (P : Nat → Prop) (o : Oracle) (cfg : Cfg) : Prop :=
  (∀ s, P s → s < 1024) ∧ ∀ k i, (i < cfg.servers ∨ ∃ n, cfg.proxies = some n ∧ i < n) → o.rnd k + i < intLimit

/-- A result is good, or undefined behaviour has an excuse. -/
def Sat {α : Type} (safe : Prop) (r : Option α) (Q : α → Prop) : Prop :=
  match r with
  | none => ¬ safe
  | some x => Q x

theorem Sat.imp {α : Type} {safe : Prop} {r : Option α} {Q Q' : α → Prop} (h : Sat safe r Q) (hq : ∀ x, Q x → Q' x) : Sat safe r Q' := by
  cases r with
  | none => exact h
  | some x => exact hq x h

theorem Sat.map {α β : Type} {safe : Prop} {r : Option α} {f : α → β} {Q : β → Prop} (h : Sat safe r (fun x => Q (f x))) : Sat safe (r.map f) Q := by
  cases r <;> exact h

section
variable {P : Nat → Prop} {o : Oracle} {cfg : Cfg} {inc : Nat}

theorem sat_add {st : St} {held : Nat → Option Conn} (h : Inv P cfg inc st held) {l : Loc} {s : Nat} {c : Ctx}
    (hs : held s = some (stand cfg l c)) (hf : Fits cfg l c) : Sat (Safe P o cfg) (st.add l s (some c)) (fun st' => Inv P cfg inc st' (upd held s none)) := by
  cases ha : st.add l s (some c) with
  | some st' => exact inv_add h hs hf ha
  | none =>
    intro hsafe
    obtain ⟨w, h⟩ := h
    obtain ⟨p, hp⟩ := ok_add_some (p := st.pools l) (d := some c) (hsafe.1 s (h.small s ((h.opened s).2 (.inr (by rw [hs]; simp)))))
    unfold St.add at ha
    rw [hp] at ha
    cases ha

theorem held_none {st : St} {w : Where} {held : Nat → Option Conn} (h : InvW P cfg inc st w held) {s : Nat} {x : Loc × Option Ctx} (hw : w s = some x) :
    held s = none := by
  cases hh : held s with
  | none => rfl
  | some k => have := (h.inHand s k hh).1; rw [hw] at this; cases this

/-- Selecting a connection and taking it out. -/
theorem select_take {st st' : St} {held : Nat → Option Conn} (h : Inv P cfg inc st held) {l : Loc} {s : Nat} {c : Ctx}
    (hs : st.select o l = (some (s, c), st')) (hl : l ≠ .waiting ∨ s ≠ inc) :
    held s = none ∧ Fits cfg l c ∧ Inv P cfg inc (st'.del l s) (upd held s (some (stand cfg l c))) ∧ s ≠ inc := by
  obtain ⟨w, h⟩ := h
  obtain ⟨rfl, -, h1⟩ := select_w h hs
  rcases h1 with h1 | ⟨h1, -⟩
  · refine ⟨held_none h h1, (h.fits s l c h1).1, inv_tick (st := st.del l s) ⟨_, invW_del h h1⟩ _, (h.fits s l c h1).2⟩
  · have := (h.plain s l).1 h1
    rcases hl with hl | hl
    · exact absurd this.2 hl
    · exact absurd this.1 hl

theorem sat_recycle {held : Nat → Option Conn} {src : Loc} {n : Nat} {to : Nat → Loc} (hsrc : src ≠ .waiting)
    (hto : ∀ c, Fits cfg src c → c.index < n ∧ Fits cfg (to c.index) c ∧ stand cfg (to c.index) c = stand cfg src c) (k : Nat) {st : St}
    (h : Inv P cfg inc st held) : Sat (Safe P o cfg) (recycle o src n to k st) (fun st' => Inv P cfg inc st' held) := by
  induction k generalizing st with
  | zero => exact h
  | succ k ih =>
    unfold recycle
    cases hsel : st.select o src with
    | mk r st1 =>
      cases r with
      | none => exact inv_select_none h hsel
      | some e =>
        obtain ⟨s, c⟩ := e
        obtain ⟨h1, h2, h3, h4⟩ := select_take h hsel (.inl hsrc)
        obtain ⟨t1, t2, t3⟩ := hto c h2
        dsimp only
        rw [if_pos t1]
        have h5 := sat_add (o := o) (l := to c.index) (c := c) h3 (by rw [upd_same, t3]) t2
        rw [held_none_upd h1] at h5
        cases hadd : (st1.del src s).add (to c.index) s (some c) with
        | none => rw [hadd] at h5; exact h5
        | some st2 => rw [hadd] at h5; exact ih h5

theorem inv_getAvailable {held : Nat → Option Conn} {keep : Int} {l : Loc} (hl : l ≠ .waiting) (k : Nat) {st st' : St} {r : Option (Nat × Ctx)}
    (h : Inv P cfg inc st held) (hr : getAvailable o keep l k st = (r, st')) :
    match (generalizing := false) r with
    | none => Inv P cfg inc st' held
    | some (s, c) => held s = none ∧ Fits cfg l c ∧ Inv P cfg inc st' (upd held s (some (stand cfg l c))) ∧ s ≠ inc := by
  induction k generalizing st with
  | zero => cases hr; exact h
  | succ k ih =>
    unfold getAvailable at hr
    cases hsel : st.select o l with
    | mk r1 st1 =>
      rw [hsel] at hr
      cases r1 with
      | none => cases hr; exact inv_select_none h hsel
      | some e =>
        obtain ⟨s, c⟩ := e
        obtain ⟨h1, h2, h3, h4⟩ := select_take h hsel (.inl hl)
        dsimp only at hr
        have h5 := inv_tick h3 ((st1.del l s).tick + 1)
        split at hr
        · refine ih ?_ hr
          have h6 := inv_close h5 (upd_same _ _ _)
          rwa [held_none_upd h1] at h6
        · cases hr
          exact ⟨h1, h2, h5, h4⟩

theorem inv_new {st : St} {held : Nat → Option Conn} (h : Inv P cfg inc st held) {s i n : Nat} {v : Bool} (hs : s ∉ st.opened) (hp : P s)
    (hok : ActOk cfg (.conn s v i)) : held s = none ∧ s ≠ inc ∧
      Inv P cfg inc { st with tick := n, opened := s :: st.opened, log := st.log ++ [.conn s v i] } (upd held s (some (if v then .raw else .ready i 0))) := by
  obtain ⟨w, h⟩ := h
  have hw : w s = none := by
    cases hw : w s with
    | none => rfl
    | some x => exact absurd ((h.opened s).2 (.inl (by rw [hw]; simp))) hs
  have hh : held s = none := by
    cases hh : held s with
    | none => rfl
    | some x => exact absurd ((h.opened s).2 (.inr (by rw [hh]; simp))) hs
  have hinc : s ≠ inc := fun e => by
    have := (h.plain s .waiting).2 ⟨e, rfl⟩
    rw [hw] at this
    cases this
  have hne : (if v then Conn.raw else .ready i 0) ≠ .shut := by split <;> simp
  refine ⟨hh, hinc, w, h.incEq, h.pools, fun t k ht => ?_, h.fits, h.plain, fun t => ?_, fun t => ?_, fun b hb => ?_, fun t ht => ?_⟩
  · by_cases hts : t = s
    · subst hts; rw [upd_same] at ht; cases ht; exact ⟨hw, hne, hinc⟩
    · rw [upd_other _ _ hts] at ht; exact h.inHand t k ht
  · dsimp only
    by_cases hts : t = s
    · subst hts; rw [upd_same]; simp
    · rw [upd_other _ _ hts, ← h.opened t, List.mem_cons]; simp [hts]
  · dsimp only
    rw [follow_snoc, h.followed t]
    unfold Conn.step expected
    by_cases hts : t = s
    · subst hts
      rw [if_pos (show (Act.conn t v i).sock = t from rfl), upd_same, hw, hh]
      rfl
    · rw [if_neg (show ¬ (Act.conn s v i).sock = t from fun h => hts h.symm), upd_other _ _ hts]
  · dsimp only at hb
    rcases List.mem_append.1 hb with hb | hb
    · exact h.acts b hb
    · rw [List.mem_singleton] at hb; subst hb; exact ⟨hok, hinc⟩
  · rcases List.mem_cons.1 ht with rfl | ht
    · exact hp
    · exact h.small t ht

theorem inv_connectNew {held : Nat → Option Conn} {st st' : St} {v : Bool} {i : Nat} {r : Option (Nat × Ctx)} (hP : ∀ k s, o.sock k = some s → P s)
    (h : Inv P cfg inc st held) (hok : ∀ s, ActOk cfg (.conn s v i)) (hr : connectNew o v i st = (r, st')) :
    match r with
    | none => Inv P cfg inc st' held
    | some (s, c) => held s = none ∧ c.index = i ∧ c.queried = 0 ∧ Inv P cfg inc st' (upd held s (some (if v then .raw else .ready i 0))) ∧ s ≠ inc := by
  unfold connectNew at hr
  split at hr
  · cases hr; exact inv_tick h _
  · rename_i s hs
    split at hr
    · cases hr; exact inv_tick h _
    · rename_i hno
      cases hr
      obtain ⟨h1, h2, h3⟩ := inv_new (n := st.tick + 1) h hno (hP _ _ hs) (hok s)
      exact ⟨h1, rfl, rfl, h3, h2⟩

theorem sat_adding {held : Nat → Option Conn} {l : Loc} {r : Option (Nat × Ctx)} {st : St}
    (h : match r with
      | none => Inv P cfg inc st held
      | some (s, c) => held s = none ∧ Fits cfg l c ∧ Inv P cfg inc st (upd held s (some (stand cfg l c)))) :
    Sat (Safe P o cfg) (adding l (r, st)) (fun x => Inv P cfg inc x.2 held) := by
  unfold adding
  cases r with
  | none => exact h
  | some e =>
    obtain ⟨s, c⟩ := e
    obtain ⟨h1, h2, h3⟩ := h
    dsimp only
    have h5 := sat_add (o := o) (l := l) (c := c) h3 (upd_same _ _ _) h2
    rw [held_none_upd h1] at h5
    exact Sat.map h5

theorem sat_overAll {held : Nat → Option Conn} {one : Nat → St → Option (Bool × St)} {n shift : Nat}
    (hn : ∀ i < n, Safe P o cfg → shift + i < intLimit)
    (ho : ∀ i < n, ∀ st, Inv P cfg inc st held → Sat (Safe P o cfg) (one i st) (fun x => Inv P cfg inc x.2 held)) (is : List Nat) (his : ∀ i ∈ is, i < n)
    {st : St} (h : Inv P cfg inc st held) (k : Nat) : Sat (Safe P o cfg) (overAll one n shift is (k, st)) (fun x => Inv P cfg inc x.2 held) := by
  induction is generalizing st k with
  | nil => exact h
  | cons i is ih =>
    unfold overAll
    by_cases hov : intLimit ≤ shift + i
    · rw [if_pos hov]
      intro hs
      have := hn i (his i List.mem_cons_self) hs
      omega
    · rw [if_neg hov]
      have hlt : (shift + i) % n < n := Nat.mod_lt _ (Nat.lt_of_le_of_lt (Nat.zero_le _) (his i List.mem_cons_self))
      have h1 := ho _ hlt st h
      cases hone : one ((shift + i) % n) st with
      | none => rw [hone] at h1; exact h1
      | some r => rw [hone] at h1; exact ih (fun j hj => his j (List.mem_cons_of_mem _ hj)) h1 _

theorem sat_proxyOne {held : Nat → Option Conn} (hP : ∀ k s, o.sock k = some s → P s) {n : Nat} (hc : cfg.proxies = some n) {j : Nat} (hj : j < n) {st : St}
    (h : Inv P cfg inc st held) : Sat (Safe P o cfg) (proxyOne o cfg j st) (fun x => Inv P cfg inc x.2 held) := by
  unfold proxyOne
  cases hg : getAvailable o cfg.keep (.proxy j) (st.rounds (.proxy j)) st with
  | mk r st1 =>
    have h1 := inv_getAvailable (by simp) _ h hg
    cases r with
    | some e =>
      obtain ⟨s, c⟩ := e
      obtain ⟨h2, h3, h4, -⟩ := h1
      exact sat_adding (l := .proxyQuery) (r := some (s, c)) ⟨h2, ⟨h3.1, h3.2.2⟩, h4⟩
    | none =>
      dsimp only
      cases hn : connectNew o true j st1 with
      | mk r st2 =>
        have h5 := inv_connectNew hP h1 (fun s => by simp [ActOk, hc, hj]) hn
        cases r with
        | none => exact sat_adding (r := none) h5
        | some e =>
          obtain ⟨s, c⟩ := e
          obtain ⟨h6, h7, h8, h9, -⟩ := h5
          exact sat_adding (l := .proxyQuery) (r := some (s, c)) ⟨h6, ⟨h8, n, hc, by omega⟩, h9⟩

theorem sat_connectProxies {held : Nat → Option Conn} (hP : ∀ k s, o.sock k = some s → P s) {n : Nat} (hc : cfg.proxies = some n) {st : St}
    (h : Inv P cfg inc st held) : Sat (Safe P o cfg) (connectProxies o cfg n st) (fun x => Inv P cfg inc x.2 held) := by
  unfold connectProxies
  have h1 := sat_recycle (o := o) (src := .proxyQuery) (n := n) (to := .proxy) (by simp)
    (fun c hf => ⟨by obtain ⟨-, n', h1, h2⟩ := hf; rw [hc] at h1; cases h1; exact h2, ⟨hf.1, rfl, hf.2⟩, rfl⟩) (st.rounds .proxyQuery) h
  cases hr : recycle o .proxyQuery n .proxy (st.rounds .proxyQuery) st with
  | none => rw [hr] at h1; exact h1
  | some st1 =>
    rw [hr] at h1
    exact sat_overAll (fun i hi hs => hs.2 _ i (.inr ⟨n, hc, hi⟩)) (fun j hj st h => sat_proxyOne hP hc hj h) _ (by simp) (inv_tick h1 _) 0

theorem sat_serverOne {held : Nat → Option Conn} (hP : ∀ k s, o.sock k = some s → P s) {i : Nat} (hi : i < cfg.servers) {st : St}
    (h : Inv P cfg inc st held) : Sat (Safe P o cfg) (serverOne o cfg i st) (fun x => Inv P cfg inc x.2 held) := by
  unfold serverOne
  cases hg : getAvailable o cfg.keep (.agent i) (st.rounds (.agent i)) st with
  | mk r st1 =>
    have h1 := inv_getAvailable (by simp) _ h hg
    cases r with
    | some e =>
      obtain ⟨s, c⟩ := e
      obtain ⟨h2, h3, h4, -⟩ := h1
      exact sat_adding (l := .query) (r := some (s, c)) ⟨h2, h3.2, h4⟩
    | none =>
      dsimp only
      cases hc : cfg.proxies with
      | none =>
        dsimp only
        cases hn : connectNew o false i st1 with
        | mk r st2 =>
          have h5 := inv_connectNew hP h1 (fun s => by simp [ActOk, hc, hi]) hn
          cases r with
          | none => exact sat_adding (r := none) h5
          | some e =>
            obtain ⟨s, c⟩ := e
            obtain ⟨h6, h7, h8, h9, -⟩ := h5
            refine sat_adding (l := .query) (r := some (s, c)) ⟨h6, by unfold Fits; omega, ?_⟩
            simp only [stand, hc, h7, h8]
            simpa using h9
      | some n =>
        dsimp only
        have h2 := sat_connectProxies hP hc h1
        cases hcp : connectProxies o cfg n st1 with
        | none => rw [hcp] at h2; exact h2
        | some x =>
          obtain ⟨k, st2⟩ := x
          rw [hcp] at h2
          dsimp only at h2 ⊢
          by_cases hk : 0 < k
          · rw [if_pos hk]
            cases hg2 : getAvailable o cfg.keep .proxyQuery (st2.rounds .proxyQuery) st2 with
            | mk r st3 =>
              have h3 := inv_getAvailable (by simp) _ h2 hg2
              cases r with
              | none => exact h3
              | some e =>
                obtain ⟨s, c⟩ := e
                obtain ⟨h4, h5, h6, -⟩ := h3
                refine sat_adding (l := .query) (r := some (s, { c with index := i })) ⟨h4, hi, ?_⟩
                have h7 := h5.1
                simp only [stand, hc, h7] at h6 ⊢
                simpa using h6
          · rw [if_neg hk]; exact h2

theorem sat_connect {held : Nat → Option Conn} (hP : ∀ k s, o.sock k = some s → P s) {single : Option Nat} (hi : ∀ i, single = some i → i < cfg.servers) {st : St}
    (h : Inv P cfg inc st held) : Sat (Safe P o cfg) (connect o cfg single st) (fun x => Inv P cfg inc x.2 held) := by
  unfold connect
  have h1 := sat_recycle (o := o) (src := .query) (n := cfg.servers) (to := .agent) (by simp) (fun c hf => ⟨hf, ⟨rfl, hf⟩, rfl⟩) (st.rounds .query) h
  cases hr : recycle o .query cfg.servers .agent (st.rounds .query) st with
  | none => rw [hr] at h1; exact h1
  | some st1 =>
    rw [hr] at h1
    dsimp only
    cases single with
    | some i => exact Sat.map (sat_serverOne hP (hi i rfl) (inv_tick h1 _))
    | none => exact sat_overAll (fun i hi hs => hs.2 _ i (.inl hi)) (fun j hj st h => sat_serverOne hP hj h) _ (by simp) (inv_tick h1 _) 0

theorem sat_sendOver {held : Nat → Option Conn} {m : Msg} {s : Nat} {c : Ctx} {st : St} (hf : c.index < cfg.servers) (hs : held s = some (.ready c.index c.queried))
    (h : Inv P cfg inc st held) : Sat (Safe P o cfg) (sendOver o m s c st) (fun x => Inv P cfg inc x (upd held s none)) := by
  unfold sendOver
  dsimp only
  cases hok : o.sendOk st.tick s with
  | true =>
    rw [if_pos rfl]
    have h1 := inv_act (k' := .asked c.index c.queried m) h hs (a := .send s c.index m true) rfl (by simp [Conn.next]) (by simp) hf (st.tick + 1)
    unfold sent
    have h2 := sat_add (o := o) (l := .waiting)
      (c := { c with last := o.time (st.tick + 1), queried := c.queried + 1, qid := m.qid, hash := m.hash, msg := some m.addr }) (inv_tick h1 (st.tick + 1 + 1))
      (upd_same _ _ _) ⟨hf, by simp, by simp⟩
    rwa [upd_upd] at h2
  | false =>
    rw [if_neg (by simp)]
    have h1 := inv_act (k' := .broken) h hs (a := .send s c.index m false) rfl (by simp [Conn.next]) (by simp) hf (st.tick + 1)
    have h2 := inv_close h1 (upd_same _ _ _)
    rwa [upd_upd] at h2

theorem sat_sendOne {held : Nat → Option Conn} {m : Msg} {st : St} (h : Inv P cfg inc st held) :
    Sat (Safe P o cfg) (sendOne o cfg m st) (fun x => Inv P cfg inc x held) := by
  unfold sendOne
  cases hsel : st.select o .query with
  | mk r st1 =>
    cases r with
    | none => exact inv_select_none h hsel
    | some e =>
      obtain ⟨s, c⟩ := e
      obtain ⟨h1, h2, h3, h4⟩ := select_take h hsel (.inl (by simp))
      dsimp only
      by_cases hp : cfg.proxies ≠ none ∧ c.queried = 0
      · rw [if_pos hp]
        have hst : stand cfg .query c = .raw := by simp only [stand, if_pos hp]
        rw [hst] at h3
        cases hok : o.prepOk (st1.del .query s).tick s with
        | true =>
          rw [if_pos rfl]
          have h5 := inv_act (k' := .ready c.index 0) h3 (upd_same _ _ _) (a := .prep s c.index true) rfl (by simp [Conn.next]) (by simp) h2
            ((st1.del .query s).tick + 1)
          have h6 := sat_sendOver (o := o) (m := m) (c := c) h2 (by rw [upd_same, hp.2]) h5
          rw [upd_upd, held_none_upd h1] at h6
          exact h6
        | false =>
          rw [if_neg (by simp)]
          have h5 := inv_act (k' := .broken) h3 (upd_same _ _ _) (a := .prep s c.index false) rfl (by simp [Conn.next]) (by simp) h2
            ((st1.del .query s).tick + 1)
          have h6 := inv_close h5 (upd_same _ _ _)
          rw [upd_upd, held_none_upd h1] at h6
          exact h6
      · rw [if_neg hp]
        have hst : stand cfg .query c = .ready c.index c.queried := by simp only [stand, if_neg hp]
        rw [hst] at h3
        have h6 := sat_sendOver (o := o) (m := m) (c := c) h2 (upd_same _ _ _) h3
        rw [held_none_upd h1] at h6
        exact h6

theorem sat_sendMany {held : Nat → Option Conn} {m : Msg} (k : Nat) {st : St} (h : Inv P cfg inc st held) :
    Sat (Safe P o cfg) (sendMany o cfg m k st) (fun x => Inv P cfg inc x held) := by
  induction k generalizing st with
  | zero => exact h
  | succ k ih =>
    unfold sendMany
    have h1 := sat_sendOne (o := o) (m := m) h
    cases hs : sendOne o cfg m st with
    | none => rw [hs] at h1; exact h1
    | some st1 => rw [hs] at h1; exact ih h1

theorem sat_sendActual {held : Nat → Option Conn} (hP : ∀ k s, o.sock k = some s → P s) {m : Msg} {single : Option Nat} (hi : ∀ i, single = some i → i < cfg.servers)
    {st : St} (h : Inv P cfg inc st held) : Sat (Safe P o cfg) (sendActual o cfg m single st) (fun x => Inv P cfg inc x held) := by
  unfold sendActual
  have h1 := sat_connect hP hi h
  cases hs : connect o cfg single st with
  | none => rw [hs] at h1; exact h1
  | some x =>
    rw [hs] at h1
    obtain ⟨n, st1⟩ := x
    dsimp only at h1 ⊢
    split
    · exact h1
    · exact sat_sendMany _ h1

theorem sat_again {st : St} {held : Nat → Option Conn} (h : Inv P cfg inc st held) :
    Sat (Safe P o cfg) ((st.del .waiting inc).add .waiting inc none) (fun x => Inv P cfg inc x held) := by
  obtain ⟨w, h⟩ := h
  have hw := (h.plain inc .waiting).2 ⟨rfl, rfl⟩
  have hlt := h.small inc ((h.opened inc).2 (.inl (by rw [hw]; simp)))
  cases ha : (st.del .waiting inc).add .waiting inc none with
  | none =>
    intro hs
    unfold St.add at ha
    obtain ⟨p, hp⟩ := ok_add_some (p := (st.del .waiting inc).pools .waiting) (d := none) (hs.1 _ hlt)
    rw [hp] at ha
    cases ha
  | some st' =>
    unfold St.add at ha
    cases hp : ((st.del .waiting inc).pools .waiting).add inc none with
    | none => rw [hp] at ha; cases ha
    | some p =>
      rw [hp] at ha
      cases ha
      refine ⟨w, h.incEq, fun l => ?_, h.inHand, h.fits, h.plain, h.opened, h.followed, h.acts, h.small⟩
      unfold St.set
      dsimp only
      by_cases hl : l = .waiting
      · subst hl
        rw [if_pos rfl]
        simp only [St.del, St.set, if_true] at hp
        refine ok_congr (ok_add (ok_del (h.pools .waiting) inc) (fun e he => he.2 rfl) hp) fun t d => ?_
        by_cases ht : t = inc
        · subst ht
          rw [hw]
          simp [eq_comm]
        · simp [ht]
      · rw [if_neg hl]
        simp only [St.del, St.set, if_neg hl]
        exact h.pools l

theorem retry_index {c : Ctx} {mem : Nat → Option (Nat × Nat)} {m : Msg} (h : retry c mem = some m) :
    c.msg = some m.addr ∧ 1 < c.queried ∧ mem m.addr = some (m.qid, m.hash) ∧ m.qid = c.qid ∧ m.hash = c.hash := by
  unfold retry at h
  split at h
  · cases h
  · rename_i a ha
    split at h
    · rename_i h1
      cases h
      exact ⟨ha, h1.1, h1.2, rfl, rfl⟩
    · cases h

theorem sat_turn {held : Nat → Option Conn} (hP : ∀ k s, o.sock k = some s → P s) {e : Ev} {st : St} (h : Inv P cfg inc st held) :
    Sat (Safe P o cfg) (turn o cfg st e) (fun x => Inv P cfg inc x held) := by
  unfold turn
  cases hsel : st.select o .waiting with
  | mk r st1 =>
    have h0 := inv_select_none h hsel
    have hinc : st1.incoming = inc := by obtain ⟨w, h⟩ := h0; exact h.incEq
    cases r with
    | none => exact h0
    | some x =>
      obtain ⟨s, c⟩ := x
      dsimp only
      by_cases hs : s = st1.incoming
      · rw [if_pos hs]
        have hsi : s = inc := hs.trans hinc
        subst hsi
        cases e.inc with
        | none => exact sat_again h0
        | some m =>
          have h1 := sat_sendActual (m := m) (single := none) hP (by simp) h0
          dsimp only
          cases hx : sendActual o cfg m none st1 with
          | none => rw [hx] at h1; exact h1
          | some st2 => rw [hx] at h1; exact sat_again h1
      · rw [if_neg hs]
        obtain ⟨h1, h2, h3, h4⟩ := select_take h hsel (.inr (by rw [← hinc]; exact hs))
        cases e.res with
        | nothing =>
          dsimp only
          cases retry c e.mem with
          | none =>
            have h6 := inv_close h3 (upd_same _ _ _)
            rw [held_none_upd h1] at h6
            exact h6
          | some m =>
            have h5 := sat_sendActual (m := m) (single := some c.index) hP (fun i hi => by cases hi; exact h2.1) h3
            dsimp only
            cases hx : sendActual o cfg m (some c.index) (st1.del .waiting s) with
            | none => rw [hx] at h5; exact h5
            | some st2 =>
              rw [hx] at h5
              have h6 := inv_close h5 (upd_same _ _ _)
              rw [held_none_upd h1] at h6
              exact h6
        | bad =>
          have h6 := inv_close h3 (upd_same _ _ _)
          rw [held_none_upd h1] at h6
          exact h6
        | whole =>
          dsimp only
          rw [if_pos h2.1]
          have h5 := inv_act (k' := .ready c.index c.queried) h3 (upd_same _ _ _) (a := .got s) rfl
            (by simp only [stand, Conn.next]; rw [Nat.sub_add_cancel h2.2.1]) (by simp) trivial ((st1.del .waiting s).tick + 1)
          have h6 := sat_add (o := o) (l := .agent c.index) (c := { c with last := o.time (st1.del .waiting s).tick, msg := none }) h5
            (by
              rw [upd_same]
              have : ¬ (cfg.proxies ≠ none ∧ c.queried = 0) := fun h => by have := h2.2.1; omega
              simp only [stand, if_neg this]) ⟨rfl, h2.1⟩
          rw [upd_upd, held_none_upd h1] at h6
          exact h6

theorem sat_run {held : Nat → Option Conn} (hP : ∀ k s, o.sock k = some s → P s) (es : List Ev) {st : St} (h : Inv P cfg inc st held) :
    Sat (Safe P o cfg) (run o cfg st es) (fun x => Inv P cfg inc x held) := by
  induction es generalizing st with
  | nil => exact h
  | cons e es ih =>
    unfold run
    have h1 := sat_turn (e := e) hP h
    cases ht : turn o cfg st e with
    | none => rw [ht] at h1; exact h1
    | some st1 => rw [ht] at h1; exact ih h1

theorem inv_init {st : St} (hp : P inc) (h : init inc = some st) : Inv P cfg inc st (fun _ => none) := by
  unfold init St.add at h
  cases ha : (Puller.init : Puller Ctx).add inc none with
  | none => simp only [ha] at h; cases h
  | some p =>
    simp only [ha] at h
    cases h
    have hok := ok_add ok_init (s := inc) (d := none) (fun _ h => h) ha
    refine ⟨fun s => if s = inc then some (.waiting, none) else none, rfl, fun l => ?_, by simp, fun s l c hs => ?_, fun s l => ?_, fun s => ?_, fun s => ?_, by simp [St.set], ?_⟩
    · unfold St.set
      dsimp only
      by_cases hl : l = .waiting
      · subst hl
        rw [if_pos rfl]
        refine ok_congr hok fun t d => ?_
        by_cases ht : t = inc
        · subst ht; simp [eq_comm]
        · simp [ht]
      · rw [if_neg hl]
        refine ok_congr ok_init fun t d => ?_
        by_cases ht : t = inc
        · subst ht; simp; intro h; exact absurd h.symm hl
        · simp [ht]
    · split at hs <;> cases hs
    · by_cases ht : s = inc
      · rw [if_pos ht]; simp [ht, eq_comm]
      · rw [if_neg ht]; simp [ht]
    · by_cases ht : s = inc
      · simp [St.set, ht]
      · simp [St.set, ht]
    · unfold expected
      by_cases ht : s = inc
      · simp [ht]; rfl
      · simp [ht]; rfl
    · intro s hs
      simp only [St.set, List.mem_singleton] at hs
      rw [hs]; exact hp

end

/-! What is written into the log. -/

/-- More has been done, all of it such as `Q` says. -/
def Ext (Q : Act → Prop) (st st' : St) : Prop := ∃ new, st'.log = st.log ++ new ∧ ∀ a ∈ new, Q a

theorem ext_of_eq {Q : Act → Prop} {st st' : St} (h : st'.log = st.log) : Ext Q st st' := ⟨[], by simpa using h, by simp⟩

theorem ext_trans {Q : Act → Prop} {a b c : St} (h : Ext Q a b) (h' : Ext Q b c) : Ext Q a c := by
  obtain ⟨n1, e1, q1⟩ := h
  obtain ⟨n2, e2, q2⟩ := h'
  refine ⟨n1 ++ n2, by rw [e2, e1, List.append_assoc], fun a ha => ?_⟩
  rcases List.mem_append.1 ha with ha | ha
  · exact q1 a ha
  · exact q2 a ha

/-- Nothing is sent. -/
def Quiet : Act → Prop
  | .send _ _ _ _ => False
  | _ => True

theorem add_log {st st' : St} {l : Loc} {s : Nat} {d : Option Ctx} (h : st.add l s d = some st') : st'.log = st.log := by
  unfold St.add at h
  cases hp : (st.pools l).add s d with
  | none => rw [hp] at h; cases h
  | some p => rw [hp] at h; cases h; rfl

theorem select_log {o : Oracle} {st st' : St} {l : Loc} {r : Option (Nat × Ctx)} (h : st.select o l = (r, st')) : st'.log = st.log := by
  unfold St.select at h
  injection h with _ h
  rw [← h]

theorem recycle_log {o : Oracle} {src : Loc} {n : Nat} {to : Nat → Loc} (k : Nat) {st st' : St} (h : recycle o src n to k st = some st') : st'.log = st.log := by
  induction k generalizing st with
  | zero => cases h; rfl
  | succ k ih =>
    unfold recycle at h
    cases hs : st.select o src with
    | mk r st1 =>
      have h0 := select_log hs
      rw [hs] at h
      cases r with
      | none => cases h; exact h0
      | some e =>
        obtain ⟨s, c⟩ := e
        dsimp only at h
        split at h
        · cases ha : (st1.del src s).add (to c.index) s (some c) with
          | none => rw [ha] at h; cases h
          | some st2 => rw [ha] at h; exact (ih h).trans ((add_log ha).trans h0)
        · cases h

theorem getAvailable_ext {o : Oracle} {keep : Int} {l : Loc} (k : Nat) {st st' : St} {r : Option (Nat × Ctx)} (h : getAvailable o keep l k st = (r, st')) :
    Ext (fun a => ∃ s, a = .close s) st st' := by
  induction k generalizing st with
  | zero => cases h; exact ext_of_eq rfl
  | succ k ih =>
    unfold getAvailable at h
    cases hs : st.select o l with
    | mk r1 st1 =>
      have h0 := select_log hs
      rw [hs] at h
      cases r1 with
      | none => cases h; exact ext_of_eq h0
      | some e =>
        obtain ⟨s, c⟩ := e
        dsimp only at h
        split at h
        · refine ext_trans ⟨[.close s], ?_, by simp⟩ (ih h)
          show st1.log ++ _ = _
          rw [h0]
        · cases h
          exact ext_of_eq h0

theorem ext_mono {Q Q' : Act → Prop} {a b : St} (h : Ext Q a b) (hq : ∀ x, Q x → Q' x) : Ext Q' a b := by
  obtain ⟨n, h1, h2⟩ := h
  exact ⟨n, h1, fun x hx => hq x (h2 x hx)⟩

theorem quiet_close (x : Act) (h : ∃ s, x = .close s) : Quiet x := by obtain ⟨s, rfl⟩ := h; trivial

theorem connectNew_ext {o : Oracle} {v : Bool} {i : Nat} {st st' : St} {r : Option (Nat × Ctx)} (h : connectNew o v i st = (r, st')) : Ext Quiet st st' := by
  unfold connectNew at h
  split at h
  · cases h; exact ext_of_eq rfl
  · split at h
    · cases h; exact ext_of_eq rfl
    · cases h
      exact ⟨[.conn _ v i], rfl, by simp [Quiet]⟩

theorem adding_log {l : Loc} {r : Option (Nat × Ctx)} {st st' : St} {b : Bool} (h : adding l (r, st) = some (b, st')) : st'.log = st.log := by
  unfold adding at h
  cases r with
  | none => cases h; rfl
  | some e =>
    obtain ⟨s, c⟩ := e
    dsimp only at h
    cases ha : st.add l s (some c) with
    | none => rw [ha] at h; cases h
    | some st1 => rw [ha] at h; cases h; exact add_log ha

theorem overAll_ext {Q : Act → Prop} {one : Nat → St → Option (Bool × St)} {n shift : Nat} (ho : ∀ i st b st', one i st = some (b, st') → Ext Q st st') (is : List Nat)
    {k k' : Nat} {st st' : St} (h : overAll one n shift is (k, st) = some (k', st')) : Ext Q st st' := by
  induction is generalizing st k with
  | nil => cases h; exact ext_of_eq rfl
  | cons i is ih =>
    unfold overAll at h
    split at h
    · cases h
    · cases h1 : one ((shift + i) % n) st with
      | none => rw [h1] at h; cases h
      | some r =>
        obtain ⟨b, st1⟩ := r
        rw [h1] at h
        exact ext_trans (ho _ _ _ _ h1) (ih h)

theorem proxyOne_ext {o : Oracle} {cfg : Cfg} {j : Nat} {st st' : St} {b : Bool} (h : proxyOne o cfg j st = some (b, st')) : Ext Quiet st st' := by
  unfold proxyOne at h
  cases hg : getAvailable o cfg.keep (.proxy j) (st.rounds (.proxy j)) st with
  | mk r st1 =>
    rw [hg] at h
    have h0 := ext_mono (getAvailable_ext _ hg) quiet_close
    cases r with
    | some e => exact ext_trans h0 (ext_of_eq (adding_log h))
    | none =>
      dsimp only at h
      cases hc : connectNew o true j st1 with
      | mk r2 st2 => rw [hc] at h; exact ext_trans h0 (ext_trans (connectNew_ext hc) (ext_of_eq (adding_log h)))

theorem connectProxies_ext {o : Oracle} {cfg : Cfg} {n k : Nat} {st st' : St} (h : connectProxies o cfg n st = some (k, st')) : Ext Quiet st st' := by
  unfold connectProxies at h
  cases hr : recycle o .proxyQuery n .proxy (st.rounds .proxyQuery) st with
  | none => rw [hr] at h; cases h
  | some st1 =>
    rw [hr] at h
    have h1 := overAll_ext (Q := Quiet) (fun i st b st' h => proxyOne_ext h) _ h
    exact ext_trans (ext_of_eq (recycle_log _ hr)) h1

theorem serverOne_ext {o : Oracle} {cfg : Cfg} {i : Nat} {st st' : St} {b : Bool} (h : serverOne o cfg i st = some (b, st')) : Ext Quiet st st' := by
  unfold serverOne at h
  cases hg : getAvailable o cfg.keep (.agent i) (st.rounds (.agent i)) st with
  | mk r st1 =>
    rw [hg] at h
    have h0 := ext_mono (getAvailable_ext _ hg) quiet_close
    refine ext_trans h0 ?_
    cases r with
    | some e => exact ext_of_eq (adding_log h)
    | none =>
      dsimp only at h
      cases hc : cfg.proxies with
      | none =>
        rw [hc] at h
        dsimp only at h
        cases hn : connectNew o false i st1 with
        | mk r2 st2 => rw [hn] at h; exact ext_trans (connectNew_ext hn) (ext_of_eq (adding_log h))
      | some n =>
        rw [hc] at h
        dsimp only at h
        cases hp : connectProxies o cfg n st1 with
        | none => rw [hp] at h; cases h
        | some x =>
          obtain ⟨k, st2⟩ := x
          rw [hp] at h
          refine ext_trans (connectProxies_ext hp) ?_
          dsimp only at h
          split at h
          · cases hg2 : getAvailable o cfg.keep .proxyQuery (st2.rounds .proxyQuery) st2 with
            | mk r2 st3 =>
              rw [hg2] at h
              refine ext_trans (ext_mono (getAvailable_ext _ hg2) quiet_close) ?_
              cases r2 with
              | none => cases h; exact ext_of_eq rfl
              | some e => exact ext_of_eq (adding_log h)
          · cases h; exact ext_of_eq rfl

theorem connect_ext {o : Oracle} {cfg : Cfg} {single : Option Nat} {k : Nat} {st st' : St} (h : connect o cfg single st = some (k, st')) : Ext Quiet st st' := by
  unfold connect at h
  cases hr : recycle o .query cfg.servers .agent (st.rounds .query) st with
  | none => rw [hr] at h; cases h
  | some st1 =>
    rw [hr] at h
    refine ext_trans (ext_of_eq (recycle_log _ hr)) ?_
    cases single with
    | none =>
      have h1 := overAll_ext (Q := Quiet) (fun i st b st' h => serverOne_ext h) _ h
      exact h1
    | some i =>
      dsimp only at h
      cases hs : serverOne o cfg i { st1 with tick := st1.tick + 1 } with
      | none => rw [hs] at h; cases h
      | some x => obtain ⟨b, st2⟩ := x; rw [hs] at h; cases h; exact serverOne_ext (st := { st1 with tick := st1.tick + 1 }) hs

/-- Nothing but this query is sent. -/
def About (m : Msg) : Act → Prop
  | .send _ _ m' _ => m' = m
  | _ => True

theorem quiet_about {m : Msg} (x : Act) (h : Quiet x) : About m x := by
  cases x <;> first | trivial | exact h.elim

theorem sends_append (a b : List Act) : sends (a ++ b) = sends a + sends b := List.countP_append

theorem sends_quiet {l : List Act} (h : ∀ a ∈ l, Quiet a) : sends l = 0 := by
  unfold sends
  rw [List.countP_eq_zero]
  intro a ha
  have := h a ha
  cases a <;> simp_all [isSend, Quiet]

/-- This query is sent, at most so often. -/
def Sent (m : Msg) (k : Nat) (st st' : St) : Prop := ∃ new, st'.log = st.log ++ new ∧ sends new ≤ k ∧ ∀ a ∈ new, About m a

theorem sent_trans {m : Msg} {j k : Nat} {a b c : St} (h : Sent m j a b) (h' : Sent m k b c) : Sent m (j + k) a c := by
  obtain ⟨n1, e1, s1, q1⟩ := h
  obtain ⟨n2, e2, s2, q2⟩ := h'
  refine ⟨n1 ++ n2, by rw [e2, e1, List.append_assoc], by rw [sends_append]; omega, fun a ha => ?_⟩
  rcases List.mem_append.1 ha with ha | ha
  · exact q1 a ha
  · exact q2 a ha

theorem sent_quiet {m : Msg} {a b : St} (h : Ext Quiet a b) : Sent m 0 a b := by
  obtain ⟨n, h1, h2⟩ := h
  exact ⟨n, h1, by rw [sends_quiet h2]; exact Nat.le_refl 0, fun x hx => quiet_about x (h2 x hx)⟩

theorem sent_le {m : Msg} {j k : Nat} {a b : St} (h : Sent m j a b) (hk : j ≤ k) : Sent m k a b := by
  obtain ⟨n, h1, h2, h3⟩ := h
  exact ⟨n, h1, by omega, h3⟩

theorem sendOver_sent {o : Oracle} {m : Msg} {s : Nat} {c : Ctx} {st st' : St} (h : sendOver o m s c st = some st') : Sent m 1 st st' := by
  unfold sendOver at h
  dsimp only at h
  split at h
  · rename_i hok
    unfold sent at h
    have h1 := add_log h
    exact ⟨[.send s c.index m (o.sendOk st.tick s)], h1, by unfold sends; rw [List.countP_cons]; split <;> simp, by simp [About]⟩
  · rename_i hok
    cases h
    refine ⟨[.send s c.index m (o.sendOk st.tick s), .close s], by simp [St.close], ?_, by simp [About]⟩
    simp [sends, isSend, hok]

theorem sendOne_sent {o : Oracle} {cfg : Cfg} {m : Msg} {st st' : St} (h : sendOne o cfg m st = some st') : Sent m 1 st st' := by
  unfold sendOne at h
  cases hs : st.select o .query with
  | mk r st1 =>
    have h0 := select_log hs
    rw [hs] at h
    cases r with
    | none => cases h; exact sent_le (sent_quiet (ext_of_eq h0)) (by omega)
    | some e =>
      obtain ⟨s, c⟩ := e
      dsimp only at h
      have hq : ∀ b, Ext Quiet st { (st1.del .query s) with tick := (st1.del .query s).tick + 1, log := (st1.del .query s).log ++ [.prep s c.index b] } :=
        fun b => ⟨[.prep s c.index b], by show st1.log ++ _ = _; rw [h0], by simp [Quiet]⟩
      split at h
      · split at h
        · exact sent_le (sent_trans (sent_quiet (hq _)) (sendOver_sent h)) (by omega)
        · cases h
          refine sent_le (sent_quiet (ext_trans (hq _) ⟨[.close s], rfl, by simp [Quiet]⟩)) (by omega)
      · exact sent_le (sent_trans (sent_quiet (a := st) (b := st1.del .query s) (ext_of_eq h0)) (sendOver_sent h)) (by omega)

theorem sendMany_sent {o : Oracle} {cfg : Cfg} {m : Msg} (k : Nat) {st st' : St} (h : sendMany o cfg m k st = some st') : Sent m k st st' := by
  induction k generalizing st with
  | zero => cases h; exact sent_quiet (ext_of_eq rfl)
  | succ k ih =>
    unfold sendMany at h
    cases hs : sendOne o cfg m st with
    | none => rw [hs] at h; cases h
    | some st1 => rw [hs] at h; exact sent_le (sent_trans (sendOne_sent hs) (ih h)) (by omega)

theorem sendActual_sent {o : Oracle} {cfg : Cfg} {m : Msg} {single : Option Nat} {st st' : St} (h : sendActual o cfg m single st = some st') :
    Sent m (if single = none ∧ cfg.parallel = true then cfg.servers else 1) st st' := by
  unfold sendActual at h
  cases hc : connect o cfg single st with
  | none => rw [hc] at h; cases h
  | some x =>
    obtain ⟨n, st1⟩ := x
    rw [hc] at h
    have h1 := sent_quiet (m := m) (connect_ext hc)
    dsimp only at h
    split at h
    · cases h; exact sent_le h1 (Nat.zero_le _)
    · exact sent_le (sent_trans h1 (sendMany_sent _ h)) (by omega)

/-! That a query is sent at all. -/

/-- The set has a member. -/
def Has (st : St) (l : Loc) (s : Nat) : Prop := ∃ d, (s, d) ∈ contents (st.pools l).pool

theorem add_pools {st st' : St} {l : Loc} {s : Nat} {d : Option Ctx} (h : st.add l s d = some st') :
    Has st' l s ∧ (∀ l' t, Has st l' t → Has st' l' t) ∧ st'.tick = st.tick := by
  unfold St.add at h
  cases hp : (st.pools l).add s d with
  | none => rw [hp] at h; cases h
  | some p =>
    rw [hp] at h
    cases h
    unfold Puller.add at hp
    split at hp
    · cases hp
    · cases hp
      have hm := fun e => (add_contents (st.pools l).pool s d).mem_iff (a := e)
      refine ⟨⟨d, ?_⟩, fun l' t ht => ?_, rfl⟩
      · simp only [St.set, if_true]
        exact (hm _).2 List.mem_cons_self
      · obtain ⟨d', ht⟩ := ht
        refine ⟨d', ?_⟩
        by_cases hl : l' = l
        · subst hl
          simp only [St.set, if_true]
          exact (hm _).2 (List.mem_cons_of_mem _ ht)
        · simp only [St.set, if_neg hl]
          exact ht

theorem select_pools {o : Oracle} {st st' : St} {l : Loc} {r : Option (Nat × Ctx)} (h : st.select o l = (r, st')) : st'.pools = st.pools ∧ st'.tick = st.tick + 1 := by
  unfold St.select at h
  injection h with _ h
  rw [← h]
  exact ⟨rfl, rfl⟩

theorem getAvailable_pools {o : Oracle} {keep : Int} {l : Loc} (k : Nat) {st st' : St} {r : Option (Nat × Ctx)} (h : getAvailable o keep l k st = (r, st')) :
    (∀ l', l' ≠ l → st'.pools l' = st.pools l') ∧ st.tick ≤ st'.tick := by
  induction k generalizing st with
  | zero => cases h; exact ⟨fun _ _ => rfl, Nat.le_refl _⟩
  | succ k ih =>
    unfold getAvailable at h
    cases hs : st.select o l with
    | mk r1 st1 =>
      obtain ⟨h0, h1⟩ := select_pools hs
      rw [hs] at h
      cases r1 with
      | none => cases h; exact ⟨fun _ _ => by rw [h0], by omega⟩
      | some e =>
        obtain ⟨s, c⟩ := e
        dsimp only at h
        have hd : ∀ l', l' ≠ l → (st1.del l s).pools l' = st.pools l' := fun l' hl => by
          simp only [St.del, St.set, if_neg hl, h0]
        have ht : (st1.del l s).tick = st1.tick := rfl
        split at h
        · obtain ⟨i1, i2⟩ := ih h
          exact ⟨fun l' hl => (i1 l' hl).trans (hd l' hl), by simp only [St.close] at i2; omega⟩
        · cases h
          exact ⟨hd, by dsimp only; omega⟩

/-- A connection that is there, ready, and not closed is found. -/
theorem getAvailable_found {P : Nat → Prop} {inc : Nat} {o : Oracle} {cfg : Cfg} {keep : Int} {l : Loc} (k : Nat) {st st' : St} {r : Option (Nat × Ctx)} {held : Nat → Option Conn}
    (hinv : Inv P cfg inc st held) (h : getAvailable o keep l (k + 1) st = (r, st')) {s : Nat} (hs : Has st l s) (hr : o.ready st.tick s = true) :
    (∃ t, .close t ∈ st'.log.drop st.log.length) ∨ r ≠ none := by
  unfold getAvailable at h
  cases hsel : st.select o l with
  | mk r1 st1 =>
    have h0 := select_log hsel
    rw [hsel] at h
    cases r1 with
    | none =>
      exfalso
      obtain ⟨w, hw⟩ := hinv
      obtain ⟨d, hd⟩ := hs
      obtain ⟨m, g1, g2, -⟩ := hw.pools l
      unfold St.select at hsel
      injection hsel with hsel _
      have := ok_select_none (hw.pools l) (by simpa using hsel) ((g2 s d).1 (g1.perm.mem_iff.1 hd))
      rw [hr] at this
      cases this
    | some e =>
      obtain ⟨t, c⟩ := e
      dsimp only at h
      split at h
      · left
        obtain ⟨new, e1, -⟩ := getAvailable_ext _ h
        have e1 : st'.log = (st1.log ++ [Act.close t]) ++ new := e1
        rw [h0] at e1
        refine ⟨t, ?_⟩
        rw [e1, List.append_assoc, List.drop_left]
        simp
      · right
        cases h
        simp

theorem adding_pools {l : Loc} {r : Option (Nat × Ctx)} {st st' : St} {b : Bool} (h : adding l (r, st) = some (b, st')) :
    (∀ l' t, Has st l' t → Has st' l' t) ∧ st'.tick = st.tick ∧ (b = true → ∃ t, Has st' l t) ∧ (r ≠ none → b = true) := by
  unfold adding at h
  cases r with
  | none => cases h; exact ⟨fun _ _ h => h, rfl, by simp, by simp⟩
  | some e =>
    obtain ⟨s, c⟩ := e
    dsimp only at h
    cases ha : st.add l s (some c) with
    | none => rw [ha] at h; cases h
    | some st1 =>
      rw [ha] at h
      cases h
      obtain ⟨a1, a2, a3⟩ := add_pools ha
      exact ⟨a2, a3, fun _ => ⟨s, a1⟩, by simp⟩

theorem connectNew_pools {o : Oracle} {v : Bool} {i : Nat} {st st' : St} {r : Option (Nat × Ctx)} (h : connectNew o v i st = (r, st')) :
    st'.pools = st.pools ∧ st.tick ≤ st'.tick ∧ (r = none → st'.log = st.log) := by
  unfold connectNew at h
  split at h
  · cases h; exact ⟨rfl, by dsimp only; omega, fun _ => rfl⟩
  · split at h
    · cases h; exact ⟨rfl, by dsimp only; omega, fun _ => rfl⟩
    · cases h
      exact ⟨rfl, by dsimp only; omega, by simp⟩

/-- What one round does, if there are no proxies. -/
structure Round (i : Nat) (st st' : St) (b : Bool) : Prop where
  others : ∀ l t, l ≠ .agent i → Has st l t → Has st' l t
  later : st.tick ≤ st'.tick
  added : b = true → ∃ t, Has st' .query t
  begun : (∃ s v j, .conn s v j ∈ st'.log.drop st.log.length) → b = true

theorem serverOne_round {o : Oracle} {cfg : Cfg} (hc : cfg.proxies = none) {i : Nat} {st st' : St} {b : Bool} (h : serverOne o cfg i st = some (b, st')) :
    Round i st st' b := by
  unfold serverOne at h
  cases hg : getAvailable o cfg.keep (.agent i) (st.rounds (.agent i)) st with
  | mk r st1 =>
    rw [hg] at h
    obtain ⟨g1, g2⟩ := getAvailable_pools _ hg
    obtain ⟨new, e1, e2⟩ := getAvailable_ext _ hg
    have hHas : ∀ l t, l ≠ .agent i → Has st l t → Has st1 l t := fun l t hl ht => by unfold Has at ht ⊢; rw [g1 l hl]; exact ht
    cases r with
    | some e =>
      obtain ⟨a1, a2, a3, a4⟩ := adding_pools h
      exact ⟨fun l t hl ht => a1 l t (hHas l t hl ht), by omega, a3, fun _ => a4 (by simp)⟩
    | none =>
      dsimp only at h
      rw [hc] at h
      dsimp only at h
      cases hn : connectNew o false i st1 with
      | mk r2 st2 =>
        rw [hn] at h
        obtain ⟨n1, n2, n3⟩ := connectNew_pools hn
        obtain ⟨a1, a2, a3, a4⟩ := adding_pools h
        refine ⟨fun l t hl ht => a1 l t (by unfold Has; rw [n1]; exact hHas l t hl ht), by omega, a3, fun hb => ?_⟩
        cases r2 with
        | some e => exact a4 (by simp)
        | none =>
          exfalso
          obtain ⟨s, v, j, hb⟩ := hb
          rw [adding_log h, n3 rfl, e1, List.drop_left] at hb
          obtain ⟨t, ht⟩ := e2 _ hb
          cases ht

theorem serverOne_found {P : Nat → Prop} {inc : Nat} {o : Oracle} {cfg : Cfg} (hc : cfg.proxies = none) {i : Nat} {st st' : St} {b : Bool} {held : Nat → Option Conn}
    (hinv : Inv P cfg inc st held) (h : serverOne o cfg i st = some (b, st')) {s : Nat} (hs : Has st (.agent i) s) (hr : o.ready st.tick s = true) :
    (∃ t, .close t ∈ st'.log.drop st.log.length) ∨ b = true := by
  unfold serverOne at h
  cases hg : getAvailable o cfg.keep (.agent i) (st.rounds (.agent i)) st with
  | mk r st1 =>
    rw [hg] at h
    have hf := getAvailable_found _ hinv hg hs hr
    cases r with
    | some e =>
      obtain ⟨a1, a2, a3, a4⟩ := adding_pools h
      exact .inr (a4 (by simp))
    | none =>
      left
      rcases hf with hf | hf
      · dsimp only at h
        rw [hc] at h
        dsimp only at h
        cases hn : connectNew o false i st1 with
        | mk r2 st2 =>
          rw [hn] at h
          obtain ⟨t, ht⟩ := hf
          obtain ⟨n1, e1, -⟩ := getAvailable_ext _ hg
          obtain ⟨n2, e2, -⟩ := connectNew_ext hn
          refine ⟨t, ?_⟩
          rw [e1, List.drop_left] at ht
          rw [adding_log h, e2, e1, List.append_assoc, List.drop_left]
          exact List.mem_append_left _ ht
      · exact absurd rfl hf

theorem mem_drop_of_ext {a b c : St} {x : Act} {Q Q' : Act → Prop} (h1 : Ext Q a b) (h2 : Ext Q' b c) :
    x ∈ c.log.drop a.log.length ↔ x ∈ b.log.drop a.log.length ∨ x ∈ c.log.drop b.log.length := by
  obtain ⟨n1, e1, -⟩ := h1
  obtain ⟨n2, e2, -⟩ := h2
  rw [e2, e1, List.append_assoc, List.drop_left, List.drop_left, ← List.append_assoc, List.drop_left, List.mem_append]

theorem overAll_rounds {o : Oracle} {cfg : Cfg} (hc : cfg.proxies = none) {n shift : Nat} (is : List Nat) {k k' : Nat} {st st' : St}
    (h : overAll (serverOne o cfg) n shift is (k, st) = some (k', st')) :
    k ≤ k' ∧ st.tick ≤ st'.tick ∧ (∀ t, Has st .query t → Has st' .query t) ∧ (k < k' → ∃ t, Has st' .query t) ∧
      ((∃ s v j, .conn s v j ∈ st'.log.drop st.log.length) → k < k') := by
  induction is generalizing st k with
  | nil =>
    cases h
    refine ⟨Nat.le_refl _, Nat.le_refl _, fun _ h => h, fun h => absurd h (Nat.lt_irrefl _), ?_⟩
    rintro ⟨s, v, j, h⟩
    simp at h
  | cons i is ih =>
    unfold overAll at h
    split at h
    · cases h
    · cases h1 : serverOne o cfg ((shift + i) % n) st with
      | none => rw [h1] at h; cases h
      | some r =>
        obtain ⟨b, st1⟩ := r
        rw [h1] at h
        have hr := serverOne_round hc h1
        obtain ⟨i1, i2, i3, i4, i5⟩ := ih h
        have hk : k ≤ if b = true then k + 1 else k := by split <;> omega
        refine ⟨by omega, Nat.le_trans hr.later i2, fun t ht => i3 t (hr.others _ t (by simp) ht), fun hlt => ?_, fun hx => ?_⟩
        · by_cases hb : b = true
          · obtain ⟨t, ht⟩ := hr.added hb
            exact ⟨t, i3 t ht⟩
          · rw [if_neg hb] at i4; exact i4 hlt
        · obtain ⟨s, v, j, hx⟩ := hx
          have h2 := overAll_ext (Q := Quiet) (fun i st b st' h => serverOne_ext h) _ h
          rcases (mem_drop_of_ext (serverOne_ext h1) h2).1 hx with hx | hx
          · have := hr.begun ⟨s, v, j, hx⟩
            rw [if_pos this] at i1
            omega
          · have := i5 ⟨s, v, j, hx⟩
            omega

theorem overAll_found {P : Nat → Prop} {inc : Nat} {o : Oracle} {cfg : Cfg} {held : Nat → Option Conn} (hP : ∀ k s, o.sock k = some s → P s) (hc : cfg.proxies = none)
    {shift : Nat} (is : List Nat) {k k' : Nat} {st st' : St} {s i : Nat} (hi : i < cfg.servers) (his : ∃ j ∈ is, (shift + j) % cfg.servers = i) (hs : Has st (.agent i) s)
    (hr : ∀ t, st.tick ≤ t → o.ready t s = true) (hinv : Inv P cfg inc st held)
    (h : overAll (serverOne o cfg) cfg.servers shift is (k, st) = some (k', st')) :
    (∃ t, .close t ∈ st'.log.drop st.log.length) ∨ k < k' := by
  induction is generalizing st k with
  | nil => obtain ⟨j, hj, -⟩ := his; cases hj
  | cons j is ih =>
    unfold overAll at h
    split at h
    · cases h
    · cases h1 : serverOne o cfg ((shift + j) % cfg.servers) st with
      | none => rw [h1] at h; cases h
      | some r =>
        obtain ⟨b, st1⟩ := r
        rw [h1] at h
        have hrd := serverOne_round hc h1
        obtain ⟨r1, -⟩ := overAll_rounds hc _ h
        have h2 := overAll_ext (Q := Quiet) (fun i st b st' h => serverOne_ext h) _ h
        have hk : k ≤ if b = true then k + 1 else k := by split <;> omega
        by_cases hij : (shift + j) % cfg.servers = i
        · rcases serverOne_found hc hinv h1 (by rw [hij]; exact hs) (hr _ (Nat.le_refl _)) with ⟨t, ht⟩ | hb
          · exact .inl ⟨t, (mem_drop_of_ext (serverOne_ext h1) h2).2 (.inl ht)⟩
          · rw [if_pos hb] at r1
            exact .inr (by omega)
        · have hinv1 := sat_serverOne hP (Nat.mod_lt (shift + j) (Nat.lt_of_le_of_lt (Nat.zero_le _) hi)) hinv
          rw [h1] at hinv1
          obtain ⟨j', hj', hj2⟩ := his
          rcases List.mem_cons.1 hj' with rfl | hj'
          · exact absurd hj2 hij
          · rcases ih ⟨j', hj', hj2⟩ (hrd.others _ _ (fun e => hij (by injection e with e; exact e.symm)) hs) (fun t ht => hr t (Nat.le_trans hrd.later ht)) hinv1 h with ⟨t, ht⟩ | hlt
            · exact .inl ⟨t, (mem_drop_of_ext (serverOne_ext h1) h2).2 (.inr ht)⟩
            · exact .inr (by omega)

theorem has_iff {P : Nat → Prop} {cfg : Cfg} {inc : Nat} {st : St} {w : Where} {held : Nat → Option Conn} (h : InvW P cfg inc st w held) (l : Loc) (s : Nat) :
    Has st l s ↔ ∃ d, w s = some (l, d) := by
  obtain ⟨m, g1, g2, -⟩ := h.pools l
  exact ⟨fun ⟨d, hd⟩ => ⟨d, (g2 s d).1 (g1.perm.mem_iff.1 hd)⟩, fun ⟨d, hd⟩ => ⟨d, g1.perm.mem_iff.2 ((g2 s d).2 hd)⟩⟩

/-- Every server comes up in the loop. -/
theorem rotation {n shift i : Nat} (hi : i < n) : ∃ j ∈ List.range n, (shift + j) % n = i := by
  refine ⟨(i + (n - shift % n)) % n, List.mem_range.2 (Nat.mod_lt _ (by omega)), ?_⟩
  have h1 := Nat.mod_lt shift (show 0 < n by omega)
  rw [Nat.add_mod, Nat.mod_mod]
  by_cases h : i + (n - shift % n) < n
  · rw [Nat.mod_eq_of_lt h, show shift % n + (i + (n - shift % n)) = i + n by omega, Nat.add_mod_right, Nat.mod_eq_of_lt hi]
  · rw [Nat.mod_eq_sub_mod (show n ≤ i + (n - shift % n) by omega), Nat.mod_eq_of_lt (show i + (n - shift % n) - n < n by omega)]
    rw [show shift % n + (i + (n - shift % n) - n) = i by omega, Nat.mod_eq_of_lt hi]

theorem contents_del {p : Puller Ctx} {m : List (Nat × Option Ctx)} (h : Holds p m) {s : Nat} (hs : s ∈ m.map (·.1)) :
    (contents (p.del s).pool).length < (contents p.pool).length := by
  rw [(holds_del h s).perm.length_eq, h.perm.length_eq]
  obtain ⟨e, he, rfl⟩ := List.mem_map.1 hs
  exact List.length_filter_lt_length_iff_exists.2 ⟨e, he, by simp⟩

/-- If all are ready, none is left. -/
theorem recycle_all {P : Nat → Prop} {inc : Nat} {o : Oracle} {cfg : Cfg} {held : Nat → Option Conn} (k : Nat) {st st' : St}
    (hinv : Inv P cfg inc st held) (hr : ∀ t s, st.tick ≤ t → o.ready t s = true) (hk : (contents (st.pools .query).pool).length < k)
    (h : recycle o .query cfg.servers .agent k st = some st') : (∀ s, ¬ Has st' .query s) ∧ st.tick ≤ st'.tick := by
  induction k generalizing st with
  | zero => omega
  | succ k ih =>
    unfold recycle at h
    cases hsel : st.select o .query with
    | mk r st1 =>
      rw [hsel] at h
      obtain ⟨p1, p2⟩ := select_pools hsel
      cases r with
      | none =>
        cases h
        refine ⟨fun s hs => ?_, by omega⟩
        obtain ⟨w, hw⟩ := hinv
        unfold St.select at hsel
        injection hsel with hsel _
        have hs : Has st .query s := by unfold Has at hs ⊢; rw [p1] at hs; exact hs
        obtain ⟨d, hd⟩ := (has_iff hw .query s).1 hs
        have := ok_select_none (hw.pools .query) (by simpa using hsel) hd
        rw [hr _ _ (Nat.le_refl _)] at this
        cases this
      | some e =>
        obtain ⟨s, c⟩ := e
        have hmem : s ∈ (contents (st.pools .query).pool).map (·.1) := by
          obtain ⟨w, hw⟩ := hinv
          obtain ⟨-, -, hx⟩ := select_w hw hsel
          have : Has st .query s := (has_iff hw .query s).2 (by rcases hx with hx | ⟨hx, -⟩ <;> exact ⟨_, hx⟩)
          obtain ⟨d, hd⟩ := this
          exact List.mem_map_of_mem (f := (·.1)) hd
        obtain ⟨h1, h2, h3, h4⟩ := select_take hinv hsel (.inl (by simp))
        dsimp only at h
        rw [if_pos (show c.index < cfg.servers from h2)] at h
        have h5 := sat_add (o := o) (l := .agent c.index) (c := c) h3 (upd_same _ _ _) ⟨rfl, h2⟩
        rw [held_none_upd h1] at h5
        cases ha : (st1.del .query s).add (.agent c.index) s (some c) with
        | none => rw [ha] at h; cases h
        | some st2 =>
          rw [ha] at h h5
          obtain ⟨-, -, t3⟩ := add_pools ha
          have t3 : st2.tick = st1.tick := t3
          have hlen : (contents (st2.pools .query).pool).length < k := by
            have he : st2.pools .query = (st.pools .query).del s := by
              unfold St.add at ha
              cases hp : ((st1.del .query s).pools (.agent c.index)).add s (some c) with
              | none => rw [hp] at ha; cases ha
              | some p => rw [hp] at ha; cases ha; simp [St.set, St.del, p1]
            rw [he]
            obtain ⟨w, hw⟩ := hinv
            obtain ⟨m, g1, -, -⟩ := hw.pools .query
            have := contents_del g1 (s := s) ((g1.perm.map (·.1)).mem_iff.1 hmem)
            omega
          obtain ⟨i1, i2⟩ := ih h5 (fun t s ht => hr t s (by omega)) hlen h
          exact ⟨i1, by omega⟩

theorem connect_has {P : Nat → Prop} {inc : Nat} {o : Oracle} {cfg : Cfg} {held : Nat → Option Conn} (hP : ∀ k s, o.sock k = some s → P s) (hc : cfg.proxies = none)
    {st st' : St} {k : Nat} (hinv : Inv P cfg inc st held) (hh : ∀ s, held s = none) (hr : ∀ t s, st.tick ≤ t → o.ready t s = true) (h : connect o cfg none st = some (k, st'))
    (hat : (∃ s i n, follow st.log s = some (.ready i (n + 1)) ∧ ∀ t, .close t ∉ st'.log.drop st.log.length) ∨ ∃ s v j, .conn s v j ∈ st'.log.drop st.log.length) :
    0 < k ∧ (∃ t, Has st' .query t) ∧ st.tick ≤ st'.tick := by
  unfold connect at h
  have hinv1 := sat_recycle (o := o) (src := .query) (n := cfg.servers) (to := .agent) (by simp) (fun c hf => ⟨hf, ⟨rfl, hf⟩, rfl⟩) (st.rounds .query) hinv
  cases hrec : recycle o .query cfg.servers .agent (st.rounds .query) st with
  | none => rw [hrec] at h; cases h
  | some st1 =>
    rw [hrec] at h hinv1
    have hlog := recycle_log _ hrec
    obtain ⟨e1, e2⟩ := recycle_all _ hinv hr (by
      unfold St.rounds contents
      rw [List.length_map, (Bst.Tree.preorder_perm _).length_eq]
      omega) hrec
    dsimp only at h
    obtain ⟨r1, r2, r3, r4, r5⟩ := overAll_rounds hc _ h
    dsimp only at r2
    have hk : 0 < k := by
      rcases hat with ⟨s, i, n, hf, hcl⟩ | ⟨s, v, j, hx⟩
      · have hinv2 := hinv1
        obtain ⟨w, hw⟩ := hinv1
        rw [← hlog, hw.followed s] at hf
        unfold expected at hf
        cases hws : w s with
        | none => rw [hws, hh s] at hf; simp at hf
        | some x =>
          obtain ⟨l, d⟩ := x
          rw [hws] at hf
          cases d with
          | none => simp at hf
          | some c =>
            have hfit := (hw.fits s l c hws).1
            have hagent : l = .agent i ∧ i < cfg.servers := by
              cases l with
              | waiting => simp [stand] at hf
              | query => exact absurd ((has_iff hw .query s).2 ⟨_, hws⟩) (e1 s)
              | proxyQuery => simp [stand] at hf
              | proxy j => simp [stand] at hf
              | agent j =>
                simp only [stand, hc] at hf
                simp at hf
                obtain ⟨f1, f2⟩ := hfit
                rw [hf.1] at f1 f2
                exact ⟨by rw [f1], f2⟩
            obtain ⟨rfl, hi⟩ := hagent
            have := overAll_found hP hc (List.range cfg.servers) hi (rotation hi) (s := s)
              (st := { st1 with tick := st1.tick + 1 }) ((has_iff hw (.agent i) s).2 ⟨_, hws⟩) (fun t ht => hr t s (by dsimp only at ht; omega)) (inv_tick hinv2 _) h
            rcases this with ⟨t, ht⟩ | this
            · dsimp only at ht
              rw [hlog] at ht
              exact absurd ht (hcl t)
            · exact this
      · exact r5 ⟨s, v, j, by dsimp only; rw [hlog]; exact hx⟩
    exact ⟨hk, r4 hk, by omega⟩

theorem sendOne_sends {P : Nat → Prop} {inc : Nat} {o : Oracle} {cfg : Cfg} {held : Nat → Option Conn} {m : Msg} (hc : cfg.proxies = none)
    {st st' : St} (hinv : Inv P cfg inc st held) (hr : ∀ t s, st.tick ≤ t → o.ready t s = true) (hok : ∀ k s, o.sendOk k s = true) (hq : ∃ t, Has st .query t)
    (h : sendOne o cfg m st = some st') : sends st'.log = sends st.log + 1 := by
  unfold sendOne at h
  cases hsel : st.select o .query with
  | mk r st1 =>
    have h0 := select_log hsel
    rw [hsel] at h
    cases r with
    | none =>
      exfalso
      obtain ⟨w, hw⟩ := hinv
      obtain ⟨t, ht⟩ := hq
      obtain ⟨d, hd⟩ := (has_iff hw .query t).1 ht
      unfold St.select at hsel
      injection hsel with hsel _
      have := ok_select_none (hw.pools .query) (by simpa using hsel) hd
      rw [hr _ _ (Nat.le_refl _)] at this
      cases this
    | some e =>
      obtain ⟨s, c⟩ := e
      dsimp only at h
      rw [if_neg (by simp [hc])] at h
      unfold sendOver at h
      dsimp only at h
      rw [if_pos (hok _ _)] at h
      unfold sent at h
      have h1 := add_log h
      have h1 : st'.log = st1.log ++ [.send s c.index m (o.sendOk (st1.del .query s).tick s)] := h1
      rw [h1, sends_append, h0, hok]
      simp [sends, isSend]

theorem sent_sends {m : Msg} {k : Nat} {a b : St} (h : Sent m k a b) : sends a.log ≤ sends b.log := by
  obtain ⟨n, e, -⟩ := h
  rw [e, sends_append]
  omega

/-- No connection is begun. -/
def BeginsNone : Act → Prop
  | .conn _ _ _ => False
  | _ => True

theorem sendOver_begins_none {o : Oracle} {m : Msg} {s : Nat} {c : Ctx} {st st' : St} (h : sendOver o m s c st = some st') : Ext BeginsNone st st' := by
  unfold sendOver at h
  dsimp only at h
  split at h
  · unfold sent at h
    have h1 := add_log h
    exact ⟨[.send s c.index m (o.sendOk st.tick s)], h1, by simp [BeginsNone]⟩
  · cases h
    exact ⟨[.send s c.index m (o.sendOk st.tick s), .close s], by simp [St.close], by simp [BeginsNone]⟩

theorem sendOne_begins_none {o : Oracle} {cfg : Cfg} {m : Msg} {st st' : St} (h : sendOne o cfg m st = some st') : Ext BeginsNone st st' := by
  unfold sendOne at h
  cases hs : st.select o .query with
  | mk r st1 =>
    have h0 := select_log hs
    rw [hs] at h
    cases r with
    | none => cases h; exact ext_of_eq h0
    | some e =>
      obtain ⟨s, c⟩ := e
      dsimp only at h
      have hq : ∀ b, Ext BeginsNone st { (st1.del .query s) with tick := (st1.del .query s).tick + 1, log := (st1.del .query s).log ++ [.prep s c.index b] } :=
        fun b => ⟨[.prep s c.index b], by show st1.log ++ _ = _; rw [h0], by simp [BeginsNone]⟩
      split at h
      · split at h
        · exact ext_trans (hq _) (sendOver_begins_none h)
        · cases h
          exact ext_trans (hq _) ⟨[.close s], rfl, by simp [BeginsNone]⟩
      · exact ext_trans (a := st) (b := st1.del .query s) (ext_of_eq h0) (sendOver_begins_none h)

theorem sendMany_begins_none {o : Oracle} {cfg : Cfg} {m : Msg} (k : Nat) {st st' : St} (h : sendMany o cfg m k st = some st') : Ext BeginsNone st st' := by
  induction k generalizing st with
  | zero => cases h; exact ext_of_eq rfl
  | succ k ih =>
    unfold sendMany at h
    cases hs : sendOne o cfg m st with
    | none => rw [hs] at h; cases h
    | some st1 => rw [hs] at h; exact ext_trans (sendOne_begins_none hs) (ih h)

end Verif.TcpPool
