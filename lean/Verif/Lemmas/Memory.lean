import Verif.Spec.Memory

/-! A small logic for programs that own blocks: `T own c Q` says that `c`, if it owns the blocks `own` among others, runs and then owns what `Q` says, the
others being untouched. -/

namespace Verif.Memory

def T {α : Type} (own : List Nat) (c : M α) (Q : α → List Nat → Prop) : Prop :=
  ∀ h base, h.live.Perm (own ++ base) → ∃ a h' own', c h = some (a, h') ∧ Q a own' ∧ h'.live.Perm (own' ++ base) ∧ (h.Sound → h'.Sound)

macro "perm" : tactic => `(tactic| (
  refine List.perm_iff_count.mpr fun _ => ?_
  simp only [List.count_append, List.count_cons, List.count_nil, List.append_assoc, List.cons_append, List.nil_append]
  try omega))

theorem T.imp {α : Type} {own : List Nat} {c : M α} {Q R : α → List Nat → Prop} (h : T own c Q) (hi : ∀ a o, Q a o → R a o) : T own c R := by
  intro s base hs
  obtain ⟨a, h', o, h1, h2, h3⟩ := h s base hs
  exact ⟨a, h', o, h1, hi a o h2, h3⟩

theorem T.frame {α : Type} {own : List Nat} {c : M α} {Q : α → List Nat → Prop} (h : T own c Q) (F : List Nat) :
    T (own ++ F) c (fun a o => ∃ o', Q a o' ∧ o = o' ++ F) := by
  intro s base hs
  obtain ⟨a, h', o, h1, h2, h3, h4⟩ := h s (F ++ base) (by rwa [← List.append_assoc])
  exact ⟨a, h', o ++ F, h1, ⟨o, h2, rfl⟩, by rwa [List.append_assoc], h4⟩

theorem T.perm {α : Type} {own own' : List Nat} {c : M α} {Q : α → List Nat → Prop} (h : T own c Q) (hp : own'.Perm own) : T own' c Q := by
  intro s base hs
  exact h s base (hs.trans (hp.append_right base))

theorem T.pure {α : Type} {own : List Nat} {a : α} {Q : α → List Nat → Prop} (h : Q a own) : T own (pure a) Q :=
  fun s _ hs => ⟨a, s, own, rfl, h, hs, id⟩

/-- What is not needed stays. -/
theorem T.bind {α β : Type} {own o1 F : List Nat} {c : M α} {k : α → M β} {Q : α → List Nat → Prop} {R : β → List Nat → Prop}
    (hc : T o1 c Q) (hp : own.Perm (o1 ++ F)) (hk : ∀ a o, Q a o → T (o ++ F) (k a) R) : T own (c >>= k) R := by
  intro s base hs
  obtain ⟨a, s1, o, h1, h2, h3, hs1⟩ := hc s (F ++ base) (by
    refine hs.trans ?_
    rw [← List.append_assoc]
    exact hp.append_right base)
  obtain ⟨b, s2, o2, h4, h5, h6, hs2⟩ := hk a o h2 s1 base (by rwa [List.append_assoc])
  refine ⟨b, s2, o2, ?_, h5, h6, fun h => hs2 (hs1 h)⟩
  show (c s).bind (fun x => k x.1 x.2) = _
  rw [h1]
  exact h4

theorem T.seq {α β : Type} {own o1 F : List Nat} {c : M α} {k : M β} {Q : α → List Nat → Prop} {R : β → List Nat → Prop}
    (hc : T o1 c Q) (hp : own.Perm (o1 ++ F)) (hk : ∀ a o, Q a o → T (o ++ F) k R) : T own (do let _ ← c; k) R :=
  hc.bind hp hk

theorem Heap.Sound.new {h : Heap} (hs : h.Sound) (k : Nat) : Heap.Sound ⟨h.next :: h.live, h.next + 1, k⟩ := by
  refine ⟨List.nodup_cons.mpr ⟨fun hm => Nat.lt_irrefl _ (hs.2 _ hm), hs.1⟩, ?_⟩
  intro b hb
  rcases List.mem_cons.mp hb with rfl | hb
  · exact Nat.lt_succ_self _
  · exact Nat.lt_succ_of_lt (hs.2 b hb)

theorem Heap.Sound.old {h : Heap} (hs : h.Sound) (b : Nat) (k : Nat) : Heap.Sound ⟨h.live.erase b, h.next, k⟩ :=
  ⟨hs.1.erase b, fun x hx => hs.2 x (List.mem_of_mem_erase hx)⟩

theorem T_malloc (ok : Ok) : T [] (malloc ok) (fun p o => o = p.toList) := by
  intro s base hs
  unfold malloc
  split
  · exact ⟨_, _, [s.next], rfl, rfl, hs.cons _, fun h => h.new _⟩
  · exact ⟨_, _, [], rfl, rfl, hs, id⟩

theorem T_free (p : Option Nat) : T p.toList (free p) (fun _ o => o = []) := by
  intro s base hs
  cases p with
  | none => exact ⟨(), s, [], rfl, rfl, hs, id⟩
  | some b =>
    have hm : b ∈ s.live := hs.symm.subset (by simp)
    refine ⟨(), _, [], by simp only [free]; rw [if_pos hm], rfl, ?_, fun h => h.old b _⟩
    have := hs.erase b
    simpa using this

theorem T_free_some (b : Nat) : T [b] (free (some b)) (fun _ o => o = []) := T_free (some b)

theorem T_realloc (ok : Ok) (p : Option Nat) :
    T p.toList (realloc ok p) (fun r o => (r = none ∧ o = p.toList) ∨ ∃ b, r = some b ∧ o = [b]) := by
  intro s base hs
  unfold realloc
  split
  · cases p with
    | none => exact ⟨_, _, [s.next], rfl, .inr ⟨_, rfl, rfl⟩, hs.cons _, fun h => h.new _⟩
    | some b =>
      have hm : b ∈ s.live := hs.symm.subset (by simp)
      refine ⟨some s.next, ⟨s.next :: s.live.erase b, s.next + 1, s.tries + 1⟩, [s.next], by simp only; rw [if_pos hm], .inr ⟨_, rfl, rfl⟩, ?_, fun h => (h.old b 0).new _⟩
      have := hs.erase b
      exact List.Perm.cons _ (by simpa using this)
  · exact ⟨none, _, p.toList, rfl, .inl ⟨rfl, rfl⟩, hs, id⟩

/-! ### Containers -/

/-- The blocks of an array. -/
def Arr.own (a : Arr) : List Nat := if a.allocated > 0 then a.data.toList else []

structure Arr.Wf (a : Arr) : Prop where
  le : a.used ≤ a.allocated
  data : a.allocated > 0 ↔ a.data.isSome

theorem Arr.own_eq {a : Arr} (h : a.Wf) : a.own = a.data.toList := by
  unfold own
  split
  · rfl
  · next hn =>
    cases hd : a.data with
    | none => rfl
    | some b => exact absurd (h.data.mpr (by rw [hd]; rfl)) hn

theorem T_arrInit (ok : Ok) (n : Nat) : T [] (arrInit ok n) (fun r o => match r with
    | none => o = []
    | some a => a.Wf ∧ a.used = 0 ∧ a.allocated = n ∧ o = a.own) := by
  unfold arrInit
  split
  · next hn =>
    refine (T_malloc ok).bind (F := []) (by simp) fun p o ho => ?_
    subst ho
    cases p with
    | none => exact T.pure rfl
    | some b => exact T.pure ⟨⟨Nat.zero_le _, by simp [hn]⟩, rfl, rfl, by simp [Arr.own, hn]⟩
  · next hn => exact T.pure ⟨⟨Nat.le_refl _, by simp⟩, rfl, by simp; omega, by simp [Arr.own]⟩

theorem T_arrPush (ok : Ok) {a : Arr} (h : a.Wf) : T a.own (arrPush ok a) (fun r o => r.1.Wf ∧ o = r.1.own ∧
    (r.2 = true → r.1.used = a.used + 1) ∧ (r.2 = false → r.1 = a) ∧ a.used ≤ r.1.used) := by
  unfold arrPush
  split
  · refine (T_realloc ok a.data).bind (F := []) (by rw [Arr.own_eq h]; simp) fun p o ho => ?_
    rcases ho with ⟨rfl, rfl⟩ | ⟨b, rfl, rfl⟩
    · exact T.pure ⟨h, by rw [Arr.own_eq h]; simp, by simp, by simp, Nat.le_refl _⟩
    · have := h.le
      refine T.pure ⟨⟨?_, ?_⟩, ?_, fun _ => rfl, by simp, Nat.le_succ _⟩
      · dsimp only; split <;> omega
      · dsimp only
        constructor
        · intro; rfl
        · intro; split <;> omega
      · unfold Arr.own
        dsimp only
        rw [if_pos (by split <;> omega)]
        rfl
  · next hn =>
    have := h.le
    exact T.pure ⟨⟨by dsimp only; omega, h.data⟩, rfl, fun _ => rfl, by simp, by dsimp only; omega⟩

theorem T_arrFree {a : Arr} : T a.own (arrFree a) (fun _ o => o = []) := by
  unfold arrFree Arr.own
  split
  · exact T_free _
  · exact T.pure rfl

/-- The blocks of a buffer. -/
def Buf.own (b : Buf) : List Nat := b.blocks ++ b.info.own

def Buf.Wf (b : Buf) : Prop := b.info.Wf

theorem bufInit_wf : bufInit.Wf := ⟨Nat.le_refl _, by simp [bufInit]⟩
theorem bufInit_own : bufInit.own = [] := rfl

theorem T_bufAdd (ok : Ok) {b : Buf} (h : b.Wf) (need : Bool) : T b.own (bufAdd ok b need) (fun r o => r.1.Wf ∧ o = r.1.own) := by
  unfold bufAdd
  split
  · refine (T_malloc ok).bind (F := b.own) (by simp) fun p o ho => ?_
    subst ho
    cases p with
    | none => exact T.pure ⟨h, by simp⟩
    | some p =>
      refine (T_arrPush ok h).bind (F := p :: b.blocks) (by simp only [Buf.own, Option.toList]; perm) ?_
      rintro ⟨a, r⟩ o ⟨hw, rfl, -⟩
      cases r with
      | true => exact (T.pure (own := (b.blocks ++ [p]) ++ a.own) ⟨hw, rfl⟩).perm (by perm)
      | false =>
        refine (T_free_some p).bind (F := b.blocks ++ a.own) (by perm) ?_
        rintro - o rfl
        exact T.pure ⟨hw, rfl⟩
  · exact T.pure ⟨h, rfl⟩

theorem T_freeAll (l : List Nat) : T l (freeAll l) (fun _ o => o = []) := by
  induction l with
  | nil => exact T.pure rfl
  | cons b bs ih =>
    refine (T_free_some b).bind (F := bs) (by simp) ?_
    rintro - o rfl
    exact ih

theorem T_bufFree (b : Buf) : T b.own (bufFree b) (fun _ o => o = []) := by
  refine (T_freeAll b.blocks).bind (F := b.info.own) (List.Perm.refl _) ?_
  rintro - o rfl
  exact T_arrFree

/-- The blocks of a pool. -/
def Pool.own (p : Pool) : List Nat := p.one.toList ++ p.tree.own

theorem T_poolInit (ok : Ok) : T [] (poolInit ok) (fun r o => match r with
    | none => o = []
    | some p => p.tree.Wf ∧ o = p.own) := by
  refine (T_malloc ok).bind (F := []) (by simp) fun p o ho => ?_
  subst ho
  cases p with
  | none =>
    refine (T_bufFree bufInit).bind (F := []) (by simp [bufInit_own]) ?_
    rintro - o rfl
    exact T.pure rfl
  | some b => exact T.pure ⟨bufInit_wf, by simp [Pool.own, bufInit_own]⟩

theorem T_poolFree (p : Pool) : T p.own (poolFree p) (fun _ o => o = []) := by
  refine (T_free p.one).bind (F := p.tree.own) (List.Perm.refl _) ?_
  rintro - o rfl
  exact T_bufFree _

/-- The blocks of several pools. -/
def poolsOwn (l : List Pool) : List Nat := l.flatMap Pool.own

theorem T_poolsFree (l : List Pool) : T (poolsOwn l) (poolsFree l) (fun _ o => o = []) := by
  induction l with
  | nil => exact T.pure rfl
  | cons p ps ih =>
    refine (T_poolFree p).bind (F := poolsOwn ps) (by simp [poolsOwn]) ?_
    rintro - o rfl
    exact ih

def PoolsWf (l : List Pool) : Prop := ∀ p ∈ l, p.tree.Wf

theorem T_poolsLoop (ok : Ok) : ∀ (n : Nat) (l : List Pool), PoolsWf l →
    T (poolsOwn l) (poolsLoop ok n l) (fun r o => PoolsWf r.1 ∧ o = poolsOwn r.1)
  | 0, _, h => T.pure ⟨h, rfl⟩
  | n + 1, l, h => by
    refine (T_poolInit ok).bind (F := poolsOwn l) (by simp) ?_
    rintro (_ | p) o ho
    · subst ho
      exact T.pure ⟨h, rfl⟩
    · obtain ⟨hw, rfl⟩ := ho
      refine (T_poolsLoop ok n (l ++ [p]) ?_).perm ?_
      · intro q hq
        simp only [List.mem_append, List.mem_cons, List.not_mem_nil, or_false] at hq
        rcases hq with hq | rfl
        · exact h q hq
        · exact hw
      · simp only [poolsOwn, List.flatMap_append, List.flatMap_cons, List.flatMap_nil]
        perm

/-- The blocks of what `SocketPullers_Init` makes. -/
def Pools.own (p : Pools) : List Nat := p.ptrs :: p.buffer :: poolsOwn p.pools

theorem T_poolsInit (ok : Ok) (n : Nat) : T [] (poolsInit ok n) (fun r o => match r with
    | none => o = []
    | some p => PoolsWf p.pools ∧ o = p.own ∧ n ≠ 0) := by
  unfold poolsInit
  split
  · exact T.pure rfl
  · next hn =>
    refine (T_malloc ok).bind (F := []) (by simp) fun p o ho => ?_
    subst ho
    cases p with
    | none => exact T.pure rfl
    | some a =>
      refine (T_malloc ok).bind (F := [a]) (by simp) fun p o ho => ?_
      subst ho
      cases p with
      | none =>
        refine (T_free_some a).bind (F := []) (by simp) ?_
        rintro - o rfl
        exact T.pure rfl
      | some b =>
        refine (T_poolsLoop ok n [] (by simp [PoolsWf])).bind (F := [a, b]) (by simp only [poolsOwn, Option.toList, List.flatMap_nil]; perm) ?_
        rintro ⟨l, r⟩ o ⟨hw, rfl⟩
        cases r with
        | true => exact (T.pure (own := Pools.own ⟨a, b, l⟩) ⟨hw, rfl, hn⟩).perm (by simp only [Pools.own]; perm)
        | false =>
          refine (T_poolsFree l).bind (F := [a, b]) (List.Perm.refl _) ?_
          rintro - o rfl
          refine (T_free_some a).bind (F := [b]) (by simp) ?_
          rintro - o rfl
          refine (T_free_some b).bind (F := []) (by simp) ?_
          rintro - o rfl
          exact T.pure rfl

/-- The array of the pools is left. -/
theorem T_pullersFree (p : Pools) : T p.own (pullersFree p) (fun _ o => o = [p.buffer]) := by
  refine (T_poolsFree p.pools).bind (F := [p.ptrs, p.buffer]) (by simp only [Pools.own]; perm) ?_
  rintro - o rfl
  exact ((T_free_some p.ptrs).frame [p.buffer]).imp fun _ o ⟨o', h, h'⟩ => by rw [h', h]; rfl

theorem T_addAddresses (ok : Ok) : ∀ (n : Nat) (a : Arr), a.Wf → T a.own (addAddresses ok n a) (fun r o => r.Wf ∧ o = r.own ∧ a.used ≤ r.used)
  | 0, _, h => T.pure ⟨h, rfl, Nat.le_refl _⟩
  | n + 1, a, h => by
    refine (T_arrPush ok h).bind (F := []) (by simp) ?_
    rintro ⟨a', r⟩ o ⟨hw, rfl, -, -, hle⟩
    exact ((T_addAddresses ok n a' hw).perm (by simp)).imp fun _ _ ⟨h1, h2, h3⟩ => ⟨h1, h2, Nat.le_trans hle h3⟩

theorem T_ptrList (ok : Ok) (a : Arr) : T [] (ptrList ok a) (fun r o => match r with
    | none => o = []
    | some (p, f) => p.to = ptrsTo a ∧ o = [p.block, f]) := by
  refine (T_malloc ok).bind (F := []) (by simp) fun p o ho => ?_
  subst ho
  cases p with
  | none => exact T.pure rfl
  | some b =>
    refine (T_malloc ok).bind (F := [b]) (by simp) fun p o ho => ?_
    subst ho
    cases p with
    | none =>
      refine (T_free_some b).bind (F := []) (by simp) ?_
      rintro - o rfl
      exact T.pure rfl
    | some f => exact (T.pure (own := [b, f]) ⟨rfl, rfl⟩).perm (by simp only [Option.toList]; perm)

theorem T_stringList (ok : Ok) : T [] (stringList ok) (fun r o => match r with
    | none => o = []
    | some b => o = b.own) := by
  refine (T_bufAdd ok bufInit_wf true).bind (F := []) (by simp [bufInit_own]) ?_
  rintro ⟨b, r⟩ o ⟨-, rfl⟩
  cases r with
  | true => exact T.pure (by simp)
  | false =>
    refine (T_bufFree b).bind (F := []) (List.Perm.refl _) ?_
    rintro - o rfl
    exact T.pure rfl

/-! ### UDP groups -/

def Udp.own (u : Udp) : List Nat := u.parallels.toList ++ u.addrs.own ++ u.context.own

theorem T_udpInit (ok : Ok) (n : Nat) (parallel : Bool) : T [] (udpInit ok n parallel) (fun r o => match r with
    | none => o = []
    | some u => u.context.Wf ∧ o = u.own) := by
  refine (T_stringList ok).bind (F := []) (by simp) ?_
  rintro (_ | l) o ho
  · subst ho
    exact T.pure rfl
  · obtain rfl : o = l.own := ho
    refine (T_arrInit ok 8).bind (F := l.own) (by simp) ?_
    rintro (_ | a) o ho
    · subst ho
      refine (T_bufFree l).bind (F := []) (by simp) ?_
      rintro - o rfl
      exact T.pure rfl
    · obtain ⟨hw, -, -, rfl⟩ := ho
      refine (T_addAddresses ok n a hw).bind (F := l.own) (List.Perm.refl _) ?_
      rintro a' o ⟨hw', rfl, -⟩
      refine (T_bufFree l).bind (F := a'.own) (by perm) ?_
      rintro - o rfl
      cases parallel with
      | false => exact T.pure ⟨bufInit_wf, by simp [Udp.own, bufInit_own]⟩
      | true =>
        simp only [if_true]
        split
        · refine T_arrFree.bind (F := []) (by simp) ?_
          rintro - o rfl
          exact T.pure rfl
        · refine (T_malloc ok).bind (F := a'.own) (by simp) fun p o ho => ?_
          subst ho
          exact T.pure ⟨bufInit_wf, by simp [Udp.own, bufInit_own]⟩

theorem T_udpUse (ok : Ok) : ∀ (ns : List Bool) (u : Udp), u.context.Wf → T u.own (udpUse ok ns u) (fun r o => r.context.Wf ∧ o = r.own)
  | [], _, h => T.pure ⟨h, rfl⟩
  | need :: ns, u, h => by
    refine (T_bufAdd ok h need).bind (F := u.parallels.toList ++ u.addrs.own) (by simp only [Udp.own]; perm) ?_
    rintro ⟨c, r⟩ o ⟨hw, rfl⟩
    exact (T_udpUse ok ns { u with context := c } hw).perm (by simp only [Udp.own]; perm)

theorem T_udpStop (u : Udp) : T u.own (udpStop u) (fun _ o => o = []) := by
  refine (T_free u.parallels).bind (F := u.addrs.own ++ u.context.own) (by simp only [Udp.own]; perm) ?_
  rintro - o rfl
  refine T_arrFree.bind (F := u.context.own) (List.Perm.refl _) ?_
  rintro - o rfl
  exact T_bufFree _

theorem T_udpLife (ok : Ok) (n : Nat) (parallel : Bool) (uses : List Bool) : T [] (udpLife ok n parallel uses) (fun _ o => o = []) := by
  refine (T_udpInit ok n parallel).bind (F := []) (by simp) ?_
  rintro (_ | u) o ho
  · subst ho
    exact T.pure rfl
  · obtain ⟨hw, rfl⟩ := ho
    refine (T_udpUse ok uses u hw).bind (F := []) (List.Perm.refl _) ?_
    rintro u' o ⟨-, rfl⟩
    exact (T_udpStop u').perm (by simp)

theorem balanced_of {c : M Unit} (h : T [] c (fun _ o => o = [])) : Balanced c := by
  intro s
  obtain ⟨_, h', o, h1, rfl, h3, -⟩ := h s s.live (List.Perm.refl _)
  exact ⟨h', h1, h3⟩

/-! ### TCP groups -/

def Proxy.own (x : Proxy) : List Nat := x.puller.own ++ x.pools.own ++ x.list.own ++ [x.ptrs.block, x.families]

def Tcp.own (t : Tcp) : List Nat :=
  t.puller.own ++ t.context.own ++ t.queryPuller.own ++ t.agents.own ++ t.list.own ++ [t.services.block, t.families] ++
    (match t.proxy with | none => [] | some x => x.own)

structure Tcp.Wf (t : Tcp) : Prop where
  context : t.context.Wf
  puller : t.puller.tree.Wf
  query : t.queryPuller.tree.Wf
  agents : PoolsWf t.agents.pools
  proxy : ∀ x, t.proxy = some x → x.puller.tree.Wf ∧ PoolsWf x.pools.pools ∧ x.list.Wf ∧ 0 < x.list.used ∧ x.ptrs.to = ptrsTo x.list

theorem T_poolAdd (ok : Ok) {p : Pool} (h : p.tree.Wf) (need : Bool) : T p.own (poolAdd ok p need) (fun r o => r.tree.Wf ∧ o = r.own) := by
  refine (T_bufAdd ok h need).bind (F := p.one.toList) (by simp only [Pool.own]; perm) ?_
  rintro ⟨t, r⟩ o ⟨hw, rfl⟩
  exact (T.pure (own := p.one.toList ++ t.own) ⟨hw, rfl⟩).perm (by perm)

theorem poolsOwn_set : ∀ (ps : List Pool) (i : Nat) (p q : Pool), ps[i]? = some p → ∃ F, (poolsOwn ps).Perm (p.own ++ F) ∧ (poolsOwn (ps.set i q)).Perm (q.own ++ F)
  | [], i, p, q, h => by simp at h
  | x :: xs, 0, p, q, h => by
    simp only [List.getElem?_cons_zero, Option.some.injEq] at h
    subst h
    exact ⟨poolsOwn xs, by simp [poolsOwn], by simp [poolsOwn]⟩
  | x :: xs, i + 1, p, q, h => by
    obtain ⟨F, h1, h2⟩ := poolsOwn_set xs i p q (by simpa using h)
    refine ⟨x.own ++ F, ?_, ?_⟩
    · show (x.own ++ poolsOwn xs).Perm _
      refine (h1.append_left x.own).trans ?_
      perm
    · show (x.own ++ poolsOwn (xs.set i q)).Perm _
      refine (h2.append_left x.own).trans ?_
      perm

theorem T_poolsAdd (ok : Ok) {ps : List Pool} (h : PoolsWf ps) (i : Nat) (need : Bool) :
    T (poolsOwn ps) (poolsAdd ok ps i need) (fun r o => PoolsWf r ∧ o = poolsOwn r) := by
  unfold poolsAdd
  split
  · exact T.pure ⟨h, rfl⟩
  · next p hp =>
    obtain ⟨F, h1, -⟩ := poolsOwn_set ps i p p hp
    refine (T_poolAdd ok (h p (List.mem_of_getElem? hp)) need).bind (F := F) h1 ?_
    rintro q o ⟨hw, rfl⟩
    have hl : i < ps.length := by
      rcases Nat.lt_or_ge i ps.length with h | h
      · exact h
      · rw [List.getElem?_eq_none h] at hp; exact absurd hp (by simp)
    obtain ⟨F', h3, h4⟩ := poolsOwn_set ps i p q hp
    have hF : F.Perm F' := (List.perm_append_left_iff p.own).mp (h1.symm.trans h3)
    refine (T.pure (own := poolsOwn (ps.set i q)) ⟨?_, rfl⟩).perm ((hF.append_left q.own).trans h4.symm)
    intro x hx
    rcases List.mem_or_eq_of_mem_set hx with hx | rfl
    · exact h x hx
    · exact hw

theorem T_tcpUse (ok : Ok) : ∀ (ws : List (Where × Bool)) (t : Tcp), t.Wf → T t.own (tcpUse ok ws t) (fun r o => r.Wf ∧ o = r.own ∧
    r.proxy.isSome = t.proxy.isSome)
  | [], _, h => T.pure ⟨h, rfl, rfl⟩
  | (.context, need) :: ws, t, h => by
    simp only [tcpUse]
    refine (T_bufAdd ok h.context need).bind (F := t.puller.own ++ t.queryPuller.own ++ t.agents.own ++ t.list.own ++ [t.services.block, t.families] ++
      (match t.proxy with | none => [] | some x => x.own)) (by simp only [Tcp.own]; perm) ?_
    rintro ⟨c, r⟩ o ⟨hw, rfl⟩
    exact ((T_tcpUse ok ws { t with context := c } ⟨hw, h.puller, h.query, h.agents, h.proxy⟩).perm (by simp only [Tcp.own]; perm))
  | (.puller, need) :: ws, t, h => by
    simp only [tcpUse]
    refine (T_poolAdd ok h.puller need).bind (F := t.context.own ++ t.queryPuller.own ++ t.agents.own ++ t.list.own ++ [t.services.block, t.families] ++
      (match t.proxy with | none => [] | some x => x.own)) (by simp only [Tcp.own]; perm) ?_
    rintro c o ⟨hw, rfl⟩
    exact ((T_tcpUse ok ws { t with puller := c } ⟨h.context, hw, h.query, h.agents, h.proxy⟩).perm (by simp only [Tcp.own]; perm))
  | (.query, need) :: ws, t, h => by
    simp only [tcpUse]
    refine (T_poolAdd ok h.query need).bind (F := t.puller.own ++ t.context.own ++ t.agents.own ++ t.list.own ++ [t.services.block, t.families] ++
      (match t.proxy with | none => [] | some x => x.own)) (by simp only [Tcp.own]; perm) ?_
    rintro c o ⟨hw, rfl⟩
    exact ((T_tcpUse ok ws { t with queryPuller := c } ⟨h.context, h.puller, hw, h.agents, h.proxy⟩).perm (by simp only [Tcp.own]; perm))
  | (.agent i, need) :: ws, t, h => by
    simp only [tcpUse]
    refine (T_poolsAdd ok h.agents i need).bind (F := t.puller.own ++ t.context.own ++ t.queryPuller.own ++ [t.agents.ptrs, t.agents.buffer] ++ t.list.own ++
      [t.services.block, t.families] ++ (match t.proxy with | none => [] | some x => x.own)) (by simp only [Tcp.own, Pools.own]; perm) ?_
    rintro c o ⟨hw, rfl⟩
    exact ((T_tcpUse ok ws { t with agents := { t.agents with pools := c } } ⟨h.context, h.puller, h.query, hw, h.proxy⟩).perm
      (by simp only [Tcp.own, Pools.own]; perm))
  | (.proxy, need) :: ws, t, h => by
    simp only [tcpUse]
    split
    · exact T_tcpUse ok ws t h
    · next x hx =>
      obtain ⟨h1, h2, h3⟩ := h.proxy x hx
      refine (T_poolAdd ok h1 need).bind (F := t.puller.own ++ t.context.own ++ t.queryPuller.own ++ t.agents.own ++ t.list.own ++
        [t.services.block, t.families] ++ x.pools.own ++ x.list.own ++ [x.ptrs.block, x.families]) (by simp only [Tcp.own, hx, Proxy.own]; perm) ?_
      rintro c o ⟨hw, rfl⟩
      refine ((T_tcpUse ok ws { t with proxy := some { x with puller := c } } ⟨h.context, h.puller, h.query, h.agents, ?_⟩).perm
        (by simp only [Tcp.own, Proxy.own]; perm)).imp fun _ _ hq => ⟨hq.1, hq.2.1, by rw [hq.2.2, hx]; rfl⟩
      rintro y hy
      obtain rfl := Option.some.inj hy
      exact ⟨hw, h2, h3⟩
  | (.proxies i, need) :: ws, t, h => by
    simp only [tcpUse]
    split
    · exact T_tcpUse ok ws t h
    · next x hx =>
      obtain ⟨h1, h2, h3⟩ := h.proxy x hx
      refine (T_poolsAdd ok h2 i need).bind (F := t.puller.own ++ t.context.own ++ t.queryPuller.own ++ t.agents.own ++ t.list.own ++
        [t.services.block, t.families] ++ x.puller.own ++ [x.pools.ptrs, x.pools.buffer] ++ x.list.own ++ [x.ptrs.block, x.families])
        (by simp only [Tcp.own, hx, Proxy.own, Pools.own]; perm) ?_
      rintro c o ⟨hw, rfl⟩
      refine ((T_tcpUse ok ws { t with proxy := some { x with pools := { x.pools with pools := c } } } ⟨h.context, h.puller, h.query, h.agents, ?_⟩).perm
        (by simp only [Tcp.own, Proxy.own, Pools.own]; perm)).imp fun _ _ hq => ⟨hq.1, hq.2.1, by rw [hq.2.2, hx]; rfl⟩
      rintro y hy
      obtain rfl := Option.some.inj hy
      exact ⟨h1, hw, h3⟩

/-- Without proxies, only the array of the pools of the servers is left. -/
theorem T_tcpStop {t : Tcp} (h : t.proxy = none) : T t.own (tcpStop t) (fun _ o => o = [t.agents.buffer]) := by
  unfold tcpStop
  refine (T_poolFree t.puller).bind (F := t.context.own ++ t.queryPuller.own ++ t.agents.own ++ t.list.own ++ [t.services.block, t.families])
    (by simp only [Tcp.own, h]; perm) ?_
  rintro - o rfl
  refine (T_bufFree t.context).bind (F := t.queryPuller.own ++ t.agents.own ++ t.list.own ++ [t.services.block, t.families]) (by perm) ?_
  rintro - o rfl
  rw [h]
  refine (T.pure (own := []) (a := ()) (Q := fun _ o => o = []) rfl).bind
    (F := t.queryPuller.own ++ t.agents.own ++ t.list.own ++ [t.services.block, t.families]) (by perm) ?_
  rintro - o rfl
  refine (T_poolFree t.queryPuller).bind (F := t.agents.own ++ t.list.own ++ [t.services.block, t.families]) (by perm) ?_
  rintro - o rfl
  refine (T_pullersFree t.agents).bind (F := t.list.own ++ [t.services.block, t.families]) (by perm) ?_
  rintro - o rfl
  refine (T_free_some t.services.block).bind (F := [t.agents.buffer, t.families] ++ t.list.own) (by perm) ?_
  rintro - o rfl
  refine T_arrFree.bind (F := [t.agents.buffer, t.families]) (by perm) ?_
  rintro - o rfl
  exact (((T_free_some t.families).frame [t.agents.buffer]).perm (by perm)).imp fun _ o ⟨o', h, h'⟩ => by rw [h', h]; rfl

/-! ### What is known if something succeeds, and what is undefined -/

def S {α : Type} (own : List Nat) (c : M (Option α)) (Q : α → List Nat → Prop) : Prop :=
  ∀ h base x h', h.live.Perm (own ++ base) → c h = some (some x, h') → ∃ own', Q x own' ∧ h'.live.Perm (own' ++ base) ∧ (h.Sound → h'.Sound)

theorem S.bind {α β : Type} {own o1 F : List Nat} {c : M α} {k : α → M (Option β)} {Q : α → List Nat → Prop} {R : β → List Nat → Prop}
    (hc : T o1 c Q) (hp : own.Perm (o1 ++ F)) (hk : ∀ a o, Q a o → S (o ++ F) (k a) R) : S own (c >>= k) R := by
  intro s base x s' hs he
  obtain ⟨a, s1, o, h1, h2, h3, h4⟩ := hc s (F ++ base) (by
    refine hs.trans ?_
    rw [← List.append_assoc]
    exact hp.append_right base)
  obtain ⟨o2, h5, h6, h7⟩ := hk a o h2 s1 base x s' (by rwa [List.append_assoc]) (by
    have : (c s).bind (fun x => k x.1 x.2) = some (some x, s') := he
    rw [h1] at this
    exact this)
  exact ⟨o2, h5, h6, fun h => h7 (h4 h)⟩

/-- After a success. -/
theorem S.then {α β : Type} {own o1 F : List Nat} {c : M (Option α)} {k : Option α → M (Option β)} {Q : α → List Nat → Prop} {R : β → List Nat → Prop}
    (hc : S o1 c Q) (hp : own.Perm (o1 ++ F)) (hn : ∀ h x h', k none h ≠ some (some x, h')) (hk : ∀ a o, Q a o → S (o ++ F) (k (some a)) R) :
    S own (c >>= k) R := by
  intro s base x s' hs he
  have he : (c s).bind (fun x => k x.1 x.2) = some (some x, s') := he
  rcases hcs : c s with _ | ⟨_ | a, s1⟩
  · rw [hcs] at he; exact absurd he (by simp)
  · rw [hcs] at he; exact absurd he (hn s1 x s')
  · rw [hcs] at he
    obtain ⟨o, h2, h3, h4⟩ := hc s (F ++ base) a s1 (by
      refine hs.trans ?_
      rw [← List.append_assoc]
      exact hp.append_right base) hcs
    obtain ⟨o2, h5, h6, h7⟩ := hk a o h2 s1 base x s' (by rwa [List.append_assoc]) he
    exact ⟨o2, h5, h6, fun h => h7 (h4 h)⟩

theorem S.of {α : Type} {own : List Nat} {a : α} {Q : α → List Nat → Prop} (h : Q a own) : S own (pure (some a)) Q := by
  intro s base x s' hs he
  have he : some (some a, s) = some (some x, s') := he
  simp only [Option.some.injEq, Prod.mk.injEq] at he
  obtain ⟨rfl, rfl⟩ := he
  exact ⟨own, h, hs, id⟩

theorem S.perm {α : Type} {own own' : List Nat} {c : M (Option α)} {Q : α → List Nat → Prop} (h : S own c Q) (hp : own'.Perm own) : S own' c Q :=
  fun s base x s' hs => h s base x s' (hs.trans (hp.append_right base))

def Fails {α : Type} (c : M (Option α)) : Prop := ∀ h x h', c h ≠ some (some x, h')

theorem Fails.pure {α : Type} : Fails (pure none : M (Option α)) := by
  intro h x h' he
  have he : some ((none : Option α), h) = some (some x, h') := he
  simp at he

theorem Fails.bind {α β : Type} {c : M β} {k : β → M (Option α)} (hk : ∀ b, Fails (k b)) : Fails (c >>= k) := by
  intro h x h' he
  have he : (c h).bind (fun y => k y.1 y.2) = some (some x, h') := he
  cases hc : c h with
  | none => rw [hc] at he; exact absurd he (by simp)
  | some y => rw [hc] at he; exact hk _ _ _ _ he

theorem S.fails {α : Type} {own : List Nat} {c : M (Option α)} {Q : α → List Nat → Prop} (h : Fails c) : S own c Q :=
  fun s _ x s' _ he => absurd he (h s x s')

theorem S.fail {α β : Type} {own : List Nat} (c : M β) {Q : α → List Nat → Prop} : S own (c >>= fun _ => (pure none : M (Option α))) Q :=
  S.fails (Fails.bind fun _ => Fails.pure)

theorem S.fail' {α : Type} {own : List Nat} {Q : α → List Nat → Prop} : S own (pure none : M (Option α)) Q := by
  intro s base x s' hs he
  have he : some ((none : Option α), s) = some (some x, s') := he
  simp at he

/-- What a program does that gives the blocks back it owns, and one of them twice. -/
def Crash {α : Type} (own : List Nat) (c : M α) : Prop := ∀ h base, h.Sound → h.live.Perm (own ++ base) → c h = none

theorem Crash.bind {α β : Type} {own o1 F : List Nat} {c : M α} {k : α → M β} {Q : α → List Nat → Prop}
    (hc : T o1 c Q) (hp : own.Perm (o1 ++ F)) (hk : ∀ a o, Q a o → Crash (o ++ F) (k a)) : Crash own (c >>= k) := by
  intro s base hS hs
  obtain ⟨a, s1, o, h1, h2, h3, h4⟩ := hc s (F ++ base) (by
    refine hs.trans ?_
    rw [← List.append_assoc]
    exact hp.append_right base)
  show (c s).bind (fun x => k x.1 x.2) = none
  rw [h1]
  exact hk a o h2 s1 base (h4 hS) (by rwa [List.append_assoc])

theorem Crash.left {α β : Type} {own : List Nat} {c : M α} {k : α → M β} (hc : Crash own c) : Crash own (c >>= k) := by
  intro s base hS hs
  show (c s).bind (fun x => k x.1 x.2) = none
  rw [hc s base hS hs]
  rfl

theorem Crash.perm {α : Type} {own own' : List Nat} {c : M α} (h : Crash own c) (hp : own'.Perm own) : Crash own' c :=
  fun s base hS hs => h s base hS (hs.trans (hp.append_right base))

/-- The first pointer of the list points to the block of the array. -/
theorem Crash.first {β : Type} {a : Arr} {p : Ptrs} {F : List Nat} (k : Unit → M β) (hw : a.Wf) (hu : 0 < a.used) (hp : p.to = ptrsTo a) :
    Crash (a.own ++ F) (freeFirst p >>= fun _ => arrFree a >>= k) := by
  intro s base hS hs
  have hal : a.allocated > 0 := Nat.lt_of_lt_of_le hu hw.le
  obtain ⟨b, hb⟩ := Option.isSome_iff_exists.mp (hw.data.mp hal)
  have hown : a.own = [b] := by rw [Arr.own_eq hw, hb]; rfl
  rw [hown] at hs
  have hm : b ∈ s.live := hs.symm.subset (by simp)
  have hto : p.to = (some b, 0) :: (ptrsTo a).tail := by
    rw [hp]
    unfold ptrsTo
    obtain ⟨n, hn⟩ := Nat.exists_eq_succ_of_ne_zero (Nat.pos_iff_ne_zero.mp hu)
    rw [hn, List.range_succ_eq_map, hb]
    rfl
  have h1 : freeFirst p s = some ((), { s with live := s.live.erase b }) := by
    unfold freeFirst
    rw [hto]
    show free (some b) s = _
    simp only [free]
    rw [if_pos hm]
  have h2 : arrFree a { s with live := s.live.erase b } = none := by
    unfold arrFree
    rw [if_pos hal, hb]
    simp only [free]
    rw [if_neg]
    intro hx
    exact absurd rfl ((List.Nodup.mem_erase_iff hS.1).mp hx).1
  show (freeFirst p s).bind (fun x => (arrFree a x.2).bind fun y => k y.1 y.2) = none
  rw [h1]
  show (arrFree a { s with live := s.live.erase b }).bind _ = none
  rw [h2]
  rfl

/-- The proxies of a group that works: there is at least one. -/
theorem S_proxyInit (ok : Ok) (n : Nat) : S [] (proxyInit ok n) (fun x o => o = x.own ∧ x.puller.tree.Wf ∧ PoolsWf x.pools.pools ∧ x.list.Wf ∧
    0 < x.list.used ∧ x.ptrs.to = ptrsTo x.list) := by
  unfold proxyInit
  refine S.bind (T_arrInit ok 8) (F := []) (by simp) ?_
  rintro (_ | a) o ho
  · exact S.fail'
  · obtain ⟨hw, -, -, rfl⟩ := ho
    refine S.bind (T_stringList ok) (F := a.own) (by simp) ?_
    rintro (_ | l) o ho
    · exact S.fail _
    · obtain rfl : o = l.own := ho
      refine S.bind (T_addAddresses ok n a hw) (F := l.own) (by perm) ?_
      rintro a' o ⟨hw', rfl, -⟩
      refine S.bind (T_bufFree l) (F := a'.own) (by perm) ?_
      rintro - o rfl
      refine S.bind (T_ptrList ok a') (F := a'.own) (by simp) ?_
      rintro (_ | ⟨p, f⟩) o ho
      · exact S.fail _
      · obtain ⟨hto, rfl⟩ := ho
        refine S.bind (T_poolInit ok) (F := [p.block, f] ++ a'.own) (by simp) ?_
        rintro (_ | pp) o ho
        · exact S.fails (Fails.bind fun _ => Fails.bind fun _ => Fails.pure)
        · obtain ⟨hpw, rfl⟩ := ho
          refine S.bind (T_poolsInit ok a'.used) (F := pp.own ++ [p.block, f] ++ a'.own) (by perm) ?_
          rintro (_ | ps) o ho
          · exact S.fails (Fails.bind fun _ => Fails.bind fun _ => Fails.bind fun _ => Fails.pure)
          · obtain ⟨hps, rfl, hu⟩ := ho
            exact S.perm (S.of (own := Proxy.own ⟨a', p, f, pp, ps⟩) ⟨rfl, hpw, hps, hw', Nat.pos_of_ne_zero hu, hto⟩) (by simp only [Proxy.own]; perm)

theorem S_tcpInit (ok : Ok) (bound : Bool) (n : Nat) (proxies : Option Nat) : S [] (tcpInit ok bound n proxies) (fun t o => o = t.own ∧ t.Wf ∧
    t.proxy.isSome = proxies.isSome) := by
  unfold tcpInit
  refine S.bind (T_poolInit ok) (F := []) (by simp) ?_
  rintro (_ | puller) o ho
  · exact S.fail _
  · obtain ⟨hpw, rfl⟩ := ho
    cases bound with
    | false => exact S.fail _
    | true =>
      simp only [if_true]
      refine S.bind (T_bufAdd ok hpw true) (F := puller.one.toList) (by simp only [Pool.own]; perm) ?_
      rintro ⟨t, r⟩ o ⟨htw, rfl⟩
      refine S.bind (T_arrInit ok 8) (F := t.own ++ puller.one.toList) (by simp) ?_
      rintro (_ | a) o ho
      · exact S.fail _
      · obtain ⟨hw, -, -, rfl⟩ := ho
        refine S.bind (T_stringList ok) (F := a.own ++ t.own ++ puller.one.toList) (by simp) ?_
        rintro (_ | l) o ho
        · exact S.fail _
        · obtain rfl : o = l.own := ho
          refine S.bind (T_addAddresses ok n a hw) (F := l.own ++ t.own ++ puller.one.toList) (by perm) ?_
          rintro a' o ⟨hw', rfl, -⟩
          refine S.bind (T_bufFree l) (F := a'.own ++ t.own ++ puller.one.toList) (by perm) ?_
          rintro - o rfl
          refine S.bind (T_ptrList ok a') (F := a'.own ++ t.own ++ puller.one.toList) (by simp) ?_
          rintro (_ | ⟨p, f⟩) o ho
          · exact S.fail _
          · obtain ⟨hto, rfl⟩ := ho
            refine S.bind (T_poolInit ok) (F := [p.block, f] ++ a'.own ++ t.own ++ puller.one.toList) (by perm) ?_
            rintro (_ | query) o ho
            · exact S.fail _
            · obtain ⟨hqw, rfl⟩ := ho
              refine S.bind (T_poolsInit ok a'.used) (F := query.own ++ [p.block, f] ++ a'.own ++ t.own ++ puller.one.toList) (by perm) ?_
              rintro (_ | agents) o ho
              · exact S.fail _
              · obtain ⟨haw, rfl, -⟩ := ho
                cases proxies with
                | none =>
                  refine S.perm (S.of (own := Tcp.own ⟨bufInit, { puller with tree := t }, a', p, f, query, agents, none⟩)
                    ⟨rfl, ⟨bufInit_wf, htw, hqw, haw, by simp⟩, rfl⟩) ?_
                  simp only [Tcp.own, Pool.own, bufInit_own]
                  perm
                | some k =>
                  refine (S_proxyInit ok k).then (F := agents.own ++ query.own ++ [p.block, f] ++ a'.own ++ t.own ++ puller.one.toList) (by perm)
                    (Fails.bind fun _ => Fails.pure) ?_
                  rintro x o ⟨rfl, hx⟩
                  refine S.perm (S.of (own := Tcp.own ⟨bufInit, { puller with tree := t }, a', p, f, query, agents, some x⟩)
                    ⟨rfl, ⟨bufInit_wf, htw, hqw, haw, ?_⟩, rfl⟩) ?_
                  · rintro y hy
                    obtain rfl := Option.some.inj hy
                    exact hx
                  · simp only [Tcp.own, Pool.own, bufInit_own]
                    perm

theorem Crash_proxyStop {x : Proxy} {F : List Nat} (hw : x.list.Wf) (hu : 0 < x.list.used) (hp : x.ptrs.to = ptrsTo x.list) : Crash (x.own ++ F) (proxyStop (some x)) := by
  unfold proxyStop
  refine Crash.bind (T_poolFree x.puller) (F := x.pools.own ++ x.list.own ++ [x.ptrs.block, x.families] ++ F) (by simp only [Proxy.own]; perm) ?_
  rintro - o rfl
  refine Crash.bind (T_pullersFree x.pools) (F := x.list.own ++ [x.ptrs.block, x.families] ++ F) (by perm) ?_
  rintro - o rfl
  exact (Crash.first (F := [x.pools.buffer] ++ [x.ptrs.block, x.families] ++ F) (fun _ => free (some x.families)) hw hu hp).perm (by perm)

theorem Crash_tcpStop {t : Tcp} (h : t.Wf) (hp : t.proxy.isSome = true) : Crash t.own (tcpStop t) := by
  obtain ⟨x, hx⟩ := Option.isSome_iff_exists.mp hp
  obtain ⟨-, -, hw, hu, hto⟩ := h.proxy x hx
  unfold tcpStop
  refine Crash.bind (T_poolFree t.puller) (F := t.context.own ++ t.queryPuller.own ++ t.agents.own ++ t.list.own ++ [t.services.block, t.families] ++ x.own)
    (by simp only [Tcp.own, hx]; perm) ?_
  rintro - o rfl
  refine Crash.bind (T_bufFree t.context) (F := t.queryPuller.own ++ t.agents.own ++ t.list.own ++ [t.services.block, t.families] ++ x.own) (by perm) ?_
  rintro - o rfl
  rw [hx]
  exact Crash.left ((Crash_proxyStop (F := t.queryPuller.own ++ t.agents.own ++ t.list.own ++ [t.services.block, t.families]) hw hu hto).perm (by perm))

/-! ### If every request is granted -/

/-- What is known of a result. -/
def Post {α : Type} (c : M α) (P : α → Prop) : Prop := ∀ h a h', c h = some (a, h') → P a

theorem T.and {α : Type} {own : List Nat} {c : M α} {Q : α → List Nat → Prop} {P : α → Prop} (h : T own c Q) (hp : Post c P) : T own c (fun a o => Q a o ∧ P a) := by
  intro s base hs
  obtain ⟨a, h', o, h1, h2, h3⟩ := h s base hs
  exact ⟨a, h', o, h1, ⟨h2, hp s a h' h1⟩, h3⟩

theorem Post.pure {α : Type} {a : α} {P : α → Prop} (h : P a) : Post (pure a) P := by
  intro s x s' he
  have he : some (a, s) = some (x, s') := he
  simp only [Option.some.injEq, Prod.mk.injEq] at he
  rw [← he.1]
  exact h

theorem Post.bind {α β : Type} {c : M α} {k : α → M β} {P : α → Prop} {R : β → Prop} (hc : Post c P) (hk : ∀ a, P a → Post (k a) R) : Post (c >>= k) R := by
  intro s x s' he
  have he : (c s).bind (fun y => k y.1 y.2) = some (x, s') := he
  cases h : c s with
  | none => rw [h] at he; exact absurd he (by simp)
  | some y => rw [h] at he; exact hk y.1 (hc s y.1 y.2 h) y.2 x s' he

theorem Post.any {α : Type} (c : M α) : Post c (fun _ => True) := fun _ _ _ _ => trivial

theorem granted_malloc : Post (malloc Granted) (fun p => p.isSome = true) := by
  intro s x s' he
  simp only [malloc, Granted, if_true, Option.some.injEq, Prod.mk.injEq] at he
  rw [← he.1]
  rfl

theorem granted_realloc (p : Option Nat) : Post (realloc Granted p) (fun p => p.isSome = true) := by
  intro s x s' he
  simp only [realloc, Granted, if_true] at he
  cases p with
  | none =>
    simp only [Option.some.injEq, Prod.mk.injEq] at he
    rw [← he.1]
    rfl
  | some b =>
    dsimp only at he
    split at he
    · simp only [Option.some.injEq, Prod.mk.injEq] at he
      rw [← he.1]
      rfl
    · exact absurd he (by simp)

theorem granted_arrInit (n : Nat) : Post (arrInit Granted n) (fun r => ∃ a, r = some a ∧ a.used = 0) := by
  unfold arrInit
  split
  · refine granted_malloc.bind fun p hp => ?_
    obtain ⟨b, rfl⟩ := Option.isSome_iff_exists.mp hp
    exact Post.pure ⟨_, rfl, rfl⟩
  · exact Post.pure ⟨_, rfl, rfl⟩

theorem granted_arrPush (a : Arr) : Post (arrPush Granted a) (fun r => r.2 = true ∧ r.1.used = a.used + 1) := by
  unfold arrPush
  split
  · refine (granted_realloc a.data).bind fun p hp => ?_
    obtain ⟨b, rfl⟩ := Option.isSome_iff_exists.mp hp
    exact Post.pure ⟨rfl, rfl⟩
  · exact Post.pure ⟨rfl, rfl⟩

theorem granted_bufAdd (b : Buf) (need : Bool) : Post (bufAdd Granted b need) (fun r => r.2 = true) := by
  unfold bufAdd
  split
  · refine granted_malloc.bind fun p hp => ?_
    obtain ⟨b, rfl⟩ := Option.isSome_iff_exists.mp hp
    refine (granted_arrPush _).bind ?_
    rintro ⟨a, r⟩ ⟨hr, -⟩
    obtain rfl : r = true := hr
    exact Post.pure rfl
  · exact Post.pure rfl

theorem granted_addAddresses : ∀ (n : Nat) (a : Arr), Post (addAddresses Granted n a) (fun r => r.used = a.used + n)
  | 0, _ => Post.pure rfl
  | n + 1, a => by
    refine (granted_arrPush a).bind ?_
    rintro ⟨a', r⟩ ⟨-, hu⟩
    intro s x s' he
    have hu : a'.used = a.used + 1 := hu
    rw [granted_addAddresses n a' s x s' he, hu]
    omega

theorem granted_stringList : Post (stringList Granted) (fun r => r.isSome = true) := by
  refine (granted_bufAdd _ _).bind ?_
  rintro ⟨b, r⟩ hr
  obtain rfl : r = true := hr
  exact Post.pure rfl

theorem granted_ptrList (a : Arr) : Post (ptrList Granted a) (fun r => r.isSome = true) := by
  refine granted_malloc.bind fun p hp => ?_
  obtain ⟨b, rfl⟩ := Option.isSome_iff_exists.mp hp
  refine granted_malloc.bind fun p hp => ?_
  obtain ⟨b, rfl⟩ := Option.isSome_iff_exists.mp hp
  exact Post.pure rfl

theorem granted_poolInit : Post (poolInit Granted) (fun r => r.isSome = true) := by
  refine granted_malloc.bind fun p hp => ?_
  obtain ⟨b, rfl⟩ := Option.isSome_iff_exists.mp hp
  exact Post.pure rfl

theorem granted_poolsLoop : ∀ (n : Nat) (l : List Pool), Post (poolsLoop Granted n l) (fun r => r.2 = true)
  | 0, _ => Post.pure rfl
  | n + 1, l => by
    refine granted_poolInit.bind fun p hp => ?_
    obtain ⟨b, rfl⟩ := Option.isSome_iff_exists.mp hp
    exact granted_poolsLoop n _

theorem granted_poolsInit {n : Nat} (hn : n ≠ 0) : Post (poolsInit Granted n) (fun r => r.isSome = true) := by
  unfold poolsInit
  rw [if_neg hn]
  refine granted_malloc.bind fun p hp => ?_
  obtain ⟨b, rfl⟩ := Option.isSome_iff_exists.mp hp
  refine granted_malloc.bind fun p hp => ?_
  obtain ⟨b, rfl⟩ := Option.isSome_iff_exists.mp hp
  refine (granted_poolsLoop n []).bind ?_
  rintro ⟨l, r⟩ hr
  obtain rfl : r = true := hr
  exact Post.pure rfl

/-- A text without any proper address of a proxy: what was done for the proxies is given back, but for the two lists of pointers. -/
theorem T_noProxy : T [] (proxyInit Granted 0) (fun r _ => r = none) := by
  unfold proxyInit
  refine ((T_arrInit Granted 8).and (granted_arrInit 8)).bind (F := []) (by simp) ?_
  rintro r o ⟨ho, a, rfl, hz⟩
  obtain ⟨hw, -, -, rfl⟩ := ho
  refine ((T_stringList Granted).and granted_stringList).bind (F := a.own) (by simp) ?_
  rintro r o ⟨ho, hr⟩
  obtain ⟨l, rfl⟩ := Option.isSome_iff_exists.mp hr
  obtain rfl : o = l.own := ho
  refine ((T_addAddresses Granted 0 a hw).and (granted_addAddresses 0 a)).bind (F := l.own) (by perm) ?_
  rintro a' o ⟨⟨hw', rfl, -⟩, hu⟩
  rw [hz] at hu
  refine (T_bufFree l).bind (F := a'.own) (by perm) ?_
  rintro - o rfl
  refine ((T_ptrList Granted a').and (granted_ptrList a')).bind (F := a'.own) (by simp) ?_
  rintro r o ⟨ho, hr⟩
  obtain ⟨⟨p, f⟩, rfl⟩ := Option.isSome_iff_exists.mp hr
  obtain ⟨hto, rfl⟩ := ho
  refine ((T_poolInit Granted).and granted_poolInit).bind (F := [p.block, f] ++ a'.own) (by simp) ?_
  rintro r o ⟨ho, hr⟩
  obtain ⟨pp, rfl⟩ := Option.isSome_iff_exists.mp hr
  obtain ⟨hpw, rfl⟩ := ho
  simp only [hu]
  refine (T.pure (own := []) (a := none) (Q := fun r o => r = none ∧ o = []) ⟨rfl, rfl⟩).bind (F := pp.own ++ [p.block, f] ++ a'.own) (by perm) ?_
  rintro r o ⟨rfl, rfl⟩
  refine (T_poolFree pp).bind (F := [p.block, f] ++ a'.own) (by perm) ?_
  rintro - o rfl
  have hff : freeFirst p = pure () := by
    unfold freeFirst
    rw [hto, ptrsTo, hu]
    rfl
  rw [hff]
  refine (T.pure (own := []) (a := ()) (Q := fun _ o => o = []) rfl).bind (F := [p.block, f] ++ a'.own) (by perm) ?_
  rintro - o rfl
  refine T_arrFree.bind (F := [p.block, f]) (by perm) ?_
  rintro - o rfl
  exact T.pure rfl

theorem Crash_noProxy (n : Nat) : Crash [] (tcpInit Granted true (n + 1) (some 0)) := by
  unfold tcpInit
  refine Crash.bind ((T_poolInit Granted).and granted_poolInit) (F := []) (by simp) ?_
  rintro r o ⟨ho, hr⟩
  obtain ⟨puller, rfl⟩ := Option.isSome_iff_exists.mp hr
  obtain ⟨hpw, rfl⟩ := ho
  simp only [if_true]
  refine Crash.bind (T_bufAdd Granted hpw true) (F := puller.one.toList) (by simp only [Pool.own]; perm) ?_
  rintro ⟨t, r⟩ o ⟨htw, rfl⟩
  refine Crash.bind ((T_arrInit Granted 8).and (granted_arrInit 8)) (F := t.own ++ puller.one.toList) (by simp) ?_
  rintro r o ⟨ho, a, rfl, hz⟩
  obtain ⟨hw, -, -, rfl⟩ := ho
  refine Crash.bind ((T_stringList Granted).and granted_stringList) (F := a.own ++ t.own ++ puller.one.toList) (by simp) ?_
  rintro r o ⟨ho, hr⟩
  obtain ⟨l, rfl⟩ := Option.isSome_iff_exists.mp hr
  obtain rfl : o = l.own := ho
  refine Crash.bind ((T_addAddresses Granted (n + 1) a hw).and (granted_addAddresses (n + 1) a)) (F := l.own ++ t.own ++ puller.one.toList) (by perm) ?_
  rintro a' o ⟨⟨hw', rfl, -⟩, hu⟩
  rw [hz] at hu
  refine Crash.bind (T_bufFree l) (F := a'.own ++ t.own ++ puller.one.toList) (by perm) ?_
  rintro - o rfl
  refine Crash.bind ((T_ptrList Granted a').and (granted_ptrList a')) (F := a'.own ++ t.own ++ puller.one.toList) (by simp) ?_
  rintro r o ⟨ho, hr⟩
  obtain ⟨⟨p, f⟩, rfl⟩ := Option.isSome_iff_exists.mp hr
  obtain ⟨hto, rfl⟩ := ho
  refine Crash.bind ((T_poolInit Granted).and granted_poolInit) (F := [p.block, f] ++ a'.own ++ t.own ++ puller.one.toList) (by perm) ?_
  rintro r o ⟨ho, hr⟩
  obtain ⟨query, rfl⟩ := Option.isSome_iff_exists.mp hr
  obtain ⟨hqw, rfl⟩ := ho
  refine Crash.bind ((T_poolsInit Granted a'.used).and (granted_poolsInit (by omega)))
    (F := query.own ++ [p.block, f] ++ a'.own ++ t.own ++ puller.one.toList) (by perm) ?_
  rintro r o ⟨ho, hr⟩
  obtain ⟨agents, rfl⟩ := Option.isSome_iff_exists.mp hr
  obtain ⟨haw, rfl, -⟩ := ho
  refine Crash.bind T_noProxy (F := agents.own ++ query.own ++ [p.block, f] ++ a'.own ++ t.own ++ puller.one.toList) (by perm) ?_
  rintro r o rfl
  refine Crash.left ?_
  unfold exit6
  refine Crash.bind (T_pullersFree agents) (F := o ++ query.own ++ [p.block, f] ++ a'.own ++ t.own ++ puller.one.toList) (by perm) ?_
  rintro - o' rfl
  unfold exit5
  refine Crash.bind (T_poolFree query) (F := [agents.buffer] ++ o ++ [p.block, f] ++ a'.own ++ t.own ++ puller.one.toList) (by perm) ?_
  rintro - o' rfl
  unfold exit4 exit3
  exact (Crash.first (F := [agents.buffer] ++ o ++ [p.block, f] ++ t.own ++ puller.one.toList) _ hw' (by omega) hto).perm (by perm)

/-- A group without proxies that has a server's address can be made, if nothing is refused. -/
theorem granted_tcpInit (n : Nat) : Post (tcpInit Granted true (n + 1) none) (fun r => r.isSome = true) := by
  unfold tcpInit
  refine granted_poolInit.bind fun r hr => ?_
  obtain ⟨puller, rfl⟩ := Option.isSome_iff_exists.mp hr
  simp only [if_true]
  refine (Post.any _).bind ?_
  rintro ⟨t, r⟩ -
  refine (granted_arrInit 8).bind ?_
  rintro r ⟨a, rfl, hz⟩
  refine granted_stringList.bind fun r hr => ?_
  obtain ⟨l, rfl⟩ := Option.isSome_iff_exists.mp hr
  refine (granted_addAddresses (n + 1) a).bind fun a' hu => ?_
  refine (Post.any _).bind fun _ _ => ?_
  refine (granted_ptrList a').bind fun r hr => ?_
  obtain ⟨⟨p, f⟩, rfl⟩ := Option.isSome_iff_exists.mp hr
  refine granted_poolInit.bind fun r hr => ?_
  obtain ⟨query, rfl⟩ := Option.isSome_iff_exists.mp hr
  refine (granted_poolsInit (by omega)).bind fun r hr => ?_
  obtain ⟨agents, rfl⟩ := Option.isSome_iff_exists.mp hr
  exact Post.pure rfl

/-- A group without proxies that has a server's address can be made, if nothing is refused. -/
theorem T_tcpInit (n : Nat) : T [] (tcpInit Granted true (n + 1) none) (fun r o => ∃ t, r = some t ∧ o = t.own ∧ t.Wf ∧ t.proxy = none) := by
  unfold tcpInit
  refine ((T_poolInit Granted).and granted_poolInit).bind (F := []) (by simp) ?_
  rintro r o ⟨ho, hr⟩
  obtain ⟨puller, rfl⟩ := Option.isSome_iff_exists.mp hr
  obtain ⟨hpw, rfl⟩ := ho
  simp only [if_true]
  refine (T_bufAdd Granted hpw true).bind (F := puller.one.toList) (by simp only [Pool.own]; perm) ?_
  rintro ⟨t, r⟩ o ⟨htw, rfl⟩
  refine ((T_arrInit Granted 8).and (granted_arrInit 8)).bind (F := t.own ++ puller.one.toList) (by simp) ?_
  rintro r o ⟨ho, a, rfl, hz⟩
  obtain ⟨hw, -, -, rfl⟩ := ho
  refine ((T_stringList Granted).and granted_stringList).bind (F := a.own ++ t.own ++ puller.one.toList) (by simp) ?_
  rintro r o ⟨ho, hr⟩
  obtain ⟨l, rfl⟩ := Option.isSome_iff_exists.mp hr
  obtain rfl : o = l.own := ho
  refine ((T_addAddresses Granted (n + 1) a hw).and (granted_addAddresses (n + 1) a)).bind (F := l.own ++ t.own ++ puller.one.toList) (by perm) ?_
  rintro a' o ⟨⟨hw', rfl, -⟩, hu⟩
  rw [hz] at hu
  refine (T_bufFree l).bind (F := a'.own ++ t.own ++ puller.one.toList) (by perm) ?_
  rintro - o rfl
  refine ((T_ptrList Granted a').and (granted_ptrList a')).bind (F := a'.own ++ t.own ++ puller.one.toList) (by simp) ?_
  rintro r o ⟨ho, hr⟩
  obtain ⟨⟨p, f⟩, rfl⟩ := Option.isSome_iff_exists.mp hr
  obtain ⟨hto, rfl⟩ := ho
  refine ((T_poolInit Granted).and granted_poolInit).bind (F := [p.block, f] ++ a'.own ++ t.own ++ puller.one.toList) (by perm) ?_
  rintro r o ⟨ho, hr⟩
  obtain ⟨query, rfl⟩ := Option.isSome_iff_exists.mp hr
  obtain ⟨hqw, rfl⟩ := ho
  refine ((T_poolsInit Granted a'.used).and (granted_poolsInit (by omega))).bind
    (F := query.own ++ [p.block, f] ++ a'.own ++ t.own ++ puller.one.toList) (by perm) ?_
  rintro r o ⟨ho, hr⟩
  obtain ⟨agents, rfl⟩ := Option.isSome_iff_exists.mp hr
  obtain ⟨haw, rfl, -⟩ := ho
  refine (T.pure (own := Tcp.own ⟨bufInit, { puller with tree := t }, a', p, f, query, agents, none⟩)
    ⟨_, rfl, rfl, ⟨bufInit_wf, htw, hqw, haw, by simp⟩, rfl⟩).perm ?_
  simp only [Tcp.own, Pool.own, bufInit_own]
  perm

/-! ### Lists -/

def Chunk.own (c : Chunk) : List Nat := c.slots.own ++ c.nodes.own ++ c.wild.own ++ c.data.own ++ c.strings.own ++ [c.list]

structure Chunk.Wf (c : Chunk) : Prop where
  slots : c.slots.Wf
  nodes : c.nodes.Wf
  wild : c.wild.Wf
  data : c.data.Wf
  strings : c.strings.Wf

theorem T_pushes (ok : Ok) : ∀ (n : Nat) (a : Arr), a.Wf → T a.own (pushes ok n a) (fun r o => r.Wf ∧ o = r.own)
  | 0, _, h => T.pure ⟨h, rfl⟩
  | n + 1, a, h => by
    refine (T_arrPush ok h).bind (F := []) (by simp) ?_
    rintro ⟨a', r⟩ o ⟨hw, rfl, -⟩
    exact (T_pushes ok n a' hw).perm (by simp)

theorem emptyArr_wf : Arr.Wf ⟨none, 0, 0⟩ := ⟨Nat.le_refl _, by simp⟩
theorem emptyArr_own : Arr.own ⟨none, 0, 0⟩ = [] := rfl

theorem T_chunkInit (ok : Ok) : T [] (chunkInit ok) (fun r o => match r with
    | none => o = []
    | some c => c.Wf ∧ o = c.own) := by
  unfold chunkInit
  refine (T_arrInit ok 7).bind (F := []) (by simp) ?_
  rintro (_ | s) o ho
  · subst ho
    exact T.pure rfl
  · obtain ⟨hw, -, -, rfl⟩ := ho
    refine (T_pushes ok 7 s hw).bind (F := []) (by simp) ?_
    rintro s' o ⟨hw', rfl⟩
    refine (T_malloc ok).bind (F := s'.own) (by simp) fun p o ho => ?_
    subst ho
    cases p with
    | none =>
      refine (T_bufFree bufInit).bind (F := s'.own) (by simp [bufInit_own]) ?_
      rintro - o rfl
      refine T_arrFree.bind (F := []) (by simp) ?_
      rintro - o rfl
      refine (T_arrFree (a := ⟨none, 0, 0⟩)).bind (F := []) (by simp [emptyArr_own]) ?_
      rintro - o rfl
      refine (T_arrFree (a := ⟨none, 0, 0⟩)).bind (F := []) (by simp [emptyArr_own]) ?_
      rintro - o rfl
      exact T.pure rfl
    | some l =>
      refine (T.pure (own := Chunk.own ⟨s', ⟨none, 0, 0⟩, ⟨none, 0, 0⟩, bufInit, l, bufInit⟩)
        ⟨⟨hw', emptyArr_wf, emptyArr_wf, bufInit_wf, bufInit_wf⟩, rfl⟩).perm ?_
      simp only [Chunk.own, bufInit_own, emptyArr_own, Option.toList]
      perm

theorem T_chunkFree (c : Chunk) : T c.own (chunkFree c) (fun _ o => o = []) := by
  unfold chunkFree
  refine T_arrFree.bind (F := c.nodes.own ++ c.wild.own ++ c.data.own ++ c.strings.own ++ [c.list]) (by simp only [Chunk.own]; perm) ?_
  rintro - o rfl
  refine T_arrFree.bind (F := c.wild.own ++ c.data.own ++ c.strings.own ++ [c.list]) (by perm) ?_
  rintro - o rfl
  refine T_arrFree.bind (F := c.data.own ++ c.strings.own ++ [c.list]) (by perm) ?_
  rintro - o rfl
  refine (T_bufFree c.data).bind (F := c.strings.own ++ [c.list]) (by perm) ?_
  rintro - o rfl
  refine (T_bufFree c.strings).bind (F := [c.list]) (by perm) ?_
  rintro - o rfl
  exact T_free_some _

theorem T_chunkGrow (ok : Ok) {c : Chunk} (h : c.Wf) (p : Part) : T c.own (chunkGrow ok c p) (fun r o => r.Wf ∧ o = r.own) := by
  cases p with
  | slots =>
    refine (T_arrPush ok h.slots).bind (F := c.nodes.own ++ c.wild.own ++ c.data.own ++ c.strings.own ++ [c.list]) (by simp only [Chunk.own]; perm) ?_
    rintro ⟨a, r⟩ o ⟨hw, rfl, -⟩
    exact (T.pure (own := Chunk.own { c with slots := a }) ⟨⟨hw, h.nodes, h.wild, h.data, h.strings⟩, rfl⟩).perm (by simp only [Chunk.own]; perm)
  | nodes =>
    refine (T_arrPush ok h.nodes).bind (F := c.slots.own ++ c.wild.own ++ c.data.own ++ c.strings.own ++ [c.list]) (by simp only [Chunk.own]; perm) ?_
    rintro ⟨a, r⟩ o ⟨hw, rfl, -⟩
    exact (T.pure (own := Chunk.own { c with nodes := a }) ⟨⟨h.slots, hw, h.wild, h.data, h.strings⟩, rfl⟩).perm (by simp only [Chunk.own]; perm)
  | wild =>
    refine (T_arrPush ok h.wild).bind (F := c.slots.own ++ c.nodes.own ++ c.data.own ++ c.strings.own ++ [c.list]) (by simp only [Chunk.own]; perm) ?_
    rintro ⟨a, r⟩ o ⟨hw, rfl, -⟩
    exact (T.pure (own := Chunk.own { c with wild := a }) ⟨⟨h.slots, h.nodes, hw, h.data, h.strings⟩, rfl⟩).perm (by simp only [Chunk.own]; perm)
  | data need =>
    refine (T_bufAdd ok h.data need).bind (F := c.slots.own ++ c.nodes.own ++ c.wild.own ++ c.strings.own ++ [c.list]) (by simp only [Chunk.own]; perm) ?_
    rintro ⟨a, r⟩ o ⟨hw, rfl⟩
    exact (T.pure (own := Chunk.own { c with data := a }) ⟨⟨h.slots, h.nodes, h.wild, hw, h.strings⟩, rfl⟩).perm (by simp only [Chunk.own]; perm)
  | strings need =>
    refine (T_bufAdd ok h.strings need).bind (F := c.slots.own ++ c.nodes.own ++ c.wild.own ++ c.data.own ++ [c.list]) (by simp only [Chunk.own]; perm) ?_
    rintro ⟨a, r⟩ o ⟨hw, rfl⟩
    exact (T.pure (own := Chunk.own { c with strings := a }) ⟨⟨h.slots, h.nodes, h.wild, h.data, hw⟩, rfl⟩).perm (by simp only [Chunk.own]; perm)

theorem T_chunkFill (ok : Ok) : ∀ (ps : List Part) (c : Chunk), c.Wf → T c.own (chunkFill ok ps c) (fun r o => r.Wf ∧ o = r.own)
  | [], _, h => T.pure ⟨h, rfl⟩
  | p :: ps, c, h => by
    refine (T_chunkGrow ok h p).bind (F := []) (by simp) ?_
    rintro c' o ⟨hw, rfl⟩
    exact (T_chunkFill ok ps c' hw).perm (by simp)

def bufsOwn (l : List Buf) : List Nat := l.flatMap Buf.own

theorem bufsOwn_set : ∀ (bs : List Buf) (i : Nat) (p : Buf), bs[i]? = some p →
    ∃ F, (bufsOwn bs).Perm (p.own ++ F) ∧ ∀ q, (bufsOwn (bs.set i q)).Perm (q.own ++ F)
  | [], i, p, h => by simp at h
  | x :: xs, 0, p, h => by
    simp only [List.getElem?_cons_zero, Option.some.injEq] at h
    subst h
    exact ⟨bufsOwn xs, by simp [bufsOwn], fun q => by simp [bufsOwn]⟩
  | x :: xs, i + 1, p, h => by
    obtain ⟨F, h1, h2⟩ := bufsOwn_set xs i p (by simpa using h)
    refine ⟨x.own ++ F, ?_, fun q => ?_⟩
    · show (x.own ++ bufsOwn xs).Perm _
      refine (h1.append_left x.own).trans ?_
      perm
    · show (x.own ++ bufsOwn (xs.set i q)).Perm _
      refine ((h2 q).append_left x.own).trans ?_
      perm

def BufsWf (l : List Buf) : Prop := ∀ b ∈ l, b.Wf

theorem T_bufsFill (ok : Ok) : ∀ (ns : List (Nat × Bool)) (bs : List Buf), BufsWf bs → T (bufsOwn bs) (bufsFill ok ns bs) (fun r o => BufsWf r ∧ o = bufsOwn r)
  | [], _, h => T.pure ⟨h, rfl⟩
  | (i, need) :: ns, bs, h => by
    simp only [bufsFill]
    split
    · exact T_bufsFill ok ns bs h
    · next b hb =>
      obtain ⟨F, h1, h2⟩ := bufsOwn_set bs i b hb
      refine (T_bufAdd ok (h b (List.mem_of_getElem? hb)) need).bind (F := F) h1 ?_
      rintro ⟨b', r⟩ o ⟨hw, rfl⟩
      refine (T_bufsFill ok ns (bs.set i b') ?_).perm (h2 b').symm
      intro x hx
      rcases List.mem_or_eq_of_mem_set hx with hx | rfl
      · exact h x hx
      · exact hw

theorem T_bufsFree (l : List Buf) : T (bufsOwn l) (bufsFree l) (fun _ o => o = []) := by
  induction l with
  | nil => exact T.pure rfl
  | cons p ps ih =>
    refine (T_bufFree p).bind (F := bufsOwn ps) (by simp [bufsOwn]) ?_
    rintro - o rfl
    exact ih

def hostsOwn : Option Hosts → List Nat
  | none => []
  | some x => x.mappings.own ++ bufsOwn x.tables ++ [x.block]

theorem T_hostsFree (x : Option Hosts) : T (hostsOwn x) (hostsFree x) (fun _ o => o = []) := by
  cases x with
  | none => exact T.pure rfl
  | some x =>
    refine (T_chunkFree x.mappings).bind (F := bufsOwn x.tables ++ [x.block]) (by simp only [hostsOwn]; perm) ?_
    rintro - o rfl
    refine (T_bufsFree x.tables).bind (F := [x.block]) (by perm) ?_
    rintro - o rfl
    exact T_free_some _

theorem T_hostsLoad (ok : Ok) (cur : Option Hosts) (opened : Bool) (parts : List Part) (tables : List (Nat × Bool)) :
    T (hostsOwn cur) (hostsLoad ok cur opened parts tables) (fun r o => o = hostsOwn r) := by
  unfold hostsLoad
  cases opened with
  | false => exact T.pure rfl
  | true =>
    simp only [if_true]
    refine (T_malloc ok).bind (F := hostsOwn cur) (by simp) fun p o ho => ?_
    subst ho
    cases p with
    | none => exact T.pure (by simp)
    | some b =>
      refine (T_chunkInit ok).bind (F := b :: hostsOwn cur) (by simp) ?_
      rintro (_ | c) o ho
      · subst ho
        refine (T_free_some b).bind (F := hostsOwn cur) (by simp) ?_
        rintro - o rfl
        exact T.pure rfl
      · obtain ⟨hw, rfl⟩ := ho
        refine (T_chunkFill ok parts c hw).bind (F := b :: hostsOwn cur) (List.Perm.refl _) ?_
        rintro c' o ⟨hw', rfl⟩
        refine (T_bufsFill ok tables [bufInit, bufInit] ?_).bind (F := c'.own ++ b :: hostsOwn cur) (by simp only [bufsOwn, List.flatMap_cons, List.flatMap_nil, bufInit_own]; perm) ?_
        · intro x hx
          simp only [List.mem_cons, List.not_mem_nil, or_false, or_self] at hx
          subst hx
          exact bufInit_wf
        rintro ts o ⟨-, rfl⟩
        refine (T_hostsFree cur).bind (F := bufsOwn ts ++ c'.own ++ [b]) (by perm) ?_
        rintro - o rfl
        have e : T (hostsOwn (some ⟨b, c', ts⟩)) (pure (some ⟨b, c', ts⟩)) (fun r o => o = hostsOwn r) := T.pure rfl
        exact e.perm (by simp only [hostsOwn]; perm)

theorem T_hostsLife (ok : Ok) : ∀ (ls : List HostsLoad) (cur : Option Hosts), T (hostsOwn cur) (hostsLife ok ls cur) (fun _ o => o = [])
  | [], cur => T_hostsFree cur
  | l :: ls, cur => by
    refine (T_hostsLoad ok cur l.opened l.parts l.tables).bind (F := []) (by simp) ?_
    rintro cur' o rfl
    exact (T_hostsLife ok ls cur').perm (by simp)

def ipsOwn : Option Ips → List Nat
  | none => []
  | some x => bufsOwn x.bufs ++ [x.block]

theorem T_ipsFree (x : Option Ips) : T (ipsOwn x) (ipsFree x) (fun _ o => o = []) := by
  cases x with
  | none => exact T.pure rfl
  | some x =>
    refine (T_bufsFree x.bufs).bind (F := [x.block]) (by simp only [ipsOwn]; perm) ?_
    rintro - o rfl
    exact T_free_some _

theorem T_ipsLoad (ok : Ok) (cur : Option Ips) (wanted : Bool) (grows : List (Nat × Bool)) :
    T (ipsOwn cur) (ipsLoad ok cur wanted grows) (fun r o => o = ipsOwn r) := by
  unfold ipsLoad
  cases wanted with
  | false => exact T.pure rfl
  | true =>
    simp only [if_true]
    refine (T_malloc ok).bind (F := ipsOwn cur) (by simp) fun p o ho => ?_
    subst ho
    cases p with
    | none => exact T.pure (by simp)
    | some b =>
      refine (T_bufsFill ok grows [bufInit, bufInit, bufInit, bufInit] ?_).bind (F := b :: ipsOwn cur)
        (by simp only [bufsOwn, List.flatMap_cons, List.flatMap_nil, bufInit_own, Option.toList]; perm) ?_
      · intro x hx
        simp only [List.mem_cons, List.not_mem_nil, or_false, or_self] at hx
        subst hx
        exact bufInit_wf
      rintro ts o ⟨-, rfl⟩
      refine (T_ipsFree cur).bind (F := bufsOwn ts ++ [b]) (by perm) ?_
      rintro - o rfl
      have e : T (ipsOwn (some ⟨b, ts⟩)) (pure (some ⟨b, ts⟩)) (fun r o => o = ipsOwn r) := T.pure rfl
      exact e.perm (by simp only [ipsOwn]; perm)

theorem T_ipsLife (ok : Ok) : ∀ (ls : List (Bool × List (Nat × Bool))) (cur : Option Ips), T (ipsOwn cur) (ipsLife ok ls cur) (fun _ o => o = [])
  | [], cur => T_ipsFree cur
  | (w, gs) :: ls, cur => by
    refine (T_ipsLoad ok cur w gs).bind (F := []) (by simp) ?_
    rintro cur' o rfl
    exact (T_ipsLife ok ls cur').perm (by simp)

def filterOwn : Option Filter → List Nat
  | none => []
  | some x => x.chunk.own ++ [x.block]

def FilterWf (x : Option Filter) : Prop := ∀ y, x = some y → y.chunk.Wf

theorem T_filterFree (x : Option Filter) : T (filterOwn x) (filterFree x) (fun _ o => o = []) := by
  cases x with
  | none => exact T.pure rfl
  | some x =>
    refine (T_chunkFree x.chunk).bind (F := [x.block]) (by simp only [filterOwn]; perm) ?_
    rintro - o rfl
    exact T_free_some _

theorem T_initChunk (ok : Ok) {x : Option Filter} (h : FilterWf x) : T (filterOwn x) (initChunk ok x) (fun r o => FilterWf r ∧ o = filterOwn r ∧
    (x.isSome = true → r = x)) := by
  cases x with
  | some x => exact T.pure ⟨h, rfl, fun _ => rfl⟩
  | none =>
    refine (T_malloc ok).bind (F := []) (by simp [filterOwn]) fun p o ho => ?_
    subst ho
    cases p with
    | none => exact T.pure ⟨by simp [FilterWf], rfl, by simp⟩
    | some b =>
      refine (T_chunkInit ok).bind (F := [b]) (by simp) ?_
      rintro (_ | c) o ho
      · subst ho
        refine (T_free_some b).bind (F := []) (by simp) ?_
        rintro - o rfl
        exact T.pure ⟨by simp [FilterWf], rfl, by simp⟩
      · obtain ⟨hw, rfl⟩ := ho
        refine T.pure ⟨?_, rfl, by simp⟩
        rintro y hy
        obtain rfl := Option.some.inj hy
        exact hw

theorem T_filterFill (ok : Ok) (parts : List Part) {x : Filter} (h : x.chunk.Wf) : T (filterOwn (some x)) (filterFill ok parts (some x)) (fun r o => FilterWf r ∧
    o = filterOwn r ∧ r.isSome = true) := by
  refine (T_chunkFill ok parts x.chunk h).bind (F := [x.block]) (by simp only [filterOwn]; perm) ?_
  rintro c o ⟨hw, rfl⟩
  refine T.pure ⟨?_, rfl, rfl⟩
  rintro y hy
  obtain rfl := Option.some.inj hy
  exact hw

theorem T_filterDomains (ok : Ok) (l : FilterLoad) : T [] (filterDomains ok l) (fun r o => match r with
    | none => o = []
    | some t => FilterWf t ∧ o = filterOwn t ∧ t.isSome = l.domains.isSome) := by
  unfold filterDomains
  split
  · next hd => exact T.pure ⟨by simp [FilterWf], rfl, by rw [hd]; rfl⟩
  · next parts hd =>
    refine (T_initChunk ok (x := none) (by simp [FilterWf])).bind (F := []) (by simp [filterOwn]) ?_
    rintro (_ | x) o ⟨hw, rfl, -⟩
    · exact T.pure rfl
    · refine (T_filterFill ok parts (hw x rfl)).bind (F := []) (by simp) ?_
      rintro x' o ⟨hw', rfl, hs⟩
      exact T.pure ⟨hw', by simp, by rw [hs, hd]; rfl⟩

/-- If `DisabledDomain` is set, or nothing is refused. -/
theorem T_filterLoad (ok : Ok) (cur : Option Filter) (l : FilterLoad) (h : l.domains.isSome = true ∨ l.files = none ∨ ok = Granted) :
    T (filterOwn cur) (filterLoad ok cur l) (fun r o => o = filterOwn r) := by
  unfold filterLoad
  refine (T_filterDomains ok l).bind (F := filterOwn cur) (by simp) ?_
  rintro (_ | t) o ho
  · subst ho
    exact T.pure rfl
  · obtain ⟨hw, rfl, hs⟩ := ho
    cases hf : l.files with
    | none =>
      refine (T_filterFree cur).bind (F := filterOwn t) (by perm) ?_
      rintro - o rfl
      exact T.pure rfl
    | some parts =>
      refine (T_initChunk ok hw |>.and (P := fun r => r.isSome = true ∨ (t = none ∧ ok ≠ Granted)) ?_).bind (F := filterOwn cur) (by perm) ?_
      · cases t with
        | some x => exact Post.pure (.inl rfl)
        | none =>
          by_cases hg : ok = Granted
          · subst hg
            refine granted_malloc.bind fun p hp => ?_
            obtain ⟨b, rfl⟩ := Option.isSome_iff_exists.mp hp
            have hc : Post (chunkInit Granted) (fun r => r.isSome = true) := by
              refine (granted_arrInit 7).bind ?_
              rintro r ⟨a, rfl, -⟩
              refine (Post.any _).bind fun _ _ => ?_
              refine granted_malloc.bind fun p hp => ?_
              obtain ⟨b, rfl⟩ := Option.isSome_iff_exists.mp hp
              exact Post.pure rfl
            refine hc.bind fun r hr => ?_
            obtain ⟨c, rfl⟩ := Option.isSome_iff_exists.mp hr
            exact Post.pure (.inl rfl)
          · exact fun _ _ _ _ => .inr ⟨rfl, hg⟩
      · rintro (_ | x) o ⟨⟨hw', rfl, hx⟩, hr⟩
        · rcases hr with hr | ⟨rfl, hg⟩
          · exact absurd hr (by simp)
          · rcases h with h | h | h
            · rw [← hs] at h; exact absurd h (by simp)
            · rw [hf] at h; exact absurd h (by simp)
            · exact absurd h hg
        · refine (T_filterFill ok parts (hw' x rfl)).bind (F := filterOwn cur) (List.Perm.refl _) ?_
          rintro x' o ⟨-, rfl, -⟩
          refine (T_filterFree cur).bind (F := filterOwn x') (by perm) ?_
          rintro - o rfl
          exact T.pure rfl

theorem T_filterLife (ok : Ok) : ∀ (ls : List FilterLoad) (cur : Option Filter),
    (∀ l ∈ ls, l.domains.isSome = true ∨ l.files = none ∨ ok = Granted) → T (filterOwn cur) (filterLife ok ls cur) (fun _ o => o = [])
  | [], cur, _ => T_filterFree cur
  | l :: ls, cur, h => by
    refine (T_filterLoad ok cur l (h l (by simp))).bind (F := []) (by simp) ?_
    rintro cur' o rfl
    exact (T_filterLife ok ls cur' fun x hx => h x (by simp [hx])).perm (by simp)

theorem granted_initChunk : Post (initChunk Granted none) (fun r => r.isSome = true) := by
  refine granted_malloc.bind fun p hp => ?_
  obtain ⟨b, rfl⟩ := Option.isSome_iff_exists.mp hp
  have hc : Post (chunkInit Granted) (fun r => r.isSome = true) := by
    refine (granted_arrInit 7).bind ?_
    rintro r ⟨a, rfl, -⟩
    refine (Post.any _).bind fun _ _ => ?_
    refine granted_malloc.bind fun p hp => ?_
    obtain ⟨b, rfl⟩ := Option.isSome_iff_exists.mp hp
    exact Post.pure rfl
  refine hc.bind fun r hr => ?_
  obtain ⟨c, rfl⟩ := Option.isSome_iff_exists.mp hr
  exact Post.pure rfl

def Map.own (m : Map) : List Nat := m.buf.own ++ [m.groups] ++ m.arr.own ++ [m.list] ++ m.dist.chunk.own ++ [m.dist.block] ++ [m.block]

def mapOwn : Option Map → List Nat
  | none => []
  | some m => m.own

structure Map.Wf (m : Map) : Prop where
  buf : m.buf.Wf
  arr : m.arr.Wf
  dist : m.dist.chunk.Wf

theorem T_mapFree (x : Option Map) : T (mapOwn x) (mapFree x) (fun _ o => o = []) := by
  cases x with
  | none => exact T.pure rfl
  | some m =>
    refine (T_bufFree m.buf).bind (F := [m.groups] ++ m.arr.own ++ [m.list] ++ m.dist.chunk.own ++ [m.dist.block] ++ [m.block])
      (by simp only [mapOwn, Map.own]; perm) ?_
    rintro - o rfl
    refine (T_free_some m.groups).bind (F := m.arr.own ++ [m.list] ++ m.dist.chunk.own ++ [m.dist.block] ++ [m.block]) (by perm) ?_
    rintro - o rfl
    refine T_arrFree.bind (F := [m.list] ++ m.dist.chunk.own ++ [m.dist.block] ++ [m.block]) (by perm) ?_
    rintro - o rfl
    refine (T_free_some m.list).bind (F := m.dist.chunk.own ++ [m.dist.block] ++ [m.block]) (by perm) ?_
    rintro - o rfl
    refine (T_chunkFree m.dist.chunk).bind (F := [m.dist.block] ++ [m.block]) (by perm) ?_
    rintro - o rfl
    refine (T_free_some m.dist.block).bind (F := [m.block]) (by perm) ?_
    rintro - o rfl
    exact T_free_some _

theorem T_mapFill (ok : Ok) : ∀ (ps : List MapPart) (m : Map), m.Wf → T m.own (mapFill ok ps m) (fun r o => r.Wf ∧ o = r.own)
  | [], _, h => T.pure ⟨h, rfl⟩
  | .dist p :: ps, m, h => by
    refine (T_chunkGrow ok h.dist p).bind (F := m.buf.own ++ [m.groups] ++ m.arr.own ++ [m.list] ++ [m.dist.block] ++ [m.block])
      (by simp only [Map.own]; perm) ?_
    rintro c o ⟨hw, rfl⟩
    exact (T_mapFill ok ps { m with dist := { m.dist with chunk := c } } ⟨h.buf, h.arr, hw⟩).perm (by simp only [Map.own]; perm)
  | .groups need :: ps, m, h => by
    refine (T_bufAdd ok h.buf need).bind (F := [m.groups] ++ m.arr.own ++ [m.list] ++ m.dist.chunk.own ++ [m.dist.block] ++ [m.block])
      (by simp only [Map.own]; perm) ?_
    rintro ⟨c, r⟩ o ⟨hw, rfl⟩
    exact (T_mapFill ok ps { m with buf := c } ⟨hw, h.arr, h.dist⟩).perm (by simp only [Map.own]; perm)
  | .list :: ps, m, h => by
    refine (T_arrPush ok h.arr).bind (F := m.buf.own ++ [m.groups] ++ [m.list] ++ m.dist.chunk.own ++ [m.dist.block] ++ [m.block])
      (by simp only [Map.own]; perm) ?_
    rintro ⟨c, r⟩ o ⟨hw, rfl, -⟩
    exact (T_mapFill ok ps { m with arr := c } ⟨h.buf, hw, h.dist⟩).perm (by simp only [Map.own]; perm)

theorem T_mapLoad (cur : Option Map) (l : MapLoad) : T (mapOwn cur) (mapLoad Granted cur l) (fun r o => o = mapOwn r) := by
  unfold mapLoad
  refine ((T_malloc Granted).and granted_malloc).bind (F := mapOwn cur) (by simp) ?_
  rintro r o ⟨ho, hr⟩
  subst ho
  obtain ⟨b, rfl⟩ := Option.isSome_iff_exists.mp hr
  refine ((T_initChunk Granted (x := none) (by simp [FilterWf])).and granted_initChunk).bind (F := b :: mapOwn cur) (by simp [filterOwn]) ?_
  rintro r o ⟨⟨hw, rfl, -⟩, hr⟩
  obtain ⟨d, rfl⟩ := Option.isSome_iff_exists.mp hr
  refine ((T_malloc Granted).and granted_malloc).bind (F := filterOwn (some d) ++ b :: mapOwn cur) (by simp) ?_
  rintro r o ⟨ho, hr⟩
  subst ho
  obtain ⟨g, rfl⟩ := Option.isSome_iff_exists.mp hr
  refine ((T_malloc Granted).and granted_malloc).bind (F := g :: (filterOwn (some d) ++ b :: mapOwn cur)) (by simp) ?_
  rintro r o ⟨ho, hr⟩
  subst ho
  obtain ⟨a, rfl⟩ := Option.isSome_iff_exists.mp hr
  refine (T_mapFill Granted l.parts ⟨b, d, g, bufInit, a, ⟨none, 0, 0⟩⟩ ⟨bufInit_wf, emptyArr_wf, hw d rfl⟩).bind (F := mapOwn cur)
    (by simp only [Map.own, filterOwn, bufInit_own, emptyArr_own, Option.toList]; perm) ?_
  rintro m o ⟨hm, rfl⟩
  split
  · refine (T_mapFree cur).bind (F := m.own) (by perm) ?_
    rintro - o rfl
    have e : T (mapOwn (some m)) (pure (some m)) (fun r o => o = mapOwn r) := T.pure rfl
    exact e
  · refine (T_mapFree (some m)).bind (F := mapOwn cur) (List.Perm.refl _) ?_
    rintro - o rfl
    exact T.pure rfl

theorem T_mapLife : ∀ (ls : List MapLoad) (cur : Option Map), T (mapOwn cur) (mapLife Granted ls cur) (fun _ o => o = [])
  | [], cur => T_mapFree cur
  | l :: ls, cur => by
    refine (T_mapLoad cur l).bind (F := []) (by simp) ?_
    rintro cur' o rfl
    exact (T_mapLife ls cur').perm (by simp)

end Verif.Memory
