import Verif.Lemmas.Answered
/-! Queries with one identifier that wait side by side. -/

namespace Verif.Forwarder
open Msg MContext Pipeline HostsLoop Keeps

variable {Addr : Type}

/-- The hash lies in the half of the circle of 32-bit numbers that begins with `base`. -/
def Near (base h : UInt32) : Prop := (h - base).toNat < 2147483648

theorem near_le {base a b : UInt32} (ha : Near base a) (hb : Near base b) : asInt32 (a - b) ≤ 0 ↔ (a - base).toNat ≤ (b - base).toNat := by
  unfold Near at ha hb
  have e1 := UInt32.toNat_sub a base
  have e2 := UInt32.toNat_sub b base
  have e3 := UInt32.toNat_sub a b
  unfold asInt32
  have := a.toNat_lt
  have := b.toNat_lt
  have := base.toNat_lt
  split <;> omega

theorem near_eq {base a b : UInt32} (h : (a - base).toNat = (b - base).toNat) : a = b := by
  rw [UInt32.toNat_sub, UInt32.toNat_sub] at h
  have := a.toNat_lt
  have := b.toNat_lt
  have := base.toNat_lt
  apply UInt32.toNat_inj.1
  omega

/-- By the identifier, and for the identifier `i` by the place on the half circle. -/
def winCompare {C : Type} (i : UInt16) (base : UInt32) (p q : Pending C) : Int :=
  if p.id.toNat ≠ q.id.toNat then (p.id.toNat : Int) - q.id.toNat
  else if p.id.toNat = i.toNat then ((p.hash - base).toNat : Int) - (q.hash - base).toNat else 0

theorem win_totalPreorder {C : Type} (i : UInt16) (base : UInt32) : TotalPreorder (winCompare (C := C) i base) := by
  constructor
  · intro a b
    unfold winCompare
    repeat' split
    all_goals omega
  · intro a b c
    unfold winCompare
    repeat' split
    all_goals omega

/-- Both are near if they have the identifier. -/
def NearIf {C : Type} (i : UInt16) (base : UInt32) (p : Pending C) : Prop := p.id = i → Near base p.hash

theorem win_le {C : Type} {i : UInt16} {base : UInt32} {p q : Pending C} (hp : NearIf i base p) (hq : NearIf i base q) (h : MContext.compare p q ≤ 0) :
    winCompare i base p q ≤ 0 := by
  unfold MContext.compare at h
  unfold winCompare
  split at h
  · rename_i hne
    rw [if_pos (fun e => hne (UInt16.toNat_inj.1 e))]
    exact h
  · rename_i he
    have he : p.id = q.id := Decidable.not_not.1 he
    rw [if_neg (by rw [he]; simp)]
    split
    · rename_i hi
      have hi := UInt16.toNat_inj.1 hi
      have := (near_le (hp hi) (hq (he ▸ hi))).1 h
      omega
    · omega

theorem asInt32_neg {a b : UInt32} {base : UInt32} (ha : Near base a) (hb : Near base b) (h : 0 ≤ asInt32 (a - b)) : (b - base).toNat ≤ (a - base).toNat := by
  by_cases he : asInt32 (a - b) ≤ 0
  · have h0 : asInt32 (a - b) = 0 := by omega
    have : (a - b).toNat = 0 := by
      unfold asInt32 at h0
      have := (a - b).toNat_lt
      split at h0 <;> omega
    rw [UInt32.toNat_sub] at this
    have h1 := a.toNat_lt
    have h2 := b.toNat_lt
    have : a = b := UInt32.toNat_inj.1 (by omega)
    rw [this]
    exact Nat.le_refl _
  · rcases Nat.le_total (b - base).toNat (a - base).toNat with h | h
    · exact h
    · exact absurd ((near_le ha hb).2 h) he

theorem win_ge {C : Type} {i : UInt16} {base : UInt32} {p q : Pending C} (hp : NearIf i base p) (hq : NearIf i base q) (h : 0 ≤ MContext.compare p q) :
    winCompare i base q p ≤ 0 := by
  unfold MContext.compare at h
  unfold winCompare
  split at h
  · rename_i hne
    rw [if_pos (fun e => hne (UInt16.toNat_inj.1 e).symm)]
    omega
  · rename_i he
    have he : p.id = q.id := Decidable.not_not.1 he
    rw [if_neg (by rw [he]; simp)]
    split
    · rename_i hi
      have hi := UInt16.toNat_inj.1 hi
      have := asInt32_neg (hp (he.trans hi)) (hq hi) h
      omega
    · omega

theorem ordered_insert_win {C : Type} {i : UInt16} {base : UInt32} (a : Nat) (x : Pending C) (t : Bst.Tree (Pending C)) (hx : NearIf i base x)
    (hn : ∀ e ∈ t.toList, NearIf i base e.2) (h : t.Ordered (winCompare i base)) : (t.insert MContext.compare a x).Ordered (winCompare i base) := by
  induction t with
  | nil => simp [Bst.Tree.insert, Bst.Tree.Ordered, Bst.Tree.toList]
  | node l b y r ihl ihr =>
    obtain ⟨h1, h2, h3, h4⟩ := h
    have hy : NearIf i base y := hn (b, y) (by simp [Bst.Tree.toList])
    unfold Bst.Tree.insert
    split
    · rename_i hxy
      refine ⟨?_, h2, ihl (fun e he => hn e (by simp [Bst.Tree.toList, he])) h3, h4⟩
      intro e he
      rw [(Bst.Tree.toList_insert MContext.compare a x l).mem_iff] at he
      rcases List.mem_cons.1 he with rfl | he
      · exact win_le hx hy hxy
      · exact h1 e he
    · rename_i hxy
      refine ⟨h1, ?_, h3, ihr (fun e he => hn e (by simp [Bst.Tree.toList, he])) h4⟩
      intro e he
      rw [(Bst.Tree.toList_insert MContext.compare a x r).mem_iff] at he
      rcases List.mem_cons.1 he with rfl | he
      · exact win_ge hx hy (show 0 ≤ MContext.compare x y by omega)
      · exact h2 e he

theorem foldl_delete_win {C : Type} {i : UInt16} {base : UInt32} (old : List (Nat × Pending C)) : ∀ {c : Table C}, c.root.Ordered (winCompare i base) →
    (old.foldl (fun s e => s.delete e.1) c).root.Ordered (winCompare i base) := by
  induction old with
  | nil => exact fun h => h
  | cons e es ih => exact fun h => ih (Bst.Tree.delete_ordered (win_totalPreorder i base) _ _ h)

/-- Without entries with the identifier, only the identifiers matter. -/
theorem ordered_win_of_id {C : Type} {i : UInt16} {base : UInt32} {t : Bst.Tree (Pending C)} (hn : ∀ e ∈ t.toList, e.2.id ≠ i) (h : t.Ordered idCompare) :
    t.Ordered (winCompare i base) := by
  induction t with
  | nil => trivial
  | node l b y r ihl ihr =>
    obtain ⟨h1, h2, h3, h4⟩ := h
    have key : ∀ p q : Pending C, p.id ≠ i → idCompare p q ≤ 0 → winCompare i base p q ≤ 0 := by
      intro p q hp hle
      unfold winCompare
      unfold idCompare at hle
      split
      · exact hle
      · rw [if_neg (fun e => hp (UInt16.toNat_inj.1 e))]
        omega
    exact ⟨fun e he => key _ _ (hn e (by simp [Bst.Tree.toList, he])) (h1 e he), fun e he => key _ _ (hn (b, y) (by simp [Bst.Tree.toList])) (h2 e he),
      ihl (fun e he => hn e (by simp [Bst.Tree.toList, he])) h3, ihr (fun e he => hn e (by simp [Bst.Tree.toList, he])) h4⟩

/-- A query that waits is found. -/
theorem search_win {C : Type} {i : UInt16} {base : UInt32} {k : Pending C} {t : Bst.Tree (Pending C)} (ho : t.Ordered (winCompare i base)) (hki : k.id = i)
    (hk : Near base k.hash) (hn : ∀ e ∈ t.toList, NearIf i base e.2) (he : ∃ e ∈ t.toList, e.2.id = i ∧ e.2.hash = k.hash) :
    ∃ r, t.search MContext.compare k = some r := by
  induction t with
  | nil => obtain ⟨e, h, _⟩ := he; simp [Bst.Tree.toList] at h
  | node l b y r ihl ihr =>
    obtain ⟨h1, h2, h3, h4⟩ := ho
    have hy : NearIf i base y := hn (b, y) (by simp [Bst.Tree.toList])
    unfold Bst.Tree.search
    split
    · exact ⟨_, rfl⟩
    · rename_i hne
      obtain ⟨e, hem, hei, heh⟩ := he
      have hek : ∀ z : Pending C, winCompare i base e.2 z = winCompare i base k z := by
        intro z
        unfold winCompare
        rw [hei, heh, hki]
      have hez : ∀ z : Pending C, winCompare i base z e.2 = winCompare i base z k := by
        intro z
        unfold winCompare
        rw [hei, heh, hki]
      have hzero : ¬ (winCompare i base k y ≤ 0 ∧ winCompare i base y k ≤ 0) := by
        rintro ⟨w1, w2⟩
        unfold winCompare at w1 w2
        have hid : k.id.toNat = y.id.toNat := by
          false_or_by_contra
          rename_i hc
          rw [if_pos hc] at w1
          rw [if_pos (Ne.symm hc)] at w2
          omega
        rw [if_neg (by omega), if_pos (by rw [hki])] at w1
        rw [if_neg (by omega), if_pos (by rw [← hid, hki])] at w2
        exact hne (compare_zero_of (UInt16.toNat_inj.1 hid) (near_eq (base := base) (by omega)))
      have hey : e ≠ (b, y) := by
        rintro rfl
        exact hne (compare_zero_of (hki.trans hei.symm) heh.symm)
      simp only [Bst.Tree.toList, List.mem_append, List.mem_cons] at hem
      split
      · rename_i hlt
        refine ihl h3 (fun e he => hn e (by simp [Bst.Tree.toList, he])) ?_
        rcases hem with hem | hem | hem
        · exact ⟨e, hem, hei, heh⟩
        · exact absurd hem hey
        · have := h2 e hem
          rw [hez] at this
          exact absurd ⟨win_le (fun _ => hk) hy (by omega), this⟩ hzero
      · rename_i hlt
        refine ihr h4 (fun e he => hn e (by simp [Bst.Tree.toList, he])) ?_
        rcases hem with hem | hem | hem
        · have := h1 e hem
          rw [hek] at this
          exact absurd ⟨this, win_ge (fun _ => hk) hy (by omega)⟩ hzero
        · exact absurd hem hey
        · exact ⟨e, hem, hei, heh⟩

/-- All queries with the identifier `i` at the module have `P`, and those on their way to it also `Q`. -/
structure Shared (P Q : Head Addr → Prop) (i : UInt16) (base : UInt32) (d : Module (Dest Addr)) : Prop where
  table : ∀ p ∈ waiting d.table, p.hash = p.client.hash ∧ (p.id = i → P p.client)
  inbox : ∀ m ∈ d.inbox, ident m.entity = i → P m ∧ Q m
  order : d.table.root.Ordered (winCompare i base)

theorem Shared.near {P Q : Head Addr → Prop} {i : UInt16} {base : UInt32} {d : Module (Dest Addr)} (h : Shared P Q i base d) (hn : ∀ m, P m → Near base m.hash) :
    ∀ e ∈ d.table.root.toList, NearIf i base e.2 := by
  intro e he hi
  obtain ⟨h1, h2⟩ := h.table e.2 (List.mem_map_of_mem he)
  rw [h1]
  exact hn _ (h2 hi)

theorem Shared.init {P Q : Head Addr → Prop} {i : UInt16} {base : UInt32} {d : Module (Dest Addr)} (h1 : d.table = Bst.State.init) (h2 : d.inbox = []) :
    Shared P Q i base d :=
  ⟨by rw [h1]; intro p hp; simp [waiting, Bst.State.init, Bst.Tree.toList] at hp, by rw [h2]; exact (by simp), by rw [h1]; exact trivial⟩

theorem shared_moves {P Q : Head Addr → Prop} (hP : Stays P) {S : Head Addr → Prop} {i : UInt16} {base : UInt32} (hnear : ∀ m, P m → Near base m.hash)
    {ev : Ev Addr} {acts : List (Act Addr)} {k : Nat} {d d' : Module (Dest Addr)} (hev : ∀ m, S m → ident m.entity = i → P m ∧ Q m)
    (hi : Bst.Inv d.table) (h : Shared P Q i base d) (hm : Moves S ev acts k d d') : Shared P Q i base d' := by
  have hadd : ∀ {now : Int} {m : Head Addr} {p : Pending (Head Addr)}, Holds m p → (ident m.entity = i → P m) →
      ∀ q ∈ waiting (MContext.add d.table now p), q.hash = q.client.hash ∧ (q.id = i → P q.client) := by
    intro now m p hh hp q hq
    rcases List.mem_cons.1 ((add_contents d.table now p).mem_iff.1 hq) with rfl | hq
    · exact ⟨hh.hash, fun hid => hP m _ hh.same (hp (hh.id.symm.trans hid))⟩
    · exact h.table q hq
  have hord : ∀ {now : Int} {m : Head Addr} {p : Pending (Head Addr)}, Holds m p → (ident m.entity = i → P m) →
      (MContext.add d.table now p).root.Ordered (winCompare i base) := by
    intro now m p hh hp
    refine ordered_insert_win _ _ _ (fun hid => ?_) (h.near hnear) h.order
    show Near base p.hash
    rw [hh.hash]
    exact hnear _ (hP m _ hh.same (hp (hh.id.symm.trans hid)))
  cases hm with
  | keeps h1 h2 _ => exact ⟨by rw [h1]; exact h.table, fun m hm => h.inbox m (h2 m hm), by rw [h1]; exact h.order⟩
  | sends m p hs hl hh h1 h2 _ =>
    exact ⟨by rw [h1]; exact hadd hh (fun e => (hev m hs e).1), by rw [h2]; exact h.inbox, by rw [h1]; exact hord hh (fun e => (hev m hs e).1)⟩
  | queues m hs hl h1 h2 _ =>
    refine ⟨by rw [h1]; exact h.table, ?_, by rw [h1]; exact h.order⟩
    rw [h2]
    intro x hx
    rcases List.mem_append.1 hx with hx | hx
    · exact h.inbox x hx
    · rw [List.mem_singleton.1 hx]; exact hev m hs
  | takes m p n now rest hmem he hh h1 h2 _ =>
    exact ⟨by rw [h1]; exact hadd hh (fun e => (h.inbox m hmem e).1), fun x hx => h.inbox x (h2 x hx),
      by rw [h1]; exact hord hh (fun e => (h.inbox m hmem e).1)⟩
  | answers a p b len fuel bn clock he hp hid h1 h2 _ =>
    refine ⟨?_, by rw [h2]; exact h.inbox, ?_⟩
    · rw [h1]
      exact fun q hq => h.table q ((delete_contents hi hp).mem_iff.2 (List.mem_cons_of_mem _ hq))
    · rw [h1]
      exact Bst.Tree.delete_ordered (win_totalPreorder i base) _ _ h.order
  | sweeps now he h1 h2 _ =>
    refine ⟨?_, by rw [h2]; exact h.inbox, ?_⟩
    · obtain ⟨_, s2, _⟩ := sweep_spec hi now
      have hs : (waiting (MContext.sweep d.table now).2).Sublist (waiting d.table) := by
        unfold waiting; rw [s2]; exact List.filter_sublist.map _
      rw [h1]
      exact fun q hq => h.table q (hs.subset hq)
    · rw [h1]
      exact foldl_delete_win _ h.order

/-- A query with the identifier `i` and the hash `hs` waits since `t` or later. -/
def Awaits (i : UInt16) (hs : UInt32) (t : Int) (d : Module (Dest Addr)) : Prop := ∃ p ∈ waiting d.table, p.id = i ∧ p.hash = hs ∧ t ≤ p.timestamp

theorem awaits_moves {S : Head Addr → Prop} {i : UInt16} {hv : UInt32} {t : Int} {ev : Ev Addr} {acts : List (Act Addr)} {k : Nat} {d d' : Module (Dest Addr)}
    (hr : ∀ b len fuel bn clock, ev = .response k b len fuel bn clock → ident b = i → ∀ (g h0 : Head Addr) (back : Option (Dest Addr)) (sock : Nat)
      (agent : List Byte) (c : Int), fill g false b len back sock agent fuel = some (c, h0) → h0.hash ≠ hv)
    (hs : ∀ now, ev = .sweep k now → now - t ≤ 2)
    (hi : Bst.Inv d.table) (h : Awaits i hv t d) (hm : Moves S ev acts k d d') : Awaits i hv t d' := by
  obtain ⟨q, hq, hqi, hqh, hqt⟩ := h
  have hadd : ∀ {now : Int} {p : Pending (Head Addr)}, q ∈ waiting (MContext.add d.table now p) :=
    (add_contents d.table _ _).mem_iff.2 (List.mem_cons_of_mem _ hq)
  cases hm with
  | keeps h1 _ _ => exact ⟨q, by rw [h1]; exact hq, hqi, hqh, hqt⟩
  | sends m p _ _ _ h1 _ _ => exact ⟨q, by rw [h1]; exact hadd, hqi, hqh, hqt⟩
  | queues m _ _ h1 _ _ => exact ⟨q, by rw [h1]; exact hq, hqi, hqh, hqt⟩
  | takes m p n now rest _ _ _ h1 _ _ => exact ⟨q, by rw [h1]; exact hadd, hqi, hqh, hqt⟩
  | answers a p b len fuel bn clock he hp hid h1 _ _ h4 =>
    refine ⟨q, ?_, hqi, hqh, hqt⟩
    rw [h1]
    rcases List.mem_cons.1 ((delete_contents hi hp).mem_iff.1 hq) with rfl | hq
    · obtain ⟨g, h0, back, sock, agent, c, e1, e2⟩ := h4
      exact absurd (e2.symm.trans hqh) (hr _ _ _ _ _ he (hid.symm.trans hqi) g h0 back sock agent c e1)
    · exact hq
  | sweeps now he h1 _ _ =>
    refine ⟨q, ?_, hqi, hqh, hqt⟩
    rw [h1]
    obtain ⟨_, s2, _⟩ := sweep_spec hi now
    unfold waiting at hq ⊢
    rw [s2]
    obtain ⟨x, hx, rfl⟩ := List.mem_map.1 hq
    refine List.mem_map_of_mem (List.mem_filter.2 ⟨hx, ?_⟩)
    have := hs now he
    simp only [expired, gt_iff_lt, Bool.not_eq_eq_eq_not, Bool.not_true, decide_eq_false_iff_not]
    omega

end Verif.Forwarder
