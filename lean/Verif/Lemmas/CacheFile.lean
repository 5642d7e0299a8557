import Verif.Model.CacheFile
import Verif.Lemmas.CacheRun
/-! The single stores of the cache's operations. -/

namespace Verif.CacheFile
open Verif.CacheHT Verif.Cache

/-! ### stores into the index -/

def onAll (h : HT) (ws : List W) : HT := ws.foldl W.onHT h

@[simp] theorem onAll_nil (h : HT) : onAll h [] = h := rfl
@[simp] theorem onAll_cons (h : HT) (w : W) (ws : List W) : onAll h (w :: ws) = onAll (w.onHT h) ws := rfl
theorem onAll_append (h : HT) (a b : List W) : onAll h (a ++ b) = onAll (onAll h a) b := by simp [onAll]

theorem set_set (h : HT) (i : Nat) (a b : Node) : (h.set i a).set i b = h.set i b := by
  simp only [HT.set, HT.mk.injEq, and_true]
  funext j
  split <;> rfl

theorem linkW_on (h : HT) (pre : Option Nat) (v : Int) : (linkW pre v).onHT h = link h pre v := by
  cases pre <;> rfl

/-- `P` holds before every store and at the end. -/
def AlongH (P : HT → Prop) : List W → HT → Prop
  | [], h => P h
  | w :: ws, h => P h ∧ AlongH P ws (w.onHT h)

theorem alongH_append {P : HT → Prop} {a b : List W} {h : HT} (h1 : AlongH P a h) (h2 : AlongH P b (onAll h a)) :
    AlongH P (a ++ b) h := by
  induction a generalizing h with
  | nil => exact h2
  | cons w a ih => exact ⟨h1.1, ih h1.2 h2⟩

theorem alongH_mono {P Q : HT → Prop} (hpq : ∀ h, P h → Q h) {a : List W} {h : HT} (h1 : AlongH P a h) : AlongH Q a h := by
  induction a generalizing h with
  | nil => exact hpq _ h1
  | cons w a ih => exact ⟨hpq _ h1.1, ih h1.2⟩

theorem alongH_end {P : HT → Prop} {a : List W} {h : HT} (h1 : AlongH P a h) : P (onAll h a) := by
  induction a generalizing h with
  | nil => exact h1
  | cons w a ih => exact ih h1.2

theorem ageW_on (now : Int) (h : HT) (pre : Option Nat) (c : Nat) : onAll h (ageW now h pre c) = age now h pre c := by
  cases pre with
  | none => rfl
  | some p =>
    simp only [ageW, age]
    split
    · simp only [onAll_cons, onAll_nil, W.onHT, set_same, set_set]
    · rfl

/-- The free list holds groups of the nodes of `F0`; the others of them, `D`, are lost. -/
def Lost (h0 : HT) (F0 : List Grp) (h : HT) : Prop :=
  ∃ D F, FreeOk h F ∧ Near h0 h (flat F0) ∧ (D ++ flat F).Perm (flat F0)

theorem Lost.refl {h : HT} {F : List Grp} (hf : FreeOk h F) : Lost h F h := ⟨[], F, hf, .refl _ _, .refl _⟩

/-- Counts and times of free nodes. -/
theorem Lost.soft {h0 h : HT} {F0 F : List Grp} {D : List Nat} {i : Nat} {n : Node} (hf : FreeOk h F) (hn : Near h0 h (flat F0))
    (hp : (D ++ flat F).Perm (flat F0)) (hi : i ∈ flat F0) (h1 : n.slot = (h.nodes i).slot) (h2 : n.next = (h.nodes i).next)
    (h3 : n.length = (h.nodes i).length) (h4 : n.offset = (h.nodes i).offset) (h5 : n.ttl = (h.nodes i).ttl) :
    FreeOk (h.set i n) F ∧ Near h0 (h.set i n) (flat F0) ∧ (D ++ flat F).Perm (flat F0) :=
  ⟨hf.sameLinks (set_sameLinks _ _ _ h1 h2 h3), hn.trans (Near.set hi _ h4 h3 h5), hp⟩

theorem ageW_along {now : Int} {h : HT} {pre : Option Nat} {c : Nat} {F : List Grp} (hf : FreeOk h F)
    (hp : ∀ p ∈ pre, p ∈ flat F) : AlongH (Lost h F) (ageW now h pre c) h := by
  cases pre with
  | none => exact Lost.refl hf
  | some p =>
    have hm := hp p rfl
    simp only [ageW]
    split
    · obtain ⟨a1, a2, a3⟩ := Lost.soft (D := []) (n := { h.nodes p with used := (h.nodes c).used }) hf (.refl h _) (.refl _) hm rfl rfl rfl rfl rfl
      refine ⟨Lost.refl hf, ⟨_, _, a1, a2, a3⟩, ?_⟩
      obtain ⟨b1, b2, b3⟩ := Lost.soft (n := { (h.set p { h.nodes p with used := (h.nodes c).used }).nodes p with added := now }) a1 a2 a3 hm rfl rfl rfl rfl rfl
      exact ⟨_, _, b1, b2, b3⟩
    · exact Lost.refl hf

/-- A group head's link changed in a node that is not a head. -/
theorem FreeOk.set_slot {h : HT} {F : List Grp} (hf : FreeOk h F) {e : Nat} (he : e ∉ F.map Prod.fst) (v : Int) :
    FreeOk (h.set e { h.nodes e with slot := v }) F := by
  refine ⟨seg_congr (fun i hi => ?_) hf.heads, fun g hg => (hf.grp g hg).congr (fun i _ => ?_) (fun i => ?_), hf.nodup, hf.lt⟩
  · rw [set_other _ _ (by rintro rfl; exact he hi)]
  · by_cases x : i = e
    · subst x; rw [set_same]
    · rw [set_other _ _ x]
  · by_cases x : i = e
    · subst x; rw [set_same]
    · rw [set_other _ _ x]

/-- The stores of `unlink` make `unlink`. -/
theorem unlinkW_on {now : Int} {h : HT} {grand pre : Option Nat} {c : Nat}
    (hlt : (h.nodes c).next ≥ 0 → (h.nodes c).next.toNat < h.used ∧ (h.nodes c).next.toNat ≠ c)
    (hpre : ∀ p ∈ pre, p ≠ c ∧ ((h.nodes c).next ≥ 0 → p ≠ (h.nodes c).next.toNat)) :
    unlink now h grand pre c = some (onAll h (unlinkW now h grand pre c)) := by
  unfold unlink unlinkW
  simp only [onAll_append, onAll_cons, onAll_nil, W.onHT, set_same, set_set]
  by_cases hn : (h.nodes c).next ≥ 0
  · obtain ⟨h1, h2⟩ := hlt hn
    simp only [hn, if_true]
    have hu : (h.set c { h.nodes c with added := now, used := (h.nodes c).used + 1 }).used = h.used := rfl
    simp only [hu, h1, if_true, onAll_append, onAll_cons, onAll_nil, W.onHT, set_same, set_set]
    cases pre with
    | none => rfl
    | some p =>
      have hp := hpre p rfl
      have hpe := hp.2 hn
      simp only [set_other _ _ hpe, set_other _ _ hp.1]
      split
      · rfl
      · simp only [onAll_cons, onAll_nil, linkW_on]
        simp only [W.onHT, set_other _ _ (Ne.symm hpe), set_other _ _ hpe, set_same, set_other _ _ hp.1]
  · simp only [hn, if_false, onAll_cons, onAll_nil, linkW_on]

theorem unlinkW_along {now : Int} {h : HT} {G F : List Grp} {c : Nat} {l : List Nat} (hf : FreeOk h (G ++ (c, l) :: F)) :
    AlongH (fun h' => ∃ D F', FreeOk h' F' ∧ Near h h' (flat (G ++ (c, l) :: F)) ∧ (D ++ flat F').Perm (flat (G ++ (c, l) :: F)))
      (unlinkW now h (lastHead G.dropLast) (lastHead G) c) h ∧
    ∃ F', unlink now h (lastHead G.dropLast) (lastHead G) c = some (onAll h (unlinkW now h (lastHead G.dropLast) (lastHead G) c)) ∧
      FreeOk (onAll h (unlinkW now h (lastHead G.dropLast) (lastHead G) c)) F' ∧
      (flat (G ++ (c, l) :: F)).Perm (c :: flat F') ∧
      Near h (onAll h (unlinkW now h (lastHead G.dropLast) (lastHead G) c)) (flat (G ++ (c, l) :: F)) := by
  have hnd' : (flat G ++ ((c :: l) ++ flat F)).Nodup := by simpa using hf.nodup
  obtain ⟨dG, dcl, dF, dGcl, dGF, dclF⟩ := nodup_mid hnd'
  have hgc : GrpOk h (c, l) := hf.grp (c, l) (by simp)
  have hon : unlink now h (lastHead G.dropLast) (lastHead G) c = some (onAll h (unlinkW now h (lastHead G.dropLast) (lastHead G) c)) := by
    apply unlinkW_on
    · intro hn
      cases l with
      | nil => have : (h.nodes c).next = -1 := hgc.1; omega
      | cons e l =>
        have hnext : (h.nodes c).next = (e : Int) := hgc.1.1
        rw [hnext, Int.toNat_natCast]
        refine ⟨hf.lt e (by simp), fun x => ?_⟩
        subst x
        simp at dcl
    · intro p hp
      have hpG := lastHead_mem hp
      refine ⟨dGcl p hpG c (by simp), fun hn => ?_⟩
      cases l with
      | nil => have : (h.nodes c).next = -1 := hgc.1; omega
      | cons e l =>
        have hnext : (h.nodes c).next = (e : Int) := hgc.1.1
        rw [hnext, Int.toNat_natCast]
        exact dGcl p hpG e (by simp)
  obtain ⟨h', F', e', hf', hp', hn'⟩ := unlink_ok (now := now) hf
  rw [hon] at e'
  cases e'
  refine ⟨?_, F', hon, hf', hp', hn'⟩
  have hfin : ∃ D F', FreeOk (onAll h (unlinkW now h (lastHead G.dropLast) (lastHead G) c)) F' ∧
      Near h (onAll h (unlinkW now h (lastHead G.dropLast) (lastHead G) c)) (flat (G ++ (c, l) :: F)) ∧
      (D ++ flat F').Perm (flat (G ++ (c, l) :: F)) := ⟨[c], F', hf', hn', hp'.symm⟩
  generalize hF0 : flat (G ++ (c, l) :: F) = F0 at *
  have hcF : c ∈ F0 := by rw [← hF0]; simp
  have s1 : FreeOk (h.set c { h.nodes c with added := now }) (G ++ (c, l) :: F) ∧ Near h (h.set c { h.nodes c with added := now }) F0 :=
    ⟨hf.sameLinks (set_sameLinks _ _ _ rfl rfl rfl), Near.set hcF _ rfl rfl rfl⟩
  have s2 : FreeOk (h.set c { h.nodes c with added := now, used := (h.nodes c).used + 1 }) (G ++ (c, l) :: F) ∧
      Near h (h.set c { h.nodes c with added := now, used := (h.nodes c).used + 1 }) F0 :=
    ⟨hf.sameLinks (set_sameLinks _ _ _ rfl rfl rfl), Near.set hcF _ rfl rfl rfl⟩
  unfold unlinkW at hfin ⊢
  simp only [List.cons_append, List.nil_append] at hfin ⊢
  refine ⟨⟨[], _, hf, .refl _ _, by rw [← hF0]; exact .refl _⟩, ⟨[], _, s1.1, s1.2, by rw [← hF0]; exact .refl _⟩, ?_⟩
  simp only [onAll_cons, W.onHT, set_same, set_set] at hfin ⊢
  generalize hh2 : h.set c { h.nodes c with added := now, used := (h.nodes c).used + 1 } = h2 at *
  have hn2 : ∀ j, j ≠ c → h2.nodes j = h.nodes j := by intro j hj; rw [← hh2]; exact set_other _ _ hj
  have hc2 : (h2.nodes c).slot = (h.nodes c).slot := by rw [← hh2, set_same]
  cases l with
  | nil =>
    have hnext : (h.nodes c).next = -1 := hgc.1
    rw [hnext] at hfin ⊢
    simp only [ge_iff_le, show ¬ ((0 : Int) ≤ -1) by omega, if_false] at hfin ⊢
    exact ⟨⟨[], _, s2.1, s2.2, by rw [← hF0]; exact .refl _⟩, hfin⟩
  | cons e l =>
    have hnext : (h.nodes c).next = (e : Int) := hgc.1.1
    rw [hnext] at hfin ⊢
    simp only [ge_iff_le, show (0 : Int) ≤ (e : Int) by omega, if_true, Int.toNat_natCast] at hfin ⊢
    have heF : e ∈ F0 := by rw [← hF0]; simp
    have hec : e ≠ c := by rintro rfl; simp at dcl
    have heh : e ∉ (G ++ (c, e :: l) :: F).map Prod.fst := by
      simp only [List.map_append, List.map_cons, List.mem_append, List.mem_cons, not_or]
      exact ⟨fun x => dGcl e (head_mem_flat x) e (by simp) rfl, hec, fun x => dclF e (by simp) e (head_mem_flat x) rfl⟩
    have s3 : FreeOk (h2.set e { h2.nodes e with slot := (h.nodes c).slot }) (G ++ (c, e :: l) :: F) ∧
        Near h (h2.set e { h2.nodes e with slot := (h.nodes c).slot }) F0 :=
      ⟨FreeOk.set_slot s2.1 heh _, s2.2.trans (Near.set heF _ rfl rfl rfl)⟩
    have s4 : FreeOk (h2.set e { h2.nodes e with slot := (h.nodes c).slot, added := now }) (G ++ (c, e :: l) :: F) ∧
        Near h (h2.set e { h2.nodes e with slot := (h.nodes c).slot, added := now }) F0 := by
      have := s3.1.sameLinks (set_sameLinks (h2.set e { h2.nodes e with slot := (h.nodes c).slot }) e
        { h2.nodes e with slot := (h.nodes c).slot, added := now } (by rw [set_same]) (by rw [set_same]) (by rw [set_same]))
      rw [set_set] at this
      exact ⟨this, s2.2.trans (Near.set heF _ rfl rfl rfl)⟩
    have s5 : FreeOk (h2.set e { h2.nodes e with slot := (h.nodes c).slot, added := now, used := (h.nodes c).used + 1 }) (G ++ (c, e :: l) :: F) ∧
        Near h (h2.set e { h2.nodes e with slot := (h.nodes c).slot, added := now, used := (h.nodes c).used + 1 }) F0 := by
      have := s3.1.sameLinks (set_sameLinks (h2.set e { h2.nodes e with slot := (h.nodes c).slot }) e
        { h2.nodes e with slot := (h.nodes c).slot, added := now, used := (h.nodes c).used + 1 } (by rw [set_same]) (by rw [set_same]) (by rw [set_same]))
      rw [set_set] at this
      exact ⟨this, s2.2.trans (Near.set heF _ rfl rfl rfl)⟩
    have w : ∀ {h' : HT}, FreeOk h' (G ++ (c, e :: l) :: F) ∧ Near h h' F0 →
        ∃ D F', FreeOk h' F' ∧ Near h h' F0 ∧ (D ++ flat F').Perm F0 :=
      fun x => ⟨[], _, x.1, x.2, by rw [← hF0]; exact .refl _⟩
    refine ⟨w s2, w s3, ?_⟩
    simp only [onAll_cons, W.onHT, set_same, set_set] at hfin ⊢
    refine ⟨w s4, ?_⟩
    simp only [W.onHT, set_same, set_set]
    by_cases hG : G = []
    · subst hG
      exact ⟨w s5, hfin⟩
    · obtain ⟨G', g, rfl⟩ := last_split hG
      rw [lastHead_snoc] at hfin ⊢
      simp only [List.dropLast_concat] at hfin ⊢
      split at hfin
      · rename_i hlt
        rw [if_pos hlt]
        exact ⟨w s5, hfin⟩
      · rename_i hlt
        rw [if_neg hlt]
        refine ⟨w s5, ?_⟩
        generalize hh5 : h2.set e { h2.nodes e with slot := (h.nodes c).slot, added := now, used := (h.nodes c).used + 1 } = h5 at *
        have hgF0 : g.1 ∈ F0 := by rw [← hF0]; simp
        have hge : g.1 ≠ e := fun x => dGcl g.1 (by simp) e (by simp) x
        have hseg := s5.1.heads
        simp only [List.map_append, List.map_cons, List.map_nil] at hseg
        obtain ⟨u, hsG, hu, hsF⟩ := seg_append.1 hseg
        have hcs : (h5.nodes c).slot = (h.nodes c).slot := by
          rw [← hh5, set_other _ _ (Ne.symm hec)]; exact hc2
        -- the two groups are bypassed
        have s6 : FreeOk ((W.slot g.1 (h.nodes c).slot).onHT h5) (G' ++ [g] ++ F) := by
          have e6 : (W.slot g.1 (h.nodes c).slot).onHT h5 = link h5 (lastHead (G' ++ [g])) (h.nodes c).slot := by
            rw [lastHead_snoc]; rfl
          rw [e6]
          refine ⟨?_, fun k hk => ?_, ?_, fun i hi => ?_⟩
          · rw [List.map_append]
            refine seg_append.2 ⟨_, link_heads _ dG (by simpa using hsG), ?_⟩
            dsimp only at hsF
            rw [hcs] at hsF
            refine seg_congr (fun i hi => ?_) hsF
            rw [link_slot_other]
            intro p hp x
            subst x
            exact dGF _ (lastHead_mem hp) _ (head_mem_flat hi) rfl
          · refine (s5.1.grp k ?_).congr (fun i _ => link_next _ _ _ _) (fun i => ?_)
            · simp only [List.mem_append, List.mem_cons, List.not_mem_nil, or_false] at hk ⊢; grind
            · exact (Near.link (X := F0) (fun p hp => by rw [lastHead_snoc] at hp; cases hp; exact hgF0) _).length i
          · rw [flat_append]; exact List.nodup_append.2 ⟨dG, dF, dGF⟩
          · have : (link h5 (lastHead (G' ++ [g])) (h.nodes c).slot).used = h5.used := by rw [lastHead_snoc]; rfl
            rw [this]
            apply s5.1.lt
            simp only [flat_append, flat_cons, List.mem_append, List.mem_cons] at hi ⊢; grind
        have n6 : Near h ((W.slot g.1 (h.nodes c).slot).onHT h5) F0 := s5.2.trans (Near.set hgF0 _ rfl rfl rfl)
        have p6 : (c :: e :: l ++ flat (G' ++ [g] ++ F)).Perm F0 := by
          rw [← hF0, flat_append (G' ++ [g]), flat_append (G' ++ [g])]
          have e1 : flat ((c, e :: l) :: F) = (c :: e :: l) ++ flat F := by simp
          rw [e1, ← List.append_assoc, ← List.append_assoc]
          exact (List.perm_append_comm (l₁ := c :: e :: l) (l₂ := flat (G' ++ [g]))).append_right _
        refine ⟨⟨c :: e :: l, _, s6, n6, p6⟩, ?_⟩
        have he6 : e ∉ flat (G' ++ [g] ++ F) := by
          rw [flat_append, List.mem_append, not_or]
          exact ⟨fun x => dGcl e x e (by simp) rfl, fun x => dclF e (by simp) e x rfl⟩
        exact ⟨⟨c :: e :: l, _, s6.set_other he6 _, n6.trans (Near.set heF _ rfl rfl rfl), p6⟩, hfin⟩

theorem Lost.trans {h0 h1 h2 : HT} {F0 : List Grp} (n : Near h0 h1 (flat F0)) (l : Lost h1 F0 h2) : Lost h0 F0 h2 := by
  obtain ⟨D, F, a, b, c⟩ := l
  exact ⟨D, F, a, n.trans b, c⟩

/-- The search for a free chunk: what the stores leave behind. -/
theorem findW_along {now : Int} {chunk : Nat} (F2 : List Grp) : ∀ {h : HT} {G : List Grp} {cur : Int} {fuel : Nat},
    FreeOk h (G ++ F2) → Seg (fun i => (h.nodes i).slot) h.free (G.map Prod.fst) cur →
    Seg (fun i => (h.nodes i).slot) cur (F2.map Prod.fst) (-1) → F2.length < fuel →
    AlongH (Lost h (G ++ F2)) (findW now chunk fuel h (lastHead G.dropLast) (lastHead G) cur) h ∧
    ∃ o, findLoop now chunk fuel h (lastHead G.dropLast) (lastHead G) cur =
      some (onAll h (findW now chunk fuel h (lastHead G.dropLast) (lastHead G) cur), o) := by
  induction F2 with
  | nil =>
    intro h G cur fuel hf _ hc hfu
    obtain ⟨fuel, rfl⟩ : ∃ k, fuel = k + 1 := ⟨fuel - 1, by omega⟩
    have hc : cur = -1 := hc
    rw [findLoop, if_pos (by omega), findW, if_pos (by omega)]
    exact ⟨Lost.refl hf, none, rfl⟩
  | cons g F2 ih =>
    intro h G cur fuel hf hG hc hfu
    obtain ⟨fuel, rfl⟩ : ∃ k, fuel = k + 1 := ⟨fuel - 1, by omega⟩
    obtain ⟨c, l⟩ := g
    obtain ⟨hcur, hrest⟩ := hc
    simp only at hcur
    subst hcur
    have hcX : c ∈ flat (G ++ (c, l) :: F2) := by simp
    have hmem : ∀ p ∈ lastHead G, p ∈ flat (G ++ (c, l) :: F2) := fun p hp => by
      simp only [flat_append, List.mem_append]; exact .inl (lastHead_mem hp)
    have hltc := hf.lt c hcX
    rw [findLoop, if_neg (by omega), if_pos (by simpa using hltc), findW, if_neg (by omega), if_pos (by simpa using hltc)]
    simp only [Int.toNat_natCast]
    have a1 := ageW_along (now := now) (c := c) hf hmem
    have e1 := ageW_on now h (lastHead G) c
    generalize hh1 : age now h (lastHead G) c = h1 at *
    have s1 : SameLinks h h1 := by rw [← hh1]; exact age_sameLinks _ _ _ _
    have n1 : Near h h1 (flat (G ++ (c, l) :: F2)) := by rw [← hh1]; exact age_near _ _ _ _ _ hmem
    have hf1 := hf.sameLinks s1
    by_cases hl : (h1.nodes c).length = chunk
    · rw [if_pos hl, if_pos hl]
      obtain ⟨a2, F', e2, hf2, hp, n2⟩ := unlinkW_along (now := now) hf1
      rw [e2]
      have hcF : c ∉ flat F' := (List.nodup_cons.1 (hp.nodup_iff.1 hf.nodup)).1
      generalize hu : unlinkW now h1 (lastHead G.dropLast) (lastHead G) c = U at *
      refine ⟨?_, some c, ?_⟩
      · rw [List.append_assoc]
        refine alongH_append a1 ?_
        rw [e1]
        refine alongH_append (alongH_mono (fun h' l' => Lost.trans n1 l') a2) ?_
        have n3 : Near h ((W.used c 0).onHT (onAll h1 U)) (flat (G ++ (c, l) :: F2)) := (n1.trans n2).trans (Near.set hcX _ rfl rfl rfl)
        have f3 : FreeOk ((W.used c 0).onHT (onAll h1 U)) F' := hf2.set_other hcF _
        exact ⟨⟨[c], F', hf2, n1.trans n2, hp.symm⟩, ⟨[c], F', f3, n3, hp.symm⟩,
          ⟨[c], F', f3.set_other hcF _, n3.trans (Near.set hcX _ rfl rfl rfl), hp.symm⟩⟩
      · rw [onAll_append, onAll_append, e1]
        simp only [onAll_cons, onAll_nil, W.onHT, set_same, set_set]
    · rw [if_neg hl, if_neg hl]
      have hG1 : Seg (fun i => (h1.nodes i).slot) h1.free (G.map Prod.fst) c := by
        rw [s1.1]; exact seg_congr (fun i _ => (s1.2.2 i).1.symm) hG
      have := @ih h1 (G ++ [(c, l)]) ((h1.nodes c).slot) fuel (by simpa using hf1)
        (by rw [List.map_append]; exact seg_append.2 ⟨_, hG1, rfl, rfl⟩)
        (by rw [(s1.2.2 c).1]; exact seg_congr (fun i _ => (s1.2.2 i).1.symm) hrest)
        (by simp only [List.length_cons] at hfu; omega)
      rw [lastHead_snoc, List.dropLast_concat] at this
      simp only [List.append_assoc, List.singleton_append] at this
      obtain ⟨b1, o, b2⟩ := this
      refine ⟨alongH_append a1 ?_, o, ?_⟩
      · rw [e1]; exact alongH_mono (fun h' l' => Lost.trans n1 l') b1
      · rw [onAll_append, e1]; exact b2

/-! ### stores into the area -/

/-- A store into the index. -/
def W.ix : W → Prop
  | .cend _ => False
  | .byte _ _ => False
  | _ => True

@[simp] theorem writes_nil (st : St) : writes st [] = st := rfl
@[simp] theorem writes_cons (st : St) (w : W) (ws : List W) : writes st (w :: ws) = writes (w.apply st) ws := rfl
theorem writes_append (st : St) (a b : List W) : writes st (a ++ b) = writes (writes st a) b := by simp [writes]

theorem apply_ix {w : W} (h : w.ix) (st : St) : w.apply st = { st with ht := w.onHT st.ht } := by
  cases w <;> first | rfl | exact absurd h id

theorem writes_ix {ws : List W} (h : ∀ w ∈ ws, w.ix) (st : St) : writes st ws = { st with ht := onAll st.ht ws } := by
  induction ws generalizing st with
  | nil => rfl
  | cons w ws ih =>
    rw [writes_cons, apply_ix (h w (by simp)), ih (fun w hw => h w (by simp [hw]))]
    rfl

theorem linkW_ix (pre : Option Nat) (v : Int) : (linkW pre v).ix := by cases pre <;> trivial

theorem ageW_ix {now : Int} {h : HT} {pre : Option Nat} {c : Nat} : ∀ w ∈ ageW now h pre c, w.ix := by
  cases pre with
  | none => simp [ageW]
  | some p =>
    simp only [ageW]
    split
    · intro w hw
      simp only [List.mem_cons, List.not_mem_nil, or_false] at hw
      rcases hw with rfl | rfl <;> trivial
    · simp

theorem unlinkW_ix {now : Int} {h : HT} {grand pre : Option Nat} {c : Nat} : ∀ w ∈ unlinkW now h grand pre c, w.ix := by
  intro w hw
  unfold unlinkW at hw
  simp only [List.mem_append, List.mem_cons, List.not_mem_nil, or_false] at hw
  rcases hw with (rfl | rfl) | hw
  · trivial
  · trivial
  · split at hw
    · simp only [List.mem_append, List.mem_cons, List.not_mem_nil, or_false] at hw
      rcases hw with (rfl | rfl | rfl) | hw
      · trivial
      · trivial
      · trivial
      · split at hw
        · simp only [List.mem_cons, List.not_mem_nil, or_false] at hw; subst hw; exact linkW_ix _ _
        · split at hw
          · simp only [List.mem_cons, List.not_mem_nil, or_false] at hw; subst hw; exact linkW_ix _ _
          · simp only [List.mem_cons, List.not_mem_nil, or_false] at hw
            rcases hw with rfl | rfl | rfl
            · trivial
            · trivial
            · exact linkW_ix _ _
    · simp only [List.mem_cons, List.not_mem_nil, or_false] at hw; subst hw; exact linkW_ix _ _

theorem findW_ix {now : Int} {chunk : Nat} : ∀ {fuel : Nat} {h : HT} {grand pre : Option Nat} {cur : Int},
    ∀ w ∈ findW now chunk fuel h grand pre cur, w.ix := by
  intro fuel
  induction fuel with
  | zero => intro h grand pre cur w hw; simp [findW] at hw
  | succ fuel ih =>
    intro h grand pre cur w hw
    rw [findW] at hw
    split at hw
    · simp at hw
    · split at hw
      · dsimp only at hw
        split at hw
        · simp only [List.mem_append, List.mem_cons, List.not_mem_nil, or_false] at hw
          rcases hw with (hw | hw) | rfl | rfl
          · exact ageW_ix w hw
          · exact unlinkW_ix w hw
          · trivial
          · trivial
        · rcases List.mem_append.1 hw with hw | hw
          · exact ageW_ix w hw
          · exact ih w hw
      · simp at hw

/-- `P` holds before every step and at the end. -/
def Along (P : St → Prop) : List (List W) → St → Prop
  | [], st => P st
  | s :: ss, st => P st ∧ Along P ss (writes st s)

theorem along_append {P : St → Prop} {a b : List (List W)} {st : St} (h1 : Along P a st) (h2 : Along P b (writes st a.flatten)) :
    Along P (a ++ b) st := by
  induction a generalizing st with
  | nil => exact h2
  | cons w a ih =>
    refine ⟨h1.1, ih h1.2 ?_⟩
    rw [List.flatten_cons, writes_append] at h2; exact h2

theorem along_mono {P Q : St → Prop} (hpq : ∀ s, P s → Q s) {a : List (List W)} {st : St} (h1 : Along P a st) : Along Q a st := by
  induction a generalizing st with
  | nil => exact hpq _ h1
  | cons w a ih => exact ⟨hpq _ h1.1, ih h1.2⟩

/-- The state after the first `i` steps. -/
theorem along_take {P : St → Prop} : ∀ {a : List (List W)} {st : St}, Along P a st → ∀ i, P (writes st (a.take i).flatten) := by
  intro a
  induction a with
  | nil => intro st h i; rw [List.take_nil]; exact h
  | cons w a ih =>
    intro st h i
    cases i with
    | zero => exact h.1
    | succ i => rw [List.take_succ_cons, List.flatten_cons, writes_append]; exact ih h.2 i

theorem along_ix {P : HT → Prop} {ws : List W} (hix : ∀ w ∈ ws, w.ix) : ∀ {st : St}, AlongH P ws st.ht →
    Along (fun s => ∃ h, s = { st with ht := h } ∧ P h) (ws.map ([·])) st := by
  intro st ha
  have gen : ∀ (ws : List W) (s : St), (∀ w ∈ ws, w.ix) → AlongH P ws s.ht → s.cend = st.cend → s.mem = st.mem →
      Along (fun s => ∃ h, s = { st with ht := h } ∧ P h) (ws.map ([·])) s := by
    intro ws
    induction ws with
    | nil => intro s _ h1 h2 h3; exact ⟨s.ht, by cases s; simp_all, h1⟩
    | cons w ws ih =>
      intro s hix h1 h2 h3
      refine ⟨⟨s.ht, by cases s; simp_all, h1.1⟩, ?_⟩
      have e : writes s [w] = { s with ht := w.onHT s.ht } := apply_ix (hix w (by simp)) s
      rw [e]
      exact ih _ (fun w hw => hix w (by simp [hw])) h1.2 h2 h3
  exact gen ws st hix ha rfl rfl

theorem flatten_singles (ws : List W) : (ws.map ([·])).flatten = ws := by
  induction ws with
  | nil => rfl
  | cons w ws ih => simp [ih]

theorem poke_cons (m : Nat → Byte) (off : Nat) (b : Byte) (bs : List Byte) :
    poke (fun i => if i = off then b else m i) (off + 1) bs = poke m off (b :: bs) := by
  funext i
  simp only [poke, List.length_cons]
  by_cases h : i = off
  · subst h
    rw [if_neg (by omega), if_pos rfl, if_pos (by omega)]; simp
  · rw [if_neg h]
    by_cases h2 : off + 1 ≤ i ∧ i < off + 1 + bs.length
    · rw [if_pos h2, if_pos (by omega)]
      obtain ⟨k, rfl⟩ : ∃ k, i = off + (k + 1) := ⟨i - off - 1, by omega⟩
      rw [show off + (k + 1) - (off + 1) = k by omega, show off + (k + 1) - off = k + 1 by omega]; rfl
    · rw [if_neg h2, if_neg (by omega)]

theorem poke_one (m : Nat → Byte) (off : Nat) (b : Byte) : (fun i => if i = off then b else m i) = poke m off [b] := by
  rw [← poke_cons]; funext i; rw [poke_other (by simp; omega)]

theorem poke_nil (m : Nat → Byte) (off : Nat) : poke m off [] = m := by
  funext i; rw [poke_other (by simp; omega)]

theorem writes_bytes (bs : List Byte) : ∀ (off : Nat) (st : St), writes st (bytesW off bs) = { st with mem := poke st.mem off bs } := by
  induction bs with
  | nil => intro off st; rw [bytesW, poke_nil]; rfl
  | cons b bs ih =>
    intro off st
    rw [bytesW, writes_cons, ih, ← poke_cons]; rfl

/-- Bytes stored one by one, each of which keeps `P`. -/
theorem along_bytes {P : St → Prop} {lo hi : Nat} (hP : ∀ (s : St) (k : Nat) (b : Byte), lo ≤ k → k < hi → P s →
    P { s with mem := poke s.mem k [b] }) (bs : List Byte) : ∀ {off : Nat} {st : St}, lo ≤ off → off + bs.length ≤ hi → P st →
    Along P ((bytesW off bs).map ([·])) st := by
  induction bs with
  | nil => intro off st _ _ h; exact h
  | cons b bs ih =>
    intro off st h1 h2 h
    simp only [List.length_cons] at h2
    refine ⟨h, ih (by omega) (by omega) ?_⟩
    have := hP st off b h1 (by omega) h
    rw [← poke_one] at this
    exact this

/-! ### storing a record -/

/-- Nodes that hold no entry have no lifetime. -/
def Quiet (st : St) (es : List Entry) : Prop := ∀ j, (∀ e ∈ es, e.idx ≠ j) → (st.ht.nodes j).ttl = 0

/-- The file is in order and holds exactly the entries `es`. -/
def Good (cfg : Cfg) (st : St) (es : List Entry) : Prop := (∃ X F, Core cfg st es X F) ∧ Fits cfg st ∧ Quiet st es

variable {cfg : Cfg} {st : St} {es : List Entry} {X : List Nat} {F : List Grp}

theorem Good.inv (g : Good cfg st es) : Inv cfg st es := by
  obtain ⟨⟨X, F, c⟩, hf, hq⟩ := g
  exact ⟨X, F, c, fun i hi => hq i (fun e he x => (c.not_free he).1 (x ▸ hi)), hf⟩

theorem Fits.near {h' : HT} {A : List Nat} (hf : Fits cfg st) (n : Near st.ht h' A) : Fits cfg { st with ht := h' } :=
  ⟨by show endOf cfg h' ≤ _; rw [endOf_congr n.used n.offset n.length]; exact hf.1, by dsimp only; rw [n.used]; exact hf.2⟩

theorem Quiet.near {h' : HT} {A : List Nat} (hq : Quiet st es) (n : Near st.ht h' A) : Quiet { st with ht := h' } es :=
  fun j hj => by dsimp only; rw [n.ttl]; exact hq j hj

/-- A search of the free list, seen from the whole file. -/
theorem Core.lost (c : Core cfg st es X F) {h' : HT} (l : Lost st.ht F h') : ∃ X' F', Core cfg { st with ht := h' } es X' F' := by
  obtain ⟨D, F', hf, n, hp⟩ := l
  refine ⟨X ++ D, F', c.near n hf ?_ (fun i hi => hp.mem_iff.1 (by simp [hi]))⟩
  rw [List.append_assoc]
  exact hp.append_left X

theorem growW_on (st : St) (r : Nat) : writes st (growW st r) =
    ⟨{ (st.ht.set st.ht.used { st.ht.nodes st.ht.used with offset := st.cend, next := -1, length := r, used := 0 }) with used := st.ht.used + 1 },
      st.cend + r, st.mem⟩ := by
  simp only [growW, writes_cons, writes_nil, W.apply, W.onHT, HT.set, St.mk.injEq, HT.mk.injEq, and_true]
  funext j
  by_cases x : j = st.ht.used <;> simp [x]

theorem chunkW_ok (g : Good cfg st es) (now : Int) (len : Nat) :
    Along (fun s => Good cfg s es) (chunkW cfg st now len) st ∧
    (getChunk cfg st now len = some (writes st (chunkW cfg st now len).flatten, none) ∨
     ∃ s i X' F', s = writes st (chunkW cfg st now len).flatten ∧
      getChunk cfg st now len = some ({ s with mem := poke s.mem ((s.ht.nodes i).offset + len) (List.replicate (roundUp len - len) 0xFE) }, some i) ∧
      Core cfg s es (i :: X') F' ∧ Fits cfg s ∧ Quiet s es ∧ (s.ht.nodes i).length = roundUp len) := by
  obtain ⟨⟨X, F, c⟩, hend, hq⟩ := g
  have hfuel : F.length < st.fuel := by have := c.F_length; unfold St.fuel; omega
  have hW := findW_along (now := now) (chunk := roundUp len) F (h := st.ht) (G := []) (cur := st.ht.free) (fuel := st.fuel)
    (by simpa using c.free) rfl c.free.heads hfuel
  have hF := findLoop_ok (now := now) (chunk := roundUp len) F (h := st.ht) (G := []) (cur := st.ht.free) (fuel := st.fuel)
    (by simpa using c.free) rfl c.free.heads hfuel
  rw [show lastHead (List.dropLast []) = none from rfl, show lastHead [] = none from rfl] at hW hF
  simp only [List.nil_append] at hW hF
  obtain ⟨hal, o, ho⟩ := hW
  have hstep : Along (fun s => Good cfg s es) ((findW now (roundUp len) st.fuel st.ht none none st.ht.free).map ([·])) st := by
    refine along_mono (fun s hs => ?_) (along_ix findW_ix hal)
    obtain ⟨h, rfl, l⟩ := hs
    obtain ⟨X', F', c'⟩ := Core.lost c l
    obtain ⟨D, F'', _, n, _⟩ := l
    exact ⟨⟨X', F', c'⟩, Fits.near hend n, hq.near n⟩
  unfold chunkW getChunk findUnused
  dsimp only
  have hwr := writes_ix (fun w hw => findW_ix (now := now) (chunk := roundUp len) w hw) st
    (ws := findW now (roundUp len) st.fuel st.ht none none st.ht.free)
  generalize findW now (roundUp len) st.fuel st.ht none none st.ht.free = ws at *
  rcases hF with ⟨h', e, hf, n⟩ | ⟨h', i, F', e, hf, hp, n, hl⟩
  · rw [e] at ho
    cases ho
    rw [e]
    have c' := c.near n hf (X' := X) (List.Perm.refl _) (fun _ h => h)
    have he' : endOf cfg (onAll st.ht ws) = endOf cfg st.ht := endOf_congr n.used n.offset n.length
    generalize onAll st.ht ws = h' at *
    unfold create
    dsimp only
    by_cases hb : nodeAddr cfg.size cfg.nslots h'.used < ((st.cend + roundUp len : Nat) : Int)
    · rw [if_pos hb, if_pos hb, List.append_nil, flatten_singles, hwr]
      exact ⟨hstep, .inl rfl⟩
    · rw [if_neg hb, if_neg hb]
      dsimp only
      rw [if_pos rfl, List.flatten_append, flatten_singles, writes_append, hwr, List.flatten_cons, List.flatten_nil, List.append_nil, growW_on]
      unfold nodeAddr at hb
      have c2 := c'.grow (r := roundUp len)
        (m := { h'.nodes h'.used with offset := st.cend, next := -1, length := roundUp len, used := 0 })
        (by dsimp only; rw [he']; exact hend.1) rfl (by dsimp only; omega)
      have hset : (({ (h'.set h'.used { h'.nodes h'.used with next := -1, length := roundUp len, used := 0 }) with used := h'.used + 1 } : HT).set
          h'.used { (({ (h'.set h'.used { h'.nodes h'.used with next := -1, length := roundUp len, used := 0 }) with used := h'.used + 1 } : HT).nodes h'.used) with offset := st.cend }) =
          { (h'.set h'.used { h'.nodes h'.used with offset := st.cend, next := -1, length := roundUp len, used := 0 }) with used := h'.used + 1 } := by
        simp only [HT.set, HT.mk.injEq, and_true]
        funext j
        by_cases x : j = h'.used <;> simp [x]
      dsimp only at hset
      have c3 := c2.cend (st.cend + roundUp len)
      have hf3 : Fits cfg ⟨{ (h'.set h'.used { h'.nodes h'.used with offset := st.cend, next := -1, length := roundUp len, used := 0 }) with used := h'.used + 1 },
          st.cend + roundUp len, st.mem⟩ := by
        refine ⟨?_, ?_⟩
        · unfold endOf
          dsimp only
          rw [if_neg (by omega), Nat.add_sub_cancel, set_same]
          exact Nat.le_refl _
        · dsimp only; omega
      have hq3 : Quiet ⟨{ (h'.set h'.used { h'.nodes h'.used with offset := st.cend, next := -1, length := roundUp len, used := 0 }) with used := h'.used + 1 },
          st.cend + roundUp len, st.mem⟩ es := by
        intro j hj
        dsimp only
        by_cases x : j = h'.used
        · subst x; rw [set_same]; dsimp only; rw [n.ttl]; exact hq _ hj
        · rw [set_other _ _ x, n.ttl]; exact hq j hj
      refine ⟨along_append hstep ?_, .inr ⟨_, h'.used, X, F, rfl, ?_, c3, hf3, hq3, by dsimp only; rw [set_same]⟩⟩
      · rw [flatten_singles, hwr]
        refine ⟨⟨⟨X, F, c'⟩, Fits.near hend n, hq.near n⟩, ?_⟩
        rw [growW_on]
        exact ⟨⟨_, F, c3⟩, hf3, hq3⟩
      · rw [hset]
  · rw [e] at ho
    cases ho
    rw [e]
    dsimp only
    rw [List.append_nil, flatten_singles, hwr]
    have c' := c.near n hf (X' := i :: X) (List.perm_middle.symm.trans (hp.symm.append_left X)) (fun j hj => hp.mem_iff.2 (by simp [hj]))
    refine ⟨hstep, .inr ⟨_, i, X, F', rfl, ?_, c', Fits.near hend n, hq.near n, by dsimp only; rw [n.length]; exact hl⟩⟩
    simp only [Bool.false_eq_true, if_false]

theorem setAll_snoc (st : St) (J : List Nat) (j m : Nat) (now : Int) :
    setAll (setAll st J m now) [j] m now = setAll st (J ++ [j]) m now := by
  simp only [setAll, St.mk.injEq, HT.mk.injEq, and_true]
  funext k
  by_cases h1 : k = j
  · subst h1
    by_cases h2 : k ∈ J <;> simp [h2]
  · by_cases h2 : k ∈ J <;> simp [h1, h2]

theorem setAll_nil (st : St) (m : Nat) (now : Int) : setAll st [] m now = st := by simp [setAll]

theorem share_one (st : St) (j m : Nat) (now : Int) : writes st [.ttl j m, .added j now] = setAll st [j] m now := by
  simp only [writes_cons, writes_nil, W.apply, W.onHT, setAll, HT.set, St.mk.injEq, HT.mk.injEq, and_true]
  funext k
  by_cases h1 : k = j <;> simp [h1]

theorem shareW_ok {P : St → Prop} {m : Nat} {now : Int} (is : List Nat) : ∀ {J : List Nat},
    (∀ A B, J ++ is = A ++ B → P (setAll st A m now)) →
    Along P (shareW is m now) (setAll st J m now) ∧ writes (setAll st J m now) (shareW is m now).flatten = setAll st (J ++ is) m now := by
  induction is with
  | nil => intro J hP; exact ⟨hP J [] rfl, by simp [shareW]⟩
  | cons j is ih =>
    intro J hP
    have e : writes (setAll st J m now) [.ttl j m, .added j now] = setAll st (J ++ [j]) m now := by rw [share_one, setAll_snoc]
    obtain ⟨h1, h2⟩ := @ih (J ++ [j]) (fun A B h => hP A B (by simpa using h))
    refine ⟨⟨hP J (j :: is) rfl, ?_⟩, ?_⟩
    · rw [e]; exact h1
    · show writes _ ([.ttl j m, .added j now] ++ (shareW is m now).flatten) = _
      rw [writes_append, e, h2]; simp

theorem publishW_on (st : St) (s i m : Nat) (now : Int) : writes st (publishW st.ht s i m now) =
    { st with ht := CacheHT.insert (st.ht.set i { st.ht.nodes i with ttl := m, added := now }) s i } := by
  simp only [publishW, writes_cons, writes_nil, W.apply, W.onHT, CacheHT.insert, set_same, set_set]
  rfl

/-- The entries after a kill between two steps of an operation. -/
inductive KillE (cfg : Cfg) (es : List Entry) : Op → List Entry → Prop
  | nothing (o : Op) : KillE cfg es o es
  | done {o : Op} {es' : List Entry} (h : StepE cfg es o es') : KillE cfg es o es'
  | share (key data : List Byte) (ttl : Nat) (now : Int) (hp : cfg.parallel = true) (J : Entry → Bool) :
      KillE cfg es (.add key data ttl now)
        (es.map fun e => e.touch (matching cfg key now e && J e) (minLeft cfg es key ttl now) now)
  | sweep (now : Int) (p z : Entry → Bool) (hp : ∀ e ∈ es, p e = false → expiredE now e = true)
      (hz : ∀ e ∈ es, z e = true → expiredE now e = true) :
      KillE cfg es (.sweep now) ((es.filter p).map fun e => if z e then { e with ttl := 0 } else e)

theorem addW_ok (hc : CfgOk cfg) (g : Good cfg st es) {key data : List Byte} (h0 : (0 : Byte) ∉ key) (ttl : Nat) (now : Int) :
    Along (fun s => ∃ es', Good cfg s es' ∧ KillE cfg es (.add key data ttl now) es') (addW cfg st key data ttl now) st ∧
    ∃ out, addItem cfg st key data ttl now = some (writes st (addW cfg st key data ttl now).flatten, out) := by
  have base : ∀ s, Good cfg s es → ∃ es', Good cfg s es' ∧ KillE cfg es (.add key data ttl now) es' := fun s h => ⟨es, h, .nothing _⟩
  obtain ⟨st', out, eadd, radd⟩ := addItem_ok hc g.inv (data := data) h0 ttl now
  have hfin : ∃ es', Good cfg st' es' ∧ KillE cfg es (.add key data ttl now) es' := by
    cases radd with
    | duplicate => exact base _ g
    | zeroTTL => exact base _ g
    | noRoom _ inv _ _ _ _ _ _ hq _ =>
      obtain ⟨X, F, c, _, hf⟩ := inv
      exact base _ ⟨⟨X, F, c⟩, hf, fun j hj => by rw [hq]; exact g.2.2 j hj⟩
    | stored _ i inv ht hd _ _ hq _ =>
      obtain ⟨X, F, c, _, hf⟩ := inv
      refine ⟨_, ⟨⟨X, F, c⟩, hf, fun j hj => ?_⟩, .done (.add i key data ttl now ht hd)⟩
      have hji : j ≠ i := fun x => hj _ (List.mem_cons_self) x.symm
      have hje : ∀ e ∈ es, e.idx ≠ j := by
        intro e he x
        have : e.idx ∈ (addOld cfg es key ttl now).map Entry.idx := by
          unfold addOld
          split
          · rw [map_idx_touch (matching cfg key now)]; exact List.mem_map_of_mem he
          · exact List.mem_map_of_mem he
        obtain ⟨d, hd, hx⟩ := List.mem_map.1 this
        exact hj d (List.mem_cons_of_mem _ hd) (hx.trans x)
      rw [hq j hji hje]; exact g.2.2 j hje
  have eadd0 := eadd
  obtain ⟨⟨X, F, c⟩, hfit, hqu⟩ := id g
  unfold addItem at eadd
  unfold addW
  dsimp only at eadd ⊢
  have hl := c.chain_length (slotOf cfg key)
  rw [find_seg _ (c.slots _ (slotOf_lt hc key)) (fun j hj => c.chain_lt hj) (by unfold St.fuel; omega)] at eadd ⊢
  cases hfnd : (chain cfg es (slotOf cfg key)).find? (hit cfg st (key ++ 0 :: data) now) with
  | some j =>
    rw [hfnd] at eadd
    simp only [Option.some.injEq, Prod.mk.injEq] at eadd
    obtain ⟨rfl, rfl⟩ := eadd
    exact ⟨base _ g, _, eadd0⟩
  | none =>
    rw [hfnd] at eadd
    dsimp only at eadd ⊢
    by_cases ht : ttl = 0
    · rw [if_pos ht] at eadd ⊢
      simp only [Option.some.injEq, Prod.mk.injEq] at eadd
      obtain ⟨rfl, rfl⟩ := eadd
      exact ⟨base _ g, _, eadd0⟩
    · rw [if_neg ht] at eadd ⊢
      obtain ⟨hch, hget⟩ := chunkW_ok g now ((key ++ 0 :: data).length + 1)
      have hch := along_mono base hch
      rcases hget with hget | ⟨s, i, X', F', hs, hget, cs, hfs, hqs, hls⟩
      · rw [hget] at eadd ⊢
        simp only [Option.some.injEq, Prod.mk.injEq] at eadd
        obtain ⟨rfl, rfl⟩ := eadd
        dsimp only
        rw [List.append_nil]
        exact ⟨hch, _, eadd0⟩
      · rw [hget] at eadd ⊢
        dsimp only at eadd ⊢
        have hru := roundUp_ge ((key ++ 0 :: data).length + 1)
        -- the bytes of the block
        have hbytes : ∀ (s' : St) (k : Nat) (b : Byte), (s.ht.nodes i).offset ≤ k → k < (s.ht.nodes i).offset + roundUp ((key ++ 0 :: data).length + 1) →
            (Core cfg s' es (i :: X') F' ∧ s'.ht = s.ht ∧ s'.cend = s.cend) →
            (Core cfg { s' with mem := poke s'.mem k [b] } es (i :: X') F' ∧ ({ s' with mem := poke s'.mem k [b] } : St).ht = s.ht ∧
              ({ s' with mem := poke s'.mem k [b] } : St).cend = s.cend) := by
          intro s' k b h1 h2 ⟨h3, h4, h5⟩
          exact ⟨h3.poke (i := i) (by simp) (by rw [h4]; exact h1) (by rw [h4, hls]; simp only [List.length_singleton]; omega), h4, h5⟩
        have hgood : ∀ s', (Core cfg s' es (i :: X') F' ∧ s'.ht = s.ht ∧ s'.cend = s.cend) →
            ∃ es', Good cfg s' es' ∧ KillE cfg es (.add key data ttl now) es' := by
          intro s' ⟨h1, h2, h3⟩
          refine base _ ⟨⟨_, _, h1⟩, ?_, ?_⟩
          · unfold Fits; rw [h2, h3]; exact hfs
          · intro j hj; rw [h2]; exact hqs j hj
        have hpad := along_bytes hbytes (List.replicate (roundUp ((key ++ 0 :: data).length + 1) - ((key ++ 0 :: data).length + 1)) 0xFE)
          (off := (s.ht.nodes i).offset + ((key ++ 0 :: data).length + 1)) (st := s) (by omega) (by rw [List.length_replicate]; omega) ⟨cs, rfl, rfl⟩
        obtain ⟨s1, hs1⟩ : ∃ s1 : St, ({ s with mem := poke s.mem ((s.ht.nodes i).offset + ((key ++ 0 :: data).length + 1)) (List.replicate (roundUp ((key ++ 0 :: data).length + 1) - ((key ++ 0 :: data).length + 1)) 0xFE) } : St) = s1 := ⟨_, rfl⟩
        have wpad : writes s (bytesW ((s.ht.nodes i).offset + ((key ++ 0 :: data).length + 1))
          (List.replicate (roundUp ((key ++ 0 :: data).length + 1) - ((key ++ 0 :: data).length + 1)) 0xFE)) = s1 := by
          rw [writes_bytes, hs1]
        have hht1 : s1.ht = s.ht := by rw [← hs1]
        have hce1 : s1.cend = s.cend := by rw [← hs1]
        have c1 : Core cfg s1 es (i :: X') F' := by
          rw [← hs1]
          exact cs.poke (i := i) (by simp) (by omega) (by rw [hls, List.length_replicate]; omega)
        have hitem := along_bytes hbytes (0xFF :: (key ++ 0 :: data)) (off := (s.ht.nodes i).offset) (st := s1) (Nat.le_refl _)
          (by rw [List.length_cons]; omega) ⟨c1, hht1, hce1⟩
        obtain ⟨s2, hs2⟩ : ∃ s2 : St, ({ s1 with mem := poke s1.mem (s.ht.nodes i).offset (0xFF :: (key ++ 0 :: data)) } : St) = s2 := ⟨_, rfl⟩
        have witem : writes s1 (bytesW (s.ht.nodes i).offset (0xFF :: (key ++ 0 :: data))) = s2 := by rw [writes_bytes, hs2]
        have hht2 : s2.ht = s.ht := by rw [← hs2, ← hht1]
        have hce2 : s2.cend = s.cend := by rw [← hs2, ← hce1]
        have c2 : Core cfg s2 es (i :: X') F' := by
          rw [← hs2]
          exact c1.poke (i := i) (by simp) (by rw [hht1]; omega) (by rw [hht1, hls, List.length_cons]; omega)
        have c3 := c2.setX (i := i) (by simp) { s2.ht.nodes i with used := (key ++ 0 :: data).length + 1 } rfl rfl
        have wused : writes s2 [.used i ((key ++ 0 :: data).length + 1)] =
          { s2 with ht := s2.ht.set i { s2.ht.nodes i with used := (key ++ 0 :: data).length + 1 } } := rfl
        obtain ⟨s3, hs3⟩ : ∃ s3 : St, ({ s2 with ht := s2.ht.set i { s2.ht.nodes i with used := (key ++ 0 :: data).length + 1 } } : St) = s3 := ⟨_, rfl⟩
        rw [hs3] at c3 wused
        have h13 : (⟨s.ht.set i { s.ht.nodes i with used := (key ++ 0 :: data).length + 1 }, s.cend,
            poke (poke s.mem ((s.ht.nodes i).offset + ((key ++ 0 :: data).length + 1))
              (List.replicate (roundUp ((key ++ 0 :: data).length + 1) - ((key ++ 0 :: data).length + 1)) 0xFE))
              (s.ht.nodes i).offset (255 :: (key ++ 0 :: data))⟩ : St) = s3 := by rw [← hs3, ← hs2, ← hs1]
        rw [h13] at eadd ⊢
        rw [show s.ht.set i { s.ht.nodes i with used := (key ++ 0 :: data).length + 1 } = s3.ht by rw [← h13]]
        have hce3 : s3.cend = s.cend := by rw [← hs3]; exact hce2
        have hn3 : ∀ j, (s3.ht.nodes j).offset = (s.ht.nodes j).offset ∧ (s3.ht.nodes j).length = (s.ht.nodes j).length ∧
            (s3.ht.nodes j).ttl = (s.ht.nodes j).ttl := by
          intro j
          rw [← hs3]
          dsimp only
          by_cases x : j = i
          · subst x; rw [set_same, hht2]; exact ⟨rfl, rfl, rfl⟩
          · rw [set_other _ _ x, hht2]; exact ⟨rfl, rfl, rfl⟩
        have hu3 : s3.ht.used = s.ht.used := by rw [← hs3, ← hht2]; rfl
        have hf3 : Fits cfg s3 :=
          ⟨by rw [endOf_congr hu3 (fun j => (hn3 j).1) (fun j => (hn3 j).2.1), hce3]; exact hfs.1, by rw [hu3, hce3]; exact hfs.2⟩
        have hq3 : Quiet s3 es := fun j hj => by rw [(hn3 j).2.2]; exact hqs j hj
        rw [findAll_key hc c3 h0]
        simp only [Option.getD_some]
        by_cases hp : cfg.parallel = true
        · simp only [hp, if_true] at eadd ⊢
          have hmin := cacheMinTTL_ok hc c3 h0 ttl now
          rw [hmin] at eadd
          unfold cacheMinTTL at hmin
          dsimp only at hmin
          rw [findAll_key hc c3 h0] at hmin
          dsimp only at hmin
          have hmr : minRemaining s3 ((es.filter (matching cfg key now)).map Entry.idx) ttl now = minLeft cfg es key ttl now := by
            cases hx : setLoop cfg (key ++ [0]) (minRemaining s3 ((es.filter (matching cfg key now)).map Entry.idx) ttl now) now s3.fuel s3.fuel s3
              (s3.ht.slots (slotOf cfg key)) with
            | none => rw [hx] at hmin; simp at hmin
            | some _ => rw [hx] at hmin; simp only [Option.map_some, Option.some.injEq, Prod.mk.injEq] at hmin; exact hmin.1
          rw [hmr]
          have hsh := shareW_ok (st := s3) (P := fun s => ∃ es', Good cfg s es' ∧ KillE cfg es (.add key data ttl now) es')
            (m := minLeft cfg es key ttl now) (now := now) ((es.filter (matching cfg key now)).map Entry.idx) (J := []) ?_
          · rw [setAll_nil, List.nil_append] at hsh
            simp only [Option.some.injEq, Prod.mk.injEq] at eadd
            have wpub := publishW_on (setAll s3 ((es.filter (matching cfg key now)).map Entry.idx) (minLeft cfg es key ttl now) now)
              (slotOf cfg key) i (minLeft cfg es key ttl now) now
            have hpub : publishW (setAll s3 ((es.filter (matching cfg key now)).map Entry.idx) (minLeft cfg es key ttl now) now).ht
              (slotOf cfg key) i (minLeft cfg es key ttl now) now = publishW s3.ht (slotOf cfg key) i (minLeft cfg es key ttl now) now := rfl
            rw [hpub] at wpub
            have hall := along_append (along_append (along_append (along_append (along_mono hgood hpad)
              (by rw [flatten_singles, wpad]; exact along_mono hgood hitem))
              (b := [[.used i ((key ++ 0 :: data).length + 1)]])
              (by rw [List.flatten_append, flatten_singles, flatten_singles, writes_append, wpad, witem]
                  exact ⟨hgood _ ⟨c2, hht2, hce2⟩, by rw [wused]; exact base _ ⟨⟨_, _, c3⟩, hf3, hq3⟩⟩))
              (b := shareW ((es.filter (matching cfg key now)).map Entry.idx) (minLeft cfg es key ttl now) now)
              (by rw [List.flatten_append, List.flatten_append, flatten_singles, flatten_singles, writes_append, writes_append, wpad, witem,
                    show [[W.used i ((key ++ 0 :: data).length + 1)]].flatten = [W.used i ((key ++ 0 :: data).length + 1)] from rfl, wused]
                  exact hsh.1))
              (b := [publishW s3.ht (slotOf cfg key) i (minLeft cfg es key ttl now) now])
              (by rw [List.flatten_append, List.flatten_append, List.flatten_append, flatten_singles, flatten_singles, writes_append, writes_append,
                    writes_append, wpad, witem,
                    show [[W.used i ((key ++ 0 :: data).length + 1)]].flatten = [W.used i ((key ++ 0 :: data).length + 1)] from rfl, wused]
                  refine ⟨?_, ?_⟩
                  · have := along_take hsh.1 ((es.filter (matching cfg key now)).map Entry.idx).length
                    rw [List.take_of_length_le (by simp [shareW])] at this
                    exact this
                  · rw [hsh.2, wpub, eadd.1]; exact hfin)
            refine ⟨along_append hch (by rw [← hs]; exact hall), out, ?_⟩
            rw [eadd0]
            congr 2
            rw [List.flatten_append, writes_append, ← hs, List.flatten_append, List.flatten_append, List.flatten_append, List.flatten_append,
              flatten_singles, flatten_singles, writes_append, writes_append, writes_append, writes_append, wpad, witem,
              show [[W.used i ((key ++ 0 :: data).length + 1)]].flatten = [W.used i ((key ++ 0 :: data).length + 1)] from rfl, wused, hsh.2,
              show [publishW s3.ht (slotOf cfg key) i (minLeft cfg es key ttl now) now].flatten =
                publishW s3.ht (slotOf cfg key) i (minLeft cfg es key ttl now) now by simp, wpub]
            exact eadd.1.symm
          · intro A B hAB
            rw [List.nil_append] at hAB
            have hA : ∀ j ∈ A, j ∈ es.map Entry.idx := by
              intro j hj
              have : j ∈ (es.filter (matching cfg key now)).map Entry.idx := by rw [hAB]; simp [hj]
              simp only [List.mem_map, List.mem_filter] at this ⊢
              obtain ⟨e, ⟨h1, _⟩, h2⟩ := this
              exact ⟨e, h1, h2⟩
            have cA := c3.setAll hA (minLeft cfg es key ttl now) now
            have eqA : (es.map fun e => e.touch (decide (e.idx ∈ A)) (minLeft cfg es key ttl now) now) =
                es.map fun e => e.touch (matching cfg key now e && decide (e.idx ∈ A)) (minLeft cfg es key ttl now) now := by
              apply List.map_congr_left
              intro e he
              congr 1
              by_cases hm : e.idx ∈ A
              · have : e.idx ∈ (es.filter (matching cfg key now)).map Entry.idx := by rw [hAB]; simp [hm]
                simp only [List.mem_map, List.mem_filter] at this
                obtain ⟨e', ⟨h1, h2⟩, h3⟩ := this
                rw [← c3.idx_inj h1 he h3, h2]; rfl
              · simp [hm]
            refine ⟨_, ⟨⟨_, _, cA⟩, ?_, ?_⟩, by rw [eqA]; exact .share key data ttl now hp _⟩
            · refine ⟨?_, hf3.2⟩
              have : endOf cfg (setAll s3 A (minLeft cfg es key ttl now) now).ht = endOf cfg s3.ht := by
                refine endOf_congr rfl (fun j => ?_) (fun j => ?_)
                · unfold setAll; dsimp only; split <;> rfl
                · unfold setAll; dsimp only; split <;> rfl
              rw [this]; exact hf3.1
            · intro j hj
              have hjA : j ∉ A := by
                intro h
                obtain ⟨e, he, hx⟩ := List.mem_map.1 (hA j h)
                exact hj (e.touch (decide (e.idx ∈ A)) (minLeft cfg es key ttl now) now) (List.mem_map.2 ⟨e, he, rfl⟩) (by rw [touch_idx]; exact hx)
              have hje : ∀ e ∈ es, e.idx ≠ j := by
                intro e he x
                exact hj (e.touch (decide (e.idx ∈ A)) (minLeft cfg es key ttl now) now) (List.mem_map.2 ⟨e, he, rfl⟩) (by rw [touch_idx]; exact x)
              unfold setAll
              dsimp only
              rw [if_neg hjA]
              exact hq3 j hje
        · simp only [hp, Bool.false_eq_true, if_false] at eadd ⊢
          simp only [Option.some.injEq, Prod.mk.injEq] at eadd
          have wpub := publishW_on s3 (slotOf cfg key) i ttl now
          have hall := along_append (along_append (along_append (along_mono hgood hpad)
              (by rw [flatten_singles, wpad]; exact along_mono hgood hitem))
              (b := [[.used i ((key ++ 0 :: data).length + 1)]])
              (by rw [List.flatten_append, flatten_singles, flatten_singles, writes_append, wpad, witem]
                  exact ⟨hgood _ ⟨c2, hht2, hce2⟩, by rw [wused]; exact base _ ⟨⟨_, _, c3⟩, hf3, hq3⟩⟩))
              (b := [publishW s3.ht (slotOf cfg key) i ttl now])
              (by rw [List.flatten_append, List.flatten_append, flatten_singles, flatten_singles, writes_append, writes_append, wpad, witem,
                    show [[W.used i ((key ++ 0 :: data).length + 1)]].flatten = [W.used i ((key ++ 0 :: data).length + 1)] from rfl, wused]
                  refine ⟨base _ ⟨⟨_, _, c3⟩, hf3, hq3⟩, ?_⟩
                  rw [wpub, eadd.1]
                  exact hfin)
          rw [List.append_nil]
          refine ⟨along_append hch (by rw [← hs]; exact hall), out, ?_⟩
          rw [eadd0]
          congr 2
          rw [List.flatten_append, writes_append, ← hs, List.flatten_append, List.flatten_append, List.flatten_append,
            flatten_singles, flatten_singles, writes_append, writes_append, writes_append, wpad, witem,
            show [[W.used i ((key ++ 0 :: data).length + 1)]].flatten = [W.used i ((key ++ 0 :: data).length + 1)] from rfl, wused,
            show [publishW s3.ht (slotOf cfg key) i ttl now].flatten = publishW s3.ht (slotOf cfg key) i ttl now by simp, wpub]
          exact eadd.1.symm

/-! ### the sweep -/

/-- The predecessor of a node in its slot. -/
theorem pred_ok {h : HT} {i fuel : Nat} {first : Int} {A B : List Nat} (hseg : Seg (fun j => (h.nodes j).next) first (A ++ i :: B) (-1))
    (hn : (A ++ i :: B).Nodup) (hlt : ∀ j ∈ A ++ i :: B, j < h.used) (hf : A.length < fuel) :
    pred h first i fuel = some A.getLast? := by
  unfold pred
  by_cases hA : A = []
  · subst hA; rw [if_pos hseg.1]; rfl
  · obtain ⟨A', q, rfl⟩ : ∃ A' q, A = A' ++ [q] := ⟨A.dropLast, A.getLast hA, (List.dropLast_concat_getLast hA).symm⟩
    have hiA : ∀ j ∈ A' ++ [q], j ≠ i := fun j hj => (List.nodup_append.1 hn).2.2 j hj i (by simp)
    have := predLoop_ok (h := h) (i := i) (B := B) A' (first := first) (q := q) (fuel := fuel)
      (by simpa using hseg) (by simpa using hn) (by simpa using hlt) (by simp at hf; omega)
    rw [if_neg, this]
    · simp
    · intro e
      cases A' with
      | nil => exact hiA q (by simp) (by have := hseg.1; rw [e] at this; omega)
      | cons a A' => exact hiA a (by simp) (by have := hseg.1; rw [e] at this; omega)

/-- Taking an entry's node out of its slot. -/
def cutW (A : List Nat) (s : Nat) (nx : Int) : W :=
  match A.getLast? with | none => .bucket s nx | some q => .next q nx

theorem cut_facts (h : HT) (A : List Nat) (s : Nat) (nx : Int) :
    ((cutW A s nx).onHT h).used = h.used ∧ ((cutW A s nx).onHT h).free = h.free ∧
    (∀ t, t ≠ s → ((cutW A s nx).onHT h).slots t = h.slots t) ∧
    (∀ j, j ∉ A → ((cutW A s nx).onHT h).nodes j = h.nodes j) ∧
    (∀ j, ∃ v, ((cutW A s nx).onHT h).nodes j = { h.nodes j with next := v }) ∧ (cutW A s nx).ix := by
  unfold cutW
  cases hA : A.getLast? with
  | none => exact ⟨rfl, rfl, fun t ht => by simp [W.onHT, HT.setSlot, ht], fun _ _ => rfl, fun j => ⟨_, rfl⟩, trivial⟩
  | some q =>
    refine ⟨rfl, rfl, fun _ _ => rfl, fun j hj => ?_, fun j => ?_, trivial⟩
    · have : j ≠ q := fun x => hj (x ▸ List.mem_of_getLast? hA)
      exact set_other _ _ this
    · by_cases x : j = q
      · subst x; exact ⟨nx, by simp only [W.onHT]; rw [set_same]⟩
      · exact ⟨(h.nodes j).next, by simp only [W.onHT]; rw [set_other _ _ x]⟩

theorem cut_seg {h : HT} {i s : Nat} {A B : List Nat} (hseg : Seg (fun j => (h.nodes j).next) (h.slots s) (A ++ i :: B) (-1))
    (hn : (A ++ i :: B).Nodup) :
    Seg (fun j => (((cutW A s (h.nodes i).next).onHT h).nodes j).next) (((cutW A s (h.nodes i).next).onHT h).slots s) (A ++ B) (-1) := by
  obtain ⟨nA, nB, nAB⟩ := List.nodup_append.1 hn
  by_cases hA : A = []
  · subst hA
    show Seg _ ((h.setSlot s (h.nodes i).next).slots s) _ _
    rw [show (h.setSlot s (h.nodes i).next).slots s = (h.nodes i).next by simp [HT.setSlot]]; exact hseg.2
  · obtain ⟨A', q, rfl⟩ : ∃ A' q, A = A' ++ [q] := ⟨A.dropLast, A.getLast hA, (List.dropLast_concat_getLast hA).symm⟩
    have e : (cutW (A' ++ [q]) s (h.nodes i).next).onHT h = h.set q { h.nodes q with next := (h.nodes i).next } := by
      unfold cutW; simp [W.onHT]
    rw [e]
    obtain ⟨u, h1, h2⟩ := seg_append.1 hseg
    have h2 : Seg (fun j => (h.nodes j).next) (h.nodes i).next B (-1) := h2.2
    refine seg_append.2 ⟨(h.nodes i).next, ?_, ?_⟩
    · refine seg_relink h1 (fun j hj => ?_) ?_
      · have : j ≠ q := by
          intro e; subst e
          exact (List.nodup_append.1 nA).2.2 j hj j (by simp) rfl
        rw [set_other _ _ this]
      · rw [set_same]
    · refine seg_congr (fun j hj => ?_) h2
      have : j ≠ q := fun e => nAB q (by simp) j (by simp [hj]) e.symm
      rw [set_other _ _ this]

theorem Core.cut (hc : CfgOk cfg) {E1 E2 : List Entry} {e : Entry} (c : Core cfg st (E1 ++ e :: E2) X F) :
    Core cfg { st with ht := (cutW (chain cfg E1 (slotOf cfg e.key)) (slotOf cfg e.key) (st.ht.nodes e.idx).next).onHT st.ht } (E1 ++ E2) (e.idx :: X) F := by
  have he : e ∈ E1 ++ e :: E2 := by simp
  have hslt := slotOf_lt hc e.key
  have hch : chain cfg (E1 ++ e :: E2) (slotOf cfg e.key) = chain cfg E1 (slotOf cfg e.key) ++ e.idx :: chain cfg E2 (slotOf cfg e.key) := by
    rw [chain_append, chain_cons, if_pos rfl]
  have hseg := c.slots _ hslt
  have hchn := c.chain_nodup (slotOf cfg e.key)
  rw [hch] at hseg hchn
  have hs' := cut_seg hseg hchn
  obtain ⟨f1, f2, f3, f4, f5, _⟩ := cut_facts st.ht (chain cfg E1 (slotOf cfg e.key)) (slotOf cfg e.key) (st.ht.nodes e.idx).next
  generalize (cutW (chain cfg E1 (slotOf cfg e.key)) (slotOf cfg e.key) (st.ht.nodes e.idx).next).onHT st.ht = h1 at *
  have hmem : ∀ d ∈ E1 ++ E2, d ∈ E1 ++ e :: E2 := by intro d hd; simp at hd ⊢; grind
  have hperm : ((E1 ++ e :: E2).map Entry.idx).Perm (e.idx :: (E1 ++ E2).map Entry.idx) := by
    simp only [List.map_append, List.map_cons]; exact List.perm_middle
  have hperm2 : ((E1 ++ E2).map Entry.idx ++ (e.idx :: X ++ flat F)).Perm ((E1 ++ e :: E2).map Entry.idx ++ (X ++ flat F)) := by
    refine List.Perm.trans ?_ (hperm.append_right (X ++ flat F)).symm
    simp only [List.cons_append]
    exact List.perm_middle
  have hF : ∀ j ∈ flat F, j ∉ chain cfg E1 (slotOf cfg e.key) := by
    intro j hj hj'
    exact (c.chain_not_free (s := slotOf cfg e.key) (by rw [hch]; simp [hj'])).2 hj
  have hoff : ∀ j, (h1.nodes j).offset = (st.ht.nodes j).offset ∧ (h1.nodes j).length = (st.ht.nodes j).length := by
    intro j; obtain ⟨v, hv⟩ := f5 j; rw [hv]; exact ⟨rfl, rfl⟩
  refine ⟨fun t h => ?_, ⟨?_, fun g hg => ?_, c.free.nodup, fun i hi => by dsimp only; rw [f1]; exact c.free.lt i hi⟩, ?_, fun i => ?_, fun d hd => ?_,
    fun j hj => ?_, fun h => ?_, fun j h => ?_, ?_⟩
  · dsimp only
    by_cases x : t = slotOf cfg e.key
    · subst x; rw [chain_append]; exact hs'
    · rw [f3 t x]
      have : chain cfg (E1 ++ E2) t = chain cfg (E1 ++ e :: E2) t := by
        rw [chain_append, chain_append, chain_cons, if_neg (Ne.symm x)]
      rw [this]
      refine seg_congr (fun j hj => ?_) (c.slots t h)
      have hjs : j ∉ chain cfg E1 (slotOf cfg e.key) := by
        intro hj'
        have h1 : j ∈ (E1.filter fun d => slotOf cfg d.key == slotOf cfg e.key).map Entry.idx := hj'
        have h2 : j ∈ ((E1 ++ e :: E2).filter fun e => slotOf cfg e.key == t).map Entry.idx := hj
        simp only [List.mem_map, List.mem_filter, beq_iff_eq] at h1 h2
        obtain ⟨a, ⟨ha, hsa⟩, rfl⟩ := h1
        obtain ⟨b, ⟨hb, hsb⟩, hab⟩ := h2
        have := c.idx_inj hb (by simp [ha]) hab
        subst this
        exact x (hsb.symm.trans hsa)
      rw [f4 j hjs]
  · dsimp only
    rw [f2]
    exact seg_congr (fun j hj => by rw [f4 j (hF j (head_mem_flat hj))]) c.free.heads
  · refine (c.free.grp g hg).congr (fun i hi => ?_) (fun i => (hoff i).2)
    have : i ∈ flat F := by
      rcases hi with rfl | hi
      · exact head_mem_flat (List.mem_map_of_mem hg)
      · exact tail_mem_flat hg hi
    dsimp only
    rw [f4 i (hF i this)]
  · exact hperm2.nodup_iff.2 c.nodup
  · dsimp only
    rw [f1, c.cover i, hperm2.mem_iff]
  · have ld := c.live d (hmem d hd)
    obtain ⟨v, hv⟩ := f5 d.idx
    exact ⟨by dsimp only; rw [hv]; exact ld.slot, by dsimp only; rw [hv]; exact ld.ttl, by dsimp only; rw [hv]; exact ld.added,
      by dsimp only; rw [hv]; exact ld.used, by dsimp only; rw [hv]; exact ld.fits, by dsimp only; rw [hv]; exact ld.bytes, ld.key⟩
  · dsimp only
    rw [f4 j (hF j hj)]; exact c.freeTTL j hj
  · dsimp only; rw [(hoff 0).1]; exact c.first (by dsimp only at h; omega)
  · dsimp only at h ⊢; rw [(hoff _).1, (hoff _).1, (hoff _).2]; exact c.cont j (by omega)
  · dsimp only
    rw [endOf_congr f1 (fun j => (hoff j).1) (fun j => (hoff j).2), f1]; exact c.room

/-- The start byte of a block belongs to no record. -/
theorem Core.mark (c : Core cfg st es X F) {e : Entry} (he : e ∈ es) (b : Byte) :
    Core cfg { st with mem := poke st.mem (st.ht.nodes e.idx).offset [b] } es X F := by
  refine ⟨c.slots, c.free, c.nodup, c.cover, fun d hd => ?_, c.freeTTL, c.first, c.cont, c.room⟩
  have l := c.live e he
  by_cases x : e.idx = d.idx
  · have := c.idx_inj he hd x
    subst this
    refine ⟨l.slot, l.ttl, l.added, l.used, l.fits, ?_, l.key⟩
    refine Eq.trans (peek_congr (fun k hk => poke_other ?_)) l.bytes
    simp only [List.length_singleton]; omega
  · exact Live.poke c hd (c.idx_lt he) x (Nat.le_refl _) (by have := l.fits; simp; omega)

/-- The lifetime of an entry is cleared. -/
theorem Core.clear (c : Core cfg st es X F) {e : Entry} (he : e ∈ es) :
    Core cfg { st with ht := st.ht.set e.idx { st.ht.nodes e.idx with ttl := 0 } }
      (es.map fun d => if d.idx = e.idx then { d with ttl := 0 } else d) X F := by
  have l := c.live e he
  have := c.setAll (J := [e.idx]) (fun j hj => by simp only [List.mem_singleton] at hj; subst hj; exact List.mem_map_of_mem he) 0 e.added
  have e1 : setAll st [e.idx] 0 e.added = { st with ht := st.ht.set e.idx { st.ht.nodes e.idx with ttl := 0 } } := by
    simp only [setAll, HT.set, St.mk.injEq, HT.mk.injEq, and_true]
    funext k
    by_cases x : k = e.idx
    · subst x; rw [← l.added]; simp
    · simp [x]
  have e2 : (es.map fun d => d.touch (decide (d.idx ∈ [e.idx])) 0 e.added) = es.map fun d => if d.idx = e.idx then { d with ttl := 0 } else d := by
    apply List.map_congr_left
    intro d hd
    by_cases x : d.idx = e.idx
    · have := c.idx_inj hd he x
      subst this
      simp [Entry.touch]
    · simp [Entry.touch, x]
  rw [e1, e2] at this
  exact this

theorem addFreeW_on {h : HT} {F : List Grp} {i fuel : Nat} (hf : FreeOk h F) (hi : i ∉ flat F) (hfu : F.length < fuel) :
    addFree h i fuel = some (onAll h (addFreeW h i fuel).flatten) ∧ (∀ w ∈ (addFreeW h i fuel).flatten, w.ix) ∧
    ∃ v u ws, addFreeW h i fuel = [[.slot i v], [.used i u], ws] := by
  have ne : ∀ j ∈ flat F, j ≠ i := fun j hj e => hi (e ▸ hj)
  unfold addFree addFreeW
  have hG := groupLoop_ok (len := (h.nodes i).length) (h := h) F (G := []) (cur := h.free) (fuel := fuel)
    (by simpa using hf.lt) rfl hf.heads hfu
  rw [show lastHead [] = none from rfl] at hG
  rcases hG with ⟨pre, e⟩ | ⟨G, c, l, F3, eF, e, hl⟩
  · rw [e]
    dsimp only
    rw [if_pos (by omega), if_pos (by omega)]
    refine ⟨?_, ?_, _, _, _, rfl⟩
    · simp only [List.flatten_cons, List.flatten_nil, List.append_nil, List.cons_append, List.nil_append, onAll_cons, onAll_nil, W.onHT, set_same, set_set]
      congr 1
      simp only [HT.set, HT.mk.injEq, and_true]
      funext j
      by_cases x : j = i <;> simp [x]
    · intro w hw
      simp only [List.flatten_cons, List.flatten_nil, List.append_nil, List.cons_append, List.nil_append, List.mem_cons, List.not_mem_nil, or_false] at hw
      rcases hw with rfl | rfl | rfl | rfl <;> trivial
  · rw [e]
    dsimp only
    rw [if_neg (by omega), if_neg (by omega)]
    simp only [List.nil_append] at eF
    have hpre : ∀ p ∈ lastHead G, p ≠ i := fun p hp => ne p (by rw [eF]; simp [lastHead_mem hp])
    refine ⟨?_, ?_, _, _, _, rfl⟩
    · simp only [List.flatten_cons, List.flatten_nil, List.append_nil, List.cons_append, List.nil_append, onAll_cons, onAll_nil, linkW_on]
      simp only [W.onHT, set_same, set_set]
      congr 1
      cases hp : lastHead G with
      | none =>
        simp only [link, HT.set, HT.mk.injEq, and_true]
        funext j
        by_cases x : j = i <;> simp [x]
      | some p =>
        have hpi := hpre p hp
        simp only [link, set_other _ _ hpi, set_other _ _ (Ne.symm hpi), set_same]
        simp only [HT.set, HT.mk.injEq, and_true]
        funext j
        by_cases x : j = i
        · subst x; simp [Ne.symm hpi]
        · by_cases y : j = p <;> simp [x, y, hpi]
    · intro w hw
      simp only [List.flatten_cons, List.flatten_nil, List.append_nil, List.cons_append, List.nil_append, List.mem_cons, List.not_mem_nil, or_false] at hw
      rcases hw with rfl | rfl | rfl | rfl
      · trivial
      · trivial
      · exact linkW_ix _ _
      · trivial

/-- Same lifetimes and geometry. -/
theorem Good.same {h' : HT} {es' : List Entry} {X' : List Nat} {F' : List Grp} (hf : Fits cfg st) (hq : Quiet st es)
    (c : Core cfg { st with ht := h' } es' X' F') (hu : h'.used = st.ht.used)
    (hn : ∀ j, (h'.nodes j).offset = (st.ht.nodes j).offset ∧ (h'.nodes j).length = (st.ht.nodes j).length ∧ (h'.nodes j).ttl = (st.ht.nodes j).ttl)
    (he : ∀ j, (∀ e ∈ es', e.idx ≠ j) → (∀ e ∈ es, e.idx ≠ j) ∨ (st.ht.nodes j).ttl = 0) : Good cfg { st with ht := h' } es' := by
  refine ⟨⟨X', F', c⟩, ⟨?_, ?_⟩, fun j hj => ?_⟩
  · show endOf cfg h' ≤ _; rw [endOf_congr hu (fun j => (hn j).1) (fun j => (hn j).2.1)]; exact hf.1
  · dsimp only; rw [hu]; exact hf.2
  · dsimp only; rw [(hn j).2.2]
    rcases he j hj with h | h
    · exact hq j h
    · exact h

theorem keep (h : HT) (i j : Nat) (v : Int) :
    ((((W.slot i v).onHT h).nodes j).offset = (h.nodes j).offset ∧ (((W.slot i v).onHT h).nodes j).length = (h.nodes j).length ∧
      (((W.slot i v).onHT h).nodes j).ttl = (h.nodes j).ttl) ∧
    ∀ u : Nat, (((W.used i u).onHT h).nodes j).offset = (h.nodes j).offset ∧ (((W.used i u).onHT h).nodes j).length = (h.nodes j).length ∧
      (((W.used i u).onHT h).nodes j).ttl = (h.nodes j).ttl := by
  by_cases x : j = i
  · subst x; simp [W.onHT, set_same]
  · simp [W.onHT, set_other _ _ x]

theorem removeW_ok (hc : CfgOk cfg) {E1 E2 : List Entry} {e : Entry} (c : Core cfg st (E1 ++ e :: E2) X F) (hf : Fits cfg st)
    (hq : Quiet st (E1 ++ e :: E2)) (h0 : e.ttl = 0) {fuel : Nat} (hfuel : st.ht.used < fuel)
    (hfin : ∀ h', remove cfg.nslots st.ht e.idx fuel = some h' → Good cfg { st with ht := h' } (E1 ++ E2)) :
    Along (fun s => Good cfg s (E1 ++ e :: E2) ∨ Good cfg s (E1 ++ E2)) (removeW cfg.nslots st.ht e.idx fuel) st ∧
      remove cfg.nslots st.ht e.idx fuel = some (onAll st.ht (removeW cfg.nslots st.ht e.idx fuel).flatten) ∧
      (∀ w ∈ (removeW cfg.nslots st.ht e.idx fuel).flatten, w.ix) := by
  have he : e ∈ E1 ++ e :: E2 := by simp
  have l := c.live e he
  have hslt := slotOf_lt hc e.key
  have hch : chain cfg (E1 ++ e :: E2) (slotOf cfg e.key) = chain cfg E1 (slotOf cfg e.key) ++ e.idx :: chain cfg E2 (slotOf cfg e.key) := by
    rw [chain_append, chain_cons, if_pos rfl]
  have hseg := c.slots _ hslt
  have hchn := c.chain_nodup (slotOf cfg e.key)
  have hchl := c.chain_length (slotOf cfg e.key)
  have hlt : ∀ j ∈ chain cfg (E1 ++ e :: E2) (slotOf cfg e.key), j < st.ht.used := fun j hj => c.chain_lt hj
  rw [hch] at hseg hchn hchl hlt
  have hp := pred_ok hseg hchn hlt (fuel := fuel) (by simp at hchl; omega)
  have c1 := Core.cut hc c
  obtain ⟨f1, f2, f3, f4, f5, f6⟩ := cut_facts st.ht (chain cfg E1 (slotOf cfg e.key)) (slotOf cfg e.key) (st.ht.nodes e.idx).next
  have heA : e.idx ∉ chain cfg E1 (slotOf cfg e.key) := fun h => (List.nodup_append.1 hchn).2.2 _ h e.idx (by simp) rfl
  have hne : (st.ht.nodes e.idx).ttl = 0 := by rw [l.ttl, h0]
  have hhole : ∀ j, (∀ d ∈ E1 ++ E2, d.idx ≠ j) → (∀ d ∈ E1 ++ e :: E2, d.idx ≠ j) ∨ (st.ht.nodes j).ttl = 0 := by
    intro j hj
    by_cases x : j = e.idx
    · subst x; exact .inr hne
    · refine .inl (fun d hd => ?_)
      simp only [List.mem_append, List.mem_cons] at hd
      rcases hd with h | rfl | h
      · exact hj d (by simp [h])
      · exact Ne.symm x
      · exact hj d (by simp [h])
  have hn1 : ∀ j, ((cutW (chain cfg E1 (slotOf cfg e.key)) (slotOf cfg e.key) (st.ht.nodes e.idx).next).onHT st.ht).nodes j =
      { st.ht.nodes j with next := (((cutW (chain cfg E1 (slotOf cfg e.key)) (slotOf cfg e.key) (st.ht.nodes e.idx).next).onHT st.ht).nodes j).next } := by
    intro j; obtain ⟨v, hv⟩ := f5 j; rw [hv]
  have hrw : removeW cfg.nslots st.ht e.idx fuel =
      [cutW (chain cfg E1 (slotOf cfg e.key)) (slotOf cfg e.key) (st.ht.nodes e.idx).next] ::
      if e.idx + 1 ≠ ((cutW (chain cfg E1 (slotOf cfg e.key)) (slotOf cfg e.key) (st.ht.nodes e.idx).next).onHT st.ht).used then
        addFreeW ((cutW (chain cfg E1 (slotOf cfg e.key)) (slotOf cfg e.key) (st.ht.nodes e.idx).next).onHT st.ht) e.idx fuel
      else [[.count (((cutW (chain cfg E1 (slotOf cfg e.key)) (slotOf cfg e.key) (st.ht.nodes e.idx).next).onHT st.ht).used - 1)]] := by
    unfold removeW
    dsimp only
    rw [l.slot, if_neg (by omega), if_pos (by omega), Int.toNat_natCast, hp]
    rfl
  have hre : remove cfg.nslots st.ht e.idx fuel =
      if e.idx + 1 ≠ ((cutW (chain cfg E1 (slotOf cfg e.key)) (slotOf cfg e.key) (st.ht.nodes e.idx).next).onHT st.ht).used then
        addFree ((cutW (chain cfg E1 (slotOf cfg e.key)) (slotOf cfg e.key) (st.ht.nodes e.idx).next).onHT st.ht) e.idx fuel
      else some { ((cutW (chain cfg E1 (slotOf cfg e.key)) (slotOf cfg e.key) (st.ht.nodes e.idx).next).onHT st.ht) with
        used := ((cutW (chain cfg E1 (slotOf cfg e.key)) (slotOf cfg e.key) (st.ht.nodes e.idx).next).onHT st.ht).used - 1 } := by
    unfold remove
    dsimp only
    rw [l.slot, if_neg (by omega), if_pos (by omega), Int.toNat_natCast, hp]
    dsimp only
    unfold cutW
    cases (chain cfg E1 (slotOf cfg e.key)).getLast? <;> rfl
  rw [hrw]
  rw [hre] at hfin ⊢
  have hw1 : writes st [cutW (chain cfg E1 (slotOf cfg e.key)) (slotOf cfg e.key) (st.ht.nodes e.idx).next] =
      { st with ht := (cutW (chain cfg E1 (slotOf cfg e.key)) (slotOf cfg e.key) (st.ht.nodes e.idx).next).onHT st.ht } := by
    rw [writes_ix (by simpa using f6)]; rfl
  have hon1 : ∀ r : List (List W), onAll st.ht ([cutW (chain cfg E1 (slotOf cfg e.key)) (slotOf cfg e.key) (st.ht.nodes e.idx).next] :: r).flatten =
      onAll ((cutW (chain cfg E1 (slotOf cfg e.key)) (slotOf cfg e.key) (st.ht.nodes e.idx).next).onHT st.ht) r.flatten := by
    intro r; rw [List.flatten_cons, List.cons_append, List.nil_append, onAll_cons]
  rw [hon1]
  generalize cutW (chain cfg E1 (slotOf cfg e.key)) (slotOf cfg e.key) (st.ht.nodes e.idx).next = w at *
  have g0 : Good cfg st (E1 ++ e :: E2) := ⟨⟨X, F, c⟩, hf, hq⟩
  have g1 : Good cfg { st with ht := w.onHT st.ht } (E1 ++ E2) :=
    Good.same hf hq c1 f1 (fun j => by rw [hn1 j]; exact ⟨rfl, rfl, rfl⟩) hhole
  have hq1 : Quiet { st with ht := w.onHT st.ht } (E1 ++ E2) := g1.2.2
  have hf1 : Fits cfg { st with ht := w.onHT st.ht } := g1.2.1
  by_cases hx : e.idx + 1 ≠ (w.onHT st.ht).used
  · rw [if_pos hx] at hfin ⊢
    rw [if_pos hx]
    have hFi : e.idx ∉ flat F := (c.not_free he).2
    obtain ⟨a1, a2, v, u, ws, a3⟩ := addFreeW_on (h := w.onHT st.ht) (i := e.idx) (fuel := fuel) c1.free hFi (by have := c.F_length; omega)
    have hfin := hfin _ a1
    refine ⟨⟨.inl g0, ?_⟩, a1, ?_⟩
    · rw [hw1]
      have hall : writes { st with ht := w.onHT st.ht } (addFreeW (w.onHT st.ht) e.idx fuel).flatten =
          { st with ht := onAll (w.onHT st.ht) (addFreeW (w.onHT st.ht) e.idx fuel).flatten } := writes_ix a2 _
      rw [a3] at hall hfin ⊢
      rw [← hall] at hfin
      simp only [List.flatten_cons, List.flatten_nil, List.append_nil, writes_append] at hfin
      have c2 : Core cfg { st with ht := (W.slot e.idx v).onHT (w.onHT st.ht) } (E1 ++ E2) (e.idx :: X) F :=
        c1.setX (by simp) _ rfl rfl
      have c3 : Core cfg { st with ht := (W.used e.idx u).onHT ((W.slot e.idx v).onHT (w.onHT st.ht)) } (E1 ++ E2) (e.idx :: X) F :=
        c2.setX (by simp) _ rfl rfl
      refine ⟨.inr g1, .inr ?_, .inr ?_, .inr hfin⟩
      · refine Good.same (st := { st with ht := w.onHT st.ht }) hf1 hq1 c2 rfl (fun j => ?_) (fun _ h => .inl h)
        exact (keep (w.onHT st.ht) e.idx j v).1
      · refine Good.same (st := { st with ht := w.onHT st.ht }) hf1 hq1 c3 rfl (fun j => ?_) (fun _ h => .inl h)
        have k1 := (keep (w.onHT st.ht) e.idx j v).1
        have k2 := (keep ((W.slot e.idx v).onHT (w.onHT st.ht)) e.idx j 0).2 u
        exact ⟨k2.1.trans k1.1, k2.2.1.trans k1.2.1, k2.2.2.trans k1.2.2⟩
    · intro w' hw'
      rw [List.flatten_cons, List.cons_append, List.nil_append, List.mem_cons] at hw'
      rcases hw' with rfl | h
      · exact f6
      · exact a2 _ h
  · rw [if_neg hx] at hfin ⊢
    rw [if_neg hx]
    have hfin := hfin _ rfl
    refine ⟨⟨.inl g0, ?_⟩, rfl, ?_⟩
    · rw [hw1]
      exact ⟨.inr g1, .inr hfin⟩
    · intro w' hw'
      simp only [List.flatten_cons, List.flatten_nil, List.append_nil, List.cons_append, List.nil_append, List.mem_cons, List.not_mem_nil, or_false] at hw'
      rcases hw' with rfl | rfl
      · exact f6
      · trivial

/-- What a sweep may have done to the entries when it is interrupted. -/
def Part (now : Int) (es es' : List Entry) : Prop :=
  ∃ p z : Entry → Bool, (∀ e ∈ es, p e = false → expiredE now e = true) ∧ (∀ e ∈ es, z e = true → expiredE now e = true) ∧
    es' = (es.filter p).map fun e => if z e then { e with ttl := 0 } else e

theorem filter_all (l : List Entry) : l.filter (fun _ => true) = l := List.filter_eq_self.2 (by simp)

theorem Part.refl (now : Int) (es : List Entry) : Part now es es :=
  ⟨fun _ => true, fun _ => false, by simp, by simp, by rw [filter_all]; simp⟩

theorem Part.after {now : Int} {es es' : List Entry} {q : Entry → Bool} (hq : ∀ e ∈ es, q e = false → expiredE now e = true)
    (h : Part now (es.filter q) es') : Part now es es' := by
  obtain ⟨p, z, hp, hz, rfl⟩ := h
  refine ⟨fun e => p e && q e, fun e => z e && q e, fun e he h => ?_, fun e he h => ?_, ?_⟩
  · by_cases x : q e = true
    · have h : (p e && q e) = false := h
      rw [x, Bool.and_true] at h; exact hp e (List.mem_filter.2 ⟨he, x⟩) h
    · exact hq e he (by simpa using x)
  · have h : (z e && q e) = true := h
    rw [Bool.and_eq_true] at h; exact hz e (List.mem_filter.2 ⟨he, h.2⟩) h.1
  · rw [List.filter_filter]
    apply List.map_congr_left
    intro e he
    have := (List.mem_filter.1 he).2
    rw [Bool.and_eq_true] at this
    simp [this.2]

theorem sweepLoopW_ok (hc : CfgOk cfg) (now : Int) (fuel : Nat) : ∀ (n : Nat) {st : St} {es : List Entry} (got : Bool),
    Good cfg st es → n ≤ st.ht.used → st.ht.used < fuel →
    Along (fun s => ∃ es', Good cfg s es' ∧ Part now es es') (sweepLoopW cfg now fuel n st) st ∧
      ∃ got', sweepLoop cfg now fuel n st got = some (writes st (sweepLoopW cfg now fuel n st).flatten, got') := by
  intro n
  induction n with
  | zero =>
    intro st es got g _ _
    exact ⟨⟨es, g, .refl _ _⟩, got, rfl⟩
  | succ n ih =>
    intro st es got g hn hf
    have hlt : n < st.ht.used := by omega
    rw [sweepLoop, sweepLoopW]
    simp only [if_pos hlt]
    by_cases hx : (st.ht.nodes n).ttl > 0 ∧ now - (st.ht.nodes n).added ≥ (st.ht.nodes n).ttl
    · simp only [if_pos hx]
      obtain ⟨⟨X, F, c⟩, hfit, hq⟩ := g
      have hmem : ∃ e ∈ es, e.idx = n := by
        refine Decidable.byContradiction fun h => ?_
        have := hq n (fun e he x => h ⟨e, he, x⟩)
        omega
      obtain ⟨e, he, rfl⟩ := hmem
      have l := c.live e he
      have hex : expiredE now e = true := by
        unfold expiredE; rw [decide_eq_true_iff, ← l.ttl, ← l.added]; exact hx
      have hinj : ∀ d ∈ es, d.idx = e.idx → d = e := fun d hd h => c.idx_inj hd he h
      have c1 := Core.clear c he
      obtain ⟨E1, E2, rfl⟩ := List.append_of_mem he
      have hother : ∀ d ∈ E1 ++ E2, d.idx ≠ e.idx := by
        have hn := (List.nodup_append.1 c.nodup).1
        rw [List.map_append, List.map_cons] at hn
        have hn := List.nodup_append.1 hn
        have hn2 := (List.nodup_cons.1 hn.2.1).1
        intro d hd heq
        rcases List.mem_append.1 hd with h | h
        · exact hn.2.2 d.idx (List.mem_map_of_mem h) e.idx (by simp) heq
        · exact hn2 (by rw [← heq]; exact List.mem_map_of_mem h)
      have hmap : (E1 ++ e :: E2).map (fun d => if d.idx = e.idx then { d with ttl := 0 } else d) = E1 ++ { e with ttl := 0 } :: E2 := by
        rw [List.map_append, List.map_cons, if_pos rfl]
        congr 1
        · rw [List.map_congr_left (g := id) (fun d hd => by simp [hother d (by simp [hd])]), List.map_id]
        · congr 1
          rw [List.map_congr_left (g := id) (fun d hd => by simp [hother d (by simp [hd])]), List.map_id]
      have hfil : (E1 ++ e :: E2).filter (fun d => decide (d.idx ≠ e.idx)) = E1 ++ E2 := by
        rw [List.filter_append, List.filter_cons_of_neg (by simp), ← List.filter_append, List.filter_eq_self]
        intro d hd; simpa using hother d hd
      have hcut : ∀ d ∈ E1 ++ e :: E2, decide (d.idx ≠ e.idx) = false → expiredE now d = true := by
        intro d hd h
        simp only [ne_eq, decide_not, Bool.not_eq_false', decide_eq_true_eq] at h
        rw [hinj d hd h]; exact hex
      have hP0 : Part now (E1 ++ e :: E2) (E1 ++ { e with ttl := 0 } :: E2) := by
        refine ⟨fun _ => true, fun d => decide (d.idx = e.idx), by simp, fun d hd h => ?_, ?_⟩
        · rw [hinj d hd (by simpa using h)]; exact hex
        · rw [filter_all, ← hmap]
          apply List.map_congr_left
          intro d _
          by_cases x : d.idx = e.idx <;> simp [x]
      have hP1 : Part now (E1 ++ e :: E2) (E1 ++ E2) := by
        have := Part.after hcut (.refl now _)
        rw [hfil] at this; exact this
      rw [hmap] at c1
      obtain ⟨h', F', er, c', hu1, hu2, he2, hq', hgeo'⟩ := c.expire hc hf
      have hoff : ((st.ht.set e.idx { st.ht.nodes e.idx with ttl := 0 }).nodes e.idx).offset = (st.ht.nodes e.idx).offset := by
        rw [set_same]
      have g1 : Good cfg { st with ht := st.ht.set e.idx { st.ht.nodes e.idx with ttl := 0 } } (E1 ++ { e with ttl := 0 } :: E2) := by
        have hnn : ∀ j, ((st.ht.set e.idx { st.ht.nodes e.idx with ttl := 0 }).nodes j).offset = (st.ht.nodes j).offset ∧
            ((st.ht.set e.idx { st.ht.nodes e.idx with ttl := 0 }).nodes j).length = (st.ht.nodes j).length := by
          intro j
          by_cases x : j = e.idx
          · subst x; rw [set_same]; exact ⟨rfl, rfl⟩
          · rw [set_other _ _ x]; exact ⟨rfl, rfl⟩
        refine ⟨⟨X, F, c1⟩, ⟨?_, hfit.2⟩, fun j hj => ?_⟩
        · show endOf cfg (st.ht.set e.idx { st.ht.nodes e.idx with ttl := 0 }) ≤ _
          exact Nat.le_trans (Nat.le_of_eq (endOf_congr (h := st.ht) (h' := st.ht.set e.idx { st.ht.nodes e.idx with ttl := 0 }) rfl (fun j => (hnn j).1) (fun j => (hnn j).2))) hfit.1
        · dsimp only
          have x : j ≠ e.idx := fun x => hj { e with ttl := 0 } (by simp) x.symm
          rw [set_other _ _ x]
          refine hq j (fun d hd y => ?_)
          have hd' : d ∈ E1 ++ E2 := by
            simp only [List.mem_append, List.mem_cons] at hd ⊢
            rcases hd with h | rfl | h
            · exact .inl h
            · exact absurd y.symm x
            · exact .inr h
          exact hj d (by simp only [List.mem_append, List.mem_cons] at hd' ⊢; grind) y
      have g2 : Good cfg { st with ht := st.ht.set e.idx { st.ht.nodes e.idx with ttl := 0 }, mem := poke st.mem (st.ht.nodes e.idx).offset [0xFD] }
          (E1 ++ { e with ttl := 0 } :: E2) := by
        obtain ⟨_, hf1, hq1⟩ := g1
        have := Core.mark c1 (e := { e with ttl := 0 }) (by simp) 0xFD
        dsimp only at this hoff
        rw [hoff] at this
        exact ⟨⟨X, F, this⟩, hf1, hq1⟩
      have g3 : Good cfg { st with ht := h', mem := poke st.mem (st.ht.nodes e.idx).offset [0xFD] } (E1 ++ E2) := by
        refine ⟨⟨X, F', c'⟩, ⟨Nat.le_trans he2 hfit.1, ?_⟩, fun j hj => ?_⟩
        · have := hfit.2; dsimp only; omega
        · dsimp only
          rw [hq']
          split
          · rfl
          · rename_i x
            refine hq j (fun d hd y => ?_)
            simp only [List.mem_append, List.mem_cons] at hd
            rcases hd with h | rfl | h
            · exact hj d (by simp [h]) y
            · exact x y.symm
            · exact hj d (by simp [h]) y
      have hst2 : ∀ (b : Nat), b = (st.ht.nodes e.idx).offset →
          writes st [.ttl e.idx 0, .byte b 0xFD] = { st with ht := st.ht.set e.idx { st.ht.nodes e.idx with ttl := 0 }, mem := poke st.mem (st.ht.nodes e.idx).offset [0xFD] } := by
        intro b hb; subst hb
        simp only [writes_cons, writes_nil, W.apply, W.onHT, poke_one]
      have hst1 : writes st [.ttl e.idx 0] = { st with ht := st.ht.set e.idx { st.ht.nodes e.idx with ttl := 0 } } := rfl
      obtain ⟨⟨X2, F2, c2⟩, hf2, hq2⟩ := id g2
      obtain ⟨r1, r2, r3⟩ := removeW_ok hc c2 hf2 hq2 rfl (fuel := fuel) hf (by
        intro h'' e''
        dsimp only at e''
        rw [er] at e''
        cases e''
        exact g3)
      dsimp only at r1 r2 r3 hoff
      rw [hoff, er]
      dsimp only
      obtain ⟨i1, got', i2⟩ := ih true g3 hu1 (by dsimp only; omega)
      have hw : writes st ([[W.ttl e.idx 0], [W.byte (st.ht.nodes e.idx).offset 0xFD]] ++
          removeW cfg.nslots (st.ht.set e.idx { st.ht.nodes e.idx with ttl := 0 }) e.idx fuel).flatten =
          { st with ht := h', mem := poke st.mem (st.ht.nodes e.idx).offset [0xFD] } := by
        rw [List.flatten_append, writes_append]
        rw [show ([[W.ttl e.idx 0], [W.byte (st.ht.nodes e.idx).offset 0xFD]] : List (List W)).flatten =
          [W.ttl e.idx 0, W.byte (st.ht.nodes e.idx).offset 0xFD] from rfl, hst2 _ rfl, writes_ix r3]
        dsimp only
        rw [er] at r2
        cases r2; rfl
      refine ⟨along_append (along_append ⟨⟨_, ⟨⟨X, F, c⟩, hfit, hq⟩, .refl _ _⟩, ⟨_, g1, hP0⟩, ?_⟩ ?_) ?_, got', ?_⟩
      · show ∃ es', Good cfg (writes (writes st [W.ttl e.idx 0]) [W.byte (st.ht.nodes e.idx).offset 0xFD]) es' ∧ _
        rw [← writes_append, List.cons_append, List.nil_append, hst2 _ rfl]
        exact ⟨_, g2, hP0⟩
      · rw [show ([[W.ttl e.idx 0], [W.byte (st.ht.nodes e.idx).offset 0xFD]] : List (List W)).flatten =
          [W.ttl e.idx 0, W.byte (st.ht.nodes e.idx).offset 0xFD] from rfl, hst2 _ rfl]
        refine along_mono (fun s hs => ?_) r1
        rcases hs with h | h
        · exact ⟨_, h, hP0⟩
        · exact ⟨_, h, hP1⟩
      · rw [hw]
        refine along_mono (fun s hs => ?_) i1
        obtain ⟨es', h1, h2⟩ := hs
        refine ⟨es', h1, Part.after hcut ?_⟩
        rw [hfil]; exact h2
      · rw [List.flatten_append, writes_append, hw]
        exact i2
    · simp only [if_neg hx]
      exact ih got g (by omega) hf

theorem sweepW_ok (hc : CfgOk cfg) (g : Good cfg st es) (now : Int) :
    Along (fun s => ∃ es', Good cfg s es' ∧ KillE cfg es (.sweep now) es') (sweepW cfg st now) st ∧
      sweep cfg st now = some (writes st (sweepW cfg st now).flatten) := by
  have key : ∀ s es', Good cfg s es' ∧ Part now es es' → ∃ es', Good cfg s es' ∧ KillE cfg es (.sweep now) es' := by
    rintro s _ ⟨h1, p, z, hp, hz, rfl⟩
    exact ⟨_, h1, .sweep now p z hp hz⟩
  obtain ⟨a1, got, a2⟩ := sweepLoopW_ok hc now st.fuel st.ht.used false g (Nat.le_refl _) (by unfold St.fuel; omega)
  have a3 := along_take a1 (sweepLoopW cfg now st.fuel st.ht.used st).length
  rw [List.take_length] at a3
  unfold sweep sweepW
  rw [a2]
  have a1' := along_mono (fun s hs => key s hs.choose hs.choose_spec) a1
  cases got with
  | false => 
    dsimp only
    rw [List.append_nil]
    exact ⟨a1', rfl⟩
  | true =>
    dsimp only
    refine ⟨along_append a1' ?_, ?_⟩
    · generalize writes st (sweepLoopW cfg now st.fuel st.ht.used st).flatten = s1 at *
      obtain ⟨es', ⟨⟨X, F, c⟩, hf, hq⟩, hp⟩ := a3
      refine ⟨key _ es' ⟨⟨⟨X, F, c⟩, hf, hq⟩, hp⟩, key _ es' ⟨⟨⟨X, F, c.cend _⟩, ⟨Nat.le_refl _, ?_⟩, hq⟩, hp⟩⟩
      show endOf cfg s1.ht + 32 * s1.ht.used + _ ≤ _
      have := hf.1
      have := hf.2
      omega
    · rw [List.flatten_append, writes_append]; rfl

end Verif.CacheFile
