import Verif.Model.CacheHT
/-! Linked lists in the node table and the free list's operations. -/

namespace Verif.CacheHT

/-- From `s`, following `nx`, through exactly `l` to `t`. -/
def Seg (nx : Nat → Int) (s : Int) : List Nat → Int → Prop
  | [], t => s = t
  | a :: l, t => s = a ∧ Seg nx (nx a) l t

theorem seg_append {nx : Nat → Int} {s t : Int} {l m : List Nat} :
    Seg nx s (l ++ m) t ↔ ∃ u, Seg nx s l u ∧ Seg nx u m t := by
  induction l generalizing s with
  | nil => simp [Seg]
  | cons a l ih =>
    simp only [List.cons_append, Seg, ih]
    constructor
    · rintro ⟨h, u, h1, h2⟩; exact ⟨u, ⟨h, h1⟩, h2⟩
    · rintro ⟨u, ⟨h, h1⟩, h2⟩; exact ⟨h, u, h1, h2⟩

theorem seg_congr {nx ny : Nat → Int} {s t : Int} {l : List Nat} (h : ∀ i ∈ l, nx i = ny i)
    (hs : Seg nx s l t) : Seg ny s l t := by
  induction l generalizing s with
  | nil => exact hs
  | cons a l ih =>
    refine ⟨hs.1, ?_⟩
    rw [← h a (by simp)]
    exact ih (fun i hi => h i (by simp [hi])) hs.2

/-- Changing the link of the last element. -/
theorem seg_relink {nx ny : Nat → Int} {s t u : Int} {l : List Nat} {p : Nat}
    (h : Seg nx s (l ++ [p]) t) (hn : ∀ i ∈ l, nx i = ny i) (hp : ny p = u) : Seg ny s (l ++ [p]) u := by
  obtain ⟨v, h1, h2⟩ := seg_append.1 h
  exact seg_append.2 ⟨v, seg_congr hn h1, h2.1, hp⟩

/-- A group of free nodes of one length: its head and the others. -/
abbrev Grp := Nat × List Nat

def flat (F : List Grp) : List Nat := F.flatMap (fun g => g.1 :: g.2)

@[simp] theorem flat_nil : flat [] = [] := rfl
@[simp] theorem flat_cons (g : Grp) (F : List Grp) : flat (g :: F) = g.1 :: (g.2 ++ flat F) := by simp [flat]
@[simp] theorem flat_append (F G : List Grp) : flat (F ++ G) = flat F ++ flat G := by simp [flat]

theorem head_mem_flat {F : List Grp} {a : Nat} (h : a ∈ F.map Prod.fst) : a ∈ flat F := by
  simp only [List.mem_map] at h
  obtain ⟨g, hg, rfl⟩ := h
  simp only [flat, List.mem_flatMap]
  exact ⟨g, hg, by simp⟩

theorem tail_mem_flat {F : List Grp} {g : Grp} (hg : g ∈ F) {a : Nat} (h : a ∈ g.2) : a ∈ flat F := by
  simp only [flat, List.mem_flatMap]
  exact ⟨g, hg, by simp [h]⟩

/-- One group is a well-formed list. -/
def GrpOk (h : HT) (g : Grp) : Prop :=
  Seg (fun i => (h.nodes i).next) (h.nodes g.1).next g.2 (-1) ∧ ∀ i ∈ g.2, (h.nodes i).length = (h.nodes g.1).length

/-- The free list holds exactly the groups `F`. -/
structure FreeOk (h : HT) (F : List Grp) : Prop where
  heads : Seg (fun i => (h.nodes i).slot) h.free (F.map Prod.fst) (-1)
  grp : ∀ g ∈ F, GrpOk h g
  nodup : (flat F).Nodup
  lt : ∀ i ∈ flat F, i < h.used

/-- `h'` differs from `h` at most in the link, time and count fields of the nodes in `X` and the head
of the free list. -/
structure Near (h h' : HT) (X : List Nat) : Prop where
  nodes : ∀ i, i ∉ X → h'.nodes i = h.nodes i
  offset : ∀ i, (h'.nodes i).offset = (h.nodes i).offset
  length : ∀ i, (h'.nodes i).length = (h.nodes i).length
  ttl : ∀ i, (h'.nodes i).ttl = (h.nodes i).ttl
  slots : h'.slots = h.slots
  used : h'.used = h.used

theorem Near.refl (h : HT) (X : List Nat) : Near h h X := ⟨fun _ _ => rfl, fun _ => rfl, fun _ => rfl, fun _ => rfl, rfl, rfl⟩

theorem Near.trans {h h' h'' : HT} {X : List Nat} (a : Near h h' X) (b : Near h' h'' X) : Near h h'' X :=
  ⟨fun i hi => (b.nodes i hi).trans (a.nodes i hi), fun i => (b.offset i).trans (a.offset i),
    fun i => (b.length i).trans (a.length i), fun i => (b.ttl i).trans (a.ttl i),
    b.slots.trans a.slots, b.used.trans a.used⟩

theorem Near.set {h : HT} {X : List Nat} {i : Nat} (hi : i ∈ X) (n : Node)
    (ho : n.offset = (h.nodes i).offset) (hl : n.length = (h.nodes i).length) (ht : n.ttl = (h.nodes i).ttl) :
    Near h (h.set i n) X := by
  refine ⟨fun j hj => ?_, fun j => ?_, fun j => ?_, fun j => ?_, rfl, rfl⟩
  · simp only [HT.set]; rw [if_neg]; rintro rfl; exact hj hi
  all_goals
    simp only [HT.set]
    split
    · rename_i e; subst e; assumption
    · rfl

theorem Near.link {h : HT} {X : List Nat} {pre : Option Nat} (hp : ∀ p ∈ pre, p ∈ X) (v : Int) :
    Near h (link h pre v) X := by
  cases pre with
  | none => exact ⟨fun _ _ => rfl, fun _ => rfl, fun _ => rfl, fun _ => rfl, rfl, rfl⟩
  | some p => exact Near.set (hp p rfl) _ rfl rfl rfl

theorem set_same (h : HT) (i : Nat) (n : Node) : (h.set i n).nodes i = n := by simp [HT.set]
theorem set_other (h : HT) {i j : Nat} (n : Node) (hne : j ≠ i) : (h.set i n).nodes j = h.nodes j := by simp [HT.set, hne]

theorem link_next (h : HT) (pre : Option Nat) (v : Int) (i : Nat) : ((link h pre v).nodes i).next = (h.nodes i).next := by
  cases pre with
  | none => rfl
  | some p =>
    simp only [link, HT.set]
    split
    · rename_i e; subst e; rfl
    · rfl

theorem link_slot_other (h : HT) (pre : Option Nat) (v : Int) (i : Nat) (hi : ∀ p ∈ pre, i ≠ p) :
    ((link h pre v).nodes i).slot = (h.nodes i).slot := by
  cases pre with
  | none => rfl
  | some p => simp only [link]; rw [set_other _ _ (hi p rfl)]

/-- The head of the last group. -/
def lastHead (G : List Grp) : Option Nat := (G.map Prod.fst).getLast?

theorem lastHead_snoc (G : List Grp) (g : Grp) : lastHead (G ++ [g]) = some g.1 := by simp [lastHead]

theorem lastHead_mem {G : List Grp} {p : Nat} (h : p ∈ lastHead G) : p ∈ flat G :=
  head_mem_flat (List.mem_of_getLast? h)

theorem last_split {G : List Grp} (h : G ≠ []) : ∃ G' g, G = G' ++ [g] :=
  ⟨G.dropLast, G.getLast h, (List.dropLast_concat_getLast h).symm⟩

/-- Linking the end of the groups `G` to `v`. -/
theorem link_heads {h : HT} {G : List Grp} {t : Int} (v : Int) (hn : (flat G).Nodup)
    (hs : Seg (fun i => (h.nodes i).slot) h.free (G.map Prod.fst) t) :
    Seg (fun i => ((link h (lastHead G) v).nodes i).slot) (link h (lastHead G) v).free (G.map Prod.fst) v := by
  by_cases hG : G = []
  · subst hG; rfl
  · obtain ⟨G', g, rfl⟩ := last_split hG
    rw [lastHead_snoc]
    simp only [List.map_append, List.map_cons, List.map_nil] at hs ⊢
    have hfree : (link h (some g.1) v).free = h.free := rfl
    rw [hfree]
    refine seg_relink hs (fun i hi => ?_) ?_
    · rw [link_slot_other]
      intro p hp e
      simp only [Option.mem_def, Option.some.injEq] at hp
      subst hp e
      simp only [flat_append, flat_cons, flat_nil] at hn
      exact (List.nodup_append.1 hn).2.2 _ (head_mem_flat hi) _ (by simp) rfl
    · simp [link, HT.set]

/-- Everything about the free list but the counts and times. -/
def SameLinks (h h' : HT) : Prop :=
  h'.free = h.free ∧ h'.used = h.used ∧ ∀ i, (h'.nodes i).slot = (h.nodes i).slot ∧ (h'.nodes i).next = (h.nodes i).next ∧
    (h'.nodes i).length = (h.nodes i).length

theorem GrpOk.congr {h h' : HT} {g : Grp} (hg : GrpOk h g)
    (hn : ∀ i, i = g.1 ∨ i ∈ g.2 → (h'.nodes i).next = (h.nodes i).next)
    (hl : ∀ i, (h'.nodes i).length = (h.nodes i).length) : GrpOk h' g := by
  refine ⟨?_, fun i hi => ?_⟩
  · rw [hn _ (.inl rfl)]
    exact seg_congr (fun i hi => (hn i (.inr hi)).symm) hg.1
  · rw [hl, hl]; exact hg.2 i hi

theorem FreeOk.sameLinks {h h' : HT} {F : List Grp} (hf : FreeOk h F) (s : SameLinks h h') : FreeOk h' F := by
  obtain ⟨s1, s2, s3⟩ := s
  refine ⟨?_, fun g hg => (hf.grp g hg).congr (fun i _ => (s3 i).2.1) (fun i => (s3 i).2.2), hf.nodup, fun i hi => ?_⟩
  · rw [s1]; exact seg_congr (fun i _ => (s3 i).1.symm) hf.heads
  · rw [s2]; exact hf.lt i hi

theorem set_sameLinks (h : HT) (i : Nat) (n : Node) (h1 : n.slot = (h.nodes i).slot) (h2 : n.next = (h.nodes i).next)
    (h3 : n.length = (h.nodes i).length) : SameLinks h (h.set i n) := by
  refine ⟨rfl, rfl, fun j => ?_⟩
  by_cases e : j = i
  · subst e; rw [set_same]; exact ⟨h1, h2, h3⟩
  · rw [set_other _ _ e]; exact ⟨rfl, rfl, rfl⟩

theorem age_sameLinks (now : Int) (h : HT) (pre : Option Nat) (c : Nat) : SameLinks h (age now h pre c) := by
  cases pre with
  | none => exact ⟨rfl, rfl, fun _ => ⟨rfl, rfl, rfl⟩⟩
  | some p =>
    simp only [age]
    split
    · exact set_sameLinks _ _ _ rfl rfl rfl
    · exact ⟨rfl, rfl, fun _ => ⟨rfl, rfl, rfl⟩⟩

theorem age_near (now : Int) (h : HT) (pre : Option Nat) (c : Nat) (X : List Nat) (hp : ∀ p ∈ pre, p ∈ X) :
    Near h (age now h pre c) X := by
  cases pre with
  | none => exact .refl _ _
  | some p =>
    simp only [age]
    split
    · exact Near.set (hp p rfl) _ rfl rfl rfl
    · exact .refl _ _

theorem nodup_mid {α : Type} {a b c : List α} (h : (a ++ (b ++ c)).Nodup) :
    a.Nodup ∧ b.Nodup ∧ c.Nodup ∧ (∀ x ∈ a, ∀ y ∈ b, x ≠ y) ∧ (∀ x ∈ a, ∀ y ∈ c, x ≠ y) ∧ (∀ x ∈ b, ∀ y ∈ c, x ≠ y) := by
  obtain ⟨h1, h2, h3⟩ := List.nodup_append.1 h
  obtain ⟨h4, h5, h6⟩ := List.nodup_append.1 h2
  exact ⟨h1, h4, h5, fun x hx y hy => h3 x hx y (by simp [hy]), fun x hx y hy => h3 x hx y (by simp [hy]), h6⟩

/-- Taking the head `c` of a group off the free list. -/
theorem unlink_ok {now : Int} {h : HT} {G F : List Grp} {c : Nat} {l : List Nat}
    (hf : FreeOk h (G ++ (c, l) :: F)) :
    ∃ h' F', unlink now h (lastHead G.dropLast) (lastHead G) c = some h' ∧ FreeOk h' F' ∧
      (flat (G ++ (c, l) :: F)).Perm (c :: flat F') ∧ Near h h' (flat (G ++ (c, l) :: F)) := by
  have hX : c ∈ flat (G ++ (c, l) :: F) := by simp
  have hmem : ∀ p ∈ lastHead G, p ∈ flat (G ++ (c, l) :: F) := fun p hp => by
    simp only [flat_append, List.mem_append]; exact .inl (lastHead_mem hp)
  generalize hh1 : h.set c { h.nodes c with added := now, used := (h.nodes c).used + 1 } = h1
  have s1 : SameLinks h h1 := by rw [← hh1]; exact set_sameLinks _ _ _ rfl rfl rfl
  have n1 : Near h h1 (flat (G ++ (c, l) :: F)) := by rw [← hh1]; exact Near.set hX _ rfl rfl rfl
  have hf1 := hf.sameLinks s1
  have hnd := hf.nodup
  simp only [flat_append, flat_cons] at hnd
  have hnd' : (flat G ++ ((c :: l) ++ flat F)).Nodup := by simpa using hnd
  obtain ⟨dG, dcl, dF, dGcl, dGF, dclF⟩ := nodup_mid hnd'
  have hseg := hf1.heads
  simp only [List.map_append, List.map_cons] at hseg
  obtain ⟨u, hsG, hu, hsF⟩ := seg_append.1 hseg
  have hgc : GrpOk h1 (c, l) := hf1.grp (c, l) (by simp)
  unfold unlink
  simp only [hh1]
  cases l with
  | nil =>
    have hnext : (h1.nodes c).next = -1 := hgc.1
    rw [if_neg (by rw [hnext]; omega)]
    refine ⟨_, G ++ F, rfl, ⟨?_, ?_, ?_, ?_⟩, ?_, n1.trans (Near.link hmem _)⟩
    · rw [List.map_append]
      refine seg_append.2 ⟨_, link_heads _ dG hsG, seg_congr (fun i hi => ?_) hsF⟩
      rw [link_slot_other]
      intro p hp e
      subst e
      exact dGF _ (lastHead_mem hp) _ (head_mem_flat hi) rfl
    · intro g hg
      refine (hf1.grp g ?_).congr (fun i _ => link_next _ _ _ _) (fun i => ?_)
      · simp only [List.mem_append, List.mem_cons] at hg ⊢; grind
      · exact (Near.link (X := flat (G ++ (c, []) :: F)) hmem _).length i
    · simp only [flat_append]
      exact List.nodup_append.2 ⟨dG, dF, dGF⟩
    · intro i hi
      have : (link h1 (lastHead G) (h1.nodes c).slot).used = h1.used := (Near.link (X := flat (G ++ (c, []) :: F)) hmem _).used
      rw [this]
      apply hf1.lt
      simp only [flat_append, flat_cons, List.mem_append, List.mem_cons] at hi ⊢; grind
    · simp only [flat_append, flat_cons, List.nil_append]
      exact List.perm_middle
  | cons e l =>
    have hnext : (h1.nodes c).next = (e : Int) := hgc.1.1
    rw [if_pos (by rw [hnext]; omega)]
    have he : (h1.nodes c).next.toNat = e := by rw [hnext]; simp
    simp only [he]
    have heX : e ∈ flat (G ++ (c, e :: l) :: F) := by simp
    rw [if_pos (hf1.lt e heX)]
    generalize hh2 : h1.set e { h1.nodes e with slot := (h1.nodes c).slot, added := (h1.nodes c).added, used := (h1.nodes c).used } = h2
    have n2 : Near h h2 (flat (G ++ (c, e :: l) :: F)) := n1.trans (by rw [← hh2]; exact Near.set heX _ rfl rfl rfl)
    have h2e : (h2.nodes e).slot = (h1.nodes c).slot := by rw [← hh2, set_same]
    have h2free : h2.free = h1.free := by rw [← hh2]; rfl
    have h2used : h2.used = h1.used := by rw [← hh2]; rfl
    have h2next : ∀ i, (h2.nodes i).next = (h1.nodes i).next := by
      intro i; rw [← hh2]; by_cases x : i = e
      · subst x; rw [set_same]
      · rw [set_other _ _ x]
    have h2o : ∀ i, i ≠ e → h2.nodes i = h1.nodes i := fun i hi => by rw [← hh2, set_other _ _ hi]
    have h2len : ∀ i, (h2.nodes i).length = (h1.nodes i).length := by
      intro i; rw [← hh2]; by_cases x : i = e
      · subst x; rw [set_same]
      · rw [set_other _ _ x]
    have eG : ∀ x ∈ flat G, x ≠ e := fun x hx => dGcl x hx e (by simp)
    have eF : ∀ x ∈ flat F, x ≠ e := fun x hx => Ne.symm (dclF e (by simp) x hx)
    have hsG2 : Seg (fun i => (h2.nodes i).slot) h2.free (G.map Prod.fst) u := by
      rw [h2free]
      exact seg_congr (fun i hi => by rw [h2o i (eG i (head_mem_flat hi))]) hsG
    have hsF2 : Seg (fun i => (h2.nodes i).slot) (h2.nodes e).slot (F.map Prod.fst) (-1) := by
      rw [h2e]
      exact seg_congr (fun i hi => by rw [h2o i (eF i (head_mem_flat hi))]) hsF
    have grp2 : ∀ g ∈ G ++ (e, l) :: F, GrpOk h2 g := by
      intro g hg
      have h1g : GrpOk h1 g := by
        simp only [List.mem_append, List.mem_cons] at hg
        rcases hg with hg | rfl | hg
        · exact hf1.grp g (by simp [hg])
        · refine ⟨hgc.1.2, fun i hi => ?_⟩
          rw [hgc.2 i (by simp [show i ∈ l from hi])]
          exact (hgc.2 e (by simp)).symm
        · exact hf1.grp g (by simp [hg])
      exact h1g.congr (fun i _ => h2next i) h2len
    have perm : (flat (G ++ (c, e :: l) :: F)).Perm (c :: flat (G ++ (e, l) :: F)) := by
      simp only [flat_append, flat_cons, List.cons_append]
      exact List.perm_middle
    have nd2 : (flat (G ++ (e, l) :: F)).Nodup := (List.nodup_cons.1 (perm.nodup_iff.1 hf.nodup)).2
    have lt2 : ∀ i ∈ flat (G ++ (e, l) :: F), i < h2.used := by
      intro i hi
      rw [h2used]; apply hf1.lt
      exact perm.mem_iff.2 (List.mem_cons_of_mem _ hi)
    -- the usual case: `e` takes the place of `c`
    have usual : FreeOk (link h2 (lastHead G) e) (G ++ (e, l) :: F) := by
      have nl := Near.link (h := h2) (X := flat (G ++ (c, e :: l) :: F)) hmem (e : Int)
      refine ⟨?_, fun g hg => (grp2 g hg).congr (fun i _ => link_next _ _ _ _) nl.length, nd2, fun i hi => ?_⟩
      · rw [List.map_append, List.map_cons]
        refine seg_append.2 ⟨_, link_heads _ dG hsG2, rfl, ?_⟩
        dsimp only
        rw [link_slot_other]
        · refine seg_congr (fun i hi => ?_) hsF2
          rw [link_slot_other]
          intro p hp x
          subst x
          exact dGF _ (lastHead_mem hp) _ (head_mem_flat hi) rfl
        · intro p hp x; exact eG p (lastHead_mem hp) x.symm
      · rw [nl.used]; exact lt2 i hi
    by_cases hG : G = []
    · subst hG
      exact ⟨_, _, rfl, usual, perm, n2.trans (Near.link (by simp) _)⟩
    · obtain ⟨G', g, rfl⟩ := last_split hG
      rw [lastHead_snoc] at *
      simp only [List.dropLast_concat]
      split
      · exact ⟨_, _, rfl, usual, perm, n2.trans (Near.link hmem _)⟩
      · -- the group overtakes the one before
        have hgX := hmem g.1 rfl
        have hge : g.1 ≠ e := eG g.1 (by simp)
        generalize hh3 : h2.set g.1 { h2.nodes g.1 with slot := (h2.nodes e).slot } = h3
        generalize hh4 : h3.set e { h3.nodes e with slot := (g.1 : Int) } = h4
        have n4 : Near h h4 (flat (G' ++ [g] ++ (c, e :: l) :: F)) := by
          refine n2.trans (Near.trans (h' := h3) ?_ ?_)
          · rw [← hh3]; exact Near.set hgX _ rfl rfl rfl
          · rw [← hh4]; exact Near.set heX _ rfl rfl rfl
        have h4o : ∀ i, i ≠ e → i ≠ g.1 → h4.nodes i = h2.nodes i := by
          intro i a b; rw [← hh4, set_other _ _ a, ← hh3, set_other _ _ b]
        have h4g : (h4.nodes g.1).slot = (h2.nodes e).slot := by
          rw [← hh4, set_other _ _ hge, ← hh3, set_same]
        have h4e : (h4.nodes e).slot = (g.1 : Int) := by rw [← hh4, set_same]
        have h4next : ∀ i, (h4.nodes i).next = (h2.nodes i).next := by
          intro i; rw [← hh4, ← hh3]
          simp only [HT.set]
          split
          · rename_i x; subst x; split
            · rename_i x; rw [x]
            · rfl
          · split
            · rename_i x; rw [x]
            · rfl
        have h4len : ∀ i, (h4.nodes i).length = (h2.nodes i).length := fun i => (n4.length i).trans (n2.length i).symm
        have h4free : h4.free = h2.free := by rw [← hh4, ← hh3]; rfl
        have hm' : ∀ p ∈ lastHead G', p ∈ flat (G' ++ [g] ++ (c, e :: l) :: F) := fun p hp => by
          simp only [flat_append, List.mem_append]; exact .inl (.inl (lastHead_mem hp))
        have dG' : (flat G').Nodup := by
          simp only [flat_append] at dG; exact (List.nodup_append.1 dG).1
        have gG' : ∀ x ∈ flat G', x ≠ g.1 := by
          simp only [flat_append] at dG
          exact fun x hx => (List.nodup_append.1 dG).2.2 x hx _ (by simp)
        have gF : ∀ x ∈ flat F, x ≠ g.1 := fun x hx => Ne.symm (dGF g.1 (by simp) x hx)
        have hsG' : ∃ v, Seg (fun i => (h4.nodes i).slot) h4.free (G'.map Prod.fst) v := by
          rw [List.map_append] at hsG2
          obtain ⟨v, hv, _⟩ := seg_append.1 hsG2
          refine ⟨v, ?_⟩
          rw [h4free]
          refine seg_congr (fun i hi => ?_) hv
          rw [h4o i (eG i (by simp [head_mem_flat hi])) (gG' i (head_mem_flat hi))]
        obtain ⟨v, hsG'⟩ := hsG'
        have nl := Near.link (h := h4) (X := flat (G' ++ [g] ++ (c, e :: l) :: F)) hm' (e : Int)
        have perm2 : (flat (G' ++ [g] ++ (e, l) :: F)).Perm (flat (G' ++ (e, l) :: g :: F)) := by
          simp only [flat_append, flat_cons, flat_nil, List.append_nil, List.append_assoc]
          refine List.Perm.append_left _ ?_
          have : (g.1 :: g.2 ++ (e :: (l ++ flat F))).Perm (e :: l ++ (g.1 :: (g.2 ++ flat F))) := by
            have := (List.perm_append_comm (l₁ := g.1 :: g.2) (l₂ := e :: l)).append_right (flat F)
            simpa using this
          simpa using this
        refine ⟨_, G' ++ (e, l) :: g :: F, rfl, ⟨?_, ?_, perm2.nodup_iff.1 nd2, ?_⟩, perm.trans (perm2.cons _), n4.trans nl⟩
        · rw [List.map_append, List.map_cons, List.map_cons]
          refine seg_append.2 ⟨_, link_heads _ dG' hsG', rfl, ?_⟩
          dsimp only
          rw [link_slot_other _ _ _ e (fun p hp x => eG p (by simp [lastHead_mem hp]) x.symm), h4e]
          refine ⟨rfl, ?_⟩
          dsimp only
          rw [link_slot_other _ _ _ g.1 (fun p hp x => gG' p (lastHead_mem hp) x.symm), h4g]
          refine seg_congr (fun i hi => ?_) hsF2
          rw [link_slot_other, h4o i (eF i (head_mem_flat hi)) (gF i (head_mem_flat hi))]
          intro p hp x
          subst x
          exact dGF _ (by simp [lastHead_mem hp]) _ (head_mem_flat hi) rfl
        · intro k hk
          refine (grp2 k ?_).congr (fun i _ => (link_next _ _ _ _).trans (h4next i)) (fun i => (nl.length i).trans (h4len i))
          simp only [List.mem_append, List.mem_cons, List.not_mem_nil, or_false] at hk ⊢; grind
        · intro i hi
          rw [nl.used, n4.used, ← n2.used]
          exact lt2 i (perm2.mem_iff.2 hi)

theorem FreeOk.set_other {h : HT} {F : List Grp} (hf : FreeOk h F) {c : Nat} (hc : c ∉ flat F) (n : Node) :
    FreeOk (h.set c n) F := by
  have ne : ∀ i ∈ flat F, i ≠ c := fun i hi e => hc (e ▸ hi)
  refine ⟨seg_congr (fun i hi => ?_) hf.heads, fun g hg => ⟨?_, fun i hi => ?_⟩, hf.nodup, hf.lt⟩
  · rw [CacheHT.set_other _ _ (ne i (head_mem_flat hi))]
  · have h1 : g.1 ≠ c := ne _ (head_mem_flat (List.mem_map_of_mem hg))
    rw [CacheHT.set_other _ _ h1]
    refine seg_congr (fun i hi => ?_) (hf.grp g hg).1
    rw [CacheHT.set_other _ _ (ne i (tail_mem_flat hg hi))]
  · have h1 : g.1 ≠ c := ne _ (head_mem_flat (List.mem_map_of_mem hg))
    rw [CacheHT.set_other _ _ h1, CacheHT.set_other _ _ (ne i (tail_mem_flat hg hi))]
    exact (hf.grp g hg).2 i hi

theorem FreeOk.mono_used {h : HT} {F : List Grp} (hf : FreeOk h F) {u : Nat} (hu : ∀ i ∈ flat F, i < u) :
    FreeOk { h with used := u } F := ⟨hf.heads, hf.grp, hf.nodup, hu⟩

theorem findLoop_ok {now : Int} {chunk : Nat} (F2 : List Grp) : ∀ {h : HT} {G : List Grp} {cur : Int} {fuel : Nat},
    FreeOk h (G ++ F2) → Seg (fun i => (h.nodes i).slot) h.free (G.map Prod.fst) cur →
    Seg (fun i => (h.nodes i).slot) cur (F2.map Prod.fst) (-1) → F2.length < fuel →
    (∃ h', findLoop now chunk fuel h (lastHead G.dropLast) (lastHead G) cur = some (h', none) ∧ FreeOk h' (G ++ F2) ∧
      Near h h' (flat (G ++ F2))) ∨
    (∃ h' c F', findLoop now chunk fuel h (lastHead G.dropLast) (lastHead G) cur = some (h', some c) ∧ FreeOk h' F' ∧
      (flat (G ++ F2)).Perm (c :: flat F') ∧ Near h h' (flat (G ++ F2)) ∧ (h.nodes c).length = chunk) := by
  induction F2 with
  | nil =>
    intro h G cur fuel hf _ hc hfu
    obtain ⟨fuel, rfl⟩ : ∃ k, fuel = k + 1 := ⟨fuel - 1, by omega⟩
    have hc : cur = -1 := hc
    left
    refine ⟨h, ?_, hf, .refl _ _⟩
    rw [findLoop, if_pos (by omega)]
  | cons g F2 ih =>
    intro h G cur fuel hf hG hc hfu
    obtain ⟨fuel, rfl⟩ : ∃ k, fuel = k + 1 := ⟨fuel - 1, by omega⟩
    obtain ⟨c, l⟩ := g
    obtain ⟨hcur, hrest⟩ := hc
    simp only at hcur
    subst hcur
    have hcX : c ∈ flat (G ++ (c, l) :: F2) := by simp
    have hmem : ∀ p ∈ lastHead G, p ∈ flat (G ++ (c, l) :: F2) := fun p hp => by
      simp only [flat_append, List.mem_append]; exact .inl (lastHead_mem hp)
    rw [findLoop, if_neg (by omega), if_pos (by simpa using hf.lt c hcX)]
    simp only [Int.toNat_natCast]
    generalize hh1 : age now h (lastHead G) c = h1
    have s1 : SameLinks h h1 := by rw [← hh1]; exact age_sameLinks _ _ _ _
    have n1 : Near h h1 (flat (G ++ (c, l) :: F2)) := by rw [← hh1]; exact age_near _ _ _ _ _ hmem
    have hf1 := hf.sameLinks s1
    by_cases hl : (h1.nodes c).length = chunk
    · right
      rw [if_pos hl]
      obtain ⟨h2, F', e2, hf2, hp, n2⟩ := unlink_ok (now := now) hf1
      rw [e2]
      have hcF : c ∉ flat F' := (List.nodup_cons.1 (hp.nodup_iff.1 hf.nodup)).1
      refine ⟨_, c, F', rfl, hf2.set_other hcF _, hp, (n1.trans n2).trans (Near.set hcX _ rfl rfl rfl), ?_⟩
      rw [← n1.length]; exact hl
    · rw [if_neg hl]
      have hG1 : Seg (fun i => (h1.nodes i).slot) h1.free (G.map Prod.fst) c := by
        rw [s1.1]; exact seg_congr (fun i _ => (s1.2.2 i).1.symm) hG
      have := @ih h1 (G ++ [(c, l)]) ((h1.nodes c).slot) fuel (by simpa using hf1)
        (by rw [List.map_append]; exact seg_append.2 ⟨_, hG1, rfl, rfl⟩)
        (by rw [(s1.2.2 c).1]; exact seg_congr (fun i _ => (s1.2.2 i).1.symm) hrest)
        (by simp only [List.length_cons] at hfu; omega)
      rw [lastHead_snoc, List.dropLast_concat] at this
      simp only [List.append_assoc, List.singleton_append] at this
      rcases this with ⟨h', e, a, b⟩ | ⟨h', c', F', e, a, b, d, k⟩
      · exact .inl ⟨h', e, a, n1.trans b⟩
      · exact .inr ⟨h', c', F', e, a, b, n1.trans d, by rw [← n1.length]; exact k⟩

theorem groupLoop_ok {len : Nat} {h : HT} (F2 : List Grp) : ∀ {G : List Grp} {cur : Int} {fuel : Nat},
    (∀ i ∈ flat (G ++ F2), i < h.used) → Seg (fun i => (h.nodes i).slot) h.free (G.map Prod.fst) cur →
    Seg (fun i => (h.nodes i).slot) cur (F2.map Prod.fst) (-1) → F2.length < fuel →
    (∃ pre, groupLoop h len fuel (lastHead G) cur = some (pre, -1)) ∨
    (∃ (G' : List Grp) (c : Nat) (l : List Nat) (F3 : List Grp), G ++ F2 = G' ++ (c, l) :: F3 ∧ groupLoop h len fuel (lastHead G) cur = some (lastHead G', (c : Int)) ∧
      (h.nodes c).length = len) := by
  induction F2 with
  | nil =>
    intro G cur fuel _ _ hc hfu
    obtain ⟨fuel, rfl⟩ : ∃ k, fuel = k + 1 := ⟨fuel - 1, by omega⟩
    have hc : cur = -1 := hc
    left
    refine ⟨lastHead G, ?_⟩
    rw [groupLoop, if_pos (by omega), hc]
  | cons g F2 ih =>
    intro G cur fuel hlt hG hc hfu
    obtain ⟨fuel, rfl⟩ : ∃ k, fuel = k + 1 := ⟨fuel - 1, by omega⟩
    obtain ⟨c, l⟩ := g
    obtain ⟨hcur, hrest⟩ := hc
    simp only at hcur
    subst hcur
    rw [groupLoop, if_neg (by omega), if_pos (by simpa using hlt c (by simp))]
    simp only [Int.toNat_natCast]
    by_cases hl : (h.nodes c).length = len
    · right
      exact ⟨G, c, l, F2, rfl, by rw [if_pos hl], hl⟩
    · rw [if_neg hl]
      have := @ih (G ++ [(c, l)]) ((h.nodes c).slot) fuel (by simpa using hlt)
        (by rw [List.map_append]; exact seg_append.2 ⟨_, hG, rfl, rfl⟩) hrest
        (by simp only [List.length_cons] at hfu; omega)
      rw [lastHead_snoc] at this
      simpa using this

theorem addFree_ok {h : HT} {F : List Grp} {i fuel : Nat} (hf : FreeOk h F) (hi : i ∉ flat F) (hu : i < h.used)
    (hfu : F.length < fuel) :
    ∃ h' F', addFree h i fuel = some h' ∧ FreeOk h' F' ∧ (flat F').Perm (i :: flat F) ∧ Near h h' (i :: flat F) := by
  have ne : ∀ j ∈ flat F, j ≠ i := fun j hj e => hi (e ▸ hj)
  unfold addFree
  have hG := groupLoop_ok (len := (h.nodes i).length) (h := h) F (G := []) (cur := h.free) (fuel := fuel)
    (by simpa using hf.lt) rfl hf.heads hfu
  rw [show lastHead [] = none from rfl] at hG
  rcases hG with ⟨pre, e⟩ | ⟨G, c, l, F3, eF, e, hl⟩
  · rw [e]
    dsimp only
    rw [if_pos (by omega)]
    refine ⟨_, (i, []) :: F, rfl, ⟨?_, ?_, ?_, ?_⟩, by simp, ?_⟩
    · refine ⟨rfl, ?_⟩
      dsimp only
      rw [set_same]
      refine seg_congr (fun j hj => ?_) hf.heads
      rw [set_other _ _ (ne j (head_mem_flat hj))]
    · intro g hg
      rcases List.mem_cons.1 hg with rfl | hg
      · exact ⟨by dsimp only; rw [set_same]; rfl, by simp⟩
      · exact (hf.set_other hi _).grp g hg
    · simp only [flat_cons, List.nil_append, List.nodup_cons]; exact ⟨hi, hf.nodup⟩
    · intro j hj
      simp only [flat_cons, List.nil_append, List.mem_cons] at hj
      rcases hj with rfl | hj
      · exact hu
      · exact hf.lt j hj
    · have := Near.set (h := h) (X := i :: flat F) (i := i) (by simp) { h.nodes i with slot := h.free, used := 0, next := -1 } rfl rfl rfl
      exact ⟨this.nodes, this.offset, this.length, this.ttl, this.slots, this.used⟩
  · rw [e]
    simp only [List.nil_append] at eF
    subst eF
    dsimp only
    rw [if_neg (by omega)]
    simp only [Int.toNat_natCast]
    generalize hh1 : h.set i { h.nodes i with slot := (h.nodes c).slot, used := (h.nodes c).used, next := (c : Int) } = h1
    have hf1 : FreeOk h1 (G ++ (c, l) :: F3) := by rw [← hh1]; exact hf.set_other hi _
    have hnd' : (flat G ++ ((c :: l) ++ flat F3)).Nodup := by simpa using hf.nodup
    obtain ⟨dG, dcl, dF, dGcl, dGF, dclF⟩ := nodup_mid hnd'
    have hseg := hf1.heads
    simp only [List.map_append, List.map_cons] at hseg
    obtain ⟨u, hsG, hu', hsF⟩ := seg_append.1 hseg
    have hmem : ∀ p ∈ lastHead G, p ∈ i :: flat (G ++ (c, l) :: F3) := fun p hp => by
      simp only [flat_append, List.mem_append, List.mem_cons]; exact .inr (.inl (lastHead_mem hp))
    have nl := Near.link (h := h1) hmem (i : Int)
    have hci : c ≠ i := ne c (by simp)
    have perm : (flat (G ++ (i, c :: l) :: F3)).Perm (i :: flat (G ++ (c, l) :: F3)) := by
      simp only [flat_append, flat_cons, List.cons_append]; exact List.perm_middle
    refine ⟨_, G ++ (i, c :: l) :: F3, rfl, ⟨?_, ?_, ?_, ?_⟩, perm, ?_⟩
    · rw [List.map_append, List.map_cons]
      refine seg_append.2 ⟨_, link_heads _ dG hsG, rfl, ?_⟩
      dsimp only
      rw [link_slot_other _ _ _ i (fun p hp x => ne p (by simp [lastHead_mem hp]) x.symm)]
      have : (h1.nodes i).slot = (h1.nodes c).slot := by rw [← hh1, set_same, set_other _ _ hci]
      rw [this]
      refine seg_congr (fun j hj => ?_) hsF
      rw [link_slot_other]
      intro p hp x
      subst x
      exact dGF _ (lastHead_mem hp) _ (head_mem_flat hj) rfl
    · intro g hg
      have h1g : GrpOk h1 g := by
        simp only [List.mem_append, List.mem_cons] at hg
        rcases hg with hg | rfl | hg
        · exact hf1.grp g (by simp [hg])
        · have hgc := hf1.grp (c, l) (by simp)
          have hil : (h1.nodes i).length = (h1.nodes c).length := by
            rw [← hh1, set_same, set_other _ _ hci]; exact hl.symm
          refine ⟨⟨by rw [← hh1, set_same], hgc.1⟩, fun j hj => ?_⟩
          rw [hil]
          rcases List.mem_cons.1 hj with rfl | hj
          · rfl
          · exact hgc.2 j hj
        · exact hf1.grp g (by simp [hg])
      exact h1g.congr (fun i _ => link_next _ _ _ _) nl.length
    · rw [perm.nodup_iff, List.nodup_cons]; exact ⟨hi, hf.nodup⟩
    · intro j hj
      rw [nl.used]
      have := perm.mem_iff.1 hj
      rcases List.mem_cons.1 this with rfl | hj
      · rw [← hh1]; exact hu
      · exact hf1.lt j hj
    · refine Near.trans (h' := h1) ?_ nl
      rw [← hh1]; exact Near.set (by simp) _ rfl rfl rfl

theorem predLoop_ok {h : HT} {i : Nat} {B : List Nat} (A : List Nat) : ∀ {first : Int} {q fuel : Nat},
    Seg (fun i => (h.nodes i).next) first (A ++ q :: i :: B) (-1) → (A ++ q :: i :: B).Nodup →
    (∀ j ∈ A ++ q :: i :: B, j < h.used) → A.length < fuel → predLoop h i fuel first = some (some q) := by
  induction A with
  | nil =>
    intro first q fuel hs hn hlt hf
    obtain ⟨fuel, rfl⟩ : ∃ k, fuel = k + 1 := ⟨fuel - 1, by omega⟩
    obtain ⟨rfl, hi, _⟩ := hs
    rw [predLoop, if_neg (by omega), if_pos (by simpa using hlt q (by simp))]
    rw [if_pos (by simpa using hi)]; simp
  | cons a A ih =>
    intro first q fuel hs hn hlt hf
    obtain ⟨fuel, rfl⟩ : ∃ k, fuel = k + 1 := ⟨fuel - 1, by omega⟩
    obtain ⟨rfl, hs⟩ := hs
    rw [predLoop, if_neg (by omega), if_pos (by simpa using hlt a (by simp))]
    rw [List.cons_append, List.nodup_cons] at hn
    have hne : (h.nodes a).next ≠ i := by
      intro e
      cases A with
      | nil =>
        have := hs.1
        rw [show ((h.nodes a).next) = (q : Int) from this] at e
        have : q = i := by omega
        subst this
        simp at hn
      | cons b A =>
        have := hs.1
        rw [show ((h.nodes a).next) = (b : Int) from this] at e
        have : b = i := by omega
        subst this
        simp at hn
    simp only [Int.toNat_natCast]
    rw [if_neg hne]
    exact ih hs hn.2 (fun j hj => hlt j (by simp [hj])) (by simp only [List.length_cons] at hf; omega)

/-- Taking a node out of its slot. -/
theorem remove_ok {nslots : Nat} {h : HT} {F : List Grp} {s i fuel : Nat} {A B : List Nat} (hf : FreeOk h F)
    (hslot : (h.nodes i).slot = s) (hs : s < nslots)
    (hseg : Seg (fun j => (h.nodes j).next) (h.slots s) (A ++ i :: B) (-1))
    (hn : (A ++ i :: B).Nodup) (hlt : ∀ j ∈ A ++ i :: B, j < h.used) (hd : ∀ j ∈ A ++ i :: B, j ∉ flat F)
    (hfA : A.length < fuel) (hfF : F.length < fuel) :
    ∃ h' F', remove nslots h i fuel = some h' ∧ FreeOk h' F' ∧
      ((i + 1 = h.used ∧ h'.used = h.used - 1 ∧ F' = F) ∨ (i + 1 ≠ h.used ∧ h'.used = h.used ∧ (flat F').Perm (i :: flat F))) ∧
      Seg (fun j => (h'.nodes j).next) (h'.slots s) (A ++ B) (-1) ∧
      (∀ t, t ≠ s → h'.slots t = h.slots t) ∧
      (∀ j, j ∉ A → j ∉ flat F → j ≠ i → h'.nodes j = h.nodes j) ∧
      (∀ j, j ∉ flat F → j ≠ i → ∃ v, h'.nodes j = { h.nodes j with next := v }) ∧
      (∀ j, (h'.nodes j).offset = (h.nodes j).offset ∧ (h'.nodes j).length = (h.nodes j).length ∧
        (h'.nodes j).ttl = (h.nodes j).ttl) := by
  have hiF : i ∉ flat F := hd i (by simp)
  obtain ⟨nA, nB, nAB⟩ := List.nodup_append.1 hn
  have hiB : i ∉ B := (List.nodup_cons.1 nB).1
  have hiA : ∀ j ∈ A, j ≠ i := fun j hj => nAB j hj i (by simp)
  -- after unlinking from the slot
  have mid : ∃ h1, remove nslots h i fuel = (if i + 1 ≠ h1.used then addFree h1 i fuel else some { h1 with used := h1.used - 1 }) ∧
      FreeOk h1 F ∧ h1.used = h.used ∧ Seg (fun j => (h1.nodes j).next) (h1.slots s) (A ++ B) (-1) ∧
      (∀ t, t ≠ s → h1.slots t = h.slots t) ∧
      (∀ j, j ∉ A → h1.nodes j = h.nodes j) ∧ (∀ j, ∃ v, h1.nodes j = { h.nodes j with next := v }) := by
    by_cases hA : A = []
    · subst hA
      refine ⟨h.setSlot s (h.nodes i).next, ?_, ?_, rfl, ?_, ?_, fun _ _ => rfl, fun j => ⟨_, rfl⟩⟩
      · unfold remove
        simp only [hslot]
        rw [if_neg (by omega), if_pos (by simpa using hs)]
        simp only [Int.toNat_natCast, pred]
        rw [if_pos hseg.1]
      · exact ⟨hf.heads, hf.grp, hf.nodup, hf.lt⟩
      · have : (h.setSlot s (h.nodes i).next).slots s = (h.nodes i).next := by simp [HT.setSlot]
        rw [this]; exact hseg.2
      · intro t ht; simp [HT.setSlot, ht]
    · obtain ⟨A', q, rfl⟩ : ∃ A' q, A = A' ++ [q] := ⟨A.dropLast, A.getLast hA, (List.dropLast_concat_getLast hA).symm⟩
      have hqi : q ≠ i := hiA q (by simp)
      have hqF : q ∉ flat F := hd q (by simp)
      refine ⟨h.set q { h.nodes q with next := (h.nodes i).next }, ?_, hf.set_other hqF _, rfl, ?_, fun _ _ => rfl, ?_, ?_⟩
      · have hp : pred h (h.slots s) i fuel = some (some q) := by
          have := predLoop_ok (h := h) (i := i) (B := B) A' (first := h.slots s) (q := q) (fuel := fuel)
            (by simpa using hseg) (by simpa using hn) (by simpa using hlt) (by simp at hfA; omega)
          unfold pred
          rw [if_neg, this]
          intro e
          cases A' with
          | nil => exact hqi (by have := hseg.1; rw [e] at this; omega)
          | cons a A' => exact hiA a (by simp) (by have := hseg.1; rw [e] at this; omega)
        unfold remove
        simp only [hslot]
        rw [if_neg (by omega), if_pos (by simpa using hs)]
        simp only [Int.toNat_natCast, hp]
      · obtain ⟨u, h1, h2⟩ := seg_append.1 hseg
        have h2 : Seg (fun j => (h.nodes j).next) (h.nodes i).next B (-1) := h2.2
        refine seg_append.2 ⟨(h.nodes i).next, ?_, ?_⟩
        · refine seg_relink h1 (fun j hj => ?_) ?_
          · have : j ≠ q := by
              intro e; subst e
              exact (List.nodup_append.1 nA).2.2 j hj j (by simp) rfl
            rw [set_other _ _ this]
          · rw [set_same]
        · refine seg_congr (fun j hj => ?_) h2
          have : j ≠ q := fun e => nAB q (by simp) j (by simp [hj]) e.symm
          rw [set_other _ _ this]
      · intro j hj
        rw [set_other]; rintro rfl; exact hj (by simp)
      · intro j
        by_cases e : j = q
        · subst e; exact ⟨_, by rw [set_same]⟩
        · exact ⟨(h.nodes j).next, by rw [set_other _ _ e]⟩
  obtain ⟨h1, e1, hf1, hu1, hs1, ht1, hn1, hv1⟩ := mid
  rw [e1]
  have nodup' : (A ++ B).Nodup := by
    rw [List.nodup_append]
    exact ⟨nA, (List.nodup_cons.1 nB).2, fun a ha b hb => nAB a ha b (by simp [hb])⟩
  by_cases hlast : i + 1 = h1.used
  · rw [if_neg (by simpa using hlast)]
    refine ⟨_, F, rfl, hf1.mono_used (fun j hj => ?_), .inl ⟨by omega, by dsimp only; omega, rfl⟩, hs1, ht1, fun j a _ _ => hn1 j a,
      fun j _ _ => hv1 j, fun j => ?_⟩
    · have := hf1.lt j hj
      have : j ≠ i := fun e => hiF (e ▸ hj)
      omega
    · obtain ⟨v, hv⟩ := hv1 j
      dsimp only; rw [hv]; exact ⟨rfl, rfl, rfl⟩
  · rw [if_pos hlast]
    obtain ⟨h2, F', e2, hf2, hp, n2⟩ := addFree_ok (fuel := fuel) hf1 hiF (by rw [hu1]; exact hlt i (by simp)) hfF
    have keep : ∀ j ∈ A ++ B, h2.nodes j = h1.nodes j := by
      intro j hj
      apply n2.nodes
      simp only [List.mem_cons, not_or]
      simp only [List.mem_append] at hj
      refine ⟨?_, hd j (by simp only [List.mem_append, List.mem_cons]; grind)⟩
      rintro rfl
      rcases hj with hj | hj
      · exact hiA _ hj rfl
      · exact hiB hj
    refine ⟨h2, F', e2, hf2, .inr ⟨by omega, by rw [n2.used, hu1], hp⟩, ?_, fun t ht => by rw [n2.slots]; exact ht1 t ht, ?_, ?_, ?_⟩
    · rw [n2.slots]
      exact seg_congr (fun j hj => by rw [keep j hj]) hs1
    · intro j a b c
      rw [n2.nodes j (by simp [b, c])]; exact hn1 j a
    · intro j b c
      rw [n2.nodes j (by simp [b, c])]; exact hv1 j
    · intro j
      rw [n2.offset, n2.length, n2.ttl]
      obtain ⟨v, hv⟩ := hv1 j
      rw [hv]; exact ⟨rfl, rfl, rfl⟩

end Verif.CacheHT
