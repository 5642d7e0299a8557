import Verif.Lemmas.MContext
import Verif.Model.Forwarder
import Verif.Spec.Footprint
/-! Lemmas for `Props/Footprint.lean`. -/

namespace Verif.Footprint
open Bst MContext Pipeline Msg

variable {α C Addr : Type}

/-- Every place of the table holds an element or is free. -/
structure Tight (s : State α) : Prop where
  inv : Bst.Inv s
  all : s.fresh = s.root.toList.length + s.free.length

theorem tight_init : Tight (State.init : State α) := ⟨inv_init, rfl⟩

theorem tight_add {cmp : α → α → Int} {s : State α} (h : Tight s) (x : α) :
    Tight (s.add cmp x).2 ∧ (s.add cmp x).2.root.toList.length = s.root.toList.length + 1 ∧
      (s.add cmp x).2.fresh ≤ max s.fresh (s.add cmp x).2.root.toList.length := by
  have hl : (s.add cmp x).2.root.toList.length = s.root.toList.length + 1 := (Tree.toList_insert cmp s.alloc.1 x s.root).length_eq
  have ha := h.all
  have : (s.add cmp x).2.fresh = (s.add cmp x).2.root.toList.length + (s.add cmp x).2.free.length ∧
      (s.add cmp x).2.fresh ≤ max s.fresh (s.add cmp x).2.root.toList.length := by
    rw [hl]
    unfold State.add State.alloc
    cases hf : s.free with
    | nil => rw [hf] at ha; simp at ha ⊢; omega
    | cons f fs => rw [hf] at ha; simp at ha ⊢; omega
  exact ⟨⟨(inv_add h.inv x).1, this.1⟩, hl, this.2⟩

theorem filter_other {β : Type} {l : List (Nat × β)} (hn : (l.map (·.1)).Nodup) {a : Nat} (ha : a ∈ l.map (·.1)) :
    (l.filter (fun e => e.1 ≠ a)).length + 1 = l.length := by
  induction l with
  | nil => simp at ha
  | cons x xs ih =>
    simp only [List.map_cons, List.nodup_cons, List.mem_cons] at hn ha
    by_cases hx : x.1 = a
    · subst hx
      rw [List.filter_cons_of_neg (by simp), List.filter_eq_self.2, List.length_cons]
      intro e he
      simp only [ne_eq, decide_eq_true_eq]
      intro hh
      exact hn.1 (hh ▸ List.mem_map_of_mem (f := (·.1)) he)
    · rw [List.filter_cons_of_pos (by simpa using hx), List.length_cons, List.length_cons, ih hn.2 (by
        rcases ha with h | h
        · exact absurd h.symm hx
        · exact h)]

theorem tight_delete {s : State α} (h : Tight s) {a : Nat} (ha : a ∈ s.root.toList.map (·.1)) :
    Tight (s.delete a) ∧ (s.delete a).fresh = s.fresh := by
  refine ⟨⟨inv_delete h.inv ha, ?_⟩, rfl⟩
  have hn := (List.nodup_append.1 h.inv.nodup).1
  have := filter_other hn ha
  have h1 := h.all
  show s.fresh = (s.root.delete a).toList.length + (a :: s.free).length
  rw [Tree.delete_toList a s.root hn, List.length_cons]
  omega

theorem tight_sweep {c : Table C} (h : Tight c) (now : Int) : Tight (sweep c now).2 ∧ (sweep c now).2.fresh = c.fresh := by
  have key : ∀ (old : List (Nat × Pending C)) (c : Table C), Tight c → (∀ e ∈ old, e ∈ c.root.toList) → (old.map (·.1)).Nodup →
      Tight (old.foldl (fun s e => s.delete e.1) c) ∧ (old.foldl (fun s e => s.delete e.1) c).fresh = c.fresh := by
    intro old
    induction old with
    | nil => intro c h _ _; exact ⟨h, rfl⟩
    | cons e es ih =>
      intro c h hm hn
      simp only [List.map_cons, List.nodup_cons] at hn
      have hd := tight_delete h (a := e.1) (List.mem_map_of_mem (hm e List.mem_cons_self))
      obtain ⟨i1, i2⟩ := ih (c.delete e.1) hd.1 (by
        intro x hx
        show x ∈ (c.root.delete e.1).toList
        rw [Tree.delete_toList e.1 c.root (List.nodup_append.1 h.inv.nodup).1, List.mem_filter]
        refine ⟨hm x (List.mem_cons_of_mem _ hx), ?_⟩
        simp only [decide_eq_true_eq]
        intro heq
        exact hn.1 (heq ▸ List.mem_map_of_mem hx)) hn.2
      exact ⟨i1, i2⟩
  have hpre := Tree.preorder_perm c.root
  exact key _ c h (fun e he => hpre.mem_iff.1 (List.mem_filter.1 he).1)
    (List.Sublist.nodup (List.Sublist.map _ List.filter_sublist) (((hpre.map (·.1)).nodup_iff).2 (List.nodup_append.1 h.inv.nodup).1))

theorem tight_answer {c : Table C} (h : Tight c) (r : Pending C) : Tight (genAnswerHeaderAndRemove c r).2 ∧ (genAnswerHeaderAndRemove c r).2.fresh = c.fresh := by
  unfold genAnswerHeaderAndRemove
  cases hs : State.search MContext.compare c r with
  | none => exact ⟨h, rfl⟩
  | some ap => exact tight_delete h (List.mem_map_of_mem (Tree.search_some hs).1)

/-- No more places than `n`. -/
def Small (n : Nat) (c : Table C) : Prop := Tight c ∧ c.fresh ≤ n

theorem small_add {n : Nat} {c : Table C} (h : Small n c) {cmp : Pending C → Pending C → Int} (p : Pending C) (hl : (waiting (State.add cmp c p).2).length ≤ n) :
    Small n (State.add cmp c p).2 := by
  obtain ⟨h1, h2, h3⟩ := tight_add (cmp := cmp) h.1 p
  refine ⟨h1, ?_⟩
  have := h.2
  simp only [waiting, List.length_map] at hl
  omega

/-- All tables of the program. -/
def All (P : Table (Ctx (HostsLoop.Dest Addr)) → Prop) (st : Forwarder.St Addr) : Prop := (∀ d ∈ st.mods, P d.table) ∧ P st.loop.table

theorem all_set {P : Table (Ctx (HostsLoop.Dest Addr)) → Prop} {ms : List (Module (HostsLoop.Dest Addr))} {i : Nat} {d : Module (HostsLoop.Dest Addr)} (h : ∀ d ∈ ms, P d.table) (hd : P d.table) :
    ∀ x ∈ ms.set i d, P x.table := by
  intro x hx
  rcases List.mem_or_eq_of_mem_set hx with hx | rfl
  · exact h x hx
  · exact hd

theorem mgr_small {n : Nat} {e : Env} {st st' : Forwarder.St Addr} {x : Luck} {b : List Byte} {m m' : Forwarder.Head Addr} {acts : List (Forwarder.Act Addr)}
    (h : All (Small n) st) (hs : Forwarder.mgrSend e st x b m = some (st', m', acts)) (hw : All (fun t => (waiting t).length ≤ n) st') : All (Small n) st' := by
  unfold Forwarder.mgrSend at hs
  split at hs
  · cases hs
  · cases hs; exact h
  · cases hs; exact h
  · cases hs; exact h
  · cases hs; exact h
  · split at hs
    · cases hs
    · rename_i i _ d hd
      have hdm := List.mem_of_getElem? hd
      obtain ⟨hlt, -⟩ := List.getElem?_eq_some_iff.1 hd
      split at hs
      · split at hs
        · cases hs
        · rename_i d' hu
          cases hs
          refine ⟨all_set h.1 ?_, h.2⟩
          have hl := hw.1 d' (List.mem_set hlt d')
          unfold udpSend at hu
          split at hu
          · cases hu
          · cases hu
            exact small_add (h.1 d hdm) _ hl
      · cases hs
        refine ⟨all_set h.1 ?_, h.2⟩
        unfold tcpSend
        split <;> exact h.1 d hdm

theorem step_small {n : Nat} {e : Env} {st st' : Forwarder.St Addr} {ev : Forwarder.Ev Addr} {acts : List (Forwarder.Act Addr)}
    (h : All (Small n) st) (hs : Forwarder.step e st ev = some (st', acts)) (hw : All (fun t => (waiting t).length ≤ n) st') : All (Small n) st' := by
  cases ev with
  | udpQuery sock addr agent b len x =>
    simp only [Forwarder.step] at hs
    split at hs
    · cases hs
    split at hs
    · cases hs
    rename_i hm
    cases hs
    have := mgr_small h hm hw
    exact this
  | tcpQuery sock agent b len x =>
    simp only [Forwarder.step] at hs
    split at hs
    · cases hs
    split at hs
    · cases hs
    rename_i hm
    cases hs
    have := mgr_small h hm hw
    exact this
  | response i b len fuel bn clock =>
    simp only [Forwarder.step] at hs
    split at hs
    · cases hs
    rename_i d hd
    have hdm := List.mem_of_getElem? hd
    split at hs
    · cases hs
    rename_i d' ops out hr
    split at hs
    · cases hs
    cases hs
    refine ⟨all_set h.1 ?_, h.2⟩
    unfold respond at hr
    split at hr
    · cases hr
    split at hr
    · cases hr
    dsimp only at hr
    split at hr
    · cases hr; exact h.1 d hdm
    split at hr
    · cases hr; exact h.1 d hdm
    have ht : ∀ {r o t}, genAnswerHeaderAndRemove d.table r = (o, t) → Small n t := by
      intro r o t hg
      have := tight_answer (h.1 d hdm).1 r
      rw [hg] at this
      exact ⟨this.1, by rw [this.2]; exact (h.1 d hdm).2⟩
    split at hr
    · rename_i t hg
      split at hr
      · cases hr
      cases hr
      exact ht hg
    · rename_i p t hg
      split at hr
      · cases hr
      cases hr
      exact ht hg
  | take i k now rest =>
    simp only [Forwarder.step] at hs
    split at hs
    · cases hs
    rename_i d hd
    have hdm := List.mem_of_getElem? hd
    obtain ⟨hlt, -⟩ := List.getElem?_eq_some_iff.1 hd
    split at hs
    · cases hs
    cases hs
    exact ⟨all_set h.1 (small_add (h.1 d hdm) _ (hw.1 _ (List.mem_set hlt _))), h.2⟩
  | lose i k =>
    simp only [Forwarder.step] at hs
    split at hs
    · cases hs
    rename_i d hd
    split at hs
    · cases hs
    cases hs
    exact ⟨all_set h.1 (h.1 d (List.mem_of_getElem? hd)), h.2⟩
  | sweep i now =>
    simp only [Forwarder.step] at hs
    split at hs
    · cases hs
    rename_i d hd
    cases hs
    have hd' := h.1 d (List.mem_of_getElem? hd)
    have := tight_sweep hd'.1 now
    exact ⟨all_set h.1 ⟨this.1, by rw [this.2]; exact hd'.2⟩, h.2⟩
  | cacheSweep now =>
    simp only [Forwarder.step] at hs
    split at hs
    · cases hs
    cases hs
    exact h
  | innerTake k cap sock rnd old x =>
    simp only [Forwarder.step] at hs
    split at hs
    · cases hs
    rename_i m l _
    have hin : ∀ lp o, HostsLoop.inner e.fnm e.hosts cap x.now rnd x.fuel sock old m st.loop = some (lp, o) →
        (waiting lp.table).length ≤ n → Small n lp.table := by
      intro lp o hi hl
      unfold HostsLoop.inner at hi
      split at hi
      · cases hi; exact h.2
      split at hi
      · cases hi
      split at hi
      · cases hi; exact h.2
      cases hi
      exact small_add h.2 _ hl
    split at hs
    · cases hs
    · rename_i lp hi
      cases hs
      exact ⟨h.1, hin _ _ hi hw.2⟩
    · rename_i lp q hi
      split at hs
      · cases hs
      rename_i hm
      cases hs
      refine mgr_small (st := { st with inner := l, loop := lp }) ⟨h.1, hin _ _ hi ?_⟩ hm hw
      have : st'.loop = lp := by
        unfold Forwarder.mgrSend at hm
        split at hm
        · cases hm
        · cases hm; rfl
        · cases hm; rfl
        · cases hm; rfl
        · cases hm; rfl
        · split at hm
          · cases hm
          split at hm
          · split at hm
            · cases hm
            cases hm; rfl
          · cases hm; rfl
      rw [← this]; exact hw.2
  | innerLose k =>
    simp only [Forwarder.step] at hs
    split at hs
    · cases hs
    cases hs
    exact h
  | outerTake k cap rest header fuel =>
    simp only [Forwarder.step] at hs
    split at hs
    · cases hs
    rename_i m l _
    have hout : ∀ p lp o, HostsLoop.outer cap (m.entity ++ rest) (header + m.entity.length) fuel p m.domain st.loop = some (lp, o) → Small n lp.table := by
      intro p lp o ho
      unfold HostsLoop.outer at ho
      split at ho
      · cases ho
      split at ho
      · cases ho; exact h.2
      rename_i r _ a p' hf
      have hsm : Small n (st.loop.table.delete a) := by
        have := tight_delete h.2.1 (a := a) (List.mem_map_of_mem (Tree.search_some hf).1)
        exact ⟨this.1, by rw [this.2]; exact h.2.2⟩
      dsimp only at ho
      split at ho
      · cases ho
      · cases ho; exact hsm
      · cases ho; exact hsm
    split at hs
    · split at hs
      · cases hs
      · rename_i ho; cases hs; exact ⟨h.1, hout _ _ _ ho⟩
      · rename_i ho; cases hs; exact ⟨h.1, hout _ _ _ ho⟩
    · cases hs
  | outerLose k =>
    simp only [Forwarder.step] at hs
    split at hs
    · cases hs
    cases hs
    exact h
  | loopSweep now =>
    simp only [Forwarder.step] at hs
    cases hs
    have := tight_sweep h.2.1 now
    exact ⟨h.1, this.1, by rw [this.2]; exact h.2.2⟩
  | reload protos head =>
    simp only [Forwarder.step] at hs
    cases hs
    refine ⟨fun d hd => ?_, h.2⟩
    rcases List.mem_append.1 hd with hd | hd
    · exact h.1 d hd
    · obtain ⟨p, _, rfl⟩ := List.mem_map.1 hd
      exact ⟨tight_init, Nat.zero_le _⟩
  | tcpOpen sock =>
    simp only [Forwarder.step] at hs
    cases hs
    exact h

/-- A table after any history. -/
theorem run_small {n : Nat} (ops : List (MContext.Op C)) : ∀ {c : Table C}, Small n c →
    (∀ k, (waiting (run c (ops.take k)).1).length ≤ n) → Small n (run c ops).1 := by
  induction ops with
  | nil => intro c h _; exact h
  | cons op ops ih =>
    intro c h hw
    have h1 : (waiting (step c op).1).length ≤ n := hw 1
    refine ih ?_ (fun k => hw (k + 1))
    cases op with
    | query now p => exact small_add h _ h1
    | response r =>
      cases hs : State.search MContext.compare c r with
      | none => rw [step_response_none hs]; exact h
      | some ap =>
        rw [step_response_some (a := ap.1) (p := ap.2) hs]
        have := tight_delete h.1 (a := ap.1) (List.mem_map_of_mem (Tree.search_some hs).1)
        exact ⟨this.1, by rw [this.2]; exact h.2⟩
    | sweep now =>
      have := tight_sweep h.1 now
      exact ⟨this.1, by show (sweep c now).2.fresh ≤ n; rw [this.2]; exact h.2⟩

/-- What waits came at most two seconds before the last sweep. -/
theorem swept_young {gap : Int} (ops : List (MContext.Op C)) : ∀ {c : Table C} {last : Int}, Bst.Inv c →
    (∀ p ∈ waiting c, last - 2 ≤ p.timestamp ∧ p.timestamp ≤ last + gap) → Swept gap last ops →
    ∃ last', ∀ p ∈ waiting (run c ops).1, last' - 2 ≤ p.timestamp ∧ p.timestamp ≤ last' + gap := by
  induction ops with
  | nil => intro c last _ h _; exact ⟨last, h⟩
  | cons op ops ih =>
    intro c last hi h hs
    cases op with
    | query now p =>
      obtain ⟨s1, s2, s3⟩ := hs
      refine ih (inv_step hi (.query now p)) (fun q hq => ?_) s3
      rw [show (step c (.query now p)).1 = add c now p from rfl, (add_contents c now p).mem_iff, List.mem_cons] at hq
      rcases hq with rfl | hq
      · exact ⟨by dsimp only; omega, s2⟩
      · exact h q hq
    | response r =>
      refine ih (inv_step hi (.response r)) (fun q hq => ?_) hs
      have := mem_contents_step hi (.response r) hq
      simp [queriesOf] at this
      exact h q this
    | sweep now =>
      refine ih (inv_step hi (.sweep now)) (fun q hq => ?_) hs.2
      obtain ⟨x, hx, rfl⟩ := List.mem_map.1 hq
      rw [show (step c (.sweep now)).1 = (sweep c now).2 from rfl, (sweep_spec hi now).2.1, List.mem_filter] at hx
      have h1 := h x.2 (List.mem_map_of_mem hx.1)
      have h2 := hx.2
      simp [expired] at h2
      have := hs.1
      omega

end Verif.Footprint
