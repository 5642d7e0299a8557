import Verif.Lemmas.TimedTask
/-! C36, C58: timed tasks. -/

namespace Verif.TimedTask
open LinkedQueue

theorem ids_append (a b : List Task) : ids (a ++ b) = ids a ++ ids b := by simp [ids]
theorem mem_ids {t : Task} {l : List Task} (h : t ∈ l) : t.id ∈ ids l := List.mem_map.2 ⟨t, h, rfl⟩

/-- What holds while task `t` is not in the lists, because it is just being dealt with. -/
structure InvBut (o : Nat → Option Order) (s : St) (t : Task) : Prop where
  alive : s.dead = false
  time : s.start ≤ s.now
  nodup : (t.id :: ids (s.queue ++ s.pipe ++ s.running)).Nodup
  queue : ∀ x ∈ s.queue, Waits o s.start x
  pipe : ∀ x ∈ s.pipe, Waits o s.now x
  running : ∀ x ∈ s.running, Runs o x ∧ x.async = true
  sorted : s.queue.Pairwise (fun a b => a.left.us ≤ b.left.us)
  kept : ∀ id x, id ≠ t.id → o id = some x → (x.persistent = true ∨ x.due ≠ none) →
    id ∈ ids (s.queue ++ s.pipe ++ s.running)
  self : Runs o t

theorem rearm_ok {o : Nat → Option Order} {s : St} {t : Task} (h : InvBut o s t) (hs : t.async = false → s.start = s.now) :
    Right o (rearm s t).2 ∧ Inv (after o (rearm s t).2) (rearm s t).1 := by
  obtain ⟨x, hx1, hx2, hx3, hx4⟩ := h.self.order
  have hnm : t.id ∉ ids (s.queue ++ s.pipe ++ s.running) := (List.nodup_cons.1 h.nodup).1
  unfold rearm
  by_cases hp : t.persistent = true
  · rw [if_pos hp]
    dsimp only
    have hR : Right o [.again s.now t.id] := ⟨x, hx1, by rw [hx4, hp], hx2, trivial⟩
    refine ⟨hR, ?_⟩
    have ha : after o [.again s.now t.id] = place o t.id { x with due := some (s.now + x.period) } := by
      simp [after, hx1]
    rw [ha]
    have hother : ∀ l : List Task, (∀ y ∈ l, y.id ∈ ids (s.queue ++ s.pipe ++ s.running)) → ∀ y ∈ l, y.id ≠ t.id :=
      fun l hl y hy e => hnm (e ▸ hl y hy)
    have hq := hother s.queue (fun y hy => mem_ids (by simp [hy]))
    have hpi := hother s.pipe (fun y hy => mem_ids (by simp [hy]))
    have hru := hother s.running (fun y hy => mem_ids (by simp [hy]))
    have hself : Waits (place o t.id { x with due := some (s.now + x.period) }) s.now { t with left := t.timeOut } :=
      ⟨h.self.out, h.self.out, _, _, place_same _ _ _, rfl, by dsimp only; omega, hx3, hx4⟩
    have hkept : ∀ l : List Nat, t.id ∈ l → (∀ i ∈ ids (s.queue ++ s.pipe ++ s.running), i ∈ l) →
        ∀ id y, place o t.id { x with due := some (s.now + x.period) } id = some y → (y.persistent = true ∨ y.due ≠ none) → id ∈ l := by
      intro l h1 h2 id y hy hyp
      by_cases e : id = t.id
      · rw [e]; exact h1
      · rw [place_other _ _ e] at hy
        exact h2 id (h.kept id y e hy hyp)
    by_cases ha' : t.async = true
    · rw [if_pos ha']
      refine ⟨h.alive, h.time, ?_, fun y hy => (h.queue y hy).place _ (hq y hy), ?_, fun y hy => ⟨(h.running y hy).1.place _ (hru y hy), (h.running y hy).2⟩,
        h.sorted, ?_⟩
      · refine (List.Perm.nodup_iff ?_).1 h.nodup
        have := List.perm_middle (a := t.id) (l₁ := ids s.queue ++ ids s.pipe) (l₂ := ids s.running)
        simpa [ids] using this.symm
      · intro y hy
        dsimp only at hy
        rcases List.mem_append.1 hy with hy | hy
        · exact (h.pipe y hy).place _ (hpi y hy)
        · simp at hy; subst hy; exact hself
      · refine hkept _ (by simp [ids]) (fun i hi => ?_)
        simp only [ids, List.map_append, List.mem_append] at hi ⊢
        grind
    · rw [if_neg ha']
      have hst : s.start = s.now := hs (by simpa using ha')
      have hwaits : ∀ y ∈ add compare { t with left := t.timeOut } s.queue,
          Waits (place o t.id { x with due := some (s.now + x.period) }) s.start y := by
        intro y hy
        rcases add_mem.1 hy with rfl | hy
        · rw [hst]; exact hself
        · exact (h.queue y hy).place _ (hq y hy)
      refine ⟨h.alive, h.time, ?_, hwaits, fun y hy => (h.pipe y hy).place _ (hpi y hy),
        fun y hy => ⟨(h.running y hy).1.place _ (hru y hy), (h.running y hy).2⟩,
        add_task_sorted h.self.out (fun y hy => (h.queue y hy).left) h.sorted, ?_⟩
      · refine (List.Perm.nodup_iff ?_).1 h.nodup
        dsimp only
        rw [ids_append, ids_append, ids_append, ids_append]
        exact ((add_ids { t with left := t.timeOut } s.queue).append_right _ |>.append_right _).symm
      · refine hkept _ ?_ (fun i hi => ?_)
        · dsimp only
          rw [ids_append, ids_append]
          simp only [List.mem_append]
          exact .inl (.inl ((add_ids { t with left := t.timeOut } s.queue).mem_iff.2 (by simp)))
        · dsimp only
          rw [ids_append, ids_append] at hi ⊢
          simp only [List.mem_append] at hi ⊢
          rcases hi with (hi | hi) | hi
          · exact .inl (.inl ((add_ids { t with left := t.timeOut } s.queue).mem_iff.2 (by simp [hi])))
          · exact .inl (.inr hi)
          · exact .inr hi
  · rw [if_neg hp]
    refine ⟨trivial, h.alive, h.time, (List.nodup_cons.1 h.nodup).2, h.queue, h.pipe, h.running, h.sorted, ?_⟩
    intro id y hy hyp
    dsimp only [after] at hy
    by_cases e : id = t.id
    · rw [e, hx1] at hy
      cases hy
      rw [hx2, hx4] at hyp
      simp [hp] at hyp
    · exact h.kept id y e hy hyp

/-- One step. -/
theorem step_ok {o : Nat → Option Order} {s s' : St} {a : Act} {es : List Event} (h : Inv o s)
    (hs : step s a = some (s', es))
    (hnew : ∀ id p as ms im, a = .post id p as ms im → 0 ≤ ms ∧ o id = none) :
    Right o es ∧ Inv (after o es) s' := by
  cases a with
  | tick d =>
    simp only [step, Option.some.injEq, Prod.mk.injEq] at hs
    obtain ⟨rfl, rfl⟩ := hs
    exact ⟨trivial, h.alive, by have := h.time; dsimp only; omega, h.nodup, h.queue,
      fun t ht => (h.pipe t ht).later (by dsimp only; omega), h.running, h.sorted, h.kept⟩
  | post id p as ms im =>
    obtain ⟨hms, hfree⟩ := hnew id p as ms im rfl
    simp only [step, Option.some.injEq, Prod.mk.injEq] at hs
    obtain ⟨rfl, rfl⟩ := hs
    refine ⟨trivial, ?_⟩
    obtain ⟨n1, n2, n3, n4⟩ := newTask_spec id p as ms im hms
    have hid : (newTask id p as ms im).id = id := rfl
    have hper : (newTask id p as ms im).persistent = p := rfl
    have hne : ∀ t, t ∈ s.queue ++ s.pipe ++ s.running → t.id ≠ id := by
      intro t ht e
      rcases List.mem_append.1 ht with ht | ht
      · rcases List.mem_append.1 ht with ht | ht
        · obtain ⟨x, d, hx, -⟩ := (h.queue t ht).order; rw [e, hfree] at hx; cases hx
        · obtain ⟨x, d, hx, -⟩ := (h.pipe t ht).order; rw [e, hfree] at hx; cases hx
      · obtain ⟨x, hx, -⟩ := (h.running t ht).1.order; rw [e, hfree] at hx; cases hx
    simp only [after]
    refine ⟨h.alive, h.time, ?_, fun t ht => (h.queue t ht).place _ (hne t (by simp [ht])), ?_,
      fun t ht => ⟨(h.running t ht).1.place _ (hne t (by simp [ht])), (h.running t ht).2⟩, h.sorted, ?_⟩
    · have hp := List.perm_middle (a := id) (l₁ := ids s.queue ++ ids s.pipe) (l₂ := ids s.running)
      have : (id :: (ids s.queue ++ ids s.pipe ++ ids s.running)).Nodup := by
        rw [List.nodup_cons]
        refine ⟨?_, by simpa [ids] using h.nodup⟩
        intro hm
        have : id ∈ ids (s.queue ++ s.pipe ++ s.running) := by simpa [ids] using hm
        obtain ⟨t, ht, e⟩ := List.mem_map.1 this
        exact hne t ht e
      have := (hp.nodup_iff).2 this
      simpa [ids, hid] using this
    · intro t ht
      dsimp only at ht
      rcases List.mem_append.1 ht with ht | ht
      · exact (h.pipe t ht).place _ (hne t (by simp [ht]))
      · simp at ht
        subst ht
        refine ⟨n3, n1, _, _, by rw [hid]; exact place_same _ _ _, rfl, ?_, ?_, hper.symm⟩
        · dsimp only
          rw [n4]
          cases im <;> simp
          omega
        · dsimp only; rw [n2]; omega
    · intro i x hx hxp
      by_cases e : i = id
      · subst e
        simp [ids, hid]
      · rw [place_other _ _ e] at hx
        have := h.kept i x hx hxp
        simp only [ids, List.map_append, List.mem_append] at this ⊢
        grind
  | finish id =>
    simp only [step] at hs
    split at hs
    · simp at hs
    · rename_i t ht
      simp only [Option.some.injEq] at hs
      have htm := List.mem_of_find?_eq_some ht
      obtain ⟨hrun, hasy⟩ := h.running t htm
      have hperm := List.perm_cons_erase htm
      have hnd : (t.id :: ids (s.queue ++ s.pipe ++ s.running.erase t)).Nodup := by
        have h1 := h.nodup
        have p1 : (ids (s.queue ++ s.pipe ++ s.running)).Perm (t.id :: ids (s.queue ++ s.pipe ++ s.running.erase t)) := by
          have p2 := (hperm.map Task.id).append_left (ids (s.queue ++ s.pipe))
          have p3 := List.perm_middle (a := t.id) (l₁ := ids (s.queue ++ s.pipe)) (l₂ := ids (s.running.erase t))
          have := p2.trans p3
          simpa [ids] using this
        exact p1.nodup_iff.1 h1
      have hI : InvBut o { s with running := s.running.erase t } t := by
        refine ⟨h.alive, h.time, hnd, h.queue, h.pipe, fun x hx => h.running x (List.mem_of_mem_erase hx), h.sorted, ?_, hrun⟩
        intro i x hi hx hxp
        have := h.kept i x hx hxp
        simp only [ids, List.map_append, List.mem_append] at this ⊢
        rcases this with this | this
        · exact .inl this
        · refine .inr ?_
          have := (hperm.map Task.id).mem_iff.1 this
          rw [List.map_cons, List.mem_cons] at this
          exact this.resolve_left hi
      have := rearm_ok hI (fun hf => by rw [hasy] at hf; cases hf)
      rw [hs] at this
      exact this
  | reject =>
    simp only [step] at hs
    rw [if_neg (by simp [h.alive])] at hs
    cases hq : s.queue with
    | nil => rw [hq] at hs; simp [LinkedQueue.get] at hs
    | cons i q =>
      rw [hq] at hs
      simp only [LinkedQueue.get] at hs
      rw [if_pos (h.queue i (by simp [hq])).left] at hs
      cases hs
  | timeout d =>
    simp only [step] at hs
    rw [if_neg (by simp [h.alive])] at hs
    cases hq : s.queue with
    | nil => rw [hq] at hs; simp [LinkedQueue.get] at hs
    | cons i q =>
      rw [hq] at hs
      simp only [LinkedQueue.get] at hs
      have hi := h.queue i (by simp [hq])
      obtain ⟨x, dd, hx1, hx2, hx3, hx4, hx5⟩ := hi.order
      split at hs
      · rename_i hc
        obtain ⟨-, hc⟩ := hc
        have h00 : (⟨0, 0⟩ : Tv).ok = true := by decide
        have he := tvSubtract_spec hi.left h00
        have heu : (tvSubtract i.left ⟨0, 0⟩).us = i.left.us := by
          rw [he.2]
          have := us_nonneg hi.left
          have e : Tv.us ⟨0, 0⟩ = 0 := by decide
          rw [e]; omega
        have hnd := h.nodup
        rw [hq] at hnd
        have hnd' : (i.id :: ids (q ++ s.pipe ++ s.running)).Nodup := by simpa [ids] using hnd
        have hne : ∀ t, t ∈ q ++ s.pipe ++ s.running → t.id ≠ i.id := by
          intro t ht e
          exact (List.nodup_cons.1 hnd').1 (e ▸ mem_ids ht)
        have hst : Right o [.starts s.now i.id] := ⟨x, dd, hx1, hx2, by omega, trivial⟩
        have haf : after o [.starts s.now i.id] = place o i.id { x with due := none } := by simp [after, hx1]
        have hq' : ∀ now' : Nat, s.now ≤ now' → ∀ t ∈ reduceTime (tvSubtract i.left ⟨0, 0⟩) q,
            Waits (place o i.id { x with due := none }) now' t := by
          intro now' hn t ht
          rw [reduceTime_eq] at ht
          obtain ⟨y, hy, rfl⟩ := List.mem_map.1 ht
          exact ((h.queue y (by simp [hq, hy])).reduce he.1 (by rw [heu]; omega)).place _ (hne y (by simp [hy]))
        have hself : Runs (place o i.id { x with due := none }) i :=
          ⟨hi.out, _, place_same _ _ _, rfl, hx4, hx5⟩
        have hsort := h.sorted
        rw [hq, List.pairwise_cons] at hsort
        have hsort' := reduceTime_sorted he.1 (fun t ht => (h.queue t (by simp [hq, ht])).left) hsort.2
        have hkept : ∀ id y, id ≠ i.id → place o i.id { x with due := none } id = some y →
            (y.persistent = true ∨ y.due ≠ none) → id ∈ ids (q ++ s.pipe ++ s.running) := by
          intro id y hid hy hyp
          rw [place_other _ _ hid] at hy
          have := h.kept id y hy hyp
          rw [hq] at this
          simp only [ids, List.map_append, List.map_cons, List.cons_append, List.mem_cons] at this ⊢
          exact this.resolve_left hid
        have hids : ids (reduceTime (tvSubtract i.left ⟨0, 0⟩) q ++ s.pipe ++ s.running) = ids (q ++ s.pipe ++ s.running) := by
          rw [ids_append, ids_append, reduceTime_ids, ← ids_append, ← ids_append]
        split at hs
        · rename_i hasy
          simp only [Option.some.injEq, Prod.mk.injEq] at hs
          obtain ⟨rfl, rfl⟩ := hs
          refine ⟨hst, ?_⟩
          rw [haf]
          refine ⟨h.alive, Nat.le_refl _, ?_, hq' s.now (Nat.le_refl _),
            fun t ht => (h.pipe t ht).place _ (hne t (by simp [ht])), ?_, hsort', ?_⟩
          · dsimp only
            have p := List.perm_middle (a := i.id) (l₁ := ids (q ++ s.pipe)) (l₂ := ids s.running)
            have : (ids (q ++ s.pipe) ++ i.id :: ids s.running).Nodup := p.nodup_iff.2 (by simpa [ids] using hnd')
            rw [ids_append, ids_append, reduceTime_ids]
            simpa [ids] using this
          · intro t ht
            rcases List.mem_cons.1 ht with rfl | ht
            · exact ⟨hself, hasy⟩
            · exact ⟨(h.running t ht).1.place _ (hne t (by simp [ht])), (h.running t ht).2⟩
          · intro id y hy hyp
            dsimp only
            rw [ids_append, ids_append, reduceTime_ids]
            by_cases e : id = i.id
            · simp [ids, e]
            · have := hkept id y e hy hyp
              simp only [ids, List.map_append, List.mem_append, List.map_cons, List.mem_cons] at this ⊢
              grind
        · rename_i hasy
          have hI : InvBut (place o i.id { x with due := none })
              { s with queue := reduceTime (tvSubtract i.left ⟨0, 0⟩) q, now := s.now + d, start := s.now + d } i := by
            refine ⟨h.alive, Nat.le_refl _, ?_, hq' (s.now + d) (by omega),
              fun t ht => ((h.pipe t ht).place _ (hne t (by simp [ht]))).later (by dsimp only; omega),
              fun t ht => ⟨(h.running t ht).1.place _ (hne t (by simp [ht])), (h.running t ht).2⟩, hsort', ?_, hself⟩
            · rw [hids]; exact hnd'
            · intro id y hid hy hyp
              rw [hids]; exact hkept id y hid hy hyp
          have hr := rearm_ok hI (fun _ => rfl)
          simp only [Option.some.injEq, Prod.mk.injEq] at hs
          obtain ⟨hs1, hs2⟩ := hs
          have e1 : (rearm { s with queue := reduceTime (tvSubtract i.left ⟨0, 0⟩) q, now := s.now + d, start := s.now + d } i).1 = s' := by
            rw [← hs1]; unfold rearm; split <;> (try split) <;> rfl
          have e2 : (rearm { s with queue := reduceTime (tvSubtract i.left ⟨0, 0⟩) q, now := s.now + d, start := s.now + d } i).2 =
              (rearm { s with queue := reduceTime (tvSubtract i.left ⟨0, 0⟩) q, now := s.now + d } i).2 := by
            unfold rearm; split <;> rfl
          rw [e1, e2, ← haf] at hr
          rw [← hs2]
          have hcons : ∀ l : List Event, Event.starts s.now i.id :: l = [.starts s.now i.id] ++ l := fun _ => rfl
          rw [hcons, after_append]
          exact ⟨right_append hst hr.1, hr.2⟩
      · cases hs
  | ready rem =>
    simp only [step] at hs
    rw [if_neg (by simp [h.alive])] at hs
    cases hp : s.pipe with
    | nil => rw [hp] at hs; simp at hs
    | cons n pipe =>
      rw [hp] at hs
      dsimp only at hs
      have hn := h.pipe n (by simp [hp])
      cases hq : s.queue with
      | nil =>
        rw [hq] at hs
        simp only [LinkedQueue.get, Option.some.injEq, Prod.mk.injEq] at hs
        obtain ⟨rfl, rfl⟩ := hs
        refine ⟨trivial, h.alive, Nat.le_refl _, ?_, ?_, fun t ht => h.pipe t (by simp [hp, ht]), h.running, ?_, ?_⟩
        · have := h.nodup
          rw [hq, hp] at this
          simpa [add, ids] using this
        · intro t ht
          simp [add] at ht
          subst ht; exact hn
        · simp [add]
        · intro id x hx hxp
          have := h.kept id x hx hxp
          rw [hq, hp] at this
          simpa [add, ids] using this
      | cons i q =>
        rw [hq] at hs
        simp only [LinkedQueue.get] at hs
        have hi := h.queue i (by simp [hq])
        split at hs
        · rename_i hc
          obtain ⟨-, hrok, hle, hel⟩ := hc
          simp only [Option.some.injEq, Prod.mk.injEq] at hs
          obtain ⟨rfl, rfl⟩ := hs
          have he := tvSubtract_spec hi.left hrok
          have hsort := h.sorted
          rw [hq, List.pairwise_cons] at hsort
          have hw1 : ∀ t ∈ reduceTime (tvSubtract i.left rem) q, Waits o s.now t := by
            intro t ht
            rw [reduceTime_eq] at ht
            obtain ⟨y, hy, rfl⟩ := List.mem_map.1 ht
            exact (h.queue y (by simp [hq, hy])).reduce he.1 (by rw [he.2]; omega)
          have hw2 : ∀ t ∈ add compare n (reduceTime (tvSubtract i.left rem) q), Waits o s.now t := by
            intro t ht
            rcases add_mem.1 ht with rfl | ht
            · exact hn
            · exact hw1 t ht
          have hwi : Waits o s.now { i with left := rem } := by
            obtain ⟨x, dd, hx1, hx2, hx3, hx4⟩ := hi.order
            exact ⟨hrok, hi.out, x, dd, hx1, hx2, by dsimp only; omega, hx4⟩
          have s1 := add_task_sorted hn.left (fun t ht => (hw1 t ht).left)
            (reduceTime_sorted he.1 (fun t ht => (h.queue t (by simp [hq, ht])).left) hsort.2)
          have s2 := add_task_sorted (t := { i with left := rem }) hrok (fun t ht => (hw2 t ht).left) s1
          have hperm : (ids (add compare { i with left := rem } (add compare n (reduceTime (tvSubtract i.left rem) q)) ++ pipe ++ s.running)).Perm
              (ids (s.queue ++ s.pipe ++ s.running)) := by
            rw [hq, hp]
            have p1 := (add_ids { i with left := rem } (add compare n (reduceTime (tvSubtract i.left rem) q))).trans
              ((add_ids n (reduceTime (tvSubtract i.left rem) q)).cons i.id)
            rw [reduceTime_ids] at p1
            have p2 := (p1.append_right (ids pipe)).append_right (ids s.running)
            have p3 : (i.id :: n.id :: ids q ++ ids pipe).Perm (i.id :: ids q ++ n.id :: ids pipe) := by
              have := (List.perm_middle (a := n.id) (l₁ := ids q) (l₂ := ids pipe)).symm.cons i.id
              simpa using this
            have := p2.trans (p3.append_right (ids s.running))
            simpa [ids] using this
          refine ⟨trivial, h.alive, Nat.le_refl _, hperm.nodup_iff.2 h.nodup, ?_, fun t ht => h.pipe t (by simp [hp, ht]),
            h.running, s2, fun id x hx hxp => hperm.mem_iff.2 (h.kept id x hx hxp)⟩
          intro t ht
          rcases add_mem.1 ht with rfl | ht
          · exact hwi
          · exact hw2 t ht
        · cases hs

theorem inv_init : Inv noOrders St.init :=
  ⟨rfl, Nat.le_refl _, by simp [St.init, ids], by simp [St.init], by simp [St.init], by simp [St.init],
    by simp [St.init], by simp [noOrders]⟩

theorem after_other (es : List Event) (o : Nat → Option Order) (id : Nat) (ho : o id = none)
    (h : ∀ t p ms im, Event.asked t id p ms im ∉ es) : after o es id = none := by
  induction es generalizing o with
  | nil => exact ho
  | cons e es ih =>
    have h' : ∀ t p ms im, Event.asked t id p ms im ∉ es := fun t p ms im hm => h t p ms im (by simp [hm])
    cases e with
    | asked t i p ms im =>
      refine ih _ ?_ h'
      rw [place_other]
      · exact ho
      · rintro rfl; exact h t p ms im (by simp)
    | starts t i =>
      refine ih _ ?_ h'
      cases hx : o i with
      | none => exact ho
      | some x =>
        dsimp only
        rw [place_other]
        · exact ho
        · rintro rfl; rw [ho] at hx; cases hx
    | again t i =>
      refine ih _ ?_ h'
      cases hx : o i with
      | none => exact ho
      | some x =>
        dsimp only
        rw [place_other]
        · exact ho
        · rintro rfl; rw [ho] at hx; cases hx

theorem rearm_events (s : St) (t : Task) : ∀ e ∈ (rearm s t).2, ∃ a i, e = .again a i := by
  unfold rearm
  split
  · intro e he; simp at he; exact ⟨_, _, he⟩
  · simp

theorem step_asked {s s' : St} {a : Act} {es : List Event} (hs : step s a = some (s', es)) {t id : Nat} {p : Bool} {ms : Int}
    {im : Bool} (h : .asked t id p ms im ∈ es) : ∃ as, a = .post id p as ms im := by
  cases a with
  | post i p' as ms' im' =>
    simp only [step, Option.some.injEq, Prod.mk.injEq] at hs
    rw [← hs.2] at h
    simp at h
    obtain ⟨-, rfl, rfl, rfl, rfl⟩ := h
    exact ⟨as, rfl⟩
  | tick d => simp only [step, Option.some.injEq, Prod.mk.injEq] at hs; rw [← hs.2] at h; simp at h
  | finish i =>
    simp only [step] at hs
    split at hs
    · cases hs
    · simp only [Option.some.injEq] at hs
      have hh := rearm_events { s with running := s.running.erase _ } _ _ (by rw [hs]; exact h)
      obtain ⟨a, i, e⟩ := hh
      cases e
  | reject =>
    simp only [step] at hs
    split at hs
    · cases hs
    · split at hs
      · split at hs
        · cases hs
        · simp only [Option.some.injEq, Prod.mk.injEq] at hs; rw [← hs.2] at h; simp at h
      · cases hs
  | timeout d =>
    simp only [step] at hs
    split at hs
    · cases hs
    · split at hs
      · cases hs
      · split at hs
        · split at hs
          · simp only [Option.some.injEq, Prod.mk.injEq] at hs; rw [← hs.2] at h; simp at h
          · simp only [Option.some.injEq, Prod.mk.injEq] at hs
            rw [← hs.2] at h
            rcases List.mem_cons.1 h with h | h
            · cases h
            · obtain ⟨a, i, e⟩ := rearm_events _ _ _ h
              cases e
        · cases hs
  | ready rem =>
    simp only [step] at hs
    split at hs
    · cases hs
    · split at hs
      · cases hs
      · split at hs
        · simp only [Option.some.injEq, Prod.mk.injEq] at hs; rw [← hs.2] at h; simp at h
        · split at hs
          · simp only [Option.some.injEq, Prod.mk.injEq] at hs; rw [← hs.2] at h; simp at h
          · cases hs

theorem run_ok (acts : List Act) : ∀ {o : Nat → Option Order} {s s' : St} {es : List Event}, Inv o s →
    run s acts = some (s', es) → Proper acts → (asks acts).Nodup → (∀ id ∈ asks acts, o id = none) →
    Right o es ∧ Inv (after o es) s' := by
  induction acts with
  | nil =>
    intro o s s' es h hr _ _ _
    simp only [run, Option.some.injEq, Prod.mk.injEq] at hr
    obtain ⟨rfl, rfl⟩ := hr
    exact ⟨trivial, h⟩
  | cons a as ih =>
    intro o s s' es h hr hp hn hf
    rw [run] at hr
    split at hr
    · cases hr
    · rename_i s1 e1 hs
      rw [Option.map_eq_some_iff] at hr
      obtain ⟨⟨s2, e2⟩, hr2, hr3⟩ := hr
      simp only [Prod.mk.injEq] at hr3
      obtain ⟨rfl, rfl⟩ := hr3
      have hstep := step_ok h hs (by
        rintro id p asy ms im rfl
        exact ⟨hp.1, hf id (by simp [asks])⟩)
      have hp' : Proper as := by cases a <;> first | exact hp.2 | exact hp
      have hn' : (asks as).Nodup := by
        cases a <;> first | exact (List.nodup_cons.1 hn).2 | exact hn
      have hf' : ∀ id ∈ asks as, after o e1 id = none := by
        intro id hid
        refine after_other e1 o id (hf id ?_) ?_
        · cases a <;> simp [asks, hid]
        · intro t p ms im hm
          obtain ⟨asy, rfl⟩ := step_asked hs hm
          exact (List.nodup_cons.1 hn).1 hid
      have := ih hstep.2 hr2 hp' hn' hf'
      rw [after_append]
      exact ⟨right_append hstep.1 this.1, this.2⟩

/-- C36: in every history in which every task is asked for under its own number, with a delay that is
not negative, no task starts before its time, persistent tasks are scheduled again with their full
period, and others not at all. -/
theorem in_time (acts : List Act) (s : St) (es : List Event) (hr : run .init acts = some (s, es))
    (hp : Proper acts) (hn : (asks acts).Nodup) : Right noOrders es :=
  (run_ok acts inv_init hr hp hn (by simp [noOrders])).1

/-- C36: no task is lost.  A task that is due, and every persistent task, is in the queue, on its way to
it, or running. -/
theorem never_lost (acts : List Act) (s : St) (es : List Event) (hr : run .init acts = some (s, es))
    (hp : Proper acts) (hn : (asks acts).Nodup) (t id : Nat) (ms : Int) (im : Bool)
    (ha : .asked t id true ms im ∈ es) : ∃ x ∈ s.queue ++ s.pipe ++ s.running, x.id = id := by
  have hI := (run_ok acts inv_init hr hp hn (by simp [noOrders])).2
  have key : ∀ (es : List Event) (o : Nat → Option Order), Right o es →
      ((∃ x, o id = some x ∧ x.persistent = true) ∨ .asked t id true ms im ∈ es) →
      (∀ t' p' ms' im', .asked t' id p' ms' im' ∈ es → p' = true) →
      ∃ x, after o es id = some x ∧ x.persistent = true := by
    intro es
    induction es with
    | nil => intro o _ h _; rcases h with h | h; exact h; cases h
    | cons e es ih =>
      intro o hR h hall
      have hall' : ∀ t' p' ms' im', .asked t' id p' ms' im' ∈ es → p' = true :=
        fun t' p' ms' im' hm => hall t' p' ms' im' (by simp [hm])
      cases e with
      | asked t1 i p1 ms1 im1 =>
        refine ih _ hR ?_ hall'
        by_cases hi : id = i
        · subst hi
          left
          exact ⟨_, place_same _ _ _, hall t1 p1 ms1 im1 (by simp)⟩
        · rw [place_other _ _ hi]
          rcases h with h | h
          · exact .inl h
          · rcases List.mem_cons.1 h with h | h
            · simp at h; exact absurd h.2.1 hi
            · exact .inr h
      | starts t1 i =>
        obtain ⟨x, d, h1, h2, h3, h4⟩ := hR
        have : after o (.starts t1 i :: es) = after (place o i { x with due := none }) es := by simp [after, h1]
        rw [this]
        refine ih _ h4 ?_ hall'
        by_cases hi : id = i
        · subst hi
          rcases h with ⟨y, hy, hyp⟩ | h
          · rw [h1] at hy; cases hy
            exact .inl ⟨_, place_same _ _ _, hyp⟩
          · simp at h; exact .inr h
        · rw [place_other _ _ hi]
          rcases h with h | h
          · exact .inl h
          · simp at h; exact .inr h
      | again t1 i =>
        obtain ⟨x, h1, h2, h3, h4⟩ := hR
        have : after o (.again t1 i :: es) = after (place o i { x with due := some (t1 + x.period) }) es := by simp [after, h1]
        rw [this]
        refine ih _ h4 ?_ hall'
        by_cases hi : id = i
        · subst hi
          rcases h with ⟨y, hy, hyp⟩ | h
          · rw [h1] at hy; cases hy
            exact .inl ⟨_, place_same _ _ _, hyp⟩
          · simp at h; exact .inr h
        · rw [place_other _ _ hi]
          rcases h with h | h
          · exact .inl h
          · simp at h; exact .inr h
  have hone : ∀ (acts : List Act) (s s' : St) (es : List Event), run s acts = some (s', es) → (asks acts).Nodup →
      ∀ i t p ms im t' p' ms' im', .asked t i p ms im ∈ es → .asked t' i p' ms' im' ∈ es → p = p' := by
    intro acts
    have hmem : ∀ (acts : List Act) (s s' : St) (es : List Event), run s acts = some (s', es) →
        ∀ t i p ms im, .asked t i p ms im ∈ es → i ∈ asks acts := by
      intro acts
      induction acts with
      | nil => intro s s' es hr; simp only [run, Option.some.injEq, Prod.mk.injEq] at hr; rw [← hr.2]; simp
      | cons a as ih =>
        intro s s' es hr t i p ms im hm
        rw [run] at hr
        split at hr
        · cases hr
        · rename_i s1 e1 hs
          rw [Option.map_eq_some_iff] at hr
          obtain ⟨⟨s2, e2⟩, hr2, hr3⟩ := hr
          simp only [Prod.mk.injEq] at hr3
          obtain ⟨rfl, rfl⟩ := hr3
          rcases List.mem_append.1 hm with hm | hm
          · obtain ⟨asy, rfl⟩ := step_asked hs hm
            simp [asks]
          · have := ih _ _ _ hr2 _ _ _ _ _ hm
            cases a <;> simp [asks, this]
    induction acts with
    | nil => intro s s' es hr; simp only [run, Option.some.injEq, Prod.mk.injEq] at hr; rw [← hr.2]; simp
    | cons a as ih =>
      intro s s' es hr hn i t p ms im t' p' ms' im' h1 h2
      rw [run] at hr
      split at hr
      · cases hr
      · rename_i s1 e1 hs
        rw [Option.map_eq_some_iff] at hr
        obtain ⟨⟨s2, e2⟩, hr2, hr3⟩ := hr
        simp only [Prod.mk.injEq] at hr3
        obtain ⟨rfl, rfl⟩ := hr3
        have hn' : (asks as).Nodup := by
          cases a <;> first | exact (List.nodup_cons.1 hn).2 | exact hn
        rcases List.mem_append.1 h1 with h1 | h1 <;> rcases List.mem_append.1 h2 with h2 | h2
        · obtain ⟨asy, e⟩ := step_asked hs h1
          obtain ⟨asy', e'⟩ := step_asked hs h2
          rw [e] at e'; cases e'; rfl
        · obtain ⟨asy, rfl⟩ := step_asked hs h1
          exact absurd (hmem _ _ _ _ hr2 _ _ _ _ _ h2) (List.nodup_cons.1 hn).1
        · obtain ⟨asy, rfl⟩ := step_asked hs h2
          exact absurd (hmem _ _ _ _ hr2 _ _ _ _ _ h1) (List.nodup_cons.1 hn).1
        · exact ih _ _ _ hr2 hn' _ _ _ _ _ _ _ _ _ h1 h2
  obtain ⟨x, hx, hxp⟩ := key es noOrders (in_time acts s es hr hp hn) (.inr ha)
    (fun t' p' ms' im' hm => (hone acts _ _ _ hr hn _ _ _ _ _ _ _ _ _ ha hm).symm)
  have := hI.kept id x hx (.inl hxp)
  obtain ⟨y, hy, e⟩ := List.mem_map.1 this
  exact ⟨y, hy, e⟩

/-- C36: the task that starts is one with the least time left. -/
theorem least_first (acts : List Act) (s s' : St) (es es' : List Event) (d : Nat) (hr : run .init acts = some (s, es))
    (hp : Proper acts) (hn : (asks acts).Nodup) (hs : step s (.timeout d) = some (s', es')) :
    ∃ i q, s.queue = i :: q ∧ (.starts s.now i.id) ∈ es' ∧ ∀ t ∈ q, i.left.us ≤ t.left.us := by
  have hI := (run_ok acts inv_init hr hp hn (by simp [noOrders])).2
  simp only [step] at hs
  rw [if_neg (by simp [hI.alive])] at hs
  cases hq : s.queue with
  | nil => rw [hq] at hs; simp [LinkedQueue.get] at hs
  | cons i q =>
    have hsort := hI.sorted
    rw [hq, List.pairwise_cons] at hsort
    refine ⟨i, q, rfl, ?_, hsort.1⟩
    rw [hq] at hs
    simp only [LinkedQueue.get] at hs
    split at hs
    · split at hs
      · simp only [Option.some.injEq, Prod.mk.injEq] at hs; rw [← hs.2]; simp
      · simp only [Option.some.injEq, Prod.mk.injEq] at hs; rw [← hs.2]; simp
    · cases hs

/-- C36: a waiting task does start: when its time has passed, `select` can end, and the task starts. -/
theorem starts_when_due (acts : List Act) (s : St) (es : List Event) (i : Task) (q : List Task)
    (hr : run .init acts = some (s, es)) (hp : Proper acts) (hn : (asks acts).Nodup) (hq : s.queue = i :: q) :
    ∃ w s' es', run s [.tick w, .timeout 0] = some (s', .starts (s.now + w) i.id :: es') := by
  have hI := (run_ok acts inv_init hr hp hn (by simp [noOrders])).2
  have hi := (hI.queue i (by simp [hq])).left
  refine ⟨i.left.us.toNat, ?_⟩
  have h1 : step s (.tick i.left.us.toNat) = some ({ s with now := s.now + i.left.us.toNat }, []) := rfl
  simp only [run, h1, Option.map_eq_some_iff]
  have hle : (s.start : Int) + i.left.us ≤ ((s.now + i.left.us.toNat : Nat) : Int) := by
    have := us_nonneg hi
    have := hI.time
    omega
  have h2 : ∃ s' es', step { s with now := s.now + i.left.us.toNat } (.timeout 0) =
      some (s', .starts (s.now + i.left.us.toNat) i.id :: es') := by
    simp only [step]
    rw [if_neg (by simp [hI.alive]), hq]
    simp only [LinkedQueue.get]
    rw [if_pos ⟨hi, hle⟩]
    split
    · exact ⟨_, _, rfl⟩
    · exact ⟨_, _, rfl⟩
  obtain ⟨s', es', h2⟩ := h2
  refine ⟨s', es', ?_⟩
  rw [h2]
  simp

/-- C58, the full claim: no delay stops the timer thread. -/
def Alive : Prop := ∀ (acts : List Act) (s : St) (es : List Event), run .init acts = some (s, es) → s.dead = false

/-- C58 is false of the code: a negative delay (for instance from an interval whose number of
milliseconds does not fit an `int`) is refused by `select`, and the thread sleeps for ever. -/
theorem alive_false : ¬ Alive := by
  intro h
  have hr : run .init [.post 1 true false (-1294967296) false, .ready ⟨0, 0⟩, .reject] =
      some (⟨0, 0, [newTask 1 true false (-1294967296) false], [], [], true⟩, [.asked 0 1 true (-1294967296) false]) := by
    decide +kernel
  exact absurd (h _ _ _ hr) (by decide)

/-- C58 for delays that are not negative. -/
theorem alive_partial (acts : List Act) (s : St) (es : List Event) (hr : run .init acts = some (s, es))
    (hp : Proper acts) (hn : (asks acts).Nodup) : s.dead = false :=
  (run_ok acts inv_init hr hp hn (by simp [noOrders])).2.alive

/-! ### Examples -/

/-- A repeated task and a one-time asynchronous one. -/
def exActs : List Act :=
  [.post 1 true false 3 false, .post 2 false true 2 false, .ready ⟨0, 0⟩, .tick 1000, .ready ⟨0, 2000⟩,
   .tick 2000, .timeout 10, .timeout 10, .finish 2, .tick 3000, .timeout 7]
example : Proper exActs ∧ (asks exActs).Nodup := by simp [exActs, Proper, asks]
example : (run .init exActs).map (·.2) =
    some [.asked 0 1 true 3 false, .asked 0 2 false 2 false, .starts 3000 1, .again 3010 1, .starts 3010 2,
      .starts 6010 1, .again 6017 1] := by
  decide +kernel
/-- The asynchronous task has started, and was the head of the queue with nothing left to wait. -/
example : ∃ s es, run .init (exActs.take 7) = some (s, es) ∧ (s.queue.map Task.id) = [2, 1] ∧
    (step s (.timeout 0)).isSome := ⟨_, _, rfl, by decide +kernel, by decide +kernel⟩

end Verif.TimedTask
