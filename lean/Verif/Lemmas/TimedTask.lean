import Verif.Lemmas.LinkedQueue
import Verif.Spec.TimedTask
/-! Lemmas for `Props/TimedTask.lean`. -/

namespace Verif.TimedTask
open LinkedQueue

theorem ok_iff (t : Tv) : t.ok = true ↔ 0 ≤ t.sec ∧ 0 ≤ t.usec ∧ t.usec < 1000000 := by simp [Tv.ok]

theorem tvCompare_le {a b : Tv} (ha : a.ok) (hb : b.ok) : tvCompare a b ≤ 0 ↔ a.us ≤ b.us := by
  rw [ok_iff] at ha hb
  unfold tvCompare Tv.us
  split <;> omega

theorem tvSubtract_spec {a b : Tv} (ha : a.ok) (hb : b.ok) :
    (tvSubtract a b).ok ∧ (tvSubtract a b).us = max 0 (a.us - b.us) := by
  have h := tvCompare_le ha hb
  rw [ok_iff] at ha hb
  unfold tvSubtract
  split
  · rename_i hc
    refine ⟨by decide, ?_⟩
    have := h.1 hc
    have e : Tv.us ⟨0, 0⟩ = 0 := by decide
    rw [e]; omega
  · rename_i hc
    have hlt : ¬ a.us ≤ b.us := fun hh => hc (h.2 hh)
    unfold Tv.us at hlt ⊢
    rw [ok_iff]
    split
    · dsimp only
      omega
    · dsimp only
      omega

theorem us_nonneg {a : Tv} (ha : a.ok) : 0 ≤ a.us := by
  rw [ok_iff] at ha; unfold Tv.us; omega

theorem newTask_spec (id : Nat) (p a : Bool) (ms : Int) (im : Bool) (h : 0 ≤ ms) :
    (newTask id p a ms im).timeOut.ok ∧ (newTask id p a ms im).timeOut.us = ms * 1000 ∧
    (newTask id p a ms im).left.ok ∧ (newTask id p a ms im).left.us = if im then 0 else ms * 1000 := by
  have e1 : ms.tdiv 1000 = ms / 1000 := Int.tdiv_eq_ediv_of_nonneg h
  have e2 : ms.tmod 1000 = ms % 1000 := Int.tmod_eq_emod_of_nonneg h
  have h1 : (newTask id p a ms im).timeOut.ok ∧ (newTask id p a ms im).timeOut.us = ms * 1000 := by
    rw [ok_iff]
    unfold newTask Tv.us
    dsimp only
    rw [e1, e2]
    omega
  refine ⟨h1.1, h1.2, ?_⟩
  cases im with
  | true => exact ⟨(by decide : (⟨0, 0⟩ : Tv).ok = true), (by decide : Tv.us ⟨0, 0⟩ = 0)⟩
  | false => exact h1

/-- The orders after some events. -/
def after : (Nat → Option Order) → List Event → (Nat → Option Order)
  | o, [] => o
  | o, .asked t id p ms im :: es =>
    after (place o id ⟨(ms * 1000).toNat, p, some (t + if im then 0 else (ms * 1000).toNat)⟩) es
  | o, .starts _ id :: es =>
    after (match o id with | some x => place o id { x with due := none } | none => o) es
  | o, .again t id :: es =>
    after (match o id with | some x => place o id { x with due := some (t + x.period) } | none => o) es

theorem after_append (es fs : List Event) (o : Nat → Option Order) : after o (es ++ fs) = after (after o es) fs := by
  induction es generalizing o with
  | nil => rfl
  | cons e es ih => cases e <;> simp [after, ih]

theorem right_append {es fs : List Event} {o : Nat → Option Order} (h1 : Right o es) (h2 : Right (after o es) fs) :
    Right o (es ++ fs) := by
  induction es generalizing o with
  | nil => exact h2
  | cons e es ih =>
    cases e with
    | asked t id p ms im => exact ih h1 h2
    | starts t id =>
      obtain ⟨x, d, h3, h4, h5, h6⟩ := h1
      refine ⟨x, d, h3, h4, h5, ih h6 ?_⟩
      simpa [after, h3] using h2
    | again t id =>
      obtain ⟨x, h3, h4, h5, h6⟩ := h1
      refine ⟨x, h3, h4, h5, ih h6 ?_⟩
      simpa [after, h3] using h2

theorem place_same (o : Nat → Option Order) (id : Nat) (x : Order) : place o id x id = some x := by simp [place]
theorem place_other (o : Nat → Option Order) {id i : Nat} (x : Order) (h : i ≠ id) : place o id x i = o i := by
  simp [place, h]

/-- A waiting task does what was asked for, and not too early if its time is counted from `t0`. -/
structure Waits (o : Nat → Option Order) (t0 : Nat) (t : Task) : Prop where
  left : t.left.ok = true
  out : t.timeOut.ok = true
  order : ∃ x d, o t.id = some x ∧ x.due = some d ∧ (d : Int) ≤ t0 + t.left.us ∧
    (x.period : Int) = t.timeOut.us ∧ x.persistent = t.persistent

/-- A task that is running. -/
structure Runs (o : Nat → Option Order) (t : Task) : Prop where
  out : t.timeOut.ok = true
  order : ∃ x, o t.id = some x ∧ x.due = none ∧ (x.period : Int) = t.timeOut.us ∧ x.persistent = t.persistent

def ids (l : List Task) : List Nat := l.map Task.id

structure Inv (o : Nat → Option Order) (s : St) : Prop where
  alive : s.dead = false
  time : s.start ≤ s.now
  nodup : (ids (s.queue ++ s.pipe ++ s.running)).Nodup
  queue : ∀ t ∈ s.queue, Waits o s.start t
  pipe : ∀ t ∈ s.pipe, Waits o s.now t
  running : ∀ t ∈ s.running, Runs o t ∧ t.async = true
  sorted : s.queue.Pairwise (fun a b => a.left.us ≤ b.left.us)
  kept : ∀ id x, o id = some x → (x.persistent = true ∨ x.due ≠ none) → id ∈ ids (s.queue ++ s.pipe ++ s.running)

theorem Waits.place {o : Nat → Option Order} {t0 : Nat} {t : Task} (h : Waits o t0 t) {id : Nat} (x : Order)
    (hi : t.id ≠ id) : Waits (place o id x) t0 t :=
  ⟨h.left, h.out, by rw [place_other o x hi]; exact h.order⟩

theorem Runs.place {o : Nat → Option Order} {t : Task} (h : Runs o t) {id : Nat} (x : Order)
    (hi : t.id ≠ id) : Runs (place o id x) t :=
  ⟨h.out, by rw [place_other o x hi]; exact h.order⟩

theorem Waits.later {o : Nat → Option Order} {t0 t1 : Nat} {t : Task} (h : Waits o t0 t) (h01 : t0 ≤ t1) : Waits o t1 t := by
  obtain ⟨x, d, h1, h2, h3, h4⟩ := h.order
  exact ⟨h.left, h.out, x, d, h1, h2, by omega, h4⟩

/-- Counting time that has passed keeps the due date. -/
theorem Waits.reduce {o : Nat → Option Order} {t0 t1 : Nat} {t : Task} (h : Waits o t0 t) {e : Tv} (he : e.ok)
    (h01 : (t0 : Int) + e.us ≤ t1) : Waits o t1 { t with left := tvSubtract t.left e } := by
  obtain ⟨x, d, h1, h2, h3, h4⟩ := h.order
  obtain ⟨s1, s2⟩ := tvSubtract_spec h.left he
  refine ⟨s1, h.out, x, d, h1, h2, ?_, h4⟩
  dsimp only
  rw [s2]; omega

theorem reduceTime_eq (e : Tv) (q : List Task) :
    reduceTime e q = q.map (fun t => { t with left := tvSubtract t.left e }) := update_eq _ _

theorem reduceTime_ids (e : Tv) (q : List Task) : ids (reduceTime e q) = ids q := by
  simp [reduceTime_eq, ids]

theorem reduceTime_sorted {e : Tv} (he : e.ok) {q : List Task} (hq : ∀ t ∈ q, t.left.ok = true)
    (h : q.Pairwise (fun a b => a.left.us ≤ b.left.us)) :
    (reduceTime e q).Pairwise (fun a b => a.left.us ≤ b.left.us) := by
  rw [reduceTime_eq, List.pairwise_map]
  refine h.imp_of_mem ?_
  intro a b ha hb hab
  dsimp only
  rw [(tvSubtract_spec (hq a ha) he).2, (tvSubtract_spec (hq b hb) he).2]
  omega

theorem add_ids (t : Task) (q : List Task) : (ids (add compare t q)).Perm (t.id :: ids q) :=
  (add_perm compare t q).map Task.id

theorem add_mem {t x : Task} {q : List Task} : x ∈ add compare t q ↔ x = t ∨ x ∈ q := by
  rw [(add_perm compare t q).mem_iff, List.mem_cons]

theorem add_task_sorted {t : Task} {q : List Task} (ht : t.left.ok = true) (hq : ∀ x ∈ q, x.left.ok = true)
    (h : q.Pairwise (fun a b => a.left.us ≤ b.left.us)) :
    (add compare t q).Pairwise (fun a b => a.left.us ≤ b.left.us) :=
  add_sorted compare (fun t => t.left.us) (fun y hy => tvCompare_le ht (hq y hy)) h

end Verif.TimedTask
