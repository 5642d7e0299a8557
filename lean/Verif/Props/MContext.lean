import Verif.Lemmas.MContext
/-! C30, C31, C33, C45: the table of queries waiting for an upstream response. -/

namespace Verif.MContext
open Verif.Bst

variable {C : Type}

theorem inv_reach (ops : List (Op C)) : Bst.Inv (run (State.init : Table C) ops).1 := inv_run inv_init ops

theorem conservation_aux (ops : List (Op C)) {c : Table C} (hi : Bst.Inv c) :
    (waiting c ++ queriesOf ops).Perm
      (deliveredOf (run c ops).2 ++ timedOutOf (run c ops).2 ++ waiting (run c ops).1) := by
  induction ops generalizing c with
  | nil => simp [run, queriesOf, deliveredOf, timedOutOf]
  | cons op ops ih =>
    have ih' := ih (inv_step hi op)
    cases op with
    | query now p =>
      have h1 := (add_contents c now p).append_right (queriesOf ops)
      simp only [run, step, queriesOf, deliveredOf, timedOutOf] at ih' ⊢
      exact List.perm_middle.trans (h1.symm.trans ih')
    | response r =>
      cases hs : State.search compare c r with
      | none =>
        rw [step_response_none hs] at ih'
        simp only [run, step_response_none hs, queriesOf, deliveredOf, timedOutOf] at ih' ⊢
        exact ih'
      | some ap =>
        rw [step_response_some (a := ap.1) (p := ap.2) hs] at ih'
        simp only [run, step_response_some (a := ap.1) (p := ap.2) hs, queriesOf, deliveredOf,
          timedOutOf, List.cons_append] at ih' ⊢
        have h1 := (delete_contents hi (Tree.search_some hs).1).append_right (queriesOf ops)
        exact h1.trans (ih'.cons _)
    | sweep now =>
      simp only [run, step, queriesOf, deliveredOf, timedOutOf] at ih' ⊢
      obtain ⟨_, h2, h3⟩ := sweep_spec hi now
      have h4 : (waiting c).Perm ((sweep c now).1 ++ waiting (sweep c now).2) := by
        have h5 : waiting (sweep c now).2 = (waiting c).filter (fun p => !expired now p) := by
          unfold waiting; rw [h2, List.filter_map]; rfl
        rw [h5]
        exact (List.filter_append_perm (fun p => expired now p) (waiting c)).symm.trans
          (h3.symm.append_right _)
      have h6 := h4.append_right (queriesOf ops)
      rw [List.append_assoc] at h6
      refine h6.trans ((ih'.append_left _).trans ?_)
      simp only [← List.append_assoc]
      exact List.Perm.append_right _ (List.Perm.append_right _ List.perm_append_comm)

/-- C30 (each query is answered at most once and nothing is invented).  After any history of
queries, responses and sweeps, every query ever sent upstream is in exactly one of three places:
it was delivered once, it timed out once, or it is still waiting. -/
theorem pending_conservation (ops : List (Op C)) :
    (queriesOf ops).Perm
      (deliveredOf (run State.init ops).2 ++ timedOutOf (run State.init ops).2 ++
        waiting (run State.init ops).1) := by
  have := conservation_aux ops (c := State.init) inv_init
  simpa [waiting, State.init, Tree.toList] using this

/-- C30 (the response goes to the client that asked).  After any history, a response is delivered
only to a waiting query with the response's ID and name hash, and this query – and only this one –
stops waiting.  An undeliverable response changes nothing. -/
theorem response_delivery (ops : List (Op C)) (r : Pending C) :
    (∀ q, (step (run State.init ops).1 (.response r)).2 = .delivered q →
      q ∈ waiting (run State.init ops).1 ∧ q.id = r.id ∧ q.hash = r.hash ∧
      (waiting (run State.init ops).1).Perm
        (q :: waiting (step (run State.init ops).1 (.response r)).1)) ∧
    ((step (run State.init ops).1 (.response r)).2 = .unmatched →
      (step (run State.init ops).1 (.response r)).1 = (run State.init ops).1) := by
  have hi := inv_reach ops
  generalize (run State.init ops).1 = c at *
  cases hs : State.search compare c r with
  | none =>
    rw [step_response_none hs]
    exact ⟨fun q h => by simp at h, fun _ => rfl⟩
  | some ap =>
    rw [step_response_some (a := ap.1) (p := ap.2) hs]
    obtain ⟨h1, h2⟩ := Tree.search_some hs
    refine ⟨fun q h => ?_, fun h => by simp at h⟩
    simp only [Out.delivered.injEq] at h
    subst h
    have h3 := compare_eq_zero h2
    exact ⟨List.mem_map_of_mem h1, h3.1.symm, h3.2.symm, delete_contents hi h1⟩

/-- C31 is false of the code: three queries with the same ID for `example.com`, `a.com` and
`kernel.org`; once the first is answered, the response for `kernel.org` is not matched although its
query is still waiting. -/
theorem response_found_false : ¬ ResponseFound := by
  intro h
  let q (d : String) (cl : Nat) : Pending Nat :=
    { id := 7, hash := bkdrHash (str d), domain := str d, qtype := 1, client := cl, timestamp := 0 }
  have := h [.query 0 (q "example.com" 1), .query 0 (q "a.com" 2), .query 0 (q "kernel.org" 3),
    .response (q "example.com" 0)] (q "kernel.org" 0) (q "kernel.org" 3)
    (by decide +kernel) rfl rfl
  obtain ⟨p, hp⟩ := this
  have h2 : (step (run State.init [.query 0 (q "example.com" 1), .query 0 (q "a.com" 2),
    .query 0 (q "kernel.org" 3), .response (q "example.com" 0)]).1
    (.response (q "kernel.org" 0))).2 = .unmatched := by decide +kernel
  rw [h2] at hp
  cases hp

/-- C31, the part that holds: if among all queries of the history (and the response) those with
equal IDs have hashes less than `2^31` apart – in particular if IDs are distinct – then a response
whose query is waiting is delivered.  Missing: hash differences of `2^31` or more, where the claim
is false (`response_found_false`). -/
theorem response_found_partial (ops : List (Op C)) (r p : Pending C)
    (hclose : ∀ x ∈ r :: queriesOf ops, ∀ y ∈ r :: queriesOf ops, Close x y)
    (hp : p ∈ waiting (run State.init ops).1) (hid : p.id = r.id) (hhash : p.hash = r.hash) :
    ∃ q, (step (run State.init ops).1 (.response r)).2 = .delivered q := by
  have hw : waiting (State.init : Table C) = [] := by simp [waiting, State.init, Tree.toList]
  obtain ⟨ho, hsub⟩ := ordered_run ops (c := State.init) inv_init
    (by simp [State.init, Tree.Ordered]) (by
      rw [hw]; intro x hx y hy
      exact hclose x (List.mem_cons_of_mem _ hx) y (List.mem_cons_of_mem _ hy))
  rw [hw, List.nil_append] at hsub
  generalize (run State.init ops).1 = c at *
  cases hs : State.search compare c r with
  | some ap => exact ⟨ap.2, by rw [step_response_some (a := ap.1) (p := ap.2) hs]⟩
  | none =>
    exfalso
    have hcl : ∀ e ∈ c.root.toList, Close r e.2 := fun e he =>
      hclose r List.mem_cons_self e.2 (List.mem_cons_of_mem _ (hsub _ (List.mem_map_of_mem he)))
    have hs' : c.root.search natCompare r = none := by
      rw [← search_congr (c1 := compare) r c.root (fun e he => compare_of_close (hcl e he))]
      exact hs
    obtain ⟨e, he, rfl⟩ := List.mem_map.1 hp
    refine Tree.search_none natCompare_totalPreorder ho hs' e he ?_
    rw [← compare_of_close (hcl e he)]
    exact compare_zero_of hid.symm hhash.symm

/-- C45 is false of the code: a response for `adezhs.com` is delivered to the client that asked for
`yjvxth.com` under the same ID, because only the 32-bit hash of the name is compared. -/
theorem delivered_same_name_false : ¬ DeliveredSameName := by
  intro h
  let q (d : String) (cl : Nat) : Pending Nat :=
    { id := 7, hash := bkdrHash (str d), domain := str d, qtype := 1, client := cl, timestamp := 0 }
  have := h [.query 0 (q "yjvxth.com" 1)] (q "adezhs.com" 0) (q "yjvxth.com" 1)
    (by decide +kernel) rfl (by decide +kernel)
  revert this
  decide +kernel

/-- C45, the part that holds: if no two different names among the queries and the response have
the same hash, a response is delivered only to a client that asked for the same name.  Missing:
hash collisions. -/
theorem delivered_same_name_partial (ops : List (Op C)) (r q : Pending C)
    (hq : ∀ p ∈ queriesOf ops, p.hash = bkdrHash p.domain) (hr : r.hash = bkdrHash r.domain)
    (hinj : ∀ p ∈ queriesOf ops, bkdrHash p.domain = bkdrHash r.domain → p.domain = r.domain)
    (h : (step (run State.init ops).1 (.response r)).2 = .delivered q) : q.domain = r.domain := by
  obtain ⟨h1, _, h3, _⟩ := (response_delivery ops r).1 q h
  have h4 : q ∈ queriesOf ops := by
    rw [(pending_conservation ops).mem_iff]
    exact List.mem_append_right _ h1
  exact hinj q h4 (by rw [← hq q h4, h3, hr])

/-- C33.  After any history, a sweep at time `now` reports exactly the waiting queries that are
more than two seconds old and keeps exactly the others. -/
theorem sweep_exact (ops : List (Op C)) (now : Int) :
    ∃ old, (step (run State.init ops).1 (.sweep now)).2 = .timedOut old ∧
      old.Perm ((waiting (run State.init ops).1).filter (fun p => now - p.timestamp > 2)) ∧
      waiting (step (run State.init ops).1 (.sweep now)).1 =
        (waiting (run State.init ops).1).filter (fun p => now - p.timestamp ≤ 2) := by
  obtain ⟨_, h2, h3⟩ := sweep_spec (inv_reach ops) now
  refine ⟨_, rfl, h3, ?_⟩
  simp only [step, waiting]
  rw [h2, List.filter_map]
  congr 2
  funext e
  simp only [expired, Function.comp]
  by_cases h : now - e.2.timestamp > 2 <;> simp [h] <;> omega

/-- Non-vacuity: a history with two clients using the same ID, one answered, one timed out, one
waiting; all hypotheses of `response_found_partial` hold for the waiting one. -/
example :
    let q (d : String) (cl : Nat) : Pending Nat :=
      { id := 7, hash := bkdrHash (str d), domain := str d, qtype := 1, client := cl, timestamp := 0 }
    let ops : List (Op Nat) := [.query 0 (q "b" 1), .query 0 (q "a" 2), .query 5 (q "c" 3),
      .response (q "a" 0), .sweep 6]
    (run State.init ops).2 = [.queued, .queued, .queued, .delivered (q "a" 2),
      .timedOut [q "b" 1]] ∧
    waiting (run State.init ops).1 = [{ q "c" 3 with timestamp := 5 }] ∧
    (∀ x ∈ q "c" 0 :: queriesOf ops, ∀ y ∈ q "c" 0 :: queriesOf ops,
      ((x.hash.toNat : Int) - y.hash.toNat).natAbs < 2 ^ 31) := by decide +kernel

end Verif.MContext
