import Verif.Lemmas.Bst
/-! C32: the search tree implements a multiset with handles, for every history of calls. -/

namespace Verif.Bst
variable {α : Type}

/-- C32.  Start from an empty tree and make any sequence of `Add`, `Delete` (of live nodes) and
`Reset` calls.  If the comparison is a total preorder then afterwards
* the tree holds exactly the elements added and not deleted since (each once),
* no two of them share an address,
* a search that succeeds returns one of them that compares equal to the key,
* a search that fails means none of them compares equal. -/
theorem bst_refines_multiset (cmp : α → α → Int) (hc : TotalPreorder cmp) (ops : List (Op α))
    (s : State α) (evs : List (Event α)) (h : State.init.run cmp ops = some (s, evs)) :
    s.root.toList.Perm (live evs) ∧
    ((live evs).map (·.1)).Nodup ∧
    (∀ k e, s.search cmp k = some e → e ∈ live evs ∧ cmp k e.2 = 0) ∧
    (∀ k, s.search cmp k = none → ∀ e ∈ live evs, cmp k e.2 ≠ 0) := by
  obtain ⟨hi, hp, ho⟩ := run_spec ops inv_init h [] (by simp [State.init, Tree.toList])
  have hp' : s.root.toList.Perm (live evs) := hp
  refine ⟨hp', ?_, ?_, ?_⟩
  · exact ((hp'.map (·.1)).nodup_iff).1 (List.nodup_append.1 hi.nodup).1
  · intro k e he
    have := Tree.search_some he
    exact ⟨hp'.mem_iff.1 this.1, this.2⟩
  · intro k hk e he
    exact Tree.search_none hc (ho hc (by simp [State.init, Tree.Ordered])) hk e
      (hp'.mem_iff.2 he)

/-- C32, without any assumption on the comparison: the contents are right and a successful search
returns a live element comparing equal.  Only completeness of the search needs the order. -/
theorem bst_contents_any_cmp (cmp : α → α → Int) (ops : List (Op α))
    (s : State α) (evs : List (Event α)) (h : State.init.run cmp ops = some (s, evs)) :
    s.root.toList.Perm (live evs) ∧
    ((live evs).map (·.1)).Nodup ∧
    (∀ k e, s.search cmp k = some e → e ∈ live evs ∧ cmp k e.2 = 0) := by
  obtain ⟨hi, hp, _⟩ := run_spec ops inv_init h [] (by simp [State.init, Tree.toList])
  have hp' : s.root.toList.Perm (live evs) := hp
  refine ⟨hp', ((hp'.map (·.1)).nodup_iff).1 (List.nodup_append.1 hi.nodup).1, ?_⟩
  intro k e he
  have := Tree.search_some he
  exact ⟨hp'.mem_iff.1 this.1, this.2⟩

/-- C32.  The address handed out by `Add` is never that of a live element, so two live elements
never share storage even though freed nodes are recycled. -/
theorem bst_add_fresh_address (cmp : α → α → Int) (ops : List (Op α))
    (s : State α) (evs : List (Event α)) (h : State.init.run cmp ops = some (s, evs)) (x : α) :
    (s.add cmp x).1 ∉ (live evs).map (·.1) := by
  obtain ⟨hi, hp, _⟩ := run_spec ops inv_init h [] (by simp [State.init, Tree.toList])
  have hp' : s.root.toList.Perm (live evs) := hp
  rw [← (hp'.map (·.1)).mem_iff]
  exact (inv_add hi x).2

/-- C32.  A full traversal visits every live element exactly once. -/
theorem bst_enum_visits_all (cmp : α → α → Int) (ops : List (Op α))
    (s : State α) (evs : List (Event α)) (h : State.init.run cmp ops = some (s, evs)) :
    s.root.preorder.Perm (live evs) := by
  obtain ⟨_, hp, _⟩ := run_spec ops inv_init h [] (by simp [State.init, Tree.toList])
  exact (Tree.preorder_perm _).trans hp

/-- Ordinary integer comparison meets the hypothesis. -/
theorem intCmp_totalPreorder : TotalPreorder (fun a b : Int => a - b) :=
  ⟨by intros; omega, by intros; omega⟩

/-- Non-vacuity: a history with duplicates, a deletion of a node with two children and recycling;
the search finds the remaining duplicate. -/
example :
    (State.init.run (fun a b : Int => a - b)
        [.add 5, .add 3, .add 8, .add 5, .add 7, .delete 0, .add 5]).map
      (fun r => (r.1.root.toList, r.2, r.1.search (fun a b : Int => a - b) 5)) =
    some ([(1, 3), (0, 5), (3, 5), (4, 7), (2, 8)],
      [.added 0 5, .added 1 3, .added 2 8, .added 3 5, .added 4 7, .deleted 0, .added 0 5],
      some (3, 5)) := by decide

end Verif.Bst
