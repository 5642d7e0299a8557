import Verif.Lemmas.SocketPool
/-! C73: waiting for several sockets at once. -/

namespace Verif.SocketPool
variable {D : Type}

/-- C73: after any history of adding and removing sockets (none added twice, none too large), waiting gives a socket
that was added and not removed since, is ready, and comes with its own data; it gives none only if none of them is
ready.  Closing all closes each of them once. -/
theorem select_members (ops : List (Op D)) (h : Legal [] ops) :
    ∃ p, run Puller.init ops = some p ∧
      (∀ ready a s d, p.select ready = some (a, s, d) → (s, d) ∈ members ops ∧ ready s = true) ∧
      (∀ ready, p.select ready = none → ∀ e ∈ members ops, ready e.1 = false) ∧
      (closeAll p.pool none).Perm ((members ops).map (·.1)) ∧ ((members ops).map (·.1)).Nodup := by
  obtain ⟨p, h1, h2⟩ := holds_run ops holds_init h
  refine ⟨p, h1, fun ready a s d hs => ?_, fun ready hs e he => ?_, ?_, ?_⟩
  · obtain ⟨h3, h4⟩ := fetch_some hs
    refine ⟨h2.perm.mem_iff.1 h3, ?_⟩
    simp only [Bool.and_eq_true] at h4
    exact h4.1.2
  · have h3 := fetch_none hs e (h2.perm.mem_iff.2 he)
    have hm : e.1 ∈ (members ops).map (·.1) := List.mem_map_of_mem he
    obtain ⟨m, h4, h5⟩ := h2.max e.1 hm
    rw [h4] at h3
    have h6 := (h2.set e.1).2 hm
    simpa [h6, h5] using h3
  · unfold closeAll
    rw [List.filter_eq_self.2 (by simp)]
    have h3 := ((Bst.Tree.preorder_perm p.pool.root).map (fun e => e.2.1))
    refine h3.trans ?_
    have h4 := h2.perm.map (·.1)
    unfold contents at h4
    rwa [List.map_map] at h4
  · exact ((h2.perm.map (·.1)).nodup_iff).1 h2.good.nodup

/-- The same socket number may come back. -/
example : Legal [] ([.add 7 (some 1), .add 3 (some 2), .add 9 none, .del 7, .add 7 (some 4), .del 9] : List (Op Nat)) := by
  simp [Legal, memberStep]

example : ((run Puller.init ([.add 7 (some 1), .add 3 (some 2), .add 9 none, .del 7, .add 7 (some 4), .del 9] : List (Op Nat))).map
    (fun p => (p.select (fun s => s == 7 || s == 9)).map (fun e => (e.2.1, e.2.2)))) = some (some (7, some 4)) := by decide

/-- C73: a socket beyond the limit of `select` is noticed. -/
def AnySocket : Prop := ∀ (s : Nat), (run (Puller.init : Puller Nat) [.add s none]).isSome

/-- C73 is false: a socket from 1024 on is written behind the set. -/
theorem any_socket_false : ¬ AnySocket := fun h => absurd (h 1024) (by decide)

/-- C73: adding a socket with fewer data than there is room for writes only the unit. -/
def UnitSafe : Prop := ∀ (cap : Nat) (unit sock d : List Byte), unit.length = 4 + cap → sock.length = 4 → d.length ≤ cap →
  unitBytes cap unit sock d = some (.inl (sock ++ d ++ List.replicate (cap - d.length) 0))

/-- C73 is false: the place of the zeros is counted in sockets. -/
theorem unit_safe_false : ¬ UnitSafe := fun h => absurd (h 8 (List.replicate 12 1) [0, 0, 0, 1] [9, 9] rfl rfl (by decide)) (by decide)

/-- C73, proved part: it holds for all data or none, which is how the program uses it. -/
theorem unit_safe_partial {cap : Nat} {unit sock d : List Byte} (hu : unit.length = 4 + cap) (hs : sock.length = 4) (hd : d.length = cap ∨ d = []) :
    unitBytes cap unit sock d = some (.inl (sock ++ d ++ List.replicate (cap - d.length) 0)) := by
  unfold unitBytes
  rcases hd with hd | rfl
  · rw [if_neg (by omega)]
    dsimp only
    rw [if_neg (by omega), show cap - d.length = 0 by omega]
    have hl : (sock ++ d ++ unit.drop (4 + d.length)).length = 4 + cap := by
      simp only [List.length_append, List.length_drop]; omega
    rw [List.replicate_zero, List.append_nil, List.append_nil, Nat.add_zero, List.take_append_drop, List.drop_eq_nil_of_le (by omega), List.append_nil]
  · simp only [List.length_nil, Nat.not_lt_zero, if_false, List.append_nil, Nat.mul_zero, Nat.add_zero, Nat.sub_zero]
    rw [if_neg (by omega), List.take_append_of_le_length (by omega), List.take_of_length_le (by omega)]
    rw [List.drop_of_length_le (by simp only [List.length_append, List.length_drop]; omega), List.append_nil]

end Verif.SocketPool
