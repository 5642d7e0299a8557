import Verif.Model.Reload
/-! What lookups may see while data is reloaded.  Of the model only the notes it keeps are used. -/

namespace Verif.Reload

/-- All a lookup saw is one version, which was the current one at some time while it ran (after `k`
versions had come, `start ≤ k ≤ finish`). -/
def Lookup.OneVersion {α : Type} (l : Lookup α) (versions : List (List α)) : Prop :=
  l.start ≤ l.finish ∧ l.finish ≤ versions.length ∧
  (l.seen ≠ [] → ∃ k v, l.start ≤ k ∧ k ≤ l.finish ∧ 1 ≤ k ∧ versions[k - 1]? = some v ∧ ∀ x ∈ l.seen, x = v)

/-- And it finds nothing to look into only if there was no version when it started. -/
def Lookup.Atomic {α : Type} (l : Lookup α) (versions : List (List α)) : Prop :=
  l.OneVersion versions ∧ (l.absent = true → l.start = 0 ∧ l.seen = [])

/-- What does not happen: a load of server groups that fails, the end of a server's thread because it can get
no socket. -/
def Allowed {α : Type} (m : Mode) : Act α → Prop
  | .fail => m.modules = false
  | .fatal _ => False
  | _ => True

end Verif.Reload
