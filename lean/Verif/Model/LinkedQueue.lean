/-! Model of `linkedqueue.c`: a list kept in order of a comparison function.  Allocation succeeds. -/

namespace Verif.LinkedQueue

variable {α : Type}

/-- linkedqueue.c 28-38: the place behind a node `n` that the new element is greater than. -/
def insertAfter (cmp : α → α → Int) (x : α) : List α → List α
  | [] => [x]
  | y :: r => if cmp x y > 0 then y :: insertAfter cmp x r else x :: y :: r

/-- linkedqueue.c 4-41 `LinkedQueue_Add`. -/
def add (cmp : α → α → Int) (x : α) : List α → List α
  | [] => [x]
  | y :: r => if cmp x y ≤ 0 then x :: y :: r else y :: insertAfter cmp x r

/-- linkedqueue.c 43-61 `LinkedQueue_Get`. -/
def get : List α → Option α × List α
  | [] => (none, [])
  | y :: r => (some y, r)

/-- linkedqueue.c 88-104 `LinkedQueueIterator_Next`, called until it returns NULL: the elements are
changed in place by `f`. -/
def update (f : α → α) : List α → List α
  | [] => []
  | y :: r => f y :: update f r

end Verif.LinkedQueue
