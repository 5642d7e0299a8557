/-!
Model of `bst.c` / `bst.h`: the binary search tree used for pending queries (`mcontext.c`),
disabled types (`filter.c`), address lists (`ipchunk.c`) and sockets (`socketpool.c`).

The pointer structure `Bst_NodeHead {Parent, Left, Right}` (bst.h 11-15) is modelled by an
inductive tree whose nodes carry the address of the C node.
-/

namespace Verif.Bst

/-- bst.h 11-15: a node is its address, its payload (`node + 1`) and its two children. -/
inductive Tree (α : Type) where
  | nil : Tree α
  | node (l : Tree α) (addr : Nat) (val : α) (r : Tree α) : Tree α
  deriving Repr, DecidableEq

namespace Tree
variable {α : Type}

/-- In-order contents (used only in statements and proofs). -/
def toList : Tree α → List (Nat × α)
  | nil => []
  | node l a v r => toList l ++ (a, v) :: toList r

/-- bst.c 67-105 `Bst_Add` with 25-65 `InsertNode`: walk down comparing the new data with the
current node, `<= 0` goes left, otherwise right, and hang the new node `a` there. -/
def insert (cmp : α → α → Int) (a : Nat) (x : α) : Tree α → Tree α
  | nil => node nil a x nil
  | node l b y r =>
    if cmp x y ≤ 0 then node (insert cmp a x l) b y r
    else node l b y (insert cmp a x r)

/-- bst.c 107-135 `Bst_Search` from a given start node (`Last == NULL`: the root):
first node comparing equal. -/
def search (cmp : α → α → Int) (k : α) : Tree α → Option (Nat × α)
  | nil => none
  | node l a v r =>
    if cmp k v = 0 then some (a, v)
    else if cmp k v < 0 then search cmp k l
    else search cmp k r

/-- bst.c 137-159 `Bst_Enum`: visiting order is node, left subtree, right subtree.  (The
callbacks of mcontext.c 6-17 and socketpool.c 90-101 always return 0, so all nodes are visited; the one of socketpool.c 54-72
stops at the first socket that is ready, which `SocketPool.fetch` models by `find?` over this order.) -/
def preorder : Tree α → List (Nat × α)
  | nil => []
  | node l a v r => (a, v) :: (preorder l ++ preorder r)

/-- bst.c 161-185 `Bst_Minimum` on the non-empty subtree `node l a v r` together with the
unlinking of that node by `Bst_Delete` (bst.c 227-257): the leftmost node, and the subtree in
which it is replaced by its right child. -/
def popMin : Tree α → Nat → α → Tree α → (Nat × α) × Tree α
  | nil, a, v, r => ((a, v), r)
  | node ll b w lr, a, v, r => ((popMin ll b w lr).1, node (popMin ll b w lr).2 a v r)

/-- bst.c 207-303 `Bst_Delete` for the root of a subtree with children `l` and `r`: with at most
one child the child (left if non-NULL, else right) takes its place; with two children the
successor (bst.c 187-205: the leftmost node of the right subtree) is unlinked and takes its
place (bst.c 259-297). -/
def removeRoot : Tree α → Tree α → Tree α
  | nil, r => r
  | l@(node ..), nil => l
  | l@(node ..), node rl b w rr =>
    node l (popMin rl b w rr).1.1 (popMin rl b w rr).1.2 (popMin rl b w rr).2

/-- bst.c 207-303 `Bst_Delete(t, Node)`: the node is given by its address. -/
def delete (a : Nat) : Tree α → Tree α
  | nil => nil
  | node l b y r => if b = a then removeRoot l r else node (delete a l) b y (delete a r)

end Tree

/-- bst.h 24-29 `Bst`: the root, the list of recycled nodes (`FreeList`, linked through `Right`)
and, for `StableBuffer Nodes`, the next fresh address. -/
structure State (α : Type) where
  root : Tree α
  free : List Nat
  fresh : Nat
  deriving Repr, DecidableEq

variable {α : Type}

/-- bst.c 317-339 `Bst_Init` and 305-310 `Bst_Reset` (fresh addresses start again). -/
def State.init : State α := { root := .nil, free := [], fresh := 0 }

/-- bst.c 7-23 `GetUnusedNode`: recycle the head of the free list, else a new node.
Simplification: allocation succeeds. -/
def State.alloc (s : State α) : Nat × State α :=
  match s.free with
  | a :: fs => (a, { s with free := fs })
  | [] => (s.fresh, { s with fresh := s.fresh + 1 })

/-- bst.c 67-105 `Bst_Add`: returns the address of the new node. -/
def State.add (cmp : α → α → Int) (s : State α) (x : α) : Nat × State α :=
  (s.alloc.1, { s.alloc.2 with root := s.root.insert cmp s.alloc.1 x })

/-- bst.c 207-303 `Bst_Delete` of a live node; the node goes to the front of the free list. -/
def State.delete (s : State α) (a : Nat) : State α :=
  { s with root := s.root.delete a, free := a :: s.free }

/-- bst.c 107-135 `Bst_Search(t, Key, NULL)`. -/
def State.search (cmp : α → α → Int) (s : State α) (k : α) : Option (Nat × α) :=
  s.root.search cmp k

/-- Calls of the tree's interface that change it. -/
inductive Op (α : Type) where
  | add (x : α)
  | delete (a : Nat)
  | reset
  deriving Repr, DecidableEq

/-- What the caller observes of a call: `Bst_Add` returns the address of the stored element. -/
inductive Event (α : Type) where
  | added (a : Nat) (x : α)
  | deleted (a : Nat)
  | reset
  deriving Repr, DecidableEq

/-- One call.  Deleting a node that is not in the tree is undefined in C: outcome `none`. -/
def State.step (cmp : α → α → Int) (s : State α) : Op α → Option (State α × Event α)
  | .add x => some ((s.add cmp x).2, .added (s.add cmp x).1 x)
  | .delete a => if a ∈ s.root.toList.map (·.1) then some (s.delete a, .deleted a) else none
  | .reset => some (.init, .reset)

/-- A sequence of calls with the events the caller observes, oldest first; `none` if one of the
calls is undefined. -/
def State.run (cmp : α → α → Int) (s : State α) : List (Op α) → Option (State α × List (Event α))
  | [] => some (s, [])
  | op :: ops =>
    match s.step cmp op with
    | none => none
    | some (s', e) =>
      match s'.run cmp ops with
      | none => none
      | some (s'', es) => some (s'', e :: es)

end Verif.Bst
