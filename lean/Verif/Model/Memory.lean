/-! What is done with memory when server groups and lists are set up, used and given up.  Only this is modelled: which blocks are asked for and given
back, in the order of the code; what is in them only as far as it is a pointer to a block that is given back.  Whether a request is granted is a parameter.
What makes a container grow (its contents) is left open: it may grow at any time. -/

namespace Verif.Memory

/-- The blocks that have been asked for and not yet given back, the name of the next one, how many requests there were. -/
structure Heap where
  live : List Nat
  next : Nat
  tries : Nat
deriving DecidableEq, Repr

/-- `none`: undefined behaviour (a block is given back that is not there, or a NULL pointer is followed). -/
abbrev M := StateT Heap Option

/-- Undefined behaviour. -/
def crash {α : Type} : M α := fun _ => none

/-- Whether the request of this number is granted. -/
abbrev Ok := Nat → Bool

/-- utils.h 32: `SafeMalloc`; `none`: NULL -/
def malloc (ok : Ok) : M (Option Nat) := fun h =>
  if ok h.tries then some (some h.next, ⟨h.next :: h.live, h.next + 1, h.tries + 1⟩) else some (none, { h with tries := h.tries + 1 })

/-- utils.h 40: `SafeFree` -/
def free : Option Nat → M Unit
  | none => pure ()
  | some b => fun h => if b ∈ h.live then some ((), { h with live := h.live.erase b }) else none

/-- utils.c `SafeRealloc`; `none`: refused, the old block stays -/
def realloc (ok : Ok) (p : Option Nat) : M (Option Nat) := fun h =>
  if ok h.tries then
    match p with
    | none => some (some h.next, ⟨h.next :: h.live, h.next + 1, h.tries + 1⟩)
    | some b => if b ∈ h.live then some (some h.next, ⟨h.next :: h.live.erase b, h.next + 1, h.tries + 1⟩) else none
  else some (none, { h with tries := h.tries + 1 })

/-! ### Containers -/

/-- array.h (arrays that grow up) -/
structure Arr where
  data : Option Nat
  used : Nat
  allocated : Nat
deriving DecidableEq, Repr

/-- array.c 7-35; `none`: it fails -/
def arrInit (ok : Ok) (n : Nat) : M (Option Arr) :=
  if n > 0 then do
    match ← malloc ok with
    | none => pure none
    | some b => pure (some ⟨some b, 0, n⟩)
  else pure (some ⟨none, 0, 0⟩)

/-- array.c 89-122; `false`: it fails -/
def arrPush (ok : Ok) (a : Arr) : M (Arr × Bool) :=
  if a.used = a.allocated then do
    match ← realloc ok a.data with
    | none => pure (a, false)
    | some b => pure (⟨some b, a.used + 1, if a.allocated < 2 then 2 else a.allocated + a.allocated / 2⟩, true)
  else pure ({ a with used := a.used + 1 }, true)

/-- array.c 173-182 -/
def arrFree (a : Arr) : M Unit := if a.allocated > 0 then free a.data else pure ()

/-- stablebuffer.h: the array of the blocks and the blocks -/
structure Buf where
  info : Arr
  blocks : List Nat
deriving DecidableEq, Repr

/-- stablebuffer.c 124-132, array.c 7-35: it asks for nothing and does not fail -/
def bufInit : Buf := ⟨⟨none, 0, 0⟩, []⟩

/-- stablebuffer.c 5-100: `need`: the last block has no room; `false`: it fails -/
def bufAdd (ok : Ok) (b : Buf) (need : Bool) : M (Buf × Bool) :=
  if b.blocks.isEmpty || need then do
    match ← malloc ok with
    | none => pure (b, false)
    | some p =>
      match ← arrPush ok b.info with
      | (a, true) => pure (⟨a, b.blocks ++ [p]⟩, true)
      | (a, false) => do
        free (some p)
        pure (⟨a, b.blocks⟩, false)
  else pure (b, true)

/-- the loop of stablebuffer.c 102-116 -/
def freeAll : List Nat → M Unit
  | [] => pure ()
  | b :: bs => do
    free (some b)
    freeAll bs

/-- stablebuffer.c 118-122 -/
def bufFree (b : Buf) : M Unit := do
  freeAll b.blocks
  arrFree b.info

/-- socketpool.h, socketpuller.h: the tree and the place for one element -/
structure Pool where
  tree : Buf
  one : Option Nat
deriving DecidableEq, Repr

/-- socketpuller.c 108-121, socketpool.c 129-158, bst.c 317-339 -/
def poolInit (ok : Ok) : M (Option Pool) := do
  match ← malloc ok with
  | none => do
    bufFree bufInit
    pure none
  | some b => pure (some ⟨bufInit, some b⟩)

/-- socketpuller.c 98-106, socketpool.c 113-122 (with or without closing the sockets) -/
def poolFree (p : Pool) : M Unit := do
  free p.one
  bufFree p.tree

/-- The loop of socketpuller.c 174-184 and 186-196. -/
def poolsFree : List Pool → M Unit
  | [] => pure ()
  | p :: ps => do
    poolFree p
    poolsFree ps

/-- What `SocketPullers_Init` makes: the array of pointers, the array of what they point to, and that. -/
structure Pools where
  ptrs : Nat
  buffer : Nat
  pools : List Pool
deriving DecidableEq, Repr

/-- The loop of socketpuller.c 147-155: those that could be made, and whether all could. -/
def poolsLoop (ok : Ok) : Nat → List Pool → M (List Pool × Bool)
  | 0, l => pure (l, true)
  | n + 1, l => do
    match ← poolInit ok with
    | none => pure (l, false)
    | some p => poolsLoop ok n (l ++ [p])

/-- socketpuller.c 123-164 -/
def poolsInit (ok : Ok) (n : Nat) : M (Option Pools) :=
  if n = 0 then pure none
  else do
    match ← malloc ok with
    | none => pure none
    | some a =>
      match ← malloc ok with
      | none => do
        free (some a)
        pure none
      | some b =>
        match ← poolsLoop ok n [] with
        | (l, true) => pure (some ⟨a, b, l⟩)
        | (l, false) => do
          poolsFree l
          free (some a)
          free (some b)
          pure none

/-- socketpuller.c 186-196: `SocketPullers_Free`; the array of what the pointers point to is not given back -/
def pullersFree (p : Pools) : M Unit := do
  poolsFree p.pools
  free (some p.ptrs)

/-- The addresses of a text are added: `n` of them are proper ones (addresslist.c 25-39, 117-128; failures are ignored). -/
def addAddresses (ok : Ok) : Nat → Arr → M Arr
  | 0, a => pure a
  | n + 1, a => do
    let (a, _) ← arrPush ok a
    addAddresses ok n a

/-- A list of pointers to addresses: the block it is in, and for every pointer the block of the address and its place there. -/
structure Ptrs where
  block : Nat
  to : List (Option Nat × Nat)
deriving DecidableEq, Repr

/-- addresslist.c 167-229: pointers to all the addresses of an array, or to some -/
def ptrsTo (a : Arr) : List (Option Nat × Nat) := (List.range a.used).map fun i => (a.data, i)

/-- addresslist.c 198-229 `AddressList_GetPtrList`: with the block of the families -/
def ptrList (ok : Ok) (a : Arr) : M (Option (Ptrs × Nat)) := do
  match ← malloc ok with
  | none => pure none
  | some p =>
    match ← malloc ok with
    | none => do
      free (some p)
      pure none
    | some f => pure (some (⟨p, ptrsTo a⟩, f))

/-- `SafeFree(*(m->Services))` (tcpm.c 520, 902, 911): what the first pointer of the list points to is given back. -/
def freeFirst (p : Ptrs) : M Unit :=
  match p.to with
  | [] => pure ()
  | (b, 0) :: _ => free b
  | (_, _ + 1) :: _ => crash

/-- A text is divided into a list (stringlist.c 271-312). -/
def stringList (ok : Ok) : M (Option Buf) := do
  match ← bufAdd ok bufInit true with
  | (b, true) => pure (some b)
  | (b, false) => do
    bufFree b
    pure none

/-! ### UDP groups -/

/-- udpm.h: what is in memory -/
structure Udp where
  addrs : Arr
  parallels : Option Nat
  context : Buf
deriving DecidableEq, Repr

/-- udpm.c 330-427: `n`: how many proper addresses there are; `none`: it fails.  (`StringListIterator_Init`, stringlist.c 379-398, does not fail.) -/
def udpInit (ok : Ok) (n : Nat) (parallel : Bool) : M (Option Udp) := do
  match ← stringList ok with
  | none => pure none
  | some l =>
    match ← arrInit ok 8 with
    | none => do
      bufFree l
      pure none
    | some a => do
      let a ← addAddresses ok n a
      bufFree l
      if parallel then
        if a.used = 0 then do
          arrFree a
          pure none
        else do
          let p ← malloc ok
          pure (some ⟨a, p, bufInit⟩)
      else pure (some ⟨a, none, bufInit⟩)

/-- udpm.c 257-328, mcontext.c: a query is remembered (`need`: there is no room for it) -/
def udpUse (ok : Ok) : List Bool → Udp → M Udp
  | [], u => pure u
  | need :: ns, u => do
    let (c, _) ← bufAdd ok u.context need
    udpUse ok ns { u with context := c }

/-- udpm.c 54-67 (`UdpM_Cleanup`), then 46-47 (the end of `UdpM_Sweep_Thread`) -/
def udpStop (u : Udp) : M Unit := do
  free u.parallels
  arrFree u.addrs
  bufFree u.context

/-- A UDP group is made, used, and stopped, if it can be made. -/
def udpLife (ok : Ok) (n : Nat) (parallel : Bool) (uses : List Bool) : M Unit := do
  match ← udpInit ok n parallel with
  | none => pure ()
  | some u => do
    let u ← udpUse ok uses u
    udpStop u

/-! ### TCP groups -/

/-- tcpm.h: what is in memory of the proxies of a group -/
structure Proxy where
  list : Arr
  ptrs : Ptrs
  families : Nat
  puller : Pool
  pools : Pools
deriving DecidableEq, Repr

/-- tcpm.h: what is in memory -/
structure Tcp where
  context : Buf
  puller : Pool
  list : Arr
  services : Ptrs
  families : Nat
  queryPuller : Pool
  agents : Pools
  proxy : Option Proxy
deriving DecidableEq, Repr

/-- tcpm.c 916-919: from `EXIT_2` on -/
def exit2 (context : Buf) (puller : Pool) : M Unit := do
  poolFree puller
  bufFree context

/-- tcpm.c 914-919: from `EXIT_3` on -/
def exit3 (context : Buf) (puller : Pool) (list : Arr) : M Unit := do
  arrFree list
  exit2 context puller

/-- tcpm.c 911-919: from `EXIT_4` on -/
def exit4 (context : Buf) (puller : Pool) (list : Arr) (services : Ptrs) : M Unit := do
  freeFirst services
  exit3 context puller list

/-- tcpm.c 909-919: from `EXIT_5` on -/
def exit5 (context : Buf) (puller : Pool) (list : Arr) (services : Ptrs) (query : Pool) : M Unit := do
  poolFree query
  exit4 context puller list services

/-- tcpm.c 907-919: from `EXIT_6` on -/
def exit6 (context : Buf) (puller : Pool) (list : Arr) (services : Ptrs) (query : Pool) (agents : Pools) : M Unit := do
  pullersFree agents
  exit5 context puller list services query

/-- tcpm.c 830-884: the proxies; `none`: it fails, and 899-904 have been done -/
def proxyInit (ok : Ok) (n : Nat) : M (Option Proxy) := do
  match ← arrInit ok 8 with
  | none => pure none
  | some a =>
    match ← stringList ok with
    | none => do
      arrFree a
      pure none
    | some l => do
      let a ← addAddresses ok n a
      bufFree l
      match ← ptrList ok a with
      | none => do
        arrFree a
        pure none
      | some (p, f) =>
        match ← poolInit ok with
        | none => do
          freeFirst p
          arrFree a
          pure none
        | some pp =>
          match ← poolsInit ok a.used with
          | none => do
            poolFree pp
            freeFirst p
            arrFree a
            pure none
          | some ps => pure (some ⟨a, p, f, pp, ps⟩)

/-- tcpm.c 742-920: `bound`: a local port can be had (762); `n`: how many proper addresses of servers there are; `proxies`: of proxies, if there are to be
any.  (If the puller cannot take the socket, 769, that is ignored.) -/
def tcpInit (ok : Ok) (bound : Bool) (n : Nat) (proxies : Option Nat) : M (Option Tcp) := do
  let context := bufInit
  match ← poolInit ok with
  | none => do
    bufFree context
    pure none
  | some puller =>
    if bound then do
      let (t, _) ← bufAdd ok puller.tree true
      let puller := { puller with tree := t }
      match ← arrInit ok 8 with
      | none => do
        exit2 context puller
        pure none
      | some list =>
        match ← stringList ok with
        | none => do
          exit2 context puller
          pure none
        | some l => do
          let list ← addAddresses ok n list
          bufFree l
          match ← ptrList ok list with
          | none => do
            exit3 context puller list
            pure none
          | some (services, families) =>
            match ← poolInit ok with
            | none => do
              exit4 context puller list services
              pure none
            | some query =>
              match ← poolsInit ok list.used with
              | none => do
                exit5 context puller list services query
                pure none
              | some agents =>
                match proxies with
                | none => pure (some ⟨context, puller, list, services, families, query, agents, none⟩)
                | some k =>
                  match ← proxyInit ok k with
                  | none => do
                    exit6 context puller list services query agents
                    pure none
                  | some x => pure (some ⟨context, puller, list, services, families, query, agents, some x⟩)
    else do
      bufFree context
      pure none

/-- Where something is remembered: the open queries, the sockets waited for, those of the queries, of a server, of the proxies, of a proxy. -/
inductive Where where
  | context | puller | query | proxy
  | agent (i : Nat)
  | proxies (i : Nat)
deriving DecidableEq, Repr

/-- Something is added to a pool. -/
def poolAdd (ok : Ok) (p : Pool) (need : Bool) : M Pool := do
  let (t, _) ← bufAdd ok p.tree need
  pure { p with tree := t }

/-- Something is added to one of several pools. -/
def poolsAdd (ok : Ok) (ps : List Pool) (i : Nat) (need : Bool) : M (List Pool) :=
  match ps[i]? with
  | none => pure ps
  | some p => do
    let p ← poolAdd ok p need
    pure (ps.set i p)

/-- tcpm.c 1-484, 540-735: a group at work -/
def tcpUse (ok : Ok) : List (Where × Bool) → Tcp → M Tcp
  | [], t => pure t
  | (.context, need) :: ws, t => do
    let (c, _) ← bufAdd ok t.context need
    tcpUse ok ws { t with context := c }
  | (.puller, need) :: ws, t => do
    let p ← poolAdd ok t.puller need
    tcpUse ok ws { t with puller := p }
  | (.query, need) :: ws, t => do
    let p ← poolAdd ok t.queryPuller need
    tcpUse ok ws { t with queryPuller := p }
  | (.agent i, need) :: ws, t => do
    let ps ← poolsAdd ok t.agents.pools i need
    tcpUse ok ws { t with agents := { t.agents with pools := ps } }
  | (.proxy, need) :: ws, t =>
    match t.proxy with
    | none => tcpUse ok ws t
    | some x => do
      let p ← poolAdd ok x.puller need
      tcpUse ok ws { t with proxy := some { x with puller := p } }
  | (.proxies i, need) :: ws, t =>
    match t.proxy with
    | none => tcpUse ok ws t
    | some x => do
      let ps ← poolsAdd ok x.pools.pools i need
      tcpUse ok ws { t with proxy := some { x with pools := { x.pools with pools := ps } } }

/-- tcpm.c 516-523: the proxies -/
def proxyStop : Option Proxy → M Unit
  | none => pure ()
  | some x => do
    poolFree x.puller
    pullersFree x.pools
    freeFirst x.ptrs
    arrFree x.list
    free (some x.families)

/-- tcpm.c 506-534 (`TcpM_Cleanup`) -/
def tcpStop (t : Tcp) : M Unit := do
  poolFree t.puller
  bufFree t.context
  proxyStop t.proxy
  poolFree t.queryPuller
  pullersFree t.agents
  free (some t.services.block)
  arrFree t.list
  free (some t.families)

/-- A TCP group is made, used, and stopped, if it can be made. -/
def tcpLife (ok : Ok) (bound : Bool) (n : Nat) (proxies : Option Nat) (uses : List (Where × Bool)) : M Unit := do
  match ← tcpInit ok bound n proxies with
  | none => pure ()
  | some t => do
    let t ← tcpUse ok uses t
    tcpStop t

/-! ### Lists that are loaded again and again -/

/-- stringchunk.h, simpleht.h: the slots and the nodes of the hash table, the entries with wildcards, the data, the list of the strings -/
structure Chunk where
  slots : Arr
  nodes : Arr
  wild : Arr
  data : Buf
  list : Nat
  strings : Buf
deriving DecidableEq, Repr

/-- The loop of simpleht.c: seven slots, for which there is room. -/
def pushes (ok : Ok) : Nat → Arr → M Arr
  | 0, a => pure a
  | n + 1, a => do
    let (a, _) ← arrPush ok a
    pushes ok n a

/-- stringchunk.c 8-68 `StringChunk_Init` with `SimpleHT_Init` -/
def chunkInit (ok : Ok) : M (Option Chunk) := do
  match ← arrInit ok 7 with
  | none => pure none
  | some slots => do
    let slots ← pushes ok 7 slots
    let nodes : Arr := ⟨none, 0, 0⟩
    let wild : Arr := ⟨none, 0, 0⟩
    let data := bufInit
    match ← malloc ok with
    | none => do
      bufFree data
      arrFree slots
      arrFree nodes
      arrFree wild
      pure none
    | some l => pure (some ⟨slots, nodes, wild, data, l, bufInit⟩)

/-- stringchunk.c 456-467, simpleht.c 179-183 -/
def chunkFree (c : Chunk) : M Unit := do
  arrFree c.slots
  arrFree c.nodes
  arrFree c.wild
  bufFree c.data
  bufFree c.strings
  free (some c.list)

/-- A part of a container that grows; with the flag: there is no room in the last block. -/
inductive Part where
  | slots | nodes | wild
  | data (need : Bool)
  | strings (need : Bool)
deriving DecidableEq, Repr

/-- stringchunk.c 70-129, simpleht.c 54-119: one of the parts grows -/
def chunkGrow (ok : Ok) (c : Chunk) : Part → M Chunk
  | .slots => do
    let (a, _) ← arrPush ok c.slots
    pure { c with slots := a }
  | .nodes => do
    let (a, _) ← arrPush ok c.nodes
    pure { c with nodes := a }
  | .wild => do
    let (a, _) ← arrPush ok c.wild
    pure { c with wild := a }
  | .data need => do
    let (b, _) ← bufAdd ok c.data need
    pure { c with data := b }
  | .strings need => do
    let (b, _) ← bufAdd ok c.strings need
    pure { c with strings := b }

/-- Whatever is added. -/
def chunkFill (ok : Ok) : List Part → Chunk → M Chunk
  | [], c => pure c
  | p :: ps, c => do
    let c ← chunkGrow ok c p
    chunkFill ok ps c

/-- Buffers that grow, each when it has its turn. -/
def bufsFill (ok : Ok) : List (Nat × Bool) → List Buf → M (List Buf)
  | [], bs => pure bs
  | (i, need) :: ns, bs =>
    match bs[i]? with
    | none => bufsFill ok ns bs
    | some b => do
      let (b, _) ← bufAdd ok b need
      bufsFill ok ns (bs.set i b)

/-- Buffers are given back. -/
def bufsFree : List Buf → M Unit
  | [] => pure ()
  | b :: bs => do
    bufFree b
    bufsFree bs

/-- hostscontainer.h, dynamichosts.c: the container, its mappings, its two tables -/
structure Hosts where
  block : Nat
  mappings : Chunk
  tables : List Buf
deriving DecidableEq, Repr

/-- hostscontainer.c 410-415, dynamichosts.c 25-32 -/
def hostsFree : Option Hosts → M Unit
  | none => pure ()
  | some x => do
    chunkFree x.mappings
    bufsFree x.tables
    free (some x.block)

/-- dynamichosts.c 41-103, hostscontainer.c 417-442: `opened`: the file can be opened; what its lines make grow is left open -/
def hostsLoad (ok : Ok) (cur : Option Hosts) (opened : Bool) (parts : List Part) (tables : List (Nat × Bool)) : M (Option Hosts) :=
  if opened then do
    match ← malloc ok with
    | none => pure cur
    | some b =>
      match ← chunkInit ok with
      | none => do
        free (some b)
        pure cur
      | some c => do
        let c ← chunkFill ok parts c
        let ts ← bufsFill ok tables [bufInit, bufInit]
        hostsFree cur
        pure (some ⟨b, c, ts⟩)
  else pure cur

/-- What a load of the hosts meets. -/
structure HostsLoad where
  opened : Bool
  parts : List Part
  tables : List (Nat × Bool)
deriving DecidableEq, Repr

/-- Load after load; at the end (dynamichosts.c 34-39) what is there is given back. -/
def hostsLife (ok : Ok) : List HostsLoad → Option Hosts → M Unit
  | [], cur => hostsFree cur
  | l :: ls, cur => do
    let cur ← hostsLoad ok cur l.opened l.parts l.tables
    hostsLife ok ls cur

/-- ipmisc.h, ipchunk.h: the mapping and the four buffers of its chunk -/
structure Ips where
  block : Nat
  bufs : List Buf
deriving DecidableEq, Repr

/-- ipmisc.c 165-174, ipchunk.c 222-228 -/
def ipsFree : Option Ips → M Unit
  | none => pure ()
  | some x => do
    bufsFree x.bufs
    free (some x.block)

/-- ipmisc.c 241-358, ipchunk.c 230-261: `wanted`: one of the options is set (254).  (`StringListIterator_Init` does not fail, so `EXIT_2` is never
reached, and `IPMisc_Init` does not fail.) -/
def ipsLoad (ok : Ok) (cur : Option Ips) (wanted : Bool) (grows : List (Nat × Bool)) : M (Option Ips) :=
  if wanted then do
    match ← malloc ok with
    | none => pure cur
    | some b => do
      let bs ← bufsFill ok grows [bufInit, bufInit, bufInit, bufInit]
      ipsFree cur
      pure (some ⟨b, bs⟩)
  else pure cur

/-- Load after load; at the end (ipmisc.c 176-180) what is there is given back. -/
def ipsLife (ok : Ok) : List (Bool × List (Nat × Bool)) → Option Ips → M Unit
  | [], cur => ipsFree cur
  | (w, gs) :: ls, cur => do
    let cur ← ipsLoad ok cur w gs
    ipsLife ok ls cur

/-- filter.c: the list of the disabled domains -/
structure Filter where
  block : Nat
  chunk : Chunk
deriving DecidableEq, Repr

/-- filter.c 207-214 -/
def filterFree : Option Filter → M Unit
  | none => pure ()
  | some x => do
    chunkFree x.chunk
    free (some x.block)

/-- stringchunk.c 469-490 `InitChunk`: `none` inside: there is still none, it failed -/
def initChunk (ok : Ok) : Option Filter → M (Option Filter)
  | some x => pure (some x)
  | none => do
    match ← malloc ok with
    | none => pure none
    | some b =>
      match ← chunkInit ok with
      | none => do
        free (some b)
        pure none
      | some c => pure (some ⟨b, c⟩)

/-- filter.c 42-66, 87-124: what is added -/
def filterFill (ok : Ok) (parts : List Part) : Option Filter → M (Option Filter)
  | none => pure none
  | some x => do
    let c ← chunkFill ok parts x.chunk
    pure (some { x with chunk := c })

/-- What a load of the disabled domains meets: `DisabledDomain` and `DisabledList`, if they are set, with what they make grow. -/
structure FilterLoad where
  domains : Option (List Part)
  files : Option (List Part)
deriving DecidableEq, Repr

/-- filter.c 68-85: `none`: it fails -/
def filterDomains (ok : Ok) (l : FilterLoad) : M (Option (Option Filter)) :=
  match l.domains with
  | none => pure (some none)
  | some parts => do
    match ← initChunk ok none with
    | none => pure none
    | some x => do
      let x ← filterFill ok parts (some x)
      pure (some x)

/-- filter.c 216-244 with 126-153: if the chunk for the files cannot be made, `StringChunk_Free` follows a NULL pointer -/
def filterLoad (ok : Ok) (cur : Option Filter) (l : FilterLoad) : M (Option Filter) := do
  match ← filterDomains ok l with
  | none => pure cur
  | some tmp =>
    match l.files with
    | none => do
      filterFree cur
      pure tmp
    | some parts => do
      match ← initChunk ok tmp with
      | none => crash
      | some x => do
        let x ← filterFill ok parts (some x)
        filterFree cur
        pure x

/-- Load after load, and at the end what is there is given back. -/
def filterLife (ok : Ok) : List FilterLoad → Option Filter → M Unit
  | [], cur => filterFree cur
  | l :: ls, cur => do
    let cur ← filterLoad ok cur l
    filterLife ok ls cur

/-- mmgr.c 55-70: a map of the server groups: the distributor, the groups, the list of the groups (the groups' own blocks are above) -/
structure Map where
  block : Nat
  dist : Filter
  groups : Nat
  buf : Buf
  list : Nat
  arr : Arr
deriving DecidableEq, Repr

/-- mmgr.c 578-600 `Modules_Free` -/
def mapFree : Option Map → M Unit
  | none => pure ()
  | some m => do
    bufFree m.buf
    free (some m.groups)
    arrFree m.arr
    free (some m.list)
    chunkFree m.dist.chunk
    free (some m.dist.block)
    free (some m.block)

/-- What growing a map of groups is about. -/
inductive MapPart where
  | dist (p : Part)
  | groups (need : Bool)
  | list
deriving DecidableEq, Repr

/-- mmgr.c 20-575: what the options and the group files make grow -/
def mapFill (ok : Ok) : List MapPart → Map → M Map
  | [], m => pure m
  | .dist p :: ps, m => do
    let c ← chunkGrow ok m.dist.chunk p
    mapFill ok ps { m with dist := { m.dist with chunk := c } }
  | .groups need :: ps, m => do
    let (b, _) ← bufAdd ok m.buf need
    mapFill ok ps { m with buf := b }
  | .list :: ps, m => do
    let (a, _) ← arrPush ok m.arr
    mapFill ok ps { m with arr := a }

/-- What a load of the groups meets: what grows, and if `Modules_Init` succeeds. -/
structure MapLoad where
  parts : List MapPart
  good : Bool
deriving DecidableEq, Repr

/-- mmgr.c 654-731 `Modules_Load`.  The fields of the new map are not set when it is made: if the distributor or the groups cannot be made,
`Modules_Free` follows pointers that were never set (681, 688).  The thread that frees the old map (`Modules_SafeCleanup`, 602-652) is taken to
run at once. -/
def mapLoad (ok : Ok) (cur : Option Map) (l : MapLoad) : M (Option Map) := do
  match ← malloc ok with
  | none => pure cur
  | some b =>
    match ← initChunk ok none with
    | none => crash
    | some d =>
      match ← malloc ok with
      | none => crash
      | some g =>
        match ← malloc ok with
        | none => do
          bufFree bufInit
          free (some g)
          chunkFree d.chunk
          free (some d.block)
          free (some b)
          pure cur
        | some a => do
          let m ← mapFill ok l.parts ⟨b, d, g, bufInit, a, ⟨none, 0, 0⟩⟩
          if l.good then do
            mapFree cur
            pure (some m)
          else do
            mapFree (some m)
            pure cur

/-- Load after load, and at the end (mmgr.c 733-740) what is there is given back. -/
def mapLife (ok : Ok) : List MapLoad → Option Map → M Unit
  | [], cur => mapFree cur
  | l :: ls, cur => do
    let cur ← mapLoad ok cur l
    mapLife ok ls cur

end Verif.Memory
