import Verif.Spec.Hosts
/-! C25: what becomes of any well-formed query, whatever its questions, its answers and the room for the reply. -/

namespace Verif.Hosts
open Message Name

/-- What becomes of a query. -/
inductive Fate where
  /-- It is answered with a refusal. -/
  | refused
  /-- It goes on to the cache and the servers. -/
  | passes
  /-- It is handed to the alias worker. -/
  | redirected
  /-- It is answered with one record of these data. -/
  | replies (rd : List Byte)
  /-- Memory behind the buffer is written to. -/
  | undefined

/-- The length of the query without authority and additional records. -/
def kept (q : Msg) : Nat := 12 + (qBytes q.qs).length + (rrBytes q.an).length

/-- What becomes of the query `q` for `name` and `qtype` by one set of entries; `room` bytes are free behind the query.  The record needs 13 bytes besides its data, the EDNS record 11. -/
inductive Ends (fnm : List Byte → List Byte → Bool) (goodIp : List Byte → Option (List Byte)) (es : List Entry) (name : List Byte) (qtype : Nat) (edns : Bool)
    (q : Msg) (room : Nat) : Fate → Prop where
  | redirects (h : Redirects fnm es name qtype) : Ends fnm goodIp es name qtype edns q room .redirected
  | silent (h : Silent fnm es name qtype) : Ends fnm goodIp es name qtype edns q room .passes
  /-- The query is copied behind itself without a check. -/
  | long (e : Entry) (h : AnswersBy fnm es name qtype e) (hr : room < kept q) : Ends fnm goodIp es name qtype edns q room .undefined
  /-- A query with answer records is not answered. -/
  | answered (e : Entry) (h : AnswersBy fnm es name qtype e) (hr : kept q ≤ room) (ha : q.an ≠ []) : Ends fnm goodIp es name qtype edns q room .passes
  /-- The list the entry refers to does not exist or is empty. -/
  | noList (e : Entry) (t : List Byte) (h : AnswersBy fnm es name qtype e) (hr : kept q ≤ room) (ht : e.type = .goodIpList) (hd : e.data = .text t) (hg : goodIp t = none) :
      Ends fnm goodIp es name qtype edns q room .passes
  /-- There is not even room for the record without its data, or the alias, whose length is checked, does not fit, or the EDNS record does not. -/
  | full (e : Entry) (rd : List Byte) (h : AnswersBy fnm es name qtype e) (hd : RData goodIp qtype e rd) (hr : kept q ≤ room) (ha : q.an = [])
      (hf : room < kept q + 13 ∨ (qtype = 5 ∧ room < kept q + 13 + rd.length) ∨
        (kept q + 13 + rd.length ≤ room ∧ room < kept q + 13 + rd.length + (if edns then 11 else 0))) : Ends fnm goodIp es name qtype edns q room .passes
  /-- The address is copied without a check. -/
  | overrun (e : Entry) (rd : List Byte) (h : AnswersBy fnm es name qtype e) (hd : RData goodIp qtype e rd) (ha : q.an = []) (h5 : qtype ≠ 5)
      (hr : kept q + 13 ≤ room) (hf : room < kept q + 13 + rd.length) : Ends fnm goodIp es name qtype edns q room .undefined
  | replies (e : Entry) (rd : List Byte) (h : AnswersBy fnm es name qtype e) (hd : RData goodIp qtype e rd) (ha : q.an = [])
      (hr : kept q + 13 + rd.length + (if edns then 11 else 0) ≤ room) : Ends fnm goodIp es name qtype edns q room (.replies rd)

/-- What becomes of the query by the static entries `es` and the dynamic ones `ed`, in that order. -/
inductive Decides (block : Bool) (fnm : List Byte → List Byte → Bool) (goodIp : List Byte → Option (List Byte)) (es ed : List Entry) (name : List Byte) (qtype : Nat)
    (edns : Bool) (q : Msg) (room : Nat) : Fate → Prop where
  | refused (hb : block = true) (ht : qtype = 28) (h : Has fnm es name .a ∨ Has fnm ed name .a ∨ Has fnm es name .goodIpList ∨ Has fnm ed name .goodIpList) :
      Decides block fnm goodIp es ed name qtype edns q room .refused
  | excluded (hb : ¬ (block = true ∧ qtype = 28 ∧ (Has fnm es name .a ∨ Has fnm ed name .a ∨ Has fnm es name .goodIpList ∨ Has fnm ed name .goodIpList)))
      (h : Has fnm es name .excluded ∨ Has fnm ed name .excluded) : Decides block fnm goodIp es ed name qtype edns q room .passes
  | static (f : Fate) (hb : ¬ (block = true ∧ qtype = 28 ∧ (Has fnm es name .a ∨ Has fnm ed name .a ∨ Has fnm es name .goodIpList ∨ Has fnm ed name .goodIpList)))
      (hx : ¬ (Has fnm es name .excluded ∨ Has fnm ed name .excluded)) (h : Ends fnm goodIp es name qtype edns q room f) (hf : f ≠ .passes) :
      Decides block fnm goodIp es ed name qtype edns q room f
  | dynamic (f : Fate) (hb : ¬ (block = true ∧ qtype = 28 ∧ (Has fnm es name .a ∨ Has fnm ed name .a ∨ Has fnm es name .goodIpList ∨ Has fnm ed name .goodIpList)))
      (hx : ¬ (Has fnm es name .excluded ∨ Has fnm ed name .excluded)) (h : Ends fnm goodIp es name qtype edns q room .passes)
      (h' : Ends fnm goodIp ed name qtype edns q room f) : Decides block fnm goodIp es ed name qtype edns q room f

end Verif.Hosts
