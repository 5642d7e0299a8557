import Verif.Model.Forwarder
/-! What an event causes, apart from how full the program's tables are.  Only the state's fields are used. -/

namespace Verif.Forwarder

variable {Addr : Type}

/-- The servers' groups are numbered from the first one in force. -/
def Act.from (base : Nat) : Act Addr → Act Addr
  | .server i b => .server (i - base) b
  | .client s => .client s

/-- What was sent, what was handed to the alias worker, and what was handed to the worker of each group in force. -/
def caused (st st' : St Addr) (acts : List (Act Addr)) : List (Act Addr) × List (Head Addr) × List (List (Head Addr)) :=
  (acts.map (Act.from st.base), st'.inner.drop st.inner.length,
    List.zipWith (fun d' d => d'.inbox.drop d.inbox.length) (st'.mods.drop st.base) (st.mods.drop st.base))

/-- The same groups are in force and, if the cache is used, the cache holds the same. -/
def SameSetting (e : Pipeline.Env) (st1 st2 : St Addr) : Prop :=
  (st1.mods.drop st1.base).map (·.proto) = (st2.mods.drop st2.base).map (·.proto) ∧ (e.cacheOn = true → st1.cache = st2.cache)

end Verif.Forwarder
