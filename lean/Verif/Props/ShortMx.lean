import Verif.Props.DnsCache
/-! C65, C34: what a server can do to later queries by a mail record that is too short. -/

namespace Verif.DnsCache
open Message Name Parser Generator Spec
open Verif.Cache Verif.Cache.Spec

/-- C65, the claim: whatever servers have sent before, a query that has plenty of room behind it is answered from the cache, or not,
but no memory outside of what is kept is read. -/
def DefinedAlways : Prop := ∀ (s : Settings) (evs : List Event) (ops : List Op) (st : St) (now : Int) (m : Verif.Msg.Ctx Unit) (q : Message.Msg),
  Area s.cfg → history s evs = some ops → After s.cfg ops st → q.Valid → m.entity = q.bytes →
  fetch s.cfg st (List.replicate 2000 0) 2000 now m ≠ none

/-- A response about the mail servers of `a.com` that ends behind the preference. -/
def shortR : Message.Msg := ⟨[0x12, 0x34, 0x81, 0x80], [⟨wire [str "a", str "com"], 15, 1⟩], [⟨[0xC0, 12], 15, 1, 300, [0, 10]⟩], [], []⟩

def shortEv : List Event := [.response shortR.bytes shortR.bytes.length 50 (str "a.com") [] (fun _ => 1000) true]

def shortOps : List Op := [.add (str "a.com F 1") [0, 10] 300 1000]

theorem shortHistory : history exS shortEv = some shortOps := by decide +kernel

def shortSt : St := (run smallCfg (St.init smallCfg blank) shortOps).getD blank

theorem shortAfter : After exS.cfg shortOps shortSt := by
  refine ⟨blank, ?_⟩
  have h : (run smallCfg (St.init smallCfg blank) shortOps).isSome = true := by decide +kernel
  obtain ⟨x, hx⟩ := Option.isSome_iff_exists.1 h
  show run smallCfg (St.init smallCfg blank) shortOps = some shortSt
  unfold shortSt
  rw [hx]; rfl

/-- C65 is false of such a response: the next query for the mail servers of the name makes the program take whatever is behind the
entry of the cache for the name of a server. -/
theorem defined_always_false : ¬ DefinedAlways := by
  intro h
  have hv : (ask [str "a", str "com"] 15).Valid := by
    refine ⟨rfl, ?_, by simp [ask], by simp [ask], by simp [ask], by decide, by decide, by decide, by decide⟩
    intro q hq
    simp [ask] at hq; subst hq
    exact ⟨.label (str "a") _ (by decide) (by decide) (.label (str "com") _ (by decide) (by decide) .root),
      by decide, by decide, by decide, by decide⟩
  exact h exS shortEv shortOps shortSt 1020 (asker (ask [str "a", str "com"] 15)) (ask [str "a", str "com"] 15) ⟨by decide, by decide⟩
    shortHistory shortAfter hv rfl (by decide +kernel)

end Verif.DnsCache
