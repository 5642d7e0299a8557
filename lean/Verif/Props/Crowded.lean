import Verif.Props.Progress
/-! C110, C65, C08: well-formed traffic alone brings the program down.  A server's well-formed response fills the cache with more than
the buffer of the next query for the name has room for; the answer from the cache is written past its end. -/

namespace Verif.Forwarder
open Msg MContext Pipeline HostsLoop HostsLoop.Spec Keeps Message Name DnsCache DnsCache.Spec Cache.Spec Hosts

/-- `ProperQuery`, whatever the cache holds. -/
def PlainQuery {Addr : Type} (e : Env) (st : St Addr) (b : List Byte) (len : Nat) (x : Luck) : Prop :=
  ∃ (q : Message.Msg) (y : Question) (ls : List (List Byte)) (post : List Byte), Hosts.Asks q y ls ∧ b = q.bytes ++ post ∧ len = q.bytes.length ∧ len ≤ x.fuel ∧
    len + 279 ≤ post.length ∧ post.length < 16384 ∧ st.base + e.groups.modules.length ≤ st.mods.length ∧ (e.ap = true → HasEdns q ∨ q.ar = [])

/-- C110, the claim for well-formed traffic of any amount: after a history of well-formed messages, a well-formed query is processed. -/
def AnyContents : Prop := ∀ (s : Settings) (st st' : St Nat) (l : List (Env × Ev Nat)) (acts : List (Act Nat)) (e : Env) (sock c : Nat) (agent b : List Byte) (len : Nat) (x : Luck),
  Area s.cfg → Start st → (∃ st0, st.cache = Cache.St.init s.cfg st0) → ProperRun s st l → run st l = some (st', acts) → SoundEnv s e → PlainQuery e st' b len x →
  step e st' (.udpQuery sock c agent b len x) ≠ none

/-- Two texts of 150 bytes for `ms.com`. -/
def crTexts : List RR := [⟨wire ms, 16, 1, 60, 149 :: List.replicate 149 65⟩, ⟨wire ms, 16, 1, 60, 149 :: List.replicate 149 66⟩]
def crReply : Message.Msg := ⟨[3, 4, 0x81, 0x80], [⟨wire ms, 16, 1⟩], crTexts, [], []⟩
def crQuery (a b : UInt8) : Message.Msg := ⟨[a, b, 1, 0], [⟨wire ms, 16, 1⟩], [], [], []⟩
def crAsk (c : Nat) (q : List Byte) : Ev Nat := .udpQuery 1 c [] (q ++ List.replicate 320 0) q.length pgLuck
def crSays : Ev Nat := .response 0 (crReply.bytes ++ []) crReply.bytes.length 400 [] (fun _ => 1001)

def cr0 : St Nat := ((step exEnv exSt both).getD (exSt, [])).1
def cr1 : St Nat := ((step exEnv cr0 (crAsk 8 (crQuery 3 4).bytes)).getD (exSt, [])).1
def cr2 : St Nat := ((step exEnv cr1 crSays).getD (exSt, [])).1

theorem cr_asks (a b : UInt8) : Hosts.Asks (crQuery a b) ⟨wire ms, 16, 1⟩ ms :=
  ⟨plainValid _ _ _ _ [] msName (by simp) (by simp), rfl, rfl, rfl, alNames.2, rfl⟩

theorem crEnv_sound : SoundEnv DnsCache.exS exEnv :=
  ⟨rfl, ⟨[], [], rfl, rfl, by simp [Targets], by simp [Targets]⟩, by simp [exEnv], by simp [exEnv]⟩

theorem crReply_ok : Answer crReply ms [] where
  valid := plainValid _ _ _ _ [] msName (by decide) (by
        intro r hr
        simp only [List.append_nil, crTexts, List.mem_cons, List.not_mem_nil, or_false] at hr
        rcases hr with rfl | rfl <;> exact ⟨msName, by decide, by decide, by decide, by decide, by decide, by simp⟩)
  one := ⟨_, rfl, rfl⟩
  name := ⟨_, denotes_wire (by decide) (by unfold At; decide +kernel) (by decide +kernel)⟩
  short := by decide
  noZero := by decide

theorem crReply_says : Response crReply [⟨ms, 16, 60, .raw (149 :: List.replicate 149 65)⟩, ⟨ms, 16, 60, .raw (149 :: List.replicate 149 66)⟩] := by
  refine ⟨crReply_ok.valid, by simp [crReply], ?_⟩
  refine .cons (f := ⟨ms, 16, 60, .raw _⟩) ⟨rfl, rfl, rfl, alNames.2, ⟨_, denotes_wire (by decide) (by unfold At; decide +kernel) (by decide +kernel)⟩, by simp, rfl, by simp⟩ (by simp [Cached])
    (.cons (f := ⟨ms, 16, 60, .raw _⟩) ⟨rfl, rfl, rfl, alNames.2, ⟨_, denotes_wire (by decide) (by unfold At; decide +kernel) (by decide +kernel)⟩, by simp, rfl, by simp⟩ (by simp [Cached]) (.nil _))

/-- Client 8 asks for the texts of `ms.com`, gets the server's answer, client 9 asks the same. -/
theorem anyContents_false : ¬ AnyContents := by
  intro h
  have hs := crEnv_sound
  obtain ⟨a0, s0⟩ : ∃ a, step exEnv exSt both = some (cr0, a) := ⟨_, step_get (by decide +kernel)⟩
  obtain ⟨a1, s1⟩ : ∃ a, step exEnv cr0 (crAsk 8 (crQuery 3 4).bytes) = some (cr1, a) := ⟨_, step_get (by decide +kernel)⟩
  obtain ⟨a2, s2⟩ : ∃ a, step exEnv cr1 crSays = some (cr2, a) := ⟨_, step_get (by decide +kernel)⟩
  have hrun : run exSt [(exEnv, both), (exEnv, crAsk 8 (crQuery 3 4).bytes), (exEnv, crSays)] = some (cr2, a0 ++ (a1 ++ (a2 ++ []))) := by
    unfold run; rw [s0]; dsimp only
    unfold run; rw [s1]; dsimp only
    unfold run; rw [s2]; dsimp only
    unfold run; rfl
  have hproper : ProperRun DnsCache.exS exSt [(exEnv, both), (exEnv, crAsk 8 (crQuery 3 4).bytes), (exEnv, crSays)] := by
    refine properRun_step hs trivial s0 (properRun_step hs ?_ s1 (properRun_step hs ?_ s2 trivial))
    · refine ⟨crQuery 3 4, _, ms, List.replicate 320 0, asksAll_one (cr_asks 3 4), rfl, rfl, by decide +kernel, ?_, ?_, by decide +kernel,
        fun _ _ => fits_here (by decide +kernel) (vs := []) (by decide +kernel) (nothing_fits ?_), by simp [exEnv]⟩
      · rw [List.length_replicate]; decide +kernel
      · rw [List.length_replicate]; decide
      · rw [List.length_replicate]; decide +kernel
    · exact ⟨by decide +kernel, crReply, [], answerAll_one crReply_ok, rfl, rfl, by decide +kernel, by simp [exEnv],
        fun r' hp => by
          rcases hp with ⟨_, rfl⟩ | ⟨c, hc, _⟩
          · exact ⟨_, crReply_says, by simp; unfold Simple; decide⟩
          · simp [exEnv] at hc⟩
  refine h DnsCache.exS exSt cr2 _ _ exEnv 1 9 [] ((crQuery 5 6).bytes ++ List.replicate 320 0) (crQuery 5 6).bytes.length pgLuck Cache.demo_area ⟨rfl, rfl, rfl, rfl⟩ ⟨_, rfl⟩
    hproper hrun hs ⟨crQuery 5 6, _, ms, List.replicate 320 0, cr_asks 5 6, rfl, rfl, by decide +kernel, ?_, ?_, by decide +kernel, by simp [exEnv]⟩ ?_
  · rw [List.length_replicate]; decide +kernel
  · rw [List.length_replicate]; decide
  · have hn : (step exEnv cr2 (.udpQuery 1 9 [] ((crQuery 5 6).bytes ++ List.replicate 320 0) (crQuery 5 6).bytes.length pgLuck)).isNone = true := by decide +kernel
    exact Option.isNone_iff_eq_none.1 hn

end Verif.Forwarder
