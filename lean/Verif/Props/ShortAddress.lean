import Verif.Props.HostsLoop
/-! C108: addresses whose data are shorter than an address. -/

namespace Verif.HostsLoop
open Message Name Parser Generator DnsCache DnsCache.Spec Spec Verif.Msg

/-- The reply is made from the query and the response, and not from what else is in the buffer behind the response. -/
def OnlyResponse : Prop :=
  ∀ (m : Ctx Nat) (cap id fuel : Nat) (r : Message.Msg) (rest rest' target : List Byte), r.Valid → r.qs ≠ [] → (∀ x ∈ r.an, x.klass = 1) → rest.length = rest'.length →
    combine m cap id (r.bytes ++ rest) r.bytes.length fuel target = combine m cap id (r.bytes ++ rest') r.bytes.length fuel target

/-- A response with an IPv4 address of no bytes. -/
def exEmpty : Message.Msg := ⟨[9, 9, 0x81, 0x80], [⟨wire exTg, 1, 1⟩], [⟨wire exTg, 1, 1, 300, []⟩], [], []⟩

theorem exEmpty_valid : exEmpty.Valid := by
  have w1 : Message.WireName (wire exTg) := .label [98] _ (by simp) (by simp) (.label [99] _ (by simp) (by simp) .root)
  refine ⟨rfl, ?_, ?_, by simp [exEmpty], by simp [exEmpty], by simp [exEmpty], by simp [exEmpty], by simp [exEmpty], by simp [exEmpty]⟩
  · intro q hq
    simp [exEmpty] at hq; subst hq
    exact ⟨w1, by decide, by decide, by decide, by decide⟩
  · intro q hq
    simp [exEmpty] at hq; subst hq
    exact ⟨w1, by decide, by decide, by decide, by decide, by decide, by decide⟩

/-- Four bytes are copied whatever the length of the data: the client is sent, as an address, what an earlier message left behind the response. -/
theorem onlyResponse_false : ¬ OnlyResponse := by
  intro h
  have := h { exHead with edns := false } 600 258 60 exEmpty [1, 2, 3, 4] [5, 6, 7, 8] (text exTg) exEmpty_valid (by simp [exEmpty]) (by decide) rfl
  revert this
  decide +kernel

/-- `combined_seen` says what is sent. -/
example : ∃ out : Message.Msg, combine { exHead with edns := false } 600 258 (exEmpty.bytes ++ [1, 2, 3, 4]) exEmpty.bytes.length 60 (text exTg) = some (some out.bytes) ∧
    Combined 258 ⟨wire [[97]], 1, 1⟩ false [⟨[[97]], 5, 60, .name exTg⟩, ⟨exTg, 1, 300, .raw [1, 2, 3, 4]⟩] exEmpty out := by
  have hs : Spec.Seen exEmpty.bytes [1, 2, 3, 4] (12 + (qBytes exEmpty.qs).length) exEmpty.an [⟨exTg, 1, 300, .raw [1, 2, 3, 4]⟩] := by
    refine .cons ⟨rfl, rfl, rfl, ⟨exNames.2.1, by decide, by unfold Simple; decide⟩, ⟨_, denotes_wire (by decide) (by unfold At; decide +kernel) (by decide)⟩, .inl ⟨rfl, rfl⟩,
      exEmpty.bytes, [], by simp, by decide +kernel⟩ (.nil _)
  cases hc : combine { exHead with edns := false } 600 258 (exEmpty.bytes ++ [1, 2, 3, 4]) exEmpty.bytes.length 60 (text exTg) with
  | none => exact absurd hc (by decide +kernel)
  | some res =>
    obtain ⟨out, rfl, h⟩ := combined_seen { exHead with edns := false } 600 258 _ 60 exEmpty [1, 2, 3, 4] [[97]] exTg _ res rfl exNames.1 (by simp) (by decide) exNames.2.1
      exEmpty_valid (by simp [exEmpty]) (Nat.le_refl _) hs (by decide) (by decide) hc
    exact ⟨out, rfl, h⟩

/-- The last four bytes of the two replies. -/
example : (combine { exHead with edns := false } 600 258 (exEmpty.bytes ++ [1, 2, 3, 4]) exEmpty.bytes.length 60 (text exTg)).map
    (·.map fun b => b.drop (b.length - 4)) = some (some [1, 2, 3, 4]) ∧
    (combine { exHead with edns := false } 600 258 (exEmpty.bytes ++ [5, 6, 7, 8]) exEmpty.bytes.length 60 (text exTg)).map
    (·.map fun b => b.drop (b.length - 4)) = some (some [5, 6, 7, 8]) := by decide +kernel

end Verif.HostsLoop
