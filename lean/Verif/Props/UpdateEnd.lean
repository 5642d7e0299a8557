import Verif.Props.Update
import Verif.Props.EndToEndAll
/-! C126: queries after updates. -/

namespace Verif.EndToEnd
open Config ReadLine Startup Forwarder Msg Message Name Hosts HostsLoop Pipeline

variable {Addr : Type}

/-- C126.  After the updates that are due a query of a client is treated as the options say, with the files as they are then (`SourcesAfter`), whatever was in
force before and whatever happened since.  Missing: as for `updated_partial` and `in_force_all`. -/
theorem treated_after_partial {w : World} {path dir : List Byte} (hh : Home w dir) {ss : List (List Byte)} {last : List Byte} {E : Nat} (hf : FileFits w path dir ss last E)
    {ws : List World}
    (hw : ∀ ts tab, Seen 2048 (ss ++ [last]) ts → Reads (w.expand (dir ++ str "/") (directoryOf path)) (table dir) ts tab → ∀ v ∈ w :: ws, Readable v tab ∧
      ∀ ps, Holds tab "IPSubstitutingFile" (.path ps) → ∀ p ∈ ps, ∀ content, (v.expandTo p).bind v.file = some content → TextOk 512 content)
    {e : Env} (h : ((environment w path).bind fun c => live w c ws) = .some e) :
    ∃ ts tab us cfg, Seen 2048 (ss ++ [last]) ts ∧ Reads (w.expand (dir ++ str "/") (directoryOf path)) (table dir) ts tab ∧ Due w tab ws us ∧
      SourcesAfter w us tab cfg ∧
      ∀ (e0 : Env) (st0 st st' : St Addr) (head : Head Addr) (l k : List (Env × Ev Addr)) (a0 acts : List (Act Addr)) (c : Client Addr) (q : Message.Msg)
        (names : List (List (List Byte))) (ls : List (List Byte)) (post agent : List Byte) (x : Luck) (d : List Byte) (t : Nat),
        (∀ ev ∈ k, ∀ ps h, ev.2 ≠ .reload ps h) → run st0 (l ++ (e0, .reload e.groups.modules head) :: k) = .some (st, a0) → Asks q names ls post →
        asked q.qs names = .some (d, t) → d ≠ [] → step e st (asking c q post agent x) = .some (st', acts) → TreatedAll e cfg c q d t ls post x st st' acts := by
  obtain ⟨-, ts, tab, us, cfg, -, h1, h2, h3, h4, h5, -⟩ := updated_partial hh hf hw h
  exact ⟨ts, tab, us, cfg, h1, h2, h3, h4, fun e0 st0 st st' head l k a0 acts c q names ls post agent x d t hk hr hq ha hd hs => in_force_all h5 hr hk hq ha hd hs⟩

/-- A case that meets the hypotheses: after two updates, and the exchange of the groups, the query with two questions leaves for the default group. -/
example : ((environment (hostsWorld none) (str "/root/.dnsforwarder/config")).bind fun c =>
      (live (hostsWorld none) c [hostsWorld (.some (str "@@ c")), hostsWorld none]).bind fun e =>
        (run exSt ([.reload e.groups.modules noHead, .sweep 0 1000].map fun ev => (e, ev))).bind fun s =>
          (step e s.1 (asking (.some 8, 1) bothQ (List.replicate 300 0) [] exLuck)).map (·.2)) = .some [.server 0 bothQ.bytes] := by decide +kernel

end Verif.EndToEnd
