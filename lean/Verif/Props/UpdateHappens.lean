import Verif.Props.Update
import Verif.Props.Starts
/-! C126: when an update can be done. -/

namespace Verif.Startup
open Config
open ReadLine (text Seen)

section
variable {w v : World} {dir : List Byte} {expand : List Byte → List Byte} {ts : List (List Byte)} {tab : Table} {c : Cfg}

/-- All groups of the configuration, with the group files as they are in `v`, can be set up. -/
def GroupsUp (v : World) (tab : Table) : Prop := ∀ r, Servers v tab r → ∃ gs, r = some gs ∧ ∀ g ∈ gs, v.up g.proto g.args = true

theorem update_some (hr : Reads expand (table dir) ts tab) (hs : ShowsTable c tab) (hp : Proper v tab) (e : Pipeline.Env)
    (hg : Holds tab "ReloadGroupFile" (.bool false) ∨ GroupsUp v tab) : ∃ e', update v c e = some e' := by
  have h1 : ∃ x, hostsAgain v c e.hosts.dynamic = some x := by
    obtain ⟨path, hpath⟩ := reads_path hr 24 (k := "HostsDownloadPath") rfl
    unfold hostsAgain getRaw
    rw [(shown_path hs hpath).1]
    cases path with
    | nil => exact absurd rfl (hp.download [] hpath)
    | cons f l =>
      dsimp only [Option.map_some, List.head?_cons]
      cases hf : v.file f with
      | none => exact ⟨_, rfl⟩
      | some content =>
        dsimp only
        obtain ⟨k1, k2⟩ := hp.dynamic f l content hpath hf
        obtain ⟨ls, hls⟩ := readFile_some (by omega) k1
        obtain ⟨es, k3⟩ := k2 ls (readFile_seen (by omega) hf k1 hls)
        obtain ⟨x, hx, -⟩ := Hosts.lines_taken k3
        rw [hls, Option.bind_some, hx]
        exact ⟨_, rfl⟩
  have h2 : ∃ x, domainsAgain v c e.filter.domains = some x := by
    obtain ⟨b, hb⟩ := reads_bool hr 29 (k := "ReloadDisabledList") rfl
    obtain ⟨doms, hdoms⟩ := reads_str hr 44 (k := "DisabledDomain") rfl
    obtain ⟨ps, hps⟩ := reads_path hr 45 (k := "DisabledList") rfl
    unfold domainsAgain
    rw [shown_bool hs hb]
    cases b with
    | false => exact ⟨_, rfl⟩
    | true =>
      dsimp only
      rw [(shown_str hs hdoms).2, (shown_path hs hps).2, Option.bind_some]
      obtain ⟨tss, k⟩ := linesOf_some (by omega) (hp.lists ps hps)
      have : ∃ x, within (linesOf v 512) (orNull ps) = some x := by
        unfold orNull within
        split <;> simp_all
      obtain ⟨x, hx⟩ := this
      rw [hx]
      exact ⟨_, rfl⟩
  have h3 : ∃ x, miscAgain v c (e.lists, e.blockNegative) = some x := by
    obtain ⟨b, hb⟩ := reads_bool hr 31 (k := "ReloadIPSubstituting") rfl
    unfold miscAgain
    rw [shown_bool hs hb]
    cases b with
    | false => exact ⟨_, rfl⟩
    | true =>
      obtain ⟨⟨l, b⟩, hm⟩ := misc_some hr hs hp
      dsimp only
      rw [hm]
      cases l <;> exact ⟨_, rfl⟩
  have h4 : ∃ x, groupsAgain v c e.groups = some x := by
    obtain ⟨b, hb⟩ := reads_bool hr 30 (k := "ReloadGroupFile") rfl
    unfold groupsAgain
    rw [shown_bool hs hb]
    cases b with
    | false => exact ⟨_, rfl⟩
    | true =>
      rcases hg with hg | hg
      · exact absurd (holds_inj hg hb) (by simp)
      · obtain ⟨conf, r, k1, k2, k3⟩ := groups_iff hr hs hp
        dsimp only
        rw [k1, Option.bind_some]
        exact k3.2 (hg r k2)
  obtain ⟨x1, h1⟩ := h1
  obtain ⟨x2, h2⟩ := h2
  obtain ⟨⟨x3, x4⟩, h3⟩ := h3
  obtain ⟨x5, h4⟩ := h4
  unfold update
  rw [h1, h2, h3, h4]
  exact ⟨_, rfl⟩

theorem updates_some (hr : Reads expand (table dir) ts tab) (hs : ShowsTable c tab) (ws : List World) (hp : ∀ v ∈ ws, Proper v tab)
    (hg : Holds tab "ReloadGroupFile" (.bool false) ∨ ∀ v ∈ ws, GroupsUp v tab) (e : Pipeline.Env) : ∃ e', updates c e ws = some e' := by
  induction ws generalizing e with
  | nil => exact ⟨_, rfl⟩
  | cons v ws ih =>
    obtain ⟨e1, h1⟩ := update_some hr hs (hp v (by simp)) e (hg.imp_right fun h => h v (by simp))
    unfold updates
    rw [h1, Option.bind_some]
    exact ih (fun u hu => hp u (by simp [hu])) (hg.imp_right fun h u hu => h u (by simp [hu])) e1

end

/-- C126: a program that has started goes on through any number of updates, whatever becomes of the files as long as they can be read as they should be, and of
the groups as long as they can be set up.  Missing: values and files of other forms; groups that cannot be set up. -/
theorem updates_done_partial {w : World} {path dir : List Byte} (hh : Home w dir) {ss : List (List Byte)} {last : List Byte} {E : Nat} (hf : FileFits w path dir ss last E)
    {ws : List World}
    (hw : ∀ ts tab, Seen 2048 (ss ++ [last]) ts → Reads (w.expand (dir ++ str "/") (directoryOf path)) (table dir) ts tab → (∀ v ∈ ws, Proper v tab) ∧
      (Holds tab "ReloadGroupFile" (.bool false) ∨ ∀ v ∈ ws, GroupsUp v tab))
    {r : Running} (h : (environment w path).bind (serve w) = some r) : ∃ e, ((environment w path).bind fun c => live w c ws) = some e := by
  obtain ⟨c, ts, tab, h1, h2, h3, h4⟩ := options_partial hh hf
  rw [h1, Option.bind_some] at h ⊢
  obtain ⟨k1, k2⟩ := hw ts tab h2 h3
  obtain ⟨b, hb, -⟩ := scheduled_iff (w := w) h3 h4
  obtain ⟨n, hn⟩ := reads_int h3 28 (k := "ModulesUpdateInterval") rfl
  unfold live
  rw [h, Option.bind_some, hb, shown_int h4 hn]
  cases b with
  | false => exact ⟨_, rfl⟩
  | true =>
    dsimp only
    split
    · exact updates_some h3 h4 _ (fun v hv => k1 v (List.mem_of_mem_take hv)) (k2.imp_right fun h v hv => h v (List.mem_of_mem_take hv)) _
    · exact updates_some h3 h4 _ k1 k2 _

/-- The hypotheses are met by a small file, with updates without downloaded hosts. -/
example (ts : List (List Byte)) (tab : Table) (h1 : Seen 2048 ([str "Hosts h"] ++ [[]]) ts)
    (h2 : Reads ((hostsWorld none).expand (str "/root/.dnsforwarder" ++ str "/") (directoryOf (str "/root/.dnsforwarder/config")))
      (table (str "/root/.dnsforwarder")) ts tab) :
    (∀ v ∈ [hostsWorld none, hostsWorld none], Proper v tab) ∧
      (Holds tab "ReloadGroupFile" (.bool false) ∨ ∀ v ∈ [hostsWorld none, hostsWorld none], GroupsUp v tab) := by
  have hk := hosts_kept ts tab h1 h2
  have hv : ∀ v ∈ [hostsWorld none, hostsWorld none], v = hostsWorld none := by simp
  refine ⟨fun v h => ?_, .inr fun v h r hs => ?_⟩
  · rw [hv v h]
    exact proper_defaults (dir := str "/root/.dnsforwarder") (by decide) fun i k o h => hk i k o h.2
  · rw [hv v h] at hs ⊢
    obtain ⟨g, rfl, -, -⟩ := default_servers hs (hk 5 "ServerGroup" _ (by decide) rfl)
    exact ⟨_, rfl, fun _ _ => rfl⟩

end Verif.Startup
