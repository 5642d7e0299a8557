import Verif.Spec.Folder
import Verif.Props.Startup
/-! C138: what `${PROGRAMDIRECTORY}` and `${CONFIGFILEDIRECTORY}` are in the paths of the configuration file. -/

namespace Verif.Startup
open Config ReadLine

/-- Every file has one folder. -/
theorem folder_unique {path d e : List Byte} (hd : Folder path d) (he : Folder path e) : d = e := by
  have cut : ∀ {a b x y : List Byte}, a ++ x = b ++ y → a.getLast? = some 47 → b.getLast? = some 47 → (47 : Byte) ∉ x → (47 : Byte) ∉ y → a = b := by
    intro a b x y h ha hb hx hy
    rcases List.append_eq_append_iff.1 h with ⟨c, h1, h2⟩ | ⟨c, h1, h2⟩
    · rcases List.eq_nil_or_concat c with rfl | ⟨c, z, rfl⟩
      · simpa using h1.symm
      · rw [List.concat_eq_append] at h1 h2
        subst h1
        rw [← List.append_assoc, List.getLast?_concat] at hb
        cases hb
        exact absurd (by rw [h2]; simp) hx
    · rcases List.eq_nil_or_concat c with rfl | ⟨c, z, rfl⟩
      · simpa using h1
      · rw [List.concat_eq_append] at h1 h2
        subst h1
        rw [← List.append_assoc, List.getLast?_concat] at ha
        cases ha
        exact absurd (by rw [h2]; simp) hy
  obtain ⟨x, hx, h⟩ := hd
  obtain ⟨y, hy, k⟩ := he
  rcases h with ⟨h1, h2⟩ | ⟨h1, h2⟩
  · rcases k with ⟨k1, k2⟩ | ⟨k1, k2⟩
    · exact cut (h1.symm.trans k1) h2 k2 hx hy
    · exact absurd (show (47 : Byte) ∈ y by rw [← k1, h1]; exact List.mem_append_left _ (List.mem_of_getLast? h2)) hy
  · rcases k with ⟨k1, k2⟩ | ⟨k1, k2⟩
    · exact absurd (show (47 : Byte) ∈ x by rw [← h1, k1]; exact List.mem_append_left _ (List.mem_of_getLast? k2)) hx
    · rw [h2, k2]

theorem span_last (p : List Byte) : ∃ name, (47 : Byte) ∉ name ∧ p = (p.reverse.dropWhile (· != 47)).reverse ++ name ∧
    ((p.reverse.dropWhile (· != 47)).reverse = [] ∨ (p.reverse.dropWhile (· != 47)).reverse.getLast? = some 47) := by
  refine ⟨(p.reverse.takeWhile (· != 47)).reverse, ?_, ?_, ?_⟩
  · intro h
    have : ∀ {l : List Byte}, (47 : Byte) ∉ l.takeWhile (· != 47) := by
      intro l
      induction l with
      | nil => simp
      | cons c l ih =>
        rw [List.takeWhile_cons]
        split
        · rename_i hc
          intro hm
          rcases List.mem_cons.1 hm with rfl | hm
          · simp at hc
          · exact ih hm
        · simp
    exact this (List.mem_reverse.1 h)
  · rw [← List.reverse_append, List.takeWhile_append_dropWhile, List.reverse_reverse]
  · rw [List.getLast?_reverse]
    generalize p.reverse = q
    induction q with
    | nil => left; rfl
    | cons c q ih =>
      rw [List.dropWhile_cons]
      split
      · exact ih
      · rename_i hc
        right
        simpa using hc

theorem directory_folder {path : List Byte} (h : path.length < 1024) : Folder path (directoryOf path) := by
  obtain ⟨name, h1, h2, h3⟩ := span_last path
  unfold directoryOf
  rw [List.take_of_length_le (by omega)]
  dsimp only
  rcases h3 with h3 | h3
  · rw [h3]
    rw [h3, List.nil_append] at h2
    exact ⟨name, h1, .inr ⟨h2, rfl⟩⟩
  · refine ⟨name, h1, .inl ?_⟩
    generalize (path.reverse.dropWhile (· != 47)).reverse = d at h2 h3
    cases d with
    | nil => cases h3
    | cons c d => exact ⟨h2, h3⟩

/-- C138: the options have the values the lines of the file give them, paths being expanded with the user's folder
`.dnsforwarder` for `${PROGRAMDIRECTORY}` and the folder of the file itself for `${CONFIGFILEDIRECTORY}`, both with a slash at the
end.  Missing: files whose path has 1024 bytes or more (`folders_false`). -/
theorem folders_partial {w : World} {path dir : List Byte} {ss : List (List Byte)} {last : List Byte} {E : Nat} (hh : Home w dir)
    (hf : FileFits w path dir ss last E) (hp : path.length < 1024) :
    ∃ h d c ts tab, w.home = some (some h) ∧ Folder path d ∧ environment w path = some c ∧ Seen 2048 (ss ++ [last]) ts ∧
      Reads (w.expand (h ++ str "/.dnsforwarder/") d) (table (h ++ str "/.dnsforwarder")) ts tab ∧ ShowsTable c tab := by
  obtain ⟨c, ts, tab, h1, h2, h3, h4⟩ := options_partial hh hf
  obtain ⟨h, k1, rfl⟩ := hh.place
  refine ⟨h, _, c, ts, tab, k1, directory_folder hp, h1, h2, ?_, h4⟩
  have : h ++ str "/.dnsforwarder" ++ str "/" = h ++ str "/.dnsforwarder/" := by rw [List.append_assoc]; rfl
  rw [this] at h3
  exact h3

/-- Nothing else about the two variables matters. -/
def OnlyFolders : Prop := ∀ (w v : World) (path h d : List Byte), w.home = some (some h) → v = { w with expand := v.expand } → Folder path d →
  v.expand (h ++ str "/.dnsforwarder/") d = w.expand (h ++ str "/.dnsforwarder/") d → environment v path = environment w path

/-- C138, for every file whatever is in it: the configuration depends on the variables only through these two folders. -/
theorem only_folders_partial {w v : World} {path h d : List Byte} (hw : w.home = some (some h)) (hv : v = { w with expand := v.expand })
    (hd : Folder path d) (hp : path.length < 1024) (he : v.expand (h ++ str "/.dnsforwarder/") d = w.expand (h ++ str "/.dnsforwarder/") d) :
    environment v path = environment w path := by
  have hd := folder_unique hd (directory_folder hp)
  subst hd
  have hvh : v.home = some (some h) := by rw [hv]; exact hw
  have hvf : v.file = w.file := by rw [hv]
  have : h ++ str "/.dnsforwarder" ++ str "/" = h ++ str "/.dnsforwarder/" := by rw [List.append_assoc]; rfl
  unfold environment
  simp only [hw, hvh, hvf, configDir, this, he]

/-- A file far down: six folders with names of 200 letters. -/
def deep : List Byte := (List.replicate 6 (47 :: List.replicate 200 97)).flatten ++ [47]

/-- A file with a path in it. -/
def deepWorld (expand : List Byte → List Byte → List Byte → List Byte) : World :=
  { sampleWorld (str "/root") none with file := fun _ => some (str "CacheFile x"), expand := expand }

/-- C138 is false of the code for files with a longer path, of which only 1023 bytes are looked at. -/
theorem folders_false : ¬ OnlyFolders := by
  intro h
  have hf : Folder (deep ++ [99]) deep := ⟨[99], by decide, .inl ⟨rfl, by decide +kernel⟩⟩
  have h1 := h (deepWorld fun _ _ _ => str "/t") (deepWorld fun _ d _ => if d = deep then str "/t" else str "/f") (deep ++ [99]) (str "/root") deep rfl rfl hf
    (by simp only [deepWorld, if_true])
  have h2 : (environment (deepWorld fun _ _ _ => str "/t") (deep ++ [99])).bind (fun c => Config.getStrings c 4 (str "CacheFile")) = some [str "/t"] := by decide +kernel
  have h3 : (environment (deepWorld fun _ d _ => if d = deep then str "/t" else str "/f") (deep ++ [99])).bind (fun c => Config.getStrings c 4 (str "CacheFile")) =
    some [str "/f"] := by decide +kernel
  rw [h1, h2] at h3
  exact absurd h3 (by decide)

/-- The two folders, for a file given with `-f`, and one in the present folder. -/
example : Folder (str "/etc/dns/my.conf") (str "/etc/dns/") ∧ Folder (str "my.conf") (str "./") ∧
    (environment (deepWorld fun p c x => p ++ c ++ x) (str "/etc/dns/my.conf")).bind (fun c => Config.getStrings c 4 (str "CacheFile")) =
      some [str "/root/.dnsforwarder//etc/dns/x"] ∧
    (environment (deepWorld fun _ c x => c ++ x) (str "my.conf")).bind (fun c => Config.getStrings c 4 (str "CacheFile")) = some [str "./x"] :=
  ⟨⟨str "my.conf", by decide, .inl ⟨by decide, by decide⟩⟩, ⟨str "my.conf", by decide, .inr ⟨rfl, by decide⟩⟩, by decide +kernel, by decide +kernel⟩

/-- The hypotheses of `folders_partial` are met. -/
example : FileFits (sampleWorld (str "/root") (some (text [str "AP true"] []))) (str "/root/.dnsforwarder/config") (str "/root/.dnsforwarder") [str "AP true"] [] 0 ∧
    Home (sampleWorld (str "/root") (some (text [str "AP true"] []))) (str "/root/.dnsforwarder") ∧ (str "/root/.dnsforwarder/config").length < 1024 :=
  ⟨sample_fits, ⟨⟨str "/root", rfl, rfl⟩, by decide, by decide, by decide⟩, by decide⟩

end Verif.Startup
