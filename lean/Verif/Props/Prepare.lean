import Verif.Model.Prepare
import Verif.Spec.Startup
/-! C137: what the option `-p` does. -/

namespace Verif.Prepare
open Startup

theorem args_prepare (rest : List (List Byte)) : ∀ (as : List Arg) (o : Flags) (unknown : List (List Byte)), (∀ a ∈ as, a.Ok) →
    args o unknown (as.flatMap Arg.words ++ str "-p" :: rest) = .prepare := by
  intro as
  induction as with
  | nil =>
    intro o unknown _
    rw [List.flatMap_nil, List.nil_append, args.eq_def]; dsimp only; rw [if_neg (by decide), if_neg (by decide), if_neg (by decide), if_neg (by decide), if_neg (by decide), if_pos rfl]
  | cons a as ih =>
    intro o unknown hok
    have ih := fun o u => ih o u (fun a ha => hok a (List.mem_cons_of_mem _ ha))
    have ha := hok a (List.mem_cons_self ..)
    rw [List.flatMap_cons, List.append_assoc]
    cases a with
    | quiet => rw [Arg.words, List.cons_append, List.nil_append, args.eq_def]; dsimp only; rw [if_neg (by decide), if_pos rfl]; exact ih _ _
    | debug => rw [Arg.words, List.cons_append, List.nil_append, args.eq_def]; dsimp only; rw [if_neg (by decide), if_neg (by decide), if_pos rfl]; exact ih _ _
    | daemon =>
      rw [Arg.words, List.cons_append, List.nil_append, args.eq_def]; dsimp only; rw [if_neg (by decide), if_neg (by decide), if_neg (by decide), if_pos rfl]; exact ih _ _
    | file p =>
      rw [Arg.words, List.cons_append, List.cons_append, List.nil_append, args.eq_def]; dsimp only; rw [if_neg (by decide), if_neg (by decide), if_neg (by decide), if_neg (by decide), if_pos rfl]
      exact ih _ _
    | other w =>
      simp only [Arg.Ok, List.mem_cons, List.not_mem_nil, or_false, not_or] at ha
      obtain ⟨h1, h2, h3, h4, h5, h6⟩ := ha
      rw [Arg.words, List.cons_append, List.nil_append, args.eq_def]; dsimp only; rw [if_neg h1, if_neg h2, if_neg h3, if_neg h4, if_neg h5, if_neg h6]
      exact ih _ _

/-- C137: whatever is written before and behind `-p`, the program makes the directory `.dnsforwarder` in the home directory, in which
only the user may make files, tells where to put the configuration file, says why if the directory cannot be made, and ends; and the
file so named is the one that is read if the program is started without `-f`.  Missing: long names of home directories, see
`Reads`. -/
theorem prepared_partial {home : List Byte} (hh : home.length ≤ 298) {as : List Arg} (hok : ∀ a ∈ as, a.Ok) (rest : List (List Byte)) (error : Option (List Byte)) :
    ∃ acts mode, program (some (some home)) error (as.flatMap Arg.words ++ str "-p" :: rest) = some acts ∧
      (∀ p m, Act.mkdir p m ∈ acts ↔ p = home ++ str "/.dnsforwarder" ∧ m = mode) ∧
      mode.getLsbD 8 = true ∧ mode.getLsbD 7 = true ∧ mode.getLsbD 6 = true ∧ mode.getLsbD 4 = false ∧ mode.getLsbD 1 = false ∧
      acts.getLast? = some (.print (str "Please put configure file into `" ++ (home ++ str "/.dnsforwarder") ++ str "' and rename it to `config'.\n")) ∧
      (∀ e, error = some e → ∃ a b, Act.print (a ++ e ++ b) ∈ acts) ∧
      defaultFile (some (some home)) = some (home ++ str "/.dnsforwarder" ++ str "/config") := by
  have hlen : (home ++ str "/.dnsforwarder").length = home.length + 14 := by rw [List.length_append]; rfl
  have hp : program (some (some home)) error (as.flatMap Arg.words ++ str "-p" :: rest) = some ([.mkdir (home ++ str "/.dnsforwarder") 0b111100100] ++
      (match error with
        | none => []
        | some e => [.print (str "mkdir : " ++ (home ++ str "/.dnsforwarder") ++ str " failed : " ++ e ++ str "\n")]) ++
      [.print (str "Please put configure file into `" ++ (home ++ str "/.dnsforwarder") ++ str "' and rename it to `config'.\n")]) := by
    unfold program
    rw [args_prepare rest as noFlags [] hok]
    simp only [prepare, configDir]
    rw [if_pos (by omega)]
    cases error <;> rfl
  refine ⟨_, 0b111100100, hp, ?_, by decide, by decide, by decide, by decide, by decide, ?_, ?_, ?_⟩
  · intro p m
    cases error with
    | none => simp
    | some e => simp
  · rw [List.getLast?_concat]
  · rintro e rfl
    exact ⟨str "mkdir : " ++ (home ++ str "/.dnsforwarder") ++ str " failed : ", str "\n", by simp⟩
  · simp only [defaultFile, configDir]
    rw [if_pos (by omega)]

/-- A user named `u`, who writes `-q -p`. -/
example : (str "/home/u").length ≤ 298 ∧ program (some (some (str "/home/u"))) none [str "-q", str "-p"] =
    some [.mkdir (str "/home/u/.dnsforwarder") 0b111100100,
      .print (str "Please put configure file into `/home/u/.dnsforwarder' and rename it to `config'.\n")] := by decide +kernel

/-- The directory exists. -/
example : (program (some (some (str "/home/u"))) (some (str "File exists")) [str "-p"]).map (·.drop 1) =
    some [.print (str "mkdir : /home/u/.dnsforwarder failed : File exists\n"),
      .print (str "Please put configure file into `/home/u/.dnsforwarder' and rename it to `config'.\n")] := by decide +kernel

/-! ### what is not so -/

/-- C137, the last part without a bound: whoever has put the configuration file where the program said can start it. -/
def Reads : Prop := ∀ (home : List Byte) (acts : List Act), program (some (some home)) none [str "-p"] = some acts →
  defaultFile (some (some home)) = some (home ++ str "/.dnsforwarder" ++ str "/config")

/-- False of the code: the directory is made in a buffer of 2048 bytes, the name of the file in one of 320. -/
theorem reads_false : ¬ Reads := by
  intro h
  have h1 : (program (some (some (List.replicate 299 97))) none [str "-p"]).isSome = true := by decide +kernel
  obtain ⟨acts, h1⟩ := Option.isSome_iff_exists.1 h1
  have := h _ acts h1
  rw [show defaultFile (some (some (List.replicate 299 97))) = none by decide +kernel] at this
  cases this

/-- C137 for all users: `-p` does what it should. -/
def Prepares : Prop := ∀ home : Option (Option (List Byte)), (program home none [str "-p"]).isSome = true

/-- False of the code: a user without an entry in the table of users. -/
theorem prepares_false : ¬ Prepares := fun h => by
  have := h none
  revert this
  decide +kernel

/-- Without a home directory an empty name is given to the system, and the file is looked for at the root. -/
example : program (some none) none [str "-p"] = some [.mkdir [] 0b111100100, .print (str "Please put configure file into `' and rename it to `config'.\n")] ∧
    defaultFile (some none) = some (str "/config") := by decide +kernel

end Verif.Prepare
