import Verif.Lemmas.GroupsLoad
/-! Properties of the server groups (C24, C63). -/

namespace Verif.Groups
open StringChunk (IsPattern domainText Covers)

/-! ### Loading -/

/-- C63.  A configuration is loaded if and only if all its declarations are right and all the groups they stand for can be
started.  Missing: group files that `ReadLine` does not read as it should, or with more than 2000000 bytes (`FileOk`). -/
theorem load_partial (w : World) (decls : List Decl)
    (hw : ∀ d ∈ decls, ∀ p content, Uses w d p → w.file p = some (some content) → FileOk content)
    (hd : ∀ d ∈ decls, Fine d) :
    ∃ r, MeansAll w decls r ∧
      ((load w (decls.flatMap Decl.tokens)).isSome = true ↔ ∃ gs, r = some gs ∧ ∀ g ∈ gs, w.up g.proto g.args = true) := by
  have hlen : decls.length ≤ (decls.flatMap Decl.tokens).length := by
    clear hd hw
    induction decls with
    | nil => simp
    | cons d decls ih =>
      rw [List.flatMap_cons, List.length_append, List.length_cons]
      cases d <;> simp only [Decl.tokens, List.length_cons, List.length_nil] <;> omega
  obtain ⟨r, h1, h2⟩ := initLoop_ok w decls hw ((decls.flatMap Decl.tokens).length + 1) ⟨[], StringChunk.init bkdrHash⟩ [] ⟨rfl, rfl⟩ hd (by omega)
  refine ⟨r, h1, ?_⟩
  cases r with
  | none =>
    rw [show load w (decls.flatMap Decl.tokens) = none from h2]
    simp
  | some gs =>
    constructor
    · intro h
      refine ⟨gs, rfl, fun g hg => ?_⟩
      cases hu : w.up g.proto g.args with
      | true => rfl
      | false =>
        rw [show load w (decls.flatMap Decl.tokens) = none from h2.2 ⟨g, hg, hu⟩] at h
        cases h
    · rintro ⟨_, e, hu⟩
      cases e
      obtain ⟨m, hm, -⟩ := h2.1 hu
      rw [show load w (decls.flatMap Decl.tokens) = some m from hm]
      rfl

/-- C63.  Only complete declarations are accepted. -/
theorem load_shape (w : World) (conf : List (List Byte)) (h : (load w conf).isSome = true) :
    ∃ decls : List Decl, conf = decls.flatMap Decl.tokens := by
  obtain ⟨m, hm⟩ := Option.isSome_iff_exists.1 h
  exact initLoop_shape w _ _ _ _ hm

/-! ### Routing -/

/-- C24.  With a configuration that has been loaded, a query is sent to a group the documentation says it may be sent to, each of those may
be the one, and it is not sent only if there are no groups.  Missing: as for `load_partial`. -/
theorem route_documented_partial (w : World) (decls : List Decl)
    (hw : ∀ d ∈ decls, ∀ p content, Uses w d p → w.file p = some (some content) → FileOk content)
    (hd : ∀ d ∈ decls, Fine d) (m : Map) (hm : load w (decls.flatMap Decl.tokens) = some m) :
    ∃ gs, MeansAll w decls (some gs) ∧ m.modules = gs.map (·.proto) ∧
      ∀ (o : Opts) (fnm : List Byte → List Byte → Bool) (behind : List Byte) (tcp : Bool) (name : List Byte), name ≠ [] →
        (∀ i, Documented o tcp gs fnm name i ↔ ∃ rnd id, route o m fnm behind rnd id tcp name (bkdrHash name) = some i) ∧
        (∀ rnd id, route o m fnm behind rnd id tcp name (bkdrHash name) = none ↔ gs = []) := by
  have hlen : decls.length ≤ (decls.flatMap Decl.tokens).length := by
    clear hd hm hw
    induction decls with
    | nil => simp
    | cons d decls ih =>
      rw [List.flatMap_cons, List.length_append, List.length_cons]
      cases d <;> simp only [Decl.tokens, List.length_cons, List.length_nil] <;> omega
  obtain ⟨r, h1, h2⟩ := initLoop_ok w decls hw ((decls.flatMap Decl.tokens).length + 1) ⟨[], StringChunk.init bkdrHash⟩ [] ⟨rfl, rfl⟩ hd (by omega)
  cases r with
  | none =>
    rw [show load w (decls.flatMap Decl.tokens) = none from h2] at hm
    cases hm
  | some gs =>
    have hu : ∀ g ∈ gs, w.up g.proto g.args = true := by
      intro g hg
      cases hu : w.up g.proto g.args with
      | true => rfl
      | false =>
        rw [show load w (decls.flatMap Decl.tokens) = none from h2.2 ⟨g, hg, hu⟩] at hm
        cases hm
    obtain ⟨m', hm', hrep⟩ := h2.1 hu
    rw [show load w (decls.flatMap Decl.tokens) = some m' from hm'] at hm
    cases hm
    refine ⟨gs, h1, hrep.modules, fun o fnm behind tcp name hn => ⟨fun i => ⟨route_reach hrep o fnm behind tcp name hn i, ?_⟩, fun rnd id =>
      route_none hrep o fnm behind rnd id tcp name hn⟩⟩
    rintro ⟨rnd, id, hr⟩
    exact route_some hrep o fnm behind rnd id tcp name hn i hr

/-- C24.  The group a rule points to is one that was configured with that domain and takes the query. -/
theorem rule_group {o : Opts} {tcp : Bool} {gs : List Group} {t : List Byte} {i : Nat} (h : Usable o tcp gs (t, i)) :
    ∃ g, gs[i]? = some g ∧ Fits o tcp g.proto ∧ ∃ d ∈ g.domains, t = domainText d := by
  obtain ⟨h1, g, h2, h3⟩ := h
  refine ⟨g, h2, h3, ?_⟩
  simp only [rules, List.mem_flatMap, List.mem_map, Prod.mk.injEq] at h1
  obtain ⟨⟨g', j⟩, hg, d, hd, e1, e2⟩ := h1
  have h2 : gs[i]? = some g := h2
  have := List.mem_zipIdx_iff_getElem?.1 hg
  dsimp only at this e1 e2 hd
  subst e2
  rw [h2] at this
  cases this
  exact ⟨d, hd, e1.symm⟩

/-! ### What is not so -/

def allUp : World := ⟨fun _ _ => true, fun _ => some none⟩

/-- A query is sent only to groups of a kind it may be sent to. -/
def OnlyFitting : Prop :=
  ∀ (w : World) (conf : List (List Byte)) (m : Map), load w conf = some m →
    ∀ (o : Opts) (fnm : List Byte → List Byte → Bool) (behind : List Byte) (rnd id : Nat) (tcp : Bool) (name : List Byte) (i : Nat) (p : Proto),
      name ≠ [] → route o m fnm behind rnd id tcp name (bkdrHash name) = some i → m.modules[i]? = some p → Fits o tcp p

def oneUdp : List (List Byte) := [str "UDP", str "1.2.4.8", str "*", str "on"]

/-- C24.  The default choice is not restricted: a query by TCP goes to the UDP group although `EnableTCPtoUDP` is off. -/
theorem only_fitting_false : ¬ OnlyFitting := by
  intro h
  have h1 : ((load allUp oneUdp).bind (fun m => route ⟨false, false⟩ m (fun _ _ => true) [] 0 7 true (str "a.com") (bkdrHash (str "a.com")))) = some 0 := by
    decide +kernel
  have h2 : (load allUp oneUdp).map (·.modules) = some [.udp] := by decide +kernel
  cases hm : load allUp oneUdp with
  | none => rw [hm] at h1; cases h1
  | some m =>
    rw [hm] at h1 h2
    simp only [Option.map_some, Option.some.injEq] at h2
    have := h allUp oneUdp m hm ⟨false, false⟩ (fun _ _ => true) [] 0 7 true (str "a.com") 0 .udp (by decide) h1 (by rw [h2]; rfl)
    exact Bool.noConfusion this

/-- C63.  The example of the documentation (default.en.config 206-207), whose second line has three values, is never accepted. -/
theorem documented_example_fails (w : World) :
    load w [str "UDP", str "1.2.4.8", str "microsoft.com,office.com", str "on", str "TCP", str "8.8.4.4", str "*", str "no"] = none := by
  cases h : load w [str "UDP", str "1.2.4.8", str "microsoft.com,office.com", str "on", str "TCP", str "8.8.4.4", str "*", str "no"] with
  | none => rfl
  | some m =>
    exfalso
    obtain ⟨decls, e⟩ := load_shape w _ (by rw [h]; rfl)
    have hne : ∀ (d : Decl) (ds : List Decl) (x : List Byte) (xs : List (List Byte)), x :: xs = (d :: ds).flatMap Decl.tokens →
        (x = str "UDP" ∧ xs = xs.take 3 ++ ds.flatMap Decl.tokens ∧ (xs.take 3).length = 3) ∨
        (x = str "TCP" ∧ xs = xs.take 4 ++ ds.flatMap Decl.tokens ∧ (xs.take 4).length = 4) ∨
        (x = str "FILE" ∧ xs = xs.take 1 ++ ds.flatMap Decl.tokens ∧ (xs.take 1).length = 1) := by
      intro d ds x xs e
      cases d <;> simp only [List.flatMap_cons, Decl.tokens, List.cons_append, List.nil_append, List.cons.injEq] at e <;> obtain ⟨rfl, rfl⟩ := e
      · exact .inl ⟨rfl, by simp, by simp⟩
      · exact .inr (.inl ⟨rfl, by simp, by simp⟩)
      · exact .inr (.inr ⟨rfl, by simp, by simp⟩)
    cases decls with
    | nil => cases e
    | cons d ds =>
      rcases hne d ds _ _ e with ⟨-, e2, -⟩ | ⟨e2, -⟩ | ⟨e2, -⟩
      · simp only [List.take_succ_cons, List.take_zero, List.cons_append, List.nil_append, List.cons.injEq, true_and] at e2
        cases ds with
        | nil => cases e2
        | cons d ds =>
          rcases hne d ds _ _ e2 with ⟨e3, -⟩ | ⟨-, -, e3⟩ | ⟨e3, -⟩
          · exact absurd e3 (by decide +kernel)
          · simp at e3
          · exact absurd e3 (by decide +kernel)
      · exact absurd e2 (by decide +kernel)
      · exact absurd e2 (by decide +kernel)

/-- Files by name. -/
def files (l : List (String × String)) : World :=
  ⟨fun _ _ => true, fun p => some ((l.find? (fun f => str f.1 == p)).map (fun f => str f.2))⟩

def confFile : List (List Byte) := [str "FILE", str "g"]

/-- How many groups there are. -/
def count (w : World) : Option Nat := (load w confFile).map (·.modules.length)

/-- C63.  The path after `LIST` is put in small letters: the list is found only if its name has no others. -/
theorem list_path_lowered :
    count (files [("g", "PROTOCOL UDP\nSERVER 1.2.4.8\nLIST D.txt\n"), ("D.txt", "a.com\n")]) = some 0 ∧
    count (files [("g", "PROTOCOL UDP\nSERVER 1.2.4.8\nLIST D.txt\n"), ("d.txt", "a.com\n")]) = some 1 := by decide +kernel

/-- C63.  A group file without domains, like the last one of the documentation (default.en.config 185-190), gives no group. -/
theorem no_domains_no_group :
    count (files [("g", "PROTOCOL *\nSERVER 1.2.4.8,127.0.0.1\n# PARALLEL default: on, TCP PROXY default: no\n")]) = some 0 := by decide +kernel

/-- C63.  A setting without a value is taken for a domain. -/
theorem empty_setting_is_domain :
    (load (files [("g", "PROTOCOL UDP\nSERVER 1.2.4.8\nPARALLEL\n")]) confFile).map
      (fun m => (m.modules, m.dist.domainMatchNoWild (str "x.parallel") (bkdrHash (str "x.parallel")) (fun _ => true) [])) =
      some ([.udp], some (some 0)) := by decide +kernel

/-! ### The statements speak of something -/

example : count (files [("g", "PROTOCOL *\nSERVER 1.2.4.8\nexample.com # comment\n")]) = some 2 := by decide +kernel

def two : List Decl := [.udp (str "1.2.4.8") (str " MS.com. ,.office.com") (str "On"), .tcp (str "8.8.4.4") (str "*") (str "off") (str "NO")]

/-- A query goes to the group of its domain, if that takes it. -/
def goes (o : Opts) (id : Nat) (tcp : Bool) (name : String) : Option Nat :=
  (load allUp (two.flatMap Decl.tokens)).bind (fun m => route o m (fun p _ => p == str "*") [] 5 id tcp (str name) (bkdrHash (str name)))

example : goes ⟨true, false⟩ 0 false "www.ms.com" = some 0 ∧ goes ⟨true, false⟩ 0 false "a.org" = some 1 ∧
    goes ⟨true, false⟩ 0 true "www.ms.com" = some 1 ∧ goes ⟨false, false⟩ 4 false "a.org" = some 0 := by decide +kernel

example : ∀ d ∈ two, Fine d := by
  intro d hd
  simp only [two, List.mem_cons, List.not_mem_nil, or_false] at hd
  rcases hd with rfl | rfl <;> exact ⟨by decide +kernel, by decide +kernel⟩

/-- A file that is read as it should be. -/
example : FileOk (str "PROTOCOL UDP\nSERVER 1.2.4.8\na.com # x\n") := by
  refine ⟨by decide +kernel, by decide +kernel, [str "PROTOCOL UDP", str "SERVER 1.2.4.8", str "a.com # x"], [], by decide +kernel, ?_, ?_, by decide, .inl rfl⟩
  · have hok : ∀ s : List Byte, (10 : Byte) ∉ s → (0 : Byte) ∉ s → (13 : Byte) ∉ s → (59 : Byte) ∉ s → s.length + 2 ≤ 384 → ReadLine.Ok 384 s := by
      intro s h1 h2 h3 h4 h5
      refine .inl ⟨⟨h1, h2, fun h => h3 ((List.dropLast_sublist _).subset h), fun u r e _ h => h4 (by rw [e]; simp [h])⟩, h5⟩
    intro s hs
    simp only [List.mem_cons, List.not_mem_nil, or_false] at hs
    rcases hs with rfl | rfl | rfl <;> exact hok _ (by decide +kernel) (by decide +kernel) (by decide +kernel) (by decide +kernel) (by decide +kernel)
  · exact ⟨by simp, by simp, by simp [ReadLine.CrOk], fun u r e => by simp at e⟩

end Verif.Groups
