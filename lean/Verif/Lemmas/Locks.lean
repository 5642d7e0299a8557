import Verif.Spec.Locks

/-! A discipline every thread keeps to, and what follows from it. -/

namespace Verif.Locks
open Code

/-- The order in which locks are taken. -/
def rank : Lock → Nat
  | .modules => 0
  | .filter | .hosts | .ipmisc | .cache | .table _ => 1
  | .stat => 2
  | .print => 3

/-- What a thread holds, whether it has seen that the flag is not set while it holds the lock of the statistics, and whether it has set the flag. -/
structure Abs where
  held : List (Lock × Mode)
  saw : Bool
  own : Bool

def MayRead (k : Kind) (a : Abs) : Var → Prop
  | .filterList => ∃ m, (Lock.filter, m) ∈ a.held
  | .hostsData => ∃ m, (Lock.hosts, m) ∈ a.held
  | .ipLists => ∃ m, (Lock.ipmisc, m) ∈ a.held
  | .moduleMap => ∃ m, (Lock.modules, m) ∈ a.held
  | .table i => ∃ m, (Lock.table i, m) ∈ a.held
  | .logFile => ∃ m, (Lock.print, m) ∈ a.held
  | .stats => (a.saw = true ∧ (Lock.stat, Mode.wr) ∈ a.held) ∨ a.own = true
  | .cacheData => k = .timer ∨ ∃ m, (Lock.cache, m) ∈ a.held
  | _ => True

def MayWrite (k : Kind) (a : Abs) : Var → Prop
  | .filterList | .filterPtr => (Lock.filter, Mode.wr) ∈ a.held
  | .hostsData | .hostsPtr => (Lock.hosts, Mode.wr) ∈ a.held
  | .ipLists | .ipPtr => (Lock.ipmisc, Mode.wr) ∈ a.held
  | .moduleMap => (Lock.modules, Mode.wr) ∈ a.held
  | .table i => (Lock.table i, Mode.wr) ∈ a.held
  | .logFile => (Lock.print, Mode.wr) ∈ a.held
  | .stats => a.saw = true ∧ (Lock.stat, Mode.wr) ∈ a.held
  | .cacheData => (Lock.cache, Mode.wr) ∈ a.held
  | .goodIps => k = .timer
  | .sock _ => True

inductive Ok (k : Kind) : Abs → Code → Abs → Prop where
  | acq {h s o l m} : (∀ p ∈ h, rank p.1 < rank l) → Ok k ⟨h, s, o⟩ (.act (.acq l m)) ⟨(l, m) :: h, s, o⟩
  | rel {h o l m} : Ok k ⟨(l, m) :: h, false, o⟩ (.act (.rel l)) ⟨h, false, o⟩
  | read {a v} : MayRead k a v → Ok k a (.act (.read v)) a
  | write {a v} : MayWrite k a v → Ok k a (.act (.write v)) a
  | skip {h o b} : k = .timer → (Lock.stat, Mode.wr) ∈ h → Ok k ⟨h, false, o⟩ (.act (.skip b)) ⟨h, false, b⟩
  | wait {s o} : Ok k ⟨[], s, o⟩ (.act .wait) ⟨[], s, o⟩
  | reply {a} : (∀ p ∈ a.held, p = (Lock.hosts, Mode.rd)) → Ok k a (.act .reply) a
  | other {a} : Ok k a (.act .other) a
  | seq {a b c x y} : Ok k a x b → Ok k b y c → Ok k a (.seq x y) c
  | alt {a b x y} : Ok k a x b → Ok k a y b → Ok k a (.alt x y) b
  | star {a x} : Ok k a x a → Ok k a (.star x) a
  | any {a b f} : (∀ n, Ok k a (f n) b) → Ok k a (.any f) b
  | ifSkip {h o x y} : (Lock.stat, Mode.wr) ∈ h → Ok k ⟨h, false, o⟩ x ⟨h, false, o⟩ → Ok k ⟨h, true, o⟩ y ⟨h, true, o⟩ →
      Ok k ⟨h, false, o⟩ (.ifSkip x y) ⟨h, false, o⟩

/-- The discipline for all that is still to do: in the end nothing is held. -/
inductive OkK (k : Kind) : Abs → List Code → Prop where
  | nil : OkK k ⟨[], false, false⟩ []
  | cons {a b c r} : Ok k a c b → OkK k b r → OkK k a (c :: r)
  | weak {h o r} : OkK k ⟨h, false, o⟩ r → OkK k ⟨h, true, o⟩ r

theorem OkK.uncons {k : Kind} {a : Abs} {c : Code} {r : List Code} (h : OkK k a (c :: r)) :
    ∃ s b, (s = true → a.saw = true) ∧ Ok k ⟨a.held, s, a.own⟩ c b ∧ OkK k b r := by
  generalize hx : c :: r = x at h
  induction h with
  | nil => cases hx
  | @cons a b c' r' h1 h2 _ =>
    injection hx with e1 e2
    subst e1; subst e2
    exact ⟨a.saw, b, id, h1, h2⟩
  | weak _ ih =>
    obtain ⟨s, b, h1, h2, h3⟩ := ih hx
    exact ⟨s, b, fun hs => absurd (h1 hs) (by simp), h2, h3⟩

theorem OkK.ended {k : Kind} {a : Abs} (h : OkK k a []) : a.held = [] ∧ a.own = false := by
  generalize hx : ([] : List Code) = x at h
  induction h with
  | nil => exact ⟨rfl, rfl⟩
  | cons => cases hx
  | weak _ ih => exact ih hx

/-- What is true of a thread while the flag is `f`. -/
def TOk (f : Bool) (t : Thread) : Prop :=
  ∃ s o, OkK t.kind ⟨t.held, s, o⟩ t.todo ∧ t.held.Pairwise (fun p q => rank q.1 < rank p.1) ∧
    (s = true → f = false ∧ (Lock.stat, Mode.wr) ∈ t.held) ∧ (o = true → f = true ∧ t.kind = .timer)

theorem filter_head {l : Lock} {m : Mode} {h : List (Lock × Mode)} (hp : ((l, m) :: h).Pairwise (fun p q => rank q.1 < rank p.1)) :
    ((l, m) :: h).filter (fun p => p.1 != l) = h := by
  rw [List.pairwise_cons] at hp
  rw [List.filter_cons_of_neg (by simp)]
  apply List.filter_eq_self.2
  intro p hmem
  have := hp.1 p hmem
  simp only [bne_iff_ne, ne_eq]
  intro e
  rw [e] at this
  exact Nat.lt_irrefl _ this

/-- A step keeps the discipline. -/
theorem move_ok {s : Sys} {t t' : Thread} {n : Nat} {f : Bool} (h : TOk s.skipping t) (hm : move s t n = some (t', f)) :
    TOk f t' ∧ t'.kind = t.kind ∧
    ((∀ p ∈ t'.held, p ∈ t.held) ∨ (∃ l m, t'.held = (l, m) :: t.held ∧ s.free l m = true)) ∧
    (f ≠ s.skipping → (Lock.stat, Mode.wr) ∈ t.held ∧ t.kind = .timer) := by
  obtain ⟨kind, todo, held⟩ := t
  obtain ⟨sw, ow, hk, hs, hw, ho⟩ := h
  dsimp only at hk hs hw ho
  cases todo with
  | nil => simp [move] at hm
  | cons c r =>
    obtain ⟨sw', b, hle, hc, hr⟩ := hk.uncons
    dsimp only at hle hc
    have hw' : sw' = true → s.skipping = false ∧ (Lock.stat, Mode.wr) ∈ held := fun e => hw (hle e)
    cases hc with
    | acq hlt =>
      simp only [move] at hm
      split at hm
      · rename_i l m hfree
        cases hm
        refine ⟨⟨sw', ow, hr, List.pairwise_cons.2 ⟨hlt, hs⟩, fun e => ⟨(hw' e).1, List.mem_cons_of_mem _ (hw' e).2⟩, ho⟩, rfl, Or.inr ⟨_, _, rfl, hfree⟩,
          fun e => absurd rfl e⟩
      · cases hm
    | rel =>
      rename_i h l m
      simp only [move] at hm
      split at hm
      · cases hm
        rw [filter_head hs]
        exact ⟨⟨false, ow, hr, (List.pairwise_cons.1 hs).2, fun e => absurd e (by simp), ho⟩, rfl, Or.inl (fun p hp => List.mem_cons_of_mem _ hp), fun e => absurd rfl e⟩
      · cases hm
    | read h1 =>
      simp only [move, Option.some.injEq, Prod.mk.injEq] at hm
      obtain ⟨rfl, rfl⟩ := hm
      exact ⟨⟨sw', ow, hr, hs, hw', ho⟩, rfl, Or.inl (fun _ hp => hp), fun e => absurd rfl e⟩
    | write h1 =>
      simp only [move, Option.some.injEq, Prod.mk.injEq] at hm
      obtain ⟨rfl, rfl⟩ := hm
      exact ⟨⟨sw', ow, hr, hs, hw', ho⟩, rfl, Or.inl (fun _ hp => hp), fun e => absurd rfl e⟩
    | skip h1 h2 =>
      simp only [move, Option.some.injEq, Prod.mk.injEq] at hm
      obtain ⟨rfl, rfl⟩ := hm
      exact ⟨⟨false, _, hr, hs, fun e => absurd e (by simp), fun e => ⟨e, h1⟩⟩, rfl, Or.inl (fun _ hp => hp), fun _ => ⟨h2, h1⟩⟩
    | wait =>
      simp only [move, Option.some.injEq, Prod.mk.injEq] at hm
      obtain ⟨rfl, rfl⟩ := hm
      exact ⟨⟨sw', ow, hr, hs, hw', ho⟩, rfl, Or.inl (fun _ hp => hp), fun e => absurd rfl e⟩
    | reply =>
      simp only [move, Option.some.injEq, Prod.mk.injEq] at hm
      obtain ⟨rfl, rfl⟩ := hm
      exact ⟨⟨sw', ow, hr, hs, hw', ho⟩, rfl, Or.inl (fun _ hp => hp), fun e => absurd rfl e⟩
    | other =>
      simp only [move, Option.some.injEq, Prod.mk.injEq] at hm
      obtain ⟨rfl, rfl⟩ := hm
      exact ⟨⟨sw', ow, hr, hs, hw', ho⟩, rfl, Or.inl (fun _ hp => hp), fun e => absurd rfl e⟩
    | seq h1 h2 =>
      simp only [move, Option.some.injEq, Prod.mk.injEq] at hm
      obtain ⟨rfl, rfl⟩ := hm
      exact ⟨⟨sw', ow, .cons h1 (.cons h2 hr), hs, hw', ho⟩, rfl, Or.inl (fun _ hp => hp), fun e => absurd rfl e⟩
    | alt h1 h2 =>
      simp only [move, Option.some.injEq, Prod.mk.injEq] at hm
      obtain ⟨rfl, rfl⟩ := hm
      refine ⟨⟨sw', ow, ?_, hs, hw', ho⟩, rfl, Or.inl (fun _ hp => hp), fun e => absurd rfl e⟩
      dsimp only
      split
      · exact .cons h1 hr
      · exact .cons h2 hr
    | star h1 =>
      simp only [move, Option.some.injEq, Prod.mk.injEq] at hm
      obtain ⟨rfl, rfl⟩ := hm
      refine ⟨⟨sw', ow, ?_, hs, hw', ho⟩, rfl, Or.inl (fun _ hp => hp), fun e => absurd rfl e⟩
      dsimp only
      split
      · exact hr
      · exact .cons h1 (.cons (.star h1) hr)
    | any h1 =>
      simp only [move, Option.some.injEq, Prod.mk.injEq] at hm
      obtain ⟨rfl, rfl⟩ := hm
      exact ⟨⟨sw', ow, .cons (h1 n) hr, hs, hw', ho⟩, rfl, Or.inl (fun _ hp => hp), fun e => absurd rfl e⟩
    | ifSkip h0 h1 h2 =>
      simp only [move, Option.some.injEq, Prod.mk.injEq] at hm
      obtain ⟨rfl, rfl⟩ := hm
      cases hsk : s.skipping with
      | true => exact ⟨⟨false, ow, by simpa using OkK.cons h1 hr, hs, fun e => absurd e (by simp), by simpa [hsk] using ho⟩, rfl, Or.inl (fun _ hp => hp), fun e => absurd rfl e⟩
      | false => exact ⟨⟨true, ow, by simpa using OkK.cons h2 (.weak hr), hs, fun _ => ⟨rfl, h0⟩, by simpa [hsk] using ho⟩, rfl, Or.inl (fun _ hp => hp), fun e => absurd rfl e⟩

/-- What is true at every time. -/
structure Inv (s : Sys) : Prop where
  each : ∀ (i : Nat) (t : Thread), s.threads[i]? = some t → TOk s.skipping t
  alone : ∀ (i j : Nat) (t u : Thread) (l : Lock) (m : Mode), i ≠ j → s.threads[i]? = some t → s.threads[j]? = some u → (l, Mode.wr) ∈ t.held → (l, m) ∉ u.held
  one : ∀ (i j : Nat) (t u : Thread), s.threads[i]? = some t → s.threads[j]? = some u → t.kind = .timer → u.kind = .timer → i = j

theorem inv_init : Inv Sys.init := ⟨fun i t h => by simp [Sys.init] at h, fun i j t u l m _ h => by simp [Sys.init] at h, fun i j t u h => by simp [Sys.init] at h⟩

theorem not_held {s : Sys} {l : Lock} {m : Mode} (h : s.held l m = false) {j : Nat} {u : Thread} (hu : s.threads[j]? = some u) : (l, m) ∉ u.held := by
  intro hm
  have := List.any_eq_false.1 h u (List.mem_of_getElem? hu)
  simp [hm] at this

theorem held_of {s : Sys} {l : Lock} {m : Mode} (h : s.held l m = true) : ∃ (j : Nat) (u : Thread), s.threads[j]? = some u ∧ (l, m) ∈ u.held := by
  obtain ⟨u, hu, hm⟩ := List.any_eq_true.1 h
  obtain ⟨j, hj⟩ := List.mem_iff_getElem?.1 hu
  exact ⟨j, u, hj, by simpa using hm⟩

theorem free_alone {s : Sys} {l : Lock} {m m' : Mode} (h : s.free l m = true) (hx : m = .wr ∨ m' = .wr) {j : Nat} {u : Thread} (hu : s.threads[j]? = some u) :
    (l, m') ∉ u.held := by
  cases m with
  | rd =>
    rcases hx with hx | hx
    · cases hx
    · subst hx
      simp only [Sys.free, Bool.not_eq_true'] at h
      exact not_held h hu
  | wr =>
    simp only [Sys.free, Bool.and_eq_true, Bool.not_eq_true'] at h
    cases m' with
    | rd => exact not_held h.2 hu
    | wr => exact not_held h.1 hu

theorem inv_step {s s' : Sys} {e : Ev} (hprog : ∀ k, OkK k ⟨[], false, false⟩ [program k]) (h : Inv s) (hs : step s e = some s') : Inv s' := by
  cases e with
  | spawn k =>
    simp only [step] at hs
    split at hs
    · cases hs
    · rename_i hk
      cases hs
      have hget : ∀ (i : Nat) (t : Thread), (s.threads ++ [(⟨k, [program k], []⟩ : Thread)])[i]? = some t → s.threads[i]? = some t ∨ (i = s.threads.length ∧ t = ⟨k, [program k], []⟩) := by
        intro i t hi
        rcases Nat.lt_or_ge i s.threads.length with hlt | hge
        · rw [List.getElem?_append_left hlt] at hi; exact Or.inl hi
        · rw [List.getElem?_append_right hge] at hi
          rcases Nat.eq_or_lt_of_le hge with he | hgt
          · rw [← he, Nat.sub_self] at hi
            exact Or.inr ⟨he.symm, (Option.some.inj hi).symm⟩
          · rw [List.getElem?_eq_none (by simp; omega)] at hi; cases hi
      have hnt : k = .timer → ∀ t ∈ s.threads, t.kind ≠ .timer := by
        intro e t ht htk
        apply hk
        simp only [Bool.and_eq_true, decide_eq_true_eq]
        exact ⟨e, List.any_eq_true.2 ⟨t, ht, by simp [htk]⟩⟩
      refine ⟨?_, ?_, ?_⟩
      · intro i t hi
        rcases hget i t hi with hi | ⟨_, rfl⟩
        · exact h.each i t hi
        · exact ⟨false, false, hprog k, List.Pairwise.nil, fun e => absurd e (by simp), fun e => absurd e (by simp)⟩
      · intro i j t u l m hij hi hj hl
        rcases hget i t hi with hi | ⟨_, rfl⟩
        · rcases hget j u hj with hj | ⟨_, rfl⟩
          · exact h.alone i j t u l m hij hi hj hl
          · simp
        · simp at hl
      · intro i j t u hi hj ht hu
        rcases hget i t hi with hi | ⟨ei, rfl⟩
        · rcases hget j u hj with hj | ⟨ej, rfl⟩
          · exact h.one i j t u hi hj ht hu
          · exact absurd ht (hnt hu t (List.mem_of_getElem? hi))
        · rcases hget j u hj with hj | ⟨ej, rfl⟩
          · exact absurd hu (hnt ht u (List.mem_of_getElem? hj))
          · rw [ei, ej]
  | go i n =>
    simp only [step] at hs
    cases hi : s.threads[i]? with
    | none => rw [hi] at hs; cases hs
    | some t =>
      rw [hi] at hs
      dsimp only at hs
      cases hm : move s t n with
      | none => rw [hm] at hs; cases hs
      | some x =>
        obtain ⟨t', f⟩ := x
        rw [hm] at hs
        cases hs
        obtain ⟨h1, h2, h3, h4⟩ := move_ok (h.each i t hi) hm
        have hlt : i < s.threads.length := (List.getElem?_eq_some_iff.1 hi).1
        have hget : ∀ (j : Nat) (u : Thread), (s.threads.set i t')[j]? = some u → (i = j ∧ u = t') ∨ (i ≠ j ∧ s.threads[j]? = some u) := by
          intro j u hj
          rw [List.getElem?_set] at hj
          split at hj
          · rename_i e
            exact Or.inl ⟨e, (Option.some.inj hj).symm⟩
          · rename_i e
            exact Or.inr ⟨e, hj⟩
        refine ⟨?_, ?_, ?_⟩
        · intro j u hj
          rcases hget j u hj with ⟨_, rfl⟩ | ⟨hne, hj⟩
          · exact h1
          · show TOk f u
            by_cases hf : f = s.skipping
            · rw [hf]; exact h.each j u hj
            · obtain ⟨a1, a2⟩ := h4 hf
              obtain ⟨sw, ow, b1, b2, b3, b4⟩ := h.each j u hj
              refine ⟨sw, ow, b1, b2, fun e => absurd (b3 e).2 (h.alone i j t u _ _ hne hi hj a1), fun e => absurd (h.one i j t u hi hj a2 (b4 e).2) hne⟩
        · intro j k u v l m hjk hj hk hl
          rcases hget j u hj with ⟨ej, rfl⟩ | ⟨hne, hj'⟩
          · rcases hget k v hk with ⟨ek, rfl⟩ | ⟨hne', hk⟩
            · exact absurd (ej.symm.trans ek) hjk
            · rcases h3 with h3 | ⟨l', m', e, hfree⟩
              · exact h.alone i k t v l m hne' hi hk (h3 _ hl)
              · rw [e] at hl
                rcases List.mem_cons.1 hl with hl | hl
                · injection hl with e1 e2
                  subst e1; subst e2
                  exact free_alone hfree (Or.inl rfl) hk
                · exact h.alone i k t v l m hne' hi hk hl
          · rcases hget k v hk with ⟨ek, rfl⟩ | ⟨hne', hk⟩
            · rcases h3 with h3 | ⟨l', m', e, hfree⟩
              · exact fun hx => h.alone j i u t l m (fun e => hne e.symm) hj' hi hl (h3 _ hx)
              · rw [e]
                intro hx
                rcases List.mem_cons.1 hx with hx | hx
                · injection hx with e1 e2
                  subst e1; subst e2
                  exact free_alone hfree (Or.inr rfl) hj' hl
                · exact h.alone j i u t l m (fun e => hne e.symm) hj' hi hl hx
            · exact h.alone j k u v l m hjk hj' hk hl
        · intro j k u v hj hk hu hv
          rcases hget j u hj with ⟨ej, rfl⟩ | ⟨hne, hj'⟩
          · rcases hget k v hk with ⟨ek, rfl⟩ | ⟨hne', hk⟩
            · exact ej.symm.trans ek
            · rw [← ej]; exact h.one i k t v hi hk (h2 ▸ hu) hv
          · rcases hget k v hk with ⟨ek, rfl⟩ | ⟨hne', hk⟩
            · rw [← ek]; exact h.one j i u t hj' hi hu (h2 ▸ hv)
            · exact h.one j k u v hj' hk hu hv

theorem inv_run (hprog : ∀ k, OkK k ⟨[], false, false⟩ [program k]) {es : List Ev} : ∀ {s s' : Sys}, Inv s → run s es = some s' → Inv s' := by
  induction es with
  | nil => intro s s' h hr; cases hr; exact h
  | cons e es ih =>
    intro s s' h hr
    simp only [run] at hr
    cases hs : step s e with
    | none => rw [hs] at hr; cases hr
    | some s1 => rw [hs] at hr; exact ih (inv_step hprog h hs) hr

/-! The programs keep to the discipline. -/

section
variable {k : Kind} {a b c : Abs}

theorem ok_nop : Ok k a nop a := .other
theorem ok_opt {x : Code} (h : Ok k a x a) : Ok k a (opt x) a := .alt .other h
theorem ok_all_nil : Ok k a (all []) a := .other
theorem ok_all_one {x : Code} (h : Ok k a x b) : Ok k a (all [x]) b := h
theorem ok_all_cons {x y : Code} {xs : List Code} (h : Ok k a x b) (h' : Ok k b (all (y :: xs)) c) : Ok k a (all (x :: y :: xs)) c := .seq h h'

theorem ok_within {h : List (Lock × Mode)} {o : Bool} {l : Lock} {m : Mode} {x : Code} (hl : ∀ p ∈ h, rank p.1 < rank l)
    (hx : Ok k ⟨(l, m) :: h, false, o⟩ x ⟨(l, m) :: h, false, o⟩) : Ok k ⟨h, false, o⟩ (within l m x) ⟨h, false, o⟩ :=
  .seq (.acq hl) (.seq hx .rel)

theorem ok_log {h : List (Lock × Mode)} {o : Bool} (hl : ∀ p ∈ h, rank p.1 < 3) : Ok k ⟨h, false, o⟩ log ⟨h, false, o⟩ :=
  ok_opt (ok_within hl (.write (by simp [MayWrite])))

theorem ok_statAdd {h : List (Lock × Mode)} {o : Bool} (hl : ∀ p ∈ h, rank p.1 < 2) : Ok k ⟨h, false, o⟩ statAdd ⟨h, false, o⟩ :=
  ok_opt (ok_within hl (.ifSkip (by simp) ok_nop (.alt (.read (by simp [MayRead]))
    (.seq (.read (by simp [MayRead])) (.write (by simp [MayWrite]))))))

/-- nothing held -/
abbrev E (o : Bool := false) : Abs := ⟨[], false, o⟩

theorem ok_statWorks : Ok .timer E statWorks E :=
  .alt .other (.seq (b := E true) (.seq (.acq (by simp)) (.seq (.skip rfl (by simp)) .rel))
    (.seq (.star (.read (by simp [MayRead]))) (.seq (.acq (by simp)) (.seq (.skip rfl (by simp)) .rel))))

theorem ok_told {o : Bool} : Ok k (E o) (all [act .reply, log, statAdd]) (E o) :=
  .seq (.reply (by simp)) (.seq (ok_log (by simp)) (ok_statAdd (by simp)))

theorem ok_filterOut : Ok k E filterOut E :=
  .seq (ok_opt (.seq (.read (by simp [MayRead])) (ok_opt (ok_within (by simp) (.seq (.read (by simp [MayRead])) (.read (by simp [MayRead])))))))
    (ok_opt ok_told)

theorem ok_hostsRecord : Ok k a hostsRecord a := ok_opt (.read (by simp [MayRead]))

theorem ok_hostsLook : Ok k E hostsLook E :=
  .seq (.read (by simp [MayRead])) (ok_opt (ok_within (by simp) (.seq (.read (by simp [MayRead])) (.read (by simp [MayRead])))))

theorem ok_hostsTry : Ok k E hostsTry E :=
  .seq (.read (by simp [MayRead])) (ok_opt (ok_within (by simp) (.seq (.read (by simp [MayRead])) (.seq (.read (by simp [MayRead]))
    (.seq ok_hostsRecord (ok_opt (.reply (by simp))))))))

theorem ok_hostsGet : Ok k E hostsGet E :=
  .seq (.star ok_hostsLook) (.seq ok_hostsRecord (.seq (ok_opt (.reply (by simp))) (.seq (ok_opt ok_hostsTry) (ok_opt ok_told))))

theorem ok_cacheFetch : Ok k E cacheFetch E :=
  ok_opt (.seq (ok_within (by simp) (.star (.seq (.read (by simp [MayRead])) (ok_log (by simp [rank]))))) (ok_opt ok_told))

theorem ok_cacheAdd : Ok k E cacheAdd E :=
  ok_opt (ok_within (by simp) (.star (.seq (.read (by simp [MayRead])) (.seq (ok_opt (.write (by simp [MayWrite]))) (ok_log (by simp [rank]))))))

theorem ok_cacheSweep : Ok .timer E cacheSweep E :=
  .seq (.star (.read (by simp [MayRead]))) (ok_opt (ok_within (by simp) (.star (.alt (.read (by simp [MayRead])) (.write (by simp [MayWrite]))))))

theorem ok_udpSend (i : Nat) : Ok k ⟨[(.modules, .rd)], false, false⟩ (udpSend i) ⟨[(.modules, .rd)], false, false⟩ :=
  .seq (ok_within (by simp [rank]) (.write (by simp [MayWrite]))) (.seq (.star (.read (by simp [MayRead]))) (ok_log (by simp [rank])))

theorem ok_mmgrSend : Ok k E mmgrSend E :=
  .seq ok_filterOut (ok_opt (.seq ok_hostsGet (ok_opt (.seq ok_cacheFetch (ok_opt
    (ok_within (by simp) (.seq (.read (by simp [MayRead])) (.any fun i => .alt (ok_udpSend i) .other))))))))

theorem ok_ipProcess : Ok k E ipProcess E :=
  .seq (.read (by simp [MayRead])) (ok_opt (ok_within (by simp) (.seq (.read (by simp [MayRead])) (.read (by simp [MayRead])))))

theorem ok_frontend : Ok k E frontend E :=
  .seq (.star (.seq .wait (.seq (ok_log (by simp)) (ok_opt ok_mmgrSend)))) (ok_log (by simp))

theorem ok_aliasLoop : Ok k E aliasLoop E :=
  .seq (.star (.seq .wait (.seq (ok_opt ok_hostsLook) (.seq (ok_log (by simp)) (.seq (ok_opt ok_mmgrSend) (.seq (ok_opt (.reply (by simp))) (ok_log (by simp))))))))
    (ok_log (by simp))

theorem ok_learn : Ok k E (opt (all [act .reply, log, statAdd])) E := ok_opt ok_told

theorem ok_udpWorks (i : Nat) : Ok k E (udpWorks i) E :=
  .star (.seq (.read (by simp [MayRead])) (.seq (ok_opt (ok_within (by simp) (.seq (.read (by simp [MayRead])) (.seq (ok_log (by simp [rank])) (.write (by simp [MayWrite]))))))
    (.seq .wait (.seq (ok_opt (.seq (.write (by simp [MayWrite])) (ok_log (by simp))))
      (ok_opt (.seq (.write (by simp [MayWrite])) (.seq ok_ipProcess (.seq (ok_opt (.seq (ok_log (by simp)) (ok_statAdd (by simp))))
        (ok_opt (.seq (ok_within (by simp) (.write (by simp [MayWrite]))) (.seq ok_cacheAdd ok_learn)))))))))))

theorem ok_udpSweep (i : Nat) : Ok k E (udpSweep i) E :=
  .star (.seq (ok_within (by simp) (.seq (.read (by simp [MayRead])) (.seq (ok_opt (.write (by simp [MayWrite])))
    (.star (.seq (ok_log (by simp [rank])) (.seq (ok_statAdd (by simp [rank])) (.write (by simp [MayWrite])))))))) .wait)

theorem ok_tcpWorks : Ok k E tcpWorks E :=
  .star (.seq .wait (.seq (ok_log (by simp)) (.seq (ok_opt (.seq ok_ipProcess (.seq (ok_opt (.seq (ok_log (by simp)) (ok_statAdd (by simp))))
    (ok_opt (.seq ok_cacheAdd ok_learn))))) (.star (.seq (ok_log (by simp)) (ok_statAdd (by simp)))))))

theorem ok_goodIpCheck : Ok .timer E goodIpCheck E :=
  .seq (.read (by simp [MayRead])) (.seq .wait (.seq (ok_log (by simp)) (ok_opt (.seq (.read (by simp [MayRead])) (.write (by simp [MayWrite]))))))

theorem ok_timer : Ok .timer E timer E := .star (.seq .wait (.alt ok_statWorks (.alt ok_cacheSweep ok_goodIpCheck)))

theorem ok_hostsLoad : Ok k E hostsLoad E :=
  .seq (ok_log (by simp)) (.seq (ok_opt (ok_within (by simp) (.seq (.write (by simp [MayWrite])) (.write (by simp [MayWrite]))))) (ok_log (by simp)))

theorem ok_filterLoad : Ok k E filterLoad E :=
  .seq (ok_log (by simp)) (.seq (ok_opt (ok_within (by simp) (.seq (.read (by simp [MayRead])) (.seq (ok_opt (.seq (.write (by simp [MayWrite])) (.write (by simp [MayWrite]))))
    (.write (by simp [MayWrite])))))) (ok_log (by simp)))

theorem ok_ipLoad : Ok k E ipLoad E :=
  .seq (.star (ok_log (by simp))) (.seq (ok_opt (ok_within (by simp) (.seq (.write (by simp [MayWrite])) (.write (by simp [MayWrite]))))) (ok_log (by simp)))

theorem ok_modulesLoad : Ok k E modulesLoad E :=
  .seq (.star (ok_log (by simp))) (.seq (ok_opt (ok_within (by simp) (.seq ok_nop (.write (by simp [MayWrite]))))) (ok_log (by simp)))

theorem ok_update : Ok k E update E :=
  .seq (.star (.seq (ok_log (by simp)) .wait)) (ok_opt (.seq ok_hostsLoad (.seq (ok_opt ok_filterLoad) (.seq (ok_opt ok_ipLoad)
    (.seq (ok_opt ok_modulesLoad) (ok_log (by simp)))))))

end

theorem programs_ok (k : Kind) : OkK k ⟨[], false, false⟩ [program k] := by
  refine .cons ?_ .nil
  cases k with
  | frontend => exact ok_frontend
  | alias => exact ok_aliasLoop
  | udpWorker i => exact ok_udpWorks i
  | udpSweeper i => exact ok_udpSweep i
  | tcpWorker i => exact ok_tcpWorks
  | timer => exact ok_timer
  | update => exact ok_update

theorem inv_reachable {s : Sys} (h : Reachable s) : Inv s := by
  obtain ⟨es, h⟩ := h
  exact inv_run programs_ok inv_init h

end Verif.Locks
