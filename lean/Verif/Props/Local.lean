import Verif.Model.Local
import Verif.Props.AddressList
import Verif.Props.HostsLoop
/-! The sockets over which parts of the program speak to each other (C121). -/

namespace Verif.Local
open AddressList IpText

/-- The address of the machine itself. -/
def Own (ipv6 : Bool) (port : Nat) (a : Sock) : Prop :=
  a = if ipv6 then ⟨.inet6, some [0, 0, 0, 0, 0, 0, 0, 0, 0, 0, 0, 0, 0, 0, 0, 1], port⟩ else ⟨.inet, some [127, 0, 0, 1], port⟩

/-- The attempt succeeds. -/
def Free (t : Try) : Prop := ∃ fd, t = .bound fd

/-- These actions leave exactly the sockets `q` open if `p` were; only open sockets are used. -/
inductive Tidy : List Nat → List Act → List Nat → Prop where
  | nil {p : List Nat} : Tidy p [] p
  | opened {p q : List Nat} {fd : Nat} {l : List Act} : Tidy (fd :: p) l q → Tidy p (.opened fd :: l) q
  | bind {p q : List Nat} {fd : Nat} {a : Sock} {l : List Act} : fd ∈ p → Tidy p l q → Tidy p (.bind fd a :: l) q
  | closed {p q : List Nat} {fd : Nat} {l : List Act} : fd ∈ p → Tidy (p.erase fd) l q → Tidy p (.closed fd :: l) q

theorem own_text4 : V4Plain (str "127.0.0.1") [127, 0, 0, 1] :=
  .mk (s := str "127") (t := str "0") (u := str "0") (v := str "1")
    ⟨.more (.more (.one (d := 1) (by decide)) (d := 2) (by decide)) (d := 7) (by decide), by decide⟩
    ⟨.one (by decide), by decide⟩ ⟨.one (by decide), by decide⟩ ⟨.one (by decide), by decide⟩

theorem own_text6 : V6Text (str "::1") [0, 0, 0, 0, 0, 0, 0, 1] :=
  .short (ts := []) (us := [str "1"]) (vs := []) (ws := [1]) (k := 7) .nil (.cons ⟨.one (by decide), by decide⟩ .nil) (by decide) (by decide)

theorem own_convert (inet : List Byte → List Byte) (hi : InetOk inet) (ipv6 : Bool) (port : Nat) :
    ∃ a, convert inet (loopback ipv6) port = .ok a ∧ Own ipv6 port a := by
  cases ipv6 with
  | false =>
    refine ⟨_, understood inet hi port _ _ _ _ (.v4 (q := []) own_text4 .absent), rfl⟩
  | true =>
    refine ⟨_, understood inet hi port _ _ _ _ (.v6 (q := []) (a := [0, 0, 0, 0, 0, 0, 0, 0, 0, 0, 0, 0, 0, 0, 0, 1]) own_text6
      ⟨by decide, by decide, by decide⟩ .absent), rfl⟩

theorem attempts_spec (inet : List Byte → List Byte) (hi : InetOk inet) (ipv6 : Bool) (sys : Nat → Try) (n : Nat) :
    ∀ port, port + n ≤ 65536 → ∃ r acts, attempts inet ipv6 sys n port = some (r, acts) ∧
      (∀ fd a, r = some (fd, a) ↔ ∃ i < n, sys (port + i) = .bound fd ∧ (∀ j < i, ¬ Free (sys (port + j))) ∧ Own ipv6 (port + i) a) ∧
      (r = none ↔ ∀ i < n, ¬ Free (sys (port + i))) ∧
      (∀ p, Tidy p acts (match r with | none => p | some (fd, _) => fd :: p)) ∧
      (∀ fd a, Act.bind fd a ∈ acts → ∃ i < n, Own ipv6 (port + i) a) := by
  induction n with
  | zero => intro port _; exact ⟨none, [], rfl, by simp, by simp, fun p => .nil, by simp⟩
  | succ n ih =>
    intro port hp
    obtain ⟨a, h1, h2⟩ := own_convert inet hi ipv6 (port % 65536)
    rw [Nat.mod_eq_of_lt (by omega)] at h2
    obtain ⟨r, acts, k1, k2, k3, k4, k5⟩ := ih (port + 1) (by omega)
    have later : ¬ Free (sys port) →
        (∀ fd a, r = some (fd, a) ↔ ∃ i < n + 1, sys (port + i) = .bound fd ∧ (∀ j < i, ¬ Free (sys (port + j))) ∧ Own ipv6 (port + i) a) ∧
        (r = none ↔ ∀ i < n + 1, ¬ Free (sys (port + i))) := by
      intro hf
      constructor
      · intro fd b
        rw [k2]
        constructor
        · rintro ⟨i, i1, i2, i3, i4⟩
          refine ⟨i + 1, by omega, by rw [← i2]; congr 1; omega, ?_, by rw [show port + (i + 1) = port + 1 + i by omega]; exact i4⟩
          intro j hj
          cases j with
          | zero => exact hf
          | succ j => rw [show port + (j + 1) = port + 1 + j by omega]; exact i3 j (by omega)
        · rintro ⟨i, i1, i2, i3, i4⟩
          cases i with
          | zero => exact absurd ⟨fd, i2⟩ hf
          | succ i =>
            rw [show port + (i + 1) = port + 1 + i by omega] at i2 i4
            refine ⟨i, by omega, i2, fun j hj => ?_, i4⟩
            have := i3 (j + 1) (by omega)
            rwa [show port + (j + 1) = port + 1 + j by omega] at this
      · rw [k3]
        constructor
        · intro h i hi
          cases i with
          | zero => exact hf
          | succ i => rw [show port + (i + 1) = port + 1 + i by omega]; exact h i (by omega)
        · intro h i hi
          have := h (i + 1) (by omega)
          rwa [show port + (i + 1) = port + 1 + i by omega] at this
    have binds : ∀ fd b, Act.bind fd b ∈ acts → ∃ i < n + 1, Own ipv6 (port + i) b := by
      intro fd b hm
      obtain ⟨i, i1, i2⟩ := k5 fd b hm
      exact ⟨i + 1, by omega, by rw [show port + (i + 1) = port + 1 + i by omega]; exact i2⟩
    cases hs : sys port with
    | noSocket =>
      obtain ⟨l1, l2⟩ := later (by rw [hs]; rintro ⟨fd, e⟩; cases e)
      exact ⟨r, acts, by simp only [attempts, h1, hs, k1], l1, l2, k4, binds⟩
    | refused fd =>
      obtain ⟨l1, l2⟩ := later (by rw [hs]; rintro ⟨fd, e⟩; cases e)
      refine ⟨r, .opened fd :: .bind fd a :: .closed fd :: acts, by simp only [attempts, h1, hs, k1, Option.map_some], l1, l2, ?_, ?_⟩
      · intro p
        refine .opened (.bind (by simp) (.closed (by simp) ?_))
        rw [List.erase_cons_head]
        exact k4 p
      · intro fd' b hm
        simp only [List.mem_cons, reduceCtorEq, Act.bind.injEq, false_or] at hm
        rcases hm with ⟨-, rfl⟩ | hm
        · exact ⟨0, by omega, h2⟩
        · exact binds fd' b hm
    | bound fd =>
      refine ⟨some (fd, a), [.opened fd, .bind fd a], by simp only [attempts, h1, hs], ?_, ?_, ?_, ?_⟩
      · intro fd' b
        constructor
        · intro e
          cases e
          exact ⟨0, by omega, hs, by simp, h2⟩
        · rintro ⟨i, i1, i2, i3, i4⟩
          cases i with
          | zero =>
            have e1 : Try.bound fd = .bound fd' := hs.symm.trans i2
            cases e1
            have : a = b := by rw [Own] at h2 i4; rw [h2, i4]; rfl
            rw [this]
          | succ i => exact absurd ⟨fd, hs⟩ (i3 0 (by omega))
      · constructor
        · intro e; cases e
        · intro h; exact absurd ⟨fd, hs⟩ (h 0 (by omega))
      · intro p
        exact .opened (.bind (by simp) .nil)
      · intro fd' b hm
        simp at hm
        obtain ⟨-, rfl⟩ := hm
        exact ⟨0, by omega, h2⟩

/-- C121: a socket of the program itself gets the first free port of ten thousand, on the address of the machine itself; nothing
is bound to any other address; if there is none the call fails; and no other socket is left open. -/
theorem first_free (inet : List Byte → List Byte) (hi : InetOk inet) (ipv6 : Bool) (sys : Nat → Try) (start : Nat) (hs : start ≤ 55536) :
    ∃ r acts, tryBind inet ipv6 sys start = some (r, acts) ∧
      (∀ fd a, r = some (fd, a) ↔ ∃ i < 10000, sys (start + i) = .bound fd ∧ (∀ j < i, ¬ Free (sys (start + j))) ∧ Own ipv6 (start + i) a) ∧
      (r = none ↔ ∀ i < 10000, ¬ Free (sys (start + i))) ∧
      (∀ p, Tidy p acts (match r with | none => p | some (fd, _) => fd :: p)) ∧
      (∀ fd a, Act.bind fd a ∈ acts → ∃ i < 10000, Own ipv6 (start + i) a) :=
  attempts_spec inet hi ipv6 sys 10000 start (by omega)

theorem channels_distinct (inet : List Byte → List Byte) (hi : InetOk inet) (sys : List Sock → Bool → Nat → Try)
    (hsys : ∀ used ipv6 p, (∃ a ∈ used, Own ipv6 p a) → ∀ fd, sys used ipv6 p ≠ .bound fd) (l : List (Bool × Nat)) :
    ∀ used, used.Nodup → (∀ c ∈ l, c.2 ≤ 55536) → (∀ a ∈ used, ∃ ipv6 p, Own ipv6 p a) →
      ∃ got, channels inet sys used l = some got ∧ got.Nodup ∧ ∀ a ∈ got, ∃ ipv6 p, Own ipv6 p a := by
  induction l with
  | nil => intro used h _ ho; exact ⟨used, rfl, h, ho⟩
  | cons c l ih =>
    intro used h hl ho
    obtain ⟨ipv6, start⟩ := c
    obtain ⟨r, acts, h1, h2, -, -, -⟩ := first_free inet hi ipv6 (sys used ipv6) start (hl (ipv6, start) (by simp))
    have hl' : ∀ c ∈ l, c.2 ≤ 55536 := fun c hc => hl c (by simp [hc])
    cases r with
    | none =>
      obtain ⟨got, g1, g2, g3⟩ := ih used h hl' ho
      exact ⟨got, by simp only [channels, h1, g1], g2, g3⟩
    | some x =>
      obtain ⟨fd, a⟩ := x
      obtain ⟨i, -, i2, -, i4⟩ := (h2 fd a).1 rfl
      have hn : a ∉ used := fun hm => hsys used ipv6 (start + i) ⟨a, hm, i4⟩ fd i2
      obtain ⟨got, g1, g2, g3⟩ := ih (used ++ [a]) (by
        rw [List.nodup_append]
        refine ⟨h, by simp, fun x hx y hy e => ?_⟩
        rw [List.mem_singleton] at hy
        rw [e, hy] at hx
        exact hn hx) hl' (by
        intro b hb
        rcases List.mem_append.1 hb with hb | hb
        · exact ho b hb
        · rw [List.mem_singleton] at hb; subst hb; exact ⟨ipv6, _, i4⟩)
      exact ⟨got, by simp only [channels, h1, g1], g2, g3⟩

/-- C121: if the system binds no address twice, no two of these sockets share an address, however many TCP groups there are,
and all are addresses of the machine itself. -/
theorem channels_apart (inet : List Byte → List Byte) (hi : InetOk inet) (sys : List Sock → Bool → Nat → Try)
    (hsys : ∀ used ipv6 p, (∃ a ∈ used, Own ipv6 p a) → ∀ fd, sys used ipv6 p ≠ .bound fd) (ipv6 : Bool) (groups : Nat) :
    ∃ got, channels inet sys [] ((ipv6, 10200) :: (ipv6, 10300) :: List.replicate groups (ipv6, 10400)) = some got ∧ got.Nodup ∧
      ∀ a ∈ got, ∃ ipv6 p, Own ipv6 p a :=
  channels_distinct inet hi sys hsys _ [] List.nodup_nil (by
    intro c hc
    simp only [List.mem_cons, List.mem_replicate] at hc
    rcases hc with rfl | rfl | ⟨-, rfl⟩ <;> simp) (by simp)

/-- C121: what arrives at these sockets was sent by the program itself; so whatever a header that arrives at the outer socket of
the alias worker says, its processing is defined. -/
def OnlyOwn : Prop := ∀ (Addr : Type) (cap : Nat) (b : List Byte) (len fuel parent : Nat) (target : List Byte) (s : HostsLoop.Loop Addr),
  HostsLoop.outer cap b len fuel parent target s ≠ none

/-- C121 is false of the code in this respect: the sender is not looked at (hosts.c 253-259), and the first bytes that arrive
are used as an address in memory (hosts.c 266-268, iheader.h 14). -/
theorem only_own_false : ¬ OnlyOwn := by
  intro h
  exact h Nat 4096 [] 8 1 5 [] ⟨Bst.State.init, fun _ => none⟩ rfl

/-- The hypotheses are met: the first port is taken. -/
example : tryBind (fun _ => [127, 0, 0, 1]) false (fun p => if p = 10200 then .refused 4 else .bound 5) 10200 =
    some (some (5, ⟨.inet, some [127, 0, 0, 1], 10201⟩),
      [.opened 4, .bind 4 ⟨.inet, some [127, 0, 0, 1], 10200⟩, .closed 4, .opened 5, .bind 5 ⟨.inet, some [127, 0, 0, 1], 10201⟩]) := by
  have h1 : convert (fun _ => [127, 0, 0, 1]) (loopback false) 10200 = .ok ⟨.inet, some [127, 0, 0, 1], 10200⟩ := by decide +kernel
  have h2 : convert (fun _ => [127, 0, 0, 1]) (loopback false) 10201 = .ok ⟨.inet, some [127, 0, 0, 1], 10201⟩ := by decide +kernel
  simp [tryBind, attempts, h1, h2]

end Verif.Local
