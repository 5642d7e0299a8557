import Verif.Lemmas.AddressList
import Mathlib.Data.List.Perm.Subperm
import Mathlib.Data.List.Nodup
/-! Server addresses and turns over them (C35, C60). -/

namespace Verif.AddressList
open IpText

/-! ### Text -/

/-- C60: every documented form of a server address is understood as that address and port. -/
theorem understood (inet : List Byte → List Byte) (hi : InetOk inet) (dflt : Nat) (s a : List Byte) (f : Family) (p : Nat)
    (h : ServerText dflt s f a p) : convert inet s dflt = .ok ⟨f, some a, p⟩ := by
  cases h with
  | @v4 t q a p h hq =>
    obtain ⟨hl, hc⟩ := v4_chars h
    have hc58 : ∀ c ∈ t, c ≠ 58 := by
      intro c hm e
      subst e
      rcases hc _ hm with e | e
      · exact absurd e (by decide)
      · exact absurd e (by decide)
    have hq91 : (91 : Byte) ∉ q := by
      cases hq with
      | absent => simp
      | given h hp =>
        intro hm
        rcases List.mem_cons.1 hm with e | hm
        · exact absurd e (by decide)
        · exact absurd (num_chars h _ hm) (by decide)
    have hfam : family (t ++ q) = some .inet := by
      unfold family
      rw [if_neg (by
        intro hm
        rcases List.mem_append.1 hm with hm | hm
        · rcases hc _ hm with e | e
          · exact absurd e (by decide)
          · exact absurd e (by decide)
        · exact hq91 hm)]
      cases h with
      | @mk _ _ _ _ a b c d h1 h2 h3 h4 =>
        have la := UInt8.toNat_lt a
        have lb := UInt8.toNat_lt b
        have lc := UInt8.toNat_lt c
        have ld := UInt8.toNat_lt d
        have := v4_scan (.mk h1.1 h2.1 h3.1 h4.1) q (by omega) (by omega) (by omega) (by omega) (by
          intro x hx
          cases hq with
          | absent => simp at hx
          | given => simp at hx; subst hx; decide)
        rw [this]
        rfl
    obtain ⟨hp, ht⟩ := port_ok hq t hc58
    unfold convert
    rw [hfam]
    simp only [hp, ht]
    rw [List.take_of_length_le hl, hi t a h]
  | @v6 t q a vs p h ha hq =>
    obtain ⟨hl, hc⟩ := v6_chars h
    have hfam : family (91 :: (t ++ 93 :: q)) = some .inet6 := by
      unfold family; rw [if_pos (by simp)]
    have hcs : ∀ c ∈ (91 : Byte) :: t, (c != 93) = true := by
      intro c hm
      rcases List.mem_cons.1 hm with e | hm
      · subst e; decide
      · simpa using hc c hm
    have h1 := takeWhile_stop (· != 93) (91 :: t) (93 :: q) hcs (by simp)
    have h2 := takeWhile_stop (· != 93) t (93 :: q) (fun c hm => by simpa using hc c hm) (by simp)
    obtain ⟨hp, -⟩ := port_ok hq [93] (by simp)
    obtain ⟨b, hb, hB⟩ := v6_parse h [] (by simp)
    have e1 := v6Bytes_eq a vs (by rw [ha.1, ha.2.1]) (by rw [ha.2.1]; exact ha.2.2)
    have e2 := v6Bytes_eq b vs (by rw [hB.1, hB.2.1]) (by rw [hB.2.1]; exact hB.2.2)
    rw [← e1] at e2
    subst e2
    unfold convert
    rw [hfam]
    simp only [List.cons_append] at h1
    simp only [h1.2, List.drop_succ_cons, List.drop_zero, h2.1]
    rw [List.take_of_length_le hl]
    simp only [List.cons_append, List.nil_append] at hp hb
    rw [hp, hb]

/-- C60, the other half: every other text is refused. -/
def Refuses : Prop := ∀ (inet : List Byte → List Byte) (dflt : Nat) (s : List Byte), InetOk inet →
  (∀ f a p, ¬ ServerText dflt s f a p) → convert inet s dflt = .refused

theorem serverText_ends {dflt : Nat} {s a : List Byte} {f : Family} {p : Nat} (h : ServerText dflt s f a p) :
    s.getLast? ≠ some 58 := by
  have hnum : ∀ {t : List Byte} {n : Nat}, DecNum t n → ∀ r : List Byte, (r ++ t).getLast? ≠ some 58 := by
    intro t n hn r e
    rw [List.getLast?_append_of_ne_nil _ (num_ne_nil hn)] at e
    exact absurd (num_chars hn _ (List.mem_of_getLast? e)) (by decide)
  cases h with
  | @v4 t q a p h hq =>
    cases hq with
    | absent =>
      cases h with
      | @mk s t u v _ _ _ _ h1 h2 h3 h4 =>
        have := hnum h4.1 (s ++ 46 :: (t ++ 46 :: (u ++ [46])))
        simpa using this
    | given h hp => exact fun e => hnum h (t ++ [58]) (by rw [List.append_assoc]; exact e)
  | @v6 t q a vs p h ha hq =>
    cases hq with
    | absent =>
      have : (91 :: (t ++ [93])) = (91 :: t) ++ [93] := rfl
      rw [this, List.getLast?_concat]
      decide
    | @given t' p' h hp =>
      have := hnum h (91 :: (t ++ [93, 58]))
      simpa using this

/-- C60, the other half, is false of the code: in `1.2.3.4:` no digit follows the colon, and a port
that was never assigned is used. -/
theorem refuses_false : ¬ Refuses := by
  intro h
  have hex : ∃ inet : List Byte → List Byte, InetOk inet := by
    classical
    refine ⟨fun t => if h : ∃ a, V4Plain t a then h.choose else [], ?_⟩
    intro t a ha
    have hex : ∃ a, V4Plain t a := ⟨a, ha⟩
    dsimp only
    rw [dif_pos hex]
    have hu : ∀ a b, V4Plain t a → V4Plain t b → a = b := by
      intro a b ha hb
      have hpair : ∀ a, V4Plain t a → v4ToNum t = .ret 4 (some a) := by
        intro a ha
        cases ha with
        | @mk _ _ _ _ a b c d h1 h2 h3 h4 =>
          have la := UInt8.toNat_lt a
          have lb := UInt8.toNat_lt b
          have lc := UInt8.toNat_lt c
          have ld := UInt8.toNat_lt d
          have := v4_scan (.mk h1.1 h2.1 h3.1 h4.1) [] (by omega) (by omega) (by omega) (by omega) (by simp)
          simpa using this
      have := (hpair a ha).symm.trans (hpair b hb)
      simpa using this
    exact hu _ _ hex.choose_spec ha
  obtain ⟨inet, hi⟩ := hex
  have h1 := h inet 53 (str "1.2.3.4:") hi (fun f a p hs => serverText_ends hs (by decide +kernel))
  have h2 : ∀ inet, convert inet (str "1.2.3.4:") 53 = .undef := by
    intro inet
    have hf : family (str "1.2.3.4:") = some .inet := by decide +kernel
    have hp : portOf (str "1.2.3.4:") 53 = none := by decide +kernel
    unfold convert
    rw [hf]
    dsimp only
    rw [hp]
  rw [h2] at h1
  cases h1

/-- C60, the other half: what is accepted has a bracketed part, or starts with four numbers separated
by dots. -/
theorem refuses_partial (inet : List Byte → List Byte) (dflt : Nat) (s : List Byte) (x : Sock)
    (h : convert inet s dflt = .ok x) :
    ((91 : Byte) ∈ s ∧ (93 : Byte) ∈ s) ∨ ∃ t1 t2 t3 t4 rest, ∃ a b c d : Int,
      s = t1 ++ 46 :: (t2 ++ 46 :: (t3 ++ 46 :: (t4 ++ rest))) ∧
      SignedNum t1 a ∧ SignedNum t2 b ∧ SignedNum t3 c ∧ SignedNum t4 d := by
  unfold convert at h
  by_cases h91 : (91 : Byte) ∈ s
  · left
    refine ⟨h91, ?_⟩
    have hf : family s = some .inet6 := by unfold family; rw [if_pos h91]
    rw [hf] at h
    dsimp only at h
    split at h
    · cases h
    · rename_i rest hne
      refine Classical.byContradiction fun h93 => ?_
      have : s.dropWhile (· != 93) = [] := by
        rw [← List.append_nil s]
        exact (takeWhile_stop (· != 93) s [] (fun c hc => by
          simp only [bne_iff_ne, ne_eq]; rintro rfl; exact h93 hc) (by simp)).2
      exact hne this
  · right
    unfold family at h
    rw [if_neg h91] at h
    cases hv : v4ToNum s with
    | undef => rw [hv] at h; simp at h
    | ret n buf =>
      rw [hv] at h
      dsimp only at h
      by_cases hn : n = 4
      · subst hn
        obtain ⟨t1, t2, t3, t4, rest, a, b, c, d, e, n1, n2, n3, n4, -⟩ := v4_rejects_partial s buf hv
        exact ⟨t1, t2, t3, t4, rest, a, b, c, d, e, n1, n2, n3, n4⟩
      · rw [if_neg hn] at h
        cases h

theorem letter_class (c : Byte) (hc : 65 ≤ c.toNat ∧ c.toNat ≤ 90 ∨ 97 ≤ c.toNat ∧ c.toNat ≤ 122) :
    isSpace c = false ∧ c ≠ 45 ∧ c ≠ 43 ∧ decVal c = none := by
  have h : ∀ n, n < 256 → (65 ≤ n ∧ n ≤ 90 ∨ 97 ≤ n ∧ n ≤ 122) →
      isSpace (UInt8.ofNat n) = false ∧ UInt8.ofNat n ≠ 45 ∧ UInt8.ofNat n ≠ 43 ∧ decVal (UInt8.ofNat n) = none := by decide +kernel
  have := h c.toNat (UInt8.toNat_lt c) hc
  rwa [UInt8.ofNat_toNat] at this

/-- C60: a name in the place of an address is refused. -/
theorem name_refused (inet : List Byte → List Byte) (dflt : Nat) {t : List Byte} (h : NotAnAddress t) : convert inet t dflt = .refused := by
  obtain ⟨⟨c, r, rfl, hc⟩, hb⟩ := h
  obtain ⟨hsp, hsg⟩ := letter_class c hc
  have hsk : skipSpace (c :: r) = c :: r := by
    unfold skipSpace; rw [List.dropWhile_cons_of_neg (by simp [hsp])]
  have hs : scanDec (c :: r) = .fail := by
    unfold scanDec
    rw [hsk]
    simp [sign, hsg.1, hsg.2.1, spanDigits, hsg.2.2]
  have hv : v4ToNum (c :: r) = .ret 0 none := by
    unfold v4ToNum
    simp [scanList, hs, hsk]
  have hf : family (c :: r) = some .unspec := by
    unfold family
    rw [if_neg hb, hv]
    rfl
  unfold convert
  rw [hf]

example : ServerText 53 (str "8.8.4.4:5353") .inet [8, 8, 4, 4] 5353 :=
  .v4 (t := str "8.8.4.4") (.mk (s := str "8") (t := str "8") (u := str "4") (v := str "4") ⟨.one (by decide), by decide⟩
    ⟨.one (by decide), by decide⟩ ⟨.one (by decide), by decide⟩ ⟨.one (by decide), by decide⟩)
    (.given (t := str "5353") (.more (.more (.more (.one (d := 5) (by decide)) (d := 3) (by decide)) (d := 5) (by decide)) (d := 3) (by decide)) (by omega))
example : convert id (str "[2001:db8::1]:5353") 53 =
    .ok ⟨.inet6, some [0x20, 1, 0xd, 0xb8, 0, 0, 0, 0, 0, 0, 0, 0, 0, 0, 0, 1], 5353⟩ := by decide +kernel
example : convert id (str "dns.example") 53 = .refused := by decide +kernel

/-! ### Turns -/

/-- A list of servers. -/
def build : List Sock → Option AddrList → Option AddrList
  | [], a => a
  | s :: ss, a => build ss (a.bind fun a => add a s)

/-- The address returned after `k` servers have been given up. -/
def pick (a : AddrList) : Nat → Got
  | 0 => getOne a
  | k + 1 => pick (advance a) k

/-- An address list that holds exactly these servers. -/
structure HasServers (a : AddrList) (l : List Sock) : Prop where
  inv : Arr.Inv a.arr
  cont : Arr.contents a.arr = l.map some

theorem add_has {a : AddrList} {l : List Sock} (h : HasServers a l) (s : Sock) :
    ∃ b, add a s = some b ∧ HasServers b (l ++ [s]) ∧ b.counter = a.counter := by
  rcases Arr.push_spec (ok := true) (x := s) h.inv with ⟨h1, -⟩ | ⟨b, h1, h2, h3⟩
  · cases h1
  · refine ⟨{ a with arr := b }, by simp [add, h1], ⟨h2, by rw [h3, h.cont]; simp⟩, rfl⟩

theorem build_has (ss : List Sock) : ∀ (a : AddrList) (l : List Sock), HasServers a l →
    ∃ b, build ss (some a) = some b ∧ HasServers b (l ++ ss) ∧ b.counter = a.counter := by
  induction ss with
  | nil => intro a l h; exact ⟨a, rfl, by simpa using h, rfl⟩
  | cons s ss ih =>
    intro a l h
    obtain ⟨b, h1, h2, h3⟩ := add_has h s
    obtain ⟨c, h4, h5, h6⟩ := ih b _ h2
    exact ⟨c, by simp [build, h1, h4], by simpa using h5, by rw [h6, h3]⟩

theorem init_has : HasServers init [] := ⟨by simp [Arr.Inv, init, Arr.init], by simp [Arr.contents, init, Arr.init]⟩

theorem used_eq {a : AddrList} {l : List Sock} (h : HasServers a l) : a.arr.used = l.length := by
  have := Arr.contents_length h.inv
  rw [h.cont] at this
  simpa using this.symm

theorem get_has {a : AddrList} {l : List Sock} (h : HasServers a l) (i : Nat) (hi : i < l.length) :
    getBySubscript a (i : Int) = .addr l[i] := by
  have hu := used_eq h
  unfold getBySubscript Arr.getBySubscript
  rw [if_pos (by omega)]
  have : Arr.read a.arr i = some (some l[i]) := by
    unfold Arr.read
    rw [← Arr.contents_get i (by omega), h.cont]
    simp [hi]
  simp [this]

theorem pick_eq (k : Nat) : ∀ {a : AddrList} {l : List Sock}, HasServers a l → (hl : 0 < l.length) →
    pick a k = .addr (l[((a.counter.toNat + k) % 4294967296) % l.length]'(Nat.mod_lt _ hl)) := by
  induction k with
  | zero =>
    intro a l h hl
    have hu := used_eq h
    have hc := UInt32.toNat_lt a.counter
    simp only [pick, getOne, Nat.add_zero]
    rw [if_neg (by omega), hu, get_has h _ (Nat.mod_lt _ hl)]
    simp only [Nat.mod_eq_of_lt (show a.counter.toNat < 4294967296 by omega)]
  | succ k ih =>
    intro a l h hl
    have h' : HasServers (advance a) l := ⟨h.inv, h.cont⟩
    simp only [pick]
    rw [ih h' hl]
    have : (advance a).counter.toNat = (a.counter.toNat + 1) % 4294967296 := by
      simp [advance, UInt32.toNat_add]
    have e : ((advance a).counter.toNat + k) % 4294967296 = (a.counter.toNat + (k + 1)) % 4294967296 := by
      rw [this]; omega
    simp only [e]

/-- The servers tried in `n` turns from turn `k` on. -/
def turns (a : AddrList) (k n : Nat) : List Got := (List.range n).map fun i => pick a (k + i)

/-- C35, the full claim: as many turns as there are servers try each server once. -/
def Fair : Prop := ∀ (l : List Sock) (a : AddrList) (k : Nat), l ≠ [] → build l (some init) = some a →
  (turns a k l.length).Perm (l.map Got.addr)

/-- A server of an example. -/
def server (n : Byte) : Sock := ⟨.inet, some [10, 0, 0, n], 53⟩

/-- C35 is false of the code when the counter of 32 bits starts again: with three servers, one of them is
tried twice. -/
theorem fair_false : ¬ Fair := by
  intro h
  have hb : ∃ a, build [server 1, server 2, server 3] (some init) = some a ∧ HasServers a [server 1, server 2, server 3] ∧
      a.counter = 0 := by
    obtain ⟨b, h1, h2, h3⟩ := build_has [server 1, server 2, server 3] init [] init_has
    exact ⟨b, h1, by simpa using h2, h3⟩
  obtain ⟨a, h1, h2, h3⟩ := hb
  have := h [server 1, server 2, server 3] a 4294967295 (by simp) h1
  have ht : turns a 4294967295 3 = [.addr (server 1), .addr (server 1), .addr (server 2)] := by
    simp only [turns, List.range, List.range.loop, List.map_cons, List.map_nil]
    have e : ∀ (k j : Nat) (hj : j < 3), (k % 4294967296) % 3 = j →
        pick a k = .addr ([server 1, server 2, server 3][j]) := by
      intro k j hj hk
      rw [pick_eq _ h2 (by simp)]
      have : (a.counter.toNat + k) % 4294967296 % [server 1, server 2, server 3].length = j := by
        rw [h3]; simpa [init] using hk
      simp only [this]
    rw [e (4294967295 + 0) 0 (by omega) (by omega), e (4294967295 + 1) 0 (by omega) (by omega),
      e (4294967295 + 2) 1 (by omega) (by omega)]
    rfl
  rw [List.length_cons, List.length_cons, List.length_cons, List.length_nil, ht] at this
  exact absurd this (by decide)

theorem range_mod_perm (n c : Nat) (hn : 0 < n) : ((List.range n).map fun i => (c + i) % n).Perm (List.range n) := by
  have hsub : ((List.range n).map fun i => (c + i) % n).Nodup := by
    rw [List.nodup_map_iff_inj_on List.nodup_range]
    intro x hx y hy e
    rw [List.mem_range] at hx hy
    have h1 := Nat.div_add_mod (c + x) n
    have h2 := Nat.div_add_mod (c + y) n
    have hx' : (c + x) % n < n := Nat.mod_lt _ hn
    rw [e] at h1
    refine Classical.byContradiction fun hne => ?_
    rcases Nat.lt_or_gt_of_ne hne with hlt | hlt
    · have h3 : (c + x) / n < (c + y) / n := by
        refine Classical.byContradiction fun hc => ?_
        have := Nat.mul_le_mul_left n (Nat.le_of_not_lt hc)
        omega
      have := Nat.mul_le_mul_left n h3
      rw [Nat.mul_succ] at this
      omega
    · have h3 : (c + y) / n < (c + x) / n := by
        refine Classical.byContradiction fun hc => ?_
        have := Nat.mul_le_mul_left n (Nat.le_of_not_lt hc)
        omega
      have := Nat.mul_le_mul_left n h3
      rw [Nat.mul_succ] at this
      omega
  refine List.Subperm.perm_of_length_le ?_ (by simp)
  refine List.subperm_of_subset hsub ?_
  intro x hx
  obtain ⟨i, -, rfl⟩ := List.mem_map.1 hx
  exact List.mem_range.2 (Nat.mod_lt _ hn)

/-- C35: as many turns as there are servers try each server once, until the counter of 32 bits starts
again. -/
theorem fair_partial (l : List Sock) (a : AddrList) (k : Nat) (hl : l ≠ []) (hb : build l (some init) = some a)
    (hk : k + l.length ≤ 4294967296) : (turns a k l.length).Perm (l.map Got.addr) := by
  obtain ⟨b, h1, h2, h3⟩ := build_has l init [] init_has
  rw [hb] at h1
  cases h1
  have hpos : 0 < l.length := List.length_pos_of_ne_nil hl
  have h2 : HasServers a l := by simpa using h2
  have hc : a.counter.toNat = 0 := by rw [h3]; rfl
  have e : turns a k l.length = ((List.range l.length).map fun i => (k + i) % l.length).map
      (fun j => (l.map Got.addr)[j]?.getD .undef) := by
    unfold turns
    rw [List.map_map]
    refine List.map_congr_left fun i hi => ?_
    rw [List.mem_range] at hi
    rw [pick_eq _ h2 hpos]
    have hm : (k + i) % l.length < l.length := Nat.mod_lt _ hpos
    have e : (a.counter.toNat + (k + i)) % 4294967296 = k + i := by rw [hc]; omega
    simp only [e, Function.comp]
    rw [List.getElem?_eq_getElem (by simpa using hm)]
    simp
  rw [e]
  refine ((range_mod_perm l.length k hpos).map _).trans ?_
  have : (List.range l.length).map (fun j => (l.map Got.addr)[j]?.getD .undef) = l.map Got.addr := by
    refine List.ext_getElem (by simp) fun i h1 h2 => ?_
    simp at h1
    rw [List.getElem_map, List.getElem_range, List.getElem?_eq_getElem (by simpa using h1)]
    rfl
  rw [this]

/-- C35: with any server in the list a server is found at every turn, also when the counter starts
again. -/
theorem always_some (l : List Sock) (a : AddrList) (k : Nat) (hl : l ≠ []) (hb : build l (some init) = some a) :
    ∃ s ∈ l, pick a k = .addr s := by
  obtain ⟨b, h1, h2, h3⟩ := build_has l init [] init_has
  rw [hb] at h1
  cases h1
  have hpos : 0 < l.length := List.length_pos_of_ne_nil hl
  exact ⟨_, List.getElem_mem _, pick_eq k (by simpa using h2) hpos⟩

/-- Without servers the code divides by zero. -/
theorem empty_undefined (k : Nat) : pick init k = .undef := by
  have : ∀ k (a : AddrList), a.arr.used = 0 → pick a k = .undef := by
    intro k
    induction k with
    | zero => intro a h; simp [pick, getOne, h]
    | succ k ih => intro a h; simp only [pick]; exact ih _ h
  exact this k init rfl

/-- The parallel servers are exactly those of the family asked for, in order. -/
theorem ofFamily_eq (l : List Sock) (a : AddrList) (f : Family) (hb : build l (some init) = some a) :
    ofFamily a f = some (l.filter fun s => s.family = f) := by
  obtain ⟨b, h1, h2, h3⟩ := build_has l init [] init_has
  rw [hb] at h1
  cases h1
  have h2 : HasServers a l := by simpa using h2
  have : ∀ n i, i + n = l.length → ofFamilyLoop a f n i = some ((l.drop i).filter fun s => s.family = f) := by
    intro n
    induction n with
    | zero => intro i hi; rw [List.drop_eq_nil_of_le (by omega)]; rfl
    | succ n ih =>
      intro i hi
      rw [ofFamilyLoop, get_has h2 i (by omega)]
      dsimp only
      rw [ih (i + 1) (by omega), List.drop_eq_getElem_cons (show i < l.length by omega), List.filter_cons]
      simp only [Option.map_some, decide_eq_true_eq]
  unfold ofFamily
  rw [used_eq h2, this l.length 0 (by omega)]
  rfl

example : (build [server 1, server 2, server 3] (some init)).map (fun a => turns a 1 3) =
    some [.addr (server 2), .addr (server 3), .addr (server 1)] := by decide +kernel

end Verif.AddressList
