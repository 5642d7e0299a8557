import Verif.Model.HostsLoop
import Verif.Model.DnsCache
/-! Building a reply never touches the identifier: the first two bytes stay, whatever is written. -/

namespace Verif.Keeps
open Generator Parser Msg

/-- A message of at least 12 bytes that starts with `t`. -/
def Starts (t out : List Byte) : Prop := 12 ≤ out.length ∧ out.take 2 = t

theorem starts_append {t out bs : List Byte} (h : Starts t out) : Starts t (out ++ bs) := by
  obtain ⟨h1, h2⟩ := h
  refine ⟨by simp; omega, ?_⟩
  rw [List.take_append_of_le_length (by omega), h2]

theorem starts_overwrite {t out bs : List Byte} {i : Nat} (h : Starts t out) (hi : 2 ≤ i) (hl : i ≤ out.length) :
    Starts t (overwrite out i bs) := by
  obtain ⟨h1, h2⟩ := h
  unfold overwrite
  have hlen : (out.take i).length = i := by simp; omega
  refine ⟨by simp; omega, ?_⟩
  rw [List.append_assoc, List.take_append_of_le_length (by omega), List.take_take, Nat.min_eq_left hi, h2]

theorem starts_modify {t out : List Byte} {i : Nat} {f : Byte → Byte} (h : Starts t out) (hi : 2 ≤ i) : Starts t (out.modify i f) := by
  obtain ⟨h1, h2⟩ := h
  refine ⟨by simpa using h1, ?_⟩
  rw [← h2]
  apply List.ext_getElem?
  intro j
  simp only [List.getElem?_take, List.getElem?_modify]
  by_cases hj : j < 2
  · have : i ≠ j := by omega
    simp [hj, this]
  · simp [hj]

theorem starts_writes {t : List Byte} (fs : List (Int × List Byte)) : ∀ {g : Gen}, Starts t g.out → Starts t (writes g fs).2.out := by
  induction fs with
  | nil => intro g h; simpa [writes] using h
  | cons f fs ih =>
    intro g h
    obtain ⟨code, bs⟩ := f
    unfold writes
    split
    · exact ih (g := { g with out := g.out ++ bs }) (starts_append h)
    · exact h

theorem writes_num (fs : List (Int × List Byte)) : ∀ {g : Gen}, (writes g fs).2.num = g.num := by
  induction fs with
  | nil => intro g; simp [writes]
  | cons f fs ih =>
    intro g
    obtain ⟨code, bs⟩ := f
    unfold writes
    split
    · rw [ih]
    · rfl

/-- A generator whose message starts with `t`, with a sensible section. -/
def Ok (t : List Byte) (g : Gen) : Prop := Starts t g.out ∧ 4 ≤ g.num ∧ g.num ≤ 12

theorem ok_counted {t : List Byte} {g : Gen} {fs : List (Int × List Byte)} (h : Ok t g) : Ok t (counted (writes g fs)).2 := by
  obtain ⟨h1, h2, h3⟩ := h
  have hs := starts_writes fs h1
  have hn := writes_num fs (g := g)
  unfold counted
  split
  · refine ⟨?_, by simp only [bump]; omega, by simp only [bump]; omega⟩
    unfold bump
    exact starts_overwrite hs (by omega) (by rw [hn]; have := hs.1; omega)
  · exact ⟨hs, by omega, by omega⟩

theorem ok_question {t : List Byte} {g : Gen} {name : List Byte} {type klass : Nat} (h : Ok t g) : Ok t (question g name type klass).2 := by
  unfold question; split
  · exact h
  · exact ok_counted h

theorem ok_cname {t : List Byte} {g : Gen} {name target : List Byte} {ttl : Nat} (h : Ok t g) : Ok t (cname g name target ttl).2 := by
  unfold cname; split
  · exact h
  · exact ok_counted h

theorem ok_mx {t : List Byte} {g : Gen} {name target : List Byte} {pref ttl : Nat} (h : Ok t g) : Ok t (mx g name pref target ttl).2 := by
  unfold mx; split
  · exact h
  · exact ok_counted h

theorem ok_edns {t : List Byte} {g : Gen} {n : Nat} (h : Ok t g) : Ok t (edns g n).2 := by
  unfold edns; split
  · exact h
  · exact ok_counted h

theorem ok_rawData {t : List Byte} {g g' : Gen} {name data : List Byte} {type klass ttl : Nat} {code : Int} (h : Ok t g)
    (e : rawData g name type klass data ttl = some (code, g')) : Ok t g' := by
  unfold rawData at e
  dsimp only at e
  have hs := fun fs => starts_writes fs h.1
  have hn := fun fs => writes_num fs (g := g)
  split at e
  · simp only [Option.some.injEq, Prod.mk.injEq] at e; rw [← e.2]; exact h
  · split at e
    · simp only [Option.some.injEq, Prod.mk.injEq] at e; rw [← e.2]; exact h
    · split at e
      · simp only [Option.some.injEq] at e
        have e2 := congrArg Prod.snd e
        dsimp only at e2
        rw [← e2]
        exact ⟨hs _, by rw [hn]; exact h.2.1, by rw [hn]; exact h.2.2⟩
      · split at e
        · simp only [Option.some.injEq, Prod.mk.injEq] at e
          rw [← e.2]
          unfold bump
          refine ⟨starts_overwrite (starts_append (hs _)) ?_ ?_, ?_, ?_⟩
          · dsimp only; rw [hn]; have := h.2.1; omega
          · dsimp only; rw [hn]; have := h.2.2; have := (hs [(-1, Name.labelize name), (-2, set16 type), (-3, set16 klass), (-4, set32 ttl), (-5, set16 data.length)]).1
            simp only [List.length_append]; omega
          · dsimp only; rw [hn]; exact h.2.1
          · dsimp only; rw [hn]; exact h.2.2
        · cases e

theorem ok_copyCName {t : List Byte} {g g' : Gen} {mem : Nat → Byte} {pos row type klass ttl fuel : Nat} {code : Int} (h : Ok t g)
    (e : copyCName g mem pos row type klass ttl fuel = some (code, g')) : Ok t g' := by
  unfold copyCName at e
  split at e
  · simp only [Option.some.injEq, Prod.mk.injEq] at e; rw [← e.2]; exact h
  · split at e
    · simp only [Option.some.injEq, Prod.mk.injEq] at e; rw [← e.2]; exact h
    · split at e
      · simp only [Option.some.injEq] at e
        have e2 := congrArg Prod.snd e
        dsimp only at e2
        rw [← e2]
        exact ok_counted h
      · cases e

theorem ok_copyAddr {t : List Byte} {g g' : Gen} {mem : Nat → Byte} {want n pos row type klass ttl fuel : Nat} {code : Int} (h : Ok t g)
    (e : copyAddr g mem want n pos row type klass ttl fuel = some (code, g')) : Ok t g' := by
  unfold copyAddr at e
  split at e
  · simp only [Option.some.injEq, Prod.mk.injEq] at e; rw [← e.2]; exact h
  · split at e
    · simp only [Option.some.injEq, Prod.mk.injEq] at e; rw [← e.2]; exact h
    · split at e
      · simp only [Option.some.injEq] at e
        have e2 := congrArg Prod.snd e
        dsimp only at e2
        rw [← e2]
        exact ok_counted h
      · cases e

theorem ok_generate {t : List Byte} {g g' : Gen} {name data : List Byte} {type klass ttl : Nat} {code : Int} (h : Ok t g)
    (e : generate g name type klass data ttl = some (code, g')) : Ok t g' := by
  unfold generate at e
  split at e
  · exact ok_rawData h e
  · split at e
    · split at e
      · simp only [Option.some.injEq] at e
        have e2 := congrArg Prod.snd e
        dsimp only at e2
        rw [← e2]; exact ok_cname h
      · cases e
    · split at e
      · split at e
        · simp only [Option.some.injEq] at e
          have e2 := congrArg Prod.snd e
          dsimp only at e2
          rw [← e2]; exact ok_mx h
        · cases e
      · simp only [Option.some.injEq, Prod.mk.injEq] at e; rw [← e.2]; exact h

theorem ok_nextPurpose {t : List Byte} {g : Gen} (h : Ok t g) : Ok t (nextPurpose g).1 := by
  unfold nextPurpose
  split
  · exact h
  · rename_i hp
    refine ⟨h.1, ?_, ?_⟩
    · have := h.2.1; dsimp only; omega
    · dsimp only
      unfold purposeOf at hp
      have := h.2.2
      repeat' split at hp
      all_goals first | omega | exact absurd rfl hp

theorem ok_toAdditional {t : List Byte} (n : Nat) : ∀ {g g' : Gen}, Ok t g → toAdditional n g = some g' → Ok t g' := by
  induction n with
  | zero => intro g g' h e; cases e
  | succ n ih =>
    intro g g' h e
    unfold toAdditional at e
    have h' := ok_nextPurpose h
    generalize nextPurpose g = r at e h'
    obtain ⟨g1, p⟩ := r
    dsimp only at e h'
    split at e
    · simp only [Option.some.injEq] at e; subst e; exact h'
    · exact ih h' e

theorem ok_additional {t : List Byte} {e : Bool} {g g' : Gen} {code : Int} (h : Ok t g)
    (he : (if e then (toAdditional 3 g).map (fun g3 => Generator.edns g3 1280) else some (0, g)) = some (code, g')) : Ok t g' := by
  split at he
  · cases hx : toAdditional 3 g with
    | none => rw [hx] at he; cases he
    | some g3 =>
      rw [hx] at he
      simp only [Option.map_some, Option.some.injEq] at he
      have e2 := congrArg Prod.snd he
      dsimp only at e2
      rw [← e2]; exact ok_edns (ok_toAdditional 3 h hx)
  · simp only [Option.some.injEq, Prod.mk.injEq] at he; rw [← he.2]; exact h

theorem ok_replyFlags {t : List Byte} {g : Gen} (h : Ok t g) : Ok t (Hosts.replyFlags g) :=
  ⟨starts_modify (starts_modify h.1 (by omega)) (by omega), h.2⟩

/-! ### The iterator stays behind the header -/

theorem look_pos {b : List Byte} {len : Nat} {c : Counts} {it it' : Itr} {p n : Nat} {r : Option Nat}
    (h : look b len c it p n = some (it', r)) : (∀ q, it'.pos = some q → q = p) ∧ (∀ q, r = some q → q = p ∧ p ≤ len) := by
  unfold look at h
  split at h
  · simp only [Option.some.injEq, Prod.mk.injEq] at h
    obtain ⟨rfl, rfl⟩ := h
    exact ⟨fun q hq => by simp at hq, fun q hq => by simp at hq⟩
  · rename_i hc
    have hle : p ≤ len := by omega
    split at h
    · cases h
    · split at h
      · dsimp only at h
        split at h
        · split at h
          · split at h
            · cases h
            · simp only [Option.some.injEq, Prod.mk.injEq] at h
              obtain ⟨rfl, rfl⟩ := h
              exact ⟨fun q hq => by simpa using hq.symm, fun q hq => ⟨by simpa using hq.symm, hle⟩⟩
          · simp only [Option.some.injEq, Prod.mk.injEq] at h
            obtain ⟨rfl, rfl⟩ := h
            exact ⟨fun q hq => by simpa using hq.symm, fun q hq => ⟨by simpa using hq.symm, hle⟩⟩
        · simp only [Option.some.injEq, Prod.mk.injEq] at h
          obtain ⟨rfl, rfl⟩ := h
          exact ⟨fun q hq => by simp at hq, fun q hq => by simp at hq⟩
      · cases h

theorem next_pos {b : List Byte} {len : Nat} {c : Counts} {it it' : Itr} {r : Option Nat} (hit : ∀ q, it.pos = some q → 12 ≤ q)
    (h : next b len c it = some (it', r)) :
    (∀ q, it'.pos = some q → 12 ≤ q) ∧ (∀ q, r = some q → 12 ≤ q ∧ q ≤ len) := by
  unfold next at h
  cases hp : it.pos with
  | none =>
    rw [hp] at h
    have := look_pos h
    refine ⟨fun q hq => ?_, fun q hq => ?_⟩
    · rw [this.1 q hq]; omega
    · obtain ⟨rfl, h2⟩ := this.2 q hq; exact ⟨by omega, h2⟩
  | some p =>
    rw [hp] at h
    have h12 := hit p hp
    dsimp only at h
    split at h
    · split at h
      · cases h
      · have := look_pos h
        refine ⟨fun q hq => ?_, fun q hq => ?_⟩
        · rw [this.1 q hq]; omega
        · obtain ⟨rfl, h2⟩ := this.2 q hq; exact ⟨by omega, h2⟩
    · simp only [Option.some.injEq, Prod.mk.injEq] at h
      obtain ⟨rfl, rfl⟩ := h
      exact ⟨fun q hq => by simp at hq, fun q hq => by simp at hq⟩

theorem gotoLoop_pos {b : List Byte} {len : Nat} {c : Counts} (n : Nat) : ∀ {it it' : Itr}, (∀ q, it.pos = some q → 12 ≤ q) →
    gotoLoop b len c n it = some it' → ∀ q, it'.pos = some q → 12 ≤ q := by
  induction n with
  | zero => intro it it' _ h; cases h
  | succ n ih =>
    intro it it' hit h
    unfold gotoLoop at h
    cases hn : next b len c it with
    | none => rw [hn] at h; cases h
    | some r =>
      obtain ⟨i1, r⟩ := r
      have hp := next_pos hit hn
      rw [hn] at h
      cases r with
      | none => simp only [Option.some.injEq] at h; subst h; exact hp.1
      | some p =>
        dsimp only at h
        split at h
        · simp only [Option.some.injEq] at h; subst h; exact hp.1
        · exact ih hp.1 h

theorem gotoAnswers_pos {b : List Byte} {len : Nat} {c : Counts} {it it' : Itr}
    (h : gotoAnswers b len c it = some it') : ∀ q, it'.pos = some q → 12 ≤ q := by
  unfold gotoAnswers at h
  dsimp only at h
  split at h
  · exact gotoLoop_pos _ (fun q hq => by simp at hq) h
  · simp only [Option.some.injEq] at h; subst h; exact fun q hq => by simp at hq

theorem starts_compressLoop {t : List Byte} {c : Counts} (n : Nat) : ∀ {b b' : List Byte} {it : Itr} {last : Nat} {l : Int},
    Starts t b → (∀ q, it.pos = some q → 12 ≤ q) → compressLoop c n b it last = some (l, b') → Starts t b' := by
  induction n with
  | zero => intro b b' it last l _ _ h; cases h
  | succ n ih =>
    intro b b' it last l hs hit h
    unfold compressLoop at h
    cases hn : next b b.length c it with
    | none => rw [hn] at h; cases h
    | some r =>
      obtain ⟨i1, r⟩ := r
      have hp := next_pos hit hn
      rw [hn] at h
      cases r with
      | none => simp only [Option.some.injEq, Prod.mk.injEq] at h; rw [← h.2]; exact hs
      | some p =>
        obtain ⟨hp1, hp2⟩ := hp.2 p rfl
        dsimp only at h
        split at h
        · simp only [Option.some.injEq, Prod.mk.injEq] at h; rw [← h.2]; exact hs
        · split at h
          · exact ih hs hp.1 h
          · split at h
            · cases h
            · split at h
              · simp only [Option.some.injEq, Prod.mk.injEq] at h; rw [← h.2]; exact hs
              · refine ih ?_ hp.1 h
                have hl : (b.take p).length = p := by simp; omega
                refine ⟨by simp only [List.length_append, hl]; omega, ?_⟩
                rw [List.take_append_of_le_length (by omega), List.take_take, Nat.min_eq_left (by omega)]
                exact hs.2

theorem starts_compress {t b b' : List Byte} {l : Int} (hs : Starts t b) (h : compress b = some (l, b')) : Starts t b' := by
  unfold compress at h
  repeat' split at h
  all_goals first
    | cases h; done
    | (simp only [Option.some.injEq, Prod.mk.injEq] at h; rw [← h.2]; exact hs)
    | skip
  rename_i it' hg
  exact starts_compressLoop _ hs (gotoAnswers_pos hg) h

theorem ok_initFrom {cap len : Nat} {b : List Byte} {strip : Bool} {g : Gen} (h : initFrom cap b len strip = some g) :
    Ok (b.take 2) g := by
  have hl : ∀ c : Counts, 4 ≤ lastSection c ∧ lastSection c ≤ 12 := by
    intro c; unfold lastSection; repeat' split
    all_goals omega
  unfold initFrom at h
  repeat' split at h
  all_goals first | (cases h; done) | skip
  · rename_i n hn hc
    simp only [Option.some.injEq] at h
    subst h
    refine ⟨?_, by dsimp only; exact hl _⟩
    dsimp only
    refine starts_overwrite ⟨by simp; omega, ?_⟩ (by omega) (by simp; omega)
    rw [List.take_take, Nat.min_eq_left (by omega)]
  · rename_i hc
    simp only [Option.some.injEq] at h
    subst h
    refine ⟨⟨by simp; omega, ?_⟩, hl _⟩
    dsimp only
    rw [List.take_take, Nat.min_eq_left (by omega)]

/-! ### The replies -/

variable {Addr : Type}

theorem ok_generateNode {t : List Byte} {goodIp : List Byte → Option (List Byte)} {g g' : Gen} {ty : Hosts.HType} {d : Hosts.Data} {code : Int}
    (h : Ok t g) (e : Hosts.generateNode goodIp g ty d = some (code, g')) : Ok t g' := by
  unfold Hosts.generateNode at e
  split at e
  · simp only [Option.some.injEq] at e
    have e2 := congrArg Prod.snd e
    dsimp only at e2
    rw [← e2]; exact ok_cname h
  · exact ok_rawData h e
  · exact ok_rawData h e
  · cases e
  · cases e
  · split at e
    · simp only [Option.some.injEq, Prod.mk.injEq] at e; rw [← e.2]; exact h
    · exact ok_rawData h e
  · simp only [Option.some.injEq, Prod.mk.injEq] at e; rw [← e.2]; exact h

theorem starts_finish {t : List Byte} {goodIp : List Byte → Option (List Byte)} {g : Gen} {edns : Bool} {n : Hosts.HType × Hosts.Node} {b : List Byte}
    (h : Ok t g) (e : Hosts.finish goodIp g edns n = some (some b)) : Starts t b := by
  unfold Hosts.finish at e
  have h1 := ok_nextPurpose (ok_replyFlags h)
  generalize nextPurpose (Hosts.replyFlags g) = r at e h1
  obtain ⟨g1, p⟩ := r
  dsimp only at e h1
  split at e
  · cases e
  · split at e
    · cases e
    · rename_i code g2 hg
      split at e
      · cases e
      · have h2 := ok_generateNode h1 hg
        split at e
        · cases e
        · rename_i code' g3 hg3
          have h3 := ok_additional h2 hg3
          split at e
          · cases e
          · split at e
            · cases e
            · rename_i l b' hc
              split at e
              · cases e
              · simp only [Option.some.injEq] at e
                subst e
                exact starts_compress h3.1 hc

/-- What the hosts code sends: at most one message, with the header of the query. -/
theorem hostsGet_out {fnm : List Byte → List Byte → Bool} {goodIp : List Byte → Option (List Byte)} {s : Hosts.Hosts} {behind : List Byte}
    {handOk : Bool} {m : Ctx Addr} {code : Int} {o : List (Hosts.Out Addr)} (hm : 12 ≤ m.entity.length)
    (h : Hosts.hostsGet fnm goodIp s behind handOk m = some (code, o)) :
    o = [] ∨ o = [.handOver { m with entity := m.entity.take 2 }] ∨
      ∃ b, Starts (m.entity.take 2) b ∧ o = [.reply (sendBack { m with entity := b })] := by
  have one : ∀ {c : Hosts.Cont} {t : Hosts.Try} {o : List (Hosts.Out Addr)}, Hosts.tryOne fnm goodIp c behind m = some (t, o) →
      o = [] ∨ ∃ b, Starts (m.entity.take 2) b ∧ o = [.reply (sendBack { m with entity := b })] := by
    intro c t o e
    unfold Hosts.tryOne at e
    split at e
    · simp only [Option.some.injEq, Prod.mk.injEq] at e; exact Or.inl e.2.symm
    · split at e
      · simp only [Option.some.injEq, Prod.mk.injEq] at e; exact Or.inl e.2.symm
      · dsimp only at e
        split at e
        · simp only [Option.some.injEq, Prod.mk.injEq] at e; exact Or.inl e.2.symm
        · split at e
          · cases e
          · rename_i g hg
            have hok := ok_initFrom hg
            rw [List.take_append_of_le_length (by omega)] at hok
            split at e
            · cases e
            · simp only [Option.some.injEq, Prod.mk.injEq] at e; exact Or.inl e.2.symm
            · rename_i b hb
              simp only [Option.some.injEq, Prod.mk.injEq] at e
              exact Or.inr ⟨b, starts_finish hok hb, e.2.symm⟩
  have opt : ∀ {c : Option Hosts.Cont} {t : Hosts.Try} {o : List (Hosts.Out Addr)}, Hosts.tryOpt fnm goodIp c behind m = some (t, o) →
      o = [] ∨ ∃ b, Starts (m.entity.take 2) b ∧ o = [.reply (sendBack { m with entity := b })] := by
    intro c t o e
    unfold Hosts.tryOpt at e
    split at e
    · simp only [Option.some.injEq, Prod.mk.injEq] at e; exact Or.inl e.2.symm
    · exact one e
  have inner : ∀ {t : Hosts.Try} {o : List (Hosts.Out Addr)}, Hosts.tryInner fnm goodIp s behind m = some (t, o) →
      o = [] ∨ ∃ b, Starts (m.entity.take 2) b ∧ o = [.reply (sendBack { m with entity := b })] := by
    intro t o e
    unfold Hosts.tryInner at e
    split at e
    · cases e
    · exact opt e
    · rename_i r _ hr
      obtain ⟨t', o'⟩ := r
      simp only [Option.some.injEq, Prod.mk.injEq] at e
      obtain ⟨rfl, rfl⟩ := e
      exact opt hr
  unfold Hosts.hostsGet at h
  have hty : ∀ {t : Hosts.Try} {o : List (Hosts.Out Addr)}, Hosts.hostsTry fnm goodIp s behind handOk m = some (t, o) →
      o = [] ∨ o = [.handOver { m with entity := m.entity.take 2 }] ∨
        ∃ b, Starts (m.entity.take 2) b ∧ o = [.reply (sendBack { m with entity := b })] := by
    intro t o e
    unfold Hosts.hostsTry at e
    split at e
    · simp only [Option.some.injEq, Prod.mk.injEq] at e; exact Or.inl e.2.symm
    · split at e
      · simp only [Option.some.injEq, Prod.mk.injEq] at e; exact Or.inl e.2.symm
      · split at e
        · cases e
        · split at e
          · simp only [Option.some.injEq, Prod.mk.injEq] at e; exact Or.inr (Or.inl e.2.symm)
          · simp only [Option.some.injEq, Prod.mk.injEq] at e; exact Or.inl e.2.symm
        · rename_i r _ hr
          obtain ⟨t', o'⟩ := r
          simp only [Option.some.injEq, Prod.mk.injEq] at e
          obtain ⟨rfl, rfl⟩ := e
          rcases inner hr with h1 | h1
          · exact Or.inl h1
          · exact Or.inr (Or.inr h1)
  split at h
  · cases h
  · simp only [Option.some.injEq, Prod.mk.injEq] at h
    exact Or.inr (Or.inr ⟨refuse m.entity, starts_modify (starts_modify ⟨hm, rfl⟩ (by omega)) (by omega), h.2.symm⟩)
  · simp only [Option.some.injEq, Prod.mk.injEq] at h; exact Or.inl h.2.symm
  · rename_i hr
    simp only [Option.some.injEq, Prod.mk.injEq] at h
    rw [← h.2]; exact hty hr
  · rename_i hr
    simp only [Option.some.injEq, Prod.mk.injEq] at h
    rw [← h.2]; exact hty hr

theorem ok_rawLoop {t name : List Byte} {type klass : Nat} (l : List (List Byte × Nat)) : ∀ {g g' : Gen} {ret code : Int}, Ok t g →
    DnsCache.rawLoop g name type klass ret l = some (code, g') → Ok t g' := by
  induction l with
  | nil => intro g g' ret code h e; simp only [DnsCache.rawLoop, Option.some.injEq, Prod.mk.injEq] at e; rw [← e.2]; exact h
  | cons x l ih =>
    intro g g' ret code h e
    obtain ⟨d, ttl⟩ := x
    unfold DnsCache.rawLoop at e
    split at e
    · cases e
    · rename_i hg
      have h2 := ok_generate h hg
      split at e
      · simp only [Option.some.injEq, Prod.mk.injEq] at e; rw [← e.2]; exact h2
      · exact ih h2 e

theorem ok_cnameLoop {t : List Byte} {cfg : Cache.Cfg} {st : Cache.St} {now : Int} (n : Nat) : ∀ {name : List Byte} {g g' : Gen} {r : Option (List Byte)},
    Ok t g → DnsCache.cnameLoop cfg st now n name g = some (r, g') → Ok t g' := by
  induction n with
  | zero => intro name g g' r _ e; cases e
  | succ n ih =>
    intro name g g' r h e
    unfold DnsCache.cnameLoop at e
    split at e
    · cases e
    · simp only [Option.some.injEq, Prod.mk.injEq] at e; rw [← e.2]; exact h
    · rename_i target ttl _
      have h2 := ok_cname (name := str "a") (target := target) (ttl := ttl) h
      generalize cname g (str "a") target ttl = q at e h2
      obtain ⟨code, g2⟩ := q
      dsimp only at e h2
      split at e
      · simp only [Option.some.injEq, Prod.mk.injEq] at e; rw [← e.2]; exact h2
      · exact ih h2 e

theorem ok_getByQuestion {t : List Byte} {cfg : Cache.Cfg} {st : Cache.St} {b : List Byte} {len fuel : Nat} {now : Int} {g g' : Gen} {code : Int}
    (h : Ok t g) (e : DnsCache.getByQuestion cfg st b len fuel now g = some (code, g')) : Ok t g' := by
  unfold DnsCache.getByQuestion at e
  split at e
  · cases e
  · split at e
    · cases e
    · simp only [Option.some.injEq, Prod.mk.injEq] at e; rw [← e.2]; exact h
    · split at e
      · simp only [Option.some.injEq, Prod.mk.injEq] at e; rw [← e.2]; exact h
      · split at e
        · simp only [Option.some.injEq, Prod.mk.injEq] at e; rw [← e.2]; exact h
        · split at e
          · cases e
          · cases e
          · simp only [Option.some.injEq, Prod.mk.injEq] at e; rw [← e.2]; exact h
          · have hl : ∀ {ty : Nat} {bf : List Byte} {r : Option (List Byte)} {g2 : Gen}, (if ty ≠ 5 then DnsCache.cnameLoop cfg st now (g.cap + 1) (cstr bf) g else some (some (cstr bf), g)) = some (r, g2) → Ok t g2 := by
              intro ty bf r g2 e
              split at e
              · exact ok_cnameLoop _ h e
              · simp only [Option.some.injEq, Prod.mk.injEq] at e; rw [← e.2]; exact h
            split at e
            · cases e
            · rename_i hc
              simp only [Option.some.injEq, Prod.mk.injEq] at e; rw [← e.2]; exact hl hc
            · rename_i name g2 hc
              have h2 := hl hc
              split at e
              · cases e
              · rename_i code' g3 hr
                simp only [Option.some.injEq, Prod.mk.injEq] at e
                rw [← e.2]
                unfold DnsCache.rawRecords at hr
                dsimp only at hr
                split at hr
                · simp only [Option.some.injEq, Prod.mk.injEq] at hr; rw [← hr.2]; exact h2
                · split at hr
                  · cases hr
                  · exact ok_rawLoop _ h2 hr

/-- What the cache sends: at most one message, with the header of the query. -/
theorem fetch_out {cfg : Cache.Cfg} {st : Cache.St} {behind : List Byte} {fuel : Nat} {now : Int} {m : Ctx Addr} {code : Int} {o : List (Sent Addr)}
    (h : DnsCache.fetch cfg st behind fuel now m = some (code, o)) :
    o = [] ∨ ∃ b, Starts (m.entity.take 2) b ∧ o = [sendBack { m with entity := b }] := by
  unfold DnsCache.fetch at h
  split at h
  · simp only [Option.some.injEq, Prod.mk.injEq] at h; exact Or.inl h.2.symm
  · rename_i hl
    have hm : 12 ≤ m.entity.length := by simpa [initOk] using hl
    split at h
    · cases h
    · rename_i g hg
      have h0 := ok_initFrom hg
      rw [List.take_append_of_le_length (by omega)] at h0
      have h1 := ok_nextPurpose h0
      generalize nextPurpose g = r at h h1
      obtain ⟨g1, p⟩ := r
      dsimp only at h h1
      split at h
      · simp only [Option.some.injEq, Prod.mk.injEq] at h; exact Or.inl h.2.symm
      · split at h
        · cases h
        · rename_i code g2 hq
          have h2 := ok_replyFlags (ok_getByQuestion h1 hq)
          split at h
          · simp only [Option.some.injEq, Prod.mk.injEq] at h; exact Or.inl h.2.symm
          · split at h
            · cases h
            · rename_i code' g3 hg3
              have h3 := ok_additional h2 hg3
              split at h
              · simp only [Option.some.injEq, Prod.mk.injEq] at h; exact Or.inl h.2.symm
              · split at h
                · cases h
                · rename_i l b hc
                  split at h
                  · simp only [Option.some.injEq, Prod.mk.injEq] at h; exact Or.inl h.2.symm
                  · simp only [Option.some.injEq, Prod.mk.injEq] at h
                    exact Or.inr ⟨b, starts_compress h3.1 hc, h.2.symm⟩

/-- Adding EDNS keeps sender and identifier. -/
theorem addFakeEdns_head {ap : Bool} {cap n : Nat} {m m' : Ctx Addr} (hm : 12 ≤ m.entity.length) (h : Msg.addFakeEdns ap cap n m = some m') :
    m'.back = m.back ∧ m'.sock = m.sock ∧ m'.returnHeader = m.returnHeader ∧ m'.domain = m.domain ∧ m'.hash = m.hash ∧ m'.type = m.type ∧
      Starts (m.entity.take 2) m'.entity := by
  unfold Msg.addFakeEdns at h
  split at h
  · simp only [Option.some.injEq] at h; subst h; exact ⟨rfl, rfl, rfl, rfl, rfl, rfl, hm, rfl⟩
  · split at h
    · cases h
    · rename_i g hg
      simp only [Option.some.injEq] at h; subst h
      refine ⟨rfl, rfl, rfl, rfl, rfl, rfl, ?_⟩
      unfold Generator.addFakeEdns at hg
      split at hg
      · cases hg
      · rename_i g0 hg0
        split at hg
        · cases hg
        · rename_i g1 hg1
          simp only [Option.some.injEq] at hg; subst hg
          exact (ok_edns (ok_toAdditional _ (ok_initFrom hg0) hg1)).1

theorem ok_copyLoop {t b : List Byte} {len fuel : Nat} {c : Counts} (n : Nat) : ∀ {it : Itr} {g g' : Gen} {code : Int}, Ok t g →
    HostsLoop.copyLoop b len fuel c n it g = some (code, g') → Ok t g' := by
  induction n with
  | zero => intro it g g' code _ e; cases e
  | succ n ih =>
    intro it g g' code h e
    unfold HostsLoop.copyLoop at e
    split at e
    · cases e
    · simp only [Option.some.injEq, Prod.mk.injEq] at e; rw [← e.2]; exact h
    · rename_i it' p _
      split at e
      · simp only [Option.some.injEq, Prod.mk.injEq] at e; rw [← e.2]; exact h
      · split at e
        · rename_i row ttl _ _
          split at e
          · cases e
          · rename_i code' g2 hc
            have h2 : Ok t g2 := by
              split at hc
              · exact ok_copyCName h hc
              · split at hc
                · exact ok_copyAddr h hc
                · split at hc
                  · exact ok_copyAddr h hc
                  · simp only [Option.some.injEq, Prod.mk.injEq] at hc; rw [← hc.2]; exact h
            split at e
            · simp only [Option.some.injEq, Prod.mk.injEq] at e; rw [← e.2]; exact h2
            · exact ih h2 e
        · cases e

theorem starts_combine {m : Ctx Addr} {cap id : Nat} {b : List Byte} {len fuel : Nat} {target out : List Byte}
    (h : HostsLoop.combine m cap id b len fuel target = some (some out)) : Starts (set16 id) out := by
  unfold HostsLoop.combine at h
  split at h
  · cases h
  · split at h
    · rename_i c g _ hg
      have h0 : Ok (set16 id) (setIdentifier (copyHeader g b) id) := by
        unfold initEmpty at hg
        split at hg
        · simp only [Option.some.injEq] at hg; subst hg
          refine ⟨⟨?_, ?_⟩, by simp [setIdentifier, copyHeader], by simp [setIdentifier, copyHeader]⟩
          · simp only [setIdentifier, copyHeader, overwrite, set16, List.length_append, List.length_take, List.length_drop, List.length_cons, List.length_nil]
            omega
          · simp [setIdentifier, overwrite, set16]
        · cases hg
      have h1 := ok_question (name := m.domain) (type := m.type) (klass := 1) h0
      generalize question (setIdentifier (copyHeader g b) id) m.domain m.type 1 = r at h h1
      obtain ⟨code, g1⟩ := r
      dsimp only at h h1
      split at h
      · cases h
      · have h2 := ok_nextPurpose h1
        generalize nextPurpose g1 = r at h h2
        obtain ⟨g2, p⟩ := r
        dsimp only at h h2
        split at h
        · cases h
        · have h3 := ok_cname (name := m.domain) (target := target) (ttl := 60) h2
          generalize cname g2 m.domain target 60 = r at h h3
          obtain ⟨code, g3⟩ := r
          dsimp only at h h3
          split at h
          · cases h
          · split at h
            · cases h
            · split at h
              · cases h
              · rename_i code g4 hc
                have h4 := ok_copyLoop _ h3 hc
                split at h
                · cases h
                · split at h
                  · cases h
                  · rename_i code' g5 hg5
                    have h5 := ok_additional h4 hg5
                    split at h
                    · cases h
                    · split at h
                      · cases h
                      · rename_i l b' hcm
                        split at h
                        · cases h
                        · simp only [Option.some.injEq] at h; subst h
                          exact starts_compress h5.1 hcm
    · cases h

end Verif.Keeps
