import Verif.Spec.GoodIpList
import Verif.Lemmas.StringChunk
import Verif.Lemmas.SocketPool
import Verif.Props.IpText

namespace Verif.GoodIpList
open IpText (isSpace skipSpace scanDec DecNum V4Text)

/-! ### Reading the lines -/

theorem isSpace_iff (c : Byte) : isSpace c = true ↔ (c = 32 ∨ (9 ≤ c ∧ c ≤ 13)) := by
  simp [isSpace]

theorem skipSpace_blank {sp s : List Byte} (h : Blank sp) (hs : ∀ c ∈ s.head?, isSpace c = false) : skipSpace (sp ++ s) = s := by
  induction sp with
  | nil =>
    cases s with
    | nil => rfl
    | cons c r => simp [skipSpace, hs c (by simp)]
  | cons c sp ih =>
    have hc : isSpace c = true := (isSpace_iff c).2 (h c (by simp))
    have := ih (fun d hd => h d (by simp [hd]))
    simp only [skipSpace] at this ⊢
    simp [hc, this]

theorem takeWhile_split {p : Byte → Bool} {w rest : List Byte} {n : Nat} (hw : ∀ c ∈ w, p c = true) (hl : w.length ≤ n)
    (hr : ∀ c ∈ rest.head?, p c = false) : ((w ++ rest).take n).takeWhile p = w := by
  rw [List.take_append, List.take_of_length_le hl, List.takeWhile_append_of_pos hw]
  cases rest with
  | nil => simp
  | cons c r =>
    cases n - w.length with
    | zero => simp
    | succ m => simp [hr c (by simp)]

theorem scanSet_split {p : Byte → Bool} {w rest : List Byte} {n : Nat} (hne : w ≠ []) (hw : ∀ c ∈ w, p c = true) (hl : w.length ≤ n)
    (hr : ∀ c ∈ rest.head?, p c = false) : scanSet n p (w ++ rest) = some (w, rest) := by
  simp only [scanSet, takeWhile_split hw hl hr]
  simp [hne]

theorem scanWord_split {pre w rest : List Byte} {n : Nat} (hp : Blank pre) (hne : w ≠ []) (hw : ∀ c ∈ w, isSpace c = false) (hl : w.length ≤ n)
    (hr : ∀ c ∈ rest.head?, isSpace c = true) : scanWord n (pre ++ (w ++ rest)) = some (w, rest) := by
  have hh : ∀ c ∈ (w ++ rest).head?, isSpace c = false := by
    cases w with
    | nil => exact absurd rfl hne
    | cons c w => intro c' hc'; simp at hc'; subst hc'; exact hw c (by simp)
  have ht : ((w ++ rest).take n).takeWhile (fun c => !isSpace c) = w :=
    takeWhile_split (p := fun c => !isSpace c) (fun c hc => by simp [hw c hc]) hl (fun c hc => by simp [hr c hc])
  unfold scanWord
  rw [skipSpace_blank hp hh]
  dsimp only
  rw [ht, if_neg hne]
  simp

theorem blank_head {s : List Byte} (h : Blank s) : ∀ c ∈ s.head?, isSpace c = true := by
  intro c hc
  exact (isSpace_iff c).2 (h c (List.mem_of_mem_head? hc))

theorem blank_sep {sep r : List Byte} (h : Blank sep) (hne : sep ≠ []) : ∀ c ∈ (sep ++ r).head?, isSpace c = true := by
  cases sep with
  | nil => exact absurd rfl hne
  | cons c s => intro c' hc'; simp at hc'; subst hc'; exact (isSpace_iff c).2 (h c (by simp))

theorem space_not_dec : ∀ c : Byte, isSpace c = true → IpText.decVal c = none := by
  intro c hc
  rw [isSpace_iff] at hc
  unfold IpText.decVal
  rw [if_neg (by grind)]

theorem decNum_chars {s : List Byte} {n : Nat} (h : DecNum s n) : s ≠ [] ∧ ∀ c ∈ s, 48 ≤ c ∧ c ≤ 57 := by
  have key : ∀ (c : Byte) (d : Nat), IpText.DecDigit c d → 48 ≤ c ∧ c ≤ 57 := by
    intro c d h
    obtain ⟨h1, h2⟩ := h
    constructor
    · rw [UInt8.le_iff_toNat_le, h2]; simp
    · rw [UInt8.le_iff_toNat_le, h2]
      show _ ≤ 57
      omega
  induction h with
  | one h => exact ⟨by simp, by intro c hc; simp at hc; subst hc; exact key _ _ h⟩
  | more hs h ih =>
    refine ⟨by simp, ?_⟩
    intro c hc
    rcases List.mem_append.1 hc with h1 | h1
    · exact ih.2 c h1
    · simp at h1; subst h1; exact key _ _ h

theorem scanDec_sep {sep num rest : List Byte} {n : Nat} (hs : Blank sep) (h : DecNum num n) (hn : n < 2147483648)
    (hr : ∀ c ∈ rest.head?, IpText.decVal c = none) : scanDec (sep ++ (num ++ rest)) = .ok n rest := by
  have hd : ∀ c ∈ (num ++ rest).head?, isSpace c = false := by
    obtain ⟨h1, h2⟩ := decNum_chars h
    cases num with
    | nil => exact absurd rfl h1
    | cons c w =>
      intro c' hc'; simp at hc'; subst hc'
      have := h2 c (by simp)
      cases hh : isSpace c with
      | false => rfl
      | true =>
        rw [isSpace_iff] at hh
        grind
  have e : skipSpace (sep ++ (num ++ rest)) = skipSpace (num ++ rest) := by
    rw [skipSpace_blank hs hd]
    exact (skipSpace_blank (sp := []) (by intro c hc; cases hc) hd).symm
  have := IpText.scanDec_num h hn hr
  unfold scanDec at this ⊢
  rw [e]
  exact this

theorem scanList_ok {o : ListOpt} (h : o.Ok) : scanList o.text = some (some o.name, (o.interval : Int)) := by
  obtain ⟨pre, sep, num, post, h1, h2, h3, h4, h5, h6, h7, h8, h9⟩ := h
  unfold scanList
  rw [h1, scanWord_split h2 h6.1 (fun c hc => by
    cases hh : isSpace c with
    | false => rfl
    | true => exact absurd ((isSpace_iff c).1 hh) (h6.2.2 c hc).1) h6.2.1 (blank_sep h3 h4)]
  dsimp only
  rw [scanDec_sep h3 h7 h9 (fun c hc => space_not_dec c (blank_head h5 c hc))]

theorem v4Text_chars {s : List Byte} {a b c d : Nat} (h : V4Text s a b c d) :
    (∀ x ∈ s, (48 ≤ x ∧ x ≤ 57) ∨ x = 46) ∧ ∃ x r, s = x :: r ∧ 48 ≤ x ∧ x ≤ 57 := by
  obtain ⟨h1, h2, h3, h4⟩ := h
  have c1 := decNum_chars h1
  have c2 := decNum_chars h2
  have c3 := decNum_chars h3
  have c4 := decNum_chars h4
  constructor
  · intro x hx
    simp only [List.mem_append, List.mem_cons] at hx
    rcases hx with hx | rfl | hx | rfl | hx | rfl | hx
    · exact .inl (c1.2 x hx)
    · exact .inr rfl
    · exact .inl (c2.2 x hx)
    · exact .inr rfl
    · exact .inl (c3.2 x hx)
    · exact .inr rfl
    · exact .inl (c4.2 x hx)
  · rename_i s t u v
    cases s with
    | nil => exact absurd rfl c1.1
    | cons x s => exact ⟨x, _, rfl, c1.2 x (by simp)⟩

theorem scanAdd_ok {o : IpOpt} (h : o.Ok) : ∃ ip, scanAdd o.text = some (some o.name, some ip, some (o.port : Int)) ∧
    IpText.v4ToNum ip = .ret 4 (some o.bytes) := by
  obtain ⟨pre, sep, ip, num, post, h1, h2, h3, h4, h5, h6, h7, h8, h9, h10⟩ := h
  obtain ⟨k1, x, r, k2, k3⟩ := v4Text_chars h7
  refine ⟨ip, ?_, ?_⟩
  · unfold scanAdd
    rw [h1, scanWord_split h2 h6.1 (fun c hc => by
      cases hh : isSpace c with
      | false => rfl
      | true => exact absurd ((isSpace_iff c).1 hh) (h6.2.2 c hc).1) h6.2.1 (blank_sep h3 h4)]
    dsimp only
    rw [scanSet_split (w := sep) (rest := ip ++ 58 :: (num ++ post)) h4 (fun c hc => by
        have := h3 c hc
        simp only [Bool.not_eq_true', Bool.and_eq_false_iff, decide_eq_false_iff_not]
        grind) (by simp) (fun c hc => by
        rw [k2] at hc
        simp at hc
        subst hc
        simp [k3])]
    dsimp only
    rw [scanSet_split (w := ip) (rest := 58 :: (num ++ post)) (by rw [k2]; simp) (fun c hc => by
        have := k1 c hc
        simp only [bne_iff_ne, ne_eq]
        grind) h8 (fun c hc => by simp at hc; subst hc; rfl)]
    have := scanDec_sep (sep := []) (fun c hc => by cases hc) h9 (by omega) (fun c hc => space_not_dec c (blank_head h5 c hc))
    rw [List.nil_append] at this
    simp only [this]
  · have b1 := UInt8.toNat_lt o.ip.1
    have b2 := UInt8.toNat_lt o.ip.2.1
    have b3 := UInt8.toNat_lt o.ip.2.2.1
    have b4 := UInt8.toNat_lt o.ip.2.2.2
    have := IpText.v4_scan h7 [] (by omega) (by omega) (by omega) (by omega) (by simp)
    simpa [IpOpt.bytes] using this

/-! ### The lists -/

/-- The entries of the table for these lists. -/
def entries (L : List ListOpt) : List (StringChunk.Entry Nat) := L.zipIdx.map (fun p => ⟨p.1.name, some p.2⟩)

/-- The number of the list a name stands for. -/
def lastIdx (L : List ListOpt) (n : List Byte) : Option Nat := (L.zipIdx.reverse.find? (fun p => p.1.name == n)).map (·.2)

theorem entries_snoc (L : List ListOpt) (o : ListOpt) : entries (L ++ [o]) = entries L ++ [⟨o.name, some L.length⟩] := by
  simp [entries, List.zipIdx_append]

theorem lists_loaded {L ls : List ListOpt} (hL : ∀ o ∈ L, NameOk o.name) (hls : ∀ o ∈ ls, o.Ok) {st : State}
    (hc : StringChunk.Good st.chunk (entries L)) (hi : st.infos = L.map (fun o => ⟨o.interval, []⟩)) :
    ∃ st', (ls.map (·.text)).foldlM addList st = some st' ∧ StringChunk.Good st'.chunk (entries (L ++ ls)) ∧
      st'.infos = (L ++ ls).map (fun o => ⟨o.interval, []⟩) := by
  induction ls generalizing L st with
  | nil => exact ⟨st, by simp, by simpa using hc, by simpa using hi⟩
  | cons o ls ih =>
    have ho := hls o (by simp)
    have hn : NameOk o.name := by obtain ⟨_, _, _, _, _, _, _, _, _, h, _⟩ := ho; exact h
    have hp : 0 < o.interval := by obtain ⟨_, _, _, _, _, _, _, _, _, _, _, h, _⟩ := ho; exact h
    have hs : addList st o.text = some ⟨st.chunk.add o.name (some st.infos.length), st.infos ++ [⟨o.interval, []⟩]⟩ := by
      unfold addList
      rw [scanList_ok ho]
      dsimp only
      rw [if_neg (by omega)]
    have hlen : st.infos.length = L.length := by rw [hi, List.length_map]
    obtain ⟨st', h1, h2, h3⟩ := ih (L := L ++ [o])
      (st := ⟨st.chunk.add o.name (some st.infos.length), st.infos ++ [⟨o.interval, []⟩]⟩)
      (by intro o' ho'; rcases List.mem_append.1 ho' with h | h
          · exact hL o' h
          · simp at h; subst h; exact hn)
      (fun o' ho' => hls o' (by simp [ho']))
      (by rw [entries_snoc, hlen]; exact StringChunk.good_add hc _ _)
      (by rw [hi]; simp)
    refine ⟨st', ?_, by simpa using h2, by simpa using h3⟩
    rw [List.map_cons, List.foldlM_cons, hs]
    exact h1

theorem not_pattern {n : List Byte} (h : NameOk n) : ¬ StringChunk.IsPattern n := by
  intro hp
  obtain ⟨c, hc, hp⟩ := hp
  have := h.2.2 c hc
  grind

theorem entries_plain {L : List ListOpt} (hL : ∀ o ∈ L, NameOk o.name) :
    (entries L).filter (fun e => !decide (StringChunk.IsPattern e.str)) = entries L := by
  rw [List.filter_eq_self]
  intro e he
  obtain ⟨p, hp, rfl⟩ := List.mem_map.1 he
  have : p.1 ∈ L := List.fst_mem_of_mem_zipIdx hp
  simpa using not_pattern (hL _ this)

theorem find_eq {L : List ListOpt} (hL : ∀ o ∈ L, NameOk o.name) {st : State} (hc : StringChunk.Good st.chunk (entries L)) (n : List Byte) :
    st.find n = lastIdx L n := by
  unfold State.find lastIdx
  rw [StringChunk.matchNoWild_eq hc, entries_plain hL]
  unfold entries
  rw [← List.map_reverse, List.find?_map]
  have : ((fun e : StringChunk.Entry Nat => e.str == n && true) ∘ fun p : ListOpt × Nat => (⟨p.1.name, some p.2⟩ : StringChunk.Entry Nat)) = fun p => p.1.name == n := by
    funext p; simp
  rw [this]
  cases (L.zipIdx.reverse.find? (fun p => p.1.name == n)) <;> rfl

theorem lastIdx_some {L : List ListOpt} {n : List Byte} {k : Nat} (h : lastIdx L n = some k) : ∃ o, L[k]? = some o ∧ o.name = n := by
  unfold lastIdx at h
  rw [Option.map_eq_some_iff] at h
  obtain ⟨p, h1, h2⟩ := h
  have h3 := List.find?_some h1
  have h4 := List.mem_of_find?_eq_some h1
  rw [List.mem_reverse] at h4
  have h5 := List.mem_zipIdx_iff_getElem?.1 h4
  rw [h2] at h5
  exact ⟨p.1, h5, by simpa using h3⟩

theorem lastIdx_none {L : List ListOpt} {n : List Byte} : lastIdx L n = none ↔ n ∉ L.map (·.name) := by
  unfold lastIdx
  rw [Option.map_eq_none_iff, List.find?_eq_none]
  constructor
  · intro h hn
    obtain ⟨o, ho, rfl⟩ := List.mem_map.1 hn
    obtain ⟨k, hk⟩ := List.mem_iff_getElem?.1 ho
    have : (o, k) ∈ L.zipIdx.reverse := by rw [List.mem_reverse]; exact List.mem_zipIdx_iff_getElem?.2 hk
    exact h _ this (by simp)
  · intro h p hp he
    rw [List.mem_reverse] at hp
    have := List.fst_mem_of_mem_zipIdx hp
    exact h (List.mem_map.2 ⟨_, this, by simpa using he⟩)

/-- The element an option adds. -/
def IpOpt.addr (o : IpOpt) : Addr := ⟨some o.bytes, some o.port⟩

/-- What the list with this number should hold. -/
def want (L : List ListOpt) (P : List IpOpt) (k : Nat) (n : List Byte) : List Addr :=
  if lastIdx L n = some k then (P.filter (fun o => o.name = n)).map IpOpt.addr else []

/-- The lists hold the addresses configured for them, in any order. -/
structure Inv (L : List ListOpt) (P : List IpOpt) (st : State) : Prop where
  chunk : StringChunk.Good st.chunk (entries L)
  len : st.infos.length = L.length
  info : ∀ (k : Nat) (o : ListOpt), L[k]? = some o → ∃ i : Info, st.infos[k]? = some i ∧ i.interval = o.interval ∧ i.list.Perm (want L P k o.name)

theorem addIp_ok {st : State} {o : IpOpt} (h : o.Ok) : addIp st o.text = some (match st.find o.name with
    | none => st
    | some k => { st with infos := st.infos.modify k (fun i => { i with list := i.list ++ [o.addr] }) }) := by
  have hp : o.port < 65536 := by obtain ⟨_, _, _, _, _, _, _, _, _, _, _, _, _, _, h⟩ := h; exact h
  obtain ⟨ip, h1, h2⟩ := scanAdd_ok h
  unfold addIp
  rw [h1]
  dsimp only
  rw [h2]
  dsimp only
  cases st.find o.name with
  | none => rfl
  | some k =>
    simp only [Option.map_some, IpOpt.addr]
    rw [show ((o.port : Int) % 65536).toNat = o.port by omega]

/-- As `Inv`, with the order of the configuration. -/
structure Loaded (L : List ListOpt) (P : List IpOpt) (st : State) : Prop where
  chunk : StringChunk.Good st.chunk (entries L)
  len : st.infos.length = L.length
  info : ∀ (k : Nat) (o : ListOpt), L[k]? = some o → st.infos[k]? = some ⟨o.interval, want L P k o.name⟩

theorem Loaded.inv {L P st} (h : Loaded L P st) : Inv L P st :=
  ⟨h.chunk, h.len, fun k o ho => ⟨_, h.info k o ho, rfl, List.Perm.refl _⟩⟩

theorem loaded_add {L : List ListOpt} (hL : ∀ o ∈ L, NameOk o.name) {P : List IpOpt} {st : State} (h : Loaded L P st) {q : IpOpt} (hq : q.Ok) :
    ∃ st', addIp st q.text = some st' ∧ Loaded L (P ++ [q]) st' := by
  refine ⟨_, addIp_ok hq, ?_⟩
  rw [find_eq hL h.chunk]
  have hw : ∀ k n, want L (P ++ [q]) k n = want L P k n ++ (if lastIdx L n = some k ∧ q.name = n then [q.addr] else []) := by
    intro k n
    unfold want
    by_cases hk : lastIdx L n = some k
    · by_cases hn : q.name = n <;> simp [hk, hn, List.filter_append]
    · simp [hk]
  cases hk : lastIdx L q.name with
  | none =>
    refine ⟨h.chunk, h.len, fun k o ho => ?_⟩
    rw [h.info k o ho, hw, if_neg (by rintro ⟨h1, h2⟩; rw [← h2, hk] at h1; cases h1), List.append_nil]
  | some j =>
    refine ⟨h.chunk, ?_, fun k o ho => ?_⟩
    · show (st.infos.modify j _).length = _
      rw [List.length_modify, h.len]
    · show (st.infos.modify j _)[k]? = _
      rw [List.getElem?_modify, h.info k o ho, hw]
      by_cases hjk : j = k
      · subst hjk
        obtain ⟨o', h1, h2⟩ := lastIdx_some hk
        rw [ho] at h1; cases h1
        simp [h2, hk]
      · have : ¬ (lastIdx L o.name = some k ∧ q.name = o.name) := by
          rintro ⟨h1, h2⟩
          rw [← h2, hk] at h1
          exact hjk (Option.some.inj h1)
        simp [hjk, this]

theorem ips_loaded {L : List ListOpt} (hL : ∀ o ∈ L, NameOk o.name) {P ps : List IpOpt} (hps : ∀ o ∈ ps, o.Ok) {st : State} (h : Loaded L P st) :
    ∃ st', (ps.map (·.text)).foldlM addIp st = some st' ∧ Loaded L (P ++ ps) st' := by
  induction ps generalizing P st with
  | nil => exact ⟨st, by simp, by simpa using h⟩
  | cons q ps ih =>
    obtain ⟨st1, h1, h2⟩ := loaded_add hL h (hps q (by simp))
    obtain ⟨st2, h3, h4⟩ := ih (fun o ho => hps o (by simp [ho])) h2
    refine ⟨st2, ?_, by simpa using h4⟩
    rw [List.map_cons, List.foldlM_cons, h1]
    exact h3

theorem nameOk_of {L : List ListOpt} (h : ∀ o ∈ L, o.Ok) : ∀ o ∈ L, NameOk o.name := fun o ho => by
  obtain ⟨_, _, _, _, _, _, _, _, _, h, _⟩ := h o ho; exact h

/-- The tasks of these lists. -/
def wantTasks (L : List ListOpt) : List Task := L.zipIdx.map (fun p => ⟨p.1.interval, p.1.name, p.2⟩)

theorem Inv.tasks {L P st} (hL : ∀ o ∈ L, NameOk o.name) (h : Inv L P st) : st.tasks = wantTasks L := by
  have hcont := h.chunk.cont
  rw [entries_plain hL] at hcont
  unfold SimpleHT.HT.contents at hcont
  have e : st.tasks = (st.chunk.ht.nodes.map (·.data)).filterMap (fun e => match e.data with
      | none => none
      | some k => (st.infos[k]?).map (fun i => (⟨i.interval, e.str, k⟩ : Task))) := by
    rw [List.filterMap_map]; rfl
  have hd : st.chunk.ht.nodes.map (·.data) = entries L := by
    have := congrArg (List.map Prod.snd) hcont
    simpa [List.map_map, Function.comp_def] using this
  rw [e, hd]
  unfold entries wantTasks
  rw [List.filterMap_map]
  have : ∀ (Z : List (ListOpt × Nat)), (∀ p ∈ Z, p ∈ L.zipIdx) →
      Z.filterMap ((fun e : StringChunk.Entry Nat => match e.data with
      | none => none
      | some k => (st.infos[k]?).map (fun i => (⟨i.interval, e.str, k⟩ : Task))) ∘ fun p => ⟨p.1.name, some p.2⟩) =
      Z.map (fun p => ⟨p.1.interval, p.1.name, p.2⟩) := by
    intro Z hZ
    induction Z with
    | nil => rfl
    | cons p Z ih =>
      have hp := List.mem_zipIdx_iff_getElem?.1 (hZ p (by simp))
      obtain ⟨i, h1, h2, -⟩ := h.info _ _ hp
      rw [List.filterMap_cons, List.map_cons]
      simp only [Function.comp_apply, h1, Option.map_some, h2]
      rw [← ih (fun q hq => hZ q (by simp [hq]))]
  exact this _ (fun p hp => hp)

theorem load_ok (hash : List Byte → UInt32) {L : List ListOpt} {P : List IpOpt} (hL : ∀ o ∈ L, o.Ok) (hP : ∀ o ∈ P, o.Ok) :
    ∃ st, load hash (some (L.map (·.text))) (some (P.map (·.text))) = some (some st, wantTasks L) ∧ Loaded L P st := by
  have hn := nameOk_of hL
  obtain ⟨st1, h1, h2, h3⟩ := lists_loaded (L := []) (ls := L) (by simp) hL (st := ⟨StringChunk.init hash, []⟩)
    (StringChunk.good_init hash) rfl
  rw [List.nil_append] at h2 h3
  have hl : Loaded L [] st1 := ⟨h2, by rw [h3, List.length_map], fun k o ho => by
    rw [h3, List.getElem?_map, ho]
    simp [want]⟩
  obtain ⟨st2, h4, h5⟩ := ips_loaded hn hP hl
  rw [List.nil_append] at h5
  refine ⟨st2, ?_, h5⟩
  unfold load initLists
  dsimp only
  rw [h1]
  simp only [Option.map_some]
  rw [h4]
  simp [Inv.tasks hn h5.inv]

/-! ### Handing out -/

theorem get_eq {L P st} (hL : ∀ o ∈ L, NameOk o.name) (h : Inv L P st) (n : List Byte) :
    (∃ k i, lastIdx L n = some k ∧ st.infos[k]? = some i ∧ i.list.Perm ((P.filter (fun o => o.name = n)).map IpOpt.addr) ∧ get (some st) n = (i.list[0]?).map (·.ip)) ∨
    (n ∉ L.map (·.name) ∧ get (some st) n = none) := by
  unfold get
  dsimp only
  rw [find_eq hL h.chunk]
  cases hk : lastIdx L n with
  | none => exact .inr ⟨lastIdx_none.1 hk, rfl⟩
  | some k =>
    obtain ⟨o, h1, h2⟩ := lastIdx_some hk
    obtain ⟨i, h3, -, h4⟩ := h.info k o h1
    refine .inl ⟨k, i, rfl, h3, ?_, ?_⟩
    · simpa [want, h2, hk] using h4
    · simp [h3]

/-! ### Checks -/

/-- The members of the set of sockets after the loop from address `i` on. -/
def watched (i : Nat) : List Try → List (Nat × Option Nat)
  | [] => []
  | t :: ts => (match t.sock with
      | some s => if t.nonBlock && t.started then [(s, some i)] else []
      | none => []) ++ watched (i + 1) ts

theorem watched_sub (i : Nat) (ts : List Try) : ((watched i ts).map (·.1)).Sublist (ts.filterMap (·.sock)) := by
  induction ts generalizing i with
  | nil => simp [watched]
  | cons t ts ih =>
    unfold watched
    cases hs : t.sock with
    | none => rw [List.filterMap_cons_none hs]; simpa using ih (i + 1)
    | some s =>
      rw [List.filterMap_cons_some hs]
      dsimp only
      split
      · simpa using (ih (i + 1)).cons_cons s
      · simpa using (ih (i + 1)).cons s

theorem mem_watched {i : Nat} {ts : List Try} {s : Nat} {d : Option Nat} :
    (s, d) ∈ watched i ts ↔ ∃ j t, ts[j]? = some t ∧ t.sock = some s ∧ t.nonBlock = true ∧ t.started = true ∧ d = some (i + j) := by
  induction ts generalizing i with
  | nil => simp [watched]
  | cons t ts ih =>
    unfold watched
    rw [List.mem_append, ih]
    constructor
    · rintro (h | ⟨j, u, h1, h2, h3, h4, h5⟩)
      · refine ⟨0, t, by simp, ?_⟩
        cases hs : t.sock with
        | none => rw [hs] at h; simp at h
        | some s' =>
          rw [hs] at h
          dsimp only at h
          split at h
          · rename_i hb
            simp only [List.mem_singleton, Prod.mk.injEq] at h
            simp only [Bool.and_eq_true] at hb
            exact ⟨by rw [h.1], hb.1, hb.2, h.2⟩
          · simp at h
      · exact ⟨j + 1, u, by simpa using h1, h2, h3, h4, by rw [h5]; congr 1; omega⟩
    · rintro ⟨j, u, h1, h2, h3, h4, h5⟩
      cases j with
      | zero =>
        simp at h1; subst h1
        left
        simp [h2, h3, h4, h5]
      | succ j =>
        exact .inr ⟨j, u, by simpa using h1, h2, h3, h4, by rw [h5]; congr 1; omega⟩

theorem openAll_ok {p : SocketPool.Puller Nat} {l : List (Nat × Option Nat)} (h : SocketPool.Holds p l) (i : Nat) (op cl : List Nat) (ts : List Try)
    (hn : (l.map (·.1) ++ ts.filterMap (·.sock)).Nodup) (hs : ∀ t ∈ ts, ∀ s, t.sock = some s → s < 1024) :
    ∃ p' l' cl', openAll p i op cl ts = some (p', op ++ ts.filterMap (·.sock), cl ++ cl') ∧ SocketPool.Holds p' l' ∧ l'.Perm (l ++ watched i ts) ∧
      (∀ s, s ∈ cl' ↔ ∃ t ∈ ts, t.sock = some s ∧ t.nonBlock = true ∧ t.started = false) ∧ cl'.Sublist (ts.filterMap (·.sock)) := by
  induction ts generalizing p l i op cl with
  | nil => exact ⟨p, l, [], by simp [openAll], h, by simp [watched], by simp, by simp⟩
  | cons t ts ih =>
    have hs' : ∀ t ∈ ts, ∀ s, t.sock = some s → s < 1024 := fun t ht => hs t (by simp [ht])
    unfold openAll watched
    cases hk : t.sock with
    | none =>
      rw [List.filterMap_cons_none hk] at hn ⊢
      obtain ⟨p', l', cl', h1, h2, h3, h4, h5⟩ := ih h (i + 1) op cl hn hs'
      refine ⟨p', l', cl', h1, h2, by simpa using h3, ?_, h5⟩
      intro s
      rw [h4]
      constructor
      · rintro ⟨u, hu, hh⟩; exact ⟨u, by simp [hu], hh⟩
      · rintro ⟨u, hu, hh⟩
        rcases List.mem_cons.1 hu with rfl | hu
        · rw [hk] at hh; exact absurd hh.1 (by simp)
        · exact ⟨u, hu, hh⟩
    | some s =>
      rw [List.filterMap_cons_some hk] at hn ⊢
      dsimp only
      have hn' : (l.map (·.1) ++ ts.filterMap (·.sock)).Nodup := by
        refine hn.sublist ?_
        exact List.Sublist.append (List.Sublist.refl _) ((List.Sublist.refl _).cons s)
      by_cases hb : t.nonBlock = true
      · by_cases hc : t.started = true
        · have hnot : s ∉ l.map (·.1) := by
            intro hm
            rw [List.nodup_append] at hn
            exact hn.2.2 s hm s (by simp) rfl
          obtain ⟨p1, h1, h2⟩ := SocketPool.holds_add h (d := some i) hnot (hs t (by simp) s hk)
          simp only [hb, hc, Bool.not_true, Bool.false_eq_true, if_false, h1, Bool.and_self, if_true]
          have hn2 : (((s, some i) :: l).map (·.1) ++ ts.filterMap (·.sock)).Nodup := by
            rw [List.map_cons, List.cons_append]
            exact List.perm_middle.nodup_iff.1 hn
          obtain ⟨p', l', cl', g1, g2, g3, g4, g5⟩ := ih h2 (i + 1) (op ++ [s]) cl hn2 hs'
          refine ⟨p', l', cl', by rw [g1]; simp, g2, ?_, ?_, g5.cons s⟩
          · refine g3.trans ?_
            simpa using List.perm_middle.symm
          · intro s'
            rw [g4]
            constructor
            · rintro ⟨u, hu, hh⟩; exact ⟨u, by simp [hu], hh⟩
            · rintro ⟨u, hu, hh⟩
              rcases List.mem_cons.1 hu with rfl | hu
              · rw [hc] at hh; exact absurd hh.2.2 (by simp)
              · exact ⟨u, hu, hh⟩
        · have hc : t.started = false := by simpa using hc
          simp only [hb, hc, Bool.not_true, Bool.false_eq_true, if_false, Bool.and_false, Bool.not_false, if_true]
          obtain ⟨p', l', cl', g1, g2, g3, g4, g5⟩ := ih h (i + 1) (op ++ [s]) (cl ++ [s]) hn' hs'
          refine ⟨p', l', s :: cl', by rw [g1]; simp, g2, by simpa using g3, ?_, g5.cons_cons s⟩
          intro s'
          rw [List.mem_cons, g4]
          constructor
          · rintro (rfl | ⟨u, hu, hh⟩)
            · exact ⟨t, by simp, hk, hb, hc⟩
            · exact ⟨u, by simp [hu], hh⟩
          · rintro ⟨u, hu, hh⟩
            rcases List.mem_cons.1 hu with rfl | hu
            · rw [hk] at hh; exact .inl (Option.some.inj hh.1).symm
            · exact .inr ⟨u, hu, hh⟩
      · have hb : t.nonBlock = false := by simpa using hb
        simp only [hb, Bool.not_false, if_true, Bool.false_and, Bool.false_eq_true, if_false]
        obtain ⟨p', l', cl', g1, g2, g3, g4, g5⟩ := ih h (i + 1) (op ++ [s]) cl hn' hs'
        refine ⟨p', l', cl', by rw [g1]; simp, g2, by simpa using g3, ?_, g5.cons s⟩
        intro s'
        rw [g4]
        constructor
        · rintro ⟨u, hu, hh⟩; exact ⟨u, by simp [hu], hh⟩
        · rintro ⟨u, hu, hh⟩
          rcases List.mem_cons.1 hu with rfl | hu
          · rw [hb] at hh; exact absurd hh.2.1 (by simp)
          · exact ⟨u, hu, hh⟩

theorem sane_sock {ts : List Try} (h : Sane ts) {j k : Nat} {t u : Try} {s : Nat} (hj : ts[j]? = some t) (hk : ts[k]? = some u)
    (h1 : t.sock = some s) (h2 : u.sock = some s) : j = k := by
  have hn := h.1
  clear h
  induction ts generalizing j k with
  | nil => simp at hj
  | cons v ts ih =>
    have hmem : ∀ (m : Nat) (w : Try), ts[m]? = some w → w.sock = some s → s ∈ ts.filterMap (·.sock) := fun m w hm hw =>
      List.mem_filterMap.2 ⟨w, List.mem_of_getElem? hm, hw⟩
    cases j with
    | zero =>
      simp at hj; subst hj
      rw [List.filterMap_cons_some h1] at hn
      cases k with
      | zero => rfl
      | succ k => exact absurd (hmem k u (by simpa using hk) h2) (List.nodup_cons.1 hn).1
    | succ j =>
      cases k with
      | zero =>
        simp at hk; subst hk
        rw [List.filterMap_cons_some h2] at hn
        exact absurd (hmem j t (by simpa using hj) h1) (List.nodup_cons.1 hn).1
      | succ k =>
        have : (ts.filterMap (·.sock)).Nodup := by
          cases hv : v.sock with
          | none => rwa [List.filterMap_cons_none hv] at hn
          | some x => rw [List.filterMap_cons_some hv] at hn; exact (List.nodup_cons.1 hn).2
        exact congrArg (· + 1) (ih (j := j) (k := k) (by simpa using hj) (by simpa using hk) this)

theorem writable_iff {ts : List Try} {now s : Nat} : writable ts now s = true ↔
    ∃ t ∈ ts, t.sock = some s ∧ ∃ m b, Ended t m b ∧ m ≤ now := by
  unfold writable
  rw [List.any_eq_true]
  constructor
  · rintro ⟨t, ht, h⟩
    simp only [Bool.and_eq_true, beq_iff_eq] at h
    obtain ⟨⟨⟨h1, h2⟩, h3⟩, h4⟩ := h
    cases hr : t.reply with
    | none => rw [hr] at h4; cases h4
    | some q =>
      obtain ⟨m, b⟩ := q
      rw [hr] at h4
      exact ⟨t, ht, h1, m, b, ⟨⟨s, h1⟩, h3, h2, hr⟩, by simpa using h4⟩
  · rintro ⟨t, ht, h1, m, b, ⟨-, h2, h3, h4⟩, h5⟩
    exact ⟨t, ht, by simp [h1, h2, h3, h4, h5]⟩

theorem checkAList_ok {ts : List Try} (h : Sane ts) (now : Nat) :
    ∃ r op cl, checkAList ts now = some (r, op, cl) ∧
      (r = none → ∀ t ∈ ts, ∀ m b, Ended t m b → now < m) ∧
      (∀ j, r = some j → ∃ t m b, ts[j]? = some t ∧ Ended t m b ∧ m ≤ now) ∧
      op = ts.filterMap (·.sock) ∧
      (∀ s, s ∈ cl ↔ ∃ t ∈ ts, t.sock = some s ∧ t.nonBlock = true) ∧ cl.Nodup := by
  obtain ⟨p, l, cl', h1, h2, h3, h4, h5⟩ := openAll_ok SocketPool.holds_init 0 [] [] ts (by simpa using h.1) h.2
  rw [List.nil_append] at h3
  unfold checkAList
  rw [h1]
  have hfetch : ∀ e, p.select (writable ts now) = some e → ∃ j t m b, e.2.2 = some j ∧ ts[j]? = some t ∧ Ended t m b ∧ m ≤ now := by
    intro e he
    obtain ⟨a, s, d⟩ := e
    obtain ⟨g1, g2⟩ := SocketPool.fetch_some he
    simp only [Bool.and_eq_true] at g2
    obtain ⟨u, hu, hus, m, b, hend, hm⟩ := writable_iff.1 g2.1.2
    have g3 := h3.mem_iff.1 (h2.perm.mem_iff.1 g1)
    obtain ⟨j, t, k1, k2, k3, k4, k5⟩ := mem_watched.1 g3
    obtain ⟨j', hj'⟩ := List.mem_iff_getElem?.1 hu
    have := sane_sock h k1 hj' k2 hus
    subst this
    rw [k1] at hj'; cases hj'
    exact ⟨j, u, m, b, by simpa using k5, k1, hend, hm⟩
  refine ⟨_, _, _, rfl, ?_, ?_, rfl, ?_, ?_⟩
  · intro hr t ht m b hend
    cases hsel : p.select (writable ts now) with
    | some e =>
      obtain ⟨j, _, _, _, hj, _⟩ := hfetch e hsel
      rw [hsel] at hr
      simp [hj] at hr
    | none =>
      obtain ⟨s, hs⟩ := hend.1
      obtain ⟨j, hj⟩ := List.mem_iff_getElem?.1 ht
      have hw : (s, some j) ∈ watched 0 ts := mem_watched.2 ⟨j, t, hj, hs, hend.2.1, hend.2.2.1, by simp⟩
      have hl := h3.mem_iff.2 hw
      have g := SocketPool.fetch_none hsel _ (h2.perm.mem_iff.2 hl)
      have hmem : s ∈ l.map (·.1) := List.mem_map.2 ⟨_, hl, rfl⟩
      obtain ⟨mx, hmx, hle⟩ := h2.max s hmem
      have hset := (h2.set s).2 hmem
      refine Nat.lt_of_not_le (fun hm => ?_)
      have := writable_iff.2 ⟨t, ht, hs, m, b, hend, hm⟩
      rw [hmx] at g
      simp [hset, this, hle] at g
  · intro j hr
    cases hsel : p.select (writable ts now) with
    | none => rw [hsel] at hr; cases hr
    | some e =>
      obtain ⟨j', t, m, b, k1, k2, k3, k4⟩ := hfetch e hsel
      rw [hsel] at hr
      simp only [Option.bind_some, k1, Option.some.injEq] at hr
      subst hr
      exact ⟨t, m, b, k2, k3, k4⟩
  all_goals
    have hca : (SocketPool.closeAll p.pool none).Perm ((watched 0 ts).map (·.1)) := by
      unfold SocketPool.closeAll
      rw [List.filter_eq_self.2 (by simp)]
      have k3 := ((Bst.Tree.preorder_perm p.pool.root).map (fun e => e.2.1))
      refine k3.trans ?_
      have k4 := (h2.perm.trans h3).map (·.1)
      unfold SocketPool.contents at k4
      rwa [List.map_map] at k4
  · intro s
    rw [List.nil_append, List.mem_append, h4, hca.mem_iff]
    constructor
    · rintro (⟨t, a1, a2, a3, a4⟩ | hm)
      · exact ⟨t, a1, a2, a3⟩
      · obtain ⟨⟨s', d⟩, hx, rfl⟩ := List.mem_map.1 hm
        obtain ⟨j, t, k1, k2, k3, k4, -⟩ := mem_watched.1 hx
        exact ⟨t, List.mem_of_getElem? k1, k2, k3⟩
    · rintro ⟨t, a1, a2, a3⟩
      cases hst : t.started with
      | false => exact .inl ⟨t, a1, a2, a3, hst⟩
      | true =>
        obtain ⟨j, hj⟩ := List.mem_iff_getElem?.1 a1
        exact .inr (List.mem_map.2 ⟨(s, some j), mem_watched.2 ⟨j, t, hj, a2, a3, hst, by simp⟩, rfl⟩)
  · rw [List.nil_append, List.nodup_append]
    refine ⟨h.1.sublist h5, hca.nodup_iff.2 (h.1.sublist (watched_sub 0 ts)), ?_⟩
    intro s hs s' hs' he
    subst he
    obtain ⟨t, a1, a2, a3, a4⟩ := (h4 s).1 hs
    obtain ⟨⟨s', d⟩, hx, rfl⟩ := List.mem_map.1 (hca.mem_iff.1 hs')
    obtain ⟨j, u, k1, k2, k3, k4, -⟩ := mem_watched.1 hx
    obtain ⟨j', hj'⟩ := List.mem_iff_getElem?.1 a1
    have := sane_sock h k1 hj' k2 a2
    subst this
    rw [k1] at hj'; cases hj'
    rw [a4] at k4; cases k4

theorem swapFirst_perm (l : List Addr) (k : Nat) : (swapFirst l k).Perm l := by
  unfold swapFirst
  cases h0 : l[0]? with
  | none => exact List.Perm.refl _
  | some f =>
    cases hk : l[k]? with
    | none => exact List.Perm.refl _
    | some t =>
      obtain ⟨b0, e0⟩ := List.getElem?_eq_some_iff.1 h0
      obtain ⟨bk, ek⟩ := List.getElem?_eq_some_iff.1 hk
      subst e0; subst ek
      exact List.set_set_perm bk b0

theorem swapFirst_first {l : List Addr} {k : Nat} {a : Addr} (h : l[k]? = some a) : (swapFirst l k)[0]? = some a := by
  unfold swapFirst
  have hl : 0 < l.length := by obtain ⟨b, -⟩ := List.getElem?_eq_some_iff.1 h; omega
  rw [List.getElem?_eq_getElem hl, h]
  simp [hl]

theorem check_ok {L P st} (h : Inv L P st) (k : Nat) {ts : List Try} (hs : Sane ts) (now : Nat) :
    ∃ st', check st k ts now = some st' ∧ Inv L P st' := by
  unfold check
  cases hi : st.infos[k]? with
  | none => exact ⟨st, rfl, h⟩
  | some i =>
    dsimp only
    have hs' : Sane (ts.take i.list.length) := ⟨hs.1.sublist ((List.take_sublist _ _).filterMap _), fun t ht => hs.2 t (List.mem_of_mem_take ht)⟩
    obtain ⟨r, op, cl, h1, -⟩ := checkAList_ok hs' now
    rw [h1]
    cases r with
    | none => exact ⟨st, rfl, h⟩
    | some f =>
      refine ⟨_, rfl, h.chunk, by simpa using h.len, fun j o ho => ?_⟩
      obtain ⟨i', h3, h4, h5⟩ := h.info j o ho
      show ∃ i, (st.infos.modify k _)[j]? = _ ∧ _
      rw [List.getElem?_modify, h3]
      by_cases hjk : k = j
      · exact ⟨{ i' with list := swapFirst i'.list f }, by simp [hjk], h4, (swapFirst_perm _ _).trans h5⟩
      · exact ⟨i', by simp [hjk], h4, h5⟩

theorem run_ok {L P st} (h : Inv L P st) (cs : List (Nat × List Try × Nat)) (hs : ∀ c ∈ cs, Sane c.2.1) :
    ∃ st', run st cs = some st' ∧ Inv L P st' := by
  induction cs generalizing st with
  | nil => exact ⟨st, rfl, h⟩
  | cons c cs ih =>
    obtain ⟨k, ts, now⟩ := c
    obtain ⟨st1, h1, h2⟩ := check_ok h k (hs (k, ts, now) (by simp)) now
    unfold run
    rw [h1]
    exact ih h2 (fun c hc => hs c (by simp [hc]))

end Verif.GoodIpList
