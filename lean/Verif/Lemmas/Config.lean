import Verif.Spec.Config
import Verif.Props.StringList
import Verif.Props.IpText
import Verif.Props.ReadLine
import Verif.Lemmas.StringChunk
/-! Lemmas about configuration files. -/

namespace Verif.Config
open StableBuffer (Buf)
open StringList (Split Trims white Lowered enc Means)
open StringChunk (Chunk IsPattern)

/-! ### Buffers -/

/-- The buffer holds these strings, within a size. -/
def BufRep (T N : Nat) (b : Buf) (l : List (List Byte)) : Prop :=
  ∃ sss fresh, StringList.Good b sss fresh ∧ sss.flatten = l ∧ (enc l).length ≤ T ∧ b.length ≤ N

theorem BufRep.mono {T T' N N' : Nat} {b : Buf} {l : List (List Byte)} (h : BufRep T N b l) (hT : T ≤ T') (hN : N ≤ N') : BufRep T' N' b l := by
  obtain ⟨sss, fresh, h1, h2, h3, h4⟩ := h
  exact ⟨sss, fresh, h1, h2, by omega, by omega⟩

theorem BufRep.nil (T N : Nat) : BufRep T N [] [] := ⟨[], true, ⟨.nil, fun _ => .inl rfl⟩, rfl, by simp, by simp⟩

theorem BufRep.items {T N : Nat} {b : Buf} {l : List (List Byte)} (h : BufRep T N b l) : StringList.items b = some l := by
  obtain ⟨sss, fresh, h1, rfl, -, -⟩ := h
  exact StringList.items_rep h1.rep

theorem BufRep.add {T N : Nat} {b : Buf} {l : List (List Byte)} (h : BufRep T N b l) (s : List Byte) (d : Option (List Byte))
    (hs : (0 : Byte) ∉ s) (hsize : (T + (s.length + 1) + 1) * (N + 1) ≤ 2147483647) :
    ∃ b' ps, StringList.add b s d = some b' ∧ Split (d.getD []) s ps ∧ BufRep (T + (s.length + 1)) (N + 1) b' (l ++ ps) := by
  obtain ⟨sss, fresh, h1, h2, h3, h4⟩ := h
  subst h2
  obtain ⟨b', tss, k1, k2, k3, k4, k5⟩ := StringList.step_good h1 (.add s d) hs
    (Nat.le_trans (Nat.mul_le_mul (by simp only [StringList.Op.size]; omega) (by omega)) hsize) (by intro t d e; cases e)
  obtain ⟨ps, m1, m2⟩ := k3
  simp only [StringList.Op.size] at k4
  exact ⟨b', ps, k1, m1, tss, _, k2, m2, by rw [← m2]; omega, by omega⟩

theorem BufRep.trim {T N : Nat} {b : Buf} {l : List (List Byte)} (h : BufRep T N b l) (hsize : (T + 1) * (N + 1) ≤ 2147483647) :
    ∃ b' l', StringList.trimAll b none = some b' ∧ Trims white l l' ∧ BufRep T (N + 1) b' l' := by
  obtain ⟨sss, fresh, h1, h2, h3, h4⟩ := h
  subst h2
  obtain ⟨b', tss, k1, k2, k3, k4, k5⟩ := StringList.step_good h1 (.trim none) trivial
    (Nat.le_trans (Nat.mul_le_mul (by simp only [StringList.Op.size]; omega) (by omega)) hsize) (by intro t d e; cases e)
  simp only [StringList.Op.size] at k4
  exact ⟨b', _, k1, k3, tss, _, k2, rfl, by omega, by omega⟩

/-! ### Tables -/

inductive ItemRep (T N : Nat) : Item → Entry → Prop
  | alias {it : Item} {t : List Byte} {p : Option (List Byte)} : it.holder = .alias t p → ItemRep T N it (.alias t p it.delims)
  | int {it : Item} {v : Int} {d : List Byte} : it.holder = .int v → ItemRep T N it (.opt ⟨it.special, it.strategy, d, .int v⟩)
  | bool {it : Item} {v : Bool} {d : List Byte} : it.holder = .bool v → ItemRep T N it (.opt ⟨it.special, it.strategy, d, .bool v⟩)
  | path {it : Item} {b : Buf} {l : List (List Byte)} {d : List Byte} : it.holder = .path b → it.delims = some d → BufRep T N b l →
      ItemRep T N it (.opt ⟨it.special, it.strategy, d, .path l⟩)
  | str {it : Item} {b : Buf} {l : List (List Byte)} {d : List Byte} : it.holder = .str b → it.delims = some d → BufRep T N b l →
      ItemRep T N it (.opt ⟨it.special, it.strategy, d, .str l⟩)

theorem ItemRep.mono {T T' N N' : Nat} {it : Item} {e : Entry} (h : ItemRep T N it e) (hT : T ≤ T') (hN : N ≤ N') : ItemRep T' N' it e := by
  cases h with
  | alias h => exact .alias h
  | int h => exact .int h
  | bool h => exact .bool h
  | path h1 h2 h3 => exact .path h1 h2 (h3.mono hT hN)
  | str h1 h2 h3 => exact .str h1 h2 (h3.mono hT hN)

/-- The entries of the string table. -/
def ents (tab : Table) : List (StringChunk.Entry Nat) := tab.zipIdx.map fun x => ⟨x.1.1, some x.2⟩

structure Rep (T N : Nat) (c : Cfg) (tab : Table) : Prop where
  chunk : StringChunk.Good c.chunk (ents tab)
  items : ∀ i : Nat, (c.items[i]? = none ∧ tab[i]? = none) ∨ ∃ it k e, c.items[i]? = some it ∧ tab[i]? = some (k, e) ∧ ItemRep T N it e

theorem Rep.mono {T T' N N' : Nat} {c : Cfg} {tab : Table} (h : Rep T N c tab) (hT : T ≤ T') (hN : N ≤ N') : Rep T' N' c tab := by
  refine ⟨h.chunk, fun i => ?_⟩
  rcases h.items i with h | ⟨it, k, e, h1, h2, h3⟩
  · exact .inl h
  · exact .inr ⟨it, k, e, h1, h2, h3.mono hT hN⟩

theorem ents_concat (tab : Table) (x : List Byte × Entry) : ents (tab ++ [x]) = ents tab ++ [⟨x.1, some tab.length⟩] := by
  simp [ents, List.zipIdx_append]

theorem plain_iff (k : List Byte) : Plain k ↔ ¬ IsPattern k := by
  unfold Plain IsPattern
  constructor
  · rintro h ⟨c, hc, e⟩
    have := h c hc
    grind
  · intro h c hc
    refine ⟨fun e => h ⟨c, hc, .inl e⟩, fun e => h ⟨c, hc, .inr (.inl e)⟩, fun e => h ⟨c, hc, .inr (.inr e)⟩⟩

theorem find_cases (n : Nat) : ∀ (tab : Table) (k : List Byte), tab.length = n →
    (∃ i e, Finds tab k i e ∧
      (((ents tab).filter (fun e => !decide (IsPattern e.str))).reverse.find? (fun e => e.str == k && (fun _ => true) e.data)) = some ⟨k, some i⟩) ∨
    (Unknown tab k ∧
      (((ents tab).filter (fun e => !decide (IsPattern e.str))).reverse.find? (fun e => e.str == k && (fun _ => true) e.data)) = none) := by
  induction n with
  | zero =>
    intro tab k h
    obtain rfl := List.eq_nil_of_length_eq_zero h
    exact .inr ⟨.inr (by simp), rfl⟩
  | succ n ih =>
    intro tab k h
    rcases List.eq_nil_or_concat tab with rfl | ⟨tab, ⟨k', e'⟩, rfl⟩
    · simp at h
    · rw [List.concat_eq_append] at *
      rw [ents_concat, List.filter_append, List.reverse_append]
      simp only [List.length_append, List.length_singleton] at h
      have hlast : (tab ++ [(k', e')])[tab.length]? = some (k', e') := by simp
      by_cases hp : IsPattern k'
      · have hf : [(⟨k', some tab.length⟩ : StringChunk.Entry Nat)].filter (fun e => !decide (IsPattern e.str)) = [] := by simp [hp]
        rw [hf]
        simp only [List.reverse_nil, List.nil_append]
        rcases ih tab k (by omega) with ⟨i, e, h1, h2⟩ | ⟨h1, h2⟩
        · refine .inl ⟨i, e, ⟨h1.1, ?_, ?_⟩, h2⟩
          · rw [List.getElem?_append_left]
            · exact h1.2.1
            · exact (List.getElem?_eq_some_iff.1 h1.2.1).1
          · intro j e'' hj he
            by_cases hjl : j < tab.length
            · rw [List.getElem?_append_left hjl] at he
              exact h1.2.2 j e'' hj he
            · have hj' : j = tab.length := by
                have := (List.getElem?_eq_some_iff.1 he).1
                simp at this; omega
              subst hj'
              rw [hlast] at he
              simp only [Option.some.injEq, Prod.mk.injEq] at he
              exact (plain_iff k).1 h1.1 (he.1 ▸ hp)
        · refine .inr ⟨?_, h2⟩
          by_cases hk : Plain k
          · refine .inr fun j e he => ?_
            by_cases hjl : j < tab.length
            · rw [List.getElem?_append_left hjl] at he
              rcases h1 with h1 | h1
              · exact h1 hk
              · exact h1 j e he
            · have hj' : j = tab.length := by
                have := (List.getElem?_eq_some_iff.1 he).1
                simp at this; omega
              subst hj'
              rw [hlast] at he
              simp only [Option.some.injEq, Prod.mk.injEq] at he
              exact (plain_iff k).1 hk (he.1 ▸ hp)
          · exact .inl hk
      · have hf : [(⟨k', some tab.length⟩ : StringChunk.Entry Nat)].filter (fun e => !decide (IsPattern e.str)) = [⟨k', some tab.length⟩] := by
          simp [hp]
        rw [hf]
        simp only [List.reverse_singleton, List.singleton_append, List.find?_cons]
        by_cases hk : k' = k
        · subst hk
          left
          refine ⟨tab.length, e', ⟨(plain_iff _).2 hp, hlast, ?_⟩, by simp⟩
          intro j e'' hj he
          have := (List.getElem?_eq_some_iff.1 he).1
          simp at this; omega
        · have : (k' == k && true) = false := by simp [hk]
          rw [this]
          dsimp only
          rcases ih tab k (by omega) with ⟨i, e, h1, h2⟩ | ⟨h1, h2⟩
          · refine .inl ⟨i, e, ⟨h1.1, ?_, ?_⟩, h2⟩
            · rw [List.getElem?_append_left]
              · exact h1.2.1
              · exact (List.getElem?_eq_some_iff.1 h1.2.1).1
            · intro j e'' hj he
              by_cases hjl : j < tab.length
              · rw [List.getElem?_append_left hjl] at he
                exact h1.2.2 j e'' hj he
              · have hj' : j = tab.length := by
                  have := (List.getElem?_eq_some_iff.1 he).1
                  simp at this; omega
                subst hj'
                rw [hlast] at he
                simp only [Option.some.injEq, Prod.mk.injEq] at he
                exact hk he.1
          · refine .inr ⟨?_, h2⟩
            rcases h1 with h1 | h1
            · exact .inl h1
            · refine .inr fun j e he => ?_
              by_cases hjl : j < tab.length
              · rw [List.getElem?_append_left hjl] at he
                exact h1 j e he
              · have hj' : j = tab.length := by
                  have := (List.getElem?_eq_some_iff.1 he).1
                  simp at this; omega
                subst hj'
                rw [hlast] at he
                simp only [Option.some.injEq, Prod.mk.injEq] at he
                exact hk he.1

theorem find_rep {T N : Nat} {c : Cfg} {tab : Table} (h : Rep T N c tab) (k : List Byte) :
    (∃ i e it, Finds tab k i e ∧ c.find k = some (i, it) ∧ c.items[i]? = some it ∧ ItemRep T N it e) ∨
    (Unknown tab k ∧ c.find k = none) := by
  have := StringChunk.matchNoWild_eq h.chunk k (fun _ => true)
  unfold Cfg.find
  rw [this]
  rcases find_cases _ tab k rfl with ⟨i, e, h1, h2⟩ | ⟨h1, h2⟩
  · rw [h2]
    rcases h.items i with ⟨-, h3⟩ | ⟨it, k', e', h3, h4, h5⟩
    · rw [h1.2.1] at h3; simp at h3
    · rw [h1.2.1] at h4
      simp only [Option.some.injEq, Prod.mk.injEq] at h4
      obtain ⟨rfl, rfl⟩ := h4
      left
      exact ⟨i, e, it, h1, by simp [h3], h3, h5⟩
  · right
    rw [h2]
    exact ⟨h1, rfl⟩

theorem finds_inj {tab : Table} {k : List Byte} {i j : Nat} {e e' : Entry} (h : Finds tab k i e) (h' : Finds tab k j e') : i = j ∧ e = e' := by
  have hij : i = j := by
    rcases Nat.lt_trichotomy i j with hl | hl | hl
    · exact absurd h'.2.1 (h.2.2 j e' hl)
    · exact hl
    · exact absurd h.2.1 (h'.2.2 i e hl)
  subst hij
  have := h.2.1.symm.trans h'.2.1
  simp only [Option.some.injEq, Prod.mk.injEq, true_and] at this
  exact ⟨rfl, this⟩

/-- Looking up an option. -/
theorem getOption_rep {T N : Nat} {c : Cfg} {tab : Table} (h : Rep T N c tab) (hs : Sane tab) (depth : Nat) (hd : 2 ≤ depth) (k : List Byte) :
    (∃ i o it p d, Names tab k i o p (d.getD o.delims) ∧ (∃ x, tab[i]? = some (x, .opt o)) ∧ c.items[i]? = some it ∧
      ItemRep T N it (.opt o) ∧ (p ≠ none → (∃ l, o.val = .str l) ∧ ∃ t d, (k, Entry.alias t p d) ∈ tab) ∧
      getOption c depth k none none = some (some (i, it, p, d))) ∨
    (Unknown tab k ∧ getOption c depth k none none = some none) := by
  obtain ⟨depth, rfl⟩ : ∃ m, depth = m + 2 := ⟨depth - 2, by omega⟩
  rcases find_rep h k with ⟨i, e, it, h1, h2, h3, h4⟩ | ⟨h1, h2⟩
  · left
    cases e with
    | opt o =>
      refine ⟨i, o, it, none, none, .option h1, ⟨k, h1.2.1⟩, h3, h4, by simp, ?_⟩
      rw [getOption, h2]
      dsimp only
      cases h4 with
      | int h => rw [h]
      | bool h => rw [h]
      | path h => rw [h]
      | str h => rw [h]
    | alias t p d =>
      have hmem : (k, Entry.alias t p d) ∈ tab := List.mem_of_getElem? h1.2.1
      obtain ⟨i', o, k1, k2⟩ := hs _ hmem
      rcases find_rep h t with ⟨i2, e2, it2, m1, m2, m3, m4⟩ | ⟨m1, m2⟩
      · obtain ⟨rfl, rfl⟩ := finds_inj k1 m1
        cases h4 with
        | alias hh =>
          refine ⟨i', o, it2, p, it.delims, .alias h1 k1, ⟨t, k1.2.1⟩, m3, m4, fun hp => ⟨k2 hp, t, it.delims, hmem⟩, ?_⟩
          rw [getOption, h2]
          dsimp only
          rw [hh]
          dsimp only
          rw [getOption, m2]
          dsimp only
          cases m4 with
          | int h => rw [h]
          | bool h => rw [h]
          | path h => rw [h]
          | str h => rw [h]
      · rcases m1 with m1 | m1
        · exact absurd k1.1 m1
        · exact absurd k1.2.1 (m1 i' _)
  · right
    rw [getOption, h2]
    exact ⟨h1, rfl⟩

theorem rep_set {T N : Nat} {c : Cfg} {tab : Table} (h : Rep T N c tab) {i : Nat} {x : List Byte} {e e' : Entry} {it' : Item}
    (hi : tab[i]? = some (x, e)) (hr : ItemRep T N it' e') : Rep T N (c.set i it') (tab.set i (x, e')) := by
  have hents : ents (tab.set i (x, e')) = ents tab := by
    apply List.ext_getElem?
    intro j
    simp only [ents, List.getElem?_map, List.getElem?_zipIdx, List.getElem?_set]
    split
    · rename_i hij
      subst hij
      have hlt := (List.getElem?_eq_some_iff.1 hi).1
      rw [if_pos hlt, hi]
      rfl
    · rfl
  have hlt := (List.getElem?_eq_some_iff.1 hi).1
  refine ⟨by rw [hents]; exact h.chunk, fun j => ?_⟩
  simp only [Cfg.set, List.getElem?_set]
  by_cases hij : i = j
  · subst hij
    right
    have hlt' : i < c.items.length := by
      rcases h.items i with ⟨-, h2⟩ | ⟨it, k, e, h1, h2, h3⟩
      · rw [hi] at h2; simp at h2
      · exact (List.getElem?_eq_some_iff.1 h1).1
    exact ⟨it', x, e', by simp [hlt'], by simp [hlt], hr⟩
  · simp only [if_neg hij]
    exact h.items j

theorem finds_set {tab : Table} {i j : Nat} {x k : List Byte} {e e' e2 : Entry} (hi : tab[i]? = some (x, e)) (h : Finds tab k j e2) :
    Finds (tab.set i (x, e')) k j (if i = j then e' else e2) := by
  have hlt := (List.getElem?_eq_some_iff.1 hi).1
  refine ⟨h.1, ?_, ?_⟩
  · rw [List.getElem?_set]
    by_cases hij : i = j
    · subst hij
      rw [if_pos rfl, if_pos hlt, if_pos rfl]
      rw [h.2.1] at hi
      simp only [Option.some.injEq, Prod.mk.injEq] at hi
      rw [hi.1]
    · rw [if_neg hij, if_neg hij]
      exact h.2.1
  · intro m e3 hm he
    rw [List.getElem?_set] at he
    by_cases him : i = m
    · subst him
      rw [if_pos rfl, if_pos hlt] at he
      simp only [Option.some.injEq, Prod.mk.injEq] at he
      rw [he.1] at hi
      exact h.2.2 i e hm hi
    · rw [if_neg him] at he
      exact h.2.2 m e3 hm he

/-! ### Lines -/

theorem takeWhile_split {p : Byte → Bool} (k : List Byte) (x : Byte) (r : List Byte) (hk : ∀ c ∈ k, p c = true) (hx : p x = false) :
    (k ++ x :: r).takeWhile p = k := by
  induction k with
  | nil => simp [hx]
  | cons c k ih =>
    simp only [List.mem_cons, forall_eq_or_imp] at hk
    simp [hk.1, ih hk.2]

theorem tab_space (c : Byte) : c ∈ str "\t " ↔ c = 32 ∨ c = 9 := by
  have : str "\t " = [9, 32] := by decide
  rw [this]
  simp [or_comm]

theorem split_of_pair {s k v : List Byte} (h : Pair s k v) : splitLine s = some (k, v) := by
  obtain ⟨x, w, h1, h2, h3, h4, c, r, h5, h6, h7⟩ := h
  have htk : s.takeWhile (fun c => c != 32 && c != 9 && c != 61) = k := by
    rw [h1]
    refine takeWhile_split k x _ (fun c hc => ?_) ?_
    · have := h2 c hc; simp [this]
    · rcases h3 with rfl | rfl | rfl <;> decide
  unfold splitLine
  dsimp only
  rw [htk, h1, List.drop_append_of_le_length (Nat.le_refl _), List.drop_length]
  dsimp only [List.nil_append]
  rcases StringList.strNpbrk_spec (w ++ v) (str "\t ") with ⟨-, hb⟩ | ⟨a, r', k1, k2, k3, k4, k5⟩
  · have := hb c (by rw [h5]; simp)
    rw [tab_space] at this
    rcases this with e | e
    · exact absurd e h6
    · exact absurd e h7
  · rw [k5]
    dsimp only
    have haw : a = w := by
      rcases List.append_eq_append_iff.1 k1 with ⟨z, e1, e2⟩ | ⟨z, e1, e2⟩
      · cases z with
        | nil => simpa using e1
        | cons y z =>
          rw [h5] at e2
          simp only [List.cons_append, List.cons.injEq] at e2
          have := k2 y (by rw [e1]; simp)
          rw [← e2.1, tab_space] at this
          exact absurd this (by simp [h6, h7])
      · cases z with
        | nil => simpa using e1.symm
        | cons y z =>
          exfalso
          refine k4 y (by rw [e2]; simp) ?_
          rw [tab_space]
          exact h4 y (by rw [e1]; simp)
    rw [haw]
    simp

theorem pair_of_split {s k v : List Byte} (h : splitLine s = some (k, v)) : Pair s k v := by
  unfold splitLine at h
  dsimp only at h
  have hs := List.takeWhile_append_dropWhile (p := fun c : Byte => c != 32 && c != 9 && c != 61) (l := s)
  have hall := List.all_takeWhile (p := fun c : Byte => c != 32 && c != 9 && c != 61) (l := s)
  have hhead := List.head?_dropWhile_not (fun c : Byte => c != 32 && c != 9 && c != 61) s
  have hdrop : s.drop (s.takeWhile (fun c => c != 32 && c != 9 && c != 61)).length = s.dropWhile (fun c => c != 32 && c != 9 && c != 61) := by
    have := congrArg (List.drop (s.takeWhile (fun c => c != 32 && c != 9 && c != 61)).length) hs
    rw [List.drop_append_of_le_length (Nat.le_refl _), List.drop_length, List.nil_append] at this
    exact this.symm
  rw [hdrop] at h
  generalize s.takeWhile (fun c => c != 32 && c != 9 && c != 61) = t at *
  cases hd : s.dropWhile (fun c => c != 32 && c != 9 && c != 61) with
  | nil => rw [hd] at h; simp at h
  | cons x r =>
    rw [hd] at h hs hhead
    dsimp only at h
    rcases StringList.strNpbrk_spec r (str "\t ") with ⟨e, -⟩ | ⟨a, r', k1, k2, k3, k4, k5⟩
    · rw [e] at h; simp at h
    · rw [k5] at h
      simp only [Option.some.injEq, Prod.mk.injEq] at h
      obtain ⟨rfl, h2⟩ := h
      have hv : v = r' := by rw [← h2, k1]; simp
      subst hv
      refine ⟨x, a, ?_, ?_, ?_, ?_, ?_⟩
      · rw [← hs, k1]
      · intro c hc
        rw [List.all_eq_true] at hall
        simpa [and_assoc] using hall c hc
      · simp at hhead
        grind
      · intro c hc
        exact (tab_space c).1 (k2 c hc)
      · cases v with
        | nil => exact absurd rfl k3
        | cons c v =>
          refine ⟨c, v, rfl, ?_, ?_⟩
          · rintro rfl; exact k4 32 rfl (by decide)
          · rintro rfl; exact k4 9 rfl (by decide)

/-! ### Numbers and truth values -/

theorem spanDigits_rest (f : Byte → Option Nat) (s : List Byte) : ∀ c, (IpText.spanDigits f s).2.head? = some c → f c = none := by
  induction s with
  | nil => intro c h; simp [IpText.spanDigits] at h
  | cons x r ih =>
    intro c h
    cases hx : f x with
    | none => simp only [IpText.spanDigits, hx, List.head?_cons, Option.some.injEq] at h; rw [← h]; exact hx
    | some d => simp only [IpText.spanDigits, hx] at h; exact ih c h

theorem decVal_none (c : Byte) : IpText.decVal c = none ↔ ¬ (48 ≤ c ∧ c ≤ 57) :=
  forall_byte (fun c => IpText.decVal c = none ↔ ¬ (48 ≤ c ∧ c ≤ 57)) (by decide +kernel) c

theorem scan_cases (v : List Byte) :
    (∃ n rest, IpText.scanDec v = .ok n rest ∧ Number v n) ∨ (IpText.scanDec v = .fail ∧ NoNumber v) ∨
    (IpText.scanDec v = .undef ∧ ∃ n, Number v n ∧ ¬ (-2147483648 ≤ n ∧ n ≤ 2147483647)) := by
  have hsp : v = v.takeWhile IpText.isSpace ++ IpText.skipSpace v := by simp [IpText.skipSpace]
  have hspc : ∀ c ∈ v.takeWhile IpText.isSpace, c = 32 ∨ (9 ≤ c ∧ c ≤ 13) := by
    intro c hc
    have : IpText.isSpace c = true := List.all_eq_true.1 (List.all_takeWhile (p := IpText.isSpace) (l := v)) c hc
    simpa [IpText.isSpace] using this
  have hnsp : ∀ c, (IpText.skipSpace v).head? = some c → ¬ (c = 32 ∨ (9 ≤ c ∧ c ≤ 13)) := by
    intro c hc hsp
    have := List.head?_dropWhile_not IpText.isSpace v
    unfold IpText.skipSpace at hc
    rw [hc] at this
    have h2 : IpText.isSpace c = true := by simpa [IpText.isSpace] using hsp
    dsimp only at this
    rw [h2] at this
    simp at this
  obtain ⟨sg, hsg, hsv⟩ : ∃ sg, IpText.skipSpace v = sg ++ (IpText.sign (IpText.skipSpace v)).2 ∧
      ((sg = [] ∧ (IpText.sign (IpText.skipSpace v)).1 = false ∧ ∀ c, (IpText.skipSpace v).head? = some c → c ≠ 43 ∧ c ≠ 45) ∨
        (sg = [43] ∧ (IpText.sign (IpText.skipSpace v)).1 = false) ∨
        (sg = [45] ∧ (IpText.sign (IpText.skipSpace v)).1 = true)) := by
    cases IpText.skipSpace v with
    | nil => exact ⟨[], rfl, .inl ⟨rfl, rfl, by simp⟩⟩
    | cons c r =>
      by_cases h1 : c = 45
      · subst h1; exact ⟨[45], rfl, .inr (.inr ⟨rfl, rfl⟩)⟩
      · by_cases h2 : c = 43
        · subst h2; exact ⟨[43], rfl, .inr (.inl ⟨rfl, rfl⟩)⟩
        · refine ⟨[], ?_, .inl ⟨rfl, ?_, ?_⟩⟩
          · simp [IpText.sign, h1, h2]
          · simp [IpText.sign, h1, h2]
          · intro c' hc'; simp at hc'; subst hc'; exact ⟨h2, h1⟩
  obtain ⟨ds, hds, hdv⟩ := IpText.spanDigits_spec IpText.decVal (IpText.sign (IpText.skipSpace v)).2
  have hrest := spanDigits_rest IpText.decVal (IpText.sign (IpText.skipSpace v)).2
  unfold IpText.scanDec
  dsimp only
  by_cases hnil : (IpText.spanDigits IpText.decVal (IpText.sign (IpText.skipSpace v)).2).1 = []
  · right; left
    rw [if_pos hnil]
    refine ⟨rfl, v.takeWhile IpText.isSpace, sg, (IpText.sign (IpText.skipSpace v)).2, ?_, hspc, ?_, ?_⟩
    · rw [List.append_assoc, ← hsg]; exact hsp
    · rcases hsv with ⟨e, -⟩ | ⟨e, -⟩ | ⟨e, -⟩ <;> simp [e]
    · intro c hc
      rw [hnil] at hdv
      have hdn : ds = [] := by simpa using hdv
      rw [hdn] at hds
      rw [hds] at hc
      refine ⟨(decVal_none c).1 (hrest c hc), fun e => ?_⟩
      rcases hsv with ⟨-, -, h⟩ | ⟨e', -⟩ | ⟨e', -⟩
      · have hc' : (IpText.skipSpace v).head? = some c := by rw [hsg, hds, e]; exact hc
        have := h c hc'
        exact ⟨this.1, this.2, hnsp c hc'⟩
      · rw [e'] at e; simp at e
      · rw [e'] at e; simp at e
  · rw [if_neg hnil]
    have hnum : Number v (if (IpText.sign (IpText.skipSpace v)).1 = true then
          -(IpText.digitsVal 10 (IpText.spanDigits IpText.decVal (IpText.sign (IpText.skipSpace v)).2).1 : Int)
        else (IpText.digitsVal 10 (IpText.spanDigits IpText.decVal (IpText.sign (IpText.skipSpace v)).2).1 : Int)) := by
      refine ⟨v.takeWhile IpText.isSpace ++ sg ++ ds, (IpText.spanDigits IpText.decVal (IpText.sign (IpText.skipSpace v)).2).2, ?_,
        ⟨v.takeWhile IpText.isSpace, sg, ds, _, rfl, hspc, IpText.decNum_of_digits ds _ hdv hnil, ?_⟩, fun c hc => (decVal_none c).1 (hrest c hc)⟩
      · conv => lhs; rw [hsp, hsg, hds]
        simp
      · rcases hsv with ⟨e, e', -⟩ | ⟨e, e'⟩ | ⟨e, e'⟩ <;> simp [e, e']
    generalize hn : (if (IpText.sign (IpText.skipSpace v)).1 = true then
          -(IpText.digitsVal 10 (IpText.spanDigits IpText.decVal (IpText.sign (IpText.skipSpace v)).2).1 : Int)
        else (IpText.digitsVal 10 (IpText.spanDigits IpText.decVal (IpText.sign (IpText.skipSpace v)).2).1 : Int)) = n at hnum ⊢
    by_cases hr : -2147483648 ≤ n ∧ n ≤ 2147483647
    · rw [if_pos hr]
      exact .inl ⟨n, _, rfl, hnum⟩
    · rw [if_neg hr]
      exact .inr (.inr ⟨rfl, n, hnum, hr⟩)

theorem hasSub_iff (sub : List Byte) (hne : sub ≠ []) (s : List Byte) : hasSub sub s = true ↔ sub <:+: s := by
  induction s with
  | nil => simp [hasSub, hne]
  | cons c t ih =>
    rw [hasSub, Bool.or_eq_true, ih, List.infix_cons_iff, List.isPrefixOf_iff_prefix]

theorem truth_getBool (v : List Byte) : Truth v (getBool v) := by
  unfold getBool
  dsimp only
  cases v with
  | nil => exact .word (w := []) (by simp) ⟨rfl, by simp⟩ (by simp [str])
  | cons c r =>
    dsimp only
    by_cases hc : 48 ≤ c ∧ c ≤ 57
    · rw [if_pos hc]
      have := Truth.digit (v := c :: r) rfl hc.1 hc.2
      have e : (c != 48) = decide (c ≠ 48) := by by_cases h : c = 48 <;> simp [h]
      rw [e]; exact this
    · rw [if_neg hc]
      refine .word (w := strToLower ((c :: r).take 7)) ?_ (StringList.lowered_lower _) ?_
      · intro c' r' e
        simp only [List.cons.injEq] at e
        rw [← e.1]; exact hc
      · have h1 := hasSub_iff (str "false") (by decide) (strToLower ((c :: r).take 7))
        have h2 := hasSub_iff (str "true") (by decide) (strToLower ((c :: r).take 7))
        have h3 := hasSub_iff (str "no") (by decide) (strToLower ((c :: r).take 7))
        have h4 := hasSub_iff (str "yes") (by decide) (strToLower ((c :: r).take 7))
        rw [← h1, ← h2, ← h3, ← h4]
        grind

/-! ### Paths -/

theorem path_cases (v : List Byte) : (∃ p, trimPath v = some p ∧ PathText v p ∧ p.length ≤ v.length ∧ (∀ c ∈ p, c ∈ v)) ∨ (trimPath v = none ∧ NoPath v) := by
  have hq : ∀ c, c ∈ str "\"" ↔ c = 34 := by
    intro c
    have : str "\"" = [34] := by decide
    rw [this]; simp
  have hq2 : ∀ c, c ∈ str "\"\t " ↔ c = 34 ∨ c = 9 ∨ c = 32 := by
    intro c
    have : str "\"\t " = [34, 9, 32] := by decide
    rw [this]; simp
  have hs := List.takeWhile_append_dropWhile (p := fun c : Byte => decide (c ∈ str "\"")) (l := v.reverse)
  have hall := List.all_takeWhile (p := fun c : Byte => decide (c ∈ str "\"")) (l := v.reverse)
  have hhead := List.head?_dropWhile_not (fun c : Byte => decide (c ∈ str "\"")) v.reverse
  rw [List.all_eq_true] at hall
  have hv : v = (v.reverse.dropWhile (fun c : Byte => decide (c ∈ str "\""))).reverse ++
      (v.reverse.takeWhile (fun c : Byte => decide (c ∈ str "\""))).reverse := by
    rw [← List.reverse_append, hs, List.reverse_reverse]
  unfold trimPath StringList.strRNpbrk
  generalize v.reverse.takeWhile (fun c : Byte => decide (c ∈ str "\"")) = q at *
  cases hd : v.reverse.dropWhile (fun c : Byte => decide (c ∈ str "\"")) with
  | nil =>
    right
    rw [hd] at hv
    refine ⟨rfl, [], v, rfl, ?_, by simp⟩
    intro c hc
    rw [hv] at hc
    simp at hc
    have := hall c hc
    simpa [hq] using this
  | cons x r =>
    rw [hd] at hv hhead
    dsimp only
    have htake : v.take ((x :: r).length - 1 + 1) = (x :: r).reverse := by
      rw [hv, List.take_left' (by simp)]
    rw [htake]
    rcases StringList.strNpbrk_spec (x :: r).reverse (str "\"\t ") with ⟨e, hb⟩ | ⟨a, p, k1, k2, k3, k4, k5⟩
    · right
      rw [e]
      refine ⟨rfl, (x :: r).reverse, q.reverse, hv, ?_, ?_⟩
      · intro c hc
        have := hall c (by simpa using hc)
        simpa [hq] using this
      · intro c hc
        exact (hq2 c).1 (hb c hc)
    · left
      rw [k5]
      refine ⟨p, by rw [k1]; simp, ⟨a, q.reverse, ?_, ?_, ?_, ?_, ?_, k3⟩, ?_, ?_⟩
      · rw [← k1]; exact hv
      · intro c hc
        have := hall c (by simpa using hc)
        simpa [hq] using this
      · intro c hc; exact (hq2 c).1 (k2 c hc)
      · intro c hc
        have := k4 c hc
        rw [hq2] at this
        grind
      · intro c hc e
        have h1 : (x :: r).reverse.getLast? = some c := by
          rw [k1, List.getLast?_append, hc]; rfl
        simp at h1
        subst h1
        simp [hq] at hhead
        exact hhead e
      · rw [hv, k1]; simp; omega
      · intro c hc; rw [hv, k1]; simp [hc]

end Verif.Config
