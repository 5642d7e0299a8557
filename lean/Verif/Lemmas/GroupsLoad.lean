import Verif.Lemmas.Groups
import Verif.Props.StringList
import Verif.Props.ReadLine

namespace Verif.Groups
open StringChunk
open StringList (Lowered Meaning)

theorem lowered_iff {s t : List Byte} : Lowered s t ↔ t = strToLower s := by
  constructor
  · rintro ⟨h1, h2⟩
    have h3 := StringList.lowered_lower s
    apply List.ext_getElem?
    intro i
    cases hs : s[i]? with
    | none =>
      have := List.getElem?_eq_none_iff.1 hs
      rw [List.getElem?_eq_none (by omega), List.getElem?_eq_none (by have := h3.1; omega)]
    | some c => rw [h2 i c hs, h3.2 i c hs]
  · rintro rfl
    exact StringList.lowered_lower s

theorem isWord_iff (w s : List Byte) (hw : w.length < 7) : isWord w s = true ↔ Lowered s w := by
  rw [lowered_iff, isWord, beq_iff_eq]
  by_cases h : s.length ≤ 7
  · rw [List.take_of_length_le h]
    exact eq_comm
  · have h1 : (strToLower (s.take 7)).length = 7 := by rw [strToLower_length, List.length_take]; omega
    have h2 : (strToLower s).length = s.length := strToLower_length s
    constructor
    · intro e; rw [e] at h1; omega
    · intro e; rw [← e] at h2; omega

theorem tidied_ok (del : Option (List Byte)) (texts : List (List Byte)) (hc : ∀ t ∈ texts, (0 : Byte) ∉ t)
    (hs : ∀ t ∈ texts, (t.length + 1) * (texts.length + 3) ≤ 2147483647) :
    ∃ ds, tidied (texts.map (fun t => .add t del)) = some ds ∧ Domains del texts ds := by
  obtain ⟨bs, L, h1, h2, -, h4⟩ := StringList.split_trim_wide (texts.map (fun t => .add t del) ++ [.trim (some (str "\t .")), .lower])
    (by
      intro o ho
      simp only [List.mem_append, List.mem_map, List.mem_cons, List.not_mem_nil, or_false] at ho
      rcases ho with ⟨t, ht, rfl⟩ | rfl | rfl
      · exact hc t ht
      · trivial
      · trivial)
    (by
      intro o ho
      simp only [List.mem_append, List.mem_map, List.mem_cons, List.not_mem_nil, or_false] at ho
      rcases ho with ⟨t, ht, rfl⟩ | rfl | rfl
      · simpa [StringList.Op.size] using hs t ht
      · simp [StringList.Op.size]
      · simp [StringList.Op.size])
    (by
      intro o ho t d
      simp only [List.mem_append, List.mem_map, List.mem_cons, List.not_mem_nil, or_false] at ho
      rcases ho with ⟨t, ht, rfl⟩ | rfl | rfl <;> simp)
  exact ⟨L, by unfold tidied; rw [h1]; exact h2, h4⟩

theorem opsFrom_append (k : Nat) (gs hs : List Group) : opsFrom k (gs ++ hs) = opsFrom k gs ++ opsFrom (k + gs.length) hs := by
  simp [opsFrom, List.zipIdx_append]

theorem mapping_run (c : Chunk Nat) (i : Nat) (ds : List (List Byte)) :
    ds.foldl (fun c d => c.addDomain d (some i)) c = c.run (ds.map (fun d => Op.addDomain d (some i))) := by
  unfold Chunk.run
  rw [List.foldl_map]
  rfl

theorem rep_add {m : Map} {gs : List Group} (h : Rep m gs) (g : Group) : Rep (mapping (store m g.proto) m.modules.length g.domains) (gs ++ [g]) := by
  have hlen : m.modules.length = gs.length := by rw [h.modules, List.length_map]
  constructor
  · simp [mapping, store, h.modules]
  · simp only [mapping, store]
    rw [mapping_run, h.dist, opsFrom_append, hlen]
    simp only [opsFrom, Nat.zero_add, List.zipIdx_cons, List.zipIdx_nil, List.flatMap_cons, List.flatMap_nil, List.append_nil]
    simp [Chunk.run]

def udpOf (s p : List Byte) (ds : List (List Byte)) : Group := ⟨.udp, ⟨s, isWord (str "on") p, none⟩, ds⟩

def tcpOf (s p x : List Byte) (ds : List (List Byte)) : Group :=
  ⟨.tcp, ⟨s, isWord (str "on") p, if isWord (str "no") x then none else some x⟩, ds⟩

theorem udpOf_ok (s p : List Byte) (ds : List (List Byte)) : UdpGroup s p ds (udpOf s p ds) :=
  ⟨rfl, rfl, rfl, isWord_iff _ _ (by decide), rfl⟩

theorem tcpOf_ok (s p x : List Byte) (ds : List (List Byte)) : TcpGroup s p x ds (tcpOf s p x ds) := by
  refine ⟨rfl, rfl, rfl, isWord_iff _ _ (by decide), fun h => ?_, fun h => ?_⟩
  · simp [tcpOf, (isWord_iff _ _ (by decide)).2 h]
  · have : isWord (str "no") x = false := by
      rw [Bool.eq_false_iff]
      intro hc
      exact h ((isWord_iff _ _ (by decide)).1 hc)
    simp [tcpOf, this]

theorem udpCore_eq (w : World) (m : Map) (s p : List Byte) (ds : List (List Byte)) :
    udpCore w m (some s) ds (some p) =
      if w.up .udp (udpOf s p ds).args then some (mapping (store m .udp) m.modules.length ds) else none := rfl

theorem tcpCore_eq (w : World) (m : Map) (s p x : List Byte) (ds : List (List Byte)) :
    tcpCore w m (some s) ds (some p) (some x) =
      if w.up .tcp (tcpOf s p x ds).args then some (mapping (store m .tcp) m.modules.length ds) else none := rfl

/-- Which map comes out for these groups: all of them have been added, or it failed. -/
def Outcome (w : World) (gs : List Group) (out : Option Map) : Option (List Group) → Prop
  | none => out = none
  | some hs => ((∀ g ∈ hs, w.up g.proto g.args = true) → ∃ m, out = some m ∧ Rep m (gs ++ hs)) ∧
      ((∃ g ∈ hs, w.up g.proto g.args = false) → out = none)

theorem outcome_udp {w : World} {m : Map} {gs : List Group} (h : Rep m gs) (s p : List Byte) (ds : List (List Byte)) :
    Outcome w gs (udpCore w m (some s) ds (some p)) (some [udpOf s p ds]) := by
  rw [udpCore_eq]
  constructor
  · intro hu
    have := hu _ (List.mem_singleton.2 rfl)
    rw [if_pos (show w.up .udp (udpOf s p ds).args = true from this)]
    exact ⟨_, rfl, rep_add h (udpOf s p ds)⟩
  · rintro ⟨g, hg, hu⟩
    rw [List.mem_singleton.1 hg] at hu
    rw [if_neg (by rw [show w.up .udp (udpOf s p ds).args = false from hu]; simp)]

theorem outcome_tcp {w : World} {m : Map} {gs : List Group} (h : Rep m gs) (s p x : List Byte) (ds : List (List Byte)) :
    Outcome w gs (tcpCore w m (some s) ds (some p) (some x)) (some [tcpOf s p x ds]) := by
  rw [tcpCore_eq]
  constructor
  · intro hu
    have := hu _ (List.mem_singleton.2 rfl)
    rw [if_pos (show w.up .tcp (tcpOf s p x ds).args = true from this)]
    exact ⟨_, rfl, rep_add h (tcpOf s p x ds)⟩
  · rintro ⟨g, hg, hu⟩
    rw [List.mem_singleton.1 hg] at hu
    rw [if_neg (by rw [show w.up .tcp (tcpOf s p x ds).args = false from hu]; simp)]

/-! ### Group files -/

theorem splitLine_item (u : List Byte) :
    match splitLine u with
    | (k, some v) => IsItem u (.setting k v)
    | (k, none) => IsItem u (.domain k) := by
  have hfree : ∀ c ∈ u.takeWhile (fun c => c != 32 && c != 9 && c != 61), c ∉ seps := by
    intro c hc hs
    have := List.all_takeWhile (l := u) (p := fun c => c != 32 && c != 9 && c != 61)
    rw [List.all_eq_true] at this
    have h1 := this c hc
    have h2 : c = 32 ∨ c = 9 ∨ c = 61 := by
      have : seps = [32, 9, 61] := by decide
      rw [this] at hs
      simpa using hs
    rcases h2 with rfl | rfl | rfl <;> simp at h1
  have hsplit : u = u.takeWhile (fun c => c != 32 && c != 9 && c != 61) ++ u.drop (u.takeWhile (fun c => c != 32 && c != 9 && c != 61)).length := by
    have h2 : u.takeWhile (fun c => c != 32 && c != 9 && c != 61) = u.take (u.takeWhile (fun c => c != 32 && c != 9 && c != 61)).length := by
      have := List.takeWhile_prefix (l := u) (fun c => c != 32 && c != 9 && c != 61)
      exact List.prefix_iff_eq_take.1 this
    conv => lhs; rw [← List.take_append_drop (u.takeWhile (fun c => c != 32 && c != 9 && c != 61)).length u, ← h2]
  have hhead : ∀ x r, u.drop (u.takeWhile (fun c => c != 32 && c != 9 && c != 61)).length = x :: r → x ∈ seps := by
    intro x r e
    have h1 : u.dropWhile (fun c => c != 32 && c != 9 && c != 61) = x :: r := by
      have h2 := List.takeWhile_append_dropWhile (p := fun c => c != 32 && c != 9 && c != 61) (l := u)
      rw [← e]
      have := congrArg (List.drop (u.takeWhile (fun c => c != 32 && c != 9 && c != 61)).length) h2
      rw [List.drop_left] at this
      exact this
    have h3 := List.head?_dropWhile_not (p := fun c => c != 32 && c != 9 && c != 61) u
    rw [h1] at h3
    dsimp only [List.head?] at h3
    have : seps = [32, 9, 61] := by decide
    rw [this]
    have h4 : (x != 32 && x != 9 && x != 61) = false := h3
    simp only [List.mem_cons, List.not_mem_nil, or_false]
    grind
  simp only [splitLine]
  generalize u.takeWhile (fun c => c != 32 && c != 9 && c != 61) = k at hfree hsplit hhead ⊢
  cases hd : u.drop k.length with
  | nil =>
    rw [hd, List.append_nil] at hsplit
    dsimp only
    subst hsplit
    exact .domain hfree
  | cons x r =>
    rw [hd] at hsplit
    have hx := hhead x r hd
    dsimp only
    have hbl : ∀ c, c ∈ str "\t " ↔ c ∈ blanks := by
      intro c
      rw [show str "\t " = [9, 32] by decide, show blanks = [32, 9] by decide]
      simp [or_comm]
    rcases StringList.strNpbrk_spec r (str "\t ") with ⟨e, hb⟩ | ⟨a, v, k1, k2, k3, k4, k5⟩
    · rw [e]
      dsimp only [Option.map_none]
      rw [hsplit]
      exact .empty hfree hx (fun c hc => (hbl c).1 (hb c hc))
    · rw [k5]
      dsimp only [Option.map_some]
      rw [hsplit, k1, List.drop_left]
      refine .setting hfree hx (fun c hc => (hbl c).1 (k2 c hc)) ?_
      obtain ⟨c, cs, rfl⟩ := List.exists_cons_of_ne_nil k3
      exact ⟨c, rfl, fun hc => k4 c rfl ((hbl c).2 hc)⟩

/-- The items of lines. -/
def itemOf (l : List Byte) : Item :=
  match splitLine (strToLower l) with
  | (k, some v) => .setting k v
  | (k, none) => .domain k

theorem items_map (ls : List (List Byte)) : Items ls (ls.map itemOf) := by
  induction ls with
  | nil => exact .nil
  | cons l ls ih =>
    refine .cons (StringList.lowered_lower l) ?_ ih
    have := splitLine_item (strToLower l)
    unfold itemOf
    split at this <;> exact this

theorem fileDomains_eq (ls : List (List Byte)) : fileDomains ls = domainsOf (ls.map itemOf) := by
  induction ls with
  | nil => rfl
  | cons l ls ih =>
    simp only [fileDomains, List.map_cons, itemOf]
    split
    · rename_i h; rw [h]; exact ih
    · rename_i h; rw [h]; simp [domainsOf, ih]

def itemOp : Item → Option (Op (List Byte))
  | .setting k v => some (.add k (some v))
  | .domain _ => none

theorem fileArgs_eq (ls : List (List Byte)) : ∀ c : Chunk (List Byte), fileArgs c ls = c.run ((ls.map itemOf).filterMap itemOp) := by
  induction ls with
  | nil => intro c; rfl
  | cons l ls ih =>
    intro c
    simp only [fileArgs, List.map_cons, itemOf]
    split
    · rename_i h; rw [h, ih]; simp [itemOp, Chunk.run, Chunk.step]
    · rename_i h; rw [h, ih]; rw [List.filterMap_cons_none rfl]

theorem ops_mem {is : List Item} {e : Entry (List Byte)} (h : e ∈ ((is.filterMap itemOp).map Op.entry)) :
    ∃ v, .setting e.str v ∈ is ∧ e.data = some v := by
  obtain ⟨op, hop, rfl⟩ := List.mem_map.1 h
  obtain ⟨i, hi, h2⟩ := List.mem_filterMap.1 hop
  cases i with
  | domain d => simp [itemOp] at h2
  | setting k v =>
    simp only [itemOp, Option.some.injEq] at h2
    subst h2
    exact ⟨v, hi, rfl⟩

theorem split_filterMap {β γ : Type} {l : List β} {f : β → Option γ} {a b : List γ} {x : γ} (h : l.filterMap f = a ++ x :: b) :
    ∃ l1 y l2, l = l1 ++ y :: l2 ∧ f y = some x ∧ l2.filterMap f = b := by
  induction l generalizing a with
  | nil => simp at h
  | cons z l ih =>
    cases hz : f z with
    | some y =>
      rw [List.filterMap_cons_some hz] at h
      cases a with
      | nil =>
        simp only [List.nil_append, List.cons.injEq] at h
        exact ⟨[], z, l, rfl, by rw [hz, h.1], h.2⟩
      | cons w a =>
        simp only [List.cons_append, List.cons.injEq] at h
        obtain ⟨l1, y, l2, rfl, h2, h3⟩ := ih h.2
        exact ⟨z :: l1, y, l2, rfl, h2, h3⟩
    | none =>
      rw [List.filterMap_cons_none hz] at h
      obtain ⟨l1, y, l2, rfl, h2, h3⟩ := ih h
      exact ⟨z :: l1, y, l2, rfl, h2, h3⟩

theorem arg_cases (ls : List (List Byte)) (key : List Byte) (hk : ¬ IsPattern key) (dflt : Option (List Byte)) :
    (∃ v, arg (fileArgs (StringChunk.init bkdrHash) ls) key dflt = some v ∧ Value (ls.map itemOf) key v) ∨
    (arg (fileArgs (StringChunk.init bkdrHash) ls) key dflt = dflt ∧ NoValue (ls.map itemOf) key) := by
  have hc := fileArgs_eq ls (StringChunk.init bkdrHash)
  generalize hops : (ls.map itemOf).filterMap itemOp = ops at hc
  have hhash : (fileArgs (StringChunk.init bkdrHash) ls).hash = bkdrHash := by rw [hc, run_hash]; rfl
  unfold arg
  rw [hhash, hc]
  cases hm : ((StringChunk.init bkdrHash).run ops).matchNoWild key (bkdrHash key) (fun _ => true) with
  | some d =>
    left
    obtain ⟨e, ⟨b, a, hl, ⟨h1, -⟩, hafter⟩, hd⟩ := (lookup_last_added bkdrHash ops key _ d).1 hm
    unfold plain at hl
    have hl' : ((ops.map Op.entry).filter (fun e => !decide (IsPattern e.str))).map id = b ++ e :: a := by rw [List.map_id]; exact hl
    obtain ⟨l1, y, l2, hy1, hy2, hy3, hy4⟩ := split_filter_map hl'
    rw [← hops, List.map_filterMap] at hy1
    obtain ⟨k1, i, k2, hi1, hi2, hi3⟩ := split_filterMap hy1
    obtain rfl : y = e := hy3
    cases i with
    | domain d => simp [itemOp] at hi2
    | setting k v =>
      simp only [itemOp, Option.map_some, Option.some.injEq] at hi2
      have hk' : k = key := by rw [← h1, ← hi2]; rfl
      have hv : d = some v := by rw [← hd, ← hi2]; rfl
      subst hk'
      refine ⟨v, hv, k1, k2, hi1, ?_⟩
      intro w hw
      apply hafter ⟨k, some w⟩ _ ⟨rfl, rfl⟩
      rw [← hy4, List.map_id, List.mem_filter]
      refine ⟨?_, by simp [hk]⟩
      rw [← hi3]
      exact List.mem_filterMap.2 ⟨_, hw, rfl⟩
  | none =>
    right
    refine ⟨rfl, ?_⟩
    intro w hw
    have h1 := (lookup_none_iff bkdrHash ops key (fun _ => true)).1 hm ⟨key, some w⟩
      ((plain_iff ops _).2 ⟨⟨.add key (some w), by rw [← hops]; exact List.mem_filterMap.2 ⟨_, hw, rfl⟩, rfl⟩, hk⟩) rfl
    cases h1

/-! ### Sizes -/

def size (ts : List (List Byte)) : Nat := (ts.map (fun t => t.length + 1)).sum

theorem size_cons (t : List Byte) (ts : List (List Byte)) : size (t :: ts) = t.length + 1 + size ts := rfl

theorem size_append (a b : List (List Byte)) : size (a ++ b) = size a + size b := by
  simp [size, List.sum_append]

theorem length_le_size (ts : List (List Byte)) : ts.length ≤ size ts := by
  induction ts with
  | nil => exact Nat.le_refl _
  | cons t ts ih => rw [size_cons, List.length_cons]; omega

theorem visible_sub {s t : List Byte} (h : ReadLine.Visible s t) : t.length ≤ s.length ∧ ∀ c ∈ t, c ∈ s := by
  obtain ⟨u, ⟨-, hu⟩, a, b, e, -⟩ := h
  have h1 : u.length ≤ s.length ∧ ∀ c ∈ u, c ∈ s := by
    rcases hu with rfl | ⟨r, rfl | rfl⟩
    · exact ⟨Nat.le_refl _, fun _ h => h⟩
    · exact ⟨by simp, fun _ h => by simp [h]⟩
    · exact ⟨by simp, fun _ h => by simp [h]⟩
  subst e
  simp only [List.length_append] at h1
  exact ⟨by omega, fun c hc => h1.2 c (by simp [hc])⟩

theorem seen_size {n : Nat} {ss ts : List (List Byte)} (h : ReadLine.Seen n ss ts) :
    size ts ≤ size ss ∧ ∀ t ∈ ts, ∃ s ∈ ss, ∀ c ∈ t, c ∈ s := by
  induction h with
  | nil => exact ⟨Nat.le_refl _, fun t h => by simp at h⟩
  | blank _ _ ih =>
    refine ⟨by rw [size_cons]; omega, fun t h => ?_⟩
    obtain ⟨s, h1, h2⟩ := ih.2 t h
    exact ⟨s, List.mem_cons_of_mem _ h1, h2⟩
  | line hv _ _ ih =>
    have hv := visible_sub hv
    refine ⟨by rw [size_cons, size_cons]; omega, fun t h => ?_⟩
    rcases List.mem_cons.1 h with rfl | h
    · exact ⟨_, List.mem_cons_self, hv.2⟩
    · obtain ⟨s, h1, h2⟩ := ih.2 t h
      exact ⟨s, List.mem_cons_of_mem _ h1, h2⟩
  | long _ _ ih =>
    refine ⟨by rw [size_cons]; omega, fun t h => ?_⟩
    obtain ⟨s, h1, h2⟩ := ih.2 t h
    exact ⟨s, List.mem_cons_of_mem _ h1, h2⟩

theorem text_size (ss : List (List Byte)) (last : List Byte) :
    size (ss ++ [last]) = (ReadLine.text ss last).length + 1 ∧ ∀ s ∈ ss ++ [last], ∀ c ∈ s, c ∈ ReadLine.text ss last := by
  unfold ReadLine.text
  constructor
  · induction ss with
    | nil => simp [size]
    | cons s ss ih =>
      rw [List.cons_append, size_cons, ih]
      simp only [List.flatMap_cons, List.length_append, List.length_cons, List.length_nil]
      omega
  · intro s hs c hc
    simp only [List.mem_append, List.mem_flatMap, List.mem_singleton] at hs ⊢
    rcases hs with hs | rfl
    · exact .inl ⟨s, hs, .inl hc⟩
    · exact .inr hc

theorem lower_nul {s : List Byte} (h : (0 : Byte) ∉ s) : (0 : Byte) ∉ strToLower s := by
  intro hc
  obtain ⟨c, h1, h2⟩ := List.mem_map.1 hc
  have := forall_byte (fun c => toLowerByte c = 0 → c = 0) (by decide +kernel) c h2
  exact h (this ▸ h1)

theorem domain_sub {u d : List Byte} (h : IsItem u (.domain d)) : d.length ≤ u.length ∧ ∀ c ∈ d, c ∈ u := by
  cases h with
  | domain _ => exact ⟨Nat.le_refl _, fun _ h => h⟩
  | empty _ _ _ => exact ⟨by simp, fun _ h => by simp [h]⟩

theorem domains_size {ts : List (List Byte)} {is : List Item} (h : Items ts is) (hz : ∀ t ∈ ts, (0 : Byte) ∉ t ∧ t.length < 384) :
    size (domainsOf is) ≤ size ts ∧ ∀ d ∈ domainsOf is, (0 : Byte) ∉ d ∧ d.length < 384 := by
  induction h with
  | nil => exact ⟨Nat.le_refl _, fun d h => by simp [domainsOf] at h⟩
  | @cons t u i ts is hl hi _ ih =>
    have ih := ih (fun t h => hz t (List.mem_cons_of_mem _ h))
    cases i with
    | setting k v =>
      refine ⟨by rw [size_cons]; show size (domainsOf is) ≤ _; omega, fun d h => ih.2 d h⟩
    | domain d =>
      have h1 := domain_sub hi
      have h2 := hl.1
      rw [lowered_iff] at hl
      refine ⟨by rw [size_cons]; show size (d :: domainsOf is) ≤ _; rw [size_cons]; omega, fun e he => ?_⟩
      rcases List.mem_cons.1 (show e ∈ d :: domainsOf is from he) with rfl | he
      · refine ⟨fun h0 => lower_nul (hz t (by simp)).1 (hl ▸ h1.2 _ h0), ?_⟩
        have := (hz t (by simp)).2
        omega
      · exact ih.2 e he

/-- A file that is read as it should be (see `ReadLine.every_line_partial`), of at most 2000000 bytes. -/
def FileOk (content : List Byte) : Prop :=
  (0 : Byte) ∉ content ∧ content.length ≤ 2000000 ∧
    ∃ ss last, content = ReadLine.text ss last ∧ (∀ s ∈ ss, ReadLine.Ok 384 s) ∧ ReadLine.LineOk last ∧ last.length + 2 ≤ 384 ∧
      (last = [] ∨ ∃ c ∈ last, c ∉ ReadLine.whites)

theorem file_read {content : List Byte} (h : FileOk content) :
    ∃ ts, ReadLine.readFile 384 content = some ts ∧ Reads content ts ∧ size ts ≤ 2000001 ∧ ∀ t ∈ ts, (0 : Byte) ∉ t ∧ t.length < 384 := by
  obtain ⟨h0, hlen, ss, last, rfl, h1, h2, h3, h4⟩ := h
  obtain ⟨ts, h5, h6⟩ := ReadLine.every_line_partial 384 ss last (by omega) h1 h2 h3 h4
  have h7 := seen_size h6
  have h8 := text_size ss last
  refine ⟨ts, h5, ⟨ss, last, rfl, h6⟩, by omega, fun t ht => ⟨fun hc => ?_, ReadLine.readFile_short 384 (by omega) _ _ h5 t ht⟩⟩
  obtain ⟨s, hs, h9⟩ := h7.2 t ht
  exact h0 (h8.2 s hs 0 (h9 0 hc))

theorem listDomains_ok (w : World) (lines : List (List Byte))
    (hw : ∀ p content, Value (lines.map itemOf) (str "list") p → w.file p = some (some content) → FileOk content) :
    ListOf w (lines.map itemOf) (listDomains w (fileArgs (StringChunk.init bkdrHash) lines)) ∧
    ∀ ds, listDomains w (fileArgs (StringChunk.init bkdrHash) lines) = some ds →
      size ds ≤ 2000001 ∧ ∀ d ∈ ds, (0 : Byte) ∉ d ∧ d.length < 384 := by
  unfold listDomains
  rcases arg_cases lines (str "list") (by decide) none with ⟨v, e, hv⟩ | ⟨e, hv⟩ <;> rw [e] <;> dsimp only
  · cases hf : w.file v with
    | none => exact ⟨.bad hv hf, fun ds h => by cases h⟩
    | some o =>
      cases o with
      | none => exact ⟨.missing hv hf, fun ds h => by cases h; exact ⟨by decide, by simp⟩⟩
      | some content =>
        obtain ⟨ts, h1, h2, h3, h4⟩ := file_read (hw v content hv hf)
        dsimp only
        rw [h1]
        refine ⟨.list hv hf h2 (by simp) (fun i t d ht hd => ?_), fun ds h => ?_⟩
        · rw [List.getElem?_map, ht] at hd
          simp only [Option.map_some, Option.some.injEq] at hd
          exact lowered_iff.2 hd.symm
        · simp only [Option.map_some, Option.some.injEq] at h
          subst h
          refine ⟨?_, fun d hd => ?_⟩
          · have : size (ts.map strToLower) = size ts := by
              simp only [size, List.map_map]
              congr 1
              apply List.map_congr_left
              intro t _
              simp [strToLower_length]
            omega
          · obtain ⟨t, ht, rfl⟩ := List.mem_map.1 hd
            exact ⟨lower_nul (h4 t ht).1, by rw [strToLower_length]; exact (h4 t ht).2⟩
  · exact ⟨.none hv, fun ds h => by cases h; exact ⟨by decide, by simp⟩⟩

theorem outcome_bind {w : World} {gs : List Group} {o : Option Map} {h1 : List Group} {f : Map → Option Map}
    (ho : Outcome w gs o (some h1)) {h2 : List Group} (hf : ∀ m, Rep m (gs ++ h1) → Outcome w (gs ++ h1) (f m) (some h2)) :
    Outcome w gs (o.bind f) (some (h1 ++ h2)) := by
  constructor
  · intro hu
    obtain ⟨m, rfl, hm⟩ := ho.1 (fun g hg => hu g (by simp [hg]))
    obtain ⟨m', e, hm'⟩ := (hf m hm).1 (fun g hg => hu g (by simp [hg]))
    exact ⟨m', e, by rw [← List.append_assoc]; exact hm'⟩
  · rintro ⟨g, hg, hu⟩
    by_cases hall : ∀ g ∈ h1, w.up g.proto g.args = true
    · obtain ⟨m, rfl, hm⟩ := ho.1 hall
      rcases List.mem_append.1 hg with hg | hg
      · rw [hall g hg] at hu; cases hu
      · exact (hf m hm).2 ⟨g, hg, hu⟩
    · have : ∃ g ∈ h1, w.up g.proto g.args = false := by
        apply Classical.byContradiction
        intro hn
        apply hall
        intro g hg
        cases hx : w.up g.proto g.args with
        | true => rfl
        | false => exact absurd ⟨g, hg, hx⟩ hn
      rw [ho.2 this]
      rfl

theorem outcome_none {w : World} {gs : List Group} {o : Option Map} {r : Option (List Group)} (ho : Outcome w gs o r) {f : Map → Option Map}
    (hf : ∀ h m, r = some h → Rep m (gs ++ h) → f m = none) : o.bind f = none := by
  cases r with
  | none => rw [show o = none from ho]; rfl
  | some h1 =>
    cases o with
    | none => rfl
    | some m =>
      by_cases hall : ∀ g ∈ h1, w.up g.proto g.args = true
      · obtain ⟨m', e, hm⟩ := ho.1 hall
        cases e
        exact hf h1 m rfl hm
      · exfalso
        have : ∃ g ∈ h1, w.up g.proto g.args = false := by
          apply Classical.byContradiction
          intro hn
          apply hall
          intro g hg
          cases hx : w.up g.proto g.args with
          | true => rfl
          | false => exact absurd ⟨g, hg, hx⟩ hn
        have := ho.2 this
        cases this

theorem valueOr_of {lines : List (List Byte)} {key d : List Byte} (hk : ¬ IsPattern key) :
    ∃ v, arg (fileArgs (StringChunk.init bkdrHash) lines) key (some d) = some v ∧ ValueOr (lines.map itemOf) key d v := by
  rcases arg_cases lines key hk (some d) with ⟨v, e, hv⟩ | ⟨e, hv⟩
  · exact ⟨v, e, .inl hv⟩
  · exact ⟨d, e, .inr ⟨hv, rfl⟩⟩

theorem fileGroups_ok (w : World) {m : Map} {gs : List Group} (hm : Rep m gs) (lines : List (List Byte)) (proto : List Byte)
    (ds : List (List Byte)) :
    ∃ r, FileGroups (lines.map itemOf) proto ds r ∧
      Outcome w gs (fileGroups w m (fileArgs (StringChunk.init bkdrHash) lines) proto ds) r := by
  unfold fileGroups
  by_cases hds : ds = []
  · rw [if_pos hds]
    exact ⟨some [], .empty hds, fun _ => ⟨m, rfl, by rw [List.append_nil]; exact hm⟩, fun ⟨g, hg, _⟩ => by simp at hg⟩
  rw [if_neg hds]
  obtain ⟨p, ep, hp⟩ := valueOr_of (lines := lines) (key := str "parallel") (d := str "on") (by decide)
  obtain ⟨x, ex, hx⟩ := valueOr_of (lines := lines) (key := str "proxy") (d := str "no") (by decide)
  rcases arg_cases lines (str "server") (by decide) none with ⟨s, es, hs⟩ | ⟨es, hs⟩ <;> rw [es, ep, ex] <;> dsimp only
  · by_cases h1 : proto = str "*"
    · subst h1
      rw [show (str "*" == str "*") = true by decide]
      simp only [Bool.true_or, if_true]
      have := outcome_bind (outcome_udp (w := w) hm s p ds) (fun m' hm' => outcome_tcp (w := w) hm' s p x ds)
      refine ⟨_, .both hds rfl hs hp hx (udpOf_ok s p ds) (tcpOf_ok s p x ds), ?_⟩
      cases hu : udpCore w m (some s) ds (some p) <;> rw [hu] at this <;> exact this
    · rw [show (proto == str "*") = false by simpa using h1]
      simp only [Bool.false_or]
      by_cases h2 : proto = str "udp"
      · subst h2
        rw [show (str "udp" == str "udp") = true by decide, show (str "udp" == str "tcp") = false by decide]
        simp only [if_true, Bool.false_eq_true, if_false]
        refine ⟨_, .udp hds rfl hs hp (udpOf_ok s p ds), ?_⟩
        have := outcome_udp (w := w) hm s p ds
        cases hu : udpCore w m (some s) ds (some p) <;> rw [hu] at this <;> exact this
      · rw [show (proto == str "udp") = false by simpa using h2]
        simp only [Bool.false_eq_true, if_false]
        by_cases h3 : proto = str "tcp"
        · subst h3
          rw [show (str "tcp" == str "tcp") = true by decide]
          simp only [if_true]
          exact ⟨_, .tcp hds rfl hs hp hx (tcpOf_ok s p x ds), outcome_tcp (w := w) hm s p x ds⟩
        · rw [show (proto == str "tcp") = false by simpa using h3]
          exact ⟨none, .unknown hds (by simp [h1, h2, h3]), rfl⟩
  · refine ⟨none, .server hds hs, ?_⟩
    have hu : ∀ m, udpCore w m none ds (some p) = none := fun _ => rfl
    have ht : ∀ m, tcpCore w m none ds (some p) (some x) = none := fun _ => rfl
    show _ = none
    rw [hu]
    cases (proto == str "*" || proto == str "udp") <;> cases (proto == str "*" || proto == str "tcp") <;> simp [ht]

theorem fileInit_ok (w : World) {m : Map} {gs : List Group} (hm : Rep m gs)
    (p : List Byte) (hw : ∀ q content, Uses w (.file p) q → w.file q = some (some content) → FileOk content) : ∃ r, Means w (.file p) r ∧ Outcome w gs (fileInit w m (some p)) r := by
  unfold fileInit
  dsimp only
  cases hf : w.file p with
  | none => exact ⟨none, .badFile hf, rfl⟩
  | some o =>
    cases o with
    | none =>
      exact ⟨some [], .noFile hf, fun _ => ⟨m, rfl, by rw [List.append_nil]; exact hm⟩, fun ⟨g, hg, _⟩ => by simp at hg⟩
    | some content =>
      obtain ⟨ts, h1, h2, h3, h4⟩ := file_read (hw p content (.inl rfl) hf)
      have hi := items_map ts
      have hd := domains_size hi h4
      dsimp only
      rw [h1]
      dsimp only
      rcases arg_cases ts (str "protocol") (by decide) none with ⟨proto, e, hv⟩ | ⟨e, hv⟩ <;> rw [e] <;> dsimp only
      · obtain ⟨hl, hl2⟩ := listDomains_ok w ts (fun q c hv hc => hw q c (.inr ⟨p, content, ts, _, rfl, hf, h2, hi, hv⟩) hc)
        cases hm' : listDomains w (fileArgs (StringChunk.init bkdrHash) ts) with
        | none =>
          rw [hm'] at hl
          exact ⟨none, .badList hf h2 hi hl, rfl⟩
        | some more =>
          rw [hm'] at hl
          obtain ⟨h5, h6⟩ := hl2 more hm'
          rw [fileDomains_eq]
          dsimp only
          have hsz : size (domainsOf (ts.map itemOf) ++ more) ≤ 4000002 := by rw [size_append]; omega
          have hln := length_le_size (domainsOf (ts.map itemOf) ++ more)
          have hall : ∀ t ∈ domainsOf (ts.map itemOf) ++ more, (0 : Byte) ∉ t ∧ t.length < 384 := by
            intro t ht
            rcases List.mem_append.1 ht with ht | ht
            · exact hd.2 t ht
            · exact h6 t ht
          obtain ⟨ds, h7, h8⟩ := tidied_ok none (domainsOf (ts.map itemOf) ++ more) (fun t ht => (hall t ht).1)
            (fun t ht => by
              have := (hall t ht).2
              calc (t.length + 1) * ((domainsOf (ts.map itemOf) ++ more).length + 3) ≤ 384 * 4000005 := Nat.mul_le_mul (by omega) (by omega)
                _ ≤ 2147483647 := by decide)
          rw [h7]
          dsimp only
          obtain ⟨r, h9, h10⟩ := fileGroups_ok w hm ts proto ds
          exact ⟨r, .file hf h2 hi hv hl h8 h9, h10⟩
      · exact ⟨none, .noProto hf h2 hi hv, rfl⟩

/-- A declaration whose domain list is a text of at most 500000000 bytes. -/
def Fine : Decl → Prop
  | .udp _ d _ => (0 : Byte) ∉ d ∧ d.length ≤ 500000000
  | .tcp _ d _ _ => (0 : Byte) ∉ d ∧ d.length ≤ 500000000
  | .file _ => True

def declInit (w : World) (m : Map) : Decl → Option Map
  | .udp s d p => udpInit w m (some s) (some d) (some p)
  | .tcp s d p x => tcpInit w m (some s) (some d) (some p) (some x)
  | .file p => fileInit w m (some p)

theorem declInit_ok (w : World) {m : Map} {gs : List Group} (hm : Rep m gs) (d : Decl)
    (hw : ∀ p content, Uses w d p → w.file p = some (some content) → FileOk content) (hd : Fine d) : ∃ r, Means w d r ∧ Outcome w gs (declInit w m d) r := by
  cases d with
  | file p => exact fileInit_ok w hm p hw
  | udp s d p =>
    obtain ⟨ds, h1, h2⟩ := tidied_ok (some (str ",")) [d] (by simpa using hd.1) (by have := hd.2; simp only [List.mem_singleton, forall_eq, List.length_cons, List.length_nil]; omega)
    simp only [List.map_cons, List.map_nil] at h1
    refine ⟨_, .udp h2 (udpOf_ok s p ds), ?_⟩
    simp only [declInit, udpInit]
    rw [h1]
    exact outcome_udp hm s p ds
  | tcp s d p x =>
    obtain ⟨ds, h1, h2⟩ := tidied_ok (some (str ",")) [d] (by simpa using hd.1) (by have := hd.2; simp only [List.mem_singleton, forall_eq, List.length_cons, List.length_nil]; omega)
    simp only [List.map_cons, List.map_nil] at h1
    refine ⟨_, .tcp h2 (tcpOf_ok s p x ds), ?_⟩
    simp only [declInit, tcpInit]
    rw [h1]
    exact outcome_tcp hm s p x ds

theorem initLoop_tokens (w : World) (fuel : Nat) (m : Map) (d : Decl) (rest : List (List Byte)) :
    initLoop w (fuel + 1) m (d.tokens ++ rest) = (declInit w m d).bind (fun m => initLoop w fuel m rest) := by
  cases d with
  | udp s dd p =>
    simp only [Decl.tokens, List.cons_append, List.nil_append, initLoop, if_true, declInit]
    rw [show ((s :: dd :: p :: rest)[0]?) = some s from rfl, show ((s :: dd :: p :: rest)[1]?) = some dd from rfl,
      show ((s :: dd :: p :: rest)[2]?) = some p from rfl]
    cases udpInit w m (some s) (some dd) (some p) <;> rfl
  | tcp s dd p x =>
    simp only [Decl.tokens, List.cons_append, List.nil_append, initLoop, declInit]
    rw [if_neg (by decide), if_pos trivial]
    rw [show ((s :: dd :: p :: x :: rest)[0]?) = some s from rfl, show ((s :: dd :: p :: x :: rest)[1]?) = some dd from rfl,
      show ((s :: dd :: p :: x :: rest)[2]?) = some p from rfl, show ((s :: dd :: p :: x :: rest)[3]?) = some x from rfl]
    cases tcpInit w m (some s) (some dd) (some p) (some x) <;> rfl
  | file p =>
    simp only [Decl.tokens, List.cons_append, List.nil_append, initLoop, declInit]
    rw [if_neg (by decide), if_neg (by decide), if_pos trivial]
    rw [show ((p :: rest)[0]?) = some p from rfl]
    cases fileInit w m (some p) <;> rfl

theorem initLoop_ok (w : World) (decls : List Decl)
    (hw : ∀ d ∈ decls, ∀ p content, Uses w d p → w.file p = some (some content) → FileOk content) : ∀ (fuel : Nat) (m : Map) (gs : List Group), Rep m gs → (∀ d ∈ decls, Fine d) → decls.length < fuel →
      ∃ r, MeansAll w decls r ∧ Outcome w gs (initLoop w fuel m (decls.flatMap Decl.tokens)) r := by
  induction decls with
  | nil =>
    intro fuel m gs hm _ hf
    obtain ⟨fuel, rfl⟩ : ∃ k, fuel = k + 1 := ⟨fuel - 1, by simp at hf; omega⟩
    refine ⟨some [], .nil, fun _ => ⟨m, rfl, by rw [List.append_nil]; exact hm⟩, fun ⟨g, hg, _⟩ => by simp at hg⟩
  | cons d decls ih =>
    intro fuel m gs hm hd hf
    obtain ⟨fuel, rfl⟩ : ∃ k, fuel = k + 1 := ⟨fuel - 1, by simp at hf; omega⟩
    obtain ⟨r, h1, h2⟩ := declInit_ok w hm d (hw d (by simp)) (hd d (by simp))
    have ih := fun m gs hm => ih (fun d' h => hw d' (by simp [h])) fuel m gs hm (fun d' h => hd d' (by simp [h])) (by simp at hf; omega)
    rw [List.flatMap_cons, initLoop_tokens]
    cases r with
    | none =>
      rw [show declInit w m d = none from h2]
      exact ⟨none, .wrong h1, rfl⟩
    | some hs =>
      by_cases hall : ∀ g ∈ hs, w.up g.proto g.args = true
      · obtain ⟨m', e, hm'⟩ := h2.1 hall
        obtain ⟨r, h3, h4⟩ := ih m' (gs ++ hs) hm'
        rw [e]
        cases r with
        | none => exact ⟨none, .later h1 h3, h4⟩
        | some hs' =>
          refine ⟨some (hs ++ hs'), .cons h1 h3, fun hu => ?_, fun ⟨g, hg, hu⟩ => ?_⟩
          · obtain ⟨m'', e, hm''⟩ := h4.1 (fun g hg => hu g (by simp [hg]))
            exact ⟨m'', e, by rw [← List.append_assoc]; exact hm''⟩
          · rcases List.mem_append.1 hg with hg | hg
            · rw [hall g hg] at hu; cases hu
            · exact h4.2 ⟨g, hg, hu⟩
      · have hx : ∃ g ∈ hs, w.up g.proto g.args = false := by
          apply Classical.byContradiction
          intro hn
          apply hall
          intro g hg
          cases hx : w.up g.proto g.args with
          | true => rfl
          | false => exact absurd ⟨g, hg, hx⟩ hn
        rw [h2.2 hx]
        have hrep : ∃ m', Rep m' ([] : List Group) := ⟨⟨[], StringChunk.init bkdrHash⟩, ⟨rfl, rfl⟩⟩
        obtain ⟨m', hm'⟩ := hrep
        obtain ⟨r, h3, -⟩ := ih m' [] hm'
        cases r with
        | none => exact ⟨none, .later h1 h3, rfl⟩
        | some hs' =>
          refine ⟨some (hs ++ hs'), .cons h1 h3, fun hu => ?_, fun _ => rfl⟩
          exact absurd (fun g hg => hu g (by simp [hg])) hall

theorem initLoop_shape (w : World) : ∀ (fuel : Nat) (m : Map) (conf : List (List Byte)) (m' : Map), initLoop w fuel m conf = some m' →
    ∃ decls : List Decl, conf = decls.flatMap Decl.tokens := by
  intro fuel
  induction fuel with
  | zero => intro m conf m' h; simp [initLoop] at h
  | succ fuel ih =>
    intro m conf m' h
    cases conf with
    | nil => exact ⟨[], rfl⟩
    | cons ty r =>
      simp only [initLoop] at h
      split at h
      · rename_i hty
        rcases r with _ | ⟨s, _ | ⟨d, _ | ⟨p, r⟩⟩⟩
        · simp [udpInit] at h
        · simp [udpInit] at h
        · simp only [List.getElem?_cons_zero, List.getElem?_cons_succ, List.getElem?_nil, udpInit] at h
          cases ht : tidied [.add d (some (str ","))] <;> simp [udpCore, ht] at h
        · split at h
          · cases h
          · obtain ⟨decls, rfl⟩ := ih _ _ _ h
            exact ⟨.udp s d p :: decls, by rw [hty]; rfl⟩
      · split at h
        · rename_i hty
          rcases r with _ | ⟨s, _ | ⟨d, _ | ⟨p, _ | ⟨x, r⟩⟩⟩⟩
          · simp [tcpInit] at h
          · simp [tcpInit] at h
          · simp only [List.getElem?_cons_zero, List.getElem?_cons_succ, List.getElem?_nil, tcpInit] at h
            cases ht : tidied [.add d (some (str ","))] <;> simp [tcpCore, ht] at h
          · simp only [List.getElem?_cons_zero, List.getElem?_cons_succ, List.getElem?_nil, tcpInit] at h
            cases ht : tidied [.add d (some (str ","))] <;> simp [tcpCore, ht] at h
          · split at h
            · cases h
            · obtain ⟨decls, rfl⟩ := ih _ _ _ h
              exact ⟨.tcp s d p x :: decls, by rw [hty]; rfl⟩
        · split at h
          · rename_i hty
            rcases r with _ | ⟨p, r⟩
            · simp [fileInit] at h
            · split at h
              · cases h
              · obtain ⟨decls, rfl⟩ := ih _ _ _ h
                exact ⟨.file p :: decls, by rw [hty]; rfl⟩
          · cases h

end Verif.Groups
