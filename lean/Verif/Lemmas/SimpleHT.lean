import Verif.Model.SimpleHT

namespace Verif.SimpleHT
variable {δ : Type}

/-- `l` is the chain of node subscripts starting at `start`. -/
def Chain (nodes : List (Node δ)) : Option Nat → List Nat → Prop
  | st, [] => st = none
  | st, i :: l => st = some i ∧ ∃ nd, nodes[i]? = some nd ∧ Chain nodes nd.next l

theorem chain_none {nodes : List (Node δ)} {l} : Chain nodes none l ↔ l = [] := by
  cases l <;> simp [Chain]

theorem chain_some {nodes : List (Node δ)} {i l} :
    Chain nodes (some i) l ↔ ∃ l' nd, l = i :: l' ∧ nodes[i]? = some nd ∧ Chain nodes nd.next l' := by
  cases l with
  | nil => simp [Chain]
  | cons j l' =>
    simp only [List.cons.injEq, Chain, Option.some.injEq]
    constructor
    · rintro ⟨rfl, nd, h1, h2⟩; exact ⟨l', nd, ⟨rfl, rfl⟩, h1, h2⟩
    · rintro ⟨l'', nd, ⟨rfl, rfl⟩, h1, h2⟩; exact ⟨rfl, nd, h1, h2⟩

/-- A chain depends only on the nodes it visits. -/
theorem chain_congr {nodes nodes' : List (Node δ)} {start l}
    (h : ∀ i ∈ l, nodes'[i]? = nodes[i]?) (hc : Chain nodes start l) : Chain nodes' start l := by
  induction l generalizing start with
  | nil =>
    cases start with
    | none => exact chain_none.2 rfl
    | some i => obtain ⟨_, _, h, _⟩ := chain_some.1 hc; simp at h
  | cons j l ih =>
    cases start with
    | none => simp [chain_none] at hc
    | some i =>
      obtain ⟨l', nd, he, h1, h2⟩ := chain_some.1 hc
      simp only [List.cons.injEq] at he
      obtain ⟨rfl, rfl⟩ := he
      exact chain_some.2 ⟨l, nd, rfl, by rw [h _ (by simp), h1],
        ih (fun i hi => h i (by simp [hi])) h2⟩

/-- Subscripts `n-1 … 0` of the nodes whose hash falls into slot `s` of `m` slots. -/
def members (nodes : List (Node δ)) (m s : Nat) : Nat → List Nat
  | 0 => []
  | n + 1 =>
    if (nodes[n]?.map (fun nd => nd.hash.toNat % m)) = some s then n :: members nodes m s n
    else members nodes m s n

theorem members_lt {nodes : List (Node δ)} {m s n i} (h : i ∈ members nodes m s n) : i < n := by
  induction n with
  | zero => simp [members] at h
  | succ n ih =>
    simp only [members] at h
    split at h
    · rcases List.mem_cons.1 h with rfl | h
      · omega
      · have := ih h; omega
    · have := ih h; omega

theorem members_congr {nodes nodes' : List (Node δ)} {m s n}
    (h : ∀ i, i < n → nodes'[i]?.map (·.hash) = nodes[i]?.map (·.hash)) :
    members nodes' m s n = members nodes m s n := by
  induction n with
  | zero => rfl
  | succ n ih =>
    have h1 := h n (by omega)
    have : nodes'[n]?.map (fun nd => nd.hash.toNat % m) = nodes[n]?.map (fun nd => nd.hash.toNat % m) := by
      have := congrArg (Option.map (fun u : UInt32 => u.toNat % m)) h1
      simpa [Option.map_map, Function.comp_def] using this
    simp only [members, this, ih (fun i hi => h i (by omega))]

/-- The first `k` nodes are chained correctly. -/
def Chained (t : HT δ) (k : Nat) : Prop :=
  0 < t.slots.length ∧ k ≤ t.nodes.length ∧
  ∀ s, (hs : s < t.slots.length) → Chain t.nodes t.slots[s] (members t.nodes t.slots.length s k)

theorem addToSlot_len (t : HT δ) (i : Nat) :
    (t.addToSlot i).nodes.length = t.nodes.length ∧ (t.addToSlot i).slots.length = t.slots.length ∧
    (t.addToSlot i).maxLoad = t.maxLoad ∧ (t.addToSlot i).left = t.left := by
  unfold HT.addToSlot; split
  · simp
  · split <;> simp

theorem addToSlot_get (t : HT δ) (i j : Nat) :
    ((t.addToSlot i).nodes[j]?).map (fun nd => (nd.hash, nd.data)) =
      (t.nodes[j]?).map (fun nd => (nd.hash, nd.data)) := by
  unfold HT.addToSlot; split
  · rfl
  · rename_i nd hnd
    split
    · rfl
    · simp only [List.getElem?_set]
      split
      · rename_i heq; subst heq
        obtain ⟨hlt, _⟩ := List.getElem?_eq_some_iff.1 hnd
        simp only [hlt, if_true, hnd, Option.map_some]
      · rfl

theorem addToSlot_hash (t : HT δ) (i j : Nat) :
    ((t.addToSlot i).nodes[j]?).map (·.hash) = (t.nodes[j]?).map (·.hash) := by
  have := congrArg (Option.map Prod.fst) (addToSlot_get t i j)
  simpa [Option.map_map, Function.comp_def] using this

theorem addToSlot_chained {t : HT δ} {k : Nat} (h : Chained t k) (hk : k < t.nodes.length) :
    Chained (t.addToSlot k) (k + 1) := by
  obtain ⟨hpos, _, hch⟩ := h
  have hlen := addToSlot_len t k
  refine ⟨by rw [hlen.2.1]; exact hpos, by rw [hlen.1]; omega, ?_⟩
  intro s hs
  have hmem : members (t.addToSlot k).nodes (t.addToSlot k).slots.length s (k + 1) =
      members t.nodes t.slots.length s (k + 1) := by
    rw [hlen.2.1]; exact members_congr (fun i _ => addToSlot_hash t k i)
  rw [hmem]
  obtain ⟨nd, hnd⟩ : ∃ nd, t.nodes[k]? = some nd := ⟨t.nodes[k], by simp [hk]⟩
  have hsl : t.slotOf nd.hash < t.slots.length := Nat.mod_lt _ hpos
  have heq : t.addToSlot k =
      { t with
        nodes := t.nodes.set k { nd with next := t.slots[t.slotOf nd.hash] }
        slots := t.slots.set (t.slotOf nd.hash) (some k) } := by
    unfold HT.addToSlot
    simp [hnd, hsl]
  have hs' : s < t.slots.length := by rw [hlen.2.1] at hs; exact hs
  have hget : (t.addToSlot k).slots[s] = if t.slotOf nd.hash = s then some k else t.slots[s] := by
    simp only [heq, List.getElem_set]
  have hold : ∀ l, (∀ i ∈ l, i < k) → ∀ st, Chain t.nodes st l → Chain (t.addToSlot k).nodes st l := by
    intro l hl st hc
    refine chain_congr (fun i hi => ?_) hc
    have := hl i hi
    simp only [heq, List.getElem?_set]
    rw [if_neg (by omega)]
  simp only [hget, members, hnd, Option.map_some, Option.some.injEq]
  change Chain _ _ (if t.slotOf nd.hash = s then _ else _)
  split
  · rename_i hsl2
    subst hsl2
    refine chain_some.2 ⟨_, { nd with next := t.slots[t.slotOf nd.hash] }, rfl, ?_, ?_⟩
    · simp [heq, hk]
    · exact hold _ (fun i hi => members_lt hi) _ (hch _ hsl)
  · exact hold _ (fun i hi => members_lt hi) _ (hch s hs')

theorem addAll_len (t : HT δ) (n : Nat) :
    (t.addAll n).nodes.length = t.nodes.length ∧ (t.addAll n).slots.length = t.slots.length ∧
    (t.addAll n).maxLoad = t.maxLoad ∧ (t.addAll n).left = t.left := by
  induction n with
  | zero => simp [HT.addAll]
  | succ n ih =>
    simp only [HT.addAll]
    have := addToSlot_len (t.addAll n) n
    omega

theorem addAll_get (t : HT δ) (n j : Nat) :
    ((t.addAll n).nodes[j]?).map (fun nd => (nd.hash, nd.data)) =
      (t.nodes[j]?).map (fun nd => (nd.hash, nd.data)) := by
  induction n with
  | zero => rfl
  | succ n ih => simp only [HT.addAll]; rw [addToSlot_get, ih]

theorem addAll_chained {t : HT δ} (h : Chained t 0) (n : Nat) (hn : n ≤ t.nodes.length) :
    Chained (t.addAll n) n := by
  induction n with
  | zero => exact h
  | succ n ih => exact addToSlot_chained (ih (by omega)) (by rw [(addAll_len t n).1]; omega)

theorem expand_chained {t : HT δ} (hpos : 0 < t.slots.length) :
    Chained t.expand t.nodes.length := by
  unfold HT.expand
  apply addAll_chained _ _ (Nat.le_refl _)
  refine ⟨by simp; omega, by simp, ?_⟩
  intro s hs
  simp [members, chain_none]

/-- What the table holds, in order of insertion. -/
def HT.contents (t : HT δ) : List (UInt32 × δ) := t.nodes.map (fun nd => (nd.hash, nd.data))

theorem contents_eq_of_get {t t' : HT δ}
    (h : ∀ j : Nat, (t'.nodes[j]?).map (fun nd => (nd.hash, nd.data)) =
      (t.nodes[j]?).map (fun nd => (nd.hash, nd.data))) : t'.contents = t.contents := by
  apply List.ext_getElem?
  intro i
  simp only [HT.contents, List.getElem?_map]
  exact h i

def Inv (t : HT δ) : Prop := Chained t t.nodes.length

theorem inv_init (m : Nat) : Inv (init m : HT δ) := by
  refine ⟨by simp [init], by simp, ?_⟩
  intro s hs
  have h1 : (init m : HT δ).slots[s] = none := List.getElem_replicate (n := 7) hs
  rw [h1]
  simp [init, members, chain_none]

theorem add_spec {t : HT δ} (h : Inv t) (hv : UInt32) (d : δ) :
    Inv (t.add hv d) ∧ (t.add hv d).contents = t.contents ++ [(hv, d)] := by
  obtain ⟨t1, ht1, hinv1, hc1⟩ : ∃ t1, t1 = (if t.left = 0 then
      { t.expand with left := t.slots.length * t.maxLoad } else t) ∧ Inv t1 ∧
      t1.contents = t.contents := by
    refine ⟨_, rfl, ?_, ?_⟩
    · split
      · have := expand_chained h.1
        have hl : t.expand.nodes.length = t.nodes.length := by
          unfold HT.expand; exact (addAll_len _ _).1
        show Chained _ _
        rw [← hl] at this
        exact this
      · exact h
    · split
      · apply contents_eq_of_get
        intro j
        exact addAll_get _ _ j
      · rfl
  let t2 : HT δ := { t1 with nodes := t1.nodes ++ [{ next := none, hash := hv, data := d }] }
  have hch2 : Chained t2 t1.nodes.length := by
    refine ⟨hinv1.1, by simp [t2], ?_⟩
    intro s hs
    have hm : members t2.nodes t2.slots.length s t1.nodes.length =
        members t1.nodes t1.slots.length s t1.nodes.length := by
      apply members_congr
      intro i hi
      simp only [t2, List.getElem?_append_left hi]
    rw [hm]
    refine chain_congr (fun i hi => ?_) (hinv1.2.2 s hs)
    simp only [t2, List.getElem?_append_left (members_lt hi)]
  have hch3 := addToSlot_chained hch2 (by simp [t2])
  have hadd : t.add hv d = { (t2.addToSlot t1.nodes.length) with
      left := (t2.addToSlot t1.nodes.length).left - 1 } := by
    unfold HT.add; rw [← ht1]
  constructor
  · rw [hadd]
    show Chained _ _
    have hl : (t2.addToSlot t1.nodes.length).nodes.length = t1.nodes.length + 1 := by
      rw [(addToSlot_len _ _).1]; simp [t2]
    show Chained _ (t2.addToSlot t1.nodes.length).nodes.length
    rw [hl]
    exact hch3
  · rw [hadd]
    show HT.contents (t2.addToSlot t1.nodes.length) = _
    rw [contents_eq_of_get (fun j => addToSlot_get t2 t1.nodes.length j), ← hc1]
    simp [HT.contents, t2]

/-- Scanning a chain returns the first accepted payload of the chain. -/
theorem scan_chain {t : HT δ} {ok : δ → Bool} {l : List Nat} {st : Option Nat} {fuel : Nat}
    (hc : Chain t.nodes st l) (hf : l.length ≤ fuel) :
    t.scan ok fuel st = some ((l.filterMap (fun i => t.nodes[i]?.map (·.data))).find? ok) := by
  induction l generalizing st fuel with
  | nil =>
    cases st with
    | none => simp [HT.scan]
    | some i => obtain ⟨_, _, h, _⟩ := chain_some.1 hc; simp at h
  | cons j l ih =>
    cases st with
    | none => simp [chain_none] at hc
    | some i =>
      obtain ⟨l', nd, he, h1, h2⟩ := chain_some.1 hc
      simp only [List.cons.injEq] at he
      obtain ⟨rfl, rfl⟩ := he
      cases fuel with
      | zero => simp at hf
      | succ fuel =>
        simp only [HT.scan, h1, List.filterMap_cons, Option.map_some, List.find?_cons]
        have hn : t.findNext j = nd.next := by
          unfold HT.findNext
          simp only [h1]
          cases hnx : nd.next with
          | none => rfl
          | some k =>
            rw [hnx] at h2
            obtain ⟨_, nd', _, h3, _⟩ := chain_some.1 h2
            obtain ⟨hlt, _⟩ := List.getElem?_eq_some_iff.1 h3
            simp [hlt]
        split
        · rename_i h; simp [h]
        · rename_i h
          have h' : ok nd.data = false := by simpa using h
          rw [h', hn]
          exact ih h2 (by simpa using hf)

theorem members_length_le (nodes : List (Node δ)) (m s n : Nat) : (members nodes m s n).length ≤ n := by
  induction n with
  | zero => simp [members]
  | succ n ih =>
    simp only [members]
    split
    · simp; omega
    · omega

theorem members_data (nodes : List (Node δ)) (m s n : Nat) (hn : n ≤ nodes.length) :
    (members nodes m s n).filterMap (fun i => nodes[i]?.map (·.data)) =
      (((nodes.take n).reverse).filter (fun nd => nd.hash.toNat % m == s)).map (·.data) := by
  induction n with
  | zero => simp [members]
  | succ n ih =>
    have hlt : n < nodes.length := by omega
    rw [List.take_succ_eq_append_getElem hlt]
    simp only [members, List.getElem?_eq_getElem hlt, Option.map_some, Option.some.injEq,
      List.reverse_append, List.reverse_cons, List.reverse_nil, List.nil_append, List.cons_append,
      List.filter_cons, beq_iff_eq]
    split
    · simp [List.getElem?_eq_getElem hlt, ih (by omega)]
    · exact ih (by omega)

/-- A complete search over the chain of a hash value. -/
theorem scan_find {t : HT δ} (h : Inv t) (ok : δ → Bool) (hv : UInt32) (fuel : Nat)
    (hf : t.nodes.length ≤ fuel) :
    t.scan ok fuel (t.findFirst hv) =
      some (((t.contents.reverse.filter
        (fun e => e.1.toNat % t.slots.length == hv.toNat % t.slots.length)).map (·.2)).find? ok) := by
  have hs : t.slotOf hv < t.slots.length := Nat.mod_lt _ h.1
  have hc := h.2.2 _ hs
  have hff : t.findFirst hv = t.slots[t.slotOf hv] := by
    unfold HT.findFirst
    simp only [List.getElem?_eq_getElem hs]
    cases hx : t.slots[t.slotOf hv] with
    | none => rfl
    | some i =>
      rw [hx] at hc
      obtain ⟨_, nd, _, h3, _⟩ := chain_some.1 hc
      obtain ⟨hlt, _⟩ := List.getElem?_eq_some_iff.1 h3
      simp [hlt]
  rw [hff, scan_chain hc (Nat.le_trans (members_length_le ..) hf),
    members_data _ _ _ _ (Nat.le_refl _), List.take_length]
  simp only [HT.contents, ← List.map_reverse, List.filter_map, List.map_map, Function.comp_def,
    HT.slotOf]

end Verif.SimpleHT
