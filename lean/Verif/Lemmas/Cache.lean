import Verif.Model.Cache
import Verif.Lemmas.CacheHT
/-! The cache refines a list of entries. -/

namespace Verif.Cache
open Verif.CacheHT

/-- A live entry and the node that holds it. -/
structure Entry where
  idx : Nat
  key : List Byte
  data : List Byte
  ttl : Nat
  added : Int

def Entry.item (e : Entry) : List Byte := e.key ++ 0 :: e.data

/-- The end of the last chunk. -/
def endOf (cfg : Cfg) (h : HT) : Nat :=
  if h.used = 0 then cfg.hdr else (h.nodes (h.used - 1)).offset + (h.nodes (h.used - 1)).length

structure Live (cfg : Cfg) (st : St) (e : Entry) : Prop where
  slot : (st.ht.nodes e.idx).slot = (slotOf cfg e.key : Nat)
  ttl : (st.ht.nodes e.idx).ttl = e.ttl
  added : (st.ht.nodes e.idx).added = e.added
  used : (st.ht.nodes e.idx).used = e.item.length + 1
  fits : e.item.length + 1 ≤ (st.ht.nodes e.idx).length
  bytes : peek st.mem ((st.ht.nodes e.idx).offset + 1) e.item.length = e.item
  key : (0 : Byte) ∉ e.key

/-- The entries of a slot, newest first. -/
def chain (cfg : Cfg) (es : List Entry) (s : Nat) : List Nat :=
  (es.filter fun e => slotOf cfg e.key == s).map Entry.idx

/-- The index holds the entries `es` and the free groups `F`; the nodes `X` are in neither. -/
structure Core (cfg : Cfg) (st : St) (es : List Entry) (X : List Nat) (F : List Grp) : Prop where
  slots : ∀ s, s < cfg.nslots → Seg (fun i => (st.ht.nodes i).next) (st.ht.slots s) (chain cfg es s) (-1)
  free : FreeOk st.ht F
  nodup : (es.map Entry.idx ++ (X ++ flat F)).Nodup
  cover : ∀ i, i < st.ht.used ↔ i ∈ es.map Entry.idx ++ (X ++ flat F)
  live : ∀ e ∈ es, Live cfg st e
  freeTTL : ∀ i ∈ flat F, (st.ht.nodes i).ttl = 0
  first : 0 < st.ht.used → cfg.hdr ≤ (st.ht.nodes 0).offset
  cont : ∀ i, i + 1 < st.ht.used → (st.ht.nodes i).offset + (st.ht.nodes i).length ≤ (st.ht.nodes (i + 1)).offset
  room : endOf cfg st.ht + 32 * st.ht.used + 4 * cfg.nslots ≤ cfg.size

structure CfgOk (cfg : Cfg) : Prop where
  slots : 0 < cfg.nslots
  room : cfg.hdr + 4 * cfg.nslots ≤ cfg.size

theorem slotOf_lt {cfg : Cfg} (h : CfgOk cfg) (key : List Byte) : slotOf cfg key < cfg.nslots := Nat.mod_lt _ h.slots

/-! ### bytes -/

theorem peek_congr {m m' : Nat → Byte} {off n : Nat} (h : ∀ k, k < n → m' (off + k) = m (off + k)) :
    peek m' off n = peek m off n := by
  unfold peek
  exact List.map_congr_left (fun k hk => h k (List.mem_range.1 hk))

theorem peek_succ (m : Nat → Byte) (off n : Nat) : peek m off (n + 1) = m off :: peek m (off + 1) n := by
  unfold peek
  rw [List.range_succ_eq_map, List.map_cons, List.map_map]
  simp only [Nat.add_zero, List.cons.injEq, true_and]
  apply List.map_congr_left
  intro k _
  simp only [Function.comp_apply]
  congr 1
  omega

theorem peek_length (m : Nat → Byte) (off n : Nat) : (peek m off n).length = n := by simp [peek]

theorem peek_add (m : Nat → Byte) (off a b : Nat) : peek m off (a + b) = peek m off a ++ peek m (off + a) b := by
  induction a generalizing off with
  | zero => simp [peek]
  | succ a ih =>
    rw [show a + 1 + b = (a + b) + 1 from by omega, peek_succ, peek_succ, ih, List.cons_append]
    rw [show off + 1 + a = off + (a + 1) from by omega]

theorem same_iff (m : Nat → Byte) (off : Nat) (l : List Byte) : same m off l = true ↔ peek m off l.length = l := by
  induction l generalizing off with
  | nil => simp [same, peek]
  | cons c r ih => rw [same, List.length_cons, peek_succ]; simp [ih]

theorem same_congr {m m' : Nat → Byte} {off : Nat} {l : List Byte} (h : ∀ k, k < l.length → m' (off + k) = m (off + k)) :
    same m' off l = same m off l := by
  rw [Bool.eq_iff_iff, same_iff, same_iff, peek_congr h]

theorem poke_other {m : Nat → Byte} {off i : Nat} {bs : List Byte} (h : i < off ∨ off + bs.length ≤ i) :
    poke m off bs i = m i := by
  unfold poke; rw [if_neg]; omega

theorem peek_poke (m : Nat → Byte) (off : Nat) (bs : List Byte) : peek (poke m off bs) off bs.length = bs := by
  apply List.ext_getElem
  · simp [peek]
  · intro k h1 h2
    simp only [peek, List.getElem_map, List.getElem_range, poke]
    rw [if_pos (by omega)]
    simp [h2]

/-- Two lists compared up to the shorter length. -/
theorem prefix_of_peek {m : Nat → Byte} {off : Nat} {a b : List Byte} (ha : peek m off a.length = a)
    (hb : peek m off b.length = b) : a <+: b ∨ b <+: a := by
  rcases Nat.le_total a.length b.length with h | h
  · left
    obtain ⟨k, hk⟩ := Nat.exists_eq_add_of_le h
    rw [hk, peek_add, ha] at hb
    exact ⟨_, hb⟩
  · right
    obtain ⟨k, hk⟩ := Nat.exists_eq_add_of_le h
    rw [hk, peek_add, hb] at ha
    exact ⟨_, ha⟩

theorem peek_prefix {m : Nat → Byte} {off : Nat} {a b : List Byte} (h : a <+: b) (hb : peek m off b.length = b) :
    peek m off a.length = a := by
  obtain ⟨t, rfl⟩ := h
  rw [List.length_append, peek_add] at hb
  exact (List.append_inj hb (by simp [peek])).1

/-- Keys are told apart by the NUL behind them. -/
theorem key_eq_of_prefix {k k' d d' : List Byte} (h0 : (0 : Byte) ∉ k) (h0' : (0 : Byte) ∉ k')
    (h : k ++ 0 :: d <+: k' ++ 0 :: d') : k = k' ∧ d <+: d' := by
  induction k generalizing k' with
  | nil =>
    cases k' with
    | nil => simpa using h
    | cons c r =>
      simp only [List.nil_append, List.cons_append, List.cons_prefix_cons] at h
      exact absurd h.1 (by intro e; exact h0' (by simp [e]))
  | cons a k ih =>
    cases k' with
    | nil =>
      simp only [List.nil_append, List.cons_append, List.cons_prefix_cons] at h
      exact absurd h.1 (by intro e; exact h0 (by simp [e]))
    | cons c r =>
      simp only [List.cons_append, List.cons_prefix_cons] at h
      obtain ⟨e1, e2⟩ := ih (fun x => h0 (by simp [x])) (fun x => h0' (by simp [x])) h.2
      exact ⟨by rw [h.1, e1], e2⟩

theorem Live.same_key {cfg : Cfg} {st : St} {e : Entry} (h : Live cfg st e) {key : List Byte} (h0 : (0 : Byte) ∉ key) :
    same st.mem ((st.ht.nodes e.idx).offset + 1) (key ++ [0]) = true ↔ e.key = key := by
  rw [same_iff]
  constructor
  · intro hs
    rcases prefix_of_peek hs h.bytes with p | p
    · exact (key_eq_of_prefix h0 h.key p).1.symm
    · exact (key_eq_of_prefix h.key h0 p).1
  · rintro rfl
    exact peek_prefix ⟨e.data, by simp [Entry.item]⟩ h.bytes

theorem Live.same_item {cfg : Cfg} {st : St} {e : Entry} (h : Live cfg st e) {key data : List Byte} (h0 : (0 : Byte) ∉ key)
    (hs : same st.mem ((st.ht.nodes e.idx).offset + 1) (key ++ 0 :: data) = true) :
    e.key = key ∧ (data <+: e.data ∨ e.data <+: data) := by
  rw [same_iff] at hs
  rcases prefix_of_peek hs h.bytes with p | p
  · obtain ⟨a, b⟩ := key_eq_of_prefix h0 h.key p; exact ⟨a.symm, .inl b⟩
  · obtain ⟨a, b⟩ := key_eq_of_prefix h.key h0 p; exact ⟨a, .inr b⟩

theorem Live.same_of_prefix {cfg : Cfg} {st : St} {e : Entry} (h : Live cfg st e) {data : List Byte} (hd : data <+: e.data) :
    same st.mem ((st.ht.nodes e.idx).offset + 1) (e.key ++ 0 :: data) = true := by
  rw [same_iff]
  refine peek_prefix ?_ h.bytes
  obtain ⟨t, ht⟩ := hd
  exact ⟨t, by simp [Entry.item, ← ht]⟩

/-! ### the chunks -/

theorem off_mono {cfg : Cfg} {st : St} {es : List Entry} {X : List Nat} {F : List Grp} (c : Core cfg st es X F) {i : Nat} :
    ∀ {k : Nat}, i + k + 1 < st.ht.used → (st.ht.nodes i).offset + (st.ht.nodes i).length ≤ (st.ht.nodes (i + k + 1)).offset := by
  intro k
  induction k with
  | zero => intro h; have := c.cont i h; simp only [Nat.add_zero]; omega
  | succ k ih =>
    intro h
    have h1 := ih (by omega)
    have h2 := c.cont (i + k + 1) h
    rw [show i + (k + 1) + 1 = i + k + 1 + 1 from by omega]
    omega

theorem off_lt {cfg : Cfg} {st : St} {es : List Entry} {X : List Nat} {F : List Grp} (c : Core cfg st es X F) {i j : Nat}
    (hij : i < j) (hj : j < st.ht.used) : (st.ht.nodes i).offset + (st.ht.nodes i).length ≤ (st.ht.nodes j).offset := by
  obtain ⟨k, rfl⟩ : ∃ k, j = i + k + 1 := ⟨j - i - 1, by omega⟩
  exact off_mono c hj

theorem off_ge {cfg : Cfg} {st : St} {es : List Entry} {X : List Nat} {F : List Grp} (c : Core cfg st es X F) {i : Nat}
    (hi : i < st.ht.used) : cfg.hdr ≤ (st.ht.nodes i).offset := by
  have h0 := c.first (by omega)
  by_cases e : i = 0
  · subst e; omega
  · have := off_lt c (i := 0) (j := i) (by omega) hi; omega

theorem off_end {cfg : Cfg} {st : St} {es : List Entry} {X : List Nat} {F : List Grp} (c : Core cfg st es X F) {i : Nat}
    (hi : i < st.ht.used) : (st.ht.nodes i).offset + (st.ht.nodes i).length ≤ endOf cfg st.ht := by
  unfold endOf
  rw [if_neg (by omega)]
  by_cases e : i = st.ht.used - 1
  · rw [← e]; exact Nat.le_refl _
  · have := off_lt c (i := i) (j := st.ht.used - 1) (by omega) (by omega); omega

theorem Core.idx_lt {cfg : Cfg} {st : St} {es : List Entry} {X : List Nat} {F : List Grp} (c : Core cfg st es X F) {e : Entry}
    (he : e ∈ es) : e.idx < st.ht.used := by
  rw [c.cover]; simp only [List.mem_append, List.mem_map]; exact .inl ⟨e, he, rfl⟩

/-- The bytes of an entry survive a write to another node's chunk. -/
theorem Live.poke {cfg : Cfg} {st : St} {es : List Entry} {X : List Nat} {F : List Grp} (c : Core cfg st es X F) {e : Entry}
    (he : e ∈ es) {i off : Nat} {bs : List Byte} (hi : i < st.ht.used) (hne : i ≠ e.idx)
    (ho : (st.ht.nodes i).offset ≤ off) (hl : off + bs.length ≤ (st.ht.nodes i).offset + (st.ht.nodes i).length) :
    Live cfg { st with mem := Cache.poke st.mem off bs } e := by
  have l := c.live e he
  refine ⟨l.slot, l.ttl, l.added, l.used, l.fits, ?_, l.key⟩
  refine Eq.trans (peek_congr (fun k hk => poke_other ?_)) l.bytes
  have hf := l.fits
  dsimp only
  rcases Nat.lt_or_gt_of_ne hne with h | h
  · have := off_lt c h (c.idx_lt he); omega
  · have := off_lt c h hi; omega

/-! ### searching -/

/-- The search condition on node `j`. -/
def hit (cfg : Cfg) (st : St) (item : List Byte) (now : Int) (j : Nat) : Bool :=
  fresh cfg now (st.ht.nodes j) && same st.mem ((st.ht.nodes j).offset + 1) item

theorem find_seg {cfg : Cfg} {st : St} {item : List Byte} {now : Int} (L : List Nat) : ∀ {i : Int} {fuel : Nat},
    Seg (fun i => (st.ht.nodes i).next) i L (-1) → (∀ j ∈ L, j < st.ht.used) → L.length < fuel →
    find cfg st item now fuel i = some (L.find? (hit cfg st item now)) := by
  induction L with
  | nil =>
    intro i fuel hs _ hf
    obtain ⟨fuel, rfl⟩ : ∃ k, fuel = k + 1 := ⟨fuel - 1, by omega⟩
    have hs : i = -1 := hs
    rw [find, if_neg (by omega)]; rfl
  | cons a L ih =>
    intro i fuel hs hlt hf
    obtain ⟨fuel, rfl⟩ : ∃ k, fuel = k + 1 := ⟨fuel - 1, by omega⟩
    obtain ⟨rfl, hs⟩ := hs
    rw [find, if_pos ⟨by omega, by simpa using hlt a (by simp)⟩]
    simp only [Int.toNat_natCast]
    rw [List.find?_cons]
    by_cases h : hit cfg st item now a = true
    · rw [if_pos (by simpa [hit] using h), h]
    · rw [if_neg (by simpa [hit] using h)]
      simp only [Bool.not_eq_true] at h
      rw [h]
      exact ih hs (fun j hj => hlt j (by simp [hj])) (by simp only [List.length_cons] at hf; omega)

theorem seg_suffix {nx : Nat → Int} {s t : Int} {A B : List Nat} {j : Nat} (h : Seg nx s (A ++ j :: B) t) : Seg nx (nx j) B t := by
  obtain ⟨u, _, _, h2⟩ := seg_append.1 h; exact h2

theorem findAll_seg {cfg : Cfg} {st : St} {item : List Byte} {now : Int} {fuel : Nat} : ∀ {n : Nat} {L : List Nat} {i : Int},
    Seg (fun i => (st.ht.nodes i).next) i L (-1) → (∀ j ∈ L, j < st.ht.used) → L.length < fuel → L.length < n →
    findAll cfg st item now fuel n i = some (L.filter (hit cfg st item now)) := by
  intro n
  induction n with
  | zero => intro L i _ _ _ h; omega
  | succ n ih =>
    intro L i hs hlt hf hn
    rw [findAll, find_seg L hs hlt hf]
    cases h : L.find? (hit cfg st item now) with
    | none =>
      rw [List.find?_eq_none] at h
      dsimp only
      rw [List.filter_eq_nil_iff.2 (by simpa using h)]
    | some j =>
      obtain ⟨hj, A, B, rfl, hA⟩ := List.find?_eq_some_iff_append.1 h
      dsimp only
      rw [ih (seg_suffix hs) (fun k hk => hlt k (by simp [hk])) (by simp at hf; omega) (by simp at hn; omega)]
      have hA' : A.filter (hit cfg st item now) = [] :=
        List.filter_eq_nil_iff.2 (by intro a ha; have := hA a ha; simpa using this)
      rw [List.filter_append, List.filter_cons_of_pos hj, hA']
      rfl

/-- The nodes `J` get the lifetime `m` from `now` on. -/
def setAll (st : St) (J : List Nat) (m : Nat) (now : Int) : St :=
  { st with ht := { st.ht with nodes := fun k => if k ∈ J then { st.ht.nodes k with ttl := m, added := now } else st.ht.nodes k } }

theorem setLoop_seg {cfg : Cfg} {item : List Byte} {m : Nat} {now : Int} {fuel : Nat} : ∀ {n : Nat} {st : St} {L : List Nat} {i : Int},
    Seg (fun i => (st.ht.nodes i).next) i L (-1) → (∀ j ∈ L, j < st.ht.used) → L.Nodup → L.length < fuel → L.length < n →
    setLoop cfg item m now fuel n st i = some (setAll st (L.filter (hit cfg st item now)) m now) := by
  intro n
  induction n with
  | zero => intro st L i _ _ _ _ h; omega
  | succ n ih =>
    intro st L i hs hlt hnd hf hn
    rw [setLoop, find_seg L hs hlt hf]
    cases h : L.find? (hit cfg st item now) with
    | none =>
      rw [List.find?_eq_none] at h
      dsimp only
      rw [List.filter_eq_nil_iff.2 (by simpa using h)]
      simp [setAll]
    | some j =>
      obtain ⟨hj, A, B, rfl, hA⟩ := List.find?_eq_some_iff_append.1 h
      dsimp only
      have hjB : j ∉ B := (List.nodup_cons.1 (List.nodup_append.1 hnd).2.1).1
      generalize hst : ({ st with ht := st.ht.set j { st.ht.nodes j with ttl := m, added := now } } : St) = st1
      have hnx : ∀ k, (st1.ht.nodes k).next = (st.ht.nodes k).next := by
        intro k; rw [← hst]; dsimp only [HT.set]; split
        · rename_i e; rw [e]
        · rfl
      have ho : ∀ k, k ≠ j → st1.ht.nodes k = st.ht.nodes k := by
        intro k hk; rw [← hst]; exact set_other _ _ hk
      have hhit : ∀ k ∈ B, hit cfg st1 item now k = hit cfg st item now k := by
        intro k hk
        have : k ≠ j := fun e => hjB (e ▸ hk)
        unfold hit
        rw [ho k this]
        rw [← hst]
      have hu : st1.ht.used = st.ht.used := by rw [← hst]; rfl
      have hA' : A.filter (hit cfg st item now) = [] :=
        List.filter_eq_nil_iff.2 (by intro a ha; have := hA a ha; simpa using this)
      rw [set_same]
      dsimp only
      rw [ih (L := B) (seg_congr (fun k _ => (hnx k).symm) (seg_suffix hs))
        (fun k hk => by rw [hu]; exact hlt k (by simp [hk])) (List.nodup_cons.1 (List.nodup_append.1 hnd).2.1).2
        (by simp at hf; omega) (by simp at hn; omega)]
      rw [List.filter_congr hhit, List.filter_append, List.filter_cons_of_pos hj, hA', List.nil_append]
      congr 1
      rw [← hst]
      simp only [setAll, HT.set, St.mk.injEq, HT.mk.injEq, and_true]
      funext k
      by_cases e : k = j
      · subst e
        rw [if_pos rfl, if_pos (List.mem_cons_self), if_neg]
        intro h'; exact hjB (List.mem_filter.1 h').1
      · rw [if_neg e]
        simp [e]

/-! ### sizes -/

theorem nodup_length_le : ∀ {n : Nat} {l : List Nat}, l.Nodup → (∀ i ∈ l, i < n) → l.length ≤ n := by
  intro n
  induction n with
  | zero =>
    intro l _ h
    cases l with
    | nil => simp
    | cons a l => exact absurd (h a (by simp)) (by omega)
  | succ n ih =>
    intro l hn h
    by_cases hm : n ∈ l
    · have h1 := ih (hn.erase n) (fun i hi => by
        have := (List.Nodup.mem_erase_iff hn).1 hi
        have := h i this.2
        omega)
      rw [List.length_erase_of_mem hm] at h1
      omega
    · have := ih hn (fun i hi => by
        have : i ≠ n := fun e => hm (e ▸ hi)
        have := h i hi
        omega)
      omega

variable {cfg : Cfg} {st : St} {es : List Entry} {X : List Nat} {F : List Grp}

theorem flat_length (F : List Grp) : F.length ≤ (flat F).length := by
  induction F with
  | nil => simp
  | cons g F ih => simp only [flat_cons, List.length_cons, List.length_append]; omega

theorem chain_sublist (cfg : Cfg) (es : List Entry) (s : Nat) : (chain cfg es s).Sublist (es.map Entry.idx) :=
  List.filter_sublist.map _

theorem Core.chain_nodup (c : Core cfg st es X F) (s : Nat) : (chain cfg es s).Nodup :=
  (chain_sublist cfg es s).nodup (List.nodup_append.1 c.nodup).1

theorem Core.chain_lt (c : Core cfg st es X F) {s j : Nat} (h : j ∈ chain cfg es s) : j < st.ht.used := by
  rw [c.cover, List.mem_append]; exact .inl ((chain_sublist cfg es s).subset h)

theorem Core.length_le (c : Core cfg st es X F) : es.length + (flat F).length ≤ st.ht.used := by
  have := nodup_length_le c.nodup (fun i hi => (c.cover i).2 hi)
  simp only [List.length_append, List.length_map] at this
  omega

theorem Core.chain_length (c : Core cfg st es X F) (s : Nat) : (chain cfg es s).length ≤ st.ht.used := by
  have := (chain_sublist cfg es s).length_le
  have := c.length_le
  simp only [List.length_map] at *
  omega

theorem Core.F_length (c : Core cfg st es X F) : F.length ≤ st.ht.used := by
  have := flat_length F
  have := c.length_le
  omega

theorem Core.not_free (c : Core cfg st es X F) {e : Entry} (he : e ∈ es) : e.idx ∉ X ∧ e.idx ∉ flat F := by
  have := (List.nodup_append.1 c.nodup).2.2 e.idx (List.mem_map_of_mem he)
  constructor
  · intro h; exact this _ (by simp [h]) rfl
  · intro h; exact this _ (by simp [h]) rfl

theorem Core.chain_not_free (c : Core cfg st es X F) {s j : Nat} (h : j ∈ chain cfg es s) : j ∉ X ∧ j ∉ flat F := by
  have := (chain_sublist cfg es s).subset h
  simp only [List.mem_map] at this
  obtain ⟨e, he, rfl⟩ := this
  exact c.not_free he

theorem Core.idx_inj (c : Core cfg st es X F) {e e' : Entry} (he : e ∈ es) (he' : e' ∈ es) (h : e.idx = e'.idx) : e = e' := by
  have hn := (List.nodup_append.1 c.nodup).1
  clear c
  induction es with
  | nil => simp at he
  | cons a es ih =>
    simp only [List.map_cons, List.nodup_cons, List.mem_map, not_exists, not_and] at hn
    rcases List.mem_cons.1 he with h1 | h1
    · rcases List.mem_cons.1 he' with h2 | h2
      · rw [h1, h2]
      · exact absurd (by rw [← h, h1]) (hn.1 e' h2)
    · rcases List.mem_cons.1 he' with h2 | h2
      · exact absurd (by rw [h, h2]) (hn.1 e h1)
      · exact ih h1 h2 hn.2

/-! ### what keeps the invariant -/

theorem endOf_congr {h h' : HT} (hu : h'.used = h.used) (ho : ∀ i, (h'.nodes i).offset = (h.nodes i).offset)
    (hl : ∀ i, (h'.nodes i).length = (h.nodes i).length) : endOf cfg h' = endOf cfg h := by
  unfold endOf; rw [hu, ho, hl]

/-- A change to free nodes only. -/
theorem Core.near (c : Core cfg st es X F) {h' : HT} {F' : List Grp} {X' : List Nat} (n : Near st.ht h' (flat F))
    (hf : FreeOk h' F') (hp : (X' ++ flat F').Perm (X ++ flat F)) (hs : ∀ i ∈ flat F', i ∈ flat F) :
    Core cfg { st with ht := h' } es X' F' := by
  refine ⟨fun s h => ?_, hf, ?_, fun i => ?_, fun e he => ?_, fun i hi => ?_, fun h => ?_, fun i h => ?_, ?_⟩
  · show Seg _ (h'.slots s) _ _
    rw [n.slots]
    exact seg_congr (fun i hi => by rw [n.nodes i (c.chain_not_free hi).2]) (c.slots s h)
  · rw [List.Perm.nodup_iff (List.Perm.append_left _ hp)]; exact c.nodup
  · show i < h'.used ↔ _
    rw [n.used, c.cover i, List.Perm.mem_iff (List.Perm.append_left _ hp)]
  · have l := c.live e he
    have hn := n.nodes e.idx (c.not_free he).2
    exact ⟨by rw [hn]; exact l.slot, by rw [hn]; exact l.ttl, by rw [hn]; exact l.added, by rw [hn]; exact l.used,
      by rw [hn]; exact l.fits, by rw [hn]; exact l.bytes, l.key⟩
  · show (h'.nodes i).ttl = 0
    rw [n.ttl]; exact c.freeTTL i (hs i hi)
  · show _ ≤ (h'.nodes 0).offset
    rw [n.offset]; exact c.first (by rw [← n.used]; exact h)
  · show (h'.nodes i).offset + (h'.nodes i).length ≤ (h'.nodes (i + 1)).offset
    rw [n.offset, n.offset, n.length]; exact c.cont i (by rw [← n.used]; exact h)
  · show endOf cfg h' + 32 * h'.used + _ ≤ _
    rw [endOf_congr n.used n.offset n.length, n.used]; exact c.room

/-- Changes to nodes outside the lists. -/
theorem Core.setX (c : Core cfg st es X F) {i : Nat} (hi : i ∈ X) (m : Node) (ho : m.offset = (st.ht.nodes i).offset)
    (hl : m.length = (st.ht.nodes i).length) : Core cfg { st with ht := st.ht.set i m } es X F := by
  have hd := List.nodup_append.1 c.nodup
  have hd2 := List.nodup_append.1 hd.2.1
  have hiF : i ∉ flat F := fun h => hd2.2.2 i hi i h rfl
  have hie : ∀ e ∈ es, e.idx ≠ i := fun e he h => hd.2.2 e.idx (List.mem_map_of_mem he) i (by simp [hi]) h
  have off : ∀ j, ((st.ht.set i m).nodes j).offset = (st.ht.nodes j).offset := by
    intro j; by_cases e : j = i
    · subst e; rw [set_same, ho]
    · rw [set_other _ _ e]
  have len : ∀ j, ((st.ht.set i m).nodes j).length = (st.ht.nodes j).length := by
    intro j; by_cases e : j = i
    · subst e; rw [set_same, hl]
    · rw [set_other _ _ e]
  refine ⟨fun s h => ?_, c.free.set_other hiF m, c.nodup, c.cover, fun e he => ?_, fun j hj => ?_, fun h => ?_, fun j h => ?_, ?_⟩
  · refine seg_congr (fun j hj => ?_) (c.slots s h)
    have : j ≠ i := fun e => (c.chain_not_free hj).1 (e ▸ hi)
    dsimp only
    rw [set_other _ _ this]
  · have l := c.live e he
    have hn : (st.ht.set i m).nodes e.idx = st.ht.nodes e.idx := set_other _ _ (hie e he)
    exact ⟨by rw [hn]; exact l.slot, by rw [hn]; exact l.ttl, by rw [hn]; exact l.added, by rw [hn]; exact l.used,
      by rw [hn]; exact l.fits, by rw [hn]; exact l.bytes, l.key⟩
  · have : j ≠ i := fun e => hiF (e ▸ hj)
    dsimp only
    rw [set_other _ _ this]; exact c.freeTTL j hj
  · dsimp only; rw [off]; exact c.first h
  · dsimp only; rw [off, off, len]; exact c.cont j h
  · show endOf cfg (st.ht.set i m) + _ + _ ≤ _
    rw [endOf_congr (h := st.ht) (h' := st.ht.set i m) rfl off len]; exact c.room

theorem Core.poke (c : Core cfg st es X F) {i off : Nat} {bs : List Byte} (hi : i ∈ X)
    (ho : (st.ht.nodes i).offset ≤ off) (hl : off + bs.length ≤ (st.ht.nodes i).offset + (st.ht.nodes i).length) :
    Core cfg { st with mem := Cache.poke st.mem off bs } es X F := by
  refine ⟨c.slots, c.free, c.nodup, c.cover, fun e he => ?_, c.freeTTL, c.first, c.cont, c.room⟩
  have hu : i < st.ht.used := by rw [c.cover]; simp [hi]
  refine Live.poke c he hu ?_ ho hl
  rintro rfl
  exact (c.not_free he).1 hi

theorem Core.cend (c : Core cfg st es X F) (x : Nat) : Core cfg { st with cend := x } es X F :=
  ⟨c.slots, c.free, c.nodup, c.cover, fun e he => let l := c.live e he; ⟨l.slot, l.ttl, l.added, l.used, l.fits, l.bytes, l.key⟩,
    c.freeTTL, c.first, c.cont, c.room⟩

/-- A new node at the end of the table, its chunk behind the last one. -/
theorem Core.grow (c : Core cfg st es X F) {r : Nat} {m : Node} (ho : endOf cfg st.ht ≤ m.offset) (hl : m.length = r)
    (hroom : m.offset + r + 32 * (st.ht.used + 1) + 4 * cfg.nslots ≤ cfg.size) :
    Core cfg { st with ht := { (st.ht.set st.ht.used m) with used := st.ht.used + 1 } } es (st.ht.used :: X) F := by
  have hnot : ∀ j, j < st.ht.used → ((st.ht.set st.ht.used m).nodes j) = st.ht.nodes j :=
    fun j hj => set_other _ _ (by omega)
  have hF : st.ht.used ∉ flat F := fun h => by have := c.free.lt _ h; omega
  have hX : st.ht.used ∉ X := fun h => by have := (c.cover st.ht.used).2 (by simp [h]); omega
  have he : ∀ e ∈ es, e.idx < st.ht.used := fun e h => c.idx_lt h
  refine ⟨fun s h => ?_, ?_, ?_, fun i => ?_, fun e h => ?_, fun j hj => ?_, fun h => ?_, fun j h => ?_, ?_⟩
  · refine seg_congr (fun j hj => ?_) (c.slots s h)
    dsimp only
    rw [hnot j (c.chain_lt hj)]
  · exact (c.free.set_other hF m).mono_used (fun i hi => by have := c.free.lt i hi; omega)
  · have hn := c.nodup
    have h3 := List.nodup_append.1 hn
    refine List.nodup_append.2 ⟨h3.1, ?_, ?_⟩
    · simp only [List.cons_append, List.nodup_cons, List.mem_append, not_or]; exact ⟨⟨hX, hF⟩, h3.2.1⟩
    · intro a ha b hb
      simp only [List.cons_append, List.mem_cons] at hb
      rcases hb with rfl | hb
      · simp only [List.mem_map] at ha
        obtain ⟨e, h, rfl⟩ := ha
        have := he e h
        omega
      · exact h3.2.2 a ha b hb
  · show i < st.ht.used + 1 ↔ _
    have := c.cover i
    rw [List.mem_append] at this
    rw [List.cons_append, List.mem_append, List.mem_cons]
    constructor
    · intro h
      by_cases e : i = st.ht.used
      · exact .inr (.inl e)
      · rcases this.1 (by omega) with h | h
        · exact .inl h
        · exact .inr (.inr h)
    · rintro (h | h | h)
      · have := this.2 (.inl h); omega
      · omega
      · have := this.2 (.inr h); omega
  · have l := c.live e h
    have hn := hnot e.idx (he e h)
    exact ⟨by dsimp only; rw [hn]; exact l.slot, by dsimp only; rw [hn]; exact l.ttl, by dsimp only; rw [hn]; exact l.added,
      by dsimp only; rw [hn]; exact l.used, by dsimp only; rw [hn]; exact l.fits, by dsimp only; rw [hn]; exact l.bytes, l.key⟩
  · dsimp only
    rw [hnot j (c.free.lt j hj)]; exact c.freeTTL j hj
  · dsimp only
    by_cases e : st.ht.used = 0
    · rw [e, set_same]; simpa [endOf, e] using ho
    · rw [hnot 0 (by omega)]; exact c.first (by omega)
  · dsimp only at h ⊢
    by_cases e : j + 1 = st.ht.used
    · rw [hnot j (by omega), e, set_same]
      unfold endOf at ho
      rw [if_neg (by omega), ← e] at ho
      exact ho
    · rw [hnot j (by omega), hnot (j + 1) (by omega)]; exact c.cont j (by omega)
  · have : endOf cfg { (st.ht.set st.ht.used m) with used := st.ht.used + 1 } = m.offset + r := by
      conv => lhs; unfold endOf
      dsimp only
      rw [if_neg (by omega), Nat.add_sub_cancel, set_same, hl]
    dsimp only
    rw [this]; omega

theorem roundUp_ge (n : Nat) : n ≤ roundUp n := by unfold roundUp; omega
theorem roundUp_pos {n : Nat} (h : 0 < n) : 0 < roundUp n := by unfold roundUp; omega

/-- What the blocks look like after an operation: as before, or with one more, at the old end. -/
def Geo (st st' : St) : Prop :=
  (st'.ht.used = st.ht.used ∧ st'.cend = st.cend ∧
    ∀ j, (st'.ht.nodes j).offset = (st.ht.nodes j).offset ∧ (st'.ht.nodes j).length = (st.ht.nodes j).length) ∨
  (st'.ht.used = st.ht.used + 1 ∧ (st'.ht.nodes st.ht.used).offset = st.cend ∧
    st'.cend = st.cend + (st'.ht.nodes st.ht.used).length ∧
    ∀ j, j < st.ht.used → (st'.ht.nodes j).offset = (st.ht.nodes j).offset ∧ (st'.ht.nodes j).length = (st.ht.nodes j).length)

/-- The room the blocks and the index take. -/
def Fits (cfg : Cfg) (st : St) : Prop :=
  endOf cfg st.ht ≤ st.cend ∧ st.cend + 32 * st.ht.used + 4 * cfg.nslots ≤ cfg.size

/-- The allocation. -/
theorem getChunk_ok (c : Core cfg st es X F) (hend : Fits cfg st) (now : Int) (len : Nat) :
    (∃ st', getChunk cfg st now len = some (st', none) ∧ Core cfg st' es X F ∧ Fits cfg st' ∧
      st'.mem = st.mem ∧ st'.cend = st.cend ∧ st'.ht.used = st.ht.used ∧
      cfg.size < st.cend + roundUp len + 32 * (st.ht.used + 1) + 4 * cfg.nslots ∧
      (∀ j, (st'.ht.nodes j).ttl = (st.ht.nodes j).ttl) ∧ Geo st st') ∨
    (∃ st' i F', getChunk cfg st now len = some (st', some i) ∧ Core cfg st' es (i :: X) F' ∧ Fits cfg st' ∧
      (st'.ht.nodes i).length = roundUp len ∧
      (∀ k, st'.mem k ≠ st.mem k → (st'.ht.nodes i).offset ≤ k ∧ k < (st'.ht.nodes i).offset + (st'.ht.nodes i).length) ∧
      ((st'.cend = st.cend ∧ st'.ht.used = st.ht.used) ∨ (st'.cend = st.cend + roundUp len ∧ st'.ht.used = st.ht.used + 1)) ∧
      (∀ j, (st'.ht.nodes j).ttl = (st.ht.nodes j).ttl) ∧ Geo st st' ∧ (i ∈ flat F ∨ i = st.ht.used)) := by
  obtain ⟨hend, hfit⟩ := hend
  have hpad : ∀ {s : St} {i : Nat} {F' : List Grp}, Core cfg s es (i :: X) F' → (s.ht.nodes i).length = roundUp len →
      Core cfg { s with mem := Cache.poke s.mem ((s.ht.nodes i).offset + len) (List.replicate (roundUp len - len) 0xFE) } es (i :: X) F' := by
    intro s i F' cs hl
    have := roundUp_ge len
    exact cs.poke (i := i) (by simp) (by omega) (by simp only [List.length_replicate]; omega)
  have hmem : ∀ (mem : Nat → Byte) (o k : Nat), Cache.poke mem (o + len) (List.replicate (roundUp len - len) 0xFE) k ≠ mem k →
      o ≤ k ∧ k < o + roundUp len := by
    intro mem o k hk
    have := roundUp_ge len
    by_cases h : k < o + len ∨ o + len + (List.replicate (roundUp len - len) (0xFE : Byte)).length ≤ k
    · exact absurd (poke_other h) hk
    · simp only [List.length_replicate] at h; omega
  unfold getChunk findUnused
  dsimp only
  have hF := findLoop_ok (now := now) (chunk := roundUp len) F (h := st.ht) (G := []) (cur := st.ht.free) (fuel := st.fuel)
    (by simpa using c.free) rfl c.free.heads (by have := c.F_length; unfold St.fuel; omega)
  rw [show lastHead (List.dropLast []) = none from rfl, show lastHead [] = none from rfl] at hF
  rcases hF with ⟨h', e, hf, n⟩ | ⟨h', i, F', e, hf, hp, n, hl⟩
  · rw [e]
    simp only [List.nil_append] at hf n
    have c' := c.near n hf (X' := X) (List.Perm.refl _) (fun _ h => h)
    have he' : endOf cfg h' = endOf cfg st.ht := endOf_congr n.used n.offset n.length
    unfold create
    dsimp only
    by_cases hb : nodeAddr cfg.size cfg.nslots h'.used < ((st.cend + roundUp len : Nat) : Int)
    · left
      rw [if_pos hb]
      refine ⟨_, rfl, c', ⟨by dsimp only; rw [he']; exact hend, by dsimp only; rw [n.used]; exact hfit⟩, rfl, rfl, n.used, ?_,
        fun j => n.ttl j, .inl ⟨n.used, rfl, fun j => ⟨n.offset j, n.length j⟩⟩⟩
      unfold nodeAddr at hb
      rw [n.used] at hb
      omega
    · right
      rw [if_neg hb]
      dsimp only
      rw [if_pos rfl]
      unfold nodeAddr at hb
      have c2 := c'.grow (r := roundUp len)
        (m := { h'.nodes h'.used with offset := st.cend, next := -1, length := roundUp len, used := 0 })
        (by dsimp only; rw [he']; exact hend) rfl (by dsimp only; omega)
      have hset : (({ (h'.set h'.used { h'.nodes h'.used with next := -1, length := roundUp len, used := 0 }) with used := h'.used + 1 } : HT).set
          h'.used { (({ (h'.set h'.used { h'.nodes h'.used with next := -1, length := roundUp len, used := 0 }) with used := h'.used + 1 } : HT).nodes h'.used) with offset := st.cend }) =
          { (h'.set h'.used { h'.nodes h'.used with offset := st.cend, next := -1, length := roundUp len, used := 0 }) with used := h'.used + 1 } := by
        simp only [HT.set, HT.mk.injEq, and_true]
        funext j
        by_cases x : j = h'.used <;> simp [x]
      dsimp only at hset
      refine ⟨_, h'.used, F, rfl, ?_, ?_, ?_, ?_, ?_, ?_, ?_, .inr n.used⟩
      · dsimp only
        rw [hset]
        have := hpad c2 (by dsimp only; rw [set_same])
        exact this.cend _
      · dsimp only
        rw [hset]
        refine ⟨?_, ?_⟩
        · unfold endOf
          dsimp only
          rw [if_neg (by omega), Nat.add_sub_cancel, set_same]
          exact Nat.le_refl _
        · dsimp only; omega
      · dsimp only
        rw [hset]
        dsimp only
        rw [set_same]
      · dsimp only
        rw [hset]
        intro k hk
        have := hmem _ _ k hk
        rw [set_same]
        dsimp only at this ⊢
        rw [set_same] at this
        exact this
      · right
        dsimp only
        rw [hset]
        dsimp only
        rw [n.used]
        exact ⟨rfl, rfl⟩
      · dsimp only
        rw [hset]
        intro j
        dsimp only
        by_cases x : j = h'.used
        · rw [x, set_same]; exact n.ttl _
        · rw [set_other _ _ x]; exact n.ttl j
      · right
        dsimp only
        rw [hset]
        dsimp only
        rw [← n.used, set_same]
        exact ⟨rfl, rfl, rfl, fun j hj => by rw [set_other _ _ (by omega)]; exact ⟨n.offset j, n.length j⟩⟩
  · right
    rw [e]
    simp only [List.nil_append] at hp n
    have c' := c.near n hf (X' := i :: X) (List.perm_middle.symm.trans (hp.symm.append_left X)) (fun j hj => hp.mem_iff.2 (by simp [hj]))
    have he' : endOf cfg h' = endOf cfg st.ht := endOf_congr n.used n.offset n.length
    dsimp only
    have hl' : (h'.nodes i).length = roundUp len := by rw [n.length]; exact hl
    refine ⟨_, i, F', rfl, ?_, ?_, ?_, ?_, ?_, ?_, ?_, .inl (hp.mem_iff.2 (by simp))⟩
    · simp only [Bool.false_eq_true, if_false]
      exact hpad c' hl'
    · simp only [Bool.false_eq_true, if_false]
      exact ⟨by dsimp only; rw [he']; exact hend, by dsimp only; rw [n.used]; exact hfit⟩
    · simp only [Bool.false_eq_true, if_false]; exact hl'
    · simp only [Bool.false_eq_true, if_false]
      intro k hk
      rw [hl']
      exact hmem _ _ k hk
    · left
      simp only [Bool.false_eq_true, if_false]
      exact ⟨trivial, n.used⟩
    · simp only [Bool.false_eq_true, if_false]; exact n.ttl
    · left
      simp only [Bool.false_eq_true, if_false]
      exact ⟨n.used, trivial, fun j => ⟨n.offset j, n.length j⟩⟩

/-! ### lifetimes -/

/-- An entry as `DNSCache_CacheMinTTL` leaves it. -/
def Entry.touch (e : Entry) (b : Bool) (m : Nat) (now : Int) : Entry := if b then { e with ttl := m, added := now } else e

theorem touch_idx (e : Entry) (b : Bool) (m : Nat) (now : Int) : (e.touch b m now).idx = e.idx := by
  unfold Entry.touch; split <;> rfl
theorem touch_key (e : Entry) (b : Bool) (m : Nat) (now : Int) : (e.touch b m now).key = e.key := by
  unfold Entry.touch; split <;> rfl
theorem touch_data (e : Entry) (b : Bool) (m : Nat) (now : Int) : (e.touch b m now).data = e.data := by
  unfold Entry.touch; split <;> rfl

theorem chain_touch (p : Entry → Bool) (m : Nat) (now : Int) (es : List Entry) (s : Nat) :
    chain cfg (es.map fun e => e.touch (p e) m now) s = chain cfg es s := by
  unfold chain
  induction es with
  | nil => rfl
  | cons e es ih =>
    simp only [List.map_cons, List.filter_cons, touch_key]
    split
    · simp only [List.map_cons, touch_idx, ih]
    · exact ih

theorem map_idx_touch (p : Entry → Bool) (m : Nat) (now : Int) (es : List Entry) :
    (es.map fun e => e.touch (p e) m now).map Entry.idx = es.map Entry.idx := by
  rw [List.map_map]; exact List.map_congr_left (fun e _ => touch_idx e _ _ _)

theorem Core.setAll (c : Core cfg st es X F) {J : List Nat} (hJ : ∀ j ∈ J, j ∈ es.map Entry.idx) (m : Nat) (now : Int) :
    Core cfg (setAll st J m now) (es.map fun e => e.touch (decide (e.idx ∈ J)) m now) X F := by
  have proj : ∀ k, ((Cache.setAll st J m now).ht.nodes k).slot = (st.ht.nodes k).slot ∧
      ((Cache.setAll st J m now).ht.nodes k).next = (st.ht.nodes k).next ∧
      ((Cache.setAll st J m now).ht.nodes k).offset = (st.ht.nodes k).offset ∧
      ((Cache.setAll st J m now).ht.nodes k).length = (st.ht.nodes k).length ∧
      ((Cache.setAll st J m now).ht.nodes k).used = (st.ht.nodes k).used := by
    intro k
    unfold Cache.setAll
    dsimp only
    split <;> simp
  have hJF : ∀ j ∈ J, j ∉ flat F := by
    intro j hj
    have := hJ j hj
    simp only [List.mem_map] at this
    obtain ⟨e, he, rfl⟩ := this
    exact (c.not_free he).2
  refine ⟨fun s h => ?_, ?_, ?_, fun i => ?_, fun e h => ?_, fun j hj => ?_, fun h => ?_, fun j h => ?_, ?_⟩
  · rw [chain_touch (fun e => decide (e.idx ∈ J))]
    exact seg_congr (fun j _ => (proj j).2.1.symm) (c.slots s h)
  · exact c.free.sameLinks ⟨rfl, rfl, fun k => ⟨(proj k).1, (proj k).2.1, (proj k).2.2.2.1⟩⟩
  · rw [map_idx_touch (fun e => decide (e.idx ∈ J))]; exact c.nodup
  · rw [map_idx_touch (fun e => decide (e.idx ∈ J))]; exact c.cover i
  · simp only [List.mem_map] at h
    obtain ⟨e, he, rfl⟩ := h
    have l := c.live e he
    have hitem : (e.touch (decide (e.idx ∈ J)) m now).item = e.item := by simp only [Entry.item, touch_key, touch_data]
    have hnode : (Cache.setAll st J m now).ht.nodes e.idx =
        if e.idx ∈ J then { st.ht.nodes e.idx with ttl := m, added := now } else st.ht.nodes e.idx := rfl
    refine ⟨?_, ?_, ?_, ?_, ?_, ?_, ?_⟩
    · rw [touch_idx, touch_key, (proj _).1]; exact l.slot
    · rw [touch_idx, hnode]
      by_cases hj : e.idx ∈ J
      · simp [Entry.touch, hj]
      · simp [Entry.touch, hj, l.ttl]
    · rw [touch_idx, hnode]
      by_cases hj : e.idx ∈ J
      · simp [Entry.touch, hj]
      · simp [Entry.touch, hj, l.added]
    · rw [touch_idx, hitem, (proj _).2.2.2.2]; exact l.used
    · rw [touch_idx, hitem, (proj _).2.2.2.1]; exact l.fits
    · rw [touch_idx, hitem, (proj _).2.2.1]; exact l.bytes
    · rw [touch_key]; exact l.key
  · have : (Cache.setAll st J m now).ht.nodes j = st.ht.nodes j := by
      have hj' : j ∉ J := fun h => hJF j h hj
      unfold Cache.setAll
      dsimp only
      rw [if_neg hj']
    rw [this]; exact c.freeTTL j hj
  · rw [(proj 0).2.2.1]; exact c.first h
  · rw [(proj _).2.2.1, (proj _).2.2.1, (proj _).2.2.2.1]; exact c.cont j h
  · rw [endOf_congr (h := st.ht) (h' := (Cache.setAll st J m now).ht) rfl (fun k => (proj k).2.2.1) (fun k => (proj k).2.2.2.1)]
    exact c.room

/-- Linking the finished node into its slot. -/
theorem Core.insert (hc : CfgOk cfg) (c : Core cfg st es (i :: X) F) {key data : List Byte} (h0 : (0 : Byte) ∉ key)
    (hu : (st.ht.nodes i).used = (key ++ 0 :: data).length + 1) (hf : (key ++ 0 :: data).length + 1 ≤ (st.ht.nodes i).length)
    (hb : peek st.mem ((st.ht.nodes i).offset + 1) (key ++ 0 :: data).length = key ++ 0 :: data) :
    Core cfg { st with ht := insert st.ht (slotOf cfg key) i }
      (⟨i, key, data, (st.ht.nodes i).ttl, (st.ht.nodes i).added⟩ :: es) X F := by
  have hd := List.nodup_append.1 c.nodup
  simp only [List.cons_append] at hd
  have hiXF : i ∉ X ++ flat F := (List.nodup_cons.1 hd.2.1).1
  have hiF : i ∉ flat F := fun h => hiXF (by simp [h])
  have hie : ∀ e ∈ es, e.idx ≠ i := fun e he h => hd.2.2 e.idx (List.mem_map_of_mem he) i (by simp) h
  have hslot := slotOf_lt hc key
  have nodes : ∀ j, j ≠ i → (CacheHT.insert st.ht (slotOf cfg key) i).nodes j = st.ht.nodes j := by
    intro j hj; simp [CacheHT.insert, HT.setSlot, HT.set, hj]
  have node : (CacheHT.insert st.ht (slotOf cfg key) i).nodes i = { st.ht.nodes i with slot := (slotOf cfg key : Nat), next := st.ht.slots (slotOf cfg key) } := by
    simp [CacheHT.insert, HT.setSlot, HT.set]
  have off : ∀ j, ((CacheHT.insert st.ht (slotOf cfg key) i).nodes j).offset = (st.ht.nodes j).offset := by
    intro j; by_cases e : j = i
    · subst e; rw [node]
    · rw [nodes j e]
  have len : ∀ j, ((CacheHT.insert st.ht (slotOf cfg key) i).nodes j).length = (st.ht.nodes j).length := by
    intro j; by_cases e : j = i
    · subst e; rw [node]
    · rw [nodes j e]
  have slots : ∀ s, (CacheHT.insert st.ht (slotOf cfg key) i).slots s = if s = slotOf cfg key then (i : Int) else st.ht.slots s := by
    intro s; rfl
  have old : ∀ s, s < cfg.nslots → Seg (fun j => ((CacheHT.insert st.ht (slotOf cfg key) i).nodes j).next) (st.ht.slots s) (chain cfg es s) (-1) := by
    intro s h
    refine seg_congr (fun j hj => ?_) (c.slots s h)
    have : j ≠ i := fun e => (c.chain_not_free hj).1 (by simp [e])
    rw [nodes j this]
  refine ⟨fun s h => ?_, ?_, ?_, fun j => ?_, fun e h => ?_, fun j hj => ?_, fun h => ?_, fun j h => ?_, ?_⟩
  · dsimp only
    rw [slots]
    by_cases e : s = slotOf cfg key
    · subst e
      rw [if_pos rfl]
      have : chain cfg (⟨i, key, data, (st.ht.nodes i).ttl, (st.ht.nodes i).added⟩ :: es) (slotOf cfg key) = i :: chain cfg es (slotOf cfg key) := by
        simp [chain]
      rw [this]
      refine ⟨rfl, ?_⟩
      dsimp only
      rw [node]
      exact old _ h
    · rw [if_neg e]
      have : chain cfg (⟨i, key, data, (st.ht.nodes i).ttl, (st.ht.nodes i).added⟩ :: es) s = chain cfg es s := by
        unfold chain
        rw [List.filter_cons_of_neg (by simpa using Ne.symm e)]
      rw [this]
      exact old s h
  · have := c.free.set_other hiF { st.ht.nodes i with slot := (slotOf cfg key : Nat), next := st.ht.slots (slotOf cfg key) }
    exact ⟨this.heads, this.grp, this.nodup, this.lt⟩
  · rw [List.map_cons, List.cons_append, List.nodup_cons, List.mem_append, List.mem_map, not_or]
    refine ⟨⟨fun ⟨e, he, h⟩ => hie e he h, hiXF⟩, ?_⟩
    exact List.nodup_append.2 ⟨hd.1, (List.nodup_cons.1 hd.2.1).2, fun a ha b hb => hd.2.2 a ha b (by simp [hb])⟩
  · have := c.cover j
    show j < st.ht.used ↔ _
    rw [this]
    simp only [List.map_cons, List.mem_append, List.mem_cons, List.cons_append]
    grind
  · rcases List.mem_cons.1 h with rfl | he
    · refine ⟨?_, ?_, ?_, ?_, ?_, ?_, h0⟩ <;> dsimp only <;> rw [node] <;> dsimp only [Entry.item]
      · exact hu
      · exact hf
      · exact hb
    · have l := c.live e he
      have hn := nodes e.idx (hie e he)
      exact ⟨by dsimp only; rw [hn]; exact l.slot, by dsimp only; rw [hn]; exact l.ttl, by dsimp only; rw [hn]; exact l.added,
        by dsimp only; rw [hn]; exact l.used, by dsimp only; rw [hn]; exact l.fits, by dsimp only; rw [hn]; exact l.bytes, l.key⟩
  · have : j ≠ i := fun e => hiF (e ▸ hj)
    dsimp only
    rw [nodes j this]; exact c.freeTTL j hj
  · dsimp only; rw [off]; exact c.first h
  · dsimp only; rw [off, off, len]; exact c.cont j h
  · dsimp only
    rw [endOf_congr (h := st.ht) (h' := CacheHT.insert st.ht (slotOf cfg key) i) rfl off len]; exact c.room

/-! ### the operations -/

def freshE (cfg : Cfg) (now : Int) (e : Entry) : Bool := cfg.ignoreTTL || decide (now - e.added < e.ttl)

def matching (cfg : Cfg) (key : List Byte) (now : Int) (e : Entry) : Bool := e.key == key && freshE cfg now e

def leftE (now : Int) (e : Entry) : Nat := (((e.ttl : Int) - (now - e.added)) % 4294967296).toNat

def minLeft (cfg : Cfg) (es : List Entry) (key : List Byte) (ttl : Nat) (now : Int) : Nat :=
  (es.filter (matching cfg key now)).foldl (fun m e => if m > leftE now e then leftE now e else m) ttl

theorem Live.fresh (l : Live cfg st e) (now : Int) : fresh cfg now (st.ht.nodes e.idx) = freshE cfg now e := by
  unfold Cache.fresh freshE; rw [l.ttl, l.added]

theorem Live.remaining (l : Live cfg st e) (now : Int) : remaining now (st.ht.nodes e.idx) = leftE now e := by
  unfold Cache.remaining leftE; rw [l.ttl, l.added]

theorem Live.hit_key (l : Live cfg st e) {key : List Byte} (h0 : (0 : Byte) ∉ key) (now : Int) :
    hit cfg st (key ++ [0]) now e.idx = matching cfg key now e := by
  unfold hit matching
  rw [l.fresh, Bool.and_comm]
  congr 1
  rw [Bool.eq_iff_iff, l.same_key h0]; simp

theorem hits_key (c : Core cfg st es X F) {key : List Byte} (h0 : (0 : Byte) ∉ key) (now : Int) :
    (chain cfg es (slotOf cfg key)).filter (hit cfg st (key ++ [0]) now) = (es.filter (matching cfg key now)).map Entry.idx := by
  unfold chain
  rw [List.filter_map, List.filter_filter]
  congr 1
  apply List.filter_congr
  intro e he
  simp only [Function.comp_apply]
  rw [(c.live e he).hit_key h0]
  by_cases h : matching cfg key now e = true
  · have : e.key = key := by simp only [matching, Bool.and_eq_true, beq_iff_eq] at h; exact h.1
    simp [h, this]
  · simp only [Bool.not_eq_true] at h; simp [h]

theorem findAll_key (hc : CfgOk cfg) (c : Core cfg st es X F) {key : List Byte} (h0 : (0 : Byte) ∉ key) (now : Int) :
    findAll cfg st (key ++ [0]) now st.fuel st.fuel (st.ht.slots (slotOf cfg key)) =
      some ((es.filter (matching cfg key now)).map Entry.idx) := by
  have hl := c.chain_length (slotOf cfg key)
  rw [findAll_seg (c.slots _ (slotOf_lt hc key)) (fun j hj => c.chain_lt hj) (by unfold St.fuel; omega) (by unfold St.fuel; omega),
    hits_key c h0]

theorem foldl_map_congr {α β γ : Type} (f : γ → β → γ) (g : γ → α → γ) (k : α → β) (l : List α)
    (h : ∀ m, ∀ a ∈ l, f m (k a) = g m a) (m : γ) : (l.map k).foldl f m = l.foldl g m := by
  induction l generalizing m with
  | nil => rfl
  | cons a l ih =>
    simp only [List.map_cons, List.foldl_cons]
    rw [h m a (by simp)]
    exact ih (fun m b hb => h m b (by simp [hb])) _

theorem cacheMinTTL_ok (hc : CfgOk cfg) (c : Core cfg st es X F) {key : List Byte} (h0 : (0 : Byte) ∉ key) (ttl : Nat) (now : Int) :
    cacheMinTTL cfg st key ttl now = some (minLeft cfg es key ttl now,
      setAll st ((es.filter (matching cfg key now)).map Entry.idx) (minLeft cfg es key ttl now) now) := by
  unfold cacheMinTTL
  dsimp only
  rw [findAll_key hc c h0]
  dsimp only
  have hm : minRemaining st ((es.filter (matching cfg key now)).map Entry.idx) ttl now = minLeft cfg es key ttl now := by
    unfold minRemaining minLeft
    refine foldl_map_congr _ _ _ _ (fun m e he => ?_) _
    rw [(c.live e (List.mem_filter.1 he).1).remaining]
  rw [hm]
  have hl := c.chain_length (slotOf cfg key)
  rw [setLoop_seg (c.slots _ (slotOf_lt hc key)) (fun j hj => c.chain_lt hj) (c.chain_nodup _) (by unfold St.fuel; omega)
    (by unfold St.fuel; omega), hits_key c h0]
  rfl

theorem touch_matching (c : Core cfg st es X F) (key : List Byte) (now : Int) (m : Nat) :
    (es.map fun e => e.touch (decide (e.idx ∈ (es.filter (matching cfg key now)).map Entry.idx)) m now) =
      es.map fun e => e.touch (matching cfg key now e) m now := by
  apply List.map_congr_left
  intro e he
  congr 1
  rw [Bool.eq_iff_iff, decide_eq_true_iff]
  constructor
  · intro h
    simp only [List.mem_map, List.mem_filter] at h
    obtain ⟨e', ⟨h1, h2⟩, h3⟩ := h
    rw [← c.idx_inj h1 he h3]; exact h2
  · intro h; exact List.mem_map_of_mem (List.mem_filter.2 ⟨he, h⟩)

/-- The cache holds exactly the entries `es`.  The nodes `X` are lost: in no list, and with no lifetime
(a program that is never killed in the middle of an operation has none). -/
def Inv (cfg : Cfg) (st : St) (es : List Entry) : Prop :=
  ∃ X F, Core cfg st es X F ∧ (∀ i ∈ X, (st.ht.nodes i).ttl = 0) ∧ Fits cfg st

/-- No usable entry of `key` begins with `data`. -/
def NoDup (cfg : Cfg) (es : List Entry) (key data : List Byte) (now : Int) : Prop :=
  ∀ e ∈ es, e.key = key → freshE cfg now e = true → ¬ data <+: e.data

/-- Every changed byte lies between the header and the node table. -/
def Inside (cfg : Cfg) (st st' : St) : Prop :=
  ∀ k, st'.mem k ≠ st.mem k → cfg.hdr ≤ k ∧ k + 32 * st'.ht.used + 4 * cfg.nslots < cfg.size

/-- The lifetime and the entries after storing. -/
def addTTL (cfg : Cfg) (es : List Entry) (key : List Byte) (ttl : Nat) (now : Int) : Nat :=
  if cfg.parallel then minLeft cfg es key ttl now else ttl

def addOld (cfg : Cfg) (es : List Entry) (key : List Byte) (ttl : Nat) (now : Int) : List Entry :=
  if cfg.parallel then es.map fun e => e.touch (matching cfg key now e) (minLeft cfg es key ttl now) now else es

inductive AddResult (cfg : Cfg) (st : St) (es : List Entry) (key data : List Byte) (ttl : Nat) (now : Int) : St → Stored → Prop
  | duplicate (e : Entry) (he : e ∈ es) (hk : e.key = key) (hf : freshE cfg now e = true)
      (hd : data <+: e.data ∨ e.data <+: data) : AddResult cfg st es key data ttl now st .duplicate
  | zeroTTL (h : ttl = 0) : AddResult cfg st es key data ttl now st .zeroTTL
  | noRoom (st' : St) (inv : Inv cfg st' es) (hm : st'.mem = st.mem) (he : st'.cend = st.cend) (hu : st'.ht.used = st.ht.used)
      (ht : ttl ≠ 0) (hd : NoDup cfg es key data now)
      (hr : cfg.size < st.cend + roundUp ((key ++ 0 :: data).length + 1) + 32 * (st.ht.used + 1) + 4 * cfg.nslots)
      (hq : ∀ j, (st'.ht.nodes j).ttl = (st.ht.nodes j).ttl) (hgeo : Geo st st') :
      AddResult cfg st es key data ttl now st' .noRoom
  | stored (st' : St) (i : Nat)
      (inv : Inv cfg st' (⟨i, key, data, addTTL cfg es key ttl now, now⟩ :: addOld cfg es key ttl now))
      (ht : ttl ≠ 0) (hd : NoDup cfg es key data now) (hin : Inside cfg st st')
      (hg : (st'.cend = st.cend ∧ st'.ht.used = st.ht.used) ∨
        (st'.cend = st.cend + roundUp ((key ++ 0 :: data).length + 1) ∧ st'.ht.used = st.ht.used + 1))
      (hq : ∀ j, j ≠ i → (∀ e ∈ es, e.idx ≠ j) → (st'.ht.nodes j).ttl = (st.ht.nodes j).ttl) (hgeo : Geo st st') :
      AddResult cfg st es key data ttl now st' .stored

theorem addItem_ok (hc : CfgOk cfg) (inv : Inv cfg st es) {key data : List Byte} (h0 : (0 : Byte) ∉ key) (ttl : Nat) (now : Int) :
    ∃ st' out, addItem cfg st key data ttl now = some (st', out) ∧ AddResult cfg st es key data ttl now st' out := by
  obtain ⟨X, F, c, hdead, hend⟩ := inv
  unfold addItem
  dsimp only
  have hl := c.chain_length (slotOf cfg key)
  rw [find_seg _ (c.slots _ (slotOf_lt hc key)) (fun j hj => c.chain_lt hj) (by unfold St.fuel; omega)]
  cases hfnd : (chain cfg es (slotOf cfg key)).find? (hit cfg st (key ++ 0 :: data) now) with
  | some j =>
    dsimp only
    refine ⟨st, .duplicate, rfl, ?_⟩
    have hj := List.mem_of_find?_eq_some hfnd
    have hh := List.find?_some hfnd
    have := (chain_sublist cfg es _).subset hj
    simp only [List.mem_map] at this
    obtain ⟨e, he, rfl⟩ := this
    have l := c.live e he
    unfold hit at hh
    rw [l.fresh, Bool.and_eq_true] at hh
    obtain ⟨h1, h2⟩ := l.same_item h0 hh.2
    exact .duplicate e he h1 hh.1 h2
  | none =>
    dsimp only
    rw [List.find?_eq_none] at hfnd
    have hnd : NoDup cfg es key data now := by
      intro e he hk hf hd
      have l := c.live e he
      refine hfnd e.idx ?_ ?_
      · unfold chain
        exact List.mem_map_of_mem (List.mem_filter.2 ⟨he, by simp [hk]⟩)
      · unfold hit
        rw [l.fresh, hf, ← hk, l.same_of_prefix hd]; rfl
    by_cases ht : ttl = 0
    · rw [if_pos ht]; exact ⟨st, _, rfl, .zeroTTL ht⟩
    · rw [if_neg ht]
      rcases getChunk_ok c hend now ((key ++ 0 :: data).length + 1) with ⟨st1, e1, c1, he1, hm1, hce1, hu1, hr1, hq1, hgeo1⟩ |
        ⟨st1, i, F1, e1, c1, he1, hl1, hm1, hg1, hq1, hgeo1, _⟩
      · rw [e1]
        exact ⟨st1, _, rfl, .noRoom st1 ⟨X, F, c1, fun j hj => by rw [hq1]; exact hdead j hj, he1⟩ hm1 hce1 hu1 ht hnd hr1 hq1 hgeo1⟩
      · rw [e1]
        dsimp only
        have hru := roundUp_ge ((key ++ 0 :: data).length + 1)
        -- the item
        have c2 := c1.poke (i := i) (off := (st1.ht.nodes i).offset) (bs := 0xFF :: (key ++ 0 :: data)) (by simp)
          (Nat.le_refl _) (by rw [List.length_cons, hl1]; omega)
        generalize hst2 : ({ st1 with mem := Cache.poke st1.mem (st1.ht.nodes i).offset (0xFF :: (key ++ 0 :: data)) } : St) = st2 at c2
        have hht2 : st2.ht = st1.ht := by rw [← hst2]
        have hb2 : peek st2.mem ((st2.ht.nodes i).offset + 1) (key ++ 0 :: data).length = key ++ 0 :: data := by
          have := peek_poke st1.mem (st1.ht.nodes i).offset (0xFF :: (key ++ 0 :: data))
          rw [List.length_cons, peek_succ] at this
          rw [← hst2]
          exact (List.cons.inj this).2
        have c3 := c2.setX (i := i) (by simp) { st2.ht.nodes i with used := (key ++ 0 :: data).length + 1 } rfl rfl
        generalize hst3 : ({ st2 with ht := st2.ht.set i { st2.ht.nodes i with used := (key ++ 0 :: data).length + 1 } } : St) = st3 at c3
        have hmem3 : st3.mem = Cache.poke st1.mem (st1.ht.nodes i).offset (0xFF :: (key ++ 0 :: data)) := by rw [← hst3, ← hst2]
        have hnode3 : st3.ht.nodes i = { st1.ht.nodes i with used := (key ++ 0 :: data).length + 1 } := by
          rw [← hst3]; dsimp only; rw [set_same, hht2]
        have hu3 : st3.ht.used = st1.ht.used := by rw [← hst3, ← hst2]; rfl
        have hcend3 : st3.cend = st1.cend := by rw [← hst3, ← hst2]
        have hend3 : endOf cfg st3.ht = endOf cfg st1.ht := by
          refine endOf_congr hu3 (fun j => ?_) (fun j => ?_)
          · rw [← hst3]; dsimp only; by_cases e : j = i
            · subst e; rw [set_same, hht2]
            · rw [set_other _ _ e, hht2]
          · rw [← hst3]; dsimp only; by_cases e : j = i
            · subst e; rw [set_same, hht2]
            · rw [set_other _ _ e, hht2]
        have hinside : ∀ k, st3.mem k ≠ st.mem k → cfg.hdr ≤ k ∧ k + 32 * st3.ht.used + 4 * cfg.nslots < cfg.size := by
          intro k hk
          have hi3 : i < st1.ht.used := by rw [c1.cover]; simp
          have : (st1.ht.nodes i).offset ≤ k ∧ k < (st1.ht.nodes i).offset + (st1.ht.nodes i).length := by
            by_cases hk1 : st1.mem k = st.mem k
            · rw [hmem3] at hk
              by_cases h : k < (st1.ht.nodes i).offset ∨ (st1.ht.nodes i).offset + (0xFF :: (key ++ 0 :: data)).length ≤ k
              · rw [poke_other h] at hk; exact absurd hk1 hk
              · rw [List.length_cons] at h; omega
            · exact hm1 k hk1
          have h1 := off_ge c1 hi3
          have h2 := off_end c1 hi3
          have h3 := c1.room
          rw [hu3]; omega
        have hget : ∃ st4, (if cfg.parallel then cacheMinTTL cfg st3 key ttl now else some (ttl, st3)) = some (addTTL cfg es key ttl now, st4) ∧
            Core cfg st4 (addOld cfg es key ttl now) (i :: X) F1 ∧ st4.mem = st3.mem ∧ st4.cend = st3.cend ∧ st4.ht.used = st3.ht.used ∧
            endOf cfg st4.ht = endOf cfg st3.ht ∧ st4.ht.nodes i = st3.ht.nodes i ∧
            (∀ j, (∀ e ∈ es, e.idx ≠ j) → st4.ht.nodes j = st3.ht.nodes j) ∧
            (∀ j, (st4.ht.nodes j).offset = (st3.ht.nodes j).offset ∧ (st4.ht.nodes j).length = (st3.ht.nodes j).length) := by
          unfold addTTL addOld
          by_cases hp : cfg.parallel = true
          · simp only [hp, if_true]
            rw [cacheMinTTL_ok hc c3 h0]
            refine ⟨_, rfl, ?_, rfl, rfl, rfl, ?_, ?_, fun j hj => ?_, fun j => ?_⟩
            · have := c3.setAll (J := (es.filter (matching cfg key now)).map Entry.idx) ?_ (minLeft cfg es key ttl now) now
              · rw [touch_matching c3] at this; exact this
              · intro j hj
                simp only [List.mem_map, List.mem_filter] at hj ⊢
                obtain ⟨e, ⟨h1, _⟩, h2⟩ := hj
                exact ⟨e, h1, h2⟩
            · refine endOf_congr rfl (fun j => ?_) (fun j => ?_)
              · unfold setAll; dsimp only; split <;> rfl
              · unfold setAll; dsimp only; split <;> rfl
            · unfold setAll
              dsimp only
              rw [if_neg]
              intro h
              simp only [List.mem_map, List.mem_filter] at h
              obtain ⟨e, ⟨h1, _⟩, h2⟩ := h
              exact (c3.not_free h1).1 (by simp [h2])
            · unfold setAll
              dsimp only
              rw [if_neg]
              intro h
              simp only [List.mem_map, List.mem_filter] at h
              obtain ⟨e, ⟨h1, _⟩, h2⟩ := h
              exact hj e h1 h2
            · unfold setAll; dsimp only; split <;> exact ⟨rfl, rfl⟩
          · simp only [hp, Bool.false_eq_true, if_false]
            exact ⟨st3, rfl, c3, rfl, rfl, rfl, rfl, rfl, fun _ _ => rfl, fun _ => ⟨rfl, rfl⟩⟩
        obtain ⟨st4, e4, c4, hm4, hce4, hu4, hend4, hn4, hot4, hgeo4⟩ := hget
        have hnode31 : ∀ j, j ≠ i → st3.ht.nodes j = st1.ht.nodes j := by
          intro j hj; rw [← hst3]; dsimp only; rw [set_other _ _ hj, hht2]
        have hgeo3 : ∀ j, (st3.ht.nodes j).offset = (st1.ht.nodes j).offset ∧ (st3.ht.nodes j).length = (st1.ht.nodes j).length := by
          intro j
          by_cases e : j = i
          · subst e; rw [hnode3]; exact ⟨rfl, rfl⟩
          · rw [hnode31 j e]; exact ⟨rfl, rfl⟩
        have h13 : (⟨st1.ht.set i { st1.ht.nodes i with used := (key ++ 0 :: data).length + 1 }, st1.cend,
            Cache.poke st1.mem (st1.ht.nodes i).offset (255 :: (key ++ 0 :: data))⟩ : St) = st3 := by rw [← hst3, ← hst2]
        rw [h13, e4]
        dsimp only
        refine ⟨_, .stored, rfl, ?_⟩
        have c5 := c4.setX (i := i) (by simp) { st4.ht.nodes i with ttl := addTTL cfg es key ttl now, added := now } rfl rfl
        have c6 := Core.insert hc c5 (key := key) (data := data) h0
          (by dsimp only; rw [set_same, hn4, hnode3])
          (by dsimp only; rw [set_same, hn4, hnode3]; dsimp only; rw [hl1]; exact hru)
          (by dsimp only; rw [set_same, hn4, hnode3, hm4, hmem3]; rw [← hst2] at hb2; exact hb2)
        dsimp only at c6
        rw [set_same] at c6
        have hgeo5 : ∀ j, ((CacheHT.insert (st4.ht.set i { st4.ht.nodes i with ttl := addTTL cfg es key ttl now, added := now }) (slotOf cfg key) i).nodes j).offset = (st1.ht.nodes j).offset ∧
            ((CacheHT.insert (st4.ht.set i { st4.ht.nodes i with ttl := addTTL cfg es key ttl now, added := now }) (slotOf cfg key) i).nodes j).length = (st1.ht.nodes j).length := by
          intro j
          rw [← (hgeo3 j).1, ← (hgeo3 j).2, ← (hgeo4 j).1, ← (hgeo4 j).2]
          by_cases e : j = i
          · simp [CacheHT.insert, HT.setSlot, HT.set, e]
          · simp [CacheHT.insert, HT.setSlot, HT.set, e]
        have hq5 : ∀ j, j ≠ i → (∀ e ∈ es, e.idx ≠ j) →
            ((CacheHT.insert (st4.ht.set i { st4.ht.nodes i with ttl := addTTL cfg es key ttl now, added := now }) (slotOf cfg key) i).nodes j).ttl = (st.ht.nodes j).ttl := by
          intro j hj hje
          rw [← hq1 j, ← hnode31 j hj, ← hot4 j hje]
          simp [CacheHT.insert, HT.setSlot, HT.set, hj]
        refine .stored _ i ⟨X, F1, c6, fun j hj => ?_, ?_⟩ ht hnd ?_ ?_ hq5 ?_
        · have hn1 := List.nodup_append.1 c1.nodup
          rw [List.cons_append, List.nodup_cons] at hn1
          have hji : j ≠ i := fun e => hn1.2.1.1 (by simp [← e, hj])
          show ((CacheHT.insert _ _ _).nodes j).ttl = 0
          rw [hq5 j hji (fun e he h => (c.not_free he).1 (h ▸ hj))]
          exact hdead j hj
        · refine ⟨?_, ?_⟩
          · dsimp only
            rw [hce4, hcend3]
            refine Nat.le_trans (Nat.le_of_eq ?_) he1.1
            exact endOf_congr (h := st1.ht) (by show st4.ht.used = _; rw [hu4, hu3]) (fun j => (hgeo5 j).1) (fun j => (hgeo5 j).2)
          · dsimp only
            have hh : (CacheHT.insert (st4.ht.set i { st4.ht.nodes i with ttl := addTTL cfg es key ttl now, added := now }) (slotOf cfg key) i).used = st3.ht.used := hu4
            rw [hh, hce4, hcend3, hu3]; exact he1.2
        · intro k hk
          dsimp only at hk ⊢
          rw [hm4] at hk
          have := hinside k hk
          have hh : (CacheHT.insert (st4.ht.set i { st4.ht.nodes i with ttl := addTTL cfg es key ttl now, added := now }) (slotOf cfg key) i).used = st3.ht.used := hu4
          rw [hh]; exact this
        · dsimp only
          have hh : (CacheHT.insert (st4.ht.set i { st4.ht.nodes i with ttl := addTTL cfg es key ttl now, added := now }) (slotOf cfg key) i).used = st3.ht.used := hu4
          rw [hh, hce4, hcend3, hu3]; exact hg1
        · have hh : (CacheHT.insert (st4.ht.set i { st4.ht.nodes i with ttl := addTTL cfg es key ttl now, added := now }) (slotOf cfg key) i).used = st1.ht.used := by
            show st4.ht.used = _; rw [hu4, hu3]
          unfold Geo
          dsimp only
          rw [hh, hce4, hcend3, (hgeo5 _).1, (hgeo5 _).2]
          rcases hgeo1 with ⟨a1, a2, a3⟩ | ⟨a1, a2, a3, a4⟩
          · exact .inl ⟨a1, a2, fun j => ⟨(hgeo5 j).1.trans (a3 j).1, (hgeo5 j).2.trans (a3 j).2⟩⟩
          · exact .inr ⟨a1, a2, a3, fun j hj => ⟨(hgeo5 j).1.trans (a4 j hj).1, (hgeo5 j).2.trans (a4 j hj).2⟩⟩

/-! ### the sweep -/

def expiredE (now : Int) (e : Entry) : Bool := decide (e.ttl > 0 ∧ now - e.added ≥ e.ttl)

theorem chain_append (es es' : List Entry) (s : Nat) : chain cfg (es ++ es') s = chain cfg es s ++ chain cfg es' s := by
  simp [chain]

theorem chain_cons (e : Entry) (es : List Entry) (s : Nat) :
    chain cfg (e :: es) s = if slotOf cfg e.key = s then e.idx :: chain cfg es s else chain cfg es s := by
  unfold chain
  rw [List.filter_cons]
  split
  · rename_i h; rw [if_pos (by simpa using h)]; rfl
  · rename_i h; rw [if_neg (by simpa using h)]

theorem Core.expire (hc : CfgOk cfg) {E1 E2 : List Entry} {e : Entry} (c : Core cfg st (E1 ++ e :: E2) X F) {fuel : Nat}
    (hfuel : st.ht.used < fuel) :
    ∃ h' F', remove cfg.nslots (st.ht.set e.idx { st.ht.nodes e.idx with ttl := 0 }) e.idx fuel = some h' ∧
      Core cfg { st with ht := h', mem := Cache.poke st.mem (st.ht.nodes e.idx).offset [0xFD] } (E1 ++ E2) X F' ∧
      e.idx ≤ h'.used ∧ h'.used ≤ st.ht.used ∧ endOf cfg h' ≤ endOf cfg st.ht ∧
      (∀ j, (h'.nodes j).ttl = if j = e.idx then 0 else (st.ht.nodes j).ttl) ∧
      (∀ j, (h'.nodes j).offset = (st.ht.nodes j).offset ∧ (h'.nodes j).length = (st.ht.nodes j).length) := by
  have he : e ∈ E1 ++ e :: E2 := by simp
  have l := c.live e he
  have hnf := c.not_free he
  have hlt := c.idx_lt he
  generalize hh1 : st.ht.set e.idx { st.ht.nodes e.idx with ttl := 0 } = h1
  have hf1 : FreeOk h1 F := by rw [← hh1]; exact c.free.set_other hnf.2 _
  have proj : ∀ k, (h1.nodes k).slot = (st.ht.nodes k).slot ∧ (h1.nodes k).next = (st.ht.nodes k).next ∧
      (h1.nodes k).offset = (st.ht.nodes k).offset ∧ (h1.nodes k).length = (st.ht.nodes k).length := by
    intro k; rw [← hh1]
    by_cases x : k = e.idx
    · subst x; rw [set_same]; exact ⟨rfl, rfl, rfl, rfl⟩
    · rw [set_other _ _ x]; exact ⟨rfl, rfl, rfl, rfl⟩
  have hu1 : h1.used = st.ht.used := by rw [← hh1]; rfl
  have hs1 : h1.slots = st.ht.slots := by rw [← hh1]; rfl
  have ho1 : ∀ k, k ≠ e.idx → h1.nodes k = st.ht.nodes k := fun k hk => by rw [← hh1]; exact set_other _ _ hk
  have ht1 : (h1.nodes e.idx).ttl = 0 := by rw [← hh1, set_same]
  generalize hs : slotOf cfg e.key = s
  have hslt : s < cfg.nslots := by rw [← hs]; exact slotOf_lt hc _
  have hch : chain cfg (E1 ++ e :: E2) s = chain cfg E1 s ++ e.idx :: chain cfg E2 s := by
    rw [chain_append, chain_cons, if_pos hs]
  have hsub : ∀ j ∈ chain cfg E1 s ++ e.idx :: chain cfg E2 s, j < h1.used ∧ j ∉ flat F := by
    intro j hj
    rw [← hch] at hj
    exact ⟨by rw [hu1]; exact c.chain_lt hj, (c.chain_not_free hj).2⟩
  have hseg : Seg (fun j => (h1.nodes j).next) (h1.slots s) (chain cfg E1 s ++ e.idx :: chain cfg E2 s) (-1) := by
    rw [← hch, hs1]
    exact seg_congr (fun j _ => (proj j).2.1.symm) (c.slots s hslt)
  have hlen := c.chain_length s
  rw [hch] at hlen
  have hchn := c.chain_nodup s
  rw [hch] at hchn
  obtain ⟨h', F', e', hf', hcase, hseg', hslots', hnodes', hlive', hgeo'⟩ :=
    remove_ok (nslots := cfg.nslots) (fuel := fuel) hf1 (by rw [(proj _).1, l.slot, hs]) hslt hseg hchn
      (fun j hj => (hsub j hj).1) (fun j hj => (hsub j hj).2) (by simp at hlen; omega) (by have := c.F_length; omega)
  have hend : endOf cfg h' ≤ endOf cfg st.ht := by
    have hgo : ∀ k, (h'.nodes k).offset = (st.ht.nodes k).offset := fun k => (hgeo' k).1.trans (proj k).2.2.1
    have hgl : ∀ k, (h'.nodes k).length = (st.ht.nodes k).length := fun k => (hgeo' k).2.1.trans (proj k).2.2.2
    rcases hcase with ⟨_, hu, _⟩ | ⟨_, hu, _⟩
    · conv => lhs; unfold endOf
      rw [hu, hu1, hgo, hgl]
      split
      · exact Nat.le_trans (off_ge c (i := 0) (by omega)) (by have := off_end c (i := 0) (by omega); omega)
      · exact off_end c (by omega)
    · rw [endOf_congr (by rw [hu, hu1]) hgo hgl]; exact Nat.le_refl _
  refine ⟨h', F', e', ?_, ?_, ?_, hend, fun j => ?_, fun j => ⟨(hgeo' j).1.trans (proj j).2.2.1, (hgeo' j).2.1.trans (proj j).2.2.2⟩⟩
  · have hother : ∀ d ∈ E1 ++ E2, d.idx ≠ e.idx := by
      have hn := (List.nodup_append.1 c.nodup).1
      rw [List.map_append, List.map_cons] at hn
      have hn := List.nodup_append.1 hn
      have hn2 := (List.nodup_cons.1 hn.2.1).1
      intro d hd heq
      rcases List.mem_append.1 hd with h | h
      · exact hn.2.2 d.idx (List.mem_map_of_mem h) e.idx (by simp) heq
      · exact hn2 (by rw [← heq]; exact List.mem_map_of_mem h)
    have hmem : ∀ d ∈ E1 ++ E2, d ∈ E1 ++ e :: E2 := by intro d hd; simp at hd ⊢; grind
    have hperm : ((E1 ++ e :: E2).map Entry.idx).Perm (e.idx :: (E1 ++ E2).map Entry.idx) := by
      simp only [List.map_append, List.map_cons]; exact List.perm_middle
    have hnd := c.nodup
    have hnd' : (e.idx :: ((E1 ++ E2).map Entry.idx ++ (X ++ flat F))).Nodup := by
      have := (hperm.append_right (X ++ flat F)).nodup_iff.1 hnd
      rwa [List.cons_append] at this
    refine ⟨fun t h => ?_, hf', ?_, fun i => ?_, fun d hd => ?_, fun j hj => ?_, fun h => ?_, fun j h => ?_, ?_⟩
    · dsimp only
      by_cases x : t = s
      · subst x
        rw [chain_append]; exact hseg'
      · rw [hslots' t x]
        have : chain cfg (E1 ++ E2) t = chain cfg (E1 ++ e :: E2) t := by
          rw [chain_append, chain_append, chain_cons, if_neg (by rw [hs]; exact Ne.symm x)]
        rw [this, hs1]
        refine seg_congr (fun j hj => ?_) (c.slots t h)
        have hjs : j ∉ chain cfg E1 s := by
          intro hj'
          have h1 : j ∈ (E1.filter fun e => slotOf cfg e.key == s).map Entry.idx := hj'
          have h2 : j ∈ ((E1 ++ e :: E2).filter fun e => slotOf cfg e.key == t).map Entry.idx := hj
          simp only [List.mem_map, List.mem_filter, beq_iff_eq] at h1 h2
          obtain ⟨a, ⟨ha, hsa⟩, rfl⟩ := h1
          obtain ⟨b, ⟨hb, hsb⟩, hab⟩ := h2
          have := c.idx_inj hb (by simp [ha]) hab
          subst this
          exact x (hsb.symm.trans hsa)
        have hje : j ≠ e.idx := by
          rintro rfl
          have h2 : e.idx ∈ ((E1 ++ e :: E2).filter fun e => slotOf cfg e.key == t).map Entry.idx := hj
          simp only [List.mem_map, List.mem_filter, beq_iff_eq] at h2
          obtain ⟨b, ⟨hb, hsb⟩, hab⟩ := h2
          have := c.idx_inj hb he hab
          subst this
          exact x (hsb.symm.trans hs)
        rw [hnodes' j hjs (c.chain_not_free hj).2 hje, ho1 j hje]
    · rcases hcase with ⟨_, _, rfl⟩ | ⟨_, _, hp⟩
      · exact (List.nodup_cons.1 hnd').2
      · have : ((E1 ++ E2).map Entry.idx ++ (X ++ flat F')).Perm (e.idx :: ((E1 ++ E2).map Entry.idx ++ (X ++ flat F))) :=
          (((hp.append_left X).trans List.perm_middle).append_left _).trans List.perm_middle
        exact this.nodup_iff.2 hnd'
    · have hcov := c.cover i
      rw [(hperm.append_right (X ++ flat F)).mem_iff] at hcov
      simp only [List.cons_append, List.mem_cons] at hcov
      have hnot := (List.nodup_cons.1 hnd').1
      rcases hcase with ⟨hl, hu, rfl⟩ | ⟨_, hu, hp⟩
      · rw [hu, hu1]
        constructor
        · intro hi
          rcases hcov.1 (by omega) with rfl | h
          · omega
          · exact h
        · intro hi
          have h1 := hcov.2 (.inr hi)
          have h2 : i ≠ e.idx := fun x => hnot (x ▸ hi)
          omega
      · rw [hu, hu1, hcov]
        simp only [List.mem_append, hp.mem_iff, List.mem_cons]
        grind
    · have hd' := hmem d hd
      have ld := Live.poke c hd' (i := e.idx) (off := (st.ht.nodes e.idx).offset) (bs := [0xFD]) hlt (Ne.symm (hother d hd)) (Nat.le_refl _)
        (by have := l.fits; simp; omega)
      obtain ⟨v, hv⟩ := hlive' d.idx (c.not_free hd').2 (hother d hd)
      rw [ho1 _ (hother d hd)] at hv
      exact ⟨by dsimp only; rw [hv]; exact ld.slot, by dsimp only; rw [hv]; exact ld.ttl, by dsimp only; rw [hv]; exact ld.added,
        by dsimp only; rw [hv]; exact ld.used, by dsimp only; rw [hv]; exact ld.fits, by dsimp only; rw [hv]; exact ld.bytes, ld.key⟩
    · dsimp only
      rw [(hgeo' j).2.2]
      rcases hcase with ⟨_, _, rfl⟩ | ⟨_, _, hp⟩
      · have : j ≠ e.idx := fun x => hnf.2 (x ▸ hj)
        rw [ho1 j this]; exact c.freeTTL j hj
      · have := hp.mem_iff.1 hj
        rcases List.mem_cons.1 this with rfl | hj
        · exact ht1
        · have : j ≠ e.idx := fun x => hnf.2 (x ▸ hj)
          rw [ho1 j this]; exact c.freeTTL j hj
    · dsimp only
      rw [(hgeo' 0).1, (proj 0).2.2.1]
      exact c.first (by omega)
    · dsimp only at h ⊢
      rw [(hgeo' _).1, (hgeo' _).1, (hgeo' _).2.1, (proj _).2.2.1, (proj _).2.2.1, (proj _).2.2.2]
      exact c.cont j (by rcases hcase with ⟨_, h2, _⟩ | ⟨_, h2, _⟩ <;> omega)
    · dsimp only
      have hr := c.room
      rcases hcase with ⟨_, hu, _⟩ | ⟨_, hu, _⟩ <;> omega
  · rcases hcase with ⟨_, h2, _⟩ | ⟨_, h2, _⟩ <;> omega
  · rcases hcase with ⟨_, h2, _⟩ | ⟨_, h2, _⟩ <;> omega
  · rw [(hgeo' j).2.2]
    by_cases x : j = e.idx
    · rw [if_pos x, x]; exact ht1
    · rw [if_neg x, ho1 j x]

theorem sweepLoop_ok (hc : CfgOk cfg) (now : Int) (fuel : Nat) : ∀ (n : Nat) {st : St} {es : List Entry} {F : List Grp} (got : Bool),
    Core cfg st es X F → (∀ i ∈ X, (st.ht.nodes i).ttl = 0) → n ≤ st.ht.used → st.ht.used < fuel →
    ∃ st' got' F', sweepLoop cfg now fuel n st got = some (st', got') ∧
      Core cfg st' (es.filter fun e => !(decide (e.idx < n) && expiredE now e)) X F' ∧
      (got' = false → st' = st) ∧ st'.ht.used ≤ st.ht.used ∧ Inside cfg st st' ∧ endOf cfg st'.ht ≤ endOf cfg st.ht ∧
      (∀ j, (st'.ht.nodes j).ttl = (st.ht.nodes j).ttl ∨ (st'.ht.nodes j).ttl = 0) ∧
      (∀ j, (st'.ht.nodes j).offset = (st.ht.nodes j).offset ∧ (st'.ht.nodes j).length = (st.ht.nodes j).length) ∧
      st'.cend = st.cend := by
  intro n
  induction n with
  | zero =>
    intro st es F got c _ _ _
    refine ⟨st, got, F, rfl, ?_, fun _ => rfl, Nat.le_refl _, fun k hk => absurd rfl hk, Nat.le_refl _, fun _ => .inl rfl, fun _ => ⟨rfl, rfl⟩, rfl⟩
    rw [List.filter_eq_self.2 (by simp)]; exact c
  | succ n ih =>
    intro st es F got c hdead hn hf
    rw [sweepLoop, if_pos (by omega)]
    by_cases hx : (st.ht.nodes n).ttl > 0 ∧ now - (st.ht.nodes n).added ≥ (st.ht.nodes n).ttl
    · rw [if_pos hx]
      dsimp only
      have hmem := (c.cover n).1 (by omega)
      simp only [List.mem_append, List.mem_map] at hmem
      rcases hmem with ⟨e, he, rfl⟩ | h | h
      · have l := c.live e he
        obtain ⟨E1, E2, rfl⟩ := List.append_of_mem he
        obtain ⟨h', F', e1, c', hu1, hu2, he2, hq', hgeo'⟩ := c.expire hc hf
        have hoff : ((st.ht.set e.idx { st.ht.nodes e.idx with ttl := 0 }).nodes e.idx).offset = (st.ht.nodes e.idx).offset := by
          rw [set_same]
        dsimp only at hoff
        rw [hoff, e1]
        dsimp only
        obtain ⟨st2, got2, F2, e2, c2, hg2, hu3, hin, he3, hq3, hgeo3, hce3⟩ := ih true (c'.cend st.cend)
          (fun j hj => by dsimp only; rw [hq']; split; · rfl
                          exact hdead j hj) (by dsimp only; exact hu1) (by dsimp only; omega)
        have hex : expiredE now e = true := by
          unfold expiredE; rw [decide_eq_true_iff, ← l.ttl, ← l.added]; exact hx
        have hother : ∀ d ∈ E1 ++ E2, d.idx ≠ e.idx := by
          have hn := (List.nodup_append.1 c.nodup).1
          rw [List.map_append, List.map_cons] at hn
          have hn := List.nodup_append.1 hn
          have hn2 := (List.nodup_cons.1 hn.2.1).1
          intro d hd heq
          rcases List.mem_append.1 hd with h | h
          · exact hn.2.2 d.idx (List.mem_map_of_mem h) e.idx (by simp) heq
          · exact hn2 (by rw [← heq]; exact List.mem_map_of_mem h)
        have hfil : (E1 ++ e :: E2).filter (fun d => !(decide (d.idx < e.idx + 1) && expiredE now d)) =
            (E1 ++ E2).filter (fun d => !(decide (d.idx < e.idx) && expiredE now d)) := by
          rw [List.filter_append, List.filter_cons_of_neg (by simp [hex]), ← List.filter_append]
          apply List.filter_congr
          intro d hd
          have := hother d hd
          congr 2
          rw [Bool.eq_iff_iff, decide_eq_true_iff, decide_eq_true_iff]; omega
        refine ⟨st2, got2, F2, e2, by rw [hfil]; exact c2, ?_, by dsimp only at hu3; omega, ?_, Nat.le_trans he3 he2,
          fun j => ?_, fun j => ⟨(hgeo3 j).1.trans (hgeo' j).1, (hgeo3 j).2.trans (hgeo' j).2⟩, hce3⟩
        · intro hg
          subst hg
          -- the flag stays set
          exfalso
          have : ∀ (n : Nat) (s s' : St) (b : Bool), sweepLoop cfg now fuel n s true = some (s', b) → b = true := by
            intro n
            induction n with
            | zero => intro s s' b h; simp [sweepLoop] at h; exact h.2
            | succ n ih2 =>
              intro s s' b h
              rw [sweepLoop] at h
              split at h
              · split at h
                · dsimp only at h
                  split at h
                  · simp at h
                  · exact ih2 _ _ _ h
                · exact ih2 _ _ _ h
              · simp at h; exact h.2
          have := this _ _ _ _ e2
          simp at this
        · intro k hk
          by_cases hk2 : st2.mem k = Cache.poke st.mem (st.ht.nodes e.idx).offset [0xFD] k
          · rw [hk2] at hk
            have hk3 : (st.ht.nodes e.idx).offset ≤ k ∧ k < (st.ht.nodes e.idx).offset + 1 := by
              by_cases h : k < (st.ht.nodes e.idx).offset ∨ (st.ht.nodes e.idx).offset + [(0xFD : Byte)].length ≤ k
              · exact absurd (poke_other h) hk
              · simp only [List.length_singleton] at h; omega
            have h1 := off_ge c (c.idx_lt he)
            have h2 := off_end c (c.idx_lt he)
            have h3 := c.room
            have h4 := l.fits
            dsimp only at hu3
            omega
          · exact hin k hk2
        · rcases hq3 j with h | h
          · dsimp only at h
            rw [hq'] at h
            split at h
            · exact .inr h
            · exact .inl h
          · exact .inr h
      · have := hdead n h; omega
      · have := c.freeTTL n h; omega
    · rw [if_neg hx]
      obtain ⟨st2, got2, F2, e2, c2, hg2, hu3, hin, he3⟩ := ih got c hdead (by omega) hf
      refine ⟨st2, got2, F2, e2, ?_, hg2, hu3, hin, he3⟩
      have hfil : es.filter (fun d => !(decide (d.idx < n + 1) && expiredE now d)) =
          es.filter (fun d => !(decide (d.idx < n) && expiredE now d)) := by
        apply List.filter_congr
        intro d hd
        by_cases h : d.idx = n
        · have l := c.live d hd
          have : expiredE now d = false := by
            unfold expiredE; rw [decide_eq_false_iff_not, ← l.ttl, ← l.added, h]; exact hx
          simp [this]
        · congr 2
          rw [Bool.eq_iff_iff, decide_eq_true_iff, decide_eq_true_iff]; omega
      rw [hfil]; exact c2

theorem sweep_ok (hc : CfgOk cfg) (inv : Inv cfg st es) (now : Int) :
    ∃ st', sweep cfg st now = some st' ∧ Inv cfg st' (es.filter fun e => !expiredE now e) ∧ Inside cfg st st' ∧
      st'.ht.used ≤ st.ht.used ∧ st'.cend ≤ st.cend ∧
      (∀ j, (st'.ht.nodes j).ttl = (st.ht.nodes j).ttl ∨ (st'.ht.nodes j).ttl = 0) ∧
      (∀ j, (st'.ht.nodes j).offset = (st.ht.nodes j).offset ∧ (st'.ht.nodes j).length = (st.ht.nodes j).length) ∧
      (st' = st ∨ st'.cend = endOf cfg st'.ht) := by
  obtain ⟨X, F, c, hdead, hend⟩ := inv
  unfold sweep
  obtain ⟨st2, got2, F2, e2, c2, hg2, hu3, hin, he3, hq3, hgeo3, hce3⟩ :=
    sweepLoop_ok hc now st.fuel st.ht.used false c hdead (Nat.le_refl _) (by unfold St.fuel; omega)
  have hdead2 : ∀ i ∈ X, (st2.ht.nodes i).ttl = 0 := fun i hi => by
    rcases hq3 i with h | h
    · rw [h]; exact hdead i hi
    · exact h
  rw [e2]
  have hfil : es.filter (fun d => !(decide (d.idx < st.ht.used) && expiredE now d)) = es.filter (fun e => !expiredE now e) := by
    apply List.filter_congr
    intro d hd
    have := c.idx_lt hd
    simp [this]
  rw [hfil] at c2
  cases got2 with
  | false =>
    have := hg2 rfl
    subst this
    exact ⟨_, rfl, ⟨X, F2, c2, hdead2, hend⟩, hin, Nat.le_refl _, Nat.le_refl _, hq3, hgeo3, .inl rfl⟩
  | true =>
    have h1 : endOf cfg st2.ht ≤ st.cend := Nat.le_trans he3 hend.1
    refine ⟨_, rfl, ⟨X, F2, c2.cend _, hdead2, ⟨Nat.le_refl _, ?_⟩⟩, hin, hu3, h1, hq3, hgeo3, .inr rfl⟩
    show endOf cfg st2.ht + 32 * st2.ht.used + _ ≤ _
    have := hend.2
    omega

end Verif.Cache
