import Verif.Lemmas.IpText
/-! C26, C27, C51: addresses and their text. -/

namespace Verif.IpText

/-! ### IPv4 -/

theorem v4_scan {s : List Byte} {a b c d : Nat} (h : V4Text s a b c d) (rest : List Byte)
    (ha : a < 2147483648) (hb : b < 2147483648) (hc : c < 2147483648) (hd : d < 2147483648)
    (hr : ∀ x ∈ rest.head?, ¬ (48 ≤ x ∧ x ≤ 57)) :
    v4ToNum (s ++ rest) = .ret 4 (some [UInt8.ofNat a, UInt8.ofNat b, UInt8.ofNat c, UInt8.ofNat d]) := by
  cases h with
  | @mk s t u v _ _ _ _ h1 h2 h3 h4 =>
    have hdot : ∀ r : List Byte, ∀ x ∈ (46 :: r).head?, decVal x = none := by
      intro r x hx; simp at hx; subst hx; decide
    have hrest : ∀ x ∈ rest.head?, decVal x = none := by
      intro x hx; unfold decVal; rw [if_neg (hr x hx)]
    have e : s ++ 46 :: (t ++ 46 :: (u ++ 46 :: v)) ++ rest = s ++ 46 :: (t ++ 46 :: (u ++ 46 :: (v ++ rest))) := by
      simp
    have tb : ∀ n : Nat, toByte (n : Int) = UInt8.ofNat n := by
      intro n; unfold toByte; rw [← UInt8.toNat_inj]; simp
      omega
    have h := fun r => scanDec_num h1 ha (hdot r)
    have h' := fun r => scanDec_num h2 hb (hdot r)
    have h'' := fun r => scanDec_num h3 hc (hdot r)
    have h''' := scanDec_num h4 hd hrest
    have hl : scanList scanDec 46 4 (s ++ 46 :: (t ++ 46 :: (u ++ 46 :: (v ++ rest))))
        = some [(a : Int), b, c, d] := by
      simp only [scanList, h, h', h'', h''']
      cases rest <;> simp
    rw [e]
    unfold v4ToNum
    rw [hl]
    simp [tb]

/-- C26: every dotted-decimal text with numbers up to 255 (any number of leading zeros, followed by the
end or any character other than a digit) is read as that address. -/
theorem v4_parse {s : List Byte} {a b c d : Nat} (h : V4Text s a b c d) (rest : List Byte)
    (ha : a ≤ 255) (hb : b ≤ 255) (hc : c ≤ 255) (hd : d ≤ 255)
    (hr : ∀ x ∈ rest.head?, ¬ (48 ≤ x ∧ x ≤ 57)) :
    ∃ w x y z : Byte, v4ToNum (s ++ rest) = .ret 4 (some [w, x, y, z]) ∧
      w.toNat = a ∧ x.toNat = b ∧ y.toNat = c ∧ z.toNat = d :=
  ⟨UInt8.ofNat a, UInt8.ofNat b, UInt8.ofNat c, UInt8.ofNat d,
    v4_scan h rest (by omega) (by omega) (by omega) (by omega) hr,
    by simp; omega, by simp; omega, by simp; omega, by simp; omega⟩

/-- C26: the printed text of an address is its dotted decimal form. -/
theorem v4_print (a b c d : Byte) : V4Text (v4ToAsc a b c d) a.toNat b.toNat c.toNat d.toNat :=
  .mk (dec_num _) (dec_num _) (dec_num _) (dec_num _)

/-- C26: printing and reading gives the same address. -/
theorem v4_roundtrip (a b c d : Byte) : v4ToNum (v4ToAsc a b c d) = .ret 4 (some [a, b, c, d]) := by
  have ha := UInt8.toNat_lt a
  have hb := UInt8.toNat_lt b
  have hc := UInt8.toNat_lt c
  have hd := UInt8.toNat_lt d
  have := v4_scan (v4_print a b c d) [] (by omega) (by omega) (by omega) (by omega) (by simp)
  simpa using this

example : v4ToAsc 192 168 0 255 = str "192.168.0.255" := by decide +kernel
example : v4ToNum (str "010.0.0.1:53") = .ret 4 (some [10, 0, 0, 1]) := by decide +kernel

/-- The printed text is also recognised as an IPv4 address. -/
theorem v4_family (a b c d : Byte) : family (v4ToAsc a b c d) = some .inet := by
  have key : ∀ n : Nat, (91 : Byte) ∉ dec n := by
    intro n h
    have hn := dec_num n
    generalize dec n = s at h hn
    induction hn with
    | one hd => simp at h; subst h; have := hd.2; simp at this; have := hd.1; omega
    | more _ hd ih =>
      simp only [List.mem_append, List.mem_singleton] at h
      rcases h with h | h
      · exact ih h
      · subst h; have := hd.2; simp at this; have := hd.1; omega
  unfold family
  rw [if_neg (by simp [v4ToAsc, key]), v4_roundtrip]
  simp

/-- Full claim: a text that is not an IPv4 address is not accepted. -/
def V4Rejects : Prop := ∀ (s : List Byte) (buf : Option (List Byte)), v4ToNum s = .ret 4 buf →
  ∃ a b c d, V4Text s a b c d ∧ a ≤ 255 ∧ b ≤ 255 ∧ c ≤ 255 ∧ d ≤ 255

/-- The code violates it: numbers above 255 are accepted and cut to eight bits. -/
theorem v4_rejects_false : ¬ V4Rejects := by
  intro h
  obtain ⟨a, b, c, d, ht, h1, -⟩ := h (str "256.0.0.1") (some [0, 0, 0, 1]) (by decide +kernel)
  generalize hx : str "256.0.0.1" = x at ht
  cases ht with
  | @mk s t u v _ _ _ _ g1 g2 g3 g4 =>
    have hdot : ∀ r : List Byte, ∀ x ∈ (46 :: r).head?, decVal x = none := by
      intro r x hx; simp at hx; subst hx; decide
    have k1 := scanDec_num (rest := 46 :: (t ++ 46 :: (u ++ 46 :: v))) g1 (by omega) (hdot _)
    rw [← hx, show scanDec (str "256.0.0.1") = .ok 256 (str ".0.0.1") by decide +kernel] at k1
    simp at k1
    omega

theorem decVal_digit {c : Byte} {d : Nat} (h : decVal c = some d) : DecDigit c d := by
  unfold decVal at h
  split at h
  · rename_i hc
    have h1 := UInt8.le_iff_toNat_le.1 hc.1
    have h2 := UInt8.le_iff_toNat_le.1 hc.2
    simp at h h1 h2
    exact ⟨by omega, by omega⟩
  · simp at h

theorem decNum_foldl (t : List Byte) (ds : List Nat) (s : List Byte) (n : Nat) (hs : DecNum s n)
    (h : t.map decVal = ds.map some) : DecNum (s ++ t) (ds.foldl (fun a d => a * 10 + d) n) := by
  induction t generalizing ds s n with
  | nil => cases ds with | nil => simpa using hs | cons => simp at h
  | cons c t ih =>
    cases ds with
    | nil => simp at h
    | cons d ds =>
      simp only [List.map_cons, List.cons.injEq] at h
      have := ih ds (s ++ [c]) (10 * n + d) (.more hs (decVal_digit h.1)) h.2
      simpa [Nat.mul_comm] using this

theorem decNum_of_digits (s : List Byte) (ds : List Nat) (h : s.map decVal = ds.map some) (hne : ds ≠ []) :
    DecNum s (digitsVal 10 ds) := by
  cases ds with
  | nil => exact absurd rfl hne
  | cons d ds =>
    cases s with
    | nil => simp at h
    | cons c s =>
      simp only [List.map_cons, List.cons.injEq] at h
      have := decNum_foldl s ds [c] d (.one (decVal_digit h.1)) h.2
      simpa [digitsVal] using this

theorem spanDigits_spec (f : Byte → Option Nat) (s : List Byte) :
    ∃ t, s = t ++ (spanDigits f s).2 ∧ t.map f = (spanDigits f s).1.map some := by
  induction s with
  | nil => exact ⟨[], rfl, rfl⟩
  | cons c r ih =>
    cases hc : f c with
    | none => exact ⟨[], by simp [spanDigits, hc], by simp [spanDigits, hc]⟩
    | some d =>
      obtain ⟨t, h1, h2⟩ := ih
      refine ⟨c :: t, ?_, ?_⟩
      · simp only [spanDigits, hc, List.cons_append]; rw [← h1]
      · simp only [spanDigits, hc, List.map_cons]; rw [h2]

theorem scanDec_spec {s rest : List Byte} {v : Int} (h : scanDec s = .ok v rest) :
    ∃ t, s = t ++ rest ∧ SignedNum t v := by
  have hsp : s = s.takeWhile isSpace ++ skipSpace s := by simp [skipSpace]
  have hspc : ∀ c ∈ s.takeWhile isSpace, c = 32 ∨ (9 ≤ c ∧ c ≤ 13) := by
    intro c hc
    have : isSpace c = true := by
      have := List.all_takeWhile (p := isSpace) (l := s)
      exact List.all_eq_true.1 this c hc
    simpa [isSpace] using this
  obtain ⟨sg, hsg, hsv⟩ : ∃ sg, skipSpace s = sg ++ (sign (skipSpace s)).2 ∧
      ((sg = [] ∧ (sign (skipSpace s)).1 = false) ∨ (sg = [43] ∧ (sign (skipSpace s)).1 = false) ∨
        (sg = [45] ∧ (sign (skipSpace s)).1 = true)) := by
    cases skipSpace s with
    | nil => exact ⟨[], rfl, .inl ⟨rfl, rfl⟩⟩
    | cons c r =>
      by_cases h1 : c = 45
      · subst h1; exact ⟨[45], rfl, .inr (.inr ⟨rfl, rfl⟩)⟩
      · by_cases h2 : c = 43
        · subst h2; exact ⟨[43], rfl, .inr (.inl ⟨rfl, rfl⟩)⟩
        · refine ⟨[], ?_, .inl ⟨rfl, ?_⟩⟩ <;> simp [sign, h1, h2]
  obtain ⟨ds, hds, hdv⟩ := spanDigits_spec decVal (sign (skipSpace s)).2
  unfold scanDec at h
  dsimp only at h
  split at h
  · simp at h
  · rename_i hne
    by_cases hrange : -2147483648 ≤ (if (sign (skipSpace s)).1 = true then
          -(digitsVal 10 (spanDigits decVal (sign (skipSpace s)).2).1 : Int)
        else (digitsVal 10 (spanDigits decVal (sign (skipSpace s)).2).1 : Int)) ∧
        (if (sign (skipSpace s)).1 = true then
          -(digitsVal 10 (spanDigits decVal (sign (skipSpace s)).2).1 : Int)
        else (digitsVal 10 (spanDigits decVal (sign (skipSpace s)).2).1 : Int)) ≤ 2147483647
    · rw [if_pos hrange] at h
      simp only [Scan.ok.injEq] at h
      obtain ⟨hv, hr⟩ := h
      rw [hr] at hds
      refine ⟨s.takeWhile isSpace ++ sg ++ ds, ?_, s.takeWhile isSpace, sg, ds, _, rfl, hspc,
        decNum_of_digits ds _ hdv hne, ?_⟩
      · conv => lhs; rw [hsp, hsg, hds]
        simp
      · rcases hsv with ⟨e, e'⟩ | ⟨e, e'⟩ | ⟨e, e'⟩ <;> simp [e, e'] at hv ⊢ <;> exact hv.symm
    · rw [if_neg hrange] at h
      simp at h

/-- What remains of the rejection claim: a text that is accepted starts with four decimal numbers
(each with optional blanks and sign) separated by single dots, and the bytes are these numbers modulo
256. -/
theorem v4_rejects_partial (s : List Byte) (buf : Option (List Byte)) (h : v4ToNum s = .ret 4 buf) :
    ∃ t1 t2 t3 t4 rest, ∃ a b c d : Int, s = t1 ++ 46 :: (t2 ++ 46 :: (t3 ++ 46 :: (t4 ++ rest))) ∧
      SignedNum t1 a ∧ SignedNum t2 b ∧ SignedNum t3 c ∧ SignedNum t4 d ∧
      buf = some [UInt8.ofNat (a % 256).toNat, UInt8.ofNat (b % 256).toNat, UInt8.ofNat (c % 256).toNat,
        UInt8.ofNat (d % 256).toNat] := by
  have one : ∀ (n : Nat) (s : List Byte) (vs : List Int), scanList scanDec 46 (n + 1) s = some vs →
      vs.length = n + 1 → n ≠ 0 → ∃ t r v vs', s = t ++ 46 :: r ∧ SignedNum t v ∧ vs = v :: vs' ∧
        scanList scanDec 46 n r = some vs' := by
    intro n s vs h hl hn
    rw [scanList] at h
    split at h
    · simp at h; subst h; simp at hl
    · simp at h
    · rename_i v rest hs
      obtain ⟨t, ht, hnum⟩ := scanDec_spec hs
      split at h
      · simp at h; subst h; simp at hl; omega
      · rename_i c r
        rw [if_neg hn] at h
        split at h
        · rename_i hc
          simp only [Option.map_eq_some_iff] at h
          obtain ⟨vs', h1, h2⟩ := h
          exact ⟨t, r, v, vs', by rw [ht, hc], hnum, h2.symm, h1⟩
        · simp at h; subst h; simp at hl; omega
  unfold v4ToNum at h
  cases hsc : scanList scanDec 46 4 s with
  | none => rw [hsc] at h; simp at h
  | some vs =>
    rw [hsc] at h
    dsimp only at h
    have hl : vs.length = 4 := by
      by_cases hl : vs.length = 4
      · exact hl
      · rw [if_neg hl] at h
        simp only [Out.ret.injEq] at h
        split at h
        · simp at h
        · have := h.1; omega
    rw [if_pos hl] at h
    simp only [Out.ret.injEq, true_and] at h
    obtain ⟨t1, r1, a, vs1, e1, n1, rfl, h1⟩ := one 3 s vs hsc hl (by omega)
    obtain ⟨t2, r2, b, vs2, e2, n2, rfl, h2⟩ := one 2 r1 vs1 h1 (by simpa using hl) (by omega)
    obtain ⟨t3, r3, c, vs3, e3, n3, rfl, h3⟩ := one 1 r2 vs2 h2 (by simpa using hl) (by omega)
    rw [scanList] at h3
    split at h3
    · simp at h3; subst h3; simp at hl
    · simp at h3
    · rename_i d rest hs
      obtain ⟨t4, e4, n4⟩ := scanDec_spec hs
      have : vs3 = [d] := by
        split at h3 <;> simp at h3 <;> exact h3.symm
      subst this
      subst e4 e3 e2 e1
      exact ⟨t1, t2, t3, t4, rest, a, b, c, d, rfl, n1, n2, n3, n4, h.symm⟩

example : v4ToNum (str " -1.+2.3.300x") = .ret 4 (some [255, 2, 3, 44]) := by decide +kernel

/-! ### IPv6 -/

/-- C27: every text of RFC 4291 forms 1 and 2, in either case, with or without leading zeros and with
white space in front, is read as the address it denotes, except that `::` alone returns 0. -/
theorem v6_parse {s : List Byte} {vs : List Nat} (h : V6Text s vs) (sp : List Byte)
    (hsp : ∀ c ∈ sp, c = 32 ∨ c = 9) :
    ∃ a, v6ToNum (sp ++ s) = .ret (if s = [58, 58] then 0 else 16) (some a) ∧ V6Bytes a vs := by
  cases h with
  | @full ts vs h h8 =>
    have hne : ts ≠ [] := by
      intro e; have := h.length; rw [e, h8] at this; simp at this
    obtain ⟨c, r, hj, hc, -⟩ := join_head h hne
    have hskip : skipSpace (sp ++ join ts) = join ts := skipSpace_blank sp _ hsp (by
      rw [hj]; intro d hd; simp at hd; subst hd; exact (hexVal_chars _ hc).1)
    have hnd : join ts ≠ [58, 58] := by
      intro e; have := hasDouble_join h; rw [e] at this; simp [hasDouble] at this
    refine ⟨ungroups vs, ?_, ?_, h8, ?_⟩
    · unfold v6ToNum
      simp only [hskip, hasDouble_join h, if_true, scanList_groups h 8 hne (by omega), if_neg hnd]
      rw [if_pos (by simpa using h8)]
      congr 2
      rw [List.map_map]
      congr 1
      conv => rhs; rw [← List.map_id vs]
      apply List.map_congr_left
      intro v hv
      exact nat_mod (h.lt v hv)
    · have := (ungroups_bytes vs h.lt).1; omega
    · have := (ungroups_bytes vs h.lt).2; rwa [h8] at this
  | @short ts us vs ws k h h' hk h8 =>
    have hlt : ∀ v ∈ vs ++ List.replicate k 0 ++ ws, v < 65536 := by
      intro v hv
      simp only [List.mem_append, List.mem_replicate] at hv
      rcases hv with (hv | ⟨-, rfl⟩) | hv
      · exact h.lt v hv
      · omega
      · exact h'.lt v hv
    have hlen : (vs ++ List.replicate k 0 ++ ws).length = 8 := by simp; omega
    have hB : V6Bytes (ungroups (vs ++ List.replicate k 0 ++ ws)) (vs ++ List.replicate k 0 ++ ws) := by
      obtain ⟨b1, b2⟩ := ungroups_bytes _ hlt
      rw [hlen] at b1 b2
      exact ⟨by omega, hlen, b2⟩
    refine ⟨ungroups (vs ++ List.replicate k 0 ++ ws), ?_, hB⟩
    have hskip : skipSpace (sp ++ (join ts ++ 58 :: 58 :: join us)) = join ts ++ 58 :: 58 :: join us := by
      apply skipSpace_blank sp _ hsp
      cases ts with
      | nil => intro d hd; simp [join] at hd; subst hd; decide
      | cons t ts =>
        obtain ⟨c, r, hj, hc, -⟩ := join_head h (by simp)
        rw [hj]; intro d hd; simp at hd; subst hd; exact (hexVal_chars _ hc).1
    unfold v6ToNum
    simp only [hskip, hasDouble_colons, Bool.true_eq_false, if_false]
    by_cases hboth : ts = [] ∧ us = []
    · obtain ⟨rfl, rfl⟩ := hboth
      cases h; cases h'
      have : k = 8 := by simpa using h8
      subst this
      simp [join, ungroups, List.replicate]
    · have hnd : join ts ++ 58 :: 58 :: join us ≠ [58, 58] := by
        intro e
        apply hboth
        cases ts with
        | nil =>
          refine ⟨rfl, ?_⟩
          cases us with
          | nil => rfl
          | cons u us =>
            obtain ⟨c, r, hj, -⟩ := join_head h' (by simp)
            rw [hj] at e; simp [join] at e
        | cons t ts =>
          obtain ⟨c, r, hj, hc, -⟩ := join_head h (by simp)
          rw [hj] at e
          simp only [List.cons_append, List.cons.injEq] at e
          rw [e.1] at hc
          exact absurd (by decide : hexVal 58 = none) hc
      have hthird : (join ts ++ 58 :: 58 :: join us)[2]?.all isSpace = false := by
        cases ts with
        | nil =>
          cases us with
          | nil => exact absurd ⟨rfl, rfl⟩ hboth
          | cons u us =>
            obtain ⟨c, r, hj, hc, -⟩ := join_head h' (by simp)
            rw [hj]
            exact (hexVal_chars _ hc).1
        | cons t ts =>
          obtain ⟨c, r, hj, hc, -⟩ := join_head h (by simp)
          have hall : ∀ d ∈ join (t :: ts), isSpace d = false := by
            have : ∀ {us : List (List Byte)} {ws : List Nat}, Groups us ws → ∀ d ∈ join us, isSpace d = false := by
              intro us ws hg
              induction hg with
              | nil => simp [join]
              | @cons t v ts vs g gs ih =>
                cases ts with
                | nil => intro d hd; exact (hexVal_chars _ ((group_chars g.1).2 d hd)).1
                | cons t' ts' =>
                  intro d hd
                  simp only [join, List.mem_append, List.mem_cons] at hd
                  rcases hd with hd | rfl | hd
                  · exact (hexVal_chars _ ((group_chars g.1).2 d hd)).1
                  · decide
                  · exact ih d hd
            exact this h
          have hmem : ∀ d, (join (t :: ts) ++ 58 :: 58 :: join us)[2]? = some d → isSpace d = false := by
            intro d hd
            rcases Nat.lt_or_ge 2 (join (t :: ts)).length with hl | hl
            · rw [List.getElem?_append_left hl] at hd
              exact hall d (List.mem_of_getElem? hd)
            · rw [List.getElem?_append_right hl] at hd
              have hj1 : 1 ≤ (join (t :: ts)).length := by rw [hj]; simp
              have : 2 - (join (t :: ts)).length = 0 ∨ 2 - (join (t :: ts)).length = 1 := by omega
              rcases this with e | e <;> rw [e] at hd <;> simp at hd <;> subst hd <;> decide
          cases hx : (join (t :: ts) ++ 58 :: 58 :: join us)[2]? with
          | none =>
            rw [List.getElem?_eq_none_iff, hj] at hx
            simp at hx
            omega
          | some d => exact hmem d hx
      rw [hthird]
      have hfront := front_groups h [] (join us) (by simp; omega)
      simp only [hfront, Bool.false_eq_true, if_false, if_neg hnd]
      rw [List.nil_append]
      have hrev : (join ts ++ 58 :: 58 :: join us).reverse = (join us).reverse ++ 58 :: 58 :: (join ts).reverse := by
        simp
      rw [hrev]
      have h8' : 8 - vs.length = k + ws.length := by omega
      rw [h8']
      cases us with
      | nil =>
        cases h'
        simp only [join, List.reverse_nil, List.nil_append, back, if_true, List.length_nil, Nat.add_zero,
          List.append_nil]
      | cons u us =>
        obtain ⟨m, hm⟩ : ∃ m, ws.length = m + 1 := by
          have := h'.length
          cases ws with
          | nil => simp at this
          | cons w ws => exact ⟨ws.length, rfl⟩
        have := back_groups m h' hm (vs ++ List.replicate k 0) (List.replicate ws.length 0) [] [] (join ts).reverse
          (by simp) (by simp; omega) (by simp)
        simp only [List.append_nil, List.length_nil] at this
        rw [← this]
        congr 1
        rw [List.append_assoc, List.replicate_append_replicate]

/-- C51: the text printed is the canonical one of RFC 5952. -/
theorem v6_print_canonical (a : List Byte) (h : a.length = 16) :
    ∃ vs, V6Bytes a vs ∧ Canonical (v6ToAsc a) vs := by
  refine ⟨groups a, ?_, v6ToAsc_canonical a h⟩
  obtain ⟨b1, b2⟩ := ungroups_bytes _ (groups_lt a)
  rw [groups_length a 8 (by omega), ungroups_groups a 8 (by omega)] at b1 b2
  exact ⟨h, groups_length a 8 (by omega), b2⟩

theorem canonical_text {s : List Byte} {vs : List Nat} (h : Canonical s vs) (h8 : vs.length = 8) : V6Text s vs := by
  cases h with
  | full h _ => exact .full h.groups h8
  | short h h' hk _ _ => exact .short h.groups h'.groups (by omega) (by simp at h8; omega)

/-- C27: printing an IPv6 address and reading the text back gives the same address, whatever zero
groups it has. -/
theorem v6_roundtrip (a : List Byte) (h : a.length = 16) :
    ∃ n, v6ToNum (v6ToAsc a) = .ret n (some a) := by
  obtain ⟨vs, hB, hc⟩ := v6_print_canonical a h
  obtain ⟨b, hb, hB'⟩ := v6_parse (canonical_text hc hB.2.1) [] (by simp)
  have e1 := v6Bytes_eq a vs (by rw [hB.1, hB.2.1]) (by rw [hB.2.1]; exact hB.2.2)
  have e2 := v6Bytes_eq b vs (by rw [hB'.1, hB'.2.1]) (by rw [hB'.2.1]; exact hB'.2.2)
  rw [← e1] at e2
  subst e2
  exact ⟨_, hb⟩

example : v6ToAsc [0x20, 1, 0, 0, 0, 0, 0xd, 0xb8, 0, 0, 0, 0, 0, 0, 0, 0xec] = str "2001:0:0:db8::ec" := by
  decide +kernel
example : v6ToNum (str "2001:DB8::00ec") = .ret 16 (some [0x20, 1, 0xd, 0xb8, 0, 0, 0, 0, 0, 0, 0, 0, 0, 0, 0, 0xec]) := by
  decide +kernel
example : V6Text (str "1::2") [1, 0, 0, 0, 0, 0, 0, 2] :=
  .short (ts := [str "1"]) (us := [str "2"]) (k := 6) (vs := [1]) (ws := [2])
    (.cons ⟨.one (by decide), by decide⟩ .nil) (.cons ⟨.one (by decide), by decide⟩ .nil) (by omega) rfl

/-- Full claim: reading a text of RFC 4291 reports success (the return value 16, which the callers
test). -/
def V6Accepts : Prop := ∀ (s : List Byte) (vs : List Nat), V6Text s vs → ∃ a, v6ToNum s = .ret 16 a

/-- The code violates it: the unspecified address `::` is reported as a failure. -/
theorem v6_accepts_false : ¬ V6Accepts := by
  intro h
  obtain ⟨a, ha⟩ := h _ _ (V6Text.short (k := 8) Groups.nil Groups.nil (by omega) rfl)
  have : v6ToNum (join [] ++ 58 :: 58 :: join []) = .ret 0 (some (List.replicate 16 0)) := by decide +kernel
  rw [this] at ha
  simp at ha

theorem v6_accepts_partial {s : List Byte} {vs : List Nat} (h : V6Text s vs) (hs : s ≠ [58, 58]) :
    ∃ a, v6ToNum s = .ret 16 (some a) ∧ V6Bytes a vs := by
  obtain ⟨a, ha, hB⟩ := v6_parse h [] (by simp)
  rw [if_neg hs] at ha
  exact ⟨a, ha, hB⟩

/-- RFC 4291 form 3: six groups and an IPv4 address; `t` is the text of the six groups with the colon
behind them. -/
def V6Mixed : Prop := ∀ (us : List (List Byte)) (ws : List Nat) (k : Nat) (v4 : List Byte) (a b c d : Nat),
  Groups us ws → us ≠ [] → ws.length + k = 6 → 1 ≤ k → V4Text v4 a b c d → a ≤ 255 → b ≤ 255 → c ≤ 255 → d ≤ 255 →
  ∃ x, v6ToNum (58 :: 58 :: (join us ++ 58 :: v4)) = .ret 16 (some x) ∧
    V6Bytes x (List.replicate k 0 ++ ws ++ [a * 256 + b, c * 256 + d])

/-- The code violates it: `::ffff:1.2.3.4` is accepted but read as `::ffff:1`. -/
theorem v6_mixed_false : ¬ V6Mixed := by
  intro h
  have g : Group (str "ffff") 65535 :=
    ⟨.more (.more (.more (.one (d := 15) (by decide)) (d := 15) (by decide)) (d := 15) (by decide)) (d := 15) (by decide),
      by decide⟩
  obtain ⟨x, hx, -, -, hB⟩ := h [str "ffff"] [65535] 5 (str "1.2.3.4") 1 2 3 4 (.cons g .nil) (by simp) rfl (by omega)
    (V4Text.mk (s := str "1") (t := str "2") (u := str "3") (v := str "4") (.one (by decide)) (.one (by decide)) (.one (by decide)) (.one (by decide)))
    (by omega) (by omega) (by omega) (by omega)
  have : v6ToNum (58 :: 58 :: (join [str "ffff"] ++ 58 :: str "1.2.3.4"))
      = .ret 16 (some [0, 0, 0, 0, 0, 0, 0, 0, 0, 0, 0, 0, 255, 255, 0, 1]) := by decide +kernel
  rw [this] at hx
  simp only [Out.ret.injEq, Option.some.injEq, true_and] at hx
  subst hx
  have := hB 7 (by omega)
  simp at this

end Verif.IpText
