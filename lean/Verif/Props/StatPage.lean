import Verif.Lemmas.StatPage

namespace Verif.StatPage
open Statistic

/-! ### The template -/

/-- C122: the template is what is in the file, and its parts are those around the first marker. -/
def TemplateKept : Prop := ∀ (c marker pre post : List Byte), template c.length (some c) marker = .parts pre post → Parts c marker pre post

/-- It is false: what is behind a zero byte is lost. -/
theorem template_kept_false : ¬ TemplateKept := by
  intro h
  have := (h (str "<p>@</p>" ++ 0 :: str "<i></i>") (str "@") (str "<p>") (str "</p>") (by decide +kernel)).1
  exact absurd this (by decide +kernel)

/-- C122, the part that holds: a template without zero bytes, that does not change while it is read and has the marker, is
cut at the first marker and nothing of it is lost; without the marker there are no statistics. -/
theorem template_partial (c marker : List Byte) (hz : (0 : Byte) ∉ c) :
    (∀ pre post, template c.length (some c) marker = .parts pre post ↔ c ≠ [] ∧ Parts c marker pre post) ∧
    (template c.length (some c) marker = .unusable ↔ c = [] ∨ ∀ i, ¬ ReplaceStr.Occurs marker c i) := by
  have e : c.takeWhile (· ≠ 0) = c := by
    have : ∀ l : List Byte, (0 : Byte) ∉ l → l.takeWhile (· ≠ 0) = l := by
      intro l
      induction l with
      | nil => intro; rfl
      | cons x l ih =>
        intro h
        rw [List.takeWhile_cons_of_pos (by simpa using fun hx => h (by simp [hx])), ih (fun hm => h (by simp [hm]))]
    exact this c hz
  have hd : ¬ (c.length + 1 < c.length ∨ (c.length = c.length + 1 ∧ (0 : Byte) ∉ c)) := by omega
  by_cases hc : c = []
  · subst hc
    simp [template]
  · have hl : c.length ≠ 0 := by simpa using hc
    unfold template
    rw [if_neg hl]
    dsimp only
    rw [if_neg hd, e]
    cases hs : ReplaceStr.strstr marker c with
    | none =>
      have hn := ReplaceStr.strstr_none.1 hs
      refine ⟨fun pre post => ⟨fun h => by simp at h, fun h => ?_⟩, by simp [hn]⟩
      exact absurd ⟨pre, post, h.2.1, rfl⟩ (hn pre.length)
    | some k =>
      obtain ⟨h1, h2, h3⟩ := ReplaceStr.strstr_split hs
      refine ⟨fun pre post => ⟨fun h => ?_, fun h => ?_⟩, ?_⟩
      · dsimp only at h
        injection h with ha hb
        subst ha hb
        exact ⟨hc, h1, fun i hi => h3 i (by omega)⟩
      · have hk : pre.length = k := by
          rcases Nat.lt_trichotomy pre.length k with hlt | heq | hgt
          · exact absurd ⟨pre, post, h.2.1, rfl⟩ (h3 _ hlt)
          · exact heq
          · exact absurd ⟨c.take k, _, h1, h2⟩ (h.2.2 k hgt)
        have hcc := h.2.1
        dsimp only
        subst hk
        congr 1
        · rw [hcc]; simp
        · rw [hcc, ← List.append_assoc, ← List.length_append, List.drop_left]
      · simp only [reduceCtorEq, hc, false_or, false_iff]
        exact fun h => h k ⟨_, _, h1, h2⟩

example : template 8 (some (str "<p>@</p>")) (str "@") = .parts (str "<p>") (str "</p>") := by decide +kernel

/-- C122: a template that gets longer between being measured and being read is written behind the end of the buffer. -/
theorem template_grows (size : Nat) (c marker : List Byte) (hs : 0 < size) (hz : (0 : Byte) ∉ c) (h : size < c.length) :
    template size (some c) marker = .undefined := by
  unfold template
  rw [if_neg (by omega)]
  dsimp only
  rw [if_pos (by rcases Nat.lt_or_ge (size + 1) c.length with h | h <;> grind)]

/-! ### The file -/

/-- C122: at every moment the file is empty or a whole page. -/
def AlwaysWhole : Prop := ∀ (fnm : List Byte → List Byte → Bool) (hash : List Byte → UInt32) (pre post : List Byte) (t0 : Nat) (es : List Ev) (st : St)
    (now : Nat) (before during : List (List Byte × Kind)) (n : Nat) (f : List Byte), run fnm pre post t0 (St.init hash) es = some st →
    midway fnm pre post t0 st now before during n = some f → f = [] ∨ ∃ u, f = pre ++ (u ++ post) ∧ ∃ now' rows sum, Script u t0 now' rows sum

/-- It is false: while a page is written the file has its beginning only. -/
theorem always_whole_false : ¬ AlwaysWhole := by
  intro h
  have hm : midway (fun _ _ => false) (str "<p>") (str "</p>") 5 (St.init (fun _ => 0)) 7 [] [] 2 = some (str "<p") := by decide +kernel
  rcases h (fun _ _ => false) (fun _ => 0) (str "<p>") (str "</p>") 5 [] _ 7 [] [] 2 _ rfl hm with h | ⟨u, h, -⟩
  · exact absurd h (by decide +kernel)
  · have := congrArg List.length h
    rw [List.length_append, List.length_append] at this
    simp [str] at this
    omega

theorem gives_intro (t a key ds b : List Byte) (c : Byte) (x y n : Nat) (ht : t = a ++ (key ++ (List.replicate x 32 ++ c :: (List.replicate y 32 ++ (ds ++ b)))))
    (ha : a.getLast? = some 32 ∨ a.getLast? = some 44) (hd : IpText.DecNum ds n) (hb : b.head? = some 44 ∨ b.head? = some 59 ∨ b.head? = some 125) : Gives t key c n :=
  ⟨a, x, y, ds, b, ht, ha, hd, hb⟩

theorem getLast_append_str {a b : List Byte} {c : Byte} (h : b.getLast? = some c) : (a ++ b).getLast? = some c := by
  rw [List.getLast?_append, h]; rfl

/-- What the page says. -/
theorem page_script (pre post : List Byte) (t0 now : Nat) (rows : List (List Byte × Info)) (s : Info) :
    ∃ u, headText pre t0 now ++ rowsText rows ++ tailText post s = pre ++ (u ++ post) ∧ Script u t0 now rows s := by
  have d := IpText.dec_num
  have e1 : str "<script type=\"text/javascript\">   var StartUpTime = " = str "<script type=\"text/javascript\">" ++ (str "   var " ++ (str "StartUpTime" ++ [32, 61, 32])) := by
    decide +kernel
  have e2 : str ";   var LastStatistic = " = str ";   var " ++ (str "LastStatistic" ++ [32, 61, 32]) := by decide +kernel
  have e3 : str ";   var InfoArray = [" = str ";   " ++ str "var InfoArray = [" := by decide +kernel
  have f0 : str "];var Sum = { Total      :   " = str "];var Sum = {" ++ (str " " ++ (str "Total" ++ (List.replicate 6 32 ++ 58 :: List.replicate 3 32))) := by decide +kernel
  have f1 : str ",RaF        :   " = str "," ++ (str "RaF" ++ (List.replicate 8 32 ++ 58 :: List.replicate 3 32)) := by decide +kernel
  have f2 : str ",Hosts      :   " = str "," ++ (str "Hosts" ++ (List.replicate 6 32 ++ 58 :: List.replicate 3 32)) := by decide +kernel
  have f3 : str ",Cache      :   " = str "," ++ (str "Cache" ++ (List.replicate 6 32 ++ 58 :: List.replicate 3 32)) := by decide +kernel
  have f4 : str ",UDP        :   " = str "," ++ (str "UDP" ++ (List.replicate 8 32 ++ 58 :: List.replicate 3 32)) := by decide +kernel
  have f5 : str ",TCP        :   " = str "," ++ (str "TCP" ++ (List.replicate 8 32 ++ 58 :: List.replicate 3 32)) := by decide +kernel
  have f6 : str ",BlockedMsg :   " = str "," ++ (str "BlockedMsg" ++ (List.replicate 1 32 ++ 58 :: List.replicate 3 32)) := by decide +kernel
  have c1 : (str ",").getLast? = some 44 := by decide
  have c0 : (str " ").getLast? = some 32 := by decide
  have hc : ∀ x, (str "," ++ x).head? = some 44 := fun x => by simp [str]
  have hs1 : ∀ x, (str ";   " ++ x).head? = some 59 := fun x => by simp [str]
  have hs2 : ∀ x, (str ";   var " ++ x).head? = some 59 := fun x => by simp [str]
  obtain ⟨a, ha⟩ : ∃ a, a = str "   var " ++ (str "StartUpTime" ++ [32, 61, 32]) ++ IpText.dec t0 ++ (str ";   var " ++ (str "LastStatistic" ++ [32, 61, 32])) ++
    IpText.dec now ++ str ";   " := ⟨_, rfl⟩
  obtain ⟨b, hb⟩ : ∃ b, b = str " " ++ (str "Total" ++ (List.replicate 6 32 ++ 58 :: List.replicate 3 32)) ++ IpText.dec s.count ++
    (str "," ++ (str "RaF" ++ (List.replicate 8 32 ++ 58 :: List.replicate 3 32))) ++ IpText.dec s.refused ++
    (str "," ++ (str "Hosts" ++ (List.replicate 6 32 ++ 58 :: List.replicate 3 32))) ++ IpText.dec s.hosts ++
    (str "," ++ (str "Cache" ++ (List.replicate 6 32 ++ 58 :: List.replicate 3 32))) ++ IpText.dec s.cache ++
    (str "," ++ (str "UDP" ++ (List.replicate 8 32 ++ 58 :: List.replicate 3 32))) ++ IpText.dec s.udp ++
    (str "," ++ (str "TCP" ++ (List.replicate 8 32 ++ 58 :: List.replicate 3 32))) ++ IpText.dec s.tcp ++
    (str "," ++ (str "BlockedMsg" ++ (List.replicate 1 32 ++ 58 :: List.replicate 3 32))) ++ IpText.dec s.blocked := ⟨_, rfl⟩
  refine ⟨str "<script type=\"text/javascript\">" ++ a ++ str "var InfoArray = [" ++ (rows.map rowText).flatten ++ str "];var Sum = {" ++ b ++ str "};</script>",
    ?_, a, b, rows.map rowText, rfl, ?_, ?_, by simp, ?_, ?_, ?_, ?_, ?_, ?_, ?_, ?_⟩
  · unfold headText tailText rowsText
    rw [e1, e2, e3, f0, f1, f2, f3, f4, f5, f6, ha, hb]
    simp only [List.append_assoc, List.cons_append, List.nil_append]
  · exact gives_intro a (str "   var ") _ (IpText.dec t0) (str ";   var " ++ (str "LastStatistic" ++ [32, 61, 32] ++ (IpText.dec now ++ str ";   "))) 61 1 1 t0
      (by rw [ha]; simp only [List.append_assoc, List.cons_append, List.nil_append]; rfl) (.inl (by decide)) (d t0) (.inr (.inl (hs2 _)))
  · exact gives_intro a (str "   var " ++ (str "StartUpTime" ++ [32, 61, 32]) ++ IpText.dec t0 ++ str ";   var ") _ (IpText.dec now) (str ";   ") 61 1 1 now
      (by rw [ha]; simp only [List.append_assoc, List.cons_append, List.nil_append]; rfl) (.inl (getLast_append_str (by decide))) (d now) (.inr (.inl (by decide)))
  · intro k t r ht hr
    rw [List.getElem?_map, hr] at ht
    cases ht
    exact rowText_says r
  · exact gives_intro (b ++ [125]) (str " ") _ (IpText.dec s.count)
      (str "," ++ ((str "RaF" ++ (List.replicate 8 32 ++ 58 :: List.replicate 3 32)) ++ IpText.dec s.refused ++ (str "," ++ (str "Hosts" ++ (List.replicate 6 32 ++ 58 :: List.replicate 3 32))) ++ IpText.dec s.hosts ++ (str "," ++ (str "Cache" ++ (List.replicate 6 32 ++ 58 :: List.replicate 3 32))) ++ IpText.dec s.cache ++ (str "," ++ (str "UDP" ++ (List.replicate 8 32 ++ 58 :: List.replicate 3 32))) ++ IpText.dec s.udp ++ (str "," ++ (str "TCP" ++ (List.replicate 8 32 ++ 58 :: List.replicate 3 32))) ++ IpText.dec s.tcp ++ (str "," ++ (str "BlockedMsg" ++ (List.replicate 1 32 ++ 58 :: List.replicate 3 32))) ++ IpText.dec s.blocked ++ [125])) 58 6 3 s.count
      (by rw [hb]; simp only [List.append_assoc, List.cons_append]) (.inl c0) (d s.count) (.inl (hc _))
  · exact gives_intro (b ++ [125]) ((str " " ++ (str "Total" ++ (List.replicate 6 32 ++ 58 :: List.replicate 3 32))) ++ IpText.dec s.count ++ str ",") _ (IpText.dec s.refused)
      (str "," ++ ((str "Hosts" ++ (List.replicate 6 32 ++ 58 :: List.replicate 3 32)) ++ IpText.dec s.hosts ++ (str "," ++ (str "Cache" ++ (List.replicate 6 32 ++ 58 :: List.replicate 3 32))) ++ IpText.dec s.cache ++ (str "," ++ (str "UDP" ++ (List.replicate 8 32 ++ 58 :: List.replicate 3 32))) ++ IpText.dec s.udp ++ (str "," ++ (str "TCP" ++ (List.replicate 8 32 ++ 58 :: List.replicate 3 32))) ++ IpText.dec s.tcp ++ (str "," ++ (str "BlockedMsg" ++ (List.replicate 1 32 ++ 58 :: List.replicate 3 32))) ++ IpText.dec s.blocked ++ [125])) 58 8 3 s.refused
      (by rw [hb]; simp only [List.append_assoc, List.cons_append]) (.inr (getLast_append_str c1)) (d s.refused) (.inl (hc _))
  · exact gives_intro (b ++ [125]) ((str " " ++ (str "Total" ++ (List.replicate 6 32 ++ 58 :: List.replicate 3 32))) ++ IpText.dec s.count ++ (str "," ++ (str "RaF" ++ (List.replicate 8 32 ++ 58 :: List.replicate 3 32))) ++ IpText.dec s.refused ++ str ",") _ (IpText.dec s.hosts)
      (str "," ++ ((str "Cache" ++ (List.replicate 6 32 ++ 58 :: List.replicate 3 32)) ++ IpText.dec s.cache ++ (str "," ++ (str "UDP" ++ (List.replicate 8 32 ++ 58 :: List.replicate 3 32))) ++ IpText.dec s.udp ++ (str "," ++ (str "TCP" ++ (List.replicate 8 32 ++ 58 :: List.replicate 3 32))) ++ IpText.dec s.tcp ++ (str "," ++ (str "BlockedMsg" ++ (List.replicate 1 32 ++ 58 :: List.replicate 3 32))) ++ IpText.dec s.blocked ++ [125])) 58 6 3 s.hosts
      (by rw [hb]; simp only [List.append_assoc, List.cons_append]) (.inr (getLast_append_str c1)) (d s.hosts) (.inl (hc _))
  · exact gives_intro (b ++ [125]) ((str " " ++ (str "Total" ++ (List.replicate 6 32 ++ 58 :: List.replicate 3 32))) ++ IpText.dec s.count ++ (str "," ++ (str "RaF" ++ (List.replicate 8 32 ++ 58 :: List.replicate 3 32))) ++ IpText.dec s.refused ++ (str "," ++ (str "Hosts" ++ (List.replicate 6 32 ++ 58 :: List.replicate 3 32))) ++ IpText.dec s.hosts ++ str ",") _ (IpText.dec s.cache)
      (str "," ++ ((str "UDP" ++ (List.replicate 8 32 ++ 58 :: List.replicate 3 32)) ++ IpText.dec s.udp ++ (str "," ++ (str "TCP" ++ (List.replicate 8 32 ++ 58 :: List.replicate 3 32))) ++ IpText.dec s.tcp ++ (str "," ++ (str "BlockedMsg" ++ (List.replicate 1 32 ++ 58 :: List.replicate 3 32))) ++ IpText.dec s.blocked ++ [125])) 58 6 3 s.cache
      (by rw [hb]; simp only [List.append_assoc, List.cons_append]) (.inr (getLast_append_str c1)) (d s.cache) (.inl (hc _))
  · exact gives_intro (b ++ [125]) ((str " " ++ (str "Total" ++ (List.replicate 6 32 ++ 58 :: List.replicate 3 32))) ++ IpText.dec s.count ++ (str "," ++ (str "RaF" ++ (List.replicate 8 32 ++ 58 :: List.replicate 3 32))) ++ IpText.dec s.refused ++ (str "," ++ (str "Hosts" ++ (List.replicate 6 32 ++ 58 :: List.replicate 3 32))) ++ IpText.dec s.hosts ++ (str "," ++ (str "Cache" ++ (List.replicate 6 32 ++ 58 :: List.replicate 3 32))) ++ IpText.dec s.cache ++ str ",") _ (IpText.dec s.udp)
      (str "," ++ ((str "TCP" ++ (List.replicate 8 32 ++ 58 :: List.replicate 3 32)) ++ IpText.dec s.tcp ++ (str "," ++ (str "BlockedMsg" ++ (List.replicate 1 32 ++ 58 :: List.replicate 3 32))) ++ IpText.dec s.blocked ++ [125])) 58 8 3 s.udp
      (by rw [hb]; simp only [List.append_assoc, List.cons_append]) (.inr (getLast_append_str c1)) (d s.udp) (.inl (hc _))
  · exact gives_intro (b ++ [125]) ((str " " ++ (str "Total" ++ (List.replicate 6 32 ++ 58 :: List.replicate 3 32))) ++ IpText.dec s.count ++ (str "," ++ (str "RaF" ++ (List.replicate 8 32 ++ 58 :: List.replicate 3 32))) ++ IpText.dec s.refused ++ (str "," ++ (str "Hosts" ++ (List.replicate 6 32 ++ 58 :: List.replicate 3 32))) ++ IpText.dec s.hosts ++ (str "," ++ (str "Cache" ++ (List.replicate 6 32 ++ 58 :: List.replicate 3 32))) ++ IpText.dec s.cache ++ (str "," ++ (str "UDP" ++ (List.replicate 8 32 ++ 58 :: List.replicate 3 32))) ++ IpText.dec s.udp ++ str ",") _ (IpText.dec s.tcp)
      (str "," ++ ((str "BlockedMsg" ++ (List.replicate 1 32 ++ 58 :: List.replicate 3 32)) ++ IpText.dec s.blocked ++ [125])) 58 8 3 s.tcp
      (by rw [hb]; simp only [List.append_assoc, List.cons_append]) (.inr (getLast_append_str c1)) (d s.tcp) (.inl (hc _))
  · exact gives_intro (b ++ [125]) ((str " " ++ (str "Total" ++ (List.replicate 6 32 ++ 58 :: List.replicate 3 32))) ++ IpText.dec s.count ++ (str "," ++ (str "RaF" ++ (List.replicate 8 32 ++ 58 :: List.replicate 3 32))) ++ IpText.dec s.refused ++ (str "," ++ (str "Hosts" ++ (List.replicate 6 32 ++ 58 :: List.replicate 3 32))) ++ IpText.dec s.hosts ++ (str "," ++ (str "Cache" ++ (List.replicate 6 32 ++ 58 :: List.replicate 3 32))) ++ IpText.dec s.cache ++ (str "," ++ (str "UDP" ++ (List.replicate 8 32 ++ 58 :: List.replicate 3 32))) ++ IpText.dec s.udp ++ (str "," ++ (str "TCP" ++ (List.replicate 8 32 ++ 58 :: List.replicate 3 32))) ++ IpText.dec s.tcp ++ str ",") _ (IpText.dec s.blocked)
      ([125]) 58 1 3 s.blocked
      (by rw [hb]; simp only [List.append_assoc, List.cons_append]) (.inr (getLast_append_str c1)) (d s.blocked) (.inr (.inr rfl))

/-- C122: the file is always the page made last, whatever the names, as long as the clock is not set back and no number
overflows: the pages only get longer, so that nothing of the page before is left behind the end. -/
theorem page_whole_any (fnm : List Byte → List Byte → Bool) (hash : List Byte → UInt32) (pre post : List Byte) (t0 : Nat) (es es2 : List Ev) (now : Nat)
    (before during : List (List Byte × Kind)) (st st' : St) (ht : (times (es ++ [.page now before during])).Pairwise (· ≤ ·)) (h2 : times es2 = [])
    (h : run fnm pre post t0 (St.init hash) (es ++ [.page now before during]) = some st) (h' : run fnm pre post t0 st es2 = some st') :
    ∃ u sum, st'.file = pre ++ (u ++ post) ∧ Script u t0 now st.table.rows sum ∧ st.table.sum = some sum := by
  have htm : ∀ xs ys : List Ev, times (xs ++ ys) = times xs ++ times ys := by
    intro xs ys
    induction xs with
    | nil => rfl
    | cons x xs ih => cases x <;> simp [times, ih]
  rw [htm] at ht
  have ht' := List.pairwise_append.1 ht
  rw [run_append] at h
  obtain ⟨m, hm, h⟩ := Option.bind_eq_some_iff.1 h
  have hr := ready_run es (ready_init pre post t0 0 hash) (List.pairwise_cons.2 ⟨fun _ _ => Nat.zero_le _, ht'.1⟩) hm
  have hl : (0 :: times es).getLast (by simp) ≤ now := by
    have hmem := List.getLast_mem (l := 0 :: times es) (by simp)
    rcases List.mem_cons.1 hmem with e | hmem
    · omega
    · exact ht'.2.2 _ hmem now (by simp [times])
  rw [run] at h
  split at h
  · cases h
  · rename_i m2 hm2
    cases h
    have hp := (ready_page hr hl hm2).2
    have hrd := (ready_page hr hl hm2).1
    have hf : st'.file = st.file := by
      have key : ∀ (xs : List Ev) (a b : St), Ready pre post t0 now a → times xs = [] → run fnm pre post t0 a xs = some b → b.file = a.file := by
        intro xs
        induction xs with
        | nil => intro a b _ _ h; cases h; rfl
        | cons x xs ih =>
          intro a b ha hx h
          rw [run] at h
          split at h
          · cases h
          · rename_i c hc
            cases x with
            | page => simp [times] at hx
            | query d t =>
              have q := ready_query ha hc
              rw [ih c b q.1 hx h, q.2]
      exact key es2 st st' hrd h2 h'
    obtain ⟨s, hs, e⟩ := Option.map_eq_some_iff.1 hp
    obtain ⟨u, hu1, hu2⟩ := page_script pre post t0 now st.table.rows s
    exact ⟨u, s, by rw [hf, ← e, hu1], hu2, hs⟩

theorem adds_inv (fnm : List Byte → List Byte → Bool) (qs : List (List Byte × Kind)) {C : List (List Byte × Kind)} {st : State} (h : Inv C st) (hs : st.skip = false)
    (hp : ∀ e ∈ qs, Plain e.1) (hl : (C ++ qs).length < 2147483648) : ∃ st', adds fnm st qs = some st' ∧ Inv (C ++ qs) st' ∧ st'.skip = false := by
  induction qs generalizing C st with
  | nil => exact ⟨st, rfl, by simpa using h, hs⟩
  | cons q qs ih =>
    simp at hl
    have h1 := inv_add fnm h hs (hp q (by simp)) q.2
    obtain ⟨m, hm⟩ := h1.2 (by omega)
    obtain ⟨h2, h3⟩ := h1.1 m hm
    obtain ⟨st', h4, h5, h6⟩ := ih h2 h3 (fun e he => hp e (by simp [he])) (by simp; omega)
    refine ⟨st', by rw [adds, hm]; exact h4, by simpa using h5, h6⟩

theorem adds_skip (fnm : List Byte → List Byte → Bool) (qs : List (List Byte × Kind)) {st : State} (hs : st.skip = true) : adds fnm st qs = some st := by
  induction qs with
  | nil => rfl
  | cons q qs ih =>
    have : add fnm st q.1 q.2 = some st := by unfold add; rw [if_pos hs]
    rw [adds, this]
    exact ih

theorem run_inv (fnm : List Byte → List Byte → Bool) (pre post : List Byte) (t0 : Nat) (es : List Ev) {C : List (List Byte × Kind)} {st : St} (h : Inv C st.table)
    (hs : st.table.skip = false) (hp : ∀ e ∈ tallied es, Plain e.1) (hl : (C ++ tallied es).length < 2147483648) :
    ∃ st', run fnm pre post t0 st es = some st' ∧ Inv (C ++ tallied es) st'.table ∧ st'.table.skip = false := by
  induction es generalizing C st with
  | nil => exact ⟨st, rfl, by simpa [tallied] using h, hs⟩
  | cons e es ih =>
    cases e with
    | query d t =>
      simp [tallied] at hl hp
      have h1 := inv_add fnm h hs hp.1 t
      obtain ⟨m, hm⟩ := h1.2 (by omega)
      obtain ⟨h2, h3⟩ := h1.1 m hm
      obtain ⟨st', h4, h5, h6⟩ := ih (st := { st with table := m }) h2 h3 (by simpa using hp.2) (by simp; omega)
      refine ⟨st', ?_, by simpa [tallied] using h5, h6⟩
      rw [run, step, hm]
      exact h4
    | page now before during =>
      simp [tallied] at hl
      obtain ⟨a, ha, hai, -⟩ := adds_inv fnm before h hs (fun e he => hp e (by simp [tallied, he])) (by simp; omega)
      have hb := adds_skip fnm during (st := { a with skip := true }) rfl
      have hsum := sum_eq (inv_skip hai true) (by simp; omega)
      have hpt : pageText pre post t0 now { a with skip := true } = some (headText pre t0 now ++ rowsText (State.rows { a with skip := true }) ++
          tailText post (tally (C ++ before))) := by
        unfold pageText; rw [hsum]; rfl
      obtain ⟨st', h4, h5, h6⟩ := ih (st := ⟨{ a with skip := false }, over (headText pre t0 now ++ rowsText (State.rows { a with skip := true }) ++
          tailText post (tally (C ++ before))) st.file⟩) (inv_skip hai false) rfl (fun e he => hp e (by simp [tallied, he])) (by simp; omega)
      refine ⟨st', ?_, by simpa [tallied] using h5, h6⟩
      rw [run, step, ha]
      dsimp only
      rw [hb]
      dsimp only
      rw [hpt]
      exact h4

theorem tallied_append (xs ys : List Ev) : tallied (xs ++ ys) = tallied xs ++ tallied ys := by
  induction xs with
  | nil => rfl
  | cons x xs ih => cases x <;> simp [tallied, ih]

/-- C122, proved part: between the writings the file is the template with, in place of the marker, the script for the
queries counted up to the writing made last, if the clock is not set back, the names are without `*`, `?` and `[`, and
there are less than 2^31 queries. -/
theorem page_whole_partial (fnm : List Byte → List Byte → Bool) (hash : List Byte → UInt32) (pre post : List Byte) (t0 : Nat) (es es2 : List Ev) (now : Nat)
    (before during : List (List Byte × Kind)) (ht : (times (es ++ [.page now before during])).Pairwise (· ≤ ·)) (h2 : times es2 = [])
    (hp : ∀ e ∈ tallied es ++ (before ++ tallied es2), Plain e.1) (hl : (tallied es ++ (before ++ tallied es2)).length < 2147483648) :
    ∃ st, run fnm pre post t0 (St.init hash) (es ++ .page now before during :: es2) = some st ∧ IsPage st.file pre post t0 now (tallied es ++ before) := by
  have e0 : tallied (es ++ [.page now before during]) = tallied es ++ before := by rw [tallied_append]; simp [tallied]
  simp only [List.length_append] at hl
  obtain ⟨m, hm, hmi, hms⟩ := run_inv fnm pre post t0 (es ++ [.page now before during]) (C := []) (st := St.init hash) (inv_init hash) rfl
    (by rw [e0]; intro e he; exact hp e (by grind)) (by rw [e0]; simp; omega)
  rw [e0, List.nil_append] at hmi
  obtain ⟨st, hst, -, -⟩ := run_inv fnm pre post t0 es2 hmi hms (fun e he => hp e (by grind)) (by simp; omega)
  obtain ⟨u, s, h3, h4, h5⟩ := page_whole_any fnm hash pre post t0 es es2 now before during m st ht h2 hm hst
  refine ⟨st, ?_, u, h3, ?_⟩
  · rw [← List.singleton_append, ← List.append_assoc, run_append, hm]
    exact hst
  · rw [rows_eq hmi] at h4
    have := sum_eq hmi (by simp; omega)
    rw [h5] at this
    cases this
    exact h4

example : (run (fun _ _ => false) (str "<p>") (str "</p>") 5 (St.init bkdrHash) [.query (str "a.com") .udp, .page 7 [(str "b.com", .cache)] [(str "c.com", .tcp)],
      .query (str "a.com") .blocked, .page 9 [] [], .query (str "b.com") .udp]).map (·.file) =
    some (str "<p><script type=\"text/javascript\">   var StartUpTime = 5;   var LastStatistic = 9;   var InfoArray = [" ++
      str "{Domain:\"a.com\",Total:1,RaF:0,Hosts:0,Cache:0,UDP:1,TCP:0,BlockedMsg:1},{Domain:\"b.com\",Total:1,RaF:0,Hosts:0,Cache:1,UDP:0,TCP:0,BlockedMsg:0}," ++
      str "];var Sum = { Total      :   2,RaF        :   0,Hosts      :   0,Cache      :   1,UDP        :   1,TCP        :   0,BlockedMsg :   1};</script></p>") := by
  decide +kernel

/-- C122: the file is the page made last, also when the clock is set back. -/
def AnyClock : Prop := ∀ (fnm : List Byte → List Byte → Bool) (hash : List Byte → UInt32) (pre post : List Byte) (t0 : Nat) (es : List Ev) (now : Nat)
    (st : St), run fnm pre post t0 (St.init hash) (es ++ [.page now [] []]) = some st →
    ∃ u, st.file = pre ++ (u ++ post) ∧ ∃ now' rows sum, Script u t0 now' rows sum

/-- It is false: a clock set back from 10 to 9 makes a page that is one character shorter, and the last character of the
page before stays in the file (as the real clock does when set back from the year 2001 or later to before). -/
theorem clock_false : ¬ AnyClock := by
  intro h
  have hm : (run (fun _ _ => false) [] [] 5 (St.init (fun _ => 0)) ([.page 10 [] []] ++ [.page 9 [] []])).map (fun st => st.file.reverse.take 2) = some [62, 62] := by
    decide +kernel
  obtain ⟨st, hs, hr⟩ := Option.map_eq_some_iff.1 hm
  obtain ⟨u, hu, -, -, -, a, b, ts, hS, -⟩ := h _ _ _ _ _ _ _ _ hs
  rw [hu, hS] at hr
  simp [str] at hr

end Verif.StatPage
