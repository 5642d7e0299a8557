import Verif.Props.Lifecycle
import Verif.Lemmas.LifecycleFair

/-! C111, the end: in an unending life of the program every group that is replaced is freed. -/

namespace Verif.Lifecycle
open Spec

/-- C111: when no thread waits for ever and there is no accident, every group that has been replaced is, from some time on, freed: its threads have ended, its
addresses, its table and its lock are gone, its socket is closed.  Whatever else happens meanwhile: queries, further reloads at any rate, sockets that fail. -/
theorem replaced_eventually_freed_partial (σ : Nat → Ev) (s : Nat → St) (hf : Fair σ s) (n i : Nat) (m : Mod) (hm : (s n).mods[i]? = some m)
    (hu : ¬ Used (s n) m) :
    ∃ N, n ≤ N ∧ ∀ n', N ≤ n' → ∃ m', (s n').mods[i]? = some m' ∧ m'.map = m.map ∧ m'.blk = false ∧ m'.wk = .gone ∧ m'.sw = .gone
      ∧ m'.addrs = false ∧ m'.ctx = false ∧ (m'.kind = .udp → m'.lock = false) ∧ m'.isOpen = false := by
  have hi := fair_inv hf n
  have hp : Past m.map (s n).mods.length (s n) :=
    ⟨hi, hi.mapb i m hm, fun h => hu (.inl h), fun h => hu (.inr h), fun j _ hj _ => (List.getElem?_eq_some_iff.mp hj).1⟩
  have hclosed : ∀ q, ∀ x ∈ (s q).mods, Closed x := by
    intro q
    induction q with
    | zero => rw [hf.first]; simp [start]
    | succ q ih => exact step_closed ih (hf.next q)
  have hfreed : ∃ N m', n ≤ N ∧ (s N).mods[i]? = some m' ∧ m'.map = m.map ∧ m'.blk = false := by
    rcases hi.old i m hm hu with hb | ⟨c, hc, hcm⟩
    · exact ⟨n, m, Nat.le_refl _, hm, rfl, hb⟩
    · obtain ⟨N, hN, hF⟩ := fair_freed hf hp (Nat.le_refl _) hc hcm
      obtain ⟨m', h1, h2⟩ := ahead_later hf hp N hN i m hm
      exact ⟨N, m', hN, h1, h2.map, hF i m' h1 h2.map⟩
  obtain ⟨N, m', hN, h1, h2, h3⟩ := hfreed
  refine ⟨N, hN, fun n' hn' => ?_⟩
  obtain ⟨x, hx, ha⟩ := ahead_later hf (past_later hf hp N hN) n' hn' i m' h1
  have hb := ha.blk h3
  obtain ⟨a, b, c, d, e, _⟩ := freed_all ((fair_inv hf n').good i x hx) hb
  exact ⟨x, hx, ha.map.trans h2, hb, a, b, c, d, e, hclosed n' x (List.mem_of_getElem? hx) (.inr (.inr a))⟩

/-! ### There is such a life -/

/-- A UDP group is loaded and replaced by another; then all threads run in turn. -/
def turns (n : Nat) : Ev :=
  match n with
  | 0 => .loadBegin | 1 => .loadStart .udp | 2 => .loadSwap | 3 => .loadBegin | 4 => .loadStart .udp | 5 => .loadSwap
  | n + 6 => match n % 5 with | 0 => .work 0 .fine | 1 => .sweep 0 | 2 => .clean 0 | 3 => .work 1 .fine | _ => .sweep 1

def turnsSt : Nat → St
  | 0 => start
  | n + 1 => (step (turnsSt n) (turns n)).getD start

theorem turns_background (n : Nat) : Background (turns (n + 6)) := by
  have h : n % 5 < 5 := Nat.mod_lt _ (by decide)
  unfold turns
  dsimp only
  generalize n % 5 = q at h
  match q, h with
  | 0, _ => trivial
  | 1, _ => trivial
  | 2, _ => trivial
  | 3, _ => trivial
  | 4, _ => trivial

theorem turns_calm (n : Nat) : ¬ Accident (turnsSt n) (turns n) := by
  match n with
  | 0 => exact fun h => absurd ((accidentB_iff _ _).mpr h) (by decide)
  | 1 => exact fun h => absurd ((accidentB_iff _ _).mpr h) (by decide)
  | 2 => exact fun h => absurd ((accidentB_iff _ _).mpr h) (by decide)
  | 3 => exact fun h => absurd ((accidentB_iff _ _).mpr h) (by decide)
  | 4 => exact fun h => absurd ((accidentB_iff _ _).mpr h) (by decide)
  | 5 => exact fun h => absurd ((accidentB_iff _ _).mpr h) (by decide)
  | n + 6 => exact background_calm (turns_background n)

theorem turns_inv (n : Nat) : Inv (turnsSt n) ∧ step (turnsSt n) (turns n) = some (turnsSt (n + 1)) := by
  have h : Inv (turnsSt n) := by
    induction n with
    | zero => exact inv_start
    | succ n ih =>
      obtain ⟨b, h1, h2⟩ := step_inv ih (turns_calm n)
      simp only [turnsSt, h1, Option.getD_some]
      exact h2
  refine ⟨h, ?_⟩
  obtain ⟨b, h1, _⟩ := step_inv h (turns_calm n)
  simp only [turnsSt, h1, Option.getD_some]

/-- The background starts no group and no cleaner. -/
theorem background_few {a b : St} {e : Ev} (he : Background e) (hs : step a e = some b) : b.mods.length = a.mods.length ∧ b.cleaners.length ≤ a.cleaners.length := by
  cases e with
  | work i l =>
    simp only [step] at hs
    split at hs
    · cases hs; exact ⟨rfl, Nat.le_refl _⟩
    · obtain ⟨m', h1, rfl⟩ := Option.map_eq_some_iff.mp hs
      exact ⟨by simp, Nat.le_refl _⟩
  | sweep i =>
    simp only [step] at hs
    split at hs
    · cases hs; exact ⟨rfl, Nat.le_refl _⟩
    · obtain ⟨m', h1, rfl⟩ := Option.map_eq_some_iff.mp hs
      exact ⟨by simp, Nat.le_refl _⟩
  | clean k =>
    simp only [step] at hs
    split at hs
    · cases hs; exact ⟨rfl, Nat.le_refl _⟩
    · unfold cleanStep at hs
      dsimp only at hs
      split at hs
      · split at hs
        · cases hs
        · cases hs; exact ⟨by simp, by simp⟩
      · split at hs
        · cases hs; exact ⟨rfl, by simp⟩
        · split at hs
          · cases hs
          · rename_i ms hms
            cases hs
            refine ⟨(keeps_free hms).2, ?_⟩
            show (a.cleaners.eraseIdx k).length ≤ _
            rw [List.length_eraseIdx]
            split <;> omega
  | enter i => exact absurd he id
  | send i => exact absurd he id
  | loadBegin => exact absurd he id
  | loadStart k => exact absurd he id
  | loadFail => exact absurd he id
  | loadSwap => exact absurd he id

theorem turns_few (n : Nat) : (turnsSt (n + 6)).mods.length = 2 ∧ (turnsSt (n + 6)).cleaners.length ≤ 1 := by
  induction n with
  | zero => decide
  | succ n ih =>
    obtain ⟨a, b⟩ := background_few (turns_background n) (turns_inv (n + 6)).2
    exact ⟨a.trans ih.1, Nat.le_trans b ih.2⟩

theorem turns_at (q r : Nat) (_ : r < 5) : turns (5 * q + r + 6) = turns (r + 6) := by
  unfold turns
  dsimp only
  rw [show (5 * q + r) % 5 = r % 5 by omega]

theorem turns_fair : Fair turns turnsSt := by
  have hlen : ∀ n, (turnsSt n).mods.length ≤ 2 := by
    intro n
    match n with
    | 0 => decide
    | 1 => decide
    | 2 => decide
    | 3 => decide
    | 4 => decide
    | 5 => decide
    | n + 6 => rw [(turns_few n).1]; exact Nat.le_refl _
  refine ⟨rfl, fun n => (turns_inv n).2, turns_calm, ?_, ?_, ?_⟩
  · intro n i hi
    have := hlen n
    match i, (show i < 2 by omega) with
    | 0, _ => exact ⟨5 * n + 0 + 6, by omega, .fine, turns_at n 0 (by decide)⟩
    | 1, _ => exact ⟨5 * n + 3 + 6, by omega, .fine, turns_at n 3 (by decide)⟩
  · intro n i hi
    have := hlen n
    match i, (show i < 2 by omega) with
    | 0, _ => exact ⟨5 * n + 1 + 6, by omega, turns_at n 1 (by decide)⟩
    | 1, _ => exact ⟨5 * n + 4 + 6, by omega, turns_at n 4 (by decide)⟩
  · intro n c hc
    apply Classical.byContradiction
    intro hno
    have hstay : ∀ n', n ≤ n' → c ∈ (turnsSt n').cleaners := by
      intro n' hn
      induction hn with
      | refl => exact hc
      | @step q hq ih =>
        exact cleaner_stays ih (fun k hk hg => hno ⟨q, hq, k, c, hk, hg, rfl⟩) (turns_inv q).2
    have h1 := hstay (5 * n + 2 + 6) (by omega)
    have h2 := (turns_few (5 * n + 2)).2
    refine hno ⟨5 * n + 2 + 6, by omega, 0, c, turns_at n 2 (by decide), ?_, rfl⟩
    obtain ⟨q, hql, hqe⟩ := List.getElem_of_mem h1
    have hq0 : q = 0 := by omega
    subst hq0
    rw [List.getElem?_eq_getElem hql, hqe]

example : ∃ m, (turnsSt 6).mods[0]? = some m ∧ ¬ Used (turnsSt 6) m ∧ m.blk = true :=
  ⟨_, rfl, by unfold Used; decide, rfl⟩

end Verif.Lifecycle
